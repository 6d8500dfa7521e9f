import Verif.Props.WhitenPhase

/-! Recordings that meet the conditions of the C80 theorems about whitening, PCA, FastICA, FastIVA and FasterIVA. -/

namespace Verif
namespace EigPhase
open Matrix Scale Spatial
open scoped ComplexOrder

section data

variable {𝕜 : Type} [RCLike 𝕜] {t : ℕ}

theorem eighSpec_diag : EighSpec (diagonal ![1, 4] : Mat 2 𝕜) ![1, 4] 1 := by
  refine ⟨by simp, ?_, ?_⟩
  · ext i j
    have h4 : ((4 : ℝ) : 𝕜) = 4 := by norm_cast
    fin_cases i <;> fin_cases j <;> simp [mul_apply, diagonal, ← h4]
  · intro i j hij
    fin_cases i <;> fin_cases j <;> simp_all

theorem distinctPowers_diag {X : Transform.Data 2 t 𝕜} (h : Transform.covariance X = diagonal ![1, 4]) :
    DistinctPowers X := by
  refine ⟨![1, 4], 1, h ▸ eighSpec_diag, ?_⟩
  intro i j hij
  fin_cases i <;> fin_cases j <;> first | rfl | norm_num at hij

theorem whiten_diag (np : Numpy 𝕜) {X : Transform.Data 2 t 𝕜} (h : Transform.covariance X = diagonal ![1, 4])
    (Z : Transform.Data 2 t 𝕜) (hZ : ∀ i s, X i s = (![1, 2] : Fin 2 → 𝕜) i * Z i s) :
    ∃ u : Fin 2 → 𝕜, (∀ i, ‖u i‖ = 1) ∧ ∀ i s, Transform.whitenCore np X i s = u i * Z i s := by
  have s0 : EighSpec (Transform.covariance X) ![1, 4] 1 := h ▸ eighSpec_diag
  have s' := np.eigh_spec _ (covariance_hermitian X)
  have hl := eigh_values s0 s'
  have hinj : Function.Injective (![1, 4] : Fin 2 → ℝ) := by
    intro i j hij
    fin_cases i <;> fin_cases j <;> first | rfl | norm_num at hij
  choose u h1 h2 using fun i => eigh_simple s0 s' i fun j hj => hinj.ne hj
  refine ⟨fun i => star (u i), fun i => by rw [norm_star, h1], fun i s => ?_⟩
  have h4 : Real.sqrt 4 = 2 := by rw [show (4 : ℝ) = 2 ^ 2 by norm_num]; exact Real.sqrt_sq (by norm_num)
  simp only [Transform.whitenCore, npDiag_eq, Matrix.mul_assoc, diagonal_mul, hl, mul_apply, conjTranspose_apply, h2,
    Fin.sum_univ_two, hZ]
  fin_cases i
  · simp
  · have h5 : (algebraMap ℝ 𝕜) 2 = 2 := map_ofNat _ 2
    simp [h4]
    field_simp
    rw [h5]
    ring

end data

/-- Two channels and two frames, of powers 1 and 4, uncorrelated. -/
def pmX {𝕜 : Type} [RCLike 𝕜] : Transform.Data 2 2 𝕜 := !![1, 1; 2, -2]

def pmZ {𝕜 : Type} [RCLike 𝕜] : Transform.Data 2 2 𝕜 := !![1, 1; 1, -1]

theorem pmX_cov {𝕜 : Type} [RCLike 𝕜] : Transform.covariance (pmX : Transform.Data 2 2 𝕜) = diagonal ![1, 4] := by
  ext i j
  simp only [Transform.covariance, pmX, of_apply, Fin.sum_univ_two]
  fin_cases i <;> fin_cases j <;> simp <;> norm_num

theorem pmX_white {𝕜 : Type} [RCLike 𝕜] (i : Fin 2) (s : Fin 2) :
    (pmX : Transform.Data 2 2 𝕜) i s = (![1, 2] : Fin 2 → 𝕜) i * pmZ i s := by
  fin_cases i <;> fin_cases s <;> simp [pmX, pmZ]

/-- The conditions of `C80_whiten_distinct`, `C80_pca_distinct` and, for real signals, `C80_fastica` on the recording. -/
example : DistinctPowers (pmX : Transform.Data 2 2 ℂ) := distinctPowers_diag pmX_cov

/-- Positive definite covariance, the condition of `C80_whiten`. -/
example : (Transform.sampleCov (pmX : Transform.Data 2 2 ℂ)).PosDef := by
  have : Transform.sampleCov (pmX : Transform.Data 2 2 ℂ) = diagonal ![1, 4] := by
    rw [← pmX_cov]
    ext i j
    simp [Transform.sampleCov, Transform.covariance, mul_apply, div_eq_inv_mul]
  rw [this, posDef_diagonal_iff]
  intro i
  fin_cases i <;> simp

/-- One iteration of FastICA with the cubic score succeeds, whatever eigenvectors LAPACK returns. -/
example (np np' : Numpy ℝ) : ∃ (W' : Mat 2 ℝ) (ε : Fin 2 → ℝ),
    iterM (Fast.icaStep (fun y s => y s ^ 3) (fun y s => 3 * y s ^ 2) (Transform.whitenCore np' (pmX : Transform.Data 2 2 ℝ)))
      1 1 = .ok W' ∧ (∀ k, ε k * ε k = 1) ∧
    ∀ k s, (W' * Transform.whitenCore np' pmX) k s = ε k * ((1 : Mat 2 ℝ) * Transform.whitenCore np pmX) k s := by
  suffices h : iterM (Fast.icaStep (fun y s => y s ^ 3) (fun y s => 3 * y s ^ 2)
      (Transform.whitenCore np (pmX : Transform.Data 2 2 ℝ))) 1 1 = .ok 1 by
    obtain ⟨W', ε, h1, h2, h3, -⟩ := C80_fastica np np' (fun y s => y s ^ 3) (fun y s => 3 * y s ^ 2)
      (fun y => by funext s; simp [Odd.neg_pow (by decide : Odd 3)]) (fun y => by funext s; simp) pmX
      (distinctPowers_diag pmX_cov) 1 1 h
    exact ⟨W', ε, h1, h2, h3⟩
  obtain ⟨u, hu, hZ⟩ := whiten_diag np pmX_cov pmZ pmX_white
  have hu2 : ∀ i, u i * u i = 1 := fun i => by
    have := hu i
    rw [Real.norm_eq_abs] at this
    rw [← abs_mul_abs_self, this, one_mul]
  have dir : ∀ k, Fast.icaDirection (fun y s => y s ^ 3) (fun y s => 3 * y s ^ 2) (Transform.whitenCore np pmX)
      ((1 : Mat 2 ℝ) k) = fun c => if c = k then 2 else 0 := by
    intro k
    funext c
    simp only [Fast.icaDirection, Fast.project, meanT, hZ, Fin.sum_univ_two, one_apply, pmZ]
    have e0 := hu2 0
    have e1 := hu2 1
    fin_cases k <;> fin_cases c <;> simp
    · linear_combination (2 - u 0 * u 0) * e0
    · ring
    · linear_combination (2 - u 1 * u 1) * e1
  have row : ∀ k, Fast.icaRow (fun y s => y s ^ 3) (fun y s => 3 * y s ^ 2) (Transform.whitenCore np pmX) 1 k = .ok 1 := by
    intro k
    have e : Fast.deflate 1 k (fun c => if c = k then (2 : ℝ) else 0) = fun c => if c = k then 2 else 0 := by
      funext c
      fin_cases k <;> fin_cases c <;> simp [Fast.deflate, one_apply, Finset.sum_filter]
    have en : Fast.norm2 (fun c : Fin 2 => if c = k then (2 : ℝ) else 0) = 2 := by
      simp only [Fast.norm2, Fin.sum_univ_two]
      rw [show ((2 : ℝ)) = Real.sqrt (2 ^ 2) from (Real.sqrt_sq (by norm_num)).symm]
      congr 1
      fin_cases k <;> simp
    simp only [Fast.icaRow, dir, e, en, OfNat.ofNat_ne_zero, if_false]
    congr 1
    ext i j
    fin_cases k <;> fin_cases i <;> fin_cases j <;> simp [updateRow_apply]
  have hf : (List.finRange 2) = [0, 1] := by decide
  simp only [iterM, Fast.icaStep, hf, List.foldlM, row, Bind.bind, Except.bind, Pure.pure, Except.pure]

/-- With a spherical Laplace contrast and no flooring the filter of FastIVA before the polar decomposition is minus the
identity. -/
theorem pmX_regular (np : Numpy ℂ) (f : Unit) : IsUnit (Fast.fastIvaFilter id (fun _ => 2) (fun _ => 0)
    (Lifecycle.whitened np fun _ : Unit => pmX) 1 f).det := by
  obtain ⟨u, hu, hZ⟩ := whiten_diag np pmX_cov pmZ pmX_white
  have hu2 : ∀ i, star (u i) * u i = 1 := fun i => by
    rw [Complex.star_def, mul_comm, Complex.mul_conj, Complex.normSq_eq_norm_sq, hu]; simp
  have hZ' : ∀ k s, separate (Lifecycle.whitened np fun _ : Unit => pmX) 1 f k s = u k * pmZ k s := by
    intro k s
    simp only [separate, Pi.one_apply, Matrix.one_mul, Lifecycle.whitened, hZ]
  have hn : ∀ k s, ‖(pmZ k s : ℂ)‖ = 1 := by
    intro k s
    fin_cases k <;> fin_cases s <;> simp [pmZ]
  have hb : ∀ k s, Iva.binNorm (separate (Lifecycle.whitened np fun _ : Unit => pmX) 1) k s = 1 := by
    intro k s
    simp only [Iva.binNorm, Finset.univ_unique, Finset.sum_singleton]
    rw [show (default : Unit) = f from rfl, hZ', norm_mul, hu, hn]
    simp
  have key : Fast.fastIvaFilter id (fun _ => 2) (fun _ => 0) (Lifecycle.whitened np fun _ : Unit => pmX) 1 f = -1 := by
    ext k c
    simp only [Fast.fastIvaFilter, hb, hZ', of_apply, norm_mul, hu, hn, Lifecycle.whitened, hZ, meanT, Fin.sum_univ_two]
    have e0 := hu2 0
    have e1 := hu2 1
    fin_cases k <;> fin_cases c <;> simp [pmZ]
    · rw [mul_comm]; exact e0
    · rw [mul_comm]; exact e1
  rw [key]
  simp [det_neg]

/-- FastIVA on the same recording. -/
example (np np' : Numpy ℂ) : UpToPhase
    (separate (Lifecycle.whitened np fun _ : Unit => pmX)
      ((Fast.fastIvaStep np id (fun _ => 2) (fun _ => 0) (Lifecycle.whitened np fun _ => pmX))^[1] 1))
    (separate (Lifecycle.whitened np' fun _ => pmX)
      ((Fast.fastIvaStep np' id (fun _ => 2) (fun _ => 0) (Lifecycle.whitened np' fun _ => pmX))^[1] 1)) := by
  refine ((C80_fast_iva np np' id (fun _ => 2) (fun _ => 0) (fun _ : Unit => pmX) (fun _ => distinctPowers_diag pmX_cov) 1
    ?_).1 1 le_rfl).1
  intro i hi f
  obtain rfl : i = 0 := by omega
  exact pmX_regular np f

/-- Two channels and four frames for FasterIVA. -/
noncomputable def qX : Transform.Data 2 4 ℂ := !![7 / 5, 1 / 5, 7 / 5, 1 / 5; 2 / 5, 14 / 5, -2 / 5, -14 / 5]

noncomputable def qZ : Transform.Data 2 4 ℂ := !![7 / 5, 1 / 5, 7 / 5, 1 / 5; 1 / 5, 7 / 5, -1 / 5, -7 / 5]

theorem qX_cov : Transform.covariance qX = diagonal ![1, 4] := by
  ext i j
  simp only [Transform.covariance, qX, of_apply, Fin.sum_univ_four]
  fin_cases i <;> fin_cases j <;> simp <;> norm_num

theorem qX_white (i : Fin 2) (s : Fin 4) : qX i s = (![1, 2] : Fin 2 → ℂ) i * qZ i s := by
  fin_cases i <;> fin_cases s <;> simp [qX, qZ] <;> norm_num

theorem eighSpec_two {a b : ℝ} (h : a < b) : EighSpec (diagonal ![(a : ℂ), b]) ![a, b] 1 ∧
    EighSpec (diagonal ![(b : ℂ), a]) ![a, b] !![0, 1; 1, 0] := by
  have hm : Monotone ![a, b] := by
    intro i j hij
    fin_cases i <;> fin_cases j <;> simp_all [h.le]
  refine ⟨⟨by simp, ?_, hm⟩, ⟨?_, ?_, hm⟩⟩
  · ext i j
    fin_cases i <;> fin_cases j <;> simp [mul_apply, diagonal]
  · ext i j
    fin_cases i <;> fin_cases j <;> simp [mul_apply]
  · ext i j
    fin_cases i <;> fin_cases j <;> simp [mul_apply, Fin.sum_univ_two, vecMul_diagonal]

/-- FasterIVA: the two weighted covariances are diagonal with distinct entries, in opposite orders. -/
theorem qX_regular (np : Numpy ℂ) : FasterRegular np id (fun _ => 2) (Lifecycle.whitened np fun _ : Unit => qX) 1 := by
  intro f
  obtain ⟨u, hu, hZ⟩ := whiten_diag np qX_cov qZ qX_white
  have hu2 : ∀ i, u i * (starRingEnd ℂ) (u i) = 1 := fun i => by
    rw [Complex.mul_conj, Complex.normSq_eq_norm_sq, hu]; simp
  have hb : ∀ k s, Iva.binNorm (separate (Lifecycle.whitened np fun _ : Unit => qX) 1) k s = ‖qZ k s‖ := by
    intro k s
    simp only [Iva.binNorm, Finset.univ_unique, Finset.sum_singleton, separate, Pi.one_apply, Matrix.one_mul,
      Lifecycle.whitened, hZ, norm_mul, hu, one_mul]
    exact Real.sqrt_sq (norm_nonneg _)
  have hq : ∀ k s, ‖qZ k s‖ = (![![7 / 5, 1 / 5, 7 / 5, 1 / 5], ![1 / 5, 7 / 5, 1 / 5, 7 / 5]] : Fin 2 → Fin 4 → ℝ) k s := by
    intro k s
    fin_cases k <;> fin_cases s <;> simp [qZ]
  have hc : ∀ k, Iva.wcov (fun k s => 2 / id (2 * ‖qZ k s‖)) (Lifecycle.whitened np fun _ : Unit => qX) f k
      = ![diagonal ![((4 / 5 : ℝ) : ℂ), ((172 / 35 : ℝ) : ℂ)], diagonal ![((172 / 35 : ℝ) : ℂ), ((4 / 5 : ℝ) : ℂ)]] k := by
    intro k
    ext i j
    simp only [Iva.wcov, Lifecycle.whitened, hZ, of_apply, meanT, Fin.sum_univ_four, hq, id]
    have e0 := hu2 0
    have e1 := hu2 1
    fin_cases k <;> fin_cases i <;> fin_cases j <;> simp [qZ]
    · linear_combination 4 / 5 * e0
    · ring
    · ring
    · linear_combination 172 / 35 * e1
    · linear_combination 172 / 35 * e0
    · ring
    · ring
    · linear_combination 4 / 5 * e1
  have h0 := (eighSpec_two (show (4 / 5 : ℝ) < 172 / 35 by norm_num)).1
  have h1 := (eighSpec_two (show (4 / 5 : ℝ) < 172 / 35 by norm_num)).2
  have s0 := np.eigh_spec _ (wcov_herm (fun k s => 2 / id (2 * ‖qZ k s‖)) (Lifecycle.whitened np fun _ : Unit => qX) f 0)
  have s1 := np.eigh_spec _ (wcov_herm (fun k s => 2 / id (2 * ‖qZ k s‖)) (Lifecycle.whitened np fun _ : Unit => qX) f 1)
  simp only [hc] at s0 s1
  have v0 := eigh_values h0 s0
  have v1 := eigh_values h1 s1
  have hne : ∀ j : Fin 2, j ≠ 1 → (![4 / 5, 172 / 35] : Fin 2 → ℝ) j ≠ (![4 / 5, 172 / 35] : Fin 2 → ℝ) 1 := by
    intro j hj
    fin_cases j
    · norm_num
    · exact absurd rfl hj
  obtain ⟨c0, hc0, e0⟩ := eigh_simple h0 s0 1 hne
  obtain ⟨c1, hc1, e1⟩ := eigh_simple h1 s1 1 hne
  refine ⟨?_, ?_⟩
  · have hd : Fast.fasterIvaFilter np id (fun _ => 2) (Lifecycle.whitened np fun _ : Unit => qX) 1 f
        = !![0, star c0; star c1, 0] := by
      ext k c
      simp only [Fast.fasterIvaFilter, hb, of_apply, hc]
      change star ((np.eigh _).2 c 1) = _
      fin_cases k
      · refine (congrArg star (e0 c)).trans ?_
        fin_cases c
        · simp
        · change star (c0 * (1 : Mat 2 ℂ) 1 1) = star c0
          rw [one_apply_eq, mul_one]
      · refine (congrArg star (e1 c)).trans ?_
        fin_cases c <;> simp
    rw [hd, det_fin_two_of]
    have n0 : c0 ≠ 0 := fun h => by simp [h] at hc0
    have n1 : c1 ≠ 0 := fun h => by simp [h] at hc1
    simp [n0, n1]
  · intro k i hi
    change (np.eigh (Iva.wcov (fun k s => 2 / id (2 * Iva.binNorm (separate (Lifecycle.whitened np fun _ : Unit => qX) 1)
      k s)) (Lifecycle.whitened np fun _ : Unit => qX) f k)).1 i ≠ (np.eigh (Iva.wcov (fun k s => 2 / id (2 *
      Iva.binNorm (separate (Lifecycle.whitened np fun _ : Unit => qX) 1) k s)) (Lifecycle.whitened np fun _ : Unit => qX)
      f k)).1 1
    simp only [hb, hc]
    fin_cases k
    · change (np.eigh (diagonal ![((4 / 5 : ℝ) : ℂ), ((172 / 35 : ℝ) : ℂ)])).1 i ≠
        (np.eigh (diagonal ![((4 / 5 : ℝ) : ℂ), ((172 / 35 : ℝ) : ℂ)])).1 1
      rw [show (np.eigh (diagonal ![((4 / 5 : ℝ) : ℂ), ((172 / 35 : ℝ) : ℂ)])).1 = _ from v0]
      exact hne i hi
    · change (np.eigh (diagonal ![((172 / 35 : ℝ) : ℂ), ((4 / 5 : ℝ) : ℂ)])).1 i ≠
        (np.eigh (diagonal ![((172 / 35 : ℝ) : ℂ), ((4 / 5 : ℝ) : ℂ)])).1 1
      rw [show (np.eigh (diagonal ![((172 / 35 : ℝ) : ℂ), ((4 / 5 : ℝ) : ℂ)])).1 = _ from v1]
      exact hne i hi

/-- FasterIVA on this recording. -/
example (np np' : Numpy ℂ) : UpToPhase
    (separate (Lifecycle.whitened np fun _ : Unit => qX)
      ((Fast.fasterIvaStep np id (fun _ => 2) (Lifecycle.whitened np fun _ => qX))^[1] 1))
    (separate (Lifecycle.whitened np' fun _ => qX)
      ((Fast.fasterIvaStep np' id (fun _ => 2) (Lifecycle.whitened np' fun _ => qX))^[1] 1)) := by
  refine ((C80_faster_iva np np' id (fun _ => 2) (fun _ : Unit => qX) (fun _ => distinctPowers_diag qX_cov) 1
    ?_).1 1 le_rfl).1
  intro i hi
  obtain rfl : i = 0 := by omega
  exact qX_regular np

end EigPhase
end Verif
