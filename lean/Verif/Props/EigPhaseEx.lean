import Verif.Props.ProxBss
import Verif.Props.WhitenPhase

/-!
# C80, continued: what a tie does, and examples that meet the conditions of the other theorems
-/

set_option linter.unusedSectionVars false

namespace Verif
namespace EigPhase

open Matrix Spatial Scale
open scoped ComplexOrder

/-! ## A tie -/

/-- A numpy whose `eigh` of the 2x2 identity matrix returns `R` as eigenvectors. -/
noncomputable def idNumpy (R : Mat 2 ℂ) (hR : Rᴴ * R = 1) : Numpy ℂ :=
  { (someNumpy : Numpy ℂ) with
    eigh := fun {n} X => match n, X with
      | 2, X => open Classical in if X = 1 then (1, R) else (someNumpy : Numpy ℂ).eigh X
      | _, X => (someNumpy : Numpy ℂ).eigh X
    eigh_spec := fun {n} X hX => by
      match n, X with
      | 0, X => exact (someNumpy : Numpy ℂ).eigh_spec X hX
      | 1, X => exact (someNumpy : Numpy ℂ).eigh_spec X hX
      | 2, X =>
        by_cases h : X = 1
        · simp only [if_pos h]
          refine ⟨hR, ?_, fun _ _ _ => le_rfl⟩
          simp only [Pi.one_apply, RCLike.ofReal_one, diagonal_one, Matrix.mul_one]
          rw [mul_eq_one_comm.mp hR, h]
        · simp only [if_neg h]
          exact (someNumpy : Numpy ℂ).eigh_spec X hX
      | n + 3, X => exact (someNumpy : Numpy ℂ).eigh_spec X hX
    cholesky := fun B => open Classical in if B = 1 then .ok 1 else (someNumpy : Numpy ℂ).cholesky B
    cholesky_spec := fun B hB => by
      by_cases h : B = 1
      · refine ⟨1, by rw [if_pos h], ?_⟩
        simp [h]
      · rw [if_neg h]
        exact (someNumpy : Numpy ℂ).cholesky_spec B hB }

theorem idNumpy_eigh (R : Mat 2 ℂ) (hR : Rᴴ * R = 1) : (idNumpy R hR).eigh (1 : Mat 2 ℂ) = (1, R) := by
  simp [idNumpy]

theorem idNumpy_cholesky (R : Mat 2 ℂ) (hR : Rᴴ * R = 1) : (idNumpy R hR).cholesky (1 : Mat 2 ℂ) = .ok 1 := by
  simp [idNumpy]

/-- The result of a pair update at a tie follows the eigenvectors returned for the identity matrix. -/
theorem ip2Pair_tie (R : Mat 2 ℂ) (hR : Rᴴ * R = 1) (floor : ℝ → ℝ) (h1 : floor 1 = 1) (U : Fin 2 → Mat 2 ℂ)
    (hU : ∀ k, U k = 1) : ip2Pair (idNumpy R hR) floor U 1 (0, 1) = .ok !![star (R 0 1), star (R 1 1);
      star (R 0 0), star (R 1 0)] := by
  have hE : (Matrix.of fun i j => if i = (![0, 1] : Fin 2 → Fin 2) j then 1 else 0 : Matrix (Fin 2) (Fin 2) ℂ) = 1 := by
    ext i j
    fin_cases i <;> fin_cases j <;> simp
  have hS : npSolve (1 : Mat 2 ℂ) (1 : Matrix (Fin 2) (Fin 2) ℂ) = .ok 1 := by
    rw [npSolve_ok (by simp)]
    simp
  have hI : Linalg.inv2 (1 : Mat 2 ℂ) = .ok 1 := by
    rw [Phase.inv2_form]
    congr 1
    ext i j
    fin_cases i <;> fin_cases j <;> simp
  have hG : Linalg.eigh2 (idNumpy R hR) (1 : Mat 2 ℂ) (some 1) 1 = .ok (1, R) := by
    simp only [Linalg.eigh2, Linalg.geigh, idNumpy_cholesky, if_true, Bind.bind, Except.bind, hI, conjTranspose_one,
      Matrix.mul_one, idNumpy_eigh, Matrix.one_mul]
  have hd : ∀ j, hUh (1 : Mat 2 ℂ) (fun i => R i j) = 1 := by
    intro j
    have := congrFun (congrFun hR j) j
    rw [mul_apply, one_apply_eq] at this
    rw [hUh, one_mulVec, dotProduct]
    simp only [conjTranspose_apply] at this
    simp only [Pi.star_apply]
    rw [this, Complex.one_re, max_eq_left zero_le_one]
  simp only [ip2Pair, ip2OnePair, hU, hE, hS, Bind.bind, Except.bind, conjTranspose_one, Matrix.mul_one, hG, hd,
    Real.sqrt_one, h1, Complex.ofReal_one, div_one, one_mulVec]
  congr 1
  ext i j
  fin_cases i <;> fin_cases j <;> simp [updateRow_apply]

/-- The recording of the tie: two channels of two frames with all magnitudes equal. -/
noncomputable def tieX : Spec Unit 2 2 := fun _ => !![1, 1; 1, -1]

theorem tieX_wcov (phi : Fin 2 → Fin 2 → ℝ) (h : ∀ k s, phi k s = 1) (k : Fin 2) : Iva.wcov phi tieX () k = 1 := by
  ext i j
  simp only [Iva.wcov, of_apply, meanT, h, Fin.sum_univ_two, tieX]
  fin_cases i <;> fin_cases j <;> norm_num

theorem tieX_step (R : Mat 2 ℂ) (hR : Rᴴ * R = 1) (floor : ℝ → ℝ) (h1 : floor 1 = 1) (h2 : floor 2 = 2) :
    iterM (Iva.auxIp2 (idNumpy R hR) floor [(0, 1)] (fun _ _ _ => 2) tieX) 1 1
      = .ok fun _ => !![star (R 0 1), star (R 1 1); star (R 0 0), star (R 1 0)] := by
  have hw : ∀ k s, Iva.weight floor (fun _ _ _ => 2) (separate tieX 1) k s = 1 := by
    intro k s
    have hb : Iva.binNorm (separate tieX 1) k s = 1 := by
      simp only [Iva.binNorm, separate, tieX, Pi.one_apply, Matrix.one_mul]
      fin_cases k <;> fin_cases s <;> simp
    rw [Iva.weight, hb, mul_one, h2]
    norm_num
  have hp := ip2Pair_tie R hR floor h1 _ fun k => tieX_wcov _ hw k
  have : (onBins fun f : Unit => ip2Pair (idNumpy R hR) floor
      (Iva.wcov (Iva.weight floor (fun _ _ _ => 2) (separate tieX 1)) tieX f) ((1 : Unit → Mat 2 ℂ) f) (0, 1))
      = .ok fun _ => !![star (R 0 1), star (R 1 1); star (R 0 0), star (R 1 0)] := onBins_ok fun f => hp
  simp only [iterM, Iva.auxIp2, List.foldlM_cons, List.foldlM_nil, Iva.auxIp2Pair, this, Bind.bind, Except.bind, pure,
    Except.pure]

theorem projectionBack_of_inv {n : ℕ} (r : Fin n) (W V : Mat n ℂ) (h : W * V = 1) :
    projectionBackFilter r (fun _ : Unit => W) = .ok fun _ => Matrix.of fun i j => W i j * V r i := by
  have hu : ∀ _ : Unit, IsUnit W.det := fun _ => IsUnit.of_mul_eq_one V.det (by rw [← det_mul, h, det_one])
  have i1 : npInvB (fun _ : Unit => W) = .ok fun _ => W⁻¹ := by rw [npInvB, if_pos hu]
  rw [projectionBackFilter, i1]
  simp only [Bind.bind, Except.bind, inv_eq_right_inv h]

/-- C80: **finding.** When the weighted covariances of a pair are proportional (a tie), the result of AuxIVA with IP2
does depend on the eigenvectors LAPACK returns, and not only through phases: for the recording `tieX`, the documented
Laplace contrast and the identity as initial filter, one iteration gives a recorded loss of 4 with one correct LAPACK
and `2 * sqrt 2` with another, and different outputs after projection back. -/
theorem C80_tie (floor : ℝ → ℝ) (h1 : floor 1 = 1) (h2 : floor 2 = 2) : ∃ (np np' : Numpy ℂ) (W W' : Unit → Mat 2 ℂ),
    iterM (Iva.auxIp2 np floor [(0, 1)] (fun _ _ _ => 2) tieX) 1 1 = .ok W ∧
    iterM (Iva.auxIp2 np' floor [(0, 1)] (fun _ _ _ => 2) tieX) 1 1 = .ok W' ∧
    Iva.lossIp (fun _ _ x => 2 * x) tieX W = 4 ∧ Iva.lossIp (fun _ _ x => 2 * x) tieX W' = 2 * Real.sqrt 2 ∧
    projectionBackFilter 0 W' ≠ projectionBackFilter 0 W := by
  obtain ⟨c, hc⟩ : ∃ c : ℝ, c = Real.sqrt 2 / 2 := ⟨_, rfl⟩
  have hcc : c * c = 1 / 2 := by
    rw [hc]
    nlinarith [Real.mul_self_sqrt (show (0 : ℝ) ≤ 2 by norm_num)]
  have hccC : (c : ℂ) * c = 1 / 2 := by
    rw [← Complex.ofReal_mul, hcc]
    norm_num
  have hR : (!![(c : ℂ), -c; c, c] : Mat 2 ℂ)ᴴ * !![(c : ℂ), -c; c, c] = 1 := by
    ext i j
    fin_cases i <;> fin_cases j <;> simp [mul_apply, Fin.sum_univ_two, hccC] <;> norm_num
  have h0 : (1 : Mat 2 ℂ)ᴴ * 1 = 1 := by simp
  refine ⟨idNumpy 1 h0, idNumpy _ hR, _, _, tieX_step 1 h0 floor h1 h2, tieX_step _ hR floor h1 h2, ?_, ?_, ?_⟩
  · have hd : (!![star ((1 : Mat 2 ℂ) 0 1), star ((1 : Mat 2 ℂ) 1 1);
        star ((1 : Mat 2 ℂ) 0 0), star ((1 : Mat 2 ℂ) 1 0)]).det = -1 := by
      rw [det_fin_two]
      simp
    simp only [Iva.lossIp, Iva.ivaLoss, hd, Iva.binNorm, separate, tieX]
    simp [meanT, Fin.sum_univ_two, mul_apply]
    norm_num
  · have hd : (!![star ((!![(c : ℂ), -c; c, c] : Mat 2 ℂ) 0 1), star ((!![(c : ℂ), -c; c, c] : Mat 2 ℂ) 1 1);
        star ((!![(c : ℂ), -c; c, c] : Mat 2 ℂ) 0 0), star ((!![(c : ℂ), -c; c, c] : Mat 2 ℂ) 1 0)]).det = -1 := by
      rw [det_fin_two]
      simp [hccC]
      norm_num
    have hn : ‖(c : ℂ) + c‖ = Real.sqrt 2 := by
      rw [← Complex.ofReal_add, Complex.norm_real, Real.norm_eq_abs, hc, add_halves, abs_of_nonneg (Real.sqrt_nonneg 2)]
    have hn' : ‖-(c : ℂ) + -c‖ = Real.sqrt 2 := by rw [← neg_add, norm_neg, hn]
    simp only [Iva.lossIp, Iva.ivaLoss, hd, Iva.binNorm, separate, tieX]
    simp [meanT, Fin.sum_univ_two, mul_apply, hn, hn']
    ring
  · have h0' : projectionBackFilter 0 (fun _ : Unit => !![star ((1 : Mat 2 ℂ) 0 1), star ((1 : Mat 2 ℂ) 1 1);
        star ((1 : Mat 2 ℂ) 0 0), star ((1 : Mat 2 ℂ) 1 0)]) = .ok fun _ => !![0, 0; 1, 0] := by
      rw [projectionBack_of_inv 0 _ !![0, 1; 1, 0] (by
        ext i j
        fin_cases i <;> fin_cases j <;> simp)]
      congr 1
      funext _
      ext i j
      fin_cases i <;> fin_cases j <;> simp
    have h1' : projectionBackFilter 0 (fun _ : Unit => !![star ((!![(c : ℂ), -c; c, c] : Mat 2 ℂ) 0 1),
        star ((!![(c : ℂ), -c; c, c] : Mat 2 ℂ) 1 1); star ((!![(c : ℂ), -c; c, c] : Mat 2 ℂ) 0 0),
        star ((!![(c : ℂ), -c; c, c] : Mat 2 ℂ) 1 0)]) = .ok fun _ => !![1 / 2, -(1 / 2); 1 / 2, 1 / 2] := by
      rw [projectionBack_of_inv 0 _ !![-(c : ℂ), c; c, c] (by
        ext i j
        fin_cases i <;> fin_cases j <;> simp [hccC] <;> norm_num)]
      congr 1
      funext _
      ext i j
      fin_cases i <;> fin_cases j <;> simp [hccC]
    rw [h0', h1']
    intro h
    have := congrFun (congrFun (congrFun (Except.ok.inj h) ()) 0) 0
    norm_num at this

/-! ## Examples without ties -/

/-- Two channels of two frames. -/
noncomputable def exX : Spec Unit 2 2 := fun _ => !![2, 1; 1, -2]

theorem exX_wcov (phi : Fin 2 → Fin 2 → ℝ) (k : Fin 2) : Iva.wcov phi exX () k
    = !![((2 * phi k 0 + phi k 1 / 2 : ℝ) : ℂ), ((phi k 0 - phi k 1 : ℝ) : ℂ);
      ((phi k 0 - phi k 1 : ℝ) : ℂ), ((phi k 0 / 2 + 2 * phi k 1 : ℝ) : ℂ)] := by
  ext i j
  simp only [Iva.wcov, of_apply, meanT, Fin.sum_univ_two, exX]
  fin_cases i <;> fin_cases j <;> simp <;> ring

/-- Mirrored weights that are not all equal: there is no tie. -/
theorem exX_regular (phi : Unit → Fin 2 → Fin 2 → ℝ) {a b : ℝ} (ha : 0 < a) (hb : 0 < b) (hab : a ≠ b)
    (h : phi () = ![![a, b], ![b, a]]) : Ip2Regular phi exX 1 (0, 1) := by
  have pd : ∀ k, (Iva.wcov (phi ()) exX () k).PosDef := by
    intro k
    rw [exX_wcov, h]
    fin_cases k
    · exact ProxBss.posDef_two (by simp; positivity) (by simp; nlinarith [mul_pos ha hb, sq_nonneg (a - b)])
    · exact ProxBss.posDef_two (by simp; positivity) (by simp; nlinarith [mul_pos ha hb, sq_nonneg (a - b)])
  refine ⟨by decide, fun f => ⟨by simp, pd 0, pd 1, ?_⟩⟩
  rintro ⟨x, hx⟩
  have hid : (![0, 1] : Fin 2 → Fin 2) = id := by
    funext i
    fin_cases i <;> rfl
  simp only [Pi.one_apply, Matrix.one_mul, conjTranspose_one, Matrix.mul_one, hid, submatrix_id_id] at hx
  have hu : ∀ k, IsUnit (Iva.wcov (phi ()) exX () k).det := fun k => (isUnit_iff_isUnit_det _).mp (pd k).isUnit
  have h2 : Iva.wcov (phi ()) exX () 1 = (x : ℂ) • Iva.wcov (phi ()) exX () 0 := by
    have := congrArg (fun M => Iva.wcov (phi ()) exX () 0 * M * Iva.wcov (phi ()) exX () 1) hx
    simpa [mul_nonsing_inv _ (hu 0), nonsing_inv_mul _ (hu 1), Matrix.mul_assoc] using this
  rw [exX_wcov, exX_wcov, h] at h2
  have e0 := congrFun (congrFun h2 0) 0
  have e1 := congrFun (congrFun h2 1) 1
  simp only [Matrix.smul_apply, of_apply, cons_val', cons_val_zero, cons_val_fin_one, cons_val_one, smul_eq_mul,
    ← Complex.ofReal_mul, Complex.ofReal_inj] at e0 e1
  have hx1 : x = 1 := by
    have : (x - 1) * (a + b) = 0 := by linarith
    rcases mul_eq_zero.mp this with h | h <;> linarith
  subst hx1
  exact hab (by linarith)

theorem exX_norm (f : Unit) : (fun k s => ‖separate exX 1 f k s‖) = ![![2, 1], ![1, 2]] := by
  funext k s
  simp only [separate, exX, Pi.one_apply, Matrix.one_mul]
  fin_cases k <;> fin_cases s <;> simp

theorem exX_binNorm : Iva.binNorm (separate exX 1) = ![![2, 1], ![1, 2]] := by
  rw [← exX_norm ()]
  funext k s
  simp [Iva.binNorm]

/-- AuxIVA and AuxFDICA with IP2 and the Laplace contrast, no flooring: `exX` and the identity filter meet the
conditions of `C80_aux_iva_ip2` and `C80_aux_fdica_ip2` for one iteration. -/
example (np np' : Numpy ℂ) : ∃ W W',
    iterM (Iva.auxIp2 np id [(0, 1)] (fun _ _ _ => 2) exX) 1 1 = .ok W ∧
    iterM (Iva.auxIp2 np' id [(0, 1)] (fun _ _ _ => 2) exX) 1 1 = .ok W' ∧ UpToPhase W W' ∧
    ∀ r, projectionBackFilter r W' = projectionBackFilter r W := by
  refine (C80_aux_iva_ip2 np np' id [(0, 1)] (fun _ _ x => 2 * x) (fun _ _ _ => 2) exX 1 1 (UpToPhase.refl _) 1
    ⟨⟨exX_regular _ (a := 1 / 2) (b := 1) (by norm_num) (by norm_num) (by norm_num) ?_, fun _ _ => trivial⟩,
      fun _ _ => trivial⟩).1
  funext k s
  simp only [Iva.weight, exX_binNorm]
  fin_cases k <;> fin_cases s <;> norm_num

example (np np' : Numpy ℂ) : ∃ W W',
    iterM (Fdica.auxIp2 np id (fun _ => 2) [(0, 1)] exX) 1 1 = .ok W ∧
    iterM (Fdica.auxIp2 np' id (fun _ => 2) [(0, 1)] exX) 1 1 = .ok W' ∧ UpToPhase W W' ∧
    ∀ r, projectionBackFilter r W' = projectionBackFilter r W := by
  refine (C80_aux_fdica_ip2 np np' id (fun x => 2 * x) (fun _ => 2) [(0, 1)] exX 1 1 (UpToPhase.refl _) 1
    ⟨⟨exX_regular _ (a := 1 / 2) (b := 1) (by norm_num) (by norm_num) (by norm_num) ?_, fun _ _ => trivial⟩,
      fun _ _ => trivial⟩).1
  funext k s
  have : ‖separate exX 1 () k s‖ = _ := congrFun (congrFun (exX_norm ()) k) s
  simp only [Fdica.weight, this]
  fin_cases k <;> fin_cases s <;> norm_num

/-- AuxGaussIVA with IP2: the weights are the inverse variances. -/
example (np np' : Numpy ℂ) (s : Iva.GaussState Unit 2 2) (hs : s.W = 1) : ∃ s₁ s₁',
    iterM (Iva.gaussIp2 np id [(0, 1)] exX) 1 s = .ok s₁ ∧
    iterM (Iva.gaussIp2 np' id [(0, 1)] exX) 1 s = .ok s₁' ∧ UpToPhase s₁.W s₁'.W ∧ s₁'.variance = s₁.variance ∧
    ∀ r, projectionBackFilter r s₁'.W = projectionBackFilter r s₁.W := by
  refine (C80_aux_gauss_iva_ip2 np np' id [(0, 1)] exX s s (UpToPhase.refl _) rfl 1
    ⟨⟨?_, fun _ _ => trivial⟩, fun _ _ => trivial⟩).1
  rw [hs]
  refine exX_regular _ (a := 1 / 4) (b := 1) (by norm_num) (by norm_num) (by norm_num) ?_
  funext k s
  have hn : ∀ k s, ‖separate exX 1 () k s‖ = (![![2, 1], ![1, 2]] : Fin 2 → Fin 2 → ℝ) k s := fun k s =>
    congrFun (congrFun (exX_norm ()) k) s
  simp only [Iva.weight, exX_binNorm, Iva.gaussD, Iva.gaussVariance, Fintype.card_unit, Finset.univ_unique,
    Finset.sum_singleton, hn, PUnit.default_eq_unit]
  fin_cases k <;> fin_cases s <;> norm_num

/-- ILRMA with the Gaussian model, IP2 and power normalisation: the squared magnitudes of `exX` as activations. -/
noncomputable def exS : Ilrma.St Unit 2 2 1 := ⟨1, fun _ _ _ => 1, fun k _ => ![![4, 1], ![1, 4]] k⟩

theorem exS_source : Ilrma.updateSource Ilrma.gaussME id exX exS = exS := by
  have hn : ∀ k s, ‖separate exX 1 () k s‖ = (![![2, 1], ![1, 2]] : Fin 2 → Fin 2 → ℝ) k s := fun k s =>
    congrFun (congrFun (exX_norm ()) k) s
  have hT : Ilrma.updateBasis Ilrma.gaussME id (separate exX exS.W) exS.T exS.V = exS.T := by
    funext k f b
    simp only [Ilrma.updateBasis, Ilrma.basisRaw, Ilrma.gaussME, Ilrma.recon, exS, id, hn, Fin.sum_univ_two,
      Finset.univ_unique, Finset.sum_singleton, Real.rpow_one]
    fin_cases k <;> norm_num
  have hV : Ilrma.updateActivation Ilrma.gaussME id (separate exX exS.W) exS.T exS.V = exS.V := by
    funext k b s
    simp only [Ilrma.updateActivation, Ilrma.activationRaw, Ilrma.gaussME, Ilrma.recon, exS, id, hn,
      Finset.univ_unique, Finset.sum_singleton, Real.rpow_one, PUnit.default_eq_unit]
    fin_cases k <;> fin_cases s <;> norm_num
  simp only [Ilrma.updateSource, hT, hV]

example (np np' : Numpy ℂ) : ∃ s s',
    iterM (Ilrma.updateOnce np Ilrma.gaussME 2 (.ip2 [(0, 1)]) .power id exX) 1 exS = .ok s ∧
    iterM (Ilrma.updateOnce np' Ilrma.gaussME 2 (.ip2 [(0, 1)]) .power id exX) 1 exS = .ok s' ∧ UpToPhase s.W s'.W ∧
    s'.T = s.T ∧ s'.V = s.V ∧ ∀ r, projectionBackFilter r s'.W = projectionBackFilter r s.W := by
  refine (C80_ilrma_ip2 np np' Ilrma.gaussME 2 .power id [(0, 1)] exX exS exS (UpToPhase.refl _) rfl rfl 1
    ⟨⟨⟨?_, fun _ _ => trivial⟩, ?_⟩, fun _ _ => trivial⟩).1
  · rw [exS_source]
    refine exX_regular _ (a := 1 / 4) (b := 1) (by norm_num) (by norm_num) (by norm_num) ?_
    funext k s
    simp only [Ilrma.varphi, Ilrma.gaussME, Ilrma.recon, exS, Finset.univ_unique, Finset.sum_singleton]
    fin_cases k <;> fin_cases s <;> norm_num
  · rintro ⟨r, hr⟩
    exact absurd hr (by simp)

/-- The same with partitioning: two shared bases, one for each source. -/
noncomputable def exSP : Ilrma.StP Unit 2 2 2 := ⟨1, fun k b => if k = b then 1 else 0, fun _ _ => 1, ![![4, 1], ![1, 4]]⟩

theorem exSP_source : Ilrma.updateSourceP Ilrma.gaussME id exX exSP = exSP := by
  have hn : ∀ k s, ‖separate exX 1 () k s‖ = (![![2, 1], ![1, 2]] : Fin 2 → Fin 2 → ℝ) k s := fun k s =>
    congrFun (congrFun (exX_norm ()) k) s
  have hZ : Ilrma.updateLatent Ilrma.gaussME (separate exX exSP.W) exSP.Z exSP.T exSP.V = exSP.Z := by
    funext k b
    simp only [Ilrma.updateLatent, Ilrma.latentRaw, Ilrma.gaussME, Ilrma.reconP, exSP, hn, Fin.sum_univ_two,
      Finset.univ_unique, Finset.sum_singleton, Real.rpow_one, PUnit.default_eq_unit]
    fin_cases k <;> fin_cases b <;> norm_num
  have hT : Ilrma.updateBasisP Ilrma.gaussME id (separate exX exSP.W) exSP.Z exSP.T exSP.V = exSP.T := by
    funext f b
    simp only [Ilrma.updateBasisP, Ilrma.basisRawP, Ilrma.gaussME, Ilrma.reconP, exSP, id, hn, Fin.sum_univ_two,
      Real.rpow_one]
    fin_cases b <;> norm_num
  have hV : Ilrma.updateActivationP Ilrma.gaussME id (separate exX exSP.W) exSP.Z exSP.T exSP.V = exSP.V := by
    funext b s
    simp only [Ilrma.updateActivationP, Ilrma.activationRawP, Ilrma.gaussME, Ilrma.reconP, exSP, id, hn,
      Fin.sum_univ_two, Finset.univ_unique, Finset.sum_singleton, Real.rpow_one, PUnit.default_eq_unit]
    fin_cases b <;> fin_cases s <;> norm_num
  simp only [Ilrma.updateSourceP, hZ, hT, hV]

example (np np' : Numpy ℂ) : ∃ s s',
    iterM (Ilrma.updateOnceP np Ilrma.gaussME 2 (.ip2 [(0, 1)]) .power id exX) 1 exSP = .ok s ∧
    iterM (Ilrma.updateOnceP np' Ilrma.gaussME 2 (.ip2 [(0, 1)]) .power id exX) 1 exSP = .ok s' ∧ UpToPhase s.W s'.W ∧
    s'.Z = s.Z ∧ s'.T = s.T ∧ s'.V = s.V ∧ ∀ r, projectionBackFilter r s'.W = projectionBackFilter r s.W := by
  refine (C80_ilrma_ip2_partitioned np np' Ilrma.gaussME 2 .power (by simp) id [(0, 1)] exX exSP exSP (UpToPhase.refl _) rfl
    rfl rfl 1 ⟨⟨?_, fun _ _ => trivial⟩, fun _ _ => trivial⟩).1
  rw [exSP_source]
  refine exX_regular _ (a := 1 / 4) (b := 1) (by norm_num) (by norm_num) (by norm_num) ?_
  funext k s
  simp only [Ilrma.varphi, Ilrma.gaussME, Ilrma.reconP, exSP, Fin.sum_univ_two]
  fin_cases k <;> fin_cases s <;> norm_num

/-- FastGaussMNMF with IP2: two sources, each in its own diagonalised channel. -/
noncomputable def exFast : Mnmf.FSt Unit 2 2 2 1 :=
  ⟨1, fun _ _ _ => 1, fun k _ => ![![4, 1], ![1, 4]] k, fun _ k c => if k = c then 1 else 0⟩

theorem exFast_source : Mnmf.fastUpdateActivation id exX (Mnmf.fastUpdateBasis id exX exFast) = exFast := by
  have hn : ∀ k s, ‖separate exX 1 () k s‖ = (![![2, 1], ![1, 2]] : Fin 2 → Fin 2 → ℝ) k s := fun k s =>
    congrFun (congrFun (exX_norm ()) k) s
  have hT : Mnmf.fastUpdateBasis id exX exFast = exFast := by
    have : (fun k f b => id (Mnmf.fastBasisRaw exX exFast k f b)) = exFast.T := by
      funext k f b
      simp only [Mnmf.fastBasisRaw, Mnmf.lambD, Ilrma.recon, exFast, id, hn, Fin.sum_univ_two, Finset.univ_unique,
        Finset.sum_singleton]
      fin_cases k <;> norm_num
    rw [Mnmf.fastUpdateBasis, this]
  have hV : Mnmf.fastUpdateActivation id exX exFast = exFast := by
    have : (fun k b j => id (Mnmf.fastActivationRaw exX exFast k b j)) = exFast.V := by
      funext k b j
      simp only [Mnmf.fastActivationRaw, Mnmf.lambD, Ilrma.recon, exFast, id, hn, Fin.sum_univ_two, Finset.univ_unique,
        Finset.sum_singleton, PUnit.default_eq_unit]
      fin_cases k <;> fin_cases j <;> norm_num
    rw [Mnmf.fastUpdateActivation, this]
  rw [hT, hV]

example (np np' : Numpy ℂ) : ∃ s s',
    iterM (Mnmf.fastUpdateOnce np (.ip2 [(0, 1)]) true id exX) 1 exFast = .ok s ∧
    iterM (Mnmf.fastUpdateOnce np' (.ip2 [(0, 1)]) true id exX) 1 exFast = .ok s' ∧ UpToPhase s.Q s'.Q ∧
    s'.T = s.T ∧ s'.V = s.V ∧ s'.D = s.D ∧
    ∀ r, Mnmf.fastSeparate np' id r exX s' = Mnmf.fastSeparate np id r exX s := by
  refine (C80_fast_mnmf_ip2 np np' true id [(0, 1)] exX exFast exFast ⟨UpToPhase.refl _, rfl, rfl, rfl⟩ 1
    ⟨?_, fun _ _ => trivial⟩).1
  simp only [FastMnmfRegular, exFast_source]
  refine ⟨exX_regular _ (a := 1 / 4) (b := 1) (by norm_num) (by norm_num) (by norm_num) ?_, fun _ _ => trivial⟩
  funext k s
  simp only [Mnmf.lambD, Ilrma.recon, exFast, Fin.sum_univ_two, Finset.univ_unique, Finset.sum_singleton]
  fin_cases k <;> fin_cases s <;> norm_num

/-- The same recording as output of ISS2. -/
theorem exX_regular_iss2 (phi : Unit → Fin 2 → Fin 2 → ℝ) {a b : ℝ} (ha : 0 < a) (hb : 0 < b) (hab : a ≠ b)
    (h : phi () = ![![a, b], ![b, a]]) : Iss2Regular phi exX (0, 1) := by
  have e : ∀ k, pairCov (phi () k) ![exX () 0, exX () 1] = Iva.wcov (phi ()) exX () k := by
    intro k
    ext i j
    simp only [pairCov, Iva.wcov, of_apply]
    fin_cases i <;> fin_cases j <;> rfl
  obtain ⟨-, hr⟩ := exX_regular phi ha hb hab h
  obtain ⟨-, p0, p1, ht⟩ := hr ()
  intro f
  refine ⟨(e 0).symm ▸ p0, (e 1).symm ▸ p1, ?_⟩
  rintro ⟨x, hx⟩
  refine ht ⟨x⁻¹, ?_⟩
  simp only at hx
  rw [show pairCov (phi f 0) ![exX f 0, exX f 1] = _ from e 0, show pairCov (phi f 1) ![exX f 0, exX f 1] = _ from e 1] at hx
  have hx0 : (x : ℂ) ≠ 0 := by
    intro h0
    rw [h0, zero_smul] at hx
    have := (isUnit_iff_isUnit_det _).mp p0.isUnit
    simp only at this
    rw [hx, det_zero] at this
    exact not_isUnit_zero this
  simp only [Pi.one_apply, Matrix.one_mul, conjTranspose_one, Matrix.mul_one, hx]
  have := Matrix.inv_smul' (Iva.wcov (phi ()) exX () 1) (Units.mk0 (x : ℂ) hx0)
    ((isUnit_iff_isUnit_det (Iva.wcov (phi ()) exX () 1)).mp p1.isUnit)
  rw [show (x : ℂ) • Iva.wcov (phi ()) exX () 1 = Units.mk0 (x : ℂ) hx0 • Iva.wcov (phi ()) exX () 1 from rfl, this]
  push_cast
  rfl

theorem exX_sep : separate exX 1 = exX := by
  funext f
  simp [separate]

example (np np' : Numpy ℂ) : ∃ Y Y',
    iterM (Iva.auxIss2 np id [(0, 1)] (fun _ _ _ => 2)) 1 exX = .ok Y ∧
    iterM (Iva.auxIss2 np' id [(0, 1)] (fun _ _ _ => 2)) 1 exX = .ok Y' ∧ UpToPhase Y Y' ∧
    ∀ r, projectionBackData r Y' exX = projectionBackData r Y exX := by
  refine (C80_aux_iva_iss2 np np' id [(0, 1)] (fun _ _ x => 2 * x) (fun _ _ _ => 2) exX exX exX (UpToPhase.refl _) 1
    ⟨⟨exX_regular_iss2 _ (a := 1 / 2) (b := 1) (by norm_num) (by norm_num) (by norm_num) ?_, fun _ _ => trivial⟩,
      fun _ _ => trivial⟩).1
  have hb := exX_binNorm
  rw [exX_sep] at hb
  funext k s
  simp only [Iva.weight, hb]
  fin_cases k <;> fin_cases s <;> norm_num

example (np np' : Numpy ℂ) (v : Fin 2 → Fin 2 → ℝ) : ∃ s₁ s₁',
    iterM (Iva.gaussIss2 np id [(0, 1)]) 1 ⟨exX, v⟩ = .ok s₁ ∧
    iterM (Iva.gaussIss2 np' id [(0, 1)]) 1 ⟨exX, v⟩ = .ok s₁' ∧ UpToPhase s₁.Y s₁'.Y ∧ s₁'.variance = s₁.variance ∧
    ∀ r, projectionBackData r s₁'.Y exX = projectionBackData r s₁.Y exX := by
  refine (C80_aux_gauss_iva_iss2 np np' id [(0, 1)] exX ⟨exX, v⟩ ⟨exX, v⟩ (UpToPhase.refl _) rfl 1
    ⟨⟨exX_regular_iss2 _ (a := 1 / 4) (b := 1) (by norm_num) (by norm_num) (by norm_num) ?_, fun _ _ => trivial⟩,
      fun _ _ => trivial⟩).1
  have hb := exX_binNorm
  have hn : ∀ k s, ‖separate exX 1 () k s‖ = (![![2, 1], ![1, 2]] : Fin 2 → Fin 2 → ℝ) k s := fun k s =>
    congrFun (congrFun (exX_norm ()) k) s
  rw [exX_sep] at hb hn
  funext k s
  simp only [Iva.weight, hb, Iva.gaussD, Iva.gaussVariance, Fintype.card_unit, Finset.univ_unique,
    Finset.sum_singleton, hn, PUnit.default_eq_unit]
  fin_cases k <;> fin_cases s <;> norm_num

example (np np' : Numpy ℂ) : ∃ s₁ s₁',
    iterM (Ilrma.updateOnceY np Ilrma.gaussME 2 (.iss2 [(0, 1)]) .power id exX) 1 ⟨exX, exS.T, exS.V⟩ = .ok s₁ ∧
    iterM (Ilrma.updateOnceY np' Ilrma.gaussME 2 (.iss2 [(0, 1)]) .power id exX) 1 ⟨exX, exS.T, exS.V⟩ = .ok s₁' ∧
    UpToPhase s₁.Y s₁'.Y ∧ s₁'.T = s₁.T ∧ s₁'.V = s₁.V ∧
    ∀ r, projectionBackData r s₁'.Y exX = projectionBackData r s₁.Y exX := by
  refine (C80_ilrma_iss2 np np' Ilrma.gaussME 2 .power id [(0, 1)] exX ⟨exX, exS.T, exS.V⟩ ⟨exX, exS.T, exS.V⟩
    (UpToPhase.refl _) rfl rfl 1 ⟨⟨⟨?_, fun _ _ => trivial⟩, ?_⟩, fun _ _ => trivial⟩).1
  · have e : Ilrma.updateSourceY Ilrma.gaussME id ⟨exX, exS.T, exS.V⟩ = ⟨exX, exS.T, exS.V⟩ := by
      have h := exS_source
      simp only [Ilrma.updateSource, show exS.W = 1 from rfl, exX_sep] at h
      have hT := congrArg Ilrma.St.T h
      have hV := congrArg Ilrma.St.V h
      simp only at hT hV
      rw [hT] at hV
      simp only [Ilrma.updateSourceY, hT, hV]
    rw [e]
    refine exX_regular_iss2 _ (a := 1 / 4) (b := 1) (by norm_num) (by norm_num) (by norm_num) ?_
    funext k s
    simp only [Ilrma.varphi, Ilrma.gaussME, Ilrma.recon, exS, Finset.univ_unique, Finset.sum_singleton]
    fin_cases k <;> fin_cases s <;> norm_num
  · rintro ⟨r, hr⟩
    exact absurd hr (by simp)

example (np np' : Numpy ℂ) : ∃ s₁ s₁',
    iterM (Ilrma.updateOnceYP np Ilrma.gaussME 2 (.iss2 [(0, 1)]) .power id) 1 ⟨exX, exSP.Z, exSP.T, exSP.V⟩ = .ok s₁ ∧
    iterM (Ilrma.updateOnceYP np' Ilrma.gaussME 2 (.iss2 [(0, 1)]) .power id) 1 ⟨exX, exSP.Z, exSP.T, exSP.V⟩ = .ok s₁' ∧
    UpToPhase s₁.Y s₁'.Y ∧ s₁'.Z = s₁.Z ∧ s₁'.T = s₁.T ∧ s₁'.V = s₁.V ∧
    ∀ r, projectionBackData r s₁'.Y exX = projectionBackData r s₁.Y exX := by
  refine (C80_ilrma_iss2_partitioned np np' Ilrma.gaussME 2 .power (by simp) id [(0, 1)] exX
    ⟨exX, exSP.Z, exSP.T, exSP.V⟩ ⟨exX, exSP.Z, exSP.T, exSP.V⟩
    (UpToPhase.refl _) rfl rfl rfl 1 ⟨⟨?_, fun _ _ => trivial⟩, fun _ _ => trivial⟩).1
  have e : Ilrma.updateSourceYP Ilrma.gaussME id ⟨exX, exSP.Z, exSP.T, exSP.V⟩ = ⟨exX, exSP.Z, exSP.T, exSP.V⟩ := by
    have h := exSP_source
    simp only [Ilrma.updateSourceP, show exSP.W = 1 from rfl, exX_sep] at h
    have hZ := congrArg Ilrma.StP.Z h
    have hT := congrArg Ilrma.StP.T h
    have hV := congrArg Ilrma.StP.V h
    simp only at hZ hT hV
    rw [hZ] at hT
    rw [hZ, hT] at hV
    simp only [Ilrma.updateSourceYP, hZ, hT, hV]
  rw [e]
  refine exX_regular_iss2 _ (a := 1 / 4) (b := 1) (by norm_num) (by norm_num) (by norm_num) ?_
  funext k s
  simp only [Ilrma.varphi, Ilrma.gaussME, Ilrma.reconP, exSP, Fin.sum_univ_two]
  fin_cases k <;> fin_cases s <;> norm_num

end EigPhase
end Verif
