import Verif.Lemmas.Trace
import Verif.Props.FastMnmf

/-! # C43, C44: Wiener outputs and trace normalisation of MNMF -/

set_option linter.unusedSectionVars false

namespace Verif.Mnmf

open Matrix Spatial Scale Ilrma Special
open scoped ComplexOrder

variable {F : Type} [Fintype F] {n m t K : ℕ}

theorem toPsd_max_fixed (np : Numpy ℂ) (eps : ℝ) {R : Mat m ℂ} (h : (R - (eps : ℂ) • (1 : Mat m ℂ)).PosSemidef) :
    toPsd np (max_flooring eps) R = R := by
  have hR : R.IsHermitian := by
    have h1 := h.1.add (show ((eps : ℂ) • (1 : Mat m ℂ)).IsHermitian by
      rw [IsHermitian, conjTranspose_smul, conjTranspose_one]; simp)
    simpa using h1
  have := C13_fixed np 2 eps R hR h
  simp only [to_psd] at this
  rw [if_pos (by constructor <;> simp)] at this
  exact Except.ok.inj this

theorem toPsd_id (np : Numpy ℂ) {R : Mat m ℂ} (h : R.IsHermitian) : toPsd np id R = R := by
  have := C13_no_floor np 2 R
  simp only [to_psd] at this
  rw [if_pos (by constructor <;> simp)] at this
  have e := Except.ok.inj this
  rw [h.eq, ← two_smul ℂ R, smul_smul, inv_mul_cancel₀ two_ne_zero, one_smul] at e
  exact e

theorem posDef_of_floor {eps : ℝ} (heps : 0 < eps) {R : Mat m ℂ} (h : (R - (eps : ℂ) • (1 : Mat m ℂ)).PosSemidef) :
    R.PosDef := by
  have : R = (R - (eps : ℂ) • (1 : Mat m ℂ)) + (eps : ℂ) • (1 : Mat m ℂ) := by simp
  rw [this]
  exact PosDef.posSemidef_add h (Tr.smul_posDef PosDef.one heps)

/-- The Wiener filters sum to the identity when the model covariance is left alone by `to_psd`. -/
theorem wiener_sum (np : Numpy ℂ) (floor : ℝ → ℝ) (r : Fin m) (Rn : Fin n → Mat m ℂ) (x : Fin m → ℂ)
    (hR : toPsd np floor (∑ k, Rn k) = ∑ k, Rn k) (hu : IsUnit (∑ k, Rn k).det) :
    ∃ y, wiener np floor r Rn x = .ok y ∧ ∑ k, y k = x r := by
  have h1 : (onBins fun k => npSolve (∑ k, Rn k) (Rn k)) = .ok fun k => (∑ k, Rn k)⁻¹ * Rn k :=
    onBins_ok fun k => by rw [npSolve, if_pos hu]
  refine ⟨fun k => ∑ c, ((∑ k, Rn k)⁻¹ * Rn k)ᴴ r c * x c, ?_, ?_⟩
  · simp only [wiener, hR, h1, bind, Except.bind]
  · rw [Finset.sum_comm]
    simp only [← Finset.sum_mul]
    have h2 : ∀ c, (∑ k, ((∑ k, Rn k)⁻¹ * Rn k)ᴴ r c) = (1 : Mat m ℂ) r c := by
      intro c
      rw [← Matrix.sum_apply, ← conjTranspose_sum, ← Finset.mul_sum, nonsing_inv_mul _ hu, conjTranspose_one]
    simp only [h2, one_apply, ite_mul, one_mul, zero_mul, Finset.sum_ite_eq, Finset.mem_univ, if_true]

/-- C43: the outputs of `GaussMNMF` sum to the reference channel, with the default kind of flooring, at every point
where all eigenvalues of the modelled covariance are at least the floor. -/
theorem C43_gauss_mnmf (np : Numpy ℂ) (eps : ℝ) (heps : 0 < eps) (r : Fin m) (X : Spec F m t)
    (Lamb : Fin n → F → Fin t → ℝ) (H : Fin n → F → Mat m ℂ)
    (hR : ∀ f j, ((∑ k, (Lamb k f j : ℂ) • H k f) - (eps : ℂ) • (1 : Mat m ℂ)).PosSemidef) :
    ∃ Y, fullSeparate np (max_flooring eps) r X Lamb H = .ok Y ∧ ∀ f j, ∑ k, Y f j k = X f r j := by
  have h : ∀ f j, ∃ y, wiener np (max_flooring eps) r (fullRn Lamb H f j) (fun c => X f c j) = .ok y ∧
      ∑ k, y k = X f r j := fun f j => wiener_sum np _ r _ _ (toPsd_max_fixed np eps (hR f j))
        (Tr.isUnit_det (posDef_of_floor heps (hR f j)))
  choose Y h1 h2 using h
  exact ⟨Y, onBins_ok fun f => onBins_ok fun j => h1 f j, h2⟩

/-- C43: without flooring (`flooring_fn=None`) the outputs of `GaussMNMF` sum to the reference channel for every
positive source model and all positive definite spatial covariances. -/
theorem C43_gauss_mnmf_unfloored [Nonempty (Fin n)] (np : Numpy ℂ) (r : Fin m) (X : Spec F m t)
    (Lamb : Fin n → F → Fin t → ℝ) (hL : ∀ k f j, 0 < Lamb k f j) (H : Fin n → F → Mat m ℂ)
    (hH : ∀ k f, (H k f).PosDef) :
    ∃ Y, fullSeparate np id r X Lamb H = .ok Y ∧ ∀ f j, ∑ k, Y f j k = X f r j := by
  have h : ∀ f j, ∃ y, wiener np id r (fullRn Lamb H f j) (fun c => X f c j) = .ok y ∧ ∑ k, y k = X f r j := by
    intro f j
    have hp : (∑ k, fullRn Lamb H f j k).PosDef := Tr.sum_posDef fun k => Tr.smul_posDef (hH k f) (hL k f j)
    exact wiener_sum np _ r _ _ (toPsd_id np hp.1) (Tr.isUnit_det hp)
  choose Y h1 h2 using h
  exact ⟨Y, onBins_ok fun f => onBins_ok fun j => h1 f j, h2⟩

theorem fastRn_eq (Qi : F → Mat m ℂ) (s : FSt F n m t K) (f : F) (j : Fin t) (k : Fin n) :
    fastRn Qi s f j k = Qi f * diagonal (fun c => ((recon s.T s.V k f j * s.D f k c : ℝ) : ℂ)) * (Qi f)ᴴ := by
  ext a b
  rw [mul_apply]
  simp only [fastRn, of_apply, mul_diagonal]
  exact Finset.sum_congr rfl fun c _ => by ring

/-- C43: the same for `FastGaussMNMF` with flooring. -/
theorem C43_fast_mnmf (np : Numpy ℂ) (eps : ℝ) (heps : 0 < eps) (r : Fin m) (X : Spec F m t) (s : FSt F n m t K)
    (hQ : ∀ f, IsUnit (s.Q f).det)
    (hR : ∀ f j, ((∑ k, (s.Q f)⁻¹ * diagonal (fun c => (((∑ b, s.T k f b * s.V k b j) * s.D f k c : ℝ) : ℂ))
      * ((s.Q f)⁻¹)ᴴ) - (eps : ℂ) • (1 : Mat m ℂ)).PosSemidef) :
    ∃ Y, fastSeparate np (max_flooring eps) r X s = .ok Y ∧ ∀ f j, ∑ k, Y f j k = X f r j := by
  have hR' : ∀ f j, (∑ k, fastRn (fun f => (s.Q f)⁻¹) s f j k - (eps : ℂ) • (1 : Mat m ℂ)).PosSemidef := by
    intro f j
    have := hR f j
    simp only [fastRn_eq]
    exact this
  have h : ∀ f j, ∃ y, wiener np (max_flooring eps) r (fastRn (fun f => (s.Q f)⁻¹) s f j) (fun c => X f c j) = .ok y ∧
      ∑ k, y k = X f r j := fun f j => wiener_sum np _ r _ _ (toPsd_max_fixed np eps (hR' f j))
        (Tr.isUnit_det (posDef_of_floor heps (hR' f j)))
  choose Y h1 h2 using h
  refine ⟨Y, ?_, h2⟩
  rw [fastSeparate, npInvB, if_pos hQ]
  exact onBins_ok fun f => onBins_ok fun j => h1 f j

/-- C43: the same for `FastGaussMNMF` without flooring, for all positive parameters. -/
theorem C43_fast_mnmf_unfloored [Nonempty (Fin K)] [Nonempty (Fin n)] (np : Numpy ℂ) (r : Fin m) (X : Spec F m t)
    (s : FSt F n m t K) (hs : FInv s) :
    ∃ Y, fastSeparate np id r X s = .ok Y ∧ ∀ f j, ∑ k, Y f j k = X f r j := by
  have h : ∀ f j, ∃ y, wiener np id r (fastRn (fun f => (s.Q f)⁻¹) s f j) (fun c => X f c j) = .ok y ∧
      ∑ k, y k = X f r j := by
    intro f j
    have hp : (∑ k, fastRn (fun f => (s.Q f)⁻¹) s f j k).PosDef := by
      refine Tr.sum_posDef fun k => ?_
      rw [fastRn_eq]
      refine PosDef.mul_mul_conjTranspose_same (PosDef.diagonal fun c => ?_) ?_
      · exact Complex.zero_lt_real.mpr (mul_pos (recon_pos hs.2.1 hs.2.2.1 k f j) (hs.2.2.2 f k c))
      · rw [vecMul_injective_iff_isUnit, isUnit_nonsing_inv_iff]
        exact (isUnit_iff_isUnit_det _).mpr (hs.1 f)
    exact wiener_sum np _ r _ _ (toPsd_id np hp.1) (Tr.isUnit_det hp)
  choose Y h1 h2 using h
  refine ⟨Y, ?_, h2⟩
  rw [fastSeparate, npInvB, if_pos hs.1]
  exact onBins_ok fun f => onBins_ok fun j => h1 f j

/-- Two sources, two channels, a floor that is not reached. -/
example (np : Numpy ℂ) (r : Fin 2) (X : Spec Unit 2 3) :
    ∃ Y, fullSeparate np (max_flooring (1 / 10)) r X (fun k _ j => (k : ℝ) + 1 + j) (fun (_ : Fin 2) _ => 1) = .ok Y ∧
      ∀ f j, ∑ k, Y f j k = X f r j := by
  refine C43_gauss_mnmf np _ (by norm_num) r X _ _ fun _ j => ?_
  have e : (∑ k : Fin 2, (((k : ℝ) + 1 + j : ℝ) : ℂ) • (1 : Mat 2 ℂ)) - ((1 / 10 : ℝ) : ℂ) • (1 : Mat 2 ℂ)
      = ((29 / 10 + 2 * j : ℝ) : ℂ) • (1 : Mat 2 ℂ) := by
    rw [Fin.sum_univ_two, ← add_smul, ← sub_smul]
    congr 1
    push_cast
    simp
    ring
  rw [e]
  exact (Tr.smul_posDef PosDef.one (by positivity)).posSemidef

/-! ## C44 -/

theorem fullR_normalize (s : MSt F n m t K) (htr : ∀ k f, (s.H k f).trace.re ≠ 0) (f : F) (j : Fin t) (k : Fin n) :
    fullRn (recon (fullNormalize s).T (fullNormalize s).V) (fullNormalize s).H f j k
      = fullRn (recon s.T s.V) s.H f j k := by
  have hne : ((s.H k f).trace.re : ℂ) ≠ 0 := by exact_mod_cast htr k f
  simp only [fullRn, fullNormalize, recon, mul_assoc, ← Finset.mul_sum, smul_smul]
  congr 1
  push_cast
  field_simp

/-- C44: without partitioning, normalisation leaves the covariance of every source at every point, the loss and the
outputs unchanged. -/
theorem C44_unchanged (np : Numpy ℂ) (floor : ℝ → ℝ) (r : Fin m) (X : Spec F m t) (XX : F → Fin t → Mat m ℂ)
    (s : MSt F n m t K) (htr : ∀ k f, (s.H k f).trace.re ≠ 0) :
    (∀ k f j, ((∑ b, (fullNormalize s).T k f b * (fullNormalize s).V k b j : ℝ) : ℂ) • (fullNormalize s).H k f
      = ((∑ b, s.T k f b * s.V k b j : ℝ) : ℂ) • s.H k f) ∧
    fullLoss np floor XX (recon (fullNormalize s).T (fullNormalize s).V) (fullNormalize s).H
      = fullLoss np floor XX (recon s.T s.V) s.H ∧
    fullSeparate np floor r X (recon (fullNormalize s).T (fullNormalize s).V) (fullNormalize s).H
      = fullSeparate np floor r X (recon s.T s.V) s.H := by
  have h := fullR_normalize s htr
  refine ⟨fun k f j => h f j k, ?_, ?_⟩
  · simp only [fullLoss, fullR, h]
  · have h' : ∀ f j, fullRn (recon (fullNormalize s).T (fullNormalize s).V) (fullNormalize s).H f j
        = fullRn (recon s.T s.V) s.H f j := fun f j => funext (h f j)
    simp only [fullSeparate, h']

/-- C44: normalisation makes the real part of every trace one, hence the trace itself one for Hermitian covariances,
and a second normalisation changes nothing. -/
theorem C44_unit_trace (s : MSt F n m t K) (htr : ∀ k f, (s.H k f).trace.re ≠ 0) :
    (∀ k f, ((fullNormalize s).H k f).trace.re = 1) ∧
    (∀ k f, (s.H k f).IsHermitian → ((fullNormalize s).H k f).trace = 1) ∧
    fullNormalize (fullNormalize s) = fullNormalize s := by
  have h1 : ∀ k f, ((fullNormalize s).H k f).trace.re = 1 := by
    intro k f
    simp only [fullNormalize, trace_smul, smul_eq_mul, ← Complex.ofReal_inv, Complex.re_ofReal_mul]
    exact inv_mul_cancel₀ (htr k f)
  refine ⟨h1, fun k f hH => ?_, ?_⟩
  · have him : (s.H k f).trace.im = 0 := by
      have := congrArg trace hH.eq
      rw [trace_conjTranspose] at this
      exact Complex.conj_eq_iff_im.mp this
    refine Complex.ext (h1 k f) ?_
    simp only [fullNormalize, trace_smul, smul_eq_mul, ← Complex.ofReal_inv, Complex.im_ofReal_mul, him, mul_zero,
      Complex.one_im]
  · conv_lhs => rw [fullNormalize]
    simp only [h1, Complex.ofReal_one, inv_one, one_smul, one_mul]

/-- C44: with partitioning the traces become one but the modelled covariances are divided by them, so loss and output
change in general. -/
theorem C44_partitioned (s : MStP F n m t K) (htr : ∀ k f, (s.H k f).trace.re ≠ 0) :
    (∀ k f, ((fullNormalizeP s).H k f).trace.re = 1) ∧
    ∀ k f j, fullRn (reconP (fullNormalizeP s).Z (fullNormalizeP s).T (fullNormalizeP s).V) (fullNormalizeP s).H f j k
      = (((s.H k f).trace.re : ℂ))⁻¹ • fullRn (reconP s.Z s.T s.V) s.H f j k := by
  refine ⟨fun k f => ?_, fun k f j => ?_⟩
  · simp only [fullNormalizeP, trace_smul, smul_eq_mul, ← Complex.ofReal_inv, Complex.re_ofReal_mul]
    exact inv_mul_cancel₀ (htr k f)
  · simp only [fullRn, fullNormalizeP, smul_smul]
    congr 1
    ring

example : ∀ (k : Fin 2) (f : Unit),
    ((⟨fun _ _ _ => 1, fun _ _ _ => 1, fun k _ => ((k : ℂ) + 1) • 1⟩ : MSt Unit 2 2 3 1).H k f).trace.re ≠ 0 := by
  intro k f
  fin_cases k <;> norm_num [trace_smul]

end Verif.Mnmf
