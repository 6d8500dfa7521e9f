import Verif.Lemmas.MnmfMix
import Verif.Props.Direction

/-! # cACGMM parameters of a remixed recording

Lemmas for C115. -/

set_option linter.unusedSectionVars false

namespace Verif.CacgmmMix

open Matrix Spatial Scale Cacgmm Mnmf
open MnmfMix (cong cong_smul cong_sum cong_cong cong_one cong_inv cong_posDef isUnit_conj)
open scoped ComplexOrder

variable {F : Type} [Fintype F] {n m t : ℕ}

/-- The parameters for the channels mixed by `A`, with covariances on other scales. -/
noncomputable def mix (A : F → Mat m ℂ) (c : Fin (n + 1) → F → ℝ) (s : CSt F n m) : CSt F n m :=
  ⟨s.α, fun k f => (c k f : ℂ) • cong (A f) (s.B k f)⟩

theorem mix_mix (A B : F → Mat m ℂ) (c d : Fin (n + 1) → F → ℝ) (s : CSt F n m) :
    mix A c (mix B d s) = mix (fun f => A f * B f) (fun k f => c k f * d k f) s := by
  simp only [mix, cong_smul, cong_cong, smul_smul, Complex.ofReal_mul]

theorem mix_one (s : CSt F n m) : mix (fun _ => 1) (fun _ _ => 1) s = s := by
  simp only [mix, cong_one, Complex.ofReal_one, one_smul]

theorem normalize_eq (s : CSt F n m) : normalize s = mix (fun _ => 1) (fun k f => (s.B k f).trace.re⁻¹) s := by
  simp only [Cacgmm.normalize, mix, cong_one, Complex.ofReal_inv]

/-- Normalised or not. -/
theorem norm_mix [Nonempty (Fin m)] (norm : Bool) {s : CSt F n m} (hs : CPos s) :
    ∃ c : Fin (n + 1) → F → ℝ, (∀ k f, 0 < c k f) ∧ (if norm then normalize s else s) = mix (fun _ => 1) c s := by
  cases norm
  · exact ⟨fun _ _ => 1, fun _ _ => one_pos, (mix_one s).symm⟩
  · exact ⟨_, fun k f => inv_pos.mpr (Complex.lt_def.mp (hs.2 k f).trace_pos).1, normalize_eq s⟩

section
variable {A : F → Mat m ℂ} (hA : ∀ f, IsUnit (A f).det) {c : Fin (n + 1) → F → ℝ} (hc : ∀ k f, 0 < c k f)
  {ν : F → Fin t → ℝ} (hν : ∀ f j, 0 < ν f j) {Z Z' : F → Fin t → Fin m → ℂ}
  (hZ : ∀ f j, Z' f j = ((ν f j)⁻¹ : ℂ) • (A f *ᵥ Z f j))
include hA hc

theorem pos_mix {s : CSt F n m} (hs : CPos s) : CPos (mix A c s) :=
  ⟨hs.1, fun k f => Tr.smul_posDef (cong_posDef (hA f) (hs.2 k f)) (hc k f)⟩

include hν hZ

theorem q_mix {s : CSt F n m} (hs : CPos s) (k : Fin (n + 1)) (f : F) (j : Fin t) :
    q Z' (mix A c s) k f j = q Z s k f j / (c k f * ν f j ^ 2) := by
  have hcc : (c k f : ℂ) ≠ 0 := by exact_mod_cast (hc k f).ne'
  have e1 : ((c k f : ℂ) • cong (A f) (s.B k f))⁻¹ = ((c k f : ℂ))⁻¹ • cong ((A f)ᴴ)⁻¹ (s.B k f)⁻¹ := by
    rw [← cong_inv]
    have := invertibleOfNonzero hcc
    rw [Matrix.inv_smul _ _ (Tr.isUnit_det (cong_posDef (hA f) (hs.2 k f))), invOf_eq_inv]
  have e2 : cong ((A f)ᴴ)⁻¹ (s.B k f)⁻¹ *ᵥ (A f *ᵥ Z f j) = ((A f)ᴴ)⁻¹ *ᵥ ((s.B k f)⁻¹ *ᵥ Z f j) := by
    rw [cong, conjTranspose_nonsing_inv, conjTranspose_conjTranspose, mulVec_mulVec, nonsing_inv_mul_cancel_right _ _ (hA f),
      mulVec_mulVec]
  have e3 : Linalg.quadratic (Z' f j) ((mix A c s).B k f)⁻¹
      = ((((c k f * ν f j ^ 2)⁻¹ : ℝ)) : ℂ) * Linalg.quadratic (Z f j) (s.B k f)⁻¹ := by
    simp only [Linalg.quadratic, ← dotProduct_mulVec, mix]
    rw [e1, hZ, smul_mulVec, mulVec_smul, e2, star_smul, star_mulVec, dotProduct_smul, dotProduct_smul, smul_dotProduct,
      ← dotProduct_mulVec, mulVec_mulVec, mul_nonsing_inv _ (isUnit_conj (hA f)), one_mulVec]
    simp only [smul_eq_mul, RCLike.star_def, map_inv₀, Complex.conj_ofReal]
    push_cast
    ring
  rw [q, e3, Complex.re_ofReal_mul, q]
  ring

theorem inv_mix {s : CSt F n m} (hs : CInv id Z s) : CInv id Z' (mix A c s) := by
  refine ⟨pos_mix hA hc hs.1, hs.2.1, fun k f j => ⟨?_, rfl⟩⟩
  rw [q_mix hA hc hν hZ hs.1]
  exact div_pos (hs.2.2 k f j).1 (mul_pos (hc k f) (pow_pos (hν f j) 2))

/-- The logarithms of the unnormalised posteriors of all sources are shifted alike. -/
theorem logGamma_mix {s : CSt F n m} (hs : CInv id Z s) (f : F) (j : Fin t) (k : Fin (n + 1)) :
    logGamma (mix A c s) (q Z' (mix A c s)) f j k
      = logGamma s (q Z s) f j k + (2 * m * Real.log (ν f j) - 2 * Real.log ‖(A f).det‖) := by
  have hd := norm_ne_zero_iff.mpr (Tr.isUnit_det (hs.1.2 k f)).ne_zero
  have ha := norm_ne_zero_iff.mpr (hA f).ne_zero
  have e1 : Real.log ‖((mix A c s).B k f).det‖
      = m * Real.log (c k f) + (2 * Real.log ‖(A f).det‖ + Real.log ‖(s.B k f).det‖) := by
    simp only [mix, det_smul, Fintype.card_fin, cong, det_mul, det_conjTranspose, norm_mul, norm_pow, norm_star, Complex.norm_real]
    rw [Real.norm_of_nonneg (hc k f).le, Real.log_mul (pow_ne_zero _ (hc k f).ne') (mul_ne_zero (mul_ne_zero ha hd) ha),
      Real.log_mul (mul_ne_zero ha hd) ha, Real.log_mul ha hd, Real.log_pow]
    ring
  have hp := pow_pos (hν f j) 2
  simp only [logGamma, e1, q_mix hA hc hν hZ hs.1]
  rw [Real.log_div (hs.2.2 k f j).1.ne' (mul_pos (hc k f) hp).ne', Real.log_mul (hc k f).ne' hp.ne', Real.log_pow]
  simp only [mix]
  push_cast
  ring

theorem post_mix {s : CSt F n m} (hs : CInv id Z s) : post id Z' (mix A c s) = post id Z s := by
  funext k f j
  simp only [post, quadForm_eq hs, quadForm_eq (inv_mix hA hc hν hZ hs)]
  have : logGamma (mix A c s) (q Z' (mix A c s)) f j
      = fun k => logGamma s (q Z s) f j k + (2 * m * Real.log (ν f j) - 2 * Real.log ‖(A f).det‖) :=
    funext fun k => logGamma_mix hA hc hν hZ hs f j k
  rw [this, Special.C12_softmax_shift]

theorem raw_mix {s : CSt F n m} (hs : CPos s) (γ : Posterior F n t) (k : Fin (n + 1)) (f : F) :
    rawCovariance Z' (q Z' (mix A c s)) γ k f = (c k f : ℂ) • cong (A f) (rawCovariance Z (q Z s) γ k f) := by
  have e : ∀ j, (Matrix.of fun a b => Z' f j a * star (Z' f j b))
      = (((ν f j ^ 2)⁻¹ : ℝ) : ℂ) • cong (A f) (Matrix.of fun a b => Z f j a * star (Z f j b)) := by
    intro j
    have h1 : (Matrix.of fun a b => Z' f j a * star (Z' f j b)) = vecMulVec (Z' f j) (star (Z' f j)) := rfl
    have h2 : (Matrix.of fun a b => Z f j a * star (Z f j b)) = vecMulVec (Z f j) (star (Z f j)) := rfl
    rw [h1, h2, hZ, star_smul, star_mulVec, smul_vecMulVec, vecMulVec_smul, smul_smul, cong, mul_vecMulVec, vecMulVec_mul]
    congr 1
    simp only [RCLike.star_def, map_inv₀, Complex.conj_ofReal]
    push_cast
    ring
  simp only [rawCovariance, e, cong_smul, cong_sum, smul_smul, q_mix hA hc hν hZ hs]
  rw [Finset.smul_sum, Finset.smul_sum]
  refine Finset.sum_congr rfl fun j _ => ?_
  rw [smul_smul, smul_smul]
  congr 1
  have h1 : (c k f : ℂ) ≠ 0 := by exact_mod_cast (hc k f).ne'
  have h2 : (ν f j : ℂ) ≠ 0 := by exact_mod_cast (hν f j).ne'
  push_cast
  rw [div_div_eq_mul_div]
  field_simp

/-- The loss of the mixed parameters. -/
theorem val_mix (ht : 0 < t) {s : CSt F n m} (hs : CInv id Z s) :
    val Z' (mix A c s) = val Z s + ∑ f, (2 * Real.log ‖(A f).det‖ - 2 * m * meanT fun j => Real.log (ν f j)) := by
  have ht' : (t : ℝ) ≠ 0 := by exact_mod_cast ht.ne'
  rw [val, val, ← Finset.sum_add_distrib]
  refine Finset.sum_congr rfl fun f _ => ?_
  have h : ∀ j, -Real.log (∑ k, Real.exp (logGamma (mix A c s) (q Z' (mix A c s)) f j k))
      = -Real.log (∑ k, Real.exp (logGamma s (q Z s) f j k)) + (2 * Real.log ‖(A f).det‖ - 2 * m * Real.log (ν f j)) := by
    intro j
    simp only [logGamma_mix hA hc hν hZ hs]
    rw [← Special.C12_logsumexp_eq, ← Special.C12_logsumexp_eq, Special.C12_logsumexp_shift]
    ring
  simp only [h, meanT, Finset.sum_add_distrib, Finset.sum_sub_distrib, Finset.sum_const, Finset.card_univ, Fintype.card_fin,
    nsmul_eq_mul, ← Finset.mul_sum]
  field_simp

end

end Verif.CacgmmMix
