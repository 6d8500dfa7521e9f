import Verif.Model.Ipa
import Verif.Props.Lqpqm
import Verif.Props.Iss

/-! # The problem solved by one IPA step -/

namespace Verif.Spatial

open Matrix Verif.Lqpqm
open scoped ComplexOrder

variable {n t : ℕ}

/-! ## The Schur complement -/

theorem dot_tilde (idx : Fin (n + 2)) (r : Fin (n + 2) → ℂ) (q : Fin (n + 1) → ℂ) :
    r ⬝ᵥ ipaTilde idx q = r idx - ∑ j, r (idx.succAbove j) * star (q j) := by
  rw [dotProduct, Fin.sum_univ_succAbove _ idx, ipaTilde, Fin.insertNth_apply_same, mul_one, sub_eq_add_neg,
    ← Finset.sum_neg_distrib]
  congr 1
  refine Finset.sum_congr rfl fun j _ => ?_
  rw [Fin.insertNth_apply_succAbove, mul_neg]

theorem ipaC_posDef {M : Mat (n + 2) ℂ} (hM : M.PosDef) (idx : Fin (n + 2)) : (ipaC M idx).PosDef := by
  have h1 : (M.submatrix idx.succAbove idx.succAbove).PosDef := hM.submatrix Fin.succAbove_right_injective
  have h2 := h1.transpose
  have e : ipaC M idx = (M.submatrix idx.succAbove idx.succAbove)ᵀ := by
    ext i j
    have := congrFun (congrFun hM.1 (idx.succAbove j)) (idx.succAbove i)
    rw [conjTranspose_apply] at this
    rw [ipaC, of_apply, transpose_apply, submatrix_apply, this]
  rw [e]
  exact h2

/-- Completing the square in the denominator. -/
theorem schur_quad {M : Mat (n + 2) ℂ} (hM : M.PosDef) (idx : Fin (n + 2)) {x : Fin (n + 1) → ℂ}
    (hx : ipaC M idx *ᵥ x = ipaD M idx) (q : Fin (n + 1) → ℂ) :
    (star (ipaTilde idx q) ⬝ᵥ M *ᵥ ipaTilde idx q).re =
      (star (q - x) ⬝ᵥ ipaC M idx *ᵥ (q - x)).re + ((M idx idx).re - (∑ i, star (ipaD M idx i) * x i).re) := by
  have hC := (ipaC_posDef hM idx).1
  obtain ⟨d, hd⟩ : ∃ d, d = ipaD M idx := ⟨_, rfl⟩
  -- left-hand side
  have hrow : M *ᵥ ipaTilde idx q = fun c => M c idx - ∑ j, M c (idx.succAbove j) * star (q j) := by
    funext c
    exact dot_tilde idx (M c) q
  have hdi : ∀ j, M idx (idx.succAbove j) = d j := by
    intro j
    have := congrFun (congrFun hM.1 idx) (idx.succAbove j)
    rw [conjTranspose_apply] at this
    rw [hd, ipaD, this]
  have hl : star (ipaTilde idx q) ⬝ᵥ M *ᵥ ipaTilde idx q =
      M idx idx - star q ⬝ᵥ d - star (star q ⬝ᵥ d) + star (star q ⬝ᵥ ipaC M idx *ᵥ q) := by
    rw [← dotProduct_comm, hrow, dotProduct, Fin.sum_univ_succAbove _ idx]
    have h1 : ∀ c, star (ipaTilde idx q) (idx.succAbove c) = -q c := by
      intro c
      rw [Pi.star_apply, ipaTilde, Fin.insertNth_apply_succAbove, star_neg, star_star]
    have h2 : star (ipaTilde idx q) idx = 1 := by
      rw [Pi.star_apply, ipaTilde, Fin.insertNth_apply_same, star_one]
    simp only [h1, h2, mul_one]
    have e1 : ∑ j, M idx (idx.succAbove j) * star (q j) = star q ⬝ᵥ d := by
      rw [dotProduct]
      refine Finset.sum_congr rfl fun j _ => ?_
      rw [hdi, mul_comm]
      rfl
    have e2 : ∑ c, M (idx.succAbove c) idx * -q c = -star (star q ⬝ᵥ d) := by
      rw [dotProduct, star_sum, ← Finset.sum_neg_distrib]
      refine Finset.sum_congr rfl fun c _ => ?_
      rw [hd, ipaD, star_mul', Pi.star_apply, star_star, star_star]
      ring
    have e3 : ∑ c, (∑ j, M (idx.succAbove c) (idx.succAbove j) * star (q j)) * -q c =
        -star (star q ⬝ᵥ ipaC M idx *ᵥ q) := by
      rw [dotProduct, star_sum, ← Finset.sum_neg_distrib]
      refine Finset.sum_congr rfl fun c _ => ?_
      rw [star_mul', Pi.star_apply, star_star, mulVec, dotProduct, star_sum]
      rw [mul_neg, mul_comm]
      congr 2
      refine Finset.sum_congr rfl fun j _ => ?_
      rw [star_mul', ipaC, of_apply, star_star]
    have e4 : ∑ c, (M (idx.succAbove c) idx - ∑ j, M (idx.succAbove c) (idx.succAbove j) * star (q j)) * -q c =
        -star (star q ⬝ᵥ d) + star (star q ⬝ᵥ ipaC M idx *ᵥ q) := by
      simp only [sub_mul, Finset.sum_sub_distrib]
      rw [e2, e3]
      ring
    rw [e1, e4]
    ring
  have hxq : star x ⬝ᵥ ipaC M idx *ᵥ q = star (star q ⬝ᵥ d) := by
    rw [hd, ← hx, star_dotProduct, star_mulVec, hC.eq, ← dotProduct_mulVec]
  have hr : star (q - x) ⬝ᵥ ipaC M idx *ᵥ (q - x) =
      star q ⬝ᵥ ipaC M idx *ᵥ q - star q ⬝ᵥ d - star (star q ⬝ᵥ d) + star x ⬝ᵥ d := by
    rw [mulVec_sub, hx, star_sub, sub_dotProduct, dotProduct_sub, dotProduct_sub, hxq, hd]
    ring
  have hs : (∑ i, star (ipaD M idx i) * x i).re = (star x ⬝ᵥ d).re := by
    have : ∑ i, star (ipaD M idx i) * x i = star (star x ⬝ᵥ d) := by
      rw [dotProduct, star_sum, hd]
      refine Finset.sum_congr rfl fun i _ => ?_
      rw [star_mul', Pi.star_apply, star_star, mul_comm]
    rw [this]
    exact Complex.conj_re _
  rw [hl, hr, hs]
  simp only [Complex.add_re, Complex.sub_re]
  have hconj : ∀ a : ℂ, (star a).re = a.re := fun a => Complex.conj_re a
  rw [hconj, hconj]
  ring

/-! ## The matrices a step can choose from -/

/-- Row `idx` is free, the other rows differ from the identity in column `idx` only. -/
def StepForm (idx : Fin (n + 2)) (S : Mat (n + 2) ℂ) : Prop :=
  ∀ i j, i ≠ idx → j ≠ idx → S i j = (1 : Mat (n + 2) ℂ) i j

/-- The coefficients of the other rows. -/
def stepQ (idx : Fin (n + 2)) (S : Mat (n + 2) ℂ) (j : Fin (n + 1)) : ℂ := star (S (idx.succAbove j) idx)

theorem StepForm.row {idx : Fin (n + 2)} {S : Mat (n + 2) ℂ} (h : StepForm idx S) (j : Fin (n + 1)) :
    S (idx.succAbove j) = Pi.single (idx.succAbove j) 1 + star (stepQ idx S j) • Pi.single idx 1 := by
  funext c
  rw [Pi.add_apply, Pi.smul_apply, smul_eq_mul, stepQ, star_star]
  by_cases hc : c = idx
  · subst hc
    rw [Pi.single_eq_same, Pi.single_eq_of_ne (Fin.succAbove_ne c j).symm, mul_one, zero_add]
  · rw [h _ _ (Fin.succAbove_ne idx j) hc, Pi.single_eq_of_ne hc, mul_zero, add_zero, one_apply]
    by_cases e : idx.succAbove j = c
    · rw [if_pos e, ← e, Pi.single_eq_same]
    · rw [if_neg e, Pi.single_eq_of_ne (Ne.symm e)]

theorem StepForm.det {idx : Fin (n + 2)} {S : Mat (n + 2) ℂ} (h : StepForm idx S) :
    S.det = S idx ⬝ᵥ ipaTilde idx (stepQ idx S) := by
  obtain ⟨B, hB⟩ : ∃ B, B = S.updateRow idx (Pi.single idx 1) := ⟨_, rfl⟩
  have hS : S = B.updateRow idx (S idx) := by
    rw [hB, updateRow_idem, updateRow_eq_self]
  have hBe : B = (Matrix.of fun i j => (1 : Mat (n + 2) ℂ) i j - if j = idx then
      (if i = idx then 0 else -S i idx) else 0 : Mat (n + 2) ℂ) := by
    ext i j
    rw [of_apply, hB]
    by_cases hi : i = idx
    · subst hi
      rw [updateRow_self, if_pos rfl, ite_self, sub_zero, one_apply, Pi.single_apply]
      simp only [eq_comm]
    · rw [updateRow_ne hi, if_neg hi]
      by_cases hj : j = idx
      · subst hj
        rw [if_pos rfl, one_apply_ne hi]
        ring
      · rw [if_neg hj, sub_zero, h i j hi hj]
  have hdet : B.det = 1 := by
    rw [hBe, det_one_sub_col, if_pos rfl, sub_zero]
  have hBv : B *ᵥ ipaTilde idx (stepQ idx S) = Pi.single idx 1 := by
    funext c
    rw [mulVec, dot_tilde]
    by_cases hc : c = idx
    · subst hc
      rw [hB, updateRow_self, Pi.single_eq_same]
      rw [Finset.sum_eq_zero, sub_zero]
      intro j _
      rw [Pi.single_eq_of_ne (Fin.succAbove_ne c j), zero_mul]
    · obtain ⟨m, rfl⟩ := Fin.exists_succAbove_eq hc
      rw [hB, updateRow_ne hc, Pi.single_eq_of_ne hc]
      rw [Finset.sum_eq_single m]
      · rw [h.row m, stepQ, star_star]
        simp [Fin.succAbove_ne]
      · intro j _ hj
        rw [h _ _ hc (Fin.succAbove_ne idx j), one_apply_ne (fun e => hj (Fin.succAbove_right_injective e.symm)),
          zero_mul]
      · simp
  conv_lhs => rw [hS]
  rw [det_updateRow_eq hBv (by rw [hdet]; exact isUnit_one), hdet, one_mul]

theorem quad_two (U : Mat n ℂ) (hU : U.IsHermitian) (m i : Fin n) (c : ℂ) :
    quad U (Pi.single m 1 + c • Pi.single i 1) = (U m m).re + ‖c‖ ^ 2 * (U i i).re + 2 * (c * U i m).re := by
  have h1 : ∀ a b : Fin n, (Pi.single a (1 : ℂ) : Fin n → ℂ) ⬝ᵥ U *ᵥ star (Pi.single b (1 : ℂ) : Fin n → ℂ) = U a b := by
    intro a b
    have : star (Pi.single b (1 : ℂ) : Fin n → ℂ) = Pi.single b 1 := by
      funext j
      rw [Pi.star_apply, Pi.single_apply]
      split_ifs <;> simp
    rw [this, mulVec_single_one, single_one_dotProduct]
    rfl
  have h2 : U m i = star (U i m) := by
    have := congrFun (congrFun hU m) i
    rw [conjTranspose_apply] at this
    exact this.symm
  rw [quad, star_add, star_smul, mulVec_add, mulVec_smul, add_dotProduct, dotProduct_add, dotProduct_add,
    smul_dotProduct, smul_dotProduct, dotProduct_smul, dotProduct_smul, h1, h1, h1, h1, h2]
  simp only [smul_eq_mul, Complex.add_re]
  have e1 : (star c * star (U i m)).re = (c * U i m).re := by
    rw [← star_mul']
    exact Complex.conj_re _
  have e2 : (c * (star c * U i i)).re = ‖c‖ ^ 2 * (U i i).re := by
    rw [← mul_assoc]
    have : c * star c = ((‖c‖ ^ 2 : ℝ) : ℂ) := by
      rw [Complex.ofReal_pow, ← Complex.mul_conj']
      rfl
    rw [this, Complex.re_ofReal_mul]
  rw [e1, e2]
  ring

/-- The variable of the problem handed to `lqpqm2`. -/
noncomputable def checkOf (U : Fin (n + 2) → Mat (n + 2) ℂ) (idx : Fin (n + 2)) (q : Fin (n + 1) → ℂ) (j : Fin (n + 1)) :
    ℂ := (Real.sqrt (ipaA U idx j) : ℂ) * q j + ipaB U idx j / (Real.sqrt (ipaA U idx j) : ℂ)

theorem ipaA_pos {U : Fin (n + 2) → Mat (n + 2) ℂ} (hU : ∀ k, (U k).PosDef) (idx : Fin (n + 2)) (j : Fin (n + 1)) :
    0 < ipaA U idx j := (Complex.lt_def.1 ((hU (idx.succAbove j)).diag_pos (i := idx))).1

theorem norm_check {a : ℝ} (ha : 0 < a) (q b : ℂ) :
    ‖(Real.sqrt a : ℂ) * q + b / (Real.sqrt a : ℂ)‖ ^ 2 = ‖q‖ ^ 2 * a + 2 * (star q * b).re + ‖b‖ ^ 2 / a := by
  have hs : 0 < Real.sqrt a := Real.sqrt_pos.2 ha
  have hsq := Real.sq_sqrt ha.le
  obtain ⟨s, hse⟩ : ∃ s, s = Real.sqrt a := ⟨_, rfl⟩
  rw [← hse] at hs hsq ⊢
  rw [← hsq]
  have hb : b / (s : ℂ) = ((s⁻¹ : ℝ) : ℂ) * b := by
    rw [Complex.ofReal_inv]
    ring
  rw [hb]
  simp only [Complex.sq_norm, Complex.normSq_apply, Complex.add_re, Complex.add_im, Complex.mul_re, Complex.mul_im,
    Complex.ofReal_re, Complex.ofReal_im, zero_mul, sub_zero, add_zero]
  have h1 : (star q).re = q.re := Complex.conj_re q
  have h2 : (star q).im = -q.im := Complex.conj_im q
  rw [h1, h2]
  field_simp
  ring

/-- The part of the objective that no step changes. -/
noncomputable def ipaRest (U : Fin (n + 2) → Mat (n + 2) ℂ) (idx : Fin (n + 2)) : ℝ :=
  ∑ j, ((U (idx.succAbove j) (idx.succAbove j) (idx.succAbove j)).re - ‖ipaB U idx j‖ ^ 2 / ipaA U idx j)

theorem ipLoss_stepForm {U : Fin (n + 2) → Mat (n + 2) ℂ} (hU : ∀ k, (U k).PosDef) {idx : Fin (n + 2)}
    {S : Mat (n + 2) ℂ} (h : StepForm idx S) :
    ipLoss U S = quad (U idx) (S idx) - 2 * Real.log ‖S idx ⬝ᵥ ipaTilde idx (stepQ idx S)‖
      + ∑ j, ‖checkOf U idx (stepQ idx S) j‖ ^ 2 + ipaRest U idx := by
  rw [ipLoss, h.det, Fin.sum_univ_succAbove _ idx, ipaRest, add_assoc, ← Finset.sum_add_distrib]
  have : ∀ j, quad (U (idx.succAbove j)) (S (idx.succAbove j)) =
      ‖checkOf U idx (stepQ idx S) j‖ ^ 2 + ((U (idx.succAbove j) (idx.succAbove j) (idx.succAbove j)).re
        - ‖ipaB U idx j‖ ^ 2 / ipaA U idx j) := by
    intro j
    rw [h.row j, quad_two _ (hU _).1, checkOf, norm_check (ipaA_pos hU idx j), norm_star, ipaA, ipaB]
    ring
  rw [Finset.sum_congr rfl fun j _ => this j]
  ring

/-! ## The best step -/

/-- The arguments of `lqpqm2` without normalisation and without flooring. -/
noncomputable def exactProblem (U : Fin (n + 2) → Mat (n + 2) ℂ) (idx : Fin (n + 2)) : IpaProblem n :=
  let M := (U idx)⁻¹
  let x := (ipaC M idx)⁻¹ *ᵥ ipaD M idx
  ⟨Matrix.of fun i j => ipaC M idx i j / ((Real.sqrt (ipaA U idx i) * Real.sqrt (ipaA U idx j) : ℝ) : ℂ),
    fun i => -ipaB U idx i / (Real.sqrt (ipaA U idx i) : ℂ) - Real.sqrt (ipaA U idx i) * x i,
    (M idx idx).re - (∑ i, star (ipaD M idx i) * x i).re⟩

/-- The value under the logarithm. -/
theorem exactProblem_quad {U : Fin (n + 2) → Mat (n + 2) ℂ} (hU : ∀ k, (U k).PosDef) (idx : Fin (n + 2))
    (q : Fin (n + 1) → ℂ) :
    (star (checkOf U idx q + (exactProblem U idx).v) ⬝ᵥ
        (exactProblem U idx).H *ᵥ (checkOf U idx q + (exactProblem U idx).v)).re + (exactProblem U idx).z =
      (star (ipaTilde idx q) ⬝ᵥ (U idx)⁻¹ *ᵥ ipaTilde idx q).re := by
  have hM : ((U idx)⁻¹).PosDef := (hU idx).inv
  obtain ⟨M, hMe⟩ : ∃ M, M = (U idx)⁻¹ := ⟨_, rfl⟩
  rw [← hMe] at hM ⊢
  obtain ⟨x, hx⟩ : ∃ x, x = (ipaC M idx)⁻¹ *ᵥ ipaD M idx := ⟨_, rfl⟩
  have hC : IsUnit (ipaC M idx).det := (isUnit_iff_isUnit_det _).mp (ipaC_posDef hM idx).isUnit
  have hCx : ipaC M idx *ᵥ x = ipaD M idx := by
    rw [hx, mulVec_mulVec, mul_nonsing_inv _ hC, one_mulVec]
  rw [schur_quad hM idx hCx q]
  have hs : ∀ j, (Real.sqrt (ipaA U idx j) : ℂ) ≠ 0 := fun j => by
    exact_mod_cast (Real.sqrt_pos.2 (ipaA_pos hU idx j)).ne'
  have hv : ∀ j, checkOf U idx q j + (exactProblem U idx).v j = (Real.sqrt (ipaA U idx j) : ℂ) * (q j - x j) := by
    intro j
    simp only [checkOf, exactProblem, ← hMe, ← hx]
    ring
  have hH : ∀ i j, (exactProblem U idx).H i j =
      ipaC M idx i j / ((Real.sqrt (ipaA U idx i) : ℂ) * (Real.sqrt (ipaA U idx j) : ℂ)) := by
    intro i j
    simp only [exactProblem, ← hMe, of_apply]
    push_cast
    rfl
  have hz : (exactProblem U idx).z = (M idx idx).re - (∑ i, star (ipaD M idx i) * x i).re := by
    simp only [exactProblem, ← hMe, ← hx]
  rw [hz]
  congr 2
  rw [dotProduct, dotProduct]
  refine Finset.sum_congr rfl fun i _ => ?_
  rw [mulVec, mulVec, dotProduct, dotProduct, Finset.mul_sum, Finset.mul_sum]
  refine Finset.sum_congr rfl fun j _ => ?_
  rw [Pi.star_apply, Pi.star_apply, Pi.add_apply, Pi.add_apply, hv, hv, hH, star_mul', Pi.sub_apply, Pi.sub_apply]
  have : star (Real.sqrt (ipaA U idx i) : ℂ) = (Real.sqrt (ipaA U idx i) : ℂ) := Complex.conj_ofReal _
  rw [this]
  have h1 := hs i
  have h2 := hs j
  field_simp

theorem tilde_ne_zero (idx : Fin (n + 2)) (q : Fin (n + 1) → ℂ) : ipaTilde idx q ≠ 0 := by
  intro h
  have := congrFun h idx
  rw [ipaTilde, Fin.insertNth_apply_same] at this
  exact one_ne_zero this

/-- Every choice costs at least the value of the objective of `lqpqm2`. -/
theorem ipLoss_ge {U : Fin (n + 2) → Mat (n + 2) ℂ} (hU : ∀ k, (U k).PosDef) {idx : Fin (n + 2)}
    {S : Mat (n + 2) ℂ} (h : StepForm idx S) (hS : IsUnit S.det) :
    objective (exactProblem U idx).H (exactProblem U idx).v (exactProblem U idx).z (checkOf U idx (stepQ idx S))
      + 1 + ipaRest U idx ≤ ipLoss U S := by
  rw [ipLoss_stepForm hU h, objective, exactProblem_quad hU]
  obtain ⟨r, hr⟩ : ∃ r, r = S idx := ⟨_, rfl⟩
  obtain ⟨y, hy⟩ : ∃ y, y = ipaTilde idx (stepQ idx S) := ⟨_, rfl⟩
  have hdet : r ⬝ᵥ y ≠ 0 := by
    rw [hr, hy, ← h.det]
    exact hS.ne_zero
  have hr0 : r ≠ 0 := by
    rintro rfl
    rw [zero_dotProduct] at hdet
    exact hdet rfl
  rw [← hr, ← hy]
  have hU' := (isUnit_iff_isUnit_det _).mp (hU idx).isUnit
  obtain ⟨w, hw⟩ : ∃ w, w = star ((U idx)⁻¹ *ᵥ y) := ⟨_, rfl⟩
  have hUw : U idx *ᵥ star w = y := by
    rw [hw, star_star, mulVec_mulVec, mul_nonsing_inv _ hU', one_mulVec]
  have hq : quad (U idx) w = (star y ⬝ᵥ (U idx)⁻¹ *ᵥ y).re := by
    rw [quad, hUw, hw, star_mulVec, (hU idx).1.inv.eq, ← dotProduct_mulVec]
  have hw0 : w ≠ 0 := by
    rintro rfl
    rw [star_zero, mulVec_zero] at hUw
    rw [← hUw, dotProduct_zero] at hdet
    exact hdet rfl
  have hc := quad_cauchy (hU idx) r w
  rw [hUw, hq] at hc
  have hQ : 0 < (star y ⬝ᵥ (U idx)⁻¹ *ᵥ y).re := hq ▸ quad_pos (hU idx) hw0
  have hP := quad_pos (hU idx) hr0
  have hl := Real.log_le_log (by positivity) hc
  rw [Real.log_mul hP.ne' hQ.ne', Real.log_pow] at hl
  have hl2 := Real.log_le_sub_one_of_pos hP
  push_cast at hl
  linarith

/-- The value under the logarithm of the objective of `lqpqm2`. -/
noncomputable def inner (p : IpaProblem n) (y : Fin (n + 1) → ℂ) : ℝ := (star (y + p.v) ⬝ᵥ p.H *ᵥ (y + p.v)).re + p.z

theorem inner_pos {U : Fin (n + 2) → Mat (n + 2) ℂ} (hU : ∀ k, (U k).PosDef) (idx : Fin (n + 2)) (q : Fin (n + 1) → ℂ) :
    0 < inner (exactProblem U idx) (checkOf U idx q) := by
  rw [inner, exactProblem_quad hU]
  exact (hU idx).inv.re_dotProduct_pos (tilde_ne_zero idx q)

/-- The matrix of a step. -/
noncomputable def ipaT (U : Fin (n + 2) → Mat (n + 2) ℂ) (idx : Fin (n + 2)) (q_check : Fin (n + 1) → ℂ) : Mat (n + 2) ℂ :=
  let q := fun j => q_check j / ((Real.sqrt (ipaA U idx j) : ℝ) : ℂ) - ipaB U idx j / (ipaA U idx j : ℂ)
  Matrix.of fun k c => if k = idx then
      star (((U idx)⁻¹ *ᵥ ipaTilde idx q) c / (Real.sqrt (inner (exactProblem U idx) q_check) : ℂ))
    else (1 : Mat (n + 2) ℂ) k c + (idx.insertNth 0 (fun j => star (q j)) : Fin (n + 2) → ℂ) k *
      (1 : Mat (n + 2) ℂ) idx c

theorem checkOf_inv {U : Fin (n + 2) → Mat (n + 2) ℂ} (hU : ∀ k, (U k).PosDef) (idx : Fin (n + 2))
    (q_check : Fin (n + 1) → ℂ) :
    checkOf U idx (fun j => q_check j / ((Real.sqrt (ipaA U idx j) : ℝ) : ℂ) - ipaB U idx j / (ipaA U idx j : ℂ)) =
      q_check := by
  funext j
  have hs : (Real.sqrt (ipaA U idx j) : ℂ) ≠ 0 := by
    exact_mod_cast (Real.sqrt_pos.2 (ipaA_pos hU idx j)).ne'
  have ha : (ipaA U idx j : ℂ) = (Real.sqrt (ipaA U idx j) : ℂ) ^ 2 := by
    exact_mod_cast (Real.sq_sqrt (ipaA_pos hU idx j).le).symm
  rw [checkOf, ha]
  field_simp
  ring

theorem ipaT_form (U : Fin (n + 2) → Mat (n + 2) ℂ) (idx : Fin (n + 2)) (q_check : Fin (n + 1) → ℂ) :
    StepForm idx (ipaT U idx q_check) := by
  intro i j hi hj
  rw [ipaT, of_apply, if_neg hi, one_apply_ne (Ne.symm hj), mul_zero, add_zero]

theorem ipaT_q (U : Fin (n + 2) → Mat (n + 2) ℂ) (idx : Fin (n + 2)) (q_check : Fin (n + 1) → ℂ) :
    stepQ idx (ipaT U idx q_check) =
      fun j => q_check j / ((Real.sqrt (ipaA U idx j) : ℝ) : ℂ) - ipaB U idx j / (ipaA U idx j : ℂ) := by
  funext j
  rw [stepQ, ipaT, of_apply, if_neg (Fin.succAbove_ne idx j), one_apply_ne (Fin.succAbove_ne idx j), one_apply_eq,
    Fin.insertNth_apply_succAbove, zero_add, mul_one, star_star]

/-- The step reaches the lower bound. -/
theorem ipLoss_ipaT {U : Fin (n + 2) → Mat (n + 2) ℂ} (hU : ∀ k, (U k).PosDef) (idx : Fin (n + 2))
    (q_check : Fin (n + 1) → ℂ) :
    IsUnit (ipaT U idx q_check).det ∧ ipLoss U (ipaT U idx q_check) =
      objective (exactProblem U idx).H (exactProblem U idx).v (exactProblem U idx).z q_check + 1 + ipaRest U idx := by
  have hq := ipaT_q U idx q_check
  have hcheck := checkOf_inv hU idx q_check
  have hrow : ipaT U idx q_check idx = fun c => star (((U idx)⁻¹ *ᵥ ipaTilde idx (stepQ idx (ipaT U idx q_check))) c /
      (Real.sqrt (inner (exactProblem U idx) q_check) : ℂ)) := by
    funext c
    rw [hq]
    simp only [ipaT, of_apply, if_true]
  rw [← hq] at hcheck
  have hquad := exactProblem_quad hU idx (stepQ idx (ipaT U idx q_check))
  have hpos := inner_pos hU idx (stepQ idx (ipaT U idx q_check))
  rw [hcheck] at hquad hpos
  rw [← inner] at hquad
  obtain ⟨y, hy⟩ : ∃ y, y = ipaTilde idx (stepQ idx (ipaT U idx q_check)) := ⟨_, rfl⟩
  obtain ⟨Q, hQe⟩ : ∃ Q, Q = inner (exactProblem U idx) q_check := ⟨_, rfl⟩
  rw [← hQe, ← hy] at hrow
  rw [← hQe] at hquad hpos
  rw [← hy] at hquad
  have hrow' : ipaT U idx q_check idx = ((1 / Real.sqrt Q : ℝ) : ℂ) • star ((U idx)⁻¹ *ᵥ y) := by
    rw [hrow]
    funext c
    rw [Pi.smul_apply, Pi.star_apply, star_div₀, smul_eq_mul]
    have : star (Real.sqrt Q : ℂ) = (Real.sqrt Q : ℂ) := Complex.conj_ofReal _
    rw [this]
    push_cast
    ring
  have hU' := (isUnit_iff_isUnit_det _).mp (hU idx).isUnit
  have hquadw : quad (U idx) (star ((U idx)⁻¹ *ᵥ y)) = Q := by
    rw [hquad, quad, star_star, mulVec_mulVec, mul_nonsing_inv _ hU', one_mulVec, star_mulVec, (hU idx).1.inv.eq,
      ← dotProduct_mulVec]
  have hdot : star ((U idx)⁻¹ *ᵥ y) ⬝ᵥ y = (Q : ℂ) := by
    have := quad_eq (hU idx).1 (star ((U idx)⁻¹ *ᵥ y))
    rw [hquadw, star_star, mulVec_mulVec, mul_nonsing_inv _ hU', one_mulVec] at this
    exact this
  have hs := Real.sqrt_pos.2 hpos
  have hdot' : ipaT U idx q_check idx ⬝ᵥ y = (Real.sqrt Q : ℂ) := by
    rw [hrow', smul_dotProduct, hdot, smul_eq_mul, ← Complex.ofReal_mul]
    congr 1
    rw [div_mul_eq_mul_div, one_mul, div_eq_iff hs.ne', Real.mul_self_sqrt hpos.le]
  constructor
  · rw [(ipaT_form U idx q_check).det, ← hy, hdot', isUnit_iff_ne_zero]
    exact_mod_cast hs.ne'
  · rw [ipLoss_stepForm hU (ipaT_form U idx q_check), ← hy, hdot', hcheck, hrow', quad_smul, hquadw, objective]
    have e1 : ‖((1 / Real.sqrt Q : ℝ) : ℂ)‖ ^ 2 * Q = 1 := by
      rw [Complex.norm_real, Real.norm_eq_abs, sq_abs, div_pow, Real.sq_sqrt hpos.le, one_pow, one_div,
        inv_mul_cancel₀ hpos.ne']
    have e2 : Real.log ‖(Real.sqrt Q : ℂ)‖ = Real.log Q / 2 := by
      rw [Complex.norm_real, Real.norm_eq_abs, abs_of_pos hs, Real.log_sqrt hpos.le]
    have e3 : (star (q_check + (exactProblem U idx).v) ⬝ᵥ (exactProblem U idx).H *ᵥ
        (q_check + (exactProblem U idx).v)).re + (exactProblem U idx).z = Q := hQe.symm
    rw [e1, e2, e3]
    ring

/-- A minimiser of the problem gives the best step. -/
theorem ipaT_best {U : Fin (n + 2) → Mat (n + 2) ℂ} (hU : ∀ k, (U k).PosDef) {idx : Fin (n + 2)}
    {q_check : Fin (n + 1) → ℂ}
    (h : IsMinimiser (exactProblem U idx).H (exactProblem U idx).v (exactProblem U idx).z q_check)
    {S : Mat (n + 2) ℂ} (hf : StepForm idx S) (hS : IsUnit S.det) : ipLoss U (ipaT U idx q_check) ≤ ipLoss U S := by
  rw [(ipLoss_ipaT hU idx q_check).2]
  have := h.2 (checkOf U idx (stepQ idx S)) (inner_pos hU idx _)
  have := ipLoss_ge hU hf hS
  linarith

/-- What the code computes. -/
theorem ipaApply_eq {U : Fin (n + 2) → Mat (n + 2) ℂ} (hU : ∀ k, (U k).PosDef) (idx : Fin (n + 2))
    {floor : ℝ → ℝ} {q_check : Fin (n + 1) → ℂ}
    (hfl : floor (Real.sqrt (inner (exactProblem U idx) q_check)) = Real.sqrt (inner (exactProblem U idx) q_check))
    (Y : Matrix (Fin (n + 2)) (Fin t) ℂ) : ipaApply floor U idx q_check Y = .ok (ipaT U idx q_check * Y) := by
  have hU' := (isUnit_iff_isUnit_det _).mp (hU idx).isUnit
  have hquad := exactProblem_quad hU idx
    (fun j => q_check j / ((Real.sqrt (ipaA U idx j) : ℝ) : ℂ) - ipaB U idx j / (ipaA U idx j : ℂ))
  have hpos := inner_pos hU idx
    (fun j => q_check j / ((Real.sqrt (ipaA U idx j) : ℝ) : ℂ) - ipaB U idx j / (ipaA U idx j : ℂ))
  rw [checkOf_inv hU, ← inner] at hquad
  rw [checkOf_inv hU] at hpos
  simp only [ipaApply, solveVec_ok hU', bind, Except.bind]
  congr 1
  ext k s
  have hmax : max (∑ c, star (ipaTilde idx (fun j => q_check j / ((Real.sqrt (ipaA U idx j) : ℝ) : ℂ) -
      ipaB U idx j / (ipaA U idx j : ℂ)) c) * ((U idx)⁻¹ *ᵥ ipaTilde idx (fun j => q_check j /
        ((Real.sqrt (ipaA U idx j) : ℝ) : ℂ) - ipaB U idx j / (ipaA U idx j : ℂ))) c).re 0 =
      inner (exactProblem U idx) q_check := by
    rw [hquad] at hpos ⊢
    exact max_eq_left hpos.le
  rw [hmax, hfl, of_apply, mul_apply]
  simp only [ipaT, of_apply]
  by_cases hk : k = idx
  · subst hk
    simp only [if_true, Fin.insertNth_apply_same, zero_mul, add_zero]
    ring
  · simp only [if_neg hk, add_zero]
    simp only [add_mul, Finset.sum_add_distrib, one_apply, mul_ite, mul_one, mul_zero, ite_mul, one_mul, zero_mul,
      Finset.sum_ite_eq, Finset.mem_univ, if_true]

/-! ## The problem handed to `lqpqm2` -/

theorem psdInv_eq (np : Numpy ℂ) {floor : ℝ → ℝ} {X : Mat n ℂ} (hX : X.PosDef)
    (hfl : ∀ i, floor ((np.eigh X).1 i) = (np.eigh X).1 i) : psdInv np floor X = X⁻¹ := by
  have hs := np.eigh_spec _ hX.isHermitian
  have hpos := hs.posDef_iff.1 hX
  obtain ⟨P, hP⟩ : ∃ P, P = (np.eigh X).2 := ⟨_, rfl⟩
  obtain ⟨l, hl⟩ : ∃ l, l = (np.eigh X).1 := ⟨_, rfl⟩
  rw [← hP, ← hl] at hs
  rw [← hl] at hpos
  refine (inv_eq_right_inv ?_).symm
  simp only [psdInv, hfl, npDiag_eq]
  rw [← hP, ← hl]
  nth_rw 1 [hs.decomp]
  calc P * diagonal (fun i => (l i : ℂ)) * Pᴴ * (P * diagonal (fun i => ((1 / l i : ℝ) : ℂ)) * Pᴴ)
      = P * diagonal (fun i => (l i : ℂ)) * (Pᴴ * P) * (diagonal (fun i => ((1 / l i : ℝ) : ℂ)) * Pᴴ) := by
        simp only [Matrix.mul_assoc]
    _ = P * (diagonal (fun i => (l i : ℂ)) * diagonal (fun i => ((1 / l i : ℝ) : ℂ))) * Pᴴ := by
        rw [hs.unitary, Matrix.mul_one]
        simp only [Matrix.mul_assoc]
    _ = P * Pᴴ := by
        have : diagonal (fun i => (l i : ℂ)) * diagonal (fun i => ((1 / l i : ℝ) : ℂ)) = 1 := by
          rw [diagonal_mul_diagonal, ← diagonal_one]
          congr 1
          funext i
          have : (l i : ℂ) ≠ 0 := by exact_mod_cast (hpos i).ne'
          push_cast
          field_simp
        rw [this, Matrix.mul_one]
    _ = 1 := hs.unitary'

/-- Divide the problem by the trace of the matrix. -/
noncomputable def normalise (p : IpaProblem n) : IpaProblem n :=
  ⟨Matrix.of fun i j => p.H i j / ((∑ i, p.H i i).re : ℂ), p.v, p.z / (∑ i, p.H i i).re⟩

theorem ipaProblem_eq (np : Numpy ℂ) {floor : ℝ → ℝ} (normalization : Bool) {U : Fin (n + 2) → Mat (n + 2) ℂ}
    (hU : ∀ k, (U k).PosDef) (idx : Fin (n + 2))
    (hfl : ∀ i, floor ((np.eigh (U idx)).1 i) = (np.eigh (U idx)).1 i) :
    ipaProblem np floor normalization U idx =
      .ok (if normalization then normalise (exactProblem U idx) else exactProblem U idx) := by
  have hC : IsUnit (ipaC (U idx)⁻¹ idx).det := (isUnit_iff_isUnit_det _).mp (ipaC_posDef (hU idx).inv idx).isUnit
  simp only [ipaProblem, psdInv_eq np (hU idx) hfl, solveVec_ok hC, bind, Except.bind]
  cases normalization <;> rfl

theorem exactProblem_trace {U : Fin (n + 2) → Mat (n + 2) ℂ} (hU : ∀ k, (U k).PosDef) (idx : Fin (n + 2)) :
    0 < (∑ i, (exactProblem U idx).H i i).re := by
  rw [Complex.re_sum]
  refine Finset.sum_pos (fun i _ => ?_) Finset.univ_nonempty
  have h1 := (Complex.lt_def.1 ((ipaC_posDef (hU idx).inv idx).diag_pos (i := i))).1
  have h2 := Real.sqrt_pos.2 (ipaA_pos hU idx i)
  change 0 < (ipaC (U idx)⁻¹ idx i i / ((Real.sqrt (ipaA U idx i) * Real.sqrt (ipaA U idx i) : ℝ) : ℂ)).re
  rw [Complex.div_ofReal_re]
  exact div_pos h1 (mul_pos h2 h2)

theorem exactProblem_posDef {U : Fin (n + 2) → Mat (n + 2) ℂ} (hU : ∀ k, (U k).PosDef) (idx : Fin (n + 2)) :
    (exactProblem U idx).H.PosDef := by
  obtain ⟨D, hD⟩ : ∃ D : Mat (n + 1) ℂ, D = diagonal fun i => ((1 / Real.sqrt (ipaA U idx i) : ℝ) : ℂ) := ⟨_, rfl⟩
  have hDH : Dᴴ = D := by
    rw [hD, diagonal_conjTranspose]
    congr 1
    funext i
    exact Complex.conj_ofReal _
  have hDu : IsUnit D := by
    rw [isUnit_iff_isUnit_det, hD, det_diagonal, isUnit_iff_ne_zero, Finset.prod_ne_zero_iff]
    intro i _
    have := Real.sqrt_pos.2 (ipaA_pos hU idx i)
    exact_mod_cast (one_div_pos.2 this).ne'
  have e : (exactProblem U idx).H = D * ipaC (U idx)⁻¹ idx * star D := by
    rw [star_eq_conjTranspose, hDH, hD]
    ext i j
    rw [mul_diagonal, diagonal_mul]
    simp only [exactProblem, of_apply]
    push_cast
    have h1 := (Real.sqrt_pos.2 (ipaA_pos hU idx i)).ne'
    have h2 := (Real.sqrt_pos.2 (ipaA_pos hU idx j)).ne'
    have h1' : (Real.sqrt (ipaA U idx i) : ℂ) ≠ 0 := by exact_mod_cast h1
    have h2' : (Real.sqrt (ipaA U idx j) : ℂ) ≠ 0 := by exact_mod_cast h2
    field_simp
  rw [e, Matrix.IsUnit.posDef_star_right_conjugate_iff hDu]
  exact ipaC_posDef (hU idx).inv idx

theorem exactProblem_z {U : Fin (n + 2) → Mat (n + 2) ℂ} (hU : ∀ k, (U k).PosDef) (idx : Fin (n + 2)) :
    0 < (exactProblem U idx).z := by
  have h := inner_pos hU idx ((ipaC (U idx)⁻¹ idx)⁻¹ *ᵥ ipaD (U idx)⁻¹ idx)
  have : checkOf U idx ((ipaC (U idx)⁻¹ idx)⁻¹ *ᵥ ipaD (U idx)⁻¹ idx) + (exactProblem U idx).v = 0 := by
    funext j
    simp only [checkOf, exactProblem, Pi.add_apply, Pi.zero_apply]
    ring
  rw [inner, this, mulVec_zero, dotProduct_zero, Complex.zero_re, zero_add] at h
  exact h

theorem inner_normalise {p : IpaProblem n} (y : Fin (n + 1) → ℂ) :
    inner (normalise p) y = inner p y / (∑ i, p.H i i).re := by
  obtain ⟨τ, ht⟩ : ∃ τ, τ = (∑ i, p.H i i).re := ⟨_, rfl⟩
  have hH : (normalise p).H = ((τ⁻¹ : ℝ) : ℂ) • p.H := by
    ext i j
    rw [Matrix.smul_apply, smul_eq_mul, ht]
    simp only [normalise, of_apply]
    push_cast
    ring
  have hv : (normalise p).v = p.v := rfl
  have hz : (normalise p).z = p.z / τ := by rw [ht]; rfl
  rw [inner, inner, ← ht, hH, hv, hz, smul_mulVec, dotProduct_smul, smul_eq_mul, Complex.re_ofReal_mul]
  ring

theorem objective_normalise {p : IpaProblem n} (hτ : 0 < (∑ i, p.H i i).re) {y : Fin (n + 1) → ℂ} (hy : 0 < inner p y) :
    objective (normalise p).H (normalise p).v (normalise p).z y =
      objective p.H p.v p.z y + Real.log (∑ i, p.H i i).re := by
  have h1 : objective (normalise p).H (normalise p).v (normalise p).z y =
      ∑ i, ‖y i‖ ^ 2 - Real.log (inner (normalise p) y) := rfl
  have h2 : objective p.H p.v p.z y = ∑ i, ‖y i‖ ^ 2 - Real.log (inner p y) := rfl
  rw [h1, h2, inner_normalise, Real.log_div hy.ne' hτ.ne']
  ring

/-- Dividing by the trace does not change the minimisers. -/
theorem isMinimiser_normalise {p : IpaProblem n} (hτ : 0 < (∑ i, p.H i i).re) {q : Fin (n + 1) → ℂ} :
    IsMinimiser (normalise p).H (normalise p).v (normalise p).z q ↔ IsMinimiser p.H p.v p.z q := by
  have hin : ∀ y, 0 < inner (normalise p) y ↔ 0 < inner p y := fun y => by
    rw [inner_normalise, div_pos_iff_of_pos_right hτ]
  have hl : IsMinimiser (normalise p).H (normalise p).v (normalise p).z q ↔ 0 < inner (normalise p) q ∧
      ∀ y, 0 < inner (normalise p) y → objective (normalise p).H (normalise p).v (normalise p).z q ≤
        objective (normalise p).H (normalise p).v (normalise p).z y := Iff.rfl
  have hr : IsMinimiser p.H p.v p.z q ↔ 0 < inner p q ∧
      ∀ y, 0 < inner p y → objective p.H p.v p.z q ≤ objective p.H p.v p.z y := Iff.rfl
  rw [hl, hr, hin]
  refine and_congr_right fun h1 => forall_congr' fun y => ?_
  rw [hin]
  refine forall_congr' fun h2 => ?_
  rw [objective_normalise hτ h1, objective_normalise hτ h2, add_le_add_iff_right]

/-! ## A step that does not increase the loss -/

/-- The step for `y = 0` is not worse than no step. -/
theorem objective_zero_le {U : Fin (n + 2) → Mat (n + 2) ℂ} (hU : ∀ k, (U k).PosDef) (idx : Fin (n + 2)) :
    objective (exactProblem U idx).H (exactProblem U idx).v (exactProblem U idx).z 0 + 1 + ipaRest U idx ≤
      ipLoss U 1 := by
  obtain ⟨q, hq⟩ : ∃ q, q = fun j => (0 : Fin (n + 1) → ℂ) j / ((Real.sqrt (ipaA U idx j) : ℝ) : ℂ) -
      ipaB U idx j / (ipaA U idx j : ℂ) := ⟨_, rfl⟩
  have hc : checkOf U idx q = 0 := by rw [hq]; exact checkOf_inv hU idx 0
  have hform : StepForm idx (1 : Mat (n + 2) ℂ) := fun _ _ _ _ => rfl
  have hQ := exactProblem_quad hU idx q
  have hpos := inner_pos hU idx q
  rw [inner, hQ] at hpos
  rw [hc] at hQ
  rw [ipLoss_stepForm hU hform, objective, hQ]
  have hdet := hform.det
  rw [det_one] at hdet
  rw [← hdet, norm_one, Real.log_one, mul_zero, sub_zero]
  obtain ⟨y, hy⟩ : ∃ y, y = ipaTilde idx q := ⟨_, rfl⟩
  rw [← hy] at hpos ⊢
  have hU' := (isUnit_iff_isUnit_det _).mp (hU idx).isUnit
  obtain ⟨w, hw⟩ : ∃ w, w = star ((U idx)⁻¹ *ᵥ y) := ⟨_, rfl⟩
  have hUw : U idx *ᵥ star w = y := by
    rw [hw, star_star, mulVec_mulVec, mul_nonsing_inv _ hU', one_mulVec]
  have hqw : quad (U idx) w = (star y ⬝ᵥ (U idx)⁻¹ *ᵥ y).re := by
    rw [quad, hUw, hw, star_mulVec, (hU idx).1.inv.eq, ← dotProduct_mulVec]
  have hcs := quad_cauchy (hU idx) ((1 : Mat (n + 2) ℂ) idx) w
  have h1 : (1 : Mat (n + 2) ℂ) idx ⬝ᵥ y = 1 := by
    have : (1 : Mat (n + 2) ℂ) idx ⬝ᵥ y = ((1 : Mat (n + 2) ℂ) *ᵥ y) idx := rfl
    rw [this, one_mulVec, hy, ipaTilde, Fin.insertNth_apply_same]
  rw [hUw, hqw, h1, norm_one, one_pow] at hcs
  have hP := quad_pos (hU idx) (v := (1 : Mat (n + 2) ℂ) idx) (fun h => by
    have := congrFun h idx
    rw [one_apply_eq] at this
    exact one_ne_zero this)
  have hl := Real.log_le_log one_pos hcs
  rw [Real.log_one, Real.log_mul hP.ne' hpos.ne'] at hl
  have hl2 := Real.log_le_sub_one_of_pos hP
  have h0 : ∑ j : Fin (n + 1), ‖(0 : Fin (n + 1) → ℂ) j‖ ^ 2 = 0 := by simp
  have hs : 0 ≤ ∑ j, ‖checkOf U idx (stepQ idx (1 : Mat (n + 2) ℂ)) j‖ ^ 2 :=
    Finset.sum_nonneg fun _ _ => sq_nonneg _
  rw [h0]
  linarith

/-- A multiplier above the root of the secular equation gives a vector that is not worse than zero. -/
theorem yRegular_le_zero {H : Mat (n + 1) ℂ} {phi : Fin (n + 1) → ℝ} {P : Mat (n + 1) ℂ} (h : EighSpec H phi P)
    (hphi : ∀ i, 0 ≤ phi i) {v : Fin (n + 1) → ℂ} {z l : ℝ} (hz : 0 < z) (hl : ∀ i, phi i < l)
    (hf : fn l phi (vTilde P v) z ≤ 0) : objective H v z (yRegular phi P (vTilde P v) l) ≤ objective H v z 0 := by
  have hl0 : 0 < l := (hphi 0).trans_lt (hl 0)
  have hy : (Pᴴ *ᵥ yRegular phi P (vTilde P v) l) = fun j => phi j * vTilde P v j / (l - phi j) := by
    have e : yRegular phi P (vTilde P v) l = P *ᵥ fun j => phi j * vTilde P v j / (l - phi j) := rfl
    rw [e, mulVec_mulVec, h.unitary, one_mulVec]
  have hv : Pᴴ *ᵥ v = vTilde P v := rfl
  have hd : ∀ i, 0 < l - phi i := fun i => sub_pos.2 (hl i)
  have hdc : ∀ i, (l : ℂ) - phi i ≠ 0 := fun i => by exact_mod_cast (hd i).ne'
  obtain ⟨p, hp⟩ : ∃ p : Fin (n + 1) → ℝ, p = fun i => phi i * ‖vTilde P v i‖ ^ 2 := ⟨_, rfl⟩
  have hp0 : ∀ i, 0 ≤ p i := fun i => by rw [hp]; exact mul_nonneg (hphi i) (sq_nonneg _)
  have hA : ∑ i, ‖yRegular phi P (vTilde P v) l i‖ ^ 2 = ∑ i, p i * phi i / (l - phi i) ^ 2 := by
    rw [← norm_coord h.unitary, hy]
    refine Finset.sum_congr rfl fun i _ => ?_
    have : ((l : ℂ) - phi i) = ((l - phi i : ℝ) : ℂ) := by push_cast; rfl
    beta_reduce
    rw [this, norm_div, norm_mul, Complex.norm_real, Complex.norm_real, Real.norm_eq_abs, Real.norm_eq_abs,
      abs_of_nonneg (hphi i), abs_of_pos (hd i), hp, div_pow, mul_pow]
    ring
  have hB : (star (yRegular phi P (vTilde P v) l + v) ⬝ᵥ H *ᵥ (yRegular phi P (vTilde P v) l + v)).re =
      ∑ i, p i * (l / (l - phi i)) ^ 2 := by
    rw [quad_coord h, mulVec_add, hy, hv]
    refine Finset.sum_congr rfl fun i _ => ?_
    have : phi i * vTilde P v i / (l - phi i) + vTilde P v i = ((l / (l - phi i) : ℝ) : ℂ) * vTilde P v i := by
      push_cast
      have := hdc i
      field_simp
      ring
    rw [Pi.add_apply, this, norm_mul, mul_pow, Complex.norm_real, Real.norm_eq_abs, sq_abs, hp]
    ring
  have h0 : (star ((0 : Fin (n + 1) → ℂ) + v) ⬝ᵥ H *ᵥ (0 + v)).re = ∑ i, p i := by
    rw [zero_add, quad_coord h, hv, hp]
  have hBl : ∑ i, p i * (l / (l - phi i)) ^ 2 + z ≤ l := by
    rw [fn_eq] at hf
    have e : ∑ i, phi i * ‖vTilde P v i‖ ^ 2 * (l / (l - phi i)) ^ 2 = ∑ i, p i * (l / (l - phi i)) ^ 2 := by rw [hp]
    rw [e] at hf
    linarith
  rw [objective, objective, hA, hB, h0]
  have hs0 : ∑ i : Fin (n + 1), ‖(0 : Fin (n + 1) → ℂ) i‖ ^ 2 = 0 := by simp
  rw [hs0, zero_sub]
  obtain ⟨B, hBe⟩ : ∃ B, B = ∑ i, p i * (l / (l - phi i)) ^ 2 + z := ⟨_, rfl⟩
  obtain ⟨C, hCe⟩ : ∃ C, C = ∑ i, p i + z := ⟨_, rfl⟩
  rw [← hBe] at hBl ⊢
  rw [← hCe]
  have hC0 : 0 < C := by
    rw [hCe]
    have := Finset.sum_nonneg fun i (_ : i ∈ Finset.univ) => hp0 i
    linarith
  have hB0 : 0 < B := by
    rw [hBe]
    have : 0 ≤ ∑ i, p i * (l / (l - phi i)) ^ 2 := Finset.sum_nonneg fun i _ => mul_nonneg (hp0 i) (sq_nonneg _)
    linarith
  have hdiff : l * ∑ i, p i * phi i / (l - phi i) ^ 2 ≤ B - C := by
    have e : B - C = ∑ i, (p i * (l / (l - phi i)) ^ 2 - p i) := by
      rw [Finset.sum_sub_distrib, hBe, hCe]
      ring
    rw [e, Finset.mul_sum]
    refine Finset.sum_le_sum fun i _ => ?_
    have h1 := hd i
    have h2 := hp0 i
    have h3 := hphi i
    have e2 : p i * (l / (l - phi i)) ^ 2 - p i - l * (p i * phi i / (l - phi i) ^ 2) =
        p i * phi i / (l - phi i) := by
      field_simp
      ring
    have : 0 ≤ p i * phi i / (l - phi i) := by positivity
    linarith
  have hlog := Real.log_le_sub_one_of_pos (show 0 < C / B by positivity)
  rw [Real.log_div hC0.ne' hB0.ne'] at hlog
  have hA0 : 0 ≤ ∑ i, p i * phi i / (l - phi i) ^ 2 := Finset.sum_nonneg fun i _ =>
    div_nonneg (mul_nonneg (hp0 i) (hphi i)) (sq_nonneg _)
  have key : ∑ i, p i * phi i / (l - phi i) ^ 2 ≤ 1 - C / B := by
    rw [one_sub_div hB0.ne', le_div_iff₀ hB0]
    calc (∑ i, p i * phi i / (l - phi i) ^ 2) * B ≤ (∑ i, p i * phi i / (l - phi i) ^ 2) * l :=
          mul_le_mul_of_nonneg_left hBl hA0
      _ = l * ∑ i, p i * phi i / (l - phi i) ^ 2 := mul_comm _ _
      _ ≤ B - C := hdiff
  linarith

/-- Dividing `v` by the largest eigenvalue moves the root up. -/
theorem fn_unscaled {phi : Fin (n + 1) → ℝ} (hphi : ∀ i, 0 ≤ phi i) {v : Fin (n + 1) → ℂ} {z l top e : ℝ}
    (htop : 0 < top) (hle : ∀ i, phi i ≤ top) (hl : top < l) (he : 0 ≤ e) (hv : 0 < ∑ i, phi i * ‖v i‖ ^ 2)
    (hf : fn l phi (fun i => v i / top) z ≤ top * e)
    (htol : e * top ^ 3 ≤ (1 - top ^ 2) * ∑ i, phi i * ‖v i‖ ^ 2) : fn l phi v z ≤ 0 := by
  obtain ⟨s, hs⟩ : ∃ s, s = ∑ i, phi i * ‖v i‖ ^ 2 := ⟨_, rfl⟩
  obtain ⟨S, hS⟩ : ∃ S, S = ∑ i, phi i * ‖v i‖ ^ 2 * (l / (l - phi i)) ^ 2 := ⟨_, rfl⟩
  have h1 : s ≤ S := by
    rw [hs, hS]
    refine Finset.sum_le_sum fun i _ => ?_
    have hd : 0 < l - phi i := by linarith [hle i]
    have : 1 ≤ l / (l - phi i) := by
      rw [le_div_iff₀ hd]
      linarith [hphi i]
    have h2 : (1 : ℝ) ≤ (l / (l - phi i)) ^ 2 := one_le_pow₀ this
    have h3 : 0 ≤ phi i * ‖v i‖ ^ 2 := mul_nonneg (hphi i) (sq_nonneg _)
    nlinarith
  have h2 : fn l phi (fun i => v i / top) z = S / top ^ 2 - l + z := by
    rw [fn_eq, hS, Finset.sum_div]
    congr 2
    refine Finset.sum_congr rfl fun i _ => ?_
    rw [norm_div, Complex.norm_real, Real.norm_eq_abs, abs_of_pos htop]
    ring
  have h3 : fn l phi v z = S - l + z := by rw [fn_eq, hS]
  rw [← hs] at hv htol
  rw [h2] at hf
  rw [h3]
  have h4 : 0 ≤ 1 - top ^ 2 := by
    by_contra hc
    have : (1 - top ^ 2) * s < 0 := mul_neg_of_neg_of_pos (not_le.1 hc) hv
    have : 0 ≤ e * top ^ 3 := by positivity
    linarith
  have h5 : (1 - top ^ 2) * s ≤ (1 - top ^ 2) * S := mul_le_mul_of_nonneg_left h1 h4
  have h6 : S - S / top ^ 2 = -((1 - top ^ 2) * S) / top ^ 2 := by
    field_simp
    ring
  have h7 : top * e = e * top ^ 3 / top ^ 2 := by
    field_simp
  have h8 : -((1 - top ^ 2) * S) / top ^ 2 + e * top ^ 3 / top ^ 2 ≤ 0 := by
    rw [← add_div]
    exact div_nonpos_of_nonpos_of_nonneg (by linarith) (sq_nonneg _)
  linarith

/-! ## Two sources -/

/-- The vector `v` of every bin is zero or above the floor. -/
def Clear (floor : ℝ → ℝ) (v : F → Fin 1 → ℂ) : Prop :=
  ∀ f, v f 0 = 0 ∧ 0 < floor 0 ∨ v f 0 ≠ 0 ∧ floor 0 ≤ ‖v f 0‖ ∧ floor 0 ≤ ‖v f 0‖ ^ 2

theorem norm_one_vec (v : Fin 1 → ℂ) : Real.sqrt (∑ i, ‖v i‖ ^ 2) = ‖v 0‖ := by
  rw [Fin.sum_univ_one, Real.sqrt_sq (norm_nonneg _)]

theorem Clear.singular_iff {floor : ℝ → ℝ} {v : F → Fin 1 → ℂ} (h : Clear floor v) (f : F) :
    Real.sqrt (∑ i, ‖v f i‖ ^ 2) < floor 0 ↔ v f 0 = 0 := by
  rw [norm_one_vec]
  rcases h f with ⟨h1, h2⟩ | ⟨h1, h2, -⟩
  · simp [h1, h2]
  · simp [h1, h2]

theorem eigh_one (np : Numpy ℂ) : (∀ i, (np.eigh (1 : Mat 1 ℂ)).1 i = 1) ∧ ‖(np.eigh (1 : Mat 1 ℂ)).2 0 0‖ = 1 := by
  have hspec := np.eigh_spec _ (PosDef.one : (1 : Mat 1 ℂ).PosDef).isHermitian
  obtain ⟨P, hP⟩ : ∃ P, P = (np.eigh (1 : Mat 1 ℂ)).2 := ⟨_, rfl⟩
  obtain ⟨l, hl⟩ : ∃ l, l = (np.eigh (1 : Mat 1 ℂ)).1 := ⟨_, rfl⟩
  rw [← hP, ← hl] at hspec
  rw [← hP, ← hl]
  constructor
  · have hd : diagonal (fun i => (l i : ℂ)) = (1 : Mat 1 ℂ) := by
      calc diagonal (fun i => (l i : ℂ)) = Pᴴ * P * diagonal (fun i => (l i : ℂ)) * (Pᴴ * P) := by
            rw [hspec.unitary, Matrix.one_mul, Matrix.mul_one]
        _ = Pᴴ * (P * diagonal (fun i => (l i : ℂ)) * Pᴴ) * P := by simp only [Matrix.mul_assoc]
        _ = 1 := by
            have := hspec.decomp
            change (1 : Mat 1 ℂ) = P * diagonal (fun i => (l i : ℂ)) * Pᴴ at this
            rw [← this, Matrix.mul_one, hspec.unitary]
    intro i
    have := congrFun (congrFun hd i) i
    rw [diagonal_apply_eq, one_apply_eq] at this
    exact_mod_cast this
  · have := congrFun (congrFun hspec.unitary 0) 0
    rw [mul_apply, Fin.sum_univ_one, conjTranspose_apply, one_apply_eq] at this
    have h2 := congrArg norm this
    rw [norm_mul, norm_star, norm_one] at h2
    nlinarith [norm_nonneg (P 0 0)]

theorem Clear.regularBins (np : Numpy ℂ) {floor : ℝ → ℝ} (h0 : 0 ≤ floor 0) (h1 : floor 1 = 1)
    {v : F → Fin 1 → ℂ} {z : F → ℝ} (hz : ∀ f, 0 ≤ z f) (hv : Clear floor v) :
    RegularBins np floor (fun x => x < floor 0) (fun _ => (1 : Mat 1 ℂ)) v z fun _ => 1 := by
  obtain ⟨hl1, hP1⟩ := eigh_one np
  have hvt : ∀ f i, ‖vTilde (np.eigh (1 : Mat 1 ℂ)).2 (v f) i‖ = ‖v f 0‖ := by
    intro f i
    obtain rfl : i = 0 := Fin.ext (by omega)
    rw [vTilde, Fin.sum_univ_one, norm_mul, norm_star, hP1, one_mul]
  intro f hf
  beta_reduce at hf
  rw [hv.singular_iff] at hf
  have hne := (hv f).resolve_left fun h => hf h.1
  refine ⟨h0, one_pos, fun i _ => Or.inr ?_, hz f, fun i => by rw [hl1]; exact zero_le_one, fun i => (hl1 i).le, h1,
    ⟨0, hl1 0, ?_⟩, fun i => Or.inl ?_⟩
  · rw [← norm_pos_iff, hvt]
    exact norm_pos_iff.2 hne.1
  · rw [hl1, one_mul, hvt]
    exact hne.2.2
  · rw [hl1, one_mul, hvt]
    exact hne.2.2

theorem lqpqm2_one (np : Numpy ℂ) {floor : ℝ → ℝ} (h0 : 0 ≤ floor 0) (h1 : floor 1 = 1) {max_iter : ℕ}
    (hm : 0 < max_iter) {v : F → Fin 1 → ℂ} {z : F → ℝ} (hz : ∀ f, 0 ≤ z f) (hv : Clear floor v) :
    ∃ y, lqpqm2 np floor (fun x => x < floor 0) max_iter (fun _ => (1 : Mat 1 ℂ)) v z = .ok (y, false) ∧
      ∀ f, IsMinimiser 1 (v f) (z f) (y f) := by
  have hH : (1 : Mat 1 ℂ).PosDef := PosDef.one
  obtain ⟨y, h2, h3⟩ := C55_two_sources np (fun x => x < floor 0) (fun _ => hH.isHermitian)
    (hv.regularBins np h0 h1 hz) hm
  refine ⟨y, h2, fun f => ?_⟩
  by_cases hs : Real.sqrt (∑ i, ‖v f i‖ ^ 2) < floor 0
  · refine C55_singular_two_sources np (fun x => x < floor 0) (fun _ => hH) h2 f hs ?_
    funext i
    obtain rfl : i = 0 := Fin.ext (by omega)
    exact (hv.singular_iff f).1 hs
  · exact h3 f hs

/-- The result does not depend on the flooring function or on the number of iterations. -/
theorem lqpqm2_one_unique (np : Numpy ℂ) {floor floor' : ℝ → ℝ} (h0 : 0 ≤ floor 0) (h0' : 0 ≤ floor' 0)
    (h1 : floor 1 = 1) (h1' : floor' 1 = 1) {m m' : ℕ} (hm : 0 < m) (hm' : 0 < m') {v : F → Fin 1 → ℂ} {z : F → ℝ}
    (hz : ∀ f, 0 ≤ z f) (hv : Clear floor v) (hv' : Clear floor' v) :
    lqpqm2 np floor (fun x => x < floor 0) m (fun _ => (1 : Mat 1 ℂ)) v z =
      lqpqm2 np floor' (fun x => x < floor' 0) m' (fun _ => (1 : Mat 1 ℂ)) v z := by
  have key : ∀ {floor : ℝ → ℝ} {m : ℕ}, 0 ≤ floor 0 → floor 1 = 1 → 0 < m → Clear floor v →
      ∃ y, lqpqm2 np floor (fun x => x < floor 0) m (fun _ => (1 : Mat 1 ℂ)) v z = .ok (y, false) ∧
        (∀ f, v f 0 = 0 → y f = ySingular (np.eigh (1 : Mat 1 ℂ)).1 (np.eigh (1 : Mat 1 ℂ)).2 (z f)) ∧
        ∀ f, v f 0 ≠ 0 → ∃ l, 1 < l ∧ fn l (np.eigh (1 : Mat 1 ℂ)).1
            (fun i => vTilde (np.eigh (1 : Mat 1 ℂ)).2 (v f) i / (1 : ℝ)) (z f) = 0 ∧
          y f = yRegular (np.eigh (1 : Mat 1 ℂ)).1 (np.eigh (1 : Mat 1 ℂ)).2
            (vTilde (np.eigh (1 : Mat 1 ℂ)).2 (v f)) l := by
    intro floor m h0 h1 hm hv
    have h := hv.regularBins np h0 h1 hz
    obtain ⟨lamb, h2, h3⟩ := solve_single (F := {f // ¬ (Real.sqrt (∑ i, ‖v f i‖ ^ 2)) < floor 0})
      (phi := fun f => (np.eigh (1 : Mat 1 ℂ)).1) (v := fun f => vTilde (np.eigh (1 : Mat 1 ℂ)).2 (v f))
      (z := fun f => z f) (top := fun f => 1) (fun f => h f.1 f.2) hm
    obtain ⟨y, h4, h5, h6⟩ := lqpqm2_eq (H := fun _ => (1 : Mat 1 ℂ)) np (fun x => x < floor 0) h2
    refine ⟨y, h4, fun f hf => h6 f ((hv.singular_iff f).2 hf), fun f hf => ?_⟩
    have hf' := fun h => hf ((hv.singular_iff f).1 h)
    exact ⟨lamb ⟨f, hf'⟩, (h3 ⟨f, hf'⟩).1, (h3 ⟨f, hf'⟩).2, h5 f hf'⟩
  obtain ⟨y, a1, a2, a3⟩ := key h0 h1 hm hv
  obtain ⟨y', b1, b2, b3⟩ := key h0' h1' hm' hv'
  rw [a1, b1]
  congr 2
  funext f
  by_cases hf : v f 0 = 0
  · rw [a2 f hf, b2 f hf]
  · obtain ⟨l, c1, c2, c3⟩ := a3 f hf
    obtain ⟨l', d1, d2, d3⟩ := b3 f hf
    have hsec : Sec (np.eigh (1 : Mat 1 ℂ)).1 1 :=
      ⟨one_pos, fun i => by rw [(eigh_one np).1]; exact zero_le_one, fun i => ((eigh_one np).1 i).le⟩
    have hl : l = l' := by
      rcases le_total l l' with h | h
      · have := fn_anti (v := fun i => vTilde (np.eigh (1 : Mat 1 ℂ)).2 (v f) i / (1 : ℝ)) (z := z f) hsec c1 h
        rw [c2, d2] at this
        linarith
      · have := fn_anti (v := fun i => vTilde (np.eigh (1 : Mat 1 ℂ)).2 (v f) i / (1 : ℝ)) (z := z f) hsec d1 h
        rw [c2, d2] at this
        linarith
    rw [c3, d3, hl]

/-- For two sources the matrix of the problem is one. -/
theorem normalise_two {U : Fin 2 → Mat 2 ℂ} (hU : ∀ k, (U k).PosDef) (idx : Fin 2) :
    (normalise (exactProblem (n := 0) U idx)).H = 1 := by
  have h := exactProblem_trace (n := 0) hU idx
  ext i j
  obtain rfl : i = 0 := Fin.ext (by omega)
  obtain rfl : j = 0 := Fin.ext (by omega)
  have hr : (exactProblem (n := 0) U idx).H 0 0 = (((exactProblem (n := 0) U idx).H 0 0).re : ℂ) := by
    have hC := (ipaC_posDef (hU idx).inv idx).isHermitian
    have h1 := congrFun (congrFun hC 0) 0
    rw [conjTranspose_apply] at h1
    have h2 := Complex.conj_eq_iff_re.1 h1
    change ipaC (U idx)⁻¹ idx 0 0 / _ = ((ipaC (U idx)⁻¹ idx 0 0 / _ : ℂ).re : ℂ)
    rw [Complex.div_ofReal_re, Complex.ofReal_div, h2]
  rw [Fin.sum_univ_one] at h
  change (exactProblem (n := 0) U idx).H 0 0 / ((∑ i : Fin 1, (exactProblem (n := 0) U idx).H i i).re : ℂ) = 1
  rw [Fin.sum_univ_one, ← hr, div_self]
  rw [hr]
  exact_mod_cast h.ne'

end Verif.Spatial
