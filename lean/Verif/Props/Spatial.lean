import Mathlib.Algebra.BigOperators.Fin
import Mathlib.Tactic.FinCases
import Mathlib.Tactic.NormNum.Ineq
import Verif.Model.Spatial
import Verif.Lemmas.Quad

/-! # C30, C31: iterative projection (IP1) -/

namespace Verif.Spatial

open Matrix
open scoped ComplexOrder

variable {n t : ℕ}

theorem npSolve_ok {m : ℕ} {A : Mat n ℂ} (hA : IsUnit A.det) (b : Matrix (Fin n) (Fin m) ℂ) :
    npSolve A b = .ok (A⁻¹ * b) := by
  rw [npSolve, if_pos hA]

theorem solveVec_ok {A : Mat n ℂ} (hA : IsUnit A.det) (b : Fin n → ℂ) :
    solveVec A b = .ok (A⁻¹ *ᵥ b) := by
  simp only [solveVec, npSolve_ok hA, bind, Except.bind]
  congr 1

theorem isUnit_det_mul {W U : Mat n ℂ} (hW : IsUnit W.det) (hU : U.PosDef) : IsUnit (W * U).det := by
  rw [det_mul]
  exact hW.mul ((isUnit_iff_isUnit_det U).mp hU.isUnit)

/-- The filter in the middle of a sweep: the first `k` rows are already those of `W'`. -/
def mixed (W W' : Mat n ℂ) (k : ℕ) : Mat n ℂ := Matrix.of fun j => if j.val < k then W' j else W j

theorem mixed_of_trace {V : ℕ → Mat n ℂ}
    (h : ∀ (k : Fin n), ∀ j, j ≠ k → V (k.val + 1) j = V k.val j) (i : ℕ) (hi : i ≤ n) :
    V i = mixed (V 0) (V n) i := by
  have h1 : ∀ i ≤ n, ∀ j : Fin n, i ≤ j.val → V i j = V 0 j := by
    intro i
    induction i with
    | zero => intro _ j _; rfl
    | succ i ih =>
      intro hi j hj
      rw [h ⟨i, by omega⟩ j (by intro hh; rw [hh] at hj; simp at hj), ih (by omega) j (by omega)]
  have h2 : ∀ d i : ℕ, i + d = n → ∀ j : Fin n, j.val < i → V i j = V n j := by
    intro d
    induction d with
    | zero => intro i hi j _; rw [show i = n by omega]
    | succ d ih =>
      intro i hi j hj
      rw [← ih (i + 1) (by omega) j (by omega)]
      exact (h ⟨i, by omega⟩ j (by intro hh; rw [hh] at hj; simp at hj)).symm
  ext j c
  simp only [mixed, of_apply]
  by_cases hj : j.val < i
  · rw [if_pos hj, h2 (n - i) i (by omega) j hj]
  · rw [if_neg hj, h1 i hi j (by omega)]

/-- One row update: it succeeds, and its result in closed form. -/
theorem ip1Row_ok (floor : ℝ → ℝ) {U : Fin n → Mat n ℂ} {W : Mat n ℂ} {i : Fin n} (hU : (U i).PosDef)
    (hW : IsUnit W.det) :
    ∃ w : Fin n → ℂ, W *ᵥ (U i *ᵥ star w) = Pi.single i 1 ∧ 0 < quad (U i) w ∧
      ip1Row floor U W i
        = .ok (W.updateRow i ((1 / (floor (Real.sqrt (quad (U i) w)) : ℂ)) • w)) := by
  have hWU := isUnit_det_mul hW hU
  refine ⟨star ((W * U i)⁻¹ *ᵥ Pi.single i 1), ?_, ?_, ?_⟩
  · rw [star_star, mulVec_mulVec, mulVec_mulVec, mul_nonsing_inv _ hWU, one_mulVec]
  · refine quad_pos hU (star_ne_zero.mpr fun h => ?_)
    have h1 := congrArg (fun x => (W * U i) *ᵥ x) h
    simp only [mulVec_mulVec, mul_nonsing_inv _ hWU, one_mulVec, mulVec_zero] at h1
    simpa using congrFun h1 i
  · have hq := quad_nonneg hU.posSemidef (star ((W * U i)⁻¹ *ᵥ Pi.single i (1 : ℂ)))
    simp only [ip1Row, solveVec_ok hWU, bind, Except.bind]
    congr 2
    funext j
    have : hUh (U i) ((W * U i)⁻¹ *ᵥ Pi.single i (1 : ℂ))
        = quad (U i) (star ((W * U i)⁻¹ *ᵥ Pi.single i (1 : ℂ))) := by
      rw [hUh, quad, star_star, max_eq_left]
      simpa [quad, star_star] using hq
    rw [this]
    simp [div_eq_inv_mul]

/-- The row written by IP1 minimises the objective over all rows that keep the filter invertible. -/
theorem row_min {U W : Mat n ℂ} {i : Fin n} (hU : U.PosDef) (hW : IsUnit W.det) {w : Fin n → ℂ}
    (hw : W *ᵥ (U *ᵥ star w) = Pi.single i 1) (hc : 0 < quad U w) {v : Fin n → ℂ}
    (hv : (W.updateRow i v).det ≠ 0) :
    quad U ((1 / (Real.sqrt (quad U w) : ℂ)) • w)
        - 2 * Real.log ‖(W.updateRow i ((1 / (Real.sqrt (quad U w) : ℂ)) • w)).det‖
      ≤ quad U v - 2 * Real.log ‖(W.updateRow i v).det‖ := by
  set q := quad U w with hq
  have hs : 0 < Real.sqrt q := Real.sqrt_pos.mpr hc
  have hsq : Real.sqrt q ^ 2 = q := Real.sq_sqrt hc.le
  have hd0 : 0 < ‖W.det‖ := norm_pos_iff.mpr hW.ne_zero
  rw [det_updateRow_eq hw hW] at hv ⊢
  rw [det_updateRow_eq hw hW, quad_smul, smul_dotProduct, quad_eq hU.1, ← hq, norm_mul, norm_mul]
  have h1 : ‖(1 / (Real.sqrt q : ℂ))‖ = 1 / Real.sqrt q := by
    rw [norm_div, norm_one, Complex.norm_real, Real.norm_eq_abs, abs_of_pos hs]
  rw [h1, norm_smul, h1, Complex.norm_real, Real.norm_eq_abs, abs_of_pos hc]
  have hv0 : 0 < ‖v ⬝ᵥ (U *ᵥ star w)‖ := norm_pos_iff.mpr (right_ne_zero_of_mul hv)
  have hcs := quad_cauchy hU v w
  set x := ‖v ⬝ᵥ (U *ᵥ star w)‖ with hx
  rw [← hq] at hcs
  have e1 : (1 / Real.sqrt q) ^ 2 * q = 1 := by rw [div_pow, hsq]; field_simp
  have e2 : 1 / Real.sqrt q * q = Real.sqrt q := by
    nth_rewrite 2 [← hsq]; field_simp
  rw [e1, e2, Real.log_mul hd0.ne' hs.ne', Real.log_mul hd0.ne' hv0.ne', Real.log_sqrt hc.le]
  have h2 : x ^ 2 / q ≤ quad U v := by rwa [div_le_iff₀ hc]
  have h3 := Real.log_le_sub_one_of_pos (div_pos (pow_pos hv0 2) hc)
  rw [Real.log_div (pow_pos hv0 2).ne' hc.ne', Real.log_pow] at h3
  push_cast at h3
  linarith

/-- The value of the objective when only row `i` changes. -/
theorem ipLoss_updateRow (U : Fin n → Mat n ℂ) (W : Mat n ℂ) (i : Fin n) (v : Fin n → ℂ) :
    ipLoss U (W.updateRow i v) = (∑ j ∈ Finset.univ.erase i, quad (U j) (W j))
      + (quad (U i) v - 2 * Real.log ‖(W.updateRow i v).det‖) := by
  rw [ipLoss, ← Finset.sum_erase_add _ _ (Finset.mem_univ i), updateRow_self, add_sub_assoc]
  congr 1
  refine Finset.sum_congr rfl fun j hj => ?_
  rw [updateRow_ne (Finset.ne_of_mem_erase hj)]

private theorem ip1_run (floor : ℝ → ℝ) (hfloor : ∀ x, 0 < x → floor x ≠ 0) (U : Fin n → Mat n ℂ)
    (hU : ∀ k, (U k).PosDef) (W : Mat n ℂ) (hW : IsUnit W.det) :
    ∃ W', ip1 floor U W = .ok W' ∧ (∀ k ≤ n, IsUnit (mixed W W' k).det) ∧ W' = mixed W W' n ∧
      ∀ k : Fin n, ∃ w, mixed W W' k *ᵥ (U k *ᵥ star w) = Pi.single k 1 ∧ 0 < quad (U k) w ∧
        mixed W W' (k + 1)
          = (mixed W W' k).updateRow k ((1 / (floor (Real.sqrt (quad (U k) w)) : ℂ)) • w) := by
  obtain ⟨V, h0, hrun, hQ, hP⟩ := foldlM_trace (ip1Row floor U) (fun M => IsUnit M.det)
    (fun k M M' => ∃ w, M *ᵥ (U k *ᵥ star w) = Pi.single k 1 ∧ 0 < quad (U k) w ∧
      M' = M.updateRow k ((1 / (floor (Real.sqrt (quad (U k) w)) : ℂ)) • w)) (List.finRange n)
    (fun M k _ hM => by
      obtain ⟨w, h1, h2, h3⟩ := ip1Row_ok floor (hU k) hM
      refine ⟨_, h3, ?_, w, h1, h2, rfl⟩
      rw [det_updateRow_eq h1 hM, smul_dotProduct, quad_eq (hU k).1]
      refine hM.mul (isUnit_iff_ne_zero.mpr (mul_ne_zero (one_div_ne_zero ?_) ?_))
      · exact_mod_cast hfloor _ (Real.sqrt_pos.mpr h2)
      · exact_mod_cast h2.ne') W hW
  rw [List.length_finRange] at hrun hP
  have hQ' : ∀ k : Fin n, ∃ w, V k *ᵥ (U k *ᵥ star w) = Pi.single k 1 ∧ 0 < quad (U k) w ∧
      V (k + 1) = (V k).updateRow k ((1 / (floor (Real.sqrt (quad (U k) w)) : ℂ)) • w) := by
    intro k
    have := hQ k.val (by simp)
    simpa using this
  have hmix := mixed_of_trace (V := V) fun k j hj => by
    obtain ⟨w, -, -, h⟩ := hQ' k
    rw [h, updateRow_ne hj]
  rw [h0] at hmix
  refine ⟨V n, hrun, fun k hk => hmix k hk ▸ hP k hk, hmix n le_rfl, fun k => ?_⟩
  rw [← hmix k k.2.le, ← hmix (k + 1) k.2]
  exact hQ' k

private theorem orth_rows {U W : Mat n ℂ} {i : Fin n} {w : Fin n → ℂ}
    (hw : W *ᵥ (U *ᵥ star w) = Pi.single i 1) (c : ℂ) {j : Fin n} (hj : j ≠ i) :
    W j ⬝ᵥ (U *ᵥ star (c • w)) = 0 := by
  have h := congrFun hw j
  rw [Pi.single_eq_of_ne hj] at h
  rw [star_smul, mulVec_smul, dotProduct_smul]
  rw [show W j ⬝ᵥ (U *ᵥ star w) = 0 from h, smul_zero]

/-- C30: `update_by_ip1` succeeds for positive definite covariances and an invertible filter, whatever the
flooring does with positive numbers as long as the result is not zero. The new row `k` is `U_k`-orthogonal to
all other rows present when it is written: the new rows before it and the old rows after it. The new filter is
invertible. -/
theorem C30_decorrelates (floor : ℝ → ℝ) (hfloor : ∀ x, 0 < x → floor x ≠ 0) (U : Fin n → Mat n ℂ)
    (hU : ∀ k, (U k).PosDef) (W : Mat n ℂ) (hW : IsUnit W.det) :
    ∃ W', ip1 floor U W = .ok W' ∧ IsUnit W'.det ∧
      (∀ j k, j < k → W' j ⬝ᵥ (U k *ᵥ star (W' k)) = 0) ∧
      (∀ j k, k < j → W j ⬝ᵥ (U k *ᵥ star (W' k)) = 0) := by
  obtain ⟨W', hrun, hu, hW', hstep⟩ := ip1_run floor hfloor U hU W hW
  have hrow : ∀ k : Fin n, ∀ j, j ≠ k → mixed W W' k j ⬝ᵥ (U k *ᵥ star (W' k)) = 0 := by
    intro k j hj
    obtain ⟨w, h1, -, h3⟩ := hstep k
    have hk := congrFun h3 k
    rw [updateRow_self] at hk
    have : mixed W W' (k + 1) k = W' k := by funext c; simp [mixed]
    rw [← this, hk]
    exact orth_rows h1 _ hj
  refine ⟨W', hrun, by rw [hW']; exact hu n le_rfl, fun j k hjk => ?_, fun j k hjk => ?_⟩
  · have := hrow k j hjk.ne
    rwa [show mixed W W' k j = W' j by funext c; simp [mixed, hjk]] at this
  · have := hrow k j hjk.ne'
    rwa [show mixed W W' k j = W j by funext c; simp [mixed, hjk.not_gt]] at this

/-- C30: the updated rows have unit `U_k`-norm when flooring is inactive, i.e. when the run gives the same filter
as one without flooring. -/
theorem C30_normalises (floor : ℝ → ℝ) (U : Fin n → Mat n ℂ) (hU : ∀ k, (U k).PosDef) (W : Mat n ℂ)
    (hW : IsUnit W.det) (hfloor : ip1 floor U W = ip1 id U W) :
    ∃ W', ip1 floor U W = .ok W' ∧ ∀ k, quad (U k) (W' k) = 1 := by
  obtain ⟨W', hrun, hu, hW', hstep⟩ := ip1_run id (fun x hx => hx.ne') U hU W hW
  refine ⟨W', hfloor ▸ hrun, fun k => ?_⟩
  obtain ⟨w, h1, h2, h3⟩ := hstep k
  have hk := congrFun h3 k
  rw [updateRow_self] at hk
  have : mixed W W' (k + 1) k = W' k := by funext c; simp [mixed]
  rw [← this, hk, quad_smul, norm_div, norm_one, Complex.norm_real, Real.norm_eq_abs, id,
    abs_of_pos (Real.sqrt_pos.mpr h2), div_pow, Real.sq_sqrt h2.le]
  field_simp

/-- C30: with a flooring function that never lowers a number (`max_flooring`, `add_flooring`) the updated rows
have `U_k`-norm at most one. -/
theorem C30_norm_le (floor : ℝ → ℝ) (hfloor : ∀ x, x ≤ floor x) (U : Fin n → Mat n ℂ)
    (hU : ∀ k, (U k).PosDef) (W : Mat n ℂ) (hW : IsUnit W.det) :
    ∃ W', ip1 floor U W = .ok W' ∧ ∀ k, quad (U k) (W' k) ≤ 1 := by
  obtain ⟨W', hrun, hu, hW', hstep⟩ := ip1_run floor (fun x hx => (hx.trans_le (hfloor x)).ne') U hU W hW
  refine ⟨W', hrun, fun k => ?_⟩
  obtain ⟨w, h1, h2, h3⟩ := hstep k
  have hk := congrFun h3 k
  rw [updateRow_self] at hk
  have : mixed W W' (k + 1) k = W' k := by funext c; simp [mixed]
  have hs := Real.sqrt_pos.mpr h2
  have hf := hfloor (Real.sqrt (quad (U k) w))
  rw [← this, hk, quad_smul, norm_div, norm_one, Complex.norm_real, Real.norm_eq_abs,
    abs_of_pos (hs.trans_le hf), div_pow, one_pow, div_mul_eq_mul_div, one_mul,
    div_le_one (pow_pos (hs.trans_le hf) 2)]
  calc quad (U k) w = Real.sqrt (quad (U k) w) ^ 2 := (Real.sq_sqrt h2.le).symm
    _ ≤ _ := pow_le_pow_left₀ hs.le hf 2

private theorem mixed_step {U : Fin n → Mat n ℂ} (hU : ∀ k, (U k).PosDef) {W W' : Mat n ℂ}
    (hu : ∀ k ≤ n, IsUnit (mixed W W' k).det) {k : Fin n} {w : Fin n → ℂ}
    (h1 : mixed W W' k *ᵥ (U k *ᵥ star w) = Pi.single k 1) (h2 : 0 < quad (U k) w)
    (h3 : mixed W W' (k + 1)
          = (mixed W W' k).updateRow k ((1 / (Real.sqrt (quad (U k) w) : ℂ)) • w)) (v : Fin n → ℂ)
    (hv : IsUnit ((mixed W W' k).updateRow k v).det) :
    ipLoss U (mixed W W' (k + 1)) ≤ ipLoss U ((mixed W W' k).updateRow k v) := by
  rw [h3, ipLoss_updateRow, ipLoss_updateRow]
  exact add_le_add_right (row_min (hU k) (hu k k.2.le) h1 h2 hv.ne_zero) _

/-- C31: one sweep of `update_by_ip1` keeps the filter invertible and never increases the objective. -/
theorem C31_sweep (floor : ℝ → ℝ) (U : Fin n → Mat n ℂ) (hU : ∀ k, (U k).PosDef) (W : Mat n ℂ)
    (hW : IsUnit W.det) (hfloor : ip1 floor U W = ip1 id U W) :
    ∃ W', ip1 floor U W = .ok W' ∧ IsUnit W'.det ∧ ipLoss U W' ≤ ipLoss U W := by
  obtain ⟨W', hrun, hu, hW', hstep⟩ := ip1_run id (fun x hx => hx.ne') U hU W hW
  refine ⟨W', hfloor ▸ hrun, by rw [hW']; exact hu n le_rfl, ?_⟩
  have h := le_of_trace (ipLoss U) (mixed W W') n fun i hi => by
    obtain ⟨w, h1, h2, h3⟩ := hstep ⟨i, hi⟩
    have := mixed_step hU hu h1 h2 h3 (mixed W W' i ⟨i, hi⟩) (by
      rw [updateRow_eq_self]; exact hu i hi.le)
    rwa [updateRow_eq_self] at this
  rwa [← hW', show mixed W W' 0 = W by ext; simp [mixed]] at h

/-- C31: each row update is the global minimiser over that row: with rows before `k` already new and rows after
`k` still old, no other row `v` that keeps the filter invertible gives a smaller objective than the new row. -/
theorem C31_row_optimal (floor : ℝ → ℝ) (U : Fin n → Mat n ℂ) (hU : ∀ k, (U k).PosDef) (W : Mat n ℂ)
    (hW : IsUnit W.det) (hfloor : ip1 floor U W = ip1 id U W) :
    ∃ W', ip1 floor U W = .ok W' ∧ ∀ (k : Fin n) (v : Fin n → ℂ),
      IsUnit ((mixed W W' k).updateRow k v).det →
        ipLoss U ((mixed W W' k).updateRow k (W' k)) ≤ ipLoss U ((mixed W W' k).updateRow k v) := by
  obtain ⟨W', hrun, hu, hW', hstep⟩ := ip1_run id (fun x hx => hx.ne') U hU W hW
  refine ⟨W', hfloor ▸ hrun, fun k v hv => ?_⟩
  obtain ⟨w, h1, h2, h3⟩ := hstep k
  have hk := congrFun h3 k
  rw [updateRow_self, show mixed W W' (k + 1) k = W' k by funext c; simp [mixed]] at hk
  have := mixed_step hU hu h1 h2 h3 v hv
  rw [h3] at this
  rw [hk]
  exact this

/-- The row written by one step, from any solution of its linear system. -/
theorem ip1Row_of_solution (floor : ℝ → ℝ) {U : Fin n → Mat n ℂ} {W : Mat n ℂ} {i : Fin n}
    (hWU : IsUnit (W * U i).det) {w : Fin n → ℂ} (hw : (W * U i) *ᵥ w = Pi.single i 1) :
    ip1Row floor U W i
      = .ok (W.updateRow i fun j => star (w j) / (floor (Real.sqrt (hUh (U i) w)) : ℂ)) := by
  have h : (W * U i)⁻¹ *ᵥ Pi.single i 1 = w := by
    rw [← hw, mulVec_mulVec, nonsing_inv_mul _ hWU, one_mulVec]
  simp only [ip1Row, solveVec_ok hWU, bind, Except.bind, h]

/-- Non-vacuous: a covariance that is not a multiple of the identity and a filter that is not diagonal meet
the hypotheses of C30 and C31 with the default flooring. -/
example : ∃ (U : Fin 2 → Mat 2 ℂ) (W : Mat 2 ℂ), (∀ k, (U k).PosDef) ∧ IsUnit W.det ∧
    ip1 (fun x => max x (1 / 10 ^ 10)) U W = ip1 id U W ∧ W 0 1 ≠ 0 := by
  have hU : (diagonal ![4, 1] : Mat 2 ℂ).PosDef := by
    refine PosDef.diagonal fun i => ?_
    fin_cases i <;> simp
  have key : ∀ floor : ℝ → ℝ, floor (1 / 2) = 1 / 2 → floor 1 = 1 →
      ip1 floor (fun _ => diagonal ![4, 1]) !![1, 1; 0, 1] = .ok !![1 / 2, 0; 0, 1] := by
    intro floor h1 h2
    have s0 : ip1Row floor (fun _ => diagonal ![4, 1]) !![1, 1; 0, 1] 0 = .ok !![1 / 2, 0; 0, 1] := by
      rw [ip1Row_of_solution floor (w := ![1 / 4, 0])]
      · have : hUh (diagonal ![4, 1]) ![1 / 4, 0] = (1 / 2) ^ 2 := by
          simp [hUh, dotProduct, mulVec, diagonal, Fin.sum_univ_two]; norm_num
        rw [this, Real.sqrt_sq (by norm_num), h1]
        congr 1
        ext i j
        fin_cases i <;> fin_cases j <;> (simp [updateRow, Function.update, map_ofNat]; try norm_num)
      · rw [det_mul, det_diagonal, Fin.prod_univ_two]; simp [det_fin_two]
      · rw [← mulVec_mulVec]
        ext i
        fin_cases i <;> simp [Matrix.mulVec, dotProduct, Fin.sum_univ_two]
    have s1 : ip1Row floor (fun _ => diagonal ![4, 1]) !![1 / 2, 0; 0, 1] 1 = .ok !![1 / 2, 0; 0, 1] := by
      rw [ip1Row_of_solution floor (w := ![0, 1])]
      · have : hUh (diagonal ![4, 1]) ![0, 1] = 1 ^ 2 := by
          simp [hUh, dotProduct, mulVec, diagonal, Fin.sum_univ_two]
        rw [this, Real.sqrt_sq (by norm_num), h2]
        congr 1
        ext i j
        fin_cases i <;> fin_cases j <;> simp [updateRow, Function.update]
      · rw [det_mul, det_diagonal, Fin.prod_univ_two]; simp [det_fin_two]
      · rw [← mulVec_mulVec]
        ext i
        fin_cases i <;> simp [Matrix.mulVec, dotProduct, Fin.sum_univ_two]
    have hl : List.finRange 2 = [0, 1] := by decide
    rw [ip1, hl, List.foldlM_cons, s0]
    simp only [bind, Except.bind]
    rw [List.foldlM_cons, s1]
    rfl
  refine ⟨fun _ => diagonal ![4, 1], !![1, 1; 0, 1], fun _ => hU, by simp [det_fin_two], ?_, by simp⟩
  rw [key _ (by norm_num) (by norm_num), key id rfl rfl]

end Verif.Spatial
