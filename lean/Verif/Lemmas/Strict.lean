import Verif.Lemmas.Majorise

/-! # Strict decrease of the spatial updates away from their fixed points -/

namespace Verif

/-- A run of steps that each either decrease a value or change nothing. -/
theorem foldlM_strict {α β ε : Type} (g : α → β → Except ε α) (P : α → Prop) (L : α → ℝ) (Fix : α → β → Prop)
    (l : List β) (hstep : ∀ a, ∀ b ∈ l, P a → ∃ a', g a b = .ok a' ∧ P a' ∧ (L a' < L a ∨ a' = a) ∧
      (a' = a ↔ Fix a b)) (a : α) (ha : P a) :
    ∃ a', l.foldlM g a = .ok a' ∧ P a' ∧ (L a' < L a ∨ a' = a) ∧ (a' = a ↔ ∀ b ∈ l, Fix a b) := by
  induction l generalizing a with
  | nil => exact ⟨a, rfl, ha, .inr rfl, by simp⟩
  | cons b l ih =>
    obtain ⟨a1, h1, h2, h3, h4⟩ := hstep a b (by simp) ha
    obtain ⟨a2, k1, k2, k3, k4⟩ := ih (fun a b hb => hstep a b (by simp [hb])) a1 h2
    refine ⟨a2, by rw [List.foldlM_cons, h1]; exact k1, k2, ?_⟩
    rcases h3 with h3 | rfl
    · have hlt : L a2 < L a := by
        rcases k3 with k3 | rfl
        · exact k3.trans h3
        · exact h3
      refine ⟨.inl hlt, fun h => absurd hlt (by rw [h]; exact lt_irrefl _), fun h => ?_⟩
      have := h4.mpr (h b (by simp))
      rw [this] at h3
      exact absurd h3 (lt_irrefl _)
    · refine ⟨k3, k4.trans ⟨fun h c hc => ?_, fun h c hc => h c (by simp [hc])⟩⟩
      rcases List.mem_cons.mp hc with rfl | hc
      · exact h4.mp rfl
      · exact h c hc

theorem foldl_strict {α β : Type} (g : α → β → α) (P : α → Prop) (L : α → ℝ) (Fix : α → β → Prop)
    (l : List β) (hstep : ∀ a, ∀ b ∈ l, P a → P (g a b) ∧ (L (g a b) < L a ∨ g a b = a) ∧
      (g a b = a ↔ Fix a b)) (a : α) (ha : P a) :
    P (l.foldl g a) ∧ (L (l.foldl g a) < L a ∨ l.foldl g a = a) ∧ (l.foldl g a = a ↔ ∀ b ∈ l, Fix a b) := by
  have h := foldlM_strict (ε := PUnit) (fun a b => .ok (g a b)) P L Fix l
    (fun a b hb ha => ⟨_, rfl, hstep a b hb ha⟩) a ha
  have e : l.foldlM (fun a b => (Except.ok (g a b) : Except PUnit α)) a = .ok (l.foldl g a) := by
    clear h ha hstep
    induction l generalizing a with
    | nil => rfl
    | cons b l ih => rw [List.foldlM_cons]; exact ih _
  rw [e] at h
  obtain ⟨a', h1, h2⟩ := h
  cases h1
  exact h2

namespace Spatial

open Matrix
open scoped ComplexOrder

variable {n t : ℕ}

theorem quad_eq_zero {U : Mat n ℂ} (hU : U.PosDef) {v : Fin n → ℂ} (h : quad U v = 0) : v = 0 := by
  by_contra hv
  exact (quad_pos hU hv).ne' h

theorem one_sub_inv_add_log {q : ℝ} (hq : 0 < q) (h : 1 / q - 1 + Real.log q = 0) : q = 1 := by
  by_contra hne
  have h1 := Real.log_lt_sub_one_of_pos (show 0 < 1 / q by positivity) (fun h => hne (by
    rw [div_eq_iff hq.ne'] at h; linarith))
  rw [one_div, Real.log_inv, ← one_div] at h1
  linarith

/-- One IP1 row step decreases the objective or changes nothing; it changes nothing exactly if the row already
solves its equation. -/
theorem ip1Row_strict {U : Fin n → Mat n ℂ} {W : Mat n ℂ} (i : Fin n) (hU : (U i).PosDef)
    (hW : IsUnit W.det) :
    ∃ W', ip1Row id U W i = .ok W' ∧ IsUnit W'.det ∧ (ipLoss U W' < ipLoss U W ∨ W' = W) ∧
      (W' = W ↔ W *ᵥ (U i *ᵥ star (W i)) = Pi.single i 1) := by
  obtain ⟨w, h1, h2, h3⟩ := ip1Row_ok id hU hW
  have hs : 0 < Real.sqrt (quad (U i) w) := Real.sqrt_pos.mpr h2
  have hdet := det_updateRow_eq h1 hW ((1 / (Real.sqrt (quad (U i) w) : ℂ)) • w)
  have hun : IsUnit (W.updateRow i ((1 / (Real.sqrt (quad (U i) w) : ℂ)) • w)).det := by
    rw [hdet, smul_dotProduct, quad_eq hU.1]
    refine hW.mul (isUnit_iff_ne_zero.mpr (mul_ne_zero (one_div_ne_zero ?_) ?_))
    · exact_mod_cast hs.ne'
    · exact_mod_cast h2.ne'
  have hone : W i ⬝ᵥ (U i *ᵥ star w) = 1 := by
    have := congrFun h1 i
    rwa [Pi.single_eq_same] at this
  have hself : W.updateRow i (W i) = W := updateRow_eq_self _ _
  refine ⟨_, h3, hun, ?_, ?_⟩
  · obtain ⟨q, hq⟩ : ∃ q, q = quad (U i) w := ⟨_, rfl⟩
    simp only [id]
    have hle := row_min hU hW h1 h2 (v := W i) (by rw [hself]; exact hW.ne_zero)
    have e1 := ipLoss_updateRow U W i ((1 / (Real.sqrt (quad (U i) w) : ℂ)) • w)
    have e2 := ipLoss_updateRow U W i (W i)
    rw [hself] at e2 hle
    rcases hle.lt_or_eq with hlt | heq
    · left
      rw [e1, e2]
      exact add_lt_add_right hlt _
    · right
      have hd0 : 0 < ‖W.det‖ := norm_pos_iff.mpr hW.ne_zero
      have hn : ‖(1 / (Real.sqrt q : ℂ))‖ = 1 / Real.sqrt q := by
        rw [norm_div, norm_one, Complex.norm_real, Real.norm_eq_abs, abs_of_pos (hq ▸ hs)]
      rw [hdet, smul_dotProduct, quad_eq hU.1, ← hq, quad_smul, ← hq, norm_mul, norm_smul, hn, Complex.norm_real,
        Real.norm_eq_abs, abs_of_pos (hq ▸ h2), Real.log_mul hd0.ne' (by rw [hq]; positivity)] at heq
      rw [← hq] at h2 hs ⊢
      have hsq : Real.sqrt q ^ 2 = q := Real.sq_sqrt h2.le
      have f1 : (1 / Real.sqrt q) ^ 2 * q = 1 := by rw [div_pow, hsq]; field_simp
      have f2 : 1 / Real.sqrt q * q = Real.sqrt q := by
        nth_rewrite 2 [← hsq]; field_simp
      rw [f1, f2, Real.log_sqrt h2.le] at heq
      -- the gap splits into two non-negative parts
      have horth : (W i - (1 / (q : ℂ)) • w) ⬝ᵥ (U i *ᵥ star ((1 / (q : ℂ)) • w)) = 0 := by
        have : (q : ℂ) ≠ 0 := by exact_mod_cast h2.ne'
        rw [star_smul, mulVec_smul, dotProduct_smul, sub_dotProduct, smul_dotProduct, hone, quad_eq hU.1, ← hq,
          smul_eq_mul, smul_eq_mul, one_div_mul_cancel this, sub_self, mul_zero]
      have g1 := quad_add_of_orth hU.1 horth
      rw [sub_add_cancel, quad_smul, ← hq, norm_div, norm_one, Complex.norm_real, Real.norm_eq_abs, abs_of_pos h2] at g1
      have g2 : (1 / q) ^ 2 * q = 1 / q := by field_simp
      have g3 := quad_nonneg hU.posSemidef (W i - (1 / (q : ℂ)) • w)
      have g4 : 0 ≤ 1 / q - 1 + Real.log q := by
        have := Real.log_le_sub_one_of_pos (show 0 < 1 / q by positivity)
        rw [one_div, Real.log_inv, ← one_div] at this
        linarith
      have hq1 : q = 1 := one_sub_inv_add_log h2 (by linarith)
      have g5 : quad (U i) (W i - (1 / (q : ℂ)) • w) = 0 := by linarith
      have g6 := sub_eq_zero.mp (quad_eq_zero hU g5)
      rw [hq1, Complex.ofReal_one, div_one, one_smul] at g6
      rw [hq1, Real.sqrt_one, Complex.ofReal_one, div_one, one_smul, ← g6, hself]
  · simp only [id]
    constructor
    · intro h
      have hrow := congrFun h i
      rw [updateRow_self] at hrow
      have hs1 : Real.sqrt (quad (U i) w) = 1 := by
        have a1 : W i ⬝ᵥ (U i *ᵥ star (W i)) = 1 / (Real.sqrt (quad (U i) w) : ℂ) := by
          have e : star (W i) = star (1 / (Real.sqrt (quad (U i) w) : ℂ)) • star w := by rw [← star_smul, hrow]
          rw [e, mulVec_smul, dotProduct_smul, hone]
          simp
        have a2 : W i ⬝ᵥ (U i *ᵥ star (W i)) = 1 := by
          rw [quad_eq hU.1, ← hrow, quad_smul, norm_div, norm_one, Complex.norm_real, Real.norm_eq_abs, abs_of_pos hs,
            div_pow, Real.sq_sqrt h2.le, one_pow, one_div_mul_cancel h2.ne', Complex.ofReal_one]
        rw [a2] at a1
        have : (Real.sqrt (quad (U i) w) : ℂ) = 1 := by
          have hne : (Real.sqrt (quad (U i) w) : ℂ) ≠ 0 := by exact_mod_cast hs.ne'
          field_simp at a1
          exact a1
        exact_mod_cast this
      rw [hs1, Complex.ofReal_one, div_one, one_smul] at hrow
      rw [← hrow, h1]
    · intro h
      have hw : w = W i := by
        have hWU := isUnit_det_mul hW hU
        have : (W * U i) *ᵥ star w = (W * U i) *ᵥ star (W i) := by
          rw [← mulVec_mulVec, ← mulVec_mulVec, h1, h]
        have := congrArg (fun x => (W * U i)⁻¹ *ᵥ x) this
        simp only [mulVec_mulVec, nonsing_inv_mul _ hWU, one_mulVec] at this
        exact star_injective this
      rw [hw, quad_eq hU.1] at hone
      have hq1 : quad (U i) (W i) = 1 := by exact_mod_cast hone
      rw [hw, hq1, Real.sqrt_one, Complex.ofReal_one, div_one, one_smul, hself]

/-- A sweep of IP1 decreases the objective or changes nothing; it changes nothing exactly if every row solves its
equation. -/
theorem ip1_strict (U : Fin n → Mat n ℂ) (hU : ∀ k, (U k).PosDef) (W : Mat n ℂ) (hW : IsUnit W.det) :
    ∃ W', ip1 id U W = .ok W' ∧ IsUnit W'.det ∧ (ipLoss U W' < ipLoss U W ∨ W' = W) ∧
      (W' = W ↔ ∀ i, W *ᵥ (U i *ᵥ star (W i)) = Pi.single i 1) := by
  have h := foldlM_strict (ip1Row id U) (fun M => IsUnit M.det) (ipLoss U)
    (fun M i => M *ᵥ (U i *ᵥ star (M i)) = Pi.single i 1) (List.finRange n)
    (fun M i _ hM => ip1Row_strict i (hU i) hM) W hW
  simpa only [ip1, List.mem_finRange, true_imp_iff] using h

/-- The weighted signals have unit weighted power and are uncorrelated: `mean_t(phi_it y_it conj(y_jt))` is the
identity matrix. -/
def Balanced (phi : Fin n → Fin t → ℝ) (Y : Matrix (Fin n) (Fin t) ℂ) : Prop :=
  ∀ i j, Y i ⬝ᵥ (wdiag (phi i) *ᵥ star (Y j)) = (1 : Mat n ℂ) i j

/-- One ISS1 step decreases the objective or changes nothing. -/
theorem iss1Row_strict (phi : Fin n → Fin t → ℝ) (hphi : ∀ k s, 0 < phi k s) (Y : Matrix (Fin n) (Fin t) ℂ)
    (src : Fin n) (hY : Y src ≠ 0) :
    ∃ T : Mat n ℂ, IsUnit T.det ∧ iss1Row id phi Y src = T * Y ∧ (∀ i j, j ≠ src → T i j = (1 : Mat n ℂ) i j) ∧
      (power phi (T * Y) - 2 * Real.log ‖T.det‖ < power phi Y ∨ iss1Row id phi Y src = Y) ∧
      (iss1Row id phi Y src = Y ↔
        ∀ k, Y k ⬝ᵥ (wdiag (phi k) *ᵥ star (Y src)) = (1 : Mat n ℂ) k src) := by
  obtain ⟨T, hT, hr, hcol, hbest⟩ := iss1Row_best phi hphi Y src hY
  have hd : ∀ k, 0 < quad (wdiag (phi k)) (Y src) := fun k => quad_pos (wdiag_posDef (hphi k)) hY
  obtain ⟨d, hdd⟩ : ∃ d : Fin n → ℝ, d = fun k => quad (wdiag (phi k)) (Y src) := ⟨_, rfl⟩
  obtain ⟨num, hnum⟩ : ∃ num : Fin n → ℂ, num = fun k => Y k ⬝ᵥ (wdiag (phi k) *ᵥ star (Y src)) := ⟨_, rfl⟩
  have hd' : ∀ k, 0 < d k := fun k => by rw [hdd]; exact hd k
  have hstep : ∀ k, iss1Row id phi Y src k
      = Y k - (if k = src then 1 - 1 / ((Real.sqrt (d src) : ℝ) : ℂ) else num k / (d k : ℂ)) • Y src := by
    intro k
    funext s
    simp only [iss1Row, of_apply, meanT_form, meanT_quad, id, Pi.sub_apply, Pi.smul_apply, smul_eq_mul, hdd, hnum]
  have hfix : iss1Row id phi Y src = Y ↔
      ∀ k, Y k ⬝ᵥ (wdiag (phi k) *ᵥ star (Y src)) = (1 : Mat n ℂ) k src := by
    have hv0 : ∀ k (c : ℂ), Y k - c • Y src = Y k ↔ c = 0 := by
      intro k c
      rw [sub_eq_self, smul_eq_zero]
      exact or_iff_left hY
    constructor
    · intro h k
      have hk := congrFun h k
      rw [hstep, hv0] at hk
      by_cases hks : k = src
      · rw [if_pos hks, sub_eq_zero] at hk
        rw [hks, one_apply_eq, quad_eq (wdiag_posDef (hphi src)).1]
        have hs : 0 < Real.sqrt (d src) := Real.sqrt_pos.mpr (hd' src)
        have h1 : Real.sqrt (d src) = 1 := by
          have hne : ((Real.sqrt (d src) : ℝ) : ℂ) ≠ 0 := by exact_mod_cast hs.ne'
          field_simp at hk
          exact_mod_cast hk
        have h2 : d src = 1 := Real.sqrt_eq_one.mp h1
        rw [hdd] at h2
        exact_mod_cast h2
      · rw [if_neg hks, div_eq_zero_iff] at hk
        rw [one_apply_ne hks]
        have : (d k : ℂ) ≠ 0 := by exact_mod_cast (hd' k).ne'
        have := hk.resolve_right this
        rwa [hnum] at this
    · intro h
      funext k
      rw [hstep, hv0]
      by_cases hks : k = src
      · rw [if_pos hks, sub_eq_zero]
        have := h src
        rw [one_apply_eq, quad_eq (wdiag_posDef (hphi src)).1] at this
        have : d src = 1 := by rw [hdd]; exact_mod_cast this
        rw [this]
        simp
      · rw [if_neg hks]
        have := h k
        rw [one_apply_ne hks] at this
        have : num k = 0 := by rw [hnum]; exact this
        rw [this, zero_div]
  refine ⟨T, hT, hr, hcol, ?_, hfix⟩
  have hle := hbest 1 (by simp) fun _ _ _ => rfl
  rw [Matrix.one_mul, det_one, norm_one, Real.log_one, mul_zero, sub_zero] at hle
  rcases hle.lt_or_eq with hlt | heq
  · exact .inl hlt
  right
  rw [hfix]
  -- every competitor is at least as large as `Y` itself
  have hall : ∀ S : Mat n ℂ, IsUnit S.det → (∀ i j, j ≠ src → S i j = (1 : Mat n ℂ) i j) →
      power phi Y ≤ power phi (S * Y) - 2 * Real.log ‖S.det‖ := fun S hS hc => heq ▸ hbest S hS hc
  intro k
  obtain ⟨u, hu⟩ : ∃ u : ℂ, u = (if k = src then 1 - 1 / ((Real.sqrt (d src) : ℝ) : ℂ) else num k / (d k : ℂ)) :=
    ⟨_, rfl⟩
  obtain ⟨v, hv⟩ : ∃ v : Fin n → ℂ, v = Pi.single k u := ⟨_, rfl⟩
  obtain ⟨S, hS⟩ : ∃ S : Mat n ℂ, S = Matrix.of fun i j => (1 : Mat n ℂ) i j - if j = src then v i else 0 := ⟨_, rfl⟩
  have hSdet : S.det = 1 - v src := by rw [hS, det_one_sub_col]
  have hSY : ∀ i, (S * Y) i = Y i - v i • Y src := by
    intro i
    funext s
    have : (S * Y) i s = ∑ j, ((1 : Mat n ℂ) i j * Y j s - (if j = src then v i else 0) * Y j s) := by
      rw [mul_apply]
      exact Finset.sum_congr rfl fun j _ => by rw [hS, of_apply, sub_mul]
    rw [this, Finset.sum_sub_distrib, ← mul_apply, Matrix.one_mul]
    simp
  have hsp : ∀ Z : Matrix (Fin n) (Fin t) ℂ, power phi Z
      = (∑ j ∈ Finset.univ.erase k, quad (wdiag (phi j)) (Z j)) + quad (wdiag (phi k)) (Z k) := by
    intro Z
    rw [power_eq, Finset.sum_erase_add _ _ (Finset.mem_univ k)]
  have hoth : ∑ j ∈ Finset.univ.erase k, quad (wdiag (phi j)) ((S * Y) j)
      = ∑ j ∈ Finset.univ.erase k, quad (wdiag (phi j)) (Y j) := by
    refine Finset.sum_congr rfl fun j hj => ?_
    rw [hSY, hv, Pi.single_eq_of_ne (Finset.ne_of_mem_erase hj), zero_smul, sub_zero]
  have hvk : v k = u := by rw [hv, Pi.single_eq_same]
  by_cases hks : k = src
  · have hs : 0 < Real.sqrt (d src) := Real.sqrt_pos.mpr (hd' src)
    have hsc : ((Real.sqrt (d src) : ℝ) : ℂ) ≠ 0 := by exact_mod_cast hs.ne'
    have hus : v src = 1 - 1 / ((Real.sqrt (d src) : ℝ) : ℂ) := by rw [show v src = v k by rw [hks], hvk, hu, if_pos hks]
    have hdet : S.det = 1 / ((Real.sqrt (d src) : ℝ) : ℂ) := by rw [hSdet, hus]; ring
    have h1 := hall S (by rw [hdet]; exact isUnit_iff_ne_zero.mpr (one_div_ne_zero hsc)) fun i j hj => by
      rw [hS, of_apply, if_neg hj, sub_zero]
    have hq : quad (wdiag (phi k)) ((S * Y) k) = 1 := by
      rw [hSY, hks, hus, show Y src - (1 - 1 / ((Real.sqrt (d src) : ℝ) : ℂ)) • Y src
          = (1 / ((Real.sqrt (d src) : ℝ) : ℂ)) • Y src by rw [sub_smul, one_smul]; abel, quad_smul, norm_div,
        norm_one, Complex.norm_real, Real.norm_eq_abs, abs_of_pos hs, div_pow, Real.sq_sqrt (hd' src).le, one_pow,
        one_div, show quad (wdiag (phi src)) (Y src) = d src by rw [hdd]]
      exact inv_mul_cancel₀ (hd' src).ne'
    rw [hsp Y, hsp (S * Y), hoth, hq, hdet, norm_div, norm_one, Complex.norm_real, Real.norm_eq_abs, abs_of_pos hs,
      one_div, Real.log_inv, Real.log_sqrt (hd' src).le, hks,
      show quad (wdiag (phi src)) (Y src) = d src by rw [hdd]] at h1
    have h2 : d src = 1 := by
      by_contra hne
      have := Real.log_lt_sub_one_of_pos (hd' src) hne
      linarith
    rw [hks, one_apply_eq, quad_eq (wdiag_posDef (hphi src)).1,
      show quad (wdiag (phi src)) (Y src) = d src by rw [hdd], h2, Complex.ofReal_one]
  · have hus : v src = 0 := by rw [hv, Pi.single_eq_of_ne (Ne.symm hks)]
    have hdet : S.det = 1 := by rw [hSdet, hus, sub_zero]
    have h1 := hall S (by rw [hdet]; exact isUnit_one) fun i j hj => by
      rw [hS, of_apply, if_neg hj, sub_zero]
    rw [hsp Y, hsp (S * Y), hoth, hdet, norm_one, Real.log_one, mul_zero, sub_zero, add_le_add_iff_left, hSY,
      hvk, hu, if_neg hks] at h1
    have hp := wdiag_posDef (hphi k)
    have hdk : (d k : ℂ) ≠ 0 := by exact_mod_cast (hd' k).ne'
    have horth : (Y k - (num k / (d k : ℂ)) • Y src) ⬝ᵥ (wdiag (phi k) *ᵥ star ((num k / (d k : ℂ)) • Y src)) = 0 := by
      rw [star_smul, mulVec_smul, dotProduct_smul, sub_dotProduct, smul_dotProduct, quad_eq hp.1,
        show Y k ⬝ᵥ (wdiag (phi k) *ᵥ star (Y src)) = num k by rw [hnum],
        show quad (wdiag (phi k)) (Y src) = d k by rw [hdd], smul_eq_mul, smul_eq_mul, div_mul_cancel₀ _ hdk, sub_self,
        mul_zero]
    have h3 := quad_add_of_orth hp.1 horth
    rw [sub_add_cancel] at h3
    have h4 := quad_nonneg hp.posSemidef ((num k / (d k : ℂ)) • Y src)
    have h5 : quad (wdiag (phi k)) ((num k / (d k : ℂ)) • Y src) = 0 := by linarith
    have h6 := quad_eq_zero hp h5
    rw [smul_eq_zero, or_iff_left hY, div_eq_zero_iff] at h6
    have h7 := h6.resolve_right hdk
    rw [one_apply_ne hks]
    rwa [hnum] at h7

/-- A sweep of ISS1 decreases the objective or changes nothing; it changes nothing exactly on balanced signals. -/
theorem iss1_strict (phi : Fin n → Fin t → ℝ) (hphi : ∀ k s, 0 < phi k s) (X : Matrix (Fin n) (Fin t) ℂ)
    (hX : LinearIndependent ℂ X.row) (W : Mat n ℂ) (hW : IsUnit W.det) :
    ∃ W', iss1 id phi (W * X) = W' * X ∧ IsUnit W'.det ∧
      (power phi (W' * X) - 2 * Real.log ‖W'.det‖ < power phi (W * X) - 2 * Real.log ‖W.det‖ ∨ W' = W) ∧
      (W' = W ↔ Balanced phi (W * X)) := by
  have hg : IsUnit (X * Xᴴ).det := by
    have : (X * Xᴴ).PosDef := PosDef.mul_conjTranspose_self _ (vecMul_injective_iff.mpr hX)
    exact (isUnit_iff_isUnit_det _).mp this.isUnit
  obtain ⟨R, hR⟩ : ∃ R : Matrix (Fin t) (Fin n) ℂ, X * R = 1 :=
    ⟨Xᴴ * (X * Xᴴ)⁻¹, by rw [← Matrix.mul_assoc, mul_nonsing_inv _ hg]⟩
  have hrec : ∀ V : Mat n ℂ, V * X * R = V := fun V => by rw [Matrix.mul_assoc, hR, Matrix.mul_one]
  have h := foldl_strict (iss1Row id phi) (fun Y => ∃ V : Mat n ℂ, Y = V * X ∧ IsUnit V.det)
    (fun Y => power phi Y - 2 * Real.log ‖(Y * R).det‖)
    (fun Y src => ∀ k, Y k ⬝ᵥ (wdiag (phi k) *ᵥ star (Y src)) = (1 : Mat n ℂ) k src) (List.finRange n)
    (by
      rintro Y src - ⟨V, rfl, hV⟩
      obtain ⟨T, hT, hr, -, hlt, hiff⟩ := iss1Row_strict phi hphi (V * X) src (row_ne_zero hX hV src)
      refine ⟨⟨T * V, by rw [hr, Matrix.mul_assoc], by rw [det_mul]; exact hT.mul hV⟩, ?_, hiff⟩
      refine hlt.imp (fun h => ?_) id
      rw [hr, ← Matrix.mul_assoc, hrec, hrec, det_mul, norm_mul,
        Real.log_mul (norm_pos_iff.mpr hT.ne_zero).ne' (norm_pos_iff.mpr hV.ne_zero).ne', Matrix.mul_assoc]
      linarith) (W * X) ⟨W, rfl, hW⟩
  obtain ⟨⟨W', h1, h2⟩, h3, h4⟩ := h
  have hinj : W' * X = W * X ↔ W' = W := ⟨fun h => by rw [← hrec W', h, hrec], fun h => by rw [h]⟩
  rw [h1, hinj] at h3 h4
  refine ⟨W', h1, h2, ?_, h4.trans ?_⟩
  · simpa only [hrec] using h3
  · simp only [List.mem_finRange, true_imp_iff, Balanced]
    exact ⟨fun h i j => h j i, fun h j i => h i j⟩

/-- The equation of one IP1 row in terms of the signals. -/
theorem row_equation_iff {F : Type} [Fintype F] (phi : Fin n → Fin t → ℝ) (X : F → Matrix (Fin n) (Fin t) ℂ) (f : F) (W : Mat n ℂ)
    (i : Fin n) : W *ᵥ (Iva.wcov phi X f i *ᵥ star (W i)) = Pi.single i 1 ↔
      ∀ j, (W * X f) i ⬝ᵥ (wdiag (phi i) *ᵥ star ((W * X f) j)) = (1 : Mat n ℂ) i j := by
  have hwd : (wdiag (phi i)).IsHermitian := by
    rw [wdiag, IsHermitian, diagonal_conjTranspose]
    congr 1
    funext s
    simp
  have e : ∀ j, (W *ᵥ (Iva.wcov phi X f i *ᵥ star (W i))) j
      = star ((W * X f) i ⬝ᵥ (wdiag (phi i) *ᵥ star ((W * X f) j))) := by
    intro j
    rw [← form_symm hwd, Iva.wcov_eq, ← mulVec_mulVec, ← mulVec_mulVec, ← star_vecMul]
    show W j ⬝ᵥ _ = (W j ᵥ* X f) ⬝ᵥ (wdiag (phi i) *ᵥ star (W i ᵥ* X f))
    rw [dotProduct_mulVec]
  constructor
  · intro h j
    have := congrFun h j
    rw [e] at this
    have h2 := congrArg star this
    rw [star_star] at h2
    rw [h2]
    by_cases hij : i = j
    · rw [hij, one_apply_eq, Pi.single_eq_same, star_one]
    · rw [one_apply_ne hij, Pi.single_eq_of_ne (Ne.symm hij), star_zero]
  · intro h
    funext j
    rw [e, h j]
    by_cases hij : i = j
    · rw [hij, one_apply_eq, Pi.single_eq_same, star_one]
    · rw [one_apply_ne hij, Pi.single_eq_of_ne (Ne.symm hij), star_zero]

/-- One IP2 step decreases the objective, unless both rows already solve their equations. -/
theorem ip2Pair_strict (np : Numpy ℂ) {U : Fin n → Mat n ℂ} (hU : ∀ k, (U k).PosDef) {W : Mat n ℂ}
    (hW : IsUnit W.det) {m k : Fin n} (hmk : m ≠ k) :
    ∃ W', ip2Pair np id U W (m, k) = .ok W' ∧ IsUnit W'.det ∧ ipLoss U W' ≤ ipLoss U W ∧
      (ipLoss U W' < ipLoss U W ∨
        ∀ i, i = m ∨ i = k → W *ᵥ (U i *ᵥ star (W i)) = Pi.single i 1) := by
  obtain ⟨x, y, h1, h2, -, -, h3⟩ := ip2Pair_spec np hmk (hU m) (hU k) hW
  have hbest : ∀ V : Mat n ℂ, IsUnit V.det → (∀ j, j ≠ m → j ≠ k → V j = W j) →
      ipLoss U ((W.updateRow m x).updateRow k y) ≤ ipLoss U V := by
    intro V hV hVW
    have hVe : V = (W.updateRow m (V m)).updateRow k (V k) := by
      funext j
      by_cases hj : j = k
      · rw [hj, updateRow_self]
      · rw [updateRow_ne hj]
        by_cases hj' : j = m
        · rw [hj', updateRow_self]
        · rw [updateRow_ne hj', hVW j hj' hj]
    rw [hVe] at hV ⊢
    rw [ipLoss_updateRow_pair U W hmk, ipLoss_updateRow_pair U W hmk]
    exact add_le_add_right (h3 _ _ hV) _
  have hle := hbest W hW fun _ _ _ => rfl
  refine ⟨_, h1, h2, hle, ?_⟩
  by_contra hcon
  rw [not_or, not_lt] at hcon
  obtain ⟨hge, hne⟩ := hcon
  refine hne fun i hi => ?_
  obtain ⟨V, g1, g2, g3, g4⟩ := ip1Row_strict i (hU i) hW
  obtain ⟨w, -, -, g5⟩ := ip1Row_ok id (hU i) hW
  rw [g1] at g5
  have g5 := Except.ok.inj g5
  refine g4.mp (g3.resolve_left fun hlt => ?_)
  have := hbest V g2 fun j hjm hjk => by
    rw [g5, updateRow_ne]
    rintro rfl
    exact hi.elim hjm hjk
  linarith

/-- One ISS2 step decreases the objective, unless the columns of the pair are already balanced. -/
theorem iss2Pair_strict (np : Numpy ℂ) (phi : Fin n → Fin t → ℝ) (hphi : ∀ k s, 0 < phi k s)
    (Y : Matrix (Fin n) (Fin t) ℂ) {m k : Fin n} (hmk : m ≠ k)
    (hY : Function.Injective (Matrix.of ![Y m, Y k] : Matrix (Fin 2) (Fin t) ℂ).vecMul) :
    ∃ T : Mat n ℂ, IsUnit T.det ∧ iss2Pair np id phi Y (m, k) = .ok (T * Y) ∧
      power phi (T * Y) - 2 * Real.log ‖T.det‖ ≤ power phi Y ∧
      (power phi (T * Y) - 2 * Real.log ‖T.det‖ < power phi Y ∨
        ∀ j, j = m ∨ j = k → ∀ i, Y i ⬝ᵥ (wdiag (phi i) *ᵥ star (Y j)) = (1 : Mat n ℂ) i j) := by
  obtain ⟨T, hT, hr, -, hbest⟩ := iss2Pair_best np phi hphi Y hmk hY
  have hle := hbest 1 (by simp) fun _ _ _ _ => rfl
  rw [Matrix.one_mul, det_one, norm_one, Real.log_one, mul_zero, sub_zero] at hle
  refine ⟨T, hT, hr, hle, ?_⟩
  by_contra hcon
  rw [not_or, not_lt] at hcon
  obtain ⟨hge, hne⟩ := hcon
  refine hne fun j hj => ?_
  have hYj : Y j ≠ 0 := by
    intro h0
    rcases hj with rfl | rfl
    · have := @hY ![1, 0] 0 (by funext s; simp [vecMul, dotProduct, Fin.sum_univ_two, h0])
      simpa using congrFun this 0
    · have := @hY ![0, 1] 0 (by funext s; simp [vecMul, dotProduct, Fin.sum_univ_two, h0])
      simpa using congrFun this 1
  obtain ⟨S, hS, -, hSc, hlt, hiff⟩ := iss1Row_strict phi hphi Y j hYj
  have hbS := hbest S hS fun a b hbm hbk => hSc a b (by
    rintro rfl
    exact hj.elim hbm hbk)
  exact hiff.mp (hlt.resolve_left fun h => by linarith)

end Spatial

namespace Iva
open Matrix Spatial Scale
open scoped ComplexOrder

variable {F : Type} [Fintype F] {n t : ℕ}

/-- If every summand decreases or its bin is unchanged, then the sum decreases or nothing changes. -/
theorem sum_strict {α : Type} {a b : F → ℝ} {W W' : F → α} (h : ∀ f, a f < b f ∨ W' f = W f)
    (hab : ∀ f, W' f = W f → a f = b f) : ∑ f, a f < ∑ f, b f ∨ W' = W := by
  by_cases hW : W' = W
  · exact .inr hW
  left
  obtain ⟨f, hf⟩ := Function.ne_iff.mp hW
  refine Finset.sum_lt_sum (fun f _ => ?_) ⟨f, Finset.mem_univ _, (h f).resolve_right hf⟩
  exact (h f).elim le_of_lt fun h => (hab f h).le

/-- IP1 for all bins, the weights may depend on the bin. -/
theorem ip1Stack_strict (phi : F → Fin n → Fin t → ℝ) (hphi : ∀ f k s, 0 < phi f k s) (X : Spec F n t)
    (hX : ∀ f, LinearIndependent ℂ (X f).row) (W : F → Mat n ℂ) (hW : ∀ f, IsUnit (W f).det) :
    ∃ W', ip1Stack id (fun f => wcov (phi f) X f) W = .ok W' ∧ (∀ f, IsUnit (W' f).det) ∧
      (∑ f, (power (phi f) (separate X W' f) - 2 * Real.log ‖(W' f).det‖)
        < ∑ f, (power (phi f) (separate X W f) - 2 * Real.log ‖(W f).det‖) ∨ W' = W) ∧
      (W' = W ↔ ∀ f, Balanced (phi f) (separate X W f)) := by
  have h := fun f => ip1_strict (wcov (phi f) X f) (fun k => wcov_posDef (hphi f) hX f k) (W f) (hW f)
  choose W' h1 h2 h3 h4 using h
  refine ⟨W', foldlM_onBins (fun f => ip1Row id (wcov (phi f) X f)) (List.finRange n) W W' h1, h2,
    sum_strict (fun f => ?_) fun f hf => by rw [separate, separate, hf], ?_⟩
  · have := h3 f
    rwa [ipLoss_wcov (phi f) X W', ipLoss_wcov (phi f) X W] at this
  · rw [funext_iff]
    refine forall_congr' fun f => (h4 f).trans ?_
    exact forall_congr' fun i => row_equation_iff (phi f) X f (W f) i

/-- ISS1 for all bins, the weights may depend on the bin. -/
theorem iss1Stack_strict (phi : F → Fin n → Fin t → ℝ) (hphi : ∀ f k s, 0 < phi f k s) (X : Spec F n t)
    (hX : ∀ f, LinearIndependent ℂ (X f).row) (W : F → Mat n ℂ) (hW : ∀ f, IsUnit (W f).det) :
    ∃ W' : F → Mat n ℂ, (fun f => iss1 id (phi f) (separate X W f)) = separate X W' ∧ (∀ f, IsUnit (W' f).det) ∧
      (∑ f, (power (phi f) (separate X W' f) - 2 * Real.log ‖(W' f).det‖)
        < ∑ f, (power (phi f) (separate X W f) - 2 * Real.log ‖(W f).det‖) ∨ W' = W) ∧
      (W' = W ↔ ∀ f, Balanced (phi f) (separate X W f)) := by
  have h := fun f => iss1_strict (phi f) (hphi f) (X f) (hX f) (W f) (hW f)
  choose W' h1 h2 h3 h4 using h
  refine ⟨W', funext h1, h2, sum_strict h3 fun f hf => by rw [separate, separate, hf], ?_⟩
  rw [funext_iff]
  exact forall_congr' h4

/-- A filter is determined by the separated signals if the observations are linearly independent. -/
theorem separate_injective (X : Spec F n t) (hX : ∀ f, LinearIndependent ℂ (X f).row) :
    Function.Injective (separate X) := by
  intro W W' h
  funext f
  have h1 := congrFun h f
  have h2 : ∀ V : Mat n ℂ, V * X f * ((X f)ᴴ * (X f * (X f)ᴴ)⁻¹) = V := fun V => by
    rw [Matrix.mul_assoc, ← Matrix.mul_assoc (X f), mul_nonsing_inv _ (gram_isUnit X hX f), Matrix.mul_one]
  rw [← h2 (W f), ← h2 (W' f)]
  exact congrArg (· * ((X f)ᴴ * (X f * (X f)ᴴ)⁻¹)) h1

end Iva
end Verif
