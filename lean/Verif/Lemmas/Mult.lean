import Mathlib.Analysis.SpecialFunctions.Pow.Real
import Mathlib.Analysis.SpecialFunctions.Log.Basic
import Mathlib.Analysis.Convex.SpecificFunctions.Basic
import Mathlib.Algebra.Order.BigOperators.Group.Finset
import Mathlib.Algebra.BigOperators.Field

/-! # Multiplicative updates of non-negative factors

For a model `R i = ∑ j, a i j * θ j` and the objective `∑ i, (w i * R i ^ (-q) + κ * log (R i))`. -/

namespace Verif.Mult

/-- The tangent of `x ^ (-q)` at one. -/
theorem one_sub_le_rpow_neg {q x : ℝ} (hq : 0 ≤ q) (hx : 0 < x) : 1 - q * (x - 1) ≤ x ^ (-q) := by
  rw [Real.rpow_def_of_pos hx]
  have h1 := Real.add_one_le_exp (Real.log x * -q)
  have h2 := Real.log_le_sub_one_of_pos hx
  nlinarith

/-- The part of the auxiliary function belonging to one parameter. -/
noncomputable def aux (q κ c d ρ : ℝ) : ℝ := c * ρ ^ (-q) + κ * d * ρ

/-- The auxiliary function does not increase on the way from one to its minimiser. -/
theorem aux_le_of_between {q κ c d ρ : ℝ} (hq : 0 < q) (hκ : 0 ≤ κ) (hd : 0 ≤ d) (hρ : 0 < ρ)
    (h : ρ ≤ 1 ∧ q * c ≤ κ * d * ρ ^ (1 + q) ∨ 1 ≤ ρ ∧ κ * d * ρ ^ (1 + q) ≤ q * c) :
    aux q κ c d ρ ≤ aux q κ c d 1 := by
  have hb := one_add_mul_self_le_rpow_one_add (s := ρ - 1) (by linarith) (show 1 ≤ 1 + q by linarith)
  rw [show 1 + (ρ - 1) = ρ by ring] at hb
  have hmul : ρ ^ (1 + q) * ρ ^ (-q) = ρ := by
    rw [← Real.rpow_add hρ]
    simp
  have key : q * c * (ρ ^ (-q) - 1) ≤ κ * d * ρ ^ (1 + q) * (ρ ^ (-q) - 1) := by
    rcases h with ⟨h1, h2⟩ | ⟨h1, h2⟩
    · have : 1 ≤ ρ ^ (-q) := Real.one_le_rpow_of_pos_of_le_one_of_nonpos hρ h1 (by linarith)
      exact mul_le_mul_of_nonneg_right h2 (by linarith)
    · have : ρ ^ (-q) ≤ 1 := Real.rpow_le_one_of_one_le_of_nonpos h1 (by linarith)
      exact mul_le_mul_of_nonpos_right h2 (by linarith)
  have h3 : κ * d * ρ ^ (1 + q) * (ρ ^ (-q) - 1) = κ * d * (ρ - ρ ^ (1 + q)) := by
    linear_combination κ * d * hmul
  have h4 : κ * d * (ρ - ρ ^ (1 + q)) ≤ κ * d * (q * (1 - ρ)) :=
    mul_le_mul_of_nonneg_left (by linarith) (mul_nonneg hκ hd)
  have h5 : q * (c * (ρ ^ (-q) - 1)) ≤ q * (κ * d * (1 - ρ)) := by
    calc q * (c * (ρ ^ (-q) - 1)) = q * c * (ρ ^ (-q) - 1) := by ring
      _ ≤ κ * d * (q * (1 - ρ)) := by rw [h3] at key; exact key.trans h4
      _ = q * (κ * d * (1 - ρ)) := by ring
  have h6 := le_of_mul_le_mul_left h5 hq
  rw [aux, aux, Real.one_rpow]
  linarith

/-- With `q = 1` the value at `c / (κ d)` is the value at one. -/
theorem aux_le_of_equalised {κ c d ρ : ℝ} (hc : 0 ≤ c) (hρ : 0 < ρ)
    (h : ρ ≤ 1 ∧ c ≤ κ * d * ρ ∨ 1 ≤ ρ ∧ κ * d * ρ ≤ c) : aux 1 κ c d ρ ≤ aux 1 κ c d 1 := by
  rw [aux, aux, Real.one_rpow, Real.rpow_neg hρ.le, Real.rpow_one]
  have h1 : c * ρ⁻¹ + κ * d * ρ - (c * 1 + κ * d * 1) = (1 - ρ) * (c - κ * d * ρ) / ρ := by
    field_simp
    ring
  have h2 : (1 - ρ) * (c - κ * d * ρ) / ρ ≤ 0 := by
    refine div_nonpos_of_nonpos_of_nonneg ?_ hρ.le
    rcases h with ⟨h1, h2⟩ | ⟨h1, h2⟩
    · exact mul_nonpos_of_nonneg_of_nonpos (by linarith) (by linarith)
    · exact mul_nonpos_of_nonpos_of_nonneg (by linarith) (by linarith)
  linarith

variable {I J : Type} [Fintype I] [Fintype J]

/-- The objective. -/
noncomputable def obj (q κ : ℝ) (w R : I → ℝ) : ℝ := ∑ i, (w i * R i ^ (-q) + κ * Real.log (R i))

theorem one_sub_lt_rpow_neg {q x : ℝ} (hq : 0 < q) (hx : 0 < x) (hne : x ≠ 1) : 1 - q * (x - 1) < x ^ (-q) := by
  rw [Real.rpow_def_of_pos hx]
  have h1 := Real.add_one_le_exp (Real.log x * -q)
  have h2 := Real.log_lt_sub_one_of_pos hx hne
  nlinarith

theorem rpow_neg_jensen (a : J → ℝ) (ha : ∀ j, 0 ≤ a j) (θ ρ : J → ℝ) (hθ : ∀ j, 0 < θ j)
    (hρ : ∀ j, 0 < ρ j) {q : ℝ} (hq : 0 ≤ q) (hR : 0 < ∑ j, a j * θ j) (hR' : 0 < ∑ j, a j * (ρ j * θ j)) :
    (∑ j, a j * (ρ j * θ j)) ^ (-q) ≤ ∑ j, a j * θ j * (∑ j, a j * θ j) ^ (-(1 + q)) * ρ j ^ (-q) := by
  set R := ∑ j, a j * θ j with hRd
  set R' := ∑ j, a j * (ρ j * θ j) with hRd'
  set m := R' / R with hm
  have hmpos : 0 < m := div_pos hR' hR
  have h1 : ∀ j, m ^ (-q) * (1 - q * (ρ j / m - 1)) ≤ ρ j ^ (-q) := by
    intro j
    have := mul_le_mul_of_nonneg_left (one_sub_le_rpow_neg hq (div_pos (hρ j) hmpos))
      (Real.rpow_nonneg hmpos.le (-q))
    rwa [← Real.mul_rpow hmpos.le (div_pos (hρ j) hmpos).le, mul_div_cancel₀ _ hmpos.ne'] at this
  have h2 : ∑ j, a j * θ j * (m ^ (-q) * (1 - q * (ρ j / m - 1))) ≤ ∑ j, a j * θ j * ρ j ^ (-q) :=
    Finset.sum_le_sum fun j _ => mul_le_mul_of_nonneg_left (h1 j) (mul_nonneg (ha j) (hθ j).le)
  have h3 : ∑ j, a j * θ j * (m ^ (-q) * (1 - q * (ρ j / m - 1))) = R * m ^ (-q) := by
    have : ∀ j, a j * θ j * (m ^ (-q) * (1 - q * (ρ j / m - 1)))
        = (m ^ (-q) * (1 + q)) * (a j * θ j) - (m ^ (-q) * q / m) * (a j * (ρ j * θ j)) := by
      intro j
      field_simp
      ring
    simp only [this, Finset.sum_sub_distrib, ← Finset.mul_sum]
    rw [← hRd, ← hRd', show R' = m * R by rw [hm]; field_simp]
    field_simp
    ring
  rw [h3] at h2
  have h4 : R' ^ (-q) = R ^ (-(1 + q)) * (R * m ^ (-q)) := by
    rw [show R' = R * m by rw [hm]; field_simp, Real.mul_rpow hR.le hmpos.le, ← mul_assoc]
    congr 1
    nth_rewrite 3 [← Real.rpow_one R]
    rw [← Real.rpow_add hR]
    congr 1
    ring
  rw [h4]
  calc R ^ (-(1 + q)) * (R * m ^ (-q)) ≤ R ^ (-(1 + q)) * ∑ j, a j * θ j * ρ j ^ (-q) :=
        mul_le_mul_of_nonneg_left h2 (Real.rpow_nonneg hR.le _)
    _ = _ := by
      rw [Finset.mul_sum]
      exact Finset.sum_congr rfl fun j _ => by ring

/-- Jensen's inequality is strict unless all factors are equal. -/
theorem rpow_neg_jensen_strict (a : J → ℝ) (ha : ∀ j, 0 < a j) (θ ρ : J → ℝ) (hθ : ∀ j, 0 < θ j)
    (hρ : ∀ j, 0 < ρ j) {q : ℝ} (hq : 0 < q) (hR : 0 < ∑ j, a j * θ j)
    (hR' : ∑ j, a j * (ρ j * θ j) = ∑ j, a j * θ j) (hne : ∃ j, ρ j ≠ 1) :
    (∑ j, a j * (ρ j * θ j)) ^ (-q) < ∑ j, a j * θ j * (∑ j, a j * θ j) ^ (-(1 + q)) * ρ j ^ (-q) := by
  obtain ⟨R, hRd⟩ : ∃ R, R = ∑ j, a j * θ j := ⟨_, rfl⟩
  rw [hR', ← hRd]
  rw [← hRd] at hR hR'
  have h2 : ∑ j, a j * θ j * (1 - q * (ρ j - 1)) < ∑ j, a j * θ j * ρ j ^ (-q) := by
    obtain ⟨j, hj⟩ := hne
    refine Finset.sum_lt_sum (fun j _ => ?_) ⟨j, Finset.mem_univ j, ?_⟩
    · exact mul_le_mul_of_nonneg_left (one_sub_le_rpow_neg hq.le (hρ j)) (mul_pos (ha j) (hθ j)).le
    · exact mul_lt_mul_of_pos_left (one_sub_lt_rpow_neg hq (hρ j) hj) (mul_pos (ha j) (hθ j))
  have h3 : ∑ j, a j * θ j * (1 - q * (ρ j - 1)) = R := by
    have : ∀ j, a j * θ j * (1 - q * (ρ j - 1)) = (1 + q) * (a j * θ j) - q * (a j * (ρ j * θ j)) := fun j => by ring
    simp only [this, Finset.sum_sub_distrib, ← Finset.mul_sum]
    rw [hR', ← hRd]
    ring
  rw [h3] at h2
  have h4 : R ^ (-q) = R ^ (-(1 + q)) * R := by
    nth_rewrite 3 [← Real.rpow_one R]
    rw [← Real.rpow_add hR]
    congr 1
    ring
  rw [h4]
  calc R ^ (-(1 + q)) * R < R ^ (-(1 + q)) * ∑ j, a j * θ j * ρ j ^ (-q) :=
        mul_lt_mul_of_pos_left h2 (Real.rpow_pos_of_pos hR _)
    _ = _ := by
      rw [Finset.mul_sum]
      exact Finset.sum_congr rfl fun j _ => by ring

/-- The auxiliary function as a sum over the observations. -/
noncomputable def maj (a : I → J → ℝ) (θ ρ : J → ℝ) (q κ : ℝ) (w : I → ℝ) : ℝ :=
  ∑ i, (w i * ∑ j, a i j * θ j * (∑ j, a i j * θ j) ^ (-(1 + q)) * ρ j ^ (-q)
    + κ * (Real.log (∑ j, a i j * θ j) + ((∑ j, a i j * (ρ j * θ j)) / (∑ j, a i j * θ j) - 1)))

section
variable (a : I → J → ℝ) (θ ρ : J → ℝ) {q κ : ℝ} (w : I → ℝ)

/-- The auxiliary function as a sum over the parameters. -/
theorem maj_eq (hR : ∀ i, 0 < ∑ j, a i j * θ j) :
    maj a θ ρ q κ w = obj q κ w (fun i => ∑ j, a i j * θ j)
      + ∑ j, θ j * (aux q κ (∑ i, a i j * (w i * (∑ j, a i j * θ j) ^ (-(1 + q))))
          (∑ i, a i j / ∑ j, a i j * θ j) (ρ j)
        - aux q κ (∑ i, a i j * (w i * (∑ j, a i j * θ j) ^ (-(1 + q)))) (∑ i, a i j / ∑ j, a i j * θ j) 1) := by
  set R : I → ℝ := fun i => ∑ j, a i j * θ j with hRd
  have h2 : ∑ i, (w i * ∑ j, a i j * θ j * R i ^ (-(1 + q)) * ρ j ^ (-q)
        + κ * (Real.log (R i) + ((∑ j, a i j * (ρ j * θ j)) / R i - 1)))
      = ∑ j, θ j * aux q κ (∑ i, a i j * (w i * R i ^ (-(1 + q)))) (∑ i, a i j / R i) (ρ j)
        + ∑ i, κ * (Real.log (R i) - 1) := by
    have e1 : ∑ i, w i * ∑ j, a i j * θ j * R i ^ (-(1 + q)) * ρ j ^ (-q)
        = ∑ j, θ j * ((∑ i, a i j * (w i * R i ^ (-(1 + q)))) * ρ j ^ (-q)) := by
      simp only [Finset.mul_sum, Finset.sum_mul]
      rw [Finset.sum_comm]
      exact Finset.sum_congr rfl fun j _ => Finset.sum_congr rfl fun i _ => by ring
    have e2 : ∑ i, κ * ((∑ j, a i j * (ρ j * θ j)) / R i) = ∑ j, θ j * (κ * (∑ i, a i j / R i) * ρ j) := by
      simp only [Finset.mul_sum, Finset.sum_mul, Finset.sum_div]
      rw [Finset.sum_comm]
      exact Finset.sum_congr rfl fun j _ => Finset.sum_congr rfl fun i _ => by ring
    have e3 : ∀ i, κ * (Real.log (R i) + ((∑ j, a i j * (ρ j * θ j)) / R i - 1))
        = κ * ((∑ j, a i j * (ρ j * θ j)) / R i) + κ * (Real.log (R i) - 1) := fun i => by ring
    simp only [e3, aux, mul_add, Finset.sum_add_distrib, e1, e2]
    ring
  have h3 : ∑ j, θ j * aux q κ (∑ i, a i j * (w i * R i ^ (-(1 + q)))) (∑ i, a i j / R i) 1
        + ∑ i, κ * (Real.log (R i) - 1) = obj q κ w R := by
    have e1 : ∑ j, θ j * aux q κ (∑ i, a i j * (w i * R i ^ (-(1 + q)))) (∑ i, a i j / R i) 1
        = ∑ i, (w i * R i ^ (-q) + κ) := by
      simp only [aux, Real.one_rpow, mul_one, mul_add, Finset.sum_add_distrib, Finset.mul_sum]
      congr 1
      · rw [Finset.sum_comm]
        refine Finset.sum_congr rfl fun i _ => ?_
        have : ∀ j, θ j * (a i j * (w i * R i ^ (-(1 + q)))) = a i j * θ j * (w i * R i ^ (-(1 + q))) :=
          fun j => by ring
        simp only [this, ← Finset.sum_mul]
        show R i * (w i * R i ^ (-(1 + q))) = _
        have h : R i ^ (-q) = R i * R i ^ (-(1 + q)) := by
          nth_rewrite 2 [← Real.rpow_one (R i)]
          rw [← Real.rpow_add (hR i)]
          congr 1
          ring
        rw [h]
        ring
      · rw [Finset.sum_comm]
        refine Finset.sum_congr rfl fun i _ => ?_
        have : ∀ j, θ j * (κ * (a i j / R i)) = κ / R i * (a i j * θ j) := fun j => by ring
        simp only [this, ← Finset.mul_sum]
        show κ / R i * R i = κ
        rw [div_mul_cancel₀ _ (hR i).ne']
    rw [e1, ← Finset.sum_add_distrib, obj]
    exact Finset.sum_congr rfl fun i _ => by ring
  have h4 : maj a θ ρ q κ w = ∑ i, (w i * ∑ j, a i j * θ j * R i ^ (-(1 + q)) * ρ j ^ (-q)
        + κ * (Real.log (R i) + ((∑ j, a i j * (ρ j * θ j)) / R i - 1))) := rfl
  rw [h4, h2, ← h3]
  simp only [mul_sub, Finset.sum_sub_distrib]
  ring

omit [Fintype I] in
theorem model_pos (ha : ∀ i j, 0 ≤ a i j) (hθ : ∀ j, 0 < θ j) (hρ : ∀ j, 0 < ρ j) (hR : ∀ i, 0 < ∑ j, a i j * θ j)
    (i : I) : 0 < ∑ j, a i j * (ρ j * θ j) := by
  obtain ⟨j, -, hj⟩ := Finset.exists_ne_zero_of_sum_ne_zero (hR i).ne'
  have hj' : 0 < a i j := lt_of_le_of_ne (ha i j) fun h => hj (by rw [← h, zero_mul])
  exact Finset.sum_pos' (fun j _ => mul_nonneg (ha i j) (mul_pos (hρ j) (hθ j)).le)
    ⟨j, Finset.mem_univ j, mul_pos hj' (mul_pos (hρ j) (hθ j))⟩

/-- The objective lies below the auxiliary function. -/
theorem obj_le_maj (ha : ∀ i j, 0 ≤ a i j) (hθ : ∀ j, 0 < θ j) (hρ : ∀ j, 0 < ρ j)
    (hq : 0 ≤ q) (hκ : 0 ≤ κ) (hw : ∀ i, 0 ≤ w i) (hR : ∀ i, 0 < ∑ j, a i j * θ j) :
    obj q κ w (fun i => ∑ j, a i j * (ρ j * θ j)) ≤ maj a θ ρ q κ w := by
  have hR' := model_pos a θ ρ ha hθ hρ hR
  refine Finset.sum_le_sum fun i _ => add_le_add ?_ ?_
  · exact mul_le_mul_of_nonneg_left (rpow_neg_jensen (a i) (ha i) θ ρ hθ hρ hq (hR i) (hR' i)) (hw i)
  · refine mul_le_mul_of_nonneg_left ?_ hκ
    have := Real.log_le_sub_one_of_pos (div_pos (hR' i) (hR i))
    rw [Real.log_div (hR' i).ne' (hR i).ne'] at this
    linarith

/-- It lies strictly below if a factor differs from one and the data do not vanish. -/
theorem obj_lt_maj (ha : ∀ i j, 0 < a i j) (hθ : ∀ j, 0 < θ j) (hρ : ∀ j, 0 < ρ j)
    (hq : 0 < q) (hκ : 0 < κ) (hw : ∀ i, 0 ≤ w i) (hR : ∀ i, 0 < ∑ j, a i j * θ j) (hw' : ∃ i, 0 < w i)
    (hne : ∃ j, ρ j ≠ 1) :
    obj q κ w (fun i => ∑ j, a i j * (ρ j * θ j)) < maj a θ ρ q κ w := by
  have hR' := model_pos a θ ρ (fun i j => (ha i j).le) hθ hρ hR
  have h1 := fun i => rpow_neg_jensen (a i) (fun j => (ha i j).le) θ ρ hθ hρ hq.le (hR i) (hR' i)
  have h2 : ∀ i, Real.log (∑ j, a i j * (ρ j * θ j))
      ≤ Real.log (∑ j, a i j * θ j) + ((∑ j, a i j * (ρ j * θ j)) / (∑ j, a i j * θ j) - 1) := fun i => by
    have := Real.log_le_sub_one_of_pos (div_pos (hR' i) (hR i))
    rw [Real.log_div (hR' i).ne' (hR i).ne'] at this
    linarith
  obtain ⟨i, hi⟩ := hw'
  refine Finset.sum_lt_sum (fun i _ => add_le_add (mul_le_mul_of_nonneg_left (h1 i) (hw i))
    (mul_le_mul_of_nonneg_left (h2 i) hκ.le)) ⟨i, Finset.mem_univ i, ?_⟩
  by_cases he : ∑ j, a i j * (ρ j * θ j) = ∑ j, a i j * θ j
  · exact add_lt_add_of_lt_of_le
      (mul_lt_mul_of_pos_left (rpow_neg_jensen_strict (a i) (ha i) θ ρ hθ hρ hq (hR i) he hne) hi)
      (mul_le_mul_of_nonneg_left (h2 i) hκ.le)
  · refine add_lt_add_of_le_of_lt (mul_le_mul_of_nonneg_left (h1 i) hi.le) (mul_lt_mul_of_pos_left ?_ hκ)
    have := Real.log_lt_sub_one_of_pos (div_pos (hR' i) (hR i)) (by rwa [ne_eq, div_eq_one_iff_eq (hR i).ne'])
    rw [Real.log_div (hR' i).ne' (hR i).ne'] at this
    linarith

end

/-- Multiplying every parameter by a factor that does not increase its part of the auxiliary function does not
increase the objective. -/
theorem obj_le (a : I → J → ℝ) (ha : ∀ i j, 0 ≤ a i j) (θ ρ : J → ℝ) (hθ : ∀ j, 0 < θ j) (hρ : ∀ j, 0 < ρ j)
    {q κ : ℝ} (hq : 0 ≤ q) (hκ : 0 ≤ κ) (w : I → ℝ) (hw : ∀ i, 0 ≤ w i) (hR : ∀ i, 0 < ∑ j, a i j * θ j)
    (haux : ∀ j, aux q κ (∑ i, a i j * (w i * (∑ j, a i j * θ j) ^ (-(1 + q))))
        (∑ i, a i j / ∑ j, a i j * θ j) (ρ j)
      ≤ aux q κ (∑ i, a i j * (w i * (∑ j, a i j * θ j) ^ (-(1 + q)))) (∑ i, a i j / ∑ j, a i j * θ j) 1) :
    obj q κ w (fun i => ∑ j, a i j * (ρ j * θ j)) ≤ obj q κ w (fun i => ∑ j, a i j * θ j) := by
  refine (obj_le_maj a θ ρ w ha hθ hρ hq hκ hw hR).trans ?_
  rw [maj_eq a θ ρ w hR]
  have : ∑ j, θ j * (aux q κ (∑ i, a i j * (w i * (∑ j, a i j * θ j) ^ (-(1 + q))))
          (∑ i, a i j / ∑ j, a i j * θ j) (ρ j)
        - aux q κ (∑ i, a i j * (w i * (∑ j, a i j * θ j) ^ (-(1 + q)))) (∑ i, a i j / ∑ j, a i j * θ j) 1) ≤ 0 :=
    Finset.sum_nonpos fun j _ => mul_nonpos_of_nonneg_of_nonpos (hθ j).le (sub_nonpos.mpr (haux j))
  linarith

end Verif.Mult
