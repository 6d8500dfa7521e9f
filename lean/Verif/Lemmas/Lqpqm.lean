import Mathlib.Topology.Order.IntermediateValue
import Mathlib.Topology.Algebra.Polynomial
import Verif.Lemmas.Cubic

/-! # The secular function and the guarded Newton iteration -/

namespace Verif.Lqpqm

open Matrix Verif.Linalg

/-- The cubic of the initial value is `(x - p)² (x - z) - p a² x²`. -/
theorem cubic_form (p a z x : ℝ) : x ^ 3 + -(p * a ^ 2 + 2 * p + z) * x ^ 2 + (p + 2 * z) * p * x + -p ^ 2 * z =
    (x - p) ^ 2 * (x - z) - p * a ^ 2 * x ^ 2 := by ring

/-- The initial value is the largest real root of its cubic, and above the pole. -/
theorem start_root {p a z : ℝ} (hp : 0 < p) (ha : a ≠ 0) (hz : 0 ≤ z) :
    let r := findLargestRoot (-(p * a ^ 2 + 2 * p + z)) ((p + 2 * z) * p) (-p ^ 2 * z)
    p < r ∧ (r - p) ^ 2 * (r - z) - p * a ^ 2 * r ^ 2 = 0 ∧
      ∀ y, (y - p) ^ 2 * (y - z) - p * a ^ 2 * y ^ 2 = 0 → y ≤ r := by
  intro r
  have hb : 0 < p * a ^ 2 := by positivity
  have hspec := findLargestRoot_spec (A := -(p * a ^ 2 + 2 * p + z)) (B := (p + 2 * z) * p) (C := -p ^ 2 * z) (by
    generalize p * a ^ 2 = b at hb
    intro hP hD
    by_contra hQ
    push Not at hQ
    apply absurd hD
    rw [not_lt]
    obtain ⟨P, hPd⟩ : ∃ P, P = -(-(b + 2 * p + z)) ^ 2 / 3 + (p + 2 * z) * p := ⟨_, rfl⟩
    obtain ⟨Q, hQd⟩ : ∃ Q, Q = 2 * (-(b + 2 * p + z)) ^ 3 / 27 - -(b + 2 * p + z) * ((p + 2 * z) * p) / 3 + -p ^ 2 * z :=
      ⟨_, rfl⟩
    rw [← hPd, ← hQd]
    rw [← hQd] at hQ
    rw [← hPd] at hP
    obtain ⟨m, hm⟩ : ∃ m, m = (b + 2 * p + z) / 3 := ⟨_, rfl⟩
    have hQm : Q = b * p * (p - 2 * m) - 2 * (m - p) ^ 3 := by rw [hQd, hm]; ring
    have hlt : m < p := by
      by_contra hge
      push Not at hge
      have h1 : 0 ≤ (m - p) ^ 3 := by have : 0 ≤ m - p := by linarith
                                      positivity
      have h2 : b * p * (p - 2 * m) ≤ 0 := mul_nonpos_of_nonneg_of_nonpos (by positivity) (by linarith)
      linarith
    have ht : 0 < p - m := by linarith
    have hval : (p - m) ^ 3 + P * (p - m) + Q = -b * p ^ 2 := by
      rw [hPd, hQd, hm]
      ring
    obtain ⟨s, hs⟩ : ∃ s, s = Real.sqrt (-P / 3) := ⟨_, rfl⟩
    have hs0 : 0 ≤ s := by rw [hs]; positivity
    have hs2 : s ^ 2 = -P / 3 := by rw [hs]; exact Real.sq_sqrt (by linarith)
    have hP3 : P = -3 * s ^ 2 := by rw [hs2]; ring
    have hnn : 0 ≤ ((p - m) - s) ^ 2 * ((p - m) + 2 * s) := mul_nonneg (sq_nonneg _) (by linarith)
    have hQs : Q ≤ 2 * s ^ 3 := by
      have e : ((p - m) - s) ^ 2 * ((p - m) + 2 * s) = (p - m) ^ 3 + P * (p - m) + 2 * s ^ 3 := by
        rw [hP3]; ring
      have : 0 ≤ b * p ^ 2 := by positivity
      linarith
    have : (Q / 2) ^ 2 ≤ (s ^ 3) ^ 2 := pow_le_pow_left₀ (by linarith) (by linarith) 2
    have e : (P / 3) ^ 3 = -(s ^ 3) ^ 2 := by rw [hP3]; ring
    rw [e]
    linarith)
  obtain ⟨h1, h2⟩ := hspec
  have h1' : (r - p) ^ 2 * (r - z) - p * a ^ 2 * r ^ 2 = 0 := by rw [← cubic_form]; exact h1
  have h2' : ∀ y, (y - p) ^ 2 * (y - z) - p * a ^ 2 * y ^ 2 = 0 → y ≤ r := fun y hy =>
    h2 y (by rw [cubic_form]; exact hy)
  refine ⟨?_, h1', h2'⟩
  -- a root above the pole exists
  obtain ⟨M, hM⟩ : ∃ M, M = 2 * p + z + 4 * (p * a ^ 2) := ⟨_, rfl⟩
  have hcont : ContinuousOn (fun y : ℝ => (y - p) ^ 2 * (y - z) - p * a ^ 2 * y ^ 2) (Set.Icc p M) := by fun_prop
  have hlow : (p - p) ^ 2 * (p - z) - p * a ^ 2 * p ^ 2 < 0 := by
    have : 0 < p * a ^ 2 * p ^ 2 := by positivity
    nlinarith
  have hhigh : 0 ≤ (M - p) ^ 2 * (M - z) - p * a ^ 2 * M ^ 2 := by
    generalize p * a ^ 2 = b at hb hM
    have h1 : (M / 2) ^ 2 ≤ (M - p) ^ 2 := pow_le_pow_left₀ (by linarith) (by linarith) 2
    have h2 : 4 * b ≤ M - z := by linarith
    have h3 : (M / 2) ^ 2 * (4 * b) ≤ (M - p) ^ 2 * (M - z) := mul_le_mul h1 h2 (by linarith) (sq_nonneg _)
    nlinarith
  obtain ⟨y, hy, hy0⟩ := intermediate_value_Icc (show p ≤ M by linarith) hcont ⟨hlow.le, hhigh⟩
  have hy0 : (y - p) ^ 2 * (y - z) - p * a ^ 2 * y ^ 2 = 0 := hy0
  have hpy : p < y := by
    refine lt_of_le_of_ne hy.1 fun e => ?_
    rw [← e] at hy0
    linarith
  exact hpy.trans_le (h2' y hy0)

/-- The coefficients of a secular function with largest pole `p`. -/
structure Sec {n : ℕ} (phi : Fin n → ℝ) (p : ℝ) : Prop where
  pos : 0 < p
  nonneg : ∀ i, 0 ≤ phi i
  le : ∀ i, phi i ≤ p

variable {n : ℕ} {phi : Fin n → ℝ} {v : Fin n → ℂ} {z p : ℝ}

theorem dFn_le (h : Sec phi p) {x : ℝ} (hx : p < x) : dFn x phi v ≤ -1 := by
  have : 0 ≤ ∑ i, (phi i * ‖v i‖) ^ 2 / (x - phi i) ^ 3 := Finset.sum_nonneg fun i _ => by
    have := h.le i
    have : 0 < x - phi i := by linarith
    positivity
  have hx0 : 0 < x := h.pos.trans hx
  rw [dFn]
  nlinarith

theorem dFn_mono (h : Sec phi p) {x y : ℝ} (hx : p < x) (hxy : x ≤ y) : dFn x phi v ≤ dFn y phi v := by
  have hx0 : 0 < x := h.pos.trans hx
  have key : y * ∑ i, (phi i * ‖v i‖) ^ 2 / (y - phi i) ^ 3 ≤ x * ∑ i, (phi i * ‖v i‖) ^ 2 / (x - phi i) ^ 3 := by
    rw [Finset.mul_sum, Finset.mul_sum]
    refine Finset.sum_le_sum fun i _ => ?_
    have h1 := h.le i
    have h2 := h.nonneg i
    have r0 : 0 < x - phi i := by linarith
    have r1 : 0 < y - phi i := by linarith
    have e1 : y * ((phi i * ‖v i‖) ^ 2 / (y - phi i) ^ 3) =
        (phi i * ‖v i‖) ^ 2 * ((y / (y - phi i)) * (1 / (y - phi i)) ^ 2) := by
      field_simp
    have e2 : x * ((phi i * ‖v i‖) ^ 2 / (x - phi i) ^ 3) =
        (phi i * ‖v i‖) ^ 2 * ((x / (x - phi i)) * (1 / (x - phi i)) ^ 2) := by
      field_simp
    rw [e1, e2]
    refine mul_le_mul_of_nonneg_left ?_ (sq_nonneg _)
    have h3 : y / (y - phi i) ≤ x / (x - phi i) := by
      rw [div_le_div_iff₀ r1 r0]
      nlinarith
    have h4 : (1 / (y - phi i)) ^ 2 ≤ (1 / (x - phi i)) ^ 2 := by
      refine pow_le_pow_left₀ (by positivity) ?_ 2
      exact one_div_le_one_div_of_le r0 (by linarith)
    exact mul_le_mul h3 h4 (by positivity) (by positivity)
  rw [dFn, dFn]
  linarith

/-- The convex part of the secular function. -/
theorem fn_eq (x : ℝ) : fn x phi v z = ∑ i, phi i * ‖v i‖ ^ 2 * (x / (x - phi i)) ^ 2 - x + z := by
  rw [fn, Finset.mul_sum]
  congr 2
  refine Finset.sum_congr rfl fun i _ => ?_
  rw [div_pow]
  ring

theorem fn_anti (h : Sec phi p) {x y : ℝ} (hx : p < x) (hxy : x ≤ y) : fn y phi v z ≤ fn x phi v z - (y - x) := by
  have key : ∑ i, phi i * ‖v i‖ ^ 2 * (y / (y - phi i)) ^ 2 ≤ ∑ i, phi i * ‖v i‖ ^ 2 * (x / (x - phi i)) ^ 2 := by
    refine Finset.sum_le_sum fun i _ => ?_
    have h1 := h.le i
    have h2 := h.nonneg i
    have hp := h.pos
    have r0 : 0 < x - phi i := by linarith
    have r1 : 0 < y - phi i := by linarith
    refine mul_le_mul_of_nonneg_left ?_ (by positivity)
    refine pow_le_pow_left₀ (div_nonneg (by linarith) r1.le) ?_ 2
    rw [div_le_div_iff₀ r1 r0]
    nlinarith
  rw [fn_eq, fn_eq]
  linarith

theorem fn_tangent (h : Sec phi p) {x y : ℝ} (hx : p < x) (hxy : x ≤ y) :
    fn x phi v z + dFn x phi v * (y - x) ≤ fn y phi v z := by
  have key : ∑ i, phi i * ‖v i‖ ^ 2 * (x / (x - phi i)) ^ 2 -
      2 * x * (∑ i, (phi i * ‖v i‖) ^ 2 / (x - phi i) ^ 3) * (y - x) ≤
      ∑ i, phi i * ‖v i‖ ^ 2 * (y / (y - phi i)) ^ 2 := by
    rw [Finset.mul_sum, Finset.sum_mul, ← Finset.sum_sub_distrib]
    refine Finset.sum_le_sum fun i _ => ?_
    have h1 := h.le i
    have h2 := h.nonneg i
    have hp := h.pos
    have r0 : 0 < x - phi i := by linarith
    have r1 : 0 < y - phi i := by linarith
    obtain ⟨s, hs⟩ : ∃ s, s = phi i / (x - phi i) := ⟨_, rfl⟩
    obtain ⟨t, ht⟩ : ∃ t, t = phi i / (y - phi i) := ⟨_, rfl⟩
    have e1 : x / (x - phi i) = 1 + s := by rw [hs]; field_simp; ring
    have e2 : y / (y - phi i) = 1 + t := by rw [ht]; field_simp; ring
    have e3 : 2 * x * ((phi i * ‖v i‖) ^ 2 / (x - phi i) ^ 3) * (y - x) =
        phi i * ‖v i‖ ^ 2 * (2 * (1 + s) * (s * ((y - x) / (x - phi i)))) := by
      rw [← e1, hs]
      field_simp
    rw [e1, e2, e3, ← mul_sub]
    refine mul_le_mul_of_nonneg_left ?_ (by positivity)
    have hs0 : 0 ≤ s := by rw [hs]; positivity
    have h3 : s - s * ((y - x) / (x - phi i)) ≤ t := by
      have e : t - (s - s * ((y - x) / (x - phi i))) =
          phi i * (y - x) ^ 2 / ((x - phi i) ^ 2 * (y - phi i)) := by
        rw [hs, ht]
        field_simp
        ring
      have : 0 ≤ phi i * (y - x) ^ 2 / ((x - phi i) ^ 2 * (y - phi i)) := by positivity
      linarith
    nlinarith [sq_nonneg (t - s)]
  rw [fn_eq, fn_eq, dFn]
  linarith

/-- One Newton step from a point left of the root: the guard never acts, the step goes right and stays left of the
root. -/
theorem newton_spec {n : ℕ} {k : Coef n} (h : Sec k.phi k.phi_max) {x : ℝ} (hx : k.phi_max < x)
    (hf : 0 ≤ fn x k.phi k.v k.z) :
    newton k x = x - fn x k.phi k.v k.z / dFn x k.phi k.v ∧ x ≤ newton k x ∧
      0 ≤ fn (newton k x) k.phi k.v k.z := by
  have hd := dFn_le (v := k.v) h hx
  have hle : x ≤ x - fn x k.phi k.v k.z / dFn x k.phi k.v := by
    have := div_nonpos_of_nonneg_of_nonpos hf (by linarith : dFn x k.phi k.v ≤ 0)
    linarith
  have e : newton k x = x - fn x k.phi k.v k.z / dFn x k.phi k.v := by
    rw [newton]
    exact if_pos (hx.trans_le hle)
  refine ⟨e, by rw [e]; exact hle, ?_⟩
  rw [e]
  refine le_trans (le_of_eq ?_) (fn_tangent h hx hle)
  have : dFn x k.phi k.v ≠ 0 := by linarith
  field_simp
  ring

/-- Without any assumption on the sign of the function the iterates stay above the largest pole. -/
theorem newton_above {n : ℕ} {k : Coef n} {x : ℝ} (hx : k.phi_max < x) : k.phi_max < newton k x := by
  rw [newton]
  split_ifs with h
  · exact h
  · linarith

/-! ## The loop -/

/-- A bin whose current value is between the largest pole and the root. -/
structure Left {n : ℕ} (k : Coef n) (x : ℝ) : Prop where
  sec : Sec k.phi k.phi_max
  above : k.phi_max < x
  nonneg : 0 ≤ fn x k.phi k.v k.z

theorem Left.step {n : ℕ} {k : Coef n} {x : ℝ} (h : Left k x) : Left k (newton k x) :=
  ⟨h.sec, newton_above h.above, (newton_spec h.sec h.above h.nonneg).2.2⟩

theorem Left.iterate {n : ℕ} {k : Coef n} {x : ℝ} (h : Left k x) (m : ℕ) : Left k ((newton k)^[m] x) := by
  induction m with
  | zero => exact h
  | succ m ih =>
    rw [Function.iterate_succ_apply']
    exact ih.step

theorem Left.le_iterate {n : ℕ} {k : Coef n} {x : ℝ} (h : Left k x) (m : ℕ) : x ≤ (newton k)^[m] x := by
  induction m with
  | zero => exact le_rfl
  | succ m ih =>
    rw [Function.iterate_succ_apply']
    have := h.iterate m
    exact ih.trans (newton_spec this.sec this.above this.nonneg).2.1

/-- The Newton iteration gets below every positive residual and stays there. -/
theorem Left.converges {n : ℕ} {k : Coef n} {x e : ℝ} (h : Left k x) (he : 0 < e) :
    ∃ N, ∀ m, N ≤ m → fn ((newton k)^[m] x) k.phi k.v k.z ≤ e := by
  have hanti : ∀ m, fn ((newton k)^[m + 1] x) k.phi k.v k.z ≤ fn ((newton k)^[m] x) k.phi k.v k.z := by
    intro m
    rw [Function.iterate_succ_apply']
    have hm := h.iterate m
    have h1 := (newton_spec hm.sec hm.above hm.nonneg).2.1
    have := fn_anti (v := k.v) (z := k.z) hm.sec hm.above h1
    linarith
  have hex : ∃ N, fn ((newton k)^[N] x) k.phi k.v k.z ≤ e := by
    by_contra hno
    push Not at hno
    obtain ⟨D, hD⟩ : ∃ D, D = -dFn x k.phi k.v := ⟨_, rfl⟩
    have hD1 : 1 ≤ D := by
      have := dFn_le (v := k.v) h.sec h.above
      linarith
    have hgrow : ∀ m : ℕ, x + m * (e / D) ≤ (newton k)^[m] x := by
      intro m
      induction m with
      | zero => simp
      | succ m ih =>
        have hm := h.iterate m
        have h1 := (newton_spec hm.sec hm.above hm.nonneg).1
        rw [Function.iterate_succ_apply', h1]
        have hd0 := dFn_le (v := k.v) hm.sec hm.above
        have hd1 := dFn_mono (v := k.v) h.sec h.above (h.le_iterate m)
        have h2 : e / D ≤ fn ((newton k)^[m] x) k.phi k.v k.z / (-dFn ((newton k)^[m] x) k.phi k.v) :=
          div_le_div₀ hm.nonneg (hno m).le (by linarith) (by linarith)
        rw [div_neg] at h2
        push_cast
        linarith
    obtain ⟨m, hm⟩ := exists_nat_gt ((fn x k.phi k.v k.z) / (e / D))
    have hpos : 0 < e / D := by positivity
    rw [div_lt_iff₀ hpos] at hm
    have h1 := hgrow m
    have h2 := fn_anti (v := k.v) (z := k.z) h.sec h.above (h.le_iterate m)
    have h3 := (h.iterate m).nonneg
    linarith
  obtain ⟨N, hN⟩ := hex
  refine ⟨N, fun m hm => ?_⟩
  induction m, hm using Nat.le_induction with
  | base => exact hN
  | succ m _ ih => exact (hanti m).trans ih

variable {F : Type} {floor : ℝ → ℝ} {k : F → Coef n}

/-- What the loop returns: the iterates after `j` steps, where it stops before the last one only if all bins have
converged. -/
theorem loop_spec (max_iter : ℕ) (fuel : ℕ) : ∀ (idx : Option ℕ) (lamb : F → ℝ), fuel ≤ max_iter →
    ∃ j ≤ fuel, (loop floor k max_iter fuel idx lamb).2 = (fun f => (newton (k f))^[j] (lamb f)) ∧
      (j < fuel → converged floor k (loop floor k max_iter fuel idx lamb).2) ∧
      (0 < fuel → ∃ i, (loop floor k max_iter fuel idx lamb).1 = some i ∧
        (¬ converged floor k (loop floor k max_iter fuel idx lamb).2 → i = max_iter - 1)) := by
  induction fuel with
  | zero => exact fun idx lamb _ => ⟨0, le_rfl, rfl, by simp, by simp⟩
  | succ fuel ih =>
    intro idx lamb hle
    rw [loop]
    split_ifs with hc
    · exact ⟨0, by omega, rfl, fun _ => hc, fun _ => ⟨_, rfl, fun h => absurd hc h⟩⟩
    · obtain ⟨j, hj, h1, h2, h3⟩ := ih (some (max_iter - (fuel + 1))) (fun f => newton (k f) (lamb f)) (by omega)
      refine ⟨j + 1, by omega, ?_, fun hlt => h2 (by omega), fun _ => ?_⟩
      · rw [h1]
        rfl
      · by_cases h0 : 0 < fuel
        · exact h3 h0
        · have h0 : fuel = 0 := by omega
          subst h0
          exact ⟨max_iter - 1, rfl, fun _ => rfl⟩

end Verif.Lqpqm
