import Mathlib.Analysis.Matrix.PosDef
import Mathlib.LinearAlgebra.Matrix.Block
import Mathlib.LinearAlgebra.Matrix.Adjugate
import Mathlib.Analysis.SpecialFunctions.Log.Basic
import Mathlib.Tactic.FieldSimp
import Mathlib.Tactic.LinearCombination
import Verif.Spec.Spatial

/-! # Quadratic forms, determinants of row updates, and traces of monadic folds -/

namespace Verif

open Matrix
open scoped ComplexOrder

/-- The run of a loop that always succeeds: all intermediate values, an invariant of them and a relation
between consecutive ones. -/
theorem foldlM_trace {α β ε : Type} (g : α → β → Except ε α) (P : α → Prop) (Q : β → α → α → Prop)
    (l : List β) (hstep : ∀ a, ∀ b ∈ l, P a → ∃ a', g a b = .ok a' ∧ P a' ∧ Q b a a') (a : α) (ha : P a) :
    ∃ V : ℕ → α, V 0 = a ∧ l.foldlM g a = .ok (V l.length) ∧
      (∀ i (h : i < l.length), Q l[i] (V i) (V (i + 1))) ∧ ∀ i ≤ l.length, P (V i) := by
  induction l generalizing a with
  | nil => exact ⟨fun _ => a, rfl, rfl, fun i h => absurd h (by simp), fun _ _ => ha⟩
  | cons b l ih =>
    obtain ⟨a', h1, hP, hQ⟩ := hstep a b (by simp) ha
    obtain ⟨V, h0, hrun, hV, hVP⟩ := ih (fun a b hb => hstep a b (by simp [hb])) a' hP
    refine ⟨fun i => match i with | 0 => a | i + 1 => V i, rfl, ?_, ?_, ?_⟩
    · rw [List.foldlM_cons, h1]
      exact hrun
    · intro i h
      cases i with
      | zero => simpa [h0] using hQ
      | succ i => simpa using hV i (by simpa using h)
    · intro i h
      cases i with
      | zero => exact ha
      | succ i => exact hVP i (by simpa using h)

theorem foldl_trace {α β : Type} (g : α → β → α) (P : α → Prop) (Q : β → α → α → Prop)
    (l : List β) (hstep : ∀ a, ∀ b ∈ l, P a → P (g a b) ∧ Q b a (g a b)) (a : α) (ha : P a) :
    ∃ V : ℕ → α, V 0 = a ∧ l.foldl g a = V l.length ∧
      (∀ i (h : i < l.length), Q l[i] (V i) (V (i + 1))) ∧ ∀ i ≤ l.length, P (V i) := by
  induction l generalizing a with
  | nil => exact ⟨fun _ => a, rfl, rfl, fun i h => absurd h (by simp), fun _ _ => ha⟩
  | cons b l ih =>
    obtain ⟨hP, hQ⟩ := hstep a b (by simp) ha
    obtain ⟨V, h0, hrun, hV, hVP⟩ := ih (fun a b hb => hstep a b (by simp [hb])) _ hP
    refine ⟨fun i => match i with | 0 => a | i + 1 => V i, rfl, ?_, ?_, ?_⟩
    · rw [List.foldl_cons]
      exact hrun
    · intro i h
      cases i with
      | zero => simpa [h0] using hQ
      | succ i => simpa using hV i (by simpa using h)
    · intro i h
      cases i with
      | zero => exact ha
      | succ i => exact hVP i (by simpa using h)

/-- A value that never grows along a run does not grow from start to end. -/
theorem le_of_trace {α : Type} (f : α → ℝ) (V : ℕ → α) (m : ℕ) (h : ∀ i < m, f (V (i + 1)) ≤ f (V i)) :
    f (V m) ≤ f (V 0) := by
  induction m with
  | zero => exact le_rfl
  | succ m ih => exact (h m (by omega)).trans (ih fun i hi => h i (by omega))

namespace Spatial

variable {n k : ℕ}

theorem quad_nonneg {U : Mat n ℂ} (hU : U.PosSemidef) (v : Fin n → ℂ) : 0 ≤ quad U v := by
  have h := hU.re_dotProduct_nonneg (star v)
  simpa [quad, star_star] using h

theorem quad_pos {U : Mat n ℂ} (hU : U.PosDef) {v : Fin n → ℂ} (hv : v ≠ 0) : 0 < quad U v := by
  have h := hU.re_dotProduct_pos (x := star v) (star_ne_zero.mpr hv)
  simpa [quad, star_star] using h

/-- The sesquilinear form of a Hermitian matrix is conjugate symmetric. -/
theorem form_symm {U : Mat n ℂ} (hU : U.IsHermitian) (x y : Fin n → ℂ) :
    x ⬝ᵥ (U *ᵥ star y) = star (y ⬝ᵥ (U *ᵥ star x)) := by
  rw [← star_dotProduct_star, star_mulVec, star_star, hU.eq, dotProduct_mulVec, dotProduct_comm]

theorem quad_eq {U : Mat n ℂ} (hU : U.IsHermitian) (v : Fin n → ℂ) :
    v ⬝ᵥ (U *ᵥ star v) = (quad U v : ℂ) := by
  have h := form_symm hU v v
  rw [quad]
  exact (Complex.conj_eq_iff_re.mp h.symm).symm

theorem quad_add_of_orth {U : Mat n ℂ} (hU : U.IsHermitian) {z x : Fin n → ℂ}
    (h : z ⬝ᵥ (U *ᵥ star x) = 0) : quad U (z + x) = quad U z + quad U x := by
  have h' : x ⬝ᵥ (U *ᵥ star z) = 0 := by rw [form_symm hU, h, star_zero]
  simp only [quad, star_add, mulVec_add, add_dotProduct, dotProduct_add, h, h', Complex.add_re]
  simp

theorem quad_smul (U : Mat n ℂ) (c : ℂ) (v : Fin n → ℂ) : quad U (c • v) = ‖c‖ ^ 2 * quad U v := by
  simp only [quad, star_smul, mulVec_smul, smul_dotProduct, dotProduct_smul, smul_eq_mul]
  rw [← mul_assoc, Complex.star_def, mul_comm (starRingEnd ℂ c), Complex.mul_conj, Complex.normSq_eq_norm_sq, Complex.re_ofReal_mul]

/-- Cauchy-Schwarz for a positive definite form. -/
theorem quad_cauchy {U : Mat n ℂ} (hU : U.PosDef) (v w : Fin n → ℂ) :
    ‖v ⬝ᵥ (U *ᵥ star w)‖ ^ 2 ≤ quad U v * quad U w := by
  by_cases hw : w = 0
  · simp [hw, quad]
  have hc := quad_pos hU hw
  set s := v ⬝ᵥ (U *ᵥ star w) with hs
  set c := quad U w with hcd
  have hx : v = (v - (s / c) • w) + (s / c) • w := by simp
  have horth : (v - (s / (c : ℂ)) • w) ⬝ᵥ (U *ᵥ star ((s / (c : ℂ)) • w)) = 0 := by
    rw [star_smul, mulVec_smul, dotProduct_smul, sub_dotProduct, smul_dotProduct, ← hs,
      quad_eq hU.1, ← hcd, smul_eq_mul, smul_eq_mul, div_mul_cancel₀, sub_self, mul_zero]
    exact_mod_cast hc.ne'
  have h1 := quad_add_of_orth hU.1 horth
  rw [← hx, quad_smul, norm_div, Complex.norm_real, Real.norm_eq_abs, abs_of_pos hc, ← hcd] at h1
  have h2 := quad_nonneg hU.posSemidef (v - (s / (c : ℂ)) • w)
  have h3 : (‖s‖ / c) ^ 2 * c = ‖s‖ ^ 2 / c := by field_simp
  rw [h3] at h1
  have h4 : ‖s‖ ^ 2 / c ≤ quad U v := by linarith
  rwa [div_le_iff₀ hc] at h4

/-- A positive definite form dominates its Schur complement: if `v A = p` then
`v U v^H ≥ p (A^H U⁻¹ A)⁻¹ p^H`. -/
theorem quad_schur_le {U : Mat n ℂ} (hU : U.PosDef) (A : Matrix (Fin n) (Fin k) ℂ)
    (hG : IsUnit (Aᴴ * U⁻¹ * A).det) (v : Fin n → ℂ) :
    quad (Aᴴ * U⁻¹ * A)⁻¹ (v ᵥ* A) ≤ quad U v := by
  have hUu : IsUnit U.det := (isUnit_iff_isUnit_det U).mp hU.isUnit
  have hUi : U⁻¹.IsHermitian := hU.1.inv
  set G := Aᴴ * U⁻¹ * A with hGd
  have hGh : G.IsHermitian := by
    rw [hGd, IsHermitian, conjTranspose_mul, conjTranspose_mul, conjTranspose_conjTranspose, hUi.eq,
      Matrix.mul_assoc]
  have hGi : (G⁻¹).IsHermitian := hGh.inv
  set B := A * G⁻¹ with hB
  set x := v ᵥ* (B * Aᴴ * U⁻¹) with hx
  have hsx : U *ᵥ star x = A *ᵥ (G⁻¹ *ᵥ star (v ᵥ* A)) := by
    rw [hx, star_vecMul, star_vecMul, conjTranspose_mul, conjTranspose_mul, hB, conjTranspose_mul, hGi.eq,
      hUi.eq, conjTranspose_conjTranspose, mulVec_mulVec, mulVec_mulVec, mulVec_mulVec,
      ← Matrix.mul_assoc U, mul_nonsing_inv U hUu, Matrix.one_mul, Matrix.mul_assoc]
  have hxA : x ᵥ* A = v ᵥ* A := by
    rw [hx, vecMul_vecMul, Matrix.mul_assoc, Matrix.mul_assoc, ← Matrix.mul_assoc Aᴴ, ← hGd, hB,
      Matrix.mul_assoc, nonsing_inv_mul G hG, Matrix.mul_one]
  have horth : (v - x) ⬝ᵥ (U *ᵥ star x) = 0 := by
    rw [hsx, dotProduct_mulVec, sub_vecMul, hxA, sub_self, zero_dotProduct]
  have h1 := quad_add_of_orth hU.1 horth
  rw [sub_add_cancel] at h1
  have h2 := quad_nonneg hU.posSemidef (v - x)
  have h3 : quad U x = quad G⁻¹ (v ᵥ* A) := by
    rw [quad, hsx, dotProduct_mulVec, hxA, quad]
  linarith

/-- The determinant after replacing one row. -/
theorem det_updateRow_eq {W : Mat n ℂ} {i : Fin n} {a : Fin n → ℂ} (ha : W *ᵥ a = Pi.single i 1)
    (hW : IsUnit W.det) (v : Fin n → ℂ) : (W.updateRow i v).det = W.det * (v ⬝ᵥ a) := by
  have haa : a = W⁻¹ *ᵥ Pi.single i 1 := by rw [← ha, mulVec_mulVec, nonsing_inv_mul W hW, one_mulVec]
  rw [← cramer_transpose_apply, cramer_eq_adjugate_mulVec, haa, ← adjugate_transpose, mulVec_transpose,
    inv_def, dotProduct_mulVec, vecMul_smul, smul_dotProduct, smul_eq_mul, ← mul_assoc,
    Ring.mul_inverse_cancel _ hW]
  simp

end Spatial
end Verif
