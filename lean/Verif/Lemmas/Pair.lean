import Verif.Lemmas.Quad

/-! # Pairwise updates: 2x2 joint diagonalisation and determinants of two-row updates -/

namespace Verif.Spatial

open Matrix
open scoped ComplexOrder

variable {n k : ℕ}

theorem quad_vecMul (A : Mat n ℂ) (C : Matrix (Fin k) (Fin n) ℂ) (x : Fin k → ℂ) :
    quad A (x ᵥ* C) = quad (C * A * Cᴴ) x := by
  rw [quad, quad, star_vecMul, ← dotProduct_mulVec, mulVec_mulVec, mulVec_mulVec, Matrix.mul_assoc]

theorem quad_diagonal (l : Fin n → ℝ) (x : Fin n → ℂ) :
    quad (diagonal fun i => (l i : ℂ)) x = ∑ i, l i * ‖x i‖ ^ 2 := by
  simp only [quad, dotProduct, mulVec_diagonal, Complex.re_sum, Pi.star_apply]
  refine Finset.sum_congr rfl fun i _ => ?_
  rw [mul_left_comm, Complex.star_def, Complex.mul_conj, Complex.normSq_eq_norm_sq, Complex.re_ofReal_mul,
    Complex.ofReal_re]

/-- The optimum of a 2x2 pair problem from a joint diagonalisation of its two matrices. -/
theorem pair_min {A B H : Mat 2 ℂ} {l : Fin 2 → ℝ} {a b : Fin 2} (hab : a ≠ b) (hla : 0 < l a)
    (hl : l a ≤ l b) (hA : Hᴴ * A * H = diagonal fun i => (l i : ℂ)) (hB : Hᴴ * B * H = 1) :
    let N : Mat 2 ℂ := Matrix.of ![(1 / (Real.sqrt (l a) : ℂ)) • fun j => star (H j a), fun j => star (H j b)]
    N.det ≠ 0 ∧ quad A (N 0) = 1 ∧ quad B (N 1) = 1 ∧
      ∀ M : Mat 2 ℂ, M.det ≠ 0 →
        2 - 2 * Real.log ‖N.det‖ ≤ quad A (M 0) + quad B (M 1) - 2 * Real.log ‖M.det‖ := by
  intro N
  have hs : 0 < Real.sqrt (l a) := Real.sqrt_pos.mpr hla
  have hsq : Real.sqrt (l a) ^ 2 = l a := Real.sq_sqrt hla.le
  have hHd : H.det ≠ 0 := by
    intro h0
    have := congrArg Matrix.det hB
    rw [det_mul, h0, mul_zero, det_one] at this
    exact zero_ne_one this
  have hHd' : 0 < ‖H.det‖ := norm_pos_iff.mpr hHd
  have hHu : IsUnit Hᴴ.det := by rw [det_conjTranspose]; exact (isUnit_iff_ne_zero.mpr hHd).star
  have hNn : ‖N.det‖ = ‖H.det‖ / Real.sqrt (l a) := by
    have h1 : ‖(1 / (Real.sqrt (l a) : ℂ))‖ = 1 / Real.sqrt (l a) := by
      rw [norm_div, norm_one, Complex.norm_real, Real.norm_eq_abs, abs_of_pos hs]
    have h2 : N.det = (1 / (Real.sqrt (l a) : ℂ))
        * star (H 0 a * H 1 b - H 1 a * H 0 b) := by
      simp only [N, det_fin_two, of_apply, cons_val_zero, cons_val_one, Pi.smul_apply, smul_eq_mul, star_sub,
        star_mul]
      ring
    rw [h2, norm_mul, h1, norm_star]
    have h3 : ‖H 0 a * H 1 b - H 1 a * H 0 b‖ = ‖H.det‖ := by
      rw [det_fin_two]
      have : (a = 0 ∧ b = 1) ∨ (a = 1 ∧ b = 0) := by omega
      rcases this with ⟨rfl, rfl⟩ | ⟨rfl, rfl⟩
      · congr 1; ring
      · rw [← norm_neg]; congr 1; ring
    rw [h3]
    ring
  have hNd : N.det ≠ 0 := by
    rw [← norm_pos_iff, hNn]; positivity
  have hrow : ∀ (C : Mat 2 ℂ) (c : Fin 2), quad C (fun j => star (H j c)) = ((Hᴴ * C * H) c c).re := by
    intro C c
    have : (fun j => star (H j c)) = (Pi.single c 1 : Fin 2 → ℂ) ᵥ* Hᴴ := by
      funext j; simp
    rw [this, quad_vecMul, conjTranspose_conjTranspose, quad]
    congr 1
    have : star (Pi.single c (1 : ℂ) : Fin 2 → ℂ) = Pi.single c 1 := by
      ext j; by_cases h : j = c <;> simp [h]
    rw [this]
    simp
  refine ⟨hNd, ?_, ?_, fun M hM => ?_⟩
  · show quad A ((1 / (Real.sqrt (l a) : ℂ)) • fun j => star (H j a)) = 1
    rw [quad_smul, hrow, hA, diagonal_apply_eq, Complex.ofReal_re, norm_div, norm_one, Complex.norm_real,
      Real.norm_eq_abs, abs_of_pos hs, div_pow, hsq]
    field_simp
  · show quad B (fun j => star (H j b)) = 1
    rw [hrow, hB, one_apply_eq, Complex.one_re]
  · set X := M * Hᴴ⁻¹ with hX
    have hMX : M = X * Hᴴ := by rw [hX, Matrix.mul_assoc, nonsing_inv_mul _ hHu, Matrix.mul_one]
    have hr : ∀ i, M i = X i ᵥ* Hᴴ := fun i => by rw [hMX]; rfl
    have hXd : ‖M.det‖ = ‖X.det‖ * ‖H.det‖ := by
      rw [hMX, det_mul, norm_mul, det_conjTranspose, norm_star]
    have hXp : 0 < ‖X.det‖ := by
      rcases (norm_nonneg X.det).lt_or_eq with h | h
      · exact h
      · rw [← h, zero_mul, norm_eq_zero] at hXd; exact absurd hXd hM
    have hone : (1 : Mat 2 ℂ) = diagonal fun i => (((fun _ => 1 : Fin 2 → ℝ) i : ℝ) : ℂ) := by
      rw [← diagonal_one]; congr 1
    have hsum : ∀ f : Fin 2 → ℝ, ∑ i, f i = f a + f b := by
      intro f
      rw [Fin.sum_univ_two]
      have : (a = 0 ∧ b = 1) ∨ (a = 1 ∧ b = 0) := by omega
      rcases this with ⟨rfl, rfl⟩ | ⟨rfl, rfl⟩
      · rfl
      · ring
    have hdet : ‖X.det‖ ≤ ‖X 0 a‖ * ‖X 1 b‖ + ‖X 0 b‖ * ‖X 1 a‖ := by
      rw [det_fin_two]
      have : (a = 0 ∧ b = 1) ∨ (a = 1 ∧ b = 0) := by omega
      rcases this with ⟨rfl, rfl⟩ | ⟨rfl, rfl⟩
      · refine (norm_sub_le _ _).trans ?_
        rw [norm_mul, norm_mul]
      · refine (norm_sub_le _ _).trans ?_
        rw [norm_mul, norm_mul]
        linarith
    have q0 : quad A (M 0) = l a * ‖X 0 a‖ ^ 2 + l b * ‖X 0 b‖ ^ 2 := by
      rw [hr, quad_vecMul, conjTranspose_conjTranspose, hA, quad_diagonal, hsum]
    have q1 : quad B (M 1) = ‖X 1 a‖ ^ 2 + ‖X 1 b‖ ^ 2 := by
      rw [hr, quad_vecMul, conjTranspose_conjTranspose, hB, hone, quad_diagonal, hsum]
      ring
    have hz : 0 < Real.sqrt (l a) * ‖X.det‖ := mul_pos hs hXp
    have hlog := Real.log_le_sub_one_of_pos hz
    rw [Real.log_mul hs.ne' hXp.ne'] at hlog
    rw [q0, q1, hNn, hXd, Real.log_div hHd'.ne' hs.ne', Real.log_mul hXp.ne' hHd'.ne']
    have hm := mul_le_mul_of_nonneg_left hdet hs.le
    have s1 := sq_nonneg (Real.sqrt (l a) * ‖X 0 a‖ - ‖X 1 b‖)
    have s2 := sq_nonneg (Real.sqrt (l a) * ‖X 0 b‖ - ‖X 1 a‖)
    have s3 := mul_le_mul_of_nonneg_right hl (sq_nonneg ‖X 0 b‖)
    have e1 : (Real.sqrt (l a) * ‖X 0 a‖ - ‖X 1 b‖) ^ 2
        = l a * ‖X 0 a‖ ^ 2 - 2 * (Real.sqrt (l a) * (‖X 0 a‖ * ‖X 1 b‖)) + ‖X 1 b‖ ^ 2 := by
      linear_combination ‖X 0 a‖ ^ 2 * hsq
    have e2 : (Real.sqrt (l a) * ‖X 0 b‖ - ‖X 1 a‖) ^ 2
        = l a * ‖X 0 b‖ ^ 2 - 2 * (Real.sqrt (l a) * (‖X 0 b‖ * ‖X 1 a‖)) + ‖X 1 a‖ ^ 2 := by
      linear_combination ‖X 0 b‖ ^ 2 * hsq
    rw [mul_add] at hm
    linarith

/-- The two elements of a pair of indices. -/
def pairEquiv {m k : Fin n} (hmk : m ≠ k) : Fin 2 ≃ {i : Fin n // i = m ∨ i = k} where
  toFun j := if j = 0 then ⟨m, .inl rfl⟩ else ⟨k, .inr rfl⟩
  invFun i := if i.1 = m then 0 else 1
  left_inv j := by
    fin_cases j
    · simp
    · simp [hmk.symm]
  right_inv i := by
    rcases i with ⟨i, rfl | rfl⟩
    · simp
    · simp [hmk.symm]

theorem det_pairBlock (T : Mat n ℂ) {m k : Fin n} (hmk : m ≠ k) :
    (toSquareBlockProp T fun i => i = m ∨ i = k).det = T m m * T k k - T m k * T k m := by
  rw [← det_submatrix_equiv_self (pairEquiv hmk), det_fin_two]
  simp [pairEquiv, toSquareBlockProp]

/-- Determinant of a matrix that is the identity outside two columns except for two rows. -/
theorem det_pair_rows (T : Mat n ℂ) {m k : Fin n} (hmk : m ≠ k)
    (h0 : ∀ i, i ≠ m → i ≠ k → T i m = 0 ∧ T i k = 0)
    (h1 : ∀ i j, i ≠ m → i ≠ k → j ≠ m → j ≠ k → T i j = (1 : Mat n ℂ) i j) :
    T.det = T m m * T k k - T m k * T k m := by
  rw [twoBlockTriangular_det T fun i => i = m ∨ i = k, det_pairBlock T hmk]
  · have : (toSquareBlockProp T fun i => ¬ (i = m ∨ i = k)) = 1 := by
      ext ⟨i, hi⟩ ⟨j, hj⟩
      rw [not_or] at hi hj
      simp only [toSquareBlockProp_def, of_apply]
      rw [h1 i j hi.1 hi.2 hj.1 hj.2, one_apply, one_apply]
      simp [Subtype.ext_iff]
    rw [this, det_one, mul_one]
  · intro i hi j hj
    rw [not_or] at hi
    rcases hj with rfl | rfl
    · exact (h0 i hi.1 hi.2).1
    · exact (h0 i hi.1 hi.2).2

/-- Determinant of a matrix whose two rows `m`, `k` vanish outside columns `m`, `k` and that is the identity
outside these rows and columns. -/
theorem det_pair_cols (T : Mat n ℂ) {m k : Fin n} (hmk : m ≠ k)
    (h0 : ∀ j, j ≠ m → j ≠ k → T m j = 0 ∧ T k j = 0)
    (h1 : ∀ i j, i ≠ m → i ≠ k → j ≠ m → j ≠ k → T i j = (1 : Mat n ℂ) i j) :
    T.det = T m m * T k k - T m k * T k m := by
  rw [← det_transpose, det_pair_rows Tᵀ hmk h0]
  · simp only [transpose_apply]; ring
  · intro i j hi hi' hj hj'
    rw [transpose_apply, h1 j i hj hj' hi hi', one_apply, one_apply]
    simp [eq_comm]

/-- The determinant after replacing two rows. -/
theorem det_updateRow_pair {W : Mat n ℂ} {m k : Fin n} (hmk : m ≠ k) (hW : IsUnit W.det) (x y : Fin n → ℂ) :
    ((W.updateRow m x).updateRow k y).det
      = W.det * ((x ᵥ* W⁻¹) m * (y ᵥ* W⁻¹) k - (x ᵥ* W⁻¹) k * (y ᵥ* W⁻¹) m) := by
  set W' := (W.updateRow m x).updateRow k y with hW'
  have hT : W' = (W' * W⁻¹) * W := by rw [Matrix.mul_assoc, nonsing_inv_mul W hW, Matrix.mul_one]
  have hrow : ∀ i, (W' * W⁻¹) i = W' i ᵥ* W⁻¹ := fun i => rfl
  have hm : W' m = x := by rw [hW', updateRow_ne hmk, updateRow_self]
  have hk : W' k = y := by rw [hW', updateRow_self]
  have hother : ∀ i, i ≠ m → i ≠ k → (W' * W⁻¹) i = (1 : Mat n ℂ) i := by
    intro i hi hi'
    rw [hrow, hW', updateRow_ne hi', updateRow_ne hi, ← mul_nonsing_inv W hW]
    rfl
  rw [hT, det_mul, mul_comm, det_pair_rows (W' * W⁻¹) hmk]
  · rw [hrow, hrow, hm, hk]
  · intro i hi hi'
    rw [hother i hi hi', one_apply_ne hi, one_apply_ne hi']
    exact ⟨rfl, rfl⟩
  · intro i j hi hi' _ _
    rw [hother i hi hi']

end Verif.Spatial
