import Mathlib.Analysis.SpecialFunctions.Pow.Complex
import Verif.Lemmas.Numpy
import Verif.Model.Linalg

/-! # C15-C19: cubic roots, generalised eigenvalues, geometric mean, matrix square roots, 2x2 inverse -/

namespace Verif.Linalg

open Matrix
open scoped ComplexOrder

/-! ## C15 -/

/-- C15: `cbrt` is a cube root of every complex number. -/
theorem C15_cbrt (x : ℂ) : cbrt x ^ 3 = x := by
  simp only [cbrt]
  rw [mul_pow, ← Complex.exp_nat_mul, ← Complex.ofReal_pow, ← Real.rpow_natCast, ← Real.rpow_mul (norm_nonneg x)]
  have e : ((3 : ℕ) : ℂ) * (Complex.I * x.arg / 3) = x.arg * Complex.I := by push_cast; ring
  rw [e]
  norm_num

private theorem csqrt_sq (x : ℂ) : csqrt x ^ 2 = x := by
  rw [csqrt, ← Complex.cpow_nat_mul]
  norm_num

private theorem omega_facts : ∀ w w' : ℂ, w = (-1 + Complex.I * Real.sqrt 3) / 2 →
    w' = (-1 - Complex.I * Real.sqrt 3) / 2 → w + w' = -1 ∧ w * w' = 1 := by
  rintro w w' rfl rfl
  have h3 : ((Real.sqrt 3 : ℝ) : ℂ) ^ 2 = 3 := by
    rw [← Complex.ofReal_pow, Real.sq_sqrt (by norm_num)]; norm_num
  constructor
  · ring
  · linear_combination (1 / 4 : ℂ) * h3 - ((Real.sqrt 3 : ℝ) : ℂ) ^ 2 / 4 * Complex.I_sq

private theorem findCubicRoots_spec (P Q x : ℂ) :
    (x - findCubicRoots P Q 0) * (x - findCubicRoots P Q 1) * (x - findCubicRoots P Q 2)
      = x ^ 3 + P * x + Q := by
  obtain ⟨hw1, hw2⟩ := omega_facts _ _ rfl rfl
  simp only [findCubicRoots, cons_val_zero, cons_val_one, cons_val]
  set w : ℂ := (-1 + Complex.I * Real.sqrt 3) / 2
  set w' : ℂ := (-1 - Complex.I * Real.sqrt 3) / 2
  have hw' : w' = -1 - w := by linear_combination hw1
  have hww : w ^ 2 = -1 - w := by
    rw [hw'] at hw2; linear_combination -hw2
  rw [hw']
  by_cases hP : P = 0
  · simp only [hP, if_true]
    have h := C15_cbrt (-Q)
    set c := cbrt (-Q)
    linear_combination -h + (c ^ 3 - c ^ 2 * x) * hww
  · simp only [hP, if_false]
    have hU := C15_cbrt (-Q / 2 + csqrt ((Q / 2) ^ 2 + (P / 3) ^ 3))
    have hs := csqrt_sq ((Q / 2) ^ 2 + (P / 3) ^ 3)
    set s := csqrt ((Q / 2) ^ 2 + (P / 3) ^ 3)
    set U := cbrt (-Q / 2 + s)
    have hU0 : U ≠ 0 := by
      intro h0
      rw [h0] at hU
      apply hP
      have h1 : s = Q / 2 := by linear_combination -hU
      rw [h1] at hs
      have : P ^ 3 = 0 := by linear_combination -27 * hs
      exact pow_eq_zero_iff (three_ne_zero) |>.mp this
    set V := -P / (3 * U) with hV
    have hUV : U * V = -P / 3 := by
      rw [hV]; field_simp
    have hV3 : V ^ 3 = -Q / 2 - s := by
      have h1 : U ^ 3 * V ^ 3 = U ^ 3 * (-Q / 2 - s) := by
        have : U ^ 3 * V ^ 3 = (U * V) ^ 3 := by ring
        rw [this, hUV, hU]
        linear_combination hs
      exact mul_left_cancel₀ (pow_ne_zero 3 hU0) h1
    have hsum : U ^ 3 + V ^ 3 = -Q := by rw [hU, hV3]; ring
    have hP' : P = -3 * (U * V) := by rw [hUV]; ring
    have hQ' : Q = -(U ^ 3 + V ^ 3) := by rw [hsum]; ring
    rw [hP', hQ']
    linear_combination (U ^ 3 + V ^ 3 - U ^ 2 * x - V ^ 2 * x + 2 * U * V * x
      - U ^ 2 * V - U * V ^ 2) * hww

/-- C15: the three numbers returned for a monic cubic are all its roots with multiplicity. -/
theorem C15_monic {I : Type} (A B C : I → ℂ) :
    ∃ r, solve_cubic A B C none = .ok r ∧ ∀ i x,
      (x - r 0 i) * (x - r 1 i) * (x - r 2 i) = x ^ 3 + A i * x ^ 2 + B i * x + C i := by
  refine ⟨_, rfl, fun i x => ?_⟩
  simp only [solveMonic]
  have h := findCubicRoots_spec (-(A i ^ 2) / 3 + B i) ((2 * A i ^ 3) / 27 - (A i * B i) / 3 + C i)
    (x + A i / 3)
  linear_combination h

/-- C15: for every cubic with non-zero leading coefficients the three numbers returned are all its roots
with multiplicity. -/
theorem C15_general {I : Type} (A B C D : I → ℂ) (hA : ∀ i, A i ≠ 0) :
    ∃ r, solve_cubic A B C (some D) = .ok r ∧ ∀ i x,
      A i * ((x - r 0 i) * (x - r 1 i) * (x - r 2 i)) = A i * x ^ 3 + B i * x ^ 2 + C i * x + D i := by
  refine ⟨_, if_neg (by push Not; exact hA), fun i x => ?_⟩
  obtain ⟨r, hr, h⟩ := C15_monic (fun i => B i / A i) (fun i => C i / A i) (fun i => D i / A i)
  have hr' : r = fun k i => solveMonic (B i / A i) (C i / A i) (D i / A i) k := by
    simp only [solve_cubic] at hr
    exact (Except.ok.inj hr).symm
  subst hr'
  rw [h i x]
  field_simp [hA i]

/-- C15: it raises exactly when some leading coefficient is zero. -/
theorem C15_raises {I : Type} (A B C : I → ℂ) (D : Option (I → ℂ)) :
    solve_cubic A B C D = .error .linalg ↔ D.isSome ∧ ∃ i, A i = 0 := by
  cases D with
  | none => simp [solve_cubic]
  | some D => simp only [solve_cubic]; split <;> simp_all

/-- C15: consequently every root of the cubic is among the returned numbers. -/
theorem C15_complete {I : Type} (A B C D : I → ℂ) (hA : ∀ i, A i ≠ 0) (i : I) (x : ℂ)
    (hx : A i * x ^ 3 + B i * x ^ 2 + C i * x + D i = 0) (r : Fin 3 → I → ℂ)
    (hr : solve_cubic A B C (some D) = .ok r) : ∃ k, r k i = x := by
  obtain ⟨r', hr', h⟩ := C15_general A B C D hA
  rw [hr] at hr'
  obtain rfl := Except.ok.inj hr'
  have h0 := h i x
  rw [hx, mul_eq_zero, mul_eq_zero, mul_eq_zero, sub_eq_zero, sub_eq_zero, sub_eq_zero] at h0
  rcases h0 with h0 | (h0 | h0) | h0
  · exact absurd h0 (hA i)
  · exact ⟨0, h0.symm⟩
  · exact ⟨1, h0.symm⟩
  · exact ⟨2, h0.symm⟩

/-- A cubic with a degenerate depressed form (P = 0): x³ - 8 has the root 2. -/
example : ∃ r, solve_cubic (fun _ : Unit => 1) (fun _ => 0) (fun _ => 0) (some fun _ => -8) = .ok r ∧
    ∃ k, r k () = 2 := by
  obtain ⟨r, hr, _⟩ := C15_general (fun _ : Unit => 1) (fun _ => 0) (fun _ => 0) (fun _ => -8) (by simp)
  exact ⟨r, hr, C15_complete _ _ _ _ (by simp) () 2 (by norm_num) r hr⟩

variable {𝕜 : Type} [RCLike 𝕜] {n : ℕ}

/-! ## C19 -/

/-- C19: `inv2` is a two-sided inverse of every invertible 2x2 matrix. -/
theorem C19_inverse (X : Mat 2 𝕜) (h : X.det ≠ 0) :
    ∃ Y, inv2 X = .ok Y ∧ X * Y = 1 ∧ Y * X = 1 := by
  refine ⟨_, dif_pos ⟨rfl, rfl⟩, ?_⟩
  have hd : X 0 0 * X 1 1 - X 0 1 * X 1 0 ≠ 0 := by rwa [det_fin_two] at h
  simp only [Fin.cast_eq_self]
  generalize hδ : X 0 0 * X 1 1 - X 0 1 * X 1 0 = δ at hd
  constructor
  · ext i j
    rw [mul_apply, Fin.sum_univ_two]
    fin_cases i <;> fin_cases j <;> simp <;> field_simp <;> (try rw [← hδ]) <;> ring
  · ext i j
    rw [mul_apply, Fin.sum_univ_two]
    fin_cases i <;> fin_cases j <;> simp <;> field_simp <;> (try rw [← hδ]) <;> ring

/-- C19: every other shape is rejected with an assertion error, and only other shapes are. -/
theorem C19_shape {r c : ℕ} (X : Matrix (Fin r) (Fin c) 𝕜) :
    inv2 X = .error .assertion ↔ ¬ (r = 2 ∧ c = 2) := by
  unfold inv2
  split <;> simp_all

example : (!![1, 2; 3, 4] : Mat 2 ℂ).det ≠ 0 := by
  rw [det_fin_two]; norm_num

/-! ## C16 -/

private theorem inv2_eq (X : Mat 2 𝕜) (h : IsUnit X.det) : inv2 X = .ok X⁻¹ := by
  obtain ⟨Y, hY, h1, _⟩ := C19_inverse X h.ne_zero
  rw [hY, inv_eq_right_inv h1]

private theorem npInv_eq (X : Mat n 𝕜) (h : IsUnit X.det) : npInv X = .ok X⁻¹ := by
  rw [npInv, if_pos h]

private theorem chol_unit {L B : Mat n 𝕜} (h : L * Lᴴ = B) (hB : B.PosDef) : IsUnit L.det := by
  rw [isUnit_iff_ne_zero]
  intro h0
  have := congrArg det h
  rw [det_mul, h0, zero_mul] at this
  exact (isUnit_iff_isUnit_det B).mp hB.isUnit |>.ne_zero this.symm

/-- What the generalised eigensolver computes, per type, in terms of a factor `L Lᴴ = B`. -/
private theorem geigh_ok (np : Numpy 𝕜) (inv : Mat n 𝕜 → Except PyErr (Mat n 𝕜))
    (hinv : ∀ X : Mat n 𝕜, IsUnit X.det → inv X = .ok X⁻¹) (A B : Mat n 𝕜) (hA : A.IsHermitian)
    (hB : B.PosDef) :
    ∃ L : Mat n 𝕜, L * Lᴴ = B ∧ IsUnit L.det ∧
      (∃ l Y, EighSpec (L⁻¹ * A * L⁻¹ᴴ) l Y ∧ geigh np inv A B 1 = .ok (l, L⁻¹ᴴ * Y)) ∧
      (∃ l Y, EighSpec (Lᴴ * A * L) l Y ∧ geigh np inv A B 2 = .ok (l, L⁻¹ᴴ * Y)) ∧
      (∃ l Y, EighSpec (Lᴴ * A * L) l Y ∧ geigh np inv A B 3 = .ok (l, L * Y)) := by
  obtain ⟨L, hL, hLB⟩ := np.cholesky_spec B hB
  have hu := chol_unit hLB hB
  have huH : IsUnit Lᴴ.det := by rw [det_conjTranspose]; exact hu.star
  have h1 : (L⁻¹ * A * L⁻¹ᴴ).IsHermitian := isHermitian_mul_mul_conjTranspose _ hA
  have h2 : (Lᴴ * A * L).IsHermitian := isHermitian_conjTranspose_mul_mul _ hA
  refine ⟨L, hLB, hu, ⟨_, _, np.eigh_spec _ h1, ?_⟩, ⟨_, _, np.eigh_spec _ h2, ?_⟩,
    ⟨_, _, np.eigh_spec _ h2, ?_⟩⟩
  · simp [geigh, hL, hinv L hu, bind, Except.bind]
  · simp [geigh, hL, hinv _ huH, bind, Except.bind, conjTranspose_nonsing_inv]
  · simp [geigh, hL, bind, Except.bind]

private theorem eig_mul {X P : Mat n 𝕜} {l : Fin n → ℝ} (h : EighSpec X l P) :
    X * P = P * diagonal fun i => (l i : 𝕜) := by
  conv_lhs => rw [h.decomp]
  rw [Matrix.mul_assoc, h.unitary, Matrix.mul_one]

/-- The eigen equation and normalisation promised for each type of generalised eigenproblem. -/
def GEigSpec (A B : Mat n 𝕜) (type : ℤ) (l : Fin n → ℝ) (Z : Mat n 𝕜) : Prop :=
  (type = 1 → A * Z = B * Z * (diagonal fun i => (l i : 𝕜)) ∧ Zᴴ * B * Z = 1) ∧
  (type = 2 → A * B * Z = Z * (diagonal fun i => (l i : 𝕜)) ∧ Zᴴ * B * Z = 1) ∧
  (type = 3 → B * A * Z = Z * (diagonal fun i => (l i : 𝕜)) ∧ Zᴴ * B⁻¹ * Z = 1)

private theorem geigh_spec (np : Numpy 𝕜) (inv : Mat n 𝕜 → Except PyErr (Mat n 𝕜))
    (hinv : ∀ X : Mat n 𝕜, IsUnit X.det → inv X = .ok X⁻¹) (A B : Mat n 𝕜) (hA : A.IsHermitian)
    (hB : B.PosDef) (type : ℤ) (ht : type = 1 ∨ type = 2 ∨ type = 3) :
    ∃ l Z, geigh np inv A B type = .ok (l, Z) ∧ Monotone l ∧ GEigSpec A B type l Z := by
  obtain ⟨L, hLB, hu, ⟨l1, Y1, s1, e1⟩, ⟨l2, Y2, s2, e2⟩, ⟨l3, Y3, s3, e3⟩⟩ :=
    geigh_ok np inv hinv A B hA hB
  have hLL : L * L⁻¹ = 1 := mul_nonsing_inv L hu
  have hLL' : L⁻¹ * L = 1 := nonsing_inv_mul L hu
  have hHH : Lᴴ * L⁻¹ᴴ = 1 := by rw [← conjTranspose_mul, hLL', conjTranspose_one]
  have hHH' : L⁻¹ᴴ * Lᴴ = 1 := by rw [← conjTranspose_mul, hLL, conjTranspose_one]
  rcases ht with rfl | rfl | rfl
  · refine ⟨_, _, e1, s1.sorted, ⟨fun _ => ⟨?_, ?_⟩, by norm_num, by norm_num⟩⟩
    · have h := congrArg (fun M => L * M) (eig_mul s1)
      simp only [← Matrix.mul_assoc] at h
      rw [hLL, Matrix.one_mul] at h
      rw [← hLB, ← Matrix.mul_assoc, h, ← Matrix.mul_assoc (L * Lᴴ), Matrix.mul_assoc L Lᴴ, hHH,
        Matrix.mul_one]
    · rw [conjTranspose_mul, conjTranspose_conjTranspose, ← hLB]
      calc Y1ᴴ * L⁻¹ * (L * Lᴴ) * (L⁻¹ᴴ * Y1) = Y1ᴴ * ((L⁻¹ * L) * (Lᴴ * L⁻¹ᴴ)) * Y1 := by
            simp only [Matrix.mul_assoc]
        _ = 1 := by rw [hLL', hHH, Matrix.mul_one, Matrix.mul_one, s1.unitary]
  · refine ⟨_, _, e2, s2.sorted, ⟨by norm_num, fun _ => ⟨?_, ?_⟩, by norm_num⟩⟩
    · have h := congrArg (fun M => L⁻¹ᴴ * M) (eig_mul s2)
      calc A * B * (L⁻¹ᴴ * Y2) = (L⁻¹ᴴ * Lᴴ) * A * L * (Lᴴ * L⁻¹ᴴ) * Y2 := by
            rw [hHH', Matrix.one_mul, ← hLB]; simp only [Matrix.mul_assoc]
        _ = L⁻¹ᴴ * (Lᴴ * A * L * Y2) := by
            rw [hHH, Matrix.mul_one]; simp only [Matrix.mul_assoc]
        _ = _ := by rw [h, ← Matrix.mul_assoc]
    · rw [conjTranspose_mul, conjTranspose_conjTranspose, ← hLB]
      calc Y2ᴴ * L⁻¹ * (L * Lᴴ) * (L⁻¹ᴴ * Y2) = Y2ᴴ * ((L⁻¹ * L) * (Lᴴ * L⁻¹ᴴ)) * Y2 := by
            simp only [Matrix.mul_assoc]
        _ = 1 := by rw [hLL', hHH, Matrix.mul_one, Matrix.mul_one, s2.unitary]
  · refine ⟨_, _, e3, s3.sorted, ⟨by norm_num, by norm_num, fun _ => ⟨?_, ?_⟩⟩⟩
    · calc B * A * (L * Y3) = L * (Lᴴ * A * L * Y3) := by
            rw [← hLB]; simp only [Matrix.mul_assoc]
        _ = _ := by rw [eig_mul s3, ← Matrix.mul_assoc]
    · have hBi : B⁻¹ = L⁻¹ᴴ * L⁻¹ := by
        apply inv_eq_right_inv
        rw [← hLB]
        calc L * Lᴴ * (L⁻¹ᴴ * L⁻¹) = L * (Lᴴ * L⁻¹ᴴ) * L⁻¹ := by simp only [Matrix.mul_assoc]
          _ = 1 := by rw [hHH, Matrix.mul_one, hLL]
      rw [conjTranspose_mul, hBi]
      calc Y3ᴴ * Lᴴ * (L⁻¹ᴴ * L⁻¹) * (L * Y3) = Y3ᴴ * ((Lᴴ * L⁻¹ᴴ) * (L⁻¹ * L)) * Y3 := by
            simp only [Matrix.mul_assoc]
        _ = 1 := by rw [hLL', hHH, Matrix.mul_one, Matrix.mul_one, s3.unitary]

/-- C16: `eigh(A, B, type)` succeeds for every Hermitian `A` and positive definite `B`, with ascending
eigenvalues, the eigen equation of its type and the matching normalisation. -/
theorem C16_eigh (np : Numpy 𝕜) (A B : Mat n 𝕜) (hA : A.IsHermitian) (hB : B.PosDef) (type : ℤ)
    (ht : type = 1 ∨ type = 2 ∨ type = 3) :
    ∃ l Z, eigh np A (some B) type = .ok (l, Z) ∧ Monotone l ∧ GEigSpec A B type l Z :=
  geigh_spec np npInv npInv_eq A B hA hB type ht

/-- C16: the 2x2 specialisation `eigh2` meets the same contract. -/
theorem C16_eigh2 (np : Numpy 𝕜) (A B : Mat 2 𝕜) (hA : A.IsHermitian) (hB : B.PosDef) (type : ℤ)
    (ht : type = 1 ∨ type = 2 ∨ type = 3) :
    ∃ l Z, eigh2 np A (some B) type = .ok (l, Z) ∧ Monotone l ∧ GEigSpec A B type l Z :=
  geigh_spec np inv2 inv2_eq A B hA hB type ht

/-- C16: on 2x2 problems `eigh2` and `eigh` agree exactly. -/
theorem C16_eigh2_eq_eigh (np : Numpy 𝕜) (A B : Mat 2 𝕜) (hB : B.PosDef) (type : ℤ) :
    eigh2 np A (some B) type = eigh np A (some B) type := by
  obtain ⟨L, hL, hLB⟩ := np.cholesky_spec B hB
  have hu := chol_unit hLB hB
  have huH : IsUnit Lᴴ.det := by rw [det_conjTranspose]; exact hu.star
  simp only [eigh2, eigh, geigh, hL, bind, Except.bind, inv2_eq L hu, npInv_eq L hu, inv2_eq _ huH,
    npInv_eq _ huH]

/-- C16: any other type raises `ValueError`. -/
theorem C16_bad_type (np : Numpy 𝕜) (A B : Mat n 𝕜) (hB : B.PosDef) (type : ℤ)
    (h1 : type ≠ 1) (h2 : type ≠ 2) (h3 : type ≠ 3) :
    eigh np A (some B) type = .error .value := by
  obtain ⟨L, hL, _⟩ := np.cholesky_spec B hB
  simp [eigh, geigh, hL, h1, h2, h3, bind, Except.bind]

/-- The hypotheses of `C16_eigh` are met by a non-diagonal pair. -/
example : (!![1, -2 * Complex.I; 2 * Complex.I, 3] : Mat 2 ℂ).IsHermitian ∧
    (!![2, Complex.I; -Complex.I, 2] : Mat 2 ℂ).PosDef := by
  constructor
  · ext i j; fin_cases i <;> fin_cases j <;> simp
  · have e : (!![2, Complex.I; -Complex.I, 2] : Mat 2 ℂ)
        = (!![1, Complex.I; 0, 0] : Mat 2 ℂ)ᴴ * !![1, Complex.I; 0, 0] + 1 := by
      ext i j; fin_cases i <;> fin_cases j <;> simp [mul_apply, Fin.sum_univ_two] <;> norm_num
    rw [e]
    exact PosDef.posSemidef_add (posSemidef_conjTranspose_mul_self _) PosDef.one

/-! ## C18 -/

/-- C18: `sqrtmh X` is a positive semidefinite square root of every positive semidefinite `X`. -/
theorem C18_sqrtmh (np : Numpy 𝕜) (X : Mat n 𝕜) (hX : X.PosSemidef) :
    sqrtmh np X * sqrtmh np X = X ∧ (sqrtmh np X).PosSemidef := by
  have hs := np.eigh_spec X hX.1
  have hl := hs.posSemidef_iff.mp hX
  simp only [sqrtmh, npDiag_eq]
  refine ⟨?_, (posSemidef_conj_diag_iff hs.isUnit _).mpr fun i => Real.sqrt_nonneg _⟩
  rw [conj_diag_mul hs.unitary]
  conv_rhs => rw [hs.decomp]
  congr 3
  ext i
  rw [Real.mul_self_sqrt (hl i)]

/-- C18: `invsqrtmh X` is positive definite, its square is `X⁻¹` and it whitens `X`, whenever flooring
leaves the square roots of the eigenvalues alone (`flooring_fn=None` included). -/
theorem C18_invsqrtmh (np : Numpy 𝕜) (f : Option (ℝ → ℝ)) (X : Mat n 𝕜) (hX : X.PosDef)
    (hf : ∀ g, f = some g → ∀ i, g (Real.sqrt ((np.eigh X).1 i)) = Real.sqrt ((np.eigh X).1 i)) :
    (invsqrtmh np f X).PosDef ∧ invsqrtmh np f X * X * invsqrtmh np f X = 1 ∧
      invsqrtmh np f X * invsqrtmh np f X = X⁻¹ := by
  have hs := np.eigh_spec X hX.1
  have hl := hs.posDef_iff.mp hX
  have e : invsqrtmh np f X = (np.eigh X).2 *
      diagonal (fun i => (((Real.sqrt ((np.eigh X).1 i))⁻¹ : ℝ) : 𝕜)) * (np.eigh X).2ᴴ := by
    simp only [invsqrtmh, npDiag_eq]
    congr 3
    ext i
    cases f with
    | none => simp
    | some g => rw [Option.getD_some, hf g rfl i, one_div]
  have hpd : (invsqrtmh np f X).PosDef := by
    rw [e, posDef_conj_diag_iff hs.isUnit]
    exact fun i => inv_pos.mpr (Real.sqrt_pos.mpr (hl i))
  have hw : invsqrtmh np f X * X * invsqrtmh np f X = 1 := by
    rw [e]
    conv_lhs => rw [hs.decomp]
    have hD : (diagonal fun i => (((Real.sqrt ((np.eigh X).1 i))⁻¹ * (np.eigh X).1 i *
        (Real.sqrt ((np.eigh X).1 i))⁻¹ : ℝ) : 𝕜)) = (1 : Mat n 𝕜) := by
      rw [← diagonal_one]
      congr 1
      ext i
      have h1 := (Real.sqrt_pos.mpr (hl i)).ne'
      have : (Real.sqrt ((np.eigh X).1 i))⁻¹ * (np.eigh X).1 i * (Real.sqrt ((np.eigh X).1 i))⁻¹ = 1 := by
        nth_rw 2 [← Real.mul_self_sqrt (hl i).le]
        field_simp
      rw [this, RCLike.ofReal_one]
    have hs' : EighSpec X _ _ := hs
    rw [← hs.decomp]
    have h2 := conj_diag_mul hs.unitary (fun i => (Real.sqrt ((np.eigh X).1 i))⁻¹) (np.eigh X).1
    rw [← hs.decomp] at h2
    rw [h2, conj_diag_mul hs.unitary, hD, Matrix.mul_one, hs.unitary']
  refine ⟨hpd, hw, ?_⟩
  set S := invsqrtmh np f X
  have hSu : IsUnit S.det := (isUnit_iff_isUnit_det S).mp hpd.isUnit
  symm
  apply inv_eq_left_inv
  -- S * S * X = S * (S X S) * S⁻¹ = 1
  have : S * S * X = S * (S * X * S) * S⁻¹ := by
    simp only [Matrix.mul_assoc]
    rw [mul_nonsing_inv S hSu, Matrix.mul_one]
  rw [this, hw, Matrix.mul_one, mul_nonsing_inv S hSu]

/-- The hypotheses of both C18 theorems are met, e.g. by `2 I`. -/
example : ((2 : ℂ) • (1 : Mat 3 ℂ)).PosDef := PosDef.one.smul (by norm_num)

/-! ## C17 -/

/-- The equation that characterises the geometric mean computed for each type. -/
def GMeanSpec (A B : Mat n 𝕜) (type : ℤ) (G : Mat n 𝕜) : Prop :=
  (type = 1 → G * A⁻¹ * G = B) ∧ (type = 2 → G * A * G = B) ∧ (type = 3 → G * B * G = A)

/-- C17: for every pair of positive definite matrices `gmeanmh` succeeds with a positive definite `G`
that solves `G A⁻¹ G = B`, `G A G = B` or `G B G = A` for type 1, 2, 3. -/
theorem C17_gmeanmh (np : Numpy 𝕜) (A B : Mat n 𝕜) (hA : A.PosDef) (hB : B.PosDef) (type : ℤ)
    (ht : type = 1 ∨ type = 2 ∨ type = 3) :
    ∃ G, gmeanmh np A B type = .ok G ∧ G.PosDef ∧ GMeanSpec A B type G := by
  obtain ⟨L, hLB, hu, ⟨l1, Y1, s1, e1⟩, ⟨l2, Y2, s2, e2⟩, ⟨l3, Y3, s3, e3⟩⟩ :=
    geigh_ok np npInv npInv_eq A B hA.1 hB
  have hLL : L * L⁻¹ = 1 := mul_nonsing_inv L hu
  have hLL' : L⁻¹ * L = 1 := nonsing_inv_mul L hu
  have hHH : Lᴴ * L⁻¹ᴴ = 1 := by rw [← conjTranspose_mul, hLL', conjTranspose_one]
  have hHH' : L⁻¹ᴴ * Lᴴ = 1 := by rw [← conjTranspose_mul, hLL, conjTranspose_one]
  have hLu : IsUnit L := (isUnit_iff_isUnit_det L).mpr hu
  have hLiu : IsUnit L⁻¹ := isUnit_nonsing_inv_iff.mpr hLu
  have hLiHu : IsUnit L⁻¹ᴴ := ⟨⟨L⁻¹ᴴ, Lᴴ, hHH', hHH⟩, rfl⟩
  have hLHu : IsUnit Lᴴ := ⟨⟨Lᴴ, L⁻¹ᴴ, hHH, hHH'⟩, rfl⟩
  have hAu := (isUnit_iff_isUnit_det A).mp hA.isUnit
  have hBu := (isUnit_iff_isUnit_det B).mp hB.isUnit
  have hAA : A * A⁻¹ = 1 := mul_nonsing_inv A hAu
  have hAA' : A⁻¹ * A = 1 := nonsing_inv_mul A hAu
  have hBi : B⁻¹ = L⁻¹ᴴ * L⁻¹ := by
    apply inv_eq_right_inv
    rw [← hLB]
    calc L * Lᴴ * (L⁻¹ᴴ * L⁻¹) = L * (Lᴴ * L⁻¹ᴴ) * L⁻¹ := by simp only [Matrix.mul_assoc]
      _ = 1 := by rw [hHH, Matrix.mul_one, hLL]
  -- square root of the reduced matrix
  have sq : ∀ (C Y : Mat n 𝕜) (l : Fin n → ℝ), EighSpec C l Y → C.PosDef →
      ∃ S : Mat n 𝕜, S = Y * npDiag (fun i => Real.sqrt (l i)) * Yᴴ ∧ S.PosDef ∧ S * S = C := by
    intro C Y l hs hC
    have hl := hs.posDef_iff.mp hC
    refine ⟨_, rfl, ?_, ?_⟩
    · rw [npDiag_eq, posDef_conj_diag_iff hs.isUnit]
      exact fun i => Real.sqrt_pos.mpr (hl i)
    · rw [npDiag_eq, conj_diag_mul hs.unitary]
      conv_rhs => rw [hs.decomp]
      congr 3
      ext i
      rw [Real.mul_self_sqrt (hl i).le]
  have conjPD : ∀ {M S : Mat n 𝕜}, IsUnit M → S.PosDef → (M * S * Mᴴ).PosDef := by
    intro M S hM hS
    rw [← star_eq_conjTranspose, Matrix.IsUnit.posDef_star_right_conjugate_iff hM]
    exact hS
  rcases ht with rfl | rfl | rfl
  · -- type 1
    have hC : (L⁻¹ * A * L⁻¹ᴴ).PosDef := conjPD hLiu hA
    obtain ⟨S, hS, hSp, hSS⟩ := sq _ _ _ s1 hC
    have hZi : (L⁻¹ᴴ * Y1)⁻¹ = Y1ᴴ * Lᴴ := by
      apply inv_eq_right_inv
      calc L⁻¹ᴴ * Y1 * (Y1ᴴ * Lᴴ) = L⁻¹ᴴ * (Y1 * Y1ᴴ) * Lᴴ := by simp only [Matrix.mul_assoc]
        _ = 1 := by rw [s1.unitary', Matrix.mul_one, hHH']
    have hZu : IsUnit (L⁻¹ᴴ * Y1).det := (isUnit_iff_isUnit_det _).mp (hLiHu.mul s1.isUnit)
    have hG : gmeanmh np A B 1 = .ok (L * S * Lᴴ) := by
      simp only [gmeanmh, eigh, e1, bind, Except.bind, npInv_eq _ hZu, if_true]
      congr 1
      rw [hZi, hS, ← hLB]
      calc L * Lᴴ * (L⁻¹ᴴ * Y1 * npDiag (fun i => Real.sqrt (l1 i)) * (Y1ᴴ * Lᴴ))
          = L * (Lᴴ * L⁻¹ᴴ) * (Y1 * npDiag (fun i => Real.sqrt (l1 i)) * Y1ᴴ) * Lᴴ := by
            simp only [Matrix.mul_assoc]
        _ = _ := by rw [hHH, Matrix.mul_one]
    refine ⟨_, hG, conjPD hLu hSp, ⟨fun _ => ?_, by norm_num, by norm_num⟩⟩
    -- A⁻¹ = L⁻ᴴ C⁻¹ L⁻¹
    have hCu : IsUnit (L⁻¹ * A * L⁻¹ᴴ).det := (isUnit_iff_isUnit_det _).mp hC.isUnit
    have hSu : IsUnit S.det := (isUnit_iff_isUnit_det _).mp hSp.isUnit
    have hAe : A = L * (S * S) * Lᴴ := by
      rw [hSS]
      calc A = (L * L⁻¹) * A * (L⁻¹ᴴ * Lᴴ) := by rw [hLL, hHH', Matrix.one_mul, Matrix.mul_one]
        _ = _ := by simp only [Matrix.mul_assoc]
    have hAi : A⁻¹ = L⁻¹ᴴ * (S⁻¹ * S⁻¹) * L⁻¹ := by
      apply inv_eq_right_inv
      rw [hAe]
      calc L * (S * S) * Lᴴ * (L⁻¹ᴴ * (S⁻¹ * S⁻¹) * L⁻¹)
          = L * (S * (S * (Lᴴ * L⁻¹ᴴ) * S⁻¹) * S⁻¹) * L⁻¹ := by simp only [Matrix.mul_assoc]
        _ = 1 := by rw [hHH, Matrix.mul_one, mul_nonsing_inv S hSu, Matrix.mul_one,
              mul_nonsing_inv S hSu, Matrix.mul_one, hLL]
    rw [hAi]
    calc L * S * Lᴴ * (L⁻¹ᴴ * (S⁻¹ * S⁻¹) * L⁻¹) * (L * S * Lᴴ)
        = L * ((S * (Lᴴ * L⁻¹ᴴ) * S⁻¹) * (S⁻¹ * (L⁻¹ * L) * S)) * Lᴴ := by simp only [Matrix.mul_assoc]
      _ = B := by rw [hHH, hLL', Matrix.mul_one, Matrix.mul_one, mul_nonsing_inv S hSu,
            nonsing_inv_mul S hSu, Matrix.mul_one, Matrix.mul_one, hLB]
  · -- type 2
    have hC : (Lᴴ * A * L).PosDef := by
      have := conjPD (M := Lᴴ) hLHu hA
      rwa [conjTranspose_conjTranspose] at this
    obtain ⟨S, hS, hSp, hSS⟩ := sq _ _ _ s2 hC
    have hSu : IsUnit S.det := (isUnit_iff_isUnit_det _).mp hSp.isUnit
    have hZi : (L⁻¹ᴴ * Y2)⁻¹ = Y2ᴴ * Lᴴ := by
      apply inv_eq_right_inv
      calc L⁻¹ᴴ * Y2 * (Y2ᴴ * Lᴴ) = L⁻¹ᴴ * (Y2 * Y2ᴴ) * Lᴴ := by simp only [Matrix.mul_assoc]
        _ = 1 := by rw [s2.unitary', Matrix.mul_one, hHH']
    have hZu : IsUnit (L⁻¹ᴴ * Y2).det := (isUnit_iff_isUnit_det _).mp (hLiHu.mul s2.isUnit)
    have hAe : A = L⁻¹ᴴ * (S * S) * L⁻¹ := by
      rw [hSS]
      calc A = (L⁻¹ᴴ * Lᴴ) * A * (L * L⁻¹) := by rw [hLL, hHH', Matrix.one_mul, Matrix.mul_one]
        _ = _ := by simp only [Matrix.mul_assoc]
    have hAi : A⁻¹ = L * (S⁻¹ * S⁻¹) * Lᴴ := by
      apply inv_eq_right_inv
      rw [hAe]
      calc L⁻¹ᴴ * (S * S) * L⁻¹ * (L * (S⁻¹ * S⁻¹) * Lᴴ)
          = L⁻¹ᴴ * (S * (S * (L⁻¹ * L) * S⁻¹) * S⁻¹) * Lᴴ := by simp only [Matrix.mul_assoc]
        _ = 1 := by rw [hLL', Matrix.mul_one, mul_nonsing_inv S hSu, Matrix.mul_one,
              mul_nonsing_inv S hSu, Matrix.mul_one, hHH']
    have hG : gmeanmh np A B 2 = .ok (L * S⁻¹ * Lᴴ) := by
      simp only [gmeanmh, eigh, e2, bind, Except.bind, npInv_eq _ hZu, npInv_eq _ hAu]
      norm_num
      rw [hZi, hAi]
      have e : Y2 * npDiag (fun i => Real.sqrt (l2 i)) * Y2ᴴ = S := hS.symm
      calc L * (S⁻¹ * S⁻¹) * Lᴴ * (L⁻¹ᴴ * Y2 * npDiag (fun i => Real.sqrt (l2 i)) * (Y2ᴴ * Lᴴ))
          = L * (S⁻¹ * (S⁻¹ * (Lᴴ * L⁻¹ᴴ) * (Y2 * npDiag (fun i => Real.sqrt (l2 i)) * Y2ᴴ))) * Lᴴ := by
            simp only [Matrix.mul_assoc]
        _ = _ := by rw [hHH, Matrix.mul_one, e, nonsing_inv_mul S hSu, Matrix.mul_one]
    refine ⟨_, hG, conjPD hLu hSp.inv, ⟨by norm_num, fun _ => ?_, by norm_num⟩⟩
    conv_lhs => rw [hAe]
    calc L * S⁻¹ * Lᴴ * (L⁻¹ᴴ * (S * S) * L⁻¹) * (L * S⁻¹ * Lᴴ)
        = L * ((S⁻¹ * (Lᴴ * L⁻¹ᴴ) * S) * (S * (L⁻¹ * L) * S⁻¹)) * Lᴴ := by simp only [Matrix.mul_assoc]
      _ = B := by rw [hHH, hLL', Matrix.mul_one, Matrix.mul_one, mul_nonsing_inv S hSu,
            nonsing_inv_mul S hSu, Matrix.mul_one, Matrix.mul_one, hLB]
  · -- type 3
    have hC : (Lᴴ * A * L).PosDef := by
      have := conjPD (M := Lᴴ) hLHu hA
      rwa [conjTranspose_conjTranspose] at this
    obtain ⟨S, hS, hSp, hSS⟩ := sq _ _ _ s3 hC
    have hZi : (L * Y3)⁻¹ = Y3ᴴ * L⁻¹ := by
      apply inv_eq_right_inv
      calc L * Y3 * (Y3ᴴ * L⁻¹) = L * (Y3 * Y3ᴴ) * L⁻¹ := by simp only [Matrix.mul_assoc]
        _ = 1 := by rw [s3.unitary', Matrix.mul_one, hLL]
    have hZu : IsUnit (L * Y3).det := (isUnit_iff_isUnit_det _).mp (hLu.mul s3.isUnit)
    have hG : gmeanmh np A B 3 = .ok (L⁻¹ᴴ * S * L⁻¹) := by
      simp only [gmeanmh, eigh, e3, bind, Except.bind, npInv_eq _ hZu, npInv_eq _ hBu]
      norm_num
      rw [hZi, hBi, hS]
      calc L⁻¹ᴴ * L⁻¹ * (L * Y3 * npDiag (fun i => Real.sqrt (l3 i)) * (Y3ᴴ * L⁻¹))
          = L⁻¹ᴴ * (L⁻¹ * L) * (Y3 * npDiag (fun i => Real.sqrt (l3 i)) * Y3ᴴ) * L⁻¹ := by
            simp only [Matrix.mul_assoc]
        _ = _ := by rw [hLL', Matrix.mul_one]
    have hpd : (L⁻¹ᴴ * S * L⁻¹).PosDef := by
      have := conjPD (M := L⁻¹ᴴ) hLiHu hSp
      rwa [conjTranspose_conjTranspose] at this
    refine ⟨_, hG, hpd, ⟨by norm_num, by norm_num, fun _ => ?_⟩⟩
    rw [← hLB]
    calc L⁻¹ᴴ * S * L⁻¹ * (L * Lᴴ) * (L⁻¹ᴴ * S * L⁻¹)
        = L⁻¹ᴴ * (S * (L⁻¹ * L) * ((Lᴴ * L⁻¹ᴴ) * S)) * L⁻¹ := by simp only [Matrix.mul_assoc]
      _ = L⁻¹ᴴ * (Lᴴ * A * L) * L⁻¹ := by
          rw [hHH, hLL', Matrix.mul_one, Matrix.one_mul, hSS]
      _ = (L⁻¹ᴴ * Lᴴ) * A * (L * L⁻¹) := by simp only [Matrix.mul_assoc]
      _ = A := by rw [hHH', hLL, Matrix.one_mul, Matrix.mul_one]

/-- The hypotheses of `C17_gmeanmh` are met: the mean of `4 I` and `9 I` solves its equation. -/
example : ∃ G, gmeanmh (someNumpy (𝕜 := ℂ)) ((4 : ℂ) • (1 : Mat 2 ℂ)) ((9 : ℂ) • (1 : Mat 2 ℂ)) 1 = .ok G ∧
    G * ((4 : ℂ) • (1 : Mat 2 ℂ))⁻¹ * G = (9 : ℂ) • (1 : Mat 2 ℂ) := by
  obtain ⟨G, h, _, h3⟩ := C17_gmeanmh (someNumpy (𝕜 := ℂ)) ((4 : ℂ) • (1 : Mat 2 ℂ))
    ((9 : ℂ) • (1 : Mat 2 ℂ)) (PosDef.one.smul (by norm_num)) (PosDef.one.smul (by norm_num)) 1
    (Or.inl rfl)
  exact ⟨G, h, h3.1 rfl⟩

/-- C17: any other type raises `ValueError`. -/
theorem C17_bad_type (np : Numpy 𝕜) (A B : Mat n 𝕜) (hB : B.PosDef) (type : ℤ)
    (h1 : type ≠ 1) (h2 : type ≠ 2) (h3 : type ≠ 3) : gmeanmh np A B type = .error .value := by
  rw [gmeanmh, C16_bad_type np A B hB type h1 h2 h3]
  rfl

end Verif.Linalg
