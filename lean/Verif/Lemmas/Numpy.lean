import Mathlib.Analysis.InnerProductSpace.PiL2
import Mathlib.Analysis.Matrix.Order
import Mathlib.Data.Fin.Tuple.Sort
import Verif.Model.Numpy

/-! # Facts about the numpy primitives, and existence of a model of them -/

namespace Verif

open Matrix
open scoped ComplexOrder

variable {𝕜 : Type} [RCLike 𝕜] {n : ℕ}

theorem npDiag_eq (d : Fin n → ℝ) : (npDiag d : Mat n 𝕜) = diagonal fun i => (d i : 𝕜) := by
  ext i j
  by_cases h : i = j
  · subst h; simp [npDiag]
  · simp [npDiag, h]

theorem EighSpec.unitary' {X : Mat n 𝕜} {l : Fin n → ℝ} {P : Mat n 𝕜} (h : EighSpec X l P) :
    P * Pᴴ = 1 := mul_eq_one_comm.mp h.unitary

theorem SvdSpec.unitaryU' {X U V : Mat n 𝕜} {s : Fin n → ℝ} (h : SvdSpec X U s V) :
    U * Uᴴ = 1 := mul_eq_one_comm.mp h.unitaryU

theorem SvdSpec.unitaryV' {X U V : Mat n 𝕜} {s : Fin n → ℝ} (h : SvdSpec X U s V) :
    Vᴴ * V = 1 := mul_eq_one_comm.mp h.unitaryV

/-- A Hermitian matrix has an ascending eigendecomposition. -/
theorem exists_eigh (X : Mat n 𝕜) (hX : X.IsHermitian) : ∃ l P, EighSpec X l P := by
  set σ := Tuple.sort hX.eigenvalues
  set U : Mat n 𝕜 := (hX.eigenvectorUnitary : Matrix (Fin n) (Fin n) 𝕜)
  have hUU : Uᴴ * U = 1 := by
    have := Unitary.coe_star_mul_self hX.eigenvectorUnitary
    simpa [star_eq_conjTranspose] using this
  have hX' : X = U * diagonal (fun i => (hX.eigenvalues i : 𝕜)) * Uᴴ := by
    have := hX.spectral_theorem
    rw [Unitary.conjStarAlgAut_apply] at this
    simpa [star_eq_conjTranspose, Function.comp_def] using this
  refine ⟨hX.eigenvalues ∘ σ, U.submatrix id σ, ?_, ?_, Tuple.monotone_sort _⟩
  · have h := congrArg (fun M => M.submatrix σ σ) hUU
    rw [submatrix_mul _ _ σ id σ Function.bijective_id] at h
    simpa using h
  · conv_lhs => rw [hX']
    ext i j
    simp only [mul_apply, diagonal_apply, mul_ite, mul_zero, Finset.sum_ite_eq', Finset.mem_univ,
      if_true, conjTranspose_apply, submatrix_apply, id, Function.comp]
    exact (Equiv.sum_comp σ fun k => U i k * (hX.eigenvalues k : 𝕜) * star (U j k)).symm

/-- A positive semidefinite matrix has a factor `L` with `L Lᴴ = B`. -/
theorem exists_factor (B : Mat n 𝕜) (hB : B.PosSemidef) : ∃ L : Mat n 𝕜, L * Lᴴ = B := by
  obtain ⟨l, P, h⟩ := exists_eigh B hB.1
  have hl : ∀ i, 0 ≤ l i := by
    have h1 : (diagonal fun i => (l i : 𝕜)).PosSemidef := by
      have := hB.conjTranspose_mul_mul_same P
      rw [h.decomp] at this
      have e : Pᴴ * (P * diagonal (fun i => (l i : 𝕜)) * Pᴴ) * P
          = (Pᴴ * P) * diagonal (fun i => (l i : 𝕜)) * (Pᴴ * P) := by
        simp only [Matrix.mul_assoc]
      rw [e, h.unitary, Matrix.one_mul, Matrix.mul_one] at this
      exact this
    intro i
    have := posSemidef_diagonal_iff.mp h1 i
    exact_mod_cast this
  refine ⟨P * diagonal fun i => ((Real.sqrt (l i) : ℝ) : 𝕜), ?_⟩
  rw [conjTranspose_mul, diagonal_conjTranspose]
  have e : star (fun i => ((Real.sqrt (l i) : ℝ) : 𝕜)) = fun i => ((Real.sqrt (l i) : ℝ) : 𝕜) := by
    ext i; simp
  rw [e, Matrix.mul_assoc, ← Matrix.mul_assoc (diagonal _), diagonal_mul_diagonal, ← Matrix.mul_assoc]
  conv_rhs => rw [h.decomp]
  congr 3
  ext i
  rw [← RCLike.ofReal_mul, Real.mul_self_sqrt (hl i)]

/-- A positive definite matrix has a factor `L` with `L Lᴴ = B`. -/
theorem exists_cholesky (B : Mat n 𝕜) (hB : B.PosDef) : ∃ L : Mat n 𝕜, L * Lᴴ = B :=
  exists_factor B hB.posSemidef

/-- Every square matrix has a singular value decomposition. -/
theorem exists_svd (X : Mat n 𝕜) : ∃ U s V, SvdSpec X U s V := by
  obtain ⟨l0, P0, h0⟩ := exists_eigh (Xᴴ * X) (isHermitian_conjTranspose_mul_self X)
  -- reverse the order
  set l : Fin n → ℝ := l0 ∘ Fin.rev with hl
  set P : Mat n 𝕜 := P0.submatrix id Fin.rev with hP
  have hPP : Pᴴ * P = 1 := by
    have h := congrArg (fun M => M.submatrix Fin.rev Fin.rev) h0.unitary
    rw [submatrix_mul _ _ Fin.rev id Fin.rev Function.bijective_id] at h
    rw [hP, conjTranspose_submatrix]
    refine h.trans ?_
    ext i j
    simp [one_apply]
  have hPP' : P * Pᴴ = 1 := mul_eq_one_comm.mp hPP
  have hd : Pᴴ * (Xᴴ * X) * P = diagonal fun i => (l i : 𝕜) := by
    have h1 : P0ᴴ * (Xᴴ * X) * P0 = diagonal fun i => (l0 i : 𝕜) := by
      conv_lhs => rw [h0.decomp]
      have e : P0ᴴ * (P0 * diagonal (fun i => (l0 i : 𝕜)) * P0ᴴ) * P0
          = (P0ᴴ * P0) * diagonal (fun i => (l0 i : 𝕜)) * (P0ᴴ * P0) := by
        simp only [Matrix.mul_assoc]
      rw [e, h0.unitary, Matrix.one_mul, Matrix.mul_one]
    have h2 := congrArg (fun M => M.submatrix Fin.rev Fin.rev) h1
    rw [submatrix_mul _ _ Fin.rev id Fin.rev Function.bijective_id,
      submatrix_mul _ _ Fin.rev id id Function.bijective_id] at h2
    rw [hP, conjTranspose_submatrix]
    refine Eq.trans ?_ (h2.trans ?_)
    · simp
    · ext i j; simp [diagonal_apply, hl]
  have hanti : Antitone l := by
    intro i j hij
    exact h0.sorted (Fin.rev_le_rev.mpr hij)
  have hpos : ∀ i, 0 ≤ l i := by
    have h1 : (diagonal fun i => (l i : 𝕜)).PosSemidef := by
      rw [← hd]
      exact (posSemidef_conjTranspose_mul_self X).conjTranspose_mul_mul_same P
    intro i
    have := posSemidef_diagonal_iff.mp h1 i
    exact_mod_cast this
  set Y : Mat n 𝕜 := X * P with hY
  have hYY : ∀ i j, ∑ k, star (Y k i) * Y k j = if i = j then (l i : 𝕜) else 0 := by
    intro i j
    have h1 : Yᴴ * Y = diagonal fun i => (l i : 𝕜) := by
      rw [hY, conjTranspose_mul, ← hd]; simp only [Matrix.mul_assoc]
    have := congrFun (congrFun h1 i) j
    rw [mul_apply] at this
    simpa [diagonal_apply] using this
  let v : Fin n → EuclideanSpace 𝕜 (Fin n) :=
    fun i => ((Real.sqrt (l i) : ℝ) : 𝕜)⁻¹ • WithLp.toLp 2 (fun k => Y k i)
  have hin : ∀ i j, inner 𝕜 (v i) (v j)
      = ((Real.sqrt (l i) : ℝ) : 𝕜)⁻¹ * ((Real.sqrt (l j) : ℝ) : 𝕜)⁻¹ *
        (if i = j then (l i : 𝕜) else 0) := by
    intro i j
    rw [← hYY i j]
    simp only [v, inner_smul_left, inner_smul_right, PiLp.inner_apply, RCLike.inner_apply]
    rw [map_inv₀, RCLike.conj_ofReal]
    have e : ∑ x, Y x j * (starRingEnd 𝕜) (Y x i) = ∑ k, star (Y k i) * Y k j :=
      Finset.sum_congr rfl fun k _ => mul_comm _ _
    rw [e]
    ring
  have hon : Orthonormal 𝕜 (({i | 0 < l i} : Set (Fin n)).domRestrict v) := by
    rw [orthonormal_iff_ite]
    rintro ⟨i, hi⟩ ⟨j, hj⟩
    simp only [Set.mem_ofPred_eq] at hi hj
    change inner 𝕜 (v i) (v j) = _
    rw [hin]
    simp only [Subtype.mk.injEq]
    split_ifs with hij
    · subst hij
      rw [← RCLike.ofReal_inv, ← RCLike.ofReal_mul, ← RCLike.ofReal_mul, ← mul_inv,
        Real.mul_self_sqrt hi.le, inv_mul_cancel₀ hi.ne', RCLike.ofReal_one]
    · simp
  obtain ⟨b, hb⟩ := hon.exists_orthonormalBasis_extension_of_card_eq (by simp)
  let U : Mat n 𝕜 := Matrix.of fun k i => b i k
  have hUU : Uᴴ * U = 1 := by
    ext i j
    have h1 := orthonormal_iff_ite.mp b.orthonormal i j
    rw [mul_apply, one_apply, ← h1, PiLp.inner_apply]
    exact Finset.sum_congr rfl fun k _ => by
      simp [U, RCLike.inner_apply, mul_comm]
  refine ⟨U, fun i => Real.sqrt (l i), Pᴴ, hUU, ?_, ?_, fun i => Real.sqrt_nonneg _, ?_⟩
  · rw [conjTranspose_conjTranspose]; exact hPP
  · have hYU : Y = U * diagonal fun i => ((Real.sqrt (l i) : ℝ) : 𝕜) := by
      ext k i
      rw [mul_diagonal]
      rcases (hpos i).lt_or_eq with hi | hi
      · have h1 := hb i hi
        have h2 : ((Real.sqrt (l i) : ℝ) : 𝕜) ≠ 0 := by
          exact_mod_cast (Real.sqrt_pos.mpr hi).ne'
        have : U k i = ((Real.sqrt (l i) : ℝ) : 𝕜)⁻¹ * Y k i := by
          simp only [U, of_apply, h1, v, PiLp.smul_apply, smul_eq_mul]
        rw [this]
        field_simp
      · rw [← hi, Real.sqrt_zero, RCLike.ofReal_zero, mul_zero]
        have h1 := hYY i i
        rw [if_pos rfl, ← hi, RCLike.ofReal_zero] at h1
        have h3 : (∑ k, ‖Y k i‖ ^ 2 : ℝ) = 0 := by
          have : ((∑ k, ‖Y k i‖ ^ 2 : ℝ) : 𝕜) = 0 := by
            rw [← h1, RCLike.ofReal_sum]
            exact Finset.sum_congr rfl fun k _ => by
              rw [RCLike.star_def, RCLike.conj_mul]; norm_cast
          exact_mod_cast this
        have h4 := (Finset.sum_eq_zero_iff_of_nonneg (fun k _ => sq_nonneg ‖Y k i‖)).mp h3 k
          (Finset.mem_univ k)
        simpa using h4
    rw [← hYU, hY, Matrix.mul_assoc, hPP', Matrix.mul_one]
  · intro i j hij
    exact Real.sqrt_le_sqrt (hanti hij)

/-- The contracts of `Numpy` can be met: the theorems quantified over `Numpy` are not vacuous. -/
noncomputable def someNumpy : Numpy 𝕜 where
  eigh := fun X => open Classical in
    if h : X.IsHermitian then ((exists_eigh X h).choose, (exists_eigh X h).choose_spec.choose) else (0, 0)
  eigh_spec := fun X h => by
    simp only [h, dite_true]
    exact (exists_eigh X h).choose_spec.choose_spec
  cholesky := fun B => open Classical in
    if h : B.PosDef then .ok (exists_cholesky B h).choose else .error .linalg
  cholesky_spec := fun B h => by
    simp only [h, dite_true]
    exact ⟨_, rfl, (exists_cholesky B h).choose_spec⟩
  svd := fun X => ((exists_svd X).choose, (exists_svd X).choose_spec.choose,
    (exists_svd X).choose_spec.choose_spec.choose)
  svd_spec := fun X => (exists_svd X).choose_spec.choose_spec.choose_spec

end Verif

namespace Verif

open Matrix
open scoped ComplexOrder

variable {𝕜 : Type} [RCLike 𝕜] {n : ℕ}

theorem EighSpec.isUnit {X : Mat n 𝕜} {l : Fin n → ℝ} {P : Mat n 𝕜} (h : EighSpec X l P) :
    IsUnit P := ⟨⟨P, Pᴴ, h.unitary', h.unitary⟩, rfl⟩

theorem isHermitian_conj_diag (P : Mat n 𝕜) (d : Fin n → ℝ) :
    (P * diagonal (fun i => (d i : 𝕜)) * Pᴴ).IsHermitian := by
  rw [IsHermitian, conjTranspose_mul, conjTranspose_mul, conjTranspose_conjTranspose,
    diagonal_conjTranspose, Matrix.mul_assoc]
  congr 3
  ext i
  simp

theorem posSemidef_conj_diag_iff {P : Mat n 𝕜} (hP : IsUnit P) (d : Fin n → ℝ) :
    (P * diagonal (fun i => (d i : 𝕜)) * Pᴴ).PosSemidef ↔ ∀ i, 0 ≤ d i := by
  rw [← star_eq_conjTranspose, IsUnit.posSemidef_star_right_conjugate_iff hP, posSemidef_diagonal_iff]
  exact forall_congr' fun i => by exact_mod_cast Iff.rfl

theorem posDef_conj_diag_iff {P : Mat n 𝕜} (hP : IsUnit P) (d : Fin n → ℝ) :
    (P * diagonal (fun i => (d i : 𝕜)) * Pᴴ).PosDef ↔ ∀ i, 0 < d i := by
  rw [← star_eq_conjTranspose, Matrix.IsUnit.posDef_star_right_conjugate_iff hP, posDef_diagonal_iff]
  exact forall_congr' fun i => by exact_mod_cast Iff.rfl

theorem EighSpec.posDef_iff {X : Mat n 𝕜} {l : Fin n → ℝ} {P : Mat n 𝕜} (h : EighSpec X l P) :
    X.PosDef ↔ ∀ i, 0 < l i := by
  conv_lhs => rw [h.decomp]
  exact posDef_conj_diag_iff h.isUnit l

theorem EighSpec.posSemidef_iff {X : Mat n 𝕜} {l : Fin n → ℝ} {P : Mat n 𝕜} (h : EighSpec X l P) :
    X.PosSemidef ↔ ∀ i, 0 ≤ l i := by
  conv_lhs => rw [h.decomp]
  exact posSemidef_conj_diag_iff h.isUnit l

/-- Subtracting a multiple of the identity shifts the eigenvalues. -/
theorem conj_diag_sub_smul {P : Mat n 𝕜} (hP : P * Pᴴ = 1) (d : Fin n → ℝ) (c : ℝ) :
    P * diagonal (fun i => (d i : 𝕜)) * Pᴴ - (c : 𝕜) • (1 : Mat n 𝕜)
      = P * diagonal (fun i => ((d i - c : ℝ) : 𝕜)) * Pᴴ := by
  have e : (diagonal fun i => ((d i - c : ℝ) : 𝕜)) = diagonal (fun i => (d i : 𝕜)) - (c : 𝕜) • 1 := by
    ext i j
    by_cases h : i = j
    · subst h; simp [Algebra.algebraMap_eq_smul_one, sub_smul]
    · simp [h]
  rw [e, Matrix.mul_sub, Matrix.sub_mul, Matrix.mul_smul, Matrix.smul_mul, Matrix.mul_one, hP]

theorem EighSpec.sub_posSemidef_iff {X : Mat n 𝕜} {l : Fin n → ℝ} {P : Mat n 𝕜}
    (h : EighSpec X l P) (c : ℝ) : (X - (c : 𝕜) • (1 : Mat n 𝕜)).PosSemidef ↔ ∀ i, c ≤ l i := by
  conv_lhs => rw [h.decomp, conj_diag_sub_smul h.unitary', posSemidef_conj_diag_iff h.isUnit]
  exact forall_congr' fun i => sub_nonneg

/-- Products of matrices diagonalised by the same unitary. -/
theorem conj_diag_mul {P : Mat n 𝕜} (hP : Pᴴ * P = 1) (d e : Fin n → ℝ) :
    (P * diagonal (fun i => (d i : 𝕜)) * Pᴴ) * (P * diagonal (fun i => (e i : 𝕜)) * Pᴴ)
      = P * diagonal (fun i => ((d i * e i : ℝ) : 𝕜)) * Pᴴ := by
  have : (P * diagonal (fun i => (d i : 𝕜)) * Pᴴ) * (P * diagonal (fun i => (e i : 𝕜)) * Pᴴ)
      = P * (diagonal (fun i => (d i : 𝕜)) * (Pᴴ * P) * diagonal (fun i => (e i : 𝕜))) * Pᴴ := by
    simp only [Matrix.mul_assoc]
  rw [this, hP, Matrix.mul_one, diagonal_mul_diagonal]
  simp

end Verif
