import Verif.Lemmas.MatrixIneq
import Verif.Lemmas.Numpy
import Mathlib.LinearAlgebra.Matrix.PosDef
import Mathlib.Algebra.BigOperators.Field

/-! # Trace and determinant inequalities for positive definite matrices -/

namespace Verif.Tr

open Matrix
open scoped ComplexOrder

variable {m : ℕ}

theorem exists_gram (A : Mat m ℂ) (hA : A.PosSemidef) : ∃ C : Mat m ℂ, A = Cᴴ * C := by
  obtain ⟨L, hL⟩ := exists_factor A hA
  exact ⟨Lᴴ, by rw [conjTranspose_conjTranspose, hL]⟩

theorem trace_mul_nonneg {A B : Mat m ℂ} (hA : A.PosSemidef) (hB : B.PosSemidef) : 0 ≤ (A * B).trace.re := by
  obtain ⟨C, rfl⟩ := exists_gram _ hA
  rw [Matrix.mul_assoc, trace_mul_comm]
  have := (hB.mul_mul_conjTranspose_same C).trace_nonneg
  exact (Complex.le_def.mp this).1

theorem smul_posDef {A : Mat m ℂ} (hA : A.PosDef) {r : ℝ} (hr : 0 < r) : ((r : ℂ) • A).PosDef :=
  hA.smul (Complex.zero_lt_real.mpr hr)

theorem isUnit_det {A : Mat m ℂ} (hA : A.PosDef) : IsUnit A.det := (isUnit_iff_isUnit_det A).mp hA.isUnit

/-- Whitening a positive definite matrix by another one. -/
theorem exists_whitening {R R' : Mat m ℂ} (hR : R.PosDef) (hR' : R'.PosDef) : ∃ C : Mat m ℂ, R⁻¹ = Cᴴ * C ∧ C.det ≠ 0 ∧
    (C * R' * Cᴴ).PosDef ∧ (C * R' * Cᴴ).trace = (R⁻¹ * R').trace ∧
    RCLike.re (C * R' * Cᴴ).det = ‖R'.det‖ / ‖R.det‖ := by
  obtain ⟨C, hC⟩ := exists_gram _ hR.inv.posSemidef
  have hRu := isUnit_det hR
  have hdet : star C.det * C.det * R.det = 1 := by
    have := congrArg det hC
    rw [det_mul, det_conjTranspose] at this
    rw [← this, ← det_mul, nonsing_inv_mul _ hRu, det_one]
  have hCu : C.det ≠ 0 := by
    intro h
    rw [h] at hdet
    simp at hdet
  have hH : (C * R' * Cᴴ).PosDef := by
    refine hR'.mul_mul_conjTranspose_same ?_
    rw [vecMul_injective_iff_isUnit]
    exact (isUnit_iff_isUnit_det C).mpr (isUnit_iff_ne_zero.mpr hCu)
  have htr : (C * R' * Cᴴ).trace = (R⁻¹ * R').trace := by
    rw [Matrix.trace_mul_comm, ← Matrix.mul_assoc, ← hC]
  have hd : RCLike.re (C * R' * Cᴴ).det = ‖R'.det‖ / ‖R.det‖ := by
    have h1 : (C * R' * Cᴴ).det = ((‖(C * R' * Cᴴ).det‖ : ℝ) : ℂ) := by
      have := hH.det_pos
      exact (Complex.norm_of_nonneg' this.le).symm
    rw [h1]
    have h2 : ‖(C * R' * Cᴴ).det‖ = ‖R'.det‖ / ‖R.det‖ := by
      have h3 := congrArg norm hdet
      rw [norm_mul, norm_mul, norm_star, norm_one] at h3
      have h4 : ‖R.det‖ ≠ 0 := norm_ne_zero_iff.mpr hRu.ne_zero
      rw [det_mul, det_mul, det_conjTranspose, norm_mul, norm_mul, norm_star, eq_div_iff h4]
      linear_combination ‖R'.det‖ * h3
    rw [h2]
    exact Complex.ofReal_re _
  exact ⟨C, hC, hCu, hH, htr, hd⟩

/-- The tangent of the log-determinant. -/
theorem logdet_le {R R' : Mat m ℂ} (hR : R.PosDef) (hR' : R'.PosDef) :
    Real.log ‖R'.det‖ ≤ Real.log ‖R.det‖ + ((R⁻¹ * R').trace.re - m) := by
  obtain ⟨C, -, -, hH, htr, hd⟩ := exists_whitening hR hR'
  have hRu := isUnit_det hR
  have h := logdet_le_trace _ hH
  rw [hd, htr, Real.log_div (norm_ne_zero_iff.mpr (isUnit_det hR').ne_zero)
    (norm_ne_zero_iff.mpr hRu.ne_zero)] at h
  have : RCLike.re (R⁻¹ * R').trace = (R⁻¹ * R').trace.re := rfl
  linarith

variable {J : Type} [Fintype J]

theorem sum_posDef [Nonempty J] {B : J → Mat m ℂ} (hB : ∀ j, (B j).PosDef) : (∑ j, B j).PosDef := by
  classical
  obtain ⟨j₀⟩ := ‹Nonempty J›
  rw [← Finset.add_sum_erase _ _ (Finset.mem_univ j₀)]
  exact PosDef.add_posSemidef (hB j₀) (posSemidef_sum _ fun j _ => (hB j).posSemidef)

/-- The inverse of a sum is at most the weighted sum of the inverses. -/
theorem inv_sum_le [Nonempty J] (B Φ : J → Mat m ℂ) (hB : ∀ j, (B j).PosDef) (hΦ : ∑ j, Φ j = 1) :
    (∑ j, (Φ j)ᴴ * (B j)⁻¹ * Φ j - (∑ j, B j)⁻¹).PosSemidef := by
  have hS := sum_posDef hB
  have hSu := isUnit_det hS
  set S := ∑ j, B j with hSd
  have hSh : (S⁻¹)ᴴ = S⁻¹ := hS.inv.1
  have key : ∑ j, (Φ j)ᴴ * (B j)⁻¹ * Φ j - S⁻¹
      = ∑ j, (Φ j - B j * S⁻¹)ᴴ * (B j)⁻¹ * (Φ j - B j * S⁻¹) := by
    have h1 : ∀ j, (Φ j - B j * S⁻¹)ᴴ * (B j)⁻¹ * (Φ j - B j * S⁻¹)
        = (Φ j)ᴴ * (B j)⁻¹ * Φ j - (Φ j)ᴴ * S⁻¹ - S⁻¹ * Φ j + S⁻¹ * B j * S⁻¹ := by
      intro j
      have hu := isUnit_det (hB j)
      have e1 : (B j)⁻¹ * (B j * S⁻¹) = S⁻¹ := by rw [← Matrix.mul_assoc, nonsing_inv_mul _ hu, Matrix.one_mul]
      have e2 : S⁻¹ * B j * (B j)⁻¹ = S⁻¹ := by rw [Matrix.mul_assoc, mul_nonsing_inv _ hu, Matrix.mul_one]
      rw [conjTranspose_sub, conjTranspose_mul, hSh, (hB j).1]
      simp only [Matrix.sub_mul, Matrix.mul_sub]
      rw [e2, Matrix.mul_assoc (Φ j)ᴴ (B j)⁻¹ (B j * S⁻¹), e1, ← Matrix.mul_assoc S⁻¹ (B j) S⁻¹]
      abel
    simp only [h1, Finset.sum_add_distrib, Finset.sum_sub_distrib]
    rw [← Finset.sum_mul, ← Finset.mul_sum, ← Finset.sum_mul, ← Finset.mul_sum, hΦ, ← hSd, ← conjTranspose_sum, hΦ,
      conjTranspose_one, Matrix.one_mul, Matrix.mul_one, nonsing_inv_mul _ hSu, Matrix.one_mul]
    abel
  rw [key]
  exact posSemidef_sum _ fun j _ => (hB j).inv.posSemidef.conjTranspose_mul_mul_same _

/-- How far a positive definite `G` is from minimising `tr(P G) + tr(B G⁻¹)`, where the minimiser `G'` solves
`G' P G' = B`. -/
theorem riccati_gap {P G G' B : Mat m ℂ} (hG : G.PosDef) (hG' : G'.PosDef) (hB : G' * P * G' = B) :
    (P * G').trace.re + (B * G'⁻¹).trace.re + (P * ((G - G')ᴴ * G⁻¹ * (G - G'))).trace.re
      = (P * G).trace.re + (B * G⁻¹).trace.re := by
  have hu := isUnit_det hG
  have hu' := isUnit_det hG'
  have e : P * ((G - G')ᴴ * G⁻¹ * (G - G')) = P * G - P * G' - P * G' + P * (G' * G⁻¹ * G') := by
    rw [conjTranspose_sub, hG.1, hG'.1]
    simp only [Matrix.sub_mul, Matrix.mul_sub]
    rw [mul_nonsing_inv _ hu, Matrix.one_mul, Matrix.one_mul, Matrix.mul_assoc G' G⁻¹ G, nonsing_inv_mul _ hu,
      Matrix.mul_one]
    abel
  have e1 : (B * G'⁻¹).trace = (P * G').trace := by
    rw [← hB, Matrix.mul_assoc, mul_nonsing_inv _ hu', Matrix.mul_one, trace_mul_comm]
  have e2 : (B * G⁻¹).trace = (P * (G' * G⁻¹ * G')).trace := by
    rw [← hB, Matrix.mul_assoc, Matrix.mul_assoc, trace_mul_comm]
    simp only [Matrix.mul_assoc]
  rw [e, trace_add, trace_sub, trace_sub]
  simp only [Complex.add_re, Complex.sub_re]
  rw [e1, e2]
  ring

/-- Majorisation of `tr (R⁻¹ X) + log det R` for `R = ∑ j, C j` replaced by `∑ j, C' j`. -/
theorem mm_point [Nonempty J] (C C' : J → Mat m ℂ) (hC : ∀ j, (C j).PosDef) (hC' : ∀ j, (C' j).PosDef)
    {X : Mat m ℂ} (hX : X.PosSemidef) :
    ((∑ j, C' j)⁻¹ * X).trace.re + Real.log ‖(∑ j, C' j).det‖
      ≤ Real.log ‖(∑ j, C j).det‖ - m
        + ∑ j, ((((C j) * (∑ j, C j)⁻¹ * X * (∑ j, C j)⁻¹ * (C j)) * (C' j)⁻¹).trace.re
          + ((∑ j, C j)⁻¹ * C' j).trace.re) := by
  have hR := sum_posDef hC
  have hR' := sum_posDef hC'
  have hRu := isUnit_det hR
  have h1 := logdet_le hR hR'
  have hRh : ((∑ j, C j)⁻¹)ᴴ = (∑ j, C j)⁻¹ := hR.inv.1
  have h2 := trace_mul_nonneg (inv_sum_le C' (fun j => C j * (∑ j, C j)⁻¹) hC'
    (by rw [← Finset.sum_mul, mul_nonsing_inv _ hRu])) hX
  rw [Matrix.sub_mul, trace_sub, Complex.sub_re, Finset.sum_mul, trace_sum, Complex.re_sum] at h2
  rw [Finset.mul_sum, trace_sum, Complex.re_sum] at h1
  have h3 : ∀ j, ((C j * (∑ j, C j)⁻¹)ᴴ * (C' j)⁻¹ * (C j * (∑ j, C j)⁻¹) * X).trace
      = (((C j) * (∑ j, C j)⁻¹ * X * (∑ j, C j)⁻¹ * (C j)) * (C' j)⁻¹).trace := by
    intro j
    rw [conjTranspose_mul, hRh, (hC j).1]
    rw [show (∑ j, C j)⁻¹ * C j * (C' j)⁻¹ * (C j * (∑ j, C j)⁻¹) * X
      = ((∑ j, C j)⁻¹ * C j * (C' j)⁻¹) * (C j * (∑ j, C j)⁻¹ * X) by simp only [Matrix.mul_assoc]]
    rw [trace_mul_comm]
    simp only [Matrix.mul_assoc]
  simp only [h3] at h2
  rw [Finset.sum_add_distrib]
  linarith

/-- The value of the majoriser at the current point. -/
theorem mm_point_self (C : J → Mat m ℂ) (hR : (∑ j, C j).PosDef) (hC : ∀ j, (C j).PosDef) (X : Mat m ℂ) :
    ((∑ j, C j)⁻¹ * X).trace.re + Real.log ‖(∑ j, C j).det‖
      = Real.log ‖(∑ j, C j).det‖ - m
        + ∑ j, ((((C j) * (∑ j, C j)⁻¹ * X * (∑ j, C j)⁻¹ * (C j)) * (C j)⁻¹).trace.re
          + ((∑ j, C j)⁻¹ * C j).trace.re) := by
  have hRu := isUnit_det hR
  set R := ∑ j, C j with hRd
  rw [Finset.sum_add_distrib]
  have h1 : ∑ j, (R⁻¹ * C j).trace.re = m := by
    rw [← Complex.re_sum, ← trace_sum, ← Finset.mul_sum, ← hRd, nonsing_inv_mul _ hRu, trace_one]
    simp
  have h2 : ∑ j, (C j * R⁻¹ * X * R⁻¹ * C j * (C j)⁻¹).trace.re = (R⁻¹ * X).trace.re := by
    have : ∀ j, (C j * R⁻¹ * X * R⁻¹ * C j * (C j)⁻¹).trace = (C j * (R⁻¹ * X * R⁻¹)).trace := by
      intro j
      rw [Matrix.mul_assoc _ (C j), mul_nonsing_inv _ (isUnit_det (hC j)), Matrix.mul_one]
      simp only [Matrix.mul_assoc]
    simp only [this]
    rw [← Complex.re_sum, ← trace_sum, ← Finset.sum_mul, ← hRd, trace_mul_comm, Matrix.mul_assoc,
      nonsing_inv_mul _ hRu, Matrix.mul_one]
  rw [h1, h2]
  ring

/-- The multiplicative square-root update of one non-negative factor. -/
theorem sqrt_update_le {c d ρ : ℝ} (hc : 0 ≤ c) (hd : 0 < d) (hρ : 0 < ρ)
    (h : ρ = Real.sqrt (c / d) ∨ Real.sqrt (c / d) ≤ ρ ∧ ρ ≤ 1) : ρ⁻¹ * c + ρ * d ≤ c + d := by
  set r := Real.sqrt (c / d) with hr
  have hr0 : 0 ≤ r := Real.sqrt_nonneg _
  have hc' : c = r ^ 2 * d := by
    rw [hr, Real.sq_sqrt (div_nonneg hc hd.le)]
    field_simp
  clear_value r
  subst hc'
  have h1 : ρ⁻¹ * (r ^ 2 * d) + ρ * d - (r ^ 2 * d + d) = d * ((1 - ρ) * (r ^ 2 - ρ)) / ρ := by
    field_simp
    ring
  have h2 : (1 - ρ) * (r ^ 2 - ρ) ≤ 0 := by
    rcases h with rfl | ⟨h1, h2⟩
    · nlinarith [mul_nonneg hr0 (sq_nonneg (1 - ρ))]
    · exact mul_nonpos_of_nonneg_of_nonpos (by linarith) (by nlinarith)
  have h3 : d * ((1 - ρ) * (r ^ 2 - ρ)) / ρ ≤ 0 :=
    div_nonpos_of_nonpos_of_nonneg (mul_nonpos_of_nonneg_of_nonpos hd.le h2) hρ.le
  linarith

theorem trace_mul_pos [Nonempty (Fin m)] {A B : Mat m ℂ} (hA : A.PosDef) (hB : B.PosDef) : 0 < (A * B).trace.re := by
  obtain ⟨C, hC⟩ := exists_gram _ hA.posSemidef
  have hu : IsUnit C := by
    rw [isUnit_iff_isUnit_det, isUnit_iff_ne_zero]
    intro h0
    have := (isUnit_det hA).ne_zero
    rw [hC, det_mul, h0, mul_zero] at this
    exact this rfl
  have := (hB.mul_mul_conjTranspose_same (vecMul_injective_iff_isUnit.mpr hu)).trace_pos
  rw [hC, Matrix.mul_assoc, trace_mul_comm]
  exact (Complex.lt_def.mp this).1

/-- By how much the objective decreases at least when the non-negative factors of positive definite matrices (of possibly
different sizes) are multiplied by `ρ`. -/
theorem slice_gap_dep {I : Type} [Fintype I] [Nonempty J] {m : I → ℕ}
    (A : (i : I) → J → Mat (m i) ℂ) (hA : ∀ i j, (A i j).PosDef) (X : (i : I) → Mat (m i) ℂ)
    (hX : ∀ i, (X i).PosSemidef) (R : (i : I) → Mat (m i) ℂ) (θ θ' : J → ℝ) (hθ : ∀ j, 0 < θ j)
    (hθ' : ∀ j, 0 < θ' j) (hR : ∀ i, R i = ∑ j, (θ j : ℂ) • A i j) (c d : J → ℝ)
    (hc : ∀ j, c j = ∑ i, ((R i)⁻¹ * X i * ((R i)⁻¹ * A i j)).trace.re)
    (hd : ∀ j, d j = ∑ i, ((R i)⁻¹ * A i j).trace.re) :
    ∑ i, (((∑ j, (θ' j : ℂ) • A i j)⁻¹ * X i).trace.re + Real.log ‖(∑ j, (θ' j : ℂ) • A i j).det‖)
      + ∑ j, θ j * ((c j + d j) - ((θ' j / θ j)⁻¹ * c j + θ' j / θ j * d j))
      ≤ ∑ i, (((R i)⁻¹ * X i).trace.re + Real.log ‖(R i).det‖) := by
  have hC : ∀ i j, ((θ j : ℂ) • A i j).PosDef := fun i j => smul_posDef (hA i j) (hθ j)
  have hC' : ∀ i j, ((θ' j : ℂ) • A i j).PosDef := fun i j => smul_posDef (hA i j) (hθ' j)
  have hRp : ∀ i, (R i).PosDef := fun i => by rw [hR i]; exact sum_posDef (hC i)
  set ρ : J → ℝ := fun j => θ' j / θ j with hρ
  have hρpos : ∀ j, 0 < ρ j := fun j => div_pos (hθ' j) (hθ j)
  have hρθ : ∀ j, θ' j = ρ j * θ j := fun j => (div_mul_cancel₀ _ (hθ j).ne').symm
  -- the majoriser in terms of `c` and `d`
  have e1 : ∀ (ψ : J → ℝ), (∀ j, 0 < ψ j) → ∀ i j,
      ((((θ j : ℂ) • A i j) * (R i)⁻¹ * X i * (R i)⁻¹ * ((θ j : ℂ) • A i j)) * (((ψ j * θ j : ℝ) : ℂ) • A i j)⁻¹).trace.re
        + ((R i)⁻¹ * (((ψ j * θ j : ℝ) : ℂ) • A i j)).trace.re
      = θ j * ((ψ j)⁻¹ * ((R i)⁻¹ * X i * ((R i)⁻¹ * A i j)).trace.re + ψ j * ((R i)⁻¹ * A i j).trace.re) := by
    intro ψ hψ i j
    have hAu := isUnit_det (hA i j)
    have hne : ((ψ j * θ j : ℝ) : ℂ) ≠ 0 := by exact_mod_cast (mul_pos (hψ j) (hθ j)).ne'
    have hψc : (ψ j : ℂ) ≠ 0 := by exact_mod_cast (hψ j).ne'
    have hθc : (θ j : ℂ) ≠ 0 := by exact_mod_cast (hθ j).ne'
    have hinv : (((ψ j * θ j : ℝ) : ℂ) • A i j)⁻¹ = (((ψ j * θ j : ℝ) : ℂ))⁻¹ • (A i j)⁻¹ := by
      refine inv_eq_right_inv ?_
      rw [smul_mul_smul_comm, mul_inv_cancel₀ hne, mul_nonsing_inv _ hAu, one_smul]
    have h1 : (((θ j : ℂ) • A i j) * (R i)⁻¹ * X i * (R i)⁻¹ * ((θ j : ℂ) • A i j)) * (((ψ j * θ j : ℝ) : ℂ) • A i j)⁻¹
        = ((θ j * (ψ j)⁻¹ : ℝ) : ℂ) • (A i j * ((R i)⁻¹ * X i * (R i)⁻¹)) := by
      rw [hinv]
      simp only [smul_mul_assoc, mul_smul_comm, smul_smul, Matrix.mul_assoc]
      rw [mul_nonsing_inv _ hAu, Matrix.mul_one]
      congr 1
      push_cast
      field_simp
    have h2 : (A i j * ((R i)⁻¹ * X i * (R i)⁻¹)).trace = ((R i)⁻¹ * X i * ((R i)⁻¹ * A i j)).trace := by
      rw [trace_mul_comm]
      simp only [Matrix.mul_assoc]
    rw [h1, mul_smul_comm, trace_smul, trace_smul, h2, smul_eq_mul, smul_eq_mul, Complex.re_ofReal_mul,
      Complex.re_ofReal_mul]
    ring
  have up : ∀ i, ((∑ j, (θ' j : ℂ) • A i j)⁻¹ * X i).trace.re + Real.log ‖(∑ j, (θ' j : ℂ) • A i j).det‖
      ≤ Real.log ‖(R i).det‖ - m i + ∑ j, θ j * ((ρ j)⁻¹ * ((R i)⁻¹ * X i * ((R i)⁻¹ * A i j)).trace.re
        + ρ j * ((R i)⁻¹ * A i j).trace.re) := by
    intro i
    have := mm_point (fun j => (θ j : ℂ) • A i j) (fun j => (θ' j : ℂ) • A i j) (hC i) (hC' i) (hX i)
    rw [← hR i] at this
    refine this.trans (le_of_eq ?_)
    congr 1
    refine Finset.sum_congr rfl fun j _ => ?_
    rw [hρθ j]
    exact e1 ρ hρpos i j
  have low : ∀ i, ((R i)⁻¹ * X i).trace.re + Real.log ‖(R i).det‖
      = Real.log ‖(R i).det‖ - m i + ∑ j, θ j * (((R i)⁻¹ * X i * ((R i)⁻¹ * A i j)).trace.re
        + ((R i)⁻¹ * A i j).trace.re) := by
    intro i
    have := mm_point_self (fun j => (θ j : ℂ) • A i j) (by rw [← hR i]; exact hRp i) (hC i) (X i)
    rw [← hR i] at this
    refine this.trans ?_
    congr 1
    refine Finset.sum_congr rfl fun j _ => ?_
    have := e1 (fun _ => 1) (fun _ => one_pos) i j
    simp only [one_mul, inv_one] at this
    exact this
  refine (add_le_add_left (Finset.sum_le_sum fun i _ => up i) _).trans (le_of_eq ?_)
  rw [Finset.sum_congr rfl fun i _ => low i]
  simp only [Finset.sum_add_distrib]
  rw [add_assoc, Finset.sum_comm, Finset.sum_comm (s := Finset.univ (α := I)), ← Finset.sum_add_distrib]
  refine congrArg _ (Finset.sum_congr rfl fun j _ => ?_)
  rw [← Finset.mul_sum, ← Finset.mul_sum, Finset.sum_add_distrib, Finset.sum_add_distrib, ← Finset.mul_sum,
    ← Finset.mul_sum, ← hc j, ← hd j]
  simp only [hρ]
  ring

theorem slice_num_nonneg {I : Type} [Fintype I] [Nonempty J] {m : I → ℕ}
    (A : (i : I) → J → Mat (m i) ℂ) (hA : ∀ i j, (A i j).PosDef) (X : (i : I) → Mat (m i) ℂ)
    (hX : ∀ i, (X i).PosSemidef) (R : (i : I) → Mat (m i) ℂ)
    (hRp : ∀ i, (R i).PosDef) (j : J) : 0 ≤ ∑ i, ((R i)⁻¹ * X i * ((R i)⁻¹ * A i j)).trace.re := by
  refine Finset.sum_nonneg fun i _ => ?_
  have h1 := trace_mul_nonneg (hA i j).posSemidef ((hX i).mul_mul_conjTranspose_same (R i)⁻¹)
  rw [show ((R i)⁻¹)ᴴ = (R i)⁻¹ from (hRp i).inv.1] at h1
  rwa [show ((R i)⁻¹ * X i * ((R i)⁻¹ * A i j)).trace = (A i j * ((R i)⁻¹ * X i * (R i)⁻¹)).trace by
    rw [trace_mul_comm (A i j)]; simp only [Matrix.mul_assoc]]

theorem slice_denom_pos {I : Type} [Fintype I] {m : I → ℕ} (hm : ∃ i, 0 < m i)
    (A : (i : I) → J → Mat (m i) ℂ) (hA : ∀ i j, (A i j).PosDef) (R : (i : I) → Mat (m i) ℂ)
    (hRp : ∀ i, (R i).PosDef) (j : J) : 0 < ∑ i, ((R i)⁻¹ * A i j).trace.re := by
  obtain ⟨i₀, hi₀⟩ := hm
  have hnn : ∀ i, 0 ≤ ((R i)⁻¹ * A i j).trace.re := fun i =>
    trace_mul_nonneg (hRp i).inv.posSemidef (hA i j).posSemidef
  refine Finset.sum_pos' (fun i _ => hnn i) ⟨i₀, Finset.mem_univ _, ?_⟩
  have : Nonempty (Fin (m i₀)) := ⟨⟨0, hi₀⟩⟩
  exact trace_mul_pos (hRp i₀).inv (hA i₀ j)

/-- One multiplicative update of non-negative factors of positive definite matrices of possibly different sizes. -/
theorem slice_le_dep {I : Type} [Fintype I] [Nonempty J] {m : I → ℕ} (hm : ∃ i, 0 < m i)
    (A : (i : I) → J → Mat (m i) ℂ) (hA : ∀ i j, (A i j).PosDef) (X : (i : I) → Mat (m i) ℂ)
    (hX : ∀ i, (X i).PosSemidef) (θ θ' : J → ℝ) (hθ : ∀ j, 0 < θ j)
    (hθ' : ∀ j, 0 < θ' j) (R : (i : I) → Mat (m i) ℂ) (hR : ∀ i, R i = ∑ j, (θ j : ℂ) • A i j) (c d : J → ℝ)
    (hc : ∀ j, c j = ∑ i, ((R i)⁻¹ * X i * ((R i)⁻¹ * A i j)).trace.re)
    (hd : ∀ j, d j = ∑ i, ((R i)⁻¹ * A i j).trace.re)
    (hupd : ∀ j, θ' j = θ j * Real.sqrt (c j / d j) ∨ θ j * Real.sqrt (c j / d j) ≤ θ' j ∧ θ' j ≤ θ j) :
    ∑ i, (((∑ j, (θ' j : ℂ) • A i j)⁻¹ * X i).trace.re + Real.log ‖(∑ j, (θ' j : ℂ) • A i j).det‖)
      ≤ ∑ i, (((R i)⁻¹ * X i).trace.re + Real.log ‖(R i).det‖) := by
  have hRp : ∀ i, (R i).PosDef := fun i => by rw [hR i]; exact sum_posDef fun j => smul_posDef (hA i j) (hθ j)
  refine le_trans (le_add_of_nonneg_right (Finset.sum_nonneg fun j _ => mul_nonneg (hθ j).le ?_))
    (slice_gap_dep A hA X hX R θ θ' hθ hθ' hR c d hc hd)
  refine sub_nonneg.mpr (sqrt_update_le (by rw [hc]; exact slice_num_nonneg A hA X hX R hRp j)
    (by rw [hd]; exact slice_denom_pos hm A hA R hRp j) (div_pos (hθ' j) (hθ j)) ?_)
  rcases hupd j with h | ⟨h1, h2⟩
  · left
    rw [h, mul_div_cancel_left₀ _ (hθ j).ne']
  · right
    exact ⟨(le_div_iff₀ (hθ j)).mpr (by rw [mul_comm]; exact h1), (div_le_one (hθ j)).mpr h2⟩

/-- The same for matrices of equal size. -/
theorem slice_le {I : Type} [Fintype I] [Nonempty I] [Nonempty J] [Nonempty (Fin m)] (A : I → J → Mat m ℂ)
    (hA : ∀ i j, (A i j).PosDef) (X : I → Mat m ℂ) (hX : ∀ i, (X i).PosSemidef) (θ θ' : J → ℝ) (hθ : ∀ j, 0 < θ j)
    (hθ' : ∀ j, 0 < θ' j) (R : I → Mat m ℂ) (hR : ∀ i, R i = ∑ j, (θ j : ℂ) • A i j) (c d : J → ℝ)
    (hc : ∀ j, c j = ∑ i, ((R i)⁻¹ * X i * ((R i)⁻¹ * A i j)).trace.re)
    (hd : ∀ j, d j = ∑ i, ((R i)⁻¹ * A i j).trace.re)
    (hupd : ∀ j, θ' j = θ j * Real.sqrt (c j / d j) ∨ θ j * Real.sqrt (c j / d j) ≤ θ' j ∧ θ' j ≤ θ j) :
    ∑ i, (((∑ j, (θ' j : ℂ) • A i j)⁻¹ * X i).trace.re + Real.log ‖(∑ j, (θ' j : ℂ) • A i j).det‖)
      ≤ ∑ i, (((R i)⁻¹ * X i).trace.re + Real.log ‖(R i).det‖) :=
  slice_le_dep (m := fun _ => m) ⟨Classical.arbitrary I, Fin.pos (Classical.arbitrary (Fin m))⟩ A hA X hX θ θ' hθ hθ' R hR
    c d hc hd hupd

/-- By how much the objective decreases at least in one update of the positive definite components `H j` of `R i = ∑ j, c i j • H j` by the solution of
`H' P H' = H Q H`. -/
theorem riccati_step_gap {I : Type} [Fintype I] [Nonempty I] [Nonempty J] (c : I → J → ℝ) (hc : ∀ i j, 0 < c i j)
    (H H' : J → Mat m ℂ) (hH : ∀ j, (H j).PosDef) (hH' : ∀ j, (H' j).PosDef) (X : I → Mat m ℂ)
    (hX : ∀ i, (X i).PosSemidef) (R : I → Mat m ℂ) (hR : ∀ i, R i = ∑ j, (c i j : ℂ) • H j)
    (hupd : ∀ j, H' j * (∑ i, (c i j : ℂ) • (R i)⁻¹) * H' j
      = H j * (∑ i, (c i j : ℂ) • ((R i)⁻¹ * X i * (R i)⁻¹)) * H j) :
    ∑ i, (((∑ j, (c i j : ℂ) • H' j)⁻¹ * X i).trace.re + Real.log ‖(∑ j, (c i j : ℂ) • H' j).det‖)
      + ∑ j, ((∑ i, (c i j : ℂ) • (R i)⁻¹) * ((H j - H' j)ᴴ * (H j)⁻¹ * (H j - H' j))).trace.re
      ≤ ∑ i, (((R i)⁻¹ * X i).trace.re + Real.log ‖(R i).det‖) := by
  have hRp : ∀ i, (R i).PosDef := fun i => by
    rw [hR i]
    exact sum_posDef fun j => smul_posDef (hH j) (hc i j)
  have up : ∀ (G : J → Mat m ℂ), (∀ j, (G j).PosDef) → ∀ i,
      ∑ j, (((((c i j : ℂ) • H j) * (R i)⁻¹ * X i * (R i)⁻¹ * ((c i j : ℂ) • H j)) * ((c i j : ℂ) • G j)⁻¹).trace.re
        + ((R i)⁻¹ * ((c i j : ℂ) • G j)).trace.re)
      = ∑ j, (((c i j : ℂ) • ((R i)⁻¹ * X i * (R i)⁻¹) * (H j * (G j)⁻¹ * H j)).trace.re
        + (((c i j : ℂ) • (R i)⁻¹) * G j).trace.re) := by
    intro G hG i
    refine Finset.sum_congr rfl fun j _ => ?_
    have hne : (c i j : ℂ) ≠ 0 := by exact_mod_cast (hc i j).ne'
    have hinv : ((c i j : ℂ) • G j)⁻¹ = ((c i j : ℂ))⁻¹ • (G j)⁻¹ := by
      refine inv_eq_right_inv ?_
      rw [smul_mul_smul_comm, mul_inv_cancel₀ hne, mul_nonsing_inv _ (isUnit_det (hG j)), one_smul]
    rw [hinv]
    simp only [smul_mul_assoc, mul_smul_comm, smul_smul, inv_mul_cancel_left₀ hne, trace_smul]
    congr 3
    rw [show H j * (R i)⁻¹ * X i * (R i)⁻¹ * H j * (G j)⁻¹
      = H j * ((R i)⁻¹ * X i * (R i)⁻¹ * H j * (G j)⁻¹) by simp only [Matrix.mul_assoc], trace_mul_comm]
    simp only [Matrix.mul_assoc]
  have collect : ∀ (G : J → Mat m ℂ),
      ∑ i, ∑ j, (((c i j : ℂ) • ((R i)⁻¹ * X i * (R i)⁻¹) * (H j * (G j)⁻¹ * H j)).trace.re
        + (((c i j : ℂ) • (R i)⁻¹) * G j).trace.re)
      = ∑ j, (((∑ i, (c i j : ℂ) • (R i)⁻¹) * G j).trace.re
        + (H j * (∑ i, (c i j : ℂ) • ((R i)⁻¹ * X i * (R i)⁻¹)) * H j * (G j)⁻¹).trace.re) := by
    intro G
    rw [Finset.sum_comm]
    refine Finset.sum_congr rfl fun j _ => ?_
    rw [Finset.sum_add_distrib, ← Complex.re_sum, ← Complex.re_sum, ← trace_sum, ← trace_sum, ← Finset.sum_mul,
      ← Finset.sum_mul, add_comm]
    congr 2
    simp only [Matrix.mul_assoc]
    rw [trace_mul_comm (H j)]
    simp only [Matrix.mul_assoc]
  have a1 : ∀ i, ((∑ j, (c i j : ℂ) • H' j)⁻¹ * X i).trace.re + Real.log ‖(∑ j, (c i j : ℂ) • H' j).det‖
      ≤ Real.log ‖(R i).det‖ - m
      + ∑ j, (((c i j : ℂ) • ((R i)⁻¹ * X i * (R i)⁻¹) * (H j * (H' j)⁻¹ * H j)).trace.re
        + (((c i j : ℂ) • (R i)⁻¹) * H' j).trace.re) := by
    intro i
    rw [← up H' hH' i]
    have := mm_point (fun j => (c i j : ℂ) • H j) (fun j => (c i j : ℂ) • H' j)
      (fun j => smul_posDef (hH j) (hc i j)) (fun j => smul_posDef (hH' j) (hc i j)) (hX i)
    rwa [← hR i] at this
  have a2 : ∀ i, ((R i)⁻¹ * X i).trace.re + Real.log ‖(R i).det‖ = Real.log ‖(R i).det‖ - m
      + ∑ j, (((c i j : ℂ) • ((R i)⁻¹ * X i * (R i)⁻¹) * (H j * (H j)⁻¹ * H j)).trace.re
        + (((c i j : ℂ) • (R i)⁻¹) * H j).trace.re) := by
    intro i
    rw [← up H hH i]
    have := mm_point_self (fun j => (c i j : ℂ) • H j) (by rw [← hR i]; exact hRp i)
      (fun j => smul_posDef (hH j) (hc i j)) (X i)
    rwa [← hR i] at this
  refine (add_le_add_left (Finset.sum_le_sum fun i _ => a1 i) _).trans (le_of_eq ?_)
  rw [Finset.sum_congr rfl fun i _ => a2 i]
  simp only [Finset.sum_add_distrib (f := fun i => Real.log ‖(R i).det‖ - (m : ℝ)), collect]
  rw [add_assoc, ← Finset.sum_add_distrib]
  exact congrArg _ (Finset.sum_congr rfl fun j _ => riccati_gap (hH j) (hH' j) (hupd j))

/-- One update of the positive definite components `H j` of `R i = ∑ j, c i j • H j` by the solution of
`H' P H' = H Q H`. -/
theorem riccati_step {I : Type} [Fintype I] [Nonempty I] [Nonempty J] (c : I → J → ℝ) (hc : ∀ i j, 0 < c i j)
    (H H' : J → Mat m ℂ) (hH : ∀ j, (H j).PosDef) (hH' : ∀ j, (H' j).PosDef) (X : I → Mat m ℂ)
    (hX : ∀ i, (X i).PosSemidef) (R : I → Mat m ℂ) (hR : ∀ i, R i = ∑ j, (c i j : ℂ) • H j)
    (hupd : ∀ j, H' j * (∑ i, (c i j : ℂ) • (R i)⁻¹) * H' j
      = H j * (∑ i, (c i j : ℂ) • ((R i)⁻¹ * X i * (R i)⁻¹)) * H j) :
    ∑ i, (((∑ j, (c i j : ℂ) • H' j)⁻¹ * X i).trace.re + Real.log ‖(∑ j, (c i j : ℂ) • H' j).det‖)
      ≤ ∑ i, (((R i)⁻¹ * X i).trace.re + Real.log ‖(R i).det‖) := by
  have hRp : ∀ i, (R i).PosDef := fun i => by
    rw [hR i]
    exact sum_posDef fun j => smul_posDef (hH j) (hc i j)
  refine le_trans (le_add_of_nonneg_right (Finset.sum_nonneg fun j _ => ?_))
    (riccati_step_gap c hc H H' hH hH' X hX R hR hupd)
  exact trace_mul_nonneg (sum_posDef fun i => smul_posDef (hRp i).inv (hc i j)).posSemidef
    ((hH j).inv.posSemidef.conjTranspose_mul_mul_same _)

end Verif.Tr
