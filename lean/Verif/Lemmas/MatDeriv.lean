import Verif.Lemmas.Trace
import Verif.Props.Grad
import Mathlib.Topology.Instances.Matrix

/-! # Derivatives along lines of matrices, and the equality cases of the matrix inequalities -/

namespace Verif.Tr
open Matrix
open scoped ComplexOrder

variable {m : ℕ}

/-- `log det H = tr H - m` only for the identity. -/
theorem eq_one_of_logdet {H : Mat m ℂ} (hH : H.PosDef) (h : RCLike.re H.trace - m ≤ Real.log (RCLike.re H.det)) :
    H = 1 := by
  obtain ⟨l, P, hl⟩ := exists_eigh H hH.1
  have hp := hl.posDef_iff.mp hH
  rw [hl.decomp, det_conj_diag hl.unitary, trace_conj_diag hl.unitary, RCLike.ofReal_re, RCLike.ofReal_re,
    Real.log_prod fun i _ => (hp i).ne'] at h
  have h1 : ∀ i, l i = 1 := by
    by_contra hne
    push Not at hne
    obtain ⟨i, hi⟩ := hne
    have : ∑ i, Real.log (l i) < ∑ i, (l i - 1) :=
      Finset.sum_lt_sum (fun i _ => Real.log_le_sub_one_of_pos (hp i)) ⟨i, Finset.mem_univ _,
        Real.log_lt_sub_one_of_pos (hp i) hi⟩
    simp only [Finset.sum_sub_distrib, Finset.sum_const, Finset.card_univ, Fintype.card_fin, nsmul_eq_mul, mul_one]
      at this
    linarith
  rw [hl.decomp]
  have h2 : (diagonal fun i => ((l i : ℝ) : ℂ)) = 1 := by simp [h1]
  rw [show (diagonal fun i => RCLike.ofReal (l i) : Mat m ℂ) = 1 from h2, Matrix.mul_one]
  exact mul_eq_one_comm.mp hl.unitary

/-- The tangent of the log-determinant touches only at the point itself. -/
theorem eq_of_logdet {R R' : Mat m ℂ} (hR : R.PosDef) (hR' : R'.PosDef)
    (h : Real.log ‖R.det‖ + ((R⁻¹ * R').trace.re - m) ≤ Real.log ‖R'.det‖) : R' = R := by
  obtain ⟨C, hC, hCu, hH, htr, hd⟩ := exists_whitening hR hR'
  have h1 := eq_one_of_logdet hH (by
    rw [hd, htr, Real.log_div (norm_ne_zero_iff.mpr (isUnit_det hR').ne_zero)
      (norm_ne_zero_iff.mpr (isUnit_det hR).ne_zero)]
    change (R⁻¹ * R').trace.re - m ≤ _
    linarith)
  have h2 : R' * Cᴴ * C = 1 := by
    rw [Matrix.mul_assoc] at h1
    exact mul_eq_one_comm.mp h1
  rw [Matrix.mul_assoc, ← hC] at h2
  have h3 := congrArg (· * R) h2
  simpa [Matrix.mul_assoc, nonsing_inv_mul _ (isUnit_det hR)] using h3

theorem continuousAt_inv_line (B H : Mat m ℂ) (hB : IsUnit B.det) :
    ContinuousAt (fun ε : ℝ => (B + (ε : ℂ) • H)⁻¹) 0 := by
  have h1 : ContinuousAt (fun M : Mat m ℂ => M⁻¹) (B + ((0 : ℝ) : ℂ) • H) := by
    rw [Complex.ofReal_zero, zero_smul, add_zero]
    exact continuousAt_matrix_inv B (NormedRing.inverse_continuousAt hB.unit)
  refine ContinuousAt.comp (f := fun ε : ℝ => B + (ε : ℂ) • H) (x := (0 : ℝ)) h1 ?_
  fun_prop

theorem eventually_isUnit (B H : Mat m ℂ) (hB : IsUnit B.det) :
    ∀ᶠ ε : ℝ in nhds 0, IsUnit (B + (ε : ℂ) • H).det := by
  have h1 : ContinuousAt (fun ε : ℝ => (B + (ε : ℂ) • H).det) 0 :=
    (Continuous.matrix_det (by fun_prop)).continuousAt
  have h2 := h1.eventually_ne (y := 0) (by simpa using hB.ne_zero)
  exact h2.mono fun ε h => isUnit_iff_ne_zero.mpr h

/-- The derivative of the inverse along a line. -/
theorem hasDerivAt_trace_inv (A B H : Mat m ℂ) (hB : IsUnit B.det) :
    HasDerivAt (fun ε : ℝ => (A * (B + (ε : ℂ) • H)⁻¹).trace.re) (-(A * B⁻¹ * H * B⁻¹).trace.re) 0 := by
  rw [hasDerivAt_iff_tendsto_slope]
  have hc : ContinuousAt (fun ε : ℝ => -(A * (B + (ε : ℂ) • H)⁻¹ * H * B⁻¹).trace.re) 0 := by
    have h1 := continuousAt_inv_line B H hB
    have h2 : Continuous fun M : Mat m ℂ => -(A * M * H * B⁻¹).trace.re := by fun_prop
    exact h2.continuousAt.comp h1
  have h0 := hc.tendsto
  simp only [Complex.ofReal_zero, zero_smul, add_zero] at h0
  refine (h0.mono_left nhdsWithin_le_nhds).congr' ?_
  have hev := (eventually_isUnit B H hB).filter_mono (nhdsWithin_le_nhds (s := {(0 : ℝ)}ᶜ))
  filter_upwards [hev, self_mem_nhdsWithin] with ε hu hε
  have hε0 : ε ≠ 0 := hε
  have key : (B + (ε : ℂ) • H)⁻¹ - B⁻¹ = -((ε : ℂ) • ((B + (ε : ℂ) • H)⁻¹ * H * B⁻¹)) := by
    have e1 : (B + (ε : ℂ) • H)⁻¹ * (B + (ε : ℂ) • H) * B⁻¹ = B⁻¹ := by rw [nonsing_inv_mul _ hu, Matrix.one_mul]
    rw [Matrix.mul_add, Matrix.add_mul, Matrix.mul_assoc _ B, mul_nonsing_inv _ hB, Matrix.mul_one] at e1
    simp only [mul_smul_comm, smul_mul_assoc] at e1
    have : ∀ {a b c : Mat m ℂ}, a + b = c → a - c = -b := by
      rintro a b c rfl
      abel
    exact this e1
  simp only [slope, Complex.ofReal_zero, zero_smul, add_zero, sub_zero, vsub_eq_sub, smul_eq_mul]
  rw [← Complex.sub_re, ← trace_sub, ← Matrix.mul_sub, key, Matrix.mul_neg, mul_smul_comm, trace_neg, trace_smul,
    smul_eq_mul, Complex.neg_re, Complex.re_ofReal_mul, mul_neg, inv_mul_cancel_left₀ hε0]
  simp only [Matrix.mul_assoc]

/-- The derivative of the log-determinant along a line. -/
theorem hasDerivAt_logdet (B H : Mat m ℂ) (hB : IsUnit B.det) :
    HasDerivAt (fun ε : ℝ => Real.log ‖(B + (ε : ℂ) • H).det‖) (B⁻¹ * H).trace.re 0 :=
  Grad.hasDerivAt_logdet B H hB

/-- A Hermitian matrix that is orthogonal to itself in the metric of a positive definite matrix vanishes. -/
theorem metric_nonneg {B D : Mat m ℂ} (hB : B.PosDef) (hD : D.IsHermitian) :
    0 ≤ (B⁻¹ * D * B⁻¹ * D).trace.re ∧ ((B⁻¹ * D * B⁻¹ * D).trace.re = 0 → D = 0) := by
  obtain ⟨C, hC, hCu, -⟩ := exists_whitening hB hB
  have h1 : (B⁻¹ * D * B⁻¹ * D).trace = ((C * D * Cᴴ)ᴴ * (C * D * Cᴴ)).trace := by
    rw [hC]
    simp only [conjTranspose_mul, conjTranspose_conjTranspose, hD.eq]
    rw [show C * (D * Cᴴ) * (C * D * Cᴴ) = (C * D * Cᴴ * C * D) * Cᴴ by simp only [Matrix.mul_assoc],
      trace_mul_comm (C * D * Cᴴ * C * D)]
    simp only [Matrix.mul_assoc]
  rw [h1, ← frobSq_eq_trace]
  change 0 ≤ frobSq _ ∧ (frobSq _ = 0 → _)
  refine ⟨Finset.sum_nonneg fun i _ => Finset.sum_nonneg fun j _ => sq_nonneg _, fun h => ?_⟩
  have h2 : C * D * Cᴴ = 0 := by
    ext i j
    have h3 := (Finset.sum_eq_zero_iff_of_nonneg fun i _ => Finset.sum_nonneg fun j _ => sq_nonneg _).mp h i
      (Finset.mem_univ _)
    have h4 := (Finset.sum_eq_zero_iff_of_nonneg fun j _ => sq_nonneg _).mp h3 j (Finset.mem_univ _)
    exact norm_eq_zero.mp (pow_eq_zero_iff two_ne_zero |>.mp h4)
  have hu : IsUnit C.det := isUnit_iff_ne_zero.mpr hCu
  have hu' : IsUnit Cᴴ.det := by rw [det_conjTranspose]; exact hu.star
  have h5 : C⁻¹ * (C * D * Cᴴ) * Cᴴ⁻¹ = D := by
    rw [Matrix.mul_assoc, mul_nonsing_inv_cancel_right _ _ hu', nonsing_inv_mul_cancel_left _ _ hu]
  rw [← h5, h2, Matrix.mul_zero, Matrix.zero_mul]

end Verif.Tr
