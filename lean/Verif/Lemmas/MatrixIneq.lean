import Mathlib.Analysis.SpecialFunctions.Log.Basic
import Verif.Lemmas.Numpy

/-! # Determinant, trace and Frobenius facts used by several properties -/

namespace Verif

open Matrix
open scoped ComplexOrder

variable {𝕜 : Type} [RCLike 𝕜] {n : ℕ}

theorem det_conj_diag {P : Mat n 𝕜} (hP : Pᴴ * P = 1) (d : Fin n → ℝ) :
    (P * diagonal (fun i => (d i : 𝕜)) * Pᴴ).det = ((∏ i, d i : ℝ) : 𝕜) := by
  rw [det_mul, det_mul, mul_right_comm, ← det_mul, mul_eq_one_comm.mp hP, det_one, one_mul,
    det_diagonal]
  push_cast
  rfl

theorem trace_conj_diag {P : Mat n 𝕜} (hP : Pᴴ * P = 1) (d : Fin n → ℝ) :
    (P * diagonal (fun i => (d i : 𝕜)) * Pᴴ).trace = ((∑ i, d i : ℝ) : 𝕜) := by
  rw [trace_mul_comm, ← Matrix.mul_assoc, hP, Matrix.one_mul, trace_diagonal]
  push_cast
  rfl

/-- `log det H ≤ tr H - n` for a positive definite matrix. -/
theorem logdet_le_trace (H : Mat n 𝕜) (hH : H.PosDef) :
    Real.log (RCLike.re H.det) ≤ RCLike.re H.trace - n := by
  obtain ⟨l, P, h⟩ := exists_eigh H hH.1
  have hl := h.posDef_iff.mp hH
  rw [h.decomp, det_conj_diag h.unitary, trace_conj_diag h.unitary, RCLike.ofReal_re, RCLike.ofReal_re,
    Real.log_prod fun i _ => (hl i).ne']
  have : ∀ i ∈ Finset.univ, Real.log (l i) ≤ l i - 1 := fun i _ => Real.log_le_sub_one_of_pos (hl i)
  refine (Finset.sum_le_sum this).trans ?_
  simp

/-- The squared Frobenius norm, `np.linalg.norm(M) ** 2`. -/
noncomputable def frobSq {m k : ℕ} (M : Matrix (Fin m) (Fin k) 𝕜) : ℝ := ∑ i, ∑ j, ‖M i j‖ ^ 2

theorem frobSq_eq_trace {m k : ℕ} (M : Matrix (Fin m) (Fin k) 𝕜) :
    ((frobSq M : ℝ) : 𝕜) = (Mᴴ * M).trace := by
  simp only [frobSq, trace, diag_apply, mul_apply, conjTranspose_apply]
  rw [Finset.sum_comm]
  push_cast
  refine Finset.sum_congr rfl fun i _ => Finset.sum_congr rfl fun j _ => ?_
  rw [RCLike.star_def, RCLike.conj_mul]

theorem frobSq_conjTranspose {m k : ℕ} (M : Matrix (Fin m) (Fin k) 𝕜) : frobSq Mᴴ = frobSq M := by
  simp only [frobSq, conjTranspose_apply, norm_star]
  exact Finset.sum_comm

theorem frobSq_unitary_mul {U M : Mat n 𝕜} (hU : Uᴴ * U = 1) : frobSq (U * M) = frobSq M := by
  have h : ((frobSq (U * M) : ℝ) : 𝕜) = ((frobSq M : ℝ) : 𝕜) := by
    rw [frobSq_eq_trace, frobSq_eq_trace, conjTranspose_mul, Matrix.mul_assoc,
      ← Matrix.mul_assoc Uᴴ, hU, Matrix.one_mul]
  exact_mod_cast h

theorem frobSq_mul_unitary {V M : Mat n 𝕜} (hV : V * Vᴴ = 1) : frobSq (M * V) = frobSq M := by
  rw [← frobSq_conjTranspose, conjTranspose_mul, frobSq_unitary_mul, frobSq_conjTranspose]
  rw [conjTranspose_conjTranspose, hV]

theorem norm_det_unitary {U : Mat n 𝕜} (hU : Uᴴ * U = 1) : ‖U.det‖ = 1 := by
  have h := congrArg (fun M => ‖M.det‖) hU
  simp only [det_mul, det_conjTranspose, norm_mul, norm_star, det_one, norm_one] at h
  have h0 := norm_nonneg U.det
  nlinarith

/-- `2 log |det M| ≤ ‖M‖_F² - n` for an invertible matrix. -/
theorem two_log_norm_det_le (M : Mat n 𝕜) (hM : M.det ≠ 0) :
    2 * Real.log ‖M.det‖ ≤ frobSq M - n := by
  have hpd : (Mᴴ * M).PosDef := by
    refine PosDef.conjTranspose_mul_self M ?_
    rw [mulVec_injective_iff_isUnit]
    exact (isUnit_iff_isUnit_det M).mpr (isUnit_iff_ne_zero.mpr hM)
  have h := logdet_le_trace _ hpd
  rw [← frobSq_eq_trace, RCLike.ofReal_re, det_mul, det_conjTranspose, RCLike.star_def, RCLike.conj_mul] at h
  have e : RCLike.re ((‖M.det‖ : 𝕜) ^ 2) = ‖M.det‖ ^ 2 := by
    rw [← RCLike.ofReal_pow, RCLike.ofReal_re]
  rw [e, Real.log_pow] at h
  exact_mod_cast h

theorem frobSq_sub_one (M : Mat n 𝕜) :
    frobSq (M - 1) = frobSq M - 2 * ∑ i, RCLike.re (M i i) + n := by
  have h : ∀ i j, ‖(M - 1) i j‖ ^ 2
      = ‖M i j‖ ^ 2 + if i = j then (1 - 2 * RCLike.re (M i j)) else 0 := by
    intro i j
    by_cases hij : i = j
    · subst hij
      simp only [Matrix.sub_apply, one_apply_eq, if_true]
      rw [← RCLike.normSq_eq_def', ← RCLike.normSq_eq_def', RCLike.normSq_apply, RCLike.normSq_apply]
      simp
      ring
    · simp [hij]
  simp only [frobSq, h, Finset.sum_add_distrib, Finset.sum_ite_eq, Finset.mem_univ, if_true,
    Finset.sum_sub_distrib, Finset.sum_const, Finset.card_univ, Fintype.card_fin, ← Finset.mul_sum]
  simp
  ring

end Verif
