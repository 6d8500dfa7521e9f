import Verif.Lemmas.MatDeriv

/-!
# Strictness of the multiplicative and the Riccati update

Both updates decrease sums of `tr(R⁻¹ X) + log det R` strictly unless they change nothing, and they change nothing
exactly if the derivatives of these sums vanish.
-/

namespace Verif.Tr
open Matrix
open scoped ComplexOrder

variable {m : ℕ} {I J O : Type} [Fintype I] [Fintype J] [Fintype O]

theorem trace_sandwich {P M : Mat m ℂ} (hP : P.PosDef) (hM : M.PosDef) (D : Mat m ℂ) :
    0 ≤ (P * (Dᴴ * M * D)).trace.re ∧ ((P * (Dᴴ * M * D)).trace.re = 0 → D = 0) := by
  obtain ⟨C, hC⟩ := exists_gram P hP.posSemidef
  obtain ⟨E, hE⟩ := exists_gram M hM.posSemidef
  have hCu : IsUnit C.det := by
    have := isUnit_det hP
    rw [hC, det_mul] at this
    exact isUnit_of_mul_isUnit_right this
  have hEu : IsUnit E.det := by
    have := isUnit_det hM
    rw [hE, det_mul] at this
    exact isUnit_of_mul_isUnit_right this
  have h1 : (P * (Dᴴ * M * D)).trace = ((E * D * Cᴴ)ᴴ * (E * D * Cᴴ)).trace := by
    rw [hC, hE, Matrix.mul_assoc, trace_mul_comm]
    simp only [conjTranspose_mul, conjTranspose_conjTranspose, Matrix.mul_assoc]
  rw [h1, ← frobSq_eq_trace]
  change 0 ≤ frobSq _ ∧ (frobSq _ = 0 → _)
  refine ⟨Finset.sum_nonneg fun i _ => Finset.sum_nonneg fun j _ => sq_nonneg _, fun h => ?_⟩
  have h2 : E * D * Cᴴ = 0 := by
    ext i j
    have h3 := (Finset.sum_eq_zero_iff_of_nonneg fun i _ => Finset.sum_nonneg fun j _ => sq_nonneg _).mp h i
      (Finset.mem_univ _)
    have h4 := (Finset.sum_eq_zero_iff_of_nonneg fun j _ => sq_nonneg _).mp h3 j (Finset.mem_univ _)
    exact norm_eq_zero.mp (pow_eq_zero_iff two_ne_zero |>.mp h4)
  have hu' : IsUnit Cᴴ.det := by rw [det_conjTranspose]; exact hCu.star
  have h5 : E⁻¹ * (E * D * Cᴴ) * Cᴴ⁻¹ = D := by
    rw [Matrix.mul_assoc, mul_nonsing_inv_cancel_right _ _ hu', nonsing_inv_mul_cancel_left _ _ hEu]
  rw [← h5, h2, Matrix.mul_zero, Matrix.zero_mul]

/-- The derivative of `tr(R⁻¹ X) + log det R` along a line. -/
theorem hasDerivAt_term (R X H : Mat m ℂ) (hR : IsUnit R.det) :
    HasDerivAt (fun ε : ℝ => ((R + (ε : ℂ) • H)⁻¹ * X).trace.re + Real.log ‖(R + (ε : ℂ) • H).det‖)
      ((R⁻¹ * H).trace.re - (R⁻¹ * X * (R⁻¹ * H)).trace.re) 0 := by
  have h1 := (hasDerivAt_trace_inv X R H hR).add (hasDerivAt_logdet R H hR)
  refine (h1.congr_deriv ?_).congr_of_eventuallyEq (Filter.Eventually.of_forall fun ε => ?_)
  · rw [show X * R⁻¹ * H * R⁻¹ = (X * R⁻¹ * H) * R⁻¹ from rfl, trace_mul_comm]
    simp only [Matrix.mul_assoc]
    ring
  · change _ = (X * (R + (ε : ℂ) • H)⁻¹).trace.re + _
    rw [trace_mul_comm]

/-! ## Non-negative factors -/

/-- The objective as a function of the non-negative factors. -/
noncomputable def sliceVal {m : I → ℕ} (A : (i : I) → J → Mat (m i) ℂ) (X : (i : I) → Mat (m i) ℂ) (θ : J → ℝ) : ℝ :=
  ∑ i, (((∑ j, (θ j : ℂ) • A i j)⁻¹ * X i).trace.re + Real.log ‖(∑ j, (θ j : ℂ) • A i j).det‖)

/-- Numerator of the multiplicative update. -/
noncomputable def sliceNum {m : I → ℕ} (A : (i : I) → J → Mat (m i) ℂ) (X : (i : I) → Mat (m i) ℂ) (θ : J → ℝ)
    (j : J) : ℝ :=
  ∑ i, ((∑ j, (θ j : ℂ) • A i j)⁻¹ * X i * ((∑ j, (θ j : ℂ) • A i j)⁻¹ * A i j)).trace.re

/-- Denominator of the multiplicative update. -/
noncomputable def sliceDenom {m : I → ℕ} (A : (i : I) → J → Mat (m i) ℂ) (θ : J → ℝ) (j : J) : ℝ :=
  ∑ i, ((∑ j, (θ j : ℂ) • A i j)⁻¹ * A i j).trace.re

theorem hasDerivAt_slice {m : I → ℕ} (A : (i : I) → J → Mat (m i) ℂ) (X : (i : I) → Mat (m i) ℂ) (θ : J → ℝ)
    (hR : ∀ i, (∑ j, (θ j : ℂ) • A i j).PosDef) (D : J → ℝ) :
    HasDerivAt (fun ε : ℝ => sliceVal A X fun j => θ j + ε * D j)
      (∑ j, D j * (sliceDenom A θ j - sliceNum A X θ j)) 0 := by
  have h1 := HasDerivAt.fun_sum (u := Finset.univ) fun i _ =>
    hasDerivAt_term (∑ j, (θ j : ℂ) • A i j) (X i) (∑ j, (D j : ℂ) • A i j) (isUnit_det (hR i))
  refine (h1.congr_deriv ?_).congr_of_eventuallyEq (Filter.Eventually.of_forall fun ε => ?_)
  · simp only [sliceDenom, sliceNum, ← Finset.sum_sub_distrib, Finset.mul_sum]
    rw [Finset.sum_comm]
    refine Finset.sum_congr rfl fun i _ => ?_
    simp only [trace_sum, mul_smul_comm, trace_smul, smul_eq_mul, Complex.re_sum,
      Complex.re_ofReal_mul, mul_sub, Finset.sum_sub_distrib]
  · simp only [sliceVal]
    refine Finset.sum_congr rfl fun i _ => ?_
    have : ∑ j, ((θ j + ε * D j : ℝ) : ℂ) • A i j
        = ∑ j, (θ j : ℂ) • A i j + (ε : ℂ) • ∑ j, (D j : ℂ) • A i j := by
      rw [Finset.smul_sum, ← Finset.sum_add_distrib]
      refine Finset.sum_congr rfl fun j _ => ?_
      push_cast
      rw [add_smul, smul_smul]
    rw [this]

/-- Multiplicative updates of independent blocks of non-negative factors. -/
theorem slices_strict [Nonempty J] {m : O → I → ℕ} (hm : ∀ o, ∃ i, 0 < m o i)
    (A : (o : O) → (i : I) → J → Mat (m o i) ℂ) (hA : ∀ o i j, (A o i j).PosDef)
    (X : (o : O) → (i : I) → Mat (m o i) ℂ) (hX : ∀ o i, (X o i).PosSemidef) (θ θ' : O → J → ℝ)
    (hθ : ∀ o j, 0 < θ o j) (hθ' : ∀ o j, 0 < θ' o j)
    (hupd : ∀ o j, θ' o j
      = θ o j * Real.sqrt (sliceNum (A o) (X o) (θ o) j / sliceDenom (A o) (θ o) j)) :
    (∑ o, sliceVal (A o) (X o) (θ' o) < ∑ o, sliceVal (A o) (X o) (θ o) ∨ θ' = θ) ∧
    (θ' = θ ↔ ∀ D : O → J → ℝ,
      HasDerivAt (fun ε : ℝ => ∑ o, sliceVal (A o) (X o) fun j => θ o j + ε * D o j) 0 0) := by
  have hR : ∀ o i, (∑ j, (θ o j : ℂ) • A o i j).PosDef := fun o i =>
    sum_posDef fun j => smul_posDef (hA o i j) (hθ o j)
  have hd : ∀ o j, 0 < sliceDenom (A o) (θ o) j := fun o j =>
    slice_denom_pos (hm o) (A o) (hA o) (fun i => ∑ j, (θ o j : ℂ) • A o i j) (hR o) j
  have hρ : ∀ o j, 0 < θ' o j / θ o j := fun o j => div_pos (hθ' o j) (hθ o j)
  have hc : ∀ o j, sliceNum (A o) (X o) (θ o) j = (θ' o j / θ o j) ^ 2 * sliceDenom (A o) (θ o) j := by
    intro o j
    have hs : 0 < sliceNum (A o) (X o) (θ o) j / sliceDenom (A o) (θ o) j := by
      refine Real.sqrt_pos.mp ?_
      have := hθ' o j
      rw [hupd] at this
      exact (mul_pos_iff_of_pos_left (hθ o j)).mp this
    rw [hupd, mul_div_cancel_left₀ _ (hθ o j).ne', Real.sq_sqrt hs.le, div_mul_cancel₀ _ (hd o j).ne']
  have hgap : ∀ o, sliceVal (A o) (X o) (θ' o)
      + ∑ j, θ o j * (sliceDenom (A o) (θ o) j * (θ' o j / θ o j - 1) ^ 2) ≤ sliceVal (A o) (X o) (θ o) := by
    intro o
    have := slice_gap_dep (A o) (hA o) (X o) (hX o) (fun i => ∑ j, (θ o j : ℂ) • A o i j) (θ o) (θ' o) (hθ o) (hθ' o)
      (fun i => rfl) (sliceNum (A o) (X o) (θ o)) (sliceDenom (A o) (θ o)) (fun j => rfl) fun j => rfl
    refine le_trans (le_of_eq ?_) this
    refine congrArg (sliceVal (A o) (X o) (θ' o) + ·) (Finset.sum_congr rfl fun j _ => ?_)
    rw [hc o j]
    have := (hρ o j).ne'
    generalize θ' o j / θ o j = ρ at *
    field_simp
    ring
  have hnn : ∀ o j, 0 ≤ θ o j * (sliceDenom (A o) (θ o) j * (θ' o j / θ o j - 1) ^ 2) := fun o j =>
    mul_nonneg (hθ o j).le (mul_nonneg (hd o j).le (sq_nonneg _))
  have hone : ∀ o j, θ' o j = θ o j ↔ sliceNum (A o) (X o) (θ o) j = sliceDenom (A o) (θ o) j := by
    intro o j
    rw [hc o j, mul_eq_right₀ (hd o j).ne', pow_eq_one_iff_of_nonneg (hρ o j).le two_ne_zero,
      div_eq_one_iff_eq (hθ o j).ne']
  constructor
  · by_cases h : θ' = θ
    · exact .inr h
    · left
      obtain ⟨o₀, h⟩ := Function.ne_iff.mp h
      obtain ⟨j₀, h⟩ := Function.ne_iff.mp h
      have h1 : 0 < ∑ j, θ o₀ j * (sliceDenom (A o₀) (θ o₀) j * (θ' o₀ j / θ o₀ j - 1) ^ 2) := by
        refine Finset.sum_pos' (fun j _ => hnn o₀ j) ⟨j₀, Finset.mem_univ _, mul_pos (hθ o₀ j₀) (mul_pos (hd o₀ j₀)
          (sq_pos_iff.mpr ?_))⟩
        exact fun h0 => h ((div_eq_one_iff_eq (hθ o₀ j₀).ne').mp (sub_eq_zero.mp h0))
      refine Finset.sum_lt_sum (fun o _ => ?_) ⟨o₀, Finset.mem_univ _, ?_⟩
      · have := hgap o
        have := Finset.sum_nonneg (s := Finset.univ) fun j _ => hnn o j
        linarith
      · have := hgap o₀
        linarith
  · have hder : ∀ D : O → J → ℝ, HasDerivAt (fun ε : ℝ => ∑ o, sliceVal (A o) (X o) fun j => θ o j + ε * D o j)
        (∑ o, ∑ j, D o j * (sliceDenom (A o) (θ o) j - sliceNum (A o) (X o) (θ o) j)) 0 := fun D =>
      HasDerivAt.fun_sum fun o _ => hasDerivAt_slice (A o) (X o) (θ o) (hR o) (D o)
    constructor
    · intro h D
      refine (hder D).congr_deriv (Finset.sum_eq_zero fun o _ => Finset.sum_eq_zero fun j _ => ?_)
      rw [(hone o j).mp (by rw [h]), sub_self, mul_zero]
    · intro h
      have h1 := (hder fun o j => sliceDenom (A o) (θ o) j - sliceNum (A o) (X o) (θ o) j).unique (h _)
      funext o j
      rw [hone]
      have h2 := (Finset.sum_eq_zero_iff_of_nonneg fun o _ => Finset.sum_nonneg fun j _ => mul_self_nonneg _).mp h1 o
        (Finset.mem_univ _)
      have h3 := (Finset.sum_eq_zero_iff_of_nonneg fun j _ => mul_self_nonneg _).mp h2 j (Finset.mem_univ _)
      exact (sub_eq_zero.mp (mul_self_eq_zero.mp h3)).symm

/-! ## Positive definite components -/

/-- The objective as a function of the positive definite components. -/
noncomputable def riccVal (c : I → J → ℝ) (X : I → Mat m ℂ) (H : J → Mat m ℂ) : ℝ :=
  ∑ i, (((∑ j, (c i j : ℂ) • H j)⁻¹ * X i).trace.re + Real.log ‖(∑ j, (c i j : ℂ) • H j).det‖)

/-- The coefficient of the unknown in the Riccati equation. -/
noncomputable def riccP (c : I → J → ℝ) (H : J → Mat m ℂ) (j : J) : Mat m ℂ :=
  ∑ i, (c i j : ℂ) • (∑ j, (c i j : ℂ) • H j)⁻¹

/-- The constant term of the Riccati equation before multiplication by the old components. -/
noncomputable def riccQ (c : I → J → ℝ) (X : I → Mat m ℂ) (H : J → Mat m ℂ) (j : J) : Mat m ℂ :=
  ∑ i, (c i j : ℂ) • ((∑ j, (c i j : ℂ) • H j)⁻¹ * X i * (∑ j, (c i j : ℂ) • H j)⁻¹)

theorem hasDerivAt_ricc (c : I → J → ℝ) (X : I → Mat m ℂ) (H : J → Mat m ℂ)
    (hR : ∀ i, (∑ j, (c i j : ℂ) • H j).PosDef) (D : J → Mat m ℂ) :
    HasDerivAt (fun ε : ℝ => riccVal c X fun j => H j + (ε : ℂ) • D j)
      (∑ j, ((riccP c H j - riccQ c X H j) * D j).trace.re) 0 := by
  have h1 := HasDerivAt.fun_sum (u := Finset.univ) fun i _ =>
    hasDerivAt_term (∑ j, (c i j : ℂ) • H j) (X i) (∑ j, (c i j : ℂ) • D j) (isUnit_det (hR i))
  refine (h1.congr_deriv ?_).congr_of_eventuallyEq (Filter.Eventually.of_forall fun ε => ?_)
  · simp only [riccP, riccQ, ← Finset.sum_sub_distrib, Finset.sum_mul, trace_sum, Complex.re_sum, Finset.mul_sum]
    rw [Finset.sum_comm (s := Finset.univ (α := J))]
    refine Finset.sum_congr rfl fun i _ => ?_
    refine Finset.sum_congr rfl fun j _ => ?_
    rw [Matrix.sub_mul, trace_sub, Complex.sub_re]
    simp only [smul_mul_assoc, mul_smul_comm, Matrix.mul_assoc]
  · simp only [riccVal]
    refine Finset.sum_congr rfl fun i _ => ?_
    have : ∑ j, (c i j : ℂ) • (H j + (ε : ℂ) • D j)
        = ∑ j, (c i j : ℂ) • H j + (ε : ℂ) • ∑ j, (c i j : ℂ) • D j := by
      rw [Finset.smul_sum, ← Finset.sum_add_distrib]
      refine Finset.sum_congr rfl fun j _ => ?_
      rw [smul_add, smul_comm]
    rw [this]

/-- Riccati updates of independent blocks of positive definite components. -/
theorem riccatis_strict [Nonempty I] [Nonempty J] {m : O → ℕ} (c : O → I → J → ℝ) (hc : ∀ o i j, 0 < c o i j)
    (X : (o : O) → I → Mat (m o) ℂ) (hX : ∀ o i, (X o i).PosSemidef) (H H' : (o : O) → J → Mat (m o) ℂ)
    (hH : ∀ o j, (H o j).PosDef) (hH' : ∀ o j, (H' o j).PosDef)
    (hupd : ∀ o j, H' o j * riccP (c o) (H o) j * H' o j = H o j * riccQ (c o) (X o) (H o) j * H o j) :
    (∑ o, riccVal (c o) (X o) (H' o) < ∑ o, riccVal (c o) (X o) (H o) ∨ H' = H) ∧
    (H' = H ↔ ∀ D : (o : O) → J → Mat (m o) ℂ, (∀ o j, (D o j).IsHermitian) →
      HasDerivAt (fun ε : ℝ => ∑ o, riccVal (c o) (X o) fun j => H o j + (ε : ℂ) • D o j) 0 0) := by
  have hR : ∀ o i, (∑ j, (c o i j : ℂ) • H o j).PosDef := fun o i =>
    sum_posDef fun j => smul_posDef (hH o j) (hc o i j)
  have hP : ∀ o j, (riccP (c o) (H o) j).PosDef := fun o j =>
    sum_posDef fun i => smul_posDef (hR o i).inv (hc o i j)
  have hQ : ∀ o j, (riccQ (c o) (X o) (H o) j).IsHermitian := by
    intro o j
    refine isSelfAdjoint_sum _ fun i _ => ?_
    have h1 : ((∑ j, (c o i j : ℂ) • H o j)⁻¹ * X o i * (∑ j, (c o i j : ℂ) • H o j)⁻¹).IsHermitian := by
      have := ((hX o i).mul_mul_conjTranspose_same (∑ j, (c o i j : ℂ) • H o j)⁻¹).1
      rwa [show ((∑ j, (c o i j : ℂ) • H o j)⁻¹)ᴴ = (∑ j, (c o i j : ℂ) • H o j)⁻¹ from (hR o i).inv.1] at this
    change star _ = _
    rw [star_smul, show star ((c o i j : ℝ) : ℂ) = (c o i j : ℂ) from Complex.conj_ofReal _, star_eq_conjTranspose, h1.eq]
  have hgap : ∀ o, riccVal (c o) (X o) (H' o)
      + ∑ j, (riccP (c o) (H o) j * ((H o j - H' o j)ᴴ * (H o j)⁻¹ * (H o j - H' o j))).trace.re
      ≤ riccVal (c o) (X o) (H o) := fun o =>
    riccati_step_gap (c o) (hc o) (H o) (H' o) (hH o) (hH' o) (X o) (hX o)
      (fun i => ∑ j, (c o i j : ℂ) • H o j) (fun i => rfl) (hupd o)
  have hnn := fun o j => trace_sandwich (hP o j) (hH o j).inv (H o j - H' o j)
  have hone : ∀ o j, H' o j = H o j ↔ riccP (c o) (H o) j = riccQ (c o) (X o) (H o) j := by
    intro o j
    have hu := isUnit_det (hH o j)
    constructor
    · intro e
      have h1 := hupd o j
      rw [e] at h1
      have h2 := congrArg (fun M => (H o j)⁻¹ * M * (H o j)⁻¹) h1
      simp only [Matrix.mul_assoc, mul_nonsing_inv _ hu, Matrix.mul_one] at h2
      rwa [nonsing_inv_mul_cancel_left _ _ hu, nonsing_inv_mul_cancel_left _ _ hu] at h2
    · intro e
      have h1 := hupd o j
      rw [← e] at h1
      have g1 := riccati_gap (hH o j) (hH' o j) h1
      have g2 := riccati_gap (hH' o j) (hH o j) (rfl : H o j * riccP (c o) (H o) j * H o j = _)
      have n2 := (trace_sandwich (hP o j) (hH' o j).inv (H' o j - H o j)).1
      exact (sub_eq_zero.mp ((hnn o j).2 (le_antisymm (by linarith) (hnn o j).1))).symm
  constructor
  · by_cases h : H' = H
    · exact .inr h
    · left
      obtain ⟨o₀, h⟩ := Function.ne_iff.mp h
      obtain ⟨j₀, h⟩ := Function.ne_iff.mp h
      have h1 : 0 < ∑ j, (riccP (c o₀) (H o₀) j
          * ((H o₀ j - H' o₀ j)ᴴ * (H o₀ j)⁻¹ * (H o₀ j - H' o₀ j))).trace.re := by
        refine Finset.sum_pos' (fun j _ => (hnn o₀ j).1) ⟨j₀, Finset.mem_univ _,
          lt_of_le_of_ne (hnn o₀ j₀).1 fun h0 => ?_⟩
        exact h (sub_eq_zero.mp ((hnn o₀ j₀).2 h0.symm)).symm
      refine Finset.sum_lt_sum (fun o _ => ?_) ⟨o₀, Finset.mem_univ _, ?_⟩
      · have := hgap o
        have := Finset.sum_nonneg (s := Finset.univ) fun j _ => (hnn o j).1
        linarith
      · have := hgap o₀
        linarith
  · have hder : ∀ D : (o : O) → J → Mat (m o) ℂ,
        HasDerivAt (fun ε : ℝ => ∑ o, riccVal (c o) (X o) fun j => H o j + (ε : ℂ) • D o j)
        (∑ o, ∑ j, ((riccP (c o) (H o) j - riccQ (c o) (X o) (H o) j) * D o j).trace.re) 0 := fun D =>
      HasDerivAt.fun_sum fun o _ => hasDerivAt_ricc (c o) (X o) (H o) (hR o) (D o)
    constructor
    · intro h D _
      refine (hder D).congr_deriv (Finset.sum_eq_zero fun o _ => Finset.sum_eq_zero fun j _ => ?_)
      rw [(hone o j).mp (by rw [h]), sub_self, Matrix.zero_mul, trace_zero, Complex.zero_re]
    · intro h
      have hD : ∀ o j, (riccP (c o) (H o) j - riccQ (c o) (X o) (H o) j).IsHermitian := fun o j =>
        (hP o j).1.sub (hQ o j)
      have h1 := (hder fun o j => riccP (c o) (H o) j - riccQ (c o) (X o) (H o) j).unique (h _ hD)
      have hsq : ∀ o j, 0 ≤ ((riccP (c o) (H o) j - riccQ (c o) (X o) (H o) j)
            * (riccP (c o) (H o) j - riccQ (c o) (X o) (H o) j)).trace.re ∧
          (((riccP (c o) (H o) j - riccQ (c o) (X o) (H o) j)
            * (riccP (c o) (H o) j - riccQ (c o) (X o) (H o) j)).trace.re = 0 →
            riccP (c o) (H o) j - riccQ (c o) (X o) (H o) j = 0) := by
        intro o j
        have := trace_sandwich PosDef.one PosDef.one (riccP (c o) (H o) j - riccQ (c o) (X o) (H o) j)
        rwa [(hD o j).eq, Matrix.one_mul, Matrix.mul_one] at this
      funext o j
      rw [hone]
      have h2 := (Finset.sum_eq_zero_iff_of_nonneg fun o _ => Finset.sum_nonneg fun j _ => (hsq o j).1).mp h1 o
        (Finset.mem_univ _)
      have h3 := (Finset.sum_eq_zero_iff_of_nonneg fun j _ => (hsq o j).1).mp h2 j (Finset.mem_univ _)
      exact sub_eq_zero.mp ((hsq o j).2 h3)

/-- A Riccati equation has at most one positive definite solution. -/
theorem riccati_unique {P G G' : Mat m ℂ} (hP : P.PosDef) (hG : G.PosDef) (hG' : G'.PosDef)
    (h : G' * P * G' = G * P * G) : G' = G := by
  have g1 := riccati_gap hG hG' h
  have g2 := riccati_gap (P := P) hG' hG rfl
  have n1 := trace_sandwich hP hG.inv (G - G')
  have n2 := (trace_sandwich hP hG'.inv (G' - G)).1
  exact (sub_eq_zero.mp (n1.2 (le_antisymm (by linarith) n1.1))).symm

end Verif.Tr
