import Mathlib.LinearAlgebra.Matrix.Charpoly.Coeff
import Mathlib.Analysis.Calculus.Deriv.Polynomial
import Mathlib.Analysis.Calculus.Deriv.Abs
import Mathlib.Analysis.SpecialFunctions.Log.Deriv
import Mathlib.Analysis.SpecialFunctions.Sqrt
import Mathlib.Analysis.Calculus.Deriv.Slope
import Mathlib.Analysis.Complex.RealDeriv
import Mathlib.Tactic.LinearCombination
import Mathlib.Tactic.FinCases
import Verif.Lemmas.Run
import Verif.Model.Grad

/-! # C48, C57: (natural-)gradient ICA, FDICA and IVA -/

set_option linter.unusedSectionVars false

namespace Verif.Grad

open Matrix Spatial

variable {𝕜 : Type} [RCLike 𝕜] {F : Type} {n t : ℕ}

/-! ## C48: equivariance -/

private theorem sep_change (X : Data 𝕜 F n t) (W A : F → Mat n 𝕜) (hA : ∀ f, IsUnit (A f).det) :
    sep (fun f => A f * X f) (fun f => W f * (A f)⁻¹) = sep X W := by
  funext f
  rw [sep, sep, Matrix.mul_assoc, nonsing_inv_mul_cancel_left _ _ (hA f)]

private theorem natural_change (μ : ℝ) (hol : Bool) (score : Data 𝕜 F n t → Data 𝕜 F n t) (X : Data 𝕜 F n t)
    (W A : F → Mat n 𝕜) (hA : ∀ f, IsUnit (A f).det) :
    naturalStep μ hol score (fun f => A f * X f) (fun f => W f * (A f)⁻¹)
      = fun f => naturalStep μ hol score X W f * (A f)⁻¹ := by
  simp only [naturalStep, sep_change X W A hA]
  funext f
  rw [Matrix.sub_mul, Matrix.smul_mul, Matrix.mul_assoc]

/-- C48: a change of the mixture by any invertible `A` (in every bin), undone in the initial filter, changes neither
the separated signals nor, up to `A⁻¹`, the filters, for every number of iterations. -/
theorem C48_equivariant (step_size : ℝ) (holonomic : Bool) (score : Data 𝕜 F n t → Data 𝕜 F n t)
    (X : Data 𝕜 F n t) (W A : F → Mat n 𝕜) (hA : ∀ f, IsUnit (A f).det) (n_iter : ℕ) :
    let W1 := naturalRun step_size holonomic score X n_iter W
    let W2 := naturalRun step_size holonomic score (fun f => A f * X f) n_iter (fun f => W f * (A f)⁻¹)
    sep (fun f => A f * X f) W2 = sep X W1 ∧ ∀ f, W2 f = W1 f * (A f)⁻¹ := by
  intro W1 W2
  have h : W2 = fun f => W1 f * (A f)⁻¹ := by
    simp only [W1, W2, naturalRun]
    induction n_iter with
    | zero => rfl
    | succ k ih => rw [Function.iterate_succ_apply', Function.iterate_succ_apply', ih, natural_change _ _ _ _ _ _ hA]
  exact ⟨by rw [h, sep_change X W1 A hA], fun f => by rw [h]⟩

/-- C48 for NaturalGradGaussIVA, whose variances are re-estimated from the separated signals in every update. -/
theorem C48_equivariant_gauss [Fintype F] (step_size : ℝ) (holonomic : Bool) (X : Data ℂ F n t)
    (variance : Fin n → Fin t → ℝ) (W A : F → Mat n ℂ) (hA : ∀ f, IsUnit (A f).det) (n_iter : ℕ) :
    let s1 := (naturalGaussStep step_size holonomic X)^[n_iter] (variance, W)
    let s2 := (naturalGaussStep step_size holonomic (fun f => A f * X f))^[n_iter] (variance, fun f => W f * (A f)⁻¹)
    sep (fun f => A f * X f) s2.2 = sep X s1.2 ∧ s2.1 = s1.1 ∧ ∀ f, s2.2 f = s1.2 f * (A f)⁻¹ := by
  intro s1 s2
  have h : s2 = (s1.1, fun f => s1.2 f * (A f)⁻¹) := by
    simp only [s1, s2]
    induction n_iter with
    | zero => rfl
    | succ k ih =>
      rw [Function.iterate_succ_apply', Function.iterate_succ_apply', ih]
      simp only [naturalGaussStep, sep_change X _ A hA, natural_change _ _ _ X _ _ hA]
  exact ⟨by rw [h, sep_change X s1.2 A hA], by rw [h], fun f => by rw [h]⟩

/-! ## C57: the updates descend the recorded loss -/

/-- `score` is the derivative of `contrast` at the separated signals `Y`: the change of the total contrast in every
direction `Δ` is `c * Re Σ conj(score) Δ`. `c = 1` for real signals; for complex signals `c = 2` because
`score_fn` is documented as the derivative with respect to the conjugate (`bss/fdica.py` L616, `bss/iva.py` L783). -/
def IsScoreAt [Fintype F] {ι : Type} [Fintype ι] (c : ℝ) (contrast : Data 𝕜 F n t → ι → Fin t → ℝ)
    (score : Data 𝕜 F n t → Data 𝕜 F n t) (Y : Data 𝕜 F n t) : Prop :=
  ∀ Δ : Data 𝕜 F n t, HasDerivAt (fun ε : ℝ => ∑ i, ∑ s, contrast (fun f => Y f + (ε : 𝕜) • Δ f) i s)
    (c * ∑ f, ∑ k, ∑ s, RCLike.re (star (score Y f k s) * Δ f k s)) 0

theorem hasDerivAt_logdet (W H : Mat n 𝕜) (hW : IsUnit W.det) :
    HasDerivAt (fun ε : ℝ => Real.log ‖(W + (ε : 𝕜) • H).det‖) (RCLike.re (W⁻¹ * H).trace) 0 := by
  set M := W⁻¹ * H with hM
  have hfac : ∀ ε : ℝ, (W + (ε : 𝕜) • H).det = W.det * (1 + (ε : 𝕜) • M).det := by
    intro ε
    rw [← det_mul, Matrix.mul_add, Matrix.mul_one, Matrix.mul_smul, hM, mul_nonsing_inv_cancel_left _ _ hW]
  set q := (det (1 + (Polynomial.X : Polynomial 𝕜) • M.map Polynomial.C)).divX.divX
  have hof : HasDerivAt (fun ε : ℝ => (ε : 𝕜)) 1 0 := by
    simpa using (RCLike.ofRealCLM (K := 𝕜)).hasDerivAt (x := (0 : ℝ))
  have hq : HasDerivAt (fun r : 𝕜 => W.det * (1 + M.trace * r + q.eval r * r ^ 2)) (W.det * M.trace) ((0 : ℝ) : 𝕜) := by
    have h1 := (((hasDerivAt_id ((0 : ℝ) : 𝕜)).const_mul M.trace).const_add 1).add
      ((q.hasDerivAt ((0 : ℝ) : 𝕜)).mul ((hasDerivAt_id ((0 : ℝ) : 𝕜)).pow 2))
    exact (h1.const_mul W.det).congr_deriv (by simp)
  have hD : HasDerivAt (fun ε : ℝ => (W + (ε : 𝕜) • H).det) (W.det * M.trace) 0 := by
    have := hq.scomp (0 : ℝ) hof
    rw [one_smul] at this
    refine this.congr_of_eventuallyEq (Filter.Eventually.of_forall fun ε => ?_)
    simp only [Function.comp]
    rw [hfac, det_one_add_smul]
  have hre := (RCLike.reCLM (K := 𝕜)).hasFDerivAt.comp_hasDerivAt (0 : ℝ) hD
  have him := (RCLike.imCLM (K := 𝕜)).hasFDerivAt.comp_hasDerivAt (0 : ℝ) hD
  have hN := (hre.mul hre).add (him.mul him)
  have hW0 : W.det ≠ 0 := hW.ne_zero
  have hns : RCLike.re W.det * RCLike.re W.det + RCLike.im W.det * RCLike.im W.det ≠ 0 := by
    rw [← RCLike.normSq_apply]
    simpa using hW0
  have hlog := (hN.log (by simpa using hns)).const_mul (1 / 2)
  refine (hlog.congr_of_eventuallyEq (Filter.Eventually.of_forall fun ε => ?_)).congr_deriv ?_
  · have : ‖(W + (ε : 𝕜) • H).det‖ ^ 2 = RCLike.re (W + (ε : 𝕜) • H).det * RCLike.re (W + (ε : 𝕜) • H).det
        + RCLike.im (W + (ε : 𝕜) • H).det * RCLike.im (W + (ε : 𝕜) • H).det := by
      rw [← RCLike.normSq_apply, RCLike.normSq_eq_def']
    simp only [Pi.add_apply, Pi.mul_apply, Function.comp, RCLike.reCLM_apply, RCLike.imCLM_apply]
    rw [← this, Real.log_pow, Nat.cast_ofNat]
    ring
  · simp only [Function.comp, RCLike.reCLM_apply, RCLike.imCLM_apply, Pi.add_apply, Pi.mul_apply,
      RCLike.ofReal_zero, zero_smul, add_zero, RCLike.mul_re, RCLike.mul_im]
    rw [← mul_div_assoc, div_eq_iff hns]
    ring

private theorem sep_line (X : Data 𝕜 F n t) (W H : F → Mat n 𝕜) (ε : ℝ) :
    sep X (fun f => W f + (ε : 𝕜) • H f) = fun f => sep X W f + (ε : 𝕜) • (H f * X f) := by
  funext f
  rw [sep, sep, Matrix.add_mul, Matrix.smul_mul]

/-- The derivative of the recorded loss along a direction `H`. -/
theorem hasDerivAt_loss [Fintype F] {ι : Type} [Fintype ι] (c : ℝ) (contrast : Data 𝕜 F n t → ι → Fin t → ℝ)
    (score : Data 𝕜 F n t → Data 𝕜 F n t) (X : Data 𝕜 F n t) (W H : F → Mat n 𝕜) (hW : ∀ f, IsUnit (W f).det)
    (hs : IsScoreAt c contrast score (sep X W)) :
    HasDerivAt (fun ε : ℝ => loss c contrast X fun f => W f + (ε : 𝕜) • H f)
      (c * ∑ f, RCLike.re (H f * (W f)⁻¹ * (phiY score (sep X W) f - 1)ᴴ).trace) 0 := by
  have h1 := (hs fun f => H f * X f).div_const (t : ℝ)
  have h2 : HasDerivAt (fun ε : ℝ => ∑ f, Real.log ‖(W f + (ε : 𝕜) • H f).det‖)
      (∑ f, RCLike.re ((W f)⁻¹ * H f).trace) 0 := by
    have := HasDerivAt.fun_sum (u := Finset.univ) fun f _ => hasDerivAt_logdet (W f) (H f) (hW f)
    exact this
  refine ((h1.sub (h2.const_mul c)).congr_of_eventuallyEq (Filter.Eventually.of_forall fun ε => ?_)).congr_deriv ?_
  · simp only [loss, Pi.sub_apply, sep_line, meanT, Finset.sum_div]
  · rw [mul_div_assoc, ← mul_sub, Finset.sum_div, ← Finset.sum_sub_distrib]
    congr 1
    refine Finset.sum_congr rfl fun f _ => ?_
    have hX : X f = (W f)⁻¹ * sep X W f := by rw [sep, nonsing_inv_mul_cancel_left _ _ (hW f)]
    have key : (H f * (W f)⁻¹ * (phiY score (sep X W) f)ᴴ).trace
        = (∑ k, ∑ s, star (score (sep X W) f k s) * (H f * X f) k s) / (t : 𝕜) := by
      have e : (phiY score (sep X W) f)ᴴ = (t : 𝕜)⁻¹ • (sep X W f * (score (sep X W) f)ᴴ) := by
        ext i j
        simp only [conjTranspose_apply, phiY, meanT, of_apply, Matrix.smul_apply, mul_apply, smul_eq_mul, star_div₀,
          star_sum, star_mul', star_star, star_natCast]
        rw [div_eq_inv_mul]
        congr 1
        exact Finset.sum_congr rfl fun s _ => mul_comm _ _
      rw [e, Matrix.mul_smul, trace_smul, ← Matrix.mul_assoc, Matrix.mul_assoc (H f), ← hX, smul_eq_mul, div_eq_inv_mul]
      congr 1
      simp only [trace, diag_apply, mul_apply (M := H f * X f), conjTranspose_apply]
      exact Finset.sum_congr rfl fun k _ => Finset.sum_congr rfl fun s _ => mul_comm _ _
    rw [conjTranspose_sub, conjTranspose_one, Matrix.mul_sub, Matrix.mul_one, trace_sub, map_sub, key, trace_mul_comm (H f)]
    congr 1
    rw [show ((t : 𝕜)) = ((t : ℝ) : 𝕜) from (RCLike.ofReal_natCast t).symm, RCLike.div_re_ofReal, map_sum]
    simp only [map_sum]

/-- The squared Frobenius norm. -/
noncomputable def frob (D : Mat n 𝕜) : ℝ := ∑ i, ∑ j, ‖D i j‖ ^ 2

theorem re_trace_self (D : Mat n 𝕜) : RCLike.re (D * Dᴴ).trace = frob D := by
  simp only [trace, diag_apply, mul_apply, conjTranspose_apply, map_sum, frob]
  refine Finset.sum_congr rfl fun i _ => Finset.sum_congr rfl fun j _ => ?_
  rw [RCLike.star_def, RCLike.mul_conj, ← RCLike.ofReal_pow, RCLike.ofReal_re]

theorem frob_eq_zero {D : Mat n 𝕜} (h : frob D = 0) : D = 0 := by
  ext i j
  have h1 := (Finset.sum_eq_zero_iff_of_nonneg fun _ _ => Finset.sum_nonneg fun _ _ => sq_nonneg _).mp h i
    (Finset.mem_univ _)
  have h2 := (Finset.sum_eq_zero_iff_of_nonneg fun _ _ => sq_nonneg _).mp h1 j (Finset.mem_univ _)
  simpa using h2

theorem frob_nonneg (D : Mat n 𝕜) : 0 ≤ frob D :=
  Finset.sum_nonneg fun _ _ => Finset.sum_nonneg fun _ _ => sq_nonneg _

private theorem re_trace_factor (hol : Bool) (P : Mat n 𝕜) :
    RCLike.re (factor hol P * (P - 1)ᴴ).trace = frob (factor hol P) := by
  cases hol with
  | true => simp only [factor, if_true]; exact re_trace_self _
  | false =>
    rw [← re_trace_self]
    congr 1
    simp only [trace, diag_apply, mul_apply, conjTranspose_apply, factor, Bool.false_eq_true, if_false, of_apply,
      Matrix.sub_apply]
    refine Finset.sum_congr rfl fun i _ => Finset.sum_congr rfl fun j _ => ?_
    by_cases hij : i = j
    · subst hij; simp
    · simp [Matrix.one_apply_ne hij]

/-- A negative derivative means a decrease for all small steps. -/
private theorem decrease_of_deriv {φ : ℝ → ℝ} {d : ℝ} (h : HasDerivAt φ d 0) (hd : d < 0) :
    ∃ μ₀ > 0, ∀ μ, 0 < μ → μ < μ₀ → φ μ < φ 0 := by
  have := (hasDerivAt_iff_tendsto_slope.mp h).eventually (gt_mem_nhds hd)
  rw [eventually_nhdsWithin_iff, Metric.eventually_nhds_iff] at this
  obtain ⟨μ₀, h0, h1⟩ := this
  refine ⟨μ₀, h0, fun μ hμ hlt => ?_⟩
  have h2 := h1 (y := μ) (by simpa [abs_of_pos hμ] using hlt) (by simpa using hμ.ne')
  rw [slope_def_field, sub_zero] at h2
  have := (div_lt_iff₀ hμ).mp h2
  linarith

/-- C57 for the natural gradient, holonomic or not: at every invertible filter that the update does not leave
unchanged, every small enough positive step size strictly decreases the recorded loss. -/
theorem C57_natural_descent [Fintype F] {ι : Type} [Fintype ι] (c : ℝ) (hc : 0 < c) (holonomic : Bool)
    (contrast : Data 𝕜 F n t → ι → Fin t → ℝ) (score : Data 𝕜 F n t → Data 𝕜 F n t) (X : Data 𝕜 F n t)
    (W : F → Mat n 𝕜) (hW : ∀ f, IsUnit (W f).det) (hs : IsScoreAt c contrast score (sep X W))
    (hmove : naturalStep 1 holonomic score X W ≠ W) :
    ∃ μ₀ > 0, ∀ step_size, 0 < step_size → step_size < μ₀ →
      loss c contrast X (naturalStep step_size holonomic score X W) < loss c contrast X W := by
  set D := fun f => factor holonomic (phiY score (sep X W) f)
  have hd := hasDerivAt_loss c contrast score X W (fun f => -(D f * W f)) hW hs
  have hval : ∀ f, RCLike.re (-(D f * W f) * (W f)⁻¹ * (phiY score (sep X W) f - 1)ᴴ).trace = - frob (D f) := by
    intro f
    rw [Matrix.neg_mul, mul_nonsing_inv_cancel_right _ _ (hW f), Matrix.neg_mul, trace_neg, map_neg, re_trace_factor]
  simp only [hval, Finset.sum_neg_distrib] at hd
  have hneg : c * -∑ f, frob (D f) < 0 := by
    obtain ⟨f, hf⟩ := Function.ne_iff.mp hmove
    have hDf : D f ≠ 0 := fun h => hf (by simp only [naturalStep]; rw [show factor holonomic (phiY score (sep X W) f) = 0 from h]; simp)
    have : 0 < ∑ f, frob (D f) := Finset.sum_pos' (fun f _ => frob_nonneg _)
      ⟨f, Finset.mem_univ _, lt_of_le_of_ne (frob_nonneg _) fun h => hDf (frob_eq_zero h.symm)⟩
    nlinarith
  obtain ⟨μ₀, h0, h1⟩ := decrease_of_deriv hd hneg
  refine ⟨μ₀, h0, fun μ hμ hlt => ?_⟩
  have := h1 μ hμ hlt
  simp only [RCLike.ofReal_zero, zero_smul, smul_neg, ← sub_eq_add_neg, sub_zero] at this
  exact this

theorem gradStep_ok (μ : ℝ) (hol : Bool) (score : Data 𝕜 F n t → Data 𝕜 F n t) (X : Data 𝕜 F n t)
    (W : F → Mat n 𝕜) (hW : ∀ f, IsUnit (W f).det) :
    gradStep μ hol score X W
      = .ok fun f => W f - (μ : 𝕜) • (factor hol (phiY score (sep X W) f) * ((W f)⁻¹)ᴴ) := by
  rw [gradStep, onBins_ok (y := fun f => (W f)⁻¹) fun f => by rw [npInv, if_pos (hW f)]]
  rfl

/-- C57 for the plain gradient with `is_holonomic=True`: the update succeeds at every invertible filter, and unless it
leaves the filter unchanged every small enough positive step size strictly decreases the recorded loss. -/
theorem C57_gradient_descent [Fintype F] {ι : Type} [Fintype ι] (c : ℝ) (hc : 0 < c)
    (contrast : Data 𝕜 F n t → ι → Fin t → ℝ) (score : Data 𝕜 F n t → Data 𝕜 F n t) (X : Data 𝕜 F n t)
    (W : F → Mat n 𝕜) (hW : ∀ f, IsUnit (W f).det) (hs : IsScoreAt c contrast score (sep X W))
    (hmove : gradStep 1 true score X W ≠ .ok W) :
    ∃ μ₀ > 0, ∀ step_size, 0 < step_size → step_size < μ₀ →
      ∃ W', gradStep step_size true score X W = .ok W' ∧ loss c contrast X W' < loss c contrast X W := by
  set D := fun f => factor true (phiY score (sep X W) f) * ((W f)⁻¹)ᴴ
  have hd := hasDerivAt_loss c contrast score X W (fun f => -(D f)) hW hs
  have hval : ∀ f, RCLike.re (-(D f) * (W f)⁻¹ * (phiY score (sep X W) f - 1)ᴴ).trace = - frob (D f) := by
    intro f
    rw [← re_trace_self, Matrix.neg_mul, Matrix.neg_mul, trace_neg, map_neg, Matrix.mul_assoc (D f)]
    congr 4
    simp [D, factor, conjTranspose_mul]
  simp only [hval, Finset.sum_neg_distrib] at hd
  have hneg : c * -∑ f, frob (D f) < 0 := by
    rw [gradStep_ok 1 true score X W hW] at hmove
    obtain ⟨f, hf⟩ := Function.ne_iff.mp fun h => hmove (congrArg _ h)
    have hDf : D f ≠ 0 := fun h => hf (by
      rw [show factor true (phiY score (sep X W) f) * ((W f)⁻¹)ᴴ = 0 from h]; simp)
    have : 0 < ∑ f, frob (D f) := Finset.sum_pos' (fun f _ => frob_nonneg _)
      ⟨f, Finset.mem_univ _, lt_of_le_of_ne (frob_nonneg _) fun h => hDf (frob_eq_zero h.symm)⟩
    nlinarith
  obtain ⟨μ₀, h0, h1⟩ := decrease_of_deriv hd hneg
  refine ⟨μ₀, h0, fun μ hμ hlt => ⟨_, gradStep_ok μ true score X W hW, ?_⟩⟩
  have := h1 μ hμ hlt
  simp only [RCLike.ofReal_zero, zero_smul, smul_neg, ← sub_eq_add_neg, sub_zero] at this
  exact this

/-- The recorded loss is stationary exactly where `PhiY` is the identity matrix in every bin. -/
theorem stationary_iff [Fintype F] {ι : Type} [Fintype ι] (c : ℝ) (hc : 0 < c)
    (contrast : Data 𝕜 F n t → ι → Fin t → ℝ) (score : Data 𝕜 F n t → Data 𝕜 F n t) (X : Data 𝕜 F n t)
    (W : F → Mat n 𝕜) (hW : ∀ f, IsUnit (W f).det) (hs : IsScoreAt c contrast score (sep X W)) :
    (∀ H : F → Mat n 𝕜, HasDerivAt (fun ε : ℝ => loss c contrast X fun f => W f + (ε : 𝕜) • H f) 0 0) ↔
      ∀ f, phiY score (sep X W) f - 1 = 0 := by
  constructor
  · intro h f
    have hd := hasDerivAt_loss c contrast score X W (fun f => (phiY score (sep X W) f - 1) * W f) hW hs
    have h0 := hd.unique (h _)
    have : ∀ f, RCLike.re ((phiY score (sep X W) f - 1) * W f * (W f)⁻¹ * (phiY score (sep X W) f - 1)ᴴ).trace
        = frob (phiY score (sep X W) f - 1) := fun f => by
      rw [mul_nonsing_inv_cancel_right _ _ (hW f), re_trace_self]
    simp only [this, mul_eq_zero, hc.ne', false_or] at h0
    exact frob_eq_zero ((Finset.sum_eq_zero_iff_of_nonneg fun f _ => frob_nonneg _).mp h0 f (Finset.mem_univ _))
  · intro h H
    exact (hasDerivAt_loss c contrast score X W H hW hs).congr_deriv (by simp [h])

/-- C57, fixed points: with `is_holonomic=True` and a non-zero step size, the natural-gradient update leaves an
invertible filter unchanged exactly when the plain gradient update does, exactly when the recorded loss is stationary
there: its derivative vanishes in every direction. -/
theorem C57_fixed_iff_stationary [Fintype F] {ι : Type} [Fintype ι] (c : ℝ) (hc : 0 < c)
    (contrast : Data 𝕜 F n t → ι → Fin t → ℝ) (score : Data 𝕜 F n t → Data 𝕜 F n t) (X : Data 𝕜 F n t)
    (W : F → Mat n 𝕜) (hW : ∀ f, IsUnit (W f).det) (hs : IsScoreAt c contrast score (sep X W))
    (step_size : ℝ) (hμ : step_size ≠ 0) :
    (naturalStep step_size true score X W = W ↔
      ∀ H : F → Mat n 𝕜, HasDerivAt (fun ε : ℝ => loss c contrast X fun f => W f + (ε : 𝕜) • H f) 0 0) ∧
    (gradStep step_size true score X W = .ok W ↔
      ∀ H : F → Mat n 𝕜, HasDerivAt (fun ε : ℝ => loss c contrast X fun f => W f + (ε : 𝕜) • H f) 0 0) := by
  have hμ' : (step_size : 𝕜) ≠ 0 := by exact_mod_cast hμ
  have stat := stationary_iff c hc contrast score X W hW hs
  rw [stat, gradStep_ok step_size true score X W hW]
  have hsub : ∀ (A B : Mat n 𝕜), A - (step_size : 𝕜) • B = A ↔ B = 0 := fun A B => by
    rw [sub_eq_self, smul_eq_zero_iff_right hμ']
  constructor
  · constructor
    · intro h f
      have := (hsub _ _).mp (congrFun h f)
      have h2 := congrArg (· * (W f)⁻¹) this
      simpa [factor, mul_nonsing_inv_cancel_right _ _ (hW f)] using h2
    · intro h
      funext f
      refine (hsub _ _).mpr ?_
      simp [factor, h f]
  · constructor
    · intro h f
      have := (hsub _ _).mp (congrFun (Except.ok.inj h) f)
      have h2 := congrArg (· * (W f)ᴴ) this
      simp only [Matrix.mul_assoc, ← conjTranspose_mul, mul_nonsing_inv _ (hW f), conjTranspose_one, Matrix.mul_one,
        Matrix.zero_mul, factor, if_true] at h2
      exact h2
    · intro h
      congr 1
      funext f
      refine (hsub _ _).mpr ?_
      simp [factor, h f]

/-! ### The built-in source models -/

theorem hasDerivAt_normSq (y d : ℂ) : HasDerivAt (fun ε : ℝ => ‖y + (ε : ℂ) * d‖ ^ 2) (2 * (star y * d).re) 0 := by
  have e : (fun ε : ℝ => ‖y + (ε : ℂ) * d‖ ^ 2) = fun ε : ℝ => ‖y‖ ^ 2 + (2 * (star y * d).re) * ε + ‖d‖ ^ 2 * ε ^ 2 := by
    funext ε
    simp only [← Complex.normSq_eq_norm_sq, Complex.normSq_apply, Complex.add_re, Complex.add_im, Complex.mul_re,
      Complex.mul_im, Complex.ofReal_re, Complex.ofReal_im, Complex.star_def, Complex.conj_re, Complex.conj_im]
    ring
  rw [e]
  have h := (((hasDerivAt_id (0 : ℝ)).const_mul (2 * (star y * d).re)).const_add (‖y‖ ^ 2)).add
    (((hasDerivAt_id (0 : ℝ)).pow 2).const_mul (‖d‖ ^ 2))
  exact h.congr_deriv (by simp)

theorem hasDerivAt_norm (y d : ℂ) (hy : y ≠ 0) :
    HasDerivAt (fun ε : ℝ => ‖y + (ε : ℂ) * d‖) ((star y * d).re / ‖y‖) 0 := by
  have h := (hasDerivAt_normSq y d).sqrt (by simpa using hy)
  refine (h.congr_of_eventuallyEq (Filter.Eventually.of_forall fun ε => ?_)).congr_deriv ?_
  · simp [Real.sqrt_sq]
  · simp only [Complex.ofReal_zero, zero_mul, add_zero, Real.sqrt_sq (norm_nonneg y)]
    exact mul_div_mul_left _ _ two_ne_zero

/-- The score of GradLaplaceICA / NaturalGradLaplaceICA is the derivative of its contrast wherever no separated
sample is zero. -/
theorem C57_laplace_ica (Y : Data ℝ Unit n t) (hY : ∀ k s, Y () k s ≠ 0) :
    IsScoreAt 1 icaLaplaceContrast icaLaplaceScore Y := by
  intro Δ
  have h : ∀ k s, HasDerivAt (fun ε : ℝ => |Y () k s + ε * Δ () k s|) (Real.sign (Y () k s) * Δ () k s) 0 := by
    intro k s
    have h1 : HasDerivAt (fun ε : ℝ => Y () k s + ε * Δ () k s) (Δ () k s) 0 := by
      have := ((hasDerivAt_id (0 : ℝ)).mul_const (Δ () k s)).const_add (Y () k s)
      exact this.congr_deriv (by simp)
    rcases lt_or_gt_of_ne (hY k s) with h0 | h0
    · have := (hasDerivAt_abs_neg (x := Y () k s + 0 * Δ () k s) (by simpa using h0)).comp (0 : ℝ) h1
      exact this.congr_deriv (by rw [Real.sign_of_neg h0])
    · have := (hasDerivAt_abs_pos (x := Y () k s + 0 * Δ () k s) (by simpa using h0)).comp (0 : ℝ) h1
      exact this.congr_deriv (by rw [Real.sign_of_pos h0])
  have := HasDerivAt.fun_sum (u := Finset.univ) fun (k : Fin n) _ =>
    HasDerivAt.fun_sum (u := Finset.univ) fun (s : Fin t) _ => h k s
  refine (this.congr_of_eventuallyEq (Filter.Eventually.of_forall fun ε => ?_)).congr_deriv ?_
  · simp [icaLaplaceContrast]
  · simp [icaLaplaceScore]

theorem re_score (y d : ℂ) (r : ℝ) : RCLike.re (star (y / (r : ℂ)) * d) = (star y * d).re / r := by
  have : star (y / (r : ℂ)) * d = (star y * d) / (r : ℂ) := by
    rw [star_div₀, show star ((r : ℝ) : ℂ) = (r : ℂ) from Complex.conj_ofReal r, div_mul_eq_mul_div]
  rw [this]
  exact Complex.div_ofReal_re _ _

/-- The same for GradLaplaceFDICA / NaturalGradLaplaceFDICA, where the flooring leaves the magnitudes alone. -/
theorem C57_laplace_fdica [Fintype F] (floor : ℝ → ℝ) (Y : Data ℂ F n t) (hY : ∀ f k s, Y f k s ≠ 0)
    (hfl : ∀ f k s, floor ‖Y f k s‖ = ‖Y f k s‖) :
    IsScoreAt 2 fdicaLaplaceContrast (fdicaLaplaceScore floor) Y := by
  intro Δ
  have := HasDerivAt.fun_sum (u := Finset.univ) fun (i : F × Fin n) _ =>
    HasDerivAt.fun_sum (u := Finset.univ) fun (s : Fin t) _ =>
      (hasDerivAt_norm (Y i.1 i.2 s) (Δ i.1 i.2 s) (hY i.1 i.2 s)).const_mul 2
  refine (this.congr_of_eventuallyEq (Filter.Eventually.of_forall fun ε => ?_)).congr_deriv ?_
  · simp [fdicaLaplaceContrast]
  · simp only [← Finset.mul_sum, Fintype.sum_prod_type, fdicaLaplaceScore, of_apply, hfl]
    congr 1
    refine Finset.sum_congr rfl fun f _ => Finset.sum_congr rfl fun k _ => Finset.sum_congr rfl fun s _ => ?_
    exact (re_score _ _ _).symm

theorem hasDerivAt_binNormSq [Fintype F] (Y Δ : Data ℂ F n t) (k : Fin n) (s : Fin t) :
    HasDerivAt (fun ε : ℝ => ∑ f, ‖Y f k s + (ε : ℂ) * Δ f k s‖ ^ 2) (2 * ∑ f, (star (Y f k s) * Δ f k s).re) 0 := by
  rw [Finset.mul_sum]
  exact HasDerivAt.fun_sum fun f _ => hasDerivAt_normSq _ _

/-- The same for GradLaplaceIVA / NaturalGradLaplaceIVA: no source is silent over all bins of a frame. -/
theorem C57_laplace_iva [Fintype F] (floor : ℝ → ℝ) (Y : Data ℂ F n t) (hY : ∀ k s, ∃ f, Y f k s ≠ 0)
    (hfl : ∀ k s, floor (Iva.binNorm Y k s) = Iva.binNorm Y k s) :
    IsScoreAt 2 ivaLaplaceContrast (ivaLaplaceScore floor) Y := by
  intro Δ
  have hpos : ∀ k s, 0 < ∑ f, ‖Y f k s‖ ^ 2 := fun k s => by
    obtain ⟨f, hf⟩ := hY k s
    exact Finset.sum_pos' (fun f _ => sq_nonneg _) ⟨f, Finset.mem_univ _, by positivity⟩
  have h : ∀ k s, HasDerivAt (fun ε : ℝ => 2 * Real.sqrt (∑ f, ‖Y f k s + (ε : ℂ) * Δ f k s‖ ^ 2))
      (2 * ∑ f, (star (Y f k s) * Δ f k s).re / Iva.binNorm Y k s) 0 := by
    intro k s
    have := ((hasDerivAt_binNormSq Y Δ k s).sqrt (by simpa using (hpos k s).ne')).const_mul 2
    refine this.congr_deriv ?_
    simp only [Complex.ofReal_zero, zero_mul, add_zero]
    rw [mul_div_mul_left _ _ two_ne_zero, ← Finset.sum_div, Iva.binNorm]
  have := HasDerivAt.fun_sum (u := Finset.univ) fun (k : Fin n) _ =>
    HasDerivAt.fun_sum (u := Finset.univ) fun (s : Fin t) _ => h k s
  refine (this.congr_of_eventuallyEq (Filter.Eventually.of_forall fun ε => ?_)).congr_deriv ?_
  · simp [ivaLaplaceContrast, Iva.binNorm]
  · simp only [← Finset.mul_sum, ivaLaplaceScore, of_apply, hfl]
    congr 1
    simp only [re_score]
    calc _ = ∑ k, ∑ f, ∑ s, (star (Y f k s) * Δ f k s).re / Iva.binNorm Y k s :=
          Finset.sum_congr rfl fun k _ => Finset.sum_comm
      _ = _ := Finset.sum_comm

/-- The same for GradGaussIVA / NaturalGradGaussIVA for the variances in use. -/
theorem C57_gauss_iva [Fintype F] (variance : Fin n → Fin t → ℝ) (Y : Data ℂ F n t) :
    IsScoreAt 2 (ivaGaussContrast variance) (ivaGaussScore variance) Y := by
  intro Δ
  have := HasDerivAt.fun_sum (u := Finset.univ) fun (k : Fin n) _ =>
    HasDerivAt.fun_sum (u := Finset.univ) fun (s : Fin t) _ =>
      ((hasDerivAt_binNormSq Y Δ k s).div_const (variance k s)).const_add (Fintype.card F * Real.log (variance k s))
  refine (this.congr_of_eventuallyEq (Filter.Eventually.of_forall fun ε => ?_)).congr_deriv ?_
  · have hb : ∀ (Z : Data ℂ F n t) k s, Iva.binNorm Z k s ^ 2 = ∑ f, ‖Z f k s‖ ^ 2 := fun Z k s =>
      Real.sq_sqrt (Finset.sum_nonneg fun f _ => sq_nonneg _)
    simp [ivaGaussContrast, hb]
  · simp only [ivaGaussScore, of_apply, re_score, Finset.mul_sum, Finset.sum_div, mul_div_assoc]
    calc _ = ∑ k, ∑ f, ∑ s, 2 * ((star (Y f k s) * Δ f k s).re / variance k s) :=
          Finset.sum_congr rfl fun k _ => Finset.sum_comm
      _ = _ := Finset.sum_comm

/-- Real data on which the NaturalGradLaplaceICA update moves the filter, so that `C57_natural_descent` applies. -/
example : ∃ μ₀ > 0, ∀ μ, 0 < μ → μ < μ₀ →
    loss 1 icaLaplaceContrast (fun _ : Unit => (!![1, 2; 3, 5] : Matrix (Fin 2) (Fin 2) ℝ))
      (naturalStep μ false icaLaplaceScore (fun _ => !![1, 2; 3, 5]) fun _ => 1)
      < loss 1 icaLaplaceContrast (fun _ : Unit => (!![1, 2; 3, 5] : Matrix (Fin 2) (Fin 2) ℝ)) fun _ => 1 := by
  refine C57_natural_descent 1 one_pos false _ _ _ _ (fun _ => by simp) (C57_laplace_ica _ ?_) ?_
  · intro k s
    fin_cases k <;> fin_cases s <;> simp [sep]
  · intro h
    have := congrFun (congrFun (congrFun h ()) 0) 1
    simp [naturalStep, factor, phiY, icaLaplaceScore, sep, meanT, Fin.sum_univ_two,
      Real.sign_of_pos (show (0 : ℝ) < 2 by norm_num)] at this
    norm_num at this

/-- The plain gradient at the same point. -/
example : ∃ μ₀ > 0, ∀ μ, 0 < μ → μ < μ₀ → ∃ W',
    gradStep μ true icaLaplaceScore (fun _ => !![1, 2; 3, 5]) (fun _ => 1) = .ok W' ∧
    loss 1 icaLaplaceContrast (fun _ : Unit => (!![1, 2; 3, 5] : Matrix (Fin 2) (Fin 2) ℝ)) W'
      < loss 1 icaLaplaceContrast (fun _ : Unit => (!![1, 2; 3, 5] : Matrix (Fin 2) (Fin 2) ℝ)) fun _ => 1 := by
  refine C57_gradient_descent 1 one_pos _ _ _ _ (fun _ => by simp) (C57_laplace_ica _ ?_) ?_
  · intro k s
    fin_cases k <;> fin_cases s <;> simp [sep]
  · intro h
    rw [gradStep_ok _ _ _ _ _ (fun _ => by simp)] at h
    have := congrFun (congrFun (congrFun (Except.ok.inj h) ()) 0) 1
    simp [factor, phiY, icaLaplaceScore, sep, meanT, Fin.sum_univ_two,
      Real.sign_of_pos (show (0 : ℝ) < 2 by norm_num)] at this
    norm_num at this

private theorem increase_of_deriv {φ : ℝ → ℝ} {d : ℝ} (h : HasDerivAt φ d 0) (hd : 0 < d) :
    ∃ μ₀ > 0, ∀ μ, 0 < μ → μ < μ₀ → φ 0 < φ μ := by
  obtain ⟨μ₀, h0, h1⟩ := decrease_of_deriv h.neg (neg_neg_of_pos hd)
  exact ⟨μ₀, h0, fun μ a b => by have := h1 μ a b; simp only [Pi.neg_apply] at this; linarith⟩

/-- `is_holonomic=True` cannot be dropped from `C57_gradient_descent`: there are a mixture and an invertible filter at
which every small enough step of GradLaplaceICA with `is_holonomic=False` (its default) increases the recorded loss. -/
theorem C57_gradient_nonholonomic_ascent :
    ∃ (X : Data ℝ Unit 2 2) (W : Unit → Mat 2 ℝ), (∀ f, IsUnit (W f).det) ∧
      ∃ μ₀ > 0, ∀ step_size, 0 < step_size → step_size < μ₀ → ∃ W',
        gradStep step_size false icaLaplaceScore X W = .ok W' ∧
        loss 1 icaLaplaceContrast X W < loss 1 icaLaplaceContrast X W' := by
  set W : Unit → Mat 2 ℝ := fun _ => !![1, 1; 0, 1] with hWdef
  set X : Data ℝ Unit 2 2 := fun _ => !![17 / 2, 21 / 2; 3 / 2, -1 / 2] with hXdef
  have hW : ∀ f, IsUnit (W f).det := fun f => by simp [W, det_fin_two]
  have hinv : ((W ())⁻¹) = !![1, -1; 0, 1] := by
    refine inv_eq_right_inv ?_
    ext i j
    fin_cases i <;> fin_cases j <;> simp [W, mul_apply, Fin.sum_univ_two]
  have hY : sep X W () = !![10, 10; 3 / 2, -1 / 2] := by
    ext i j
    fin_cases i <;> fin_cases j <;> simp [sep, X, W, mul_apply, Fin.sum_univ_two] <;> norm_num
  have hP : phiY icaLaplaceScore (sep X W) () = !![10, 1 / 2; 0, 1] := by
    have s1 : Real.sign 10 = 1 := Real.sign_of_pos (by norm_num)
    have s2 : Real.sign (3 / 2) = 1 := Real.sign_of_pos (by norm_num)
    have s3 : Real.sign (-1 / 2) = -1 := Real.sign_of_neg (by norm_num)
    ext i j
    fin_cases i <;> fin_cases j <;>
      simp [phiY, icaLaplaceScore, hY, meanT, Fin.sum_univ_two, s1, s2, s3] <;> norm_num
  have hs : IsScoreAt 1 icaLaplaceContrast icaLaplaceScore (sep X W) := by
    refine C57_laplace_ica _ fun k s => ?_
    rw [hY]
    fin_cases k <;> fin_cases s <;> simp
  set D : Unit → Mat 2 ℝ := fun f => factor false (phiY icaLaplaceScore (sep X W) f) * ((W f)⁻¹)ᴴ with hD
  have hd := hasDerivAt_loss 1 icaLaplaceContrast icaLaplaceScore X W (fun f => -(D f)) hW hs
  have hpos : 0 < 1 * ∑ f, RCLike.re (-(D f) * (W f)⁻¹ * (phiY icaLaplaceScore (sep X W) f - 1)ᴴ).trace := by
    simp [hD, hP, hinv, factor, trace, mul_apply, Fin.sum_univ_two, Matrix.one_apply]
    norm_num
  obtain ⟨μ₀, h0, h1⟩ := increase_of_deriv hd hpos
  refine ⟨X, W, hW, μ₀, h0, fun μ hμ hlt => ⟨_, gradStep_ok μ false icaLaplaceScore X W hW, ?_⟩⟩
  have := h1 μ hμ hlt
  simp only [RCLike.ofReal_zero, zero_smul, smul_neg, ← sub_eq_add_neg, sub_zero] at this
  exact this

end Verif.Grad
