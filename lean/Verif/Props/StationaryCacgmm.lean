import Verif.Props.Cacgmm
import Mathlib.Analysis.SpecialFunctions.Log.Deriv
import Mathlib.Analysis.SpecialFunctions.ExpDeriv

/-!
# CACGMM makes the loss strictly smaller unless it has reached a stationary point (C65)

One iteration of the EM algorithm.  The loss becomes strictly smaller exactly if some derivative of the loss with
respect to the mixing weights (along the simplex) or the covariances (along Hermitian directions) does not vanish.
-/

set_option linter.unusedSectionVars false

namespace Verif.Cacgmm

open Matrix Spatial Scale Special Mnmf
open scoped ComplexOrder

variable {F : Type} [Fintype F] {n m t : ℕ}

/-- The number `compute_loss` returns without flooring. -/
noncomputable def lossVal (Z : F → Fin t → Fin m → ℂ) (s : CSt F n m) : ℝ :=
  match loss id Z s with
  | .ok l => l
  | .error _ => 0

/-- The derivative of the loss vanishes in every direction of the mixing weights that keeps their sums, and in every
Hermitian direction of the covariances. -/
def CStationary (Z : F → Fin t → Fin m → ℂ) (s : CSt F n m) : Prop :=
  (∀ A : Fin (n + 1) → F → ℝ, (∀ f, ∑ k, A k f = 0) →
    HasDerivAt (fun ε : ℝ => lossVal Z ⟨fun k f => s.α k f + ε * A k f, s.B⟩) 0 0) ∧
  ∀ H : Fin (n + 1) → F → Mat m ℂ, (∀ k f, (H k f).IsHermitian) →
    HasDerivAt (fun ε : ℝ => lossVal Z ⟨s.α, fun k f => s.B k f + (ε : ℂ) • H k f⟩) 0 0

theorem lossVal_eq {Z : F → Fin t → Fin m → ℂ} {s : CSt F n m} (hB : ∀ k f, IsUnit (s.B k f).det)
    (hq : ∀ k f j, 0 ≤ q Z s k f j) : lossVal Z s = val Z s := by
  have h1 : invB s.B = .ok fun k f => (s.B k f)⁻¹ := onBins_ok fun k => onBins_ok fun f => by rw [npInv, if_pos (hB k f)]
  have h2 : quadForm id Z (fun k f => (s.B k f)⁻¹) = q Z s := by
    funext k f j
    exact max_eq_left (hq k f j)
  have h3 : loss id Z s = .ok (val Z s) := by
    rw [loss, h1]
    simp only [bind, Except.bind, C12_logsumexp_eq, h2]
    rfl
  rw [lossVal, h3]

/-- The derivative of the log-sum-exp. -/
theorem hasDerivAt_lse {J : Type} [Fintype J] [Nonempty J] {x : J → ℝ → ℝ} {d : J → ℝ}
    (h : ∀ k, HasDerivAt (x k) (d k) 0) :
    HasDerivAt (fun ε => Real.log (∑ k, Real.exp (x k ε)))
      (∑ k, Real.exp (x k 0) / (∑ i, Real.exp (x i 0)) * d k) 0 := by
  have hpos : 0 < ∑ i, Real.exp (x i 0) := Finset.sum_pos (fun i _ => Real.exp_pos _) Finset.univ_nonempty
  have h1 := HasDerivAt.fun_sum (u := Finset.univ) fun k _ => (h k).exp
  refine (h1.log hpos.ne').congr_deriv ?_
  rw [Finset.sum_div]
  exact Finset.sum_congr rfl fun k _ => by ring

theorem hasDerivAt_val (floor : ℝ → ℝ) (Z : F → Fin t → Fin m → ℂ) {s : CSt F n m} (hs : CInv floor Z s)
    (c : ℝ → CSt F n m) (hc : c 0 = s) (d : F → Fin t → Fin (n + 1) → ℝ)
    (h : ∀ f j k, HasDerivAt (fun ε => logGamma (c ε) (q Z (c ε)) f j k) (d f j k) 0) :
    HasDerivAt (fun ε => val Z (c ε)) (-∑ f, meanT fun j => ∑ k, post floor Z s k f j * d f j k) 0 := by
  have h1 : ∀ f j, HasDerivAt (fun ε => -Real.log (∑ k, Real.exp (logGamma (c ε) (q Z (c ε)) f j k)))
      (-∑ k, post floor Z s k f j * d f j k) 0 := by
    intro f j
    refine (hasDerivAt_lse (h f j)).neg.congr_deriv ?_
    simp only [hc, post, C12_softmax_eq, quadForm_eq hs]
  have h2 := HasDerivAt.fun_sum (u := Finset.univ) fun f _ =>
    (HasDerivAt.fun_sum (u := Finset.univ) fun j _ => h1 f j).div_const (t : ℝ)
  refine h2.congr_deriv ?_
  simp only [meanT, Finset.sum_neg_distrib, neg_div]

/-- The derivative in a direction of the weights. -/
theorem hasDerivAt_weights (floor : ℝ → ℝ) (Z : F → Fin t → Fin m → ℂ) {s : CSt F n m}
    (hs : CInv floor Z s) (A : Fin (n + 1) → F → ℝ) :
    HasDerivAt (fun ε : ℝ => lossVal Z ⟨fun k f => s.α k f + ε * A k f, s.B⟩)
      (-∑ f, ∑ k, meanT (post floor Z s k f) / s.α k f * A k f) 0 := by
  have h1 := hasDerivAt_val floor Z hs (fun ε : ℝ => ⟨fun k f => s.α k f + ε * A k f, s.B⟩)
    (by simp) (fun f j k => A k f / s.α k f) (fun f j k => by
      have h2 : HasDerivAt (fun ε : ℝ => s.α k f + ε * A k f) (A k f) 0 := by
        simpa using ((hasDerivAt_id (0 : ℝ)).mul_const (A k f)).const_add (s.α k f)
      have h3 := (h2.log (by simpa using (hs.1.1 k f).ne'))
      simp only [zero_mul, add_zero] at h3
      exact (h3.sub_const (Real.log ‖(s.B k f).det‖)).sub_const (m * Real.log (q Z s k f j)))
  have h4 : (fun ε : ℝ => lossVal Z ⟨fun k f => s.α k f + ε * A k f, s.B⟩)
      = fun ε : ℝ => val Z ⟨fun k f => s.α k f + ε * A k f, s.B⟩ := funext fun ε =>
    lossVal_eq (fun k f => Tr.isUnit_det (hs.1.2 k f)) fun k f j => (hs.2.2 k f j).1.le
  rw [h4]
  refine h1.congr_deriv ?_
  congr 1
  refine Finset.sum_congr rfl fun f _ => ?_
  simp only [meanT]
  rw [Finset.sum_comm, Finset.sum_div]
  refine Finset.sum_congr rfl fun k _ => ?_
  rw [← Finset.sum_mul]
  ring

theorem quadratic_trace (Z : Fin m → ℂ) (A : Mat m ℂ) :
    (Linalg.quadratic Z A).re = ((Matrix.of fun a b => Z a * star (Z b)) * A).trace.re := by
  rw [trace_mul_comm, trace_outer]

/-- The derivative in a direction of the covariances. -/
theorem hasDerivAt_cov (floor : ℝ → ℝ) (Z : F → Fin t → Fin m → ℂ) (ht : 0 < t) {s : CSt F n m}
    (hs : CInv floor Z s) (H : Fin (n + 1) → F → Mat m ℂ) :
    HasDerivAt (fun ε : ℝ => lossVal Z ⟨s.α, fun k f => s.B k f + (ε : ℂ) • H k f⟩)
      (∑ f, ∑ k, meanT (post floor Z s k f) * ((s.B k f)⁻¹ * H k f * (s.B k f)⁻¹
        * (s.B k f - rawCovariance Z (q Z s) (post floor Z s) k f)).trace.re) 0 := by
  have hu := fun k f => Tr.isUnit_det (hs.1.2 k f)
  have hqd : ∀ k f j, HasDerivAt (fun ε : ℝ => q Z (⟨s.α, fun k f => s.B k f + (ε : ℂ) • H k f⟩ : CSt F n m) k f j)
      (-(Linalg.quadratic (Z f j) ((s.B k f)⁻¹ * H k f * (s.B k f)⁻¹)).re) 0 := by
    intro k f j
    simp only [q, quadratic_trace]
    have := Tr.hasDerivAt_trace_inv (Matrix.of fun a b => Z f j a * star (Z f j b)) (s.B k f) (H k f) (hu k f)
    simpa only [Matrix.mul_assoc] using this
  have h1 := hasDerivAt_val floor Z hs (fun ε : ℝ => ⟨s.α, fun k f => s.B k f + (ε : ℂ) • H k f⟩)
    (by simp) (fun f j k => -((s.B k f)⁻¹ * H k f).trace.re
      + m * ((Linalg.quadratic (Z f j) ((s.B k f)⁻¹ * H k f * (s.B k f)⁻¹)).re / q Z s k f j)) (fun f j k => by
      have h2 := Tr.hasDerivAt_logdet (s.B k f) (H k f) (hu k f)
      have h3 := (hqd k f j).log (by simpa using (hs.2.2 k f j).1.ne')
      refine ((h2.const_sub (Real.log (s.α k f))).sub (h3.const_mul (m : ℝ))).congr_deriv ?_
      simp only [Complex.ofReal_zero, zero_smul, add_zero]
      ring)
  have h4 : (fun ε : ℝ => lossVal Z ⟨s.α, fun k f => s.B k f + (ε : ℂ) • H k f⟩)
      =ᶠ[nhds 0] fun ε : ℝ => val Z ⟨s.α, fun k f => s.B k f + (ε : ℂ) • H k f⟩ := by
    have e1 : ∀ᶠ ε : ℝ in nhds 0, ∀ k f, IsUnit (s.B k f + (ε : ℂ) • H k f).det :=
      Filter.eventually_all.mpr fun k => Filter.eventually_all.mpr fun f => Tr.eventually_isUnit _ _ (hu k f)
    have e2 : ∀ᶠ ε : ℝ in nhds 0, ∀ k f j,
        0 < q Z (⟨s.α, fun k f => s.B k f + (ε : ℂ) • H k f⟩ : CSt F n m) k f j :=
      Filter.eventually_all.mpr fun k => Filter.eventually_all.mpr fun f => Filter.eventually_all.mpr fun j =>
        (hqd k f j).continuousAt.eventually_const_lt (by simpa using (hs.2.2 k f j).1)
    filter_upwards [e1, e2] with ε g1 g2
    exact lossVal_eq g1 fun k f j => (g2 k f j).le
  refine (h1.congr_of_eventuallyEq h4).congr_deriv ?_
  rw [← Finset.sum_neg_distrib]
  refine Finset.sum_congr rfl fun f _ => ?_
  simp only [meanT]
  rw [Finset.sum_comm, ← neg_div, ← Finset.sum_neg_distrib, Finset.sum_div]
  refine Finset.sum_congr rfl fun k _ => ?_
  have hΓ := (post_sum_pos floor Z ht s hs k f).ne'
  have e1 := trace_raw Z (q Z s) (post floor Z s) k f ((s.B k f)⁻¹ * H k f * (s.B k f)⁻¹)
  rw [Matrix.mul_sub, trace_sub, Complex.sub_re, e1, Matrix.mul_assoc _ (s.B k f)⁻¹ (s.B k f),
    nonsing_inv_mul _ (hu k f), Matrix.mul_one]
  have e2 : ∑ j, post floor Z s k f j * (-((s.B k f)⁻¹ * H k f).trace.re
      + m * ((Linalg.quadratic (Z f j) ((s.B k f)⁻¹ * H k f * (s.B k f)⁻¹)).re / q Z s k f j))
      = -((∑ j, post floor Z s k f j) * ((s.B k f)⁻¹ * H k f).trace.re)
        + m * ∑ j, post floor Z s k f j / q Z s k f j
          * (Linalg.quadratic (Z f j) ((s.B k f)⁻¹ * H k f * (s.B k f)⁻¹)).re := by
    rw [Finset.sum_mul, Finset.mul_sum, ← Finset.sum_neg_distrib, ← Finset.sum_add_distrib]
    exact Finset.sum_congr rfl fun j _ => by ring
  rw [e2]
  field_simp
  ring

/-- The state is stationary exactly if the M step reproduces it. -/
theorem stationary_iff (floor : ℝ → ℝ) (Z : F → Fin t → Fin m → ℂ) (ht : 0 < t) (s : CSt F n m)
    (hs : CInv floor Z s) (hh : ∀ k f, (rawCovariance Z (q Z s) (post floor Z s) k f).IsHermitian) :
    CStationary Z s ↔ (∀ k f, meanT (post floor Z s k f) = s.α k f) ∧
      ∀ k f, rawCovariance Z (q Z s) (post floor Z s) k f = s.B k f := by
  have ht' : (0 : ℝ) < t := by exact_mod_cast ht
  have hp : ∀ k f, 0 < meanT (post floor Z s k f) := fun k f => div_pos (post_sum_pos floor Z ht s hs k f) ht'
  constructor
  · rintro ⟨h1, h2⟩
    constructor
    · have h3 := h1 (fun k f => meanT (post floor Z s k f) - s.α k f) fun f => by
        rw [Finset.sum_sub_distrib, hs.2.1 f]
        simp only [meanT]
        rw [← Finset.sum_div, Finset.sum_comm]
        simp only [post_sum, Finset.sum_const, Finset.card_univ, Fintype.card_fin, nsmul_eq_mul, mul_one]
        rw [div_self ht'.ne', sub_self]
      have h4 := h3.unique (hasDerivAt_weights floor Z hs _)
      have h5 : ∀ f, ∑ k, meanT (post floor Z s k f) / s.α k f * (meanT (post floor Z s k f) - s.α k f)
          = ∑ k, (meanT (post floor Z s k f) - s.α k f) ^ 2 / s.α k f := by
        intro f
        have h6 : ∑ k, (meanT (post floor Z s k f) - s.α k f) = 0 := by
          rw [Finset.sum_sub_distrib, hs.2.1 f]
          simp only [meanT]
          rw [← Finset.sum_div, Finset.sum_comm]
          simp only [post_sum, Finset.sum_const, Finset.card_univ, Fintype.card_fin, nsmul_eq_mul, mul_one]
          rw [div_self ht'.ne', sub_self]
        rw [← sub_zero (∑ k, meanT (post floor Z s k f) / s.α k f * _), ← h6, ← Finset.sum_sub_distrib]
        refine Finset.sum_congr rfl fun k _ => ?_
        have := (hs.1.1 k f).ne'
        field_simp
      simp only [h5] at h4
      have nn : ∀ f k, 0 ≤ (meanT (post floor Z s k f) - s.α k f) ^ 2 / s.α k f := fun f k =>
        div_nonneg (sq_nonneg _) (hs.1.1 k f).le
      intro k f
      have h7 := (Finset.sum_eq_zero_iff_of_nonneg fun f _ => Finset.sum_nonneg fun k _ => nn f k).mp
        (neg_eq_zero.mp h4.symm) f (Finset.mem_univ _)
      have h8 := (Finset.sum_eq_zero_iff_of_nonneg fun k _ => nn f k).mp h7 k (Finset.mem_univ _)
      exact sub_eq_zero.mp (pow_eq_zero_iff two_ne_zero |>.mp ((div_eq_zero_iff.mp h8).resolve_right (hs.1.1 k f).ne'))
    · have hD : ∀ k f, (s.B k f - rawCovariance Z (q Z s) (post floor Z s) k f).IsHermitian := fun k f =>
        (hs.1.2 k f).1.sub (hh k f)
      have h4 := (h2 (fun k f => s.B k f - rawCovariance Z (q Z s) (post floor Z s) k f) hD).unique
        (hasDerivAt_cov floor Z ht hs _)
      have nn := fun f k => mul_nonneg (hp k f).le (Tr.metric_nonneg (hs.1.2 k f) (hD k f)).1
      intro k f
      have h7 := (Finset.sum_eq_zero_iff_of_nonneg fun f _ => Finset.sum_nonneg fun k _ => nn f k).mp
        h4.symm f (Finset.mem_univ _)
      have h8 := (Finset.sum_eq_zero_iff_of_nonneg fun k _ => nn f k).mp h7 k (Finset.mem_univ _)
      exact (sub_eq_zero.mp ((Tr.metric_nonneg (hs.1.2 k f) (hD k f)).2
        ((mul_eq_zero.mp h8).resolve_left (hp k f).ne'))).symm
  · rintro ⟨h1, h2⟩
    constructor
    · intro A hA
      refine (hasDerivAt_weights floor Z hs A).congr_deriv ?_
      have : ∀ k f, meanT (post floor Z s k f) / s.α k f * A k f = A k f := fun k f => by
        rw [h1, div_self (hs.1.1 k f).ne', one_mul]
      simp only [this, hA, Finset.sum_const_zero, neg_zero]
    · intro H _
      refine (hasDerivAt_cov floor Z ht hs H).congr_deriv ?_
      simp only [h2, sub_self, Matrix.mul_zero, trace_zero, Complex.zero_re, mul_zero, Finset.sum_const_zero]

/-- One iteration of `CACGMM`: the recorded loss becomes strictly smaller exactly if the parameters are not
stationary; at stationary parameters only the normalisation acts. -/
theorem C65_cacgmm [Nonempty (Fin m)] (np : Numpy ℂ) (normalization : Bool) (floor : ℝ → ℝ)
    (Z : F → Fin t → Fin m → ℂ) (ht : 0 < t) (s : CSt F n m) (hs : CInv floor Z s)
    (hr : CReg np normalization floor Z s) :
    ∃ s' γ l l', updateOnce np normalization floor Z s = .ok (s', γ) ∧ CInv floor Z s' ∧
      loss floor Z s = .ok l ∧ loss floor Z s' = .ok l' ∧ (l' < l ↔ ¬ CStationary Z s) ∧
      (CStationary Z s → s' = if normalization then normalize s else s) := by
  obtain ⟨s', e', hs', -⟩ := c_step np normalization floor Z ht s hs hr
  have e := updateOnce_eq np normalization floor Z hs.1
  rw [e] at e'
  cases e'
  obtain ⟨h1, h2⟩ := params_mixing np floor Z ht s
  have hB : ∀ k f, (params np floor Z s).B k f = rawCovariance Z (q Z s) (post floor Z s) k f := by
    intro k f
    simp only [params, quadForm_eq hs]
    exact hr.psd k f
  have hp : CPos (params np floor Z s) := ⟨h1, fun k f => by rw [hB]; exact hr.posDef k f⟩
  have hq := q_pos hr.frames hp
  obtain ⟨hle, heq⟩ := em_step floor Z ht s hs (params np floor Z s) (fun _ _ => rfl) hB hp.2 hq
  have hst : CStationary Z s ↔ params np floor Z s = s := by
    rw [stationary_iff floor Z ht s hs fun k f => (hr.posDef k f).1]
    constructor
    · rintro ⟨g1, g2⟩
      have a1 : (params np floor Z s).α = s.α := funext fun k => funext fun f => g1 k f
      have a2 : (params np floor Z s).B = s.B := funext fun k => funext fun f => (hB k f).trans (g2 k f)
      obtain ⟨a, b⟩ := s
      simp only at a1 a2
      generalize params np floor Z ⟨a, b⟩ = p at a1 a2
      obtain ⟨a', b'⟩ := p
      simp only at a1 a2
      rw [a1, a2]
    · intro g
      exact ⟨fun k f => congrFun (congrFun (congrArg CSt.α g) k) f, fun k f => (hB k f).symm.trans
        (congrFun (congrFun (congrArg CSt.B g) k) f)⟩
  have hval : val Z (if normalization then normalize (params np floor Z s) else params np floor Z s)
      = val Z (params np floor Z s) := by
    cases normalization
    · rfl
    · exact (C46_normalise Z _ hp hq).1
  refine ⟨_, _, val Z s, _, e, hs', loss_eq hs, loss_eq hs', ?_, fun h => by rw [hst.mp h]⟩
  rw [hval, hst]
  constructor
  · intro hlt g
    rw [g] at hlt
    exact lt_irrefl _ hlt
  · exact fun g => lt_of_le_of_ne hle fun g' => g (heq g')

/-- Without normalisation an iteration returns its parameters unchanged exactly if they are stationary. -/
theorem C65_fixed [Nonempty (Fin m)] (np : Numpy ℂ) (floor : ℝ → ℝ)
    (Z : F → Fin t → Fin m → ℂ) (ht : 0 < t) (s : CSt F n m) (hs : CInv floor Z s)
    (hr : CReg np false floor Z s) :
    (updateOnce np false floor Z s).map Prod.fst = .ok s ↔ CStationary Z s := by
  obtain ⟨s', γ, l, l', h1, -, h2, h3, h4, h5⟩ := C65_cacgmm np false floor Z ht s hs hr
  rw [h1]
  constructor
  · intro g
    have g' : s' = s := by simpa [Except.map] using g
    subst g'
    by_contra hn
    rw [h2] at h3
    cases h3
    exact lt_irrefl _ (h4.mpr hn)
  · intro g
    rw [h5 g]
    rfl

/-- Without flooring this holds for every mixture without silent frames whose channels are linearly independent in
every bin. -/
theorem C65_unfloored [Nonempty (Fin m)] (np : Numpy ℂ) (normalization : Bool) (X : Spec F m t) (ht : 0 < t)
    (hX : ∀ f, LinearIndependent ℂ (X f).row) (hX0 : ∀ f j, ∃ c, X f c j ≠ 0) (s : CSt F n m) (hs : CPos s)
    (hα : ∀ f, ∑ k, s.α k f = 1) :
    ∃ s' γ l l', updateOnce np normalization id (unitInput id X) s = .ok (s', γ) ∧
      loss id (unitInput id X) s = .ok l ∧ loss id (unitInput id X) s' = .ok l' ∧
      (l' < l ↔ ¬ CStationary (unitInput id X) s) ∧
      (CStationary (unitInput id X) s → s' = if normalization then normalize s else s) := by
  obtain ⟨hI, hReg⟩ := creg_id (n := n) np normalization X ht hX hX0
  obtain ⟨s', γ, l, l', h1, -, h2⟩ := C65_cacgmm np normalization id (unitInput id X) ht s (hI s hs hα)
    (hReg s (hI s hs hα))
  exact ⟨s', γ, l, l', h1, h2⟩

/-! Two sources with equal weights and covariances `1`. -/

noncomputable def exS : CSt Unit 1 2 := ⟨fun _ _ => 1 / 2, fun _ _ => 1⟩

theorem exS_pos : CPos exS ∧ ∀ f, ∑ k, exS.α k f = 1 :=
  ⟨⟨fun _ _ => by norm_num [exS], fun _ _ => PosDef.one⟩, fun _ => by simp [exS]⟩

theorem exS_post (Z : Unit → Fin t → Fin 2 → ℂ) (k : Fin 2) (f : Unit) (j : Fin t) : post id Z exS k f j = 1 / 2 := by
  rw [post, C12_softmax_eq]
  have : ∀ i, logGamma exS (quadForm id Z fun k f => (exS.B k f)⁻¹) f j i
      = logGamma exS (quadForm id Z fun k f => (exS.B k f)⁻¹) f j 0 := fun i => rfl
  rw [Fin.sum_univ_two, this k, this 1]
  have := (Real.exp_pos (logGamma exS (quadForm id Z fun k f => (exS.B k f)⁻¹) f j 0)).ne'
  field_simp
  norm_num

theorem exS_q (Z : Unit → Fin t → Fin 2 → ℂ) (hZ : ∀ j, ∑ c, star (Z () j c) * Z () j c = 1) (k : Fin 2) (f : Unit)
    (j : Fin t) : q Z exS k f j = 1 := by
  have h := hZ j
  simp only [q, exS, inv_one, Linalg.quadratic, vecMul_one, dotProduct, Pi.star_apply]
  rw [h]
  rfl

/-- With one frame along each axis the state is stationary, so an iteration changes nothing. -/
example (np : Numpy ℂ) : CStationary (unitInput id fun _ : Unit => (!![1, 0; 0, 1] : Matrix (Fin 2) (Fin 2) ℂ)) exS ∧
    (updateOnce np false id (unitInput id fun _ : Unit => (!![1, 0; 0, 1] : Matrix (Fin 2) (Fin 2) ℂ)) exS).map Prod.fst
      = .ok exS := by
  obtain ⟨hI, hReg⟩ := creg_id (n := 1) np false (fun _ : Unit => (!![1, 0; 0, 1] : Matrix (Fin 2) (Fin 2) ℂ)) two_pos
    (fun _ => by
      rw [Matrix.linearIndependent_rows_iff_isUnit, Matrix.isUnit_iff_isUnit_det]
      simp)
    (fun _ j => by
      fin_cases j
      · exact ⟨0, by simp⟩
      · exact ⟨1, by simp⟩)
  have hi := hI exS exS_pos.1 exS_pos.2
  have hst : CStationary (unitInput id fun _ : Unit => (!![1, 0; 0, 1] : Matrix (Fin 2) (Fin 2) ℂ)) exS := by
    rw [stationary_iff id _ two_pos exS hi fun k f => ((hReg exS hi).posDef k f).1]
    refine ⟨fun k f => by rw [show exS.α k f = 1 / 2 from rfl]; simp [meanT, exS_post], fun k f => ?_⟩
    have hq := exS_q (unitInput id fun _ : Unit => (!![1, 0; 0, 1] : Matrix (Fin 2) (Fin 2) ℂ)) fun j => by
      fin_cases j <;> simp [unitInput]
    ext a b
    rw [show exS.B k f = 1 from rfl]
    simp only [rawCovariance, exS_post, hq, Fin.sum_univ_two, Matrix.smul_apply, Matrix.add_apply, of_apply]
    fin_cases a <;> fin_cases b <;> simp [unitInput]
    all_goals norm_num
  exact ⟨hst, (C65_fixed np id _ two_pos exS hi (hReg exS hi)).mpr hst⟩

/-- With a second frame along the second axis it is not, and an iteration strictly decreases the loss. -/
example (np : Numpy ℂ) : ∃ s' γ l l',
    updateOnce np true id (unitInput id fun _ : Unit => !![1, 0, 0; 0, 1, 1]) exS = .ok (s', γ) ∧
    loss id (unitInput id fun _ : Unit => !![1, 0, 0; 0, 1, 1]) exS = .ok l ∧
    loss id (unitInput id fun _ : Unit => !![1, 0, 0; 0, 1, 1]) s' = .ok l' ∧ l' < l := by
  have hX : ∀ _ : Unit, LinearIndependent ℂ (!![1, 0, 0; 0, 1, 1] : Matrix (Fin 2) (Fin 3) ℂ).row := by
    intro _
    rw [Fintype.linearIndependent_iff]
    intro g hg i
    have h0 := congrFun hg 0
    have h2 := congrFun hg 2
    simp [Fin.sum_univ_two, Matrix.row] at h0 h2
    fin_cases i
    · exact h0
    · exact h2
  have hX0 : ∀ (_ : Unit) j, ∃ c, (!![1, 0, 0; 0, 1, 1] : Matrix (Fin 2) (Fin 3) ℂ) c j ≠ 0 := by
    intro _ j
    fin_cases j
    · exact ⟨0, by simp⟩
    · exact ⟨1, by simp⟩
    · exact ⟨1, by simp⟩
  obtain ⟨s', γ, l, l', h1, h2, h3, h4, -⟩ := C65_unfloored np true (fun _ : Unit => !![1, 0, 0; 0, 1, 1]) (by norm_num)
    hX hX0 exS exS_pos.1 exS_pos.2
  refine ⟨s', γ, l, l', h1, h2, h3, h4.mpr fun hst => ?_⟩
  obtain ⟨hI, hReg⟩ := creg_id (n := 1) np true (fun _ : Unit => !![1, 0, 0; 0, 1, 1]) (by norm_num) hX hX0
  have hi := hI exS exS_pos.1 exS_pos.2
  have := ((stationary_iff id _ (by norm_num) exS hi fun k f => ((hReg exS hi).posDef k f).1).mp hst).2 0 ()
  rw [show exS.B 0 () = 1 from rfl] at this
  have := congrFun (congrFun this 0) 0
  have hq := exS_q (unitInput id fun _ : Unit => !![1, 0, 0; 0, 1, 1]) fun j => by
    fin_cases j <;> simp [unitInput]
  simp only [rawCovariance, exS_post, hq, Fin.sum_univ_three, Matrix.smul_apply, Matrix.add_apply, of_apply] at this
  simp [unitInput] at this
  norm_num at this

end Verif.Cacgmm
