import Verif.Model.Cacgmm
import Verif.Model.Run
import Verif.Lemmas.MatDeriv
import Verif.Props.MnmfWiener

/-! # C45, C46: the complex angular central Gaussian mixture model -/

set_option linter.unusedSectionVars false

namespace Verif.Cacgmm

open Matrix Spatial Scale Special Mnmf
open scoped ComplexOrder

variable {F : Type} [Fintype F] {n m t : ℕ}

/-- Positive mixing weights and positive definite covariances. -/
def CPos (s : CSt F n m) : Prop := (∀ k f, 0 < s.α k f) ∧ ∀ k f, (s.B k f).PosDef

theorem invB_eq {s : CSt F n m} (hs : CPos s) : invB s.B = .ok fun k f => (s.B k f)⁻¹ :=
  onBins_ok fun k => onBins_ok fun f => by rw [npInv, if_pos (Tr.isUnit_det (hs.2 k f))]

/-- The posterior as a formula. -/
noncomputable def post (floor : ℝ → ℝ) (Z : F → Fin t → Fin m → ℂ) (s : CSt F n m) : Posterior F n t :=
  fun k f j => softmax (logGamma s (quadForm floor Z fun k f => (s.B k f)⁻¹) f j) k

theorem updatePosterior_eq (floor : ℝ → ℝ) (Z : F → Fin t → Fin m → ℂ) {s : CSt F n m} (hs : CPos s) :
    updatePosterior floor Z s = .ok (post floor Z s) := by
  rw [updatePosterior, invB_eq hs]
  rfl

theorem post_pos (floor : ℝ → ℝ) (Z : F → Fin t → Fin m → ℂ) (s : CSt F n m) (k : Fin (n + 1)) (f : F) (j : Fin t) :
    0 < post floor Z s k f j := C12_softmax_pos _ k

theorem post_sum (floor : ℝ → ℝ) (Z : F → Fin t → Fin m → ℂ) (s : CSt F n m) (f : F) (j : Fin t) :
    ∑ k, post floor Z s k f j = 1 := C12_softmax_sum _

/-- The parameters after `update_parameters` as a formula. -/
noncomputable def params (np : Numpy ℂ) (floor : ℝ → ℝ) (Z : F → Fin t → Fin m → ℂ) (s : CSt F n m) : CSt F n m :=
  ⟨fun k f => meanT (post floor Z s k f), fun k f => toPsd np floor
    (rawCovariance Z (quadForm floor Z fun k f => (s.B k f)⁻¹) (post floor Z s) k f)⟩

theorem updateOnce_eq (np : Numpy ℂ) (normalization : Bool) (floor : ℝ → ℝ) (Z : F → Fin t → Fin m → ℂ)
    {s : CSt F n m} (hs : CPos s) : updateOnce np normalization floor Z s
      = .ok (if normalization then normalize (params np floor Z s) else params np floor Z s, post floor Z s) := by
  rw [updateOnce, updatePosterior_eq floor Z hs]
  simp only [bind, Except.bind]
  rw [updateParameters, invB_eq hs]
  rfl

theorem params_mixing (np : Numpy ℂ) (floor : ℝ → ℝ) (Z : F → Fin t → Fin m → ℂ) (ht : 0 < t) (s : CSt F n m) :
    (∀ k f, 0 < (params np floor Z s).α k f) ∧ ∀ f, ∑ k, (params np floor Z s).α k f = 1 := by
  have ht' : (0 : ℝ) < t := by exact_mod_cast ht
  haveI : Nonempty (Fin t) := ⟨⟨0, ht⟩⟩
  refine ⟨fun k f => div_pos (Finset.sum_pos (fun j _ => post_pos floor Z s k f j) Finset.univ_nonempty) ht', ?_⟩
  intro f
  simp only [params, meanT]
  rw [← Finset.sum_div, Finset.sum_comm]
  simp only [post_sum, Finset.sum_const, Finset.card_univ, Fintype.card_fin, nsmul_eq_mul, mul_one]
  exact div_self ht'.ne'

theorem normalize_pos [Nonempty (Fin m)] {s : CSt F n m} (hs : CPos s) : CPos (normalize s) := by
  refine ⟨hs.1, fun k f => ?_⟩
  have := (Complex.lt_def.mp (hs.2 k f).trace_pos).1
  simp only [normalize, ← Complex.ofReal_inv]
  exact Tr.smul_posDef (hs.2 k f) (inv_pos.mpr this)

/-- With the default kind of flooring one update always succeeds and keeps the parameters positive. -/
theorem update_pos [Nonempty (Fin m)] (np : Numpy ℂ) (normalization : Bool) {eps : ℝ} (heps : 0 < eps)
    (Z : F → Fin t → Fin m → ℂ) (ht : 0 < t) {s : CSt F n m} (hs : CPos s) :
    ∃ s' : CSt F n m, updateOnce np normalization (max_flooring eps) Z s = .ok (s', post (max_flooring eps) Z s) ∧
      CPos s' ∧ ∀ f, ∑ k, s'.α k f = 1 := by
  obtain ⟨h1, h2⟩ := params_mixing np (max_flooring eps) Z ht s
  have h3 : CPos (params np (max_flooring eps) Z s) := by
    refine ⟨h1, fun k f => C13_posDef np 2 eps heps (rawCovariance Z
      (quadForm (max_flooring eps) Z fun k f => (s.B k f)⁻¹) (post (max_flooring eps) Z s) k f) _ ?_⟩
    simp only [to_psd]
    rw [if_pos (by constructor <;> simp)]
    rfl
  refine ⟨_, updateOnce_eq np normalization _ Z hs, ?_⟩
  cases normalization
  · exact ⟨h3, h2⟩
  · exact ⟨normalize_pos h3, h2⟩

theorem iterate_pos [Nonempty (Fin m)] (np : Numpy ℂ) (normalization : Bool) {eps : ℝ} (heps : 0 < eps)
    (Z : F → Fin t → Fin m → ℂ) (ht : 0 < t) (n_iter : ℕ) {s : CSt F n m} (hs : CPos s) :
    ∃ s' : CSt F n m, iterate np normalization (max_flooring eps) Z n_iter s = .ok s' ∧ CPos s' ∧
      ((0 < n_iter ∨ ∀ f, ∑ k, s.α k f = 1) → ∀ f, ∑ k, s'.α k f = 1) := by
  induction n_iter generalizing s with
  | zero => exact ⟨s, rfl, hs, fun h => h.resolve_left (lt_irrefl 0)⟩
  | succ i ih =>
    obtain ⟨s1, e1, p1, q1⟩ := update_pos np normalization heps Z ht hs
    obtain ⟨s2, e2, p2, q2⟩ := ih p1
    refine ⟨s2, ?_, p2, fun _ => q2 (.inr q1)⟩
    rw [iterate, e1]
    exact e2

/-- C45: after a call of `CACGMM` with any number of iterations and the default kind of flooring, with or without
normalisation and whatever permutations the alignment applies: the call succeeds, the posterior is positive and sums
to one over the sources at every point, the mixing weights are positive and sum to one in every bin, and the outputs
sum to the reference channel. -/
theorem C45_call [Nonempty (Fin m)] (np : Numpy ℂ) (normalization : Bool) (eps : ℝ) (heps : 0 < eps) (X : Spec F m t)
    (ht : 0 < t) (r : Fin m) (σ : F → Equiv.Perm (Fin (n + 1))) (n_iter : ℕ) (s : CSt F n m) (hs : CPos s)
    (hα : ∀ f, ∑ k, s.α k f = 1) :
    ∃ (s' : CSt F n m) (γ : Posterior F n t) (Y : Fin (n + 1) → F → Fin t → ℂ),
      call np normalization (max_flooring eps) X r σ n_iter s = .ok (s', γ, Y) ∧
      (∀ k f j, 0 < γ k f j) ∧ (∀ f j, ∑ k, γ k f j = 1) ∧
      (∀ k f, 0 < s'.α k f) ∧ (∀ f, ∑ k, s'.α k f = 1) ∧ (∀ k f, (s'.B k f).PosDef) ∧
      ∀ f j, ∑ k, Y k f j = X f r j := by
  obtain ⟨s1, e1, p1, q1⟩ := iterate_pos np normalization heps (unitInput (max_flooring eps) X) ht n_iter hs
  have hsum : ∀ f j, ∑ k, post (max_flooring eps) (unitInput (max_flooring eps) X) s1 (σ f k) f j = 1 := by
    intro f j
    rw [Equiv.sum_comp (σ f) fun k => post (max_flooring eps) (unitInput (max_flooring eps) X) s1 k f j]
    exact post_sum _ _ s1 f j
  set γ := post (max_flooring eps) (unitInput (max_flooring eps) X) s1 with hγ
  refine ⟨(align σ s1 γ).1, (align σ s1 γ).2, separateP X r (align σ s1 γ).2, ?_,
    fun k f j => post_pos _ _ s1 (σ f k) f j, hsum, fun k f => p1.1 (σ f k) f, fun f => ?_,
    fun k f => p1.2 (σ f k) f, fun f j => ?_⟩
  · rw [call]
    simp only [bind, Except.bind]
    rw [e1]
    simp only
    rw [updatePosterior_eq _ _ p1]
  · have := q1 (.inr hα) f
    rw [← this]
    exact Equiv.sum_comp (σ f) fun k => s1.α k f
  · simp only [separateP, ← Finset.sum_mul, ← Complex.ofReal_sum, align]
    rw [hsum, Complex.ofReal_one, one_mul]

/-- C45: `separate` called without a posterior also splits the reference channel. -/
theorem C45_separate (floor : ℝ → ℝ) (X : Spec F m t) (Z : F → Fin t → Fin m → ℂ) (r : Fin m) (s : CSt F n m)
    (hs : CPos s) : ∃ Y, separateNew floor X Z r s = .ok Y ∧ ∀ f j, ∑ k, Y k f j = X f r j := by
  refine ⟨separateP X r (post floor Z s), ?_, fun f j => ?_⟩
  · rw [separateNew, updatePosterior_eq _ _ hs]
    rfl
  · simp only [separateP, ← Finset.sum_mul, ← Complex.ofReal_sum, post_sum, Complex.ofReal_one, one_mul]

/-- Two sources, two channels: the kind of initial values used by the code. -/
example : CPos (⟨fun _ _ => 1 / 2, fun k _ => diagonal ![((k : ℂ) + 1), 1]⟩ : CSt Unit 1 2) := by
  refine ⟨fun _ _ => by norm_num, fun k _ => PosDef.diagonal fun c => ?_⟩
  fin_cases c
  · have : ((k : ℕ) : ℂ) + 1 = (((k : ℕ) + 1 : ℝ) : ℂ) := by push_cast; rfl
    simp only [Fin.zero_eta, cons_val_zero]
    rw [this]
    exact Complex.zero_lt_real.mpr (by positivity)
  · simp

/-! ## C46 -/

/-- The quadratic form without flooring. -/
noncomputable def q (Z : F → Fin t → Fin m → ℂ) (s : CSt F n m) (k : Fin (n + 1)) (f : F) (j : Fin t) : ℝ :=
  (Linalg.quadratic (Z f j) (s.B k f)⁻¹).re

/-- Positive parameters, weights summing to one, positive quadratic forms that flooring does not change. -/
def CInv (floor : ℝ → ℝ) (Z : F → Fin t → Fin m → ℂ) (s : CSt F n m) : Prop :=
  CPos s ∧ (∀ f, ∑ k, s.α k f = 1) ∧ ∀ k f j, 0 < q Z s k f j ∧ floor (q Z s k f j) = q Z s k f j

/-- The loss when flooring does not change the quadratic forms. -/
noncomputable def val (Z : F → Fin t → Fin m → ℂ) (s : CSt F n m) : ℝ :=
  ∑ f, meanT fun j => -Real.log (∑ k, Real.exp (logGamma s (q Z s) f j k))

theorem quadForm_eq {floor : ℝ → ℝ} {Z : F → Fin t → Fin m → ℂ} {s : CSt F n m} (hs : CInv floor Z s) :
    quadForm floor Z (fun k f => (s.B k f)⁻¹) = q Z s := by
  funext k f j
  obtain ⟨h1, h2⟩ := hs.2.2 k f j
  rw [quadForm]
  change floor (max (q Z s k f j) 0) = _
  rw [max_eq_left h1.le, h2]

theorem loss_eq {floor : ℝ → ℝ} {Z : F → Fin t → Fin m → ℂ} {s : CSt F n m} (hs : CInv floor Z s) :
    loss floor Z s = .ok (val Z s) := by
  rw [loss, invB_eq hs.1]
  simp only [bind, Except.bind, C12_logsumexp_eq, quadForm_eq hs]
  rfl

/-- Jensen's inequality for the log-sum-exp. -/
theorem lse_ge {J : Type} [Fintype J] [Nonempty J] (x x' : J → ℝ) :
    Real.log (∑ k, Real.exp (x k)) + ∑ k, Real.exp (x k) / (∑ i, Real.exp (x i)) * (x' k - x k)
      ≤ Real.log (∑ k, Real.exp (x' k)) := by
  set S := ∑ i, Real.exp (x i) with hS
  have hSp : 0 < S := Finset.sum_pos (fun i _ => Real.exp_pos _) Finset.univ_nonempty
  set p : J → ℝ := fun k => Real.exp (x k) / S with hp
  have hp1 : ∑ k, p k = 1 := by rw [hp, ← Finset.sum_div, div_self hSp.ne']
  set u := ∑ k, p k * (x' k - x k) with hu
  have h1 : Real.exp (Real.log S + u) ≤ ∑ k, Real.exp (x' k) := by
    rw [Real.exp_add, Real.exp_log hSp]
    have h2 : ∀ k, S * Real.exp u * (p k * (1 + (x' k - x k - u))) ≤ Real.exp (x' k) := by
      intro k
      have h3 := Real.add_one_le_exp (x' k - x k - u)
      have h4 : Real.exp (x' k) = S * Real.exp u * (p k * Real.exp (x' k - x k - u)) := by
        rw [hp]
        simp only
        rw [Real.exp_sub, Real.exp_sub]
        have := (Real.exp_pos (x k)).ne'
        have := (Real.exp_pos u).ne'
        field_simp
      rw [h4]
      refine mul_le_mul_of_nonneg_left (mul_le_mul_of_nonneg_left (by linarith) ?_) ?_
      · exact (div_pos (Real.exp_pos _) hSp).le
      · exact (mul_pos hSp (Real.exp_pos _)).le
    refine le_trans (le_of_eq ?_) (Finset.sum_le_sum fun k _ => h2 k)
    rw [← Finset.mul_sum]
    have h5 : ∑ k, p k * (1 + (x' k - x k - u)) = 1 := by
      have : ∀ k, p k * (1 + (x' k - x k - u)) = p k + p k * (x' k - x k) - p k * u := fun k => by ring
      simp only [this, Finset.sum_sub_distrib, Finset.sum_add_distrib, hp1, ← Finset.sum_mul, ← hu]
      ring
    rw [h5, mul_one]
  have h6 := Real.log_le_log (Real.exp_pos _) h1
  rwa [Real.log_exp] at h6

theorem trace_outer (A : Mat m ℂ) (z : Fin m → ℂ) :
    (A * Matrix.of fun a b => z a * star (z b)).trace = Linalg.quadratic z A := by
  simp only [Linalg.quadratic, trace, diag_apply, mul_apply, of_apply, dotProduct, vecMul, Finset.sum_mul]
  rw [Finset.sum_comm]
  refine Finset.sum_congr rfl fun a _ => Finset.sum_congr rfl fun b _ => ?_
  simp only [Pi.star_apply]
  ring

theorem trace_raw (Z : F → Fin t → Fin m → ℂ) (Q γ : Fin (n + 1) → F → Fin t → ℝ) (k : Fin (n + 1)) (f : F)
    (A : Mat m ℂ) : (A * rawCovariance Z Q γ k f).trace.re
      = m * ((∑ j, γ k f j)⁻¹ * ∑ j, γ k f j / Q k f j * (Linalg.quadratic (Z f j) A).re) := by
  have : (m : ℂ) = ((m : ℝ) : ℂ) := by push_cast; rfl
  rw [rawCovariance, mul_smul_comm, mul_smul_comm, trace_smul, trace_smul, Finset.mul_sum, trace_sum, this,
    ← Complex.ofReal_inv, smul_eq_mul, smul_eq_mul, Complex.re_ofReal_mul, Complex.re_ofReal_mul, Complex.re_sum]
  congr 2
  refine Finset.sum_congr rfl fun j _ => ?_
  rw [mul_smul_comm, trace_smul, smul_eq_mul, Complex.re_ofReal_mul, trace_outer]

section
variable (floor : ℝ → ℝ) (Z : F → Fin t → Fin m → ℂ) (ht : 0 < t) (s : CSt F n m) (hs : CInv floor Z s)
  (s' : CSt F n m)
include ht hs

theorem post_sum_pos (k : Fin (n + 1)) (f : F) : 0 < ∑ j, post floor Z s k f j :=
  Finset.sum_pos (fun j _ => post_pos floor Z s k f j) ⟨⟨0, ht⟩, Finset.mem_univ _⟩

/-- The trace of the new covariance in the metric of the old one. -/
theorem trace_em (k : Fin (n + 1)) (f : F) :
    ((s.B k f)⁻¹ * rawCovariance Z (q Z s) (post floor Z s) k f).trace.re = m := by
  rw [trace_raw]
  have : ∀ j, post floor Z s k f j / q Z s k f j * (Linalg.quadratic (Z f j) (s.B k f)⁻¹).re = post floor Z s k f j :=
    fun j => div_mul_cancel₀ _ (hs.2.2 k f j).1.ne'
  simp only [this]
  rw [inv_mul_cancel₀ (post_sum_pos floor Z ht s hs k f).ne', mul_one]

/-- By how much the M step decreases the loss at least. -/
theorem em_gap (hα' : ∀ k f, s'.α k f = meanT (post floor Z s k f))
    (hB' : ∀ k f, s'.B k f = rawCovariance Z (q Z s) (post floor Z s) k f) (hpd : ∀ k f, (s'.B k f).PosDef)
    (hq' : ∀ k f j, 0 < q Z s' k f j) :
    ∑ f, ∑ k, s'.α k f * ((Real.log ‖(s.B k f).det‖ - Real.log ‖(s'.B k f).det‖)
      + (Real.log (s'.α k f) - Real.log (s.α k f))) ≤ val Z s - val Z s' := by
  have ht' : (0 : ℝ) < t := by exact_mod_cast ht
  rw [val, val, ← Finset.sum_sub_distrib]
  refine Finset.sum_le_sum fun f _ => ?_
  have hγ : ∀ j k, post floor Z s k f j
      = Real.exp (logGamma s (q Z s) f j k) / ∑ i, Real.exp (logGamma s (q Z s) f j i) := by
    intro j k
    rw [post, C12_softmax_eq, quadForm_eq hs]
  have h1 : ∀ j, Real.log (∑ k, Real.exp (logGamma s (q Z s) f j k))
      + ∑ k, post floor Z s k f j * (logGamma s' (q Z s') f j k - logGamma s (q Z s) f j k)
      ≤ Real.log (∑ k, Real.exp (logGamma s' (q Z s') f j k)) := by
    intro j
    simp only [hγ]
    exact lse_ge _ _
  obtain ⟨γ, hγd⟩ : ∃ γ : Fin (n + 1) → Fin t → ℝ, γ = fun k => post floor Z s k f := ⟨_, rfl⟩
  have hγd' : ∀ k j, post floor Z s k f j = γ k j := fun k j => by rw [hγd]
  have hpos : ∀ k j, 0 < γ k j := fun k j => by rw [← hγd']; exact post_pos floor Z s k f j
  have hΓ : ∀ k, 0 < ∑ j, γ k j := fun k => by
    simp only [← hγd']
    exact post_sum_pos floor Z ht s hs k f
  have key : ∀ k, (∑ j, γ k j) * ((Real.log ‖(s.B k f).det‖ - Real.log ‖(s'.B k f).det‖)
      + (Real.log (s'.α k f) - Real.log (s.α k f)))
      ≤ ∑ j, γ k j * (logGamma s' (q Z s') f j k - logGamma s (q Z s) f j k) := by
    intro k
    -- quadratic forms
    have w2 : ∀ j, Real.log (q Z s' k f j) - Real.log (q Z s k f j) ≤ q Z s' k f j / q Z s k f j - 1 := by
      intro j
      have hq := (hs.2.2 k f j).1
      rw [← Real.log_div (hq' k f j).ne' hq.ne']
      exact Real.log_le_sub_one_of_pos (div_pos (hq' k f j) hq)
    have w5 : (m : ℝ) * ∑ j, γ k j * (q Z s' k f j / q Z s k f j) = m * ∑ j, γ k j := by
      have h2 := trace_raw Z (q Z s) (post floor Z s) k f (s'.B k f)⁻¹
      rw [← hB', nonsing_inv_mul _ (Tr.isUnit_det (hpd k f)), trace_one] at h2
      simp only [Fintype.card_fin, Complex.natCast_re, hγd'] at h2
      have h3 : ∑ j, γ k j / q Z s k f j * (Linalg.quadratic (Z f j) (s'.B k f)⁻¹).re
          = ∑ j, γ k j * (q Z s' k f j / q Z s k f j) := by
        refine Finset.sum_congr rfl fun j _ => ?_
        change γ k j / q Z s k f j * q Z s' k f j = _
        ring
      rw [h3] at h2
      have h4 := (hΓ k).ne'
      have h5 : (m : ℝ) * ∑ j, γ k j
          = (m : ℝ) * ((∑ j, γ k j)⁻¹ * ∑ j, γ k j * (q Z s' k f j / q Z s k f j)) * ∑ j, γ k j := by
        rw [← h2]
      rw [h5]
      field_simp
    have expand : ∑ j, γ k j * (logGamma s' (q Z s') f j k - logGamma s (q Z s) f j k)
        = (∑ j, γ k j) * ((Real.log (s'.α k f) - Real.log (s.α k f))
          - (Real.log ‖(s'.B k f).det‖ - Real.log ‖(s.B k f).det‖))
          - m * ∑ j, γ k j * (Real.log (q Z s' k f j) - Real.log (q Z s k f j)) := by
      rw [Finset.mul_sum, Finset.sum_mul, ← Finset.sum_sub_distrib]
      refine Finset.sum_congr rfl fun j _ => ?_
      simp only [logGamma]
      ring
    have w6 : (m : ℝ) * ∑ j, γ k j * (Real.log (q Z s' k f j) - Real.log (q Z s k f j)) ≤ 0 := by
      have : ∑ j, γ k j * (Real.log (q Z s' k f j) - Real.log (q Z s k f j))
          ≤ ∑ j, γ k j * (q Z s' k f j / q Z s k f j - 1) :=
        Finset.sum_le_sum fun j _ => mul_le_mul_of_nonneg_left (w2 j) (hpos k j).le
      have h2 := mul_le_mul_of_nonneg_left this (Nat.cast_nonneg (α := ℝ) m)
      have h3 : (m : ℝ) * ∑ j, γ k j * (q Z s' k f j / q Z s k f j - 1) = 0 := by
        simp only [mul_sub, mul_one, Finset.sum_sub_distrib]
        rw [w5, sub_self]
      linarith
    rw [expand]
    nlinarith
  have h2 := Finset.sum_le_sum fun (j : Fin t) (_ : j ∈ Finset.univ) => h1 j
  rw [Finset.sum_add_distrib, Finset.sum_comm] at h2
  have h3 := Finset.sum_le_sum fun (k : Fin (n + 1)) (_ : k ∈ Finset.univ) => key k
  simp only [hγd'] at h2
  have h4 : ∑ k, s'.α k f * ((Real.log ‖(s.B k f).det‖ - Real.log ‖(s'.B k f).det‖)
      + (Real.log (s'.α k f) - Real.log (s.α k f)))
      = (∑ k, (∑ j, γ k j) * ((Real.log ‖(s.B k f).det‖ - Real.log ‖(s'.B k f).det‖)
      + (Real.log (s'.α k f) - Real.log (s.α k f)))) / t := by
    rw [Finset.sum_div]
    refine Finset.sum_congr rfl fun k _ => ?_
    have : s'.α k f = (∑ j, γ k j) / t := by rw [hα', meanT]; simp only [hγd']
    nth_rw 1 [this]
    ring
  rw [h4]
  simp only [meanT, Finset.sum_neg_distrib]
  rw [← sub_div]
  exact div_le_div_of_nonneg_right (by linarith) ht'.le

/-- The weights part of the decrease. -/
theorem em_weights (hα' : ∀ k f, s'.α k f = meanT (post floor Z s k f)) (f : F) :
    0 ≤ ∑ k, s'.α k f * (Real.log (s'.α k f) - Real.log (s.α k f)) ∧
    (∑ k, s'.α k f * (Real.log (s'.α k f) - Real.log (s.α k f)) = 0 → ∀ k, s'.α k f = s.α k f) := by
  have ht' : (0 : ℝ) < t := by exact_mod_cast ht
  have hp' : ∀ k, 0 < s'.α k f := fun k => by
    rw [hα', meanT]
    exact div_pos (post_sum_pos floor Z ht s hs k f) ht'
  have hsum : ∑ k, (s'.α k f - s.α k f) = 0 := by
    rw [Finset.sum_sub_distrib, hs.2.1 f]
    simp only [hα', meanT]
    rw [← Finset.sum_div, Finset.sum_comm]
    simp only [post_sum, Finset.sum_const, Finset.card_univ, Fintype.card_fin, nsmul_eq_mul, mul_one]
    rw [div_self ht'.ne', sub_self]
  have hle : ∀ k, s'.α k f - s.α k f ≤ s'.α k f * (Real.log (s'.α k f) - Real.log (s.α k f)) ∧
      (s'.α k f ≠ s.α k f → s'.α k f - s.α k f < s'.α k f * (Real.log (s'.α k f) - Real.log (s.α k f))) := by
    intro k
    have h0 := hs.1.1 k f
    have e : s'.α k f * (s.α k f / s'.α k f - 1) = s.α k f - s'.α k f := by
      have := (hp' k).ne'
      field_simp
    have e2 : Real.log (s.α k f / s'.α k f) = Real.log (s.α k f) - Real.log (s'.α k f) :=
      Real.log_div h0.ne' (hp' k).ne'
    refine ⟨?_, fun hne => ?_⟩
    · have := mul_le_mul_of_nonneg_left (Real.log_le_sub_one_of_pos (div_pos h0 (hp' k))) (hp' k).le
      rw [e, e2] at this
      linarith
    · have := mul_lt_mul_of_pos_left (Real.log_lt_sub_one_of_pos (div_pos h0 (hp' k)) (fun h => hne
        ((div_eq_one_iff_eq (hp' k).ne').mp h).symm)) (hp' k)
      rw [e, e2] at this
      linarith
  refine ⟨?_, fun h0 k => ?_⟩
  · rw [← hsum]
    exact Finset.sum_le_sum fun k _ => (hle k).1
  · by_contra hne
    have := Finset.sum_lt_sum (fun k (_ : k ∈ Finset.univ) => (hle k).1) ⟨k, Finset.mem_univ _, (hle k).2 hne⟩
    rw [hsum, h0] at this
    exact lt_irrefl _ this

/-- The covariance part of the decrease. -/
theorem em_det (hB' : ∀ k f, s'.B k f = rawCovariance Z (q Z s) (post floor Z s) k f) (hpd : ∀ k f, (s'.B k f).PosDef)
    (k : Fin (n + 1)) (f : F) : 0 ≤ Real.log ‖(s.B k f).det‖ - Real.log ‖(s'.B k f).det‖ ∧
    (Real.log ‖(s.B k f).det‖ - Real.log ‖(s'.B k f).det‖ = 0 → s'.B k f = s.B k f) := by
  have w3 := Tr.logdet_le (hs.1.2 k f) (hpd k f)
  have w4 : ((s.B k f)⁻¹ * s'.B k f).trace.re = m := by
    rw [hB']
    exact trace_em floor Z ht s hs k f
  rw [w4] at w3
  exact ⟨by linarith, fun h => Tr.eq_of_logdet (hs.1.2 k f) (hpd k f) (by rw [w4]; linarith)⟩

/-- The M step does not increase the loss, and decreases it unless it changes nothing. -/
theorem em_step (hα' : ∀ k f, s'.α k f = meanT (post floor Z s k f))
    (hB' : ∀ k f, s'.B k f = rawCovariance Z (q Z s) (post floor Z s) k f) (hpd : ∀ k f, (s'.B k f).PosDef)
    (hq' : ∀ k f j, 0 < q Z s' k f j) : val Z s' ≤ val Z s ∧ (val Z s' = val Z s → s' = s) := by
  have ht' : (0 : ℝ) < t := by exact_mod_cast ht
  have hgap := em_gap floor Z ht s hs s' hα' hB' hpd hq'
  have hp' : ∀ k f, 0 < s'.α k f := fun k f => by
    rw [hα', meanT]
    exact div_pos (post_sum_pos floor Z ht s hs k f) ht'
  have hw := fun f => em_weights floor Z ht s hs s' hα' f
  have hd := fun k f => em_det floor Z ht s hs s' hB' hpd k f
  simp only [mul_add, Finset.sum_add_distrib] at hgap
  have n1 : ∀ f k, 0 ≤ s'.α k f * (Real.log ‖(s.B k f).det‖ - Real.log ‖(s'.B k f).det‖) := fun f k =>
    mul_nonneg (hp' k f).le (hd k f).1
  have n2 : ∀ f, 0 ≤ ∑ k, s'.α k f * (Real.log ‖(s.B k f).det‖ - Real.log ‖(s'.B k f).det‖) := fun f =>
    Finset.sum_nonneg fun k _ => n1 f k
  have n3 := Finset.sum_nonneg fun f (_ : f ∈ Finset.univ) => n2 f
  have n4 := Finset.sum_nonneg fun f (_ : f ∈ Finset.univ) => (hw f).1
  refine ⟨by linarith, fun he => ?_⟩
  have z1 : ∑ f, ∑ k, s'.α k f * (Real.log ‖(s.B k f).det‖ - Real.log ‖(s'.B k f).det‖) = 0 := by linarith
  have z2 : ∑ f, ∑ k, s'.α k f * (Real.log (s'.α k f) - Real.log (s.α k f)) = 0 := by linarith
  have hα : s'.α = s.α := by
    funext k f
    exact (hw f).2 ((Finset.sum_eq_zero_iff_of_nonneg fun f _ => (hw f).1).mp z2 f (Finset.mem_univ _)) k
  have hB : s'.B = s.B := by
    funext k f
    have h1 := (Finset.sum_eq_zero_iff_of_nonneg fun f _ => n2 f).mp z1 f (Finset.mem_univ _)
    have h2 := (Finset.sum_eq_zero_iff_of_nonneg fun k _ => n1 f k).mp h1 k (Finset.mem_univ _)
    exact (hd k f).2 ((mul_eq_zero.mp h2).resolve_left (hp' k f).ne')
  obtain ⟨a, b⟩ := s
  obtain ⟨a', b'⟩ := s'
  simp only at hα hB
  rw [hα, hB]

end

/-- C46: the density does not depend on the scale of the covariances, so normalisation does not change the loss. -/
theorem C46_normalise [Nonempty (Fin m)] (Z : F → Fin t → Fin m → ℂ) (s : CSt F n m) (hs : CPos s)
    (hq : ∀ k f j, 0 < q Z s k f j) :
    val Z (normalize s) = val Z s ∧ ∀ k f j, q Z (normalize s) k f j = (s.B k f).trace.re * q Z s k f j := by
  have htr : ∀ k f, 0 < (s.B k f).trace.re := fun k f => (Complex.lt_def.mp (hs.2 k f).trace_pos).1
  have hqn : ∀ k f j, q Z (normalize s) k f j = (s.B k f).trace.re * q Z s k f j := by
    intro k f j
    have hne : ((s.B k f).trace.re : ℂ) ≠ 0 := by exact_mod_cast (htr k f).ne'
    have hinv : ((((s.B k f).trace.re : ℂ))⁻¹ • s.B k f)⁻¹ = ((s.B k f).trace.re : ℂ) • (s.B k f)⁻¹ := by
      refine inv_eq_right_inv ?_
      rw [smul_mul_smul_comm, inv_mul_cancel₀ hne, mul_nonsing_inv _ (Tr.isUnit_det (hs.2 k f)), one_smul]
    simp only [q, normalize, hinv, Linalg.quadratic, vecMul_smul, smul_dotProduct, smul_eq_mul, Complex.re_ofReal_mul]
  refine ⟨?_, hqn⟩
  simp only [val]
  refine Finset.sum_congr rfl fun f _ => ?_
  congr 1
  funext j
  congr 3
  funext k
  congr 1
  have h1 : Real.log ‖((normalize s).B k f).det‖ = Real.log ‖(s.B k f).det‖ - m * Real.log (s.B k f).trace.re := by
    simp only [normalize, det_smul, Fintype.card_fin, norm_mul, norm_pow, norm_inv, Complex.norm_real]
    rw [Real.norm_of_nonneg (htr k f).le, Real.log_mul (pow_ne_zero _ (inv_ne_zero (htr k f).ne'))
      (norm_ne_zero_iff.mpr (Tr.isUnit_det (hs.2 k f)).ne_zero), Real.log_pow, Real.log_inv]
    ring
  simp only [logGamma, h1, hqn]
  rw [Real.log_mul (htr k f).ne' (hq k f j).ne']
  simp only [normalize]
  ring

/-- Regularity of one update: the new covariances are positive definite and unchanged by `to_psd`, and flooring does
not change the new quadratic forms. -/
structure CReg (np : Numpy ℂ) (normalization : Bool) (floor : ℝ → ℝ) (Z : F → Fin t → Fin m → ℂ) (s : CSt F n m) :
    Prop where
  posDef : ∀ k f, (rawCovariance Z (q Z s) (post floor Z s) k f).PosDef
  psd : ∀ k f, toPsd np floor (rawCovariance Z (q Z s) (post floor Z s) k f)
    = rawCovariance Z (q Z s) (post floor Z s) k f
  frames : ∀ f j, Z f j ≠ 0
  result : ∀ s' γ, updateOnce np normalization floor Z s = .ok (s', γ) →
    ∀ k f j, floor (q Z s' k f j) = q Z s' k f j

theorem q_pos {Z : F → Fin t → Fin m → ℂ} (hZ : ∀ f j, Z f j ≠ 0) {s : CSt F n m} (hs : CPos s) (k : Fin (n + 1))
    (f : F) (j : Fin t) : 0 < q Z s k f j := by
  have h := (hs.2 k f).inv.dotProduct_mulVec_pos (hZ f j)
  rw [dotProduct_mulVec] at h
  exact (Complex.lt_def.mp h).1

theorem c_step [Nonempty (Fin m)] (np : Numpy ℂ) (normalization : Bool) (floor : ℝ → ℝ) (Z : F → Fin t → Fin m → ℂ)
    (ht : 0 < t) (s : CSt F n m) (hs : CInv floor Z s) (hr : CReg np normalization floor Z s) :
    ∃ s', (updateOnce np normalization floor Z s).map Prod.fst = .ok s' ∧ CInv floor Z s' ∧ val Z s' ≤ val Z s := by
  obtain ⟨h1, h2⟩ := params_mixing np floor Z ht s
  have hB : ∀ k f, (params np floor Z s).B k f = rawCovariance Z (q Z s) (post floor Z s) k f := by
    intro k f
    simp only [params, quadForm_eq hs]
    exact hr.psd k f
  have hp : CPos (params np floor Z s) := ⟨h1, fun k f => by rw [hB]; exact hr.posDef k f⟩
  have hq := q_pos hr.frames hp
  have hle := em_step floor Z ht s hs (params np floor Z s) (fun _ _ => rfl) hB hp.2 hq |>.1
  have e := updateOnce_eq np normalization floor Z hs.1
  have hres := hr.result _ _ e
  refine ⟨_, by rw [e]; rfl, ?_⟩
  cases normalization
  · exact ⟨⟨hp, h2, fun k f j => ⟨hq k f j, hres k f j⟩⟩, hle⟩
  · have hn := normalize_pos hp
    exact ⟨⟨hn, h2, fun k f j => ⟨q_pos hr.frames hn k f j, hres k f j⟩⟩, (C46_normalise Z _ hp hq).1.trans_le hle⟩

/-- C46: the losses recorded by `CACGMM` never increase, for any number of sources, channels, bins, frames and
iterations, with and without normalisation. -/
theorem C46_em [Nonempty (Fin m)] (np : Numpy ℂ) (normalization : Bool) (floor : ℝ → ℝ) (Z : F → Fin t → Fin m → ℂ)
    (ht : 0 < t) (s : CSt F n m) (hs : CInv floor Z s) (n_iter : ℕ)
    (hreg : RegularRun (fun s => (updateOnce np normalization floor Z s).map Prod.fst)
      (CReg np normalization floor Z) n_iter s) :
    ∃ ls, lossList (fun s => (updateOnce np normalization floor Z s).map Prod.fst) (loss floor Z) n_iter s = .ok ls ∧
      ls.length = n_iter + 1 ∧ ls.Pairwise (· ≥ ·) := by
  obtain ⟨ls, h1, h2, h3, -⟩ := lossList_antitone (fun s => (updateOnce np normalization floor Z s).map Prod.fst)
    (loss floor Z) (CInv floor Z) (CReg np normalization floor Z) (val Z) (fun s hs => loss_eq hs)
    (fun s hs hr => c_step np normalization floor Z ht s hs hr) n_iter s hs hreg
  exact ⟨ls, h1, h2, h3⟩

/-- Without flooring, when no frame is silent and the channels are linearly independent in every bin, every update is
regular. -/
theorem creg_id [Nonempty (Fin m)] (np : Numpy ℂ) (normalization : Bool) (X : Spec F m t) (ht : 0 < t)
    (hX : ∀ f, LinearIndependent ℂ (X f).row) (hX0 : ∀ f j, ∃ c, X f c j ≠ 0) :
    (∀ s : CSt F n m, CPos s → (∀ f, ∑ k, s.α k f = 1) → CInv id (unitInput id X) s) ∧
    ∀ s : CSt F n m, CInv id (unitInput id X) s → CReg np normalization id (unitInput id X) s := by
  set Z := unitInput id X with hZd
  have hnorm : ∀ f j, 0 < Real.sqrt (∑ c, ‖X f c j‖ ^ 2) := by
    intro f j
    obtain ⟨c, hc⟩ := hX0 f j
    exact Real.sqrt_pos.mpr (Finset.sum_pos' (fun c _ => by positivity)
      ⟨c, Finset.mem_univ c, pow_pos (norm_pos_iff.mpr hc) 2⟩)
  have hnc : ∀ f j, ((Real.sqrt (∑ c, ‖X f c j‖ ^ 2) : ℝ) : ℂ) ≠ 0 := fun f j => by exact_mod_cast (hnorm f j).ne'
  have hZ : ∀ f j, Z f j ≠ 0 := by
    intro f j h
    obtain ⟨c, hc⟩ := hX0 f j
    have := congrFun h c
    simp only [hZd, unitInput, id, Pi.zero_apply, div_eq_zero_iff] at this
    exact this.elim hc (hnc f j)
  have hpd : ∀ s : CSt F n m, CPos s → ∀ k f, (rawCovariance Z (q Z s) (post id Z s) k f).PosDef := by
    intro s hs k f
    have : Nonempty (Fin t) := ⟨⟨0, ht⟩⟩
    have hΓ : 0 < ∑ j, post id Z s k f j := Finset.sum_pos (fun j _ => post_pos id Z s k f j) Finset.univ_nonempty
    have hm : (0 : ℝ) < m := by
      obtain ⟨c⟩ := ‹Nonempty (Fin m)›
      exact_mod_cast (Fin.pos c)
    have hmc : (m : ℂ) = ((m : ℝ) : ℂ) := by push_cast; rfl
    rw [rawCovariance, hmc, ← Complex.ofReal_inv]
    refine Tr.smul_posDef (Tr.smul_posDef ?_ (inv_pos.mpr hΓ)) hm
    have hw : ∀ j, 0 < post id Z s k f j / q Z s k f j := fun j => div_pos (post_pos id Z s k f j) (q_pos hZ hs k f j)
    refine PosDef.of_dotProduct_mulVec_pos ?_ fun v hv => ?_
    · rw [IsHermitian, conjTranspose_sum]
      refine Finset.sum_congr rfl fun j _ => ?_
      ext a b
      simp only [conjTranspose_apply, Matrix.smul_apply, of_apply, smul_eq_mul, star_mul', star_star]
      rw [Complex.star_def, Complex.conj_ofReal]
      ring
    · have hquad : star v ⬝ᵥ ((∑ j, (((post id Z s k f j / q Z s k f j : ℝ) : ℂ)
          • Matrix.of fun a b => Z f j a * star (Z f j b))) *ᵥ v)
          = ((∑ j, post id Z s k f j / q Z s k f j * ‖star v ⬝ᵥ Z f j‖ ^ 2 : ℝ) : ℂ) := by
        rw [sum_mulVec, dotProduct_sum, Complex.ofReal_sum]
        refine Finset.sum_congr rfl fun j _ => ?_
        rw [smul_mulVec, dotProduct_smul, smul_eq_mul, Complex.ofReal_mul]
        congr 1
        have h1 : star v ⬝ᵥ (Matrix.of (fun a b => Z f j a * star (Z f j b)) *ᵥ v)
            = (star v ⬝ᵥ Z f j) * star (star v ⬝ᵥ Z f j) := by
          simp only [dotProduct, mulVec, of_apply, Pi.star_apply, star_sum, star_mul', star_star]
          rw [Finset.sum_mul_sum]
          refine Finset.sum_congr rfl fun a _ => ?_
          rw [Finset.mul_sum]
          refine Finset.sum_congr rfl fun b _ => ?_
          ring
        rw [h1, Complex.star_def, Complex.mul_conj, Complex.normSq_eq_norm_sq]
      rw [hquad]
      refine Complex.zero_lt_real.mpr ?_
      have hex : ∃ j, star v ⬝ᵥ Z f j ≠ 0 := by
        by_contra hno
        push Not at hno
        refine hv ?_
        have hlin := Fintype.linearIndependent_iff.mp (hX f) (star v) ?_
        · funext c
          have := hlin c
          simpa using this
        · funext j
          have := hno j
          simp only [dotProduct, hZd, unitInput, id, ← mul_div_assoc, ← Finset.sum_div, div_eq_zero_iff, hnc, or_false]
            at this
          simpa [Matrix.row, Finset.sum_apply] using this
      obtain ⟨j, hj⟩ := hex
      exact Finset.sum_pos' (fun j _ => mul_nonneg (hw j).le (by positivity))
        ⟨j, Finset.mem_univ j, mul_pos (hw j) (pow_pos (norm_pos_iff.mpr hj) 2)⟩
  exact ⟨fun s hs h => ⟨hs, h, fun k f j => ⟨q_pos hZ hs k f j, rfl⟩⟩, fun s hs =>
    ⟨hpd s hs.1, fun k f => toPsd_id np (hpd s hs.1 k f).1, hZ, fun _ _ _ _ _ _ => rfl⟩⟩

/-- C46: without flooring, when no frame is silent and the channels are linearly independent in every bin, every run
from positive parameters is regular: the recorded losses never increase. -/
theorem C46_unfloored [Nonempty (Fin m)] (np : Numpy ℂ) (normalization : Bool) (X : Spec F m t) (ht : 0 < t)
    (hX : ∀ f, LinearIndependent ℂ (X f).row) (hX0 : ∀ f j, ∃ c, X f c j ≠ 0) (s : CSt F n m) (hs : CPos s)
    (hα : ∀ f, ∑ k, s.α k f = 1) (n_iter : ℕ) :
    ∃ ls, lossList (fun s => (updateOnce np normalization id (unitInput id X) s).map Prod.fst)
      (loss id (unitInput id X)) n_iter s = .ok ls ∧ ls.length = n_iter + 1 ∧ ls.Pairwise (· ≥ ·) := by
  obtain ⟨hI, hReg⟩ := creg_id (n := n) np normalization X ht hX hX0
  refine C46_em np normalization id (unitInput id X) ht s (hI s hs hα) n_iter ?_
  refine regularRun_of_inv (CInv id (unitInput id X)) hReg (fun s s' hs h => ?_) _ _ (hI s hs hα)
  obtain ⟨s'', e1, e2, -⟩ := c_step np normalization id (unitInput id X) ht s hs (hReg s hs)
  rw [h] at e1
  cases e1
  exact e2

/-- Two channels that are not multiples of each other, three frames, two sources. -/
example (np : Numpy ℂ) (n_iter : ℕ) (s : CSt Unit 1 2) (hs : CPos s) (hα : ∀ f, ∑ k, s.α k f = 1) :
    ∃ ls, lossList (fun s => (updateOnce np true id (unitInput id fun _ : Unit => !![1, 2, 0; 0, 1, 1]) s).map Prod.fst)
      (loss id (unitInput id fun _ => !![1, 2, 0; 0, 1, 1])) n_iter s = .ok ls ∧ ls.length = n_iter + 1 ∧
      ls.Pairwise (· ≥ ·) := by
  refine C46_unfloored np true (fun _ : Unit => !![1, 2, 0; 0, 1, 1]) (by norm_num) (fun _ => ?_) (fun _ j => ?_) s hs
    hα n_iter
  · rw [Fintype.linearIndependent_iff]
    intro g hg i
    have h0 := congrFun hg 0
    have h2 := congrFun hg 2
    simp [Fin.sum_univ_two, Matrix.row] at h0 h2
    fin_cases i
    · exact h0
    · exact h2
  · fin_cases j
    · exact ⟨0, by simp⟩
    · exact ⟨0, by simp⟩
    · exact ⟨1, by simp⟩

end Verif.Cacgmm
