import Verif.Props.CacgmmCall
import Verif.Props.EigPhase
import Verif.Props.Phase2

/-! # C111: `CACGMM` sees the directions of the observations only, not how loud they are -/

namespace Verif.Cacgmm

open Matrix Spatial Scale
open Fdica (PermOpt)

variable {F : Type} [Fintype F] {B n m t : ℕ}

/-- The length of the observation at one time-frequency point. -/
noncomputable def loudness (X : Spec F m t) (f : F) (j : Fin t) : ℝ := Real.sqrt (∑ c, ‖X f c j‖ ^ 2)

/-- Every time-frequency point is either silent in all channels, or the flooring function leaves its length alone, both
in the recording and after multiplication with `g`. -/
def Loud (floor : ℝ → ℝ) (g : F → Fin t → ℂ) (X : Spec F m t) : Prop :=
  ∀ f j, (∀ c, X f c j = 0) ∨
    (floor (loudness X f j) = loudness X f j ∧ floor (‖g f j‖ * loudness X f j) = ‖g f j‖ * loudness X f j)

/-- The phase of a number. -/
noncomputable def phase (g : F → Fin t → ℂ) (f : F) (j : Fin t) : ℂ := g f j / (‖g f j‖ : ℂ)

omit [Fintype F] in
theorem phase_norm {g : F → Fin t → ℂ} (hg : ∀ f j, g f j ≠ 0) (f : F) (j : Fin t) : ‖phase g f j‖ = 1 := by
  rw [phase, norm_div, Complex.norm_real, norm_norm, div_self (norm_ne_zero_iff.mpr (hg f j))]

theorem unitInput_gain {floor : ℝ → ℝ} {g : F → Fin t → ℂ} (hg : ∀ f j, g f j ≠ 0) {X : Spec F m t}
    (h : Loud floor g X) : unitInput floor (turn g X) = unitInput floor (turn (phase g) X) := by
  funext f j c
  have hn : ‖g f j‖ ≠ 0 := norm_ne_zero_iff.mpr (hg f j)
  rw [unitInput_turn (phase_norm hg)]
  simp only [unitInput]
  rcases h f j with h0 | ⟨h1, h2⟩
  · rw [turn_apply, h0 c, mul_zero, zero_div, zero_div, mul_zero]
  · have e : Real.sqrt (∑ c, ‖turn g X f c j‖ ^ 2) = ‖g f j‖ * loudness X f j := by
      simp only [turn_apply, norm_mul, mul_pow, ← Finset.mul_sum]
      rw [Real.sqrt_mul (sq_nonneg _), Real.sqrt_sq (norm_nonneg _), loudness]
    rw [e, h2, show Real.sqrt (∑ c, ‖X f c j‖ ^ 2) = loudness X f j from rfl, h1, turn_apply, phase]
    push_cast
    rw [div_mul_div_comm]

theorem updatePosterior_gain {floor : ℝ → ℝ} {g : F → Fin t → ℂ} (hg : ∀ f j, g f j ≠ 0) {X : Spec F m t}
    (h : Loud floor g X) (s : CSt F n m) :
    updatePosterior floor (unitInput floor (turn g X)) s = updatePosterior floor (unitInput floor X) s := by
  simp only [updatePosterior, unitInput_gain hg h, quadForm_turn (phase_norm hg)]

theorem updateOnce_gain (np : Numpy ℂ) (normalization : Bool) {floor : ℝ → ℝ} {g : F → Fin t → ℂ}
    (hg : ∀ f j, g f j ≠ 0) {X : Spec F m t} (h : Loud floor g X) :
    updateOnce (n := n) np normalization floor (unitInput floor (turn g X))
      = updateOnce np normalization floor (unitInput floor X) := by
  funext s
  have hr : ∀ q γ (k : Fin (n + 1)) f, rawCovariance (unitInput floor (turn (phase g) X)) q γ k f
      = rawCovariance (unitInput floor X) q γ k f := fun q γ k f => by
    simp only [rawCovariance, unitInput_turn (phase_norm hg), unit_mul_star (phase_norm hg _ _)]
  simp only [updateOnce, updateParameters, updatePosterior_gain hg h]
  rw [unitInput_gain hg h]
  simp only [quadForm_turn (phase_norm hg), hr]

theorem iterate_gain (np : Numpy ℂ) (normalization : Bool) {floor : ℝ → ℝ} {g : F → Fin t → ℂ}
    (hg : ∀ f j, g f j ≠ 0) {X : Spec F m t} (h : Loud floor g X) (n_iter : ℕ) (s : CSt F n m) :
    iterate np normalization floor (unitInput floor (turn g X)) n_iter s
      = iterate np normalization floor (unitInput floor X) n_iter s := by
  induction n_iter generalizing s with
  | zero => rfl
  | succ N ih => simp only [iterate, updateOnce_gain np normalization hg h, ih]

omit [Fintype F] in
theorem separateP_gain (g : F → Fin t → ℂ) (X : Spec F m t) (r : Fin m) (γ : Posterior F n t) :
    separateP (turn g X) r γ = fun k f j => g f j * separateP X r γ k f j := by
  funext k f j
  simp only [separateP, turn_apply]
  ring

/-- C111: if every time-frequency point of a recording is multiplied by a nonzero complex number, the same for all
channels, `n_iter` iterations of `CACGMM` and any reordering of the sources give the same mixing weights, covariances
and posteriors, and the separated signals are multiplied by the same numbers; exceptions included. -/
theorem C111_call (np : Numpy ℂ) (normalization : Bool) {floor : ℝ → ℝ} {g : F → Fin t → ℂ} (hg : ∀ f j, g f j ≠ 0)
    {X : Spec F m t} (h : Loud floor g X) (r : Fin m) (σ : F → Equiv.Perm (Fin (n + 1))) (n_iter : ℕ) (s : CSt F n m) :
    call np normalization floor (turn g X) r σ n_iter s
      = (call np normalization floor X r σ n_iter s).map fun p => (p.1, p.2.1, fun k f j => g f j * p.2.2 k f j) := by
  simp only [call, iterate_gain np normalization hg h]
  rw [map_bind]
  congr 1
  funext s
  simp only [updatePosterior_gain hg h]
  rw [map_bind]
  congr 1
  funext γ
  simp only [Except.map, separateP_gain]

/-- C111: and all recorded losses are the same. -/
theorem C111_loss (np : Numpy ℂ) (normalization : Bool) {floor : ℝ → ℝ} {g : F → Fin t → ℂ} (hg : ∀ f j, g f j ≠ 0)
    {X : Spec F m t} (h : Loud floor g X) (n_iter : ℕ) (s : CSt F n m) :
    lossList (fun s => (updateOnce np normalization floor (unitInput floor (turn g X)) s).map Prod.fst)
        (loss floor (unitInput floor (turn g X))) n_iter s
      = lossList (fun s => (updateOnce np normalization floor (unitInput floor X) s).map Prod.fst)
        (loss floor (unitInput floor X)) n_iter s := by
  have hl : loss (n := n) floor (unitInput floor (turn g X)) = loss floor (unitInput floor X) := by
    funext s
    simp only [loss, unitInput_gain hg h, quadForm_turn (phase_norm hg)]
  rw [updateOnce_gain np normalization hg h, hl]

/-- C111: the whole call from a state of the random number generator, with every setting of `permutation_alignment` other
than the two that look at amplitudes, in particular the default: the same mixing weights, covariances and posteriors in
the same order, and outputs multiplied by the same numbers. -/
theorem C111_callWith {R : Type} (np : Numpy ℂ) (srt : Permutation.Argsort)
    (draw : R → ((Fin (n + 1) → Fin B → ℝ) × (Fin (n + 1) → Fin B → Fin m → ℝ)) × R) (normalization : Bool)
    (opt : PermOpt) (h1 : opt ≠ .str "amplitude_score") (h2 : opt ≠ .str "amplitude_correlation")
    (globalIter localIter : Option ℤ) {floor : ℝ → ℝ} {g : Fin B → Fin t → ℂ} (hg : ∀ f j, g f j ≠ 0)
    {X : Spec (Fin B) m t} (h : Loud floor g X) (r : Fin m) (n_iter : ℕ) (rng : R) :
    callWith np srt draw normalization opt globalIter localIter floor (turn g X) r n_iter rng
      = (callWith np srt draw normalization opt globalIter localIter floor X r n_iter rng).map
          fun p => (p.1, p.2.1, p.2.2.1, fun k f j => g f j * p.2.2.2 k f j) := by
  have hs : ∀ (s : CSt (Fin B) n m) γ, solvePermutation srt opt globalIter localIter floor (turn g X) r s γ
      = solvePermutation srt opt globalIter localIter floor X r s γ := by
    intro s γ
    cases opt with
    | bool b => cases b <;> simp [solvePermutation, solveByScore, Bind.bind, Except.bind]
    | str a =>
      have k1 : a ≠ "amplitude_score" := fun e => h1 (congrArg _ e)
      have k2 : a ≠ "amplitude_correlation" := fun e => h2 (congrArg _ e)
      by_cases e1 : a = "posterior_score"
      · simp [solvePermutation, solveByScore, Bind.bind, Except.bind, e1]
      · by_cases e2 : a = "posterior_correlation"
        · simp [solvePermutation, solveByCorrelation, Bind.bind, Except.bind, e2]
        · simp [solvePermutation, Bind.bind, Except.bind, e1, e2, k1, k2]
  simp only [callWith, iterate_gain np normalization hg h]
  rw [map_bind]
  congr 1
  funext s
  simp only [updatePosterior_gain hg h, hs]
  rw [map_bind]
  congr 1
  funext γ
  split
  · rw [map_bind]
    congr 1
    funext p
    simp only [Except.map, separateP_gain]
  · simp only [Bind.bind, Except.bind, Except.map, separateP_gain]

/-- C111: with the settings that align amplitudes the call of the louder recording gives the parameters and posteriors of
the original up to the order of the sources in every bin. -/
theorem C111_amplitude {R : Type} (np : Numpy ℂ) (srt : Permutation.Argsort)
    (draw : R → ((Fin (n + 1) → Fin B → ℝ) × (Fin (n + 1) → Fin B → Fin m → ℝ)) × R) (normalization : Bool)
    (opt : PermOpt) (globalIter localIter : Option ℤ) (hopt : ValidOption opt globalIter localIter) {floor : ℝ → ℝ}
    {g : Fin B → Fin t → ℂ} (hg : ∀ f j, g f j ≠ 0) {X : Spec (Fin B) m t} (h : Loud floor g X) (hB : 0 < B) (r : Fin m)
    (n_iter : ℕ) (rng : R) :
    ∃ τ : Fin B → Equiv.Perm (Fin (n + 1)),
      callWith np srt draw normalization opt globalIter localIter floor (turn g X) r n_iter rng
        = (callWith np srt draw normalization opt globalIter localIter floor X r n_iter rng).map
            fun p => (p.1, (align τ p.2.1 p.2.2.1).1, (align τ p.2.1 p.2.2.1).2,
              fun k f j => g f j * p.2.2.2 (τ f k) f j) := by
  obtain ⟨σ, e⟩ := C85_call np srt draw normalization opt globalIter localIter hopt floor X r n_iter rng hB
  obtain ⟨σ', e'⟩ := C85_call np srt draw normalization opt globalIter localIter hopt floor (turn g X) r n_iter rng hB
  refine ⟨fun f => (σ' f).trans (σ f).symm, ?_⟩
  rw [e, e', C111_call np normalization hg h]
  simp only [call, Bind.bind, Except.bind, Except.map]
  cases iterate np normalization floor (unitInput floor X) n_iter (initParameters (draw rng).1.1 (draw rng).1.2) with
  | error => rfl
  | ok s =>
    simp only []
    cases updatePosterior floor (unitInput floor X) s with
    | error => rfl
    | ok γ => simp [align, separateP]

/-- The hypotheses are met with the default flooring function: three frames, the last one silent, and gains that differ
from frame to frame, one of them a phase. -/
example : ∃ g : Fin 1 → Fin 3 → ℂ, (∀ f j, g f j ≠ 0) ∧ g 0 0 ≠ g 0 1 ∧
    Loud (Special.max_flooring (1 / 10 ^ 10)) g (fun _ : Fin 1 => (!![1, 2, 0; 0, 1, 0] : Matrix (Fin 2) (Fin 3) ℂ)) := by
  have k1 : (1 : ℝ) ≤ Real.sqrt 5 := by rw [Real.one_le_sqrt]; norm_num
  refine ⟨fun _ j => if j = 0 then 2 else Complex.I, ?_, ?_, ?_⟩
  · intro f j
    dsimp only
    split
    · exact two_ne_zero
    · exact Complex.I_ne_zero
  · simp only [if_true]
    intro h
    simpa using congrArg Complex.re h
  · intro f j
    fin_cases j
    · right
      simp [loudness, Special.max_flooring, Fin.sum_univ_two]
      norm_num
    · right
      have e : Real.sqrt (2 ^ 2 + 1 : ℝ) = Real.sqrt 5 := by norm_num
      simp [loudness, Special.max_flooring, Fin.sum_univ_two, e]
      linarith
    · left
      intro c
      fin_cases c <;> rfl

end Verif.Cacgmm
