import Verif.Model.CacgmmCall
import Verif.Props.Cacgmm
import Verif.Props.PermScore

/-!
# C85: the call of a cACGMM separator: initial parameters, alignment, options
-/

set_option linter.unusedSectionVars false

namespace Verif

open Matrix Spatial Scale Permutation
open scoped ComplexOrder

namespace Permutation

variable {B S T : ℕ} {α : Type}

/-- What `g` global and `l` local iterations of the score-based solver make of `x`: steps that are optimal each in turn
(`GlobalAligned`, `LocalSweep`). -/
def ScoreAligned (floor : ℝ → ℝ) (g l : ℕ) (x x' : Fin B → Fin S → Fin T → ℝ) : Prop :=
  ∃ y w : ℕ → Fin B → Fin S → Fin T → ℝ, y 0 = x ∧
    (∀ i < g, GlobalAligned (fun a => a) floor (y i) (y (i + 1))) ∧ w 0 = y g ∧
    (∀ i < l, LocalSweep (fun a => a) floor (fun k => stddev (centre (y (g - 1)) k)) (w i) (w (i + 1))) ∧ w l = x'

theorem GlobalAligned.values {val : α → Fin T → ℝ} {floor : ℝ → ℝ} {x x' : Fin B → Fin S → α}
    (h : GlobalAligned val floor x x') :
    GlobalAligned (fun a => a) floor (fun b i => val (x b i)) (fun b i => val (x' b i)) := by
  obtain ⟨σ, h1, h2⟩ := h
  exact ⟨σ, fun b i => congrArg val (h1 b i), h2⟩

theorem LocalAligned.values {val : α → Fin T → ℝ} {floor : ℝ → ℝ} {s : Fin S → ℝ} {b : Fin B} {x x' : Fin B → Fin S → α}
    (h : LocalAligned val floor s b x x') :
    LocalAligned (fun a => a) floor s b (fun b i => val (x b i)) (fun b i => val (x' b i)) := by
  obtain ⟨σ, h1, h2, h3⟩ := h
  exact ⟨σ, fun i => congrArg val (h1 i), fun c hc => funext fun i => congrArg val (congrFun (h2 c hc) i), h3⟩

theorem LocalSweep.values {val : α → Fin T → ℝ} {floor : ℝ → ℝ} {s : Fin S → ℝ} {x x' : Fin B → Fin S → α}
    (h : LocalSweep val floor s x x') :
    LocalSweep (fun a => a) floor s (fun b i => val (x b i)) (fun b i => val (x' b i)) := by
  obtain ⟨v, h0, h1, h2⟩ := h
  exact ⟨fun i b k => val (v i b k), by simp only [h0], by simp only [h1], fun b => (h2 b).values⟩

/-- The score-based solver called as in `cacgmm.py`: the arguments are overwritten and reordered like the sequence, and
the sequence is aligned. -/
theorem score_call (val : α → Fin T → ℝ) (floor : ℝ → ℝ) (g l : ℤ) (args : List ℕ) (st : Store B S α)
    (hv : ValidCall true 0 args st) (hit : 1 ≤ g ∨ l ≤ 0) :
    ∃ (Y : ℕ) (st' : Store B S α) (σ : Fin B → Equiv.Perm (Fin S)),
      scoreSolver val floor g l false true 0 args st = .ok (Y, args, st') ∧
      (∀ b i, st'.mem Y b i = st.mem 0 b (σ b i)) ∧ (∀ r ∈ args, ∀ b i, st'.mem r b i = st.mem r b (σ b i)) ∧
      ScoreAligned floor g.toNat l.toNat (fun b i => val (st.mem 0 b i)) fun b i => val (st.mem 0 b (σ b i)) := by
  obtain ⟨Y, ps, st', h, σ, h1, h2⟩ := C27_score val floor g l true 0 args st hv hit
  obtain ⟨rfl, -⟩ := (C29_score val floor g l true 0 args st hv hit Y ps st' h).2 rfl
  obtain ⟨y, w, hy0, hy, hw0, hw, hw1⟩ := C81_steps val floor g l true 0 ps st hv hit Y ps st' h
  refine ⟨Y, st', σ, h, h1, List.forall₂_same.mp h2, fun i b k => val (y i b k), fun i b k => val (w i b k),
    by simp only [hy0], fun i hi => (hy i hi).values, by simp only [hw0], fun i hi => (hw i hi).values, ?_⟩
  simp only [← hw1, h1]

end Permutation

namespace Cacgmm

open Fdica (PermOpt)

variable {B n m t : ℕ}

private theorem score_posterior (g l : ℤ) (floor : ℝ → ℝ) (X : Spec (Fin B) m t) (r : Fin m) (s : CSt (Fin B) n m)
    (γ : Posterior (Fin B) n t) (hit : 1 ≤ g ∨ l ≤ 0) :
    ∃ σ, solveByScore "posterior" g l floor X r s γ = .ok (align σ s γ) ∧
      ScoreAligned floor g.toNat l.toNat (fun b k => γ k b) fun b k => (align σ s γ).2 k b := by
  obtain ⟨st, hst⟩ : ∃ st : Store B (n + 1) (Cell m t), st = ⟨fun r b k =>
      if r = 0 then .posterior (γ k b) else if r = 1 then .mixing (s.α k b) else .covariance (s.B k b), 3⟩ := ⟨_, rfl⟩
  obtain ⟨Y, st', σ, h, h1, h2, h3⟩ := score_call Cell.real floor g l [1, 2] st
    ⟨by rw [hst]; simp, fun _ => by decide⟩ hit
  have m0 : st.mem 0 = fun b k => .posterior (γ k b) := by rw [hst]; rfl
  have m1 : st.mem 1 = fun b k => .mixing (s.α k b) := by rw [hst]; rfl
  have m2 : st.mem 2 = fun b k => .covariance (s.B k b) := by rw [hst]; rfl
  refine ⟨σ, ?_, by rw [m0] at h3; exact h3⟩
  rw [solveByScore, if_pos rfl, ← hst]
  simp only [h, Bind.bind, Except.bind, readBack, h1, h2 1 (by simp), h2 2 (by simp), m0, m1, m2]
  rfl

private theorem score_amplitude (g l : ℤ) (floor : ℝ → ℝ) (X : Spec (Fin B) m t) (r : Fin m) (s : CSt (Fin B) n m)
    (γ : Posterior (Fin B) n t) (hit : 1 ≤ g ∨ l ≤ 0) :
    ∃ σ, solveByScore "amplitude" g l floor X r s γ = .ok (align σ s γ) ∧
      ScoreAligned floor g.toNat l.toNat (fun b k j => ‖separateP X r γ k b j‖)
        fun b k j => ‖separateP X r (align σ s γ).2 k b j‖ := by
  obtain ⟨st, hst⟩ : ∃ st : Store B (n + 1) (Cell m t), st = ⟨fun q b k =>
      if q = 0 then .amplitude (fun j => ‖separateP X r γ k b j‖)
      else if q = 1 then .mixing (s.α k b) else if q = 2 then .covariance (s.B k b) else .posterior (γ k b), 4⟩ :=
    ⟨_, rfl⟩
  obtain ⟨Y, st', σ, h, h1, h2, h3⟩ := score_call Cell.real floor g l [1, 2, 3] st
    ⟨by rw [hst]; simp, fun _ => by decide⟩ hit
  have m0 : st.mem 0 = fun b k => .amplitude (fun j => ‖separateP X r γ k b j‖) := by rw [hst]; rfl
  have m1 : st.mem 1 = fun b k => .mixing (s.α k b) := by rw [hst]; rfl
  have m2 : st.mem 2 = fun b k => .covariance (s.B k b) := by rw [hst]; rfl
  have m3 : st.mem 3 = fun b k => .posterior (γ k b) := by rw [hst]; rfl
  refine ⟨σ, ?_, by rw [m0] at h3; exact h3⟩
  rw [solveByScore, if_neg (by decide), if_pos rfl, ← hst]
  simp only [h, Bind.bind, Except.bind, readBack, h2 1 (by simp), h2 2 (by simp), h2 3 (by simp), m1, m2, m3]
  rfl

private theorem correlation_amplitude (srt : Argsort) (floor : ℝ → ℝ) (X : Spec (Fin B) m t) (r : Fin m)
    (s : CSt (Fin B) n m) (γ : Posterior (Fin B) n t) (hB : 0 < B) :
    ∃ σ first rest, solveByCorrelation srt "amplitude" floor X r s γ = .ok (align σ s γ) ∧ σ first = 1 ∧
      IsOrder (fun (y : Fin t → ℂ) j => ‖y j‖) floor (fun b k => separateP X r γ k b) (first :: rest) ∧
      Aligned (fun (y : Fin t → ℂ) j => ‖y j‖) floor (first :: rest) fun b k => separateP X r (align σ s γ).2 k b := by
  obtain ⟨st, hst⟩ : ∃ st : Store B (n + 1) (Cell m t), st = ⟨fun q b k =>
      if q = 0 then .spectrogram (separateP X r γ k b)
      else if q = 1 then .mixing (s.α k b) else if q = 2 then .covariance (s.B k b) else .posterior (γ k b), 4⟩ :=
    ⟨_, rfl⟩
  obtain ⟨Y, ps, st', σ, order, h, hF, hO, -, h1, hA, -, ht, -⟩ := correlation_main srt Cell.mag floor true 0 [1, 2, 3] st hB
    ⟨by rw [hst]; simp, fun _ => by decide⟩
  obtain ⟨rfl, rfl, -⟩ := ht rfl
  simp only [List.forall₂_cons] at hF
  obtain ⟨h0, hm1, hm2, hm3, -⟩ := hF
  have m0 : st.mem 0 = fun b k => .spectrogram (separateP X r γ k b) := by rw [hst]; rfl
  have m1 : st.mem 1 = fun b k => .mixing (s.α k b) := by rw [hst]; rfl
  have m2 : st.mem 2 = fun b k => .covariance (s.B k b) := by rw [hst]; rfl
  have m3 : st.mem 3 = fun b k => .posterior (γ k b) := by rw [hst]; rfl
  have m0' : st'.mem 0 = fun b k => .spectrogram (separateP X r (align σ s γ).2 k b) := by
    funext b k
    rw [h0, m0]
    rfl
  cases order with
  | nil => exact absurd (hO.all ⟨0, hB⟩) (by simp)
  | cons first rest =>
    refine ⟨σ, first, rest, ?_, h1, ⟨hO.nodup, hO.all, ?_⟩, ?_⟩
    · rw [solveByCorrelation, if_neg (by simp), ← hst]
      simp only [h, Bind.bind, Except.bind, readBack, hm1, hm2, hm3, m1, m2, m3]
      rfl
    · have := hO.ascending
      rw [m0] at this
      exact this
    · rw [m0'] at hA
      exact hA

/-- C85: with `permutation_alignment=True` or `"posterior_score"` the sources of every bin are put in another order, the
same one for mixing weights, covariances and posterior, and the posteriors are aligned by score. -/
theorem C85_posterior_score (srt : Argsort) (opt : PermOpt) (hopt : opt = .bool true ∨ opt = .str "posterior_score")
    (g l : Option ℤ) (hit : 1 ≤ g.getD 1 ∨ l.getD 1 ≤ 0) (floor : ℝ → ℝ) (X : Spec (Fin B) m t) (r : Fin m)
    (s : CSt (Fin B) n m) (γ : Posterior (Fin B) n t) :
    ∃ σ, solvePermutation srt opt g l floor X r s γ = .ok (align σ s γ) ∧
      ScoreAligned floor (g.getD 1).toNat (l.getD 1).toNat (fun b k => γ k b) fun b k => (align σ s γ).2 k b := by
  obtain ⟨σ, h, hA⟩ := score_posterior (g.getD 1) (l.getD 1) floor X r s γ hit
  refine ⟨σ, ?_, hA⟩
  rcases hopt with rfl | rfl <;> simpa [solvePermutation, PermOpt.truthy, Bind.bind, Except.bind] using h

/-- C85: with `"amplitude_score"` the magnitudes of the separated signals are aligned by score. -/
theorem C85_amplitude_score (srt : Argsort) (g l : Option ℤ) (hit : 1 ≤ g.getD 1 ∨ l.getD 1 ≤ 0) (floor : ℝ → ℝ)
    (X : Spec (Fin B) m t) (r : Fin m) (s : CSt (Fin B) n m) (γ : Posterior (Fin B) n t) :
    ∃ σ, solvePermutation srt (.str "amplitude_score") g l floor X r s γ = .ok (align σ s γ) ∧
      ScoreAligned floor (g.getD 1).toNat (l.getD 1).toNat (fun b k j => ‖separateP X r γ k b j‖)
        fun b k j => ‖separateP X r (align σ s γ).2 k b j‖ := by
  obtain ⟨σ, h, hA⟩ := score_amplitude (g.getD 1) (l.getD 1) floor X r s γ hit
  exact ⟨σ, by simpa [solvePermutation, PermOpt.truthy, Bind.bind, Except.bind] using h, hA⟩

/-- C85: with `"amplitude_correlation"` the separated signals are aligned by correlation. -/
theorem C85_amplitude_correlation (srt : Argsort) (g l : Option ℤ) (floor : ℝ → ℝ) (X : Spec (Fin B) m t) (r : Fin m)
    (s : CSt (Fin B) n m) (γ : Posterior (Fin B) n t) (hB : 0 < B) :
    ∃ σ first rest, solvePermutation srt (.str "amplitude_correlation") g l floor X r s γ = .ok (align σ s γ) ∧
      σ first = 1 ∧
      IsOrder (fun (y : Fin t → ℂ) j => ‖y j‖) floor (fun b k => separateP X r γ k b) (first :: rest) ∧
      Aligned (fun (y : Fin t → ℂ) j => ‖y j‖) floor (first :: rest) fun b k => separateP X r (align σ s γ).2 k b := by
  obtain ⟨σ, first, rest, h, hA⟩ := correlation_amplitude srt floor X r s γ hB
  exact ⟨σ, first, rest, by simpa [solvePermutation, PermOpt.truthy, Bind.bind, Except.bind] using h, hA⟩

/-- The options with which a call can succeed: alignment off, by score (with at least one global iteration if there is a
local one) or by correlation of the amplitudes. -/
def ValidOption (opt : PermOpt) (g l : Option ℤ) : Prop :=
  opt = .bool false ∨ opt = .str "" ∨ opt = .str "amplitude_correlation" ∨
    ((opt = .bool true ∨ opt = .str "posterior_score" ∨ opt = .str "amplitude_score") ∧
      (1 ≤ g.getD 1 ∨ l.getD 1 ≤ 0))

private theorem valid_step (srt : Argsort) {opt : PermOpt} {g l : Option ℤ} (hopt : ValidOption opt g l) (floor : ℝ → ℝ)
    (X : Spec (Fin B) m t) (r : Fin m) (s : CSt (Fin B) n m) (γ : Posterior (Fin B) n t) (hB : 0 < B) :
    ∃ σ, (if opt.truthy then solvePermutation srt opt g l floor X r s γ else .ok (s, γ)) = .ok (align σ s γ) := by
  rcases hopt with rfl | rfl | rfl | ⟨h, hit⟩
  · exact ⟨1, rfl⟩
  · exact ⟨1, rfl⟩
  · obtain ⟨σ, -, -, h, -⟩ := C85_amplitude_correlation srt g l floor X r s γ hB
    exact ⟨σ, h⟩
  · rcases h with rfl | rfl | rfl
    · obtain ⟨σ, h, -⟩ := C85_posterior_score srt _ (.inl rfl) g l hit floor X r s γ
      exact ⟨σ, h⟩
    · obtain ⟨σ, h, -⟩ := C85_posterior_score srt _ (.inr rfl) g l hit floor X r s γ
      exact ⟨σ, h⟩
    · obtain ⟨σ, h, -⟩ := C85_amplitude_score srt g l hit floor X r s γ
      exact ⟨σ, h⟩

/-- C85: with a valid option the call is EM on freshly drawn parameters followed by a reordering of the sources of every
bin, exceptions included. -/
theorem C85_call {R : Type} (np : Numpy ℂ) (srt : Argsort)
    (draw : R → ((Fin (n + 1) → Fin B → ℝ) × (Fin (n + 1) → Fin B → Fin m → ℝ)) × R) (normalization : Bool)
    (opt : PermOpt) (g l : Option ℤ) (hopt : ValidOption opt g l) (floor : ℝ → ℝ) (X : Spec (Fin B) m t) (r : Fin m)
    (n_iter : ℕ) (rng : R) (hB : 0 < B) :
    ∃ σ, callWith np srt draw normalization opt g l floor X r n_iter rng
      = (call np normalization floor X r σ n_iter (initParameters (draw rng).1.1 (draw rng).1.2)).map
          fun out => ((draw rng).2, out) := by
  simp only [callWith, call, Bind.bind, Except.bind]
  cases iterate np normalization floor (unitInput floor X) n_iter (initParameters (draw rng).1.1 (draw rng).1.2) with
  | error e => exact ⟨1, rfl⟩
  | ok s =>
    simp only []
    cases updatePosterior floor (unitInput floor X) s with
    | error e => exact ⟨1, rfl⟩
    | ok γ =>
      obtain ⟨σ, h⟩ := valid_step srt hopt floor X r s γ hB
      refine ⟨σ, ?_⟩
      cases hp : opt.truthy with
      | false =>
        simp only [hp, Bool.false_eq_true, if_false, Except.ok.injEq] at h
        simp only [← h]
        rfl
      | true =>
        simp only [hp, if_true] at h
        simp only [h, if_true]
        rfl

/-- C85: positive random numbers give valid initial parameters: weights that sum to one and positive definite
covariances with trace one. -/
theorem C85_initial {F : Type} [Nonempty (Fin m)] (a : Fin (n + 1) → F → ℝ) (d : Fin (n + 1) → F → Fin m → ℝ)
    (ha : ∀ k f, 0 < a k f) (hd : ∀ k f c, 0 < d k f c) :
    (∀ k f, 0 < (initParameters a d).α k f) ∧ (∀ f, ∑ k, (initParameters a d).α k f = 1) ∧
      (∀ k f, ((initParameters a d).B k f).PosDef) ∧ ∀ k f, ((initParameters a d).B k f).trace = 1 := by
  have hs : ∀ f, 0 < ∑ k, a k f := fun f => Finset.sum_pos (fun k _ => ha k f) Finset.univ_nonempty
  have hs' : ∀ k f, 0 < ∑ c, d k f c := fun k f => Finset.sum_pos (fun c _ => hd k f c) Finset.univ_nonempty
  refine ⟨fun k f => div_pos (ha k f) (hs f), fun f => ?_, fun k f => PosDef.diagonal fun c => ?_, fun k f => ?_⟩
  · simp only [initParameters, ← Finset.sum_div]
    exact div_self (hs f).ne'
  · exact Complex.zero_lt_real.mpr (div_pos (hd k f c) (hs' k f))
  · simp only [initParameters, trace_diagonal, ← Complex.ofReal_sum, ← Finset.sum_div]
    rw [div_self (hs' k f).ne', Complex.ofReal_one]

/-- C85: hence with positive random numbers and a positive flooring constant every call with a valid option returns a
result, for every recording and number of iterations: a posterior that is positive and sums to one, and signals that
sum to the reference channel. -/
theorem C85_result {R : Type} [Nonempty (Fin m)] (np : Numpy ℂ) (srt : Argsort)
    (draw : R → ((Fin (n + 1) → Fin B → ℝ) × (Fin (n + 1) → Fin B → Fin m → ℝ)) × R) (normalization : Bool)
    (opt : PermOpt) (g l : Option ℤ) (hopt : ValidOption opt g l) (eps : ℝ) (heps : 0 < eps) (X : Spec (Fin B) m t)
    (ht : 0 < t) (r : Fin m) (n_iter : ℕ) (rng : R) (hB : 0 < B) (ha : ∀ k f, 0 < (draw rng).1.1 k f)
    (hd : ∀ k f c, 0 < (draw rng).1.2 k f c) :
    ∃ s' γ Y, callWith np srt draw normalization opt g l (Special.max_flooring eps) X r n_iter rng
        = .ok ((draw rng).2, s', γ, Y) ∧
      (∀ k f j, 0 < γ k f j) ∧ (∀ f j, ∑ k, γ k f j = 1) ∧ ∀ f j, ∑ k, Y k f j = X f r j := by
  obtain ⟨h1, h2, h3, -⟩ := C85_initial (draw rng).1.1 (draw rng).1.2 ha hd
  obtain ⟨σ, h⟩ := C85_call np srt draw normalization opt g l hopt (Special.max_flooring eps) X r n_iter rng hB
  obtain ⟨s', γ, Y, e, p1, p2, -, -, -, p3⟩ := C45_call np normalization eps heps X ht r σ n_iter _ ⟨h1, h3⟩ h2
  exact ⟨s', γ, Y, by rw [h, e]; rfl, p1, p2, p3⟩

private theorem fails {R : Type} [Nonempty (Fin m)] (np : Numpy ℂ) (srt : Argsort)
    (draw : R → ((Fin (n + 1) → Fin B → ℝ) × (Fin (n + 1) → Fin B → Fin m → ℝ)) × R) (normalization : Bool)
    (opt : PermOpt) (g l : Option ℤ) (hopt : opt.truthy = true) (eps : ℝ) (heps : 0 < eps) (X : Spec (Fin B) m t)
    (ht : 0 < t) (r : Fin m) (n_iter : ℕ) (rng : R) (ha : ∀ k f, 0 < (draw rng).1.1 k f)
    (hd : ∀ k f c, 0 < (draw rng).1.2 k f c) (err : PyErr)
    (h : ∀ (s : CSt (Fin B) n m) γ, solvePermutation srt opt g l (Special.max_flooring eps) X r s γ = .error err) :
    callWith np srt draw normalization opt g l (Special.max_flooring eps) X r n_iter rng = .error err := by
  obtain ⟨h1, h2, h3, -⟩ := C85_initial (draw rng).1.1 (draw rng).1.2 ha hd
  obtain ⟨s', γ, Y, e, -⟩ := C45_call np normalization eps heps X ht r 1 n_iter _ ⟨h1, h3⟩ h2
  simp only [call, Bind.bind, Except.bind] at e
  simp only [callWith, Bind.bind, Except.bind]
  cases hi : iterate np normalization (Special.max_flooring eps) (unitInput (Special.max_flooring eps) X) n_iter
      (initParameters (draw rng).1.1 (draw rng).1.2) with
  | error e' => simp [hi] at e
  | ok s =>
    simp only [hi] at e ⊢
    cases hu : updatePosterior (Special.max_flooring eps) (unitInput (Special.max_flooring eps) X) s with
    | error e' => simp [hu] at e
    | ok γ => simp only [hopt, if_true, h]

/-- C85: `"posterior_correlation"` is accepted by the constructor and known to the dispatch, but every call with it runs
all iterations and then raises `AssertionError`. -/
theorem C85_posterior_correlation {R : Type} [Nonempty (Fin m)] (np : Numpy ℂ) (srt : Argsort)
    (draw : R → ((Fin (n + 1) → Fin B → ℝ) × (Fin (n + 1) → Fin B → Fin m → ℝ)) × R) (normalization : Bool)
    (g l : Option ℤ) (eps : ℝ) (heps : 0 < eps) (X : Spec (Fin B) m t) (ht : 0 < t) (r : Fin m) (n_iter : ℕ) (rng : R)
    (ha : ∀ k f, 0 < (draw rng).1.1 k f) (hd : ∀ k f c, 0 < (draw rng).1.2 k f c) :
    checkKeywords (.str "posterior_correlation") [] = .ok () ∧
      callWith np srt draw normalization (.str "posterior_correlation") g l (Special.max_flooring eps) X r n_iter rng
        = .error .assertion := by
  refine ⟨rfl, fails np srt draw normalization _ g l (by simp [PermOpt.truthy]) eps heps X ht r n_iter rng ha hd _ ?_⟩
  intro s γ
  simp [solvePermutation, PermOpt.truthy, Bind.bind, Except.bind, solveByCorrelation]

/-- C85: an unknown string is accepted by the constructor as well; every call with it runs all iterations and then
raises `NotImplementedError`. -/
theorem C85_unknown {R : Type} [Nonempty (Fin m)] (np : Numpy ℂ) (srt : Argsort)
    (draw : R → ((Fin (n + 1) → Fin B → ℝ) × (Fin (n + 1) → Fin B → Fin m → ℝ)) × R) (normalization : Bool)
    (key : String) (hkey : key ∉ ["", "posterior_score", "posterior_correlation", "amplitude_score", "amplitude_correlation"])
    (g l : Option ℤ) (eps : ℝ) (heps : 0 < eps) (X : Spec (Fin B) m t) (ht : 0 < t) (r : Fin m) (n_iter : ℕ) (rng : R)
    (ha : ∀ k f, 0 < (draw rng).1.1 k f) (hd : ∀ k f c, 0 < (draw rng).1.2 k f c) :
    checkKeywords (.str key) [] = .ok () ∧
      callWith np srt draw normalization (.str key) g l (Special.max_flooring eps) X r n_iter rng
        = .error .notImplemented := by
  simp only [List.mem_cons, List.not_mem_nil, or_false, not_or] at hkey
  obtain ⟨k0, k1, k2, k3, k4⟩ := hkey
  refine ⟨rfl, fails np srt draw normalization _ g l (by simp [PermOpt.truthy, k0]) eps heps X ht r n_iter rng ha hd _ ?_⟩
  intro s γ
  simp [solvePermutation, PermOpt.truthy, Bind.bind, Except.bind, k0, k1, k2, k3, k4]

/-- C85: so is `global_iter=0`; unless `local_iter` is `0` as well every call with it runs all iterations and then raises
`UnboundLocalError`. -/
theorem C85_global_iter_zero {R : Type} [Nonempty (Fin m)] (np : Numpy ℂ) (srt : Argsort)
    (draw : R → ((Fin (n + 1) → Fin B → ℝ) × (Fin (n + 1) → Fin B → Fin m → ℝ)) × R) (normalization : Bool)
    (opt : PermOpt) (hopt : opt = .bool true ∨ opt = .str "posterior_score" ∨ opt = .str "amplitude_score")
    (g : ℤ) (hg : g ≤ 0) (l : Option ℤ) (hl : 1 ≤ l.getD 1) (hB : 0 < B) (eps : ℝ) (heps : 0 < eps)
    (X : Spec (Fin B) m t) (ht : 0 < t) (r : Fin m) (n_iter : ℕ) (rng : R)
    (ha : ∀ k f, 0 < (draw rng).1.1 k f) (hd : ∀ k f c, 0 < (draw rng).1.2 k f c) :
    checkKeywords opt ["global_iter"] = .ok () ∧
      callWith np srt draw normalization opt (some g) l (Special.max_flooring eps) X r n_iter rng = .error .name := by
  have key : ∀ target s γ, target = "posterior" ∨ target = "amplitude" →
      solveByScore target g (l.getD 1) (Special.max_flooring eps) X r (n := n) s γ = .error .name := by
    rintro target s γ (rfl | rfl)
    · rw [solveByScore, if_pos rfl]
      simp only [C27_score_global_iter_zero_counterexample _ _ g (l.getD 1) hg hl hB]
      rfl
    · rw [solveByScore, if_neg (by decide), if_pos rfl]
      simp only [C27_score_global_iter_zero_counterexample _ _ g (l.getD 1) hg hl hB]
      rfl
  have hp : ∀ s γ, solvePermutation srt opt (some g) l (Special.max_flooring eps) X r (n := n) s γ = .error .name := by
    intro s γ
    have h1 := key "posterior" s γ (.inl rfl)
    have h2 := key "amplitude" s γ (.inr rfl)
    rcases hopt with rfl | rfl | rfl <;>
      simp [solvePermutation, PermOpt.truthy, Bind.bind, Except.bind, h1, h2]
  refine ⟨by rcases hopt with rfl | rfl | rfl <;> rfl, fails np srt draw normalization _ (some g) l ?_ eps heps X ht r n_iter rng ha hd _ hp⟩
  rcases hopt with rfl | rfl | rfl <;> simp [PermOpt.truthy]

/-- C85: `global_iter` and `local_iter` may be given with the score-based options and only with them; no other keyword
may be given at all. -/
theorem C85_keywords (opt : PermOpt) (keys : List String) :
    checkKeywords opt keys = .ok () ↔ ∀ key ∈ keys, (key = "global_iter" ∨ key = "local_iter") ∧
      (opt = .bool true ∨ opt = .str "posterior_score" ∨ opt = .str "amplitude_score") := by
  have h0 : ∀ valid : List String, ((if keys.all (· ∈ valid) then .ok () else .error .assertion : Except PyErr Unit) = .ok ()
      ↔ ∀ key ∈ keys, key ∈ valid) := by
    intro valid
    split_ifs with h
    · simpa using h
    · simpa using h
  rw [checkKeywords.eq_def]
  simp only []
  rw [h0]
  refine forall₂_congr fun key _ => ?_
  match opt with
  | .bool true => simp
  | .bool false => simp
  | .str s =>
    by_cases hs : s = "posterior_score" ∨ s = "amplitude_score"
    · simp [hs]
    · simp [hs]

/-- C85: if the random number generator delivers a zero for a covariance (it draws from `[0, 1)`), the call raises
`LinAlgError`, for every number of iterations. (If all numbers of a covariance are zero, numpy divides by zero, which
is not modelled; hence `_hsum`.) -/
theorem C85_zero_draw {R : Type} (np : Numpy ℂ) (srt : Argsort)
    (draw : R → ((Fin (n + 1) → Fin B → ℝ) × (Fin (n + 1) → Fin B → Fin m → ℝ)) × R) (normalization : Bool)
    (opt : PermOpt) (g l : Option ℤ) (floor : ℝ → ℝ) (X : Spec (Fin B) m t) (r : Fin m) (n_iter : ℕ) (rng : R)
    (k : Fin (n + 1)) (b : Fin B) (c : Fin m) (h0 : (draw rng).1.2 k b c = 0)
    (_hsum : ∀ k b, 0 < ∑ c, (draw rng).1.2 k b c) :
    callWith np srt draw normalization opt g l floor X r n_iter rng = .error .linalg := by
  obtain ⟨s, hs⟩ : ∃ s, s = initParameters (draw rng).1.1 (draw rng).1.2 := ⟨_, rfl⟩
  have hdet : ¬ IsUnit (s.B k b).det := by
    rw [hs]
    simp only [initParameters, det_diagonal, isUnit_iff_ne_zero, not_not]
    exact Finset.prod_eq_zero (Finset.mem_univ c) (by simp [h0])
  have hinv : invB s.B = .error .linalg := by
    rw [invB, onBins, dif_neg]
    push Not
    refine ⟨k, fun y hy => ?_⟩
    rw [onBins, dif_neg] at hy
    · simp at hy
    · push Not
      exact ⟨b, fun y hy => by rw [npInv, if_neg hdet] at hy; simp at hy⟩
  have hup : updatePosterior floor (unitInput floor X) s = .error .linalg := by
    rw [updatePosterior, hinv]
    rfl
  simp only [callWith, ← hs]
  cases n_iter with
  | zero =>
    simp only [iterate, Bind.bind, Except.bind, hup]
  | succ i =>
    simp only [iterate, updateOnce, Bind.bind, Except.bind, hup]

/-- A single channel: without iterations the posterior is the vector of drawn weights. -/
private theorem mono {R : Type} (np : Numpy ℂ) (srt : Argsort)
    (draw : R → ((Fin (n + 1) → Fin 1 → ℝ) × (Fin (n + 1) → Fin 1 → Fin 1 → ℝ)) × R) (rng : R)
    (ha : ∀ k f, 0 < (draw rng).1.1 k f) (hd : ∀ k f c, 0 < (draw rng).1.2 k f c) :
    ∃ s γ, callWith np srt draw true (.bool false) none none id (fun _ => (1 : Mat 1 ℂ)) 0 0 rng
      = .ok ((draw rng).2, s, γ, fun k f _ => (((draw rng).1.1 k f / ∑ k, (draw rng).1.1 k f : ℝ) : ℂ)) := by
  obtain ⟨h1, h2, h3, -⟩ := C85_initial (draw rng).1.1 (draw rng).1.2 ha hd
  have hB : (initParameters (draw rng).1.1 (draw rng).1.2).B = fun _ _ => 1 := by
    funext k f
    ext i j
    rw [Subsingleton.elim i 0, Subsingleton.elim j 0]
    simp [initParameters, (hd k f 0).ne']
  simp only [callWith, iterate, Bind.bind, Except.bind, updatePosterior_eq _ _ ⟨h1, h3⟩]
  refine ⟨_, _, congrArg Except.ok (Prod.ext rfl (Prod.ext rfl (Prod.ext rfl ?_)))⟩
  funext k f j
  have hq : quadForm (n := n) id (unitInput id fun _ : Fin 1 => (1 : Mat 1 ℂ))
      (fun k f => ((initParameters (draw rng).1.1 (draw rng).1.2).B k f)⁻¹) = fun _ _ _ => 1 := by
    funext k f j
    rw [Subsingleton.elim j 0]
    have hu : unitInput id (fun _ : Fin 1 => (1 : Mat 1 ℂ)) f 0 = fun _ => 1 := by
      funext c
      rw [Subsingleton.elim c 0]
      simp [unitInput]
    simp [quadForm, hB, hu, Linalg.quadratic, dotProduct]
  have hl : ∀ f j, logGamma (initParameters (draw rng).1.1 (draw rng).1.2) (fun _ _ _ => (1 : ℝ)) f (j : Fin 1)
      = fun k => Real.log ((initParameters (draw rng).1.1 (draw rng).1.2).α k f) := by
    intro f j
    funext k
    simp [logGamma, hB]
  simp only [separateP, post, hq, hl, Special.C12_softmax_eq, Real.exp_log (h1 _ _), h2, div_one]
  rw [Subsingleton.elim j 0]
  simp [initParameters]

/-- C85: a second call on the same recording does not continue the first one: `mixing` and `covariance` are drawn anew in
every call, so even two calls without iterations can return different signals. -/
theorem C85_no_resume (np : Numpy ℂ) (srt : Argsort) :
    ∃ (draw : ℕ → ((Fin 2 → Fin 1 → ℝ) × (Fin 2 → Fin 1 → Fin 1 → ℝ)) × ℕ) (X : Spec (Fin 1) 1 1) (rng rng' rng'' : ℕ)
      (s s' : CSt (Fin 1) 1 1) (γ γ' : Posterior (Fin 1) 1 1) (Y Y' : Fin 2 → Fin 1 → Fin 1 → ℂ),
      (∀ i k f, 0 < (draw i).1.1 k f) ∧ (∀ i k f c, 0 < (draw i).1.2 k f c) ∧
      callWith np srt draw true (.bool false) none none id X 0 0 rng = .ok (rng', s, γ, Y) ∧
      callWith np srt draw true (.bool false) none none id X 0 0 rng' = .ok (rng'', s', γ', Y') ∧ Y ≠ Y' := by
  obtain ⟨draw, hdraw⟩ : ∃ draw : ℕ → ((Fin 2 → Fin 1 → ℝ) × (Fin 2 → Fin 1 → Fin 1 → ℝ)) × ℕ,
    draw = fun i : ℕ => ((fun k _ => if k = 0 then 1 else (i : ℝ) + 1, fun _ _ _ => 1), i + 1) := ⟨_, rfl⟩
  have ha : ∀ i k f, 0 < (draw i).1.1 k f := by
    intro i k f
    rw [hdraw]
    simp only
    split_ifs <;> positivity
  have hd : ∀ i k f c, 0 < (draw i).1.2 k f c := by
    intro i k f c
    rw [hdraw]
    exact one_pos
  obtain ⟨s, γ, h⟩ := mono np srt draw 0 (ha 0) (hd 0)
  obtain ⟨s', γ', h'⟩ := mono np srt draw 1 (ha 1) (hd 1)
  refine ⟨draw, fun _ => 1, 0, 1, 2, s, s', γ, γ', _, _, ha, hd, by rw [h, hdraw], by rw [h', hdraw], ?_⟩
  intro e
  have := congrFun (congrFun (congrFun e 0) 0) 0
  simp [Fin.sum_univ_succ, ← Complex.ofReal_inj] at this
  norm_num at this

/-- The hypotheses of `C85_result` can be met with two channels and five bins, and the call aligns the posterior by
default. -/
example (np : Numpy ℂ) (srt : Argsort) (X : Spec (Fin 5) 2 7) (r : Fin 2) (n_iter : ℕ) :
    ∃ s' γ Y, callWith (n := 1) np srt (fun _ : Unit => ((fun k _ => k + 1, fun k b c => k + b + c + 1), ())) true
        (.bool true) none (some 3) (Special.max_flooring 1) X r n_iter () = .ok ((), s', γ, Y) ∧
      (∀ k f j, 0 < γ k f j) ∧ (∀ f j, ∑ k, γ k f j = 1) ∧ ∀ f j, ∑ k, Y k f j = X f r j :=
  C85_result np srt _ true _ none (some 3) (.inr (.inr (.inr ⟨.inl rfl, .inl (by simp)⟩))) 1 one_pos X (by decide) r n_iter ()
    (by decide) (fun k f => by positivity) (fun k f c => by positivity)

end Cacgmm

end Verif
