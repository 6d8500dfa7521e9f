import Mathlib.Tactic.NormNum
import Verif.Model.Config

/-!
# C92: which configurations the constructors accept, and which accepted configurations complete a call
-/

namespace Verif.Config

open Lifecycle

variable {σ : Type}

/-! ## The claims, in terms of the arguments -/

/-- Values of `scale_restoration` a call can end with. -/
def ScaleKnown : ScaleOpt → Prop
  | .bool _ => True
  | .str s => s = "" ∨ s = "projection_back" ∨ s = "projection-back" ∨ s = "PB" ∨ s = "minimal_distortion_principle" ∨
      s = "minimal-distortion-principle" ∨ s = "MDP"

/-- Values of `permutation_alignment` a call can end with. -/
def AlignmentKnown : ScaleOpt → Prop
  | .bool _ => True
  | .str s => s = "" ∨ s = "spectrogram_correlation"

/-- Falsy options. -/
def Off : ScaleOpt → Prop
  | .bool b => b = false
  | .str s => s = ""

/-- Names of algorithms that keep a demixing filter (or diagonaliser). -/
def FilterName (s : String) : Prop := s = "IP" ∨ s = "IP1" ∨ s = "IP2"

/-- Names of algorithms for the demixing. -/
def SpatialName (s : String) : Prop := FilterName s ∨ s = "ISS" ∨ s = "ISS1" ∨ s = "ISS2" ∨ s = "IPA"

/-- The arguments every ILRMA separator and `AuxIVA` share: the algorithm names and the reference channel. -/
def Common (a : Args) : Prop := SpatialName a.spatial ∧ (a.reference = true ∨ Off a.scale)

/-- The extra keywords of IPA. -/
def IpaKeywords (a : Args) : Prop :=
  ∀ k ∈ a.kwargs, a.spatial = "IPA" ∧ (k = "lqpqm_normalization" ∨ k = "newton_iter")

/-- What the constructor of a class accepts. -/
def Accepts : Cls → Args → Prop
  | .gaussILRMA, a => Common a ∧ IpaKeywords a ∧
      (a.source = "MM" ∧ 0 < a.domain ∧ a.domain ≤ 2 ∨ a.source = "ME" ∧ a.domain = 2)
  | .tILRMA, a => Common a ∧ a.spatial ≠ "IPA" ∧ a.kwargs = [] ∧
      (a.source = "MM" ∧ 0 < a.domain ∧ a.domain ≤ 2 ∨ a.source = "ME" ∧ a.domain = 2)
  | .ggdILRMA beta, a => Common a ∧ a.spatial ≠ "IPA" ∧ a.kwargs = [] ∧ 0 < beta ∧ beta < 2 ∧
      a.source = "MM" ∧ 0 < a.domain ∧ a.domain ≤ 2
  | .auxIVA, a => Common a ∧ IpaKeywords a
  | .auxFDICA, a => FilterName a.spatial ∧ (a.reference = true ∨ Off a.scale) ∧
      a.contrast = true ∧ a.kwargs = []
  | .fastMNMF, a => FilterName a.spatial ∧ a.partitioning = false ∧ a.kwargs = []
  | .gaussIPSDTA, a | .tIPSDTA, a => (a.spatial = "FPI" ∨ a.spatial = "VCD") ∧ (a.source = "EM" ∨ a.source = "MM") ∧
      (a.reference = true ∨ Off a.scale) ∧ a.kwargs = []

/-- Values of `normalization` an iteration of ILRMA can end with. -/
def NormKnown (partitioning : Bool) : ScaleOpt → Prop
  | .bool _ => True
  | .str s => s = "" ∨ s = "power" ∨ s = "projection_back" ∧ partitioning = false

/-- Which accepted configurations can do an iteration. -/
def Iterates : Cls → Args → Prop
  | .gaussILRMA, a | .tILRMA, a | .ggdILRMA _, a => NormKnown a.partitioning a.normalization
  | .fastMNMF, a => match a.normalization with
      | .bool _ => True
      | .str s => s = "" ∨ s = "power"
  | .auxIVA, _ | .auxFDICA, _ => True
  | .gaussIPSDTA, a | .tIPSDTA, a => a.source = "MM" ∧ a.spatial = "VCD"

/-- Which accepted configurations can finish a call after the iterations. -/
def Finishes : Cls → Args → Prop
  | .fastMNMF, _ => True
  | .auxFDICA, a => AlignmentKnown a.alignment ∧ ScaleKnown a.scale
  | _, a => ScaleKnown a.scale

/-! ## Constructors -/

theorem bind_unit_ok {x : Except PyErr Unit} {f : Unit → Except PyErr Unit} :
    (x >>= f) = .ok () ↔ x = .ok () ∧ f () = .ok () := by
  cases x with
  | error e => simp [bind, Except.bind]
  | ok u => simp [bind, Except.bind]

theorem assert_ok {p : Prop} [Decidable p] : assert' p = .ok () ↔ p := by
  unfold assert'
  split <;> simp_all

theorem off_iff (o : ScaleOpt) : o.truthy = false ↔ Off o := by
  cases o <;> simp [ScaleOpt.truthy, Off]

theorem checkReference_ok (a : Args) : checkReference a = .ok () ↔ a.reference = true ∨ Off a.scale := by
  unfold checkReference
  rw [← off_iff]
  cases a.reference <;> cases a.scale.truthy <;> simp

theorem noKwargs_ok (a : Args) : noKwargs a = .ok () ↔ a.kwargs = [] := by
  unfold noKwargs
  split <;> simp_all

theorem checkKwargs_ok (a : Args) : checkKwargs a = .ok () ↔ IpaKeywords a := by
  unfold checkKwargs IpaKeywords
  rw [assert_ok]
  split <;> simp_all

theorem spatialName_iff (s : String) : s ∈ spatialAlgorithms ↔ SpatialName s := by
  simp [spatialAlgorithms, SpatialName, FilterName, or_assoc]

theorem filterName_iff (s : String) : s ∈ filterAlgorithms ↔ FilterName s := by
  simp [filterAlgorithms, FilterName]

/-- **C92.** The constructors accept exactly these arguments. -/
theorem C92_accepts (cls : Cls) (a : Args) : create cls a = .ok () ↔ Accepts cls a := by
  have hite : ∀ (p : Prop) [Decidable p] (x y : Except PyErr Unit), (if p then x else y) = .ok () ↔
      (p → x = .ok ()) ∧ (¬ p → y = .ok ()) := by
    intro p _ x y
    split <;> simp_all
  have herr : ∀ e, (Except.error e : Except PyErr Unit) = .ok () ↔ False := by simp
  have hpure : (pure () : Except PyErr Unit) = .ok () ↔ True := by simp [pure, Except.pure]
  have hsrc : (a.source = "MM" ∨ a.source = "ME") ∧ (0 < a.domain ∧ a.domain ≤ 2) ∧ (a.source = "ME" → a.domain = 2) ↔
      (a.source = "MM" ∧ 0 < a.domain ∧ a.domain ≤ 2 ∨ a.source = "ME" ∧ a.domain = 2) := by
    constructor
    · tauto
    · rintro (⟨h1, h2⟩ | ⟨h1, h2⟩)
      · refine ⟨.inl h1, h2, fun h => ?_⟩
        rw [h1] at h
        exact absurd h (by decide)
      · refine ⟨.inr h1, ?_, fun _ => h2⟩
        rw [h2]
        norm_num
  cases cls <;>
    simp only [create, bind_unit_ok, checkReference_ok, assert_ok, noKwargs_ok, checkKwargs_ok, Accepts, Common,
      spatialName_iff, filterName_iff, List.mem_cons, List.not_mem_nil, or_false, hite, herr, hpure,
      Bool.not_eq_true']
  case gaussILRMA =>
    rw [← hsrc]
    constructor
    · rintro ⟨h1, h2, h3, h4, h5, h6⟩
      refine ⟨⟨h2, h1⟩, ?_, h3, h4, fun h => (h5 h).1⟩
      by_cases hm : a.source = "ME"
      · exact (h5 hm).2
      · exact h6 hm
    · rintro ⟨⟨h2, h1⟩, h7, h3, h4, h5⟩
      exact ⟨h1, h2, h3, h4, fun h => ⟨h5 h, h7⟩, fun _ => h7⟩
  case tILRMA =>
    rw [← hsrc]
    by_cases hI : a.spatial = "IPA"
    · simp [hI]
    · simp only [hI, false_imp_iff, true_and, not_false_iff, true_imp_iff, ne_eq, implies_true, and_true]
      constructor
      · rintro ⟨h1, h2, h3, h4, h5, h6⟩
        exact ⟨⟨h3, h2⟩, h1, h4, h5, h6⟩
      · rintro ⟨⟨h3, h2⟩, h1, h4, h5, h6⟩
        exact ⟨h1, h2, h3, h4, h5, h6⟩
  case ggdILRMA beta =>
    by_cases hI : a.spatial = "IPA"
    · simp [hI]
    · simp only [hI, false_imp_iff, true_and, not_false_iff, ne_eq, implies_true, and_true]
      constructor
      · rintro ⟨h1, h2, h3, h4, h5, h6⟩
        exact ⟨⟨h4, h2⟩, h1, h3.1, h3.2, h5, h6⟩
      · rintro ⟨⟨h4, h2⟩, h1, h3, h3', h5, h6⟩
        exact ⟨h1, h2, ⟨h3, h3'⟩, h4, h5, h6⟩
  case auxIVA => exact ⟨fun ⟨h1, h2, h3⟩ => ⟨⟨h2, h1⟩, h3⟩, fun ⟨⟨h2, h1⟩, h3⟩ => ⟨h1, h2, h3⟩⟩
  case auxFDICA =>
    cases a.contrast
    · simp
    · simp only [Bool.true_eq_false, false_imp_iff, true_and, not_false_iff, true_imp_iff]
      exact ⟨fun ⟨h1, h2, h3⟩ => ⟨h3, h2, h1⟩, fun ⟨h3, h2, h1⟩ => ⟨h1, h2, h3⟩⟩
  case fastMNMF => exact ⟨fun ⟨h1, h2, h3⟩ => ⟨h2, h3, h1⟩, fun ⟨h2, h3, h1⟩ => ⟨h1, h2, h3⟩⟩
  all_goals exact ⟨fun ⟨h1, h2, h3, h4⟩ => ⟨h4, h3, h2, h1⟩, fun ⟨h4, h3, h2, h1⟩ => ⟨h1, h2, h3, h4⟩⟩

/-! ## Calls -/

theorem andThen_ok (p q : Py σ) (s : σ) :
    (andThen p q s).2 = .ok () ↔ (p s).2 = .ok () ∧ (q (p s).1).2 = .ok () := by
  unfold andThen
  rcases h : p s with ⟨s', r⟩
  cases r <;> simp

theorem andThen_fst (p q : Py σ) (s : σ) (h : (p s).2 = .ok ()) : andThen p q s = q (p s).1 := by
  unfold andThen
  rcases hp : p s with ⟨s', r⟩
  rw [hp] at h
  cases r with
  | error e => simp at h
  | ok u => rfl

theorem andThen_act (f : σ → σ) (q : Py σ) (s : σ) : andThen (act f) q s = q (f s) := rfl

theorem andThen_raise (e : PyErr) (q : Py σ) (s : σ) : andThen (raise e) q s = (s, .error e) := rfl

theorem act_ok (f : σ → σ) (s : σ) : (act f s).2 = .ok () ↔ True := by simp [act]

theorem raise_ok (e : PyErr) (s : σ) : (raise e s).2 = .ok () ↔ False := by simp [raise]

theorem ite_ok {p : Prop} [Decidable p] (x y : Py σ) (s : σ) :
    ((if p then x else y) s).2 = .ok () ↔ (p → (x s).2 = .ok ()) ∧ (¬ p → (y s).2 = .ok ()) := by
  split <;> simp_all

theorem times_ok {p : Py σ} {R : Prop} (h : ∀ s, (p s).2 = .ok () ↔ R) (k : ℕ) (s : σ) :
    (times p k s).2 = .ok () ↔ k = 0 ∨ R := by
  induction k generalizing s with
  | zero => simp [times, act]
  | succ k ih =>
    rw [times, andThen_ok, h, ih]
    simp only [Nat.succ_ne_zero, false_or]
    tauto

theorem updateSource_ok {cls : Cls} {a : Args} (ha : Accepts cls a) (o : Ops σ) (s : σ) :
    (updateSource cls a o s).2 = .ok () ↔ match cls with
      | .gaussIPSDTA | .tIPSDTA => a.source = "MM"
      | _ => True := by
  cases cls <;> simp only [updateSource, ite_ok, act_ok, raise_ok, andThen_ok, Accepts] at ha ⊢
  case gaussILRMA => rcases ha.2.2 with h | h <;> simp [h]
  case tILRMA => rcases ha.2.2.2 with h | h <;> simp [h]
  case ggdILRMA => simp [ha.2.2.2.2.2.1]
  all_goals tauto

theorem updateSpatial_ok {cls : Cls} {a : Args} (ha : Accepts cls a) (o : Ops σ) (s : σ) :
    (updateSpatial cls a o s).2 = .ok () ↔ match cls with
      | .gaussIPSDTA | .tIPSDTA => a.spatial = "VCD"
      | _ => True := by
  cases cls <;> simp only [updateSpatial, ite_ok, act_ok, raise_ok, Accepts, Common, SpatialName, FilterName] at ha ⊢
  case gaussILRMA => rcases ha.1.1 with (h | h | h) | h | h | h | h <;> simp [h]
  case auxIVA => rcases ha.1.1 with (h | h | h) | h | h | h | h <;> simp [h]
  case tILRMA =>
    rcases ha.1.1 with (h | h | h) | h | h | h | h
    case inr.inr.inr.inr => exact absurd h ha.2.1
    all_goals simp [h]
  case ggdILRMA =>
    rcases ha.1.1 with (h | h | h) | h | h | h | h
    case inr.inr.inr.inr => exact absurd h ha.2.1
    all_goals simp [h]
  case auxFDICA => rcases ha.1 with h | h | h <;> simp [h]
  case fastMNMF => rcases ha.1 with h | h | h <;> simp [h]
  all_goals tauto

theorem normalize_ok (cls : Cls) (a : Args) (o : Ops σ) (s : σ) :
    (normalize cls a o s).2 = .ok () ↔ match cls with
      | .gaussILRMA | .tILRMA | .ggdILRMA _ => NormKnown a.partitioning a.normalization
      | .fastMNMF => match a.normalization with
        | .bool _ => True
        | .str s => s = "" ∨ s = "power"
      | _ => True := by
  obtain ⟨spatial, source, domain, partitioning, normalization, alignment, scale, reference, contrast, kwargs⟩ := a
  cases cls <;> cases normalization <;>
    simp only [normalize, ite_ok, act_ok, raise_ok, NormKnown, ScaleOpt.truthy, Bool.not_eq_true', decide_eq_false_iff_not,
      ne_eq, not_not, Bool.not_eq_false, implies_true, imp_false, and_true, true_and]
  all_goals try cases partitioning
  all_goals try simp
  all_goals tauto

/-- Iterations of an accepted configuration succeed as listed. -/
theorem updateOnce_ok {cls : Cls} {a : Args} (ha : Accepts cls a) (o : Ops σ) (s : σ) :
    (updateOnce cls a o s).2 = .ok () ↔ Iterates cls a := by
  unfold updateOnce
  rw [andThen_ok, andThen_ok, updateSource_ok ha, updateSpatial_ok ha, normalize_ok]
  cases cls <;> simp [Iterates]

theorem align_ok (cls : Cls) (a : Args) (o : Ops σ) (s : σ) :
    (align cls a o s).2 = .ok () ↔ match cls with
      | .auxFDICA => AlignmentKnown a.alignment
      | _ => True := by
  obtain ⟨spatial, source, domain, partitioning, normalization, alignment, scale, reference, contrast, kwargs⟩ := a
  cases cls <;> cases alignment with
    | bool b => cases b <;> simp [align, act, ScaleOpt.truthy, AlignmentKnown]
    | str k =>
      by_cases h1 : k = ""
      · simp [align, act, ScaleOpt.truthy, AlignmentKnown, h1]
      · by_cases h2 : k = "spectrogram_correlation" <;>
          simp [align, act, raise, ScaleOpt.truthy, AlignmentKnown, h1, h2]

theorem restore_ok (cls : Cls) (a : Args) (o : Ops σ) (s : σ) :
    (restore cls a o s).2 = .ok () ↔ match cls with
      | .fastMNMF => True
      | _ => ScaleKnown a.scale := by
  obtain ⟨spatial, source, domain, partitioning, normalization, alignment, scale, reference, contrast, kwargs⟩ := a
  have key : ∀ s : String, (¬ s = "" → s ∉ projectionBackKeywords → s ∈ mdpKeywords) ↔ ScaleKnown (.str s) := by
    intro s
    simp only [projectionBackKeywords, mdpKeywords, ScaleKnown, List.mem_cons, List.not_mem_nil, or_false]
    constructor
    · intro h
      by_contra hc
      simp only [not_or] at hc
      have := h hc.1 (by simp [hc])
      simp [hc] at this
    · intro h h1 h2
      simp only [not_or] at h2
      rcases h with h | h | h | h | h
      · exact absurd h h1
      · exact absurd h h2.1
      · exact absurd h h2.2.1
      · exact absurd h h2.2.2
      · exact h
  cases cls <;> cases scale with
    | bool b => cases b <;> simp [restore, act, ScaleOpt.truthy, ScaleKnown, projectionBackKeywords]
    | str k =>
      first
      | rfl
      | rw [← key]
        by_cases h1 : k = ""
        · simp [restore, act, ScaleOpt.truthy, h1]
        · by_cases h2 : k ∈ projectionBackKeywords <;> by_cases h3 : k ∈ mdpKeywords <;>
            simp [restore, act, raise, ScaleOpt.truthy, h1, h2, h3]

theorem resetAll_ok (cls : Cls) (a : Args) (o : Ops σ) (s : σ) :
    (resetAll cls a o s).2 = .ok () ↔ match cls with
      | .gaussIPSDTA => a.spatial ≠ "FPI"
      | _ => True := by
  cases cls <;> simp [resetAll, act_ok, andThen_ok, ite_ok, raise_ok]

/-- **C92.** An accepted configuration completes a call exactly if the iterations asked for are implemented and the
names given for the alignment and the scale restoration are known ones. In particular no accepted name of a spatial
algorithm is missing an implementation, except in IPSDTA. -/
theorem C92_returns_iff {cls : Cls} {a : Args} (h : create cls a = .ok ()) (o : Ops σ) (n_iter : ℕ) (s : σ) :
    (call cls a o n_iter s).2 = .ok () ↔ (n_iter = 0 ∨ Iterates cls a) ∧ Finishes cls a ∧
      match cls with
      | .gaussIPSDTA => a.spatial ≠ "FPI"
      | _ => True := by
  have ha := (C92_accepts cls a).1 h
  unfold call
  rw [andThen_ok, andThen_ok, andThen_ok, andThen_ok, resetAll_ok, times_ok (updateOnce_ok ha o), align_ok, restore_ok,
    act_ok]
  cases cls <;> simp [Finishes]
  all_goals tauto

theorem restore_late {cls : Cls} {a : Args} (hs : ¬ ScaleKnown a.scale) (hc : cls ≠ .fastMNMF) (o : Ops σ) (s : σ) :
    restore cls a o s = (s, .error .value) := by
  obtain ⟨spatial, source, domain, partitioning, normalization, alignment, scale, reference, contrast, kwargs⟩ := a
  cases scale with
  | bool b => exact absurd trivial hs
  | str k =>
    simp only [ScaleKnown, not_or] at hs
    cases cls <;>
      simp [restore, ScaleOpt.truthy, projectionBackKeywords, mdpKeywords, hs, raise] at hc ⊢

/-- **C92 (finding).** A misspelt `scale_restoration` is accepted by the constructor. The call runs all its iterations
and only then raises `ValueError`; the object is left with what the call without scale restoration computes. -/
theorem C92_late_error {cls : Cls} {a : Args} (hc : cls ≠ .fastMNMF) (hs : ¬ ScaleKnown a.scale)
    (o : Ops σ) (n_iter : ℕ) (s : σ) (h : (call cls { a with scale := .bool false } o n_iter s).2 = .ok ()) :
    (call cls a o n_iter s).2 = .error .value ∧
      o.output (call cls a o n_iter s).1 = (call cls { a with scale := .bool false } o n_iter s).1 := by
  have e1 : resetAll cls { a with scale := .bool false } o = resetAll cls a o := by cases cls <;> rfl
  have e2 : updateOnce cls { a with scale := .bool false } o = updateOnce cls a o := by cases cls <;> rfl
  have e3 : align cls { a with scale := .bool false } o = align cls a o := by cases cls <;> rfl
  have e4 : ∀ s, restore cls { a with scale := .bool false } o s = (s, .ok ()) := by
    intro s
    cases cls <;> simp [restore, ScaleOpt.truthy, act]
  unfold call at h ⊢
  rw [e1, e2, e3] at h ⊢
  rw [andThen_ok] at h
  rw [andThen_fst _ _ _ h.1, andThen_fst _ _ _ h.1]
  rw [andThen_ok] at h
  rw [andThen_fst _ _ _ h.2.1, andThen_fst _ _ _ h.2.1]
  rw [andThen_ok] at h
  rw [andThen_fst _ _ _ h.2.2.1, andThen_fst _ _ _ h.2.2.1]
  obtain ⟨s', hs'⟩ : ∃ s', s' = (align cls a o (times (updateOnce cls a o) n_iter (resetAll cls a o s).1).1).1 := ⟨_, rfl⟩
  rw [← hs']
  unfold andThen
  rw [restore_late hs hc, e4]
  exact ⟨rfl, rfl⟩

/-- **C92 (finding).** `source_algorithm="EM"` and `spatial_algorithm="FPI"` are accepted by both IPSDTA constructors but
not implemented: every call with an iteration raises `NotImplementedError`. -/
theorem C92_ipsdta_unimplemented {cls : Cls} (hc : cls = .gaussIPSDTA ∨ cls = .tIPSDTA) {a : Args}
    (ha : a.source = "EM" ∨ a.spatial = "FPI") (hs : a.source = "EM" ∨ a.source = "MM")
    (hp : a.spatial = "FPI" ∨ a.spatial = "VCD") (hr : a.reference = true) (hk : a.kwargs = [])
    (o : Ops σ) (n_iter : ℕ) (s : σ) :
    create cls a = .ok () ∧ (call cls a o (n_iter + 1) s).2 = .error .notImplemented := by
  refine ⟨(C92_accepts cls a).2 ?_, ?_⟩
  · rcases hc with rfl | rfl <;> exact ⟨hp, hs, .inl hr, hk⟩
  · have hu : ∀ s, (updateOnce cls a o s).2 = .error .notImplemented := by
      intro s
      rcases hc with rfl | rfl <;> rcases hs with hs | hs <;> rcases hp with hp | hp <;>
        cases hn : a.normalization.truthy <;>
        simp [updateOnce, andThen, updateSource, updateSpatial, hs, hp, act, raise, hn] at ha ⊢
    have hfail : ∀ (p q : Py σ) (s : σ) (e : PyErr), (p s).2 = .error e → (andThen p q s).2 = .error e := by
      intro p q s e h
      unfold andThen
      rcases hq : p s with ⟨s', r⟩
      rw [hq] at h
      simp only at h
      rw [h]
    unfold call
    rcases hc with rfl | rfl
    · by_cases hf : a.spatial = "FPI"
      · refine hfail _ _ _ _ ?_
        simp [resetAll, hf, andThen, act, raise]
      · rw [andThen_fst _ _ _ ((resetAll_ok _ _ _ _).2 hf)]
        refine hfail _ _ _ _ ?_
        exact hfail _ _ _ _ (hu _)
    · rw [andThen_fst _ _ _ ((resetAll_ok _ _ _ _).2 trivial)]
      refine hfail _ _ _ _ ?_
      exact hfail _ _ _ _ (hu _)

/-- **C92.** Names that mean the same: `IP` / `IP1`, `ISS` / `ISS1`, `normalization=True` / `"power"`,
`scale_restoration=True` / `"projection_back"` / `"PB"`. Replacing one by the other changes no call, whatever the
updates compute. -/
theorem C92_aliases (cls : Cls) (a : Args) (o : Ops σ) (n_iter : ℕ) (s : σ) :
    call cls { a with spatial := "IP" } o n_iter s = call cls { a with spatial := "IP1" } o n_iter s ∧
    call cls { a with spatial := "ISS" } o n_iter s = call cls { a with spatial := "ISS1" } o n_iter s ∧
    call cls { a with normalization := .bool true } o n_iter s = call cls { a with normalization := .str "power" } o n_iter s ∧
    call cls { a with scale := .bool true } o n_iter s = call cls { a with scale := .str "projection_back" } o n_iter s ∧
    call cls { a with scale := .bool true } o n_iter s = call cls { a with scale := .str "PB" } o n_iter s := by
  refine ⟨?_, ?_, ?_, ?_, ?_⟩ <;> cases cls <;>
    simp [call, updateOnce, updateSource, updateSpatial, normalize, align, restore, resetAll, ScaleOpt.truthy,
      projectionBackKeywords]

/-- **C92.** The update that runs is the one asked for: `n_iter` iterations of `GaussILRMA` or `TILRMA` consist of the source
update named by `source_algorithm`, then the spatial update named by `spatial_algorithm`, then the normalisation, and after
them the scale is restored and the output computed. -/
theorem C92_named_updates {cls : Cls} (hc : cls = .gaussILRMA ∨ cls = .tILRMA) (o : Ops σ) {src sp : String} {fs fp : σ → σ}
    (hs : (src, fs) ∈ [("MM", o.mm), ("ME", o.me)])
    (hp : (sp, fp) ∈ [("IP", o.ip1), ("IP1", o.ip1), ("IP2", o.ip2), ("ISS", o.iss1), ("ISS1", o.iss1), ("ISS2", o.iss2)] ∨
      cls = .gaussILRMA ∧ sp = "IPA" ∧ fp = o.ipa) (n_iter : ℕ) (s : σ) :
    call cls { spatial := sp, source := src } o n_iter s
      = (o.output (o.projectionBack ((fun s => o.power (fp (fs s)))^[n_iter] (o.reset s))), .ok ()) := by
  have hu : ∀ s, updateOnce cls { spatial := sp, source := src } o s = (o.power (fp (fs s)), .ok ()) := by
    intro s
    simp only [List.mem_cons, Prod.mk.injEq, List.not_mem_nil, or_false] at hs hp
    rcases hc with rfl | rfl <;> rcases hs with ⟨rfl, rfl⟩ | ⟨rfl, rfl⟩ <;>
      rcases hp with (⟨rfl, rfl⟩ | ⟨rfl, rfl⟩ | ⟨rfl, rfl⟩ | ⟨rfl, rfl⟩ | ⟨rfl, rfl⟩ | ⟨rfl, rfl⟩) | ⟨h, rfl, rfl⟩ <;>
      first
      | (simp at h; done)
      | simp [updateOnce, updateSource, updateSpatial, normalize, andThen, act, ScaleOpt.truthy]
  have ht : ∀ k s, times (updateOnce cls { spatial := sp, source := src } o) k s = ((fun s => o.power (fp (fs s)))^[k] s, .ok ()) := by
    intro k
    induction k with
    | zero => exact fun _ => rfl
    | succ k ih =>
      intro s
      rw [times, andThen, hu]
      exact ih _
  rcases hc with rfl | rfl <;>
    simp [call, andThen, resetAll, act, ht, align, restore, ScaleOpt.truthy, projectionBackKeywords]

/-- `TILRMA` with `ME` and `IP2`. -/
example (o : Ops σ) (s : σ) : call .tILRMA { spatial := "IP2", source := "ME" } o 2 s
    = (o.output (o.projectionBack (o.power (o.ip2 (o.me (o.power (o.ip2 (o.me (o.reset s)))))))), .ok ()) :=
  C92_named_updates (.inr rfl) o (by simp) (.inl (by simp)) 2 s

/-- A default `GaussILRMA` is accepted and completes its calls. -/
example (o : Ops σ) (s : σ) : create .gaussILRMA { spatial := "IP" } = .ok () ∧
    (call .gaussILRMA { spatial := "IP" } o 100 s).2 = .ok () := by
  have h : create .gaussILRMA { spatial := "IP" } = .ok () :=
    (C92_accepts _ _).2 ⟨⟨.inl (.inl rfl), .inl rfl⟩, by simp [IpaKeywords], .inl ⟨rfl, by norm_num, by norm_num⟩⟩
  exact ⟨h, (C92_returns_iff h o 100 s).2 ⟨.inr trivial, trivial, trivial⟩⟩

/-- `scale_restoration="projection back"` (with a blank) is accepted and fails after 100 iterations. -/
example (o : Ops σ) (s : σ) : create .auxIVA { spatial := "ISS", scale := .str "projection back" } = .ok () ∧
    (call .auxIVA { spatial := "ISS", scale := .str "projection back" } o 100 s).2 = .error .value := by
  have h : create .auxIVA { spatial := "ISS", scale := .bool false } = .ok () :=
    (C92_accepts _ _).2 ⟨⟨.inr (.inl rfl), .inl rfl⟩, by simp [IpaKeywords]⟩
  refine ⟨(C92_accepts _ _).2 ⟨⟨.inr (.inl rfl), .inl rfl⟩, by simp [IpaKeywords]⟩, ?_⟩
  refine (C92_late_error (a := { spatial := "ISS", scale := .str "projection back" }) (by simp)
    (by simp [ScaleKnown]) o 100 s ?_).1
  exact (C92_returns_iff h o 100 s).2 ⟨.inr trivial, trivial, trivial⟩

end Verif.Config
