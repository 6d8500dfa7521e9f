import Verif.Model.ProxConfig
import Verif.Props.Config
import Verif.Props.ProxCall

/-!
# C98: constructing the proximal separators, and what the object made does on its first call
-/

namespace Verif.ProxBss

open Matrix Scale Lifecycle Config

/-! ## The claims, in terms of the arguments -/

/-- The argument is not `None`. -/
def Fns.Given {α : Type} : Fns α → Prop
  | .none => False
  | _ => True

/-- The functions given. -/
def Fns.all {α : Type} : Fns α → List α
  | .none => []
  | .fn f => [f]
  | .list l => l

variable {F : Type} {n t : ℕ}

/-- Recording was asked for without a penalty. -/
def NoLoss (a : ProxArgs F n t) : Prop := ¬ a.penalty.Given ∧ a.record_loss = some true

/-- Penalties are given, and they are not as many as the proximal operators. -/
def Mismatch (a : ProxArgs F n t) : Prop := a.penalty.Given ∧ a.penalty.all.length ≠ a.prox.all.length

/-- The scale is to be restored without a reference channel. -/
def NoReference (scale : ScaleOpt) (reference : Option (Fin n)) : Prop := reference = none ∧ ¬ Off scale

/-- Both names of the relaxation parameter are used. -/
def TwoNames (alpha : Option ℝ) (relaxation : ℝ) : Prop := alpha ≠ none ∧ relaxation ≠ 1

theorem checkRef_eq (scale : ScaleOpt) (reference : Option (Fin n)) [Decidable (NoReference scale reference)] :
    checkRef scale reference = if NoReference scale reference then .error .value else .ok () := by
  have : (reference.isNone && scale.truthy) = true ↔ NoReference scale reference := by
    rw [Bool.and_eq_true, NoReference, ← off_iff]
    simp
  unfold checkRef
  split <;> rename_i h
  · rw [if_pos (this.mp h)]
  · rw [if_neg fun h' => h (this.mpr h')]

theorem resolveAlpha_eq (alpha : Option ℝ) (relaxation : ℝ) [Decidable (TwoNames alpha relaxation)] :
    resolveAlpha alpha relaxation
      = if TwoNames alpha relaxation then .error .assertion else .ok (alpha.getD relaxation) := by
  cases alpha with
  | none => simp [resolveAlpha, TwoNames]
  | some x =>
    by_cases h : relaxation = 1 <;> simp [resolveAlpha, TwoNames, assert', h, bind, Except.bind]

open Classical in
theorem createProx_eq (a : ProxArgs F n t) :
    createProx a = if NoLoss a then .error .assertion
      else if ¬ a.prox.Given then .error .value
      else if Mismatch a then .error .assertion
      else if NoReference a.scale a.reference then .error .value
      else if TwoNames a.alpha a.relaxation then .error .assertion
      else .ok ⟨if a.penalty.Given then .list a.penalty.all else .none, a.prox.all, a.alpha.getD a.relaxation, a.scale,
        a.record_loss, a.reference⟩ := by
  obtain ⟨p, q, al, re, sc, rl, rf⟩ := a
  simp only [createProx, checkRef_eq, resolveAlpha_eq, NoLoss, Mismatch]
  rcases p with _ | p | p <;> rcases q with _ | q | q <;> rcases rl with _ | _ | _ <;>
    simp only [Fns.Given, Fns.all, Fns.wrap, Fns.toPenalty, recordLossAttr, assert', bind, Except.bind, Option.getD] <;>
    by_cases h1 : NoReference sc rf <;> by_cases h2 : TwoNames al re <;> simp [h1, h2] <;>
    try (split_ifs <;> simp_all)

/-- C98: `PDSBSS(...)` and `ADMMBSS(...)` accept exactly: a proximal operator or a list of them; no penalty, or as many
penalties as operators; `record_loss=True` only with a penalty; a reference channel unless the scale is left alone; and
`alpha` or `relaxation`, not both. The object has the functions given, one after the other, the relaxation under whichever
name it was given, and the value of `record_loss` as it was passed (`None` included). -/
theorem C98_accepts (a : ProxArgs F n t) (s : ProxSettings F n t) :
    createProx a = .ok s ↔ (¬ NoLoss a ∧ a.prox.Given ∧ ¬ Mismatch a ∧ ¬ NoReference a.scale a.reference ∧
      ¬ TwoNames a.alpha a.relaxation) ∧
      ((a.penalty.Given → s.penalty = .list a.penalty.all) ∧ (¬ a.penalty.Given → s.penalty = .none) ∧
        s.prox = a.prox.all ∧ s.relaxation = a.alpha.getD a.relaxation ∧ s.scale = a.scale ∧
        s.record_loss = a.record_loss ∧ s.reference = a.reference) := by
  classical
  rw [createProx_eq]
  obtain ⟨p, q, re, sc, rl, rf⟩ := s
  by_cases h1 : NoLoss a
  · simp [h1]
  by_cases h2 : a.prox.Given
  swap
  · simp [h1, h2]
  by_cases h3 : Mismatch a
  · simp [h1, h2, h3]
  by_cases h4 : NoReference a.scale a.reference
  · simp [h1, h2, h3, h4]
  by_cases h5 : TwoNames a.alpha a.relaxation
  · simp [h1, h2, h3, h4, h5]
  by_cases h6 : a.penalty.Given
  · simp only [h1, h2, h3, h4, h5, h6, not_true_eq_false, not_false_eq_true, if_true, if_false, true_and, Except.ok.injEq,
      ProxSettings.mk.injEq, forall_const, IsEmpty.forall_iff]
    simp only [eq_comm]
  · simp only [h1, h2, h3, h4, h5, h6, not_true_eq_false, not_false_eq_true, if_false, true_and, Except.ok.injEq,
      ProxSettings.mk.injEq, forall_const, IsEmpty.forall_iff]
    simp only [eq_comm]

/-- C98: which exception a rejected call of the constructor raises, and in which order the arguments are looked at. -/
theorem C98_rejects (a : ProxArgs F n t) (e : PyErr) :
    createProx a = .error e ↔
      (NoLoss a ∧ e = .assertion) ∨ (¬ NoLoss a ∧ ((¬ a.prox.Given ∧ e = .value) ∨ (a.prox.Given ∧
        ((Mismatch a ∧ e = .assertion) ∨ (¬ Mismatch a ∧
          ((NoReference a.scale a.reference ∧ e = .value) ∨ (¬ NoReference a.scale a.reference ∧
            TwoNames a.alpha a.relaxation ∧ e = .assertion))))))) := by
  classical
  rw [createProx_eq]
  by_cases h1 : NoLoss a
  · simp [h1, eq_comm]
  by_cases h2 : a.prox.Given
  swap
  · simp [h1, h2, eq_comm]
  by_cases h3 : Mismatch a
  · simp [h1, h2, h3, eq_comm]
  by_cases h4 : NoReference a.scale a.reference
  · simp [h1, h2, h3, h4, eq_comm]
  by_cases h5 : TwoNames a.alpha a.relaxation
  · simp [h1, h2, h3, h4, h5, eq_comm]
  · simp [h1, h2, h3, h4, h5]

/-- C98 (finding): `ADMMBSS(prox_penalty=f)` with every other argument at its default raises `AssertionError`, for every
`f`, while `PDSBSS(prox_penalty=f)` is accepted. -/
theorem C98_defaults [NeZero n] (f : Spec F n t → ℝ → Spec F n t) :
    createProx (admmDefault f) = .error .assertion ∧
    ∃ s, createProx (pdsDefault f) = .ok s ∧ s.prox = [f] ∧ s.relaxation = 1 ∧ s.record_loss = none := by
  refine ⟨(C98_rejects _ _).mpr (Or.inl ⟨⟨fun h => h, rfl⟩, rfl⟩),
    ⟨.none, [f], 1, .bool true, none, some 0⟩, (C98_accepts _ _).mpr ?_, rfl, rfl, rfl⟩
  simp [NoLoss, Mismatch, NoReference, TwoNames, pdsDefault, Fns.Given, Fns.all]

section use

variable [Fintype F] [NeZero n] (np : Numpy ℂ)

/-- C98: a method made with `alpha=x` does what the method made with `relaxation=x` does, exceptions included. -/
theorem C98_alpha (a : ProxArgs F n t) (x : ℝ) (X : Spec F n t) (n_iter : ℕ) (ic : Bool) :
    (∀ mu1 mu2, pdsUse np mu1 mu2 { a with alpha := some x, relaxation := 1 } X n_iter ic
      = pdsUse np mu1 mu2 { a with alpha := none, relaxation := x } X n_iter ic) ∧
    ∀ rho, admmUse np rho { a with alpha := some x, relaxation := 1 } X n_iter ic
      = admmUse np rho { a with alpha := none, relaxation := x } X n_iter ic := by
  have : createProx { a with alpha := some x, relaxation := 1 } = createProx { a with alpha := none, relaxation := x } := by
    have h : resolveAlpha (some x) 1 = resolveAlpha none x := by simp [resolveAlpha, assert', bind, Except.bind]
    simp only [createProx, h]
  simp only [pdsUse, admmUse, this, implies_true, and_self]

/-- C98: a single penalty with a single proximal operator is the same as two lists of length one, and the two may be
mixed. -/
theorem C98_single (a : ProxArgs F n t) (p : Spec F n t → ℝ) (f : Spec F n t → ℝ → Spec F n t) (X : Spec F n t) (n_iter : ℕ)
    (ic : Bool) {P : Fns (Spec F n t → ℝ)} {Q : Fns (Spec F n t → ℝ → Spec F n t)} (hP : P = .fn p ∨ P = .list [p])
    (hQ : Q = .fn f ∨ Q = .list [f]) :
    (∀ mu1 mu2, pdsUse np mu1 mu2 { a with penalty := P, prox := Q } X n_iter ic
      = pdsUse np mu1 mu2 { a with penalty := .list [p], prox := .list [f] } X n_iter ic) ∧
    ∀ rho, admmUse np rho { a with penalty := P, prox := Q } X n_iter ic
      = admmUse np rho { a with penalty := .list [p], prox := .list [f] } X n_iter ic := by
  have : createProx { a with penalty := P, prox := Q } = createProx { a with penalty := .list [p], prox := .list [f] } := by
    rw [createProx_eq, createProx_eq]
    rcases hP with rfl | rfl <;> rcases hQ with rfl | rfl <;> simp [NoLoss, Mismatch, Fns.Given, Fns.all]
  simp only [pdsUse, admmUse, this, implies_true, and_self]

theorem proxLoop_length {σ : Type} {loss : σ → Except PyErr ℝ} {update : σ → Except PyErr σ} (k : ℕ) (s : σ) (l : List ℝ)
    {r : σ × Option (List ℝ)} (h : proxLoop (some true) loss update k s (some l) = .ok r) :
    ∃ l', r.2 = some l' ∧ l'.length = l.length + k := by
  induction k generalizing s l with
  | zero =>
    cases h
    exact ⟨l, rfl, rfl⟩
  | succ k ih =>
    obtain ⟨s1, -, h⟩ := Ilrma.bind_ok h
    obtain ⟨l1, e1, h⟩ := Ilrma.bind_ok h
    rw [recordPoint, if_pos rfl] at e1
    obtain ⟨v, -, e1⟩ := Ilrma.bind_ok e1
    cases e1
    obtain ⟨l', h1, h2⟩ := ih _ _ h
    refine ⟨l', h1, ?_⟩
    rw [h2, List.length_append, List.length_singleton]
    omega

theorem proxIterate_length {σ : Type} {attr : Option Bool} {loss : σ → Except PyErr ℝ} {update : σ → Except PyErr σ} (k : ℕ)
    (ic : Bool) (s : σ) {r : σ × Option (List ℝ)}
    (h : proxIterate attr loss update k ic s (if attr = some true then some [] else none) = .ok r) :
    (attr = some true → ∃ l, r.2 = some l ∧ l.length = k + (if ic then 1 else 0)) ∧ (attr ≠ some true → r.2 = none) := by
  constructor
  · rintro rfl
    rw [if_pos rfl] at h
    cases ic with
    | false =>
      obtain ⟨l, h1, h2⟩ := proxLoop_length k s [] h
      exact ⟨l, h1, by simpa using h2⟩
    | true =>
      simp only [proxIterate, if_true] at h
      obtain ⟨l1, e1, h⟩ := Ilrma.bind_ok h
      rw [recordPoint, if_pos rfl] at e1
      obtain ⟨v, -, e1⟩ := Ilrma.bind_ok e1
      cases e1
      obtain ⟨l, h1, h2⟩ := proxLoop_length k s _ h
      exact ⟨l, h1, by rw [h2]; simp [add_comm]⟩
  · intro ha
    rw [if_neg ha] at h
    have : proxLoop attr loss update k s none = .ok r := by
      cases ic
      · exact h
      · simpa only [proxIterate, recordPoint, ha, if_true, if_false, bind, Except.bind] using h
    exact proxLoop_none attr ha loss update k s this

/-- C98: after a method was made and called, `loss` holds one value per iteration, and one more for the start if
`initial_call=True`, when it was made with `record_loss=True`; otherwise `loss` is `None`. In particular the default
`record_loss=None` never records, with or without a penalty. -/
theorem C98_losses (a : ProxArgs F n t) (X : Spec F n t) (n_iter : ℕ) (ic : Bool) (r : Seen F n t)
    (h : (∃ mu1 mu2, pdsUse np mu1 mu2 a X n_iter ic = .ok r) ∨ ∃ rho, admmUse np rho a X n_iter ic = .ok r) :
    (a.record_loss = some true → ∃ l, r.loss = some l ∧ l.length = n_iter + (if ic then 1 else 0)) ∧
    (a.record_loss ≠ some true → r.loss = none) := by
  rcases h with ⟨mu1, mu2, h⟩ | ⟨rho, h⟩
  · obtain ⟨s, e1, h⟩ := Ilrma.bind_ok h
    obtain ⟨o, e2, h⟩ := Ilrma.bind_ok h
    cases h
    obtain ⟨-, -, -, -, -, -, e3, -⟩ := (C98_accepts a s).mp e1
    rw [← e3]
    obtain ⟨p, e4, e2⟩ := Ilrma.bind_ok e2
    obtain ⟨q, -, e2⟩ := Ilrma.bind_ok e2
    cases e2
    exact proxIterate_length _ _ _ e4
  · obtain ⟨s, e1, h⟩ := Ilrma.bind_ok h
    obtain ⟨o, e2, h⟩ := Ilrma.bind_ok h
    cases h
    obtain ⟨-, -, -, -, -, -, e3, -⟩ := (C98_accepts a s).mp e1
    rw [← e3]
    obtain ⟨p, e4, e2⟩ := Ilrma.bind_ok e2
    obtain ⟨q, -, e2⟩ := Ilrma.bind_ok e2
    cases e2
    exact proxIterate_length _ _ _ e4

/-- C98: `PDSBSS` made from any penalties and as many proximal operators, with `mu1 > 0`, no relaxation, projection back and
a reference channel, works on every recording; the outputs add up to the reference channel. -/
theorem C98_pds_works {mu1 : ℝ} (mu2 : ℝ) (h1 : 0 < mu1) (a : ProxArgs F n t) (hq : a.prox.Given) (hm : ¬ Mismatch a)
    (hl : ¬ NoLoss a) (ha : a.alpha = none) (hr : a.relaxation = 1) {c : Fin n} (hc : a.reference = some c)
    (hs : AsksPB a.scale) (X : Spec F n t) {n_iter : ℕ} (hn : n_iter ≠ 0) (ic : Bool) :
    ∃ W l, pdsUse np mu1 mu2 a X n_iter ic = .ok ⟨some (separate X W), some W, l⟩ ∧
      ∀ f j, ∑ k, separate X W f k j = X f c j := by
  classical
  have e1 := createProx_eq a
  rw [if_neg hl, if_neg (not_not.mpr hq), if_neg hm, if_neg (by simp [NoReference, hc]), if_neg (by simp [TwoNames, ha])] at e1
  have hp : LossOk a.record_loss (if a.penalty.Given then .list a.penalty.all else .none) := by
    intro h
    by_cases hg : a.penalty.Given
    · exact ⟨_, if_pos hg⟩
    · exact absurd ⟨hg, h⟩ hl
  obtain ⟨W, d, l, g1, g2⟩ := C90_pds_returns np mu1 mu2 (fun i => a.prox.all.get i) _ a.record_loss (sr := a.scale) c X h1 hp
    hs n_iter hn ic {} (PdsObj.fresh a.record_loss)
  refine ⟨W, l, ?_, g2⟩
  rw [pdsUse, e1]
  simp only [bind, Except.bind, ha, hc, hr, Option.getD_none, Option.getD_some]
  simp only [g1]

/-- C98: an accepted `PDSBSS` or `ADMMBSS` called on a recording runs its solver with the arguments it was made with: the
relaxation under either of its names, every penalty with its proximal operator, the scale restoration, the loss recording and
the reference channel. -/
theorem C98_behaves (a : ProxArgs F n t) (h1 : ¬ NoLoss a) (h2 : a.prox.Given) (h3 : ¬ Mismatch a)
    (h4 : ¬ NoReference a.scale a.reference) (h5 : ¬ TwoNames a.alpha a.relaxation) (P : Penalty F n t)
    (hP : a.penalty.Given ∧ P = .list a.penalty.all ∨ ¬ a.penalty.Given ∧ P = .none) (X : Spec F n t) (n_iter : ℕ)
    (ic : Bool) :
    (∀ mu1 mu2, pdsUse np mu1 mu2 a X n_iter ic
      = (pdsCall np mu1 mu2 (a.alpha.getD a.relaxation) (fun i => a.prox.all.get i) P a.record_loss a.scale
        (a.reference.getD 0) X n_iter ic {} (PdsObj.fresh a.record_loss)).map fun o => ⟨o.output, o.demix, o.loss⟩) ∧
    ∀ rho, admmUse np rho a X n_iter ic
      = (admmCall np rho (a.alpha.getD a.relaxation) (fun i => a.prox.all.get i) P a.record_loss a.scale
        (a.reference.getD 0) X n_iter ic {} (AdmmObj.fresh a.record_loss)).map fun o => ⟨o.output, o.demix, o.loss⟩ := by
  have hc : createProx a = .ok ⟨P, a.prox.all, a.alpha.getD a.relaxation, a.scale, a.record_loss, a.reference⟩ := by
    refine (C98_accepts _ _).mpr ⟨⟨h1, h2, h3, h4, h5⟩, ?_, ?_, rfl, rfl, rfl, rfl, rfl⟩
    · exact fun h => (hP.resolve_right fun h' => h'.1 h).2
    · exact fun h => (hP.resolve_left fun h' => h h'.1).2
  constructor
  · intro mu1 mu2
    simp only [pdsUse, hc, bind, Except.bind]
    cases pdsCall np mu1 mu2 (a.alpha.getD a.relaxation) (fun i => a.prox.all.get i) P a.record_loss a.scale
        (a.reference.getD 0) X n_iter ic {} (PdsObj.fresh a.record_loss) <;> rfl
  · intro rho
    simp only [admmUse, hc, bind, Except.bind]
    cases admmCall np rho (a.alpha.getD a.relaxation) (fun i => a.prox.all.get i) P a.record_loss a.scale
        (a.reference.getD 0) X n_iter ic {} (AdmmObj.fresh a.record_loss) <;> rfl

end use

/-! ## Masking -/

/-- Recording was asked for without a penalty. -/
def MaskNoLoss (a : MaskArgs F n t) : Prop := ¬ a.penalty.Given ∧ a.record_loss = some true

theorem createMask_ok {a : MaskArgs F n t} {s : MaskSettings F n t} (h : createMask a = .ok s) :
    (a.penalty = .none ∧ s.penalty = .none ∧ a.record_loss ≠ some true ∨ ∃ p, a.penalty = .fn p ∧ s.penalty = .fn p) ∧
    a.mask = .fn s.mask ∧ ¬ NoReference a.scale a.reference ∧ ¬ TwoNames a.alpha a.relaxation ∧
    s.relaxation = a.alpha.getD a.relaxation ∧ s.scale = a.scale ∧ s.record_loss = a.record_loss ∧
    s.reference = a.reference := by
  classical
  obtain ⟨p, m, al, re, sc, rl, rf⟩ := a
  simp only [createMask, checkRef_eq, resolveAlpha_eq] at h
  have e3 : ¬ NoReference sc rf := fun h' => by
    rcases p with _ | p | p <;> rcases m with _ | m | m <;> rcases rl with _ | _ | _ <;>
      simp [h', recordLossAttr, bind, Except.bind] at h
  have e4 : ¬ TwoNames al re := fun h' => by
    rcases p with _ | p | p <;> rcases m with _ | m | m <;> rcases rl with _ | _ | _ <;>
      simp [h', e3, recordLossAttr, bind, Except.bind] at h
  rcases p with _ | p | p <;> rcases m with _ | m | m <;> rcases rl with _ | _ | _ <;>
    simp [e3, e4, recordLossAttr, bind, Except.bind, Fns.toPenalty] at h <;> subst h <;> simp [e3, e4]

/-- C98: `MaskingPDSBSS(...)` and `MaskingADMMBSS(...)` accept exactly: a mask; no penalty, or one penalty that is not in a
list; `record_loss=True` only with a penalty; a reference channel unless the scale is left alone; `alpha` or `relaxation`,
not both. -/
theorem C98_masking_accepts (a : MaskArgs F n t) :
    (∃ s, createMask a = .ok s) ↔ (∃ m, a.mask = .fn m) ∧ (∀ l, a.penalty ≠ .list l) ∧ ¬ MaskNoLoss a ∧
      ¬ NoReference a.scale a.reference ∧ ¬ TwoNames a.alpha a.relaxation := by
  classical
  constructor
  · rintro ⟨s, h⟩
    obtain ⟨h1, h2, h3, h4, -⟩ := createMask_ok h
    refine ⟨⟨_, h2⟩, ?_, ?_, h3, h4⟩
    · rcases h1 with ⟨h1, -⟩ | ⟨p, h1, -⟩ <;> rw [h1] <;> intro l <;> exact fun h => by cases h
    · rintro ⟨g1, g2⟩
      rcases h1 with ⟨-, -, h1⟩ | ⟨p, h1, -⟩
      · exact h1 g2
      · rw [h1] at g1
        exact g1 trivial
  · rintro ⟨⟨m, hm⟩, h1, h2, h3, h4⟩
    obtain ⟨p, m', al, re, sc, rl, rf⟩ := a
    cases hm
    cases p with
    | none =>
      have : rl ≠ some true := fun h => h2 ⟨id, h⟩
      refine ⟨⟨.none, m, al.getD re, sc, rl, rf⟩, ?_⟩
      simp only [createMask, checkRef_eq, resolveAlpha_eq]
      rcases rl with _ | _ | _ <;>
        simp_all [recordLossAttr, bind, Except.bind, Fns.toPenalty]
    | fn p =>
      refine ⟨⟨.fn p, m, al.getD re, sc, rl, rf⟩, ?_⟩
      simp only [createMask, checkRef_eq, resolveAlpha_eq]
      simp_all [recordLossAttr, bind, Except.bind, Fns.toPenalty]
    | list l => exact absurd rfl (h1 l)

section maskuse

variable [Fintype F] [NeZero n] (np : Numpy ℂ)

omit [NeZero n] in
theorem iterate_type {σ : Type} (p : Spec F n t → ℝ) (X : Spec F n t) (filter : σ → F → Mat n ℂ)
    (update : σ → Except PyErr σ) (n_iter : ℕ) (ic : Bool) (h : ic = true ∨ n_iter ≠ 0) (s : σ) (l : Option (List ℝ))
    (r : σ × Option (List ℝ)) :
    proxIterate (some true) (fun s => computeLoss (.fn p) X (filter s)) update n_iter ic s l ≠ .ok r := by
  intro e
  cases ic with
  | true => simp [proxIterate, recordPoint, computeLoss, bind, Except.bind] at e
  | false =>
    obtain ⟨m, rfl⟩ := Nat.exists_eq_succ_of_ne_zero (h.resolve_left (by simp))
    simp only [proxIterate, Bool.false_eq_true, if_false] at e
    obtain ⟨s1, -, e⟩ := Ilrma.bind_ok (show (update s >>= _) = _ from e)
    obtain ⟨l2, e2, -⟩ := Ilrma.bind_ok e
    simp [recordPoint, computeLoss, bind, Except.bind] at e2

/-- C98 (finding): there is no way to record losses with `MaskingPDSBSS` or `MaskingADMMBSS`. Whatever the arguments, if
`record_loss=True` then either the constructor raises or the first call does, as soon as it would record anything. -/
theorem C98_masking_never_records (a : MaskArgs F n t) (ha : a.record_loss = some true) (X : Spec F n t) (n_iter : ℕ)
    (ic : Bool) (h : ic = true ∨ n_iter ≠ 0) (r : Seen F n t) :
    (∀ mu1 mu2, maskPdsUse np mu1 mu2 a X n_iter ic ≠ .ok r) ∧ ∀ rho, maskAdmmUse np rho a X n_iter ic ≠ .ok r := by
  refine ⟨fun mu1 mu2 e => ?_, fun rho e => ?_⟩
  · obtain ⟨s, e1, e⟩ := Ilrma.bind_ok e
    obtain ⟨o, e2, -⟩ := Ilrma.bind_ok e
    obtain ⟨h1, -, -, -, -, -, h2, -⟩ := createMask_ok e1
    obtain ⟨p, -, hp⟩ := h1.resolve_left fun h => h.2.2 ha
    rw [h2, hp, ha] at e2
    obtain ⟨q, e2, -⟩ := Ilrma.bind_ok e2
    exact iterate_type p X (fun s : (F → Mat n ℂ) × Spec F n t => s.1) _ n_iter ic h _ _ _ e2
  · obtain ⟨s, e1, e⟩ := Ilrma.bind_ok e
    obtain ⟨o, e2, -⟩ := Ilrma.bind_ok e
    obtain ⟨h1, -, -, -, -, -, h2, -⟩ := createMask_ok e1
    obtain ⟨p, -, hp⟩ := h1.resolve_left fun h => h.2.2 ha
    rw [h2, hp, ha] at e2
    obtain ⟨q, e2, -⟩ := Ilrma.bind_ok e2
    exact iterate_type p X (fun s : (F → Mat n ℂ) × (F → Mat n ℂ) × Spec F n t × (F → Mat n ℂ) × Spec F n t => s.1) _ n_iter
      ic h _ _ _ e2

/-- C98: an accepted masking method called on a recording runs its solver with the arguments it was made with. -/
theorem C98_masking_behaves (a : MaskArgs F n t) {m : Spec F n t → F → Matrix (Fin n) (Fin t) ℝ} (h1 : a.mask = .fn m)
    (h3 : ¬ MaskNoLoss a) (h4 : ¬ NoReference a.scale a.reference) (h5 : ¬ TwoNames a.alpha a.relaxation)
    {P : Penalty F n t} (hP : (∃ p, a.penalty = .fn p ∧ P = .fn p) ∨ a.penalty = .none ∧ P = .none) (X : Spec F n t)
    (n_iter : ℕ) (ic : Bool) :
    (∀ mu1 mu2, maskPdsUse np mu1 mu2 a X n_iter ic
      = (maskingPdsCall np mu1 mu2 (a.alpha.getD a.relaxation) m P a.record_loss a.scale (a.reference.getD 0) X n_iter ic {}
        ⟨none, none, none, if a.record_loss = some true then some [] else none⟩).map fun o => ⟨o.output, o.demix, o.loss⟩) ∧
    ∀ rho, maskAdmmUse np rho a X n_iter ic
      = (maskingAdmmCall np rho (a.alpha.getD a.relaxation) m P a.record_loss a.scale (a.reference.getD 0) X n_iter ic {}
        ⟨none, none, none, none, none, none, if a.record_loss = some true then some [] else none⟩).map
          fun o => ⟨o.output, o.demix, o.loss⟩ := by
  have hc : createMask a = .ok ⟨P, m, a.alpha.getD a.relaxation, a.scale, a.record_loss, a.reference⟩ := by
    obtain ⟨s, hs⟩ := (C98_masking_accepts a).mpr ⟨⟨m, h1⟩, fun l => by
      rcases hP with ⟨p, e, -⟩ | ⟨e, -⟩ <;> rw [e] <;> simp, h3, h4, h5⟩
    obtain ⟨e1, e2, -, -, e3, e4, e5, e6⟩ := createMask_ok hs
    obtain ⟨p', m', r', s', l', c'⟩ := s
    dsimp only at e1 e2 e3 e4 e5 e6
    subst e3 e4 e5 e6
    have : m' = m := by
      rw [e2] at h1
      cases h1
      rfl
    subst this
    have : p' = P := by
      rcases hP with ⟨p, e, rfl⟩ | ⟨e, rfl⟩ <;> rcases e1 with ⟨e7, e8, -⟩ | ⟨q, e7, e8⟩ <;> rw [e] at e7 <;> cases e7 <;>
        exact e8
    rw [hs, this]
  constructor
  · intro mu1 mu2
    simp only [maskPdsUse, hc, bind, Except.bind]
    cases maskingPdsCall np mu1 mu2 (a.alpha.getD a.relaxation) m P a.record_loss a.scale (a.reference.getD 0) X n_iter ic {}
        ⟨none, none, none, if a.record_loss = some true then some [] else none⟩ <;> rfl
  · intro rho
    simp only [maskAdmmUse, hc, bind, Except.bind]
    cases maskingAdmmCall np rho (a.alpha.getD a.relaxation) m P a.record_loss a.scale (a.reference.getD 0) X n_iter ic {}
        ⟨none, none, none, none, none, none, if a.record_loss = some true then some [] else none⟩ <;> rfl

omit [Fintype F] [NeZero n] in
/-- C98 (finding): harmonic vector analysis with `record_loss=True` cannot be made; otherwise it can, with a reference channel
or no scale restoration, and not both names of the relaxation. -/
theorem C98_hva (mask : Spec F n t → F → Matrix (Fin n) (Fin t) ℝ) (alpha : Option ℝ) (relaxation : ℝ) (scale : ScaleOpt)
    (reference : Option (Fin n)) :
    createHva mask alpha relaxation scale (some true) reference = .error .assertion ∧
    ∀ rl : Option Bool, rl ≠ some true → ((∃ s, createHva mask alpha relaxation scale rl reference = .ok s ∧ s.mask = mask ∧
        s.relaxation = alpha.getD relaxation ∧ s.record_loss = rl ∧ s.scale = scale ∧ s.reference = reference ∧
        s.penalty = .none) ↔
      ¬ NoReference scale reference ∧ ¬ TwoNames alpha relaxation) := by
  refine ⟨rfl, fun rl hrl => ⟨?_, ?_⟩⟩
  · rintro ⟨s, h, -⟩
    obtain ⟨-, -, h3, h4, -⟩ := createMask_ok h
    exact ⟨h3, h4⟩
  · rintro ⟨h3, h4⟩
    obtain ⟨s, hs⟩ := (C98_masking_accepts ⟨.none, .fn mask, alpha, relaxation, scale, rl, reference⟩).mpr
      ⟨⟨mask, rfl⟩, by simp, fun h => hrl h.2, h3, h4⟩
    obtain ⟨h1, h2, -, -, h5, h7, h6, h8⟩ := createMask_ok hs
    cases h2
    rcases h1 with ⟨-, h1, -⟩ | ⟨p, h1, -⟩
    · exact ⟨s, hs, rfl, h5, h6, h7, h8, h1⟩
    · cases h1

end maskuse

/-! ## Independent vector analysis -/

/-- C98: `PDSIVA` and `ADMMIVA` want both a contrast and its proximal operator or none of the two (`ValueError` otherwise);
without them they are `PDSBSS` and `ADMMBSS` with the sum of the `ℓ2` norms over the bins. -/
theorem C98_iva [NeZero n] {b : ℕ} (np : Numpy ℂ) (a : IvaArgs b n t) (X : Spec (Fin b) n t) (n_iter : ℕ) (ic : Bool) :
    ((a.contrast = none ↔ a.prox ≠ none) → (∀ mu1 mu2, pdsIvaUse np mu1 mu2 a X n_iter ic = .error .value) ∧
      ∀ rho, admmIvaUse np rho a X n_iter ic = .error .value) ∧
    (a.contrast = none → a.prox = none →
      (∀ mu1 mu2, pdsIvaUse np mu1 mu2 a X n_iter ic = pdsUse np mu1 mu2 ⟨.fn ivaPenalty, .fn ivaProx, a.alpha, a.relaxation,
        a.scale, a.record_loss, a.reference⟩ X n_iter ic) ∧
      ∀ rho, admmIvaUse np rho a X n_iter ic = admmUse np rho ⟨.fn ivaPenalty, .fn ivaProx, a.alpha, a.relaxation,
        a.scale, a.record_loss, a.reference⟩ X n_iter ic) ∧
    (∀ g p, a.contrast = some g → a.prox = some p →
      (∀ mu1 mu2, pdsIvaUse np mu1 mu2 a X n_iter ic = pdsUse np mu1 mu2 ⟨.fn fun y => ∑ k, ∑ j, g y k j, .fn p, a.alpha,
        a.relaxation, a.scale, a.record_loss, a.reference⟩ X n_iter ic) ∧
      ∀ rho, admmIvaUse np rho a X n_iter ic = admmUse np rho ⟨.fn fun y => ∑ k, ∑ j, g y k j, .fn p, a.alpha,
        a.relaxation, a.scale, a.record_loss, a.reference⟩ X n_iter ic) := by
  obtain ⟨c, p, al, re, sc, rl, rf⟩ := a
  refine ⟨fun h => ?_, fun h1 h2 => ?_, fun g p h1 h2 => ?_⟩
  · cases c <;> cases p <;> simp at h <;>
      exact ⟨fun _ _ => rfl, fun _ => rfl⟩
  · cases h1
    cases h2
    exact ⟨fun _ _ => rfl, fun _ => rfl⟩
  · cases h1
    cases h2
    exact ⟨fun _ _ => rfl, fun _ => rfl⟩

/-! ## Deprecated names -/

/-- C98: calling `ADMMBSS` with the old keyword names is calling it with the new ones; if both are given the old one counts. -/
theorem C98_old_names [Fintype F] {q : ℕ} (np : Numpy ℂ) (rho relaxation : ℝ) (prox : Fin q → Spec F n t → ℝ → Spec F n t)
    (penalty : Penalty F n t) (attr : Option Bool) (sr : ScaleOpt) (r : Fin n) (X : Spec F n t) (n_iter : ℕ) (ic : Bool)
    (kw : AdmmKw F n t q) (V : F → Mat n ℂ) (Vt : Fin q → Spec F n t) (o : AdmmObj F n t q) :
    admmCall np rho relaxation prox penalty attr sr r X n_iter ic
        (AdmmRawKw.rename { toAdmmKw := kw, aux1 := some V, aux2 := some Vt }) o
      = admmCall np rho relaxation prox penalty attr sr r X n_iter ic
        (AdmmRawKw.rename { toAdmmKw := { kw with auxiliary1 := some V, auxiliary2 := some Vt } }) o ∧
    admmCall np rho relaxation prox penalty attr sr r X n_iter ic (AdmmRawKw.rename { toAdmmKw := kw }) o
      = admmCall np rho relaxation prox penalty attr sr r X n_iter ic kw o := ⟨rfl, rfl⟩

/-! ## Examples -/

/-- `PDSIVA()` with its defaults, called on any recording of two channels, returns, and has recorded 101 losses; with a
contrast but without a proximal operator it raises. -/
example (np : Numpy ℂ) (X : Spec (Fin 3) 2 5) :
    (∃ r l, pdsIvaUse np 1 1 ⟨none, none, none, 1, .bool true, some true, some 0⟩ X 100 true = .ok r ∧ r.loss = some l ∧
      l.length = 101) ∧
    pdsIvaUse np 1 1 ⟨some fun y k j => ‖y 0 k j‖, none, none, 1, .bool true, some true, some 0⟩ X 100 true
      = .error .value := by
  obtain ⟨W, l, h, -⟩ := C98_pds_works np 1 one_pos
    (⟨.fn ivaPenalty, .fn ivaProx, none, 1, .bool true, some true, some 0⟩ : ProxArgs (Fin 3) 2 5) trivial
    (by simp [Mismatch, Fns.all]) (by simp [NoLoss, Fns.Given]) rfl rfl rfl (Or.inl rfl) X (n_iter := 100) (by norm_num) true
  obtain ⟨l', h1, h2⟩ := (C98_losses np _ X 100 true _ (Or.inl ⟨1, 1, h⟩)).1 rfl
  refine ⟨⟨_, l', ?_, h1, h2⟩, ?_⟩
  · rw [((C98_iva np _ X 100 true).2.1 rfl rfl).1 1 1]
    exact h
  · exact ((C98_iva np _ X 100 true).1 (by simp)).1 1 1

/-- Two penalties with one proximal operator are rejected, a masking method with a list of penalties too. -/
example : createProx (⟨.list [ivaPenalty, ivaPenalty], .fn ivaProx, none, 1, .bool true, none, some 0⟩ : ProxArgs (Fin 3) 2 5)
      = .error .assertion ∧
    ¬ ∃ s, createMask (⟨.list [ivaPenalty], .fn fun _ _ _ _ => 1, none, 1, .bool true, none, some 0⟩ : MaskArgs (Fin 3) 2 5)
      = .ok s := by
  refine ⟨(C98_rejects _ _).mpr ?_, fun h => ((C98_masking_accepts _).mp h).2.1 _ rfl⟩
  simp [NoLoss, Mismatch, Fns.Given, Fns.all]

/-- A masking method that is accepted with `record_loss=True`, and so fails when called. -/
example : ∃ s, createMask (⟨.fn ivaPenalty, .fn fun _ _ _ _ => 1, none, 1, .bool true, some true, some 0⟩ : MaskArgs (Fin 3) 2 5)
    = .ok s :=
  (C98_masking_accepts _).mpr ⟨⟨_, rfl⟩, by simp, by simp [MaskNoLoss, Fns.Given], by simp [NoReference], by simp [TwoNames]⟩

end Verif.ProxBss
