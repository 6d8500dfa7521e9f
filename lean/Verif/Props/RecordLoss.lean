import Verif.Lemmas.Equivariance
import Verif.Model.RecordLoss
import Verif.Props.FlooredCall

/-!
# C103: what `record_loss` changes
-/

namespace Verif.RecordLoss

open Matrix Scale Lifecycle
open IlrmaCall (baseCall iterations)

/-! ## All methods -/

section generic

variable {σ O : Type}

theorem loop_record (step : σ → Except PyErr σ) (loss : σ → Except PyErr ℝ) (k : ℕ) (s : σ) (ls : List ℝ) :
    loop true step loss k s (some ls) = Except.map (fun q => (q.1, some q.2)) (iterations step loss k s ls) := by
  induction k generalizing s ls with
  | zero => rfl
  | succ k ih =>
    rw [loop, iterations, map_bind]
    congr 1
    funext s'
    rw [map_bind]
    cases e : loss s' with
    | error e' => simp only [point, e, if_true]; rfl
    | ok v =>
      simp only [point, e, if_true]
      exact ih s' _

theorem loop_quiet (step : σ → Except PyErr σ) (loss : σ → Except PyErr ℝ) (k : ℕ) (s : σ) :
    loop false step loss k s none = Except.map (fun s => (s, none)) (iterM step k s) := by
  induction k generalizing s with
  | zero => rfl
  | succ k ih =>
    rw [loop, iterM, map_bind]
    congr 1
    funext s'
    exact ih s'

/-- A call of an object made with `record_loss=True`. -/
theorem call_record (m : Method σ O) (ic : Bool) (k : ℕ) (ls : List ℝ) :
    m.call true ic k (some ls) = (do
      let s ← m.start
      let q ← baseCall m.step m.loss ic k s ls
      let o ← m.finish q.1
      .ok (o, some q.2)) := by
  rw [Method.call]
  cases e : m.start with
  | error e' => rfl
  | ok s =>
    simp only [bind, Except.bind]
    cases ic with
    | false =>
      simp only [Bool.false_eq_true, if_false, loop_record, baseCall]
      cases iterations m.step m.loss k s ls <;> rfl
    | true =>
      simp only [if_true, baseCall, point, bind, Except.bind]
      cases m.loss s with
      | error => rfl
      | ok v =>
        simp only [loop_record]
        cases iterations m.step m.loss k s (ls ++ [v]) <;> rfl

/-- A call of an object made with `record_loss=False`. -/
theorem call_quiet (m : Method σ O) (ic : Bool) (k : ℕ) :
    m.call false ic k none = (do
      let s ← m.start
      let s ← iterM m.step k s
      let o ← m.finish s
      .ok (o, none)) := by
  rw [Method.call]
  cases e : m.start with
  | error e' => rfl
  | ok s =>
    cases ic <;>
    · simp only [bind, Except.bind, point, Bool.false_eq_true, if_false, if_true, loop_quiet]
      cases iterM m.step k s <;> rfl

theorem iterations_state {step : σ → Except PyErr σ} {loss : σ → Except PyErr ℝ} {k : ℕ} {s s' : σ} {ls ls' : List ℝ}
    (h : iterations step loss k s ls = .ok (s', ls')) :
    iterM step k s = .ok s' ∧ ls <+: ls' ∧ ls'.length = ls.length + k := by
  induction k generalizing s ls with
  | zero => obtain ⟨rfl, rfl⟩ := Prod.mk.inj (Except.ok.inj h); exact ⟨rfl, List.prefix_rfl, rfl⟩
  | succ k ih =>
    rw [iterations] at h
    obtain ⟨s1, e1, h⟩ := Ilrma.bind_ok h
    obtain ⟨v, -, h⟩ := Ilrma.bind_ok h
    obtain ⟨h1, h2, h3⟩ := ih h
    refine ⟨?_, (List.prefix_append _ _).trans h2, ?_⟩
    · rw [iterM, e1]
      exact h1
    · rw [h3, List.length_append, List.length_singleton]
      omega

theorem baseCall_state {step : σ → Except PyErr σ} {loss : σ → Except PyErr ℝ} {ic : Bool} {k : ℕ} {s s' : σ} {ls ls' : List ℝ}
    (h : baseCall step loss ic k s ls = .ok (s', ls')) :
    iterM step k s = .ok s' ∧ ls <+: ls' ∧ ls'.length = ls.length + (if ic then 1 else 0) + k := by
  cases ic with
  | false => simpa [baseCall] using iterations_state (h : iterations step loss k s ls = .ok (s', ls'))
  | true =>
    have h' : (loss s >>= fun v => iterations step loss k s (ls ++ [v])) = .ok (s', ls') := h
    obtain ⟨v, -, h⟩ := Ilrma.bind_ok h'
    obtain ⟨h1, h2, h3⟩ := iterations_state h
    exact ⟨h1, (List.prefix_append _ _).trans h2, by rw [h3, List.length_append, List.length_singleton]; rfl⟩

/-- C103: if the call of an object made with `record_loss=True` returns, so does the call of an object made with
`record_loss=False` that is otherwise in the same state; it leaves the same attributes, except that `loss` is `None`. With
`record_loss=True` one number per iteration was appended to `loss`, and one more if `initial_call`. -/
theorem C103_quiet (m : Method σ O) {ic : Bool} {k : ℕ} {ls : List ℝ} {o : List ℝ → O} {ls' : Option (List ℝ)}
    (h : m.call true ic k (some ls) = .ok (o, ls')) :
    m.call false ic k none = .ok (o, none) ∧
      ∃ l, ls' = some l ∧ ls <+: l ∧ l.length = ls.length + (if ic then 1 else 0) + k := by
  rw [call_record] at h
  obtain ⟨s, e1, h⟩ := Ilrma.bind_ok h
  obtain ⟨⟨s', l⟩, e2, h⟩ := Ilrma.bind_ok h
  obtain ⟨o', e3, h⟩ := Ilrma.bind_ok h
  obtain ⟨rfl, rfl⟩ := Prod.mk.inj (Except.ok.inj h)
  obtain ⟨h1, h2, h3⟩ := baseCall_state e2
  refine ⟨?_, l, rfl, h2, h3⟩
  rw [call_quiet]
  simp only [e1, h1, bind, Except.bind]
  rw [show m.finish s' = .ok o' from e3]

theorem iterations_total {step : σ → Except PyErr σ} {loss : σ → Except PyErr ℝ} {f : σ → ℝ} (hl : ∀ s, loss s = .ok (f s))
    (k : ℕ) (s : σ) (ls : List ℝ) : Except.map Prod.fst (iterations step loss k s ls) = iterM step k s := by
  induction k generalizing s ls with
  | zero => rfl
  | succ k ih =>
    rw [iterations, iterM, map_bind]
    congr 1
    funext s'
    rw [hl s']
    exact ih s' _

/-- If the loss can always be computed, the two calls also raise the same exceptions. -/
theorem call_total (m : Method σ O) {f : σ → ℝ} (hl : ∀ s, m.loss s = .ok (f s)) (ic : Bool) (k : ℕ) (ls : List ℝ) :
    m.call false ic k none = Except.map (fun p => (p.1, none)) (m.call true ic k (some ls)) := by
  rw [call_quiet, call_record]
  cases m.start with
  | error e => rfl
  | ok s =>
    have h : Except.map Prod.fst (baseCall m.step m.loss ic k s ls) = iterM m.step k s := by
      cases ic with
      | false => exact iterations_total hl k s ls
      | true =>
        change Except.map Prod.fst (m.loss s >>= fun v => iterations m.step m.loss k s (ls ++ [v])) = _
        rw [hl s]
        exact iterations_total hl k s _
    simp only [bind, Except.bind, ← h]
    cases baseCall m.step m.loss ic k s ls with
    | error e => rfl
    | ok q =>
      simp only [Except.map]
      cases m.finish q.1 <;> rfl

/-- If the loss can be computed either in all states or in none, a call with `record_loss=True` returns exactly if the one with
`record_loss=False` does and either the loss can be computed or none is asked for. -/
theorem call_gated (m : Method σ O) {P : Prop} {e : PyErr} (h1 : P → ∃ f : σ → ℝ, ∀ s, m.loss s = .ok (f s))
    (h2 : ¬ P → ∀ s, m.loss s = .error e) (ic : Bool) (k : ℕ) (ls : List ℝ) :
    (∃ p, m.call true ic k (some ls) = .ok p) ↔ (∃ p, m.call false ic k none = .ok p) ∧ ((ic = false ∧ k = 0) ∨ P) := by
  constructor
  · rintro ⟨⟨o, l⟩, h⟩
    refine ⟨⟨_, (C103_quiet m h).1⟩, ?_⟩
    by_contra hc
    obtain ⟨hc1, hc2⟩ := not_or.mp hc
    rw [call_record] at h
    obtain ⟨s, -, h⟩ := Ilrma.bind_ok h
    obtain ⟨⟨s', l⟩, h, -⟩ := Ilrma.bind_ok h
    cases ic with
    | true =>
      have h' : (m.loss s >>= fun v => iterations m.step m.loss k s (ls ++ [v])) = .ok (s', l) := h
      rw [h2 hc2] at h'
      cases h'
    | false =>
      cases k with
      | zero => exact hc1 ⟨rfl, rfl⟩
      | succ k =>
        have h' : (m.step s >>= fun s => m.loss s >>= fun v => iterations m.step m.loss k s (ls ++ [v])) = .ok (s', l) := h
        obtain ⟨s1, -, h'⟩ := Ilrma.bind_ok h'
        rw [h2 hc2] at h'
        cases h'
  · rintro ⟨⟨⟨o, l⟩, h⟩, hc⟩
    rcases hc with ⟨rfl, rfl⟩ | hP
    · rw [call_quiet] at h
      obtain ⟨s, e1, h⟩ := Ilrma.bind_ok h
      obtain ⟨s', e2, h⟩ := Ilrma.bind_ok h
      obtain ⟨o', e3, h⟩ := Ilrma.bind_ok h
      obtain rfl := Except.ok.inj e2
      refine ⟨(o', some ls), ?_⟩
      rw [call_record]
      simp only [e1, bind, Except.bind, baseCall, iterations, Bool.false_eq_true, if_false]
      rw [show m.finish s = .ok o' from e3]
    · obtain ⟨f, hf⟩ := h1 hP
      rw [call_total m hf ic k ls] at h
      obtain ⟨p, hp, -⟩ := map_ok h
      exact ⟨p, hp⟩

/-- The call of an object made with `record_loss=True`, as in the models of the classes. -/
def Method.recorded (m : Method σ O) (ic : Bool) (k : ℕ) (ls : List ℝ) : Except PyErr O := do
  let s ← m.start
  let q ← baseCall m.step m.loss ic k s ls
  let o ← m.finish q.1
  .ok (o q.2)

theorem recorded_call (m : Method σ O) (ic : Bool) (k : ℕ) (ls : List ℝ) :
    m.recorded ic k ls = Except.map (fun p => p.1 (p.2.getD [])) (m.call true ic k (some ls)) := by
  rw [call_record, Method.recorded]
  simp only [map_bind]
  rfl

variable {m : Method σ O} {setLoss : O → List ℝ → O}

section finish

variable {γ : Type} {g : σ → Except PyErr γ} {h : σ → γ → List ℝ → O} {existing : Except PyErr O}

theorem recorded_eq (hm : ∀ s, m.finish s = g s >>= fun y => .ok (h s y)) (ic : Bool) (k : ℕ) (ls : List ℝ) :
    m.recorded ic k ls = (do
      let s ← m.start
      let q ← baseCall m.step m.loss ic k s ls
      let y ← g q.1
      .ok (h q.1 y q.2)) := by
  rw [Method.recorded]
  cases m.start with
  | error => rfl
  | ok s =>
    simp only [bind, Except.bind]
    cases baseCall m.step m.loss ic k s ls with
    | error => rfl
    | ok q =>
      simp only [hm]
      cases g q.1 <;> rfl

/-- The call raises exactly if it would with `record_loss=True`. -/
theorem quiet_total {f : σ → ℝ} (hl : ∀ s, m.loss s = .ok (f s)) (hm : ∀ s, m.finish s = g s >>= fun y => .ok (h s y))
    (hs : ∀ s y l, h s y = setLoss (h s y l)) {ic : Bool} {k : ℕ} {ls : List ℝ}
    (he : existing = (do
      let s ← m.start
      let q ← baseCall m.step m.loss ic k s ls
      let y ← g q.1
      .ok (h q.1 y q.2))) :
    m.call false ic k none = Except.map (fun o => (setLoss o, none)) existing := by
  rw [he, ← recorded_eq hm, call_total m hl ic k ls, recorded_call]
  cases e : m.call true ic k (some ls) with
  | error => rfl
  | ok p =>
    rw [call_record] at e
    obtain ⟨s, -, e⟩ := Ilrma.bind_ok e
    obtain ⟨q, -, e⟩ := Ilrma.bind_ok e
    obtain ⟨o, e3, e⟩ := Ilrma.bind_ok e
    obtain rfl := Except.ok.inj e
    rw [hm] at e3
    obtain ⟨y, -, e3⟩ := Ilrma.bind_ok e3
    obtain rfl := Except.ok.inj e3
    change Except.ok (h q.1 y, none) = Except.ok (setLoss (h q.1 y ((some q.2).getD [])), none)
    rw [← hs]

theorem quiet_of (hm : ∀ s, m.finish s = g s >>= fun y => .ok (h s y)) (hs : ∀ s y l, h s y = setLoss (h s y l)) {ic : Bool}
    {k : ℕ} {ls : List ℝ}
    (he : existing = (do
      let s ← m.start
      let q ← baseCall m.step m.loss ic k s ls
      let y ← g q.1
      .ok (h q.1 y q.2))) {o : O} (ho : existing = .ok o) : m.call false ic k none = .ok (setLoss o, none) := by
  rw [he, ← recorded_eq hm, recorded_call] at ho
  obtain ⟨⟨b, l⟩, hp, rfl⟩ := map_ok ho
  rw [(C103_quiet m hp).1]
  rw [call_record] at hp
  obtain ⟨s, -, e⟩ := Ilrma.bind_ok hp
  obtain ⟨q, -, e⟩ := Ilrma.bind_ok e
  obtain ⟨o, e3, e⟩ := Ilrma.bind_ok e
  obtain ⟨rfl, rfl⟩ := Prod.mk.inj (Except.ok.inj e)
  rw [hm] at e3
  obtain ⟨y, -, e3⟩ := Ilrma.bind_ok e3
  obtain rfl := Except.ok.inj e3
  rw [← hs]

theorem quiet_gated {P : Prop} {e : PyErr} (h1 : P → ∃ f : σ → ℝ, ∀ s, m.loss s = .ok (f s))
    (h2 : ¬ P → ∀ s, m.loss s = .error e) (hm : ∀ s, m.finish s = g s >>= fun y => .ok (h s y)) {ic : Bool} {k : ℕ}
    {ls : List ℝ}
    (he : existing = (do
      let s ← m.start
      let q ← baseCall m.step m.loss ic k s ls
      let y ← g q.1
      .ok (h q.1 y q.2))) :
    (∃ o, existing = .ok o) ↔ (∃ p, m.call false ic k none = .ok p) ∧ ((ic = false ∧ k = 0) ∨ P) := by
  rw [← call_gated m h1 h2 ic k ls, he, ← recorded_eq hm, recorded_call]
  constructor
  · rintro ⟨o, h⟩
    obtain ⟨p, hp, -⟩ := map_ok h
    exact ⟨p, hp⟩
  · rintro ⟨p, hp⟩
    exact ⟨_, by rw [hp]; rfl⟩

end finish

end generic

variable {F : Type} [Fintype F] {n t K : ℕ}

section ilrma

open Ilrma IlrmaCall

variable (np : Numpy ℂ) (src : Source) (p : ℝ) (norm : Norm n) (floor : ℝ → ℝ) (sr : ScaleOpt) (r : Fin n) (X : Spec F n t)
  (ic : Bool) (k : ℕ)

/-- C103: an ILRMA object with IP1 or IP2 made with `record_loss=False` returns, raises and leaves what one made with
`record_loss=True` does, except for the attribute `loss`, which is `None`. -/
theorem C103_ilrma (alg : FilterAlg n) (draw : Draw F n t K) (kw : Kw F n t K) (o : IlrmaCall.Obj F n t K) :
    (ilrma np src p norm floor sr r X alg draw kw o).call false ic k none
      = Except.map (fun o' => (fun ls => { o' with loss := ls }, none))
        (IlrmaCall.call np src p alg norm floor sr r draw X k ic kw o) := by
  refine quiet_total (m := ilrma np src p norm floor sr r X alg draw kw o)
    (g := fun s : St F n t K => Lifecycle.finish sr r X s.W)
    (h := fun s y ls => (⟨.val y.2, .val s.T, .val s.V, .val y.1, ls⟩ : IlrmaCall.Obj F n t K))
    (setLoss := fun o ls => { o with loss := ls }) (ls := o.loss)
    (fun _ => rfl) (fun _ => rfl) (fun _ _ _ => rfl) ?_
  rw [IlrmaCall.call]
  rfl

/-- C103 with partitioning. -/
theorem C103_ilrma_partitioned (alg : FilterAlg n) (draw : DrawP F n t K) (kw : KwP F n t K) (o : ObjP F n t K) :
    (ilrmaP np src p norm floor sr r X alg draw kw o).call false ic k none
      = Except.map (fun o' => (fun ls => { o' with loss := ls }, none))
        (callP np src p alg norm floor sr r draw X k ic kw o) := by
  refine quiet_total (m := ilrmaP np src p norm floor sr r X alg draw kw o)
    (g := fun s : StP F n t K => Lifecycle.finish sr r X s.W)
    (h := fun s y ls => (⟨.val y.2, .val s.Z, .val s.T, .val s.V, .val y.1, ls⟩ : ObjP F n t K))
    (setLoss := fun o ls => { o with loss := ls }) (ls := o.loss)
    (fun _ => rfl) (fun _ => rfl) (fun _ _ _ => rfl) ?_
  rw [callP]
  rfl

/-- C103: with ISS1 or ISS2 the loss needs the filters, which are fitted to the signals by least squares. So a call with
`record_loss=True` returns exactly if the one with `record_loss=False` does and, unless no loss is asked for, the channels are
linearly independent in every bin. -/
theorem C103_ilrma_signal (alg : SignalAlg n) (draw : Draw F n t K) (kw : Kw F n t K) (o : IlrmaCall.Obj F n t K) :
    ((∃ o', callSignal np src p alg norm floor sr r draw X k ic kw o = .ok o') ↔
      (∃ q, (ilrmaSignal np src p norm floor sr r X alg draw kw o).call false ic k none = .ok q) ∧
        ((ic = false ∧ k = 0) ∨ ∀ f, IsUnit (X f * (X f)ᴴ).det)) ∧
    ∀ o', callSignal np src p alg norm floor sr r draw X k ic kw o = .ok o' →
      (ilrmaSignal np src p norm floor sr r X alg draw kw o).call false ic k none = .ok (fun ls => { o' with loss := ls }, none) := by
  refine ⟨quiet_gated (m := ilrmaSignal np src p norm floor sr r X alg draw kw o)
    (g := fun s : StY F n t K => finishFree sr r X s.Y)
    (h := fun s y ls => (⟨.none, .val s.T, .val s.V, .val y, ls⟩ : IlrmaCall.Obj F n t K)) (ls := o.loss) (e := .linalg)
    (fun hP => ⟨fun s => lossOf src s.Y (recon s.T s.V) fun f => s.Y f * (X f)ᴴ * (X f * (X f)ᴴ)⁻¹, fun s => by
      change lossY src X s = .ok _
      simp only [lossY, filterOf, npInvB, if_pos hP, bind, Except.bind]⟩)
    (fun hP s => by
      change lossY src X s = .error _
      simp only [lossY, filterOf, npInvB, if_neg hP, bind, Except.bind]) (fun _ => rfl) ?_, fun o' e => ?_⟩
  · rw [callSignal]
    rfl
  · refine quiet_of (m := ilrmaSignal np src p norm floor sr r X alg draw kw o)
      (g := fun s : StY F n t K => finishFree sr r X s.Y)
      (h := fun s y ls => (⟨.none, .val s.T, .val s.V, .val y, ls⟩ : IlrmaCall.Obj F n t K))
      (setLoss := fun o ls => { o with loss := ls }) (ls := o.loss)
      (fun _ => rfl) (fun _ _ _ => rfl) ?_ e
    rw [callSignal]
    rfl

/-- C103 with partitioning, ISS1 or ISS2. -/
theorem C103_ilrma_signal_partitioned (alg : SignalAlg n) (draw : DrawP F n t K) (kw : KwP F n t K) (o : ObjP F n t K) :
    ((∃ o', callSignalP np src p alg norm floor sr r draw X k ic kw o = .ok o') ↔
      (∃ q, (ilrmaSignalP np src p norm floor sr r X alg draw kw o).call false ic k none = .ok q) ∧
        ((ic = false ∧ k = 0) ∨ ∀ f, IsUnit (X f * (X f)ᴴ).det)) ∧
    ∀ o', callSignalP np src p alg norm floor sr r draw X k ic kw o = .ok o' →
      (ilrmaSignalP np src p norm floor sr r X alg draw kw o).call false ic k none = .ok (fun ls => { o' with loss := ls }, none) := by
  refine ⟨quiet_gated (m := ilrmaSignalP np src p norm floor sr r X alg draw kw o)
    (g := fun s : StYP F n t K => finishFree sr r X s.Y)
    (h := fun s y ls => (⟨.none, .val s.Z, .val s.T, .val s.V, .val y, ls⟩ : ObjP F n t K)) (ls := o.loss) (e := .linalg)
    (fun hP => ⟨fun s => lossOf src s.Y (reconP s.Z s.T s.V) fun f => s.Y f * (X f)ᴴ * (X f * (X f)ᴴ)⁻¹, fun s => by
      change lossYP src X s = .ok _
      simp only [lossYP, filterOf, npInvB, if_pos hP, bind, Except.bind]⟩)
    (fun hP s => by
      change lossYP src X s = .error _
      simp only [lossYP, filterOf, npInvB, if_neg hP, bind, Except.bind]) (fun _ => rfl) ?_, fun o' e => ?_⟩
  · rw [callSignalP]
    rfl
  · refine quiet_of (m := ilrmaSignalP np src p norm floor sr r X alg draw kw o)
      (g := fun s : StYP F n t K => finishFree sr r X s.Y)
      (h := fun s y ls => (⟨.none, .val s.Z, .val s.T, .val s.V, .val y, ls⟩ : ObjP F n t K))
      (setLoss := fun o ls => { o with loss := ls }) (ls := o.loss)
      (fun _ => rfl) (fun _ _ _ => rfl) ?_ e
    rw [callSignalP]
    rfl

end ilrma

section iva

open Ilrma (FilterAlg SignalAlg)
open Iva (lossFree)
open IvaCall (Obj GaussObj)

variable (np : Numpy ℂ) (floor : ℝ → ℝ) (G d : Fin n → Fin t → ℝ → ℝ) (sr : ScaleOpt) (r : Fin n) (X : Spec F n t)
  (ic : Bool) (k : ℕ)

/-- C103 for `AuxIVA` with IP1 or IP2. -/
theorem C103_iva (alg : FilterAlg n) (kw : Option (F → Mat n ℂ)) (o : IvaCall.Obj F n t) :
    (iva np floor G d sr r X alg kw o).call false ic k none
      = Except.map (fun o' => (fun ls => { o' with loss := ls }, none))
        (IvaCall.call np alg floor G d sr r X k ic kw o) := by
  refine quiet_total (m := iva np floor G d sr r X alg kw o)
    (g := fun s : F → Mat n ℂ => Lifecycle.finish sr r X s)
    (h := fun s y ls => (⟨.val y.2, .val y.1, ls⟩ : IvaCall.Obj F n t))
    (setLoss := fun o ls => { o with loss := ls }) (ls := o.loss)
    (fun _ => rfl) (fun _ => rfl) (fun _ _ _ => rfl) ?_
  rw [IvaCall.call]
  rfl

/-- C103 for `AuxGaussIVA` with IP1 or IP2. -/
theorem C103_gauss_iva (alg : FilterAlg n) (kw : Option (F → Mat n ℂ)) (o : IvaCall.GaussObj F n t) :
    (gaussIva np floor sr r X alg kw o).call false ic k none
      = Except.map (fun o' => (fun ls => { o' with loss := ls }, none))
        (IvaCall.gaussCall np alg floor sr r X k ic kw o) := by
  refine quiet_total (m := gaussIva np floor sr r X alg kw o)
    (g := fun s : Iva.GaussState F n t => Lifecycle.finish sr r X s.W)
    (h := fun s y ls => (⟨.val y.2, .val s.variance, .val y.1, ls⟩ : IvaCall.GaussObj F n t))
    (setLoss := fun o ls => { o with loss := ls }) (ls := o.loss)
    (fun _ => rfl) (fun _ => rfl) (fun _ _ _ => rfl) ?_
  rw [IvaCall.gaussCall]
  rfl

/-- C103 for `FastIVA`. -/
theorem C103_fast_iva (g d dd : ℝ → ℝ) (kw : Option (F → Mat n ℂ)) (o : GradCall.Obj ℂ F n t) :
    (fastIva np floor sr r X g d dd kw o).call false ic k none
      = Except.map (fun o' => (fun ls => { o' with loss := ls }, none))
        (GradCall.fastIvaCall np floor g d dd sr r X k ic kw o) := by
  refine quiet_total (m := fastIva np floor sr r X g d dd kw o)
    (g := fun s : F → Mat n ℂ => finishFast np sr r X s)
    (h := fun s y ls => (⟨.val y.2, .val y.1, ls⟩ : GradCall.Obj ℂ F n t))
    (setLoss := fun o ls => { o with loss := ls }) (ls := o.loss)
    (fun _ => rfl) (fun _ => rfl) (fun _ _ _ => rfl) ?_
  rw [GradCall.fastIvaCall]
  rfl

/-- C103 for `FasterIVA`. -/
theorem C103_faster_iva (r : Fin (n + 1)) (X : Spec F (n + 1) t) (g d : ℝ → ℝ) (kw : Option (F → Mat (n + 1) ℂ)) (o : GradCall.Obj ℂ F (n + 1) t) :
    (fasterIva np floor sr r X g d kw o).call false ic k none
      = Except.map (fun o' => (fun ls => { o' with loss := ls }, none))
        (GradCall.fasterIvaCall np floor g d sr r X k ic kw o) := by
  refine quiet_total (m := fasterIva np floor sr r X g d kw o)
    (g := fun s : F → Mat (n + 1) ℂ => finishFast np sr r X s)
    (h := fun s y ls => (⟨.val y.2, .val y.1, ls⟩ : GradCall.Obj ℂ F (n + 1) t))
    (setLoss := fun o ls => { o with loss := ls }) (ls := o.loss)
    (fun _ => rfl) (fun _ => rfl) (fun _ _ _ => rfl) ?_
  rw [GradCall.fasterIvaCall]
  rfl

/-- C103 for `AuxIVA` with ISS1 or ISS2: recording the loss needs linearly independent channels. -/
theorem C103_iva_signal (alg : SignalAlg n) (kw : Option (F → Mat n ℂ)) (o : IvaCall.Obj F n t) :
    ((∃ o', IvaCall.callSignal np alg floor G d sr r X k ic kw o = .ok o') ↔
      (∃ q, (ivaSignal np floor G d sr r X alg kw o).call false ic k none = .ok q) ∧
        ((ic = false ∧ k = 0) ∨ ∀ f, IsUnit (X f * (X f)ᴴ).det)) ∧
    ∀ o', IvaCall.callSignal np alg floor G d sr r X k ic kw o = .ok o' →
      (ivaSignal np floor G d sr r X alg kw o).call false ic k none = .ok (fun ls => { o' with loss := ls }, none) := by
  refine ⟨quiet_gated (m := ivaSignal np floor G d sr r X alg kw o)
    (g := fun s : Spec F n t => finishFree sr r X s)
    (h := fun s y ls => (⟨.none, .val y, ls⟩ : IvaCall.Obj F n t)) (ls := o.loss) (e := .linalg)
    (fun hP => ⟨fun s => Iva.ivaLoss G s fun f => s f * (X f)ᴴ * (X f * (X f)ᴴ)⁻¹, fun s => by
      change lossFree G X s = .ok _
      simp only [lossFree, npInvB, if_pos hP, bind, Except.bind]⟩)
    (fun hP s => by
      change lossFree G X s = .error _
      simp only [lossFree, npInvB, if_neg hP, bind, Except.bind]) (fun _ => rfl) ?_, fun o' e => ?_⟩
  · simp only [IvaCall.callSignal, ivaSignal]
    cases Lifecycle.reset (IlrmaCall.labelY alg) X kw ⟨o.demix, o.output⟩ <;> rfl
  · refine quiet_of (m := ivaSignal np floor G d sr r X alg kw o)
      (g := fun s : Spec F n t => finishFree sr r X s)
      (h := fun s y ls => (⟨.none, .val y, ls⟩ : IvaCall.Obj F n t))
      (setLoss := fun o ls => { o with loss := ls }) (ls := o.loss)
      (fun _ => rfl) (fun _ _ _ => rfl) ?_ e
    simp only [IvaCall.callSignal, ivaSignal]
    cases Lifecycle.reset (IlrmaCall.labelY alg) X kw ⟨o.demix, o.output⟩ <;> rfl

end iva

section fdica

open Fdica

variable {B : ℕ} (sort : Permutation.Argsort) (opt : PermOpt) (floor : ℝ → ℝ) (sr : ScaleOpt) (r : Fin n)
  (X : Spec (Fin B) n t) (ic : Bool) (k : ℕ)

/-- C103 for `AuxFDICA`. -/
theorem C103_fdica (np : Numpy ℂ) (alg : Ilrma.FilterAlg n) (G d : ℝ → ℝ) (kw : Option (Fin B → Mat n ℂ)) (o : IvaCall.Obj (Fin B) n t) :
    (auxFdica sort opt floor sr r X np alg G d kw o).call false ic k none
      = Except.map (fun o' => (fun ls => { o' with loss := ls }, none))
        (auxCall sort np alg opt floor G d sr r X k ic kw o) := by
  refine quiet_total (m := auxFdica sort opt floor sr r X np alg G d kw o)
    (g := fun s : Fin B → Mat n ℂ => finishAligned sort opt floor sr r X s)
    (h := fun s y ls => (⟨.val y.2, .val y.1, ls⟩ : IvaCall.Obj (Fin B) n t))
    (setLoss := fun o ls => { o with loss := ls }) (ls := o.loss)
    (fun _ => rfl) (fun _ => rfl) (fun _ _ _ => rfl) ?_
  rw [auxCall]
  rfl

/-- C103 for `GradFDICA` and `NaturalGradFDICA`. -/
theorem C103_grad_fdica (kind : GradCall.Kind) (step_size : ℝ) (holonomic : Bool)
    (contrast : Grad.Data ℂ (Fin B) n t → Fin B × Fin n → Fin t → ℝ) (score : Grad.Data ℂ (Fin B) n t → Grad.Data ℂ (Fin B) n t)
    (kw : Option (Fin B → Mat n ℂ)) (o : GradCall.Obj ℂ (Fin B) n t) :
    (gradFdica sort opt floor sr r X kind step_size holonomic contrast score kw o).call false ic k none
      = Except.map (fun o' => (fun ls => { o' with loss := ls }, none))
        (GradCall.fdicaCall sort kind opt floor sr r step_size holonomic contrast score X k ic kw o) := by
  refine quiet_total (m := gradFdica sort opt floor sr r X kind step_size holonomic contrast score kw o)
    (g := fun s : Fin B → Mat n ℂ => finishAligned sort opt floor sr r X s)
    (h := fun s y ls => (⟨.val y.2, .val y.1, ls⟩ : GradCall.Obj ℂ (Fin B) n t))
    (setLoss := fun o ls => { o with loss := ls }) (ls := o.loss)
    (fun _ => rfl) (fun _ => rfl) (fun _ _ _ => rfl) ?_
  rw [GradCall.fdicaCall]
  rfl

end fdica

section grad

open GradCall Grad

variable (ic : Bool) (k : ℕ)

/-- C103 for `GradICA` and `NaturalGradICA`. -/
theorem C103_grad_ica (kind : Kind) (step_size : ℝ) (holonomic : Bool) (contrast : Data ℝ Unit n t → Fin n → Fin t → ℝ)
    (score : Data ℝ Unit n t → Data ℝ Unit n t) (X : Data ℝ Unit n t) (kw : Option (Unit → Mat n ℝ))
    (o : GradCall.Obj ℝ Unit n t) :
    (gradIca kind step_size holonomic contrast score X kw o).call false ic k none
      = Except.map (fun o' => (fun ls => { o' with loss := ls }, none))
        (icaCall kind step_size holonomic contrast score X k ic kw o) := by
  refine quiet_total (m := gradIca kind step_size holonomic contrast score X kw o)
    (g := fun s : Unit → Mat n ℝ => Except.ok (ε := PyErr) s)
    (h := fun s y ls => (⟨.val y, .val (sep X y), ls⟩ : GradCall.Obj ℝ Unit n t))
    (setLoss := fun o ls => { o with loss := ls }) (ls := o.loss)
    (fun _ => rfl) (fun _ => rfl) (fun _ _ _ => rfl) ?_
  rw [icaCall]
  rfl

variable (kind : Kind) (sr : ScaleOpt) (r : Fin n) (step_size : ℝ) (holonomic : Bool) (X : Data ℂ F n t)

/-- C103 for `GradIVA` and `NaturalGradIVA`. -/
theorem C103_grad_iva (contrast : Data ℂ F n t → Fin n → Fin t → ℝ) (score : Data ℂ F n t → Data ℂ F n t)
    (kw : Option (F → Mat n ℂ)) (o : GradCall.Obj ℂ F n t) :
    (gradIva kind sr r step_size holonomic X contrast score kw o).call false ic k none
      = Except.map (fun o' => (fun ls => { o' with loss := ls }, none))
        (ivaCall kind sr r step_size holonomic contrast score X k ic kw o) := by
  refine quiet_total (m := gradIva kind sr r step_size holonomic X contrast score kw o)
    (g := fun s : F → Mat n ℂ => Lifecycle.finish sr r X s)
    (h := fun s y ls => (⟨.val y.2, .val y.1, ls⟩ : GradCall.Obj ℂ F n t))
    (setLoss := fun o ls => { o with loss := ls }) (ls := o.loss)
    (fun _ => rfl) (fun _ => rfl) (fun _ _ _ => rfl) ?_
  rw [ivaCall]
  rfl

/-- C103 for `FastICA`. -/
theorem C103_fast_ica (np : Numpy ℝ) (contrast : ℝ → ℝ) (score d_score : (Fin t → ℝ) → Fin t → ℝ)
    (X : Matrix (Fin n) (Fin t) ℝ) (kw : Option (Mat n ℝ)) (o : GradCall.Obj ℝ Unit n t) :
    (fastIca np contrast score d_score X kw o).call false ic k none
      = Except.map (fun o' => (fun ls => { o' with loss := ls }, none))
        (fastIcaCall np contrast score d_score X k ic kw o) := by
  refine quiet_total (m := fastIca np contrast score d_score X kw o)
    (g := fun s : Mat n ℝ => Except.ok (ε := PyErr) s)
    (h := fun s y ls => (⟨.val fun _ => y, .val fun _ => fastIcaSeparate np (Transform.whitenCore np X) y false, ls⟩ : GradCall.Obj ℝ Unit n t))
    (setLoss := fun o ls => { o with loss := ls }) (ls := o.loss)
    (fun _ => rfl) (fun _ => rfl) (fun _ _ _ => rfl) ?_
  simp only [fastIcaCall, fastIca]
  cases GradCall.reset (kw.map fun W _ => W) o <;> rfl

/-- C103 for `GradGaussIVA` and `NaturalGradGaussIVA`. -/
theorem C103_grad_gauss_iva (kw : Option (F → Mat n ℂ)) (o : GradCall.Obj ℂ F n t) :
    (gradGaussIva kind sr r step_size holonomic X kw o).call false ic k none
      = Except.map (fun o' => (fun ls => { o' with loss := ls }, none))
        (gaussIvaCall kind sr r step_size holonomic X k ic kw o) := by
  refine quiet_total (m := gradGaussIva kind sr r step_size holonomic X kw o)
    (g := fun s : (Fin n → Fin t → ℝ) × (F → Mat n ℂ) => Lifecycle.finish sr r X s.2)
    (h := fun s y ls => (⟨.val y.2, .val y.1, ls⟩ : GradCall.Obj ℂ F n t))
    (setLoss := fun o ls => { o with loss := ls }) (ls := o.loss)
    (fun _ => rfl) (fun _ => rfl) (fun _ _ _ => rfl) ?_
  simp only [gaussIvaCall, gradGaussIva]
  cases GradCall.reset kw o <;> rfl

end grad

section mnmf

open Mnmf MnmfCall
open IlrmaCall (Draw DrawP)
open Ilrma (recon reconP FilterAlg)

variable {m : ℕ} (np : Numpy ℂ) (normalization : Bool) (floor : ℝ → ℝ) (r : Fin m) (X : Spec F m t) (ic : Bool) (k : ℕ)

/-- C103 for `FastGaussMNMF`. -/
theorem C103_fast_mnmf (alg : FilterAlg m) (draw : Draw F n t K) (drawD : F → Fin n → Fin m → ℝ) (kw : KwF F n m t K) (o : ObjF F n m t K) :
    (fastMnmf np normalization floor r X alg draw drawD kw o).call false ic k none
      = Except.map (fun o' => (fun ls => { o' with loss := ls }, none))
        (callF np alg normalization floor r draw drawD X k ic kw o) := by
  refine quiet_total (m := fastMnmf np normalization floor r X alg draw drawD kw o)
    (g := fun s : FSt F n m t K => fastSeparate np floor r X s)
    (h := fun s y ls => (⟨.val s.Q, .val s.T, .val s.V, .val s.D, .val y, ls⟩ : ObjF F n m t K))
    (setLoss := fun o ls => { o with loss := ls }) (ls := o.loss)
    (fun _ => rfl) (fun _ => rfl) (fun _ _ _ => rfl) ?_
  rw [callF]
  rfl

/-- C103 for `GaussMNMF`: if the call with `record_loss=True` returns. -/
theorem C103_mnmf (draw : Draw F n t K) (kw : MnmfCall.Kw F n m t K) (o : MnmfCall.Obj F n m t K)
    {o' : MnmfCall.Obj F n m t K} (e : MnmfCall.call np normalization floor r draw X k ic kw o = .ok o') :
    (mnmf np normalization floor r X draw kw o).call false ic k none = .ok (fun ls => { o' with loss := ls }, none) := by
  refine quiet_of (m := mnmf np normalization floor r X draw kw o)
    (g := fun s : MSt F n m t K => fullSeparate np floor r X (recon s.T s.V) s.H)
    (h := fun s y ls => (⟨.val s.T, .val s.V, .val s.H, .val y, ls⟩ : MnmfCall.Obj F n m t K))
    (setLoss := fun o ls => { o with loss := ls }) (ls := o.loss)
    (fun _ => rfl) (fun _ _ _ => rfl) ?_ e
  rw [MnmfCall.call]
  rfl

/-- C103 for `GaussMNMF` with partitioning. -/
theorem C103_mnmf_partitioned (draw : DrawP F n t K) (kw : MnmfCall.KwP F n m t K) (o : MnmfCall.ObjP F n m t K)
    {o' : MnmfCall.ObjP F n m t K} (e : MnmfCall.callP np normalization floor r draw X k ic kw o = .ok o') :
    (mnmfP np normalization floor r X draw kw o).call false ic k none = .ok (fun ls => { o' with loss := ls }, none) := by
  refine quiet_of (m := mnmfP np normalization floor r X draw kw o)
    (g := fun s : MStP F n m t K => fullSeparate np floor r X (reconP s.Z s.T s.V) s.H)
    (h := fun s y ls => (⟨.val s.Z, .val s.T, .val s.V, .val s.H, .val y, ls⟩ : MnmfCall.ObjP F n m t K))
    (setLoss := fun o ls => { o with loss := ls }) (ls := o.loss)
    (fun _ => rfl) (fun _ _ _ => rfl) ?_ e
  rw [MnmfCall.callP]
  rfl

end mnmf

/-- C103 for `GaussIPSDTA` and `TIPSDTA`. -/
theorem C103_ipsdta {n_bins n_blocks : ℕ}
    (step : Ipsdta.St n_bins n_blocks n t K → Except PyErr (Ipsdta.St n_bins n_blocks n t K))
    (loss : Ipsdta.St n_bins n_blocks n t K → Except PyErr ℝ) (normalization : Bool) (floor : ℝ → ℝ) (sr : ScaleOpt) (r : Fin n)
    (draw : IpsdtaCall.Draw n_bins n_blocks n t K) (X : Spec (Fin n_bins) n t) (k : ℕ) (kw : IpsdtaCall.Kw n_bins n_blocks n t K)
    (o : IpsdtaCall.Obj n_bins n_blocks n t K) {o' : IpsdtaCall.Obj n_bins n_blocks n t K}
    (e : IpsdtaCall.call step loss normalization floor sr r draw X k kw o = .ok o') :
    (ipsdta step loss normalization floor sr r draw X kw o).call false true k none = .ok (fun ls => { o' with loss := ls }, none) := by
  refine quiet_of (m := ipsdta step loss normalization floor sr r draw X kw o)
    (g := fun s : Ipsdta.St n_bins n_blocks n t K => Lifecycle.finish sr r X s.W)
    (h := fun s y ls => (⟨.val y.2, .val s.T, .val s.V, .val y.1, ls, IlrmaCall.override kw.initial_call o.initial_call⟩ : IpsdtaCall.Obj n_bins n_blocks n t K))
    (setLoss := fun o ls => { o with loss := ls }) (ls := o.loss)
    (fun _ => rfl) (fun _ _ _ => rfl) ?_ e
  rw [IpsdtaCall.call]
  rfl


theorem independent_of_det {X : Matrix (Fin n) (Fin t) ℂ} (h : IsUnit (X * Xᴴ).det) : LinearIndependent ℂ X.row := by
  rw [← Matrix.vecMul_injective_iff]
  have h2 : Function.Injective (X * Xᴴ).vecMul := Matrix.vecMul_injective_of_isUnit ((Matrix.isUnit_iff_isUnit_det _).2 h)
  intro v w e
  refine h2 ?_
  change v ᵥ* (X * Xᴴ) = w ᵥ* (X * Xᴴ)
  rw [← Matrix.vecMul_vecMul, ← Matrix.vecMul_vecMul, show v ᵥ* X = w ᵥ* X from e]

theorem iva_iss1_runs (np : Numpy ℂ) (floor : ℝ → ℝ) (G d : Fin n → Fin t → ℝ → ℝ) (r : Fin n) (X : Spec F n t) (k : ℕ) (ic : Bool) :
    ∃ q, (ivaSignal np floor G d (.bool false) r X .iss1 none IvaCall.Obj.fresh).call false ic k none = .ok q := by
  rw [call_quiet]
  have h : ∀ k (Y : Spec F n t), ∃ Y', iterM (IvaCall.updateY np .iss1 floor d) k Y = .ok Y' := by
    intro k
    induction k with
    | zero => exact fun Y => ⟨Y, rfl⟩
    | succ k ih => exact fun Y => ih _
  obtain ⟨Y', e⟩ := h k (separate X fun _ => 1)
  refine ⟨(fun ls => ⟨.none, .val Y', ls⟩, none), ?_⟩
  change (iterM (IvaCall.updateY np .iss1 floor d) k (separate X fun _ => 1) >>= fun s => _) = _
  rw [e]
  rfl

/-- C103: a new `AuxIVA` object with ISS1 and without scale restoration made with `record_loss=False` handles every recording;
made with `record_loss=True` it raises `LinAlgError` whenever the channels of some bin are linearly dependent and it has a loss to
compute. -/
theorem C103_iss1_dependent (np : Numpy ℂ) (floor : ℝ → ℝ) (G d : Fin n → Fin t → ℝ → ℝ) (r : Fin n) (X : Spec F n t) (k : ℕ)
    (ic : Bool) (hk : ic = true ∨ 0 < k) {f : F} (hf : ¬ LinearIndependent ℂ (X f).row) :
    (∃ q, (ivaSignal np floor G d (.bool false) r X .iss1 none IvaCall.Obj.fresh).call false ic k none = .ok q) ∧
      IvaCall.callSignal np .iss1 floor G d (.bool false) r X k ic none IvaCall.Obj.fresh = .error .linalg := by
  refine ⟨iva_iss1_runs np floor G d r X k ic, ?_⟩
  have hl : ∀ Y, Iva.lossFree G X Y = .error .linalg := fun Y => by
    have h : ¬ ∀ f, IsUnit (X f * (X f)ᴴ).det := fun h => hf (independent_of_det (h f))
    simp only [Iva.lossFree, npInvB, if_neg h, bind, Except.bind]
  have hb : ∀ Y ls, baseCall (IvaCall.updateY np .iss1 floor d) (Iva.lossFree G X) ic k Y ls = .error .linalg := by
    intro Y ls
    cases ic with
    | true => simp only [baseCall, if_true, hl, bind, Except.bind]
    | false =>
      obtain ⟨j, rfl⟩ : ∃ j, k = j + 1 := ⟨k - 1, by have := hk.resolve_left (by simp); omega⟩
      simp only [baseCall, iterations, IvaCall.updateY, hl, bind, Except.bind]
      rfl
  simp only [IvaCall.callSignal, hb]
  rfl

/-- Two equal microphones. With `record_loss=False` the call returns, with `record_loss=True` it raises. -/
example (np : Numpy ℂ) (floor : ℝ → ℝ) :
    (∃ q, (ivaSignal np floor Iva.laplaceG Iva.laplaceD (.bool false) (0 : Fin 2)
        (fun _ _ s => (s.val : ℂ) + 1 : Spec Unit 2 3) .iss1 none IvaCall.Obj.fresh).call false false 5 none = .ok q) ∧
      IvaCall.callSignal np .iss1 floor Iva.laplaceG Iva.laplaceD (.bool false) (0 : Fin 2)
        (fun _ _ s => (s.val : ℂ) + 1 : Spec Unit 2 3) 5 false none IvaCall.Obj.fresh = .error .linalg :=
  C103_iss1_dependent np floor _ _ 0 _ 5 false (.inr (by norm_num)) (f := ()) fun h => by
    have := h.injective (a₁ := 0) (a₂ := 1) rfl
    exact absurd this (by decide)

/-- The recording of `Verif.Props.FlooredCall` has independent channels. With ISS1 both calls return, and leave the same. -/
example (np : Numpy ℂ) (floor : ℝ → ℝ) :
    ∃ o', IvaCall.callSignal np .iss1 floor Iva.laplaceG Iva.laplaceD (.bool false) 0 FlooredCall.exX 5 true none
      IvaCall.Obj.fresh = .ok o' ∧
      (ivaSignal np floor Iva.laplaceG Iva.laplaceD (.bool false) 0 FlooredCall.exX .iss1 none IvaCall.Obj.fresh).call false true 5
        none = .ok (fun ls => { o' with loss := ls }, none) := by
  have h := C103_iva_signal np floor Iva.laplaceG Iva.laplaceD (.bool false) 0 FlooredCall.exX true 5 .iss1 none IvaCall.Obj.fresh
  obtain ⟨o', e⟩ := h.1.2 ⟨iva_iss1_runs np floor _ _ 0 _ 5 true,
    .inr fun f => Verif.Iva.gram_isUnit _ FlooredCall.exX_indep f⟩
  exact ⟨o', e, h.2 o' e⟩

end Verif.RecordLoss
