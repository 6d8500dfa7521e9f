import Verif.Model.Base
import Mathlib.Logic.Function.Iterate

/-! # Properties C10–C11: the iteration driver -/

namespace Verif.Base

variable {σ L : Type}

/-! ## Specification

`cbAll cs` is the combined effect of all callbacks on the state, `seenBy cs s` the states they see in order. -/

def cbAll (cs : List (σ → σ)) (s : σ) : σ := cs.foldl (fun s c => c s) s

def seenBy : List (σ → σ) → σ → List σ
  | [], _ => []
  | c :: cs, s => s :: seenBy cs (c s)

/-- Events of one recorded point at state `s`: the loss of `s` (if recorded), then every callback in list order. -/
def pointEvents (recordLoss : Bool) (loss : σ → L) (cs : List (σ → σ)) (s : σ) : List (Event σ L) :=
  (if recordLoss then [Event.loss (loss s)] else []) ++
    (seenBy cs s).zipIdx.map fun p => Event.callback p.2 p.1

theorem runCallbacks_eq (cs : List (σ → σ)) (i : Nat) (o : Obj σ L) :
    runCallbacks cs i o = ⟨cbAll cs o.st, o.loss,
      o.trace ++ ((seenBy cs o.st).zipIdx i).map fun p => Event.callback p.2 p.1⟩ := by
  induction cs generalizing i o with
  | nil => simp [runCallbacks, cbAll, seenBy]
  | cons c cs ih =>
    simp [runCallbacks, ih, cbAll, seenBy, List.zipIdx_cons]

theorem point_eq (M : Method σ L) (o : Obj σ L) :
    M.point o = ⟨cbAll (M.callbacks.getD []) o.st,
      if M.recordLoss then o.loss.map (· ++ [M.computeLoss o.st]) else o.loss,
      o.trace ++ pointEvents M.recordLoss M.computeLoss (M.callbacks.getD []) o.st⟩ := by
  unfold Method.point pointEvents
  cases h : M.callbacks <;> cases h2 : M.recordLoss <;> simp [runCallbacks_eq, cbAll, seenBy]

/-- States at which losses are recorded and callbacks run: state number `j` is reached by `j` rounds of
"update, then callbacks" from `s`, the last callbacks not yet applied. -/
def visited (upd cb : σ → σ) (s : σ) (n : Nat) : List σ := (List.range n).map fun j => upd ((cb ∘ upd)^[j] s)

theorem visited_succ (upd cb : σ → σ) (s : σ) (n : Nat) :
    visited upd cb s (n + 1) = upd s :: visited upd cb (cb (upd s)) n := by
  simp [visited, List.range_succ_eq_map, Function.comp_def, Function.iterate_succ]

theorem loop_eq (M : Method σ L) (n : Nat) (o : Obj σ L) :
    M.loop n o = ⟨(cbAll (M.callbacks.getD []) ∘ M.updateOnce)^[n] o.st,
      if M.recordLoss then
        o.loss.map (· ++ (visited M.updateOnce (cbAll (M.callbacks.getD [])) o.st n).map M.computeLoss)
      else o.loss,
      o.trace ++ (visited M.updateOnce (cbAll (M.callbacks.getD [])) o.st n).flatMap
        (pointEvents M.recordLoss M.computeLoss (M.callbacks.getD []))⟩ := by
  induction n generalizing o with
  | zero => cases o; cases M.recordLoss <;> simp [Method.loop, visited]
  | succ n ih =>
    rw [Method.loop, ih, point_eq, visited_succ]
    cases M.recordLoss <;> simp [Function.iterate_succ, Function.comp_def]

/-! ## C10 -/

/-- C10. The observable trace of a run: the recorded points are the (optional) initial state and the state after
each update; at each point the loss is computed first and then every callback runs once, in list order, on the
state left by its predecessors.  (`cs` are the callbacks; they may change the object.) -/
theorem C10_trace (M : Method σ L) (cs : List (σ → σ)) (hcs : M.callbacks.getD [] = cs) (n : Nat) (init : Bool)
    (o : Obj σ L) :
    (M.call n init o).trace = o.trace ++
      (if init then pointEvents M.recordLoss M.computeLoss cs o.st else []) ++
      (visited M.updateOnce (cbAll cs) (if init then cbAll cs o.st else o.st) n).flatMap
        (pointEvents M.recordLoss M.computeLoss cs) := by
  subst hcs
  unfold Method.call
  rw [loop_eq]
  cases init
  · simp
  · simp [point_eq]

/-- C10. With callbacks that only look, exactly one loss per iteration (plus one for the initial call) is
appended, and the `j`-th one is the loss after exactly `j` updates. -/
theorem C10_loss_history (M : Method σ L) (hlook : ∀ c ∈ M.callbacks.getD [], ∀ s, c s = s)
    (hrec : M.recordLoss = true) (n : Nat) (init : Bool) (o : Obj σ L) (ls : List L) (ho : o.loss = some ls) :
    (M.call n init o).loss = some (ls ++
      ((List.range (n + if init then 1 else 0)).map fun j =>
        M.computeLoss (M.updateOnce^[j + if init then 0 else 1] o.st))) ∧
    (M.call n init o).st = M.updateOnce^[n] o.st := by
  have hcb : ∀ cs : List (σ → σ), (∀ c ∈ cs, ∀ s, c s = s) → ∀ s, cbAll cs s = s := by
    intro cs
    induction cs with
    | nil => intro _ s; rfl
    | cons c cs ih =>
      intro h s
      have h1 : c s = s := h c (by simp) s
      have h2 := ih (fun c' hc' => h c' (by simp [hc'])) s
      simpa [cbAll, h1] using h2
  have hcb' : cbAll (M.callbacks.getD []) = id := funext (hcb _ hlook)
  unfold Method.call
  rw [loop_eq, hcb', hrec]
  cases init
  · simp [ho, visited, Function.comp_def, ← Function.iterate_succ_apply']
  · simp [point_eq, hcb', hrec, ho, visited, List.range_succ_eq_map, Function.comp_def,
      ← Function.iterate_succ_apply']

/-- C10. Number of recorded losses, whatever the callbacks do. -/
theorem C10_loss_count (M : Method σ L) (hrec : M.recordLoss = true) (n : Nat) (init : Bool) (o : Obj σ L)
    (ls : List L) (ho : o.loss = some ls) :
    ∃ ls', (M.call n init o).loss = some (ls ++ ls') ∧ ls'.length = n + if init then 1 else 0 := by
  unfold Method.call
  rw [loop_eq, hrec]
  cases init
  · exact ⟨_, by simp [ho]; rfl, by simp [visited]⟩
  · refine ⟨M.computeLoss o.st :: _, by simp [point_eq, hrec, ho]; rfl, by simp [visited]⟩

/-- C10. With `record_loss=False` no loss is ever computed and `loss` stays `None`. -/
theorem C10_no_record (M : Method σ L) (hrec : M.recordLoss = false) (n : Nat) (init : Bool) (s : σ) :
    (M.call n init (M.fresh s)).loss = none ∧
    ∀ v, Event.loss v ∉ (M.call n init (M.fresh s)).trace := by
  have hp : ∀ (cs : List (σ → σ)) s (v : L), Event.loss v ∉ pointEvents false M.computeLoss cs s := by
    intro cs s v h
    simp [pointEvents] at h
  constructor
  · unfold Method.call
    rw [loop_eq]
    cases init <;> simp [hrec, point_eq, Method.fresh]
  · intro v
    rw [C10_trace M _ rfl, hrec]
    cases init <;> simp [Method.fresh, hp]

/-! ## C11 -/

/-- C11. `a` iterations followed by `b` more with `initial_call=False` are `a + b` iterations: same state, same
loss history, same observable trace (whatever the callbacks do). -/
theorem C11_runs_compose (M : Method σ L) (a b : Nat) (init : Bool) (o : Obj σ L) :
    M.call b false (M.call a init o) = M.call ((a + b : Nat) : Int) init o := by
  have h : ∀ a (o : Obj σ L), M.loop b (M.loop a o) = M.loop (a + b) o := by
    intro a
    induction a with
    | zero => intro o; simp [Method.loop]
    | succ a ih => intro o; rw [Nat.succ_add]; simp only [Method.loop]; exact ih _
  unfold Method.call
  rw [Int.toNat_natCast, Int.toNat_natCast, Int.toNat_natCast, ← h]
  simp

/-- C11. Recording the loss does not influence the iterates. -/
theorem C11_recording_is_neutral (M : Method σ L) (n : Nat) (init : Bool) (o o' : Obj σ L) (h : o.st = o'.st) :
    (M.call n init o).st = ({ M with recordLoss := !M.recordLoss }.call n init o').st := by
  unfold Method.call
  rw [loop_eq, loop_eq]
  cases init <;> simp [point_eq, h]

/-- A method with two callbacks, one of which changes the object, and non-trivial updates. -/
example : ∃ M : Method Nat Nat, M.recordLoss = true ∧ (M.callbacks.getD []).length = 2 ∧
    ∃ c ∈ M.callbacks.getD [], ∃ s, c s ≠ s :=
  ⟨⟨(· + 1), (· * 2), some [id, (· + 5)], true⟩, rfl, rfl, (· + 5), by simp, 0, by simp⟩
/-- `C10_loss_history`'s hypothesis on callbacks with a real callback. -/
example : (Method.call (⟨(· + 1), (· * 2), some [fun s => s], true⟩ : Method Nat Nat) 3 true
    (Method.fresh ⟨(· + 1), (· * 2), some [fun s => s], true⟩ 0)).loss = some [0, 2, 4, 6] := rfl

end Verif.Base
