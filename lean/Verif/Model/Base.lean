/-!
# Model of `ssspy/bss/base.py`: `IterativeMethodBase`

`σ` is the state of the method object (demixing filters, variances, …), `L` the type of a loss value.
`compute_loss` reads the state and does not change it (true of every `compute_loss` in the repository);
callbacks receive the object and may change it.
-/

namespace Verif.Base

/-- What an outside observer sees during a run. -/
inductive Event (σ L : Type) where
  | loss (v : L)                     -- `self.loss.append(v)`
  | callback (i : Nat) (seen : σ)    -- `callbacks[i](self)` with `self` in state `seen`

/-- The parts of an iterative method that subclasses provide. -/
structure Method (σ L : Type) where
  updateOnce : σ → σ
  computeLoss : σ → L
  callbacks : Option (List (σ → σ))
  recordLoss : Bool

/-- The object: algorithm state, the attribute `loss` and the observable trace. -/
structure Obj (σ L : Type) where
  st : σ
  loss : Option (List L)
  trace : List (Event σ L)

/-- `IterativeMethodBase.__init__`, L24-43: `self.loss = []` if recording, else `None`. -/
def Method.fresh {σ L : Type} (M : Method σ L) (s : σ) : Obj σ L :=
  ⟨s, if M.recordLoss then some [] else none, []⟩

/-- `for callback in self.callbacks: callback(self)`. -/
def runCallbacks {σ L : Type} : List (σ → σ) → Nat → Obj σ L → Obj σ L
  | [], _, o => o
  | c :: cs, i, o => runCallbacks cs (i + 1) { o with st := c o.st, trace := o.trace ++ [.callback i o.st] }

/-- L55-62 and L67-74: record the loss, then the callbacks. -/
def Method.point {σ L : Type} (M : Method σ L) (o : Obj σ L) : Obj σ L :=
  let o := if M.recordLoss then
    { o with loss := o.loss.map (· ++ [M.computeLoss o.st]), trace := o.trace ++ [.loss (M.computeLoss o.st)] }
  else o
  match M.callbacks with
  | none => o
  | some cs => runCallbacks cs 0 o

/-- The loop L64-74, `n` more iterations. -/
def Method.loop {σ L : Type} (M : Method σ L) : Nat → Obj σ L → Obj σ L
  | 0, o => o
  | n + 1, o => M.loop n (M.point { o with st := M.updateOnce o.st })

/-- `IterativeMethodBase.__call__`, L45-74 (`range` of a negative `n_iter` is empty). -/
def Method.call {σ L : Type} (M : Method σ L) (n_iter : Int) (initial_call : Bool) (o : Obj σ L) : Obj σ L :=
  M.loop n_iter.toNat (if initial_call then M.point o else o)

end Verif.Base
