import Mathlib.Data.Real.Basic
import Verif.Model.PyErr

/-! # The loss list of a run, when `update_once` and `compute_loss` may raise

`bss/base.py` L48-77 with `initial_call=True`, `record_loss=True` and no callbacks; `Verif.Model.Base` is the
model of the loop with callbacks. -/

namespace Verif

/-- The attribute `loss` after a call with `n_iter` iterations on a fresh object, L59-73. -/
def lossList {σ : Type} (step : σ → Except PyErr σ) (loss : σ → Except PyErr ℝ) : ℕ → σ → Except PyErr (List ℝ)
  | 0, s => do
    let v ← loss s
    .ok [v]
  | n + 1, s => do
    let v ← loss s
    let s' ← step s
    let vs ← lossList step loss n s'
    .ok (v :: vs)

/-- The state after `n_iter` updates, L68-69. -/
def iterM {σ : Type} (step : σ → Except PyErr σ) : ℕ → σ → Except PyErr σ
  | 0, s => .ok s
  | n + 1, s => do
    let s' ← step s
    iterM step n s'

/-- `Reg` holds at every state from which one of the `n` updates starts. -/
def RegularRun {σ : Type} (step : σ → Except PyErr σ) (Reg : σ → Prop) : ℕ → σ → Prop
  | 0, _ => True
  | n + 1, s => Reg s ∧ ∀ s', step s = .ok s' → RegularRun step Reg n s'

/-- `Reg` holds at every state and item of an inner loop. -/
def RegularFold {σ β : Type} (g : σ → β → Except PyErr σ) (Reg : σ → β → Prop) : List β → σ → Prop
  | [], _ => True
  | b :: l, s => Reg s b ∧ ∀ s', g s b = .ok s' → RegularFold g Reg l s'

end Verif
