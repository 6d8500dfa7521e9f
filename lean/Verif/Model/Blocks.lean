import Mathlib.Data.Fin.Tuple.Basic
import Mathlib.Logic.Equiv.Fin.Basic
import Mathlib.Tactic.Ring
import Verif.Model.PyErr

/-!
# Blocks of neighbouring bins: `bss/ipsdta.py`, `BlockDecompositionIPSDTABase`

An array whose frequency axis has length `N` is modelled as a function on `Fin N`; the other axes are in the entries.
-/

namespace Verif.Ipsdta

variable {α : Type}

/-- `np.split(x, [s], axis)`. -/
def splitAt {N : ℕ} (s : ℕ) (x : Fin N → α) : (Fin (min s N) → α) × (Fin (N - s) → α) :=
  (fun i => x ⟨i, by omega⟩, fun i => x ⟨s + i, by omega⟩)

/-- `x.reshape(a, b)` in C order; numpy raises `ValueError` when the sizes do not match. -/
def reshape {N : ℕ} (a b : ℕ) (x : Fin N → α) : Except PyErr (Fin a → Fin b → α) :=
  if h : a * b = N then .ok fun i j => x (Fin.cast h (finProdFinEquiv (i, j))) else .error .value

/-- `y.reshape(a * b)`. -/
def flatten {a b : ℕ} (y : Fin a → Fin b → α) : Fin (a * b) → α := fun i => y i.divNat i.modNat

/-- The blocks: `n_blocks - n_remains` lower ones, then `n_remains` higher ones (L534-538). -/
abbrev Blk (n_bins n_blocks : ℕ) : Type := Fin (n_blocks - n_bins % n_blocks) ⊕ Fin (n_bins % n_blocks)

/-- The number of bins in a block: `n_neighbors` or `n_neighbors + 1`. -/
def bsize (n_bins n_blocks : ℕ) : Blk n_bins n_blocks → ℕ
  | .inl _ => n_bins / n_blocks
  | .inr _ => n_bins / n_blocks + 1

/-- The split and the reshapes of L951-971, L1008-1031, L1110-1144, L1189-1225 (and the same lines of `TIPSDTA`). In
the branch `n_remains = 0` there is no higher part. `n_remains` (L577-582) raises `ZeroDivisionError` for
`n_blocks = 0`. Negative `n_blocks` is not modelled. -/
def splitBlocks {n_bins : ℕ} (n_blocks : ℕ) (x : Fin n_bins → α) :
    Except PyErr ((β : Blk n_bins n_blocks) → Fin (bsize n_bins n_blocks β) → α) := do
  if n_blocks = 0 then .error .zeroDivision
  let n_remains := n_bins % n_blocks
  let n_neighbors := n_bins / n_blocks
  if h : n_remains > 0 then do
    let (low, high) := splitAt ((n_blocks - n_remains) * n_neighbors) x
    let low ← reshape (n_blocks - n_remains) n_neighbors low
    let high ← reshape n_remains (n_neighbors + 1) high
    .ok fun
      | .inl β => low β
      | .inr β => high β
  else do
    let low ← reshape (n_blocks - n_remains) n_neighbors x
    .ok fun
      | .inl β => low β
      | .inr β => (h β.pos).elim

theorem blocks_total (n_bins n_blocks : ℕ) :
    (n_blocks - n_bins % n_blocks) * (n_bins / n_blocks) + n_bins % n_blocks * (n_bins / n_blocks + 1) = n_bins := by
  rcases Nat.eq_zero_or_pos n_blocks with rfl | h
  · simp
  · have h1 := Nat.mod_lt n_bins h
    have h2 := Nat.div_add_mod n_bins n_blocks
    generalize n_bins / n_blocks = k at *
    generalize n_bins % n_blocks = r at *
    obtain ⟨c, rfl⟩ := Nat.exists_eq_add_of_le h1.le
    rw [Nat.add_sub_cancel_left, ← h2]
    ring

/-- The reshapes and `np.concatenate` of L1138-1140; L1145 when there is no higher part. -/
def joinBlocks {n_bins n_blocks : ℕ} (y : (β : Blk n_bins n_blocks) → Fin (bsize n_bins n_blocks β) → α) :
    Fin n_bins → α := fun f =>
  Fin.append (flatten fun β => y (.inl β)) (flatten fun β => y (.inr β)) (Fin.cast (blocks_total n_bins n_blocks).symm f)

end Verif.Ipsdta
