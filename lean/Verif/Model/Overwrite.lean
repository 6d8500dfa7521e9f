import Verif.Model.Spatial

/-!
# The argument `overwrite` of the spatial updates

`bss/_update_spatial_model.py`: with `overwrite=True` the loops of `update_by_ip1`, `update_by_ip2` and
`update_by_block_decomposition_vcd` write rows of the caller's array one after the other; with `overwrite=False` they
work on `demix_filter.copy()`. Arrays live in a store; a reference is a number. `weighted_covariance` is not part of the
store: it is only read, and is assumed not to share memory with `demix_filter`.
-/

namespace Verif.Overwrite

open Spatial

variable {A ι : Type}

/-- The arrays of the caller and of the call; `next` is the first unused reference. -/
structure Store (A : Type) where
  mem : ℕ → A
  next : ℕ

/-- `x.copy()`. -/
def Store.alloc (st : Store A) (a : A) : ℕ × Store A := (st.next, ⟨Function.update st.mem st.next a, st.next + 1⟩)

/-- `W[...] = ...` on the array behind `r`. -/
def Store.write (st : Store A) (r : ℕ) (a : A) : Store A := { st with mem := Function.update st.mem r a }

/-- The loops L63-76, L137-141 and L571-606: each round reads the array behind `r`, computes its next contents (`body`, which
may raise) and writes it back. If a round raises, the rounds before it have taken effect. -/
def loopInPlace (body : A → ι → Except PyErr A) (r : ℕ) : List ι → Store A → Except PyErr Unit × Store A
  | [], st => (.ok (), st)
  | i :: is, st =>
    match body (st.mem r) i with
    | .error e => (.error e, st)
    | .ok a => loopInPlace body r is (st.write r a)

/-- `if overwrite: W = demix_filter else: W = demix_filter.copy()` (L51-54, L128-131, L551-554), the loop, `return W`. -/
def updateInPlace (body : A → ι → Except PyErr A) (is : List ι) (overwrite : Bool) (demix_filter : ℕ) (st : Store A) :
    Except PyErr ℕ × Store A :=
  let (W, st) := if overwrite then (demix_filter, st) else st.alloc (st.mem demix_filter)
  let (res, st) := loopInPlace body W is st
  (res.map fun _ => W, st)

variable {F : Type} {n : ℕ}

/-- `update_by_ip1` on a stack of filters, L48-78. -/
noncomputable def updateByIp1 (floor : ℝ → ℝ) (U : F → Fin n → Mat n ℂ) (overwrite : Bool) (demix_filter : ℕ)
    (st : Store (F → Mat n ℂ)) : Except PyErr ℕ × Store (F → Mat n ℂ) :=
  updateInPlace (fun W src => onBins fun f => ip1Row floor (U f) (W f) src) (List.finRange n) overwrite demix_filter st

/-- `update_by_ip2` on a stack of filters, L122-143. -/
noncomputable def updateByIp2 (np : Numpy ℂ) (floor : ℝ → ℝ) (pairs : List (Fin n × Fin n)) (U : F → Fin n → Mat n ℂ)
    (overwrite : Bool) (demix_filter : ℕ) (st : Store (F → Mat n ℂ)) : Except PyErr ℕ × Store (F → Mat n ℂ) :=
  updateInPlace (fun W p => onBins fun f => ip2Pair np floor (U f) (W f) p) pairs overwrite demix_filter st

/-- `update_by_block_decomposition_vcd` on a stack of blocks, L542-608. -/
noncomputable def updateByVcd {b : ℕ} (singular : ℂ → Prop) (R : F → Fin b → Fin b → Fin n → Mat n ℂ)
    (overwrite : Bool) (demix_filter : ℕ) (st : Store (F → Fin b → Mat n ℂ)) :
    Except PyErr ℕ × Store (F → Fin b → Mat n ℂ) :=
  updateInPlace (fun W ik => onBins fun f => vcdStep singular (R f) (W f) ik)
    ((List.finRange b).flatMap fun i => (List.finRange n).map fun k => (i, k)) overwrite demix_filter st

end Verif.Overwrite
