import Verif.Model.PyErr

/-! # Model of `ssspy/utils/select_pair.py` -/

namespace Verif.SelectPair

/-- Python's `range(0, stop, step)`: `ValueError` for a zero step, otherwise `0, step, 2*step, …` while below
(above, for a negative step) `stop`. -/
def pyRange (stop step : Int) : Except PyErr (List Int) :=
  if step = 0 then .error .value
  else if 0 < step then .ok ((List.range ((stop + step - 1) / step).toNat).map fun (i : Nat) => (i : Int) * step)
  else .ok ((List.range ((-stop + -step - 1) / -step).toNat).map fun (i : Nat) => (i : Int) * step)

/-- Optional sorting of a pair, L41-42 and L73-74. -/
def sortPair (sort : Bool) (p : Int × Int) : Int × Int :=
  if sort then (if p.1 > p.2 then (p.2, p.1) else p) else p

/-- `sequential_pair_selector`, L35-44: the list of pairs the generator yields. `%` with `n_sources = 0` raises
`ZeroDivisionError` (as soon as one pair is requested); `Int.emod` is Python's `%` for a positive modulus. -/
def sequentialPairSelector (n_sources : Nat) (stop : Option Int) (step : Int) (sort : Bool) :
    Except PyErr (List (Int × Int)) := do
  let ms ← pyRange (stop.getD n_sources) step
  if n_sources = 0 ∧ ms ≠ [] then throw .zeroDivision
  return ms.map fun m => sortPair sort (m % n_sources, (m + 1) % n_sources)

/-- `itertools.combinations(l, 2)` in its lexicographic order. -/
def combinations2 {α : Type} : List α → List (α × α)
  | [] => []
  | x :: xs => xs.map (fun y => (x, y)) ++ combinations2 xs

/-- `combination_pair_selector`, L72-76. -/
def combinationPairSelector (n_sources : Nat) (sort : Bool) : List (Int × Int) :=
  (combinations2 ((List.range n_sources).map fun (i : Nat) => (i : Int))).map (sortPair sort)

end Verif.SelectPair
