import Mathlib.Analysis.Real.Sqrt
import Mathlib.Data.Fintype.BigOperators
import Mathlib.Data.List.FinRange
import Verif.Model.PyErr

/-!
# `ssspy/algorithm/permutation_alignment.py`

Because `overwrite` decides which caller arrays are modified, arrays live in a store addressed by references.
All arrays handed to one call share the axes (bins, sources); what a single entry `array[bin, source]` holds
(a row of frames, of filter taps, …) is the abstract type `α`. The shape checks (L60-64, L167-172) are therefore
part of the types.
-/

namespace Verif.Permutation

variable {B S T : ℕ} {α : Type}

/-- An array indexed by bin and source. -/
abbrev Arr (B S : ℕ) (α : Type) := Fin B → Fin S → α

/-- The object store: contents and the next unused reference (references to arrays are natural numbers). -/
structure Store (B S : ℕ) (α : Type) where
  mem : ℕ → Arr B S α
  next : ℕ

/-- `x.copy()` or a numpy expression creating a new array. -/
def Store.alloc (st : Store B S α) (a : Arr B S α) : ℕ × Store B S α :=
  (st.next, ⟨Function.update st.mem st.next a, st.next + 1⟩)

/-- `for arg in args: permutable.append(arg.copy())`. -/
def Store.copies (st : Store B S α) : List ℕ → List ℕ × Store B S α
  | [] => ([], st)
  | r :: rs =>
    let (c, st) := st.alloc (st.mem r)
    let (cs, st) := st.copies rs
    (c :: cs, st)

/-- `itertools.permutations` on a list without repetitions, in its lexicographic order. -/
def permutationsAux {β : Type} [DecidableEq β] : ℕ → List β → List (List β)
  | 0, _ => [[]]
  | k + 1, l => l.flatMap fun x => (permutationsAux k (l.erase x)).map (x :: ·)

/-- `list(itertools.permutations(range(n_sources)))`, L86 and L194. -/
def permutations (S : ℕ) : List (List (Fin S)) := permutationsAux S (List.finRange S)

/-- Fancy indexing `x[perm]` of the source axis. Every `perm` used has length `S`, so the default is never
taken (`mem_permutations_length` in `Props`). -/
def take (x : Fin S → α) (perm : List (Fin S)) : Fin S → α := fun k => x (perm.getD k k)

/-- `Y[b, :] = Y[b, perm]`: in-place change of one bin of the array behind `r`. -/
def Store.permuteBin (st : Store B S α) (r : ℕ) (b : Fin B) (perm : List (Fin S)) : Store B S α :=
  { st with mem := Function.update st.mem r (Function.update (st.mem r) b (take (st.mem r b) perm)) }

/-- The comparison L106-108: `if P_max is None or P_perm > P_max`. -/
noncomputable def better {β : Type} (score : β → ℝ) (acc : Option β) (p : β) : Option β :=
  match acc with
  | none => some p
  | some q => if score p > score q then some p else some q

/-- The running maximum L100-108 (`P_perm > P_max` keeps the first maximiser); `np.argmax` (L213, L254)
also returns the first maximiser. -/
noncomputable def firstMax {β : Type} (score : β → ℝ) (l : List β) : Option β :=
  l.foldl (better score) none

/-- `np.argsort`: some ordering of the bins with ascending values (numpy's default sort is not stable, so
the order of equal values is not specified). -/
structure Argsort where
  sort : ∀ {B : ℕ}, (Fin B → ℝ) → Equiv.Perm (Fin B)
  sorted : ∀ {B : ℕ} (v : Fin B → ℝ), Monotone (v ∘ sort v)

/-- The arrays the solvers work on, L66-77 and L174-184: the caller's own with `overwrite=True`, copies
otherwise. -/
def prepare (overwrite : Bool) (seq : ℕ) (args : List ℕ) (st : Store B S α) : ℕ × List ℕ × Store B S α :=
  if overwrite then (seq, args, st)
  else
    let (Y, st) := st.alloc (st.mem seq)
    let (permutable, st) := st.copies args
    (Y, permutable, st)

/-! ## `correlation_based_permutation_solver` -/

/-- L88-91: `P = |Y| / flooring_fn(norm)` with the norm over the source axis. `mag a` are the moduli of the
frames of the row `a`. -/
noncomputable def normalised (mag : α → Fin T → ℝ) (floor : ℝ → ℝ) (y : Fin S → α) : Fin S → Fin T → ℝ :=
  fun i k => mag (y i) k / floor (Real.sqrt (∑ j, mag (y j) k ^ 2))

/-- L92: `np.sum(P @ P.transpose(0, 2, 1), axis=(1, 2))`. -/
noncomputable def correlation (P : Fin S → Fin T → ℝ) : ℝ := ∑ i, ∑ j, ∑ k, P i k * P j k

/-- L104: `np.sum(P_criteria * P[min_idx, perm, :])`. -/
noncomputable def matchScore (crit P : Fin S → Fin T → ℝ) (perm : List (Fin S)) : ℝ :=
  ∑ i, ∑ k, crit i k * take P perm i k

/-- One pass of the loop L98-114 for bin `b`. `perm_max` stays `None` only when there is no permutation at
all, which cannot happen. -/
noncomputable def corrStep (P : Fin B → Fin S → Fin T → ℝ) (Y : ℕ) (permutable : List ℕ) (b : Fin B)
    (s : (Fin S → Fin T → ℝ) × Store B S α) : (Fin S → Fin T → ℝ) × Store B S α :=
  match firstMax (matchScore s.1 (P b)) (permutations S) with
  | none => s
  | some perm =>
    (fun i k => s.1 i k + take (P b) perm i k,
      permutable.foldl (fun st r => st.permuteBin r b perm) (s.2.permuteBin Y b perm))

/-- `correlation_based_permutation_solver`, L60-121. `seq` and `args` are the caller's references; the
result lists the returned references (`Y`, then the permutables). An array without bins makes
`indices[0]` raise `IndexError` (here: `.value`). -/
noncomputable def correlationSolver (np : Argsort) (mag : α → Fin T → ℝ) (floor : ℝ → ℝ) (overwrite : Bool)
    (seq : ℕ) (args : List ℕ) (st : Store B S α) : Except PyErr (ℕ × List ℕ × Store B S α) :=
  let (Y, permutable, st) := prepare overwrite seq args st
  let P := fun b => normalised mag floor (st.mem Y b)
  let indices := np.sort fun b => correlation (P b)
  match (List.finRange B).map indices with
  | [] => .error .value
  | first :: rest =>
    let (_, st) := rest.foldl (fun s b => corrStep P Y permutable b s) (P first, st)
    .ok (Y, permutable, st)

/-! ## `score_based_permutation_solver` -/

/-- `x.mean(axis=-1)`. -/
noncomputable def mean (x : Fin T → ℝ) : ℝ := (∑ k, x k) / T

/-- `x.std(axis=-1)`. -/
noncomputable def std (x : Fin T → ℝ) : ℝ := Real.sqrt (mean fun k => (x k - mean x) ^ 2)

/-- L196-198. -/
noncomputable def standardise (x : Fin T → ℝ) : Fin T → ℝ := fun k => (x k - mean x) / std x

/-- L206-209 / L243-249 for one reference `c`: `num[i, j] = mean(x[perm[i]] * c[j])`,
`corr = num / flooring_fn(centroid_std)` with the deviation of row `i`, and
`score = sum(eye * corr - (1 - eye) * corr)`. -/
noncomputable def alignScore (floor : ℝ → ℝ) (centroidStd : Fin S → ℝ) (c x : Fin S → Fin T → ℝ)
    (perm : List (Fin S)) : ℝ :=
  ∑ i, ∑ j,
    let corr := mean (fun k => take x perm i k * c j k) / floor (centroidStd i)
    let eye : ℝ := if i = j then 1 else 0
    eye * corr - (1 - eye) * corr

/-- The state of the iterations: the normalised sequence, the reference held by the variable `sequence`,
`centroid_std` (unset before the first global iteration) and the store. -/
structure ScoreState (B S T : ℕ) (α : Type) where
  norm : Fin B → Fin S → Fin T → ℝ
  seq : ℕ
  centroidStd : Option (Fin S → ℝ)
  st : Store B S α

/-- `_parallel_sort`, L270-275, on an array indexed by bin and source. -/
def parallelSort {β : Type} (x : Fin B → Fin S → β) (perm : Fin B → List (Fin S)) : Fin B → Fin S → β :=
  fun b => take (x b) (perm b)

/-- One global iteration, L201-219. `sequence = _parallel_sort(...)` binds a *new* array, while
`permutable[idx][:] = ...` writes into the existing ones. -/
noncomputable def globalStep (floor : ℝ → ℝ) (permutable : List ℕ) (s : ScoreState B S T α) :
    ScoreState B S T α :=
  let centroid := fun i k => (∑ b, s.norm b i k) / B
  let cstd := fun i => std (centroid i)
  let permMax : Fin B → List (Fin S) := fun b =>
    (firstMax (alignScore floor cstd centroid (s.norm b)) (permutations S)).getD []
  let (seq', st) := s.st.alloc (parallelSort (s.st.mem s.seq) permMax)
  let st := permutable.foldl
    (fun st r => { st with mem := Function.update st.mem r (parallelSort (st.mem r) permMax) }) st
  ⟨parallelSort s.norm permMax, seq', some cstd, st⟩

/-- L224-237: the bins `bin_idx` is compared with. -/
def covariant (B : ℕ) (b : Fin B) : List (Fin B) :=
  (List.finRange B).filter fun c =>
    (b.val - 3 ≤ c.val ∧ c.val ≤ b.val + 3 ∧ c ≠ b) ∨
    (b.val / 2 - 1 ≤ c.val ∧ c.val ≤ b.val / 2 + 1) ∨
    (2 * b.val - 1 ≤ c.val ∧ c.val ≤ 2 * b.val + 1)

/-- One bin of the local optimisation, L223-260. -/
noncomputable def localStep (floor : ℝ → ℝ) (permutable : List ℕ) (b : Fin B) (s : ScoreState B S T α) :
    Except PyErr (ScoreState B S T α) :=
  match s.centroidStd with
  | none => .error .name
  | some cstd =>
    let score := fun perm => ((covariant B b).map fun c => alignScore floor cstd (s.norm c) (s.norm b) perm).sum
    let perm := (firstMax score (permutations S)).getD []
    .ok { s with
      norm := Function.update s.norm b (take (s.norm b) perm)
      st := permutable.foldl (fun st r => st.permuteBin r b perm) (s.st.permuteBin s.seq b perm) }

/-- A loop of `n` passes. -/
def repeatM {σ : Type} (f : σ → Except PyErr σ) : ℕ → σ → Except PyErr σ
  | 0, s => .ok s
  | n + 1, s => do repeatM f n (← f s)

/-- `score_based_permutation_solver`, L167-267, for real-valued sequences (`val a` are the frames of a row). -/
noncomputable def scoreSolver (val : α → Fin T → ℝ) (floor : ℝ → ℝ) (globalIter localIter : ℤ)
    (multiCentroids overwrite : Bool) (seq : ℕ) (args : List ℕ) (st : Store B S α) :
    Except PyErr (ℕ × List ℕ × Store B S α) := do
  if multiCentroids then throw .assertion
  let (seq, permutable, st) := prepare overwrite seq args st
  let s : ScoreState B S T α := ⟨fun b i => standardise (val (st.mem seq b i)), seq, none, st⟩
  let s := (globalStep floor permutable)^[globalIter.toNat] s
  let s ← repeatM (fun s => (List.finRange B).foldlM (fun s b => localStep floor permutable b s) s)
    localIter.toNat s
  return (s.seq, permutable, s.st)

end Verif.Permutation
