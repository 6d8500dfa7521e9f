import Verif.Model.Ipsdta
import Verif.Model.IlrmaCall

/-!
# Calls of `GaussIPSDTA` and `TIPSDTA`

The whole of `__call__` with `record_loss=True`, no callbacks, `source_algorithm="MM"` and `spatial_algorithm="VCD"`: attributes,
`_reset` with the random initial values, the iterations and the end.
-/

namespace Verif.IpsdtaCall

open Scale Ipsdta Lifecycle
open IlrmaCall (override attrOr baseCall)

variable {n_bins n_blocks n t K : ℕ}

/-- The attributes `demix_filter`, `basis`, `activation`, `output` and `loss`, and `initial_call`, which exists only if it was
given as a keyword argument. -/
structure Obj (n_bins n_blocks n t K : ℕ) where
  demix : Attr (Fin n_bins → Mat n ℂ)
  basis : Attr (Fin n → Fin K → (β : Blk n_bins n_blocks) → Mat (bsize n_bins n_blocks β) ℂ)
  activation : Attr (Fin n → Fin K → Fin t → ℝ)
  output : Attr (Spec (Fin n_bins) n t)
  loss : List ℝ
  initial_call : Attr Bool

/-- A new object, `bss/ipsdta.py` L58-94, `bss/base.py` L40-43. -/
def Obj.fresh : Obj n_bins n_blocks n t K := ⟨.absent, .absent, .absent, .absent, [], .absent⟩

/-- The keyword arguments of a call. `__call__` of IPSDTA has no parameter `initial_call` (L96), so that it is a keyword
argument like the others. -/
structure Kw (n_bins n_blocks n t K : ℕ) where
  demix : Option (Fin n_bins → Mat n ℂ) := none
  basis : Option (Fin n → Fin K → (β : Blk n_bins n_blocks) → Mat (bsize n_bins n_blocks β) ℂ) := none
  activation : Option (Fin n → Fin K → Fin t → ℝ) := none
  initial_call : Option Bool := none

/-- What `rng.random` returns during `_init_block_decomposition_psdtf`. -/
structure Draw (n_bins n_blocks n t K : ℕ) where
  T : Fin n → Fin K → (β : Blk n_bins n_blocks) → Fin (bsize n_bins n_blocks β) → ℝ
  V : Fin n → Fin K → Fin t → ℝ

/-- `self.basis` in `_init_block_decomposition_psdtf`, `bss/ipsdta.py` L543-561: `rand[..., np.newaxis] * eye` for blocks of both
sizes; `None` cannot be unpacked (`TypeError`) and has no `copy` (`AttributeError`). -/
def initBasis (draw : Draw n_bins n_blocks n t K)
    (basis : Attr (Fin n → Fin K → (β : Blk n_bins n_blocks) → Mat (bsize n_bins n_blocks β) ℂ)) :
    Except PyErr (Fin n → Fin K → (β : Blk n_bins n_blocks) → Mat (bsize n_bins n_blocks β) ℂ) :=
  match basis with
  | .absent => .ok fun k b β => Matrix.diagonal fun i => (draw.T k b β i : ℂ)
  | .none => if n_bins % n_blocks > 0 then .error .type else .error .attribute
  | .val T => .ok T

/-- `_init_block_decomposition_psdtf`, `bss/ipsdta.py` L512-574; `n_bins % n_blocks` with `n_blocks = 0` raises
`ZeroDivisionError` (L533, L577-582). -/
noncomputable def initPsdtf (normalization : Bool) (floor : ℝ → ℝ) (draw : Draw n_bins n_blocks n t K)
    (basis : Attr (Fin n → Fin K → (β : Blk n_bins n_blocks) → Mat (bsize n_bins n_blocks β) ℂ))
    (activation : Attr (Fin n → Fin K → Fin t → ℝ)) :
    Except PyErr ((Fin n → Fin K → (β : Blk n_bins n_blocks) → Mat (bsize n_bins n_blocks β) ℂ) × (Fin n → Fin K → Fin t → ℝ)) :=
  if n_blocks = 0 then .error .zeroDivision
  else do
    let T ← initBasis draw basis
    let V ← attrOr (fun k b j => floor (draw.V k b j)) activation
    .ok (if normalization then normalize T V else (T, V))

/-- `demix_filter` after `_reset`, `bss/ipsdta.py` L493-508; the product `None @ X` raises `ValueError`. -/
def startFilter (demix : Attr (Fin n_bins → Mat n ℂ)) : Except PyErr (Fin n_bins → Mat n ℂ) :=
  match demix with
  | .absent => .ok fun _ => 1
  | .none => .error .value
  | .val W => .ok W

/-- `BlockDecompositionIPSDTABase._reset`, `bss/ipsdta.py` L464-510. -/
noncomputable def reset (normalization : Bool) (floor : ℝ → ℝ) (draw : Draw n_bins n_blocks n t K) (kw : Kw n_bins n_blocks n t K)
    (o : Obj n_bins n_blocks n t K) : Except PyErr (St n_bins n_blocks n t K) := do
  let W ← startFilter (override kw.demix o.demix)
  let (T, V) ← initPsdtf normalization floor draw (override kw.basis o.basis) (override kw.activation o.activation)
  .ok ⟨T, V, W⟩

/-- `IPSDTABase.__call__`, `bss/ipsdta.py` L96-122: `super().__call__(n_iter=n_iter)` leaves `initial_call` at its default
`True`. `step` and `loss` are those of the class. -/
noncomputable def call (step : St n_bins n_blocks n t K → Except PyErr (St n_bins n_blocks n t K))
    (loss : St n_bins n_blocks n t K → Except PyErr ℝ) (normalization : Bool) (floor : ℝ → ℝ) (sr : ScaleOpt) (r : Fin n)
    (draw : Draw n_bins n_blocks n t K) (X : Spec (Fin n_bins) n t) (n_iter : ℕ) (kw : Kw n_bins n_blocks n t K)
    (o : Obj n_bins n_blocks n t K) : Except PyErr (Obj n_bins n_blocks n t K) := do
  let s ← reset normalization floor draw kw o
  let (s, ls) ← baseCall step loss true n_iter s o.loss
  let (Y, W) ← finish sr r X s.W
  .ok ⟨.val W, .val s.T, .val s.V, .val Y, ls, override kw.initial_call o.initial_call⟩

/-- A call of `GaussIPSDTA`. -/
noncomputable def gaussCall (np : Numpy ℂ) (normalization : Bool) (floor : ℝ → ℝ) (sr : ScaleOpt) (r : Fin n)
    (draw : Draw n_bins n_blocks n t K) (X : Spec (Fin n_bins) n t) (n_iter : ℕ) (kw : Kw n_bins n_blocks n t K)
    (o : Obj n_bins n_blocks n t K) : Except PyErr (Obj n_bins n_blocks n t K) :=
  call (gaussUpdate np normalization floor X) (gaussLoss np X) normalization floor sr r draw X n_iter kw o

/-- A call of `TIPSDTA`. -/
noncomputable def tCall (np : Numpy ℂ) (normalization : Bool) (floor : ℝ → ℝ) (nu : ℝ) (sr : ScaleOpt) (r : Fin n)
    (draw : Draw n_bins n_blocks n t K) (X : Spec (Fin n_bins) n t) (n_iter : ℕ) (kw : Kw n_bins n_blocks n t K)
    (o : Obj n_bins n_blocks n t K) : Except PyErr (Obj n_bins n_blocks n t K) :=
  call (tUpdate np normalization floor nu X) (tLoss np nu X) normalization floor sr r draw X n_iter kw o

end Verif.IpsdtaCall
