import Verif.Model.Lifecycle
import Verif.Model.ProxBss

/-!
# Calls of the proximal methods: `bss/pdsbss.py`, `bss/admmbss.py`, `bss/proxbss.py`

A call of `PDSBSS`, `MaskingPDSBSS`, `ADMMBSS` or `MaskingADMMBSS` on an object in any state: `_reset` with its keyword
arguments, the iterations with the losses they record, the restoration of the scale, and the attributes left on the
object. Attributes are `none` before the first call. Left out: the keyword arguments `demix_filter=None` and `dual=None`,
callbacks, the deprecated names `aux1` and `aux2`.
-/

namespace Verif.ProxBss

open Matrix Spatial Scale Lifecycle

variable {F : Type} [Fintype F] {n t q : ℕ}

/-- `self.attr` after `setattr` of the keyword arguments, or the value given to it on a new object:
`bss/proxbss.py` L117-118, L128-136; `bss/pdsbss.py` L186-195, L380-389; `bss/admmbss.py` L191-218, L381-408. -/
def keep {α : Type} (fresh : α) (kw attr : Option α) : α :=
  match kw with
  | some a => a
  | none => attr.getD fresh

/-- `IterativeMethodBase.__call__`, `bss/base.py` L59-77, on an object whose `loss` is `l`. -/
def proxIterate {σ : Type} (attr : Option Bool) (loss : σ → Except PyErr ℝ) (update : σ → Except PyErr σ) (n_iter : ℕ)
    (initial_call : Bool) (s : σ) (l : Option (List ℝ)) : Except PyErr (σ × Option (List ℝ)) := do
  let l ← if initial_call then recordPoint attr loss s l else .ok l
  proxLoop attr loss update n_iter s l

/-! ## Primal-dual splitting -/

/-- A `PDSBSS` object. -/
structure PdsObj (F : Type) (n t q : ℕ) where
  demix : Option (F → Mat n ℂ)
  dual : Option (Fin q → Spec F n t)
  output : Option (Spec F n t)
  loss : Option (List ℝ)

/-- A new object whose attribute `record_loss` is `attr`: `bss/base.py` L43-48. -/
def PdsObj.fresh (attr : Option Bool) : PdsObj F n t q := ⟨none, none, none, if attr = some true then some [] else none⟩

/-- The keyword arguments of a call. -/
structure PdsKw (F : Type) (n t q : ℕ) where
  demix : Option (F → Mat n ℂ) := none
  dual : Option (Fin q → Spec F n t) := none

/-- `PDSBSS._reset`, `bss/pdsbss.py` L173-195, and `ProxBSSBase._reset`, `bss/proxbss.py` L107-139: the identity filter and
zero duals on a new object. -/
def pdsReset (kw : PdsKw F n t q) (o : PdsObj F n t q) : PdsState F n t q :=
  ⟨keep (fun _ => 1) kw.demix o.demix, keep (fun _ _ => 0) kw.dual o.dual⟩

/-- `PDSBSS.__call__`, `bss/pdsbss.py` L126-156. -/
noncomputable def pdsCall (np : Numpy ℂ) (mu1 mu2 relaxation : ℝ) (prox : Fin q → Spec F n t → ℝ → Spec F n t)
    (penalty : Penalty F n t) (attr : Option Bool) (sr : ScaleOpt) (r : Fin n) (X : Spec F n t) (n_iter : ℕ)
    (initial_call : Bool) (kw : PdsKw F n t q) (o : PdsObj F n t q) : Except PyErr (PdsObj F n t q) := do
  let s := pdsReset kw o
  let (s, l) ← proxIterate attr (fun s => computeLoss penalty X s.W) (pdsStep np mu1 mu2 relaxation prox X) n_iter
    initial_call s o.loss
  let (Y, W) ← finish sr r X s.W
  .ok ⟨some W, some s.dual, some Y, l⟩

/-- A `MaskingPDSBSS` object. -/
structure MaskPdsObj (F : Type) (n t : ℕ) where
  demix : Option (F → Mat n ℂ)
  dual : Option (Spec F n t)
  output : Option (Spec F n t)
  loss : Option (List ℝ)

/-- The keyword arguments of a call. -/
structure MaskPdsKw (F : Type) (n t : ℕ) where
  demix : Option (F → Mat n ℂ) := none
  dual : Option (Spec F n t) := none

/-- `MaskingPDSBSS.__call__` and `_reset`, `bss/pdsbss.py` L320-389. -/
noncomputable def maskingPdsCall (np : Numpy ℂ) (mu1 mu2 relaxation : ℝ)
    (mask : Spec F n t → F → Matrix (Fin n) (Fin t) ℝ) (penalty : Penalty F n t) (attr : Option Bool) (sr : ScaleOpt)
    (r : Fin n) (X : Spec F n t) (n_iter : ℕ) (initial_call : Bool) (kw : MaskPdsKw F n t) (o : MaskPdsObj F n t) :
    Except PyErr (MaskPdsObj F n t) := do
  let s := (keep (fun _ => 1) kw.demix o.demix, keep (fun _ => 0) kw.dual o.dual)
  let (s, l) ← proxIterate attr (fun s => computeLoss penalty X s.1) (maskingPdsStep np mu1 mu2 relaxation mask X) n_iter
    initial_call s o.loss
  let (Y, W) ← finish sr r X s.1
  .ok ⟨some W, some s.2, some Y, l⟩

/-! ## Alternating direction method of multipliers -/

/-- An `ADMMBSS` object. -/
structure AdmmObj (F : Type) (n t q : ℕ) where
  demix : Option (F → Mat n ℂ)
  auxiliary1 : Option (F → Mat n ℂ)
  auxiliary2 : Option (Fin q → Spec F n t)
  dual1 : Option (F → Mat n ℂ)
  dual2 : Option (Fin q → Spec F n t)
  output : Option (Spec F n t)
  loss : Option (List ℝ)

/-- A new object whose attribute `record_loss` is `attr`. -/
def AdmmObj.fresh (attr : Option Bool) : AdmmObj F n t q :=
  ⟨none, none, none, none, none, none, if attr = some true then some [] else none⟩

/-- The keyword arguments of a call. -/
structure AdmmKw (F : Type) (n t q : ℕ) where
  demix : Option (F → Mat n ℂ) := none
  auxiliary1 : Option (F → Mat n ℂ) := none
  auxiliary2 : Option (Fin q → Spec F n t) := none
  dual1 : Option (F → Mat n ℂ) := none
  dual2 : Option (Fin q → Spec F n t) := none

/-- `ADMMBSS._reset`, `bss/admmbss.py` L168-218: the identity filter, and zeros for everything else, on a new object. -/
def admmReset (kw : AdmmKw F n t q) (o : AdmmObj F n t q) : AdmmState F n t q :=
  ⟨keep (fun _ => 1) kw.demix o.demix, keep (fun _ => 0) kw.auxiliary1 o.auxiliary1,
    keep (fun _ _ => 0) kw.auxiliary2 o.auxiliary2, keep (fun _ => 0) kw.dual1 o.dual1,
    keep (fun _ _ => 0) kw.dual2 o.dual2⟩

/-- `ADMMBSS.__call__`, `bss/admmbss.py` L121-151. -/
noncomputable def admmCall (np : Numpy ℂ) (rho relaxation : ℝ) (prox : Fin q → Spec F n t → ℝ → Spec F n t)
    (penalty : Penalty F n t) (attr : Option Bool) (sr : ScaleOpt) (r : Fin n) (X : Spec F n t) (n_iter : ℕ)
    (initial_call : Bool) (kw : AdmmKw F n t q) (o : AdmmObj F n t q) : Except PyErr (AdmmObj F n t q) := do
  let s := admmReset kw o
  let (s, l) ← proxIterate attr (fun s => computeLoss penalty X s.W) (admmStep np rho relaxation prox X) n_iter
    initial_call s o.loss
  let (Y, W) ← finish sr r X s.W
  .ok ⟨some W, some s.V, some s.V_tilde, some s.Y, some s.Y_tilde, some Y, l⟩

/-- A `MaskingADMMBSS` object. -/
structure MaskAdmmObj (F : Type) (n t : ℕ) where
  demix : Option (F → Mat n ℂ)
  auxiliary1 : Option (F → Mat n ℂ)
  auxiliary2 : Option (Spec F n t)
  dual1 : Option (F → Mat n ℂ)
  dual2 : Option (Spec F n t)
  output : Option (Spec F n t)
  loss : Option (List ℝ)

/-- The keyword arguments of a call. -/
structure MaskAdmmKw (F : Type) (n t : ℕ) where
  demix : Option (F → Mat n ℂ) := none
  auxiliary1 : Option (F → Mat n ℂ) := none
  auxiliary2 : Option (Spec F n t) := none
  dual1 : Option (F → Mat n ℂ) := none
  dual2 : Option (Spec F n t) := none

/-- `MaskingADMMBSS.__call__` and `_reset`, `bss/admmbss.py` L342-408. -/
noncomputable def maskingAdmmCall (np : Numpy ℂ) (rho relaxation : ℝ)
    (mask : Spec F n t → F → Matrix (Fin n) (Fin t) ℝ) (penalty : Penalty F n t) (attr : Option Bool) (sr : ScaleOpt)
    (r : Fin n) (X : Spec F n t) (n_iter : ℕ) (initial_call : Bool) (kw : MaskAdmmKw F n t) (o : MaskAdmmObj F n t) :
    Except PyErr (MaskAdmmObj F n t) := do
  let s := (keep (fun _ => 1) kw.demix o.demix, keep (fun _ => 0) kw.auxiliary1 o.auxiliary1,
    keep (fun _ => 0) kw.auxiliary2 o.auxiliary2, keep (fun _ => 0) kw.dual1 o.dual1, keep (fun _ => 0) kw.dual2 o.dual2)
  let (s, l) ← proxIterate attr (fun s => computeLoss penalty X s.1) (maskingAdmmStep np rho relaxation mask X) n_iter
    initial_call s o.loss
  let (Y, W) ← finish sr r X s.1
  .ok ⟨some W, some s.2.1, some s.2.2.1, some s.2.2.2.1, some s.2.2.2.2, some Y, l⟩

end Verif.ProxBss
