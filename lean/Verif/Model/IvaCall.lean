import Verif.Model.Iva
import Verif.Model.IlrmaCall

/-!
# Complete calls of `AuxIVA`, `AuxLaplaceIVA` and `AuxGaussIVA`: `_reset`, the iterations and the end of `__call__`

The loss is recorded (`record_loss=True`, the default) and there are no callbacks. IPA is left out here.
-/

namespace Verif.IvaCall

open Scale Iva Lifecycle
open Ilrma (FilterAlg SignalAlg)
open IlrmaCall (baseCall label labelY)

variable {F : Type} [Fintype F] {n t : ℕ}

/-- The attributes that survive a call of `AuxIVA`. -/
structure Obj (F : Type) (n t : ℕ) where
  demix : Attr (F → Mat n ℂ)
  output : Attr (Spec F n t)
  loss : List ℝ

/-- A new object; `self.loss = []`. -/
def Obj.fresh : Obj F n t := ⟨.absent, .absent, []⟩

/-- `AuxIVA.update_once` for the algorithms with a filter, `bss/iva.py` L1719-1725. -/
noncomputable def update (np : Numpy ℂ) (alg : FilterAlg n) (floor : ℝ → ℝ) (d : Fin n → Fin t → ℝ → ℝ) (X : Spec F n t)
    (W : F → Mat n ℂ) : Except PyErr (F → Mat n ℂ) :=
  match alg with
  | .ip1 => auxIp1 floor d X W
  | .ip2 pairs => auxIp2 np floor pairs d X W

/-- `AuxIVA.update_once` for ISS1 and ISS2, L1726-1729. -/
noncomputable def updateY (np : Numpy ℂ) (alg : SignalAlg n) (floor : ℝ → ℝ) (d : Fin n → Fin t → ℝ → ℝ) (Y : Spec F n t) :
    Except PyErr (Spec F n t) :=
  match alg with
  | .iss1 => .ok (auxIss1 floor d Y)
  | .iss2 pairs => auxIss2 np floor pairs d Y

/-- `_reset` of an object whose algorithm keeps a filter, L145-169 and L1694-1697. -/
noncomputable def reset (alg : FilterAlg n) (X : Spec F n t) (kw : Option (F → Mat n ℂ)) (o : Obj F n t) :
    Except PyErr (F → Mat n ℂ) := do
  let (W, _) ← Lifecycle.reset (label alg) X kw ⟨o.demix, o.output⟩
  match W with
  | some W => .ok W
  | none => .error .value

/-- `AuxIVA.__call__` with IP1 or IP2, L1657-1672. `G` and `d` are `contrast_fn` and `d_contrast_fn`, `kw` is the keyword
argument `demix_filter`. -/
noncomputable def call (np : Numpy ℂ) (alg : FilterAlg n) (floor : ℝ → ℝ) (G d : Fin n → Fin t → ℝ → ℝ) (sr : ScaleOpt)
    (r : Fin n) (X : Spec F n t) (n_iter : ℕ) (initial_call : Bool) (kw : Option (F → Mat n ℂ)) (o : Obj F n t) :
    Except PyErr (Obj F n t) := do
  let W ← reset alg X kw o
  let (W, ls) ← baseCall (update np alg floor d X) (fun W => .ok (lossIp G X W)) initial_call n_iter W o.loss
  let (Y, W) ← finish sr r X W
  .ok ⟨.val W, .val Y, ls⟩

/-- `AuxIVA.__call__` with ISS1 or ISS2. -/
noncomputable def callSignal (np : Numpy ℂ) (alg : SignalAlg n) (floor : ℝ → ℝ) (G d : Fin n → Fin t → ℝ → ℝ) (sr : ScaleOpt)
    (r : Fin n) (X : Spec F n t) (n_iter : ℕ) (initial_call : Bool) (kw : Option (F → Mat n ℂ)) (o : Obj F n t) :
    Except PyErr (Obj F n t) := do
  let (_, Y) ← Lifecycle.reset (labelY alg) X kw ⟨o.demix, o.output⟩
  let (Y, ls) ← baseCall (updateY np alg floor d) (lossFree G X) initial_call n_iter Y o.loss
  let Y ← finishFree sr r X Y
  .ok ⟨.none, .val Y, ls⟩

/-! ## `AuxGaussIVA` -/

/-- The attributes that survive a call of `AuxGaussIVA`. -/
structure GaussObj (F : Type) (n t : ℕ) where
  demix : Attr (F → Mat n ℂ)
  variance : Attr (Fin n → Fin t → ℝ)
  output : Attr (Spec F n t)
  loss : List ℝ

/-- A new object. -/
def GaussObj.fresh : GaussObj F n t := ⟨.absent, .absent, .absent, []⟩

/-- `AuxGaussIVA.update_once` for the algorithms with a filter, L3335-3337. -/
noncomputable def gaussUpdate (np : Numpy ℂ) (alg : FilterAlg n) (floor : ℝ → ℝ) (X : Spec F n t) (s : GaussState F n t) :
    Except PyErr (GaussState F n t) :=
  match alg with
  | .ip1 => gaussIp1 floor X s
  | .ip2 pairs => gaussIp2 np floor pairs X s

/-- `AuxGaussIVA._reset`, L3304-3317: the variance is always set to one, also when the object has been called before and
also when the keyword argument `variance` is given. -/
noncomputable def gaussReset (alg : FilterAlg n) (X : Spec F n t) (kw : Option (F → Mat n ℂ)) (o : GaussObj F n t) :
    Except PyErr (GaussState F n t) := do
  let W ← reset alg X kw ⟨o.demix, o.output, o.loss⟩
  .ok ⟨W, fun _ _ => 1⟩

/-- `AuxGaussIVA.__call__` with IP1 or IP2. -/
noncomputable def gaussCall (np : Numpy ℂ) (alg : FilterAlg n) (floor : ℝ → ℝ) (sr : ScaleOpt) (r : Fin n) (X : Spec F n t)
    (n_iter : ℕ) (initial_call : Bool) (kw : Option (F → Mat n ℂ)) (o : GaussObj F n t) : Except PyErr (GaussObj F n t) := do
  let s ← gaussReset alg X kw o
  let (s, ls) ← baseCall (gaussUpdate np alg floor X) (fun s => .ok (gaussLoss X s)) initial_call n_iter s o.loss
  let (Y, W) ← finish sr r X s.W
  .ok ⟨.val W, .val s.variance, .val Y, ls⟩

end Verif.IvaCall
