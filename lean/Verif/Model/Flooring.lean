import Verif.Model.Ilrma
import Verif.Model.Special

/-! # `ssspy/utils/flooring.py`: which flooring function a method call uses

The other modules model the update rules with the flooring function as a parameter. Here the `flooring_fn` arguments of
the methods themselves are modelled, with the resolution that every method performs again on what it was given. -/

namespace Verif.Flooring

open Scale

variable {F : Type} [Fintype F] {n t K : ℕ}

/-- What a caller can pass as `flooring_fn`. -/
inductive Arg
  | none
  | str (s : String)
  | fn (f : ℝ → ℝ)
  | other  -- an object that is neither `None`, nor a string, nor callable

/-- `callable(flooring_fn)`, L22. -/
def callable : Arg → Option (ℝ → ℝ)
  | .fn f => some f
  | _ => Option.none

/-- `utils/flooring.py` L8-24 `choose_flooring_fn`. `method` is `None` or an object; of an object only its attribute
`flooring_fn` matters, which may be missing. -/
def chooseFlooringFn (flooring_fn : Arg) (method : Option (Option Arg)) : Except PyErr (ℝ → ℝ) := do
  let flooring_fn ← match flooring_fn with
    | .none => if method.isNone then Except.ok (Arg.fn Special.identity) else .error .assertion
    | .str s =>
      if s = "self" then
        match method with
        | some (some attr) => .ok attr
        | _ => .ok (Arg.fn Special.identity)
      else .ok (.str s)
    | a => .ok a
  match callable flooring_fn with
  | some f => .ok f
  | Option.none => .error .assertion

/-- The attribute `flooring_fn` set by `__init__`, e.g. `bss/iva.py` L87-90, `bss/ilrma.py` L86-89, `bss/mnmf.py`
L75-78. -/
def stored (flooring_fn : Arg) : Arg :=
  match flooring_fn with
  | .none => .fn Special.identity
  | a => a

/-! ## `AuxIVA` (`bss/iva.py`) -/

/-- `update_once_ip1`, L1780, and `update_once_ip2`, L1892: `attr` is the attribute `flooring_fn` of the object. -/
noncomputable def auxUpdateOnceAlg (np : Numpy ℂ) (alg : Ilrma.FilterAlg n) (d : Fin n → Fin t → ℝ → ℝ) (attr flooring_fn : Arg)
    (X : Spec F n t) (W : F → Mat n ℂ) : Except PyErr (F → Mat n ℂ) := do
  let floor ← chooseFlooringFn flooring_fn (some (some attr))
  match alg with
  | .ip1 => Iva.auxIp1 floor d X W
  | .ip2 pairs => Iva.auxIp2 np floor pairs d X W

/-- `update_once`, L1721-1734. -/
noncomputable def auxUpdateOnce (np : Numpy ℂ) (alg : Ilrma.FilterAlg n) (d : Fin n → Fin t → ℝ → ℝ) (attr flooring_fn : Arg)
    (X : Spec F n t) (W : F → Mat n ℂ) : Except PyErr (F → Mat n ℂ) := do
  let floor ← chooseFlooringFn flooring_fn (some (some attr))
  auxUpdateOnceAlg np alg d attr (.fn floor) X W

/-! ## `GaussILRMA`, `TILRMA`, `GGDILRMA` with a demixing filter (`bss/ilrma.py`) -/

open Ilrma

/-- `update_basis_mm`, L1088, and its siblings. -/
noncomputable def updateBasisApi (src : Source) (attr flooring_fn : Arg) (X : Spec F n t) (s : St F n t K) :
    Except PyErr (St F n t K) := do
  let floor ← chooseFlooringFn flooring_fn (some (some attr))
  .ok ⟨s.W, updateBasis src floor (Scale.separate X s.W) s.T s.V, s.V⟩

/-- `update_activation_mm`, L1164, and its siblings. -/
noncomputable def updateActivationApi (src : Source) (attr flooring_fn : Arg) (X : Spec F n t) (s : St F n t K) :
    Except PyErr (St F n t K) := do
  let floor ← chooseFlooringFn flooring_fn (some (some attr))
  .ok ⟨s.W, s.T, updateActivation src floor (Scale.separate X s.W) s.T s.V⟩

/-- `update_source_model_mm`, L972-978, and its siblings. -/
noncomputable def updateSourceAlgApi (src : Source) (attr flooring_fn : Arg) (X : Spec F n t) (s : St F n t K) :
    Except PyErr (St F n t K) := do
  let floor ← chooseFlooringFn flooring_fn (some (some attr))
  let s ← updateBasisApi src attr (.fn floor) X s
  updateActivationApi src attr (.fn floor) X s

/-- `update_source_model`, L943-954. -/
noncomputable def updateSourceApi (src : Source) (attr flooring_fn : Arg) (X : Spec F n t) (s : St F n t K) :
    Except PyErr (St F n t K) := do
  let floor ← chooseFlooringFn flooring_fn (some (some attr))
  updateSourceAlgApi src attr (.fn floor) X s

/-- `update_spatial_model_ip1`, L1482, and `update_spatial_model_ip2`, L1608. -/
noncomputable def updateSpatialAlgApi (np : Numpy ℂ) (src : Source) (alg : FilterAlg n) (attr flooring_fn : Arg)
    (X : Spec F n t) (s : St F n t K) : Except PyErr (St F n t K) := do
  let floor ← chooseFlooringFn flooring_fn (some (some attr))
  updateSpatial np src alg floor X s

/-- `update_spatial_model`, L1425-1438. -/
noncomputable def updateSpatialApi (np : Numpy ℂ) (src : Source) (alg : FilterAlg n) (attr flooring_fn : Arg)
    (X : Spec F n t) (s : St F n t K) : Except PyErr (St F n t K) := do
  let floor ← chooseFlooringFn flooring_fn (some (some attr))
  updateSpatialAlgApi np src alg attr (.fn floor) X s

/-- `normalize`, L350-363. -/
noncomputable def normalizeApi (p : ℝ) (norm : Norm n) (attr flooring_fn : Arg) (X : Spec F n t) (s : St F n t K) :
    Except PyErr (St F n t K) := do
  let floor ← chooseFlooringFn flooring_fn (some (some attr))
  match norm with
  | .off => .error .assertion
  | norm => normalize p floor X norm s

/-- `update_once`, L916-922. -/
noncomputable def updateOnceApi (np : Numpy ℂ) (src : Source) (p : ℝ) (alg : FilterAlg n) (norm : Norm n)
    (attr flooring_fn : Arg) (X : Spec F n t) (s : St F n t K) : Except PyErr (St F n t K) := do
  let floor ← chooseFlooringFn flooring_fn (some (some attr))
  let s ← updateSourceApi src attr (.fn floor) X s
  let s ← updateSpatialApi np src alg attr (.fn floor) X s
  match norm with
  | .off => .ok s
  | norm => normalizeApi p norm attr (.fn floor) X s

end Verif.Flooring
