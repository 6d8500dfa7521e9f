import Verif.Model.Scale
import Verif.Model.Transform

/-!
# The life cycle of a separator object: `_reset`, scale restoration and the end of `__call__`

`F` is the set of frequency bins; the number of sources equals the number of channels.
-/

namespace Verif.Lifecycle

open Matrix Scale

variable {n t : ℕ} {F : Type}

/-- The constructor argument `scale_restoration: Union[bool, str]`. -/
inductive ScaleOpt where
  | bool (b : Bool)
  | str (s : String)

/-- `bool(scale_restoration)`. -/
def ScaleOpt.truthy : ScaleOpt → Bool
  | .bool b => b
  | .str s => s ≠ ""

/-- `algorithm/__init__.py` L7. -/
def projectionBackKeywords : List String := ["projection_back", "projection-back", "PB"]

/-- `algorithm/__init__.py` L8-12. -/
def mdpKeywords : List String := ["minimal_distortion_principle", "minimal-distortion-principle", "MDP"]

/-- The dispatch of `restore_scale`: `bss/fdica.py` L290-302, `bss/iva.py` L245-257, `bss/ilrma.py` L543-555,
`bss/ipsdta.py` L346-358, `bss/proxbss.py` L230-242. `pb` and `mdp` are the two `apply_*` methods. -/
def restoreScale {α : Type} (sr : ScaleOpt) (pb mdp : Except PyErr α) : Except PyErr α :=
  if !sr.truthy then .error .assertion
  else
    let key := match sr with
      | .bool _ => "projection_back"
      | .str s => s
    if key ∈ projectionBackKeywords then pb
    else if key ∈ mdpKeywords then mdp
    else .error .value

/-! ## Methods that keep a demixing filter -/

/-- `apply_projection_back` of `bss/fdica.py` L308-312, `bss/iva.py` L263-267, `bss/ilrma.py` L561-565,
`bss/ipsdta.py` L364-368, `bss/proxbss.py` L248-252: new `(output, demix_filter)`. -/
noncomputable def applyProjectionBack (r : Fin n) (X : Spec F n t) (W : F → Mat n ℂ) :
    Except PyErr (Spec F n t × (F → Mat n ℂ)) := do
  let W_scaled ← projectionBackFilter r W
  let Y_scaled := separate X W_scaled
  .ok (Y_scaled, W_scaled)

/-- `apply_minimal_distortion_principle` of `bss/fdica.py` L318-326, `bss/iva.py` L273-281,
`bss/ilrma.py` L571-579, `bss/ipsdta.py` L374-382, `bss/proxbss.py` L258-266. -/
noncomputable def applyMdp (r : Fin n) (X : Spec F n t) (W : F → Mat n ℂ) :
    Except PyErr (Spec F n t × (F → Mat n ℂ)) := do
  let Y := separate X W
  let Y_scaled := mdp r Y X
  let XX_inv ← npInvB fun f => X f * (X f)ᴴ
  .ok (Y_scaled, fun f => Y_scaled f * (X f)ᴴ * XX_inv f)

/-- The end of `__call__` for methods with a filter: `bss/fdica.py` L432-437, L1013-1022,
`bss/iva.py` L387-392, L1664-1672, `bss/ilrma.py` L847-855: optional scale restoration, then
`self.output = self.separate(self.input, demix_filter=self.demix_filter)`. Returns `(output, demix_filter)`. -/
noncomputable def finish (sr : ScaleOpt) (r : Fin n) (X : Spec F n t) (W : F → Mat n ℂ) :
    Except PyErr (Spec F n t × (F → Mat n ℂ)) := do
  let W ← if sr.truthy then
      (do let p ← restoreScale sr (applyProjectionBack r X W) (applyMdp r X W); .ok p.2)
    else .ok W
  .ok (separate X W, W)

/-! ## Methods without a filter (ISS, IPA) -/

/-- The end of `AuxIVA.__call__` / `GaussILRMA.__call__` when `demix_filter is None`:
`bss/iva.py` L1664-1672 with L2196-2202 and L2208-2212 (`bss/ilrma.py` L847-855 with L1969-1992, L3314-3337, L4390-4413). -/
noncomputable def finishFree (sr : ScaleOpt) (r : Fin n) (X Y : Spec F n t) : Except PyErr (Spec F n t) :=
  if sr.truthy then restoreScale sr (projectionBackData r Y X) (.ok (mdp r Y X)) else .ok Y

/-! ## FastIVA and FasterIVA -/

/-- `FastIVABase._reset`, `bss/iva.py` L471: `Z = whiten(X)`. -/
noncomputable def whitened (np : Numpy ℂ) (X : Spec F n t) : Spec F n t :=
  fun f => Transform.whitenCore np (X f)

/-- `FastIVABase.apply_projection_back`, `bss/iva.py` L537-550. -/
noncomputable def applyProjectionBackFast (r : Fin n) (X Z : Spec F n t) (W : F → Mat n ℂ) :
    Except PyErr (Spec F n t × (F → Mat n ℂ)) := do
  let Y := separate Z W
  let Y_scaled ← projectionBackData r Y X
  let ZZ_inv ← npInvB fun f => Z f * (Z f)ᴴ
  .ok (Y_scaled, fun f => Y_scaled f * (Z f)ᴴ * ZZ_inv f)

/-- `IVABase.apply_minimal_distortion_principle`, `bss/iva.py` L273-281, as inherited by `FastIVABase`:
`self.separate` is `FastIVABase.separate` (L502-509), which whitens its argument. -/
noncomputable def applyMdpFast (np : Numpy ℂ) (r : Fin n) (X : Spec F n t) (W : F → Mat n ℂ) :
    Except PyErr (Spec F n t × (F → Mat n ℂ)) := do
  let Y := separate (whitened np X) W
  let Y_scaled := mdp r Y X
  let XX_inv ← npInvB fun f => X f * (X f)ᴴ
  .ok (Y_scaled, fun f => Y_scaled f * (X f)ᴴ * XX_inv f)

/-- The end of `FastIVA.__call__`, `bss/iva.py` L1129-1136 (and of `FasterIVA.__call__`, L1333-1340). -/
noncomputable def finishFast (np : Numpy ℂ) (sr : ScaleOpt) (r : Fin n) (X : Spec F n t)
    (W : F → Mat n ℂ) : Except PyErr (Spec F n t × (F → Mat n ℂ)) := do
  let Z := whitened np X
  let W ← if sr.truthy then
      (do let p ← restoreScale sr (applyProjectionBackFast r X Z W) (applyMdpFast np r X W); .ok p.2)
    else .ok W
  .ok (separate Z W, W)

/-! ## `_reset` and repeated calls -/

/-- A Python attribute: not set, set to `None`, or set to a value. -/
inductive Attr (α : Type) where
  | absent
  | none
  | val (a : α)

/-- The spatial algorithms of `AuxIVA` and the ILRMA classes (`bss/iva.py` L39, `bss/ilrma.py` L33-45). -/
inductive Spatial where
  | IP | IP1 | IP2 | ISS | ISS1 | ISS2 | IPA
  deriving DecidableEq

/-- The algorithms for which `_reset` drops the filter: `bss/iva.py` L1696, `bss/ilrma.py` L897. -/
def Spatial.filterFree : Spatial → Bool
  | .ISS | .ISS1 | .ISS2 | .IPA => true
  | _ => false

/-- `W @ X` where `W` may be `None`: numpy rejects the operand (`ValueError`). -/
def separateOpt (X : Spec F n t) : Option (F → Mat n ℂ) → Except PyErr (Spec F n t)
  | none => .error .value
  | some W => .ok (separate X W)

/-- What a call leaves behind: the attributes `demix_filter` and `output`. -/
structure Obj (F : Type) (n t : ℕ) where
  demix : Attr (F → Mat n ℂ)
  output : Attr (Spec F n t)

/-- A new object: neither attribute exists. -/
def Obj.fresh : Obj F n t := ⟨.absent, .absent⟩

/-- `AuxIVA._reset` / `GaussILRMA._reset`: `bss/iva.py` L145-169 and L1694-1697, `bss/ilrma.py` L171-199 and
L893-898 (the NMF variables are left out). `kw` is the keyword argument `demix_filter`, if given. Yields
`(demix_filter, output)`. -/
noncomputable def reset (alg : Spatial) (X : Spec F n t) (kw : Option (F → Mat n ℂ)) (o : Obj F n t) :
    Except PyErr (Option (F → Mat n ℂ) × Spec F n t) := do
  let attr := match kw with
    | some W => Attr.val W
    | none => o.demix
  let W : Option (F → Mat n ℂ) := match attr with
    | .absent => some fun _ => 1
    | .none => none
    | .val W => some W
  let output ← separateOpt X W
  .ok (if alg.filterFree then none else W, output)

/-- `AuxIVA.__call__` (`bss/iva.py` L1657-1672) and `GaussILRMA.__call__` (`bss/ilrma.py` L840-855). The
iterations are a parameter: for algorithms with a filter `runW` maps the filter to the final filter, for
filter-free algorithms `runY` maps the separated signals to the final ones. -/
noncomputable def call (alg : Spatial) (sr : ScaleOpt) (r : Fin n)
    (runW : Spec F n t → (F → Mat n ℂ) → F → Mat n ℂ) (runY : Spec F n t → Spec F n t → Spec F n t)
    (X : Spec F n t) (kw : Option (F → Mat n ℂ)) (o : Obj F n t) : Except PyErr (Obj F n t) := do
  let (W, Y) ← reset alg X kw o
  match W with
  | some W => do
    let (Y, W) ← finish sr r X (runW X W)
    .ok ⟨.val W, .val Y⟩
  | none => do
    let Y ← finishFree sr r X (runY X Y)
    .ok ⟨.none, .val Y⟩

end Verif.Lifecycle
