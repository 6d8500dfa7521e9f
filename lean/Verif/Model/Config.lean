import Mathlib.Data.Real.Basic
import Verif.Model.Lifecycle

/-!
# Configurations: what the constructors of the separators check, and what a call does with the options

Only the control flow is modelled here: constructors, the dispatch on the names of the algorithms, the normalisation and
the scale restoration. The numerical updates are parameters (`Ops`), modelled elsewhere; they are assumed not to raise.
-/

namespace Verif.Config

open Lifecycle

/-- The separators with options given by name. -/
inductive Cls where
  | gaussILRMA | tILRMA | ggdILRMA (beta : ℝ) | auxIVA | auxFDICA | fastMNMF | gaussIPSDTA | tIPSDTA

/-- The arguments of the constructors that are checked or looked at by the control flow. `spatial` is
`spatial_algorithm` (`diagonalizer_algorithm` for `FastGaussMNMF`), `reference` tells whether `reference_id` is not
`None`, `contrast` whether `contrast_fn` is not `None`, `kwargs` lists the names of further keyword arguments.
`normalization=None` is the same as `False` for the code (only its truth value is looked at, `bss/ilrma.py` L919). -/
structure Args where
  spatial : String
  source : String := "MM"
  domain : ℝ := 2
  partitioning : Bool := false
  normalization : ScaleOpt := .bool true
  alignment : ScaleOpt := .bool true
  scale : ScaleOpt := .bool true
  reference : Bool := true
  contrast : Bool := true
  kwargs : List String := []

/-- `bss/ilrma.py` L27, `bss/iva.py` L44. -/
def spatialAlgorithms : List String := ["IP", "IP1", "IP2", "ISS", "ISS1", "ISS2", "IPA"]

/-- `bss/fdica.py` L28, `bss/mnmf.py` L17. -/
def filterAlgorithms : List String := ["IP", "IP1", "IP2"]

/-- `assert`. -/
def assert' (p : Prop) [Decidable p] : Except PyErr Unit := if p then .ok () else .error .assertion

/-- `if reference_id is None and scale_restoration: raise ValueError` (`bss/ilrma.py` L94-97, `bss/iva.py` L95-98,
`bss/fdica.py` L95-98, `bss/ipsdta.py` L86-89). -/
def checkReference (a : Args) : Except PyErr Unit := if !a.reference && a.scale.truthy then .error .value else .ok ()

/-- Keyword arguments a constructor has no parameter for. -/
def noKwargs (a : Args) : Except PyErr Unit := if a.kwargs = [] then .ok () else .error .type

/-- The keyword check of `bss/ilrma.py` L802-809 and `bss/iva.py` L1619-1626. -/
def checkKwargs (a : Args) : Except PyErr Unit :=
  let valid_keys := if a.spatial = "IPA" then ["lqpqm_normalization", "newton_iter"] else []
  assert' (∀ k ∈ a.kwargs, k ∈ valid_keys)

open Classical in
/-- The constructors: `bss/ilrma.py` L752-818 (`GaussILRMA`), L2145-2197 (`TILRMA`), L3490-3540 (`GGDILRMA`),
`bss/iva.py` L1582-1635 (`AuxIVA`), `bss/fdica.py` L946-981 with L65-98 (`AuxFDICA`), `bss/mnmf.py` L1111-1153
(`FastGaussMNMF`), `bss/ipsdta.py` L744-781 (`GaussIPSDTA`), L1276-1315 (`TIPSDTA`). -/
noncomputable def create (cls : Cls) (a : Args) : Except PyErr Unit :=
  match cls with
  | .gaussILRMA => do
    checkReference a
    assert' (a.spatial ∈ spatialAlgorithms)
    assert' (a.source ∈ ["MM", "ME"])
    assert' (0 < a.domain ∧ a.domain ≤ 2)
    if a.source = "ME" then assert' (a.domain = 2)
    checkKwargs a
  | .tILRMA => do
    noKwargs a
    checkReference a
    assert' (a.spatial ∈ spatialAlgorithms)
    assert' (a.source ∈ ["MM", "ME"])
    assert' (0 < a.domain ∧ a.domain ≤ 2)
    if a.spatial = "IPA" then .error .value
    if a.source = "ME" then assert' (a.domain = 2)
  | .ggdILRMA beta => do
    noKwargs a
    checkReference a
    assert' (0 < beta ∧ beta < 2)
    assert' (a.spatial ∈ spatialAlgorithms)
    assert' (a.source = "MM")
    assert' (0 < a.domain ∧ a.domain ≤ 2)
    if a.spatial = "IPA" then .error .value
  | .auxIVA => do
    checkReference a
    assert' (a.spatial ∈ spatialAlgorithms)
    checkKwargs a
  | .auxFDICA => do
    noKwargs a
    if !a.contrast then .error .value
    checkReference a
    assert' (a.spatial ∈ filterAlgorithms)
  | .fastMNMF => do
    noKwargs a
    assert' (a.spatial ∈ filterAlgorithms)
    assert' (a.partitioning = false)
  | .gaussIPSDTA | .tIPSDTA => do
    noKwargs a
    checkReference a
    assert' (a.source ∈ ["EM", "MM"])
    assert' (a.spatial ∈ ["FPI", "VCD"])

/-- The numerical work of one class on the attributes of an object (`σ`). `nmf` is everything `FastGaussMNMF` does
outside the diagonaliser and the normalisation. -/
structure Ops (σ : Type) where
  reset : σ → σ
  mm : σ → σ
  me : σ → σ
  nmf : σ → σ
  variance : σ → σ
  ip1 : σ → σ
  ip2 : σ → σ
  iss1 : σ → σ
  iss2 : σ → σ
  ipa : σ → σ
  vcd : σ → σ
  power : σ → σ
  projectionBackNorm : σ → σ
  trace : σ → σ
  correlation : σ → σ
  projectionBack : σ → σ
  minimalDistortion : σ → σ
  output : σ → σ

variable {σ : Type}

/-- Statements that change the attributes of an object and may raise; what was changed before stays changed. -/
abbrev Py (σ : Type) := σ → σ × Except PyErr Unit

/-- A statement that does not raise. -/
def act (f : σ → σ) : Py σ := fun s => (f s, .ok ())

/-- `raise`. -/
def raise (e : PyErr) : Py σ := fun s => (s, .error e)

/-- One statement after another. -/
def andThen (p q : Py σ) : Py σ := fun s =>
  match p s with
  | (s, .ok _) => q s
  | (s, .error e) => (s, .error e)

/-- A statement executed `k` times. -/
def times (p : Py σ) : ℕ → Py σ
  | 0 => act id
  | k + 1 => andThen p (times p k)

open Classical in
/-- `update_source_model`: `bss/ilrma.py` L944-954 with L998-999 (`GaussILRMA`), L2324-2334 (`TILRMA`), L3664-3672
(`GGDILRMA`), `bss/ipsdta.py` L860-866, L1374-1380. `TILRMA`'s domain check sits in the updates themselves (L2629). -/
noncomputable def updateSource (cls : Cls) (a : Args) (o : Ops σ) : Py σ :=
  match cls with
  | .gaussILRMA | .tILRMA =>
    if a.source = "MM" then act o.mm
    else if a.source = "ME" then if a.domain ≠ 2 then raise .value else act o.me
    else raise .value
  | .ggdILRMA _ => if a.source = "MM" then act o.mm else raise .value
  | .fastMNMF => act o.nmf
  | .auxIVA | .auxFDICA => act o.variance
  | .gaussIPSDTA | .tIPSDTA =>
    if a.source = "MM" then andThen (act o.mm) (if a.normalization.truthy then act o.trace else act id)
    else raise .notImplemented

/-- `update_spatial_model` / the dispatch of `update_once` / `update_diagonalizer`: `bss/ilrma.py` L1427-1438,
L2850-2861, L3928-3939, `bss/iva.py` L1723-1734, `bss/fdica.py` L1058-1063, `bss/mnmf.py` L1442-1447,
`bss/ipsdta.py` L1053-1056, L1652-1655. -/
def updateSpatial (cls : Cls) (a : Args) (o : Ops σ) : Py σ :=
  match cls with
  | .gaussILRMA | .auxIVA =>
    if a.spatial ∈ ["IP", "IP1"] then act o.ip1
    else if a.spatial ∈ ["IP2"] then act o.ip2
    else if a.spatial ∈ ["ISS", "ISS1"] then act o.iss1
    else if a.spatial ∈ ["ISS2"] then act o.iss2
    else if a.spatial ∈ ["IPA"] then act o.ipa
    else raise .notImplemented
  | .tILRMA | .ggdILRMA _ =>
    if a.spatial ∈ ["IP", "IP1"] then act o.ip1
    else if a.spatial ∈ ["IP2"] then act o.ip2
    else if a.spatial ∈ ["ISS", "ISS1"] then act o.iss1
    else if a.spatial ∈ ["ISS2"] then act o.iss2
    else raise .notImplemented
  | .auxFDICA | .fastMNMF =>
    if a.spatial ∈ ["IP", "IP1"] then act o.ip1
    else if a.spatial ∈ ["IP2"] then act o.ip2
    else raise .notImplemented
  | .gaussIPSDTA | .tIPSDTA => if a.spatial = "VCD" then act o.vcd else raise .notImplemented

/-- `normalize`, called when `normalization` is true: `bss/ilrma.py` L352-363 with L479-483 (the projection back variant
is not available with partitioning), `bss/mnmf.py` L621-630. The other classes do not normalise here. -/
def normalize (cls : Cls) (a : Args) (o : Ops σ) : Py σ :=
  let key := match a.normalization with
    | .bool _ => "power"
    | .str s => s
  match cls with
  | .gaussILRMA | .tILRMA | .ggdILRMA _ =>
    if !a.normalization.truthy then act id
    else if key = "power" then act o.power
    else if key = "projection_back" then
      if a.partitioning then raise .notImplemented else act o.projectionBackNorm
    else raise .notImplemented
  | .fastMNMF =>
    if !a.normalization.truthy then act id
    else if key = "power" then act o.power
    else raise .notImplemented
  | _ => act id

/-- `update_once`: `bss/ilrma.py` L912-920, L2296-2302, L3639-3645, `bss/iva.py` L1723-1734, `bss/fdica.py` L1056-1063,
`bss/mnmf.py` L1295-1303 (the order of the NMF and diagonaliser updates does not matter for the control flow),
`bss/ipsdta.py` L837-840, L1351-1354. -/
noncomputable def updateOnce (cls : Cls) (a : Args) (o : Ops σ) : Py σ :=
  andThen (updateSource cls a o) (andThen (updateSpatial cls a o) (normalize cls a o))

/-- `solve_permutation` (`bss/fdica.py` L239-256), called when `permutation_alignment` is true (L1007-1008). -/
def align (cls : Cls) (a : Args) (o : Ops σ) : Py σ :=
  match cls with
  | .auxFDICA =>
    if !a.alignment.truthy then act id
    else
      let key := match a.alignment with
        | .bool _ => "spectrogram_correlation"
        | .str s => s
      if key = "spectrogram_correlation" then act o.correlation else raise .notImplemented
  | _ => act id

/-- `restore_scale` (`bss/ilrma.py` L538-555, `bss/iva.py` L238-257, `bss/fdica.py` L283-302, `bss/ipsdta.py`
L341-358), called when `scale_restoration` is true. `FastGaussMNMF` has no such option. -/
def restore (cls : Cls) (a : Args) (o : Ops σ) : Py σ :=
  match cls with
  | .fastMNMF => act id
  | _ =>
    if !a.scale.truthy then act id
    else
      let key := match a.scale with
        | .bool _ => "projection_back"
        | .str s => s
      if key ∈ projectionBackKeywords then act o.projectionBack
      else if key ∈ mdpKeywords then act o.minimalDistortion
      else raise .value

/-- `_reset`: `GaussIPSDTA` refuses the fixed-point iteration here (`bss/ipsdta.py` L800-818). -/
def resetAll (cls : Cls) (a : Args) (o : Ops σ) : Py σ :=
  match cls with
  | .gaussIPSDTA => andThen (act o.reset) (if a.spatial = "FPI" then raise .notImplemented else act id)
  | _ => act o.reset

/-- `__call__`: `bss/ilrma.py` L820-855, L2199-2234, L3542-3577, `bss/iva.py` L1637-1672, `bss/fdica.py` L983-1022,
`bss/mnmf.py` L96-118, `bss/ipsdta.py` L96-122. Callbacks and loss recording are left out (`Model.Base`). -/
noncomputable def call (cls : Cls) (a : Args) (o : Ops σ) (n_iter : ℕ) : Py σ :=
  andThen (resetAll cls a o) (andThen (times (updateOnce cls a o) n_iter)
    (andThen (align cls a o) (andThen (restore cls a o) (act o.output))))

end Verif.Config
