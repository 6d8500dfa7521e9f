import Verif.Model.RecordLoss

/-!
# Constructors with function arguments: `bss/ica.py`, `bss/fdica.py`, `bss/iva.py`

What the constructors of the gradient, fast and auxiliary-function methods do with `contrast_fn`, `score_fn`, `d_score_fn`,
`d_contrast_fn` and `dd_contrast_fn` (each may be `None`), with `flooring_fn`, `reference_id` and `record_loss`, and what the
first call of the new object does. Left out: `callbacks`, and the checks of `spatial_algorithm` and its keyword arguments
(`Verif.Model.Config`); `pair_selector` is given by the list of pairs.
-/

namespace Verif.FnConfig

open Scale Lifecycle Grad

/-- `if fn is None: raise ValueError`. -/
def need {α : Type} : Option α → Except PyErr α
  | none => .error .value
  | some f => .ok f

/-- `if reference_id is None and scale_restoration: raise ValueError`, `bss/iva.py` L95-98, `bss/fdica.py` L95-98. -/
def checkRef {n : ℕ} (scale : ScaleOpt) (reference : Option (Fin n)) : Except PyErr Unit :=
  if reference.isNone && scale.truthy then .error .value else .ok ()

/-- `if flooring_fn is None: self.flooring_fn = identity`, `bss/iva.py` L87-90, `bss/fdica.py` L86-89. -/
def floorOf : Option (ℝ → ℝ) → ℝ → ℝ
  | none => id
  | some f => f

/-- What a user sees after a call: the attributes `demix_filter`, `output` and `loss`. -/
structure Seen (𝕜 F : Type) (n t : ℕ) where
  demix : Attr (F → Mat n 𝕜)
  output : Attr (Data 𝕜 F n t)
  loss : Option (List ℝ)

/-- The attribute `loss` of a new object, `bss/base.py` L38-43. -/
def emptyLoss (record_loss : Bool) : Option (List ℝ) := if record_loss then some [] else none

/-- `self.contrast_fn(Y)` when the attribute may be `None`: `TypeError`. -/
def calling {α β : Type} (f : Option α) (g : α → Except PyErr β) : Except PyErr β :=
  match f with
  | none => .error .type
  | some f => g f

section ica

variable {n t : ℕ}

/-- The arguments of `GradICA` and `NaturalGradICA`, with their defaults: `bss/ica.py` L476-486, L631-641. -/
structure IcaArgs (n t : ℕ) where
  step_size : ℝ := 1 / 10
  contrast : Option (Data ℝ Unit n t → Fin n → Fin t → ℝ) := none
  score : Option (Data ℝ Unit n t → Data ℝ Unit n t) := none
  holonomic : Bool := false
  record_loss : Bool := true

/-- `method = GradICA(...)` or `NaturalGradICA(...)`, L43-57, and `method(input, n_iter, initial_call)`. -/
noncomputable def icaUse (kind : GradCall.Kind) (a : IcaArgs n t) (X : Data ℝ Unit n t) (n_iter : ℕ) (initial_call : Bool) :
    Except PyErr (Seen ℝ Unit n t) := do
  let contrast ← need a.contrast
  let score ← need a.score
  let (o, ls) ← (RecordLoss.gradIca kind a.step_size a.holonomic contrast score X none GradCall.Obj.fresh).call a.record_loss
    initial_call n_iter (emptyLoss a.record_loss)
  .ok ⟨(o []).demix, (o []).output, ls⟩

/-- `method = GradLaplaceICA(...)` or `NaturalGradLaplaceICA(...)`, L892-914, L1018-1043, and the first call. -/
noncomputable def laplaceIcaUse (kind : GradCall.Kind) (step_size : ℝ) (holonomic record_loss : Bool) (X : Data ℝ Unit n t)
    (n_iter : ℕ) (initial_call : Bool) : Except PyErr (Seen ℝ Unit n t) :=
  icaUse kind { step_size, contrast := some icaLaplaceContrast, score := some icaLaplaceScore, holonomic, record_loss } X n_iter
    initial_call

/-- The arguments of `FastICA`, L783-792. -/
structure FastIcaArgs (t : ℕ) where
  contrast : Option (ℝ → ℝ) := none
  score : Option ((Fin t → ℝ) → Fin t → ℝ) := none
  d_score : Option ((Fin t → ℝ) → Fin t → ℝ) := none
  record_loss : Bool := true

/-- `method = FastICA(...)`, L219-246, and the first call. -/
noncomputable def fastIcaUse (np : Numpy ℝ) (a : FastIcaArgs t) (X : Matrix (Fin n) (Fin t) ℝ) (n_iter : ℕ)
    (initial_call : Bool) : Except PyErr (Seen ℝ Unit n t) := do
  let contrast ← need a.contrast
  let score ← need a.score
  let d_score ← need a.d_score
  let (o, ls) ← (RecordLoss.fastIca np contrast score d_score X none GradCall.Obj.fresh).call a.record_loss initial_call n_iter
    (emptyLoss a.record_loss)
  .ok ⟨(o []).demix, (o []).output, ls⟩

end ica

/-- The arguments common to the FDICA and IVA classes; only the FDICA classes have `alignment`. If `reference_id` is `None` and
the constructor accepts it, it is never looked at, and the model passes channel 0. -/
structure Common (n : ℕ) where
  floor : Option (ℝ → ℝ)
  alignment : Fdica.PermOpt
  scale : ScaleOpt
  record_loss : Bool
  reference : Option (Fin n)

section fdica

variable {B n t : ℕ} [NeZero n]

/-- The arguments of `GradFDICA` and `NaturalGradFDICA`, `bss/fdica.py` L552-568, L747-763. -/
structure FdicaArgs (B n t : ℕ) extends Common n where
  step_size : ℝ := 1 / 10
  contrast : Option (Data ℂ (Fin B) n t → Fin B × Fin n → Fin t → ℝ) := none
  score : Option (Data ℂ (Fin B) n t → Data ℂ (Fin B) n t) := none
  holonomic : Bool := false

/-- `method = GradFDICA(...)` or `NaturalGradFDICA(...)`, L79-98 and L385-400, and the first call. -/
noncomputable def fdicaUse (sort : Permutation.Argsort) (kind : GradCall.Kind) (a : FdicaArgs B n t) (X : Data ℂ (Fin B) n t)
    (n_iter : ℕ) (initial_call : Bool) : Except PyErr (Seen ℂ (Fin B) n t) := do
  let contrast ← need a.contrast
  checkRef a.scale a.reference
  let score ← need a.score
  let (o, ls) ← (RecordLoss.gradFdica sort a.alignment (floorOf a.floor) a.scale (a.reference.getD 0) X kind a.step_size
    a.holonomic contrast score none GradCall.Obj.fresh).call a.record_loss initial_call n_iter (emptyLoss a.record_loss)
  .ok ⟨(o []).demix, (o []).output, ls⟩

/-- `method = GradLaplaceFDICA(...)` or `NaturalGradLaplaceFDICA(...)`, L1317-1368, L1455-1509, and the first call. -/
noncomputable def laplaceFdicaUse (sort : Permutation.Argsort) (kind : GradCall.Kind) (step_size : ℝ) (holonomic : Bool)
    (c : Common n) (X : Data ℂ (Fin B) n t) (n_iter : ℕ) (initial_call : Bool) : Except PyErr (Seen ℂ (Fin B) n t) :=
  fdicaUse sort kind
    { toCommon := c, step_size, contrast := some fdicaLaplaceContrast, score := some (fdicaLaplaceScore (floorOf c.floor)),
      holonomic } X n_iter initial_call

/-- The arguments of `AuxFDICA`, L946-962. -/
structure AuxFdicaArgs (n : ℕ) extends Common n where
  contrast : Option (ℝ → ℝ) := none
  d_contrast : Option (ℝ → ℝ) := none

/-- An iteration of `AuxFDICA` with `d_contrast_fn` as it was given, L1105-1116, L1227-1243: `None(...)` is a `TypeError`. -/
noncomputable def auxFdicaStep (np : Numpy ℂ) (alg : Ilrma.FilterAlg n) (floor : ℝ → ℝ) (X : Spec (Fin B) n t)
    (d : Option (ℝ → ℝ)) (W : Fin B → Mat n ℂ) : Except PyErr (Fin B → Mat n ℂ) :=
  match alg with
  | .ip2 [] => .ok W
  | alg => calling d fun d => Fdica.auxUpdate np alg floor d X W

/-- `method = AuxFDICA(...)`, L79-98 and L963-981, and the first call. -/
noncomputable def auxFdicaUse (sort : Permutation.Argsort) (np : Numpy ℂ) (alg : Ilrma.FilterAlg n) (a : AuxFdicaArgs n)
    (X : Spec (Fin B) n t) (n_iter : ℕ) (initial_call : Bool) : Except PyErr (Seen ℂ (Fin B) n t) := do
  let contrast ← need a.contrast
  checkRef a.scale a.reference
  let m := { RecordLoss.auxFdica sort a.alignment (floorOf a.floor) a.scale (a.reference.getD 0) X np alg contrast
    (fun _ => 0) none IvaCall.Obj.fresh with step := auxFdicaStep np alg (floorOf a.floor) X a.d_contrast }
  let (o, ls) ← m.call a.record_loss initial_call n_iter (emptyLoss a.record_loss)
  .ok ⟨(o []).demix, (o []).output, ls⟩

/-- `method = AuxLaplaceFDICA(...)`, L1603-1653, and the first call. -/
noncomputable def auxLaplaceFdicaUse (sort : Permutation.Argsort) (np : Numpy ℂ) (alg : Ilrma.FilterAlg n) (c : Common n)
    (X : Spec (Fin B) n t) (n_iter : ℕ) (initial_call : Bool) : Except PyErr (Seen ℂ (Fin B) n t) :=
  auxFdicaUse sort np alg { toCommon := c, contrast := some Fdica.laplaceG, d_contrast := some Fdica.laplaceD } X n_iter
    initial_call

end fdica

section iva

variable {F : Type} [Fintype F] {n t : ℕ} [NeZero n]

/-- The arguments of `GradIVA` and `NaturalGradIVA`, `bss/iva.py` L736-751, L908-923. -/
structure IvaArgs (F : Type) (n t : ℕ) extends Common n where
  step_size : ℝ := 1 / 10
  contrast : Option (Data ℂ F n t → Fin n → Fin t → ℝ) := none
  score : Option (Data ℂ F n t → Data ℂ F n t) := none
  holonomic : Bool := true

/-- `method = GradIVA(...)` or `NaturalGradIVA(...)`, L85-98 and L338-357, and the first call. -/
noncomputable def ivaUse (kind : GradCall.Kind) (a : IvaArgs F n t) (X : Data ℂ F n t) (n_iter : ℕ) (initial_call : Bool) :
    Except PyErr (Seen ℂ F n t) := do
  checkRef a.scale a.reference
  let contrast ← need a.contrast
  let score ← need a.score
  let (o, ls) ← (RecordLoss.gradIva kind a.scale (a.reference.getD 0) a.step_size a.holonomic X contrast score none
    GradCall.Obj.fresh).call a.record_loss initial_call n_iter (emptyLoss a.record_loss)
  .ok ⟨(o []).demix, (o []).output, ls⟩

/-- `method = GradLaplaceIVA(...)` or `NaturalGradLaplaceIVA(...)`, L2403-2453, L2719-2772, and the first call. -/
noncomputable def laplaceIvaUse (kind : GradCall.Kind) (step_size : ℝ) (holonomic : Bool) (c : Common n) (X : Data ℂ F n t)
    (n_iter : ℕ) (initial_call : Bool) : Except PyErr (Seen ℂ F n t) :=
  ivaUse kind
    { toCommon := c, step_size, contrast := some ivaLaplaceContrast, score := some (ivaLaplaceScore (floorOf c.floor)),
      holonomic } X n_iter initial_call

/-- `method = GradGaussIVA(...)` or `NaturalGradGaussIVA(...)`, L2569-2638, L2888-2960, and the first call. The two functions
read the attribute `variance`. -/
noncomputable def gaussIvaUse (kind : GradCall.Kind) (step_size : ℝ) (holonomic : Bool) (c : Common n) (X : Data ℂ F n t)
    (n_iter : ℕ) (initial_call : Bool) : Except PyErr (Seen ℂ F n t) := do
  checkRef c.scale c.reference
  let (o, ls) ← (RecordLoss.gradGaussIva kind c.scale (c.reference.getD 0) step_size holonomic X none
    GradCall.Obj.fresh).call c.record_loss initial_call n_iter (emptyLoss c.record_loss)
  .ok ⟨(o []).demix, (o []).output, ls⟩

/-- The arguments of `FastIVA`, L1064-1078. -/
structure FastIvaArgs (n : ℕ) extends Common n where
  contrast : Option (ℝ → ℝ) := none
  d_contrast : Option (ℝ → ℝ) := none
  dd_contrast : Option (ℝ → ℝ) := none

/-- `method = FastIVA(...)`, L85-98 and L1079-1100, and the first call. -/
noncomputable def fastIvaUse (np : Numpy ℂ) (a : FastIvaArgs n) (X : Spec F n t) (n_iter : ℕ) (initial_call : Bool) :
    Except PyErr (Seen ℂ F n t) := do
  checkRef a.scale a.reference
  let contrast ← need a.contrast
  let d_contrast ← need a.d_contrast
  let dd_contrast ← need a.dd_contrast
  let (o, ls) ← (RecordLoss.fastIva np (floorOf a.floor) a.scale (a.reference.getD 0) X contrast d_contrast dd_contrast none
    GradCall.Obj.fresh).call a.record_loss initial_call n_iter (emptyLoss a.record_loss)
  .ok ⟨(o []).demix, (o []).output, ls⟩

omit [NeZero n] in
/-- `method = FasterIVA(...)`, L1275-1304, and the first call. It has no `dd_contrast_fn`. -/
noncomputable def fasterIvaUse (np : Numpy ℂ) (a : FastIvaArgs (n + 1)) (X : Spec F (n + 1) t) (n_iter : ℕ)
    (initial_call : Bool) : Except PyErr (Seen ℂ F (n + 1) t) := do
  checkRef a.scale a.reference
  let contrast ← need a.contrast
  let d_contrast ← need a.d_contrast
  let (o, ls) ← (RecordLoss.fasterIva np (floorOf a.floor) a.scale (a.reference.getD 0) X contrast d_contrast none
    GradCall.Obj.fresh).call a.record_loss initial_call n_iter (emptyLoss a.record_loss)
  .ok ⟨(o []).demix, (o []).output, ls⟩

/-- The arguments of `AuxIVA`, L1582-1598. -/
structure AuxIvaArgs (n t : ℕ) extends Common n where
  contrast : Option (Fin n → Fin t → ℝ → ℝ) := none
  d_contrast : Option (Fin n → Fin t → ℝ → ℝ) := none

/-- An iteration with `d_contrast_fn` as it was given, L1782-1793, L1899-1915. -/
noncomputable def auxIvaStep (np : Numpy ℂ) (alg : Ilrma.FilterAlg n) (floor : ℝ → ℝ) (X : Spec F n t)
    (d : Option (Fin n → Fin t → ℝ → ℝ)) (W : F → Mat n ℂ) : Except PyErr (F → Mat n ℂ) :=
  match alg with
  | .ip2 [] => .ok W
  | alg => calling d fun d => IvaCall.update np alg floor d X W

/-- An iteration of ISS1 or ISS2 with `d_contrast_fn` as it was given, L1961-1966, L2055-2066: it is called before the loop over
the pairs. -/
noncomputable def auxIvaStepY (np : Numpy ℂ) (alg : Ilrma.SignalAlg n) (floor : ℝ → ℝ) (d : Option (Fin n → Fin t → ℝ → ℝ))
    (Y : Spec F n t) : Except PyErr (Spec F n t) := calling d fun d => IvaCall.updateY np alg floor d Y

/-- `method = AuxIVA(...)`, L85-98, L599-607 and L1599-1617, and the first call, with IP1 or IP2. The constructor does not look
at `contrast_fn` and `d_contrast_fn`. -/
noncomputable def auxIvaUse (np : Numpy ℂ) (alg : Ilrma.FilterAlg n) (a : AuxIvaArgs n t) (X : Spec F n t) (n_iter : ℕ)
    (initial_call : Bool) : Except PyErr (Seen ℂ F n t) := do
  checkRef a.scale a.reference
  let m := { RecordLoss.iva np (floorOf a.floor) (fun _ _ _ => 0) (fun _ _ _ => 0) a.scale (a.reference.getD 0) X alg none
    IvaCall.Obj.fresh with
    step := auxIvaStep np alg (floorOf a.floor) X a.d_contrast
    loss := fun W => calling a.contrast fun G => .ok (Iva.lossIp G X W) }
  let (o, ls) ← m.call a.record_loss initial_call n_iter (emptyLoss a.record_loss)
  .ok ⟨(o []).demix, (o []).output, ls⟩

/-- The same with ISS1 or ISS2. -/
noncomputable def auxIvaSignalUse (np : Numpy ℂ) (alg : Ilrma.SignalAlg n) (a : AuxIvaArgs n t) (X : Spec F n t) (n_iter : ℕ)
    (initial_call : Bool) : Except PyErr (Seen ℂ F n t) := do
  checkRef a.scale a.reference
  let m := { RecordLoss.ivaSignal np (floorOf a.floor) (fun _ _ _ => 0) (fun _ _ _ => 0) a.scale (a.reference.getD 0) X alg none
    IvaCall.Obj.fresh with
    step := auxIvaStepY np alg (floorOf a.floor) a.d_contrast
    loss := fun Y => calling a.contrast fun G => Iva.lossFree G X Y }
  let (o, ls) ← m.call a.record_loss initial_call n_iter (emptyLoss a.record_loss)
  .ok ⟨(o []).demix, (o []).output, ls⟩

/-- `method = AuxLaplaceIVA(...)`, L3078-3128, and the first call, with IP1 or IP2. -/
noncomputable def auxLaplaceIvaUse (np : Numpy ℂ) (alg : Ilrma.FilterAlg n) (c : Common n) (X : Spec F n t) (n_iter : ℕ)
    (initial_call : Bool) : Except PyErr (Seen ℂ F n t) :=
  auxIvaUse np alg { toCommon := c, contrast := some Iva.laplaceG, d_contrast := some Iva.laplaceD } X n_iter initial_call

end iva

end Verif.FnConfig
