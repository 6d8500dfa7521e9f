import Verif.Model.Fast
import Verif.Model.FdicaCall
import Verif.Model.Grad
import Verif.Model.IlrmaCall
import Verif.Model.Lifecycle
import Verif.Model.Transform

/-!
# Calls of the gradient methods, FastICA, FastIVA and FasterIVA

`__call__` of `GradICA`, `NaturalGradICA` and `FastICA` (`bss/ica.py`), of `GradFDICA` and `NaturalGradFDICA`
(`bss/fdica.py`) and of `GradIVA`, `NaturalGradIVA`, their Gauss subclasses, `FastIVA` and `FasterIVA` (`bss/iva.py`), with
`record_loss=True` and no callbacks.
-/

namespace Verif.GradCall

open Matrix Scale Grad Lifecycle
open IlrmaCall (baseCall override)

variable {𝕜 : Type} [RCLike 𝕜] {F : Type} [Fintype F] {n t : ℕ}

/-- The attributes `demix_filter`, `output` and `loss` of a separator. -/
structure Obj (𝕜 F : Type) (n t : ℕ) where
  demix : Attr (F → Mat n 𝕜)
  output : Attr (Data 𝕜 F n t)
  loss : List ℝ

/-- A new object: no filter, no output; `self.loss = []` (`bss/base.py` L40-43). -/
def Obj.fresh : Obj 𝕜 F n t := ⟨.absent, .absent, []⟩

/-- `_reset`: `bss/ica.py` L101-127, L290-319, `bss/fdica.py` L148-171, `bss/iva.py` L145-169: the keyword argument
`demix_filter` replaces the attribute; no attribute means identity matrices; with `None` the product `W @ X` raises. -/
def reset (kw : Option (F → Mat n 𝕜)) (o : Obj 𝕜 F n t) : Except PyErr (F → Mat n 𝕜) :=
  match override kw o.demix with
  | .absent => .ok fun _ => 1
  | .none => .error .value
  | .val W => .ok W

/-- `GradICA`, `GradFDICA`, `GradIVA` on the one hand, `NaturalGradICA`, `NaturalGradFDICA`, `NaturalGradIVA` on the other. -/
inductive Kind where
  | gradient
  | natural

/-- `update_once` of the two. -/
noncomputable def descend (kind : Kind) (step_size : ℝ) (holonomic : Bool) (score : Data 𝕜 F n t → Data 𝕜 F n t)
    (X : Data 𝕜 F n t) (W : F → Mat n 𝕜) : Except PyErr (F → Mat n 𝕜) :=
  match kind with
  | .gradient => gradStep step_size holonomic score X W
  | .natural => .ok (naturalStep step_size holonomic score X W)

/-! ## ICA -/

/-- `GradICABase.__call__`, `bss/ica.py` L59-88: the attributes afterwards; the call returns `output`. -/
noncomputable def icaCall (kind : Kind) (step_size : ℝ) (holonomic : Bool)
    (contrast : Data ℝ Unit n t → Fin n → Fin t → ℝ) (score : Data ℝ Unit n t → Data ℝ Unit n t) (X : Data ℝ Unit n t)
    (n_iter : ℕ) (initial_call : Bool) (kw : Option (Unit → Mat n ℝ)) (o : Obj ℝ Unit n t) :
    Except PyErr (Obj ℝ Unit n t) := do
  let W ← reset kw o
  let (W, ls) ← baseCall (descend kind step_size holonomic score X) (fun W => .ok (Grad.loss 1 contrast X W)) initial_call
    n_iter W o.loss
  .ok ⟨.val W, .val (sep X W), ls⟩

/-- `FastICABase.separate`, `bss/ica.py` L372-379. -/
noncomputable def fastIcaSeparate (np : Numpy ℝ) (X : Matrix (Fin n) (Fin t) ℝ) (W : Mat n ℝ) (use_whitening : Bool := true) :
    Matrix (Fin n) (Fin t) ℝ :=
  let whitened_input := if use_whitening then Transform.whitenCore np X else X
  W * whitened_input

/-- `FastICABase.__call__`, `bss/ica.py` L248-279, for `FastICA`. -/
noncomputable def fastIcaCall (np : Numpy ℝ) (contrast : ℝ → ℝ) (score d_score : (Fin t → ℝ) → Fin t → ℝ)
    (X : Matrix (Fin n) (Fin t) ℝ) (n_iter : ℕ) (initial_call : Bool) (kw : Option (Mat n ℝ)) (o : Obj ℝ Unit n t) :
    Except PyErr (Obj ℝ Unit n t) := do
  let W ← reset (kw.map fun W _ => W) o
  let Z := Transform.whitenCore np X
  let (W, ls) ← baseCall (Fast.icaStep score d_score Z) (fun W => .ok (Fast.icaLoss contrast Z W)) initial_call n_iter (W ())
    o.loss
  .ok ⟨.val fun _ => W, .val fun _ => fastIcaSeparate np Z W false, ls⟩

/-! ## FDICA and IVA -/

/-- `GradFDICABase.__call__`, `bss/fdica.py` L402-437. -/
noncomputable def fdicaCall {B : ℕ} (sort : Permutation.Argsort) (kind : Kind) (opt : Fdica.PermOpt) (floor : ℝ → ℝ)
    (sr : ScaleOpt) (r : Fin n) (step_size : ℝ) (holonomic : Bool)
    (contrast : Data ℂ (Fin B) n t → Fin B × Fin n → Fin t → ℝ) (score : Data ℂ (Fin B) n t → Data ℂ (Fin B) n t)
    (X : Data ℂ (Fin B) n t) (n_iter : ℕ) (initial_call : Bool) (kw : Option (Fin B → Mat n ℂ)) (o : Obj ℂ (Fin B) n t) :
    Except PyErr (Obj ℂ (Fin B) n t) := do
  let W ← reset kw o
  let (W, ls) ← baseCall (descend kind step_size holonomic score X) (fun W => .ok (Grad.loss 2 contrast X W)) initial_call
    n_iter W o.loss
  let (Y, W) ← Fdica.finishAligned sort opt floor sr r X W
  .ok ⟨.val W, .val Y, ls⟩

/-- `GradIVABase.__call__`, `bss/iva.py` L359-393. -/
noncomputable def ivaCall (kind : Kind) (sr : ScaleOpt) (r : Fin n) (step_size : ℝ) (holonomic : Bool)
    (contrast : Data ℂ F n t → Fin n → Fin t → ℝ) (score : Data ℂ F n t → Data ℂ F n t) (X : Data ℂ F n t) (n_iter : ℕ)
    (initial_call : Bool) (kw : Option (F → Mat n ℂ)) (o : Obj ℂ F n t) : Except PyErr (Obj ℂ F n t) := do
  let W ← reset kw o
  let (W, ls) ← baseCall (descend kind step_size holonomic score X) (fun W => .ok (Grad.loss 2 contrast X W)) initial_call
    n_iter W o.loss
  let (Y, W) ← finish sr r X W
  .ok ⟨.val W, .val Y, ls⟩

/-- `update_once` of `GradGaussIVA` and `NaturalGradGaussIVA`, `bss/iva.py` L2640-2651, L2962-2973. -/
noncomputable def descendGauss (kind : Kind) (step_size : ℝ) (holonomic : Bool) (X : Data ℂ F n t)
    (s : (Fin n → Fin t → ℝ) × (F → Mat n ℂ)) : Except PyErr ((Fin n → Fin t → ℝ) × (F → Mat n ℂ)) :=
  match kind with
  | .gradient => gradGaussStep step_size holonomic X s
  | .natural => .ok (naturalGaussStep step_size holonomic X s)

/-- `GradIVABase.__call__`, `bss/iva.py` L359-393, for `GradGaussIVA` and `NaturalGradGaussIVA`, whose `_reset` sets the
variance to one at every call (L2626-2638, L2948-2960). -/
noncomputable def gaussIvaCall (kind : Kind) (sr : ScaleOpt) (r : Fin n) (step_size : ℝ) (holonomic : Bool) (X : Data ℂ F n t)
    (n_iter : ℕ) (initial_call : Bool) (kw : Option (F → Mat n ℂ)) (o : Obj ℂ F n t) : Except PyErr (Obj ℂ F n t) := do
  let W ← reset kw o
  let (s, ls) ← baseCall (descendGauss kind step_size holonomic X)
    (fun s => .ok (Grad.loss 2 (ivaGaussContrast s.1) X s.2)) initial_call n_iter (fun _ _ => 1, W) o.loss
  let (Y, W) ← finish sr r X s.2
  .ok ⟨.val W, .val Y, ls⟩

/-- `FastIVA.__call__`, `bss/iva.py` L1102-1137, with the `_reset` of L466-475. -/
noncomputable def fastIvaCall (np : Numpy ℂ) (floor G d dd : ℝ → ℝ) (sr : ScaleOpt) (r : Fin n) (X : Spec F n t) (n_iter : ℕ)
    (initial_call : Bool) (kw : Option (F → Mat n ℂ)) (o : Obj ℂ F n t) : Except PyErr (Obj ℂ F n t) := do
  let W ← reset kw o
  let Z := whitened np X
  let (W, ls) ← baseCall (fun W => .ok (Fast.fastIvaStep np floor d dd Z W)) (fun W => .ok (Fast.ivaLoss G Z W)) initial_call
    n_iter W o.loss
  let (Y, W) ← finishFast np sr r X W
  .ok ⟨.val W, .val Y, ls⟩

/-- `FasterIVA.__call__`, `bss/iva.py` L1306-1341. -/
noncomputable def fasterIvaCall (np : Numpy ℂ) (floor G d : ℝ → ℝ) (sr : ScaleOpt) (r : Fin (n + 1)) (X : Spec F (n + 1) t)
    (n_iter : ℕ) (initial_call : Bool) (kw : Option (F → Mat (n + 1) ℂ)) (o : Obj ℂ F (n + 1) t) :
    Except PyErr (Obj ℂ F (n + 1) t) := do
  let W ← reset kw o
  let Z := whitened np X
  let (W, ls) ← baseCall (fun W => .ok (Fast.fasterIvaStep np floor d Z W)) (fun W => .ok (Fast.ivaLoss G Z W)) initial_call
    n_iter W o.loss
  let (Y, W) ← finishFast np sr r X W
  .ok ⟨.val W, .val Y, ls⟩

end Verif.GradCall
