import Verif.Model.Numpy

/-!
# `ssspy/algorithm/projection_back.py` and `minimal_distortion_principle.py`

Arrays with a frequency axis are modelled as functions of the bin; the transposes of the code that only
move this axis are dropped. `reference_id` ranges over the valid channel indices or `None`.
-/

namespace Verif.Scale

open Matrix

variable {n t : ℕ} {F : Type}

/-- `numpy.linalg.inv` on a stack of matrices: one singular matrix makes the whole call raise. -/
noncomputable def npInvB (X : F → Mat n ℂ) : Except PyErr (F → Mat n ℂ) :=
  open Classical in if ∀ f, IsUnit (X f).det then .ok fun f => (X f)⁻¹ else .error .linalg

/-- A stack of data matrices: bins, sources or channels, frames. -/
abbrev Spec (F : Type) (n t : ℕ) := F → Matrix (Fin n) (Fin t) ℂ

/-- `algorithm/projection_back.py` L88-99 with an integer `reference_id`: filters. -/
noncomputable def projectionBackFilter (reference_id : Fin n) (W : F → Mat n ℂ) :
    Except PyErr (F → Mat n ℂ) := do
  let scale ← npInvB W
  .ok fun f => Matrix.of fun i j => W f i j * scale f reference_id i

/-- `algorithm/projection_back.py` L88-99 with `reference_id=None`: one scaled filter per channel. -/
noncomputable def projectionBackFilterAll (W : F → Mat n ℂ) :
    Except PyErr (Fin n → F → Mat n ℂ) := do
  let scale ← npInvB W
  .ok fun c f => Matrix.of fun i j => W f i j * scale f c i

/-- `algorithm/projection_back.py` L101-110: the scale matrix computed from data. -/
noncomputable def projectionBackScale {F : Type} (Y X : Spec F n t) : Except PyErr (F → Mat n ℂ) := do
  let YY_inv ← npInvB fun f => Y f * (Y f)ᴴ
  .ok fun f => X f * (Y f)ᴴ * YY_inv f

/-- `algorithm/projection_back.py` L101-121 with an integer `reference_id`: spectrograms. -/
noncomputable def projectionBackData (reference_id : Fin n) (Y X : Spec F n t) :
    Except PyErr (Spec F n t) := do
  let scale ← projectionBackScale Y X
  .ok fun f => Matrix.of fun i k => Y f i k * scale f reference_id i

/-- `algorithm/projection_back.py` L101-121 with `reference_id=None`. -/
noncomputable def projectionBackDataAll (Y X : Spec F n t) :
    Except PyErr (Fin n → Spec F n t) := do
  let scale ← projectionBackScale Y X
  .ok fun c f => Matrix.of fun i k => Y f i k * scale f c i

/-- `algorithm/minimal_distortion_principle.py` L31-43 with an integer `reference_id`. A silent separated
signal makes numpy divide by zero (nan); theorems assume non-zero energy. -/
noncomputable def mdp (reference_id : Fin n) (Y X : Spec F n t) : Spec F n t :=
  fun f => Matrix.of fun i k =>
    let num := ∑ k, Y f i k * star (X f reference_id k)
    let denom : ℝ := ∑ k, ‖Y f i k‖ ^ 2
    let Z := num / (denom : ℂ)
    star Z * Y f i k

/-- `algorithm/minimal_distortion_principle.py` L31-43 with `reference_id=None`. -/
noncomputable def mdpAll (Y X : Spec F n t) : Fin n → Spec F n t :=
  fun c f => Matrix.of fun i k =>
    let num := ∑ k, Y f i k * star (X f c k)
    let denom : ℝ := ∑ k, ‖Y f i k‖ ^ 2
    let Z := num / (denom : ℂ)
    star Z * Y f i k

/-- `FDICABase.separate`, `IVABase.separate`, `ILRMABase.separate` (`bss/fdica.py` L193-197,
`bss/iva.py` L190-194, `bss/ilrma.py` L291-295): `W @ X` per bin. -/
def separate (X : Spec F n t) (W : F → Mat n ℂ) : Spec F n t := fun f => W f * X f

end Verif.Scale
