import Mathlib.Data.Matrix.Basic
import Verif.Model.Numpy

/-!
# `ssspy/transform`: whitening and PCA

A data matrix has one row per channel and one column per sample/frame; the bin and batch axes of the
arrays are mapped over independently, which the model expresses by working on one matrix.
-/

namespace Verif.Transform

open Matrix
open scoped ComplexOrder

variable {𝕜 : Type} [RCLike 𝕜] {n t : ℕ}

/-- A data matrix, channels by frames. -/
abbrev Data (n t : ℕ) (𝕜 : Type) := Matrix (Fin n) (Fin t) 𝕜

/-- Which (`ndim`, `iscomplexobj`) combinations `whiten` accepts: the dispatch of
`transform/whiten.py` L39-92 and, with identical branches, `transform/pca.py` L42-94. -/
def dispatch (ndim : ℕ) (isComplex : Bool) : Except PyErr Unit :=
  if ndim = 2 then
    if isComplex then .error .value else .ok ()
  else if ndim = 3 then .ok ()
  else if ndim = 4 then
    if isComplex then .ok () else .error .value
  else .error .value

/-- `np.mean(X[:, :, np.newaxis] * X[:, np.newaxis, :].conj(), axis=0)`:
`transform/whiten.py` L45/L55/L66/L77, `transform/pca.py` L47/L58/L68/L79. -/
noncomputable def covariance (X : Data n t 𝕜) : Mat n 𝕜 :=
  Matrix.of fun i j => (∑ k, X i k * star (X j k)) / (t : 𝕜)

/-- `transform/whiten.py` L45-50 (real), L55-62 (complex) and the batched copies L66-72, L77-86. -/
noncomputable def whitenCore (np : Numpy 𝕜) (X : Data n t 𝕜) : Data n t 𝕜 :=
  let W := (np.eigh (covariance X)).1
  let V := (np.eigh (covariance X)).2
  let D_diag : Mat n 𝕜 := npDiag fun i => 1 / Real.sqrt (W i)
  D_diag * Vᴴ * X

/-- `transform/whiten.py` L4-94 `whiten` on a stack of data matrices (`B` is the batch/bin index). -/
noncomputable def whiten {B : Type} (np : Numpy 𝕜) (ndim : ℕ) (isComplex : Bool)
    (X : B → Data n t 𝕜) : Except PyErr (B → Data n t 𝕜) := do
  dispatch ndim isComplex
  .ok fun b => whitenCore np (X b)

/-- `V[..., ::-1]`. -/
def revCols (V : Mat n 𝕜) : Mat n 𝕜 := Matrix.of fun i j => V i (Fin.rev j)

/-- `transform/pca.py` L46-54 (real), L57-65 (complex): `Y = X.T @ V.conj()`, transposed back. -/
noncomputable def pcaCore (np : Numpy 𝕜) (ascend : Bool) (X : Data n t 𝕜) : Data n t 𝕜 :=
  let V := (np.eigh (covariance X)).2
  let V := if ascend then revCols V else V
  (Xᵀ * V.map star)ᵀ

/-- `transform/pca.py` L4-96 `pca` on a stack of data matrices. -/
noncomputable def pca {B : Type} (np : Numpy 𝕜) (ascend : Bool) (ndim : ℕ) (isComplex : Bool)
    (X : B → Data n t 𝕜) : Except PyErr (B → Data n t 𝕜) := do
  dispatch ndim isComplex
  .ok fun b => pcaCore np ascend (X b)

end Verif.Transform
