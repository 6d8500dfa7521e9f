import Mathlib.Analysis.SpecialFunctions.Log.Basic
import Verif.Model.Numpy

/-! # `ssspy/special`: flooring functions, softmax, logsumexp and to_psd -/

namespace Verif.Special

open Matrix
open scoped ComplexOrder

/-- `special/flooring.py` L6-8 `identity`. -/
def identity (x : ℝ) : ℝ := x

/-- `special/flooring.py` L11-13 `max_flooring`, elementwise. -/
noncomputable def max_flooring (eps x : ℝ) : ℝ := max x eps

/-- `special/flooring.py` L16-18 `add_flooring`, elementwise. -/
def add_flooring (eps x : ℝ) : ℝ := x + eps

/-- `np.max` along a non-empty axis. -/
noncomputable def npMax {n : ℕ} (x : Fin (n + 1) → ℝ) : ℝ :=
  Finset.univ.sup' Finset.univ_nonempty x

/-- `special/softmax.py` L31-36 along one axis (length `n + 1`: numpy's `max` raises on an empty
axis). -/
noncomputable def softmax {n : ℕ} (x : Fin (n + 1) → ℝ) : Fin (n + 1) → ℝ :=
  let vmax := npMax x
  let y := fun i => x i - vmax
  let e := fun i => Real.exp (y i)
  fun i => e i / ∑ j, e j

/-- `special/logsumexp.py` L32-40 along one axis; `keepdims` only changes the shape of the result. -/
noncomputable def logsumexp {n : ℕ} (x : Fin (n + 1) → ℝ) : ℝ :=
  let vmax := npMax x
  let sum_exp := ∑ i, Real.exp (x i - vmax)
  Real.log sum_exp + vmax

variable {𝕜 : Type} [RCLike 𝕜] {n : ℕ}

/-- `special/psd.py` L49-52 and L66-69, the symmetrisation of `to_psd`. -/
noncomputable def symmetrise (X : Mat n 𝕜) : Mat n 𝕜 := (2 : 𝕜)⁻¹ • (X + Xᴴ)

/-- `special/psd.py` L49-71: the computation of `to_psd` on one matrix. `flooring_fn` acts
elementwise on the eigenvalues. -/
noncomputable def toPsdCore (np : Numpy 𝕜) (flooring_fn : ℝ → ℝ) (X : Mat n 𝕜) : Mat n 𝕜 :=
  let X := symmetrise X
  let (lamb, P) := np.eigh X
  let lamb := fun i => flooring_fn (lamb i)
  let X := P * npDiag lamb * Pᴴ
  symmetrise X

/-- `special/psd.py` L38-71 `to_psd` with its default and axis checks. `n_dims` is the number of axes
of the array the matrix is taken from. -/
noncomputable def to_psd (np : Numpy 𝕜) (n_dims : ℕ) (axis1 axis2 : ℤ) (flooring_fn : Option (ℝ → ℝ))
    (X : Mat n 𝕜) : Except PyErr (Mat n 𝕜) :=
  let flooring_fn := flooring_fn.getD identity
  let axis1 := if axis1 < 0 then n_dims + axis1 else axis1
  let axis2 := if axis2 < 0 then n_dims + axis2 else axis2
  if axis1 = n_dims - 2 ∧ axis2 = n_dims - 1 then .ok (toPsdCore np flooring_fn X)
  else .error .assertion

end Verif.Special
