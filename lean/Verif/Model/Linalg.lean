import Mathlib.Analysis.SpecialFunctions.Pow.Real
import Mathlib.Analysis.SpecialFunctions.Complex.Arg
import Verif.Model.Numpy

/-! # `ssspy/linalg`: prox, cubic, inv, eigh, sqrtm, mean, polynomial -/

namespace Verif.Linalg

open Matrix
open scoped ComplexOrder

variable {𝕜 : Type} [RCLike 𝕜] {n : ℕ}

/-! ## `linalg/prox.py` -/

/-- `linalg/prox.py` L6-12 `l1`, elementwise. -/
noncomputable def l1 (step_size : ℝ) (x : 𝕜) : 𝕜 :=
  let norm := ‖x‖
  let norm := if norm < step_size then step_size else norm
  ((max (1 - step_size / norm) 0 : ℝ) : 𝕜) * x

/-- `np.linalg.norm(x, axis=axis2)` of one row. -/
noncomputable def rowNorm {m : ℕ} (x : Fin m → 𝕜) : ℝ := Real.sqrt (∑ j, ‖x j‖ ^ 2)

/-- `linalg/prox.py` L15-33 `l21`; rows are indexed by all axes but `axis2`, columns by `axis2`. -/
noncomputable def l21 {I : Type} {m : ℕ} (step_size : ℝ) (x : I → Fin m → 𝕜) : I → Fin m → 𝕜 :=
  fun i =>
    let norm := rowNorm (x i)
    let norm := if norm < step_size then step_size else norm
    fun j => ((max (1 - step_size / norm) 0 : ℝ) : 𝕜) * x i j

/-- `linalg/prox.py` L57, elementwise. -/
noncomputable def negLogElem (step_size x : ℝ) : ℝ := (x + Real.sqrt (x ^ 2 + 4 * step_size)) / 2

/-- `linalg/prox.py` L36-59 `neg_log` on an array. -/
noncomputable def neg_log {I : Type} (step_size : ℝ) (x : I → ℝ) : Except PyErr (I → ℝ) :=
  open Classical in
  if ∀ i, x i ≥ 0 then .ok fun i => negLogElem step_size (x i) else .error .assertion

/-- `linalg/prox.py` L62-91 `neg_logdet`. -/
noncomputable def neg_logdet (np : Numpy 𝕜) (step_size : ℝ) (X : Mat n 𝕜) :
    Except PyErr (Mat n 𝕜) := do
  let U := (np.svd X).1
  let V := (np.svd X).2.2
  let Sigma ← neg_log step_size (np.svd X).2.1
  .ok (U * npDiag Sigma * V)

/-! ## `linalg/cubic.py` and `linalg/polynomial.py` -/

/-- `linalg/cubic.py` L15-18 `cbrt` on complex numbers. -/
noncomputable def cbrt (x : ℂ) : ℂ :=
  let amplitude := ‖x‖
  let phase := Complex.arg x
  ((amplitude ^ ((1 : ℝ) / 3) : ℝ) : ℂ) * Complex.exp (Complex.I * phase / 3)

/-- `np.sqrt` on `complex128`: the principal square root. -/
noncomputable def csqrt (x : ℂ) : ℂ := x ^ ((1 : ℂ) / 2)

/-- `linalg/polynomial.py` L58-95 `_find_cubic_roots`, elementwise; `x ↦ x^3 + P x + Q`. -/
noncomputable def findCubicRoots (P Q : ℂ) : Fin 3 → ℂ :=
  open Classical in
  let omega := (-1 + Complex.I * Real.sqrt 3) / 2
  let omega_conj := (-1 - Complex.I * Real.sqrt 3) / 2
  let discriminant := (Q / 2) ^ 2 + (P / 3) ^ 3
  let U := cbrt (-Q / 2 + csqrt discriminant)
  let U := if P = 0 then 1 else U
  let V := -P / (3 * U)
  let X1 := U + V
  let X1 := if P = 0 then cbrt (-Q) else X1
  let X2 := U * omega + V * omega_conj
  let X2 := if P = 0 then X1 * omega else X2
  let X3 := U * omega_conj + V * omega
  let X3 := if P = 0 then X1 * omega_conj else X3
  ![X1, X2, X3]

/-- `linalg/polynomial.py` L43-50, the monic case of `solve_cubic` (`D is None`), elementwise. -/
noncomputable def solveMonic (A B C : ℂ) : Fin 3 → ℂ :=
  let P := -(A ^ 2) / 3 + B
  let Q := (2 * A ^ 3) / 27 - (A * B) / 3 + C
  fun i => findCubicRoots P Q i - A / 3

/-- `linalg/polynomial.py` L9-55 `solve_cubic(A, B, C, D)` with `all=True` on arrays of coefficients;
the result has the root index first. -/
noncomputable def solve_cubic {I : Type} (A B C : I → ℂ) (D : Option (I → ℂ)) :
    Except PyErr (Fin 3 → I → ℂ) :=
  open Classical in
  match D with
  | none => .ok fun k i => solveMonic (A i) (B i) (C i) k
  | some D =>
    if ∃ i, A i = 0 then .error .linalg
    else .ok fun k i => solveMonic (B i / A i) (C i / A i) (D i / A i) k

/-! ## `linalg/inv.py` -/

/-- `linalg/inv.py` L39-54 `inv2` on an array whose last two axes have sizes `r` and `c`. Division by a
zero determinant gives `inf`/`nan` in numpy without an exception; the model's value is then meaningless
and every theorem assumes a non-zero determinant. -/
noncomputable def inv2 {r c : ℕ} (X : Matrix (Fin r) (Fin c) 𝕜) : Except PyErr (Mat 2 𝕜) :=
  if h : r = 2 ∧ c = 2 then
    let e (i j : Fin 2) : 𝕜 := X (Fin.cast h.1.symm i) (Fin.cast h.2.symm j)
    let a := e 0 0
    let b := e 0 1
    let c := e 1 0
    let d := e 1 1
    let det := a * d - b * c
    .ok !![d / det, -b / det; -c / det, a / det]
  else .error .assertion

/-! ## `linalg/eigh.py` -/

/-- `linalg/eigh.py` L173-207 `_eigh`; `inv` is the inversion routine passed by the caller. -/
noncomputable def geigh (np : Numpy 𝕜) (inv : Mat n 𝕜 → Except PyErr (Mat n 𝕜)) (A B : Mat n 𝕜)
    (type : ℤ) : Except PyErr ((Fin n → ℝ) × Mat n 𝕜) := do
  let L ← np.cholesky B
  if type = 1 then
    let L_inv ← inv L
    let C := L_inv * A * L_invᴴ
    .ok ((np.eigh C).1, L_invᴴ * (np.eigh C).2)
  else if type = 2 then
    let C := Lᴴ * A * L
    let L_inv_Hermite ← inv Lᴴ
    .ok ((np.eigh C).1, L_inv_Hermite * (np.eigh C).2)
  else if type = 3 then
    let C := Lᴴ * A * L
    .ok ((np.eigh C).1, L * (np.eigh C).2)
  else .error .value

/-- `linalg/eigh.py` L76-81 `eigh`. -/
noncomputable def eigh (np : Numpy 𝕜) (A : Mat n 𝕜) (B : Option (Mat n 𝕜)) (type : ℤ) :
    Except PyErr ((Fin n → ℝ) × Mat n 𝕜) :=
  match B with
  | none => .ok (np.eigh A)
  | some B => geigh np npInv A B type

/-- `linalg/eigh.py` L154-161 `eigh2` (the shape assertion is the type of `A`). -/
noncomputable def eigh2 (np : Numpy 𝕜) (A : Mat 2 𝕜) (B : Option (Mat 2 𝕜)) (type : ℤ) :
    Except PyErr ((Fin 2 → ℝ) × Mat 2 𝕜) :=
  match B with
  | none => .ok (np.eigh A)
  | some B => geigh np inv2 A B type

/-! ## `linalg/sqrtm.py` -/

/-- `linalg/sqrtm.py` L18-27 `sqrtmh`. -/
noncomputable def sqrtmh (np : Numpy 𝕜) (X : Mat n 𝕜) : Mat n 𝕜 :=
  let P := (np.eigh X).2
  let lamb := fun i => Real.sqrt ((np.eigh X).1 i)
  P * npDiag lamb * Pᴴ

/-- `linalg/sqrtm.py` L48-64 `invsqrtmh`. -/
noncomputable def invsqrtmh (np : Numpy 𝕜) (flooring_fn : Option (ℝ → ℝ)) (X : Mat n 𝕜) : Mat n 𝕜 :=
  let flooring_fn := flooring_fn.getD id
  let P := (np.eigh X).2
  let lamb := fun i => 1 / flooring_fn (Real.sqrt ((np.eigh X).1 i))
  P * npDiag lamb * Pᴴ

/-! ## `linalg/mean.py` -/

/-- `linalg/mean.py` L66-83 `gmeanmh`. -/
noncomputable def gmeanmh (np : Numpy 𝕜) (A B : Mat n 𝕜) (type : ℤ) : Except PyErr (Mat n 𝕜) := do
  let r ← eigh np A (some B) type
  let Z := r.2
  let lamb := fun i => Real.sqrt (r.1 i)
  let Z_inv ← npInv Z
  let ZLZ := Z * npDiag lamb * Z_inv
  if type = 1 then .ok (B * ZLZ)
  else if type = 2 then do
    let A_inv ← npInv A
    .ok (A_inv * ZLZ)
  else if type = 3 then do
    let B_inv ← npInv B
    .ok (B_inv * ZLZ)
  else .error .value

/-! ## `linalg/quadratic.py` -/

/-- `linalg/quadratic.py` L17-25 `quadratic`: `xᴴ A x`. -/
noncomputable def quadratic (x : Fin n → 𝕜) (A : Mat n 𝕜) : 𝕜 := star x ᵥ* A ⬝ᵥ x

end Verif.Linalg
