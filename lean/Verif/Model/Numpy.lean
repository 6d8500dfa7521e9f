import Mathlib.Analysis.Matrix.PosDef
import Mathlib.LinearAlgebra.Matrix.NonsingularInverse
import Verif.Model.PyErr

/-!
# The numpy primitives the code calls

`ssspy` delegates its factorisations to LAPACK through `numpy.linalg`.  Those routines are outside
`/repo`; the model takes them as a parameter, a value of the structure `Numpy`, that is only assumed
to meet the contract numpy documents.  Every theorem that needs one of them is stated for *every*
`Numpy` value, and `Verif.Lemmas.Numpy` shows that such a value exists, so no theorem is vacuous.

The scalar type `𝕜` is `ℝ` or `ℂ` (`RCLike`).  For `𝕜 = ℝ` the star operation is the identity, so
one definition covers both sides of every `if np.iscomplexobj(X)` branch of the code.
-/

namespace Verif

open Matrix
open scoped ComplexOrder

/-- Square matrices as in the last two axes of a numpy array. Leading (batch) axes of the arrays are
mapped over independently by every routine below, so the model drops them. -/
abbrev Mat (n : ℕ) (𝕜 : Type) := Matrix (Fin n) (Fin n) 𝕜

/-- The contract of `numpy.linalg.eigh` on a Hermitian matrix: real eigenvalues in ascending order
and a unitary matrix of eigenvectors in the columns. -/
structure EighSpec {𝕜 : Type} [RCLike 𝕜] {n : ℕ} (X : Mat n 𝕜) (lamb : Fin n → ℝ) (P : Mat n 𝕜) :
    Prop where
  unitary : Pᴴ * P = 1
  decomp : X = P * diagonal (fun i => (lamb i : 𝕜)) * Pᴴ
  sorted : Monotone lamb

/-- The contract of `numpy.linalg.svd` on a square matrix: `X = U diag(Σ) V` with `U`, `V` unitary and
non-negative descending singular values. -/
structure SvdSpec {𝕜 : Type} [RCLike 𝕜] {n : ℕ} (X : Mat n 𝕜) (U : Mat n 𝕜) (s : Fin n → ℝ)
    (V : Mat n 𝕜) : Prop where
  unitaryU : Uᴴ * U = 1
  unitaryV : V * Vᴴ = 1
  decomp : X = U * diagonal (fun i => (s i : 𝕜)) * V
  nonneg : ∀ i, 0 ≤ s i
  sorted : Antitone s

/-- The factorisations of `numpy.linalg` used by the code, with their documented contracts.
`cholesky` raises `LinAlgError` on some inputs; on positive definite inputs it succeeds. -/
structure Numpy (𝕜 : Type) [RCLike 𝕜] where
  eigh : ∀ {n : ℕ}, Mat n 𝕜 → (Fin n → ℝ) × Mat n 𝕜
  eigh_spec : ∀ {n : ℕ} (X : Mat n 𝕜), X.IsHermitian → EighSpec X (eigh X).1 (eigh X).2
  cholesky : ∀ {n : ℕ}, Mat n 𝕜 → Except PyErr (Mat n 𝕜)
  cholesky_spec : ∀ {n : ℕ} (B : Mat n 𝕜), B.PosDef → ∃ L, cholesky B = .ok L ∧ L * Lᴴ = B
  svd : ∀ {n : ℕ}, Mat n 𝕜 → Mat n 𝕜 × (Fin n → ℝ) × Mat n 𝕜
  svd_spec : ∀ {n : ℕ} (X : Mat n 𝕜), SvdSpec X (svd X).1 (svd X).2.1 (svd X).2.2

/-- `numpy.linalg.inv`: the inverse, or `LinAlgError("Singular matrix")`. -/
noncomputable def npInv {𝕜 : Type} [RCLike 𝕜] {n : ℕ} (X : Mat n 𝕜) : Except PyErr (Mat n 𝕜) :=
  open Classical in if IsUnit X.det then .ok X⁻¹ else .error .linalg

/-- `Lamb[..., np.newaxis] * np.eye(n)`, the idiom the code uses to build a diagonal matrix from a
vector (`special/psd.py` L62, `linalg/sqrtm.py` L25/L62, `linalg/mean.py` L68, `linalg/prox.py` L88). -/
def npDiag {𝕜 : Type} [RCLike 𝕜] {n : ℕ} (d : Fin n → ℝ) : Mat n 𝕜 :=
  Matrix.of fun i j => (d i : 𝕜) * (1 : Mat n 𝕜) i j

end Verif
