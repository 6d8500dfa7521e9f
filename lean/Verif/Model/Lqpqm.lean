import Mathlib.Data.List.MinMax
import Verif.Model.Linalg

/-!
# `ssspy/linalg/lqpqm.py`

The number of bins is arbitrary (`F`), the matrices have size `n + 1`: `np.argmax` raises for empty arrays. `warnings.warn`
is recorded as a Boolean next to the result.
-/

namespace Verif.Lqpqm

open Matrix Verif.Linalg

/-- `np.cbrt` of a real number. -/
noncomputable def rcbrt (x : ℝ) : ℝ := if 0 ≤ x then x ^ ((1 : ℝ) / 3) else -(-x) ^ ((1 : ℝ) / 3)

/-- `_find_largest_root`, L259-292, for one cubic `x³ + A x² + B x + C` with real coefficients. Roots masked with `-inf`
are left out of the maximum; `X1` is never masked. -/
noncomputable def findLargestRoot (A B C : ℝ) : ℝ :=
  open Classical in
  let P : ℝ := -A ^ 2 / 3 + B
  let Q : ℝ := 2 * A ^ 3 / 27 - A * B / 3 + C
  let omega : ℂ := (-1 + Complex.I * Real.sqrt 3) / 2
  let omega_conj : ℂ := (-1 - Complex.I * Real.sqrt 3) / 2
  let discriminant : ℝ := (Q / 2) ^ 2 + (P / 3) ^ 3
  let U := cbrt (((-Q / 2 : ℝ) : ℂ) + csqrt (discriminant : ℂ))
  let is_singular := U = 0
  let U := if is_singular then 1 else U
  let V := -(P : ℂ) / (3 * U)
  let X1 := U + V
  let X1 := if is_singular then ((rcbrt (-Q) : ℝ) : ℂ) else X1
  let X2 := (U * omega + V * omega_conj).re
  let X3 := (U * omega_conj + V * omega).re
  let root := if 0 ≤ P then X1.re else if 0 < discriminant then X1.re else max X1.re (max X2 X3)
  root - A / 3

/-- `_fn`, L315-319, for one bin. -/
noncomputable def fn {n : ℕ} (lamb : ℝ) (phi : Fin n → ℝ) (v : Fin n → ℂ) (z : ℝ) : ℝ :=
  lamb ^ 2 * ∑ i, phi i * ‖v i‖ ^ 2 / (lamb - phi i) ^ 2 - lamb + z

/-- `_d_fn`, L348-352, for one bin. -/
noncomputable def dFn {n : ℕ} (lamb : ℝ) (phi : Fin n → ℝ) (v : Fin n → ℂ) : ℝ :=
  -2 * lamb * ∑ i, (phi i * ‖v i‖) ^ 2 / (lamb - phi i) ^ 3 - 1

/-- `np.argmax`: the first index of the maximum. -/
noncomputable def npArgmax {n : ℕ} (x : Fin (n + 1) → ℝ) : Fin (n + 1) := ((List.finRange (n + 1)).argmax x).getD 0

/-- The coefficients after L165-184: masked, and divided by the floored maximum if `normalization`. -/
structure Coef (n : ℕ) where
  phi : Fin (n + 1) → ℝ
  v : Fin (n + 1) → ℂ
  z : ℝ
  phi_max : ℝ
  v_max : ℂ
  /-- `phi_max_original`, or 1 without normalisation. -/
  scale : ℝ

/-- L165-184 for one bin. -/
noncomputable def coef {n : ℕ} (floor : ℝ → ℝ) (normalization : Bool) (phi : Fin (n + 1) → ℝ) (v : Fin (n + 1) → ℂ)
    (z : ℝ) : Coef n :=
  open Classical in
  let non_zero_mask i := floor 0 ≤ phi i * ‖v i‖ ^ 2
  let phi i := if non_zero_mask i then phi i else 0
  let v i := if non_zero_mask i then v i else 0
  let max_index := npArgmax phi
  let phi_max := floor (phi max_index)
  let v_max := v max_index
  if normalization then
    ⟨fun i => phi i / phi_max, fun i => v i / phi_max, z / phi_max, phi_max / phi_max, v_max / phi_max, phi_max⟩
  else ⟨phi, v, z, phi_max, v_max, 1⟩

/-- The initial value L187-194 for one bin. -/
noncomputable def start {n : ℕ} (floor : ℝ → ℝ) (k : Coef n) : ℝ :=
  open Classical in
  let A := -(k.phi_max * ‖k.v_max‖ ^ 2 + 2 * k.phi_max + k.z)
  let B := (k.phi_max + 2 * k.z) * k.phi_max
  let C := -k.phi_max ^ 2 * k.z
  let lamb := findLargestRoot A B C
  let is_valid := k.phi_max < lamb
  let lamb := if is_valid then lamb else k.phi_max + floor 0
  max lamb k.z

/-- The guarded Newton step L203-205 for one bin. -/
noncomputable def newton {n : ℕ} (k : Coef n) (lamb : ℝ) : ℝ :=
  open Classical in
  let mu := lamb - fn lamb k.phi k.v k.z / dFn lamb k.phi k.v
  if k.phi_max < mu then mu else (k.phi_max + lamb) / 2

variable {F : Type}

/-- `np.all(np.abs(f) <= flooring_fn(0))`, L197-200 and L208-211. -/
def converged {n : ℕ} (floor : ℝ → ℝ) (k : F → Coef n) (lamb : F → ℝ) : Prop :=
  ∀ f, |fn (lamb f) (k f).phi (k f).v (k f).z| ≤ floor 0

/-- The loop L196-205 with `fuel` iterations left: the last value of `iter_idx`, if any, and `lamb`. -/
noncomputable def loop {n : ℕ} (floor : ℝ → ℝ) (k : F → Coef n) (max_iter : ℕ) :
    ℕ → Option ℕ → (F → ℝ) → Option ℕ × (F → ℝ)
  | 0, iter_idx, lamb => (iter_idx, lamb)
  | fuel + 1, _, lamb =>
    open Classical in
    let iter_idx := max_iter - (fuel + 1)
    if converged floor k lamb then (some iter_idx, lamb)
    else loop floor k max_iter fuel (some iter_idx) fun f => newton (k f) (lamb f)

/-- `solve_equation`, L160-219. Without an iteration `iter_idx` is unbound at L207. The Boolean says whether the warning of
L212 is issued. -/
noncomputable def solveEquation {n : ℕ} (floor : ℝ → ℝ) (max_iter : ℕ) (normalization : Bool)
    (phi : F → Fin (n + 1) → ℝ) (v : F → Fin (n + 1) → ℂ) (z : F → ℝ) : Except PyErr ((F → ℝ) × Bool) :=
  open Classical in
  let k f := coef floor normalization (phi f) (v f) (z f)
  match loop floor k max_iter max_iter none fun f => start floor (k f) with
  | (none, _) => .error .name
  | (some iter_idx, lamb) =>
    let warned := decide (iter_idx = max_iter - 1 ∧ ¬ converged floor k lamb)
    .ok (fun f => lamb f * (k f).scale, warned)

/-- The solution L85-91 of a bin with `v = 0`. `sigma[:, -1]` (L86) is the last row. -/
noncomputable def ySingular {n : ℕ} (phi : Fin (n + 1) → ℝ) (sigma : Mat (n + 1) ℂ) (z : ℝ) : Fin (n + 1) → ℂ :=
  let phi_max := phi (Fin.last n)
  let sigma_max := sigma (Fin.last n)
  let lamb := max z phi_max
  let scale := Real.sqrt (max ((lamb - z) / phi_max) 0)
  fun i => scale * sigma_max i

/-- `v_tilde`, L99-101. -/
noncomputable def vTilde {n : ℕ} (sigma : Mat (n + 1) ℂ) (v : Fin (n + 1) → ℂ) : Fin (n + 1) → ℂ := fun i =>
  ∑ j, star (sigma j i) * v j

/-- The solution L111-114 of a bin with `v ≠ 0`. -/
noncomputable def yRegular {n : ℕ} (phi : Fin (n + 1) → ℝ) (sigma : Mat (n + 1) ℂ) (v_tilde : Fin (n + 1) → ℂ)
    (lamb : ℝ) : Fin (n + 1) → ℂ := fun i =>
  ∑ j, sigma i j * (phi j * v_tilde j / (lamb - phi j))

/-- `lqpqm2`, L76-120. `singular` is the condition `singular_fn`, for the default `x < flooring_fn(0)`. -/
noncomputable def lqpqm2 {n : ℕ} (np : Numpy ℂ) (floor : ℝ → ℝ) (singular : ℝ → Prop) (max_iter : ℕ)
    (H : F → Mat (n + 1) ℂ) (v : F → Fin (n + 1) → ℂ) (z : F → ℝ) :
    Except PyErr ((F → Fin (n + 1) → ℂ) × Bool) := open Classical in do
  let phi f := (np.eigh (H f)).1
  let sigma f := (np.eigh (H f)).2
  let is_singular f := singular (Real.sqrt (∑ i, ‖v f i‖ ^ 2))
  let r ← solveEquation (F := {f // ¬ is_singular f}) floor max_iter true (fun f => phi f)
    (fun f => vTilde (sigma f) (v f)) fun f => z f
  .ok (fun f => if hf : is_singular f then ySingular (phi f) (sigma f) (z f)
    else yRegular (phi f) (sigma f) (vTilde (sigma f) (v f)) (r.1 ⟨f, hf⟩), r.2)

end Verif.Lqpqm
