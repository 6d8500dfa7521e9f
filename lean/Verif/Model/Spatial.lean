import Mathlib.LinearAlgebra.Matrix.RowCol
import Verif.Model.Linalg

/-!
# `ssspy/bss/_update_spatial_model.py`

One frequency bin. The code processes all bins at once with batched `solve` / `eigh2` / `inv2`, each bin
independently of the others; a failure in one bin makes the whole call raise (`onBins`).
`flooring_fn` is an elementwise function, `id` for `flooring_fn=None`.
-/

namespace Verif.Spatial

open Matrix

variable {n t : ℕ}

/-- `numpy.linalg.solve(A, b)` with `b` a vector or a matrix: `LinAlgError` for a singular `A`. -/
noncomputable def npSolve {m : ℕ} (A : Mat n ℂ) (b : Matrix (Fin n) (Fin m) ℂ) :
    Except PyErr (Matrix (Fin n) (Fin m) ℂ) :=
  open Classical in if IsUnit A.det then .ok (A⁻¹ * b) else .error .linalg

/-- `ssspy.linalg._solve.solve` L9-21 for a vector right-hand side: adds and removes an axis. -/
noncomputable def solveVec (A : Mat n ℂ) (b : Fin n → ℂ) : Except PyErr (Fin n → ℂ) := do
  let x ← npSolve A (Matrix.of fun i (_ : Fin 1) => b i)
  .ok fun i => x i 0

/-- `np.real(w.conj() @ U @ w)`, then `np.maximum(…, 0)`. -/
noncomputable def hUh {k : ℕ} (U : Mat k ℂ) (w : Fin k → ℂ) : ℝ := max (star w ⬝ᵥ (U *ᵥ w)).re 0

/-- The body of the loop of `update_by_ip1`, L63-76, for `src_idx = src`. -/
noncomputable def ip1Row (floor : ℝ → ℝ) (U : Fin n → Mat n ℂ) (W : Mat n ℂ) (src : Fin n) :
    Except PyErr (Mat n ℂ) := do
  let WU := W * U src
  let w ← solveVec WU (Pi.single src 1)
  let denom := floor (Real.sqrt (hUh (U src) w))
  .ok (W.updateRow src fun j => star (w j) / (denom : ℂ))

/-- `update_by_ip1`, L48-78. (`overwrite` is modelled in `Verif.Model.Overwrite`.) -/
noncomputable def ip1 (floor : ℝ → ℝ) (U : Fin n → Mat n ℂ) (W : Mat n ℂ) : Except PyErr (Mat n ℂ) :=
  (List.finRange n).foldlM (ip1Row floor U) W

/-- `update_by_ip2_one_pair`, L347-395: the two new rows. `E_mn` holds the unit vectors `e_m`, `e_n`. -/
noncomputable def ip2OnePair (np : Numpy ℂ) (floor : ℝ → ℝ) (W Um Un : Mat n ℂ) (m k : Fin n) :
    Except PyErr (Fin 2 → Fin n → ℂ) := do
  let E_mn : Matrix (Fin n) (Fin 2) ℂ := Matrix.of fun i j => if i = ![m, k] j then 1 else 0
  let P_m ← npSolve (W * Um) E_mn
  let P_n ← npSolve (W * Un) E_mn
  let PUP_m := P_mᴴ * Um * P_m
  let PUP_n := P_nᴴ * Un * P_n
  let r ← Linalg.eigh2 np PUP_m (some PUP_n) 1
  -- `H_mn[..., ::-1]`: column 1 first
  let h_m : Fin 2 → ℂ := fun i => r.2 i 1
  let h_n : Fin 2 → ℂ := fun i => r.2 i 0
  let denom_m := floor (Real.sqrt (hUh PUP_m h_m))
  let denom_n := floor (Real.sqrt (hUh PUP_n h_n))
  let w_m := P_m *ᵥ fun i => h_m i / (denom_m : ℂ)
  let w_n := P_n *ᵥ fun i => h_n i / (denom_n : ℂ)
  .ok ![star w_m, star w_n]

/-- The body of the loop of `update_by_ip2`, L137-141. -/
noncomputable def ip2Pair (np : Numpy ℂ) (floor : ℝ → ℝ) (U : Fin n → Mat n ℂ) (W : Mat n ℂ)
    (pair : Fin n × Fin n) : Except PyErr (Mat n ℂ) := do
  let rows ← ip2OnePair np floor W (U pair.1) (U pair.2) pair.1 pair.2
  .ok ((W.updateRow pair.1 (rows 0)).updateRow pair.2 (rows 1))

/-- `update_by_ip2`, L122-143; `pairs` are the pairs yielded by `pair_selector(n_sources)`. -/
noncomputable def ip2 (np : Numpy ℂ) (floor : ℝ → ℝ) (pairs : List (Fin n × Fin n))
    (U : Fin n → Mat n ℂ) (W : Mat n ℂ) : Except PyErr (Mat n ℂ) :=
  pairs.foldlM (ip2Pair np floor U) W

/-- `np.mean(…, axis=-1)` over frames. -/
noncomputable def meanT {𝕜 : Type} [RCLike 𝕜] (x : Fin t → 𝕜) : 𝕜 := (∑ k, x k) / (t : 𝕜)

/-- The body of the loop of `update_by_iss1`, L181-192. -/
noncomputable def iss1Row (floor : ℝ → ℝ) (phi : Fin n → Fin t → ℝ) (Y : Matrix (Fin n) (Fin t) ℂ)
    (src : Fin n) : Matrix (Fin n) (Fin t) ℂ :=
  let num := fun k => meanT fun s => (phi k s : ℂ) * (Y k s * star (Y src s))
  let denom := fun k => floor (meanT fun s => phi k s * ‖Y src s‖ ^ 2)
  let v := fun k => if k = src then 1 - 1 / ((Real.sqrt (denom src) : ℝ) : ℂ) else num k / (denom k : ℂ)
  Matrix.of fun k s => Y k s - v k * Y src s

/-- `update_by_iss1`, L173-194. -/
noncomputable def iss1 (floor : ℝ → ℝ) (phi : Fin n → Fin t → ℝ) (Y : Matrix (Fin n) (Fin t) ℂ) :
    Matrix (Fin n) (Fin t) ℂ :=
  (List.finRange n).foldl (iss1Row floor phi) Y

/-- The weighted 2x2 covariance `G` of two rows, L267-278 and L287-290. -/
noncomputable def pairCov (phi : Fin t → ℝ) (Ymain : Fin 2 → Fin t → ℂ) : Mat 2 ℂ :=
  Matrix.of fun i j => meanT fun s => (phi s : ℂ) * (Ymain i s * star (Ymain j s))

/-- The body of the loop of `update_by_iss2`, L240-312, for the pair `(m, k)` of different sources. The code
splits the array at the smaller and larger index, keeps the pair in its given order in `Y_main`, and joins the
parts again at their old positions; the model addresses rows by their index instead. -/
noncomputable def iss2Pair (np : Numpy ℂ) (floor : ℝ → ℝ) (phi : Fin n → Fin t → ℝ)
    (Y : Matrix (Fin n) (Fin t) ℂ) (pair : Fin n × Fin n) : Except PyErr (Matrix (Fin n) (Fin t) ℂ) := do
  let Y_main : Fin 2 → Fin t → ℂ := ![Y pair.1, Y pair.2]
  -- Sub, L274-284
  let Q : Fin n → Fin 2 → ℂ := fun k =>
    let G_sub := pairCov (phi k) Y_main
    let F : Fin 2 → ℂ := fun i => meanT fun s => (phi k s : ℂ) * (Y_main i s * star (Y k s))
    match Linalg.inv2 G_sub with
    | .ok G_inv => -(G_inv *ᵥ F)
    | .error _ => 0                 -- not reached: the shape is (2, 2)
  -- Main, L286-303
  let G_m := pairCov (phi pair.1) Y_main
  let G_n := pairCov (phi pair.2) Y_main
  let r ← Linalg.eigh2 np G_m (some G_n) 1
  let h_m : Fin 2 → ℂ := fun i => r.2 i 0
  let h_n : Fin 2 → ℂ := fun i => r.2 i 1
  let denom_m := floor (Real.sqrt (hUh G_m h_m))
  let denom_n := floor (Real.sqrt (hUh G_n h_n))
  let p_m : Fin 2 → ℂ := fun i => star (h_m i / (denom_m : ℂ))
  let p_n : Fin 2 → ℂ := fun i => star (h_n i / (denom_n : ℂ))
  .ok (Matrix.of fun k s =>
    if k = pair.1 then ∑ i, p_m i * Y_main i s
    else if k = pair.2 then ∑ i, p_n i * Y_main i s
    else Y k s + ∑ i, star (Q k i) * Y_main i s)

/-- `update_by_iss2`, L229-314. -/
noncomputable def iss2 (np : Numpy ℂ) (floor : ℝ → ℝ) (pairs : List (Fin n × Fin n))
    (phi : Fin n → Fin t → ℝ) (Y : Matrix (Fin n) (Fin t) ℂ) : Except PyErr (Matrix (Fin n) (Fin t) ℂ) :=
  pairs.foldlM (iss2Pair np floor phi) Y

/-! ## `update_by_block_decomposition_vcd`: one block of `b` neighbouring bins -/

/-- The coefficient of L594-602. `singular` is `singular_fn` on one entry. -/
noncomputable def vcdCoeff (singular : ℂ → Prop) (xi : ℝ) (xi_hat : ℂ) : ℂ :=
  open Classical in
  if singular xi_hat then ((1 / Real.sqrt xi : ℝ) : ℂ)
  else xi_hat / ((2 * xi : ℝ) : ℂ) * ((1 - Real.sqrt (1 + 4 * xi / ‖xi_hat‖ ^ 2) : ℝ) : ℂ)

/-- The body of the two loops of `update_by_block_decomposition_vcd`, L571-606, for `neighbor_idx = i` and
`source_idx = k`. `R i j k` is `RXX[:, i, j, k]`; the filter of bin `i` is `W i`. -/
noncomputable def vcdStep {b : ℕ} (singular : ℂ → Prop) (R : Fin b → Fin b → Fin n → Mat n ℂ)
    (W : Fin b → Mat n ℂ) (ik : Fin b × Fin n) : Except PyErr (Fin b → Mat n ℂ) := do
  let U_in := R ik.1 ik.1 ik.2
  let gamma := ∑ j, (1 - if j = ik.1 then 1 else 0 : ℂ) • (R ik.1 j ik.2 *ᵥ star (W j ik.2))
  let eta ← solveVec (W ik.1 * U_in) (Pi.single ik.2 1)
  let eta_hat ← solveVec U_in gamma
  let xi := hUh U_in eta
  let xi_hat := star eta ⬝ᵥ (U_in *ᵥ eta_hat)
  let w := vcdCoeff singular xi xi_hat • eta - eta_hat
  .ok (Function.update W ik.1 ((W ik.1).updateRow ik.2 (star w)))

/-- `update_by_block_decomposition_vcd`, L542-608. -/
noncomputable def vcd {b : ℕ} (singular : ℂ → Prop) (R : Fin b → Fin b → Fin n → Mat n ℂ)
    (W : Fin b → Mat n ℂ) : Except PyErr (Fin b → Mat n ℂ) :=
  ((List.finRange b).flatMap fun i => (List.finRange n).map fun k => (i, k)).foldlM (vcdStep singular R) W

/-- A routine applied to all bins: if it raises in some bin the call raises. -/
noncomputable def onBins {F α : Type} (g : F → Except PyErr α) : Except PyErr (F → α) :=
  open Classical in
  if h : ∀ f, ∃ y, g f = .ok y then .ok fun f => (h f).choose else .error .linalg

end Verif.Spatial
