import Verif.Model.Blocks
import Verif.Model.Mnmf

/-!
# Independent positive semidefinite tensor analysis: `bss/ipsdta.py`, `GaussIPSDTA` and `TIPSDTA`

The blocks of bins are indexed by `ι`, block `β` has `sz β` bins (`Blk` and `bsize` of `Verif.Model.Blocks`); the code
keeps the lower and the higher blocks in two arrays and treats them alike. Signals and filters split into blocks are
families `(β : ι) → Fin (sz β) → ...`. Only `source_algorithm="MM"` and `spatial_algorithm="VCD"` are modelled
(the others raise `NotImplementedError`).

`update_by_block_decomposition_vcd` is called with the test `|x| < flooring_fn(0)`. When the test is false and `x = 0`
(only possible with a flooring function that is not positive at 0, such as `flooring_fn=None`) numpy computes NaN; this
case is not modelled.
-/

namespace Verif.Ipsdta

open Matrix Spatial Scale

variable {ι : Type} [Fintype ι] {sz : ι → ℕ} {n t K : ℕ}

/-- A routine applied to all blocks: if it raises in some block the call raises. -/
noncomputable def onBlocks {α : ι → Type} (g : (β : ι) → Except PyErr (α β)) : Except PyErr ((β : ι) → α β) :=
  open Classical in
  if h : ∀ β, ∃ y, g β = .ok y then .ok fun β => (h β).choose else .error .linalg

/-- The default flooring of `to_psd`, `special/psd.py` L9-16. -/
noncomputable def floor0 : ℝ → ℝ := Special.max_flooring (1 / 10 ^ 10)

/-- `reconstruct_block_decomposition_psdtf`, L631-649; `to_psd` is called with its default flooring. -/
noncomputable def cov (np : Numpy ℂ) (T : Fin n → Fin K → (β : ι) → Mat (sz β) ℂ) (V : Fin n → Fin K → Fin t → ℝ)
    (k : Fin n) (j : Fin t) (β : ι) : Mat (sz β) ℂ := Mnmf.toPsd np floor0 (∑ b, (V k b j : ℂ) • T k b β)

/-- `R_inverse`, L927/L996/L1099/L1175. -/
noncomputable def covInv (np : Numpy ℂ) (T : Fin n → Fin K → (β : ι) → Mat (sz β) ℂ)
    (V : Fin n → Fin K → Fin t → ℝ) : Except PyErr (Fin n → Fin t → (β : ι) → Mat (sz β) ℂ) :=
  onBins fun k => onBins fun j => onBlocks fun β => npInv (cov np T V k j β)

/-- `YY_Hermite`, L928-929. -/
noncomputable def yy (Y : (β : ι) → Fin (sz β) → Matrix (Fin n) (Fin t) ℂ) (k : Fin n) (j : Fin t) (β : ι) :
    Mat (sz β) ℂ := Matrix.of fun a b => Y β a k j * star (Y β b k j)

/-- `P`, L932-935. -/
noncomputable def matP (Rinv : Fin n → Fin t → (β : ι) → Mat (sz β) ℂ) (V : Fin n → Fin K → Fin t → ℝ) (k : Fin n)
    (b : Fin K) (β : ι) : Mat (sz β) ℂ := (t : ℂ)⁻¹ • ∑ j, (V k b j : ℂ) • Rinv k j β

/-- `Q`, L936-939 and L1474-1483; `GaussIPSDTA` has no weights, that is `pi = 1`. -/
noncomputable def matQ (Rinv : Fin n → Fin t → (β : ι) → Mat (sz β) ℂ) (pi : Fin n → Fin t → ℝ)
    (Y : (β : ι) → Fin (sz β) → Matrix (Fin n) (Fin t) ℂ) (V : Fin n → Fin K → Fin t → ℝ) (k : Fin n) (b : Fin K)
    (β : ι) : Mat (sz β) ℂ :=
  (t : ℂ)⁻¹ • ∑ j, (V k b j : ℂ) • ((pi k j : ℂ) • (Rinv k j β * yy Y k j β * Rinv k j β))

/-- `_update_basis_mm` of `GaussIPSDTA`, L922-949. -/
noncomputable def basisGauss (np : Numpy ℂ) (floor : ℝ → ℝ) (Y : (β : ι) → Fin (sz β) → Matrix (Fin n) (Fin t) ℂ)
    (T : Fin n → Fin K → (β : ι) → Mat (sz β) ℂ) (V : Fin n → Fin K → Fin t → ℝ) :
    Except PyErr (Fin n → Fin K → (β : ι) → Mat (sz β) ℂ) := do
  let Rinv ← covInv np T V
  onBins fun k => onBins fun b => onBlocks fun β => do
    let P := matP Rinv V k b β
    let TQT := T k b β * matQ Rinv (fun _ _ => 1) Y V k b β * T k b β
    let G ← Linalg.gmeanmh np (Mnmf.toPsd np floor P) (Mnmf.toPsd np floor TQT) 2
    .ok (Mnmf.toPsd np floor G)

/-- `_update_basis_mm` of `TIPSDTA`, L1464-1492. -/
noncomputable def basisT (np : Numpy ℂ) (floor : ℝ → ℝ) (pi : Fin n → Fin t → ℝ)
    (Y : (β : ι) → Fin (sz β) → Matrix (Fin n) (Fin t) ℂ)
    (T : Fin n → Fin K → (β : ι) → Mat (sz β) ℂ) (V : Fin n → Fin K → Fin t → ℝ) :
    Except PyErr (Fin n → Fin K → (β : ι) → Mat (sz β) ℂ) := do
  let Rinv ← covInv np T V
  .ok fun k b β =>
    let P := matP Rinv V k b β
    let Q := Mnmf.toPsd np floor (matQ Rinv pi Y V k b β)
    let Q_sqrt := Linalg.sqrtmh np Q
    let QTPTQ := Mnmf.toPsd np floor (Q_sqrt * T k b β * P * T k b β * Q_sqrt)
    Mnmf.toPsd np floor (T k b β * Q_sqrt * Linalg.invsqrtmh np (some floor) QTPTQ * Q_sqrt * T k b β)

/-- `update_activation_mm`, L991-1006 with L1024-1033 and L1574-1591 with L1620-1632; the traces are summed over the
lower and the higher blocks. -/
noncomputable def activationMM (np : Numpy ℂ) (pi : Fin n → Fin t → ℝ)
    (Y : (β : ι) → Fin (sz β) → Matrix (Fin n) (Fin t) ℂ)
    (T : Fin n → Fin K → (β : ι) → Mat (sz β) ℂ) (V : Fin n → Fin K → Fin t → ℝ) :
    Except PyErr (Fin n → Fin K → Fin t → ℝ) := do
  let Rinv ← covInv np T V
  let num := fun k b j => ∑ β, (((pi k j : ℂ) • (Rinv k j β * yy Y k j β * Rinv k j β)) * T k b β).trace.re
  let denom := fun k b j => ∑ β, (Rinv k j β * T k b β).trace.re
  .ok fun k b j => V k b j * Real.sqrt (num k b j / denom k b j)

/-- `trace` of `normalize_block_decomposition_psdtf`, L682-692. -/
noncomputable def basisTrace (T : Fin n → Fin K → (β : ι) → Mat (sz β) ℂ) (k : Fin n) (b : Fin K) : ℝ :=
  ∑ β, (T k b β).trace.re

/-- `normalize_block_decomposition_psdtf`, L682-697. -/
noncomputable def normalize (T : Fin n → Fin K → (β : ι) → Mat (sz β) ℂ) (V : Fin n → Fin K → Fin t → ℝ) :
    (Fin n → Fin K → (β : ι) → Mat (sz β) ℂ) × (Fin n → Fin K → Fin t → ℝ) :=
  (fun k b β => ((basisTrace T k b : ℂ))⁻¹ • T k b β, fun k b j => V k b j * basisTrace T k b)

/-- `YRY` of `TIPSDTA`, `_quadratic` L1438-1446 summed over all blocks. -/
noncomputable def yry (Y : (β : ι) → Fin (sz β) → Matrix (Fin n) (Fin t) ℂ)
    (Rinv : Fin n → Fin t → (β : ι) → Mat (sz β) ℂ) (k : Fin n) (j : Fin t) : ℝ :=
  ∑ β, max (Linalg.quadratic (fun i => Y β i k j) (Rinv k j β)).re 0

/-- `pi`, L1518/L1526. -/
noncomputable def tWeight (nu : ℝ) (n_bins : ℕ) (q : ℝ) : ℝ := (nu + 2 * n_bins) / (nu + 2 * q)

/-- `RXX`, L1096-1102 and L1711-1718, for neighbours `i`, `i'` and source `k` of one block: `R_inverse` is transposed
to `(n_blocks, n_neighbors, n_neighbors, n_sources, n_frames)` with its two neighbour axes exchanged. -/
noncomputable def rxx (pi : Fin n → Fin t → ℝ) (Rinv : Fin n → Fin t → (β : ι) → Mat (sz β) ℂ)
    (X : (β : ι) → Fin (sz β) → Matrix (Fin n) (Fin t) ℂ) (β : ι) (i i' : Fin (sz β)) (k : Fin n) : Mat n ℂ :=
  Matrix.of fun c c' => meanT fun j => ((pi k j : ℂ) * Rinv k j β i' i) * (X β i c j * star (X β i' c' j))

/-- `_update`, L1093-1108 and L1705-1724. -/
noncomputable def spatialVcd (floor : ℝ → ℝ) (pi : Fin n → Fin t → ℝ)
    (Rinv : Fin n → Fin t → (β : ι) → Mat (sz β) ℂ) (X : (β : ι) → Fin (sz β) → Matrix (Fin n) (Fin t) ℂ)
    (W : (β : ι) → Fin (sz β) → Mat n ℂ) : Except PyErr ((β : ι) → Fin (sz β) → Mat n ℂ) :=
  onBlocks fun β => vcd (fun x => ‖x‖ < floor 0) (rxx pi Rinv X β) (W β)

/-- `_compute_block_decomposition_loss`, L1169-1187. -/
noncomputable def gaussGroupLoss (Y : (β : ι) → Fin (sz β) → Matrix (Fin n) (Fin t) ℂ)
    (W : (β : ι) → Fin (sz β) → Mat n ℂ) (R Rinv : Fin n → Fin t → (β : ι) → Mat (sz β) ℂ) : ℝ :=
  (meanT fun j => max (∑ k, ∑ β, Linalg.quadratic (fun i => Y β i k j) (Rinv k j β)).re 0
    + ∑ k, ∑ β, Real.log ‖(R k j β).det‖) - 2 * ∑ β, ∑ i, Real.log ‖(W β i).det‖

/-! ## The two classes -/

variable {n_bins n_blocks : ℕ}

/-- Basis, activation and demixing filters. -/
structure St (n_bins n_blocks n t K : ℕ) where
  T : Fin n → Fin K → (β : Blk n_bins n_blocks) → Mat (bsize n_bins n_blocks β) ℂ
  V : Fin n → Fin K → Fin t → ℝ
  W : Fin n_bins → Mat n ℂ

/-- `GaussIPSDTA.compute_loss`, L1189-1227. -/
noncomputable def gaussLoss (np : Numpy ℂ) (X : Spec (Fin n_bins) n t) (s : St n_bins n_blocks n t K) :
    Except PyErr ℝ := do
  let Y ← splitBlocks n_blocks (separate X s.W)
  let W ← splitBlocks n_blocks s.W
  let R := cov np s.T s.V
  let Rinv ← covInv np s.T s.V
  let low := gaussGroupLoss (fun β => Y (.inl β)) (fun β => W (.inl β)) (fun k j β => R k j (.inl β))
    fun k j β => Rinv k j (.inl β)
  let high := gaussGroupLoss (fun β => Y (.inr β)) (fun β => W (.inr β)) (fun k j β => R k j (.inr β))
    fun k j β => Rinv k j (.inr β)
  .ok (if n_bins % n_blocks > 0 then low + high else low)

/-- `GaussIPSDTA.update_once`, L837-840, L860-866, L886-887. -/
noncomputable def gaussUpdate (np : Numpy ℂ) (normalization : Bool) (floor : ℝ → ℝ) (X : Spec (Fin n_bins) n t)
    (s : St n_bins n_blocks n t K) : Except PyErr (St n_bins n_blocks n t K) := do
  let Y ← splitBlocks n_blocks (separate X s.W)
  let T ← basisGauss np floor Y s.T s.V
  let V ← activationMM np (fun _ _ => 1) Y T s.V
  let (T, V) := if normalization then normalize T V else (T, V)
  let Xb ← splitBlocks n_blocks X
  let Wb ← splitBlocks n_blocks s.W
  let Rinv ← covInv np T V
  let W ← spatialVcd floor (fun _ _ => 1) Rinv Xb Wb
  .ok ⟨T, V, joinBlocks W⟩

/-- `TIPSDTA.compute_loss`, L1809-1869; the groups of blocks are only summed. -/
noncomputable def tLoss (np : Numpy ℂ) (nu : ℝ) (X : Spec (Fin n_bins) n t) (s : St n_bins n_blocks n t K) :
    Except PyErr ℝ := do
  let Y ← splitBlocks n_blocks (separate X s.W)
  let W ← splitBlocks n_blocks s.W
  let Rinv ← covInv np s.T s.V
  .ok ((meanT fun j => (∑ k, (nu + 2 * n_bins) / 2 * Real.log (1 + 2 / nu * yry Y Rinv k j))
    + ∑ k, ∑ β, Real.log ‖(cov np s.T s.V k j β).det‖) - 2 * ∑ β, ∑ i, Real.log ‖(W β i).det‖)

/-- `TIPSDTA.update_once`, L1351-1354, L1374-1380, L1401-1402: the weights are computed anew in every part. -/
noncomputable def tUpdate (np : Numpy ℂ) (normalization : Bool) (floor : ℝ → ℝ) (nu : ℝ) (X : Spec (Fin n_bins) n t)
    (s : St n_bins n_blocks n t K) : Except PyErr (St n_bins n_blocks n t K) := do
  let Y ← splitBlocks n_blocks (separate X s.W)
  let Rinv ← covInv np s.T s.V
  let T ← basisT np floor (fun k j => tWeight nu n_bins (yry Y Rinv k j)) Y s.T s.V
  let Rinv ← covInv np T s.V
  let V ← activationMM np (fun k j => tWeight nu n_bins (yry Y Rinv k j)) Y T s.V
  let (T, V) := if normalization then normalize T V else (T, V)
  let Xb ← splitBlocks n_blocks X
  let Wb ← splitBlocks n_blocks s.W
  let Rinv ← covInv np T V
  let Yb := fun β i => Wb β i * Xb β i
  let W ← spatialVcd floor (fun k j => tWeight nu n_bins (yry Yb Rinv k j)) Rinv Xb Wb
  .ok ⟨T, V, joinBlocks W⟩

end Verif.Ipsdta
