import Verif.Model.Ilrma
import Verif.Model.Linalg
import Verif.Model.Special

/-!
# MNMF: `bss/mnmf.py`, classes `GaussMNMF` and `FastGaussMNMF`

`F` is the set of bins, `n` the number of sources, `m` of channels, `t` of frames, `K` of bases. `reconstruct_nmf`
(L288-297) is the code of ILRMA and is modelled by `Ilrma.recon` / `Ilrma.reconP`. The mixture is a `Spec F m t`.
`solve(A, B)` of `linalg/_solve.py` is `npSolve`. The random initial values are not modelled: theorems quantify over
the initial values.
-/

namespace Verif.Mnmf

open Matrix Spatial Scale
open Ilrma (recon reconP FilterAlg spatialFilter)

variable {F : Type} [Fintype F] {n m t K : ℕ}

/-- `to_psd(R, flooring_fn=flooring_fn)`. -/
noncomputable abbrev toPsd (np : Numpy ℂ) (floor : ℝ → ℝ) (R : Mat m ℂ) : Mat m ℂ := Special.toPsdCore np floor R

/-- The end of `separate` (`GaussMNMF` L754-761, `FastGaussMNMF` L1208-1215) at one time-frequency point: `Rn` are the
modelled covariances of the sources and `x` the observation. -/
noncomputable def wiener (np : Numpy ℂ) (floor : ℝ → ℝ) (reference_id : Fin m) (Rn : Fin n → Mat m ℂ)
    (x : Fin m → ℂ) : Except PyErr (Fin n → ℂ) := do
  let R := toPsd np floor (∑ k, Rn k)
  let W_Hermite ← onBins fun k => npSolve R (Rn k)
  .ok fun k => ∑ c, (W_Hermite k)ᴴ reference_id c * x c

/-! ## `FastGaussMNMF` -/

/-- The parameters: diagonaliser, basis, activation, spatial. -/
structure FSt (F : Type) (n m t K : ℕ) where
  Q : F → Mat m ℂ
  T : Fin n → F → Fin K → ℝ
  V : Fin n → Fin K → Fin t → ℝ
  D : F → Fin n → Fin m → ℝ

/-- `LambD`, L1252, L1345-1346, L1508, L1665. -/
def lambD (s : FSt F n m t K) (f : F) (c : Fin m) (j : Fin t) : ℝ := ∑ k, recon s.T s.V k f j * s.D f k c

/-- `R_n` of `separate`, L1201-1207. -/
noncomputable def fastRn (Q_inverse : F → Mat m ℂ) (s : FSt F n m t K) (f : F) (j : Fin t) (k : Fin n) : Mat m ℂ :=
  Matrix.of fun a b => ∑ c, ((recon s.T s.V k f j * s.D f k c : ℝ) : ℂ) * (Q_inverse f a c * (Q_inverse f)ᴴ c b)

/-- `FastGaussMNMF.separate`, L1186-1217. -/
noncomputable def fastSeparate (np : Numpy ℂ) (floor : ℝ → ℝ) (reference_id : Fin m) (X : Spec F m t)
    (s : FSt F n m t K) : Except PyErr (F → Fin t → Fin n → ℂ) := do
  let Q_inverse ← npInvB s.Q
  onBins fun f => onBins fun j => wiener np floor reference_id (fastRn Q_inverse s f j) fun c => X f c j

/-- `FastGaussMNMF.compute_loss`, L1241-1261. -/
noncomputable def fastLoss (X : Spec F m t) (s : FSt F n m t K) : ℝ :=
  ∑ f, (meanT (fun j => ∑ c, (‖separate X s.Q f c j‖ ^ 2 / lambD s f c j + Real.log (lambD s f c j)))
    - 2 * Real.log ‖(s.Q f).det‖)

/-- `T * np.sqrt(num / denom)` of `update_basis`, L1350-1357. -/
noncomputable def fastBasisRaw (X : Spec F m t) (s : FSt F n m t K) (k : Fin n) (f : F) (b : Fin K) : ℝ :=
  let num := ∑ j, s.V k b j * ∑ c, s.D f k c * (‖separate X s.Q f c j‖ / lambD s f c j) ^ 2
  let denom := ∑ j, s.V k b j * ∑ c, s.D f k c / lambD s f c j
  s.T k f b * Real.sqrt (num / denom)

noncomputable def fastUpdateBasis (floor : ℝ → ℝ) (X : Spec F m t) (s : FSt F n m t K) : FSt F n m t K :=
  ⟨s.Q, fun k f b => floor (fastBasisRaw X s k f b), s.V, s.D⟩

/-- `V * np.sqrt(num / denom)` of `update_activation`, L1407-1414. -/
noncomputable def fastActivationRaw (X : Spec F m t) (s : FSt F n m t K) (k : Fin n) (b : Fin K) (j : Fin t) : ℝ :=
  let num := ∑ f, s.T k f b * ∑ c, s.D f k c * (‖separate X s.Q f c j‖ / lambD s f c j) ^ 2
  let denom := ∑ f, s.T k f b * ∑ c, s.D f k c / lambD s f c j
  s.V k b j * Real.sqrt (num / denom)

noncomputable def fastUpdateActivation (floor : ℝ → ℝ) (X : Spec F m t) (s : FSt F n m t K) : FSt F n m t K :=
  ⟨s.Q, s.T, fun k b j => floor (fastActivationRaw X s k b j), s.D⟩

/-- `update_diagonalizer_ip1`, L1495-1514, and `update_diagonalizer_ip2`, L1612-1633. -/
noncomputable def fastUpdateDiagonalizer (np : Numpy ℂ) (alg : FilterAlg m) (floor : ℝ → ℝ) (X : Spec F m t)
    (s : FSt F n m t K) : Except PyErr (FSt F n m t K) := do
  let Q ← spatialFilter np alg floor (fun f c j => 1 / lambD s f c j) X s.Q
  .ok ⟨Q, s.T, s.V, s.D⟩

/-- `update_spatial`, L1660-1675; nothing is floored here. -/
noncomputable def fastUpdateSpatial (X : Spec F m t) (s : FSt F n m t K) : FSt F n m t K :=
  ⟨s.Q, s.T, s.V, fun f k c =>
    let num := ∑ j, recon s.T s.V k f j / lambD s f c j ^ 2 * ‖separate X s.Q f c j‖ ^ 2
    let denom := ∑ j, recon s.T s.V k f j / lambD s f c j
    Real.sqrt (num / denom) * s.D f k c⟩

/-- `psi` of `normalize_by_power`, L670-673: per channel. -/
noncomputable def fastPsi (floor : ℝ → ℝ) (X : Spec F m t) (s : FSt F n m t K) (c : Fin m) : ℝ :=
  floor (Real.sqrt ((∑ f, ∑ j, ‖separate X s.Q f c j‖ ^ 2) / (Fintype.card F * t)))

/-- `normalize_by_power`, L666-678. -/
noncomputable def fastNormalize (floor : ℝ → ℝ) (X : Spec F m t) (s : FSt F n m t K) : FSt F n m t K :=
  let psi := fastPsi floor X s
  ⟨fun f => Matrix.of fun c a => s.Q f c a / (psi c : ℂ), s.T, s.V, fun f k c => s.D f k c / psi c ^ 2⟩

/-- `FastGaussMNMF.update_once`, L1295-1303. -/
noncomputable def fastUpdateOnce (np : Numpy ℂ) (alg : FilterAlg m) (normalization : Bool) (floor : ℝ → ℝ)
    (X : Spec F m t) (s : FSt F n m t K) : Except PyErr (FSt F n m t K) := do
  let s := fastUpdateActivation floor X (fastUpdateBasis floor X s)
  let s ← fastUpdateDiagonalizer np alg floor X s
  let s := fastUpdateSpatial X s
  .ok (if normalization then fastNormalize floor X s else s)

/-! ## `GaussMNMF` -/

/-- The parameters without partitioning: basis, activation, spatial. -/
structure MSt (F : Type) (n m t K : ℕ) where
  T : Fin n → F → Fin K → ℝ
  V : Fin n → Fin K → Fin t → ℝ
  H : Fin n → F → Mat m ℂ

/-- The parameters with partitioning. -/
structure MStP (F : Type) (n m t K : ℕ) where
  Z : Fin n → Fin K → ℝ
  T : F → Fin K → ℝ
  V : Fin K → Fin t → ℝ
  H : Fin n → F → Mat m ℂ

/-- `_init_instant_covariance`, L185-188. -/
noncomputable def instantCovariance (np : Numpy ℂ) (floor : ℝ → ℝ) (X : Spec F m t) (f : F) (j : Fin t) : Mat m ℂ :=
  toPsd np floor (Matrix.of fun a b => X f a j * star (X f b j))

/-- `R_n`, L386/L753/L999, from the reconstructed source model. -/
noncomputable def fullRn (Lamb : Fin n → F → Fin t → ℝ) (H : Fin n → F → Mat m ℂ) (f : F) (j : Fin t) (k : Fin n) :
    Mat m ℂ := (Lamb k f j : ℂ) • H k f

/-- `reconstruct_mnmf`, L378-389. -/
noncomputable def fullR (Lamb : Fin n → F → Fin t → ℝ) (H : Fin n → F → Mat m ℂ) (f : F) (j : Fin t) : Mat m ℂ :=
  ∑ k, fullRn Lamb H f j k

/-- `GaussMNMF.separate`, L741-763. -/
noncomputable def fullSeparate (np : Numpy ℂ) (floor : ℝ → ℝ) (reference_id : Fin m) (X : Spec F m t)
    (Lamb : Fin n → F → Fin t → ℝ) (H : Fin n → F → Mat m ℂ) : Except PyErr (F → Fin t → Fin n → ℂ) :=
  onBins fun f => onBins fun j => wiener np floor reference_id (fullRn Lamb H f j) fun c => X f c j

/-- `GaussMNMF.compute_loss`, L771-789; `slogdet` returns the logarithm of the absolute determinant. -/
noncomputable def fullLoss (np : Numpy ℂ) (floor : ℝ → ℝ) (XX : F → Fin t → Mat m ℂ) (Lamb : Fin n → F → Fin t → ℝ)
    (H : Fin n → F → Mat m ℂ) : Except PyErr ℝ := do
  let R := fun f j => toPsd np floor (fullR Lamb H f j)
  let XXR_inv ← onBins fun f => onBins fun j => npSolve (R f j) (XX f j)
  .ok (∑ f, meanT fun j => (XXR_inv f j).trace.re + Real.log ‖(R f j).det‖)

/-- `_compute_traces`, L858-871, at all points: the pair `trace_RXXRH`, `trace_RH`. `R` is floored by the caller. -/
noncomputable def traces (R XX : F → Fin t → Mat m ℂ) (H : Fin n → F → Mat m ℂ) :
    Except PyErr ((Fin n → F → Fin t → ℝ) × (Fin n → F → Fin t → ℝ)) := do
  let RXX ← onBins fun f => onBins fun j => npSolve (R f j) (XX f j)
  let RH ← onBins fun k => onBins fun f => onBins fun j => npSolve (R f j) (H k f)
  .ok (fun k f j => (RXX f j * RH k f j).trace.re, fun k f j => (RH k f j).trace.re)

/-- `update_basis` without partitioning, L890-901. -/
noncomputable def fullUpdateBasis (np : Numpy ℂ) (floor : ℝ → ℝ) (XX : F → Fin t → Mat m ℂ) (s : MSt F n m t K) :
    Except PyErr (MSt F n m t K) := do
  let (trace_RXXRH, trace_RH) ← traces (fun f j => toPsd np floor (fullR (recon s.T s.V) s.H f j)) XX s.H
  let T := fun k f b => s.T k f b * Real.sqrt ((∑ j, s.V k b j * trace_RXXRH k f j) / ∑ j, s.V k b j * trace_RH k f j)
  .ok ⟨fun k f b => floor (T k f b), s.V, s.H⟩

/-- `update_activation` without partitioning, L957-968. -/
noncomputable def fullUpdateActivation (np : Numpy ℂ) (floor : ℝ → ℝ) (XX : F → Fin t → Mat m ℂ)
    (s : MSt F n m t K) : Except PyErr (MSt F n m t K) := do
  let (trace_RXXRH, trace_RH) ← traces (fun f j => toPsd np floor (fullR (recon s.T s.V) s.H f j)) XX s.H
  let V := fun k b j => s.V k b j * Real.sqrt ((∑ f, s.T k f b * trace_RXXRH k f j) / ∑ f, s.T k f b * trace_RH k f j)
  .ok ⟨s.T, fun k b j => floor (V k b j), s.H⟩

/-- `update_spatial`, L999-1016, from the reconstructed source model. -/
noncomputable def fullUpdateSpatial (np : Numpy ℂ) (floor : ℝ → ℝ) (XX : F → Fin t → Mat m ℂ)
    (Lamb : Fin n → F → Fin t → ℝ) (H : Fin n → F → Mat m ℂ) : Except PyErr (Fin n → F → Mat m ℂ) := do
  let R_inverse ← onBins fun f => onBins fun j => npInv (toPsd np floor (fullR Lamb H f j))
  let P := fun k f => ∑ j, (Lamb k f j : ℂ) • R_inverse f j
  let Q := fun k f => ∑ j, (Lamb k f j : ℂ) • (R_inverse f j * XX f j * R_inverse f j)
  onBins fun k => onBins fun f => do
    let H' ← Linalg.gmeanmh np (toPsd np floor (P k f)) (toPsd np floor (H k f * Q k f * H k f)) 2
    .ok (toPsd np floor H')

/-- `MNMF.normalize` without partitioning, L393-414. -/
noncomputable def fullNormalize (s : MSt F n m t K) : MSt F n m t K :=
  ⟨fun k f b => (s.H k f).trace.re * s.T k f b, s.V, fun k f => (((s.H k f).trace.re : ℂ))⁻¹ • s.H k f⟩

/-- `MNMF.normalize` with partitioning: only the spatial covariances change. -/
noncomputable def fullNormalizeP (s : MStP F n m t K) : MStP F n m t K :=
  ⟨s.Z, s.T, s.V, fun k f => (((s.H k f).trace.re : ℂ))⁻¹ • s.H k f⟩

/-- `GaussMNMF.update_once` without partitioning, L822-834. -/
noncomputable def fullUpdateOnce (np : Numpy ℂ) (normalization : Bool) (floor : ℝ → ℝ) (XX : F → Fin t → Mat m ℂ)
    (s : MSt F n m t K) : Except PyErr (MSt F n m t K) := do
  let s ← fullUpdateBasis np floor XX s
  let s ← fullUpdateActivation np floor XX s
  let H ← fullUpdateSpatial np floor XX (recon s.T s.V) s.H
  let s : MSt F n m t K := ⟨s.T, s.V, H⟩
  .ok (if normalization then fullNormalize s else s)

end Verif.Mnmf
