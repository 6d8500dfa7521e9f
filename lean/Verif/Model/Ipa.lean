import Verif.Model.Ilrma
import Verif.Model.Lqpqm
import Verif.Model.Special

/-!
# `update_by_ipa`, `bss/_update_spatial_model.py` L398-513, and its callers

The number of sources is `n + 2`: `lqpqm2` works on arrays of size `n_sources - 1` and needs at least one entry. The
matrix `E_n` (the identity without column `source_idx`) selects the other sources; the model addresses them by
`idx.succAbove`. All bins are updated together because the stopping rule of `lqpqm2` looks at all of them.
-/

namespace Verif.Spatial

open Matrix Scale Verif.Linalg Verif.Lqpqm

variable {F : Type} {n t : ℕ}

/-- `_psd_inv`, L611-645. -/
noncomputable def psdInv (np : Numpy ℂ) (floor : ℝ → ℝ) (X : Mat n ℂ) : Mat n ℂ :=
  let P := (np.eigh X).2
  let Lamb_inv := fun i => 1 / floor ((np.eigh X).1 i)
  P * npDiag Lamb_inv * Pᴴ

/-- `U_tilde`, L443-446, for one bin. -/
noncomputable def ipaCov (np : Numpy ℂ) (floor : ℝ → ℝ) (phi : Fin n → Fin t → ℝ) (Y : Matrix (Fin n) (Fin t) ℂ)
    (k : Fin n) : Mat n ℂ :=
  Special.toPsdCore np floor (Matrix.of fun i j => meanT fun s => (phi k s : ℂ) * (Y i s * star (Y j s)))

/-- `a_n`, L453-455. -/
noncomputable def ipaA (U : Fin (n + 2) → Mat (n + 2) ℂ) (idx : Fin (n + 2)) (j : Fin (n + 1)) : ℝ :=
  (U (idx.succAbove j) idx idx).re

/-- `b_n`, L456-457. -/
def ipaB (U : Fin (n + 2) → Mat (n + 2) ℂ) (idx : Fin (n + 2)) (j : Fin (n + 1)) : ℂ :=
  U (idx.succAbove j) idx (idx.succAbove j)

/-- `C_n`, L458-459. -/
def ipaC (Uinv : Mat (n + 2) ℂ) (idx : Fin (n + 2)) : Mat (n + 1) ℂ :=
  Matrix.of fun i j => star (Uinv (idx.succAbove i) (idx.succAbove j))

/-- `d_n`, L458 and L460. -/
def ipaD (Uinv : Mat (n + 2) ℂ) (idx : Fin (n + 2)) (i : Fin (n + 1)) : ℂ := star (Uinv (idx.succAbove i) idx)

/-- The arguments of `lqpqm2`. -/
structure IpaProblem (n : ℕ) where
  H : Mat (n + 1) ℂ
  v : Fin (n + 1) → ℂ
  z : ℝ

/-- L448-479 for one bin. -/
noncomputable def ipaProblem (np : Numpy ℂ) (floor : ℝ → ℝ) (normalization : Bool) (U : Fin (n + 2) → Mat (n + 2) ℂ)
    (idx : Fin (n + 2)) : Except PyErr (IpaProblem n) := do
  let U_inverse := psdInv np floor (U idx)
  let a := ipaA U idx
  let b := ipaB U idx
  let C := ipaC U_inverse idx
  let d := ipaD U_inverse idx
  let Cd ← solveVec C d
  let dCd := (∑ i, star (d i) * Cd i).re
  let z := (U_inverse idx idx).re - dCd
  let a_sqrt := fun i => Real.sqrt (a i)
  let H : Mat (n + 1) ℂ := Matrix.of fun i j => C i j / ((a_sqrt i * a_sqrt j : ℝ) : ℂ)
  let v := fun i => -b i / (a_sqrt i : ℂ) - a_sqrt i * Cd i
  if normalization then
    let trace := (∑ i, H i i).re
    .ok ⟨Matrix.of fun i j => H i j / (trace : ℂ), v, z / trace⟩
  else .ok ⟨H, v, z⟩

/-- `q_tilde_n`, L492-493: one at `source_idx`, minus the conjugate of `q_n` elsewhere. -/
def ipaTilde (idx : Fin (n + 2)) (q : Fin (n + 1) → ℂ) : Fin (n + 2) → ℂ := idx.insertNth 1 fun j => -star (q j)

/-- L490-511 for one bin: the new signals. -/
noncomputable def ipaApply (floor : ℝ → ℝ) (U : Fin (n + 2) → Mat (n + 2) ℂ) (idx : Fin (n + 2))
    (q_check : Fin (n + 1) → ℂ) (Y : Matrix (Fin (n + 2)) (Fin t) ℂ) :
    Except PyErr (Matrix (Fin (n + 2)) (Fin t) ℂ) := do
  let a := ipaA U idx
  let b := ipaB U idx
  let q := fun j => q_check j / ((Real.sqrt (a j) : ℝ) : ℂ) - b j / (a j : ℂ)
  let q_tilde := ipaTilde idx q
  let Uq ← solveVec (U idx) q_tilde
  let qUq := max (∑ c, star (q_tilde c) * Uq c).re 0
  let denom := floor (Real.sqrt qUq)
  let p := fun c => Uq c / (denom : ℂ)
  let PY := fun s => ∑ c, star (p c) * Y c s - Y idx s
  .ok (Matrix.of fun k s => Y k s + (if k = idx then PY s else 0)
    + (idx.insertNth 0 (fun j => star (q j)) : Fin (n + 2) → ℂ) k * Y idx s)

/-- The body of the loop of `update_by_ipa`, L443-511, for `source_idx = idx`. -/
noncomputable def ipaStep (np : Numpy ℂ) (floor : ℝ → ℝ) (normalization : Bool) (max_iter : ℕ)
    (phi : F → Fin (n + 2) → Fin t → ℝ) (Y : Spec F (n + 2) t) (idx : Fin (n + 2)) :
    Except PyErr (Spec F (n + 2) t) := do
  let U := fun f => ipaCov np floor (phi f) (Y f)
  let p ← onBins fun f => ipaProblem np floor normalization (U f) idx
  let q ← lqpqm2 np floor (fun x => x < floor 0) max_iter (fun f => (p f).H) (fun f => (p f).v) fun f => (p f).z
  onBins fun f => ipaApply floor (U f) idx (q.1 f) (Y f)

/-- `update_by_ipa`, L398-513. -/
noncomputable def ipa (np : Numpy ℂ) (floor : ℝ → ℝ) (normalization : Bool) (max_iter : ℕ)
    (phi : F → Fin (n + 2) → Fin t → ℝ) (Y : Spec F (n + 2) t) : Except PyErr (Spec F (n + 2) t) :=
  (List.finRange (n + 2)).foldlM (ipaStep np floor normalization max_iter phi) Y

end Verif.Spatial

namespace Verif.Iva

open Spatial Scale

/-- `AuxIVA.update_once_ipa`, `bss/iva.py` L2157-2175. -/
noncomputable def auxIpa {F : Type} [Fintype F] {n t : ℕ} (np : Numpy ℂ) (floor : ℝ → ℝ) (normalization : Bool)
    (newton_iter : ℕ) (d : Fin (n + 2) → Fin t → ℝ → ℝ) (Y : Spec F (n + 2) t) : Except PyErr (Spec F (n + 2) t) :=
  let varphi := weight floor d Y
  ipa np floor normalization newton_iter (fun _ => varphi) Y

/-- `AuxGaussIVA.update_once` with IPA, L3335-3337: the variance first, then the inherited `update_once_ipa`. -/
noncomputable def gaussIpa {F : Type} [Fintype F] {n t : ℕ} (np : Numpy ℂ) (floor : ℝ → ℝ) (normalization : Bool)
    (newton_iter : ℕ) (s : GaussSignal F (n + 2) t) : Except PyErr (GaussSignal F (n + 2) t) := do
  let variance := gaussVariance s.Y
  let Y ← auxIpa np floor normalization newton_iter (gaussD variance) s.Y
  .ok ⟨Y, variance⟩

end Verif.Iva

namespace Verif.Ilrma

open Spatial Scale

variable {F : Type} [Fintype F] {n t K : ℕ}

/-- `GaussILRMA.update_spatial_model_ipa` without partitioning, `bss/ilrma.py` L1874-1908. Only `GaussILRMA` accepts IPA:
`TILRMA` (L2181) and `GGDILRMA` (L3527) raise `ValueError`, so `src` stands for `gauss p` or `gaussME`. -/
noncomputable def updateSpatialIpa (np : Numpy ℂ) (src : Source) (normalization : Bool) (newton_iter : ℕ)
    (floor : ℝ → ℝ) (s : StY F (n + 2) t K) : Except PyErr (StY F (n + 2) t K) := do
  let Y ← ipa np floor normalization newton_iter (varphi src floor s.Y (recon s.T s.V)) s.Y
  .ok ⟨Y, s.T, s.V⟩

/-- `GaussILRMA.update_spatial_model_ipa` with partitioning, L1886-1890. -/
noncomputable def updateSpatialIpaP (np : Numpy ℂ) (src : Source) (normalization : Bool) (newton_iter : ℕ)
    (floor : ℝ → ℝ) (s : StYP F (n + 2) t K) : Except PyErr (StYP F (n + 2) t K) := do
  let Y ← ipa np floor normalization newton_iter (varphi src floor s.Y (reconP s.Z s.T s.V)) s.Y
  .ok ⟨Y, s.Z, s.T, s.V⟩

/-- `update_once`, L916-922, with `spatial_algorithm="IPA"`. -/
noncomputable def updateOnceIpa (np : Numpy ℂ) (src : Source) (p : ℝ) (normalization : Bool) (newton_iter : ℕ)
    (norm : Norm (n + 2)) (floor : ℝ → ℝ) (X : Spec F (n + 2) t) (s : StY F (n + 2) t K) :
    Except PyErr (StY F (n + 2) t K) := do
  let s ← updateSpatialIpa np src normalization newton_iter floor (updateSourceY src floor s)
  normalizeY p floor X norm s

noncomputable def updateOnceIpaP (np : Numpy ℂ) (src : Source) (p : ℝ) (normalization : Bool) (newton_iter : ℕ)
    (norm : Norm (n + 2)) (floor : ℝ → ℝ) (s : StYP F (n + 2) t K) : Except PyErr (StYP F (n + 2) t K) := do
  let s ← updateSpatialIpaP np src normalization newton_iter floor (updateSourceYP src floor s)
  normalizeYP p floor norm s

end Verif.Ilrma
