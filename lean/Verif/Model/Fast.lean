import Verif.Model.Iva
import Verif.Model.Linalg

/-!
# FastICA, FastIVA and FasterIVA

The updates work on the whitened mixture `Z` (`Verif.Model.Transform`, `Verif.Model.Lifecycle`).
-/

namespace Verif.Fast

open Matrix Spatial Scale

variable {n t : ℕ}

/-- `y_n = w_n @ Z`. -/
def project (Z : Matrix (Fin n) (Fin t) ℝ) (w : Fin n → ℝ) : Fin t → ℝ := fun s => ∑ c, w c * Z c s

/-- `w_n = Gw_n - Gz`, `bss/ica.py` L825-829. -/
noncomputable def icaDirection (score d_score : (Fin t → ℝ) → Fin t → ℝ) (Z : Matrix (Fin n) (Fin t) ℝ)
    (w : Fin n → ℝ) : Fin n → ℝ :=
  let y := project Z w
  fun c => meanT (d_score y) * w c - meanT fun s => score y s * Z c s

/-- `scale = np.sum(W_n * w_n, axis=-1); w_n = w_n - np.sum(scale * W_n, axis=0)` with `W_n = W[:src_idx]`,
`bss/ica.py` L831-834; for `src_idx = 0` nothing is subtracted. -/
def deflate (W : Mat n ℝ) (src : Fin n) (w : Fin n → ℝ) : Fin n → ℝ :=
  fun c => w c - ∑ k ∈ Finset.univ.filter (· < src), (∑ b, W k b * w b) * W k c

/-- `np.linalg.norm(w_n)`. -/
noncomputable def norm2 (w : Fin n → ℝ) : ℝ := Real.sqrt (∑ c, w c ^ 2)

/-- The body of the loop of `FastICA.update_once`, `bss/ica.py` L823-837. numpy would go on with `nan` after a
division by a zero norm; the model raises `ZeroDivisionError` there, and theorems are about updates that do not. -/
noncomputable def icaRow (score d_score : (Fin t → ℝ) → Fin t → ℝ) (Z : Matrix (Fin n) (Fin t) ℝ)
    (W : Mat n ℝ) (src : Fin n) : Except PyErr (Mat n ℝ) :=
  let w := deflate W src (icaDirection score d_score Z (W src))
  open Classical in
  if norm2 w = 0 then .error .zeroDivision
  else .ok (W.updateRow src fun c => w c / norm2 w)

/-- `FastICA.update_once`, `bss/ica.py` L821-842. -/
noncomputable def icaStep (score d_score : (Fin t → ℝ) → Fin t → ℝ) (Z : Matrix (Fin n) (Fin t) ℝ) (W : Mat n ℝ) :
    Except PyErr (Mat n ℝ) :=
  (List.finRange n).foldlM (icaRow score d_score Z) W

/-- `FastICABase.compute_loss`, `bss/ica.py` L383-403, for an elementwise `contrast_fn`. -/
noncomputable def icaLoss (contrast : ℝ → ℝ) (Z : Matrix (Fin n) (Fin t) ℝ) (W : Mat n ℝ) : ℝ :=
  ∑ k, meanT fun s => contrast (project Z (W k) s)

/-- `u, _, v_Hermite = np.linalg.svd(W); W = u @ v_Hermite`: `bss/iva.py` L1204-1205, L1397-1398. -/
noncomputable def polar (np : Numpy ℂ) (W : Mat n ℂ) : Mat n ℂ := (np.svd W).1 * (np.svd W).2.2

variable {F : Type} [Fintype F]

/-- `FastIVABase.compute_loss`, `bss/iva.py` L525-548, for a `contrast_fn` that is a function `G` of the norm over
the bins, as FastIVA and FasterIVA require (`d_contrast_fn`, L1011-1013, is documented as its derivative). -/
noncomputable def ivaLoss (G : ℝ → ℝ) (Z : Spec F n t) (W : F → Mat n ℂ) : ℝ :=
  ∑ k, meanT fun s => G (Iva.binNorm (separate Z W) k s)

/-- `FastIVA.update_once` before the singular value decomposition, `bss/iva.py` L1182-1202: row `k` of the new
filter of bin `f` is the conjugate of column `k` of `W_YZ - YY_GGW`. `d` and `dd` are `d_contrast_fn` and
`dd_contrast_fn`. -/
noncomputable def fastIvaFilter (floor d dd : ℝ → ℝ) (Z : Spec F n t) (W : F → Mat n ℂ) : F → Mat n ℂ :=
  let Y := separate Z W
  let norm := Iva.binNorm Y
  let varphi := fun k s => d (norm k s) / floor (2 * norm k s)
  let Y_GG := fun k s => (2 * varphi k s - dd (norm k s)) / floor (2 * norm k s)
  fun f => Matrix.of fun k c =>
    star ((meanT fun s => (varphi k s : ℂ) * (star (W f k c) - star (Y f k s) * Z f c s))
      - meanT fun s => star (W f k c) * ((Y_GG k s * ‖Y f k s‖ ^ 2 : ℝ) : ℂ))

/-- `FastIVA.update_once`, `bss/iva.py` L1182-1207. -/
noncomputable def fastIvaStep (np : Numpy ℂ) (floor d dd : ℝ → ℝ) (Z : Spec F n t) (W : F → Mat n ℂ) : F → Mat n ℂ :=
  fun f => polar np (fastIvaFilter floor d dd Z W f)

/-- `FasterIVA.update_once` before the singular value decomposition, `bss/iva.py` L1385-1396: row `k` is the
conjugated eigenvector of the largest eigenvalue of `U`, where `eigh` is `ssspy.linalg.eigh` without a second
matrix, i.e. `numpy.linalg.eigh` (`linalg/eigh.py` L51-52). -/
noncomputable def fasterIvaFilter (np : Numpy ℂ) (floor d : ℝ → ℝ) (Z : Spec F (n + 1) t)
    (W : F → Mat (n + 1) ℂ) : F → Mat (n + 1) ℂ :=
  let Y := separate Z W
  let varphi := fun k s => d (Iva.binNorm Y k s) / floor (2 * Iva.binNorm Y k s)
  fun f => Matrix.of fun k c => star ((np.eigh (Iva.wcov varphi Z f k)).2 c (Fin.last n))

/-- `FasterIVA.update_once`, `bss/iva.py` L1383-1400. -/
noncomputable def fasterIvaStep (np : Numpy ℂ) (floor d : ℝ → ℝ) (Z : Spec F (n + 1) t)
    (W : F → Mat (n + 1) ℂ) : F → Mat (n + 1) ℂ :=
  fun f => polar np (fasterIvaFilter np floor d Z W f)

end Verif.Fast
