import Mathlib.Data.Real.Sign
import Verif.Model.Iva

/-!
# Gradient and natural-gradient ICA, FDICA and IVA

`bss/ica.py` `GradICA`, `NaturalGradICA`; `bss/fdica.py` `GradFDICA`, `NaturalGradFDICA`; `bss/iva.py` `GradIVA`,
`NaturalGradIVA` and their Laplace and Gauss subclasses. The update rules of the three files are the same up to the
frequency axis and the complex conjugation, so one definition models them: `F` is the set of frequency bins (`Unit`
for ICA, which has no such axis) and `𝕜` is `ℝ` for ICA and `ℂ` otherwise. `score_fn` is an arbitrary function from
the separated signals to an array of the same shape, and `contrast_fn` an arbitrary function to an array whose last
axis is the frame and whose other axes are indexed by `ι` (sources for ICA and IVA, bins and sources for FDICA).
-/

namespace Verif.Grad

open Matrix Spatial

variable {𝕜 : Type} [RCLike 𝕜] {F : Type} {n t : ℕ}

/-- An array of signals, stored per bin. -/
abbrev Data (𝕜 F : Type) (n t : ℕ) := F → Matrix (Fin n) (Fin t) 𝕜

/-- `separate`: `bss/ica.py` L152, `bss/fdica.py` L193-197, `bss/iva.py` L190-194. -/
def sep (X : Data 𝕜 F n t) (W : F → Mat n 𝕜) : Data 𝕜 F n t := fun f => W f * X f

/-- `PhiY = np.mean(Phi[:, np.newaxis] * Y_conj[np.newaxis], axis=-1)`: `bss/ica.py` L539, L694,
`bss/fdica.py` L634-635, L829-830, `bss/iva.py` L801-803, L973-975. -/
noncomputable def phiY (score : Data 𝕜 F n t → Data 𝕜 F n t) (Y : Data 𝕜 F n t) (f : F) : Mat n 𝕜 :=
  Matrix.of fun i j => meanT fun s => score Y f i s * star (Y f j s)

/-- The first factor of `delta`: `PhiY - eye` if `is_holonomic`, else `(1 - eye) * PhiY`: `bss/ica.py` L544-547,
L697-700, `bss/fdica.py` L640-643, L833-836, `bss/iva.py` L808-811, L978-981. -/
noncomputable def factor (holonomic : Bool) (P : Mat n 𝕜) : Mat n 𝕜 :=
  if holonomic then P - 1 else Matrix.of fun i j => (1 - (1 : Mat n 𝕜) i j) * P i j

/-- `NaturalGradICA.update_once` (`bss/ica.py` L690-707), `NaturalGradFDICA.update_once`
(`bss/fdica.py` L824-843), `NaturalGradIVA.update_once` (`bss/iva.py` L969-988). -/
noncomputable def naturalStep (step_size : ℝ) (holonomic : Bool) (score : Data 𝕜 F n t → Data 𝕜 F n t)
    (X : Data 𝕜 F n t) (W : F → Mat n 𝕜) : F → Mat n 𝕜 :=
  let Y := sep X W
  fun f => W f - (step_size : 𝕜) • (factor holonomic (phiY score Y f) * W f)

/-- `GradICA.update_once` (`bss/ica.py` L535-554), `GradFDICA.update_once` (`bss/fdica.py` L629-650),
`GradIVA.update_once` (`bss/iva.py` L797-818); `numpy.linalg.inv` raises on a singular filter. -/
noncomputable def gradStep (step_size : ℝ) (holonomic : Bool) (score : Data 𝕜 F n t → Data 𝕜 F n t)
    (X : Data 𝕜 F n t) (W : F → Mat n 𝕜) : Except PyErr (F → Mat n 𝕜) := do
  let Y := sep X W
  let W_inv ← onBins fun f => npInv (W f)
  .ok fun f => W f - (step_size : 𝕜) • (factor holonomic (phiY score Y f) * (W_inv f)ᴴ)

/-- `n_iter` natural-gradient updates. -/
noncomputable def naturalRun (step_size : ℝ) (holonomic : Bool) (score : Data 𝕜 F n t → Data 𝕜 F n t)
    (X : Data 𝕜 F n t) (n_iter : ℕ) (W : F → Mat n 𝕜) : F → Mat n 𝕜 :=
  (naturalStep step_size holonomic score X)^[n_iter] W

/-- `compute_loss`: `bss/ica.py` L171-178 (`c = 1`), `bss/fdica.py` L216-223 and `bss/iva.py` L215-222 (`c = 2`). -/
noncomputable def loss [Fintype F] {ι : Type} [Fintype ι] (c : ℝ) (contrast : Data 𝕜 F n t → ι → Fin t → ℝ)
    (X : Data 𝕜 F n t) (W : F → Mat n 𝕜) : ℝ :=
  ∑ i, meanT (contrast (sep X W) i) - c * ∑ f, Real.log ‖(W f).det‖

/-! ## The built-in source models -/

/-- `GradLaplaceICA`, `NaturalGradLaplaceICA`: `bss/ica.py` L901-905, L1030-1034. -/
noncomputable def icaLaplaceContrast (Y : Data ℝ Unit n t) (k : Fin n) (s : Fin t) : ℝ := |Y () k s|
noncomputable def icaLaplaceScore (Y : Data ℝ Unit n t) : Data ℝ Unit n t :=
  fun _ => Matrix.of fun k s => Real.sign (Y () k s)

/-- `GradLaplaceFDICA`, `NaturalGradLaplaceFDICA`: `bss/fdica.py` L1332-1355, L1473-1496. -/
noncomputable def fdicaLaplaceContrast (Y : Data ℂ F n t) (i : F × Fin n) (s : Fin t) : ℝ := 2 * ‖Y i.1 i.2 s‖
noncomputable def fdicaLaplaceScore (floor : ℝ → ℝ) (Y : Data ℂ F n t) : Data ℂ F n t :=
  fun f => Matrix.of fun k s => Y f k s / (floor ‖Y f k s‖ : ℂ)

/-- `GradLaplaceIVA`, `NaturalGradLaplaceIVA`: `bss/iva.py` L2417-2441, L2736-2760. -/
noncomputable def ivaLaplaceContrast [Fintype F] (Y : Data ℂ F n t) (k : Fin n) (s : Fin t) : ℝ :=
  2 * Iva.binNorm Y k s
noncomputable def ivaLaplaceScore [Fintype F] (floor : ℝ → ℝ) (Y : Data ℂ F n t) : Data ℂ F n t :=
  fun f => Matrix.of fun k s => Y f k s / (floor (Iva.binNorm Y k s) : ℂ)

/-- `GradGaussIVA`, `NaturalGradGaussIVA`: `bss/iva.py` L2583-2611, L2905-2933, for the current `variance`. -/
noncomputable def ivaGaussContrast [Fintype F] (variance : Fin n → Fin t → ℝ) (Y : Data ℂ F n t) (k : Fin n)
    (s : Fin t) : ℝ :=
  Fintype.card F * Real.log (variance k s) + Iva.binNorm Y k s ^ 2 / variance k s
noncomputable def ivaGaussScore (variance : Fin n → Fin t → ℝ) (Y : Data ℂ F n t) : Data ℂ F n t :=
  fun f => Matrix.of fun k s => Y f k s / (variance k s : ℂ)

/-- `NaturalGradGaussIVA.update_once` (`bss/iva.py` L2962-2973): the variance is the mean over bins of `|Y| ** 2`; new
`(variance, demix_filter)`. -/
noncomputable def naturalGaussStep [Fintype F] (step_size : ℝ) (holonomic : Bool) (X : Data ℂ F n t)
    (s : (Fin n → Fin t → ℝ) × (F → Mat n ℂ)) : (Fin n → Fin t → ℝ) × (F → Mat n ℂ) :=
  let variance := Iva.gaussVariance (sep X s.2)
  (variance, naturalStep step_size holonomic (ivaGaussScore variance) X s.2)

/-- `GradGaussIVA.update_once` (`bss/iva.py` L2640-2651). -/
noncomputable def gradGaussStep [Fintype F] (step_size : ℝ) (holonomic : Bool) (X : Data ℂ F n t)
    (s : (Fin n → Fin t → ℝ) × (F → Mat n ℂ)) : Except PyErr ((Fin n → Fin t → ℝ) × (F → Mat n ℂ)) := do
  let variance := Iva.gaussVariance (sep X s.2)
  let W ← gradStep step_size holonomic (ivaGaussScore variance) X s.2
  .ok (variance, W)

end Verif.Grad
