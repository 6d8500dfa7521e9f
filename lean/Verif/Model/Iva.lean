import Verif.Model.Run
import Verif.Model.Scale
import Verif.Model.Spatial

/-!
# Auxiliary-function IVA: `bss/iva.py`, classes `AuxIVA`, `AuxLaplaceIVA`, `AuxGaussIVA`

`F` is the set of frequency bins. Spectrograms are stored per bin: `X f : Matrix (Fin n) (Fin t) ℂ`.
`contrast_fn` is modelled as a function `G k s` of the norm over bins of source `k` in frame `s`, `d_contrast_fn`
as a function `d k s` of that norm; both may depend on the position through attributes of the object
(`AuxGaussIVA.variance`). Contrast functions that are not functions of the norm are not modelled. With IP2
`AuxIVA` passes the two norms of the pair to `d_contrast_fn`; the model gives each the function of its own source, which
is what `AuxGaussIVA` (L3436-3463) and every elementwise function do.
-/

namespace Verif.Iva

open Matrix Spatial Scale

variable {F : Type} [Fintype F] {n t : ℕ}

/-- `np.linalg.norm(Y, axis=1)`: norm over frequency bins. -/
noncomputable def binNorm (Y : Spec F n t) (k : Fin n) (s : Fin t) : ℝ := Real.sqrt (∑ f, ‖Y f k s‖ ^ 2)

/-- `weight = self.d_contrast_fn(norm) / flooring_fn(2 * norm)`, L1787-1789. -/
noncomputable def weight (floor : ℝ → ℝ) (d : Fin n → Fin t → ℝ → ℝ) (Y : Spec F n t) (k : Fin n) (s : Fin t) : ℝ :=
  d k s (binNorm Y k s) / floor (2 * binNorm Y k s)

/-- `U = np.mean(weight * XX_Hermite, axis=-1)`, L1785-1791. -/
noncomputable def wcov (phi : Fin n → Fin t → ℝ) (X : Spec F n t) (f : F) (k : Fin n) : Mat n ℂ :=
  Matrix.of fun i j => meanT fun s => (phi k s : ℂ) * (X f i s * star (X f j s))

/-- `update_by_ip1` on all bins (`_update_spatial_model.py` L48-78). -/
noncomputable def ip1Stack (floor : ℝ → ℝ) (U : F → Fin n → Mat n ℂ) (W : F → Mat n ℂ) :
    Except PyErr (F → Mat n ℂ) :=
  (List.finRange n).foldlM (fun W src => onBins fun f => ip1Row floor (U f) (W f) src) W

/-- `AuxIVA.update_once_ip1`, L1780-1793. -/
noncomputable def auxIp1 (floor : ℝ → ℝ) (d : Fin n → Fin t → ℝ → ℝ) (X : Spec F n t) (W : F → Mat n ℂ) :
    Except PyErr (F → Mat n ℂ) :=
  let Y := separate X W
  let phi := weight floor d Y
  ip1Stack floor (wcov phi X) W

/-- The body of the loop of `AuxIVA.update_once_ip2`, L1899-1913: the weights of the pair are recomputed from the
current filter before every pair. -/
noncomputable def auxIp2Pair (np : Numpy ℂ) (floor : ℝ → ℝ) (d : Fin n → Fin t → ℝ → ℝ) (X : Spec F n t)
    (W : F → Mat n ℂ) (pair : Fin n × Fin n) : Except PyErr (F → Mat n ℂ) :=
  let Y := separate X W
  let phi := weight floor d Y
  onBins fun f => ip2Pair np floor (wcov phi X f) (W f) pair

/-- `AuxIVA.update_once_ip2`, L1892-1915. -/
noncomputable def auxIp2 (np : Numpy ℂ) (floor : ℝ → ℝ) (pairs : List (Fin n × Fin n))
    (d : Fin n → Fin t → ℝ → ℝ) (X : Spec F n t) (W : F → Mat n ℂ) : Except PyErr (F → Mat n ℂ) :=
  pairs.foldlM (auxIp2Pair np floor d X) W

/-- `AuxIVA.update_once_iss1`, L1959-1966; the weights have a broadcast bin axis. -/
noncomputable def auxIss1 (floor : ℝ → ℝ) (d : Fin n → Fin t → ℝ → ℝ) (Y : Spec F n t) : Spec F n t :=
  let phi := weight floor d Y
  fun f => iss1 floor phi (Y f)

/-- `AuxIVA.update_once_iss2`, L2053-2066. -/
noncomputable def auxIss2 (np : Numpy ℂ) (floor : ℝ → ℝ) (pairs : List (Fin n × Fin n))
    (d : Fin n → Fin t → ℝ → ℝ) (Y : Spec F n t) : Except PyErr (Spec F n t) :=
  let phi := weight floor d Y
  pairs.foldlM (fun Y p => onBins fun f => iss2Pair np floor phi (Y f) p) Y

/-- `IVABase.compute_loss`, L215-222, from the separated signals and the filters. -/
noncomputable def ivaLoss (G : Fin n → Fin t → ℝ → ℝ) (Y : Spec F n t) (W : F → Mat n ℂ) : ℝ :=
  ∑ k, meanT (fun s => G k s (binNorm Y k s)) - 2 * ∑ f, Real.log ‖(W f).det‖

/-- `AuxIVA.compute_loss` with a demixing filter. -/
noncomputable def lossIp (G : Fin n → Fin t → ℝ → ℝ) (X : Spec F n t) (W : F → Mat n ℂ) : ℝ :=
  ivaLoss G (separate X W) W

/-- `AuxIVA.compute_loss` without a demixing filter, L2179-2190: the filter is estimated as
`Y X^H (X X^H)^-1`. -/
noncomputable def lossFree (G : Fin n → Fin t → ℝ → ℝ) (X Y : Spec F n t) : Except PyErr ℝ := do
  let XXinv ← npInvB fun f => X f * (X f)ᴴ
  .ok (ivaLoss G Y fun f => Y f * (X f)ᴴ * XXinv f)

/-! ## The two source models -/

/-- `AuxLaplaceIVA`, L3093-3115: `contrast_fn` and `d_contrast_fn`. -/
def laplaceG : Fin n → Fin t → ℝ → ℝ := fun _ _ r => 2 * r
def laplaceD : Fin n → Fin t → ℝ → ℝ := fun _ _ _ => 2

/-- `AuxGaussIVA`, L3256-3289: `contrast_fn` and `d_contrast_fn` for the current `variance`. -/
noncomputable def gaussG (F : Type) [Fintype F] (alpha : Fin n → Fin t → ℝ) : Fin n → Fin t → ℝ → ℝ :=
  fun k s r => Fintype.card F * Real.log (alpha k s) + r ^ 2 / alpha k s
noncomputable def gaussD (alpha : Fin n → Fin t → ℝ) : Fin n → Fin t → ℝ → ℝ := fun k s r => 2 * r / alpha k s

/-- `AuxGaussIVA.update_source_model`, L3465-3473. -/
noncomputable def gaussVariance (Y : Spec F n t) (k : Fin n) (s : Fin t) : ℝ :=
  (∑ f, ‖Y f k s‖ ^ 2) / Fintype.card F

/-- The state of `AuxGaussIVA` with IP updates. -/
structure GaussState (F : Type) (n t : ℕ) where
  W : F → Mat n ℂ
  variance : Fin n → Fin t → ℝ

/-- `AuxGaussIVA.update_once` with IP1, L3335-3337. -/
noncomputable def gaussIp1 (floor : ℝ → ℝ) (X : Spec F n t) (s : GaussState F n t) :
    Except PyErr (GaussState F n t) := do
  let variance := gaussVariance (separate X s.W)
  let W ← auxIp1 floor (gaussD variance) X s.W
  .ok ⟨W, variance⟩

/-- `AuxGaussIVA.update_once` with IP2: the weights use the rows of `variance` belonging to the pair,
L3436-3463. -/
noncomputable def gaussIp2 (np : Numpy ℂ) (floor : ℝ → ℝ) (pairs : List (Fin n × Fin n)) (X : Spec F n t)
    (s : GaussState F n t) : Except PyErr (GaussState F n t) := do
  let variance := gaussVariance (separate X s.W)
  let W ← auxIp2 np floor pairs (gaussD variance) X s.W
  .ok ⟨W, variance⟩

noncomputable def gaussLoss (X : Spec F n t) (s : GaussState F n t) : ℝ := lossIp (gaussG F s.variance) X s.W

/-- The state of `AuxGaussIVA` with ISS and IPA updates, where `demix_filter` is `None`. -/
structure GaussSignal (F : Type) (n t : ℕ) where
  Y : Spec F n t
  variance : Fin n → Fin t → ℝ

/-- `AuxGaussIVA.update_once` with ISS1, L3335-3337: the variance is computed from the current output (L3468-3469), then
the inherited `update_once_iss1` runs. -/
noncomputable def gaussIss1 (floor : ℝ → ℝ) (s : GaussSignal F n t) : Except PyErr (GaussSignal F n t) :=
  let variance := gaussVariance s.Y
  .ok ⟨auxIss1 floor (gaussD variance) s.Y, variance⟩

/-- The same with ISS2. -/
noncomputable def gaussIss2 (np : Numpy ℂ) (floor : ℝ → ℝ) (pairs : List (Fin n × Fin n)) (s : GaussSignal F n t) :
    Except PyErr (GaussSignal F n t) := do
  let variance := gaussVariance s.Y
  let Y ← auxIss2 np floor pairs (gaussD variance) s.Y
  .ok ⟨Y, variance⟩

/-- `AuxIVA.compute_loss` of `AuxGaussIVA` without a demixing filter. -/
noncomputable def gaussLossFree (X : Spec F n t) (s : GaussSignal F n t) : Except PyErr ℝ :=
  lossFree (gaussG F s.variance) X s.Y

end Verif.Iva
