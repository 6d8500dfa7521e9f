import Verif.Model.Iva

/-!
# Auxiliary-function FDICA: `bss/fdica.py`, classes `AuxFDICA`, `AuxLaplaceFDICA`

`contrast_fn` and `d_contrast_fn` are modelled as functions of the magnitude of one entry; both are applied
elementwise by numpy. Permutation alignment and scale restoration are in `Verif.Model.Permutation` and
`Verif.Model.Scale`.
-/

namespace Verif.Fdica

open Matrix Spatial Scale

variable {F : Type} [Fintype F] {n t : ℕ}

/-- `varphi = self.d_contrast_fn(Y_abs) / flooring_fn(2 * Y_abs)`, L1109-1112, one bin. -/
noncomputable def weight (floor d : ℝ → ℝ) (Y : Matrix (Fin n) (Fin t) ℂ) (k : Fin n) (s : Fin t) : ℝ :=
  d ‖Y k s‖ / floor (2 * ‖Y k s‖)

/-- `AuxFDICA.update_once_ip1`, L1102-1116. -/
noncomputable def auxIp1 (floor d : ℝ → ℝ) (X : Spec F n t) (W : F → Mat n ℂ) : Except PyErr (F → Mat n ℂ) :=
  let Y := separate X W
  Iva.ip1Stack floor (fun f => Iva.wcov (weight floor d (Y f)) X f) W

/-- The body of the loop of `AuxFDICA.update_once_ip2`, L1228-1243. -/
noncomputable def auxIp2Pair (np : Numpy ℂ) (floor d : ℝ → ℝ) (X : Spec F n t) (W : F → Mat n ℂ)
    (pair : Fin n × Fin n) : Except PyErr (F → Mat n ℂ) :=
  let Y := separate X W
  onBins fun f => ip2Pair np floor (Iva.wcov (weight floor d (Y f)) X f) (W f) pair

/-- `AuxFDICA.update_once_ip2`, L1219-1245. -/
noncomputable def auxIp2 (np : Numpy ℂ) (floor d : ℝ → ℝ) (pairs : List (Fin n × Fin n)) (X : Spec F n t)
    (W : F → Mat n ℂ) : Except PyErr (F → Mat n ℂ) :=
  pairs.foldlM (auxIp2Pair np floor d X) W

/-- `FDICABase.compute_loss`, L216-223. -/
noncomputable def loss (G : ℝ → ℝ) (X : Spec F n t) (W : F → Mat n ℂ) : ℝ :=
  let Y := separate X W
  ∑ f, (∑ k, meanT (fun s => G ‖Y f k s‖) - 2 * Real.log ‖(W f).det‖)

/-- `AuxLaplaceFDICA`, L1618-1641: `contrast_fn` and `d_contrast_fn`. -/
def laplaceG (r : ℝ) : ℝ := 2 * r
def laplaceD (_ : ℝ) : ℝ := 2

end Verif.Fdica
