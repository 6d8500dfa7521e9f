import Mathlib.Analysis.SpecialFunctions.Log.Basic
import Mathlib.LinearAlgebra.Matrix.Determinant.Basic
import Verif.Model.Numpy

/-! # The objectives of the spatial updates -/

namespace Verif.Spatial

open Matrix

variable {n t : ℕ}

/-- The value `w^H U w` of the demixing row `v = w^H`. -/
noncomputable def quad {k : ℕ} (U : Mat k ℂ) (v : Fin k → ℂ) : ℝ := (v ⬝ᵥ (U *ᵥ star v)).re

/-- The auxiliary objective `sum_n w_n^H U_n w_n - 2 log |det W|` of one bin. -/
noncomputable def ipLoss (U : Fin n → Mat n ℂ) (W : Mat n ℂ) : ℝ :=
  ∑ k, quad (U k) (W k) - 2 * Real.log ‖W.det‖

/-- The weighted power `sum_n mean_t(phi_nt |y_nt|^2)` of separated signals. -/
noncomputable def power (phi : Fin n → Fin t → ℝ) (Y : Matrix (Fin n) (Fin t) ℂ) : ℝ :=
  ∑ k, (∑ s, phi k s * ‖Y k s‖ ^ 2) / t

/-- The objective of a block of `b` neighbouring bins: with `w_ik^H` the `k`-th row of the filter of bin `i`,
`sum_k sum_ij w_ik^H R_ijk w_jk - 2 sum_i log |det W_i|`. -/
noncomputable def blockLoss {b : ℕ} (R : Fin b → Fin b → Fin n → Mat n ℂ) (W : Fin b → Mat n ℂ) : ℝ :=
  (∑ k, ∑ i, ∑ j, (W i k ⬝ᵥ (R i j k *ᵥ star (W j k))).re) - 2 * ∑ i, Real.log ‖(W i).det‖

end Verif.Spatial
