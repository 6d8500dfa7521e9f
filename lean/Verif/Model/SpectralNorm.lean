import Mathlib.Analysis.InnerProductSpace.PiL2
import Mathlib.Analysis.Normed.Module.FiniteDimension
import Mathlib.Data.Finset.Max
import Verif.Model.ProxBss

/-!
# `ProxBSSBase.normalize_by_spectral_norm`

The public method that rescales a recording so that the step sizes `mu1 = mu2 = 1` of the primal-dual methods
are admissible.
-/

namespace Verif.ProxBss

open Matrix Scale

variable {F : Type} [Fintype F] {n t : ℕ}

/-- `np.linalg.norm(A, ord=2)`: the largest singular value of `A`, which in exact arithmetic is the largest factor by
which `A` stretches a vector (`bss/proxbss.py` L220). -/
noncomputable def norm2 (A : Matrix (Fin n) (Fin t) ℂ) : ℝ := ‖LinearMap.toContinuousLinearMap (Matrix.toEuclideanLin A)‖

/-- `bss/proxbss.py` L205-223 `normalize_by_spectral_norm`. `n_penalties` is the keyword, `len_prox` the property
`n_penalties` of the object (L142-145, `bss/pdsbss.py` L392-394, `bss/admmbss.py` L411-413), used without the keyword
(L217-218). The norm of every bin is taken (L220) and the largest one kept; without any bin `np.max` raises (L221).
Dividing by zero (L223: silent recording, or no penalty), which numpy turns into NaN with a warning, counts as an
error here. -/
noncomputable def normalizeBySpectralNorm (n_penalties : Option ℕ) (len_prox : ℕ) (X : Spec F n t) :
    Except PyErr (Spec F n t) :=
  let q := n_penalties.getD len_prox
  open Classical in
  if h : (Finset.univ : Finset F).Nonempty then
    let norm := Finset.univ.sup' h fun f => norm2 (X f)
    let d := Real.sqrt q * norm
    if d = 0 then .error .zeroDivision else .ok fun f => Matrix.of fun c j => X f c j / (d : ℂ)
  else .error .value

end Verif.ProxBss
