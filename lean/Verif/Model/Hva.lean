import Mathlib.Analysis.SpecialFunctions.Pow.Real
import Mathlib.Analysis.SpecialFunctions.Trigonometric.Basic
import Verif.Model.ProxBss

/-!
# The mask of harmonic vector analysis, `bss/hva.py`

`MaskingPDSHVA` and `MaskingADMMHVA` define the same `mask_fn`, L81-115 and L202-236.
-/

namespace Verif.Hva

open Scale

variable {m n t : ℕ}

/-- `norm=` of `np.fft.irfft`. -/
inductive Norm
  | backward
  | forward

/-- `np.fft.irfft(a, norm=norm)[:m]` of a real vector of length `m ≥ 2`: the output has length `N = 2 * (m - 1) ≥ m`;
bins `0` and `m - 1` count once, all others twice. -/
noncomputable def irfft (norm : Norm) (a : Fin m → ℝ) (k : Fin m) : ℝ :=
  (match norm with
    | .backward => 1 / ((2 * (m - 1) : ℕ) : ℝ)
    | .forward => 1) *
  ∑ f : Fin m, (if f.val = 0 ∨ f.val = m - 1 then 1 else 2) * a f
    * Real.cos (2 * Real.pi * (f.val * k.val) / ((2 * (m - 1) : ℕ) : ℝ))

/-- One pass of the loop at L106-107. -/
noncomputable def squash (x : ℝ) : ℝ := (1 - Real.cos (Real.pi * x)) / 2

/-- `zeta_mean` of one source and frame, L99-100. -/
noncomputable def zetaMean (floor : ℝ → ℝ) (y : Fin m → ℂ) : ℝ := (∑ f, Real.log (floor ‖y f‖)) / m

/-- `v` of one source and frame as a function of the bins, L98-112. -/
noncomputable def envelope (floor : ℝ → ℝ) (mask_iter : ℕ) (y : Fin m → ℂ) : Fin m → ℝ :=
  let zeta := fun f => Real.log (floor ‖y f‖)
  let rho := fun f => zeta f - zetaMean floor y
  let nu := irfft .backward rho
  let varsigma := fun k => squash^[mask_iter] (min 1 (nu k))
  let xi := irfft .forward fun k => varsigma k * nu k
  fun f => Real.exp (2 * (xi f + zetaMean floor y))

/-- `mask_fn`, L91-115, on an array of `n` sources, `m` bins and `t` frames. The first component of the result is the
attribute `attenuation` after the call (`none` is `None`). With one bin `irfft` is asked for `2 * (m - 1) = 0` points
and raises `ValueError`. `Real.log` is only the logarithm of the code where the floored amplitudes are positive. -/
noncomputable def maskFn (floor : ℝ → ℝ) (mask_iter : ℕ) (attenuation : Option ℝ) (y : Spec (Fin m) n t) :
    Except PyErr (ℝ × (Fin m → Matrix (Fin n) (Fin t) ℝ)) :=
  let gamma := attenuation.getD (1 / n)
  let v := fun k j => envelope floor mask_iter fun f => y f k j
  if m < 2 then .error .value
  else .ok (gamma, fun f => Matrix.of fun k j => (v k j f / ∑ l, v l j f) ^ gamma)

end Verif.Hva
