import Mathlib.Data.Real.Basic

/-! # What a proximal operator has to return -/

namespace Verif

/-- `p` minimises `step * penalty z + dist2 z x / 2` over the points of `dom`. -/
def IsProx {E : Type} (dom : E → Prop) (penalty : E → ℝ) (dist2 : E → E → ℝ) (step : ℝ) (x p : E) :
    Prop :=
  dom p ∧ ∀ z, dom z → step * penalty p + dist2 p x / 2 ≤ step * penalty z + dist2 z x / 2

/-- ... and is the only minimiser. -/
def IsUniqueProx {E : Type} (dom : E → Prop) (penalty : E → ℝ) (dist2 : E → E → ℝ) (step : ℝ)
    (x p : E) : Prop :=
  IsProx dom penalty dist2 step x p ∧
    ∀ z, dom z → step * penalty z + dist2 z x / 2 ≤ step * penalty p + dist2 p x / 2 → z = p

end Verif
