import Verif.Lemmas.Run
import Verif.Model.Iva
import Verif.Props.Iss

/-! # Majorisation-minimisation with weighted covariances -/

set_option linter.unusedSectionVars false

namespace Verif.Iva

open Matrix Spatial Scale
open scoped ComplexOrder

variable {F : Type} [Fintype F] {n t : ℕ}

theorem wcov_eq (phi : Fin n → Fin t → ℝ) (X : Spec F n t) (f : F) (k : Fin n) :
    wcov phi X f k = X f * wdiag (phi k) * (X f)ᴴ := by
  ext i j
  show meanT (fun s => (phi k s : ℂ) * (X f i s * star (X f j s))) = _
  rw [meanT_form, Matrix.mul_assoc, mul_apply]
  simp only [dotProduct, wdiag, mulVec_diagonal, diagonal_mul, conjTranspose_apply, Pi.star_apply]

theorem wcov_posDef {phi : Fin n → Fin t → ℝ} (hphi : ∀ k s, 0 < phi k s) {X : Spec F n t}
    (hX : ∀ f, LinearIndependent ℂ (X f).row) (f : F) (k : Fin n) : (wcov phi X f k).PosDef := by
  rw [wcov_eq]
  exact (wdiag_posDef (hphi k)).mul_mul_conjTranspose_same (vecMul_injective_iff.mpr (hX f))

theorem gram_isUnit (X : Spec F n t) (hX : ∀ f, LinearIndependent ℂ (X f).row) (f : F) :
    IsUnit (X f * (X f)ᴴ).det := by
  have : (X f * (X f)ᴴ).PosDef := PosDef.mul_conjTranspose_self _ (vecMul_injective_iff.mpr (hX f))
  exact (isUnit_iff_isUnit_det _).mp this.isUnit

theorem quad_wcov (phi : Fin n → Fin t → ℝ) (X : Spec F n t) (W : Mat n ℂ) (f : F) (k : Fin n) :
    quad (wcov phi X f k) (W k) = quad (wdiag (phi k)) ((W * X f) k) := by
  rw [wcov_eq, ← quad_vecMul]
  rfl

/-- The quadratic part of the objective in terms of the separated signals of the bin. -/
theorem ipLoss_wcov (phi : Fin n → Fin t → ℝ) (X : Spec F n t) (W : F → Mat n ℂ) (f : F) :
    ipLoss (wcov phi X f) (W f) = power phi (separate X W f) - 2 * Real.log ‖(W f).det‖ := by
  rw [ipLoss, power_eq]
  congr 1
  exact Finset.sum_congr rfl fun k _ => quad_wcov phi X (W f) f k

theorem binNorm_sq (Y : Spec F n t) (k : Fin n) (s : Fin t) : binNorm Y k s ^ 2 = ∑ f, ‖Y f k s‖ ^ 2 :=
  Real.sq_sqrt (Finset.sum_nonneg fun _ _ => sq_nonneg _)

theorem binNorm_nonneg (Y : Spec F n t) (k : Fin n) (s : Fin t) : 0 ≤ binNorm Y k s := Real.sqrt_nonneg _

/-- The weighted power of all bins in terms of the norms over bins. -/
theorem sum_power (phi : Fin n → Fin t → ℝ) (Y : Spec F n t) :
    ∑ f, power phi (Y f) = ∑ k, meanT fun s => phi k s * binNorm Y k s ^ 2 := by
  simp only [power, meanT]
  rw [Finset.sum_comm]
  refine Finset.sum_congr rfl fun k _ => ?_
  rw [← Finset.sum_div, Finset.sum_comm]
  congr 1
  refine Finset.sum_congr rfl fun s _ => ?_
  rw [binNorm_sq, Finset.mul_sum]

/-- The auxiliary function touches the loss at the current estimate and lies above it elsewhere: the loss decreases
by at least as much as the auxiliary function. -/
theorem mm_gap (G : Fin n → Fin t → ℝ → ℝ) (phi : Fin n → Fin t → ℝ) (Y Y' : Spec F n t) (W W' : F → Mat n ℂ)
    (hmaj : ∀ k s, G k s (binNorm Y' k s)
      ≤ G k s (binNorm Y k s) + phi k s * (binNorm Y' k s ^ 2 - binNorm Y k s ^ 2)) :
    ivaLoss G Y' W' - ivaLoss G Y W ≤ ∑ f, (power phi (Y' f) - 2 * Real.log ‖(W' f).det‖)
      - ∑ f, (power phi (Y f) - 2 * Real.log ‖(W f).det‖) := by
  simp only [Finset.sum_sub_distrib, ← Finset.mul_sum]
  rw [sum_power, sum_power]
  have h2 : ∑ k, meanT (fun s => G k s (binNorm Y' k s))
      ≤ ∑ k, meanT (fun s => G k s (binNorm Y k s))
        + (∑ k, meanT (fun s => phi k s * binNorm Y' k s ^ 2)
          - ∑ k, meanT (fun s => phi k s * binNorm Y k s ^ 2)) := by
    rw [← Finset.sum_sub_distrib, ← Finset.sum_add_distrib]
    refine Finset.sum_le_sum fun k _ => ?_
    simp only [meanT]
    rw [← sub_div, ← add_div, ← Finset.sum_sub_distrib, ← Finset.sum_add_distrib]
    refine div_le_div_of_nonneg_right (Finset.sum_le_sum fun s _ => ?_) (by positivity)
    have := hmaj k s
    linarith
  rw [ivaLoss, ivaLoss]
  linarith

/-- A decrease of the auxiliary function is a decrease of the loss. -/
theorem mm_step (G : Fin n → Fin t → ℝ → ℝ) (phi : Fin n → Fin t → ℝ) (Y Y' : Spec F n t) (W W' : F → Mat n ℂ)
    (hmaj : ∀ k s, G k s (binNorm Y' k s)
      ≤ G k s (binNorm Y k s) + phi k s * (binNorm Y' k s ^ 2 - binNorm Y k s ^ 2))
    (hdec : ∀ f, power phi (Y' f) - 2 * Real.log ‖(W' f).det‖ ≤ power phi (Y f) - 2 * Real.log ‖(W f).det‖) :
    ivaLoss G Y' W' ≤ ivaLoss G Y W := by
  have h1 := Finset.sum_le_sum fun f (_ : f ∈ Finset.univ) => hdec f
  have h2 := mm_gap G phi Y Y' W W' hmaj
  linarith

/-- What the auxiliary function method needs from a contrast function: it grows no faster than the parabola with
the slope given by `d_contrast_fn`, and that slope is positive. -/
structure Majorised (G d : Fin n → Fin t → ℝ → ℝ) : Prop where
  pos : ∀ k s r, 0 < r → 0 < d k s r
  le : ∀ k s r₀ r, 0 < r₀ → 0 ≤ r → G k s r ≤ G k s r₀ + d k s r₀ / (2 * r₀) * (r ^ 2 - r₀ ^ 2)

theorem weight_id_pos {G d : Fin n → Fin t → ℝ → ℝ} (h : Majorised G d) {Y : Spec F n t}
    (hY : ∀ k s, 0 < binNorm Y k s) (k : Fin n) (s : Fin t) : 0 < weight id d Y k s :=
  div_pos (h.pos k s _ (hY k s)) (mul_pos two_pos (hY k s))

theorem ip1Stack_spec (U : F → Fin n → Mat n ℂ) (hU : ∀ f k, (U f k).PosDef) (W : F → Mat n ℂ)
    (hW : ∀ f, IsUnit (W f).det) :
    ∃ W', ip1Stack id U W = .ok W' ∧ (∀ f, IsUnit (W' f).det) ∧
      ∀ f, ipLoss (U f) (W' f) ≤ ipLoss (U f) (W f) := by
  have h := fun f => C31_sweep id (U f) (hU f) (W f) (hW f) rfl
  choose W' h1 h2 h3 using h
  exact ⟨W', foldlM_onBins (fun f => ip1Row id (U f)) (List.finRange n) W W' h1, h2, h3⟩

/-- IP1 with weighted covariances, the weights may depend on the bin. -/
theorem ip1Stack_weighted (phi : F → Fin n → Fin t → ℝ) (hphi : ∀ f k s, 0 < phi f k s) (X : Spec F n t)
    (hX : ∀ f, LinearIndependent ℂ (X f).row) (W : F → Mat n ℂ) (hW : ∀ f, IsUnit (W f).det) :
    ∃ W', ip1Stack id (fun f => wcov (phi f) X f) W = .ok W' ∧ (∀ f, IsUnit (W' f).det) ∧
      ∀ f, power (phi f) (separate X W' f) - 2 * Real.log ‖(W' f).det‖
        ≤ power (phi f) (separate X W f) - 2 * Real.log ‖(W f).det‖ := by
  obtain ⟨W', h1, h2, h3⟩ :=
    ip1Stack_spec (fun f => wcov (phi f) X f) (fun f k => wcov_posDef (hphi f) hX f k) W hW
  refine ⟨W', h1, h2, fun f => ?_⟩
  have := h3 f
  rwa [ipLoss_wcov, ipLoss_wcov] at this

/-- The same for one pair of IP2. -/
theorem ip2Pair_weighted (np : Numpy ℂ) (phi : F → Fin n → Fin t → ℝ) (hphi : ∀ f k s, 0 < phi f k s)
    (X : Spec F n t) (hX : ∀ f, LinearIndependent ℂ (X f).row) (W : F → Mat n ℂ) (hW : ∀ f, IsUnit (W f).det)
    (p : Fin n × Fin n) (hp : p.1 ≠ p.2) :
    ∃ W', onBins (fun f => ip2Pair np id (wcov (phi f) X f) (W f) p) = .ok W' ∧ (∀ f, IsUnit (W' f).det) ∧
      ∀ f, power (phi f) (separate X W' f) - 2 * Real.log ‖(W' f).det‖
        ≤ power (phi f) (separate X W f) - 2 * Real.log ‖(W f).det‖ := by
  have h := fun f => C32_sweep np id [p] (by simpa using hp) (wcov (phi f) X f)
    (fun k => wcov_posDef (hphi f) hX f k) (W f) (hW f) rfl
  choose W' h1 h2 h3 using h
  have h1' : ∀ f, ip2Pair np id (wcov (phi f) X f) (W f) p = .ok (W' f) := by
    intro f
    have := h1 f
    rw [ip2, List.foldlM_cons] at this
    cases hg : ip2Pair np id (wcov (phi f) X f) (W f) p with
    | ok c => rw [hg] at this; exact this
    | error e => rw [hg] at this; cases this
  refine ⟨W', onBins_ok h1', h2, fun f => ?_⟩
  have := h3 f
  rwa [ipLoss_wcov, ipLoss_wcov] at this

/-- ISS1 with weights that may depend on the bin. -/
theorem iss1_weighted (phi : F → Fin n → Fin t → ℝ) (hphi : ∀ f k s, 0 < phi f k s) (X : Spec F n t)
    (hX : ∀ f, LinearIndependent ℂ (X f).row) (W : F → Mat n ℂ) (hW : ∀ f, IsUnit (W f).det) :
    ∃ W' : F → Mat n ℂ, (fun f => iss1 id (phi f) (separate X W f)) = separate X W' ∧ (∀ f, IsUnit (W' f).det) ∧
      ∀ f, power (phi f) (separate X W' f) - 2 * Real.log ‖(W' f).det‖
        ≤ power (phi f) (separate X W f) - 2 * Real.log ‖(W f).det‖ := by
  have h := fun f => C33_iss1 id (phi f) (hphi f) (X f) (hX f) (W f) (hW f) rfl
  choose W' h1 h2 h3 using h
  exact ⟨W', funext h1, h2, h3⟩

/-- ISS2 with weights that may depend on the bin. -/
theorem iss2_weighted (np : Numpy ℂ) (pairs : List (Fin n × Fin n)) (hpairs : ∀ p ∈ pairs, p.1 ≠ p.2)
    (phi : F → Fin n → Fin t → ℝ) (hphi : ∀ f k s, 0 < phi f k s) (X : Spec F n t)
    (hX : ∀ f, LinearIndependent ℂ (X f).row) (W : F → Mat n ℂ) (hW : ∀ f, IsUnit (W f).det) :
    ∃ W' : F → Mat n ℂ,
      pairs.foldlM (fun Y p => onBins fun f => iss2Pair np id (phi f) (Y f) p) (separate X W)
        = .ok (separate X W') ∧ (∀ f, IsUnit (W' f).det) ∧
      ∀ f, power (phi f) (separate X W' f) - 2 * Real.log ‖(W' f).det‖
        ≤ power (phi f) (separate X W f) - 2 * Real.log ‖(W f).det‖ := by
  have h := fun f => C34_iss2 np id pairs hpairs (phi f) (hphi f) (X f) (hX f) (W f) (hW f) rfl
  choose W' h1 h2 h3 using h
  exact ⟨W', foldlM_onBins (fun f => iss2Pair np id (phi f)) pairs (separate X W) (separate X W') h1, h2, h3⟩

end Verif.Iva
