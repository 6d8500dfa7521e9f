import Verif.Props.Grad
import Verif.Props.Stationary

/-! # C57 for GradGaussIVA and NaturalGradGaussIVA: the update of variance and filter -/

namespace Verif.Grad

open Matrix Spatial

variable {F : Type} [Fintype F] {n t : ℕ}

/-- The recorded loss for the current variance. -/
noncomputable def gaussLoss (X : Data ℂ F n t) (s : (Fin n → Fin t → ℝ) × (F → Mat n ℂ)) : ℝ :=
  loss 2 (ivaGaussContrast s.1) X s.2

theorem gaussLoss_eq (X : Data ℂ F n t) (v : Fin n → Fin t → ℝ) (W : F → Mat n ℂ) :
    gaussLoss X (v, W) = Iva.lossIp (Iva.gaussG F v) X W := by
  rw [gaussLoss, loss, Iva.lossIp, Iva.ivaLoss]
  rfl

private theorem variance_step [Nonempty F] (X : Data ℂ F n t) (s : (Fin n → Fin t → ℝ) × (F → Mat n ℂ))
    (hv : ∀ k j, 0 < s.1 k j) (hY : ∀ k j, ∃ f, sep X s.2 f k j ≠ 0) :
    gaussLoss X (Iva.gaussVariance (sep X s.2), s.2) ≤ gaussLoss X s ∧
      (Iva.gaussVariance (sep X s.2) ≠ s.1 → gaussLoss X (Iva.gaussVariance (sep X s.2), s.2) < gaussLoss X s) := by
  have hb : ∀ k j, 0 < Iva.binNorm (Scale.separate X s.2) k j := by
    intro k j
    obtain ⟨f, hf⟩ := hY k j
    refine Real.sqrt_pos.2 (Finset.sum_pos' (fun f _ => sq_nonneg _) ⟨f, Finset.mem_univ f, ?_⟩)
    exact pow_pos (norm_pos_iff.2 hf) 2
  have h : Iva.gaussVariance (sep X s.2) ≠ s.1 →
      gaussLoss X (Iva.gaussVariance (sep X s.2), s.2) < gaussLoss X s := fun hne => by
    have := Iva.gaussVariance_strict X s.2 s.1 hv hb hne
    rw [← gaussLoss_eq, ← gaussLoss_eq] at this
    exact this
  refine ⟨?_, h⟩
  by_cases hne : Iva.gaussVariance (sep X s.2) = s.1
  · rw [hne]
  · exact (h hne).le

/-- C57: one update of NaturalGradGaussIVA. The new variance does not increase the recorded loss at the old filter and makes
it smaller unless it is unchanged; the step of the filter makes the loss for this new variance smaller unless it does
not move, for every small step size. -/
theorem C57_gauss_natural_update [Nonempty F] (holonomic : Bool) (X : Data ℂ F n t)
    (s : (Fin n → Fin t → ℝ) × (F → Mat n ℂ)) (hv : ∀ k j, 0 < s.1 k j) (hY : ∀ k j, ∃ f, sep X s.2 f k j ≠ 0)
    (hW : ∀ f, IsUnit (s.2 f).det) :
    (∀ μ, gaussLoss X ((naturalGaussStep μ holonomic X s).1, s.2) ≤ gaussLoss X s ∧
      ((naturalGaussStep μ holonomic X s).1 ≠ s.1 →
        gaussLoss X ((naturalGaussStep μ holonomic X s).1, s.2) < gaussLoss X s)) ∧
    ((naturalGaussStep 1 holonomic X s).2 ≠ s.2 → ∃ μ₀ > 0, ∀ μ, 0 < μ → μ < μ₀ →
      gaussLoss X (naturalGaussStep μ holonomic X s) < gaussLoss X ((naturalGaussStep μ holonomic X s).1, s.2)) := by
  refine ⟨fun μ => variance_step X s hv hY, fun hmove => ?_⟩
  exact C57_natural_descent 2 two_pos holonomic (ivaGaussContrast (Iva.gaussVariance (sep X s.2)))
    (ivaGaussScore (Iva.gaussVariance (sep X s.2))) X s.2 hW (C57_gauss_iva _ _) hmove

/-- C57: the same for GradGaussIVA with the default `is_holonomic=True`. -/
theorem C57_gauss_gradient_update [Nonempty F] (X : Data ℂ F n t)
    (s : (Fin n → Fin t → ℝ) × (F → Mat n ℂ)) (hv : ∀ k j, 0 < s.1 k j) (hY : ∀ k j, ∃ f, sep X s.2 f k j ≠ 0)
    (hW : ∀ f, IsUnit (s.2 f).det) :
    ∃ v : Fin n → Fin t → ℝ, (∀ μ, ∃ W, gradGaussStep μ true X s = .ok (v, W)) ∧
      gaussLoss X (v, s.2) ≤ gaussLoss X s ∧ (v ≠ s.1 → gaussLoss X (v, s.2) < gaussLoss X s) ∧
      (gradGaussStep 1 true X s ≠ .ok (v, s.2) → ∃ μ₀ > 0, ∀ μ, 0 < μ → μ < μ₀ →
        ∃ W, gradGaussStep μ true X s = .ok (v, W) ∧ gaussLoss X (v, W) < gaussLoss X (v, s.2)) := by
  obtain ⟨h1, h2⟩ := variance_step X s hv hY
  refine ⟨Iva.gaussVariance (sep X s.2), fun μ => ?_, h1, h2, fun hmove => ?_⟩
  · exact ⟨_, by rw [gradGaussStep, gradStep_ok _ _ _ _ _ hW]; rfl⟩
  · obtain ⟨μ₀, h3, h4⟩ := C57_gradient_descent 2 two_pos (ivaGaussContrast (Iva.gaussVariance (sep X s.2)))
      (ivaGaussScore (Iva.gaussVariance (sep X s.2))) X s.2 hW (C57_gauss_iva _ _) (fun h => hmove (by
        rw [gradGaussStep]
        rw [h]
        rfl))
    refine ⟨μ₀, h3, fun μ h5 h6 => ?_⟩
    obtain ⟨W', h7, h8⟩ := h4 μ h5 h6
    refine ⟨W', ?_, h8⟩
    rw [gradGaussStep]
    rw [h7]
    rfl

/-- Two sources, one bin, two frames: both the variance and the filter move. -/
example : ∃ μ₀ > 0, ∀ μ, 0 < μ → μ < μ₀ →
    gaussLoss (fun _ : Unit => (!![1, 2; 3, 5] : Matrix (Fin 2) (Fin 2) ℂ))
        (naturalGaussStep μ false (fun _ => !![1, 2; 3, 5]) (fun _ _ => 1, fun _ => 1)) <
      gaussLoss (fun _ : Unit => (!![1, 2; 3, 5] : Matrix (Fin 2) (Fin 2) ℂ)) (fun _ _ => 1, fun _ => 1) := by
  obtain ⟨h1, h2⟩ := C57_gauss_natural_update false (fun _ : Unit => (!![1, 2; 3, 5] : Matrix (Fin 2) (Fin 2) ℂ))
    (fun _ _ => 1, fun _ => 1) (fun _ _ => one_pos) (fun k j => ⟨(), by
      fin_cases k <;> fin_cases j <;> simp [sep]⟩) (fun _ => by simp)
  obtain ⟨μ₀, h3, h4⟩ := h2 (by
    intro h
    have := congrFun (congrFun (congrFun h ()) 0) 1
    simp [naturalGaussStep, naturalStep, factor, phiY, ivaGaussScore, Iva.gaussVariance, sep, meanT,
      Fin.sum_univ_two, -map_ofNat] at this
    have := congrArg Complex.re this
    norm_num at this)
  exact ⟨μ₀, h3, fun μ h5 h6 => (h4 μ h5 h6).trans_le (h1 μ).1⟩

end Verif.Grad
