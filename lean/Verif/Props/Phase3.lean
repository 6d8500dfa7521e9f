import Verif.Props.Phase2

/-!
C83 for the remaining variants: AuxGaussIVA and partitioned ILRMA with IPA, the gradient methods with the Gauss model, and the
losses of AuxGaussIVA, AuxFDICA and the gradient methods.
-/

set_option linter.unusedSectionVars false

namespace Verif

open Matrix Spatial Scale Lifecycle

variable {F : Type} [Fintype F] {n t K : ℕ} {u : F → Fin t → ℂ}

section

variable (hu : ∀ f s, ‖u f s‖ = 1)
include hu

namespace Iva

/-- C83 for AuxGaussIVA with IPA. -/
theorem C83_gauss_ipa (np : Numpy ℂ) (floor : ℝ → ℝ) (normalization : Bool) (newton_iter : ℕ) (s : GaussSignal F (n + 2) t)
    (n_iter : ℕ) :
    iterM (gaussIpa np floor normalization newton_iter) n_iter (s.turn u)
      = Except.map (GaussSignal.turn u) (iterM (gaussIpa np floor normalization newton_iter) n_iter s) := by
  refine iterM_map _ _ (GaussSignal.turn u) (fun s => ?_) n_iter s
  rw [gaussIpa, gaussIpa, show (s.turn u).Y = turn u s.Y from rfl, gaussVariance_turn hu]
  simp only [auxIpa, weight_turn hu, ipa_turn hu]
  rw [bind_map, map_bind]
  rfl

/-- C83: the losses of AuxGaussIVA are the same. -/
theorem C83_gauss_loss (X : Spec F n t) (w : GaussState F n t) (s : GaussSignal F n t) :
    gaussLoss (turn u X) w = gaussLoss X w ∧ gaussLossFree (turn u X) (s.turn u) = gaussLossFree X s :=
  ⟨(C83_loss hu (gaussG F w.variance) X s.Y w.W).1, (C83_loss hu (gaussG F s.variance) X s.Y w.W).2⟩

end Iva

namespace Fdica

/-- C83: the loss of AuxFDICA is the same. -/
theorem C83_loss (G : ℝ → ℝ) (X : Spec F n t) (W : F → Mat n ℂ) : loss G (turn u X) W = loss G X W := by
  simp only [loss, separate_turn, turn_norm hu]

end Fdica

namespace Grad

theorem gaussScore_turn (v : Fin n → Fin t → ℝ) (Y : Data ℂ F n t) : ivaGaussScore v (turn u Y) = turn u (ivaGaussScore v Y) := by
  funext f
  ext k s
  simp only [ivaGaussScore, turn_apply, Matrix.of_apply]
  ring

/-- C83 for GradGaussIVA and NaturalGradGaussIVA. -/
theorem C83_gradient_gauss (step_size : ℝ) (holonomic : Bool) (X : Data ℂ F n t) (s : (Fin n → Fin t → ℝ) × (F → Mat n ℂ))
    (n_iter : ℕ) :
    iterM (gradGaussStep step_size holonomic (turn u X)) n_iter s = iterM (gradGaussStep step_size holonomic X) n_iter s ∧
    (naturalGaussStep step_size holonomic (turn u X))^[n_iter] s = (naturalGaussStep step_size holonomic X)^[n_iter] s := by
  have e1 : gradGaussStep step_size holonomic (turn u X) = gradGaussStep step_size holonomic X := by
    funext s
    simp only [gradGaussStep, gradStep, sep_turn, Iva.gaussVariance_turn hu, phiY_turn hu _ (gaussScore_turn hu _)]
  have e2 : naturalGaussStep step_size holonomic (turn u X) = naturalGaussStep step_size holonomic X := by
    funext s
    simp only [naturalGaussStep, naturalStep, sep_turn, Iva.gaussVariance_turn hu, phiY_turn hu _ (gaussScore_turn hu _)]
  rw [e1, e2]
  exact ⟨rfl, rfl⟩

/-- C83: the losses of the Laplace and Gauss gradient methods are the same. -/
theorem C83_gradient_loss (c : ℝ) (v : Fin n → Fin t → ℝ) (X : Data ℂ F n t) (W : F → Mat n ℂ) :
    loss c ivaLaplaceContrast (turn u X) W = loss c ivaLaplaceContrast X W ∧
    loss c fdicaLaplaceContrast (turn u X) W = loss c fdicaLaplaceContrast X W ∧
    loss c (ivaGaussContrast v) (turn u X) W = loss c (ivaGaussContrast v) X W := by
  refine ⟨?_, ?_, ?_⟩
  · simp only [loss, sep_turn]
    unfold ivaLaplaceContrast
    rw [Iva.binNorm_turn hu]
  · simp only [loss, sep_turn]
    unfold fdicaLaplaceContrast
    simp only [turn_norm hu]
  · simp only [loss, sep_turn]
    unfold ivaGaussContrast
    rw [Iva.binNorm_turn hu]

end Grad

namespace Ilrma

/-- C83 for partitioned ILRMA with IPA. -/
theorem C83_ilrma_partitioned_ipa (np : Numpy ℂ) (src : Source) (p : ℝ) (normalization : Bool) (newton_iter : ℕ)
    (norm : Norm (n + 2)) (floor : ℝ → ℝ) (s : StYP F (n + 2) t K) (n_iter : ℕ) :
    iterM (updateOnceIpaP np src p normalization newton_iter norm floor) n_iter (s.turn u)
      = Except.map (StYP.turn u) (iterM (updateOnceIpaP np src p normalization newton_iter norm floor) n_iter s) := by
  refine iterM_map _ _ (StYP.turn u) (fun s => ?_) n_iter s
  rw [updateOnceIpaP, updateOnceIpaP, updateSpatialIpaP, updateSpatialIpaP, updateSourceYP_turn hu]
  obtain ⟨v, hv⟩ : ∃ v, v = updateSourceYP src floor s := ⟨_, rfl⟩
  rw [← hv, show (v.turn u).Y = Verif.turn u v.Y from rfl, varphi_turn hu, ipa_turn hu]
  change (Except.map _ (ipa np floor normalization newton_iter (varphi src floor v.Y (reconP v.Z v.T v.V)) v.Y) >>= _)
    >>= _ = _
  cases ipa np floor normalization newton_iter (varphi src floor v.Y (reconP v.Z v.T v.V)) v.Y with
  | error => rfl
  | ok Y => exact normalizeYP_turn hu p floor norm ⟨Y, v.Z, v.T, v.V⟩

end Ilrma

end

/-- A recording turned by a quarter in every frame. -/
example (np : Numpy ℂ) (floor : ℝ → ℝ) (s : Iva.GaussSignal (Fin 2) 3 4) (n_iter : ℕ) :
    iterM (Iva.gaussIpa np floor true 1) n_iter (s.turn fun _ _ => Complex.I)
      = Except.map (Iva.GaussSignal.turn fun _ _ => Complex.I) (iterM (Iva.gaussIpa np floor true 1) n_iter s) :=
  Iva.C83_gauss_ipa (fun _ _ => Complex.norm_I) np floor true 1 s n_iter

end Verif
