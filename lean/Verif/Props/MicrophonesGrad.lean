import Verif.Props.MicrophonesAll
import Verif.Props.Grad

/-!
# C118 for complete calls of the natural gradient methods

Each theorem has two parts: outputs and filters for all recordings and starts, and the losses as long as the filters are invertible.
-/

set_option linter.unusedSectionVars false

namespace Verif.Microphones

open Matrix Spatial Scale Lifecycle Permutation
open IlrmaCall (override attrOr baseCall)
open Relabel (mapA)
open Grad (Data sep)

section
variable {𝕜 : Type} [RCLike 𝕜] {F : Type} {n t : ℕ} {A : F → Mat n 𝕜} (hA : ∀ f, IsUnit (A f).det)
include hA

theorem sep_moved (X : Data 𝕜 F n t) (W : F → Mat n 𝕜) : sep (fun f => A f * X f) (fun f => W f * (A f)⁻¹) = sep X W := by
  funext f
  rw [sep, sep, Matrix.mul_assoc, nonsing_inv_mul_cancel_left _ _ (hA f)]

theorem natural_moved (step_size : ℝ) (holonomic : Bool) (score : Data 𝕜 F n t → Data 𝕜 F n t) (X : Data 𝕜 F n t)
    (W : F → Mat n 𝕜) : Grad.naturalStep step_size holonomic score (fun f => A f * X f) (fun f => W f * (A f)⁻¹)
      = fun f => Grad.naturalStep step_size holonomic score X W f * (A f)⁻¹ := by
  funext f
  simp only [Grad.naturalStep, sep_moved hA]
  rw [Matrix.sub_mul, Matrix.smul_mul, Matrix.mul_assoc]

theorem gradLoss_moved [Fintype F] {ι : Type} [Fintype ι] (c : ℝ) (contrast : Data 𝕜 F n t → ι → Fin t → ℝ) (X : Data 𝕜 F n t)
    {W : F → Mat n 𝕜} (hW : ∀ f, IsUnit (W f).det) :
    Grad.loss c contrast (fun f => A f * X f) (fun f => W f * (A f)⁻¹)
      = Grad.loss c contrast X W + c * ∑ f, Real.log ‖(A f).det‖ := by
  have e : ∀ f, Real.log ‖(W f * (A f)⁻¹).det‖ = Real.log ‖(W f).det‖ - Real.log ‖(A f).det‖ := fun f => by
    have h1 : ‖(W f).det‖ ≠ 0 := norm_ne_zero_iff.mpr (hW f).ne_zero
    have h2 : ‖(A f).det‖ ≠ 0 := norm_ne_zero_iff.mpr (hA f).ne_zero
    rw [det_mul, det_nonsing_inv, Ring.inverse_eq_inv', norm_mul, norm_inv, Real.log_mul h1 (inv_ne_zero h2),
      Real.log_inv, sub_eq_add_neg]
  simp only [Grad.loss, sep_moved hA, e, Finset.sum_sub_distrib]
  ring

end

/-- C118 for `NaturalGradICA` and its subclasses, which have no reference channel: the output is the same. -/
theorem C118_naturalIca {n t : ℕ} {A : Unit → Mat n ℝ} (hA : ∀ f, IsUnit (A f).det) (step_size : ℝ) (holonomic : Bool)
    (contrast : Data ℝ Unit n t → Fin n → Fin t → ℝ) (score : Data ℝ Unit n t → Data ℝ Unit n t) (X : Data ℝ Unit n t)
    (n_iter : ℕ) (ic : Bool) (W : Unit → Mat n ℝ) :
    (GradCall.icaCall .natural step_size holonomic contrast score (fun f => A f * X f) n_iter ic (some fun f => W f * (A f)⁻¹)
        .fresh).map (fun o => (o.demix, o.output))
      = (GradCall.icaCall .natural step_size holonomic contrast score X n_iter ic (some W) .fresh).map (fun o =>
        (mapA (fun V f => V f * (A f)⁻¹) o.demix, o.output)) ∧
    (Keeps (GradCall.descend .natural step_size holonomic score X) (fun W => ∀ f, IsUnit (W f).det) n_iter W →
      (GradCall.icaCall .natural step_size holonomic contrast score (fun f => A f * X f) n_iter ic (some fun f => W f * (A f)⁻¹)
          .fresh).map (fun o => o.loss)
        = (GradCall.icaCall .natural step_size holonomic contrast score X n_iter ic (some W) .fresh).map fun o =>
          o.loss.map (· + 1 * ∑ f, Real.log ‖(A f).det‖)) := by
  have hs : ∀ W, GradCall.descend .natural step_size holonomic score (fun f => A f * X f) ((fun W f => W f * (A f)⁻¹) W)
      = Except.map (fun W f => W f * (A f)⁻¹) (GradCall.descend .natural step_size holonomic score X W) := fun W =>
    congrArg Except.ok (natural_moved hA step_size holonomic score X W)
  constructor
  · have hrun := run_cases (loss := fun W => .ok (Grad.loss 1 contrast X W))
      (loss' := fun W => .ok (Grad.loss 1 contrast (fun f => A f * X f) W)) hs (fun _ => ok_raises _ _) ic n_iter W [] []
    simp only [GradCall.icaCall, GradCall.reset, override, bind, Except.bind, GradCall.Obj.fresh]
    rcases hrun with ⟨y, e1, e2⟩ | ⟨a, l, l', e1, e2⟩
    · simp only [e1, e2]; rfl
    · simp only [e1, e2, sep_moved hA]; rfl
  · intro h
    have hrun := run_moved (loss := fun W => .ok (Grad.loss 1 contrast X W))
      (loss' := fun W => .ok (Grad.loss 1 contrast (fun f => A f * X f) W)) (c := 1 * ∑ f, Real.log ‖(A f).det‖) hs
      (fun W hW => congrArg Except.ok (gradLoss_moved hA 1 contrast X hW)) ic h
    simp only [GradCall.icaCall, GradCall.reset, override, bind, Except.bind, GradCall.Obj.fresh, hrun]
    cases baseCall (GradCall.descend .natural step_size holonomic score X) (fun W => .ok (Grad.loss 1 contrast X W)) ic n_iter W []
      <;> rfl

section
variable {F : Type} [Fintype F] {n t : ℕ} {A : F → Mat n ℂ} (hA : ∀ f, IsUnit (A f).det) {g : F → ℂ} {r r' : Fin n}
  {sr : ScaleOpt} (hR : Reference sr r r' A g)
include hA hR

/-- C118 for `NaturalGradIVA` and `NaturalGradLaplaceIVA`. -/
theorem C118_naturalIva (step_size : ℝ) (holonomic : Bool)
    (contrast : Data ℂ F n t → Fin n → Fin t → ℝ) (score : Data ℂ F n t → Data ℂ F n t) (X : Data ℂ F n t)
    (n_iter : ℕ) (ic : Bool) (W : F → Mat n ℂ) :
    (GradCall.ivaCall .natural sr r' step_size holonomic contrast score (fun f => A f * X f) n_iter ic
        (some fun f => W f * (A f)⁻¹) .fresh).map (fun o => (o.demix, o.output))
      = (GradCall.ivaCall .natural sr r step_size holonomic contrast score X n_iter ic (some W) .fresh).map (fun o =>
        (mapA (fun V f => g f • (V f * (A f)⁻¹)) o.demix, mapA (fun Y f => g f • Y f) o.output)) ∧
    (Keeps (GradCall.descend .natural step_size holonomic score X) (fun W => ∀ f, IsUnit (W f).det) n_iter W →
      (GradCall.ivaCall .natural sr r' step_size holonomic contrast score (fun f => A f * X f) n_iter ic
          (some fun f => W f * (A f)⁻¹) .fresh).map (fun o => o.loss)
        = (GradCall.ivaCall .natural sr r step_size holonomic contrast score X n_iter ic (some W) .fresh).map fun o =>
          o.loss.map (· + 2 * ∑ f, Real.log ‖(A f).det‖)) := by
  have hs : ∀ W, GradCall.descend .natural step_size holonomic score (fun f => A f * X f) ((fun W f => W f * (A f)⁻¹) W)
      = Except.map (fun W f => W f * (A f)⁻¹) (GradCall.descend .natural step_size holonomic score X W) := fun W =>
    congrArg Except.ok (natural_moved hA step_size holonomic score X W)
  have hfin : ∀ W : F → Mat n ℂ, finish sr r' (fun f => A f * X f) (fun f => W f * (A f)⁻¹)
      = (finish sr r X W).map fun q => (times g q.1, moved A g q.2) := C118_finish hA hR X
  constructor
  · have hrun := run_cases (loss := fun W => .ok (Grad.loss 2 contrast X W))
      (loss' := fun W => .ok (Grad.loss 2 contrast (fun f => A f * X f) W)) hs (fun _ => ok_raises _ _) ic n_iter W [] []
    simp only [GradCall.ivaCall, GradCall.reset, override, bind, Except.bind, GradCall.Obj.fresh]
    rcases hrun with ⟨y, e1, e2⟩ | ⟨a, l, l', e1, e2⟩
    · simp only [e1, e2]; rfl
    · simp only [e1, e2, hfin]
      cases finish sr r X a <;> rfl
  · intro h
    have hrun := run_moved (loss := fun W => .ok (Grad.loss 2 contrast X W))
      (loss' := fun W => .ok (Grad.loss 2 contrast (fun f => A f * X f) W)) (c := 2 * ∑ f, Real.log ‖(A f).det‖) hs
      (fun W hW => congrArg Except.ok (gradLoss_moved hA 2 contrast X hW)) ic h
    simp only [GradCall.ivaCall, GradCall.reset, override, bind, Except.bind, GradCall.Obj.fresh, hrun]
    cases baseCall (GradCall.descend .natural step_size holonomic score X) (fun W => .ok (Grad.loss 2 contrast X W)) ic n_iter W []
    with
    | error => rfl
    | ok q =>
      simp only [Except.map, hfin]
      cases finish sr r X q.1 <;> rfl

/-- C118 for `NaturalGradGaussIVA`. -/
theorem C118_naturalGaussIva (step_size : ℝ) (holonomic : Bool) (X : Data ℂ F n t) (n_iter : ℕ) (ic : Bool) (W : F → Mat n ℂ) :
    (GradCall.gaussIvaCall .natural sr r' step_size holonomic (fun f => A f * X f) n_iter ic
        (some fun f => W f * (A f)⁻¹) .fresh).map (fun o => (o.demix, o.output))
      = (GradCall.gaussIvaCall .natural sr r step_size holonomic X n_iter ic (some W) .fresh).map (fun o =>
        (mapA (fun V f => g f • (V f * (A f)⁻¹)) o.demix, mapA (fun Y f => g f • Y f) o.output)) ∧
    (Keeps (GradCall.descendGauss .natural step_size holonomic X) (fun s => ∀ f, IsUnit (s.2 f).det) n_iter (fun _ _ => 1, W) →
      (GradCall.gaussIvaCall .natural sr r' step_size holonomic (fun f => A f * X f) n_iter ic
          (some fun f => W f * (A f)⁻¹) .fresh).map (fun o => o.loss)
        = (GradCall.gaussIvaCall .natural sr r step_size holonomic X n_iter ic (some W) .fresh).map fun o =>
          o.loss.map (· + 2 * ∑ f, Real.log ‖(A f).det‖)) := by
  obtain ⟨e, he⟩ : ∃ e : (Fin n → Fin t → ℝ) × (F → Mat n ℂ) → (Fin n → Fin t → ℝ) × (F → Mat n ℂ),
      ∀ s, e s = (s.1, fun f => s.2 f * (A f)⁻¹) := ⟨_, fun _ => rfl⟩
  have hs : ∀ s, GradCall.descendGauss .natural step_size holonomic (fun f => A f * X f) (e s)
      = Except.map e (GradCall.descendGauss .natural step_size holonomic X s) := fun s => by
    simp only [GradCall.descendGauss, Grad.naturalGaussStep, Except.map, he, sep_moved hA, natural_moved hA]
  have hfin : ∀ W : F → Mat n ℂ, finish sr r' (fun f => A f * X f) (fun f => W f * (A f)⁻¹)
      = (finish sr r X W).map fun q => (times g q.1, moved A g q.2) := C118_finish hA hR X
  have h0 : ((fun _ _ => 1, fun f => W f * (A f)⁻¹) : (Fin n → Fin t → ℝ) × (F → Mat n ℂ)) = e (fun _ _ => 1, W) := (he (fun _ _ => 1, W)).symm
  constructor
  · have hrun := run_cases (loss := fun s => .ok (Grad.loss 2 (Grad.ivaGaussContrast s.1) X s.2))
      (loss' := fun s => .ok (Grad.loss 2 (Grad.ivaGaussContrast s.1) (fun f => A f * X f) s.2)) hs (fun _ => ok_raises _ _) ic
      n_iter (fun _ _ => 1, W) [] []
    simp only [GradCall.gaussIvaCall, GradCall.reset, override, bind, Except.bind, GradCall.Obj.fresh, h0]
    rcases hrun with ⟨y, e1, e2⟩ | ⟨a, l, l', e1, e2⟩
    · simp only [e1, e2]; rfl
    · simp only [e1, e2]
      simp only [he, hfin]
      cases finish sr r X a.2 <;> rfl
  · intro h
    have hrun := run_moved (loss := fun s => .ok (Grad.loss 2 (Grad.ivaGaussContrast s.1) X s.2))
      (loss' := fun s => .ok (Grad.loss 2 (Grad.ivaGaussContrast s.1) (fun f => A f * X f) s.2))
      (c := 2 * ∑ f, Real.log ‖(A f).det‖) hs
      (fun s hW => congrArg Except.ok (by rw [he]; exact gradLoss_moved hA 2 _ X hW)) ic h
    simp only [GradCall.gaussIvaCall, GradCall.reset, override, bind, Except.bind, GradCall.Obj.fresh, h0, hrun]
    cases baseCall (GradCall.descendGauss .natural step_size holonomic X)
      (fun s => .ok (Grad.loss 2 (Grad.ivaGaussContrast s.1) X s.2)) ic n_iter (fun _ _ => 1, W) [] with
    | error => rfl
    | ok q =>
      simp only [Except.map, he, hfin]
      cases finish sr r X q.1.2 <;> rfl

end

/-- C118 for `NaturalGradFDICA` and `NaturalGradLaplaceFDICA` with any setting of `permutation_alignment`. -/
theorem C118_naturalFdica {B n t : ℕ} {A : Fin B → Mat n ℂ} (hA : ∀ f, IsUnit (A f).det) {g : Fin B → ℂ} {r r' : Fin n}
    {sr : ScaleOpt} (hR : Reference sr r r' A g) (sort : Argsort) (opt : Fdica.PermOpt) (floor : ℝ → ℝ) (step_size : ℝ)
    (holonomic : Bool) (contrast : Data ℂ (Fin B) n t → Fin B × Fin n → Fin t → ℝ)
    (score : Data ℂ (Fin B) n t → Data ℂ (Fin B) n t) (X : Data ℂ (Fin B) n t) (n_iter : ℕ) (ic : Bool) (W : Fin B → Mat n ℂ) :
    (GradCall.fdicaCall sort .natural opt floor sr r' step_size holonomic contrast score (fun f => A f * X f) n_iter ic
        (some fun f => W f * (A f)⁻¹) .fresh).map (fun o => (o.demix, o.output))
      = (GradCall.fdicaCall sort .natural opt floor sr r step_size holonomic contrast score X n_iter ic (some W) .fresh).map
        (fun o => (mapA (fun V f => g f • (V f * (A f)⁻¹)) o.demix, mapA (fun Y f => g f • Y f) o.output)) ∧
    (Keeps (GradCall.descend .natural step_size holonomic score X) (fun W => ∀ f, IsUnit (W f).det) n_iter W →
      (GradCall.fdicaCall sort .natural opt floor sr r' step_size holonomic contrast score (fun f => A f * X f) n_iter ic
          (some fun f => W f * (A f)⁻¹) .fresh).map (fun o => o.loss)
        = (GradCall.fdicaCall sort .natural opt floor sr r step_size holonomic contrast score X n_iter ic (some W) .fresh).map
          fun o => o.loss.map (· + 2 * ∑ f, Real.log ‖(A f).det‖)) := by
  have hs : ∀ W, GradCall.descend .natural step_size holonomic score (fun f => A f * X f) ((fun W f => W f * (A f)⁻¹) W)
      = Except.map (fun W f => W f * (A f)⁻¹) (GradCall.descend .natural step_size holonomic score X W) := fun W =>
    congrArg Except.ok (natural_moved hA step_size holonomic score X W)
  have hfin : ∀ W : Fin B → Mat n ℂ, Fdica.finishAligned sort opt floor sr r' (fun f => A f * X f) (fun f => W f * (A f)⁻¹)
      = (Fdica.finishAligned sort opt floor sr r X W).map fun q => (times g q.1, moved A g q.2) :=
    finishAligned_unmix hA hR sort opt floor X
  constructor
  · have hrun := run_cases (loss := fun W => .ok (Grad.loss 2 contrast X W))
      (loss' := fun W => .ok (Grad.loss 2 contrast (fun f => A f * X f) W)) hs (fun _ => ok_raises _ _) ic n_iter W [] []
    simp only [GradCall.fdicaCall, GradCall.reset, override, bind, Except.bind, GradCall.Obj.fresh]
    rcases hrun with ⟨y, e1, e2⟩ | ⟨a, l, l', e1, e2⟩
    · simp only [e1, e2]; rfl
    · simp only [e1, e2, hfin]
      cases Fdica.finishAligned sort opt floor sr r X a <;> rfl
  · intro h
    have hrun := run_moved (loss := fun W => .ok (Grad.loss 2 contrast X W))
      (loss' := fun W => .ok (Grad.loss 2 contrast (fun f => A f * X f) W)) (c := 2 * ∑ f, Real.log ‖(A f).det‖) hs
      (fun W hW => congrArg Except.ok (gradLoss_moved hA 2 contrast X hW)) ic h
    simp only [GradCall.fdicaCall, GradCall.reset, override, bind, Except.bind, GradCall.Obj.fresh, hrun]
    cases baseCall (GradCall.descend .natural step_size holonomic score X) (fun W => .ok (Grad.loss 2 contrast X W)) ic n_iter W []
    with
    | error => rfl
    | ok q =>
      simp only [Except.map, hfin]
      cases Fdica.finishAligned sort opt floor sr r X q.1 <;> rfl

/-- `NaturalGradLaplaceIVA`, projection back to channel 0 of the old recording, which is channel 1 of the new one. -/
example (step_size : ℝ) (contrast : Data ℂ (Fin 3) 2 4 → Fin 2 → Fin 4 → ℝ) (score : Data ℂ (Fin 3) 2 4 → Data ℂ (Fin 3) 2 4)
    (n_iter : ℕ) :
    (GradCall.ivaCall .natural (.bool true) 1 step_size true contrast score (fun f => exB * FlooredCall.exX f) n_iter true
        (some fun _ => 1 * exB⁻¹) .fresh).map (fun o => (o.demix, o.output))
      = (GradCall.ivaCall .natural (.bool true) 0 step_size true contrast score FlooredCall.exX n_iter true
          (some fun _ => 1) .fresh).map fun o =>
        (mapA (fun V f => (1 : ℂ) • (V f * exB⁻¹)) o.demix, mapA (fun Y f => (1 : ℂ) • Y f) o.output) :=
  (C118_naturalIva (A := fun _ => exB) (g := fun _ => 1) (fun _ => by rw [exB, det_fin_two_of]; norm_num)
    (.inr ⟨.inl (.inl rfl), fun f c => by fin_cases c <;> simp [exB]⟩) step_size true contrast score FlooredCall.exX n_iter
    true _).1

/-- The losses: with the score of a Gaussian source model and one iteration the filter stays invertible. -/
example (contrast : Data ℝ Unit 2 2 → Fin 2 → Fin 2 → ℝ) :
    (GradCall.icaCall .natural (1 / 10) true contrast id (fun _ => !![1, 1; 1, 0] * 1) 1 true
        (some fun _ => 1 * !![1, 1; 1, 0]⁻¹) .fresh).map (fun o => o.loss)
      = (GradCall.icaCall .natural (1 / 10) true contrast id (fun _ => 1) 1 true (some fun _ => 1) .fresh).map fun o =>
        o.loss.map (· + 1 * ∑ _f : Unit, Real.log ‖(!![1, 1; 1, 0] : Mat 2 ℝ).det‖) := by
  refine (C118_naturalIca (A := fun _ => !![1, 1; 1, 0]) (fun _ => by rw [det_fin_two_of]; norm_num) (1 / 10) true contrast id
    (fun _ => 1) 1 true (fun _ => 1)).2 ⟨fun _ => by rw [det_one]; exact isUnit_one, fun a ha => ?_⟩
  have e : Grad.naturalStep (𝕜 := ℝ) (1 / 10) true id (fun _ : Unit => (1 : Matrix (Fin 2) (Fin 2) ℝ)) (fun _ => 1) = a :=
    Except.ok.inj ha
  intro f
  have h : a f = !![1 + 1 / 20, 0; 0, 1 + 1 / 20] := by
    rw [← e]
    ext i j
    fin_cases i <;> fin_cases j <;>
      simp [Grad.naturalStep, Grad.factor, Grad.phiY, Grad.sep, Spatial.meanT, Matrix.one_apply] <;> norm_num
  rw [h, det_fin_two_of]
  norm_num

end Verif.Microphones
