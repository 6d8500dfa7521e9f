import Verif.Props.MicrophonesPart

/-!
# C118 for ILRMA with normalisation by projection back

The normalisation refers to a recorded channel, `q` in the old recording. It is the same computation in the new recording if channel
`q'` of that is channel `q` of the old one.
-/

set_option linter.unusedSectionVars false

namespace Verif.Microphones

open Matrix Spatial Scale Lifecycle
open IlrmaCall (override attrOr baseCall)
open Relabel (mapA)

section
variable {F : Type} [Fintype F] {n t K : ℕ} {A : F → Mat n ℂ} (hA : ∀ f, IsUnit (A f).det) {g : F → ℂ} {r r' q q' : Fin n}
  {sr : ScaleOpt} (hq : ∀ f c, A f q' c = if c = q then 1 else 0) (hR : Reference sr r r' A g)

omit [Fintype F] in
theorem mulRows_unmix (scale : F → Fin n → ℂ) (W : F → Mat n ℂ) :
    Ilrma.mulRows scale (unmix A W) = unmix A (Ilrma.mulRows scale W) := by
  funext f
  ext k j
  simp only [Ilrma.mulRows, unmix, Matrix.of_apply, Matrix.mul_apply, Finset.sum_mul]
  exact Finset.sum_congr rfl fun i _ => by ring

include hA hq

theorem normalize_unmix (p : ℝ) (floor : ℝ → ℝ) (X : Spec F n t) (s : Ilrma.St F n t K) :
    Ilrma.normalize p floor (remix A X) (.projectionBack q') (s.unmix A)
      = Except.map (Ilrma.St.unmix A) (Ilrma.normalize p floor X (.projectionBack q) s) := by
  simp only [Ilrma.normalize, Ilrma.St.unmix, npInvB_unmix hA]
  cases npInvB s.W with
  | error => rfl
  | ok I =>
    have e : (fun f k => (A f * I f) q' k) = fun f k => I f q k := funext fun f => funext fun k => by rw [row_mul (hq f), one_mul]
    simp only [Except.map, bind, Except.bind]
    rw [e, mulRows_unmix]
    rfl

theorem updateOnce_unmix (np : Numpy ℂ) (src : Ilrma.Source) (p : ℝ) (alg : Ilrma.FilterAlg n) (floor : ℝ → ℝ) (X : Spec F n t)
    (s : Ilrma.St F n t K) : Ilrma.updateOnce np src p alg (.projectionBack q') floor (remix A X) (s.unmix A)
      = Except.map (Ilrma.St.unmix A) (Ilrma.updateOnce np src p alg (.projectionBack q) floor X s) := by
  simp only [Ilrma.updateOnce, Ilrma.updateSpatial, Ilrma.updateSource, Ilrma.St.unmix, separate_remix A hA,
    Ilrma.spatialFilter_remix A hA]
  cases Ilrma.spatialFilter np alg floor _ X s.W with
  | error => rfl
  | ok W => exact normalize_unmix hA hq p floor X ⟨W, _, _⟩

theorem updateOnceY_remix (np : Numpy ℂ) (src : Ilrma.Source) (p : ℝ) (alg : Ilrma.SignalAlg n) (floor : ℝ → ℝ) (X : Spec F n t)
    (s : Ilrma.StY F n t K) : Ilrma.updateOnceY np src p alg (.projectionBack q') floor (remix A X) s
      = Ilrma.updateOnceY np src p alg (.projectionBack q) floor X s := by
  simp only [Ilrma.updateOnceY, Ilrma.normalizeY]
  congr 1
  funext s
  congr 1
  funext I
  have e : (fun f k => (remix A X f * (s.Y f)ᴴ * I f) q' k) = fun f k => (X f * (s.Y f)ᴴ * I f) q k :=
    funext fun f => funext fun k => by
      rw [show remix A X f * (s.Y f)ᴴ * I f = A f * (X f * (s.Y f)ᴴ * I f) by rw [remix]; simp only [Matrix.mul_assoc],
        row_mul (hq f), one_mul]
  rw [e]

include hR

/-- C118 for `GaussILRMA`, `TILRMA` and `GGDILRMA` with IP1 or IP2 and normalisation by projection back. -/
theorem C118_ilrma_projectionBack (np : Numpy ℂ) (src : Ilrma.Source) (p : ℝ) (alg : Ilrma.FilterAlg n) (floor : ℝ → ℝ)
    (draw : IlrmaCall.Draw F n t K) (X : Spec F n t) (n_iter : ℕ) (ic : Bool)
    {W : F → Mat n ℂ} {T : Fin n → F → Fin K → ℝ} {V : Fin n → Fin K → Fin t → ℝ}
    (h : Keeps (Ilrma.updateOnce np src p alg (.projectionBack q) floor X) (fun s => ∀ f, IsUnit (s.W f).det) n_iter ⟨W, T, V⟩) :
    IlrmaCall.call np src p alg (.projectionBack q') floor sr r' draw (fun f => A f * X f) n_iter ic
        ⟨some fun f => W f * (A f)⁻¹, some T, some V⟩ .fresh
      = (IlrmaCall.call np src p alg (.projectionBack q) floor sr r draw X n_iter ic ⟨some W, some T, some V⟩ .fresh).map fun o =>
        ⟨mapA (fun V f => g f • (V f * (A f)⁻¹)) o.demix, o.basis, o.activation, mapA (fun Y f => g f • Y f) o.output,
          o.loss.map (· + 2 * ∑ f, Real.log ‖(A f).det‖)⟩ := by
  have hrun := run_moved (loss := fun s => .ok (Ilrma.loss src X s)) (loss' := fun s => .ok (Ilrma.loss src (remix A X) s))
    (c := shift A) (updateOnce_unmix hA hq np src p alg floor X) (fun s hW => congrArg Except.ok (by
      rw [Ilrma.loss, show (Ilrma.St.unmix A s).W = unmix A s.W from rfl, separate_remix A hA, lossOf_unmix hA _ _ _ hW]
      rfl)) ic h
  have h1 : ∀ X W, IlrmaCall.resetFilter alg floor draw X ⟨some W, some T, some V⟩ IlrmaCall.Obj.fresh
      = .ok ⟨W, T, V⟩ := by intro X W; cases alg <;> rfl
  change IlrmaCall.call np src p alg (.projectionBack q') floor sr r' draw (remix A X) n_iter ic
    ⟨some (unmix A W), some T, some V⟩ .fresh = _
  rw [IlrmaCall.call, IlrmaCall.call, h1, h1]
  rw [show (⟨unmix A W, T, V⟩ : Ilrma.St F n t K) = Ilrma.St.unmix A ⟨W, T, V⟩ from rfl]
  simp only [bind, Except.bind, IlrmaCall.Obj.fresh, hrun]
  cases baseCall (Ilrma.updateOnce np src p alg (.projectionBack q) floor X) (fun s => .ok (Ilrma.loss src X s)) ic n_iter
    ⟨W, T, V⟩ [] with
  | error => rfl
  | ok a =>
    simp only [Except.map, show (Ilrma.St.unmix A a.1).W = unmix A a.1.W from rfl, C118_finish hA hR]
    cases finish sr r X a.1.W <;> rfl

/-- C118 for ILRMA with ISS1 or ISS2 and normalisation by projection back. -/
theorem C118_ilrma_signal_projectionBack (np : Numpy ℂ) (src : Ilrma.Source) (p : ℝ) (alg : Ilrma.SignalAlg n) (floor : ℝ → ℝ)
    (draw : IlrmaCall.Draw F n t K) (X : Spec F n t) (n_iter : ℕ) (ic : Bool)
    {W : F → Mat n ℂ} {T : Fin n → F → Fin K → ℝ} {V : Fin n → Fin K → Fin t → ℝ}
    (h : Keeps (Ilrma.updateOnceY np src p alg (.projectionBack q) floor X)
      (fun s => ∀ f, IsUnit (s.Y f * (X f)ᴴ * (X f * (X f)ᴴ)⁻¹).det) n_iter ⟨separate X W, T, V⟩) :
    IlrmaCall.callSignal np src p alg (.projectionBack q') floor sr r' draw (fun f => A f * X f) n_iter ic
        ⟨some fun f => W f * (A f)⁻¹, some T, some V⟩ .fresh
      = (IlrmaCall.callSignal np src p alg (.projectionBack q) floor sr r draw X n_iter ic
          ⟨some W, some T, some V⟩ .fresh).map fun o =>
        ⟨.none, o.basis, o.activation, mapA (fun Y f => g f • Y f) o.output, o.loss.map (· + 2 * ∑ f, Real.log ‖(A f).det‖)⟩ := by
  have hs : ∀ s : Ilrma.StY F n t K, Ilrma.updateOnceY np src p alg (.projectionBack q') floor (remix A X) (id s)
      = Except.map id (Ilrma.updateOnceY np src p alg (.projectionBack q) floor X s) := fun s => by
    rw [id, updateOnceY_remix hA hq]
    cases Ilrma.updateOnceY np src p alg (.projectionBack q) floor X s <;> rfl
  have hrun := run_moved (loss := Ilrma.lossY src X) (loss' := Ilrma.lossY src (remix A X)) (c := shift A) hs (fun s hW => by
      have := npInvB_log hA (X := X) (Y := s.Y) (U := Ilrma.lossOf src s.Y (Ilrma.recon s.T s.V)) hW fun W hW =>
        lossOf_unmix hA _ _ _ hW
      simp only [Ilrma.lossY, Ilrma.filterOf, id, bind_assoc]
      exact this) ic h
  have h1 : ∀ X W, IlrmaCall.resetSignal alg floor draw X ⟨some W, some T, some V⟩ IlrmaCall.Obj.fresh
      = .ok ⟨separate X W, T, V⟩ := by intro X W; cases alg <;> rfl
  change IlrmaCall.callSignal np src p alg (.projectionBack q') floor sr r' draw (remix A X) n_iter ic
    ⟨some (unmix A W), some T, some V⟩ .fresh = _
  rw [IlrmaCall.callSignal, IlrmaCall.callSignal, h1, h1, separate_remix A hA]
  simp only [id] at hrun
  simp only [bind, Except.bind, IlrmaCall.Obj.fresh, hrun]
  cases baseCall (Ilrma.updateOnceY np src p alg (.projectionBack q) floor X) (Ilrma.lossY src X) ic n_iter
    ⟨separate X W, T, V⟩ [] with
  | error => rfl
  | ok a =>
    simp only [Except.map, C118_finishFree hA hR]
    cases finishFree sr r X a.1.Y <;> rfl

end

/-! ## Without any hypothesis on the iterations

The losses of a singular filter are not finite, which is the only reason for the hypothesis above. Outputs, filters, bases and
activations correspond for all recordings and starts. -/

section
variable {σ τ : Type} {step : σ → Except PyErr σ} {step' : τ → Except PyErr τ} {loss : σ → ℝ} {loss' : τ → ℝ} {e : σ → τ}
  (hs : ∀ s, step' (e s) = Except.map e (step s))
include hs

theorem iterations_states : ∀ (n_iter : ℕ) (s : σ) (ls ls' : List ℝ),
    (IlrmaCall.iterations step' (fun s => .ok (loss' s)) n_iter (e s) ls').map Prod.fst
      = (IlrmaCall.iterations step (fun s => .ok (loss s)) n_iter s ls).map fun a => e a.1
  | 0, _, _, _ => rfl
  | k + 1, s, ls, ls' => by
    rw [IlrmaCall.iterations, IlrmaCall.iterations, hs]
    cases step s with
    | error => rfl
    | ok a => exact iterations_states k a _ _

theorem run_states (ic : Bool) (n_iter : ℕ) (s : σ) :
    (baseCall step' (fun s => .ok (loss' s)) ic n_iter (e s) []).map Prod.fst
      = (baseCall step (fun s => .ok (loss s)) ic n_iter s []).map fun a => e a.1 := by
  cases ic <;> exact iterations_states hs n_iter s _ _

end

section
variable {F : Type} [Fintype F] {n t K : ℕ} {A : F → Mat n ℂ} (hA : ∀ f, IsUnit (A f).det) {g : F → ℂ} {r r' : Fin n}
  {sr : ScaleOpt} (hR : Reference sr r r' A g)

/-- What is assumed of the two values of `normalization`. -/
def SameNorm (A : F → Mat n ℂ) (norm norm' : Ilrma.Norm n) : Prop :=
  (norm = norm' ∧ norm.Plain) ∨
    ∃ q q', norm = .projectionBack q ∧ norm' = .projectionBack q' ∧ ∀ f c, A f q' c = if c = q then 1 else 0

include hA hR

/-- C118 for AuxIVA with IP1 or IP2, all recordings and starts. -/
theorem C118_iva_all (np : Numpy ℂ) (alg : Ilrma.FilterAlg n) (floor : ℝ → ℝ) (G d : Fin n → Fin t → ℝ → ℝ) (X : Spec F n t)
    (n_iter : ℕ) (ic : Bool) (W : F → Mat n ℂ) :
    (IvaCall.call np alg floor G d sr r' (fun f => A f * X f) n_iter ic (some fun f => W f * (A f)⁻¹) .fresh).map
        (fun o => (o.demix, o.output))
      = (IvaCall.call np alg floor G d sr r X n_iter ic (some W) .fresh).map fun o =>
        (mapA (fun V f => g f • (V f * (A f)⁻¹)) o.demix, mapA (fun Y f => g f • Y f) o.output) := by
  have hs : ∀ W, IvaCall.update np alg floor d (remix A X) (unmix A W) = Except.map (unmix A) (IvaCall.update np alg floor d X W) := by
    intro W
    cases alg with
    | ip1 => exact step_of_run (Iva.C71_ip1 A hA floor d X W 1)
    | ip2 pairs => exact step_of_run (Iva.C71_ip2 A hA np floor pairs d X W 1)
  have hrun := run_states (loss := Iva.lossIp G X) (loss' := Iva.lossIp G (remix A X)) hs ic n_iter W
  have h1 : ∀ X W, IvaCall.reset (F := F) (t := t) alg X (some W) .fresh = .ok W := by intro X W; cases alg <;> rfl
  change (IvaCall.call np alg floor G d sr r' (remix A X) n_iter ic (some (unmix A W)) .fresh).map _ = _
  rw [IvaCall.call, IvaCall.call, h1, h1]
  simp only [bind, Except.bind, IvaCall.Obj.fresh]
  cases ha : baseCall (IvaCall.update np alg floor d X) (fun W => .ok (Iva.lossIp G X W)) ic n_iter W [] with
  | error x =>
    rw [ha] at hrun
    cases hb : baseCall (IvaCall.update np alg floor d (remix A X)) (fun W => .ok (Iva.lossIp G (remix A X) W)) ic n_iter
      (unmix A W) [] with
    | error y => rw [hb] at hrun; cases hrun; rfl
    | ok b => rw [hb] at hrun; cases hrun
  | ok a =>
    rw [ha] at hrun
    cases hb : baseCall (IvaCall.update np alg floor d (remix A X)) (fun W => .ok (Iva.lossIp G (remix A X) W)) ic n_iter
      (unmix A W) [] with
    | error y => rw [hb] at hrun; cases hrun
    | ok b =>
      rw [hb] at hrun
      have e : b.1 = unmix A a.1 := Except.ok.inj hrun
      simp only [e, C118_finish hA hR]
      cases finish sr r X a.1 <;> rfl

/-- C118 for `GaussILRMA`, `TILRMA` and `GGDILRMA` with IP1 or IP2, all recordings, starts and normalisations. -/
theorem C118_ilrma_all (np : Numpy ℂ) (src : Ilrma.Source) (p : ℝ) (alg : Ilrma.FilterAlg n) {norm norm' : Ilrma.Norm n}
    (hn : SameNorm A norm norm') (floor : ℝ → ℝ) (draw : IlrmaCall.Draw F n t K) (X : Spec F n t) (n_iter : ℕ) (ic : Bool)
    (W : F → Mat n ℂ) (T : Fin n → F → Fin K → ℝ) (V : Fin n → Fin K → Fin t → ℝ) :
    (IlrmaCall.call np src p alg norm' floor sr r' draw (fun f => A f * X f) n_iter ic
        ⟨some fun f => W f * (A f)⁻¹, some T, some V⟩ .fresh).map (fun o => (o.demix, o.basis, o.activation, o.output))
      = (IlrmaCall.call np src p alg norm floor sr r draw X n_iter ic ⟨some W, some T, some V⟩ .fresh).map fun o =>
        (mapA (fun V f => g f • (V f * (A f)⁻¹)) o.demix, o.basis, o.activation, mapA (fun Y f => g f • Y f) o.output) := by
  have hs : ∀ s : Ilrma.St F n t K, Ilrma.updateOnce np src p alg norm' floor (remix A X) (s.unmix A)
      = Except.map (Ilrma.St.unmix A) (Ilrma.updateOnce np src p alg norm floor X s) := by
    intro s
    rcases hn with ⟨rfl, hn⟩ | ⟨q, q', rfl, rfl, hq⟩
    · exact step_of_run (Ilrma.C71_ilrma A hA np src p alg norm (by rintro r rfl; simp [Ilrma.Norm.Plain] at hn) floor X s 1)
    · exact updateOnce_unmix hA hq np src p alg floor X s
  have hrun := run_states (loss := Ilrma.loss src X) (loss' := Ilrma.loss src (remix A X)) hs ic n_iter ⟨W, T, V⟩
  have h1 : ∀ X W, IlrmaCall.resetFilter alg floor draw X ⟨some W, some T, some V⟩ IlrmaCall.Obj.fresh
      = .ok ⟨W, T, V⟩ := by intro X W; cases alg <;> rfl
  change (IlrmaCall.call np src p alg norm' floor sr r' draw (remix A X) n_iter ic
    ⟨some (unmix A W), some T, some V⟩ .fresh).map _ = _
  rw [IlrmaCall.call, IlrmaCall.call, h1, h1]
  simp only [bind, Except.bind, IlrmaCall.Obj.fresh]
  rw [show (⟨unmix A W, T, V⟩ : Ilrma.St F n t K) = Ilrma.St.unmix A ⟨W, T, V⟩ from rfl]
  cases ha : baseCall (Ilrma.updateOnce np src p alg norm floor X) (fun s => .ok (Ilrma.loss src X s)) ic n_iter ⟨W, T, V⟩ [] with
  | error x =>
    rw [ha] at hrun
    cases hb : baseCall (Ilrma.updateOnce np src p alg norm' floor (remix A X)) (fun s => .ok (Ilrma.loss src (remix A X) s)) ic
      n_iter (Ilrma.St.unmix A ⟨W, T, V⟩) [] with
    | error y => rw [hb] at hrun; cases hrun; rfl
    | ok b => rw [hb] at hrun; cases hrun
  | ok a =>
    rw [ha] at hrun
    cases hb : baseCall (Ilrma.updateOnce np src p alg norm' floor (remix A X)) (fun s => .ok (Ilrma.loss src (remix A X) s)) ic
      n_iter (Ilrma.St.unmix A ⟨W, T, V⟩) [] with
    | error y => rw [hb] at hrun; cases hrun
    | ok b =>
      rw [hb] at hrun
      have e : b.1 = Ilrma.St.unmix A a.1 := Except.ok.inj hrun
      simp only [e, show (Ilrma.St.unmix A a.1).W = unmix A a.1.W from rfl, C118_finish hA hR]
      cases finish sr r X a.1.W <;> rfl

end

def exB : Mat 2 ℂ := !![1, 1; 1, 0]

/-- The new microphone 1 is the old microphone 0, and the new microphone 0 the sum of the old ones: normalisation by projection back
and scale restoration by the minimal distortion principle, with the new numbers. -/
example (np : Numpy ℂ) (floor : ℝ → ℝ) (draw : IlrmaCall.Draw (Fin 3) 2 4 2) (n_iter : ℕ) :
    (IlrmaCall.call np (Ilrma.student 2 1) 2 .ip1 (.projectionBack 1) floor (.str "MDP") 1 draw
        (fun f => exB * FlooredCall.exX f) n_iter true
        ⟨some fun _ => 1 * exB⁻¹, some fun _ _ _ => 1, some fun _ _ _ => 3⟩ .fresh).map
          (fun o => (o.demix, o.basis, o.activation, o.output))
      = (IlrmaCall.call np (Ilrma.student 2 1) 2 .ip1 (.projectionBack 0) floor (.str "MDP") 0 draw FlooredCall.exX n_iter true
        ⟨some fun _ => 1, some fun _ _ _ => 1, some fun _ _ _ => 3⟩ .fresh).map fun o =>
        (mapA (fun V f => (1 : ℂ) • (V f * exB⁻¹)) o.demix, o.basis, o.activation,
          mapA (fun Y f => (1 : ℂ) • Y f) o.output) :=
  C118_ilrma_all (A := fun _ => exB) (g := fun _ => 1) (fun _ => by rw [exB, det_fin_two_of]; norm_num)
    (.inr ⟨.inr (.inr (.inr rfl)), fun f c => by fin_cases c <;> simp [exB]⟩) np (Ilrma.student 2 1) 2 .ip1
    (.inr ⟨0, 1, rfl, rfl, fun f c => by fin_cases c <;> simp [exB]⟩) floor draw FlooredCall.exX n_iter true _ _ _

end Verif.Microphones
