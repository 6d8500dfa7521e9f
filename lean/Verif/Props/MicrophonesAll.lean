import Verif.Props.MicrophonesNorm
import Verif.Props.LevelAligned

/-!
# C118 for all recordings and starts: the other classes

Outputs, filters and source parameters of AuxFDICA (with the alignment of the sources), AuxGaussIVA, ILRMA with partitioning, and of
AuxIVA and ILRMA with ISS1 or ISS2, without any hypothesis on the iterations.
-/

set_option linter.unusedSectionVars false

namespace Verif.Microphones

open Matrix Spatial Scale Lifecycle Permutation
open IlrmaCall (override attrOr baseCall)
open Relabel (mapA)

/-! ## The iterations -/

theorem ok_raises (v v' : ℝ) : (Except.ok v' : Except PyErr ℝ).map (fun _ => ()) = (Except.ok v : Except PyErr ℝ).map fun _ => () := rfl

section
variable {σ τ : Type} {step : σ → Except PyErr σ} {step' : τ → Except PyErr τ} {loss : σ → Except PyErr ℝ}
  {loss' : τ → Except PyErr ℝ} {e : σ → τ} (hs : ∀ s, step' (e s) = Except.map e (step s))
  (hl : ∀ s, (loss' (e s)).map (fun _ => ()) = (loss s).map fun _ => ())

/-- Two runs that raise the same exception, or return `e a` and `a`. -/
def SameRun (e : σ → τ) (x : Except PyErr (σ × List ℝ)) (x' : Except PyErr (τ × List ℝ)) : Prop :=
  (∃ y, x = .error y ∧ x' = .error y) ∨ ∃ a l l', x = .ok (a, l) ∧ x' = .ok (e a, l')

include hl

theorem loss_cases (s : σ) : (∃ y, loss s = .error y ∧ loss' (e s) = .error y) ∨ ∃ v v', loss s = .ok v ∧ loss' (e s) = .ok v' := by
  have h := hl s
  cases h1 : loss s <;> cases h2 : loss' (e s) <;> rw [h1, h2] at h
  · cases h; exact .inl ⟨_, rfl, rfl⟩
  · cases h
  · cases h
  · exact .inr ⟨_, _, rfl, rfl⟩

include hs

theorem iterations_cases : ∀ (n_iter : ℕ) (s : σ) (ls ls' : List ℝ),
    SameRun e (IlrmaCall.iterations step loss n_iter s ls) (IlrmaCall.iterations step' loss' n_iter (e s) ls')
  | 0, s, ls, ls' => .inr ⟨s, ls, ls', rfl, rfl⟩
  | k + 1, s, ls, ls' => by
    rw [IlrmaCall.iterations, IlrmaCall.iterations, hs]
    cases step s with
    | error x => exact .inl ⟨x, rfl, rfl⟩
    | ok a =>
      simp only [Except.map, bind, Except.bind]
      rcases loss_cases hl a with ⟨y, h1, h2⟩ | ⟨v, v', h1, h2⟩
      · rw [h1, h2]; exact .inl ⟨y, rfl, rfl⟩
      · rw [h1, h2]; exact iterations_cases k a _ _

theorem run_cases (ic : Bool) (n_iter : ℕ) (s : σ) (ls ls' : List ℝ) :
    SameRun e (baseCall step loss ic n_iter s ls) (baseCall step' loss' ic n_iter (e s) ls') := by
  cases ic with
  | false => exact iterations_cases hs hl n_iter s ls ls'
  | true =>
    simp only [baseCall, if_true, bind, Except.bind]
    rcases loss_cases hl s with ⟨y, h1, h2⟩ | ⟨v, v', h1, h2⟩
    · rw [h1, h2]; exact .inl ⟨y, rfl, rfl⟩
    · rw [h1, h2]; exact iterations_cases hs hl n_iter s _ _

end

section
variable {F : Type} [Fintype F] {n t K : ℕ} {A : F → Mat n ℂ} (hA : ∀ f, IsUnit (A f).det) {g : F → ℂ} {r r' : Fin n}
  {sr : ScaleOpt} (hR : Reference sr r r' A g)
include hA

/-- The estimation of the filter raises for both recordings or for none. -/
theorem estimate_raises (X Y : Spec F n t) (U U' : (F → Mat n ℂ) → ℝ) :
    (npInvB (fun f => remix A X f * (remix A X f)ᴴ) >>= fun I => Except.ok (U' fun f => Y f * (remix A X f)ᴴ * I f)).map
        (fun _ => ())
      = (npInvB (fun f => X f * (X f)ᴴ) >>= fun I => Except.ok (U fun f => Y f * (X f)ᴴ * I f)).map fun _ => () := by
  rw [npInvB_gram hA]
  cases npInvB fun f => X f * (X f)ᴴ <;> rfl

include hR

/-- C118 for `AuxGaussIVA` with IP1 or IP2, all recordings and starts. -/
theorem C118_gaussIva_all (np : Numpy ℂ) (alg : Ilrma.FilterAlg n) (floor : ℝ → ℝ) (X : Spec F n t) (n_iter : ℕ) (ic : Bool)
    (W : F → Mat n ℂ) :
    (IvaCall.gaussCall np alg floor sr r' (fun f => A f * X f) n_iter ic (some fun f => W f * (A f)⁻¹) .fresh).map
        (fun o => (o.demix, o.variance, o.output))
      = (IvaCall.gaussCall np alg floor sr r X n_iter ic (some W) .fresh).map fun o =>
        (mapA (fun V f => g f • (V f * (A f)⁻¹)) o.demix, o.variance, mapA (fun Y f => g f • Y f) o.output) := by
  have hs : ∀ s, IvaCall.gaussUpdate np alg floor (remix A X) (Iva.GaussState.unmix A s)
      = Except.map (Iva.GaussState.unmix A) (IvaCall.gaussUpdate np alg floor X s) := by
    intro s
    cases alg with
    | ip1 => exact step_of_run (Iva.C71_gauss_ip1 A hA floor X s 1)
    | ip2 pairs => exact step_of_run (Iva.C71_gauss_ip2 A hA np floor pairs X s 1)
  have hrun := run_cases (loss := fun s => .ok (Iva.gaussLoss X s)) (loss' := fun s => .ok (Iva.gaussLoss (remix A X) s)) hs
    (fun _ => ok_raises _ _) ic n_iter ⟨W, fun _ _ => 1⟩ [] []
  have h1 : ∀ X W, IvaCall.gaussReset (F := F) (t := t) alg X (some W) .fresh = .ok ⟨W, fun _ _ => 1⟩ := by
    intro X W; cases alg <;> rfl
  change (IvaCall.gaussCall np alg floor sr r' (remix A X) n_iter ic (some (unmix A W)) .fresh).map _ = _
  rw [IvaCall.gaussCall, IvaCall.gaussCall, h1, h1]
  rw [show (⟨unmix A W, fun _ _ => 1⟩ : Iva.GaussState F n t) = Iva.GaussState.unmix A ⟨W, fun _ _ => 1⟩ from rfl]
  simp only [bind, Except.bind, IvaCall.GaussObj.fresh]
  rcases hrun with ⟨y, e1, e2⟩ | ⟨a, l, l', e1, e2⟩
  · simp only [e1, e2]; rfl
  · simp only [e1, e2, show (Iva.GaussState.unmix A a).W = unmix A a.W from rfl, C118_finish hA hR]
    cases finish sr r X a.W <;> rfl

/-- C118 for ILRMA with partitioning and IP1 or IP2, all recordings and starts. -/
theorem C118_partitioned_all (np : Numpy ℂ) (src : Ilrma.Source) (p : ℝ) (alg : Ilrma.FilterAlg n) (norm : Ilrma.Norm n)
    (floor : ℝ → ℝ) (draw : IlrmaCall.DrawP F n t K) (X : Spec F n t) (n_iter : ℕ) (ic : Bool)
    (W : F → Mat n ℂ) (Z : Fin n → Fin K → ℝ) (T : F → Fin K → ℝ) (V : Fin K → Fin t → ℝ) :
    (IlrmaCall.callP np src p alg norm floor sr r' draw (fun f => A f * X f) n_iter ic
        ⟨some fun f => W f * (A f)⁻¹, some Z, some T, some V⟩ .fresh).map
          (fun o => (o.demix, o.latent, o.basis, o.activation, o.output))
      = (IlrmaCall.callP np src p alg norm floor sr r draw X n_iter ic ⟨some W, some Z, some T, some V⟩ .fresh).map fun o =>
        (mapA (fun V f => g f • (V f * (A f)⁻¹)) o.demix, o.latent, o.basis, o.activation,
          mapA (fun Y f => g f • Y f) o.output) := by
  have hs : ∀ s : Ilrma.StP F n t K, Ilrma.updateOnceP np src p alg norm floor (remix A X) (s.unmix A)
      = Except.map (Ilrma.StP.unmix A) (Ilrma.updateOnceP np src p alg norm floor X s) := fun s =>
    step_of_run (Ilrma.C71_ilrma_partitioned A hA np src p alg norm floor X s 1)
  have hrun := run_cases (loss := fun s => .ok (Ilrma.lossP src X s)) (loss' := fun s => .ok (Ilrma.lossP src (remix A X) s)) hs
    (fun _ => ok_raises _ _) ic n_iter ⟨W, Z, T, V⟩ [] []
  have h1 : ∀ X W, IlrmaCall.resetFilterP alg floor draw X ⟨some W, some Z, some T, some V⟩ IlrmaCall.ObjP.fresh
      = .ok ⟨W, Z, T, V⟩ := by intro X W; cases alg <;> rfl
  change (IlrmaCall.callP np src p alg norm floor sr r' draw (remix A X) n_iter ic
    ⟨some (unmix A W), some Z, some T, some V⟩ .fresh).map _ = _
  rw [IlrmaCall.callP, IlrmaCall.callP, h1, h1]
  rw [show (⟨unmix A W, Z, T, V⟩ : Ilrma.StP F n t K) = Ilrma.StP.unmix A ⟨W, Z, T, V⟩ from rfl]
  simp only [bind, Except.bind, IlrmaCall.ObjP.fresh]
  rcases hrun with ⟨y, e1, e2⟩ | ⟨a, l, l', e1, e2⟩
  · simp only [e1, e2]; rfl
  · simp only [e1, e2, show (Ilrma.StP.unmix A a).W = unmix A a.W from rfl, C118_finish hA hR]
    cases finish sr r X a.W <;> rfl

/-- C118 for AuxIVA with ISS1 or ISS2, all recordings and starts. -/
theorem C118_iva_signal_all (np : Numpy ℂ) (alg : Ilrma.SignalAlg n) (floor : ℝ → ℝ) (G d : Fin n → Fin t → ℝ → ℝ)
    (X : Spec F n t) (n_iter : ℕ) (ic : Bool) (W : F → Mat n ℂ) :
    (IvaCall.callSignal np alg floor G d sr r' (fun f => A f * X f) n_iter ic (some fun f => W f * (A f)⁻¹) .fresh).map
        (fun o => (o.demix, o.output))
      = (IvaCall.callSignal np alg floor G d sr r X n_iter ic (some W) .fresh).map fun o =>
        (.none, mapA (fun Y f => g f • Y f) o.output) := by
  have hrun := run_cases (e := id) (step := IvaCall.updateY np alg floor d) (step' := IvaCall.updateY np alg floor d)
    (loss := Iva.lossFree G X) (loss' := Iva.lossFree G (remix A X))
    (fun Y => by rw [id]; cases IvaCall.updateY np alg floor d Y <;> rfl)
    (fun Y => estimate_raises hA X Y (Iva.ivaLoss G Y) (Iva.ivaLoss G Y)) ic n_iter (separate X W) [] []
  have h1 : ∀ (X : Spec F n t) W, Lifecycle.reset (IlrmaCall.labelY alg) X (some W) ⟨.absent, .absent⟩
      = .ok (none, separate X W) := by intro X W; cases alg <;> rfl
  change (IvaCall.callSignal np alg floor G d sr r' (remix A X) n_iter ic (some (unmix A W)) .fresh).map _ = _
  rw [IvaCall.callSignal, IvaCall.callSignal]
  simp only [IvaCall.Obj.fresh, h1, bind, Except.bind, separate_remix A hA]
  simp only [id] at hrun
  rcases hrun with ⟨y, e1, e2⟩ | ⟨a, l, l', e1, e2⟩
  · simp only [e1, e2]; rfl
  · simp only [e1, e2, id, C118_finishFree hA hR]
    cases finishFree sr r X a <;> rfl

/-- C118 for ILRMA with ISS1 or ISS2, all recordings, starts and normalisations. -/
theorem C118_ilrma_signal_all (np : Numpy ℂ) (src : Ilrma.Source) (p : ℝ) (alg : Ilrma.SignalAlg n) {norm norm' : Ilrma.Norm n}
    (hn : SameNorm A norm norm') (floor : ℝ → ℝ) (draw : IlrmaCall.Draw F n t K) (X : Spec F n t) (n_iter : ℕ) (ic : Bool)
    (W : F → Mat n ℂ) (T : Fin n → F → Fin K → ℝ) (V : Fin n → Fin K → Fin t → ℝ) :
    (IlrmaCall.callSignal np src p alg norm' floor sr r' draw (fun f => A f * X f) n_iter ic
        ⟨some fun f => W f * (A f)⁻¹, some T, some V⟩ .fresh).map (fun o => (o.demix, o.basis, o.activation, o.output))
      = (IlrmaCall.callSignal np src p alg norm floor sr r draw X n_iter ic ⟨some W, some T, some V⟩ .fresh).map fun o =>
        (.none, o.basis, o.activation, mapA (fun Y f => g f • Y f) o.output) := by
  have hs : ∀ s : Ilrma.StY F n t K, Ilrma.updateOnceY np src p alg norm' floor (remix A X) (id s)
      = Except.map id (Ilrma.updateOnceY np src p alg norm floor X s) := by
    intro s
    have e : Ilrma.updateOnceY np src p alg norm' floor (remix A X) s = Ilrma.updateOnceY np src p alg norm floor X s := by
      rcases hn with ⟨rfl, hn⟩ | ⟨q, q', rfl, rfl, hq⟩
      · cases norm with
        | projectionBack => simp [Ilrma.Norm.Plain] at hn
        | _ => rfl
      · exact updateOnceY_remix hA hq np src p alg floor X s
    rw [id, e]
    cases Ilrma.updateOnceY np src p alg norm floor X s <;> rfl
  have hrun := run_cases (loss := Ilrma.lossY src X) (loss' := Ilrma.lossY src (remix A X)) hs (fun s => by
      have := estimate_raises hA X s.Y (Ilrma.lossOf src s.Y (Ilrma.recon s.T s.V)) (Ilrma.lossOf src s.Y (Ilrma.recon s.T s.V))
      simp only [Ilrma.lossY, Ilrma.filterOf, id, bind_assoc]
      exact this) ic n_iter ⟨separate X W, T, V⟩ [] []
  have h1 : ∀ X W, IlrmaCall.resetSignal alg floor draw X ⟨some W, some T, some V⟩ IlrmaCall.Obj.fresh
      = .ok ⟨separate X W, T, V⟩ := by intro X W; cases alg <;> rfl
  change (IlrmaCall.callSignal np src p alg norm' floor sr r' draw (remix A X) n_iter ic
    ⟨some (unmix A W), some T, some V⟩ .fresh).map _ = _
  rw [IlrmaCall.callSignal, IlrmaCall.callSignal, h1, h1, separate_remix A hA]
  simp only [id] at hrun
  simp only [bind, Except.bind, IlrmaCall.Obj.fresh]
  rcases hrun with ⟨y, e1, e2⟩ | ⟨a, l, l', e1, e2⟩
  · simp only [e1, e2]; rfl
  · simp only [e1, e2, id, C118_finishFree hA hR]
    cases finishFree sr r X a.Y <;> rfl

/-- C118 for ILRMA with partitioning and ISS1 or ISS2, all recordings and starts. -/
theorem C118_partitioned_signal_all (np : Numpy ℂ) (src : Ilrma.Source) (p : ℝ) (alg : Ilrma.SignalAlg n) (norm : Ilrma.Norm n)
    (floor : ℝ → ℝ) (draw : IlrmaCall.DrawP F n t K) (X : Spec F n t) (n_iter : ℕ) (ic : Bool)
    (W : F → Mat n ℂ) (Z : Fin n → Fin K → ℝ) (T : F → Fin K → ℝ) (V : Fin K → Fin t → ℝ) :
    (IlrmaCall.callSignalP np src p alg norm floor sr r' draw (fun f => A f * X f) n_iter ic
        ⟨some fun f => W f * (A f)⁻¹, some Z, some T, some V⟩ .fresh).map
          (fun o => (o.demix, o.latent, o.basis, o.activation, o.output))
      = (IlrmaCall.callSignalP np src p alg norm floor sr r draw X n_iter ic ⟨some W, some Z, some T, some V⟩ .fresh).map fun o =>
        (.none, o.latent, o.basis, o.activation, mapA (fun Y f => g f • Y f) o.output) := by
  have hs : ∀ s : Ilrma.StYP F n t K, Ilrma.updateOnceYP np src p alg norm floor (id s)
      = Except.map id (Ilrma.updateOnceYP np src p alg norm floor s) := fun s => by
    rw [id]
    cases Ilrma.updateOnceYP np src p alg norm floor s <;> rfl
  have hrun := run_cases (loss := Ilrma.lossYP src X) (loss' := Ilrma.lossYP src (remix A X)) hs (fun s => by
      have := estimate_raises hA X s.Y (Ilrma.lossOf src s.Y (Ilrma.reconP s.Z s.T s.V))
        (Ilrma.lossOf src s.Y (Ilrma.reconP s.Z s.T s.V))
      simp only [Ilrma.lossYP, Ilrma.filterOf, id, bind_assoc]
      exact this) ic n_iter ⟨separate X W, Z, T, V⟩ [] []
  have h1 : ∀ X W, IlrmaCall.resetSignalP alg floor draw X ⟨some W, some Z, some T, some V⟩ IlrmaCall.ObjP.fresh
      = .ok ⟨separate X W, Z, T, V⟩ := by intro X W; cases alg <;> rfl
  change (IlrmaCall.callSignalP np src p alg norm floor sr r' draw (remix A X) n_iter ic
    ⟨some (unmix A W), some Z, some T, some V⟩ .fresh).map _ = _
  rw [IlrmaCall.callSignalP, IlrmaCall.callSignalP, h1, h1, separate_remix A hA]
  simp only [id] at hrun
  simp only [bind, Except.bind, IlrmaCall.ObjP.fresh]
  rcases hrun with ⟨y, e1, e2⟩ | ⟨a, l, l', e1, e2⟩
  · simp only [e1, e2]; rfl
  · simp only [e1, e2, id, C118_finishFree hA hR]
    cases finishFree sr r X a.Y <;> rfl

end

/-! ## AuxFDICA with the alignment of the sources -/

section
variable {B n t : ℕ} {A : Fin B → Mat n ℂ} (hA : ∀ f, IsUnit (A f).det) {g : Fin B → ℂ} {r r' : Fin n} {sr : ScaleOpt}
  (hR : Reference sr r r' A g)
include hA

/-- The solver of the permutation ambiguity takes the same decisions: it sees the separated signals only. -/
theorem solve_unmix (sort : Argsort) (opt : Fdica.PermOpt) (floor : ℝ → ℝ) (X : Spec (Fin B) n t) (W : Fin B → Mat n ℂ) :
    Fdica.solvePermutation sort opt floor (remix A X) (unmix A W)
      = (Fdica.solvePermutation sort opt floor X W).map fun p => (p.1, unmix A p.2) := by
  have key : Fdica.solveByCorrelation sort floor (remix A X) (unmix A W)
      = (Fdica.solveByCorrelation sort floor X W).map fun p => (p.1, unmix A p.2) := by
    have h : RelStore (Fdica.CellRel (fun _ => 1) fun b => (A b)⁻¹)
        (⟨fun r b i => if r = 0 then .inl (separate X W b i) else .inr (W b i), 2⟩ : Store B n (Fdica.Cell n t))
        ⟨fun r b i => if r = 0 then .inl (separate X W b i) else .inr (unmix A W b i), 2⟩ := by
      refine ⟨rfl, fun r b i => ?_⟩
      dsimp only
      split_ifs
      · simp only [Fdica.CellRel, one_mul]
      · rfl
    have hin : ∀ b c c', Fdica.CellRel (n := n) (t := t) (fun _ => 1) (fun b => (A b)⁻¹) b c c' →
        (c'.elim id 0 : Fin t → ℂ) = (c.elim id 0 : Fin t → ℂ) ∧
          (c'.elim 0 id : Fin n → ℂ) = (c.elim 0 id : Fin n → ℂ) ᵥ* (A b)⁻¹ := by
      intro b c c' h
      cases c <;> cases c' <;> simp only [Fdica.CellRel] at h <;> subst h
      · exact ⟨by funext j; simp, (zero_vecMul _).symm⟩
      · exact ⟨rfl, rfl⟩
    rw [Fdica.solveByCorrelation, Fdica.solveByCorrelation, separate_remix A hA]
    rcases correlation_rel sort (mag := Fdica.mag) (mag' := Fdica.mag) (floor := floor) (floor' := floor)
      (fun b y y' hy => by
        have : ∀ i, Fdica.mag (y' i) = Fdica.mag (y i) := fun i => funext fun j => by
          rw [Fdica.cell_mag b _ _ (hy i) j, norm_one, one_mul]
        funext i k
        simp only [normalised, this]) true 0 [1] h with ⟨y, l, u, u', e, e', hu⟩ | ⟨x, e, e'⟩
    · simp only [e, e', bind, Except.bind, Except.map]
      split
      · rename_i w
        congr 2
        · funext b
          ext i j
          exact congrFun (hin b _ _ (hu.2 y b i)).1 j
        · funext b
          ext i j
          exact congrFun (hin b _ _ (hu.2 w b i)).2 j
      · rfl
    · simp only [e, e', bind, Except.bind, Except.map]
  unfold Fdica.solvePermutation
  cases opt.truthy with
  | false => rfl
  | true =>
    simp only [Bool.not_true, Bool.false_eq_true, if_false]
    split_ifs
    · exact key
    · rfl

include hR

theorem finishAligned_unmix (sort : Argsort) (opt : Fdica.PermOpt) (floor : ℝ → ℝ) (X : Spec (Fin B) n t) (W : Fin B → Mat n ℂ) :
    Fdica.finishAligned sort opt floor sr r' (remix A X) (unmix A W)
      = (Fdica.finishAligned sort opt floor sr r X W).map fun q => (times g q.1, moved A g q.2) := by
  rw [Fdica.finishAligned, Fdica.finishAligned]
  cases opt.truthy with
  | false => exact C118_finish hA hR X W
  | true =>
    simp only [if_true, solve_unmix hA]
    cases Fdica.solvePermutation sort opt floor X W with
    | error => rfl
    | ok p => exact C118_finish hA hR X p.2

/-- C118 for AuxFDICA with IP1 or IP2 and any setting of `permutation_alignment`, all recordings and starts. -/
theorem C118_fdica_all (sort : Argsort) (np : Numpy ℂ) (alg : Ilrma.FilterAlg n) (opt : Fdica.PermOpt) (floor G d : ℝ → ℝ)
    (X : Spec (Fin B) n t) (n_iter : ℕ) (ic : Bool) (W : Fin B → Mat n ℂ) :
    (Fdica.auxCall sort np alg opt floor G d sr r' (fun f => A f * X f) n_iter ic (some fun f => W f * (A f)⁻¹) .fresh).map
        (fun o => (o.demix, o.output))
      = (Fdica.auxCall sort np alg opt floor G d sr r X n_iter ic (some W) .fresh).map fun o =>
        (mapA (fun V f => g f • (V f * (A f)⁻¹)) o.demix, mapA (fun Y f => g f • Y f) o.output) := by
  have hs : ∀ W, Fdica.auxUpdate np alg floor d (remix A X) (unmix A W)
      = Except.map (unmix A) (Fdica.auxUpdate np alg floor d X W) := by
    intro W
    cases alg with
    | ip1 => exact step_of_run (Fdica.C71_ip1 A hA floor d X W 1)
    | ip2 pairs => exact step_of_run (Fdica.C71_ip2 A hA np floor d pairs X W 1)
  have hrun := run_cases (loss := fun W => .ok (Fdica.loss G X W)) (loss' := fun W => .ok (Fdica.loss G (remix A X) W)) hs
    (fun _ => ok_raises _ _) ic n_iter W [] []
  change (Fdica.auxCall sort np alg opt floor G d sr r' (remix A X) n_iter ic (some (unmix A W)) .fresh).map _ = _
  simp only [Fdica.auxCall, Fdica.auxReset, override, bind, Except.bind, IvaCall.Obj.fresh]
  rcases hrun with ⟨y, e1, e2⟩ | ⟨a, l, l', e1, e2⟩
  · simp only [e1, e2]; rfl
  · simp only [e1, e2, finishAligned_unmix hA hR]
    cases Fdica.finishAligned sort opt floor sr r X a <;> rfl

/-- The losses of AuxFDICA with any setting of `permutation_alignment`. -/
theorem C118_fdica_aligned (sort : Argsort) (np : Numpy ℂ) (alg : Ilrma.FilterAlg n) (opt : Fdica.PermOpt) (floor G d : ℝ → ℝ)
    (X : Spec (Fin B) n t) (n_iter : ℕ) (ic : Bool) {W : Fin B → Mat n ℂ}
    (h : Keeps (Fdica.auxUpdate np alg floor d X) (fun W => ∀ f, IsUnit (W f).det) n_iter W) :
    Fdica.auxCall sort np alg opt floor G d sr r' (fun f => A f * X f) n_iter ic (some fun f => W f * (A f)⁻¹) .fresh
      = (Fdica.auxCall sort np alg opt floor G d sr r X n_iter ic (some W) .fresh).map fun o =>
        ⟨mapA (fun V f => g f • (V f * (A f)⁻¹)) o.demix, mapA (fun Y f => g f • Y f) o.output,
          o.loss.map (· + 2 * ∑ f, Real.log ‖(A f).det‖)⟩ := by
  have hs : ∀ W, Fdica.auxUpdate np alg floor d (remix A X) (unmix A W)
      = Except.map (unmix A) (Fdica.auxUpdate np alg floor d X W) := by
    intro W
    cases alg with
    | ip1 => exact step_of_run (Fdica.C71_ip1 A hA floor d X W 1)
    | ip2 pairs => exact step_of_run (Fdica.C71_ip2 A hA np floor d pairs X W 1)
  have hrun := run_moved (loss := fun W => .ok (Fdica.loss G X W)) (loss' := fun W => .ok (Fdica.loss G (remix A X) W))
    (c := shift A) hs (fun W hW => congrArg Except.ok (by
      simp only [Fdica.loss, separate_remix A hA, logdet_unmix A W hA hW, shift, Finset.mul_sum, ← Finset.sum_add_distrib]
      exact Finset.sum_congr rfl fun f _ => by ring)) ic h
  change Fdica.auxCall sort np alg opt floor G d sr r' (remix A X) n_iter ic (some (unmix A W)) .fresh = _
  simp only [Fdica.auxCall, Fdica.auxReset, override, bind, Except.bind, IvaCall.Obj.fresh, hrun]
  cases baseCall (Fdica.auxUpdate np alg floor d X) (fun W => .ok (Fdica.loss G X W)) ic n_iter W [] with
  | error => rfl
  | ok q =>
    simp only [Except.map, finishAligned_unmix hA hR]
    cases Fdica.finishAligned sort opt floor sr r X q.1 <;> rfl

end

/-! ## IPSDTA -/

section
variable {N B n t K : ℕ} {A : Fin N → Mat n ℂ} (hA : ∀ f, IsUnit (A f).det) {g : Fin N → ℂ} {r r' : Fin n} {sr : ScaleOpt}
  (hR : Reference sr r r' A g)
include hA

theorem gaussLoss_raises (np : Numpy ℂ) (X : Spec (Fin N) n t) (s : Ipsdta.St N B n t K) :
    (Ipsdta.gaussLoss np (remix A X) (s.unmix A)).map (fun _ => ()) = (Ipsdta.gaussLoss np X s).map fun _ => () := by
  rw [Ipsdta.gaussLoss, Ipsdta.gaussLoss, show (s.unmix A).W = unmix A s.W from rfl, separate_remix A hA]
  by_cases hB : B = 0
  · subst hB
    rw [Ipsdta.C53_no_blocks]
    rfl
  rw [Ipsdta.split_unmix, Ipsdta.splitBlocks_eq hB, Ipsdta.splitBlocks_eq hB]
  rw [show (s.unmix A).V = s.V from rfl, show (s.unmix A).T = s.T from rfl]
  simp only [bind, Except.bind, Except.map]
  cases Ipsdta.covInv np s.T s.V with
  | error => rfl
  | ok R => dsimp only

theorem tLoss_raises (np : Numpy ℂ) (nu : ℝ) (X : Spec (Fin N) n t) (s : Ipsdta.St N B n t K) :
    (Ipsdta.tLoss np nu (remix A X) (s.unmix A)).map (fun _ => ()) = (Ipsdta.tLoss np nu X s).map fun _ => () := by
  rw [Ipsdta.tLoss, Ipsdta.tLoss, show (s.unmix A).W = unmix A s.W from rfl, separate_remix A hA]
  by_cases hB : B = 0
  · subst hB
    rw [Ipsdta.C53_no_blocks]
    rfl
  rw [Ipsdta.split_unmix, Ipsdta.splitBlocks_eq hB, Ipsdta.splitBlocks_eq hB]
  rw [show (s.unmix A).V = s.V from rfl, show (s.unmix A).T = s.T from rfl]
  simp only [bind, Except.bind, Except.map]
  cases Ipsdta.covInv np s.T s.V with
  | error => rfl
  | ok R => dsimp only

include hR

theorem ipsdta_states {step step' : Ipsdta.St N B n t K → Except PyErr (Ipsdta.St N B n t K)}
    {loss loss' : Ipsdta.St N B n t K → Except PyErr ℝ} (hs : ∀ s, step' (s.unmix A) = Except.map (Ipsdta.St.unmix A) (step s))
    (hl : ∀ s, (loss' (s.unmix A)).map (fun _ => ()) = (loss s).map fun _ => ())
    (normalization : Bool) (floor : ℝ → ℝ) (draw : IpsdtaCall.Draw N B n t K) (X : Spec (Fin N) n t) (n_iter : ℕ)
    (kw : IpsdtaCall.Kw N B n t K) (W : Fin N → Mat n ℂ) :
    (IpsdtaCall.call step' loss' normalization floor sr r' draw (fun f => A f * X f) n_iter
        { kw with demix := some fun f => W f * (A f)⁻¹ } .fresh).map (fun o => (o.demix, o.basis, o.activation, o.output))
      = (IpsdtaCall.call step loss normalization floor sr r draw X n_iter { kw with demix := some W } .fresh).map fun o =>
        (mapA (fun V f => g f • (V f * (A f)⁻¹)) o.demix, o.basis, o.activation, mapA (fun Y f => g f • Y f) o.output) := by
  change (IpsdtaCall.call step' loss' normalization floor sr r' draw (remix A X) n_iter
    { kw with demix := some (unmix A W) } .fresh).map _ = _
  have h1 : IpsdtaCall.reset normalization floor draw { kw with demix := some (unmix A W) } .fresh
      = (IpsdtaCall.reset normalization floor draw { kw with demix := some W } .fresh).map (Ipsdta.St.unmix A) := by
    simp only [IpsdtaCall.reset, IpsdtaCall.startFilter, override, bind, Except.bind]
    split <;> rfl
  rw [IpsdtaCall.call, IpsdtaCall.call, h1]
  cases hr : IpsdtaCall.reset normalization floor draw { kw with demix := some W } .fresh with
  | error => rfl
  | ok s =>
    simp only [Except.map, bind, Except.bind, IpsdtaCall.Obj.fresh]
    rcases run_cases hs hl true n_iter s [] [] with ⟨y, e1, e2⟩ | ⟨a, l, l', e1, e2⟩
    · simp only [e1, e2]
    · simp only [e1, e2, show (Ipsdta.St.unmix A a).W = unmix A a.W from rfl, C118_finish hA hR]
      cases finish sr r X a.W <;> rfl

/-- C118 for `GaussIPSDTA`, all recordings and starts. -/
theorem C118_gaussIpsdta_all (np : Numpy ℂ) (normalization : Bool) (floor : ℝ → ℝ) (draw : IpsdtaCall.Draw N B n t K)
    (X : Spec (Fin N) n t) (n_iter : ℕ) (kw : IpsdtaCall.Kw N B n t K) (W : Fin N → Mat n ℂ) :
    (IpsdtaCall.gaussCall np normalization floor sr r' draw (fun f => A f * X f) n_iter
        { kw with demix := some fun f => W f * (A f)⁻¹ } .fresh).map (fun o => (o.demix, o.basis, o.activation, o.output))
      = (IpsdtaCall.gaussCall np normalization floor sr r draw X n_iter { kw with demix := some W } .fresh).map fun o =>
        (mapA (fun V f => g f • (V f * (A f)⁻¹)) o.demix, o.basis, o.activation, mapA (fun Y f => g f • Y f) o.output) :=
  ipsdta_states hA hR (fun s => step_of_run (Ipsdta.C71_gauss A hA np normalization floor X s 1))
    (fun s => gaussLoss_raises hA np X s) normalization floor draw X n_iter kw W

/-- C118 for `TIPSDTA`, all recordings and starts. -/
theorem C118_tIpsdta_all (np : Numpy ℂ) (normalization : Bool) (floor : ℝ → ℝ) (nu : ℝ) (draw : IpsdtaCall.Draw N B n t K)
    (X : Spec (Fin N) n t) (n_iter : ℕ) (kw : IpsdtaCall.Kw N B n t K) (W : Fin N → Mat n ℂ) :
    (IpsdtaCall.tCall np normalization floor nu sr r' draw (fun f => A f * X f) n_iter
        { kw with demix := some fun f => W f * (A f)⁻¹ } .fresh).map (fun o => (o.demix, o.basis, o.activation, o.output))
      = (IpsdtaCall.tCall np normalization floor nu sr r draw X n_iter { kw with demix := some W } .fresh).map fun o =>
        (mapA (fun V f => g f • (V f * (A f)⁻¹)) o.demix, o.basis, o.activation, mapA (fun Y f => g f • Y f) o.output) :=
  ipsdta_states hA hR (fun s => step_of_run (Ipsdta.C71_t A hA np normalization floor nu X s 1))
    (fun s => tLoss_raises hA np nu X s) normalization floor draw X n_iter kw W

end

/-- GaussIPSDTA with projection back and two blocks of two bins: channel 1 of the new recording is channel 0 of the old one. -/
example (np : Numpy ℂ) (draw : IpsdtaCall.Draw 4 2 2 3 2) (n_iter : ℕ) :
    (IpsdtaCall.gaussCall np true (Special.max_flooring (1 / 10 ^ 10)) (.str "projection_back") 1 draw
        (fun f => exB * Matrix.of fun c j => ((f.1 + 2 * c.1 + j.1 : ℕ) : ℂ)) n_iter
        { demix := some fun _ => 1 * exB⁻¹ } .fresh).map (fun o => (o.demix, o.basis, o.activation, o.output))
      = (IpsdtaCall.gaussCall np true (Special.max_flooring (1 / 10 ^ 10)) (.str "projection_back") 0 draw
          (fun f => Matrix.of fun c j => ((f.1 + 2 * c.1 + j.1 : ℕ) : ℂ)) n_iter { demix := some fun _ => 1 } .fresh).map fun o =>
        (mapA (fun V f => (1 : ℂ) • (V f * exB⁻¹)) o.demix, o.basis, o.activation, mapA (fun Y f => (1 : ℂ) • Y f) o.output) :=
  C118_gaussIpsdta_all (A := fun _ => exB) (g := fun _ => 1) (fun _ => by rw [exB, det_fin_two_of]; norm_num)
    (.inr ⟨.inl (.inr (.inl rfl)), fun f c => by fin_cases c <;> simp [exB]⟩) np true _ draw _ n_iter {} _

/-- AuxLaplaceFDICA with IP1, the sources aligned, minimal distortion principle: the new microphones are combinations of the old
ones, and channel 1 of the new recording is channel 0 of the old one. -/
example (sort : Argsort) (np : Numpy ℂ) (G d : ℝ → ℝ) (n_iter : ℕ) :
    (Fdica.auxCall sort np .ip1 (.bool true) (Special.max_flooring (1 / 10 ^ 10)) G d (.str "MDP") 1
        (fun f => exB * FlooredCall.exX f) n_iter true (some fun _ => 1 * exB⁻¹) .fresh).map (fun o => (o.demix, o.output))
      = (Fdica.auxCall sort np .ip1 (.bool true) (Special.max_flooring (1 / 10 ^ 10)) G d (.str "MDP") 0 FlooredCall.exX n_iter
          true (some fun _ => 1) .fresh).map fun o =>
        (mapA (fun V f => (1 : ℂ) • (V f * exB⁻¹)) o.demix, mapA (fun Y f => (1 : ℂ) • Y f) o.output) :=
  C118_fdica_all (A := fun _ => exB) (g := fun _ => 1) (fun _ => by rw [exB, det_fin_two_of]; norm_num)
    (.inr ⟨.inr (.inr (.inr rfl)), fun f c => by fin_cases c <;> simp [exB]⟩) sort np .ip1 (.bool true) _ G d FlooredCall.exX n_iter
    true _

end Verif.Microphones
