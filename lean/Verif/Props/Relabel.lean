import Verif.Props.Frames
import Verif.Props.Rotation
import Verif.Model.FdicaCall

/-!
# C96: how bins, NMF components and sources are numbered does not matter

`re ρ A` is the array whose entry for bin `f` is the entry of `A` for bin `ρ f`. If the bins of a recording, and the random
numbers or initial values that belong to them, are renumbered, so are the results; nothing else changes. The same for the
components of the NMF models. In contrast to the frequency-wise permutation alignment and to HVA and IPSDTA, whose
definitions refer to neighbouring bins, these methods have no notion of neighbourhood.
-/

set_option linter.unusedSectionVars false

namespace Verif.Relabel

open Matrix Scale Lifecycle
open _root_.Verif.Spatial (onBins onBins_ok onBins_map ip1Row ip2Pair iss1 iss2Pair meanT)
open Rotation (baseCall_map)
open IlrmaCall (override attrOr initNmf initNmfP baseCall)
open Ilrma (FilterAlg SignalAlg Source Norm)

variable {F : Type} [Fintype F] {n m t K : ℕ}

/-- The array with its bins renumbered. -/
abbrev re {α : Type} (ρ : Equiv.Perm F) (A : F → α) : F → α := fun f => A (ρ f)

/-- A map applied to the value of an attribute, if it has one. -/
def mapA {α β : Type} (g : α → β) : Attr α → Attr β
  | .absent => .absent
  | .none => .none
  | .val a => .val (g a)

theorem onBins_re {α : Type} (ρ : Equiv.Perm F) (g : F → Except PyErr α) :
    (onBins fun f => g (ρ f)) = Except.map (re ρ) (onBins g) := by
  by_cases h : ∀ f, ∃ y, g f = .ok y
  · choose y hy using h
    rw [onBins_ok hy]
    exact onBins_ok fun f => hy (ρ f)
  · rw [onBins, onBins, dif_neg h, dif_neg]
    · rfl
    · exact fun h' => h fun f => by simpa using h' (ρ.symm f)

theorem npInvB_re (ρ : Equiv.Perm F) (A : F → Mat n ℂ) : npInvB (re ρ A) = Except.map (re ρ) (npInvB A) := by
  by_cases h : ∀ f, IsUnit (A f).det
  · rw [npInvB, npInvB, if_pos h, if_pos fun f => h (ρ f)]
    rfl
  · rw [npInvB, npInvB, if_neg h, if_neg]
    · rfl
    · exact fun h' => h fun f => by simpa [re] using h' (ρ.symm f)

theorem attrOr_re {α : Type} (g : α → α) (fresh : α) (kw : Option α) (a : Attr α) :
    attrOr (g fresh) (override (kw.map g) (mapA g a)) = Except.map g (attrOr fresh (override kw a)) := by
  cases kw with
  | some _ => rfl
  | none => cases a <;> rfl

/-! ## The beginning and the end of a call -/

theorem reset_re (ρ : Equiv.Perm F) (alg : Lifecycle.Spatial) (X : Spec F n t) (kw : Option (F → Mat n ℂ)) (o : Lifecycle.Obj F n t) :
    Lifecycle.reset alg (re ρ X) (kw.map (re ρ)) ⟨mapA (re ρ) o.demix, mapA (re ρ) o.output⟩
      = Except.map (fun p => (p.1.map (re ρ), re ρ p.2)) (Lifecycle.reset alg X kw o) := by
  cases kw with
  | some W => cases h : alg.filterFree <;> simp only [Lifecycle.reset, h] <;> rfl
  | none =>
    obtain ⟨d, y⟩ := o
    cases d <;> cases h : alg.filterFree <;> simp only [Lifecycle.reset, h, mapA] <;> rfl

theorem restoreScale_map {α β : Type} (sr : ScaleOpt) (e : α → β) (x y : Except PyErr α) :
    restoreScale sr (Except.map e x) (Except.map e y) = Except.map e (restoreScale sr x y) := by
  simp only [restoreScale]
  split_ifs <;> rfl

/-- C96: the end of `__call__` with a filter. -/
theorem C96_finish (ρ : Equiv.Perm F) (sr : ScaleOpt) (r : Fin n) (X : Spec F n t) (W : F → Mat n ℂ) :
    finish sr r (re ρ X) (re ρ W) = Except.map (fun p => (re ρ p.1, re ρ p.2)) (finish sr r X W) := by
  have hpb : applyProjectionBack r (re ρ X) (re ρ W)
      = Except.map (fun p => (re ρ p.1, re ρ p.2)) (applyProjectionBack r X W) := by
    simp only [applyProjectionBack, projectionBackFilter]
    rw [npInvB_re]
    cases npInvB W <;> rfl
  have hmdp : applyMdp r (re ρ X) (re ρ W) = Except.map (fun p => (re ρ p.1, re ρ p.2)) (applyMdp r X W) := by
    simp only [applyMdp]
    rw [npInvB_re ρ fun f => X f * (X f)ᴴ]
    cases npInvB fun f => X f * (X f)ᴴ <;> rfl
  rw [finish, finish]
  cases hsr : sr.truthy with
  | false => rfl
  | true =>
    simp only [if_true, hpb, hmdp]
    rw [restoreScale_map]
    cases restoreScale sr (applyProjectionBack r X W) (applyMdp r X W) <;> rfl

/-- C96: the end of `__call__` without a filter. -/
theorem C96_finishFree (ρ : Equiv.Perm F) (sr : ScaleOpt) (r : Fin n) (X Y : Spec F n t) :
    finishFree sr r (re ρ X) (re ρ Y) = Except.map (re ρ) (finishFree sr r X Y) := by
  have hpb : projectionBackData r (re ρ Y) (re ρ X) = Except.map (re ρ) (projectionBackData r Y X) := by
    simp only [projectionBackData, projectionBackScale]
    rw [npInvB_re ρ fun f => Y f * (Y f)ᴴ]
    cases npInvB fun f => Y f * (Y f)ᴴ <;> rfl
  rw [finishFree, finishFree]
  cases hsr : sr.truthy with
  | false => rfl
  | true =>
    have hmdp : (Except.ok (mdp r (re ρ Y) (re ρ X)) : Except PyErr (Spec F n t)) = Except.map (re ρ) (.ok (mdp r Y X)) := rfl
    simp only [if_true, hpb]
    rw [hmdp, restoreScale_map]

/-! ## AuxIVA -/

namespace Iva

open _root_.Verif.Iva IvaCall

theorem binNorm_re (ρ : Equiv.Perm F) (Y : Spec F n t) : binNorm (re ρ Y) = binNorm Y := by
  funext k s
  exact congrArg Real.sqrt (Equiv.sum_comp ρ fun f => ‖Y f k s‖ ^ 2)

theorem weight_re (ρ : Equiv.Perm F) (floor : ℝ → ℝ) (d : Fin n → Fin t → ℝ → ℝ) (Y : Spec F n t) :
    weight floor d (re ρ Y) = weight floor d Y := by
  funext k s
  rw [weight, weight, binNorm_re]

theorem ip1Stack_re (ρ : Equiv.Perm F) (floor : ℝ → ℝ) (U : F → Fin n → Mat n ℂ) (W : F → Mat n ℂ) :
    ip1Stack floor (re ρ U) (re ρ W) = Except.map (re ρ) (ip1Stack floor U W) :=
  foldlM_map _ _ (re ρ) (fun W k => onBins_re ρ fun f => ip1Row floor (U f) (W f) k) _ W

theorem update_re (ρ : Equiv.Perm F) (np : Numpy ℂ) (alg : FilterAlg n) (floor : ℝ → ℝ) (d : Fin n → Fin t → ℝ → ℝ) (X : Spec F n t)
    (W : F → Mat n ℂ) :
    update np alg floor d (re ρ X) (re ρ W) = Except.map (re ρ) (update np alg floor d X W) := by
  cases alg with
  | ip1 =>
    have h : weight floor d (separate (re ρ X) (re ρ W)) = weight floor d (separate X W) := weight_re ρ floor d (separate X W)
    simp only [update, auxIp1, h]
    exact ip1Stack_re ρ floor (wcov (weight floor d (separate X W)) X) W
  | ip2 pairs =>
    refine foldlM_map _ _ (re ρ) (fun W p => ?_) _ W
    have h : weight floor d (separate (re ρ X) (re ρ W)) = weight floor d (separate X W) := weight_re ρ floor d (separate X W)
    simp only [auxIp2Pair, h]
    exact onBins_re ρ fun f => ip2Pair np floor (wcov (weight floor d (separate X W)) X f) (W f) p

theorem updateY_re (ρ : Equiv.Perm F) (np : Numpy ℂ) (alg : SignalAlg n) (floor : ℝ → ℝ) (d : Fin n → Fin t → ℝ → ℝ) (Y : Spec F n t) :
    updateY np alg floor d (re ρ Y) = Except.map (re ρ) (updateY np alg floor d Y) := by
  cases alg with
  | iss1 =>
    simp only [updateY, auxIss1, weight_re]
    rfl
  | iss2 pairs =>
    simp only [updateY, auxIss2, weight_re]
    exact foldlM_map _ _ (re ρ) (fun W k => onBins_re ρ fun f => iss2Pair np floor (weight floor d Y) (W f) k) _ Y

theorem ivaLoss_re (ρ : Equiv.Perm F) (G : Fin n → Fin t → ℝ → ℝ) (Y : Spec F n t) (W : F → Mat n ℂ) :
    ivaLoss G (re ρ Y) (re ρ W) = ivaLoss G Y W := by
  rw [ivaLoss, ivaLoss, binNorm_re]
  congr 2
  exact Equiv.sum_comp ρ fun f => Real.log ‖(W f).det‖

theorem lossFree_re (ρ : Equiv.Perm F) (G : Fin n → Fin t → ℝ → ℝ) (X Y : Spec F n t) :
    lossFree G (re ρ X) (re ρ Y) = lossFree G X Y := by
  simp only [lossFree]
  rw [npInvB_re ρ fun f => X f * (X f)ᴴ, bind_map]
  congr 1
  funext N
  exact congrArg Except.ok (ivaLoss_re ρ G Y fun f => Y f * (X f)ᴴ * N f)

/-- The object after its bins are renumbered. -/
def reObj (ρ : Equiv.Perm F) (o : IvaCall.Obj F n t) : IvaCall.Obj F n t := ⟨mapA (re ρ) o.demix, mapA (re ρ) o.output, o.loss⟩

/-- C96: `AuxIVA` with IP1 or IP2 on the recording with renumbered bins: the renumbered result, losses included, or the same
exception. -/
theorem C96_iva (ρ : Equiv.Perm F) (np : Numpy ℂ) (alg : FilterAlg n) (floor : ℝ → ℝ) (G d : Fin n → Fin t → ℝ → ℝ) (sr : ScaleOpt)
    (r : Fin n) (X : Spec F n t) (n_iter : ℕ) (ic : Bool) (kw : Option (F → Mat n ℂ)) (o : IvaCall.Obj F n t) :
    IvaCall.call np alg floor G d sr r (re ρ X) n_iter ic (kw.map (re ρ)) (reObj ρ o)
      = Except.map (reObj ρ) (IvaCall.call np alg floor G d sr r X n_iter ic kw o) := by
  have h1 : IvaCall.reset alg (re ρ X) (kw.map (re ρ)) (reObj ρ o) = Except.map (re ρ) (IvaCall.reset alg X kw o) := by
    simp only [IvaCall.reset, reObj]
    rw [reset_re ρ _ X kw ⟨o.demix, o.output⟩, bind_map, map_bind]
    congr 1
    funext p
    obtain ⟨W, Y⟩ := p
    cases W <;> rfl
  rw [IvaCall.call, IvaCall.call, h1, bind_map, map_bind]
  congr 1
  funext W
  have h2 := baseCall_map (e := re ρ) (step' := update np alg floor d (re ρ X)) (loss' := fun W => .ok (lossIp G (re ρ X) W))
    (step := update np alg floor d X) (loss := fun W => .ok (lossIp G X W)) (update_re ρ np alg floor d X)
    (fun W => congrArg Except.ok (ivaLoss_re ρ G (separate X W) W)) ic n_iter W o.loss
  change (baseCall _ _ ic n_iter (re ρ W) o.loss >>= _) = _
  rw [h2, bind_map, map_bind]
  congr 1
  funext p
  obtain ⟨W, ls⟩ := p
  change (finish sr r (re ρ X) (re ρ W) >>= _) = _
  rw [C96_finish, bind_map, map_bind]
  rfl

/-- C96: `AuxIVA` with ISS1 or ISS2. -/
theorem C96_iva_iss (ρ : Equiv.Perm F) (np : Numpy ℂ) (alg : SignalAlg n) (floor : ℝ → ℝ) (G d : Fin n → Fin t → ℝ → ℝ) (sr : ScaleOpt)
    (r : Fin n) (X : Spec F n t) (n_iter : ℕ) (ic : Bool) (kw : Option (F → Mat n ℂ)) (o : IvaCall.Obj F n t) :
    IvaCall.callSignal np alg floor G d sr r (re ρ X) n_iter ic (kw.map (re ρ)) (reObj ρ o)
      = Except.map (reObj ρ) (IvaCall.callSignal np alg floor G d sr r X n_iter ic kw o) := by
  rw [IvaCall.callSignal, IvaCall.callSignal]
  simp only [reObj]
  rw [reset_re ρ _ X kw ⟨o.demix, o.output⟩, bind_map, map_bind]
  congr 1
  funext p
  have h2 := baseCall_map (e := re ρ) (updateY_re ρ np alg floor d) (lossFree_re ρ G X) ic n_iter p.2 o.loss
  change (baseCall (updateY np alg floor d) (lossFree G (re ρ X)) ic n_iter (re ρ p.2) o.loss >>= _) = _
  rw [h2, bind_map, map_bind]
  congr 1
  funext q
  change (finishFree sr r (re ρ X) (re ρ q.1) >>= _) = _
  rw [C96_finishFree, bind_map, map_bind]
  rfl

/-- C96: `AuxGaussIVA` with IP1 or IP2. -/
theorem C96_iva_gauss (ρ : Equiv.Perm F) (np : Numpy ℂ) (alg : FilterAlg n) (floor : ℝ → ℝ) (sr : ScaleOpt)
    (r : Fin n) (X : Spec F n t) (n_iter : ℕ) (ic : Bool) (kw : Option (F → Mat n ℂ)) (o : IvaCall.GaussObj F n t) :
    IvaCall.gaussCall np alg floor sr r (re ρ X) n_iter ic (kw.map (re ρ)) ⟨mapA (re ρ) o.demix, o.variance, mapA (re ρ) o.output, o.loss⟩
      = Except.map (fun o => ⟨mapA (re ρ) o.demix, o.variance, mapA (re ρ) o.output, o.loss⟩)
          (IvaCall.gaussCall np alg floor sr r X n_iter ic kw o) := by
  have h1 : IvaCall.gaussReset alg (re ρ X) (kw.map (re ρ)) ⟨mapA (re ρ) o.demix, o.variance, mapA (re ρ) o.output, o.loss⟩
      = Except.map (fun s => ⟨re ρ s.W, s.variance⟩) (IvaCall.gaussReset alg X kw o) := by
    simp only [IvaCall.gaussReset, IvaCall.reset]
    rw [reset_re ρ _ X kw ⟨o.demix, o.output⟩, bind_map, map_bind]
    cases Lifecycle.reset (IlrmaCall.label alg) X kw ⟨o.demix, o.output⟩ with
    | error => rfl
    | ok p =>
      obtain ⟨W, Y⟩ := p
      cases W <;> rfl
  have h2 : ∀ s : GaussState F n t, gaussUpdate np alg floor (re ρ X) ⟨re ρ s.W, s.variance⟩
      = Except.map (fun s => ⟨re ρ s.W, s.variance⟩) (gaussUpdate np alg floor X s) := by
    intro s
    have hv : gaussVariance (separate (re ρ X) (re ρ s.W)) = gaussVariance (separate X s.W) := by
      funext k j
      exact congrArg (· / (Fintype.card F : ℝ)) (Equiv.sum_comp ρ fun f => ‖separate X s.W f k j‖ ^ 2)
    have hu := update_re ρ np alg floor (gaussD (gaussVariance (separate X s.W))) X s.W
    cases alg with
    | ip1 =>
      simp only [gaussUpdate, gaussIp1, hv]
      simp only [update] at hu
      rw [hu, bind_map, map_bind]
      rfl
    | ip2 pairs =>
      simp only [gaussUpdate, gaussIp2, hv]
      simp only [update] at hu
      rw [hu, bind_map, map_bind]
      rfl
  rw [IvaCall.gaussCall, IvaCall.gaussCall, h1, bind_map, map_bind]
  congr 1
  funext s
  have h3 := baseCall_map (e := fun s : GaussState F n t => ⟨re ρ s.W, s.variance⟩) h2
    (loss' := fun s => .ok (gaussLoss (re ρ X) s)) (loss := fun s => .ok (gaussLoss X s))
    (fun s => congrArg Except.ok (ivaLoss_re ρ (gaussG F s.variance) (separate X s.W) s.W)) ic n_iter s o.loss
  rw [h3, bind_map, map_bind]
  congr 1
  funext p
  change (finish sr r (re ρ X) (re ρ p.1.W) >>= _) = _
  rw [C96_finish, bind_map, map_bind]
  rfl

end Iva

namespace Ilrma

open _root_.Verif.Ilrma
open IlrmaCall

/-- The basis with the bins numbered by `ρ` and the components of source `k` numbered by `π k`. -/
abbrev reT (ρ : Equiv.Perm F) (π : Fin n → Equiv.Perm (Fin K)) (T : Fin n → F → Fin K → ℝ) : Fin n → F → Fin K → ℝ :=
  fun k f b => T k (ρ f) (π k b)

/-- The activation with the components of source `k` numbered by `π k`. -/
abbrev reV (π : Fin n → Equiv.Perm (Fin K)) (V : Fin n → Fin K → Fin t → ℝ) : Fin n → Fin K → Fin t → ℝ :=
  fun k b s => V k (π k b) s

theorem recon_re (ρ : Equiv.Perm F) (π : Fin n → Equiv.Perm (Fin K)) (T : Fin n → F → Fin K → ℝ) (V : Fin n → Fin K → Fin t → ℝ)
    (k : Fin n) (f : F) (s : Fin t) : recon (reT ρ π T) (reV π V) k f s = recon T V k (ρ f) s :=
  Equiv.sum_comp (π k) fun b => T k (ρ f) b * V k b s

theorem updateBasis_re (ρ : Equiv.Perm F) (π : Fin n → Equiv.Perm (Fin K)) (src : Source) (floor : ℝ → ℝ) (Y : Spec F n t)
    (T : Fin n → F → Fin K → ℝ) (V : Fin n → Fin K → Fin t → ℝ) :
    updateBasis src floor (re ρ Y) (reT ρ π T) (reV π V) = reT ρ π (updateBasis src floor Y T V) := by
  funext k f b
  simp only [updateBasis, basisRaw, recon_re]

theorem updateActivation_re (ρ : Equiv.Perm F) (π : Fin n → Equiv.Perm (Fin K)) (src : Source) (floor : ℝ → ℝ) (Y : Spec F n t)
    (T : Fin n → F → Fin K → ℝ) (V : Fin n → Fin K → Fin t → ℝ) :
    updateActivation src floor (re ρ Y) (reT ρ π T) (reV π V) = reV π (updateActivation src floor Y T V) := by
  funext k b s
  simp only [updateActivation, activationRaw, recon_re]
  rw [Equiv.sum_comp ρ fun f => T k f (π k b) * src.num ‖Y f k s‖ (recon T V k f s),
    Equiv.sum_comp ρ fun f => T k f (π k b) / recon T V k f s]

theorem spatialFilter_re (ρ : Equiv.Perm F) (np : Numpy ℂ) (alg : FilterAlg n) (floor : ℝ → ℝ) (phi : F → Fin n → Fin t → ℝ)
    (X : Spec F n t) (W : F → Mat n ℂ) :
    spatialFilter np alg floor (re ρ phi) (re ρ X) (re ρ W) = Except.map (re ρ) (spatialFilter np alg floor phi X W) := by
  cases alg with
  | ip1 => exact Iva.ip1Stack_re ρ floor (fun f => _root_.Verif.Iva.wcov (phi f) X f) W
  | ip2 pairs =>
    exact foldlM_map _ _ (re ρ)
      (fun W p => onBins_re ρ fun f => ip2Pair np floor (_root_.Verif.Iva.wcov (phi f) X f) (W f) p) _ W

theorem spatialSignal_re (ρ : Equiv.Perm F) (np : Numpy ℂ) (alg : SignalAlg n) (floor : ℝ → ℝ) (phi : F → Fin n → Fin t → ℝ)
    (Y : Spec F n t) :
    spatialSignal np alg floor (re ρ phi) (re ρ Y) = Except.map (re ρ) (spatialSignal np alg floor phi Y) := by
  cases alg with
  | iss1 => rfl
  | iss2 pairs =>
    exact foldlM_map _ _ (re ρ) (fun Y p => onBins_re ρ fun f => iss2Pair np floor (phi f) (Y f) p) _ Y

theorem lossOf_re (ρ : Equiv.Perm F) (src : Source) (Y : Spec F n t) (R : Fin n → F → Fin t → ℝ) (W : F → Mat n ℂ) :
    lossOf src (re ρ Y) (fun k f => R k (ρ f)) (re ρ W) = lossOf src Y R W :=
  Equiv.sum_comp ρ fun f => (∑ k, meanT (fun s => src.ell ‖Y f k s‖ (R k f s)) - 2 * Real.log ‖(W f).det‖)

theorem filterOf_re (ρ : Equiv.Perm F) (X Y : Spec F n t) : filterOf (re ρ X) (re ρ Y) = Except.map (re ρ) (filterOf X Y) := by
  simp only [filterOf]
  rw [npInvB_re ρ fun f => X f * (X f)ᴴ, bind_map, map_bind]
  rfl

theorem psi_re (ρ : Equiv.Perm F) (floor : ℝ → ℝ) (Y : Spec F n t) : psi floor (re ρ Y) = psi floor Y := by
  funext k
  simp only [psi]
  rw [Equiv.sum_comp ρ fun f => ∑ s, ‖Y f k s‖ ^ 2]

/-- The state with the bins and the components renumbered. -/
def reSt (ρ : Equiv.Perm F) (π : Fin n → Equiv.Perm (Fin K)) (s : St F n t K) : St F n t K := ⟨re ρ s.W, reT ρ π s.T, reV π s.V⟩

/-- The state of the `ISS` variants with the bins and the components renumbered. -/
def reStY (ρ : Equiv.Perm F) (π : Fin n → Equiv.Perm (Fin K)) (s : StY F n t K) : StY F n t K := ⟨re ρ s.Y, reT ρ π s.T, reV π s.V⟩

theorem normalize_re (ρ : Equiv.Perm F) (π : Fin n → Equiv.Perm (Fin K)) (p : ℝ) (floor : ℝ → ℝ) (X : Spec F n t) (norm : Norm n)
    (s : St F n t K) :
    _root_.Verif.Ilrma.normalize p floor (re ρ X) norm (reSt ρ π s)
      = Except.map (reSt ρ π) (_root_.Verif.Ilrma.normalize p floor X norm s) := by
  cases norm with
  | off => rfl
  | power =>
    have h : psi floor (separate (re ρ X) (re ρ s.W)) = psi floor (separate X s.W) := psi_re ρ floor (separate X s.W)
    simp only [_root_.Verif.Ilrma.normalize, reSt, h]
    rfl
  | projectionBack r =>
    simp only [_root_.Verif.Ilrma.normalize, reSt]
    rw [npInvB_re, bind_map, map_bind]
    rfl

theorem normalizeY_re (ρ : Equiv.Perm F) (π : Fin n → Equiv.Perm (Fin K)) (p : ℝ) (floor : ℝ → ℝ) (X : Spec F n t) (norm : Norm n)
    (s : StY F n t K) :
    normalizeY p floor (re ρ X) norm (reStY ρ π s) = Except.map (reStY ρ π) (normalizeY p floor X norm s) := by
  cases norm with
  | off => rfl
  | power =>
    simp only [normalizeY, reStY, psi_re]
    rfl
  | projectionBack r =>
    simp only [normalizeY, reStY]
    rw [npInvB_re ρ fun f => s.Y f * (s.Y f)ᴴ, bind_map, map_bind]
    rfl

theorem updateSource_re (ρ : Equiv.Perm F) (π : Fin n → Equiv.Perm (Fin K)) (src : Source) (floor : ℝ → ℝ) (X : Spec F n t)
    (s : St F n t K) : updateSource src floor (re ρ X) (reSt ρ π s) = reSt ρ π (updateSource src floor X s) := by
  have h : separate (re ρ X) (re ρ s.W) = re ρ (separate X s.W) := rfl
  simp only [updateSource, reSt]
  rw [h, updateBasis_re, updateActivation_re]

theorem updateSourceY_re (ρ : Equiv.Perm F) (π : Fin n → Equiv.Perm (Fin K)) (src : Source) (floor : ℝ → ℝ) (s : StY F n t K) :
    updateSourceY src floor (reStY ρ π s) = reStY ρ π (updateSourceY src floor s) := by
  simp only [updateSourceY, reStY]
  rw [updateBasis_re, updateActivation_re]

theorem varphi_re (ρ : Equiv.Perm F) (π : Fin n → Equiv.Perm (Fin K)) (src : Source) (floor : ℝ → ℝ) (Y : Spec F n t)
    (T : Fin n → F → Fin K → ℝ) (V : Fin n → Fin K → Fin t → ℝ) :
    varphi src floor (re ρ Y) (recon (reT ρ π T) (reV π V)) = re ρ (varphi src floor Y (recon T V)) := by
  funext f k s
  simp only [varphi, recon_re]

theorem updateOnce_re (ρ : Equiv.Perm F) (π : Fin n → Equiv.Perm (Fin K)) (np : Numpy ℂ) (src : Source) (p : ℝ) (alg : FilterAlg n)
    (norm : Norm n) (floor : ℝ → ℝ) (X : Spec F n t) (s : St F n t K) :
    updateOnce np src p alg norm floor (re ρ X) (reSt ρ π s) = Except.map (reSt ρ π) (updateOnce np src p alg norm floor X s) := by
  have h : ∀ s : St F n t K, updateSpatial np src alg floor (re ρ X) (reSt ρ π s)
      = Except.map (reSt ρ π) (updateSpatial np src alg floor X s) := by
    intro s
    have h := varphi_re ρ π src floor (separate X s.W) s.T s.V
    simp only [updateSpatial]
    change (spatialFilter np alg floor (varphi src floor (re ρ (separate X s.W)) (recon (reT ρ π s.T) (reV π s.V))) (re ρ X) (re ρ s.W)
      >>= _) = _
    rw [h, spatialFilter_re, bind_map, map_bind]
    rfl
  simp only [updateOnce]
  rw [updateSource_re, h, bind_map, map_bind]
  congr 1
  funext s
  exact normalize_re ρ π p floor X norm s

theorem updateOnceY_re (ρ : Equiv.Perm F) (π : Fin n → Equiv.Perm (Fin K)) (np : Numpy ℂ) (src : Source) (p : ℝ) (alg : SignalAlg n)
    (norm : Norm n) (floor : ℝ → ℝ) (X : Spec F n t) (s : StY F n t K) :
    updateOnceY np src p alg norm floor (re ρ X) (reStY ρ π s) = Except.map (reStY ρ π) (updateOnceY np src p alg norm floor X s) := by
  have h : ∀ s : StY F n t K, updateSpatialY np src alg floor (reStY ρ π s)
      = Except.map (reStY ρ π) (updateSpatialY np src alg floor s) := by
    intro s
    simp only [updateSpatialY, reStY]
    rw [varphi_re, spatialSignal_re, bind_map, map_bind]
    rfl
  simp only [updateOnceY]
  rw [updateSourceY_re, h, bind_map, map_bind]
  congr 1
  funext s
  exact normalizeY_re ρ π p floor X norm s

theorem loss_re (ρ : Equiv.Perm F) (π : Fin n → Equiv.Perm (Fin K)) (src : Source) (X : Spec F n t) (s : St F n t K) :
    loss src (re ρ X) (reSt ρ π s) = loss src X s := by
  have h : recon (reT ρ π s.T) (reV π s.V) = fun k f => recon s.T s.V k (ρ f) := by
    funext k f j
    exact recon_re ρ π s.T s.V k f j
  simp only [loss, reSt, h]
  exact lossOf_re ρ src (separate X s.W) (recon s.T s.V) s.W

theorem lossY_re (ρ : Equiv.Perm F) (π : Fin n → Equiv.Perm (Fin K)) (src : Source) (X : Spec F n t) (s : StY F n t K) :
    lossY src (re ρ X) (reStY ρ π s) = lossY src X s := by
  have h : recon (reT ρ π s.T) (reV π s.V) = fun k f => recon s.T s.V k (ρ f) := by
    funext k f j
    exact recon_re ρ π s.T s.V k f j
  simp only [lossY, reStY, h]
  rw [filterOf_re, bind_map]
  congr 1
  funext W
  exact congrArg Except.ok (lossOf_re ρ src s.Y (recon s.T s.V) W)

/-- The attributes with the bins and the components renumbered. -/
def reObj (ρ : Equiv.Perm F) (π : Fin n → Equiv.Perm (Fin K)) (o : IlrmaCall.Obj F n t K) : IlrmaCall.Obj F n t K :=
  ⟨mapA (re ρ) o.demix, mapA (reT ρ π) o.basis, mapA (reV π) o.activation, mapA (re ρ) o.output, o.loss⟩

/-- The keyword arguments with the bins and the components renumbered. -/
def reKw (ρ : Equiv.Perm F) (π : Fin n → Equiv.Perm (Fin K)) (kw : IlrmaCall.Kw F n t K) : IlrmaCall.Kw F n t K :=
  ⟨kw.demix.map (re ρ), kw.basis.map (reT ρ π), kw.activation.map (reV π)⟩

/-- The random numbers drawn at the first call with the bins and the components renumbered. -/
def reDraw (ρ : Equiv.Perm F) (π : Fin n → Equiv.Perm (Fin K)) (d : IlrmaCall.Draw F n t K) : IlrmaCall.Draw F n t K :=
  ⟨reT ρ π d.T, reV π d.V⟩

theorem initNmf_re (ρ : Equiv.Perm F) (π : Fin n → Equiv.Perm (Fin K)) (floor : ℝ → ℝ) (d : IlrmaCall.Draw F n t K)
    (kw : IlrmaCall.Kw F n t K) (o : IlrmaCall.Obj F n t K) :
    initNmf floor (reDraw ρ π d).T (reDraw ρ π d).V (override (reKw ρ π kw).basis (reObj ρ π o).basis)
        (override (reKw ρ π kw).activation (reObj ρ π o).activation)
      = Except.map (fun p => (reT ρ π p.1, reV π p.2))
          (initNmf floor d.T d.V (override kw.basis o.basis) (override kw.activation o.activation)) := by
  have h1 := attrOr_re (reT ρ π) (fun k f b => floor (d.T k f b)) kw.basis o.basis
  have h2 := attrOr_re (reV π) (fun k b j => floor (d.V k b j)) kw.activation o.activation
  change (attrOr (reT ρ π fun k f b => floor (d.T k f b)) (override (kw.basis.map (reT ρ π)) (mapA (reT ρ π) o.basis)) >>= fun T =>
    attrOr (reV π fun k b j => floor (d.V k b j)) (override (kw.activation.map (reV π)) (mapA (reV π) o.activation)) >>= fun V => _) = _
  rw [h1, h2, initNmf, bind_map, map_bind]
  congr 1
  funext T
  rw [bind_map, map_bind]
  rfl

/-- **C96.** `GaussILRMA`, `TILRMA` and `GGDILRMA` with `IP1` or `IP2` do not see how the bins and the NMF components are
numbered: renumbering the bins of the recording and of all tensors, and for every source the components of basis and
activation, renumbers everything a call leaves behind and does not change the losses. -/
theorem C96_ilrma (ρ : Equiv.Perm F) (π : Fin n → Equiv.Perm (Fin K)) (np : Numpy ℂ) (src : Source) (p : ℝ) (alg : FilterAlg n)
    (norm : Norm n) (floor : ℝ → ℝ) (sr : ScaleOpt) (r : Fin n) (draw : IlrmaCall.Draw F n t K) (X : Spec F n t) (n_iter : ℕ) (ic : Bool)
    (kw : IlrmaCall.Kw F n t K) (o : IlrmaCall.Obj F n t K) :
    IlrmaCall.call np src p alg norm floor sr r (reDraw ρ π draw) (re ρ X) n_iter ic (reKw ρ π kw) (reObj ρ π o)
      = Except.map (reObj ρ π) (IlrmaCall.call np src p alg norm floor sr r draw X n_iter ic kw o) := by
  have h1 : resetFilter alg floor (reDraw ρ π draw) (re ρ X) (reKw ρ π kw) (reObj ρ π o)
      = Except.map (reSt ρ π) (resetFilter alg floor draw X kw o) := by
    rw [resetFilter, resetFilter]
    change (Lifecycle.reset (label alg) (re ρ X) (kw.demix.map (re ρ)) ⟨mapA (re ρ) o.demix, mapA (re ρ) o.output⟩ >>= _) = _
    rw [reset_re ρ _ X kw.demix ⟨o.demix, o.output⟩, bind_map, map_bind]
    congr 1
    funext q
    obtain ⟨W, Y⟩ := q
    dsimp only
    rw [initNmf_re, bind_map, map_bind]
    congr 1
    funext q
    cases W <;> rfl
  rw [IlrmaCall.call, IlrmaCall.call, h1, bind_map, map_bind]
  congr 1
  funext s
  have h2 := baseCall_map (e := reSt ρ π) (updateOnce_re ρ π np src p alg norm floor X) (loss' := fun s => .ok (loss src (re ρ X) s))
    (loss := fun s => .ok (loss src X s)) (fun s => congrArg Except.ok (loss_re ρ π src X s)) ic n_iter s o.loss
  change (baseCall _ _ ic n_iter (reSt ρ π s) o.loss >>= _) = _
  rw [h2, bind_map, map_bind]
  congr 1
  funext q
  obtain ⟨s, ls⟩ := q
  change (finish sr r (re ρ X) (re ρ s.W) >>= _) = _
  rw [C96_finish, bind_map, map_bind]
  rfl

/-- C96: the same with `ISS1` or `ISS2`. -/
theorem C96_ilrma_iss (ρ : Equiv.Perm F) (π : Fin n → Equiv.Perm (Fin K)) (np : Numpy ℂ) (src : Source) (p : ℝ) (alg : SignalAlg n)
    (norm : Norm n) (floor : ℝ → ℝ) (sr : ScaleOpt) (r : Fin n) (draw : IlrmaCall.Draw F n t K) (X : Spec F n t) (n_iter : ℕ) (ic : Bool)
    (kw : IlrmaCall.Kw F n t K) (o : IlrmaCall.Obj F n t K) :
    callSignal np src p alg norm floor sr r (reDraw ρ π draw) (re ρ X) n_iter ic (reKw ρ π kw) (reObj ρ π o)
      = Except.map (reObj ρ π) (callSignal np src p alg norm floor sr r draw X n_iter ic kw o) := by
  have h1 : resetSignal alg floor (reDraw ρ π draw) (re ρ X) (reKw ρ π kw) (reObj ρ π o)
      = Except.map (reStY ρ π) (resetSignal alg floor draw X kw o) := by
    rw [resetSignal, resetSignal]
    change (Lifecycle.reset (labelY alg) (re ρ X) (kw.demix.map (re ρ)) ⟨mapA (re ρ) o.demix, mapA (re ρ) o.output⟩ >>= _) = _
    rw [reset_re ρ _ X kw.demix ⟨o.demix, o.output⟩, bind_map, map_bind]
    congr 1
    funext q
    obtain ⟨W, Y⟩ := q
    dsimp only
    rw [initNmf_re, bind_map, map_bind]
    rfl
  rw [callSignal, callSignal, h1, bind_map, map_bind]
  congr 1
  funext s
  have h2 := baseCall_map (e := reStY ρ π) (updateOnceY_re ρ π np src p alg norm floor X) (lossY_re ρ π src X) ic n_iter s o.loss
  change (baseCall _ _ ic n_iter (reStY ρ π s) o.loss >>= _) = _
  rw [h2, bind_map, map_bind]
  congr 1
  funext q
  obtain ⟨s, ls⟩ := q
  change (finishFree sr r (re ρ X) (re ρ s.Y) >>= _) = _
  rw [C96_finishFree, bind_map, map_bind]
  rfl

/-- Two bins and two components: swapping the bins everywhere and the components of the first source only, in the random numbers,
swaps the bins of the output of a fresh object and leaves the losses as they are. -/
example (np : Numpy ℂ) (draw : IlrmaCall.Draw (Fin 2) 2 t 2) (X : Spec (Fin 2) 2 t) (o' : IlrmaCall.Obj (Fin 2) 2 t 2)
    (h : IlrmaCall.call np (gauss 2) 2 .ip1 .power (fun x => max x (1 / 10)) (.bool true) 0 draw X 50 true {} .fresh = .ok o') :
    ∃ o : IlrmaCall.Obj (Fin 2) 2 t 2,
      IlrmaCall.call np (gauss 2) 2 .ip1 .power (fun x => max x (1 / 10)) (.bool true) 0
        (reDraw (Equiv.swap 0 1) (fun k => if k = 0 then Equiv.swap 0 1 else 1) draw) (fun f => X (Equiv.swap 0 1 f))
        50 true {} .fresh = .ok o ∧ o.loss = o'.loss ∧
      ∀ Y, o'.output = .val Y → o.output = .val fun f => Y (Equiv.swap 0 1 f) := by
  refine ⟨reObj (Equiv.swap 0 1) (fun k => if k = 0 then Equiv.swap 0 1 else 1) o', ?_, rfl, fun Y hY => ?_⟩
  · refine (C96_ilrma (Equiv.swap 0 1) (fun k => if k = 0 then Equiv.swap 0 1 else 1) np (gauss 2) 2 .ip1 .power _ (.bool true) 0
      draw X 50 true {} .fresh).trans ?_
    rw [h]
    rfl
  simp only [reObj, hY]
  rfl

/-! ### With a partitioning function -/

/-- The shared basis with the bins numbered by `ρ` and the components by `π`. -/
abbrev reTP (ρ : Equiv.Perm F) (π : Equiv.Perm (Fin K)) (T : F → Fin K → ℝ) : F → Fin K → ℝ := fun f b => T (ρ f) (π b)

/-- The shared activation with the components numbered by `π`. -/
abbrev reVP (π : Equiv.Perm (Fin K)) (V : Fin K → Fin t → ℝ) : Fin K → Fin t → ℝ := fun b s => V (π b) s

/-- The latent variable with the components numbered by `π`. -/
abbrev reZ (π : Equiv.Perm (Fin K)) (Z : Fin n → Fin K → ℝ) : Fin n → Fin K → ℝ := fun k b => Z k (π b)

theorem reconP_re (ρ : Equiv.Perm F) (π : Equiv.Perm (Fin K)) (Z : Fin n → Fin K → ℝ) (T : F → Fin K → ℝ) (V : Fin K → Fin t → ℝ)
    (k : Fin n) (f : F) (s : Fin t) : reconP (reZ π Z) (reTP ρ π T) (reVP π V) k f s = reconP Z T V k (ρ f) s :=
  Equiv.sum_comp π fun b => Z k b * (T (ρ f) b * V b s)

theorem latentRaw_re (ρ : Equiv.Perm F) (π : Equiv.Perm (Fin K)) (src : Source) (Y : Spec F n t) (Z : Fin n → Fin K → ℝ)
    (T : F → Fin K → ℝ) (V : Fin K → Fin t → ℝ) (k : Fin n) (b : Fin K) :
    latentRaw src (re ρ Y) (reZ π Z) (reTP ρ π T) (reVP π V) k b = latentRaw src Y Z T V k (π b) := by
  simp only [latentRaw, reconP_re]
  rw [Equiv.sum_comp ρ fun f => ∑ s, T f (π b) * V (π b) s * src.num ‖Y f k s‖ (reconP Z T V k f s),
    Equiv.sum_comp ρ fun f => ∑ s, T f (π b) * V (π b) s / reconP Z T V k f s]

theorem updateLatent_re (ρ : Equiv.Perm F) (π : Equiv.Perm (Fin K)) (src : Source) (Y : Spec F n t) (Z : Fin n → Fin K → ℝ)
    (T : F → Fin K → ℝ) (V : Fin K → Fin t → ℝ) :
    updateLatent src (re ρ Y) (reZ π Z) (reTP ρ π T) (reVP π V) = reZ π (updateLatent src Y Z T V) := by
  funext k b
  simp only [updateLatent, latentRaw_re]

theorem updateBasisP_re (ρ : Equiv.Perm F) (π : Equiv.Perm (Fin K)) (src : Source) (floor : ℝ → ℝ) (Y : Spec F n t)
    (Z : Fin n → Fin K → ℝ) (T : F → Fin K → ℝ) (V : Fin K → Fin t → ℝ) :
    updateBasisP src floor (re ρ Y) (reZ π Z) (reTP ρ π T) (reVP π V) = reTP ρ π (updateBasisP src floor Y Z T V) := by
  funext f b
  simp only [updateBasisP, basisRawP, reconP_re]

theorem updateActivationP_re (ρ : Equiv.Perm F) (π : Equiv.Perm (Fin K)) (src : Source) (floor : ℝ → ℝ) (Y : Spec F n t)
    (Z : Fin n → Fin K → ℝ) (T : F → Fin K → ℝ) (V : Fin K → Fin t → ℝ) :
    updateActivationP src floor (re ρ Y) (reZ π Z) (reTP ρ π T) (reVP π V) = reVP π (updateActivationP src floor Y Z T V) := by
  funext b s
  have h1 : ∀ k, ∑ f, Z k (π b) * T (ρ f) (π b) * src.num ‖Y (ρ f) k s‖ (reconP Z T V k (ρ f) s)
      = ∑ f, Z k (π b) * T f (π b) * src.num ‖Y f k s‖ (reconP Z T V k f s) := fun k =>
    Equiv.sum_comp ρ fun f => Z k (π b) * T f (π b) * src.num ‖Y f k s‖ (reconP Z T V k f s)
  have h2 : ∀ k, ∑ f, Z k (π b) * T (ρ f) (π b) / reconP Z T V k (ρ f) s
      = ∑ f, Z k (π b) * T f (π b) / reconP Z T V k f s := fun k =>
    Equiv.sum_comp ρ fun f => Z k (π b) * T f (π b) / reconP Z T V k f s
  simp only [updateActivationP, activationRawP, reconP_re, h1, h2]

/-- The state with the bins and the components renumbered. -/
def reStP (ρ : Equiv.Perm F) (π : Equiv.Perm (Fin K)) (s : StP F n t K) : StP F n t K :=
  ⟨re ρ s.W, reZ π s.Z, reTP ρ π s.T, reVP π s.V⟩

/-- The state of the `ISS` variants with the bins and the components renumbered. -/
def reStYP (ρ : Equiv.Perm F) (π : Equiv.Perm (Fin K)) (s : StYP F n t K) : StYP F n t K :=
  ⟨re ρ s.Y, reZ π s.Z, reTP ρ π s.T, reVP π s.V⟩

theorem normalizeP_re (ρ : Equiv.Perm F) (π : Equiv.Perm (Fin K)) (p : ℝ) (floor : ℝ → ℝ) (X : Spec F n t) (norm : Norm n)
    (s : StP F n t K) :
    normalizeP p floor (re ρ X) norm (reStP ρ π s) = Except.map (reStP ρ π) (normalizeP p floor X norm s) := by
  cases norm with
  | off => rfl
  | power =>
    have h : psi floor (separate (re ρ X) (re ρ s.W)) = psi floor (separate X s.W) := psi_re ρ floor (separate X s.W)
    simp only [normalizeP, reStP, h]
    rfl
  | projectionBack r => rfl

theorem normalizeYP_re (ρ : Equiv.Perm F) (π : Equiv.Perm (Fin K)) (p : ℝ) (floor : ℝ → ℝ) (norm : Norm n)
    (s : StYP F n t K) :
    normalizeYP p floor norm (reStYP ρ π s) = Except.map (reStYP ρ π) (normalizeYP p floor norm s) := by
  cases norm with
  | off => rfl
  | power =>
    simp only [normalizeYP, reStYP, psi_re]
    rfl
  | projectionBack r => rfl

theorem varphiP_re (ρ : Equiv.Perm F) (π : Equiv.Perm (Fin K)) (src : Source) (floor : ℝ → ℝ) (Y : Spec F n t)
    (Z : Fin n → Fin K → ℝ) (T : F → Fin K → ℝ) (V : Fin K → Fin t → ℝ) :
    varphi src floor (re ρ Y) (reconP (reZ π Z) (reTP ρ π T) (reVP π V)) = re ρ (varphi src floor Y (reconP Z T V)) := by
  funext f k s
  simp only [varphi, reconP_re]

theorem updateOnceP_re (ρ : Equiv.Perm F) (π : Equiv.Perm (Fin K)) (np : Numpy ℂ) (src : Source) (p : ℝ) (alg : FilterAlg n)
    (norm : Norm n) (floor : ℝ → ℝ) (X : Spec F n t) (s : StP F n t K) :
    updateOnceP np src p alg norm floor (re ρ X) (reStP ρ π s) = Except.map (reStP ρ π) (updateOnceP np src p alg norm floor X s) := by
  have h0 : updateSourceP src floor (re ρ X) (reStP ρ π s) = reStP ρ π (updateSourceP src floor X s) := by
    have h : separate (re ρ X) (re ρ s.W) = re ρ (separate X s.W) := rfl
    simp only [updateSourceP, reStP]
    rw [h, updateLatent_re, updateBasisP_re, updateActivationP_re]
  have h : ∀ s : StP F n t K, updateSpatialP np src alg floor (re ρ X) (reStP ρ π s)
      = Except.map (reStP ρ π) (updateSpatialP np src alg floor X s) := by
    intro s
    have h := varphiP_re ρ π src floor (separate X s.W) s.Z s.T s.V
    simp only [updateSpatialP]
    change (spatialFilter np alg floor (varphi src floor (re ρ (separate X s.W)) (reconP (reZ π s.Z) (reTP ρ π s.T) (reVP π s.V)))
      (re ρ X) (re ρ s.W) >>= _) = _
    rw [h, spatialFilter_re, bind_map, map_bind]
    rfl
  simp only [updateOnceP]
  rw [h0, h, bind_map, map_bind]
  congr 1
  funext s
  exact normalizeP_re ρ π p floor X norm s

theorem updateOnceYP_re (ρ : Equiv.Perm F) (π : Equiv.Perm (Fin K)) (np : Numpy ℂ) (src : Source) (p : ℝ) (alg : SignalAlg n)
    (norm : Norm n) (floor : ℝ → ℝ) (s : StYP F n t K) :
    updateOnceYP np src p alg norm floor (reStYP ρ π s) = Except.map (reStYP ρ π) (updateOnceYP np src p alg norm floor s) := by
  have h0 : updateSourceYP src floor (reStYP ρ π s) = reStYP ρ π (updateSourceYP src floor s) := by
    simp only [updateSourceYP, reStYP]
    rw [updateLatent_re, updateBasisP_re, updateActivationP_re]
  have h : ∀ s : StYP F n t K, updateSpatialYP np src alg floor (reStYP ρ π s)
      = Except.map (reStYP ρ π) (updateSpatialYP np src alg floor s) := by
    intro s
    simp only [updateSpatialYP, reStYP]
    rw [varphiP_re, spatialSignal_re, bind_map, map_bind]
    rfl
  simp only [updateOnceYP]
  rw [h0, h, bind_map, map_bind]
  congr 1
  funext s
  exact normalizeYP_re ρ π p floor norm s

theorem lossP_re (ρ : Equiv.Perm F) (π : Equiv.Perm (Fin K)) (src : Source) (X : Spec F n t) (s : StP F n t K) :
    lossP src (re ρ X) (reStP ρ π s) = lossP src X s := by
  have h : reconP (reZ π s.Z) (reTP ρ π s.T) (reVP π s.V) = fun k f => reconP s.Z s.T s.V k (ρ f) := by
    funext k f j
    exact reconP_re ρ π s.Z s.T s.V k f j
  simp only [lossP, reStP, h]
  exact lossOf_re ρ src (separate X s.W) (reconP s.Z s.T s.V) s.W

theorem lossYP_re (ρ : Equiv.Perm F) (π : Equiv.Perm (Fin K)) (src : Source) (X : Spec F n t) (s : StYP F n t K) :
    lossYP src (re ρ X) (reStYP ρ π s) = lossYP src X s := by
  have h : reconP (reZ π s.Z) (reTP ρ π s.T) (reVP π s.V) = fun k f => reconP s.Z s.T s.V k (ρ f) := by
    funext k f j
    exact reconP_re ρ π s.Z s.T s.V k f j
  simp only [lossYP, reStYP, h]
  rw [filterOf_re, bind_map]
  congr 1
  funext W
  exact congrArg Except.ok (lossOf_re ρ src s.Y (reconP s.Z s.T s.V) W)

/-- The attributes with the bins and the components renumbered. -/
def reObjP (ρ : Equiv.Perm F) (π : Equiv.Perm (Fin K)) (o : ObjP F n t K) : ObjP F n t K :=
  ⟨mapA (re ρ) o.demix, mapA (reZ π) o.latent, mapA (reTP ρ π) o.basis, mapA (reVP π) o.activation, mapA (re ρ) o.output, o.loss⟩

/-- The keyword arguments with the bins and the components renumbered. -/
def reKwP (ρ : Equiv.Perm F) (π : Equiv.Perm (Fin K)) (kw : KwP F n t K) : KwP F n t K :=
  ⟨kw.demix.map (re ρ), kw.latent.map (reZ π), kw.basis.map (reTP ρ π), kw.activation.map (reVP π)⟩

/-- The random numbers drawn at the first call with the bins and the components renumbered. -/
def reDrawP (ρ : Equiv.Perm F) (π : Equiv.Perm (Fin K)) (d : DrawP F n t K) : DrawP F n t K :=
  ⟨reZ π d.Z, reTP ρ π d.T, reVP π d.V⟩

theorem initNmfP_re (ρ : Equiv.Perm F) (π : Equiv.Perm (Fin K)) (floor : ℝ → ℝ) (d : DrawP F n t K)
    (kw : KwP F n t K) (o : ObjP F n t K) :
    initNmfP floor (reDrawP ρ π d).Z (reDrawP ρ π d).T (reDrawP ρ π d).V (override (reKwP ρ π kw).latent (reObjP ρ π o).latent)
        (override (reKwP ρ π kw).basis (reObjP ρ π o).basis) (override (reKwP ρ π kw).activation (reObjP ρ π o).activation)
      = Except.map (fun p => (reZ π p.1, reTP ρ π p.2.1, reVP π p.2.2))
          (initNmfP floor d.Z d.T d.V (override kw.latent o.latent) (override kw.basis o.basis)
            (override kw.activation o.activation)) := by
  have h0 := attrOr_re (reZ π) (initLatent floor d.Z) kw.latent o.latent
  have h1 := attrOr_re (reTP ρ π) (fun f b => floor (d.T f b)) kw.basis o.basis
  have h2 := attrOr_re (reVP π) (fun b j => floor (d.V b j)) kw.activation o.activation
  change (attrOr (reZ π (initLatent floor d.Z)) (override (kw.latent.map (reZ π)) (mapA (reZ π) o.latent)) >>= fun Z =>
    attrOr (reTP ρ π fun f b => floor (d.T f b)) (override (kw.basis.map (reTP ρ π)) (mapA (reTP ρ π) o.basis)) >>= fun T =>
    attrOr (reVP π fun b j => floor (d.V b j)) (override (kw.activation.map (reVP π)) (mapA (reVP π) o.activation)) >>= fun V => _) = _
  rw [h0, h1, h2, initNmfP, bind_map, map_bind]
  congr 1
  funext Z
  rw [bind_map, map_bind]
  congr 1
  funext T
  rw [bind_map, map_bind]
  rfl

/-- C96: the same for the partitioned variants, where the components are shared by the sources. -/
theorem C96_ilrma_partitioned (ρ : Equiv.Perm F) (π : Equiv.Perm (Fin K)) (np : Numpy ℂ) (src : Source) (p : ℝ) (alg : FilterAlg n)
    (norm : Norm n) (floor : ℝ → ℝ) (sr : ScaleOpt) (r : Fin n) (draw : DrawP F n t K) (X : Spec F n t) (n_iter : ℕ) (ic : Bool)
    (kw : KwP F n t K) (o : ObjP F n t K) :
    callP np src p alg norm floor sr r (reDrawP ρ π draw) (re ρ X) n_iter ic (reKwP ρ π kw) (reObjP ρ π o)
      = Except.map (reObjP ρ π) (callP np src p alg norm floor sr r draw X n_iter ic kw o) := by
  have h1 : resetFilterP alg floor (reDrawP ρ π draw) (re ρ X) (reKwP ρ π kw) (reObjP ρ π o)
      = Except.map (reStP ρ π) (resetFilterP alg floor draw X kw o) := by
    rw [resetFilterP, resetFilterP]
    change (Lifecycle.reset (label alg) (re ρ X) (kw.demix.map (re ρ)) ⟨mapA (re ρ) o.demix, mapA (re ρ) o.output⟩ >>= _) = _
    rw [reset_re ρ _ X kw.demix ⟨o.demix, o.output⟩, bind_map, map_bind]
    congr 1
    funext q
    obtain ⟨W, Y⟩ := q
    dsimp only
    rw [initNmfP_re, bind_map, map_bind]
    congr 1
    funext q
    cases W <;> rfl
  rw [callP, callP, h1, bind_map, map_bind]
  congr 1
  funext s
  have h2 := baseCall_map (e := reStP ρ π) (updateOnceP_re ρ π np src p alg norm floor X) (loss' := fun s => .ok (lossP src (re ρ X) s))
    (loss := fun s => .ok (lossP src X s)) (fun s => congrArg Except.ok (lossP_re ρ π src X s)) ic n_iter s o.loss
  change (baseCall _ _ ic n_iter (reStP ρ π s) o.loss >>= _) = _
  rw [h2, bind_map, map_bind]
  congr 1
  funext q
  obtain ⟨s, ls⟩ := q
  change (finish sr r (re ρ X) (re ρ s.W) >>= _) = _
  rw [C96_finish, bind_map, map_bind]
  rfl

/-- C96: the same for the partitioned variants with `ISS1` or `ISS2`. -/
theorem C96_ilrma_partitioned_iss (ρ : Equiv.Perm F) (π : Equiv.Perm (Fin K)) (np : Numpy ℂ) (src : Source) (p : ℝ) (alg : SignalAlg n)
    (norm : Norm n) (floor : ℝ → ℝ) (sr : ScaleOpt) (r : Fin n) (draw : DrawP F n t K) (X : Spec F n t) (n_iter : ℕ) (ic : Bool)
    (kw : KwP F n t K) (o : ObjP F n t K) :
    callSignalP np src p alg norm floor sr r (reDrawP ρ π draw) (re ρ X) n_iter ic (reKwP ρ π kw) (reObjP ρ π o)
      = Except.map (reObjP ρ π) (callSignalP np src p alg norm floor sr r draw X n_iter ic kw o) := by
  have h1 : resetSignalP alg floor (reDrawP ρ π draw) (re ρ X) (reKwP ρ π kw) (reObjP ρ π o)
      = Except.map (reStYP ρ π) (resetSignalP alg floor draw X kw o) := by
    rw [resetSignalP, resetSignalP]
    change (Lifecycle.reset (labelY alg) (re ρ X) (kw.demix.map (re ρ)) ⟨mapA (re ρ) o.demix, mapA (re ρ) o.output⟩ >>= _) = _
    rw [reset_re ρ _ X kw.demix ⟨o.demix, o.output⟩, bind_map, map_bind]
    congr 1
    funext q
    obtain ⟨W, Y⟩ := q
    dsimp only
    rw [initNmfP_re, bind_map, map_bind]
    rfl
  rw [callSignalP, callSignalP, h1, bind_map, map_bind]
  congr 1
  funext s
  have h2 := baseCall_map (e := reStYP ρ π) (updateOnceYP_re ρ π np src p alg norm floor) (lossYP_re ρ π src X) ic n_iter s o.loss
  change (baseCall _ _ ic n_iter (reStYP ρ π s) o.loss >>= _) = _
  rw [h2, bind_map, map_bind]
  congr 1
  funext q
  obtain ⟨s, ls⟩ := q
  change (finishFree sr r (re ρ X) (re ρ s.Y) >>= _) = _
  rw [C96_finishFree, bind_map, map_bind]
  rfl

end Ilrma

end Verif.Relabel
