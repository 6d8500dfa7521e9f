import Verif.Props.Relabel
import Verif.Model.GradCall

/-!
# C97: the order of microphones and sources in the gradient methods

`GradICA`, `NaturalGradICA` and their FDICA and IVA counterparts update all rows of the demixing filter at once. If the
channels of the recording are renumbered, and the sources in the initial filter, then so are the results.
-/

set_option linter.unusedSectionVars false

namespace Verif.SourceOrder

open Matrix Scale Grad GradCall
open Lifecycle (Attr finish applyProjectionBack applyMdp restoreScale ScaleOpt)
open _root_.Verif.Spatial (onBins onBins_map meanT)
open Rotation (baseCall_map)
open Relabel (mapA restoreScale_map)
open IlrmaCall (override baseCall)

variable {𝕜 : Type} [RCLike 𝕜] {F : Type} [Fintype F] {n t : ℕ}

/-- The signals in the order `σ`, which may differ from bin to bin. -/
abbrev permX (σ : F → Equiv.Perm (Fin n)) (X : Data 𝕜 F n t) : Data 𝕜 F n t := fun f => (X f).submatrix (σ f) id

/-- The filters for sources in the order `σ` and channels in the order `τ`. -/
abbrev perm (σ τ : F → Equiv.Perm (Fin n)) (W : F → Mat n 𝕜) : F → Mat n 𝕜 := fun f => (W f).submatrix (σ f) (τ f)

/-- The attributes of the object for sources in the order `σ` and channels in the order `τ`. -/
def permO (σ τ : F → Equiv.Perm (Fin n)) (o : Obj 𝕜 F n t) : Obj 𝕜 F n t := ⟨mapA (perm σ τ) o.demix, mapA (permX σ) o.output, o.loss⟩

theorem norm_det_perm (σ τ : Equiv.Perm (Fin n)) (A : Mat n 𝕜) : ‖(A.submatrix σ τ).det‖ = ‖A.det‖ := by
  have h : ∀ υ : Equiv.Perm (Fin n), ‖((Equiv.Perm.sign υ : ℤ) : 𝕜)‖ = 1 := fun υ => by
    rcases Int.units_eq_one_or (Equiv.Perm.sign υ) with e | e <;> simp [e]
  have e : A.submatrix σ τ = (A.submatrix σ id).submatrix id τ := rfl
  rw [e, det_permute', det_permute, norm_mul, norm_mul, h, h, one_mul, one_mul]

theorem isUnit_det_perm (σ τ : Equiv.Perm (Fin n)) (A : Mat n 𝕜) : IsUnit (A.submatrix σ τ).det ↔ IsUnit A.det := by
  rw [isUnit_iff_ne_zero, isUnit_iff_ne_zero, ← norm_ne_zero_iff, norm_det_perm, norm_ne_zero_iff]

theorem npInv_perm (σ τ : Equiv.Perm (Fin n)) (A : Mat n 𝕜) :
    npInv (A.submatrix σ τ) = Except.map (fun B => B.submatrix τ σ) (npInv A) := by
  by_cases h : IsUnit A.det
  · rw [npInv, npInv, if_pos h, if_pos ((isUnit_det_perm σ τ A).mpr h), inv_submatrix_equiv]
    rfl
  · rw [npInv, npInv, if_neg h, if_neg fun h' => h ((isUnit_det_perm σ τ A).mp h')]
    rfl

theorem npInvB_perm (σ τ : F → Equiv.Perm (Fin n)) (W : F → Mat n ℂ) :
    npInvB (perm σ τ W) = Except.map (perm τ σ) (npInvB W) := by
  by_cases h : ∀ f, IsUnit (W f).det
  · rw [npInvB, npInvB, if_pos h, if_pos fun f => (isUnit_det_perm (σ f) (τ f) (W f)).mpr (h f)]
    refine congrArg Except.ok ?_
    funext f
    exact inv_submatrix_equiv (W f) (σ f) (τ f)
  · rw [npInvB, npInvB, if_neg h, if_neg fun h' => h fun f => (isUnit_det_perm (σ f) (τ f) (W f)).mp (h' f)]
    rfl

theorem sep_perm (σ τ : F → Equiv.Perm (Fin n)) (X : Data 𝕜 F n t) (W : F → Mat n 𝕜) :
    sep (permX τ X) (perm σ τ W) = permX σ (sep X W) := by
  funext f
  exact submatrix_mul_equiv (W f) (X f) (σ f) (τ f) id

theorem phiY_perm (σ : F → Equiv.Perm (Fin n)) {score' score : Data 𝕜 F n t → Data 𝕜 F n t}
    (hs : ∀ Y, score' (permX σ Y) = permX σ (score Y)) (Y : Data 𝕜 F n t) (f : F) :
    phiY score' (permX σ Y) f = (phiY score Y f).submatrix (σ f) (σ f) := by
  ext i j
  simp only [phiY, hs, of_apply, submatrix_apply, id]

theorem factor_perm (σ : Equiv.Perm (Fin n)) (holonomic : Bool) (P : Mat n 𝕜) :
    factor holonomic (P.submatrix σ σ) = (factor holonomic P).submatrix σ σ := by
  cases holonomic <;> ext i j <;> simp [factor, one_apply]

theorem descend_perm (σ τ : F → Equiv.Perm (Fin n)) (kind : Kind) (step_size : ℝ) (holonomic : Bool)
    {score' score : Data 𝕜 F n t → Data 𝕜 F n t} (hs : ∀ Y, score' (permX σ Y) = permX σ (score Y)) (X : Data 𝕜 F n t)
    (W : F → Mat n 𝕜) :
    descend kind step_size holonomic score' (permX τ X) (perm σ τ W)
      = Except.map (perm σ τ) (descend kind step_size holonomic score X W) := by
  cases kind with
  | natural =>
    refine congrArg Except.ok ?_
    funext f
    simp only [naturalStep, sep_perm, phiY_perm σ hs, factor_perm]
    rw [submatrix_mul_equiv]
    rfl
  | gradient =>
    simp only [descend, gradStep, sep_perm, phiY_perm σ hs, factor_perm, npInv_perm]
    rw [onBins_map (fun f => npInv (W f)) fun f B => B.submatrix (τ f) (σ f), bind_map, map_bind]
    congr 1
    funext V
    refine congrArg Except.ok ?_
    funext f
    dsimp only
    rw [conjTranspose_submatrix, submatrix_mul_equiv]
    rfl

theorem loss_perm {ι : Type} [Fintype ι] (σ τ : F → Equiv.Perm (Fin n)) (c : ℝ)
    {contrast' contrast : Data 𝕜 F n t → ι → Fin t → ℝ}
    (hc : ∀ Y, ∑ i, meanT (contrast' (permX σ Y) i) = ∑ i, meanT (contrast Y i)) (X : Data 𝕜 F n t) (W : F → Mat n 𝕜) :
    Grad.loss c contrast' (permX τ X) (perm σ τ W) = Grad.loss c contrast X W := by
  simp only [Grad.loss, sep_perm, hc, norm_det_perm]

theorem reset_perm (σ τ : F → Equiv.Perm (Fin n)) (kw : Option (F → Mat n 𝕜)) (o : Obj 𝕜 F n t)
    (h0 : kw = none → o.demix = .absent → σ = τ) :
    reset (kw.map (perm σ τ)) (permO σ τ o) = Except.map (perm σ τ) (reset kw o) := by
  obtain ⟨d, y, l⟩ := o
  cases kw with
  | some W => rfl
  | none =>
    cases d with
    | absent =>
      obtain rfl := h0 rfl rfl
      refine congrArg Except.ok ?_
      funext f
      exact (submatrix_one_equiv (σ f)).symm
    | none => rfl
    | val W => rfl

/-- **C97.** Restoring the scale and computing the output commutes with renumbering sources and channels, if the reference
channel is renumbered as well. -/
theorem C97_finish (σ τ : F → Equiv.Perm (Fin n)) (sr : ScaleOpt) {r r' : Fin n} (hr : ∀ f, τ f r' = r) (X : Spec F n t)
    (W : F → Mat n ℂ) :
    finish sr r' (permX τ X) (perm σ τ W) = Except.map (fun p => (permX σ p.1, perm σ τ p.2)) (finish sr r X W) := by
  have hsep : ∀ W, separate (permX τ X) (perm σ τ W) = permX σ (separate X W) := sep_perm σ τ X
  have hpb : applyProjectionBack r' (permX τ X) (perm σ τ W)
      = Except.map (fun p => (permX σ p.1, perm σ τ p.2)) (applyProjectionBack r X W) := by
    simp only [applyProjectionBack, projectionBackFilter]
    rw [npInvB_perm]
    cases npInvB W with
    | error => rfl
    | ok V =>
      have e : (fun f => Matrix.of fun i j => perm σ τ W f i j * perm τ σ V f r' i)
          = perm σ τ fun f => Matrix.of fun i j => W f i j * V f r i := by
        funext f
        ext i j
        simp only [of_apply, submatrix_apply, hr]
      change Except.ok (separate (permX τ X) (fun f => Matrix.of fun i j => perm σ τ W f i j * perm τ σ V f r' i),
        fun f => Matrix.of fun i j => perm σ τ W f i j * perm τ σ V f r' i) = _
      rw [e, hsep]
      rfl
  have hmdp : applyMdp r' (permX τ X) (perm σ τ W) = Except.map (fun p => (permX σ p.1, perm σ τ p.2)) (applyMdp r X W) := by
    have e1 : ∀ Y : Spec F n t, mdp r' (permX σ Y) (permX τ X) = permX σ (mdp r Y X) := fun Y => by
      funext f
      ext i k
      simp only [mdp, of_apply, submatrix_apply, id, hr]
    have e2 : (fun f => permX τ X f * (permX τ X f)ᴴ) = perm τ τ fun f => X f * (X f)ᴴ := by
      funext f
      exact submatrix_mul_equiv (X f) (X f)ᴴ (τ f) (Equiv.refl _) (τ f)
    simp only [applyMdp, hsep, e1]
    rw [e2, npInvB_perm, bind_map, map_bind]
    congr 1
    funext V
    refine congrArg Except.ok (congrArg (Prod.mk _) ?_)
    funext f
    have e3 : permX σ (mdp r (separate X W) X) f * (permX τ X f)ᴴ
        = (mdp r (separate X W) X f * (X f)ᴴ).submatrix (σ f) (τ f) :=
      submatrix_mul_equiv (mdp r (separate X W) X f) (X f)ᴴ (σ f) (Equiv.refl _) (τ f)
    exact (congrArg (· * perm τ τ V f) e3).trans (submatrix_mul_equiv _ (V f) (σ f) (τ f) (τ f))
  rw [finish, finish]
  cases hsr : sr.truthy with
  | false => exact congrArg Except.ok (congrArg (Prod.mk · _) (hsep W))
  | true =>
    simp only [if_true, hpb, hmdp]
    rw [restoreScale_map]
    cases restoreScale sr (applyProjectionBack r X W) (applyMdp r X W) with
    | error => rfl
    | ok p => exact congrArg Except.ok (congrArg (Prod.mk · _) (hsep p.2))

/-- **C97.** `GradICA` and `NaturalGradICA`: if the channels of the recording are renumbered by `τ` and the sources of the initial
filter by `σ`, the sources of the output are renumbered by `σ` and the losses are the same. For an object that starts from the
identity the two orders are the same: renumbering the microphones renumbers the outputs. -/
theorem C97_ica (σ τ : Unit → Equiv.Perm (Fin n)) (kind : Kind) (step_size : ℝ) (holonomic : Bool)
    {contrast : Data ℝ Unit n t → Fin n → Fin t → ℝ} (hc : ∀ Y, ∑ i, meanT (contrast (permX σ Y) i) = ∑ i, meanT (contrast Y i))
    {score : Data ℝ Unit n t → Data ℝ Unit n t} (hs : ∀ Y, score (permX σ Y) = permX σ (score Y)) (X : Data ℝ Unit n t) (n_iter : ℕ)
    (ic : Bool) (kw : Option (Unit → Mat n ℝ)) (o : Obj ℝ Unit n t) (h0 : kw = none → o.demix = .absent → σ = τ) :
    icaCall kind step_size holonomic contrast score (permX τ X) n_iter ic (kw.map (perm σ τ)) (permO σ τ o)
      = Except.map (permO σ τ) (icaCall kind step_size holonomic contrast score X n_iter ic kw o) := by
  rw [icaCall, icaCall, reset_perm σ τ kw o h0, bind_map, map_bind]
  congr 1
  funext W
  have h := baseCall_map (e := perm σ τ) (descend_perm σ τ kind step_size holonomic hs X)
    (loss' := fun W => .ok (Grad.loss 1 contrast (permX τ X) W)) (loss := fun W => .ok (Grad.loss 1 contrast X W))
    (fun W => congrArg Except.ok (loss_perm σ τ 1 hc X W)) ic n_iter W o.loss
  change (baseCall _ _ ic n_iter (perm σ τ W) o.loss >>= _) = _
  rw [h, bind_map, map_bind]
  congr 1
  funext q
  simp only [sep_perm]
  rfl

/-- C97: the same for `GradFDICA` and `NaturalGradFDICA` without alignment, where the orders may differ from bin to bin. With scale
restoration the channel of reference has to be the same in all bins. -/
theorem C97_fdica {B : ℕ} (σ τ : Fin B → Equiv.Perm (Fin n)) (sort : Permutation.Argsort) (kind : Kind) {opt : Fdica.PermOpt}
    (hopt : opt.truthy = false) (floor : ℝ → ℝ) (sr : ScaleOpt) {r r' : Fin n} (hr : ∀ f, τ f r' = r) (step_size : ℝ) (holonomic : Bool)
    {contrast : Data ℂ (Fin B) n t → Fin B × Fin n → Fin t → ℝ}
    (hc : ∀ Y, ∑ i, meanT (contrast (permX σ Y) i) = ∑ i, meanT (contrast Y i))
    {score : Data ℂ (Fin B) n t → Data ℂ (Fin B) n t} (hs : ∀ Y, score (permX σ Y) = permX σ (score Y)) (X : Data ℂ (Fin B) n t)
    (n_iter : ℕ) (ic : Bool) (kw : Option (Fin B → Mat n ℂ)) (o : Obj ℂ (Fin B) n t)
    (h0 : kw = none → o.demix = .absent → σ = τ) :
    fdicaCall sort kind opt floor sr r' step_size holonomic contrast score (permX τ X) n_iter ic (kw.map (perm σ τ)) (permO σ τ o)
      = Except.map (permO σ τ) (fdicaCall sort kind opt floor sr r step_size holonomic contrast score X n_iter ic kw o) := by
  rw [fdicaCall, fdicaCall, reset_perm σ τ kw o h0, bind_map, map_bind]
  congr 1
  funext W
  have h := baseCall_map (e := perm σ τ) (descend_perm σ τ kind step_size holonomic hs X)
    (loss' := fun W => .ok (Grad.loss 2 contrast (permX τ X) W)) (loss := fun W => .ok (Grad.loss 2 contrast X W))
    (fun W => congrArg Except.ok (loss_perm σ τ 2 hc X W)) ic n_iter W o.loss
  change (baseCall _ _ ic n_iter (perm σ τ W) o.loss >>= _) = _
  rw [h, bind_map, map_bind]
  congr 1
  funext q
  have h5 : ∀ (r : Fin n) (X : Spec (Fin B) n t) (W : Fin B → Mat n ℂ), Fdica.finishAligned sort opt floor sr r X W = finish sr r X W :=
    fun r X W => by
      simp only [Fdica.finishAligned, hopt]
      rfl
  simp only [h5]
  rw [C97_finish σ τ sr hr, bind_map, map_bind]
  rfl

/-- C97: the same for `GradIVA` and `NaturalGradIVA`. -/
theorem C97_iva (σ τ : F → Equiv.Perm (Fin n)) (kind : Kind) (sr : ScaleOpt) {r r' : Fin n} (hr : ∀ f, τ f r' = r) (step_size : ℝ)
    (holonomic : Bool) {contrast : Data ℂ F n t → Fin n → Fin t → ℝ}
    (hc : ∀ Y, ∑ i, meanT (contrast (permX σ Y) i) = ∑ i, meanT (contrast Y i))
    {score : Data ℂ F n t → Data ℂ F n t} (hs : ∀ Y, score (permX σ Y) = permX σ (score Y)) (X : Data ℂ F n t)
    (n_iter : ℕ) (ic : Bool) (kw : Option (F → Mat n ℂ)) (o : Obj ℂ F n t) (h0 : kw = none → o.demix = .absent → σ = τ) :
    ivaCall kind sr r' step_size holonomic contrast score (permX τ X) n_iter ic (kw.map (perm σ τ)) (permO σ τ o)
      = Except.map (permO σ τ) (ivaCall kind sr r step_size holonomic contrast score X n_iter ic kw o) := by
  rw [ivaCall, ivaCall, reset_perm σ τ kw o h0, bind_map, map_bind]
  congr 1
  funext W
  have h := baseCall_map (e := perm σ τ) (descend_perm σ τ kind step_size holonomic hs X)
    (loss' := fun W => .ok (Grad.loss 2 contrast (permX τ X) W)) (loss := fun W => .ok (Grad.loss 2 contrast X W))
    (fun W => congrArg Except.ok (loss_perm σ τ 2 hc X W)) ic n_iter W o.loss
  change (baseCall _ _ ic n_iter (perm σ τ W) o.loss >>= _) = _
  rw [h, bind_map, map_bind]
  congr 1
  funext q
  dsimp only
  rw [C97_finish σ τ sr hr, bind_map, map_bind]
  rfl

/-! ### The models with their own contrast and score functions -/

/-- C97: `GradLaplaceICA` and `NaturalGradLaplaceICA` from the identity filter: renumbering the microphones renumbers the outputs. -/
theorem C97_ica_laplace (σ : Equiv.Perm (Fin n)) (kind : Kind) (step_size : ℝ) (holonomic : Bool) (X : Data ℝ Unit n t) (n_iter : ℕ)
    (ic : Bool) :
    icaCall kind step_size holonomic icaLaplaceContrast icaLaplaceScore (fun f => (X f).submatrix σ id) n_iter ic none .fresh
      = Except.map (permO (fun _ => σ) fun _ => σ)
          (icaCall kind step_size holonomic icaLaplaceContrast icaLaplaceScore X n_iter ic none .fresh) :=
  C97_ica (fun _ => σ) (fun _ => σ) kind step_size holonomic (contrast := icaLaplaceContrast) (score := icaLaplaceScore)
    (fun Y => Equiv.sum_comp σ fun i => meanT (icaLaplaceContrast Y i)) (fun _ => rfl) X n_iter ic none .fresh fun _ _ => rfl

/-- C97: `GradLaplaceFDICA` and `NaturalGradLaplaceFDICA` without alignment: renumbering the microphones, differently in every bin
but for the channel of reference, renumbers the outputs. -/
theorem C97_fdica_laplace {B : ℕ} (σ : Fin B → Equiv.Perm (Fin n)) (sort : Permutation.Argsort) (kind : Kind) (floor : ℝ → ℝ)
    (sr : ScaleOpt) {r r' : Fin n} (hr : ∀ f, σ f r' = r) (step_size : ℝ) (holonomic : Bool) (X : Data ℂ (Fin B) n t)
    (n_iter : ℕ) (ic : Bool) :
    fdicaCall sort kind (.bool false) floor sr r' step_size holonomic fdicaLaplaceContrast (fdicaLaplaceScore floor)
        (fun f => (X f).submatrix (σ f) id) n_iter ic none .fresh
      = Except.map (permO σ σ) (fdicaCall sort kind (.bool false) floor sr r step_size holonomic fdicaLaplaceContrast
          (fdicaLaplaceScore floor) X n_iter ic none .fresh) := by
  refine C97_fdica σ σ sort kind rfl floor sr hr step_size holonomic (contrast := fdicaLaplaceContrast)
    (score := fdicaLaplaceScore floor) (fun Y => ?_) (fun _ => rfl) X n_iter ic none .fresh fun _ _ => rfl
  rw [Fintype.sum_prod_type, Fintype.sum_prod_type]
  refine Finset.sum_congr rfl fun f _ => ?_
  exact Equiv.sum_comp (σ f) fun k => meanT (fdicaLaplaceContrast Y (f, k))

/-- C97: `GradLaplaceIVA` and `NaturalGradLaplaceIVA`: renumbering the microphones renumbers the outputs. -/
theorem C97_iva_laplace (σ : Equiv.Perm (Fin n)) (kind : Kind) (floor : ℝ → ℝ) (sr : ScaleOpt) (r : Fin n) (step_size : ℝ)
    (holonomic : Bool) (X : Data ℂ F n t) (n_iter : ℕ) (ic : Bool) :
    ivaCall kind sr r step_size holonomic ivaLaplaceContrast (ivaLaplaceScore floor) (fun f => (X f).submatrix σ id) n_iter ic none
        .fresh
      = Except.map (permO (fun _ => σ) fun _ => σ)
          (ivaCall kind sr (σ r) step_size holonomic ivaLaplaceContrast (ivaLaplaceScore floor) X n_iter ic none .fresh) :=
  C97_iva (fun _ => σ) (fun _ => σ) kind sr (fun _ => rfl) step_size holonomic (contrast := ivaLaplaceContrast)
    (score := ivaLaplaceScore floor)
    (fun Y => Equiv.sum_comp σ fun i => meanT (ivaLaplaceContrast Y i)) (fun _ => rfl) X n_iter ic none .fresh fun _ _ => rfl

/-- The state of the Gauss models for sources in the order `σ` and channels in the order `τ`. -/
def permG (σ τ : Equiv.Perm (Fin n)) (s : (Fin n → Fin t → ℝ) × (F → Mat n ℂ)) : (Fin n → Fin t → ℝ) × (F → Mat n ℂ) :=
  (fun k => s.1 (σ k), perm (fun _ => σ) (fun _ => τ) s.2)

theorem gaussVariance_perm (σ : Equiv.Perm (Fin n)) (Y : Data ℂ F n t) :
    Iva.gaussVariance (permX (fun _ => σ) Y) = fun k => Iva.gaussVariance Y (σ k) := rfl

theorem ivaGaussScore_perm (σ : Equiv.Perm (Fin n)) (v : Fin n → Fin t → ℝ) (Y : Data ℂ F n t) :
    ivaGaussScore (fun k => v (σ k)) (permX (fun _ => σ) Y) = permX (fun _ => σ) (ivaGaussScore v Y) := rfl

theorem descendGauss_perm (σ τ : Equiv.Perm (Fin n)) (kind : Kind) (step_size : ℝ) (holonomic : Bool) (X : Data ℂ F n t)
    (s : (Fin n → Fin t → ℝ) × (F → Mat n ℂ)) :
    descendGauss kind step_size holonomic (permX (fun _ => τ) X) (permG σ τ s)
      = Except.map (permG σ τ) (descendGauss kind step_size holonomic X s) := by
  obtain ⟨v, hv⟩ : ∃ v, v = Iva.gaussVariance (sep X s.2) := ⟨_, rfl⟩
  have hd := descend_perm (fun _ : F => σ) (fun _ => τ) kind step_size holonomic (ivaGaussScore_perm σ v) X s.2
  have hv' : Iva.gaussVariance (sep (permX (fun _ => τ) X) (permG σ τ s).2) = fun k => v (σ k) := by
    rw [hv, permG, sep_perm, gaussVariance_perm]
  cases kind with
  | natural =>
    simp only [descendGauss, naturalGaussStep, hv', ← hv]
    exact congrArg Except.ok (congrArg (Prod.mk _) (Except.ok.inj hd))
  | gradient =>
    simp only [descend] at hd
    simp only [descendGauss, gradGaussStep, hv', ← hv]
    change (gradStep _ _ _ _ (perm (fun _ => σ) (fun _ => τ) s.2) >>= _) = _
    rw [hd, bind_map, map_bind]
    rfl

theorem lossGauss_perm (σ τ : Equiv.Perm (Fin n)) (X : Data ℂ F n t) (s : (Fin n → Fin t → ℝ) × (F → Mat n ℂ)) :
    Grad.loss 2 (ivaGaussContrast (permG σ τ s).1) (permX (fun _ => τ) X) (permG σ τ s).2
      = Grad.loss 2 (ivaGaussContrast s.1) X s.2 :=
  loss_perm (fun _ => σ) (fun _ => τ) 2 (contrast' := ivaGaussContrast fun k => s.1 (σ k)) (contrast := ivaGaussContrast s.1)
    (fun Y => Equiv.sum_comp σ fun k => meanT (ivaGaussContrast s.1 Y k)) X s.2

/-- C97: the same for `GradGaussIVA` and `NaturalGradGaussIVA`, also for given filters. -/
theorem C97_iva_gauss (σ τ : Equiv.Perm (Fin n)) (kind : Kind) (sr : ScaleOpt) {r r' : Fin n} (hr : τ r' = r) (step_size : ℝ)
    (holonomic : Bool) (X : Data ℂ F n t) (n_iter : ℕ) (ic : Bool) (kw : Option (F → Mat n ℂ)) (o : Obj ℂ F n t)
    (h0 : kw = none → o.demix = .absent → σ = τ) :
    gaussIvaCall kind sr r' step_size holonomic (permX (fun _ => τ) X) n_iter ic (kw.map (perm (fun _ => σ) fun _ => τ))
        (permO (fun _ => σ) (fun _ => τ) o)
      = Except.map (permO (fun _ => σ) fun _ => τ) (gaussIvaCall kind sr r step_size holonomic X n_iter ic kw o) := by
  obtain ⟨L', hL'⟩ : ∃ L' : (Fin n → Fin t → ℝ) × (F → Mat n ℂ) → Except PyErr ℝ,
      L' = fun s => .ok (Grad.loss 2 (ivaGaussContrast s.1) (permX (fun _ => τ) X) s.2) := ⟨_, rfl⟩
  obtain ⟨L, hL⟩ : ∃ L : (Fin n → Fin t → ℝ) × (F → Mat n ℂ) → Except PyErr ℝ,
      L = fun s => .ok (Grad.loss 2 (ivaGaussContrast s.1) X s.2) := ⟨_, rfl⟩
  have hl : ∀ s, L' (permG σ τ s) = L s := fun s => by
    rw [hL', hL]
    dsimp only
    rw [lossGauss_perm]
  rw [gaussIvaCall, gaussIvaCall, ← hL', ← hL, reset_perm (fun _ => σ) (fun _ => τ) kw o fun a b => by rw [h0 a b], bind_map, map_bind]
  congr 1
  funext W
  have h := baseCall_map (e := permG σ τ) (descendGauss_perm σ τ kind step_size holonomic X) (loss' := L') (loss := L) hl ic n_iter
    (fun _ _ => 1, W) o.loss
  change (baseCall _ _ ic n_iter (permG σ τ (fun _ _ => 1, W)) o.loss >>= _) = _
  rw [h, bind_map, map_bind]
  congr 1
  funext q
  have e2 : (permG σ τ q.1).2 = perm (fun _ => σ) (fun _ => τ) q.1.2 := rfl
  dsimp only
  rw [e2, C97_finish (fun _ => σ) (fun _ => τ) sr (r := r) (fun _ => hr), bind_map, map_bind]
  rfl

/-- Two channels and one frame: after one step of `NaturalGradLaplaceICA` the louder channel has been attenuated, and exchanging
the channels exchanges the outputs. -/
example : ∃ o : Obj ℝ Unit 2 1,
    icaCall .natural (1 / 2) true icaLaplaceContrast icaLaplaceScore (fun _ => !![2; 0]) 1 false none .fresh = .ok o ∧
    icaCall .natural (1 / 2) true icaLaplaceContrast icaLaplaceScore (fun _ => !![0; 2]) 1 false none .fresh
      = .ok (permO (fun _ => Equiv.swap 0 1) (fun _ => Equiv.swap 0 1) o) ∧
    o.output = .val fun _ => !![1; 0] := by
  obtain ⟨W, hW⟩ : ∃ W, W = naturalStep (1 / 2) true icaLaplaceScore (fun _ : Unit => (!![2; 0] : Matrix (Fin 2) (Fin 1) ℝ)) 1 := ⟨_, rfl⟩
  obtain ⟨l, h⟩ : ∃ l, icaCall .natural (1 / 2) true icaLaplaceContrast icaLaplaceScore
      (fun _ : Unit => (!![2; 0] : Matrix (Fin 2) (Fin 1) ℝ)) 1 false none .fresh = .ok ⟨.val W, .val (sep (fun _ => !![2; 0]) W), l⟩ := by
    rw [hW]
    exact ⟨_, rfl⟩
  refine ⟨_, h, ?_, ?_⟩
  · have e : (fun _ : Unit => (!![0; 2] : Matrix (Fin 2) (Fin 1) ℝ)) = fun _ => (!![2; 0]).submatrix (Equiv.swap 0 1) id := by
      funext _
      ext i j
      fin_cases i <;> simp
    have := C97_ica_laplace (Equiv.swap 0 1) .natural (1 / 2) true (fun _ : Unit => (!![2; 0] : Matrix (Fin 2) (Fin 1) ℝ)) 1 false
    rw [e, this, h]
    rfl
  · refine congrArg Attr.val ?_
    funext u
    rw [hW]
    ext i j
    fin_cases i <;>
      simp [sep, naturalStep, factor, phiY, icaLaplaceScore, _root_.Verif.Spatial.meanT, mul_apply, Fin.sum_univ_two, Fin.isValue]
    rw [Real.sign_of_pos two_pos]
    norm_num

end Verif.SourceOrder
