import Verif.Props.Equivariance
import Verif.Props.EquivarianceIpsdta
import Verif.Props.Relabel
import Verif.Props.FastScale
import Verif.Props.FlooredCall
import Verif.Props.IpsdtaCall
import Verif.Props.BinByBin

/-!
# C118: other microphones, same sources

The other microphone signals are linear combinations `A f * X f` of the old ones, with an invertible matrix in every bin, and
reference channel `r'` of the new recording is `g f` times reference channel `r` of the old one. A whole call started from
`W f * (A f)⁻¹` returns the old output times `g f`, if scales are restored; without scale restoration the old output. Losses are
shifted by a constant.
-/

set_option linter.unusedSectionVars false

namespace Verif.Microphones

open Matrix Spatial Scale Lifecycle
open IlrmaCall (override attrOr baseCall)
open Relabel (mapA)

variable {F : Type} [Fintype F] {n t K : ℕ}

/-- What is assumed of the reference channels: nothing without scale restoration; otherwise the new one is `g f` times the old
one. -/
def Reference (sr : ScaleOpt) (r r' : Fin n) (A : F → Mat n ℂ) (g : F → ℂ) : Prop :=
  (AsksNone sr ∧ ∀ f, g f = 1) ∨ ((AsksPB sr ∨ AsksMDP sr) ∧ ∀ f c, A f r' c = if c = r then g f else 0)

/-- The output with the factors `g`. -/
def times (g : F → ℂ) (Y : Spec F n t) : Spec F n t := fun f => g f • Y f

/-- The demixing filter of the new recording. -/
noncomputable def moved (A : F → Mat n ℂ) (g : F → ℂ) (W : F → Mat n ℂ) : F → Mat n ℂ := fun f => g f • (W f * (A f)⁻¹)

theorem row_mul {A : Mat n ℂ} {g : ℂ} {r r' : Fin n} (h : ∀ c, A r' c = if c = r then g else 0) {m : ℕ}
    (B : Matrix (Fin n) (Fin m) ℂ) (j : Fin m) : (A * B) r' j = g * B r j := by
  simp [Matrix.mul_apply, h]

section
variable {A : F → Mat n ℂ} (hA : ∀ f, IsUnit (A f).det) {g : F → ℂ} {r r' : Fin n}
include hA

omit [Fintype F] in
theorem npInvB_unmix (W : F → Mat n ℂ) : npInvB (unmix A W) = Except.map (fun I f => A f * I f) (npInvB W) := by
  have hd : ∀ f, IsUnit ((A f)⁻¹).det := fun f => by rw [det_nonsing_inv]; exact (hA f).ringInverse
  by_cases h : ∀ f, IsUnit (W f).det
  · rw [npInvB, npInvB, if_pos h, if_pos fun f => by rw [unmix, det_mul]; exact (h f).mul (hd f)]
    refine congrArg Except.ok (funext fun f => ?_)
    rw [unmix, Matrix.mul_inv_rev, nonsing_inv_nonsing_inv _ (hA f)]
  · rw [npInvB, npInvB, if_neg h, if_neg]
    · rfl
    · intro h'
      refine h fun f => ?_
      have := h' f
      rw [unmix, det_mul] at this
      exact isUnit_of_mul_isUnit_left this

omit [Fintype F] in
theorem npInvB_gram (X : Spec F n t) : npInvB (fun f => remix A X f * (remix A X f)ᴴ)
    = Except.map (fun I f => ((A f)ᴴ)⁻¹ * I f * (A f)⁻¹) (npInvB fun f => X f * (X f)ᴴ) := by
  have e : ∀ f, remix A X f * (remix A X f)ᴴ = A f * (X f * (X f)ᴴ) * (A f)ᴴ := fun f => by
    rw [remix, conjTranspose_mul]; simp only [Matrix.mul_assoc]
  have hA' : ∀ f, IsUnit ((A f)ᴴ).det := fun f => by rw [det_conjTranspose]; exact (hA f).star
  simp only [e]
  by_cases h : ∀ f, IsUnit (X f * (X f)ᴴ).det
  · rw [npInvB, npInvB, if_pos h, if_pos fun f => by rw [det_mul, det_mul]; exact ((hA f).mul (h f)).mul (hA' f)]
    refine congrArg Except.ok (funext fun f => ?_)
    rw [Matrix.mul_inv_rev, Matrix.mul_inv_rev, ← Matrix.mul_assoc]
  · rw [npInvB, npInvB, if_neg h, if_neg]
    · rfl
    · intro h'
      refine h fun f => ?_
      have := h' f
      rw [det_mul, det_mul] at this
      exact isUnit_of_mul_isUnit_right (isUnit_of_mul_isUnit_left this)

omit [Fintype F] in
/-- The filter estimated from the signals. -/
theorem estimate (X Y : Spec F n t) (I : F → Mat n ℂ) (f : F) :
    Y f * (remix A X f)ᴴ * (((A f)ᴴ)⁻¹ * I f * (A f)⁻¹) = Y f * (X f)ᴴ * I f * (A f)⁻¹ := by
  have hA' : IsUnit ((A f)ᴴ).det := by rw [det_conjTranspose]; exact (hA f).star
  rw [remix, conjTranspose_mul]
  simp only [Matrix.mul_assoc]
  rw [mul_nonsing_inv_cancel_left _ _ hA']

omit [Fintype F] hA in
theorem mdp_mix (h : ∀ f c, A f r' c = if c = r then g f else 0) (X Y : Spec F n t) :
    mdp r' Y (remix A X) = times g (mdp r Y X) := by
  funext f
  ext i k
  have e : ∀ j, remix A X f r' j = g f * X f r j := fun j => row_mul (h f) (X f) j
  simp only [mdp, times, Matrix.of_apply, Matrix.smul_apply, smul_eq_mul, e, star_mul']
  have : ∑ j, Y f i j * (star (g f) * star (X f r j)) = star (g f) * ∑ j, Y f i j * star (X f r j) := by
    rw [Finset.mul_sum]; exact Finset.sum_congr rfl fun j _ => by ring
  rw [this, mul_div_assoc, star_mul', star_star, mul_assoc]

omit [Fintype F] in
/-- C118: the end of a call of a method that keeps a demixing filter. -/
theorem C118_finish {sr : ScaleOpt} (h : Reference sr r r' A g) (X : Spec F n t) (W : F → Mat n ℂ) :
    finish sr r' (remix A X) (unmix A W) = (finish sr r X W).map fun q => (times g q.1, moved A g q.2) := by
  have hsep : ∀ V : F → Mat n ℂ, separate (remix A X) (moved A g V) = times g (separate X V) := fun V => by
    funext f
    rw [separate, moved, remix, times, separate, smul_mul, Matrix.mul_assoc, nonsing_inv_mul_cancel_left _ _ (hA f)]
  rcases h with ⟨hn, h1⟩ | ⟨hp | hm, h⟩
  · have e : unmix A W = moved A g W := by funext f; rw [unmix, moved, h1, one_smul]
    simp only [finish, restore_none hn, e, bind, Except.bind, Except.map, hsep]
    rfl
  · have key : (applyProjectionBack r' (remix A X) (unmix A W)).map Prod.snd
        = ((applyProjectionBack r X W).map Prod.snd).map (moved A g) := by
      simp only [applyProjectionBack, projectionBackFilter, npInvB_unmix hA]
      cases npInvB W with
      | error => rfl
      | ok I =>
        refine congrArg Except.ok (funext fun f => ?_)
        ext i j
        simp only [Matrix.of_apply, row_mul (h f) (I f), moved, unmix, Matrix.smul_apply, smul_eq_mul, Matrix.mul_apply,
          Finset.sum_mul, Finset.mul_sum]
        exact Finset.sum_congr rfl fun c _ => by ring
    simp only [finish, (restore_pb hp (applyProjectionBack r X W) (applyMdp r X W)).2,
      (restore_pb hp (applyProjectionBack r' (remix A X) (unmix A W)) (applyMdp r' (remix A X) (unmix A W))).2,
      (restore_pb hp (applyProjectionBack r X W) (applyMdp r X W)).1, if_true]
    cases hx : applyProjectionBack r X W with
    | error x =>
      rw [hx] at key
      cases hy : applyProjectionBack r' (remix A X) (unmix A W) with
      | error y => rw [hy] at key; cases key; rfl
      | ok y => rw [hy] at key; cases key
    | ok x =>
      rw [hx] at key
      cases hy : applyProjectionBack r' (remix A X) (unmix A W) with
      | error y => rw [hy] at key; cases key
      | ok y =>
        rw [hy] at key
        have e : y.2 = moved A g x.2 := Except.ok.inj key
        simp only [bind, Except.bind, Except.map, e, hsep]
  · have rm : ∀ a b : Except PyErr (Spec F n t × (F → Mat n ℂ)), restoreScale sr a b = b := fun a b => (restore_mdp hm a b).2
    have ht : sr.truthy = true := (restore_mdp hm (applyProjectionBack r X W) (applyMdp r X W)).1
    simp only [finish, rm, ht, if_true, applyMdp, npInvB_gram hA, separate_remix A hA, mdp_mix h]
    cases npInvB fun f => X f * (X f)ᴴ with
    | error => rfl
    | ok I =>
      have e : (fun f => times g (mdp r (separate X W) X) f * (remix A X f)ᴴ * (((A f)ᴴ)⁻¹ * I f * (A f)⁻¹))
          = moved A g fun f => mdp r (separate X W) X f * (X f)ᴴ * I f := by
        funext f
        rw [estimate hA, moved, times]
        simp only [smul_mul]
      simp only [bind, Except.bind, Except.map, e, hsep]

omit [Fintype F] in
/-- C118: the end of a call of a method without filter. -/
theorem C118_finishFree {sr : ScaleOpt} (h : Reference sr r r' A g) (X Y : Spec F n t) :
    finishFree sr r' (remix A X) Y = (finishFree sr r X Y).map (times g) := by
  rcases h with ⟨hn, h1⟩ | ⟨hp | hm, h⟩
  · simp only [finishFree, restore_none hn]
    refine congrArg Except.ok (funext fun f => ?_)
    rw [times, h1, one_smul]
  · have rp : ∀ a b : Except PyErr (Spec F n t), restoreScale sr a b = a := fun a b => (restore_pb hp a b).2
    have ht : sr.truthy = true := (restore_pb hp (projectionBackData r Y X) (.ok (mdp r Y X))).1
    simp only [finishFree, rp, ht, if_true, projectionBackData, projectionBackScale]
    cases npInvB fun f => Y f * (Y f)ᴴ with
    | error => rfl
    | ok I =>
      refine congrArg Except.ok (funext fun f => ?_)
      ext i k
      have e : remix A X f * (Y f)ᴴ * I f = A f * (X f * (Y f)ᴴ * I f) := by rw [remix]; simp only [Matrix.mul_assoc]
      simp only [Matrix.of_apply, times, Matrix.smul_apply, smul_eq_mul, e, row_mul (h f)]
      ring
  · have rm : ∀ a b : Except PyErr (Spec F n t), restoreScale sr a b = b := fun a b => (restore_mdp hm a b).2
    have ht : sr.truthy = true := (restore_mdp hm (projectionBackData r Y X) (.ok (mdp r Y X))).1
    simp only [finishFree, rm, ht, if_true, mdp_mix h]
    rfl

end

/-! ## The iterations -/

theorem step_of_run {σ τ : Type} {f : σ → Except PyErr σ} {f' : τ → Except PyErr τ} {e : σ → τ} {s : σ}
    (h : iterM f' 1 (e s) = Except.map e (iterM f 1 s)) : f' (e s) = Except.map e (f s) := by
  simp only [iterM] at h
  cases h1 : f s <;> cases h2 : f' (e s) <;> rw [h1, h2] at h <;> exact h

/-- Every state that the iterations reach satisfies `P`. -/
def Keeps {σ : Type} (step : σ → Except PyErr σ) (P : σ → Prop) : ℕ → σ → Prop
  | 0, s => P s
  | n_iter + 1, s => P s ∧ ∀ a, step s = .ok a → Keeps step P n_iter a

theorem Keeps.start {σ : Type} {step : σ → Except PyErr σ} {P : σ → Prop} : ∀ {n_iter : ℕ} {s : σ}, Keeps step P n_iter s → P s
  | 0, _, h => h
  | _ + 1, _, h => h.1

theorem keeps_of_inv {σ : Type} {step : σ → Except PyErr σ} {I P : σ → Prop} (hI : ∀ s, I s → ∃ a, step s = .ok a ∧ I a)
    (hP : ∀ s, I s → P s) : ∀ (n_iter : ℕ) {s : σ}, I s → Keeps step P n_iter s
  | 0, _, h => hP _ h
  | k + 1, s, h => by
    refine ⟨hP s h, fun a ha => keeps_of_inv hI hP k ?_⟩
    obtain ⟨b, hb, hIb⟩ := hI s h
    rw [ha] at hb
    exact Except.ok.inj hb ▸ hIb

section
variable {σ τ : Type} {step : σ → Except PyErr σ} {step' : τ → Except PyErr τ} {loss : σ → Except PyErr ℝ}
  {loss' : τ → Except PyErr ℝ} {e : σ → τ} {P : σ → Prop} {c : ℝ} (hs : ∀ s, step' (e s) = Except.map e (step s))
  (hl : ∀ s, P s → loss' (e s) = (loss s).map (· + c))
include hs hl

theorem iterations_moved : ∀ (n_iter : ℕ) {s : σ} (ls : List ℝ), Keeps step P n_iter s →
    IlrmaCall.iterations step' loss' n_iter (e s) (ls.map (· + c))
      = (IlrmaCall.iterations step loss n_iter s ls).map fun q => (e q.1, q.2.map (· + c))
  | 0, _, _, _ => rfl
  | k + 1, s, ls, h => by
    rw [IlrmaCall.iterations, IlrmaCall.iterations, hs]
    cases ha : step s with
    | error => rfl
    | ok a =>
      simp only [Except.map, bind, Except.bind, hl a (h.2 a ha).start]
      cases loss a with
      | error => rfl
      | ok v =>
        have := iterations_moved k (ls ++ [v]) (h.2 a ha)
        rw [List.map_append] at this
        exact this

theorem run_moved (ic : Bool) {n_iter : ℕ} {s : σ} (h : Keeps step P n_iter s) :
    baseCall step' loss' ic n_iter (e s) []
      = (baseCall step loss ic n_iter s []).map fun q => (e q.1, q.2.map (· + c)) := by
  cases ic with
  | false => exact iterations_moved hs hl n_iter [] h
  | true =>
    simp only [baseCall, if_true, hl s h.start]
    cases loss s with
    | error => rfl
    | ok v => exact iterations_moved hs hl n_iter ([] ++ [v]) h

end

/-- The amount by which all losses are shifted. -/
noncomputable def shift (A : F → Mat n ℂ) : ℝ := 2 * ∑ f, Real.log ‖(A f).det‖

theorem sum_logdet {A : F → Mat n ℂ} (hA : ∀ f, IsUnit (A f).det) {W : F → Mat n ℂ} (hW : ∀ f, IsUnit (W f).det) (x : ℝ) :
    x - 2 * ∑ f, Real.log ‖(unmix A W f).det‖ = x - 2 * ∑ f, Real.log ‖(W f).det‖ + shift A := by
  simp only [logdet_unmix A W hA hW, Finset.sum_sub_distrib, shift]
  ring

theorem npInvB_log {A : F → Mat n ℂ} (hA : ∀ f, IsUnit (A f).det) {X Y : Spec F n t} {U : (F → Mat n ℂ) → ℝ}
    (h : ∀ f, IsUnit (Y f * (X f)ᴴ * (X f * (X f)ᴴ)⁻¹).det)
    (hU : ∀ W, (∀ f, IsUnit (W f).det) → U (unmix A W) = U W + shift A) :
    (npInvB (fun f => remix A X f * (remix A X f)ᴴ) >>= fun I => Except.ok (U fun f => Y f * (remix A X f)ᴴ * I f))
      = (npInvB (fun f => X f * (X f)ᴴ) >>= fun I => Except.ok (U fun f => Y f * (X f)ᴴ * I f)).map (· + shift A) := by
  rw [npInvB_gram hA]
  by_cases hi : ∀ f, IsUnit (X f * (X f)ᴴ).det
  · rw [npInvB, if_pos hi]
    have e : (fun f => Y f * (remix A X f)ᴴ * (((A f)ᴴ)⁻¹ * (X f * (X f)ᴴ)⁻¹ * (A f)⁻¹))
        = unmix A fun f => Y f * (X f)ᴴ * (X f * (X f)ᴴ)⁻¹ := funext fun f => estimate hA X Y (fun f => (X f * (X f)ᴴ)⁻¹) f
    simp only [Except.map, bind, Except.bind]
    rw [e]
    exact congrArg Except.ok (hU _ h)
  · rw [npInvB, if_neg hi]
    rfl

/-! ## Calls -/

section
variable {A : F → Mat n ℂ} (hA : ∀ f, IsUnit (A f).det) {g : F → ℂ} {r r' : Fin n} {sr : ScaleOpt} (hR : Reference sr r r' A g)
include hA hR

/-- C118 for AuxIVA with IP1 or IP2. -/
theorem C118_iva (np : Numpy ℂ) (alg : Ilrma.FilterAlg n) (floor : ℝ → ℝ) (G d : Fin n → Fin t → ℝ → ℝ) (X : Spec F n t)
    (n_iter : ℕ) (ic : Bool) {W : F → Mat n ℂ}
    (h : Keeps (IvaCall.update np alg floor d X) (fun W => ∀ f, IsUnit (W f).det) n_iter W) :
    IvaCall.call np alg floor G d sr r' (fun f => A f * X f) n_iter ic (some fun f => W f * (A f)⁻¹) .fresh
      = (IvaCall.call np alg floor G d sr r X n_iter ic (some W) .fresh).map fun o =>
        ⟨mapA (fun V f => g f • (V f * (A f)⁻¹)) o.demix, mapA (fun Y f => g f • Y f) o.output,
          o.loss.map (· + 2 * ∑ f, Real.log ‖(A f).det‖)⟩ := by
  have hs : ∀ W, IvaCall.update np alg floor d (remix A X) (unmix A W) = Except.map (unmix A) (IvaCall.update np alg floor d X W) := by
    intro W
    cases alg with
    | ip1 => exact step_of_run (Iva.C71_ip1 A hA floor d X W 1)
    | ip2 pairs => exact step_of_run (Iva.C71_ip2 A hA np floor pairs d X W 1)
  have hrun := run_moved (loss := fun W => .ok (Iva.lossIp G X W)) (loss' := fun W => .ok (Iva.lossIp G (remix A X) W))
    (c := shift A) hs (fun W hW => congrArg Except.ok (by
      rw [Iva.lossIp, Iva.ivaLoss, separate_remix A hA, sum_logdet hA hW]; rfl)) ic h
  have h1 : ∀ X W, IvaCall.reset (F := F) (t := t) alg X (some W) .fresh = .ok W := by intro X W; cases alg <;> rfl
  change IvaCall.call np alg floor G d sr r' (remix A X) n_iter ic (some (unmix A W)) .fresh = _
  rw [IvaCall.call, IvaCall.call, h1, h1]
  simp only [bind, Except.bind, IvaCall.Obj.fresh, hrun]
  cases baseCall (IvaCall.update np alg floor d X) (fun W => .ok (Iva.lossIp G X W)) ic n_iter W [] with
  | error => rfl
  | ok q =>
    simp only [Except.map, C118_finish hA hR]
    cases finish sr r X q.1 <;> rfl

/-- C118 for AuxIVA with ISS1 or ISS2, as long as the filter that the loss estimates from the signals is invertible. -/
theorem C118_iva_signal (np : Numpy ℂ) (alg : Ilrma.SignalAlg n) (floor : ℝ → ℝ) (G d : Fin n → Fin t → ℝ → ℝ) (X : Spec F n t)
    (n_iter : ℕ) (ic : Bool) {W : F → Mat n ℂ}
    (h : Keeps (IvaCall.updateY np alg floor d) (fun Y => ∀ f, IsUnit (Y f * (X f)ᴴ * (X f * (X f)ᴴ)⁻¹).det) n_iter
      (separate X W)) :
    IvaCall.callSignal np alg floor G d sr r' (fun f => A f * X f) n_iter ic (some fun f => W f * (A f)⁻¹) .fresh
      = (IvaCall.callSignal np alg floor G d sr r X n_iter ic (some W) .fresh).map fun o =>
        ⟨.none, mapA (fun Y f => g f • Y f) o.output, o.loss.map (· + 2 * ∑ f, Real.log ‖(A f).det‖)⟩ := by
  have hrun := run_moved (e := id) (step' := IvaCall.updateY np alg floor d) (loss := Iva.lossFree G X)
    (loss' := Iva.lossFree G (remix A X)) (c := shift A) (fun Y => by rw [id]; cases IvaCall.updateY np alg floor d Y <;> rfl)
    (fun Y hY => npInvB_log hA (U := Iva.ivaLoss G Y) hY fun W hW => by rw [Iva.ivaLoss, sum_logdet hA hW]; rfl) ic h
  have h1 : ∀ (X : Spec F n t) W, Lifecycle.reset (IlrmaCall.labelY alg) X (some W) ⟨.absent, .absent⟩
      = .ok (none, separate X W) := by intro X W; cases alg <;> rfl
  change IvaCall.callSignal np alg floor G d sr r' (remix A X) n_iter ic (some (unmix A W)) .fresh = _
  rw [IvaCall.callSignal, IvaCall.callSignal]
  simp only [IvaCall.Obj.fresh, h1, bind, Except.bind, separate_remix A hA]
  simp only [id] at hrun
  rw [hrun]
  cases baseCall (IvaCall.updateY np alg floor d) (Iva.lossFree G X) ic n_iter (separate X W) [] with
  | error => rfl
  | ok q =>
    simp only [Except.map, C118_finishFree hA hR]
    cases finishFree sr r X q.1 <;> rfl

/-- C118 for `GaussILRMA`, `TILRMA` and `GGDILRMA` with IP1 or IP2, without normalisation or with the normalisation of the power. -/
theorem C118_ilrma (np : Numpy ℂ) (src : Ilrma.Source) (p : ℝ) (alg : Ilrma.FilterAlg n) (norm : Ilrma.Norm n)
    (hn : ∀ r, norm ≠ .projectionBack r) (floor : ℝ → ℝ) (draw : IlrmaCall.Draw F n t K) (X : Spec F n t) (n_iter : ℕ) (ic : Bool)
    {W : F → Mat n ℂ} {T : Fin n → F → Fin K → ℝ} {V : Fin n → Fin K → Fin t → ℝ}
    (h : Keeps (Ilrma.updateOnce np src p alg norm floor X) (fun s => ∀ f, IsUnit (s.W f).det) n_iter ⟨W, T, V⟩) :
    IlrmaCall.call np src p alg norm floor sr r' draw (fun f => A f * X f) n_iter ic
        ⟨some fun f => W f * (A f)⁻¹, some T, some V⟩ .fresh
      = (IlrmaCall.call np src p alg norm floor sr r draw X n_iter ic ⟨some W, some T, some V⟩ .fresh).map fun o =>
        ⟨mapA (fun V f => g f • (V f * (A f)⁻¹)) o.demix, o.basis, o.activation, mapA (fun Y f => g f • Y f) o.output,
          o.loss.map (· + 2 * ∑ f, Real.log ‖(A f).det‖)⟩ := by
  have hs : ∀ s : Ilrma.St F n t K, Ilrma.updateOnce np src p alg norm floor (remix A X) (s.unmix A)
      = Except.map (Ilrma.St.unmix A) (Ilrma.updateOnce np src p alg norm floor X s) := fun s =>
    step_of_run (Ilrma.C71_ilrma A hA np src p alg norm hn floor X s 1)
  have hrun := run_moved (loss := fun s => .ok (Ilrma.loss src X s)) (loss' := fun s => .ok (Ilrma.loss src (remix A X) s))
    (c := shift A) hs (fun s hW => congrArg Except.ok (by
      obtain ⟨s2, e2, -, -, -, e3⟩ := Ilrma.C71_ilrma_outcome A hA np src p alg norm hn floor X s s 0 rfl
      cases e2
      exact e3 hW)) ic h
  have h1 : ∀ X W, IlrmaCall.resetFilter alg floor draw X ⟨some W, some T, some V⟩ IlrmaCall.Obj.fresh
      = .ok ⟨W, T, V⟩ := by intro X W; cases alg <;> rfl
  change IlrmaCall.call np src p alg norm floor sr r' draw (remix A X) n_iter ic ⟨some (unmix A W), some T, some V⟩ .fresh = _
  rw [IlrmaCall.call, IlrmaCall.call, h1, h1]
  rw [show (⟨unmix A W, T, V⟩ : Ilrma.St F n t K) = Ilrma.St.unmix A ⟨W, T, V⟩ from rfl]
  simp only [bind, Except.bind, IlrmaCall.Obj.fresh, hrun]
  cases baseCall (Ilrma.updateOnce np src p alg norm floor X) (fun s => .ok (Ilrma.loss src X s)) ic n_iter ⟨W, T, V⟩ [] with
  | error => rfl
  | ok q =>
    simp only [Except.map, show (Ilrma.St.unmix A q.1).W = unmix A q.1.W from rfl, C118_finish hA hR]
    cases finish sr r X q.1.W <;> rfl

/-- C118 for ILRMA with ISS1 or ISS2. -/
theorem C118_ilrma_signal (np : Numpy ℂ) (src : Ilrma.Source) (p : ℝ) (alg : Ilrma.SignalAlg n) (norm : Ilrma.Norm n)
    (hn : ∀ r, norm ≠ .projectionBack r) (floor : ℝ → ℝ) (draw : IlrmaCall.Draw F n t K) (X : Spec F n t) (n_iter : ℕ) (ic : Bool)
    {W : F → Mat n ℂ} {T : Fin n → F → Fin K → ℝ} {V : Fin n → Fin K → Fin t → ℝ}
    (h : Keeps (Ilrma.updateOnceY np src p alg norm floor X) (fun s => ∀ f, IsUnit (s.Y f * (X f)ᴴ * (X f * (X f)ᴴ)⁻¹).det) n_iter
      ⟨separate X W, T, V⟩) :
    IlrmaCall.callSignal np src p alg norm floor sr r' draw (fun f => A f * X f) n_iter ic
        ⟨some fun f => W f * (A f)⁻¹, some T, some V⟩ .fresh
      = (IlrmaCall.callSignal np src p alg norm floor sr r draw X n_iter ic ⟨some W, some T, some V⟩ .fresh).map fun o =>
        ⟨.none, o.basis, o.activation, mapA (fun Y f => g f • Y f) o.output, o.loss.map (· + 2 * ∑ f, Real.log ‖(A f).det‖)⟩ := by
  have hs : ∀ s : Ilrma.StY F n t K, Ilrma.updateOnceY np src p alg norm floor (remix A X) (id s)
      = Except.map id (Ilrma.updateOnceY np src p alg norm floor X s) := fun s => by
    have e : Ilrma.updateOnceY np src p alg norm floor (remix A X) s = Ilrma.updateOnceY np src p alg norm floor X s := by
      cases norm with
      | off => rfl
      | power => rfl
      | projectionBack r => exact absurd rfl (hn r)
    rw [id, e]
    cases Ilrma.updateOnceY np src p alg norm floor X s <;> rfl
  have hrun := run_moved (loss := Ilrma.lossY src X) (loss' := Ilrma.lossY src (remix A X)) (c := shift A) hs (fun s hW => by
      have := npInvB_log hA (X := X) (Y := s.Y) (U := Ilrma.lossOf src s.Y (Ilrma.recon s.T s.V)) hW fun W hW => by
        simp only [Ilrma.lossOf, logdet_unmix A W hA hW, shift, Finset.mul_sum, ← Finset.sum_add_distrib]
        exact Finset.sum_congr rfl fun f _ => by ring
      simp only [Ilrma.lossY, Ilrma.filterOf, id, bind_assoc]
      exact this) ic h
  have h1 : ∀ X W, IlrmaCall.resetSignal alg floor draw X ⟨some W, some T, some V⟩ IlrmaCall.Obj.fresh
      = .ok ⟨separate X W, T, V⟩ := by intro X W; cases alg <;> rfl
  change IlrmaCall.callSignal np src p alg norm floor sr r' draw (remix A X) n_iter ic ⟨some (unmix A W), some T, some V⟩ .fresh = _
  rw [IlrmaCall.callSignal, IlrmaCall.callSignal, h1, h1, separate_remix A hA]
  simp only [id] at hrun
  simp only [bind, Except.bind, IlrmaCall.Obj.fresh, hrun]
  cases baseCall (Ilrma.updateOnceY np src p alg norm floor X) (Ilrma.lossY src X) ic n_iter ⟨separate X W, T, V⟩ [] with
  | error => rfl
  | ok q =>
    simp only [Except.map, C118_finishFree hA hR]
    cases finishFree sr r X q.1.Y <;> rfl

omit hA [Fintype F] in
theorem known : FlooredCall.Known sr := by
  rcases hR with ⟨h, -⟩ | ⟨h | h, -⟩
  · exact .inl h
  · exact .inr (.inl h)
  · exact .inr (.inr h)

/-- C118 for AuxIVA with IP1 or IP2 and a positive flooring function: nothing is assumed of the course of the iterations. -/
theorem C118_iva_floored (np : Numpy ℂ) {alg : Ilrma.FilterAlg n} (halg : alg.Valid) {floor : ℝ → ℝ}
    (hf : ∀ x, 0 ≤ x → 0 < floor x) (G : Fin n → Fin t → ℝ → ℝ) {d : Fin n → Fin t → ℝ → ℝ} (hd : ∀ k j x, 0 ≤ x → 0 < d k j x)
    {X : Spec F n t} (hX : ∀ f, LinearIndependent ℂ (X f).row) (n_iter : ℕ) (ic : Bool) {W : F → Mat n ℂ}
    (hW : ∀ f, IsUnit (W f).det) :
    ∃ U Y l, IvaCall.call np alg floor G d sr r X n_iter ic (some W) .fresh = .ok ⟨.val U, .val Y, l⟩ ∧
      IvaCall.call np alg floor G d sr r' (fun f => A f * X f) n_iter ic (some fun f => W f * (A f)⁻¹) .fresh
        = .ok ⟨.val fun f => g f • (U f * (A f)⁻¹), .val fun f => g f • Y f, l.map (· + 2 * ∑ f, Real.log ‖(A f).det‖)⟩ := by
  have e := C118_iva hA hR np alg floor G d X n_iter ic (W := W)
    (keeps_of_inv (fun W hW => FlooredCall.update_ok np hf hd hX halg W hW) (fun _ hW => hW) n_iter hW)
  obtain ⟨U, l, e1, -⟩ := FlooredCall.C88_iva_returns np hf G hd (known hR) r hX n_iter ic (some W) .fresh (.inr ⟨W, rfl, hW⟩) halg
  exact ⟨U, _, l, e1, by rw [e, e1]; rfl⟩

/-- C118 for AuxIVA with ISS1 or ISS2 and a positive flooring function. -/
theorem C118_iva_signal_floored (np : Numpy ℂ) {alg : Ilrma.SignalAlg n} (halg : alg.Valid) {floor : ℝ → ℝ}
    (hf : ∀ x, 0 ≤ x → 0 < floor x) (G : Fin n → Fin t → ℝ → ℝ) {d : Fin n → Fin t → ℝ → ℝ} (hd : ∀ k j x, 0 ≤ x → 0 < d k j x)
    {X : Spec F n t} (hX : ∀ f, LinearIndependent ℂ (X f).row) (n_iter : ℕ) (ic : Bool) {W : F → Mat n ℂ}
    (hW : ∀ f, IsUnit (W f).det) :
    ∃ Y l, IvaCall.callSignal np alg floor G d sr r X n_iter ic (some W) .fresh = .ok ⟨.none, .val Y, l⟩ ∧
      IvaCall.callSignal np alg floor G d sr r' (fun f => A f * X f) n_iter ic (some fun f => W f * (A f)⁻¹) .fresh
        = .ok ⟨.none, .val fun f => g f • Y f, l.map (· + 2 * ∑ f, Real.log ‖(A f).det‖)⟩ := by
  have e := C118_iva_signal hA hR np alg floor G d X n_iter ic (W := W)
    (keeps_of_inv (fun Y hY => FlooredCall.updateY_ok np hf hd hX halg Y hY) (fun Y hY f => by
      obtain ⟨U, hU, rfl⟩ := hY
      rw [separate, Matrix.mul_assoc (U f), Matrix.mul_assoc (U f), mul_nonsing_inv _ (Iva.gram_isUnit X hX f), Matrix.mul_one]
      exact hU f) n_iter ⟨W, hW, rfl⟩)
  obtain ⟨U, l, e1, -⟩ := FlooredCall.C88_iva_returns_signal np hf G hd (known hR) r hX n_iter ic (some W) .fresh
    (.inr ⟨W, rfl, hW⟩) halg
  exact ⟨_, l, e1, by rw [e, e1]; rfl⟩

/-- C118 for ILRMA with a positive flooring function: nothing is assumed of the course of the iterations. -/
theorem C118_ilrma_floored [Nonempty (Fin K)] (np : Numpy ℂ) {src : Ilrma.Source} (hsrc : Ilrma.Standard src) (p : ℝ)
    {alg : Ilrma.FilterAlg n} (halg : alg.Valid) {norm : Ilrma.Norm n} (hn : norm.Plain) {floor : ℝ → ℝ}
    (hf : ∀ x, 0 ≤ x → 0 < floor x) (draw : IlrmaCall.Draw F n t K) {X : Spec F n t}
    (hX : ∀ f, LinearIndependent ℂ (X f).row) (n_iter : ℕ) (ic : Bool) {W : F → Mat n ℂ} (hW : ∀ f, IsUnit (W f).det)
    {T : Fin n → F → Fin K → ℝ} (hT : ∀ k f b, 0 < T k f b) {V : Fin n → Fin K → Fin t → ℝ} (hV : ∀ k b j, 0 < V k b j) :
    ∃ U T' V' Y l, IlrmaCall.call np src p alg norm floor sr r draw X n_iter ic ⟨some W, some T, some V⟩ .fresh
        = .ok ⟨.val U, .val T', .val V', .val Y, l⟩ ∧
      IlrmaCall.call np src p alg norm floor sr r' draw (fun f => A f * X f) n_iter ic
          ⟨some fun f => W f * (A f)⁻¹, some T, some V⟩ .fresh
        = .ok ⟨.val fun f => g f • (U f * (A f)⁻¹), .val T', .val V', .val fun f => g f • Y f,
            l.map (· + 2 * ∑ f, Real.log ‖(A f).det‖)⟩ := by
  have hn' : ∀ r, norm ≠ .projectionBack r := by rintro r rfl; simp [Ilrma.Norm.Plain] at hn
  have e := C118_ilrma hA hR np src p alg norm hn' floor draw X n_iter ic (W := W) (T := T) (V := V)
    (keeps_of_inv (fun s hs => FlooredCall.updateOnce_inv hsrc halg hn hf hX s hs) (fun _ hs => hs.1) n_iter ⟨hW, hT, hV⟩)
  obtain ⟨U, T', V', l, e1, -⟩ := FlooredCall.C88_returns np hsrc p hn hf (known hR) r hX n_iter ic halg
    (⟨fun _ _ _ => 0, fun _ _ _ => 0⟩ : IlrmaCall.Draw F n t K) (fun _ _ _ => le_rfl) (fun _ _ _ => le_rfl)
    ⟨some W, some T, some V⟩ .fresh (.inr ⟨W, rfl, hW⟩) (.inr ⟨T, rfl, hT⟩) (.inr ⟨V, rfl, hV⟩)
  have e1' : IlrmaCall.call np src p alg norm floor sr r draw X n_iter ic ⟨some W, some T, some V⟩ .fresh = _ := e1
  exact ⟨U, T', V', _, l, e1', by rw [e, e1']; rfl⟩

/-- C118 for ILRMA with ISS1 or ISS2 and a positive flooring function. -/
theorem C118_ilrma_signal_floored [Nonempty (Fin K)] (np : Numpy ℂ) {src : Ilrma.Source} (hsrc : Ilrma.Standard src) (p : ℝ)
    {alg : Ilrma.SignalAlg n} (halg : alg.Valid) {norm : Ilrma.Norm n} (hn : norm.Plain) {floor : ℝ → ℝ}
    (hf : ∀ x, 0 ≤ x → 0 < floor x) (draw : IlrmaCall.Draw F n t K) {X : Spec F n t}
    (hX : ∀ f, LinearIndependent ℂ (X f).row) (n_iter : ℕ) (ic : Bool) {W : F → Mat n ℂ} (hW : ∀ f, IsUnit (W f).det)
    {T : Fin n → F → Fin K → ℝ} (hT : ∀ k f b, 0 < T k f b) {V : Fin n → Fin K → Fin t → ℝ} (hV : ∀ k b j, 0 < V k b j) :
    ∃ T' V' Y l, IlrmaCall.callSignal np src p alg norm floor sr r draw X n_iter ic ⟨some W, some T, some V⟩ .fresh
        = .ok ⟨.none, .val T', .val V', .val Y, l⟩ ∧
      IlrmaCall.callSignal np src p alg norm floor sr r' draw (fun f => A f * X f) n_iter ic
          ⟨some fun f => W f * (A f)⁻¹, some T, some V⟩ .fresh
        = .ok ⟨.none, .val T', .val V', .val fun f => g f • Y f, l.map (· + 2 * ∑ f, Real.log ‖(A f).det‖)⟩ := by
  have hn' : ∀ r, norm ≠ .projectionBack r := by rintro r rfl; simp [Ilrma.Norm.Plain] at hn
  have e := C118_ilrma_signal hA hR np src p alg norm hn' floor draw X n_iter ic (W := W) (T := T) (V := V)
    (keeps_of_inv (fun s hs => FlooredCall.updateOnceY_inv hsrc halg hn hf hX s hs) (fun s hs f => by
      obtain ⟨s0, hU, rfl⟩ := hs
      rw [show (s0.toY X).Y = separate X s0.W from rfl, separate, Matrix.mul_assoc (s0.W f), Matrix.mul_assoc (s0.W f),
        mul_nonsing_inv _ (Iva.gram_isUnit X hX f), Matrix.mul_one]
      exact hU.1 f) n_iter ⟨⟨W, T, V⟩, ⟨hW, hT, hV⟩, rfl⟩)
  obtain ⟨U, T', V', l, e1, -⟩ := FlooredCall.C88_returns_signal np hsrc p hn hf (known hR) r hX n_iter ic halg
    (⟨fun _ _ _ => 0, fun _ _ _ => 0⟩ : IlrmaCall.Draw F n t K) (fun _ _ _ => le_rfl) (fun _ _ _ => le_rfl)
    ⟨some W, some T, some V⟩ .fresh (.inr ⟨W, rfl, hW⟩) (.inr ⟨T, rfl, hT⟩) (.inr ⟨V, rfl, hV⟩)
  have e1' : IlrmaCall.callSignal np src p alg norm floor sr r draw X n_iter ic ⟨some W, some T, some V⟩ .fresh = _ := e1
  exact ⟨T', V', _, l, e1', by rw [e, e1']; rfl⟩

end

/-! ## AuxFDICA -/

/-- C118 for AuxFDICA without permutation alignment. -/
theorem C118_fdica {B : ℕ} {A : Fin B → Mat n ℂ} (hA : ∀ f, IsUnit (A f).det) {g : Fin B → ℂ} {r r' : Fin n} {sr : ScaleOpt}
    (hR : Reference sr r r' A g) (sort : Permutation.Argsort) (np : Numpy ℂ) (alg : Ilrma.FilterAlg n) {opt : Fdica.PermOpt}
    (ho : opt.truthy = false) (floor G d : ℝ → ℝ) (X : Spec (Fin B) n t) (n_iter : ℕ) (ic : Bool) {W : Fin B → Mat n ℂ}
    (h : Keeps (Fdica.auxUpdate np alg floor d X) (fun W => ∀ f, IsUnit (W f).det) n_iter W) :
    Fdica.auxCall sort np alg opt floor G d sr r' (fun f => A f * X f) n_iter ic (some fun f => W f * (A f)⁻¹) .fresh
      = (Fdica.auxCall sort np alg opt floor G d sr r X n_iter ic (some W) .fresh).map fun o =>
        ⟨mapA (fun V f => g f • (V f * (A f)⁻¹)) o.demix, mapA (fun Y f => g f • Y f) o.output,
          o.loss.map (· + 2 * ∑ f, Real.log ‖(A f).det‖)⟩ := by
  have hs : ∀ W, Fdica.auxUpdate np alg floor d (remix A X) (unmix A W)
      = Except.map (unmix A) (Fdica.auxUpdate np alg floor d X W) := by
    intro W
    cases alg with
    | ip1 => exact step_of_run (Fdica.C71_ip1 A hA floor d X W 1)
    | ip2 pairs => exact step_of_run (Fdica.C71_ip2 A hA np floor d pairs X W 1)
  have hrun := run_moved (loss := fun W => .ok (Fdica.loss G X W)) (loss' := fun W => .ok (Fdica.loss G (remix A X) W))
    (c := shift A) hs (fun W hW => congrArg Except.ok (by
      simp only [Fdica.loss, separate_remix A hA, logdet_unmix A W hA hW, shift, Finset.mul_sum, ← Finset.sum_add_distrib]
      exact Finset.sum_congr rfl fun f _ => by ring)) ic h
  change Fdica.auxCall sort np alg opt floor G d sr r' (remix A X) n_iter ic (some (unmix A W)) .fresh = _
  simp only [Fdica.auxCall, Fdica.auxReset, override, bind, Except.bind, IvaCall.Obj.fresh, hrun, BinByBin.finishAligned_off ho]
  cases baseCall (Fdica.auxUpdate np alg floor d X) (fun W => .ok (Fdica.loss G X W)) ic n_iter W [] with
  | error => rfl
  | ok q =>
    simp only [Except.map, C118_finish hA hR]
    cases finish sr r X q.1 <;> rfl

/-! ## IPSDTA -/

section
variable {N B : ℕ} {A : Fin N → Mat n ℂ} (hA : ∀ f, IsUnit (A f).det) {g : Fin N → ℂ} {r r' : Fin n} {sr : ScaleOpt}
  (hR : Reference sr r r' A g)
include hA hR

theorem ipsdta_moved {step step' : Ipsdta.St N B n t K → Except PyErr (Ipsdta.St N B n t K)}
    {loss loss' : Ipsdta.St N B n t K → Except PyErr ℝ} (hs : ∀ s, step' (s.unmix A) = Except.map (Ipsdta.St.unmix A) (step s))
    (hl : ∀ s, (∀ f, IsUnit (s.W f).det) → loss' (s.unmix A) = (loss s).map (· + shift A))
    (normalization : Bool) (floor : ℝ → ℝ) (draw : IpsdtaCall.Draw N B n t K) (X : Spec (Fin N) n t) (n_iter : ℕ)
    (kw : IpsdtaCall.Kw N B n t K) {W : Fin N → Mat n ℂ}
    (h : ∀ s, IpsdtaCall.reset normalization floor draw { kw with demix := some W } .fresh = .ok s →
      Keeps step (fun s => ∀ f, IsUnit (s.W f).det) n_iter s) :
    IpsdtaCall.call step' loss' normalization floor sr r' draw (fun f => A f * X f) n_iter
        { kw with demix := some fun f => W f * (A f)⁻¹ } .fresh
      = (IpsdtaCall.call step loss normalization floor sr r draw X n_iter { kw with demix := some W } .fresh).map fun o =>
        ⟨mapA (fun V f => g f • (V f * (A f)⁻¹)) o.demix, o.basis, o.activation, mapA (fun Y f => g f • Y f) o.output,
          o.loss.map (· + 2 * ∑ f, Real.log ‖(A f).det‖), o.initial_call⟩ := by
  change IpsdtaCall.call step' loss' normalization floor sr r' draw (remix A X) n_iter { kw with demix := some (unmix A W) } .fresh = _
  have h1 : IpsdtaCall.reset normalization floor draw { kw with demix := some (unmix A W) } .fresh
      = (IpsdtaCall.reset normalization floor draw { kw with demix := some W } .fresh).map (Ipsdta.St.unmix A) := by
    simp only [IpsdtaCall.reset, IpsdtaCall.startFilter, override, bind, Except.bind]
    split <;> rfl
  rw [IpsdtaCall.call, IpsdtaCall.call, h1]
  cases hr : IpsdtaCall.reset normalization floor draw { kw with demix := some W } .fresh with
  | error => rfl
  | ok s =>
    simp only [Except.map, bind, Except.bind, IpsdtaCall.Obj.fresh, run_moved hs hl true (h s hr)]
    cases baseCall step loss true n_iter s [] with
    | error => rfl
    | ok q =>
      simp only [show (Ipsdta.St.unmix A q.1).W = unmix A q.1.W from rfl, C118_finish hA hR]
      cases finish sr r X q.1.W <;> rfl

/-- C118 for `GaussIPSDTA`. -/
theorem C118_gaussIpsdta (np : Numpy ℂ) (normalization : Bool) (floor : ℝ → ℝ) (draw : IpsdtaCall.Draw N B n t K)
    (X : Spec (Fin N) n t) (n_iter : ℕ) (kw : IpsdtaCall.Kw N B n t K) {W : Fin N → Mat n ℂ}
    (h : ∀ s, IpsdtaCall.reset normalization floor draw { kw with demix := some W } .fresh = .ok s →
      Keeps (Ipsdta.gaussUpdate np normalization floor X) (fun s => ∀ f, IsUnit (s.W f).det) n_iter s) :
    IpsdtaCall.gaussCall np normalization floor sr r' draw (fun f => A f * X f) n_iter
        { kw with demix := some fun f => W f * (A f)⁻¹ } .fresh
      = (IpsdtaCall.gaussCall np normalization floor sr r draw X n_iter { kw with demix := some W } .fresh).map fun o =>
        ⟨mapA (fun V f => g f • (V f * (A f)⁻¹)) o.demix, o.basis, o.activation, mapA (fun Y f => g f • Y f) o.output,
          o.loss.map (· + 2 * ∑ f, Real.log ‖(A f).det‖), o.initial_call⟩ :=
  ipsdta_moved hA hR (fun s => step_of_run (Ipsdta.C71_gauss A hA np normalization floor X s 1))
    (fun s hW => Ipsdta.C71_gauss_loss A hA np X s hW) normalization floor draw X n_iter kw h

/-- C118 for `TIPSDTA`. -/
theorem C118_tIpsdta (np : Numpy ℂ) (normalization : Bool) (floor : ℝ → ℝ) (nu : ℝ) (draw : IpsdtaCall.Draw N B n t K)
    (X : Spec (Fin N) n t) (n_iter : ℕ) (kw : IpsdtaCall.Kw N B n t K) {W : Fin N → Mat n ℂ}
    (h : ∀ s, IpsdtaCall.reset normalization floor draw { kw with demix := some W } .fresh = .ok s →
      Keeps (Ipsdta.tUpdate np normalization floor nu X) (fun s => ∀ f, IsUnit (s.W f).det) n_iter s) :
    IpsdtaCall.tCall np normalization floor nu sr r' draw (fun f => A f * X f) n_iter
        { kw with demix := some fun f => W f * (A f)⁻¹ } .fresh
      = (IpsdtaCall.tCall np normalization floor nu sr r draw X n_iter { kw with demix := some W } .fresh).map fun o =>
        ⟨mapA (fun V f => g f • (V f * (A f)⁻¹)) o.demix, o.basis, o.activation, mapA (fun Y f => g f • Y f) o.output,
          o.loss.map (· + 2 * ∑ f, Real.log ‖(A f).det‖), o.initial_call⟩ :=
  ipsdta_moved hA hR (fun s => step_of_run (Ipsdta.C71_t A hA np normalization floor nu X s 1))
    (fun s hW => Ipsdta.C71_t_loss A hA np nu X s hW) normalization floor draw X n_iter kw h

end

/-! ## Example

Three bins, two microphones; the new microphone 1 is twice the old microphone 0, the new microphone 0 is the sum of the old ones. -/

def exA : Mat 2 ℂ := !![1, 1; 2, 0]

example (np : Numpy ℂ) (n_iter : ℕ) (W : Fin 3 → Mat 2 ℂ) (hW : ∀ f, IsUnit (W f).det) :
    ∃ U Y l, IvaCall.call np (.ip2 [(0, 1)]) (Special.max_flooring (1 / 10 ^ 10)) Iva.laplaceG Iva.laplaceD (.bool true) 0
        FlooredCall.exX n_iter true (some W) .fresh = .ok ⟨.val U, .val Y, l⟩ ∧
      IvaCall.call np (.ip2 [(0, 1)]) (Special.max_flooring (1 / 10 ^ 10)) Iva.laplaceG Iva.laplaceD (.bool true) 1
        (fun f => exA * FlooredCall.exX f) n_iter true (some fun f => W f * exA⁻¹) .fresh
        = .ok ⟨.val fun f => (2 : ℂ) • (U f * exA⁻¹), .val fun f => (2 : ℂ) • Y f,
          l.map (· + 2 * ∑ _f : Fin 3, Real.log ‖exA.det‖)⟩ :=
  C118_iva_floored (A := fun _ => exA) (g := fun _ => 2) (fun _ => by rw [exA, det_fin_two_of]; norm_num)
    (.inr ⟨.inl (.inl rfl), fun f c => by fin_cases c <;> simp [exA]⟩) np (by simp [Ilrma.FilterAlg.Valid])
    (fun x _ => FlooredCall.max_flooring_pos x) Iva.laplaceG (fun _ _ _ _ => two_pos) FlooredCall.exX_indep n_iter true hW

end Verif.Microphones
