import Verif.Lemmas.Rescale
import Verif.Props.AuxFdica
import Verif.Props.AuxGauss
import Verif.Props.FlooredCall

/-!
# C89: what a call of AuxIVA, AuxGaussIVA or AuxFDICA returns, and how calls resume

The model is `Verif.IvaCall` and `Verif.Fdica.auxCall`: the object with its attributes, `_reset`, the iterations and the end
of `__call__`.
-/

set_option linter.unusedSectionVars false

namespace Verif.IvaCall

open Matrix Scale Iva Lifecycle
open Ilrma (FilterAlg SignalAlg bind_ok)
open IlrmaCall
open scoped ComplexOrder

variable {F : Type} [Fintype F] {n t : ℕ}

/-! ## Resuming without scale restoration -/

theorem finish_none {sr : ScaleOpt} (hsr : AsksNone sr) (r : Fin n) (X : Spec F n t) (W : F → Mat n ℂ) :
    finish sr r X W = .ok (separate X W, W) := by
  rw [finish_eq, restore_none hsr]
  rfl

theorem reset_again (alg : FilterAlg n) (X : Spec F n t) (W : F → Mat n ℂ) (Y : Attr (Spec F n t)) (ls : List ℝ) :
    reset alg X none ⟨.val W, Y, ls⟩ = .ok W := by
  simp [reset, Lifecycle.reset, separateOpt, label_filterFree, bind, Except.bind]

/-- C89: `n_iter=0` with the keyword argument `demix_filter` and without scale restoration returns that filter applied to the
recording, also with ISS1 and ISS2, which forget the filter, and for `AuxGaussIVA`. -/
theorem C89_keyword (np : Numpy ℂ) (alg : FilterAlg n) (algY : SignalAlg n) (floor : ℝ → ℝ) (G d : Fin n → Fin t → ℝ → ℝ)
    {sr : ScaleOpt} (hsr : AsksNone sr) (r : Fin n) (X : Spec F n t) (W : F → Mat n ℂ) (o : Obj F n t) (o' : GaussObj F n t) :
    call np alg floor G d sr r X 0 false (some W) o = .ok ⟨.val W, .val fun f => W f * X f, o.loss⟩ ∧
    callSignal np algY floor G d sr r X 0 false (some W) o = .ok ⟨.none, .val fun f => W f * X f, o.loss⟩ ∧
    ∃ v, gaussCall np alg floor sr r X 0 false (some W) o' = .ok ⟨.val W, .val v, .val fun f => W f * X f, o'.loss⟩ := by
  have h : ∀ o : Obj F n t, reset alg X (some W) o = .ok W := fun o => by
    simp [reset, Lifecycle.reset, separateOpt, label_filterFree, bind, Except.bind]
  have h' : Lifecycle.reset (labelY algY) X (some W) ⟨o.demix, o.output⟩ = .ok (none, separate X W) := by
    simp [Lifecycle.reset, separateOpt, labelY_filterFree, bind, Except.bind]
  have hfin : finishFree sr r X (separate X W) = .ok (separate X W) := by
    rw [finishFree, restore_none hsr]
    rfl
  refine ⟨?_, ?_, fun _ _ => 1, ?_⟩
  · simp only [call, h, baseCall, iterations, finish_none hsr, bind, Except.bind]
    rfl
  · simp only [callSignal, h', baseCall, iterations, Bool.false_eq_true, if_false, hfin, bind, Except.bind]
    rfl
  · simp only [gaussCall, gaussReset, h, baseCall, iterations, finish_none hsr, bind, Except.bind]
    rfl

/-- C89: without scale restoration two calls of `AuxIVA` with IP1 or IP2, the second with `initial_call=False`, are one call
with all the iterations: same outputs, filters and losses, same exception. Every contrast function, every flooring function,
every option of the first call. -/
theorem C89_resume (np : Numpy ℂ) (alg : FilterAlg n) (floor : ℝ → ℝ) (G d : Fin n → Fin t → ℝ → ℝ) (sr : ScaleOpt)
    (hsr : AsksNone sr) (r : Fin n) (X : Spec F n t) (a b : ℕ) (ic : Bool) (kw : Option (F → Mat n ℂ)) (o : Obj F n t) :
    (call np alg floor G d sr r X a ic kw o).bind (call np alg floor G d sr r X b false none)
      = call np alg floor G d sr r X (a + b) ic kw o := by
  have e : ∀ (m : ℕ) (ic : Bool) (kw : Option (F → Mat n ℂ)) (o : Obj F n t),
      call np alg floor G d sr r X m ic kw o = (reset alg X kw o).bind fun W =>
        (baseCall (update np alg floor d X) (fun W => .ok (lossIp G X W)) ic m W o.loss).bind fun q =>
          .ok ⟨.val q.1, .val (separate X q.1), q.2⟩ := by
    intro m ic kw o
    simp only [call, finish_none hsr, bind, Except.bind]
  rw [e, e]
  cases reset alg X kw o with
  | error _ => rfl
  | ok W =>
    simp only [Except.bind]
    rw [baseCall_add]
    cases baseCall (update np alg floor d X) (fun W => .ok (lossIp G X W)) ic a W o.loss with
    | error _ => rfl
    | ok q =>
      simp only [Except.bind]
      rw [e, reset_again]
      rfl

/-- C89: with ISS a second call raises (C49) unless the caller hands a filter over. With any filter that produces the outputs
of the first call, and no scale restoration, two calls are one call. -/
theorem C89_resume_signal (np : Numpy ℂ) (alg : SignalAlg n) (floor : ℝ → ℝ) (G d : Fin n → Fin t → ℝ → ℝ) (sr : ScaleOpt)
    (hsr : AsksNone sr) (r : Fin n) (X : Spec F n t) (a b : ℕ) (ic : Bool) (kw : Option (F → Mat n ℂ)) (o o1 : Obj F n t)
    (h : callSignal np alg floor G d sr r X a ic kw o = .ok o1) (W : F → Mat n ℂ) (hW : o1.output = .val (separate X W)) :
    callSignal np alg floor G d sr r X b false (some W) o1 = callSignal np alg floor G d sr r X (a + b) ic kw o ∧
      callSignal np alg floor G d sr r X b false none o1 = .error .value := by
  have hfin : ∀ Y : Spec F n t, finishFree sr r X Y = .ok Y := fun Y => by
    rw [finishFree, restore_none hsr]
    rfl
  have e : ∀ (m : ℕ) (ic : Bool) (kw : Option (F → Mat n ℂ)) (o : Obj F n t),
      callSignal np alg floor G d sr r X m ic kw o = (Lifecycle.reset (labelY alg) X kw ⟨o.demix, o.output⟩).bind fun p =>
        (baseCall (updateY np alg floor d) (lossFree G X) ic m p.2 o.loss).bind fun q => .ok ⟨.none, .val q.1, q.2⟩ := by
    intro m ic kw o
    simp only [callSignal, hfin, bind, Except.bind]
  rw [e] at h
  obtain ⟨p, h1, h2⟩ := bind_ok h
  obtain ⟨q, h3, h4⟩ := bind_ok h2
  cases h4
  have hq : q.1 = separate X W := by
    injection hW
  constructor
  · rw [e, e, h1]
    have : Lifecycle.reset (labelY alg) X (some W) ⟨.none, .val q.1⟩ = .ok (none, separate X W) := by
      simp [Lifecycle.reset, separateOpt, labelY_filterFree, bind, Except.bind]
    rw [this]
    simp only [Except.bind]
    rw [baseCall_add, h3, baseCall_false, ← hq]
    rfl
  · rw [e]
    simp [Lifecycle.reset, separateOpt, bind, Except.bind]

/-! ## What a first call returns -/

/-- Regularity of one update: no source silent in a whole frame, flooring inactive. -/
def Reg (np : Numpy ℂ) (alg : FilterAlg n) (floor : ℝ → ℝ) (d : Fin n → Fin t → ℝ → ℝ) (X : Spec F n t) :
    (F → Mat n ℂ) → Prop :=
  match alg with
  | .ip1 => RegIp1 floor d X
  | .ip2 pairs => RegularFold (auxIp2Pair np floor d X) (RegIp2 np floor d X) pairs

theorem update_step (np : Numpy ℂ) {alg : FilterAlg n} (halg : alg.Valid) {G d : Fin n → Fin t → ℝ → ℝ} (hG : Majorised G d)
    (floor : ℝ → ℝ) (X : Spec F n t) (hX : ∀ f, LinearIndependent ℂ (X f).row) (W : F → Mat n ℂ) (hW : ∀ f, IsUnit (W f).det)
    (hr : Reg np alg floor d X W) :
    ∃ W', update np alg floor d X W = .ok W' ∧ (∀ f, IsUnit (W' f).det) ∧ lossIp G X W' ≤ lossIp G X W := by
  cases alg with
  | ip1 => exact auxIp1_step hG floor X hX W hW hr.1 hr.2
  | ip2 pairs =>
    exact foldlM_regular (auxIp2Pair np floor d X) (fun W => ∀ f, IsUnit (W f).det) (RegIp2 np floor d X) (lossIp G X) pairs
      (fun W p hp hW hr => auxIp2Pair_step np hG floor X hX W hW hr.1 p (halg p hp) hr.2) W hW hr

/-- The loss list of a first call. -/
theorem first_call {σ : Type} {step : σ → Except PyErr σ} {loss : σ → Except PyErr ℝ} {Inv R : σ → Prop} {val : σ → ℝ}
    (hloss : ∀ s, Inv s → loss s = .ok (val s))
    (hstep : ∀ s, Inv s → R s → ∃ s', step s = .ok s' ∧ Inv s' ∧ val s' ≤ val s) (m : ℕ) {s : σ} (hs : Inv s)
    (hreg : RegularRun step R m s) :
    ∃ s' ls, baseCall step loss true m s [] = .ok (s', ls) ∧ Inv s' ∧ ls.length = m + 1 ∧ ls.Pairwise (· ≥ ·) ∧
      ls.head? = some (val s) ∧ ls.getLast? = some (val s') := by
  obtain ⟨ls, g1, g2, g3, -⟩ := lossList_antitone step loss Inv R val hloss hstep m s hs hreg
  obtain ⟨s', e1, e2, -⟩ := regular_end step Inv R (fun s hs hr => (hstep s hs hr).imp fun s' h => ⟨h.1, h.2.1⟩) m s hs hreg
  obtain ⟨v, s'', k1, k2, k3⟩ := iterations_of_lossList step loss m s [] ls g1
  rw [e1] at k2
  cases k2
  have hb : baseCall step loss true m s [] = .ok (s', ls) := by
    simp only [baseCall, if_true, k1, bind, Except.bind]
    exact k3
  have hv : v = val s := by
    rw [hloss s hs] at k1
    exact (Except.ok.inj k1).symm
  have hhead : ls.head? = some (val s) := by
    obtain ⟨w, w1, w2⟩ := baseCall_initial step loss m s s' [] ls hb
    rw [k1] at w1
    cases w1
    rw [List.head?_eq_getElem?, ← hv]
    exact w2
  refine ⟨s', ls, hb, e2, g2, g3, hhead, ?_⟩
  rcases Nat.eq_zero_or_pos m with rfl | hm
  · cases e1
    obtain ⟨w, rfl⟩ := List.length_eq_one_iff.mp g2
    exact hhead
  · obtain ⟨w, w1, w2⟩ := (baseCall_ok step loss true m s s' [] ls hb).2.2 hm.ne'
    rw [hloss s' e2] at w1
    cases w1
    exact w2

theorem finish_sum {sr : ScaleOpt} (hsr : AsksPB sr) (r : Fin n) (X : Spec F n t) {W : F → Mat n ℂ} (hW : ∀ f, IsUnit (W f).det) :
    ∃ W', finish sr r X W = .ok (separate X W', W') ∧ ∀ f j, ∑ k, separate X W' f k j = X f r j := by
  have hpb := pb_ok (r := r) hW
  refine ⟨fun f => Matrix.of fun i j => W f i j * (W f)⁻¹ r i, ?_, C23_distortion_free r W _ hpb X⟩
  obtain ⟨ht, hr⟩ := restore_pb hsr (applyProjectionBack r X W) (applyMdp r X W)
  rw [finish_eq, if_pos ht, hr, applyProjectionBack, hpb]
  rfl

theorem reset_fresh (alg : FilterAlg n) (X : Spec F n t) : reset alg X none Obj.fresh = .ok fun _ => 1 := by
  simp [reset, Lifecycle.reset, Obj.fresh, separateOpt, label_filterFree, bind, Except.bind]

/-- C89: a first call of `AuxIVA` with IP1 or IP2 and projection back starts at the loss of the recording itself, the
recorded losses never increase, the filter reported produces the output, and the outputs sum to the reference channel. -/
theorem C89_call (np : Numpy ℂ) {alg : FilterAlg n} (halg : alg.Valid) {G d : Fin n → Fin t → ℝ → ℝ} (hG : Majorised G d)
    (floor : ℝ → ℝ) (X : Spec F n t) (hX : ∀ f, LinearIndependent ℂ (X f).row) (n_iter : ℕ) {sr : ScaleOpt} (hsr : AsksPB sr)
    (r : Fin n) (hreg : RegularRun (update np alg floor d X) (Reg np alg floor d X) n_iter fun _ => 1) :
    ∃ W ls, call np alg floor G d sr r X n_iter true none Obj.fresh = .ok ⟨.val W, .val (separate X W), ls⟩ ∧
      ls.length = n_iter + 1 ∧ ls.Pairwise (· ≥ ·) ∧
      ls.head? = some (∑ k, Spatial.meanT fun s => G k s (binNorm X k s)) ∧ ∀ f j, ∑ k, separate X W f k j = X f r j := by
  obtain ⟨W, ls, h1, h2, h3, h4, h5, -⟩ := first_call (Inv := fun W : F → Mat n ℂ => ∀ f, IsUnit (W f).det)
    (loss := fun W => .ok (lossIp G X W)) (val := lossIp G X) (fun _ _ => rfl)
    (fun W hW hr => update_step np halg hG floor X hX W hW hr) n_iter (s := fun _ => 1) (fun f => by simp) hreg
  obtain ⟨W', g1, g2⟩ := finish_sum hsr r X h2
  refine ⟨W', ls, ?_, h3, h4, ?_, g2⟩
  · have h1' : baseCall (update np alg floor d X) (fun W => .ok (lossIp G X W)) true n_iter (fun _ => 1)
        (Obj.fresh : Obj F n t).loss = .ok (W, ls) := h1
    simp only [call, reset_fresh, h1', g1, bind, Except.bind]
  · have : separate X (fun _ => 1) = X := by funext f; simp [separate]
    rw [h5, lossIp, ivaLoss, this]
    simp

/-- Regularity of one ISS update. -/
def RegY (np : Numpy ℂ) (alg : SignalAlg n) (floor : ℝ → ℝ) (d : Fin n → Fin t → ℝ → ℝ) : Spec F n t → Prop :=
  match alg with
  | .iss1 => RegIss1 floor d
  | .iss2 pairs => RegIss2 np floor pairs d

theorem updateY_step (np : Numpy ℂ) {alg : SignalAlg n} (halg : alg.Valid) {G d : Fin n → Fin t → ℝ → ℝ} (hG : Majorised G d)
    (floor : ℝ → ℝ) (X : Spec F n t) (hX : ∀ f, LinearIndependent ℂ (X f).row) (W : F → Mat n ℂ) (hW : ∀ f, IsUnit (W f).det)
    (hr : RegY np alg floor d (separate X W)) :
    ∃ W' : F → Mat n ℂ, updateY np alg floor d (separate X W) = .ok (separate X W') ∧ (∀ f, IsUnit (W' f).det) ∧
      lossIp G X W' ≤ lossIp G X W := by
  cases alg with
  | iss1 => exact auxIss1_step hG floor X hX W hW hr
  | iss2 pairs => exact auxIss2_step np hG floor pairs halg X hX W hW hr

/-- C89 for ISS1 and ISS2: the same, without a reported filter. -/
theorem C89_call_signal (np : Numpy ℂ) {alg : SignalAlg n} (halg : alg.Valid) {G d : Fin n → Fin t → ℝ → ℝ} (hG : Majorised G d)
    (floor : ℝ → ℝ) (X : Spec F n t) (hX : ∀ f, LinearIndependent ℂ (X f).row) (n_iter : ℕ) {sr : ScaleOpt} (hsr : AsksPB sr)
    (r : Fin n) (hreg : RegularRun (updateY np alg floor d) (RegY np alg floor d) n_iter X) :
    ∃ W ls, callSignal np alg floor G d sr r X n_iter true none Obj.fresh = .ok ⟨.none, .val (separate X W), ls⟩ ∧
      ls.length = n_iter + 1 ∧ ls.Pairwise (· ≥ ·) ∧
      ls.head? = some (∑ k, Spatial.meanT fun s => G k s (binNorm X k s)) ∧ ∀ f j, ∑ k, separate X W f k j = X f r j := by
  have hone : separate X (fun _ => 1) = X := by funext f; simp [separate]
  obtain ⟨val, hval⟩ : ∃ val : Spec F n t → ℝ, ∀ W, val (separate X W) = lossIp G X W :=
    ⟨fun Y => match lossFree G X Y with
      | .ok v => v
      | .error _ => 0, fun W => by simp only [lossFree_eq G X hX W]⟩
  obtain ⟨Y, ls, h1, ⟨W, rfl, h2⟩, h3, h4, h5, -⟩ := first_call
    (Inv := fun Y => ∃ W : F → Mat n ℂ, Y = separate X W ∧ ∀ f, IsUnit (W f).det) (loss := lossFree G X) (val := val)
    (by
      rintro Y ⟨W, rfl, -⟩
      rw [hval, lossFree_eq G X hX])
    (by
      rintro Y ⟨W, rfl, hW⟩ hr
      obtain ⟨W', a1, a2, a3⟩ := updateY_step np halg hG floor X hX W hW hr
      exact ⟨_, a1, ⟨W', rfl, a2⟩, by rw [hval, hval]; exact a3⟩) n_iter (s := X)
    ⟨fun _ => 1, hone.symm, fun f => by simp⟩ hreg
  have hXX : ∀ f, IsUnit (X f * (X f)ᴴ).det := fun f => (isUnit_iff_isUnit_det _).mp
    (PosDef.mul_conjTranspose_self _ (vecMul_injective_iff.mpr (hX f))).isUnit
  obtain ⟨W', g1, g2⟩ := finish_sum hsr r X h2
  have g3 : finishFree sr r X (separate X W) = .ok (separate X W') := by
    rw [C26_filter_free sr r X W h2 hXX, g1]
    rfl
  refine ⟨W', ls, ?_, h3, h4, ?_, g2⟩
  · have h1' : baseCall (updateY np alg floor d) (lossFree G X) true n_iter X (Obj.fresh : Obj F n t).loss
        = .ok (separate X W, ls) := h1
    have h0 : Lifecycle.reset (labelY alg) X none ⟨(Obj.fresh : Obj F n t).demix, (Obj.fresh : Obj F n t).output⟩
        = .ok (none, X) := by
      simp [Lifecycle.reset, Obj.fresh, separateOpt, labelY_filterFree, hone, bind, Except.bind]
    simp only [callSignal, h0, h1', g3, bind, Except.bind]
  · have hv := hval fun _ => 1
    rw [hone] at hv
    rw [h5, hv, lossIp, ivaLoss, hone]
    simp

/-! ## `AuxGaussIVA` -/

/-- The variance is recomputed before it is used. -/
theorem gaussUpdate_variance (np : Numpy ℂ) (alg : FilterAlg n) (floor : ℝ → ℝ) (X : Spec F n t) (W : F → Mat n ℂ)
    (v v' : Fin n → Fin t → ℝ) : gaussUpdate np alg floor X ⟨W, v⟩ = gaussUpdate np alg floor X ⟨W, v'⟩ := by
  cases alg <;> rfl

theorem gaussReset_again (alg : FilterAlg n) (X : Spec F n t) (W : F → Mat n ℂ) (v : Attr (Fin n → Fin t → ℝ))
    (Y : Attr (Spec F n t)) (ls : List ℝ) : gaussReset alg X none ⟨.val W, v, Y, ls⟩ = .ok ⟨W, fun _ _ => 1⟩ := by
  simp only [gaussReset, reset_again, bind, Except.bind]

/-- C89: although `AuxGaussIVA` sets its variance back to one at every call, without scale restoration a second call with
`initial_call=False` and at least one iteration continues as one call would. -/
theorem C89_gauss_resume (np : Numpy ℂ) (alg : FilterAlg n) (floor : ℝ → ℝ) (sr : ScaleOpt) (hsr : AsksNone sr) (r : Fin n)
    (X : Spec F n t) (a b : ℕ) (hb : b ≠ 0) (ic : Bool) (kw : Option (F → Mat n ℂ)) (o : GaussObj F n t) :
    (gaussCall np alg floor sr r X a ic kw o).bind (gaussCall np alg floor sr r X b false none)
      = gaussCall np alg floor sr r X (a + b) ic kw o := by
  have e : ∀ (m : ℕ) (ic : Bool) (kw : Option (F → Mat n ℂ)) (o : GaussObj F n t),
      gaussCall np alg floor sr r X m ic kw o = (gaussReset alg X kw o).bind fun s =>
        (baseCall (gaussUpdate np alg floor X) (fun s => .ok (gaussLoss X s)) ic m s o.loss).bind fun q =>
          .ok ⟨.val q.1.W, .val q.1.variance, .val (separate X q.1.W), q.2⟩ := by
    intro m ic kw o
    simp only [gaussCall, finish_none hsr, bind, Except.bind]
  obtain ⟨b, rfl⟩ := Nat.exists_eq_succ_of_ne_zero hb
  rw [e, e]
  cases gaussReset alg X kw o with
  | error _ => rfl
  | ok s =>
    simp only [Except.bind]
    rw [baseCall_add]
    cases baseCall (gaussUpdate np alg floor X) (fun s => .ok (gaussLoss X s)) ic a s o.loss with
    | error _ => rfl
    | ok q =>
      simp only [Except.bind]
      rw [e, gaussReset_again]
      simp only [Except.bind, baseCall_false, iterations]
      rw [gaussUpdate_variance np alg floor X q.1.W (fun _ _ => 1) q.1.variance]

/-- C89: whatever a call of `AuxGaussIVA` left behind, the loss that the next call with `initial_call=True` records first is
the loss for variance one. -/
theorem C89_gauss_initial_loss (np : Numpy ℂ) (alg : FilterAlg n) (floor : ℝ → ℝ) (sr : ScaleOpt) (r : Fin n) (X : Spec F n t)
    (n_iter : ℕ) (W : F → Mat n ℂ) (v : Attr (Fin n → Fin t → ℝ)) (Y : Attr (Spec F n t)) (ls : List ℝ) (o : GaussObj F n t)
    (h : gaussCall np alg floor sr r X n_iter true none ⟨.val W, v, Y, ls⟩ = .ok o) :
    o.loss[ls.length]? = some (∑ k, (Spatial.meanT fun j => binNorm (separate X W) k j ^ 2) - 2 * ∑ f, Real.log ‖(W f).det‖) := by
  obtain ⟨s, h1, h2⟩ := bind_ok h
  rw [gaussReset_again] at h1
  cases h1
  obtain ⟨q, h3, h4⟩ := bind_ok h2
  obtain ⟨p, h5, h6⟩ := bind_ok h4
  cases h6
  obtain ⟨w, w1, w2⟩ := baseCall_initial _ _ _ _ _ _ _ h3
  cases w1
  rw [w2]
  simp [gaussLoss, lossIp, ivaLoss, gaussG]

/-- Regularity of one update of `AuxGaussIVA`. -/
def RegGauss (np : Numpy ℂ) (alg : FilterAlg n) (floor : ℝ → ℝ) (X : Spec F n t) : GaussState F n t → Prop :=
  match alg with
  | .ip1 => RegGaussIp1 floor X
  | .ip2 pairs => RegGaussIp2 np floor pairs X

theorem gaussUpdate_step [Nonempty F] (np : Numpy ℂ) {alg : FilterAlg n} (halg : alg.Valid) (floor : ℝ → ℝ) (X : Spec F n t)
    (hX : ∀ f, LinearIndependent ℂ (X f).row) (s : GaussState F n t) (hs : GaussInv s) (hr : RegGauss np alg floor X s) :
    ∃ s', gaussUpdate np alg floor X s = .ok s' ∧ GaussInv s' ∧ gaussLoss X s' ≤ gaussLoss X s := by
  cases alg with
  | ip1 =>
    obtain ⟨h0, h1⟩ : (∀ k j, 0 < binNorm (separate X s.W) k j) ∧ gaussIp1 floor X s = gaussIp1 id X s := hr
    obtain ⟨W', g1, g2, g3⟩ := auxIp1_step (gauss_majorised (F := F) _ (gaussVariance_pos h0)) id X hX s.W hs.1 h0 rfl
    obtain ⟨h5, h6⟩ := gauss_step hs h0 g2 g3
    refine ⟨_, ?_, h5, h6⟩
    change gaussIp1 floor X s = _
    rw [h1, gaussIp1]
    simp only [g1, bind, Except.bind]
  | ip2 pairs =>
    obtain ⟨v, hvd⟩ : ∃ v, v = gaussVariance (separate X s.W) := ⟨_, rfl⟩
    obtain ⟨h0, h1⟩ := hr
    have hG := gauss_majorised (F := F) v (hvd ▸ gaussVariance_pos h0)
    rw [← hvd] at h1
    obtain ⟨W', h2, h3, h4⟩ := foldlM_regular (auxIp2Pair np floor (gaussD v) X) (fun W => ∀ f, IsUnit (W f).det)
      (RegIp2 np floor (gaussD v) X) (lossIp (gaussG F v) X) pairs
      (fun W p hp hW hr => auxIp2Pair_step np hG floor X hX W hW hr.1 p (halg p hp) hr.2) s.W hs.1 h1
    obtain ⟨h5, h6⟩ := gauss_step hs h0 h3 (hvd ▸ h4)
    exact ⟨_, gaussIp2_ok (hvd ▸ h2), h5, h6⟩

/-- C89 for a first call of `AuxGaussIVA` with IP1 or IP2. -/
theorem C89_gauss_call [Nonempty F] (np : Numpy ℂ) {alg : FilterAlg n} (halg : alg.Valid) (floor : ℝ → ℝ) (X : Spec F n t)
    (hX : ∀ f, LinearIndependent ℂ (X f).row) (n_iter : ℕ) {sr : ScaleOpt} (hsr : AsksPB sr) (r : Fin n)
    (hreg : RegularRun (gaussUpdate np alg floor X) (RegGauss np alg floor X) n_iter ⟨fun _ => 1, fun _ _ => 1⟩) :
    ∃ W v ls, gaussCall np alg floor sr r X n_iter true none GaussObj.fresh = .ok ⟨.val W, .val v, .val (separate X W), ls⟩ ∧
      ls.length = n_iter + 1 ∧ ls.Pairwise (· ≥ ·) ∧ (∀ k j, 0 < v k j) ∧
      ls.head? = some (∑ k, Spatial.meanT fun j => binNorm X k j ^ 2) ∧ ∀ f j, ∑ k, separate X W f k j = X f r j := by
  obtain ⟨s, ls, h1, h2, h3, h4, h5, -⟩ := first_call (Inv := GaussInv) (loss := fun s => .ok (gaussLoss X s))
    (val := gaussLoss X) (fun _ _ => rfl) (fun s hs hr => gaussUpdate_step np halg floor X hX s hs hr) n_iter
    (s := ⟨fun _ => 1, fun _ _ => 1⟩) ⟨fun f => by simp, fun _ _ => one_pos⟩ hreg
  obtain ⟨W', g1, g2⟩ := finish_sum hsr r X h2.1
  refine ⟨W', s.variance, ls, ?_, h3, h4, h2.2, ?_, g2⟩
  · have h1' : baseCall (gaussUpdate np alg floor X) (fun s => .ok (gaussLoss X s)) true n_iter ⟨fun _ => 1, fun _ _ => 1⟩
        (GaussObj.fresh : GaussObj F n t).loss = .ok (s, ls) := h1
    have h0 : gaussReset alg X none (GaussObj.fresh : GaussObj F n t) = .ok ⟨fun _ => 1, fun _ _ => 1⟩ := by
      have : reset alg X none ⟨(GaussObj.fresh : GaussObj F n t).demix, (GaussObj.fresh : GaussObj F n t).output,
        (GaussObj.fresh : GaussObj F n t).loss⟩ = .ok fun _ => 1 := reset_fresh alg X
      simp only [gaussReset, this, bind, Except.bind]
    simp only [gaussCall, h0, h1', g1, bind, Except.bind]
  · have : separate X (fun _ => 1) = X := by funext f; simp [separate]
    rw [h5, gaussLoss, lossIp, ivaLoss, this]
    simp [gaussG]

/-- Two sources, two bins, two frames. -/
def exTwo : Spec (Fin 2) 2 2 := fun _ => !![1, 2; 2, 1]

theorem exTwo_indep (f : Fin 2) : LinearIndependent ℂ (exTwo f).row := by
  refine linearIndependent_rows_iff_isUnit.mpr ?_
  rw [isUnit_iff_isUnit_det, exTwo, det_fin_two, isUnit_iff_ne_zero]
  norm_num

theorem exTwo_sounds (k s : Fin 2) : 0 < binNorm (separate exTwo fun _ => 1) k s := by
  refine Real.sqrt_pos.mpr ?_
  fin_cases k <;> fin_cases s <;> norm_num [separate, exTwo, Fin.sum_univ_two]

/-- The hypotheses of `C89_call`, `C89_call_signal` and `C89_gauss_call` hold for one iteration. -/
example (np : Numpy ℂ) :
    (∃ o, call np .ip1 id laplaceG laplaceD (.bool true) 0 exTwo 1 true none Obj.fresh = .ok o ∧ o.loss.Pairwise (· ≥ ·)) ∧
    (∃ o, call np (.ip2 [(0, 1)]) id laplaceG laplaceD (.str "PB") 1 exTwo 1 true none Obj.fresh = .ok o ∧
      o.loss.Pairwise (· ≥ ·)) ∧
    (∃ o, callSignal np .iss1 id laplaceG laplaceD (.bool true) 0 exTwo 1 true none Obj.fresh = .ok o ∧
      o.loss.Pairwise (· ≥ ·)) ∧
    (∃ o, gaussCall np .ip1 id (.bool true) 0 exTwo 1 true none GaussObj.fresh = .ok o ∧ o.loss.Pairwise (· ≥ ·)) := by
  have hone : separate exTwo (fun _ => 1) = exTwo := by funext f; simp [separate]
  refine ⟨?_, ?_, ?_, ?_⟩
  · obtain ⟨W, ls, h1, -, h2, -⟩ := C89_call np (alg := .ip1) trivial laplace_majorised id exTwo exTwo_indep 1
      (sr := .bool true) (.inl rfl) 0 ⟨⟨exTwo_sounds, rfl⟩, fun _ _ => trivial⟩
    exact ⟨_, h1, h2⟩
  · obtain ⟨W, ls, h1, -, h2, -⟩ := C89_call np (alg := .ip2 [(0, 1)]) (by simp [FilterAlg.Valid]) laplace_majorised id exTwo
      exTwo_indep 1 (sr := .str "PB") (.inr (.inr (.inr rfl))) 1
      ⟨⟨⟨exTwo_sounds, rfl⟩, fun _ _ => trivial⟩, fun _ _ => trivial⟩
    exact ⟨_, h1, h2⟩
  · obtain ⟨W, ls, h1, -, h2, -⟩ := C89_call_signal np (alg := .iss1) trivial laplace_majorised id exTwo exTwo_indep 1
      (sr := .bool true) (.inl rfl) 0 ⟨⟨by rw [← hone]; exact exTwo_sounds, rfl⟩, fun _ _ => trivial⟩
    exact ⟨_, h1, h2⟩
  · obtain ⟨W, v, ls, h1, -, h2, -⟩ := C89_gauss_call np (alg := .ip1) trivial id exTwo exTwo_indep 1 (sr := .bool true)
      (.inl rfl) 0 ⟨⟨exTwo_sounds, rfl⟩, fun _ _ => trivial⟩
    exact ⟨_, h1, h2⟩

/-- A recording of one channel, one bin and one frame. -/
def exOne : Spec Unit 1 1 := fun _ => Matrix.of fun _ _ => 2

theorem exOne_norm : binNorm (separate exOne fun _ => 1) 0 0 = 2 := by
  simp [binNorm, separate, exOne]

theorem exOne_variance : gaussVariance (separate exOne fun _ => 1) 0 0 = 4 := by
  simp [gaussVariance, separate, exOne]
  norm_num

theorem exOne_step (np : Numpy ℂ) :
    gaussUpdate np .ip1 id exOne ⟨fun _ => 1, fun _ _ => 1⟩ = .ok ⟨fun _ => 1, gaussVariance (separate exOne fun _ => 1)⟩ := by
  have hU : wcov (weight id (gaussD (gaussVariance (separate exOne fun _ => 1))) (separate exOne fun _ => 1)) exOne
      = fun _ _ => 1 := by
    funext f k
    ext i j
    fin_cases i; fin_cases j; fin_cases k
    simp only [wcov, weight, gaussD, Spatial.meanT, Matrix.of_apply, Fin.zero_eta, Fin.isValue, exOne_norm, exOne_variance,
      Finset.univ_unique, Fin.default_eq_zero, Finset.sum_singleton, id]
    norm_num [exOne]
  have hrow : Iva.ip1Stack id (fun (_ : Unit) (_ : Fin 1) => (1 : Mat 1 ℂ)) (fun _ => 1) = .ok fun _ => 1 := by
    have h1 : Spatial.ip1Row id (fun _ : Fin 1 => (1 : Mat 1 ℂ)) 1 0 = .ok 1 := by
      have hs : Spatial.solveVec ((1 : Mat 1 ℂ) * 1) (Pi.single 0 1) = .ok fun _ => 1 := by
        rw [Spatial.solveVec, Spatial.npSolve, if_pos (by simp)]
        simp only [bind, Except.bind]
        congr 1
        funext i
        fin_cases i
        simp [Matrix.mul_apply]
      rw [Spatial.ip1Row]
      simp only [hs, bind, Except.bind]
      congr 1
      ext i j
      fin_cases i; fin_cases j
      simp [Spatial.hUh, dotProduct]
    rw [Iva.ip1Stack, List.finRange_succ]
    simp only [List.finRange_zero, List.map_nil, List.foldlM_cons, List.foldlM_nil]
    rw [Spatial.onBins_ok (fun _ => h1)]
    rfl
  simp only [gaussUpdate, gaussIp1, auxIp1, hU, hrow, bind, Except.bind]

/-- C89, finding: a resumed `AuxGaussIVA` call with `initial_call=True` (the default) and no further iteration changes neither
filter nor output but records a larger loss than the one the first call stopped at. -/
theorem C89_gauss_initial_call (np : Numpy ℂ) : ∃ o1 o2 : GaussObj Unit 1 1,
    gaussCall np .ip1 id (.bool false) 0 exOne 1 true none GaussObj.fresh = .ok o1 ∧
    gaussCall np .ip1 id (.bool false) 0 exOne 0 true none o1 = .ok o2 ∧ o2.demix = o1.demix ∧ o2.output = o1.output ∧
    o1.loss = [4, Real.log 4 + 1] ∧ o2.loss = [4, Real.log 4 + 1, 4] ∧ Real.log 4 + 1 < 4 := by
  have hone : separate exOne (fun _ => 1) = exOne := by funext f; simp [separate]
  have l1 : gaussLoss exOne ⟨fun _ => 1, fun _ _ => 1⟩ = 4 := by
    simp [gaussLoss, lossIp, ivaLoss, gaussG, Spatial.meanT, exOne_norm]
    norm_num
  have l2 : gaussLoss exOne ⟨fun _ => 1, gaussVariance (separate exOne fun _ => 1)⟩ = Real.log 4 + 1 := by
    simp [gaussLoss, lossIp, ivaLoss, gaussG, Spatial.meanT, exOne_norm, exOne_variance]
    norm_num
  have hn : AsksNone (.bool false) := .inl rfl
  have h0 : gaussReset .ip1 exOne none (GaussObj.fresh : GaussObj Unit 1 1) = .ok ⟨fun _ => 1, fun _ _ => 1⟩ := by
    have : reset .ip1 exOne none ⟨(GaussObj.fresh : GaussObj Unit 1 1).demix, (GaussObj.fresh : GaussObj Unit 1 1).output,
      (GaussObj.fresh : GaussObj Unit 1 1).loss⟩ = .ok fun _ => 1 := reset_fresh .ip1 exOne
    simp only [gaussReset, this, bind, Except.bind]
  refine ⟨⟨.val fun _ => 1, .val (gaussVariance (separate exOne fun _ => 1)), .val (separate exOne fun _ => 1),
    [4, Real.log 4 + 1]⟩,
    ⟨.val fun _ => 1, .val fun _ _ => 1, .val (separate exOne fun _ => 1), [4, Real.log 4 + 1, 4]⟩, ?_, ?_, rfl, rfl, rfl, rfl, ?_⟩
  · simp only [gaussCall, h0, baseCall, if_true, iterations, exOne_step, l1, l2, finish_none hn, bind, Except.bind]
    rfl
  · simp only [gaussCall, gaussReset_again, baseCall, if_true, iterations, l1, finish_none hn, bind, Except.bind]
    rfl
  · linarith [Real.log_lt_sub_one_of_pos (show (0 : ℝ) < 4 by norm_num) (by norm_num)]

end Verif.IvaCall

/-! ## `AuxFDICA` -/

namespace Verif.Fdica

open Matrix Scale Lifecycle Permutation Spatial
open IlrmaCall
open Ilrma (FilterAlg bind_ok)
open IvaCall (first_call finish_sum finish_none)
open FlooredCall (KnownAlign)

variable {B n t : ℕ}

/-- C89: alignment only reorders what a call of `AuxFDICA` returns without it: in every bin the same filters and signals in
another order, and the losses recorded are the same. Without scale restoration, afterwards no bin of the output fits better
to the bins before it in another order. -/
theorem C89_fdica_alignment (sort : Argsort) (np : Numpy ℂ) (alg : FilterAlg n) {opt : PermOpt}
    (hopt : opt = .bool true ∨ opt = .str "spectrogram_correlation") (floor G d : ℝ → ℝ) (sr : ScaleOpt) (r : Fin n)
    (hB : 0 < B) (X : Spec (Fin B) n t) (n_iter : ℕ) (ic : Bool) (kw : Option (Fin B → Mat n ℂ))
    (o : IvaCall.Obj (Fin B) n t) (W : Fin B → Mat n ℂ) (Y : Spec (Fin B) n t) (ls : List ℝ)
    (h : auxCall sort np alg (.bool false) floor G d sr r X n_iter ic kw o = .ok ⟨.val W, .val Y, ls⟩) :
    ∃ σ : Fin B → Equiv.Perm (Fin n), auxCall sort np alg opt floor G d sr r X n_iter ic kw o
      = .ok ⟨.val fun f => (W f).submatrix (σ f) id, .val fun f => (Y f).submatrix (σ f) id, ls⟩ ∧
      (AsksNone sr → ∃ (first : Fin B) (rest : List (Fin B)),
        IsOrder (fun (y : Fin t → ℂ) k => ‖y k‖) floor Y (first :: rest) ∧ σ first = 1 ∧
        Aligned (fun (y : Fin t → ℂ) k => ‖y k‖) floor (first :: rest) fun f => (Y f).submatrix (σ f) id) := by
  obtain ⟨W0, h0, h⟩ := bind_ok h
  obtain ⟨q, h1, h⟩ := bind_ok h
  obtain ⟨p, h2, h3⟩ := bind_ok h
  rw [C84_off sort _ (.inl rfl)] at h2
  obtain ⟨σ, first, rest, hσ, hO, h1', hA⟩ := C84_reorders sort opt hopt floor sr r X q.1 hB
  simp only [Except.ok.injEq, IvaCall.Obj.mk.injEq, Attr.val.injEq] at h3
  obtain ⟨rfl, rfl, rfl⟩ := h3
  refine ⟨σ, ?_, fun hsr => ?_⟩
  · rw [h2] at hσ
    simp only [auxCall, h0, h1, bind, Except.bind, hσ, Except.map]
    rfl
  · rw [finish_none hsr] at h2
    have e : separate X q.1 = p.1 := congrArg Prod.fst (Except.ok.inj h2)
    rw [e] at hO hA
    exact ⟨first, rest, hO, h1', hA⟩

/-- C89: `n_iter=0` with the keyword argument `demix_filter`, without alignment and scale restoration, returns that filter
applied to the recording. -/
theorem C89_fdica_keyword (sort : Argsort) (np : Numpy ℂ) (alg : FilterAlg n) {opt : PermOpt}
    (hopt : opt = .bool false ∨ opt = .str "") (floor G d : ℝ → ℝ) {sr : ScaleOpt} (hsr : AsksNone sr) (r : Fin n)
    (X : Spec (Fin B) n t) (W : Fin B → Mat n ℂ) (o : IvaCall.Obj (Fin B) n t) :
    auxCall sort np alg opt floor G d sr r X 0 false (some W) o = .ok ⟨.val W, .val fun f => W f * X f, o.loss⟩ := by
  have : auxReset X (some W) o = .ok W := rfl
  simp only [auxCall, this, baseCall, iterations, C84_off sort opt hopt, finish_none hsr, bind, Except.bind]
  rfl

/-- C89: without alignment and scale restoration two calls of `AuxFDICA` are one. -/
theorem C89_fdica_resume (sort : Argsort) (np : Numpy ℂ) (alg : FilterAlg n) {opt : PermOpt}
    (hopt : opt = .bool false ∨ opt = .str "") (floor G d : ℝ → ℝ) (sr : ScaleOpt) (hsr : AsksNone sr) (r : Fin n)
    (X : Spec (Fin B) n t) (a b : ℕ) (ic : Bool) (kw : Option (Fin B → Mat n ℂ)) (o : IvaCall.Obj (Fin B) n t) :
    (auxCall sort np alg opt floor G d sr r X a ic kw o).bind (auxCall sort np alg opt floor G d sr r X b false none)
      = auxCall sort np alg opt floor G d sr r X (a + b) ic kw o := by
  have e : ∀ (m : ℕ) (ic : Bool) (kw : Option (Fin B → Mat n ℂ)) (o : IvaCall.Obj (Fin B) n t),
      auxCall sort np alg opt floor G d sr r X m ic kw o = (auxReset X kw o).bind fun W =>
        (baseCall (auxUpdate np alg floor d X) (fun W => .ok (loss G X W)) ic m W o.loss).bind fun q =>
          .ok ⟨.val q.1, .val (separate X q.1), q.2⟩ := by
    intro m ic kw o
    simp only [auxCall, C84_off sort opt hopt, finish_none hsr, bind, Except.bind]
  rw [e, e]
  cases auxReset X kw o with
  | error _ => rfl
  | ok W =>
    simp only [Except.bind]
    rw [baseCall_add]
    cases baseCall (auxUpdate np alg floor d X) (fun W => .ok (loss G X W)) ic a W o.loss with
    | error _ => rfl
    | ok q =>
      simp only [Except.bind]
      rw [e]
      rfl

/-- Regularity of one update of `AuxFDICA`. -/
def RegAux (np : Numpy ℂ) (alg : FilterAlg n) (floor d : ℝ → ℝ) (X : Spec (Fin B) n t) : (Fin B → Mat n ℂ) → Prop :=
  match alg with
  | .ip1 => RegIp1 floor d X
  | .ip2 pairs => RegularFold (auxIp2Pair np floor d X) (RegIp2 np floor d X) pairs

theorem auxUpdate_step (np : Numpy ℂ) {alg : FilterAlg n} (halg : alg.Valid) {G d : ℝ → ℝ} (hG : Majorised G d)
    (floor : ℝ → ℝ) (X : Spec (Fin B) n t) (hX : ∀ f, LinearIndependent ℂ (X f).row) (W : Fin B → Mat n ℂ)
    (hW : ∀ f, IsUnit (W f).det) (hr : RegAux np alg floor d X W) :
    ∃ W', auxUpdate np alg floor d X W = .ok W' ∧ (∀ f, IsUnit (W' f).det) ∧ loss G X W' ≤ loss G X W := by
  cases alg with
  | ip1 => exact auxIp1_step hG floor X hX W hW hr
  | ip2 pairs =>
    exact foldlM_regular (auxIp2Pair np floor d X) (fun W => ∀ f, IsUnit (W f).det) (RegIp2 np floor d X) (loss G X) pairs
      (fun W p hp hW hr => auxIp2Pair_step np hG floor X hX W hW p (halg p hp) hr) W hW hr

/-- C89 for a first call of `AuxFDICA` with projection back, with or without alignment of the sources. -/
theorem C89_fdica_call (hB : 0 < B) (sort : Argsort) (np : Numpy ℂ) {alg : FilterAlg n} (halg : alg.Valid) {opt : PermOpt}
    (hopt : KnownAlign opt) {G d : ℝ → ℝ} (hG : Majorised G d) (floor : ℝ → ℝ) (X : Spec (Fin B) n t)
    (hX : ∀ f, LinearIndependent ℂ (X f).row) (n_iter : ℕ) {sr : ScaleOpt} (hsr : AsksPB sr) (r : Fin n)
    (hreg : RegularRun (auxUpdate np alg floor d X) (RegAux np alg floor d X) n_iter fun _ => 1) :
    ∃ W ls, auxCall sort np alg opt floor G d sr r X n_iter true none IvaCall.Obj.fresh
        = .ok ⟨.val W, .val (separate X W), ls⟩ ∧
      ls.length = n_iter + 1 ∧ ls.Pairwise (· ≥ ·) ∧ ls.head? = some (∑ f, ∑ k, meanT fun s => G ‖X f k s‖) ∧
      ∀ f j, ∑ k, separate X W f k j = X f r j := by
  obtain ⟨W, ls, h1, h2, h3, h4, h5, -⟩ := first_call (Inv := fun W : Fin B → Mat n ℂ => ∀ f, IsUnit (W f).det)
    (loss := fun W => .ok (loss G X W)) (val := loss G X) (fun _ _ => rfl)
    (fun W hW hr => auxUpdate_step np halg hG floor X hX W hW hr) n_iter (s := fun _ => 1) (fun f => by simp) hreg
  obtain ⟨W1, g1, g2⟩ := finish_sum hsr r X h2
  obtain ⟨W', k1, k2⟩ : ∃ W', finishAligned sort opt floor sr r X W = .ok (separate X W', W') ∧
      ∀ f j, ∑ k, separate X W' f k j = X f r j := by
    have hon : opt = .bool true ∨ opt = .str "spectrogram_correlation" →
        ∃ W', finishAligned sort opt floor sr r X W = .ok (separate X W', W') ∧
          ∀ f j, ∑ k, separate X W' f k j = X f r j := by
      intro h
      obtain ⟨σ, -, -, a1, -⟩ := C84_reorders sort opt h floor sr r X W hB
      refine ⟨rows σ W1, ?_, fun f j => ?_⟩
      · rw [a1, g1, separate_rows]
        rfl
      · rw [separate_rows, ← g2 f j]
        exact Equiv.sum_comp (σ f) fun k => separate X W1 f k j
    rcases hopt with h | h | h | h
    · exact hon (.inl h)
    · exact ⟨W1, by rw [C84_off sort opt (.inl h), g1], g2⟩
    · exact ⟨W1, by rw [C84_off sort opt (.inr h), g1], g2⟩
    · exact hon (.inr h)
  refine ⟨W', ls, ?_, h3, h4, ?_, k2⟩
  · have h1' : baseCall (auxUpdate np alg floor d X) (fun W => .ok (loss G X W)) true n_iter (fun _ => 1)
        (IvaCall.Obj.fresh : IvaCall.Obj (Fin B) n t).loss = .ok (W, ls) := h1
    have h0 : auxReset X none (IvaCall.Obj.fresh : IvaCall.Obj (Fin B) n t) = .ok fun _ => 1 := rfl
    simp only [auxCall, h0, h1', k1, bind, Except.bind]
  · have : separate X (fun _ => 1) = X := by funext f; simp [separate]
    rw [h5, loss, this]
    simp

theorem weight_rescale (c : Fin n → ℂ) (hc : ∀ k, c k ≠ 0) (Y : Matrix (Fin n) (Fin t) ℂ) :
    weight id laplaceD (mulRow c Y) = fun k s => ‖c k‖⁻¹ * weight id laplaceD Y k s := by
  funext k s
  have h1 := (norm_pos_iff.mpr (hc k)).ne'
  simp only [weight, laplaceD, id, mulRow, Matrix.of_apply, norm_mul]
  by_cases hb : ‖Y k s‖ = 0
  · simp [hb]
  · field_simp

/-- Filters that agree up to the scale of every row. -/
def ScaleRel (W W' : Fin B → Mat n ℂ) : Prop :=
  ∃ c : Fin B → Fin n → ℂ, (∀ f k, c f k ≠ 0) ∧ W' = fun f => mulRow (c f) (W f)

theorem auxIp1_rescale (X : Spec (Fin B) n t) (W W' : Fin B → Mat n ℂ) (h : ScaleRel W W') :
    ExRel ScaleRel (auxIp1 id laplaceD X W) (auxIp1 id laplaceD X W') := by
  obtain ⟨c, hc, rfl⟩ := h
  have e : (fun f => Iva.wcov (weight id laplaceD (separate X (fun f => mulRow (c f) (W f)) f)) X f)
      = fun f k => ((‖c f k‖⁻¹ : ℝ) : ℂ) • Iva.wcov (weight id laplaceD (separate X W f)) X f k := by
    funext f k
    have : separate X (fun f => mulRow (c f) (W f)) f = mulRow (c f) (separate X W f) := by
      simp only [separate, mulRow_eq, Matrix.mul_assoc]
    rw [this, weight_rescale (c f) (hc f)]
    ext i j
    simp only [Iva.wcov, meanT, Matrix.of_apply, Matrix.smul_apply, smul_eq_mul]
    rw [← mul_div_assoc, Finset.mul_sum]
    congr 1
    refine Finset.sum_congr rfl fun s _ => ?_
    push_cast
    ring
  have hp : ∀ f k, 0 < ‖c f k‖⁻¹ := fun f k => inv_pos.mpr (norm_pos_iff.mpr (hc f k))
  rw [auxIp1, auxIp1]
  simp only [e]
  rw [ip1Stack_rescale (fun f k => ‖c f k‖⁻¹) c hp hc]
  exact ExRel.map _ fun W => ⟨fun f k => c f k / ‖c f k‖ / Real.sqrt (‖c f k‖⁻¹), fun f k =>
    div_ne_zero (div_ne_zero (hc f k) (by exact_mod_cast (norm_pos_iff.mpr (hc f k)).ne'))
      (by exact_mod_cast (Real.sqrt_pos.mpr (hp f k)).ne'), rfl⟩

/-- C89: `AuxLaplaceFDICA` with IP1 and without flooring does resume through scale restoration: although the second call starts
from rescaled filters, it reports the filters and outputs of one call with all the iterations, for projection back and for
the minimal distortion principle, as long as the filters reported by the first call are invertible. (Its losses are those of
other filters.) -/
theorem C89_fdica_rescaled (sort : Argsort) (np : Numpy ℂ) {opt : PermOpt} (hopt : opt = .bool false ∨ opt = .str "")
    (sr : ScaleOpt) (hsr : sr.truthy = true) (r : Fin n) (X : Spec (Fin B) n t) (a b : ℕ) (ic ic' : Bool)
    (kw : Option (Fin B → Mat n ℂ)) (o o1 : IvaCall.Obj (Fin B) n t) (V : Fin B → Mat n ℂ)
    (h : auxCall sort np .ip1 opt id laplaceG laplaceD sr r X a ic kw o = .ok o1) (hV : o1.demix = .val V)
    (hVu : ∀ f, IsUnit (V f).det) :
    ExRel (fun o2 o3 => o2.demix = o3.demix ∧ o2.output = o3.output)
      (auxCall sort np .ip1 opt id laplaceG laplaceD sr r X b ic' none o1)
      (auxCall sort np .ip1 opt id laplaceG laplaceD sr r X (a + b) ic kw o) := by
  have hl : ∀ (m : ℕ) (ic : Bool) (W : Fin B → Mat n ℂ) (ls : List ℝ), ∃ vs : List ℝ,
      baseCall (auxUpdate np .ip1 id laplaceD X) (fun W => .ok (loss laplaceG X W)) ic m W ls
        = Except.map (fun W' => (W', ls ++ vs)) (iterM (auxIp1 id laplaceD X) m W) := by
    have hit : ∀ (m : ℕ) (W : Fin B → Mat n ℂ) (ls : List ℝ), ∃ vs : List ℝ,
        iterations (auxUpdate np .ip1 id laplaceD X) (fun W => .ok (loss laplaceG X W)) m W ls
          = Except.map (fun W' => (W', ls ++ vs)) (iterM (auxIp1 id laplaceD X) m W) := by
      intro m
      induction m with
      | zero => exact fun W ls => ⟨[], by simp [iterations, iterM, Except.map]⟩
      | succ m ih =>
        intro W ls
        simp only [iterations, iterM, auxUpdate, bind, Except.bind]
        cases auxIp1 id laplaceD X W with
        | error e => exact ⟨[], rfl⟩
        | ok W1 =>
          obtain ⟨vs, hvs⟩ := ih W1 (ls ++ [loss laplaceG X W1])
          refine ⟨loss laplaceG X W1 :: vs, ?_⟩
          change iterations (auxUpdate np .ip1 id laplaceD X) (fun W => .ok (loss laplaceG X W)) m W1
            (ls ++ [loss laplaceG X W1]) = _
          rw [hvs, List.append_assoc]
          rfl
    intro m ic W ls
    cases ic with
    | false =>
      obtain ⟨vs, hvs⟩ := hit m W ls
      exact ⟨vs, hvs⟩
    | true =>
      obtain ⟨vs, hvs⟩ := hit m W (ls ++ [loss laplaceG X W])
      refine ⟨loss laplaceG X W :: vs, ?_⟩
      simp only [baseCall, if_true, bind, Except.bind]
      rw [hvs, List.append_assoc]
      rfl
  have e : ∀ (m : ℕ) (ic : Bool) (kw : Option (Fin B → Mat n ℂ)) (o : IvaCall.Obj (Fin B) n t),
      ExRel (fun p (o2 : IvaCall.Obj (Fin B) n t) => o2.demix = .val p.2 ∧ o2.output = .val p.1)
        ((auxReset X kw o).bind fun W => (iterM (auxIp1 id laplaceD X) m W).bind (finish sr r X))
        (auxCall sort np .ip1 opt id laplaceG laplaceD sr r X m ic kw o) := by
    intro m ic kw o
    rw [auxCall]
    cases auxReset X kw o with
    | error _ => exact rfl
    | ok W =>
      obtain ⟨vs, hvs⟩ := hl m ic W o.loss
      simp only [hvs, bind, Except.bind, C84_off sort opt hopt]
      cases iterM (auxIp1 id laplaceD X) m W with
      | error _ => exact rfl
      | ok W' =>
        simp only [Except.map]
        cases finish sr r X W' with
        | error _ => exact rfl
        | ok p => exact ⟨rfl, rfl⟩
  obtain ⟨W0, h1, h2⟩ := bind_ok h
  obtain ⟨vs, hvs⟩ := hl a ic W0 o.loss
  rw [hvs] at h2
  obtain ⟨W1, h3⟩ : ∃ W1, iterM (auxIp1 id laplaceD X) a W0 = .ok W1 := by
    cases hc : iterM (auxIp1 id laplaceD X) a W0 with
    | error _ => rw [hc] at h2; cases h2
    | ok W1 => exact ⟨W1, rfl⟩
  rw [h3] at h2
  obtain ⟨⟨Y, V'⟩, h4, h5⟩ := bind_ok (show (finishAligned sort opt id sr r X W1).bind _ = _ from h2)
  rw [C84_off sort opt hopt] at h4
  cases h5
  cases hV
  obtain ⟨-, c, hc⟩ := finish_diag h4
  have hc0 : ∀ f k, c f k ≠ 0 := by
    intro f k hk
    have := hVu f
    rw [hc f, det_mul, det_diagonal] at this
    have h0 := (isUnit_of_mul_isUnit_left this).ne_zero
    exact h0 (Finset.prod_eq_zero (Finset.mem_univ k) hk)
  have hrel : ScaleRel W1 V := ⟨c, hc0, funext fun f => by rw [hc f, mulRow_eq]⟩
  have hrun := ExRel.iterM (fun W W' => auxIp1_rescale X W W') b hrel
  have hfin : ((iterM (auxIp1 id laplaceD X) b V).bind (finish sr r X)) = (iterM (auxIp1 id laplaceD X) b W1).bind (finish sr r X) := by
    cases h6 : iterM (auxIp1 id laplaceD X) b W1 with
    | error e =>
      rw [h6] at hrun
      cases h7 : iterM (auxIp1 id laplaceD X) b V with
      | error e' => rw [h7] at hrun; rw [show e = e' from hrun]
      | ok _ => rw [h7] at hrun; exact hrun.elim
    | ok U =>
      rw [h6] at hrun
      cases h7 : iterM (auxIp1 id laplaceD X) b V with
      | error e' => rw [h7] at hrun; exact hrun.elim
      | ok U' =>
        rw [h7] at hrun
        obtain ⟨q, hq, rfl⟩ := (hrun : ScaleRel U U')
        exact finish_rescale sr hsr r q hq X U
  have hadd : ∀ (a b : ℕ) (W : Fin B → Mat n ℂ), iterM (auxIp1 id laplaceD X) (a + b) W
      = (iterM (auxIp1 id laplaceD X) a W).bind (iterM (auxIp1 id laplaceD X) b) := by
    intro a
    induction a with
    | zero => intro b W; rw [Nat.zero_add]; rfl
    | succ a ih =>
      intro b W
      rw [Nat.add_right_comm]
      simp only [iterM, bind, Except.bind]
      cases auxIp1 id laplaceD X W with
      | error _ => rfl
      | ok W1 => exact ih b W1
  have e1 := e b ic' none ⟨.val V, .val Y, o.loss ++ vs⟩
  have e2 := e (a + b) ic kw o
  rw [h1] at e2
  rw [show auxReset X none (⟨.val V, .val Y, o.loss ++ vs⟩ : IvaCall.Obj (Fin B) n t) = .ok V from rfl] at e1
  simp only [Except.bind] at e1 e2
  rw [hadd, h3] at e2
  change ExRel _ ((iterM (auxIp1 id laplaceD X) b V).bind (finish sr r X)) _ at e1
  change ExRel _ ((iterM (auxIp1 id laplaceD X) b W1).bind (finish sr r X)) _ at e2
  rw [hfin] at e1
  generalize (iterM (auxIp1 id laplaceD X) b W1).bind (finish sr r X) = x at e1 e2
  revert e1 e2
  generalize auxCall sort np .ip1 opt id laplaceG laplaceD sr r X b ic' none _ = y
  generalize auxCall sort np .ip1 opt id laplaceG laplaceD sr r X (a + b) ic kw o = z
  intro e1 e2
  cases x <;> cases y <;> cases z <;> simp only [ExRel] at e1 e2 ⊢
  · exact e1.symm.trans e2
  · exact ⟨e1.1.trans e2.1.symm, e1.2.trans e2.2.symm⟩

/-- One source with a sound in every frame and bin: every first call succeeds with an invertible filter, and so every pair of
calls gives what one call gives. -/
example (sort : Argsort) (np : Numpy ℂ) (x : Spec (Fin 2) 1 3) (hx : ∀ f s, x f 0 s ≠ 0) (a b : ℕ) : ∃ o1,
    auxCall sort np .ip1 (.bool false) id laplaceG laplaceD (.bool true) 0 x a true none IvaCall.Obj.fresh = .ok o1 ∧
    ExRel (fun o2 o3 => o2.demix = o3.demix ∧ o2.output = o3.output)
      (auxCall sort np .ip1 (.bool false) id laplaceG laplaceD (.bool true) 0 x b true none o1)
      (auxCall sort np .ip1 (.bool false) id laplaceG laplaceD (.bool true) 0 x (a + b) true none IvaCall.Obj.fresh) := by
  have hx' : ∀ f, LinearIndependent ℂ (x f).row := by
    intro f
    rw [Fintype.linearIndependent_iff]
    intro g hg i
    have := congrFun hg 0
    simpa [Subsingleton.elim i 0, hx f 0] using this
  have hr : ∀ W : Fin 2 → Mat 1 ℂ, (∀ f, IsUnit (W f).det) → RegIp1 id laplaceD x W := by
    refine fun W hW => ⟨fun f k s => ?_, rfl⟩
    have h0 := (hW f).ne_zero
    rw [det_fin_one] at h0
    rw [Subsingleton.elim k 0]
    simpa [separate, mul_apply] using ⟨h0, hx f s⟩
  obtain ⟨W, ls, h1, -, -, -, h2⟩ := C89_fdica_call (by norm_num) sort np (alg := .ip1) trivial (opt := .bool false)
    (.inr (.inl rfl)) laplace_majorised id x hx' a (sr := .bool true) (.inl rfl) 0
    (regularRun_of_inv (fun W => ∀ f, IsUnit (W f).det) hr (fun W W' hW h => by
      obtain ⟨W'', g1, g2, -⟩ := auxIp1_step laplace_majorised id x hx' W hW (hr W hW)
      rw [show auxUpdate np .ip1 id laplaceD x W = auxIp1 id laplaceD x W from rfl, g1] at h
      cases h
      exact g2) _ _ (fun _ => by simp))
  refine ⟨_, h1, C89_fdica_rescaled sort np (.inl rfl) (.bool true) rfl 0 x a b true true none _ _ W h1 rfl fun f => ?_⟩
  have := h2 f 0
  simp only [separate, mul_apply, Finset.univ_unique, Fin.default_eq_zero, Fin.isValue, Finset.sum_singleton] at this
  rw [det_fin_one, isUnit_iff_ne_zero]
  intro h0
  rw [h0, zero_mul] at this
  exact hx f 0 this.symm

end Verif.Fdica
