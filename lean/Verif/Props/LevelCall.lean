import Verif.Props.LevelAligned
import Verif.Props.MicrophonesAll

/-! # C72 for complete calls of AuxLaplaceIVA and AuxGaussIVA -/

namespace Verif.LevelCall

open Matrix Spatial Scale Iva Lifecycle Relabel
open IlrmaCall (baseCall)

variable {F : Type} [Fintype F] {n t : ℕ}

/-- What follows the iterations does not see the recorded losses. -/
theorem baseCall_end {σ α : Type} (step : σ → Except PyErr σ) (val : σ → ℝ) (ic : Bool) (k : ℕ) (s : σ) (ls : List ℝ)
    (fin : σ → Except PyErr α) :
    ((baseCall step (fun s => .ok (val s)) ic k s ls).bind fun p => fin p.1) = (iterM step k s).bind fin := by
  obtain ⟨L, hL⟩ := Fdica.baseCall_iterM step val ic k s ls
  rw [hL]
  cases iterM step k s <;> rfl

omit [Fintype F] in
theorem reset_gain (alg : Ilrma.FilterAlg n) (X X' : Spec F n t) (kw : Option (F → Mat n ℂ)) (o : IvaCall.Obj F n t) :
    IvaCall.reset alg X kw o = IvaCall.reset alg X' kw o := by
  cases alg <;> cases kw <;> rcases o with ⟨d, y, l⟩ <;> cases d <;> rfl

/-- C72 for calls of `AuxLaplaceIVA` with IP1, of a new object or of one that has been called before. -/
theorem C72_laplaceIva_call (np : Numpy ℂ) (G : Fin n → Fin t → ℝ → ℝ) (alpha : ℝ) (h0 : 0 < alpha) (a : F → ℂ)
    (ha : ∀ f, ‖a f‖ = alpha) (sr : ScaleOpt) (hsr : sr.truthy = true) (r : Fin n) (X : Spec F n t) (n_iter : ℕ) (ic : Bool)
    (kw : Option (F → Mat n ℂ)) (o : IvaCall.Obj F n t) :
    (IvaCall.call np .ip1 id G laplaceD sr r (fun f => a f • X f) n_iter ic kw o).map (fun o => (o.demix, o.output))
      = (IvaCall.call np .ip1 id G laplaceD sr r X n_iter ic kw o).map fun o =>
        (o.demix, mapA (fun Y f => a f • Y f) o.output) := by
  rw [IvaCall.call, IvaCall.call, reset_gain .ip1 _ X]
  cases IvaCall.reset .ip1 X kw o with
  | error e => rfl
  | ok W =>
    have h := C72_laplace_ip1 alpha h0 a ha sr hsr r X W n_iter
    have e1 := baseCall_end (IvaCall.update np .ip1 id laplaceD X) (lossIp G X) ic n_iter W o.loss (finish sr r X)
    have e2 := baseCall_end (IvaCall.update np .ip1 id laplaceD fun f => a f • X f) (lossIp G fun f => a f • X f) ic n_iter W
      o.loss (finish sr r fun f => a f • X f)
    have h' := (e2.trans h).trans (congrArg _ e1.symm)
    simp only [bind, Except.bind] at h' ⊢
    generalize baseCall (IvaCall.update np .ip1 id laplaceD X) _ ic n_iter W o.loss = p at h' ⊢
    generalize baseCall (IvaCall.update np .ip1 id laplaceD fun f => a f • X f) _ ic n_iter W o.loss = q at h' ⊢
    cases p with
    | error e =>
      cases q with
      | error e' => cases h'; rfl
      | ok q =>
        simp only [Except.map] at h' ⊢
        rw [h']
    | ok p =>
      cases q with
      | error e' =>
        simp only [Except.map] at h' ⊢
        cases e3 : finish sr r X p.1 with
        | error e => rw [e3] at h'; cases h'; rfl
        | ok z => rw [e3] at h'; exact nomatch h'
      | ok q =>
        simp only [Except.map] at h' ⊢
        rw [h']
        cases finish sr r X p.1 <;> rfl

/-- C72 for calls of `AuxGaussIVA` with IP1. -/
theorem C72_gaussIva_call (np : Numpy ℂ) (alpha : ℝ) (h0 : 0 < alpha) (a : F → ℂ) (ha : ∀ f, ‖a f‖ = alpha) (sr : ScaleOpt)
    (hsr : sr.truthy = true) (r : Fin n) (X : Spec F n t) (n_iter : ℕ) (ic : Bool) (kw : Option (F → Mat n ℂ))
    (o : IvaCall.GaussObj F n t) :
    (IvaCall.gaussCall np .ip1 id sr r (fun f => a f • X f) n_iter ic kw o).map (fun o => (o.demix, o.output))
      = (IvaCall.gaussCall np .ip1 id sr r X n_iter ic kw o).map fun o => (o.demix, mapA (fun Y f => a f • Y f) o.output) := by
  rw [IvaCall.gaussCall, IvaCall.gaussCall, IvaCall.gaussReset, IvaCall.gaussReset, reset_gain .ip1 _ X]
  cases IvaCall.reset .ip1 X kw ⟨o.demix, o.output, o.loss⟩ with
  | error e => rfl
  | ok W =>
    have h := C72_gauss_ip1 alpha h0 a ha sr hsr r X ⟨W, fun _ _ => 1⟩ n_iter
    have e1 := baseCall_end (IvaCall.gaussUpdate np .ip1 id X) (gaussLoss X) ic n_iter ⟨W, fun _ _ => 1⟩ o.loss
      fun s => finish sr r X s.W
    have e2 := baseCall_end (IvaCall.gaussUpdate np .ip1 id fun f => a f • X f) (gaussLoss fun f => a f • X f) ic n_iter
      ⟨W, fun _ _ => 1⟩ o.loss fun s => finish sr r (fun f => a f • X f) s.W
    have h' := (e2.trans h).trans (congrArg _ e1.symm)
    simp only [bind, Except.bind] at h' ⊢
    generalize baseCall (IvaCall.gaussUpdate np .ip1 id X) _ ic n_iter _ o.loss = p at h' ⊢
    generalize baseCall (IvaCall.gaussUpdate np .ip1 id fun f => a f • X f) _ ic n_iter _ o.loss = q at h' ⊢
    cases p with
    | error e =>
      cases q with
      | error e' => cases h'; rfl
      | ok q =>
        simp only [Except.map] at h' ⊢
        rw [h']
    | ok p =>
      cases q with
      | error e' =>
        simp only [Except.map] at h' ⊢
        cases e3 : finish sr r X p.1.W with
        | error e => rw [e3] at h'; cases h'; rfl
        | ok z => rw [e3] at h'; exact nomatch h'
      | ok q =>
        simp only [Except.map] at h' ⊢
        rw [h']
        cases finish sr r X p.1.W <;> rfl

omit [Fintype F] in
theorem gram_gain (a : F → ℂ) (ha : ∀ f, a f ≠ 0) (X : Spec F n t) :
    (∀ f, IsUnit ((a f • X f) * (a f • X f)ᴴ).det) ↔ ∀ f, IsUnit (X f * (X f)ᴴ).det := by
  refine forall_congr' fun f => ?_
  rw [conjTranspose_smul, Matrix.smul_mul, Matrix.mul_smul, smul_smul, det_smul, IsUnit.mul_iff]
  exact and_iff_right (IsUnit.pow _ (mul_ne_zero (ha f) (star_ne_zero.mpr (ha f))).isUnit)

theorem iterations_error {σ : Type} (step : σ → σ) (loss : σ → Except PyErr ℝ) (e : PyErr) (hl : ∀ s, loss s = .error e)
    (k : ℕ) (hk : k ≠ 0) (s : σ) (ls : List ℝ) : IlrmaCall.iterations (fun s => .ok (step s)) loss k s ls = .error e := by
  cases k with
  | zero => exact absurd rfl hk
  | succ k => simp only [IlrmaCall.iterations, bind, Except.bind, hl]

theorem iterM_ok {σ : Type} (step : σ → σ) (k : ℕ) (s : σ) : iterM (fun s => .ok (step s)) k s = .ok (step^[k] s) := by
  induction k generalizing s with
  | zero => rfl
  | succ k ih =>
    simp only [iterM, bind, Except.bind, Function.iterate_succ_apply]
    exact ih (step s)

open Classical in
/-- The end of a call with ISS1: the recorded losses decide only whether it raises. -/
theorem signal_end (np : Numpy ℂ) (G : Fin n → Fin t → ℝ → ℝ) (X Y : Spec F n t) (ic : Bool) (n_iter : ℕ) (ls : List ℝ)
    (sr : ScaleOpt) (r : Fin n) :
    ((baseCall (IvaCall.updateY np .iss1 id laplaceD) (lossFree G X) ic n_iter Y ls).bind fun p => finishFree sr r X p.1)
      = if (∀ f, IsUnit (X f * (X f)ᴴ).det) ∨ (ic = false ∧ n_iter = 0) then finishFree sr r X ((auxIss1 id laplaceD)^[n_iter] Y)
        else .error .linalg := by
  have hu : IvaCall.updateY np .iss1 id (laplaceD (n := n) (t := t)) = fun Y : Spec F n t => .ok (auxIss1 id laplaceD Y) := rfl
  by_cases hX : ∀ f, IsUnit (X f * (X f)ᴴ).det
  · rw [if_pos (.inl hX)]
    have hl : lossFree G X = fun Y => .ok (ivaLoss G Y fun f => Y f * (X f)ᴴ * (X f * (X f)ᴴ)⁻¹) := by
      funext Y
      rw [lossFree, npInvB, if_pos hX]
      rfl
    rw [hl, baseCall_end, hu, iterM_ok]
    rfl
  · have hl : ∀ Y, lossFree G X Y = .error .linalg := by
      intro Y
      rw [lossFree, npInvB, if_neg hX]
      rfl
    cases ic with
    | true =>
      rw [if_neg fun h => h.elim hX fun h => nomatch h.1]
      simp only [baseCall, if_true, hl, bind, Except.bind]
    | false =>
      by_cases hk : n_iter = 0
      · subst hk
        rw [if_pos (.inr ⟨rfl, rfl⟩)]
        rfl
      · rw [if_neg fun h => h.elim hX fun h => hk h.2]
        have := iterations_error (auxIss1 id (laplaceD (n := n) (t := t)) (F := F)) (lossFree G X) .linalg hl n_iter hk Y ls
        simp only [baseCall, Bool.false_eq_true, if_false, hu, this, Except.bind]

/-- C72 for calls of `AuxLaplaceIVA` with ISS1, of a new object or of one that has been called before. -/
theorem C72_laplaceIva_signal_call (np : Numpy ℂ) (G : Fin n → Fin t → ℝ → ℝ) (alpha : ℝ) (h0 : 0 < alpha) (a : F → ℂ)
    (ha : ∀ f, ‖a f‖ = alpha) (sr : ScaleOpt) (hsr : sr.truthy = true) (r : Fin n) (X : Spec F n t) (n_iter : ℕ) (ic : Bool)
    (kw : Option (F → Mat n ℂ)) (o : IvaCall.Obj F n t) :
    (IvaCall.callSignal np .iss1 id G laplaceD sr r (fun f => a f • X f) n_iter ic kw o).map (fun o => (o.demix, o.output))
      = (IvaCall.callSignal np .iss1 id G laplaceD sr r X n_iter ic kw o).map fun o =>
        (o.demix, mapA (fun Y f => a f • Y f) o.output) := by
  have ha0 : ∀ f, a f ≠ 0 := fun f h => by
    have := ha f
    rw [h, norm_zero] at this
    exact h0.ne this
  have hreset : (∃ e, ∀ X : Spec F n t, Lifecycle.reset (IlrmaCall.labelY (n := n) .iss1) X kw ⟨o.demix, o.output⟩ = .error e) ∨
      ∃ W, ∀ X : Spec F n t, Lifecycle.reset (IlrmaCall.labelY (n := n) .iss1) X kw ⟨o.demix, o.output⟩ = .ok (none, separate X W) := by
    rcases o with ⟨d, y, l⟩
    cases kw with
    | some W => exact .inr ⟨W, fun _ => rfl⟩
    | none =>
      cases d with
      | absent => exact .inr ⟨fun _ => 1, fun _ => rfl⟩
      | none => exact .inl ⟨_, fun _ => rfl⟩
      | val W => exact .inr ⟨W, fun _ => rfl⟩
  rw [IvaCall.callSignal, IvaCall.callSignal]
  rcases hreset with ⟨e, he⟩ | ⟨W, hW⟩
  · rw [he, he]
    rfl
  rw [hW, hW]
  have h := C72_laplace_iss1 alpha h0 a ha sr hsr r X W n_iter
  have e1 := signal_end np G X (separate X W) ic n_iter o.loss sr r
  have e2 := signal_end np G (fun f => a f • X f) (separate (fun f => a f • X f) W) ic n_iter o.loss sr r
  have h' : ((baseCall (IvaCall.updateY np .iss1 id laplaceD) (lossFree G fun f => a f • X f) ic n_iter
        (separate (fun f => a f • X f) W) o.loss).bind fun p => finishFree sr r (fun f => a f • X f) p.1)
      = Except.map (fun Y f => a f • Y f) ((baseCall (IvaCall.updateY np .iss1 id laplaceD) (lossFree G X) ic n_iter
        (separate X W) o.loss).bind fun p => finishFree sr r X p.1) := by
    rw [e1, e2, h]
    by_cases hc : (∀ f, IsUnit (X f * (X f)ᴴ).det) ∨ (ic = false ∧ n_iter = 0)
    · rw [if_pos hc, if_pos (hc.imp_left (gram_gain a ha0 X).mpr)]
    · rw [if_neg hc, if_neg fun h => hc (h.imp_left (gram_gain a ha0 X).mp)]
      rfl
  simp only [bind, Except.bind] at h' ⊢
  generalize baseCall (IvaCall.updateY np .iss1 id laplaceD) (lossFree G X) ic n_iter _ o.loss = p at h' ⊢
  generalize baseCall (IvaCall.updateY np .iss1 id laplaceD) (lossFree G fun f => a f • X f) ic n_iter _ o.loss = q at h' ⊢
  cases p with
  | error e =>
    cases q with
    | error e' => cases h'; rfl
    | ok q =>
      simp only [Except.map] at h' ⊢
      rw [h']
  | ok p =>
    cases q with
    | error e' =>
      simp only [Except.map] at h' ⊢
      cases e3 : finishFree sr r X p.1 with
      | error e => rw [e3] at h'; cases h'; rfl
      | ok z => rw [e3] at h'; exact nomatch h'
    | ok q =>
      simp only [Except.map] at h' ⊢
      rw [h']
      cases finishFree sr r X p.1 <;> rfl

/-- A recording turned up by a factor of five and with opposite polarity. -/
example (np : Numpy ℂ) (X : Spec (Fin 3) 2 4) :
    (IvaCall.call np .ip1 id laplaceG laplaceD (.bool true) 0 (fun f => (-5 : ℂ) • X f) 20 true none .fresh).map
        (fun o => (o.demix, o.output))
      = (IvaCall.call np .ip1 id laplaceG laplaceD (.bool true) 0 X 20 true none .fresh).map fun o =>
        (o.demix, mapA (fun Y f => (-5 : ℂ) • Y f) o.output) :=
  C72_laplaceIva_call np laplaceG 5 (by norm_num) (fun _ => -5) (fun _ => by norm_num) (.bool true) rfl 0 X 20 true none .fresh

/-- The same with ISS1 and the minimal distortion principle, each bin with its own phase. -/
example (np : Numpy ℂ) (X : Spec (Fin 3) 2 4) (W : Fin 3 → Mat 2 ℂ) :
    (IvaCall.callSignal np .iss1 id laplaceG laplaceD (.str "MDP") 1 (fun f => (![2, -2, 2 * Complex.I] f : ℂ) • X f) 20 true (some W)
        .fresh).map (fun o => (o.demix, o.output))
      = (IvaCall.callSignal np .iss1 id laplaceG laplaceD (.str "MDP") 1 X 20 true (some W) .fresh).map fun o =>
        (o.demix, mapA (fun Y f => (![2, -2, 2 * Complex.I] f : ℂ) • Y f) o.output) :=
  C72_laplaceIva_signal_call np laplaceG 2 two_pos ![2, -2, 2 * Complex.I] (fun f => by fin_cases f <;> simp) (.str "MDP") rfl 1 X 20
    true (some W) .fresh

end Verif.LevelCall
