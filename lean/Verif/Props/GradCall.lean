import Verif.Model.GradCall
import Verif.Props.Fast
import Verif.Props.IvaCall
import Verif.Props.Lifecycle

/-!
# C93: calls of the gradient methods, FastICA, FastIVA and FasterIVA
-/

set_option linter.unusedSectionVars false

namespace Verif.GradCall

open Matrix Scale Grad Lifecycle
open _root_.Verif.Spatial (onBins)
open Ilrma (bind_ok)
open IlrmaCall
open scoped ComplexOrder

variable {𝕜 : Type} [RCLike 𝕜] {F : Type} [Fintype F] {n t : ℕ}

/-! ## Resuming -/

private theorem reset_again (W : F → Mat n 𝕜) (Y : Attr (Data 𝕜 F n t)) (ls : List ℝ) :
    reset none ⟨.val W, Y, ls⟩ = .ok W := rfl

private theorem resume_of_shape {σ : Type} {f : ℕ → Bool → Option (F → Mat n 𝕜) → Obj 𝕜 F n t → Except PyErr (Obj 𝕜 F n t)}
    {step : σ → Except PyErr σ} {loss : σ → Except PyErr ℝ} {inj : (F → Mat n 𝕜) → σ} {proj : σ → F → Mat n 𝕜}
    {out : σ → Data 𝕜 F n t}
    (e : ∀ m ic kw o, f m ic kw o = (reset kw o).bind fun W => (baseCall step loss ic m (inj W) o.loss).bind fun q =>
      .ok ⟨.val (proj q.1), .val (out q.1), q.2⟩) (a b : ℕ)
    (hb : ∀ s ls, iterations step loss b (inj (proj s)) ls = iterations step loss b s ls) (ic : Bool)
    (kw : Option (F → Mat n 𝕜)) (o : Obj 𝕜 F n t) : (f a ic kw o).bind (f b false none) = f (a + b) ic kw o := by
  rw [e, e]
  cases reset kw o with
  | error _ => rfl
  | ok W =>
    simp only [Except.bind]
    rw [baseCall_add]
    cases baseCall step loss ic a (inj W) o.loss with
    | error _ => rfl
    | ok q =>
      simp only [Except.bind]
      rw [e, reset_again]
      simp only [Except.bind]
      rw [baseCall_false, hb]

/-- C93: two calls of `GradICA` or `NaturalGradICA`, the second with `initial_call=False`, are one call with all the
iterations: same outputs, filters and losses, same exception. -/
theorem C93_resume_ica (kind : Kind) (step_size : ℝ) (holonomic : Bool) (contrast : Data ℝ Unit n t → Fin n → Fin t → ℝ)
    (score : Data ℝ Unit n t → Data ℝ Unit n t) (X : Data ℝ Unit n t) (a b : ℕ) (ic : Bool) (kw : Option (Unit → Mat n ℝ))
    (o : Obj ℝ Unit n t) :
    (icaCall kind step_size holonomic contrast score X a ic kw o).bind
        (icaCall kind step_size holonomic contrast score X b false none)
      = icaCall kind step_size holonomic contrast score X (a + b) ic kw o :=
  resume_of_shape (f := icaCall kind step_size holonomic contrast score X) (inj := id) (proj := id) (out := sep X)
    (fun _ _ _ _ => rfl) a b (fun _ _ => rfl) ic kw o

/-- C93: the same for `FastICA`, although the recording is whitened again at the second call. -/
theorem C93_resume_fastica (np : Numpy ℝ) (contrast : ℝ → ℝ) (score d_score : (Fin t → ℝ) → Fin t → ℝ)
    (X : Matrix (Fin n) (Fin t) ℝ) (a b : ℕ) (ic : Bool) (kw : Option (Mat n ℝ)) (o : Obj ℝ Unit n t) :
    (fastIcaCall np contrast score d_score X a ic kw o).bind (fastIcaCall np contrast score d_score X b false none)
      = fastIcaCall np contrast score d_score X (a + b) ic kw o := by
  have h := resume_of_shape (F := Unit)
    (f := fun m ic (kw : Option (Unit → Mat n ℝ)) o => fastIcaCall np contrast score d_score X m ic (kw.map (· ())) o)
    (step := Fast.icaStep score d_score (Transform.whitenCore np X))
    (loss := fun W => .ok (Fast.icaLoss contrast (Transform.whitenCore np X) W))
    (inj := fun W => W ()) (proj := fun W _ => W)
    (out := fun W _ => fastIcaSeparate np (Transform.whitenCore np X) W false)
    (fun m ic kw o => by cases kw <;> rfl) a b (fun _ _ => rfl) ic (kw.map fun W _ => W) o
  have e : ((kw.map fun W (_ : Unit) => W).map (· ())) = kw := by cases kw <;> rfl
  simp only [e] at h
  exact h

/-- C93: the same for `GradFDICA` and `NaturalGradFDICA` without permutation alignment and scale restoration. -/
theorem C93_resume_fdica {B : ℕ} (sort : Permutation.Argsort) (kind : Kind) {opt : Fdica.PermOpt} (hopt : opt.truthy = false)
    (floor : ℝ → ℝ) {sr : ScaleOpt} (hsr : AsksNone sr) (r : Fin n) (step_size : ℝ) (holonomic : Bool)
    (contrast : Data ℂ (Fin B) n t → Fin B × Fin n → Fin t → ℝ) (score : Data ℂ (Fin B) n t → Data ℂ (Fin B) n t)
    (X : Data ℂ (Fin B) n t) (a b : ℕ) (ic : Bool) (kw : Option (Fin B → Mat n ℂ)) (o : Obj ℂ (Fin B) n t) :
    (fdicaCall sort kind opt floor sr r step_size holonomic contrast score X a ic kw o).bind
        (fdicaCall sort kind opt floor sr r step_size holonomic contrast score X b false none)
      = fdicaCall sort kind opt floor sr r step_size holonomic contrast score X (a + b) ic kw o := by
  refine resume_of_shape (f := fdicaCall sort kind opt floor sr r step_size holonomic contrast score X)
    (step := descend kind step_size holonomic score X) (loss := fun W => .ok (Grad.loss 2 contrast X W)) (inj := id) (proj := id)
    (out := sep X) (fun m ic kw o => ?_) a b (fun _ _ => rfl) ic kw o
  simp only [fdicaCall, Fdica.finishAligned, hopt, IvaCall.finish_none hsr, bind, Except.bind]
  rfl

/-- C93: alignment only reorders what a call of `GradFDICA` or `NaturalGradFDICA` returns without it, differently in every bin,
and does not change the losses. Without scale restoration, afterwards no bin of the output fits better to the bins before it
in another order. -/
theorem C93_fdica_alignment {B : ℕ} (sort : Permutation.Argsort) (kind : Kind) {opt : Fdica.PermOpt}
    (hopt : opt = .bool true ∨ opt = .str "spectrogram_correlation") (floor : ℝ → ℝ) (sr : ScaleOpt) (r : Fin n) (step_size : ℝ)
    (holonomic : Bool) (contrast : Data ℂ (Fin B) n t → Fin B × Fin n → Fin t → ℝ)
    (score : Data ℂ (Fin B) n t → Data ℂ (Fin B) n t) (hB : 0 < B) (X : Data ℂ (Fin B) n t) (n_iter : ℕ) (ic : Bool)
    (kw : Option (Fin B → Mat n ℂ)) (o : Obj ℂ (Fin B) n t) (W : Fin B → Mat n ℂ) (Y : Data ℂ (Fin B) n t) (ls : List ℝ)
    (h : fdicaCall sort kind (.bool false) floor sr r step_size holonomic contrast score X n_iter ic kw o = .ok ⟨.val W, .val Y, ls⟩) :
    ∃ σ : Fin B → Equiv.Perm (Fin n), fdicaCall sort kind opt floor sr r step_size holonomic contrast score X n_iter ic kw o
      = .ok ⟨.val fun f => (W f).submatrix (σ f) id, .val fun f => (Y f).submatrix (σ f) id, ls⟩ ∧
      (AsksNone sr → ∃ (first : Fin B) (rest : List (Fin B)),
        Permutation.IsOrder (fun (y : Fin t → ℂ) k => ‖y k‖) floor Y (first :: rest) ∧ σ first = 1 ∧
        Permutation.Aligned (fun (y : Fin t → ℂ) k => ‖y k‖) floor (first :: rest) fun f => (Y f).submatrix (σ f) id) := by
  obtain ⟨W0, h0, h⟩ := bind_ok h
  obtain ⟨q, h1, h⟩ := bind_ok h
  obtain ⟨p, h2, h3⟩ := bind_ok h
  rw [Fdica.C84_off sort _ (.inl rfl)] at h2
  obtain ⟨σ, first, rest, hσ, hO, h1', hA⟩ := Fdica.C84_reorders sort opt hopt floor sr r X q.1 hB
  simp only [Except.ok.injEq, Obj.mk.injEq, Attr.val.injEq] at h3
  obtain ⟨rfl, rfl, rfl⟩ := h3
  refine ⟨σ, ?_, fun hsr => ?_⟩
  · rw [h2] at hσ
    simp only [fdicaCall, h0, h1, bind, Except.bind, hσ, Except.map]
    rfl
  · rw [IvaCall.finish_none hsr] at h2
    have e : separate X q.1 = p.1 := congrArg Prod.fst (Except.ok.inj h2)
    rw [e] at hO hA
    exact ⟨first, rest, hO, h1', hA⟩

/-- C93: resuming `GradIVA` and `NaturalGradIVA` without scale restoration. -/
theorem C93_resume_iva (kind : Kind) {sr : ScaleOpt} (hsr : AsksNone sr) (r : Fin n) (step_size : ℝ) (holonomic : Bool)
    (contrast : Data ℂ F n t → Fin n → Fin t → ℝ) (score : Data ℂ F n t → Data ℂ F n t) (X : Data ℂ F n t) (a b : ℕ)
    (ic : Bool) (kw : Option (F → Mat n ℂ)) (o : Obj ℂ F n t) :
    (ivaCall kind sr r step_size holonomic contrast score X a ic kw o).bind
        (ivaCall kind sr r step_size holonomic contrast score X b false none)
      = ivaCall kind sr r step_size holonomic contrast score X (a + b) ic kw o := by
  refine resume_of_shape (f := ivaCall kind sr r step_size holonomic contrast score X)
    (step := descend kind step_size holonomic score X) (loss := fun W => .ok (Grad.loss 2 contrast X W)) (inj := id) (proj := id)
    (out := sep X) (fun m ic kw o => ?_) a b (fun _ _ => rfl) ic kw o
  simp only [ivaCall, IvaCall.finish_none hsr, bind, Except.bind]
  rfl

/-- C93: the same for the Gauss models, which forget their variance between calls, if the second call has at least one
iteration. -/
theorem C93_resume_gauss_iva (kind : Kind) {sr : ScaleOpt} (hsr : AsksNone sr) (r : Fin n) (step_size : ℝ) (holonomic : Bool)
    (X : Data ℂ F n t) (a b : ℕ) (hb : b ≠ 0) (ic : Bool) (kw : Option (F → Mat n ℂ)) (o : Obj ℂ F n t) :
    (gaussIvaCall kind sr r step_size holonomic X a ic kw o).bind (gaussIvaCall kind sr r step_size holonomic X b false none)
      = gaussIvaCall kind sr r step_size holonomic X (a + b) ic kw o := by
  refine resume_of_shape (f := gaussIvaCall kind sr r step_size holonomic X)
    (step := descendGauss kind step_size holonomic X) (loss := fun s => .ok (Grad.loss 2 (ivaGaussContrast s.1) X s.2))
    (inj := fun W => (fun _ _ => 1, W)) (proj := Prod.snd) (out := fun s => sep X s.2) (fun m ic kw o => ?_) a b (fun s ls => ?_)
    ic kw o
  · simp only [gaussIvaCall, IvaCall.finish_none hsr, bind, Except.bind]
    rfl
  · obtain ⟨b, rfl⟩ := Nat.exists_eq_succ_of_ne_zero hb
    have : descendGauss kind step_size holonomic X (fun _ _ => 1, s.2) = descendGauss kind step_size holonomic X s := by
      cases kind <;> rfl
    simp only [iterations, this]

theorem finishFast_none (np : Numpy ℂ) {sr : ScaleOpt} (hsr : AsksNone sr) (r : Fin n) (X : Spec F n t) (W : F → Mat n ℂ) :
    finishFast np sr r X W = .ok (separate (whitened np X) W, W) := by
  simp [finishFast, restore_none hsr, bind, Except.bind]

/-- C93: the same for `FastIVA` without scale restoration. -/
theorem C93_resume_fastiva (np : Numpy ℂ) (floor G d dd : ℝ → ℝ) {sr : ScaleOpt} (hsr : AsksNone sr) (r : Fin n) (X : Spec F n t)
    (a b : ℕ) (ic : Bool) (kw : Option (F → Mat n ℂ)) (o : Obj ℂ F n t) :
    (fastIvaCall np floor G d dd sr r X a ic kw o).bind (fastIvaCall np floor G d dd sr r X b false none)
      = fastIvaCall np floor G d dd sr r X (a + b) ic kw o := by
  refine resume_of_shape (f := fastIvaCall np floor G d dd sr r X)
    (step := fun W => .ok (Fast.fastIvaStep np floor d dd (whitened np X) W))
    (loss := fun W => .ok (Fast.ivaLoss G (whitened np X) W)) (inj := id) (proj := id) (out := separate (whitened np X))
    (fun m ic kw o => ?_) a b (fun _ _ => rfl) ic kw o
  simp only [fastIvaCall, finishFast_none np hsr, bind, Except.bind]
  rfl

/-- C93: the same for `FasterIVA` without scale restoration. -/
theorem C93_resume_fasteriva (np : Numpy ℂ) (floor G d : ℝ → ℝ) {sr : ScaleOpt} (hsr : AsksNone sr) (r : Fin (n + 1))
    (X : Spec F (n + 1) t) (a b : ℕ) (ic : Bool) (kw : Option (F → Mat (n + 1) ℂ)) (o : Obj ℂ F (n + 1) t) :
    (fasterIvaCall np floor G d sr r X a ic kw o).bind (fasterIvaCall np floor G d sr r X b false none)
      = fasterIvaCall np floor G d sr r X (a + b) ic kw o := by
  refine resume_of_shape (f := fasterIvaCall np floor G d sr r X)
    (step := fun W => .ok (Fast.fasterIvaStep np floor d (whitened np X) W))
    (loss := fun W => .ok (Fast.ivaLoss G (whitened np X) W)) (inj := id) (proj := id) (out := separate (whitened np X))
    (fun m ic kw o => ?_) a b (fun _ _ => rfl) ic kw o
  simp only [fasterIvaCall, finishFast_none np hsr, bind, Except.bind]
  rfl

/-! ## What a call does -/

/-- The filter a call starts from: the keyword argument, else the filter of the previous call, else identity matrices. -/
inductive Starts : Option (F → Mat n 𝕜) → Obj 𝕜 F n t → (F → Mat n 𝕜) → Prop
  | keyword (W : F → Mat n 𝕜) (o : Obj 𝕜 F n t) : Starts (some W) o W
  | stored (W : F → Mat n 𝕜) (Y : Attr (Data 𝕜 F n t)) (ls : List ℝ) : Starts none ⟨.val W, Y, ls⟩ W
  | identity (Y : Attr (Data 𝕜 F n t)) (ls : List ℝ) : Starts none ⟨.absent, Y, ls⟩ fun _ => 1

private theorem Starts.reset {kw : Option (F → Mat n 𝕜)} {o : Obj 𝕜 F n t} {W : F → Mat n 𝕜} (h : Starts kw o W) :
    reset kw o = .ok W := by
  cases h <;> rfl

/-- The losses a call with `initial_call=ic` appends when the iterations go through the states `s, step s, ...`. -/
def recorded {σ : Type} (step : σ → σ) (val : σ → ℝ) (ic : Bool) (n_iter : ℕ) (s : σ) : List ℝ :=
  (if ic then [val s] else []) ++ (List.range n_iter).map fun i => val (step^[i + 1] s)

private theorem iterations_total {σ : Type} (step : σ → σ) (val : σ → ℝ) (m : ℕ) (s : σ) (ls : List ℝ) :
    iterations (fun s => .ok (step s)) (fun s => .ok (val s)) m s ls
      = .ok (step^[m] s, ls ++ (List.range m).map fun i => val (step^[i + 1] s)) := by
  induction m generalizing s ls with
  | zero => simp [iterations]
  | succ m ih =>
    simp only [iterations, bind, Except.bind, ih]
    rw [List.range_succ_eq_map, List.map_cons, List.map_map, List.append_assoc]
    rfl

private theorem baseCall_total {σ : Type} (step : σ → σ) (val : σ → ℝ) (ic : Bool) (m : ℕ) (s : σ) (ls : List ℝ) :
    baseCall (fun s => .ok (step s)) (fun s => .ok (val s)) ic m s ls
      = .ok (step^[m] s, ls ++ recorded step val ic m s) := by
  cases ic with
  | false => simp [baseCall, iterations_total, recorded]
  | true => simp [baseCall, iterations_total, recorded, bind, Except.bind, List.append_assoc]

/-- C93: a call of `NaturalGradICA` always returns. Its filter is the start filter after `n_iter` updates, its output that
filter applied to the recording, and the losses of the start (if `initial_call`) and of every update are appended to those
recorded before. -/
theorem C93_natural_ica (step_size : ℝ) (holonomic : Bool) (contrast : Data ℝ Unit n t → Fin n → Fin t → ℝ)
    (score : Data ℝ Unit n t → Data ℝ Unit n t) (X : Data ℝ Unit n t) (n_iter : ℕ) (ic : Bool) {kw : Option (Unit → Mat n ℝ)}
    {o : Obj ℝ Unit n t} {W : Unit → Mat n ℝ} (hW : Starts kw o W) :
    icaCall .natural step_size holonomic contrast score X n_iter ic kw o
      = .ok ⟨.val (naturalRun step_size holonomic score X n_iter W),
          .val fun f => naturalRun step_size holonomic score X n_iter W f * X f,
          o.loss ++ recorded (naturalStep step_size holonomic score X)
            (fun V => ∑ k, Spatial.meanT (contrast (fun f => V f * X f) k) - Real.log |(V ()).det|) ic n_iter W⟩ := by
  have hl : Grad.loss 1 contrast X
      = fun V => ∑ k, Spatial.meanT (contrast (fun f => V f * X f) k) - Real.log |(V ()).det| := by
    funext V
    simp [Grad.loss]
    rfl
  have hs : descend .natural step_size holonomic score X = fun V => .ok (naturalStep step_size holonomic score X V) := rfl
  rw [icaCall, hW.reset, hs, hl]
  simp only [bind, Except.bind, baseCall_total]
  rfl

/-- C93: a call of `GradICA` returns unless one of the filters it goes through is singular, and then it raises
`LinAlgError`; what it returns is the filter reported applied to the recording, and one loss per update (and one for the
start) is appended. -/
theorem C93_gradient_ica (step_size : ℝ) (holonomic : Bool) (contrast : Data ℝ Unit n t → Fin n → Fin t → ℝ)
    (score : Data ℝ Unit n t → Data ℝ Unit n t) (X : Data ℝ Unit n t) (n_iter : ℕ) (ic : Bool) {kw : Option (Unit → Mat n ℝ)}
    {o : Obj ℝ Unit n t} {W : Unit → Mat n ℝ} (hW : Starts kw o W) :
    (∃ V ls, icaCall .gradient step_size holonomic contrast score X n_iter ic kw o
        = .ok ⟨.val V, .val fun f => V f * X f, o.loss ++ ls⟩ ∧ ls.length = n_iter + (if ic then 1 else 0)) ∨
    (icaCall .gradient step_size holonomic contrast score X n_iter ic kw o = .error .linalg ∧
      ∃ i < n_iter, ∃ V, iterM (gradStep step_size holonomic score X) i W = .ok V ∧ ¬ IsUnit (V ()).det) := by
  have key : ∀ (m : ℕ) (W : Unit → Mat n ℝ) (ls : List ℝ),
      (∃ V l, iterations (gradStep step_size holonomic score X) (fun W => .ok (Grad.loss 1 contrast X W)) m W ls
        = .ok (V, ls ++ l) ∧ l.length = m) ∨
      (iterations (gradStep step_size holonomic score X) (fun W => .ok (Grad.loss 1 contrast X W)) m W ls = .error .linalg ∧
        ∃ i < m, ∃ V, iterM (gradStep step_size holonomic score X) i W = .ok V ∧ ¬ IsUnit (V ()).det) := by
    intro m
    induction m with
    | zero => intro W ls; exact .inl ⟨W, [], by simp [iterations], rfl⟩
    | succ m ih =>
      intro W ls
      by_cases hd : IsUnit (W ()).det
      · obtain ⟨V, hV⟩ : ∃ V, gradStep step_size holonomic score X W = .ok V := by
          have : onBins (fun f => npInv (W f)) = .ok fun f => (W f)⁻¹ :=
            _root_.Verif.Spatial.onBins_ok fun f => by rw [npInv, if_pos (show IsUnit (W f).det from hd)]
          simp only [gradStep, this, bind, Except.bind]
          exact ⟨_, rfl⟩
        simp only [iterations, hV, bind, Except.bind]
        rcases ih V (ls ++ [Grad.loss 1 contrast X V]) with ⟨V', l, h, hl⟩ | ⟨h, i, hi, V', h1, h2⟩
        · exact .inl ⟨V', Grad.loss 1 contrast X V :: l, by rw [h]; simp, by simp [hl]⟩
        · exact .inr ⟨h, i + 1, by omega, V', by simp only [iterM, hV, bind, Except.bind]; exact h1, h2⟩
      · have : gradStep step_size holonomic score X W = .error .linalg := by
          have h : onBins (fun f => npInv (W f)) = .error .linalg := by
            rw [onBins, dif_neg]
            intro h
            obtain ⟨y, hy⟩ := h ()
            rw [npInv, if_neg hd] at hy
            cases hy
          simp only [gradStep, h, bind, Except.bind]
        exact .inr ⟨by simp only [iterations, this, bind, Except.bind], 0, by omega, W, rfl, hd⟩
  have hs : descend .gradient step_size holonomic score X = gradStep step_size holonomic score X := rfl
  rw [icaCall, hW.reset, hs]
  simp only [bind, Except.bind]
  cases ic with
  | false =>
    rw [baseCall_false]
    rcases key n_iter W o.loss with ⟨V, l, h, hl⟩ | ⟨h, hi⟩
    · exact .inl ⟨V, l, by rw [h]; rfl, by simp [hl]⟩
    · exact .inr ⟨by rw [h], hi⟩
  | true =>
    simp only [baseCall, if_true, bind, Except.bind]
    rcases key n_iter W (o.loss ++ [Grad.loss 1 contrast X W]) with ⟨V, l, h, hl⟩ | ⟨h, hi⟩
    · exact .inl ⟨V, Grad.loss 1 contrast X W :: l, by rw [h]; simp; rfl, by simp [hl]⟩
    · exact .inr ⟨by rw [h], hi⟩

private theorem iterM_last {σ : Type} {step : σ → Except PyErr σ} {m : ℕ} (hm : m ≠ 0) {s s' : σ} (h : iterM step m s = .ok s') :
    ∃ s1, step s1 = .ok s' := IlrmaCall.iterM_last hm h

/-- C93: if a call of `FastICA` with at least one iteration on a recording with an invertible covariance returns, the filter
reported is orthogonal, the signals are uncorrelated with unit power, and `separate(input, demix_filter)` gives them again;
one loss per update (and one for the start) is appended. -/
theorem C93_fastica (np : Numpy ℝ) (contrast : ℝ → ℝ) (score d_score : (Fin t → ℝ) → Fin t → ℝ)
    (X : Matrix (Fin n) (Fin t) ℝ) (hX : (Transform.sampleCov X).PosDef) (n_iter : ℕ) (hn : n_iter ≠ 0) (ic : Bool)
    (kw : Option (Mat n ℝ)) (o o' : Obj ℝ Unit n t) (h : fastIcaCall np contrast score d_score X n_iter ic kw o = .ok o') :
    ∃ (W : Mat n ℝ) (Y : Matrix (Fin n) (Fin t) ℝ), o'.demix = .val (fun _ => W) ∧ o'.output = .val (fun _ => Y) ∧
      Y = fastIcaSeparate np X W ∧ W * Wᵀ = 1 ∧ Wᵀ * W = 1 ∧ Transform.sampleCov Y = 1 ∧
      o'.loss.length = o.loss.length + n_iter + (if ic then 1 else 0) := by
  obtain ⟨W0, h0, h⟩ := bind_ok h
  obtain ⟨⟨W, ls⟩, h1, h2⟩ := bind_ok h
  cases h2
  obtain ⟨hit, hlen, -⟩ := baseCall_ok _ _ _ _ _ _ _ _ h1
  obtain ⟨a, ha⟩ := iterM_last hn hit
  have hW := Fast.C47_fastica score d_score _ a W ha
  refine ⟨W, W * Transform.whitenCore np X, rfl, rfl, rfl, hW, mul_eq_one_comm.mp hW, ?_, hlen⟩
  have hZ := Transform.C20_identity_covariance (B := Unit) np 2 false (fun _ => X)
    (fun _ => Transform.whitenCore np X) (fun _ => hX) rfl ()
  exact Fast.sampleCov_unitary W _ (by rwa [conjTranspose_eq_transpose_of_trivial]) hZ

/-- C93: `n_iter=0` with the keyword argument `demix_filter` (and without scale restoration) returns that filter applied to
the recording, for `FastICA`, `FastIVA` and `FasterIVA` to the whitened recording. -/
theorem C93_keyword (kind : Kind) (step_size : ℝ) (holonomic : Bool) (floor G d dd : ℝ → ℝ) {sr : ScaleOpt} (hsr : AsksNone sr)
    (r : Fin (n + 1)) :
    (∀ (contrast : Data ℝ Unit (n + 1) t → Fin (n + 1) → Fin t → ℝ) (score : Data ℝ Unit (n + 1) t → Data ℝ Unit (n + 1) t)
        (X : Data ℝ Unit (n + 1) t) (W : Unit → Mat (n + 1) ℝ) (o : Obj ℝ Unit (n + 1) t),
      icaCall kind step_size holonomic contrast score X 0 false (some W) o
        = .ok ⟨.val W, .val fun f => W f * X f, o.loss⟩) ∧
    (∀ (np : Numpy ℝ) (contrast : ℝ → ℝ) (score d_score : (Fin t → ℝ) → Fin t → ℝ) (X : Matrix (Fin (n + 1)) (Fin t) ℝ)
        (W : Mat (n + 1) ℝ) (o : Obj ℝ Unit (n + 1) t),
      fastIcaCall np contrast score d_score X 0 false (some W) o
        = .ok ⟨.val fun _ => W, .val fun _ => W * Transform.whitenCore np X, o.loss⟩) ∧
    (∀ (contrast : Data ℂ F (n + 1) t → Fin (n + 1) → Fin t → ℝ) (score : Data ℂ F (n + 1) t → Data ℂ F (n + 1) t)
        (X : Data ℂ F (n + 1) t) (W : F → Mat (n + 1) ℂ) (o : Obj ℂ F (n + 1) t),
      ivaCall kind sr r step_size holonomic contrast score X 0 false (some W) o
        = .ok ⟨.val W, .val fun f => W f * X f, o.loss⟩ ∧
      gaussIvaCall kind sr r step_size holonomic X 0 false (some W) o
        = .ok ⟨.val W, .val fun f => W f * X f, o.loss⟩) ∧
    (∀ (np : Numpy ℂ) (X : Spec F (n + 1) t) (W : F → Mat (n + 1) ℂ) (o : Obj ℂ F (n + 1) t),
      fastIvaCall np floor G d dd sr r X 0 false (some W) o
        = .ok ⟨.val W, .val fun f => W f * Transform.whitenCore np (X f), o.loss⟩ ∧
      fasterIvaCall np floor G d sr r X 0 false (some W) o
        = .ok ⟨.val W, .val fun f => W f * Transform.whitenCore np (X f), o.loss⟩) := by
  refine ⟨fun _ _ _ _ _ => rfl, fun _ _ _ _ _ _ _ => rfl, fun _ _ _ _ _ => ⟨?_, ?_⟩, fun _ _ _ _ => ⟨?_, ?_⟩⟩
  · simp only [ivaCall, IvaCall.finish_none hsr, bind, Except.bind]
    rfl
  · simp only [gaussIvaCall, IvaCall.finish_none hsr, bind, Except.bind]
    rfl
  · simp only [fastIvaCall, finishFast_none _ hsr, bind, Except.bind]
    rfl
  · simp only [fasterIvaCall, finishFast_none _ hsr, bind, Except.bind]
    rfl

/-- C93: a call of `NaturalGradIVA` without scale restoration always returns; with projection back it returns exactly when
the filter it arrives at is invertible in every bin, and raises `LinAlgError` otherwise; when it returns, the outputs sum to
the reference channel. -/
theorem C93_natural_iva (step_size : ℝ) (holonomic : Bool) (contrast : Data ℂ F n t → Fin n → Fin t → ℝ)
    (score : Data ℂ F n t → Data ℂ F n t) (X : Data ℂ F n t) (n_iter : ℕ) (ic : Bool) {kw : Option (F → Mat n ℂ)}
    {o : Obj ℂ F n t} {W : F → Mat n ℂ} (hW : Starts kw o W) (sr : ScaleOpt) (r : Fin n) :
    (AsksNone sr → ∃ ls, ivaCall .natural sr r step_size holonomic contrast score X n_iter ic kw o
      = .ok ⟨.val (naturalRun step_size holonomic score X n_iter W),
          .val fun f => naturalRun step_size holonomic score X n_iter W f * X f, o.loss ++ ls⟩) ∧
    (AsksPB sr → (∀ f, IsUnit (naturalRun step_size holonomic score X n_iter W f).det) →
      ∃ V ls, ivaCall .natural sr r step_size holonomic contrast score X n_iter ic kw o
        = .ok ⟨.val V, .val fun f => V f * X f, o.loss ++ ls⟩ ∧ ∀ f j, ∑ k, (V f * X f) k j = X f r j) ∧
    (AsksPB sr → (¬ ∀ f, IsUnit (naturalRun step_size holonomic score X n_iter W f).det) →
      ivaCall .natural sr r step_size holonomic contrast score X n_iter ic kw o = .error .linalg) := by
  have hs : descend .natural step_size holonomic score X = fun V => .ok (naturalStep step_size holonomic score X V) := rfl
  have e : ivaCall .natural sr r step_size holonomic contrast score X n_iter ic kw o
      = (finish sr r X (naturalRun step_size holonomic score X n_iter W)).bind fun p => .ok ⟨.val p.2, .val p.1,
        o.loss ++ recorded (naturalStep step_size holonomic score X) (Grad.loss 2 contrast X) ic n_iter W⟩ := by
    rw [ivaCall, hW.reset, hs]
    simp only [bind, Except.bind, baseCall_total]
    rfl
  refine ⟨fun h => ?_, fun h hd => ?_, fun h hd => ?_⟩
  · rw [e, IvaCall.finish_none h]
    exact ⟨_, rfl⟩
  · obtain ⟨V, hV, hsum⟩ := IvaCall.finish_sum h r X hd
    rw [e, hV]
    exact ⟨V, _, rfl, hsum⟩
  · obtain ⟨ht, hr⟩ := restore_pb h (applyProjectionBack r X (naturalRun step_size holonomic score X n_iter W))
      (applyMdp r X (naturalRun step_size holonomic score X n_iter W))
    rw [e, finish_eq, if_pos ht, hr, applyProjectionBack, (C22_succeeds_iff r _).2 hd]
    rfl

/-! ## FastIVA and FasterIVA -/

private theorem fast_sum (np : Numpy ℂ) (X : Spec F n t) (hX : ∀ f, (Transform.sampleCov (X f)).PosDef)
    (hX' : ∀ f, IsUnit (X f * (X f)ᴴ).det) {W : F → Mat n ℂ} (hW : ∀ f, IsUnit (W f).det) (r : Fin n) {Y : Spec F n t}
    (h : projectionBackData r (separate (whitened np X) W) X = .ok Y) (f : F) (j : Fin t) : ∑ k, Y f k j = X f r j := by
  have hq : ∀ f, ∃ Q : Mat n ℂ, IsUnit Q ∧ whitened np X f = Q * X f := fun f =>
    Transform.C20_invertible_map np 3 true X (whitened np X) hX rfl f
  choose Q hQ hZ using hq
  have e : separate (whitened np X) W = separate X fun f => W f * Q f := by
    funext f
    simp only [separate, hZ, Matrix.mul_assoc]
  have hu : ∀ f, IsUnit (W f * Q f).det := fun f => by
    rw [det_mul]
    exact (hW f).mul ((Matrix.isUnit_iff_isUnit_det _).mp (hQ f))
  obtain ⟨V, hV, hV'⟩ := C24_data_eq_filter r (fun f => W f * Q f) X hu hX'
  rw [e, hV'] at h
  rw [← Except.ok.inj h]
  exact C23_distortion_free r _ V hV X f j

private theorem cov_unit {X : Spec F n t} (hX : ∀ f, (Transform.sampleCov (X f)).PosDef) (f : F) :
    IsUnit (X f * (X f)ᴴ).det := by
  have h := (hX f).isUnit
  rw [Matrix.isUnit_iff_isUnit_det, Transform.sampleCov, det_smul] at h
  exact isUnit_of_mul_isUnit_right h

/-- What scale restoration makes of an invertible filter of FastIVA or FasterIVA. -/
private theorem finishFast_known (np : Numpy ℂ) (X : Spec F n t) (hX : ∀ f, (Transform.sampleCov (X f)).PosDef)
    {W : F → Mat n ℂ} (hW : ∀ f, IsUnit (W f).det) (sr : ScaleOpt) (r : Fin n) :
    (AsksNone sr → finishFast np sr r X W = .ok (separate (whitened np X) W, W)) ∧
    (AsksPB sr → ∃ V, finishFast np sr r X W = .ok (separate (whitened np X) V, V) ∧
      ∀ f j, ∑ k, separate (whitened np X) V f k j = X f r j) ∧
    (AsksMDP sr → ∃ V, finishFast np sr r X W = .ok (separate (whitened np X) V, V)) := by
  have hX' := cov_unit hX
  refine ⟨fun h => finishFast_none np h r X W, fun h => ?_, fun h => ?_⟩
  · obtain ⟨V, h1, h2⟩ := (C26_fast np sr r X W hW hX').2.1 h
    exact ⟨V, h1, fast_sum np X hX hX' hW r h2⟩
  · obtain ⟨V, h1, -⟩ := C26_fast_mdp np sr r X W hX' h
    exact ⟨V, h1⟩

private theorem unit_of_unitary {W : Mat n ℂ} (h : W * Wᴴ = 1) : IsUnit W.det := by
  rw [← Matrix.isUnit_iff_isUnit_det]
  exact IsUnit.of_mul_eq_one _ h

/-- The effect of a call of FastIVA or FasterIVA on a recording whose covariance is invertible in every bin: `call` returns,
the reported filter applied to the whitened recording gives the output, and
* without scale restoration the filter is unitary and the signals are uncorrelated with unit power in every bin;
* with projection back they sum to the reference channel. -/
def FastOutcome (np : Numpy ℂ) (sr : ScaleOpt) (r : Fin n) (X : Spec F n t) (o : Obj ℂ F n t) (n_iter : ℕ) (ic : Bool)
    (call : Except PyErr (Obj ℂ F n t)) : Prop :=
  ∃ V ls, call = .ok ⟨.val V, .val fun f => V f * Transform.whitenCore np (X f), ls⟩ ∧
    ls.length = o.loss.length + n_iter + (if ic then 1 else 0) ∧
    (AsksNone sr → ∀ f, V f * (V f)ᴴ = 1 ∧ Transform.sampleCov (V f * Transform.whitenCore np (X f)) = 1) ∧
    (AsksPB sr → ∀ f j, ∑ k, (V f * Transform.whitenCore np (X f)) k j = X f r j)

private theorem outcome (np : Numpy ℂ) {sr : ScaleOpt} (hsr : AsksNone sr ∨ AsksPB sr ∨ AsksMDP sr) (r : Fin n) (X : Spec F n t)
    (hX : ∀ f, (Transform.sampleCov (X f)).PosDef) (o : Obj ℂ F n t) (n_iter : ℕ) (ic : Bool) {W : F → Mat n ℂ}
    (hW : ∀ f, W f * (W f)ᴴ = 1) {ls : List ℝ} (hls : ls.length = o.loss.length + n_iter + (if ic then 1 else 0)) :
    FastOutcome np sr r X o n_iter ic ((finishFast np sr r X W).bind fun p => .ok ⟨.val p.2, .val p.1, ls⟩) := by
  obtain ⟨h0, h1, h2⟩ := finishFast_known np X hX (fun f => unit_of_unitary (hW f)) sr r
  have hZ : ∀ f, Transform.sampleCov (whitened np X f) = 1 := fun f =>
    Transform.C20_identity_covariance np 3 true X (whitened np X) hX rfl f
  have hcov : ∀ f, W f * (W f)ᴴ = 1 ∧ Transform.sampleCov (W f * Transform.whitenCore np (X f)) = 1 := fun f =>
    ⟨hW f, Fast.sampleCov_unitary _ _ (hW f) (hZ f)⟩
  have ex : AsksNone sr → ¬ AsksPB sr := fun h h' => by
    have := (restore_pb h' (.ok 0) (.ok 1)).1
    rw [restore_none h] at this
    cases this
  have ex' : AsksMDP sr → ¬ AsksNone sr ∧ ¬ AsksPB sr := fun h => by
    obtain ⟨m1, m2⟩ := restore_mdp h (.ok 0) (.ok 1)
    refine ⟨fun h' => ?_, fun h' => ?_⟩
    · rw [restore_none h'] at m1
      cases m1
    · have := m2.symm.trans (restore_pb h' (.ok 0) (.ok 1)).2
      cases this
  rcases hsr with h | h | h
  · rw [h0 h]
    exact ⟨W, ls, rfl, hls, fun _ => hcov, fun h' => absurd h' (ex h)⟩
  · obtain ⟨V, hV, hs⟩ := h1 h
    rw [hV]
    exact ⟨V, ls, rfl, hls, fun h' => absurd h (ex h'), fun _ => hs⟩
  · obtain ⟨V, hV⟩ := h2 h
    rw [hV]
    exact ⟨V, ls, rfl, hls, fun h' => absurd h' (ex' h).1, fun h' => absurd h' (ex' h).2⟩

/-- C93: every call of `FastIVA` with at least one iteration on a recording with an invertible covariance in every bin
returns, with every documented `scale_restoration`, whatever filter it starts from. -/
theorem C93_fastiva (np : Numpy ℂ) (floor G d dd : ℝ → ℝ) {sr : ScaleOpt} (hsr : AsksNone sr ∨ AsksPB sr ∨ AsksMDP sr) (r : Fin n)
    (X : Spec F n t) (hX : ∀ f, (Transform.sampleCov (X f)).PosDef) (n_iter : ℕ) (hn : n_iter ≠ 0) (ic : Bool)
    {kw : Option (F → Mat n ℂ)} {o : Obj ℂ F n t} {W : F → Mat n ℂ} (hW : Starts kw o W) :
    FastOutcome np sr r X o n_iter ic (fastIvaCall np floor G d dd sr r X n_iter ic kw o) := by
  rw [fastIvaCall, hW.reset]
  simp only [bind, Except.bind, baseCall_total]
  refine outcome np hsr r X hX o n_iter ic (fun f => ?_) ?_
  · obtain ⟨m, rfl⟩ := Nat.exists_eq_succ_of_ne_zero hn
    rw [Function.iterate_succ', Function.comp]
    exact (Fast.C47_fastiva np floor d dd (whitened np X) _ f).1
  · cases ic <;> (simp [recorded]; try omega)

/-- C93: the same for `FasterIVA`. -/
theorem C93_fasteriva (np : Numpy ℂ) (floor G d : ℝ → ℝ) {sr : ScaleOpt} (hsr : AsksNone sr ∨ AsksPB sr ∨ AsksMDP sr)
    (r : Fin (n + 1)) (X : Spec F (n + 1) t) (hX : ∀ f, (Transform.sampleCov (X f)).PosDef) (n_iter : ℕ) (hn : n_iter ≠ 0)
    (ic : Bool) {kw : Option (F → Mat (n + 1) ℂ)} {o : Obj ℂ F (n + 1) t} {W : F → Mat (n + 1) ℂ} (hW : Starts kw o W) :
    FastOutcome np sr r X o n_iter ic (fasterIvaCall np floor G d sr r X n_iter ic kw o) := by
  rw [fasterIvaCall, hW.reset]
  simp only [bind, Except.bind, baseCall_total]
  refine outcome np hsr r X hX o n_iter ic (fun f => ?_) ?_
  · obtain ⟨m, rfl⟩ := Nat.exists_eq_succ_of_ne_zero hn
    rw [Function.iterate_succ', Function.comp]
    exact (Fast.C47_fasteriva np floor d (whitened np X) _ f).1
  · cases ic <;> (simp [recorded]; try omega)

/-! ## The hypotheses can be met -/

private def exOne : Matrix (Fin 1) (Fin 2) ℝ := !![3, -3]

private theorem exOne_cov : Transform.sampleCov exOne = diagonal fun _ => 9 := by
  ext i j
  fin_cases i; fin_cases j
  simp [Transform.sampleCov, exOne, vecMul, dotProduct, Fin.sum_univ_two]
  norm_num

private theorem exOne_posDef : (Transform.sampleCov exOne).PosDef := by
  rw [exOne_cov]
  exact PosDef.diagonal fun _ => by norm_num

/-- A call of `FastICA` with the kurtosis contrast that meets the hypotheses of `C93_fastica`, for every eigenvalue routine. -/
example (np : Numpy ℝ) : ∃ o', fastIcaCall np (fun y => y ^ 4 / 4) (fun y s => y s ^ 3) (fun y s => 3 * y s ^ 2) exOne 1 true
    none Obj.fresh = .ok o' := by
  obtain ⟨Q, -, hQ⟩ := Transform.C20_invertible_map (B := Unit) np 2 false (fun _ => exOne)
    (fun _ => Transform.whitenCore np exOne) (fun _ => exOne_posDef) rfl ()
  have hc := Transform.C20_identity_covariance (B := Unit) np 2 false (fun _ => exOne)
    (fun _ => Transform.whitenCore np exOne) (fun _ => exOne_posDef) rfl ()
  obtain ⟨Z, hZ⟩ : ∃ Z, Z = Transform.whitenCore np exOne := ⟨_, rfl⟩
  simp only [← hZ] at hQ hc
  have z0 : Z 0 0 = Q 0 0 * 3 := by rw [hQ]; simp [mul_apply, exOne]
  have z1 : Z 0 1 = -(Q 0 0 * 3) := by rw [hQ]; simp [mul_apply, exOne]
  have hq : (Q 0 0 * 3) * (Q 0 0 * 3) = 1 := by
    have := congrFun (congrFun hc 0) 0
    simp [Transform.sampleCov, mul_apply, Fin.sum_univ_two, z0, z1] at this
    linarith
  have hstep : ∃ W, Fast.icaStep (fun y s => y s ^ 3) (fun y s => 3 * y s ^ 2) Z 1 = .ok W := by
    rw [Fast.icaStep, show List.finRange 1 = [0] from rfl]
    simp only [List.foldlM_cons, List.foldlM_nil, Fast.icaRow]
    have hd : Fast.deflate (1 : Mat 1 ℝ) 0 (Fast.icaDirection (fun y s => y s ^ 3) (fun y s => 3 * y s ^ 2) Z
        ((1 : Mat 1 ℝ) 0)) = fun _ => 2 := by
      funext c
      fin_cases c
      simp [Fast.deflate, Fast.icaDirection, Fast.project, Spatial.meanT, Fin.sum_univ_two, z0, z1]
      linear_combination (2 - 9 * (Q 0 0) ^ 2) * hq
    rw [hd, if_neg]
    · exact ⟨_, rfl⟩
    · simp [Fast.norm2]
  obtain ⟨W, hW⟩ := hstep
  have e : fastIcaCall np (fun y => y ^ 4 / 4) (fun y s => y s ^ 3) (fun y s => 3 * y s ^ 2) exOne 1 true none Obj.fresh
      = (baseCall (Fast.icaStep (fun y s => y s ^ 3) (fun y s => 3 * y s ^ 2) Z)
          (fun W => .ok (Fast.icaLoss (fun y => y ^ 4 / 4) Z W)) true 1 1 []).bind fun q =>
        .ok ⟨.val fun _ => q.1, .val fun _ => fastIcaSeparate np Z q.1 false, q.2⟩ := by
    rw [hZ]
    rfl
  rw [e]
  simp only [baseCall, iterations, hW, bind, Except.bind, if_true]
  exact ⟨_, rfl⟩

/-- A recording that meets the hypotheses of `C93_fastiva` and `C93_fasteriva`. -/
example : (∀ f, (Transform.sampleCov ((fun _ => !![2, 0; 0, Complex.I] : Spec (Fin 3) 2 2) f)).PosDef) ∧
    Starts (n := 2) (t := 2) none Obj.fresh (fun _ : Fin 3 => (1 : Mat 2 ℂ)) := by
  refine ⟨fun _ => ?_, .identity _ _⟩
  have : Transform.sampleCov (!![2, 0; 0, Complex.I] : Matrix (Fin 2) (Fin 2) ℂ) = diagonal ![2, 1 / 2] := by
    ext i j
    fin_cases i <;> fin_cases j <;> simp [Transform.sampleCov, vecMul, dotProduct, Fin.sum_univ_two]
    exact map_ofNat _ 2
  simp only [this]
  refine PosDef.diagonal fun i => ?_
  fin_cases i <;> simp

end Verif.GradCall
