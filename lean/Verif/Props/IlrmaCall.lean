import Verif.Model.IlrmaCall
import Verif.Props.IlrmaNorm
import Verif.Props.Lifecycle
import Verif.Props.LimitIlrma
import Verif.Props.Partitioned

/-! # C86: complete ILRMA calls: initial values, what a call returns, calling again -/

set_option linter.unusedSectionVars false

namespace Verif.IlrmaCall

open Matrix Spatial Scale Ilrma Lifecycle

variable {F : Type} [Fintype F] {n t K : ℕ}

/-! ## The loop -/

theorem iterations_add {σ : Type} (step : σ → Except PyErr σ) (loss : σ → Except PyErr ℝ) (a b : ℕ) (s : σ) (ls : List ℝ) :
    iterations step loss (a + b) s ls = (iterations step loss a s ls).bind fun p => iterations step loss b p.1 p.2 := by
  induction a generalizing s ls with
  | zero => rw [Nat.zero_add]; rfl
  | succ a ih =>
    rw [Nat.add_right_comm]
    simp only [iterations, bind, Except.bind]
    cases step s with
    | error e => rfl
    | ok s1 =>
      change (loss s1).bind _ = ((loss s1).bind _).bind _
      cases loss s1 with
      | error e => rfl
      | ok v => exact ih s1 (ls ++ [v])

/-- The loop in terms of the list of losses of a fresh run. -/
theorem iterations_of_lossList {σ : Type} (step : σ → Except PyErr σ) (loss : σ → Except PyErr ℝ) (m : ℕ) (s : σ)
    (ls vs : List ℝ) (h : lossList step loss m s = .ok vs) :
    ∃ v s', loss s = .ok v ∧ iterM step m s = .ok s' ∧ iterations step loss m s (ls ++ [v]) = .ok (s', ls ++ vs) := by
  induction m generalizing s ls vs with
  | zero =>
    obtain ⟨v, h1, h2⟩ := bind_ok h
    cases h2
    exact ⟨v, s, h1, rfl, rfl⟩
  | succ m ih =>
    obtain ⟨v, h1, h2⟩ := bind_ok h
    obtain ⟨s1, h3, h4⟩ := bind_ok h2
    obtain ⟨vs', h5, h6⟩ := bind_ok h4
    cases h6
    obtain ⟨v1, s', g1, g2, g3⟩ := ih s1 (ls ++ [v]) vs' h5
    refine ⟨v, s', h1, ?_, ?_⟩
    · simp only [iterM, h3, bind, Except.bind, g2]
    · simp only [iterations, h3, g1, bind, Except.bind]
      rw [g3, List.append_assoc]
      rfl

/-- The final state of the loop is the state after `m` updates, and the last recorded loss is the loss of that state. -/
theorem iterations_ok {σ : Type} (step : σ → Except PyErr σ) (loss : σ → Except PyErr ℝ) (m : ℕ) (s s' : σ)
    (ls ls' : List ℝ) (h : iterations step loss m s ls = .ok (s', ls')) :
    iterM step m s = .ok s' ∧ ls'.length = ls.length + m ∧
      (m ≠ 0 → ∃ v, loss s' = .ok v ∧ ls'.getLast? = some v) := by
  induction m generalizing s ls with
  | zero =>
    cases h
    exact ⟨rfl, rfl, fun h => absurd rfl h⟩
  | succ m ih =>
    obtain ⟨s1, h1, h2⟩ := bind_ok h
    obtain ⟨v, h3, h4⟩ := bind_ok h2
    obtain ⟨g1, g2, g3⟩ := ih s1 _ h4
    refine ⟨by simp only [iterM, h1, bind, Except.bind, g1], by rw [g2]; simp; omega, fun _ => ?_⟩
    rcases Nat.eq_zero_or_pos m with rfl | hm
    · cases h4
      exact ⟨v, h3, by simp⟩
    · exact g3 hm.ne'

theorem baseCall_false {σ : Type} (step : σ → Except PyErr σ) (loss : σ → Except PyErr ℝ) (m : ℕ) (s : σ) (ls : List ℝ) :
    baseCall step loss false m s ls = iterations step loss m s ls := rfl

theorem baseCall_add {σ : Type} (step : σ → Except PyErr σ) (loss : σ → Except PyErr ℝ) (ic : Bool) (a b : ℕ) (s : σ)
    (ls : List ℝ) :
    baseCall step loss ic (a + b) s ls = (baseCall step loss ic a s ls).bind fun p => iterations step loss b p.1 p.2 := by
  cases ic with
  | false => exact iterations_add step loss a b s ls
  | true =>
    simp only [baseCall, if_true, bind, Except.bind]
    cases loss s with
    | error e => rfl
    | ok v => exact iterations_add step loss a b s _

theorem baseCall_ok {σ : Type} (step : σ → Except PyErr σ) (loss : σ → Except PyErr ℝ) (ic : Bool) (m : ℕ) (s s' : σ)
    (ls ls' : List ℝ) (h : baseCall step loss ic m s ls = .ok (s', ls')) :
    iterM step m s = .ok s' ∧ ls'.length = ls.length + m + (if ic then 1 else 0) ∧
      (m ≠ 0 → ∃ v, loss s' = .ok v ∧ ls'.getLast? = some v) := by
  cases ic with
  | false => exact iterations_ok step loss m s s' ls ls' h
  | true =>
    obtain ⟨v, h1, h2⟩ := bind_ok h
    obtain ⟨g1, g2, g3⟩ := iterations_ok step loss m s s' _ ls' h2
    exact ⟨g1, by rw [g2]; simp; omega, g3⟩

/-- The entry recorded before the iterations. -/
theorem baseCall_initial {σ : Type} (step : σ → Except PyErr σ) (loss : σ → Except PyErr ℝ) (m : ℕ) (s s' : σ)
    (ls ls' : List ℝ) (h : baseCall step loss true m s ls = .ok (s', ls')) :
    ∃ v, loss s = .ok v ∧ ls'[ls.length]? = some v := by
  have key : ∀ (m : ℕ) (s s' : σ) (l l' : List ℝ) (i : ℕ) (v : ℝ), l[i]? = some v →
      iterations step loss m s l = .ok (s', l') → l'[i]? = some v := by
    intro m
    induction m with
    | zero => intro s s' l l' i v hl h; cases h; exact hl
    | succ m ih =>
      intro s s' l l' i v hl h
      obtain ⟨s1, h1, h2⟩ := bind_ok h
      obtain ⟨w, h3, h4⟩ := bind_ok h2
      refine ih s1 s' _ l' i v ?_ h4
      rw [List.getElem?_append_left (List.getElem?_eq_some_iff.mp hl).1, hl]
  obtain ⟨v, h1, h2⟩ := bind_ok h
  exact ⟨v, h1, key m s s' _ ls' _ v (by simp) h2⟩

/-! ## Initial values -/

/-- The states from which a first call without keyword arguments starts. -/
def start (floor : ℝ → ℝ) (draw : Draw F n t K) : St F n t K :=
  ⟨fun _ => 1, fun k f b => floor (draw.T k f b), fun k b j => floor (draw.V k b j)⟩

/-- With partitioning. -/
noncomputable def startP (floor : ℝ → ℝ) (draw : DrawP F n t K) : StP F n t K :=
  ⟨fun _ => 1, fun k b => floor (draw.Z k b / ∑ k', draw.Z k' b), fun f b => floor (draw.T f b),
    fun b j => floor (draw.V b j)⟩

theorem label_filterFree (alg : FilterAlg n) : (label alg).filterFree = false := by cases alg <;> rfl
theorem labelY_filterFree (alg : SignalAlg n) : (labelY alg).filterFree = true := by cases alg <;> rfl

/-- C86: a first call without keyword arguments starts from the identity filter and the floored draws; if the flooring
function returns positive numbers only, then all initial values are positive (the hypothesis of C38 to C41). -/
theorem C86_initial (alg : FilterAlg n) (floor : ℝ → ℝ) (draw : Draw F n t K) (X : Spec F n t) :
    resetFilter alg floor draw X {} Obj.fresh = .ok (start floor draw) ∧
    ((∀ k f b, 0 < floor (draw.T k f b)) → (∀ k b j, 0 < floor (draw.V k b j)) → Inv (start floor draw)) := by
  refine ⟨?_, fun hT hV => ⟨fun f => ?_, hT, hV⟩⟩
  · simp [resetFilter, Lifecycle.reset, Obj.fresh, separateOpt, label_filterFree, initNmf, override, attrOr, bind,
      Except.bind, start]
  · simp [start]

/-- C86: with ISS1 or ISS2 the first call starts from the mixture itself. -/
theorem C86_initial_signal (alg : SignalAlg n) (floor : ℝ → ℝ) (draw : Draw F n t K) (X : Spec F n t) :
    resetSignal alg floor draw X {} Obj.fresh = .ok ⟨X, (start floor draw).T, (start floor draw).V⟩ := by
  have : separate X (fun _ => 1) = X := by funext f; simp [separate]
  simp [resetSignal, Lifecycle.reset, Obj.fresh, separateOpt, labelY_filterFree, initNmf, override, attrOr, bind,
      Except.bind, start, this]

/-- C86: the same with partitioning. -/
theorem C86_initial_partitioned (alg : FilterAlg n) (floor : ℝ → ℝ) (draw : DrawP F n t K) (X : Spec F n t) :
    resetFilterP alg floor draw X {} ObjP.fresh = .ok (startP floor draw) ∧
    ((∀ x, 0 < floor x) → InvP (startP floor draw)) := by
  refine ⟨?_, fun h => ⟨fun f => ?_, fun k b => h _, fun f b => h _, fun b j => h _⟩⟩
  · simp [resetFilterP, Lifecycle.reset, ObjP.fresh, separateOpt, label_filterFree, initNmfP, override, attrOr,
      bind, Except.bind, startP]
    rfl
  · simp [startP]

/-- C86: the same with partitioning and ISS1 or ISS2. -/
theorem C86_initial_signal_partitioned (alg : SignalAlg n) (floor : ℝ → ℝ) (draw : DrawP F n t K) (X : Spec F n t) :
    resetSignalP alg floor draw X {} ObjP.fresh
      = .ok ⟨X, (startP floor draw).Z, (startP floor draw).T, (startP floor draw).V⟩ := by
  have : separate X (fun _ => 1) = X := by funext f; simp [separate]
  simp [resetSignalP, Lifecycle.reset, ObjP.fresh, separateOpt, labelY_filterFree, initNmfP, override, attrOr, bind, Except.bind,
    startP, this]
  rfl

/-- C86: with `max_flooring` the initial latent variables of a basis add up to at least one and to at most
`1 + n_sources * eps`; they add up to one exactly when no share was below `eps`. -/
theorem C86_latent_sum (eps : ℝ) (heps : 0 < eps) (draw : DrawP F n t K) (b : Fin K) (h0 : ∀ k, 0 ≤ draw.Z k b)
    (h1 : 0 < ∑ k, draw.Z k b) :
    1 ≤ ∑ k, (startP (fun x => max x eps) draw).Z k b ∧
    ∑ k, (startP (fun x => max x eps) draw).Z k b ≤ 1 + n * eps ∧
    (∑ k, (startP (fun x => max x eps) draw).Z k b = 1 ↔ ∀ k, eps ≤ draw.Z k b / ∑ k', draw.Z k' b) := by
  have hone : ∑ k, draw.Z k b / ∑ k', draw.Z k' b = 1 := by rw [← Finset.sum_div, div_self h1.ne']
  have hnn : ∀ k, 0 ≤ draw.Z k b / ∑ k', draw.Z k' b := fun k => div_nonneg (h0 k) h1.le
  simp only [startP]
  refine ⟨?_, ?_, fun h k => ?_, fun h => ?_⟩
  · rw [← hone]
    exact Finset.sum_le_sum fun k _ => le_max_left _ _
  · calc _ ≤ ∑ k, (draw.Z k b / ∑ k', draw.Z k' b + eps) :=
        Finset.sum_le_sum fun k _ => max_le (by linarith) (by linarith [hnn k])
      _ = _ := by rw [Finset.sum_add_distrib, hone]; simp
  · by_contra hk
    have : ∑ k, draw.Z k b / ∑ k', draw.Z k' b < ∑ k, max (draw.Z k b / ∑ k', draw.Z k' b) eps :=
      Finset.sum_lt_sum (fun k _ => le_max_left _ _) ⟨k, Finset.mem_univ _, lt_max_of_lt_right (not_le.mp hk)⟩
    linarith
  · rw [← hone]
    exact Finset.sum_congr rfl fun k _ => max_eq_left (h k)

/-- C86: so they need not add up to one. -/
theorem C86_latent_not_one (eps : ℝ) (heps : 0 < eps) : ∃ draw : DrawP Unit 2 1 1,
    (∀ k b, 0 ≤ draw.Z k b ∧ draw.Z k b < 1) ∧ 1 < ∑ k, (startP (fun x => max x eps) draw).Z k 0 := by
  refine ⟨⟨fun k _ => if k = 0 then 1 / 2 else 0, fun _ _ => 1 / 2, fun _ _ => 1 / 2⟩, fun k b => ?_, ?_⟩
  · fin_cases k <;> norm_num
  · obtain ⟨a, -, c⟩ := C86_latent_sum (F := Unit) (t := 1) eps heps
      ⟨fun (k : Fin 2) (_ : Fin 1) => if k = 0 then 1 / 2 else 0, fun _ _ => 1 / 2, fun _ _ => 1 / 2⟩ 0
      (fun k => by fin_cases k <;> norm_num) (by norm_num [Fin.sum_univ_two])
    refine lt_of_le_of_ne a fun h => ?_
    have := c.1 h.symm 1
    norm_num at this
    linarith

/-! ## What a call returns -/

theorem model_mm {floor : ℝ → ℝ} {src : Source} {p : ℝ} {ok : ℝ → Prop} (h : Model floor src p ok) :
    (∃ q κ w, IsMM src q κ w) ∧ ScaleInv src p ∧ ∀ y r, 0 ≤ y → ok y → 0 < r → SpatialOk src floor y r := by
  cases h with
  | gauss hp => exact ⟨⟨_, _, _, gauss_isMM hp⟩, gauss_scaleInv hp, fun _ _ _ _ hr => gauss_spatialOk floor hr⟩
  | gaussME => exact ⟨⟨_, _, _, gaussME_isMM⟩, gaussME_scaleInv, fun _ _ _ _ hr => gaussME_spatialOk floor hr⟩
  | student hp hnu =>
    exact ⟨⟨_, _, _, student_isMM hp hnu⟩, student_scaleInv hp, fun _ _ _ _ hr => student_spatialOk hnu floor hr⟩
  | studentME hnu =>
    exact ⟨⟨_, _, _, studentME_isMM hnu⟩, studentME_scaleInv, fun _ _ _ _ hr => studentME_spatialOk hnu floor hr⟩
  | ggd hp hb hb2 =>
    exact ⟨⟨_, _, _, ggd_isMM hp hb⟩, ggd_scaleInv hp, fun _ _ _ hok hr => ggd_spatialOk hb hb2 floor hr hok.1 hok.2⟩

/-- A regular run succeeds and ends in a state with invertible filters and positive source parameters, which is the result
of a regular update. -/
theorem regular_end {σ : Type} (step : σ → Except PyErr σ) (Inv Reg : σ → Prop)
    (hstep : ∀ s, Inv s → Reg s → ∃ s', step s = .ok s' ∧ Inv s') (m : ℕ) (s : σ) (hs : Inv s)
    (hreg : RegularRun step Reg m s) :
    ∃ s', iterM step m s = .ok s' ∧ Inv s' ∧ (m ≠ 0 → ∃ s1, Inv s1 ∧ Reg s1 ∧ step s1 = .ok s') := by
  induction m generalizing s with
  | zero => exact ⟨s, rfl, hs, fun h => absurd rfl h⟩
  | succ m ih =>
    obtain ⟨s1, h1, h2⟩ := hstep s hs hreg.1
    obtain ⟨s', g1, g2, g3⟩ := ih s1 h2 (hreg.2 s1 h1)
    refine ⟨s', by simp only [iterM, h1, bind, Except.bind, g1], g2, fun _ => ?_⟩
    rcases Nat.eq_zero_or_pos m with rfl | hm
    · cases g1
      exact ⟨s, hs, hreg.1, h1⟩
    · exact g3 hm.ne'

theorem finish_eq (sr : ScaleOpt) (r : Fin n) (X : Spec F n t) (W : F → Mat n ℂ) :
    finish sr r X W = if sr.truthy = true then
      (restoreScale sr (applyProjectionBack r X W) (applyMdp r X W)).bind fun p => .ok (separate X p.2, p.2)
    else .ok (separate X W, W) := by
  unfold finish
  split
  · cases restoreScale sr (applyProjectionBack r X W) (applyMdp r X W) <;> rfl
  · rfl

/-- C86: a first call with IP1 or IP2 and the default scale restoration: it succeeds, records `n_iter + 1` losses which
never increase, the first of them the loss of the initial values, and the signals returned are the reported filter applied to
the mixture and add up to the reference channel. -/
theorem C86_call [Nonempty (Fin K)] (np : Numpy ℂ) {src : Source} {p : ℝ} {ok : ℝ → Prop} {floor : ℝ → ℝ}
    (hm : Model floor src p ok) (alg : FilterAlg n) (halg : alg.Valid) (norm : Norm n) (X : Spec F n t) (ht : 0 < t)
    (hX : ∀ f, LinearIndependent ℂ (X f).row) (draw : Draw F n t K) (hT : ∀ k f b, 0 < floor (draw.T k f b))
    (hV : ∀ k b j, 0 < floor (draw.V k b j)) (n_iter : ℕ) (sr : ScaleOpt) (hsr : AsksPB sr) (r : Fin n)
    (hreg : RegularRun (updateOnce np src p alg norm floor X) (Reg np src p ok alg norm floor X) n_iter
      (start floor draw)) :
    ∃ o Y W, call np src p alg norm floor sr r draw X n_iter true {} Obj.fresh = .ok o ∧
      o.loss.length = n_iter + 1 ∧ o.loss.Pairwise (· ≥ ·) ∧ o.loss.head? = some (loss src X (start floor draw)) ∧
      o.output = .val Y ∧ o.demix = .val W ∧ Y = separate X W ∧ ∀ f j, ∑ k, Y f k j = X f r j := by
  obtain ⟨h1, h2⟩ := C86_initial alg floor draw X
  have hs := h2 hT hV
  obtain ⟨⟨q, κ, w, hmm⟩, hsc, hsp⟩ := model_mm hm
  obtain ⟨ls, g1, g2, g3⟩ := ilrma_run np hmm hsc hsp alg halg norm X ht hX _ hs n_iter hreg
  obtain ⟨s', e1, e2, -⟩ := regular_end _ Inv _ (fun s hs hr =>
    (updateOnce_step np hmm hsc hsp alg halg norm X ht hX s hs hr).imp fun s' h => ⟨h.1, h.2.1⟩) n_iter _ hs hreg
  obtain ⟨v, s'', k1, k2, k3⟩ := iterations_of_lossList _ _ n_iter _ [] ls g1
  rw [e1] at k2
  cases k2
  cases k1
  have hpb := pb_ok (r := r) e2.1
  have hfin : finish sr r X s'.W = .ok (separate X (fun f => Matrix.of fun i j => s'.W f i j * (s'.W f)⁻¹ r i),
      fun f => Matrix.of fun i j => s'.W f i j * (s'.W f)⁻¹ r i) := by
    obtain ⟨ht, hr⟩ := restore_pb hsr (applyProjectionBack r X s'.W) (applyMdp r X s'.W)
    rw [finish_eq, if_pos ht, hr, applyProjectionBack, hpb]
    rfl
  refine ⟨⟨.val _, .val s'.T, .val s'.V, .val _, ls⟩, _, _, ?_, g2, g3, ?_, rfl, rfl, rfl, C23_distortion_free r s'.W _ hpb X⟩
  · have hb : baseCall (updateOnce np src p alg norm floor X) (fun s => .ok (loss src X s)) true n_iter (start floor draw)
        (Obj.fresh : Obj F n t K).loss = .ok (s', ls) := k3
    simp only [call, h1, bind, Except.bind, hb, hfin]
  · cases n_iter with
    | zero => cases g1; rfl
    | succ m =>
      obtain ⟨s1, a1, a2⟩ := bind_ok (show (updateOnce np src p alg norm floor X (start floor draw)).bind _ = _ from g1)
      obtain ⟨vs, b1, b2⟩ := bind_ok a2
      cases b2
      rfl

/-! ## Calling again -/

/-- What the end of `__call__` does to the filter: every row is multiplied by a scalar. -/
theorem finish_diag {sr : ScaleOpt} {r : Fin n} {X Y : Spec F n t} {W W' : F → Mat n ℂ}
    (h : finish sr r X W = .ok (Y, W')) :
    Y = separate X W' ∧ ∃ c : F → Fin n → ℂ, ∀ f, W' f = diagonal (c f) * W f := by
  rw [finish_eq] at h
  by_cases a0 : AsksNone sr
  · rw [restore_none a0] at h
    cases h
    exact ⟨rfl, fun _ _ => 1, fun f => by simp⟩
  by_cases a1 : AsksPB sr
  · obtain ⟨ht, hr⟩ := restore_pb a1 (applyProjectionBack r X W) (applyMdp r X W)
    rw [if_pos ht, hr] at h
    obtain ⟨q, h3, h4⟩ := bind_ok h
    obtain ⟨V, h5, h6⟩ := bind_ok h3
    cases h6
    cases h4
    refine ⟨rfl, ?_⟩
    obtain ⟨-, rfl⟩ := pb_success h5
    refine ⟨fun f i => (W f)⁻¹ r i, fun f => ?_⟩
    ext i j
    rw [diagonal_mul]
    exact mul_comm _ _
  by_cases a2 : AsksMDP sr
  · obtain ⟨ht, hr⟩ := restore_mdp a2 (applyProjectionBack r X W) (applyMdp r X W)
    rw [if_pos ht, hr] at h
    obtain ⟨q, h3, h4⟩ := bind_ok h
    obtain ⟨V, h5, h6⟩ := bind_ok h3
    cases h6
    cases h4
    refine ⟨rfl, ?_⟩
    have hX : ∀ f, IsUnit (X f * (X f)ᴴ).det ∧ V f = (X f * (X f)ᴴ)⁻¹ := by
      by_cases hu : ∀ f, IsUnit (X f * (X f)ᴴ).det
      · rw [npInvB, if_pos hu] at h5
        cases h5
        exact fun f => ⟨hu f, rfl⟩
      · rw [npInvB, if_neg hu] at h5
        cases h5
    have := fun f => mdp_diag r (separate X W) X f
    choose d hd using this
    refine ⟨d, fun f => ?_⟩
    change mdp r (separate X W) X f * (X f)ᴴ * V f = _
    rw [hd, (hX f).2]
    exact refit _ _ _ (hX f).1
  · obtain ⟨ht, hr⟩ := restore_other a0 a1 a2 (applyProjectionBack r X W) (applyMdp r X W)
    rw [if_pos ht, hr] at h
    cases h

theorem resetFilter_again (alg : FilterAlg n) (floor : ℝ → ℝ) (draw : Draw F n t K) (X : Spec F n t) (W : F → Mat n ℂ)
    (T : Fin n → F → Fin K → ℝ) (V : Fin n → Fin K → Fin t → ℝ) (Y : Attr (Spec F n t)) (ls : List ℝ) :
    resetFilter alg floor draw X {} ⟨.val W, .val T, .val V, Y, ls⟩ = .ok ⟨W, T, V⟩ := by
  simp [resetFilter, Lifecycle.reset, separateOpt, label_filterFree, initNmf, override, attrOr, bind, Except.bind]

theorem resetFilterP_again (alg : FilterAlg n) (floor : ℝ → ℝ) (draw : DrawP F n t K) (X : Spec F n t) (W : F → Mat n ℂ)
    (Z : Fin n → Fin K → ℝ) (T : F → Fin K → ℝ) (V : Fin K → Fin t → ℝ) (Y : Attr (Spec F n t)) (ls : List ℝ) :
    resetFilterP alg floor draw X {} ⟨.val W, .val Z, .val T, .val V, Y, ls⟩ = .ok ⟨W, Z, T, V⟩ := by
  simp [resetFilterP, Lifecycle.reset, separateOpt, label_filterFree, initNmfP, override, attrOr, bind, Except.bind]

/-- C86: without scale restoration a call continues exactly where the previous one stopped, whatever numbers the generator
would draw: two calls leave the object that one call with all iterations would have left. -/
theorem C86_resume (np : Numpy ℂ) (src : Source) (p : ℝ) (alg : FilterAlg n) (norm : Norm n) (floor : ℝ → ℝ)
    (sr : ScaleOpt) (hsr : AsksNone sr) (r : Fin n) (draw draw' : Draw F n t K) (X : Spec F n t) (a b : ℕ) (ic : Bool)
    (kw : Kw F n t K) (o : Obj F n t K) :
    (call np src p alg norm floor sr r draw X a ic kw o).bind (call np src p alg norm floor sr r draw' X b false {})
      = call np src p alg norm floor sr r draw X (a + b) ic kw o := by
  have hfin : ∀ W : F → Mat n ℂ, finish sr r X W = .ok (separate X W, W) := fun W => by
    rw [finish_eq, restore_none hsr]
    rfl
  have e : ∀ (draw : Draw F n t K) (m : ℕ) (ic : Bool) (kw : Kw F n t K) (o : Obj F n t K),
      call np src p alg norm floor sr r draw X m ic kw o = (resetFilter alg floor draw X kw o).bind fun s =>
        (baseCall (updateOnce np src p alg norm floor X) (fun s => .ok (loss src X s)) ic m s o.loss).bind fun q =>
          .ok ⟨.val q.1.W, .val q.1.T, .val q.1.V, .val (separate X q.1.W), q.2⟩ := by
    intro draw m ic kw o
    simp only [call, hfin, bind, Except.bind]
  rw [e, e]
  cases resetFilter alg floor draw X kw o with
  | error _ => rfl
  | ok s =>
    simp only [Except.bind]
    rw [baseCall_add]
    cases baseCall (updateOnce np src p alg norm floor X) (fun s => .ok (loss src X s)) ic a s o.loss with
    | error _ => rfl
    | ok q =>
      simp only [Except.bind]
      rw [e, resetFilter_again]
      rfl

/-- C86: the same with partitioning. -/
theorem C86_resume_partitioned (np : Numpy ℂ) (src : Source) (p : ℝ) (alg : FilterAlg n) (norm : Norm n) (floor : ℝ → ℝ)
    (sr : ScaleOpt) (hsr : AsksNone sr) (r : Fin n) (draw draw' : DrawP F n t K) (X : Spec F n t) (a b : ℕ) (ic : Bool)
    (kw : KwP F n t K) (o : ObjP F n t K) :
    (callP np src p alg norm floor sr r draw X a ic kw o).bind (callP np src p alg norm floor sr r draw' X b false {})
      = callP np src p alg norm floor sr r draw X (a + b) ic kw o := by
  have hfin : ∀ W : F → Mat n ℂ, finish sr r X W = .ok (separate X W, W) := fun W => by
    rw [finish_eq, restore_none hsr]
    rfl
  have e : ∀ (draw : DrawP F n t K) (m : ℕ) (ic : Bool) (kw : KwP F n t K) (o : ObjP F n t K),
      callP np src p alg norm floor sr r draw X m ic kw o = (resetFilterP alg floor draw X kw o).bind fun s =>
        (baseCall (updateOnceP np src p alg norm floor X) (fun s => .ok (lossP src X s)) ic m s o.loss).bind fun q =>
          .ok ⟨.val q.1.W, .val q.1.Z, .val q.1.T, .val q.1.V, .val (separate X q.1.W), q.2⟩ := by
    intro draw m ic kw o
    simp only [callP, hfin, bind, Except.bind]
  rw [e, e]
  cases resetFilterP alg floor draw X kw o with
  | error _ => rfl
  | ok s =>
    simp only [Except.bind]
    rw [baseCall_add]
    cases baseCall (updateOnceP np src p alg norm floor X) (fun s => .ok (lossP src X s)) ic a s o.loss with
    | error _ => rfl
    | ok q =>
      simp only [Except.bind]
      rw [e, resetFilterP_again]
      rfl

/-- The pieces of a successful call. -/
theorem call_ok {np : Numpy ℂ} {src : Source} {p : ℝ} {alg : FilterAlg n} {norm : Norm n} {floor : ℝ → ℝ}
    {sr : ScaleOpt} {r : Fin n} {draw : Draw F n t K} {X : Spec F n t} {m : ℕ} {ic : Bool} {kw : Kw F n t K}
    {o o1 : Obj F n t K} (h : call np src p alg norm floor sr r draw X m ic kw o = .ok o1) :
    ∃ s s' W, resetFilter alg floor draw X kw o = .ok s ∧
      baseCall (updateOnce np src p alg norm floor X) (fun s => .ok (loss src X s)) ic m s o.loss = .ok (s', o1.loss) ∧
      finish sr r X s'.W = .ok (separate X W, W) ∧ o1.demix = .val W ∧ o1.basis = .val s'.T ∧ o1.activation = .val s'.V ∧
      o1.output = .val (separate X W) := by
  obtain ⟨s, h1, h2⟩ := bind_ok h
  obtain ⟨q, h3, h4⟩ := bind_ok h2
  obtain ⟨⟨Y, W⟩, h5, h6⟩ := bind_ok h4
  cases h6
  have := (finish_diag h5).1
  subst this
  exact ⟨s, q.1, W, h1, h3, h5, rfl, rfl, rfl, rfl⟩

/-- The last of at least one update. -/
theorem iterM_last {σ : Type} {step : σ → Except PyErr σ} {m : ℕ} (hm : m ≠ 0) {s s' : σ} (h : iterM step m s = .ok s') :
    ∃ s1, step s1 = .ok s' := by
  induction m generalizing s with
  | zero => exact absurd rfl hm
  | succ m ih =>
    obtain ⟨s1, h1, h2⟩ := bind_ok h
    rcases Nat.eq_zero_or_pos m with rfl | hm'
    · cases h2
      exact ⟨s, h1⟩
    · exact ih hm'.ne' h2

theorem iterM_one {σ : Type} {step : σ → Except PyErr σ} {s s' : σ} (h : iterM step 1 s = .ok s') : step s = .ok s' := by
  obtain ⟨s1, h1, h2⟩ := bind_ok h
  cases h2
  exact h1

/-- C86: with `normalization="projection_back"` and scale restoration by projection back a call continues exactly where the
previous one stopped, if that one succeeded and made at least one iteration. -/
theorem C86_resume_projection_back (np : Numpy ℂ) (src : Source) (p : ℝ) (alg : FilterAlg n) (floor : ℝ → ℝ)
    (sr : ScaleOpt) (hsr : AsksPB sr) (r : Fin n) (draw draw' : Draw F n t K) (X : Spec F n t) (a b : ℕ) (ha : a ≠ 0)
    (ic : Bool) (kw : Kw F n t K) (o o1 : Obj F n t K)
    (h : call np src p alg (.projectionBack r) floor sr r draw X a ic kw o = .ok o1) :
    call np src p alg (.projectionBack r) floor sr r draw' X b false {} o1
      = call np src p alg (.projectionBack r) floor sr r draw X (a + b) ic kw o := by
  obtain ⟨s, s', W, h1, h2, h3, h4, h5, h6, h7⟩ := call_ok h
  obtain ⟨s1, hs1⟩ := iterM_last ha (baseCall_ok _ _ _ _ _ _ _ _ h2).1
  -- the filter is already scaled
  have hW : W = s'.W := by
    obtain ⟨s2, -, g2⟩ := bind_ok hs1
    obtain ⟨sc, g3, g4⟩ := bind_ok (show (npInvB s2.W).bind _ = _ from g2)
    cases g4
    have hpb : projectionBackFilter r s2.W = .ok (mulRows (fun f k => sc f r k) s2.W) := by
      rw [projectionBackFilter, g3]
      rfl
    rw [finish_eq] at h3
    obtain ⟨ht, hr⟩ := restore_pb hsr (applyProjectionBack r X (mulRows (fun f k => sc f r k) s2.W))
      (applyMdp r X (mulRows (fun f k => sc f r k) s2.W))
    rw [if_pos ht, hr] at h3
    obtain ⟨q, k1, k2⟩ := bind_ok h3
    obtain ⟨V, k3, k4⟩ := bind_ok k1
    cases k4
    have k5 : V = W := congrArg Prod.snd (Except.ok.inj k2)
    subst k5
    exact C22_idempotent r s2.W _ _ hpb k3
  subst hW
  have ho : o1 = ⟨.val s'.W, .val s'.T, .val s'.V, o1.output, o1.loss⟩ := by
    cases o1
    simp_all
  rw [ho]
  simp only [call, h1, resetFilter_again, bind, Except.bind, baseCall_add, h2, baseCall_false]

theorem obj_eq {o : Obj F n t K} {W : F → Mat n ℂ} {T : Fin n → F → Fin K → ℝ} {V : Fin n → Fin K → Fin t → ℝ}
    (h1 : o.demix = .val W) (h2 : o.basis = .val T) (h3 : o.activation = .val V) :
    o = ⟨.val W, .val T, .val V, o.output, o.loss⟩ := by
  rw [← h1, ← h2, ← h3]

/-- A call whose iterations meet the conditions of the descent property succeeds. -/
theorem call_succeeds [Nonempty (Fin K)] (np : Numpy ℂ) {src : Source} {p : ℝ} {ok : ℝ → Prop} {floor : ℝ → ℝ}
    (hm : Model floor src p ok) (alg : FilterAlg n) (halg : alg.Valid) (norm : Norm n) (X : Spec F n t) (ht : 0 < t)
    (hX : ∀ f, LinearIndependent ℂ (X f).row) (draw : Draw F n t K) (n_iter : ℕ) (sr : ScaleOpt) (hsr : AsksPB sr) (r : Fin n)
    (ic : Bool) (kw : Kw F n t K) (o : Obj F n t K) (s0 : St F n t K) (h0 : resetFilter alg floor draw X kw o = .ok s0)
    (hs0 : Inv s0)
    (hreg : RegularRun (updateOnce np src p alg norm floor X) (Reg np src p ok alg norm floor X) n_iter s0) :
    ∃ o', call np src p alg norm floor sr r draw X n_iter ic kw o = .ok o' := by
  obtain ⟨⟨q, κ, w, hmm⟩, hsc, hsp⟩ := model_mm hm
  obtain ⟨ls, g1, g2, g3⟩ := ilrma_run np hmm hsc hsp alg halg norm X ht hX _ hs0 n_iter hreg
  obtain ⟨s', e1, e2, -⟩ := regular_end _ Inv _ (fun s hs hr =>
    (updateOnce_step np hmm hsc hsp alg halg norm X ht hX s hs hr).imp fun s' h => ⟨h.1, h.2.1⟩) n_iter _ hs0 hreg
  have hpb := pb_ok (r := r) e2.1
  obtain ⟨W', hfin⟩ : ∃ W', finish sr r X s'.W = .ok (separate X W', W') := by
    obtain ⟨ht, hr⟩ := restore_pb hsr (applyProjectionBack r X s'.W) (applyMdp r X s'.W)
    rw [finish_eq, if_pos ht, hr, applyProjectionBack, hpb]
    exact ⟨_, rfl⟩
  have hb : ∃ ls', baseCall (updateOnce np src p alg norm floor X) (fun s => .ok (loss src X s)) ic n_iter s0 o.loss
      = .ok (s', ls') := by
    cases ic with
    | true =>
      obtain ⟨v, s'', k1, k2, k3⟩ := iterations_of_lossList _ _ n_iter _ o.loss ls g1
      rw [e1] at k2
      cases k2
      cases k1
      exact ⟨_, k3⟩
    | false =>
      have key : ∀ (m : ℕ) (s s' : St F n t K) (l : List ℝ), iterM (updateOnce np src p alg norm floor X) m s = .ok s' →
          ∃ l', iterations (updateOnce np src p alg norm floor X) (fun s => .ok (loss src X s)) m s l = .ok (s', l') := by
        intro m
        induction m with
        | zero =>
          intro s s' l h
          cases h
          exact ⟨l, rfl⟩
        | succ m ih =>
          intro s s' l h
          obtain ⟨s1, h1, h2⟩ := bind_ok h
          obtain ⟨l', h3⟩ := ih s1 s' (l ++ [loss src X s1]) h2
          exact ⟨l', by simp only [iterations, h1, bind, Except.bind, h3]⟩
      obtain ⟨l', h⟩ := key n_iter s0 s' o.loss e1
      exact ⟨l', by rw [baseCall_false, h]⟩
  obtain ⟨ls', hb⟩ := hb
  exact ⟨⟨.val W', .val s'.T, .val s'.V, .val (separate X W'), ls'⟩, by simp only [call, h0, bind, Except.bind, hb, hfin]⟩

/-! ### The loss after scale restoration -/

/-- The mean over the frames of the power of a separated signal relative to the variance of the source model. -/
noncomputable def relPower (p : ℝ) (Y : Spec F n t) (R : Fin n → F → Fin t → ℝ) (f : F) (k : Fin n) : ℝ :=
  meanT fun j => ‖Y f k j‖ ^ 2 / R k f j ^ (2 / p)

/-- `GaussILRMA` with `source_algorithm="MM"` or `"ME"`. -/
def IsGauss (src : Source) (p : ℝ) : Prop := 0 < p ∧ (src = gauss p ∨ p = 2 ∧ src = gaussME)

theorem IsGauss.model {src : Source} {p : ℝ} (h : IsGauss src p) (floor : ℝ → ℝ) : Model floor src p fun _ => True := by
  obtain ⟨hp, rfl | ⟨rfl, rfl⟩⟩ := h
  · exact .gauss hp
  · exact .gaussME

theorem IsGauss.ell {src : Source} {p : ℝ} (h : IsGauss src p) (y r : ℝ) :
    src.ell y r = y ^ 2 / r ^ (2 / p) + 2 / p * Real.log r := by
  obtain ⟨hp, rfl | ⟨rfl, rfl⟩⟩ := h <;> rfl

theorem IsGauss.phi {src : Source} {p : ℝ} (h : IsGauss src p) (floor : ℝ → ℝ) (y r : ℝ) :
    src.phi floor y r = 1 / r ^ (2 / p) := by
  obtain ⟨hp, rfl | ⟨rfl, rfl⟩⟩ := h <;> rfl

theorem relPower_diag {p : ℝ} {X : Spec F n t} {W W' : F → Mat n ℂ} {c : F → Fin n → ℂ}
    (h : ∀ f, W' f = diagonal (c f) * W f) (R : Fin n → F → Fin t → ℝ) (f : F) (k : Fin n) :
    relPower p (separate X W') R f k = ‖c f k‖ ^ 2 * relPower p (separate X W) R f k := by
  simp only [relPower, meanT, separate_diagonal X W W' c h, norm_mul, mul_pow, mul_div_assoc]
  rw [← Finset.mul_sum, mul_div_assoc]

/-- One iteration with IP1 leaves signals with mean relative power one. -/
theorem relPower_one [Nonempty (Fin K)] (np : Numpy ℂ) {src : Source} {p : ℝ} (hc : IsGauss src p) {ok : ℝ → Prop}
    {floor : ℝ → ℝ} (norm : Norm n) (X : Spec F n t) (hX : ∀ f, LinearIndependent ℂ (X f).row)
    (s s' : St F n t K) (hs : Inv s) (hr : Reg np src p ok .ip1 norm floor X s)
    (h : updateOnce np src p .ip1 norm floor X s = .ok s') (f : F) (k : Fin n) :
    relPower p (separate X s'.W) (recon s'.T s'.V) f k = 1 := by
  obtain ⟨⟨q, κ, w, hmm⟩, -⟩ := model_mm (hc.model floor)
  obtain ⟨hs1, -⟩ := updateSource_step hmm floor X s hs hr.basis hr.activation
  obtain ⟨s2, h2, h3⟩ := bind_ok h
  obtain ⟨D, hD⟩ : ∃ D, D = updateSource src floor X s := ⟨_, rfl⟩
  have hsp := hr.spatial
  rw [← hD] at h2 hs1 hsp
  have hWD : D.W = s.W := by rw [hD]; rfl
  have hnorm := hr.norm s2 (by rw [← hD]; exact h2)
  have hR := recon_pos hs1.2.1 hs1.2.2
  obtain ⟨phi, hphi⟩ : ∃ phi, phi = varphi src floor (separate X s.W) (recon D.T D.V) := ⟨_, rfl⟩
  have hphi' : ∀ f k j, phi f k j = 1 / recon D.T D.V k f j ^ (2 / p) := fun f k j => by
    rw [hphi]; exact hc.phi _ _ _
  have hpos : ∀ f k j, 0 < phi f k j := fun f k j => by
    rw [hphi']; exact one_div_pos.mpr (Real.rpow_pos_of_pos (hR k f j) _)
  -- the filter after the spatial update
  have key : ∀ f, ∃ V, ip1 id (Iva.wcov (phi f) X f) (s.W f) = .ok V ∧ ∀ k, quad (Iva.wcov (phi f) X f k) (V k) = 1 := fun f =>
    C30_normalises id _ (fun k => Iva.wcov_posDef (hpos f) hX f k) (s.W f) (hs.1 f) rfl
  choose V hV1 hV2 using key
  have hrun : Iva.ip1Stack id (fun f => Iva.wcov (phi f) X f) s.W = .ok V :=
    foldlM_onBins (fun f => ip1Row id (Iva.wcov (phi f) X f)) (List.finRange n) s.W V hV1
  obtain ⟨W2, k1, k2⟩ := bind_ok h2
  cases k2
  rw [hWD, ← hphi, hsp phi hphi] at k1
  have hW2 : V = W2 := Except.ok.inj (hrun.symm.trans k1)
  subst hW2
  have hbal : relPower p (separate X V) (recon D.T D.V) f k = 1 := by
    have := hV2 f k
    rw [Iva.quad_wcov, wdiag, quad_diagonal] at this
    rw [← this, relPower, meanT, Finset.sum_div]
    refine Finset.sum_congr rfl fun j _ => ?_
    rw [hphi' f k j, separate]
    ring
  have hW2u : ∀ f, IsUnit (V f).det := by
    obtain ⟨V', e1, e2, -⟩ := Iva.ip1Stack_weighted phi hpos X hX s.W hs.1
    cases Except.ok.inj (hrun.symm.trans e1)
    exact e2
  obtain ⟨s3, c, g1, g2, g3, -, -, g6⟩ := normalize_spec p floor X norm ⟨V, D.T, D.V⟩ hW2u hs1.2.1 hnorm
  have h4 : s3 = s' := Except.ok.inj (g1.symm.trans h3)
  subst h4
  rw [relPower_diag g3]
  have : relPower p (separate X V) (recon s3.T s3.V) f k
      = relPower p (separate X V) (recon D.T D.V) f k / ‖c f k‖ ^ 2 := by
    simp only [relPower, meanT, g6]
    rw [div_right_comm, Finset.sum_div _ _ (‖c f k‖ ^ 2)]
    refine congrArg (fun z : ℝ => z / (t : ℝ)) (Finset.sum_congr rfl fun j _ => ?_)
    rw [Real.mul_rpow (hR k f j).le (by positivity), ← Real.rpow_mul (norm_nonneg _), mul_div_cancel₀ _ hc.1.ne', div_div]
    norm_num
  rw [this, hbal]
  have := norm_pos_iff.mpr (g2 f k)
  field_simp

theorem lossOf_restored {src : Source} {p : ℝ} (hc : IsGauss src p) {X : Spec F n t} {W W' : F → Mat n ℂ}
    {c : F → Fin n → ℂ} (h : ∀ f, W' f = diagonal (c f) * W f) (hc0 : ∀ f k, c f k ≠ 0) (hW : ∀ f, IsUnit (W f).det)
    (R : Fin n → F → Fin t → ℝ) (hone : ∀ f k, relPower p (separate X W) R f k = 1) :
    lossOf src (separate X W') R W' = lossOf src (separate X W) R W
      + ∑ f, ∑ k, (relPower p (separate X W') R f k - 1 - Real.log (relPower p (separate X W') R f k)) := by
  rw [lossOf, lossOf, ← Finset.sum_add_distrib]
  refine Finset.sum_congr rfl fun f _ => ?_
  have hsplit : ∀ (W : F → Mat n ℂ) k, meanT (fun j => src.ell ‖separate X W f k j‖ (R k f j))
      = relPower p (separate X W) R f k + meanT (fun j => 2 / p * Real.log (R k f j)) := by
    intro W k
    simp only [relPower, meanT, hc.ell, Finset.sum_add_distrib, add_div]
  have hdet : Real.log ‖(W' f).det‖ = ∑ k, Real.log ‖c f k‖ + Real.log ‖(W f).det‖ := by
    rw [h, det_mul, det_diagonal, norm_mul, norm_prod, Real.log_mul, Real.log_prod]
    · exact fun k _ => norm_ne_zero_iff.mpr (hc0 f k)
    · exact Finset.prod_ne_zero_iff.mpr fun k _ => norm_ne_zero_iff.mpr (hc0 f k)
    · exact norm_ne_zero_iff.mpr (hW f).ne_zero
  have hm : ∀ k, relPower p (separate X W') R f k = ‖c f k‖ ^ 2 := fun k => by
    rw [relPower_diag h, hone, mul_one]
  simp only [hsplit, hone, hm, Real.log_pow, hdet, Finset.sum_add_distrib, Finset.sum_sub_distrib, Nat.cast_ofNat,
    ← Finset.mul_sum]
  ring

/-- C86: with `GaussILRMA` and IP1 the loss recorded at the start of the next call is the last loss of the previous call plus
`m - 1 - log m` for every source and bin, `m` being the mean over the frames of the power of the returned signal relative to
the variance of the reported source model. It is never less than the last loss of the previous call, and equal only if
all these means are one. -/
theorem C86_resume_loss [Nonempty (Fin K)] (np : Numpy ℂ) {src : Source} {p : ℝ} (hc : IsGauss src p) (floor : ℝ → ℝ)
    (norm : Norm n) (X : Spec F n t) (ht : 0 < t) (hX : ∀ f, LinearIndependent ℂ (X f).row) (sr : ScaleOpt) (r : Fin n)
    (draw draw' : Draw F n t K) (a b : ℕ) (ha : a ≠ 0) (ic : Bool) (kw : Kw F n t K) (o o1 o2 : Obj F n t K)
    (h1 : call np src p .ip1 norm floor sr r draw X a ic kw o = .ok o1)
    (h2 : call np src p .ip1 norm floor sr r draw' X b true {} o1 = .ok o2)
    (hreg : ∀ s0, resetFilter .ip1 floor draw X kw o = .ok s0 → Inv s0 ∧
      RegularRun (updateOnce np src p .ip1 norm floor X) (Reg np src p (fun _ => True) .ip1 norm floor X) a s0)
    (Y : Spec F n t) (T : Fin n → F → Fin K → ℝ) (V : Fin n → Fin K → Fin t → ℝ) (hY : o1.output = .val Y)
    (hT : o1.basis = .val T) (hV : o1.activation = .val V) (hne : ∀ f k, ∃ j, Y f k j ≠ 0) :
    ∃ v v', o1.loss.getLast? = some v ∧ o2.loss[o1.loss.length]? = some v' ∧
      v' = v + ∑ f, ∑ k, (relPower p Y (recon T V) f k - 1 - Real.log (relPower p Y (recon T V) f k)) ∧
      v ≤ v' ∧ (v' = v ↔ ∀ f k, relPower p Y (recon T V) f k = 1) := by
  obtain ⟨s0, s', W, a1, a2, a3, a4, a5, a6, a7⟩ := call_ok h1
  obtain ⟨hs0, hrun⟩ := hreg s0 a1
  rw [hY] at a7
  cases a7
  rw [hT] at a5
  cases a5
  rw [hV] at a6
  cases a6
  obtain ⟨⟨q, κ, w, hmm⟩, hsc, hsp⟩ := model_mm (hc.model floor)
  obtain ⟨s'', e1, e2, e3⟩ := regular_end _ Inv _ (fun s hs hr =>
    (updateOnce_step np hmm hsc hsp .ip1 trivial norm X ht hX s hs hr).imp fun s' h => ⟨h.1, h.2.1⟩) a s0 hs0 hrun
  obtain ⟨b1, -, b3⟩ := baseCall_ok _ _ _ _ _ _ _ _ a2
  rw [e1] at b1
  cases b1
  obtain ⟨s1, c1, c2, c3⟩ := e3 ha
  have hone := relPower_one np hc norm X hX s1 s' c1 c2 c3
  obtain ⟨-, c, hd⟩ := finish_diag a3
  have hc0 : ∀ f k, c f k ≠ 0 := fun f k h0 => by
    obtain ⟨j, hj⟩ := hne f k
    exact hj (by rw [separate_diagonal X s'.W W c hd, h0, zero_mul])
  obtain ⟨v, d1, d2⟩ := b3 ha
  cases d1
  have ho : o1 = ⟨.val W, .val s'.T, .val s'.V, o1.output, o1.loss⟩ := by
    cases o1
    simp_all
  obtain ⟨s2, s2', W2, f1, f2, -⟩ := call_ok h2
  rw [ho, resetFilter_again] at f1
  cases f1
  obtain ⟨v', g1, g2⟩ := baseCall_initial _ _ _ _ _ _ _ f2
  cases g1
  have hjump := lossOf_restored hc hd hc0 e2.1 (recon s'.T s'.V) hone
  have hm : ∀ f k, 0 < relPower p (separate X W) (recon s'.T s'.V) f k := fun f k => by
    rw [relPower_diag hd, hone, mul_one]
    exact pow_pos (norm_pos_iff.mpr (hc0 f k)) 2
  have hterm : ∀ f k, 0 ≤ relPower p (separate X W) (recon s'.T s'.V) f k - 1
      - Real.log (relPower p (separate X W) (recon s'.T s'.V) f k) := fun f k => by
    linarith [Real.log_le_sub_one_of_pos (hm f k)]
  refine ⟨_, _, d2, g2, hjump, ?_, ?_⟩
  · rw [show loss src X ⟨W, s'.T, s'.V⟩ = _ from hjump]
    exact le_add_of_nonneg_right (Finset.sum_nonneg fun f _ => Finset.sum_nonneg fun k _ => hterm f k)
  · rw [show loss src X ⟨W, s'.T, s'.V⟩ = _ from hjump]
    change lossOf src (separate X s'.W) (recon s'.T s'.V) s'.W + _ = lossOf src (separate X s'.W) (recon s'.T s'.V) s'.W ↔ _
    rw [add_eq_left, Finset.sum_eq_zero_iff_of_nonneg fun f _ => Finset.sum_nonneg fun k _ => hterm f k]
    refine ⟨fun h f k => ?_, fun h f _ => Finset.sum_eq_zero fun k _ => by rw [h f k]; simp⟩
    have := (Finset.sum_eq_zero_iff_of_nonneg fun k _ => hterm f k).mp (h f (Finset.mem_univ _)) k (Finset.mem_univ _)
    by_contra hk
    linarith [Real.log_lt_sub_one_of_pos (hm f k) hk]

/-! ### A mixture with one channel -/

/-- One bin, one channel, one frame with the value two. -/
def exX : Spec Unit 1 1 := fun _ => !![2]

/-- All draws one half. -/
noncomputable def exDraw : Draw Unit 1 1 1 := ⟨fun _ _ _ => 1 / 2, fun _ _ _ => 1 / 2⟩

theorem exX_indep : ∀ f, LinearIndependent ℂ (exX f).row := by
  intro f
  rw [Fintype.linearIndependent_iff]
  intro g hg i
  have := congrFun hg 0
  simpa [Subsingleton.elim i 0, exX] using this

theorem exX_pos {W : Unit → Mat 1 ℂ} (hW : ∀ f, IsUnit (W f).det) (f : Unit) (k s : Fin 1) :
    0 < ‖separate exX W f k s‖ := by
  have h0 := (hW f).ne_zero
  rw [det_fin_one] at h0
  refine norm_pos_iff.mpr ?_
  simpa [separate, mul_apply, exX, Subsingleton.elim k 0, Subsingleton.elim s 0] using h0

theorem exX_reg (np : Numpy ℂ) (s : St Unit 1 1 1) (hs : Inv s) :
    Reg np (gauss 2) 2 (fun _ => True) .ip1 .off id exX s := by
  have hnum : ∀ y r : ℝ, 0 < y → 0 < r → 0 < (gauss 2).num y r := fun y r h1 h2 =>
    div_pos (pow_pos h1 2) (Real.rpow_pos_of_pos h2 _)
  have hR := recon_pos hs.2.1 hs.2.2
  have hB : ∀ k f b, 0 < basisRaw (gauss 2) (separate exX s.W) s.T s.V k f b := fun k f b =>
    mul_pos (Real.rpow_pos_of_pos (div_pos
      (Finset.sum_pos (fun j _ => mul_pos (hs.2.2 k b j) (hnum _ _ (exX_pos hs.1 f k j) (hR k f j)))
        Finset.univ_nonempty)
      (Finset.sum_pos (fun j _ => div_pos (hs.2.2 k b j) (hR k f j)) Finset.univ_nonempty)) _) (hs.2.1 k f b)
  have hR' := recon_pos (T := updateBasis (gauss 2) id (separate exX s.W) s.T s.V) hB hs.2.2
  have hA : ∀ k b j, 0 < activationRaw (gauss 2) (separate exX s.W)
      (updateBasis (gauss 2) id (separate exX s.W) s.T s.V) s.V k b j := fun k b j =>
    mul_pos (Real.rpow_pos_of_pos (div_pos
      (Finset.sum_pos (fun f _ => mul_pos (hB k f b) (hnum _ _ (exX_pos hs.1 f k j) (hR' k f j)))
        Finset.univ_nonempty)
      (Finset.sum_pos (fun f _ => div_pos (hB k f b) (hR' k f j)) Finset.univ_nonempty)) _) (hs.2.2 k b j)
  exact ⟨fun k f b => FloorMild.of_id (hB k f b), fun k b j => FloorMild.of_id (hA k b j), fun _ _ _ => trivial,
    fun _ _ => rfl, fun s' h => trivial⟩

theorem exX_run (np : Numpy ℂ) (s : St Unit 1 1 1) (hs : Inv s) (m : ℕ) :
    RegularRun (updateOnce np (gauss 2) 2 .ip1 .off id exX) (Reg np (gauss 2) 2 (fun _ => True) .ip1 .off id exX) m s := by
  refine regularRun_of_inv Inv (exX_reg np) (fun s s' hs h => ?_) _ _ hs
  obtain ⟨s'', e1, e2, -⟩ := updateOnce_step np (gauss_isMM two_pos) (gauss_scaleInv two_pos)
    (fun _ _ _ _ hr => gauss_spatialOk id hr) .ip1 trivial .off exX one_pos exX_indep s hs (exX_reg np s hs)
  rw [h] at e1
  cases e1
  exact e2

theorem exDraw_inv : Inv (start id exDraw) := by
  refine ⟨fun f => by simp [start], fun k f b => ?_, fun k b j => ?_⟩ <;> norm_num [start, exDraw]

/-- The hypotheses of `C86_call` hold here for every number of iterations. -/
example (np : Numpy ℂ) (n_iter : ℕ) : ∃ o Y W, call np (gauss 2) 2 .ip1 .off id (.bool true) 0 exDraw exX n_iter true {}
      (Obj.fresh : Obj Unit 1 1 1) = .ok o ∧
      o.loss.length = n_iter + 1 ∧ o.loss.Pairwise (· ≥ ·) ∧ o.loss.head? = some (loss (gauss 2) exX (start id exDraw)) ∧
      o.output = .val Y ∧ o.demix = .val W ∧ Y = separate exX W ∧ ∀ f j, ∑ k, Y f k j = exX f 0 j :=
  C86_call np (.gauss two_pos) .ip1 trivial .off exX one_pos exX_indep exDraw exDraw_inv.2.1 exDraw_inv.2.2 n_iter
    (.bool true) (.inl rfl) 0 (exX_run np _ exDraw_inv n_iter)

/-- The source model after one iteration: variance two. -/
theorem exX_model (np : Numpy ℂ) (s' : St Unit 1 1 1)
    (h : updateOnce np (gauss 2) 2 .ip1 .off id exX (start id exDraw) = .ok s') : recon s'.T s'.V 0 () 0 = 2 := by
  obtain ⟨s2, h2, h3⟩ := bind_ok h
  cases h3
  obtain ⟨W, -, h4⟩ := bind_ok h2
  cases h4
  have hy : ‖separate exX (start id exDraw).W () 0 0‖ = 2 := by
    simp [separate, start, exX]
  have hsq : ∀ x y : ℝ, 0 ≤ x → y = x ^ 2 → y ^ ((2 : ℝ) / (2 + 2)) = x := fun x y hx hy => by
    rw [hy, ← Real.rpow_natCast x 2, ← Real.rpow_mul hx]
    norm_num
  have hT : updateBasis (gauss 2) id (separate exX (start id exDraw).W) (start id exDraw).T (start id exDraw).V 0 () 0 = 2 := by
    simp only [updateBasis, basisRaw, recon, Finset.univ_unique, Finset.sum_singleton, id, gauss]
    rw [show ((default : Fin 1)) = 0 from rfl, hy, hsq 4 _ (by norm_num)]
    · norm_num [start, exDraw]
    · norm_num [start, exDraw]
  have hV : updateActivation (gauss 2) id (separate exX (start id exDraw).W)
      (updateBasis (gauss 2) id (separate exX (start id exDraw).W) (start id exDraw).T (start id exDraw).V)
      (start id exDraw).V 0 0 0 = 1 := by
    simp only [updateActivation, activationRaw, recon, Finset.univ_unique, Finset.sum_singleton]
    rw [show ((default : Fin 1)) = 0 from rfl, show (default : Unit) = () from rfl, hT, hy]
    simp only [id, gauss]
    rw [hsq 2 _ (by norm_num)]
    · norm_num [start, exDraw]
    · norm_num [start, exDraw]
  simp only [recon, Finset.univ_unique, Finset.sum_singleton]
  change updateBasis (gauss 2) id (separate exX (start id exDraw).W) (start id exDraw).T (start id exDraw).V 0 () 0 *
    updateActivation (gauss 2) id (separate exX (start id exDraw).W)
      (updateBasis (gauss 2) id (separate exX (start id exDraw).W) (start id exDraw).T (start id exDraw).V)
      (start id exDraw).V 0 0 0 = 2
  rw [hT, hV, mul_one]

/-- C86: the loss can indeed go up when a call is resumed: one iteration with the default scale restoration, then a second
call. -/
theorem C86_resume_increases (np : Numpy ℂ) : ∃ o1 o2 v v',
    call np (gauss 2) 2 .ip1 .off id (.bool true) 0 exDraw exX 1 true {} (Obj.fresh : Obj Unit 1 1 1) = .ok o1 ∧
    call np (gauss 2) 2 .ip1 .off id (.bool true) 0 exDraw exX 1 true {} o1 = .ok o2 ∧
    o1.loss.getLast? = some v ∧ o2.loss[o1.loss.length]? = some v' ∧ v < v' := by
  obtain ⟨o1, Y, W, h1, -, -, -, h2, h3, h4, h5⟩ := C86_call np (.gauss two_pos) .ip1 trivial .off exX one_pos exX_indep exDraw
    exDraw_inv.2.1 exDraw_inv.2.2 1 (.bool true) (.inl rfl) 0 (exX_run np _ exDraw_inv 1)
  obtain ⟨s0, s1, W', a1, a2, a3, a4, a5, a6, a7⟩ := call_ok h1
  have hs0 : start id exDraw = s0 := Except.ok.inj ((C86_initial .ip1 id exDraw exX).1.symm.trans a1)
  subst hs0
  obtain ⟨b1, -, -⟩ := baseCall_ok _ _ _ _ _ _ _ _ a2
  have b2 := iterM_one b1
  have hY : Y () 0 0 = 2 := by
    have := h5 () 0
    rw [Finset.univ_unique, Finset.sum_singleton] at this
    rw [show exX () 0 0 = 2 by simp [exX]] at this
    exact this
  have hm : relPower 2 Y (recon s1.T s1.V) () 0 = 2 := by
    simp only [relPower, meanT, Finset.univ_unique, Finset.sum_singleton]
    rw [show ((default : Fin 1)) = 0 from rfl, hY, exX_model np s1 b2]
    norm_num
  have hs1 : Inv s1 := by
    obtain ⟨s'', e1, e2, -⟩ := updateOnce_step np (gauss_isMM two_pos) (gauss_scaleInv two_pos)
      (fun _ _ _ _ hr => gauss_spatialOk id hr) .ip1 trivial .off exX one_pos exX_indep _ exDraw_inv (exX_reg np _ exDraw_inv)
    rw [b2] at e1
    cases e1
    exact e2
  have hW : ∀ f, IsUnit (W f).det := fun f => by
    refine isUnit_iff_ne_zero.mpr fun h0 => ?_
    rw [det_fin_one] at h0
    have : Y f 0 0 = 0 := by simp [h4, separate, mul_apply, h0]
    rw [hY] at this
    norm_num at this
  have ho : o1 = ⟨.val W, .val s1.T, .val s1.V, o1.output, o1.loss⟩ := obj_eq h3 a5 a6
  obtain ⟨o2, h6⟩ := call_succeeds np (.gauss two_pos) .ip1 trivial .off exX one_pos exX_indep exDraw 1 (.bool true) (.inl rfl) 0
    true {} o1 ⟨W, s1.T, s1.V⟩ ((congrArg _ ho).trans (resetFilter_again .ip1 id exDraw exX W s1.T s1.V o1.output o1.loss)) ⟨hW, hs1.2⟩ (exX_run np ⟨W, s1.T, s1.V⟩ ⟨hW, hs1.2⟩ 1)
  obtain ⟨v, v', c1, c2, c3, -⟩ := C86_resume_loss np ⟨two_pos, .inl rfl⟩ id .off exX one_pos exX_indep (.bool true) 0 exDraw exDraw
    1 1 one_ne_zero true {} _ o1 o2 h1 h6
    (fun s0 h => by
      have hs0 : start id exDraw = s0 := Except.ok.inj ((C86_initial .ip1 id exDraw exX).1.symm.trans h)
      rw [← hs0]
      exact ⟨exDraw_inv, exX_run np _ exDraw_inv 1⟩) Y s1.T s1.V h2 a5 a6
    (fun f k => ⟨0, by rw [Subsingleton.elim k 0, hY]; norm_num⟩)
  refine ⟨o1, o2, v, v', h1, h6, c1, c2, ?_⟩
  rw [c3, Finset.univ_unique, Finset.sum_singleton, Finset.univ_unique, Finset.sum_singleton,
    show ((default : Fin 1)) = 0 from rfl, show (default : Unit) = () from rfl, hm]
  linarith [Real.log_lt_sub_one_of_pos (two_pos : (0 : ℝ) < 2) (by norm_num)]

/-! ## `None` for a parameter of the source model -/

private theorem attrOr_none {α : Type} (fresh : α) {kw : Option α} {a : Attr α} (h : kw = none ∧ a = .none) :
    attrOr fresh (override kw a) = .error .attribute := by
  obtain ⟨rfl, rfl⟩ := h
  rfl

private theorem initNmf_none (floor : ℝ → ℝ) (drawT : Fin n → F → Fin K → ℝ) (drawV : Fin n → Fin K → Fin t → ℝ)
    {kT : Option (Fin n → F → Fin K → ℝ)} {aT : Attr (Fin n → F → Fin K → ℝ)} {kV : Option (Fin n → Fin K → Fin t → ℝ)}
    {aV : Attr (Fin n → Fin K → Fin t → ℝ)} (h : (kT = none ∧ aT = .none) ∨ (kV = none ∧ aV = .none)) :
    initNmf floor drawT drawV (override kT aT) (override kV aV) = .error .attribute := by
  rcases h with h | h
  · simp only [initNmf, attrOr_none _ h, bind, Except.bind]
  · simp only [initNmf, attrOr_none _ h, bind, Except.bind]
    cases hT : override kT aT <;> rfl

/-- C86: an object whose `basis` or `activation` is `None` does not silently start from random numbers: unless the call itself
brings that parameter, it raises `AttributeError` whenever the start of the filter is fine, and never returns. -/
theorem C86_none (np : Numpy ℂ) (src : Source) (p : ℝ) (alg : FilterAlg n) (algY : SignalAlg n) (norm : Norm n) (floor : ℝ → ℝ)
    (sr : ScaleOpt) (r : Fin n) (draw : Draw F n t K) (X : Spec F n t) (n_iter : ℕ) (ic : Bool) {kw : Kw F n t K} {o : Obj F n t K}
    (h : (kw.basis = none ∧ o.basis = .none) ∨ (kw.activation = none ∧ o.activation = .none)) :
    (∀ o', call np src p alg norm floor sr r draw X n_iter ic kw o ≠ .ok o') ∧
    (∀ o', callSignal np src p algY norm floor sr r draw X n_iter ic kw o ≠ .ok o') ∧
    (o.demix = .absent → kw.demix = none → call np src p alg norm floor sr r draw X n_iter ic kw o = .error .attribute ∧
      callSignal np src p algY norm floor sr r draw X n_iter ic kw o = .error .attribute) := by
  have hN := initNmf_none floor draw.T draw.V h
  refine ⟨fun o' ho => ?_, fun o' ho => ?_, fun h1 h2 => ⟨?_, ?_⟩⟩
  · obtain ⟨s, hs, -⟩ := bind_ok ho
    obtain ⟨q, -, hs⟩ := bind_ok hs
    rw [hN] at hs
    cases hs
  · obtain ⟨s, hs, -⟩ := bind_ok ho
    obtain ⟨q, -, hs⟩ := bind_ok hs
    rw [hN] at hs
    cases hs
  · simp [call, resetFilter, Lifecycle.reset, separateOpt, label_filterFree, h1, h2, hN, bind, Except.bind]
  · simp [callSignal, resetSignal, Lifecycle.reset, separateOpt, labelY_filterFree, h1, h2, hN, bind, Except.bind]

example (np : Numpy ℂ) (draw : Draw (Fin 2) 2 3 4) (X : Spec (Fin 2) 2 3) :
    call np (Ilrma.gauss 2) 2 .ip1 .off id (.bool true) 0 draw X 7 true {} { Obj.fresh with basis := .none } = .error .attribute :=
  ((C86_none np (Ilrma.gauss 2) 2 .ip1 .iss1 .off id (.bool true) 0 draw X 7 true (o := { Obj.fresh with basis := .none })
    (Or.inl ⟨rfl, rfl⟩)).2.2 rfl rfl).1

end Verif.IlrmaCall
