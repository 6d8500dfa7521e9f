import Verif.Model.IpsdtaCall
import Verif.Props.Ipsdta
import Verif.Props.IvaCall

/-!
# C94: calls of `GaussIPSDTA` and `TIPSDTA`
-/

set_option linter.unusedSectionVars false

namespace Verif.IpsdtaCall

open Matrix Scale Ipsdta Lifecycle
open Ilrma (bind_ok)
open IlrmaCall
open scoped ComplexOrder

variable {n_bins n_blocks n t K : ℕ}

/-! ## Resuming -/

private theorem normalize_idem (T : Fin n → Fin K → (β : Blk n_bins n_blocks) → Mat (bsize n_bins n_blocks β) ℂ)
    (V : Fin n → Fin K → Fin t → ℝ) : Ipsdta.normalize (Ipsdta.normalize T V).1 (Ipsdta.normalize T V).2 = Ipsdta.normalize T V := by
  have htr : ∀ k b, basisTrace (Ipsdta.normalize T V).1 k b = (basisTrace T k b)⁻¹ * basisTrace T k b := by
    intro k b
    change ∑ β, (trace ((basisTrace T k b : ℂ)⁻¹ • T k b β)).re = (basisTrace T k b)⁻¹ * ∑ β, (T k b β).trace.re
    rw [Finset.mul_sum]
    refine Finset.sum_congr rfl fun β _ => ?_
    rw [trace_smul, smul_eq_mul, ← Complex.ofReal_inv, Complex.re_ofReal_mul]
  refine Prod.ext ?_ ?_
  · funext k b β
    change ((basisTrace (Ipsdta.normalize T V).1 k b : ℝ) : ℂ)⁻¹ • ((basisTrace T k b : ℂ)⁻¹ • T k b β) = (basisTrace T k b : ℂ)⁻¹ • T k b β
    rw [htr]
    by_cases h : basisTrace T k b = 0
    · simp [h]
    · rw [inv_mul_cancel₀ h]
      simp
  · funext k b j
    change V k b j * basisTrace T k b * basisTrace (Ipsdta.normalize T V).1 k b = V k b j * basisTrace T k b
    rw [htr]
    by_cases h : basisTrace T k b = 0
    · simp [h]
    · rw [inv_mul_cancel₀ h, mul_one]

/-- What `_reset` does to a state of which nothing has to be initialised. -/
noncomputable def renorm (normalization : Bool) (s : St n_bins n_blocks n t K) : St n_bins n_blocks n t K :=
  let p := if normalization then Ipsdta.normalize s.T s.V else (s.T, s.V)
  ⟨p.1, p.2, s.W⟩

private theorem renorm_normalize (T : Fin n → Fin K → (β : Blk n_bins n_blocks) → Mat (bsize n_bins n_blocks β) ℂ)
    (V : Fin n → Fin K → Fin t → ℝ) (W : Fin n_bins → Mat n ℂ) :
    renorm true ⟨(Ipsdta.normalize T V).1, (Ipsdta.normalize T V).2, W⟩ = ⟨(Ipsdta.normalize T V).1, (Ipsdta.normalize T V).2, W⟩ := by
  simp only [renorm, if_true]
  rw [normalize_idem]

private theorem gaussUpdate_renorm {np : Numpy ℂ} {normalization : Bool} {floor : ℝ → ℝ} {X : Spec (Fin n_bins) n t}
    {s s' : St n_bins n_blocks n t K} (h : gaussUpdate np normalization floor X s = .ok s') : renorm normalization s' = s' := by
  obtain ⟨Y, -, h⟩ := bind_ok h
  obtain ⟨T, -, h⟩ := bind_ok h
  obtain ⟨V, -, h⟩ := bind_ok h
  obtain ⟨Xb, -, h⟩ := bind_ok h
  obtain ⟨Wb, -, h⟩ := bind_ok h
  obtain ⟨Ri, -, h⟩ := bind_ok h
  obtain ⟨W, -, h⟩ := bind_ok h
  cases h
  cases normalization with
  | false => rfl
  | true =>
    exact renorm_normalize _ _ _

private theorem tUpdate_renorm {np : Numpy ℂ} {normalization : Bool} {floor : ℝ → ℝ} {nu : ℝ} {X : Spec (Fin n_bins) n t}
    {s s' : St n_bins n_blocks n t K} (h : tUpdate np normalization floor nu X s = .ok s') : renorm normalization s' = s' := by
  obtain ⟨Y, -, h⟩ := bind_ok h
  obtain ⟨R0, -, h⟩ := bind_ok h
  obtain ⟨T, -, h⟩ := bind_ok h
  obtain ⟨R1, -, h⟩ := bind_ok h
  obtain ⟨V, -, h⟩ := bind_ok h
  obtain ⟨Xb, -, h⟩ := bind_ok h
  obtain ⟨Wb, -, h⟩ := bind_ok h
  obtain ⟨Ri, -, h⟩ := bind_ok h
  obtain ⟨W, -, h⟩ := bind_ok h
  cases h
  cases normalization with
  | false => rfl
  | true =>
    exact renorm_normalize _ _ _

private theorem reset_renorm {normalization : Bool} {floor : ℝ → ℝ} {draw : Draw n_bins n_blocks n t K}
    {kw : Kw n_bins n_blocks n t K} {o : Obj n_bins n_blocks n t K} {s : St n_bins n_blocks n t K}
    (h : reset normalization floor draw kw o = .ok s) : renorm normalization s = s ∧ n_blocks ≠ 0 := by
  obtain ⟨W, -, h⟩ := bind_ok h
  obtain ⟨p, h1, h⟩ := bind_ok h
  cases h
  rw [initPsdtf] at h1
  by_cases hb : n_blocks = 0
  · rw [if_pos hb] at h1
    cases h1
  rw [if_neg hb] at h1
  obtain ⟨T, -, h1⟩ := bind_ok h1
  obtain ⟨V, -, h1⟩ := bind_ok h1
  refine ⟨?_, hb⟩
  cases h1
  cases normalization with
  | false => rfl
  | true => exact renorm_normalize _ _ _

private theorem reset_again {normalization : Bool} (floor : ℝ → ℝ) (draw : Draw n_bins n_blocks n t K) (ic : Option Bool)
    {s : St n_bins n_blocks n t K} (hs : renorm normalization s = s) (hb : n_blocks ≠ 0) (Y : Attr (Spec (Fin n_bins) n t))
    (ls : List ℝ) (i : Attr Bool) :
    reset normalization floor draw { initial_call := ic } ⟨.val s.W, .val s.T, .val s.V, Y, ls, i⟩ = .ok s := by
  conv_rhs => rw [← hs]
  simp only [reset, initPsdtf, if_neg hb, override, startFilter, initBasis, attrOr, bind, Except.bind]
  rfl

private theorem iterations_prefix {σ : Type} (step : σ → Except PyErr σ) (loss : σ → Except PyErr ℝ) (m : ℕ) (s : σ)
    (ls : List ℝ) : iterations step loss m s ls = (iterations step loss m s []).map fun p => (p.1, ls ++ p.2) := by
  induction m generalizing s ls with
  | zero => simp [iterations, Except.map]
  | succ m ih =>
    simp only [iterations, bind, Except.bind]
    cases step s with
    | error _ => rfl
    | ok s' =>
      simp only []
      cases loss s' with
      | error _ => rfl
      | ok v =>
        simp only []
        rw [ih, ih s' ([] ++ [v])]
        cases iterations step loss m s' [] with
        | error _ => rfl
        | ok p => simp [Except.map]

private theorem baseCall_last {σ : Type} (step : σ → Except PyErr σ) (loss : σ → Except PyErr ℝ) (m : ℕ) {s s' : σ}
    {ls ls' : List ℝ} (h : baseCall step loss true m s ls = .ok (s', ls')) :
    iterM step m s = .ok s' ∧ ∃ v, loss s' = .ok v ∧ ls'.getLast? = some v := by
  obtain ⟨h1, -, h2⟩ := baseCall_ok step loss true m s s' ls ls' h
  refine ⟨h1, ?_⟩
  cases m with
  | zero =>
    obtain ⟨v, g1, g2⟩ := bind_ok h
    cases g2
    exact ⟨v, g1, by simp⟩
  | succ m => exact h2 (Nat.succ_ne_zero m)

/-- The effect of interrupting a call of IPSDTA: an exception in the first part is the exception of the whole call; otherwise the
second call ends in the same filters, basis, activation and output or the same exception as the whole call, whatever random
numbers are drawn, but the loss at the interruption, the last of the first call, is recorded twice. Passing `initial_call` to
the second call has no effect but to create an attribute of that name. -/
def ResumesTwice (first : Except PyErr (Obj n_bins n_blocks n t K))
    (second : Option Bool → Obj n_bins n_blocks n t K → Except PyErr (Obj n_bins n_blocks n t K))
    (whole : Except PyErr (Obj n_bins n_blocks n t K)) : Prop :=
  (∀ e, first = .error e → whole = .error e) ∧
  ∀ o1, first = .ok o1 → ∃ v, o1.loss.getLast? = some v ∧ ∀ ic,
    (∀ e, second ic o1 = .error e ↔ whole = .error e) ∧
    ∀ o, whole = .ok o → ∃ rest, o.loss = o1.loss ++ rest ∧
      second ic o1 = .ok { o with loss := o1.loss ++ v :: rest, initial_call := override ic o.initial_call }

private theorem resume_of {step : St n_bins n_blocks n t K → Except PyErr (St n_bins n_blocks n t K)}
    (loss : St n_bins n_blocks n t K → Except PyErr ℝ) {normalization : Bool}
    (hstep : ∀ s s', step s = .ok s' → renorm normalization s' = s') (floor : ℝ → ℝ) {sr : ScaleOpt} (hsr : AsksNone sr) (r : Fin n)
    (draw draw' : Draw n_bins n_blocks n t K) (X : Spec (Fin n_bins) n t) (a b : ℕ) (kw : Kw n_bins n_blocks n t K)
    (o : Obj n_bins n_blocks n t K) :
    ResumesTwice (call step loss normalization floor sr r draw X a kw o)
      (fun ic => call step loss normalization floor sr r draw' X b { initial_call := ic })
      (call step loss normalization floor sr r draw X (a + b) kw o) := by
  have e : ∀ (draw : Draw n_bins n_blocks n t K) m kw o, call step loss normalization floor sr r draw X m kw o
      = (reset normalization floor draw kw o).bind fun s => (baseCall step loss true m s o.loss).bind fun q =>
        .ok ⟨.val q.1.W, .val q.1.T, .val q.1.V, .val (separate X q.1.W), q.2, override kw.initial_call o.initial_call⟩ := by
    intro draw m kw o
    simp only [call, IvaCall.finish_none hsr, bind, Except.bind]
  rw [e, e]
  cases hres : reset normalization floor draw kw o with
  | error x => exact ⟨fun _ h => h, fun _ h => nomatch h⟩
  | ok s =>
    obtain ⟨hs, hb⟩ := reset_renorm hres
    simp only [Except.bind]
    rw [baseCall_add]
    cases hbase : baseCall step loss true a s o.loss with
    | error x => exact ⟨fun _ h => h, fun _ h => nomatch h⟩
    | ok q =>
      refine ⟨fun _ h => (nomatch h), fun o1 h1 => ?_⟩
      cases h1
      obtain ⟨hi, v, hv, hlast⟩ := baseCall_last step loss a hbase
      have hq : renorm normalization q.1 = q.1 := by
        cases a with
        | zero =>
          cases hi
          exact hs
        | succ a =>
          obtain ⟨s1, h2⟩ := iterM_last (Nat.succ_ne_zero a) hi
          exact hstep _ _ h2
      refine ⟨v, hlast, fun ic => ?_⟩
      beta_reduce
      rw [e, reset_again floor draw' ic hq hb]
      simp only [Except.bind, baseCall, if_true, hv, bind]
      rw [iterations_prefix step loss b q.1 q.2, iterations_prefix step loss b q.1 (q.2 ++ [v])]
      cases iterations step loss b q.1 [] with
      | error x => exact ⟨fun _ => Iff.rfl, fun _ h => nomatch h⟩
      | ok p =>
        refine ⟨fun _ => ⟨fun h => (nomatch h), fun h => (nomatch h)⟩, fun o2 h2 => ?_⟩
        cases h2
        exact ⟨p.2, rfl, by simp [Except.map]⟩

/-- C94: a call of `GaussIPSDTA` can be continued: a second call without scale restoration ends where one long call would have
ended. But the loss at the interruption is recorded twice, also with `initial_call=False`, which IPSDTA does not have. -/
theorem C94_resume_gauss (np : Numpy ℂ) (normalization : Bool) (floor : ℝ → ℝ) {sr : ScaleOpt} (hsr : AsksNone sr) (r : Fin n)
    (draw draw' : Draw n_bins n_blocks n t K) (X : Spec (Fin n_bins) n t) (a b : ℕ) (kw : Kw n_bins n_blocks n t K)
    (o : Obj n_bins n_blocks n t K) :
    ResumesTwice (gaussCall np normalization floor sr r draw X a kw o)
      (fun ic => gaussCall np normalization floor sr r draw' X b { initial_call := ic })
      (gaussCall np normalization floor sr r draw X (a + b) kw o) :=
  resume_of _ (fun _ _ h => gaussUpdate_renorm h) floor hsr r draw draw' X a b kw o

/-- C94: the same for `TIPSDTA`. -/
theorem C94_resume_t (np : Numpy ℂ) (normalization : Bool) (floor : ℝ → ℝ) (nu : ℝ) {sr : ScaleOpt} (hsr : AsksNone sr) (r : Fin n)
    (draw draw' : Draw n_bins n_blocks n t K) (X : Spec (Fin n_bins) n t) (a b : ℕ) (kw : Kw n_bins n_blocks n t K)
    (o : Obj n_bins n_blocks n t K) :
    ResumesTwice (tCall np normalization floor nu sr r draw X a kw o)
      (fun ic => tCall np normalization floor nu sr r draw' X b { initial_call := ic })
      (tCall np normalization floor nu sr r draw X (a + b) kw o) :=
  resume_of _ (fun _ _ h => tUpdate_renorm h) floor hsr r draw draw' X a b kw o

/-- C94: `n_blocks=0` is reported by `ZeroDivisionError` at the first call, whatever is passed to the constructor and to the
call. -/
theorem C94_no_blocks (np : Numpy ℂ) (normalization : Bool) (floor : ℝ → ℝ) (nu : ℝ) (sr : ScaleOpt) (r : Fin n)
    (draw : Draw n_bins 0 n t K) (X : Spec (Fin n_bins) n t) (n_iter : ℕ) :
    gaussCall np normalization floor sr r draw X n_iter {} Obj.fresh = .error .zeroDivision ∧
    tCall np normalization floor nu sr r draw X n_iter {} Obj.fresh = .error .zeroDivision :=
  ⟨rfl, rfl⟩

/-! ## A first call -/

/-- The random numbers are positive and the covariances they make exceed the floor `1e-10` of the code. -/
structure Drawn (floor : ℝ → ℝ) (draw : Draw n_bins n_blocks n t K) : Prop where
  basis : ∀ k b β i, 0 < draw.T k b β i
  activation : ∀ k b j, 0 < floor (draw.V k b j)
  level : ∀ k j β i, 1 / 10 ^ 10 ≤ ∑ b, floor (draw.V k b j) * draw.T k b β i

/-- The state after `_reset` on a new object. -/
noncomputable def initial (normalization : Bool) (floor : ℝ → ℝ) (draw : Draw n_bins n_blocks n t K) : St n_bins n_blocks n t K :=
  renorm normalization ⟨fun k b β => diagonal fun i => (draw.T k b β i : ℂ), fun k b j => floor (draw.V k b j), fun _ => 1⟩

private theorem reset_fresh (hb : n_blocks ≠ 0) (normalization : Bool) (floor : ℝ → ℝ) (draw : Draw n_bins n_blocks n t K) :
    reset normalization floor draw {} Obj.fresh = .ok (initial normalization floor draw) := by
  simp only [reset, initPsdtf, if_neg hb, override, startFilter, initBasis, attrOr, Obj.fresh, bind, Except.bind]
  rfl

theorem initial_inv (np : Numpy ℂ) [Nonempty (Fin n_bins)] [Nonempty (Fin K)] (normalization : Bool) {floor : ℝ → ℝ}
    {draw : Draw n_bins n_blocks n t K} (hd : Drawn floor draw) : Inv np (initial normalization floor draw) := by
  have hsz : ∃ β, 0 < bsize n_bins n_blocks β := by
    obtain ⟨β, i, -⟩ := binOf_exists (n_blocks := n_blocks) (Classical.arbitrary (Fin n_bins))
    exact ⟨β, Fin.pos i⟩
  have hp : Pos (fun k b β => diagonal fun i => (draw.T k b β i : ℂ)) fun k b j => floor (draw.V k b j) :=
    ⟨fun k b β => PosDef.diagonal fun i => by exact_mod_cast hd.basis k b β i, hd.activation⟩
  have hc : CovFixed np (fun k b β => diagonal fun i => (draw.T k b β i : ℂ)) fun k b j => floor (draw.V k b j) := by
    intro k j β
    refine Mnmf.toPsd_max_fixed np _ ?_
    have : raw (fun k b β => diagonal fun i => (draw.T k b β i : ℂ)) (fun k b j => floor (draw.V k b j)) k j β
        - ((1 / 10 ^ 10 : ℝ) : ℂ) • (1 : Mat _ ℂ)
        = diagonal fun i => ((∑ b, floor (draw.V k b j) * draw.T k b β i - 1 / 10 ^ 10 : ℝ) : ℂ) := by
      ext i i'
      by_cases h : i = i'
      · subst h
        simp [raw, Matrix.sum_apply]
      · simp [raw, Matrix.sum_apply, h]
    rw [this]
    refine PosSemidef.diagonal fun i => ?_
    exact Complex.zero_le_real.mpr (sub_nonneg.mpr (hd.level k j β i))
  obtain ⟨h1, -, h3⟩ := normalize_ok hsz hp normalization np hc
  exact ⟨h1, h3, fun f => by simp [initial, renorm]⟩

/-- The effect of a first call: it returns, the filter reported produces the output, the losses never increase, and the outputs
sum to the reference channel. -/
def FirstCall (r : Fin n) (X : Spec (Fin n_bins) n t) (n_iter : ℕ) (c : Except PyErr (Obj n_bins n_blocks n t K)) : Prop :=
  ∃ W T V ls, c = .ok ⟨.val W, .val T, .val V, .val fun f => W f * X f, ls, .absent⟩ ∧
    ls.length = n_iter + 1 ∧ ls.Pairwise (· ≥ ·) ∧ (∀ k b β, (T k b β).PosDef) ∧ (∀ k b j, 0 < V k b j) ∧
    ∀ f j, ∑ k, (W f * X f) k j = X f r j

private theorem first_of {np : Numpy ℂ} {step : St n_bins n_blocks n t K → Except PyErr (St n_bins n_blocks n t K)}
    {loss : St n_bins n_blocks n t K → Except PyErr ℝ} {R : St n_bins n_blocks n t K → Prop} {val : St n_bins n_blocks n t K → ℝ}
    (hloss : ∀ s, Inv np s → loss s = .ok (val s))
    (hstep : ∀ s, Inv np s → R s → ∃ s', step s = .ok s' ∧ Inv np s' ∧ val s' ≤ val s) (hb : n_blocks ≠ 0)
    [Nonempty (Fin n_bins)] [Nonempty (Fin K)] (normalization : Bool) {floor : ℝ → ℝ} {sr : ScaleOpt} (hsr : AsksPB sr) (r : Fin n)
    {draw : Draw n_bins n_blocks n t K} (hd : Drawn floor draw) (X : Spec (Fin n_bins) n t) (n_iter : ℕ)
    (hreg : RegularRun step R n_iter (initial normalization floor draw)) :
    FirstCall r X n_iter (call step loss normalization floor sr r draw X n_iter {} Obj.fresh) := by
  obtain ⟨s, ls, h1, h2, h3, h4, -⟩ := IvaCall.first_call hloss hstep n_iter (initial_inv np normalization hd) hreg
  obtain ⟨W, g1, g2⟩ := IvaCall.finish_sum hsr r X h2.filter
  have h1' : baseCall step loss true n_iter (initial normalization floor draw) (Obj.fresh : Obj n_bins n_blocks n t K).loss
      = .ok (s, ls) := h1
  refine ⟨W, s.T, s.V, ls, ?_, h3, h4, h2.pos.1, h2.pos.2, g2⟩
  simp only [call, reset_fresh hb, h1', g1, bind, Except.bind]
  rfl

/-- C94: a first call of `GaussIPSDTA` with projection back on a recording with linearly independent channels in every bin,
as long as no flooring is active. -/
theorem C94_gauss (np : Numpy ℂ) (hb : n_blocks ≠ 0) [Nonempty (Fin n_bins)] [Nonempty (Fin K)] [Nonempty (Fin t)] (normalization : Bool)
    {floor : ℝ → ℝ} {sr : ScaleOpt} (hsr : AsksPB sr) (r : Fin n) {draw : Draw n_bins n_blocks n t K} (hd : Drawn floor draw)
    {X : Spec (Fin n_bins) n t} (hX : ∀ f, LinearIndependent ℂ (X f).row) (n_iter : ℕ)
    (hreg : RegularRun (gaussUpdate np normalization floor X) (GReg np floor X) n_iter (initial normalization floor draw)) :
    FirstCall r X n_iter (gaussCall np normalization floor sr r draw X n_iter {} Obj.fresh) :=
  first_of (fun _ hs => gaussLoss_eq hb X hs) (fun _ hs hr => gauss_step hb normalization floor hX hs hr) hb normalization hsr r hd X
    n_iter hreg

/-- C94: the same for `TIPSDTA` with every `dof > 0`. -/
theorem C94_t (np : Numpy ℂ) (hb : n_blocks ≠ 0) [Nonempty (Fin n_bins)] [Nonempty (Fin K)] [Nonempty (Fin t)] (normalization : Bool)
    {floor : ℝ → ℝ} {nu : ℝ} (hnu : 0 < nu) {sr : ScaleOpt} (hsr : AsksPB sr) (r : Fin n) {draw : Draw n_bins n_blocks n t K}
    (hd : Drawn floor draw) {X : Spec (Fin n_bins) n t} (hX : ∀ f, LinearIndependent ℂ (X f).row) (n_iter : ℕ)
    (hreg : RegularRun (tUpdate np normalization floor nu X) (TReg np floor nu X) n_iter (initial normalization floor draw)) :
    FirstCall r X n_iter (tCall np normalization floor nu sr r draw X n_iter {} Obj.fresh) :=
  first_of (fun _ hs => tLoss_eq hb nu X hs) (fun _ hs hr => t_step hb normalization floor hnu hX hs hr) hb normalization hsr r hd X
    n_iter hreg

/-- Random numbers for the recording `x1`. -/
noncomputable def draw1 : Draw 3 2 2 6 1 := ⟨fun _ _ _ _ => 12, fun _ _ _ => 1⟩

theorem drawn1 : Drawn floor0 draw1 := by
  have h : floor0 1 = 1 := by
    simp only [floor0, Special.max_flooring]
    exact max_eq_left (by norm_num)
  refine ⟨fun _ _ _ _ => by norm_num [draw1], fun k b j => ?_, fun k j β i => ?_⟩
  · change 0 < floor0 1
    rw [h]
    exact one_pos
  · simp only [draw1, h, Finset.univ_unique, Finset.sum_const, Finset.card_singleton]
    norm_num

theorem initial1 : initial false floor0 draw1 = st1 := by
  have h : floor0 1 = 1 := by
    simp only [floor0, Special.max_flooring]
    exact max_eq_left (by norm_num)
  have h2 : ∀ m : ℕ, (diagonal fun _ => ((12 : ℝ) : ℂ) : Mat m ℂ) = ((12 : ℝ) : ℂ) • 1 := fun m => by
    rw [smul_one_eq_diagonal]
  simp only [initial, renorm, draw1, st1, h, h2]
  rfl

/-- The hypotheses of `C94_gauss` and `C94_t` hold for the recording of C59, with one iteration. -/
example (np : Numpy ℂ) : FirstCall 0 x1 1 (gaussCall np false floor0 (.bool true) 0 draw1 x1 1 {} Obj.fresh) ∧
    FirstCall 0 x1 1 (tCall np false floor0 1 (.bool true) 0 draw1 x1 1 {} Obj.fresh) := by
  refine ⟨C94_gauss np (by decide) false (by simp [AsksPB]) 0 drawn1 x1_independent 1 ?_,
    C94_t np (by decide) false one_pos (by simp [AsksPB]) 0 drawn1 x1_independent 1 ?_⟩
  · rw [initial1]
    exact ⟨greg1 np, fun _ _ => trivial⟩
  · rw [initial1]
    exact ⟨treg1 np, fun _ _ => trivial⟩

/-! ## Keyword arguments -/

/-- C94: `n_iter=0` with the keyword arguments `demix_filter`, `basis` and `activation`: the filter is applied to the recording,
basis and activation are kept if they are not normalised, and one loss is recorded, that of the state given, whatever
`initial_call` says. -/
theorem C94_keyword {np : Numpy ℂ} (hb : n_blocks ≠ 0) [Nonempty (Fin K)] (floor : ℝ → ℝ) {sr : ScaleOpt} (hsr : AsksNone sr) (r : Fin n)
    (draw : Draw n_bins n_blocks n t K) (X : Spec (Fin n_bins) n t) {s : St n_bins n_blocks n t K} (hs : Inv np s) (ic : Option Bool)
    (o : Obj n_bins n_blocks n t K) :
    gaussCall np false floor sr r draw X 0 ⟨some s.W, some s.T, some s.V, ic⟩ o
      = .ok ⟨.val s.W, .val s.T, .val s.V, .val fun f => s.W f * X f, o.loss ++ [gaussVal X s], override ic o.initial_call⟩ := by
  simp only [gaussCall, call, reset, initPsdtf, if_neg hb, override, startFilter, initBasis, attrOr, baseCall, if_true, iterations,
    Bool.false_eq_true, if_false, gaussLoss_eq hb X hs, IvaCall.finish_none hsr, bind, Except.bind]
  rfl

example (np : Numpy ℂ) (o : Obj 3 2 2 6 1) :
    gaussCall np false floor0 (.bool false) 0 draw1 x1 0 ⟨some st1.W, some st1.T, some st1.V, some false⟩ o
      = .ok ⟨.val st1.W, .val st1.T, .val st1.V, .val fun f => st1.W f * x1 f, o.loss ++ [gaussVal x1 st1], .val false⟩ :=
  C94_keyword (by decide) floor0 (by simp [AsksNone]) 0 draw1 x1 (inv1 np) (some false) o

/-- C94: `None` for `basis` or `activation` is reported, not replaced by random numbers. -/
theorem C94_none (np : Numpy ℂ) (normalization : Bool) (floor : ℝ → ℝ) (nu : ℝ) (sr : ScaleOpt) (r : Fin n)
    (draw : Draw n_bins n_blocks n t K) (X : Spec (Fin n_bins) n t) (n_iter : ℕ) {kw : Kw n_bins n_blocks n t K}
    {o : Obj n_bins n_blocks n t K} (h : (kw.basis = none ∧ o.basis = .none) ∨ (kw.activation = none ∧ o.activation = .none)) :
    (∀ o', gaussCall np normalization floor sr r draw X n_iter kw o ≠ .ok o') ∧
    (∀ o', tCall np normalization floor nu sr r draw X n_iter kw o ≠ .ok o') := by
  have key : ∀ s, reset normalization floor draw kw o ≠ .ok s := by
    intro s hs
    obtain ⟨W, -, hs⟩ := bind_ok hs
    obtain ⟨q, hq, -⟩ := bind_ok hs
    rw [initPsdtf] at hq
    by_cases hb : n_blocks = 0
    · rw [if_pos hb] at hq
      cases hq
    rw [if_neg hb] at hq
    obtain ⟨T, h1, hq⟩ := bind_ok hq
    obtain ⟨V, h2, -⟩ := bind_ok hq
    rcases h with ⟨e1, e2⟩ | ⟨e1, e2⟩
    · rw [e1, e2] at h1
      simp only [override, initBasis] at h1
      split_ifs at h1
    · rw [e1, e2] at h2
      cases h2
  refine ⟨fun o' ho => ?_, fun o' ho => ?_⟩
  · obtain ⟨s, hs, -⟩ := bind_ok ho
    exact key s hs
  · obtain ⟨s, hs, -⟩ := bind_ok ho
    exact key s hs

example (np : Numpy ℂ) (o' : Obj 3 2 2 6 1) :
    gaussCall np true floor0 (.bool true) 0 draw1 x1 5 {} { Obj.fresh with activation := .none } ≠ .ok o' :=
  (C94_none np true floor0 1 (.bool true) 0 draw1 x1 5 (o := { Obj.fresh with activation := .none }) (Or.inr ⟨rfl, rfl⟩)).1 o'

end Verif.IpsdtaCall
