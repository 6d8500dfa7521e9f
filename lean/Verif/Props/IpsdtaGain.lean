import Verif.Lemmas.IpsdtaGain
import Verif.Props.Rotation
import Verif.Props.IlrmaGain

/-!
# C116: IPSDTA passes gains per bin through to its output, and its normalization has no influence

If every bin of the recording is multiplied by a non-zero number (an equaliser, a delay, another window or unit) and the
bases follow, `GaussIPSDTA` and `TIPSDTA` compute the same filters; the output is multiplied by the gains and the losses
are shifted. `source_normalization` (`ssspy/bss/ipsdta.py` L574-575, L666-698, L865-866, L1379-1380) only exchanges scales between bases
and activations.

Floors act on absolute values: they must be inactive in both runs (`GReg`, `TReg` as in C59 and C60). For gains of modulus one
it is enough that they are inactive in the first run (`C116_phase_gauss`, `C116_phase_t`).
-/

set_option linter.unusedSectionVars false

namespace Verif.IpsdtaGain
open Matrix Spatial Scale Ipsdta IpsdtaCall
open IlrmaCall (override attrOr baseCall)
open Lifecycle (Attr ScaleOpt finish)
open IlrmaGain (gainOut)
open MnmfMix (cong cong_posDef)
open scoped ComplexOrder

variable {n_bins n_blocks n t K : ℕ}

/-- The second state belongs to the recording with the gains `a`: the same filters, bases `ρ D T D^H`, activations `V / ρ`. -/
def Rel (a : Fin n_bins → ℂ) (s s' : St n_bins n_blocks n t K) : Prop :=
  ∃ ρ : Fin n → Fin K → ℝ, (∀ k b, 0 < ρ k b) ∧ s' = ⟨resT (onBlk a) ρ s.T, resV ρ s.V, s.W⟩

/-- The weights of the frames as a function of the state. -/
abbrev Weights (n_bins n_blocks n t K : ℕ) := (Fin n_bins → Mat n ℂ) →
  (Fin n → Fin K → (β : Blk n_bins n_blocks) → Mat (bsize n_bins n_blocks β) ℂ) → (Fin n → Fin K → Fin t → ℝ) →
  Fin n → Fin t → ℝ

/-- What an update with nothing floored computes. -/
def Dec (floor : ℝ → ℝ) (w : Weights n_bins n_blocks n t K) (norm : Bool) (X : Spec (Fin n_bins) n t)
    (s u : St n_bins n_blocks n t K) : Prop :=
  ∃ T V W, (∀ k b β, (T k b β).PosDef) ∧
    (∀ k b β, T k b β * matP (fun k j β => (raw s.T s.V k j β)⁻¹) s.V k b β * T k b β
      = s.T k b β * matQ (fun k j β => (raw s.T s.V k j β)⁻¹) (w s.W s.T s.V) (onBlk (separate X s.W)) s.V k b β * s.T k b β) ∧
    V = newV (w s.W T s.V) (onBlk (separate X s.W)) T s.V ∧ Pos T V ∧
    spatialVcd floor (w s.W T V) (fun k j β => (raw T V k j β)⁻¹) (onBlk X) (onBlk s.W) = .ok W ∧
    u = ⟨(if norm then Ipsdta.normalize T V else (T, V)).1, (if norm then Ipsdta.normalize T V else (T, V)).2, joinBlocks W⟩

theorem block_nonempty [Nonempty (Fin n_bins)] : ∃ β, 0 < bsize n_bins n_blocks β := by
  obtain ⟨β, i, -⟩ := binOf_exists (n_blocks := n_blocks) (Classical.arbitrary (Fin n_bins))
  exact ⟨β, Fin.pos i⟩

/-- The weights do not see gains. -/
def Blind (a : Fin n_bins → ℂ) (w w' : Weights n_bins n_blocks n t K) : Prop :=
  ∀ (ρ : Fin n → Fin K → ℝ), (∀ k b, 0 < ρ k b) → ∀ W T V, w' W (resT (onBlk a) ρ T) (resV ρ V) = w W T V

theorem separate_gain (a : Fin n_bins → ℂ) (X : Spec (Fin n_bins) n t) (W : Fin n_bins → Mat n ℂ)
    (β : Blk n_bins n_blocks) (i : Fin (bsize n_bins n_blocks β)) :
    onBlk (separate (gain a X) W) β i = onBlk a β i • onBlk (separate X W) β i := by
  simp only [onBlk, separate, gain, Matrix.mul_smul]

theorem dec_rel [Nonempty (Fin K)] [Nonempty (Fin n_bins)] [Nonempty (Fin t)] {floor : ℝ → ℝ}
    {w w' : Weights n_bins n_blocks n t K} {norm norm' : Bool} {a : Fin n_bins → ℂ} (ha : ∀ f, a f ≠ 0) (hw : Blind a w w')
    {X : Spec (Fin n_bins) n t} {s s' u u' : St n_bins n_blocks n t K} (hs : Pos s.T s.V) (hR : Rel a s s')
    (h : Dec floor w norm X s u) (h' : Dec floor w' norm' (gain a X) s' u') : Rel a u u' := by
  obtain ⟨ρ, hρ, rfl⟩ := hR
  obtain ⟨T, V, W, hT, e1, rfl, -, e3, rfl⟩ := h
  obtain ⟨T', V', W', hT', e1', rfl, -, e3', rfl⟩ := h'
  have hd : ∀ (β : Blk n_bins n_blocks) i, onBlk a β i ≠ 0 := fun β i => ha _
  simp only [hw ρ hρ] at e1'
  obtain rfl := basis_res hd hρ (separate_gain a X s.W) hs hT hT' e1 e1'
  have hX : ∀ β i, onBlk (n_blocks := n_blocks) (gain a X) β i = onBlk a β i • onBlk X β i := fun β i => rfl
  simp only [hw ρ hρ, newV_res hd hρ (separate_gain a X s.W)] at e3'
  have hVeq : newV (w s.W T s.V) (onBlk (separate (gain a X) s.W)) (resT (onBlk a) ρ T) (resV ρ s.V)
      = resV ρ (newV (w s.W T s.V) (onBlk (separate X s.W)) T s.V) := newV_res hd hρ (separate_gain a X s.W) _
  obtain ⟨V, hV⟩ : ∃ V, V = newV (w s.W T s.V) (onBlk (separate X s.W)) T s.V := ⟨_, rfl⟩
  rw [← hV] at e3 e3' hVeq ⊢
  have hWW : W' = W := by
    rw [spatialVcd, rxx_res hd hρ hX] at e3'
    exact Except.ok.inj (e3'.symm.trans e3)
  obtain ⟨ρ', hρ', e⟩ := norm_rel block_nonempty hd hρ norm norm' hT V
  refine ⟨ρ', hρ', ?_⟩
  simp only [hw ρ hρ, hVeq, e, hWW]

/-! ## The update of GaussIPSDTA -/

theorem gauss_dec [Nonempty (Fin K)] {np : Numpy ℂ} (hb : n_blocks ≠ 0) [Nonempty (Fin n_bins)] [Nonempty (Fin t)]
    (norm : Bool) (floor : ℝ → ℝ) {X : Spec (Fin n_bins) n t} (hX : ∀ f, LinearIndependent ℂ (X f).row)
    {s : St n_bins n_blocks n t K} (h : Inv np s) (hr : GReg np floor X s) :
    ∃ u, gaussUpdate np norm floor X s = .ok u ∧ Inv np u ∧ Dec floor (fun _ _ _ _ _ => 1) norm X s u := by
  obtain ⟨u, hu, hi, -⟩ := gauss_step hb norm floor hX h hr
  refine ⟨u, hu, hi, ?_⟩
  obtain ⟨T, hT, hTd, hTr⟩ := basisGauss_ok h.pos h.cov hr.basis
  have hp1 : Pos T s.V := ⟨hTd, h.pos.2⟩
  obtain ⟨hc1, hr1⟩ := hr.activation T hT
  have hV := activationMM_eq hp1 hc1 (fun _ _ => 1) (onBlk (separate X s.W))
  obtain ⟨V, hVe⟩ : ∃ V, V = newV (fun _ _ => 1) (onBlk (separate X s.W)) T s.V := ⟨_, rfl⟩
  rw [← hVe] at hV
  obtain ⟨hVp, hc2, hv⟩ := hr1 V hV
  have hp2 : Pos T V := ⟨hTd, hVp⟩
  obtain ⟨hp3, hraw, hc3⟩ := normalize_ok block_nonempty hp2 norm np hc2
  have e1 : splitBlocks n_blocks (separate X s.W) = .ok (onBlk (separate X s.W)) := splitBlocks_eq hb _
  have e2 : splitBlocks n_blocks X = .ok (onBlk X) := splitBlocks_eq hb _
  have e3 : splitBlocks n_blocks s.W = .ok (onBlk s.W) := splitBlocks_eq hb _
  simp only [gaussUpdate, e1, e2, e3, hT, hV, bind, Except.bind] at hu
  rw [covInv_eq hp3 hc3, hraw] at hu
  simp only at hu
  obtain ⟨W, hW, -, -⟩ := spatial_step (floor := floor) (fun _ _ => one_pos) (X := onBlk X) (fun β i => hX _)
    (W := onBlk s.W) (fun β i => h.filter _) hp2 hv
  rw [hW] at hu
  exact ⟨T, V, W, hTd, hTr, hVe, hp2, hW, (Except.ok.inj hu).symm⟩

/-! ## The update of TIPSDTA -/

theorem t_dec [Nonempty (Fin K)] {np : Numpy ℂ} (hb : n_blocks ≠ 0) [Nonempty (Fin n_bins)] [Nonempty (Fin t)]
    (norm : Bool) (floor : ℝ → ℝ) {nu : ℝ} (hnu : 0 < nu) {X : Spec (Fin n_bins) n t}
    (hX : ∀ f, LinearIndependent ℂ (X f).row) {s : St n_bins n_blocks n t K} (h : Inv np s) (hr : TReg np floor nu X s) :
    ∃ u, tUpdate np norm floor nu X s = .ok u ∧ Inv np u ∧ Dec floor (wt nu X) norm X s u := by
  obtain ⟨u, hu, hi, -⟩ := t_step hb norm floor hnu hX h hr
  refine ⟨u, hu, hi, ?_⟩
  have hw : ∀ W T V, Pos T V → ∀ k j, 0 < wt (n_blocks := n_blocks) (K := K) nu X W T V k j := by
    intro W T V hp k j
    have := qv_nonneg (onBlk X) (onBlk W) hp k j
    simp only [wt, tWeight]
    positivity
  obtain ⟨T, hT, hTd, hTr⟩ := basisT_ok h.pos h.cov hr.basis
  have hp1 : Pos T s.V := ⟨hTd, h.pos.2⟩
  obtain ⟨hc1, hr1⟩ := hr.activation T hT
  have hV := activationMM_eq hp1 hc1 (wt nu X s.W T s.V) (onBlk (separate X s.W))
  obtain ⟨V, hVe⟩ : ∃ V, V = newV (wt nu X s.W T s.V) (onBlk (separate X s.W)) T s.V := ⟨_, rfl⟩
  rw [← hVe] at hV
  obtain ⟨hVp, hc2, hv⟩ := hr1 V hV
  have hp2 : Pos T V := ⟨hTd, hVp⟩
  obtain ⟨hp3, hraw, hc3⟩ := normalize_ok block_nonempty hp2 norm np hc2
  have e1 : splitBlocks n_blocks (separate X s.W) = .ok (onBlk (separate X s.W)) := splitBlocks_eq hb _
  have e2 : splitBlocks n_blocks X = .ok (onBlk X) := splitBlocks_eq hb _
  have e3 : splitBlocks n_blocks s.W = .ok (onBlk s.W) := splitBlocks_eq hb _
  simp only [tUpdate, e1, e2, e3, bind, Except.bind] at hu
  rw [covInv_eq h.pos h.cov] at hu
  simp only [yry_onBlk X s.W h.pos] at hu
  have hT' : basisT np floor (fun k j => tWeight nu n_bins (qv (onBlk X) (onBlk s.W) s.T s.V k j))
    (onBlk (separate X s.W)) s.T s.V = .ok T := hT
  simp only [hT'] at hu
  rw [covInv_eq hp1 hc1] at hu
  simp only [yry_onBlk X s.W hp1] at hu
  have hV' : activationMM np (fun k j => tWeight nu n_bins (qv (onBlk X) (onBlk s.W) T s.V k j))
    (onBlk (separate X s.W)) T s.V = .ok V := hV
  simp only [hV'] at hu
  rw [covInv_eq hp3 hc3, hraw] at hu
  have e4 : yry (fun β i => onBlk s.W β i * onBlk X β i) (fun k j β => (raw T V k j β)⁻¹)
    = qv (onBlk X) (onBlk s.W) T V := yry_onBlk X s.W hp2
  simp only [e4] at hu
  obtain ⟨W, hW, -, -⟩ := spatial_step (floor := floor) (hw s.W T V hp2) (X := onBlk X) (fun β i => hX _)
    (W := onBlk s.W) (fun β i => h.filter _) hp2 hv
  have hW' : spatialVcd floor (fun k j => tWeight nu n_bins (qv (onBlk X) (onBlk s.W) T V k j))
    (fun k j β => (raw T V k j β)⁻¹) (onBlk X) (onBlk s.W) = .ok W := hW
  rw [hW'] at hu
  exact ⟨T, V, W, hTd, hTr, hVe, hp2, hW, (Except.ok.inj hu).symm⟩

theorem blind_wt {a : Fin n_bins → ℂ} (ha : ∀ f, a f ≠ 0) (nu : ℝ) (X : Spec (Fin n_bins) n t) :
    Blind (n_blocks := n_blocks) (K := K) a (wt nu X) (wt nu (gain a X)) := by
  intro ρ hρ W T V
  funext k j
  have hX : ∀ β i, onBlk (n_blocks := n_blocks) (gain a X) β i = onBlk a β i • onBlk X β i := fun β i => rfl
  simp only [wt, qv_res (d := onBlk a) (T := T) (V := V) (fun β i => ha _) hρ hX (onBlk W)]

/-! ## Losses -/

theorem sum_log (a : Fin n_bins → ℂ) :
    ∑ β : Blk n_bins n_blocks, ∑ i, Real.log ‖onBlk a β i‖ = ∑ f, Real.log ‖a f‖ :=
  sum_blocks (n_blocks := n_blocks) fun f => Real.log ‖a f‖

theorem gaussVal_rel [Nonempty (Fin K)] [Nonempty (Fin t)] {a : Fin n_bins → ℂ} (ha : ∀ f, a f ≠ 0) (X : Spec (Fin n_bins) n t)
    {s s' : St n_bins n_blocks n t K} (hs : Pos s.T s.V) (h : Rel a s s') :
    gaussVal (gain a X) s' = gaussVal X s + 2 * n * ∑ f, Real.log ‖a f‖ := by
  obtain ⟨ρ, hρ, rfl⟩ := h
  have hX : ∀ β i, onBlk (n_blocks := n_blocks) (gain a X) β i = onBlk a β i • onBlk X β i := fun β i => rfl
  have ht : (t : ℝ) ≠ 0 := by exact_mod_cast (Fin.pos (Classical.arbitrary (Fin t))).ne'
  simp only [gaussVal, obj, qv_res (d := onBlk a) (T := s.T) (V := s.V) (fun β i => ha _) hρ hX (onBlk s.W), ld_res (d := onBlk a) (fun β i => ha _) hρ hs, sum_log, ← add_assoc]
  simp only [Finset.sum_add_distrib, Finset.sum_const, Finset.card_univ, Fintype.card_fin, nsmul_eq_mul]
  field_simp
  ring

theorem tVal_rel [Nonempty (Fin K)] [Nonempty (Fin t)] {a : Fin n_bins → ℂ} (ha : ∀ f, a f ≠ 0) (nu : ℝ)
    (X : Spec (Fin n_bins) n t) {s s' : St n_bins n_blocks n t K} (hs : Pos s.T s.V) (h : Rel a s s') :
    tVal nu (gain a X) s' = tVal nu X s + 2 * n * ∑ f, Real.log ‖a f‖ := by
  obtain ⟨ρ, hρ, rfl⟩ := h
  have hX : ∀ β i, onBlk (n_blocks := n_blocks) (gain a X) β i = onBlk a β i • onBlk X β i := fun β i => rfl
  have ht : (t : ℝ) ≠ 0 := by exact_mod_cast (Fin.pos (Classical.arbitrary (Fin t))).ne'
  simp only [tVal, tobj, qv_res (d := onBlk a) (T := s.T) (V := s.V) (fun β i => ha _) hρ hX (onBlk s.W), ld_res (d := onBlk a) (fun β i => ha _) hρ hs, sum_log, ← add_assoc]
  simp only [Finset.sum_add_distrib, Finset.sum_const, Finset.card_univ, Fintype.card_fin, nsmul_eq_mul]
  rw [add_div, add_div, add_div, mul_div_cancel_left₀ _ ht]
  ring

/-! ## Runs -/

/-- Two runs whose states stay related record losses that are related. -/
theorem baseCall_pair {σ τ : Type} {step : σ → Except PyErr σ} {step' : τ → Except PyErr τ} {loss : σ → Except PyErr ℝ}
    {loss' : τ → Except PyErr ℝ} {R : σ → τ → Prop} {Reg : σ → Prop} {Reg' : τ → Prop} (g : ℝ → ℝ)
    (h : ∀ s s', R s s' → Reg s → Reg' s' → ∃ a a', step s = .ok a ∧ step' s' = .ok a' ∧ R a a')
    (hl : ∀ s s', R s s' → ∃ v, loss s = .ok v ∧ loss' s' = .ok (g v)) (ic : Bool) (N : ℕ) {s : σ} {s' : τ} (hR : R s s')
    (hreg : RegularRun step Reg N s) (hreg' : RegularRun step' Reg' N s') :
    ∃ a a' l, (∀ ls, baseCall step loss ic N s ls = .ok (a, ls ++ l)) ∧
      (∀ ls, baseCall step' loss' ic N s' ls = .ok (a', ls ++ l.map g)) ∧ R a a' := by
  have key : ∀ (N : ℕ) (s : σ) (s' : τ), R s s' → RegularRun step Reg N s → RegularRun step' Reg' N s' →
      ∃ a a' l, (∀ ls, IlrmaCall.iterations step loss N s ls = .ok (a, ls ++ l)) ∧
        (∀ ls, IlrmaCall.iterations step' loss' N s' ls = .ok (a', ls ++ l.map g)) ∧ R a a' := by
    intro N
    induction N with
    | zero => exact fun s s' hR _ _ => ⟨s, s', [], by simp [IlrmaCall.iterations], by simp [IlrmaCall.iterations], hR⟩
    | succ N ih =>
      intro s s' hR hreg hreg'
      obtain ⟨a, a', e, e', hR'⟩ := h s s' hR hreg.1 hreg'.1
      obtain ⟨v, ev, ev'⟩ := hl a a' hR'
      obtain ⟨b, b', l, i1, i2, i3⟩ := ih a a' hR' (hreg.2 a e) (hreg'.2 a' e')
      refine ⟨b, b', v :: l, fun ls => ?_, fun ls => ?_, i3⟩
      · simp only [IlrmaCall.iterations, e, ev, bind, Except.bind, i1, List.append_assoc, List.singleton_append]
      · simp only [IlrmaCall.iterations, e', ev', bind, Except.bind, i2, List.append_assoc, List.singleton_append,
          List.map_cons]
  obtain ⟨b, b', l, i1, i2, i3⟩ := key N s s' hR hreg hreg'
  cases ic with
  | false => exact ⟨b, b', l, fun ls => i1 ls, fun ls => i2 ls, i3⟩
  | true =>
    obtain ⟨v, ev, ev'⟩ := hl s s' hR
    refine ⟨b, b', v :: l, fun ls => ?_, fun ls => ?_, i3⟩
    · simp only [baseCall, if_true, ev, bind, Except.bind, i1, List.append_assoc, List.singleton_append]
    · simp only [baseCall, if_true, ev', bind, Except.bind, i2, List.append_assoc, List.singleton_append, List.map_cons]

theorem rows_gain {a : Fin n_bins → ℂ} (ha : ∀ f, a f ≠ 0) {X : Spec (Fin n_bins) n t}
    (hX : ∀ f, LinearIndependent ℂ (X f).row) (f : Fin n_bins) : LinearIndependent ℂ (gain a X f).row := by
  have := (hX f).units_smul fun _ => Units.mk0 (a f) (ha f)
  exact this

section run
variable [Nonempty (Fin K)] [Nonempty (Fin n_bins)] [Nonempty (Fin t)] (np np' : Numpy ℂ) (hb : n_blocks ≠ 0) (norm norm' : Bool)
  (floor : ℝ → ℝ) {a : Fin n_bins → ℂ} (ha : ∀ f, a f ≠ 0) {X : Spec (Fin n_bins) n t}
  (hX : ∀ f, LinearIndependent ℂ (X f).row) (ic : Bool) (n_iter : ℕ) {s s' : St n_bins n_blocks n t K} (hs : Inv np s)
  (hs' : Inv np' s') (h : Rel a s s')
include hb ha hX hs hs' h

theorem run_gauss (hreg : RegularRun (gaussUpdate np norm floor X) (GReg np floor X) n_iter s)
    (hreg' : RegularRun (gaussUpdate np' norm' floor (gain a X)) (GReg np' floor (gain a X)) n_iter s') :
    ∃ u u' l, (∀ ls, baseCall (gaussUpdate np norm floor X) (gaussLoss np X) ic n_iter s ls = .ok (u, ls ++ l)) ∧
      (∀ ls, baseCall (gaussUpdate np' norm' floor (gain a X)) (gaussLoss np' (gain a X)) ic n_iter s' ls
        = .ok (u', ls ++ l.map (· + 2 * n * ∑ f, Real.log ‖a f‖))) ∧ Inv np u ∧ Inv np' u' ∧ Rel a u u' := by
  refine baseCall_pair (R := fun s s' => Inv np s ∧ Inv np' s' ∧ Rel a s s') _ ?_ ?_ ic n_iter ⟨hs, hs', h⟩ hreg hreg'
  · rintro s s' ⟨hs, hs', h⟩ hr hr'
    obtain ⟨u, e, hi, hd⟩ := gauss_dec hb norm floor hX hs hr
    obtain ⟨u', e', hi', hd'⟩ := gauss_dec hb norm' floor (rows_gain ha hX) hs' hr'
    exact ⟨u, u', e, e', hi, hi', dec_rel ha (fun _ _ _ _ _ => rfl) hs.pos h hd hd'⟩
  · rintro s s' ⟨hs, hs', h⟩
    exact ⟨_, gaussLoss_eq hb X hs, by rw [gaussLoss_eq hb _ hs', gaussVal_rel ha X hs.pos h]⟩

theorem run_t {nu : ℝ} (hnu : 0 < nu) (hreg : RegularRun (tUpdate np norm floor nu X) (TReg np floor nu X) n_iter s)
    (hreg' : RegularRun (tUpdate np' norm' floor nu (gain a X)) (TReg np' floor nu (gain a X)) n_iter s') :
    ∃ u u' l, (∀ ls, baseCall (tUpdate np norm floor nu X) (tLoss np nu X) ic n_iter s ls = .ok (u, ls ++ l)) ∧
      (∀ ls, baseCall (tUpdate np' norm' floor nu (gain a X)) (tLoss np' nu (gain a X)) ic n_iter s' ls
        = .ok (u', ls ++ l.map (· + 2 * n * ∑ f, Real.log ‖a f‖))) ∧ Inv np u ∧ Inv np' u' ∧ Rel a u u' := by
  refine baseCall_pair (R := fun s s' => Inv np s ∧ Inv np' s' ∧ Rel a s s') _ ?_ ?_ ic n_iter ⟨hs, hs', h⟩ hreg hreg'
  · rintro s s' ⟨hs, hs', h⟩ hr hr'
    obtain ⟨u, e, hi, hd⟩ := t_dec hb norm floor hnu hX hs hr
    obtain ⟨u', e', hi', hd'⟩ := t_dec hb norm' floor hnu (rows_gain ha hX) hs' hr'
    exact ⟨u, u', e, e', hi, hi', dec_rel ha (blind_wt ha nu X) hs.pos h hd hd'⟩
  · rintro s s' ⟨hs, hs', h⟩
    exact ⟨_, tLoss_eq hb nu X hs, by rw [tLoss_eq hb nu _ hs', tVal_rel ha nu X hs.pos h]⟩

end run

/-! ## Calls -/

theorem finish_any (sr : ScaleOpt) (r : Fin n) {a : Fin n_bins → ℂ} (ha : ∀ f, a f ≠ 0) (X : Spec (Fin n_bins) n t)
    (W : Fin n_bins → Mat n ℂ) : finish sr r (gain a X) W = (finish sr r X W).map fun q => (gain a q.1, q.2) := by
  by_cases hsr : sr.truthy = true
  · have := finish_gain sr hsr r a ha (fun _ _ => 1) (fun _ _ => one_pos) X W
    rw [← this]
    congr 1
    funext f
    ext i j
    simp [mulRow]
  · simp only [finish, hsr, if_false, bind, Except.bind, Except.map, Bool.false_eq_true]
    congr 2
    funext f
    simp only [separate, gain, Matrix.mul_smul]

theorem reset_renorm (norm : Bool) (floor : ℝ → ℝ) (draw : Draw n_bins n_blocks n t K) (kw : Kw n_bins n_blocks n t K)
    (o : Obj n_bins n_blocks n t K) {s : St n_bins n_blocks n t K} (h : reset false floor draw kw o = .ok s) :
    reset norm floor draw kw o = .ok (renorm norm s) := by
  unfold reset initPsdtf at h ⊢
  cases e1 : startFilter (override kw.demix o.demix) with
  | error e => simp [e1, bind, Except.bind] at h
  | ok W =>
    by_cases hb : n_blocks = 0
    · simp [e1, hb, bind, Except.bind] at h
    · cases e2 : initBasis draw (override kw.basis o.basis) with
      | error e => simp [e1, e2, hb, bind, Except.bind] at h
      | ok T =>
        cases e3 : attrOr (fun k b j => floor (draw.V k b j)) (override kw.activation o.activation) with
        | error e => simp [e1, e2, e3, hb, bind, Except.bind] at h
        | ok V =>
          simp only [e1, e2, e3, if_neg hb, bind, Except.bind, Except.ok.injEq, Bool.false_eq_true, if_false] at h ⊢
          rw [← h]
          rfl

theorem rel_renorm [Nonempty (Fin n_bins)] (norm norm' : Bool) {a : Fin n_bins → ℂ} (ha : ∀ f, a f ≠ 0)
    {s s' : St n_bins n_blocks n t K} (hs : Pos s.T s.V) (h : Rel a s s') : Rel a (renorm norm s) (renorm norm' s') := by
  obtain ⟨ρ, hρ, rfl⟩ := h
  obtain ⟨ρ', hρ', e⟩ := norm_rel block_nonempty (fun β i => ha _) hρ norm norm' hs.1 s.V (d := onBlk a)
  exact ⟨ρ', hρ', by simp only [renorm, e]⟩

theorem inv_renorm [Nonempty (Fin K)] [Nonempty (Fin n_bins)] (norm : Bool) {np : Numpy ℂ} {s : St n_bins n_blocks n t K} (hs : Inv np s) :
    Inv np (renorm norm s) := by
  obtain ⟨h1, -, h3⟩ := normalize_ok block_nonempty hs.pos norm np hs.cov
  exact ⟨h1, h3, hs.filter⟩

/-- The object of the recording with gains: other bases and activations, the same filters, an output with the gains, and
losses shifted by `c`. -/
def Carried (a : Fin n_bins → ℂ) (c : ℝ) (q q' : Except PyErr (Obj n_bins n_blocks n t K)) : Prop :=
  (∃ e, q = .error e ∧ q' = .error e) ∨
  ∃ W T V Y l, q = .ok ⟨W, .val T, .val V, .val Y, l, .absent⟩ ∧ ∃ ρ : Fin n → Fin K → ℝ, (∀ k b, 0 < ρ k b) ∧
    q' = .ok ⟨W, .val fun k b β => (ρ k b : ℂ) • (diagonal (fun i => a (binOf n_bins n_blocks β i)) * T k b β
        * (diagonal fun i => a (binOf n_bins n_blocks β i))ᴴ), .val fun k b j => V k b j / ρ k b,
      .val fun f => a f • Y f, l.map (· + c), .absent⟩

theorem carried_of {step step' : St n_bins n_blocks n t K → Except PyErr (St n_bins n_blocks n t K)}
    {loss loss' : St n_bins n_blocks n t K → Except PyErr ℝ} {norm norm' : Bool} {floor : ℝ → ℝ} (sr : ScaleOpt) (r : Fin n)
    {draw draw' : Draw n_bins n_blocks n t K} {X : Spec (Fin n_bins) n t} {n_iter : ℕ} {kw kw' : Kw n_bins n_blocks n t K}
    {a : Fin n_bins → ℂ} (ha : ∀ f, a f ≠ 0) {c : ℝ} (hk : kw.initial_call = none) (hk' : kw'.initial_call = none)
    {s s' u u' : St n_bins n_blocks n t K} {l : List ℝ} (h : reset norm floor draw kw Obj.fresh = .ok s)
    (h' : reset norm' floor draw' kw' Obj.fresh = .ok s') (hu : baseCall step loss true n_iter s [] = .ok (u, [] ++ l))
    (hu' : baseCall step' loss' true n_iter s' [] = .ok (u', [] ++ l.map (· + c))) (hR : Rel a u u') :
    Carried a c (call step loss norm floor sr r draw X n_iter kw .fresh)
      (call step' loss' norm' floor sr r draw' (gain a X) n_iter kw' .fresh) := by
  obtain ⟨ρ, hρ, rfl⟩ := hR
  have hl : (Obj.fresh : Obj n_bins n_blocks n t K).loss = [] := rfl
  simp only [call, h, h', bind, Except.bind, hl, hu, hu', finish_any sr r ha, hk, hk', List.nil_append]
  cases finish sr r X u.W with
  | error e => exact .inl ⟨e, rfl, rfl⟩
  | ok q => exact .inr ⟨.val q.2, u.T, u.V, q.1, l, rfl, ρ, hρ, rfl⟩

/-- The arguments of the second call: filters `W`, bases `ρ D T D^H`, activations `V / ρ`. -/
noncomputable def follow (a : Fin n_bins → ℂ) (ρ : Fin n → Fin K → ℝ) (s : St n_bins n_blocks n t K) : Kw n_bins n_blocks n t K :=
  { demix := some s.W,
    basis := some fun k b β => (ρ k b : ℂ) • (diagonal (fun i => a (binOf n_bins n_blocks β i)) * s.T k b β
      * (diagonal fun i => a (binOf n_bins n_blocks β i))ᴴ),
    activation := some fun k b j => s.V k b j / ρ k b }

theorem reset_kw (hb : n_blocks ≠ 0) (norm : Bool) (floor : ℝ → ℝ) (draw : Draw n_bins n_blocks n t K)
    (s : St n_bins n_blocks n t K) :
    reset norm floor draw { demix := some s.W, basis := some s.T, activation := some s.V } Obj.fresh = .ok (renorm norm s) :=
  reset_renorm norm floor draw _ _ (by
    simp only [reset, initPsdtf, if_neg hb, override, startFilter, initBasis, attrOr, bind, Except.bind]
    rfl)

section call
variable [Nonempty (Fin K)] [Nonempty (Fin n_bins)] [Nonempty (Fin t)] (np np' : Numpy ℂ) (hb : n_blocks ≠ 0) (norm norm' : Bool)
  (floor : ℝ → ℝ) (sr : ScaleOpt) (r : Fin n) {X : Spec (Fin n_bins) n t} (hX : ∀ f, LinearIndependent ℂ (X f).row) (n_iter : ℕ)
include hb hX

/-- C116: a call of `GaussIPSDTA` on a recording with the gain `a f` in bin `f`, started from bases that follow the gains. The
filters are the same, the output has the gains, and all losses are shifted by `2 n ∑ log |a f|`. -/
theorem C116_gauss {a : Fin n_bins → ℂ} (ha : ∀ f, a f ≠ 0) {ρ : Fin n → Fin K → ℝ} (hρ : ∀ k b, 0 < ρ k b)
    (draw draw' : Draw n_bins n_blocks n t K) {s : St n_bins n_blocks n t K} (hs : Inv np s)
    (hs' : Inv np' (⟨resT (onBlk a) ρ s.T, resV ρ s.V, s.W⟩ : St n_bins n_blocks n t K))
    (hreg : RegularRun (gaussUpdate np norm floor X) (GReg np floor X) n_iter (renorm norm s))
    (hreg' : RegularRun (gaussUpdate np' norm' floor fun f => a f • X f) (GReg np' floor fun f => a f • X f) n_iter
      (renorm norm' ⟨resT (onBlk a) ρ s.T, resV ρ s.V, s.W⟩)) :
    Carried a (2 * n * ∑ f, Real.log ‖a f‖)
      (gaussCall np norm floor sr r draw X n_iter { demix := some s.W, basis := some s.T, activation := some s.V } .fresh)
      (gaussCall np' norm' floor sr r draw' (fun f => a f • X f) n_iter (follow a ρ s) .fresh) := by
  obtain ⟨u, u', l, e, e', -, -, hR⟩ := run_gauss np np' hb norm norm' floor ha hX true n_iter (inv_renorm norm hs)
    (inv_renorm norm' hs') (rel_renorm norm norm' ha hs.pos ⟨ρ, hρ, rfl⟩) hreg hreg'
  exact carried_of sr r ha rfl rfl (reset_kw hb norm floor draw s)
    (reset_kw hb norm' floor draw' ⟨resT (onBlk a) ρ s.T, resV ρ s.V, s.W⟩) (e []) (e' []) hR

/-- C116: the same for `TIPSDTA`. -/
theorem C116_t {nu : ℝ} (hnu : 0 < nu) {a : Fin n_bins → ℂ} (ha : ∀ f, a f ≠ 0) {ρ : Fin n → Fin K → ℝ} (hρ : ∀ k b, 0 < ρ k b)
    (draw draw' : Draw n_bins n_blocks n t K) {s : St n_bins n_blocks n t K} (hs : Inv np s)
    (hs' : Inv np' (⟨resT (onBlk a) ρ s.T, resV ρ s.V, s.W⟩ : St n_bins n_blocks n t K))
    (hreg : RegularRun (tUpdate np norm floor nu X) (TReg np floor nu X) n_iter (renorm norm s))
    (hreg' : RegularRun (tUpdate np' norm' floor nu fun f => a f • X f) (TReg np' floor nu fun f => a f • X f) n_iter
      (renorm norm' ⟨resT (onBlk a) ρ s.T, resV ρ s.V, s.W⟩)) :
    Carried a (2 * n * ∑ f, Real.log ‖a f‖)
      (tCall np norm floor nu sr r draw X n_iter { demix := some s.W, basis := some s.T, activation := some s.V } .fresh)
      (tCall np' norm' floor nu sr r draw' (fun f => a f • X f) n_iter (follow a ρ s) .fresh) := by
  obtain ⟨u, u', l, e, e', -, -, hR⟩ := run_t np np' hb norm norm' floor ha hX true n_iter (inv_renorm norm hs)
    (inv_renorm norm' hs') (rel_renorm norm norm' ha hs.pos ⟨ρ, hρ, rfl⟩) hnu hreg hreg'
  exact carried_of sr r ha rfl rfl (reset_kw hb norm floor draw s)
    (reset_kw hb norm' floor draw' ⟨resT (onBlk a) ρ s.T, resV ρ s.V, s.W⟩) (e []) (e' []) hR

omit hb hX [Nonempty (Fin K)] [Nonempty (Fin n_bins)] [Nonempty (Fin t)] in
theorem carried_one {q q' : Except PyErr (Obj n_bins n_blocks n t K)} (h : Carried (fun _ => 1) 0 q q') :
    ∃ T V, q' = q.map fun o => { o with basis := .val T, activation := .val V } := by
  rcases h with ⟨e, rfl, rfl⟩ | ⟨W, T, V, Y, l, rfl, ρ, -, rfl⟩
  · exact ⟨fun _ _ _ => 0, fun _ _ _ => 0, rfl⟩
  · simp only [one_smul, add_zero, List.map_id']
    exact ⟨_, _, rfl⟩

theorem inv_np {s : St n_bins n_blocks n t K} (hs : Inv np s) : Inv np' s :=
  ⟨hs.pos, fun k j β => by rw [EigFree.toPsd_eq np' np]; exact hs.cov k j β, hs.filter⟩

omit [Nonempty (Fin n_bins)] [Nonempty (Fin t)] hb hX in
theorem rel_self (s : St n_bins n_blocks n t K) : Rel (fun _ => 1) s s := by
  refine ⟨fun _ _ => 1, fun _ _ => one_pos, ?_⟩
  have e : (onBlk (n_blocks := n_blocks) fun _ : Fin n_bins => (1 : ℂ)) = fun _ _ => 1 := rfl
  rw [e, resT_one, resV_one]

/-- C116: two calls of `GaussIPSDTA` that differ in `source_normalization` and the LAPACK implementation return the same filters,
output and losses, whatever initial values are passed or drawn. -/
theorem C116_normalization_gauss (draw : Draw n_bins n_blocks n t K) {kw : Kw n_bins n_blocks n t K} (hk : kw.initial_call = none)
    {s : St n_bins n_blocks n t K} (h : reset false floor draw kw .fresh = .ok s) (hs : Inv np s)
    (hreg : RegularRun (gaussUpdate np norm floor X) (GReg np floor X) n_iter (renorm norm s))
    (hreg' : RegularRun (gaussUpdate np' norm' floor X) (GReg np' floor X) n_iter (renorm norm' s)) :
    ∃ T V, gaussCall np' norm' floor sr r draw X n_iter kw .fresh
      = (gaussCall np norm floor sr r draw X n_iter kw .fresh).map fun o => { o with basis := .val T, activation := .val V } := by
  have hg : gain (fun _ => 1) X = X := funext fun f => one_smul ℂ (X f)
  obtain ⟨u, u', l, e, e', -, -, hR⟩ := run_gauss np np' hb norm norm' floor (a := fun _ => 1) (fun _ => one_ne_zero) hX true n_iter
    (inv_renorm norm hs) (inv_renorm norm' (inv_np np np' hb hX hs)) (rel_renorm norm norm' (fun _ => one_ne_zero) hs.pos (rel_self s)) hreg
    (by rw [hg]; exact hreg')
  have hc : 2 * (n : ℝ) * ∑ f : Fin n_bins, Real.log ‖(fun _ => (1 : ℂ)) f‖ = 0 := by simp
  rw [hc] at e'
  have := carried_of (draw := draw) (draw' := draw) (X := X) sr r (fun _ => one_ne_zero) hk hk (reset_renorm norm floor draw kw _ h)
    (reset_renorm norm' floor draw kw _ h) (e []) (e' []) hR
  rw [hg] at this
  exact carried_one this

/-- C116: the same for `TIPSDTA`. -/
theorem C116_normalization_t {nu : ℝ} (hnu : 0 < nu) (draw : Draw n_bins n_blocks n t K) {kw : Kw n_bins n_blocks n t K}
    (hk : kw.initial_call = none) {s : St n_bins n_blocks n t K} (h : reset false floor draw kw .fresh = .ok s) (hs : Inv np s)
    (hreg : RegularRun (tUpdate np norm floor nu X) (TReg np floor nu X) n_iter (renorm norm s))
    (hreg' : RegularRun (tUpdate np' norm' floor nu X) (TReg np' floor nu X) n_iter (renorm norm' s)) :
    ∃ T V, tCall np' norm' floor nu sr r draw X n_iter kw .fresh
      = (tCall np norm floor nu sr r draw X n_iter kw .fresh).map fun o => { o with basis := .val T, activation := .val V } := by
  have hg : gain (fun _ => 1) X = X := funext fun f => one_smul ℂ (X f)
  obtain ⟨u, u', l, e, e', -, -, hR⟩ := run_t np np' hb norm norm' floor (a := fun _ => 1) (fun _ => one_ne_zero) hX true n_iter
    (inv_renorm norm hs) (inv_renorm norm' (inv_np np np' hb hX hs)) (rel_renorm norm norm' (fun _ => one_ne_zero) hs.pos (rel_self s)) hnu hreg
    (by rw [hg]; exact hreg')
  have hc : 2 * (n : ℝ) * ∑ f : Fin n_bins, Real.log ‖(fun _ => (1 : ℂ)) f‖ = 0 := by simp
  rw [hc] at e'
  have := carried_of (draw := draw) (draw' := draw) (X := X) sr r (fun _ => one_ne_zero) hk hk (reset_renorm norm floor draw kw _ h)
    (reset_renorm norm' floor draw kw _ h) (e []) (e' []) hR
  rw [hg] at this
  exact carried_one this

end call

/-! ## Gains of modulus one -/

open Rotation (cj cj_mul cj_posDef toPsd_cj gmeanmh_cj)

theorem spec_cj (np : Numpy ℂ) {m : ℕ} {U A : Mat m ℂ} (hU : Uᴴ * U = 1) (hA : A.IsHermitian) (g : ℝ → ℝ) :
    (np.eigh (cj U A)).2 * npDiag (fun i => g ((np.eigh (cj U A)).1 i)) * (np.eigh (cj U A)).2ᴴ
      = cj U ((np.eigh A).2 * npDiag (fun i => g ((np.eigh A).1 i)) * (np.eigh A).2ᴴ) := by
  have hA' : (cj U A).IsHermitian := by
    rw [IsHermitian, Rotation.cj_conjTranspose, hA.eq]
  have h1 := np.eigh_spec _ hA'
  have h2 := np.eigh_spec _ hA
  have hu : (U * (np.eigh A).2)ᴴ * (U * (np.eigh A).2) = 1 := by
    rw [conjTranspose_mul]
    calc (np.eigh A).2ᴴ * Uᴴ * (U * (np.eigh A).2) = (np.eigh A).2ᴴ * (Uᴴ * U) * (np.eigh A).2 := by
          simp only [Matrix.mul_assoc]
      _ = 1 := by rw [hU, Matrix.mul_one, h2.unitary]
  have hd : (np.eigh (cj U A)).2 * (diagonal fun i => ((np.eigh (cj U A)).1 i : ℂ)) * (np.eigh (cj U A)).2ᴴ
      = U * (np.eigh A).2 * (diagonal fun i => ((np.eigh A).1 i : ℂ)) * (U * (np.eigh A).2)ᴴ := by
    refine h1.decomp.symm.trans ?_
    have e2 := h2.decomp
    conv_lhs => rw [e2]
    rw [cj, conjTranspose_mul]
    simp only [Matrix.mul_assoc]
    rfl
  refine (EigFree.spectral_unique h1.unitary hu hd g).trans ?_
  rw [cj, conjTranspose_mul]
  simp only [Matrix.mul_assoc]

theorem sqrtmh_cj (np : Numpy ℂ) {m : ℕ} {U A : Mat m ℂ} (hU : Uᴴ * U = 1) (hA : A.IsHermitian) :
    Linalg.sqrtmh np (cj U A) = cj U (Linalg.sqrtmh np A) := spec_cj np hU hA Real.sqrt

theorem invsqrtmh_cj (np : Numpy ℂ) {m : ℕ} {U A : Mat m ℂ} (hU : Uᴴ * U = 1) (hA : A.IsHermitian) (floor : ℝ → ℝ) :
    Linalg.invsqrtmh np (some floor) (cj U A) = cj U (Linalg.invsqrtmh np (some floor) A) :=
  spec_cj np hU hA fun x => 1 / floor (Real.sqrt x)

/-- The eigenvalues are the same, up to their order. -/
theorem eigenvalue_cj (np : Numpy ℂ) {m : ℕ} {U A : Mat m ℂ} (hU : Uᴴ * U = 1) (hA : A.IsHermitian) {p : ℝ → Prop}
    (h : ∀ i, p ((np.eigh A).1 i)) (i : Fin m) : p ((np.eigh (cj U A)).1 i) := by
  classical
  have e := spec_cj np hU hA fun x => if p x then 0 else 1
  have hA' : (cj U A).IsHermitian := by
    rw [IsHermitian, Rotation.cj_conjTranspose, hA.eq]
  have hu := (np.eigh_spec _ hA').unitary
  simp only [h, if_true] at e
  have hz : (npDiag fun _ : Fin m => (0 : ℝ) : Mat m ℂ) = 0 := by
    rw [npDiag_eq]
    ext a b
    simp [diagonal_apply]
  have hz' : cj U (0 : Mat m ℂ) = 0 := by rw [cj, Matrix.mul_zero, Matrix.zero_mul]
  rw [hz, Matrix.mul_zero, Matrix.zero_mul, hz'] at e
  have e' := congrArg (fun M => (np.eigh (cj U A)).2ᴴ * M * (np.eigh (cj U A)).2) e
  simp only [Matrix.mul_zero, Matrix.zero_mul] at e'
  have e2 : (npDiag (fun i => if p ((np.eigh (cj U A)).1 i) then (0 : ℝ) else 1) : Mat m ℂ) = 0 := by
    rw [← e']
    calc _ = (np.eigh (cj U A)).2ᴴ * (np.eigh (cj U A)).2 * npDiag (fun i => if p ((np.eigh (cj U A)).1 i) then (0 : ℝ) else 1)
          * ((np.eigh (cj U A)).2ᴴ * (np.eigh (cj U A)).2) := by rw [hu, Matrix.one_mul, Matrix.mul_one]
      _ = _ := by simp only [Matrix.mul_assoc]
  have e3 := congrFun (congrFun e2 i) i
  rw [npDiag_eq, diagonal_apply_eq] at e3
  by_contra hn
  simp [hn] at e3

/-- The state with the phases `a` applied to the bases. -/
noncomputable def rot (a : Fin n_bins → ℂ) (s : St n_bins n_blocks n t K) : St n_bins n_blocks n t K :=
  ⟨resT (onBlk a) (fun _ _ => 1) s.T, s.V, s.W⟩

section phase
variable {a : Fin n_bins → ℂ} (ha : ∀ f, ‖a f‖ = 1)
include ha

theorem phase_ne (f : Fin n_bins) : a f ≠ 0 := norm_ne_zero_iff.mp (by rw [ha f]; exact one_ne_zero)

theorem phase_unitary (β : Blk n_bins n_blocks) :
    (diagonal (onBlk a β) : Mat (bsize n_bins n_blocks β) ℂ)ᴴ * diagonal (onBlk a β) = 1 := by
  rw [diagonal_conjTranspose, diagonal_mul_diagonal, ← diagonal_one]
  congr 1
  funext i
  have := Complex.conj_mul' (onBlk a β i)
  simp only [Pi.star_apply]
  refine this.trans ?_
  rw [onBlk, ha]
  norm_num

theorem phase_inv (β : Blk n_bins n_blocks) :
    (diagonal (onBlk a β) : Mat (bsize n_bins n_blocks β) ℂ)ᴴ⁻¹ = diagonal (onBlk a β) := inv_eq_right_inv (phase_unitary ha β)

omit ha in
theorem resT_cj (T : Fin n → Fin K → (β : Blk n_bins n_blocks) → Mat (bsize n_bins n_blocks β) ℂ) (k : Fin n) (b : Fin K)
    (β : Blk n_bins n_blocks) : resT (onBlk a) (fun _ _ => 1) T k b β = cj (diagonal (onBlk a β)) (T k b β) := by
  rw [resT, Complex.ofReal_one, one_smul]
  rfl

theorem covFixed_phase {np : Numpy ℂ} {T : Fin n → Fin K → (β : Blk n_bins n_blocks) → Mat (bsize n_bins n_blocks β) ℂ}
    {V : Fin n → Fin K → Fin t → ℝ} (h : CovFixed np T V) : CovFixed np (resT (onBlk a) (fun _ _ => 1) T) V := by
  intro k j β
  have e := raw_res (d := onBlk a) (fun _ _ => one_pos) T V k j β
  rw [resV_one] at e
  rw [e]
  exact (toPsd_cj (phase_unitary ha β) np floor0 _).trans (congrArg _ (h k j β))

theorem inv_phase {np : Numpy ℂ} {s : St n_bins n_blocks n t K} (hs : Inv np s) : Inv np (rot a s) := by
  have := pos_res (d := onBlk a) (fun β i => phase_ne ha _) (fun _ _ => one_pos) hs.pos
  rw [resV_one] at this
  exact ⟨this, covFixed_phase ha hs.cov, hs.filter⟩

variable {X : Spec (Fin n_bins) n t} {T : Fin n → Fin K → (β : Blk n_bins n_blocks) → Mat (bsize n_bins n_blocks β) ℂ}
  {V : Fin n → Fin K → Fin t → ℝ} (W : Fin n_bins → Mat n ℂ)

theorem matP_phase (k : Fin n) (b : Fin K) (β : Blk n_bins n_blocks) :
    matP (fun k j β => (raw (resT (onBlk a) (fun _ _ => 1) T) V k j β)⁻¹) V k b β
      = cj (diagonal (onBlk a β)) (matP (fun k j β => (raw T V k j β)⁻¹) V k b β) := by
  have := matP_res (d := onBlk a) (T := T) (V := V) (fun _ _ => one_pos) k b β
  rw [resV_one, phase_inv ha, Complex.ofReal_one, inv_one, one_smul] at this
  exact this

theorem matQ_phase (w : Fin n → Fin t → ℝ) (k : Fin n) (b : Fin K) (β : Blk n_bins n_blocks) :
    matQ (fun k j β => (raw (resT (onBlk a) (fun _ _ => 1) T) V k j β)⁻¹) w (onBlk (separate (gain a X) W)) V k b β
      = cj (diagonal (onBlk a β)) (matQ (fun k j β => (raw T V k j β)⁻¹) w (onBlk (separate X W)) V k b β) := by
  have := matQ_res (d := onBlk a) (T := T) (V := V) (fun β i => phase_ne ha _) (fun _ _ => one_pos) (separate_gain a X W) w k b β
  rw [resV_one, phase_inv ha, Complex.ofReal_one, inv_one, one_smul] at this
  exact this

theorem rxx_phase (w : Fin n → Fin t → ℝ) :
    rxx w (fun k j β => (raw (resT (onBlk a) (fun _ _ => 1) T) V k j β)⁻¹) (onBlk (gain a X))
      = rxx w (fun k j β => (raw T V k j β)⁻¹) (onBlk X) := by
  have := rxx_res (d := onBlk a) (T := T) (V := V) (fun β i => phase_ne ha _) (fun _ _ => one_pos)
    (X := onBlk X) (X' := onBlk (gain a X)) (fun β i => rfl) w
  rw [resV_one] at this
  exact this

theorem wt_phase (nu : ℝ) : wt nu (gain a X) W (resT (onBlk a) (fun _ _ => 1) T) V = wt nu X W T V := by
  have := blind_wt (n_blocks := n_blocks) (phase_ne ha) nu X (fun _ _ => 1) (fun _ _ => one_pos) W T V
  rw [resV_one] at this
  exact this

theorem newV_phase (w : Fin n → Fin t → ℝ) :
    newV w (onBlk (separate (gain a X) W)) (resT (onBlk a) (fun _ _ => 1) T) V = newV w (onBlk (separate X W)) T V := by
  have := newV_res (d := onBlk a) (T := T) (V := V) (fun β i => phase_ne ha _) (fun _ _ => one_pos) (separate_gain a X W) w
  rw [resV_one, resV_one] at this
  exact this

variable [Nonempty (Fin K)] [Nonempty (Fin t)] {np : Numpy ℂ} {floor : ℝ → ℝ} {s : St n_bins n_blocks n t K}

omit ha in
/-- New bases of a recording with phases. -/
theorem basis_phase (ha : ∀ f, ‖a f‖ = 1) (hs : Pos s.T s.V) {w : Fin n → Fin t → ℝ}
    {G G' : Fin n → Fin K → (β : Blk n_bins n_blocks) → Mat (bsize n_bins n_blocks β) ℂ}
    (hG : ∀ k b β, (G k b β).PosDef) (hG' : ∀ k b β, (G' k b β).PosDef)
    (e : ∀ k b β, G k b β * matP (fun k j β => (raw s.T s.V k j β)⁻¹) s.V k b β * G k b β
      = s.T k b β * matQ (fun k j β => (raw s.T s.V k j β)⁻¹) w (onBlk (separate X s.W)) s.V k b β * s.T k b β)
    (e' : ∀ k b β, G' k b β * matP (fun k j β => (raw (rot a s).T (rot a s).V k j β)⁻¹) (rot a s).V k b β * G' k b β
      = (rot a s).T k b β * matQ (fun k j β => (raw (rot a s).T (rot a s).V k j β)⁻¹) w
        (onBlk (separate (gain a X) (rot a s).W)) (rot a s).V k b β * (rot a s).T k b β) :
    G' = resT (onBlk a) (fun _ _ => 1) G :=
  basis_res (T := s.T) (V := s.V) (ρ := fun _ _ => 1) (fun β i => phase_ne ha _) (fun _ _ => one_pos) (separate_gain a X s.W) hs hG hG' e
    (by simp only [resV_one]; exact e')

theorem greg_phase (hs : Inv np s) (h : GReg np floor X s) : GReg np floor (gain a X) (rot a s) := by
  have hU := fun β : Blk n_bins n_blocks => phase_unitary ha β
  have hb : BasisGaussReg np floor (onBlk (separate (gain a X) (rot a s).W)) (rot a s).T (rot a s).V := by
    intro k b β
    obtain ⟨r1, r2, r3, r4⟩ := h.basis k b β
    have e1 := matP_phase ha (T := s.T) (V := s.V) k b β
    have e2 := matQ_phase ha (X := X) (T := s.T) (V := s.V) s.W (fun _ _ => 1) k b β
    simp only [rot, e1, e2, resT_cj, cj_mul (hU β), toPsd_cj (hU β)] at r1 r2 r3 r4 ⊢
    refine ⟨by rw [r1], by rw [r2], cj_posDef (hU β) r3, fun G hG => ?_⟩
    rw [gmeanmh_cj (hU β) np (matP_posDef hs.pos k b β) r3] at hG
    obtain ⟨G₀, e0, -⟩ := Linalg.C17_gmeanmh np _ _ (matP_posDef hs.pos k b β) r3 2 (by norm_num)
    rw [e0] at hG
    cases hG
    rw [toPsd_cj (hU β), r4 G₀ e0]
  refine ⟨hb, fun T' hT' => ?_⟩
  obtain ⟨T, hT, hTd, hTr⟩ := basisGauss_ok hs.pos hs.cov h.basis
  obtain ⟨T₁, hT₁, hTd', hTr'⟩ := basisGauss_ok (inv_phase ha hs).pos (inv_phase ha hs).cov hb
  rw [hT₁] at hT'
  cases hT'
  obtain rfl := basis_phase ha hs.pos hTd hTd' hTr hTr'
  obtain ⟨hc, hr⟩ := h.activation T hT
  have hp1 : Pos T s.V := ⟨hTd, hs.pos.2⟩
  have hc' := covFixed_phase ha hc
  have hp1' : Pos (resT (onBlk a) (fun _ _ => 1) T) s.V := ⟨hTd', hs.pos.2⟩
  refine ⟨hc', fun V' hV' => ?_⟩
  have e := activationMM_eq hp1' hc' (fun _ _ => 1) (onBlk (separate (gain a X) s.W))
  rw [newV_phase ha] at e
  have e2 : V' = newV (fun _ _ => 1) (onBlk (separate X s.W)) T s.V := Except.ok.inj (hV'.symm.trans e)
  obtain ⟨g1, g2, g3⟩ := hr V' (by rw [e2]; exact activationMM_eq hp1 hc _ _)
  exact ⟨g1, covFixed_phase ha g2, fun β => by rw [rxx_phase ha]; exact g3 β⟩

theorem treg_phase {nu : ℝ} (hs : Inv np s) (h : TReg np floor nu X s) : TReg np floor nu (gain a X) (rot a s) := by
  have hU := fun β : Blk n_bins n_blocks => phase_unitary ha β
  have hw : wt nu (gain a X) (rot a s).W (rot a s).T (rot a s).V = wt nu X s.W s.T s.V := wt_phase ha s.W nu
  have hb : BasisTReg np floor (wt nu X s.W s.T s.V) (onBlk (separate (gain a X) (rot a s).W)) (rot a s).T (rot a s).V := by
    intro k b β
    obtain ⟨r1, r2, r3, r4, r5⟩ := h.basis k b β
    have e1 := matP_phase ha (T := s.T) (V := s.V) k b β
    have e2 := matQ_phase ha (X := X) (T := s.T) (V := s.V) s.W (wt nu X s.W s.T s.V) k b β
    obtain ⟨Q, hQ⟩ : ∃ Q, Q = matQ (fun k j β => (raw s.T s.V k j β)⁻¹) (wt nu X s.W s.T s.V) (onBlk (separate X s.W)) s.V k b β :=
      ⟨_, rfl⟩
    obtain ⟨P, hP⟩ : ∃ P, P = matP (fun k j β => (raw s.T s.V k j β)⁻¹) s.V k b β := ⟨_, rfl⟩
    have hPd : P.PosDef := by rw [hP]; exact matP_posDef hs.pos k b β
    simp only [← hQ, ← hP] at r1 r2 r3 r4 r5 e1 e2
    have hS := (Linalg.C18_sqrtmh np Q r2.posSemidef).2.1
    have hM : (Linalg.sqrtmh np Q * s.T k b β * P * s.T k b β * Linalg.sqrtmh np Q).IsHermitian := by
      rw [IsHermitian]
      simp only [conjTranspose_mul, hS.eq, (hs.pos.1 k b β).1.eq, hPd.1.eq, Matrix.mul_assoc]
    have hr4 := eigenvalue_cj np (hU β) hM (p := fun x => floor (Real.sqrt x) = Real.sqrt x) r4
    simp only [rot, e1, e2, resT_cj, sqrtmh_cj np (hU β) r2.1, cj_mul (hU β), toPsd_cj (hU β), invsqrtmh_cj np (hU β) hM]
    exact ⟨by rw [r1], cj_posDef (hU β) r2, by rw [r3], hr4, by rw [r5]⟩
  refine ⟨by rw [hw]; exact hb, fun T' hT' => ?_⟩
  rw [hw] at hT'
  obtain ⟨T, hT, hTd, hTr⟩ := basisT_ok hs.pos hs.cov h.basis
  obtain ⟨T₁, hT₁, hTd', hTr'⟩ := basisT_ok (inv_phase ha hs).pos (inv_phase ha hs).cov hb
  rw [hT₁] at hT'
  cases hT'
  obtain rfl := basis_phase ha hs.pos hTd hTd' hTr hTr'
  obtain ⟨hc, hr⟩ := h.activation T hT
  have hp1 : Pos T s.V := ⟨hTd, hs.pos.2⟩
  have hc' := covFixed_phase ha hc
  have hp1' : Pos (resT (onBlk a) (fun _ _ => 1) T) s.V := ⟨hTd', hs.pos.2⟩
  refine ⟨hc', fun V' hV' => ?_⟩
  have e := activationMM_eq hp1' hc' (wt nu X s.W T s.V) (onBlk (separate (gain a X) s.W))
  rw [newV_phase ha] at e
  have hV'' : activationMM np (wt nu (gain a X) s.W (resT (onBlk a) (fun _ _ => 1) T) s.V) (onBlk (separate (gain a X) s.W))
    (resT (onBlk a) (fun _ _ => 1) T) s.V = .ok V' := hV'
  rw [wt_phase ha] at hV''
  have e2 : V' = newV (wt nu X s.W T s.V) (onBlk (separate X s.W)) T s.V := Except.ok.inj (hV''.symm.trans e)
  obtain ⟨g1, g2, g3⟩ := hr V' (by rw [e2]; exact activationMM_eq hp1 hc _ _)
  refine ⟨g1, covFixed_phase ha g2, fun β => ?_⟩
  have hw' : wt nu (gain a X) (rot a s).W (resT (onBlk a) (fun _ _ => 1) T) V' = wt nu X s.W T V' := wt_phase ha s.W nu
  rw [rxx_phase ha, hw']
  exact g3 β

omit [Nonempty (Fin K)] [Nonempty (Fin t)] in
theorem normalize_phase (norm : Bool) (T : Fin n → Fin K → (β : Blk n_bins n_blocks) → Mat (bsize n_bins n_blocks β) ℂ)
    (V : Fin n → Fin K → Fin t → ℝ) :
    (if norm then Ipsdta.normalize (resT (onBlk a) (fun _ _ => 1) T) V else (resT (onBlk a) (fun _ _ => 1) T, V))
      = (resT (onBlk a) (fun _ _ => 1) (if norm then Ipsdta.normalize T V else (T, V)).1,
          (if norm then Ipsdta.normalize T V else (T, V)).2) := by
  cases norm with
  | false => rfl
  | true =>
    have e : basisTrace (resT (onBlk a) (fun _ _ => 1) T) = basisTrace T := by
      funext k b
      refine Finset.sum_congr rfl fun β _ => ?_
      rw [resT_cj, Rotation.cj_trace (phase_unitary ha β)]
    simp only [if_true, Ipsdta.normalize, e, Prod.mk.injEq, and_true]
    funext k b β
    simp only [resT, MnmfMix.cong_smul, Complex.ofReal_one, one_smul]

omit [Nonempty (Fin K)] [Nonempty (Fin t)] in
theorem renorm_rot (norm : Bool) (s : St n_bins n_blocks n t K) : renorm norm (rot a s) = rot a (renorm norm s) := by
  simp only [renorm, rot, normalize_phase ha]

theorem dec_rot {w w' : Weights n_bins n_blocks n t K} {norm : Bool} (hw : ∀ W T V, w' W (resT (onBlk a) (fun _ _ => 1) T) V = w W T V)
    {u u' : St n_bins n_blocks n t K} (hs : Pos s.T s.V) (h : Dec floor w norm X s u)
    (h' : Dec floor w' norm (gain a X) (rot a s) u') : u' = rot a u := by
  obtain ⟨T, V, W, hT, e1, rfl, -, e3, rfl⟩ := h
  obtain ⟨T', V', W', hT', e1', rfl, -, e3', rfl⟩ := h'
  have hw0 : w' (rot a s).W (rot a s).T (rot a s).V = w s.W s.T s.V := hw _ _ _
  rw [hw0] at e1'
  obtain rfl := basis_phase ha hs hT hT' e1 e1'
  have hw1 : w' (rot a s).W (resT (onBlk a) (fun _ _ => 1) T) (rot a s).V = w s.W T s.V := hw _ _ _
  have hV : newV (w s.W T s.V) (onBlk (separate (gain a X) (rot a s).W)) (resT (onBlk a) (fun _ _ => 1) T) (rot a s).V
      = newV (w s.W T s.V) (onBlk (separate X s.W)) T s.V := newV_phase ha s.W _
  simp only [hw1, hV] at e3' ⊢
  have hw2 : ∀ V, w' (rot a s).W (resT (onBlk a) (fun _ _ => 1) T) V = w s.W T V := fun V => hw _ _ _
  rw [spatialVcd, rxx_phase ha, hw2] at e3'
  have hWW : W' = W := Except.ok.inj (e3'.symm.trans e3)
  simp only [rot, normalize_phase ha, hWW]

theorem gauss_rot [Nonempty (Fin n_bins)] (hb : n_blocks ≠ 0) (norm : Bool) (hX : ∀ f, LinearIndependent ℂ (X f).row) (hs : Inv np s)
    (h : GReg np floor X s) : ∃ u, gaussUpdate np norm floor X s = .ok u ∧ Inv np u ∧
      gaussUpdate np norm floor (gain a X) (rot a s) = .ok (rot a u) := by
  obtain ⟨u, e, hi, hd⟩ := gauss_dec hb norm floor hX hs h
  obtain ⟨u', e', -, hd'⟩ := gauss_dec hb norm floor (rows_gain (phase_ne ha) hX) (inv_phase ha hs) (greg_phase ha hs h)
  obtain rfl := dec_rot (w := fun _ _ _ _ _ => 1) (w' := fun _ _ _ _ _ => 1) ha (fun _ _ _ => rfl) hs.pos hd hd'
  exact ⟨u, e, hi, e'⟩

theorem t_rot [Nonempty (Fin n_bins)] (hb : n_blocks ≠ 0) (norm : Bool) {nu : ℝ} (hnu : 0 < nu)
    (hX : ∀ f, LinearIndependent ℂ (X f).row) (hs : Inv np s)
    (h : TReg np floor nu X s) : ∃ u, tUpdate np norm floor nu X s = .ok u ∧ Inv np u ∧
      tUpdate np norm floor nu (gain a X) (rot a s) = .ok (rot a u) := by
  obtain ⟨u, e, hi, hd⟩ := t_dec hb norm floor hnu hX hs h
  obtain ⟨u', e', -, hd'⟩ := t_dec hb norm floor hnu (rows_gain (phase_ne ha) hX) (inv_phase ha hs) (treg_phase ha hs h)
  obtain rfl := dec_rot ha (fun W T V => wt_phase ha W nu) hs.pos hd hd'
  exact ⟨u, e, hi, e'⟩

omit ha [Nonempty (Fin K)] [Nonempty (Fin t)] in
theorem regular_rot {step step' : St n_bins n_blocks n t K → Except PyErr (St n_bins n_blocks n t K)}
    {R R' : St n_bins n_blocks n t K → Prop} (hR : ∀ s, Inv np s → R s → R' (rot a s))
    (h : ∀ s, Inv np s → R s → ∃ u, step s = .ok u ∧ Inv np u ∧ step' (rot a s) = .ok (rot a u)) (n_iter : ℕ) :
    ∀ {s : St n_bins n_blocks n t K}, Inv np s → RegularRun step R n_iter s → RegularRun step' R' n_iter (rot a s) := by
  induction n_iter with
  | zero => exact fun _ _ => trivial
  | succ i ih =>
    intro s hs hr
    refine ⟨hR s hs hr.1, fun v hv => ?_⟩
    obtain ⟨u, e, hi, e'⟩ := h s hs hr.1
    rw [e'] at hv
    cases hv
    exact ih hi (hr.2 u e)

omit ha [Nonempty (Fin K)] [Nonempty (Fin t)] in
theorem rel_rot (s : St n_bins n_blocks n t K) : Rel a s (rot a s) :=
  ⟨fun _ _ => 1, fun _ _ => one_pos, by rw [resV_one]; rfl⟩

omit [Nonempty (Fin K)] [Nonempty (Fin t)] in
theorem shift_phase : 2 * (n : ℝ) * ∑ f : Fin n_bins, Real.log ‖a f‖ = 0 := by simp [ha]

/-- C116: if every bin of the recording is multiplied by a number of modulus one (a delay of the whole recording) and the bases follow,
`GaussIPSDTA` returns the same filters and losses, and the output has the phases; only the first run must be free of floors. -/
theorem C116_phase_gauss [Nonempty (Fin n_bins)] (hb : n_blocks ≠ 0) (norm : Bool) (sr : ScaleOpt) (r : Fin n)
    (hX : ∀ f, LinearIndependent ℂ (X f).row) (n_iter : ℕ) (draw draw' : Draw n_bins n_blocks n t K) (hs : Inv np s)
    (hreg : RegularRun (gaussUpdate np norm floor X) (GReg np floor X) n_iter (renorm norm s)) :
    Carried a 0
      (gaussCall np norm floor sr r draw X n_iter { demix := some s.W, basis := some s.T, activation := some s.V } .fresh)
      (gaussCall np norm floor sr r draw' (fun f => a f • X f) n_iter (follow a (fun _ _ => 1) s) .fresh) := by
  have hreg' := regular_rot (a := a) (fun s hs h => greg_phase ha hs h) (fun s hs h => gauss_rot ha hb norm hX hs h) n_iter
    (inv_renorm norm hs) hreg
  rw [← renorm_rot ha] at hreg'
  have := C116_gauss np np hb norm norm floor sr r hX n_iter (phase_ne ha) (ρ := fun _ _ => 1) (fun _ _ => one_pos) draw draw' hs
    (by rw [resV_one]; exact inv_phase ha hs) hreg (by rw [resV_one]; exact hreg')
  rwa [shift_phase ha] at this

/-- C116: the same for `TIPSDTA`. -/
theorem C116_phase_t [Nonempty (Fin n_bins)] (hb : n_blocks ≠ 0) (norm : Bool) {nu : ℝ} (hnu : 0 < nu) (sr : ScaleOpt) (r : Fin n)
    (hX : ∀ f, LinearIndependent ℂ (X f).row) (n_iter : ℕ) (draw draw' : Draw n_bins n_blocks n t K) (hs : Inv np s)
    (hreg : RegularRun (tUpdate np norm floor nu X) (TReg np floor nu X) n_iter (renorm norm s)) :
    Carried a 0
      (tCall np norm floor nu sr r draw X n_iter { demix := some s.W, basis := some s.T, activation := some s.V } .fresh)
      (tCall np norm floor nu sr r draw' (fun f => a f • X f) n_iter (follow a (fun _ _ => 1) s) .fresh) := by
  have hreg' := regular_rot (a := a) (fun s hs h => treg_phase ha hs h) (fun s hs h => t_rot ha hb norm hnu hX hs h) n_iter
    (inv_renorm norm hs) hreg
  rw [← renorm_rot ha] at hreg'
  have := C116_t np np hb norm norm floor sr r hX n_iter hnu (phase_ne ha) (ρ := fun _ _ => 1) (fun _ _ => one_pos) draw draw' hs
    (by rw [resV_one]; exact inv_phase ha hs) hreg (by rw [resV_one]; exact hreg')
  rwa [shift_phase ha] at this

omit [Nonempty (Fin K)] [Nonempty (Fin t)] in
/-- Diagonal bases, like the ones the classes draw, do not see phases. -/
theorem rot_diagonal (c : Fin n → Fin K → (β : Blk n_bins n_blocks) → Fin (bsize n_bins n_blocks β) → ℝ)
    (V : Fin n → Fin K → Fin t → ℝ) (W : Fin n_bins → Mat n ℂ) :
    rot a (⟨fun k b β => diagonal fun i => (c k b β i : ℂ), V, W⟩ : St n_bins n_blocks n t K)
      = ⟨fun k b β => diagonal fun i => (c k b β i : ℂ), V, W⟩ := by
  simp only [rot, St.mk.injEq, and_self, and_true]
  funext k b β
  rw [resT_cj, cj, diagonal_conjTranspose, diagonal_mul_diagonal, diagonal_mul_diagonal]
  congr 1
  funext i
  have h := Complex.mul_conj' (onBlk a β i)
  rw [onBlk, ha] at h
  have h' : a (binOf n_bins n_blocks β i) * star (a (binOf n_bins n_blocks β i)) = 1 := h.trans (by norm_num)
  simp only [onBlk, Pi.star_apply]
  linear_combination (c k b β i : ℂ) * h'

theorem phase_default {step step' : St n_bins n_blocks n t K → Except PyErr (St n_bins n_blocks n t K)}
    {loss loss' : St n_bins n_blocks n t K → Except PyErr ℝ} [Nonempty (Fin n_bins)] (hb : n_blocks ≠ 0) {norm : Bool}
    (sr : ScaleOpt) (r : Fin n) {n_iter : ℕ} (draw : Draw n_bins n_blocks n t K) (hd : Drawn floor draw)
    (hrun : ∀ s s', Inv np s → Inv np s' → Rel a s s' → s' = rot a s → s = initial norm floor draw →
      ∃ u u' l, (∀ ls, baseCall step loss true n_iter s ls = .ok (u, ls ++ l)) ∧
      (∀ ls, baseCall step' loss' true n_iter s' ls = .ok (u', ls ++ l.map (· + 2 * n * ∑ f, Real.log ‖a f‖))) ∧
        Inv np u ∧ Inv np u' ∧ Rel a u u') :
    Carried a 0 (call step loss norm floor sr r draw X n_iter {} .fresh)
      (call step' loss' norm floor sr r draw (gain a X) n_iter {} .fresh) := by
  have h0 : reset norm floor draw {} (Obj.fresh : Obj n_bins n_blocks n t K) = .ok (initial norm floor draw) := by
    simp only [reset, initPsdtf, if_neg hb, override, startFilter, initBasis, attrOr, Obj.fresh, bind, Except.bind]
    rfl
  have hrot : rot a (initial norm floor draw) = initial norm floor draw := by
    rw [initial, ← renorm_rot ha, rot_diagonal ha]
  have hs : Inv np (initial norm floor draw) := initial_inv np norm hd
  obtain ⟨u, u', l, e, e', -, -, hR⟩ := hrun (initial norm floor draw) (rot a (initial norm floor draw)) hs (inv_phase ha hs)
    (rel_rot _) rfl rfl
  rw [hrot] at e'
  rw [shift_phase ha] at e'
  exact carried_of sr r (phase_ne ha) rfl rfl h0 h0 (e []) (e' []) hR

/-- C116: the first call of `GaussIPSDTA` without initial values. A recording with other phases leads to the same filters and
losses. -/
theorem C116_phase_default_gauss [Nonempty (Fin n_bins)] (hb : n_blocks ≠ 0) (norm : Bool) (sr : ScaleOpt) (r : Fin n)
    (hX : ∀ f, LinearIndependent ℂ (X f).row) (n_iter : ℕ) {draw : Draw n_bins n_blocks n t K} (hd : Drawn floor draw)
    (hreg : RegularRun (gaussUpdate np norm floor X) (GReg np floor X) n_iter (initial norm floor draw)) :
    Carried a 0 (gaussCall np norm floor sr r draw X n_iter {} .fresh)
      (gaussCall np norm floor sr r draw (fun f => a f • X f) n_iter {} .fresh) := by
  refine phase_default (np := np) ha hb sr r draw hd ?_
  rintro s s' hs hs' hR rfl rfl
  exact run_gauss np np hb norm norm floor (phase_ne ha) hX true n_iter hs hs' hR hreg
    (regular_rot (a := a) (fun s hs h => greg_phase ha hs h) (fun s hs h => gauss_rot ha hb norm hX hs h) n_iter hs hreg)

/-- C116: the same for `TIPSDTA`. -/
theorem C116_phase_default_t [Nonempty (Fin n_bins)] (hb : n_blocks ≠ 0) (norm : Bool) {nu : ℝ} (hnu : 0 < nu) (sr : ScaleOpt)
    (r : Fin n) (hX : ∀ f, LinearIndependent ℂ (X f).row) (n_iter : ℕ) {draw : Draw n_bins n_blocks n t K} (hd : Drawn floor draw)
    (hreg : RegularRun (tUpdate np norm floor nu X) (TReg np floor nu X) n_iter (initial norm floor draw)) :
    Carried a 0 (tCall np norm floor nu sr r draw X n_iter {} .fresh)
      (tCall np norm floor nu sr r draw (fun f => a f • X f) n_iter {} .fresh) := by
  refine phase_default (np := np) ha hb sr r draw hd ?_
  rintro s s' hs hs' hR rfl rfl
  exact run_t np np hb norm norm floor (phase_ne ha) hX true n_iter hs hs' hR hnu hreg
    (regular_rot (a := a) (fun s hs h => treg_phase ha hs h) (fun s hs h => t_rot ha hb norm hnu hX hs h) n_iter hs hreg)

end phase

/-! ## Examples -/

section scalars
variable {X : Spec (Fin 3) 2 6} {g : ℝ} (hg : 0 < g)
  (hyy : ∀ k (β : Blk 3 2), ∑ j, yy (onBlk (separate X fun _ => 1)) k j β = ((2 * g : ℝ) : ℂ) • 1)
  (htr : ∀ k j, ∑ β : Blk 3 2, (yy (onBlk (separate X fun _ => 1)) k j β).trace = g)
  {T : Fin 2 → Fin 1 → (β : Blk 3 2) → Mat (bsize 3 2 β) ℂ} {V : Fin 2 → Fin 1 → Fin 6 → ℝ} {x v : ℝ}
  (hT : ∀ k b β, T k b β = (x : ℂ) • 1) (hV : ∀ k b j, V k b j = v) (hx : 0 < x) (hv : 0 < v)

include hyy hT hV hx hv in
theorem matQ_scalar (k : Fin 2) (b : Fin 1) (β : Blk 3 2) :
    matQ (fun k j β => (raw T V k j β)⁻¹) (fun _ _ => 1) (onBlk (separate X fun _ => 1)) V k b β
      = ((g / (3 * (v * x ^ 2)) : ℝ) : ℂ) • 1 := by
  simp only [matQ, rawInv1 hT hV hx hv, hV, smul_smul, Matrix.mul_one, smul_mul_assoc, Matrix.one_mul, mul_smul_comm]
  rw [← Finset.smul_sum, hyy, smul_smul, smul_smul]
  have h1 : (v : ℂ) ≠ 0 := by exact_mod_cast hv.ne'
  have h2 : (x : ℂ) ≠ 0 := by exact_mod_cast hx.ne'
  congr 1
  push_cast
  field_simp
  ring

include htr hT hV hx hv in
theorem newV_scalar (k : Fin 2) (b : Fin 1) (j : Fin 6) :
    newV (fun _ _ => 1) (onBlk (separate X fun _ => 1)) T V k b j = v * Real.sqrt (g / (3 * (v * x))) := by
  have e1 : ∑ β : Blk 3 2, (((((1 : ℝ) : ℂ) • ((((v * x)⁻¹ : ℝ) : ℂ) • (1 : Mat _ ℂ) * yy (onBlk (separate X fun _ => 1)) k j β
      * ((((v * x)⁻¹ : ℝ) : ℂ) • 1))) * ((x : ℂ) • 1)).trace.re) = (v * x)⁻¹ ^ 2 * x * g := by
    have : ∀ β : Blk 3 2, (((((1 : ℝ) : ℂ) • ((((v * x)⁻¹ : ℝ) : ℂ) • (1 : Mat _ ℂ) * yy (onBlk (separate X fun _ => 1)) k j β
        * ((((v * x)⁻¹ : ℝ) : ℂ) • 1))) * ((x : ℂ) • 1)).trace.re)
        = (v * x)⁻¹ ^ 2 * x * (yy (onBlk (separate X fun _ => 1)) k j β).trace.re := by
      intro β
      simp only [Complex.ofReal_one, one_smul, smul_mul_assoc, Matrix.one_mul, mul_smul_comm, Matrix.mul_one, trace_smul,
        smul_eq_mul, Complex.re_ofReal_mul]
      ring
    simp only [this]
    rw [← Finset.mul_sum, ← Complex.re_sum, htr, Complex.ofReal_re]
  have e2 : ∑ β : Blk 3 2, (((((v * x)⁻¹ : ℝ) : ℂ) • (1 : Mat _ ℂ)) * ((x : ℂ) • (1 : Mat (bsize 3 2 β) ℂ))).trace.re
      = (v * x)⁻¹ * x * 3 := by
    have : ∀ β : Blk 3 2, (((((v * x)⁻¹ : ℝ) : ℂ) • (1 : Mat _ ℂ)) * ((x : ℂ) • (1 : Mat (bsize 3 2 β) ℂ))).trace.re
        = (v * x)⁻¹ * x * (1 : Mat (bsize 3 2 β) ℂ).trace.re := by
      intro β
      rw [scalar_mul, trace_smul, smul_eq_mul, Complex.re_ofReal_mul]
    simp only [this]
    rw [← Finset.mul_sum, ← Complex.re_sum, trace1]
    norm_num
  simp only [newV, rawInv1 hT hV hx hv, hT, hV, e1, e2]
  congr 2
  field_simp

include hg hyy htr hT hV hx hv in
/-- Nothing is floored if the scales are moderate. -/
theorem greg_scalar (np : Numpy ℂ) (hxv : v * x = 12 * g) (h1 : 1 / 10 ^ 5 ≤ x) (h2 : x ≤ 10 ^ 5) (h3 : 1 / 10 ^ 5 ≤ g) :
    Inv np (⟨T, V, fun _ => 1⟩ : St 3 2 2 6 1) ∧ GReg np floor0 X (⟨T, V, fun _ => 1⟩ : St 3 2 2 6 1) := by
  have hp := pos1 hT hV hx hv
  have hc : CovFixed np T V := fixed1 hT hV np (by rw [hxv]; norm_num at h3 ⊢; linarith)
  have hP := matP1 hT hV hx hv
  have hQ : ∀ k b β, T k b β * matQ (fun k j β => (raw T V k j β)⁻¹) (fun _ _ => 1) (onBlk (separate X fun _ => 1)) V k b β * T k b β
      = ((x / 36 : ℝ) : ℂ) • 1 := by
    intro k b β
    rw [matQ_scalar hyy hT hV hx hv, hT, scalar_mul, scalar_mul]
    congr 2
    have : g = v * x / 12 := by rw [hxv]; ring
    rw [this]
    field_simp
    norm_num
  have hG : ∀ β, ∀ G : Mat (bsize 3 2 β) ℂ, G.PosDef → G * (((x⁻¹ : ℝ) : ℂ) • 1) * G = ((x / 36 : ℝ) : ℂ) • 1 →
      G = ((x / 6 : ℝ) : ℂ) • 1 := by
    intro β G g1 g2
    refine scalar_root g1.posSemidef (by positivity) ?_
    rw [mul_smul_comm, Matrix.mul_one, smul_mul_assoc] at g2
    have g3 := congrArg (fun M => (x : ℂ) • M) g2
    simp only [smul_smul, ← Complex.ofReal_mul, mul_inv_cancel₀ hx.ne', Complex.ofReal_one, one_smul] at g3
    rw [g3]
    congr 2
    ring
  have hlow : (1 / 10 ^ 10 : ℝ) ≤ x / 36 := by norm_num at h1 ⊢; linarith
  have hinv : (1 / 10 ^ 10 : ℝ) ≤ x⁻¹ := by
    rw [← one_div]
    refine one_div_le_one_div_of_le hx (h2.trans (by norm_num))
  have hb : BasisGaussReg np floor0 (onBlk (separate X fun _ => 1)) T V := by
    intro k b β
    simp only [hP, hQ]
    refine ⟨scalar_fixed np hinv, scalar_fixed np hlow, scalar_posDef (by positivity), ?_⟩
    intro G h
    obtain ⟨G', g1, g2, g3⟩ := Linalg.C17_gmeanmh np _ _ (scalar_posDef (m := bsize 3 2 β)
      (show (0 : ℝ) < x⁻¹ by positivity)) (scalar_posDef (show (0 : ℝ) < x / 36 by positivity)) 2 (by norm_num)
    rw [g1] at h
    cases h
    rw [hG β G g2 (g3.2.1 rfl)]
    exact scalar_fixed np (by linarith)
  refine ⟨⟨hp, hc, fun _ => by simp⟩, hb, fun T' hT' => ?_⟩
  obtain ⟨T₁, g1, g2, g3⟩ := basisGauss_ok hp hc hb
  have hTT : T' = T₁ := Except.ok.inj (hT'.symm.trans g1)
  subst hTT
  have hx' : ∀ k b β, T' k b β = ((x / 6 : ℝ) : ℂ) • 1 := by
    intro k b β
    have := g3 k b β
    rw [hP, hQ] at this
    exact hG β _ (g2 k b β) this
  have hx0 : 0 < x / 6 := by positivity
  have hvx : v * (x / 6) = 2 * g := by linarith
  have hc' : CovFixed np T' V := fixed1 hx' hV np (by rw [hvx]; norm_num at h3 ⊢; linarith)
  refine ⟨hc', fun V' hV' => ?_⟩
  have hV'' : V' = newV (fun _ _ => 1) (onBlk (separate X fun _ => 1)) T' V :=
    Except.ok.inj (hV'.symm.trans (activationMM_eq (pos1 hx' hV hx0 hv) hc' _ _))
  have hVs : ∀ k b j, V' k b j = v * Real.sqrt (g / (3 * (v * (x / 6)))) := fun k b j => by
    rw [hV'']; exact newV_scalar htr hx' hV hx0 hv k b j
  have hr : g / (3 * (v * (x / 6))) = 1 / 6 := by rw [hvx]; field_simp; norm_num
  rw [hr] at hVs
  have h5 : (1 / 6 : ℝ) ≤ Real.sqrt (1 / 6) := Real.le_sqrt_of_sq_le (by norm_num)
  have hv' : 0 < v * Real.sqrt (1 / 6) := mul_pos hv (by linarith)
  refine ⟨fun k b j => by rw [hVs]; exact hv', fixed1 hx' hVs np ?_, fun β => ?_⟩
  · have : v * Real.sqrt (1 / 6) * (x / 6) = 2 * g * Real.sqrt (1 / 6) := by rw [← hvx]; ring
    rw [this]
    have : 2 * (1 / 10 ^ 5) * (1 / 6) ≤ 2 * g * Real.sqrt (1 / 6) := by gcongr
    refine le_trans (by norm_num) this
  · refine vcdExact_uncoupled (by norm_num [floor0, Special.max_flooring]) (fun i i' k hne => ?_) _
    ext c c'
    simp [rxx, rawInv1 hx' hVs hx0 hv', one_apply_ne (Ne.symm hne), meanT]

end scalars

theorem reset1 : reset false floor0 draw1 {} (Obj.fresh : Obj 3 2 2 6 1) = .ok st1 := by
  have h : floor0 1 = 1 := by
    simp only [floor0, Special.max_flooring]
    exact max_eq_left (by norm_num)
  have h2 : ∀ m : ℕ, (diagonal fun _ => ((12 : ℝ) : ℂ) : Mat m ℂ) = ((12 : ℝ) : ℂ) • 1 := fun m => by
    rw [smul_one_eq_diagonal]
  simp only [reset, initPsdtf, override, startFilter, initBasis, attrOr, Obj.fresh, bind, Except.bind, draw1, st1, h, h2]
  rfl

theorem trace_st1 (k : Fin 2) (b : Fin 1) : basisTrace st1.T k b = 36 := by
  have : ∀ β : Blk 3 2, (st1.T k b β).trace.re = 12 * (1 : Mat (bsize 3 2 β) ℂ).trace.re := fun β => by
    rw [st1_T, trace_smul, smul_eq_mul, Complex.re_ofReal_mul]
  rw [basisTrace, Finset.sum_congr rfl fun β _ => this β, ← Finset.mul_sum, ← Complex.re_sum, trace1]
  norm_num

/-- `C116_normalization_gauss`: one iteration from bases 12 and activations 1, and from bases 1/3 and activations 36. -/
example (np np' : Numpy ℂ) (sr : ScaleOpt) : ∃ T V, gaussCall np' true floor0 sr 0 draw1 x1 1 {} .fresh
    = (gaussCall np false floor0 sr 0 draw1 x1 1 {} .fresh).map fun o => { o with basis := .val T, activation := .val V } := by
  have hyy : ∀ k (β : Blk 3 2), ∑ j, yy (onBlk (separate x1 fun _ => 1)) k j β = ((2 * 1 : ℝ) : ℂ) • 1 := fun k β => by
    rw [mul_one]; exact yy1_sum k β
  have htr : ∀ k j, ∑ β : Blk 3 2, (yy (onBlk (separate x1 fun _ => 1)) k j β).trace = ((1 : ℝ) : ℂ) := fun k j => by
    rw [Complex.ofReal_one]; exact yy1_trace k j
  refine C116_normalization_gauss np np' (by decide) false true floor0 sr 0 x1_independent 1 draw1 rfl reset1 (inv1 np)
    ⟨greg1 np, fun _ _ => trivial⟩ ⟨?_, fun _ _ => trivial⟩
  refine (greg_scalar (g := 1) (x := 1 / 3) (v := 36) one_pos hyy htr ?_ ?_ (by norm_num) (by norm_num) np' (by norm_num) (by norm_num)
    (by norm_num) (by norm_num)).2
  · intro k b β
    simp only [if_true, Ipsdta.normalize, trace_st1, st1_T, smul_smul]
    congr 1
    norm_num
  · intro k b j
    simp only [if_true, Ipsdta.normalize, trace_st1, st1_V]
    norm_num

/-- Gains of modulus two. -/
noncomputable def gain2 : Fin 3 → ℂ := ![2, 2 * Complex.I, -2]

theorem gain2_norm (f : Fin 3) : ‖gain2 f‖ = 2 := by
  fin_cases f <;> simp [gain2]

theorem gain2_ne (f : Fin 3) : gain2 f ≠ 0 := norm_ne_zero_iff.mp (by rw [gain2_norm]; norm_num)

theorem cong2 (β : Blk 3 2) (c : ℂ) : cong (diagonal (onBlk gain2 β)) (c • 1) = (4 * c) • 1 := by
  rw [MnmfMix.cong_smul, cong, Matrix.mul_one, diagonal_conjTranspose, diagonal_mul_diagonal, smul_one_eq_diagonal]
  rw [← diagonal_smul]
  congr 1
  funext i
  have h := Complex.mul_conj' (onBlk gain2 β i)
  rw [onBlk, gain2_norm] at h
  have h' : gain2 (binOf 3 2 β i) * star (gain2 (binOf 3 2 β i)) = 4 := h.trans (by norm_num)
  simp only [Pi.smul_apply, onBlk, Pi.star_apply, smul_eq_mul, h']
  ring

/-- `C116_gauss`: one iteration with gains of modulus two. -/
example (np np' : Numpy ℂ) (sr : ScaleOpt) (draw draw' : Draw 3 2 2 6 1) :
    Carried gain2 (2 * 2 * ∑ f, Real.log ‖gain2 f‖)
      (gaussCall np false floor0 sr 0 draw x1 1 { demix := some st1.W, basis := some st1.T, activation := some st1.V } .fresh)
      (gaussCall np' false floor0 sr 0 draw' (fun f => gain2 f • x1 f) 1 (follow gain2 (fun _ _ => 1) st1) .fresh) := by
  have hyy : ∀ k (β : Blk 3 2), ∑ j, yy (onBlk (separate (gain gain2 x1) fun _ => 1)) k j β = ((2 * 4 : ℝ) : ℂ) • 1 := fun k β => by
    have h := yy1_sum k β
    simp only [yy_res (d := onBlk gain2) _ _ (separate_gain gain2 x1 fun _ => 1)]
    rw [← MnmfMix.cong_sum]
    refine (congrArg _ h).trans ?_
    rw [cong2]
    congr 1
    push_cast
    ring
  have htr : ∀ k j, ∑ β : Blk 3 2, (yy (onBlk (separate (gain gain2 x1) fun _ => 1)) k j β).trace = ((4 : ℝ) : ℂ) := fun k j => by
    have h := yy1_trace k j
    have e : ∀ β : Blk 3 2, (yy (onBlk (separate (gain gain2 x1) fun _ => 1)) k j β).trace
        = 4 * (yy (onBlk (separate x1 st1.W)) k j β).trace := by
      intro β
      rw [yy_res (d := onBlk gain2) _ _ (separate_gain gain2 x1 fun _ => 1), cong, trace_mul_comm, ← Matrix.mul_assoc]
      have := cong2 β 1
      rw [one_smul, cong, Matrix.mul_one, mul_one, diagonal_conjTranspose, diagonal_mul_diagonal] at this
      rw [diagonal_conjTranspose, diagonal_mul_diagonal]
      have hc : (diagonal fun i => star (onBlk gain2 β) i * onBlk gain2 β i : Mat (bsize 3 2 β) ℂ) = (4 : ℂ) • 1 := by
        rw [← this]
        congr 1
        funext i
        exact mul_comm _ _
      rw [hc, smul_mul_assoc, Matrix.one_mul, trace_smul, smul_eq_mul]
      rfl
    rw [Finset.sum_congr rfl fun β _ => e β, ← Finset.mul_sum, h]
    norm_num
  have hT : ∀ k b β, resT (onBlk gain2) (fun _ _ => 1) st1.T k b β = ((48 : ℝ) : ℂ) • 1 := by
    intro k b β
    rw [resT, st1_T, cong2, Complex.ofReal_one, one_smul]
    congr 1
    push_cast
    norm_num
  have hV : ∀ k b j, resV (fun _ _ => 1) st1.V k b j = 1 := fun k b j => by rw [resV, st1_V, div_one]
  obtain ⟨h1, h2⟩ := greg_scalar (g := 4) (x := 48) (v := 1) (by norm_num) hyy htr hT hV (by norm_num) one_pos np' (by norm_num)
    (by norm_num) (by norm_num) (by norm_num)
  exact C116_gauss np np' (by decide) false false floor0 sr 0 x1_independent 1 gain2_ne (fun _ _ => one_pos) draw draw' (inv1 np) h1
    ⟨greg1 np, fun _ _ => trivial⟩ ⟨h2, fun _ _ => trivial⟩

/-- Phases. -/
noncomputable def phase2 : Fin 3 → ℂ := ![1, Complex.I, -1]

theorem phase2_norm (f : Fin 3) : ‖phase2 f‖ = 1 := by
  fin_cases f <;> simp [phase2]

/-- `C116_phase_gauss` and `C116_phase_t` for one iteration. -/
example (np : Numpy ℂ) (sr : ScaleOpt) (draw draw' : Draw 3 2 2 6 1) :
    Carried phase2 0
      (gaussCall np false floor0 sr 0 draw x1 1 { demix := some st1.W, basis := some st1.T, activation := some st1.V } .fresh)
      (gaussCall np false floor0 sr 0 draw' (fun f => phase2 f • x1 f) 1 (follow phase2 (fun _ _ => 1) st1) .fresh) ∧
    Carried phase2 0
      (tCall np false floor0 1 sr 0 draw x1 1 { demix := some st1.W, basis := some st1.T, activation := some st1.V } .fresh)
      (tCall np false floor0 1 sr 0 draw' (fun f => phase2 f • x1 f) 1 (follow phase2 (fun _ _ => 1) st1) .fresh) :=
  ⟨C116_phase_gauss phase2_norm (by decide) false sr 0 x1_independent 1 draw draw' (inv1 np) ⟨greg1 np, fun _ _ => trivial⟩,
    C116_phase_t phase2_norm (by decide) false one_pos sr 0 x1_independent 1 draw draw' (inv1 np) ⟨treg1 np, fun _ _ => trivial⟩⟩

/-- `C116_phase_default_gauss` and `C116_phase_default_t` for one iteration. -/
example (np : Numpy ℂ) (sr : ScaleOpt) :
    Carried phase2 0 (gaussCall np false floor0 sr 0 draw1 x1 1 {} .fresh)
      (gaussCall np false floor0 sr 0 draw1 (fun f => phase2 f • x1 f) 1 {} .fresh) ∧
    Carried phase2 0 (tCall np false floor0 1 sr 0 draw1 x1 1 {} .fresh)
      (tCall np false floor0 1 sr 0 draw1 (fun f => phase2 f • x1 f) 1 {} .fresh) :=
  ⟨C116_phase_default_gauss phase2_norm (by decide) false sr 0 x1_independent 1 drawn1
      (by rw [initial1]; exact ⟨greg1 np, fun _ _ => trivial⟩),
    C116_phase_default_t phase2_norm (by decide) false one_pos sr 0 x1_independent 1 drawn1
      (by rw [initial1]; exact ⟨treg1 np, fun _ _ => trivial⟩)⟩

end Verif.IpsdtaGain
