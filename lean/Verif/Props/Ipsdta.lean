import Verif.Lemmas.Ipsdta
import Verif.Props.Blocks

/-! # The loss of `GaussIPSDTA` and `TIPSDTA` never increases (C59, C60) -/

set_option linter.unusedSectionVars false

namespace Verif.Ipsdta

open Matrix Spatial Scale
open scoped ComplexOrder

section generic

variable {ι : Type} [Fintype ι] {sz : ι → ℕ} {n t K : ℕ} [Nonempty (Fin K)]

theorem gaussGroupLoss_eq (X : (β : ι) → Fin (sz β) → Matrix (Fin n) (Fin t) ℂ)
    (W : (β : ι) → Fin (sz β) → Mat n ℂ) {T : Fin n → Fin K → (β : ι) → Mat (sz β) ℂ}
    {V : Fin n → Fin K → Fin t → ℝ} (h : Pos T V) :
    gaussGroupLoss (fun β i => W β i * X β i) W (raw T V) (fun k j β => (raw T V k j β)⁻¹)
      = obj (fun _ _ => 1) X W T V := by
  have e : ∀ j, max (∑ k, ∑ β, Linalg.quadratic (fun i => (W β i * X β i) k j) (raw T V k j β)⁻¹).re 0
      = ∑ k, qv X W T V k j := by
    intro j
    have : (∑ k, ∑ β, Linalg.quadratic (fun i => (W β i * X β i) k j) (raw T V k j β)⁻¹).re
        = ∑ k, qv X W T V k j := by
      simp only [Complex.re_sum, qv]
      exact Finset.sum_congr rfl fun k _ => Finset.sum_congr rfl fun β _ =>
        congrArg Complex.re (quadratic_trace (fun β i => W β i * X β i) k j β (raw T V k j β)⁻¹)
    rw [this, max_eq_left (Finset.sum_nonneg fun k _ => qv_nonneg X W h k j)]
  simp only [gaussGroupLoss, meanT, e, obj, one_mul, Finset.sum_add_distrib, ld]

theorem tangent {nu A B : ℝ} (N : ℕ) (hnu : 0 < nu) (hA : 0 ≤ A) (hB : 0 ≤ B) :
    (nu + 2 * N) / 2 * Real.log (1 + 2 / nu * B)
      ≤ (nu + 2 * N) / 2 * Real.log (1 + 2 / nu * A) + tWeight nu N A * (B - A) := by
  have hA' : 0 < 1 + 2 / nu * A := by positivity
  have hB' : 0 < 1 + 2 / nu * B := by positivity
  have h := Real.log_le_sub_one_of_pos (div_pos hB' hA')
  rw [Real.log_div hB'.ne' hA'.ne'] at h
  have h2 : (nu + 2 * N) / 2 * ((1 + 2 / nu * B) / (1 + 2 / nu * A) - 1) = tWeight nu N A * (B - A) := by
    have : nu + 2 * A ≠ 0 := by positivity
    rw [tWeight]
    field_simp
    ring
  have := mul_le_mul_of_nonneg_left h (show (0 : ℝ) ≤ (nu + 2 * N) / 2 by positivity)
  linarith

/-- The objective of `TIPSDTA` for families of blocks. -/
noncomputable def tobj (nu : ℝ) (N : ℕ) (X : (β : ι) → Fin (sz β) → Matrix (Fin n) (Fin t) ℂ)
    (W : (β : ι) → Fin (sz β) → Mat n ℂ) (T : Fin n → Fin K → (β : ι) → Mat (sz β) ℂ)
    (V : Fin n → Fin K → Fin t → ℝ) : ℝ :=
  (∑ j, ∑ k, ((nu + 2 * N) / 2 * Real.log (1 + 2 / nu * qv X W T V k j) + ld T V k j)) / t
    - 2 * ∑ β, ∑ i, Real.log ‖(W β i).det‖

/-- A step that does not increase the objective weighted with the current weights does not increase that of
`TIPSDTA`. -/
theorem tobj_le {nu : ℝ} (hnu : 0 < nu) (N : ℕ) {X : (β : ι) → Fin (sz β) → Matrix (Fin n) (Fin t) ℂ}
    {W W' : (β : ι) → Fin (sz β) → Mat n ℂ} {T T' : Fin n → Fin K → (β : ι) → Mat (sz β) ℂ}
    {V V' : Fin n → Fin K → Fin t → ℝ} (h : Pos T V) (h' : Pos T' V')
    (hle : obj (fun k j => tWeight nu N (qv X W T V k j)) X W' T' V'
      ≤ obj (fun k j => tWeight nu N (qv X W T V k j)) X W T V) :
    tobj nu N X W' T' V' ≤ tobj nu N X W T V := by
  have h1 : ∑ j, ∑ k, ((nu + 2 * N) / 2 * Real.log (1 + 2 / nu * qv X W' T' V' k j) + ld T' V' k j)
      ≤ ∑ j, ∑ k, ((nu + 2 * N) / 2 * Real.log (1 + 2 / nu * qv X W T V k j) + ld T V k j)
        + (∑ j, ∑ k, (tWeight nu N (qv X W T V k j) * qv X W' T' V' k j + ld T' V' k j)
          - ∑ j, ∑ k, (tWeight nu N (qv X W T V k j) * qv X W T V k j + ld T V k j)) := by
    simp only [← Finset.sum_sub_distrib, ← Finset.sum_add_distrib]
    refine Finset.sum_le_sum fun j _ => Finset.sum_le_sum fun k _ => ?_
    have := tangent N hnu (qv_nonneg X W h k j) (qv_nonneg X W' h' k j)
    linarith
  simp only [tobj]
  have h2 := div_le_div_of_nonneg_right h1 (show (0 : ℝ) ≤ t by positivity)
  generalize ∑ j, ∑ k, ((nu + 2 * N) / 2 * Real.log (1 + 2 / nu * qv X W' T' V' k j) + ld T' V' k j) = a at h2 ⊢
  generalize ∑ j, ∑ k, ((nu + 2 * N) / 2 * Real.log (1 + 2 / nu * qv X W T V k j) + ld T V k j) = b at h2 ⊢
  rw [add_div, sub_div] at h2
  simp only [obj] at hle
  linarith

theorem normalize_ok (hsz : ∃ β, 0 < sz β) {T : Fin n → Fin K → (β : ι) → Mat (sz β) ℂ}
    {V : Fin n → Fin K → Fin t → ℝ} (h : Pos T V) (normalization : Bool) (np : Numpy ℂ) (hc : CovFixed np T V) :
    let r := if normalization then normalize T V else (T, V)
    Pos r.1 r.2 ∧ raw r.1 r.2 = raw T V ∧ CovFixed np r.1 r.2 := by
  cases normalization with
  | false => exact ⟨h, rfl, hc⟩
  | true =>
    obtain ⟨h1, h2⟩ := normalize_step hsz h
    refine ⟨h1, h2, ?_⟩
    intro k j β
    simp only [if_true, h2]
    exact hc k j β

end generic

variable {n_bins n_blocks n t K : ℕ}

/-- Invariant of the updates: positive source model not touched by the flooring of the covariances, invertible
demixing filters. -/
structure Inv (np : Numpy ℂ) (s : St n_bins n_blocks n t K) : Prop where
  pos : Pos s.T s.V
  cov : CovFixed np s.T s.V
  filter : ∀ f, IsUnit (s.W f).det

/-- The values of an array on the bins of the blocks. -/
noncomputable def onBlk {α : Type} (x : Fin n_bins → α) (β : Blk n_bins n_blocks) (i : Fin (bsize n_bins n_blocks β)) : α :=
  x (binOf n_bins n_blocks β i)

/-- Nothing in the update of `GaussIPSDTA` from `s` is floored, and the activations stay positive. -/
structure GReg (np : Numpy ℂ) (floor : ℝ → ℝ) (X : Spec (Fin n_bins) n t) (s : St n_bins n_blocks n t K) : Prop where
  basis : BasisGaussReg np floor (onBlk (separate X s.W)) s.T s.V
  activation : ∀ T, basisGauss np floor (onBlk (separate X s.W)) s.T s.V = .ok T → CovFixed np T s.V ∧
    ∀ V, activationMM np (fun _ _ => 1) (onBlk (separate X s.W)) T s.V = .ok V → (∀ k b j, 0 < V k b j) ∧
      CovFixed np T V ∧
      ∀ β, VcdExact floor (rxx (fun _ _ => 1) (fun k j β => (raw T V k j β)⁻¹) (onBlk X) β) (onBlk s.W β)

/-- The value of `compute_loss` of `GaussIPSDTA` at a state that satisfies the invariant. -/
noncomputable def gaussVal (X : Spec (Fin n_bins) n t) (s : St n_bins n_blocks n t K) : ℝ :=
  obj (fun _ _ => 1) (onBlk X) (onBlk s.W) s.T s.V

theorem obj_sum {ι ι' : Type} [Fintype ι] [Fintype ι'] {sz : ι ⊕ ι' → ℕ} (w : Fin n → Fin t → ℝ)
    (X : (β : ι ⊕ ι') → Fin (sz β) → Matrix (Fin n) (Fin t) ℂ)
    (W : (β : ι ⊕ ι') → Fin (sz β) → Mat n ℂ) (T : Fin n → Fin K → (β : ι ⊕ ι') → Mat (sz β) ℂ)
    (V : Fin n → Fin K → Fin t → ℝ) :
    obj w X W T V = obj w (fun β => X (.inl β)) (fun β => W (.inl β)) (fun k b β => T k b (.inl β)) V
      + obj w (fun β => X (.inr β)) (fun β => W (.inr β)) (fun k b β => T k b (.inr β)) V := by
  have h1 : ∀ k j, qv X W T V k j = qv (fun β => X (.inl β)) (fun β => W (.inl β)) (fun k b β => T k b (.inl β)) V k j
      + qv (fun β => X (.inr β)) (fun β => W (.inr β)) (fun k b β => T k b (.inr β)) V k j :=
    fun k j => Fintype.sum_sum_type _
  have h2 : ∀ k j, ld T V k j = ld (fun k b β => T k b (.inl β)) V k j + ld (fun k b β => T k b (.inr β)) V k j :=
    fun k j => Fintype.sum_sum_type _
  simp only [obj, h1, h2, Fintype.sum_sum_type, mul_add, Finset.sum_add_distrib, add_div]
  ring

variable [Nonempty (Fin K)]

theorem gaussLoss_eq {np : Numpy ℂ} (hb : n_blocks ≠ 0) (X : Spec (Fin n_bins) n t) {s : St n_bins n_blocks n t K}
    (h : Inv np s) : gaussLoss np X s = .ok (gaussVal X s) := by
  have hl := gaussGroupLoss_eq (fun β => onBlk X (.inl β)) (fun β => onBlk s.W (.inl β))
    (T := fun k b β => s.T k b (.inl β)) (V := s.V) ⟨fun k b β => h.pos.1 k b _, h.pos.2⟩
  have hh := gaussGroupLoss_eq (fun β => onBlk X (.inr β)) (fun β => onBlk s.W (.inr β))
    (T := fun k b β => s.T k b (.inr β)) (V := s.V) ⟨fun k b β => h.pos.1 k b _, h.pos.2⟩
  simp only [gaussLoss, splitBlocks_eq hb, covInv_eq h.pos h.cov, cov_eq h.cov, bind, Except.bind]
  rw [gaussVal, obj_sum]
  congr 1
  split_ifs with hr
  · exact congrArg₂ (· + ·) hl hh
  · have hz : n_bins % n_blocks = 0 := by omega
    have : IsEmpty (Fin (n_bins % n_blocks)) := by rw [hz]; infer_instance
    refine hl.trans ?_
    have e : ∀ (w : Fin n → Fin t → ℝ) (X : (β : Fin (n_bins % n_blocks)) → Fin (bsize n_bins n_blocks (.inr β)) →
        Matrix (Fin n) (Fin t) ℂ) W (T : Fin n → Fin K → (β : Fin (n_bins % n_blocks)) → _) V, obj w X W T V = 0 := by
      intro w X W T V
      simp [obj, qv, ld]
    rw [e, add_zero]

/-- One update of `GaussIPSDTA`. -/
theorem gauss_step {np : Numpy ℂ} (hb : n_blocks ≠ 0) [Nonempty (Fin n_bins)] [Nonempty (Fin t)]
    (normalization : Bool) (floor : ℝ → ℝ) {X : Spec (Fin n_bins) n t} (hX : ∀ f, LinearIndependent ℂ (X f).row)
    {s : St n_bins n_blocks n t K} (h : Inv np s) (hr : GReg np floor X s) :
    ∃ s', gaussUpdate np normalization floor X s = .ok s' ∧ Inv np s' ∧ gaussVal X s' ≤ gaussVal X s := by
  have hsz : ∃ β, 0 < bsize n_bins n_blocks β := by
    obtain ⟨β, i, -⟩ := binOf_exists (n_blocks := n_blocks) (Classical.arbitrary (Fin n_bins))
    exact ⟨β, Fin.pos i⟩
  obtain ⟨T, hT, hTd, hTr⟩ := basisGauss_ok h.pos h.cov hr.basis
  have l1 := basis_step (fun _ _ => zero_le_one) (onBlk X) (onBlk s.W) h.pos hTd hTr
  have hp1 : Pos T s.V := ⟨hTd, h.pos.2⟩
  obtain ⟨hc1, hr1⟩ := hr.activation T hT
  obtain ⟨V, hV⟩ : ∃ V, activationMM np (fun _ _ => 1) (onBlk (separate X s.W)) T s.V = .ok V := by
    simp only [activationMM, covInv_eq hp1 hc1, bind, Except.bind]
    exact ⟨_, rfl⟩
  obtain ⟨hVp, hc2, hv⟩ := hr1 V hV
  have l2 := activation_step hsz (fun _ _ => zero_le_one) (onBlk X) (onBlk s.W) np hp1 hc1 hV hVp
  have hp2 : Pos T V := ⟨hTd, hVp⟩
  obtain ⟨hp3, hraw, hc3⟩ := normalize_ok hsz hp2 normalization np hc2
  obtain ⟨r, hrr⟩ : ∃ r, r = if normalization then normalize T V else (T, V) := ⟨_, rfl⟩
  simp only [← hrr] at hp3 hraw hc3
  obtain ⟨W, hW, hWu, l3⟩ := spatial_step (floor := floor) (fun _ _ => one_pos) (X := onBlk X) (fun β i => hX _)
    (W := onBlk s.W) (fun β i => h.filter _) hp3 (by simpa only [hraw] using hv)
  refine ⟨⟨r.1, r.2, joinBlocks W⟩, ?_, ⟨hp3, hc3, fun f => ?_⟩, ?_⟩
  · have e1 : splitBlocks n_blocks (separate X s.W) = .ok (onBlk (separate X s.W)) := splitBlocks_eq hb _
    have e2 : splitBlocks n_blocks X = .ok (onBlk X) := splitBlocks_eq hb _
    have e3 : splitBlocks n_blocks s.W = .ok (onBlk s.W) := splitBlocks_eq hb _
    simp only [gaussUpdate, e1, e2, e3, hT, hV, bind, Except.bind, ← hrr]
    rw [covInv_eq hp3 hc3]
    simp only [hW]
  · obtain ⟨β, i, rfl⟩ := binOf_exists (n_blocks := n_blocks) f
    have := joinBlocks_binOf W β i
    exact (congrArg (fun A => IsUnit (det A)) this).mpr (hWu β i)
  · have e : onBlk (joinBlocks W) = W := by
      funext β i
      exact joinBlocks_binOf W β i
    have e2 : obj (fun _ _ => 1) (onBlk X) (onBlk s.W) r.1 r.2 = obj (fun _ _ => 1) (onBlk X) (onBlk s.W) T V := by
      simp only [obj, qv, ld, hraw]
    simp only [gaussVal, e]
    exact l3.trans (e2.le.trans (l2.trans l1))

/-- C59: the loss recorded by `GaussIPSDTA` never increases, for any number of iterations, sources, bins, blocks,
frames and bases, with and without normalisation, as long as no flooring is active, the activations stay positive
and the channels of the input are linearly independent in every bin. -/
theorem C59_gauss {np : Numpy ℂ} (hb : n_blocks ≠ 0) [Nonempty (Fin n_bins)] [Nonempty (Fin t)]
    (normalization : Bool) (floor : ℝ → ℝ) {X : Spec (Fin n_bins) n t} (hX : ∀ f, LinearIndependent ℂ (X f).row)
    (n_iter : ℕ) {s : St n_bins n_blocks n t K} (h : Inv np s)
    (hr : RegularRun (gaussUpdate np normalization floor X) (GReg np floor X) n_iter s) :
    ∃ ls, lossList (gaussUpdate np normalization floor X) (gaussLoss np X) n_iter s = .ok ls ∧
      ls.length = n_iter + 1 ∧ ls.Pairwise (· ≥ ·) := by
  obtain ⟨ls, h1, h2, h3, -⟩ := lossList_antitone (gaussUpdate np normalization floor X) (gaussLoss np X) (Inv np)
    (GReg np floor X) (gaussVal X) (fun s hs => gaussLoss_eq hb X hs)
    (fun s hs hreg => gauss_step hb normalization floor hX hs hreg) n_iter s h hr
  exact ⟨ls, h1, h2, h3⟩

/-! ## `TIPSDTA` -/

/-- The weights of `TIPSDTA`. -/
noncomputable def wt (nu : ℝ) (X : Spec (Fin n_bins) n t) (W : Fin n_bins → Mat n ℂ)
    (T : Fin n → Fin K → (β : Blk n_bins n_blocks) → Mat (bsize n_bins n_blocks β) ℂ)
    (V : Fin n → Fin K → Fin t → ℝ) (k : Fin n) (j : Fin t) : ℝ :=
  tWeight nu n_bins (qv (onBlk X) (onBlk W) T V k j)

/-- Nothing in the update of `TIPSDTA` from `s` is floored, and the activations stay positive. -/
structure TReg (np : Numpy ℂ) (floor : ℝ → ℝ) (nu : ℝ) (X : Spec (Fin n_bins) n t) (s : St n_bins n_blocks n t K) :
    Prop where
  basis : BasisTReg np floor (wt nu X s.W s.T s.V) (onBlk (separate X s.W)) s.T s.V
  activation : ∀ T, basisT np floor (wt nu X s.W s.T s.V) (onBlk (separate X s.W)) s.T s.V = .ok T →
    CovFixed np T s.V ∧
    ∀ V, activationMM np (wt nu X s.W T s.V) (onBlk (separate X s.W)) T s.V = .ok V → (∀ k b j, 0 < V k b j) ∧
      CovFixed np T V ∧
      ∀ β, VcdExact floor (rxx (wt nu X s.W T V) (fun k j β => (raw T V k j β)⁻¹) (onBlk X) β) (onBlk s.W β)

/-- The value of `compute_loss` of `TIPSDTA` at a state that satisfies the invariant. -/
noncomputable def tVal (nu : ℝ) (X : Spec (Fin n_bins) n t) (s : St n_bins n_blocks n t K) : ℝ :=
  tobj nu n_bins (onBlk X) (onBlk s.W) s.T s.V

theorem yry_onBlk (X : Spec (Fin n_bins) n t) (W : Fin n_bins → Mat n ℂ)
    {T : Fin n → Fin K → (β : Blk n_bins n_blocks) → Mat (bsize n_bins n_blocks β) ℂ}
    {V : Fin n → Fin K → Fin t → ℝ} (h : Pos T V) :
    yry (onBlk (separate X W)) (fun k j β => (raw T V k j β)⁻¹) = qv (onBlk X) (onBlk W) T V := by
  funext k j
  exact yry_eq (X := onBlk X) (W := onBlk W) h k j

theorem tLoss_eq {np : Numpy ℂ} (hb : n_blocks ≠ 0) (nu : ℝ) (X : Spec (Fin n_bins) n t)
    {s : St n_bins n_blocks n t K} (h : Inv np s) : tLoss np nu X s = .ok (tVal nu X s) := by
  have e1 : splitBlocks n_blocks (separate X s.W) = .ok (onBlk (separate X s.W)) := splitBlocks_eq hb _
  have e3 : splitBlocks n_blocks s.W = .ok (onBlk s.W) := splitBlocks_eq hb _
  simp only [tLoss, e1, e3, covInv_eq h.pos h.cov, cov_eq h.cov, bind, Except.bind, yry_onBlk X s.W h.pos, tVal, tobj,
    meanT, ld, Finset.sum_add_distrib]

/-- One update of `TIPSDTA`. -/
theorem t_step {np : Numpy ℂ} (hb : n_blocks ≠ 0) [Nonempty (Fin n_bins)] [Nonempty (Fin t)]
    (normalization : Bool) (floor : ℝ → ℝ) {nu : ℝ} (hnu : 0 < nu) {X : Spec (Fin n_bins) n t}
    (hX : ∀ f, LinearIndependent ℂ (X f).row)
    {s : St n_bins n_blocks n t K} (h : Inv np s) (hr : TReg np floor nu X s) :
    ∃ s', tUpdate np normalization floor nu X s = .ok s' ∧ Inv np s' ∧ tVal nu X s' ≤ tVal nu X s := by
  have hsz : ∃ β, 0 < bsize n_bins n_blocks β := by
    obtain ⟨β, i, -⟩ := binOf_exists (n_blocks := n_blocks) (Classical.arbitrary (Fin n_bins))
    exact ⟨β, Fin.pos i⟩
  have hw : ∀ W T V, Pos T V → ∀ k j, 0 < wt (n_blocks := n_blocks) (K := K) nu X W T V k j := by
    intro W T V hp k j
    have := qv_nonneg (onBlk X) (onBlk W) hp k j
    simp only [wt, tWeight]
    positivity
  obtain ⟨T, hT, hTd, hTr⟩ := basisT_ok h.pos h.cov hr.basis
  have hp1 : Pos T s.V := ⟨hTd, h.pos.2⟩
  have l1 := tobj_le hnu n_bins h.pos hp1
    (basis_step (fun k j => (hw s.W s.T s.V h.pos k j).le) (onBlk X) (onBlk s.W) h.pos hTd hTr)
  obtain ⟨hc1, hr1⟩ := hr.activation T hT
  obtain ⟨V, hV⟩ : ∃ V, activationMM np (wt nu X s.W T s.V) (onBlk (separate X s.W)) T s.V = .ok V := by
    simp only [activationMM, covInv_eq hp1 hc1, bind, Except.bind]
    exact ⟨_, rfl⟩
  obtain ⟨hVp, hc2, hv⟩ := hr1 V hV
  have hp2 : Pos T V := ⟨hTd, hVp⟩
  have l2 := tobj_le hnu n_bins hp1 hp2
    (activation_step hsz (fun k j => (hw s.W T s.V hp1 k j).le) (onBlk X) (onBlk s.W) np hp1 hc1 hV hVp)
  obtain ⟨hp3, hraw, hc3⟩ := normalize_ok hsz hp2 normalization np hc2
  obtain ⟨r, hrr⟩ : ∃ r, r = if normalization then normalize T V else (T, V) := ⟨_, rfl⟩
  simp only [← hrr] at hp3 hraw hc3
  have hq : qv (onBlk X) (onBlk s.W) r.1 r.2 = qv (onBlk X) (onBlk s.W) T V := by
    funext k j
    simp only [qv, hraw]
  have hwr : wt nu X s.W r.1 r.2 = wt nu X s.W T V := by
    funext k j
    simp only [wt, hq]
  obtain ⟨W, hW, hWu, l3⟩ := spatial_step (floor := floor) (hw s.W r.1 r.2 hp3) (X := onBlk X) (fun β i => hX _)
    (W := onBlk s.W) (fun β i => h.filter _) hp3 (by simpa only [hraw, hwr] using hv)
  have l3 := tobj_le hnu n_bins hp3 hp3 l3
  refine ⟨⟨r.1, r.2, joinBlocks W⟩, ?_, ⟨hp3, hc3, fun f => ?_⟩, ?_⟩
  · have e1 : splitBlocks n_blocks (separate X s.W) = .ok (onBlk (separate X s.W)) := splitBlocks_eq hb _
    have e2 : splitBlocks n_blocks X = .ok (onBlk X) := splitBlocks_eq hb _
    have e3 : splitBlocks n_blocks s.W = .ok (onBlk s.W) := splitBlocks_eq hb _
    simp only [tUpdate, e1, e2, e3, bind, Except.bind]
    rw [covInv_eq h.pos h.cov]
    simp only [yry_onBlk X s.W h.pos]
    have hT' : basisT np floor (fun k j => tWeight nu n_bins (qv (onBlk X) (onBlk s.W) s.T s.V k j))
      (onBlk (separate X s.W)) s.T s.V = .ok T := hT
    simp only [hT']
    rw [covInv_eq hp1 hc1]
    simp only [yry_onBlk X s.W hp1]
    have hV' : activationMM np (fun k j => tWeight nu n_bins (qv (onBlk X) (onBlk s.W) T s.V k j))
      (onBlk (separate X s.W)) T s.V = .ok V := hV
    simp only [hV', ← hrr]
    rw [covInv_eq hp3 hc3]
    have e4 : yry (fun β i => onBlk s.W β i * onBlk X β i) (fun k j β => (raw r.1 r.2 k j β)⁻¹)
      = qv (onBlk X) (onBlk s.W) r.1 r.2 := yry_onBlk X s.W hp3
    simp only [e4]
    have hW' : spatialVcd floor (fun k j => tWeight nu n_bins (qv (onBlk X) (onBlk s.W) r.1 r.2 k j))
      (fun k j β => (raw r.1 r.2 k j β)⁻¹) (onBlk X) (onBlk s.W) = .ok W := hW
    simp only [hW']
  · obtain ⟨β, i, rfl⟩ := binOf_exists (n_blocks := n_blocks) f
    have := joinBlocks_binOf W β i
    exact (congrArg (fun A => IsUnit (det A)) this).mpr (hWu β i)
  · have e : onBlk (joinBlocks W) = W := by
      funext β i
      exact joinBlocks_binOf W β i
    have e2 : tobj nu n_bins (onBlk X) (onBlk s.W) r.1 r.2 = tobj nu n_bins (onBlk X) (onBlk s.W) T V := by
      simp only [tobj, hq, ld, hraw]
    simp only [tVal, e]
    exact l3.trans (e2.le.trans (l2.trans l1))

/-- C60: the loss recorded by `TIPSDTA` never increases for every `dof > 0`, under the conditions of
`C59_gauss`. -/
theorem C60_t {np : Numpy ℂ} (hb : n_blocks ≠ 0) [Nonempty (Fin n_bins)] [Nonempty (Fin t)]
    (normalization : Bool) (floor : ℝ → ℝ) {nu : ℝ} (hnu : 0 < nu) {X : Spec (Fin n_bins) n t}
    (hX : ∀ f, LinearIndependent ℂ (X f).row)
    (n_iter : ℕ) {s : St n_bins n_blocks n t K} (h : Inv np s)
    (hr : RegularRun (tUpdate np normalization floor nu X) (TReg np floor nu X) n_iter s) :
    ∃ ls, lossList (tUpdate np normalization floor nu X) (tLoss np nu X) n_iter s = .ok ls ∧
      ls.length = n_iter + 1 ∧ ls.Pairwise (· ≥ ·) := by
  obtain ⟨ls, h1, h2, h3, -⟩ := lossList_antitone (tUpdate np normalization floor nu X) (tLoss np nu X) (Inv np)
    (TReg np floor nu X) (tVal nu X) (fun s hs => tLoss_eq hb nu X hs)
    (fun s hs hreg => t_step hb normalization floor hnu hX hs hreg) n_iter s h hr
  exact ⟨ls, h1, h2, h3⟩

/-! ## The hypotheses are satisfiable: two sources, three bins in two blocks of different sizes, six frames -/

section example1

theorem scalar_posDef {m : ℕ} {c : ℝ} (hc : 0 < c) : ((c : ℂ) • (1 : Mat m ℂ)).PosDef := Tr.smul_posDef PosDef.one hc

theorem scalar_mul {m : ℕ} (a b : ℝ) :
    ((a : ℂ) • (1 : Mat m ℂ)) * ((b : ℂ) • (1 : Mat m ℂ)) = ((a * b : ℝ) : ℂ) • 1 := by
  rw [smul_mul_smul_comm, Matrix.mul_one, Complex.ofReal_mul]

/-- The positive semidefinite square root of a multiple of the identity. -/
theorem scalar_root {m : ℕ} {G : Mat m ℂ} (hG : G.PosSemidef) {c : ℝ} (hc : 0 < c)
    (h : G * G = ((c ^ 2 : ℝ) : ℂ) • 1) : G = (c : ℂ) • 1 := by
  have h1 : (G + (c : ℂ) • 1).PosDef := PosDef.posSemidef_add hG (scalar_posDef hc)
  have h2 : (G - (c : ℂ) • 1) * (G + (c : ℂ) • 1) = 0 := by
    rw [sub_mul, mul_add, mul_add, h, scalar_mul, mul_smul_comm, smul_mul_assoc, Matrix.mul_one, Matrix.one_mul, sq]
    abel
  have h3 := congrArg (· * (G + (c : ℂ) • 1)⁻¹) h2
  simp only [Matrix.zero_mul, Matrix.mul_assoc, mul_nonsing_inv _ (Tr.isUnit_det h1), Matrix.mul_one] at h3
  exact sub_eq_zero.mp h3

theorem scalar_inv {m : ℕ} {a : ℝ} (ha : a ≠ 0) : ((a : ℂ) • (1 : Mat m ℂ))⁻¹ = ((a⁻¹ : ℝ) : ℂ) • 1 := by
  refine inv_eq_right_inv ?_
  rw [scalar_mul, mul_inv_cancel₀ ha, Complex.ofReal_one, one_smul]

theorem scalar_fixed {m : ℕ} (np : Numpy ℂ) {r : ℝ} (hr : 1 / 10 ^ 10 ≤ r) :
    Mnmf.toPsd np floor0 ((r : ℂ) • (1 : Mat m ℂ)) = (r : ℂ) • 1 := by
  refine Mnmf.toPsd_max_fixed np _ ?_
  rw [← sub_smul]
  refine PosSemidef.one.smul ?_
  rw [← Complex.ofReal_sub]
  exact_mod_cast sub_nonneg.mpr hr

theorem regularFold_of {σ β : Type} {g : σ → β → Except PyErr σ} {Reg : σ → β → Prop} (h : ∀ s b, Reg s b)
    (l : List β) (s : σ) : RegularFold g Reg l s := by
  induction l generalizing s with
  | nil => trivial
  | cons b l ih => exact ⟨h s b, fun s' _ => ih s'⟩

/-- In a block of bins that are not coupled the singularity test is always decided correctly by a positive
threshold. -/
theorem vcdExact_uncoupled {floor : ℝ → ℝ} (hf : 0 < floor 0) {b : ℕ} {R : Fin b → Fin b → Fin n → Mat n ℂ}
    (hR : ∀ i j k, i ≠ j → R i j k = 0) (W : Fin b → Mat n ℂ) : VcdExact floor R W := by
  refine regularFold_of (fun W p => ?_) _ _
  obtain ⟨i, k⟩ := p
  have hg : (∑ j : Fin b, (1 - if j = i then 1 else 0 : ℂ) • (R i j k *ᵥ star (W j k))) = 0 := by
    refine Finset.sum_eq_zero fun j _ => ?_
    by_cases h : j = i
    · simp [h]
    · rw [hR i j k (Ne.symm h), zero_mulVec, smul_zero]
  simp only [vcdStep, hg]
  cases h1 : solveVec (W i * R i i k) (Pi.single k 1) with
  | error e => rfl
  | ok eta =>
    simp only [bind, Except.bind]
    cases h2 : solveVec (R i i k) 0 with
    | error e => rfl
    | ok eh =>
      have : eh = 0 := by
        simp only [solveVec, npSolve] at h2
        split_ifs at h2
        · simp only [bind, Except.bind, Except.ok.injEq] at h2
          rw [← h2]
          funext i
          have : (of fun i (_ : Fin 1) => (0 : Fin n → ℂ) i) = 0 := by ext; simp
          rw [this]
          simp
        · simp [bind, Except.bind] at h2
      subst this
      simp [vcdCoeff, hf]

/-- The bin that is active in a frame. -/
def half : Fin 6 → Fin 3 := ![0, 0, 1, 1, 2, 2]

/-- The second source changes its sign from frame to frame. -/
def sgn (k : Fin 2) : Fin 6 → ℂ := if k = 0 then 1 else ![1, -1, 1, -1, 1, -1]

/-- In frame `j` only bin `half j` is active. -/
def x1 : Spec (Fin 3) 2 6 := fun f => Matrix.of fun k j => if f = half j then sgn k j else 0

/-- The state of the examples: bases 12, activations 1, identity filters. -/
noncomputable def st1 : St 3 2 2 6 1 := ⟨fun _ _ _ => ((12 : ℝ) : ℂ) • 1, fun _ _ _ => 1, fun _ => 1⟩

theorem x1_independent (f : Fin 3) : LinearIndependent ℂ (x1 f).row := by
  rw [← vecMul_injective_iff]
  intro u v h
  have h1 : ∀ j, half j = f → u 0 + u 1 * sgn 1 j = v 0 + v 1 * sgn 1 j := by
    intro j hj
    have := congrFun h j
    simpa [vecMul, dotProduct, Fin.sum_univ_two, x1, hj, sgn] using this
  have h2 : u 0 + u 1 = v 0 + v 1 ∧ u 0 - u 1 = v 0 - v 1 := by
    fin_cases f
    · exact ⟨by simpa [sgn] using h1 0 rfl, by simpa [sgn, sub_eq_add_neg] using h1 1 rfl⟩
    · exact ⟨by simpa [sgn] using h1 2 rfl, by simpa [sgn, sub_eq_add_neg] using h1 3 rfl⟩
    · exact ⟨by simpa [sgn] using h1 4 rfl, by simpa [sgn, sub_eq_add_neg] using h1 5 rfl⟩
  funext i
  fin_cases i
  · change u 0 = v 0
    linear_combination h2.1 / 2 + h2.2 / 2
  · change u 1 = v 1
    linear_combination h2.1 / 2 - h2.2 / 2

theorem sgn_sq (k : Fin 2) (j : Fin 6) : sgn k j * star (sgn k j) = 1 := by
  by_cases hk : k = 0
  · simp [sgn, hk]
  · simp only [sgn, if_neg hk]
    fin_cases j <;> simp

theorem yy1_apply (k : Fin 2) (j : Fin 6) (β : Blk 3 2) (a b : Fin (bsize 3 2 β)) :
    yy (onBlk (separate x1 st1.W)) k j β a b
      = if binOf 3 2 β a = half j ∧ binOf 3 2 β b = half j then 1 else 0 := by
  simp only [yy, of_apply, onBlk, separate, st1, Matrix.one_mul, x1]
  by_cases h1 : binOf 3 2 β a = half j
  · by_cases h2 : binOf 3 2 β b = half j
    · rw [if_pos h1, if_pos h2, if_pos ⟨h1, h2⟩, sgn_sq]
    · simp [h2]
  · simp [h1]

theorem sum_half (f : Fin 3) : ∑ j : Fin 6, (if f = half j then (1 : ℂ) else 0) = 2 := by
  fin_cases f <;> simp [Fin.sum_univ_six, half] <;> norm_num

theorem yy1_sum (k : Fin 2) (β : Blk 3 2) : ∑ j, yy (onBlk (separate x1 st1.W)) k j β = ((2 : ℝ) : ℂ) • 1 := by
  ext a b
  simp only [Matrix.sum_apply, yy1_apply, Matrix.smul_apply, one_apply]
  by_cases h : a = b
  · subst h
    simp only [and_self, sum_half, if_true]
    simp
  · rw [if_neg h, smul_zero]
    refine Finset.sum_eq_zero fun j _ => if_neg fun ⟨h1, h2⟩ => h ?_
    have := binOf_injective (h1.trans h2.symm)
    simpa using this

theorem yy1_trace (k : Fin 2) (j : Fin 6) : ∑ β, (yy (onBlk (n_blocks := 2) (separate x1 st1.W)) k j β).trace = 1 := by
  simp only [trace, diag, yy1_apply, and_self]
  have := sum_blocks (n_blocks := 2) fun f : Fin 3 => if f = half j then (1 : ℂ) else 0
  rw [this]
  simp

theorem trace1 : ∑ β : Blk 3 2, ((1 : Mat (bsize 3 2 β) ℂ).trace) = 3 := by
  simp only [trace, diag, one_apply_eq]
  have := sum_blocks (n_blocks := 2) fun _ : Fin 3 => (1 : ℂ)
  rw [this]
  simp

section scalars

variable {T : Fin 2 → Fin 1 → (β : Blk 3 2) → Mat (bsize 3 2 β) ℂ} {V : Fin 2 → Fin 1 → Fin 6 → ℝ} {a v : ℝ}
  (hT : ∀ k b β, T k b β = (a : ℂ) • 1) (hV : ∀ k b j, V k b j = v)

include hT hV

theorem raw1 (k : Fin 2) (j : Fin 6) (β : Blk 3 2) : raw T V k j β = ((v * a : ℝ) : ℂ) • 1 := by
  simp only [raw, Finset.univ_unique, Finset.sum_singleton, hT, hV, smul_smul, Complex.ofReal_mul]

theorem fixed1 (np : Numpy ℂ) (h : 1 / 10 ^ 10 ≤ v * a) : CovFixed np T V := by
  intro k j β
  rw [raw1 hT hV]
  exact scalar_fixed np h

variable (ha : 0 < a) (hv : 0 < v)

include ha hv

theorem pos1 : Pos T V :=
  ⟨fun k b β => by rw [hT]; exact scalar_posDef ha, fun k b j => by rw [hV]; exact hv⟩

theorem rawInv1 (k : Fin 2) (j : Fin 6) (β : Blk 3 2) : (raw T V k j β)⁻¹ = (((v * a)⁻¹ : ℝ) : ℂ) • 1 := by
  rw [raw1 hT hV, scalar_inv (mul_pos hv ha).ne']

theorem matP1 (k : Fin 2) (b : Fin 1) (β : Blk 3 2) :
    matP (fun k j β => (raw T V k j β)⁻¹) V k b β = ((a⁻¹ : ℝ) : ℂ) • 1 := by
  simp only [matP, rawInv1 hT hV ha hv, hV, smul_smul, Finset.sum_const, Finset.card_univ, Fintype.card_fin,
    ← Nat.cast_smul_eq_nsmul ℂ]
  have h1 : (v : ℂ) ≠ 0 := by exact_mod_cast hv.ne'
  have h2 : (a : ℂ) ≠ 0 := by exact_mod_cast ha.ne'
  congr 1
  push_cast
  field_simp

theorem matQ1 {w : Fin 2 → Fin 6 → ℝ} {c : ℝ} (hw : ∀ k j, w k j = c) (k : Fin 2) (b : Fin 1) (β : Blk 3 2) :
    matQ (fun k j β => (raw T V k j β)⁻¹) w (onBlk (separate x1 st1.W)) V k b β
      = ((c / (3 * (v * a ^ 2)) : ℝ) : ℂ) • 1 := by
  simp only [matQ, rawInv1 hT hV ha hv, hw, hV, smul_smul, Matrix.mul_one, smul_mul_assoc, Matrix.one_mul,
    mul_smul_comm]
  rw [← Finset.smul_sum, yy1_sum, smul_smul, smul_smul]
  have h1 : (v : ℂ) ≠ 0 := by exact_mod_cast hv.ne'
  have h2 : (a : ℂ) ≠ 0 := by exact_mod_cast ha.ne'
  congr 1
  push_cast
  field_simp
  ring

theorem act1 {np : Numpy ℂ} (h : 1 / 10 ^ 10 ≤ v * a) {w : Fin 2 → Fin 6 → ℝ} {c : ℝ} (hw : ∀ k j, w k j = c)
    {V' : Fin 2 → Fin 1 → Fin 6 → ℝ}
    (h' : activationMM np w (onBlk (separate x1 st1.W)) T V = .ok V') (k : Fin 2) (b : Fin 1) (j : Fin 6) :
    V' k b j = v * Real.sqrt (c / (3 * (v * a))) := by
  simp only [activationMM, covInv_eq (pos1 hT hV ha hv) (fixed1 hT hV np h), bind, Except.bind,
    Except.ok.injEq] at h'
  rw [← h']
  simp only [rawInv1 hT hV ha hv, hT, hV, hw, smul_smul, Matrix.mul_one, Matrix.one_mul, mul_smul_comm, smul_mul_assoc,
    trace_smul, smul_eq_mul, ← Complex.ofReal_mul, Complex.re_ofReal_mul, ← Finset.mul_sum]
  have e1 := congrArg Complex.re (yy1_trace k j)
  have e2 := congrArg Complex.re trace1
  rw [Complex.re_sum] at e1 e2
  rw [e1, e2]
  congr 2
  simp only [Complex.one_re, Complex.re_ofNat]
  field_simp

theorem qv1 (k : Fin 2) (j : Fin 6) : qv (onBlk x1) (onBlk st1.W) T V k j = 1 / (v * a) := by
  have e1 := congrArg Complex.re (yy1_trace k j)
  rw [Complex.re_sum] at e1
  have e : ∀ β, yy (fun β i => onBlk (n_blocks := 2) st1.W β i * onBlk x1 β i) k j β
      = yy (onBlk (separate x1 st1.W)) k j β := fun β => rfl
  simp only [qv, e, rawInv1 hT hV ha hv, smul_mul_assoc, Matrix.one_mul, trace_smul, smul_eq_mul,
    Complex.re_ofReal_mul, ← Finset.mul_sum, e1, Complex.one_re, mul_one, one_div]

theorem exact1 (w : Fin 2 → Fin 6 → ℝ) (β : Blk 3 2) (W : Fin (bsize 3 2 β) → Mat 2 ℂ) :
    VcdExact floor0 (rxx w (fun k j β => (raw T V k j β)⁻¹) (onBlk x1) β) W := by
  refine vcdExact_uncoupled (by norm_num [floor0, Special.max_flooring]) (fun i i' k hne => ?_) _
  ext c c'
  simp [rxx, rawInv1 hT hV ha hv, one_apply_ne (Ne.symm hne), meanT]

end scalars

theorem st1_T (k : Fin 2) (b : Fin 1) (β : Blk 3 2) : st1.T k b β = ((12 : ℝ) : ℂ) • 1 := rfl

theorem st1_V (k : Fin 2) (b : Fin 1) (j : Fin 6) : st1.V k b j = 1 := rfl

theorem inv1 (np : Numpy ℂ) : Inv np st1 :=
  ⟨pos1 st1_T st1_V (by norm_num) one_pos, fixed1 st1_T st1_V np (by norm_num), fun _ => by simp [st1]⟩

theorem greg1 (np : Numpy ℂ) : GReg np floor0 x1 st1 := by
  have hp := (inv1 np).pos
  have hc := (inv1 np).cov
  have hP := matP1 st1_T st1_V (by norm_num) one_pos
  have hQ : ∀ k b β, st1.T k b β * matQ (fun k j β => (raw st1.T st1.V k j β)⁻¹) (fun _ _ => 1)
      (onBlk (separate x1 st1.W)) st1.V k b β * st1.T k b β = ((1 / 3 : ℝ) : ℂ) • 1 := by
    intro k b β
    rw [matQ1 st1_T st1_V (by norm_num) one_pos fun _ _ => rfl, st1_T, scalar_mul, scalar_mul]
    norm_num
  have hG : ∀ β, ∀ G : Mat (bsize 3 2 β) ℂ, G.PosDef → G * ((((12 : ℝ)⁻¹ : ℝ) : ℂ) • 1) * G = ((1 / 3 : ℝ) : ℂ) • 1 →
      G = ((2 : ℝ) : ℂ) • 1 := by
    intro β G h1 h2
    refine scalar_root h1.posSemidef (by norm_num) ?_
    rw [mul_smul_comm, Matrix.mul_one, smul_mul_assoc] at h2
    have h3 := congrArg (fun M => ((12 : ℝ) : ℂ) • M) h2
    simp only [smul_smul, ← Complex.ofReal_mul] at h3
    norm_num at h3 ⊢
    exact h3
  have hb : BasisGaussReg np floor0 (onBlk (separate x1 st1.W)) st1.T st1.V := by
    intro k b β
    simp only [hP, hQ]
    refine ⟨scalar_fixed np (by norm_num), scalar_fixed np (by norm_num), scalar_posDef (by norm_num), ?_⟩
    intro G h
    obtain ⟨G', h1, h2, h3⟩ := Linalg.C17_gmeanmh np _ _ (scalar_posDef (m := bsize 3 2 β)
      (show (0 : ℝ) < 12⁻¹ by norm_num)) (scalar_posDef (show (0 : ℝ) < 1 / 3 by norm_num)) 2 (by norm_num)
    rw [h1] at h
    cases h
    rw [hG β G h2 (h3.2.1 rfl)]
    exact scalar_fixed np (by norm_num)
  refine ⟨hb, fun T hT => ?_⟩
  obtain ⟨T', h1, h2, h3⟩ := basisGauss_ok hp hc hb
  rw [h1] at hT
  cases hT
  have hT : ∀ k b β, T k b β = ((2 : ℝ) : ℂ) • 1 := by
    intro k b β
    have := h3 k b β
    rw [hP, hQ] at this
    exact hG β _ (h2 k b β) this
  refine ⟨fixed1 hT st1_V np (by norm_num), fun V hV => ?_⟩
  have hV' := act1 hT st1_V (by norm_num) one_pos (by norm_num) (fun _ _ => rfl) hV
  have h5 : (1 / 3 : ℝ) ≤ Real.sqrt (1 / (3 * (1 * 2))) := Real.le_sqrt_of_sq_le (by norm_num)
  refine ⟨fun k b j => by rw [hV']; linarith, fixed1 hT hV' np ?_,
    fun β => exact1 hT hV' (by norm_num) (by linarith) _ β _⟩
  have : (1 / 10 ^ 10 : ℝ) ≤ 1 / 3 := by norm_num
  linarith

/-- `GaussIPSDTA` moves the bases from 12 to 2. -/
example (np : Numpy ℂ) : (∀ f, LinearIndependent ℂ (x1 f).row) ∧ Inv np st1 ∧ GReg np floor0 x1 st1 :=
  ⟨x1_independent, inv1 np, greg1 np⟩

theorem treg1 (np : Numpy ℂ) : TReg np floor0 1 x1 st1 := by
  have hp := (inv1 np).pos
  have hc := (inv1 np).cov
  have hw : ∀ k j, wt 1 x1 st1.W st1.T st1.V k j = 6 := by
    intro k j
    rw [wt, qv1 st1_T st1_V (by norm_num) one_pos, tWeight]
    norm_num
  have hP := matP1 st1_T st1_V (by norm_num) one_pos
  have hQ := matQ1 st1_T st1_V (by norm_num) one_pos hw
  have hb : BasisTReg np floor0 (wt 1 x1 st1.W st1.T st1.V) (onBlk (separate x1 st1.W)) st1.T st1.V := by
    intro k b β
    simp only [hP, hQ, st1_T]
    generalize bsize 3 2 β = m
    obtain ⟨x, hx⟩ : ∃ x, x = Real.sqrt (6 / (3 * (1 * 12 ^ 2))) := ⟨_, rfl⟩
    have hx0 : 0 < x := by rw [hx]; exact Real.sqrt_pos.mpr (by norm_num)
    have hx2 : x ^ 2 = 6 / (3 * (1 * 12 ^ 2)) := by rw [hx]; exact Real.sq_sqrt (by norm_num)
    rw [← hx2]
    have hQd : (((x ^ 2 : ℝ) : ℂ) • (1 : Mat m ℂ)).PosDef := scalar_posDef (by positivity)
    obtain ⟨s1, s2⟩ := Linalg.C18_sqrtmh np _ hQd.posSemidef
    have hS := scalar_root s2 hx0 s1
    simp only [hS, scalar_mul]
    have hM : x * 12 * 12⁻¹ * 12 * x = 1 / 6 := by
      have : x * 12 * 12⁻¹ * 12 * x = 12 * x ^ 2 := by ring
      rw [this, hx2]
      norm_num
    rw [hM]
    have hMd : (((1 / 6 : ℝ) : ℂ) • (1 : Mat m ℂ)).PosDef := scalar_posDef (by norm_num)
    have hl : ∀ i, (np.eigh (((1 / 6 : ℝ) : ℂ) • (1 : Mat m ℂ))).1 i = 1 / 6 := by
      intro i
      obtain ⟨u, d, -⟩ := np.eigh_spec (((1 / 6 : ℝ) : ℂ) • (1 : Mat m ℂ)) hMd.1
      generalize (np.eigh (((1 / 6 : ℝ) : ℂ) • (1 : Mat m ℂ))).2 = P at u d
      generalize (np.eigh (((1 / 6 : ℝ) : ℂ) • (1 : Mat m ℂ))).1 = l at d ⊢
      have h8 : diagonal (fun i => (l i : ℂ)) = ((1 / 6 : ℝ) : ℂ) • (1 : Mat m ℂ) := by
        calc diagonal (fun i => (l i : ℂ)) = (Pᴴ * P) * diagonal (fun i => (l i : ℂ)) * (Pᴴ * P) := by
              rw [u, Matrix.one_mul, Matrix.mul_one]
          _ = Pᴴ * (P * diagonal (fun i => (l i : ℂ)) * Pᴴ) * P := by simp only [Matrix.mul_assoc]
          _ = _ := by
            have d' : P * diagonal (fun i => (l i : ℂ)) * Pᴴ = _ := d.symm
            rw [d', mul_smul_comm, smul_mul_assoc, Matrix.mul_one, u]
      have h9 := congrFun (congrFun h8 i) i
      simp only [diagonal_apply_eq, Matrix.smul_apply, one_apply_eq, smul_eq_mul, mul_one] at h9
      exact_mod_cast h9
    have hf : ∀ i, floor0 (Real.sqrt ((np.eigh (((1 / 6 : ℝ) : ℂ) • (1 : Mat m ℂ))).1 i))
        = Real.sqrt ((np.eigh (((1 / 6 : ℝ) : ℂ) • (1 : Mat m ℂ))).1 i) := by
      intro i
      rw [hl]
      have h5 : (1 / 6 : ℝ) ≤ Real.sqrt (1 / 6) := Real.le_sqrt_of_sq_le (by norm_num)
      refine max_eq_left ?_
      have : (1 / 10 ^ 10 : ℝ) ≤ 1 / 6 := by norm_num
      linarith
    refine ⟨scalar_fixed np (by rw [hx2]; norm_num), hQd, scalar_fixed np (by norm_num), hf, ?_⟩
    obtain ⟨i1, i2, -⟩ := Linalg.C18_invsqrtmh np (some floor0) _ hMd (by
      intro g hg i
      cases hg
      exact hf i)
    have hr6 : Real.sqrt 6 ^ 2 = 6 := Real.sq_sqrt (by norm_num)
    have hN : Linalg.invsqrtmh np (some floor0) (((1 / 6 : ℝ) : ℂ) • (1 : Mat m ℂ)) = ((Real.sqrt 6 : ℝ) : ℂ) • 1 := by
      refine scalar_root i1.posSemidef (Real.sqrt_pos.mpr (by norm_num)) ?_
      rw [mul_smul_comm, Matrix.mul_one, smul_mul_assoc] at i2
      have h3 := congrArg (fun M => ((6 : ℝ) : ℂ) • M) i2
      simp only [smul_smul, ← Complex.ofReal_mul] at h3
      rw [hr6, ← h3]
      norm_num
    rw [hN]
    simp only [scalar_mul]
    refine scalar_fixed np ?_
    have h1 : (1 : ℝ) ≤ Real.sqrt 6 := Real.one_le_sqrt.mpr (by norm_num)
    have h2 : 12 * x * Real.sqrt 6 * x * 12 = 2 * Real.sqrt 6 := by
      have : 12 * x * Real.sqrt 6 * x * 12 = 144 * x ^ 2 * Real.sqrt 6 := by ring
      rw [this, hx2]
      norm_num
    rw [h2]
    have : (1 / 10 ^ 10 : ℝ) ≤ 1 := by norm_num
    linarith
  refine ⟨hb, fun T hT => ?_⟩
  obtain ⟨T', h1, h2, h3⟩ := basisT_ok hp hc hb
  rw [h1] at hT
  cases hT
  have g0 : Real.sqrt 24 ^ 2 = 24 := Real.sq_sqrt (by norm_num)
  have g1 : (4 : ℝ) ≤ Real.sqrt 24 := Real.le_sqrt_of_sq_le (by norm_num)
  have g2 : Real.sqrt 24 ≤ 5 := Real.sqrt_le_iff.mpr (by norm_num)
  have g3 : (1 / 10 ^ 10 : ℝ) ≤ 1 := by norm_num
  have g4 : 0 < Real.sqrt 24 := by linarith
  have hT : ∀ k b β, T k b β = ((Real.sqrt 24 : ℝ) : ℂ) • 1 := by
    intro k b β
    have h4 := h3 k b β
    rw [hP, hQ, st1_T, scalar_mul, scalar_mul, mul_smul_comm, Matrix.mul_one, smul_mul_assoc] at h4
    refine scalar_root (h2 k b β).posSemidef g4 ?_
    have h5 := congrArg (fun M => ((12 : ℝ) : ℂ) • M) h4
    simp only [smul_smul, ← Complex.ofReal_mul] at h5
    rw [g0]
    norm_num at h5 ⊢
    exact h5
  refine ⟨fixed1 hT st1_V np (by linarith), fun V hV => ?_⟩
  obtain ⟨c, hcw⟩ : ∃ c, c = tWeight 1 3 (1 / (1 * Real.sqrt 24)) := ⟨_, rfl⟩
  have hw2 : ∀ k j, wt 1 x1 st1.W T st1.V k j = c := by
    intro k j
    rw [wt, qv1 hT st1_V g4 one_pos, hcw]
  have hV' := act1 hT st1_V g4 one_pos (by linarith) hw2 hV
  have hc3 : 3 ≤ c := by
    rw [hcw, tWeight]
    have : 1 / (1 * Real.sqrt 24) ≤ 1 / 2 := one_div_le_one_div_of_le (by norm_num) (by linarith)
    have h0 : 0 < 1 / (1 * Real.sqrt 24) := by positivity
    rw [le_div_iff₀ (by positivity)]
    push_cast
    linarith
  have h5 : (1 / 3 : ℝ) ≤ Real.sqrt (c / (3 * (1 * Real.sqrt 24))) := by
    apply Real.le_sqrt_of_sq_le
    rw [le_div_iff₀ (by positivity)]
    linarith
  refine ⟨fun k b j => by rw [hV']; linarith, fixed1 hT hV' np ?_,
    fun β => exact1 hT hV' g4 (by linarith) _ β _⟩
  nlinarith

/-- `TIPSDTA` with one degree of freedom moves the bases from 12 to `√24`. -/
example (np : Numpy ℂ) : (∀ f, LinearIndependent ℂ (x1 f).row) ∧ Inv np st1 ∧ TReg np floor0 1 x1 st1 :=
  ⟨x1_independent, inv1 np, treg1 np⟩

end example1

end Verif.Ipsdta
