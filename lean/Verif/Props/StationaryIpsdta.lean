import Verif.Lemmas.IpsdtaStrict
import Verif.Props.Ipsdta

/-!
# `GaussIPSDTA` and `TIPSDTA` make the loss strictly smaller unless they have reached a stationary point (C67)
-/

set_option linter.unusedSectionVars false

namespace Verif.Ipsdta

open Matrix Spatial Scale
open scoped ComplexOrder

section generic

variable {ι : Type} [Fintype ι] {sz : ι → ℕ} {n t K : ℕ} [Nonempty (Fin K)] [Nonempty (Fin t)]

/-- A step that decreases the objective weighted with the current weights decreases that of `TIPSDTA`. -/
theorem tobj_lt {nu : ℝ} (hnu : 0 < nu) (N : ℕ) {X : (β : ι) → Fin (sz β) → Matrix (Fin n) (Fin t) ℂ}
    {W W' : (β : ι) → Fin (sz β) → Mat n ℂ} {T T' : Fin n → Fin K → (β : ι) → Mat (sz β) ℂ}
    {V V' : Fin n → Fin K → Fin t → ℝ} (h : Pos T V) (h' : Pos T' V')
    (hlt : obj (fun k j => tWeight nu N (qv X W T V k j)) X W' T' V'
      < obj (fun k j => tWeight nu N (qv X W T V k j)) X W T V) :
    tobj nu N X W' T' V' < tobj nu N X W T V := by
  have h1 : ∑ j, ∑ k, ((nu + 2 * N) / 2 * Real.log (1 + 2 / nu * qv X W' T' V' k j) + ld T' V' k j)
      ≤ ∑ j, ∑ k, ((nu + 2 * N) / 2 * Real.log (1 + 2 / nu * qv X W T V k j) + ld T V k j)
        + (∑ j, ∑ k, (tWeight nu N (qv X W T V k j) * qv X W' T' V' k j + ld T' V' k j)
          - ∑ j, ∑ k, (tWeight nu N (qv X W T V k j) * qv X W T V k j + ld T V k j)) := by
    simp only [← Finset.sum_sub_distrib, ← Finset.sum_add_distrib]
    refine Finset.sum_le_sum fun j _ => Finset.sum_le_sum fun k _ => ?_
    have := tangent N hnu (qv_nonneg X W h k j) (qv_nonneg X W' h' k j)
    linarith
  simp only [tobj]
  have h2 := div_le_div_of_nonneg_right h1 (show (0 : ℝ) ≤ t by positivity)
  generalize ∑ j, ∑ k, ((nu + 2 * N) / 2 * Real.log (1 + 2 / nu * qv X W' T' V' k j) + ld T' V' k j) = a at h2 ⊢
  generalize ∑ j, ∑ k, ((nu + 2 * N) / 2 * Real.log (1 + 2 / nu * qv X W T V k j) + ld T V k j) = b at h2 ⊢
  rw [add_div, sub_div] at h2
  simp only [obj] at hlt
  linarith

theorem hasDerivAt_add_zero {f g : ℝ → ℝ} (hg : HasDerivAt g 0 0) :
    HasDerivAt (fun ε => f ε + g ε) 0 0 ↔ HasDerivAt f 0 0 := by
  constructor
  · intro h
    have h1 := h.sub hg
    rw [sub_zero] at h1
    exact h1.congr_of_eventuallyEq (Filter.Eventually.of_forall fun ε => by
      change f ε = f ε + g ε - g ε
      ring)
  · intro h
    have h1 := h.add hg
    rwa [add_zero] at h1

/-- The objective of `TIPSDTA` and the weighted one have the same derivative along every curve through the current
point. -/
theorem hasDerivAt_tobj_iff {nu : ℝ} (hnu : 0 < nu) (N : ℕ) {X : (β : ι) → Fin (sz β) → Matrix (Fin n) (Fin t) ℂ}
    (W : ℝ → (β : ι) → Fin (sz β) → Mat n ℂ) (T : ℝ → Fin n → Fin K → (β : ι) → Mat (sz β) ℂ)
    (V : ℝ → Fin n → Fin K → Fin t → ℝ) (q : Fin n → Fin t → ℝ) (hq0 : ∀ k j, 0 ≤ q k j)
    (h0 : ∀ k j, qv X (W 0) (T 0) (V 0) k j = q k j)
    (hq : ∀ k j, DifferentiableAt ℝ (fun ε => qv X (W ε) (T ε) (V ε) k j) 0) :
    HasDerivAt (fun ε => tobj nu N X (W ε) (T ε) (V ε)) 0 0 ↔
      HasDerivAt (fun ε => obj (fun k j => tWeight nu N (q k j)) X (W ε) (T ε) (V ε)) 0 0 := by
  have hd : HasDerivAt (fun ε => (∑ j, ∑ k, ((nu + 2 * N) / 2 * Real.log (1 + 2 / nu * qv X (W ε) (T ε) (V ε) k j)
      - tWeight nu N (q k j) * qv X (W ε) (T ε) (V ε) k j)) / t) 0 0 := by
    have h1 : ∀ k j, HasDerivAt (fun ε => (nu + 2 * N) / 2 * Real.log (1 + 2 / nu * qv X (W ε) (T ε) (V ε) k j)
        - tWeight nu N (q k j) * qv X (W ε) (T ε) (V ε) k j) 0 0 := by
      intro k j
      have hqd := (hq k j).hasDerivAt
      have hp : 0 < 1 + 2 / nu * q k j := by have := hq0 k j; positivity
      have h2 := (((hqd.const_mul (2 / nu)).const_add 1).log (by rw [h0]; exact hp.ne')).const_mul ((nu + 2 * N) / 2)
      refine (h2.sub (hqd.const_mul (tWeight nu N (q k j)))).congr_deriv ?_
      rw [h0, tWeight]
      have : nu + 2 * q k j ≠ 0 := by have := hq0 k j; positivity
      have e : 1 + 2 / nu * q k j = (nu + 2 * q k j) / nu := by field_simp
      rw [e]
      field_simp
      ring
    have h3 := (HasDerivAt.fun_sum (u := Finset.univ) fun j _ => HasDerivAt.fun_sum (u := Finset.univ) fun k _ =>
      h1 k j).div_const (t : ℝ)
    simpa only [Finset.sum_const_zero, zero_div] using h3
  have e : ∀ ε, tobj nu N X (W ε) (T ε) (V ε) = obj (fun k j => tWeight nu N (q k j)) X (W ε) (T ε) (V ε)
      + (∑ j, ∑ k, ((nu + 2 * N) / 2 * Real.log (1 + 2 / nu * qv X (W ε) (T ε) (V ε) k j)
        - tWeight nu N (q k j) * qv X (W ε) (T ε) (V ε) k j)) / t := by
    intro ε
    simp only [tobj, obj, Finset.sum_add_distrib, Finset.sum_sub_distrib]
    ring
  simp only [e]
  exact hasDerivAt_add_zero hd

theorem qv_differentiable_basis (X : (β : ι) → Fin (sz β) → Matrix (Fin n) (Fin t) ℂ)
    (W : (β : ι) → Fin (sz β) → Mat n ℂ) {T : Fin n → Fin K → (β : ι) → Mat (sz β) ℂ}
    {V : Fin n → Fin K → Fin t → ℝ} (h : Pos T V) (A : Fin n → Fin K → (β : ι) → Mat (sz β) ℂ) (k : Fin n)
    (j : Fin t) :
    DifferentiableAt ℝ (fun ε : ℝ => qv X W (fun k b β => T k b β + (ε : ℂ) • A k b β) V k j) 0 := by
  have e : ∀ (ε : ℝ) β, raw (fun k b β => T k b β + (ε : ℂ) • A k b β) V k j β
      = raw T V k j β + (ε : ℂ) • raw A V k j β := by
    intro ε β
    simp only [raw, smul_add, Finset.sum_add_distrib, Finset.smul_sum]
    congr 1
    exact Finset.sum_congr rfl fun b _ => smul_comm _ _ _
  simp only [qv, e]
  refine DifferentiableAt.fun_sum fun β _ => ?_
  simp only [trace_mul_comm _ (yy _ _ _ _)]
  exact (Tr.hasDerivAt_trace_inv _ _ _ (Tr.isUnit_det (raw_posDef h k j β))).differentiableAt

theorem qv_differentiable_activation (X : (β : ι) → Fin (sz β) → Matrix (Fin n) (Fin t) ℂ)
    (W : (β : ι) → Fin (sz β) → Mat n ℂ) {T : Fin n → Fin K → (β : ι) → Mat (sz β) ℂ}
    {V : Fin n → Fin K → Fin t → ℝ} (h : Pos T V) (A : Fin n → Fin K → Fin t → ℝ) (k : Fin n) (j : Fin t) :
    DifferentiableAt ℝ (fun ε : ℝ => qv X W T (fun k b j => V k b j + ε * A k b j) k j) 0 := by
  have e : ∀ (ε : ℝ) β, raw T (fun k b j => V k b j + ε * A k b j) k j β
      = raw T V k j β + (ε : ℂ) • raw T A k j β := by
    intro ε β
    simp only [raw, Finset.smul_sum, ← Finset.sum_add_distrib, smul_smul, ← add_smul]
    push_cast
    rfl
  simp only [qv, e]
  refine DifferentiableAt.fun_sum fun β _ => ?_
  simp only [trace_mul_comm _ (yy _ _ _ _)]
  exact (Tr.hasDerivAt_trace_inv _ _ _ (Tr.isUnit_det (raw_posDef h k j β))).differentiableAt

theorem qv_differentiable_filter (X : (β : ι) → Fin (sz β) → Matrix (Fin n) (Fin t) ℂ)
    (W D : (β : ι) → Fin (sz β) → Mat n ℂ) (T : Fin n → Fin K → (β : ι) → Mat (sz β) ℂ)
    (V : Fin n → Fin K → Fin t → ℝ) (k : Fin n) (j : Fin t) :
    DifferentiableAt ℝ (fun ε : ℝ => qv X (fun β i => W β i + (ε : ℂ) • D β i) T V k j) 0 := by
  refine DifferentiableAt.fun_sum fun β _ => ?_
  obtain ⟨M, hM⟩ : ∃ M, M = (raw T V k j β)⁻¹ := ⟨_, rfl⟩
  simp only [← hM]
  have e : ∀ ε : ℝ, (M * yy (fun β i => (W β i + (ε : ℂ) • D β i) * X β i) k j β).trace.re
      = ∑ a, ∑ c, (M a c * (((W β c * X β c) k j + (ε : ℂ) * (D β c * X β c) k j)
          * (star ((W β a * X β a) k j) + (ε : ℂ) * star ((D β a * X β a) k j)))).re := by
    intro ε
    have e1 : ∀ i, ((W β i + (ε : ℂ) • D β i) * X β i) k j = (W β i * X β i) k j + (ε : ℂ) * (D β i * X β i) k j := by
      intro i
      rw [Matrix.add_mul, Matrix.smul_mul]
      rfl
    simp only [trace, diag, mul_apply (M := M), yy, of_apply, e1, Complex.re_sum, star_add, star_mul', Complex.star_def,
      Complex.conj_ofReal]
  simp only [e]
  refine DifferentiableAt.fun_sum fun a _ => DifferentiableAt.fun_sum fun c _ => ?_
  have h1 : DifferentiableAt ℝ (fun ε : ℝ => M a c * (((W β c * X β c) k j + (ε : ℂ) * (D β c * X β c) k j)
          * (star ((W β a * X β a) k j) + (ε : ℂ) * star ((D β a * X β a) k j)))) 0 := by
    have h2 : DifferentiableAt ℝ (fun ε : ℝ => (ε : ℂ)) 0 := Complex.ofRealCLM.differentiableAt
    fun_prop
  exact Complex.reCLM.differentiableAt.comp (0 : ℝ) h1

end generic

variable {n_bins n_blocks n t K : ℕ}

/-! ## The statements -/

/-- The derivative of a function of the state vanishes along all Hermitian directions of the bases. -/
def StatBasis (val : St n_bins n_blocks n t K → ℝ) (s : St n_bins n_blocks n t K) : Prop :=
  ∀ A : Fin n → Fin K → (β : Blk n_bins n_blocks) → Mat (bsize n_bins n_blocks β) ℂ,
    (∀ k b β, (A k b β).IsHermitian) →
      HasDerivAt (fun ε : ℝ => val ⟨fun k b β => s.T k b β + (ε : ℂ) • A k b β, s.V, s.W⟩) 0 0

/-- ... along all directions of the activations. -/
def StatActivation (val : St n_bins n_blocks n t K → ℝ) (s : St n_bins n_blocks n t K) : Prop :=
  ∀ A : Fin n → Fin K → Fin t → ℝ, HasDerivAt (fun ε : ℝ => val ⟨s.T, fun k b j => s.V k b j + ε * A k b j, s.W⟩) 0 0

/-- ... along all directions of the demixing filters. -/
def StatFilter (val : St n_bins n_blocks n t K → ℝ) (s : St n_bins n_blocks n t K) : Prop :=
  ∀ D : Fin n_bins → Mat n ℂ, HasDerivAt (fun ε : ℝ => val ⟨s.T, s.V, fun f => s.W f + (ε : ℂ) • D f⟩) 0 0

/-- All partial derivatives vanish. -/
def Stationary (val : St n_bins n_blocks n t K → ℝ) (s : St n_bins n_blocks n t K) : Prop :=
  StatBasis val s ∧ StatActivation val s ∧ StatFilter val s

/-- No replacement of one row of one demixing filter makes the value smaller. -/
def RowBest (val : St n_bins n_blocks n t K → ℝ) (s : St n_bins n_blocks n t K) : Prop :=
  ∀ f k (v : Fin n → ℂ), IsUnit ((s.W f).updateRow k v).det →
    val s ≤ val ⟨s.T, s.V, Function.update s.W f ((s.W f).updateRow k v)⟩

/-- The state after normalisation alone. -/
noncomputable def normalized (normalization : Bool) (s : St n_bins n_blocks n t K) : St n_bins n_blocks n t K :=
  if normalization then ⟨(normalize s.T s.V).1, (normalize s.T s.V).2, s.W⟩ else s

/-! ## Blocks and bins -/

theorem onBlk_update [DecidableEq (Blk n_bins n_blocks)] {α : Type} (x : Fin n_bins → α) (β : Blk n_bins n_blocks)
    (i : Fin (bsize n_bins n_blocks β)) (y : α) :
    onBlk (n_blocks := n_blocks) (Function.update x (binOf n_bins n_blocks β i) y)
      = Function.update (onBlk x) β (Function.update (onBlk x β) i y) := by
  funext β' i'
  simp only [onBlk]
  by_cases hβ : β' = β
  · subst hβ
    rw [Function.update_self]
    by_cases hi : i' = i
    · subst hi
      rw [Function.update_self, Function.update_self]
    · rw [Function.update_of_ne, Function.update_of_ne hi]
      · rfl
      · intro h
        have := binOf_injective h
        exact hi (by simpa using this)
  · rw [Function.update_of_ne, Function.update_of_ne hβ]
    · rfl
    · intro h
      have := binOf_injective h
      exact hβ (congrArg Sigma.fst this)

variable [Nonempty (Fin K)] [Nonempty (Fin t)]

theorem rowBest_iff (X : Spec (Fin n_bins) n t) (s : St n_bins n_blocks n t K) :
    RowBest (gaussVal X) s ↔ RowsOptimal (fun _ _ => 1) (onBlk X) (onBlk s.W) s.T s.V := by
  classical
  have key : ∀ β i k v,
      gaussVal X s ≤ gaussVal X ⟨s.T, s.V, Function.update s.W (binOf n_bins n_blocks β i)
        ((s.W (binOf n_bins n_blocks β i)).updateRow k v)⟩ ↔
      blockLoss (rxx (fun _ _ => 1) (fun k j β => (raw s.T s.V k j β)⁻¹) (onBlk X) β) (onBlk s.W β)
        ≤ blockLoss (rxx (fun _ _ => 1) (fun k j β => (raw s.T s.V k j β)⁻¹) (onBlk X) β)
          (Function.update (onBlk s.W β) i ((onBlk s.W β i).updateRow k v)) := by
    intro β i k v
    simp only [gaussVal, onBlk_update, obj_blocks]
    rw [add_le_add_iff_right, ← Finset.sum_erase_add _ _ (Finset.mem_univ β),
      ← Finset.sum_erase_add _ _ (Finset.mem_univ β), Function.update_self]
    have : ∑ β' ∈ Finset.univ.erase β, blockLoss (rxx (fun _ _ => 1) (fun k j β => (raw s.T s.V k j β)⁻¹) (onBlk X) β')
          (Function.update (onBlk s.W) β (Function.update (onBlk s.W β) i ((onBlk s.W β i).updateRow k v)) β')
        = ∑ β' ∈ Finset.univ.erase β, blockLoss (rxx (fun _ _ => 1) (fun k j β => (raw s.T s.V k j β)⁻¹) (onBlk X) β')
          (onBlk s.W β') :=
      Finset.sum_congr rfl fun β' hβ' => by rw [Function.update_of_ne (Finset.ne_of_mem_erase hβ')]
    have e : (s.W (binOf n_bins n_blocks β i)) = onBlk s.W β i := rfl
    rw [e, this, add_le_add_iff_left]
  constructor
  · intro h β i k v hv
    exact (key β i k v).mp (h _ k v hv)
  · intro h f k v hv
    obtain ⟨β, i, rfl⟩ := binOf_exists (n_blocks := n_blocks) f
    exact (key β i k v).mpr (h β i k v hv)

theorem normalized_eq (normalization : Bool) (T : Fin n → Fin K → (β : Blk n_bins n_blocks) → Mat (bsize n_bins n_blocks β) ℂ)
    (V : Fin n → Fin K → Fin t → ℝ) (W : Fin n_bins → Mat n ℂ) :
    normalized normalization ⟨T, V, W⟩ = ⟨(if normalization then normalize T V else (T, V)).1,
      (if normalization then normalize T V else (T, V)).2, W⟩ := by
  cases normalization <;> rfl

theorem join_onBlk (W : Fin n_bins → Mat n ℂ) : joinBlocks (onBlk (n_blocks := n_blocks) W) = W := by
  funext f
  obtain ⟨β, i, rfl⟩ := binOf_exists (n_blocks := n_blocks) f
  exact joinBlocks_binOf _ β i

/-- C67: one update of `GaussIPSDTA` makes the loss strictly smaller exactly if some partial derivative of the loss
with respect to bases or activations does not vanish or some row of a demixing filter can be replaced by a better one;
otherwise only the normalisation acts. In particular the loss becomes strictly smaller at every point that is not
stationary. -/
theorem C67_gauss {np : Numpy ℂ} (hb : n_blocks ≠ 0) [Nonempty (Fin n_bins)]
    (normalization : Bool) (floor : ℝ → ℝ) {X : Spec (Fin n_bins) n t} (hX : ∀ f, LinearIndependent ℂ (X f).row)
    {s : St n_bins n_blocks n t K} (h : Inv np s) (hr : GReg np floor X s) :
    ∃ s' l l', gaussUpdate np normalization floor X s = .ok s' ∧ gaussLoss np X s = .ok l ∧
      gaussLoss np X s' = .ok l' ∧
      (l' < l ↔ ¬ (StatBasis (gaussVal X) s ∧ StatActivation (gaussVal X) s ∧ RowBest (gaussVal X) s)) ∧
      (l' < l ∨ s' = normalized normalization s) ∧ (¬ Stationary (gaussVal X) s → l' < l) := by
  have hsz : ∃ β, 0 < bsize n_bins n_blocks β := by
    obtain ⟨β, i, -⟩ := binOf_exists (n_blocks := n_blocks) (Classical.arbitrary (Fin n_bins))
    exact ⟨β, Fin.pos i⟩
  obtain ⟨T, hT, hTd, hTr⟩ := basisGauss_ok h.pos h.cov hr.basis
  obtain ⟨l1, i1⟩ := basis_strict (fun _ _ => zero_le_one) (onBlk X) (onBlk s.W) h.pos hTd hTr
  have hp1 : Pos T s.V := ⟨hTd, h.pos.2⟩
  obtain ⟨hc1, hr1⟩ := hr.activation T hT
  obtain ⟨V, hV⟩ : ∃ V, activationMM np (fun _ _ => 1) (onBlk (separate X s.W)) T s.V = .ok V := by
    simp only [activationMM, covInv_eq hp1 hc1, bind, Except.bind]
    exact ⟨_, rfl⟩
  obtain ⟨hVp, hc2, hv⟩ := hr1 V hV
  obtain ⟨l2, i2⟩ := activation_strict hsz (fun _ _ => zero_le_one) (onBlk X) (onBlk s.W) np hp1 hc1 hV hVp
  have hp2 : Pos T V := ⟨hTd, hVp⟩
  obtain ⟨hp3, hraw, hc3⟩ := normalize_ok hsz hp2 normalization np hc2
  obtain ⟨r, hrr⟩ : ∃ r, r = if normalization then normalize T V else (T, V) := ⟨_, rfl⟩
  simp only [← hrr] at hp3 hraw hc3
  obtain ⟨W, hW, hWu, l3, i3⟩ := spatial_strict (floor := floor) (fun _ _ => one_pos) (X := onBlk X) (fun β i => hX _)
    (W := onBlk s.W) (fun β i => h.filter _) hp3 (by simpa only [hraw] using hv)
  have e2 : ∀ W, obj (fun _ _ => 1) (onBlk X) W r.1 r.2 = obj (fun _ _ => 1) (onBlk X) W T V := by
    intro W
    simp only [obj, qv, ld, hraw]
  rw [e2, e2] at l3
  have ei3 : RowsOptimal (fun _ _ => 1) (onBlk X) (onBlk s.W) r.1 r.2
      ↔ RowsOptimal (fun _ _ => 1) (onBlk X) (onBlk s.W) T V := by simp only [RowsOptimal, hraw]
  rw [ei3] at i3
  have hinv : Inv np (⟨r.1, r.2, joinBlocks W⟩ : St n_bins n_blocks n t K) := by
    refine ⟨hp3, hc3, fun f => ?_⟩
    obtain ⟨β, i, rfl⟩ := binOf_exists (n_blocks := n_blocks) f
    have := joinBlocks_binOf W β i
    exact (congrArg (fun A => IsUnit (det A)) this).mpr (hWu β i)
  have hrun : gaussUpdate np normalization floor X s = .ok ⟨r.1, r.2, joinBlocks W⟩ := by
    have e1 : splitBlocks n_blocks (separate X s.W) = .ok (onBlk (separate X s.W)) := splitBlocks_eq hb _
    have e2 : splitBlocks n_blocks X = .ok (onBlk X) := splitBlocks_eq hb _
    have e3 : splitBlocks n_blocks s.W = .ok (onBlk s.W) := splitBlocks_eq hb _
    simp only [gaussUpdate, e1, e2, e3, hT, hV, bind, Except.bind, ← hrr]
    rw [covInv_eq hp3 hc3]
    simp only [hW]
  have hval : gaussVal X (⟨r.1, r.2, joinBlocks W⟩ : St n_bins n_blocks n t K)
      = obj (fun _ _ => 1) (onBlk X) W T V := by
    have e : onBlk (joinBlocks W) = W := by
      funext β i
      exact joinBlocks_binOf W β i
    simp only [gaussVal, e, e2]
  -- strictly smaller, or nothing has changed
  have hdich : obj (fun _ _ => 1) (onBlk X) W T V < gaussVal X s ∨ (T = s.T ∧ V = s.V ∧ W = onBlk s.W) := by
    have m1 : obj (fun _ _ => 1) (onBlk X) (onBlk s.W) T s.V ≤ gaussVal X s := l1.elim le_of_lt fun e => by rw [e]; rfl
    have m2 : obj (fun _ _ => 1) (onBlk X) (onBlk s.W) T V ≤ obj (fun _ _ => 1) (onBlk X) (onBlk s.W) T s.V :=
      l2.elim le_of_lt fun e => by rw [e]
    have m3 : obj (fun _ _ => 1) (onBlk X) W T V ≤ obj (fun _ _ => 1) (onBlk X) (onBlk s.W) T V :=
      l3.elim le_of_lt fun e => by rw [e]
    rcases l3 with l3 | l3
    · exact .inl (l3.trans_le (m2.trans m1))
    rcases l2 with l2 | l2
    · exact .inl (m3.trans_lt (l2.trans_le m1))
    rcases l1 with l1 | l1
    · exact .inl ((m3.trans m2).trans_lt l1)
    exact .inr ⟨l1, l2, l3⟩
  have hfix : (T = s.T ∧ V = s.V ∧ W = onBlk s.W)
      ↔ (StatBasis (gaussVal X) s ∧ StatActivation (gaussVal X) s ∧ RowBest (gaussVal X) s) := by
    have b1 : StatBasis (gaussVal X) s ↔ T = s.T := i1.symm
    constructor
    · rintro ⟨rfl, rfl, rfl⟩
      exact ⟨b1.mpr rfl, i2.mp rfl, (rowBest_iff X s).mpr (i3.mp rfl)⟩
    · rintro ⟨c1, c2, c3⟩
      obtain rfl := b1.mp c1
      have c2 := i2.mpr c2
      subst c2
      exact ⟨rfl, rfl, i3.mpr ((rowBest_iff X s).mp c3)⟩
  have hlt : obj (fun _ _ => 1) (onBlk X) W T V < gaussVal X s
      ↔ ¬ (StatBasis (gaussVal X) s ∧ StatActivation (gaussVal X) s ∧ RowBest (gaussVal X) s) := by
    rw [← hfix]
    refine ⟨fun hl ⟨c1, c2, c3⟩ => ?_, fun hn => hdich.resolve_right hn⟩
    rw [c1, c2, c3] at hl
    exact lt_irrefl _ hl
  refine ⟨_, _, _, hrun, gaussLoss_eq hb X h, gaussLoss_eq hb X hinv, ?_, ?_, ?_⟩
  · rw [hval]
    exact hlt
  · rw [hval]
    refine hdich.imp id ?_
    rintro ⟨rfl, rfl, rfl⟩
    rw [hrr, join_onBlk]
    exact (normalized_eq normalization s.T s.V s.W).symm
  · intro hn
    rw [hval, hlt]
    rintro ⟨c1, c2, c3⟩
    refine hn ⟨c1, c2, fun D => ?_⟩
    exact rowsOptimal_stationary (fun β i => h.filter _) ((rowBest_iff X s).mp c3) (onBlk D)

/-- C67: one update of `TIPSDTA` makes the loss strictly smaller at every point that is not stationary, and if it does
not make the loss strictly smaller only the normalisation has acted. -/
theorem C67_t {np : Numpy ℂ} (hb : n_blocks ≠ 0) [Nonempty (Fin n_bins)]
    (normalization : Bool) (floor : ℝ → ℝ) {nu : ℝ} (hnu : 0 < nu) {X : Spec (Fin n_bins) n t}
    (hX : ∀ f, LinearIndependent ℂ (X f).row)
    {s : St n_bins n_blocks n t K} (h : Inv np s) (hr : TReg np floor nu X s) :
    ∃ s' l l', tUpdate np normalization floor nu X s = .ok s' ∧ tLoss np nu X s = .ok l ∧
      tLoss np nu X s' = .ok l' ∧ (¬ Stationary (tVal nu X) s → l' < l) ∧
      (l' < l ∨ s' = normalized normalization s) := by
  have hsz : ∃ β, 0 < bsize n_bins n_blocks β := by
    obtain ⟨β, i, -⟩ := binOf_exists (n_blocks := n_blocks) (Classical.arbitrary (Fin n_bins))
    exact ⟨β, Fin.pos i⟩
  have hw : ∀ W T V, Pos T V → ∀ k j, 0 < wt (n_blocks := n_blocks) (K := K) nu X W T V k j := by
    intro W T V hp k j
    have := qv_nonneg (onBlk X) (onBlk W) hp k j
    simp only [wt, tWeight]
    positivity
  obtain ⟨T, hT, hTd, hTr⟩ := basisT_ok h.pos h.cov hr.basis
  have hp1 : Pos T s.V := ⟨hTd, h.pos.2⟩
  obtain ⟨l1, i1⟩ := basis_strict (fun k j => (hw s.W s.T s.V h.pos k j).le) (onBlk X) (onBlk s.W) h.pos hTd hTr
  obtain ⟨hc1, hr1⟩ := hr.activation T hT
  obtain ⟨V, hV⟩ : ∃ V, activationMM np (wt nu X s.W T s.V) (onBlk (separate X s.W)) T s.V = .ok V := by
    simp only [activationMM, covInv_eq hp1 hc1, bind, Except.bind]
    exact ⟨_, rfl⟩
  obtain ⟨hVp, hc2, hv⟩ := hr1 V hV
  have hp2 : Pos T V := ⟨hTd, hVp⟩
  obtain ⟨l2, i2⟩ := activation_strict hsz (fun k j => (hw s.W T s.V hp1 k j).le) (onBlk X) (onBlk s.W) np hp1 hc1 hV
    hVp
  obtain ⟨hp3, hraw, hc3⟩ := normalize_ok hsz hp2 normalization np hc2
  obtain ⟨r, hrr⟩ : ∃ r, r = if normalization then normalize T V else (T, V) := ⟨_, rfl⟩
  simp only [← hrr] at hp3 hraw hc3
  have hq : ∀ W, qv (onBlk X) W r.1 r.2 = qv (onBlk X) W T V := by
    intro W
    funext k j
    simp only [qv, hraw]
  have hwr : wt nu X s.W r.1 r.2 = wt nu X s.W T V := by
    funext k j
    simp only [wt, hq]
  obtain ⟨W, hW, hWu, l3, i3⟩ := spatial_strict (floor := floor) (hw s.W r.1 r.2 hp3) (X := onBlk X) (fun β i => hX _)
    (W := onBlk s.W) (fun β i => h.filter _) hp3 (by simpa only [hraw, hwr] using hv)
  have e2 : ∀ W, tobj nu n_bins (onBlk X) W r.1 r.2 = tobj nu n_bins (onBlk X) W T V := by
    intro W
    simp only [tobj, hq, ld, hraw]
  have ei3 : RowsOptimal (wt nu X s.W r.1 r.2) (onBlk X) (onBlk s.W) r.1 r.2
      ↔ RowsOptimal (wt nu X s.W T V) (onBlk X) (onBlk s.W) T V := by simp only [RowsOptimal, hraw, hwr]
  rw [ei3] at i3
  have L1 : tobj nu n_bins (onBlk X) (onBlk s.W) T s.V < tVal nu X s ∨ T = s.T :=
    l1.imp (tobj_lt hnu n_bins h.pos hp1) id
  have L2 : tobj nu n_bins (onBlk X) (onBlk s.W) T V < tobj nu n_bins (onBlk X) (onBlk s.W) T s.V ∨ V = s.V :=
    l2.imp (tobj_lt hnu n_bins hp1 hp2) id
  have L3 : tobj nu n_bins (onBlk X) W T V < tobj nu n_bins (onBlk X) (onBlk s.W) T V ∨ W = onBlk s.W :=
    l3.imp (fun l => by
      have := tobj_lt hnu n_bins hp3 hp3 l
      rwa [e2, e2] at this) id
  have hinv : Inv np (⟨r.1, r.2, joinBlocks W⟩ : St n_bins n_blocks n t K) := by
    refine ⟨hp3, hc3, fun f => ?_⟩
    obtain ⟨β, i, rfl⟩ := binOf_exists (n_blocks := n_blocks) f
    have := joinBlocks_binOf W β i
    exact (congrArg (fun A => IsUnit (det A)) this).mpr (hWu β i)
  have hrun : tUpdate np normalization floor nu X s = .ok ⟨r.1, r.2, joinBlocks W⟩ := by
    have e1 : splitBlocks n_blocks (separate X s.W) = .ok (onBlk (separate X s.W)) := splitBlocks_eq hb _
    have e2 : splitBlocks n_blocks X = .ok (onBlk X) := splitBlocks_eq hb _
    have e3 : splitBlocks n_blocks s.W = .ok (onBlk s.W) := splitBlocks_eq hb _
    simp only [tUpdate, e1, e2, e3, bind, Except.bind]
    rw [covInv_eq h.pos h.cov]
    simp only [yry_onBlk X s.W h.pos]
    have hT' : basisT np floor (fun k j => tWeight nu n_bins (qv (onBlk X) (onBlk s.W) s.T s.V k j))
      (onBlk (separate X s.W)) s.T s.V = .ok T := hT
    simp only [hT']
    rw [covInv_eq hp1 hc1]
    simp only [yry_onBlk X s.W hp1]
    have hV' : activationMM np (fun k j => tWeight nu n_bins (qv (onBlk X) (onBlk s.W) T s.V k j))
      (onBlk (separate X s.W)) T s.V = .ok V := hV
    simp only [hV', ← hrr]
    rw [covInv_eq hp3 hc3]
    have e4 : yry (fun β i => onBlk s.W β i * onBlk X β i) (fun k j β => (raw r.1 r.2 k j β)⁻¹)
      = qv (onBlk X) (onBlk s.W) r.1 r.2 := yry_onBlk X s.W hp3
    simp only [e4]
    have hW' : spatialVcd floor (fun k j => tWeight nu n_bins (qv (onBlk X) (onBlk s.W) r.1 r.2 k j))
      (fun k j β => (raw r.1 r.2 k j β)⁻¹) (onBlk X) (onBlk s.W) = .ok W := hW
    simp only [hW']
  have hval : tVal nu X (⟨r.1, r.2, joinBlocks W⟩ : St n_bins n_blocks n t K)
      = tobj nu n_bins (onBlk X) W T V := by
    have e : onBlk (joinBlocks W) = W := by
      funext β i
      exact joinBlocks_binOf W β i
    simp only [tVal, e, e2]
  have hdich : tobj nu n_bins (onBlk X) W T V < tVal nu X s ∨ (T = s.T ∧ V = s.V ∧ W = onBlk s.W) := by
    have m1 : tobj nu n_bins (onBlk X) (onBlk s.W) T s.V ≤ tVal nu X s := L1.elim le_of_lt fun e => by rw [e]; rfl
    have m2 : tobj nu n_bins (onBlk X) (onBlk s.W) T V ≤ tobj nu n_bins (onBlk X) (onBlk s.W) T s.V :=
      L2.elim le_of_lt fun e => by rw [e]
    have m3 : tobj nu n_bins (onBlk X) W T V ≤ tobj nu n_bins (onBlk X) (onBlk s.W) T V :=
      L3.elim le_of_lt fun e => by rw [e]
    rcases L3 with l3 | l3
    · exact .inl (l3.trans_le (m2.trans m1))
    rcases L2 with l2 | l2
    · exact .inl (m3.trans_lt (l2.trans_le m1))
    rcases L1 with l1 | l1
    · exact .inl ((m3.trans m2).trans_lt l1)
    exact .inr ⟨l1, l2, l3⟩
  refine ⟨_, _, _, hrun, tLoss_eq hb nu X h, tLoss_eq hb nu X hinv, ?_, ?_⟩
  · intro hn
    rw [hval]
    refine hdich.resolve_right ?_
    rintro ⟨rfl, rfl, rfl⟩
    refine hn ⟨fun A hA => ?_, fun A => ?_, fun D => ?_⟩
    · refine (hasDerivAt_tobj_iff hnu n_bins (fun _ => onBlk s.W) (fun ε k b β => s.T k b β + (ε : ℂ) • A k b β)
        (fun _ => s.V) (qv (onBlk X) (onBlk s.W) s.T s.V) (qv_nonneg _ _ h.pos) (fun k j => by simp)
        (qv_differentiable_basis _ _ h.pos A)).mpr ?_
      exact i1.mp rfl A hA
    · refine (hasDerivAt_tobj_iff hnu n_bins (fun _ => onBlk s.W) (fun _ => s.T)
        (fun ε k b j => s.V k b j + ε * A k b j) (qv (onBlk X) (onBlk s.W) s.T s.V) (qv_nonneg _ _ h.pos)
        (fun k j => by simp) (qv_differentiable_activation _ _ h.pos A)).mpr ?_
      exact i2.mp rfl A
    · refine (hasDerivAt_tobj_iff hnu n_bins (fun ε β i => onBlk s.W β i + (ε : ℂ) • onBlk D β i) (fun _ => s.T)
        (fun _ => s.V) (qv (onBlk X) (onBlk s.W) s.T s.V) (qv_nonneg _ _ h.pos)
        (fun k j => by simp) (qv_differentiable_filter _ _ _ _ _)).mpr ?_
      exact rowsOptimal_stationary (fun β i => h.filter _) (i3.mp rfl) (onBlk D)
  · rw [hval]
    refine hdich.imp id ?_
    rintro ⟨rfl, rfl, rfl⟩
    rw [hrr, join_onBlk]
    exact (normalized_eq normalization s.T s.V s.W).symm

/-! ## The state of the examples of `Props.Ipsdta` is not stationary -/

theorem ld1 {a : ℝ} (ha : 0 < a) (k : Fin 2) (j : Fin 6) :
    ld (fun k b β => ((a : ℂ) • 1 : Mat (bsize 3 2 β) ℂ)) st1.V k j = 3 * Real.log a := by
  have e : ∀ β : Blk 3 2, Real.log ‖(raw (fun k b β => ((a : ℂ) • 1 : Mat (bsize 3 2 β) ℂ)) st1.V k j β).det‖
      = ∑ _i : Fin (bsize 3 2 β), Real.log a := by
    intro β
    rw [raw1 (fun _ _ _ => rfl) st1_V, one_mul, det_smul, det_one, mul_one, Fintype.card_fin, norm_pow, Real.log_pow,
      Complex.norm_real, Real.norm_eq_abs, abs_of_pos ha]
    simp
  simp only [ld, e]
  have := sum_blocks (n_blocks := 2) fun _ : Fin 3 => Real.log a
  rw [this]
  simp

theorem gaussVal1 {a : ℝ} (ha : 0 < a) :
    gaussVal x1 (⟨fun k b β => (a : ℂ) • 1, st1.V, st1.W⟩ : St 3 2 2 6 1) = 2 * (1 / a + 3 * Real.log a) := by
  simp only [gaussVal, obj, ld1 ha, qv1 (fun _ _ _ => rfl) st1_V ha one_pos]
  simp [st1, onBlk]
  ring

theorem tVal1 {a : ℝ} (ha : 0 < a) :
    tVal 1 x1 (⟨fun k b β => (a : ℂ) • 1, st1.V, st1.W⟩ : St 3 2 2 6 1)
      = 2 * (7 / 2 * Real.log (1 + 2 / a) + 3 * Real.log a) := by
  simp only [tVal, tobj, ld1 ha, qv1 (fun _ _ _ => rfl) st1_V ha one_pos]
  simp [st1, onBlk]
  ring_nf

theorem line1 (ε : ℝ) : (⟨fun k b β => st1.T k b β + (ε : ℂ) • 1, st1.V, st1.W⟩ : St 3 2 2 6 1)
    = ⟨fun k b β => ((12 + ε : ℝ) : ℂ) • 1, st1.V, st1.W⟩ := by
  congr 1
  funext k b β
  rw [st1_T, ← add_smul, Complex.ofReal_add]

/-- A criterion for the examples: the value along the identity direction has a nonzero derivative. -/
theorem not_stationary1 {val : St 3 2 2 6 1 → ℝ} {g : ℝ → ℝ} {d : ℝ}
    (hg : ∀ a : ℝ, 0 < a → val ⟨fun k b β => (a : ℂ) • 1, st1.V, st1.W⟩ = g a) (hd : HasDerivAt g d 12) (h0 : d ≠ 0) :
    ¬ Stationary val st1 := by
  rintro ⟨h, -, -⟩
  have h1 := h (fun k b β => 1) fun _ _ _ => isHermitian_one
  have h2 : HasDerivAt (fun ε : ℝ => g (12 + ε)) d 0 := by
    have := HasDerivAt.comp_const_add (12 : ℝ) (0 : ℝ) (f := g) (f' := d) (by simpa using hd)
    exact this
  refine h0 (h2.unique (h1.congr_of_eventuallyEq ?_))
  filter_upwards [eventually_gt_nhds (show (-12 : ℝ) < 0 by norm_num)] with ε hε
  rw [line1, hg _ (by linarith)]

/-- All hypotheses of `C67_gauss` hold for the state and the mixture of the examples, which is not stationary: the
loss drops. -/
example (np : Numpy ℂ) : ∃ s' l l', gaussUpdate np true floor0 x1 st1 = .ok s' ∧ gaussLoss np x1 st1 = .ok l ∧
    gaussLoss np x1 s' = .ok l' ∧ l' < l := by
  obtain ⟨s', l, l', h1, h2, h3, -, -, h4⟩ := C67_gauss (two_ne_zero : (2 : ℕ) ≠ 0) true floor0 x1_independent (inv1 np) (greg1 np)
  refine ⟨s', l, l', h1, h2, h3, h4 (not_stationary1 (fun a ha => gaussVal1 ha) (d := 2 * (-1 / 144 + 1 / 4)) ?_
    (by norm_num))⟩
  have e := ((hasDerivAt_inv (show (12 : ℝ) ≠ 0 by norm_num)).add
    ((Real.hasDerivAt_log (show (12 : ℝ) ≠ 0 by norm_num)).const_mul 3)).const_mul 2
  simp only [one_div]
  exact e.congr_deriv (by norm_num)

/-- The same for `C67_t`. -/
example (np : Numpy ℂ) : ∃ s' l l', tUpdate np true floor0 1 x1 st1 = .ok s' ∧ tLoss np 1 x1 st1 = .ok l ∧
    tLoss np 1 x1 s' = .ok l' ∧ l' < l := by
  obtain ⟨s', l, l', h1, h2, h3, h4, -⟩ := C67_t (two_ne_zero : (2 : ℕ) ≠ 0) true floor0 one_pos x1_independent (inv1 np) (treg1 np)
  refine ⟨s', l, l', h1, h2, h3, h4 (not_stationary1 (fun a ha => tVal1 ha) (d := 2 * (-1 / 24 + 1 / 4)) ?_
    (by norm_num))⟩
  have e := (((((hasDerivAt_inv (show (12 : ℝ) ≠ 0 by norm_num)).const_mul 2).const_add 1).log
    (by norm_num)).const_mul (7 / 2) |>.add
    ((Real.hasDerivAt_log (show (12 : ℝ) ≠ 0 by norm_num)).const_mul 3)).const_mul 2
  simp only [div_eq_mul_inv (2 : ℝ)]
  exact e.congr_deriv (by norm_num)

end Verif.Ipsdta
