import Verif.Props.IlrmaFloor
import Verif.Props.EigFree
import Verif.Props.Ipsdta

/-! # C41 for IPSDTA: bases stay positive definite, activations stay non-negative and are not floored -/

namespace Verif.Ipsdta

open Matrix Spatial Scale
open scoped ComplexOrder

variable {N B n t K : ℕ}

private theorem bind_ok {α β : Type} {x : Except PyErr α} {g : α → Except PyErr β} {b : β}
    (h : x.bind g = .ok b) : ∃ a, x = .ok a ∧ g a = .ok b := by
  cases x with
  | error e => simp [Except.bind] at h
  | ok a => exact ⟨a, rfl, h⟩

private theorem onBins_at {ι α : Type} {g : ι → Except PyErr α} {a : ι → α} (h : onBins g = .ok a) (i : ι) : g i = .ok (a i) := by
  rw [onBins] at h
  split_ifs at h with hg
  rw [← Except.ok.inj h]
  exact (hg i).choose_spec

private theorem onBlocks_at {ι : Type} [Fintype ι] {α : ι → Type} {g : (β : ι) → Except PyErr (α β)} {a : (β : ι) → α β}
    (h : onBlocks g = .ok a) (β : ι) : g β = .ok (a β) := by
  rw [onBlocks] at h
  split_ifs at h with hg
  rw [← Except.ok.inj h]
  exact (hg β).choose_spec

section
variable {ι : Type} [Fintype ι] {sz : ι → ℕ}

private theorem basisGauss_posDef {np : Numpy ℂ} {floor : ℝ → ℝ} (hf : ∀ x, 0 < floor x)
    {Y : (β : ι) → Fin (sz β) → Matrix (Fin n) (Fin t) ℂ} {T T' : Fin n → Fin K → (β : ι) → Mat (sz β) ℂ}
    {V : Fin n → Fin K → Fin t → ℝ} (h : basisGauss np floor Y T V = .ok T') (k : Fin n) (b : Fin K) (β : ι) : (T' k b β).PosDef := by
  obtain ⟨R, -, h2⟩ := bind_ok h
  obtain ⟨G, -, h3⟩ := bind_ok (onBlocks_at (onBins_at (onBins_at h2 k) b) β)
  rw [← Except.ok.inj h3]
  exact EigFree.toPsd_posDef np hf G

private theorem basisT_posDef {np : Numpy ℂ} {floor : ℝ → ℝ} (hf : ∀ x, 0 < floor x) {pi : Fin n → Fin t → ℝ}
    {Y : (β : ι) → Fin (sz β) → Matrix (Fin n) (Fin t) ℂ} {T T' : Fin n → Fin K → (β : ι) → Mat (sz β) ℂ}
    {V : Fin n → Fin K → Fin t → ℝ} (h : basisT np floor pi Y T V = .ok T') (k : Fin n) (b : Fin K) (β : ι) : (T' k b β).PosDef := by
  obtain ⟨R, -, h2⟩ := bind_ok h
  rw [← Except.ok.inj h2]
  exact EigFree.toPsd_posDef np hf _

/-- What the update of the activations does: a non-negative factor, which is zero when the frame is silent. -/
private theorem activation_factor {np : Numpy ℂ} {pi : Fin n → Fin t → ℝ} {Y : (β : ι) → Fin (sz β) → Matrix (Fin n) (Fin t) ℂ}
    {T : Fin n → Fin K → (β : ι) → Mat (sz β) ℂ} {V V' : Fin n → Fin K → Fin t → ℝ} (h : activationMM np pi Y T V = .ok V')
    (k : Fin n) (b : Fin K) (j : Fin t) :
    (0 ≤ V k b j → 0 ≤ V' k b j) ∧ ((∀ β i, Y β i k j = 0) → V' k b j = 0) := by
  obtain ⟨R, -, h2⟩ := bind_ok h
  rw [← Except.ok.inj h2]
  refine ⟨fun h0 => mul_nonneg h0 (Real.sqrt_nonneg _), fun hY => ?_⟩
  have e : ∀ β, yy Y k j β = 0 := fun β => by
    ext a c
    simp [yy, hY]
  simp [e]

private theorem trace_nonneg' {m : ℕ} {M : Mat m ℂ} (h : M.PosDef) : 0 ≤ M.trace.re := (Complex.le_def.mp h.posSemidef.trace_nonneg).1

private theorem basisTrace_pos {T : Fin n → Fin K → (β : ι) → Mat (sz β) ℂ} (hT : ∀ k b β, (T k b β).PosDef) (k : Fin n) (b : Fin K)
    {β : ι} (hβ : sz β ≠ 0) : 0 < basisTrace T k b := by
  have : Nonempty (Fin (sz β)) := ⟨⟨0, Nat.pos_of_ne_zero hβ⟩⟩
  exact Finset.sum_pos' (fun β _ => trace_nonneg' (hT k b β))
    ⟨β, Finset.mem_univ _, (Complex.lt_def.mp (hT k b β).trace_pos).1⟩

private theorem normalize_posDef {T : Fin n → Fin K → (β : ι) → Mat (sz β) ℂ} (hT : ∀ k b β, (T k b β).PosDef)
    (V : Fin n → Fin K → Fin t → ℝ) (k : Fin n) (b : Fin K) (β : ι) : ((normalize T V).1 k b β).PosDef := by
  change (((basisTrace T k b : ℂ))⁻¹ • T k b β).PosDef
  by_cases hβ : sz β = 0
  · have : IsEmpty (Fin (sz β)) := by rw [hβ]; infer_instance
    rw [Subsingleton.elim (((basisTrace T k b : ℂ))⁻¹ • T k b β) (T k b β)]
    exact hT k b β
  · rw [← Complex.ofReal_inv]
    exact (hT k b β).smul (by exact_mod_cast inv_pos.mpr (basisTrace_pos hT k b hβ))

private theorem normalize_trace {T : Fin n → Fin K → (β : ι) → Mat (sz β) ℂ} (hT : ∀ k b β, (T k b β).PosDef)
    (V : Fin n → Fin K → Fin t → ℝ) (k : Fin n) (b : Fin K) {β : ι} (hβ : sz β ≠ 0) : basisTrace (normalize T V).1 k b = 1 := by
  have h : basisTrace (normalize T V).1 k b = (basisTrace T k b)⁻¹ * basisTrace T k b := by
    rw [basisTrace, basisTrace, Finset.mul_sum]
    refine Finset.sum_congr rfl fun β _ => ?_
    change (((basisTrace T k b : ℂ))⁻¹ • T k b β).trace.re = _
    rw [trace_smul, smul_eq_mul, ← Complex.ofReal_inv, Complex.re_ofReal_mul]
    rfl
  rw [h, inv_mul_cancel₀ (basisTrace_pos hT k b hβ).ne']

end

/-- What one iteration of IPSDTA establishes. -/
private def Facts (normalization : Bool) (X : Spec (Fin N) n t) (s s' : St N B n t K) : Prop :=
  (∀ k b β, (s'.T k b β).PosDef) ∧ (normalization = true → N ≠ 0 → ∀ k b, ∑ β, (s'.T k b β).trace.re = 1) ∧
    ((∀ k b j, 0 ≤ s.V k b j) → ∀ k b j, 0 ≤ s'.V k b j) ∧ ∀ j, (∀ f c, X f c j = 0) → ∀ k b, s'.V k b j = 0

private theorem some_block (hB : N ≠ 0) : ∃ β : Blk N B, bsize N B β ≠ 0 := by
  obtain ⟨β, i, -⟩ := binOf_exists (n_blocks := B) (⟨0, Nat.pos_of_ne_zero hB⟩ : Fin N)
  exact ⟨β, fun h => absurd i.2 (by omega)⟩

private theorem facts_of {normalization : Bool} {X : Spec (Fin N) n t} {s : St N B n t K}
    {T : Fin n → Fin K → (β : Blk N B) → Mat (bsize N B β) ℂ} {V : Fin n → Fin K → Fin t → ℝ} {W : Fin N → Mat n ℂ}
    (hT : ∀ k b β, (T k b β).PosDef) (hV : (∀ k b j, 0 ≤ s.V k b j) → ∀ k b j, 0 ≤ V k b j)
    (hz : ∀ j, (∀ f c, X f c j = 0) → ∀ k b, V k b j = 0) :
    Facts normalization X s ⟨(if normalization then normalize T V else (T, V)).1, (if normalization then normalize T V else (T, V)).2, W⟩ := by
  cases normalization
  · exact ⟨hT, nofun, hV, hz⟩
  · refine ⟨normalize_posDef hT V, fun _ hN k b => ?_, fun h0 k b j => ?_, fun j hj k b => ?_⟩
    · obtain ⟨β, hβ⟩ := some_block (B := B) hN
      exact normalize_trace hT V k b hβ
    · exact mul_nonneg (hV h0 k b j) (Finset.sum_nonneg fun β _ => trace_nonneg' (hT k b β))
    · change V k b j * _ = 0
      rw [hz j hj k b, zero_mul]

private theorem silent {X : Spec (Fin N) n t} {W : Fin N → Mat n ℂ} {Y : (β : Blk N B) → Fin (bsize N B β) → Matrix (Fin n) (Fin t) ℂ}
    (h : splitBlocks B (separate X W) = .ok Y) {j : Fin t} (hj : ∀ f c, X f c j = 0) (k : Fin n) (β : Blk N B)
    (i : Fin (bsize N B β)) : Y β i k j = 0 := by
  by_cases hB : B = 0
  · subst hB
    rw [C53_no_blocks] at h
    exact nomatch h
  · rw [splitBlocks_eq hB] at h
    rw [← Except.ok.inj h]
    simp [separate, Matrix.mul_apply, hj]

private theorem gauss_facts {np : Numpy ℂ} {normalization : Bool} {floor : ℝ → ℝ} (hf : ∀ x, 0 < floor x) {X : Spec (Fin N) n t}
    {s s' : St N B n t K} (h : gaussUpdate np normalization floor X s = .ok s') : Facts normalization X s s' := by
  obtain ⟨Y, hY, h1⟩ := bind_ok h
  obtain ⟨T, hT, h2⟩ := bind_ok h1
  obtain ⟨V, hV, h3⟩ := bind_ok h2
  obtain ⟨Xb, -, h4⟩ := bind_ok h3
  obtain ⟨Wb, -, h5⟩ := bind_ok h4
  obtain ⟨R, -, h6⟩ := bind_ok h5
  obtain ⟨W, -, h7⟩ := bind_ok h6
  rw [← Except.ok.inj h7]
  exact facts_of (basisGauss_posDef hf hT) (fun h0 k b j => (activation_factor hV k b j).1 (h0 k b j))
    fun j hj k b => (activation_factor hV k b j).2 (fun β i => silent hY hj k β i)

private theorem t_facts {np : Numpy ℂ} {normalization : Bool} {floor : ℝ → ℝ} (hf : ∀ x, 0 < floor x) {nu : ℝ} {X : Spec (Fin N) n t}
    {s s' : St N B n t K} (h : tUpdate np normalization floor nu X s = .ok s') : Facts normalization X s s' := by
  obtain ⟨Y, hY, h1⟩ := bind_ok h
  obtain ⟨R0, -, h1⟩ := bind_ok h1
  obtain ⟨T, hT, h2⟩ := bind_ok h1
  obtain ⟨R1, -, h2⟩ := bind_ok h2
  obtain ⟨V, hV, h3⟩ := bind_ok h2
  obtain ⟨Xb, -, h4⟩ := bind_ok h3
  obtain ⟨Wb, -, h5⟩ := bind_ok h4
  obtain ⟨R, -, h6⟩ := bind_ok h5
  obtain ⟨W, -, h7⟩ := bind_ok h6
  rw [← Except.ok.inj h7]
  exact facts_of (basisT_posDef hf hT) (fun h0 k b j => (activation_factor hV k b j).1 (h0 k b j))
    fun j hj k b => (activation_factor hV k b j).2 (fun β i => silent hY hj k β i)

private theorem nonneg_run {step : St N B n t K → Except PyErr (St N B n t K)} {normalization : Bool} {X : Spec (Fin N) n t}
    (hstep : ∀ s s', step s = .ok s' → Facts normalization X s s') (n_iter : ℕ) (s s' : St N B n t K)
    (h0 : ∀ k b j, 0 ≤ s.V k b j) (h : stateAfter step n_iter s = .ok s') : ∀ k b j, 0 ≤ s'.V k b j := by
  induction n_iter generalizing s with
  | zero =>
    cases h
    exact h0
  | succ k ih =>
    obtain ⟨s1, h1, h2⟩ := bind_ok h
    exact ih s1 ((hstep s s1 h1).2.2.1 h0) h2

/-- C41 for `GaussIPSDTA` with a positive flooring function: after any positive number of iterations, whatever the recording and the
start, all bases are positive definite, and with normalisation the traces of the blocks of a basis sum to one. Activations stay
non-negative. They are not floored: in a frame that is silent in all channels and bins they are exactly zero. -/
theorem C41_gaussIpsdta (np : Numpy ℂ) (normalization : Bool) (floor : ℝ → ℝ) (hf : ∀ x, 0 < floor x) (X : Spec (Fin N) n t)
    (s s' : St N B n t K) (n_iter : ℕ) (hn : n_iter ≠ 0)
    (h : stateAfter (gaussUpdate np normalization floor X) n_iter s = .ok s') :
    (∀ k b β, (s'.T k b β).PosDef) ∧ (normalization = true → N ≠ 0 → ∀ k b, ∑ β, (s'.T k b β).trace.re = 1) ∧
      ((∀ k b j, 0 ≤ s.V k b j) → ∀ k b j, 0 ≤ s'.V k b j) ∧ ∀ j, (∀ f c, X f c j = 0) → ∀ k b, s'.V k b j = 0 := by
  obtain ⟨h1, h2, h3⟩ := stateAfter_of_step (P := fun s' : St N B n t K => (∀ k b β, (s'.T k b β).PosDef) ∧
    (normalization = true → N ≠ 0 → ∀ k b, ∑ β, (s'.T k b β).trace.re = 1) ∧ ∀ j, (∀ f c, X f c j = 0) → ∀ k b, s'.V k b j = 0)
    (fun s s' h => ⟨(gauss_facts hf h).1, (gauss_facts hf h).2.1, (gauss_facts hf h).2.2.2⟩) n_iter s s' hn h
  exact ⟨h1, h2, fun h0 => nonneg_run (fun s s' h => gauss_facts hf h) n_iter s s' h0 h, h3⟩

/-- C41 for `TIPSDTA`. -/
theorem C41_tIpsdta (np : Numpy ℂ) (normalization : Bool) (floor : ℝ → ℝ) (hf : ∀ x, 0 < floor x) (nu : ℝ) (X : Spec (Fin N) n t)
    (s s' : St N B n t K) (n_iter : ℕ) (hn : n_iter ≠ 0)
    (h : stateAfter (tUpdate np normalization floor nu X) n_iter s = .ok s') :
    (∀ k b β, (s'.T k b β).PosDef) ∧ (normalization = true → N ≠ 0 → ∀ k b, ∑ β, (s'.T k b β).trace.re = 1) ∧
      ((∀ k b j, 0 ≤ s.V k b j) → ∀ k b j, 0 ≤ s'.V k b j) ∧ ∀ j, (∀ f c, X f c j = 0) → ∀ k b, s'.V k b j = 0 := by
  obtain ⟨h1, h2, h3⟩ := stateAfter_of_step (P := fun s' : St N B n t K => (∀ k b β, (s'.T k b β).PosDef) ∧
    (normalization = true → N ≠ 0 → ∀ k b, ∑ β, (s'.T k b β).trace.re = 1) ∧ ∀ j, (∀ f c, X f c j = 0) → ∀ k b, s'.V k b j = 0)
    (fun s s' h => ⟨(t_facts hf h).1, (t_facts hf h).2.1, (t_facts hf h).2.2.2⟩) n_iter s s' hn h
  exact ⟨h1, h2, fun h0 => nonneg_run (fun s s' h => t_facts hf h) n_iter s s' h0 h, h3⟩

private theorem covInv_always {ι : Type} [Fintype ι] {sz : ι → ℕ} (np : Numpy ℂ) (T : Fin n → Fin K → (β : ι) → Mat (sz β) ℂ)
    (V : Fin n → Fin K → Fin t → ℝ) : ∃ R, covInv np T V = .ok R ∧ ∀ k j β, (R k j β).PosDef := by
  have h0 : ∀ x, 0 < floor0 x := fun x => by
    rw [floor0, Special.max_flooring]
    exact lt_max_of_lt_right (by norm_num)
  have hp : ∀ k j β, (cov np T V k j β).PosDef := fun k j β => EigFree.toPsd_posDef np h0 _
  exact ⟨fun k j β => (cov np T V k j β)⁻¹, onBins_ok fun k => onBins_ok fun j => onBlocks_ok fun β => by
    rw [npInv, if_pos (Tr.isUnit_det (hp k j β))], fun k j β => (hp k j β).inv⟩

/-- With blocks of one bin an iteration of `GaussIPSDTA` does not fail, whether or not some frames are silent. -/
theorem gauss_returns (np : Numpy ℂ) (hB : B ≠ 0) (h1 : ∀ (β : Blk N B) (i j : Fin (bsize N B β)), i = j) (normalization : Bool)
    {floor : ℝ → ℝ} (hf : ∀ x, 0 < floor x) {X : Spec (Fin N) n t} (hX : ∀ f, LinearIndependent ℂ (X f).row) (s : St N B n t K)
    (hW : ∀ f, IsUnit (s.W f).det) : ∃ s', gaussUpdate np normalization floor X s = .ok s' := by
  obtain ⟨R0, e0, -⟩ := covInv_always np s.T s.V
  obtain ⟨T, hT⟩ : ∃ T, basisGauss np floor (fun β i => separate X s.W (binOf N B β i)) s.T s.V = .ok T := by
    simp only [basisGauss, e0, bind, Except.bind]
    choose G hG using fun k b β => Linalg.C17_gmeanmh np (Mnmf.toPsd np floor (matP R0 s.V k b β))
      (Mnmf.toPsd np floor (s.T k b β * matQ R0 (fun _ _ => 1) (fun β i => separate X s.W (binOf N B β i)) s.V k b β * s.T k b β))
      (EigFree.toPsd_posDef np hf _) (EigFree.toPsd_posDef np hf _) 2 (Or.inr (Or.inl rfl))
    exact ⟨fun k b β => Mnmf.toPsd np floor (G k b β), onBins_ok fun k => onBins_ok fun b => onBlocks_ok fun β => by
      rw [(hG k b β).1]⟩
  obtain ⟨V, hV⟩ : ∃ V, activationMM np (fun _ _ => 1) (fun β i => separate X s.W (binOf N B β i)) T s.V = .ok V := by
    obtain ⟨R, e, -⟩ := covInv_always np T s.V
    simp only [activationMM, e, bind, Except.bind]
    exact ⟨_, rfl⟩
  obtain ⟨R, eR, hR⟩ := covInv_always np (if normalization then normalize T V else (T, V)).1
    (if normalization then normalize T V else (T, V)).2
  have hvcd : ∀ β : Blk N B, ∃ W', vcd (fun x => ‖x‖ < floor 0) (rxx (fun _ _ => 1) R (fun β i => X (binOf N B β i)) β)
      (fun i => s.W (binOf N B β i)) = .ok W' := by
    intro β
    have a1 := rxx_symm (fun _ _ => 1) (fun β i => X (binOf N B β i)) (fun k j β => (hR k j β).1) β
    have a2 := rxx_posDef (w := fun _ _ => 1) (fun _ _ => one_pos) (X := fun β i => X (binOf N B β i)) (fun β i => hX _) hR β
    obtain ⟨W', h, -⟩ := vcd_exact a1 a2 (fun i => hW (binOf N B β i))
      (vcdExact_uncoupled (hf 0) (fun i j k hij => absurd (h1 β i j) hij) fun i => s.W (binOf N B β i))
    exact ⟨W', h⟩
  choose W hWb using hvcd
  have e4 : spatialVcd floor (fun _ _ => 1) R (fun β i => X (binOf N B β i)) (fun β i => s.W (binOf N B β i)) = .ok W :=
    onBlocks_ok hWb
  simp only [gaussUpdate, splitBlocks_eq hB, hT, hV, eR, e4, bind, Except.bind]
  exact ⟨_, rfl⟩

/-- Two bins, two sources, three frames of which the last one is silent. -/
def xSilent : Spec (Fin 2) 2 3 := fun _ => !![1, 0, 0; 0, 1, 0]

theorem xSilent_indep (f : Fin 2) : LinearIndependent ℂ (xSilent f).row := by
  rw [Fintype.linearIndependent_iff]
  intro g hg
  have h0 := congrFun hg 0
  have h1 := congrFun hg 1
  simp [xSilent, Fin.sum_univ_two] at h0 h1
  intro i
  fin_cases i
  · exact h0
  · exact h1

/-- The activations of the silent frame are zero after one iteration, and the bases are positive definite. -/
example (np : Numpy ℂ) (s : St 2 2 2 3 4) (hW : ∀ f, IsUnit (s.W f).det) :
    ∃ s', stateAfter (gaussUpdate np true (Special.max_flooring (1 / 10 ^ 10)) xSilent) 1 s = .ok s' ∧
      (∀ k b β, (s'.T k b β).PosDef) ∧ (∀ k b, ∑ β, (s'.T k b β).trace.re = 1) ∧ ∀ k b, s'.V k b 2 = 0 := by
  have hf : ∀ x, 0 < Special.max_flooring (1 / 10 ^ 10) x := fun x => lt_max_of_lt_right (by norm_num)
  obtain ⟨s', h⟩ := gauss_returns np (by decide) (by decide) true hf xSilent_indep s hW
  have e : stateAfter (gaussUpdate np true (Special.max_flooring (1 / 10 ^ 10)) xSilent) 1 s = .ok s' := by
    rw [stateAfter, h]
    rfl
  have := C41_gaussIpsdta np true _ hf xSilent s s' 1 one_ne_zero e
  exact ⟨s', e, this.1, this.2.1 rfl (by decide), this.2.2.2 2 fun f c => by fin_cases c <;> simp [xSilent]⟩

end Verif.Ipsdta
