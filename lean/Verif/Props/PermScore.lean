import Mathlib.Algebra.BigOperators.Field
import Verif.Props.Permutation

/-! # C81: what the score-based permutation solver optimises

The solver standardises every sequence over time, aligns every bin with the mean over all bins (global steps) and then
bin after bin with neighbouring and harmonic bins (local steps). -/

namespace Verif.Permutation

variable {B S T : ℕ} {α : Type}

/-- Average over the frames. -/
noncomputable def avg (x : Fin T → ℝ) : ℝ := (∑ k, x k) / T

/-- Standard deviation over the frames. -/
noncomputable def stddev (x : Fin T → ℝ) : ℝ := Real.sqrt (avg fun k => (x k - avg x) ^ 2)

/-- The sequence shifted and scaled to average 0 and standard deviation 1. -/
noncomputable def zscore (x : Fin T → ℝ) : Fin T → ℝ := fun k => (x k - avg x) / stddev x

/-- How well the sources `x (σ 0), x (σ 1), ...` match the references `ref 0, ref 1, ...`: correlation with the own
reference minus correlations with all others, divided by the spread `s` of the own reference. -/
noncomputable def fit (floor : ℝ → ℝ) (s : Fin S → ℝ) (ref x : Fin S → Fin T → ℝ) (σ : Equiv.Perm (Fin S)) : ℝ :=
  ∑ i, ((avg fun k => x (σ i) k * ref i k) - ∑ j ∈ Finset.univ.erase i, avg fun k => x (σ i) k * ref j k) / floor (s i)

/-- Mean over all bins of the standardised sequences. -/
noncomputable def centre (x : Fin B → Fin S → Fin T → ℝ) : Fin S → Fin T → ℝ :=
  fun i k => (∑ b, zscore (x b i) k) / B

/-- One global step: every bin is reordered so that it fits the mean over the bins best; a bin whose order is already
best is left alone. -/
def GlobalAligned (val : α → Fin T → ℝ) (floor : ℝ → ℝ) (x x' : Fin B → Fin S → α) : Prop :=
  let c := centre fun b i => val (x b i)
  let score := fun b => fit floor (fun i => stddev (c i)) c fun i => zscore (val (x b i))
  ∃ σ : Fin B → Equiv.Perm (Fin S), (∀ b i, x' b i = x b (σ b i)) ∧
    ∀ b, (∀ τ, score b τ ≤ score b (σ b)) ∧ ((∀ τ, score b τ ≤ score b 1) → σ b = 1)

/-- The bins that bin `b` is compared with: up to three bins away, around half and around twice the frequency. -/
def Near (b c : Fin B) : Prop :=
  (c ≠ b ∧ |(c : ℤ) - b| ≤ 3) ∨ |(c : ℤ) - (b : ℤ) / 2| ≤ 1 ∨ |(c : ℤ) - 2 * b| ≤ 1

open Classical in
/-- One local step: bin `b` is reordered so that it fits the bins it is compared with best; nothing else changes. -/
def LocalAligned (val : α → Fin T → ℝ) (floor : ℝ → ℝ) (s : Fin S → ℝ) (b : Fin B) (x x' : Fin B → Fin S → α) : Prop :=
  let z := fun b i => zscore (val (x b i))
  let score := fun τ => ∑ c with Near b c, fit floor s (z c) (z b) τ
  ∃ σ : Equiv.Perm (Fin S), (∀ i, x' b i = x b (σ i)) ∧ (∀ c, c ≠ b → x' c = x c) ∧
    (∀ τ, score τ ≤ score σ) ∧ ((∀ τ, score τ ≤ score 1) → σ = 1)

/-- One sweep of local steps, bin after bin. -/
def LocalSweep (val : α → Fin T → ℝ) (floor : ℝ → ℝ) (s : Fin S → ℝ) (x x' : Fin B → Fin S → α) : Prop :=
  ∃ v : ℕ → Fin B → Fin S → α, v 0 = x ∧ v B = x' ∧ ∀ b : Fin B, LocalAligned val floor s b (v b) (v (b + 1))

/-! ## The model's pieces -/

theorem standardise_eq (x : Fin T → ℝ) : standardise x = zscore x := rfl

theorem alignScore_eq (floor : ℝ → ℝ) (s : Fin S → ℝ) (c x : Fin S → Fin T → ℝ) {p : List (Fin S)}
    {σ : Equiv.Perm (Fin S)} (h : take x p = x ∘ σ) : alignScore floor s c x p = fit floor s c x σ := by
  simp only [alignScore, fit, h]
  refine Finset.sum_congr rfl fun i _ => ?_
  rw [← Finset.add_sum_erase _ _ (Finset.mem_univ i), sub_div, Finset.sum_div,
    sub_eq_add_neg (_ / _) (∑ _ ∈ _, _), ← Finset.sum_neg_distrib]
  congr 1
  · simp only [if_true, Function.comp]
    simp [mean, avg]
  · refine Finset.sum_congr rfl fun j hj => ?_
    rw [if_neg (Finset.ne_of_mem_erase hj).symm]
    simp [mean, avg, Function.comp]

open Classical in
theorem covariant_sum (b : Fin B) (g : Fin B → ℝ) : ((covariant B b).map g).sum = ∑ c with Near b c, g c := by
  rw [covariant, ← List.sum_toFinset _ ((List.nodup_finRange B).filter _)]
  refine Finset.sum_congr ?_ fun _ _ => rfl
  ext c
  simp only [List.mem_toFinset, List.mem_filter, List.mem_finRange, true_and, decide_eq_true_eq, Finset.mem_filter,
    Finset.mem_univ, Near, abs_le]
  constructor
  · rintro (⟨h1, h2, h3⟩ | ⟨h1, h2⟩ | ⟨h1, h2⟩)
    · exact Or.inl ⟨h3, by omega, by omega⟩
    · exact Or.inr (Or.inl ⟨by omega, by omega⟩)
    · exact Or.inr (Or.inr ⟨by omega, by omega⟩)
  · rintro (⟨h3, h1, h2⟩ | ⟨h1, h2⟩ | ⟨h1, h2⟩)
    · exact Or.inl ⟨by omega, by omega, h3⟩
    · exact Or.inr (Or.inl ⟨by omega, by omega⟩)
    · exact Or.inr (Or.inr ⟨by omega, by omega⟩)

/-- The search over the list of permutations, in terms of permutations. -/
theorem best_of_search {score : List (Fin S) → ℝ} {sc : Equiv.Perm (Fin S) → ℝ} {γ : Type} (x : Fin S → γ)
    (hsc : ∀ (p : List (Fin S)) (σ : Equiv.Perm (Fin S)), take x p = x ∘ σ → score p = sc σ)
    {σ : Equiv.Perm (Fin S)}
    (hσ : ∀ {δ : Type} (y : Fin S → δ), take y ((firstMax score (permutations S)).getD []) = y ∘ σ) :
    (∀ τ, sc τ ≤ sc σ) ∧ ((∀ τ, sc τ ≤ sc 1) → σ = 1) := by
  obtain ⟨p, ρ, h1, h2, h3, h4⟩ := search score
  have e : σ = ρ := by
    have a := hσ (fun i : Fin S => i)
    rw [h1, Option.getD_some, h2] at a
    exact Equiv.ext fun i => (congrFun a i).symm
  subst e
  have key : ∀ {M : Equiv.Perm (Fin S)} {q : List (Fin S)}, take x q = x ∘ M →
      (∀ q' ∈ permutations S, score q' ≤ score q) → ∀ τ, sc τ ≤ sc M := by
    intro M q hq hb τ
    obtain ⟨q', hq', e'⟩ := exists_list τ
    rw [← hsc q' τ (e' x), ← hsc q M hq]
    exact hb q' hq'
  refine ⟨key (h2 x) h3, fun h => h4 fun q hq => ?_⟩
  obtain ⟨τ, hτ⟩ := exists_equiv hq
  rw [hsc q τ (hτ x), hsc (List.finRange S) 1 (by rw [take_id]; rfl)]
  exact h τ

/-- Where the current sequence lives. -/
def ScoreState.cur (s : ScoreState B S T α) : Fin B → Fin S → α := s.st.mem s.seq

/-- The state between steps: only reorderings have happened, and the standardised sequences belong to the current
ones. -/
def JInv (val : α → Fin T → ℝ) (m : ℕ → Arr B S α) (n₀ seq₀ : ℕ) (ps : List ℕ) (s : ScoreState B S T α) : Prop :=
  (∃ σ, SInv m n₀ seq₀ ps σ s) ∧ s.norm = fun b i => zscore (val (s.cur b i))

theorem global_aligned (val : α → Fin T → ℝ) (floor : ℝ → ℝ) {m : ℕ → Arr B S α} {n₀ seq₀ : ℕ} {ps : List ℕ}
    {s : ScoreState B S T α} (hnd : ps.Nodup) (hps : ∀ r ∈ ps, r < n₀) (h : JInv val m n₀ seq₀ ps s) :
    JInv val m n₀ seq₀ ps (globalStep floor ps s) ∧ GlobalAligned val floor s.cur (globalStep floor ps s).cur ∧
      (globalStep floor ps s).centroidStd = some fun i => stddev (centre (fun b i => val (s.cur b i)) i) := by
  obtain ⟨⟨σ, hS⟩, hn⟩ := h
  obtain ⟨ρ, hρ⟩ := exists_globalPerm floor s.norm
  have hS' := global_inv_of floor hnd hps hS ρ fun b x => hρ b x
  have hcur : ∀ b, (globalStep floor ps s).cur b = s.cur b ∘ ρ b := fun b => by
    rw [ScoreState.cur, ScoreState.cur, hS'.seq, hS.seq]
    rfl
  have hc : (fun i k => (∑ b, s.norm b i k) / (B : ℝ)) = centre fun b i => val (s.cur b i) := by
    rw [hn]
    rfl
  refine ⟨⟨⟨_, hS'⟩, ?_⟩, ⟨ρ, fun b i => congrFun (hcur b) i, fun b => ?_⟩, ?_⟩
  · funext b i
    rw [hcur]
    change take (s.norm b) (globalPerm floor s.norm b) i = _
    rw [hρ, hn]
    rfl
  · refine best_of_search (s.norm b) (fun p σ hp => ?_) fun y => hρ b y
    rw [alignScore_eq floor _ _ _ hp, hc]
    have : (fun i => std fun k => (∑ b, s.norm b i k) / (B : ℝ)) = fun i => stddev (centre (fun b i => val (s.cur b i)) i) := by
      rw [← hc]
      rfl
    rw [this, hn]
  · change some _ = some _
    rw [← hc]
    rfl

theorem local_aligned (val : α → Fin T → ℝ) (floor : ℝ → ℝ) {m : ℕ → Arr B S α} {n₀ seq₀ : ℕ} {ps : List ℕ}
    {s : ScoreState B S T α} (hnd : ps.Nodup) (hps : ∀ r ∈ ps, r < n₀) {cstd : Fin S → ℝ} (b : Fin B)
    (h : JInv val m n₀ seq₀ ps s ∧ s.centroidStd = some cstd) :
    ∃ s', localStep floor ps b s = .ok s' ∧ (JInv val m n₀ seq₀ ps s' ∧ s'.centroidStd = some cstd) ∧
      LocalAligned val floor cstd b s.cur s'.cur := by
  obtain ⟨⟨⟨σ, hS⟩, hn⟩, hcs⟩ := h
  obtain ⟨ρ, hρ⟩ := exists_localPerm floor cstd s.norm b
  obtain ⟨s', e, hS', hcs', hn'⟩ := local_inv_of floor hnd hps hS hcs b ρ fun x => hρ x
  have hb : s'.cur b = s.cur b ∘ ρ := by
    rw [ScoreState.cur, ScoreState.cur, hS'.seq, hS.seq, Function.update_self]
    rfl
  have ho : ∀ c, c ≠ b → s'.cur c = s.cur c := fun c hc => by
    rw [ScoreState.cur, ScoreState.cur, hS'.seq, hS.seq, Function.update_of_ne hc]
  refine ⟨s', e, ⟨⟨⟨_, hS'⟩, ?_⟩, hcs'⟩, ρ, fun i => congrFun hb i, ho, ?_⟩
  · rw [hn']
    funext c i
    by_cases hc : c = b
    · subst hc
      rw [Function.update_self, hρ, hb, hn]
      rfl
    · rw [Function.update_of_ne hc, ho c hc, hn]
  · refine best_of_search (s.norm b) (fun p σ hp => ?_) fun y => hρ y
    rw [covariant_sum]
    refine Finset.sum_congr rfl fun c _ => ?_
    rw [alignScore_eq floor _ _ _ hp, hn]

theorem foldlM_trace {σ' τ β : Type} (f : σ' → β → Except PyErr σ') (g : σ' → τ) (I : σ' → Prop) (R : β → τ → τ → Prop)
    (hf : ∀ s b, I s → ∃ s', f s b = .ok s' ∧ I s' ∧ R b (g s) (g s')) (l : List β) (s : σ') (hs : I s) :
    ∃ s', l.foldlM f s = .ok s' ∧ I s' ∧ ∃ v : ℕ → τ, v 0 = g s ∧ v l.length = g s' ∧
      ∀ i (h : i < l.length), R l[i] (v i) (v (i + 1)) := by
  induction l generalizing s with
  | nil => exact ⟨s, rfl, hs, fun _ => g s, rfl, rfl, fun i h => absurd h (by simp)⟩
  | cons b l ih =>
    obtain ⟨s', h1, h2, hR⟩ := hf s b hs
    obtain ⟨s'', h3, h4, v, hv0, hv1, hv⟩ := ih s' h2
    refine ⟨s'', by rw [List.foldlM_cons, h1]; exact h3, h4, fun i => if i = 0 then g s else v (i - 1), rfl, ?_, ?_⟩
    · simpa using hv1
    · intro i h
      cases i with
      | zero => simpa [hv0] using hR
      | succ i => simpa using hv i (by simpa using h)

theorem repeatM_trace {σ' τ : Type} (f : σ' → Except PyErr σ') (g : σ' → τ) (I : σ' → Prop) (R : τ → τ → Prop)
    (hf : ∀ s, I s → ∃ s', f s = .ok s' ∧ I s' ∧ R (g s) (g s')) (n : ℕ) (s : σ') (hs : I s) :
    ∃ s', repeatM f n s = .ok s' ∧ I s' ∧ ∃ w : ℕ → τ, w 0 = g s ∧ w n = g s' ∧ ∀ i < n, R (w i) (w (i + 1)) := by
  induction n generalizing s with
  | zero => exact ⟨s, rfl, hs, fun _ => g s, rfl, rfl, fun i h => absurd h (by simp)⟩
  | succ n ih =>
    obtain ⟨s', h1, h2, hR⟩ := hf s hs
    obtain ⟨s'', h3, h4, v, hv0, hv1, hv⟩ := ih s' h2
    refine ⟨s'', by simp only [repeatM, h1, bind, Except.bind]; exact h3, h4, fun i => if i = 0 then g s else v (i - 1),
      rfl, ?_, ?_⟩
    · simpa using hv1
    · intro i h
      cases i with
      | zero => simpa [hv0] using hR
      | succ i => simpa using hv i (by omega)

/-- C81: a call of the score-based solver is a run of global steps followed by sweeps of local steps. Every global step
orders every bin so that it fits the mean over all bins best; every local step orders one bin so that it fits its
neighbouring and harmonic bins, as they are at that moment, best. In the local steps the correlations are divided by
the spread of the mean sequences before the last global step. -/
theorem C81_steps (val : α → Fin T → ℝ) (floor : ℝ → ℝ) (globalIter localIter : ℤ) (overwrite : Bool) (seq : ℕ)
    (args : List ℕ) (st : Store B S α) (hv : ValidCall overwrite seq args st) (hit : 1 ≤ globalIter ∨ localIter ≤ 0)
    (Y : ℕ) (ps : List ℕ) (st' : Store B S α)
    (h : scoreSolver val floor globalIter localIter false overwrite seq args st = .ok (Y, ps, st')) :
    ∃ y w : ℕ → Fin B → Fin S → α, y 0 = st.mem seq ∧
      (∀ i < globalIter.toNat, GlobalAligned val floor (y i) (y (i + 1))) ∧ w 0 = y globalIter.toNat ∧
      (∀ i < localIter.toNat, LocalSweep val floor
        (fun k => stddev (centre (fun b i => val (y (globalIter.toNat - 1) b i)) k)) (w i) (w (i + 1))) ∧
      st'.mem Y = w localIter.toNat := by
  obtain ⟨Y₀, ps₀, st₁, hp, hnd, hlt, hF, ht, hf⟩ := prepare_spec hv
  rw [List.nodup_cons] at hnd
  have hps : ∀ r ∈ ps₀, r < st₁.next := fun r hr => hlt r (by simp [hr])
  obtain ⟨s₀, hs₀⟩ : ∃ s₀ : ScoreState B S T α, s₀ = ⟨fun b i => standardise (val (st₁.mem Y₀ b i)), Y₀, none, st₁⟩ :=
    ⟨_, rfl⟩
  have h₀ : JInv val st₁.mem st₁.next Y₀ ps₀ s₀ := by
    subst hs₀
    exact ⟨⟨fun _ => 1, fun _ _ _ => rfl, fun _ => rfl, fun _ _ _ => rfl, le_rfl, hlt Y₀ (by simp), fun _ => ⟨rfl, rfl⟩,
      fun h => absurd rfl h⟩, rfl⟩
  have hJ : ∀ i, JInv val st₁.mem st₁.next Y₀ ps₀ ((globalStep floor ps₀)^[i] s₀) := by
    intro i
    induction i with
    | zero => exact h₀
    | succ i ih =>
      rw [Function.iterate_succ_apply']
      exact (global_aligned val floor hnd.2 hps ih).1
  have h0 : s₀.cur = st.mem seq := by
    rw [List.forall₂_cons] at hF
    rw [← hF.1, hs₀]
    rfl
  have run : ∃ s₂, repeatM (fun s => (List.finRange B).foldlM (fun s b => localStep floor ps₀ b s) s) localIter.toNat
      ((globalStep floor ps₀)^[globalIter.toNat] s₀) = .ok s₂ ∧
      ∃ w : ℕ → Fin B → Fin S → α, w 0 = ((globalStep floor ps₀)^[globalIter.toNat] s₀).cur ∧
        w localIter.toNat = s₂.cur ∧ ∀ i < localIter.toNat, LocalSweep val floor
          (fun k => stddev (centre (fun b i => val (((globalStep floor ps₀)^[globalIter.toNat - 1] s₀).cur b i)) k))
          (w i) (w (i + 1)) := by
    rcases hit with hit | hit
    · obtain ⟨g, hg⟩ : ∃ g, globalIter.toNat = g + 1 := ⟨globalIter.toNat - 1, by omega⟩
      rw [hg, Nat.add_sub_cancel]
      have hcs := (global_aligned val floor hnd.2 hps (hJ g)).2.2
      rw [← Function.iterate_succ_apply' (globalStep floor ps₀)] at hcs
      obtain ⟨s₂, e, -, w, hw⟩ := repeatM_trace (fun s => (List.finRange B).foldlM (fun s b => localStep floor ps₀ b s) s)
        ScoreState.cur (fun s => JInv val st₁.mem st₁.next Y₀ ps₀ s ∧ s.centroidStd = some fun i =>
          stddev (centre (fun b i => val (((globalStep floor ps₀)^[g] s₀).cur b i)) i))
        (LocalSweep val floor fun k =>
          stddev (centre (fun b i => val (((globalStep floor ps₀)^[g] s₀).cur b i)) k))
        (fun s hs => by
          obtain ⟨s', e, hI, v, hv0, hv1, hv⟩ := foldlM_trace (fun s b => localStep floor ps₀ b s) ScoreState.cur _
            (LocalAligned val floor fun k => stddev (centre (fun b i => val (((globalStep floor ps₀)^[g] s₀).cur b i)) k))
            (fun s b hs => local_aligned val floor hnd.2 hps b hs) (List.finRange B) s hs
          refine ⟨s', e, hI, v, hv0, by simpa using hv1, fun b => ?_⟩
          have := hv b (by simp)
          simpa using this)
        localIter.toNat _ ⟨hJ (g + 1), hcs⟩
      exact ⟨s₂, e, w, hw⟩
    · rw [Int.toNat_eq_zero.mpr hit]
      exact ⟨_, rfl, fun _ => ((globalStep floor ps₀)^[globalIter.toNat] s₀).cur, rfl, rfl, fun i hi => absurd hi (by simp)⟩
  obtain ⟨s₂, e₂, w, hw0, hw1, hw⟩ := run
  have hres : st'.mem Y = s₂.cur := by
    simp only [scoreSolver, hp, bind, Except.bind] at h
    rw [← hs₀, e₂] at h
    have := Except.ok.inj h
    simp only [Prod.mk.injEq] at this
    rw [← this.1, ← this.2.2]
    rfl
  refine ⟨fun i => ((globalStep floor ps₀)^[i] s₀).cur, w, h0, fun i _ => ?_, hw0, hw, by rw [hres, hw1]⟩
  simp only [Function.iterate_succ_apply']
  exact (global_aligned val floor hnd.2 hps (hJ i)).2.1

/-! ## Level and offset -/

theorem zscore_affine {x y : Fin T → ℝ} {a o : ℝ} (ha : 0 < a) (h : ∀ k, y k = a * x k + o) : zscore y = zscore x := by
  funext k
  have hT : (T : ℝ) ≠ 0 := by
    have := k.pos
    positivity
  have hm : avg y = a * avg x + o := by
    simp only [avg, h, Finset.sum_add_distrib, ← Finset.mul_sum, Finset.sum_const, Finset.card_univ, Fintype.card_fin,
      nsmul_eq_mul]
    field_simp
  have hs : stddev y = a * stddev x := by
    rw [stddev, stddev, ← Real.sqrt_sq ha.le, ← Real.sqrt_mul (sq_nonneg a)]
    congr 1
    simp only [avg, ← mul_div_assoc, Finset.mul_sum]
    congr 1
    refine Finset.sum_congr rfl fun k _ => ?_
    change (y k - avg y) ^ 2 = a ^ 2 * (x k - avg x) ^ 2
    rw [h, hm]
    ring
  rw [zscore, zscore, hm, hs, h]
  rw [show a * x k + o - (a * avg x + o) = a * (x k - avg x) by ring, mul_div_mul_left _ _ ha.ne']

/-- Two runs in step: the same standardised sequences, the same reorderings so far. -/
def Twin {β : Type} (m : ℕ → Arr B S α) (m' : ℕ → Arr B S β) (n₀ n₀' seq₀ seq₀' : ℕ) (ps ps' : List ℕ)
    (s : ScoreState B S T α) (s' : ScoreState B S T β) : Prop :=
  s'.norm = s.norm ∧ s'.centroidStd = s.centroidStd ∧ ∃ σ, SInv m n₀ seq₀ ps σ s ∧ SInv m' n₀' seq₀' ps' σ s'

section twin

variable {β : Type} {m : ℕ → Arr B S α} {m' : ℕ → Arr B S β} {n₀ n₀' seq₀ seq₀' : ℕ} {ps ps' : List ℕ}

theorem Twin.global (floor : ℝ → ℝ) (hnd : ps.Nodup) (hps : ∀ r ∈ ps, r < n₀) (hnd' : ps'.Nodup)
    (hps' : ∀ r ∈ ps', r < n₀') {s : ScoreState B S T α} {s' : ScoreState B S T β}
    (h : Twin m m' n₀ n₀' seq₀ seq₀' ps ps' s s') :
    Twin m m' n₀ n₀' seq₀ seq₀' ps ps' (globalStep floor ps s) (globalStep floor ps' s') := by
  obtain ⟨hn, hc, σ, h1, h2⟩ := h
  obtain ⟨ρ, hρ⟩ := exists_globalPerm floor s.norm
  refine ⟨?_, ?_, _, global_inv_of floor hnd hps h1 ρ fun b x => hρ b x,
    global_inv_of floor hnd' hps' h2 ρ fun b x => by rw [hn]; exact hρ b x⟩
  · simp only [globalStep, hn]
  · simp only [globalStep, hn]

theorem Twin.local (floor : ℝ → ℝ) (hnd : ps.Nodup) (hps : ∀ r ∈ ps, r < n₀) (hnd' : ps'.Nodup)
    (hps' : ∀ r ∈ ps', r < n₀') {s : ScoreState B S T α} {s' : ScoreState B S T β}
    (h : Twin m m' n₀ n₀' seq₀ seq₀' ps ps' s s') (b : Fin B) (s₁ : ScoreState B S T α)
    (e : localStep floor ps b s = .ok s₁) :
    ∃ s₁', localStep floor ps' b s' = .ok s₁' ∧ Twin m m' n₀ n₀' seq₀ seq₀' ps ps' s₁ s₁' := by
  obtain ⟨hn, hc, σ, h1, h2⟩ := h
  cases hcs : s.centroidStd with
  | none => simp [localStep, hcs] at e
  | some cstd =>
    rw [hcs] at hc
    obtain ⟨ρ, hρ⟩ := exists_localPerm floor cstd s.norm b
    obtain ⟨t, e1, i1, c1, n1⟩ := local_inv_of floor hnd hps h1 hcs b ρ fun x => hρ x
    obtain ⟨t', e2, i2, c2, n2⟩ := local_inv_of floor hnd' hps' h2 hc b ρ fun x => by rw [hn]; exact hρ x
    rw [e] at e1
    obtain rfl := Except.ok.inj e1
    exact ⟨t', e2, by rw [n2, n1, hn], by rw [c2, c1], _, i1, i2⟩

theorem foldlM_twin {σ' τ' γ : Type} (f : σ' → γ → Except PyErr σ') (f' : τ' → γ → Except PyErr τ')
    (R : σ' → τ' → Prop) (hf : ∀ s t b s₁, R s t → f s b = .ok s₁ → ∃ t₁, f' t b = .ok t₁ ∧ R s₁ t₁) (l : List γ)
    (s : σ') (t : τ') (h : R s t) (s₁ : σ') (e : l.foldlM f s = .ok s₁) : ∃ t₁, l.foldlM f' t = .ok t₁ ∧ R s₁ t₁ := by
  induction l generalizing s t with
  | nil =>
    obtain rfl := Except.ok.inj e
    exact ⟨t, rfl, h⟩
  | cons b l ih =>
    rw [List.foldlM_cons] at e
    cases h1 : f s b with
    | error x => rw [h1] at e; simp [bind, Except.bind] at e
    | ok s₂ =>
      rw [h1] at e
      obtain ⟨t₂, h2, h3⟩ := hf s t b s₂ h h1
      obtain ⟨t₁, h4, h5⟩ := ih s₂ t₂ h3 e
      exact ⟨t₁, by rw [List.foldlM_cons, h2]; exact h4, h5⟩

theorem repeatM_twin {σ' τ' : Type} (f : σ' → Except PyErr σ') (f' : τ' → Except PyErr τ')
    (R : σ' → τ' → Prop) (hf : ∀ s t s₁, R s t → f s = .ok s₁ → ∃ t₁, f' t = .ok t₁ ∧ R s₁ t₁) (n : ℕ)
    (s : σ') (t : τ') (h : R s t) (s₁ : σ') (e : repeatM f n s = .ok s₁) : ∃ t₁, repeatM f' n t = .ok t₁ ∧ R s₁ t₁ := by
  induction n generalizing s t with
  | zero =>
    obtain rfl := Except.ok.inj e
    exact ⟨t, rfl, h⟩
  | succ n ih =>
    cases h1 : f s with
    | error x => simp [repeatM, h1, bind, Except.bind] at e
    | ok s₂ =>
      simp only [repeatM, h1, bind, Except.bind] at e
      obtain ⟨t₂, h2, h3⟩ := hf s t s₂ h h1
      obtain ⟨t₁, h4, h5⟩ := ih s₂ t₂ h3 e
      exact ⟨t₁, by simp only [repeatM, h2, bind, Except.bind]; exact h4, h5⟩

end twin

/-- C81: the reordering does not depend on the levels of the sequences: multiplying every source in every bin by its own
positive factor and adding its own offset leads to the same permutations, of the sequence and of all extra arguments
(which may be of another kind). -/
theorem C81_level_invariant {β : Type} (val : α → Fin T → ℝ) (val' : β → Fin T → ℝ) (floor : ℝ → ℝ)
    (globalIter localIter : ℤ) (overwrite overwrite' : Bool) (seq seq' : ℕ) (args args' : List ℕ) (st : Store B S α)
    (st' : Store B S β) (hv : ValidCall overwrite seq args st) (hv' : ValidCall overwrite' seq' args' st')
    (hlevel : ∀ b i, ∃ a o : ℝ, 0 < a ∧ ∀ k, val' (st'.mem seq' b i) k = a * val (st.mem seq b i) k + o)
    (hit : 1 ≤ globalIter ∨ localIter ≤ 0) :
    ∃ (Y Y' : ℕ) (ps ps' : List ℕ) (r : Store B S α) (r' : Store B S β) (σ : Fin B → Equiv.Perm (Fin S)),
      scoreSolver val floor globalIter localIter false overwrite seq args st = .ok (Y, ps, r) ∧
      scoreSolver val' floor globalIter localIter false overwrite' seq' args' st' = .ok (Y', ps', r') ∧
      List.Forall₂ (fun a p => ∀ b i, r.mem p b i = st.mem a b (σ b i)) (seq :: args) (Y :: ps) ∧
      List.Forall₂ (fun a p => ∀ b i, r'.mem p b i = st'.mem a b (σ b i)) (seq' :: args') (Y' :: ps') := by
  obtain ⟨Y, ps, st₁, hp, hnd, hlt, hF, -, -⟩ := prepare_spec hv
  obtain ⟨Y', ps', st₁', hp', hnd', hlt', hF', -, -⟩ := prepare_spec hv'
  rw [List.nodup_cons] at hnd hnd'
  have hps : ∀ r ∈ ps, r < st₁.next := fun r hr => hlt r (by simp [hr])
  have hps' : ∀ r ∈ ps', r < st₁'.next := fun r hr => hlt' r (by simp [hr])
  obtain ⟨s₀, hs₀⟩ : ∃ s₀ : ScoreState B S T α, s₀ = ⟨fun b i => standardise (val (st₁.mem Y b i)), Y, none, st₁⟩ :=
    ⟨_, rfl⟩
  obtain ⟨s₀', hs₀'⟩ : ∃ s₀' : ScoreState B S T β,
    s₀' = ⟨fun b i => standardise (val' (st₁'.mem Y' b i)), Y', none, st₁'⟩ := ⟨_, rfl⟩
  have hY := (List.forall₂_cons.mp hF).1
  have hY' := (List.forall₂_cons.mp hF').1
  have tw0 : Twin st₁.mem st₁'.mem st₁.next st₁'.next Y Y' ps ps' s₀ s₀' := by
    subst hs₀ hs₀'
    refine ⟨?_, rfl, fun _ => 1, ⟨fun _ _ _ => rfl, fun _ => rfl, fun _ _ _ => rfl, le_rfl, hlt Y (by simp),
      fun _ => ⟨rfl, rfl⟩, fun h => absurd rfl h⟩, ⟨fun _ _ _ => rfl, fun _ => rfl, fun _ _ _ => rfl, le_rfl,
      hlt' Y' (by simp), fun _ => ⟨rfl, rfl⟩, fun h => absurd rfl h⟩⟩
    funext b i
    obtain ⟨a, o, ha, e⟩ := hlevel b i
    simp only [standardise_eq, hY, hY']
    exact zscore_affine ha e
  have tw1 : ∀ n, Twin st₁.mem st₁'.mem st₁.next st₁'.next Y Y' ps ps' ((globalStep floor ps)^[n] s₀)
      ((globalStep floor ps')^[n] s₀') := by
    intro n
    induction n with
    | zero => exact tw0
    | succ n ih =>
      rw [Function.iterate_succ_apply', Function.iterate_succ_apply']
      exact ih.global floor hnd.2 hps hnd'.2 hps'
  obtain ⟨Yr, pr, r, hr, -⟩ := C27_score val floor globalIter localIter overwrite seq args st hv hit
  have hr' := hr
  simp only [scoreSolver, hp, bind, Except.bind] at hr'
  rw [← hs₀] at hr'
  cases e₂ : repeatM (fun s => (List.finRange B).foldlM (fun s b => localStep floor ps b s) s) localIter.toNat
      ((globalStep floor ps)^[globalIter.toNat] s₀) with
  | error x => rw [e₂] at hr'; simp at hr'
  | ok s₂ =>
    obtain ⟨s₂', e₂', -, -, σ, i1, i2⟩ := repeatM_twin _
      (fun s => (List.finRange B).foldlM (fun s b => localStep floor ps' b s) s) _
      (fun s t s₁ h e => foldlM_twin _ _ _ (fun s t b s₁ h e => h.local floor hnd.2 hps hnd'.2 hps' b s₁ e) _ s t h s₁ e)
      _ _ _ (tw1 globalIter.toNat) s₂ e₂
    have fin : ∀ {γ : Type} (st st₁ rr : Store B S γ) (q : ℕ) (l l' : List ℕ), (∀ r ∈ l', ∀ b, rr.mem r b = st₁.mem r b ∘ σ b) →
        List.Forall₂ (fun a p => st₁.mem p = st.mem a) l l' →
        List.Forall₂ (fun a p => ∀ b i, rr.mem p b i = st.mem a b (σ b i)) l l' := by
      intro γ st st₁ rr q l l' hl hF
      induction hF with
      | nil => exact .nil
      | cons h _ ih =>
        refine .cons (fun b i => ?_) (ih fun r hr => hl r (by simp [hr]))
        rw [hl _ (by simp), h]
        rfl
    refine ⟨s₂.seq, s₂'.seq, ps, ps', s₂.st, s₂'.st, σ, ?_, ?_, ?_, ?_⟩
    · simp only [scoreSolver, hp, bind, Except.bind]
      rw [← hs₀, e₂]
      rfl
    · simp only [scoreSolver, hp', bind, Except.bind]
      rw [← hs₀', e₂']
      rfl
    · refine .cons (fun b i => ?_) (fin st st₁ s₂.st 0 args ps i1.args (List.forall₂_cons.mp hF).2)
      rw [i1.seq, hY]
      rfl
    · refine .cons (fun b i => ?_) (fin st' st₁' s₂'.st 0 args' ps' i2.args (List.forall₂_cons.mp hF').2)
      rw [i2.seq, hY']
      rfl

/-! ## What the scores mean -/

/-- If the spreads of all references are the same, ordering by `fit` is ordering by the sum of the correlations with the
own references. -/
theorem fit_equal_spread (floor : ℝ → ℝ) {s : Fin S → ℝ} {d : ℝ} (hs : ∀ i, floor (s i) = d)
    (ref x : Fin S → Fin T → ℝ) (σ : Equiv.Perm (Fin S)) :
    fit floor s ref x σ = (2 * ∑ i, (avg fun k => x (σ i) k * ref i k) - ∑ i, ∑ j, avg fun k => x i k * ref j k) / d := by
  simp only [fit, hs, ← Finset.sum_div]
  congr 1
  rw [← Equiv.sum_comp σ (fun i => ∑ j, avg fun k => x i k * ref j k), Finset.mul_sum, ← Finset.sum_sub_distrib]
  refine Finset.sum_congr rfl fun i _ => ?_
  rw [← Finset.add_sum_erase _ (fun j => avg fun k => x (σ i) k * ref j k) (Finset.mem_univ i)]
  ring

/-- C81: if the mean sequences of all sources have the same spread, one global step gives every bin the order with the
largest sum of correlations with the mean sequences. -/
theorem C81_equal_spread (val : α → Fin T → ℝ) (floor : ℝ → ℝ) (overwrite : Bool) (seq : ℕ)
    (args : List ℕ) (st : Store B S α) (hv : ValidCall overwrite seq args st) (Y : ℕ) (ps : List ℕ) (st' : Store B S α)
    (h : scoreSolver val floor 1 0 false overwrite seq args st = .ok (Y, ps, st')) (d : ℝ) (hd : 0 < d)
    (hs : ∀ i, floor (stddev (centre (fun b i => val (st.mem seq b i)) i)) = d) (b : Fin B) (τ : Equiv.Perm (Fin S)) :
    ∑ i, (avg fun k => zscore (val (st'.mem Y b (τ i))) k * centre (fun b i => val (st.mem seq b i)) i k)
      ≤ ∑ i, avg fun k => zscore (val (st'.mem Y b i)) k * centre (fun b i => val (st.mem seq b i)) i k := by
  obtain ⟨y, w, h0, h1, h2, -, h4⟩ := C81_steps val floor 1 0 overwrite seq args st hv (Or.inl le_rfl) Y ps st' h
  obtain ⟨σ, e, hb⟩ := h1 0 (by decide)
  have hY : st'.mem Y = y 1 := by rw [h4]; exact h2
  rw [h0] at e hb
  have := (hb b).1 (τ.trans (σ b))
  simp only at this
  rw [fit_equal_spread floor hs, fit_equal_spread floor hs, div_le_div_iff_of_pos_right hd] at this
  rw [hY]
  simp only [zero_add] at e
  simp only [e]
  simp only [Equiv.trans_apply] at this
  linarith

theorem swapped_spread (i : Fin 2) : stddev (centre swapped i) = 1 / 3 := by
  have hz : ∀ b i, zscore (swapped b i) = swapped b i := by
    intro b i
    funext k
    fin_cases b <;> fin_cases i <;> fin_cases k <;> simp [zscore, avg, stddev, swapped, Fin.sum_univ_two] <;> norm_num
  have hc : ∀ k, centre swapped i k = (∑ b, swapped b i k) / (3 : ℕ) := fun k => by
    simp only [centre, hz]
  have h : avg (fun k => (centre swapped i k - avg (centre swapped i)) ^ 2) = (1 / 3) ^ 2 := by
    simp only [avg, hc, Fin.sum_univ_two, Fin.sum_univ_three]
    fin_cases i <;> simp [swapped] <;> norm_num
  rw [stddev, h, Real.sqrt_sq (by norm_num)]

/-- The hypotheses of the three theorems hold for a recording of three bins: the spreads of the
two references agree. -/
example (overwrite : Bool) : ∃ (Y : ℕ) (ps : List ℕ) (st' : Store 3 2 (Fin 2 → ℝ)),
    ValidCall overwrite 0 [] (⟨fun _ => swapped, 1⟩ : Store 3 2 (Fin 2 → ℝ)) ∧
    scoreSolver (fun a => a) id 1 0 false overwrite 0 [] ⟨fun _ => swapped, 1⟩ = .ok (Y, ps, st') ∧
    ∀ i, id (stddev (centre (fun b i => swapped b i) i)) = 1 / 3 := by
  have hv : ValidCall overwrite 0 [] (⟨fun _ => swapped, 1⟩ : Store 3 2 (Fin 2 → ℝ)) := ⟨by decide, fun _ => by decide⟩
  obtain ⟨Y, ps, r, h, -⟩ := C27_score (fun a => a) id 1 0 overwrite 0 [] ⟨fun _ => swapped, 1⟩ hv (Or.inl le_rfl)
  exact ⟨Y, ps, r, hv, h, swapped_spread⟩

/-- Level: bin `b` of the second recording is `b + 1` times as loud and shifted by 5. -/
example : ∀ (b : Fin 3) (i : Fin 2), ∃ a o : ℝ, 0 < a ∧
    ∀ k, (fun k => ((b : ℝ) + 1) * swapped b i k + 5) k = a * swapped b i k + o :=
  fun b _ => ⟨b + 1, 5, by positivity, fun _ => rfl⟩

/-- Pearson's correlation coefficient. -/
noncomputable def pearson (x y : Fin T → ℝ) : ℝ :=
  (avg fun k => (x k - avg x) * (y k - avg y)) / (stddev x * stddev y)

/-- The score of the method cited in the documentation: correlation coefficients with the own references minus those with the others. -/
noncomputable def documentedScore (ref x : Fin S → Fin T → ℝ) : ℝ :=
  ∑ i, (pearson (x i) (ref i) - ∑ j ∈ Finset.univ.erase i, pearson (x i) (ref j))

/-- Three bins, two sources, four frames. -/
noncomputable def skewed : Arr 3 2 (Fin 4 → ℝ) :=
  ![![![-1 / 5, 1 / 5, 7 / 5, -7 / 5], ![1, -1, -1, 1]],
    ![![7 / 5, -1 / 5, -7 / 5, 1 / 5], ![1, -1, 1, -1]],
    ![![-7 / 5, 1 / 5, -1 / 5, 7 / 5], ![-1, 1, -1, 1]]]

theorem avg_four (x : Fin 4 → ℝ) : avg x = (x 0 + x 1 + x 2 + x 3) / 4 := by
  simp [avg, Fin.sum_univ_four]

theorem stddev_of {x : Fin 4 → ℝ} {s : ℝ} (hs : 0 ≤ s) (h0 : x 0 + x 1 + x 2 + x 3 = 0)
    (h : x 0 ^ 2 + x 1 ^ 2 + x 2 ^ 2 + x 3 ^ 2 = 4 * s ^ 2) : stddev x = s := by
  have : avg x = 0 := by rw [avg_four, h0, zero_div]
  rw [stddev, avg_four, this]
  simp only [sub_zero]
  rw [h, mul_div_cancel_left₀ _ (by norm_num), Real.sqrt_sq hs]

theorem skewed_zscore (b : Fin 3) (i : Fin 2) : zscore (skewed b i) = skewed b i := by
  have h0 : avg (skewed b i) = 0 := by
    rw [avg_four]
    fin_cases b <;> fin_cases i <;> simp [skewed] <;> norm_num
  have h1 : stddev (skewed b i) = 1 := by
    refine stddev_of zero_le_one ?_ ?_ <;> fin_cases b <;> fin_cases i <;> simp [skewed] <;> norm_num
  funext k
  rw [zscore, h0, h1, sub_zero, div_one]

theorem skewed_centre : centre skewed = ![![-1 / 15, 1 / 15, -1 / 15, 1 / 15], ![1 / 3, -1 / 3, -1 / 3, 1 / 3]] := by
  funext i k
  simp only [centre, skewed_zscore, Fin.sum_univ_three]
  fin_cases i <;> fin_cases k <;> simp [skewed] <;> norm_num

theorem skewed_spread (i : Fin 2) : stddev (centre skewed i) = ![1 / 15, 1 / 3] i := by
  rw [skewed_centre]
  fin_cases i
  · exact stddev_of (by norm_num) (by simp; norm_num) (by simp; norm_num)
  · exact stddev_of (by norm_num) (by simp; norm_num) (by simp; norm_num)

theorem pearson_centred {x y : Fin 4 → ℝ} (hx : avg x = 0) (hy : avg y = 0) :
    pearson x y = (avg fun k => x k * y k) / (stddev x * stddev y) := by
  simp only [pearson, hx, hy, sub_zero]

/-- C81, finding: the correlations with the references of the other sources are divided by the spread of the own
reference instead of theirs, so they are not correlation coefficients. In this recording the solver exchanges the two
sources of a bin although that lowers the documented score. -/
theorem C81_wrong_spread (floor : ℝ → ℝ) (h1 : floor (1 / 15) = 1 / 15) (h2 : floor (1 / 3) = 1 / 3) (overwrite : Bool) :
    ∃ (Y : ℕ) (ps : List ℕ) (r : Store 3 2 (Fin 4 → ℝ)),
      scoreSolver (fun a => a) floor 1 0 false overwrite 0 [] ⟨fun _ => skewed, 1⟩ = .ok (Y, ps, r) ∧
      r.mem Y 1 0 = skewed 1 1 ∧ r.mem Y 1 1 = skewed 1 0 ∧
      documentedScore (centre skewed) (r.mem Y 1) < documentedScore (centre skewed) (skewed 1) := by
  have hv : ValidCall overwrite 0 [] (⟨fun _ => skewed, 1⟩ : Store 3 2 (Fin 4 → ℝ)) := ⟨by decide, fun _ => by decide⟩
  obtain ⟨Y, ps, r, h, -⟩ := C27_score (fun a => a) floor 1 0 overwrite 0 [] ⟨fun _ => skewed, 1⟩ hv (Or.inl le_rfl)
  obtain ⟨y, w, hy0, hg, hw0, -, hres⟩ := C81_steps (fun a => a) floor 1 0 overwrite 0 [] ⟨fun _ => skewed, 1⟩ hv
    (Or.inl le_rfl) Y ps r h
  obtain ⟨σ, e, hb⟩ := hg 0 (by decide)
  have hY : r.mem Y = y 1 := by rw [hres]; exact hw0
  simp only [zero_add] at e
  rw [hy0] at e hb
  have hfit := (hb 1).1 (Equiv.swap 0 1)
  simp only [skewed_zscore] at hfit
  have hfl : ∀ i, floor (stddev (centre skewed i)) = ![1 / 15, 1 / 3] i := by
    intro i
    rw [skewed_spread]
    fin_cases i
    · exact h1
    · exact h2
  have er : ∀ i : Fin 2, Finset.univ.erase i = {if i = 0 then 1 else 0} := by decide
  have fit_swap : fit floor (fun i => stddev (centre skewed i)) (centre skewed) (skewed 1) (Equiv.swap 0 1) = -1 / 5 := by
    simp only [fit, hfl, er, Fin.sum_univ_two, Finset.sum_singleton]
    simp only [avg_four, skewed_centre]
    simp [skewed]
    norm_num
  have fit_one : fit floor (fun i => stddev (centre skewed i)) (centre skewed) (skewed 1) 1 = -19 / 5 := by
    simp only [fit, hfl, er, Fin.sum_univ_two, Finset.sum_singleton]
    simp only [avg_four, skewed_centre]
    simp [skewed]
    norm_num
  have hσ : σ 1 = Equiv.swap 0 1 := by
    have cases2 : ∀ π : Equiv.Perm (Fin 2), π = 1 ∨ π = Equiv.swap 0 1 := by
      intro π
      have h0 : ∀ a b : Fin 2, a ≠ b → (a = 0 ∧ b = 1) ∨ (a = 1 ∧ b = 0) := by decide
      rcases h0 (π 0) (π 1) (fun h => by simpa using π.injective h) with ⟨a, b⟩ | ⟨a, b⟩
      · exact Or.inl (Equiv.ext fun i => by fin_cases i <;> simp [a, b])
      · exact Or.inr (Equiv.ext fun i => by fin_cases i <;> simp [a, b])
    rcases cases2 (σ 1) with h | h
    · exfalso
      rw [h] at hfit
      have a : fit floor (fun i => stddev (centre skewed i)) (centre skewed) (skewed 1) (Equiv.swap 0 1)
        ≤ fit floor (fun i => stddev (centre skewed i)) (centre skewed) (skewed 1) 1 := hfit
      rw [fit_swap, fit_one] at a
      norm_num at a
    · exact h
  have e0 : r.mem Y 1 0 = skewed 1 1 := by rw [hY, e, hσ]; rfl
  have e1 : r.mem Y 1 1 = skewed 1 0 := by rw [hY, e, hσ]; rfl
  refine ⟨Y, ps, r, h, e0, e1, ?_⟩
  have s1 : ∀ i, stddev (skewed 1 i) = 1 := fun i => by
    refine stddev_of zero_le_one ?_ ?_ <;> fin_cases i <;> simp [skewed] <;> norm_num
  have a1 : ∀ i, avg (skewed 1 i) = 0 := fun i => by
    rw [avg_four]
    fin_cases i <;> simp [skewed]
    norm_num
  have ac : ∀ i, avg (centre skewed i) = 0 := fun i => by
    rw [avg_four, skewed_centre]
    fin_cases i <;> simp <;> norm_num
  simp only [documentedScore, er, Fin.sum_univ_two, Finset.sum_singleton, if_true, one_ne_zero, if_false, e0, e1,
    pearson_centred (a1 _) (ac _), s1, skewed_spread]
  simp only [avg_four, skewed_centre]
  simp [skewed]
  norm_num

end Verif.Permutation
