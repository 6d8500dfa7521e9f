import Verif.Model.Permutation

/-!
# What the permutation solvers see

The solvers (`ssspy/algorithm/permutation_alignment.py`) move entries within a bin and look at the entries of the first array only. If
two memories agree, entry by entry, up to a relation that this look does not notice, the results agree up to the same relation.
-/

namespace Verif.Permutation

variable {B S T : ℕ} {α α' : Type} {R : Fin B → α → α' → Prop}

/-- Entry by entry related memories. -/
def RelStore (R : Fin B → α → α' → Prop) (st : Store B S α) (st' : Store B S α') : Prop :=
  st'.next = st.next ∧ ∀ r b k, R b (st.mem r b k) (st'.mem r b k)

theorem rel_update {m : ℕ → Arr B S α} {m' : ℕ → Arr B S α'} (h : ∀ r b k, R b (m r b k) (m' r b k)) {a : Arr B S α}
    {a' : Arr B S α'} (ha : ∀ b k, R b (a b k) (a' b k)) (i r : ℕ) (b : Fin B) (k : Fin S) :
    R b (Function.update m i a r b k) (Function.update m' i a' r b k) := by
  by_cases e : r = i
  · subst e
    simpa only [Function.update_self] using ha b k
  · simpa only [Function.update_of_ne e] using h r b k

theorem RelStore.alloc {st : Store B S α} {st' : Store B S α'} (h : RelStore R st st') {a : Arr B S α} {a' : Arr B S α'}
    (ha : ∀ b k, R b (a b k) (a' b k)) : (st'.alloc a').1 = (st.alloc a).1 ∧ RelStore R (st.alloc a).2 (st'.alloc a').2 := by
  refine ⟨h.1, by simp only [Store.alloc, h.1], ?_⟩
  simp only [Store.alloc, h.1]
  exact rel_update h.2 ha st.next

theorem RelStore.copies {st : Store B S α} {st' : Store B S α'} (h : RelStore R st st') (l : List ℕ) :
    (st'.copies l).1 = (st.copies l).1 ∧ RelStore R (st.copies l).2 (st'.copies l).2 := by
  induction l generalizing st st' with
  | nil => exact ⟨rfl, h⟩
  | cons r rs ih =>
    obtain ⟨h1, h2⟩ := h.alloc (h.2 r)
    obtain ⟨h3, h4⟩ := ih h2
    exact ⟨congrArg₂ List.cons h1 h3, h4⟩

theorem RelStore.prepare {st : Store B S α} {st' : Store B S α'} (h : RelStore R st st') (overwrite : Bool) (seq : ℕ)
    (args : List ℕ) : ∃ Y l u u', Permutation.prepare overwrite seq args st = (Y, l, u) ∧
      Permutation.prepare overwrite seq args st' = (Y, l, u') ∧ RelStore R u u' := by
  cases overwrite with
  | true => exact ⟨seq, args, st, st', rfl, rfl, h⟩
  | false =>
    obtain ⟨h1, h2⟩ := h.alloc (h.2 seq)
    obtain ⟨h3, h4⟩ := h2.copies args
    refine ⟨_, _, _, _, rfl, ?_, h4⟩
    simp only [Permutation.prepare, Bool.false_eq_true, if_false]
    exact Prod.ext h1 (Prod.ext h3 rfl)

theorem RelStore.permuteBin {st : Store B S α} {st' : Store B S α'} (h : RelStore R st st') (r : ℕ) (b : Fin B)
    (perm : List (Fin S)) : RelStore R (st.permuteBin r b perm) (st'.permuteBin r b perm) := by
  refine ⟨h.1, rel_update h.2 (fun c k => ?_) r⟩
  by_cases e : c = b
  · subst e
    simp only [Function.update_self, take]
    exact h.2 r c _
  · simpa only [Function.update_of_ne e] using h.2 r c k

theorem RelStore.permuteAll {st : Store B S α} {st' : Store B S α'} (h : RelStore R st st') (l : List ℕ) (b : Fin B)
    (perm : List (Fin S)) :
    RelStore R (l.foldl (fun st r => st.permuteBin r b perm) st) (l.foldl (fun st r => st.permuteBin r b perm) st') := by
  induction l generalizing st st' with
  | nil => exact h
  | cons r rs ih => exact ih (h.permuteBin r b perm)

theorem RelStore.sortAll {st : Store B S α} {st' : Store B S α'} (h : RelStore R st st') (l : List ℕ) (perm : Fin B → List (Fin S)) :
    RelStore R
      (l.foldl (fun st r => { st with mem := Function.update st.mem r (parallelSort (st.mem r) perm) }) st)
      (l.foldl (fun st r => { st with mem := Function.update st.mem r (parallelSort (st.mem r) perm) }) st') := by
  induction l generalizing st st' with
  | nil => exact h
  | cons r rs ih => exact ih ⟨h.1, rel_update h.2 (fun b k => h.2 r b _) r⟩

/-- The two outcomes are the same exception, or the same references into related memories. -/
def SameOut (R : Fin B → α → α' → Prop) (x : Except PyErr (ℕ × List ℕ × Store B S α))
    (x' : Except PyErr (ℕ × List ℕ × Store B S α')) : Prop :=
  (∃ Y l u u', x = .ok (Y, l, u) ∧ x' = .ok (Y, l, u') ∧ RelStore R u u') ∨ ∃ e, x = .error e ∧ x' = .error e

/-- The correlation solver. -/
theorem correlation_rel (np : Argsort) {mag : α → Fin T → ℝ} {mag' : α' → Fin T → ℝ} {floor floor' : ℝ → ℝ}
    (hP : ∀ b (y : Fin S → α) (y' : Fin S → α'), (∀ k, R b (y k) (y' k)) → normalised mag' floor' y' = normalised mag floor y)
    (overwrite : Bool) (seq : ℕ) (args : List ℕ) {st : Store B S α} {st' : Store B S α'} (h : RelStore R st st') :
    SameOut R (correlationSolver np mag floor overwrite seq args st) (correlationSolver np mag' floor' overwrite seq args st') := by
  obtain ⟨Y, l, u, u', e, e', hu⟩ := h.prepare overwrite seq args
  obtain ⟨P, hPd⟩ : ∃ P : Fin B → Fin S → Fin T → ℝ, ∀ b, normalised mag floor (u.mem Y b) = P b := ⟨_, fun _ => rfl⟩
  have hPd' : ∀ b, normalised mag' floor' (u'.mem Y b) = P b := fun b => (hP b _ _ (hu.2 Y b)).trans (hPd b)
  simp only [correlationSolver, e, e', hPd, hPd']
  generalize (List.finRange B).map (np.sort fun b => correlation (P b)) = L
  cases L with
  | nil => exact .inr ⟨_, rfl, rfl⟩
  | cons first rest =>
    have key : ∀ (rest : List (Fin B)) (c : Fin S → Fin T → ℝ) (v : Store B S α) (v' : Store B S α'), RelStore R v v' →
        RelStore R (rest.foldl (fun s b => corrStep P Y l b s) (c, v)).2 (rest.foldl (fun s b => corrStep P Y l b s) (c, v')).2 := by
      intro rest
      induction rest with
      | nil => intro c v v' h; exact h
      | cons b bs ih =>
        intro c v v' h
        simp only [List.foldl_cons]
        cases hm : firstMax (matchScore c (P b)) (permutations S) with
        | none =>
          have q : ∀ {β : Type} (w : Store B S β), corrStep P Y l b (c, w) = (c, w) := fun w => by simp only [corrStep, hm]
          rw [q, q]
          exact ih c v v' h
        | some perm =>
          have q : ∀ {β : Type} (w : Store B S β), corrStep P Y l b (c, w) = (fun i k => c i k + take (P b) perm i k,
              l.foldl (fun st r => st.permuteBin r b perm) (w.permuteBin Y b perm)) := fun w => by simp only [corrStep, hm]
          rw [q, q]
          exact ih _ _ _ ((h.permuteBin Y b perm).permuteAll l b perm)
    exact .inl ⟨_, _, _, _, rfl, rfl, key rest (P first) u u' hu⟩

/-- The states of the score solver in the two runs. -/
def RelScore (R : Fin B → α → α' → Prop) (s : ScoreState B S T α) (s' : ScoreState B S T α') : Prop :=
  s'.norm = s.norm ∧ s'.seq = s.seq ∧ s'.centroidStd = s.centroidStd ∧ RelStore R s.st s'.st

theorem RelScore.global (floor : ℝ → ℝ) (l : List ℕ) {s : ScoreState B S T α} {s' : ScoreState B S T α'} (h : RelScore R s s') :
    RelScore R (globalStep floor l s) (globalStep floor l s') := by
  obtain ⟨n, q, c, st⟩ := s
  obtain ⟨n', q', c', st'⟩ := s'
  obtain ⟨rfl, rfl, rfl, h⟩ := h
  refine ⟨rfl, ?_, rfl, ?_⟩
  · exact h.1
  · exact RelStore.sortAll (RelStore.alloc h fun b k => h.2 _ b _).2 l _

theorem RelScore.local (floor : ℝ → ℝ) (l : List ℕ) (b : Fin B) {s : ScoreState B S T α} {s' : ScoreState B S T α'}
    (h : RelScore R s s') :
    (∃ u u', localStep floor l b s = .ok u ∧ localStep floor l b s' = .ok u' ∧ RelScore R u u') ∨
      ∃ e, localStep floor l b s = .error e ∧ localStep floor l b s' = .error e := by
  obtain ⟨n, q, c, st⟩ := s
  obtain ⟨n', q', c', st'⟩ := s'
  obtain ⟨rfl, rfl, rfl, h⟩ := h
  cases c' with
  | none => exact .inr ⟨_, rfl, rfl⟩
  | some cstd => exact .inl ⟨_, _, rfl, rfl, rfl, rfl, rfl, (h.permuteBin _ b _).permuteAll l b _⟩

theorem RelScore.sweep (floor : ℝ → ℝ) (l : List ℕ) (bs : List (Fin B)) {s : ScoreState B S T α} {s' : ScoreState B S T α'}
    (h : RelScore R s s') :
    (∃ u u', bs.foldlM (fun s b => localStep floor l b s) s = .ok u ∧ bs.foldlM (fun s b => localStep floor l b s) s' = .ok u' ∧
      RelScore R u u') ∨
      ∃ e, bs.foldlM (fun s b => localStep floor l b s) s = .error e ∧ bs.foldlM (fun s b => localStep floor l b s) s' = .error e := by
  induction bs generalizing s s' with
  | nil => exact .inl ⟨s, s', rfl, rfl, h⟩
  | cons b bs ih =>
    simp only [List.foldlM_cons]
    rcases h.local floor l b with ⟨u, u', e, e', hu⟩ | ⟨x, e, e'⟩
    · rw [e, e']
      exact ih hu
    · rw [e, e']
      exact .inr ⟨x, rfl, rfl⟩

theorem RelScore.repeat (floor : ℝ → ℝ) (l : List ℕ) (bs : List (Fin B)) (n : ℕ) {s : ScoreState B S T α}
    {s' : ScoreState B S T α'} (h : RelScore R s s') :
    (∃ u u', repeatM (fun s => bs.foldlM (fun s b => localStep floor l b s) s) n s = .ok u ∧
      repeatM (fun s => bs.foldlM (fun s b => localStep floor l b s) s) n s' = .ok u' ∧ RelScore R u u') ∨
      ∃ e, repeatM (fun s => bs.foldlM (fun s b => localStep floor l b s) s) n s = .error e ∧
        repeatM (fun s => bs.foldlM (fun s b => localStep floor l b s) s) n s' = .error e := by
  induction n generalizing s s' with
  | zero => exact .inl ⟨s, s', rfl, rfl, h⟩
  | succ n ih =>
    simp only [repeatM]
    rcases h.sweep floor l bs with ⟨u, u', e, e', hu⟩ | ⟨x, e, e'⟩
    · rw [e, e']
      exact ih hu
    · rw [e, e']
      exact .inr ⟨x, rfl, rfl⟩

/-- The score solver. -/
theorem score_rel {val : α → Fin T → ℝ} {val' : α' → Fin T → ℝ}
    (hP : ∀ b c c', R b c c' → standardise (val' c') = standardise (val c)) (floor : ℝ → ℝ) (g l : ℤ) (multi overwrite : Bool)
    (seq : ℕ) (args : List ℕ) {st : Store B S α} {st' : Store B S α'} (h : RelStore R st st') :
    SameOut R (scoreSolver val floor g l multi overwrite seq args st) (scoreSolver val' floor g l multi overwrite seq args st') := by
  cases multi with
  | true => exact .inr ⟨_, rfl, rfl⟩
  | false =>
    obtain ⟨Y, L, u, u', e, e', hu⟩ := h.prepare overwrite seq args
    have h0 : RelScore (T := T) R ⟨fun b i => standardise (val (u.mem Y b i)), Y, none, u⟩
        ⟨fun b i => standardise (val' (u'.mem Y b i)), Y, none, u'⟩ :=
      ⟨funext fun b => funext fun i => hP b _ _ (hu.2 Y b i), rfl, rfl, hu⟩
    have h1 : ∀ i : ℕ, RelScore (T := T) R ((globalStep floor L)^[i] ⟨fun b i => standardise (val (u.mem Y b i)), Y, none, u⟩)
        ((globalStep floor L)^[i] ⟨fun b i => standardise (val' (u'.mem Y b i)), Y, none, u'⟩) := by
      intro i
      induction i with
      | zero => exact h0
      | succ i ih =>
        rw [Function.iterate_succ_apply', Function.iterate_succ_apply']
        exact ih.global floor L
    simp only [scoreSolver, Bool.false_eq_true, if_false, e, e', bind, Except.bind]
    rcases (h1 g.toNat).repeat floor L (List.finRange B) l.toNat with ⟨v, v', f, f', hv⟩ | ⟨x, f, f'⟩
    · simp only [f, f', pure, Except.pure]
      exact .inl ⟨_, _, _, _, rfl, by rw [hv.2.1], hv.2.2.2⟩
    · simp only [f, f']
      exact .inr ⟨x, rfl, rfl⟩

/-- Standardised values do not depend on a positive scale. -/
theorem standardise_scale {κ : ℝ} (hκ : 0 < κ) (x : Fin T → ℝ) : standardise (fun k => κ * x k) = standardise x := by
  have hm : mean (fun k => κ * x k) = κ * mean x := by rw [mean, mean, ← Finset.mul_sum, mul_div_assoc]
  have hs : std (fun k => κ * x k) = κ * std x := by
    rw [std, std, hm]
    have : ∀ k, (κ * x k - κ * mean x) ^ 2 = κ ^ 2 * (x k - mean x) ^ 2 := fun k => by ring
    simp only [this]
    rw [mean, mean, ← Finset.mul_sum, mul_div_assoc, Real.sqrt_mul (sq_nonneg κ), Real.sqrt_sq hκ.le]
    rfl
  funext k
  rw [standardise, standardise, hm, hs, ← mul_sub, mul_div_mul_left _ _ hκ.ne']

/-- Neither do the normalised magnitudes, if nothing is floored. -/
theorem normalised_scale {mag : α → Fin T → ℝ} {mag' : α' → Fin T → ℝ} {κ : ℝ} (hκ : 0 < κ) {y : Fin S → α} {y' : Fin S → α'}
    (h : ∀ i k, mag' (y' i) k = κ * mag (y i) k) : normalised mag' id y' = normalised mag id y := by
  funext i k
  simp only [normalised, id, h, mul_pow]
  rw [← Finset.mul_sum, Real.sqrt_mul (sq_nonneg κ), Real.sqrt_sq hκ.le, mul_div_mul_left _ _ hκ.ne']

end Verif.Permutation
