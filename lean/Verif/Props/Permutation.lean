import Mathlib.Algebra.BigOperators.Fin
import Mathlib.Tactic.FinCases
import Mathlib.Tactic.LinearCombination
import Mathlib.Tactic.NormNum.Ineq
import Verif.Lemmas.Permutation

/-! # C27-C29: permutation solvers -/

namespace Verif.Permutation

variable {B S T : ℕ} {α : Type}

/-- The caller passes existing arrays; with `overwrite=True` no array is passed twice. -/
structure ValidCall (overwrite : Bool) (seq : ℕ) (args : List ℕ) (st : Store B S α) : Prop where
  exist : ∀ r ∈ seq :: args, r < st.next
  distinct : overwrite = true → (seq :: args).Nodup

theorem prepare_spec {overwrite : Bool} {seq : ℕ} {args : List ℕ} {st : Store B S α}
    (hv : ValidCall overwrite seq args st) :
    ∃ Y ps st₁, prepare overwrite seq args st = (Y, ps, st₁) ∧ (Y :: ps).Nodup ∧
      (∀ r ∈ Y :: ps, r < st₁.next) ∧
      List.Forall₂ (fun a p => st₁.mem p = st.mem a) (seq :: args) (Y :: ps) ∧
      (overwrite = true → Y = seq ∧ ps = args ∧ st₁ = st) ∧
      (overwrite = false → (∀ r ∈ Y :: ps, st.next ≤ r) ∧ ∀ r < st.next, st₁.mem r = st.mem r) := by
  cases overwrite with
  | true =>
    refine ⟨seq, args, st, rfl, hv.distinct rfl, hv.exist, ?_, fun _ => ⟨rfl, rfl, rfl⟩, by simp⟩
    exact List.forall₂_same.mpr fun _ _ => rfl
  | false =>
    have h := copies_spec st (seq :: args) hv.exist
    refine ⟨(st.copies (seq :: args)).1.headD 0, (st.copies (seq :: args)).1.tail, (st.copies (seq :: args)).2,
      rfl, ?_⟩
    have e : (st.copies (seq :: args)).1 =
        (st.copies (seq :: args)).1.headD 0 :: (st.copies (seq :: args)).1.tail := rfl
    rw [← e]
    exact ⟨h.2.2.2.1, fun r hr => (h.2.2.1 r hr).2, h.2.2.2.2, by simp,
      fun _ => ⟨fun r hr => (h.2.2.1 r hr).1, h.2.1⟩⟩

/-- Correlation of a permuted bin with the accumulated reference. -/
private noncomputable def dot (crit P : Fin S → Fin T → ℝ) : ℝ := ∑ i, ∑ k, crit i k * P i k

private structure Inv (P : Fin B → Fin S → Fin T → ℝ) (tg : List ℕ) (m : ℕ → Arr B S α) (done : List (Fin B))
    (σ : Fin B → Equiv.Perm (Fin S)) (s : (Fin S → Fin T → ℝ) × Store B S α) : Prop where
  mem_in : ∀ r ∈ tg, ∀ b, s.2.mem r b = m r b ∘ σ b
  mem_out : ∀ r, r ∉ tg → s.2.mem r = m r
  crit : ∀ i k, s.1 i k = (done.map fun c => P c (σ c i) k).sum
  one : ∀ b, b ∉ done.tail → σ b = 1
  opt : ∀ l b r, done = l ++ b :: r → l ≠ [] → ∀ τ : Equiv.Perm (Fin S),
    dot (fun i k => (l.map fun c => P c (σ c i) k).sum) (P b ∘ τ) ≤
      dot (fun i k => (l.map fun c => P c (σ c i) k).sum) (P b ∘ σ b)
  fix : (∀ l b r, done = l ++ b :: r → l ≠ [] → ∀ τ : Equiv.Perm (Fin S),
    dot (fun i k => (l.map fun c => P c i k).sum) (P b ∘ τ) ≤
      dot (fun i k => (l.map fun c => P c i k).sum) (P b)) → σ = 1

private theorem inv_step {P : Fin B → Fin S → Fin T → ℝ} {Y : ℕ} {ps : List ℕ} {m : ℕ → Arr B S α}
    {done : List (Fin B)} {σ : Fin B → Equiv.Perm (Fin S)} {s : (Fin S → Fin T → ℝ) × Store B S α}
    (hnd : (Y :: ps).Nodup) (hd : done ≠ []) (b : Fin B) (hb : b ∉ done)
    (h : Inv P (Y :: ps) m done σ s) :
    ∃ σ', Inv P (Y :: ps) m (done ++ [b]) σ' (corrStep P Y ps b s) := by
  obtain ⟨p, ρ, h1, h2, h3, h4⟩ := search (matchScore s.1 (P b))
  have hσb : σ b = 1 := h.one b fun hb' => hb (List.mem_of_mem_tail hb')
  have hne : ∀ c ∈ done, c ≠ b := fun c hc hcb => hb (hcb ▸ hc)
  have hupd : ∀ c ∈ done, Function.update σ b ρ c = σ c := fun c hc => Function.update_of_ne (hne c hc) _ _
  have hstep : corrStep P Y ps b s = (fun i k => s.1 i k + P b (ρ i) k,
      (Y :: ps).foldl (fun st r => st.permuteBin r b p) s.2) := by
    simp only [corrStep, h1, h2, List.foldl_cons, Function.comp_apply]
  have hsum : ∀ l : List (Fin B), (∀ c ∈ l, c ∈ done) → ∀ i k,
      (l.map fun c => P c (Function.update σ b ρ c i) k).sum = (l.map fun c => P c (σ c i) k).sum := by
    intro l hl i k
    congr 1
    exact List.map_congr_left fun c hc => by rw [hupd c (hl c hc)]
  have hdot : ∀ τ : Equiv.Perm (Fin S), ∃ q ∈ permutations S, matchScore s.1 (P b) q = dot s.1 (P b ∘ τ) := by
    intro τ
    obtain ⟨q, hq, hq2⟩ := exists_list τ
    exact ⟨q, hq, by simp only [matchScore, hq2]; rfl⟩
  have hbest : ∀ τ : Equiv.Perm (Fin S), dot s.1 (P b ∘ τ) ≤ dot s.1 (P b ∘ ρ) := by
    intro τ
    obtain ⟨q, hq, e⟩ := hdot τ
    have := h3 q hq
    rw [e] at this
    simpa only [matchScore, h2, dot] using this
  have hsplit : ∀ {l : List (Fin B)} {b' : Fin B} {r : List (Fin B)}, done ++ [b] = l ++ b' :: r →
      (l = done ∧ b' = b ∧ r = []) ∨ ∃ r', r = r' ++ [b] ∧ done = l ++ b' :: r' := by
    intro l b' r e
    rcases List.eq_nil_or_concat r with rfl | ⟨r', x, rfl⟩
    · left
      have := List.append_inj' e rfl
      simpa [eq_comm] using this
    · right
      rw [List.concat_eq_append, ← List.cons_append, ← List.append_assoc] at e
      rw [List.concat_eq_append]
      have := List.append_inj' e rfl
      refine ⟨r', ?_, this.1⟩
      simpa [eq_comm] using this.2
  rw [hstep]
  refine ⟨Function.update σ b ρ, ?_, ?_, ?_, ?_, ?_, ?_⟩
  · intro r hr c
    rw [permuteBins_mem _ hnd, if_pos hr]
    by_cases hc : c = b
    · subst hc
      rw [Function.update_self, Function.update_self, h2, h.mem_in r hr, hσb]
      rfl
    · rw [Function.update_of_ne hc, Function.update_of_ne hc, h.mem_in r hr]
  · intro r hr
    rw [permuteBins_mem _ hnd, if_neg hr, h.mem_out r hr]
  · intro i k
    rw [List.map_append, List.sum_append, hsum done fun c hc => hc]
    simp [h.crit i k]
  · intro c hc
    have htail : (done ++ [b]).tail = done.tail ++ [b] := by
      cases done with
      | nil => exact absurd rfl hd
      | cons x xs => rfl
    rw [htail, List.mem_append, List.mem_singleton, not_or] at hc
    rw [Function.update_of_ne hc.2, h.one c hc.1]
  · intro l b' r e hl τ
    rcases hsplit e with ⟨rfl, rfl, rfl⟩ | ⟨r', rfl, e'⟩
    · have e2 : (fun i k => (l.map fun c => P c (Function.update σ b' ρ c i) k).sum) = s.1 := by
        funext i k
        rw [hsum l fun c hc => hc, h.crit]
      rw [e2, Function.update_self]
      exact hbest τ
    · have hmem : ∀ c ∈ l, c ∈ done := fun c hc => by rw [e']; simp [hc]
      have e2 : (fun i k => (l.map fun c => P c (Function.update σ b ρ c i) k).sum) =
          fun i k => (l.map fun c => P c (σ c i) k).sum := by
        funext i k
        exact hsum l hmem i k
      rw [e2, hupd b' (by rw [e']; simp)]
      exact h.opt l b' r' e' hl τ
  · intro H
    have hσ : σ = 1 := h.fix fun l b' r e hl τ => H l b' (r ++ [b]) (by rw [e]; simp) hl τ
    have hρ : ρ = 1 := by
      apply h4
      intro q hq
      obtain ⟨τ, hτ⟩ := exists_equiv hq
      have := H done b [] rfl hd τ
      have e2 : (fun i k => (done.map fun c => P c i k).sum) = s.1 := by
        funext i k
        rw [h.crit, hσ]
        rfl
      rw [e2] at this
      simpa only [matchScore, hτ, take_id, dot] using this
    subst hρ
    rw [hσ]
    exact Function.update_eq_self b _

private theorem inv_loop {P : Fin B → Fin S → Fin T → ℝ} {Y : ℕ} {ps : List ℕ} {m : ℕ → Arr B S α}
    (hnd : (Y :: ps).Nodup) (rest : List (Fin B)) {done : List (Fin B)}
    {σ : Fin B → Equiv.Perm (Fin S)} {s : (Fin S → Fin T → ℝ) × Store B S α}
    (hd : done ≠ []) (hn : (done ++ rest).Nodup) (h : Inv P (Y :: ps) m done σ s) :
    ∃ σ', Inv P (Y :: ps) m (done ++ rest) σ' (rest.foldl (fun s b => corrStep P Y ps b s) s) := by
  induction rest generalizing done σ s with
  | nil => exact ⟨σ, by simpa using h⟩
  | cons b rest ih =>
    have hb : b ∉ done := fun hb => by
      have := List.disjoint_of_nodup_append hn hb
      simp at this
    obtain ⟨σ', h'⟩ := inv_step hnd hd b hb h
    have e : done ++ b :: rest = done ++ [b] ++ rest := by simp
    obtain ⟨σ'', h''⟩ := ih (done := done ++ [b]) (by simp) (by rwa [← e]) h'
    rw [e]
    exact ⟨σ'', h''⟩

/-- The magnitudes the alignment compares: moduli of a bin divided frame by frame by the (floored) norm over
the sources. -/
noncomputable def share (mag : α → Fin T → ℝ) (floor : ℝ → ℝ) (y : Fin S → α) (i : Fin S) (k : Fin T) : ℝ :=
  mag (y i) k / floor (Real.sqrt (∑ j, mag (y j) k ^ 2))

/-- The order in which bins are processed: every bin once, ascending total correlation between the sources. -/
structure IsOrder (mag : α → Fin T → ℝ) (floor : ℝ → ℝ) (Y : Fin B → Fin S → α) (order : List (Fin B)) :
    Prop where
  nodup : order.Nodup
  all : ∀ b, b ∈ order
  ascending : order.Pairwise fun a b =>
    ∑ i, ∑ j, ∑ k, share mag floor (Y a) i k * share mag floor (Y a) j k ≤
      ∑ i, ∑ j, ∑ k, share mag floor (Y b) i k * share mag floor (Y b) j k

/-- `Y` is greedily aligned along `order`: no bin after the first can be better correlated with the sum of the
bins before it by permuting its sources. -/
def Aligned (mag : α → Fin T → ℝ) (floor : ℝ → ℝ) (order : List (Fin B)) (Y : Fin B → Fin S → α) : Prop :=
  ∀ l b r, order = l ++ b :: r → l ≠ [] → ∀ τ : Equiv.Perm (Fin S),
    ∑ i, ∑ k, (l.map fun c => share mag floor (Y c) i k).sum * share mag floor (Y b) (τ i) k ≤
      ∑ i, ∑ k, (l.map fun c => share mag floor (Y c) i k).sum * share mag floor (Y b) i k

theorem share_comp (mag : α → Fin T → ℝ) (floor : ℝ → ℝ) (y : Fin S → α) (σ : Equiv.Perm (Fin S)) :
    share mag floor (y ∘ σ) = share mag floor y ∘ σ := by
  funext i k
  simp only [share, Function.comp_apply]
  rw [Equiv.sum_comp σ fun j => mag (y j) k ^ 2]

theorem correlation_main (np : Argsort) (mag : α → Fin T → ℝ) (floor : ℝ → ℝ) (overwrite : Bool) (seq : ℕ)
    (args : List ℕ) (st : Store B S α) (hB : 0 < B) (hv : ValidCall overwrite seq args st) :
    ∃ (Y : ℕ) (ps : List ℕ) (st' : Store B S α) (σ : Fin B → Equiv.Perm (Fin S)) (order : List (Fin B)),
      correlationSolver np mag floor overwrite seq args st = .ok (Y, ps, st') ∧
      List.Forall₂ (fun a p => ∀ b, st'.mem p b = st.mem a b ∘ σ b) (seq :: args) (Y :: ps) ∧
      IsOrder mag floor (st.mem seq) order ∧
      order = (List.finRange B).map (np.sort fun b => correlation (share mag floor (st.mem seq b))) ∧
      σ (order.headD ⟨0, hB⟩) = 1 ∧ Aligned mag floor order (st'.mem Y) ∧
      (Aligned mag floor order (st.mem seq) → σ = 1) ∧
      (overwrite = true → Y = seq ∧ ps = args ∧ ∀ r, r ∉ seq :: args → st'.mem r = st.mem r) ∧
      (overwrite = false → (∀ r ∈ Y :: ps, st.next ≤ r) ∧ ∀ r < st.next, st'.mem r = st.mem r) := by
  obtain ⟨Y, ps, st₁, hp, hnd, -, hF, ht, hf⟩ := prepare_spec hv
  have hmY : st₁.mem Y = st.mem seq := (List.forall₂_cons.mp hF).1
  set idx := np.sort fun b => correlation (share mag floor (st.mem seq b)) with hidx
  have hlist : ∃ first rest, (List.finRange B).map idx = first :: rest := by
    cases h : (List.finRange B).map idx with
    | nil =>
      have := congrArg List.length h
      simp at this
      omega
    | cons a l => exact ⟨a, l, rfl⟩
  obtain ⟨first, rest, hl⟩ := hlist
  have hnodup : (first :: rest).Nodup := by
    rw [← hl]
    exact (List.nodup_finRange B).map idx.injective
  let P : Fin B → Fin S → Fin T → ℝ := fun b => share mag floor (st.mem seq b)
  have hinit : Inv P (Y :: ps) st₁.mem [first] (fun _ => 1) (P first, st₁) := by
    refine ⟨fun r _ b => rfl, fun r _ => rfl, fun i k => by simp, fun b _ => rfl, ?_, fun _ => rfl⟩
    intro l b r e hl'
    have : l.length + (r.length + 1) = 1 := by
      have := congrArg List.length e
      simpa using this.symm
    exact absurd (List.length_eq_zero_iff.mp (by omega)) hl'
  obtain ⟨σ, hI⟩ := inv_loop hnd rest (by simp) (by simpa using hnodup) hinit
  rw [List.singleton_append] at hI
  set fin := rest.foldl (fun s b => corrStep P Y ps b s) (P first, st₁) with hfin
  have hrun : correlationSolver np mag floor overwrite seq args st = .ok (Y, ps, fin.2) := by
    simp only [correlationSolver, hp, hmY]
    have e : (List.finRange B).map (np.sort fun b => correlation (normalised mag floor (st.mem seq b))) =
      first :: rest := hl
    simp only [e]
    rfl
  have hY : ∀ b, fin.2.mem Y b = st.mem seq b ∘ σ b := fun b => by
    rw [hI.mem_in Y (by simp), hmY]
  refine ⟨Y, ps, fin.2, σ, first :: rest, hrun, ?_, ⟨hnodup, ?_, ?_⟩, hl.symm, hI.one first ?_, ?_, ?_, ?_, ?_⟩
  · have : ∀ (l l' : List ℕ), (∀ r ∈ l', r ∈ Y :: ps) → List.Forall₂ (fun a p => st₁.mem p = st.mem a) l l' →
        List.Forall₂ (fun a p => ∀ b, fin.2.mem p b = st.mem a b ∘ σ b) l l' := by
      intro l l' hl' hF
      induction hF with
      | nil => exact .nil
      | cons h _ ih =>
        refine .cons (fun b => ?_) (ih fun r hr => hl' r (by simp [hr]))
        rw [hI.mem_in _ (hl' _ (by simp)), h]
    exact this _ _ (fun r hr => hr) hF
  · intro b
    rw [← hl, List.mem_map]
    exact ⟨idx.symm b, by simp, by simp⟩
  · rw [← hl, List.pairwise_map]
    refine (List.pairwise_lt_finRange B).imp fun {a b} hab => ?_
    exact np.sorted (fun b => correlation (share mag floor (st.mem seq b))) hab.le
  · intro h
    exact (List.nodup_cons.mp hnodup).1 h
  · intro l b r e hl' τ
    have := hI.opt l b r e hl' (τ.trans (σ b))
    simp only [hY, share_comp]
    exact this
  · intro hA
    exact hI.fix fun l b r e hl' τ => hA l b r e hl' τ
  · intro h
    obtain ⟨rfl, rfl, rfl⟩ := ht h
    exact ⟨rfl, rfl, fun r hr => hI.mem_out r hr⟩
  · intro h
    refine ⟨(hf h).1, fun r hr => ?_⟩
    rw [hI.mem_out r (fun hm => absurd ((hf h).1 r hm) (by omega)), (hf h).2 r hr]

/-- C27 (correlation-based solver): the call succeeds on every spectrogram with at least one bin; every bin of
the result is a reordering of the sources of that bin, and the extra arguments are reordered by the very same
permutations. -/
theorem C27_correlation (np : Argsort) (mag : α → Fin T → ℝ) (floor : ℝ → ℝ) (overwrite : Bool) (seq : ℕ)
    (args : List ℕ) (st : Store B S α) (hB : 0 < B) (hv : ValidCall overwrite seq args st) :
    ∃ Y ps st' , correlationSolver np mag floor overwrite seq args st = .ok (Y, ps, st') ∧
      ∃ σ : Fin B → Equiv.Perm (Fin S),
        (∀ b i, st'.mem Y b i = st.mem seq b (σ b i)) ∧
        List.Forall₂ (fun a p => ∀ b i, st'.mem p b i = st.mem a b (σ b i)) args ps := by
  obtain ⟨Y, ps, st', σ, order, h, hF, -⟩ := correlation_main np mag floor overwrite seq args st hB hv
  rw [List.forall₂_cons] at hF
  exact ⟨Y, ps, st', h, σ, fun b i => congrFun (hF.1 b) i, hF.2.imp fun a p h b i => congrFun (h b) i⟩

/-- C28: the result is greedily aligned along an order of ascending correlation, and the first processed bin
is returned as it was. -/
theorem C28_greedy_optimal (np : Argsort) (mag : α → Fin T → ℝ) (floor : ℝ → ℝ) (overwrite : Bool)
    (seq : ℕ) (args : List ℕ) (st : Store B S α) (hB : 0 < B) (hv : ValidCall overwrite seq args st)
    (Y : ℕ) (ps : List ℕ) (st' : Store B S α)
    (h : correlationSolver np mag floor overwrite seq args st = .ok (Y, ps, st')) :
    ∃ first rest, IsOrder mag floor (st.mem seq) (first :: rest) ∧
      st'.mem Y first = st.mem seq first ∧ Aligned mag floor (first :: rest) (st'.mem Y) := by
  obtain ⟨Y', ps', st'', σ, order, h', hF, hO, -, h1, hA, -⟩ := correlation_main np mag floor overwrite seq args st hB hv
  rw [h] at h'
  obtain ⟨rfl, rfl, rfl⟩ : Y = Y' ∧ ps = ps' ∧ st' = st'' := by simpa using h'
  cases order with
  | nil => exact absurd (hO.all ⟨0, hB⟩) (by simp)
  | cons first rest =>
    refine ⟨first, rest, hO, ?_, hA⟩
    rw [List.forall₂_cons] at hF
    rw [hF.1 first]
    have : σ first = 1 := h1
    rw [this]
    rfl

/-- C28: aligning an already aligned result changes nothing, neither the spectrogram nor the extra
arguments of the second call. -/
theorem C28_idempotent (np : Argsort) (mag : α → Fin T → ℝ) (floor : ℝ → ℝ) (ow ow₂ : Bool)
    (seq : ℕ) (args : List ℕ) (st : Store B S α) (hB : 0 < B) (hv : ValidCall ow seq args st)
    (Y : ℕ) (ps : List ℕ) (st' : Store B S α)
    (h : correlationSolver np mag floor ow seq args st = .ok (Y, ps, st'))
    (args₂ : List ℕ) (hv₂ : ValidCall ow₂ Y args₂ st')
    (Z : ℕ) (qs : List ℕ) (st'' : Store B S α)
    (h₂ : correlationSolver np mag floor ow₂ Y args₂ st' = .ok (Z, qs, st'')) :
    st''.mem Z = st'.mem Y ∧ List.Forall₂ (fun a q => st''.mem q = st'.mem a) args₂ qs := by
  obtain ⟨Y', ps', s1, σ, order, h', hF, -, hord, -, hA, -⟩ := correlation_main np mag floor ow seq args st hB hv
  rw [h] at h'
  obtain ⟨rfl, rfl, rfl⟩ : Y = Y' ∧ ps = ps' ∧ st' = s1 := by simpa using h'
  obtain ⟨Z', qs', s2, σ₂, order₂, h', hF₂, -, hord₂, -, -, hfix, -⟩ :=
    correlation_main np mag floor ow₂ Y args₂ st' hB hv₂
  rw [h₂] at h'
  obtain ⟨rfl, rfl, rfl⟩ : Z = Z' ∧ qs = qs' ∧ st'' = s2 := by simpa using h'
  rw [List.forall₂_cons] at hF hF₂
  have hc : (fun b => correlation (share mag floor (st'.mem Y b))) =
      fun b => correlation (share mag floor (st.mem seq b)) := by
    funext b
    rw [hF.1 b, share_comp]
    simp only [correlation, Function.comp_apply]
    rw [Equiv.sum_comp (σ b) fun i => ∑ j, ∑ k, share mag floor (st.mem seq b) i k *
      share mag floor (st.mem seq b) (σ b j) k]
    exact Finset.sum_congr rfl fun i _ => Equiv.sum_comp (σ b) fun j => ∑ k,
      share mag floor (st.mem seq b) i k * share mag floor (st.mem seq b) j k
  have hoo : order₂ = order := by rw [hord, hord₂, hc]
  have hσ : σ₂ = 1 := hfix (hoo ▸ hA)
  subst hσ
  exact ⟨funext hF₂.1, hF₂.2.imp fun a q h => funext h⟩

/-- C29 (correlation-based solver): with `overwrite=False` all results are new arrays and no existing array
changes; with `overwrite=True` the results are the caller's own arrays and no other array changes. -/
theorem C29_correlation (np : Argsort) (mag : α → Fin T → ℝ) (floor : ℝ → ℝ) (overwrite : Bool)
    (seq : ℕ) (args : List ℕ) (st : Store B S α) (hB : 0 < B) (hv : ValidCall overwrite seq args st)
    (Y : ℕ) (ps : List ℕ) (st' : Store B S α)
    (h : correlationSolver np mag floor overwrite seq args st = .ok (Y, ps, st')) :
    (overwrite = false → (∀ r ∈ Y :: ps, st.next ≤ r) ∧ ∀ r < st.next, st'.mem r = st.mem r) ∧
    (overwrite = true → Y = seq ∧ ps = args ∧ ∀ r, r ∉ seq :: args → st'.mem r = st.mem r) := by
  obtain ⟨Y', ps', st'', σ, order, h', -, -, -, -, -, -, ht, hf⟩ :=
    correlation_main np mag floor overwrite seq args st hB hv
  rw [h] at h'
  obtain ⟨rfl, rfl, rfl⟩ : Y = Y' ∧ ps = ps' ∧ st' = st'' := by simpa using h'
  exact ⟨hf, ht⟩

/-- A valid call with one extra argument; `Argsort` can be implemented (`someArgsort`). -/
example : ValidCall true 0 [1] (⟨fun r _ i => r + i.val, 2⟩ : Store 2 2 ℕ) := ⟨by decide, by decide⟩

/-! ## The score-based solver -/

structure SInv (m : ℕ → Arr B S α) (n₀ seq₀ : ℕ) (ps : List ℕ) (σ : Fin B → Equiv.Perm (Fin S))
    (s : ScoreState B S T α) : Prop where
  args : ∀ r ∈ ps, ∀ b, s.st.mem r b = m r b ∘ σ b
  seq : ∀ b, s.st.mem s.seq b = m seq₀ b ∘ σ b
  frame : ∀ r < n₀, r ∉ ps → s.st.mem r = m r
  next : n₀ ≤ s.st.next
  bound : s.seq < s.st.next
  unset : s.centroidStd = none → s.seq = seq₀ ∧ σ = 1
  set : s.centroidStd ≠ none → n₀ ≤ s.seq

/-- The reordering of bin `b` in a global step, as a function of the standardised sequences alone. -/
noncomputable def globalPerm (floor : ℝ → ℝ) (norm : Fin B → Fin S → Fin T → ℝ) (b : Fin B) : List (Fin S) :=
  (firstMax (alignScore floor (fun i => std fun k => (∑ b, norm b i k) / B) (fun i k => (∑ b, norm b i k) / B) (norm b))
    (permutations S)).getD []

/-- The reordering of bin `b` in a local step. -/
noncomputable def localPerm (floor : ℝ → ℝ) (cstd : Fin S → ℝ) (norm : Fin B → Fin S → Fin T → ℝ) (b : Fin B) :
    List (Fin S) :=
  (firstMax (fun perm => ((covariant B b).map fun c => alignScore floor cstd (norm c) (norm b) perm).sum)
    (permutations S)).getD []

theorem global_inv_of (floor : ℝ → ℝ) {m : ℕ → Arr B S α} {n₀ seq₀ : ℕ} {ps : List ℕ}
    {σ : Fin B → Equiv.Perm (Fin S)} {s : ScoreState B S T α} (hnd : ps.Nodup) (hps : ∀ r ∈ ps, r < n₀)
    (h : SInv m n₀ seq₀ ps σ s) (ρ : Fin B → Equiv.Perm (Fin S))
    (hρ : ∀ b (x : Fin S → α), take x (globalPerm floor s.norm b) = x ∘ ρ b) :
    SInv m n₀ seq₀ ps (fun b => (ρ b).trans (σ b)) (globalStep floor ps s) := by
  obtain ⟨p, hp⟩ : ∃ p, p = globalPerm floor s.norm := ⟨_, rfl⟩
  rw [← hp] at hρ
  have hsort : ∀ x : Arr B S α, parallelSort x p = fun b => x b ∘ ρ b := fun x => funext fun b => hρ b (x b)
  have hst : (globalStep floor ps s).st = ps.foldl (fun (st : Store B S α) r =>
      { st with mem := Function.update st.mem r (parallelSort (st.mem r) p) })
      (s.st.alloc (parallelSort (s.st.mem s.seq) p)).2 := by
    rw [hp]
    rfl
  have hseq : (globalStep floor ps s).seq = s.st.next := rfl
  have hin : ∀ r ∈ ps, r ≠ s.st.next := fun r hr => by
    have := hps r hr
    have := h.next
    omega
  have hnin : s.st.next ∉ ps := fun hm => hin _ hm rfl
  refine ⟨?_, ?_, ?_, ?_, ?_, ?_, ?_⟩
  · intro r hr b
    rw [hst, sortAll_mem _ hnd, if_pos hr, hsort]
    simp only [Store.alloc, Function.update_of_ne (hin r hr)]
    rw [h.args r hr b]
    rfl
  · intro b
    rw [hseq, hst, sortAll_mem _ hnd, if_neg hnin, hsort]
    simp only [Store.alloc, Function.update_self]
    rw [h.seq b]
    rfl
  · intro r hr hrp
    rw [hst, sortAll_mem _ hnd, if_neg hrp]
    have := h.next
    simp only [Store.alloc]
    rw [Function.update_of_ne (by omega), h.frame r hr hrp]
  · rw [hst, sortAll_next]
    have := h.next
    simp only [Store.alloc]
    omega
  · rw [hseq, hst, sortAll_next]
    simp only [Store.alloc]
    omega
  · intro hc
    simp [globalStep] at hc
  · intro _
    rw [hseq]
    exact h.next

theorem exists_globalPerm (floor : ℝ → ℝ) (norm : Fin B → Fin S → Fin T → ℝ) :
    ∃ ρ : Fin B → Equiv.Perm (Fin S), ∀ b {γ : Type} (x : Fin S → γ), take x (globalPerm floor norm b) = x ∘ ρ b := by
  have hch : ∀ b, ∃ ρ : Equiv.Perm (Fin S), ∀ {γ : Type} (x : Fin S → γ), take x (globalPerm floor norm b) = x ∘ ρ := by
    intro b
    obtain ⟨p, ρ, h1, h2, -⟩ := search (alignScore floor (fun i => std fun k => (∑ b, norm b i k) / B)
      (fun i k => (∑ b, norm b i k) / B) (norm b))
    exact ⟨ρ, fun x => by rw [globalPerm, h1]; exact h2 x⟩
  choose ρ hρ using hch
  exact ⟨ρ, hρ⟩

theorem global_inv (floor : ℝ → ℝ) {m : ℕ → Arr B S α} {n₀ seq₀ : ℕ} {ps : List ℕ}
    {σ : Fin B → Equiv.Perm (Fin S)} {s : ScoreState B S T α} (hnd : ps.Nodup) (hps : ∀ r ∈ ps, r < n₀)
    (h : SInv m n₀ seq₀ ps σ s) :
    (∃ σ', SInv m n₀ seq₀ ps σ' (globalStep floor ps s)) ∧ (globalStep floor ps s).centroidStd ≠ none := by
  obtain ⟨ρ, hρ⟩ := exists_globalPerm floor s.norm
  exact ⟨⟨_, global_inv_of floor hnd hps h ρ fun b x => hρ b x⟩, by simp [globalStep]⟩

theorem local_inv_of (floor : ℝ → ℝ) {m : ℕ → Arr B S α} {n₀ seq₀ : ℕ} {ps : List ℕ}
    {σ : Fin B → Equiv.Perm (Fin S)} {s : ScoreState B S T α} (hnd : ps.Nodup) (hps : ∀ r ∈ ps, r < n₀)
    (h : SInv m n₀ seq₀ ps σ s) {cstd : Fin S → ℝ} (hcs : s.centroidStd = some cstd) (b : Fin B)
    (ρ : Equiv.Perm (Fin S)) (h2 : ∀ x : Fin S → α, take x (localPerm floor cstd s.norm b) = x ∘ ρ) :
    ∃ s', localStep floor ps b s = .ok s' ∧ SInv m n₀ seq₀ ps (Function.update σ b (ρ.trans (σ b))) s' ∧
      s'.centroidStd = some cstd ∧
      s'.norm = Function.update s.norm b (take (s.norm b) (localPerm floor cstd s.norm b)) := by
  have hc : s.centroidStd ≠ none := by rw [hcs]; simp
  obtain ⟨p, hp⟩ : ∃ p, p = localPerm floor cstd s.norm b := ⟨_, rfl⟩
  rw [← hp] at h2
  have hss : s.seq ∉ ps := fun hm => by
    have := hps _ hm
    have := h.set hc
    omega
  have hnd' : (s.seq :: ps).Nodup := List.nodup_cons.mpr ⟨hss, hnd⟩
  refine ⟨{ s with
      norm := Function.update s.norm b (take (s.norm b) p)
      st := (s.seq :: ps).foldl (fun st r => st.permuteBin r b p) s.st }, ?_, ⟨?_, ?_, ?_, ?_, ?_, ?_, ?_⟩, hcs, by rw [hp]⟩
  · simp only [localStep, hcs, hp]
    rfl
  · intro r hr c
    simp only
    rw [permuteBins_mem _ hnd', if_pos (by simp [hr])]
    by_cases hcb : c = b
    · subst hcb
      rw [Function.update_self, Function.update_self, h2, h.args r hr]
      rfl
    · rw [Function.update_of_ne hcb, Function.update_of_ne hcb, h.args r hr]
  · intro c
    simp only
    rw [permuteBins_mem _ hnd', if_pos (by simp)]
    by_cases hcb : c = b
    · subst hcb
      rw [Function.update_self, Function.update_self, h2, h.seq]
      rfl
    · rw [Function.update_of_ne hcb, Function.update_of_ne hcb, h.seq]
  · intro r hr hrp
    simp only
    have := h.set hc
    rw [permuteBins_mem _ hnd', if_neg (by simp only [List.mem_cons, not_or]; exact ⟨by omega, hrp⟩),
      h.frame r hr hrp]
  · simp only
    rw [permuteBins_next]
    exact h.next
  · simp only
    rw [permuteBins_next]
    exact h.bound
  · intro hn
    exact absurd hn hc
  · intro _
    exact h.set hc

theorem exists_localPerm (floor : ℝ → ℝ) (cstd : Fin S → ℝ) (norm : Fin B → Fin S → Fin T → ℝ) (b : Fin B) :
    ∃ ρ : Equiv.Perm (Fin S), ∀ {γ : Type} (x : Fin S → γ), take x (localPerm floor cstd norm b) = x ∘ ρ := by
  obtain ⟨p, ρ, h1, h2, -⟩ := search fun perm =>
    ((covariant B b).map fun c => alignScore floor cstd (norm c) (norm b) perm).sum
  exact ⟨ρ, fun x => by rw [localPerm, h1]; exact h2 x⟩

theorem local_inv (floor : ℝ → ℝ) {m : ℕ → Arr B S α} {n₀ seq₀ : ℕ} {ps : List ℕ}
    {σ : Fin B → Equiv.Perm (Fin S)} {s : ScoreState B S T α} (hnd : ps.Nodup) (hps : ∀ r ∈ ps, r < n₀)
    (h : SInv m n₀ seq₀ ps σ s) (hc : s.centroidStd ≠ none) (b : Fin B) :
    ∃ s' σ', localStep floor ps b s = .ok s' ∧ SInv m n₀ seq₀ ps σ' s' ∧ s'.centroidStd ≠ none := by
  obtain ⟨cstd, hcs⟩ := Option.ne_none_iff_exists'.mp hc
  obtain ⟨ρ, hρ⟩ := exists_localPerm floor cstd s.norm b
  obtain ⟨s', h1, h2, h3, -⟩ := local_inv_of floor hnd hps h hcs b ρ fun x => hρ x
  exact ⟨s', _, h1, h2, by rw [h3]; simp⟩

theorem foldlM_inv {σ' β : Type} (f : σ' → β → Except PyErr σ') (I : σ' → Prop)
    (hf : ∀ s b, I s → ∃ s', f s b = .ok s' ∧ I s') (l : List β) (s : σ') (hs : I s) :
    ∃ s', l.foldlM f s = .ok s' ∧ I s' := by
  induction l generalizing s with
  | nil => exact ⟨s, rfl, hs⟩
  | cons b l ih =>
    obtain ⟨s', h1, h2⟩ := hf s b hs
    obtain ⟨s'', h3, h4⟩ := ih s' h2
    exact ⟨s'', by rw [List.foldlM_cons, h1]; exact h3, h4⟩

theorem repeatM_inv {σ' : Type} (f : σ' → Except PyErr σ') (I : σ' → Prop)
    (hf : ∀ s, I s → ∃ s', f s = .ok s' ∧ I s') (n : ℕ) (s : σ') (hs : I s) :
    ∃ s', repeatM f n s = .ok s' ∧ I s' := by
  induction n generalizing s with
  | zero => exact ⟨s, rfl, hs⟩
  | succ n ih =>
    obtain ⟨s', h1, h2⟩ := hf s hs
    obtain ⟨s'', h3, h4⟩ := ih s' h2
    exact ⟨s'', by simp only [repeatM, h1, bind, Except.bind]; exact h3, h4⟩

theorem global_loop (floor : ℝ → ℝ) {m : ℕ → Arr B S α} {n₀ seq₀ : ℕ} {ps : List ℕ}
    {σ : Fin B → Equiv.Perm (Fin S)} {s : ScoreState B S T α} (hnd : ps.Nodup) (hps : ∀ r ∈ ps, r < n₀)
    (h : SInv m n₀ seq₀ ps σ s) (n : ℕ) :
    (∃ σ', SInv m n₀ seq₀ ps σ' ((globalStep floor ps)^[n] s)) ∧
      (0 < n → ((globalStep floor ps)^[n] s).centroidStd ≠ none) := by
  induction n with
  | zero => exact ⟨⟨σ, h⟩, by simp⟩
  | succ n ih =>
    obtain ⟨⟨σ', h'⟩, -⟩ := ih
    rw [Function.iterate_succ_apply']
    have := global_inv floor hnd hps h'
    exact ⟨this.1, fun _ => this.2⟩

theorem main_score (val : α → Fin T → ℝ) (floor : ℝ → ℝ) (globalIter localIter : ℤ)
    (overwrite : Bool) (seq : ℕ) (args : List ℕ) (st : Store B S α) (hv : ValidCall overwrite seq args st)
    (hit : 1 ≤ globalIter ∨ localIter ≤ 0) :
    ∃ (Y : ℕ) (ps : List ℕ) (st' : Store B S α) (σ : Fin B → Equiv.Perm (Fin S)),
      scoreSolver val floor globalIter localIter false overwrite seq args st = .ok (Y, ps, st') ∧
      List.Forall₂ (fun a p => ∀ b, st'.mem p b = st.mem a b ∘ σ b) (seq :: args) (Y :: ps) ∧
      (overwrite = true → ps = args ∧ (∀ r < st.next, r ∉ args → st'.mem r = st.mem r) ∧
        (1 ≤ globalIter → st.next ≤ Y)) ∧
      (overwrite = false → (∀ r ∈ Y :: ps, st.next ≤ r) ∧ ∀ r < st.next, st'.mem r = st.mem r) := by
  obtain ⟨Y, ps, st₁, hp, hnd, hlt, hF, ht, hf⟩ := prepare_spec hv
  rw [List.nodup_cons] at hnd
  have hps : ∀ r ∈ ps, r < st₁.next := fun r hr => hlt r (by simp [hr])
  let s₀ : ScoreState B S T α := ⟨fun b i => standardise (val (st₁.mem Y b i)), Y, none, st₁⟩
  have h₀ : SInv st₁.mem st₁.next Y ps (fun _ => 1) s₀ :=
    ⟨fun _ _ _ => rfl, fun _ => rfl, fun _ _ _ => rfl, le_rfl, hlt Y (by simp), fun _ => ⟨rfl, rfl⟩,
      fun h => absurd rfl h⟩
  obtain ⟨⟨σ₁, h₁⟩, hc₁⟩ := global_loop floor hnd.2 hps h₀ globalIter.toNat
  obtain ⟨s₂, hr₂, σ₂, h₂, hset⟩ : ∃ s₂, repeatM (fun s => (List.finRange B).foldlM
      (fun s b => localStep floor ps b s) s) localIter.toNat ((globalStep floor ps)^[globalIter.toNat] s₀) =
        .ok s₂ ∧ ∃ σ₂, SInv st₁.mem st₁.next Y ps σ₂ s₂ ∧
          (s₂.centroidStd ≠ none ∨ (globalIter < 1)) := by
    rcases hit with hit | hit
    · obtain ⟨s', e, ⟨σ', hI⟩, hc⟩ := repeatM_inv (fun s => (List.finRange B).foldlM
        (fun s b => localStep floor ps b s) s)
        (fun s => (∃ σ', SInv st₁.mem st₁.next Y ps σ' s) ∧ s.centroidStd ≠ none)
        (fun s hs => foldlM_inv _ (fun s => (∃ σ', SInv st₁.mem st₁.next Y ps σ' s) ∧ s.centroidStd ≠ none)
          (fun s b ⟨⟨σ', hs⟩, hc⟩ => by
            obtain ⟨s', σ'', e, hI, hc'⟩ := local_inv floor hnd.2 hps hs hc b
            exact ⟨s', e, ⟨σ'', hI⟩, hc'⟩) _ s hs)
        localIter.toNat _ ⟨⟨σ₁, h₁⟩, hc₁ (by omega)⟩
      exact ⟨s', e, σ', hI, Or.inl hc⟩
    · refine ⟨_, ?_, σ₁, h₁, ?_⟩
      · rw [Int.toNat_eq_zero.mpr hit]
        rfl
      · by_cases hg : globalIter < 1
        · exact Or.inr hg
        · exact Or.inl (hc₁ (by omega))
  refine ⟨s₂.seq, ps, s₂.st, σ₂, ?_, ?_, ?_, ?_⟩
  · simp only [scoreSolver, hp, bind, Except.bind]
    simp only [s₀] at hr₂
    simp only [hr₂]
    rfl
  · rw [List.forall₂_cons] at hF ⊢
    refine ⟨fun b => by rw [h₂.seq, hF.1], ?_⟩
    have : ∀ (l l' : List ℕ), (∀ r ∈ l', r ∈ ps) → List.Forall₂ (fun a p => st₁.mem p = st.mem a) l l' →
        List.Forall₂ (fun a p => ∀ b, s₂.st.mem p b = st.mem a b ∘ σ₂ b) l l' := by
      intro l l' hl' hF
      induction hF with
      | nil => exact .nil
      | cons h _ ih =>
        refine .cons (fun b => ?_) (ih fun r hr => hl' r (by simp [hr]))
        rw [h₂.args _ (hl' _ (by simp)), h]
    exact this _ _ (fun r hr => hr) hF.2
  · intro ho
    obtain ⟨rfl, rfl, rfl⟩ := ht ho
    refine ⟨rfl, h₂.frame, fun hg => ?_⟩
    rcases hset with hset | hset
    · exact h₂.set hset
    · omega
  · intro ho
    obtain ⟨hge, hold⟩ := hf ho
    refine ⟨?_, ?_⟩
    · intro r hr
      rcases List.mem_cons.mp hr with rfl | hr
      · by_cases hcs : s₂.centroidStd = none
        · rw [(h₂.unset hcs).1]
          exact hge Y (by simp)
        · have h1 := h₂.set hcs
          have h2 := hlt Y (by simp)
          have h3 := hge Y (by simp)
          omega
      · exact hge r (by simp [hr])
    · intro r hr
      have h2 := hlt Y (by simp)
      have h3 := hge Y (by simp)
      rw [h₂.frame r (by omega) (fun hm => absurd (hge r (by simp [hm])) (by omega)), hold r hr]

/-- C27 (score-based solver): unless `global_iter` is 0 while `local_iter` is positive, the call succeeds, every
bin of the result is a reordering of the sources of that bin, and the extra arguments are reordered by the very
same permutations. In the excluded setting the call raises, see `C27_score_global_iter_zero_counterexample`. -/
theorem C27_score (val : α → Fin T → ℝ) (floor : ℝ → ℝ) (globalIter localIter : ℤ)
    (overwrite : Bool) (seq : ℕ) (args : List ℕ) (st : Store B S α) (hv : ValidCall overwrite seq args st)
    (hit : 1 ≤ globalIter ∨ localIter ≤ 0) :
    ∃ Y ps st', scoreSolver val floor globalIter localIter false overwrite seq args st = .ok (Y, ps, st') ∧
      ∃ σ : Fin B → Equiv.Perm (Fin S),
        (∀ b i, st'.mem Y b i = st.mem seq b (σ b i)) ∧
        List.Forall₂ (fun a p => ∀ b i, st'.mem p b i = st.mem a b (σ b i)) args ps := by
  obtain ⟨Y, ps, st', σ, h, hF, -⟩ := main_score val floor globalIter localIter overwrite seq args st hv hit
  rw [List.forall₂_cons] at hF
  exact ⟨Y, ps, st', h, σ, fun b i => congrFun (hF.1 b) i, hF.2.imp fun a p h b i => congrFun (h b) i⟩

/-- C27 is false for `global_iter=0` with `local_iter >= 1`: the local phase reads a variable that only the
global phase sets, so the call raises on every spectrogram. -/
theorem C27_score_global_iter_zero_counterexample (val : α → Fin T → ℝ) (floor : ℝ → ℝ)
    (globalIter localIter : ℤ) (hg : globalIter ≤ 0) (hl : 1 ≤ localIter) (hB : 0 < B) (overwrite : Bool)
    (seq : ℕ) (args : List ℕ) (st : Store B S α) :
    scoreSolver val floor globalIter localIter false overwrite seq args st = .error .name := by
  obtain ⟨n, hn⟩ : ∃ n, localIter.toNat = n + 1 := ⟨localIter.toNat - 1, by omega⟩
  obtain ⟨k, rfl⟩ : ∃ k, B = k + 1 := ⟨B - 1, by omega⟩
  simp only [scoreSolver, Int.toNat_eq_zero.mpr hg, hn, Function.iterate_zero, id_eq, repeatM, List.finRange_succ,
    List.foldlM_cons, localStep, bind, Except.bind]
  rfl

/-- The excluded constructor option: `multi_centroids=True` always raises `AssertionError`. -/
theorem C27_score_multi_centroids (val : α → Fin T → ℝ) (floor : ℝ → ℝ) (globalIter localIter : ℤ)
    (overwrite : Bool) (seq : ℕ) (args : List ℕ) (st : Store B S α) :
    scoreSolver val floor globalIter localIter true overwrite seq args st = .error .assertion := rfl

/-- C29 (score-based solver): with `overwrite=False` all results are new arrays and no existing array changes;
with `overwrite=True` the extra arguments are permuted in place and nothing else of the caller changes; in particular
the sequence itself is *not* overwritten (`C29_score_sequence_counterexample`). -/
theorem C29_score (val : α → Fin T → ℝ) (floor : ℝ → ℝ) (globalIter localIter : ℤ)
    (overwrite : Bool) (seq : ℕ) (args : List ℕ) (st : Store B S α) (hv : ValidCall overwrite seq args st)
    (hit : 1 ≤ globalIter ∨ localIter ≤ 0) (Y : ℕ) (ps : List ℕ) (st' : Store B S α)
    (h : scoreSolver val floor globalIter localIter false overwrite seq args st = .ok (Y, ps, st')) :
    (overwrite = false → (∀ r ∈ Y :: ps, st.next ≤ r) ∧ ∀ r < st.next, st'.mem r = st.mem r) ∧
    (overwrite = true → ps = args ∧ ∀ r < st.next, r ∉ args → st'.mem r = st.mem r) := by
  obtain ⟨Y', ps', s1, σ, h', -, ht, hf⟩ := main_score val floor globalIter localIter overwrite seq args st hv hit
  rw [h] at h'
  obtain ⟨rfl, rfl, rfl⟩ : Y = Y' ∧ ps = ps' ∧ st' = s1 := by simpa using h'
  exact ⟨hf, fun ho => ⟨(ht ho).1, (ht ho).2.1⟩⟩

/-- Three bins, two sources, two frames; the sources of the last bin are swapped. -/
def swapped : Arr 3 2 (Fin 2 → ℝ) := fun b i k =>
  if b = 2 then (if i = k then -1 else 1) else (if i = k then 1 else -1)

/-- C29 is false for the score-based solver: with `overwrite=True` the aligned sequence is returned in a new
array and the caller's array keeps its old contents, here in a case in which the two differ. -/
theorem C29_score_sequence_counterexample :
    ∃ Y ps st', scoreSolver (B := 3) (S := 2) (T := 2) (fun a => a) id 1 0 false true 0 []
        ⟨fun _ => swapped, 1⟩ = .ok (Y, ps, st') ∧
      st'.mem 0 = swapped ∧ st'.mem Y ≠ swapped := by
  have hnorm : ∀ b i, standardise (swapped b i) = swapped b i := by
    intro b i
    funext k
    fin_cases b <;> fin_cases i <;> fin_cases k <;>
      simp [standardise, mean, std, swapped, Fin.sum_univ_two]
  let cen : Fin 2 → Fin 2 → ℝ := fun i k => if i = k then 1 / 3 else -1 / 3
  have hcen : (fun i k => (∑ b : Fin 3, swapped b i k) / ((3 : ℕ) : ℝ)) = cen := by
    funext i k
    fin_cases i <;> fin_cases k <;> simp [swapped, cen, Fin.sum_univ_three] <;> norm_num
  have hstd : (fun i => std (cen i)) = fun _ => 1 / 3 := by
    funext i
    have e : std (cen i) = Real.sqrt ((1 / 3) ^ 2) := by
      unfold std
      congr 1
      fin_cases i <;> simp [mean, cen, Fin.sum_univ_two] <;> norm_num
    rw [e, Real.sqrt_sq (by norm_num)]
  have hperm : permutations 2 = [[0, 1], [1, 0]] := by decide
  have hs1 : alignScore id (fun _ => 1 / 3) cen (swapped 2) [0, 1] = -4 := by
    simp [alignScore, take, mean, cen, swapped, Fin.sum_univ_two]
    norm_num
  have hs2 : alignScore id (fun _ => 1 / 3) cen (swapped 2) [1, 0] = 4 := by
    simp [alignScore, take, mean, cen, swapped, Fin.sum_univ_two]
    norm_num
  have hmax : firstMax (alignScore id (fun _ => 1 / 3) cen (swapped 2)) (permutations 2) = some [1, 0] := by
    rw [hperm]
    simp only [firstMax, List.foldl_cons, List.foldl_nil, better, hs1, hs2]
    norm_num
  refine ⟨_, _, _, rfl, ?_, ?_⟩
  · rfl
  · intro h
    have h2 := congrFun (congrFun (congrFun h 2) 0) 0
    have hmax' : firstMax (alignScore id (fun i => std fun k => (∑ b : Fin 3, swapped b i k) / ((3 : ℕ) : ℝ))
        (fun i k => (∑ b : Fin 3, swapped b i k) / ((3 : ℕ) : ℝ)) (swapped 2)) (permutations 2) =
          some [1, 0] := by
      have e : (fun i => std fun k => (∑ b : Fin 3, swapped b i k) / ((3 : ℕ) : ℝ)) = fun _ => 1 / 3 := by
        rw [← hstd, ← hcen]
      rw [e, hcen]
      exact hmax
    simp only [globalStep, Store.alloc, List.foldl_nil, Function.iterate_succ, Function.iterate_zero,
      Function.comp_apply, id_eq, Int.toNat_one, Function.update_self, parallelSort, hnorm] at h2
    rw [hmax'] at h2
    simp [take, swapped] at h2
    norm_num at h2

end Verif.Permutation
