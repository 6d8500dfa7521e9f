import Mathlib.Data.List.Nodup
import Mathlib.Data.List.NodupEquivFin
import Mathlib.Data.Fin.Tuple.Sort
import Verif.Model.Permutation

/-! # Lemmas about the permutation solvers -/

namespace Verif.Permutation

variable {B S T : ℕ} {α β : Type}

theorem mem_permutationsAux [DecidableEq β] {k : ℕ} {l p : List β} (hk : l.length = k) :
    p ∈ permutationsAux k l ↔ p.Perm l := by
  induction k generalizing l p with
  | zero =>
    rw [List.length_eq_zero_iff] at hk
    subst hk
    simp [permutationsAux]
  | succ k ih =>
    simp only [permutationsAux, List.mem_flatMap, List.mem_map]
    constructor
    · rintro ⟨x, hx, q, hq, rfl⟩
      rw [ih (by rw [List.length_erase_of_mem hx, hk]; rfl)] at hq
      exact (hq.cons x).trans (List.perm_cons_erase hx).symm
    · intro h
      cases p with
      | nil => rw [List.nil_perm] at h; subst h; simp at hk
      | cons x q =>
        have hx : x ∈ l := h.mem_iff.mp (by simp)
        refine ⟨x, hx, q, ?_, rfl⟩
        rw [ih (by rw [List.length_erase_of_mem hx, hk]; rfl)]
        exact (h.trans (List.perm_cons_erase hx)).cons_inv

theorem mem_permutations {p : List (Fin S)} : p ∈ permutations S ↔ p.Perm (List.finRange S) :=
  mem_permutationsAux (by simp)

theorem mem_permutations_length {p : List (Fin S)} (h : p ∈ permutations S) : p.length = S := by
  rw [(mem_permutations.mp h).length_eq, List.length_finRange]

theorem permutationsAux_head [DecidableEq β] {k : ℕ} {l : List β} (hk : l.length = k) :
    ∃ tl, permutationsAux k l = l :: tl := by
  induction k generalizing l with
  | zero =>
    rw [List.length_eq_zero_iff] at hk
    subst hk
    exact ⟨[], rfl⟩
  | succ k ih =>
    cases l with
    | nil => simp at hk
    | cons x l =>
      obtain ⟨tl, h⟩ := ih (l := l) (by simpa using hk)
      simp only [permutationsAux, List.flatMap_cons, List.erase_cons_head, h, List.map_cons,
        List.cons_append]
      exact ⟨_, rfl⟩

/-- The identity is the first permutation tried. -/
theorem permutations_head (S : ℕ) : ∃ tl, permutations S = List.finRange S :: tl :=
  permutationsAux_head (by simp)

/-- Every permutation list acts as a bijection of the sources. -/
theorem exists_equiv {p : List (Fin S)} (h : p ∈ permutations S) :
    ∃ σ : Equiv.Perm (Fin S), ∀ {γ : Type} (x : Fin S → γ), take x p = x ∘ σ := by
  have hp := mem_permutations.mp h
  have hl := mem_permutations_length h
  have hnd : p.Nodup := hp.nodup_iff.mpr (List.nodup_finRange S)
  let f : Fin S → Fin S := fun k => p.getD k k
  have hf : Function.Injective f := by
    intro a b hab
    simp only [f] at hab
    rw [List.getD_eq_getElem?_getD, List.getD_eq_getElem?_getD, List.getElem?_eq_getElem (by omega),
      List.getElem?_eq_getElem (by omega)] at hab
    exact Fin.ext ((hnd.getElem_inj_iff).mp hab)
  refine ⟨Equiv.ofBijective f (Finite.injective_iff_bijective.mp hf), ?_⟩
  intro γ x
  rfl

/-- Every bijection of the sources is tried. -/
theorem exists_list (σ : Equiv.Perm (Fin S)) :
    ∃ p ∈ permutations S, ∀ {γ : Type} (x : Fin S → γ), take x p = x ∘ σ := by
  refine ⟨(List.finRange S).map σ, ?_, ?_⟩
  · rw [mem_permutations]
    exact Equiv.Perm.map_finRange_perm σ
  · intro γ x
    funext k
    simp [take, List.getD_eq_getElem?_getD]

theorem take_id {γ : Type} (x : Fin S → γ) : take x (List.finRange S) = x := by
  funext k
  simp [take, List.getD_eq_getElem?_getD]

private theorem firstMax_aux (score : β → ℝ) (l : List β) (q : β) :
    ∃ p, l.foldl (better score) (some q) = some p ∧
      (p = q ∨ p ∈ l) ∧ score q ≤ score p ∧ (∀ r ∈ l, score r ≤ score p) ∧
      ((∀ r ∈ l, score r ≤ score q) → p = q) := by
  induction l generalizing q with
  | nil => exact ⟨q, rfl, Or.inl rfl, le_rfl, by simp, fun _ => rfl⟩
  | cons x l ih =>
    rw [List.foldl_cons]
    by_cases h : score x > score q
    · obtain ⟨p, h1, h2, h3, h4, h5⟩ := ih x
      refine ⟨p, by simpa only [better, h, if_true] using h1, ?_, h.le.trans h3, ?_, ?_⟩
      · rcases h2 with h2 | h2 <;> simp [h2]
      · intro r hr
        rcases List.mem_cons.mp hr with rfl | hr
        · exact h3
        · exact h4 r hr
      · intro hall
        exact absurd (hall x (by simp)) (not_le.mpr h)
    · obtain ⟨p, h1, h2, h3, h4, h5⟩ := ih q
      refine ⟨p, by simpa only [better, h, if_false] using h1, ?_, h3, ?_, ?_⟩
      · rcases h2 with h2 | h2 <;> simp [h2]
      · intro r hr
        rcases List.mem_cons.mp hr with rfl | hr
        · exact (not_lt.mp h).trans h3
        · exact h4 r hr
      · intro hall
        exact h5 fun r hr => hall r (List.mem_cons_of_mem _ hr)

/-- `firstMax` returns a maximiser, and the head of the list if that is one. -/
theorem firstMax_spec (score : β → ℝ) (x : β) (l : List β) :
    ∃ p, firstMax score (x :: l) = some p ∧ p ∈ x :: l ∧ (∀ r ∈ x :: l, score r ≤ score p) ∧
      ((∀ r ∈ l, score r ≤ score x) → p = x) := by
  obtain ⟨p, h1, h2, h3, h4, h5⟩ := firstMax_aux score l x
  refine ⟨p, by simpa only [firstMax, List.foldl_cons, better] using h1, ?_, ?_, h5⟩
  · rcases h2 with h2 | h2 <;> simp [h2]
  · intro r hr
    rcases List.mem_cons.mp hr with rfl | hr
    · exact h3
    · exact h4 r hr

/-- What the search over `itertools.permutations` yields: a bijection that maximises the score, the identity
if the identity is optimal. -/
theorem search (score : List (Fin S) → ℝ) :
    ∃ (p : List (Fin S)) (σ : Equiv.Perm (Fin S)), firstMax score (permutations S) = some p ∧
      (∀ {γ : Type} (x : Fin S → γ), take x p = x ∘ σ) ∧ (∀ q ∈ permutations S, score q ≤ score p) ∧
      ((∀ q ∈ permutations S, score q ≤ score (List.finRange S)) → σ = 1) := by
  obtain ⟨tl, htl⟩ := permutations_head S
  obtain ⟨p, h1, h2, h3, h4⟩ := firstMax_spec score (List.finRange S) tl
  rw [htl]
  obtain ⟨σ, hσ⟩ := exists_equiv (p := p) (by rw [htl]; exact h2)
  refine ⟨p, σ, h1, hσ, h3, fun h => ?_⟩
  have hp := h4 fun r hr => h r (List.mem_cons_of_mem _ hr)
  ext1 i
  have := congrFun (hσ (id : Fin S → Fin S)) i
  rw [hp, take_id] at this
  simpa using this.symm

theorem permuteBin_mem (st : Store B S α) (r : ℕ) (b : Fin B) (p : List (Fin S)) (r' : ℕ) :
    (st.permuteBin r b p).mem r' =
      if r' = r then Function.update (st.mem r') b (take (st.mem r' b) p) else st.mem r' := by
  simp only [Store.permuteBin, Function.update_apply]
  split_ifs with h
  · subst h; rfl
  · rfl

theorem permuteBins_mem (l : List ℕ) (hl : l.Nodup) (st : Store B S α) (b : Fin B) (p : List (Fin S))
    (r' : ℕ) : (l.foldl (fun st r => st.permuteBin r b p) st).mem r' =
      if r' ∈ l then Function.update (st.mem r') b (take (st.mem r' b) p) else st.mem r' := by
  induction l generalizing st with
  | nil => simp
  | cons a l ih =>
    rw [List.nodup_cons] at hl
    rw [List.foldl_cons, ih hl.2, permuteBin_mem]
    by_cases h : r' = a
    · subst h
      simp [hl.1]
    · simp [h]

theorem permuteBins_next (l : List ℕ) (st : Store B S α) (b : Fin B) (p : List (Fin S)) :
    (l.foldl (fun st r => st.permuteBin r b p) st).next = st.next := by
  induction l generalizing st with
  | nil => rfl
  | cons a l ih => rw [List.foldl_cons, ih]; rfl

theorem sortAll_mem (l : List ℕ) (hl : l.Nodup) (st : Store B S α) (perm : Fin B → List (Fin S))
    (r' : ℕ) : (l.foldl (fun (st : Store B S α) r =>
        { st with mem := Function.update st.mem r (parallelSort (st.mem r) perm) }) st).mem r' =
      if r' ∈ l then parallelSort (st.mem r') perm else st.mem r' := by
  induction l generalizing st with
  | nil => simp
  | cons a l ih =>
    rw [List.nodup_cons] at hl
    rw [List.foldl_cons, ih hl.2]
    by_cases h : r' = a
    · subst h
      simp [hl.1]
    · simp [h]

theorem sortAll_next (l : List ℕ) (st : Store B S α) (perm : Fin B → List (Fin S)) :
    (l.foldl (fun (st : Store B S α) r =>
        { st with mem := Function.update st.mem r (parallelSort (st.mem r) perm) }) st).next = st.next := by
  induction l generalizing st with
  | nil => rfl
  | cons a l ih => rw [List.foldl_cons, ih]

theorem forall₂_imp_of_mem {R R' : ℕ → ℕ → Prop} {l l' : List ℕ} (H : ∀ a ∈ l, ∀ c, R a c → R' a c)
    (h : List.Forall₂ R l l') : List.Forall₂ R' l l' := by
  induction h with
  | nil => exact .nil
  | cons h _ ih => exact .cons (H _ (by simp) _ h) (ih fun a ha => H a (by simp [ha]))

/-- Copies are new references, pairwise different, holding the same contents; old arrays are untouched. -/
theorem copies_spec (st : Store B S α) (l : List ℕ) (hl : ∀ r ∈ l, r < st.next) :
    st.next ≤ (st.copies l).2.next ∧
    (∀ r < st.next, (st.copies l).2.mem r = st.mem r) ∧
    (∀ r ∈ (st.copies l).1, st.next ≤ r ∧ r < (st.copies l).2.next) ∧ (st.copies l).1.Nodup ∧
    List.Forall₂ (fun a c => (st.copies l).2.mem c = st.mem a) l (st.copies l).1 := by
  induction l generalizing st with
  | nil => simp [Store.copies]
  | cons a l ih =>
    have ha : a < st.next := hl a (by simp)
    obtain ⟨h1, h2, h3, h4, h5⟩ := ih (st.alloc (st.mem a)).2 (fun r hr => by
      have := hl r (by simp [hr])
      simp only [Store.alloc]
      omega)
    simp only [Store.alloc] at h1 h2 h3 h4 h5
    simp only [Store.copies, Store.alloc]
    have hold : ∀ r < st.next, Function.update st.mem st.next (st.mem a) r = st.mem r :=
      fun r hr => Function.update_of_ne (by omega) _ _
    refine ⟨by omega, ?_, ?_, ?_, ?_⟩
    · intro r hr
      rw [h2 r (by omega), hold r hr]
    · intro r hr
      rcases List.mem_cons.mp hr with rfl | hr
      · exact ⟨le_rfl, by omega⟩
      · have := h3 r hr
        omega
    · rw [List.nodup_cons]
      refine ⟨fun h => ?_, h4⟩
      have := (h3 _ h).1
      omega
    · refine List.Forall₂.cons ?_ ?_
      · rw [h2 _ (by omega)]
        simp
      · refine forall₂_imp_of_mem ?_ h5
        intro x hx y hxy
        rw [hxy, hold x (hl x (by simp [hx]))]

/-- numpy's `argsort` contract can be met. -/
noncomputable def someArgsort : Argsort := ⟨fun v => Tuple.sort v, fun v => Tuple.monotone_sort v⟩

end Verif.Permutation
