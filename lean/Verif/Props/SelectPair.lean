import Verif.Model.SelectPair
import Mathlib.Tactic.Ring
import Mathlib.Tactic.Linarith
import Mathlib.Data.List.Count
import Mathlib.Data.List.Nodup
import Mathlib.Data.List.Range

/-! # Properties C08–C09: pair selectors -/

namespace Verif.SelectPair

/-! ## C08 -/

/-- C08. Every yielded pair consists of two different valid indices which are cyclic neighbours, ordered if
asked for; whatever `stop` and `step` are. -/
theorem C08_pairs_valid (n : Nat) (hn : 2 ≤ n) (stop : Option Int) (step : Int) (sort : Bool)
    (ps : List (Int × Int)) (h : sequentialPairSelector n stop step sort = .ok ps) :
    ∀ p ∈ ps, 0 ≤ p.1 ∧ p.1 < n ∧ 0 ≤ p.2 ∧ p.2 < n ∧ p.1 ≠ p.2 ∧ (sort = true → p.1 < p.2) ∧
      (p.2 = (p.1 + 1) % n ∨ (sort = true ∧ p.1 = (p.2 + 1) % n)) := by
  unfold sequentialPairSelector at h
  cases hr : pyRange (stop.getD n) step with
  | error e => simp [hr, bind, Except.bind] at h
  | ok ms =>
    simp only [hr, bind, Except.bind] at h
    rw [if_neg (by omega)] at h
    injection h with h
    subst h
    intro p hp
    obtain ⟨m, -, rfl⟩ := List.mem_map.1 hp
    have hn0 : (0 : Int) < n := by omega
    have h1 := Int.emod_nonneg m hn0.ne'
    have h2 := Int.emod_lt_of_pos m hn0
    have h3 := Int.emod_nonneg (m + 1) hn0.ne'
    have h4 := Int.emod_lt_of_pos (m + 1) hn0
    have h5 : (m + 1) % n = (m % n + 1) % n := by rw [Int.emod_add_emod]
    have hne : m % n ≠ (m + 1) % n := by
      rw [h5]
      by_cases hl : m % n + 1 < n
      · rw [Int.emod_eq_of_lt (by omega) hl]; omega
      · have : m % n + 1 = n := by omega
        rw [this, Int.emod_self]; omega
    unfold sortPair
    cases sort
    · refine ⟨h1, h2, h3, h4, hne, by simp, Or.inl h5⟩
    · simp only [if_true]
      split
      · rename_i hgt
        exact ⟨h3, h4, h1, h2, hne.symm, fun _ => hgt, Or.inr ⟨trivial, h5⟩⟩
      · rename_i hgt
        have hgt' : ¬ (m % n > (m + 1) % n) := hgt
        exact ⟨h1, h2, h3, h4, hne, fun _ => show m % n < (m + 1) % n by omega, Or.inl h5⟩

theorem selector_default (n : Nat) (hn : 2 ≤ n) (sort : Bool) :
    sequentialPairSelector n none 1 sort =
      .ok ((List.range n).map fun (m : Nat) => sortPair sort ((m : Int), ((m + 1 : Nat) : Int) % n)) := by
  have hr : pyRange n 1 = .ok ((List.range n).map fun (i : Nat) => (i : Int)) := by
    simp [pyRange]
  unfold sequentialPairSelector
  simp only [Option.getD_none, hr, bind, Except.bind]
  rw [if_neg (by omega)]
  simp only [pure, Except.pure, List.map_map]
  congr 1
  apply List.map_congr_left
  intro m hm
  have : m < n := by simpa using hm
  simp only [Function.comp_apply]
  rw [Int.emod_eq_of_lt (by omega) (by omega)]
  push_cast
  rfl

/-- C08. With the default `stop` and `step`, each source is the first member of exactly one pair and the second
member of exactly one pair (unsorted). -/
theorem C08_each_source_once_per_position (n : Nat) (hn : 2 ≤ n) :
    ∃ ps, sequentialPairSelector n none 1 false = .ok ps ∧ ps.length = n ∧
      ∀ i : Nat, i < n → (ps.map Prod.fst).count (i : Int) = 1 ∧ (ps.map Prod.snd).count (i : Int) = 1 := by
  refine ⟨_, selector_default n hn false, by simp, ?_⟩
  intro i hi
  have inj1 : ((List.range n).map fun (m : Nat) => (m : Int)).Nodup :=
    List.nodup_range.map (fun a b h => by exact_mod_cast h)
  have inj2 : ((List.range n).map fun (m : Nat) => ((m + 1 : Nat) : Int) % n).Nodup := by
    refine List.Nodup.map_on ?_ List.nodup_range
    intro a ha b hb hab
    have ha' : a < n := by simpa using ha
    have hb' : b < n := by simpa using hb
    have hab' : (a + 1) % n = (b + 1) % n := by exact_mod_cast hab
    by_cases h1 : a + 1 = n <;> by_cases h2 : b + 1 = n
    · omega
    · rw [h1, Nat.mod_self, Nat.mod_eq_of_lt (by omega)] at hab'; omega
    · rw [h2, Nat.mod_self, Nat.mod_eq_of_lt (by omega)] at hab'; omega
    · rw [Nat.mod_eq_of_lt (by omega), Nat.mod_eq_of_lt (by omega)] at hab'; omega
  simp only [List.map_map, Function.comp_def, sortPair, Bool.false_eq_true, if_false]
  constructor
  · exact List.count_eq_one_of_mem inj1 (List.mem_map.2 ⟨i, by simpa using hi, rfl⟩)
  · refine List.count_eq_one_of_mem inj2 (List.mem_map.2 ?_)
    by_cases h0 : i = 0
    · refine ⟨n - 1, by simp; omega, ?_⟩
      rw [Nat.sub_add_cancel (by omega), h0]
      simp
    · refine ⟨i - 1, by simp; omega, ?_⟩
      rw [Nat.sub_add_cancel (by omega)]
      exact Int.emod_eq_of_lt (by omega) (by omega)

/-- C08. … hence, sorted or not, each source occurs in exactly two of the yielded pairs. -/
theorem C08_each_source_in_two_pairs (n : Nat) (hn : 2 ≤ n) (sort : Bool) :
    ∃ ps, sequentialPairSelector n none 1 sort = .ok ps ∧
      ∀ i : Nat, i < n → ps.countP (fun p => p.1 = (i : Int) ∨ p.2 = (i : Int)) = 2 := by
  have key : ∀ (ps : List (Int × Int)) (i : Int), (∀ p ∈ ps, p.1 ≠ p.2) →
      ps.countP (fun p => p.1 = i ∨ p.2 = i) = (ps.map Prod.fst).count i + (ps.map Prod.snd).count i := by
    intro ps i
    induction ps with
    | nil => simp
    | cons p ps ih =>
      intro h
      have h1 := h p (by simp)
      have h2 := ih (fun q hq => h q (by simp [hq]))
      rw [List.countP_cons, h2, List.map_cons, List.map_cons, List.count_cons, List.count_cons]
      by_cases ha : p.1 = i <;> by_cases hb : p.2 = i <;> simp [ha, hb]
      · exact absurd (ha.trans hb.symm) h1
      all_goals omega
  obtain ⟨ps, h1, -, h2⟩ := C08_each_source_once_per_position n hn
  have hv := C08_pairs_valid n hn none 1 false ps h1
  refine ⟨ps.map (sortPair sort), ?_, ?_⟩
  · rw [selector_default n hn] at h1 ⊢
    injection h1 with h1
    subst h1
    simp only [List.map_map]
    congr 1
  · intro i hi
    have hs : ps.countP ((fun p => decide (p.1 = (i : Int) ∨ p.2 = (i : Int))) ∘ sortPair sort) =
        ps.countP (fun p => decide (p.1 = (i : Int) ∨ p.2 = (i : Int))) := by
      congr 1
      funext p
      simp only [Function.comp_apply, sortPair]
      split
      · split <;> simp [or_comm]
      · rfl
    rw [List.countP_map, hs, key ps i (fun p hp => (hv p hp).2.2.2.2.1), (h2 i hi).1, (h2 i hi).2]

/-- C08. With `step=2` every source still occurs in some pair. -/
theorem C08_step_two_covers (n : Nat) (hn : 2 ≤ n) (sort : Bool) :
    ∃ ps, sequentialPairSelector n none 2 sort = .ok ps ∧
      ∀ i : Nat, i < n → ∃ p ∈ ps, p.1 = (i : Int) ∨ p.2 = (i : Int) := by
  have hr : pyRange n 2 = .ok ((List.range ((n + 1) / 2)).map fun (i : Nat) => (i : Int) * 2) := by
    have : (((n : Int) + 2 - 1) / 2).toNat = (n + 1) / 2 := by omega
    simp [pyRange, this]
  refine ⟨_, by
    unfold sequentialPairSelector
    simp only [Option.getD_none, hr, bind, Except.bind]
    rw [if_neg (by omega)]
    rfl, ?_⟩
  intro i hi
  rw [List.map_map]
  refine ⟨_, List.mem_map.2 ⟨i / 2, by simp; omega, rfl⟩, ?_⟩
  simp only [Function.comp_apply, sortPair]
  have e : (((i / 2 : Nat) : Int) * 2) % n = ((i / 2 * 2 : Nat) : Int) := by
    have : i / 2 * 2 < n := by omega
    rw [Int.emod_eq_of_lt (by omega) (by omega)]; push_cast; rfl
  have base : (((i / 2 : Nat) : Int) * 2) % n = (i : Int) ∨ (((i / 2 : Nat) : Int) * 2 + 1) % n = (i : Int) := by
    by_cases hp : i % 2 = 0
    · left; rw [e]; omega
    · right; rw [Int.emod_eq_of_lt (by omega) (by omega)]; omega
  split
  · split
    · exact base.symm
    · exact base
  · exact base

example : sequentialPairSelector 4 none 1 false = .ok [(0, 1), (1, 2), (2, 3), (3, 0)] := rfl
example : sequentialPairSelector 5 (some 9) 2 true = .ok [(0, 1), (2, 3), (0, 4), (1, 2), (3, 4)] := rfl

/-! ## C09 -/

theorem mem_combinations2 {l : List Int} (hl : l.Pairwise (· < ·)) (a b : Int) :
    (a, b) ∈ combinations2 l ↔ a ∈ l ∧ b ∈ l ∧ a < b := by
  induction l with
  | nil => simp [combinations2]
  | cons x xs ih =>
    rw [List.pairwise_cons] at hl
    have := ih hl.2
    simp only [combinations2, List.mem_append, List.mem_map, Prod.mk.injEq, this, List.mem_cons]
    constructor
    · rintro (⟨y, hy, rfl, rfl⟩ | ⟨h1, h2, h3⟩)
      · exact ⟨Or.inl rfl, Or.inr hy, hl.1 _ hy⟩
      · exact ⟨Or.inr h1, Or.inr h2, h3⟩
    · rintro ⟨rfl | h1, rfl | h2, h3⟩
      · omega
      · exact Or.inl ⟨b, h2, rfl, rfl⟩
      · exact absurd (hl.1 _ h1) (by omega)
      · exact Or.inr ⟨h1, h2, h3⟩

theorem nodup_combinations2 {l : List Int} (hl : l.Pairwise (· < ·)) : (combinations2 l).Nodup := by
  induction l with
  | nil => simp [combinations2]
  | cons x xs ih =>
    have hl' := List.pairwise_cons.1 hl
    rw [combinations2, List.nodup_append]
    refine ⟨?_, ih hl'.2, ?_⟩
    · refine List.Nodup.map (fun a b h => by simpa using h) ?_
      exact hl'.2.imp (fun h => by omega)
    · rintro ⟨a, b⟩ h1 ⟨c, d⟩ h2 heq
      obtain ⟨y, hy, e⟩ := List.mem_map.1 h1
      rw [← heq] at h2
      have h3 := ((mem_combinations2 hl'.2 a b).1 h2).1
      injection e with e1 e2
      subst e1
      exact absurd (hl'.1 _ h3) (by omega)

theorem length_combinations2 {α : Type} (l : List α) : 2 * (combinations2 l).length = l.length * (l.length - 1) := by
  induction l with
  | nil => rfl
  | cons x xs ih =>
    simp only [combinations2, List.length_append, List.length_map, List.length_cons, Nat.mul_add, ih,
      Nat.add_sub_cancel]
    cases h : xs.length with
    | zero => simp
    | succ k => simp; ring

theorem sources_pairwise (n : Nat) : ((List.range n).map fun (i : Nat) => (i : Int)).Pairwise (· < ·) := by
  rw [List.pairwise_map]
  exact List.pairwise_lt_range.imp (fun h => by exact_mod_cast h)

/-- C09. The yielded list has no repetition, and a pair `(a, b)` is in it iff `0 ≤ a < b < n`: every unordered
pair of different sources exactly once.  `sort` makes no difference. -/
theorem C09_enumerates_all_pairs (n : Nat) (sort : Bool) :
    (combinationPairSelector n sort).Nodup ∧
    (∀ a b : Int, (a, b) ∈ combinationPairSelector n sort ↔ 0 ≤ a ∧ a < b ∧ b < n) ∧
    2 * (combinationPairSelector n sort).length = n * (n - 1) := by
  have hmap : combinationPairSelector n sort = combinations2 ((List.range n).map fun (i : Nat) => (i : Int)) := by
    unfold combinationPairSelector
    conv_rhs => rw [← List.map_id (combinations2 _)]
    apply List.map_congr_left
    rintro ⟨a, b⟩ hp
    have := ((mem_combinations2 (sources_pairwise n) a b).1 hp).2.2
    simp only [sortPair, id]
    split
    · rw [if_neg (by omega)]
    · rfl
  rw [hmap]
  refine ⟨nodup_combinations2 (sources_pairwise n), ?_, by rw [length_combinations2]; simp⟩
  intro a b
  rw [mem_combinations2 (sources_pairwise n)]
  simp only [List.mem_map, List.mem_range]
  constructor
  · rintro ⟨⟨i, hi, rfl⟩, ⟨j, hj, rfl⟩, h⟩; omega
  · rintro ⟨h1, h2, h3⟩
    exact ⟨⟨a.toNat, by omega, by omega⟩, ⟨b.toNat, by omega, by omega⟩, h2⟩

example : combinationPairSelector 4 true = [(0, 1), (0, 2), (0, 3), (1, 2), (1, 3), (2, 3)] := rfl

end Verif.SelectPair
