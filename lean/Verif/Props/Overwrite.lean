import Verif.Model.Overwrite
import Verif.Lemmas.Run

/-! # Property C29 for the spatial updates -/

namespace Verif.Overwrite

open Spatial

variable {A ι F : Type} {n : ℕ}

theorem loop_other (body : A → ι → Except PyErr A) (r : ℕ) (is : List ι) (st : Store A) {r' : ℕ} (h : r' ≠ r) :
    (loopInPlace body r is st).2.mem r' = st.mem r' := by
  induction is generalizing st with
  | nil => rfl
  | cons i is ih =>
    rw [loopInPlace]
    cases hb : body (st.mem r) i with
    | error e => rfl
    | ok a => exact (ih _).trans (Function.update_of_ne h _ _)

theorem loop_ok (body : A → ι → Except PyErr A) (r : ℕ) (is : List ι) (st : Store A) {a : A}
    (h : is.foldlM body (st.mem r) = .ok a) :
    (loopInPlace body r is st).1 = .ok () ∧ (loopInPlace body r is st).2.mem r = a := by
  induction is generalizing st with
  | nil => exact ⟨rfl, Except.ok.inj h⟩
  | cons i is ih =>
    rw [List.foldlM_cons] at h
    rw [loopInPlace]
    cases hb : body (st.mem r) i with
    | error e => rw [hb] at h; simp [bind, Except.bind] at h
    | ok a' =>
      rw [hb] at h
      refine ih _ ?_
      simp only [Store.write, Function.update_self]
      exact h

theorem loop_error (body : A → ι → Except PyErr A) (r : ℕ) (is : List ι) (st : Store A) {e : PyErr}
    (h : is.foldlM body (st.mem r) = .error e) :
    (loopInPlace body r is st).1 = .error e ∧
      ∃ done i todo, is = done ++ i :: todo ∧
        done.foldlM body (st.mem r) = .ok ((loopInPlace body r is st).2.mem r) ∧
        body ((loopInPlace body r is st).2.mem r) i = .error e := by
  induction is generalizing st with
  | nil => simp [List.foldlM_nil, pure, Except.pure] at h
  | cons i is ih =>
    rw [List.foldlM_cons] at h
    cases hb : body (st.mem r) i with
    | error e' =>
      rw [hb] at h
      obtain rfl : e' = e := by simpa [bind, Except.bind] using h
      simp only [loopInPlace, hb]
      exact ⟨trivial, [], i, is, rfl, rfl, hb⟩
    | ok a' =>
      rw [hb] at h
      simp only [loopInPlace, hb]
      have hm : (st.write r a').mem r = a' := Function.update_self _ _ _
      obtain ⟨h1, done, j, todo, h2, h3, h4⟩ := ih (st.write r a') (by rw [hm]; exact h)
      refine ⟨h1, i :: done, j, todo, by rw [h2]; rfl, ?_, h4⟩
      rw [List.foldlM_cons, hb]
      rw [hm] at h3
      exact h3

/-- What `overwrite` promises for an in-place loop whose value on array contents is `run`. -/
theorem update_spec (body : A → ι → Except PyErr A) (is : List ι) (overwrite : Bool) (r : ℕ) (st : Store A) :
    (overwrite = false → (∀ r' < st.next, (updateInPlace body is overwrite r st).2.mem r' = st.mem r') ∧
      ∀ a, is.foldlM body (st.mem r) = .ok a → (updateInPlace body is overwrite r st).1 = .ok st.next ∧
        (updateInPlace body is overwrite r st).2.mem st.next = a) ∧
    (overwrite = true → (∀ r' ≠ r, (updateInPlace body is overwrite r st).2.mem r' = st.mem r') ∧
      ∀ a, is.foldlM body (st.mem r) = .ok a → (updateInPlace body is overwrite r st).1 = .ok r ∧
        (updateInPlace body is overwrite r st).2.mem r = a) ∧
    ∀ e, is.foldlM body (st.mem r) = .error e → (updateInPlace body is overwrite r st).1 = .error e := by
  have hal : (st.alloc (st.mem r)).2.mem st.next = st.mem r := Function.update_self _ _ _
  refine ⟨?_, ?_, ?_⟩
  · rintro rfl
    refine ⟨fun r' hr' => ?_, fun a ha => ?_⟩
    · simp only [updateInPlace, Bool.false_eq_true, if_false]
      rw [loop_other _ _ _ _ (by simp only [Store.alloc]; omega)]
      simp only [Store.alloc]
      exact Function.update_of_ne (by omega) _ _
    · obtain ⟨h1, h2⟩ := loop_ok body st.next is (st.alloc (st.mem r)).2 (by rw [hal]; exact ha)
      simp only [updateInPlace, Bool.false_eq_true, if_false]
      constructor
      · simp only [Store.alloc] at h1 ⊢
        rw [h1]
        rfl
      · exact h2
  · rintro rfl
    refine ⟨fun r' hr' => ?_, fun a ha => ?_⟩
    · simp only [updateInPlace, if_true]
      exact loop_other _ _ _ _ hr'
    · obtain ⟨h1, h2⟩ := loop_ok body r is st ha
      simp only [updateInPlace, if_true]
      exact ⟨by rw [h1]; rfl, h2⟩
  · intro e he
    cases overwrite
    · have := (loop_error body st.next is (st.alloc (st.mem r)).2 (by rw [hal]; exact he)).1
      simp only [updateInPlace, Bool.false_eq_true, if_false]
      simp only [Store.alloc] at this ⊢
      rw [this]
      rfl
    · simp only [updateInPlace, if_true]
      rw [(loop_error body r is st he).1]
      rfl

/-- C29 for `update_by_ip1`. With `overwrite=False` no array of the caller changes, even if the call raises, and the result
is a new array; with `overwrite=True` the result is the caller's array and no other array changes. Either way the result
holds the updated filter of every bin. -/
theorem C29_ip1 (floor : ℝ → ℝ) (U : F → Fin n → Mat n ℂ) (overwrite : Bool) (r : ℕ) (st : Store (F → Mat n ℂ)) :
    (overwrite = false → ∀ r' < st.next, (updateByIp1 floor U overwrite r st).2.mem r' = st.mem r') ∧
    (overwrite = true → ∀ r' ≠ r, (updateByIp1 floor U overwrite r st).2.mem r' = st.mem r') ∧
    ∀ W', (∀ f, ip1 floor (U f) (st.mem r f) = .ok (W' f)) →
      ∃ r₂, (updateByIp1 floor U overwrite r st).1 = .ok r₂ ∧ (updateByIp1 floor U overwrite r st).2.mem r₂ = W' ∧
        (overwrite = false → st.next ≤ r₂) ∧ (overwrite = true → r₂ = r) := by
  obtain ⟨h1, h2, -⟩ := update_spec (fun W src => onBins fun f => ip1Row floor (U f) (W f) src) (List.finRange n)
    overwrite r st
  refine ⟨fun h => (h1 h).1, fun h => (h2 h).1, fun W' hW' => ?_⟩
  have hf := foldlM_onBins (fun f W src => ip1Row floor (U f) W src) (List.finRange n) (st.mem r) W' hW'
  cases overwrite
  · obtain ⟨a, b⟩ := (h1 rfl).2 _ hf
    exact ⟨st.next, a, b, fun _ => le_rfl, (fun h => by cases h)⟩
  · obtain ⟨a, b⟩ := (h2 rfl).2 _ hf
    exact ⟨r, a, b, (fun h => by cases h), fun _ => rfl⟩

/-- C29 for `update_by_ip2`. -/
theorem C29_ip2 (np : Numpy ℂ) (floor : ℝ → ℝ) (pairs : List (Fin n × Fin n)) (U : F → Fin n → Mat n ℂ)
    (overwrite : Bool) (r : ℕ) (st : Store (F → Mat n ℂ)) :
    (overwrite = false → ∀ r' < st.next, (updateByIp2 np floor pairs U overwrite r st).2.mem r' = st.mem r') ∧
    (overwrite = true → ∀ r' ≠ r, (updateByIp2 np floor pairs U overwrite r st).2.mem r' = st.mem r') ∧
    ∀ W', (∀ f, ip2 np floor pairs (U f) (st.mem r f) = .ok (W' f)) →
      ∃ r₂, (updateByIp2 np floor pairs U overwrite r st).1 = .ok r₂ ∧
        (updateByIp2 np floor pairs U overwrite r st).2.mem r₂ = W' ∧
        (overwrite = false → st.next ≤ r₂) ∧ (overwrite = true → r₂ = r) := by
  obtain ⟨h1, h2, -⟩ := update_spec (fun W p => onBins fun f => ip2Pair np floor (U f) (W f) p) pairs
    overwrite r st
  refine ⟨fun h => (h1 h).1, fun h => (h2 h).1, fun W' hW' => ?_⟩
  have hf := foldlM_onBins (fun f W p => ip2Pair np floor (U f) W p) pairs (st.mem r) W' hW'
  cases overwrite
  · obtain ⟨a, b⟩ := (h1 rfl).2 _ hf
    exact ⟨st.next, a, b, fun _ => le_rfl, (fun h => by cases h)⟩
  · obtain ⟨a, b⟩ := (h2 rfl).2 _ hf
    exact ⟨r, a, b, (fun h => by cases h), fun _ => rfl⟩

/-- C29 for `update_by_block_decomposition_vcd`. -/
theorem C29_vcd {b : ℕ} (singular : ℂ → Prop) (R : F → Fin b → Fin b → Fin n → Mat n ℂ)
    (overwrite : Bool) (r : ℕ) (st : Store (F → Fin b → Mat n ℂ)) :
    (overwrite = false → ∀ r' < st.next, (updateByVcd singular R overwrite r st).2.mem r' = st.mem r') ∧
    (overwrite = true → ∀ r' ≠ r, (updateByVcd singular R overwrite r st).2.mem r' = st.mem r') ∧
    ∀ W', (∀ f, vcd singular (R f) (st.mem r f) = .ok (W' f)) →
      ∃ r₂, (updateByVcd singular R overwrite r st).1 = .ok r₂ ∧
        (updateByVcd singular R overwrite r st).2.mem r₂ = W' ∧
        (overwrite = false → st.next ≤ r₂) ∧ (overwrite = true → r₂ = r) := by
  obtain ⟨h1, h2, -⟩ := update_spec (fun W ik => onBins fun f => vcdStep singular (R f) (W f) ik)
    ((List.finRange b).flatMap fun i => (List.finRange n).map fun k => (i, k)) overwrite r st
  refine ⟨fun h => (h1 h).1, fun h => (h2 h).1, fun W' hW' => ?_⟩
  have hf := foldlM_onBins (fun f W ik => vcdStep singular (R f) W ik) _ (st.mem r) W' hW'
  cases overwrite
  · obtain ⟨a, b⟩ := (h1 rfl).2 _ hf
    exact ⟨st.next, a, b, fun _ => le_rfl, (fun h => by cases h)⟩
  · obtain ⟨a, b⟩ := (h2 rfl).2 _ hf
    exact ⟨r, a, b, (fun h => by cases h), fun _ => rfl⟩

/-- C29. If a call of `update_by_ip1` with `overwrite=True` raises, the caller's filter is left half-updated: the rows of the
sources before the failing one already hold their new values. -/
theorem C29_ip1_error (floor : ℝ → ℝ) (U : F → Fin n → Mat n ℂ) (r : ℕ) (st : Store (F → Mat n ℂ)) {e : PyErr}
    (h : (updateByIp1 floor U true r st).1 = .error e) :
    ∃ done src todo, List.finRange n = done ++ src :: todo ∧
      done.foldlM (fun W src => onBins fun f => ip1Row floor (U f) (W f) src) (st.mem r)
        = .ok ((updateByIp1 floor U true r st).2.mem r) := by
  have hfold : ∃ e, (List.finRange n).foldlM (fun W src => onBins fun f => ip1Row floor (U f) (W f) src) (st.mem r)
      = .error e := by
    cases hf : (List.finRange n).foldlM (fun W src => onBins fun f => ip1Row floor (U f) (W f) src) (st.mem r) with
    | error e => exact ⟨e, rfl⟩
    | ok a =>
      have := (loop_ok _ r _ st hf).1
      simp only [updateByIp1, updateInPlace, if_true] at h
      rw [this] at h
      cases h
  obtain ⟨e', he'⟩ := hfold
  obtain ⟨-, done, src, todo, h2, h3, -⟩ := loop_error _ r _ st he'
  exact ⟨done, src, todo, h2, h3⟩

/-- Non-trivial: one bin, one source, identity filter, covariance 4: the filter is halved, in the caller's array with
`overwrite=True` and in a new one otherwise. -/
example (overwrite : Bool) : ∃ r₂,
    (updateByIp1 (F := Unit) (n := 1) id (fun _ _ => !![4]) overwrite 0 ⟨fun _ _ => 1, 1⟩).1 = .ok r₂ ∧
    (updateByIp1 (F := Unit) (n := 1) id (fun _ _ => !![4]) overwrite 0 ⟨fun _ _ => 1, 1⟩).2.mem r₂ = fun _ => !![1 / 2] := by
  have h4 : IsUnit ((1 : Mat 1 ℂ) * !![4]).det := by
    rw [isUnit_iff_ne_zero]; simp
  have hs : Real.sqrt (1 / 4) = 1 / 2 := by
    rw [show (1 / 4 : ℝ) = (1 / 2) ^ 2 by norm_num, Real.sqrt_sq (by norm_num)]
  have h : ∀ _ : Unit, ip1 id (fun _ => !![4]) (1 : Mat 1 ℂ) = .ok !![1 / 2] := by
    intro _
    have hsv : solveVec ((1 : Mat 1 ℂ) * !![4]) (Pi.single 0 1) = .ok fun _ => 1 / 4 := by
      rw [solveVec, npSolve, if_pos h4]
      simp only [bind, Except.bind]
      congr 1
      funext i
      fin_cases i
      simp [Matrix.mul_apply]
    have hrow : ip1Row id (fun _ => !![4]) (1 : Mat 1 ℂ) 0 = .ok !![1 / 2] := by
      rw [ip1Row]
      simp only [hsv, bind, Except.bind]
      congr 1
      ext i j
      fin_cases i; fin_cases j
      have hh : hUh (!![4] : Mat 1 ℂ) (fun _ => 1 / 4) = 1 / 4 := by
        simp [hUh, dotProduct, Matrix.mulVec]
      simp only [hh, id, hs]
      simp
      norm_num
    rw [ip1, show List.finRange 1 = [0] from rfl, List.foldlM_cons, hrow]
    rfl
  obtain ⟨-, -, h3⟩ := C29_ip1 (F := Unit) (n := 1) id (fun _ _ => !![4]) overwrite 0 ⟨fun _ _ => 1, 1⟩
  obtain ⟨r₂, a, b, -⟩ := h3 (fun _ => !![1 / 2]) h
  exact ⟨r₂, a, b⟩

end Verif.Overwrite
