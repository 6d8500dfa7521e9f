import Mathlib.Data.List.OfFn
import Mathlib.Algebra.BigOperators.Fin
import Mathlib.Data.Fintype.BigOperators
import Verif.Model.Blocks

/-! # C53: the blocks of IPSDTA cover every bin once and in order -/

namespace Verif.Ipsdta

variable {α : Type} {n_bins n_blocks : ℕ}

/-- The bin at position `i` of block `β`. -/
def binOf (n_bins n_blocks : ℕ) : (β : Blk n_bins n_blocks) → Fin (bsize n_bins n_blocks β) → Fin n_bins
  | .inl β => fun i => Fin.cast (blocks_total n_bins n_blocks) (Fin.castAdd _ (finProdFinEquiv (β, i)))
  | .inr β => fun i => Fin.cast (blocks_total n_bins n_blocks) (Fin.natAdd _ (finProdFinEquiv (β, i)))

theorem splitBlocks_eq (h : n_blocks ≠ 0) (x : Fin n_bins → α) :
    splitBlocks n_blocks x = .ok fun β i => x (binOf n_bins n_blocks β i) := by
  have ht := blocks_total n_bins n_blocks
  by_cases hr : n_bins % n_blocks > 0
  · have h1 : (n_blocks - n_bins % n_blocks) * (n_bins / n_blocks)
        = min ((n_blocks - n_bins % n_blocks) * (n_bins / n_blocks)) n_bins := by
      rw [min_eq_left]
      omega
    have h2 : n_bins % n_blocks * (n_bins / n_blocks + 1)
        = n_bins - (n_blocks - n_bins % n_blocks) * (n_bins / n_blocks) := by omega
    simp only [splitBlocks, if_neg h, dif_pos hr, splitAt, reshape, dif_pos h1, dif_pos h2, bind, Except.bind]
    congr 1
    funext β
    cases β <;> rfl
  · have h0 : n_bins % n_blocks = 0 := by omega
    have h1 : (n_blocks - n_bins % n_blocks) * (n_bins / n_blocks) = n_bins := by
      rw [h0] at ht ⊢
      simpa using ht
    simp only [splitBlocks, if_neg h, dif_neg hr, reshape, dif_pos h1, bind, Except.bind]
    congr 1
    funext β
    cases β with
    | inl β => rfl
    | inr β => exact (hr β.pos).elim

private theorem flatten_apply {a b : ℕ} (y : Fin a → Fin b → α) (β : Fin a) (i : Fin b) :
    flatten y (finProdFinEquiv (β, i)) = y β i := by
  have := finProdFinEquiv.symm_apply_apply (β, i)
  simp only [finProdFinEquiv_symm_apply] at this
  rw [flatten, (Prod.mk.inj this).1, (Prod.mk.inj this).2]

theorem joinBlocks_binOf (y : (β : Blk n_bins n_blocks) → Fin (bsize n_bins n_blocks β) → α) (β : Blk n_bins n_blocks)
    (i : Fin (bsize n_bins n_blocks β)) : joinBlocks y (binOf n_bins n_blocks β i) = y β i := by
  cases β with
  | inl β =>
    have := Fin.append_left (flatten fun β => y (.inl β)) (flatten fun β => y (.inr β)) (finProdFinEquiv (β, i))
    exact this.trans (flatten_apply (fun β => y (.inl β)) β i)
  | inr β =>
    have := Fin.append_right (flatten fun β => y (.inl β)) (flatten fun β => y (.inr β)) (finProdFinEquiv (β, i))
    exact this.trans (flatten_apply (fun β => y (.inr β)) β i)

theorem binOf_exists (f : Fin n_bins) : ∃ β i, binOf n_bins n_blocks β i = f := by
  obtain ⟨g, rfl⟩ : ∃ g, f = Fin.cast (blocks_total n_bins n_blocks) g :=
    ⟨Fin.cast (blocks_total n_bins n_blocks).symm f, by simp⟩
  refine Fin.addCases (fun g => ?_) (fun g => ?_) g
  · exact ⟨.inl (finProdFinEquiv.symm g).1, (finProdFinEquiv.symm g).2, by
      simp only [binOf]
      rw [Prod.mk.eta, Equiv.apply_symm_apply]⟩
  · exact ⟨.inr (finProdFinEquiv.symm g).1, (finProdFinEquiv.symm g).2, by
      simp only [binOf]
      rw [Prod.mk.eta, Equiv.apply_symm_apply]⟩

theorem binOf_injective {β β' : Blk n_bins n_blocks} {i : Fin (bsize n_bins n_blocks β)}
    {i' : Fin (bsize n_bins n_blocks β')} (h : binOf n_bins n_blocks β i = binOf n_bins n_blocks β' i') :
    (⟨β, i⟩ : Σ β, Fin (bsize n_bins n_blocks β)) = ⟨β', i'⟩ := by
  have h1 := joinBlocks_binOf (fun β i => (⟨β, i⟩ : Σ β, Fin (bsize n_bins n_blocks β))) β i
  rw [h, joinBlocks_binOf] at h1
  exact h1.symm

/-- A sum over the bins of all blocks is a sum over all bins. -/
theorem sum_blocks {M : Type} [AddCommMonoid M] (g : Fin n_bins → M) :
    ∑ β : Blk n_bins n_blocks, ∑ i, g (binOf n_bins n_blocks β i) = ∑ f, g f := by
  rw [← Fintype.sum_sigma' fun (β : Blk n_bins n_blocks) i => g (binOf n_bins n_blocks β i)]
  refine Fintype.sum_bijective (fun p : Σ β, Fin (bsize n_bins n_blocks β) => binOf n_bins n_blocks p.1 p.2) ⟨?_, ?_⟩ _ _
    fun _ => rfl
  · rintro ⟨β, i⟩ ⟨β', i'⟩ h
    exact binOf_injective h
  · intro f
    obtain ⟨β, i, h⟩ := binOf_exists (n_blocks := n_blocks) f
    exact ⟨⟨β, i⟩, h⟩

private theorem flatten_ofFn {a b : ℕ} (y : Fin a → Fin b → α) :
    (List.ofFn fun β => List.ofFn (y β)).flatten = List.ofFn (flatten y) := by
  rw [List.ofFn_mul]
  congr 2
  funext β
  congr 1
  funext i
  rw [← flatten_apply y β i]
  congr 1
  ext
  simp [finProdFinEquiv, mul_comm, add_comm]

/-- C53: joining the blocks undoes splitting, and splitting undoes joining. -/
theorem C53_join (h : n_blocks ≠ 0) :
    (∀ x : Fin n_bins → α, ∃ y, splitBlocks n_blocks x = .ok y ∧ joinBlocks y = x) ∧
      ∀ y : (β : Blk n_bins n_blocks) → Fin (bsize n_bins n_blocks β) → α, splitBlocks n_blocks (joinBlocks y) = .ok y := by
  refine ⟨fun x => ⟨_, splitBlocks_eq h x, ?_⟩, fun y => ?_⟩
  · funext f
    obtain ⟨β, i, rfl⟩ := binOf_exists (n_blocks := n_blocks) f
    rw [joinBlocks_binOf]
  · rw [splitBlocks_eq h]
    simp only [joinBlocks_binOf]

/-- C53: for every number of bins and every positive number of blocks the split succeeds, and reading the lower blocks
and then the higher blocks one after the other gives back the bins, each exactly once and in order. -/
theorem C53_split (h : n_blocks ≠ 0) (x : Fin n_bins → α) :
    ∃ y, splitBlocks n_blocks x = .ok y ∧
      (List.ofFn fun β => List.ofFn (y (.inl β))).flatten ++ (List.ofFn fun β => List.ofFn (y (.inr β))).flatten
        = List.ofFn x := by
  obtain ⟨y, h1, hx⟩ := (C53_join (α := α) (n_bins := n_bins) h).1 x
  refine ⟨y, h1, ?_⟩
  rw [← hx, List.ofFn_congr (blocks_total n_bins n_blocks).symm]
  have := List.ofFn_fin_append (flatten fun β => y (.inl β)) (flatten fun β => y (.inr β))
  have e1 := flatten_ofFn fun β => y (.inl β)
  have e2 := flatten_ofFn fun β => y (.inr β)
  exact (congrArg₂ (· ++ ·) e1 e2).trans this.symm

/-- C53: there are `n_blocks` blocks, their sizes differ by at most one and add up to the number of bins. -/
theorem C53_sizes (h : n_blocks ≠ 0) : Fintype.card (Blk n_bins n_blocks) = n_blocks ∧
    (∀ β β', bsize n_bins n_blocks β ≤ bsize n_bins n_blocks β' + 1) ∧ ∑ β, bsize n_bins n_blocks β = n_bins := by
  refine ⟨?_, ?_, ?_⟩
  · have := Nat.mod_lt n_bins (Nat.pos_of_ne_zero h)
    simp only [Fintype.card_sum, Fintype.card_fin]
    omega
  · rintro (β | β) (β' | β') <;> simp only [bsize] <;> omega
  · simp [Fintype.sum_sum_type, bsize, blocks_total]

/-- C53: without blocks the object raises `ZeroDivisionError`. -/
theorem C53_no_blocks (x : Fin n_bins → α) : splitBlocks 0 x = .error .zeroDivision := by
  simp [splitBlocks, bind, Except.bind]

/-- Seven bins in three blocks: 2, 2 and 3 bins; two bins in three blocks: an empty block. -/
example : bsize 7 3 (.inl 0) = 2 ∧ bsize 7 3 (.inl 1) = 2 ∧ bsize 7 3 (.inr 0) = 3 ∧ bsize 2 3 (.inl 0) = 0 := by
  decide

end Verif.Ipsdta
