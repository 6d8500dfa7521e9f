import Mathlib.Analysis.Fourier.ZMod
import Verif.Model.Hva

/-!
# `irfft` of a real vector is the discrete Fourier transform of its even extension

With `m + 2` bins the extension has `2 * (m + 1)` points.
-/

namespace Verif.Hva

open ZMod

variable {m : ℕ}

/-- The index of a bin and of its mirror image. -/
def fold (j : ZMod (2 * (m + 1))) : Fin (m + 2) :=
  ⟨min j.val (2 * (m + 1) - j.val), by
    have := ZMod.val_lt j
    omega⟩

/-- The even extension of a spectrum given for the bins `0, ..., m + 1`. -/
def evenExt (a : Fin (m + 2) → ℝ) (j : ZMod (2 * (m + 1))) : ℂ := a (fold j)

theorem fold_neg (j : ZMod (2 * (m + 1))) : fold (-j) = fold j := by
  rw [fold, fold]
  congr 1
  rw [ZMod.neg_val]
  have := ZMod.val_lt j
  split_ifs with h
  · rw [h, ZMod.val_zero]
  · omega

theorem fold_nat (k : Fin (m + 2)) : fold ((k.val : ℕ) : ZMod (2 * (m + 1))) = k := by
  apply Fin.ext
  have h : ((k.val : ℕ) : ZMod (2 * (m + 1))).val = k.val := ZMod.val_cast_of_lt (by omega)
  rw [fold]
  simp only [h]
  omega

theorem evenExt_neg (a : Fin (m + 2) → ℝ) (j : ZMod (2 * (m + 1))) : evenExt a (-j) = evenExt a j := by
  rw [evenExt, evenExt, fold_neg]

/-- A sum of a function with `g (N - j) = g j`. -/
theorem sum_even (g : ℕ → ℝ) (hg : ∀ j, j ≤ m + 1 → g (2 * (m + 1) - j) = g j) :
    ∑ j ∈ Finset.range (2 * (m + 1)), g j =
      ∑ f : Fin (m + 2), (if f.val = 0 ∨ f.val = m + 1 then 1 else 2) * g f := by
  have h1 : ∑ j ∈ Finset.range (2 * (m + 1)), g j =
      ∑ j ∈ Finset.range (m + 1), g j + ∑ j ∈ Finset.range (m + 1), g (j + 1) := by
    rw [two_mul, Finset.sum_range_add]
    congr 1
    rw [← Finset.sum_range_reflect]
    refine Finset.sum_congr rfl fun j hj => ?_
    have := Finset.mem_range.1 hj
    rw [← hg (j + 1) (by omega)]
    congr 1
    omega
  rw [h1, Finset.sum_range_succ', Finset.sum_range_succ (fun j => g (j + 1)), Fin.sum_univ_castSucc, Fin.sum_univ_succ]
  have h2 : ∀ i : Fin m, (if (i.succ.castSucc : Fin (m + 2)).val = 0 ∨ (i.succ.castSucc : Fin (m + 2)).val = m + 1
      then (1 : ℝ) else 2) * g (i.succ.castSucc : Fin (m + 2)).val = 2 * g (i + 1) := by
    intro i
    rw [if_neg]
    · rfl
    · simp only [Fin.val_castSucc, Fin.val_succ]
      omega
  rw [Finset.sum_congr rfl fun i _ => h2 i, ← Finset.mul_sum, ← Finset.sum_range (fun i => g (i + 1))]
  simp
  ring

/-- The transform of the even extension. -/
theorem dft_evenExt (a : Fin (m + 2) → ℝ) (k : Fin (m + 2)) :
    dft (evenExt a) ((k.val : ℕ) : ZMod (2 * (m + 1))) = (irfft .forward a k : ℂ) := by
  obtain ⟨N, hN⟩ : ∃ N, N = 2 * (m + 1) := ⟨_, rfl⟩
  have h0 : dft (evenExt a) ((k.val : ℕ) : ZMod (2 * (m + 1))) =
      ∑ j : ZMod (2 * (m + 1)), (stdAddChar (j * ((k.val : ℕ) : ZMod (2 * (m + 1))))) * evenExt a j := by
    rw [dft_apply, ← Equiv.sum_comp (Equiv.neg _)]
    refine Finset.sum_congr rfl fun j _ => ?_
    rw [Equiv.neg_apply, neg_mul, neg_neg, evenExt_neg, smul_eq_mul]
  have h1 : dft (evenExt a) ((k.val : ℕ) : ZMod (2 * (m + 1))) =
      ∑ j : ZMod (2 * (m + 1)), ((Real.cos (2 * Real.pi * (j.val * k.val) / ((2 * (m + 1) : ℕ) : ℝ)) : ℝ) : ℂ)
        * evenExt a j := by
    have h2 : dft (evenExt a) ((k.val : ℕ) : ZMod (2 * (m + 1))) =
        ∑ j : ZMod (2 * (m + 1)), ((stdAddChar (j * ((k.val : ℕ) : ZMod (2 * (m + 1))))
          + stdAddChar (-(j * ((k.val : ℕ) : ZMod (2 * (m + 1)))))) / 2) * evenExt a j := by
      have h3 := dft_apply (evenExt a) ((k.val : ℕ) : ZMod (2 * (m + 1)))
      have h4 : dft (evenExt a) ((k.val : ℕ) : ZMod (2 * (m + 1))) =
        (dft (evenExt a) ((k.val : ℕ) : ZMod (2 * (m + 1))) + dft (evenExt a) ((k.val : ℕ) : ZMod (2 * (m + 1)))) / 2 := by
        ring
      rw [h4]
      nth_rewrite 1 [h0]
      rw [h3, ← Finset.sum_add_distrib, Finset.sum_div]
      refine Finset.sum_congr rfl fun j _ => ?_
      rw [smul_eq_mul]
      ring
    rw [h2]
    refine Finset.sum_congr rfl fun j _ => ?_
    congr 1
    have hj : j * ((k.val : ℕ) : ZMod (2 * (m + 1))) = (((j.val * k.val : ℕ) : ℤ) : ZMod (2 * (m + 1))) := by
      push_cast
      rw [ZMod.natCast_zmod_val]
    have hj' : -(j * ((k.val : ℕ) : ZMod (2 * (m + 1)))) = ((-((j.val * k.val : ℕ) : ℤ) : ℤ) : ZMod (2 * (m + 1))) := by
      rw [hj]
      push_cast
      rfl
    rw [hj', hj, stdAddChar_coe, stdAddChar_coe, Complex.ofReal_cos, Complex.cos]
    push_cast
    congr 2
    · congr 1
      ring
    · congr 1
      ring
  rw [h1, irfft, one_mul]
  have h5 : ∑ j : ZMod (2 * (m + 1)), ((Real.cos (2 * Real.pi * (j.val * k.val) / ((2 * (m + 1) : ℕ) : ℝ)) : ℝ) : ℂ)
        * evenExt a j =
      ((∑ j ∈ Finset.range (2 * (m + 1)), Real.cos (2 * Real.pi * (j * k.val) / ((2 * (m + 1) : ℕ) : ℝ)) *
        a ⟨min j (2 * (m + 1) - j), by omega⟩ : ℝ) : ℂ) := by
    rw [Finset.sum_range]
    push_cast
    exact Finset.sum_congr rfl fun j _ => rfl
  rw [h5, sum_even]
  · congr 1
    refine Finset.sum_congr rfl fun f _ => ?_
    have h6 : (⟨min f.val (2 * (m + 1) - f.val), by omega⟩ : Fin (m + 2)) = f := by
      apply Fin.ext
      simp only
      omega
    rw [h6]
    simp only [show m + 2 - 1 = m + 1 by omega]
    ring
  · intro j hj
    have h7 : (⟨min (2 * (m + 1) - j) (2 * (m + 1) - (2 * (m + 1) - j)), by omega⟩ : Fin (m + 2)) =
        ⟨min j (2 * (m + 1) - j), by omega⟩ := by
      apply Fin.ext
      simp only
      omega
    rw [h7]
    congr 1
    rw [Nat.cast_sub (by omega), ← Real.cos_nat_mul_two_pi_sub _ k.val]
    congr 1
    push_cast
    have : (m : ℝ) + 1 ≠ 0 := by positivity
    field_simp
    ring

/-- At every point. -/
theorem dft_evenExt' (a : Fin (m + 2) → ℝ) : dft (evenExt a) = evenExt (irfft .forward a) := by
  have heven : ∀ j, dft (evenExt a) (-j) = dft (evenExt a) j := by
    intro j
    have := congrFun (dft_comp_neg (evenExt a)) j
    rw [← this]
    simp only [evenExt_neg]
  funext j
  have hj : j = (((fold j).val : ℕ) : ZMod (2 * (m + 1))) ∨ -j = (((fold j).val : ℕ) : ZMod (2 * (m + 1))) := by
    have hlt := ZMod.val_lt j
    rcases le_total j.val (2 * (m + 1) - j.val) with h | h
    · left
      rw [fold]
      simp only [min_eq_left h, ZMod.natCast_zmod_val]
    · right
      rw [fold]
      simp only [min_eq_right h]
      rw [Nat.cast_sub hlt.le, ZMod.natCast_zmod_val, ZMod.natCast_self, zero_sub]
  rw [evenExt, ← dft_evenExt]
  rcases hj with h | h
  · rw [← h]
  · rw [← h, heven]

theorem irfft_backward (a : Fin (m + 2) → ℝ) (k : Fin (m + 2)) :
    irfft .backward a k = (1 / ((2 * (m + 1) : ℕ) : ℝ)) * irfft .forward a k := by
  rw [irfft, irfft, one_mul]
  rfl

/-- The inverse transform of the even extension. -/
theorem invDft_evenExt (a : Fin (m + 2) → ℝ) (k : Fin (m + 2)) :
    dft.symm (evenExt a) ((k.val : ℕ) : ZMod (2 * (m + 1))) = (irfft .backward a k : ℂ) := by
  rw [invDFT_apply', dft_evenExt', evenExt_neg, evenExt, fold_nat, irfft_backward, smul_eq_mul]
  push_cast
  ring

/-- The two transforms are inverse to each other. -/
theorem irfft_irfft (a : Fin (m + 2) → ℝ) : irfft .forward (irfft .backward a) = a := by
  funext k
  apply Complex.ofReal_injective
  rw [← dft_evenExt]
  have h : evenExt (irfft .backward a) = dft.symm (evenExt a) := by
    funext j
    rw [invDFT_apply', dft_evenExt', evenExt_neg, evenExt, evenExt, irfft_backward, smul_eq_mul]
    push_cast
    ring
  rw [h, LinearEquiv.apply_symm_apply, evenExt, fold_nat]

end Verif.Hva
