import Mathlib.Analysis.Calculus.LocalExtr.Basic
import Verif.Lemmas.MatDeriv
import Verif.Lemmas.Strict
import Verif.Props.Vcd

/-! # Strict decrease of vector-wise coordinate descent -/

namespace Verif

/-- Two folds agree if their steps agree along the run. -/
theorem foldlM_congr_regular {σ β : Type} {g g' : σ → β → Except PyErr σ} (l : List β) (s : σ)
    (h : RegularFold g (fun s b => g s b = g' s b) l s) : l.foldlM g s = l.foldlM g' s := by
  induction l generalizing s with
  | nil => rfl
  | cons b l ih =>
    obtain ⟨h1, h2⟩ := h
    simp only [List.foldlM_cons, ← h1]
    cases hg : g s b with
    | error e => rfl
    | ok s' => exact ih s' (h2 s' hg)

namespace Spatial

open Matrix
open scoped ComplexOrder

variable {n b : ℕ}

/-- No replacement of one row of one filter of the block makes the objective smaller. -/
def RowOptimal (R : Fin b → Fin b → Fin n → Mat n ℂ) (W : Fin b → Mat n ℂ) (i : Fin b) (k : Fin n) : Prop :=
  ∀ v : Fin n → ℂ, IsUnit ((W i).updateRow k v).det →
    blockLoss R W ≤ blockLoss R (Function.update W i ((W i).updateRow k v))

theorem vcdStep_strict (R : Fin b → Fin b → Fin n → Mat n ℂ) (hR : ∀ i j k, R i j k = (R j i k)ᴴ)
    (hpd : ∀ i k, (R i i k).PosDef) (W : Fin b → Mat n ℂ) (hW : ∀ i, IsUnit (W i).det) (i : Fin b) (k : Fin n) :
    ∃ W', vcdStep (fun x => x = 0) R W (i, k) = .ok W' ∧ (∀ i, IsUnit (W' i).det) ∧
      (blockLoss R W' < blockLoss R W ∨ W' = W) ∧ (W' = W ↔ RowOptimal R W i k) := by
  obtain ⟨W', h1, h2, -, h3⟩ := vcdStep_core R hR hpd W hW i k
  obtain ⟨h4, h5⟩ := h3 (W i k) (by rw [updateRow_eq_self]; exact hW i)
  rw [updateRow_eq_self, Function.update_eq_self] at h4 h5
  have h6 : blockLoss R W' < blockLoss R W ∨ W' = W := h4.lt_or_eq.imp id (h5 rfl)
  refine ⟨W', h1, h2, h6, fun h v hv => h ▸ (h3 v hv).1, fun h => h6.resolve_left (not_lt.mpr ?_)⟩
  obtain ⟨v, hv, hu⟩ : ∃ v, W' = Function.update W i ((W i).updateRow k v) ∧ IsUnit ((W i).updateRow k v).det := by
    obtain ⟨W'', e1, e2, e3, -⟩ := vcdStep_core R hR hpd W hW i k
    obtain rfl : W' = W'' := Except.ok.inj (h1.symm.trans e1)
    have : W' = Function.update W i ((W i).updateRow k (W' i k)) := by
      funext p
      by_cases hp : p = i
      · subst hp
        rw [Function.update_self]
        ext l c
        by_cases hl : l = k
        · rw [hl, updateRow_self]
        · rw [updateRow_ne hl, e3 p l (by simp [hl])]
      · rw [Function.update_of_ne hp]
        funext l
        exact e3 p l (by simp [hp])
    refine ⟨W' i k, this, ?_⟩
    have := e2 i
    rwa [‹W' = _›, Function.update_self] at this
  rw [hv]
  exact h v hu

/-- A sweep decreases the objective of the block or changes nothing; it changes nothing exactly if every row is
already optimal. -/
theorem vcd_strict (R : Fin b → Fin b → Fin n → Mat n ℂ) (hR : ∀ i j k, R i j k = (R j i k)ᴴ)
    (hpd : ∀ i k, (R i i k).PosDef) (W : Fin b → Mat n ℂ) (hW : ∀ i, IsUnit (W i).det) :
    ∃ W', vcd (fun x => x = 0) R W = .ok W' ∧ (∀ i, IsUnit (W' i).det) ∧
      (blockLoss R W' < blockLoss R W ∨ W' = W) ∧ (W' = W ↔ ∀ i k, RowOptimal R W i k) := by
  have h := foldlM_strict (vcdStep (fun x => x = 0) R) (fun M => ∀ i, IsUnit (M i).det) (blockLoss R)
    (fun M p => RowOptimal R M p.1 p.2)
    ((List.finRange b).flatMap fun i => (List.finRange n).map fun k => (i, k))
    (fun M p _ hM => vcdStep_strict R hR hpd M hM p.1 p.2) W hW
  obtain ⟨W', h1, h2, h3, h4⟩ := h
  refine ⟨W', h1, h2, h3, h4.trans ⟨fun h i k => h (i, k) (by simp), fun h p _ => h p.1 p.2⟩⟩

/-! ## Row-wise optimal filters are stationary -/

/-- The derivative of the objective of a block. -/
noncomputable def blockGrad (R : Fin b → Fin b → Fin n → Mat n ℂ) (W D : Fin b → Mat n ℂ) : ℝ :=
  (∑ k, ∑ i, ∑ j, ((D i k ⬝ᵥ (R i j k *ᵥ star (W j k))).re + (W i k ⬝ᵥ (R i j k *ᵥ star (D j k))).re))
    - 2 * ∑ i, ((W i)⁻¹ * D i).trace.re

theorem hasDerivAt_blockLoss (R : Fin b → Fin b → Fin n → Mat n ℂ) {W : Fin b → Mat n ℂ}
    (hW : ∀ i, IsUnit (W i).det) (D : Fin b → Mat n ℂ) :
    HasDerivAt (fun ε : ℝ => blockLoss R fun i => W i + (ε : ℂ) • D i) (blockGrad R W D) 0 := by
  refine HasDerivAt.sub (HasDerivAt.fun_sum fun k _ => HasDerivAt.fun_sum fun i _ => HasDerivAt.fun_sum fun j _ => ?_)
    (HasDerivAt.const_mul _ (HasDerivAt.fun_sum fun i _ => Tr.hasDerivAt_logdet (W i) (D i) (hW i)))
  have e : ∀ ε : ℝ, ((W i + (ε : ℂ) • D i) k ⬝ᵥ (R i j k *ᵥ star ((W j + (ε : ℂ) • D j) k))).re
      = (W i k ⬝ᵥ (R i j k *ᵥ star (W j k))).re
        + ε * ((D i k ⬝ᵥ (R i j k *ᵥ star (W j k))).re + (W i k ⬝ᵥ (R i j k *ᵥ star (D j k))).re)
        + ε ^ 2 * (D i k ⬝ᵥ (R i j k *ᵥ star (D j k))).re := by
    intro ε
    have e1 : (W i + (ε : ℂ) • D i) k = W i k + (ε : ℂ) • D i k := rfl
    have e2 : star ((W j + (ε : ℂ) • D j) k) = star (W j k) + (ε : ℂ) • star (D j k) := by
      funext c
      simp
    rw [e1, e2]
    simp only [mulVec_add, mulVec_smul, add_dotProduct, dotProduct_add, smul_dotProduct, dotProduct_smul, smul_eq_mul,
      Complex.add_re, Complex.re_ofReal_mul]
    ring
  simp only [e]
  have h1 : HasDerivAt (fun ε : ℝ => ε) 1 0 := hasDerivAt_id 0
  have h2 := ((h1.mul_const ((D i k ⬝ᵥ (R i j k *ᵥ star (W j k))).re + (W i k ⬝ᵥ (R i j k *ᵥ star (D j k))).re)).const_add
    (W i k ⬝ᵥ (R i j k *ᵥ star (W j k))).re).add ((h1.pow 2).mul_const (D i k ⬝ᵥ (R i j k *ᵥ star (D j k))).re)
  refine h2.congr_deriv ?_
  simp

theorem blockGrad_add (R : Fin b → Fin b → Fin n → Mat n ℂ) (W D E : Fin b → Mat n ℂ) :
    blockGrad R W (D + E) = blockGrad R W D + blockGrad R W E := by
  have e : ∀ i k, (D + E) i k = D i k + E i k := fun _ _ => rfl
  simp only [blockGrad, e, star_add, mulVec_add, add_dotProduct, dotProduct_add, Complex.add_re, Pi.add_apply,
    Matrix.mul_add, trace_add, Finset.sum_add_distrib]
  ring

/-- Only row `k` of the direction in bin `i`. -/
def rowOnly (D : Fin b → Mat n ℂ) (i : Fin b) (k : Fin n) : Fin b → Mat n ℂ :=
  Function.update 0 i ((0 : Mat n ℂ).updateRow k (D i k))

theorem sum_rowOnly (D : Fin b → Mat n ℂ) : D = ∑ p : Fin b × Fin n, rowOnly D p.1 p.2 := by
  funext i
  ext k c
  have e : ∀ p : Fin b × Fin n, rowOnly D p.1 p.2 i k c = if p = (i, k) then D i k c else 0 := by
    rintro ⟨j, l⟩
    by_cases hj : j = i
    · subst hj
      by_cases hl : l = k
      · subst hl
        simp [rowOnly]
      · rw [if_neg (by simp [hl])]
        simp only [rowOnly, Function.update_self]
        rw [updateRow_ne (Ne.symm hl)]
        rfl
    · rw [if_neg (by simp [hj])]
      simp only [rowOnly]
      rw [Function.update_of_ne (Ne.symm hj)]
      rfl
  simp only [Finset.sum_apply, Matrix.sum_apply, e, Finset.sum_ite_eq', Finset.mem_univ, if_true]

theorem blockGrad_rows (R : Fin b → Fin b → Fin n → Mat n ℂ) (W D : Fin b → Mat n ℂ) :
    blockGrad R W D = ∑ p : Fin b × Fin n, blockGrad R W (rowOnly D p.1 p.2) := by
  conv_lhs => rw [sum_rowOnly D]
  exact map_sum (AddMonoidHom.mk' (blockGrad R W) (blockGrad_add R W)) _ _

theorem rowOptimal_stationary (R : Fin b → Fin b → Fin n → Mat n ℂ) {W : Fin b → Mat n ℂ}
    (hW : ∀ i, IsUnit (W i).det) (h : ∀ i k, RowOptimal R W i k) (D : Fin b → Mat n ℂ) :
    HasDerivAt (fun ε : ℝ => blockLoss R fun i => W i + (ε : ℂ) • D i) 0 0 := by
  refine (hasDerivAt_blockLoss R hW D).congr_deriv ?_
  rw [blockGrad_rows]
  refine Finset.sum_eq_zero fun p _ => ?_
  obtain ⟨i, k⟩ := p
  have h1 := hasDerivAt_blockLoss R hW (rowOnly D i k)
  refine IsLocalMin.hasDerivAt_eq_zero ?_ h1
  have e : ∀ ε : ℝ, (fun j => W j + (ε : ℂ) • rowOnly D i k j)
      = Function.update W i ((W i).updateRow k (W i k + (ε : ℂ) • D i k)) := by
    intro ε
    funext j
    by_cases hj : j = i
    · subst hj
      simp only [rowOnly, Function.update_self]
      ext l c
      by_cases hl : l = k
      · subst hl
        simp
      · simp [updateRow_ne hl]
    · simp [rowOnly, Function.update_of_ne hj]
  have h2 := Tr.eventually_isUnit (W i) (rowOnly D i k i) (hW i)
  refine h2.mono fun ε hε => ?_
  have h0 : blockLoss R (fun j => W j + ((0 : ℝ) : ℂ) • rowOnly D i k j) = blockLoss R W := by simp
  beta_reduce
  rw [h0, e]
  refine h i k _ ?_
  have := congrFun (e ε) i
  rw [Function.update_self] at this
  rwa [← this]

end Spatial

end Verif
