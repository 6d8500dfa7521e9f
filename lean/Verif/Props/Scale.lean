import Mathlib.LinearAlgebra.Matrix.Permutation
import Verif.Lemmas.Numpy
import Verif.Model.Scale

/-! # C22-C25: projection back and the minimal distortion principle -/

namespace Verif.Scale

open Matrix
open scoped ComplexOrder

variable {n t : ℕ} {F : Type}

private theorem inv_ok {W : F → Mat n ℂ} (h : ∀ f, IsUnit (W f).det) :
    npInvB W = .ok fun f => (W f)⁻¹ := by rw [npInvB, if_pos h]

private theorem inv_err {W : F → Mat n ℂ} (h : ¬ ∀ f, IsUnit (W f).det) :
    npInvB W = .error .linalg := by rw [npInvB, if_neg h]

theorem pb_ok {r : Fin n} {W : F → Mat n ℂ} (h : ∀ f, IsUnit (W f).det) :
    projectionBackFilter r W = .ok fun f => Matrix.of fun i j => W f i j * (W f)⁻¹ r i := by
  simp only [projectionBackFilter, inv_ok h, bind, Except.bind]

theorem pb_success {r : Fin n} {W V : F → Mat n ℂ} (h : projectionBackFilter r W = .ok V) :
    (∀ f, IsUnit (W f).det) ∧ V = fun f => Matrix.of fun i j => W f i j * (W f)⁻¹ r i := by
  by_cases hW : ∀ f, IsUnit (W f).det
  · exact ⟨hW, by rw [pb_ok hW] at h; exact (Except.ok.inj h).symm⟩
  · simp [projectionBackFilter, inv_err hW, bind, Except.bind] at h

/-- C22: projection back succeeds exactly on invertible filters; otherwise numpy's `LinAlgError` is
raised. -/
theorem C22_succeeds_iff (r : Fin n) (W : F → Mat n ℂ) :
    ((∃ V, projectionBackFilter r W = .ok V) ↔ ∀ f, IsUnit (W f).det) ∧
    ((¬ ∀ f, IsUnit (W f).det) → projectionBackFilter r W = .error .linalg) := by
  refine ⟨⟨fun ⟨V, h⟩ => (pb_success h).1, fun h => ⟨_, pb_ok h⟩⟩, fun h => ?_⟩
  simp [projectionBackFilter, inv_err h, bind, Except.bind]

private theorem det_rows (d : Fin n → ℂ) (W : Mat n ℂ) :
    (Matrix.of fun i j => d i * W i j) = diagonal d * W := by
  ext i j; simp [diagonal_mul]

/-- C22: multiplying the rows of every filter by arbitrary non-zero scalars (a different one per source
and bin) does not change the result. -/
theorem C22_scale_invariant (r : Fin n) (W : F → Mat n ℂ) (d : F → Fin n → ℂ)
    (hd : ∀ f i, d f i ≠ 0) :
    projectionBackFilter r (fun f => Matrix.of fun i j => d f i * W f i j) = projectionBackFilter r W := by
  have hdu : ∀ f, IsUnit (diagonal (d f)).det := fun f => by
    rw [det_diagonal, isUnit_iff_ne_zero]
    exact Finset.prod_ne_zero_iff.mpr fun i _ => hd f i
  simp only [det_rows]
  by_cases hW : ∀ f, IsUnit (W f).det
  · have hdW : ∀ f, IsUnit (diagonal (d f) * W f).det := fun f => by
      rw [det_mul]; exact (hdu f).mul (hW f)
    rw [pb_ok hdW, pb_ok hW]
    congr 1
    ext f i j
    have hdi : (diagonal (d f))⁻¹ = diagonal fun i => (d f i)⁻¹ := by
      apply inv_eq_right_inv
      rw [diagonal_mul_diagonal, ← diagonal_one]
      congr 1
      ext i
      exact mul_inv_cancel₀ (hd f i)
    simp only [of_apply]
    rw [Matrix.mul_inv_rev, hdi, mul_diagonal, diagonal_mul]
    have := hd f i
    field_simp
  · have hdW : ¬ ∀ f, IsUnit (diagonal (d f) * W f).det := fun h => hW fun f => by
      have := h f
      rw [det_mul] at this
      exact isUnit_of_mul_isUnit_right this
    simp only [projectionBackFilter, inv_err hW, inv_err hdW, bind, Except.bind]

/-- C22: projection back is idempotent: whenever it can be applied to its own result, nothing changes. -/
theorem C22_idempotent (r : Fin n) (W V V' : F → Mat n ℂ) (h : projectionBackFilter r W = .ok V)
    (h' : projectionBackFilter r V = .ok V') : V' = V := by
  obtain ⟨hW, hV⟩ := pb_success h
  obtain ⟨hVu, _⟩ := pb_success h'
  -- the scales are non-zero because `V` is invertible
  have hs : ∀ f i, (W f)⁻¹ r i ≠ 0 := by
    intro f i h0
    have : (V f).det = 0 := by
      apply det_eq_zero_of_row_eq_zero i
      intro j
      rw [hV]
      simp [h0]
    exact (hVu f).ne_zero this
  have e : V = fun f => Matrix.of fun i j => (W f)⁻¹ r i * W f i j := by
    rw [hV]; ext f i j; simp [mul_comm]
  rw [e, C22_scale_invariant r W _ hs, h] at h'
  exact (Except.ok.inj h').symm

/-- C22: it can be applied again when every source reaches the reference channel. -/
theorem C22_reapplicable (r : Fin n) (W V : F → Mat n ℂ) (h : projectionBackFilter r W = .ok V)
    (hs : ∀ f i, (W f)⁻¹ r i ≠ 0) : projectionBackFilter r V = .ok V := by
  obtain ⟨hW, hV⟩ := pb_success h
  have e : V = fun f => Matrix.of fun i j => (W f)⁻¹ r i * W f i j := by
    rw [hV]; ext f i j; simp [mul_comm]
  have h2 := C22_scale_invariant r W _ hs
  rw [← e, h] at h2
  exact h2

/-- C22: reordering the sources (differently in every bin) reorders the result the same way. -/
theorem C22_permutation_equivariant (r : Fin n) (W V : F → Mat n ℂ) (σ : F → Equiv.Perm (Fin n))
    (h : projectionBackFilter r W = .ok V) :
    projectionBackFilter r (fun f => (W f).submatrix (σ f) id)
      = .ok fun f => (V f).submatrix (σ f) id := by
  obtain ⟨hW, hV⟩ := pb_success h
  have hu : ∀ f, IsUnit ((W f).submatrix (σ f) id).det := by
    intro f
    have : ((W f).submatrix (σ f) id).det = Equiv.Perm.sign (σ f) * (W f).det := det_permute (σ f) (W f)
    rw [this]
    refine IsUnit.mul ?_ (hW f)
    simp
  rw [pb_ok hu, hV]
  congr 1
  ext f i j
  have hi : ((W f).submatrix (σ f) id)⁻¹ = (W f)⁻¹.submatrix id (σ f) := by
    have := inv_submatrix_equiv (W f) (σ f) (Equiv.refl _)
    simpa using this
  simp only [of_apply, submatrix_apply, id, hi]

/-- C22: with `reference_id=None` the result collects the projections onto every channel. -/
theorem C22_all_channels (W : F → Mat n ℂ) (V : Fin n → F → Mat n ℂ)
    (h : projectionBackFilterAll W = .ok V) (c : Fin n) : projectionBackFilter c W = .ok (V c) := by
  by_cases hW : ∀ f, IsUnit (W f).det
  · rw [pb_ok hW]
    simp only [projectionBackFilterAll, inv_ok hW, bind, Except.bind] at h
    rw [← Except.ok.inj h]
  · simp [projectionBackFilterAll, inv_err hW, bind, Except.bind] at h

/-- C23: the separated signals of the scaled filter sum to the reference channel at every frame. -/
theorem C23_distortion_free (r : Fin n) (W V : F → Mat n ℂ) (h : projectionBackFilter r W = .ok V)
    (X : Spec F n t) (f : F) (k : Fin t) : ∑ i, separate X V f i k = X f r k := by
  obtain ⟨hW, hV⟩ := pb_success h
  have h1 : ∀ j, ∑ i, V f i j = if r = j then 1 else 0 := by
    intro j
    have := congrFun (congrFun (nonsing_inv_mul (W f) (hW f)) r) j
    rw [mul_apply, one_apply] at this
    rw [← this, hV]
    exact Finset.sum_congr rfl fun i _ => mul_comm _ _
  simp only [separate, mul_apply]
  rw [Finset.sum_comm]
  simp only [← Finset.sum_mul, h1]
  simp

private theorem pbd_scale (W : F → Mat n ℂ) (X : Spec F n t) (hW : ∀ f, IsUnit (W f).det)
    (hX : ∀ f, IsUnit (X f * (X f)ᴴ).det) :
    projectionBackScale (separate X W) X = .ok fun f => (W f)⁻¹ := by
  have hC : ∀ f, IsUnit (separate X W f * (separate X W f)ᴴ).det := by
    intro f
    have e : separate X W f * (separate X W f)ᴴ = W f * (X f * (X f)ᴴ) * (W f)ᴴ := by
      simp only [separate, conjTranspose_mul, Matrix.mul_assoc]
    rw [e, det_mul, det_mul, det_conjTranspose]
    exact ((hW f).mul (hX f)).mul (hW f).star
  simp only [projectionBackScale, inv_ok hC, bind, Except.bind]
  congr 1
  ext1 f
  have e : separate X W f * (separate X W f)ᴴ = W f * (X f * (separate X W f)ᴴ) := by
    simp only [separate, Matrix.mul_assoc]
  have e2 : X f * (separate X W f)ᴴ = (W f)⁻¹ * (separate X W f * (separate X W f)ᴴ) := by
    rw [e, ← Matrix.mul_assoc (W f)⁻¹, nonsing_inv_mul _ (hW f), Matrix.one_mul]
  rw [e2, Matrix.mul_assoc, mul_nonsing_inv _ (hC f), Matrix.mul_one]

/-- C24: scaling the separated data gives the same as separating with the scaled filter. -/
theorem C24_data_eq_filter (r : Fin n) (W : F → Mat n ℂ) (X : Spec F n t)
    (hW : ∀ f, IsUnit (W f).det) (hX : ∀ f, IsUnit (X f * (X f)ᴴ).det) :
    ∃ V, projectionBackFilter r W = .ok V ∧
      projectionBackData r (separate X W) X = .ok (separate X V) := by
  refine ⟨_, pb_ok hW, ?_⟩
  simp only [projectionBackData, pbd_scale W X hW hX, bind, Except.bind]
  congr 1
  ext f i k
  simp only [of_apply, separate, mul_apply, Finset.sum_mul]
  exact Finset.sum_congr rfl fun j _ => by ring

/-- C24: the same with `reference_id=None`. -/
theorem C24_data_eq_filter_all (W : F → Mat n ℂ) (X : Spec F n t)
    (hW : ∀ f, IsUnit (W f).det) (hX : ∀ f, IsUnit (X f * (X f)ᴴ).det) :
    ∃ V, projectionBackFilterAll W = .ok V ∧
      projectionBackDataAll (separate X W) X = .ok fun c => separate X (V c) := by
  refine ⟨fun c f => Matrix.of fun i j => W f i j * (W f)⁻¹ c i, ?_, ?_⟩
  · simp only [projectionBackFilterAll, inv_ok hW, bind, Except.bind]
  simp only [projectionBackDataAll, pbd_scale W X hW hX, bind, Except.bind]
  congr 1
  ext c f i k
  simp only [of_apply, separate, mul_apply, Finset.sum_mul]
  exact Finset.sum_congr rfl fun j _ => by ring

/-- Invertible, non-diagonal filters and full-rank data exist; the hypotheses of C22-C24 are met. -/
example : IsUnit (!![1, 2; 3, 4] : Mat 2 ℂ).det ∧
    IsUnit ((!![1, 0, 1; 0, 1, 1] : Matrix (Fin 2) (Fin 3) ℂ) *
      (!![1, 0, 1; 0, 1, 1] : Matrix (Fin 2) (Fin 3) ℂ)ᴴ).det := by
  constructor
  · rw [det_fin_two]; norm_num
  · rw [det_fin_two]
    simp [mul_apply, Fin.sum_univ_three]
    norm_num

private theorem ls_identity (x y : Fin t → ℂ) (hy : (∑ k, ‖y k‖ ^ 2 : ℝ) ≠ 0) (a : ℂ) :
    ∑ k, ‖x k - a * y k‖ ^ 2
      = ∑ k, ‖x k - (∑ k, x k * star (y k)) / ((∑ k, ‖y k‖ ^ 2 : ℝ) : ℂ) * y k‖ ^ 2
        + ‖a - (∑ k, x k * star (y k)) / ((∑ k, ‖y k‖ ^ 2 : ℝ) : ℂ)‖ ^ 2 * ∑ k, ‖y k‖ ^ 2 := by
  set E : ℝ := ∑ k, ‖y k‖ ^ 2 with hE
  set c : ℂ := ∑ k, x k * star (y k) with hc
  set b : ℂ := c / (E : ℂ) with hb
  have hE' : (E : ℂ) ≠ 0 := by exact_mod_cast hy
  have hEc : (E : ℂ) = ∑ k, y k * star (y k) := by
    rw [hE]
    push_cast
    exact Finset.sum_congr rfl fun k _ => by
      rw [Complex.star_def, Complex.mul_conj, Complex.normSq_eq_norm_sq]; norm_cast
  have horth : ∑ k, (x k - b * y k) * star (y k) = 0 := by
    simp only [sub_mul, Finset.sum_sub_distrib, mul_assoc, ← Finset.mul_sum]
    rw [← hEc, hb, div_mul_cancel₀ _ hE', sub_self]
  have key : ∀ k, ‖x k - a * y k‖ ^ 2 = ‖x k - b * y k‖ ^ 2 + ‖a - b‖ ^ 2 * ‖y k‖ ^ 2
      - 2 * (star (a - b) * ((x k - b * y k) * star (y k))).re := by
    intro k
    have e : x k - a * y k = (x k - b * y k) - (a - b) * y k := by ring
    rw [e, ← mul_pow, ← norm_mul, ← Complex.normSq_eq_norm_sq, ← Complex.normSq_eq_norm_sq,
      ← Complex.normSq_eq_norm_sq, Complex.normSq_sub]
    congr 3
    simp only [Complex.star_def, map_mul]
    ring
  simp only [key, Finset.sum_sub_distrib, Finset.sum_add_distrib, ← Finset.mul_sum]
  rw [← Complex.re_sum, ← Finset.mul_sum, horth]
  simp [hE]

/-- C25: for every separated signal with non-zero energy the result is a multiple of it, by the gain that
minimises the squared distance to the reference channel over all complex gains, and no other gain does as
well. -/
theorem C25_least_squares (r : Fin n) (Y X : Spec F n t) (f : F) (i : Fin n)
    (hy : ∑ k, ‖Y f i k‖ ^ 2 ≠ 0) :
    ∃ a : ℂ, (∀ k, mdp r Y X f i k = a * Y f i k) ∧
      ∀ b : ℂ, b ≠ a →
        ∑ k, ‖X f r k - a * Y f i k‖ ^ 2 < ∑ k, ‖X f r k - b * Y f i k‖ ^ 2 := by
  refine ⟨(∑ k, X f r k * star (Y f i k)) / ((∑ k, ‖Y f i k‖ ^ 2 : ℝ) : ℂ), fun k => ?_, fun b hb => ?_⟩
  · simp only [mdp, of_apply]
    congr 1
    rw [star_div₀, star_sum]
    congr 1
    · exact Finset.sum_congr rfl fun k _ => by simp [mul_comm]
    · simp
  · rw [ls_identity _ _ hy b]
    have h1 : 0 < ∑ k, ‖Y f i k‖ ^ 2 := lt_of_le_of_ne (Finset.sum_nonneg fun _ _ => sq_nonneg _) hy.symm
    have h2 : 0 < ‖b - (∑ k, X f r k * star (Y f i k)) / ((∑ k, ‖Y f i k‖ ^ 2 : ℝ) : ℂ)‖ ^ 2 := by
      have := norm_pos_iff.mpr (sub_ne_zero.mpr hb)
      positivity
    nlinarith [mul_pos h2 h1]

/-- C25: the result does not depend on the scale of the separated signals. -/
theorem C25_scale_invariant (r : Fin n) (Y X : Spec F n t) (d : F → Fin n → ℂ) (hd : ∀ f i, d f i ≠ 0)
    (hy : ∀ f i, ∑ k, ‖Y f i k‖ ^ 2 ≠ 0) :
    mdp r (fun f => Matrix.of fun i k => d f i * Y f i k) X = mdp r Y X := by
  ext f i k
  simp only [mdp, of_apply, mul_assoc, ← Finset.mul_sum, norm_mul, mul_pow]
  have h1 : ((∑ k, ‖Y f i k‖ ^ 2 : ℝ) : ℂ) ≠ 0 := by exact_mod_cast hy f i
  have h2 := hd f i
  have h3 : ((‖d f i‖ ^ 2 : ℝ) : ℂ) = d f i * star (d f i) := by
    rw [Complex.star_def, Complex.mul_conj, Complex.normSq_eq_norm_sq]
  rw [star_div₀, star_div₀, star_mul']
  push_cast
  push_cast at h3 h1
  rw [h3]
  have h4 : star (d f i) ≠ 0 := star_ne_zero.mpr h2
  simp only [Complex.star_def] at *
  simp only [map_mul, map_sum, map_pow, Complex.conj_ofReal, Complex.conj_conj]
  field_simp

/-- C25: with `reference_id=None` the result collects the fits to every channel. -/
theorem C25_all_channels (Y X : Spec F n t) (c : Fin n) : mdpAll Y X c = mdp c Y X := rfl

/-- A separated signal with non-zero energy. -/
example : ∑ k, ‖(!![1, 2; Complex.I, 0] : Matrix (Fin 2) (Fin 2) ℂ) 1 k‖ ^ 2 ≠ 0 := by
  simp [Fin.sum_univ_two]

end Verif.Scale
