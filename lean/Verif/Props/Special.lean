import Verif.Model.Special
import Verif.Lemmas.Numpy
import Verif.Lemmas.MatrixIneq

/-! # C12, C13: softmax, logsumexp, to_psd -/

namespace Verif.Special

open Matrix
open scoped ComplexOrder

private theorem sum_exp_shift {n : ℕ} (x : Fin (n + 1) → ℝ) (c : ℝ) :
    ∑ i, Real.exp (x i - c) = (∑ i, Real.exp (x i)) / Real.exp c := by
  rw [Finset.sum_div]
  exact Finset.sum_congr rfl fun i _ => Real.exp_sub _ _

private theorem sum_exp_pos {n : ℕ} (x : Fin (n + 1) → ℝ) : 0 < ∑ i, Real.exp (x i) :=
  Finset.sum_pos (fun _ _ => Real.exp_pos _) Finset.univ_nonempty

/-- C12: the result of `softmax` is `exp x_i / Σ exp x_j`, whatever maximum is subtracted. -/
theorem C12_softmax_eq {n : ℕ} (x : Fin (n + 1) → ℝ) (i : Fin (n + 1)) :
    softmax x i = Real.exp (x i) / ∑ j, Real.exp (x j) := by
  have h := (sum_exp_pos x).ne'
  have h' := (Real.exp_pos (npMax x)).ne'
  simp only [softmax]
  rw [sum_exp_shift, Real.exp_sub]
  field_simp

/-- C12: positive weights. -/
theorem C12_softmax_pos {n : ℕ} (x : Fin (n + 1) → ℝ) (i : Fin (n + 1)) : 0 < softmax x i := by
  rw [C12_softmax_eq]
  exact div_pos (Real.exp_pos _) (sum_exp_pos x)

/-- C12: the weights sum to one. -/
theorem C12_softmax_sum {n : ℕ} (x : Fin (n + 1) → ℝ) : ∑ i, softmax x i = 1 := by
  simp only [C12_softmax_eq]
  rw [← Finset.sum_div, div_self (sum_exp_pos x).ne']

/-- C12: adding a constant to all scores changes nothing. -/
theorem C12_softmax_shift {n : ℕ} (x : Fin (n + 1) → ℝ) (c : ℝ) :
    softmax (fun i => x i + c) = softmax x := by
  ext i
  simp only [C12_softmax_eq, Real.exp_add]
  rw [← Finset.sum_mul]
  exact mul_div_mul_right _ _ (Real.exp_pos c).ne'

/-- C12: `logsumexp` is `log Σ exp`. -/
theorem C12_logsumexp_eq {n : ℕ} (x : Fin (n + 1) → ℝ) :
    logsumexp x = Real.log (∑ i, Real.exp (x i)) := by
  simp only [logsumexp]
  rw [sum_exp_shift, Real.log_div (sum_exp_pos x).ne' (Real.exp_pos _).ne', Real.log_exp]
  ring

/-- C12: `logsumexp` moves with a constant added to all scores. -/
theorem C12_logsumexp_shift {n : ℕ} (x : Fin (n + 1) → ℝ) (c : ℝ) :
    logsumexp (fun i => x i + c) = logsumexp x + c := by
  simp only [C12_logsumexp_eq, Real.exp_add]
  rw [← Finset.sum_mul, Real.log_mul (sum_exp_pos x).ne' (Real.exp_pos _).ne', Real.log_exp]

/-- C12: `softmax x = exp (x - logsumexp x)`. -/
theorem C12_softmax_logsumexp {n : ℕ} (x : Fin (n + 1) → ℝ) (i : Fin (n + 1)) :
    softmax x i = Real.exp (x i - logsumexp x) := by
  rw [C12_softmax_eq, C12_logsumexp_eq, Real.exp_sub, Real.exp_log (sum_exp_pos x)]

/-- C12: no overflow is possible in `softmax`/`logsumexp`: every exponent passed to `exp` is at most
zero and the denominator is at least one. -/
theorem C12_stable {n : ℕ} (x : Fin (n + 1) → ℝ) :
    (∀ i, x i - npMax x ≤ 0) ∧ 1 ≤ ∑ i, Real.exp (x i - npMax x) := by
  refine ⟨fun i => sub_nonpos.mpr (Finset.le_sup' x (Finset.mem_univ i)), ?_⟩
  obtain ⟨k, _, hk⟩ := Finset.exists_mem_eq_sup' Finset.univ_nonempty x
  have h1 : Real.exp (x k - npMax x) = 1 := by
    rw [npMax, hk, sub_self, Real.exp_zero]
  rw [← h1]
  exact Finset.single_le_sum (f := fun i => Real.exp (x i - npMax x))
    (fun i _ => (Real.exp_pos _).le) (Finset.mem_univ k)

/-- A non-trivial score vector: two equal scores share the weight. -/
example : softmax ![5, 5] = ![1 / 2, 1 / 2] := by
  ext i
  rw [C12_softmax_eq]
  have h := (Real.exp_pos 5).ne'
  fin_cases i <;> simp [Fin.sum_univ_two] <;> field_simp <;> norm_num

variable {𝕜 : Type} [RCLike 𝕜] {n : ℕ}

private theorem symmetrise_hermitian (X : Mat n 𝕜) : (symmetrise X).IsHermitian := by
  rw [IsHermitian, symmetrise, conjTranspose_smul, conjTranspose_add, conjTranspose_conjTranspose,
    add_comm]
  simp

private theorem symmetrise_eq {X : Mat n 𝕜} (h : X.IsHermitian) : symmetrise X = X := by
  rw [symmetrise, h.eq, ← two_smul 𝕜 X, smul_smul, inv_mul_cancel₀ two_ne_zero, one_smul]

private theorem core_eq (np : Numpy 𝕜) (f : ℝ → ℝ) (X : Mat n 𝕜) :
    toPsdCore np f X = (np.eigh (symmetrise X)).2 *
      diagonal (fun i => ((f ((np.eigh (symmetrise X)).1 i) : ℝ) : 𝕜)) *
      (np.eigh (symmetrise X)).2ᴴ := by
  simp only [toPsdCore, npDiag_eq]
  exact symmetrise_eq (isHermitian_conj_diag _ _)

/-- C13: the result is Hermitian with all eigenvalues at least the floor (`Y - eps I` is positive
semidefinite), for every square matrix `X` and every floor. -/
theorem C13_floor (np : Numpy 𝕜) (n_dims : ℕ) (eps : ℝ) (X Y : Mat n 𝕜)
    (h : to_psd np n_dims (-2) (-1) (some (max_flooring eps)) X = .ok Y) :
    Y.IsHermitian ∧ (Y - (eps : 𝕜) • (1 : Mat n 𝕜)).PosSemidef := by
  simp only [to_psd] at h
  rw [if_pos (by constructor <;> simp <;> omega)] at h
  · injection h with h
    rw [Option.getD_some, core_eq] at h
    have hs := np.eigh_spec _ (symmetrise_hermitian X)
    subst h
    refine ⟨isHermitian_conj_diag _ _, ?_⟩
    rw [conj_diag_sub_smul hs.unitary', posSemidef_conj_diag_iff hs.isUnit]
    exact fun i => sub_nonneg.mpr (le_max_right _ _)

/-- C13: with a positive floor the result is positive definite, hence invertible. -/
theorem C13_posDef (np : Numpy 𝕜) (n_dims : ℕ) (eps : ℝ) (heps : 0 < eps) (X Y : Mat n 𝕜)
    (h : to_psd np n_dims (-2) (-1) (some (max_flooring eps)) X = .ok Y) : Y.PosDef := by
  have h' := (C13_floor np n_dims eps X Y h).2
  have : Y = (Y - (eps : 𝕜) • (1 : Mat n 𝕜)) + (eps : 𝕜) • (1 : Mat n 𝕜) := by simp
  rw [this]
  refine PosDef.posSemidef_add h' ?_
  exact PosDef.one.smul (by exact_mod_cast heps)

/-- C13: a Hermitian matrix whose eigenvalues already meet the floor is returned unchanged. -/
theorem C13_fixed (np : Numpy 𝕜) (n_dims : ℕ) (eps : ℝ) (X : Mat n 𝕜) (hX : X.IsHermitian)
    (hf : (X - (eps : 𝕜) • (1 : Mat n 𝕜)).PosSemidef) :
    to_psd np n_dims (-2) (-1) (some (max_flooring eps)) X = .ok X := by
  have hs := np.eigh_spec _ (symmetrise_hermitian X)
  have hf' : ∀ i, eps ≤ (np.eigh (symmetrise X)).1 i := by
    rw [← hs.sub_posSemidef_iff, symmetrise_eq hX]; exact hf
  simp only [to_psd]
  rw [if_pos (by constructor <;> simp <;> omega), Option.getD_some, core_eq]
  have : (fun i => ((max_flooring eps ((np.eigh (symmetrise X)).1 i) : ℝ) : 𝕜))
      = fun i => (((np.eigh (symmetrise X)).1 i : ℝ) : 𝕜) := by
    ext i; rw [max_flooring, max_eq_left (hf' i)]
  rw [this, ← hs.decomp, symmetrise_eq hX]

/-- C13: `to_psd` is idempotent. -/
theorem C13_idempotent (np : Numpy 𝕜) (n_dims : ℕ) (eps : ℝ) (X Y : Mat n 𝕜)
    (h : to_psd np n_dims (-2) (-1) (some (max_flooring eps)) X = .ok Y) :
    to_psd np n_dims (-2) (-1) (some (max_flooring eps)) Y = .ok Y :=
  C13_fixed np n_dims eps Y (C13_floor np n_dims eps X Y h).1 (C13_floor np n_dims eps X Y h).2

private theorem frobSq_hermitian_sub {H X : Mat n 𝕜} (hH : H.IsHermitian) :
    frobSq (H - X) = frobSq (H - symmetrise X) + (∑ i, ∑ j, ‖X i j - star (X j i)‖ ^ 2) / 4 := by
  have h1 : frobSq (H - X) = ∑ i, ∑ j, ‖H i j - star (X j i)‖ ^ 2 := by
    rw [← frobSq_conjTranspose, conjTranspose_sub, hH.eq]
    rfl
  have h2 : ∀ i j, ‖H i j - X i j‖ ^ 2 + ‖H i j - star (X j i)‖ ^ 2
      = 2 * ‖H i j - symmetrise X i j‖ ^ 2 + ‖X i j - star (X j i)‖ ^ 2 / 2 := fun i j => by
    have h := parallelogram_law_with_norm 𝕜 (H i j - X i j) (H i j - star (X j i))
    have e1 : H i j - X i j + (H i j - star (X j i)) = 2 * (H i j - symmetrise X i j) := by
      simp only [symmetrise, Matrix.smul_apply, Matrix.add_apply, conjTranspose_apply, smul_eq_mul]
      field_simp
      ring
    have e2 : H i j - X i j - (H i j - star (X j i)) = -(X i j - star (X j i)) := by ring
    rw [e1, e2, norm_neg, norm_mul, RCLike.norm_ofNat] at h
    nlinarith [h]
  have h3 : frobSq (H - X) = ∑ i, ∑ j, ‖H i j - X i j‖ ^ 2 := rfl
  have h4 : frobSq (H - symmetrise X) = ∑ i, ∑ j, ‖H i j - symmetrise X i j‖ ^ 2 := rfl
  have h5 : ∑ i, ∑ j, (‖H i j - X i j‖ ^ 2 + ‖H i j - star (X j i)‖ ^ 2)
      = ∑ i, ∑ j, (2 * ‖H i j - symmetrise X i j‖ ^ 2 + ‖X i j - star (X j i)‖ ^ 2 / 2) :=
    Finset.sum_congr rfl fun i _ => Finset.sum_congr rfl fun j _ => h2 i j
  simp only [Finset.sum_add_distrib, ← Finset.mul_sum, ← Finset.sum_div] at h5
  rw [h4]
  rw [← h1, ← h3] at h5
  linarith

/-- C13: the result is the matrix nearest to the input (in the Frobenius norm) among the Hermitian matrices whose
eigenvalues are at least the floor, also for an input that is not Hermitian. -/
theorem C13_nearest (np : Numpy 𝕜) (n_dims : ℕ) (eps : ℝ) (X Y Z : Mat n 𝕜)
    (h : to_psd np n_dims (-2) (-1) (some (max_flooring eps)) X = .ok Y) (hZ : Z.IsHermitian)
    (hf : (Z - (eps : 𝕜) • (1 : Mat n 𝕜)).PosSemidef) :
    ∑ i, ∑ j, ‖Y i j - X i j‖ ^ 2 ≤ ∑ i, ∑ j, ‖Z i j - X i j‖ ^ 2 := by
  have hY := (C13_floor np n_dims eps X Y h).1
  simp only [to_psd] at h
  rw [if_pos (by constructor <;> simp <;> omega)] at h
  injection h with h
  rw [Option.getD_some, core_eq] at h
  have hs := np.eigh_spec _ (symmetrise_hermitian X)
  obtain ⟨lamb, hlamb⟩ : ∃ lamb, lamb = (np.eigh (symmetrise X)).1 := ⟨_, rfl⟩
  obtain ⟨P, hP⟩ : ∃ P, P = (np.eigh (symmetrise X)).2 := ⟨_, rfl⟩
  rw [← hlamb, ← hP] at h hs
  have hu1 : Pᴴ * P = 1 := hs.unitary
  have hu2 : P * Pᴴ = 1 := hs.unitary'
  have key : ∀ A : Mat n 𝕜, frobSq (A - symmetrise X) = frobSq (Pᴴ * A * P - diagonal fun i => (lamb i : 𝕜)) :=
    fun A => by
    have e : Pᴴ * A * P - diagonal (fun i => (lamb i : 𝕜)) = Pᴴ * (A - symmetrise X) * P := by
      rw [hs.decomp, Matrix.mul_sub, Matrix.sub_mul]
      congr 1
      rw [← Matrix.mul_assoc, ← Matrix.mul_assoc, hu1, Matrix.one_mul, Matrix.mul_assoc, hu1, Matrix.mul_one]
    rw [e, frobSq_mul_unitary hu2, frobSq_unitary_mul (by rw [conjTranspose_conjTranspose]; exact hu2)]
  have hYd : Pᴴ * Y * P = diagonal fun i => ((max_flooring eps (lamb i) : ℝ) : 𝕜) := by
    rw [← h, ← Matrix.mul_assoc, ← Matrix.mul_assoc, hu1, Matrix.one_mul, Matrix.mul_assoc, hu1, Matrix.mul_one]
  show frobSq (Y - X) ≤ frobSq (Z - X)
  rw [frobSq_hermitian_sub hY, frobSq_hermitian_sub hZ, key, key, hYd]
  refine add_le_add_left ?_ _
  obtain ⟨A, hA⟩ : ∃ A, A = Pᴴ * Z * P := ⟨_, rfl⟩
  rw [← hA]
  have hAd : ∀ i, eps ≤ RCLike.re (A i i) := fun i => by
    have h1 := (hf.conjTranspose_mul_mul_same P).diag_nonneg (i := i)
    have e : Pᴴ * (Z - (eps : 𝕜) • 1) * P = A - (eps : 𝕜) • 1 := by
      rw [hA, Matrix.mul_sub, Matrix.sub_mul, Matrix.mul_smul, Matrix.smul_mul, Matrix.mul_one, hu1]
    rw [e, Matrix.sub_apply, Matrix.smul_apply, one_apply_eq, smul_eq_mul, mul_one] at h1
    have h2 := (RCLike.nonneg_iff.1 h1).1
    rw [map_sub, RCLike.ofReal_re] at h2
    linarith
  refine Finset.sum_le_sum fun i _ => ?_
  rw [Finset.sum_eq_single i (fun j _ hj => by simp [Ne.symm hj]) (by simp)]
  refine le_trans ?_ (Finset.single_le_sum (f := fun j => ‖(A - diagonal fun i => (lamb i : 𝕜)) i j‖ ^ 2)
    (fun j _ => sq_nonneg _) (Finset.mem_univ i))
  simp only [Matrix.sub_apply, diagonal_apply_eq]
  rw [← RCLike.ofReal_sub, RCLike.norm_ofReal, sq_abs]
  have h1 : (RCLike.re (A i i) - lamb i) ^ 2 ≤ ‖A i i - (lamb i : 𝕜)‖ ^ 2 := by
    have := RCLike.abs_re_le_norm (A i i - (lamb i : 𝕜))
    rw [map_sub, RCLike.ofReal_re] at this
    rw [← sq_abs]
    exact pow_le_pow_left₀ (abs_nonneg _) this 2
  refine le_trans ?_ h1
  have h2 := hAd i
  rw [max_flooring]
  rcases le_total (lamb i) eps with h3 | h3
  · rw [max_eq_right h3]
    nlinarith
  · rw [max_eq_left h3, sub_self, zero_pow two_ne_zero]
    exact sq_nonneg _

/-- C13: without flooring the result is the Hermitian part of the input. -/
theorem C13_no_floor (np : Numpy 𝕜) (n_dims : ℕ) (X : Mat n 𝕜) :
    to_psd np n_dims (-2) (-1) none X = .ok ((2 : 𝕜)⁻¹ • (X + Xᴴ)) := by
  have hs := np.eigh_spec _ (symmetrise_hermitian X)
  simp only [to_psd]
  rw [if_pos (by constructor <;> simp <;> omega), Option.getD_none, core_eq]
  simp only [identity]
  rw [← hs.decomp, symmetrise]

/-- C13: the call succeeds exactly when the two axes name the last two axes in order; otherwise it
fails with an assertion error. -/
theorem C13_axes (np : Numpy 𝕜) (n_dims : ℕ) (f : Option (ℝ → ℝ)) (axis1 axis2 : ℤ) (X : Mat n 𝕜) :
    (to_psd np n_dims axis1 axis2 f X = .error .assertion ↔
      ¬ ((axis1 = -2 ∨ (0 ≤ axis1 ∧ axis1 = n_dims - 2)) ∧
         (axis2 = -1 ∨ (0 ≤ axis2 ∧ axis2 = n_dims - 1)))) := by
  have h : ∀ (a k : ℤ), 0 < k → ((if a < 0 then (n_dims : ℤ) + a else a) = n_dims - k ↔
      (a = -k ∨ (0 ≤ a ∧ a = n_dims - k))) := by
    intro a k hk; split <;> omega
  rw [← h _ 2 (by norm_num), ← h _ 1 (by norm_num)]
  simp only [to_psd]
  split <;> simp_all

/-- The hypothesis of `C13_floor`/`C13_idempotent` is met by every matrix of a stacked array. -/
example (X : Mat 3 ℂ) : ∃ Y, to_psd someNumpy 3 (-2) (-1) (some (max_flooring (1 / 10))) X = .ok Y :=
  ⟨_, by simp only [to_psd]; rw [if_pos (by constructor <;> norm_num)]⟩

/-- The hypotheses of `C13_fixed` are met by a multiple of the identity above the floor. -/
example : ((2 : ℂ) • (1 : Mat 3 ℂ)).IsHermitian ∧
    ((2 : ℂ) • (1 : Mat 3 ℂ) - ((1 : ℝ) : ℂ) • (1 : Mat 3 ℂ)).PosSemidef := by
  constructor
  · simp [IsHermitian, conjTranspose_smul]
  · rw [← sub_smul]
    exact PosSemidef.one.smul (by norm_num)

end Verif.Special
