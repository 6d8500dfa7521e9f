import Verif.Props.EigPhase2
import Verif.Props.FasterIva

/-!
# C80, continued: whitening, PCA, FastICA, FastIVA and FasterIVA
-/

set_option linter.unusedSectionVars false

namespace Verif
namespace EigPhase

open Matrix Spatial Scale
open scoped ComplexOrder

section eigh

variable {𝕜 : Type} [RCLike 𝕜] {n t : ℕ}

/-- Sums over the eigenvalues do not depend on the decomposition. -/
theorem sum_eigh {X P P' : Mat n 𝕜} {l l' : Fin n → ℝ} (h : EighSpec X l P) (h' : EighSpec X l' P') (g : ℝ → ℝ) :
    ∑ i, g (l i) = ∑ i, g (l' i) := by
  have key : ∀ {P : Mat n 𝕜} {l : Fin n → ℝ}, EighSpec X l P →
      (P * npDiag (fun i => g (l i)) * Pᴴ).trace = ((∑ i, g (l i) : ℝ) : 𝕜) := by
    intro P l h
    rw [Matrix.mul_assoc, trace_mul_comm, Matrix.mul_assoc, h.unitary, Matrix.mul_one, npDiag_eq, trace_diagonal]
    push_cast
    rfl
  have e := congrArg Matrix.trace (EigFree.spectral_unique h.unitary h'.unitary (h.decomp.symm.trans h'.decomp) g)
  rw [key h, key h'] at e
  exact_mod_cast e

/-- The eigenvalues `eigh` returns are the same for every decomposition. -/
theorem eigh_values {X P P' : Mat n 𝕜} {l l' : Fin n → ℝ} (h : EighSpec X l P) (h' : EighSpec X l' P') : l' = l := by
  have key : ∀ {P P' : Mat n 𝕜} {l l' : Fin n → ℝ}, EighSpec X l P → EighSpec X l' P' → ∀ i, l' i ≤ l i := by
    intro P P' l l' h h' i
    by_contra hc
    push Not at hc
    have e := sum_eigh h h' fun x => if x ≤ l i then 1 else 0
    simp only [Finset.sum_boole] at e
    have e' : (Finset.univ.filter fun j => l j ≤ l i).card = (Finset.univ.filter fun j => l' j ≤ l i).card := by
      exact_mod_cast e
    have h1 : (Finset.Iic i).card ≤ (Finset.univ.filter fun j => l j ≤ l i).card :=
      Finset.card_le_card fun j hj => by
        simp only [Finset.mem_filter, Finset.mem_univ, true_and]
        exact h.sorted (Finset.mem_Iic.mp hj)
    have h2 : (Finset.univ.filter fun j => l' j ≤ l i).card ≤ (Finset.Iio i).card :=
      Finset.card_le_card fun j hj => by
        simp only [Finset.mem_filter, Finset.mem_univ, true_and] at hj
        rw [Finset.mem_Iio]
        by_contra hij
        exact absurd (h'.sorted (not_lt.mp hij)) (not_le.mpr (hj.trans_lt hc))
    rw [Fin.card_Iic] at h1
    rw [Fin.card_Iio] at h2
    omega
  funext i
  exact le_antisymm (key h h' i) (key h' h i)

/-- The eigenvector of a simple eigenvalue is determined up to a factor of absolute value 1. -/
theorem eigh_simple {X P P' : Mat n 𝕜} {l l' : Fin n → ℝ} (h : EighSpec X l P) (h' : EighSpec X l' P') (i : Fin n)
    (hi : ∀ j, j ≠ i → l j ≠ l i) : ∃ u : 𝕜, ‖u‖ = 1 ∧ ∀ a, P' a i = u * P a i := by
  have hl := eigh_values h h'
  subst hl
  obtain ⟨M, hM⟩ : ∃ M, M = Pᴴ * P' := ⟨_, rfl⟩
  have e : (diagonal fun i => (l' i : 𝕜)) * M = M * diagonal fun i => (l' i : 𝕜) := by
    calc (diagonal fun i => (l' i : 𝕜)) * M = Pᴴ * P * (diagonal fun i => (l' i : 𝕜)) * Pᴴ * P' := by
          rw [h.unitary, Matrix.one_mul, hM, Matrix.mul_assoc]
      _ = Pᴴ * (P * (diagonal fun i => (l' i : 𝕜)) * Pᴴ) * P' := by simp only [Matrix.mul_assoc]
      _ = Pᴴ * P' * (diagonal fun i => (l' i : 𝕜)) * (P'ᴴ * P') := by
          rw [← h.decomp, h'.decomp]
          simp only [Matrix.mul_assoc]
      _ = _ := by rw [h'.unitary, Matrix.mul_one, hM]
  have hoff : ∀ j, j ≠ i → M j i = 0 := by
    intro j hj
    have := congrFun (congrFun e j) i
    rw [diagonal_mul, mul_diagonal, mul_comm] at this
    by_contra h0
    exact hi j hj (by exact_mod_cast mul_left_cancel₀ h0 this)
  have hPM : P' = P * M := by rw [hM, ← Matrix.mul_assoc, mul_eq_one_comm.mp h.unitary, Matrix.one_mul]
  have hcol : ∀ a, P' a i = P a i * M i i := by
    intro a
    rw [hPM, mul_apply, Finset.sum_eq_single i]
    · intro j _ hj; rw [hoff j hj, mul_zero]
    · intro hh; exact absurd (Finset.mem_univ i) hh
  have hMM : Mᴴ * M = 1 := by
    rw [hM, conjTranspose_mul, conjTranspose_conjTranspose, Matrix.mul_assoc, ← Matrix.mul_assoc P,
      mul_eq_one_comm.mp h.unitary, Matrix.one_mul, h'.unitary]
  refine ⟨M i i, ?_, fun a => by rw [hcol, mul_comm]⟩
  have := congrFun (congrFun hMM i) i
  rw [mul_apply, Finset.sum_eq_single i, one_apply_eq, conjTranspose_apply] at this
  · have h2 := congrArg norm this
    rw [norm_mul, norm_star, norm_one] at h2
    nlinarith [norm_nonneg (M i i)]
  · intro j _ hj; rw [hoff j hj, mul_zero]
  · intro hh; exact absurd (Finset.mem_univ i) hh

theorem covariance_hermitian (X : Transform.Data n t 𝕜) : (Transform.covariance X).IsHermitian := by
  ext i j
  simp only [conjTranspose_apply, Transform.covariance, of_apply, star_div₀, star_sum, star_natCast, star_mul', star_star]
  congr 1
  exact Finset.sum_congr rfl fun s _ => mul_comm _ _

/-- C80 (whitening): whatever eigenvectors LAPACK returns, the whitened data are the same up to a unitary matrix. -/
theorem C80_whiten {B : Type} (np np' : Numpy 𝕜) (ndim : ℕ) (isComplex : Bool) (X Z Z' : B → Transform.Data n t 𝕜)
    (hX : ∀ b, (Transform.sampleCov (X b)).PosDef) (h : Transform.whiten np ndim isComplex X = .ok Z)
    (h' : Transform.whiten np' ndim isComplex X = .ok Z') (b : B) :
    ∃ U : Mat n 𝕜, U * Uᴴ = 1 ∧ Uᴴ * U = 1 ∧ Z' b = U * Z b := by
  obtain ⟨V, hV, e⟩ := Transform.C20_invertible_map np ndim isComplex X Z hX h b
  obtain ⟨V', -, e'⟩ := Transform.C20_invertible_map np' ndim isComplex X Z' hX h' b
  have hVd : IsUnit V.det := (isUnit_iff_isUnit_det V).mp hV
  have hU : Z' b = V' * V⁻¹ * Z b := by rw [e, e', Matrix.mul_assoc, nonsing_inv_mul_cancel_left _ _ hVd]
  have c : Transform.sampleCov (V' * V⁻¹ * Z b) = V' * V⁻¹ * Transform.sampleCov (Z b) * (V' * V⁻¹)ᴴ := by
    simp only [Transform.sampleCov, conjTranspose_mul, Matrix.mul_smul, Matrix.smul_mul, Matrix.mul_assoc]
  rw [← hU, Transform.C20_identity_covariance np ndim isComplex X Z hX h b,
    Transform.C20_identity_covariance np' ndim isComplex X Z' hX h' b, Matrix.mul_one] at c
  exact ⟨V' * V⁻¹, c.symm, mul_eq_one_comm.mp c.symm, hU⟩

/-- No two principal components of the data have the same power. -/
def DistinctPowers (X : Transform.Data n t 𝕜) : Prop :=
  ∃ l P, EighSpec (Transform.covariance X) l P ∧ Function.Injective l

theorem DistinctPowers.injective {X : Transform.Data n t 𝕜} (h : DistinctPowers X) {l : Fin n → ℝ} {P : Mat n 𝕜}
    (h' : EighSpec (Transform.covariance X) l P) : Function.Injective l := by
  obtain ⟨l₀, P₀, h0, hi⟩ := h
  rw [eigh_values h0 h']
  exact hi

theorem DistinctPowers.cols {X : Transform.Data n t 𝕜} (h : DistinctPowers X) (np np' : Numpy 𝕜) :
    ∃ u : Fin n → 𝕜, (∀ i, ‖u i‖ = 1) ∧
      ∀ a i, (np'.eigh (Transform.covariance X)).2 a i = u i * (np.eigh (Transform.covariance X)).2 a i := by
  have s := np.eigh_spec _ (covariance_hermitian X)
  have s' := np'.eigh_spec _ (covariance_hermitian X)
  choose u h1 h2 using fun i => eigh_simple s s' i fun j hj => (h.injective s).ne hj
  exact ⟨u, h1, fun a i => h2 i a⟩

/-- C80 (whitening): with distinct powers of the principal components the whitened data are the same up to a factor of
absolute value 1 per channel. -/
theorem C80_whiten_distinct (np np' : Numpy 𝕜) (X : Transform.Data n t 𝕜) (h : DistinctPowers X) :
    ∃ u : Fin n → 𝕜, (∀ i, ‖u i‖ = 1) ∧
      ∀ i s, Transform.whitenCore np' X i s = u i * Transform.whitenCore np X i s := by
  obtain ⟨u, hu, e⟩ := h.cols np np'
  have hl := eigh_values (np.eigh_spec _ (covariance_hermitian X)) (np'.eigh_spec _ (covariance_hermitian X))
  refine ⟨fun i => star (u i), fun i => by rw [norm_star, hu], fun i s => ?_⟩
  simp only [Transform.whitenCore, npDiag_eq, Matrix.mul_assoc, diagonal_mul, hl]
  rw [mul_left_comm]
  congr 1
  rw [mul_apply, mul_apply, Finset.mul_sum]
  refine Finset.sum_congr rfl fun a _ => ?_
  rw [conjTranspose_apply, conjTranspose_apply, e, star_mul', mul_assoc]

/-- C80 (PCA): with distinct powers the principal components are the same up to a factor of absolute value 1 each. -/
theorem C80_pca_distinct (np np' : Numpy 𝕜) (ascend : Bool) (X : Transform.Data n t 𝕜) (h : DistinctPowers X) :
    ∃ u : Fin n → 𝕜, (∀ i, ‖u i‖ = 1) ∧
      ∀ i s, Transform.pcaCore np' ascend X i s = u i * Transform.pcaCore np ascend X i s := by
  obtain ⟨u, hu, e⟩ := h.cols np np'
  cases ascend with
  | true =>
    refine ⟨fun i => star (u (Fin.rev i)), fun i => by rw [norm_star, hu], fun i s => ?_⟩
    simp only [Transform.pcaCore, Transform.revCols, if_true, transpose_apply, mul_apply, map_apply, of_apply, e,
      Finset.mul_sum]
    exact Finset.sum_congr rfl fun a _ => by rw [star_mul']; ring
  | false =>
    refine ⟨fun i => star (u i), fun i => by rw [norm_star, hu], fun i s => ?_⟩
    simp only [Transform.pcaCore, Bool.false_eq_true, if_false, transpose_apply, mul_apply, map_apply, e, Finset.mul_sum]
    exact Finset.sum_congr rfl fun a _ => by rw [star_mul']; ring

end eigh

/-! ## FastICA -/

section ica

variable {n t : ℕ}

/-- Filters on data whose channels differ by the signs `ψ`, with outputs that differ by signs. -/
def SignEq (ψ : Fin n → ℝ) (W W' : Mat n ℝ) : Prop :=
  ∃ φ : Fin n → ℝ, (∀ k, φ k * φ k = 1) ∧ ∀ k c, W' k c = φ k * ψ c * W k c

theorem icaRow_sign (score d_score : (Fin t → ℝ) → Fin t → ℝ)
    (hs : ∀ y, score (-y) = -score y) (hd : ∀ y, d_score (-y) = d_score y)
    {Z Z' : Matrix (Fin n) (Fin t) ℝ} {ψ : Fin n → ℝ} (hψ : ∀ c, ψ c * ψ c = 1) (hZ : ∀ c s, Z' c s = ψ c * Z c s)
    {W W' : Mat n ℝ} (h : SignEq ψ W W') (src : Fin n) {W₁ : Mat n ℝ} (hW : Fast.icaRow score d_score Z W src = .ok W₁) :
    ∃ W₁', Fast.icaRow score d_score Z' W' src = .ok W₁' ∧ SignEq ψ W₁ W₁' := by
  obtain ⟨φ, hφ, e⟩ := h
  have hy : Fast.project Z' (W' src) = fun s => φ src * Fast.project Z (W src) s := by
    funext s
    simp only [Fast.project, e, hZ, Finset.mul_sum]
    exact Finset.sum_congr rfl fun c _ => by linear_combination (φ src * W src c * Z c s) * hψ c
  have hsc : score (Fast.project Z' (W' src)) = fun s => φ src * score (Fast.project Z (W src)) s := by
    rcases mul_self_eq_one_iff.mp (hφ src) with h1 | h1
    · rw [hy, h1]; simp
    · rw [hy, h1]
      simp only [neg_mul, one_mul]
      exact hs _
  have hds : d_score (Fast.project Z' (W' src)) = d_score (Fast.project Z (W src)) := by
    rcases mul_self_eq_one_iff.mp (hφ src) with h1 | h1
    · rw [hy, h1]; simp
    · rw [hy, h1]
      simp only [neg_mul, one_mul]
      exact hd _
  have hdir : ∀ c, Fast.icaDirection score d_score Z' (W' src) c
      = φ src * ψ c * Fast.icaDirection score d_score Z (W src) c := by
    intro c
    simp only [Fast.icaDirection, hsc, hds, hZ, e, meanT, mul_sub]
    have : ∑ s, φ src * score (Fast.project Z (W src)) s * (ψ c * Z c s)
        = φ src * ψ c * ∑ s, score (Fast.project Z (W src)) s * Z c s := by
      rw [Finset.mul_sum]
      exact Finset.sum_congr rfl fun s _ => by ring
    rw [this]
    ring
  have hdef : ∀ c, Fast.deflate W' src (Fast.icaDirection score d_score Z' (W' src)) c
      = φ src * ψ c * Fast.deflate W src (Fast.icaDirection score d_score Z (W src)) c := by
    intro c
    simp only [Fast.deflate, mul_sub, hdir c, Finset.mul_sum]
    congr 1
    refine Finset.sum_congr rfl fun k _ => ?_
    have : ∑ b, W' k b * Fast.icaDirection score d_score Z' (W' src) b
        = φ k * φ src * ∑ b, W k b * Fast.icaDirection score d_score Z (W src) b := by
      rw [Finset.mul_sum]
      refine Finset.sum_congr rfl fun b _ => ?_
      rw [e, hdir]
      linear_combination (φ k * W k b * φ src * Fast.icaDirection score d_score Z (W src) b) * hψ b
    rw [this, e]
    have h2 : ∑ b, W k b * Fast.icaDirection score d_score Z (W src) b
        = ∑ b, W k b * Fast.icaDirection score d_score Z (W src) b := rfl
    linear_combination (φ src * ψ c * W k c * ∑ b, W k b * Fast.icaDirection score d_score Z (W src) b) * hφ k
  obtain ⟨w, hw⟩ : ∃ w, w = Fast.deflate W src (Fast.icaDirection score d_score Z (W src)) := ⟨_, rfl⟩
  obtain ⟨w', hw'⟩ : ∃ w', w' = Fast.deflate W' src (Fast.icaDirection score d_score Z' (W' src)) := ⟨_, rfl⟩
  rw [← hw, ← hw'] at hdef
  have hn : Fast.norm2 w' = Fast.norm2 w := by
    simp only [Fast.norm2, hdef]
    congr 1
    exact Finset.sum_congr rfl fun c _ => by
      linear_combination (w c ^ 2 * (ψ c * ψ c)) * hφ src + w c ^ 2 * hψ c
  simp only [Fast.icaRow, ← hw, ← hw'] at hW ⊢
  by_cases h0 : Fast.norm2 w = 0
  · rw [if_pos h0] at hW
    exact absurd hW (by simp)
  · rw [if_neg h0] at hW
    rw [if_neg (by rw [hn]; exact h0)]
    refine ⟨_, rfl, φ, hφ, fun k c => ?_⟩
    rw [← Except.ok.inj hW]
    by_cases hk : k = src
    · subst hk
      rw [updateRow_self, updateRow_self, hn, hdef, mul_div_assoc]
    · rw [updateRow_ne hk, updateRow_ne hk, e]

/-- C80 (FastICA): from whitening on, two runs on two LAPACKs from the default identity filter (or from filters that
correspond) separate the recording into the same signals up to their signs, and report the same losses, provided the
recording has principal components of distinct powers, the score function is odd and its derivative even. -/
theorem C80_fastica (np np' : Numpy ℝ) (score d_score : (Fin t → ℝ) → Fin t → ℝ)
    (hs : ∀ y, score (-y) = -score y) (hd : ∀ y, d_score (-y) = d_score y) (X : Transform.Data n t ℝ)
    (hX : DistinctPowers X) (n_iter : ℕ) (W : Mat n ℝ)
    (h : iterM (Fast.icaStep score d_score (Transform.whitenCore np X)) n_iter 1 = .ok W) :
    ∃ (W' : Mat n ℝ) (ε : Fin n → ℝ), iterM (Fast.icaStep score d_score (Transform.whitenCore np' X)) n_iter 1 = .ok W' ∧
      (∀ k, ε k * ε k = 1) ∧
      (∀ k s, (W' * Transform.whitenCore np' X) k s = ε k * (W * Transform.whitenCore np X) k s) ∧
      ∀ contrast : ℝ → ℝ, (∀ x, contrast (-x) = contrast x) →
        Fast.icaLoss contrast (Transform.whitenCore np' X) W' = Fast.icaLoss contrast (Transform.whitenCore np X) W := by
  obtain ⟨ψ, hψ, hZ⟩ := C80_whiten_distinct np np' X hX
  have hψ' : ∀ c, ψ c * ψ c = 1 := fun c => by
    have := hψ c
    rw [Real.norm_eq_abs] at this
    rw [← abs_mul_abs_self, this, one_mul]
  have fold : ∀ (l : List (Fin n)) (W W' W₁ : Mat n ℝ), SignEq ψ W W' →
      l.foldlM (Fast.icaRow score d_score (Transform.whitenCore np X)) W = .ok W₁ →
      ∃ W₁', l.foldlM (Fast.icaRow score d_score (Transform.whitenCore np' X)) W' = .ok W₁' ∧ SignEq ψ W₁ W₁' := by
    intro l
    induction l with
    | nil =>
      intro W W' W₁ h e
      exact ⟨W', rfl, Except.ok.inj e ▸ h⟩
    | cons k l ih =>
      intro W W' W₁ h e
      rw [List.foldlM_cons] at e
      cases hr : Fast.icaRow score d_score (Transform.whitenCore np X) W k with
      | error x => rw [hr] at e; exact absurd e (by simp [Bind.bind, Except.bind])
      | ok A =>
        rw [hr] at e
        obtain ⟨A', hA', hAe⟩ := icaRow_sign score d_score hs hd hψ' hZ h k hr
        obtain ⟨W₁', h1, h2⟩ := ih A A' W₁ hAe e
        refine ⟨W₁', ?_, h2⟩
        rw [List.foldlM_cons, hA']
        exact h1
  have iter : ∀ (N : ℕ) (W W' W₁ : Mat n ℝ), SignEq ψ W W' →
      iterM (Fast.icaStep score d_score (Transform.whitenCore np X)) N W = .ok W₁ →
      ∃ W₁', iterM (Fast.icaStep score d_score (Transform.whitenCore np' X)) N W' = .ok W₁' ∧ SignEq ψ W₁ W₁' := by
    intro N
    induction N with
    | zero =>
      intro W W' W₁ h e
      exact ⟨W', rfl, Except.ok.inj e ▸ h⟩
    | succ N ih =>
      intro W W' W₁ h e
      simp only [iterM] at e ⊢
      cases hr : Fast.icaStep score d_score (Transform.whitenCore np X) W with
      | error x => rw [hr] at e; exact absurd e (by simp [Bind.bind, Except.bind])
      | ok A =>
        rw [hr] at e
        obtain ⟨A', hA', hAe⟩ := fold _ W W' A h hr
        rw [Fast.icaStep, hA']
        exact ih A A' W₁ hAe e
  obtain ⟨W', hW', φ, hφ, e⟩ := iter n_iter 1 1 W ⟨ψ, hψ', fun k c => by
    by_cases hk : k = c
    · subst hk; rw [hψ', one_mul]
    · rw [one_apply_ne hk, mul_zero]⟩ h
  have hY : ∀ k s, Fast.project (Transform.whitenCore np' X) (W' k) s
      = φ k * Fast.project (Transform.whitenCore np X) (W k) s := by
    intro k s
    simp only [Fast.project, e, hZ, Finset.mul_sum]
    exact Finset.sum_congr rfl fun c _ => by
      linear_combination (φ k * W k c * Transform.whitenCore np X c s) * hψ' c
  refine ⟨W', φ, hW', hφ, hY, fun contrast hc => ?_⟩
  simp only [Fast.icaLoss, hY]
  refine Finset.sum_congr rfl fun k _ => ?_
  rcases mul_self_eq_one_iff.mp (hφ k) with h1 | h1
  · simp only [h1, one_mul]
  · simp only [h1, neg_mul, one_mul, hc]

end ica

/-! ## FastIVA and FasterIVA -/

section iva

variable {F : Type} [Fintype F] {n t : ℕ}

/-- Filters on data whose channels differ by the phases `ψ`, with outputs that differ by phases. -/
def PhaseEq (ψ : F → Fin n → ℂ) (W W' : F → Mat n ℂ) : Prop :=
  ∃ φ : F → Fin n → ℂ, (∀ f k, ‖φ f k‖ = 1) ∧ ∀ f, W' f = diagonal (φ f) * W f * (diagonal (ψ f))ᴴ

theorem diag_unitary {φ : Fin n → ℂ} (hφ : ∀ i, ‖φ i‖ = 1) :
    (diagonal φ : Mat n ℂ)ᴴ * diagonal φ = 1 ∧ (diagonal φ : Mat n ℂ) * (diagonal φ)ᴴ = 1 := by
  have h := (isUnit_diag_phase hφ).1
  rw [← diagonal_conjTranspose] at h
  exact ⟨mul_eq_one_comm.mp h, h⟩

/-- The orthonormalisation commutes with unitary matrices on both sides. -/
theorem polar_conj (np np' : Numpy ℂ) (A R B : Mat n ℂ) (hA : Aᴴ * A = 1) (hB : B * Bᴴ = 1) (hR : IsUnit R.det) :
    Fast.polar np' (A * R * B) = A * Fast.polar np R * B := by
  have h := np.svd_spec R
  have hs : SvdSpec (A * R * B) (A * (np.svd R).1) (np.svd R).2.1 ((np.svd R).2.2 * B) := by
    refine ⟨?_, ?_, ?_, h.nonneg, h.sorted⟩
    · rw [conjTranspose_mul, Matrix.mul_assoc, ← Matrix.mul_assoc Aᴴ, hA, Matrix.one_mul, h.unitaryU]
    · rw [conjTranspose_mul, Matrix.mul_assoc, ← Matrix.mul_assoc B, hB, Matrix.one_mul, h.unitaryV]
    · conv_lhs => rw [h.decomp]
      simp only [Matrix.mul_assoc]
  have hu : IsUnit (A * R * B).det := by
    have h1 := IsUnit.of_mul_eq_one _ (by rw [← det_mul, mul_eq_one_comm.mp hA, det_one] : A.det * Aᴴ.det = 1)
    have h2 := IsUnit.of_mul_eq_one _ (by rw [← det_mul, hB, det_one] : B.det * Bᴴ.det = 1)
    rw [det_mul, det_mul]
    exact (h1.mul hR).mul h2
  have := EigFree.svd_unique (np'.svd_spec (A * R * B)) hs hu fun _ => 1
  simp only [npDiag_eq, RCLike.ofReal_one, diagonal_one, Matrix.mul_one] at this
  rw [Fast.polar, this, Fast.polar]
  simp only [Matrix.mul_assoc]

theorem PhaseEq.separate {ψ : F → Fin n → ℂ} (hψ : ∀ f c, ‖ψ f c‖ = 1) {W W' : F → Mat n ℂ} (h : PhaseEq ψ W W')
    {Z Z' : Spec F n t} (hZ : ∀ f, Z' f = diagonal (ψ f) * Z f) : UpToPhase (separate Z W) (Scale.separate Z' W') := by
  obtain ⟨φ, hφ, e⟩ := h
  refine ⟨φ, hφ, ?_⟩
  funext f
  have e2 : (Matrix.of fun i j => φ f i * Scale.separate Z W f i j) = diagonal (φ f) * Scale.separate Z W f :=
    Phase.rot_eq (φ f) _
  rw [e2, Scale.separate, Scale.separate, e, hZ, Matrix.mul_assoc, ← Matrix.mul_assoc _ (diagonal (ψ f)),
    (diag_unitary (hψ f)).1, Matrix.one_mul, Matrix.mul_assoc]

/-- An update of FastIVA on corresponding filters gives corresponding filters. -/
theorem fastIva_step (np np' : Numpy ℂ) (floor d dd : ℝ → ℝ) {ψ : F → Fin n → ℂ} (hψ : ∀ f c, ‖ψ f c‖ = 1)
    {Z Z' : Spec F n t} (hZ : ∀ f, Z' f = diagonal (ψ f) * Z f) {W W' : F → Mat n ℂ} (h : PhaseEq ψ W W')
    (hreg : ∀ f, IsUnit (Fast.fastIvaFilter floor d dd Z W f).det) :
    PhaseEq ψ (Fast.fastIvaStep np floor d dd Z W) (Fast.fastIvaStep np' floor d dd Z' W') := by
  have hY := h.separate hψ hZ
  have hb := hY.binNorm
  obtain ⟨φ, hφ, e⟩ := h
  have hYe : ∀ f k s, Scale.separate Z' W' f k s = φ f k * Scale.separate Z W f k s := by
    intro f k s
    have : Scale.separate Z' W' f = diagonal (φ f) * Scale.separate Z W f := by
      rw [Scale.separate, Scale.separate, e, hZ, Matrix.mul_assoc, ← Matrix.mul_assoc _ (diagonal (ψ f)),
        (diag_unitary (hψ f)).1, Matrix.one_mul, Matrix.mul_assoc]
    rw [this, diagonal_mul]
  have hWe : ∀ f k c, W' f k c = φ f k * W f k c * star (ψ f c) := by
    intro f k c
    rw [e, diagonal_conjTranspose, mul_diagonal, diagonal_mul, Pi.star_apply]
  have hZe : ∀ f c s, Z' f c s = ψ f c * Z f c s := by
    intro f c s
    rw [hZ, diagonal_mul]
  refine ⟨φ, hφ, fun f => ?_⟩
  rw [Fast.fastIvaStep, Fast.fastIvaStep,
    ← polar_conj np np' _ _ _ (diag_unitary (hφ f)).1 (by rw [conjTranspose_conjTranspose]; exact (diag_unitary (hψ f)).1)
      (hreg f)]
  congr 1
  ext k c
  rw [diagonal_conjTranspose, mul_diagonal, diagonal_mul, Pi.star_apply]
  simp only [Fast.fastIvaFilter, of_apply, hb, hY.norm_eq]
  have e1 : ∀ x y : ℂ, φ f k * star (x - y) * star (ψ f c) = star (star (φ f k) * ψ f c * x - star (φ f k) * ψ f c * y) := by
    intro x y
    simp only [star_sub, star_mul', star_star]
    ring
  rw [e1]
  congr 1
  rw [meanT, meanT, meanT, meanT, mul_div_assoc', mul_div_assoc', Finset.mul_sum, Finset.mul_sum]
  congr 2
  · refine Finset.sum_congr rfl fun s _ => ?_
    rw [hYe, hWe, hZe, star_mul', star_mul', star_mul', star_star]
    ring
  · refine Finset.sum_congr rfl fun s _ => ?_
    rw [hWe, star_mul', star_mul', star_star]
    ring

/-- The condition on an update of FasterIVA: the largest eigenvalue of every weighted covariance is simple and the
principal eigenvectors are linearly independent. -/
def FasterRegular (np : Numpy ℂ) (floor d : ℝ → ℝ) (Z : Spec F (n + 1) t) (W : F → Mat (n + 1) ℂ) : Prop :=
  ∀ f, IsUnit (Fast.fasterIvaFilter np floor d Z W f).det ∧ ∀ k i, i ≠ Fin.last n →
    (np.eigh (Iva.wcov (fun k s => d (Iva.binNorm (Scale.separate Z W) k s)
      / floor (2 * Iva.binNorm (Scale.separate Z W) k s)) Z f k)).1 i
    ≠ (np.eigh (Iva.wcov (fun k s => d (Iva.binNorm (Scale.separate Z W) k s)
      / floor (2 * Iva.binNorm (Scale.separate Z W) k s)) Z f k)).1 (Fin.last n)

theorem wcov_herm (phi : Fin n → Fin t → ℝ) (Z : Spec F n t) (f : F) (k : Fin n) : (Iva.wcov phi Z f k).IsHermitian := by
  ext i j
  simp only [conjTranspose_apply, Iva.wcov, of_apply, meanT, star_div₀, star_sum, star_natCast, star_mul', star_star]
  congr 1
  refine Finset.sum_congr rfl fun s _ => ?_
  rw [show star ((phi k s : ℝ) : ℂ) = phi k s from Complex.conj_ofReal _]
  ring

/-- An update of FasterIVA on corresponding filters gives corresponding filters. -/
theorem fasterIva_step (np np' : Numpy ℂ) (floor d : ℝ → ℝ) {ψ : F → Fin (n + 1) → ℂ} (hψ : ∀ f c, ‖ψ f c‖ = 1)
    {Z Z' : Spec F (n + 1) t} (hZ : ∀ f, Z' f = diagonal (ψ f) * Z f) {W W' : F → Mat (n + 1) ℂ} (h : PhaseEq ψ W W')
    (hreg : FasterRegular np floor d Z W) :
    PhaseEq ψ (Fast.fasterIvaStep np floor d Z W) (Fast.fasterIvaStep np' floor d Z' W') := by
  have hb := (h.separate hψ hZ).binNorm
  obtain ⟨phi, hphi⟩ : ∃ phi : Fin (n + 1) → Fin t → ℝ, phi = fun k s => d (Iva.binNorm (Scale.separate Z W) k s)
      / floor (2 * Iva.binNorm (Scale.separate Z W) k s) := ⟨_, rfl⟩
  have hcov : ∀ f k, Iva.wcov phi Z' f k = diagonal (ψ f) * Iva.wcov phi Z f k * (diagonal (ψ f))ᴴ := by
    intro f k
    have : Z' = remix (fun f => diagonal (ψ f)) Z := funext hZ
    rw [this, wcov_remix]
  have hrow : ∀ f k, ∃ u : ℂ, ‖u‖ = 1 ∧ ∀ c, (np'.eigh (Iva.wcov phi Z' f k)).2 c (Fin.last n)
      = u * (ψ f c * (np.eigh (Iva.wcov phi Z f k)).2 c (Fin.last n)) := by
    intro f k
    have s := np.eigh_spec _ (wcov_herm phi Z f k)
    have s' := np'.eigh_spec _ (wcov_herm phi Z' f k)
    obtain ⟨hu1, hu2⟩ := diag_unitary (hψ f)
    have s2 : EighSpec (Iva.wcov phi Z' f k) (np.eigh (Iva.wcov phi Z f k)).1
        (diagonal (ψ f) * (np.eigh (Iva.wcov phi Z f k)).2) := by
      refine ⟨?_, ?_, s.sorted⟩
      · rw [conjTranspose_mul, Matrix.mul_assoc, ← Matrix.mul_assoc _ (diagonal (ψ f)), hu1, Matrix.one_mul, s.unitary]
      · rw [hcov]
        conv_lhs => rw [s.decomp]
        rw [conjTranspose_mul]
        simp only [Matrix.mul_assoc]
    obtain ⟨u, hu, e⟩ := eigh_simple s2 s' (Fin.last n) (by rw [hphi]; exact (hreg f).2 k)
    exact ⟨u, hu, fun c => by rw [e c, diagonal_mul]⟩
  choose u hu hue using hrow
  refine ⟨fun f k => star (u f k), fun f k => by rw [norm_star, hu], fun f => ?_⟩
  have hs : ∀ k, ‖star (u f k)‖ = 1 := fun k => by rw [norm_star, hu]
  rw [Fast.fasterIvaStep, Fast.fasterIvaStep,
    ← polar_conj np np' _ _ _ (diag_unitary hs).1 (by rw [conjTranspose_conjTranspose]; exact (diag_unitary (hψ f)).1)
      (hreg f).1]
  congr 1
  ext k c
  rw [diagonal_conjTranspose, mul_diagonal, diagonal_mul, Pi.star_apply]
  simp only [Fast.fasterIvaFilter, of_apply, hb, ← hphi, hue, star_mul']
  ring

/-- With `scale_restoration=True` (projection back) the spectrograms FastIVA and FasterIVA return are the same for
corresponding filters. -/
theorem finishFast_eq (np np' : Numpy ℂ) (r : Fin n) (X : Spec F n t) {ψ : F → Fin n → ℂ} (hψ : ∀ f c, ‖ψ f c‖ = 1)
    (hZ : ∀ f, Lifecycle.whitened np' X f = diagonal (ψ f) * Lifecycle.whitened np X f) {W W' : F → Mat n ℂ}
    (h : PhaseEq ψ W W') (Y : Spec F n t) (W₁ : F → Mat n ℂ)
    (hok : Lifecycle.finishFast np (.bool true) r X W = .ok (Y, W₁)) :
    ∃ W₁', Lifecycle.finishFast np' (.bool true) r X W' = .ok (Y, W₁') := by
  have hY := (h.separate hψ hZ).projectionBackData r X
  obtain ⟨Z, hZe⟩ : ∃ Z, Z = Lifecycle.whitened np X := ⟨_, rfl⟩
  obtain ⟨Z', hZe'⟩ : ∃ Z', Z' = Lifecycle.whitened np' X := ⟨_, rfl⟩
  have hrs : ∀ pb mdp : Except PyErr (Spec F n t × (F → Mat n ℂ)), Lifecycle.restoreScale (.bool true) pb mdp = pb :=
    fun pb mdp => by
      simp [Lifecycle.restoreScale, Lifecycle.ScaleOpt.truthy, Lifecycle.projectionBackKeywords]
  simp only [Lifecycle.finishFast, Lifecycle.ScaleOpt.truthy, if_true, hrs, Lifecycle.applyProjectionBackFast,
    ← hZe, ← hZe'] at hY hZ hok ⊢
  rw [hY]
  cases hp : projectionBackData r (Scale.separate Z W) X with
  | error x => rw [hp] at hok; exact absurd hok (by simp [Bind.bind, Except.bind])
  | ok Ys =>
    rw [hp] at hok
    have e : ∀ f, Z' f * (Z' f)ᴴ = diagonal (ψ f) * (Z f * (Z f)ᴴ) * (diagonal (ψ f))ᴴ := fun f => by
      rw [hZ, conjTranspose_mul]
      simp only [Matrix.mul_assoc]
    by_cases hu : ∀ f, IsUnit (Z f * (Z f)ᴴ).det
    · have hu' : ∀ f, IsUnit (Z' f * (Z' f)ᴴ).det := fun f => by
        have h1 := (isUnit_diag_phase (hψ f)).2
        have h2 : IsUnit ((diagonal (ψ f))ᴴ : Mat n ℂ).det := by rw [det_conjTranspose]; exact h1.star
        rw [e, det_mul, det_mul]
        exact (h1.mul (hu f)).mul h2
      have i1 : npInvB (fun f => Z f * (Z f)ᴴ) = .ok fun f => (Z f * (Z f)ᴴ)⁻¹ := by rw [npInvB, if_pos hu]
      have i2 : npInvB (fun f => Z' f * (Z' f)ᴴ) = .ok fun f => (Z' f * (Z' f)ᴴ)⁻¹ := by rw [npInvB, if_pos hu']
      rw [i1] at hok
      rw [i2]
      simp only [Bind.bind, Except.bind] at hok ⊢
      obtain ⟨hok1, -⟩ := Prod.mk.inj (Except.ok.inj hok)
      refine ⟨fun f => Ys f * (Z' f)ᴴ * (Z' f * (Z' f)ᴴ)⁻¹, congrArg Except.ok (Prod.ext ?_ rfl)⟩
      · rw [← hok1]
        funext f
        obtain ⟨hu1, hu2⟩ := diag_unitary (hψ f)
        simp only [Scale.separate]
        rw [e, hZ, conjTranspose_mul, Matrix.mul_inv_rev, Matrix.mul_inv_rev, inv_eq_right_inv hu2,
          inv_eq_right_inv hu1]
        calc _ = Ys f * (Z f)ᴴ * ((diagonal (ψ f))ᴴ * diagonal (ψ f)) * (Z f * (Z f)ᴴ)⁻¹
              * ((diagonal (ψ f))ᴴ * diagonal (ψ f)) * Z f := by simp only [Matrix.mul_assoc]
          _ = _ := by rw [hu1, Matrix.mul_one, Matrix.mul_one]
    · have i1 : npInvB (fun f => Z f * (Z f)ᴴ) = .error .linalg := by rw [npInvB, if_neg hu]
      rw [i1] at hok
      exact absurd hok (by simp [Bind.bind, Except.bind])

theorem whitened_phase (np np' : Numpy ℂ) (X : Spec F n t) (hX : ∀ f, DistinctPowers (X f)) :
    ∃ ψ : F → Fin n → ℂ, (∀ f c, ‖ψ f c‖ = 1) ∧
      (∀ f, Lifecycle.whitened np' X f = diagonal (ψ f) * Lifecycle.whitened np X f) ∧ PhaseEq ψ 1 1 := by
  choose ψ h1 h2 using fun f => C80_whiten_distinct np np' (X f) (hX f)
  refine ⟨ψ, h1, fun f => ?_, ψ, h1, fun f => ?_⟩
  · ext c s
    rw [diagonal_mul]
    exact h2 f c s
  · rw [Pi.one_apply, Matrix.mul_one, (diag_unitary (h1 f)).2]

theorem iterate_rel {σ τ : Type} (g : σ → σ) (g' : τ → τ) (R : σ → τ → Prop) (Reg : σ → Prop)
    (h : ∀ s s', R s s' → Reg s → R (g s) (g' s')) (s : σ) (s' : τ) (h0 : R s s') (N : ℕ)
    (hreg : ∀ i < N, Reg (g^[i] s)) (i : ℕ) (hi : i ≤ N) : R (g^[i] s) (g'^[i] s') := by
  induction i with
  | zero => exact h0
  | succ i ih =>
    rw [Function.iterate_succ_apply', Function.iterate_succ_apply']
    exact h _ _ (ih (by omega)) (hreg i (by omega))

/-- C80 (FastIVA): a whole call, from whitening on. If the principal components of every bin have distinct powers and
the directions that are orthonormalised stay linearly independent, then all LAPACKs give the same separated
spectrograms up to unit phases, the same losses, and the same output once the scale is restored. -/
theorem C80_fast_iva (np np' : Numpy ℂ) (floor d dd : ℝ → ℝ) (X : Spec F n t) (hX : ∀ f, DistinctPowers (X f))
    (n_iter : ℕ)
    (hreg : ∀ i < n_iter, ∀ f, IsUnit (Fast.fastIvaFilter floor d dd (Lifecycle.whitened np X)
      ((Fast.fastIvaStep np floor d dd (Lifecycle.whitened np X))^[i] 1) f).det) :
    (∀ i ≤ n_iter, UpToPhase
        (separate (Lifecycle.whitened np X) ((Fast.fastIvaStep np floor d dd (Lifecycle.whitened np X))^[i] 1))
        (separate (Lifecycle.whitened np' X) ((Fast.fastIvaStep np' floor d dd (Lifecycle.whitened np' X))^[i] 1)) ∧
      ∀ G, Fast.ivaLoss G (Lifecycle.whitened np X) ((Fast.fastIvaStep np floor d dd (Lifecycle.whitened np X))^[i] 1)
        = Fast.ivaLoss G (Lifecycle.whitened np' X)
          ((Fast.fastIvaStep np' floor d dd (Lifecycle.whitened np' X))^[i] 1)) ∧
    ∀ r Y W₁, Lifecycle.finishFast np (.bool true) r X
        ((Fast.fastIvaStep np floor d dd (Lifecycle.whitened np X))^[n_iter] 1) = .ok (Y, W₁) →
      ∃ W₁', Lifecycle.finishFast np' (.bool true) r X
        ((Fast.fastIvaStep np' floor d dd (Lifecycle.whitened np' X))^[n_iter] 1) = .ok (Y, W₁') := by
  obtain ⟨ψ, hψ, hZ, h0⟩ := whitened_phase np np' X hX
  have key := iterate_rel (Fast.fastIvaStep np floor d dd (Lifecycle.whitened np X))
    (Fast.fastIvaStep np' floor d dd (Lifecycle.whitened np' X)) (PhaseEq ψ)
    (fun W => ∀ f, IsUnit (Fast.fastIvaFilter floor d dd (Lifecycle.whitened np X) W f).det)
    (fun W W' h hr => fastIva_step np np' floor d dd hψ hZ h hr) 1 1 h0 n_iter hreg
  refine ⟨fun i hi => ⟨(key i hi).separate hψ hZ, fun G => ?_⟩, fun r Y W₁ h =>
    finishFast_eq np np' r X hψ hZ (key n_iter le_rfl) Y W₁ h⟩
  simp only [Fast.ivaLoss, ((key i hi).separate hψ hZ).binNorm]

/-- C80 (FasterIVA): the same for FasterIVA, if the largest eigenvalue of every weighted covariance is simple. -/
theorem C80_faster_iva (np np' : Numpy ℂ) (floor d : ℝ → ℝ) (X : Spec F (n + 1) t) (hX : ∀ f, DistinctPowers (X f))
    (n_iter : ℕ)
    (hreg : ∀ i < n_iter, FasterRegular np floor d (Lifecycle.whitened np X)
      ((Fast.fasterIvaStep np floor d (Lifecycle.whitened np X))^[i] 1)) :
    (∀ i ≤ n_iter, UpToPhase
        (separate (Lifecycle.whitened np X) ((Fast.fasterIvaStep np floor d (Lifecycle.whitened np X))^[i] 1))
        (separate (Lifecycle.whitened np' X) ((Fast.fasterIvaStep np' floor d (Lifecycle.whitened np' X))^[i] 1)) ∧
      ∀ G, Fast.ivaLoss G (Lifecycle.whitened np X) ((Fast.fasterIvaStep np floor d (Lifecycle.whitened np X))^[i] 1)
        = Fast.ivaLoss G (Lifecycle.whitened np' X)
          ((Fast.fasterIvaStep np' floor d (Lifecycle.whitened np' X))^[i] 1)) ∧
    ∀ r Y W₁, Lifecycle.finishFast np (.bool true) r X
        ((Fast.fasterIvaStep np floor d (Lifecycle.whitened np X))^[n_iter] 1) = .ok (Y, W₁) →
      ∃ W₁', Lifecycle.finishFast np' (.bool true) r X
        ((Fast.fasterIvaStep np' floor d (Lifecycle.whitened np' X))^[n_iter] 1) = .ok (Y, W₁') := by
  obtain ⟨ψ, hψ, hZ, h0⟩ := whitened_phase np np' X hX
  have key := iterate_rel (Fast.fasterIvaStep np floor d (Lifecycle.whitened np X))
    (Fast.fasterIvaStep np' floor d (Lifecycle.whitened np' X)) (PhaseEq ψ)
    (FasterRegular np floor d (Lifecycle.whitened np X))
    (fun W W' h hr => fasterIva_step np np' floor d hψ hZ h hr) 1 1 h0 n_iter hreg
  refine ⟨fun i hi => ⟨(key i hi).separate hψ hZ, fun G => ?_⟩, fun r Y W₁ h =>
    finishFast_eq np np' r X hψ hZ (key n_iter le_rfl) Y W₁ h⟩
  simp only [Fast.ivaLoss, ((key i hi).separate hψ hZ).binNorm]

end iva

end EigPhase
end Verif
