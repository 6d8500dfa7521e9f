import Verif.Lemmas.Numpy
import Verif.Model.Transform

/-! # C20, C21: whitening and PCA -/

namespace Verif.Transform

open Matrix
open scoped ComplexOrder

variable {𝕜 : Type} [RCLike 𝕜] {n t : ℕ}

/-- The sample covariance of a data matrix, written with matrix products. -/
noncomputable def sampleCov (X : Data n t 𝕜) : Mat n 𝕜 := (t : 𝕜)⁻¹ • (X * Xᴴ)

private theorem cov_eq (X : Data n t 𝕜) : covariance X = sampleCov X := by
  ext i j
  simp [covariance, sampleCov, mul_apply, div_eq_inv_mul]

private theorem cov_mul (A : Mat n 𝕜) (X : Data n t 𝕜) : sampleCov (A * X) = A * sampleCov X * Aᴴ := by
  simp only [sampleCov, conjTranspose_mul, Matrix.mul_smul, Matrix.smul_mul, Matrix.mul_assoc]

private theorem cov_psd (X : Data n t 𝕜) : (sampleCov X).PosSemidef := by
  refine (posSemidef_self_mul_conjTranspose X).smul ?_
  rw [← RCLike.ofReal_natCast, ← RCLike.ofReal_inv]
  exact_mod_cast inv_nonneg.mpr (Nat.cast_nonneg t)

/-- C20: whitened data has identity covariance in every bin and batch entry, whenever the sample
covariances of the input are positive definite. -/
theorem C20_identity_covariance {B : Type} (np : Numpy 𝕜) (ndim : ℕ) (isComplex : Bool)
    (X Z : B → Data n t 𝕜) (hX : ∀ b, (sampleCov (X b)).PosDef)
    (h : whiten np ndim isComplex X = .ok Z) : ∀ b, sampleCov (Z b) = 1 := by
  intro b
  have hZ : Z b = whitenCore np (X b) := by
    simp only [whiten, bind, Except.bind] at h
    split at h
    · cases h
    · rw [← Except.ok.inj h]
  have hs := np.eigh_spec (covariance (X b)) (by rw [cov_eq]; exact (cov_psd _).1)
  have hl := hs.posDef_iff.mp (by rw [cov_eq]; exact hX b)
  rw [hZ]
  simp only [whitenCore]
  rw [cov_mul, ← cov_eq]
  set l := (np.eigh (covariance (X b))).1
  set V := (np.eigh (covariance (X b))).2
  conv_lhs => rw [hs.decomp]
  rw [conjTranspose_mul, conjTranspose_conjTranspose, npDiag_eq, diagonal_conjTranspose]
  have e : star (fun i => ((1 / Real.sqrt (l i) : ℝ) : 𝕜)) = fun i => ((1 / Real.sqrt (l i) : ℝ) : 𝕜) := by
    ext i; simp
  rw [e]
  calc _ = diagonal (fun i => ((1 / Real.sqrt (l i) : ℝ) : 𝕜)) * (Vᴴ * V) *
        diagonal (fun i => (l i : 𝕜)) * (Vᴴ * V) * diagonal (fun i => ((1 / Real.sqrt (l i) : ℝ) : 𝕜)) := by
        simp only [Matrix.mul_assoc]
    _ = 1 := by
        rw [hs.unitary, Matrix.mul_one, Matrix.mul_one, diagonal_mul_diagonal, diagonal_mul_diagonal,
          ← diagonal_one]
        congr 1
        ext i
        rw [← RCLike.ofReal_mul, ← RCLike.ofReal_mul]
        have h1 := (Real.sqrt_pos.mpr (hl i)).ne'
        have : 1 / Real.sqrt (l i) * l i * (1 / Real.sqrt (l i)) = 1 := by
          nth_rw 2 [← Real.mul_self_sqrt (hl i).le]
          field_simp
        rw [this, RCLike.ofReal_one]

/-- C20: whitening is an invertible linear map of the input, the same for every frame. -/
theorem C20_invertible_map {B : Type} (np : Numpy 𝕜) (ndim : ℕ) (isComplex : Bool)
    (X Z : B → Data n t 𝕜) (hX : ∀ b, (sampleCov (X b)).PosDef)
    (h : whiten np ndim isComplex X = .ok Z) (b : B) : ∃ V : Mat n 𝕜, IsUnit V ∧ Z b = V * X b := by
  have hZ : Z b = whitenCore np (X b) := by
    simp only [whiten, bind, Except.bind] at h
    split at h
    · cases h
    · rw [← Except.ok.inj h]
  have hc := C20_identity_covariance np ndim isComplex X Z hX h b
  rw [hZ] at hc
  simp only [whitenCore] at hZ hc
  refine ⟨_, ?_, hZ⟩
  rw [cov_mul, Matrix.mul_assoc] at hc
  exact ⟨⟨_, _, hc, mul_eq_one_comm.mp hc⟩, rfl⟩

/-- C20: exactly the unsupported dimension/dtype combinations raise, and they raise `ValueError`. -/
theorem C20_dispatch {B : Type} (np : Numpy 𝕜) (ndim : ℕ) (isComplex : Bool) (X : B → Data n t 𝕜) :
    ((∃ Z, whiten np ndim isComplex X = .ok Z) ↔
      (ndim, isComplex) ∈ ({(2, false), (3, true), (3, false), (4, true)} : Set (ℕ × Bool))) ∧
    ((¬ ∃ Z, whiten np ndim isComplex X = .ok Z) → whiten np ndim isComplex X = .error .value) := by
  simp only [whiten, dispatch, bind, Except.bind]
  cases isComplex <;> simp <;> split_ifs <;> simp_all

/-- Non-trivial data with positive definite covariance: two orthogonal channels of different power. -/
example : (sampleCov (!![2, 0; 0, 1] : Data 2 2 ℝ)).PosDef := by
  have : sampleCov (!![2, 0; 0, 1] : Data 2 2 ℝ) = diagonal ![2, 1 / 2] := by
    ext i j; fin_cases i <;> fin_cases j <;> simp [sampleCov, vecMul, dotProduct, Fin.sum_univ_two]
  rw [this, posDef_diagonal_iff]
  intro i; fin_cases i <;> norm_num

private theorem pca_eq (np : Numpy 𝕜) (ascend : Bool) (X : Data n t 𝕜) :
    pcaCore np ascend X
      = (if ascend then revCols (np.eigh (covariance X)).2 else (np.eigh (covariance X)).2)ᴴ * X := by
  simp only [pcaCore]
  rw [transpose_mul, transpose_transpose]
  rfl

private theorem revCols_unitary {V : Mat n 𝕜} (h : Vᴴ * V = 1) : (revCols V)ᴴ * revCols V = 1 := by
  ext i j
  have := congrFun (congrFun h (Fin.rev i)) (Fin.rev j)
  rw [mul_apply, one_apply] at *
  simpa [revCols] using this

/-- C21: PCA components are uncorrelated; their variances are in descending order for `ascend=True`
(first channel is the first principal component) and ascending otherwise; and they are the eigenvalues of
the covariance of the input. -/
theorem C21_diagonal_covariance {B : Type} (np : Numpy 𝕜) (ascend : Bool) (ndim : ℕ) (isComplex : Bool)
    (X Y : B → Data n t 𝕜) (h : pca np ascend ndim isComplex X = .ok Y) (b : B) :
    ∃ l : Fin n → ℝ, sampleCov (Y b) = diagonal (fun i => (l i : 𝕜)) ∧
      (if ascend then Antitone l else Monotone l) ∧
      (sampleCov (X b)).charpoly = (sampleCov (Y b)).charpoly := by
  have hY : Y b = pcaCore np ascend (X b) := by
    simp only [pca, bind, Except.bind] at h
    split at h
    · cases h
    · rw [← Except.ok.inj h]
  have hs := np.eigh_spec (covariance (X b)) (by rw [cov_eq]; exact (cov_psd _).1)
  have hd : (np.eigh (covariance (X b))).2ᴴ * covariance (X b) * (np.eigh (covariance (X b))).2
      = diagonal fun i => ((np.eigh (covariance (X b))).1 i : 𝕜) := by
    set V := (np.eigh (covariance (X b))).2
    have h1 : Vᴴ * (V * diagonal (fun i => ((np.eigh (covariance (X b))).1 i : 𝕜)) * Vᴴ) * V
        = (Vᴴ * V) * diagonal (fun i => ((np.eigh (covariance (X b))).1 i : 𝕜)) * (Vᴴ * V) := by
      simp only [Matrix.mul_assoc]
    rw [hs.unitary, Matrix.one_mul, Matrix.mul_one, ← hs.decomp] at h1
    exact h1
  -- unitary used
  have hcp : ∀ P : Mat n 𝕜, Pᴴ * P = 1 → (sampleCov (Pᴴ * X b)).charpoly = (sampleCov (X b)).charpoly := by
    intro P hP
    rw [cov_mul, conjTranspose_conjTranspose]
    have hPP := mul_eq_one_comm.mp hP
    have := charpoly_mul_comm (Pᴴ * sampleCov (X b)) P
    rw [this, ← Matrix.mul_assoc, hPP, Matrix.one_mul]
  rw [hY, pca_eq]
  cases ascend with
  | false =>
    refine ⟨(np.eigh (covariance (X b))).1, ?_, by simpa using hs.sorted, ?_⟩
    · simp only [Bool.false_eq_true, if_false]
      rw [cov_mul, conjTranspose_conjTranspose, ← cov_eq, hd]
    · simp only [Bool.false_eq_true, if_false]
      rw [hcp _ hs.unitary]
  | true =>
    refine ⟨fun i => (np.eigh (covariance (X b))).1 (Fin.rev i), ?_, ?_, ?_⟩
    · simp only [if_true]
      rw [cov_mul, conjTranspose_conjTranspose, ← cov_eq]
      ext i j
      have := congrFun (congrFun hd (Fin.rev i)) (Fin.rev j)
      simp only [mul_apply, conjTranspose_apply, diagonal_apply, Fin.rev_inj] at this
      simpa [revCols, mul_apply, diagonal_apply] using this
    · simp only [if_true]
      intro i j hij
      exact hs.sorted (Fin.rev_le_rev.mpr hij)
    · simp only [if_true]
      rw [hcp _ (revCols_unitary hs.unitary)]

/-- C21: PCA preserves the energy of every frame. -/
theorem C21_energy {B : Type} (np : Numpy 𝕜) (ascend : Bool) (ndim : ℕ) (isComplex : Bool)
    (X Y : B → Data n t 𝕜) (h : pca np ascend ndim isComplex X = .ok Y) (b : B) (k : Fin t) :
    ∑ i, ‖Y b i k‖ ^ 2 = ∑ i, ‖X b i k‖ ^ 2 := by
  have hY : Y b = pcaCore np ascend (X b) := by
    simp only [pca, bind, Except.bind] at h
    split at h
    · cases h
    · rw [← Except.ok.inj h]
  have hs := np.eigh_spec (covariance (X b)) (by rw [cov_eq]; exact (cov_psd _).1)
  have key : ∀ P : Mat n 𝕜, Pᴴ * P = 1 →
      ∑ i, ‖(Pᴴ * X b) i k‖ ^ 2 = ∑ i, ‖X b i k‖ ^ 2 := by
    intro P hP
    have hPP := mul_eq_one_comm.mp hP
    have e : ∀ M : Data n t 𝕜, ((∑ i, ‖M i k‖ ^ 2 : ℝ) : 𝕜) = (Mᴴ * M) k k := by
      intro M
      rw [mul_apply, RCLike.ofReal_sum]
      exact Finset.sum_congr rfl fun i _ => by
        rw [conjTranspose_apply, RCLike.star_def, RCLike.conj_mul]; norm_cast
    have : ((∑ i, ‖(Pᴴ * X b) i k‖ ^ 2 : ℝ) : 𝕜) = ((∑ i, ‖X b i k‖ ^ 2 : ℝ) : 𝕜) := by
      rw [e, e, conjTranspose_mul, conjTranspose_conjTranspose, Matrix.mul_assoc, ← Matrix.mul_assoc P,
        hPP, Matrix.one_mul]
    exact_mod_cast this
  rw [hY, pca_eq]
  cases ascend with
  | false => simpa using key _ hs.unitary
  | true => simpa using key _ (revCols_unitary hs.unitary)

/-- `pca` accepts 3D complex input, so the hypothesis of the C21 theorems is met by every data. -/
example (X : Fin 2 → Data 3 5 ℂ) : ∃ Y, pca someNumpy true 3 true X = .ok Y := ⟨_, rfl⟩

end Verif.Transform
