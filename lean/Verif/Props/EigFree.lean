import Verif.Model.Cacgmm
import Verif.Model.Ipsdta
import Verif.Model.MnmfPart
import Verif.Model.Fast
import Verif.Props.Linalg
import Verif.Props.Special

/-!
# C79: eigenvectors are not unique, the results are

`eigh`, `svd` and `cholesky` of numpy return one of many correct factorisations (eigenvectors of a repeated eigenvalue
are arbitrary up to a unitary matrix, all others up to a phase) and which one depends on the LAPACK build. The theorems
compare two values `np`, `np'` of `Numpy`, that is two arbitrary choices among the correct factorisations.
-/

namespace Verif.EigFree

open Matrix Scale Spatial Linalg
open scoped ComplexOrder

set_option linter.unusedSectionVars false

variable {𝕜 : Type} [RCLike 𝕜] {n : ℕ}

/-- A function of the eigenvalues does not depend on the eigenvectors. -/
theorem spectral_unique {P P' : Mat n 𝕜} {l l' : Fin n → ℝ} (hu : Pᴴ * P = 1) (hu' : P'ᴴ * P' = 1)
    (hd : P * (diagonal fun i => (l i : 𝕜)) * Pᴴ = P' * (diagonal fun i => (l' i : 𝕜)) * P'ᴴ) (g : ℝ → ℝ) :
    P * npDiag (fun i => g (l i)) * Pᴴ = P' * npDiag (fun i => g (l' i)) * P'ᴴ := by
  simp only [npDiag_eq]
  have e : (diagonal fun i => (l' i : 𝕜)) * (P'ᴴ * P) = P'ᴴ * P * diagonal fun i => (l i : 𝕜) := by
    calc (diagonal fun i => (l' i : 𝕜)) * (P'ᴴ * P)
        = P'ᴴ * P' * (diagonal fun i => (l' i : 𝕜)) * P'ᴴ * P := by
          rw [hu', Matrix.one_mul, Matrix.mul_assoc]
      _ = P'ᴴ * (P' * (diagonal fun i => (l' i : 𝕜)) * P'ᴴ) * P := by simp only [Matrix.mul_assoc]
      _ = P'ᴴ * P * (diagonal fun i => (l i : 𝕜)) * (Pᴴ * P) := by
          rw [← hd]
          simp only [Matrix.mul_assoc]
      _ = _ := by rw [hu, Matrix.mul_one]
  have e' : (diagonal fun i => ((g (l' i) : ℝ) : 𝕜)) * (P'ᴴ * P)
      = P'ᴴ * P * diagonal fun i => ((g (l i) : ℝ) : 𝕜) := by
    ext i j
    have h1 := congrFun (congrFun e i) j
    rw [diagonal_mul, mul_diagonal] at h1 ⊢
    by_cases h0 : (P'ᴴ * P) i j = 0
    · rw [h0, mul_zero, zero_mul]
    · rw [mul_comm] at h1
      have h2 : l' i = l j := by exact_mod_cast mul_left_cancel₀ h0 h1
      rw [h2, mul_comm]
  calc P * (diagonal fun i => ((g (l i) : ℝ) : 𝕜)) * Pᴴ
      = P' * (P'ᴴ * P * diagonal fun i => ((g (l i) : ℝ) : 𝕜)) * Pᴴ := by
        rw [← Matrix.mul_assoc, ← Matrix.mul_assoc, mul_eq_one_comm.mp hu', Matrix.one_mul]
    _ = P' * (diagonal fun i => ((g (l' i) : ℝ) : 𝕜)) * P'ᴴ * (P * Pᴴ) := by
        rw [← e']
        simp only [Matrix.mul_assoc]
    _ = _ := by rw [mul_eq_one_comm.mp hu, Matrix.mul_one]

theorem eigh_unique (np np' : Numpy 𝕜) {X : Mat n 𝕜} (hX : X.IsHermitian) (g : ℝ → ℝ) :
    (np.eigh X).2 * npDiag (fun i => g ((np.eigh X).1 i)) * (np.eigh X).2ᴴ
      = (np'.eigh X).2 * npDiag (fun i => g ((np'.eigh X).1 i)) * (np'.eigh X).2ᴴ :=
  spectral_unique (np.eigh_spec _ hX).unitary (np'.eigh_spec _ hX).unitary
    ((np.eigh_spec _ hX).decomp.symm.trans (np'.eigh_spec _ hX).decomp) g

theorem symmetrise_hermitian (X : Mat n 𝕜) : (Special.symmetrise X).IsHermitian := by
  rw [IsHermitian, Special.symmetrise, conjTranspose_smul, conjTranspose_add, conjTranspose_conjTranspose,
    add_comm, star_inv₀, star_ofNat]

/-- C79: `to_psd` returns the same matrix whatever eigenvectors `numpy.linalg.eigh` returns, for every input and every
flooring function. -/
theorem C79_to_psd (np np' : Numpy 𝕜) (flooring_fn : ℝ → ℝ) (X : Mat n 𝕜) :
    Special.toPsdCore np flooring_fn X = Special.toPsdCore np' flooring_fn X := by
  simp only [Special.toPsdCore]
  rw [eigh_unique np np' (symmetrise_hermitian X) flooring_fn]

/-- C79: `sqrtmh` of a Hermitian matrix. -/
theorem C79_sqrtmh (np np' : Numpy 𝕜) (X : Mat n 𝕜) (hX : X.IsHermitian) : sqrtmh np X = sqrtmh np' X :=
  eigh_unique np np' hX Real.sqrt

/-- C79: `invsqrtmh` of a Hermitian matrix, with any flooring function. -/
theorem C79_invsqrtmh (np np' : Numpy 𝕜) (flooring_fn : Option (ℝ → ℝ)) (X : Mat n 𝕜) (hX : X.IsHermitian) :
    invsqrtmh np flooring_fn X = invsqrtmh np' flooring_fn X :=
  eigh_unique np np' hX fun x => 1 / flooring_fn.getD id (Real.sqrt x)

/-- A positive semidefinite matrix has one positive semidefinite square root. -/
theorem psd_sqrt_unique {A B : Mat n 𝕜} (hA : A.PosSemidef) (hB : B.PosSemidef) (h : A * A = B * B) : A = B := by
  have key : ∀ {C : Mat n 𝕜}, C.PosSemidef → C = sqrtmh (someNumpy : Numpy 𝕜) (C * C) := by
    intro C hC
    have hs := (someNumpy : Numpy 𝕜).eigh_spec C hC.1
    have hl := hs.posSemidef_iff.mp hC
    have hCC : (C * C).IsHermitian := by rw [IsHermitian, conjTranspose_mul, hC.1.eq]
    have hs' := (someNumpy : Numpy 𝕜).eigh_spec _ hCC
    have hd := conj_diag_mul hs.unitary ((someNumpy : Numpy 𝕜).eigh C).1 ((someNumpy : Numpy 𝕜).eigh C).1
    rw [← hs.decomp, hs'.decomp] at hd
    rw [sqrtmh, spectral_unique hs'.unitary hs.unitary hd Real.sqrt, npDiag_eq]
    conv_lhs => rw [hs.decomp]
    congr 3
    ext i
    rw [Real.sqrt_mul_self (hl i)]
  rw [key hA, key hB, h]

/-- A positive definite solution of `G A G = B` is unique. -/
theorem riccati_unique {A G G' : Mat n 𝕜} (hA : A.PosDef) (hG : G.PosDef) (hG' : G'.PosDef)
    (h : G * A * G = G' * A * G') : G = G' := by
  obtain ⟨S, hS⟩ : ∃ S, S = sqrtmh (someNumpy : Numpy 𝕜) A := ⟨_, rfl⟩
  obtain ⟨h1, h2⟩ := C18_sqrtmh (someNumpy : Numpy 𝕜) A hA.posSemidef
  rw [← hS] at h1 h2
  have hu : IsUnit S := by
    rw [isUnit_iff_isUnit_det]
    have := (isUnit_iff_isUnit_det A).mp hA.isUnit
    rw [← h1, det_mul] at this
    exact isUnit_of_mul_isUnit_left this
  have conj : ∀ {M : Mat n 𝕜}, M.PosDef → (S * M * S).PosSemidef := by
    intro M hM
    have := hM.posSemidef.mul_mul_conjTranspose_same S
    rwa [h2.1.eq] at this
  have sq : ∀ M : Mat n 𝕜, S * M * S * (S * M * S) = S * (M * A * M) * S := by
    intro M
    rw [← h1]
    simp only [Matrix.mul_assoc]
  have := psd_sqrt_unique (conj hG) (conj hG') (by rw [sq, sq, h])
  exact hu.mul_left_cancel (hu.mul_right_cancel this)

/-- C79: `gmeanmh` of two positive definite matrices, for every `type` (unsupported ones raise). -/
theorem C79_gmeanmh (np np' : Numpy 𝕜) (A B : Mat n 𝕜) (hA : A.PosDef) (hB : B.PosDef) (type : ℤ) :
    gmeanmh np A B type = gmeanmh np' A B type := by
  by_cases ht : type = 1 ∨ type = 2 ∨ type = 3
  · obtain ⟨G, e, p, h1, h2, h3⟩ := C17_gmeanmh np A B hA hB type ht
    obtain ⟨G', e', p', h1', h2', h3'⟩ := C17_gmeanmh np' A B hA hB type ht
    rw [e, e']
    rcases ht with rfl | rfl | rfl
    · rw [riccati_unique hA.inv p p' ((h1 rfl).trans (h1' rfl).symm)]
    · rw [riccati_unique hA p p' ((h2 rfl).trans (h2' rfl).symm)]
    · rw [riccati_unique hB p p' ((h3 rfl).trans (h3' rfl).symm)]
  · push Not at ht
    obtain ⟨L, hL, -⟩ := np.cholesky_spec B hB
    obtain ⟨L', hL', -⟩ := np'.cholesky_spec B hB
    simp only [gmeanmh, eigh, geigh, hL, hL', if_neg ht.1, if_neg ht.2.1, if_neg ht.2.2, Bind.bind, Except.bind]

/-! ## Singular value decompositions -/

theorem sv_pos {X U V : Mat n 𝕜} {s : Fin n → ℝ} (h : SvdSpec X U s V) (hX : IsUnit X.det) (i : Fin n) : 0 < s i := by
  refine lt_of_le_of_ne (h.nonneg i) fun h0 => hX.ne_zero ?_
  rw [h.decomp, det_mul, det_mul, det_diagonal, Finset.prod_eq_zero (Finset.mem_univ i) (by rw [← h0]; simp), mul_zero,
    zero_mul]

/-- A function of the singular values of an invertible matrix does not depend on the singular vectors. -/
theorem svd_unique {X U U' V V' : Mat n 𝕜} {s s' : Fin n → ℝ} (h : SvdSpec X U s V) (h' : SvdSpec X U' s' V')
    (hX : IsUnit X.det) (g : ℝ → ℝ) :
    U * npDiag (fun i => g (s i)) * V = U' * npDiag (fun i => g (s' i)) * V' := by
  have gram : ∀ {U V : Mat n 𝕜} {s : Fin n → ℝ}, SvdSpec X U s V →
      X * Xᴴ = U * (diagonal fun i => ((s i * s i : ℝ) : 𝕜)) * Uᴴ := by
    intro U V s h
    have e : (diagonal fun i => (s i : 𝕜)) * (diagonal fun i => (s i : 𝕜))
        = (diagonal fun i => ((s i * s i : ℝ) : 𝕜) : Mat n 𝕜) := by
      rw [diagonal_mul_diagonal]
      congr 1
      funext i
      push_cast
      rfl
    have e' : (diagonal fun i => (s i : 𝕜))ᴴ = (diagonal fun i => (s i : 𝕜) : Mat n 𝕜) := by
      rw [diagonal_conjTranspose]
      congr 1
      funext i
      simp
    rw [h.decomp, conjTranspose_mul, conjTranspose_mul, e', ← e]
    calc U * (diagonal fun i => (s i : 𝕜)) * V * (Vᴴ * ((diagonal fun i => (s i : 𝕜)) * Uᴴ))
        = U * (diagonal fun i => (s i : 𝕜)) * (V * Vᴴ) * ((diagonal fun i => (s i : 𝕜)) * Uᴴ) := by
          simp only [Matrix.mul_assoc]
      _ = _ := by
          rw [h.unitaryV, Matrix.mul_one]
          simp only [Matrix.mul_assoc]
  have form : ∀ {U V : Mat n 𝕜} {s : Fin n → ℝ}, SvdSpec X U s V → U * npDiag (fun i => g (s i)) * V
      = U * npDiag (fun i => (fun x => g (Real.sqrt x) / Real.sqrt x) (s i * s i)) * Uᴴ * X := by
    intro U V s h
    have e : npDiag (fun i => (fun x => g (Real.sqrt x) / Real.sqrt x) (s i * s i)) * (diagonal fun i => (s i : 𝕜))
        = npDiag (𝕜 := 𝕜) (fun i => g (s i)) := by
      rw [npDiag_eq, npDiag_eq, diagonal_mul_diagonal]
      congr 1
      funext i
      have := (sv_pos h hX i).ne'
      beta_reduce
      rw [Real.sqrt_mul_self (h.nonneg i), ← RCLike.ofReal_mul, div_mul_cancel₀ _ this]
    rw [← e]
    conv_rhs => rw [h.decomp]
    calc _ = U * npDiag (fun i => (fun x => g (Real.sqrt x) / Real.sqrt x) (s i * s i)) * 1
          * (diagonal fun i => (s i : 𝕜)) * V := by
            rw [Matrix.mul_one]
            simp only [Matrix.mul_assoc]
      _ = _ := by
        rw [← h.unitaryU]
        simp only [Matrix.mul_assoc]
  rw [form h, form h', spectral_unique h.unitaryU h'.unitaryU ((gram h).symm.trans (gram h'))
    fun x => g (Real.sqrt x) / Real.sqrt x]

/-- C79: `prox.neg_logdet` of an invertible matrix does not depend on the singular vectors `numpy.linalg.svd`
returns. -/
theorem C79_neg_logdet (np np' : Numpy 𝕜) (step_size : ℝ) (X : Mat n 𝕜) (hX : IsUnit X.det) :
    neg_logdet np step_size X = neg_logdet np' step_size X := by
  have h := np.svd_spec X
  have h' := np'.svd_spec X
  simp only [neg_logdet, neg_log, if_pos h.nonneg, if_pos h'.nonneg, ge_iff_le, Bind.bind, Except.bind]
  rw [svd_unique h h' hX fun x => negLogElem step_size x]

/-- A matrix with a repeated singular value. -/
example (np np' : Numpy ℂ) : neg_logdet np 1 (1 : Mat 3 ℂ) = neg_logdet np' 1 (1 : Mat 3 ℂ) :=
  C79_neg_logdet np np' 1 1 (by simp)

/-- A numpy whose `svd` of the zero matrix returns `c` in place of the identity for `V`. -/
noncomputable def zeroSvd (c : ℝ) (hc : c * c = 1) : Numpy ℝ :=
  { (someNumpy : Numpy ℝ) with
    svd := fun X => open Classical in if X = 0 then (1, 0, c • 1) else (someNumpy : Numpy ℝ).svd X
    svd_spec := fun X => by
      by_cases h : X = 0
      · simp only [if_pos h]
        refine ⟨by simp, ?_, by simp [h], fun i => le_rfl, fun i j _ => le_rfl⟩
        rw [conjTranspose_smul, conjTranspose_one, smul_mul_smul_comm, Matrix.mul_one]
        simp [hc]
      · simp only [if_neg h]
        exact (someNumpy : Numpy ℝ).svd_spec X }

/-- C79: **finding.** For a singular argument `prox.neg_logdet` does depend on the singular vectors: two correct
decompositions of the zero matrix give `1` and `-1`. -/
theorem C79_neg_logdet_singular : ∃ np np' : Numpy ℝ,
    neg_logdet np 1 (0 : Mat 1 ℝ) = .ok 1 ∧ neg_logdet np' 1 (0 : Mat 1 ℝ) = .ok (-1) := by
  have key : ∀ (c : ℝ) (hc : c * c = 1), neg_logdet (zeroSvd c hc) 1 (0 : Mat 1 ℝ) = .ok (c • 1) := by
    intro c hc
    have e : negLogElem 1 0 = 1 := by
      rw [negLogElem, show (0 : ℝ) ^ 2 + 4 * 1 = 2 ^ 2 by norm_num, Real.sqrt_sq (by norm_num)]
      norm_num
    simp only [neg_logdet, neg_log, zeroSvd, if_true, Pi.zero_apply, ge_iff_le, le_refl, implies_true, Bind.bind,
      Except.bind, e, npDiag_eq]
    simp
  exact ⟨zeroSvd 1 (by norm_num), zeroSvd (-1) (by norm_num), by rw [key, one_smul], by rw [key, neg_one_smul]⟩

/-- C79: the orthonormalisation of FastIVA. -/
theorem polar_unique (np np' : Numpy ℂ) (W : Mat n ℂ) (hW : IsUnit W.det) : Fast.polar np W = Fast.polar np' W := by
  have := svd_unique (np.svd_spec W) (np'.svd_spec W) hW fun _ => 1
  simp only [npDiag_eq, RCLike.ofReal_one, diagonal_one, Matrix.mul_one] at this
  exact this

variable {F : Type} [Fintype F] {m t K : ℕ}

/-- C79: an update of FastIVA, as long as the directions it orthonormalises are linearly independent. -/
theorem C79_fast_iva (np np' : Numpy ℂ) (floor d dd : ℝ → ℝ) (Z : Spec F n t) (W : F → Mat n ℂ)
    (h : ∀ f, IsUnit (Fast.fastIvaFilter floor d dd Z W f).det) :
    Fast.fastIvaStep np floor d dd Z W = Fast.fastIvaStep np' floor d dd Z W :=
  funext fun f => polar_unique np np' _ (h f)

/-! ## CACGMM, MNMF and IPSDTA -/

theorem toPsd_eq (np np' : Numpy ℂ) (floor : ℝ → ℝ) (R : Mat m ℂ) : Mnmf.toPsd np floor R = Mnmf.toPsd np' floor R :=
  C79_to_psd np np' floor R

theorem toPsd_posDef (np : Numpy ℂ) {floor : ℝ → ℝ} (hf : ∀ x, 0 < floor x) (R : Mat m ℂ) :
    (Mnmf.toPsd np floor R).PosDef := by
  have h : ((np.eigh (Special.symmetrise R)).2 * npDiag (fun i => floor ((np.eigh (Special.symmetrise R)).1 i))
      * (np.eigh (Special.symmetrise R)).2ᴴ).PosDef := by
    rw [npDiag_eq, posDef_conj_diag_iff (np.eigh_spec _ (symmetrise_hermitian R)).isUnit]
    exact fun i => hf _
  have e : Mnmf.toPsd np floor R = (np.eigh (Special.symmetrise R)).2
      * npDiag (fun i => floor ((np.eigh (Special.symmetrise R)).1 i)) * (np.eigh (Special.symmetrise R)).2ᴴ := by
    simp only [Mnmf.toPsd, Special.toPsdCore, Special.symmetrise] at h ⊢
    rw [h.1.eq, ← two_smul ℂ (_ * _), smul_smul, inv_mul_cancel₀ two_ne_zero, one_smul]
  rw [e]
  exact h

/-- C79: CACGMM: the updates and the whole call. -/
theorem C79_cacgmm (np np' : Numpy ℂ) (normalization : Bool) (floor : ℝ → ℝ) (X : Spec F m t) (reference_id : Fin m)
    (σ : F → Equiv.Perm (Fin (n + 1))) (n_iter : ℕ) (s : Cacgmm.CSt F n m) :
    Cacgmm.call np normalization floor X reference_id σ n_iter s
      = Cacgmm.call np' normalization floor X reference_id σ n_iter s := by
  have h1 : ∀ Z (s : Cacgmm.CSt F n m), Cacgmm.updateOnce (t := t) np normalization floor Z s
      = Cacgmm.updateOnce np' normalization floor Z s := by
    intro Z s
    simp only [Cacgmm.updateOnce, Cacgmm.updateParameters, toPsd_eq np np']
  have h2 : ∀ Z k (s : Cacgmm.CSt F n m), Cacgmm.iterate (t := t) np normalization floor Z k s
      = Cacgmm.iterate np' normalization floor Z k s := by
    intro Z k
    induction k with
    | zero => exact fun s => rfl
    | succ k ih =>
      intro s
      simp only [Cacgmm.iterate, h1, ih]
  simp only [Cacgmm.call, h2]

/-- C79: GaussMNMF with a positive flooring function (the default is `max_flooring`): update, loss
and output. -/
theorem C79_gauss_mnmf (np np' : Numpy ℂ) (normalization : Bool) (floor : ℝ → ℝ) (hf : ∀ x, 0 < floor x)
    (reference_id : Fin m) (X : Spec F m t) (s : Mnmf.MSt F n m t K) :
    Mnmf.instantCovariance np floor X = Mnmf.instantCovariance np' floor X ∧
    (∀ XX, Mnmf.fullUpdateOnce np normalization floor XX s = Mnmf.fullUpdateOnce np' normalization floor XX s) ∧
    (∀ XX, Mnmf.fullLoss np floor XX (Ilrma.recon s.T s.V) s.H = Mnmf.fullLoss np' floor XX (Ilrma.recon s.T s.V) s.H) ∧
    Mnmf.fullSeparate np floor reference_id X (Ilrma.recon s.T s.V) s.H
      = Mnmf.fullSeparate np' floor reference_id X (Ilrma.recon s.T s.V) s.H := by
  refine ⟨?_, fun XX => ?_, fun XX => ?_, ?_⟩
  · funext f j
    exact toPsd_eq np np' _ _
  · simp only [Mnmf.fullUpdateOnce, Mnmf.fullUpdateBasis, Mnmf.fullUpdateActivation, Mnmf.fullUpdateSpatial,
      toPsd_eq np np', fun A B => C79_gmeanmh np np' _ _ (toPsd_posDef np' hf A) (toPsd_posDef np' hf B) 2]
  · simp only [Mnmf.fullLoss, toPsd_eq np np']
  · simp only [Mnmf.fullSeparate, Mnmf.wiener, toPsd_eq np np']

/-- C79: GaussMNMF with partitioning. -/
theorem C79_gauss_mnmf_partitioned (np np' : Numpy ℂ) (normalization : Bool) (floor : ℝ → ℝ) (hf : ∀ x, 0 < floor x)
    (XX : F → Fin t → Mat m ℂ) (s : Mnmf.MStP F n m t K) :
    Mnmf.fullUpdateOnceP np normalization floor XX s = Mnmf.fullUpdateOnceP np' normalization floor XX s := by
  simp only [Mnmf.fullUpdateOnceP, Mnmf.fullUpdateBasisP, Mnmf.fullUpdateActivationP, Mnmf.fullUpdateSpatial,
    Mnmf.fullUpdateLatent, toPsd_eq np np',
    fun A B => C79_gmeanmh np np' _ _ (toPsd_posDef np' hf A) (toPsd_posDef np' hf B) 2]

/-- C79: FastGaussMNMF with IP1. -/
theorem C79_fast_mnmf (np np' : Numpy ℂ) (normalization : Bool) (floor : ℝ → ℝ) (reference_id : Fin m) (X : Spec F m t)
    (s : Mnmf.FSt F n m t K) :
    Mnmf.fastUpdateOnce np .ip1 normalization floor X s = Mnmf.fastUpdateOnce np' .ip1 normalization floor X s ∧
    Mnmf.fastSeparate np floor reference_id X s = Mnmf.fastSeparate np' floor reference_id X s := by
  refine ⟨rfl, ?_⟩
  simp only [Mnmf.fastSeparate, Mnmf.wiener, toPsd_eq np np']

/-- The default flooring function is positive. -/
example (x : ℝ) : 0 < Special.max_flooring (1 / 10 ^ 10) x := lt_max_of_lt_right (by norm_num)

section

open Ipsdta

variable {ι : Type} [Fintype ι] {sz : ι → ℕ} {n_bins n_blocks : ℕ}

theorem covInv_eq (np np' : Numpy ℂ) (T : Fin n → Fin K → (β : ι) → Mat (sz β) ℂ) (V : Fin n → Fin K → Fin t → ℝ) :
    covInv np T V = covInv np' T V := by
  simp only [covInv, cov, toPsd_eq np np']

/-- C79: GaussIPSDTA with a positive flooring function. -/
theorem C79_gauss_ipsdta (np np' : Numpy ℂ) (normalization : Bool) (floor : ℝ → ℝ) (hf : ∀ x, 0 < floor x)
    (X : Spec (Fin n_bins) n t) (s : St n_bins n_blocks n t K) :
    gaussUpdate np normalization floor X s = gaussUpdate np' normalization floor X s ∧
      gaussLoss np X s = gaussLoss np' X s := by
  constructor
  · simp only [gaussUpdate, basisGauss, activationMM, covInv_eq np np', toPsd_eq np np',
      fun A B => C79_gmeanmh np np' _ _ (toPsd_posDef np' hf A) (toPsd_posDef np' hf B) 2]
  · simp only [gaussLoss, covInv_eq np np', cov, toPsd_eq np np']

/-- C79: TIPSDTA with any flooring function. -/
theorem C79_t_ipsdta (np np' : Numpy ℂ) (normalization : Bool) (floor : ℝ → ℝ) (nu : ℝ)
    (X : Spec (Fin n_bins) n t) (s : St n_bins n_blocks n t K) :
    tUpdate np normalization floor nu X s = tUpdate np' normalization floor nu X s ∧
      tLoss np nu X s = tLoss np' nu X s := by
  have hH : ∀ {p : ℕ} (A : Mat p ℂ), (Mnmf.toPsd np' floor A).IsHermitian := fun A => symmetrise_hermitian _
  constructor
  · simp only [tUpdate, basisT, activationMM, covInv_eq np np', toPsd_eq np np',
      fun {p : ℕ} (A : Mat p ℂ) => C79_sqrtmh np np' _ (hH A),
      fun {p : ℕ} (A : Mat p ℂ) => C79_invsqrtmh np np' (some floor) _ (hH A)]
  · simp only [tLoss, covInv_eq np np', cov, toPsd_eq np np']

end

end Verif.EigFree
