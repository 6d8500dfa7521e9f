import Verif.Props.MnmfCall

/-! # C107: `FastGaussMNMF` is `GaussMNMF` with jointly diagonalised spatial covariances -/

namespace Verif.MnmfJoint

open Matrix Spatial Scale Mnmf
open Ilrma (recon recon_pos FilterAlg)
open scoped ComplexOrder

variable {F : Type} [Fintype F] {n m t K : ℕ}

/-- The parameters of `GaussMNMF` that belong to those of `FastGaussMNMF`: the spatial covariance of source `k` is the
matrix that the diagonaliser turns into the diagonal matrix with entries `spatial[f, k]`. -/
noncomputable def asFull (s : FSt F n m t K) : MSt F n m t K :=
  ⟨s.T, s.V, fun k f => (s.Q f)⁻¹ * diagonal (fun c => (s.D f k c : ℂ)) * ((s.Q f)⁻¹)ᴴ⟩

omit [Fintype F] in
/-- What `H` is in terms of the diagonaliser: `Q H Qᴴ` is diagonal. -/
theorem asFull_diag {s : FSt F n m t K} (hQ : ∀ f, IsUnit (s.Q f).det) (k : Fin n) (f : F) :
    s.Q f * (asFull s).H k f * (s.Q f)ᴴ = diagonal fun c => (s.D f k c : ℂ) := by
  have h1 : s.Q f * (s.Q f)⁻¹ = 1 := mul_nonsing_inv _ (hQ f)
  have h2 : ((s.Q f)⁻¹)ᴴ * (s.Q f)ᴴ = 1 := by rw [← conjTranspose_mul, h1, conjTranspose_one]
  simp only [asFull, Matrix.mul_assoc]
  rw [h2, Matrix.mul_one, ← Matrix.mul_assoc, h1, Matrix.one_mul]

theorem rn_eq (s : FSt F n m t K) (f : F) (j : Fin t) (k : Fin n) :
    fullRn (recon s.T s.V) (asFull s).H f j k = fastRn (fun f => (s.Q f)⁻¹) s f j k := by
  rw [fastRn_eq, fullRn, asFull, ← Matrix.smul_mul, ← Matrix.mul_smul]
  congr 2
  ext a b
  by_cases h : a = b
  · subst h
    simp
  · simp [h]

/-- C107: the Wiener filters agree, whatever the flooring function. -/
theorem C107_output (np : Numpy ℂ) (floor : ℝ → ℝ) (r : Fin m) (X : Spec F m t) {s : FSt F n m t K}
    (hQ : ∀ f, IsUnit (s.Q f).det) :
    fullSeparate np floor r X (recon s.T s.V) (asFull s).H = fastSeparate np floor r X s := by
  rw [fastSeparate, npInvB, if_pos hQ]
  simp only [bind, Except.bind, fullSeparate]
  have : ∀ f j, fullRn (recon s.T s.V) (asFull s).H f j = fastRn (fun f => (s.Q f)⁻¹) s f j := fun f j =>
    funext fun k => rn_eq s f j k
  simp only [this]

section covariance

variable [Nonempty (Fin K)] [Nonempty (Fin n)] {s : FSt F n m t K}

omit [Nonempty (Fin K)] [Nonempty (Fin n)] in
theorem r_eq (s : FSt F n m t K) (f : F) (j : Fin t) :
    fullR (recon s.T s.V) (asFull s).H f j
      = (s.Q f)⁻¹ * diagonal (fun c => (lambD s f c j : ℂ)) * ((s.Q f)⁻¹)ᴴ := by
  simp only [fullR, rn_eq, fastRn_eq]
  rw [← Finset.sum_mul, ← Finset.mul_sum]
  congr 2
  ext a b
  rw [Matrix.sum_apply]
  by_cases hab : a = b
  · subst hab
    simp only [diagonal_apply_eq, lambD]
    push_cast
    rfl
  · simp [diagonal_apply_ne _ hab]

theorem r_posDef (hs : FInv s) (f : F) (j : Fin t) : (fullR (recon s.T s.V) (asFull s).H f j).PosDef := by
  rw [r_eq]
  refine PosDef.mul_mul_conjTranspose_same (PosDef.diagonal fun c => Complex.zero_lt_real.mpr (lambD_pos hs f c j)) ?_
  rw [vecMul_injective_iff_isUnit, isUnit_nonsing_inv_iff]
  exact (isUnit_iff_isUnit_det _).mpr (hs.1 f)

theorem r_inv (hs : FInv s) (f : F) (j : Fin t) :
    (fullR (recon s.T s.V) (asFull s).H f j)⁻¹ = (s.Q f)ᴴ * diagonal (fun c => (((lambD s f c j)⁻¹ : ℝ) : ℂ)) * s.Q f := by
  have h1 : (s.Q f)⁻¹ * s.Q f = 1 := nonsing_inv_mul _ (hs.1 f)
  have h2 : ((s.Q f)⁻¹)ᴴ * (s.Q f)ᴴ = 1 := by
    rw [← conjTranspose_mul, mul_nonsing_inv _ (hs.1 f), conjTranspose_one]
  refine inv_eq_right_inv ?_
  rw [r_eq]
  have h3 : diagonal (fun c => (lambD s f c j : ℂ)) * diagonal (fun c => (((lambD s f c j)⁻¹ : ℝ) : ℂ)) = 1 := by
    rw [diagonal_mul_diagonal, ← diagonal_one]
    congr 1
    funext c
    rw [← Complex.ofReal_mul, mul_inv_cancel₀ (lambD_pos hs f c j).ne', Complex.ofReal_one]
  calc _ = (s.Q f)⁻¹ * (diagonal (fun c => (lambD s f c j : ℂ)) * (((s.Q f)⁻¹)ᴴ * (s.Q f)ᴴ)
        * diagonal (fun c => (((lambD s f c j)⁻¹ : ℝ) : ℂ))) * s.Q f := by simp only [Matrix.mul_assoc]
    _ = 1 := by rw [h2, Matrix.mul_one, h3, Matrix.mul_one, h1]

/-- A quadratic form in diagonalised coordinates. -/
theorem trace_outer (Q : Mat m ℂ) (d : Fin m → ℝ) (x : Fin m → ℂ) :
    (Qᴴ * diagonal (fun c => (d c : ℂ)) * Q * Matrix.of fun a b => x a * star (x b)).trace
      = ((∑ c, d c * ‖(Q *ᵥ x) c‖ ^ 2 : ℝ) : ℂ) := by
  have h1 : (Matrix.of fun a b => x a * star (x b)) = vecMulVec x (star x) := rfl
  rw [h1, mul_vecMulVec, trace_vecMulVec, ← mulVec_mulVec, ← mulVec_mulVec]
  rw [dotProduct_comm, dotProduct_mulVec, ← star_mulVec]
  simp only [dotProduct, Pi.star_apply, mulVec_diagonal]
  push_cast
  refine Finset.sum_congr rfl fun c _ => ?_
  rw [show ((‖(Q *ᵥ x) c‖ : ℂ)) ^ 2 = (Q *ᵥ x) c * star ((Q *ᵥ x) c) by
    rw [RCLike.star_def, Complex.mul_conj, Complex.normSq_eq_norm_sq]; push_cast; rfl]
  ring

omit [Fintype F] in
theorem instant_eq (np : Numpy ℂ) (X : Spec F m t) (f : F) (j : Fin t) :
    instantCovariance np id X f j = Matrix.of fun a b => X f a j * star (X f b j) := by
  refine toPsd_id np ?_
  ext a b
  simp [conjTranspose_apply, mul_comm]

omit [Fintype F] [Nonempty (Fin K)] [Nonempty (Fin n)] in
theorem demixed (X : Spec F m t) (s : FSt F n m t K) (f : F) (j : Fin t) (c : Fin m) :
    (s.Q f *ᵥ fun a => X f a j) c = separate X s.Q f c j := rfl

/-- C107: the losses agree. -/
theorem C107_loss (np : Numpy ℂ) (ht : 0 < t) (X : Spec F m t) (hs : FInv s) :
    fullLoss np id (instantCovariance np id X) (recon s.T s.V) (asFull s).H = .ok (fastLoss X s) := by
  have hR : ∀ f j, toPsd np id (fullR (recon s.T s.V) (asFull s).H f j) = fullR (recon s.T s.V) (asFull s).H f j :=
    fun f j => toPsd_id np (r_posDef hs f j).1
  have hu : ∀ f j, IsUnit (fullR (recon s.T s.V) (asFull s).H f j).det := fun f j => Tr.isUnit_det (r_posDef hs f j)
  have hsol : (onBins fun f => onBins fun j => npSolve (fullR (recon s.T s.V) (asFull s).H f j) (instantCovariance np id X f j))
      = .ok fun f j => (fullR (recon s.T s.V) (asFull s).H f j)⁻¹ * instantCovariance np id X f j :=
    onBins_ok fun f => onBins_ok fun j => by rw [npSolve, if_pos (hu f j)]
  simp only [fullLoss, hR, hsol, bind, Except.bind]
  congr 1
  refine Finset.sum_congr rfl fun f _ => ?_
  have hterm : ∀ j, ((fullR (recon s.T s.V) (asFull s).H f j)⁻¹ * instantCovariance np id X f j).trace.re
      + Real.log ‖(fullR (recon s.T s.V) (asFull s).H f j).det‖
      = ∑ c, (‖separate X s.Q f c j‖ ^ 2 / lambD s f c j + Real.log (lambD s f c j)) - 2 * Real.log ‖(s.Q f).det‖ := by
    intro j
    rw [r_inv hs, instant_eq, trace_outer, Complex.ofReal_re, r_eq, det_mul, det_mul, det_conjTranspose, det_diagonal,
      norm_mul, norm_mul, norm_star, det_nonsing_inv, Ring.inverse_eq_inv', norm_inv, norm_prod]
    have hq : ‖(s.Q f).det‖ ≠ 0 := norm_ne_zero_iff.mpr (hs.1 f).ne_zero
    have hl : ∀ c, ‖(lambD s f c j : ℂ)‖ = lambD s f c j := fun c => by
      rw [Complex.norm_real, Real.norm_of_nonneg (lambD_pos hs f c j).le]
    have hp : ∏ c, lambD s f c j ≠ 0 := Finset.prod_ne_zero_iff.mpr fun c _ => (lambD_pos hs f c j).ne'
    simp only [hl]
    rw [Real.log_mul (mul_ne_zero (inv_ne_zero hq) hp) (inv_ne_zero hq), Real.log_mul (inv_ne_zero hq) hp, Real.log_inv,
      Real.log_prod (fun c _ => (lambD_pos hs f c j).ne'), Finset.sum_add_distrib]
    simp only [demixed, inv_mul_eq_div]
    ring
  simp only [hterm, meanT, Finset.sum_sub_distrib, Finset.sum_const, Finset.card_univ, Fintype.card_fin, nsmul_eq_mul]
  rw [sub_div, mul_div_cancel_left₀]
  exact_mod_cast ht.ne'

theorem traces_eq (np : Numpy ℂ) (X : Spec F m t) (hs : FInv s) :
    traces (fun f j => toPsd np id (fullR (recon s.T s.V) (asFull s).H f j)) (instantCovariance np id X) (asFull s).H
      = .ok (fun k f j => ∑ c, s.D f k c * (‖separate X s.Q f c j‖ / lambD s f c j) ^ 2,
        fun k f j => ∑ c, s.D f k c / lambD s f c j) := by
  have hR : ∀ f j, toPsd np id (fullR (recon s.T s.V) (asFull s).H f j) = fullR (recon s.T s.V) (asFull s).H f j :=
    fun f j => toPsd_id np (r_posDef hs f j).1
  have hu : ∀ f j, IsUnit (fullR (recon s.T s.V) (asFull s).H f j).det := fun f j => Tr.isUnit_det (r_posDef hs f j)
  have h1 : (onBins fun f => onBins fun j => npSolve (fullR (recon s.T s.V) (asFull s).H f j) (instantCovariance np id X f j))
      = .ok fun f j => (fullR (recon s.T s.V) (asFull s).H f j)⁻¹ * instantCovariance np id X f j :=
    onBins_ok fun f => onBins_ok fun j => by rw [npSolve, if_pos (hu f j)]
  have h2 : (onBins fun k => onBins fun f => onBins fun j => npSolve (fullR (recon s.T s.V) (asFull s).H f j)
      ((asFull s).H k f)) = .ok fun k f j => (fullR (recon s.T s.V) (asFull s).H f j)⁻¹ * (asFull s).H k f :=
    onBins_ok fun k => onBins_ok fun f => onBins_ok fun j => by rw [npSolve, if_pos (hu f j)]
  have h3 : ∀ k f j, (fullR (recon s.T s.V) (asFull s).H f j)⁻¹ * (asFull s).H k f
      = (s.Q f)ᴴ * diagonal (fun c => ((s.D f k c / lambD s f c j : ℝ) : ℂ)) * ((s.Q f)⁻¹)ᴴ := by
    intro k f j
    have hq : s.Q f * (s.Q f)⁻¹ = 1 := mul_nonsing_inv _ (hs.1 f)
    have hd : diagonal (fun c => ((s.D f k c / lambD s f c j : ℝ) : ℂ))
        = diagonal (fun c => (((lambD s f c j)⁻¹ : ℝ) : ℂ)) * diagonal (fun c => (s.D f k c : ℂ)) := by
      rw [diagonal_mul_diagonal]
      congr 1
      funext c
      rw [← Complex.ofReal_mul, inv_mul_eq_div]
    rw [r_inv hs, asFull, hd]
    calc _ = (s.Q f)ᴴ * diagonal (fun c => (((lambD s f c j)⁻¹ : ℝ) : ℂ)) * (s.Q f * (s.Q f)⁻¹)
          * diagonal (fun c => (s.D f k c : ℂ)) * ((s.Q f)⁻¹)ᴴ := by simp only [Matrix.mul_assoc]
      _ = _ := by rw [hq, Matrix.mul_one]; simp only [Matrix.mul_assoc]
  simp only [traces, hR, h1, h2, bind, Except.bind]
  congr 2
  · funext k f j
    have h4 : (fullR (recon s.T s.V) (asFull s).H f j)⁻¹ * instantCovariance np id X f j
        * ((fullR (recon s.T s.V) (asFull s).H f j)⁻¹ * (asFull s).H k f)
        = (fullR (recon s.T s.V) (asFull s).H f j)⁻¹ * instantCovariance np id X f j
        * ((s.Q f)ᴴ * diagonal (fun c => ((s.D f k c / lambD s f c j : ℝ) : ℂ)) * ((s.Q f)⁻¹)ᴴ) := by rw [h3]
    rw [h4, trace_mul_comm, r_inv hs, instant_eq]
    have hq : ((s.Q f)⁻¹)ᴴ * (s.Q f)ᴴ = 1 := by
      rw [← conjTranspose_mul, mul_nonsing_inv _ (hs.1 f), conjTranspose_one]
    have h5 : (s.Q f)ᴴ * diagonal (fun c => ((s.D f k c / lambD s f c j : ℝ) : ℂ)) * ((s.Q f)⁻¹)ᴴ
        * ((s.Q f)ᴴ * diagonal (fun c => (((lambD s f c j)⁻¹ : ℝ) : ℂ)) * s.Q f * Matrix.of fun a b => X f a j * star (X f b j))
        = (s.Q f)ᴴ * diagonal (fun c => ((s.D f k c / lambD s f c j * (lambD s f c j)⁻¹ : ℝ) : ℂ)) * s.Q f
          * Matrix.of fun a b => X f a j * star (X f b j) := by
      have hd : diagonal (fun c => ((s.D f k c / lambD s f c j * (lambD s f c j)⁻¹ : ℝ) : ℂ))
          = diagonal (fun c => ((s.D f k c / lambD s f c j : ℝ) : ℂ)) * diagonal (fun c => (((lambD s f c j)⁻¹ : ℝ) : ℂ)) := by
        rw [diagonal_mul_diagonal]
        congr 1
        funext c
        rw [← Complex.ofReal_mul]
      rw [hd]
      calc _ = (s.Q f)ᴴ * diagonal (fun c => ((s.D f k c / lambD s f c j : ℝ) : ℂ)) * (((s.Q f)⁻¹)ᴴ * (s.Q f)ᴴ)
            * diagonal (fun c => (((lambD s f c j)⁻¹ : ℝ) : ℂ)) * s.Q f * Matrix.of fun a b => X f a j * star (X f b j) := by
              simp only [Matrix.mul_assoc]
        _ = _ := by rw [hq, Matrix.mul_one]; simp only [Matrix.mul_assoc]
    rw [h5, trace_outer, Complex.ofReal_re]
    refine Finset.sum_congr rfl fun c _ => ?_
    rw [demixed, div_pow]
    field_simp
  · funext k f j
    rw [h3, trace_mul_comm, ← Matrix.mul_assoc, ← conjTranspose_mul, mul_nonsing_inv _ (hs.1 f), conjTranspose_one,
      Matrix.one_mul, trace_diagonal, ← Complex.ofReal_sum, Complex.ofReal_re]

/-- C107: the updates of the basis agree. -/
theorem C107_basis (np : Numpy ℂ) (X : Spec F m t) (hs : FInv s) :
    fullUpdateBasis np id (instantCovariance np id X) (asFull s) = .ok (asFull (fastUpdateBasis id X s)) := by
  have h := traces_eq np X hs
  simp only [fullUpdateBasis, show (asFull s).T = s.T from rfl, show (asFull s).V = s.V from rfl, h, bind, Except.bind]
  rfl

/-- C107: the updates of the activation agree. -/
theorem C107_activation (np : Numpy ℂ) (X : Spec F m t) (hs : FInv s) :
    fullUpdateActivation np id (instantCovariance np id X) (asFull s) = .ok (asFull (fastUpdateActivation id X s)) := by
  have h := traces_eq np X hs
  simp only [fullUpdateActivation, show (asFull s).T = s.T from rfl, show (asFull s).V = s.V from rfl, h, bind, Except.bind]
  rfl

/-! ## Whole calls -/

open MnmfCall (KwF Kw ObjF Obj callF call)
open IlrmaCall (Draw baseCall)

theorem resetF_ok (np : Numpy ℂ) (X : Spec F m t) (hs : FInv s) (r : Fin m) (drawF : Draw F n t K)
    (drawD : F → Fin n → Fin m → ℝ) (oF : ObjF F n m t K) :
    MnmfCall.resetF np id r drawF drawD X ⟨some s.Q, some s.T, some s.V, some s.D⟩ oF = .ok s := by
  obtain ⟨Y, hY, -⟩ := C43_fast_mnmf_unfloored np r X s hs
  simp only [MnmfCall.resetF, IlrmaCall.override, IlrmaCall.initNmf, IlrmaCall.attrOr, bind, Except.bind]
  rw [show (⟨s.Q, s.T, s.V, s.D⟩ : FSt F n m t K) = s from rfl, hY]

theorem reset_ok (np : Numpy ℂ) (X : Spec F m t) (hs : FInv s) (r : Fin m) (draw : Draw F n t K) (o : Obj F n m t K) :
    MnmfCall.reset np id r draw X ⟨some s.T, some s.V, some (asFull s).H⟩ o = .ok (asFull s) := by
  obtain ⟨Y, hY, -⟩ := C43_fast_mnmf_unfloored np r X s hs
  simp only [MnmfCall.reset, IlrmaCall.override, IlrmaCall.initNmf, IlrmaCall.attrOr, bind, Except.bind]
  rw [(C107_output np id r X hs.1).trans hY]
  rfl

/-- C107: a call without iterations of `FastGaussMNMF` and one of `GaussMNMF` with the parameters that belong together
return the same separated signals and append the same loss. -/
theorem C107_call (np : Numpy ℂ) (ht : 0 < t) (X : Spec F m t) (hs : FInv s) (alg : FilterAlg m) (norm normF : Bool) (r : Fin m)
    (draw drawF : Draw F n t K) (drawD : F → Fin n → Fin m → ℝ) (ic : Bool) (o : Obj F n m t K) (oF : ObjF F n m t K)
    (ho : o.loss = oF.loss) :
    ∃ Y ls, callF np alg normF id r drawF drawD X 0 ic ⟨some s.Q, some s.T, some s.V, some s.D⟩ oF
        = .ok ⟨.val s.Q, .val s.T, .val s.V, .val s.D, .val Y, ls⟩ ∧
      call np norm id r draw X 0 ic ⟨some s.T, some s.V, some (asFull s).H⟩ o
        = .ok ⟨.val s.T, .val s.V, .val (asFull s).H, .val Y, ls⟩ ∧
      ls = oF.loss ++ (if ic then [fastLoss X s] else []) := by
  obtain ⟨Y, hY, -⟩ := C43_fast_mnmf_unfloored np r X s hs
  have hY' := (C107_output np id r X hs.1).trans hY
  have hl := C107_loss np ht X hs
  refine ⟨Y, _, ?_, ?_, rfl⟩
  · cases ic <;> simp [callF, resetF_ok np X hs, baseCall, IlrmaCall.iterations, hY, bind, Except.bind]
  · cases ic <;>
      simp [call, reset_ok np X hs, baseCall, IlrmaCall.iterations, hY', hl, ho, bind, Except.bind, show (asFull s).T = s.T from rfl,
        show (asFull s).V = s.V from rfl]

theorem basis_pos (X : Spec F m t) (hs : FInv s) (hb : ∀ f, ∃ j c, X f c j ≠ 0) (k : Fin n) (f : F) (b : Fin K) :
    0 < fastBasisRaw X s k f b := by
  obtain ⟨j, c, hj⟩ := hb f
  obtain ⟨c', hc'⟩ : ∃ c', separate X s.Q f c' j ≠ 0 := by
    by_contra h
    push Not at h
    have h0 : s.Q f *ᵥ (fun a => X f a j) = 0 := funext fun c' => h c'
    have := congrArg ((s.Q f)⁻¹ *ᵥ ·) h0
    simp only [mulVec_mulVec, nonsing_inv_mul _ (hs.1 f), one_mulVec, mulVec_zero] at this
    exact hj (congrFun this c)
  refine mul_pos (hs.2.1 k f b) (Real.sqrt_pos.mpr (div_pos ?_ ?_))
  · refine Finset.sum_pos' (fun j _ => mul_nonneg (hs.2.2.1 k b j).le (Finset.sum_nonneg fun c _ =>
      mul_nonneg (hs.2.2.2 f k c).le (sq_nonneg _))) ⟨j, Finset.mem_univ j, mul_pos (hs.2.2.1 k b j) ?_⟩
    exact Finset.sum_pos' (fun c _ => mul_nonneg (hs.2.2.2 f k c).le (sq_nonneg _)) ⟨c', Finset.mem_univ c',
      mul_pos (hs.2.2.2 f k c') (pow_pos (div_pos (norm_pos_iff.mpr hc') (lambD_pos hs f c' j)) 2)⟩
  · exact Finset.sum_pos (fun j _ => mul_pos (hs.2.2.1 k b j) (Finset.sum_pos (fun c _ =>
      div_pos (hs.2.2.2 f k c) (lambD_pos hs f c j)) ⟨c, Finset.mem_univ c⟩)) ⟨j, Finset.mem_univ j⟩

/-- C107: after the first iteration from parameters that belong together `FastGaussMNMF` and `GaussMNMF` have the same
activation, and the same basis unless `GaussMNMF` normalises: only the updates of the spatial parameters differ. -/
theorem C107_first_iteration (np : Numpy ℂ) (X : Spec F m t) (hs : FInv s) (hb : ∀ f, ∃ j c, X f c j ≠ 0) (alg : FilterAlg m)
    (norm normF : Bool) (r : Fin m) (draw drawF : Draw F n t K) (drawD : F → Fin n → Fin m → ℝ) (ic icF : Bool)
    (o o' : Obj F n m t K) (oF oF' : ObjF F n m t K)
    (hF : callF np alg normF id r drawF drawD X 1 icF ⟨some s.Q, some s.T, some s.V, some s.D⟩ oF = .ok oF')
    (h : call np norm id r draw X 1 ic ⟨some s.T, some s.V, some (asFull s).H⟩ o = .ok o') :
    o'.activation = oF'.activation ∧ (norm = false → o'.basis = oF'.basis) := by
  have hs1 : FInv (fastUpdateBasis id X s) := ⟨hs.1, fun k f b => basis_pos X hs hb k f b, hs.2.2⟩
  rw [callF, resetF_ok np X hs] at hF
  rw [call, reset_ok np X hs] at h
  obtain ⟨u, e0, hF⟩ := Ilrma.bind_ok hF
  cases e0
  obtain ⟨u, e0, h⟩ := Ilrma.bind_ok h
  cases e0
  obtain ⟨⟨q, lsF⟩, eF, hF⟩ := Ilrma.bind_ok hF
  obtain ⟨YF, -, hF⟩ := Ilrma.bind_ok hF
  cases hF
  obtain ⟨⟨p, ls⟩, e, h⟩ := Ilrma.bind_ok h
  obtain ⟨Y, -, h⟩ := Ilrma.bind_ok h
  cases h
  have stepF : ∃ l0 l1, IlrmaCall.iterations (fastUpdateOnce np alg normF id X) (fun s => .ok (fastLoss X s)) 1 s l0 = .ok (q, l1) := by
    cases icF
    · exact ⟨_, _, eF⟩
    · exact ⟨_, _, eF⟩
  have step : ∃ l0 l1, IlrmaCall.iterations (fullUpdateOnce np norm id (instantCovariance np id X))
      (fun s => fullLoss np id (instantCovariance np id X) (recon s.T s.V) s.H) 1 (asFull s) l0 = .ok (p, l1) := by
    cases ic
    · exact ⟨_, _, e⟩
    · simp only [baseCall, if_true] at e
      obtain ⟨v, -, e⟩ := Ilrma.bind_ok e
      exact ⟨_, _, e⟩
  obtain ⟨l0, l1, stepF⟩ := stepF
  obtain ⟨l2, l3, step⟩ := step
  obtain ⟨q', eF, stepF⟩ := Ilrma.bind_ok stepF
  obtain ⟨vF, -, stepF⟩ := Ilrma.bind_ok stepF
  cases stepF
  obtain ⟨p', e, step⟩ := Ilrma.bind_ok step
  obtain ⟨v, -, step⟩ := Ilrma.bind_ok step
  cases step
  have hT : q.T = (fastUpdateBasis id X s).T ∧ q.V = (fastUpdateActivation id X (fastUpdateBasis id X s)).V := by
    simp only [fastUpdateOnce, fastUpdateDiagonalizer] at eF
    obtain ⟨u, e1, eF⟩ := Ilrma.bind_ok eF
    obtain ⟨Q', -, e1⟩ := Ilrma.bind_ok e1
    cases e1
    cases eF
    cases normF <;> exact ⟨rfl, rfl⟩
  rw [fullUpdateOnce, C107_basis np X hs] at e
  obtain ⟨u, e1, e⟩ := Ilrma.bind_ok e
  cases e1
  rw [C107_activation np X hs1] at e
  obtain ⟨u, e1, e⟩ := Ilrma.bind_ok e
  cases e1
  obtain ⟨H', -, e⟩ := Ilrma.bind_ok e
  cases e
  refine ⟨?_, fun hn => ?_⟩
  · rw [hT.2]
    cases norm <;> rfl
  · subst hn
    rw [hT.1]
    rfl

end covariance

/-- Two sources, three channels, a diagonaliser that is not diagonal. -/
example (np : Numpy ℂ) (X : Spec Unit 3 4) (draw drawF : IlrmaCall.Draw Unit 2 4 1) (drawD : Unit → Fin 2 → Fin 3 → ℝ) :
    ∃ oF l H o, MnmfCall.callF np .ip1 true id 0 drawF drawD X 0 true
        ⟨some fun _ => !![1, 2, 0; 0, 1, 0; 0, Complex.I, 1], some fun _ _ _ => 1, some fun _ _ _ => 1,
          some fun _ k c => (k : ℝ) + c + 1⟩ .fresh = .ok oF ∧
      MnmfCall.call np true id 0 draw X 0 true ⟨some fun _ _ _ => 1, some fun _ _ _ => 1, some H⟩ .fresh = .ok o ∧
      o.output = oF.output ∧ o.loss = [l] ∧ oF.loss = [l] := by
  obtain ⟨Y, ls, h1, h2, h3⟩ := C107_call (s := (⟨fun _ => !![1, 2, 0; 0, 1, 0; 0, Complex.I, 1], fun _ _ _ => 1, fun _ _ _ => 1,
      fun _ k c => (k : ℝ) + c + 1⟩ : FSt Unit 2 3 4 1)) np (by norm_num) X
    ⟨fun _ => by simp [det_fin_three], fun _ _ _ => one_pos, fun _ _ _ => one_pos, fun _ _ _ => by positivity⟩ .ip1 true true 0
    draw drawF drawD true .fresh .fresh rfl
  subst h3
  exact ⟨_, _, _, _, h1, h2, rfl, rfl, rfl⟩

/-- Both calls with one iteration return for one channel and two sources. -/
example (np : Numpy ℂ) (draw drawF : IlrmaCall.Draw Unit 2 2 1) (drawD : Unit → Fin 2 → Fin 1 → ℝ) :
    ∃ H oF o, MnmfCall.callF np .ip1 true id 0 drawF drawD (fun _ => !![1, 2]) 1 true
        ⟨some fun _ => !![2], some fun _ _ _ => 1, some fun _ _ _ => 1, some fun _ k _ => (k : ℝ) + 1⟩ .fresh = .ok oF ∧
      MnmfCall.call np false id 0 draw (fun _ => !![1, 2]) 1 true ⟨some fun _ _ _ => 1, some fun _ _ _ => 1, some H⟩ .fresh = .ok o ∧
      o.activation = oF.activation ∧ o.basis = oF.basis := by
  obtain ⟨X, hXd⟩ : ∃ X : Spec Unit 1 2, X = fun _ => !![1, 2] := ⟨_, rfl⟩
  obtain ⟨s, hsd⟩ : ∃ s : FSt Unit 2 1 2 1, s = ⟨fun _ => !![2], fun _ _ _ => 1, fun _ _ _ => 1, fun _ k _ => (k : ℝ) + 1⟩ := ⟨_, rfl⟩
  have hs : FInv s := by
    rw [hsd]
    exact ⟨fun _ => by simp, fun _ _ _ => one_pos, fun _ _ _ => one_pos, fun _ _ _ => by positivity⟩
  have hne : ∀ j, X () 0 j ≠ 0 := by
    intro j
    rw [hXd]
    fin_cases j <;> simp
  have hX : ∀ f, LinearIndependent ℂ (X f).row := by
    intro f
    refine LinearIndependent.of_subsingleton (0 : Fin 1) fun h => hne 0 (congrFun h 0)
  have hb : ∀ f, ∃ j c, X f c j ≠ 0 := fun _ => ⟨0, 0, hne 0⟩
  -- FastGaussMNMF
  have hr := fregExact_id np true X hX (fun j => ⟨(), 0, hne j⟩) s hs
  obtain ⟨q, f1, f2, -⟩ := fast_step np .ip1 trivial true id X two_pos hX s hs ⟨fun k f b => (hr.basis k f b).mild _,
    fun k b j => (hr.activation k b j).mild _, fun _ _ => rfl, hr.spatial⟩
  obtain ⟨YF, f3, -⟩ := C43_fast_mnmf_unfloored np 0 X q f2
  have hF : ∃ oF, MnmfCall.callF np .ip1 true id 0 drawF drawD X 1 true ⟨some s.Q, some s.T, some s.V, some s.D⟩ .fresh = .ok oF := by
    refine ⟨⟨.val q.Q, .val q.T, .val q.V, .val q.D, .val YF, [fastLoss X s, fastLoss X q]⟩, ?_⟩
    simp [MnmfCall.callF, resetF_ok np X hs, MnmfCall.ObjF.fresh, IlrmaCall.baseCall, IlrmaCall.iterations, f1, f3, bind, Except.bind]
  -- GaussMNMF
  obtain ⟨XX, hXX⟩ : ∃ XX, XX = instantCovariance np id X := ⟨_, rfl⟩
  have hp : ∀ f j, (XX f j).PosSemidef := by
    intro f j
    rw [hXX, instant_eq]
    exact posSemidef_vecMulVec_self_star _
  have h0 : ∀ f j, XX f j ≠ 0 := by
    intro f j h
    have h := congrFun (congrFun h 0) 0
    rw [hXX, instant_eq] at h
    simp only [of_apply, Matrix.zero_apply, mul_eq_zero, star_eq_zero, or_self] at h
    exact hne j h
  have hm : MPos (asFull s) := by
    refine ⟨hs.2.1, hs.2.2.1, fun k f => ?_⟩
    refine PosDef.mul_mul_conjTranspose_same (PosDef.diagonal fun c => Complex.zero_lt_real.mpr (hs.2.2.2 f k c)) ?_
    rw [vecMul_injective_iff_isUnit, isUnit_nonsing_inv_iff]
    exact (isUnit_iff_isUnit_det _).mpr (hs.1 f)
  have hx : ∀ f j, (XX f j).PosDef := by
    intro f j
    refine (hp f j).posDef_iff_isUnit.mpr ((isUnit_iff_isUnit_det _).mpr ?_)
    rw [det_fin_one, isUnit_iff_ne_zero]
    intro h
    refine h0 f j ?_
    ext a b
    rw [Subsingleton.elim a 0, Subsingleton.elim b 0, h, Matrix.zero_apply]
  have hsp : MSpan np XX (asFull s) := by
    intro s1 s2 e1 e2
    obtain ⟨s1', d1, p1, -⟩ : ∃ s1, fullUpdateBasis np id XX (asFull s) = .ok s1 ∧ MPos s1 ∧ fullVal XX s1 ≤ fullVal XX (asFull s) :=
      ⟨_, full_basis_step np id XX hp _ (mInv_id np hm) fun k f b =>
        Ilrma.FloorMild.of_id (basisRaw_pos hp (fun f => ⟨0, h0 f 0⟩) hm k f b)⟩
    rw [d1] at e1
    cases e1
    obtain ⟨s2', d2, p2, -⟩ : ∃ s2, fullUpdateActivation np id XX s1 = .ok s2 ∧ MPos s2 ∧ fullVal XX s2 ≤ fullVal XX s1 :=
      ⟨_, full_activation_step np id XX hp _ (mInv_id np p1) fun k b j =>
        Ilrma.FloorMild.of_id (activationRaw_pos hp (fun j => ⟨(), h0 () j⟩) p1 k b j)⟩
    rw [d2] at e2
    cases e2
    exact spans_of_posDef hx p2
  obtain ⟨-, -, p, -, -, g3, -, -, p3, -⟩ := full_steps_id np false hp (fun f => ⟨0, h0 f 0⟩) (fun j => ⟨(), h0 () j⟩) (asFull s) hm hsp
  obtain ⟨Y, g4, -⟩ := C43_gauss_mnmf_unfloored np 0 X (recon p.T p.V) (recon_pos p3.1 p3.2.1) p.H p3.2.2
  have g5 := fullLoss_eq XX (mInv_id np p3)
  have g6 := fullLoss_eq XX (mInv_id np hm)
  have h : ∃ o, MnmfCall.call np false id 0 draw X 1 true ⟨some s.T, some s.V, some (asFull s).H⟩ .fresh = .ok o := by
    refine ⟨⟨.val p.T, .val p.V, .val p.H, .val Y, [fullVal XX (asFull s), fullVal XX p]⟩, ?_⟩
    simp only [MnmfCall.call, reset_ok np X hs, MnmfCall.Obj.fresh, IlrmaCall.baseCall, IlrmaCall.iterations, bind, Except.bind, if_true,
      ← hXX, g6, g3, g5, g4]
    rfl
  obtain ⟨oF, hF⟩ := hF
  obtain ⟨o, h⟩ := h
  obtain ⟨c1, c2⟩ := C107_first_iteration np X hs hb .ip1 false true 0 draw drawF drawD true true .fresh o .fresh oF hF h
  rw [hXd, hsd] at hF
  rw [hXd, hsd] at h
  exact ⟨_, oF, o, hF, h, c1, c2 rfl⟩

end Verif.MnmfJoint
