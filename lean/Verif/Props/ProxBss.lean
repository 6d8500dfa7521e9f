import Verif.Model.ProxBss
import Verif.Spec.Prox
import Verif.Lemmas.Trace
import Verif.Lemmas.Run
import Verif.Props.Prox
import Verif.Props.Grad
import Mathlib.Analysis.Convex.Function
import Mathlib.Analysis.Normed.Module.Convex
import Mathlib.Analysis.InnerProductSpace.PiL2

/-!
# Properties C50, C51, C58: the proximal methods
-/

set_option linter.unusedSectionVars false
set_option linter.unusedSimpArgs false

namespace Verif.ProxBss

open Matrix Spatial Scale Linalg
open scoped ComplexOrder

variable {F : Type} {n t q : ℕ}

/-! ## Frobenius inner products -/

/-- Real inner product of two arrays. -/
noncomputable def ip {m k : ℕ} (A B : Matrix (Fin m) (Fin k) ℂ) : ℝ := ∑ i, ∑ j, (star (A i j) * B i j).re

theorem ip_eq_trace {m k : ℕ} (A B : Matrix (Fin m) (Fin k) ℂ) : ip A B = ((Aᴴ * B).trace).re := by
  simp only [ip, trace, diag_apply, mul_apply, conjTranspose_apply, Complex.re_sum]
  exact Finset.sum_comm

theorem ip_self {m k : ℕ} (A : Matrix (Fin m) (Fin k) ℂ) : ip A A = frobSq A := by
  simp only [ip, frobSq]
  refine Finset.sum_congr rfl fun i _ => Finset.sum_congr rfl fun j _ => ?_
  rw [Complex.star_def, Complex.conj_mul', ← Complex.ofReal_pow, Complex.ofReal_re]

theorem frobSq_add {m k : ℕ} (A B : Matrix (Fin m) (Fin k) ℂ) :
    frobSq (A + B) = frobSq A + 2 * ip B A + frobSq B := by
  have h1 : (Bᴴ * A).trace.re = (Aᴴ * B).trace.re := by
    have : (Aᴴ * B).trace = star (Bᴴ * A).trace := by
      rw [← trace_conjTranspose, conjTranspose_mul, conjTranspose_conjTranspose]
    rw [this, Complex.star_def, Complex.conj_re]
  rw [← ip_self, ← ip_self, ← ip_self, ip_eq_trace, ip_eq_trace, ip_eq_trace, ip_eq_trace, conjTranspose_add,
    Matrix.add_mul, Matrix.mul_add, Matrix.mul_add, trace_add, trace_add, trace_add, Complex.add_re, Complex.add_re,
    Complex.add_re, ← h1]
  ring

theorem frobSq_nonneg {m k : ℕ} (A : Matrix (Fin m) (Fin k) ℂ) : 0 ≤ frobSq A :=
  Finset.sum_nonneg fun _ _ => Finset.sum_nonneg fun _ _ => sq_nonneg _

theorem frobSq_eq_zero {m k : ℕ} {A : Matrix (Fin m) (Fin k) ℂ} (h : frobSq A = 0) : A = 0 := by
  ext i j
  have h3 := (Finset.sum_eq_zero_iff_of_nonneg
    (fun i _ => Finset.sum_nonneg fun j _ => sq_nonneg ‖A i j‖)).mp h i (Finset.mem_univ _)
  have h4 := (Finset.sum_eq_zero_iff_of_nonneg (fun j _ => sq_nonneg ‖A i j‖)).mp h3 j (Finset.mem_univ _)
  exact norm_eq_zero.mp (pow_eq_zero_iff (two_ne_zero) |>.mp h4)

theorem frobSq_smul {m k : ℕ} (r : ℝ) (A : Matrix (Fin m) (Fin k) ℂ) :
    frobSq ((r : ℂ) • A) = r ^ 2 * frobSq A := by
  simp only [frobSq, Matrix.smul_apply, smul_eq_mul, norm_mul, mul_pow, Finset.mul_sum, Complex.norm_real,
    Real.norm_eq_abs, sq_abs]

theorem ip_smul_left {m k : ℕ} (r : ℝ) (A B : Matrix (Fin m) (Fin k) ℂ) : ip ((r : ℂ) • A) B = r * ip A B := by
  rw [ip_eq_trace, ip_eq_trace, conjTranspose_smul, Matrix.smul_mul, trace_smul, Complex.star_def, Complex.conj_ofReal,
    smul_eq_mul, Complex.re_ofReal_mul]

theorem ip_sum_right {ι : Type} {m k : ℕ} (S : Finset ι) (A : Matrix (Fin m) (Fin k) ℂ)
    (B : ι → Matrix (Fin m) (Fin k) ℂ) : ip A (∑ i ∈ S, B i) = ∑ i ∈ S, ip A (B i) := by
  simp only [ip_eq_trace, Matrix.mul_sum, trace_sum, Complex.re_sum]

theorem ip_add_right {m k : ℕ} (A B C : Matrix (Fin m) (Fin k) ℂ) : ip A (B + C) = ip A B + ip A C := by
  simp only [ip_eq_trace, Matrix.mul_add, trace_add, Complex.add_re]

/-! ## C50: the filter of ADMM -/

/-- The augmented Lagrangian as a function of the filter: `Σ_f ‖W - (V - Y)‖² + Σ_i ‖W X - (V_i - Y_i)‖²`. -/
noncomputable def augLag [Fintype F] (X : Spec F n t) (s : AdmmState F n t q) (W : F → Mat n ℂ) : ℝ :=
  ∑ f, (frobSq (W f - (s.V f - s.Y f)) + ∑ i, frobSq (W f * X f - (s.V_tilde i f - s.Y_tilde i f)))

/-- The normal matrix `q X Xᴴ + 1`. -/
noncomputable def normalMat (q : ℕ) (X : Matrix (Fin n) (Fin t) ℂ) : Mat n ℂ := (q : ℂ) • (X * Xᴴ) + 1

theorem normalMat_posDef (X : Matrix (Fin n) (Fin t) ℂ) : (normalMat q X).PosDef := by
  have h1 : ((q : ℂ) • (X * Xᴴ)).PosSemidef :=
    (posSemidef_self_mul_conjTranspose X).smul (by exact_mod_cast Nat.zero_le q)
  exact PosDef.posSemidef_add h1 PosDef.one

theorem codeMat_eq (X : Matrix (Fin n) (Fin t) ℂ) : (q : ℂ) • (X.map star * Xᵀ) + 1 = (normalMat q X)ᵀ := by
  rw [normalMat, transpose_add, transpose_smul, transpose_mul, transpose_one]
  rfl

/-- The right-hand side `V - Y + Σ_i (V_i - Y_i) Xᴴ`. -/
noncomputable def rhs (X : Spec F n t) (s : AdmmState F n t q) (f : F) : Mat n ℂ :=
  s.V f - s.Y f + (∑ i, (s.V_tilde i f - s.Y_tilde i f)) * (X f)ᴴ

theorem codeRhs_eq (X : Spec F n t) (s : AdmmState F n t q) (f : F) :
    s.V f - s.Y f + ((X f).map star * (∑ i, (s.V_tilde i f - s.Y_tilde i f))ᵀ)ᵀ = rhs X s f := by
  rw [rhs, transpose_mul, transpose_transpose]
  rfl

/-- C50. The filter step always succeeds, and the filter `W` it returns solves `(q X Xᴴ + 1)ᵀ W = V - Y + Σ (V_i - Y_i)
Xᴴ` in every bin. -/
theorem C50_filter_equation (X : Spec F n t) (s : AdmmState F n t q) :
    ∃ W, admmFilter X s = .ok W ∧
      ∀ f, ((q : ℂ) • (X f * (X f)ᴴ) + 1)ᵀ * W f
        = s.V f - s.Y f + (∑ i, (s.V_tilde i f - s.Y_tilde i f)) * (X f)ᴴ := by
  have hu : ∀ f, IsUnit ((normalMat q (X f))ᵀ).det := fun f => by
    rw [det_transpose]; exact Tr.isUnit_det (normalMat_posDef (X f))
  refine ⟨fun f => ((normalMat q (X f))ᵀ)⁻¹ * rhs X s f, ?_, fun f => ?_⟩
  · rw [admmFilter]
    refine onBins_ok fun f => ?_
    simp only
    rw [codeMat_eq, codeRhs_eq, npSolve, if_pos (hu f)]
  · exact mul_nonsing_inv_cancel_left _ _ (hu f)

theorem augLag_add [Fintype F] (X : Spec F n t) (s : AdmmState F n t q) (W H : F → Mat n ℂ) :
    augLag X s (fun f => W f + H f) = augLag X s W
      + 2 * ∑ f, ip (H f) (W f * normalMat q (X f) - rhs X s f)
      + ∑ f, (frobSq (H f) + q * frobSq (H f * X f)) := by
  simp only [augLag]
  rw [Finset.mul_sum, ← Finset.sum_add_distrib, ← Finset.sum_add_distrib]
  refine Finset.sum_congr rfl fun f _ => ?_
  have e1 : W f + H f - (s.V f - s.Y f) = (W f - (s.V f - s.Y f)) + H f := by abel
  have e2 : ∀ i, (W f + H f) * X f - (s.V_tilde i f - s.Y_tilde i f)
      = (W f * X f - (s.V_tilde i f - s.Y_tilde i f)) + H f * X f := fun i => by
    rw [Matrix.add_mul]; abel
  simp only [e1, e2, frobSq_add, Finset.sum_add_distrib, Finset.sum_const, Finset.card_univ, Fintype.card_fin,
    nsmul_eq_mul, ← Finset.mul_sum]
  have e3 : ∑ i, ip (H f * X f) (W f * X f - (s.V_tilde i f - s.Y_tilde i f))
      = ip (H f) (((q : ℂ) • (W f * X f) - ∑ i, (s.V_tilde i f - s.Y_tilde i f)) * (X f)ᴴ) := by
    rw [← ip_sum_right, ip_eq_trace, ip_eq_trace, conjTranspose_mul, Matrix.mul_assoc, Matrix.trace_mul_comm,
      Matrix.mul_assoc]
    congr 5
    rw [Finset.sum_sub_distrib, Finset.sum_const, Finset.card_univ, Fintype.card_fin, ← Nat.cast_smul_eq_nsmul ℂ]
  have e4 : W f * normalMat q (X f) - rhs X s f
      = (W f - (s.V f - s.Y f))
        + ((q : ℂ) • (W f * X f) - ∑ i, (s.V_tilde i f - s.Y_tilde i f)) * (X f)ᴴ := by
    rw [normalMat, rhs, Matrix.mul_add, Matrix.sub_mul, Matrix.mul_one, Matrix.mul_smul, Matrix.smul_mul,
      Matrix.mul_assoc]
    abel
  rw [e3, e4, ip_add_right]
  ring

/-- A filter minimises the augmented Lagrangian exactly when it satisfies the normal equations. -/
theorem augLag_min_iff [Fintype F] (X : Spec F n t) (s : AdmmState F n t q) (W : F → Mat n ℂ) :
    (∀ W', augLag X s W ≤ augLag X s W') ↔ ∀ f, W f * normalMat q (X f) = rhs X s f := by
  constructor
  · intro h f
    set G : F → Mat n ℂ := fun f => W f * normalMat q (X f) - rhs X s f with hG
    set c := ∑ f, frobSq (G f) with hc
    set d := ∑ f, (frobSq (G f) + q * frobSq (G f * X f)) with hd
    have hd0 : 0 ≤ d := Finset.sum_nonneg fun f _ =>
      add_nonneg (frobSq_nonneg _) (mul_nonneg (Nat.cast_nonneg q) (frobSq_nonneg _))
    have hc0 : 0 ≤ c := Finset.sum_nonneg fun f _ => frobSq_nonneg _
    have key : ∀ r : ℝ, 0 ≤ 2 * (r * c) + r ^ 2 * d := fun r => by
      have h1 := h fun f => W f + (r : ℂ) • G f
      have h2 := augLag_add X s W fun f => (r : ℂ) • G f
      have e1 : ∑ f, ip ((r : ℂ) • G f) (W f * normalMat q (X f) - rhs X s f) = r * c := by
        rw [hc, Finset.mul_sum]
        refine Finset.sum_congr rfl fun f _ => ?_
        rw [ip_smul_left, ← ip_self]
      have e2 : ∑ f, (frobSq ((r : ℂ) • G f) + q * frobSq ((r : ℂ) • G f * X f)) = r ^ 2 * d := by
        rw [hd, Finset.mul_sum]
        refine Finset.sum_congr rfl fun f _ => ?_
        rw [Matrix.smul_mul, frobSq_smul, frobSq_smul]
        ring
      rw [e1, e2] at h2
      linarith
    have hc' : c = 0 := by
      by_contra hne
      have hpos : 0 < c := lt_of_le_of_ne hc0 (Ne.symm hne)
      have h1 := key (-(c / (d + 1)))
      have hd1 : 0 < d + 1 := by linarith
      have h2 : 2 * (-(c / (d + 1)) * c) + (-(c / (d + 1))) ^ 2 * d = - (c ^ 2 * (d + 2)) / (d + 1) ^ 2 := by
        field_simp; ring
      rw [h2] at h1
      have : - (c ^ 2 * (d + 2)) / (d + 1) ^ 2 < 0 := by
        apply div_neg_of_neg_of_pos
        · have : 0 < c ^ 2 * (d + 2) := by positivity
          linarith
        · positivity
      linarith
    have := (Finset.sum_eq_zero_iff_of_nonneg fun f _ => frobSq_nonneg (G f)).mp hc' f (Finset.mem_univ f)
    exact sub_eq_zero.mp (frobSq_eq_zero this)
  · intro h W'
    have e : W' = fun f => W f + (W' f - W f) := by funext f; abel
    rw [e, augLag_add]
    have h1 : ∑ f, ip (W' f - W f) (W f * normalMat q (X f) - rhs X s f) = 0 :=
      Finset.sum_eq_zero fun f _ => by rw [h f, sub_self]; simp [ip]
    have h2 : 0 ≤ ∑ f, (frobSq (W' f - W f) + q * frobSq ((W' f - W f) * X f)) := Finset.sum_nonneg fun f _ =>
      add_nonneg (frobSq_nonneg _) (mul_nonneg (Nat.cast_nonneg q) (frobSq_nonneg _))
    rw [h1]
    linarith

/-- C50. The filter of an iteration of `ADMMBSS` minimises the augmented Lagrangian over all filters exactly when
`W (q X Xᴴ + 1) = (q X Xᴴ + 1)ᵀ W` in every bin: the system is solved from the wrong side. -/
theorem C50_minimiser_iff [Fintype F] (X : Spec F n t) (s : AdmmState F n t q) {W : F → Mat n ℂ}
    (hW : admmFilter X s = .ok W) :
    (∀ W', augLag X s W ≤ augLag X s W') ↔
      ∀ f, W f * ((q : ℂ) • (X f * (X f)ᴴ) + 1) = ((q : ℂ) • (X f * (X f)ᴴ) + 1)ᵀ * W f := by
  obtain ⟨W0, h0, h1⟩ := C50_filter_equation X s
  obtain rfl : W = W0 := Except.ok.inj (hW.symm.trans h0)
  rw [augLag_min_iff]
  refine forall_congr' fun f => ?_
  rw [h1 f]
  rfl

/-- C50. A state in which the filter of the iteration is not a minimiser: two channels, one bin, one frame, one penalty,
only the first channel active. -/
theorem C50_not_minimiser : ∃ (X : Spec Unit 2 1) (s : AdmmState Unit 2 1 1) (W W' : Unit → Mat 2 ℂ),
    admmFilter X s = .ok W ∧ augLag X s W' < augLag X s W := by
  let X : Spec Unit 2 1 := fun _ => !![1; 0]
  let s : AdmmState Unit 2 1 1 := ⟨fun _ => 1, fun _ => !![0, 1; 0, 0], fun _ _ => 0, fun _ => 0, fun _ _ => 0⟩
  obtain ⟨W, hW, _⟩ := C50_filter_equation X s
  refine ⟨X, s, W, fun _ => !![0, 1; 0, 0], hW, ?_⟩
  by_contra hlt
  have hle := not_lt.mp hlt
  have hmin : ∀ W', augLag X s W ≤ augLag X s W' := by
    intro W'
    refine hle.trans ?_
    refine (augLag_min_iff X s _).mpr ?_ W'
    intro f
    ext i j
    fin_cases i <;> fin_cases j <;> simp [normalMat, rhs, X, s, Matrix.mul_apply, Fin.sum_univ_two, vecMul, dotProduct]
  have h1 := (C50_minimiser_iff X s hW).mp hmin ()
  have h2 : W () = !![0, 1; 0, 0] := by
    have h3 := (augLag_min_iff X s W).mp hmin ()
    have h4 : (!![0, 1; 0, 0] : Mat 2 ℂ) * normalMat 1 (X ()) = rhs X s () := by
      ext i j
      fin_cases i <;> fin_cases j <;> simp [normalMat, rhs, X, s, Matrix.mul_apply, Fin.sum_univ_two, vecMul, dotProduct]
    have hu := Tr.isUnit_det (normalMat_posDef (q := 1) (X ()))
    have := congrArg (· * (normalMat 1 (X ()))⁻¹) (h3.trans h4.symm)
    simp only [mul_nonsing_inv_cancel_right _ _ hu] at this
    exact this
  rw [h2] at h1
  have h5 := congrFun (congrFun h1 0) 1
  simp [X, Matrix.mul_apply, Fin.sum_univ_two, vecMul, dotProduct] at h5

/-! ## The log-determinant proximal operator -/

theorem frob_posSemidef {m k : ℕ} {S : Mat m ℂ} (hS : S.PosSemidef) (M : Matrix (Fin m) (Fin k) ℂ) :
    0 ≤ ip M (S * M) := by
  rw [ip_eq_trace, ← Matrix.mul_assoc]
  exact (Complex.le_def.mp (hS.conjTranspose_mul_mul_same M).trace_nonneg).1

theorem frob_posDef {m k : ℕ} {S : Mat m ℂ} (hS : S.PosDef) {M : Matrix (Fin m) (Fin k) ℂ} (h : ip M (S * M) = 0) :
    M = 0 := by
  obtain ⟨C, hC⟩ := Tr.exists_gram S hS.posSemidef
  have hu : IsUnit C.det := by
    have h1 := (Tr.isUnit_det hS).ne_zero
    rw [hC, det_mul] at h1
    exact isUnit_iff_ne_zero.mpr (right_ne_zero_of_mul h1)
  have h2 : C * M = 0 := by
    apply frobSq_eq_zero
    rw [← ip_self, ip_eq_trace, conjTranspose_mul, Matrix.mul_assoc, ← Matrix.mul_assoc Cᴴ, ← hC, ← ip_eq_trace, h]
  have h3 : C⁻¹ * (C * M) = C⁻¹ * (0 : Matrix (Fin m) (Fin k) ℂ) := by rw [h2]
  rwa [nonsing_inv_mul_cancel_left _ _ hu, Matrix.mul_zero] at h3

theorem neg_logdet_spec (np : Numpy ℂ) {s : ℝ} (hs : 0 < s) (V : Mat n ℂ) :
    ∃ P, neg_logdet np s V = .ok P ∧ (P - V) * Pᴴ = (s : ℂ) • 1 ∧ (P * Pᴴ - (s : ℂ) • 1).PosSemidef ∧
      (Pᴴ * P - (s : ℂ) • 1).PosSemidef := by
  have hv := np.svd_spec V
  set U := (np.svd V).1
  set x := (np.svd V).2.1
  set V' := (np.svd V).2.2
  set D : Mat n ℂ := diagonal fun i => ((negLogElem s (x i) : ℝ) : ℂ) with hD
  have hDh : Dᴴ = D := by
    rw [hD, diagonal_conjTranspose]
    congr 1
    funext i
    simp
  have hDD : (D * D - (s : ℂ) • 1).PosSemidef := by
    have : D * D - (s : ℂ) • 1 = diagonal fun i => ((negLogElem s (x i) ^ 2 - s : ℝ) : ℂ) := by
      rw [hD, diagonal_mul_diagonal, ← diagonal_one, ← diagonal_smul, diagonal_sub]
      congr 1
      funext i
      simp [pow_two]
    rw [this]
    refine PosSemidef.diagonal fun i => ?_
    have h1 := negLog_eq hs (x i)
    have h2 := negLog_pos hs (x i)
    have h3 := hv.nonneg i
    have h4 : 0 ≤ negLogElem s (x i) ^ 2 - s := by nlinarith [mul_nonneg h2.le h3]
    change (0 : ℂ) ≤ _
    exact_mod_cast h4
  have hP : (U * D * V')ᴴ = V'ᴴ * D * Uᴴ := by
    rw [conjTranspose_mul, conjTranspose_mul, hDh, Matrix.mul_assoc]
  have hsU : (s : ℂ) • (1 : Mat n ℂ) = U * ((s : ℂ) • 1) * Uᴴ := by
    rw [Matrix.mul_smul, Matrix.smul_mul, Matrix.mul_one, hv.unitaryU']
  refine ⟨U * D * V', ?_, ?_, ?_, ?_⟩
  · have : neg_log s x = .ok fun i => negLogElem s (x i) := if_pos hv.nonneg
    change (neg_log s x >>= fun Sigma => Except.ok (U * npDiag Sigma * V')) = _
    rw [this]
    simp only [bind, Except.bind, npDiag_eq]
    rfl
  · have e : (D - diagonal fun i => (x i : ℂ)) * D = (s : ℂ) • 1 := by
      rw [hD, diagonal_sub, diagonal_mul_diagonal, ← diagonal_one, ← diagonal_smul]
      congr 1
      funext i
      have h1 := negLog_eq hs (x i)
      have h2 : (negLogElem s (x i) - x i) * negLogElem s (x i) = s := by rw [mul_comm]; exact h1
      have h3 := congrArg (fun r : ℝ => (r : ℂ)) h2
      simpa using h3
    have e2 : U * D * V' - V = U * (D - diagonal fun i => (x i : ℂ)) * V' := by
      conv_lhs => rw [hv.decomp]
      rw [Matrix.mul_sub, Matrix.sub_mul]
      rfl
    rw [hP, e2, hsU, ← e]
    simp only [Matrix.mul_assoc]
    rw [← Matrix.mul_assoc V', hv.unitaryV, Matrix.one_mul]
  · have := hDD.mul_mul_conjTranspose_same U
    rw [Matrix.mul_sub, Matrix.sub_mul, ← hsU] at this
    rw [hP]
    convert this using 2
    simp only [Matrix.mul_assoc]
    rw [← Matrix.mul_assoc V', hv.unitaryV, Matrix.one_mul]
  · have := hDD.conjTranspose_mul_mul_same V'
    rw [Matrix.mul_sub, Matrix.sub_mul, Matrix.mul_smul, Matrix.smul_mul, Matrix.mul_one, hv.unitaryV'] at this
    rw [hP]
    convert this using 2
    simp only [Matrix.mul_assoc]
    rw [← Matrix.mul_assoc Uᴴ, hv.unitaryU, Matrix.one_mul]

/-- A matrix with all singular values above `√s` that satisfies the stationarity condition is the result. -/
theorem neg_logdet_eq (np : Numpy ℂ) {s : ℝ} (hs : 0 < s) {V W : Mat n ℂ} (h1 : (W - V) * Wᴴ = (s : ℂ) • 1)
    (h2 : (W * Wᴴ - (s : ℂ) • 1).PosDef) : neg_logdet np s V = .ok W := by
  obtain ⟨P, hP, hP1, -, hP3⟩ := neg_logdet_spec np hs V
  rw [hP]
  congr 1
  have h1' : W * (W - V)ᴴ = (s : ℂ) • 1 := by
    have := congrArg conjTranspose h1
    simpa [conjTranspose_mul] using this
  -- `D = W - P` satisfies `Wᴴ D Pᴴ = - s Dᴴ`
  have hs0 : (s : ℂ) ≠ 0 := by exact_mod_cast hs.ne'
  have hWV : (W - V)ᴴ * W = (s : ℂ) • 1 := by
    have h3 : W * ((s : ℂ)⁻¹ • (W - V)ᴴ) = 1 := by
      rw [Matrix.mul_smul, h1', smul_smul, inv_mul_cancel₀ hs0, one_smul]
    have h4 := mul_eq_one_comm.mp h3
    rw [Matrix.smul_mul] at h4
    have h5 := congrArg ((s : ℂ) • ·) h4
    simpa [smul_smul, mul_inv_cancel₀ hs0] using h5
  have hWV' : Wᴴ * (W - V) = (s : ℂ) • 1 := by
    have := congrArg conjTranspose hWV
    simpa [conjTranspose_mul] using this
  have hD : Wᴴ * (W - P) * Pᴴ = (-(s : ℂ)) • (W - P)ᴴ := by
    have e : W - P = (W - V) - (P - V) := by abel
    conv_lhs => rw [e]
    rw [Matrix.mul_sub, Matrix.sub_mul, hWV', Matrix.mul_assoc, hP1, conjTranspose_sub]
    simp only [Matrix.smul_mul, Matrix.mul_smul, Matrix.one_mul, Matrix.mul_one]
    rw [neg_smul, smul_sub]
    abel
  obtain ⟨D, hDdef⟩ : ∃ D, D = W - P := ⟨_, rfl⟩
  rw [← hDdef] at hD
  have e1 : frobSq (Wᴴ * (D * Pᴴ)) = s ^ 2 * frobSq D := by
    rw [← Matrix.mul_assoc, hD, show (-(s : ℂ)) = ((-s : ℝ) : ℂ) by push_cast; rfl, frobSq_smul,
      frobSq_conjTranspose]
    ring
  have e2 : frobSq (Wᴴ * (D * Pᴴ)) = s * frobSq (D * Pᴴ) + ip (D * Pᴴ) ((W * Wᴴ - (s : ℂ) • 1) * (D * Pᴴ)) := by
    rw [← ip_self, ← ip_self, ip_eq_trace, ip_eq_trace, ip_eq_trace, conjTranspose_mul Wᴴ, conjTranspose_conjTranspose,
      Matrix.sub_mul, Matrix.mul_sub, trace_sub, Complex.sub_re, Matrix.smul_mul, Matrix.one_mul, Matrix.mul_smul,
      trace_smul, smul_eq_mul, Complex.re_ofReal_mul]
    simp only [Matrix.mul_assoc]
    ring
  have e3 : frobSq (D * Pᴴ) = s * frobSq D + ip Dᴴ ((Pᴴ * P - (s : ℂ) • 1) * Dᴴ) := by
    rw [← frobSq_conjTranspose, ← frobSq_conjTranspose D, conjTranspose_mul, conjTranspose_conjTranspose,
      ← ip_self, ← ip_self, ip_eq_trace, ip_eq_trace, ip_eq_trace, conjTranspose_mul,
      Matrix.sub_mul, Matrix.mul_sub, trace_sub, Complex.sub_re, Matrix.smul_mul, Matrix.one_mul, Matrix.mul_smul,
      trace_smul, smul_eq_mul, Complex.re_ofReal_mul]
    simp only [Matrix.mul_assoc]
    ring
  have n1 := frob_posSemidef h2.posSemidef (D * Pᴴ)
  have n2 := frob_posSemidef hP3 Dᴴ
  have z : ip (D * Pᴴ) ((W * Wᴴ - (s : ℂ) • 1) * (D * Pᴴ)) = 0 := by
    have : s ^ 2 * frobSq D
        = s * (s * frobSq D + ip Dᴴ ((Pᴴ * P - (s : ℂ) • 1) * Dᴴ))
          + ip (D * Pᴴ) ((W * Wᴴ - (s : ℂ) • 1) * (D * Pᴴ)) := by
      rw [← e3, ← e2, e1]
    have h0 := mul_nonneg hs.le n2
    nlinarith
  have hDP : D * Pᴴ = 0 := frob_posDef h2 z
  have hD0 : D = 0 := by
    have h6 : D * (Pᴴ * ((s : ℂ)⁻¹ • (P - V))) = D := by
      have h3 : ((s : ℂ)⁻¹ • (P - V)) * Pᴴ = 1 := by
        rw [Matrix.smul_mul, hP1, smul_smul, inv_mul_cancel₀ hs0, one_smul]
      rw [mul_eq_one_comm.mp h3, Matrix.mul_one]
    rw [← h6, ← Matrix.mul_assoc, hDP, Matrix.zero_mul]
  exact (sub_eq_zero.mp (hDdef.symm.trans hD0)).symm

/-! ## C51: fixed points of PDS -/

theorem pdsStep_ok (np : Numpy ℂ) {mu1 : ℝ} (h1 : 0 < mu1) (mu2 alpha : ℝ)
    (prox : Fin q → Spec F n t → ℝ → Spec F n t) (X : Spec F n t) (s : PdsState F n t q) :
    ∃ P : F → Mat n ℂ,
      (∀ f, neg_logdet np mu1 (s.W f - ((mu1 * mu2 : ℝ) : ℂ) • ((∑ i, s.dual i f) * (X f)ᴴ)) = .ok (P f)) ∧
      pdsStep np mu1 mu2 alpha prox X s = .ok ⟨fun f => (alpha : ℂ) • P f + ((1 - alpha : ℝ) : ℂ) • s.W f,
        fun i f => (alpha : ℂ) • ((s.dual i f + separate X (fun f => (2 : ℂ) • P f - s.W f) f)
          - prox i (fun f => s.dual i f + separate X (fun f => (2 : ℂ) • P f - s.W f) f) (1 / mu2) f)
          + ((1 - alpha : ℝ) : ℂ) • s.dual i f⟩ := by
  choose P hP _ using fun f => neg_logdet_spec np h1
    (s.W f - ((mu1 * mu2 : ℝ) : ℂ) • ((∑ i, s.dual i f) * (X f)ᴴ))
  refine ⟨P, hP, ?_⟩
  have : negLogdetStack np mu1 (fun f => s.W f - ((mu1 * mu2 : ℝ) : ℂ) • ((∑ i, s.dual i f) * (X f)ᴴ)) = .ok P :=
    onBins_ok hP
  simp only [pdsStep, this, bind, Except.bind]

theorem relax_fixed {m k : ℕ} {alpha : ℝ} (h : alpha ≠ 0) (A B : Matrix (Fin m) (Fin k) ℂ) :
    (alpha : ℂ) • A + ((1 - alpha : ℝ) : ℂ) • B = B ↔ A = B := by
  have h0 : (alpha : ℂ) ≠ 0 := by exact_mod_cast h
  constructor
  · intro e
    have : (alpha : ℂ) • (A - B) = 0 := by
      have e' : (alpha : ℂ) • A + ((1 - alpha : ℝ) : ℂ) • B - B = (alpha : ℂ) • (A - B) := by
        push_cast
        rw [sub_smul, smul_sub, one_smul]
        abel
      rw [← e', e, sub_self]
    exact sub_eq_zero.mp ((smul_eq_zero.mp this).resolve_left h0)
  · rintro rfl
    push_cast
    rw [sub_smul, one_smul]
    abel

/-- C51. If an iteration of `PDSBSS` with positive step sizes and non-zero relaxation leaves the state unchanged, then the
state satisfies the optimality conditions: `μ2 Σ_i Y_i Xᴴ` is the gradient `W^{-H}` of the log-determinant in every bin,
and `Y_i` is a fixed point of the proximal step of every penalty; also no singular value of `W` is below `√μ1`. -/
theorem C51_fixed_point (np : Numpy ℂ) {mu1 mu2 alpha : ℝ} (h1 : 0 < mu1) (h3 : alpha ≠ 0)
    (prox : Fin q → Spec F n t → ℝ → Spec F n t) (X : Spec F n t) (s : PdsState F n t q)
    (hfix : pdsStep np mu1 mu2 alpha prox X s = .ok s) :
    (∀ f, ((mu2 : ℂ) • ∑ i, s.dual i f * (X f)ᴴ) * (s.W f)ᴴ = 1) ∧
    (∀ i, prox i (fun f => s.dual i f + s.W f * X f) (1 / mu2) = fun f => s.W f * X f) ∧
    ∀ f, (s.W f * (s.W f)ᴴ - (mu1 : ℂ) • 1).PosSemidef := by
  obtain ⟨P, hP, hstep⟩ := pdsStep_ok np h1 mu2 alpha prox X s
  have e := Except.ok.inj (hstep.symm.trans hfix)
  have eW := congrArg PdsState.W e
  have eY := congrArg PdsState.dual e
  have hPW : P = s.W := by
    funext f
    exact (relax_fixed h3 _ _).mp (congrFun eW f)
  subst hPW
  have h1c : (mu1 : ℂ) ≠ 0 := by exact_mod_cast h1.ne'
  have hs2 : (fun f => (2 : ℂ) • s.W f - s.W f) = s.W := by
    funext f
    rw [two_smul]
    abel
  rw [hs2] at eY
  refine ⟨fun f => ?_, fun i => ?_, fun f => ?_⟩
  · obtain ⟨Q, hQ, q1, -, -⟩ := neg_logdet_spec np h1
      (s.W f - ((mu1 * mu2 : ℝ) : ℂ) • ((∑ i, s.dual i f) * (X f)ᴴ))
    obtain rfl : s.W f = Q := Except.ok.inj ((hP f).symm.trans hQ)
    rw [sub_sub_cancel, Matrix.smul_mul] at q1
    have := congrArg ((mu1 : ℂ)⁻¹ • ·) q1
    simp only [smul_smul, inv_mul_cancel₀ h1c, one_smul] at this
    rw [← this, Matrix.sum_mul, Matrix.smul_mul]
    congr 1
    push_cast
    field_simp
  · funext f
    have h := (relax_fixed h3 _ _).mp (congrFun (congrFun eY i) f)
    have : prox i (fun f => s.dual i f + separate X s.W f) (1 / mu2) f = separate X s.W f := by
      have h' : s.dual i f + separate X s.W f
          - prox i (fun f => s.dual i f + separate X s.W f) (1 / mu2) f - s.dual i f = 0 := by
        rw [h, sub_self]
      have h'' := sub_eq_zero.mp (show separate X s.W f
        - prox i (fun f => s.dual i f + separate X s.W f) (1 / mu2) f = 0 by rw [← h']; abel)
      exact h''.symm
    exact this
  · obtain ⟨Q, hQ, -, q2, -⟩ := neg_logdet_spec np h1
      (s.W f - ((mu1 * mu2 : ℝ) : ℂ) • ((∑ i, s.dual i f) * (X f)ᴴ))
    obtain rfl : s.W f = Q := Except.ok.inj ((hP f).symm.trans hQ)
    exact q2

/-- C51. Conversely, a state that satisfies the optimality conditions and whose filters have all singular values above
`√μ1` is left unchanged, whatever the relaxation. -/
theorem C51_optimal_is_fixed (np : Numpy ℂ) {mu1 mu2 : ℝ} (h1 : 0 < mu1) (alpha : ℝ)
    (prox : Fin q → Spec F n t → ℝ → Spec F n t) (X : Spec F n t) (s : PdsState F n t q)
    (hgrad : ∀ f, ((mu2 : ℂ) • ∑ i, s.dual i f * (X f)ᴴ) * (s.W f)ᴴ = 1)
    (hprox : ∀ i, prox i (fun f => s.dual i f + s.W f * X f) (1 / mu2) = fun f => s.W f * X f)
    (hsv : ∀ f, (s.W f * (s.W f)ᴴ - (mu1 : ℂ) • 1).PosDef) :
    pdsStep np mu1 mu2 alpha prox X s = .ok s := by
  obtain ⟨P, hP, hstep⟩ := pdsStep_ok np h1 mu2 alpha prox X s
  have hPW : P = s.W := by
    funext f
    refine Except.ok.inj ((hP f).symm.trans (neg_logdet_eq np h1 ?_ (hsv f)))
    rw [sub_sub_cancel, ← hgrad f, Matrix.sum_mul, Matrix.smul_mul, Matrix.smul_mul, smul_smul]
    push_cast
    rfl
  subst hPW
  have hs2 : (fun f => (2 : ℂ) • s.W f - s.W f) = s.W := by
    funext f
    rw [two_smul]
    abel
  rw [hstep]
  congr 1
  rw [hs2]
  have hr : ∀ {m k : ℕ} (B : Matrix (Fin m) (Fin k) ℂ), (alpha : ℂ) • B + ((1 - alpha : ℝ) : ℂ) • B = B := fun B => by
    push_cast
    rw [sub_smul, one_smul]
    abel
  have e2 : ∀ i f, prox i (fun f => s.dual i f + separate X s.W f) (1 / mu2) f = separate X s.W f := fun i f =>
    congrFun (hprox i) f
  cases s with
  | mk W dual =>
    simp only at *
    congr 1
    · funext f; exact hr _
    · funext i f
      rw [e2, add_sub_cancel_right]
      exact hr _

/-! ### In terms of the penalties -/

/-- Squared distance of two spectrograms. -/
noncomputable def dist2 [Fintype F] (u v : Spec F n t) : ℝ := ∑ f, frobSq (u f - v f)

/-- `G` is a subgradient of the penalty `P` at `U`. -/
def IsSubgrad [Fintype F] (P : Spec F n t → ℝ) (U G : Spec F n t) : Prop :=
  ∀ u, P U + ∑ f, ip (G f) (u f - U f) ≤ P u

theorem dist2_shift [Fintype F] (U D : Spec F n t) (h : Spec F n t) :
    dist2 (fun f => U f + h f) (fun f => D f + U f)
      = (∑ f, frobSq (D f)) - 2 * (∑ f, ip (D f) (h f)) + ∑ f, frobSq (h f) := by
  simp only [dist2]
  rw [Finset.mul_sum, ← Finset.sum_sub_distrib, ← Finset.sum_add_distrib]
  refine Finset.sum_congr rfl fun f _ => ?_
  have e : U f + h f - (D f + U f) = h f + ((-1 : ℝ) : ℂ) • D f := by
    push_cast
    rw [neg_one_smul]
    abel
  rw [e, frobSq_add, ip_smul_left, frobSq_smul]
  ring

/-- The proximal operator of a convex penalty returns `U` at `U + D` exactly when `μ D` is a subgradient at `U`. -/
theorem prox_fixed_iff [Fintype F] {P : Spec F n t → ℝ} (hP : ConvexOn ℝ Set.univ P) {mu : ℝ} (hmu : 0 < mu)
    {prox : Spec F n t → Spec F n t} (hprox : ∀ x, IsUniqueProx (fun _ => True) P dist2 (1 / mu) x (prox x))
    (U D : Spec F n t) :
    prox (fun f => D f + U f) = U ↔ IsSubgrad P U fun f => (mu : ℂ) • D f := by
  have hx := hprox fun f => D f + U f
  have hU0 : dist2 U (fun f => D f + U f) = ∑ f, frobSq (D f) := by
    have := dist2_shift U D fun _ => 0
    simpa [ip, frobSq] using this
  have hsplit : ∀ u : Spec F n t, dist2 u (fun f => D f + U f)
      = (∑ f, frobSq (D f)) - 2 * (∑ f, ip (D f) (u f - U f)) + ∑ f, frobSq (u f - U f) := fun u => by
    have := dist2_shift U D fun f => u f - U f
    rw [← this]
    congr 1
    funext f
    abel
  have hipmu : ∀ u : Spec F n t, ∑ f, ip ((mu : ℂ) • D f) (u f - U f) = mu * ∑ f, ip (D f) (u f - U f) := fun u => by
    rw [Finset.mul_sum]
    exact Finset.sum_congr rfl fun f _ => ip_smul_left _ _ _
  have hnn : ∀ u : Spec F n t, 0 ≤ ∑ f, frobSq (u f - U f) := fun u => Finset.sum_nonneg fun f _ => frobSq_nonneg _
  constructor
  · intro h u
    rw [h] at hx
    rw [hipmu]
    set c := ∑ f, ip (D f) (u f - U f) with hc
    set d := ∑ f, frobSq (u f - U f) with hd
    have key : ∀ l : ℝ, 0 < l → l ≤ 1 → 0 ≤ (P u - P U) - mu * c + mu * (l * d) / 2 := by
      intro l hl hl1
      have h1 := hx.1.2 ((1 - l) • U + l • u) trivial
      rw [hU0, hsplit] at h1
      have hconv : P ((1 - l) • U + l • u) ≤ (1 - l) * P U + l * P u := by
        have := hP.2 (Set.mem_univ U) (Set.mem_univ u) (by linarith : 0 ≤ 1 - l) hl.le (by ring)
        simpa using this
      have hdiff : ∀ f, ((1 - l) • U + l • u) f - U f = (l : ℂ) • (u f - U f) := fun f => by
        ext i j
        simp only [Pi.add_apply, Pi.smul_apply, Matrix.sub_apply, Matrix.add_apply, Matrix.smul_apply,
          Complex.real_smul, smul_eq_mul]
        push_cast
        ring
      have e1 : ∑ f, ip (D f) (((1 - l) • U + l • u) f - U f) = l * c := by
        rw [hc, Finset.mul_sum]
        refine Finset.sum_congr rfl fun f _ => ?_
        rw [hdiff, ip_eq_trace, ip_eq_trace, Matrix.mul_smul, trace_smul, smul_eq_mul, Complex.re_ofReal_mul]
      have e2 : ∑ f, frobSq (((1 - l) • U + l • u) f - U f) = l ^ 2 * d := by
        rw [hd, Finset.mul_sum]
        refine Finset.sum_congr rfl fun f _ => ?_
        rw [hdiff, frobSq_smul]
      rw [e1, e2] at h1
      have h2 : 1 / mu * P ((1 - l) • U + l • u) ≤ 1 / mu * ((1 - l) * P U + l * P u) :=
        mul_le_mul_of_nonneg_left hconv (by positivity)
      have h3 : 0 ≤ 1 / mu * (l * (P u - P U)) - l * c + l ^ 2 * d / 2 := by
        nlinarith
      have h4 : 0 ≤ (mu / l) * (1 / mu * (l * (P u - P U)) - l * c + l ^ 2 * d / 2) :=
        mul_nonneg (by positivity) h3
      have h5 : (mu / l) * (1 / mu * (l * (P u - P U)) - l * c + l ^ 2 * d / 2)
          = (P u - P U) - mu * c + mu * (l * d) / 2 := by
        field_simp
      rwa [h5] at h4
    have hd0 : 0 ≤ d := hnn u
    by_contra hcon
    have hgap : 0 < mu * c - (P u - P U) := by
      have := not_le.mp hcon
      linarith
    obtain ⟨l, hl, hl1, hl2⟩ : ∃ l : ℝ, 0 < l ∧ l ≤ 1 ∧ mu * (l * d) / 2 < mu * c - (P u - P U) := by
      set g := mu * c - (P u - P U)
      have hden : 0 < mu * d + g := by positivity
      refine ⟨g / (mu * d + g), by positivity, ?_, ?_⟩
      · rw [div_le_one hden]
        nlinarith [mul_nonneg hmu.le hd0]
      · have : mu * (g / (mu * d + g) * d) / 2 = g * (mu * d / (2 * (mu * d + g))) := by
          field_simp
        rw [this]
        have h6 : mu * d / (2 * (mu * d + g)) < 1 := by
          rw [div_lt_one (by positivity)]
          nlinarith [mul_nonneg hmu.le hd0]
        nlinarith
    have := key l hl hl1
    linarith
  · intro h
    refine (hx.2 U trivial ?_).symm
    have h1 := h (prox fun f => D f + U f)
    rw [hipmu] at h1
    rw [hU0, hsplit]
    have h2 := hnn (prox fun f => D f + U f)
    have h3 : 1 / mu * (P U + mu * ∑ f, ip (D f) ((prox fun f => D f + U f) f - U f))
        ≤ 1 / mu * P (prox fun f => D f + U f) := mul_le_mul_of_nonneg_left h1 (by positivity)
    have h4 : 1 / mu * (P U + mu * ∑ f, ip (D f) ((prox fun f => D f + U f) f - U f))
        = 1 / mu * P U + ∑ f, ip (D f) ((prox fun f => D f + U f) f - U f) := by
      field_simp
    rw [h4] at h3
    linarith

/-- `W` is a stationary point of `Σ_i P_i(W X) - Σ_f log |det W_f|`: there are subgradients of the penalties at the
output whose sum, pulled back to the filter, is the gradient `W^{-H}` of the log-determinant. -/
def IsStationary [Fintype F] (P : Fin q → Spec F n t → ℝ) (X : Spec F n t) (W : F → Mat n ℂ) : Prop :=
  ∃ G : Fin q → Spec F n t, (∀ i, IsSubgrad (P i) (fun f => W f * X f) (G i)) ∧
    ∀ f, (∑ i, G i f * (X f)ᴴ) * (W f)ᴴ = 1

/-- C51. With proximal operators of convex penalties, the filter of a state left unchanged by `PDSBSS` is a stationary
point of the loss the class reports. -/
theorem C51_fixed_is_stationary [Fintype F] (np : Numpy ℂ) {mu1 mu2 alpha : ℝ} (h1 : 0 < mu1) (h2 : 0 < mu2)
    (h3 : alpha ≠ 0) (P : Fin q → Spec F n t → ℝ) (hconv : ∀ i, ConvexOn ℝ Set.univ (P i))
    (prox : Fin q → Spec F n t → ℝ → Spec F n t)
    (hprox : ∀ i x, IsUniqueProx (fun _ => True) (P i) dist2 (1 / mu2) x (prox i x (1 / mu2)))
    (X : Spec F n t) (s : PdsState F n t q) (hfix : pdsStep np mu1 mu2 alpha prox X s = .ok s) :
    IsStationary P X s.W := by
  obtain ⟨a, b, -⟩ := C51_fixed_point np h1 h3 prox X s hfix
  refine ⟨fun i f => (mu2 : ℂ) • s.dual i f, fun i => ?_, fun f => ?_⟩
  · exact (prox_fixed_iff (hconv i) h2 (prox := fun x => prox i x (1 / mu2)) (hprox i) _ _).mp (b i)
  · rw [← a f, Finset.smul_sum]
    simp only [Matrix.smul_mul]

/-- C51. Every stationary point whose filters have all singular values above `√μ1` is the filter of a state that
`PDSBSS` leaves unchanged. -/
theorem C51_stationary_is_fixed [Fintype F] (np : Numpy ℂ) {mu1 mu2 : ℝ} (h1 : 0 < mu1) (h2 : 0 < mu2)
    (alpha : ℝ) (P : Fin q → Spec F n t → ℝ) (hconv : ∀ i, ConvexOn ℝ Set.univ (P i))
    (prox : Fin q → Spec F n t → ℝ → Spec F n t)
    (hprox : ∀ i x, IsUniqueProx (fun _ => True) (P i) dist2 (1 / mu2) x (prox i x (1 / mu2)))
    (X : Spec F n t) (W : F → Mat n ℂ) (hW : IsStationary P X W)
    (hsv : ∀ f, (W f * (W f)ᴴ - (mu1 : ℂ) • 1).PosDef) :
    ∃ dual, pdsStep np mu1 mu2 alpha prox X ⟨W, dual⟩ = .ok ⟨W, dual⟩ := by
  obtain ⟨G, hG, hgrad⟩ := hW
  have h2c : (mu2 : ℂ) ≠ 0 := by exact_mod_cast h2.ne'
  have hback : ∀ i f, (mu2 : ℂ) • ((mu2 : ℂ)⁻¹ • G i f) = G i f := fun i f => by
    rw [smul_smul, mul_inv_cancel₀ h2c, one_smul]
  refine ⟨fun i f => (mu2 : ℂ)⁻¹ • G i f, C51_optimal_is_fixed np h1 alpha prox X _ ?_ ?_ hsv⟩
  · intro f
    simp only
    rw [← hgrad f, Finset.smul_sum]
    simp only [← Matrix.smul_mul, hback]
  · intro i
    refine (prox_fixed_iff (hconv i) h2 (prox := fun x => prox i x (1 / mu2)) (hprox i) _ _).mpr ?_
    simp only [hback]
    exact hG i

/-- C51. A stationary point admits no direction of first-order descent of the loss: along every line the loss falls by
`o(ε)` at most. -/
theorem C51_stationary_no_descent [Fintype F] (P : Fin q → Spec F n t → ℝ) (X : Spec F n t) (W : F → Mat n ℂ)
    (hW : IsStationary P X W) (H : F → Mat n ℂ) (δ : ℝ) (hδ : 0 < δ) :
    ∀ᶠ ε : ℝ in nhdsWithin 0 (Set.Ioi 0),
      (∑ i, P i (fun f => W f * X f)) - (∑ f, Real.log ‖(W f).det‖) - δ * ε
        ≤ (∑ i, P i (fun f => (W f + (ε : ℂ) • H f) * X f)) - ∑ f, Real.log ‖(W f + (ε : ℂ) • H f).det‖ := by
  obtain ⟨G, hG, hgrad⟩ := hW
  have hu : ∀ f, IsUnit (W f).det := fun f => by
    have := congrArg det (hgrad f)
    rw [det_mul, det_one, det_conjTranspose] at this
    refine isUnit_iff_ne_zero.mpr fun h0 => ?_
    rw [h0] at this
    simp at this
  have hder : HasDerivAt (fun ε : ℝ => ∑ f, Real.log ‖(W f + (ε : ℂ) • H f).det‖) (∑ f, ((W f)⁻¹ * H f).trace.re) 0 :=
    HasDerivAt.fun_sum (u := Finset.univ) fun f _ => Grad.hasDerivAt_logdet (W f) (H f) (hu f)
  set c := ∑ f, ((W f)⁻¹ * H f).trace.re with hc
  have hip : ∀ ε : ℝ, ∑ i, ∑ f, ip (G i f) ((W f + (ε : ℂ) • H f) * X f - W f * X f) = ε * c := by
    intro ε
    rw [Finset.sum_comm, hc, Finset.mul_sum]
    refine Finset.sum_congr rfl fun f _ => ?_
    have e1 : ∀ i, ip (G i f) ((W f + (ε : ℂ) • H f) * X f - W f * X f)
        = ε * ((G i f * (X f)ᴴ)ᴴ * H f).trace.re := fun i => by
      rw [Matrix.add_mul, add_sub_cancel_left, ip_eq_trace, Matrix.smul_mul, Matrix.mul_smul, trace_smul, smul_eq_mul,
        Complex.re_ofReal_mul, conjTranspose_mul, conjTranspose_conjTranspose, Matrix.mul_assoc (X f), trace_mul_comm (X f),
        Matrix.mul_assoc]
    simp only [e1, ← Finset.mul_sum, ← Complex.re_sum, ← trace_sum]
    rw [← Matrix.sum_mul, ← conjTranspose_sum]
    congr 3
    have h2 := congrArg conjTranspose (hgrad f)
    rw [conjTranspose_mul, conjTranspose_conjTranspose, conjTranspose_one] at h2
    rw [inv_eq_right_inv h2]
  have hP : ∀ ε : ℝ, (∑ i, P i (fun f => W f * X f)) + ε * c ≤ ∑ i, P i (fun f => (W f + (ε : ℂ) • H f) * X f) := by
    intro ε
    rw [← hip ε, ← Finset.sum_add_distrib]
    exact Finset.sum_le_sum fun i _ => hG i _
  have hlim := (hasDerivAt_iff_isLittleO_nhds_zero.mp hder).def hδ
  have hlim' : ∀ᶠ ε : ℝ in nhdsWithin 0 (Set.Ioi 0), _ := hlim.filter_mono nhdsWithin_le_nhds
  filter_upwards [hlim', self_mem_nhdsWithin] with ε hε hpos
  have hpos' : 0 < ε := hpos
  have h0 := hP ε
  simp only [zero_add, Complex.ofReal_zero, zero_smul, add_zero, smul_eq_mul, Real.norm_eq_abs] at hε
  have h3 := (abs_le.mp hε).2
  rw [abs_of_pos hpos'] at h3
  linarith

/-! ### PDSIVA -/

theorem ivaPenalty_convex {b : ℕ} : ConvexOn ℝ Set.univ (ivaPenalty : Spec (Fin b) n t → ℝ) := by
  have h1 : ∀ (k : Fin n) (j : Fin t),
      ConvexOn ℝ Set.univ fun y : Spec (Fin b) n t => Real.sqrt (∑ f, ‖y f k j‖ ^ 2) := by
    intro k j
    let L : Spec (Fin b) n t →ₗ[ℝ] EuclideanSpace ℂ (Fin b) :=
      { toFun := fun y => WithLp.toLp 2 fun f => y f k j
        map_add' := fun _ _ => rfl
        map_smul' := fun _ _ => rfl }
    have h2 := (convexOn_norm (E := EuclideanSpace ℂ (Fin b)) convex_univ).comp_linearMap L
    rw [Set.preimage_univ] at h2
    have h4 : (fun y : Spec (Fin b) n t => Real.sqrt (∑ f, ‖y f k j‖ ^ 2)) = (fun x => ‖x‖) ∘ L := by
      funext y
      exact (EuclideanSpace.norm_eq (L y)).symm
    rw [h4]
    exact h2
  have h3 : (ivaPenalty : Spec (Fin b) n t → ℝ)
      = ∑ k : Fin n, ∑ j : Fin t, fun y : Spec (Fin b) n t => Real.sqrt (∑ f, ‖y f k j‖ ^ 2) := by
    funext y
    simp only [ivaPenalty, Finset.sum_apply]
  rw [h3]
  have hsum : ∀ {ι : Type} (S : Finset ι) (g : ι → Spec (Fin b) n t → ℝ), (∀ i, ConvexOn ℝ Set.univ (g i)) →
      ConvexOn ℝ Set.univ (∑ i ∈ S, g i) := by
    intro ι S g hg
    classical
    induction S using Finset.induction_on with
    | empty => rw [Finset.sum_empty]; exact convexOn_const (0 : ℝ) convex_univ
    | insert a S ha ih => rw [Finset.sum_insert ha]; exact (hg a).add ih
  exact hsum _ _ fun k => hsum _ _ fun j => h1 k j

/-- C51. The default proximal operator of `PDSIVA` is the one of the penalty it reports. -/
theorem C51_iva_prox {b : ℕ} {step : ℝ} (hs : 0 < step) (x : Spec (Fin b) n t) :
    IsUniqueProx (fun _ => True) ivaPenalty dist2 step x (ivaProx x step) := by
  have h := C14_l21 (𝕜 := ℂ) step hs fun p : Fin n × Fin t => fun f => x f p.1 p.2
  have e1 : ∀ z : Spec (Fin b) n t, ivaPenalty z
      = ∑ p : Fin n × Fin t, Real.sqrt (∑ f, ‖(fun p : Fin n × Fin t => fun f => z f p.1 p.2) p f‖ ^ 2) := fun z => by
    rw [ivaPenalty, Fintype.sum_prod_type]
  have e2 : ∀ z : Spec (Fin b) n t, dist2 z x = ∑ p : Fin n × Fin t, ∑ f,
      ‖(fun p : Fin n × Fin t => fun f => z f p.1 p.2) p f
        - (fun p : Fin n × Fin t => fun f => x f p.1 p.2) p f‖ ^ 2 := fun z => by
    rw [Finset.sum_comm]
    simp only [dist2, frobSq, Fintype.sum_prod_type, Matrix.sub_apply]
  have e3 : (fun p : Fin n × Fin t => fun f => ivaProx x step f p.1 p.2)
      = l21 step fun p : Fin n × Fin t => fun f => x f p.1 p.2 := rfl
  refine ⟨⟨trivial, fun z _ => ?_⟩, fun z _ hz => ?_⟩
  · rw [e1, e2, e1 z, e2 z, e3]
    exact h.1.2 _ trivial
  · rw [e1, e2, e1 (ivaProx x step), e2 (ivaProx x step), e3] at hz
    have := h.2 _ trivial hz
    rw [← e3] at this
    funext f
    ext k j
    exact congrFun (congrFun this (k, j)) f

/-- C51. `PDSIVA` with its default penalty: the filter of a state left unchanged is a stationary point of
`Σ ‖y_kj‖ - Σ log |det W|`. -/
theorem C51_pdsiva {b : ℕ} (np : Numpy ℂ) {mu1 mu2 alpha : ℝ} (h1 : 0 < mu1) (h2 : 0 < mu2) (h3 : alpha ≠ 0)
    (X : Spec (Fin b) n t) (s : PdsState (Fin b) n t 1)
    (hfix : pdsStep np mu1 mu2 alpha (fun _ => ivaProx) X s = .ok s) :
    IsStationary (fun _ : Fin 1 => ivaPenalty) X s.W :=
  C51_fixed_is_stationary np h1 h2 h3 _ (fun _ => ivaPenalty_convex) _
    (fun _ x => C51_iva_prox (by positivity) x) X s hfix

/-- Two sources already separated: the identity filter is stationary and hence, with `μ1 = 1/2`, part of a fixed point of
`PDSIVA`. -/
example : ∃ dual, pdsStep (someNumpy (𝕜 := ℂ)) (1 / 2) 1 1 (fun _ : Fin 1 => ivaProx)
    (fun _ : Fin 1 => (1 : Matrix (Fin 2) (Fin 2) ℂ)) ⟨fun _ => 1, dual⟩ = .ok ⟨fun _ => 1, dual⟩ := by
  refine C51_stationary_is_fixed _ (by norm_num) one_pos 1 (fun _ => ivaPenalty) (fun _ => ivaPenalty_convex) _
    (fun _ x => C51_iva_prox (by norm_num) x) _ _ ⟨fun _ _ => 1, fun _ u => ?_, fun f => ?_⟩ fun f => ?_
  · simp only [ivaPenalty, ip, Fin.sum_univ_one, Fin.sum_univ_two, Real.sqrt_sq (norm_nonneg _)]
    have a := Complex.re_le_norm (u 0 0 0)
    have b := Complex.re_le_norm (u 0 1 1)
    have c := norm_nonneg (u 0 0 1)
    have d := norm_nonneg (u 0 1 0)
    simp
    linarith
  · simp
  · have : (1 : Mat 2 ℂ) * (1 : Mat 2 ℂ)ᴴ - ((1 / 2 : ℝ) : ℂ) • 1 = ((1 / 2 : ℝ) : ℂ) • 1 := by
      rw [conjTranspose_one, Matrix.mul_one]
      ext i j
      simp only [Matrix.sub_apply, Matrix.smul_apply, smul_eq_mul]
      push_cast
      ring
    rw [this]
    exact Tr.smul_posDef PosDef.one (by norm_num)

/-! ### Masking -/

/-- C51. `MaskingPDSBSS` is `PDSBSS` with one penalty whose proximal operator multiplies by the mask. -/
theorem C51_masking (np : Numpy ℂ) (mu1 mu2 alpha : ℝ) (mask : Spec F n t → F → Matrix (Fin n) (Fin t) ℝ)
    (X : Spec F n t) (W : F → Mat n ℂ) (Y : Spec F n t) :
    maskingPdsStep np mu1 mu2 alpha mask X (W, Y)
      = (pdsStep np mu1 mu2 alpha (fun _ : Fin 1 => fun Z _ f => Matrix.of fun k j => (mask Z f k j : ℂ) * Z f k j) X
          ⟨W, fun _ => Y⟩).map fun s => (s.W, s.dual 0) := by
  simp only [maskingPdsStep, pdsStep, Finset.univ_unique, Fin.default_eq_zero, Finset.sum_singleton]
  cases negLogdetStack np mu1 fun f => W f - ((mu1 * mu2 : ℝ) : ℂ) • (Y f * (X f)ᴴ) <;> rfl

/-- C50. `MaskingADMMBSS` is `ADMMBSS` with one penalty whose proximal operator multiplies by the mask. -/
theorem C50_masking (np : Numpy ℂ) (rho alpha : ℝ) (mask : Spec F n t → F → Matrix (Fin n) (Fin t) ℝ)
    (X : Spec F n t) (W V Y : F → Mat n ℂ) (V' Y' : Spec F n t) :
    maskingAdmmStep np rho alpha mask X (W, V, V', Y, Y')
      = (admmStep np rho alpha (fun _ : Fin 1 => fun Z _ f => Matrix.of fun k j => (mask Z f k j : ℂ) * Z f k j) X
          ⟨W, V, fun _ => V', Y, fun _ => Y'⟩).map fun s => (s.W, s.V, s.V_tilde 0, s.Y, s.Y_tilde 0) := by
  simp only [maskingAdmmStep, admmStep, admmFilter, Finset.univ_unique, Fin.default_eq_zero, Finset.sum_singleton,
    Nat.cast_one, one_smul]
  cases onBins fun f => npSolve ((X f).map star * (X f)ᵀ + 1)
    (V f - Y f + ((X f).map star * (V' f - Y' f)ᵀ)ᵀ) with
  | error e => rfl
  | ok W' =>
    simp only [bind, Except.bind]
    cases negLogdetStack np (1 / rho) fun f => (alpha : ℂ) • W' f + ((1 - alpha : ℝ) : ℂ) • V f + Y f <;> rfl

/-! ## C50: fixed points of ADMM -/

/-- C50. At a state that `ADMMBSS` leaves unchanged, the auxiliary variables agree with the filter and its output, and
`-ρ Y` is the gradient of the log-determinant and `prox_i(W X + Y_i) = W X`; but the dual variables are not balanced:
`Y + Σ_i Y_i Xᴴ = q (W X Xᴴ - (X Xᴴ)ᵀ W)` instead of `0`. -/
theorem C50_fixed_point (np : Numpy ℂ) {rho alpha : ℝ} (h1 : 0 < rho) (h3 : alpha ≠ 0)
    (prox : Fin q → Spec F n t → ℝ → Spec F n t) (X : Spec F n t) (s : AdmmState F n t q)
    (hfix : admmStep np rho alpha prox X s = .ok s) :
    s.V = s.W ∧ (∀ i f, s.V_tilde i f = s.W f * X f) ∧
    (∀ f, (-(rho : ℂ)) • (s.Y f * (s.W f)ᴴ) = 1) ∧
    (∀ i, prox i (fun f => s.Y_tilde i f + s.W f * X f) (1 / rho) = fun f => s.W f * X f) ∧
    ∀ f, s.Y f + ∑ i, s.Y_tilde i f * (X f)ᴴ
      = (q : ℂ) • (s.W f * (X f * (X f)ᴴ) - (X f * (X f)ᴴ)ᵀ * s.W f) := by
  obtain ⟨W, hW, heq⟩ := C50_filter_equation X s
  have hr0 : 0 < 1 / rho := by positivity
  choose P hP hP1 _ using fun f => neg_logdet_spec np hr0
    ((alpha : ℂ) • W f + ((1 - alpha : ℝ) : ℂ) • s.V f + s.Y f)
  have hstack : negLogdetStack np (1 / rho) (fun f => (alpha : ℂ) • W f + ((1 - alpha : ℝ) : ℂ) • s.V f + s.Y f)
      = .ok P := onBins_ok hP
  rw [admmStep] at hfix
  simp only [hW, bind, Except.bind, hstack] at hfix
  have e := Except.ok.inj hfix
  have eW : W = s.W := congrArg AdmmState.W e
  have eV : P = s.V := congrArg AdmmState.V e
  subst eW
  have eY : ∀ f, s.Y f + ((alpha : ℂ) • s.W f + ((1 - alpha : ℝ) : ℂ) • s.V f) - P f = s.Y f := fun f =>
    congrFun (congrArg AdmmState.Y e) f
  subst eV
  have eVt : ∀ i, prox i (fun f => (alpha : ℂ) • separate X s.W f + ((1 - alpha : ℝ) : ℂ) • s.V_tilde i f
      + s.Y_tilde i f) (1 / rho) = s.V_tilde i := fun i => congrFun (congrArg AdmmState.V_tilde e) i
  have eYt : ∀ i f, s.Y_tilde i f + ((alpha : ℂ) • separate X s.W f + ((1 - alpha : ℝ) : ℂ) • s.V_tilde i f)
      - prox i (fun f => (alpha : ℂ) • separate X s.W f + ((1 - alpha : ℝ) : ℂ) • s.V_tilde i f
      + s.Y_tilde i f) (1 / rho) f = s.Y_tilde i f := fun i f =>
    congrFun (congrFun (congrArg AdmmState.Y_tilde e) i) f
  have hVW : ∀ f, s.W f = s.V f := fun f => by
    refine (relax_fixed h3 _ _).mp ?_
    have := eY f
    rw [add_sub_assoc, add_eq_left, sub_eq_zero] at this
    exact this
  have hVt : ∀ i f, s.W f * X f = s.V_tilde i f := fun i f => by
    refine (relax_fixed h3 _ _).mp ?_
    have := eYt i f
    rw [eVt, add_sub_assoc, add_eq_left, sub_eq_zero] at this
    exact this
  have hr : ∀ {m k : ℕ} (B : Matrix (Fin m) (Fin k) ℂ), (alpha : ℂ) • B + ((1 - alpha : ℝ) : ℂ) • B = B := fun B =>
    (relax_fixed h3 B B).mpr rfl
  have hrc : (rho : ℂ) ≠ 0 := by exact_mod_cast h1.ne'
  refine ⟨funext fun f => (hVW f).symm, fun i f => (hVt i f).symm, fun f => ?_, fun i => ?_, fun f => ?_⟩
  · have h := hP1 f
    rw [hVW f, hr, sub_add_cancel_left] at h
    rw [hVW f]
    have h' := congrArg ((rho : ℂ) • ·) h
    simp only [smul_smul] at h'
    push_cast at h'
    rw [mul_one_div_cancel hrc, one_smul] at h'
    rw [← h', Matrix.neg_mul, smul_neg, neg_smul]
  · have h := eVt i
    have e1 : (fun f => (alpha : ℂ) • separate X s.W f + ((1 - alpha : ℝ) : ℂ) • s.V_tilde i f + s.Y_tilde i f)
        = fun f => s.Y_tilde i f + s.W f * X f := by
      funext f
      rw [← hVt, add_comm]
      congr 1
      exact hr _
    rw [e1] at h
    rw [h]
    funext f
    exact (hVt i f).symm
  · have h := heq f
    simp only [← hVt, ← hVW] at h
    rw [Finset.sum_sub_distrib, Finset.sum_const, Finset.card_univ, Fintype.card_fin, Matrix.sub_mul,
      ← Nat.cast_smul_eq_nsmul ℂ, transpose_add, transpose_smul, transpose_one, Matrix.add_mul, Matrix.one_mul,
      Matrix.smul_mul, Matrix.smul_mul, Matrix.mul_assoc] at h
    rw [← Matrix.sum_mul, smul_sub]
    rw [show (q : ℂ) • ((X f * (X f)ᴴ)ᵀ * s.W f) = s.W f - s.Y f + ((q : ℂ) • (s.W f * (X f * (X f)ᴴ))
      - (∑ i, s.Y_tilde i f) * (X f)ᴴ) - s.W f by rw [← h]; abel]
    abel

/-- C50. With proximal operators of convex penalties, the filter of a state left unchanged by `ADMMBSS` is a stationary
point of the loss as soon as `W X Xᴴ = (X Xᴴ)ᵀ W` in every bin. -/
theorem C50_fixed_stationary [Fintype F] (np : Numpy ℂ) {rho alpha : ℝ} (h1 : 0 < rho) (h3 : alpha ≠ 0)
    (P : Fin q → Spec F n t → ℝ) (hconv : ∀ i, ConvexOn ℝ Set.univ (P i))
    (prox : Fin q → Spec F n t → ℝ → Spec F n t)
    (hprox : ∀ i x, IsUniqueProx (fun _ => True) (P i) dist2 (1 / rho) x (prox i x (1 / rho)))
    (X : Spec F n t) (s : AdmmState F n t q) (hfix : admmStep np rho alpha prox X s = .ok s)
    (hcomm : ∀ f, s.W f * (X f * (X f)ᴴ) = (X f * (X f)ᴴ)ᵀ * s.W f) :
    IsStationary P X s.W := by
  obtain ⟨-, -, a, b, c⟩ := C50_fixed_point np h1 h3 prox X s hfix
  refine ⟨fun i f => (rho : ℂ) • s.Y_tilde i f, fun i => ?_, fun f => ?_⟩
  · exact (prox_fixed_iff (hconv i) h1 (prox := fun x => prox i x (1 / rho)) (hprox i) _ _).mp (b i)
  · have h := c f
    rw [hcomm f, sub_self, smul_zero] at h
    have h' : ∑ i, s.Y_tilde i f * (X f)ᴴ = - s.Y f := by rw [← sub_eq_zero, sub_neg_eq_add, add_comm]; exact h
    rw [← a f]
    simp only [Matrix.smul_mul, ← Finset.smul_sum, h', Matrix.neg_mul, smul_neg, neg_smul]

/-- The linear penalty `Re <G, y>`, whose proximal operator subtracts `step G`. -/
noncomputable def linPenalty [Fintype F] (G y : Spec F n t) : ℝ := ∑ f, ip (G f) (y f)

theorem linPenalty_convex [Fintype F] (G : Spec F n t) : ConvexOn ℝ Set.univ (linPenalty G) := by
  refine ⟨convex_univ, fun x _ y _ a b _ _ _ => le_of_eq ?_⟩
  simp only [linPenalty, smul_eq_mul, Finset.mul_sum, ← Finset.sum_add_distrib]
  refine Finset.sum_congr rfl fun f _ => ?_
  rw [Pi.add_apply, ip_add_right, Pi.smul_apply, Pi.smul_apply]
  congr 1 <;>
  · simp only [ip, Finset.mul_sum, Matrix.smul_apply, Complex.real_smul]
    refine Finset.sum_congr rfl fun i _ => Finset.sum_congr rfl fun j _ => ?_
    rw [mul_left_comm, Complex.re_ofReal_mul]

theorem linPenalty_prox [Fintype F] (G x : Spec F n t) (step : ℝ) :
    IsUniqueProx (fun _ => True) (linPenalty G) dist2 step x (fun f => x f - (step : ℂ) • G f) := by
  have key : ∀ z : Spec F n t, step * linPenalty G z + dist2 z x / 2
      = step * linPenalty G (fun f => x f - (step : ℂ) • G f) + dist2 (fun f => x f - (step : ℂ) • G f) x / 2
        + dist2 z (fun f => x f - (step : ℂ) • G f) / 2 := by
    intro z
    simp only [linPenalty, dist2, Finset.mul_sum, Finset.sum_div, ← Finset.sum_add_distrib]
    refine Finset.sum_congr rfl fun f _ => ?_
    have e1 : x f - (step : ℂ) • G f - x f = ((-step : ℝ) : ℂ) • G f := by
      push_cast
      rw [neg_smul]
      abel
    have e2 : z f - x f = (z f - (x f - (step : ℂ) • G f)) + ((-step : ℝ) : ℂ) • G f := by
      push_cast
      rw [neg_smul]
      abel
    have e3 : z f = (x f - (step : ℂ) • G f) + (z f - (x f - (step : ℂ) • G f)) := by abel
    rw [e1, e2, frobSq_add, ip_smul_left]
    conv_lhs => rw [e3, ip_add_right]
    rw [add_sub_cancel_left]
    ring
  have hnn : ∀ z w : Spec F n t, 0 ≤ dist2 z w := fun z w => Finset.sum_nonneg fun f _ => frobSq_nonneg _
  refine ⟨⟨trivial, fun z _ => ?_⟩, fun z _ hz => ?_⟩
  · have := key z
    have := hnn z (fun f => x f - (step : ℂ) • G f)
    linarith
  · have h1 := key z
    have h2 := hnn z (fun f => x f - (step : ℂ) • G f)
    have h3 : dist2 z (fun f => x f - (step : ℂ) • G f) = 0 := by linarith
    funext f
    have := (Finset.sum_eq_zero_iff_of_nonneg fun f _ => frobSq_nonneg _).mp h3 f (Finset.mem_univ f)
    exact sub_eq_zero.mp (frobSq_eq_zero this)

theorem linPenalty_subgrad [Fintype F] {G U G' : Spec F n t} (h : IsSubgrad (linPenalty G) U G') : G' = G := by
  have h1 : ∀ u : Spec F n t, linPenalty G U + ∑ f, ip (G' f) (u f - U f) ≤ linPenalty G u := h
  have h2 := h1 fun f => U f + (G' f - G f)
  simp only [linPenalty, add_sub_cancel_left, ip_add_right, Finset.sum_add_distrib] at h2
  have h3 : ∑ f, frobSq (G' f - G f) ≤ 0 := by
    have : ∑ f, frobSq (G' f - G f) = ∑ f, ip (G' f) (G' f - G f) - ∑ f, ip (G f) (G' f - G f) := by
      rw [← Finset.sum_sub_distrib]
      refine Finset.sum_congr rfl fun f _ => ?_
      rw [← ip_self, ip_eq_trace, ip_eq_trace, ip_eq_trace, conjTranspose_sub, Matrix.sub_mul, trace_sub,
        Complex.sub_re]
    linarith
  have h4 : ∑ f, frobSq (G' f - G f) = 0 := le_antisymm h3 (Finset.sum_nonneg fun f _ => frobSq_nonneg _)
  funext f
  have := (Finset.sum_eq_zero_iff_of_nonneg fun f _ => frobSq_nonneg _).mp h4 f (Finset.mem_univ f)
  exact sub_eq_zero.mp (frobSq_eq_zero this)

theorem posDef_two {a b c : ℝ} (ha : 0 < a) (h : 0 < a * c - b ^ 2) :
    (!![(a : ℂ), (b : ℂ); (b : ℂ), (c : ℂ)] : Mat 2 ℂ).PosDef := by
  have e : (!![(a : ℂ), (b : ℂ); (b : ℂ), (c : ℂ)] : Mat 2 ℂ)
      = (!![1, 0; ((b / a : ℝ) : ℂ), 1] : Mat 2 ℂ) * diagonal ![((a : ℝ) : ℂ), (((a * c - b ^ 2) / a : ℝ) : ℂ)]
        * (!![1, 0; ((b / a : ℝ) : ℂ), 1] : Mat 2 ℂ)ᴴ := by
    have hac : (a : ℂ) ≠ 0 := by exact_mod_cast ha.ne'
    have hd : ∀ x y : ℂ, (diagonal ![x, y] : Mat 2 ℂ) = !![x, 0; 0, y] := fun x y => by
      ext i j
      fin_cases i <;> fin_cases j <;> simp
    rw [hd]
    ext i j
    fin_cases i <;> fin_cases j <;>
      simp [Matrix.mul_apply, Fin.sum_univ_two, conjTranspose_apply]
    all_goals field_simp
    ring
  rw [e]
  refine PosDef.mul_mul_conjTranspose_same ?_ ?_
  · refine PosDef.diagonal fun i => ?_
    fin_cases i
    · simpa using ha
    · have : 0 < (a * c - b ^ 2) / a := by positivity
      change (0 : ℂ) < (((a * c - b ^ 2) / a : ℝ) : ℂ)
      exact_mod_cast this
  · rw [vecMul_injective_iff_isUnit]
    refine (isUnit_iff_isUnit_det _).mpr ?_
    simp [det_fin_two]

/-- C50. There is a convex penalty with its exact proximal operator and a state left unchanged by every further iteration
of `ADMMBSS` whose filter is not a stationary point of the loss. -/
theorem C50_fixed_not_stationary : ∃ (G X : Spec Unit 2 2) (s : AdmmState Unit 2 2 1),
    (∀ np : Numpy ℂ, admmStep np 4 1 (fun _ x step f => x f - (step : ℂ) • G f) X s = .ok s) ∧
    (∀ x, IsUniqueProx (fun _ => True) (linPenalty G) dist2 (1 / 4) x
      (fun f => x f - ((1 / 4 : ℝ) : ℂ) • G f)) ∧
    ¬ IsStationary (fun _ : Fin 1 => linPenalty G) X s.W := by
  have hstar2 : (starRingEnd ℂ) 2 = 2 := map_ofNat _ 2
  let G : Spec Unit 2 2 := fun _ => !![1, 6; -1, 1 / 2]
  let X : Spec Unit 2 2 := fun _ => !![1, 0; 0, 2]
  let W : Unit → Mat 2 ℂ := fun _ => !![1, 1; 0, 1]
  let s : AdmmState Unit 2 2 1 := ⟨W, W, fun _ _ => !![1, 2; 0, 2], fun _ => !![-1 / 4, 0; 1 / 4, -1 / 4],
    fun _ _ => !![1 / 4, 3 / 2; -1 / 4, 1 / 8]⟩
  refine ⟨G, X, s, fun np => ?_, fun x => linPenalty_prox G x _, ?_⟩
  · obtain ⟨W', hW', heq⟩ := C50_filter_equation X s
    have hWW : W' = W := by
      funext f
      have h1 := heq f
      have h2 : ((((1 : ℕ) : ℂ) • (X f * (X f)ᴴ) + 1)ᵀ) * W f
          = s.V f - s.Y f + (∑ i, (s.V_tilde i f - s.Y_tilde i f)) * (X f)ᴴ := by
        ext i j
        fin_cases i <;> fin_cases j <;>
          simp [X, W, s, Matrix.mul_apply, Fin.sum_univ_two, vecMul, dotProduct, conjTranspose_apply, hstar2] <;>
            norm_num
      have hu : IsUnit ((normalMat 1 (X f))ᵀ).det := by
        rw [det_transpose]; exact Tr.isUnit_det (normalMat_posDef (X f))
      have h3 : (normalMat 1 (X f))ᵀ * W' f = (normalMat 1 (X f))ᵀ * W f := h1.trans h2.symm
      have h4 := congrArg (((normalMat 1 (X f))ᵀ)⁻¹ * ·) h3
      simpa only [nonsing_inv_mul_cancel_left _ _ hu] using h4
    subst hWW
    have hsv : ((W ()) * (W ())ᴴ - ((1 / 4 : ℝ) : ℂ) • 1).PosDef := by
      have := posDef_two (a := 7 / 4) (b := 1) (c := 3 / 4) (by norm_num) (by norm_num)
      convert this using 1
      ext i j
      fin_cases i <;> fin_cases j <;>
        simp [W, Matrix.mul_apply, Fin.sum_univ_two, vecMul, dotProduct, conjTranspose_apply] <;> norm_num
    have hst : negLogdetStack np (1 / 4) (fun f => ((1 : ℝ) : ℂ) • W f + ((1 - 1 : ℝ) : ℂ) • s.V f + s.Y f)
        = .ok W := by
      refine onBins_ok fun f => ?_
      refine neg_logdet_eq np (by norm_num) ?_ hsv
      ext i j
      fin_cases i <;> fin_cases j <;>
        simp [W, s, Matrix.mul_apply, Fin.sum_univ_two, vecMul, dotProduct, conjTranspose_apply] <;> norm_num
    rw [admmStep]
    simp only [hW', bind, Except.bind, hst]
    congr 1
    simp only [s, AdmmState.mk.injEq, true_and]
    refine ⟨?_, ?_, ?_⟩
    · funext i f
      ext k j
      fin_cases k <;> fin_cases j <;>
        simp [W, X, G, separate, Matrix.mul_apply, Fin.sum_univ_two] <;> norm_num
    · funext f
      ext k j
      fin_cases k <;> fin_cases j <;> simp [W]
    · funext i f
      ext k j
      fin_cases k <;> fin_cases j <;>
        simp [W, X, G, separate, Matrix.mul_apply, Fin.sum_univ_two] <;> norm_num
  · rintro ⟨G', hG', hgrad⟩
    have e := linPenalty_subgrad (hG' 0)
    have h := congrFun (congrFun (hgrad ()) 0) 0
    simp [e, G, X, s, W, Matrix.mul_apply, Fin.sum_univ_two, vecMul, dotProduct, conjTranspose_apply] at h

/-! ## C58: recording the loss -/

/-- The states after `0, 1, …, k` updates, if none of them raises. -/
def IsTrajectory {σ : Type} (update : σ → Except PyErr σ) (s : ℕ → σ) : Prop := ∀ k, update (s k) = .ok (s (k + 1))

theorem proxLoop_trajectory {σ : Type} (loss : σ → ℝ) (update : σ → Except PyErr σ) (s : ℕ → σ)
    (hs : IsTrajectory update s) (k j : ℕ) (l : List ℝ) :
    proxLoop (some true) (fun x => .ok (loss x)) update k (s j) (some l)
      = .ok (s (j + k), some (l ++ (List.range k).map fun i => loss (s (j + 1 + i)))) := by
  induction k generalizing j l with
  | zero => simp [proxLoop]
  | succ k ih =>
    rw [proxLoop, hs j]
    simp only [bind, Except.bind, recordPoint, if_true, Option.map_some]
    rw [ih (j + 1), List.range_succ_eq_map, show j + 1 + k = j + (k + 1) by omega]
    simp only [List.map_cons, List.map_map, List.append_assoc, List.singleton_append, add_zero]
    have : (fun i => loss (s (j + 1 + i))) ∘ Nat.succ = fun i => loss (s (j + 1 + 1 + i)) := by
      funext i
      simp only [Function.comp_apply]
      congr 2
      omega
    rw [this]

theorem proxLoop_none {σ : Type} (attr : Option Bool) (ha : attr ≠ some true) (loss : σ → Except PyErr ℝ)
    (update : σ → Except PyErr σ) (k : ℕ) (s : σ) {r : σ × Option (List ℝ)}
    (h : proxLoop attr loss update k s none = .ok r) : r.2 = none := by
  induction k generalizing s with
  | zero => cases h; rfl
  | succ k ih =>
    rw [proxLoop] at h
    cases hu : update s with
    | error e => rw [hu] at h; simp [bind, Except.bind] at h
    | ok s' =>
      rw [hu] at h
      simp only [bind, Except.bind, recordPoint, if_neg ha] at h
      exact ih s' h

theorem foldl_penalty (ps : List (Spec F n t → ℝ)) (y : Spec F n t) (a : ℝ) :
    ps.foldl (fun p f => p + f y) a = a + (ps.map fun f => f y).sum := by
  induction ps generalizing a with
  | nil => simp
  | cons p ps ih => rw [List.foldl_cons, ih, List.map_cons, List.sum_cons, add_assoc]

/-- C58. `PDSBSS` / `ADMMBSS` (any update whose states carry the filter) with a list of penalties and `record_loss=True`:
the list `loss` has one entry per iteration plus the initial one, entry `k` being
`Σ P(W X) - Σ_f log |det W_f|` for the filter after `k` iterations. -/
theorem C58_recorded [Fintype F] {σ : Type} (filter : σ → F → Mat n ℂ) (ps : List (Spec F n t → ℝ)) (X : Spec F n t)
    (update : σ → Except PyErr σ) (s : ℕ → σ) (hs : IsTrajectory update s) (n_iter : ℕ) :
    proxCall true (some true) (fun x => computeLoss (.list ps) X (filter x)) update n_iter true (s 0)
      = .ok (s n_iter, some ((List.range (n_iter + 1)).map fun k =>
          (ps.map fun P => P fun f => filter (s k) f * X f).sum - ∑ f, Real.log ‖(filter (s k) f).det‖)) := by
  set loss : σ → ℝ := fun x =>
    (ps.map fun P => P fun f => filter x f * X f).sum - ∑ f, Real.log ‖(filter x f).det‖ with hl
  have e : (fun x => computeLoss (.list ps) X (filter x)) = fun x => Except.ok (loss x) := by
    funext x
    simp only [computeLoss, foldl_penalty, zero_add, hl]
    rfl
  rw [e, proxCall]
  simp only [recordLossAttr, bind, Except.bind, recordPoint, Bool.not_true, Bool.false_eq_true, if_true, if_false,
    Option.map_some, List.nil_append]
  rw [proxLoop_trajectory loss update s hs, List.range_succ_eq_map]
  simp only [zero_add, List.map_cons, List.map_map, List.singleton_append]
  congr 4
  refine List.map_congr_left fun i _ => ?_
  simp only [Function.comp_apply]
  rw [add_comm]

/-- C58. With the default `record_loss=None`, no loss is recorded even if a penalty is given: after any successful call
`loss` is `None`. -/
theorem C58_default_not_recorded {σ : Type} (hasPenalty : Bool) (loss : σ → Except PyErr ℝ) (update : σ → Except PyErr σ)
    (n_iter : ℕ) (init : Bool) (s : σ) {r : σ × Option (List ℝ)}
    (h : proxCall hasPenalty none loss update n_iter init s = .ok r) : r.2 = none := by
  have h1 : recordLossAttr hasPenalty none = .ok none := by cases hasPenalty <;> rfl
  rw [proxCall, h1] at h
  simp only [bind, Except.bind, reduceCtorEq, if_false, recordPoint, ite_self] at h
  exact proxLoop_none none (by simp) loss update n_iter s h

/-- C58. The default does run: with updates that succeed the call returns. -/
theorem C58_default_runs {σ : Type} (hasPenalty : Bool) (loss : σ → Except PyErr ℝ) (update : σ → Except PyErr σ)
    (s : ℕ → σ) (hs : IsTrajectory update s) (n_iter : ℕ) (init : Bool) :
    proxCall hasPenalty none loss update n_iter init (s 0) = .ok (s n_iter, none) := by
  have h1 : recordLossAttr hasPenalty none = .ok none := by cases hasPenalty <;> rfl
  rw [proxCall, h1]
  simp only [bind, Except.bind, reduceCtorEq, if_false, recordPoint, ite_self]
  have : ∀ k j, proxLoop none loss update k (s j) none = .ok (s (j + k), none) := by
    intro k
    induction k with
    | zero => intro j; rfl
    | succ k ih =>
      intro j
      rw [proxLoop, hs j]
      simp only [bind, Except.bind, recordPoint, reduceCtorEq, if_false]
      rw [ih (j + 1), show j + 1 + k = j + (k + 1) by omega]
  rw [this, zero_add]

/-- C58. `MaskingPDSBSS` / `MaskingADMMBSS` keep the penalty as a bare function: with `record_loss=True` the call raises
`TypeError` instead of recording its first loss. -/
theorem C58_masking_raises [Fintype F] {σ : Type} (filter : σ → F → Mat n ℂ) (p : Spec F n t → ℝ) (X : Spec F n t)
    (update : σ → Except PyErr σ) (n_iter : ℕ) (s : σ) :
    proxCall true (some true) (fun x => computeLoss (.fn p) X (filter x)) update n_iter true s = .error .type := by
  simp [proxCall, recordLossAttr, recordPoint, computeLoss, bind, Except.bind]

/-- C58. Without a penalty, asking for losses is rejected by the constructor. -/
theorem C58_no_penalty {σ : Type} (loss : σ → Except PyErr ℝ) (update : σ → Except PyErr σ) (n_iter : ℕ) (init : Bool)
    (s : σ) : proxCall false (some true) loss update n_iter init s = .error .assertion := by
  simp [proxCall, recordLossAttr, bind, Except.bind]

/-- Every run of `PDSBSS` with `μ1 > 0` is a trajectory. -/
example (np : Numpy ℂ) (prox : Fin q → Spec F n t → ℝ → Spec F n t) (X : Spec F n t) (s0 : PdsState F n t q) :
    ∃ s, s 0 = s0 ∧ IsTrajectory (pdsStep np 1 1 1 prox X) s := by
  have h : ∀ s, ∃ s', pdsStep np 1 1 1 prox X s = .ok s' := fun s =>
    let ⟨_, _, h⟩ := pdsStep_ok np one_pos 1 1 prox X s
    ⟨_, h⟩
  choose g hg using h
  exact ⟨fun k => g^[k] s0, rfl, fun k => by
    simp only [Function.iterate_succ_apply', hg]⟩

end Verif.ProxBss
