import Mathlib.Analysis.InnerProductSpace.PiL2
import Verif.Lemmas.MatrixIneq
import Verif.Model.Linalg
import Verif.Spec.Prox

/-! # C14: the proximal operators return the minimiser -/

namespace Verif.Linalg

open Matrix
open scoped ComplexOrder

variable {𝕜 : Type} [RCLike 𝕜] {n : ℕ}

private theorem prox_norm {E : Type} [NormedAddCommGroup E] [InnerProductSpace 𝕜 E] {s : ℝ} (hs : 0 < s)
    (x p z : E)
    (hp : p = ((max (1 - s / (if ‖x‖ < s then s else ‖x‖)) 0 : ℝ) : 𝕜) • x) :
    s * ‖p‖ + ‖p - x‖ ^ 2 / 2 + ‖z - p‖ ^ 2 / 2 ≤ s * ‖z‖ + ‖z - x‖ ^ 2 / 2 := by
  have e : ‖z - x‖ ^ 2 = ‖z - p‖ ^ 2 + 2 * RCLike.re (inner 𝕜 (z - p) (p - x)) + ‖p - x‖ ^ 2 := by
    have : z - x = (z - p) + (p - x) := by abel
    rw [this, norm_add_sq (𝕜 := 𝕜)]
  have key : RCLike.re (inner 𝕜 (z - p) (x - p)) ≤ s * ‖z‖ - s * ‖p‖ := by
    split_ifs at hp with hx
    · rw [div_self hs.ne', sub_self, max_self, RCLike.ofReal_zero, zero_smul] at hp
      subst hp
      simp only [sub_zero, norm_zero, mul_zero]
      refine (RCLike.re_le_norm _).trans ((norm_inner_le_norm _ _).trans ?_)
      rw [mul_comm]
      exact mul_le_mul_of_nonneg_right hx.le (norm_nonneg _)
    · have hx' : 0 < ‖x‖ := lt_of_lt_of_le hs (not_lt.mp hx)
      have hc : 0 ≤ 1 - s / ‖x‖ := sub_nonneg.mpr ((div_le_one hx').mpr (not_lt.mp hx))
      rw [max_eq_left hc] at hp
      have hxp : x - p = ((s / ‖x‖ : ℝ) : 𝕜) • x := by
        rw [hp, RCLike.ofReal_sub, sub_smul, RCLike.ofReal_one, one_smul]; abel
      have hpn : ‖p‖ = (1 - s / ‖x‖) * ‖x‖ := by
        rw [hp, norm_smul, RCLike.norm_ofReal, abs_of_nonneg hc]
      have h1 : RCLike.re (inner 𝕜 p (x - p)) = s * ‖p‖ := by
        rw [hxp, hpn, hp, inner_smul_left, inner_smul_right, RCLike.conj_ofReal, RCLike.re_ofReal_mul,
          RCLike.re_ofReal_mul, inner_self_eq_norm_sq]
        field_simp
      have h2 : RCLike.re (inner 𝕜 z (x - p)) ≤ s * ‖z‖ := by
        refine (RCLike.re_le_norm _).trans ((norm_inner_le_norm _ _).trans ?_)
        rw [hxp, norm_smul, RCLike.norm_ofReal, abs_of_nonneg (div_nonneg hs.le hx'.le)]
        apply le_of_eq
        field_simp
      rw [inner_sub_left, map_sub, h1]
      linarith
  have h3 : RCLike.re (inner 𝕜 (z - p) (p - x)) = - RCLike.re (inner 𝕜 (z - p) (x - p)) := by
    rw [← neg_sub x p, inner_neg_right, map_neg]
  rw [e, h3]
  linarith

/-- C14 for `prox.l1`: the unique minimiser of `step * |z| + |z - x|² / 2`, for real and complex
scalars (the function acts elementwise). -/
theorem C14_l1 (s : ℝ) (hs : 0 < s) (x : 𝕜) :
    IsUniqueProx (fun _ : 𝕜 => True) (fun z => ‖z‖) (fun z w => ‖z - w‖ ^ 2) s x (l1 s x) := by
  have h := fun z => prox_norm (𝕜 := 𝕜) hs x (l1 s x) z (by simp only [l1, smul_eq_mul])
  refine ⟨⟨trivial, fun z _ => ?_⟩, fun z _ hz => ?_⟩
  · have := h z
    have := sq_nonneg ‖z - l1 s x‖
    simp only
    linarith
  · have := h z
    have h2 : ‖z - l1 s x‖ ^ 2 ≤ 0 := by
      simp only at hz
      linarith
    have h3 : ‖z - l1 s x‖ = 0 := by
      have := sq_nonneg ‖z - l1 s x‖
      exact pow_eq_zero_iff (two_ne_zero) |>.mp (le_antisymm h2 this)
    exact sub_eq_zero.mp (norm_eq_zero.mp h3)

private theorem rowNorm_eq {m : ℕ} (x : Fin m → 𝕜) : rowNorm x = ‖WithLp.toLp 2 x‖ := by
  rw [rowNorm, EuclideanSpace.norm_eq]

private theorem row_prox {m : ℕ} {s : ℝ} (hs : 0 < s) {I : Type} (x : I → Fin m → 𝕜) (i : I)
    (z : Fin m → 𝕜) :
    s * rowNorm (l21 s x i) + (∑ j, ‖l21 s x i j - x i j‖ ^ 2) / 2 + (∑ j, ‖z j - l21 s x i j‖ ^ 2) / 2
      ≤ s * rowNorm z + (∑ j, ‖z j - x i j‖ ^ 2) / 2 := by
  have h := prox_norm (𝕜 := 𝕜) hs (WithLp.toLp 2 (x i)) (WithLp.toLp 2 (l21 s x i)) (WithLp.toLp 2 z)
    (by
      ext j
      simp only [l21, rowNorm_eq, PiLp.smul_apply, smul_eq_mul])
  simp only [← rowNorm_eq, ← WithLp.toLp_sub] at h
  have e : ∀ v : Fin m → 𝕜, rowNorm v ^ 2 = ∑ j, ‖v j‖ ^ 2 := fun v =>
    Real.sq_sqrt (Finset.sum_nonneg fun _ _ => sq_nonneg _)
  simpa only [e, Pi.sub_apply] using h

/-- C14 for `prox.l21`: the unique minimiser of `step * Σ_rows ‖z_row‖₂ + ‖z - x‖²/2` over arrays of
any number of rows and columns. -/
theorem C14_l21 {I : Type} [Fintype I] {m : ℕ} (s : ℝ) (hs : 0 < s) (x : I → Fin m → 𝕜) :
    IsUniqueProx (fun _ : I → Fin m → 𝕜 => True) (fun z => ∑ i, Real.sqrt (∑ j, ‖z i j‖ ^ 2))
      (fun z w => ∑ i, ∑ j, ‖z i j - w i j‖ ^ 2) s x (l21 s x) := by
  have h : ∀ z : I → Fin m → 𝕜,
      s * (∑ i, rowNorm (l21 s x i)) + (∑ i, ∑ j, ‖l21 s x i j - x i j‖ ^ 2) / 2 +
        (∑ i, ∑ j, ‖z i j - l21 s x i j‖ ^ 2) / 2
      ≤ s * (∑ i, rowNorm (z i)) + (∑ i, ∑ j, ‖z i j - x i j‖ ^ 2) / 2 := by
    intro z
    rw [Finset.mul_sum, Finset.mul_sum, Finset.sum_div, Finset.sum_div, Finset.sum_div,
      ← Finset.sum_add_distrib, ← Finset.sum_add_distrib, ← Finset.sum_add_distrib]
    exact Finset.sum_le_sum fun i _ => row_prox hs x i (z i)
  simp only [rowNorm] at h
  have hnn : ∀ z : I → Fin m → 𝕜, 0 ≤ ∑ i, ∑ j, ‖z i j - l21 s x i j‖ ^ 2 := fun z =>
    Finset.sum_nonneg fun _ _ => Finset.sum_nonneg fun _ _ => sq_nonneg _
  refine ⟨⟨trivial, fun z _ => ?_⟩, fun z _ hz => ?_⟩
  · have := h z
    have := hnn z
    simp only
    linarith
  · have h1 := h z
    simp only at hz
    have h2 : ∑ i, ∑ j, ‖z i j - l21 s x i j‖ ^ 2 = 0 := le_antisymm (by linarith) (hnn z)
    ext i j
    have h3 := (Finset.sum_eq_zero_iff_of_nonneg
      (fun i _ => Finset.sum_nonneg fun j _ => sq_nonneg ‖z i j - l21 s x i j‖)).mp h2 i (Finset.mem_univ _)
    have h4 := (Finset.sum_eq_zero_iff_of_nonneg (fun j _ => sq_nonneg ‖z i j - l21 s x i j‖)).mp h3 j
      (Finset.mem_univ _)
    have h5 : ‖z i j - l21 s x i j‖ = 0 := pow_eq_zero_iff (two_ne_zero) |>.mp h4
    exact sub_eq_zero.mp (norm_eq_zero.mp h5)

theorem negLog_pos {s : ℝ} (hs : 0 < s) (x : ℝ) : 0 < negLogElem s x := by
  have h1 : |x| < Real.sqrt (x ^ 2 + 4 * s) := by
    rw [← Real.sqrt_sq_eq_abs]
    exact Real.sqrt_lt_sqrt (sq_nonneg x) (by linarith)
  have := neg_abs_le x
  simp only [negLogElem]
  linarith

theorem negLog_eq {s : ℝ} (hs : 0 < s) (x : ℝ) :
    negLogElem s x * (negLogElem s x - x) = s := by
  have h : Real.sqrt (x ^ 2 + 4 * s) ^ 2 = x ^ 2 + 4 * s :=
    Real.sq_sqrt (by positivity)
  simp only [negLogElem]
  nlinarith

private theorem negLog_scalar {s : ℝ} (hs : 0 < s) (x z : ℝ) (hz : 0 < z) :
    s * (-Real.log (negLogElem s x)) + (negLogElem s x - x) ^ 2 / 2 + (z - negLogElem s x) ^ 2 / 2
      ≤ s * (-Real.log z) + (z - x) ^ 2 / 2 := by
  have hp := negLog_pos hs x
  have he := negLog_eq hs x
  set p := negLogElem s x
  have h1 : Real.log (z / p) ≤ z / p - 1 := Real.log_le_sub_one_of_pos (div_pos hz hp)
  rw [Real.log_div hz.ne' hp.ne'] at h1
  have h2 : s * (z / p - 1) = (z - p) * (p - x) := by
    rw [← he]; field_simp
  have h3 := mul_le_mul_of_nonneg_left h1 hs.le
  nlinarith

/-- C14 for `prox.neg_log`: on a non-negative array the call succeeds and returns the unique minimiser
of `- step * Σ log z + ‖z - x‖²/2` over positive arrays. -/
theorem C14_neg_log {I : Type} [Fintype I] (s : ℝ) (hs : 0 < s) (x : I → ℝ) (hx : ∀ i, 0 ≤ x i) :
    ∃ p, neg_log s x = .ok p ∧
      IsUniqueProx (fun z : I → ℝ => ∀ i, 0 < z i) (fun z => - ∑ i, Real.log (z i))
        (fun z w => ∑ i, (z i - w i) ^ 2) s x p := by
  refine ⟨_, if_pos hx, ?_⟩
  have h : ∀ z : I → ℝ, (∀ i, 0 < z i) →
      s * (- ∑ i, Real.log (negLogElem s (x i))) + (∑ i, (negLogElem s (x i) - x i) ^ 2) / 2
        + (∑ i, (z i - negLogElem s (x i)) ^ 2) / 2
      ≤ s * (- ∑ i, Real.log (z i)) + (∑ i, (z i - x i) ^ 2) / 2 := by
    intro z hz
    rw [← Finset.sum_neg_distrib, ← Finset.sum_neg_distrib, Finset.mul_sum, Finset.mul_sum,
      Finset.sum_div, Finset.sum_div, Finset.sum_div, ← Finset.sum_add_distrib,
      ← Finset.sum_add_distrib, ← Finset.sum_add_distrib]
    exact Finset.sum_le_sum fun i _ => negLog_scalar hs (x i) (z i) (hz i)
  have hnn : ∀ z : I → ℝ, 0 ≤ ∑ i, (z i - negLogElem s (x i)) ^ 2 := fun z =>
    Finset.sum_nonneg fun _ _ => sq_nonneg _
  refine ⟨⟨fun i => negLog_pos hs (x i), fun z hz => ?_⟩, fun z hz hle => ?_⟩
  · have := h z hz
    have := hnn z
    simp only
    linarith
  · have h1 := h z hz
    simp only at hle
    have h2 : ∑ i, (z i - negLogElem s (x i)) ^ 2 = 0 := le_antisymm (by linarith) (hnn z)
    ext i
    have h3 := (Finset.sum_eq_zero_iff_of_nonneg
      (fun i _ => sq_nonneg (z i - negLogElem s (x i)))).mp h2 i (Finset.mem_univ _)
    have h4 : z i - negLogElem s (x i) = 0 := pow_eq_zero_iff (two_ne_zero) |>.mp h3
    exact sub_eq_zero.mp h4

/-- C14 for `prox.neg_log`: any negative entry makes the call fail with an assertion error. -/
theorem C14_neg_log_rejects {I : Type} (s : ℝ) (x : I → ℝ) (i : I) (hx : x i < 0) :
    neg_log s x = .error .assertion :=
  if_neg fun h => absurd (h i) (not_le.mpr hx)

private theorem negLogdet_diag {s : ℝ} (hs : 0 < s) (x : Fin n → ℝ) (hx : ∀ i, 0 ≤ x i) (Z : Mat n 𝕜)
    (hZ : Z.det ≠ 0) :
    s * (- Real.log ‖(diagonal fun i => ((negLogElem s (x i) : ℝ) : 𝕜)).det‖)
        + frobSq ((diagonal fun i => ((negLogElem s (x i) : ℝ) : 𝕜)) - diagonal fun i => (x i : 𝕜)) / 2
      ≤ s * (- Real.log ‖Z.det‖) + frobSq (Z - diagonal fun i => (x i : 𝕜)) / 2 := by
  set p : Fin n → ℝ := fun i => negLogElem s (x i) with hpdef
  have hp : ∀ i, 0 < p i := fun i => negLog_pos hs (x i)
  have he : ∀ i, p i * (p i - x i) = s := fun i => negLog_eq hs (x i)
  have hps : ∀ i j, s ≤ p i * p j := by
    have h1 : ∀ i, s ≤ p i ^ 2 := fun i => by
      have := mul_nonneg (hp i).le (hx i)
      nlinarith [he i]
    have h2 : ∀ i, Real.sqrt s ≤ p i := fun i => (Real.sqrt_le_left (hp i).le).mpr (h1 i)
    intro i j
    calc s = Real.sqrt s * Real.sqrt s := (Real.mul_self_sqrt hs.le).symm
      _ ≤ p i * p j := mul_le_mul (h2 i) (h2 j) (Real.sqrt_nonneg _) (hp i).le
  set q : Fin n → ℝ := fun i => (Real.sqrt (p i))⁻¹ with hqdef
  have hq : ∀ i, 0 < q i := fun i => inv_pos.mpr (Real.sqrt_pos.mpr (hp i))
  have hq2 : ∀ i, q i * q i * p i = 1 := fun i => by
    rw [hqdef]
    simp only
    rw [← mul_inv, Real.mul_self_sqrt (hp i).le, inv_mul_cancel₀ (hp i).ne']
  set M : Mat n 𝕜 := (diagonal fun i => (q i : 𝕜)) * Z * (diagonal fun i => (q i : 𝕜)) with hM
  have hMij : ∀ i j, M i j = (q i : 𝕜) * Z i j * (q j : 𝕜) := by
    intro i j
    rw [hM, mul_diagonal, diagonal_mul]
  have hdM : M.det = ((∏ i, q i * q i : ℝ) : 𝕜) * Z.det := by
    rw [hM, det_mul, det_mul, det_diagonal, Finset.prod_mul_distrib]
    push_cast
    ring
  have hqq : (0 : ℝ) < ∏ i, q i * q i := Finset.prod_pos fun i _ => mul_pos (hq i) (hq i)
  have hMdet : M.det ≠ 0 := by
    rw [hdM]
    exact mul_ne_zero (by exact_mod_cast hqq.ne') hZ
  have hlogq : Real.log (∏ i, q i * q i) = - ∑ i, Real.log (p i) := by
    rw [Real.log_prod fun i _ => (mul_pos (hq i) (hq i)).ne', ← Finset.sum_neg_distrib]
    refine Finset.sum_congr rfl fun i _ => ?_
    have : q i * q i = (p i)⁻¹ := by
      have := hq2 i
      field_simp [(hp i).ne']
      linarith
    rw [this, Real.log_inv]
  have hlogM : Real.log ‖M.det‖ = Real.log ‖Z.det‖ - ∑ i, Real.log (p i) := by
    rw [hdM, norm_mul, RCLike.norm_ofReal, abs_of_pos hqq,
      Real.log_mul hqq.ne' (norm_ne_zero_iff.mpr hZ), hlogq]
    ring
  have hlogP : Real.log ‖(diagonal fun i => ((p i : ℝ) : 𝕜)).det‖ = ∑ i, Real.log (p i) := by
    rw [det_diagonal, norm_prod, Real.log_prod]
    · refine Finset.sum_congr rfl fun i _ => ?_
      rw [RCLike.norm_ofReal, abs_of_pos (hp i)]
    · intro i _
      rw [RCLike.norm_ofReal]
      exact (abs_pos.mpr (hp i).ne').ne'
  have hb := two_log_norm_det_le M hMdet
  have hc := frobSq_sub_one M
  -- entrywise expansion
  have hexp : frobSq (Z - diagonal fun i => (x i : 𝕜))
      = frobSq ((diagonal fun i => ((p i : ℝ) : 𝕜)) - diagonal fun i => (x i : 𝕜))
        + frobSq (Z - diagonal fun i => ((p i : ℝ) : 𝕜))
        + 2 * ∑ i, (RCLike.re (Z i i) - p i) * (p i - x i) := by
    have h : ∀ i j, ‖(Z - diagonal fun i => (x i : 𝕜)) i j‖ ^ 2
        = ‖((diagonal fun i => ((p i : ℝ) : 𝕜)) - diagonal fun i => (x i : 𝕜)) i j‖ ^ 2
          + ‖(Z - diagonal fun i => ((p i : ℝ) : 𝕜)) i j‖ ^ 2
          + if i = j then 2 * ((RCLike.re (Z i j) - p i) * (p i - x i)) else 0 := by
      intro i j
      by_cases hij : i = j
      · subst hij
        simp only [Matrix.sub_apply, diagonal_apply_eq, if_true]
        simp only [← RCLike.normSq_eq_def', RCLike.normSq_apply]
        simp
        ring
      · simp [hij]
    simp only [frobSq, h, Finset.sum_add_distrib, Finset.sum_ite_eq, Finset.mem_univ, if_true,
      ← Finset.mul_sum]
  have hlow : s * frobSq (M - 1) ≤ frobSq (Z - diagonal fun i => ((p i : ℝ) : 𝕜)) := by
    simp only [frobSq, Finset.mul_sum]
    refine Finset.sum_le_sum fun i _ => Finset.sum_le_sum fun j _ => ?_
    have e1 : (M - 1) i j = (q i : 𝕜) * (Z - diagonal fun i => ((p i : ℝ) : 𝕜)) i j * (q j : 𝕜) := by
      rw [Matrix.sub_apply, Matrix.sub_apply, hMij, mul_sub, sub_mul]
      congr 1
      by_cases hij : i = j
      · subst hij
        rw [one_apply_eq, diagonal_apply_eq, ← RCLike.ofReal_mul, ← RCLike.ofReal_mul,
          mul_right_comm, hq2, RCLike.ofReal_one]
      · simp [hij]
    rw [e1, norm_mul, norm_mul, RCLike.norm_ofReal, RCLike.norm_ofReal, abs_of_pos (hq i),
      abs_of_pos (hq j)]
    have hs1 : s * (q i * q i * (q j * q j)) ≤ 1 := by
      have hqi := hq2 i
      have hqj := hq2 j
      have : s * (q i * q i * (q j * q j)) ≤ (p i * p j) * (q i * q i * (q j * q j)) :=
        mul_le_mul_of_nonneg_right (hps i j) (by have := hq i; have := hq j; positivity)
      have h2 : (p i * p j) * (q i * q i * (q j * q j)) = 1 := by
        calc _ = (q i * q i * p i) * (q j * q j * p j) := by ring
          _ = 1 := by rw [hqi, hqj, one_mul]
      linarith
    nlinarith [sq_nonneg ‖(Z - diagonal fun i => ((p i : ℝ) : 𝕜)) i j‖]
  have htr : ∑ i, (RCLike.re (Z i i) - p i) * (p i - x i) = s * (∑ i, RCLike.re (M i i) - n) := by
    have : ∀ i, (RCLike.re (Z i i) - p i) * (p i - x i) = s * (RCLike.re (M i i) - 1) := by
      intro i
      rw [hMij, mul_right_comm, ← RCLike.ofReal_mul, RCLike.re_ofReal_mul, ← he i]
      have := hq2 i
      linear_combination (-(p i - x i) * RCLike.re (Z i i)) * this
    simp only [this, ← Finset.mul_sum, Finset.sum_sub_distrib, Finset.sum_const, Finset.card_univ,
      Fintype.card_fin, nsmul_eq_mul, mul_one]
  rw [hexp, htr, hlogP]
  have h1 : s * (2 * Real.log ‖M.det‖) ≤ s * (frobSq M - n) := mul_le_mul_of_nonneg_left hb hs.le
  rw [hlogM] at h1
  rw [hc] at hlow
  nlinarith

/-- C14 for `prox.neg_logdet`: the call always succeeds and returns a minimiser of
`- step * log |det Z| + ‖Z - X‖_F²/2` over all invertible matrices. (It need not be the only one: for
`X = 0` every unitary multiple is as good.) -/
theorem C14_neg_logdet (np : Numpy 𝕜) (s : ℝ) (hs : 0 < s) (X : Mat n 𝕜) :
    ∃ P, neg_logdet np s X = .ok P ∧
      IsProx (fun Z : Mat n 𝕜 => Z.det ≠ 0) (fun Z => - Real.log ‖Z.det‖)
        (fun Z W => ∑ i, ∑ j, ‖Z i j - W i j‖ ^ 2) s X P := by
  have hv := np.svd_spec X
  set U := (np.svd X).1
  set x := (np.svd X).2.1
  set V := (np.svd X).2.2
  refine ⟨U * (diagonal fun i => ((negLogElem s (x i) : ℝ) : 𝕜)) * V, ?_, ?_⟩
  · have : neg_log s x = .ok fun i => negLogElem s (x i) := if_pos hv.nonneg
    change (neg_log s x >>= fun Sigma => Except.ok (U * npDiag Sigma * V)) = _
    rw [this]
    simp only [bind, Except.bind, npDiag_eq]
  have hdet : ∀ Y : Mat n 𝕜, ‖(U * Y * V).det‖ = ‖Y.det‖ := fun Y => by
    rw [det_mul, det_mul, norm_mul, norm_mul, norm_det_unitary hv.unitaryU,
      norm_det_unitary hv.unitaryV', one_mul, mul_one]
  have hfrob : ∀ Y : Mat n 𝕜, ∑ i, ∑ j, ‖(U * Y * V) i j - X i j‖ ^ 2
      = frobSq (Y - diagonal fun i => (x i : 𝕜)) := fun Y => by
    have e : U * Y * V - X = U * (Y - diagonal fun i => (x i : 𝕜)) * V := by
      conv_lhs => rw [hv.decomp]
      rw [Matrix.mul_sub, Matrix.sub_mul]
    have h1 : frobSq (U * Y * V - X) = frobSq (Y - diagonal fun i => (x i : 𝕜)) := by
      rw [e, frobSq_mul_unitary hv.unitaryV, frobSq_unitary_mul hv.unitaryU]
    exact h1
  have hpd : (diagonal fun i => ((negLogElem s (x i) : ℝ) : 𝕜)).det ≠ 0 := by
    rw [det_diagonal]
    exact Finset.prod_ne_zero_iff.mpr fun i _ => by exact_mod_cast (negLog_pos hs (x i)).ne'
  refine ⟨?_, fun Z hZ => ?_⟩
  · change (U * _ * V).det ≠ 0
    rw [← norm_ne_zero_iff, hdet]
    exact norm_ne_zero_iff.mpr hpd
  · have hZe : Z = U * (Uᴴ * Z * Vᴴ) * V := by
      have : U * (Uᴴ * Z * Vᴴ) * V = (U * Uᴴ) * Z * (Vᴴ * V) := by simp only [Matrix.mul_assoc]
      rw [this, hv.unitaryU', hv.unitaryV', Matrix.one_mul, Matrix.mul_one]
    have hZ' : (Uᴴ * Z * Vᴴ).det ≠ 0 := by
      rw [← norm_ne_zero_iff, ← hdet, ← hZe]
      exact norm_ne_zero_iff.mpr hZ
    have h := negLogdet_diag (𝕜 := 𝕜) hs x hv.nonneg (Uᴴ * Z * Vᴴ) hZ'
    simp only [hdet, hfrob]
    rw [hZe, hdet, hfrob]
    exact h

/-- Non-trivial instances: `l1` soft-thresholds 3 to 2 with step 1 and kills 1/2. -/
example : l1 1 (3 : ℝ) = 2 ∧ l1 1 (1 / 2 : ℝ) = 0 := by
  constructor <;> simp [l1] <;> norm_num

/-- `neg_log` of 3/2 with step 1 is 2. -/
example : negLogElem 1 (3 / 2) = 2 := by
  have : Real.sqrt ((3 / 2 : ℝ) ^ 2 + 4 * 1) = 5 / 2 := by
    rw [show ((3 / 2 : ℝ) ^ 2 + 4 * 1) = (5 / 2) ^ 2 by norm_num, Real.sqrt_sq (by norm_num)]
  rw [negLogElem, this]; norm_num

/-- `neg_logdet` has something to do: invertible matrices exist and a numpy meeting its contract does. -/
example : ∃ P, neg_logdet (someNumpy (𝕜 := ℂ)) 1 (0 : Mat 2 ℂ) = .ok P ∧ P.det ≠ 0 := by
  obtain ⟨P, h1, h2⟩ := C14_neg_logdet (someNumpy (𝕜 := ℂ)) 1 one_pos (0 : Mat 2 ℂ)
  exact ⟨P, h1, h2.1⟩

end Verif.Linalg
