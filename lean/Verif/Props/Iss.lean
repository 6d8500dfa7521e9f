import Mathlib.LinearAlgebra.Matrix.ToLin
import Verif.Props.Ip2

/-! # C33, C34: iterative source steering (ISS1, ISS2) -/

namespace Verif.Spatial

open Matrix
open scoped ComplexOrder

variable {n t : ℕ}

/-- The weights of one source as a positive definite form on signals. -/
noncomputable def wdiag (phi : Fin t → ℝ) : Mat t ℂ := diagonal fun s => ((phi s / t : ℝ) : ℂ)

theorem wdiag_posDef {phi : Fin t → ℝ} (h : ∀ s, 0 < phi s) : (wdiag phi).PosDef := by
  refine PosDef.diagonal fun s => Complex.zero_lt_real.mpr (div_pos (h s) ?_)
  have : 0 < t := s.pos
  exact_mod_cast this

theorem power_eq (phi : Fin n → Fin t → ℝ) (Y : Matrix (Fin n) (Fin t) ℂ) :
    power phi Y = ∑ k, quad (wdiag (phi k)) (Y k) := by
  unfold power
  refine Finset.sum_congr rfl fun k _ => ?_
  rw [wdiag, quad_diagonal, Finset.sum_div]
  exact Finset.sum_congr rfl fun s _ => by ring

theorem meanT_form (phi : Fin t → ℝ) (x y : Fin t → ℂ) :
    meanT (fun s => (phi s : ℂ) * (x s * star (y s))) = x ⬝ᵥ (wdiag phi *ᵥ star y) := by
  simp only [meanT, wdiag, dotProduct, mulVec_diagonal, Finset.sum_div, Pi.star_apply]
  refine Finset.sum_congr rfl fun s _ => ?_
  push_cast
  ring

theorem meanT_quad (phi : Fin t → ℝ) (y : Fin t → ℂ) :
    meanT (fun s => phi s * ‖y s‖ ^ 2) = quad (wdiag phi) y := by
  rw [wdiag, quad_diagonal, meanT, Finset.sum_div]
  exact Finset.sum_congr rfl fun s _ => by ring

/-- `T` is the identity with column `src` replaced: its determinant. -/
theorem det_one_sub_col (v : Fin n → ℂ) (src : Fin n) :
    (Matrix.of fun i j => (1 : Mat n ℂ) i j - if j = src then v i else 0 : Mat n ℂ).det = 1 - v src := by
  have : (Matrix.of fun i j => (1 : Mat n ℂ) i j - if j = src then v i else 0 : Mat n ℂ)
      = ((1 : Mat n ℂ).updateRow src fun i => (1 : Mat n ℂ) i src - v i)ᵀ := by
    ext i j
    rw [of_apply, transpose_apply]
    by_cases h : j = src
    · rw [h, updateRow_self, if_pos rfl]
    · rw [updateRow_ne h, if_neg h, sub_zero, one_apply, one_apply]
      simp [eq_comm]
  rw [this, det_transpose, det_updateRow_eq (a := Pi.single src 1) (by rw [one_mulVec]) (by simp)]
  simp

/-- One ISS1 step is a multiplication by an invertible matrix that differs from the identity
only in the column of the source, and it is the best such matrix. -/
theorem iss1Row_best (phi : Fin n → Fin t → ℝ) (hphi : ∀ k s, 0 < phi k s) (Y : Matrix (Fin n) (Fin t) ℂ)
    (src : Fin n) (hY : Y src ≠ 0) :
    ∃ T : Mat n ℂ, IsUnit T.det ∧ iss1Row id phi Y src = T * Y ∧
      (∀ i j, j ≠ src → T i j = (1 : Mat n ℂ) i j) ∧
      ∀ S : Mat n ℂ, IsUnit S.det → (∀ i j, j ≠ src → S i j = (1 : Mat n ℂ) i j) →
        power phi (T * Y) - 2 * Real.log ‖T.det‖ ≤ power phi (S * Y) - 2 * Real.log ‖S.det‖ := by
  have hd : ∀ k, 0 < quad (wdiag (phi k)) (Y src) := fun k => quad_pos (wdiag_posDef (hphi k)) hY
  set d := fun k => quad (wdiag (phi k)) (Y src) with hdd
  set num := fun k => Y k ⬝ᵥ (wdiag (phi k) *ᵥ star (Y src)) with hnum
  set v : Fin n → ℂ := fun k =>
    if k = src then 1 - 1 / ((Real.sqrt (d src) : ℝ) : ℂ) else num k / (d k : ℂ) with hv
  have hstep : ∀ k, iss1Row id phi Y src k = Y k - v k • Y src := by
    intro k
    funext s
    simp only [iss1Row, of_apply, meanT_form, meanT_quad, id, Pi.sub_apply, Pi.smul_apply, smul_eq_mul]
    rfl
  set T : Mat n ℂ := Matrix.of fun i j => (1 : Mat n ℂ) i j - if j = src then v i else 0 with hT
  have hTdet : T.det = 1 / ((Real.sqrt (d src) : ℝ) : ℂ) := by
    rw [hT, det_one_sub_col, hv]; simp
  have hs : 0 < Real.sqrt (d src) := Real.sqrt_pos.mpr (hd src)
  have hsc : ((Real.sqrt (d src) : ℝ) : ℂ) ≠ 0 := by exact_mod_cast hs.ne'
  have hTY : iss1Row id phi Y src = T * Y := by
    funext k
    rw [hstep k]
    funext s
    have : (T * Y) k s = ∑ j, ((1 : Mat n ℂ) k j * Y j s - (if j = src then v k else 0) * Y j s) := by
      rw [mul_apply]
      exact Finset.sum_congr rfl fun j _ => by rw [hT, of_apply, sub_mul]
    rw [this, Finset.sum_sub_distrib, ← mul_apply, Matrix.one_mul]
    simp
  refine ⟨T, ?_, hTY, fun i j hj => by rw [hT, of_apply, if_neg hj, sub_zero], fun S hS hSc => ?_⟩
  · rw [hTdet]
    exact isUnit_iff_ne_zero.mpr (one_div_ne_zero hsc)
  · obtain ⟨u, hu⟩ : ∃ u : Fin n → ℂ, u = fun i => (1 : Mat n ℂ) i src - S i src := ⟨_, rfl⟩
    have hSe : S = (Matrix.of fun i j => (1 : Mat n ℂ) i j - if j = src then u i else 0 : Mat n ℂ) := by
      ext i j
      rw [of_apply]
      by_cases h : j = src
      · rw [h, if_pos rfl, hu]; ring
      · rw [if_neg h, sub_zero, hSc i j h]
    have hSdet : S.det = 1 - u src := by rw [hSe, det_one_sub_col]
    have hc : 1 - u src ≠ 0 := by rw [← hSdet]; exact hS.ne_zero
    have hSY : ∀ k, (S * Y) k = Y k - u k • Y src := by
      intro k
      funext s
      have : (S * Y) k s = ∑ j, ((1 : Mat n ℂ) k j * Y j s - (if j = src then u k else 0) * Y j s) := by
        rw [mul_apply]
        exact Finset.sum_congr rfl fun j _ => by rw [hSe, of_apply, sub_mul]
      rw [this, Finset.sum_sub_distrib, ← mul_apply, Matrix.one_mul]
      simp
    rw [← hTY, power_eq, power_eq, hTdet, norm_div, norm_one, Complex.norm_real, Real.norm_eq_abs,
      abs_of_pos hs, one_div, Real.log_inv, Real.log_sqrt (hd src).le, hSdet,
      ← Finset.sum_erase_add _ _ (Finset.mem_univ src),
      ← Finset.sum_erase_add _ _ (Finset.mem_univ src)]
    have h1 : quad (wdiag (phi src)) (iss1Row id phi Y src src) = 1 := by
      have : Y src - v src • Y src = (1 / ((Real.sqrt (d src) : ℝ) : ℂ)) • Y src := by
        funext s
        simp only [hv, if_pos, Pi.sub_apply, Pi.smul_apply, smul_eq_mul]
        ring
      rw [hstep, this, quad_smul, norm_div, norm_one, Complex.norm_real, Real.norm_eq_abs, abs_of_pos hs,
        div_pow, Real.sq_sqrt (hd src).le, one_pow, one_div]
      exact inv_mul_cancel₀ (hd src).ne'
    have h2 : ∑ k ∈ Finset.univ.erase src, quad (wdiag (phi k)) (iss1Row id phi Y src k)
        ≤ ∑ k ∈ Finset.univ.erase src, quad (wdiag (phi k)) ((S * Y) k) := by
      refine Finset.sum_le_sum fun k hk => ?_
      have hk := Finset.ne_of_mem_erase hk
      have hp := wdiag_posDef (hphi k)
      have hvk : v k = num k / (d k : ℂ) := by simp only [hv, if_neg hk]
      have horth : (Y k - v k • Y src) ⬝ᵥ (wdiag (phi k) *ᵥ star ((v k - u k) • Y src)) = 0 := by
        rw [star_smul, mulVec_smul, dotProduct_smul, sub_dotProduct, smul_dotProduct, quad_eq hp.1, hvk]
        have : (d k : ℂ) ≠ 0 := by exact_mod_cast (hd k).ne'
        rw [smul_eq_mul, smul_eq_mul, show ((quad (wdiag (phi k)) (Y src) : ℝ) : ℂ) = (d k : ℂ) from rfl,
          div_mul_cancel₀ _ this, sub_self, mul_zero]
      have h3 := quad_add_of_orth hp.1 horth
      rw [show Y k - v k • Y src + (v k - u k) • Y src = (S * Y) k by rw [hSY, sub_smul]; abel] at h3
      have h4 := quad_nonneg hp.posSemidef ((v k - u k) • Y src)
      rw [hstep]
      linarith
    have h7 : quad (wdiag (phi src)) ((S * Y) src) = ‖1 - u src‖ ^ 2 * d src := by
      rw [hSY, show Y src - u src • Y src = (1 - u src) • Y src by rw [sub_smul, one_smul], quad_smul]
    have hcp : 0 < ‖1 - u src‖ := norm_pos_iff.mpr hc
    have h5 := Real.log_le_sub_one_of_pos (mul_pos (pow_pos hcp 2) (hd src))
    rw [Real.log_mul (pow_pos hcp 2).ne' (hd src).ne', Real.log_pow] at h5
    push_cast at h5
    rw [h1, h7]
    linarith

theorem iss1Row_spec (phi : Fin n → Fin t → ℝ) (hphi : ∀ k s, 0 < phi k s) (Y : Matrix (Fin n) (Fin t) ℂ)
    (src : Fin n) (hY : Y src ≠ 0) :
    ∃ T : Mat n ℂ, IsUnit T.det ∧ iss1Row id phi Y src = T * Y ∧
      power phi (T * Y) - 2 * Real.log ‖T.det‖ ≤ power phi Y := by
  obtain ⟨T, h1, h2, -, h4⟩ := iss1Row_best phi hphi Y src hY
  refine ⟨T, h1, h2, ?_⟩
  have := h4 1 (by simp) fun _ _ _ => rfl
  simpa using this

theorem row_ne_zero {X : Matrix (Fin n) (Fin t) ℂ} (hX : LinearIndependent ℂ X.row) {W : Mat n ℂ}
    (hW : IsUnit W.det) (k : Fin n) : (W * X) k ≠ 0 := by
  intro h
  have hinj := vecMul_injective_iff.mpr hX
  have h1 : W k ᵥ* X = (0 : Fin n → ℂ) ᵥ* X := by
    rw [zero_vecMul]; exact h
  have h2 := hinj h1
  have : W.det = 0 := det_eq_zero_of_row_eq_zero k fun j => congrFun h2 j
  exact hW.ne_zero this

/-- C33: for separated signals `W X` with linearly independent mixtures and positive weights, `update_by_iss1`
returns `W' X` for an invertible `W'` and never increases
`sum_n mean_t(phi_nt |y_nt|^2) - 2 log |det W|`; flooring inactive. -/
theorem C33_iss1 (floor : ℝ → ℝ) (phi : Fin n → Fin t → ℝ) (hphi : ∀ k s, 0 < phi k s)
    (X : Matrix (Fin n) (Fin t) ℂ) (hX : LinearIndependent ℂ X.row) (W : Mat n ℂ) (hW : IsUnit W.det)
    (hfloor : iss1 floor phi (W * X) = iss1 id phi (W * X)) :
    ∃ W', iss1 floor phi (W * X) = W' * X ∧ IsUnit W'.det ∧
      power phi (W' * X) - 2 * Real.log ‖W'.det‖ ≤ power phi (W * X) - 2 * Real.log ‖W.det‖ := by
  obtain ⟨V, h0, hrun, hQ, hP⟩ := foldl_trace (iss1Row id phi)
    (fun Y => ∃ W' : Mat n ℂ, Y = W' * X ∧ IsUnit W'.det ∧
      power phi (W' * X) - 2 * Real.log ‖W'.det‖ ≤ power phi (W * X) - 2 * Real.log ‖W.det‖)
    (fun _ _ _ => True) (List.finRange n) (fun Y src _ hY => by
      obtain ⟨W', rfl, hW', hle⟩ := hY
      obtain ⟨T, hT, hr, hle'⟩ := iss1Row_spec phi hphi (W' * X) src (row_ne_zero hX hW' src)
      refine ⟨⟨T * W', by rw [hr, Matrix.mul_assoc], by rw [det_mul]; exact hT.mul hW', ?_⟩, trivial⟩
      rw [det_mul, norm_mul, Real.log_mul (norm_pos_iff.mpr hT.ne_zero).ne'
        (norm_pos_iff.mpr hW'.ne_zero).ne', Matrix.mul_assoc]
      linarith) (W * X) ⟨W, rfl, hW, le_rfl⟩
  obtain ⟨W', h1, h2, h3⟩ := hP _ le_rfl
  exact ⟨W', by rw [hfloor, iss1, hrun, h1], h2, h3⟩

/-- C33: the sweep visits the sources in order; the step of source `i` multiplies the signals by the best of all
invertible matrices that differ from the identity only in column `i`; flooring inactive. -/
theorem C33_steps_optimal (floor : ℝ → ℝ) (phi : Fin n → Fin t → ℝ) (hphi : ∀ k s, 0 < phi k s)
    (X : Matrix (Fin n) (Fin t) ℂ) (hX : LinearIndependent ℂ X.row) (W : Mat n ℂ) (hW : IsUnit W.det)
    (hfloor : iss1 floor phi (W * X) = iss1 id phi (W * X)) :
    ∃ Z : ℕ → Matrix (Fin n) (Fin t) ℂ, Z 0 = W * X ∧ Z n = iss1 floor phi (W * X) ∧
      ∀ i : Fin n, ∃ T : Mat n ℂ, IsUnit T.det ∧ Z (i + 1) = T * Z i ∧
        (∀ k j, j ≠ i → T k j = (1 : Mat n ℂ) k j) ∧
        ∀ S : Mat n ℂ, IsUnit S.det → (∀ k j, j ≠ i → S k j = (1 : Mat n ℂ) k j) →
          power phi (T * Z i) - 2 * Real.log ‖T.det‖ ≤ power phi (S * Z i) - 2 * Real.log ‖S.det‖ := by
  obtain ⟨V, h0, hrun, hQ, hP⟩ := foldl_trace (iss1Row id phi)
    (fun Y => ∃ W' : Mat n ℂ, Y = W' * X ∧ IsUnit W'.det)
    (fun i Y Y' => ∃ T : Mat n ℂ, IsUnit T.det ∧ Y' = T * Y ∧ (∀ k j, j ≠ i → T k j = (1 : Mat n ℂ) k j) ∧
        ∀ S : Mat n ℂ, IsUnit S.det → (∀ k j, j ≠ i → S k j = (1 : Mat n ℂ) k j) →
          power phi (T * Y) - 2 * Real.log ‖T.det‖ ≤ power phi (S * Y) - 2 * Real.log ‖S.det‖)
    (List.finRange n) (fun Y src _ hY => by
      obtain ⟨W', rfl, hW'⟩ := hY
      obtain ⟨T, hT, hr, hcol, hbest⟩ := iss1Row_best phi hphi (W' * X) src (row_ne_zero hX hW' src)
      exact ⟨⟨T * W', by rw [hr, Matrix.mul_assoc], by rw [det_mul]; exact hT.mul hW'⟩, T, hT, hr, hcol, hbest⟩)
    (W * X) ⟨W, rfl, hW⟩
  rw [List.length_finRange] at hrun
  refine ⟨V, h0, by rw [hfloor, iss1, hrun], fun i => ?_⟩
  have := hQ i (by simp)
  rwa [List.getElem_finRange] at this

/-! ## ISS2 -/

theorem pairCov_eq (phi : Fin t → ℝ) (Ym : Matrix (Fin 2) (Fin t) ℂ) :
    pairCov phi Ym = Ym * wdiag phi * Ymᴴ := by
  ext i j
  show meanT (fun s => (phi s : ℂ) * (Ym i s * star (Ym j s))) = _
  rw [meanT_form, Matrix.mul_assoc, mul_apply]
  simp only [dotProduct, wdiag, mulVec_diagonal, diagonal_mul, conjTranspose_apply, Pi.star_apply]

theorem pairCov_posDef {phi : Fin t → ℝ} (hphi : ∀ s, 0 < phi s) {Ym : Matrix (Fin 2) (Fin t) ℂ}
    (hY : Function.Injective Ym.vecMul) : (pairCov phi Ym).PosDef := by
  rw [pairCov_eq]
  exact (wdiag_posDef hphi).mul_mul_conjTranspose_same hY

/-- One ISS2 step is a multiplication by an invertible matrix that differs from the identity only in the columns
of the pair, and it is the best such matrix. -/
theorem iss2Pair_best (np : Numpy ℂ) (phi : Fin n → Fin t → ℝ) (hphi : ∀ k s, 0 < phi k s)
    (Y : Matrix (Fin n) (Fin t) ℂ) {m k : Fin n} (hmk : m ≠ k)
    (hY : Function.Injective (Matrix.of ![Y m, Y k] : Matrix (Fin 2) (Fin t) ℂ).vecMul) :
    ∃ T : Mat n ℂ, IsUnit T.det ∧ iss2Pair np id phi Y (m, k) = .ok (T * Y) ∧
      (∀ i j, j ≠ m → j ≠ k → T i j = (1 : Mat n ℂ) i j) ∧
      ∀ S : Mat n ℂ, IsUnit S.det → (∀ i j, j ≠ m → j ≠ k → S i j = (1 : Mat n ℂ) i j) →
        power phi (T * Y) - 2 * Real.log ‖T.det‖ ≤ power phi (S * Y) - 2 * Real.log ‖S.det‖ := by
  set Ym : Matrix (Fin 2) (Fin t) ℂ := Matrix.of ![Y m, Y k] with hYm
  have hG : ∀ j, (pairCov (phi j) Ym).PosDef := fun j => pairCov_posDef (hphi j) hY
  have hGu : ∀ j, IsUnit (pairCov (phi j) Ym).det := fun j => (isUnit_iff_isUnit_det _).mp (hG j).isUnit
  set Gm := pairCov (phi m) Ym with hGm
  set Gk := pairCov (phi k) Ym with hGk
  obtain ⟨l, Z, hZ, hmono, hspec⟩ := Linalg.C16_eigh2 np Gm Gk (hG m).1 (hG k) 1 (.inl rfl)
  obtain ⟨hZm, hZk, hZd, hl⟩ := geig_diag (hG m) hspec
  obtain ⟨hNd, hN0, hN1, hNmin⟩ := pair_min (a := 0) (b := 1) (by decide) (hl 0) (hmono (by decide)) hZm hZk
  set N : Mat 2 ℂ := Matrix.of ![(1 / (Real.sqrt (l 0) : ℂ)) • fun j => star (Z j 0),
    fun j => star (Z j 1)] with hN
  have hum : hUh Gm (fun i => Z i 0) = l 0 := hUh_col (hl 0).le (by rw [hZm, diagonal_apply_eq])
  have huk : hUh Gk (fun i => Z i 1) = 1 :=
    hUh_col zero_le_one (by rw [hZk, one_apply_eq, Complex.ofReal_one])
  -- the coefficients of the other rows
  have hinv : ∀ j, ∃ R, Linalg.inv2 (pairCov (phi j) Ym) = .ok R ∧ pairCov (phi j) Ym * R = 1 := by
    intro j
    obtain ⟨R, h1, h2, -⟩ := Linalg.C19_inverse (pairCov (phi j) Ym) (hGu j).ne_zero
    exact ⟨R, h1, h2⟩
  choose R hR1 hR2 using hinv
  set Fv : Fin n → Fin 2 → ℂ := fun j i => Ym i ⬝ᵥ (wdiag (phi j) *ᵥ star (Y j)) with hFv
  set Q : Fin n → Fin 2 → ℂ := fun j => -(R j *ᵥ Fv j) with hQ
  set T : Mat n ℂ := Matrix.of fun i j =>
    if i = m then (if j = m then N 0 0 else if j = k then N 0 1 else 0)
    else if i = k then (if j = m then N 1 0 else if j = k then N 1 1 else 0)
    else if j = m then star (Q i 0) else if j = k then star (Q i 1) else (1 : Mat n ℂ) i j with hT
  have hpick : ∀ (a b : ℂ) (f : Fin n → ℂ) (z : Fin n → ℂ),
      (∑ j, (if j = m then a else if j = k then b else f j) * z j)
        = a * z m + b * z k + ∑ j ∈ (Finset.univ.erase m).erase k, f j * z j := by
    intro a b f z
    rw [← Finset.sum_erase_add _ _ (Finset.mem_univ m),
      ← Finset.sum_erase_add _ _ (Finset.mem_erase.mpr ⟨hmk.symm, Finset.mem_univ k⟩), if_pos rfl,
      if_neg hmk.symm, if_pos rfl]
    have : ∑ j ∈ (Finset.univ.erase m).erase k, (if j = m then a else if j = k then b else f j) * z j
        = ∑ j ∈ (Finset.univ.erase m).erase k, f j * z j := by
      refine Finset.sum_congr rfl fun j hj => ?_
      rw [Finset.mem_erase, Finset.mem_erase] at hj
      rw [if_neg hj.2.1, if_neg hj.1]
    rw [this]
    ring
  have hTm : (T * Y) m = N 0 ᵥ* Ym := by
    funext s
    rw [mul_apply]
    simp only [hT, of_apply, if_pos]
    rw [hpick, Finset.sum_eq_zero (fun j _ => by rw [zero_mul])]
    simp [vecMul, dotProduct, Fin.sum_univ_two, hYm]
  have hTk : (T * Y) k = N 1 ᵥ* Ym := by
    funext s
    rw [mul_apply]
    simp only [hT, of_apply, if_neg hmk.symm, if_pos]
    rw [hpick, Finset.sum_eq_zero (fun j _ => by rw [zero_mul])]
    simp [vecMul, dotProduct, Fin.sum_univ_two, hYm]
  have hTj : ∀ j, j ≠ m → j ≠ k → (T * Y) j = Y j + star (Q j) ᵥ* Ym := by
    intro j hjm hjk
    funext s
    rw [mul_apply]
    simp only [hT, of_apply, if_neg hjm, if_neg hjk]
    rw [hpick]
    have : ∑ i ∈ (Finset.univ.erase m).erase k, (1 : Mat n ℂ) j i * Y i s = Y j s := by
      rw [Finset.sum_eq_single j]
      · rw [one_apply_eq, one_mul]
      · intro i _ hij
        rw [one_apply_ne hij.symm, zero_mul]
      · intro h
        exact absurd (Finset.mem_erase.mpr ⟨hjk, Finset.mem_erase.mpr ⟨hjm, Finset.mem_univ j⟩⟩) h
    rw [this]
    simp only [Pi.add_apply, vecMul, dotProduct, Fin.sum_univ_two, hYm, of_apply, cons_val_zero, cons_val_one,
      Pi.star_apply]
    ring
  have hrun : iss2Pair np id phi Y (m, k) = .ok (T * Y) := by
    have hmain : (![Y m, Y k] : Fin 2 → Fin t → ℂ) = Ym := rfl
    simp only [iss2Pair, hmain, ← hGm, ← hGk, hZ, bind, Except.bind, hR1, meanT_form]
    congr 1
    funext j
    by_cases hjm : j = m
    · rw [hjm, hTm]
      funext s
      simp only [of_apply, if_pos, hum, id, vecMul, dotProduct, Fin.sum_univ_two, hN, cons_val_zero, cons_val_one,
        Pi.smul_apply, smul_eq_mul, star_div₀, Complex.star_def, Complex.conj_ofReal]
      ring
    · by_cases hjk : j = k
      · rw [hjk, hTk]
        funext s
        simp only [of_apply, if_neg hmk.symm, if_pos, huk, id, vecMul, dotProduct, Fin.sum_univ_two, hN,
          cons_val_zero, cons_val_one, Real.sqrt_one, Complex.ofReal_one, div_one]
      · rw [hTj j hjm hjk]
        funext s
        simp only [of_apply, if_neg hjm, if_neg hjk]
        rfl
  have hTdet : T.det = N.det := by
    rw [det_pair_cols T hmk, det_fin_two]
    · simp [hT, hmk, hmk.symm]
    · intro j hj hj'
      simp [hT, hj, hj']
    · intro i j hi hi' hj hj'
      simp [hT, hi, hi', hj, hj']
  refine ⟨T, by rw [hTdet]; exact isUnit_iff_ne_zero.mpr hNd, hrun, fun i j hjm hjk => ?_, fun S hS hSc => ?_⟩
  · simp only [hT, of_apply, if_neg hjm, if_neg hjk]
    by_cases him : i = m
    · rw [if_pos him, him, one_apply_ne (Ne.symm hjm)]
    · by_cases hik : i = k
      · rw [if_neg him, if_pos hik, hik, one_apply_ne (Ne.symm hjk)]
      · rw [if_neg him, if_neg hik]
  have hSrow : ∀ i, S i = fun j => if j = m then S i m else if j = k then S i k else (1 : Mat n ℂ) i j := by
    intro i
    funext j
    by_cases hjm : j = m
    · rw [if_pos hjm, hjm]
    · by_cases hjk : j = k
      · rw [if_neg hjm, if_pos hjk, hjk]
      · rw [if_neg hjm, if_neg hjk, hSc i j hjm hjk]
  have hSY : ∀ i s, (S * Y) i s = S i m * Y m s + S i k * Y k s
      + ∑ j ∈ (Finset.univ.erase m).erase k, (1 : Mat n ℂ) i j * Y j s := by
    intro i s
    rw [mul_apply, hSrow i, hpick]
    simp only [if_pos, if_neg hmk.symm]
  obtain ⟨M, hM⟩ : ∃ M : Mat 2 ℂ, M = !![S m m, S m k; S k m, S k k] := ⟨_, rfl⟩
  have hSm : (S * Y) m = M 0 ᵥ* Ym := by
    funext s
    rw [hSY, Finset.sum_eq_zero]
    · simp [hM, vecMul, dotProduct, Fin.sum_univ_two, hYm]
    · intro j hj
      rw [Finset.mem_erase, Finset.mem_erase] at hj
      rw [one_apply_ne (Ne.symm hj.2.1), zero_mul]
  have hSk : (S * Y) k = M 1 ᵥ* Ym := by
    funext s
    rw [hSY, Finset.sum_eq_zero]
    · simp [hM, vecMul, dotProduct, Fin.sum_univ_two, hYm]
    · intro j hj
      rw [Finset.mem_erase, Finset.mem_erase] at hj
      rw [one_apply_ne (Ne.symm hj.1), zero_mul]
  have hSj : ∀ j, j ≠ m → j ≠ k → (S * Y) j = Y j + ![S j m, S j k] ᵥ* Ym := by
    intro j hjm hjk
    funext s
    rw [hSY, Finset.sum_eq_single j]
    · rw [one_apply_eq, one_mul]
      simp only [Pi.add_apply, vecMul, dotProduct, Fin.sum_univ_two, hYm, of_apply, cons_val_zero, cons_val_one]
      ring
    · intro i _ hij
      rw [one_apply_ne hij.symm, zero_mul]
    · intro h
      exact absurd (Finset.mem_erase.mpr ⟨hjk, Finset.mem_erase.mpr ⟨hjm, Finset.mem_univ j⟩⟩) h
  have hSdet : S.det = M.det := by
    rw [det_pair_cols S hmk, det_fin_two]
    · simp [hM]
    · intro j hj hj'
      rw [hSc m j hj hj', hSc k j hj hj', one_apply_ne (Ne.symm hj), one_apply_ne (Ne.symm hj')]
      exact ⟨rfl, rfl⟩
    · intro i j _ _ hj hj'
      exact hSc i j hj hj'
  have hcov : ∀ (j : Fin n) (p : Fin 2 → ℂ), quad (wdiag (phi j)) (p ᵥ* Ym) = quad (pairCov (phi j) Ym) p := by
    intro j p
    rw [quad_vecMul, pairCov_eq]
  have hother : ∀ j, j ≠ m → j ≠ k → quad (wdiag (phi j)) ((T * Y) j) ≤ quad (wdiag (phi j)) ((S * Y) j) := by
    intro j hjm hjk
    have hp := wdiag_posDef (hphi j)
    rw [hTj j hjm hjk, hSj j hjm hjk]
    obtain ⟨q, hq⟩ : ∃ q : Fin 2 → ℂ, q = ![S j m, S j k] := ⟨_, rfl⟩
    rw [← hq]
    -- the new row is orthogonal to the pair
    have hzero : Ym *ᵥ (wdiag (phi j) *ᵥ star (Y j + star (Q j) ᵥ* Ym)) = 0 := by
      have e1 : Ym *ᵥ (wdiag (phi j) *ᵥ star (Y j)) = Fv j := rfl
      have e2 : Ym *ᵥ (wdiag (phi j) *ᵥ star (star (Q j) ᵥ* Ym)) = -Fv j := by
        rw [star_vecMul, star_star, mulVec_mulVec, mulVec_mulVec, ← pairCov_eq, hQ]
        simp only [mulVec_neg, mulVec_mulVec, hR2, one_mulVec]
      rw [star_add, mulVec_add, mulVec_add, e1, e2, add_neg_cancel]
    have horth : ((q - star (Q j)) ᵥ* Ym) ⬝ᵥ (wdiag (phi j) *ᵥ star (Y j + star (Q j) ᵥ* Ym)) = 0 := by
      rw [← dotProduct_mulVec, hzero, dotProduct_zero]
    have h1 := quad_add_of_orth hp.1 horth
    rw [show (q - star (Q j)) ᵥ* Ym + (Y j + star (Q j) ᵥ* Ym) = Y j + q ᵥ* Ym by rw [sub_vecMul]; abel] at h1
    have h2 := quad_nonneg hp.posSemidef ((q - star (Q j)) ᵥ* Ym)
    linarith
  have hsum : ∀ Y' : Matrix (Fin n) (Fin t) ℂ, power phi Y'
      = (∑ j ∈ (Finset.univ.erase m).erase k, quad (wdiag (phi j)) (Y' j))
        + (quad (wdiag (phi m)) (Y' m) + quad (wdiag (phi k)) (Y' k)) := by
    intro Y'
    rw [power_eq, ← Finset.sum_erase_add _ _ (Finset.mem_univ m),
      ← Finset.sum_erase_add _ _ (Finset.mem_erase.mpr ⟨hmk.symm, Finset.mem_univ k⟩)]
    ring
  have h1 : ∑ j ∈ (Finset.univ.erase m).erase k, quad (wdiag (phi j)) ((T * Y) j)
      ≤ ∑ j ∈ (Finset.univ.erase m).erase k, quad (wdiag (phi j)) ((S * Y) j) := by
    refine Finset.sum_le_sum fun j hj => ?_
    rw [Finset.mem_erase, Finset.mem_erase] at hj
    exact hother j hj.2.1 hj.1
  have h2 := hNmin M (by rw [← hSdet]; exact hS.ne_zero)
  rw [hsum (T * Y), hsum (S * Y), hTdet, hTm, hTk, hSm, hSk, hSdet, hcov, hcov, hcov, hcov, hN0, hN1]
  linarith

theorem iss2Pair_spec (np : Numpy ℂ) (phi : Fin n → Fin t → ℝ) (hphi : ∀ k s, 0 < phi k s)
    (Y : Matrix (Fin n) (Fin t) ℂ) {m k : Fin n} (hmk : m ≠ k)
    (hY : Function.Injective (Matrix.of ![Y m, Y k] : Matrix (Fin 2) (Fin t) ℂ).vecMul) :
    ∃ T : Mat n ℂ, IsUnit T.det ∧ iss2Pair np id phi Y (m, k) = .ok (T * Y) ∧
      power phi (T * Y) - 2 * Real.log ‖T.det‖ ≤ power phi Y := by
  obtain ⟨T, h1, h2, -, h4⟩ := iss2Pair_best np phi hphi Y hmk hY
  refine ⟨T, h1, h2, ?_⟩
  have := h4 1 (by simp) fun _ _ _ _ => rfl
  simpa using this

theorem pair_rows_injective {X : Matrix (Fin n) (Fin t) ℂ} (hX : LinearIndependent ℂ X.row) {W : Mat n ℂ}
    (hW : IsUnit W.det) {m k : Fin n} (hmk : m ≠ k) :
    Function.Injective (Matrix.of ![(W * X) m, (W * X) k] : Matrix (Fin 2) (Fin t) ℂ).vecMul := by
  have hinj := vecMul_injective_iff.mpr hX
  have hW' : Function.Injective W.vecMul :=
    vecMul_injective_iff_isUnit.mpr ((isUnit_iff_isUnit_det W).mpr hW)
  have hform : ∀ p : Fin 2 → ℂ, p ᵥ* (Matrix.of ![(W * X) m, (W * X) k] : Matrix (Fin 2) (Fin t) ℂ)
      = ((Pi.single m (p 0) + Pi.single k (p 1)) ᵥ* W) ᵥ* X := by
    intro p
    rw [vecMul_vecMul, add_vecMul]
    funext s
    simp [vecMul, dotProduct, Fin.sum_univ_two]
  intro p q h
  have h1 : (Pi.single m (p 0) + Pi.single k (p 1) : Fin n → ℂ) = Pi.single m (q 0) + Pi.single k (q 1) := by
    refine hW' (hinj ?_)
    have h' : p ᵥ* (Matrix.of ![(W * X) m, (W * X) k] : Matrix (Fin 2) (Fin t) ℂ) = q ᵥ* _ := h
    rwa [hform, hform] at h'
  funext j
  fin_cases j
  · simpa [hmk] using congrFun h1 m
  · simpa [hmk.symm] using congrFun h1 k

/-- C34: for separated signals `W X` with linearly independent mixtures and positive weights, `update_by_iss2`
with any schedule of pairs of different sources, ascending or descending, returns `W' X` for an invertible `W'`
and never increases the objective; flooring inactive. -/
theorem C34_iss2 (np : Numpy ℂ) (floor : ℝ → ℝ) (pairs : List (Fin n × Fin n))
    (hpairs : ∀ p ∈ pairs, p.1 ≠ p.2) (phi : Fin n → Fin t → ℝ) (hphi : ∀ k s, 0 < phi k s)
    (X : Matrix (Fin n) (Fin t) ℂ) (hX : LinearIndependent ℂ X.row) (W : Mat n ℂ) (hW : IsUnit W.det)
    (hfloor : iss2 np floor pairs phi (W * X) = iss2 np id pairs phi (W * X)) :
    ∃ W' : Mat n ℂ, iss2 np floor pairs phi (W * X) = .ok (W' * X) ∧ IsUnit W'.det ∧
      power phi (W' * X) - 2 * Real.log ‖W'.det‖ ≤ power phi (W * X) - 2 * Real.log ‖W.det‖ := by
  obtain ⟨V, h0, hrun, hQ, hP⟩ := foldlM_trace (iss2Pair np id phi)
    (fun Y => ∃ W' : Mat n ℂ, Y = W' * X ∧ IsUnit W'.det ∧
      power phi (W' * X) - 2 * Real.log ‖W'.det‖ ≤ power phi (W * X) - 2 * Real.log ‖W.det‖)
    (fun _ _ _ => True) pairs (fun Y p hp hY => by
      obtain ⟨W', rfl, hW', hle⟩ := hY
      obtain ⟨T, hT, hr, hle'⟩ := iss2Pair_spec np phi hphi (W' * X) (hpairs p hp)
        (pair_rows_injective hX hW' (hpairs p hp))
      refine ⟨_, hr, ⟨T * W', by rw [Matrix.mul_assoc], by rw [det_mul]; exact hT.mul hW', ?_⟩, trivial⟩
      rw [det_mul, norm_mul, Real.log_mul (norm_pos_iff.mpr hT.ne_zero).ne'
        (norm_pos_iff.mpr hW'.ne_zero).ne', Matrix.mul_assoc]
      linarith) (W * X) ⟨W, rfl, hW, le_rfl⟩
  obtain ⟨W', h1, h2, h3⟩ := hP _ le_rfl
  exact ⟨W', by rw [hfloor, iss2, hrun, h1], h2, h3⟩

/-- C34: the pairs are visited in order; the step of a pair multiplies the signals by the best of all invertible
matrices that differ from the identity only in the two columns of the pair; flooring inactive. -/
theorem C34_steps_optimal (np : Numpy ℂ) (floor : ℝ → ℝ) (pairs : List (Fin n × Fin n))
    (hpairs : ∀ p ∈ pairs, p.1 ≠ p.2) (phi : Fin n → Fin t → ℝ) (hphi : ∀ k s, 0 < phi k s)
    (X : Matrix (Fin n) (Fin t) ℂ) (hX : LinearIndependent ℂ X.row) (W : Mat n ℂ) (hW : IsUnit W.det)
    (hfloor : iss2 np floor pairs phi (W * X) = iss2 np id pairs phi (W * X)) :
    ∃ Z : ℕ → Matrix (Fin n) (Fin t) ℂ, Z 0 = W * X ∧ iss2 np floor pairs phi (W * X) = .ok (Z pairs.length) ∧
      ∀ i (h : i < pairs.length), ∃ T : Mat n ℂ, IsUnit T.det ∧ Z (i + 1) = T * Z i ∧
        (∀ k j, j ≠ pairs[i].1 → j ≠ pairs[i].2 → T k j = (1 : Mat n ℂ) k j) ∧
        ∀ S : Mat n ℂ, IsUnit S.det → (∀ k j, j ≠ pairs[i].1 → j ≠ pairs[i].2 → S k j = (1 : Mat n ℂ) k j) →
          power phi (T * Z i) - 2 * Real.log ‖T.det‖ ≤ power phi (S * Z i) - 2 * Real.log ‖S.det‖ := by
  obtain ⟨V, h0, hrun, hQ, hP⟩ := foldlM_trace (iss2Pair np id phi)
    (fun Y => ∃ W' : Mat n ℂ, Y = W' * X ∧ IsUnit W'.det)
    (fun p Y Y' => ∃ T : Mat n ℂ, IsUnit T.det ∧ Y' = T * Y ∧
        (∀ k j, j ≠ p.1 → j ≠ p.2 → T k j = (1 : Mat n ℂ) k j) ∧
        ∀ S : Mat n ℂ, IsUnit S.det → (∀ k j, j ≠ p.1 → j ≠ p.2 → S k j = (1 : Mat n ℂ) k j) →
          power phi (T * Y) - 2 * Real.log ‖T.det‖ ≤ power phi (S * Y) - 2 * Real.log ‖S.det‖)
    pairs (fun Y p hp hY => by
      obtain ⟨W', rfl, hW'⟩ := hY
      obtain ⟨T, hT, hr, hcol, hbest⟩ := iss2Pair_best np phi hphi (W' * X) (hpairs p hp)
        (pair_rows_injective hX hW' (hpairs p hp))
      exact ⟨_, hr, ⟨T * W', by rw [Matrix.mul_assoc], by rw [det_mul]; exact hT.mul hW'⟩, T, hT, rfl, hcol, hbest⟩)
    (W * X) ⟨W, rfl, hW⟩
  exact ⟨V, h0, by rw [hfloor, iss2, hrun], hQ⟩

/-- Two independent mixtures, unequal weights and a non-trivial filter meet the hypotheses of C33 and C34. -/
example : LinearIndependent ℂ (!![1, 0, 2; 0, 1, 1] : Matrix (Fin 2) (Fin 3) ℂ).row ∧
    IsUnit (!![1, 2; 3, 4] : Mat 2 ℂ).det ∧ (∀ (k : Fin 2) (s : Fin 3), (0 : ℝ) < (k : ℕ) + (s : ℕ) + 1) ∧
    ∀ p ∈ [((0 : Fin 2), (1 : Fin 2)), (1, 0)], p.1 ≠ p.2 := by
  refine ⟨?_, ?_, fun k s => by positivity, by decide⟩
  · rw [Fintype.linearIndependent_iff]
    intro g hg
    have h0 := congrFun hg 0
    have h1 := congrFun hg 1
    simp [Fin.sum_univ_two] at h0 h1
    intro i
    fin_cases i
    · exact h0
    · exact h1
  · rw [det_fin_two]; norm_num

end Verif.Spatial
