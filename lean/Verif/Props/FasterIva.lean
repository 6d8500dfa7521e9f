import Verif.Props.FastFixed

/-! # C75: FasterIVA picks the largest eigenvalue, and this can undo a separation -/

set_option linter.unusedSectionVars false

namespace Verif.Fast

open Matrix Spatial Scale
open scoped ComplexOrder

variable {n t : ℕ} {F : Type} [Fintype F]

private theorem quad_eq (phi : Fin n → Fin t → ℝ) (Z : Spec F n t) (f : F) (k : Fin n) (v : Fin n → ℂ) :
    star (star v) ⬝ᵥ (Iva.wcov phi Z f k *ᵥ star v) = ((meanT fun s => phi k s * ‖∑ c, v c * Z f c s‖ ^ 2 : ℝ) : ℂ) := by
  have h : ∀ s, ((phi k s * ‖∑ c, v c * Z f c s‖ ^ 2 : ℝ) : ℂ)
      = ∑ i, ∑ j, v i * ((phi k s : ℂ) * (Z f i s * star (Z f j s)) * star (v j)) := by
    intro s
    push_cast
    rw [← Complex.ofReal_pow, ← Complex.normSq_eq_norm_sq, ← Complex.mul_conj, map_sum, Finset.sum_mul_sum, Finset.mul_sum]
    refine Finset.sum_congr rfl fun i _ => ?_
    rw [Finset.mul_sum]
    refine Finset.sum_congr rfl fun j _ => ?_
    rw [map_mul, Complex.star_def]
    ring
  have e : ((meanT fun s => phi k s * ‖∑ c, v c * Z f c s‖ ^ 2 : ℝ) : ℂ)
      = (∑ s, ((phi k s * ‖∑ c, v c * Z f c s‖ ^ 2 : ℝ) : ℂ)) / (t : ℂ) := by simp [meanT]
  rw [e, Finset.sum_congr rfl fun s _ => h s, star_star, Finset.sum_comm, Finset.sum_div]
  refine Finset.sum_congr rfl fun i _ => ?_
  rw [Finset.sum_comm, Finset.sum_div, mulVec, dotProduct, Finset.mul_sum]
  refine Finset.sum_congr rfl fun j _ => ?_
  rw [Iva.wcov, of_apply, meanT, div_mul_eq_mul_div, Finset.sum_mul, mul_div_assoc', Finset.mul_sum]
  rfl

private theorem wcov_hermitian (phi : Fin n → Fin t → ℝ) (Z : Spec F n t) (f : F) (k : Fin n) :
    (Iva.wcov phi Z f k).IsHermitian := by
  ext i j
  simp only [conjTranspose_apply, Iva.wcov, of_apply, meanT, star_div₀, star_sum, star_natCast, star_mul', star_star]
  congr 1
  refine Finset.sum_congr rfl fun s _ => ?_
  rw [show star ((phi k s : ℝ) : ℂ) = phi k s from Complex.conj_ofReal _]
  ring

/-- C75: before the orthonormalisation FasterIVA gives every output the unit-norm filter with the *largest* power under
the weights of that output. -/
theorem C75_fasteriva_maximises (np : Numpy ℂ) (floor d : ℝ → ℝ) (Z : Spec F (n + 1) t) (W : F → Mat (n + 1) ℂ) (f : F)
    (k : Fin (n + 1)) :
    let phi := fun k s => d (Iva.binNorm (separate Z W) k s) / floor (2 * Iva.binNorm (separate Z W) k s)
    let w := fasterIvaFilter np floor d Z W f k
    ∑ c, ‖w c‖ ^ 2 = 1 ∧ ∀ v : Fin (n + 1) → ℂ, ∑ c, ‖v c‖ ^ 2 = 1 →
      (meanT fun s => phi k s * ‖∑ c, v c * Z f c s‖ ^ 2) ≤ meanT fun s => phi k s * ‖∑ c, w c * Z f c s‖ ^ 2 := by
  intro phi w
  obtain ⟨U, hU⟩ : ∃ U, U = Iva.wcov phi Z f k := ⟨_, rfl⟩
  have hs := np.eigh_spec U (by rw [hU]; exact wcov_hermitian phi Z f k)
  obtain ⟨P, hP⟩ : ∃ P, P = (np.eigh U).2 := ⟨_, rfl⟩
  obtain ⟨lam, hlam⟩ : ∃ lam, lam = (np.eigh U).1 := ⟨_, rfl⟩
  have hw : star w = fun c => P c (Fin.last n) := by
    funext c
    simp only [w, fasterIvaFilter, of_apply, Pi.star_apply, star_star, hP, hU, phi]
  rw [← hP, ← hlam] at hs
  have hPP : P * Pᴴ = 1 := mul_eq_one_comm.mp hs.unitary
  have nrm : ∀ x : Fin (n + 1) → ℂ, star x ⬝ᵥ x = ((∑ c, ‖x c‖ ^ 2 : ℝ) : ℂ) := fun x => by
    simp only [dotProduct, Pi.star_apply]
    push_cast
    refine Finset.sum_congr rfl fun c _ => ?_
    rw [mul_comm, Complex.star_def, Complex.mul_conj, Complex.normSq_eq_norm_sq]
    push_cast
    rfl
  have hquad : ∀ x, star x ⬝ᵥ (U *ᵥ x) = ((∑ i, lam i * ‖(Pᴴ *ᵥ x) i‖ ^ 2 : ℝ) : ℂ) := by
    intro x
    rw [hs.decomp, ← mulVec_mulVec, ← mulVec_mulVec, dotProduct_mulVec, show star x ᵥ* P = star (Pᴴ *ᵥ x) by rw [star_mulVec, conjTranspose_conjTranspose]]
    simp only [dotProduct, Pi.star_apply, mulVec_diagonal]
    push_cast
    refine Finset.sum_congr rfl fun c _ => ?_
    rw [mul_left_comm, mul_comm (star _), Complex.star_def, Complex.mul_conj, Complex.normSq_eq_norm_sq]
    push_cast
    rfl
  have hiso : ∀ x, ∑ i, ‖(Pᴴ *ᵥ x) i‖ ^ 2 = ∑ i, ‖x i‖ ^ 2 := by
    intro x
    have : star (Pᴴ *ᵥ x) ⬝ᵥ (Pᴴ *ᵥ x) = star x ⬝ᵥ x := by
      rw [star_mulVec, conjTranspose_conjTranspose, ← dotProduct_mulVec, mulVec_mulVec, hPP, one_mulVec]
    rw [nrm, nrm] at this
    exact_mod_cast this
  have hcol : Pᴴ *ᵥ (fun c => P c (Fin.last n)) = Pi.single (Fin.last n) 1 := by
    funext i
    have := congrFun (congrFun hs.unitary i) (Fin.last n)
    rw [mul_apply, one_apply] at this
    rw [Pi.single_apply]
    exact this
  have star_norm : ∀ v : Fin (n + 1) → ℂ, ∑ c, ‖(star v) c‖ ^ 2 = ∑ c, ‖v c‖ ^ 2 := fun v => by simp
  have hq : ∀ v, (meanT fun s => phi k s * ‖∑ c, v c * Z f c s‖ ^ 2) = ∑ i, lam i * ‖(Pᴴ *ᵥ star v) i‖ ^ 2 := by
    intro v
    have := quad_eq phi Z f k v
    rw [← hU, hquad] at this
    exact_mod_cast this.symm
  constructor
  · rw [← star_norm, ← hiso, hw, hcol]
    rw [Finset.sum_eq_single (Fin.last n)] <;> simp +contextual
  · intro v hv
    rw [hq, hq, hw, hcol]
    have e : ∑ i, lam i * ‖(Pi.single (Fin.last n) 1 : Fin (n + 1) → ℂ) i‖ ^ 2 = lam (Fin.last n) := by
      rw [Finset.sum_eq_single (Fin.last n)] <;> simp +contextual
    rw [e]
    calc _ ≤ ∑ i, lam (Fin.last n) * ‖(Pᴴ *ᵥ star v) i‖ ^ 2 :=
          Finset.sum_le_sum fun i _ => mul_le_mul_of_nonneg_right (hs.sorted (Fin.le_last i)) (sq_nonneg _)
      _ = lam (Fin.last n) := by rw [← Finset.mul_sum, hiso, star_norm, hv, mul_one]

/-! ## Three separated signals -/

/-- Three signals in twelve frames with the magnitudes `(1,5,7)/5`, `(7,5,1)/5`, `(7,1,5)/5` and all combinations of
the signs of the second and the third one. -/
noncomputable def tri : Matrix (Fin 3) (Fin 12) ℝ :=
  !![1/5, 1/5, 1/5, 1/5, 1, 1, 1, 1, 7/5, 7/5, 7/5, 7/5;
     7/5, 7/5, -7/5, -7/5, 1, 1, -1, -1, 1/5, 1/5, -1/5, -1/5;
     7/5, -7/5, 7/5, -7/5, 1/5, -1/5, 1/5, -1/5, 1, -1, 1, -1]

noncomputable def triC : Spec Unit 3 12 := fun _ => Matrix.of fun c s => (tri c s : ℂ)

private noncomputable def top : Fin 3 → Fin 3 := ![1, 0, 0]

private theorem tri_moment (k : Fin 3) : ∃ u : Fin 3 → ℝ,
    (∀ c c', ∑ s, |tri k s|⁻¹ * (tri c s * tri c' s) = if c = c' then u c else 0) ∧ ∀ c, c ≠ top k → u c < u (top k) := by
  fin_cases k
  · refine ⟨![52/5, 4*(49+5+1/7)/5, 4*(49+1/5+25/7)/5], fun c c' => ?_, fun c hc => ?_⟩
    · fin_cases c <;> fin_cases c' <;> simp [tri, Fin.sum_univ_succ, abs_of_pos] <;> norm_num
    · fin_cases c <;> simp [top] at hc ⊢ <;> norm_num
  · refine ⟨![4*(1/7+5+49)/5, 52/5, 4*(7+1/5+25)/5], fun c c' => ?_, fun c hc => ?_⟩
    · fin_cases c <;> fin_cases c' <;> simp [tri, Fin.sum_univ_succ, abs_of_pos, neg_div] <;> norm_num
    · fin_cases c <;> simp [top] at hc ⊢ <;> norm_num
  · refine ⟨![4*(1/7+25+49/5)/5, 4*(7+25+1/5)/5, 52/5], fun c c' => ?_, fun c hc => ?_⟩
    · fin_cases c <;> fin_cases c' <;> simp [tri, Fin.sum_univ_succ, abs_of_pos, neg_div] <;> norm_num
    · fin_cases c <;> simp [top] at hc ⊢ <;> norm_num

private theorem tri_norm (k : Fin 3) (s : Fin 12) : Iva.binNorm (separate triC fun _ => 1) k s = |tri k s| := by
  rw [show separate triC (fun _ => 1) = triC from funext fun f => Matrix.one_mul _]
  simp [Iva.binNorm, triC, Real.sqrt_sq_eq_abs]

private theorem tri_large (k : Fin 3) (s : Fin 12) : 1 / 5 ≤ |tri k s| := by
  fin_cases k <;> fin_cases s <;> simp [tri, abs_of_pos, neg_div] <;> norm_num

/-- The rows before the orthonormalisation: output 0 gets signal 1, outputs 1 and 2 both get signal 0. -/
private theorem tri_rows (np : Numpy ℂ) (floor : ℝ → ℝ) (hfl : ∀ x, 2 / 5 ≤ x → floor x = x) (k : Fin 3) :
    ∃ a : ℂ, ‖a‖ = 1 ∧ ∀ c, fasterIvaFilter np floor (fun _ => 2) triC (fun _ => 1) () k c = if c = top k then a else 0 := by
  obtain ⟨u, hu, hlt⟩ := tri_moment k
  obtain ⟨h1, h2⟩ := C75_fasteriva_maximises np floor (fun _ => 2) triC (fun _ => 1) () k
  obtain ⟨w, hw⟩ : ∃ w, w = fasterIvaFilter np floor (fun _ => 2) triC (fun _ => 1) () k := ⟨_, rfl⟩
  simp only [← hw] at h1 h2 ⊢
  have hphi : ∀ s, 2 / floor (2 * Iva.binNorm (separate triC fun _ => 1) k s) = |tri k s|⁻¹ := fun s => by
    rw [tri_norm, hfl _ (by linarith [tri_large k s])]
    have h0 : |tri k s| ≠ 0 := (lt_of_lt_of_le (show (0 : ℝ) < 1 / 5 by norm_num) (tri_large k s)).ne'
    field_simp
  have hq : ∀ v : Fin 3 → ℂ, (meanT fun s => 2 / floor (2 * Iva.binNorm (separate triC fun _ => 1) k s) *
      ‖∑ c, v c * triC () c s‖ ^ 2) = (∑ c, u c * ‖v c‖ ^ 2) / 12 := by
    intro v
    have e : ∀ s, ‖∑ c, v c * triC () c s‖ ^ 2 = ∑ c, ∑ c', (tri c s * tri c' s) * ((v c).re * (v c').re + (v c).im * (v c').im) := by
      intro s
      rw [← Complex.normSq_eq_norm_sq, Complex.normSq_apply]
      simp only [Complex.re_sum, Complex.im_sum, triC, of_apply, Complex.re_mul_ofReal, Complex.im_mul_ofReal]
      rw [Finset.sum_mul_sum, Finset.sum_mul_sum, ← Finset.sum_add_distrib]
      refine Finset.sum_congr rfl fun c _ => ?_
      rw [← Finset.sum_add_distrib]
      exact Finset.sum_congr rfl fun c' _ => by ring
    simp only [meanT, hphi, e]
    rw [show ((12 : ℕ) : ℝ) = 12 by norm_num]
    congr 1
    calc _ = ∑ c, ∑ c', (∑ s, |tri k s|⁻¹ * (tri c s * tri c' s)) * ((v c).re * (v c').re + (v c).im * (v c').im) := by
          simp only [Finset.mul_sum, Finset.sum_mul]
          rw [Finset.sum_comm]
          refine Finset.sum_congr rfl fun c _ => ?_
          rw [Finset.sum_comm]
          exact Finset.sum_congr rfl fun c' _ => Finset.sum_congr rfl fun s _ => by ring
      _ = _ := by
          refine Finset.sum_congr rfl fun c _ => ?_
          simp only [hu]
          rw [Finset.sum_eq_single c (fun c' _ h => by rw [if_neg h.symm, zero_mul]) (by simp), if_pos rfl,
            ← Complex.normSq_eq_norm_sq, Complex.normSq_apply]
  have h3 := h2 (Pi.single (top k) 1) (by
    rw [Finset.sum_eq_single (top k)] <;> simp +contextual)
  rw [hq, hq] at h3
  have h4 : ∑ c, u c * ‖(Pi.single (top k) 1 : Fin 3 → ℂ) c‖ ^ 2 = u (top k) := by
    rw [Finset.sum_eq_single (top k)] <;> simp +contextual
  have h5 : ∑ c, (u (top k) - u c) * ‖w c‖ ^ 2 ≤ 0 := by
    have : ∑ c, (u (top k) - u c) * ‖w c‖ ^ 2 = u (top k) * ∑ c, ‖w c‖ ^ 2 - ∑ c, u c * ‖w c‖ ^ 2 := by
      rw [Finset.mul_sum, ← Finset.sum_sub_distrib]
      exact Finset.sum_congr rfl fun c _ => by ring
    rw [this, h1]
    linarith
  have hnn : ∀ c ∈ Finset.univ, 0 ≤ (u (top k) - u c) * ‖w c‖ ^ 2 := fun c _ => by
    by_cases hc : c = top k
    · rw [hc, sub_self, zero_mul]
    · exact mul_nonneg (by linarith [hlt c hc]) (sq_nonneg _)
  have h6 : ∀ c, c ≠ top k → w c = 0 := fun c hc => by
    have := (Finset.sum_eq_zero_iff_of_nonneg hnn).mp (le_antisymm h5 (Finset.sum_nonneg hnn)) c (Finset.mem_univ c)
    rcases mul_eq_zero.mp this with h | h
    · linarith [hlt c hc]
    · exact norm_eq_zero.mp (pow_eq_zero_iff two_ne_zero |>.mp h)
  refine ⟨w (top k), ?_, fun c => ?_⟩
  · rw [Finset.sum_eq_single (top k) (fun c _ hc => by rw [h6 c hc]; simp) (by simp)] at h1
    nlinarith [norm_nonneg (w (top k))]
  · by_cases hc : c = top k
    · rw [if_pos hc, hc]
    · rw [if_neg hc, h6 c hc]

/-- The orthonormalisation of such rows, up to phases: signal 1, and the sum and the difference of signals 0 and 2. -/
private theorem polar_tri (np : Numpy ℂ) (A : Mat 3 ℂ) (α β γ : ℂ) (hα : ‖α‖ = 1) (hβ : ‖β‖ = 1) (hγ : ‖γ‖ = 1)
    (hA : A = !![0, α, 0; β, 0, 0; γ, 0, 0]) :
    ∃ b : ℂ, ‖b‖ = Real.sqrt 2 / 2 ∧ polar np A = !![0, α, 0; β * (Real.sqrt 2 / 2 : ℝ), 0, β * b; γ * (Real.sqrt 2 / 2 : ℝ), 0, -(γ * b)] := by
  have conj1 : ∀ z : ℂ, ‖z‖ = 1 → z * (starRingEnd ℂ) z = 1 := fun z hz => by
    rw [Complex.mul_conj, Complex.normSq_eq_norm_sq, hz]; simp
  have ha := conj1 α hα
  have hb := conj1 β hβ
  have hg := conj1 γ hγ
  obtain ⟨h, hh⟩ : ∃ h : ℝ, h = Real.sqrt 2 / 2 := ⟨_, rfl⟩
  have hh2 : h * h = 1 / 2 := by
    rw [hh]
    have := Real.mul_self_sqrt (show (0 : ℝ) ≤ 2 by norm_num)
    linarith
  have hh0 : 0 < h := by rw [hh]; positivity
  have hc2 : (h : ℂ) * h = 1 / 2 := by rw [← Complex.ofReal_mul, hh2]; norm_num
  have hc0 : (h : ℂ) ≠ 0 := by exact_mod_cast hh0.ne'
  rw [← hh]
  obtain ⟨S, hS, hSS, hSQ, -⟩ := C47_polar_eq np A
  obtain ⟨hQ, hQ'⟩ := C47_polar_unitary np A
  obtain ⟨Q, hQdef⟩ : ∃ Q, Q = polar np A := ⟨_, rfl⟩
  rw [← hQdef] at hSQ hQ hQ' ⊢
  obtain ⟨B, hBdef⟩ : ∃ B : Mat 3 ℂ, B = !![1, 0, 0; 0, (h : ℂ), h * (β * (starRingEnd ℂ) γ); 0, h * (γ * (starRingEnd ℂ) β), h] :=
    ⟨_, rfl⟩
  have hB : B.PosSemidef := by
    have e : B = vecMulVec ![1, 0, 0] (star ![1, 0, 0]) + (h : ℂ) • vecMulVec ![0, β, γ] (star ![0, β, γ]) := by
      rw [hBdef]
      ext i j
      rw [Matrix.add_apply, Matrix.smul_apply, vecMulVec_apply, vecMulVec_apply]
      fin_cases i <;> fin_cases j <;> simp [hb, hg]
    rw [e]
    exact (posSemidef_vecMulVec_self_star _).add ((posSemidef_vecMulVec_self_star _).smul (by exact_mod_cast hh0.le))
  have hSB : S = B := by
    refine psd_sqrt_unique hS hB ?_
    rw [hSS, hA, hBdef]
    ext i j
    fin_cases i <;> fin_cases j <;> simp [mul_apply, Fin.sum_univ_succ, ha]
    · linear_combination hb - 2 * hc2 - (h : ℂ) * h * (γ * (starRingEnd ℂ) γ) * hb - (h : ℂ) * h * hg
    · linear_combination (-2 * β * (starRingEnd ℂ) γ) * hc2
    · linear_combination (-2 * γ * (starRingEnd ℂ) β) * hc2
    · linear_combination hg - 2 * hc2 - (h : ℂ) * h * (γ * (starRingEnd ℂ) γ) * hb - (h : ℂ) * h * hg
  rw [hSB, hA, hBdef] at hSQ
  have ent : ∀ i j, (!![0, α, 0; β, 0, 0; γ, 0, 0] : Mat 3 ℂ) i j
      = ∑ l, (!![1, 0, 0; 0, (h : ℂ), h * (β * (starRingEnd ℂ) γ); 0, h * (γ * (starRingEnd ℂ) β), h] : Mat 3 ℂ) i l * Q l j :=
    fun i j => by
      conv_lhs => rw [hSQ]
      rw [mul_apply]
  have col : ∀ j, ‖Q 0 j‖ ^ 2 + ‖Q 1 j‖ ^ 2 + ‖Q 2 j‖ ^ 2 = 1 := fun j => by
    have := congrFun (congrFun hQ' j) j
    rw [mul_apply, one_apply_eq, Fin.sum_univ_three] at this
    simp only [conjTranspose_apply, Complex.star_def] at this
    rw [mul_comm _ (Q 0 j), mul_comm _ (Q 1 j), mul_comm _ (Q 2 j)] at this
    simp only [Complex.mul_conj, Complex.normSq_eq_norm_sq] at this
    exact_mod_cast this
  have q00 : Q 0 0 = 0 := by simpa [Fin.sum_univ_succ] using (ent 0 0).symm
  have q01 : Q 0 1 = α := by simpa [Fin.sum_univ_succ] using (ent 0 1).symm
  have q02 : Q 0 2 = 0 := by simpa [Fin.sum_univ_succ] using (ent 0 2).symm
  have e10 : β = h * Q 1 0 + h * (β * (starRingEnd ℂ) γ) * Q 2 0 := by simpa [Fin.sum_univ_succ] using ent 1 0
  have e12 : 0 = h * Q 1 2 + h * (β * (starRingEnd ℂ) γ) * Q 2 2 := by simpa [Fin.sum_univ_succ] using ent 1 2
  have q11 : Q 1 1 = 0 ∧ Q 2 1 = 0 := by
    have := col 1
    rw [q01, hα] at this
    have h1 := sq_nonneg ‖Q 1 1‖
    have h2 := sq_nonneg ‖Q 2 1‖
    exact ⟨norm_eq_zero.mp (pow_eq_zero_iff two_ne_zero |>.mp (by linarith)),
      norm_eq_zero.mp (pow_eq_zero_iff two_ne_zero |>.mp (by linarith))⟩
  have nb : ‖(starRingEnd ℂ) β‖ = 1 := by rw [RCLike.norm_conj, hβ]
  have ng : ‖(starRingEnd ℂ) γ‖ = 1 := by rw [RCLike.norm_conj, hγ]
  have Q1 : ∀ j, Q 1 j = β * ((starRingEnd ℂ) β * Q 1 j) := fun j => by rw [← mul_assoc, hb, one_mul]
  have Q2 : ∀ j, Q 2 j = γ * ((starRingEnd ℂ) γ * Q 2 j) := fun j => by rw [← mul_assoc, hg, one_mul]
  obtain ⟨p, hp⟩ : ∃ p : Fin 3 → ℂ, p = fun j => (starRingEnd ℂ) β * Q 1 j := ⟨_, rfl⟩
  obtain ⟨q, hq⟩ : ∃ q : Fin 3 → ℂ, q = fun j => (starRingEnd ℂ) γ * Q 2 j := ⟨_, rfl⟩
  have np1 : ∀ j, ‖Q 1 j‖ = ‖p j‖ := fun j => by rw [hp]; simp [hβ]
  have nq1 : ∀ j, ‖Q 2 j‖ = ‖q j‖ := fun j => by rw [hq]; simp [hγ]
  have s0 : (h : ℂ) * (p 0 + q 0) = 1 := by
    rw [hp, hq]
    linear_combination (-(starRingEnd ℂ) β) * e10 + hb - (h : ℂ) * (starRingEnd ℂ) γ * Q 2 0 * hb
  have s2 : p 2 + q 2 = 0 := by
    have : (h : ℂ) * (p 2 + q 2) = 0 := by
      rw [hp, hq]
      linear_combination (-(starRingEnd ℂ) β) * e12 - (h : ℂ) * (starRingEnd ℂ) γ * Q 2 2 * hb
    exact (mul_eq_zero.mp this).resolve_left hc0
  have c0 := col 0
  have c2 := col 2
  rw [q00, np1, nq1, norm_zero] at c0
  rw [q02, np1, nq1, norm_zero] at c2
  have hsum : p 0 + q 0 = ((2 * h : ℝ) : ℂ) := by
    have : (h : ℂ) * (p 0 + q 0) = h * ((2 * h : ℝ) : ℂ) := by
      rw [s0]; push_cast; linear_combination (-2 : ℂ) * hc2
    exact mul_left_cancel₀ hc0 this
  have par := parallelogram_law_with_norm ℝ (p 0) (q 0)
  have hdiff : p 0 - q 0 = 0 := by
    rw [hsum, Complex.norm_real, Real.norm_eq_abs, abs_of_pos (by linarith)] at par
    have h0 : ‖p 0 - q 0‖ * ‖p 0 - q 0‖ = 0 := by nlinarith
    exact norm_eq_zero.mp (mul_self_eq_zero.mp h0)
  have hp0 : p 0 = h := by
    have : (2 : ℂ) * p 0 = 2 * h := by
      have := hsum
      push_cast at this
      linear_combination this + hdiff
    exact mul_left_cancel₀ two_ne_zero this
  have hq0 : q 0 = h := by rw [← sub_eq_zero.mp hdiff, hp0]
  have hq2 : q 2 = -p 2 := by linear_combination s2
  have hn : ‖p 2‖ = h := by
    rw [hq2, norm_neg] at c2
    nlinarith [norm_nonneg (p 2)]
  refine ⟨p 2, hn, ?_⟩
  ext i j
  fin_cases i <;> fin_cases j
  · exact q00
  · exact q01
  · exact q02
  · change Q 1 0 = β * h
    rw [Q1, ← hp0, hp]
  · exact q11.1
  · change Q 1 2 = β * p 2
    rw [Q1, hp]
  · change Q 2 0 = γ * h
    rw [Q2, ← hq0, hq]
  · exact q11.2
  · change Q 2 2 = -(γ * p 2)
    rw [Q2, ← mul_neg, ← hq2, hq]

/-- C75, finding: with the Laplace contrast of the documentation there are three whitened signals that are perfectly
separated by the identity filter (the weighted correlations of different outputs vanish, so the identity is a
stationary point of the loss among the unitary filters, and by `C74_fastiva_separated` FastIVA keeps the outputs up to
signs where its new filter is invertible), for which one update of FasterIVA mixes two of them again and increases the
recorded loss. -/
theorem C75_fasteriva_undoes_separation : ∃ Z : Spec Unit 3 12,
    Transform.sampleCov (Z ()) = 1 ∧
    (∀ k l : Fin 3, k ≠ l → meanT (fun s => ((2 / (2 * Iva.binNorm (separate Z fun _ => 1) k s) : ℝ) : ℂ) *
      (separate Z (fun _ => 1) () k s * star (separate Z (fun _ => 1) () l s))) = 0) ∧
    ∀ (np : Numpy ℂ) (floor : ℝ → ℝ), (∀ x, 2 / 5 ≤ x → floor x = x) →
      ivaLoss (fun r => 2 * r) Z (fun _ => 1) <
        ivaLoss (fun r => 2 * r) Z (fasterIvaStep np floor (fun _ => 2) Z fun _ => 1) := by
  refine ⟨triC, ?_, ?_, fun np floor hfl => ?_⟩
  · ext i j
    rw [Transform.sampleCov, Matrix.smul_apply, mul_apply]
    fin_cases i <;> fin_cases j <;> simp [triC, tri, Fin.sum_univ_succ] <;> norm_num
  · intro k l hkl
    obtain ⟨u, hu, -⟩ := tri_moment k
    have e : ∀ s, ((2 / (2 * Iva.binNorm (separate triC fun _ => 1) k s) : ℝ) : ℂ) *
        (separate triC (fun _ => 1) () k s * star (separate triC (fun _ => 1) () l s))
        = ((|tri k s|⁻¹ * (tri k s * tri l s) : ℝ) : ℂ) := by
      intro s
      have h0 : |tri k s| ≠ 0 := (lt_of_lt_of_le (show (0 : ℝ) < 1 / 5 by norm_num) (tri_large k s)).ne'
      rw [tri_norm, show separate triC (fun _ => 1) = triC from funext fun f => Matrix.one_mul _]
      have : 2 / (2 * |tri k s|) = |tri k s|⁻¹ := by field_simp
      rw [this]
      simp [triC]
    simp only [e]
    have := hu k l
    rw [if_neg hkl] at this
    rw [meanT, ← Complex.ofReal_sum, this]
    simp
  · obtain ⟨α, hα, ra⟩ := tri_rows np floor hfl 0
    obtain ⟨β, hβ, rb⟩ := tri_rows np floor hfl 1
    obtain ⟨γ, hγ, rc⟩ := tri_rows np floor hfl 2
    have hA : fasterIvaFilter np floor (fun _ => 2) triC (fun _ => 1) () = !![0, α, 0; β, 0, 0; γ, 0, 0] := by
      ext i j
      fin_cases i
      · exact (ra j).trans (by fin_cases j <;> simp [top])
      · exact (rb j).trans (by fin_cases j <;> simp [top])
      · exact (rc j).trans (by fin_cases j <;> simp [top])
    obtain ⟨b, hb, hpol⟩ := polar_tri np _ α β γ hα hβ hγ hA
    have hstep : fasterIvaStep np floor (fun _ => 2) triC (fun _ => 1) ()
        = !![0, α, 0; β * (Real.sqrt 2 / 2 : ℝ), 0, β * b; γ * (Real.sqrt 2 / 2 : ℝ), 0, -(γ * b)] := hpol
    obtain ⟨h, hh⟩ : ∃ h : ℝ, h = Real.sqrt 2 / 2 := ⟨_, rfl⟩
    rw [← hh] at hb hstep
    have hh0 : 0 < h := by rw [hh]; positivity
    have hh7 : 7 / 10 < h := by
      rw [hh]
      have : 7 / 5 < Real.sqrt 2 := Real.lt_sqrt_of_sq_lt (by norm_num)
      linarith
    obtain ⟨W', hW'⟩ : ∃ W', W' = fasterIvaStep np floor (fun _ => 2) triC fun _ => 1 := ⟨_, rfl⟩
    rw [← hW'] at hstep ⊢
    have nrm : ∀ k s, Iva.binNorm (separate triC W') k s = ‖∑ c, W' () k c * (tri c s : ℂ)‖ := by
      intro k s
      simp [Iva.binNorm, separate, mul_apply, triC]
    have key : ∀ s, |tri 1 s| + 2 * h * |tri 0 s| ≤ ∑ k, Iva.binNorm (separate triC W') k s ∧
        |tri 1 s| + 2 * h * |tri 2 s| ≤ ∑ k, Iva.binNorm (separate triC W') k s := by
      intro s
      have n0 : Iva.binNorm (separate triC W') 0 s = |tri 1 s| := by
        rw [nrm, hstep]
        simp [Fin.sum_univ_succ, hα]
      have n1 : Iva.binNorm (separate triC W') 1 s = ‖(h : ℂ) * tri 0 s + b * tri 2 s‖ := by
        rw [nrm, hstep]
        have : (∑ c, (!![0, α, 0; β * (h : ℂ), 0, β * b; γ * (h : ℂ), 0, -(γ * b)] : Mat 3 ℂ) 1 c * (tri c s : ℂ))
            = β * ((h : ℂ) * tri 0 s + b * tri 2 s) := by
          simp [Fin.sum_univ_succ]; ring
        rw [this, norm_mul, hβ, one_mul]
      have n2 : Iva.binNorm (separate triC W') 2 s = ‖(h : ℂ) * tri 0 s - b * tri 2 s‖ := by
        rw [nrm, hstep]
        have : (∑ c, (!![0, α, 0; β * (h : ℂ), 0, β * b; γ * (h : ℂ), 0, -(γ * b)] : Mat 3 ℂ) 2 c * (tri c s : ℂ))
            = γ * ((h : ℂ) * tri 0 s - b * tri 2 s) := by
          simp [Fin.sum_univ_succ]; ring
        rw [this, norm_mul, hγ, one_mul]
      rw [Fin.sum_univ_three, n0, n1, n2]
      constructor
      · have := norm_add_le ((h : ℂ) * tri 0 s + b * tri 2 s) ((h : ℂ) * tri 0 s - b * tri 2 s)
        rw [show ((h : ℂ) * tri 0 s + b * tri 2 s) + ((h : ℂ) * tri 0 s - b * tri 2 s) = ((2 * h * tri 0 s : ℝ) : ℂ) by
          push_cast; ring, Complex.norm_real, Real.norm_eq_abs, abs_mul, abs_of_pos (by linarith : 0 < 2 * h)] at this
        linarith
      · have := norm_sub_le ((h : ℂ) * tri 0 s + b * tri 2 s) ((h : ℂ) * tri 0 s - b * tri 2 s)
        rw [show ((h : ℂ) * tri 0 s + b * tri 2 s) - ((h : ℂ) * tri 0 s - b * tri 2 s) = b * ((2 * tri 2 s : ℝ) : ℂ) by
          push_cast; ring, norm_mul, hb, Complex.norm_real, Real.norm_eq_abs, abs_mul, abs_two] at this
        linarith
    have swap : ∀ W : Unit → Mat 3 ℂ, ivaLoss (fun r => 2 * r) triC W
        = (∑ s, 2 * ∑ k, Iva.binNorm (separate triC W) k s) / 12 := by
      intro W
      simp only [ivaLoss, meanT, ← Finset.sum_div, Finset.mul_sum]
      rw [Finset.sum_comm]
      norm_num
    rw [swap, swap]
    refine div_lt_div_of_pos_right ?_ (by norm_num)
    simp only [tri_norm]
    have key2 : ∀ s, |tri 1 s| + 2 * h * max |tri 0 s| |tri 2 s| ≤ ∑ k, Iva.binNorm (separate triC W') k s := fun s => by
      rcases le_total |tri 0 s| |tri 2 s| with h' | h'
      · rw [max_eq_right h']; exact (key s).2
      · rw [max_eq_left h']; exact (key s).1
    have v1 : ∑ s, 2 * ∑ k, |tri k s| = 312 / 5 := by
      simp only [Fin.sum_univ_three]
      simp [tri, Fin.sum_univ_succ, abs_of_pos, neg_div]
      norm_num
    have v2 : ∑ s, 2 * |tri 1 s| = 104 / 5 := by
      simp [tri, Fin.sum_univ_succ, abs_of_pos, neg_div]
      norm_num
    have v3 : ∑ s, max |tri 0 s| |tri 2 s| = 76 / 5 := by
      simp [tri, Fin.sum_univ_succ, abs_of_pos, neg_div]
      norm_num [max_def]
    calc _ = 312 / 5 := v1
      _ < 104 / 5 + 4 * h * (76 / 5) := by linarith
      _ = ∑ s, 2 * (|tri 1 s| + 2 * h * max |tri 0 s| |tri 2 s|) := by
          rw [← v2, ← v3, Finset.mul_sum, ← Finset.sum_add_distrib]
          exact Finset.sum_congr rfl fun s _ => by ring
      _ ≤ _ := Finset.sum_le_sum fun s _ => mul_le_mul_of_nonneg_left (key2 s) two_pos.le

end Verif.Fast
