import Verif.Lemmas.Dct
import Verif.Lemmas.Run

/-! # Masks of harmonic vector analysis (C52) -/

set_option linter.unusedSectionVars false

namespace Verif.Hva

open Scale Spatial

variable {m n t : ℕ}

theorem envelope_pos (floor : ℝ → ℝ) (mask_iter : ℕ) (y : Fin m → ℂ) (f : Fin m) : 0 < envelope floor mask_iter y f :=
  Real.exp_pos _

/-- C52: for at least two bins and a positive attenuation, given or by default, the mask is computed without error,
lies in `(0, 1]` and its `1 / attenuation`-th powers sum to one over the sources in every bin and frame. -/
theorem C52_mask (hm : 2 ≤ m) (floor : ℝ → ℝ) (mask_iter : ℕ) (att : Option ℝ) (hatt : ∀ a, att = some a → 0 < a)
    [NeZero n] (y : Spec (Fin m) n t) (_ : ∀ f k j, 0 < floor ‖y f k j‖) :
    ∃ a mask, maskFn floor mask_iter att y = .ok (a, mask) ∧ a = att.getD (1 / n) ∧
      (∀ f k j, 0 < mask f k j ∧ mask f k j ≤ 1) ∧ ∀ f j, ∑ k, mask f k j ^ (1 / a) = 1 := by
  obtain ⟨v, hvd⟩ : ∃ v : Fin n → Fin t → Fin m → ℝ, v = fun k j => envelope floor mask_iter fun f => y f k j := ⟨_, rfl⟩
  have hv : ∀ k j f, 0 < v k j f := fun k j f => hvd ▸ envelope_pos _ _ _ _
  have h : maskFn floor mask_iter att y = .ok (att.getD (1 / n),
      fun f => Matrix.of fun k j => (v k j f / ∑ l, v l j f) ^ att.getD (1 / n)) := by
    rw [maskFn, if_neg (by omega), hvd]
  have ha : 0 < att.getD (1 / n) := by
    cases att with
    | some a => exact hatt a rfl
    | none =>
      have : (0 : ℝ) < n := by exact_mod_cast Nat.pos_of_ne_zero (NeZero.ne n)
      simp only [Option.getD_none]
      positivity
  have hs : ∀ f j, 0 < ∑ l, v l j f := fun f j =>
    Finset.sum_pos (fun l _ => hv l j f) ⟨⟨0, Nat.pos_of_ne_zero (NeZero.ne n)⟩, Finset.mem_univ _⟩
  have hq : ∀ f k j, 0 < v k j f / ∑ l, v l j f := fun f k j => div_pos (hv k j f) (hs f j)
  refine ⟨_, _, h, rfl, fun f k j => ⟨Real.rpow_pos_of_pos (hq f k j) _, Real.rpow_le_one (hq f k j).le ?_ ha.le⟩, ?_⟩
  · rw [div_le_one (hs f j)]
    exact Finset.single_le_sum (f := fun l => v l j f) (fun l _ => (hv l j f).le) (Finset.mem_univ k)
  · intro f j
    simp only [Matrix.of_apply]
    have : ∀ k, ((v k j f / ∑ l, v l j f) ^ att.getD (1 / n)) ^ (1 / att.getD (1 / n)) = v k j f / ∑ l, v l j f := by
      intro k
      rw [← Real.rpow_mul (hq f k j).le, mul_one_div_cancel ha.ne', Real.rpow_one]
    simp only [this]
    rw [← Finset.sum_div, div_self (hs f j).ne']

/-- C52: masking never amplifies: every entry of the masked spectrogram is at most as large as before. -/
theorem C52_no_gain (hm : 2 ≤ m) (floor : ℝ → ℝ) (mask_iter : ℕ) (att : Option ℝ) (hatt : ∀ a, att = some a → 0 < a)
    [NeZero n] (y : Spec (Fin m) n t) (hy : ∀ f k j, 0 < floor ‖y f k j‖) {a : ℝ} {mask : Fin m → Matrix (Fin n) (Fin t) ℝ}
    (h : maskFn floor mask_iter att y = .ok (a, mask)) (f : Fin m) (k : Fin n) (j : Fin t) :
    ‖(mask f k j : ℂ) * y f k j‖ ≤ ‖y f k j‖ := by
  obtain ⟨a', mask', h1, -, h2, -⟩ := C52_mask hm floor mask_iter att hatt y hy
  rw [h1] at h
  cases h
  rw [norm_mul, Complex.norm_real, Real.norm_of_nonneg (h2 f k j).1.le]
  exact mul_le_of_le_one_left (norm_nonneg _) (h2 f k j).2

theorem envelope_scale (hm : 2 ≤ m) {floor : ℝ → ℝ} (mask_iter : ℕ) {y : Fin m → ℂ} {c : ℝ} (hc : 0 < c)
    (hy : ∀ f, 0 < ‖y f‖ ∧ floor ‖y f‖ = ‖y f‖ ∧ floor (c * ‖y f‖) = c * ‖y f‖) (f : Fin m) :
    envelope floor mask_iter (fun f => (c : ℂ) * y f) f = c ^ 2 * envelope floor mask_iter y f := by
  have hz : ∀ f, Real.log (floor ‖(c : ℂ) * y f‖) = Real.log c + Real.log (floor ‖y f‖) := by
    intro f
    rw [norm_mul, Complex.norm_real, Real.norm_of_nonneg hc.le, (hy f).2.2, (hy f).2.1,
      Real.log_mul hc.ne' (hy f).1.ne']
  have hm0 : (m : ℝ) ≠ 0 := by
    have : m ≠ 0 := by omega
    exact_mod_cast this
  have hmean : zetaMean floor (fun f => (c : ℂ) * y f) = Real.log c + zetaMean floor y := by
    simp only [zetaMean, hz, Finset.sum_add_distrib, Finset.sum_const, Finset.card_univ, Fintype.card_fin, nsmul_eq_mul]
    field_simp
  simp only [envelope, hz, hmean, add_sub_add_left_eq_sub]
  rw [← add_assoc, add_comm _ (Real.log c), add_assoc, mul_add, Real.exp_add, two_mul (Real.log c), Real.exp_add,
    Real.exp_log hc, sq]

/-- C52: the mask does not depend on a gain common to all sources and bins of a frame, as long as neither the signal
nor the scaled signal is floored. -/
theorem C52_gain_invariant {floor : ℝ → ℝ} (mask_iter : ℕ) (att : Option ℝ) (y : Spec (Fin m) n t)
    {c : Fin t → ℝ} (hc : ∀ j, 0 < c j)
    (hy : ∀ f k j, 0 < ‖y f k j‖ ∧ floor ‖y f k j‖ = ‖y f k j‖ ∧ floor (c j * ‖y f k j‖) = c j * ‖y f k j‖) :
    maskFn floor mask_iter att (fun f => Matrix.of fun k j => (c j : ℂ) * y f k j) = maskFn floor mask_iter att y := by
  simp only [maskFn]
  split_ifs with hm
  · rfl
  congr 2
  funext f
  ext k j
  have e : ∀ k f, envelope floor mask_iter (fun f => (c j : ℂ) * y f k j) f
      = c j ^ 2 * envelope floor mask_iter (fun f => y f k j) f :=
    fun k f => envelope_scale (by omega) mask_iter (hc j) (fun f => hy f k j) f
  simp only [Matrix.of_apply, e, ← Finset.mul_sum]
  rw [mul_div_mul_left _ _ (pow_pos (hc j) 2).ne']

/-- C52: the mask of a permuted set of sources is the permuted mask. -/
theorem C52_permutation (hm : 2 ≤ m) (floor : ℝ → ℝ) (mask_iter : ℕ) (att : Option ℝ) (y : Spec (Fin m) n t)
    (σ : Equiv.Perm (Fin n)) :
    ∃ a mask, maskFn floor mask_iter att y = .ok (a, mask) ∧
      maskFn floor mask_iter att (fun f => (y f).submatrix σ id) = .ok (a, fun f => (mask f).submatrix σ id) := by
  refine ⟨_, _, by rw [maskFn, if_neg (by omega)], ?_⟩
  rw [maskFn, if_neg (by omega)]
  congr 2
  funext f
  ext k j
  simp only [Matrix.of_apply, Matrix.submatrix_apply, id]
  congr 2
  exact Equiv.sum_comp σ fun l => envelope floor mask_iter (fun f => y f l j) f

/-- C52: the default attenuation is fixed by the first signal: later signals with another number of sources are masked
with the old value. -/
theorem C52_attenuation_kept (hm : 2 ≤ m) (floor : ℝ → ℝ) (mask_iter : ℕ) (y : Spec (Fin m) n t) {m' n' t' : ℕ}
    (hm' : 2 ≤ m') (y' : Spec (Fin m') n' t') :
    ∃ a mask a' mask', maskFn floor mask_iter none y = .ok (a, mask) ∧ a = 1 / n ∧
      maskFn floor mask_iter (some a) y' = .ok (a', mask') ∧ a' = 1 / n :=
  ⟨1 / n, _, 1 / n, _, by rw [maskFn, if_neg (by omega)]; rfl, rfl, by rw [maskFn, if_neg (by omega)]; rfl, rfl⟩

/-- C52: a spectrogram with a single bin is rejected with `ValueError`. -/
theorem C52_single_bin (floor : ℝ → ℝ) (mask_iter : ℕ) (att : Option ℝ) (y : Spec (Fin 1) n t) :
    maskFn floor mask_iter att y = .error .value := by
  rw [maskFn, if_pos (by norm_num)]

/-- The log amplitudes of source `k` in frame `j` without their mean over the bins. -/
noncomputable def centredLog (floor : ℝ → ℝ) (y : Spec (Fin m) n t) (k : Fin n) (j : Fin t) (f : Fin m) : ℝ :=
  Real.log (floor ‖y f k j‖) - (∑ i, Real.log (floor ‖y i k j‖)) / m

/-- The cepstrum: the inverse discrete Fourier transform over `2 * (n_bins - 1)` points of the even extension of the
centred log amplitudes. -/
noncomputable def cepstrum (floor : ℝ → ℝ) (y : Spec (Fin (m + 2)) n t) (k : Fin n) (j : Fin t) :
    ZMod (2 * (m + 1)) → ℂ :=
  ZMod.dft.symm (evenExt (centredLog floor y k j))

/-- C52: the cepstrum is real and even, and the mask is a ratio of the amplitudes whose cepstrum is multiplied by the
squashed cepstrum. -/
theorem C52_liftering (floor : ℝ → ℝ) (mask_iter : ℕ) (att : Option ℝ) (y : Spec (Fin (m + 2)) n t) :
    (∀ k j q, (cepstrum floor y k j q).im = 0 ∧ cepstrum floor y k j (-q) = cepstrum floor y k j q) ∧
    ∃ a mask, ∃ E : Fin (m + 2) → Fin n → Fin t → ℝ, maskFn floor mask_iter att y = .ok (a, mask) ∧
      (∀ f k j, mask f k j = (E f k j ^ 2 / ∑ l, E f l j ^ 2) ^ a) ∧ (∀ f k j, 0 < E f k j) ∧
      ∀ f k j, ((Real.log (E f k j) - (∑ i, Real.log (floor ‖y i k j‖)) / ((m + 2 : ℕ) : ℝ) : ℝ) : ℂ) =
        ZMod.dft (fun q => ((squash^[mask_iter] (min 1 (cepstrum floor y k j q).re) : ℝ) : ℂ) * cepstrum floor y k j q)
          ((f.val : ℕ) : ZMod (2 * (m + 1))) := by
  have hc : ∀ k j, cepstrum floor y k j = evenExt (irfft .backward (centredLog floor y k j)) := by
    intro k j
    funext q
    rw [cepstrum, ZMod.invDFT_apply', dft_evenExt', evenExt_neg, evenExt, evenExt, irfft_backward, smul_eq_mul]
    push_cast
    ring
  refine ⟨fun k j q => ?_, ?_⟩
  · rw [hc, evenExt_neg]
    exact ⟨Complex.ofReal_im _, rfl⟩
  · refine ⟨att.getD (1 / n), _, fun f k j => Real.exp (irfft .forward (fun q =>
        squash^[mask_iter] (min 1 (irfft .backward (centredLog floor y k j) q)) *
          irfft .backward (centredLog floor y k j) q) f + zetaMean floor fun f => y f k j),
      by rw [maskFn, if_neg (by omega)], fun f k j => ?_, fun f k j => Real.exp_pos _, fun f k j => ?_⟩
    · have e : ∀ l, envelope floor mask_iter (fun f => y f l j) f = Real.exp (irfft .forward (fun q =>
          squash^[mask_iter] (min 1 (irfft .backward (centredLog floor y l j) q)) *
            irfft .backward (centredLog floor y l j) q) f + zetaMean floor fun f => y f l j) ^ 2 := by
        intro l
        rw [← Real.exp_nat_mul]
        rfl
      simp only [Matrix.of_apply, e]
    · rw [Real.log_exp]
      have e : (fun q => ((squash^[mask_iter] (min 1 (cepstrum floor y k j q).re) : ℝ) : ℂ) * cepstrum floor y k j q) =
          evenExt fun q => squash^[mask_iter] (min 1 (irfft .backward (centredLog floor y k j) q)) *
            irfft .backward (centredLog floor y k j) q := by
        funext q
        rw [hc, evenExt, evenExt]
        push_cast
        rfl
      rw [e, dft_evenExt]
      congr 1
      rw [zetaMean, add_sub_cancel_right]

/-- C52: if every coefficient of the cepstra is zero or at least one, nothing is filtered out: the mask is the power
of the Wiener-like ratio of the squared amplitudes. -/
theorem C52_wiener (floor : ℝ → ℝ) (mask_iter : ℕ) (att : Option ℝ) (y : Spec (Fin (m + 2)) n t)
    (hpos : ∀ f k j, 0 < floor ‖y f k j‖)
    (hc : ∀ k j q, cepstrum floor y k j q = 0 ∨ 1 ≤ (cepstrum floor y k j q).re) :
    ∃ a mask, maskFn floor mask_iter att y = .ok (a, mask) ∧ a = att.getD (1 / n) ∧
      ∀ f k j, mask f k j = (floor ‖y f k j‖ ^ 2 / ∑ l, floor ‖y f l j‖ ^ 2) ^ a := by
  obtain ⟨-, a, mask, E, h1, h2, h3, h4⟩ := C52_liftering floor mask_iter att y
  refine ⟨a, mask, h1, ?_, fun f k j => ?_⟩
  · rw [maskFn, if_neg (by omega)] at h1
    exact (Prod.mk.inj (Except.ok.inj h1)).1.symm
  · have hE : ∀ k, E f k j = floor ‖y f k j‖ := by
      intro k
      have e := h4 f k j
      have hq : (fun q => ((squash^[mask_iter] (min 1 (cepstrum floor y k j q).re) : ℝ) : ℂ) * cepstrum floor y k j q) =
          cepstrum floor y k j := by
        funext q
        rcases hc k j q with h | h
        · rw [h, mul_zero]
        · have hs : squash^[mask_iter] 1 = 1 := by
            refine Function.iterate_fixed ?_ _
            rw [squash, mul_one, Real.cos_pi]
            norm_num
          rw [min_eq_left h, hs, Complex.ofReal_one, one_mul]
      rw [hq, cepstrum, LinearEquiv.apply_symm_apply, evenExt, fold_nat] at e
      have e' := Complex.ofReal_injective e
      rw [centredLog, sub_left_inj] at e'
      exact Real.log_injOn_pos (h3 f k j) (hpos f k j) e'
    rw [h2]
    simp only [hE]

/-- Two bins with amplitudes `exp 3` and `exp 1`: the cepstrum is `(0, 1)`, so `C52_wiener` applies. -/
example : ∃ y : Spec (Fin (0 + 2)) 1 1, (∀ f k j, 0 < id ‖y f k j‖) ∧
    (∀ k j q, cepstrum id y k j q = 0 ∨ 1 ≤ (cepstrum id y k j q).re) ∧ ∃ k j q, cepstrum id y k j q ≠ 0 := by
  obtain ⟨y, hy⟩ : ∃ y : Spec (Fin (0 + 2)) 1 1,
      y = fun f => Matrix.of fun _ _ => ((Real.exp (if f = 0 then 3 else 1) : ℝ) : ℂ) := ⟨_, rfl⟩
  have hn : ∀ f k j, ‖y f k j‖ = Real.exp (if f = 0 then 3 else 1) := by
    intro f k j
    rw [hy]
    change ‖((Real.exp (if f = 0 then 3 else 1) : ℝ) : ℂ)‖ = _
    rw [Complex.norm_real, Real.norm_eq_abs, abs_of_pos (Real.exp_pos _)]
  have hl : ∀ k j, centredLog id y k j = fun f => if f = 0 then 1 else -1 := by
    intro k j
    funext f
    simp only [centredLog, id, hn, Real.log_exp]
    fin_cases f <;> simp <;> norm_num
  have hc : ∀ k j q, cepstrum id y k j q = ((irfft .backward (fun f : Fin (0 + 2) => if f = 0 then 1 else -1) (fold q) : ℝ) : ℂ) := by
    intro k j q
    rw [cepstrum, ZMod.invDFT_apply', dft_evenExt', evenExt_neg, evenExt, irfft_backward, hl, smul_eq_mul]
    push_cast
    ring
  have h0 : irfft .backward (fun f : Fin (0 + 2) => if f = 0 then (1 : ℝ) else -1) 0 = 0 := by
    simp [irfft]
  have h1 : irfft .backward (fun f : Fin (0 + 2) => if f = 0 then (1 : ℝ) else -1) 1 = 1 := by
    simp [irfft]
    norm_num
  refine ⟨y, fun f k j => ?_, fun k j q => ?_, 0, 0, 1, ?_⟩
  · rw [id, hn]
    exact Real.exp_pos _
  · rw [hc]
    generalize fold q = i
    fin_cases i
    · left
      exact_mod_cast h0
    · right
      exact h1.ge
  · rw [hc, show fold (1 : ZMod (2 * (0 + 1))) = 1 from rfl, h1]
    simp

/-- Non-vacuous: two bins, two sources with amplitudes `(1, e)` and `(1, 1)`: the masks differ from each other and
from one. -/
example : ∃ y : Spec (Fin 2) 2 1, (∀ f k j, 0 < id ‖y f k j‖) ∧
    ∃ a mask, maskFn id 1 none y = .ok (a, mask) ∧ mask 0 0 0 ≠ mask 0 1 0 := by
  refine ⟨fun f => Matrix.of fun k _ => if f = 1 ∧ k = 0 then ((Real.exp 1 : ℝ) : ℂ) else 1, fun f k j => ?_, ?_⟩
  · simp only [Matrix.of_apply, id]
    split_ifs
    · rw [Complex.norm_real]
      exact norm_pos_iff.mpr (Real.exp_pos 1).ne'
    · simp
  · refine ⟨_, _, by rw [maskFn, if_neg (by norm_num)], fun h => ?_⟩
    simp only [Matrix.of_apply] at h
    have e0 : envelope id 1 (fun f : Fin 2 => if f = 1 ∧ (0 : Fin 2) = 0 then ((Real.exp 1 : ℝ) : ℂ) else 1) 0
        = Real.exp (1 / 2) := by
      have hc : Real.cos (Real.pi * -(1 / 2)) = 0 := by
        rw [mul_neg, Real.cos_neg, mul_one_div, Real.cos_pi_div_two]
      have he : Real.log ‖Complex.exp 1‖ = 1 := by
        rw [Complex.norm_exp, Complex.one_re, Real.log_exp]
      simp [envelope, irfft, zetaMean, squash, Fin.sum_univ_two, he]
      have h1 : (2⁻¹ * (-2⁻¹ + (1 - 2⁻¹)) : ℝ) = 0 := by norm_num
      have h2 : (2⁻¹ * (-2⁻¹ + (2⁻¹ - 1)) : ℝ) = -(1 / 2) := by norm_num
      rw [h1, h2, min_eq_right zero_le_one, min_eq_right (by norm_num), hc]
      norm_num
    have e1 : envelope id 1 (fun f : Fin 2 => if f = 1 ∧ (1 : Fin 2) = 0 then ((Real.exp 1 : ℝ) : ℂ) else 1) 0 = 1 := by
      simp [envelope, irfft, zetaMean, squash]
    simp only at e0
    simp only [Fin.sum_univ_two, e0, e1, Option.getD_none] at h
    have hp : 0 < Real.exp (1 / 2) := Real.exp_pos _
    have h2 := (Real.rpow_left_inj (by positivity) (by positivity) (by norm_num)).mp h
    rw [div_left_inj' (by positivity)] at h2
    have := Real.add_one_le_exp (1 / 2 : ℝ)
    linarith

end Verif.Hva
