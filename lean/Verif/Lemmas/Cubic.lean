import Verif.Model.Lqpqm
import Verif.Props.Linalg

/-! # The largest real root of a cubic -/

namespace Verif.Lqpqm

open Matrix Verif.Linalg

theorem csqrt_sq' (x : ℂ) : csqrt x ^ 2 = x := by
  rw [csqrt, ← Complex.cpow_nat_mul]
  norm_num

theorem csqrt_real {d : ℝ} (hd : 0 ≤ d) : csqrt (d : ℂ) = (Real.sqrt d : ℝ) := by
  rw [csqrt, Real.sqrt_eq_rpow, Complex.ofReal_cpow hd]
  norm_num

theorem csqrt_imag {d : ℝ} (hd : d ≤ 0) : (csqrt (d : ℂ)).re = 0 := by
  have h := csqrt_sq' (d : ℂ)
  have hre := congrArg Complex.re h
  have him := congrArg Complex.im h
  rw [pow_two] at hre him
  simp only [Complex.mul_re, Complex.mul_im, Complex.ofReal_re, Complex.ofReal_im] at hre him
  by_contra h0
  have : (csqrt (d : ℂ)).im = 0 := by
    have : (csqrt (d : ℂ)).re * (csqrt (d : ℂ)).im = 0 := by linarith
    exact (mul_eq_zero.1 this).resolve_left h0
  rw [this] at hre
  have := mul_self_pos.2 h0
  linarith

theorem cbrt_real {w : ℝ} (hw : 0 ≤ w) : cbrt (w : ℂ) = ((w ^ ((1 : ℝ) / 3) : ℝ) : ℂ) := by
  simp only [cbrt, Complex.arg_ofReal_of_nonneg hw]
  simp [abs_of_nonneg hw]

theorem rpow_third {w : ℝ} (hw : 0 ≤ w) : (w ^ ((1 : ℝ) / 3)) ^ 3 = w := by
  rw [← Real.rpow_natCast, ← Real.rpow_mul hw]
  norm_num

theorem rcbrt_cube (x : ℝ) : rcbrt x ^ 3 = x := by
  unfold rcbrt
  split_ifs with h
  · exact rpow_third h
  · have := rpow_third (show 0 ≤ -x by linarith)
    rw [neg_pow, this]
    ring

/-- `t³ + P t + Q` with the branch the code takes. -/
noncomputable def droot (P Q : ℝ) : ℝ :=
  open Classical in
  let omega : ℂ := (-1 + Complex.I * Real.sqrt 3) / 2
  let omega_conj : ℂ := (-1 - Complex.I * Real.sqrt 3) / 2
  let discriminant : ℝ := (Q / 2) ^ 2 + (P / 3) ^ 3
  let U := cbrt (((-Q / 2 : ℝ) : ℂ) + csqrt (discriminant : ℂ))
  let is_singular := U = 0
  let U := if is_singular then 1 else U
  let V := -(P : ℂ) / (3 * U)
  let X1 := U + V
  let X1 := if is_singular then ((rcbrt (-Q) : ℝ) : ℂ) else X1
  let X2 := (U * omega + V * omega_conj).re
  let X3 := (U * omega_conj + V * omega).re
  if 0 ≤ P then X1.re else if 0 < discriminant then X1.re else max X1.re (max X2 X3)

theorem findLargestRoot_eq (A B C : ℝ) : findLargestRoot A B C =
    droot (-A ^ 2 / 3 + B) (2 * A ^ 3 / 27 - A * B / 3 + C) - A / 3 := rfl

/-- The real branch: `U` is a non-negative real number. -/
theorem droot_real {P Q : ℝ} (hb : 0 ≤ P ∨ 0 < (Q / 2) ^ 2 + (P / 3) ^ 3)
    (hw : 0 ≤ -Q / 2 + Real.sqrt ((Q / 2) ^ 2 + (P / 3) ^ 3)) (hd : 0 ≤ (Q / 2) ^ 2 + (P / 3) ^ 3) :
    droot P Q ^ 3 + P * droot P Q + Q = 0 ∧ ∀ s, s ^ 3 + P * s + Q = 0 → s ≤ droot P Q := by
  obtain ⟨d, hdd⟩ : ∃ d, d = (Q / 2) ^ 2 + (P / 3) ^ 3 := ⟨_, rfl⟩
  obtain ⟨w, hww⟩ : ∃ w, w = -Q / 2 + Real.sqrt d := ⟨_, rfl⟩
  have hw0 : 0 ≤ w := by rw [hww, hdd]; exact hw
  have hU : cbrt (((-Q / 2 : ℝ) : ℂ) + csqrt (((Q / 2) ^ 2 + (P / 3) ^ 3 : ℝ) : ℂ)) =
      ((w ^ ((1 : ℝ) / 3) : ℝ) : ℂ) := by
    rw [csqrt_real hd, ← Complex.ofReal_add, ← hdd, ← hww]
    exact cbrt_real hw0
  have hu3 := rpow_third hw0
  have hs : Real.sqrt d ^ 2 = d := Real.sq_sqrt (by rw [hdd]; exact hd)
  generalize hu : w ^ ((1 : ℝ) / 3) = u at hU hu3
  have hwq : w ^ 2 + Q * w = (P / 3) ^ 3 := by
    have : Real.sqrt d = w + Q / 2 := by rw [hww]; ring
    rw [this, hdd] at hs
    linarith
  by_cases hu0 : u = 0
  · subst hu0
    have hw : w = 0 := by rw [← hu3]; norm_num
    have hP : P = 0 := by
      rw [hw] at hwq
      have : (P / 3) ^ 3 = 0 := by rw [← hwq]; ring
      have := pow_eq_zero_iff (three_ne_zero) |>.1 this
      linarith
    have hr : droot P Q = rcbrt (-Q) := by
      simp only [droot, hU, Complex.ofReal_zero, if_true, Complex.ofReal_re]
      simp [hP]
    have hc := rcbrt_cube (-Q)
    rw [hr, hP]
    refine ⟨by rw [hc]; ring, fun s hs => ?_⟩
    by_contra hlt
    push Not at hlt
    have : rcbrt (-Q) ^ 3 < s ^ 3 := by
      have := Odd.strictMono_pow (R := ℝ) (n := 3) (by decide) hlt
      exact this
    rw [hc] at this
    linarith
  · have hupos : 0 < u := lt_of_le_of_ne (by rw [← hu]; positivity) (Ne.symm hu0)
    have hr : droot P Q = u - P / (3 * u) := by
      have huc : ((u : ℝ) : ℂ) ≠ 0 := by exact_mod_cast hu0
      have hX : (((u : ℝ) : ℂ) + -(P : ℂ) / (3 * ((u : ℝ) : ℂ))).re = u - P / (3 * u) := by
        have : (((u : ℝ) : ℂ) + -(P : ℂ) / (3 * ((u : ℝ) : ℂ))) = ((u - P / (3 * u) : ℝ) : ℂ) := by
          push_cast
          ring
        rw [this, Complex.ofReal_re]
      simp only [droot, hU, huc, if_false, hX]
      rcases hb with hb | hb
      · rw [if_pos hb]
      · rw [if_pos hb, ite_self]
    obtain ⟨q, hq⟩ : ∃ q, q = -P / (3 * u) := ⟨_, rfl⟩
    have hP : P = -3 * (u * q) := by rw [hq]; field_simp
    have hr' : droot P Q = u + q := by rw [hr, hq]; ring
    have hQ : Q = -(u ^ 3 + q ^ 3) := by
      have : u ^ 3 * (u ^ 3 + Q + q ^ 3) = 0 := by
        have e : (P / 3) ^ 3 = -(u ^ 3 * q ^ 3) := by rw [hP]; ring
        rw [e, ← hu3] at hwq
        linear_combination hwq
      have := (mul_eq_zero.1 this).resolve_left (pow_ne_zero 3 hu0)
      linarith
    rw [hr']
    refine ⟨by rw [hP, hQ]; ring, fun s hs => ?_⟩
    have hfac : (s - (u + q)) * ((s + (u + q) / 2) ^ 2 + 3 / 4 * (u - q) ^ 2) = 0 := by
      rw [hP, hQ] at hs
      linear_combination hs
    rcases mul_eq_zero.1 hfac with h | h
    · linarith
    · have h1 : (u - q) ^ 2 = 0 := by nlinarith [sq_nonneg (s + (u + q) / 2), sq_nonneg (u - q)]
      have h2 : s + (u + q) / 2 = 0 := by
        rw [h1] at h
        have : (s + (u + q) / 2) ^ 2 = 0 := by linarith
        exact pow_eq_zero_iff two_ne_zero |>.1 this
      have h3 : u = q := by
        have := pow_eq_zero_iff two_ne_zero |>.1 h1
        linarith
      linarith

theorem omega_spec : ∀ w w' : ℂ, w = (-1 + Complex.I * Real.sqrt 3) / 2 →
    w' = (-1 - Complex.I * Real.sqrt 3) / 2 → w' = -1 - w ∧ w ^ 2 = -1 - w ∧ w' = star w := by
  rintro w w' rfl rfl
  have h3 : ((Real.sqrt 3 : ℝ) : ℂ) ^ 2 = 3 := by
    rw [← Complex.ofReal_pow, Real.sq_sqrt (by norm_num)]; norm_num
  refine ⟨by ring, ?_, ?_⟩
  · linear_combination (-1 / 4 : ℂ) * h3 + ((Real.sqrt 3 : ℝ) : ℂ) ^ 2 / 4 * Complex.I_sq
  · simp [Complex.ext_iff]

/-- The branch with three real roots. -/
theorem droot_three {P Q : ℝ} (hP : P < 0) (hd : (Q / 2) ^ 2 + (P / 3) ^ 3 ≤ 0) :
    droot P Q ^ 3 + P * droot P Q + Q = 0 ∧ ∀ s, s ^ 3 + P * s + Q = 0 → s ≤ droot P Q := by
  obtain ⟨d, hdd⟩ : ∃ d, d = (Q / 2) ^ 2 + (P / 3) ^ 3 := ⟨_, rfl⟩
  obtain ⟨w, hw⟩ : ∃ w : ℂ, w = ((-Q / 2 : ℝ) : ℂ) + csqrt (d : ℂ) := ⟨_, rfl⟩
  obtain ⟨U, hUd⟩ : ∃ U, U = cbrt w := ⟨_, rfl⟩
  have hU3 : U ^ 3 = w := by rw [hUd]; exact C15_cbrt w
  have hre : (csqrt (d : ℂ)).re = 0 := csqrt_imag (by rw [hdd]; exact hd)
  have hsq := csqrt_sq' (d : ℂ)
  have hcs : star (csqrt (d : ℂ)) = -csqrt (d : ℂ) := by
    rw [Complex.ext_iff]
    simp [hre]
  have hws : star w = ((-Q / 2 : ℝ) : ℂ) - csqrt (d : ℂ) := by
    rw [hw, star_add, hcs, sub_eq_add_neg]
    congr 1
    exact Complex.conj_ofReal _
  have hwsum : w + star w = -(Q : ℂ) := by
    rw [hws, hw]
    push_cast
    ring
  have hwprod : w * star w = ((-(P / 3) ^ 3 : ℝ) : ℂ) := by
    rw [hws, hw]
    have : (((-Q / 2 : ℝ) : ℂ) + csqrt (d : ℂ)) * (((-Q / 2 : ℝ) : ℂ) - csqrt (d : ℂ)) =
        ((-Q / 2 : ℝ) : ℂ) ^ 2 - csqrt (d : ℂ) ^ 2 := by ring
    rw [this, hsq, hdd]
    push_cast
    ring
  have hUU : U * star U = ((-P / 3 : ℝ) : ℂ) := by
    have h1 : U * star U = ((‖U‖ ^ 2 : ℝ) : ℂ) := by
      have := Complex.mul_conj' U
      rw [Complex.ofReal_pow]
      exact this
    rw [h1]
    congr 1
    have h2 : (‖U‖ ^ 2) ^ 3 = (-P / 3) ^ 3 := by
      have h3 : ((U * star U) ^ 3 : ℂ) = ((-(P / 3) ^ 3 : ℝ) : ℂ) := by
        rw [mul_pow, ← star_pow, hU3, hwprod]
      rw [h1, ← Complex.ofReal_pow] at h3
      have h4 := Complex.ofReal_injective h3
      rw [h4]
      ring
    exact (pow_left_inj₀ (by positivity) (by linarith) three_ne_zero).1 h2
  have hU0 : U ≠ 0 := by
    intro h0
    rw [h0, zero_mul] at hUU
    have : (-P / 3 : ℝ) = 0 := by exact_mod_cast hUU.symm
    linarith
  have hV : -(P : ℂ) / (3 * U) = star U := by
    rw [div_eq_iff (mul_ne_zero (by norm_num) hU0)]
    have : star U * (3 * U) = 3 * (U * star U) := by ring
    rw [this, hUU]
    push_cast
    ring
  obtain ⟨om, hom⟩ : ∃ om : ℂ, om = (-1 + Complex.I * Real.sqrt 3) / 2 := ⟨_, rfl⟩
  obtain ⟨om', hom'⟩ : ∃ om' : ℂ, om' = (-1 - Complex.I * Real.sqrt 3) / 2 := ⟨_, rfl⟩
  obtain ⟨ho1, ho2, ho3⟩ := omega_spec om om' hom hom'
  have r1 : U + star U = ((U + star U).re : ℂ) := by
    rw [Complex.ext_iff]
    simp
  have r2 : U * om + star U * om' = ((U * om + star U * om').re : ℂ) := by
    rw [ho3, Complex.ext_iff]
    refine ⟨by simp, ?_⟩
    simp [Complex.mul_im]
    ring
  have r3 : U * om' + star U * om = ((U * om' + star U * om).re : ℂ) := by
    rw [ho3, Complex.ext_iff]
    refine ⟨by simp, ?_⟩
    simp [Complex.mul_im]
    ring
  have hr : droot P Q = max (U + star U).re (max (U * om + star U * om').re (U * om' + star U * om).re) := by
    have hUe : cbrt (((-Q / 2 : ℝ) : ℂ) + csqrt (((Q / 2) ^ 2 + (P / 3) ^ 3 : ℝ) : ℂ)) = U := by
      rw [hUd, hw, hdd]
    simp only [droot, hUe, hU0, if_false, hV, ← hom, ← hom', not_le.2 hP, not_lt.2 hd]
  have hfac : ∀ s : ℝ, (s - (U + star U).re) * (s - (U * om + star U * om').re) * (s - (U * om' + star U * om).re) =
      s ^ 3 + P * s + Q := by
    intro s
    apply Complex.ofReal_injective
    have hP' : (P : ℂ) = -3 * (U * star U) := by
      rw [hUU]
      push_cast
      ring
    have hQ' : (Q : ℂ) = -(U ^ 3 + star U ^ 3) := by
      rw [← star_pow, hU3, hwsum, neg_neg]
    rw [Complex.ofReal_mul, Complex.ofReal_mul, Complex.ofReal_sub, Complex.ofReal_sub, Complex.ofReal_sub, ← r1, ← r2,
      ← r3]
    push_cast
    rw [hP', hQ', ho1]
    generalize star U = V
    linear_combination (U ^ 3 + V ^ 3 - U ^ 2 * s - V ^ 2 * s + 2 * U * V * s
      - U ^ 2 * V - U * V ^ 2) * ho2
  rw [hr]
  constructor
  · rw [← hfac]
    rcases max_choice (U + star U).re (max (U * om + star U * om').re (U * om' + star U * om).re) with h | h
    · rw [h]; ring
    · rw [h]
      rcases max_choice (U * om + star U * om').re (U * om' + star U * om).re with h | h
      · rw [h]; ring
      · rw [h]; ring
  · intro s hs
    rw [← hfac] at hs
    rcases mul_eq_zero.1 hs with hs | hs
    · rcases mul_eq_zero.1 hs with hs | hs
      · exact le_max_of_le_left (by linarith)
      · exact le_max_of_le_right (le_max_of_le_left (by linarith))
    · exact le_max_of_le_right (le_max_of_le_right (by linarith))

/-- The value returned is the largest real root, except in the case excluded by `h`. -/
theorem findLargestRoot_spec {A B C : ℝ}
    (h : -A ^ 2 / 3 + B < 0 → 0 < ((2 * A ^ 3 / 27 - A * B / 3 + C) / 2) ^ 2 + ((-A ^ 2 / 3 + B) / 3) ^ 3 →
      2 * A ^ 3 / 27 - A * B / 3 + C ≤ 0) :
    findLargestRoot A B C ^ 3 + A * findLargestRoot A B C ^ 2 + B * findLargestRoot A B C + C = 0 ∧
      ∀ y, y ^ 3 + A * y ^ 2 + B * y + C = 0 → y ≤ findLargestRoot A B C := by
  rw [findLargestRoot_eq]
  obtain ⟨P, hP⟩ : ∃ P, P = -A ^ 2 / 3 + B := ⟨_, rfl⟩
  obtain ⟨Q, hQ⟩ : ∃ Q, Q = 2 * A ^ 3 / 27 - A * B / 3 + C := ⟨_, rfl⟩
  rw [← hP, ← hQ] at h ⊢
  have key : droot P Q ^ 3 + P * droot P Q + Q = 0 ∧ ∀ s, s ^ 3 + P * s + Q = 0 → s ≤ droot P Q := by
    by_cases h0 : 0 ≤ P
    · have h1 : (Q / 2) ^ 2 ≤ (Q / 2) ^ 2 + (P / 3) ^ 3 := by
        have : 0 ≤ (P / 3) ^ 3 := by positivity
        linarith
      refine droot_real (.inl h0) ?_ ((sq_nonneg _).trans h1)
      have := Real.le_sqrt_of_sq_le h1
      linarith
    · push Not at h0
      by_cases h1 : 0 < (Q / 2) ^ 2 + (P / 3) ^ 3
      · refine droot_real (.inr h1) ?_ h1.le
        have := h h0 h1
        have := Real.sqrt_nonneg ((Q / 2) ^ 2 + (P / 3) ^ 3)
        linarith
      · exact droot_three h0 (not_lt.1 h1)
  obtain ⟨k1, k2⟩ := key
  constructor
  · rw [hP, hQ] at k1
    rw [hP, hQ]
    linear_combination k1
  · intro y hy
    have := k2 (y + A / 3) (by rw [hP, hQ]; linear_combination hy)
    linarith

end Verif.Lqpqm
