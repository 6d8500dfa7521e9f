import Mathlib.Analysis.Convex.StrictConvexSpace
import Mathlib.Analysis.InnerProductSpace.Convex
import Verif.Props.Spatial

/-! # C35: vector-wise coordinate descent for blocks of bins -/

namespace Verif.Spatial

open Matrix
open scoped ComplexOrder

variable {n b : ℕ}

/-- The non-negative root of `xi s² + h s = 1`. -/
theorem vcd_root {xi h : ℝ} (hxi : 0 < xi) (hh : 0 < h) :
    let s := h / (2 * xi) * (Real.sqrt (1 + 4 * xi / h ^ 2) - 1)
    0 < s ∧ s * (s * xi + h) = 1 := by
  intro s
  have h0 : 0 < 4 * xi / h ^ 2 := by positivity
  have h1 : 1 < Real.sqrt (1 + 4 * xi / h ^ 2) := by
    rw [Real.lt_sqrt zero_le_one]; linarith
  have hsq : Real.sqrt (1 + 4 * xi / h ^ 2) ^ 2 = 1 + 4 * xi / h ^ 2 := Real.sq_sqrt (by positivity)
  refine ⟨mul_pos (by positivity) (by linarith), ?_⟩
  set r := Real.sqrt (1 + 4 * xi / h ^ 2) with hr
  have hs : s = h / (2 * xi) * (r - 1) := rfl
  have : s * (s * xi + h) = h ^ 2 / (4 * xi) * (r ^ 2 - 1) := by
    rw [hs]
    clear_value r
    field_simp
    ring
  rw [this, hsq]
  field_simp
  ring

/-- Scalar problem: `|c|² xi - 2 log |c xi - z|` is minimal at the coefficient the code uses. -/
theorem vcdCoeff_min {xi : ℝ} (hxi : 0 < xi) (z : ℂ) :
    let c₀ := vcdCoeff (fun x => x = 0) xi z
    c₀ * xi - z ≠ 0 ∧ ∀ c : ℂ, c * xi - z ≠ 0 →
      ‖c₀‖ ^ 2 * xi - 2 * Real.log ‖c₀ * xi - z‖ ≤ ‖c‖ ^ 2 * xi - 2 * Real.log ‖c * xi - z‖ ∧
      (‖c₀‖ ^ 2 * xi - 2 * Real.log ‖c₀ * xi - z‖ = ‖c‖ ^ 2 * xi - 2 * Real.log ‖c * xi - z‖ →
        (z = 0 → c = (‖c‖ : ℂ)) → c = c₀) := by
  intro c₀
  -- the radius of the optimum
  have key : ∃ s : ℝ, 0 < s ∧ s * (s * xi + ‖z‖) = 1 ∧ ‖c₀‖ = s ∧ ‖c₀ * xi - z‖ = s * xi + ‖z‖ ∧
      (z = 0 → c₀ = (s : ℂ)) ∧ (z ≠ 0 → c₀ * ‖z‖ = -(z * s)) := by
    by_cases hz : z = 0
    · have hs : 0 < Real.sqrt xi := Real.sqrt_pos.mpr hxi
      have hc : c₀ = ((1 / Real.sqrt xi : ℝ) : ℂ) := by simp only [c₀, vcdCoeff, if_pos hz]
      refine ⟨1 / Real.sqrt xi, by positivity, ?_, ?_, ?_, fun _ => hc, fun h => absurd hz h⟩
      · rw [hz, norm_zero, add_zero]
        have := Real.sq_sqrt hxi.le
        field_simp
        linarith
      · rw [hc, Complex.norm_real, Real.norm_eq_abs, abs_of_pos (by positivity)]
      · rw [hc, hz, sub_zero, norm_zero, add_zero, ← Complex.ofReal_mul, Complex.norm_real, Real.norm_eq_abs,
          abs_of_pos (by positivity)]
    · have hh : 0 < ‖z‖ := norm_pos_iff.mpr hz
      obtain ⟨hs, hroot⟩ := vcd_root hxi hh
      set s := ‖z‖ / (2 * xi) * (Real.sqrt (1 + 4 * xi / ‖z‖ ^ 2) - 1) with hsd
      have hc : c₀ = z * (((-(s / ‖z‖)) : ℝ) : ℂ) := by
        simp only [c₀, vcdCoeff, if_neg hz, hsd]
        rw [div_mul_eq_mul_div, mul_div_assoc, ← Complex.ofReal_div]
        congr 2
        field_simp
        ring
      refine ⟨s, hs, hroot, ?_, ?_, fun h => absurd h hz, fun _ => ?_⟩
      · rw [hc, norm_mul, Complex.norm_real, Real.norm_eq_abs, abs_neg, abs_of_pos (by positivity)]
        field_simp
      · have : c₀ * xi - z = z * (((-(s / ‖z‖ * xi + 1)) : ℝ) : ℂ) := by
          rw [hc]; push_cast; ring
        rw [this, norm_mul, Complex.norm_real, Real.norm_eq_abs, abs_neg, abs_of_pos (by positivity)]
        field_simp
      · have : (‖z‖ : ℂ) ≠ 0 := by exact_mod_cast hh.ne'
        rw [hc]
        push_cast
        field_simp
  obtain ⟨s, hs, hroot, hc, hd, hz1, hz2⟩ := key
  have hden : 0 < s * xi + ‖z‖ := by positivity
  refine ⟨by rw [← norm_pos_iff, hd]; exact hden, fun c hcne => ?_⟩
  have hp : 0 < ‖c * xi - z‖ := norm_pos_iff.mpr hcne
  have hle : ‖c * xi - z‖ ≤ ‖c‖ * xi + ‖z‖ := by
    refine (norm_sub_le _ _).trans ?_
    rw [norm_mul, Complex.norm_real, Real.norm_eq_abs, abs_of_pos hxi]
  have hr0 : 0 < ‖c * xi - z‖ / (s * xi + ‖z‖) := div_pos hp hden
  have hlog : Real.log ‖c * xi - z‖ - Real.log (s * xi + ‖z‖) = Real.log (‖c * xi - z‖ / (s * xi + ‖z‖)) :=
    (Real.log_div hp.ne' hden.ne').symm
  have h2 := Real.log_le_sub_one_of_pos hr0
  have h3 : ‖c * xi - z‖ / (s * xi + ‖z‖) ≤ s * (‖c‖ * xi + ‖z‖) := by
    rw [div_le_iff₀ hden]
    calc ‖c * xi - z‖ ≤ (‖c‖ * xi + ‖z‖) * (s * (s * xi + ‖z‖)) := by rw [hroot, mul_one]; exact hle
      _ = _ := by ring
  have h4 : s * (‖c‖ * xi + ‖z‖) - 1 = (‖c‖ - s) * s * xi := by linear_combination hroot
  rw [hc, hd]
  have h5 : 0 ≤ (‖c‖ - s) ^ 2 * xi := by positivity
  refine ⟨by linarith, fun heq hreal => ?_⟩
  -- equality: the radius is `s` and `c xi`, `-z` have the same direction
  have h6 : (‖c‖ - s) ^ 2 * xi = 0 := le_antisymm (by linarith) h5
  have hcs : ‖c‖ = s := by
    have := (mul_eq_zero.mp h6).resolve_right hxi.ne'
    linarith [pow_eq_zero_iff (two_ne_zero) |>.mp this]
  by_cases hz : z = 0
  · rw [hz1 hz, hreal hz, hcs]
  have h7 : Real.log (‖c * xi - z‖ / (s * xi + ‖z‖)) = ‖c * xi - z‖ / (s * xi + ‖z‖) - 1 := by
    rw [hcs] at h3 h4 heq
    linarith
  have h8 : ‖c * xi - z‖ / (s * xi + ‖z‖) = 1 := by
    by_contra hne
    exact (Real.log_lt_sub_one_of_pos hr0 hne).ne h7
  have h9 : ‖c * xi + -z‖ = ‖c * (xi : ℂ)‖ + ‖-z‖ := by
    rw [div_eq_one_iff_eq hden.ne'] at h8
    rw [← sub_eq_add_neg, h8, norm_mul, Complex.norm_real, Real.norm_eq_abs, abs_of_pos hxi, hcs, norm_neg]
  have h10 := sameRay_iff_norm_smul_eq.mp (sameRay_iff_norm_add.mpr h9)
  rw [norm_mul, Complex.norm_real, Real.norm_eq_abs, abs_of_pos hxi, hcs, norm_neg, Complex.real_smul,
    Complex.real_smul] at h10
  have hzn : (‖z‖ : ℂ) ≠ 0 := by exact_mod_cast norm_ne_zero_iff.mpr hz
  have hxc : (xi : ℂ) ≠ 0 := by exact_mod_cast hxi.ne'
  refine mul_right_cancel₀ (mul_ne_zero hxc hzn) ?_
  have h11 := hz2 hz
  push_cast at h10
  linear_combination (-1 : ℂ) * h10 - (xi : ℂ) * h11

/-- The part of the block objective that depends on one row. -/
theorem blockLoss_update (R : Fin b → Fin b → Fin n → Mat n ℂ) (hR : ∀ i j k, R i j k = (R j i k)ᴴ)
    (W : Fin b → Mat n ℂ) (i : Fin b) (k : Fin n) :
    ∃ C : ℝ, ∀ v : Fin n → ℂ, blockLoss R (Function.update W i ((W i).updateRow k v))
      = C + (quad (R i i k) v
        + 2 * (v ⬝ᵥ ∑ j ∈ Finset.univ.erase i, R i j k *ᵥ star (W j k)).re
        - 2 * Real.log ‖((W i).updateRow k v).det‖) := by
  refine ⟨(∑ l ∈ Finset.univ.erase k, ∑ i, ∑ j, (W i l ⬝ᵥ (R i j l *ᵥ star (W j l))).re)
    + (∑ p ∈ Finset.univ.erase i, ∑ q ∈ Finset.univ.erase i, (W p k ⬝ᵥ (R p q k *ᵥ star (W q k))).re)
    - 2 * ∑ p ∈ Finset.univ.erase i, Real.log ‖(W p).det‖, fun v => ?_⟩
  set V := Function.update W i ((W i).updateRow k v) with hV
  have hVi : V i = (W i).updateRow k v := by rw [hV, Function.update_self]
  have hVp : ∀ p, p ≠ i → V p = W p := fun p hp => by rw [hV, Function.update_of_ne hp]
  have hVl : ∀ p l, l ≠ k → V p l = W p l := by
    intro p l hl
    by_cases hp : p = i
    · rw [hp, hVi, updateRow_ne hl]
    · rw [hVp p hp]
  have hVk : V i k = v := by rw [hVi, updateRow_self]
  have e1 : ∑ l ∈ Finset.univ.erase k, ∑ i, ∑ j, (V i l ⬝ᵥ (R i j l *ᵥ star (V j l))).re
      = ∑ l ∈ Finset.univ.erase k, ∑ i, ∑ j, (W i l ⬝ᵥ (R i j l *ᵥ star (W j l))).re := by
    refine Finset.sum_congr rfl fun l hl => Finset.sum_congr rfl fun p _ => Finset.sum_congr rfl fun q _ => ?_
    rw [hVl _ _ (Finset.ne_of_mem_erase hl), hVl _ _ (Finset.ne_of_mem_erase hl)]
  have e2 : ∑ p ∈ Finset.univ.erase i, Real.log ‖(V p).det‖
      = ∑ p ∈ Finset.univ.erase i, Real.log ‖(W p).det‖ :=
    Finset.sum_congr rfl fun p hp => by rw [hVp p (Finset.ne_of_mem_erase hp)]
  have e3 : ∑ q ∈ Finset.univ.erase i, (V i k ⬝ᵥ (R i q k *ᵥ star (V q k))).re
      = (v ⬝ᵥ ∑ j ∈ Finset.univ.erase i, R i j k *ᵥ star (W j k)).re := by
    rw [dotProduct_sum, Complex.re_sum]
    refine Finset.sum_congr rfl fun q hq => ?_
    rw [hVk, hVp q (Finset.ne_of_mem_erase hq)]
  have e4 : ∑ p ∈ Finset.univ.erase i, ∑ q, (V p k ⬝ᵥ (R p q k *ᵥ star (V q k))).re
      = (∑ p ∈ Finset.univ.erase i, ∑ q ∈ Finset.univ.erase i, (W p k ⬝ᵥ (R p q k *ᵥ star (W q k))).re)
        + (v ⬝ᵥ ∑ j ∈ Finset.univ.erase i, R i j k *ᵥ star (W j k)).re := by
    have : ∀ p ∈ Finset.univ.erase i, ∑ q, (V p k ⬝ᵥ (R p q k *ᵥ star (V q k))).re
        = (∑ q ∈ Finset.univ.erase i, (W p k ⬝ᵥ (R p q k *ᵥ star (W q k))).re)
          + (v ⬝ᵥ (R i p k *ᵥ star (W p k))).re := by
      intro p hp
      rw [← Finset.sum_erase_add _ _ (Finset.mem_univ i), hVk, hVp p (Finset.ne_of_mem_erase hp)]
      congr 1
      · exact Finset.sum_congr rfl fun q hq => by rw [hVp q (Finset.ne_of_mem_erase hq)]
      · have : v ⬝ᵥ (R i p k *ᵥ star (W p k)) = star (W p k ⬝ᵥ (R p i k *ᵥ star v)) := by
          rw [← star_dotProduct_star, star_mulVec, star_star, ← hR, dotProduct_mulVec, dotProduct_comm]
        rw [this]
        rfl
    rw [Finset.sum_congr rfl this, Finset.sum_add_distrib, dotProduct_sum, Complex.re_sum]
  rw [blockLoss, ← Finset.sum_erase_add _ _ (Finset.mem_univ k), e1,
    ← Finset.sum_erase_add Finset.univ (fun p => ∑ q, (V p k ⬝ᵥ (R p q k *ᵥ star (V q k))).re)
      (Finset.mem_univ i), e4,
    ← Finset.sum_erase_add Finset.univ (fun q => (V i k ⬝ᵥ (R i q k *ᵥ star (V q k))).re)
      (Finset.mem_univ i), e3, hVk,
    ← Finset.sum_erase_add Finset.univ (fun p => Real.log ‖(V p).det‖) (Finset.mem_univ i), e2, hVi, quad]
  ring

/-- One step of `update_by_block_decomposition_vcd` writes the global minimiser over the updated row, and the old row
if that is a minimiser already. -/
theorem vcdStep_core (R : Fin b → Fin b → Fin n → Mat n ℂ) (hR : ∀ i j k, R i j k = (R j i k)ᴴ)
    (hpd : ∀ i k, (R i i k).PosDef) (W : Fin b → Mat n ℂ) (hW : ∀ i, IsUnit (W i).det) (i : Fin b)
    (k : Fin n) :
    ∃ W', vcdStep (fun x => x = 0) R W (i, k) = .ok W' ∧ (∀ i, IsUnit (W' i).det) ∧
      (∀ p l, (p, l) ≠ (i, k) → W' p l = W p l) ∧
      ∀ v : Fin n → ℂ, IsUnit ((W i).updateRow k v).det →
        blockLoss R W' ≤ blockLoss R (Function.update W i ((W i).updateRow k v)) ∧
        (v = W i k → blockLoss R W' = blockLoss R (Function.update W i ((W i).updateRow k v)) → W' = W) := by
  have hU := hpd i k
  set U := R i i k with hUd
  have hUu : IsUnit U.det := (isUnit_iff_isUnit_det U).mp hU.isUnit
  have hWU := isUnit_det_mul (hW i) hU
  set gamma := ∑ j ∈ Finset.univ.erase i, R i j k *ᵥ star (W j k) with hgamma
  have hgam : ∑ j, (1 - if j = i then 1 else 0 : ℂ) • (R i j k *ᵥ star (W j k)) = gamma := by
    rw [hgamma, ← Finset.sum_erase_add _ _ (Finset.mem_univ i), if_pos rfl, sub_self, zero_smul, add_zero]
    refine Finset.sum_congr rfl fun j hj => ?_
    rw [if_neg (Finset.ne_of_mem_erase hj), sub_zero, one_smul]
  set eta := (W i * U)⁻¹ *ᵥ Pi.single k (1 : ℂ) with heta
  set g := U⁻¹ *ᵥ gamma with hg
  have hWeta : W i *ᵥ (U *ᵥ eta) = Pi.single k 1 := by
    rw [heta, mulVec_mulVec, mulVec_mulVec, mul_nonsing_inv _ hWU, one_mulVec]
  have hUg : U *ᵥ g = gamma := by rw [hg, mulVec_mulVec, mul_nonsing_inv _ hUu, one_mulVec]
  have heta0 : eta ≠ 0 := by
    intro h
    rw [h, mulVec_zero, mulVec_zero] at hWeta
    simpa using congrFun hWeta k
  have hxi : 0 < quad U (star eta) := quad_pos hU (star_ne_zero.mpr heta0)
  have hsquare : ∀ v : Fin n → ℂ, quad U v + 2 * (v ⬝ᵥ gamma).re = quad U (v + star g) - quad U (star g) := by
    intro v
    have h2 : star g ⬝ᵥ (U *ᵥ star v) = star (v ⬝ᵥ (U *ᵥ g)) := by
      have := form_symm hU.1 (star g) v
      rwa [star_star] at this
    rw [quad, quad, quad, star_add, star_star, mulVec_add, add_dotProduct, dotProduct_add,
      dotProduct_add, h2, hUg, Complex.add_re, Complex.add_re, Complex.add_re, Complex.star_def,
      Complex.conj_re]
    ring
  set xi := quad U (star eta) with hxid
  have hxih : hUh U eta = xi := by
    rw [hUh, hxid, quad, star_star, max_eq_left]
    have := hxi.le
    rwa [hxid, quad, star_star] at this
  set z := star eta ⬝ᵥ (U *ᵥ g) with hz
  obtain ⟨hc0, hcmin⟩ := vcdCoeff_min hxi z
  set c₀ := vcdCoeff (fun x => x = 0) xi z with hc₀
  set v₀ := star (c₀ • eta - g) with hv₀
  have hrun : vcdStep (fun x => x = 0) R W (i, k) = .ok (Function.update W i ((W i).updateRow k v₀)) := by
    simp only [vcdStep, hgam, ← hUd, solveVec_ok hWU, solveVec_ok hUu, bind, Except.bind, ← heta, ← hg, hxih,
      ← hz, ← hc₀, ← hv₀]
  have hdet : ∀ v, ((W i).updateRow k v).det = (W i).det * (v ⬝ᵥ (U *ᵥ eta)) :=
    fun v => det_updateRow_eq hWeta (hW i) v
  -- coordinates of a row: component along `eta` after completing the square
  have hval : ∀ v : Fin n → ℂ, ∃ c : ℂ,
      v ⬝ᵥ (U *ᵥ eta) = star (c * xi - z) ∧
      quad U v + 2 * (v ⬝ᵥ gamma).re = ‖c‖ ^ 2 * xi - quad U (star g) + quad U (v + star g - star (c • eta)) := by
    intro v
    set u := v + star g with hu
    set c := star ((u ⬝ᵥ (U *ᵥ eta)) / (xi : ℂ)) with hc
    have hxc : (xi : ℂ) ≠ 0 := by exact_mod_cast hxi.ne'
    refine ⟨c, ?_, ?_⟩
    · have hsz : star z = star g ⬝ᵥ (U *ᵥ eta) := by
        have := form_symm hU.1 (star g) (star eta)
        rw [star_star, star_star] at this
        rw [this, hz]
      rw [star_sub, hsz, star_mul', hc, star_star, Complex.star_def, Complex.conj_ofReal, div_mul_cancel₀ _ hxc,
        hu, add_dotProduct, add_sub_cancel_right]
    · have h1 : quad U v + 2 * (v ⬝ᵥ gamma).re = quad U u - quad U (star g) := hsquare v
      have hxx : star eta ⬝ᵥ (U *ᵥ eta) = (xi : ℂ) := by
        have := quad_eq hU.1 (star eta)
        rwa [star_star] at this
      have h3 : (u - star (c • eta)) ⬝ᵥ (U *ᵥ star (star (c • eta))) = 0 := by
        rw [star_star, mulVec_smul, dotProduct_smul, sub_dotProduct, star_smul, smul_dotProduct, hxx, hc, star_star,
          smul_eq_mul, smul_eq_mul, div_mul_cancel₀ _ hxc, sub_self, mul_zero]
      have h4 := quad_add_of_orth hU.1 h3
      rw [sub_add_cancel, star_smul, quad_smul, norm_star, ← hxid, ← star_smul] at h4
      rw [h1, h4]
      ring
  have hv₀eta : v₀ ⬝ᵥ (U *ᵥ eta) = star (c₀ * xi - z) := by
    have hsz : star z = star g ⬝ᵥ (U *ᵥ eta) := by
      have := form_symm hU.1 (star g) (star eta)
      rw [star_star, star_star] at this
      rw [this, hz]
    have hxx : star eta ⬝ᵥ (U *ᵥ eta) = (xi : ℂ) := by
      have := quad_eq hU.1 (star eta)
      rwa [star_star] at this
    rw [hv₀, star_sub, star_smul, sub_dotProduct, smul_dotProduct, hxx, star_sub, hsz, star_mul', Complex.star_def,
      Complex.conj_ofReal, smul_eq_mul]
  have hv₀val : quad U v₀ + 2 * (v₀ ⬝ᵥ gamma).re = ‖c₀‖ ^ 2 * xi - quad U (star g) := by
    have h1 : v₀ + star g = star (c₀ • eta) := by rw [hv₀, star_sub, sub_add_cancel]
    rw [hsquare, h1, star_smul, quad_smul, norm_star, ← hxid]
  have hWn : 0 < ‖(W i).det‖ := norm_pos_iff.mpr (hW i).ne_zero
  refine ⟨_, hrun, fun p => ?_, fun p l hpl => ?_, fun v hv => ?_⟩
  · by_cases hp : p = i
    · rw [hp, Function.update_self, hdet, hv₀eta]
      exact (hW i).mul (isUnit_iff_ne_zero.mpr (star_ne_zero.mpr hc0))
    · rw [Function.update_of_ne hp]; exact hW p
  · by_cases hp : p = i
    · rw [hp, Function.update_self, updateRow_ne]
      intro hl
      exact hpl (by rw [hp, hl])
    · rw [Function.update_of_ne hp]
  · obtain ⟨C, hC⟩ := blockLoss_update R hR W i k
    obtain ⟨c, h1, h2⟩ := hval v
    rw [hC, hC, hdet, hdet, hv₀eta, h1, ← hgamma, ← hUd, hv₀val, norm_mul, norm_mul, norm_star, norm_star]
    have hcn : c * xi - z ≠ 0 := by
      rw [hdet, h1] at hv
      exact star_ne_zero.mp (right_ne_zero_of_mul hv.ne_zero)
    rw [Real.log_mul hWn.ne' (norm_pos_iff.mpr hc0).ne', Real.log_mul hWn.ne' (norm_pos_iff.mpr hcn).ne']
    obtain ⟨h3, h4⟩ := hcmin c hcn
    have hres := quad_nonneg hU.posSemidef (v + star g - star (c • eta))
    refine ⟨by linarith, fun hvk heq => ?_⟩
    have hr0 : quad U (v + star g - star (c • eta)) = 0 := le_antisymm (by linarith) hres
    have hu : v + star g = star (c • eta) := by
      by_contra hne
      exact (quad_pos hU (sub_ne_zero.mpr hne)).ne' hr0
    have hone : c * xi - z = 1 := by
      have : v ⬝ᵥ (U *ᵥ eta) = 1 := by
        rw [hvk]
        have := congrFun hWeta k
        rwa [Pi.single_eq_same] at this
      rw [this] at h1
      have := congrArg star h1
      rwa [star_star, star_one, eq_comm] at this
    have hcc : c = c₀ := h4 (by linarith) fun hz0 => by
      rw [hz0, sub_zero] at hone
      have hce : c = ((1 / xi : ℝ) : ℂ) := by
        push_cast
        rw [eq_div_iff (by exact_mod_cast hxi.ne')]
        exact hone
      rw [hce, Complex.norm_real, Real.norm_eq_abs, abs_of_pos (by positivity)]
    have hv0 : v₀ = W i k := by
      rw [hv₀, ← hcc, star_sub, ← hu, hvk, add_sub_cancel_right]
    rw [hv0, updateRow_eq_self, Function.update_eq_self]

/-- C35: one step of `update_by_block_decomposition_vcd` succeeds, keeps the filters invertible and writes the
global minimiser of the block objective over the updated row. -/
theorem C35_step_optimal (R : Fin b → Fin b → Fin n → Mat n ℂ) (hR : ∀ i j k, R i j k = (R j i k)ᴴ)
    (hpd : ∀ i k, (R i i k).PosDef) (W : Fin b → Mat n ℂ) (hW : ∀ i, IsUnit (W i).det) (i : Fin b)
    (k : Fin n) :
    ∃ W', vcdStep (fun x => x = 0) R W (i, k) = .ok W' ∧ (∀ i, IsUnit (W' i).det) ∧
      (∀ p l, (p, l) ≠ (i, k) → W' p l = W p l) ∧
      ∀ v : Fin n → ℂ, IsUnit ((W i).updateRow k v).det →
        blockLoss R W' ≤ blockLoss R (Function.update W i ((W i).updateRow k v)) := by
  obtain ⟨W', h1, h2, h3, h4⟩ := vcdStep_core R hR hpd W hW i k
  exact ⟨W', h1, h2, h3, fun v hv => (h4 v hv).1⟩

/-- C35: a whole sweep of `update_by_block_decomposition_vcd` with the default singularity test succeeds, keeps
every filter of the block invertible and never increases the block objective. -/
theorem C35_sweep (R : Fin b → Fin b → Fin n → Mat n ℂ) (hR : ∀ i j k, R i j k = (R j i k)ᴴ)
    (hpd : ∀ i k, (R i i k).PosDef) (W : Fin b → Mat n ℂ) (hW : ∀ i, IsUnit (W i).det) :
    ∃ W', vcd (fun x => x = 0) R W = .ok W' ∧ (∀ i, IsUnit (W' i).det) ∧ blockLoss R W' ≤ blockLoss R W := by
  obtain ⟨V, h0, hrun, hQ, hP⟩ := foldlM_trace (vcdStep (fun x => x = 0) R)
    (fun M => ∀ i, IsUnit (M i).det) (fun _ M M' => blockLoss R M' ≤ blockLoss R M)
    ((List.finRange b).flatMap fun i => (List.finRange n).map fun k => (i, k)) (fun M p _ hM => by
      obtain ⟨M', h1, h2, -, h3⟩ := C35_step_optimal R hR hpd M hM p.1 p.2
      refine ⟨M', h1, h2, ?_⟩
      have := h3 (M p.1 p.2) (by rw [updateRow_eq_self]; exact hM p.1)
      rwa [updateRow_eq_self, Function.update_eq_self] at this) W hW
  refine ⟨_, hrun, hP _ le_rfl, ?_⟩
  conv_rhs => rw [← h0]
  exact le_of_trace (blockLoss R) V _ fun i hi => hQ i hi

/-- Non-vacuous: two bins, two sources, coupled bins, a filter that is not diagonal. -/
example : ∃ (R : Fin 2 → Fin 2 → Fin 2 → Mat 2 ℂ) (W : Fin 2 → Mat 2 ℂ),
    (∀ i j k, R i j k = (R j i k)ᴴ) ∧ (∀ i k, (R i i k).PosDef) ∧ (∀ i, IsUnit (W i).det) ∧
      R 0 1 0 ≠ 0 ∧ W 0 0 1 ≠ 0 := by
  refine ⟨fun i j _ => if i = j then diagonal ![4, 1] else 1, fun _ => !![1, 1; 0, 1], ?_, ?_, ?_, ?_, ?_⟩
  · intro i j k
    by_cases h : i = j
    · simp only [if_pos h, if_pos h.symm, diagonal_conjTranspose]
      congr 1
      funext l
      fin_cases l <;> simp
    · simp [if_neg h, if_neg (Ne.symm h)]
  · intro i k
    simp only [if_pos]
    refine PosDef.diagonal fun i => ?_
    fin_cases i <;> simp
  · intro i; simp [det_fin_two]
  · simp
  · simp

end Verif.Spatial
