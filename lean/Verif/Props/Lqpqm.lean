import Verif.Lemmas.Lqpqm
import Verif.Lemmas.Numpy
import Verif.Model.Special

/-!
# C55: the LQPQM solver

The problem: minimise `‖q‖² - log ((q + v)ᴴ H (q + v) + z)`.
-/

namespace Verif.Lqpqm

open Matrix Verif.Linalg
open scoped ComplexOrder

/-- The objective in the documentation of `lqpqm2`. -/
noncomputable def objective {n : ℕ} (H : Mat n ℂ) (v : Fin n → ℂ) (z : ℝ) (q : Fin n → ℂ) : ℝ :=
  ∑ i, ‖q i‖ ^ 2 - Real.log ((star (q + v) ⬝ᵥ H *ᵥ (q + v)).re + z)

/-- `q` minimises the objective over its domain. -/
def IsMinimiser {n : ℕ} (H : Mat n ℂ) (v : Fin n → ℂ) (z : ℝ) (q : Fin n → ℂ) : Prop :=
  0 < (star (q + v) ⬝ᵥ H *ᵥ (q + v)).re + z ∧
    ∀ q', 0 < (star (q' + v) ⬝ᵥ H *ᵥ (q' + v)).re + z → objective H v z q ≤ objective H v z q'

/-! ## The largest root gives the minimiser -/

theorem scalar_min {l p : ℝ} (hp : p ≤ l) {a w : ℂ} (h : (l : ℂ) * a = p * w) (d : ℂ) :
    l * ‖a‖ ^ 2 - p * ‖w‖ ^ 2 ≤ l * ‖a + d‖ ^ 2 - p * ‖w + d‖ ^ 2 := by
  have hre := congrArg Complex.re h
  have him := congrArg Complex.im h
  simp only [Complex.mul_re, Complex.mul_im, Complex.ofReal_re, Complex.ofReal_im, zero_mul, sub_zero, add_zero] at hre him
  simp only [Complex.sq_norm, Complex.normSq_apply, Complex.add_re, Complex.add_im]
  have h1 : 0 ≤ (l - p) * (d.re * d.re + d.im * d.im) :=
    mul_nonneg (by linarith) (add_nonneg (mul_self_nonneg _) (mul_self_nonneg _))
  have h2 : d.re * (l * a.re) = d.re * (p * w.re) := by rw [hre]
  have h3 : d.im * (l * a.im) = d.im * (p * w.im) := by rw [him]
  nlinarith

/-- In eigenvector coordinates. -/
theorem coord_min {n : ℕ} {phi : Fin n → ℝ} {l z : ℝ} (hl : 0 < l) (hphi : ∀ i, phi i ≤ l) {a v : Fin n → ℂ}
    (ha : ∀ i, (l : ℂ) * a i = phi i * (a i + v i)) (hz : ∑ i, phi i * ‖a i + v i‖ ^ 2 + z = l) (b : Fin n → ℂ)
    (hb : 0 < ∑ i, phi i * ‖b i + v i‖ ^ 2 + z) :
    ∑ i, ‖a i‖ ^ 2 - Real.log (∑ i, phi i * ‖a i + v i‖ ^ 2 + z) ≤
      ∑ i, ‖b i‖ ^ 2 - Real.log (∑ i, phi i * ‖b i + v i‖ ^ 2 + z) := by
  have h1 : ∑ i, (l * ‖a i‖ ^ 2 - phi i * ‖a i + v i‖ ^ 2) ≤ ∑ i, (l * ‖b i‖ ^ 2 - phi i * ‖b i + v i‖ ^ 2) :=
    Finset.sum_le_sum fun i _ => by
      have := scalar_min (hphi i) (ha i) (b i - a i)
      rwa [add_sub_cancel, show a i + v i + (b i - a i) = b i + v i by ring] at this
  rw [Finset.sum_sub_distrib, Finset.sum_sub_distrib, ← Finset.mul_sum, ← Finset.mul_sum] at h1
  rw [hz]
  have h2 : Real.log (∑ i, phi i * ‖b i + v i‖ ^ 2 + z) ≤
      Real.log l + ((∑ i, phi i * ‖b i + v i‖ ^ 2 + z) / l - 1) := by
    have := Real.log_le_sub_one_of_pos (div_pos hb hl)
    rw [Real.log_div hb.ne' hl.ne'] at this
    linarith
  have h3 : l * (∑ i, ‖a i‖ ^ 2) ≤ l * (∑ i, ‖b i‖ ^ 2 - ((∑ i, phi i * ‖b i + v i‖ ^ 2 + z) / l - 1)) := by
    rw [mul_sub, mul_sub, mul_div_cancel₀ _ hl.ne']
    linarith
  have h4 := le_of_mul_le_mul_left h3 hl
  linarith

/-- Coordinates with respect to the eigenvectors. -/
theorem norm_coord {n : ℕ} {P : Mat n ℂ} (hP : Pᴴ * P = 1) (q : Fin n → ℂ) :
    ∑ i, ‖(Pᴴ *ᵥ q) i‖ ^ 2 = ∑ i, ‖q i‖ ^ 2 := by
  have hP' : P * Pᴴ = 1 := mul_eq_one_comm.1 hP
  have key : ∀ x : Fin n → ℂ, ((∑ i, ‖x i‖ ^ 2 : ℝ) : ℂ) = star x ⬝ᵥ x := by
    intro x
    rw [dotProduct, Complex.ofReal_sum]
    refine Finset.sum_congr rfl fun i _ => ?_
    rw [Complex.ofReal_pow, ← Complex.conj_mul']
    rfl
  apply Complex.ofReal_injective
  rw [key, key, star_mulVec, conjTranspose_conjTranspose, dotProduct_mulVec, vecMul_vecMul, hP', vecMul_one]

theorem quad_coord {n : ℕ} {H P : Mat n ℂ} {phi : Fin n → ℝ} (h : EighSpec H phi P) (q : Fin n → ℂ) :
    (star q ⬝ᵥ H *ᵥ q).re = ∑ i, phi i * ‖(Pᴴ *ᵥ q) i‖ ^ 2 := by
  have e : star q ⬝ᵥ H *ᵥ q = star (Pᴴ *ᵥ q) ⬝ᵥ (diagonal fun i => ((phi i : ℝ) : ℂ)) *ᵥ (Pᴴ *ᵥ q) := by
    rw [star_mulVec, conjTranspose_conjTranspose, ← dotProduct_mulVec, mulVec_mulVec, mulVec_mulVec]
    congr 2
    conv_lhs => rw [h.decomp]
    rfl
  rw [e, dotProduct, Complex.re_sum]
  refine Finset.sum_congr rfl fun i _ => ?_
  rw [mulVec_diagonal, Pi.star_apply]
  have : star ((Pᴴ *ᵥ q) i) * (((phi i : ℝ) : ℂ) * (Pᴴ *ᵥ q) i) =
      ((phi i * ‖(Pᴴ *ᵥ q) i‖ ^ 2 : ℝ) : ℂ) := by
    rw [Complex.ofReal_mul, Complex.ofReal_pow, ← Complex.conj_mul']
    show (starRingEnd ℂ) _ * _ = _
    ring
  rw [this, Complex.ofReal_re]

/-- A vector that is stationary for a multiplier above all eigenvalues is a minimiser. -/
theorem isMinimiser_of_coord {n : ℕ} {H P : Mat n ℂ} {phi : Fin n → ℝ} (h : EighSpec H phi P) {v q : Fin n → ℂ}
    {l z : ℝ} (hl : 0 < l) (hphi : ∀ i, phi i ≤ l)
    (hq : ∀ i, (l : ℂ) * (Pᴴ *ᵥ q) i = phi i * ((Pᴴ *ᵥ q) i + (Pᴴ *ᵥ v) i))
    (hz : ∑ i, phi i * ‖(Pᴴ *ᵥ q) i + (Pᴴ *ᵥ v) i‖ ^ 2 + z = l) : IsMinimiser H v z q := by
  have e : ∀ q', (star (q' + v) ⬝ᵥ H *ᵥ (q' + v)).re = ∑ i, phi i * ‖(Pᴴ *ᵥ q') i + (Pᴴ *ᵥ v) i‖ ^ 2 := by
    intro q'
    rw [quad_coord h, mulVec_add]
    rfl
  refine ⟨by rw [e, hz]; exact hl, fun q' hq' => ?_⟩
  rw [objective, objective, e, e, ← norm_coord h.unitary, ← norm_coord h.unitary q']
  rw [e] at hq'
  exact coord_min hl hphi hq hz _ hq'

/-! ## What the root finder returns -/

/-- The regular case for one bin: non-negative eigenvalues with the largest one `top`, flooring does not act, and the
component of `v` along the top eigenvector is not negligible. A floor of zero (`flooring_fn=None`) is allowed. -/
structure Regular {n : ℕ} (floor : ℝ → ℝ) (phi : Fin (n + 1) → ℝ) (v : Fin (n + 1) → ℂ) (z top : ℝ) : Prop where
  eps : 0 ≤ floor 0
  top_pos : 0 < top
  active : ∀ i, phi i = top → 0 < floor 0 ∨ v i ≠ 0
  z_nonneg : 0 ≤ z
  nonneg : ∀ i, 0 ≤ phi i
  le_top : ∀ i, phi i ≤ top
  floor_top : floor top = top
  attained : ∃ i, phi i = top ∧ floor 0 ≤ phi i * ‖v i‖ ^ 2
  mask : ∀ i, floor 0 ≤ phi i * ‖v i‖ ^ 2 ∨ phi i * ‖v i‖ ^ 2 = 0

theorem npArgmax_le {n : ℕ} (x : Fin (n + 1) → ℝ) (i : Fin (n + 1)) : x i ≤ x (npArgmax x) := by
  rw [npArgmax]
  cases h : (List.finRange (n + 1)).argmax x with
  | none => simp [List.argmax_eq_none] at h
  | some m => exact List.le_of_mem_argmax (List.mem_finRange i) h

variable {n : ℕ} {floor : ℝ → ℝ} {phi : Fin (n + 1) → ℝ} {v : Fin (n + 1) → ℂ} {z top : ℝ}

/-- The coefficients the iteration works with. -/
theorem coef_spec (h : Regular floor phi v z top) :
    let k := coef floor true phi v z
    k.phi_max = 1 ∧ k.scale = top ∧ k.z = z / top ∧ Sec k.phi 1 ∧ k.v_max ≠ 0 ∧
      (∃ i, k.phi i = 1 ∧ k.v i = k.v_max) ∧
      ∀ x, fn x k.phi k.v k.z = fn (x * top) phi (fun i => v i / top) z / top := by
  have htop := h.top_pos
  obtain ⟨m, hm⟩ : ∃ m, m = npArgmax fun i => if floor 0 ≤ phi i * ‖v i‖ ^ 2 then phi i else 0 := ⟨_, rfl⟩
  have hmax : (if floor 0 ≤ phi m * ‖v m‖ ^ 2 then phi m else 0) = top := by
    apply le_antisymm
    · split_ifs
      · exact h.le_top m
      · exact htop.le
    · obtain ⟨i, h1, h2⟩ := h.attained
      have := npArgmax_le (fun i => if floor 0 ≤ phi i * ‖v i‖ ^ 2 then phi i else 0) i
      rw [← hm] at this
      rwa [if_pos h2, h1] at this
  have hmm : floor 0 ≤ phi m * ‖v m‖ ^ 2 := by
    by_contra h0
    rw [if_neg h0] at hmax
    linarith
  have hpm : phi m = top := by rwa [if_pos hmm] at hmax
  have hvm : v m ≠ 0 := by
    rcases h.active m hpm with h' | h'
    · intro h0
      rw [h0] at hmm
      simp only [norm_zero, ne_eq, OfNat.ofNat_ne_zero, not_false_eq_true, zero_pow, mul_zero] at hmm
      linarith
    · exact h'
  have hk : coef floor true phi v z = ⟨fun i => (if floor 0 ≤ phi i * ‖v i‖ ^ 2 then phi i else 0) / top,
      fun i => (if floor 0 ≤ phi i * ‖v i‖ ^ 2 then v i else 0) / top, z / top, 1, v m / top, top⟩ := by
    rw [coef]
    simp only [if_true]
    rw [← hm, hmax, h.floor_top, if_pos hmm, div_self htop.ne']
  have htc : (top : ℂ) ≠ 0 := by exact_mod_cast htop.ne'
  intro k
  have hk : k = _ := hk
  clear_value k
  subst hk
  refine ⟨rfl, rfl, rfl, ⟨one_pos, fun i => ?_, fun i => ?_⟩, div_ne_zero hvm htc, ⟨m, ?_, ?_⟩, fun x => ?_⟩
  · dsimp only
    have := h.nonneg i
    split_ifs <;> positivity
  · dsimp only
    rw [div_le_one htop]
    split_ifs
    · exact h.le_top i
    · exact htop.le
  · dsimp only
    rw [if_pos hmm, hpm, div_self htop.ne']
  · dsimp only
    rw [if_pos hmm]
  · rw [eq_div_iff htop.ne', fn, fn]
    dsimp only
    rw [Finset.mul_sum, Finset.mul_sum, add_mul, sub_mul, Finset.sum_mul, div_mul_cancel₀ _ htop.ne']
    congr 2
    refine Finset.sum_congr rfl fun i _ => ?_
    have hn : ‖v i / (top : ℂ)‖ ^ 2 = ‖v i‖ ^ 2 / top ^ 2 := by
      rw [norm_div, div_pow, Complex.norm_real, Real.norm_eq_abs, sq_abs]
    by_cases hi : floor 0 ≤ phi i * ‖v i‖ ^ 2
    · rw [if_pos hi, if_pos hi, hn]
      by_cases hx : x * top - phi i = 0
      · have hx' : x - phi i / top = 0 := by
          field_simp
          linarith
        rw [hx, hx']
        simp
      · have hx' : x - phi i / top ≠ 0 := by
          intro h0
          apply hx
          field_simp at h0
          linarith
        field_simp
    · have h0 := (h.mask i).resolve_left hi
      rw [if_neg hi, if_neg hi, hn]
      have : phi i * (‖v i‖ ^ 2 / top ^ 2) = 0 := by rw [← mul_div_assoc, h0, zero_div]
      rw [this]
      simp

/-- The initial value is between the pole and the root. -/
theorem start_left (h : Regular floor phi v z top) :
    Left (coef floor true phi v z) (start floor (coef floor true phi v z)) := by
  obtain ⟨h1, -, h3, h4, h5, ⟨i, h6, h7⟩, -⟩ := coef_spec h
  generalize coef floor true phi v z = k at *
  have hz : 0 ≤ k.z := by rw [h3]; exact div_nonneg h.z_nonneg h.top_pos.le
  have hsec : Sec k.phi k.phi_max := by rw [h1]; exact h4
  obtain ⟨r, hr⟩ : ∃ r, r = findLargestRoot (-(k.phi_max * ‖k.v_max‖ ^ 2 + 2 * k.phi_max + k.z))
    ((k.phi_max + 2 * k.z) * k.phi_max) (-k.phi_max ^ 2 * k.z) := ⟨_, rfl⟩
  have hs : start floor k = max (if k.phi_max < r then r else k.phi_max + floor 0) k.z := by
    rw [start, hr]
  obtain ⟨r1, r2, -⟩ := start_root (p := k.phi_max) (a := ‖k.v_max‖) (z := k.z) (by rw [h1]; exact one_pos)
    (norm_ne_zero_iff.2 h5) hz
  rw [← hr] at r1 r2
  rw [if_pos r1] at hs
  rw [hs]
  have hrp : 0 < r - k.phi_max := by linarith
  -- a lower bound by the single term of the cubic
  have hlow : ∀ x, k.phi_max < x → x ^ 2 * (k.phi_max * ‖k.v_max‖ ^ 2 / (x - k.phi_max) ^ 2) - x + k.z ≤
      fn x k.phi k.v k.z := by
    intro x hx
    rw [fn]
    have : k.phi_max * ‖k.v_max‖ ^ 2 / (x - k.phi_max) ^ 2 ≤ ∑ i, k.phi i * ‖k.v i‖ ^ 2 / (x - k.phi i) ^ 2 := by
      have := Finset.single_le_sum (f := fun i => k.phi i * ‖k.v i‖ ^ 2 / (x - k.phi i) ^ 2)
        (fun j _ => div_nonneg (mul_nonneg (h4.nonneg j) (by positivity)) (sq_nonneg _)) (Finset.mem_univ i)
      simpa only [h6, h7, h1] using this
    have := mul_le_mul_of_nonneg_left this (sq_nonneg x)
    linarith
  refine ⟨hsec, lt_max_of_lt_left r1, ?_⟩
  rcases max_choice r k.z with e | e
  · rw [e]
    refine le_trans (le_of_eq ?_) (hlow r r1)
    have : r ^ 2 * (k.phi_max * ‖k.v_max‖ ^ 2 / (r - k.phi_max) ^ 2) = r - k.z := by
      field_simp
      linarith
    linarith
  · rw [e]
    have hzr : k.phi_max < k.z := r1.trans_le (e ▸ le_max_left r k.z)
    refine le_trans ?_ (hlow _ hzr)
    have : 0 ≤ k.z ^ 2 * (k.phi_max * ‖k.v_max‖ ^ 2 / (k.z - k.phi_max) ^ 2) := by
      have : 0 ≤ k.phi_max := by rw [h1]; exact zero_le_one
      positivity
    linarith

variable {F : Type} {phi : F → Fin (n + 1) → ℝ} {v : F → Fin (n + 1) → ℂ} {z top : F → ℝ}

theorem solve_of_loop {k : F → Coef n} (hk : k = fun f => coef floor true (phi f) (v f) (z f)) {max_iter i : ℕ}
    {lamb : F → ℝ} (hloop : loop floor k max_iter max_iter none (fun f => start floor (k f)) = (some i, lamb)) :
    ∃ w, solveEquation floor max_iter true phi v z = .ok (fun f => lamb f * (k f).scale, w) ∧
      (w = true ↔ i = max_iter - 1 ∧ ¬ converged floor k lamb) := by
  classical
  subst hk
  refine ⟨decide (i = max_iter - 1 ∧ ¬ converged floor (fun f => coef floor true (phi f) (v f) (z f)) lamb), ?_,
    decide_eq_true_iff⟩
  simp only [solveEquation, hloop]

/-- `solve_equation` for every number of iterations: the value is above all poles and not above the root of the secular
equation with `v / top`, and there is no warning exactly if the residual is at most `top * floor 0` in all bins. -/
theorem solve_spec (h : ∀ f, Regular floor (phi f) (v f) (z f) (top f)) {max_iter : ℕ} (hm : 0 < max_iter) :
    ∃ lamb w, solveEquation floor max_iter true phi v z = .ok (lamb, w) ∧
      (∀ f, top f < lamb f ∧ 0 ≤ fn (lamb f) (phi f) (fun i => v f i / top f) (z f)) ∧
      (w = false ↔ ∀ f, fn (lamb f) (phi f) (fun i => v f i / top f) (z f) ≤ top f * floor 0) := by
  obtain ⟨k, hk⟩ : ∃ k, k = fun f => coef floor true (phi f) (v f) (z f) := ⟨_, rfl⟩
  obtain ⟨j, -, h1, h2, h3⟩ := loop_spec (floor := floor) (k := k) max_iter max_iter none
    (fun f => start floor (k f)) le_rfl
  obtain ⟨i, h4, h5⟩ := h3 hm
  obtain ⟨lamb, hlamb⟩ : ∃ lamb, lamb = (loop floor k max_iter max_iter none fun f => start floor (k f)).2 := ⟨_, rfl⟩
  rw [← hlamb] at h1 h2 h5
  have hloop : loop floor k max_iter max_iter none (fun f => start floor (k f)) = (some i, lamb) := by
    rw [hlamb, ← h4]
  obtain ⟨w, hsol, hw⟩ := solve_of_loop hk hloop
  have hleft : ∀ f, Left (k f) (lamb f) := by
    intro f
    rw [h1, hk]
    exact (start_left (h f)).iterate j
  have hfn : ∀ f, fn (lamb f) (k f).phi (k f).v (k f).z =
      fn (lamb f * top f) (phi f) (fun i => v f i / top f) (z f) / top f := by
    intro f
    rw [hk]
    exact (coef_spec (h f)).2.2.2.2.2.2 _
  have hscale : ∀ f, (k f).scale = top f := by
    intro f
    rw [hk]
    exact (coef_spec (h f)).2.1
  have hpm : ∀ f, (k f).phi_max = 1 := by
    intro f
    rw [hk]
    exact (coef_spec (h f)).1
  refine ⟨_, _, hsol, fun f => ⟨?_, ?_⟩, ?_⟩
  · have := (hleft f).above
    rw [hpm] at this
    rw [hscale]
    have := mul_lt_mul_of_pos_right this (h f).top_pos
    linarith
  · rw [hscale]
    have := (hleft f).nonneg
    rw [hfn] at this
    have htop := (h f).top_pos
    have := mul_nonneg this htop.le
    rwa [div_mul_cancel₀ _ htop.ne'] at this
  · have hconv : converged floor k lamb ↔ ∀ f, fn (lamb f * (k f).scale) (phi f) (fun i => v f i / top f) (z f) ≤
        top f * floor 0 := by
      refine forall_congr' fun f => ?_
      rw [abs_of_nonneg (hleft f).nonneg, hfn, hscale, div_le_iff₀ (h f).top_pos, mul_comm (floor 0)]
    rw [← hconv, ← Bool.not_eq_true, hw]
    constructor
    · intro hnot
      by_contra hc
      exact hnot ⟨h5 hc, hc⟩
    · exact fun hc hh => hh.2 hc

/-- With enough iterations there is no warning. -/
theorem solve_eventually [Finite F] (heps : 0 < floor 0) (h : ∀ f, Regular floor (phi f) (v f) (z f) (top f)) :
    ∃ N, ∀ max_iter, N ≤ max_iter → ∃ lamb, solveEquation floor max_iter true phi v z = .ok (lamb, false) := by
  obtain ⟨k, hk⟩ : ∃ k, k = fun f => coef floor true (phi f) (v f) (z f) := ⟨_, rfl⟩
  have hleft : ∀ f, Left (k f) (start floor (k f)) := by
    intro f
    rw [hk]
    exact start_left (h f)
  have hex : ∀ f, ∃ N, ∀ m, N ≤ m → fn ((newton (k f))^[m] (start floor (k f))) (k f).phi (k f).v (k f).z ≤ floor 0 :=
    fun f => (hleft f).converges heps
  choose N hN using hex
  have := Fintype.ofFinite F
  refine ⟨Finset.univ.sup N + 1, fun max_iter hm => ?_⟩
  obtain ⟨j, hj, h1, h2, h3⟩ := loop_spec (floor := floor) (k := k) max_iter max_iter none
    (fun f => start floor (k f)) le_rfl
  obtain ⟨i, h4, h5⟩ := h3 (by omega)
  have hc : converged floor k (loop floor k max_iter max_iter none fun f => start floor (k f)).2 := by
    by_cases hlt : j < max_iter
    · exact h2 hlt
    · have hj' : j = max_iter := by omega
      rw [h1, hj']
      intro f
      rw [abs_of_nonneg ((hleft f).iterate _).nonneg]
      refine hN f _ ?_
      have := Finset.le_sup (f := N) (Finset.mem_univ f)
      omega
  have hloop : loop floor k max_iter max_iter none (fun f => start floor (k f)) =
      (some i, (loop floor k max_iter max_iter none fun f => start floor (k f)).2) := by
    rw [← h4]
  generalize (loop floor k max_iter max_iter none fun f => start floor (k f)).2 = lamb at hc hloop
  obtain ⟨w, hsol, hw⟩ := solve_of_loop hk hloop
  have hwf : w = false := by
    rw [← Bool.not_eq_true, hw]
    exact fun hh => hh.2 hc
  rw [hwf] at hsol
  exact ⟨_, hsol⟩

/-- For a single eigenvalue the cubic is the secular equation. -/
theorem start_single {phi : Fin 1 → ℝ} {v : Fin 1 → ℂ} {z top : ℝ} (h : Regular floor phi v z top) :
    fn (start floor (coef floor true phi v z)) (coef floor true phi v z).phi (coef floor true phi v z).v
      (coef floor true phi v z).z = 0 := by
  obtain ⟨h1, -, h3, h4, h5, ⟨i, h6, h7⟩, -⟩ := coef_spec h
  generalize coef floor true phi v z = k at *
  have hz : 0 ≤ k.z := by rw [h3]; exact div_nonneg h.z_nonneg h.top_pos.le
  obtain ⟨r, hr⟩ : ∃ r, r = findLargestRoot (-(k.phi_max * ‖k.v_max‖ ^ 2 + 2 * k.phi_max + k.z))
    ((k.phi_max + 2 * k.z) * k.phi_max) (-k.phi_max ^ 2 * k.z) := ⟨_, rfl⟩
  have hs : start floor k = max (if k.phi_max < r then r else k.phi_max + floor 0) k.z := by
    rw [start, hr]
  obtain ⟨r1, r2, -⟩ := start_root (p := k.phi_max) (a := ‖k.v_max‖) (z := k.z) (by rw [h1]; exact one_pos)
    (norm_ne_zero_iff.2 h5) hz
  rw [← hr] at r1 r2
  rw [if_pos r1] at hs
  have hi : i = 0 := Fin.ext (by omega)
  subst hi
  rw [h1] at r1 r2
  have hrp : 0 < r - 1 := by linarith
  have e : r ^ 2 * (1 * ‖k.v_max‖ ^ 2 / (r - 1) ^ 2) = r - k.z := by
    field_simp
    linarith
  have hzr : k.z ≤ r := by
    have : 0 ≤ r ^ 2 * (1 * ‖k.v_max‖ ^ 2 / (r - 1) ^ 2) := by positivity
    linarith
  rw [hs, max_eq_left hzr, fn, Fin.sum_univ_one, h6, h7, e]
  ring

/-- Without an iteration `solve_equation` raises `NameError`. -/
theorem solve_zero (normalization : Bool) : solveEquation floor 0 normalization phi v z = .error .name := rfl

/-- For a single eigenvalue the initial value is the root. -/
theorem solve_single {phi : F → Fin 1 → ℝ} {v : F → Fin 1 → ℂ} (h : ∀ f, Regular floor (phi f) (v f) (z f) (top f))
    {max_iter : ℕ} (hm : 0 < max_iter) :
    ∃ lamb, solveEquation floor max_iter true phi v z = .ok (lamb, false) ∧
      ∀ f, top f < lamb f ∧ fn (lamb f) (phi f) (fun i => v f i / top f) (z f) = 0 := by
  obtain ⟨k, hk⟩ : ∃ k, k = fun f => coef floor true (phi f) (v f) (z f) := ⟨_, rfl⟩
  have hk' : ∀ f, k f = coef floor true (phi f) (v f) (z f) := fun f => by rw [hk]
  have hleft : ∀ f, Left (k f) (start floor (k f)) := by
    intro f
    rw [hk]
    exact start_left (h f)
  have hzero : ∀ f, fn (start floor (k f)) (k f).phi (k f).v (k f).z = 0 := by
    intro f
    rw [hk']
    exact start_single (h f)
  have hfix : ∀ f, newton (k f) (start floor (k f)) = start floor (k f) := by
    intro f
    have := (newton_spec (hleft f).sec (hleft f).above (hleft f).nonneg).1
    rw [this, hzero f, zero_div, sub_zero]
  obtain ⟨j, hj, h1, h2, h3⟩ := loop_spec (floor := floor) (k := k) max_iter max_iter none
    (fun f => start floor (k f)) le_rfl
  obtain ⟨i, h4, h5⟩ := h3 hm
  have h1' : (loop floor k max_iter max_iter none fun f => start floor (k f)).2 = fun f => start floor (k f) := by
    rw [h1]
    funext f
    exact Function.iterate_fixed (hfix f) j
  have hc : converged floor k fun f => start floor (k f) := by
    intro f
    rw [hzero f, abs_zero]
    exact (h f).eps
  have hloop : loop floor k max_iter max_iter none (fun f => start floor (k f)) =
      (some i, fun f => start floor (k f)) := by
    exact Prod.ext h4 h1'
  obtain ⟨w, hsol, hw⟩ := solve_of_loop hk hloop
  have hwf : w = false := by
    rw [← Bool.not_eq_true, hw]
    exact fun hh => hh.2 hc
  rw [hwf] at hsol
  refine ⟨_, hsol, fun f => ?_⟩
  · obtain ⟨c1, c2, -, -, -, -, c7⟩ := coef_spec (h f)
    have htop := (h f).top_pos
    have ha := (hleft f).above
    have hz := hzero f
    rw [hk'] at ha hz ⊢
    rw [c1] at ha
    rw [c7] at hz
    rw [c2]
    refine ⟨by have := mul_lt_mul_of_pos_right ha htop; linarith, ?_⟩
    exact (div_eq_zero_iff.1 hz).resolve_right htop.ne'

/-! ## `lqpqm2` -/

variable {H : F → Mat (n + 1) ℂ}

/-- The result of `lqpqm2` from the roots `lamb`. -/
theorem lqpqm2_eq (np : Numpy ℂ) (singular : ℝ → Prop) {max_iter : ℕ} {lamb w}
    (hs : solveEquation (F := {f // ¬ singular (Real.sqrt (∑ i, ‖v f i‖ ^ 2))}) floor max_iter true
      (fun f => (np.eigh (H f)).1) (fun f => vTilde (np.eigh (H f)).2 (v f)) (fun f => z f) = .ok (lamb, w)) :
    ∃ y, lqpqm2 np floor singular max_iter H v z = .ok (y, w) ∧
      (∀ f, ∀ hf : ¬ singular (Real.sqrt (∑ i, ‖v f i‖ ^ 2)),
        y f = yRegular (np.eigh (H f)).1 (np.eigh (H f)).2 (vTilde (np.eigh (H f)).2 (v f)) (lamb ⟨f, hf⟩)) ∧
      ∀ f, singular (Real.sqrt (∑ i, ‖v f i‖ ^ 2)) → y f = ySingular (np.eigh (H f)).1 (np.eigh (H f)).2 (z f) := by
  classical
  refine ⟨fun f => if hf : singular (Real.sqrt (∑ i, ‖v f i‖ ^ 2)) then
      ySingular (np.eigh (H f)).1 (np.eigh (H f)).2 (z f)
    else yRegular (np.eigh (H f)).1 (np.eigh (H f)).2 (vTilde (np.eigh (H f)).2 (v f)) (lamb ⟨f, hf⟩), ?_,
    fun f hf => dif_neg hf, fun f hf => dif_pos hf⟩
  simp only [lqpqm2, hs, bind, Except.bind]

/-- A bin with `v ≠ 0`: the result divided by the largest eigenvalue `top` is the minimiser for `v / top` and a constant
`z'` that differs from `z` by the residual of the root. -/
theorem yRegular_min {H : Mat (n + 1) ℂ} {phi : Fin (n + 1) → ℝ} {P : Mat (n + 1) ℂ} (h : EighSpec H phi P)
    {v : Fin (n + 1) → ℂ} {z top l : ℝ} (htop : 0 < top) (hle : ∀ i, phi i ≤ top) (hl : top < l) :
    IsMinimiser H (fun i => v i / top) (z - fn l phi (fun i => vTilde P v i / top) z)
      fun i => yRegular phi P (vTilde P v) l i / top := by
  have htc : (top : ℂ) ≠ 0 := by exact_mod_cast htop.ne'
  have hy : (Pᴴ *ᵥ fun i => yRegular phi P (vTilde P v) l i / top) =
      fun j => phi j * (vTilde P v j / top) / (l - phi j) := by
    have e : (fun i => yRegular phi P (vTilde P v) l i / (top : ℂ)) =
        P *ᵥ fun j => phi j * (vTilde P v j / top) / (l - phi j) := by
      funext i
      rw [yRegular, mulVec, dotProduct, Finset.sum_div]
      refine Finset.sum_congr rfl fun j _ => ?_
      ring
    rw [e, mulVec_mulVec, h.unitary, one_mulVec]
  have hv : (Pᴴ *ᵥ fun i => v i / (top : ℂ)) = fun j => vTilde P v j / top := by
    funext j
    rw [vTilde, mulVec, dotProduct, Finset.sum_div]
    refine Finset.sum_congr rfl fun i _ => ?_
    rw [conjTranspose_apply]
    ring
  have hd : ∀ i, (l : ℂ) - phi i ≠ 0 := by
    intro i
    have : l - phi i ≠ 0 := by have := hle i; linarith
    exact_mod_cast this
  have hsum : ∀ i, phi i * (vTilde P v i / top) / (l - phi i) + vTilde P v i / top =
      ((l / (l - phi i) : ℝ) : ℂ) * (vTilde P v i / top) := by
    intro i
    push_cast
    have := hd i
    field_simp
    ring
  refine isMinimiser_of_coord h (htop.trans hl) (fun i => (hle i).trans hl.le) (fun i => ?_) ?_
  · rw [hy, hv]
    dsimp only
    have := hd i
    rw [hsum]
    push_cast
    field_simp
  · rw [hy, hv]
    dsimp only
    have : ∀ i, phi i * ‖phi i * (vTilde P v i / top) / (l - phi i) + vTilde P v i / top‖ ^ 2 =
        phi i * ‖vTilde P v i / top‖ ^ 2 * (l / (l - phi i)) ^ 2 := by
      intro i
      rw [hsum, norm_mul, mul_pow, Complex.norm_real, Real.norm_eq_abs, sq_abs]
      ring
    rw [Finset.sum_congr rfl fun i _ => this i, fn_eq]
    ring

/-- The bins that go through the root finder are regular, with largest eigenvalue `top`. -/
def RegularBins (np : Numpy ℂ) (floor : ℝ → ℝ) (singular : ℝ → Prop) (H : F → Mat (n + 1) ℂ)
    (v : F → Fin (n + 1) → ℂ) (z top : F → ℝ) : Prop :=
  ∀ f, ¬ singular (Real.sqrt (∑ i, ‖v f i‖ ^ 2)) →
    Regular floor (np.eigh (H f)).1 (vTilde (np.eigh (H f)).2 (v f)) (z f) (top f)

/-- C55, what `lqpqm2` computes for every number of Newton iterations: `top` times the global minimiser for `v / top`
and a constant `z' ≤ z`. Without a warning `z'` differs from `z` by at most `top` times the flooring constant. -/
theorem C55_scaled (np : Numpy ℂ) (singular : ℝ → Prop) (hH : ∀ f, (H f).IsHermitian)
    (h : RegularBins np floor singular H v z top) {max_iter : ℕ} (hm : 0 < max_iter) :
    ∃ y w, lqpqm2 np floor singular max_iter H v z = .ok (y, w) ∧
      ∀ f, ¬ singular (Real.sqrt (∑ i, ‖v f i‖ ^ 2)) → ∃ z' ≤ z f, (w = false → z f - top f * floor 0 ≤ z') ∧
        IsMinimiser (H f) (fun i => v f i / top f) z' fun i => y f i / top f := by
  obtain ⟨lamb, w, h1, h2, h3⟩ := solve_spec (F := {f // ¬ singular (Real.sqrt (∑ i, ‖v f i‖ ^ 2))})
    (phi := fun f => (np.eigh (H f)).1) (v := fun f => vTilde (np.eigh (H f)).2 (v f)) (z := fun f => z f)
    (top := fun f => top f) (fun f => h f.1 f.2) hm
  obtain ⟨y, h4, h5, -⟩ := lqpqm2_eq np singular h1
  refine ⟨y, w, h4, fun f hf => ⟨z f - fn (lamb ⟨f, hf⟩) (np.eigh (H f)).1
    (fun i => vTilde (np.eigh (H f)).2 (v f) i / top f) (z f), ?_, ?_, ?_⟩⟩
  · have := (h2 ⟨f, hf⟩).2
    dsimp only at this
    linarith
  · intro hw
    have := h3.1 hw ⟨f, hf⟩
    dsimp only at this
    linarith
  · rw [h5 f hf]
    exact yRegular_min (z := z f) (np.eigh_spec _ (hH f)) (h f hf).top_pos (h f hf).le_top (h2 ⟨f, hf⟩).1

/-- C55: if the largest eigenvalue is one, `lqpqm2` returns the global minimiser of the documented problem for a constant
`z' ≤ z`; without a warning `z'` differs from `z` by at most the flooring constant. -/
theorem C55_minimiser (np : Numpy ℂ) (singular : ℝ → Prop) (hH : ∀ f, (H f).IsHermitian)
    (h : RegularBins np floor singular H v z fun _ => 1) {max_iter : ℕ} (hm : 0 < max_iter) :
    ∃ y w, lqpqm2 np floor singular max_iter H v z = .ok (y, w) ∧
      ∀ f, ¬ singular (Real.sqrt (∑ i, ‖v f i‖ ^ 2)) → ∃ z' ≤ z f, (w = false → z f - floor 0 ≤ z') ∧
        IsMinimiser (H f) (v f) z' (y f) := by
  obtain ⟨y, w, h1, h2⟩ := C55_scaled np singular hH h hm
  refine ⟨y, w, h1, fun f hf => ?_⟩
  obtain ⟨z', h3, h4, h5⟩ := h2 f hf
  refine ⟨z', h3, fun hw => by simpa using h4 hw, ?_⟩
  simpa using h5

/-- C55: with enough Newton iterations there is no warning. -/
theorem C55_converges [Finite F] (np : Numpy ℂ) (singular : ℝ → Prop) (heps : 0 < floor 0)
    (h : RegularBins np floor singular H v z top) :
    ∃ N, ∀ max_iter, N ≤ max_iter → ∃ y, lqpqm2 np floor singular max_iter H v z = .ok (y, false) := by
  obtain ⟨N, hN⟩ := solve_eventually (F := {f // ¬ singular (Real.sqrt (∑ i, ‖v f i‖ ^ 2))})
    (phi := fun f => (np.eigh (H f)).1) (v := fun f => vTilde (np.eigh (H f)).2 (v f)) (z := fun f => z f)
    (top := fun f => top f) heps (fun f => h f.1 f.2)
  refine ⟨N, fun max_iter hm => ?_⟩
  obtain ⟨lamb, h1⟩ := hN max_iter hm
  obtain ⟨y, h4, -⟩ := lqpqm2_eq np singular h1
  exact ⟨y, h4⟩

/-- C55: `max_iter=0` raises `NameError`. -/
theorem C55_no_iteration (np : Numpy ℂ) (singular : ℝ → Prop) :
    lqpqm2 np floor singular 0 H v z = .error .name := rfl

/-- C55: for `1 × 1` matrices (two sources) with entry one the minimiser is exact, for every number of iterations and
without a warning. -/
theorem C55_two_sources {H : F → Mat 1 ℂ} {v : F → Fin 1 → ℂ} (np : Numpy ℂ) (singular : ℝ → Prop)
    (hH : ∀ f, (H f).IsHermitian) (h : RegularBins np floor singular H v z fun _ => 1) {max_iter : ℕ}
    (hm : 0 < max_iter) :
    ∃ y, lqpqm2 np floor singular max_iter H v z = .ok (y, false) ∧
      ∀ f, ¬ singular (Real.sqrt (∑ i, ‖v f i‖ ^ 2)) → IsMinimiser (H f) (v f) (z f) (y f) := by
  obtain ⟨lamb, h1, h2⟩ := solve_single (F := {f // ¬ singular (Real.sqrt (∑ i, ‖v f i‖ ^ 2))})
    (phi := fun f => (np.eigh (H f)).1) (v := fun f => vTilde (np.eigh (H f)).2 (v f)) (z := fun f => z f)
    (top := fun f => 1) (fun f => h f.1 f.2) hm
  obtain ⟨y, h4, h5, -⟩ := lqpqm2_eq np singular h1
  refine ⟨y, h4, fun f hf => ?_⟩
  have := yRegular_min (v := v f) (z := z f) (np.eigh_spec _ (hH f)) one_pos (h f hf).le_top (h2 ⟨f, hf⟩).1
  have hz := (h2 ⟨f, hf⟩).2
  dsimp only at hz
  rw [hz] at this
  rw [h5 f hf]
  simpa using this

/-! ## The case `v = 0` -/

/-- The code takes the last row of the matrix of eigenvectors. If that row is the eigenvector of the largest eigenvalue,
the result is a minimiser. -/
theorem ySingular_min {H : Mat (n + 1) ℂ} {phi : Fin (n + 1) → ℝ} {P : Mat (n + 1) ℂ} (h : EighSpec H phi P) {z : ℝ}
    (hpos : 0 < phi (Fin.last n)) (hP : ∀ i, P (Fin.last n) i = P i (Fin.last n)) :
    IsMinimiser H 0 z (ySingular phi P z) := by
  have hle : ∀ i, phi i ≤ max z (phi (Fin.last n)) := fun i => le_max_of_le_right (h.sorted (Fin.le_last i))
  obtain ⟨s, hs⟩ : ∃ s, s = Real.sqrt (max ((max z (phi (Fin.last n)) - z) / phi (Fin.last n)) 0) := ⟨_, rfl⟩
  have hs2 : phi (Fin.last n) * s ^ 2 = max z (phi (Fin.last n)) - z := by
    have h0 : 0 ≤ (max z (phi (Fin.last n)) - z) / phi (Fin.last n) :=
      div_nonneg (by linarith [le_max_left z (phi (Fin.last n))]) hpos.le
    rw [hs, max_eq_left h0, Real.sq_sqrt h0, mul_div_cancel₀ _ hpos.ne']
  have hy : Pᴴ *ᵥ ySingular phi P z = fun i => if i = Fin.last n then (s : ℂ) else 0 := by
    have e : ySingular phi P z = P *ᵥ fun i => if i = Fin.last n then (s : ℂ) else 0 := by
      funext i
      rw [mulVec, dotProduct]
      simp only [mul_ite, mul_zero, Finset.sum_ite_eq', Finset.mem_univ, if_true]
      rw [ySingular, ← hP, ← hs]
      ring
    rw [e, mulVec_mulVec, h.unitary, one_mulVec]
  have hprod : max z (phi (Fin.last n)) * s = phi (Fin.last n) * s := by
    rcases le_total z (phi (Fin.last n)) with h' | h'
    · rw [max_eq_right h']
    · rw [max_eq_left h', sub_self] at hs2
      have : s = 0 := by
        have := (mul_eq_zero.1 hs2).resolve_left hpos.ne'
        exact pow_eq_zero_iff two_ne_zero |>.1 this
      rw [this, mul_zero, mul_zero]
  refine isMinimiser_of_coord h (lt_max_of_lt_right hpos) hle (fun i => ?_) ?_
  · rw [hy, mulVec_zero]
    simp only [Pi.zero_apply, add_zero]
    split_ifs with hi
    · rw [hi]
      exact_mod_cast hprod
    · simp
  · rw [hy, mulVec_zero]
    simp only [Pi.zero_apply, add_zero]
    rw [Finset.sum_eq_single (Fin.last n) (fun i _ hi => by simp [hi]) (by simp), if_pos rfl, Complex.norm_real,
      Real.norm_eq_abs, sq_abs, hs2]
    ring

/-- C55: for `1 × 1` matrices (two sources) and `v = 0` the result is a minimiser, for every number of iterations. -/
theorem C55_singular_two_sources {H : F → Mat 1 ℂ} {v : F → Fin 1 → ℂ} (np : Numpy ℂ) (singular : ℝ → Prop)
    (hH : ∀ f, (H f).PosDef) {max_iter : ℕ} {y w}
    (hy : lqpqm2 np floor singular max_iter H v z = .ok (y, w)) (f : F)
    (hf : singular (Real.sqrt (∑ i, ‖v f i‖ ^ 2))) (hv : v f = 0) : IsMinimiser (H f) (v f) (z f) (y f) := by
  have hs : ∃ r, solveEquation (F := {f // ¬ singular (Real.sqrt (∑ i, ‖v f i‖ ^ 2))}) floor max_iter true
      (fun f => (np.eigh (H f)).1) (fun f => vTilde (np.eigh (H f)).2 (v f)) (fun f => z f) = .ok r := by
    cases hr : solveEquation (F := {f // ¬ singular (Real.sqrt (∑ i, ‖v f i‖ ^ 2))}) floor max_iter true
      (fun f => (np.eigh (H f)).1) (fun f => vTilde (np.eigh (H f)).2 (v f)) (fun f => z f) with
    | ok r => exact ⟨r, rfl⟩
    | error e => simp [lqpqm2, hr, bind, Except.bind] at hy
  obtain ⟨⟨lamb, w'⟩, hr⟩ := hs
  obtain ⟨y', h1, -, h3⟩ := lqpqm2_eq np singular hr
  rw [hy] at h1
  injection h1 with h1
  injection h1 with h1 _
  rw [h1, h3 f hf, hv]
  have hspec := np.eigh_spec _ (hH f).isHermitian
  refine ySingular_min hspec ?_ (fun i => by
    obtain rfl : i = Fin.last 0 := Fin.ext (by omega)
    rfl)
  have hq := quad_coord hspec ((np.eigh (H f)).2 *ᵥ fun _ => 1)
  have hx : (np.eigh (H f)).2ᴴ *ᵥ ((np.eigh (H f)).2 *ᵥ fun _ => (1 : ℂ)) = fun _ => 1 := by
    rw [mulVec_mulVec, hspec.unitary, one_mulVec]
  rw [hx, Fin.sum_univ_one] at hq
  have hne : (np.eigh (H f)).2 *ᵥ (fun _ => (1 : ℂ)) ≠ 0 := by
    intro h0
    have := congrArg ((np.eigh (H f)).2ᴴ *ᵥ ·) h0
    simp only [mulVec_mulVec, hspec.unitary, one_mulVec, mulVec_zero] at this
    exact one_ne_zero (congrFun this 0)
  have hp := (hH f).dotProduct_mulVec_pos hne
  have := (Complex.lt_def.1 hp).1
  rw [hq] at this
  simpa using this

/-! ## The two defects, and an instance where the result is right -/

/-- The default flooring function. -/
noncomputable abbrev defaultFloor : ℝ → ℝ := Special.max_flooring (1 / 10 ^ 10)

/-- The default `singular_fn`. -/
def defaultSingular (x : ℝ) : Prop := x < defaultFloor 0

theorem defaultFloor_zero : defaultFloor 0 = 1 / 10 ^ 10 := max_eq_right (by positivity)

/-- Entries of the matrix of eigenvectors of a diagonal matrix. -/
theorem eigh_diagonal {n : ℕ} {d : Fin n → ℝ} {phi : Fin n → ℝ} {P : Mat n ℂ}
    (h : EighSpec (diagonal fun i => ((d i : ℝ) : ℂ)) phi P) :
    (∀ i j, P i j ≠ 0 → phi j = d i) ∧ ∀ i, ∑ j, ‖P i j‖ ^ 2 = 1 := by
  have hPP : P * Pᴴ = 1 := mul_eq_one_comm.1 h.unitary
  constructor
  · intro i j hij
    have e : (diagonal fun i => ((d i : ℝ) : ℂ)) * P = P * diagonal fun i => ((phi i : ℝ) : ℂ) := by
      conv_lhs => rw [h.decomp]
      rw [Matrix.mul_assoc, h.unitary, Matrix.mul_one]
      rfl
    have := congrFun (congrFun e i) j
    rw [diagonal_mul, mul_diagonal, mul_comm] at this
    have := mul_left_cancel₀ hij this
    exact_mod_cast this.symm
  · intro i
    have := congrFun (congrFun hPP i) i
    rw [Matrix.mul_apply, Matrix.one_apply_eq] at this
    apply Complex.ofReal_injective
    rw [Complex.ofReal_sum, Complex.ofReal_one, ← this]
    refine Finset.sum_congr rfl fun j _ => ?_
    rw [Complex.ofReal_pow, ← Complex.mul_conj', conjTranspose_apply]
    rfl

theorem eigh_diagonal_row {n : ℕ} {d : Fin n → ℝ} {phi : Fin n → ℝ} {P : Mat n ℂ}
    (h : EighSpec (diagonal fun i => ((d i : ℝ) : ℂ)) phi P) (i : Fin n) : ∃ j, phi j = d i := by
  obtain ⟨h1, h2⟩ := eigh_diagonal h
  by_contra hno
  push Not at hno
  have : ∀ j, P i j = 0 := fun j => by
    by_contra hj
    exact hno j (h1 i j hj)
  have h3 := h2 i
  simp [this] at h3

/-- C55, a defect: for the `1 × 1` problem `H = 4`, `v = 2`, `z = 4` with the default arguments and every number of
iterations the result is `2`, without a warning, although `q = 0` has a smaller objective. -/
theorem C55_scale_defect (np : Numpy ℂ) {max_iter : ℕ} (hm : 0 < max_iter) :
    ∃ y, lqpqm2 (F := Unit) np defaultFloor defaultSingular max_iter (fun _ => diagonal fun _ => ((4 : ℝ) : ℂ))
        (fun _ (_ : Fin 1) => 2) (fun _ => 4) = .ok (y, false) ∧ y () = (fun _ => 2) ∧
      objective (diagonal fun _ => ((4 : ℝ) : ℂ)) (fun _ : Fin 1 => 2) 4 0 <
        objective (diagonal fun _ => ((4 : ℝ) : ℂ)) (fun _ : Fin 1 => 2) 4 (y ()) := by
  have hH : (diagonal fun _ : Fin 1 => ((4 : ℝ) : ℂ)).IsHermitian := by
    rw [IsHermitian, diagonal_conjTranspose]
    congr 1
    funext i
    simp
  have hspec := np.eigh_spec _ hH
  obtain ⟨phi, hphi⟩ : ∃ phi, phi = (np.eigh (diagonal fun _ : Fin 1 => ((4 : ℝ) : ℂ))).1 := ⟨_, rfl⟩
  obtain ⟨P, hP⟩ : ∃ P, P = (np.eigh (diagonal fun _ : Fin 1 => ((4 : ℝ) : ℂ))).2 := ⟨_, rfl⟩
  rw [← hphi, ← hP] at hspec
  have hphi4 : ∀ i, phi i = 4 := by
    intro i
    obtain ⟨j, hj⟩ := eigh_diagonal_row (d := fun _ => 4) hspec 0
    obtain rfl : i = j := Subsingleton.elim _ _
    exact hj
  have hvt : ∀ i, ‖vTilde P (fun _ => 2) i‖ = 2 := by
    intro i
    have h1 := norm_coord hspec.unitary (fun _ => (2 : ℂ))
    rw [Fin.sum_univ_one, Fin.sum_univ_one] at h1
    obtain rfl : i = 0 := Fin.ext (by omega)
    have h2 : ‖vTilde P (fun _ => 2) 0‖ ^ 2 = 2 ^ 2 := by
      refine Eq.trans h1 ?_
      norm_num
    exact (pow_left_inj₀ (norm_nonneg _) (by norm_num) two_ne_zero).1 h2
  have hreg : Regular defaultFloor phi (vTilde P fun _ => 2) 4 4 := by
    refine ⟨by rw [defaultFloor_zero]; positivity, by norm_num, fun i _ => .inl (by rw [defaultFloor_zero]; positivity),
      by norm_num, fun i => by rw [hphi4]; norm_num,
      fun i => (hphi4 i).le, max_eq_left (by norm_num), ⟨0, hphi4 0, ?_⟩, fun i => .inl ?_⟩
    all_goals
      rw [hphi4, hvt, defaultFloor_zero]
      norm_num
  obtain ⟨lamb, h1, h2⟩ := solve_single (F := {f : Unit // ¬ defaultSingular (Real.sqrt (∑ i : Fin 1, ‖(2 : ℂ)‖ ^ 2))})
    (phi := fun f => phi) (v := fun f => vTilde P fun _ => 2) (z := fun f => 4) (top := fun f => 4)
    (fun f => hreg) hm
  have hns : ¬ defaultSingular (Real.sqrt (∑ i : Fin 1, ‖(2 : ℂ)‖ ^ 2)) := by
    rw [defaultSingular, defaultFloor_zero, Fin.sum_univ_one, Real.sqrt_sq (norm_nonneg _)]
    norm_num
  have h8 : lamb ⟨(), hns⟩ = 8 := by
    obtain ⟨g1, g2⟩ := h2 ⟨(), hns⟩
    have hsec : Sec phi 4 := ⟨by norm_num, fun i => by rw [hphi4]; norm_num, fun i => (hphi4 i).le⟩
    have e8 : fn 8 phi (fun i => vTilde P (fun _ => 2) i / (4 : ℝ)) 4 = 0 := by
      rw [fn, Fin.sum_univ_one, hphi4, norm_div, hvt, Complex.norm_real]
      norm_num
    rcases le_total (lamb ⟨(), hns⟩) 8 with h | h
    · have := fn_anti (v := fun i => vTilde P (fun _ => 2) i / ((4 : ℝ) : ℂ)) (z := 4) hsec g1 h
      rw [e8, g2] at this
      linarith
    · have := fn_anti (v := fun i => vTilde P (fun _ => 2) i / ((4 : ℝ) : ℂ)) (z := 4) hsec (by norm_num) h
      rw [e8, g2] at this
      linarith
  rw [hphi, hP] at h1
  obtain ⟨y, h4, h5, -⟩ := lqpqm2_eq (F := Unit) (H := fun _ => diagonal fun _ : Fin 1 => ((4 : ℝ) : ℂ))
    (v := fun _ (_ : Fin 1) => (2 : ℂ)) (z := fun _ => 4) (floor := defaultFloor) np defaultSingular h1
  have hy : y () = fun _ => 2 := by
    rw [h5 () hns, ← hphi, ← hP, h8]
    have hPP : P * Pᴴ = 1 := mul_eq_one_comm.1 hspec.unitary
    have e : yRegular phi P (vTilde P fun _ => 2) 8 = P *ᵥ (Pᴴ *ᵥ fun _ => (2 : ℂ)) := by
      funext i
      rw [yRegular, mulVec, dotProduct]
      refine Finset.sum_congr rfl fun j _ => ?_
      rw [hphi4]
      congr 1
      have : ((4 : ℝ) : ℂ) * vTilde P (fun _ => 2) j / (((8 : ℝ) : ℂ) - ((4 : ℝ) : ℂ)) = vTilde P (fun _ => 2) j := by
        push_cast
        norm_num
      rw [this]
      rfl
    rw [e, mulVec_mulVec, hPP, one_mulVec]
  refine ⟨y, h4, hy, ?_⟩
  rw [hy, objective, objective]
  simp only [Fin.sum_univ_one, dotProduct, mulVec_diagonal, Pi.add_apply, Pi.zero_apply, Pi.star_apply]
  have e1 : (star ((0 : ℂ) + 2) * (((4 : ℝ) : ℂ) * (0 + 2))).re = 16 := by
    simp
    norm_num
  have e2 : (star ((2 : ℂ) + 2) * (((4 : ℝ) : ℂ) * (2 + 2))).re = 64 := by
    have : (2 : ℂ) + 2 = ((4 : ℝ) : ℂ) := by push_cast; norm_num
    rw [this]
    simp
    norm_num
  rw [e1, e2]
  have h68 : Real.log (64 + 4) = Real.log (16 + 4) + Real.log (17 / 5) := by
    rw [← Real.log_mul (by norm_num) (by norm_num)]
    norm_num
  have : Real.log (17 / 5) ≤ 17 / 5 - 1 := Real.log_le_sub_one_of_pos (by norm_num)
  rw [h68]
  norm_num
  linarith

theorem diagonal_isHermitian {n : ℕ} (d : Fin n → ℝ) : (diagonal fun i => ((d i : ℝ) : ℂ)).IsHermitian := by
  rw [IsHermitian, diagonal_conjTranspose]
  congr 1
  funext i
  simp

theorem quad_diagonal {n : ℕ} (d : Fin n → ℝ) (q : Fin n → ℂ) :
    (star q ⬝ᵥ (diagonal fun i => ((d i : ℝ) : ℂ)) *ᵥ q).re = ∑ i, d i * ‖q i‖ ^ 2 := by
  rw [dotProduct, Complex.re_sum]
  refine Finset.sum_congr rfl fun i _ => ?_
  rw [mulVec_diagonal, Pi.star_apply]
  have : star (q i) * (((d i : ℝ) : ℂ) * q i) = ((d i * ‖q i‖ ^ 2 : ℝ) : ℂ) := by
    rw [Complex.ofReal_mul, Complex.ofReal_pow, ← Complex.conj_mul']
    show (starRingEnd ℂ) _ * _ = _
    ring
  rw [this, Complex.ofReal_re]

/-- C55, a second defect: for `v = 0` the code uses the last row of the matrix of eigenvectors. For `H = diag(2, 3, 1)`,
`v = 0`, `z = 1` with the default arguments, whatever eigenvectors `eigh` returns and for every number of iterations, the
result is not a minimiser. -/
theorem C55_singular_defect (np : Numpy ℂ) {max_iter : ℕ} (hm : 0 < max_iter) :
    ∃ y, lqpqm2 (F := Unit) np defaultFloor defaultSingular max_iter
        (fun _ => diagonal fun i : Fin 3 => ((![2, 3, 1] i : ℝ) : ℂ)) (fun _ _ => 0) (fun _ => 1) = .ok (y, false) ∧
      ¬ IsMinimiser (diagonal fun i => ((![2, 3, 1] i : ℝ) : ℂ)) (fun _ => 0) 1 (y ()) := by
  have hspec := np.eigh_spec _ (diagonal_isHermitian ![2, 3, 1])
  have hsing : defaultSingular (Real.sqrt (∑ i : Fin 3, ‖(0 : ℂ)‖ ^ 2)) := by
    rw [defaultSingular, defaultFloor_zero]
    norm_num
  have hempty : IsEmpty {f : Unit // ¬ defaultSingular (Real.sqrt (∑ i : Fin 3, ‖(0 : ℂ)‖ ^ 2))} :=
    ⟨fun f => f.2 hsing⟩
  obtain ⟨lamb, w, h1, -, h3⟩ := solve_spec
    (F := {f : Unit // ¬ defaultSingular (Real.sqrt (∑ i : Fin 3, ‖(0 : ℂ)‖ ^ 2))}) (n := 2)
    (floor := defaultFloor)
    (phi := fun f => (np.eigh (diagonal fun i : Fin 3 => ((![2, 3, 1] i : ℝ) : ℂ))).1)
    (v := fun f => vTilde (np.eigh (diagonal fun i : Fin 3 => ((![2, 3, 1] i : ℝ) : ℂ))).2 fun _ => 0)
    (z := fun f => 1) (top := fun f => 1) (fun f => hempty.elim f) hm
  have hw : w = false := h3.2 fun f => hempty.elim f
  rw [hw] at h1
  obtain ⟨y, h4, -, h6⟩ := lqpqm2_eq (F := Unit) (H := fun _ => diagonal fun i : Fin 3 => ((![2, 3, 1] i : ℝ) : ℂ))
    (v := fun _ (_ : Fin 3) => (0 : ℂ)) (z := fun _ => 1) (floor := defaultFloor) np defaultSingular h1
  refine ⟨y, h4, fun hmin => ?_⟩
  rw [h6 () hsing] at hmin
  obtain ⟨phi, hphi⟩ : ∃ phi, phi = (np.eigh (diagonal fun i : Fin 3 => ((![2, 3, 1] i : ℝ) : ℂ))).1 := ⟨_, rfl⟩
  obtain ⟨P, hP⟩ : ∃ P, P = (np.eigh (diagonal fun i : Fin 3 => ((![2, 3, 1] i : ℝ) : ℂ))).2 := ⟨_, rfl⟩
  rw [← hphi, ← hP] at hspec hmin
  obtain ⟨hent, hrow⟩ := eigh_diagonal hspec
  -- the eigenvalues are 1, 2, 3
  have hval : phi 0 = 1 ∧ phi 1 = 2 ∧ phi 2 = 3 := by
    obtain ⟨a, ha⟩ := eigh_diagonal_row hspec 2
    obtain ⟨b, hb⟩ := eigh_diagonal_row hspec 0
    obtain ⟨c, hc⟩ := eigh_diagonal_row hspec 1
    have ha : phi a = 1 := ha
    have hb : phi b = 2 := hb
    have hc : phi c = 3 := hc
    have hab : a < b := by
      by_contra h
      have := hspec.sorted (not_lt.1 h)
      rw [ha, hb] at this
      norm_num at this
    have hbc : b < c := by
      by_contra h
      have := hspec.sorted (not_lt.1 h)
      rw [hb, hc] at this
      norm_num at this
    have hab' : a.val < b.val := hab
    have hbc' : b.val < c.val := hbc
    have hc3 := c.isLt
    obtain rfl : a = 0 := Fin.ext (by show a.val = 0; omega)
    obtain rfl : b = 1 := Fin.ext (by show b.val = 1; omega)
    obtain rfl : c = 2 := Fin.ext (by show c.val = 2; omega)
    exact ⟨ha, hb, hc⟩
  obtain ⟨hv0, hv1, hv2⟩ := hval
  have h21 : P 2 1 = 0 := by
    by_contra h
    have : phi 1 = 1 := hent 2 1 h
    rw [hv1] at this
    norm_num at this
  have h22 : P 2 2 = 0 := by
    by_contra h
    have : phi 2 = 1 := hent 2 2 h
    rw [hv2] at this
    norm_num at this
  have h20 : ‖P 2 0‖ ^ 2 = 1 := by
    have := hrow 2
    rw [Fin.sum_univ_three, h21, h22] at this
    simpa using this
  -- the result and a better point
  obtain ⟨s, hs⟩ : ∃ s : ℝ, s = Real.sqrt (2 / 3) := ⟨_, rfl⟩
  have hs2 : s ^ 2 = 2 / 3 := by rw [hs]; exact Real.sq_sqrt (by norm_num)
  have hy : ∀ i, ySingular phi P 1 i = s * P 2 i := by
    intro i
    have e : max ((max 1 (phi 2) - 1) / phi 2) 0 = 2 / 3 := by
      rw [hv2]
      norm_num
    show ((Real.sqrt (max ((max 1 (phi 2) - 1) / phi 2) 0) : ℝ) : ℂ) * P 2 i = _
    rw [e, hs]
  have hny : ∀ i, ‖ySingular phi P 1 i‖ ^ 2 = 2 / 3 * ‖P 2 i‖ ^ 2 := by
    intro i
    rw [hy, norm_mul, mul_pow, Complex.norm_real, Real.norm_eq_abs, sq_abs, hs2]
  obtain ⟨yy, hyy⟩ : ∃ yy : Fin 3 → ℂ, yy = ySingular phi P 1 := ⟨_, rfl⟩
  have n0 : ‖yy 0‖ ^ 2 = 2 / 3 := by rw [hyy, hny, h20, mul_one]
  have n1 : ‖yy 1‖ ^ 2 = 0 := by rw [hyy, hny, h21, norm_zero]; norm_num
  have n2 : ‖yy 2‖ ^ 2 = 0 := by rw [hyy, hny, h22, norm_zero]; norm_num
  have hmin : IsMinimiser (diagonal fun i => ((![2, 3, 1] i : ℝ) : ℂ)) 0 1 yy := by rw [hyy]; exact hmin
  obtain ⟨q, hq⟩ : ∃ q : Fin 3 → ℂ, q = ![0, (s : ℂ), 0] := ⟨_, rfl⟩
  have m0 : ‖q 0‖ ^ 2 = 0 := by rw [hq]; simp
  have m1 : ‖q 1‖ ^ 2 = 2 / 3 := by
    rw [hq]
    simp only [cons_val_one, cons_val_zero]
    rw [Complex.norm_real, Real.norm_eq_abs, sq_abs, hs2]
  have m2 : ‖q 2‖ ^ 2 = 0 := by rw [hq]; simp
  have vals : (![2, 3, 1] : Fin 3 → ℝ) 0 = 2 ∧ (![2, 3, 1] : Fin 3 → ℝ) 1 = 3 ∧ (![2, 3, 1] : Fin 3 → ℝ) 2 = 1 :=
    ⟨rfl, rfl, rfl⟩
  have quady : (star (yy + 0) ⬝ᵥ (diagonal fun i => ((![2, 3, 1] i : ℝ) : ℂ)) *ᵥ (yy + 0)).re = 4 / 3 := by
    rw [add_zero, quad_diagonal, Fin.sum_univ_three, n0, n1, n2, vals.1]
    norm_num
  have quadq : (star (q + 0) ⬝ᵥ (diagonal fun i => ((![2, 3, 1] i : ℝ) : ℂ)) *ᵥ (q + 0)).re = 2 := by
    rw [add_zero, quad_diagonal, Fin.sum_univ_three, m0, m1, m2, vals.2.1]
    norm_num
  have hle := hmin.2 q (by rw [quadq]; norm_num)
  rw [objective, objective, quady, quadq, Fin.sum_univ_three, Fin.sum_univ_three, n0, n1, n2, m0, m1, m2] at hle
  have e1 : Real.log (4 / 3 + 1) < Real.log (2 + 1) := Real.log_lt_log (by norm_num) (by norm_num)
  linarith

/-- Two bins with eigenvalues `1/2` and `1` meet the hypotheses of `C55_minimiser`, so the theorem applies. -/
example (np : Numpy ℂ) {max_iter : ℕ} (hm : 0 < max_iter) :
    ∃ y w, lqpqm2 (F := Fin 2) np defaultFloor defaultSingular max_iter
        (fun _ => diagonal fun i : Fin 2 => ((![1 / 2, 1] i : ℝ) : ℂ)) (fun f _ => (f.val : ℂ) + 1) (fun _ => 3) = .ok (y, w) ∧
      ∀ f : Fin 2, ∃ z' ≤ 3, (w = false → 3 - 1 / 10 ^ 10 ≤ z') ∧
        IsMinimiser (diagonal fun i : Fin 2 => ((![1 / 2, 1] i : ℝ) : ℂ)) (fun _ => (f.val : ℂ) + 1) z' (y f) := by
  obtain ⟨y, w, h1, h2⟩ := C55_minimiser (F := Fin 2) (floor := defaultFloor) (max_iter := max_iter)
    (H := fun _ => diagonal fun i : Fin 2 => ((![1 / 2, 1] i : ℝ) : ℂ)) (v := fun f _ => (f.val : ℂ) + 1)
    (z := fun _ => 3) np defaultSingular (fun _ => diagonal_isHermitian _) (fun f _ => by
      have hspec := np.eigh_spec _ (diagonal_isHermitian ![1 / 2, 1])
      obtain ⟨phi, hphi⟩ : ∃ phi, phi = (np.eigh (diagonal fun i : Fin 2 => ((![1 / 2, 1] i : ℝ) : ℂ))).1 := ⟨_, rfl⟩
      obtain ⟨P, hP⟩ : ∃ P, P = (np.eigh (diagonal fun i : Fin 2 => ((![1 / 2, 1] i : ℝ) : ℂ))).2 := ⟨_, rfl⟩
      have e : Regular defaultFloor phi (vTilde P fun _ => (f.val : ℂ) + 1) 3 1 := by
        rw [← hphi, ← hP] at hspec
        obtain ⟨hent, hrow⟩ := eigh_diagonal hspec
        have hval : phi 0 = 1 / 2 ∧ phi 1 = 1 := by
          obtain ⟨a, ha⟩ := eigh_diagonal_row hspec 0
          obtain ⟨b, hb⟩ := eigh_diagonal_row hspec 1
          have ha : phi a = 1 / 2 := ha
          have hb : phi b = 1 := hb
          have hab : a < b := by
            by_contra h
            have := hspec.sorted (not_lt.1 h)
            rw [ha, hb] at this
            norm_num at this
          have hab' : a.val < b.val := hab
          have hb2 := b.isLt
          obtain rfl : a = 0 := Fin.ext (by show a.val = 0; omega)
          obtain rfl : b = 1 := Fin.ext (by show b.val = 1; omega)
          exact ⟨ha, hb⟩
        obtain ⟨hv0, hv1⟩ := hval
        have h01 : P 0 1 = 0 := by
          by_contra h
          have : phi 1 = 1 / 2 := hent 0 1 h
          rw [hv1] at this
          norm_num at this
        have h10 : P 1 0 = 0 := by
          by_contra h
          have : phi 0 = 1 := hent 1 0 h
          rw [hv0] at this
          norm_num at this
        have h00 : ‖P 0 0‖ = 1 := by
          have := hrow 0
          rw [Fin.sum_univ_two, h01, norm_zero] at this
          nlinarith [norm_nonneg (P 0 0)]
        have h11 : ‖P 1 1‖ = 1 := by
          have := hrow 1
          rw [Fin.sum_univ_two, h10, norm_zero] at this
          nlinarith [norm_nonneg (P 1 1)]
        have hf : 1 ≤ ‖(f.val : ℂ) + 1‖ ^ 2 := by
          have e : (f.val : ℂ) + 1 = (((f.val + 1 : ℕ) : ℝ) : ℂ) := by push_cast; ring
          rw [e, Complex.norm_real, Real.norm_eq_abs, sq_abs]
          have : (1 : ℝ) ≤ ((f.val + 1 : ℕ) : ℝ) := by exact_mod_cast Nat.le_add_left 1 _
          nlinarith
        have t0 : 1 ≤ ‖vTilde P (fun _ => (f.val : ℂ) + 1) 0‖ ^ 2 := by
          have : vTilde P (fun _ => (f.val : ℂ) + 1) 0 = star (P 0 0) * ((f.val : ℂ) + 1) := by
            refine (Fin.sum_univ_two (fun j : Fin 2 => star (P j 0) * ((f.val : ℂ) + 1))).trans ?_
            rw [h10, star_zero, zero_mul, add_zero]
          rw [this, norm_mul, norm_star, h00, one_mul]
          exact hf
        have t1 : 1 ≤ ‖vTilde P (fun _ => (f.val : ℂ) + 1) 1‖ ^ 2 := by
          have : vTilde P (fun _ => (f.val : ℂ) + 1) 1 = star (P 1 1) * ((f.val : ℂ) + 1) := by
            refine (Fin.sum_univ_two (fun j : Fin 2 => star (P j 1) * ((f.val : ℂ) + 1))).trans ?_
            rw [h01, star_zero, zero_mul, zero_add]
          rw [this, norm_mul, norm_star, h11, one_mul]
          exact hf
        have hcase : ∀ i : Fin 2, i = 0 ∨ i = 1 := by decide
        have m0 : defaultFloor 0 ≤ phi 0 * ‖vTilde P (fun _ => (f.val : ℂ) + 1) 0‖ ^ 2 := by
          rw [defaultFloor_zero, hv0]
          nlinarith [show (1e-10 : ℝ) ≤ 1 / 2 by norm_num]
        have m1 : defaultFloor 0 ≤ phi 1 * ‖vTilde P (fun _ => (f.val : ℂ) + 1) 1‖ ^ 2 := by
          rw [defaultFloor_zero, hv1]
          nlinarith [show (1e-10 : ℝ) ≤ 1 / 2 by norm_num]
        refine ⟨by rw [defaultFloor_zero]; positivity, one_pos, fun i _ => .inl (by rw [defaultFloor_zero]; positivity),
          by norm_num, fun i => ?_, fun i => ?_, max_eq_left (by norm_num),
          ⟨1, hv1, m1⟩, fun i => .inl ?_⟩
        · rcases hcase i with rfl | rfl
          · rw [hv0]; norm_num
          · rw [hv1]; norm_num
        · rcases hcase i with rfl | rfl
          · rw [hv0]; norm_num
          · rw [hv1]
        · rcases hcase i with rfl | rfl
          · exact m0
          · exact m1
      rw [hphi, hP] at e
      exact e) hm
  refine ⟨y, w, h1, fun f => ?_⟩
  have hns : ¬ defaultSingular (Real.sqrt (∑ i : Fin 2, ‖(f.val : ℂ) + 1‖ ^ 2)) := by
    rw [defaultSingular, defaultFloor_zero, not_lt]
    refine Real.le_sqrt_of_sq_le ?_
    have e : (f.val : ℂ) + 1 = (((f.val + 1 : ℕ) : ℝ) : ℂ) := by push_cast; ring
    rw [Fin.sum_univ_two, e, Complex.norm_real, Real.norm_eq_abs, sq_abs]
    have : (1 : ℝ) ≤ ((f.val + 1 : ℕ) : ℝ) := by exact_mod_cast Nat.le_add_left 1 _
    nlinarith
  obtain ⟨z', h3, h4, h5⟩ := h2 f hns
  exact ⟨z', h3, fun hw => by rw [← defaultFloor_zero]; exact h4 hw, h5⟩

end Verif.Lqpqm
