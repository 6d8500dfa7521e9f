import Verif.Lemmas.Strict
import Verif.Props.Grad
import Verif.Props.AuxIva
import Verif.Props.AuxFdica

/-!
# The auxiliary-function updates stop exactly at the stationary points (C61, C62)

The claims C36 and C37 say that the recorded loss never increases.  An update that does nothing would satisfy them.
Here: one iteration of `AuxIVA` or `AuxFDICA` makes the loss *strictly* smaller, unless the filter is a stationary
point of the loss (all directional derivatives vanish); and it leaves the filter unchanged exactly at the stationary
points.
-/

namespace Verif
open Matrix Spatial Scale
open scoped ComplexOrder

variable {F : Type} {n t : ℕ}

/-- All directional derivatives of `L` vanish at the demixing filters `W`. -/
def Stationary (L : (F → Mat n ℂ) → ℝ) (W : F → Mat n ℂ) : Prop :=
  ∀ H : F → Mat n ℂ, HasDerivAt (fun ε : ℝ => L fun f => W f + (ε : ℂ) • H f) 0 0

/-- The derivatives of `L` vanish in all directions that change only the filters of the two sources of the pair. -/
def StationaryRows (L : (F → Mat n ℂ) → ℝ) (W : F → Mat n ℂ) (p : Fin n × Fin n) : Prop :=
  ∀ H : F → Mat n ℂ, (∀ f i, i ≠ p.1 → i ≠ p.2 → H f i = 0) →
    HasDerivAt (fun ε : ℝ => L fun f => W f + (ε : ℂ) • H f) 0 0

/-- The derivatives of `L` vanish in all directions that add multiples of the two sources of the pair to the sources.
-/
def StationaryColumns (L : (F → Mat n ℂ) → ℝ) (W : F → Mat n ℂ) (p : Fin n × Fin n) : Prop :=
  ∀ A : F → Mat n ℂ, (∀ f i j, j ≠ p.1 → j ≠ p.2 → A f i j = 0) →
    HasDerivAt (fun ε : ℝ => L fun f => W f + (ε : ℂ) • (A f * W f)) 0 0

namespace Grad

variable [Fintype F]

/-- The score that belongs to fixed weights. -/
noncomputable def weighted (phi : F → Fin n → Fin t → ℝ) (Y : Data ℂ F n t) : Data ℂ F n t :=
  fun f => Matrix.of fun k s => (phi f k s : ℂ) * Y f k s

theorem phiY_weighted (phi : F → Fin n → Fin t → ℝ) (Y : Data ℂ F n t) (f : F) (i j : Fin n) :
    phiY (weighted phi) Y f i j = Y f i ⬝ᵥ (wdiag (phi f i) *ᵥ star (Y f j)) := by
  rw [← meanT_form]
  simp only [phiY, weighted, of_apply, mul_assoc]

variable {ι : Type} [Fintype ι] {contrast : Data ℂ F n t → ι → Fin t → ℝ} (phi : F → Fin n → Fin t → ℝ)
  (X : Data ℂ F n t) (W : F → Mat n ℂ)

theorem stationary_iff_balanced (hW : ∀ f, IsUnit (W f).det)
    (hs : IsScoreAt 2 contrast (weighted phi) (sep X W)) :
    Stationary (loss 2 contrast X) W ↔ ∀ f, Balanced (phi f) (sep X W f) := by
  refine (stationary_iff 2 two_pos contrast (weighted phi) X W hW hs).trans (forall_congr' fun f => ?_)
  rw [sub_eq_zero]
  constructor
  · intro h i j
    rw [← phiY_weighted, h]
  · intro h
    ext i j
    rw [phiY_weighted, h i j]

theorem stationaryRows_of (hW : ∀ f, IsUnit (W f).det) (hs : IsScoreAt 2 contrast (weighted phi) (sep X W))
    (p : Fin n × Fin n) (h : ∀ f i, i = p.1 ∨ i = p.2 →
      ∀ j, sep X W f i ⬝ᵥ (wdiag (phi f i) *ᵥ star (sep X W f j)) = (1 : Mat n ℂ) i j) :
    StationaryRows (loss 2 contrast X) W p := by
  intro H hH
  refine (hasDerivAt_loss 2 contrast (weighted phi) X W H hW hs).congr_deriv ?_
  rw [Finset.sum_eq_zero, mul_zero]
  intro f _
  have : (H f * (W f)⁻¹ * (phiY (weighted phi) (sep X W) f - 1)ᴴ).trace = 0 := by
    refine Finset.sum_eq_zero fun i _ => ?_
    rw [diag_apply, mul_apply]
    refine Finset.sum_eq_zero fun j _ => ?_
    by_cases hi : i = p.1 ∨ i = p.2
    · rw [conjTranspose_apply, Matrix.sub_apply, phiY_weighted, h f i hi j, sub_self, star_zero, mul_zero]
    · rw [not_or] at hi
      have h0 := hH f i hi.1 hi.2
      have : (H f * (W f)⁻¹) i j = 0 := by
        rw [mul_apply]
        exact Finset.sum_eq_zero fun l _ => by rw [h0, Pi.zero_apply, zero_mul]
      rw [this, zero_mul]
  rw [this, map_zero]

theorem stationaryColumns_of (hW : ∀ f, IsUnit (W f).det) (hs : IsScoreAt 2 contrast (weighted phi) (sep X W))
    (p : Fin n × Fin n) (h : ∀ f j, j = p.1 ∨ j = p.2 →
      ∀ i, sep X W f i ⬝ᵥ (wdiag (phi f i) *ᵥ star (sep X W f j)) = (1 : Mat n ℂ) i j) :
    StationaryColumns (loss 2 contrast X) W p := by
  intro A hA
  refine (hasDerivAt_loss 2 contrast (weighted phi) X W (fun f => A f * W f) hW hs).congr_deriv ?_
  rw [Finset.sum_eq_zero, mul_zero]
  intro f _
  have : (A f * W f * (W f)⁻¹ * (phiY (weighted phi) (sep X W) f - 1)ᴴ).trace = 0 := by
    rw [mul_nonsing_inv_cancel_right _ _ (hW f)]
    refine Finset.sum_eq_zero fun i _ => ?_
    rw [diag_apply, mul_apply]
    refine Finset.sum_eq_zero fun j _ => ?_
    by_cases hj : j = p.1 ∨ j = p.2
    · rw [conjTranspose_apply, Matrix.sub_apply, phiY_weighted, h f j hj i, sub_self, star_zero, mul_zero]
    · rw [not_or] at hj
      rw [hA f i j hj.1 hj.2, zero_mul]
  rw [this, map_zero]

end Grad

namespace Iva

variable [Fintype F]

/-- The contrast functions of `IVA` as a function of the separated signals. -/
noncomputable def contrast (G : Fin n → Fin t → ℝ → ℝ) (Y : Spec F n t) (k : Fin n) (s : Fin t) : ℝ :=
  G k s (binNorm Y k s)

theorem lossIp_eq (G : Fin n → Fin t → ℝ → ℝ) (X : Spec F n t) : lossIp G X = Grad.loss 2 (contrast G) X := rfl

/-- `weight * Y` is half the gradient of the contrast function if `d` is the derivative of `G`. -/
theorem isScoreAt {G d : Fin n → Fin t → ℝ → ℝ} (hd : ∀ k s r, 0 < r → HasDerivAt (G k s) (d k s r) r)
    (Y : Spec F n t) (hY : ∀ k s, 0 < binNorm Y k s) :
    Grad.IsScoreAt 2 (contrast G) (Grad.weighted fun _ => weight id d Y) Y := by
  intro Δ
  have h : ∀ k s, HasDerivAt (fun ε : ℝ => G k s (Real.sqrt (∑ f, ‖Y f k s + (ε : ℂ) * Δ f k s‖ ^ 2)))
      (2 * ∑ f, weight id d Y k s * (star (Y f k s) * Δ f k s).re) 0 := by
    intro k s
    have hp := hY k s
    have hp2 : ∑ f, ‖Y f k s‖ ^ 2 ≠ 0 := by
      rw [← binNorm_sq]
      positivity
    have h1 := (Grad.hasDerivAt_binNormSq Y Δ k s).sqrt (by simpa using hp2)
    have h2 := (hd k s _ hp)
    have e0 : Real.sqrt (∑ f, ‖Y f k s + ((0 : ℝ) : ℂ) * Δ f k s‖ ^ 2) = binNorm Y k s := by simp [binNorm]
    rw [← e0] at h2
    refine (h2.comp (0 : ℝ) h1).congr_deriv ?_
    rw [e0, ← Finset.mul_sum, weight, id]
    field_simp
  have := HasDerivAt.fun_sum (u := Finset.univ) fun (k : Fin n) _ =>
    HasDerivAt.fun_sum (u := Finset.univ) fun (s : Fin t) _ => h k s
  refine (this.congr_of_eventuallyEq (Filter.Eventually.of_forall fun ε => ?_)).congr_deriv ?_
  · simp [contrast, binNorm]
  · simp only [← Finset.mul_sum, Grad.weighted, of_apply]
    congr 1
    have hre : ∀ (c : ℝ) (y z : ℂ), RCLike.re (star ((c : ℂ) * y) * z) = c * (star y * z).re := by
      intro c y z
      rw [star_mul', show star ((c : ℝ) : ℂ) = (c : ℂ) from Complex.conj_ofReal c, mul_assoc]
      exact Complex.re_ofReal_mul _ _
    simp only [hre]
    calc _ = ∑ k, ∑ f, ∑ s, weight id d Y k s * (star (Y f k s) * Δ f k s).re := by
          refine Finset.sum_congr rfl fun k _ => ?_
          rw [Finset.sum_comm]
          exact Finset.sum_congr rfl fun s _ => Finset.mul_sum _ _ _
      _ = _ := Finset.sum_comm

section
variable {G d : Fin n → Fin t → ℝ → ℝ} (hG : Majorised G d)
  (hd : ∀ k s r, 0 < r → HasDerivAt (G k s) (d k s r) r) (floor : ℝ → ℝ) (X : Spec F n t)
  (hX : ∀ f, LinearIndependent ℂ (X f).row) (W : F → Mat n ℂ) (hW : ∀ f, IsUnit (W f).det)
include hG hd hX hW

/-- One iteration of `AuxIVA` with IP1: the loss becomes strictly smaller or the filters do not change, and they do
not change exactly at the stationary points of the loss. -/
theorem C61_ip1 (hr : RegIp1 floor d X W) :
    ∃ W', auxIp1 floor d X W = .ok W' ∧ (lossIp G X W' < lossIp G X W ∨ W' = W) ∧
      (W' = W ↔ Stationary (lossIp G X) W) := by
  obtain ⟨W', h1, -, h3, h4⟩ := ip1Stack_strict (fun _ => weight id d (separate X W))
    (fun _ => weight_id_pos hG hr.1) X hX W hW
  refine ⟨W', by rw [hr.2]; exact h1, h3.imp (fun h => ?_) id, h4.trans ?_⟩
  · have := mm_gap G (weight id d (separate X W)) (separate X W) (separate X W') W W'
      (fun k s => hG.le k s _ _ (hr.1 k s) (binNorm_nonneg _ k s))
    rw [lossIp, lossIp]
    linarith
  · rw [lossIp_eq]
    exact (Grad.stationary_iff_balanced _ X W hW (isScoreAt hd _ hr.1)).symm

/-- One iteration of `AuxIVA` with ISS1. -/
theorem C61_iss1 (hr : RegIss1 floor d (separate X W)) :
    ∃ W' : F → Mat n ℂ, auxIss1 floor d (separate X W) = separate X W' ∧
      (lossIp G X W' < lossIp G X W ∨ auxIss1 floor d (separate X W) = separate X W) ∧
      (auxIss1 floor d (separate X W) = separate X W ↔ Stationary (lossIp G X) W) := by
  obtain ⟨W', h1, -, h3, h4⟩ := iss1Stack_strict (fun _ => weight id d (separate X W))
    (fun _ => weight_id_pos hG hr.1) X hX W hW
  have h1' : auxIss1 floor d (separate X W) = separate X W' := by rw [hr.2]; exact h1
  have hinj : separate X W' = separate X W ↔ W' = W :=
    ⟨fun h => separate_injective X hX h, fun h => by rw [h]⟩
  rw [h1', hinj]
  refine ⟨W', rfl, h3.imp (fun h => ?_) id, h4.trans ?_⟩
  · have := mm_gap G (weight id d (separate X W)) (separate X W) (separate X W') W W'
      (fun k s => hG.le k s _ _ (hr.1 k s) (binNorm_nonneg _ k s))
    rw [lossIp, lossIp]
    linarith
  · rw [lossIp_eq]
    exact (Grad.stationary_iff_balanced _ X W hW (isScoreAt hd _ hr.1)).symm

/-- One pair of IP2: the loss becomes strictly smaller, or it is stationary in the filters of the two sources. -/
theorem C61_ip2_pair (np : Numpy ℂ) (p : Fin n × Fin n) (hp : p.1 ≠ p.2) (hr : RegIp2 np floor d X W p) :
    ∃ W', auxIp2Pair np floor d X W p = .ok W' ∧
      (lossIp G X W' < lossIp G X W ∨ StationaryRows (lossIp G X) W p) := by
  obtain ⟨phi, hphi⟩ : ∃ phi, phi = weight id d (separate X W) := ⟨_, rfl⟩
  have hpos : ∀ k s, 0 < phi k s := hphi ▸ weight_id_pos hG hr.1
  have h := fun f => ip2Pair_strict np (fun k => wcov_posDef hpos hX f k) (hW f) hp
  choose W' h1 h2 h3 h4 using h
  refine ⟨W', ?_, ?_⟩
  · rw [hr.2, auxIp2Pair, ← hphi]
    exact onBins_ok h1
  by_cases hall : ∀ f i, i = p.1 ∨ i = p.2 → W f *ᵥ (wcov phi X f i *ᵥ star (W f i)) = Pi.single i 1
  · right
    rw [lossIp_eq]
    refine Grad.stationaryRows_of (fun _ => phi) X W hW ?_ p fun f i hi => ?_
    · rw [hphi]
      exact isScoreAt hd _ hr.1
    · exact (row_equation_iff phi X f (W f) i).mp (hall f i hi)
  · left
    push Not at hall
    obtain ⟨f, i, hi, hne⟩ := hall
    have hlt := (h4 f).resolve_right fun h => hne (h i hi)
    have hgap := mm_gap G phi (separate X W) (separate X W') W W'
      (fun k s => by rw [hphi]; exact hG.le k s _ _ (hr.1 k s) (binNorm_nonneg _ k s))
    have hsum : ∑ f, (power phi (separate X W' f) - 2 * Real.log ‖(W' f).det‖)
        < ∑ f, (power phi (separate X W f) - 2 * Real.log ‖(W f).det‖) := by
      simp only [← ipLoss_wcov]
      exact Finset.sum_lt_sum (fun f _ => h3 f) ⟨f, Finset.mem_univ _, hlt⟩
    rw [lossIp, lossIp]
    linarith

end

/-- A whole IP2 iteration of `AuxIVA`: the loss becomes strictly smaller, or it is stationary in the filters of the
first pair.  With two sources and `pairs = [(0, 1)]` these are all filters. -/
theorem C61_ip2 (np : Numpy ℂ) {G d : Fin n → Fin t → ℝ → ℝ} (hG : Majorised G d)
    (hd : ∀ k s r, 0 < r → HasDerivAt (G k s) (d k s r) r) (floor : ℝ → ℝ)
    (p : Fin n × Fin n) (pairs : List (Fin n × Fin n)) (hpairs : ∀ q ∈ p :: pairs, q.1 ≠ q.2) (X : Spec F n t)
    (hX : ∀ f, LinearIndependent ℂ (X f).row) (W : F → Mat n ℂ) (hW : ∀ f, IsUnit (W f).det)
    (hr : RegularFold (auxIp2Pair np floor d X) (RegIp2 np floor d X) (p :: pairs) W) :
    ∃ W', auxIp2 np floor (p :: pairs) d X W = .ok W' ∧
      (lossIp G X W' < lossIp G X W ∨ StationaryRows (lossIp G X) W p) := by
  obtain ⟨W1, h1, h2, h3⟩ := auxIp2Pair_step np hG floor X hX W hW hr.1.1 p (hpairs p (by simp)) hr.1.2
  obtain ⟨W2, k1, k2, k3⟩ := foldlM_regular (auxIp2Pair np floor d X) (fun W => ∀ f, IsUnit (W f).det)
      (RegIp2 np floor d X) (lossIp G X) pairs
      (fun W q hq hW hr => auxIp2Pair_step np hG floor X hX W hW hr.1 q (hpairs q (by simp [hq])) hr.2) W1 h2
      (hr.2 W1 h1)
  obtain ⟨W1', g1, g2⟩ := C61_ip2_pair hG hd floor X hX W hW np p (hpairs p (by simp)) hr.1
  rw [h1] at g1
  cases g1
  refine ⟨W2, ?_, g2.imp (fun h => k3.trans_lt h) id⟩
  rw [auxIp2, List.foldlM_cons, h1]
  exact k1

/-- One ISS2 iteration of `AuxIVA`: the loss becomes strictly smaller, or it is stationary in the directions that add
multiples of the two sources of the first pair to the sources. -/
theorem C61_iss2 (np : Numpy ℂ) {G d : Fin n → Fin t → ℝ → ℝ} (hG : Majorised G d)
    (hd : ∀ k s r, 0 < r → HasDerivAt (G k s) (d k s r) r) (floor : ℝ → ℝ)
    (p : Fin n × Fin n) (pairs : List (Fin n × Fin n)) (hpairs : ∀ q ∈ p :: pairs, q.1 ≠ q.2) (X : Spec F n t)
    (hX : ∀ f, LinearIndependent ℂ (X f).row) (W : F → Mat n ℂ) (hW : ∀ f, IsUnit (W f).det)
    (hr : RegIss2 np floor (p :: pairs) d (separate X W)) :
    ∃ W', auxIss2 np floor (p :: pairs) d (separate X W) = .ok (separate X W') ∧
      (lossIp G X W' < lossIp G X W ∨ StationaryColumns (lossIp G X) W p) := by
  obtain ⟨phi, hphi⟩ : ∃ phi, phi = weight id d (separate X W) := ⟨_, rfl⟩
  have hpos : ∀ k s, 0 < phi k s := hphi ▸ weight_id_pos hG hr.1
  have hinj : ∀ f, Function.Injective
      (Matrix.of ![separate X W f p.1, separate X W f p.2] : Matrix (Fin 2) (Fin t) ℂ).vecMul := fun f =>
    pair_rows_injective (hX f) (hW f) (hpairs p (by simp))
  have h := fun f => iss2Pair_strict np phi hpos (separate X W f) (hpairs p (by simp)) (hinj f)
  choose T hT h1 h2 h3 using h
  have hTW : ∀ f, IsUnit (T f * W f).det := fun f => by rw [det_mul]; exact (hT f).mul (hW f)
  have k := fun f => C34_iss2 np id pairs (fun q hq => hpairs q (by simp [hq])) phi hpos (X f) (hX f) (T f * W f)
    (hTW f) rfl
  choose W' k1 k2 k3 using k
  have hobj : ∀ f, power phi (T f * W f * X f) - 2 * Real.log ‖(T f * W f).det‖
      = power phi (T f * separate X W f) - 2 * Real.log ‖(T f).det‖ - 2 * Real.log ‖(W f).det‖ := fun f => by
    rw [separate, Matrix.mul_assoc, det_mul, norm_mul,
      Real.log_mul (norm_pos_iff.mpr (hT f).ne_zero).ne' (norm_pos_iff.mpr (hW f).ne_zero).ne']
    ring
  have hle : ∀ f, power phi (separate X W' f) - 2 * Real.log ‖(W' f).det‖
      ≤ power phi (T f * separate X W f) - 2 * Real.log ‖(T f).det‖ - 2 * Real.log ‖(W f).det‖ := fun f => by
    rw [← hobj]
    exact k3 f
  refine ⟨W', ?_, ?_⟩
  · rw [hr.2, auxIss2, ← hphi]
    refine foldlM_onBins (fun f => iss2Pair np id phi) (p :: pairs) (separate X W) (separate X W') fun f => ?_
    rw [List.foldlM_cons, h1 f, separate, ← Matrix.mul_assoc]
    exact k1 f
  by_cases hall : ∀ f j, j = p.1 ∨ j = p.2 → ∀ i, separate X W f i ⬝ᵥ (wdiag (phi i) *ᵥ star (separate X W f j))
      = (1 : Mat n ℂ) i j
  · right
    rw [lossIp_eq]
    refine Grad.stationaryColumns_of (fun _ => phi) X W hW ?_ p hall
    rw [hphi]
    exact isScoreAt hd _ hr.1
  · left
    push Not at hall
    obtain ⟨f, j, hj, i, hne⟩ := hall
    have hlt := (h3 f).resolve_right fun h => hne (h j hj i)
    have hgap := mm_gap G phi (separate X W) (separate X W') W W'
      (fun k s => by rw [hphi]; exact hG.le k s _ _ (hr.1 k s) (binNorm_nonneg _ k s))
    have hsum : ∑ f, (power phi (separate X W' f) - 2 * Real.log ‖(W' f).det‖)
        < ∑ f, (power phi (separate X W f) - 2 * Real.log ‖(W f).det‖) := by
      refine Finset.sum_lt_sum (fun f _ => ?_) ⟨f, Finset.mem_univ _, ?_⟩
      · have := hle f
        have := h2 f
        linarith
      · have := hle f
        linarith
    rw [lossIp, lossIp]
    linarith

omit [Fintype F] in
/-- With two sources the filters of the pair are all filters. -/
theorem stationary_of_rows {L : (F → Mat 2 ℂ) → ℝ} {W : F → Mat 2 ℂ} (h : StationaryRows L W (0, 1)) :
    Stationary L W := fun H => h H fun f i h0 h1 => by
  fin_cases i
  · exact absurd rfl h0
  · exact absurd rfl h1

omit [Fintype F] in
theorem stationary_of_columns {L : (F → Mat 2 ℂ) → ℝ} {W : F → Mat 2 ℂ} (hW : ∀ f, IsUnit (W f).det)
    (h : StationaryColumns L W (0, 1)) : Stationary L W := fun H => by
  have := h (fun f => H f * (W f)⁻¹) fun f i j h0 h1 => by
    fin_cases j
    · exact absurd rfl h0
    · exact absurd rfl h1
  simpa only [nonsing_inv_mul_cancel_right _ _ (hW _)] using this

theorem laplace_hasDerivAt (k : Fin n) (s : Fin t) (r : ℝ) (_ : 0 < r) :
    HasDerivAt (laplaceG k s) (laplaceD k s r) r := by
  have := (hasDerivAt_id r).const_mul 2
  exact this.congr_deriv (mul_one 2)

theorem gauss_hasDerivAt (alpha : Fin n → Fin t → ℝ) (k : Fin n) (s : Fin t) (r : ℝ) (_ : 0 < r) :
    HasDerivAt (gaussG F alpha k s) (gaussD alpha k s r) r := by
  have := (((hasDerivAt_id r).pow 2).div_const (alpha k s)).const_add (Fintype.card F * Real.log (alpha k s))
  refine this.congr_deriv ?_
  simp [gaussD]

/-- `AuxLaplaceIVA` with IP1, and the fixed points agree with those of the gradient methods. -/
theorem C61_laplace_ip1 (floor : ℝ → ℝ) (X : Spec F n t) (hX : ∀ f, LinearIndependent ℂ (X f).row)
    (W : F → Mat n ℂ) (hW : ∀ f, IsUnit (W f).det) (hr : RegIp1 floor laplaceD X W) (step_size : ℝ)
    (hμ : step_size ≠ 0) :
    ∃ W', auxIp1 floor laplaceD X W = .ok W' ∧ (lossIp laplaceG X W' < lossIp laplaceG X W ∨ W' = W) ∧
      (W' = W ↔ Stationary (lossIp laplaceG X) W) ∧
      (W' = W ↔ Grad.naturalStep step_size true (Grad.ivaLaplaceScore id) X W = W) := by
  obtain ⟨W', h1, h2, h3⟩ := C61_ip1 laplace_majorised laplace_hasDerivAt floor X hX W hW hr
  refine ⟨W', h1, h2, h3, h3.trans ?_⟩
  have hs := Grad.C57_laplace_iva id (Grad.sep X W) (fun k s => by
    by_contra hno
    push Not at hno
    have := hr.1 k s
    rw [binNorm, show (∑ f, ‖separate X W f k s‖ ^ 2) = 0 from Finset.sum_eq_zero fun f _ => by
      rw [show separate X W f k s = 0 from hno f]; simp, Real.sqrt_zero] at this
    exact lt_irrefl _ this) fun _ _ => rfl
  exact (Grad.C57_fixed_iff_stationary 2 two_pos _ _ X W hW hs step_size hμ).1.symm

theorem C61_laplace_iss1 (floor : ℝ → ℝ) (X : Spec F n t) (hX : ∀ f, LinearIndependent ℂ (X f).row)
    (W : F → Mat n ℂ) (hW : ∀ f, IsUnit (W f).det) (hr : RegIss1 floor laplaceD (separate X W)) :
    ∃ W' : F → Mat n ℂ, auxIss1 floor laplaceD (separate X W) = separate X W' ∧
      (lossIp laplaceG X W' < lossIp laplaceG X W ∨ auxIss1 floor laplaceD (separate X W) = separate X W) ∧
      (auxIss1 floor laplaceD (separate X W) = separate X W ↔ Stationary (lossIp laplaceG X) W) :=
  C61_iss1 laplace_majorised laplace_hasDerivAt floor X hX W hW hr

/-- `AuxLaplaceIVA` with IP2 for two sources. -/
theorem C61_laplace_ip2_two (np : Numpy ℂ) (floor : ℝ → ℝ) (X : Spec F 2 t)
    (hX : ∀ f, LinearIndependent ℂ (X f).row) (W : F → Mat 2 ℂ) (hW : ∀ f, IsUnit (W f).det)
    (hr : RegIp2 np floor laplaceD X W (0, 1)) :
    ∃ W', auxIp2 np floor [(0, 1)] laplaceD X W = .ok W' ∧
      (lossIp laplaceG X W' < lossIp laplaceG X W ∨ Stationary (lossIp laplaceG X) W) := by
  obtain ⟨W', h1, h2⟩ := C61_ip2 np laplace_majorised laplace_hasDerivAt floor (0, 1) [] (by simp) X hX W hW
    ⟨hr, fun _ _ => trivial⟩
  exact ⟨W', h1, h2.imp id stationary_of_rows⟩

/-- `AuxLaplaceIVA` with ISS2 for two sources. -/
theorem C61_laplace_iss2_two (np : Numpy ℂ) (floor : ℝ → ℝ) (X : Spec F 2 t)
    (hX : ∀ f, LinearIndependent ℂ (X f).row) (W : F → Mat 2 ℂ) (hW : ∀ f, IsUnit (W f).det)
    (hr : RegIss2 np floor [(0, 1)] laplaceD (separate X W)) :
    ∃ W', auxIss2 np floor [(0, 1)] laplaceD (separate X W) = .ok (separate X W') ∧
      (lossIp laplaceG X W' < lossIp laplaceG X W ∨ Stationary (lossIp laplaceG X) W) := by
  obtain ⟨W', h1, h2⟩ := C61_iss2 np laplace_majorised laplace_hasDerivAt floor (0, 1) [] (by simp) X hX W hW hr
  exact ⟨W', h1, h2.imp id (stationary_of_columns hW)⟩

/-- The loss of `AuxGaussIVA` is strictly smaller with the updated variance, unless the variance is that one. -/
theorem gaussVariance_strict [Nonempty F] (X : Spec F n t) (W : F → Mat n ℂ) (alpha : Fin n → Fin t → ℝ)
    (ha : ∀ k s, 0 < alpha k s) (hY : ∀ k s, 0 < binNorm (separate X W) k s)
    (hne : gaussVariance (separate X W) ≠ alpha) :
    lossIp (gaussG F (gaussVariance (separate X W))) X W < lossIp (gaussG F alpha) X W := by
  have hN : (0 : ℝ) < Fintype.card F := by exact_mod_cast Fintype.card_pos
  have hkey : ∀ k s, gaussG F (gaussVariance (separate X W)) k s (binNorm (separate X W) k s)
      ≤ gaussG F alpha k s (binNorm (separate X W) k s) ∧ (gaussVariance (separate X W) k s ≠ alpha k s →
      gaussG F (gaussVariance (separate X W)) k s (binNorm (separate X W) k s)
      < gaussG F alpha k s (binNorm (separate X W) k s)) := by
    intro k s
    have hr := pow_pos (hY k s) 2
    have ha' := ha k s
    simp only [gaussG]
    have hv : gaussVariance (separate X W) k s = binNorm (separate X W) k s ^ 2 / Fintype.card F := by
      rw [binNorm_sq]; rfl
    rw [hv]
    obtain ⟨r, hrd⟩ : ∃ r, r = binNorm (separate X W) k s ^ 2 := ⟨_, rfl⟩
    obtain ⟨N, hNd⟩ : ∃ N : ℝ, N = Fintype.card F := ⟨_, rfl⟩
    obtain ⟨a, had⟩ : ∃ a, a = alpha k s := ⟨_, rfl⟩
    rw [← hrd] at hr ⊢
    rw [← hNd] at hN ⊢
    rw [← had] at ha' ⊢
    have h1 : r / (r / N) = N := by field_simp
    have h3 : N * (r / N / a) = r / a := by field_simp
    rw [h1]
    constructor
    · have h2 := Real.log_le_sub_one_of_pos (show 0 < r / N / a by positivity)
      rw [Real.log_div (by positivity) ha'.ne'] at h2
      nlinarith [mul_le_mul_of_nonneg_left h2 hN.le]
    · intro hne
      have h2 := Real.log_lt_sub_one_of_pos (show 0 < r / N / a by positivity) (by
        rw [ne_eq, div_eq_one_iff_eq ha'.ne']
        exact hne)
      rw [Real.log_div (by positivity) ha'.ne'] at h2
      nlinarith [mul_lt_mul_of_pos_left h2 hN]
  unfold lossIp ivaLoss
  refine sub_lt_sub_right ?_ _
  obtain ⟨k, hk⟩ := Function.ne_iff.mp hne
  obtain ⟨s, hs⟩ := Function.ne_iff.mp hk
  have ht : (0 : ℝ) < t := by exact_mod_cast Fin.pos s
  refine Finset.sum_lt_sum (fun k _ => ?_) ⟨k, Finset.mem_univ _, ?_⟩
  · simp only [meanT]
    exact div_le_div_of_nonneg_right (Finset.sum_le_sum fun s _ => (hkey k s).1) ht.le
  · simp only [meanT]
    exact div_lt_div_of_pos_right
      (Finset.sum_lt_sum (fun s _ => (hkey k s).1) ⟨s, Finset.mem_univ _, (hkey k s).2 hs⟩) ht

/-- The derivatives of the loss of `AuxGaussIVA` with respect to the variances vanish exactly at the updated
variances. -/
theorem gaussVariance_stationary [Nonempty F] (X : Spec F n t) (W : F → Mat n ℂ) (alpha : Fin n → Fin t → ℝ)
    (ha : ∀ k s, 0 < alpha k s) :
    gaussVariance (separate X W) = alpha ↔ ∀ D : Fin n → Fin t → ℝ,
      HasDerivAt (fun ε : ℝ => gaussLoss X ⟨W, fun k s => alpha k s + ε * D k s⟩) 0 0 := by
  have hN : (0 : ℝ) < Fintype.card F := by exact_mod_cast Fintype.card_pos
  obtain ⟨N, hNd⟩ : ∃ N : ℝ, N = Fintype.card F := ⟨_, rfl⟩
  rw [← hNd] at hN
  obtain ⟨r, hrd⟩ : ∃ r : Fin n → Fin t → ℝ, r = fun k s => binNorm (separate X W) k s ^ 2 := ⟨_, rfl⟩
  have hd : ∀ D : Fin n → Fin t → ℝ, HasDerivAt (fun ε : ℝ => gaussLoss X ⟨W, fun k s => alpha k s + ε * D k s⟩)
      (∑ k, (∑ s, D k s * (N / alpha k s - r k s / alpha k s ^ 2)) / t) 0 := by
    intro D
    have h1 : ∀ k s, HasDerivAt (fun ε : ℝ => alpha k s + ε * D k s) (D k s) 0 := fun k s => by
      have := ((hasDerivAt_id (0 : ℝ)).mul_const (D k s)).const_add (alpha k s)
      exact this.congr_deriv (one_mul _)
    have h2 : ∀ k s, HasDerivAt (fun ε : ℝ => N * Real.log (alpha k s + ε * D k s) + r k s / (alpha k s + ε * D k s))
        (D k s * (N / alpha k s - r k s / alpha k s ^ 2)) 0 := fun k s => by
      have ha' := (ha k s).ne'
      have h3 := (((h1 k s).log (by simpa using ha')).const_mul N).add
        ((hasDerivAt_const (0 : ℝ) (r k s)).div (h1 k s) (by simpa using ha'))
      refine h3.congr_deriv ?_
      simp only [zero_mul, add_zero, zero_sub]
      field_simp
      ring
    have h3 := (HasDerivAt.fun_sum (u := Finset.univ) fun (k : Fin n) _ =>
      (HasDerivAt.fun_sum (u := Finset.univ) fun (s : Fin t) _ => h2 k s).div_const (t : ℝ)).sub_const
        (2 * ∑ f, Real.log ‖(W f).det‖)
    refine h3.congr_of_eventuallyEq (Filter.Eventually.of_forall fun ε => ?_)
    simp only [gaussLoss, lossIp, ivaLoss, meanT, gaussG, ← hNd, hrd]
  have hv : ∀ k s, gaussVariance (separate X W) k s = r k s / N := fun k s => by
    rw [hrd, hNd]
    simp only [binNorm_sq]
    rfl
  constructor
  · intro h D
    refine (hd D).congr_deriv (Finset.sum_eq_zero fun k _ => ?_)
    rw [Finset.sum_eq_zero, zero_div]
    intro s _
    have hks := hv k s
    rw [h] at hks
    have ha' := (ha k s).ne'
    have : r k s = alpha k s * N := by rw [hks]; field_simp
    rw [this]
    field_simp
    ring
  · intro h
    funext k s
    have ht : (0 : ℝ) < t := by exact_mod_cast Fin.pos s
    have h0 := (hd fun k' s' => if k' = k ∧ s' = s then 1 else 0).unique (h _)
    rw [Finset.sum_eq_single k, Finset.sum_eq_single s] at h0
    · rw [if_pos ⟨rfl, rfl⟩, one_mul, div_eq_zero_iff] at h0
      have h1 := h0.resolve_right ht.ne'
      have ha' := ha k s
      rw [hv]
      field_simp at h1 ⊢
      linarith
    · intro s' _ hs'
      rw [if_neg (fun h => hs' h.2), zero_mul]
    · intro hs
      exact absurd (Finset.mem_univ s) hs
    · intro k' _ hk'
      rw [Finset.sum_eq_zero, zero_div]
      intro s' _
      rw [if_neg (fun h => hk' h.1), zero_mul]
    · intro hk
      exact absurd (Finset.mem_univ k) hk

/-- `AuxGaussIVA` with IP1: the loss becomes strictly smaller or neither variances nor filters change, and they do not
change exactly if the loss is stationary in the filters and in the variances. -/
theorem C61_gauss_ip1 [Nonempty F] (floor : ℝ → ℝ) (X : Spec F n t) (hX : ∀ f, LinearIndependent ℂ (X f).row)
    (s : GaussState F n t) (hW : ∀ f, IsUnit (s.W f).det) (hv : ∀ k j, 0 < s.variance k j)
    (hr : RegGaussIp1 floor X s) :
    ∃ s', gaussIp1 floor X s = .ok s' ∧ (gaussLoss X s' < gaussLoss X s ∨ s' = s) ∧
      (s' = s ↔ Stationary (fun W => gaussLoss X ⟨W, s.variance⟩) s.W ∧ ∀ D : Fin n → Fin t → ℝ,
        HasDerivAt (fun ε : ℝ => gaussLoss X ⟨s.W, fun k j => s.variance k j + ε * D k j⟩) 0 0) := by
  obtain ⟨v, hvd⟩ : ∃ v, v = gaussVariance (separate X s.W) := ⟨_, rfl⟩
  have hN : (0 : ℝ) < Fintype.card F := by exact_mod_cast Fintype.card_pos
  have hvpos : ∀ k j, 0 < v k j := by
    intro k j
    have := pow_pos (hr.1 k j) 2
    rw [binNorm_sq] at this
    rw [hvd]
    exact div_pos this hN
  obtain ⟨W', h1, h2, h3⟩ := C61_ip1 (gauss_majorised (F := F) v hvpos) (gauss_hasDerivAt (F := F) v) id X hX s.W hW
    ⟨hr.1, rfl⟩
  have hrun : gaussIp1 floor X s = .ok ⟨W', v⟩ := by
    rw [hr.2, gaussIp1]
    simp only [← hvd, h1, bind, Except.bind]
  refine ⟨⟨W', v⟩, hrun, ?_, ?_⟩
  · by_cases hvs : v = s.variance
    · refine h2.imp (fun h => ?_) fun h => ?_
      · rw [gaussLoss, gaussLoss, ← hvs]
        exact h
      · rw [h, hvs]
    · left
      have hlt := gaussVariance_strict X s.W s.variance hv hr.1 (hvd ▸ hvs)
      rw [← hvd] at hlt
      refine lt_of_le_of_lt ?_ hlt
      rcases h2 with h | h
      · exact h.le
      · rw [h]
        exact le_refl _
  · rw [← gaussVariance_stationary X s.W s.variance hv, ← hvd]
    constructor
    · intro h
      have hvs : v = s.variance := congrArg GaussState.variance h
      have hWs : W' = s.W := congrArg GaussState.W h
      refine ⟨?_, hvs⟩
      rw [← hvs]
      exact h3.mp hWs
    · rintro ⟨h, hvs⟩
      rw [← hvs] at h
      rw [h3.mpr h, hvs]

/-- Two observations of one source, `x = (1, 1)`: the filter `1` is a stationary point, so IP1 keeps it. -/
example : auxIp1 id laplaceD (fun _ : Unit => (!![1, 1] : Matrix (Fin 1) (Fin 2) ℂ)) 1 = .ok 1 ∧
    Stationary (lossIp laplaceG fun _ : Unit => (!![1, 1] : Matrix (Fin 1) (Fin 2) ℂ)) 1 := by
  have hX : LinearIndependent ℂ (!![1, 1] : Matrix (Fin 1) (Fin 2) ℂ).row := by
    rw [Fintype.linearIndependent_iff]
    intro g hg i
    have := congrFun hg 0
    simpa [Subsingleton.elim i 0] using this
  have hb : ∀ k s, binNorm (separate (fun _ : Unit => (!![1, 1] : Matrix (Fin 1) (Fin 2) ℂ)) 1) k s = 1 := by
    intro k s
    fin_cases k; fin_cases s <;> simp [binNorm, separate]
  have hreg : RegIp1 id laplaceD (fun _ : Unit => (!![1, 1] : Matrix (Fin 1) (Fin 2) ℂ)) 1 :=
    ⟨fun k s => by rw [hb]; exact one_pos, rfl⟩
  have hst : Stationary (lossIp laplaceG fun _ : Unit => (!![1, 1] : Matrix (Fin 1) (Fin 2) ℂ)) 1 := by
    rw [lossIp_eq]
    refine (Grad.stationary_iff_balanced _ _ _ (fun _ => by simp) (isScoreAt laplace_hasDerivAt _ hreg.1)).mpr ?_
    intro f i j
    rw [← meanT_form]
    simp only [weight, show Grad.sep (fun _ : Unit => (!![1, 1] : Matrix (Fin 1) (Fin 2) ℂ)) 1
      = separate (fun _ : Unit => (!![1, 1] : Matrix (Fin 1) (Fin 2) ℂ)) 1 from rfl, hb]
    fin_cases i; fin_cases j
    simp [meanT, separate, laplaceD, Fin.sum_univ_two]
  obtain ⟨W', h1, -, h3⟩ := C61_ip1 laplace_majorised laplace_hasDerivAt id _ (fun _ => hX) 1 (fun _ => by simp) hreg
  rw [h3.mpr hst] at h1
  exact ⟨h1, hst⟩

/-- With `x = (2, 2)` the filter `1` is not stationary, and IP1 makes the loss strictly smaller. -/
example : ∃ W', auxIp1 id laplaceD (fun _ : Unit => (!![2, 2] : Matrix (Fin 1) (Fin 2) ℂ)) 1 = .ok W' ∧
    lossIp laplaceG (fun _ : Unit => (!![2, 2] : Matrix (Fin 1) (Fin 2) ℂ)) W'
      < lossIp laplaceG (fun _ : Unit => (!![2, 2] : Matrix (Fin 1) (Fin 2) ℂ)) 1 := by
  have hX : LinearIndependent ℂ (!![2, 2] : Matrix (Fin 1) (Fin 2) ℂ).row := by
    rw [Fintype.linearIndependent_iff]
    intro g hg i
    have := congrFun hg 0
    simpa [Subsingleton.elim i 0] using this
  have hb : ∀ k s, binNorm (separate (fun _ : Unit => (!![2, 2] : Matrix (Fin 1) (Fin 2) ℂ)) 1) k s = 2 := by
    intro k s
    have h4 : Real.sqrt (2 ^ 2) = 2 := Real.sqrt_sq (by norm_num)
    fin_cases k; fin_cases s <;> simp [binNorm, separate, h4]
  have hreg : RegIp1 id laplaceD (fun _ : Unit => (!![2, 2] : Matrix (Fin 1) (Fin 2) ℂ)) 1 :=
    ⟨fun k s => by rw [hb]; exact two_pos, rfl⟩
  obtain ⟨W', h1, h2, h3⟩ := C61_ip1 laplace_majorised laplace_hasDerivAt id _ (fun _ => hX) 1 (fun _ => by simp) hreg
  refine ⟨W', h1, h2.resolve_right fun h => ?_⟩
  have hst := h3.mp h
  rw [lossIp_eq, Grad.stationary_iff_balanced _ _ _ (fun _ => by simp) (isScoreAt laplace_hasDerivAt _ hreg.1)] at hst
  have := hst () 0 0
  rw [← meanT_form] at this
  simp only [weight, show Grad.sep (fun _ : Unit => (!![2, 2] : Matrix (Fin 1) (Fin 2) ℂ)) 1
      = separate (fun _ : Unit => (!![2, 2] : Matrix (Fin 1) (Fin 2) ℂ)) 1 from rfl, hb] at this
  norm_num [meanT, separate, laplaceD, Fin.sum_univ_two, show (starRingEnd ℂ) 2 = 2 from Complex.conj_ofNat 2] at this

end Iva

namespace Fdica

variable [Fintype F]

noncomputable def contrast (G : ℝ → ℝ) (Y : Spec F n t) (i : F × Fin n) (s : Fin t) : ℝ := G ‖Y i.1 i.2 s‖

theorem loss_eq (G : ℝ → ℝ) (X : Spec F n t) : loss G X = Grad.loss 2 (contrast G) X := by
  funext W
  simp only [loss, Grad.loss, Finset.sum_sub_distrib, Finset.mul_sum, Fintype.sum_prod_type]
  rfl

theorem isScoreAt {G d : ℝ → ℝ} (hd : ∀ r, 0 < r → HasDerivAt G (d r) r) (Y : Spec F n t)
    (hY : ∀ f k s, Y f k s ≠ 0) :
    Grad.IsScoreAt 2 (contrast G) (Grad.weighted fun f => weight id d (Y f)) Y := by
  intro Δ
  have h : ∀ (i : F × Fin n) s, HasDerivAt (fun ε : ℝ => G ‖Y i.1 i.2 s + (ε : ℂ) * Δ i.1 i.2 s‖)
      (2 * (weight id d (Y i.1) i.2 s * (star (Y i.1 i.2 s) * Δ i.1 i.2 s).re)) 0 := by
    intro i s
    have hp := norm_pos_iff.mpr (hY i.1 i.2 s)
    have h2 := hd _ hp
    have e0 : ‖Y i.1 i.2 s + ((0 : ℝ) : ℂ) * Δ i.1 i.2 s‖ = ‖Y i.1 i.2 s‖ := by simp
    rw [← e0] at h2
    refine (h2.comp (0 : ℝ) (Grad.hasDerivAt_norm _ (Δ i.1 i.2 s) (hY i.1 i.2 s))).congr_deriv ?_
    rw [e0, weight, id]
    field_simp
  have := HasDerivAt.fun_sum (u := Finset.univ) fun (i : F × Fin n) _ =>
    HasDerivAt.fun_sum (u := Finset.univ) fun (s : Fin t) _ => h i s
  refine (this.congr_of_eventuallyEq (Filter.Eventually.of_forall fun ε => ?_)).congr_deriv ?_
  · simp [contrast]
  · simp only [← Finset.mul_sum, Fintype.sum_prod_type, Grad.weighted, of_apply]
    congr 1
    refine Finset.sum_congr rfl fun f _ => Finset.sum_congr rfl fun k _ => Finset.sum_congr rfl fun s _ => ?_
    rw [star_mul', show star ((weight id d (Y f) k s : ℝ) : ℂ) = (weight id d (Y f) k s : ℂ) from
      Complex.conj_ofReal _, mul_assoc]
    exact (Complex.re_ofReal_mul _ _).symm

/-- The loss decreases by at least as much as the auxiliary function. -/
theorem mm_gap {G d : ℝ → ℝ} (hG : Majorised G d) (X : Spec F n t) (W W' : F → Mat n ℂ)
    (hY : ∀ f k s, separate X W f k s ≠ 0) :
    loss G X W' - loss G X W
      ≤ ∑ f, (power (weight id d (separate X W f)) (separate X W' f) - 2 * Real.log ‖(W' f).det‖)
        - ∑ f, (power (weight id d (separate X W f)) (separate X W f) - 2 * Real.log ‖(W f).det‖) := by
  unfold loss
  rw [← Finset.sum_sub_distrib, ← Finset.sum_sub_distrib]
  refine Finset.sum_le_sum fun f _ => ?_
  have h2 : ∑ k, meanT (fun s => G ‖separate X W' f k s‖)
      ≤ ∑ k, meanT (fun s => G ‖separate X W f k s‖)
        + (power (weight id d (separate X W f)) (separate X W' f)
          - power (weight id d (separate X W f)) (separate X W f)) := by
    unfold power
    rw [← Finset.sum_sub_distrib, ← Finset.sum_add_distrib]
    refine Finset.sum_le_sum fun k _ => ?_
    simp only [meanT]
    rw [← sub_div, ← add_div, ← Finset.sum_sub_distrib, ← Finset.sum_add_distrib]
    refine div_le_div_of_nonneg_right (Finset.sum_le_sum fun s _ => ?_) (by positivity)
    have := hG.le _ _ (norm_pos_iff.mpr (hY f k s)) (norm_nonneg (separate X W' f k s))
    rw [weight, id]
    linarith
  linarith

section
variable {G d : ℝ → ℝ} (hG : Majorised G d) (hd : ∀ r, 0 < r → HasDerivAt G (d r) r) (floor : ℝ → ℝ)
  (X : Spec F n t) (hX : ∀ f, LinearIndependent ℂ (X f).row) (W : F → Mat n ℂ) (hW : ∀ f, IsUnit (W f).det)
include hG hd hX hW

/-- One iteration of `AuxFDICA` with IP1. -/
theorem C62_ip1 (hr : RegIp1 floor d X W) :
    ∃ W', auxIp1 floor d X W = .ok W' ∧ (loss G X W' < loss G X W ∨ W' = W) ∧
      (W' = W ↔ Stationary (loss G X) W) := by
  obtain ⟨W', h1, -, h3, h4⟩ := Iva.ip1Stack_strict (fun f => weight id d (separate X W f))
    (fun f => weight_id_pos hG (hr.1 f)) X hX W hW
  refine ⟨W', by rw [hr.2]; exact h1, h3.imp (fun h => ?_) id, h4.trans ?_⟩
  · have := mm_gap hG X W W' hr.1
    linarith
  · rw [loss_eq]
    exact (Grad.stationary_iff_balanced _ X W hW (isScoreAt hd _ hr.1)).symm

/-- One pair of IP2. -/
theorem C62_ip2_pair (np : Numpy ℂ) (p : Fin n × Fin n) (hp : p.1 ≠ p.2) (hr : RegIp2 np floor d X W p) :
    ∃ W', auxIp2Pair np floor d X W p = .ok W' ∧
      (loss G X W' < loss G X W ∨ StationaryRows (loss G X) W p) := by
  obtain ⟨phi, hphi⟩ : ∃ phi, phi = fun f => weight id d (separate X W f) := ⟨_, rfl⟩
  have hpos : ∀ f k s, 0 < phi f k s := hphi ▸ fun f => weight_id_pos hG (hr.1 f)
  have h := fun f => ip2Pair_strict np (fun k => Iva.wcov_posDef (hpos f) hX f k) (hW f) hp
  choose W' h1 h2 h3 h4 using h
  refine ⟨W', ?_, ?_⟩
  · rw [hr.2, auxIp2Pair]
    have : ∀ f, weight id d (separate X W f) = phi f := fun f => by rw [hphi]
    simp only [this]
    exact onBins_ok h1
  by_cases hall : ∀ f i, i = p.1 ∨ i = p.2 → W f *ᵥ (Iva.wcov (phi f) X f i *ᵥ star (W f i)) = Pi.single i 1
  · right
    rw [loss_eq]
    refine Grad.stationaryRows_of phi X W hW ?_ p fun f i hi => ?_
    · rw [hphi]
      exact isScoreAt hd _ hr.1
    · exact (row_equation_iff (phi f) X f (W f) i).mp (hall f i hi)
  · left
    push Not at hall
    obtain ⟨f, i, hi, hne⟩ := hall
    have hlt := (h4 f).resolve_right fun h => hne (h i hi)
    have hgap := mm_gap hG X W W' hr.1
    have hsum : ∑ f, (power (phi f) (separate X W' f) - 2 * Real.log ‖(W' f).det‖)
        < ∑ f, (power (phi f) (separate X W f) - 2 * Real.log ‖(W f).det‖) := by
      simp only [← Iva.ipLoss_wcov]
      exact Finset.sum_lt_sum (fun f _ => h3 f) ⟨f, Finset.mem_univ _, hlt⟩
    rw [hphi] at hsum
    linarith

end

/-- A whole IP2 iteration of `AuxFDICA`. -/
theorem C62_ip2 (np : Numpy ℂ) {G d : ℝ → ℝ} (hG : Majorised G d) (hd : ∀ r, 0 < r → HasDerivAt G (d r) r)
    (floor : ℝ → ℝ) (p : Fin n × Fin n) (pairs : List (Fin n × Fin n)) (hpairs : ∀ q ∈ p :: pairs, q.1 ≠ q.2)
    (X : Spec F n t) (hX : ∀ f, LinearIndependent ℂ (X f).row) (W : F → Mat n ℂ) (hW : ∀ f, IsUnit (W f).det)
    (hr : RegularFold (auxIp2Pair np floor d X) (RegIp2 np floor d X) (p :: pairs) W) :
    ∃ W', auxIp2 np floor d (p :: pairs) X W = .ok W' ∧
      (loss G X W' < loss G X W ∨ StationaryRows (loss G X) W p) := by
  obtain ⟨W1, h1, h2, h3⟩ := auxIp2Pair_step np hG floor X hX W hW p (hpairs p (by simp)) hr.1
  obtain ⟨W2, k1, k2, k3⟩ := foldlM_regular (auxIp2Pair np floor d X) (fun W => ∀ f, IsUnit (W f).det)
      (RegIp2 np floor d X) (loss G X) pairs
      (fun W q hq hW hr => auxIp2Pair_step np hG floor X hX W hW q (hpairs q (by simp [hq])) hr) W1 h2
      (hr.2 W1 h1)
  obtain ⟨W1', g1, g2⟩ := C62_ip2_pair hG hd floor X hX W hW np p (hpairs p (by simp)) hr.1
  rw [h1] at g1
  cases g1
  refine ⟨W2, ?_, g2.imp (fun h => k3.trans_lt h) id⟩
  rw [auxIp2, List.foldlM_cons, h1]
  exact k1

theorem laplace_hasDerivAt (r : ℝ) (_ : 0 < r) : HasDerivAt laplaceG (laplaceD r) r := by
  have := (hasDerivAt_id r).const_mul 2
  exact this.congr_deriv (mul_one 2)

/-- `AuxLaplaceFDICA` with IP1, and the fixed points agree with those of the gradient methods. -/
theorem C62_laplace_ip1 (floor : ℝ → ℝ) (X : Spec F n t) (hX : ∀ f, LinearIndependent ℂ (X f).row)
    (W : F → Mat n ℂ) (hW : ∀ f, IsUnit (W f).det) (hr : RegIp1 floor laplaceD X W) (step_size : ℝ)
    (hμ : step_size ≠ 0) :
    ∃ W', auxIp1 floor laplaceD X W = .ok W' ∧ (loss laplaceG X W' < loss laplaceG X W ∨ W' = W) ∧
      (W' = W ↔ Stationary (loss laplaceG X) W) ∧
      (W' = W ↔ Grad.naturalStep step_size true (Grad.fdicaLaplaceScore id) X W = W) := by
  obtain ⟨W', h1, h2, h3⟩ := C62_ip1 laplace_majorised laplace_hasDerivAt floor X hX W hW hr
  refine ⟨W', h1, h2, h3, h3.trans ?_⟩
  have hs := Grad.C57_laplace_fdica id (Grad.sep X W) hr.1 fun _ _ _ => rfl
  rw [(Grad.C57_fixed_iff_stationary 2 two_pos _ _ X W hW hs step_size hμ).1, loss_eq]
  rfl

example : ∃ W', auxIp1 id laplaceD (fun _ : Unit => (!![1, 2; 2, 1] : Matrix (Fin 2) (Fin 2) ℂ)) 1 = .ok W' ∧
    (loss laplaceG (fun _ : Unit => (!![1, 2; 2, 1] : Matrix (Fin 2) (Fin 2) ℂ)) W'
      < loss laplaceG (fun _ : Unit => (!![1, 2; 2, 1] : Matrix (Fin 2) (Fin 2) ℂ)) 1 ∨ W' = 1) ∧
    (W' = 1 ↔ Stationary (loss laplaceG fun _ : Unit => (!![1, 2; 2, 1] : Matrix (Fin 2) (Fin 2) ℂ)) 1) := by
  have hdet : IsUnit (!![1, 2; 2, 1] : Matrix (Fin 2) (Fin 2) ℂ) := by
    rw [isUnit_iff_isUnit_det, det_fin_two, isUnit_iff_ne_zero]
    norm_num
  refine C62_ip1 laplace_majorised laplace_hasDerivAt id _ (fun _ => (linearIndependent_rows_iff_isUnit).mpr hdet) 1
    (fun _ => by simp) ⟨?_, rfl⟩
  intro f k s
  fin_cases k <;> fin_cases s <;> simp [separate]

end Fdica
end Verif
