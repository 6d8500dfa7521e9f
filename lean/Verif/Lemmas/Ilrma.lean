import Verif.Lemmas.Majorise
import Verif.Lemmas.Mult
import Verif.Model.Ilrma

/-! # The source models of ILRMA -/

set_option linter.unusedSectionVars false

namespace Verif.Ilrma

open Matrix Spatial Scale Mult

/-- What the multiplicative updates need: the loss at a point is majorised by `w r'^(-q) + κ log r'`, and `num` and
the exponent are the ones belonging to this majoriser. -/
structure IsMM (src : Source) (q κ : ℝ) (w : ℝ → ℝ → ℝ) : Prop where
  q_pos : 0 < q
  κ_pos : 0 < κ
  w_nonneg : ∀ y r, 0 ≤ y → 0 < r → 0 ≤ w y r
  maj : ∀ y r r', 0 ≤ y → 0 < r → 0 < r' →
    src.ell y r' ≤ src.ell y r + w y r * (r' ^ (-q) - r ^ (-q)) + κ * (Real.log r' - Real.log r)
  num_eq : ∀ y r, 0 ≤ y → 0 < r → src.num y r = q / κ * (w y r * r ^ (-(1 + q)))
  expo_eq : src.expo = 1 / (1 + q) ∨ q = 1 ∧ src.expo = 1

/-- What the spatial updates need at one point. -/
def SpatialOk (src : Source) (floor : ℝ → ℝ) (y r : ℝ) : Prop :=
  0 < src.phi floor y r ∧ ∀ y', 0 ≤ y' → src.ell y' r ≤ src.ell y r + src.phi floor y r * (y' ^ 2 - y ^ 2)

/-- What normalisation needs. -/
def ScaleInv (src : Source) (p : ℝ) : Prop :=
  ∀ y r c, 0 ≤ y → 0 < r → 0 < c → src.ell (y * c) (r * c ^ p) = src.ell y r + 2 * Real.log c

/-- The floored value of an update is positive, and is the update itself or lies between the update and the old
value. -/
def FloorMild (floor : ℝ → ℝ) (old new : ℝ) : Prop :=
  0 < floor new ∧ (floor new = new ∨ new ≤ floor new ∧ floor new ≤ old)

theorem FloorMild.of_max {eps old new : ℝ} (heps : 0 < eps) (hold : eps ≤ old) :
    FloorMild (fun x => max x eps) old new := by
  refine ⟨lt_max_of_lt_right heps, ?_⟩
  rcases le_total eps new with h | h
  · exact .inl (max_eq_left h)
  · exact .inr ⟨le_max_left _ _, by simp [h, hold]⟩

theorem FloorMild.of_id {old new : ℝ} (h : 0 < new) : FloorMild id old new := ⟨h, .inl rfl⟩

variable {I J : Type} [Fintype I] [Fintype J]

/-- The factors of a multiplicative update do not increase the auxiliary function. -/
theorem slice_aux {src : Source} {q κ : ℝ} {w : ℝ → ℝ → ℝ} (h : IsMM src q κ w) (a : I → J → ℝ)
    (ha : ∀ i j, 0 ≤ a i j) (θ θ' : J → ℝ) (hθ : ∀ j, 0 < θ j) (hθ' : ∀ j, 0 < θ' j) (y R : I → ℝ)
    (hy : ∀ i, 0 ≤ y i) (hRd : ∀ i, R i = ∑ j, a i j * θ j) (hR : ∀ i, 0 < R i)
    (hupd : ∀ j, θ' j = ((∑ i, a i j * src.num (y i) (R i)) / ∑ i, a i j / R i) ^ src.expo * θ j ∨
      ((∑ i, a i j * src.num (y i) (R i)) / ∑ i, a i j / R i) ^ src.expo * θ j ≤ θ' j ∧ θ' j ≤ θ j) :
    ∀ j, aux q κ (∑ i, a i j * (w (y i) (R i) * R i ^ (-(1 + q)))) (∑ i, a i j / R i) (θ' j / θ j)
      ≤ aux q κ (∑ i, a i j * (w (y i) (R i) * R i ^ (-(1 + q)))) (∑ i, a i j / R i) 1 := by
  set c : J → ℝ := fun j => ∑ i, a i j * (w (y i) (R i) * R i ^ (-(1 + q))) with hc
  set d : J → ℝ := fun j => ∑ i, a i j / R i with hd
  have hcnn : ∀ j, 0 ≤ c j := fun j => Finset.sum_nonneg fun i _ =>
    mul_nonneg (ha i j) (mul_nonneg (h.w_nonneg _ _ (hy i) (hR i)) (Real.rpow_nonneg (hR i).le _))
  have hdnn : ∀ j, 0 ≤ d j := fun j => Finset.sum_nonneg fun i _ => div_nonneg (ha i j) (hR i).le
  have hnum : ∀ j, ∑ i, a i j * src.num (y i) (R i) = q / κ * c j := by
    intro j
    rw [hc, Finset.mul_sum]
    refine Finset.sum_congr rfl fun i _ => ?_
    rw [h.num_eq _ _ (hy i) (hR i)]
    ring
  have hqκ : 0 < q / κ := div_pos h.q_pos h.κ_pos
  set ρ : J → ℝ := fun j => θ' j / θ j with hρ
  have hρpos : ∀ j, 0 < ρ j := fun j => div_pos (hθ' j) (hθ j)
  have hρθ : ∀ j, ρ j * θ j = θ' j := fun j => div_mul_cancel₀ _ (hθ j).ne'
  change ∀ j, aux q κ (c j) (d j) (ρ j) ≤ aux q κ (c j) (d j) 1
  intro j
  rcases (hdnn j).eq_or_lt with hd0 | hdpos
  · have hz : ∀ i, a i j = 0 := by
      intro i
      have := (Finset.sum_eq_zero_iff_of_nonneg
        (fun i _ => div_nonneg (ha i j) (hR i).le)).mp hd0.symm i (Finset.mem_univ i)
      rcases div_eq_zero_iff.mp this with h | h
      · exact h
      · exact absurd h (hR i).ne'
    have hc0 : c j = 0 := Finset.sum_eq_zero fun i _ => by rw [hz i, zero_mul]
    rw [hc0, ← hd0, aux, aux]
    simp
  · set ρs := ((∑ i, a i j * src.num (y i) (R i)) / d j) ^ src.expo with hρs
    have hbase : 0 ≤ (∑ i, a i j * src.num (y i) (R i)) / d j := by
      rw [hnum]
      exact div_nonneg (mul_nonneg hqκ.le (hcnn j)) hdpos.le
    have hρsnn : 0 ≤ ρs := Real.rpow_nonneg hbase _
    have hcase : ρ j = ρs ∨ ρs ≤ ρ j ∧ ρ j ≤ 1 := by
      rcases hupd j with e | ⟨e1, e2⟩
      · left
        rw [hρ]
        simp only
        rw [e]
        exact mul_div_cancel_right₀ _ (hθ j).ne'
      · right
        exact ⟨(le_div_iff₀ (hθ j)).mpr e1, (div_le_one (hθ j)).mpr e2⟩
    rcases h.expo_eq with he | ⟨hq1, he⟩
    · have h1q : 0 < 1 + q := by linarith [h.q_pos]
      have hpow : ρs ^ (1 + q) = q / κ * c j / d j := by
        rw [hρs, he, ← Real.rpow_mul hbase, one_div, inv_mul_cancel₀ h1q.ne', Real.rpow_one, hnum]
      have heq : κ * d j * ρs ^ (1 + q) = q * c j := by
        rw [hpow]
        have := h.κ_pos.ne'
        field_simp
      refine aux_le_of_between h.q_pos h.κ_pos.le (hdnn j) (hρpos j) ?_
      rcases hcase with e | ⟨e1, e2⟩
      · rw [e]
        rcases le_total ρs 1 with hle | hle
        · exact .inl ⟨hle, heq.ge⟩
        · exact .inr ⟨hle, heq.le⟩
      · refine .inl ⟨e2, ?_⟩
        rw [← heq]
        exact mul_le_mul_of_nonneg_left (Real.rpow_le_rpow hρsnn e1 h1q.le)
          (mul_nonneg h.κ_pos.le hdpos.le)
    · subst hq1
      have heq : κ * d j * ρs = c j := by
        rw [hρs, he, Real.rpow_one, hnum]
        have := h.κ_pos.ne'
        field_simp
      refine aux_le_of_equalised (hcnn j) (hρpos j) ?_
      rcases hcase with e | ⟨e1, e2⟩
      · rw [e]
        rcases le_total ρs 1 with hle | hle
        · exact .inl ⟨hle, heq.ge⟩
        · exact .inr ⟨hle, heq.le⟩
      · refine .inl ⟨e2, ?_⟩
        rw [← heq]
        exact mul_le_mul_of_nonneg_left e1 (mul_nonneg h.κ_pos.le hdpos.le)

/-- The loss of a slice changes at most as much as the objective of its majoriser. -/
theorem slice_gap {src : Source} {q κ : ℝ} {w : ℝ → ℝ → ℝ} (h : IsMM src q κ w) (y R R' : I → ℝ)
    (hy : ∀ i, 0 ≤ y i) (hR : ∀ i, 0 < R i) (hR' : ∀ i, 0 < R' i) :
    ∑ i, src.ell (y i) (R' i) ≤ ∑ i, src.ell (y i) (R i)
      + (obj q κ (fun i => w (y i) (R i)) R' - obj q κ (fun i => w (y i) (R i)) R) := by
  rw [obj, obj, ← Finset.sum_sub_distrib, ← Finset.sum_add_distrib]
  refine Finset.sum_le_sum fun i _ => ?_
  have := h.maj (y i) (R i) _ (hy i) (hR i) (hR' i)
  linarith

/-- One multiplicative update does not increase the loss of its slice. -/
theorem slice_le {src : Source} {q κ : ℝ} {w : ℝ → ℝ → ℝ} (h : IsMM src q κ w) (a : I → J → ℝ)
    (ha : ∀ i j, 0 ≤ a i j) (θ θ' : J → ℝ) (hθ : ∀ j, 0 < θ j) (hθ' : ∀ j, 0 < θ' j) (y R : I → ℝ)
    (hy : ∀ i, 0 ≤ y i) (hRd : ∀ i, R i = ∑ j, a i j * θ j) (hR : ∀ i, 0 < R i)
    (hupd : ∀ j, θ' j = ((∑ i, a i j * src.num (y i) (R i)) / ∑ i, a i j / R i) ^ src.expo * θ j ∨
      ((∑ i, a i j * src.num (y i) (R i)) / ∑ i, a i j / R i) ^ src.expo * θ j ≤ θ' j ∧ θ' j ≤ θ j) :
    ∑ i, src.ell (y i) (∑ j, a i j * θ' j) ≤ ∑ i, src.ell (y i) (R i) := by
  have hρθ : ∀ j, θ' j / θ j * θ j = θ' j := fun j => div_mul_cancel₀ _ (hθ j).ne'
  have hRs : ∀ i, 0 < ∑ j, a i j * θ j := fun i => by rw [← hRd]; exact hR i
  have hρpos : ∀ j, 0 < θ' j / θ j := fun j => div_pos (hθ' j) (hθ j)
  have hobj := obj_le a ha θ (fun j => θ' j / θ j) hθ hρpos h.q_pos.le h.κ_pos.le (fun i => w (y i) (R i))
    (fun i => h.w_nonneg _ _ (hy i) (hR i)) hRs
    (fun j => by simp only [← hRd]; exact slice_aux h a ha θ θ' hθ hθ' y R hy hRd hR hupd j)
  have hR' := model_pos a θ (fun j => θ' j / θ j) ha hθ hρpos hRs
  simp only [hρθ, ← hRd] at hobj hR'
  have := slice_gap h y R _ hy hR hR'
  linarith

/-! ## The five source models -/

theorem gauss_isMM {p : ℝ} (hp : 0 < p) : IsMM (gauss p) (2 / p) (2 / p) (fun y _ => y ^ 2) where
  q_pos := by positivity
  κ_pos := by positivity
  w_nonneg y _ _ _ := sq_nonneg y
  maj y r r' _ hr hr' := by
    simp only [gauss]
    rw [Real.rpow_neg hr.le, Real.rpow_neg hr'.le, div_eq_mul_inv, div_eq_mul_inv]
    apply le_of_eq
    ring
  num_eq y r _ hr := by
    simp only [gauss]
    rw [Real.rpow_neg hr.le, show (p + 2) / p = 1 + 2 / p by field_simp, div_self (by positivity), div_eq_mul_inv,
      one_mul]
  expo_eq := by
    left
    simp only [gauss]
    field_simp

theorem gaussME_isMM : IsMM gaussME 1 1 (fun y _ => y ^ 2) where
  q_pos := one_pos
  κ_pos := one_pos
  w_nonneg y _ _ _ := sq_nonneg y
  maj y r r' _ hr hr' := by
    simp only [gaussME]
    rw [show (2 : ℝ) / 2 = 1 by norm_num, Real.rpow_neg hr.le, Real.rpow_neg hr'.le, div_eq_mul_inv,
      div_eq_mul_inv]
    apply le_of_eq
    ring
  num_eq y r _ hr := by
    simp only [gaussME]
    rw [Real.rpow_neg hr.le, show (1 : ℝ) + 1 = (2 : ℕ) by norm_num, Real.rpow_natCast, div_self one_ne_zero,
      div_eq_mul_inv, one_mul]
  expo_eq := .inr ⟨rfl, rfl⟩

theorem rTilde_pos {p nu y r : ℝ} (hnu : 0 < nu) (hr : 0 < r) : 0 < rTilde p nu y r := by
  have h1 : 0 < nu / (nu + 2) * r ^ (2 / p) := mul_pos (by positivity) (Real.rpow_pos_of_pos hr _)
  have h2 : 0 ≤ (1 - nu / (nu + 2)) * y ^ 2 := by
    refine mul_nonneg ?_ (sq_nonneg y)
    rw [sub_nonneg, div_le_one (by linarith)]
    linarith
  rw [rTilde]
  linarith

/-- The tangent of the logarithm for the Student's t loss. -/
theorem student_tangent {nu A B : ℝ} (hnu : 0 < nu) (hA : 0 ≤ A) (hB : 0 ≤ B) :
    (1 + nu / 2) * Real.log (1 + 2 / nu * B) ≤ (1 + nu / 2) * Real.log (1 + 2 / nu * A)
      + (B - A) / (nu / (nu + 2) + (1 - nu / (nu + 2)) * A) := by
  have hA' : 0 < 1 + 2 / nu * A := by positivity
  have hB' : 0 < 1 + 2 / nu * B := by positivity
  have h := Real.log_le_sub_one_of_pos (div_pos hB' hA')
  rw [Real.log_div hB'.ne' hA'.ne'] at h
  have h1 : nu / (nu + 2) + (1 - nu / (nu + 2)) * A = nu / (nu + 2) * (1 + 2 / nu * A) := by
    field_simp
    ring
  have h2 : (1 + nu / 2) * ((1 + 2 / nu * B) / (1 + 2 / nu * A) - 1)
      = (B - A) / (nu / (nu + 2) + (1 - nu / (nu + 2)) * A) := by
    rw [h1]
    field_simp
    ring
  have h3 := mul_le_mul_of_nonneg_left h (show 0 ≤ 1 + nu / 2 by positivity)
  rw [h2] at h3
  linarith

theorem student_isMM {p nu : ℝ} (hp : 0 < p) (hnu : 0 < nu) :
    IsMM (student p nu) (2 / p) (2 / p) (fun y r => y ^ 2 * r ^ (2 / p) / rTilde p nu y r) where
  q_pos := by positivity
  κ_pos := by positivity
  w_nonneg y r _ hr := div_nonneg (mul_nonneg (sq_nonneg y) (Real.rpow_nonneg hr.le _)) (rTilde_pos hnu hr).le
  maj y r r' _ hr hr' := by
    have hq := Real.rpow_pos_of_pos hr (2 / p)
    have hq' := Real.rpow_pos_of_pos hr' (2 / p)
    have := student_tangent hnu (div_nonneg (sq_nonneg y) hq.le) (div_nonneg (sq_nonneg y) hq'.le)
    simp only [student]
    rw [Real.rpow_neg hr.le, Real.rpow_neg hr'.le]
    have hR := (rTilde_pos (p := p) (y := y) hnu hr).ne'
    have e : (y ^ 2 / r' ^ (2 / p) - y ^ 2 / r ^ (2 / p))
          / (nu / (nu + 2) + (1 - nu / (nu + 2)) * (y ^ 2 / r ^ (2 / p)))
        = y ^ 2 * r ^ (2 / p) / rTilde p nu y r * ((r' ^ (2 / p))⁻¹ - (r ^ (2 / p))⁻¹) := by
      have e1 : nu / (nu + 2) + (1 - nu / (nu + 2)) * (y ^ 2 / r ^ (2 / p)) = rTilde p nu y r / r ^ (2 / p) := by
        rw [rTilde]
        field_simp
      rw [e1]
      field_simp
    rw [e] at this
    linarith
  num_eq y r _ hr := by
    have hq := Real.rpow_pos_of_pos hr (2 / p)
    have hR := (rTilde_pos (p := p) (y := y) hnu hr).ne'
    simp only [student]
    rw [Real.rpow_neg hr.le, Real.rpow_add hr, Real.rpow_one, div_self (by positivity)]
    field_simp
  expo_eq := by
    left
    simp only [student]
    field_simp

theorem studentME_isMM {nu : ℝ} (hnu : 0 < nu) :
    IsMM (studentME nu) 1 1 (fun y r => y ^ 2 * r / rTilde 2 nu y r) := by
  have h := student_isMM (p := 2) two_pos hnu
  have hR : ∀ y r, rTilde 2 nu y r = nu / (nu + 2) * r + (1 - nu / (nu + 2)) * y ^ 2 := fun y r => by
    rw [rTilde, show (2 : ℝ) / 2 = 1 by norm_num, Real.rpow_one]
  refine ⟨one_pos, one_pos, fun y r hy hr => ?_, fun y r r' hy hr hr' => ?_, fun y r hy hr => ?_, .inr ⟨rfl, rfl⟩⟩
  · have := h.w_nonneg y r hy hr
    rwa [show (2 : ℝ) / 2 = 1 by norm_num, Real.rpow_one] at this
  · have := h.maj y r r' hy hr hr'
    simp only [student] at this
    simp only [studentME]
    rwa [show (2 : ℝ) / 2 = 1 by norm_num, Real.rpow_one, Real.rpow_one] at this ⊢
  · have := h.num_eq y r hy hr
    simp only [student] at this
    simp only [studentME]
    rwa [show (2 : ℝ) / 2 = 1 by norm_num, Real.rpow_one, hR y r, ← hR y r] at *

theorem ggd_isMM {p beta : ℝ} (hp : 0 < p) (hb : 0 < beta) :
    IsMM (ggd p beta) (beta / p) (2 / p) (fun y _ => y ^ beta) where
  q_pos := by positivity
  κ_pos := by positivity
  w_nonneg y _ hy _ := Real.rpow_nonneg hy _
  maj y r r' _ hr hr' := by
    simp only [ggd]
    rw [Real.rpow_neg hr.le, Real.rpow_neg hr'.le, div_eq_mul_inv, div_eq_mul_inv]
    apply le_of_eq
    ring
  num_eq y r _ hr := by
    simp only [ggd]
    rw [Real.rpow_neg hr.le, show (beta + p) / p = 1 + beta / p by field_simp; ring, div_eq_mul_inv (y ^ beta)]
    congr 1
    field_simp
  expo_eq := by
    left
    simp only [ggd]
    field_simp
    ring

theorem gauss_spatialOk {p : ℝ} (floor : ℝ → ℝ) {y r : ℝ} (hr : 0 < r) : SpatialOk (gauss p) floor y r := by
  have hq := Real.rpow_pos_of_pos hr (2 / p)
  refine ⟨one_div_pos.mpr hq, fun y' _ => ?_⟩
  simp only [gauss]
  apply le_of_eq
  field_simp
  ring

theorem gaussME_spatialOk (floor : ℝ → ℝ) {y r : ℝ} (hr : 0 < r) : SpatialOk gaussME floor y r :=
  gauss_spatialOk (p := 2) floor hr

theorem student_spatialOk {p nu : ℝ} (hnu : 0 < nu) (floor : ℝ → ℝ) {y r : ℝ} (hr : 0 < r) :
    SpatialOk (student p nu) floor y r := by
  have hq := Real.rpow_pos_of_pos hr (2 / p)
  have hR := rTilde_pos (p := p) (y := y) hnu hr
  refine ⟨one_div_pos.mpr hR, fun y' _ => ?_⟩
  have := student_tangent hnu (div_nonneg (sq_nonneg y) hq.le) (div_nonneg (sq_nonneg y') hq.le)
  simp only [student]
  have e1 : nu / (nu + 2) + (1 - nu / (nu + 2)) * (y ^ 2 / r ^ (2 / p)) = rTilde p nu y r / r ^ (2 / p) := by
    rw [rTilde]
    field_simp
  rw [e1] at this
  have e2 : (y' ^ 2 / r ^ (2 / p) - y ^ 2 / r ^ (2 / p)) / (rTilde p nu y r / r ^ (2 / p))
      = 1 / rTilde p nu y r * (y' ^ 2 - y ^ 2) := by
    field_simp
  rw [e2] at this
  linarith

theorem studentME_spatialOk {nu : ℝ} (hnu : 0 < nu) (floor : ℝ → ℝ) {y r : ℝ} (hr : 0 < r) :
    SpatialOk (studentME nu) floor y r :=
  student_spatialOk (p := 2) hnu floor hr

theorem ggd_spatialOk {p beta : ℝ} (hb : 0 < beta) (hb2 : beta ≤ 2) (floor : ℝ → ℝ) {y r : ℝ}
    (hr : 0 < r) (hy : 0 < y) (hfloor : floor (y ^ (2 - beta)) = y ^ (2 - beta)) :
    SpatialOk (ggd p beta) floor y r := by
  have hq := Real.rpow_pos_of_pos hr (beta / p)
  have hy2 := Real.rpow_pos_of_pos hy (2 - beta)
  have hyb := Real.rpow_pos_of_pos hy beta
  simp only [SpatialOk, ggd, hfloor]
  refine ⟨by positivity, fun y' hy' => ?_⟩
  -- concavity of the power `beta / 2`
  have hc : y' ^ beta ≤ y ^ beta + beta / 2 * y ^ beta * (y' ^ 2 / y ^ 2 - 1) := by
    have hb1 := rpow_one_add_le_one_add_mul_self (s := y' ^ 2 / y ^ 2 - 1)
      (by have : 0 ≤ y' ^ 2 / y ^ 2 := by positivity
          linarith) (show 0 ≤ beta / 2 by positivity) (by linarith)
    rw [add_sub_cancel] at hb1
    have e : (y' ^ 2 / y ^ 2) ^ (beta / 2) = y' ^ beta / y ^ beta := by
      rw [Real.div_rpow (by positivity) (by positivity), ← Real.rpow_natCast, ← Real.rpow_natCast,
        ← Real.rpow_mul hy', ← Real.rpow_mul hy.le]
      congr 2 <;> · push_cast; ring
    rw [e, div_le_iff₀ hyb] at hb1
    linarith
  have hsplit : y ^ beta * y ^ (2 - beta) = y ^ 2 := by
    rw [← Real.rpow_add hy, ← Real.rpow_natCast]
    congr 1
    push_cast
    ring
  have e : 1 / (2 / beta * y ^ (2 - beta) * r ^ (beta / p)) * (y' ^ 2 - y ^ 2)
      = beta / 2 * y ^ beta * (y' ^ 2 / y ^ 2 - 1) / r ^ (beta / p) := by
    have h1 : y' ^ 2 / y ^ 2 - 1 = (y' ^ 2 - y ^ 2) / (y ^ beta * y ^ (2 - beta)) := by
      rw [hsplit]
      field_simp
    rw [h1]
    field_simp
  rw [e]
  have := div_le_div_of_nonneg_right hc hq.le
  rw [add_div] at this
  linarith

theorem rpow_scale {p q r c : ℝ} (hp : p ≠ 0) (hr : 0 < r) (hc : 0 < c) :
    (r * c ^ p) ^ (q / p) = r ^ (q / p) * c ^ q := by
  rw [Real.mul_rpow hr.le (Real.rpow_nonneg hc.le _), ← Real.rpow_mul hc.le, mul_div_cancel₀ _ hp]

theorem log_scale {p r c : ℝ} (hp : p ≠ 0) (hr : 0 < r) (hc : 0 < c) :
    2 / p * Real.log (r * c ^ p) = 2 / p * Real.log r + 2 * Real.log c := by
  rw [Real.log_mul hr.ne' (Real.rpow_pos_of_pos hc p).ne', Real.log_rpow hc]
  field_simp

theorem gauss_scaleInv {p : ℝ} (hp : 0 < p) : ScaleInv (gauss p) p := by
  intro y r c _ hr hc
  simp only [gauss]
  have h1 : c ^ (2 : ℝ) = c ^ 2 := by exact_mod_cast Real.rpow_natCast c 2
  rw [rpow_scale hp.ne' hr hc, log_scale hp.ne' hr hc, h1]
  have := (Real.rpow_pos_of_pos hr (2 / p)).ne'
  field_simp
  ring

theorem gaussME_scaleInv : ScaleInv gaussME 2 := gauss_scaleInv two_pos

theorem student_scaleInv {p nu : ℝ} (hp : 0 < p) : ScaleInv (student p nu) p := by
  intro y r c _ hr hc
  simp only [student]
  have h1 : c ^ (2 : ℝ) = c ^ 2 := by exact_mod_cast Real.rpow_natCast c 2
  rw [rpow_scale hp.ne' hr hc, log_scale hp.ne' hr hc, h1]
  have := (Real.rpow_pos_of_pos hr (2 / p)).ne'
  have e : (y * c) ^ 2 / (r ^ (2 / p) * c ^ 2) = y ^ 2 / r ^ (2 / p) := by field_simp
  rw [e]
  ring

theorem studentME_scaleInv {nu : ℝ} : ScaleInv (studentME nu) 2 := student_scaleInv two_pos

theorem ggd_scaleInv {p beta : ℝ} (hp : 0 < p) : ScaleInv (ggd p beta) p := by
  intro y r c hy hr hc
  simp only [ggd]
  rw [rpow_scale hp.ne' hr hc, log_scale hp.ne' hr hc, Real.mul_rpow hy hc.le]
  have h1 := (Real.rpow_pos_of_pos hr (beta / p)).ne'
  have h2 := (Real.rpow_pos_of_pos hc beta).ne'
  have e : y ^ beta * c ^ beta / (r ^ (beta / p) * c ^ beta) = y ^ beta / r ^ (beta / p) := by field_simp
  rw [e]
  ring

end Verif.Ilrma
