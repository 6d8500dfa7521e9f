import Mathlib.Analysis.SpecialFunctions.Pow.Deriv
import Verif.Lemmas.IlrmaStrict

/-!
# ILRMA makes the loss strictly smaller unless it has reached a stationary point (C63)

One iteration of `GaussILRMA`, `TILRMA` or `GGDILRMA` without partitioning: the loss becomes strictly smaller unless all
partial derivatives of the loss (with respect to the bases, the activations and the demixing filters) vanish, and at
such a stationary point the iteration changes nothing but the scale of the filters.  The flooring is assumed to be
inactive in the iteration.
-/

set_option linter.unusedSectionVars false

namespace Verif.Ilrma
open Matrix Spatial Scale Mult Iva

variable {F : Type} [Fintype F] {n t K : ℕ}

/-! ### The derivatives of the five source models -/

theorem hasDerivAt_rpow_neg {q r : ℝ} (hr : 0 < r) : HasDerivAt (fun r : ℝ => r ^ (-q)) (-q * r ^ (-(1 + q))) r := by
  have := Real.hasDerivAt_rpow_const (x := r) (p := -q) (.inl hr.ne')
  rwa [show -q - 1 = -(1 + q) by ring] at this

theorem gauss_ellDeriv {p : ℝ} (hp : 0 < p) : HasEllDeriv (gauss p) (2 / p) fun _ => True := by
  intro y r _ _ hr
  have h1 : HasDerivAt (fun r : ℝ => y ^ 2 * r ^ (-(2 / p)) + 2 / p * Real.log r)
      (y ^ 2 * (-(2 / p) * r ^ (-(1 + 2 / p))) + 2 / p * r⁻¹) r :=
    ((hasDerivAt_rpow_neg hr).const_mul (y ^ 2)).add ((Real.hasDerivAt_log hr.ne').const_mul (2 / p))
  refine (h1.congr_of_eventuallyEq ?_).congr_deriv ?_
  · filter_upwards [lt_mem_nhds hr] with x hx
    simp only [gauss]
    rw [Real.rpow_neg hx.le, div_eq_mul_inv]
  · simp only [gauss]
    rw [Real.rpow_neg hr.le, show (p + 2) / p = 1 + 2 / p by field_simp]
    ring

theorem gaussME_ellDeriv : HasEllDeriv gaussME 1 fun _ => True := by
  intro y r hy h hr
  have := gauss_ellDeriv two_pos y r hy h hr
  simp only [gauss, div_self (two_ne_zero (α := ℝ))] at this
  simp only [gaussME, div_self (two_ne_zero (α := ℝ))]
  refine this.congr_deriv ?_
  rw [show ((2 : ℝ) + 2) / 2 = (2 : ℕ) by norm_num, Real.rpow_natCast]

theorem student_ellDeriv {p nu : ℝ} (hp : 0 < p) (hnu : 0 < nu) :
    HasEllDeriv (student p nu) (2 / p) fun _ => True := by
  intro y r _ _ hr
  have hq := Real.rpow_pos_of_pos hr (2 / p)
  have hpos : 0 < 1 + 2 / nu * (y ^ 2 * r ^ (-(2 / p))) := by
    have := Real.rpow_pos_of_pos hr (-(2 / p))
    positivity
  have h1 : HasDerivAt (fun r : ℝ => (1 + nu / 2) * Real.log (1 + 2 / nu * (y ^ 2 * r ^ (-(2 / p))))
      + 2 / p * Real.log r)
      ((1 + nu / 2) * ((2 / nu * (y ^ 2 * (-(2 / p) * r ^ (-(1 + 2 / p))))) / (1 + 2 / nu * (y ^ 2 * r ^ (-(2 / p)))))
        + 2 / p * r⁻¹) r :=
    (((((hasDerivAt_rpow_neg hr).const_mul (y ^ 2)).const_mul (2 / nu)).const_add 1).log hpos.ne'
      |>.const_mul (1 + nu / 2)).add ((Real.hasDerivAt_log hr.ne').const_mul (2 / p))
  refine (h1.congr_of_eventuallyEq ?_).congr_deriv ?_
  · filter_upwards [lt_mem_nhds hr] with x hx
    simp only [student]
    rw [Real.rpow_neg hx.le, div_eq_mul_inv (y ^ 2)]
  · simp only [student]
    have hR := rTilde_pos (p := p) (y := y) hnu hr
    rw [rTilde] at hR ⊢
    rw [Real.rpow_neg hr.le, Real.rpow_neg hr.le, Real.rpow_add hr, Real.rpow_one]
    rw [Real.rpow_neg hr.le] at hpos
    have e : 1 + 2 / nu * (y ^ 2 * (r ^ (2 / p))⁻¹)
        = (nu + 2) / (nu * r ^ (2 / p)) * (nu / (nu + 2) * r ^ (2 / p) + (1 - nu / (nu + 2)) * y ^ 2) := by
      field_simp
      ring
    rw [e]
    obtain ⟨A, hA⟩ : ∃ A, A = nu / (nu + 2) * r ^ (2 / p) + (1 - nu / (nu + 2)) * y ^ 2 := ⟨_, rfl⟩
    rw [← hA] at hR ⊢
    field_simp
    ring

theorem studentME_ellDeriv {nu : ℝ} (hnu : 0 < nu) : HasEllDeriv (studentME nu) 1 fun _ => True := by
  intro y r hy h hr
  have := student_ellDeriv two_pos hnu y r hy h hr
  simp only [student, rTilde, div_self (two_ne_zero (α := ℝ)), Real.rpow_one] at this
  simp only [studentME, div_self (two_ne_zero (α := ℝ)), Real.rpow_one]
  exact this

theorem ggd_ellDeriv {p beta : ℝ} (hp : 0 < p) (ok : ℝ → Prop) :
    HasEllDeriv (ggd p beta) (2 / p) ok := by
  intro y r _ _ hr
  have h1 : HasDerivAt (fun r : ℝ => y ^ beta * r ^ (-(beta / p)) + 2 / p * Real.log r)
      (y ^ beta * (-(beta / p) * r ^ (-(1 + beta / p))) + 2 / p * r⁻¹) r :=
    ((hasDerivAt_rpow_neg hr).const_mul (y ^ beta)).add ((Real.hasDerivAt_log hr.ne').const_mul (2 / p))
  refine (h1.congr_of_eventuallyEq ?_).congr_deriv ?_
  · filter_upwards [lt_mem_nhds hr] with x hx
    simp only [ggd]
    rw [Real.rpow_neg hx.le, div_eq_mul_inv]
  · simp only [ggd]
    rw [Real.rpow_neg hr.le, show (beta + p) / p = 1 + beta / p by field_simp; ring]
    field_simp
    ring

theorem gauss_spatialDeriv {p : ℝ} (floor : ℝ → ℝ) : HasSpatialDeriv (gauss p) floor fun _ => True := by
  intro y δ r _ hr
  have := ((Grad.hasDerivAt_normSq y δ).div_const (r ^ (2 / p))).add_const (2 / p * Real.log r)
  refine this.congr_deriv ?_
  simp only [gauss]
  ring

theorem student_spatialDeriv {p nu : ℝ} (hnu : 0 < nu) (floor : ℝ → ℝ) :
    HasSpatialDeriv (student p nu) floor fun _ => True := by
  intro y δ r _ hr
  have hq := Real.rpow_pos_of_pos hr (2 / p)
  have hpos : 0 < 1 + 2 / nu * (‖y + ((0 : ℝ) : ℂ) * δ‖ ^ 2 / r ^ (2 / p)) := by positivity
  have h1 := ((((((Grad.hasDerivAt_normSq y δ).div_const (r ^ (2 / p))).const_mul (2 / nu)).const_add 1).log
    hpos.ne').const_mul (1 + nu / 2)).add_const (2 / p * Real.log r)
  refine h1.congr_deriv ?_
  simp only [student]
  have hR := rTilde_pos (p := p) (y := ‖y‖) hnu hr
  rw [rTilde] at hR ⊢
  rw [show y + ((0 : ℝ) : ℂ) * δ = y by simp]
  have e : 1 + 2 / nu * (‖y‖ ^ 2 / r ^ (2 / p))
      = (nu + 2) / (nu * r ^ (2 / p)) * (nu / (nu + 2) * r ^ (2 / p) + (1 - nu / (nu + 2)) * ‖y‖ ^ 2) := by
    field_simp
    ring
  rw [e]
  obtain ⟨A, hA⟩ : ∃ A, A = nu / (nu + 2) * r ^ (2 / p) + (1 - nu / (nu + 2)) * ‖y‖ ^ 2 := ⟨_, rfl⟩
  rw [← hA] at hR ⊢
  field_simp
  ring

theorem ggd_spatialDeriv {p beta : ℝ} (hb : 0 < beta) (floor : ℝ → ℝ) :
    HasSpatialDeriv (ggd p beta) floor fun y => 0 < y ∧ floor (y ^ (2 - beta)) = y ^ (2 - beta) := by
  intro y δ r hok hr
  have hq := Real.rpow_pos_of_pos hr (beta / p)
  have h1 := Grad.hasDerivAt_norm y δ (norm_pos_iff.mp hok.1)
  have e0 : ‖y + ((0 : ℝ) : ℂ) * δ‖ = ‖y‖ := by simp
  have h2 := Real.hasDerivAt_rpow_const (x := ‖y + ((0 : ℝ) : ℂ) * δ‖) (p := beta) (.inl (by rw [e0]; exact hok.1.ne'))
  have h3 := ((h2.comp (0 : ℝ) h1).div_const (r ^ (beta / p))).add_const (2 / p * Real.log r)
  refine h3.congr_deriv ?_
  simp only [ggd, hok.2]
  rw [e0, Real.rpow_sub hok.1, Real.rpow_sub hok.1, Real.rpow_one, show ‖y‖ ^ (2 : ℝ) = ‖y‖ ^ 2 from
    Real.rpow_natCast _ 2]
  have h4 := Real.rpow_pos_of_pos hok.1 beta
  have h5 := hok.1
  field_simp

/-- What the claim needs to know about a source model; proved below for all five. -/
structure Smooth (src : Source) (p : ℝ) (floor : ℝ → ℝ) (ok : ℝ → Prop) : Prop where
  mm : ∃ q κ w, IsMM src q κ w ∧ HasEllDeriv src κ ok
  scale : ScaleInv src p
  spatial : ∀ y r, 0 ≤ y → ok y → 0 < r → SpatialOk src floor y r
  deriv : HasSpatialDeriv src floor ok

theorem gauss_smooth {p : ℝ} (hp : 0 < p) (floor : ℝ → ℝ) : Smooth (gauss p) p floor fun _ => True :=
  ⟨⟨_, _, _, gauss_isMM hp, gauss_ellDeriv hp⟩, gauss_scaleInv hp, fun _ _ _ _ hr => gauss_spatialOk floor hr,
    gauss_spatialDeriv floor⟩

theorem gaussME_smooth (floor : ℝ → ℝ) : Smooth gaussME 2 floor fun _ => True :=
  ⟨⟨_, _, _, gaussME_isMM, gaussME_ellDeriv⟩, gaussME_scaleInv, fun _ _ _ _ hr => gaussME_spatialOk floor hr,
    gauss_spatialDeriv (p := 2) floor⟩

theorem student_smooth {p nu : ℝ} (hp : 0 < p) (hnu : 0 < nu) (floor : ℝ → ℝ) :
    Smooth (student p nu) p floor fun _ => True :=
  ⟨⟨_, _, _, student_isMM hp hnu, student_ellDeriv hp hnu⟩, student_scaleInv hp,
    fun _ _ _ _ hr => student_spatialOk hnu floor hr, student_spatialDeriv hnu floor⟩

theorem studentME_smooth {nu : ℝ} (hnu : 0 < nu) (floor : ℝ → ℝ) : Smooth (studentME nu) 2 floor fun _ => True :=
  ⟨⟨_, _, _, studentME_isMM hnu, studentME_ellDeriv hnu⟩, studentME_scaleInv,
    fun _ _ _ _ hr => studentME_spatialOk hnu floor hr, student_spatialDeriv (p := 2) hnu floor⟩

theorem ggd_smooth {p beta : ℝ} (hp : 0 < p) (hb : 0 < beta) (hb2 : beta ≤ 2) (floor : ℝ → ℝ) :
    Smooth (ggd p beta) p floor fun y => 0 < y ∧ floor (y ^ (2 - beta)) = y ^ (2 - beta) :=
  ⟨⟨_, _, _, ggd_isMM hp hb, ggd_ellDeriv hp _⟩, ggd_scaleInv hp,
    fun _ _ _ hok hr => ggd_spatialOk hb hb2 floor hr hok.1 hok.2, ggd_spatialDeriv hb floor⟩

/-! ### One iteration -/

/-- The flooring is inactive in the iteration that starts at `s`. -/
structure RegExact (np : Numpy ℂ) (src : Source) (ok : ℝ → Prop) (alg : FilterAlg n) (norm : Norm n)
    (floor : ℝ → ℝ) (X : Spec F n t) (s : St F n t K) : Prop where
  basis : ∀ k f b, Exact floor (basisRaw src (separate X s.W) s.T s.V k f b)
  activation : ∀ k b j, Exact floor
    (activationRaw src (separate X s.W) (updateBasis src floor (separate X s.W) s.T s.V) s.V k b j)
  point : ∀ f k j, ok ‖separate X s.W f k j‖
  spatial : ∀ phi, phi = varphi src floor (separate X s.W)
      (recon (updateSource src floor X s).T (updateSource src floor X s).V) →
    spatialFilter np alg floor phi X s.W = spatialFilter np alg id phi X s.W
  norm : ∀ s', updateSpatial np src alg floor X (updateSource src floor X s) = .ok s' → NormReg floor X norm s'.W

/-- The same for the source-steering algorithms, which keep the separated signals instead of the filters. -/
structure RegExactY (np : Numpy ℂ) (src : Source) (ok : ℝ → Prop) (alg : SignalAlg n) (norm : Norm n)
    (floor : ℝ → ℝ) (X : Spec F n t) (s : StY F n t K) : Prop where
  basis : ∀ k f b, Exact floor (basisRaw src s.Y s.T s.V k f b)
  activation : ∀ k b j, Exact floor
    (activationRaw src s.Y (updateBasis src floor s.Y s.T s.V) s.V k b j)
  point : ∀ f k j, ok ‖s.Y f k j‖
  spatial : ∀ phi, phi = varphi src floor s.Y (recon (updateSourceY src floor s).T (updateSourceY src floor s).V) →
    spatialSignal np alg floor phi s.Y = spatialSignal np alg id phi s.Y
  norm : ∀ s' : StY F n t K, updateSpatialY np src alg floor (updateSourceY src floor s) = .ok s' →
    ∀ W, s'.Y = separate X W → NormReg floor X norm W

section
variable [Nonempty (Fin K)] {src : Source} {p : ℝ} {floor : ℝ → ℝ} {ok : ℝ → Prop} (hsm : Smooth src p floor ok)
  (X : Spec F n t) (ht : 0 < t) (s : St F n t K) (hs : Inv s)
  (hok : ∀ f k j, ok ‖separate X s.W f k j‖)
include hsm ht hs hok

theorem source_strict (hb : ∀ k f b, Exact floor (basisRaw src (separate X s.W) s.T s.V k f b))
    (ha : ∀ k b j, Exact floor
      (activationRaw src (separate X s.W) (updateBasis src floor (separate X s.W) s.T s.V) s.V k b j)) :
    Inv (updateSource src floor X s) ∧
    (loss src X (updateSource src floor X s) < loss src X s ∨ updateSource src floor X s = s) ∧
    (updateSource src floor X s = s ↔ StationaryBasis src X s ∧ StationaryActivation src X s) := by
  obtain ⟨q, κ, w, hmm, hd⟩ := hsm.mm
  obtain ⟨b1, b2⟩ := basis_strict hmm hd X ht s hs hok hb
  obtain ⟨T1, hT1⟩ : ∃ T1, T1 = updateBasis src floor (separate X s.W) s.T s.V := ⟨_, rfl⟩
  have hpos : ∀ k f b, 0 < T1 k f b := fun k f b => by
    rw [hT1, updateBasis, (hb k f b).2]
    exact (hb k f b).1
  have hs1 : Inv (⟨s.W, T1, s.V⟩ : St F n t K) := ⟨hs.1, hpos, hs.2.2⟩
  have hup : updateSource src floor X s = ⟨s.W, T1, updateActivation src floor (separate X s.W) T1 s.V⟩ := by
    rw [hT1]
    rfl
  rw [← hT1] at b1 b2 ha
  obtain ⟨a1, a2⟩ := activation_strict hmm hd X ht ⟨s.W, T1, s.V⟩ hs1 hok ha
  simp only at a1 a2
  have hst : ∀ A : St F n t K, A = s ↔ A.W = s.W ∧ A.T = s.T ∧ A.V = s.V := by
    rintro ⟨W, T, V⟩
    obtain ⟨W', T', V'⟩ := s
    simp
  rw [hup]
  refine ⟨⟨hs.1, hpos, fun k b j => ?_⟩, ?_, ?_⟩
  · simp only [updateActivation]
    rw [(ha k b j).2]
    exact (ha k b j).1
  · rw [hst]
    rcases a1 with a1 | a1
    · left
      rcases b1 with b1 | b1
      · exact a1.trans b1
      · have e : (⟨s.W, T1, s.V⟩ : St F n t K) = s := by rw [b1]
        rwa [e] at a1
    · rw [a1]
      exact b1.imp id fun b1 => ⟨rfl, b1, rfl⟩
  · rw [hst]
    constructor
    · rintro ⟨-, e1, e2⟩
      have e : (⟨s.W, T1, s.V⟩ : St F n t K) = s := by rw [show T1 = s.T from e1]
      exact ⟨b2.mp e1, e ▸ a2.mp e2⟩
    · rintro ⟨e1, e2⟩
      have hT := b2.mpr e1
      have e : (⟨s.W, T1, s.V⟩ : St F n t K) = s := by rw [hT]
      exact ⟨rfl, hT, a2.mpr (by rw [e]; exact e2)⟩

end

section
variable [Nonempty (Fin K)] (np : Numpy ℂ) {src : Source} {p : ℝ} {floor : ℝ → ℝ} {ok : ℝ → Prop}
  (hsm : Smooth src p floor ok) (norm : Norm n) (X : Spec F n t) (ht : 0 < t)
  (hX : ∀ f, LinearIndependent ℂ (X f).row) (s : St F n t K) (hs : Inv s)
include hsm ht hX hs

/-- IP1: the loss becomes strictly smaller exactly if the state is not stationary; at a stationary state only the
normalization acts. -/
theorem C63_ip1 (hr : RegExact np src ok .ip1 norm floor X s) :
    ∃ s', updateOnce np src p .ip1 norm floor X s = .ok s' ∧ Inv s' ∧
      (loss src X s' < loss src X s ↔ ¬ StationaryState src X s) ∧
      (StationaryState src X s → normalize p floor X norm s = .ok s') := by
  obtain ⟨hs1, hlt1, hfix1⟩ := source_strict hsm X ht s hs hr.point hr.basis hr.activation
  obtain ⟨s1, hs1d⟩ : ∃ s1, s1 = updateSource src floor X s := ⟨_, rfl⟩
  have hW1 : s1.W = s.W := by rw [hs1d]; rfl
  have hsp := hr.spatial
  have hnorm := hr.norm
  rw [← hs1d] at hs1 hlt1 hfix1 hsp hnorm
  rw [← hW1] at hsp
  have hR := recon_pos hs1.2.1 hs1.2.2
  have hpt : ∀ f k j, ok ‖separate X s1.W f k j‖ := by rw [hW1]; exact hr.point
  have hokk : ∀ f k j, SpatialOk src floor ‖separate X s1.W f k j‖ (recon s1.T s1.V k f j) := fun f k j =>
    hsm.spatial _ _ (norm_nonneg _) (hpt f k j) (hR k f j)
  obtain ⟨W', h1, h2, h3, h4⟩ := ip1Stack_strict (varphi src floor (separate X s1.W) (recon s1.T s1.V))
    (fun f k j => (hokk f k j).1) X hX s1.W hs1.1
  have hup : updateSpatial np src .ip1 floor X s1 = .ok ⟨W', s1.T, s1.V⟩ := by
    have : spatialFilter np .ip1 floor (varphi src floor (separate X s1.W) (recon s1.T s1.V)) X s1.W = .ok W' :=
      (hsp _ rfl).trans h1
    rw [updateSpatial, this]
    rfl
  have hgap := spatial_gap (separate X s1.W) (separate X W') (recon s1.T s1.V) s1.W W' hokk
  have hlt2 : loss src X ⟨W', s1.T, s1.V⟩ < loss src X s1 ∨ W' = s1.W := h3.imp (fun h => by
    rw [loss, loss]
    linarith) id
  have hfix2 : W' = s1.W ↔ StationaryFilter src X s1 := by
    rw [h4, StationaryFilter, loss_eq_grad]
    exact (Grad.stationary_iff_balanced _ X s1.W hs1.1 (isScoreAt hsm.deriv _ hR _ hpt)).symm
  obtain ⟨s3, h5, ha, hb, hc, hl3⟩ := C40_loss hsm.scale floor X ht norm ⟨W', s1.T, s1.V⟩ h2 hs1.2.1 hs1.2.2
    (hnorm _ hup)
  have hstat : StationaryState src X s → s1 = s ∧ W' = s1.W := by
    rintro ⟨e1, e2, e3⟩
    have e := hfix1.mpr ⟨e1, e2⟩
    exact ⟨e, hfix2.mpr (by rw [e]; exact e3)⟩
  refine ⟨s3, ?_, ⟨ha, hb, hc⟩, ?_, ?_⟩
  · rw [updateOnce, ← hs1d, hup]
    exact h5
  · rw [hl3]
    constructor
    · intro hlt hst
      obtain ⟨e1, e2⟩ := hstat hst
      rw [e2, e1] at hlt
      exact lt_irrefl _ hlt
    · intro hns
      by_cases e1 : s1 = s
      · have e2 : W' ≠ s1.W := fun e2 => hns (by
          have k1 := hfix1.mp e1
          have k2 := hfix2.mp e2
          rw [e1] at k2
          exact ⟨k1.1, k1.2, k2⟩)
        rw [← e1]
        exact hlt2.resolve_right e2
      · refine lt_of_le_of_lt ?_ (hlt1.resolve_right e1)
        rcases hlt2 with h | h
        · exact h.le
        · rw [h]
  · intro hst
    obtain ⟨e1, e2⟩ := hstat hst
    rw [← h5, e2, e1]

/-- Without normalization the iteration leaves the state unchanged exactly at the stationary states. -/
theorem C63_ip1_fixed (hr : RegExact np src ok .ip1 .off floor X s) :
    updateOnce np src p .ip1 .off floor X s = .ok s ↔ StationaryState src X s := by
  obtain ⟨s', h1, -, h2, h3⟩ := C63_ip1 np hsm .off X ht hX s hs hr
  rw [h1]
  constructor
  · intro e
    cases e
    by_contra hns
    exact lt_irrefl _ (h2.mpr hns)
  · intro hst
    exact (h3 hst).symm

/-- ISS1, which works on the separated signals. -/
theorem C63_iss1 (hr : RegExactY np src ok .iss1 norm floor X (s.toY X)) :
    ∃ s', updateOnceY np src p .iss1 norm floor X (s.toY X) = .ok (s'.toY X) ∧ Inv s' ∧
      (loss src X s' < loss src X s ↔ ¬ StationaryState src X s) ∧
      (StationaryState src X s → normalizeY p floor X norm (s.toY X) = .ok (s'.toY X)) := by
  obtain ⟨hs1, hlt1, hfix1⟩ := source_strict hsm X ht s hs hr.point hr.basis hr.activation
  obtain ⟨s1, hs1d⟩ : ∃ s1, s1 = updateSource src floor X s := ⟨_, rfl⟩
  have hW1 : s1.W = s.W := by rw [hs1d]; rfl
  have hY1 : updateSourceY src floor (s.toY X) = s1.toY X := by rw [hs1d]; rfl
  have hsp := hr.spatial
  have hnorm := hr.norm
  rw [hY1] at hsp hnorm
  rw [← hs1d] at hs1 hlt1 hfix1
  have hR := recon_pos hs1.2.1 hs1.2.2
  have hpt : ∀ f k j, ok ‖separate X s1.W f k j‖ := by rw [hW1]; exact hr.point
  have hokk : ∀ f k j, SpatialOk src floor ‖separate X s1.W f k j‖ (recon s1.T s1.V k f j) := fun f k j =>
    hsm.spatial _ _ (norm_nonneg _) (hpt f k j) (hR k f j)
  obtain ⟨W', h1, h2, h3, h4⟩ := iss1Stack_strict (varphi src floor (separate X s1.W) (recon s1.T s1.V))
    (fun f k j => (hokk f k j).1) X hX s1.W hs1.1
  obtain ⟨s2, hs2⟩ : ∃ s2 : St F n t K, s2 = ⟨W', s1.T, s1.V⟩ := ⟨_, rfl⟩
  have hup : updateSpatialY np src .iss1 floor (s1.toY X) = .ok (s2.toY X) := by
    have hsp' := hsp (varphi src floor (separate X s1.W) (recon s1.T s1.V)) (by rw [hW1]; rfl)
    have : spatialSignal np .iss1 floor (varphi src floor (separate X s1.W) (recon s1.T s1.V)) (separate X s1.W)
        = .ok (separate X W') := by
      rw [hW1]
      rw [hW1] at hsp' h1
      exact hsp'.trans (by rw [spatialSignal]; exact congrArg Except.ok h1)
    have e : updateSpatialY np src .iss1 floor (s1.toY X)
        = (do
          let Y ← spatialSignal np .iss1 floor (varphi src floor (separate X s1.W) (recon s1.T s1.V)) (separate X s1.W)
          .ok ⟨Y, s1.T, s1.V⟩) := rfl
    rw [e, this, hs2]
    rfl
  have hgap := spatial_gap (separate X s1.W) (separate X W') (recon s1.T s1.V) s1.W W' hokk
  have hlt2 : loss src X s2 < loss src X s1 ∨ W' = s1.W := h3.imp (fun h => by
    rw [hs2, loss, loss]
    linarith) id
  have hfix2 : W' = s1.W ↔ StationaryFilter src X s1 := by
    rw [h4, StationaryFilter, loss_eq_grad]
    exact (Grad.stationary_iff_balanced _ X s1.W hs1.1 (isScoreAt hsm.deriv _ hR _ hpt)).symm
  obtain ⟨s3, h5, ha, hb, hc, hl3⟩ := C40_loss hsm.scale floor X ht norm s2 (by rw [hs2]; exact h2)
    (by rw [hs2]; exact hs1.2.1) (by rw [hs2]; exact hs1.2.2) (hnorm _ hup s2.W rfl)
  have hstat : StationaryState src X s → s2 = s := by
    rintro ⟨e1, e2, e3⟩
    have e := hfix1.mpr ⟨e1, e2⟩
    rw [hs2, hfix2.mpr (by rw [e]; exact e3)]
    exact e
  refine ⟨s3, ?_, ⟨ha, hb, hc⟩, ?_, ?_⟩
  · rw [updateOnceY, hY1, hup]
    change normalizeY p floor X norm (s2.toY X) = _
    rw [normalizeY_toY p floor X hX norm s2 (by rw [hs2]; exact h2), h5]
    rfl
  · rw [hl3]
    constructor
    · intro hlt hst
      rw [hstat hst] at hlt
      exact lt_irrefl _ hlt
    · intro hns
      by_cases e1 : s1 = s
      · have e2 : W' ≠ s1.W := fun e2 => hns (by
          have k1 := hfix1.mp e1
          have k2 := hfix2.mp e2
          rw [e1] at k2
          exact ⟨k1.1, k1.2, k2⟩)
        rw [← e1]
        exact hlt2.resolve_right e2
      · refine lt_of_le_of_lt ?_ (hlt1.resolve_right e1)
        rcases hlt2 with h | h
        · exact h.le
        · rw [hs2, h]
  · intro hst
    rw [← hstat hst, normalizeY_toY p floor X hX norm s2 (by rw [hs2]; exact h2), h5]
    rfl

/-- IP2: unless the loss becomes strictly smaller, its derivatives with respect to the bases, the activations and the
filters of the first pair vanish. -/
theorem C63_ip2 (pr : Fin n × Fin n) (pairs : List (Fin n × Fin n)) (hpairs : ∀ q ∈ pr :: pairs, q.1 ≠ q.2)
    (hr : RegExact np src ok (.ip2 (pr :: pairs)) norm floor X s) :
    ∃ s', updateOnce np src p (.ip2 (pr :: pairs)) norm floor X s = .ok s' ∧ Inv s' ∧
      (loss src X s' < loss src X s ∨ StationaryBasis src X s ∧ StationaryActivation src X s ∧
        StationaryRows (fun W => loss src X ⟨W, s.T, s.V⟩) s.W pr) := by
  obtain ⟨hs1, hlt1, hfix1⟩ := source_strict hsm X ht s hs hr.point hr.basis hr.activation
  obtain ⟨s1, hs1d⟩ : ∃ s1, s1 = updateSource src floor X s := ⟨_, rfl⟩
  have hW1 : s1.W = s.W := by rw [hs1d]; rfl
  have hsp := hr.spatial
  have hnorm := hr.norm
  rw [← hs1d] at hs1 hlt1 hfix1 hsp hnorm
  rw [← hW1] at hsp
  have hR := recon_pos hs1.2.1 hs1.2.2
  have hpt : ∀ f k j, ok ‖separate X s1.W f k j‖ := by rw [hW1]; exact hr.point
  have hokk : ∀ f k j, SpatialOk src floor ‖separate X s1.W f k j‖ (recon s1.T s1.V k f j) := fun f k j =>
    hsm.spatial _ _ (norm_nonneg _) (hpt f k j) (hR k f j)
  obtain ⟨phi, hphi⟩ : ∃ phi, phi = varphi src floor (separate X s1.W) (recon s1.T s1.V) := ⟨_, rfl⟩
  have hpos : ∀ f k j, 0 < phi f k j := fun f k j => by rw [hphi]; exact (hokk f k j).1
  have h := fun f => ip2Pair_strict np (fun k => wcov_posDef (hpos f) hX f k) (hs1.1 f) (hpairs pr (by simp))
  choose W1 h1 h2 h3 h4 using h
  have k := fun f => C32_sweep np id pairs (fun q hq => hpairs q (by simp [hq])) (wcov (phi f) X f)
    (fun k => wcov_posDef (hpos f) hX f k) (W1 f) (h2 f) rfl
  choose W' k1 k2 k3 using k
  have hfold : spatialFilter np (.ip2 (pr :: pairs)) id phi X s1.W = .ok W' :=
    foldlM_onBins (fun f => ip2Pair np id (wcov (phi f) X f)) (pr :: pairs) s1.W W' fun f => by
      rw [List.foldlM_cons, h1 f]
      exact k1 f
  have hup : updateSpatial np src (.ip2 (pr :: pairs)) floor X s1 = .ok ⟨W', s1.T, s1.V⟩ := by
    rw [updateSpatial, ← hphi, hsp _ hphi, hfold]
    rfl
  have hgap := spatial_gap (separate X s1.W) (separate X W') (recon s1.T s1.V) s1.W W' hokk
  rw [← hphi] at hgap
  simp only [← ipLoss_wcov] at hgap
  have hle : ∑ f, ipLoss (wcov (phi f) X f) (W' f) ≤ ∑ f, ipLoss (wcov (phi f) X f) (s1.W f) :=
    Finset.sum_le_sum fun f _ => (k3 f).trans (h3 f)
  have hlt2 : loss src X ⟨W', s1.T, s1.V⟩ < loss src X s1 ∨
      StationaryRows (fun W => loss src X ⟨W, s1.T, s1.V⟩) s1.W pr := by
    by_cases hall : ∀ f i, i = pr.1 ∨ i = pr.2 → s1.W f *ᵥ (wcov (phi f) X f i *ᵥ star (s1.W f i)) = Pi.single i 1
    · right
      rw [loss_eq_grad]
      refine Grad.stationaryRows_of phi X s1.W hs1.1 ?_ pr fun f i hi => ?_
      · rw [hphi]
        exact isScoreAt hsm.deriv _ hR _ hpt
      · exact (row_equation_iff (phi f) X f (s1.W f) i).mp (hall f i hi)
    · left
      push Not at hall
      obtain ⟨f, i, hi, hne⟩ := hall
      have hlt := (h4 f).resolve_right fun h => hne (h i hi)
      have : ∑ f, ipLoss (wcov (phi f) X f) (W' f) < ∑ f, ipLoss (wcov (phi f) X f) (s1.W f) :=
        Finset.sum_lt_sum (fun f _ => (k3 f).trans (h3 f)) ⟨f, Finset.mem_univ _, (k3 f).trans_lt hlt⟩
      rw [loss, loss]
      linarith
  obtain ⟨s3, h5, ha, hb, hc, hl3⟩ := C40_loss hsm.scale floor X ht norm ⟨W', s1.T, s1.V⟩ k2 hs1.2.1 hs1.2.2
    (hnorm _ hup)
  refine ⟨s3, ?_, ⟨ha, hb, hc⟩, ?_⟩
  · rw [updateOnce, ← hs1d, hup]
    exact h5
  · rw [hl3]
    by_cases e1 : s1 = s
    · have k0 := hfix1.mp e1
      rw [e1] at hlt2 ⊢
      exact hlt2.imp (fun h => h) fun h => ⟨k0.1, k0.2, h⟩
    · refine .inl (lt_of_le_of_lt ?_ (hlt1.resolve_right e1))
      rw [loss, loss]
      linarith

/-- ISS2: unless the loss becomes strictly smaller, its derivatives with respect to the bases, the activations and the
steering of the first pair vanish. -/
theorem C63_iss2 (pr : Fin n × Fin n) (pairs : List (Fin n × Fin n)) (hpairs : ∀ q ∈ pr :: pairs, q.1 ≠ q.2)
    (hr : RegExactY np src ok (.iss2 (pr :: pairs)) norm floor X (s.toY X)) :
    ∃ s', updateOnceY np src p (.iss2 (pr :: pairs)) norm floor X (s.toY X) = .ok (s'.toY X) ∧ Inv s' ∧
      (loss src X s' < loss src X s ∨ StationaryBasis src X s ∧ StationaryActivation src X s ∧
        StationaryColumns (fun W => loss src X ⟨W, s.T, s.V⟩) s.W pr) := by
  obtain ⟨hs1, hlt1, hfix1⟩ := source_strict hsm X ht s hs hr.point hr.basis hr.activation
  obtain ⟨s1, hs1d⟩ : ∃ s1, s1 = updateSource src floor X s := ⟨_, rfl⟩
  have hW1 : s1.W = s.W := by rw [hs1d]; rfl
  have hY1 : updateSourceY src floor (s.toY X) = s1.toY X := by rw [hs1d]; rfl
  have hsY : (s.toY X).Y = separate X s1.W := by rw [hW1]; rfl
  have hsp := hr.spatial
  have hnorm := hr.norm
  rw [hY1, hsY] at hsp
  rw [hY1] at hnorm
  rw [← hs1d] at hs1 hlt1 hfix1
  have hR := recon_pos hs1.2.1 hs1.2.2
  have hpt : ∀ f k j, ok ‖separate X s1.W f k j‖ := by rw [hW1]; exact hr.point
  have hokk : ∀ f k j, SpatialOk src floor ‖separate X s1.W f k j‖ (recon s1.T s1.V k f j) := fun f k j =>
    hsm.spatial _ _ (norm_nonneg _) (hpt f k j) (hR k f j)
  obtain ⟨phi, hphi⟩ : ∃ phi, phi = varphi src floor (separate X s1.W) (recon s1.T s1.V) := ⟨_, rfl⟩
  have hpos : ∀ f k j, 0 < phi f k j := fun f k j => by rw [hphi]; exact (hokk f k j).1
  have hinj : ∀ f, Function.Injective
      (Matrix.of ![separate X s1.W f pr.1, separate X s1.W f pr.2] : Matrix (Fin 2) (Fin t) ℂ).vecMul := fun f =>
    pair_rows_injective (hX f) (hs1.1 f) (hpairs pr (by simp))
  have h := fun f => iss2Pair_strict np (phi f) (hpos f) (separate X s1.W f) (hpairs pr (by simp)) (hinj f)
  choose T hT h1 h2 h3 using h
  have hTW : ∀ f, IsUnit (T f * s1.W f).det := fun f => by rw [det_mul]; exact (hT f).mul (hs1.1 f)
  have k := fun f => C34_iss2 np id pairs (fun q hq => hpairs q (by simp [hq])) (phi f) (hpos f) (X f) (hX f)
    (T f * s1.W f) (hTW f) rfl
  choose W' k1 k2 k3 using k
  have hobj : ∀ f, power (phi f) (T f * s1.W f * X f) - 2 * Real.log ‖(T f * s1.W f).det‖
      = power (phi f) (T f * separate X s1.W f) - 2 * Real.log ‖(T f).det‖ - 2 * Real.log ‖(s1.W f).det‖ := fun f => by
    rw [separate, Matrix.mul_assoc, det_mul, norm_mul,
      Real.log_mul (norm_pos_iff.mpr (hT f).ne_zero).ne' (norm_pos_iff.mpr (hs1.1 f).ne_zero).ne']
    ring
  have hle : ∀ f, power (phi f) (separate X W' f) - 2 * Real.log ‖(W' f).det‖
      ≤ power (phi f) (T f * separate X s1.W f) - 2 * Real.log ‖(T f).det‖ - 2 * Real.log ‖(s1.W f).det‖ := fun f => by
    rw [← hobj]
    exact k3 f
  have hle' : ∀ f, power (phi f) (separate X W' f) - 2 * Real.log ‖(W' f).det‖
      ≤ power (phi f) (separate X s1.W f) - 2 * Real.log ‖(s1.W f).det‖ := fun f => by
    have := hle f
    have := h2 f
    linarith
  obtain ⟨s2, hs2⟩ : ∃ s2 : St F n t K, s2 = ⟨W', s1.T, s1.V⟩ := ⟨_, rfl⟩
  have hup : updateSpatialY np src (.iss2 (pr :: pairs)) floor (s1.toY X) = .ok (s2.toY X) := by
    have hid : spatialSignal np (.iss2 (pr :: pairs)) id phi (separate X s1.W) = .ok (separate X W') :=
      foldlM_onBins (fun f => iss2Pair np id (phi f)) (pr :: pairs) (separate X s1.W) (separate X W') fun f => by
        rw [List.foldlM_cons, h1 f, separate, ← Matrix.mul_assoc]
        exact k1 f
    have e : updateSpatialY np src (.iss2 (pr :: pairs)) floor (s1.toY X)
        = (do
          let Y ← spatialSignal np (.iss2 (pr :: pairs)) floor
            (varphi src floor (separate X s1.W) (recon s1.T s1.V)) (separate X s1.W)
          .ok ⟨Y, s1.T, s1.V⟩) := rfl
    rw [e, ← hphi, hsp phi hphi, hid, hs2]
    rfl
  have hgap := spatial_gap (separate X s1.W) (separate X W') (recon s1.T s1.V) s1.W W' hokk
  rw [← hphi] at hgap
  have hsum := Finset.sum_le_sum fun f (_ : f ∈ Finset.univ) => hle' f
  have hlt2 : loss src X s2 < loss src X s1 ∨
      StationaryColumns (fun W => loss src X ⟨W, s1.T, s1.V⟩) s1.W pr := by
    by_cases hall : ∀ f j, j = pr.1 ∨ j = pr.2 →
        ∀ i, separate X s1.W f i ⬝ᵥ (wdiag (phi f i) *ᵥ star (separate X s1.W f j)) = (1 : Mat n ℂ) i j
    · right
      rw [loss_eq_grad]
      refine Grad.stationaryColumns_of phi X s1.W hs1.1 ?_ pr hall
      rw [hphi]
      exact isScoreAt hsm.deriv _ hR _ hpt
    · left
      push Not at hall
      obtain ⟨f, j, hj, i, hne⟩ := hall
      have hlt := (h3 f).resolve_right fun h => hne (h j hj i)
      have : ∑ f, (power (phi f) (separate X W' f) - 2 * Real.log ‖(W' f).det‖)
          < ∑ f, (power (phi f) (separate X s1.W f) - 2 * Real.log ‖(s1.W f).det‖) := by
        refine Finset.sum_lt_sum (fun f _ => hle' f) ⟨f, Finset.mem_univ _, ?_⟩
        have := hle f
        linarith
      rw [hs2, loss, loss]
      linarith
  obtain ⟨s3, h5, ha, hb, hc, hl3⟩ := C40_loss hsm.scale floor X ht norm s2 (by rw [hs2]; exact k2)
    (by rw [hs2]; exact hs1.2.1) (by rw [hs2]; exact hs1.2.2) (hnorm _ hup s2.W rfl)
  refine ⟨s3, ?_, ⟨ha, hb, hc⟩, ?_⟩
  · rw [updateOnceY, hY1, hup]
    change normalizeY p floor X norm (s2.toY X) = _
    rw [normalizeY_toY p floor X hX norm s2 (by rw [hs2]; exact k2), h5]
    rfl
  · rw [hl3]
    by_cases e1 : s1 = s
    · have k0 := hfix1.mp e1
      rw [e1] at hlt2
      exact hlt2.imp (fun h => h) fun h => ⟨k0.1, k0.2, h⟩
    · refine .inl (lt_of_le_of_lt ?_ (hlt1.resolve_right e1))
      rw [hs2, loss, loss]
      linarith

end

/-! ### The five source models -/

section
variable [Nonempty (Fin K)] (np : Numpy ℂ) (floor : ℝ → ℝ) (norm : Norm n) (X : Spec F n t) (ht : 0 < t)
  (hX : ∀ f, LinearIndependent ℂ (X f).row) (s : St F n t K) (hs : Inv s)
include ht hX hs

/-- GaussILRMA with `source_algorithm="MM"`. -/
theorem C63_gauss_mm {p : ℝ} (hp : 0 < p) (hr : RegExact np (gauss p) (fun _ => True) .ip1 norm floor X s) :
    ∃ s', updateOnce np (gauss p) p .ip1 norm floor X s = .ok s' ∧
      (loss (gauss p) X s' < loss (gauss p) X s ↔ ¬ StationaryState (gauss p) X s) ∧
      (StationaryState (gauss p) X s → normalize p floor X norm s = .ok s') := by
  obtain ⟨s', h1, -, h2⟩ := C63_ip1 np (gauss_smooth hp floor) norm X ht hX s hs hr
  exact ⟨s', h1, h2⟩

/-- GaussILRMA with `source_algorithm="ME"`. -/
theorem C63_gauss_me (hr : RegExact np gaussME (fun _ => True) .ip1 norm floor X s) :
    ∃ s', updateOnce np gaussME 2 .ip1 norm floor X s = .ok s' ∧
      (loss gaussME X s' < loss gaussME X s ↔ ¬ StationaryState gaussME X s) ∧
      (StationaryState gaussME X s → normalize 2 floor X norm s = .ok s') := by
  obtain ⟨s', h1, -, h2⟩ := C63_ip1 np (gaussME_smooth floor) norm X ht hX s hs hr
  exact ⟨s', h1, h2⟩

/-- TILRMA with `source_algorithm="MM"`. -/
theorem C63_student_mm {p nu : ℝ} (hp : 0 < p) (hnu : 0 < nu)
    (hr : RegExact np (student p nu) (fun _ => True) .ip1 norm floor X s) :
    ∃ s', updateOnce np (student p nu) p .ip1 norm floor X s = .ok s' ∧
      (loss (student p nu) X s' < loss (student p nu) X s ↔ ¬ StationaryState (student p nu) X s) ∧
      (StationaryState (student p nu) X s → normalize p floor X norm s = .ok s') := by
  obtain ⟨s', h1, -, h2⟩ := C63_ip1 np (student_smooth hp hnu floor) norm X ht hX s hs hr
  exact ⟨s', h1, h2⟩

/-- TILRMA with `source_algorithm="ME"`. -/
theorem C63_student_me {nu : ℝ} (hnu : 0 < nu)
    (hr : RegExact np (studentME nu) (fun _ => True) .ip1 norm floor X s) :
    ∃ s', updateOnce np (studentME nu) 2 .ip1 norm floor X s = .ok s' ∧
      (loss (studentME nu) X s' < loss (studentME nu) X s ↔ ¬ StationaryState (studentME nu) X s) ∧
      (StationaryState (studentME nu) X s → normalize 2 floor X norm s = .ok s') := by
  obtain ⟨s', h1, -, h2⟩ := C63_ip1 np (studentME_smooth hnu floor) norm X ht hX s hs hr
  exact ⟨s', h1, h2⟩

/-- GGDILRMA; no entry of the separated signals vanishes and their powers are not floored. -/
theorem C63_ggd {p beta : ℝ} (hp : 0 < p) (hb : 0 < beta) (hb2 : beta ≤ 2)
    (hr : RegExact np (ggd p beta) (fun y => 0 < y ∧ floor (y ^ (2 - beta)) = y ^ (2 - beta)) .ip1 norm floor X s) :
    ∃ s', updateOnce np (ggd p beta) p .ip1 norm floor X s = .ok s' ∧
      (loss (ggd p beta) X s' < loss (ggd p beta) X s ↔ ¬ StationaryState (ggd p beta) X s) ∧
      (StationaryState (ggd p beta) X s → normalize p floor X norm s = .ok s') := by
  obtain ⟨s', h1, -, h2⟩ := C63_ip1 np (ggd_smooth hp hb hb2 floor) norm X ht hX s hs hr
  exact ⟨s', h1, h2⟩

/-- GaussILRMA with ISS1. -/
theorem C63_gauss_mm_iss {p : ℝ} (hp : 0 < p)
    (hr : RegExactY np (gauss p) (fun _ => True) .iss1 norm floor X (s.toY X)) :
    ∃ s', updateOnceY np (gauss p) p .iss1 norm floor X (s.toY X) = .ok (s'.toY X) ∧
      (loss (gauss p) X s' < loss (gauss p) X s ↔ ¬ StationaryState (gauss p) X s) ∧
      (StationaryState (gauss p) X s → normalizeY p floor X norm (s.toY X) = .ok (s'.toY X)) := by
  obtain ⟨s', h1, -, h2⟩ := C63_iss1 np (gauss_smooth hp floor) norm X ht hX s hs hr
  exact ⟨s', h1, h2⟩

/-- TILRMA with ISS1. -/
theorem C63_student_mm_iss {p nu : ℝ} (hp : 0 < p) (hnu : 0 < nu)
    (hr : RegExactY np (student p nu) (fun _ => True) .iss1 norm floor X (s.toY X)) :
    ∃ s', updateOnceY np (student p nu) p .iss1 norm floor X (s.toY X) = .ok (s'.toY X) ∧
      (loss (student p nu) X s' < loss (student p nu) X s ↔ ¬ StationaryState (student p nu) X s) ∧
      (StationaryState (student p nu) X s → normalizeY p floor X norm (s.toY X) = .ok (s'.toY X)) := by
  obtain ⟨s', h1, -, h2⟩ := C63_iss1 np (student_smooth hp hnu floor) norm X ht hX s hs hr
  exact ⟨s', h1, h2⟩

/-- GGDILRMA with ISS1. -/
theorem C63_ggd_iss {p beta : ℝ} (hp : 0 < p) (hb : 0 < beta) (hb2 : beta ≤ 2)
    (hr : RegExactY np (ggd p beta) (fun y => 0 < y ∧ floor (y ^ (2 - beta)) = y ^ (2 - beta)) .iss1 norm floor X
      (s.toY X)) :
    ∃ s', updateOnceY np (ggd p beta) p .iss1 norm floor X (s.toY X) = .ok (s'.toY X) ∧
      (loss (ggd p beta) X s' < loss (ggd p beta) X s ↔ ¬ StationaryState (ggd p beta) X s) ∧
      (StationaryState (ggd p beta) X s → normalizeY p floor X norm (s.toY X) = .ok (s'.toY X)) := by
  obtain ⟨s', h1, -, h2⟩ := C63_iss1 np (ggd_smooth hp hb hb2 floor) norm X ht hX s hs hr
  exact ⟨s', h1, h2⟩

end

/-! ### A concrete instance: two channels, one bin, two frames -/

theorem regExact_id [Nonempty F] [Nonempty (Fin K)] (np : Numpy ℂ) (X : Spec F n t) (ht : 0 < t) (s : St F n t K)
    (hs : Inv s) (hY : ∀ f k j, separate X s.W f k j ≠ 0) :
    RegExact np (gauss 2) (fun _ => True) .ip1 .off id X s := by
  haveI : Nonempty (Fin t) := ⟨⟨0, ht⟩⟩
  have hnum : ∀ (T : Fin n → F → Fin K → ℝ) (V : Fin n → Fin K → Fin t → ℝ), (∀ k f b, 0 < T k f b) →
      (∀ k b j, 0 < V k b j) → ∀ f k j, 0 < (gauss 2).num ‖separate X s.W f k j‖ (recon T V k f j) := by
    intro T V hT hV f k j
    have h1 := norm_pos_iff.mpr (hY f k j)
    have h2 := Real.rpow_pos_of_pos (recon_pos hT hV k f j) ((2 + 2) / 2)
    simp only [gauss]
    positivity
  have hb : ∀ k f b, 0 < basisRaw (gauss 2) (separate X s.W) s.T s.V k f b := fun k f b =>
    mul_pos (Real.rpow_pos_of_pos (div_pos
      (Finset.sum_pos (fun j _ => mul_pos (hs.2.2 k b j) (hnum s.T s.V hs.2.1 hs.2.2 f k j)) Finset.univ_nonempty)
      (Finset.sum_pos (fun j _ => div_pos (hs.2.2 k b j) (recon_pos hs.2.1 hs.2.2 k f j)) Finset.univ_nonempty)) _)
      (hs.2.1 k f b)
  refine ⟨fun k f b => ⟨hb k f b, rfl⟩, fun k b j => ⟨?_, rfl⟩, fun _ _ _ => trivial, fun _ _ => rfl,
    fun _ _ => trivial⟩
  exact mul_pos (Real.rpow_pos_of_pos (div_pos
      (Finset.sum_pos (fun f _ => mul_pos (hb k f b) (hnum _ s.V hb hs.2.2 f k j)) Finset.univ_nonempty)
      (Finset.sum_pos (fun f _ => div_pos (hb k f b) (recon_pos hb hs.2.2 k f j)) Finset.univ_nonempty)) _)
      (hs.2.2 k b j)

/-- Two orthogonal observations. -/
noncomputable def exX : Spec Unit 2 2 := fun _ => !![1, 1; 1, -1]

/-- Demixing filters `1`, bases `c`, activations `1`. -/
noncomputable def exState (c : ℝ) : St Unit 2 2 1 := ⟨fun _ => 1, fun _ _ _ => c, fun _ _ _ => 1⟩

theorem exX_indep (f : Unit) : LinearIndependent ℂ (exX f).row := by
  rw [Matrix.linearIndependent_rows_iff_isUnit, Matrix.isUnit_iff_isUnit_det]
  simp [exX, det_fin_two]
  norm_num

theorem exState_norm (c : ℝ) (f : Unit) (k j : Fin 2) : ‖separate exX (exState c).W f k j‖ = 1 := by
  fin_cases k <;> fin_cases j <;> simp [separate, exX, exState]

theorem exState_basis (c : ℝ) (hc : 0 < c) (k : Fin 2) (f : Unit) (b : Fin 1) :
    basisRaw (gauss 2) (separate exX (exState c).W) (exState c).T (exState c).V k f b = Real.sqrt c := by
  simp only [basisRaw, exState_norm]
  simp only [exState, recon, gauss, Finset.univ_unique, Finset.sum_singleton, Fin.sum_univ_two, mul_one, one_mul,
    one_pow]
  rw [show ((2 : ℝ) + 2) / 2 = (2 : ℕ) by norm_num, Real.rpow_natCast,
    show (1 / c ^ 2 + 1 / c ^ 2) / (1 / c + 1 / c) = 1 / c by field_simp,
    show (2 : ℝ) / (2 + 2) = 1 / 2 by norm_num, ← Real.sqrt_eq_rpow, Real.sqrt_div zero_le_one, Real.sqrt_one]
  have h1 := Real.sqrt_pos.mpr hc
  have h2 := Real.mul_self_sqrt hc.le
  field_simp
  nlinarith

/-- The state with bases `4` is not stationary, so one iteration strictly decreases its loss. -/
example (np : Numpy ℂ) : ∃ s', updateOnce np (gauss 2) 2 .ip1 .off id exX (exState 4) = .ok s' ∧
    loss (gauss 2) exX s' < loss (gauss 2) exX (exState 4) := by
  have hs : Inv (exState 4) := ⟨fun _ => by simp [exState], fun _ _ _ => by norm_num [exState],
    fun _ _ _ => by norm_num [exState]⟩
  have hr := regExact_id np exX two_pos (exState 4) hs fun f k j => norm_ne_zero_iff.mp (by
    rw [exState_norm]; exact one_ne_zero)
  obtain ⟨s', h1, h2, -⟩ := C63_gauss_mm np id .off exX two_pos exX_indep (exState 4) hs two_pos hr
  refine ⟨s', h1, h2.mpr fun hst => ?_⟩
  have := (basis_strict (gauss_isMM two_pos) (gauss_ellDeriv two_pos) exX two_pos (exState 4) hs
    (fun _ _ _ => trivial) hr.basis).2.mpr hst.1
  have := congrFun (congrFun (congrFun this 0) ()) 0
  rw [updateBasis, exState_basis 4 (by norm_num), id, show (4 : ℝ) = 2 ^ 2 by norm_num, Real.sqrt_sq two_pos.le] at this
  norm_num [exState] at this

/-- The state with bases `1` is stationary, so one iteration changes nothing. -/
example (np : Numpy ℂ) : StationaryState (gauss 2) exX (exState 1) ∧
    updateOnce np (gauss 2) 2 .ip1 .off id exX (exState 1) = .ok (exState 1) := by
  have hs : Inv (exState 1) := ⟨fun _ => by simp [exState], fun _ _ _ => by norm_num [exState],
    fun _ _ _ => by norm_num [exState]⟩
  have hr := regExact_id np exX two_pos (exState 1) hs fun f k j => norm_ne_zero_iff.mp (by
    rw [exState_norm]; exact one_ne_zero)
  have hT : updateBasis (gauss 2) id (separate exX (exState 1).W) (exState 1).T (exState 1).V = (exState 1).T := by
    funext k f b
    rw [updateBasis, exState_basis 1 one_pos, Real.sqrt_one]
    rfl
  have hV : updateActivation (gauss 2) id (separate exX (exState 1).W) (exState 1).T (exState 1).V
      = (exState 1).V := by
    funext k b j
    simp only [updateActivation, activationRaw, exState_norm]
    simp [exState, recon, gauss]
  have ha := hr.activation
  rw [hT] at ha
  have hst : StationaryState (gauss 2) exX (exState 1) := by
    refine ⟨(basis_strict (gauss_isMM two_pos) (gauss_ellDeriv two_pos) exX two_pos (exState 1) hs
      (fun _ _ _ => trivial) hr.basis).2.mp hT, (activation_strict (gauss_isMM two_pos) (gauss_ellDeriv two_pos) exX
      two_pos (exState 1) hs (fun _ _ _ => trivial) ha).2.mp hV, ?_⟩
    rw [StationaryFilter, loss_eq_grad]
    refine (Grad.stationary_iff_balanced _ exX _ hs.1 (isScoreAt (gauss_spatialDeriv id) _
      (recon_pos hs.2.1 hs.2.2) _ fun _ _ _ => trivial)).mpr fun f i j => ?_
    rw [← meanT_form]
    fin_cases i <;> fin_cases j <;>
      simp [meanT, Grad.sep, exX, exState, varphi, gauss, recon]
  exact ⟨hst, (C63_ip1_fixed np (gauss_smooth two_pos id) exX two_pos exX_indep _ hs hr).mpr hst⟩

end Verif.Ilrma
