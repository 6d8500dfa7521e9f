import Verif.Props.Ilrma
import Verif.Props.IlrmaIpa

/-! # C69: the loss of ILRMA with `partitioning=True` -/

set_option linter.unusedSectionVars false

namespace Verif.Ilrma

open Matrix Spatial Scale Iva

variable {F : Type} [Fintype F] {n t K : ℕ}

/-- The source models of `GaussILRMA`, `TILRMA` and `GGDILRMA` with the parameters their constructors accept. -/
inductive Standard : Source → Prop
  | gauss {p : ℝ} (hp : 0 < p) : Standard (gauss p)
  | gaussME : Standard gaussME
  | student {p nu : ℝ} (hp : 0 < p) (hnu : 0 < nu) : Standard (student p nu)
  | studentME {nu : ℝ} (hnu : 0 < nu) : Standard (studentME nu)
  | ggd {p beta : ℝ} (hp : 0 < p) (hb : 0 < beta) (hb2 : beta ≤ 2) : Standard (ggd p beta)

theorem Standard.isMM {src : Source} (h : Standard src) : ∃ q κ w, IsMM src q κ w := by
  cases h with
  | gauss hp => exact ⟨_, _, _, gauss_isMM hp⟩
  | gaussME => exact ⟨_, _, _, gaussME_isMM⟩
  | student hp hnu => exact ⟨_, _, _, student_isMM hp hnu⟩
  | studentME hnu => exact ⟨_, _, _, studentME_isMM hnu⟩
  | ggd hp hb _ => exact ⟨_, _, _, ggd_isMM hp hb⟩

/-- Invertible filters, positive latent variables, bases and activations. -/
def InvP (s : StP F n t K) : Prop :=
  (∀ f, IsUnit (s.W f).det) ∧ (∀ k b, 0 < s.Z k b) ∧ (∀ f b, 0 < s.T f b) ∧ ∀ b j, 0 < s.V b j

/-- C69: `update_basis_mm` / `update_basis_me` with partitioning do not increase the loss. -/
theorem C69_basis [Nonempty (Fin K)] {src : Source} (hsrc : Standard src) (floor : ℝ → ℝ) (X : Spec F n t)
    (s : StP F n t K) (hs : InvP s)
    (hfl : ∀ f b, FloorMild floor (s.T f b) (basisRawP src (separate X s.W) s.Z s.T s.V f b)) :
    InvP { s with T := updateBasisP src floor (separate X s.W) s.Z s.T s.V } ∧
    lossP src X { s with T := updateBasisP src floor (separate X s.W) s.Z s.T s.V } ≤ lossP src X s := by
  obtain ⟨q, κ, w, h⟩ := hsrc.isMM
  exact ⟨⟨hs.1, hs.2.1, fun f b => (hfl f b).1, hs.2.2.2⟩,
    basisP_le h floor _ _ _ _ _ hs.2.1 hs.2.2.1 hs.2.2.2 hfl⟩

/-- C69: `update_activation_mm` / `update_activation_me` with partitioning do not increase the loss. -/
theorem C69_activation [Nonempty (Fin K)] {src : Source} (hsrc : Standard src) (floor : ℝ → ℝ) (X : Spec F n t)
    (s : StP F n t K) (hs : InvP s)
    (hfl : ∀ b j, FloorMild floor (s.V b j) (activationRawP src (separate X s.W) s.Z s.T s.V b j)) :
    InvP { s with V := updateActivationP src floor (separate X s.W) s.Z s.T s.V } ∧
    lossP src X { s with V := updateActivationP src floor (separate X s.W) s.Z s.T s.V } ≤ lossP src X s := by
  obtain ⟨q, κ, w, h⟩ := hsrc.isMM
  exact ⟨⟨hs.1, hs.2.1, hs.2.2.1, fun b j => (hfl b j).1⟩,
    activationP_le h floor _ _ _ _ _ hs.2.1 hs.2.2.1 hs.2.2.2 hfl⟩

/-- The sums by which `update_latent_mm` divides. -/
noncomputable def latentScale (src : Source) (Y : Spec F n t) (Z : Fin n → Fin K → ℝ) (T : F → Fin K → ℝ)
    (V : Fin K → Fin t → ℝ) (b : Fin K) : ℝ := ∑ k, latentRaw src Y Z T V k b

/-- C69: `update_latent_mm` / `update_latent_me` return positive latent variables that sum to one, and if the bases were
multiplied by the sums that the latent variables are divided by, then the loss would not increase. (The code leaves the
bases alone; see `C69_loss_can_increase`.) -/
theorem C69_latent_compensated [Nonempty (Fin K)] [Nonempty (Fin n)] {src : Source} (hsrc : Standard src)
    (X : Spec F n t) (s : StP F n t K) (hs : InvP s)
    (hpos : ∀ k b, 0 < latentRaw src (separate X s.W) s.Z s.T s.V k b) :
    (∀ k b, 0 < updateLatent src (separate X s.W) s.Z s.T s.V k b) ∧
    (∀ b, ∑ k, updateLatent src (separate X s.W) s.Z s.T s.V k b = 1) ∧
    lossP src X { s with Z := updateLatent src (separate X s.W) s.Z s.T s.V,
                         T := fun f b => s.T f b * latentScale src (separate X s.W) s.Z s.T s.V b }
      ≤ lossP src X s := by
  obtain ⟨q, κ, w, h⟩ := hsrc.isMM
  have hsum : ∀ b, 0 < ∑ k', latentRaw src (separate X s.W) s.Z s.T s.V k' b := fun b =>
    Finset.sum_pos (fun k' _ => hpos k' b) Finset.univ_nonempty
  refine ⟨fun k b => div_pos (hpos k b) (hsum b), fun b => ?_, ?_⟩
  · simp only [updateLatent, ← Finset.sum_div]
    exact div_self (hsum b).ne'
  · refine le_trans (le_of_eq ?_) (latentRaw_le h (separate X s.W) s.Z s.T s.V s.W hs.2.1 hs.2.2.1 hs.2.2.2 hpos)
    unfold lossP
    congr 1
    funext k f j
    refine Finset.sum_congr rfl fun b _ => ?_
    simp only [updateLatent, latentScale]
    have := (hsum b).ne'
    field_simp

/-- C69: when these sums are one, the update of the latent variables does not increase the loss. -/
theorem C69_latent_balanced [Nonempty (Fin K)] [Nonempty (Fin n)] {src : Source} (hsrc : Standard src)
    (X : Spec F n t) (s : StP F n t K) (hs : InvP s)
    (hpos : ∀ k b, 0 < latentRaw src (separate X s.W) s.Z s.T s.V k b)
    (hone : ∀ b, latentScale src (separate X s.W) s.Z s.T s.V b = 1) :
    lossP src X { s with Z := updateLatent src (separate X s.W) s.Z s.T s.V } ≤ lossP src X s := by
  have := (C69_latent_compensated hsrc X s hs hpos).2.2
  simpa only [hone, mul_one] using this

/-- The condition under which the spatial update of the class is a majorisation step: none, except for `GGDILRMA`, where
the separated signal must not vanish and flooring must not change its power. -/
def PointOk (src : Source) (floor : ℝ → ℝ) (y : ℝ) : Prop :=
  ∀ p beta, src = ggd p beta → 0 < y ∧ floor (y ^ (2 - beta)) = y ^ (2 - beta)

theorem Standard.spatialOk {src : Source} (h : Standard src) {floor : ℝ → ℝ} {y r : ℝ} (hy : PointOk src floor y)
    (hr : 0 < r) : SpatialOk src floor y r := by
  cases h with
  | gauss hp => exact gauss_spatialOk floor hr
  | gaussME => exact gaussME_spatialOk floor hr
  | student hp hnu => exact student_spatialOk hnu floor hr
  | studentME hnu => exact studentME_spatialOk hnu floor hr
  | ggd hp hb hb2 => exact ggd_spatialOk hb hb2 floor hr (hy _ _ rfl).1 (hy _ _ rfl).2

/-- C69: the spatial update by IP1 or IP2 with partitioning does not increase the loss. -/
theorem C69_spatial [Nonempty (Fin K)] (np : Numpy ℂ) {src : Source} (hsrc : Standard src) {floor : ℝ → ℝ}
    (alg : FilterAlg n) (halg : alg.Valid) (X : Spec F n t) (hX : ∀ f, LinearIndependent ℂ (X f).row)
    (s : StP F n t K) (hs : InvP s) (hpt : ∀ f k j, PointOk src floor ‖separate X s.W f k j‖)
    (hfl : ∀ phi, phi = varphi src floor (separate X s.W) (reconP s.Z s.T s.V) →
      spatialFilter np alg floor phi X s.W = spatialFilter np alg id phi X s.W) :
    ∃ s', updateSpatialP np src alg floor X s = .ok s' ∧ InvP s' ∧ s'.Z = s.Z ∧ s'.T = s.T ∧ s'.V = s.V ∧
      lossP src X s' ≤ lossP src X s := by
  have hR : ∀ k f j, 0 < reconP s.Z s.T s.V k f j := reconP_pos hs.2.1 hs.2.2.1 hs.2.2.2
  have hok : ∀ f k j, SpatialOk src floor ‖separate X s.W f k j‖ (reconP s.Z s.T s.V k f j) := fun f k j =>
    hsrc.spatialOk (hpt f k j) (hR k f j)
  obtain ⟨W', h1, h2, h3⟩ := spatialFilter_weighted np alg halg
    (varphi src floor (separate X s.W) (reconP s.Z s.T s.V)) (fun f k j => (hok f k j).1) X hX s.W hs.1
  refine ⟨⟨W', s.Z, s.T, s.V⟩, ?_, ⟨h2, hs.2⟩, rfl, rfl, rfl, spatial_mm _ _ _ _ _ hok h3⟩
  rw [updateSpatialP, hfl _ rfl, h1]
  rfl

/-- The state of a method without a demixing filter. -/
def StP.toY (X : Spec F n t) (s : StP F n t K) : StYP F n t K := ⟨separate X s.W, s.Z, s.T, s.V⟩

theorem lossYP_toY (src : Source) (X : Spec F n t) (hX : ∀ f, LinearIndependent ℂ (X f).row) (s : StP F n t K) :
    lossYP src X (s.toY X) = .ok (lossP src X s) := by
  simp only [lossYP, StP.toY, filterOf_eq X hX, bind, Except.bind]
  rfl

/-- C69: the spatial update by ISS1 or ISS2 with partitioning does not increase the loss. -/
theorem C69_spatial_signal [Nonempty (Fin K)] (np : Numpy ℂ) {src : Source} (hsrc : Standard src) {floor : ℝ → ℝ}
    (alg : SignalAlg n) (halg : alg.Valid) (X : Spec F n t) (hX : ∀ f, LinearIndependent ℂ (X f).row)
    (s : StP F n t K) (hs : InvP s) (hpt : ∀ f k j, PointOk src floor ‖separate X s.W f k j‖)
    (hfl : ∀ phi, phi = varphi src floor (separate X s.W) (reconP s.Z s.T s.V) →
      spatialSignal np alg floor phi (separate X s.W) = spatialSignal np alg id phi (separate X s.W)) :
    ∃ s' : StP F n t K, updateSpatialYP np src alg floor (s.toY X) = .ok (s'.toY X) ∧ InvP s' ∧ s'.Z = s.Z ∧ s'.T = s.T ∧
      s'.V = s.V ∧ ∃ l l', lossYP src X (s.toY X) = .ok l ∧ lossYP src X (s'.toY X) = .ok l' ∧ l' ≤ l := by
  have hR : ∀ k f j, 0 < reconP s.Z s.T s.V k f j := reconP_pos hs.2.1 hs.2.2.1 hs.2.2.2
  have hok : ∀ f k j, SpatialOk src floor ‖separate X s.W f k j‖ (reconP s.Z s.T s.V k f j) := fun f k j =>
    hsrc.spatialOk (hpt f k j) (hR k f j)
  obtain ⟨W', h1, h2, h3⟩ := spatialSignal_weighted np alg halg
    (varphi src floor (separate X s.W) (reconP s.Z s.T s.V)) (fun f k j => (hok f k j).1) X hX s.W hs.1
  refine ⟨⟨W', s.Z, s.T, s.V⟩, ?_, ⟨h2, hs.2⟩, rfl, rfl, rfl, _, _, lossYP_toY src X hX s, lossYP_toY src X hX _,
    spatial_mm _ _ _ _ _ hok h3⟩
  have e : spatialSignal np alg floor (varphi src floor (s.toY X).Y (reconP (s.toY X).Z (s.toY X).T (s.toY X).V))
      (s.toY X).Y = .ok (separate X W') := (hfl _ rfl).trans h1
  rw [updateSpatialYP, e]
  rfl

/-- C69: the spatial update by IPA with partitioning and two sources does not increase the loss (`GaussILRMA`). -/
theorem C69_spatial_ipa [Nonempty (Fin K)] (np : Numpy ℂ) {p : ℝ} {floor : ℝ → ℝ} {newton_iter : ℕ}
    (hm : 0 < newton_iter) (X : Spec F 2 t) (hX : ∀ f, LinearIndependent ℂ (X f).row)
    (s : StP F 2 t K) (hs : InvP s)
    (hfl : RegularFold (ipaStep (n := 0) np floor true newton_iter
        (varphi (gauss p) floor (separate X s.W) (reconP s.Z s.T s.V)))
      (StepRegular np floor (varphi (gauss p) floor (separate X s.W) (reconP s.Z s.T s.V))) (List.finRange 2)
      (separate X s.W)) :
    ∃ s' : StP F 2 t K, updateSpatialIpaP (n := 0) np (gauss p) true newton_iter floor (s.toY X) = .ok (s'.toY X) ∧
      InvP s' ∧ s'.Z = s.Z ∧ s'.T = s.T ∧ s'.V = s.V ∧
      ∃ l l', lossYP (gauss p) X (s.toY X) = .ok l ∧ lossYP (gauss p) X (s'.toY X) = .ok l' ∧ l' ≤ l := by
  have hR : ∀ k f j, 0 < reconP s.Z s.T s.V k f j := reconP_pos hs.2.1 hs.2.2.1 hs.2.2.2
  have hok : ∀ f k j, SpatialOk (gauss p) floor ‖separate X s.W f k j‖ (reconP s.Z s.T s.V k f j) := fun f k j =>
    gauss_spatialOk floor (hR k f j)
  obtain ⟨T, h1, h2⟩ := C68_two_sources_sweep np floor hm (fun f k j => (hok f k j).1)
    (fun f => row_independent (hs.1 f) (hX f)) hfl
  have hsep : (fun f => T f * separate X s.W f) = separate X fun f => T f * s.W f := by
    funext f
    simp only [separate, Matrix.mul_assoc]
  have hdet : ∀ f, IsUnit (T f * s.W f).det := fun f => by
    rw [det_mul]
    exact (h2 f).1.mul (hs.1 f)
  refine ⟨⟨fun f => T f * s.W f, s.Z, s.T, s.V⟩, ?_, ⟨hdet, hs.2⟩, rfl, rfl, rfl, _, _, lossYP_toY _ X hX s,
    lossYP_toY _ X hX _, spatial_mm _ _ _ _ _ hok fun f => ?_⟩
  · have e : ipa (n := 0) np floor true newton_iter
        (varphi (gauss p) floor (s.toY X).Y (reconP (s.toY X).Z (s.toY X).T (s.toY X).V)) (s.toY X).Y
        = .ok (separate X fun f => T f * s.W f) := by
      rw [← hsep]
      exact h1
    rw [updateSpatialIpaP, e]
    rfl
  · have e : power (varphi (gauss p) floor (separate X s.W) (reconP s.Z s.T s.V) f) (T f * separate X s.W f)
        - 2 * Real.log ‖(T f).det‖
        ≤ power (varphi (gauss p) floor (separate X s.W) (reconP s.Z s.T s.V) f) (separate X s.W f) := (h2 f).2
    have e1 : Real.log ‖(T f * s.W f).det‖ = Real.log ‖(T f).det‖ + Real.log ‖(s.W f).det‖ := by
      rw [det_mul, norm_mul, Real.log_mul (norm_ne_zero_iff.2 (h2 f).1.ne_zero)
        (norm_ne_zero_iff.2 (hs.1 f).ne_zero)]
    have e2 : separate X (fun f => T f * s.W f) f = T f * separate X s.W f := (congrFun hsep f).symm
    rw [e2]
    simp only [e1]
    linarith

/-- Regularity of one update with partitioning: the updated latent variables do not vanish, the floored bases and
activations are mild (see `FloorMild`), the separated signals are admissible for the class, flooring does not change the
spatial update, and the normalisation is one that exists with partitioning, with non-zero scales. -/
structure RegP (np : Numpy ℂ) (src : Source) (alg : FilterAlg n) (norm : Norm n) (floor : ℝ → ℝ) (X : Spec F n t)
    (s : StP F n t K) : Prop where
  latent : ∀ k b, 0 < latentRaw src (separate X s.W) s.Z s.T s.V k b
  basis : ∀ f b, FloorMild floor (s.T f b)
    (basisRawP src (separate X s.W) (updateLatent src (separate X s.W) s.Z s.T s.V) s.T s.V f b)
  activation : ∀ b j, FloorMild floor (s.V b j)
    (activationRawP src (separate X s.W) (updateLatent src (separate X s.W) s.Z s.T s.V)
      (updateSourceP src floor X s).T s.V b j)
  point : ∀ f k j, PointOk src floor ‖separate X s.W f k j‖
  spatial : ∀ phi, phi = varphi src floor (separate X s.W)
      (reconP (updateSourceP src floor X s).Z (updateSourceP src floor X s).T (updateSourceP src floor X s).V) →
    spatialFilter np alg floor phi X s.W = spatialFilter np alg id phi X s.W
  norm : norm = .off ∨ norm = .power ∧ ∀ s', updateSpatialP np src alg floor X (updateSourceP src floor X s) = .ok s' →
    ∀ k, 0 < psi floor (separate X s'.W) k

/-- C69: an iteration with partitioning does not end above the loss that follows the update of the latent variables; so
this first step is the only one that can increase the loss. -/
theorem C69_iteration [Nonempty (Fin K)] [Nonempty (Fin n)] (np : Numpy ℂ) {src : Source} (hsrc : Standard src) {p : ℝ}
    (hsc : ScaleInv src p) {floor : ℝ → ℝ} (alg : FilterAlg n) (halg : alg.Valid) (norm : Norm n) (X : Spec F n t)
    (ht : 0 < t) (hX : ∀ f, LinearIndependent ℂ (X f).row) (s : StP F n t K) (hs : InvP s)
    (hr : RegP np src alg norm floor X s) :
    ∃ s', updateOnceP np src p alg norm floor X s = .ok s' ∧ InvP s' ∧ (∀ b, ∑ k, s'.Z k b = 1) ∧
      lossP src X s' ≤ lossP src X { s with Z := updateLatent src (separate X s.W) s.Z s.T s.V } := by
  obtain ⟨hz, hsum, -⟩ := C69_latent_compensated hsrc X s hs hr.latent
  have i1 : InvP { s with Z := updateLatent src (separate X s.W) s.Z s.T s.V } := ⟨hs.1, hz, hs.2.2⟩
  obtain ⟨i2, l2⟩ := C69_basis hsrc floor X _ i1 hr.basis
  obtain ⟨i3, l3⟩ := C69_activation hsrc floor X _ i2 hr.activation
  obtain ⟨s4, h4, i4, e1, -, -, l4⟩ := C69_spatial np hsrc alg halg X hX (updateSourceP src floor X s) i3 hr.point
    hr.spatial
  have l4' := l4.trans (l3.trans l2)
  have hsum4 : ∀ b, ∑ k, s4.Z k b = 1 := fun b => by rw [e1]; exact hsum b
  rcases hr.norm with rfl | ⟨rfl, hψ⟩
  · exact ⟨s4, by rw [updateOnceP, h4]; rfl, i4, hsum4, l4'⟩
  · obtain ⟨s5, h5, a, b, c, d, e, f⟩ := C40_partitioned hsc floor X ht s4 i4.1 i4.2.1 i4.2.2.1 i4.2.2.2 (hψ s4 h4)
    exact ⟨s5, by rw [updateOnceP, h4]; exact h5, ⟨a, b, d, by rw [e]; exact i4.2.2.2⟩, c, f.trans_le l4'⟩

theorem normalizeYP_toY (p : ℝ) (floor : ℝ → ℝ) (X : Spec F n t) (norm : Norm n) (s : StP F n t K) :
    normalizeYP p floor norm (s.toY X) = (normalizeP p floor X norm s).map (StP.toY X) := by
  cases norm with
  | off => rfl
  | power => simp only [normalizeYP, normalizeP, Except.map, StP.toY, separate_divRows]
  | projectionBack r => rfl

/-- Regularity of one update with partitioning by a method without a demixing filter. -/
structure RegYP (src : Source) (spatial : (F → Fin n → Fin t → ℝ) → Spec F n t → Prop)
    (update : StYP F n t K → Except PyErr (StYP F n t K)) (norm : Norm n) (floor : ℝ → ℝ) (s : StYP F n t K) : Prop where
  latent : ∀ k b, 0 < latentRaw src s.Y s.Z s.T s.V k b
  basis : ∀ f b, FloorMild floor (s.T f b)
    (basisRawP src s.Y (updateLatent src s.Y s.Z s.T s.V) s.T s.V f b)
  activation : ∀ b j, FloorMild floor (s.V b j)
    (activationRawP src s.Y (updateLatent src s.Y s.Z s.T s.V)
      (updateBasisP src floor s.Y (updateLatent src s.Y s.Z s.T s.V) s.T s.V) s.V b j)
  point : ∀ f k j, PointOk src floor ‖s.Y f k j‖
  spatial : ∀ Z T V, Z = updateLatent src s.Y s.Z s.T s.V → T = updateBasisP src floor s.Y Z s.T s.V →
    V = updateActivationP src floor s.Y Z T s.V → spatial (varphi src floor s.Y (reconP Z T V)) s.Y
  norm : norm = .off ∨ norm = .power ∧ ∀ s', update (updateSourceYP src floor s) = .ok s' →
    ∀ k, 0 < psi floor s'.Y k

/-- C69 for the methods without a demixing filter, given what the spatial update does. -/
private theorem iteration_signal [Nonempty (Fin K)] [Nonempty (Fin n)] {src : Source} (hsrc : Standard src) {p : ℝ}
    (hsc : ScaleInv src p) {floor : ℝ → ℝ} (spatial : (F → Fin n → Fin t → ℝ) → Spec F n t → Prop)
    (update : StYP F n t K → Except PyErr (StYP F n t K)) (norm : Norm n) (X : Spec F n t)
    (ht : 0 < t) (hX : ∀ f, LinearIndependent ℂ (X f).row)
    (hup : ∀ s : StP F n t K, InvP s → (∀ f k j, PointOk src floor ‖separate X s.W f k j‖) →
      spatial (varphi src floor (separate X s.W) (reconP s.Z s.T s.V)) (separate X s.W) →
      ∃ s' : StP F n t K, update (s.toY X) = .ok (s'.toY X) ∧ InvP s' ∧ s'.Z = s.Z ∧ s'.T = s.T ∧
      s'.V = s.V ∧ ∃ l l', lossYP src X (s.toY X) = .ok l ∧ lossYP src X (s'.toY X) = .ok l' ∧ l' ≤ l)
    (s : StP F n t K) (hs : InvP s) (hr : RegYP src spatial update norm floor (s.toY X)) :
    ∃ s' : StP F n t K, (do let s ← update (updateSourceYP src floor (s.toY X)); normalizeYP p floor norm s)
        = .ok (s'.toY X) ∧ InvP s' ∧ (∀ b, ∑ k, s'.Z k b = 1) ∧
      ∃ l l', lossYP src X ⟨separate X s.W, updateLatent src (separate X s.W) s.Z s.T s.V, s.T, s.V⟩ = .ok l ∧
        lossYP src X (s'.toY X) = .ok l' ∧ l' ≤ l := by
  obtain ⟨hz, hsum, -⟩ := C69_latent_compensated hsrc X s hs hr.latent
  have i1 : InvP { s with Z := updateLatent src (separate X s.W) s.Z s.T s.V } := ⟨hs.1, hz, hs.2.2⟩
  obtain ⟨i2, l2⟩ := C69_basis hsrc floor X _ i1 hr.basis
  obtain ⟨i3, l3⟩ := C69_activation hsrc floor X _ i2 hr.activation
  obtain ⟨s4, h4, i4, e1, -, -, l, l', hl, hl', hle⟩ := hup (updateSourceP src floor X s) i3 hr.point
    (hr.spatial _ _ _ rfl rfl rfl)
  rw [lossYP_toY src X hX] at hl hl'
  cases hl
  cases hl'
  have l4 := hle.trans (l3.trans l2)
  have hsum4 : ∀ b, ∑ k, s4.Z k b = 1 := fun b => by rw [e1]; exact hsum b
  have hfirst := lossYP_toY src X hX { s with Z := updateLatent src (separate X s.W) s.Z s.T s.V }
  have h4' : update (updateSourceYP src floor (s.toY X)) = .ok (s4.toY X) := h4
  rcases hr.norm with rfl | ⟨rfl, hψ⟩
  · exact ⟨s4, by rw [h4']; rfl, i4, hsum4, _, _, hfirst, lossYP_toY src X hX _, l4⟩
  · have hψ4 : ∀ k, 0 < psi floor (s4.toY X).Y k := hψ (s4.toY X) h4'
    have hψ5 : ∀ k, 0 < psi floor (separate X s4.W) k := hψ4
    obtain ⟨s5, h5, a, b, c, d, e, f⟩ := C40_partitioned hsc floor X ht s4 i4.1 i4.2.1 i4.2.2.1 i4.2.2.2 hψ5
    refine ⟨s5, ?_, ⟨a, b, d, by rw [e]; exact i4.2.2.2⟩, c, _, _, hfirst, lossYP_toY src X hX _, f.trans_le l4⟩
    rw [h4']
    exact (normalizeYP_toY p floor X .power s4).trans (by rw [h5]; rfl)

/-- C69 for ISS1 and ISS2: an iteration with partitioning does not end above the loss that follows the update of the
latent variables. -/
theorem C69_iteration_signal [Nonempty (Fin K)] [Nonempty (Fin n)] (np : Numpy ℂ) {src : Source} (hsrc : Standard src)
    {p : ℝ} (hsc : ScaleInv src p) {floor : ℝ → ℝ} (alg : SignalAlg n) (halg : alg.Valid) (norm : Norm n)
    (X : Spec F n t) (ht : 0 < t) (hX : ∀ f, LinearIndependent ℂ (X f).row) (s : StP F n t K) (hs : InvP s)
    (hr : RegYP src (fun phi Y => spatialSignal np alg floor phi Y = spatialSignal np alg id phi Y)
      (updateSpatialYP np src alg floor) norm floor (s.toY X)) :
    ∃ s' : StP F n t K, updateOnceYP np src p alg norm floor (s.toY X) = .ok (s'.toY X) ∧ InvP s' ∧
      (∀ b, ∑ k, s'.Z k b = 1) ∧
      ∃ l l', lossYP src X ⟨separate X s.W, updateLatent src (separate X s.W) s.Z s.T s.V, s.T, s.V⟩ = .ok l ∧
        lossYP src X (s'.toY X) = .ok l' ∧ l' ≤ l :=
  iteration_signal hsrc hsc _ _ norm X ht hX
    (fun s hs hpt hsp => C69_spatial_signal np hsrc alg halg X hX s hs hpt fun phi hphi => by rw [hphi]; exact hsp) s hs hr

/-- C69 for IPA with two sources (`GaussILRMA`). -/
theorem C69_iteration_ipa [Nonempty (Fin K)] (np : Numpy ℂ) {p : ℝ} (hp : 0 < p) {floor : ℝ → ℝ} {newton_iter : ℕ}
    (hm : 0 < newton_iter) (norm : Norm 2) (X : Spec F 2 t) (ht : 0 < t) (hX : ∀ f, LinearIndependent ℂ (X f).row)
    (s : StP F 2 t K) (hs : InvP s)
    (hr : RegYP (gauss p) (fun phi Y => RegularFold (ipaStep (n := 0) np floor true newton_iter phi)
        (StepRegular np floor phi) (List.finRange 2) Y)
      (updateSpatialIpaP (n := 0) np (gauss p) true newton_iter floor) norm floor (s.toY X)) :
    ∃ s' : StP F 2 t K, updateOnceIpaP (n := 0) np (gauss p) p true newton_iter norm floor (s.toY X) = .ok (s'.toY X) ∧
      InvP s' ∧ (∀ b, ∑ k, s'.Z k b = 1) ∧
      ∃ l l', lossYP (gauss p) X ⟨separate X s.W, updateLatent (gauss p) (separate X s.W) s.Z s.T s.V, s.T, s.V⟩ = .ok l ∧
        lossYP (gauss p) X (s'.toY X) = .ok l' ∧ l' ≤ l :=
  iteration_signal (.gauss hp) (gauss_scaleInv hp) _ _ norm X ht hX
    (fun s hs _ hsp => C69_spatial_ipa np hm X hX s hs hsp) s hs hr

/-- Without flooring, `GaussILRMA` with IP1 or IP2 and without normalisation is regular where no separated signal
vanishes. -/
theorem regP_none [Nonempty (Fin K)] [Nonempty (Fin n)] [Nonempty F] (np : Numpy ℂ) {p : ℝ} (alg : FilterAlg n)
    (X : Spec F n t) (ht : 0 < t) (s : StP F n t K) (hs : InvP s) (hY : ∀ f k j, separate X s.W f k j ≠ 0) :
    RegP np (gauss p) alg .off id X s := by
  have : Nonempty (Fin t) := ⟨⟨0, ht⟩⟩
  obtain ⟨-, hZ, hT, hV⟩ := hs
  have hnum : ∀ {f k j} {r : ℝ}, 0 < r → 0 < (gauss p).num ‖separate X s.W f k j‖ r := fun hr =>
    gauss_num_pos (norm_pos_iff.2 (hY _ _ _)) hr
  have hlat : ∀ k b, 0 < latentRaw (gauss p) (separate X s.W) s.Z s.T s.V k b := fun k b => by
    have hR := reconP_pos hZ hT hV
    refine mul_pos (Real.rpow_pos_of_pos (div_pos ?_ ?_) _) (hZ k b)
    · exact Finset.sum_pos (fun f _ => Finset.sum_pos (fun j _ =>
        mul_pos (mul_pos (hT f b) (hV b j)) (hnum (hR k f j))) Finset.univ_nonempty) Finset.univ_nonempty
    · exact Finset.sum_pos (fun f _ => Finset.sum_pos (fun j _ =>
        div_pos (mul_pos (hT f b) (hV b j)) (hR k f j)) Finset.univ_nonempty) Finset.univ_nonempty
  have hZ' : ∀ k b, 0 < updateLatent (gauss p) (separate X s.W) s.Z s.T s.V k b := fun k b =>
    div_pos (hlat k b) (Finset.sum_pos (fun k' _ => hlat k' b) Finset.univ_nonempty)
  have hbas : ∀ f b, 0 < basisRawP (gauss p) (separate X s.W)
      (updateLatent (gauss p) (separate X s.W) s.Z s.T s.V) s.T s.V f b := fun f b => by
    have hR := reconP_pos hZ' hT hV
    refine mul_pos (Real.rpow_pos_of_pos (div_pos ?_ ?_) _) (hT f b)
    · exact Finset.sum_pos (fun k _ => Finset.sum_pos (fun j _ =>
        mul_pos (mul_pos (hZ' k b) (hV b j)) (hnum (hR k f j))) Finset.univ_nonempty) Finset.univ_nonempty
    · exact Finset.sum_pos (fun k _ => Finset.sum_pos (fun j _ =>
        div_pos (mul_pos (hZ' k b) (hV b j)) (hR k f j)) Finset.univ_nonempty) Finset.univ_nonempty
  refine ⟨hlat, fun f b => .of_id (hbas f b), fun b j => .of_id ?_, fun f k j p' beta h => ?_, fun _ _ => rfl, .inl rfl⟩
  · have hR := reconP_pos hZ' hbas hV
    refine mul_pos (Real.rpow_pos_of_pos (div_pos ?_ ?_) _) (hV b j)
    · exact Finset.sum_pos (fun k _ => Finset.sum_pos (fun f _ =>
        mul_pos (mul_pos (hZ' k b) (hbas f b)) (hnum (hR k f j))) Finset.univ_nonempty) Finset.univ_nonempty
    · exact Finset.sum_pos (fun k _ => Finset.sum_pos (fun f _ =>
        div_pos (mul_pos (hZ' k b) (hbas f b)) (hR k f j)) Finset.univ_nonempty) Finset.univ_nonempty
  · exact ⟨norm_pos_iff.2 (hY f k j), rfl⟩

/-- Two sources, two frames, one bin, two bases: the hypotheses of `C69_iteration` hold. -/
example (np : Numpy ℂ) : ∃ s' : StP Unit 2 2 2,
    updateOnceP np (gauss 2) 2 .ip1 .off id (fun _ : Unit => (!![1, 2; 2, 1] : Matrix (Fin 2) (Fin 2) ℂ))
      ⟨1, fun k b => (k + 1) / (3 + b), fun _ b => b + 1, fun b j => 2 * b + j + 1⟩ = .ok s' ∧ InvP s' := by
  have hdet : IsUnit (!![1, 2; 2, 1] : Matrix (Fin 2) (Fin 2) ℂ) := by
    rw [isUnit_iff_isUnit_det, det_fin_two, isUnit_iff_ne_zero]
    norm_num
  have hs : InvP (⟨1, fun k b => (k + 1) / (3 + b), fun _ b => b + 1, fun b j => 2 * b + j + 1⟩ : StP Unit 2 2 2) :=
    ⟨fun _ => by simp, fun k b => by positivity, fun _ b => by positivity, fun b j => by positivity⟩
  obtain ⟨s', h1, h2, -⟩ := C69_iteration np (.gauss two_pos) (gauss_scaleInv two_pos) .ip1 trivial .off
    (fun _ : Unit => (!![1, 2; 2, 1] : Matrix (Fin 2) (Fin 2) ℂ)) two_pos
    (fun _ => (linearIndependent_rows_iff_isUnit).mpr hdet) _ hs
    (regP_none np .ip1 _ two_pos _ hs fun _ k j => by
      fin_cases k <;> fin_cases j <;> simp [separate])
  exact ⟨s', h1, h2⟩

/-- The same data meets the hypotheses of `C69_iteration_signal`. -/
example (np : Numpy ℂ) : ∃ s' : StP Unit 2 2 2,
    updateOnceYP np (gauss 2) 2 .iss1 .off id (StP.toY (fun _ : Unit => (!![1, 2; 2, 1] : Matrix (Fin 2) (Fin 2) ℂ))
      ⟨1, fun k b => (k + 1) / (3 + b), fun _ b => b + 1, fun b j => 2 * b + j + 1⟩)
      = .ok (s'.toY fun _ => !![1, 2; 2, 1]) ∧ InvP s' := by
  have hdet : IsUnit (!![1, 2; 2, 1] : Matrix (Fin 2) (Fin 2) ℂ) := by
    rw [isUnit_iff_isUnit_det, det_fin_two, isUnit_iff_ne_zero]
    norm_num
  have hs : InvP (⟨1, fun k b => (k + 1) / (3 + b), fun _ b => b + 1, fun b j => 2 * b + j + 1⟩ : StP Unit 2 2 2) :=
    ⟨fun _ => by simp, fun k b => by positivity, fun _ b => by positivity, fun b j => by positivity⟩
  have hr := regP_none (p := 2) np .ip1 (fun _ : Unit => (!![1, 2; 2, 1] : Matrix (Fin 2) (Fin 2) ℂ)) two_pos _ hs
    fun _ k j => by fin_cases k <;> fin_cases j <;> simp [separate]
  obtain ⟨s', h1, h2, -⟩ := C69_iteration_signal np (.gauss two_pos) (gauss_scaleInv two_pos) .iss1 trivial .off
    (fun _ : Unit => (!![1, 2; 2, 1] : Matrix (Fin 2) (Fin 2) ℂ)) two_pos
    (fun _ => (linearIndependent_rows_iff_isUnit).mpr hdet) _ hs
    ⟨hr.latent, hr.basis, hr.activation, hr.point, fun _ _ _ _ _ _ => rfl, .inl rfl⟩
  exact ⟨s', h1, h2⟩

end Verif.Ilrma
