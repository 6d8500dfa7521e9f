import Verif.Lemmas.IlrmaStep
import Verif.Props.Scale

/-! # C38, C39: the recorded loss of ILRMA never increases; C40: normalisation does not change it -/

set_option linter.unusedSectionVars false

namespace Verif.Ilrma

open Matrix Spatial Scale Mult Iva

variable {F : Type} [Fintype F] {n t K : ℕ}

/-! ## Normalisation (C40) -/

theorem recon_divBasis (p : ℝ) (ψ : Fin n → ℝ) (hψ : ∀ k, 0 < ψ k) (T : Fin n → F → Fin K → ℝ)
    (V : Fin n → Fin K → Fin t → ℝ) (k : Fin n) (f : F) (s : Fin t) :
    recon (divBasis p ψ T) V k f s = recon T V k f s * (ψ k)⁻¹ ^ p := by
  rw [recon, recon, Finset.sum_mul]
  refine Finset.sum_congr rfl fun b _ => ?_
  rw [divBasis, Real.inv_rpow (hψ k).le]
  ring

theorem recon_mulBasis (p : ℝ) (c : F → Fin n → ℂ) (T : Fin n → F → Fin K → ℝ)
    (V : Fin n → Fin K → Fin t → ℝ) (k : Fin n) (f : F) (s : Fin t) :
    recon (mulBasis p c T) V k f s = recon T V k f s * ‖c f k‖ ^ p := by
  rw [recon, recon, Finset.sum_mul]
  exact Finset.sum_congr rfl fun b _ => by rw [mulBasis]; ring

theorem reconP_norm [Nonempty (Fin n)] (p : ℝ) (ψ : Fin n → ℝ) (hψ : ∀ k, 0 < ψ k) (Z : Fin n → Fin K → ℝ)
    (hZ : ∀ k b, 0 < Z k b) (T : F → Fin K → ℝ) (V : Fin K → Fin t → ℝ) (k : Fin n) (f : F) (s : Fin t) :
    reconP (normLatent p ψ Z) (normBasisP p ψ Z T) V k f s = reconP Z T V k f s * (ψ k)⁻¹ ^ p := by
  rw [reconP, reconP, Finset.sum_mul]
  refine Finset.sum_congr rfl fun b _ => ?_
  have hpos : 0 < ∑ k', latentPsi p ψ Z k' b :=
    Finset.sum_pos (fun k' _ => div_pos (hZ k' b) (Real.rpow_pos_of_pos (hψ k') p)) Finset.univ_nonempty
  rw [normLatent, normBasisP, Real.inv_rpow (hψ k).le]
  have e : latentPsi p ψ Z k b = Z k b * (ψ k ^ p)⁻¹ := div_eq_mul_inv _ _
  rw [e]
  field_simp

theorem divRows_eq {m : ℕ} (ψ : Fin n → ℝ) (A : F → Matrix (Fin n) (Fin m) ℂ) (f : F) :
    divRows ψ A f = diagonal (fun k => ((ψ k)⁻¹ : ℂ)) * A f := by
  ext k j
  rw [diagonal_mul, divRows, of_apply, div_eq_inv_mul]

theorem mulRows_eq {m : ℕ} (c : F → Fin n → ℂ) (A : F → Matrix (Fin n) (Fin m) ℂ) (f : F) :
    mulRows c A f = diagonal (c f) * A f := by
  ext k j
  rw [diagonal_mul, mulRows, of_apply, mul_comm]

theorem separate_diagonal (X : Spec F n t) (W W' : F → Mat n ℂ) (c : F → Fin n → ℂ)
    (h : ∀ f, W' f = diagonal (c f) * W f) (f : F) (k : Fin n) (s : Fin t) :
    separate X W' f k s = c f k * separate X W f k s := by
  rw [separate, h, Matrix.mul_assoc, diagonal_mul]
  rfl

theorem det_diagonal_isUnit {c : Fin n → ℂ} (hc : ∀ k, c k ≠ 0) {W : Mat n ℂ} (hW : IsUnit W.det) :
    IsUnit (diagonal c * W).det := by
  rw [det_mul, det_diagonal]
  exact (isUnit_iff_ne_zero.mpr (Finset.prod_ne_zero_iff.mpr fun k _ => hc k)).mul hW

theorem norm_inv_ofReal {ψ : ℝ} (h : 0 < ψ) : ‖((ψ : ℂ))⁻¹‖ = ψ⁻¹ := by
  rw [norm_inv, Complex.norm_real, Real.norm_of_nonneg h.le]

/-- The scales of the normalisation are not zero. -/
def NormReg (floor : ℝ → ℝ) (X : Spec F n t) (norm : Norm n) (W : F → Mat n ℂ) : Prop :=
  match norm with
  | .off => True
  | .power => ∀ k, 0 < psi floor (separate X W) k
  | .projectionBack r => ∀ f k, (W f)⁻¹ r k ≠ 0

/-- What normalisation does: every row of the filter is multiplied by a non-zero scalar, the source model changes
accordingly. -/
theorem normalize_spec [Nonempty (Fin K)] (p : ℝ) (floor : ℝ → ℝ) (X : Spec F n t) (norm : Norm n)
    (s : St F n t K) (hW : ∀ f, IsUnit (s.W f).det) (hT : ∀ k f b, 0 < s.T k f b)
    (hreg : NormReg floor X norm s.W) :
    ∃ (s' : St F n t K) (c : F → Fin n → ℂ), normalize p floor X norm s = .ok s' ∧ (∀ f k, c f k ≠ 0) ∧
      (∀ f, s'.W f = diagonal (c f) * s.W f) ∧ (∀ k f b, 0 < s'.T k f b) ∧ s'.V = s.V ∧
      ∀ k f j, recon s'.T s'.V k f j = recon s.T s.V k f j * ‖c f k‖ ^ p := by
  cases norm with
  | off => exact ⟨s, fun _ _ => 1, rfl, fun _ _ => one_ne_zero, fun f => by simp, hT, rfl, fun k f j => by simp⟩
  | power =>
    have hψ : ∀ k, 0 < psi floor (separate X s.W) k := hreg
    refine ⟨_, fun _ k => ((psi floor (separate X s.W) k : ℂ))⁻¹, rfl, fun f k => ?_, fun f => divRows_eq _ _ f,
      fun k f b => div_pos (hT k f b) (Real.rpow_pos_of_pos (hψ k) p), rfl, fun k f j => ?_⟩
    · exact inv_ne_zero (by exact_mod_cast (hψ k).ne')
    · rw [recon_divBasis p _ hψ, norm_inv_ofReal (hψ k)]
  | projectionBack r =>
    refine ⟨⟨mulRows (fun f k => (s.W f)⁻¹ r k) s.W, mulBasis p (fun f k => (s.W f)⁻¹ r k) s.T, s.V⟩,
      fun f k => (s.W f)⁻¹ r k, ?_, hreg, fun f => mulRows_eq (fun f k => (s.W f)⁻¹ r k) s.W f,
      fun k f b => mul_pos (hT k f b) (Real.rpow_pos_of_pos (norm_pos_iff.mpr (hreg f k)) p), rfl,
      fun k f j => recon_mulBasis p _ _ _ k f j⟩
    rw [normalize, npInvB, if_pos hW]
    rfl

/-- C40: normalisation (either kind) succeeds, keeps the filters invertible and the bases positive, and leaves the
loss unchanged. -/
theorem C40_loss [Nonempty (Fin K)] {src : Source} {p : ℝ} (h : ScaleInv src p) (floor : ℝ → ℝ) (X : Spec F n t)
    (ht : 0 < t) (norm : Norm n) (s : St F n t K) (hW : ∀ f, IsUnit (s.W f).det) (hT : ∀ k f b, 0 < s.T k f b)
    (hV : ∀ k b j, 0 < s.V k b j) (hreg : NormReg floor X norm s.W) :
    ∃ s', normalize p floor X norm s = .ok s' ∧ (∀ f, IsUnit (s'.W f).det) ∧ (∀ k f b, 0 < s'.T k f b) ∧
      (∀ k b j, 0 < s'.V k b j) ∧ loss src X s' = loss src X s := by
  obtain ⟨s', c, h1, h2, h3, h4, h5, h6⟩ := normalize_spec p floor X norm s hW hT hreg
  refine ⟨s', h1, fun f => ?_, h4, ?_, ?_⟩
  · rw [h3]
    exact det_diagonal_isUnit (h2 f) (hW f)
  · rw [h5]
    exact hV
  · exact lossOf_scale h _ _ _ _ _ _ c h2 ht (recon_pos hT hV)
      (separate_diagonal X s.W s'.W c h3) h6 h3 hW

/-- C40: projection back after normalisation gives the filter of projection back before it, whatever reference
channels are used. -/
theorem C40_projection_back [Nonempty (Fin K)] (p : ℝ) (floor : ℝ → ℝ) (X : Spec F n t) (norm : Norm n)
    (s s' : St F n t K) (hW : ∀ f, IsUnit (s.W f).det) (hT : ∀ k f b, 0 < s.T k f b)
    (hreg : NormReg floor X norm s.W) (h : normalize p floor X norm s = .ok s') (r : Fin n) :
    projectionBackFilter r s'.W = projectionBackFilter r s.W := by
  obtain ⟨s'', c, h1, h2, h3, -⟩ := normalize_spec p floor X norm s hW hT hreg
  rw [h] at h1
  cases h1
  rw [← C22_scale_invariant r s.W c h2]
  congr 1
  funext f
  rw [h3]
  ext i j
  rw [diagonal_mul, of_apply]

/-- C40: so does the minimal distortion principle, provided no separated signal is silent. -/
theorem C40_mdp [Nonempty (Fin K)] (p : ℝ) (floor : ℝ → ℝ) (X : Spec F n t) (norm : Norm n)
    (s s' : St F n t K) (hW : ∀ f, IsUnit (s.W f).det) (hT : ∀ k f b, 0 < s.T k f b)
    (hreg : NormReg floor X norm s.W) (h : normalize p floor X norm s = .ok s') (r : Fin n)
    (hy : ∀ f i, ∑ k, ‖separate X s.W f i k‖ ^ 2 ≠ 0) :
    mdp r (separate X s'.W) X = mdp r (separate X s.W) X := by
  obtain ⟨s'', c, h1, h2, h3, -⟩ := normalize_spec p floor X norm s hW hT hreg
  rw [h] at h1
  cases h1
  rw [← C25_scale_invariant r (separate X s.W) X c h2 hy]
  congr 1
  funext f
  ext i j
  rw [of_apply]
  exact separate_diagonal X s.W s'.W c h3 f i j

/-- C40: the same with partitioning, where only the power normalisation is available; the latent variables still sum
to one. -/
theorem C40_partitioned [Nonempty (Fin K)] [Nonempty (Fin n)] {src : Source} {p : ℝ} (h : ScaleInv src p)
    (floor : ℝ → ℝ) (X : Spec F n t) (ht : 0 < t) (s : StP F n t K) (hW : ∀ f, IsUnit (s.W f).det)
    (hZ : ∀ k b, 0 < s.Z k b) (hT : ∀ f b, 0 < s.T f b) (hV : ∀ b j, 0 < s.V b j)
    (hψ : ∀ k, 0 < psi floor (separate X s.W) k) :
    ∃ s', normalizeP p floor X .power s = .ok s' ∧ (∀ f, IsUnit (s'.W f).det) ∧ (∀ k b, 0 < s'.Z k b) ∧
      (∀ b, ∑ k, s'.Z k b = 1) ∧ (∀ f b, 0 < s'.T f b) ∧ s'.V = s.V ∧ lossP src X s' = lossP src X s := by
  have hψp : ∀ k b, 0 < latentPsi p (psi floor (separate X s.W)) s.Z k b := fun k b =>
    div_pos (hZ k b) (Real.rpow_pos_of_pos (hψ k) p)
  have hsum : ∀ b, 0 < ∑ k', latentPsi p (psi floor (separate X s.W)) s.Z k' b := fun b =>
    Finset.sum_pos (fun k' _ => hψp k' b) Finset.univ_nonempty
  have hc : ∀ (f : F) k, ((psi floor (separate X s.W) k : ℂ))⁻¹ ≠ 0 := fun _ k =>
    inv_ne_zero (by exact_mod_cast (hψ k).ne')
  refine ⟨_, rfl, fun f => ?_, fun k b => div_pos (hψp k b) (hsum b), fun b => ?_,
    fun f b => mul_pos (hT f b) (hsum b), rfl, ?_⟩
  · simp only [divRows_eq]
    exact det_diagonal_isUnit (hc f) (hW f)
  · simp only [normLatent, ← Finset.sum_div]
    exact div_self (hsum b).ne'
  · refine lossOf_scale h _ _ _ _ _ _ (fun _ k => ((psi floor (separate X s.W) k : ℂ))⁻¹) hc ht
      (reconP_pos hZ hT hV) (separate_diagonal X s.W _ _ fun f => divRows_eq _ _ f) (fun k f j => ?_)
      (fun f => divRows_eq _ _ f) hW
    simp only
    rw [reconP_norm p _ hψ _ hZ, norm_inv_ofReal (hψ k)]

/-- C40: asking for projection back together with partitioning raises. -/
theorem C40_partitioned_projection_back (p : ℝ) (floor : ℝ → ℝ) (X : Spec F n t) (r : Fin n) (s : StP F n t K) :
    normalizeP p floor X (.projectionBack r) s = .error .notImplemented := rfl

/-! ## One update -/

/-- Regularity of one update: the floored source parameters are mild (see `FloorMild`), the separated signals are
admissible for the class (`ok`), flooring does not change the spatial update, and the scales are not zero. -/
structure Reg (np : Numpy ℂ) (src : Source) (p : ℝ) (ok : ℝ → Prop) (alg : FilterAlg n) (norm : Norm n)
    (floor : ℝ → ℝ) (X : Spec F n t) (s : St F n t K) : Prop where
  basis : ∀ k f b, FloorMild floor (s.T k f b) (basisRaw src (separate X s.W) s.T s.V k f b)
  activation : ∀ k b j, FloorMild floor (s.V k b j)
    (activationRaw src (separate X s.W) (updateBasis src floor (separate X s.W) s.T s.V) s.V k b j)
  point : ∀ f k j, ok ‖separate X s.W f k j‖
  spatial : ∀ phi, phi = varphi src floor (separate X s.W)
      (recon (updateSource src floor X s).T (updateSource src floor X s).V) →
    spatialFilter np alg floor phi X s.W = spatialFilter np alg id phi X s.W
  norm : ∀ s', updateSpatial np src alg floor X (updateSource src floor X s) = .ok s' → NormReg floor X norm s'.W

/-- Invertible filters, positive bases and activations. -/
def Inv (s : St F n t K) : Prop :=
  (∀ f, IsUnit (s.W f).det) ∧ (∀ k f b, 0 < s.T k f b) ∧ ∀ k b j, 0 < s.V k b j

/-- The source update does not increase the loss and keeps everything positive. -/
theorem updateSource_step [Nonempty (Fin K)] {src : Source} {q κ : ℝ} {w : ℝ → ℝ → ℝ} (hmm : IsMM src q κ w)
    (floor : ℝ → ℝ) (X : Spec F n t) (s : St F n t K) (hs : Inv s)
    (hb : ∀ k f b, FloorMild floor (s.T k f b) (basisRaw src (separate X s.W) s.T s.V k f b))
    (ha : ∀ k b j, FloorMild floor (s.V k b j)
      (activationRaw src (separate X s.W) (updateBasis src floor (separate X s.W) s.T s.V) s.V k b j)) :
    Inv (updateSource src floor X s) ∧ loss src X (updateSource src floor X s) ≤ loss src X s := by
  have hT' : ∀ k f b, 0 < updateBasis src floor (separate X s.W) s.T s.V k f b := fun k f b => (hb k f b).1
  refine ⟨⟨hs.1, hT', fun k b j => (ha k b j).1⟩, ?_⟩
  exact (activation_le hmm floor (separate X s.W) _ s.V s.W hT' hs.2.2 ha).trans
    (basis_le hmm floor (separate X s.W) s.T s.V s.W hs.2.1 hs.2.2 hb)

/-- The spatial update does not increase the loss and keeps the filters invertible. -/
theorem updateSpatial_step [Nonempty (Fin K)] (np : Numpy ℂ) {src : Source} {ok : ℝ → Prop} {floor : ℝ → ℝ}
    (hsp : ∀ y r, 0 ≤ y → ok y → 0 < r → SpatialOk src floor y r) (alg : FilterAlg n) (halg : alg.Valid)
    (X : Spec F n t) (hX : ∀ f, LinearIndependent ℂ (X f).row) (s : St F n t K) (hs : Inv s)
    (hpt : ∀ f k j, ok ‖separate X s.W f k j‖)
    (hfl : ∀ phi, phi = varphi src floor (separate X s.W) (recon s.T s.V) →
      spatialFilter np alg floor phi X s.W = spatialFilter np alg id phi X s.W) :
    ∃ s', updateSpatial np src alg floor X s = .ok s' ∧ Inv s' ∧ loss src X s' ≤ loss src X s := by
  have hR : ∀ k f j, 0 < recon s.T s.V k f j := recon_pos hs.2.1 hs.2.2
  have hok : ∀ f k j, SpatialOk src floor ‖separate X s.W f k j‖ (recon s.T s.V k f j) := fun f k j =>
    hsp _ _ (norm_nonneg _) (hpt f k j) (hR k f j)
  obtain ⟨W', h1, h2, h3⟩ := spatialFilter_weighted np alg halg
    (varphi src floor (separate X s.W) (recon s.T s.V)) (fun f k j => (hok f k j).1) X hX s.W hs.1
  refine ⟨⟨W', s.T, s.V⟩, ?_, ⟨h2, hs.2⟩, ?_⟩
  · rw [updateSpatial, hfl _ rfl, h1]
    rfl
  · exact spatial_mm _ _ _ _ _ hok h3

/-- One update. -/
theorem updateOnce_step [Nonempty (Fin K)] (np : Numpy ℂ) {src : Source} {q κ p : ℝ} {w : ℝ → ℝ → ℝ}
    (hmm : IsMM src q κ w) (hsc : ScaleInv src p) {ok : ℝ → Prop} {floor : ℝ → ℝ}
    (hsp : ∀ y r, 0 ≤ y → ok y → 0 < r → SpatialOk src floor y r) (alg : FilterAlg n) (halg : alg.Valid)
    (norm : Norm n) (X : Spec F n t) (ht : 0 < t) (hX : ∀ f, LinearIndependent ℂ (X f).row) (s : St F n t K)
    (hs : Inv s) (hr : Reg np src p ok alg norm floor X s) :
    ∃ s', updateOnce np src p alg norm floor X s = .ok s' ∧ Inv s' ∧ loss src X s' ≤ loss src X s := by
  obtain ⟨hs1, hl1⟩ := updateSource_step hmm floor X s hs hr.basis hr.activation
  obtain ⟨s2, h2, hs2, hl2⟩ := updateSpatial_step np hsp alg halg X hX _ hs1 hr.point hr.spatial
  obtain ⟨s3, h3, ha, hb, hc, hl3⟩ := C40_loss hsc floor X ht norm s2 hs2.1 hs2.2.1 hs2.2.2 (hr.norm s2 h2)
  refine ⟨s3, ?_, ⟨ha, hb, hc⟩, ?_⟩
  · rw [updateOnce, h2]
    exact h3
  · rw [hl3]
    exact hl2.trans hl1

/-- Any number of updates, for every class. -/
theorem ilrma_run [Nonempty (Fin K)] (np : Numpy ℂ) {src : Source} {q κ p : ℝ} {w : ℝ → ℝ → ℝ}
    (hmm : IsMM src q κ w) (hsc : ScaleInv src p) {ok : ℝ → Prop} {floor : ℝ → ℝ}
    (hsp : ∀ y r, 0 ≤ y → ok y → 0 < r → SpatialOk src floor y r) (alg : FilterAlg n) (halg : alg.Valid)
    (norm : Norm n) (X : Spec F n t) (ht : 0 < t) (hX : ∀ f, LinearIndependent ℂ (X f).row) (s : St F n t K)
    (hs : Inv s) (n_iter : ℕ)
    (hreg : RegularRun (updateOnce np src p alg norm floor X) (Reg np src p ok alg norm floor X) n_iter s) :
    ∃ ls, lossList (updateOnce np src p alg norm floor X) (fun s => .ok (loss src X s)) n_iter s = .ok ls ∧
      ls.length = n_iter + 1 ∧ ls.Pairwise (· ≥ ·) := by
  obtain ⟨ls, h1, h2, h3, -⟩ := lossList_antitone (updateOnce np src p alg norm floor X)
    (fun s => .ok (loss src X s)) Inv (Reg np src p ok alg norm floor X) (loss src X) (fun _ _ => rfl)
    (fun s hs hr => updateOnce_step np hmm hsc hsp alg halg norm X ht hX s hs hr) n_iter s hs hreg
  exact ⟨ls, h1, h2, h3⟩

/-- C38: `GaussILRMA` with `source_algorithm="MM"`, IP1 or IP2, any normalisation, every domain parameter: the recorded
losses never increase, for any number of iterations. -/
theorem C38_gauss_mm [Nonempty (Fin K)] (np : Numpy ℂ) {p : ℝ} (hp : 0 < p) (floor : ℝ → ℝ) (alg : FilterAlg n)
    (halg : alg.Valid) (norm : Norm n) (X : Spec F n t) (ht : 0 < t) (hX : ∀ f, LinearIndependent ℂ (X f).row)
    (s : St F n t K) (hs : Inv s) (n_iter : ℕ)
    (hreg : RegularRun (updateOnce np (gauss p) p alg norm floor X)
      (Reg np (gauss p) p (fun _ => True) alg norm floor X) n_iter s) :
    ∃ ls, lossList (updateOnce np (gauss p) p alg norm floor X) (fun s => .ok (loss (gauss p) X s)) n_iter s
      = .ok ls ∧ ls.length = n_iter + 1 ∧ ls.Pairwise (· ≥ ·) :=
  ilrma_run np (gauss_isMM hp) (gauss_scaleInv hp) (fun _ _ _ _ hr => gauss_spatialOk floor hr) alg halg norm X ht hX
    s hs n_iter hreg

/-- C38: the same with `source_algorithm="ME"`. -/
theorem C38_gauss_me [Nonempty (Fin K)] (np : Numpy ℂ) (floor : ℝ → ℝ) (alg : FilterAlg n)
    (halg : alg.Valid) (norm : Norm n) (X : Spec F n t) (ht : 0 < t) (hX : ∀ f, LinearIndependent ℂ (X f).row)
    (s : St F n t K) (hs : Inv s) (n_iter : ℕ)
    (hreg : RegularRun (updateOnce np gaussME 2 alg norm floor X)
      (Reg np gaussME 2 (fun _ => True) alg norm floor X) n_iter s) :
    ∃ ls, lossList (updateOnce np gaussME 2 alg norm floor X) (fun s => .ok (loss gaussME X s)) n_iter s
      = .ok ls ∧ ls.length = n_iter + 1 ∧ ls.Pairwise (· ≥ ·) :=
  ilrma_run np gaussME_isMM gaussME_scaleInv (fun _ _ _ _ hr => gaussME_spatialOk floor hr) alg halg norm X ht hX
    s hs n_iter hreg

/-- C39: `TILRMA` with `source_algorithm="MM"`, for every positive degree of freedom and domain parameter. -/
theorem C39_student_mm [Nonempty (Fin K)] (np : Numpy ℂ) {p nu : ℝ} (hp : 0 < p) (hnu : 0 < nu) (floor : ℝ → ℝ)
    (alg : FilterAlg n) (halg : alg.Valid) (norm : Norm n) (X : Spec F n t) (ht : 0 < t)
    (hX : ∀ f, LinearIndependent ℂ (X f).row) (s : St F n t K) (hs : Inv s) (n_iter : ℕ)
    (hreg : RegularRun (updateOnce np (student p nu) p alg norm floor X)
      (Reg np (student p nu) p (fun _ => True) alg norm floor X) n_iter s) :
    ∃ ls, lossList (updateOnce np (student p nu) p alg norm floor X) (fun s => .ok (loss (student p nu) X s)) n_iter s
      = .ok ls ∧ ls.length = n_iter + 1 ∧ ls.Pairwise (· ≥ ·) :=
  ilrma_run np (student_isMM hp hnu) (student_scaleInv hp) (fun _ _ _ _ hr => student_spatialOk hnu floor hr) alg halg
    norm X ht hX s hs n_iter hreg

/-- C39: `TILRMA` with `source_algorithm="ME"`. -/
theorem C39_student_me [Nonempty (Fin K)] (np : Numpy ℂ) {nu : ℝ} (hnu : 0 < nu) (floor : ℝ → ℝ)
    (alg : FilterAlg n) (halg : alg.Valid) (norm : Norm n) (X : Spec F n t) (ht : 0 < t)
    (hX : ∀ f, LinearIndependent ℂ (X f).row) (s : St F n t K) (hs : Inv s) (n_iter : ℕ)
    (hreg : RegularRun (updateOnce np (studentME nu) 2 alg norm floor X)
      (Reg np (studentME nu) 2 (fun _ => True) alg norm floor X) n_iter s) :
    ∃ ls, lossList (updateOnce np (studentME nu) 2 alg norm floor X) (fun s => .ok (loss (studentME nu) X s)) n_iter s
      = .ok ls ∧ ls.length = n_iter + 1 ∧ ls.Pairwise (· ≥ ·) :=
  ilrma_run np (studentME_isMM hnu) studentME_scaleInv (fun _ _ _ _ hr => studentME_spatialOk hnu floor hr) alg halg
    norm X ht hX s hs n_iter hreg

/-- C39: `GGDILRMA`, for every shape parameter in `(0, 2]` and every domain parameter; here the separated signals must
not vanish and flooring must not change the powers of their magnitudes. -/
theorem C39_ggd [Nonempty (Fin K)] (np : Numpy ℂ) {p beta : ℝ} (hp : 0 < p) (hb : 0 < beta) (hb2 : beta ≤ 2)
    (floor : ℝ → ℝ) (alg : FilterAlg n) (halg : alg.Valid) (norm : Norm n) (X : Spec F n t) (ht : 0 < t)
    (hX : ∀ f, LinearIndependent ℂ (X f).row) (s : St F n t K) (hs : Inv s) (n_iter : ℕ)
    (hreg : RegularRun (updateOnce np (ggd p beta) p alg norm floor X)
      (Reg np (ggd p beta) p (fun y => 0 < y ∧ floor (y ^ (2 - beta)) = y ^ (2 - beta)) alg norm floor X) n_iter s) :
    ∃ ls, lossList (updateOnce np (ggd p beta) p alg norm floor X) (fun s => .ok (loss (ggd p beta) X s)) n_iter s
      = .ok ls ∧ ls.length = n_iter + 1 ∧ ls.Pairwise (· ≥ ·) :=
  ilrma_run np (ggd_isMM hp hb) (ggd_scaleInv hp)
    (fun _ _ _ hok hr => ggd_spatialOk hb hb2 floor hr hok.1 hok.2) alg halg norm X ht hX s hs n_iter hreg

/-! ## ILRMA without a demixing filter (ISS1, ISS2) -/

/-- The state held when only the separated signals are kept. -/
def St.toY (X : Spec F n t) (s : St F n t K) : StY F n t K := ⟨separate X s.W, s.T, s.V⟩

theorem separate_divRows (X : Spec F n t) (ψ : Fin n → ℝ) (W : F → Mat n ℂ) :
    separate X (divRows ψ W) = divRows ψ (separate X W) := by
  funext f
  rw [separate, divRows_eq, divRows_eq, Matrix.mul_assoc]
  rfl

theorem separate_mulRows (X : Spec F n t) (c : F → Fin n → ℂ) (W : F → Mat n ℂ) :
    separate X (mulRows c W) = mulRows c (separate X W) := by
  funext f
  rw [separate, mulRows_eq, mulRows_eq, Matrix.mul_assoc]
  rfl

/-- `X Yᴴ (Y Yᴴ)⁻¹ = W⁻¹` when `Y = W X`. -/
theorem signal_scale (X : Spec F n t) (hX : ∀ f, LinearIndependent ℂ (X f).row) (W : F → Mat n ℂ)
    (hW : ∀ f, IsUnit (W f).det) (f : F) :
    IsUnit (separate X W f * (separate X W f)ᴴ).det ∧
      X f * (separate X W f)ᴴ * (separate X W f * (separate X W f)ᴴ)⁻¹ = (W f)⁻¹ := by
  have hG := gram_isUnit X hX f
  have e : separate X W f * (separate X W f)ᴴ = W f * (X f * (X f)ᴴ) * (W f)ᴴ := by
    rw [separate, conjTranspose_mul]
    simp only [Matrix.mul_assoc]
  have hWH : IsUnit ((W f)ᴴ).det := by
    rw [det_conjTranspose]
    exact (hW f).star
  have hu : IsUnit (separate X W f * (separate X W f)ᴴ).det := by
    rw [e, det_mul, det_mul]
    exact ((hW f).mul hG).mul hWH
  refine ⟨hu, ?_⟩
  have h1 : W f * (X f * (separate X W f)ᴴ * (separate X W f * (separate X W f)ᴴ)⁻¹) = 1 := by
    rw [← Matrix.mul_assoc, ← Matrix.mul_assoc]
    exact mul_nonsing_inv _ hu
  exact (inv_eq_right_inv h1).symm

/-- Normalising the signals is normalising the filter that produces them. -/
theorem normalizeY_toY (p : ℝ) (floor : ℝ → ℝ) (X : Spec F n t) (hX : ∀ f, LinearIndependent ℂ (X f).row)
    (norm : Norm n) (s : St F n t K) (hW : ∀ f, IsUnit (s.W f).det) :
    normalizeY p floor X norm (s.toY X) = (normalize p floor X norm s).map (St.toY X) := by
  cases norm with
  | off => rfl
  | power =>
    simp only [normalizeY, normalize, Except.map, St.toY, separate_divRows]
  | projectionBack r =>
    have h1 : ∀ f, IsUnit ((s.toY X).Y f * ((s.toY X).Y f)ᴴ).det := fun f => (signal_scale X hX s.W hW f).1
    have h2 : ∀ f, X f * ((s.toY X).Y f)ᴴ * ((s.toY X).Y f * ((s.toY X).Y f)ᴴ)⁻¹ = (s.W f)⁻¹ := fun f =>
      (signal_scale X hX s.W hW f).2
    simp only [normalizeY, normalize, npInvB, if_pos h1, if_pos hW, bind, Except.bind, Except.map, h2]
    simp only [St.toY, separate_mulRows]

/-- C40: normalisation of the separated signals leaves the loss unchanged. -/
theorem C40_loss_signal [Nonempty (Fin K)] {src : Source} {p : ℝ} (h : ScaleInv src p) (floor : ℝ → ℝ)
    (X : Spec F n t) (ht : 0 < t) (hX : ∀ f, LinearIndependent ℂ (X f).row) (norm : Norm n) (s : St F n t K)
    (hW : ∀ f, IsUnit (s.W f).det) (hT : ∀ k f b, 0 < s.T k f b) (hV : ∀ k b j, 0 < s.V k b j)
    (hreg : NormReg floor X norm s.W) :
    ∃ sY, normalizeY p floor X norm (s.toY X) = .ok sY ∧ lossY src X sY = lossY src X (s.toY X) := by
  obtain ⟨s', h1, -, -, -, h5⟩ := C40_loss h floor X ht norm s hW hT hV hreg
  refine ⟨s'.toY X, by rw [normalizeY_toY p floor X hX norm s hW, h1]; rfl, ?_⟩
  simp only [lossY, St.toY, filterOf_eq X hX, bind, Except.bind]
  exact congrArg _ h5

/-- Regularity of one update of the separated signals, as `Reg`. -/
structure RegY (np : Numpy ℂ) (src : Source) (ok : ℝ → Prop) (alg : SignalAlg n) (norm : Norm n)
    (floor : ℝ → ℝ) (X : Spec F n t) (s : StY F n t K) : Prop where
  basis : ∀ k f b, FloorMild floor (s.T k f b) (basisRaw src s.Y s.T s.V k f b)
  activation : ∀ k b j, FloorMild floor (s.V k b j)
    (activationRaw src s.Y (updateBasis src floor s.Y s.T s.V) s.V k b j)
  point : ∀ f k j, ok ‖s.Y f k j‖
  spatial : ∀ phi, phi = varphi src floor s.Y (recon (updateSourceY src floor s).T (updateSourceY src floor s).V) →
    spatialSignal np alg floor phi s.Y = spatialSignal np alg id phi s.Y
  norm : ∀ s' : StY F n t K, updateSpatialY np src alg floor (updateSourceY src floor s) = .ok s' →
    ∀ W, s'.Y = separate X W → NormReg floor X norm W

/-- The signals are the mixture seen through invertible filters; bases and activations are positive. -/
def InvY (X : Spec F n t) (sY : StY F n t K) : Prop := ∃ s : St F n t K, sY = s.toY X ∧ Inv s

theorem lossY_toY (src : Source) (X : Spec F n t) (hX : ∀ f, LinearIndependent ℂ (X f).row) (s : St F n t K) :
    lossY src X (s.toY X) = .ok (loss src X s) := by
  simp only [lossY, St.toY, filterOf_eq X hX, bind, Except.bind]
  rfl

theorem updateOnceY_step [Nonempty (Fin K)] (np : Numpy ℂ) {src : Source} {q κ p : ℝ} {w : ℝ → ℝ → ℝ}
    (hmm : IsMM src q κ w) (hsc : ScaleInv src p) {ok : ℝ → Prop} {floor : ℝ → ℝ}
    (hsp : ∀ y r, 0 ≤ y → ok y → 0 < r → SpatialOk src floor y r) (alg : SignalAlg n) (halg : alg.Valid)
    (norm : Norm n) (X : Spec F n t) (ht : 0 < t) (hX : ∀ f, LinearIndependent ℂ (X f).row) (s : St F n t K)
    (hs : Inv s) (hr : RegY np src ok alg norm floor X (s.toY X)) :
    ∃ s', updateOnceY np src p alg norm floor X (s.toY X) = .ok (s'.toY X) ∧ Inv s' ∧
      loss src X s' ≤ loss src X s := by
  obtain ⟨hs1, hl1⟩ := updateSource_step hmm floor X s hs hr.basis hr.activation
  have hR := recon_pos hs1.2.1 hs1.2.2
  have hok : ∀ f k j, SpatialOk src floor ‖separate X s.W f k j‖
      (recon (updateSource src floor X s).T (updateSource src floor X s).V k f j) := fun f k j =>
    hsp _ _ (norm_nonneg _) (hr.point f k j) (hR k f j)
  obtain ⟨W', h1, h2, h3⟩ := spatialSignal_weighted np alg halg
    (varphi src floor (separate X s.W) (recon (updateSource src floor X s).T (updateSource src floor X s).V))
    (fun f k j => (hok f k j).1) X hX s.W hs.1
  let s2 : St F n t K := ⟨W', (updateSource src floor X s).T, (updateSource src floor X s).V⟩
  have hl2 : loss src X s2 ≤ loss src X (updateSource src floor X s) := spatial_mm _ _ _ _ _ hok h3
  have e2 : updateSpatialY np src alg floor (updateSourceY src floor (s.toY X)) = .ok (s2.toY X) := by
    have := hr.spatial _ rfl
    have e : spatialSignal np alg floor (varphi src floor (separate X s.W)
        (recon (updateSource src floor X s).T (updateSource src floor X s).V)) (separate X s.W)
        = .ok (separate X W') := this.trans h1
    have e' : spatialSignal np alg floor (varphi src floor (updateSourceY src floor (s.toY X)).Y
        (recon (updateSourceY src floor (s.toY X)).T (updateSourceY src floor (s.toY X)).V))
        (updateSourceY src floor (s.toY X)).Y = .ok (separate X W') := e
    rw [updateSpatialY, e']
    rfl
  obtain ⟨s3, h4, ha, hb, hc, hl3⟩ := C40_loss hsc floor X ht norm s2 h2 hs1.2.1 hs1.2.2
    (hr.norm (s2.toY X) e2 W' rfl)
  refine ⟨s3, ?_, ⟨ha, hb, hc⟩, hl3.trans_le (hl2.trans hl1)⟩
  rw [updateOnceY, e2]
  change normalizeY p floor X norm (s2.toY X) = _
  rw [normalizeY_toY p floor X hX norm s2 h2, h4]
  rfl

theorem ilrma_run_signal [Nonempty (Fin K)] (np : Numpy ℂ) {src : Source} {q κ p : ℝ} {w : ℝ → ℝ → ℝ}
    (hmm : IsMM src q κ w) (hsc : ScaleInv src p) {ok : ℝ → Prop} {floor : ℝ → ℝ}
    (hsp : ∀ y r, 0 ≤ y → ok y → 0 < r → SpatialOk src floor y r) (alg : SignalAlg n) (halg : alg.Valid)
    (norm : Norm n) (X : Spec F n t) (ht : 0 < t) (hX : ∀ f, LinearIndependent ℂ (X f).row) (s : St F n t K)
    (hs : Inv s) (n_iter : ℕ)
    (hreg : RegularRun (updateOnceY np src p alg norm floor X) (RegY np src ok alg norm floor X) n_iter (s.toY X)) :
    ∃ ls, lossList (updateOnceY np src p alg norm floor X) (lossY src X) n_iter (s.toY X) = .ok ls ∧
      ls.length = n_iter + 1 ∧ ls.Pairwise (· ≥ ·) := by
  let val : StY F n t K → ℝ := fun s => match lossY src X s with | .ok l => l | .error _ => 0
  have hval : ∀ s : St F n t K, val (s.toY X) = loss src X s := fun s => by
    simp only [val, lossY_toY src X hX s]
  obtain ⟨ls, h1, h2, h3, -⟩ := lossList_antitone (updateOnceY np src p alg norm floor X) (lossY src X) (InvY X)
    (RegY np src ok alg norm floor X) val
    (by rintro _ ⟨s, rfl, -⟩; rw [hval, lossY_toY src X hX s])
    (by
      rintro _ ⟨s, rfl, hs⟩ hr
      obtain ⟨s', e1, e2, e3⟩ := updateOnceY_step np hmm hsc hsp alg halg norm X ht hX s hs hr
      exact ⟨_, e1, ⟨s', rfl, e2⟩, by rw [hval, hval]; exact e3⟩)
    n_iter (s.toY X) ⟨s, rfl, hs⟩ hreg
  exact ⟨ls, h1, h2, h3⟩

/-- C38: `GaussILRMA` with ISS1 or ISS2. -/
theorem C38_gauss_mm_iss [Nonempty (Fin K)] (np : Numpy ℂ) {p : ℝ} (hp : 0 < p) (floor : ℝ → ℝ) (alg : SignalAlg n)
    (halg : alg.Valid) (norm : Norm n) (X : Spec F n t) (ht : 0 < t) (hX : ∀ f, LinearIndependent ℂ (X f).row)
    (s : St F n t K) (hs : Inv s) (n_iter : ℕ)
    (hreg : RegularRun (updateOnceY np (gauss p) p alg norm floor X)
      (RegY np (gauss p) (fun _ => True) alg norm floor X) n_iter (s.toY X)) :
    ∃ ls, lossList (updateOnceY np (gauss p) p alg norm floor X) (lossY (gauss p) X) n_iter (s.toY X)
      = .ok ls ∧ ls.length = n_iter + 1 ∧ ls.Pairwise (· ≥ ·) :=
  ilrma_run_signal np (gauss_isMM hp) (gauss_scaleInv hp) (fun _ _ _ _ hr => gauss_spatialOk floor hr) alg halg norm X
    ht hX s hs n_iter hreg

/-- C39: `TILRMA` with ISS1 or ISS2. -/
theorem C39_student_mm_iss [Nonempty (Fin K)] (np : Numpy ℂ) {p nu : ℝ} (hp : 0 < p) (hnu : 0 < nu) (floor : ℝ → ℝ)
    (alg : SignalAlg n) (halg : alg.Valid) (norm : Norm n) (X : Spec F n t) (ht : 0 < t)
    (hX : ∀ f, LinearIndependent ℂ (X f).row) (s : St F n t K) (hs : Inv s) (n_iter : ℕ)
    (hreg : RegularRun (updateOnceY np (student p nu) p alg norm floor X)
      (RegY np (student p nu) (fun _ => True) alg norm floor X) n_iter (s.toY X)) :
    ∃ ls, lossList (updateOnceY np (student p nu) p alg norm floor X) (lossY (student p nu) X) n_iter (s.toY X)
      = .ok ls ∧ ls.length = n_iter + 1 ∧ ls.Pairwise (· ≥ ·) :=
  ilrma_run_signal np (student_isMM hp hnu) (student_scaleInv hp) (fun _ _ _ _ hr => student_spatialOk hnu floor hr) alg
    halg norm X ht hX s hs n_iter hreg

/-- C39: `GGDILRMA` with ISS1 or ISS2. -/
theorem C39_ggd_iss [Nonempty (Fin K)] (np : Numpy ℂ) {p beta : ℝ} (hp : 0 < p) (hb : 0 < beta) (hb2 : beta ≤ 2)
    (floor : ℝ → ℝ) (alg : SignalAlg n) (halg : alg.Valid) (norm : Norm n) (X : Spec F n t) (ht : 0 < t)
    (hX : ∀ f, LinearIndependent ℂ (X f).row) (s : St F n t K) (hs : Inv s) (n_iter : ℕ)
    (hreg : RegularRun (updateOnceY np (ggd p beta) p alg norm floor X)
      (RegY np (ggd p beta) (fun y => 0 < y ∧ floor (y ^ (2 - beta)) = y ^ (2 - beta)) alg norm floor X)
      n_iter (s.toY X)) :
    ∃ ls, lossList (updateOnceY np (ggd p beta) p alg norm floor X) (lossY (ggd p beta) X) n_iter (s.toY X)
      = .ok ls ∧ ls.length = n_iter + 1 ∧ ls.Pairwise (· ≥ ·) :=
  ilrma_run_signal np (ggd_isMM hp hb) (ggd_scaleInv hp)
    (fun _ _ _ hok hr => ggd_spatialOk hb hb2 floor hr hok.1 hok.2) alg halg norm X ht hX s hs n_iter hreg

end Verif.Ilrma
