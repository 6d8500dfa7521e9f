import Verif.Props.IlrmaNorm
import Verif.Props.StationaryIlrma
import Verif.Props.StationaryIpa

/-! # C68: `GaussILRMA` with iterative projection with adjustment -/

set_option linter.unusedSectionVars false

namespace Verif.Ilrma

open Matrix Spatial Scale Mult Iva
open scoped Topology

variable {F : Type} [Fintype F] {n t K : ℕ}

/-- The weights of the spatial update that follows the source update. -/
noncomputable abbrev nextWeights (src : Source) (floor : ℝ → ℝ) (s : StY F n t K) : F → Fin n → Fin t → ℝ :=
  varphi src floor s.Y (recon (updateSourceY src floor s).T (updateSourceY src floor s).V)

/-- Regularity of one update with IPA: the floored source parameters are mild, the steps of IPA satisfy `Step`, and the
scales of the normalisation are not zero. -/
structure RegIpa (np : Numpy ℂ) (src : Source) (newton_iter : ℕ) (norm : Norm (n + 2)) (floor : ℝ → ℝ)
    (Step : (F → Fin (n + 2) → Fin t → ℝ) → Spec F (n + 2) t → Fin (n + 2) → Prop) (X : Spec F (n + 2) t)
    (s : StY F (n + 2) t K) : Prop where
  basis : ∀ k f b, FloorMild floor (s.T k f b) (basisRaw src s.Y s.T s.V k f b)
  activation : ∀ k b j, FloorMild floor (s.V k b j)
    (activationRaw src s.Y (updateBasis src floor s.Y s.T s.V) s.V k b j)
  spatial : RegularFold (ipaStep np floor true newton_iter (nextWeights src floor s)) (Step (nextWeights src floor s))
    (List.finRange (n + 2)) s.Y
  norm : ∀ s' : StY F (n + 2) t K, updateSpatialIpa np src true newton_iter floor (updateSourceY src floor s) = .ok s' →
    ∀ W, s'.Y = separate X W → NormReg floor X norm W

/-- Sweeps whose steps satisfy `Step` do not increase the weighted power minus twice the log-determinant. -/
def GoodSweep (np : Numpy ℂ) (newton_iter : ℕ) (floor : ℝ → ℝ)
    (Step : (F → Fin (n + 2) → Fin t → ℝ) → Spec F (n + 2) t → Fin (n + 2) → Prop) : Prop :=
  ∀ (phi : F → Fin (n + 2) → Fin t → ℝ) (Y : Spec F (n + 2) t), (∀ f k s, 0 < phi f k s) →
    (∀ f, LinearIndependent ℂ (Y f).row) →
    RegularFold (ipaStep np floor true newton_iter phi) (Step phi) (List.finRange (n + 2)) Y →
    ∃ T : F → Mat (n + 2) ℂ, ipa np floor true newton_iter phi Y = .ok (fun f => T f * Y f) ∧
      ∀ f, IsUnit (T f).det ∧
        power (phi f) (T f * Y f) - 2 * Real.log ‖(T f).det‖ ≤ power (phi f) (Y f)

theorem updateOnceIpa_step [Nonempty (Fin K)] (np : Numpy ℂ) {src : Source} {q κ p : ℝ} {w : ℝ → ℝ → ℝ}
    (hmm : IsMM src q κ w) (hsc : ScaleInv src p) {floor : ℝ → ℝ}
    (hsp : ∀ y r, 0 < r → SpatialOk src floor y r) {newton_iter : ℕ}
    {Step : (F → Fin (n + 2) → Fin t → ℝ) → Spec F (n + 2) t → Fin (n + 2) → Prop}
    (hstep : GoodSweep np newton_iter floor Step)
    (norm : Norm (n + 2)) (X : Spec F (n + 2) t) (ht : 0 < t) (hX : ∀ f, LinearIndependent ℂ (X f).row)
    (s : St F (n + 2) t K) (hs : Inv s) (hr : RegIpa np src newton_iter norm floor Step X (s.toY X)) :
    ∃ s', updateOnceIpa np src p true newton_iter norm floor X (s.toY X) = .ok (s'.toY X) ∧ Inv s' ∧
      loss src X s' ≤ loss src X s := by
  obtain ⟨hs1, hl1⟩ := updateSource_step hmm floor X s hs hr.basis hr.activation
  have hR := recon_pos hs1.2.1 hs1.2.2
  have hok : ∀ f k j, SpatialOk src floor ‖separate X s.W f k j‖
      (recon (updateSource src floor X s).T (updateSource src floor X s).V k f j) := fun f k j =>
    hsp _ _ (hR k f j)
  obtain ⟨T, h1, h2⟩ := hstep (nextWeights src floor (s.toY X)) (separate X s.W) (fun f k j => (hok f k j).1)
    (fun f => row_independent (hs.1 f) (hX f)) hr.spatial
  have hsep : (fun f => T f * separate X s.W f) = separate X fun f => T f * s.W f := by
    funext f
    simp only [separate, Matrix.mul_assoc]
  let s2 : St F (n + 2) t K := ⟨fun f => T f * s.W f, (updateSource src floor X s).T, (updateSource src floor X s).V⟩
  have hdet : ∀ f, IsUnit (s2.W f).det := fun f => by
    change IsUnit (T f * s.W f).det
    rw [det_mul]
    exact (h2 f).1.mul (hs.1 f)
  have hl2 : loss src X s2 ≤ loss src X (updateSource src floor X s) := by
    refine spatial_mm _ _ _ _ _ hok fun f => ?_
    have e := (h2 f).2
    have e1 : Real.log ‖(s2.W f).det‖ = Real.log ‖(T f).det‖ + Real.log ‖(s.W f).det‖ := by
      change Real.log ‖(T f * s.W f).det‖ = _
      rw [det_mul, norm_mul, Real.log_mul (norm_ne_zero_iff.2 (h2 f).1.ne_zero)
        (norm_ne_zero_iff.2 (hs.1 f).ne_zero)]
    have e2 : separate X s2.W f = T f * separate X s.W f := (congrFun hsep f).symm
    rw [e1, e2]
    change _ ≤ power (nextWeights src floor (s.toY X) f) (separate X s.W f) - 2 * Real.log ‖(s.W f).det‖
    change power (nextWeights src floor (s.toY X) f) (T f * separate X s.W f) - _ ≤ _
    linarith
  have e2 : updateSpatialIpa np src true newton_iter floor (updateSourceY src floor (s.toY X)) = .ok (s2.toY X) := by
    have e : ipa np floor true newton_iter (varphi src floor (updateSourceY src floor (s.toY X)).Y
        (recon (updateSourceY src floor (s.toY X)).T (updateSourceY src floor (s.toY X)).V))
        (updateSourceY src floor (s.toY X)).Y = .ok (separate X s2.W) := by
      rw [← hsep]
      exact h1
    rw [updateSpatialIpa, e]
    rfl
  obtain ⟨s3, h4, ha, hb, hc, hl3⟩ := C40_loss hsc floor X ht norm s2 hdet hs1.2.1 hs1.2.2
    (hr.norm (s2.toY X) e2 s2.W rfl)
  refine ⟨s3, ?_, ⟨ha, hb, hc⟩, hl3.trans_le (hl2.trans hl1)⟩
  rw [updateOnceIpa, e2]
  change normalizeY p floor X norm (s2.toY X) = _
  rw [normalizeY_toY p floor X hX norm s2 hdet, h4]
  rfl

theorem ilrma_run_ipa [Nonempty (Fin K)] (np : Numpy ℂ) {src : Source} {q κ p : ℝ} {w : ℝ → ℝ → ℝ}
    (hmm : IsMM src q κ w) (hsc : ScaleInv src p) {floor : ℝ → ℝ}
    (hsp : ∀ y r, 0 < r → SpatialOk src floor y r) {newton_iter : ℕ}
    {Step : (F → Fin (n + 2) → Fin t → ℝ) → Spec F (n + 2) t → Fin (n + 2) → Prop}
    (hstep : GoodSweep np newton_iter floor Step)
    (norm : Norm (n + 2)) (X : Spec F (n + 2) t) (ht : 0 < t) (hX : ∀ f, LinearIndependent ℂ (X f).row)
    (s : St F (n + 2) t K) (hs : Inv s) (n_iter : ℕ)
    (hreg : RegularRun (updateOnceIpa np src p true newton_iter norm floor X)
      (RegIpa np src newton_iter norm floor Step X) n_iter (s.toY X)) :
    ∃ ls, lossList (updateOnceIpa np src p true newton_iter norm floor X) (lossY src X) n_iter (s.toY X) = .ok ls ∧
      ls.length = n_iter + 1 ∧ ls.Pairwise (· ≥ ·) := by
  let val : StY F (n + 2) t K → ℝ := fun s => match lossY src X s with | .ok l => l | .error _ => 0
  have hval : ∀ s : St F (n + 2) t K, val (s.toY X) = loss src X s := fun s => by
    simp only [val, lossY_toY src X hX s]
  obtain ⟨ls, h1, h2, h3, -⟩ := lossList_antitone (updateOnceIpa np src p true newton_iter norm floor X) (lossY src X)
    (InvY X) (RegIpa np src newton_iter norm floor Step X) val
    (by rintro _ ⟨s, rfl, -⟩; rw [hval, lossY_toY src X hX s])
    (by
      rintro _ ⟨s, rfl, hs⟩ hr
      obtain ⟨s', e1, e2, e3⟩ := updateOnceIpa_step np hmm hsc hsp hstep norm X ht hX s hs hr
      exact ⟨_, e1, ⟨s', rfl, e2⟩, by rw [hval, hval]; exact e3⟩)
    n_iter (s.toY X) ⟨s, rfl, hs⟩ hreg
  exact ⟨ls, h1, h2, h3⟩

theorem goodSweep_safe (np : Numpy ℂ) {newton_iter : ℕ} (hm : 0 < newton_iter) (floor : ℝ → ℝ) :
    GoodSweep (F := F) (n := n) (t := t) np newton_iter floor (StepSafe np floor newton_iter) :=
  fun _ _ hphi hY h => C68_sweep np floor hm hphi hY h

theorem goodSweep_two (np : Numpy ℂ) {newton_iter : ℕ} (hm : 0 < newton_iter) (floor : ℝ → ℝ) :
    GoodSweep (F := F) (n := 0) (t := t) np newton_iter floor (StepRegular np floor) :=
  fun _ _ hphi hY h => C68_two_sources_sweep np floor hm hphi hY h

/-- C68 for `GaussILRMA` with IPA and `source_algorithm="MM"`, any number of sources, as long as the root findings give no
warning and flooring is mild in the source model and inactive in IPA. -/
theorem C68_gauss_ilrma [Nonempty (Fin K)] (np : Numpy ℂ) {p : ℝ} (hp : 0 < p) (floor : ℝ → ℝ) {newton_iter : ℕ}
    (hm : 0 < newton_iter) (norm : Norm (n + 2)) (X : Spec F (n + 2) t) (ht : 0 < t)
    (hX : ∀ f, LinearIndependent ℂ (X f).row) (s : St F (n + 2) t K) (hs : Inv s) (n_iter : ℕ)
    (hreg : RegularRun (updateOnceIpa np (gauss p) p true newton_iter norm floor X)
      (RegIpa np (gauss p) newton_iter norm floor (StepSafe np floor newton_iter) X) n_iter (s.toY X)) :
    ∃ ls, lossList (updateOnceIpa np (gauss p) p true newton_iter norm floor X) (lossY (gauss p) X) n_iter (s.toY X)
      = .ok ls ∧ ls.length = n_iter + 1 ∧ ls.Pairwise (· ≥ ·) :=
  ilrma_run_ipa np (gauss_isMM hp) (gauss_scaleInv hp) (fun _ _ hr => gauss_spatialOk floor hr)
    (goodSweep_safe np hm floor) norm X ht hX s hs n_iter hreg

/-- C68 for `GaussILRMA` with IPA and `source_algorithm="ME"`. -/
theorem C68_gauss_me_ilrma [Nonempty (Fin K)] (np : Numpy ℂ) (floor : ℝ → ℝ) {newton_iter : ℕ}
    (hm : 0 < newton_iter) (norm : Norm (n + 2)) (X : Spec F (n + 2) t) (ht : 0 < t)
    (hX : ∀ f, LinearIndependent ℂ (X f).row) (s : St F (n + 2) t K) (hs : Inv s) (n_iter : ℕ)
    (hreg : RegularRun (updateOnceIpa np gaussME 2 true newton_iter norm floor X)
      (RegIpa np gaussME newton_iter norm floor (StepSafe np floor newton_iter) X) n_iter (s.toY X)) :
    ∃ ls, lossList (updateOnceIpa np gaussME 2 true newton_iter norm floor X) (lossY gaussME X) n_iter (s.toY X)
      = .ok ls ∧ ls.length = n_iter + 1 ∧ ls.Pairwise (· ≥ ·) :=
  ilrma_run_ipa np gaussME_isMM gaussME_scaleInv (fun _ _ hr => gaussME_spatialOk floor hr)
    (goodSweep_safe np hm floor) norm X ht hX s hs n_iter hreg

/-! ### Two sources -/

/-- The flooring is inactive in the iteration that starts at `s`. -/
structure RegExactIpa (np : Numpy ℂ) (src : Source) (newton_iter : ℕ) (norm : Norm 2) (floor : ℝ → ℝ)
    (X : Spec F 2 t) (s : StY F 2 t K) : Prop where
  basis : ∀ k f b, Exact floor (basisRaw src s.Y s.T s.V k f b)
  activation : ∀ k b j, Exact floor (activationRaw src s.Y (updateBasis src floor s.Y s.T s.V) s.V k b j)
  spatial : RegularFold (ipaStep (n := 0) np floor true newton_iter (nextWeights src floor s))
    (StepRegular np floor (nextWeights src floor s)) (List.finRange 2) s.Y
  norm : ∀ s' : StY F 2 t K, updateSpatialIpa (n := 0) np src true newton_iter floor (updateSourceY src floor s)
      = .ok s' → ∀ W, s'.Y = separate X W → NormReg floor X norm W

theorem RegExactIpa.mild {np : Numpy ℂ} {src : Source} {newton_iter : ℕ} {norm : Norm 2} {floor : ℝ → ℝ}
    {X : Spec F 2 t} {s : StY F 2 t K} (h : RegExactIpa np src newton_iter norm floor X s) :
    RegIpa (n := 0) np src newton_iter norm floor (StepRegular np floor) X s :=
  ⟨fun k f b => (h.basis k f b).mild _, fun k b j => (h.activation k b j).mild _, h.spatial, h.norm⟩

/-- C63 for `GaussILRMA` with IPA and two sources: the loss becomes strictly smaller, or all directional derivatives of the
loss with respect to the bases, the activations and the filters vanish. -/
theorem C63_ipa_two [Nonempty (Fin K)] (np : Numpy ℂ) {src : Source} {p : ℝ} {floor : ℝ → ℝ}
    (hsm : Smooth src p floor fun _ => True) {newton_iter : ℕ} (hm : 0 < newton_iter) (norm : Norm 2)
    (X : Spec F 2 t) (ht : 0 < t) (hX : ∀ f, LinearIndependent ℂ (X f).row) (s : St F 2 t K) (hs : Inv s)
    (hr : RegExactIpa np src newton_iter norm floor X (s.toY X)) :
    ∃ s', updateOnceIpa (n := 0) np src p true newton_iter norm floor X (s.toY X) = .ok (s'.toY X) ∧ Inv s' ∧
      (loss src X s' < loss src X s ∨ StationaryState src X s) := by
  obtain ⟨hs1, hlt1, hfix1⟩ := source_strict hsm X ht s hs (fun _ _ _ => trivial) hr.basis hr.activation
  obtain ⟨s1, hs1d⟩ : ∃ s1, s1 = updateSource src floor X s := ⟨_, rfl⟩
  have hW1 : s1.W = s.W := by rw [hs1d]; rfl
  have hY1 : updateSourceY src floor (s.toY X) = s1.toY X := by rw [hs1d]; rfl
  have hsp := hr.spatial
  have hnorm := hr.norm
  rw [hY1] at hnorm
  rw [← hs1d] at hs1 hlt1 hfix1
  have hsp : RegularFold (ipaStep (n := 0) np floor true newton_iter
        (varphi src floor (separate X s1.W) (recon s1.T s1.V)))
      (StepRegular np floor (varphi src floor (separate X s1.W) (recon s1.T s1.V))) (List.finRange 2)
      (separate X s1.W) := by
    rw [hW1, hs1d]
    exact hsp
  have hR := recon_pos hs1.2.1 hs1.2.2
  have hokk : ∀ f k j, SpatialOk src floor ‖separate X s1.W f k j‖ (recon s1.T s1.V k f j) := fun f k j =>
    hsm.spatial _ _ (norm_nonneg _) trivial (hR k f j)
  obtain ⟨phi, hphi⟩ : ∃ phi, phi = varphi src floor (separate X s1.W) (recon s1.T s1.V) := ⟨_, rfl⟩
  have hpos : ∀ f k j, 0 < phi f k j := fun f k j => by rw [hphi]; exact (hokk f k j).1
  rw [← hphi] at hsp
  obtain ⟨T, h1, h2⟩ := ipa_strict np floor hm hpos (fun f => row_independent (hs1.1 f) (hX f)) hsp
  have hsep : (fun f => T f * separate X s1.W f) = separate X fun f => T f * s1.W f := by
    funext f
    simp only [separate, Matrix.mul_assoc]
  obtain ⟨s2, hs2⟩ : ∃ s2 : St F 2 t K, s2 = ⟨fun f => T f * s1.W f, s1.T, s1.V⟩ := ⟨_, rfl⟩
  have hdet2 : ∀ f, IsUnit (s2.W f).det := fun f => by
    rw [hs2]
    change IsUnit (T f * s1.W f).det
    rw [det_mul]
    exact (h2 f).1.mul (hs1.1 f)
  have hup : updateSpatialIpa (n := 0) np src true newton_iter floor (s1.toY X) = .ok (s2.toY X) := by
    have e : ipa (n := 0) np floor true newton_iter (varphi src floor (s1.toY X).Y (recon (s1.toY X).T (s1.toY X).V))
        (s1.toY X).Y = .ok (separate X s2.W) := by
      rw [hs2]
      change ipa (n := 0) np floor true newton_iter (varphi src floor (separate X s1.W) (recon s1.T s1.V))
        (separate X s1.W) = .ok (separate X fun f => T f * s1.W f)
      rw [← hsep, ← hphi]
      exact h1
    rw [updateSpatialIpa, e, hs2]
    rfl
  have hgap := spatial_gap (separate X s1.W) (separate X s2.W) (recon s1.T s1.V) s1.W s2.W hokk
  rw [← hphi] at hgap
  have hbin : ∀ f, power (phi f) (separate X s2.W f) - 2 * Real.log ‖(s2.W f).det‖ =
      power (phi f) (T f * separate X s1.W f) - 2 * Real.log ‖(T f).det‖ - 2 * Real.log ‖(s1.W f).det‖ := fun f => by
    rw [hs2]
    have e1 : Real.log ‖(T f * s1.W f).det‖ = Real.log ‖(T f).det‖ + Real.log ‖(s1.W f).det‖ := by
      rw [det_mul, norm_mul, Real.log_mul (norm_ne_zero_iff.2 (h2 f).1.ne_zero)
        (norm_ne_zero_iff.2 (hs1.1 f).ne_zero)]
    have e2 : separate X (fun f => T f * s1.W f) f = T f * separate X s1.W f := (congrFun hsep f).symm
    simp only [e1, e2]
    ring
  have hle : ∀ f, power (phi f) (separate X s2.W f) - 2 * Real.log ‖(s2.W f).det‖ ≤
      power (phi f) (separate X s1.W f) - 2 * Real.log ‖(s1.W f).det‖ := fun f => by
    rw [hbin]
    exact sub_le_sub_right (h2 f).2.1 _
  have hl2 : loss src X s2 ≤ loss src X s1 := by
    have : loss src X s2 = lossOf src (separate X s2.W) (recon s1.T s1.V) s2.W := by rw [hs2]; rfl
    rw [this, loss]
    have := Finset.sum_le_sum fun f (_ : f ∈ Finset.univ) => hle f
    linarith
  have hlt2 : loss src X s2 < loss src X s1 ∨ StationaryFilter src X s1 := by
    by_cases hall : ∀ f, Balanced (phi f) (separate X s1.W f)
    · right
      rw [StationaryFilter, loss_eq_grad]
      refine (Grad.stationary_iff_balanced phi X s1.W hs1.1 ?_).2 hall
      rw [hphi]
      exact isScoreAt hsm.deriv _ hR _ fun _ _ _ => trivial
    · left
      push Not at hall
      obtain ⟨f, hf⟩ := hall
      have : loss src X s2 = lossOf src (separate X s2.W) (recon s1.T s1.V) s2.W := by rw [hs2]; rfl
      rw [this, loss]
      have := Finset.sum_lt_sum (fun f (_ : f ∈ Finset.univ) => hle f) ⟨f, Finset.mem_univ f, by
        rw [hbin]
        exact sub_lt_sub_right ((h2 f).2.2.resolve_right hf) _⟩
      linarith
  obtain ⟨s3, h5, ha, hb, hc, hl3⟩ := C40_loss hsm.scale floor X ht norm s2 hdet2
    (by rw [hs2]; exact hs1.2.1) (by rw [hs2]; exact hs1.2.2) (hnorm _ hup s2.W rfl)
  refine ⟨s3, ?_, ⟨ha, hb, hc⟩, ?_⟩
  · rw [updateOnceIpa, hY1, hup]
    change normalizeY p floor X norm (s2.toY X) = _
    rw [normalizeY_toY p floor X hX norm s2 hdet2, h5]
    rfl
  · rw [hl3]
    by_cases e1 : s1 = s
    · have k0 := hfix1.mp e1
      rw [e1] at hlt2
      exact hlt2.imp id fun h => ⟨k0.1, k0.2, h⟩
    · exact .inl (hl2.trans_lt (hlt1.resolve_right e1))

/-- The normalisations that need no further condition: none, and `"power"` (the default). -/
def Norm.Plain : Norm n → Prop
  | .off => True
  | .power => True
  | .projectionBack _ => False

theorem exists_bin {Y : Spec F n t} {k : Fin n} {j : Fin t} (h : 0 < binNorm Y k j) : ∃ f, Y f k j ≠ 0 := by
  by_contra hc
  push Not at hc
  have : binNorm Y k j = 0 := by simp [binNorm, hc]
  exact h.ne' this

theorem floor_eventually {I : Type} [Finite I] {x : I → ℝ} (hx : ∀ i, 0 < x i) :
    ∀ᶠ eps in 𝓝[>] (0 : ℝ), ∀ i, Special.max_flooring eps (x i) = x i := by
  rw [Filter.eventually_all]
  intro i
  filter_upwards [floor_small (hx i)] with eps h
  exact max_eq_left h

theorem gauss_num_pos {p y r : ℝ} (hy : 0 < y) (hr : 0 < r) : 0 < (gauss p).num y r :=
  div_pos (pow_pos hy 2) (Real.rpow_pos_of_pos hr _)

theorem gauss_num_nonneg {p y r : ℝ} (hr : 0 < r) : 0 ≤ (gauss p).num y r :=
  div_nonneg (sq_nonneg y) (Real.rpow_nonneg hr.le _)

theorem gauss_basis_pos [Nonempty (Fin K)] {p : ℝ} {Y : Spec F n t} (hY : ∀ f, LinearIndependent ℂ (Y f).row)
    {T : Fin n → F → Fin K → ℝ} {V : Fin n → Fin K → Fin t → ℝ} (hT : ∀ k f b, 0 < T k f b)
    (hV : ∀ k b j, 0 < V k b j) (k : Fin n) (f : F) (b : Fin K) : 0 < basisRaw (gauss p) Y T V k f b := by
  obtain ⟨j, hj⟩ := row_ne_zero (hY f) k
  have hR := recon_pos hT hV
  refine mul_pos (Real.rpow_pos_of_pos (div_pos ?_ ?_) _) (hT k f b)
  · exact Finset.sum_pos' (fun j _ => mul_nonneg (hV k b j).le (gauss_num_nonneg (hR k f j)))
      ⟨j, Finset.mem_univ j, mul_pos (hV k b j) (gauss_num_pos (norm_pos_iff.2 hj) (hR k f j))⟩
  · exact Finset.sum_pos (fun j _ => div_pos (hV k b j) (hR k f j)) ⟨j, Finset.mem_univ j⟩

theorem gauss_activation_pos [Nonempty (Fin K)] {p : ℝ} {Y : Spec F n t} (h0 : ∀ k j, 0 < binNorm Y k j)
    {T : Fin n → F → Fin K → ℝ} {V : Fin n → Fin K → Fin t → ℝ} (hT : ∀ k f b, 0 < T k f b)
    (hV : ∀ k b j, 0 < V k b j) (k : Fin n) (b : Fin K) (j : Fin t) : 0 < activationRaw (gauss p) Y T V k b j := by
  obtain ⟨f, hf⟩ := exists_bin (h0 k j)
  have hR := recon_pos hT hV
  refine mul_pos (Real.rpow_pos_of_pos (div_pos ?_ ?_) _) (hV k b j)
  · exact Finset.sum_pos' (fun f _ => mul_nonneg (hT k f b).le (gauss_num_nonneg (hR k f j)))
      ⟨f, Finset.mem_univ f, mul_pos (hT k f b) (gauss_num_pos (norm_pos_iff.2 hf) (hR k f j))⟩
  · exact Finset.sum_pos (fun f _ => div_pos (hT k f b) (hR k f j)) ⟨f, Finset.mem_univ f⟩

/-- Every small floor is inactive in an iteration for two sources, and the result does not depend on it. -/
theorem updateOnceIpa_small [Nonempty (Fin K)] (np : Numpy ℂ) {p : ℝ} (hp : 0 < p) {newton_iter : ℕ}
    (hm : 0 < newton_iter) {norm : Norm 2} (hn : norm.Plain) (X : Spec F 2 t) (ht : 0 < t)
    (hX : ∀ f, LinearIndependent ℂ (X f).row) (s : St F 2 t K) (hs : Inv s)
    (h0 : ∀ k j, 0 < binNorm (separate X s.W) k j) :
    ∃ s' : St F 2 t K, Inv s' ∧ ∀ᶠ eps in 𝓝[>] (0 : ℝ),
      RegExactIpa np (gauss p) newton_iter norm (Special.max_flooring eps) X (s.toY X) ∧
      updateOnceIpa (n := 0) np (gauss p) p true newton_iter norm (Special.max_flooring eps) X (s.toY X)
        = .ok (s'.toY X) := by
  obtain ⟨Y, hYd⟩ : ∃ Y, Y = separate X s.W := ⟨_, rfl⟩
  have hY : ∀ f, LinearIndependent ℂ (Y f).row := fun f => by rw [hYd]; exact row_independent (hs.1 f) (hX f)
  have hF : Nonempty F := by
    obtain ⟨f, -⟩ := exists_bin (h0 0 ⟨0, ht⟩)
    exact ⟨f⟩
  rw [← hYd] at h0
  obtain ⟨T, hT⟩ : ∃ T, T = basisRaw (gauss p) Y s.T s.V := ⟨_, rfl⟩
  have hTp : ∀ k f b, 0 < T k f b := by rw [hT]; exact gauss_basis_pos hY hs.2.1 hs.2.2
  obtain ⟨V, hV⟩ : ∃ V, V = activationRaw (gauss p) Y T s.V := ⟨_, rfl⟩
  have hVp : ∀ k b j, 0 < V k b j := by rw [hV]; exact gauss_activation_pos h0 hTp hs.2.2
  obtain ⟨phi, hphi⟩ : ∃ phi, phi = varphi (gauss p) id Y (recon T V) := ⟨_, rfl⟩
  have hpos : ∀ f k j, 0 < phi f k j := fun f k j => by
    rw [hphi]
    exact (gauss_spatialOk (y := ‖Y f k j‖) id (recon_pos hTp hVp k f j)).1
  obtain ⟨Y', hY', hsw⟩ := sweep_small np hm hpos (List.finRange 2) Y hY
  have e1 : ∀ᶠ eps in 𝓝[>] (0 : ℝ), ∀ i : Fin 2 × F × Fin K,
      Special.max_flooring eps (T i.1 i.2.1 i.2.2) = T i.1 i.2.1 i.2.2 := floor_eventually fun i => hTp _ _ _
  have e2 : ∀ᶠ eps in 𝓝[>] (0 : ℝ), ∀ i : Fin 2 × Fin K × Fin t,
      Special.max_flooring eps (V i.1 i.2.1 i.2.2) = V i.1 i.2.1 i.2.2 := floor_eventually fun i => hVp _ _ _
  have e3 : ∀ᶠ eps in 𝓝[>] (0 : ℝ), ∀ k, Special.max_flooring eps (psi id Y' k) = psi id Y' k :=
    floor_eventually fun k => psi_pos hY' k
  have e0 : ∀ᶠ eps in 𝓝[>] (0 : ℝ), 0 < eps := eventually_mem_nhdsWithin
  have key : ∀ᶠ eps in 𝓝[>] (0 : ℝ),
      RegExactIpa np (gauss p) newton_iter norm (Special.max_flooring eps) X (s.toY X) ∧
      updateOnceIpa (n := 0) np (gauss p) p true newton_iter norm (Special.max_flooring eps) X (s.toY X)
        = normalizeY p id X norm ⟨Y', T, V⟩ := by
    filter_upwards [e0, e1, e2, e3, hsw] with eps h0 h1 h2 h3 h4
    have hsY : (s.toY X).Y = Y := by rw [hYd]; rfl
    have hb : updateBasis (gauss p) (Special.max_flooring eps) Y s.T s.V = T := by
      funext k f b
      have := h1 (k, f, b)
      rw [hT] at this ⊢
      exact this
    have ha : updateActivation (gauss p) (Special.max_flooring eps) Y T s.V = V := by
      funext k b j
      have := h2 (k, b, j)
      rw [hV] at this ⊢
      exact this
    have hsrc : updateSourceY (gauss p) (Special.max_flooring eps) (s.toY X) = ⟨Y, T, V⟩ := by
      change (⟨(s.toY X).Y, updateBasis (gauss p) (Special.max_flooring eps) (s.toY X).Y s.T s.V, _⟩ : StY F 2 t K) = _
      rw [hsY, hb]
      change (⟨Y, T, updateActivation (gauss p) (Special.max_flooring eps) Y
        (updateBasis (gauss p) (Special.max_flooring eps) Y s.T s.V) s.V⟩ : StY F 2 t K) = _
      rw [hb, ha]
    have hw : varphi (gauss p) (Special.max_flooring eps) Y (recon T V) = phi := by rw [hphi]; rfl
    have hup : updateSpatialIpa (n := 0) np (gauss p) true newton_iter (Special.max_flooring eps) ⟨Y, T, V⟩
        = .ok ⟨Y', T, V⟩ := by
      rw [updateSpatialIpa]
      dsimp only
      rw [hw, ipa, h4.2]
      rfl
    have hnY : normalizeY p (Special.max_flooring eps) X norm ⟨Y', T, V⟩ = normalizeY p id X norm ⟨Y', T, V⟩ := by
      cases norm with
      | off => rfl
      | projectionBack r => exact absurd hn (by simp [Norm.Plain])
      | power =>
        have : psi (Special.max_flooring eps) Y' = psi id Y' := funext h3
        simp only [normalizeY, this]
    refine ⟨⟨fun k f b => ?_, fun k b j => ?_, ?_, fun s' _ W _ => ?_⟩, ?_⟩
    · have := h1 (k, f, b)
      rw [hsY]
      have e : basisRaw (gauss p) Y (s.toY X).T (s.toY X).V k f b = T k f b := by rw [hT]; rfl
      rw [e]
      exact ⟨hTp _ _ _, this⟩
    · have := h2 (k, b, j)
      rw [hsY]
      have e : activationRaw (gauss p) Y (updateBasis (gauss p) (Special.max_flooring eps) Y (s.toY X).T (s.toY X).V)
          (s.toY X).V k b j = V k b j := by
        change activationRaw (gauss p) Y (updateBasis (gauss p) (Special.max_flooring eps) Y s.T s.V) s.V k b j = _
        rw [hb, hV]
      rw [e]
      exact ⟨hVp _ _ _, this⟩
    · rw [nextWeights, hsrc, hsY]
      dsimp only
      rw [hw]
      exact h4.1
    · cases norm with
      | off => trivial
      | projectionBack r => exact absurd hn (by simp [Norm.Plain])
      | power => exact fun k => lt_of_lt_of_le h0 (le_max_right _ _)
    · rw [updateOnceIpa, hsrc, hup]
      exact hnY
  obtain ⟨eps, h1, h2⟩ := key.exists
  obtain ⟨s', h3, h4, -⟩ := updateOnceIpa_step np (gauss_isMM hp) (gauss_scaleInv hp)
    (fun _ _ hr => gauss_spatialOk _ hr) (goodSweep_two np hm _) norm X ht hX s hs h1.mild
  refine ⟨s', h4, ?_⟩
  filter_upwards [key] with eps' h5
  exact ⟨h5.1, by rw [h5.2, ← h2, h3]⟩

/-- C68 for `GaussILRMA` with IPA, two sources and `source_algorithm="MM"`: for every small floor, all updates succeed and
the recorded loss never increases, provided that no source is silent over all bins in any frame before an update. -/
theorem C68_gauss_ilrma_two_sources [Nonempty (Fin K)] (np : Numpy ℂ) {p : ℝ} (hp : 0 < p) {newton_iter : ℕ}
    (hm : 0 < newton_iter) {norm : Norm 2} (hn : norm.Plain) (X : Spec F 2 t) (ht : 0 < t)
    (hX : ∀ f, LinearIndependent ℂ (X f).row) (s : St F 2 t K) (hs : Inv s) (n_iter : ℕ) {eps₁ : ℝ} (heps₁ : 0 < eps₁)
    (hsound : ∀ eps, 0 < eps → eps < eps₁ →
      RegularRun (updateOnceIpa (n := 0) np (gauss p) p true newton_iter norm (Special.max_flooring eps) X)
        (fun s => ∀ k j, 0 < binNorm s.Y k j) n_iter (s.toY X)) :
    ∃ eps₀ > 0, ∀ eps, 0 < eps → eps < eps₀ → ∃ ls,
      lossList (updateOnceIpa (n := 0) np (gauss p) p true newton_iter norm (Special.max_flooring eps) X)
        (lossY (gauss p) X) n_iter (s.toY X) = .ok ls ∧ ls.length = n_iter + 1 ∧ ls.Pairwise (· ≥ ·) := by
  have key : ∀ (n_iter : ℕ) (s : St F 2 t K), Inv s →
      (∀ᶠ eps in 𝓝[>] (0 : ℝ),
        RegularRun (updateOnceIpa (n := 0) np (gauss p) p true newton_iter norm (Special.max_flooring eps) X)
          (fun s => ∀ k j, 0 < binNorm s.Y k j) n_iter (s.toY X)) →
      ∀ᶠ eps in 𝓝[>] (0 : ℝ),
        RegularRun (updateOnceIpa (n := 0) np (gauss p) p true newton_iter norm (Special.max_flooring eps) X)
          (RegExactIpa np (gauss p) newton_iter norm (Special.max_flooring eps) X) n_iter (s.toY X) := by
    intro n_iter
    induction n_iter with
    | zero => exact fun s _ _ => Filter.Eventually.of_forall fun _ => trivial
    | succ n_iter ih =>
      intro s hs h
      obtain ⟨eps1, h1⟩ := h.exists
      obtain ⟨s', h2, h3⟩ := updateOnceIpa_small np hp hm hn X ht hX s hs h1.1
      have h4 := ih s' h2 (by filter_upwards [h, h3] with eps a b using a.2 _ b.2)
      filter_upwards [h3, h4] with eps a b
      refine ⟨a.1, fun s'' hs'' => ?_⟩
      rw [a.2] at hs''
      rw [← Except.ok.inj hs'']
      exact b
  have hmild : ∀ (n_iter : ℕ) (eps : ℝ) (s : StY F 2 t K),
      RegularRun (updateOnceIpa (n := 0) np (gauss p) p true newton_iter norm (Special.max_flooring eps) X)
        (RegExactIpa np (gauss p) newton_iter norm (Special.max_flooring eps) X) n_iter s →
      RegularRun (updateOnceIpa (n := 0) np (gauss p) p true newton_iter norm (Special.max_flooring eps) X)
        (RegIpa (n := 0) np (gauss p) newton_iter norm (Special.max_flooring eps)
          (StepRegular np (Special.max_flooring eps)) X) n_iter s := by
    intro n_iter eps
    induction n_iter with
    | zero => exact fun _ _ => trivial
    | succ n_iter ih => exact fun s h => ⟨h.1.mild, fun s' hs' => ih s' (h.2 s' hs')⟩
  have h := key n_iter s hs (by
    have : Set.Ioo 0 eps₁ ∈ 𝓝[>] (0 : ℝ) := Ioo_mem_nhdsGT heps₁
    filter_upwards [this] with eps he using hsound eps he.1 he.2)
  obtain ⟨eps₀, h0, h1⟩ := (mem_nhdsGT_iff_exists_Ioo_subset).1 h
  exact ⟨eps₀, h0, fun eps h2 h3 =>
    ilrma_run_ipa np (gauss_isMM hp) (gauss_scaleInv hp) (fun _ _ hr => gauss_spatialOk _ hr) (goodSweep_two np hm _)
      norm X ht hX s hs n_iter (hmild n_iter eps _ (h1 ⟨h2, h3⟩))⟩

/-- C63 for `GaussILRMA` with IPA and two sources, for every small floor. -/
theorem C63_gauss_ipa_two [Nonempty (Fin K)] (np : Numpy ℂ) {p : ℝ} (hp : 0 < p) {newton_iter : ℕ}
    (hm : 0 < newton_iter) {norm : Norm 2} (hn : norm.Plain) (X : Spec F 2 t) (ht : 0 < t)
    (hX : ∀ f, LinearIndependent ℂ (X f).row) (s : St F 2 t K) (hs : Inv s)
    (h0 : ∀ k j, 0 < binNorm (separate X s.W) k j) :
    ∃ eps₀ > 0, ∀ eps, 0 < eps → eps < eps₀ → ∃ s',
      updateOnceIpa (n := 0) np (gauss p) p true newton_iter norm (Special.max_flooring eps) X (s.toY X)
        = .ok (s'.toY X) ∧ Inv s' ∧ (loss (gauss p) X s' < loss (gauss p) X s ∨ StationaryState (gauss p) X s) := by
  obtain ⟨s', -, h⟩ := updateOnceIpa_small np hp hm hn X ht hX s hs h0
  obtain ⟨eps₀, h1, h2⟩ := (mem_nhdsGT_iff_exists_Ioo_subset).1 h
  exact ⟨eps₀, h1, fun eps h3 h4 => C63_ipa_two np (gauss_smooth hp _) hm norm X ht hX s hs (h2 ⟨h3, h4⟩).1⟩

/-- Two sources, two frames, one bin, two bases: the hypotheses hold and one iteration is covered. -/
example (np : Numpy ℂ) : ∃ eps₀ > 0, ∀ eps, 0 < eps → eps < eps₀ → ∃ ls,
    lossList (updateOnceIpa (n := 0) (K := 2) np (gauss 2) 2 true 1 .power (Special.max_flooring eps)
        fun _ : Unit => (!![1, 2; 2, 1] : Matrix (Fin 2) (Fin 2) ℂ))
      (lossY (gauss 2) fun _ : Unit => (!![1, 2; 2, 1] : Matrix (Fin 2) (Fin 2) ℂ)) 1
      (St.toY (fun _ : Unit => (!![1, 2; 2, 1] : Matrix (Fin 2) (Fin 2) ℂ))
        ⟨1, fun k _ b => k + b + 1, fun k b j => k + 2 * b + j + 1⟩) = .ok ls ∧
    ls.length = 2 ∧ ls.Pairwise (· ≥ ·) := by
  have hdet : IsUnit (!![1, 2; 2, 1] : Matrix (Fin 2) (Fin 2) ℂ) := by
    rw [isUnit_iff_isUnit_det, det_fin_two, isUnit_iff_ne_zero]
    norm_num
  refine C68_gauss_ilrma_two_sources np two_pos one_pos (norm := .power) trivial _ two_pos
    (fun _ => (linearIndependent_rows_iff_isUnit).mpr hdet) _ ⟨fun _ => by simp, fun k _ b => ?_, fun k b j => ?_⟩ 1
    one_pos fun eps _ _ => ⟨?_, fun _ _ => trivial⟩
  · positivity
  · positivity
  · intro k s
    refine Real.sqrt_pos.mpr ?_
    fin_cases k <;> fin_cases s <;> simp [St.toY, separate]

end Verif.Ilrma
