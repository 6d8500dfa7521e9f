import Verif.Props.IlrmaNorm
import Verif.Props.Ip2
import Verif.Props.LimitIlrma

/-!
# The hypotheses of C32, C38, C39 and C40 can be met

Runs of any length with IP1, and single iterations with every spatial algorithm and power normalization, for every source
model.
-/

set_option linter.unusedSectionVars false

namespace Verif.Ilrma
open Matrix Spatial Scale Iva Filter Topology
open scoped ComplexOrder

variable {F : Type} [Fintype F] {n t K : ℕ}

section
variable [Nonempty F] [Nonempty (Fin K)] (np : Numpy ℂ) {src : Source} {p : ℝ} {ok : ℝ → Prop} (hm : Model id src p ok)
  (hok : ∀ y, 0 < y → ok y) (X : Spec F n t) (ht : 0 < t) (hX : ∀ f, LinearIndependent ℂ (X f).row) (s : St F n t K)
  (hs : Inv s) (hY : ∀ f k j, separate X s.W f k j ≠ 0)
include hm hok ht hX hs hY

/-- Without flooring an iteration with power normalization is regular wherever no output vanishes. -/
theorem reg_power (alg : FilterAlg n) (halg : alg.Valid) : Reg np src p ok alg .power id X s := by
  obtain ⟨-, h1, h2⟩ := tendsto_source (l := (⊤ : Filter Unit)) (s := fun _ => s) (s' := s) hm.smooth.2 X ht hs hY
    tendsto_const_nhds (fun _ _ _ => tendsto_const_nhds) fun _ _ _ => tendsto_const_nhds
  have hp : ∀ f k j, ok ‖separate X s.W f k j‖ := fun f k j => hok _ (norm_pos_iff.mpr (hY f k j))
  refine ⟨fun k f b => ⟨h1 k f b, .inl rfl⟩, fun k b j => ⟨h2 k b j, .inl rfl⟩, hp, fun _ _ => rfl, fun s' h k => ?_⟩
  obtain ⟨s2, e1, e2, -⟩ := updateSpatial_step np hm.smooth.1.spatial alg halg X hX (updateSource src id X s) ⟨hs.1, h1, h2⟩ hp
    fun _ _ => rfl
  cases e1.symm.trans h
  exact psi_pos (fun f => row_independent (e2.1 f) (hX f)) k

/-- The same for ISS1 and ISS2. -/
theorem regY_power (alg : SignalAlg n) (halg : alg.Valid) : RegY np src ok alg .power id X (s.toY X) := by
  obtain ⟨-, h1, h2⟩ := tendsto_source (l := (⊤ : Filter Unit)) (s := fun _ => s) (s' := s) hm.smooth.2 X ht hs hY
    tendsto_const_nhds (fun _ _ _ => tendsto_const_nhds) fun _ _ _ => tendsto_const_nhds
  have hp : ∀ f k j, ok ‖separate X s.W f k j‖ := fun f k j => hok _ (norm_pos_iff.mpr (hY f k j))
  refine ⟨fun k f b => ⟨h1 k f b, .inl rfl⟩, fun k b j => ⟨h2 k b j, .inl rfl⟩, hp, fun _ _ => rfl, fun s' h W hW k => ?_⟩
  have hR := recon_pos h1 h2
  obtain ⟨W', e1, e2, -⟩ := spatialSignal_weighted np alg halg
    (varphi src id (separate X s.W) (recon (updateSource src id X s).T (updateSource src id X s).V))
    (fun f k j => (hm.smooth.1.spatial _ _ (norm_nonneg _) (hp f k j) (hR k f j)).1) X hX s.W hs.1
  have e : updateSpatialY np src alg id (updateSourceY src id (s.toY X))
      = .ok ⟨separate X W', (updateSource src id X s).T, (updateSource src id X s).V⟩ := by
    have e' : spatialSignal np alg id (varphi src id (updateSourceY src id (s.toY X)).Y
        (recon (updateSourceY src id (s.toY X)).T (updateSourceY src id (s.toY X)).V))
        (updateSourceY src id (s.toY X)).Y = .ok (separate X W') := e1
    rw [updateSpatialY, e']
    rfl
  cases e.symm.trans h
  rw [← hW]
  exact psi_pos (fun f => row_independent (e2 f) (hX f)) k

end

/-- Runs of any length with IP1. -/
theorem regular_diag (np : Numpy ℂ) {src : Source} {p : ℝ} {ok : ℝ → Prop} (hm : Model id src p ok)
    (hok : ∀ y, 0 < y → ok y) (n_iter : ℕ) {s : St Unit 2 2 1} (h : Diag s) :
    RegularRun (updateOnce np src p .ip1 .off id limX) (Reg np src p ok .ip1 .off id limX) n_iter s := by
  induction n_iter generalizing s with
  | zero => trivial
  | succ m ih =>
    have hr := reg_power np hm hok limX two_pos limX_ind s h.inv h.ne .ip1 trivial
    refine ⟨⟨hr.basis, hr.activation, hr.point, hr.spatial, fun _ _ => trivial⟩, fun s' hs' => ?_⟩
    obtain ⟨s2, e1, e2⟩ := h.step np hm hok
    cases e1.symm.trans hs'
    exact ih e2

/-- A state of this kind. -/
noncomputable def diag0 : St Unit 2 2 1 := ⟨limW ![1, 2], fun k _ _ => k + 1, fun k _ _ => 2 * k + 3⟩

theorem diag0_diag : Diag diag0 := by
  refine ⟨⟨![1, 2], fun k => by fin_cases k <;> simp, rfl⟩, fun k _ _ => ?_, fun k => 2 * k + 3, fun k => by positivity, rfl⟩
  simp only [diag0]
  positivity

/-- C38, C39: any number of iterations of GaussILRMA, TILRMA and GGDILRMA with IP1, MM and ME. -/
example (np : Numpy ℂ) (n_iter : ℕ) :
    (∃ ls, lossList (updateOnce np (gauss 1) 1 .ip1 .off id limX) (fun s => .ok (loss (gauss 1) limX s)) n_iter diag0 = .ok ls ∧
      ls.length = n_iter + 1 ∧ ls.Pairwise (· ≥ ·)) ∧
    (∃ ls, lossList (updateOnce np gaussME 2 .ip1 .off id limX) (fun s => .ok (loss gaussME limX s)) n_iter diag0 = .ok ls ∧
      ls.length = n_iter + 1 ∧ ls.Pairwise (· ≥ ·)) ∧
    (∃ ls, lossList (updateOnce np (student 1 3) 1 .ip1 .off id limX) (fun s => .ok (loss (student 1 3) limX s)) n_iter diag0
      = .ok ls ∧ ls.length = n_iter + 1 ∧ ls.Pairwise (· ≥ ·)) ∧
    (∃ ls, lossList (updateOnce np (studentME 3) 2 .ip1 .off id limX) (fun s => .ok (loss (studentME 3) limX s)) n_iter diag0
      = .ok ls ∧ ls.length = n_iter + 1 ∧ ls.Pairwise (· ≥ ·)) ∧
    ∃ ls, lossList (updateOnce np (ggd 2 1) 2 .ip1 .off id limX) (fun s => .ok (loss (ggd 2 1) limX s)) n_iter diag0
      = .ok ls ∧ ls.length = n_iter + 1 ∧ ls.Pairwise (· ≥ ·) :=
  ⟨C38_gauss_mm np one_pos id .ip1 trivial .off limX two_pos limX_ind diag0 diag0_diag.inv n_iter
      (regular_diag np (.gauss one_pos) (fun _ _ => trivial) n_iter diag0_diag),
    C38_gauss_me np id .ip1 trivial .off limX two_pos limX_ind diag0 diag0_diag.inv n_iter
      (regular_diag np .gaussME (fun _ _ => trivial) n_iter diag0_diag),
    C39_student_mm np one_pos three_pos id .ip1 trivial .off limX two_pos limX_ind diag0 diag0_diag.inv n_iter
      (regular_diag np (.student one_pos three_pos) (fun _ _ => trivial) n_iter diag0_diag),
    C39_student_me np three_pos id .ip1 trivial .off limX two_pos limX_ind diag0 diag0_diag.inv n_iter
      (regular_diag np (.studentME three_pos) (fun _ _ => trivial) n_iter diag0_diag),
    C39_ggd np two_pos one_pos one_le_two id .ip1 trivial .off limX two_pos limX_ind diag0 diag0_diag.inv n_iter
      (regular_diag np (.ggd two_pos one_pos one_le_two) (fun _ hy => ⟨hy, rfl⟩) n_iter diag0_diag)⟩

/-- A recording and a state with two bases. -/
noncomputable def stepX : Spec Unit 2 2 := fun _ => !![1, 2; 2, 1]

noncomputable def step0 : St Unit 2 2 2 := ⟨1, fun k _ b => k + b + 1, fun k b j => k + 2 * b + j + 1⟩

theorem stepX_ind (f : Unit) : LinearIndependent ℂ (stepX f).row := by
  refine (linearIndependent_rows_iff_isUnit).mpr ?_
  rw [stepX, isUnit_iff_isUnit_det, det_fin_two, isUnit_iff_ne_zero]
  norm_num

theorem step0_inv : Inv step0 :=
  ⟨fun f => by simp [step0], fun k f b => by simp only [step0]; positivity, fun k b j => by simp only [step0]; positivity⟩

theorem step0_ne (f : Unit) (k j : Fin 2) : separate stepX step0.W f k j ≠ 0 := by
  fin_cases k <;> fin_cases j <;> simp [separate, stepX, step0]

/-- C38, C39: one iteration with IP2, and one with ISS1 or ISS2, with power normalization. -/
example (np : Numpy ℂ) :
    (∃ ls, lossList (updateOnce np (gauss 1) 1 (.ip2 [(0, 1)]) .power id stepX) (fun s => .ok (loss (gauss 1) stepX s)) 1 step0
      = .ok ls ∧ ls.length = 2 ∧ ls.Pairwise (· ≥ ·)) ∧
    (∃ ls, lossList (updateOnceY np (gauss 2) 2 .iss1 .power id stepX) (lossY (gauss 2) stepX) 1 (step0.toY stepX)
      = .ok ls ∧ ls.length = 2 ∧ ls.Pairwise (· ≥ ·)) ∧
    (∃ ls, lossList (updateOnceY np (student 2 5) 2 (.iss2 [(0, 1)]) .power id stepX) (lossY (student 2 5) stepX) 1
      (step0.toY stepX) = .ok ls ∧ ls.length = 2 ∧ ls.Pairwise (· ≥ ·)) ∧
    ∃ ls, lossList (updateOnceY np (ggd 1 1) 1 (.iss2 [(0, 1)]) .power id stepX) (lossY (ggd 1 1) stepX) 1
      (step0.toY stepX) = .ok ls ∧ ls.length = 2 ∧ ls.Pairwise (· ≥ ·) := by
  have h2 : (FilterAlg.ip2 [((0 : Fin 2), (1 : Fin 2))]).Valid := by
    simp [FilterAlg.Valid]
  have h3 : (SignalAlg.iss2 [((0 : Fin 2), (1 : Fin 2))]).Valid := by
    simp [SignalAlg.Valid]
  exact ⟨C38_gauss_mm np one_pos id _ h2 .power stepX two_pos stepX_ind step0 step0_inv 1
      ⟨reg_power np (.gauss one_pos) (fun _ _ => trivial) stepX two_pos stepX_ind step0 step0_inv step0_ne _ h2, fun _ _ => trivial⟩,
    C38_gauss_mm_iss np two_pos id .iss1 trivial .power stepX two_pos stepX_ind step0 step0_inv 1
      ⟨regY_power np (p := 2) (.gauss two_pos) (fun _ _ => trivial) stepX two_pos stepX_ind step0 step0_inv step0_ne _ trivial, fun _ _ => trivial⟩,
    C39_student_mm_iss np two_pos (by norm_num) id _ h3 .power stepX two_pos stepX_ind step0 step0_inv 1
      ⟨regY_power np (p := 2) (.student two_pos (by norm_num)) (fun _ _ => trivial) stepX two_pos stepX_ind step0 step0_inv step0_ne _ h3,
        fun _ _ => trivial⟩,
    C39_ggd_iss np one_pos one_pos one_le_two id _ h3 .power stepX two_pos stepX_ind step0 step0_inv 1
      ⟨regY_power np (p := 1) (.ggd one_pos one_pos one_le_two) (fun _ hy => ⟨hy, rfl⟩) stepX two_pos stepX_ind step0 step0_inv step0_ne _ h3,
        fun _ _ => trivial⟩⟩

/-- C40: power normalization with the identity as flooring function. -/
example : (∃ s', normalize 1 id stepX .power step0 = .ok s' ∧ loss (gauss 1) stepX s' = loss (gauss 1) stepX step0 ∧
    ∀ r, projectionBackFilter r s'.W = projectionBackFilter r step0.W) ∧
    ∃ sY, normalizeY 1 id stepX .power (step0.toY stepX) = .ok sY ∧
      lossY (gauss 1) stepX sY = lossY (gauss 1) stepX (step0.toY stepX) := by
  have hreg : NormReg id stepX .power step0.W := fun k =>
    psi_pos (fun f => row_independent (step0_inv.1 f) (stepX_ind f)) k
  obtain ⟨s', h1, -, -, -, h5⟩ := C40_loss (gauss_scaleInv one_pos) id stepX two_pos .power step0 step0_inv.1 step0_inv.2.1
    step0_inv.2.2 hreg
  exact ⟨⟨s', h1, h5, C40_projection_back 1 id stepX .power step0 s' step0_inv.1 step0_inv.2.1 hreg h1⟩,
    C40_loss_signal (gauss_scaleInv one_pos) id stepX two_pos stepX_ind .power step0 step0_inv.1 step0_inv.2.1 step0_inv.2.2 hreg⟩

/-- C40 with partitioning. -/
example : ∃ s', normalizeP 1 id stepX .power (⟨1, fun k _ => if k = 0 then 1 / 4 else 3 / 4, fun _ b => b + 1, fun b j => b + j + 1⟩ :
      StP Unit 2 2 2) = .ok s' ∧ ∀ b, ∑ k, s'.Z k b = 1 := by
  obtain ⟨s', h1, -, -, h4, -⟩ := C40_partitioned (gauss_scaleInv one_pos) id stepX two_pos
    (⟨1, fun k _ => if k = 0 then 1 / 4 else 3 / 4, fun _ b => b + 1, fun b j => b + j + 1⟩ : StP Unit 2 2 2)
    (fun f => by simp) (fun k b => by dsimp only; split_ifs <;> norm_num) (fun f b => by dsimp only; positivity)
    (fun b j => by dsimp only; positivity)
    fun k => psi_pos (fun f => row_independent (T := 1) (by simp) (stepX_ind f)) k
  exact ⟨s', h1, h4⟩

end Verif.Ilrma

namespace Verif.Spatial
open Matrix
open scoped ComplexOrder

/-- C32: two sources with different weighted covariances, from a filter that is not diagonal. -/
example (np : Numpy ℂ) : ∃ W', ip2 np id [(0, 1)] (fun k : Fin 2 => if k = 0 then diagonal ![4, 1] else diagonal ![1, 9])
      (!![1, 1; 0, 1] : Mat 2 ℂ) = .ok W' ∧ IsUnit W'.det ∧
    ∀ V : Mat 2 ℂ, IsUnit V.det →
      ipLoss (fun k : Fin 2 => if k = 0 then diagonal ![4, 1] else diagonal ![1, 9]) W'
        ≤ ipLoss (fun k : Fin 2 => if k = 0 then diagonal ![4, 1] else diagonal ![1, 9]) V := by
  have hU : ∀ k : Fin 2, (if k = 0 then diagonal ![4, 1] else diagonal ![1, 9] : Mat 2 ℂ).PosDef := by
    intro k
    split_ifs
    · refine PosDef.diagonal fun i => ?_
      fin_cases i <;> simp
    · refine PosDef.diagonal fun i => ?_
      fin_cases i <;> simp
  have hW : IsUnit (!![1, 1; 0, 1] : Mat 2 ℂ).det := by simp
  obtain ⟨W', h1, h2, -⟩ := C32_sweep np id [(0, 1)] (by simp) _ hU _ hW rfl
  obtain ⟨W'', h3, -, -, -, h4⟩ := C32_pair_optimal np _ hU _ hW 0 1 (by simp)
  cases h1.symm.trans h3
  exact ⟨W', h1, h2, fun V hV => h4 V hV fun j h0 h1 => by fin_cases j <;> simp_all⟩

end Verif.Spatial
