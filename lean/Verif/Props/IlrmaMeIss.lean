import Verif.Props.IlrmaEx
import Verif.Props.StationaryIlrma

/-!
C38, C39 and C63 for `source_algorithm="ME"` together with iterative source steering.
-/

namespace Verif.Ilrma

open Matrix Spatial Scale

variable {F : Type} [Fintype F] {n t K : ℕ}

/-- C38: `GaussILRMA` with `source_algorithm="ME"` and ISS1 or ISS2. -/
theorem C38_gauss_me_iss [Nonempty (Fin K)] (np : Numpy ℂ) (floor : ℝ → ℝ) (alg : SignalAlg n) (halg : alg.Valid)
    (norm : Norm n) (X : Spec F n t) (ht : 0 < t) (hX : ∀ f, LinearIndependent ℂ (X f).row) (s : St F n t K) (hs : Inv s)
    (n_iter : ℕ) (hreg : RegularRun (updateOnceY np gaussME 2 alg norm floor X)
      (RegY np gaussME (fun _ => True) alg norm floor X) n_iter (s.toY X)) :
    ∃ ls, lossList (updateOnceY np gaussME 2 alg norm floor X) (lossY gaussME X) n_iter (s.toY X)
      = .ok ls ∧ ls.length = n_iter + 1 ∧ ls.Pairwise (· ≥ ·) :=
  ilrma_run_signal np gaussME_isMM gaussME_scaleInv (fun _ _ _ _ hr => gaussME_spatialOk floor hr) alg halg norm X
    ht hX s hs n_iter hreg

/-- C39: `TILRMA` with `source_algorithm="ME"` and ISS1 or ISS2. -/
theorem C39_student_me_iss [Nonempty (Fin K)] (np : Numpy ℂ) {nu : ℝ} (hnu : 0 < nu) (floor : ℝ → ℝ)
    (alg : SignalAlg n) (halg : alg.Valid) (norm : Norm n) (X : Spec F n t) (ht : 0 < t)
    (hX : ∀ f, LinearIndependent ℂ (X f).row) (s : St F n t K) (hs : Inv s) (n_iter : ℕ)
    (hreg : RegularRun (updateOnceY np (studentME nu) 2 alg norm floor X)
      (RegY np (studentME nu) (fun _ => True) alg norm floor X) n_iter (s.toY X)) :
    ∃ ls, lossList (updateOnceY np (studentME nu) 2 alg norm floor X) (lossY (studentME nu) X) n_iter (s.toY X)
      = .ok ls ∧ ls.length = n_iter + 1 ∧ ls.Pairwise (· ≥ ·) :=
  ilrma_run_signal np (studentME_isMM hnu) studentME_scaleInv (fun _ _ _ _ hr => studentME_spatialOk hnu floor hr) alg
    halg norm X ht hX s hs n_iter hreg

section
variable [Nonempty (Fin K)] (np : Numpy ℂ) (floor : ℝ → ℝ) (norm : Norm n) (X : Spec F n t) (ht : 0 < t)
  (hX : ∀ f, LinearIndependent ℂ (X f).row) (s : St F n t K) (hs : Inv s)
include ht hX hs

/-- C63: GaussILRMA with `source_algorithm="ME"` and ISS1. -/
theorem C63_gauss_me_iss (hr : RegExactY np gaussME (fun _ => True) .iss1 norm floor X (s.toY X)) :
    ∃ s', updateOnceY np gaussME 2 .iss1 norm floor X (s.toY X) = .ok (s'.toY X) ∧
      (loss gaussME X s' < loss gaussME X s ↔ ¬ StationaryState gaussME X s) ∧
      (StationaryState gaussME X s → normalizeY 2 floor X norm (s.toY X) = .ok (s'.toY X)) := by
  obtain ⟨s', h1, -, h2⟩ := C63_iss1 np (gaussME_smooth floor) norm X ht hX s hs hr
  exact ⟨s', h1, h2⟩

/-- C63: TILRMA with `source_algorithm="ME"` and ISS1. -/
theorem C63_student_me_iss {nu : ℝ} (hnu : 0 < nu)
    (hr : RegExactY np (studentME nu) (fun _ => True) .iss1 norm floor X (s.toY X)) :
    ∃ s', updateOnceY np (studentME nu) 2 .iss1 norm floor X (s.toY X) = .ok (s'.toY X) ∧
      (loss (studentME nu) X s' < loss (studentME nu) X s ↔ ¬ StationaryState (studentME nu) X s) ∧
      (StationaryState (studentME nu) X s → normalizeY 2 floor X norm (s.toY X) = .ok (s'.toY X)) := by
  obtain ⟨s', h1, -, h2⟩ := C63_iss1 np (studentME_smooth hnu floor) norm X ht hX s hs hr
  exact ⟨s', h1, h2⟩

end

/-- C38, C39: one iteration from a state with two bases, power normalization. -/
example (np : Numpy ℂ) :
    (∃ ls, lossList (updateOnceY np gaussME 2 .iss1 .power id stepX) (lossY gaussME stepX) 1 (step0.toY stepX)
      = .ok ls ∧ ls.length = 2 ∧ ls.Pairwise (· ≥ ·)) ∧
    ∃ ls, lossList (updateOnceY np (studentME 5) 2 (.iss2 [(0, 1)]) .power id stepX) (lossY (studentME 5) stepX) 1
      (step0.toY stepX) = .ok ls ∧ ls.length = 2 ∧ ls.Pairwise (· ≥ ·) := by
  have h3 : (SignalAlg.iss2 [((0 : Fin 2), (1 : Fin 2))]).Valid := by
    simp [SignalAlg.Valid]
  exact ⟨C38_gauss_me_iss np id .iss1 trivial .power stepX two_pos stepX_ind step0 step0_inv 1
      ⟨regY_power np (p := 2) .gaussME (fun _ _ => trivial) stepX two_pos stepX_ind step0 step0_inv step0_ne _ trivial, fun _ _ => trivial⟩,
    C39_student_me_iss np (by norm_num) id _ h3 .power stepX two_pos stepX_ind step0 step0_inv 1
      ⟨regY_power np (p := 2) (.studentME (by norm_num)) (fun _ _ => trivial) stepX two_pos stepX_ind step0 step0_inv step0_ne _ h3,
        fun _ _ => trivial⟩⟩

end Verif.Ilrma
