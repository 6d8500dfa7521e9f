import Verif.Model.Cacgmm
import Verif.Model.FdicaCall
import Verif.Model.Permutation

/-!
# `bss/cacgmm.py`: random initial parameters, `solve_permutation` and `__call__`

The frequency bins are `Fin B`, since the permutation solvers work bin after bin. The arrays handed to the solvers live
in a `Permutation.Store` (the solvers overwrite them in place); the transpositions before and after are views.
-/

namespace Verif.Cacgmm

open Matrix Spatial Scale Permutation
open Fdica (PermOpt)

variable {F : Type} {B n m t : ℕ}

/-- `_init_parameters`, L172-187: `a` and `d` are what the random number generator delivers. -/
noncomputable def initParameters (a : Fin (n + 1) → F → ℝ) (d : Fin (n + 1) → F → Fin m → ℝ) : CSt F n m :=
  ⟨fun k f => a k f / ∑ k, a k f, fun k f => diagonal fun c => ((d k f c / ∑ c, d k f c : ℝ) : ℂ)⟩

/-- `CACGMM.__init__`, L484-501: the keywords that may be given besides the named ones. -/
def checkKeywords (opt : PermOpt) (keys : List String) : Except PyErr Unit :=
  let valid := match opt with
    | .bool true => ["global_iter", "local_iter"]
    | .bool false => []
    | .str s => if s = "posterior_score" ∨ s = "amplitude_score" then ["global_iter", "local_iter"] else []
  if keys.all (· ∈ valid) then .ok () else .error .assertion

/-- One entry `[bin, source]` of an array handed to the solvers. -/
inductive Cell (m t : ℕ) where
  | mixing (a : ℝ)
  | covariance (b : Mat m ℂ)
  | posterior (g : Fin t → ℝ)
  | amplitude (a : Fin t → ℝ)
  | spectrogram (y : Fin t → ℂ)

/-- The real sequence the score-based solver works on. -/
def Cell.real : Cell m t → Fin t → ℝ
  | .posterior g => g
  | .amplitude a => a
  | _ => 0

/-- `np.abs` in the correlation-based solver. -/
noncomputable def Cell.mag : Cell m t → Fin t → ℝ
  | .spectrogram y => fun j => ‖y j‖
  | _ => 0

def Cell.getMixing : Cell m t → ℝ
  | .mixing a => a
  | _ => 0

def Cell.getCovariance : Cell m t → Mat m ℂ
  | .covariance b => b
  | _ => 0

def Cell.getPosterior : Cell m t → Fin t → ℝ
  | .posterior g => g
  | _ => 0

/-- The attributes `mixing`, `covariance` and `posterior` read from three arrays. -/
def readBack (st : Store B (n + 1) (Cell m t)) (alpha cov gamma : ℕ) : CSt (Fin B) n m × Posterior (Fin B) n t :=
  (⟨fun k b => (st.mem alpha b k).getMixing, fun k b => (st.mem cov b k).getCovariance⟩,
    fun k b => (st.mem gamma b k).getPosterior)

/-- `solve_permutation_by_score`, L311-372: new `mixing`, `covariance` and `posterior`. With target `posterior` array 0
is the posterior, with target `amplitude` array 0 is a fresh array and array 3 the posterior; arrays 1 and 2 are
`mixing` and `covariance`. -/
noncomputable def solveByScore (target : String) (globalIter localIter : ℤ) (floor : ℝ → ℝ) (X : Spec (Fin B) m t)
    (reference_id : Fin m) (s : CSt (Fin B) n m) (gamma : Posterior (Fin B) n t) :
    Except PyErr (CSt (Fin B) n m × Posterior (Fin B) n t) :=
  if target = "posterior" then do
    let st : Store B (n + 1) (Cell m t) := ⟨fun r b k =>
      if r = 0 then .posterior (gamma k b) else if r = 1 then .mixing (s.α k b) else .covariance (s.B k b), 3⟩
    let (gamma, ps, st) ← scoreSolver Cell.real floor globalIter localIter false true 0 [1, 2] st
    match ps with
    | [alpha, cov] => .ok (readBack st alpha cov gamma)
    | _ => .error .value
  else if target = "amplitude" then do
    let st : Store B (n + 1) (Cell m t) := ⟨fun r b k =>
      if r = 0 then .amplitude (fun j => ‖separateP X reference_id gamma k b j‖)
      else if r = 1 then .mixing (s.α k b) else if r = 2 then .covariance (s.B k b) else .posterior (gamma k b), 4⟩
    let (_, ps, st) ← scoreSolver Cell.real floor globalIter localIter false true 0 [1, 2, 3] st
    match ps with
    | [alpha, cov, gamma] => .ok (readBack st alpha cov gamma)
    | _ => .error .value
  else .error .assertion

/-- `solve_permutation_by_correlation`, L394-420. Array 0 is the separated spectrogram (fresh), arrays 1, 2 and 3 are
`mixing`, `covariance` and `posterior`. -/
noncomputable def solveByCorrelation (srt : Argsort) (target : String) (floor : ℝ → ℝ) (X : Spec (Fin B) m t)
    (reference_id : Fin m) (s : CSt (Fin B) n m) (gamma : Posterior (Fin B) n t) :
    Except PyErr (CSt (Fin B) n m × Posterior (Fin B) n t) :=
  if target ≠ "amplitude" then .error .assertion
  else do
    let st : Store B (n + 1) (Cell m t) := ⟨fun r b k =>
      if r = 0 then .spectrogram (separateP X reference_id gamma k b)
      else if r = 1 then .mixing (s.α k b) else if r = 2 then .covariance (s.B k b) else .posterior (gamma k b), 4⟩
    let (_, ps, st) ← correlationSolver srt Cell.mag floor true 0 [1, 2, 3] st
    match ps with
    | [alpha, cov, gamma] => .ok (readBack st alpha cov gamma)
    | _ => .error .value

/-- `solve_permutation`, L263-288. `globalIter` and `localIter` are the attributes of that name, `1` if they are not
set (L319-329). -/
noncomputable def solvePermutation (srt : Argsort) (opt : PermOpt) (globalIter localIter : Option ℤ) (floor : ℝ → ℝ)
    (X : Spec (Fin B) m t) (reference_id : Fin m) (s : CSt (Fin B) n m) (gamma : Posterior (Fin B) n t) :
    Except PyErr (CSt (Fin B) n m × Posterior (Fin B) n t) :=
  if !opt.truthy then .error .assertion
  else do
    let key := match opt with
      | .bool _ => "posterior_score"
      | .str s => s
    let target ←
      if key ∈ ["posterior_score", "posterior_correlation"] then .ok "posterior"
      else if key ∈ ["amplitude_score", "amplitude_correlation"] then .ok "amplitude"
      else .error .notImplemented
    if key ∈ ["posterior_score", "amplitude_score"] then
      solveByScore target (globalIter.getD 1) (localIter.getD 1) floor X reference_id s gamma
    else if key ∈ ["posterior_correlation", "amplitude_correlation"] then
      solveByCorrelation srt target floor X reference_id s gamma
    else .error .notImplemented

/-- `CACGMM.__call__`, L528-544: `_reset` draws initial parameters from `draw` in every call, whatever the attributes
were before. The result is the new state of the generator, `mixing`, `covariance`, `posterior` and the output. -/
noncomputable def callWith {R : Type} (np : Numpy ℂ) (srt : Argsort)
    (draw : R → ((Fin (n + 1) → Fin B → ℝ) × (Fin (n + 1) → Fin B → Fin m → ℝ)) × R) (normalization : Bool)
    (opt : PermOpt) (globalIter localIter : Option ℤ) (floor : ℝ → ℝ) (X : Spec (Fin B) m t) (reference_id : Fin m)
    (n_iter : ℕ) (rng : R) :
    Except PyErr (R × CSt (Fin B) n m × Posterior (Fin B) n t × (Fin (n + 1) → Fin B → Fin t → ℂ)) := do
  let ((a, d), rng) := draw rng
  let Z := unitInput floor X
  let s ← iterate np normalization floor Z n_iter (initParameters a d)
  let gamma ← updatePosterior floor Z s
  let (s, gamma) ← if opt.truthy then solvePermutation srt opt globalIter localIter floor X reference_id s gamma
    else .ok (s, gamma)
  .ok (rng, s, gamma, separateP X reference_id gamma)

end Verif.Cacgmm
