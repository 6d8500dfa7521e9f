import Verif.Model.Linalg
import Verif.Model.Mnmf
import Verif.Model.Special

/-!
# `bss/cacgmm.py`, class `CACGMM`

`F` is the set of bins, `n + 1` the number of sources (`softmax` over an empty axis raises), `m` of channels, `t` of
frames. The random initial parameters (L172-187) are not modelled: theorems quantify over the initial parameters.
`np.log` of zero is `-inf` in numpy and `0` here, so theorems assume positive mixing weights and positive quadratic
forms wherever a logarithm is taken.
-/

namespace Verif.Cacgmm

open Matrix Spatial Scale

variable {F : Type} [Fintype F] {n m t : ℕ}

/-- `mixing` and `covariance`. -/
structure CSt (F : Type) (n m : ℕ) where
  α : Fin (n + 1) → F → ℝ
  B : Fin (n + 1) → F → Mat m ℂ

/-- `posterior`. -/
abbrev Posterior (F : Type) (n t : ℕ) := Fin (n + 1) → F → Fin t → ℝ

/-- `unit_input`, L141-145; indexed by bin, frame, channel (after the transposition of L652, L688, L723). -/
noncomputable def unitInput (floor : ℝ → ℝ) (X : Spec F m t) (f : F) (j : Fin t) (c : Fin m) : ℂ :=
  X f c j / (floor (Real.sqrt (∑ c, ‖X f c j‖ ^ 2)) : ℂ)

/-- `ZBZ`, L653-657, L689-693, L724-728. -/
noncomputable def quadForm (floor : ℝ → ℝ) (Z : F → Fin t → Fin m → ℂ) (B_inverse : Fin (n + 1) → F → Mat m ℂ)
    (k : Fin (n + 1)) (f : F) (j : Fin t) : ℝ :=
  floor (max (Linalg.quadratic (Z f j) (B_inverse k f)).re 0)

/-- `log_gamma`, L659-660, L730-731. -/
noncomputable def logGamma (s : CSt F n m) (ZBZ : Fin (n + 1) → F → Fin t → ℝ) (f : F) (j : Fin t)
    (k : Fin (n + 1)) : ℝ :=
  (Real.log (s.α k f) - Real.log ‖(s.B k f).det‖) - m * Real.log (ZBZ k f j)

/-- `np.linalg.inv` of the stack of covariances. -/
noncomputable def invB (B : Fin (n + 1) → F → Mat m ℂ) : Except PyErr (Fin (n + 1) → F → Mat m ℂ) :=
  onBins fun k => onBins fun f => npInv (B k f)

/-- `update_posterior`, L646-664. -/
noncomputable def updatePosterior (floor : ℝ → ℝ) (Z : F → Fin t → Fin m → ℂ) (s : CSt F n m) :
    Except PyErr (Posterior F n t) := do
  let B_inverse ← invB s.B
  .ok fun k f j => Special.softmax (logGamma s (quadForm floor Z B_inverse) f j) k

/-- `num / denom` of `update_parameters` times `n_channels`, L694-701: the covariance before `to_psd`. -/
noncomputable def rawCovariance (Z : F → Fin t → Fin m → ℂ) (ZBZ gamma : Fin (n + 1) → F → Fin t → ℝ)
    (k : Fin (n + 1)) (f : F) : Mat m ℂ :=
  (m : ℂ) • ((((∑ j, gamma k f j : ℝ) : ℂ))⁻¹ •
    ∑ j, (((gamma k f j / ZBZ k f j : ℝ) : ℂ) • Matrix.of fun a b => Z f j a * star (Z f j b)))

/-- `update_parameters`, L682-705. -/
noncomputable def updateParameters (np : Numpy ℂ) (floor : ℝ → ℝ) (Z : F → Fin t → Fin m → ℂ)
    (gamma : Posterior F n t) (s : CSt F n m) : Except PyErr (CSt F n m) := do
  let B_inverse ← invB s.B
  let ZBZ := quadForm floor Z B_inverse
  .ok ⟨fun k f => meanT (gamma k f), fun k f => Mnmf.toPsd np floor (rawCovariance Z ZBZ gamma k f)⟩

/-- `normalize_covariance`, L214-222. -/
noncomputable def normalize (s : CSt F n m) : CSt F n m :=
  ⟨s.α, fun k f => (((s.B k f).trace.re : ℂ))⁻¹ • s.B k f⟩

/-- `update_once`, L621-627: the parameters and the posterior afterwards. -/
noncomputable def updateOnce (np : Numpy ℂ) (normalization : Bool) (floor : ℝ → ℝ) (Z : F → Fin t → Fin m → ℂ)
    (s : CSt F n m) : Except PyErr (CSt F n m × Posterior F n t) := do
  let gamma ← updatePosterior floor Z s
  let s ← updateParameters np floor Z gamma s
  .ok (if normalization then normalize s else s, gamma)

/-- `compute_loss`, L719-738. -/
noncomputable def loss (floor : ℝ → ℝ) (Z : F → Fin t → Fin m → ℂ) (s : CSt F n m) : Except PyErr ℝ := do
  let B_inverse ← invB s.B
  let log_gamma := logGamma s (quadForm floor Z B_inverse)
  .ok (∑ f, meanT fun j => -Special.logsumexp (log_gamma f j))

/-- `separate` with a posterior, L599-601. -/
def separateP (X : Spec F m t) (reference_id : Fin m) (gamma : Posterior F n t) (k : Fin (n + 1)) (f : F)
    (j : Fin t) : ℂ := (gamma k f j : ℂ) * X f reference_id j

/-- `separate` without a posterior, L580-601. -/
noncomputable def separateNew (floor : ℝ → ℝ) (X : Spec F m t) (Z : F → Fin t → Fin m → ℂ) (reference_id : Fin m)
    (s : CSt F n m) : Except PyErr (Fin (n + 1) → F → Fin t → ℂ) := do
  let gamma ← updatePosterior floor Z s
  .ok (separateP X reference_id gamma)

/-- `n_iter` updates, L533 with `base.py`: the parameters afterwards. -/
noncomputable def iterate (np : Numpy ℂ) (normalization : Bool) (floor : ℝ → ℝ) (Z : F → Fin t → Fin m → ℂ) :
    ℕ → CSt F n m → Except PyErr (CSt F n m)
  | 0, s => .ok s
  | k + 1, s => do
    let (s, _) ← updateOnce np normalization floor Z s
    iterate np normalization floor Z k s

/-- What `solve_permutation` (L263-420) does to the attributes: by C27 the solvers reorder the sources of every bin by
one permutation `σ f` applied to all arrays handed to them (`mixing`, `covariance`, `posterior`). Which permutations
are chosen is the subject of `Model.Permutation`; here they are arbitrary. -/
def align (σ : F → Equiv.Perm (Fin (n + 1))) (s : CSt F n m) (gamma : Posterior F n t) :
    CSt F n m × Posterior F n t :=
  (⟨fun k f => s.α (σ f k) f, fun k f => s.B (σ f k) f⟩, fun k f => gamma (σ f k) f)

/-- `CACGMM.__call__`, L528-544, after `_reset`: parameters, posterior and output. -/
noncomputable def call (np : Numpy ℂ) (normalization : Bool) (floor : ℝ → ℝ) (X : Spec F m t) (reference_id : Fin m)
    (σ : F → Equiv.Perm (Fin (n + 1))) (n_iter : ℕ) (s : CSt F n m) :
    Except PyErr (CSt F n m × Posterior F n t × (Fin (n + 1) → F → Fin t → ℂ)) := do
  let Z := unitInput floor X
  let s ← iterate np normalization floor Z n_iter s
  let gamma ← updatePosterior floor Z s
  let (s, gamma) := align σ s gamma
  .ok (s, gamma, separateP X reference_id gamma)

end Verif.Cacgmm
