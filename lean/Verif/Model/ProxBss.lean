import Verif.Model.Linalg
import Verif.Model.Scale
import Verif.Model.Spatial

/-!
# Proximal methods: `bss/pdsbss.py`, `bss/admmbss.py`

`F` is the set of bins, `q` the number of penalties. A `prox_penalty` is a Python callable; the model takes an arbitrary
function of the spectrogram and `step_size`. `PDSIVA`, `ADMMIVA` (`bss/iva.py` L2217-2338) and the harmonic vector
analysis classes inherit the updates of this file.
-/

namespace Verif.ProxBss

open Matrix Spatial Scale

variable {F : Type} {n t q : ℕ}

/-- `prox.neg_logdet` on a stack of matrices. -/
noncomputable def negLogdetStack (np : Numpy ℂ) (step_size : ℝ) (W : F → Mat n ℂ) : Except PyErr (F → Mat n ℂ) :=
  onBins fun f => Linalg.neg_logdet np step_size (W f)

/-! ## PDSBSS -/

/-- The attributes `demix_filter` and `dual` of `PDSBSS`. -/
structure PdsState (F : Type) (n t q : ℕ) where
  W : F → Mat n ℂ
  dual : Fin q → Spec F n t

/-- `PDSBSS.update_once`, `bss/pdsbss.py` L199-219. -/
noncomputable def pdsStep (np : Numpy ℂ) (mu1 mu2 alpha : ℝ) (prox : Fin q → Spec F n t → ℝ → Spec F n t)
    (X : Spec F n t) (s : PdsState F n t q) : Except PyErr (PdsState F n t q) := do
  let XY := fun f => (∑ i, s.dual i f) * (X f)ᴴ
  let W_tilde ← negLogdetStack np mu1 fun f => s.W f - ((mu1 * mu2 : ℝ) : ℂ) • XY f
  let XW := separate X fun f => (2 : ℂ) • W_tilde f - s.W f
  let Z := fun i f => s.dual i f + XW f
  let Y_tilde := fun i f => Z i f - prox i (Z i) (1 / mu2) f
  .ok ⟨fun f => (alpha : ℂ) • W_tilde f + ((1 - alpha : ℝ) : ℂ) • s.W f,
    fun i f => (alpha : ℂ) • Y_tilde i f + ((1 - alpha : ℝ) : ℂ) • s.dual i f⟩

/-- `MaskingPDSBSS.update_once`, `bss/pdsbss.py` L398-412; `mask_fn` is an arbitrary real array of the shape of its
argument. State: `(demix_filter, dual)`. -/
noncomputable def maskingPdsStep (np : Numpy ℂ) (mu1 mu2 alpha : ℝ) (mask : Spec F n t → F → Matrix (Fin n) (Fin t) ℝ)
    (X : Spec F n t) (s : (F → Mat n ℂ) × Spec F n t) : Except PyErr ((F → Mat n ℂ) × Spec F n t) := do
  let XY := fun f => s.2 f * (X f)ᴴ
  let W_tilde ← negLogdetStack np mu1 fun f => s.1 f - ((mu1 * mu2 : ℝ) : ℂ) • XY f
  let XW := separate X fun f => (2 : ℂ) • W_tilde f - s.1 f
  let Z := fun f => s.2 f + XW f
  let Y_tilde := fun f => Z f - Matrix.of fun k j => (mask Z f k j : ℂ) * Z f k j
  .ok (fun f => (alpha : ℂ) • W_tilde f + ((1 - alpha : ℝ) : ℂ) • s.1 f,
    fun f => (alpha : ℂ) • Y_tilde f + ((1 - alpha : ℝ) : ℂ) • s.2 f)

/-! ## ADMMBSS -/

/-- The attributes `demix_filter`, `auxiliary1`, `auxiliary2`, `dual1`, `dual2` of `ADMMBSS`. -/
structure AdmmState (F : Type) (n t q : ℕ) where
  W : F → Mat n ℂ
  V : F → Mat n ℂ
  V_tilde : Fin q → Spec F n t
  Y : F → Mat n ℂ
  Y_tilde : Fin q → Spec F n t

/-- The filter computed by `ADMMBSS.update_once`, `bss/admmbss.py` L230-236. `X.transpose(1, 0, 2).conj() @
X.transpose(1, 2, 0)` is `conj(X) Xᵀ` in every bin, and the system is solved with the right-hand side
`VY + VY_tilde Xᴴ` as it is. -/
noncomputable def admmFilter (X : Spec F n t) (s : AdmmState F n t q) : Except PyErr (F → Mat n ℂ) :=
  let XX := fun f => (X f).map star * (X f)ᵀ
  let VY := fun f => s.V f - s.Y f
  let VY_tilde := fun f => ∑ i, (s.V_tilde i f - s.Y_tilde i f)
  let XVY_tilde := fun f => (X f).map star * (VY_tilde f)ᵀ
  onBins fun f => npSolve ((q : ℂ) • XX f + 1) (VY f + (XVY_tilde f)ᵀ)

/-- `ADMMBSS.update_once`, `bss/admmbss.py` L222-257. -/
noncomputable def admmStep (np : Numpy ℂ) (rho alpha : ℝ) (prox : Fin q → Spec F n t → ℝ → Spec F n t)
    (X : Spec F n t) (s : AdmmState F n t q) : Except PyErr (AdmmState F n t q) := do
  let W ← admmFilter X s
  let XW := separate X W
  let U := fun f => (alpha : ℂ) • W f + ((1 - alpha : ℝ) : ℂ) • s.V f
  let U_tilde := fun i f => (alpha : ℂ) • XW f + ((1 - alpha : ℝ) : ℂ) • s.V_tilde i f
  let V ← negLogdetStack np (1 / rho) fun f => U f + s.Y f
  let V_tilde := fun i => prox i (fun f => U_tilde i f + s.Y_tilde i f) (1 / rho)
  .ok ⟨W, V, V_tilde, fun f => s.Y f + U f - V f, fun i f => s.Y_tilde i f + U_tilde i f - V_tilde i f⟩

/-- `MaskingADMMBSS.update_once`, `bss/admmbss.py` L415-442: one penalty, whose proximal operator is replaced by a mask;
`auxiliary2` and `dual2` have no leading axis. State: `(demix_filter, auxiliary1, auxiliary2, dual1, dual2)`. -/
noncomputable def maskingAdmmStep (np : Numpy ℂ) (rho alpha : ℝ) (mask : Spec F n t → F → Matrix (Fin n) (Fin t) ℝ)
    (X : Spec F n t) (s : (F → Mat n ℂ) × (F → Mat n ℂ) × Spec F n t × (F → Mat n ℂ) × Spec F n t) :
    Except PyErr ((F → Mat n ℂ) × (F → Mat n ℂ) × Spec F n t × (F → Mat n ℂ) × Spec F n t) := do
  let (_, V, V_tilde, Y, Y_tilde) := s
  let XX := fun f => (X f).map star * (X f)ᵀ
  let VY := fun f => V f - Y f
  let VY_tilde := fun f => V_tilde f - Y_tilde f
  let XVY_tilde := fun f => (X f).map star * (VY_tilde f)ᵀ
  let W ← onBins fun f => npSolve (XX f + 1) (VY f + (XVY_tilde f)ᵀ)
  let XW := separate X W
  let U := fun f => (alpha : ℂ) • W f + ((1 - alpha : ℝ) : ℂ) • V f
  let U_tilde := fun f => (alpha : ℂ) • XW f + ((1 - alpha : ℝ) : ℂ) • V_tilde f
  let V' ← negLogdetStack np (1 / rho) fun f => U f + Y f
  let Z := fun f => U_tilde f + Y_tilde f
  let V_tilde' := fun f => Matrix.of fun k j => (mask Z f k j : ℂ) * Z f k j
  .ok (W, V', V_tilde', fun f => Y f + U f - V' f, fun f => Y_tilde f + U_tilde f - V_tilde' f)

/-- The default `prox_penalty` of `PDSIVA` and `ADMMIVA`, `bss/iva.py` L2244-2245 and L2304-2305: `prox.l21` grouped over the
bins. -/
noncomputable def ivaProx {b : ℕ} (x : Spec (Fin b) n t) (step_size : ℝ) : Spec (Fin b) n t :=
  fun f => Matrix.of fun k j => Linalg.l21 step_size (fun p : Fin n × Fin t => fun f => x f p.1 p.2) (k, j) f

/-- The `penalty_fn` of `PDSIVA` and `ADMMIVA` with the default contrast, `bss/iva.py` L2241-2242, L2250-2263. -/
noncomputable def ivaPenalty {b : ℕ} (y : Spec (Fin b) n t) : ℝ :=
  ∑ k : Fin n, ∑ j : Fin t, Real.sqrt (∑ f, ‖y f k j‖ ^ 2)

/-! ## Recording the loss -/

/-- The attribute `penalty_fn`: `None`, a callable (the masking classes) or a list of callables
(`ProxBSSBase.__init__` wraps a single callable into a list, L66-67). -/
inductive Penalty (F : Type) (n t : ℕ) where
  | none
  | fn (p : Spec F n t → ℝ)
  | list (ps : List (Spec F n t → ℝ))

/-- `ProxBSSBase.compute_loss`, `bss/proxbss.py` L172-189. `for penalty_fn in self.penalty_fn` raises `TypeError` if the
attribute is `None` or a function. -/
noncomputable def computeLoss [Fintype F] (p : Penalty F n t) (X : Spec F n t) (W : F → Mat n ℂ) : Except PyErr ℝ :=
  match p with
  | .none => .error .type
  | .fn _ => .error .type
  | .list ps => .ok ((ps.foldl (fun penalty penalty_fn => penalty + penalty_fn (separate X W)) 0)
      - ∑ f, Real.log ‖(W f).det‖)

/-- What the constructors leave in the attribute `record_loss`, given whether `penalty_fn` is given and the argument
`record_loss` (`none` is Python's `None`): `bss/proxbss.py` L53-70, `bss/pdsbss.py` L275-291, `bss/admmbss.py`
L297-313. The value is handed to `IterativeMethodBase.__init__` before it is resolved; the later assignments only change
the local variable. -/
def recordLossAttr (hasPenalty : Bool) (record_loss : Option Bool) : Except PyErr (Option Bool) :=
  let attr := record_loss
  if !hasPenalty then
    let record_loss := record_loss.getD false
    if record_loss then .error .assertion else .ok attr
  else .ok attr

/-- `if self.record_loss: self.loss.append(self.compute_loss())`, `bss/base.py` L60-62, L71-73; `None` is falsy. -/
def recordPoint {σ : Type} (attr : Option Bool) (loss : σ → Except PyErr ℝ) (s : σ) (l : Option (List ℝ)) :
    Except PyErr (Option (List ℝ)) :=
  if attr = some true then do
    let v ← loss s
    .ok (l.map (· ++ [v]))
  else .ok l

/-- The loop of `IterativeMethodBase.__call__`, `bss/base.py` L68-73, with updates and losses that may raise. -/
def proxLoop {σ : Type} (attr : Option Bool) (loss : σ → Except PyErr ℝ) (update : σ → Except PyErr σ) :
    ℕ → σ → Option (List ℝ) → Except PyErr (σ × Option (List ℝ))
  | 0, s, l => .ok (s, l)
  | k + 1, s, l => do
    let s ← update s
    let l ← recordPoint attr loss s l
    proxLoop attr loss update k s l

/-- A first call `method(input, n_iter, initial_call)` without callbacks, up to the scale restoration:
`IterativeMethodBase.__init__` L43-46 (the attribute `loss`) and `__call__` L59-73. -/
def proxCall {σ : Type} (hasPenalty : Bool) (record_loss : Option Bool) (loss : σ → Except PyErr ℝ)
    (update : σ → Except PyErr σ) (n_iter : ℕ) (initial_call : Bool) (s : σ) :
    Except PyErr (σ × Option (List ℝ)) := do
  let attr ← recordLossAttr hasPenalty record_loss
  let l : Option (List ℝ) := if attr = some true then some [] else none
  let l ← if initial_call then recordPoint attr loss s l else .ok l
  proxLoop attr loss update n_iter s l

end Verif.ProxBss
