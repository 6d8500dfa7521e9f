import Verif.Model.Ilrma
import Verif.Model.Lifecycle

/-!
# Complete calls of the ILRMA classes: `_reset`, `_init_nmf`, the iterations and the end of `__call__`

The numbers drawn by `rng.random` are parameters (`drawZ`, `drawT`, `drawV`). Shapes are fixed by the types: an object is
only called with mixtures of one shape.
-/

namespace Verif.IlrmaCall

open Scale Ilrma Lifecycle

variable {F : Type} [Fintype F] {n t K : ℕ}

/-- `setattr(self, key, kwargs[key])` if the keyword argument is given, `bss/ilrma.py` L173-174. -/
def override {α : Type} (kw : Option α) (attr : Attr α) : Attr α :=
  match kw with
  | some a => .val a
  | none => attr

/-- `if not hasattr(self, key): fresh else: self.key.copy()`, the pattern of `_init_nmf`, L229-275; `None` has no method
`copy`. -/
def attrOr {α : Type} (fresh : α) : Attr α → Except PyErr α
  | .absent => .ok fresh
  | .none => .error .attribute
  | .val a => .ok a

/-- `_init_nmf` without partitioning, L257-275. -/
def initNmf (floor : ℝ → ℝ) (drawT : Fin n → F → Fin K → ℝ) (drawV : Fin n → Fin K → Fin t → ℝ)
    (basis : Attr (Fin n → F → Fin K → ℝ)) (activation : Attr (Fin n → Fin K → Fin t → ℝ)) :
    Except PyErr ((Fin n → F → Fin K → ℝ) × (Fin n → Fin K → Fin t → ℝ)) := do
  let T ← attrOr (fun k f b => floor (drawT k f b)) basis
  let V ← attrOr (fun k b j => floor (drawV k b j)) activation
  .ok (T, V)

/-- `Z / Z.sum(axis=0)` and flooring, L231-233. -/
noncomputable def initLatent (floor : ℝ → ℝ) (drawZ : Fin n → Fin K → ℝ) : Fin n → Fin K → ℝ :=
  fun k b => floor (drawZ k b / ∑ k', drawZ k' b)

/-- `_init_nmf` with partitioning, L229-255. -/
noncomputable def initNmfP (floor : ℝ → ℝ) (drawZ : Fin n → Fin K → ℝ) (drawT : F → Fin K → ℝ) (drawV : Fin K → Fin t → ℝ)
    (latent : Attr (Fin n → Fin K → ℝ)) (basis : Attr (F → Fin K → ℝ)) (activation : Attr (Fin K → Fin t → ℝ)) :
    Except PyErr ((Fin n → Fin K → ℝ) × (F → Fin K → ℝ) × (Fin K → Fin t → ℝ)) := do
  let Z ← attrOr (initLatent floor drawZ) latent
  let T ← attrOr (fun f b => floor (drawT f b)) basis
  let V ← attrOr (fun b j => floor (drawV b j)) activation
  .ok (Z, T, V)

/-- `IterativeMethodBase.__call__` (`bss/base.py` L45-74) with `record_loss=True` and without callbacks, the iterations:
the final state and the attribute `loss`, which was `ls` before. -/
def iterations {σ : Type} (step : σ → Except PyErr σ) (loss : σ → Except PyErr ℝ) :
    ℕ → σ → List ℝ → Except PyErr (σ × List ℝ)
  | 0, s, ls => .ok (s, ls)
  | n_iter + 1, s, ls => do
    let s ← step s
    let v ← loss s
    iterations step loss n_iter s (ls ++ [v])

/-- The same with the point recorded before the iterations if `initial_call`, L55-62. -/
def baseCall {σ : Type} (step : σ → Except PyErr σ) (loss : σ → Except PyErr ℝ) (initial_call : Bool) (n_iter : ℕ) (s : σ)
    (ls : List ℝ) : Except PyErr (σ × List ℝ) := do
  if initial_call then
    let v ← loss s
    iterations step loss n_iter s (ls ++ [v])
  else
    iterations step loss n_iter s ls

/-! ## Without partitioning -/

/-- The attributes that survive a call. -/
structure Obj (F : Type) (n t K : ℕ) where
  demix : Attr (F → Mat n ℂ)
  basis : Attr (Fin n → F → Fin K → ℝ)
  activation : Attr (Fin n → Fin K → Fin t → ℝ)
  output : Attr (Spec F n t)
  loss : List ℝ

/-- A new object; `self.loss = []`. -/
def Obj.fresh : Obj F n t K := ⟨.absent, .absent, .absent, .absent, []⟩

/-- The keyword arguments of a call that set attributes. -/
structure Kw (F : Type) (n t K : ℕ) where
  demix : Option (F → Mat n ℂ) := none
  basis : Option (Fin n → F → Fin K → ℝ) := none
  activation : Option (Fin n → Fin K → Fin t → ℝ) := none

/-- The numbers drawn in `_init_nmf`. -/
structure Draw (F : Type) (n t K : ℕ) where
  T : Fin n → F → Fin K → ℝ
  V : Fin n → Fin K → Fin t → ℝ

/-- The value of `spatial_algorithm`. -/
def label : FilterAlg n → Spatial
  | .ip1 => .IP1
  | .ip2 _ => .IP2

/-- The value of `spatial_algorithm`. -/
def labelY : SignalAlg n → Spatial
  | .iss1 => .ISS1
  | .iss2 _ => .ISS2

/-- `_reset` of an object whose algorithm keeps a filter: L171-199, L893-898 (`TILRMA` L2273-2278, `GGDILRMA`
L3616-3621). -/
noncomputable def resetFilter (alg : FilterAlg n) (floor : ℝ → ℝ) (draw : Draw F n t K) (X : Spec F n t) (kw : Kw F n t K)
    (o : Obj F n t K) : Except PyErr (St F n t K) := do
  let (W, _) ← Lifecycle.reset (label alg) X kw.demix ⟨o.demix, o.output⟩
  let (T, V) ← initNmf floor draw.T draw.V (override kw.basis o.basis) (override kw.activation o.activation)
  match W with
  | some W => .ok ⟨W, T, V⟩
  | none => .error .value

/-- `__call__` of `GaussILRMA` L840-855, `TILRMA` L2219-2234, `GGDILRMA` L3562-3577 with IP1 or IP2. -/
noncomputable def call (np : Numpy ℂ) (src : Source) (p : ℝ) (alg : FilterAlg n) (norm : Norm n) (floor : ℝ → ℝ)
    (sr : ScaleOpt) (r : Fin n) (draw : Draw F n t K) (X : Spec F n t) (n_iter : ℕ) (initial_call : Bool)
    (kw : Kw F n t K) (o : Obj F n t K) : Except PyErr (Obj F n t K) := do
  let s ← resetFilter alg floor draw X kw o
  let (s, ls) ← baseCall (updateOnce np src p alg norm floor X) (fun s => .ok (loss src X s)) initial_call n_iter s o.loss
  let (Y, W) ← finish sr r X s.W
  .ok ⟨.val W, .val s.T, .val s.V, .val Y, ls⟩

/-- `_reset` of an object whose algorithm keeps no filter. -/
noncomputable def resetSignal (alg : SignalAlg n) (floor : ℝ → ℝ) (draw : Draw F n t K) (X : Spec F n t) (kw : Kw F n t K)
    (o : Obj F n t K) : Except PyErr (StY F n t K) := do
  let (_, Y) ← Lifecycle.reset (labelY alg) X kw.demix ⟨o.demix, o.output⟩
  let (T, V) ← initNmf floor draw.T draw.V (override kw.basis o.basis) (override kw.activation o.activation)
  .ok ⟨Y, T, V⟩

/-- `__call__` with ISS1 or ISS2. -/
noncomputable def callSignal (np : Numpy ℂ) (src : Source) (p : ℝ) (alg : SignalAlg n) (norm : Norm n) (floor : ℝ → ℝ)
    (sr : ScaleOpt) (r : Fin n) (draw : Draw F n t K) (X : Spec F n t) (n_iter : ℕ) (initial_call : Bool)
    (kw : Kw F n t K) (o : Obj F n t K) : Except PyErr (Obj F n t K) := do
  let s ← resetSignal alg floor draw X kw o
  let (s, ls) ← baseCall (updateOnceY np src p alg norm floor X) (lossY src X) initial_call n_iter s o.loss
  let Y ← finishFree sr r X s.Y
  .ok ⟨.none, .val s.T, .val s.V, .val Y, ls⟩

/-! ## With partitioning -/

/-- The attributes that survive a call. -/
structure ObjP (F : Type) (n t K : ℕ) where
  demix : Attr (F → Mat n ℂ)
  latent : Attr (Fin n → Fin K → ℝ)
  basis : Attr (F → Fin K → ℝ)
  activation : Attr (Fin K → Fin t → ℝ)
  output : Attr (Spec F n t)
  loss : List ℝ

/-- A new object. -/
def ObjP.fresh : ObjP F n t K := ⟨.absent, .absent, .absent, .absent, .absent, []⟩

/-- The keyword arguments of a call that set attributes. -/
structure KwP (F : Type) (n t K : ℕ) where
  demix : Option (F → Mat n ℂ) := none
  latent : Option (Fin n → Fin K → ℝ) := none
  basis : Option (F → Fin K → ℝ) := none
  activation : Option (Fin K → Fin t → ℝ) := none

/-- The numbers drawn in `_init_nmf`. -/
structure DrawP (F : Type) (n t K : ℕ) where
  Z : Fin n → Fin K → ℝ
  T : F → Fin K → ℝ
  V : Fin K → Fin t → ℝ

/-- `_reset` of an object whose algorithm keeps a filter. -/
noncomputable def resetFilterP (alg : FilterAlg n) (floor : ℝ → ℝ) (draw : DrawP F n t K) (X : Spec F n t)
    (kw : KwP F n t K) (o : ObjP F n t K) : Except PyErr (StP F n t K) := do
  let (W, _) ← Lifecycle.reset (label alg) X kw.demix ⟨o.demix, o.output⟩
  let (Z, T, V) ← initNmfP floor draw.Z draw.T draw.V (override kw.latent o.latent) (override kw.basis o.basis)
    (override kw.activation o.activation)
  match W with
  | some W => .ok ⟨W, Z, T, V⟩
  | none => .error .value

/-- `__call__` with partitioning and IP1 or IP2. -/
noncomputable def callP (np : Numpy ℂ) (src : Source) (p : ℝ) (alg : FilterAlg n) (norm : Norm n) (floor : ℝ → ℝ)
    (sr : ScaleOpt) (r : Fin n) (draw : DrawP F n t K) (X : Spec F n t) (n_iter : ℕ) (initial_call : Bool)
    (kw : KwP F n t K) (o : ObjP F n t K) : Except PyErr (ObjP F n t K) := do
  let s ← resetFilterP alg floor draw X kw o
  let (s, ls) ← baseCall (updateOnceP np src p alg norm floor X) (fun s => .ok (lossP src X s)) initial_call n_iter s
    o.loss
  let (Y, W) ← finish sr r X s.W
  .ok ⟨.val W, .val s.Z, .val s.T, .val s.V, .val Y, ls⟩

/-- `_reset` of an object whose algorithm keeps no filter. -/
noncomputable def resetSignalP (alg : SignalAlg n) (floor : ℝ → ℝ) (draw : DrawP F n t K) (X : Spec F n t)
    (kw : KwP F n t K) (o : ObjP F n t K) : Except PyErr (StYP F n t K) := do
  let (_, Y) ← Lifecycle.reset (labelY alg) X kw.demix ⟨o.demix, o.output⟩
  let (Z, T, V) ← initNmfP floor draw.Z draw.T draw.V (override kw.latent o.latent) (override kw.basis o.basis)
    (override kw.activation o.activation)
  .ok ⟨Y, Z, T, V⟩

/-- `__call__` with partitioning and ISS1 or ISS2. -/
noncomputable def callSignalP (np : Numpy ℂ) (src : Source) (p : ℝ) (alg : SignalAlg n) (norm : Norm n) (floor : ℝ → ℝ)
    (sr : ScaleOpt) (r : Fin n) (draw : DrawP F n t K) (X : Spec F n t) (n_iter : ℕ) (initial_call : Bool)
    (kw : KwP F n t K) (o : ObjP F n t K) : Except PyErr (ObjP F n t K) := do
  let s ← resetSignalP alg floor draw X kw o
  let (s, ls) ← baseCall (updateOnceYP np src p alg norm floor) (lossYP src X) initial_call n_iter s o.loss
  let Y ← finishFree sr r X s.Y
  .ok ⟨.none, .val s.Z, .val s.T, .val s.V, .val Y, ls⟩

end Verif.IlrmaCall
