import Verif.Model.MnmfPart
import Verif.Model.IlrmaCall

/-!
# Complete calls of `GaussMNMF` and `FastGaussMNMF`

`_reset`, `_init_nmf`, `_init_spatial`, `_init_diagonalizer`, the iterations and the end of `__call__` of `bss/mnmf.py`. The
numbers drawn by `rng.random` are parameters. Shapes are fixed by the types: an object is only called with mixtures of one
shape, and `n` is the number of sources the first call settles on (L157-160). The flooring function of the object is used
everywhere (L181, L213, L521).
-/

namespace Verif.MnmfCall

open Scale Mnmf Lifecycle
open Ilrma (recon reconP FilterAlg)
open IlrmaCall (override attrOr initNmf initNmfP baseCall Draw DrawP)

variable {F : Type} [Fintype F] {n m t K : ℕ}

/-- The separated signals, at bin `f`, frame `j` and source `k`. -/
abbrev Out (F : Type) (n t : ℕ) := F → Fin t → Fin n → ℂ

/-! ## `GaussMNMF` without partitioning -/

/-- The attributes that survive a call. -/
structure Obj (F : Type) (n m t K : ℕ) where
  basis : Attr (Fin n → F → Fin K → ℝ)
  activation : Attr (Fin n → Fin K → Fin t → ℝ)
  spatial : Attr (Fin n → F → Mat m ℂ)
  output : Attr (Out F n t)
  loss : List ℝ

/-- A new object. -/
def Obj.fresh : Obj F n m t K := ⟨.absent, .absent, .absent, .absent, []⟩

/-- The keyword arguments of a call that set attributes, L149-150. -/
structure Kw (F : Type) (n m t K : ℕ) where
  basis : Option (Fin n → F → Fin K → ℝ) := none
  activation : Option (Fin n → Fin K → Fin t → ℝ) := none
  spatial : Option (Fin n → F → Mat m ℂ) := none

/-- `np.eye(n_channels) / trace`, L343-346. -/
noncomputable def eyeOverTrace (m : ℕ) : Mat m ℂ := (((1 : Mat m ℂ).trace.re : ℂ))⁻¹ • 1

/-- `_reset`, L139-165, `_init_nmf`, L190-259 and L327-353. The signals separated here are overwritten at the end of the
call. -/
noncomputable def reset (np : Numpy ℂ) (floor : ℝ → ℝ) (r : Fin m) (draw : Draw F n t K) (X : Spec F m t) (kw : Kw F n m t K)
    (o : Obj F n m t K) : Except PyErr (MSt F n m t K) := do
  let (T, V) ← initNmf floor draw.T draw.V (override kw.basis o.basis) (override kw.activation o.activation)
  let H ← attrOr (fun _ _ => eyeOverTrace m) (override kw.spatial o.spatial)
  let _ ← fullSeparate np floor r X (recon T V) H
  .ok ⟨T, V, H⟩

/-- `__call__`, L90-118. -/
noncomputable def call (np : Numpy ℂ) (normalization : Bool) (floor : ℝ → ℝ) (r : Fin m) (draw : Draw F n t K)
    (X : Spec F m t) (n_iter : ℕ) (initial_call : Bool) (kw : Kw F n m t K) (o : Obj F n m t K) :
    Except PyErr (Obj F n m t K) := do
  let s ← reset np floor r draw X kw o
  let XX := instantCovariance np floor X
  let (s, ls) ← baseCall (fullUpdateOnce np normalization floor XX) (fun s => fullLoss np floor XX (recon s.T s.V) s.H)
    initial_call n_iter s o.loss
  let Y ← fullSeparate np floor r X (recon s.T s.V) s.H
  .ok ⟨.val s.T, .val s.V, .val s.H, .val Y, ls⟩

/-! ## `GaussMNMF` with partitioning -/

/-- The attributes that survive a call. -/
structure ObjP (F : Type) (n m t K : ℕ) where
  latent : Attr (Fin n → Fin K → ℝ)
  basis : Attr (F → Fin K → ℝ)
  activation : Attr (Fin K → Fin t → ℝ)
  spatial : Attr (Fin n → F → Mat m ℂ)
  output : Attr (Out F n t)
  loss : List ℝ

/-- A new object. -/
def ObjP.fresh : ObjP F n m t K := ⟨.absent, .absent, .absent, .absent, .absent, []⟩

/-- The keyword arguments of a call that set attributes. -/
structure KwP (F : Type) (n m t K : ℕ) where
  latent : Option (Fin n → Fin K → ℝ) := none
  basis : Option (F → Fin K → ℝ) := none
  activation : Option (Fin K → Fin t → ℝ) := none
  spatial : Option (Fin n → F → Mat m ℂ) := none

/-- `_reset` and `_init_nmf` with partitioning. -/
noncomputable def resetP (np : Numpy ℂ) (floor : ℝ → ℝ) (r : Fin m) (draw : DrawP F n t K) (X : Spec F m t)
    (kw : KwP F n m t K) (o : ObjP F n m t K) : Except PyErr (MStP F n m t K) := do
  let (Z, T, V) ← initNmfP floor draw.Z draw.T draw.V (override kw.latent o.latent) (override kw.basis o.basis)
    (override kw.activation o.activation)
  let H ← attrOr (fun _ _ => eyeOverTrace m) (override kw.spatial o.spatial)
  let _ ← fullSeparate np floor r X (reconP Z T V) H
  .ok ⟨Z, T, V, H⟩

/-- `__call__` with partitioning. -/
noncomputable def callP (np : Numpy ℂ) (normalization : Bool) (floor : ℝ → ℝ) (r : Fin m) (draw : DrawP F n t K)
    (X : Spec F m t) (n_iter : ℕ) (initial_call : Bool) (kw : KwP F n m t K) (o : ObjP F n m t K) :
    Except PyErr (ObjP F n m t K) := do
  let s ← resetP np floor r draw X kw o
  let XX := instantCovariance np floor X
  let (s, ls) ← baseCall (fullUpdateOnceP np normalization floor XX)
    (fun s => fullLoss np floor XX (reconP s.Z s.T s.V) s.H) initial_call n_iter s o.loss
  let Y ← fullSeparate np floor r X (reconP s.Z s.T s.V) s.H
  .ok ⟨.val s.Z, .val s.T, .val s.V, .val s.H, .val Y, ls⟩

/-! ## `FastGaussMNMF` -/

/-- The attributes that survive a call. -/
structure ObjF (F : Type) (n m t K : ℕ) where
  diagonalizer : Attr (F → Mat m ℂ)
  basis : Attr (Fin n → F → Fin K → ℝ)
  activation : Attr (Fin n → Fin K → Fin t → ℝ)
  spatial : Attr (F → Fin n → Fin m → ℝ)
  output : Attr (Out F n t)
  loss : List ℝ

/-- A new object. -/
def ObjF.fresh : ObjF F n m t K := ⟨.absent, .absent, .absent, .absent, .absent, []⟩

/-- The keyword arguments of a call that set attributes. -/
structure KwF (F : Type) (n m t K : ℕ) where
  diagonalizer : Option (F → Mat m ℂ) := none
  basis : Option (Fin n → F → Fin K → ℝ) := none
  activation : Option (Fin n → Fin K → Fin t → ℝ) := none
  spatial : Option (F → Fin n → Fin m → ℝ) := none

/-- `FastMNMFBase._reset`, L499-540, with `_init_diagonalizer`, L542-564, and `_init_spatial`, L566-600; `drawD` are the
numbers drawn in the latter. `spatial` is not copied, but `None` has no method `transpose` either, L1199. -/
noncomputable def resetF (np : Numpy ℂ) (floor : ℝ → ℝ) (r : Fin m) (draw : Draw F n t K) (drawD : F → Fin n → Fin m → ℝ)
    (X : Spec F m t) (kw : KwF F n m t K) (o : ObjF F n m t K) : Except PyErr (FSt F n m t K) := do
  let (T, V) ← initNmf floor draw.T draw.V (override kw.basis o.basis) (override kw.activation o.activation)
  let Q ← attrOr (fun _ => 1) (override kw.diagonalizer o.diagonalizer)
  let D ← attrOr (fun f k c => floor (drawD f k c)) (override kw.spatial o.spatial)
  let _ ← fastSeparate np floor r X (⟨Q, T, V, D⟩ : FSt F n m t K)
  .ok ⟨Q, T, V, D⟩

/-- `__call__`, L90-118. -/
noncomputable def callF (np : Numpy ℂ) (alg : FilterAlg m) (normalization : Bool) (floor : ℝ → ℝ) (r : Fin m)
    (draw : Draw F n t K) (drawD : F → Fin n → Fin m → ℝ) (X : Spec F m t) (n_iter : ℕ) (initial_call : Bool)
    (kw : KwF F n m t K) (o : ObjF F n m t K) : Except PyErr (ObjF F n m t K) := do
  let s ← resetF np floor r draw drawD X kw o
  let (s, ls) ← baseCall (fastUpdateOnce np alg normalization floor X) (fun s => .ok (fastLoss X s)) initial_call n_iter s
    o.loss
  let Y ← fastSeparate np floor r X s
  .ok ⟨.val s.Q, .val s.T, .val s.V, .val s.D, .val Y, ls⟩

end Verif.MnmfCall
