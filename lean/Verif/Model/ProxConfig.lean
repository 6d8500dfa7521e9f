import Verif.Model.Config
import Verif.Model.ProxCall

/-!
# Constructors of the proximal methods: `bss/proxbss.py`, `bss/pdsbss.py`, `bss/admmbss.py`, `bss/hva.py`, `bss/iva.py`

What the constructors check, what they leave on the object, and what the first call of the new object does. Left out:
`callbacks`, the warnings about deprecated names, arguments of other types than the documented ones (other than a list
where a function is expected).
-/

namespace Verif.ProxBss

open Matrix Spatial Scale Lifecycle Config

/-- An argument that may be `None`, a function or a list of functions. -/
inductive Fns (α : Type) where
  | none
  | fn (f : α)
  | list (l : List α)

/-- The arguments of the constructors of `PDSBSS` and `ADMMBSS`, apart from `mu1`, `mu2` and `rho`, which are only stored. -/
structure ProxArgs (F : Type) (n t : ℕ) where
  penalty : Fns (Spec F n t → ℝ)
  prox : Fns (Spec F n t → ℝ → Spec F n t)
  alpha : Option ℝ
  relaxation : ℝ
  scale : ScaleOpt
  record_loss : Option Bool
  reference : Option (Fin n)

/-- The attributes set by the constructors of `PDSBSS` and `ADMMBSS`. -/
structure ProxSettings (F : Type) (n t : ℕ) where
  penalty : Penalty F n t
  prox : List (Spec F n t → ℝ → Spec F n t)
  relaxation : ℝ
  scale : ScaleOpt
  record_loss : Option Bool
  reference : Option (Fin n)

variable {F : Type} {n t : ℕ}

/-- `PDSBSS(prox_penalty=f)`, all other arguments at their defaults: `bss/pdsbss.py` L91-105. -/
def pdsDefault [NeZero n] (f : Spec F n t → ℝ → Spec F n t) : ProxArgs F n t :=
  ⟨.none, .fn f, none, 1, .bool true, none, some 0⟩

/-- `ADMMBSS(prox_penalty=f)`, all other arguments at their defaults: `bss/admmbss.py` L87-100. -/
def admmDefault [NeZero n] (f : Spec F n t → ℝ → Spec F n t) : ProxArgs F n t :=
  ⟨.none, .fn f, none, 1, .bool true, some true, some 0⟩

/-- `if callable(fn): fn = [fn]`, `bss/proxbss.py` L67-68, L76-77. -/
def Fns.wrap {α : Type} : Fns α → Fns α
  | .fn f => .list [f]
  | x => x

/-- The value of the attribute `penalty_fn`. -/
def Fns.toPenalty : Fns (Spec F n t → ℝ) → Penalty F n t
  | .none => .none
  | .fn p => .fn p
  | .list l => .list l

/-- The deprecated argument `alpha`: `bss/pdsbss.py` L117-124, L311-318; `bss/admmbss.py` L112-119, L333-340. -/
noncomputable def resolveAlpha (alpha : Option ℝ) (relaxation : ℝ) : Except PyErr ℝ :=
  match alpha with
  | none => .ok relaxation
  | some a => open Classical in do
    assert' (relaxation = 1)
    .ok a

/-- `if reference_id is None and scale_restoration: raise ValueError`, `bss/proxbss.py` L89-92, `bss/pdsbss.py` L304-307,
`bss/admmbss.py` L326-329. -/
def checkRef (scale : ScaleOpt) (reference : Option (Fin n)) : Except PyErr Unit :=
  if reference.isNone && scale.truthy then .error .value else .ok ()

/-- `PDSBSS.__init__`, `bss/pdsbss.py` L91-124, and `ADMMBSS.__init__`, `bss/admmbss.py` L87-119, with
`ProxBSSBase.__init__`, `bss/proxbss.py` L42-92. `len` of `prox_penalty` or `penalty_fn` is the length of the list. -/
noncomputable def createProx (a : ProxArgs F n t) : Except PyErr (ProxSettings F n t) := do
  let hasPenalty := match a.penalty with
    | .none => false
    | _ => true
  let attr ← recordLossAttr hasPenalty a.record_loss
  let penalty := a.penalty.wrap
  let prox ← match a.prox.wrap with
    | .none => .error .value
    | .fn f => .ok [f]
    | .list l => .ok l
  match penalty with
  | .list l => assert' (l.length = prox.length)
  | _ => .ok ()
  checkRef a.scale a.reference
  let relaxation ← resolveAlpha a.alpha a.relaxation
  .ok ⟨penalty.toPenalty, prox, relaxation, a.scale, attr, a.reference⟩

/-- What a user sees after a call: the attributes `output`, `demix_filter` and `loss`. -/
structure Seen (F : Type) (n t : ℕ) where
  output : Option (Spec F n t)
  demix : Option (F → Mat n ℂ)
  loss : Option (List ℝ)

variable [Fintype F] [NeZero n]

/-- `method = PDSBSS(...)` and then `method(input, n_iter, initial_call)`. If `reference_id` is `None` it is never looked at
(`checkRef`), and the model passes channel 0. -/
noncomputable def pdsUse (np : Numpy ℂ) (mu1 mu2 : ℝ) (a : ProxArgs F n t) (X : Spec F n t) (n_iter : ℕ)
    (initial_call : Bool) : Except PyErr (Seen F n t) := do
  let s ← createProx a
  let o ← pdsCall np mu1 mu2 s.relaxation (fun i => s.prox.get i) s.penalty s.record_loss s.scale (s.reference.getD 0) X
    n_iter initial_call {} (PdsObj.fresh s.record_loss)
  .ok ⟨o.output, o.demix, o.loss⟩

/-- `method = ADMMBSS(...)` and then `method(input, n_iter, initial_call)`. -/
noncomputable def admmUse (np : Numpy ℂ) (rho : ℝ) (a : ProxArgs F n t) (X : Spec F n t) (n_iter : ℕ)
    (initial_call : Bool) : Except PyErr (Seen F n t) := do
  let s ← createProx a
  let o ← admmCall np rho s.relaxation (fun i => s.prox.get i) s.penalty s.record_loss s.scale (s.reference.getD 0) X
    n_iter initial_call {} (AdmmObj.fresh s.record_loss)
  .ok ⟨o.output, o.demix, o.loss⟩

/-! ## Masking -/

/-- The arguments of the constructors of `MaskingPDSBSS` and `MaskingADMMBSS`. -/
structure MaskArgs (F : Type) (n t : ℕ) where
  penalty : Fns (Spec F n t → ℝ)
  mask : Fns (Spec F n t → F → Matrix (Fin n) (Fin t) ℝ)
  alpha : Option ℝ
  relaxation : ℝ
  scale : ScaleOpt
  record_loss : Option Bool
  reference : Option (Fin n)

/-- The attributes they set. -/
structure MaskSettings (F : Type) (n t : ℕ) where
  penalty : Penalty F n t
  mask : Spec F n t → F → Matrix (Fin n) (Fin t) ℝ
  relaxation : ℝ
  scale : ScaleOpt
  record_loss : Option Bool
  reference : Option (Fin n)

omit [Fintype F] [NeZero n] in
/-- `MaskingPDSBSS.__init__`, `bss/pdsbss.py` L260-318, and `MaskingADMMBSS.__init__`, `bss/admmbss.py` L283-340. The
penalty is not wrapped into a list. -/
noncomputable def createMask (a : MaskArgs F n t) : Except PyErr (MaskSettings F n t) := do
  let attr ← match a.penalty with
    | .none => recordLossAttr false a.record_loss
    | .fn _ => recordLossAttr true a.record_loss
    | .list _ => .error .assertion
  let mask ← match a.mask with
    | .none => .error .value
    | .fn m => .ok m
    | .list _ => .error .assertion
  checkRef a.scale a.reference
  let relaxation ← resolveAlpha a.alpha a.relaxation
  .ok ⟨a.penalty.toPenalty, mask, relaxation, a.scale, attr, a.reference⟩

omit [Fintype F] [NeZero n] in
/-- `MaskingPDSHVA.__init__`, `bss/hva.py` L63-136, and `MaskingADMMHVA.__init__`, L183-256: no penalty, and the mask of
harmonic vector analysis. -/
noncomputable def createHva (mask : Spec F n t → F → Matrix (Fin n) (Fin t) ℝ) (alpha : Option ℝ) (relaxation : ℝ)
    (scale : ScaleOpt) (record_loss : Option Bool) (reference : Option (Fin n)) : Except PyErr (MaskSettings F n t) :=
  createMask ⟨.none, .fn mask, alpha, relaxation, scale, record_loss, reference⟩

/-- `method = MaskingPDSBSS(...)` and then `method(input, n_iter, initial_call)`. -/
noncomputable def maskPdsUse (np : Numpy ℂ) (mu1 mu2 : ℝ) (a : MaskArgs F n t) (X : Spec F n t) (n_iter : ℕ)
    (initial_call : Bool) : Except PyErr (Seen F n t) := do
  let s ← createMask a
  let o ← maskingPdsCall np mu1 mu2 s.relaxation s.mask s.penalty s.record_loss s.scale (s.reference.getD 0) X n_iter
    initial_call {} ⟨none, none, none, if s.record_loss = some true then some [] else none⟩
  .ok ⟨o.output, o.demix, o.loss⟩

/-- `method = MaskingADMMBSS(...)` and then `method(input, n_iter, initial_call)`. -/
noncomputable def maskAdmmUse (np : Numpy ℂ) (rho : ℝ) (a : MaskArgs F n t) (X : Spec F n t) (n_iter : ℕ)
    (initial_call : Bool) : Except PyErr (Seen F n t) := do
  let s ← createMask a
  let o ← maskingAdmmCall np rho s.relaxation s.mask s.penalty s.record_loss s.scale (s.reference.getD 0) X n_iter
    initial_call {} ⟨none, none, none, none, none, none, if s.record_loss = some true then some [] else none⟩
  .ok ⟨o.output, o.demix, o.loss⟩

/-! ## Independent vector analysis -/

/-- The arguments of the constructors of `PDSIVA` and `ADMMIVA`; `contrast_fn` maps a spectrogram to an array over sources
and frames. -/
structure IvaArgs (b n t : ℕ) where
  contrast : Option (Spec (Fin b) n t → Fin n → Fin t → ℝ)
  prox : Option (Spec (Fin b) n t → ℝ → Spec (Fin b) n t)
  alpha : Option ℝ
  relaxation : ℝ
  scale : ScaleOpt
  record_loss : Option Bool
  reference : Option (Fin n)

omit [NeZero n] in
/-- `PDSIVA.__init__`, `bss/iva.py` L2218-2277, and `ADMMIVA.__init__`, L2281-2338. -/
noncomputable def ivaToProx {b : ℕ} (a : IvaArgs b n t) : Except PyErr (ProxArgs (Fin b) n t) :=
  match a.contrast, a.prox with
  | some _, none => .error .value
  | none, some _ => .error .value
  | none, none =>
    .ok ⟨.fn fun y => ∑ k : Fin n, ∑ j : Fin t, Real.sqrt (∑ f, ‖y f k j‖ ^ 2), .fn ivaProx, a.alpha, a.relaxation, a.scale,
      a.record_loss, a.reference⟩
  | some g, some p =>
    .ok ⟨.fn fun y => ∑ k, ∑ j, g y k j, .fn p, a.alpha, a.relaxation, a.scale, a.record_loss, a.reference⟩

/-- `PDSIVA(...)(input, n_iter, initial_call)`. -/
noncomputable def pdsIvaUse {b : ℕ} (np : Numpy ℂ) (mu1 mu2 : ℝ) (a : IvaArgs b n t) (X : Spec (Fin b) n t) (n_iter : ℕ)
    (initial_call : Bool) : Except PyErr (Seen (Fin b) n t) := do
  let a ← ivaToProx a
  pdsUse np mu1 mu2 a X n_iter initial_call

/-- `ADMMIVA(...)(input, n_iter, initial_call)`. -/
noncomputable def admmIvaUse {b : ℕ} (np : Numpy ℂ) (rho : ℝ) (a : IvaArgs b n t) (X : Spec (Fin b) n t) (n_iter : ℕ)
    (initial_call : Bool) : Except PyErr (Seen (Fin b) n t) := do
  let a ← ivaToProx a
  admmUse np rho a X n_iter initial_call

/-! ## Deprecated names of keyword arguments -/

/-- The keyword arguments of a call of `ADMMBSS` as the user writes them. -/
structure AdmmRawKw (F : Type) (n t q : ℕ) extends AdmmKw F n t q where
  aux1 : Option (F → Mat n ℂ) := none
  aux2 : Option (Fin q → Spec F n t) := none

omit [Fintype F] [NeZero n] in
/-- `ADMMBSS._reset`, `bss/admmbss.py` L175-183: `kwargs["auxiliary1"] = kwargs.pop("aux1")`. -/
def AdmmRawKw.rename {q : ℕ} (kw : AdmmRawKw F n t q) : AdmmKw F n t q :=
  { kw.toAdmmKw with
    auxiliary1 := match kw.aux1 with
      | some v => some v
      | none => kw.auxiliary1
    auxiliary2 := match kw.aux2 with
      | some v => some v
      | none => kw.auxiliary2 }

end Verif.ProxBss
