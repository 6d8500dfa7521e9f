import Verif.Model.GradCall
import Verif.Model.IpsdtaCall
import Verif.Model.IvaCall
import Verif.Model.MnmfCall

/-!
# `record_loss`

The calls of `Verif.Model.IlrmaCall`, `IvaCall`, `FdicaCall`, `GradCall`, `MnmfCall` and `IpsdtaCall` are those of objects
made with `record_loss=True`. Here the same calls with the option `record_loss`. Without callbacks.
-/

namespace Verif.RecordLoss

open Scale Lifecycle

/-- What `IterativeMethodBase.__call__` does at one point (`bss/base.py` L58-61, L69-71): the attribute `loss` afterwards.
With `record_loss=False` it is `None` (L43) and stays so; nothing is computed. -/
def point {σ : Type} (record_loss : Bool) (loss : σ → Except PyErr ℝ) (s : σ) (ls : Option (List ℝ)) :
    Except PyErr (Option (List ℝ)) :=
  if record_loss then do
    let v ← loss s
    match ls with
    | some ls => .ok (some (ls ++ [v]))
    | none => .error .attribute
  else .ok ls

/-- The loop of `IterativeMethodBase.__call__`, `bss/base.py` L67-75. -/
def loop {σ : Type} (record_loss : Bool) (step : σ → Except PyErr σ) (loss : σ → Except PyErr ℝ) :
    ℕ → σ → Option (List ℝ) → Except PyErr (σ × Option (List ℝ))
  | 0, s, ls => .ok (s, ls)
  | n_iter + 1, s, ls => do
    let s ← step s
    let ls ← point record_loss loss s ls
    loop record_loss step loss n_iter s ls

/-- A separator with its options and a recording: what `__call__` does before the iterations, in an iteration, to compute the
loss and after the iterations, where `O` are the attributes left, as a function of the attribute `loss`. -/
structure Method (σ O : Type) where
  start : Except PyErr σ
  step : σ → Except PyErr σ
  loss : σ → Except PyErr ℝ
  finish : σ → Except PyErr (List ℝ → O)

/-- `__call__` of an object made with `record_loss` (`bss/base.py` L38-43) whose attribute `loss` is `ls`: the attributes
left, and the attribute `loss`. -/
def Method.call {σ O : Type} (m : Method σ O) (record_loss initial_call : Bool) (n_iter : ℕ) (ls : Option (List ℝ)) :
    Except PyErr ((List ℝ → O) × Option (List ℝ)) := do
  let s ← m.start
  let ls ← if initial_call then point record_loss m.loss s ls else .ok ls
  let (s, ls) ← loop record_loss m.step m.loss n_iter s ls
  let o ← m.finish s
  .ok (o, ls)

variable {F : Type} [Fintype F] {n t K : ℕ}

section ilrma

open Ilrma IlrmaCall

variable (np : Numpy ℂ) (src : Source) (p : ℝ) (norm : Norm n) (floor : ℝ → ℝ) (sr : ScaleOpt) (r : Fin n) (X : Spec F n t)

/-- `GaussILRMA`, `TILRMA`, `GGDILRMA` with IP1 or IP2: `bss/ilrma.py` L820-855, L2199-2234, L3542-3577. -/
noncomputable def ilrma (alg : FilterAlg n) (draw : Draw F n t K) (kw : Kw F n t K) (o : IlrmaCall.Obj F n t K) :
    Method (St F n t K) (IlrmaCall.Obj F n t K) where
  start := resetFilter alg floor draw X kw o
  step := updateOnce np src p alg norm floor X
  loss s := .ok (Ilrma.loss src X s)
  finish s := do
    let (Y, W) ← Lifecycle.finish sr r X s.W
    .ok fun ls => ⟨.val W, .val s.T, .val s.V, .val Y, ls⟩

/-- The same with ISS1 or ISS2. -/
noncomputable def ilrmaSignal (alg : SignalAlg n) (draw : Draw F n t K) (kw : Kw F n t K) (o : IlrmaCall.Obj F n t K) :
    Method (StY F n t K) (IlrmaCall.Obj F n t K) where
  start := resetSignal alg floor draw X kw o
  step := updateOnceY np src p alg norm floor X
  loss := lossY src X
  finish s := do
    let Y ← finishFree sr r X s.Y
    .ok fun ls => ⟨.none, .val s.T, .val s.V, .val Y, ls⟩

/-- With partitioning, IP1 or IP2. -/
noncomputable def ilrmaP (alg : FilterAlg n) (draw : DrawP F n t K) (kw : KwP F n t K) (o : ObjP F n t K) :
    Method (StP F n t K) (ObjP F n t K) where
  start := resetFilterP alg floor draw X kw o
  step := updateOnceP np src p alg norm floor X
  loss s := .ok (lossP src X s)
  finish s := do
    let (Y, W) ← Lifecycle.finish sr r X s.W
    .ok fun ls => ⟨.val W, .val s.Z, .val s.T, .val s.V, .val Y, ls⟩

/-- With partitioning, ISS1 or ISS2. -/
noncomputable def ilrmaSignalP (alg : SignalAlg n) (draw : DrawP F n t K) (kw : KwP F n t K) (o : ObjP F n t K) :
    Method (StYP F n t K) (ObjP F n t K) where
  start := resetSignalP alg floor draw X kw o
  step := updateOnceYP np src p alg norm floor
  loss := lossYP src X
  finish s := do
    let Y ← finishFree sr r X s.Y
    .ok fun ls => ⟨.none, .val s.Z, .val s.T, .val s.V, .val Y, ls⟩

end ilrma

section iva

open Ilrma (FilterAlg SignalAlg)

variable (np : Numpy ℂ) (floor : ℝ → ℝ) (G d : Fin n → Fin t → ℝ → ℝ) (sr : ScaleOpt) (r : Fin n) (X : Spec F n t)

/-- `AuxIVA` with IP1 or IP2, `bss/iva.py` L1637-1672. -/
noncomputable def iva (alg : FilterAlg n) (kw : Option (F → Mat n ℂ)) (o : IvaCall.Obj F n t) :
    Method (F → Mat n ℂ) (IvaCall.Obj F n t) where
  start := IvaCall.reset alg X kw o
  step := IvaCall.update np alg floor d X
  loss W := .ok (Iva.lossIp G X W)
  finish W := do
    let (Y, W) ← Lifecycle.finish sr r X W
    .ok fun ls => ⟨.val W, .val Y, ls⟩

/-- `AuxIVA` with ISS1 or ISS2. -/
noncomputable def ivaSignal (alg : SignalAlg n) (kw : Option (F → Mat n ℂ)) (o : IvaCall.Obj F n t) :
    Method (Spec F n t) (IvaCall.Obj F n t) where
  start := do
    let (_, Y) ← Lifecycle.reset (IlrmaCall.labelY alg) X kw ⟨o.demix, o.output⟩
    .ok Y
  step := IvaCall.updateY np alg floor d
  loss := Iva.lossFree G X
  finish Y := do
    let Y ← finishFree sr r X Y
    .ok fun ls => ⟨.none, .val Y, ls⟩

/-- `AuxGaussIVA` with IP1 or IP2. -/
noncomputable def gaussIva (alg : FilterAlg n) (kw : Option (F → Mat n ℂ)) (o : IvaCall.GaussObj F n t) :
    Method (Iva.GaussState F n t) (IvaCall.GaussObj F n t) where
  start := IvaCall.gaussReset alg X kw o
  step := IvaCall.gaussUpdate np alg floor X
  loss s := .ok (Iva.gaussLoss X s)
  finish s := do
    let (Y, W) ← Lifecycle.finish sr r X s.W
    .ok fun ls => ⟨.val W, .val s.variance, .val Y, ls⟩

/-- `FastIVA`, `bss/iva.py` L1102-1137. -/
noncomputable def fastIva (g d dd : ℝ → ℝ) (kw : Option (F → Mat n ℂ)) (o : GradCall.Obj ℂ F n t) :
    Method (F → Mat n ℂ) (GradCall.Obj ℂ F n t) where
  start := GradCall.reset kw o
  step W := .ok (Fast.fastIvaStep np floor d dd (whitened np X) W)
  loss W := .ok (Fast.ivaLoss g (whitened np X) W)
  finish W := do
    let (Y, W) ← finishFast np sr r X W
    .ok fun ls => ⟨.val W, .val Y, ls⟩

/-- `FasterIVA`, `bss/iva.py` L1306-1341. -/
noncomputable def fasterIva (r : Fin (n + 1)) (X : Spec F (n + 1) t) (g d : ℝ → ℝ) (kw : Option (F → Mat (n + 1) ℂ))
    (o : GradCall.Obj ℂ F (n + 1) t) : Method (F → Mat (n + 1) ℂ) (GradCall.Obj ℂ F (n + 1) t) where
  start := GradCall.reset kw o
  step W := .ok (Fast.fasterIvaStep np floor d (whitened np X) W)
  loss W := .ok (Fast.ivaLoss g (whitened np X) W)
  finish W := do
    let (Y, W) ← finishFast np sr r X W
    .ok fun ls => ⟨.val W, .val Y, ls⟩

end iva

section fdica

open Fdica

variable {B : ℕ} (sort : Permutation.Argsort) (opt : PermOpt) (floor : ℝ → ℝ) (sr : ScaleOpt) (r : Fin n)
  (X : Spec (Fin B) n t)

/-- `AuxFDICA`, `bss/fdica.py` L983-1022. -/
noncomputable def auxFdica (np : Numpy ℂ) (alg : Ilrma.FilterAlg n) (G d : ℝ → ℝ) (kw : Option (Fin B → Mat n ℂ))
    (o : IvaCall.Obj (Fin B) n t) : Method (Fin B → Mat n ℂ) (IvaCall.Obj (Fin B) n t) where
  start := auxReset X kw o
  step := auxUpdate np alg floor d X
  loss W := .ok (Fdica.loss G X W)
  finish W := do
    let (Y, W) ← finishAligned sort opt floor sr r X W
    .ok fun ls => ⟨.val W, .val Y, ls⟩

/-- `GradFDICA` and `NaturalGradFDICA`, `bss/fdica.py` L402-437. -/
noncomputable def gradFdica (kind : GradCall.Kind) (step_size : ℝ) (holonomic : Bool)
    (contrast : Grad.Data ℂ (Fin B) n t → Fin B × Fin n → Fin t → ℝ)
    (score : Grad.Data ℂ (Fin B) n t → Grad.Data ℂ (Fin B) n t) (kw : Option (Fin B → Mat n ℂ))
    (o : GradCall.Obj ℂ (Fin B) n t) : Method (Fin B → Mat n ℂ) (GradCall.Obj ℂ (Fin B) n t) where
  start := GradCall.reset kw o
  step := GradCall.descend kind step_size holonomic score X
  loss W := .ok (Grad.loss 2 contrast X W)
  finish W := do
    let (Y, W) ← finishAligned sort opt floor sr r X W
    .ok fun ls => ⟨.val W, .val Y, ls⟩

end fdica

section grad

open GradCall Grad

/-- `GradICA` and `NaturalGradICA`, `bss/ica.py` L59-88. -/
noncomputable def gradIca (kind : Kind) (step_size : ℝ) (holonomic : Bool) (contrast : Data ℝ Unit n t → Fin n → Fin t → ℝ)
    (score : Data ℝ Unit n t → Data ℝ Unit n t) (X : Data ℝ Unit n t) (kw : Option (Unit → Mat n ℝ))
    (o : GradCall.Obj ℝ Unit n t) : Method (Unit → Mat n ℝ) (GradCall.Obj ℝ Unit n t) where
  start := GradCall.reset kw o
  step := descend kind step_size holonomic score X
  loss W := .ok (Grad.loss 1 contrast X W)
  finish W := .ok fun ls => ⟨.val W, .val (sep X W), ls⟩

/-- `FastICA`, `bss/ica.py` L248-279. -/
noncomputable def fastIca (np : Numpy ℝ) (contrast : ℝ → ℝ) (score d_score : (Fin t → ℝ) → Fin t → ℝ)
    (X : Matrix (Fin n) (Fin t) ℝ) (kw : Option (Mat n ℝ)) (o : GradCall.Obj ℝ Unit n t) :
    Method (Mat n ℝ) (GradCall.Obj ℝ Unit n t) where
  start := do
    let W ← GradCall.reset (kw.map fun W _ => W) o
    .ok (W ())
  step := Fast.icaStep score d_score (Transform.whitenCore np X)
  loss W := .ok (Fast.icaLoss contrast (Transform.whitenCore np X) W)
  finish W := .ok fun ls =>
    ⟨.val fun _ => W, .val fun _ => fastIcaSeparate np (Transform.whitenCore np X) W false, ls⟩

variable (kind : Kind) (sr : ScaleOpt) (r : Fin n) (step_size : ℝ) (holonomic : Bool) (X : Data ℂ F n t)

/-- `GradIVA` and `NaturalGradIVA`, `bss/iva.py` L359-393. -/
noncomputable def gradIva (contrast : Data ℂ F n t → Fin n → Fin t → ℝ) (score : Data ℂ F n t → Data ℂ F n t)
    (kw : Option (F → Mat n ℂ)) (o : GradCall.Obj ℂ F n t) : Method (F → Mat n ℂ) (GradCall.Obj ℂ F n t) where
  start := GradCall.reset kw o
  step := descend kind step_size holonomic score X
  loss W := .ok (Grad.loss 2 contrast X W)
  finish W := do
    let (Y, W) ← Lifecycle.finish sr r X W
    .ok fun ls => ⟨.val W, .val Y, ls⟩

/-- `GradGaussIVA` and `NaturalGradGaussIVA`. -/
noncomputable def gradGaussIva (kw : Option (F → Mat n ℂ)) (o : GradCall.Obj ℂ F n t) :
    Method ((Fin n → Fin t → ℝ) × (F → Mat n ℂ)) (GradCall.Obj ℂ F n t) where
  start := do
    let W ← GradCall.reset kw o
    .ok (fun _ _ => 1, W)
  step := descendGauss kind step_size holonomic X
  loss s := .ok (Grad.loss 2 (ivaGaussContrast s.1) X s.2)
  finish s := do
    let (Y, W) ← Lifecycle.finish sr r X s.2
    .ok fun ls => ⟨.val W, .val Y, ls⟩

end grad

section mnmf

open Mnmf MnmfCall
open IlrmaCall (Draw DrawP)
open Ilrma (recon reconP FilterAlg)

variable {m : ℕ} (np : Numpy ℂ) (normalization : Bool) (floor : ℝ → ℝ) (r : Fin m) (X : Spec F m t)

/-- `GaussMNMF`, `bss/mnmf.py` L90-118. -/
noncomputable def mnmf (draw : Draw F n t K) (kw : MnmfCall.Kw F n m t K) (o : MnmfCall.Obj F n m t K) :
    Method (MSt F n m t K) (MnmfCall.Obj F n m t K) where
  start := MnmfCall.reset np floor r draw X kw o
  step := fullUpdateOnce np normalization floor (instantCovariance np floor X)
  loss s := fullLoss np floor (instantCovariance np floor X) (recon s.T s.V) s.H
  finish s := do
    let Y ← fullSeparate np floor r X (recon s.T s.V) s.H
    .ok fun ls => ⟨.val s.T, .val s.V, .val s.H, .val Y, ls⟩

/-- `GaussMNMF` with partitioning. -/
noncomputable def mnmfP (draw : DrawP F n t K) (kw : MnmfCall.KwP F n m t K) (o : MnmfCall.ObjP F n m t K) :
    Method (MStP F n m t K) (MnmfCall.ObjP F n m t K) where
  start := MnmfCall.resetP np floor r draw X kw o
  step := fullUpdateOnceP np normalization floor (instantCovariance np floor X)
  loss s := fullLoss np floor (instantCovariance np floor X) (reconP s.Z s.T s.V) s.H
  finish s := do
    let Y ← fullSeparate np floor r X (reconP s.Z s.T s.V) s.H
    .ok fun ls => ⟨.val s.Z, .val s.T, .val s.V, .val s.H, .val Y, ls⟩

/-- `FastGaussMNMF`, `bss/mnmf.py` L90-118. -/
noncomputable def fastMnmf (alg : FilterAlg m) (draw : Draw F n t K) (drawD : F → Fin n → Fin m → ℝ)
    (kw : KwF F n m t K) (o : ObjF F n m t K) : Method (FSt F n m t K) (ObjF F n m t K) where
  start := resetF np floor r draw drawD X kw o
  step := fastUpdateOnce np alg normalization floor X
  loss s := .ok (fastLoss X s)
  finish s := do
    let Y ← fastSeparate np floor r X s
    .ok fun ls => ⟨.val s.Q, .val s.T, .val s.V, .val s.D, .val Y, ls⟩

end mnmf

/-- `GaussIPSDTA` and `TIPSDTA` (`step` and `loss` those of the class), `bss/ipsdta.py` L96-122. -/
noncomputable def ipsdta {n_bins n_blocks : ℕ}
    (step : Ipsdta.St n_bins n_blocks n t K → Except PyErr (Ipsdta.St n_bins n_blocks n t K))
    (loss : Ipsdta.St n_bins n_blocks n t K → Except PyErr ℝ) (normalization : Bool) (floor : ℝ → ℝ) (sr : ScaleOpt) (r : Fin n)
    (draw : IpsdtaCall.Draw n_bins n_blocks n t K) (X : Spec (Fin n_bins) n t) (kw : IpsdtaCall.Kw n_bins n_blocks n t K)
    (o : IpsdtaCall.Obj n_bins n_blocks n t K) :
    Method (Ipsdta.St n_bins n_blocks n t K) (IpsdtaCall.Obj n_bins n_blocks n t K) where
  start := IpsdtaCall.reset normalization floor draw kw o
  step := step
  loss := loss
  finish s := do
    let (Y, W) ← Lifecycle.finish sr r X s.W
    .ok fun ls => ⟨.val W, .val s.T, .val s.V, .val Y, ls, IlrmaCall.override kw.initial_call o.initial_call⟩

end Verif.RecordLoss
