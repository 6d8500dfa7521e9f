import Verif.Model.Fdica
import Verif.Model.Grad
import Verif.Model.IvaCall
import Verif.Model.Lifecycle
import Verif.Model.Permutation

/-!
# `bss/fdica.py`: the end of `__call__`, with the alignment of the sources

The frequency bins are `Fin B`, since the permutation solver sorts them. The arrays handed to the solver live in a
`Permutation.Store` (the solver overwrites them in place).
-/

namespace Verif.Fdica

open Matrix Scale Lifecycle Permutation

variable {B n t : ℕ}

/-- The constructor argument `permutation_alignment` (a bool according to its annotation; `solve_permutation` also
accepts a string). -/
inductive PermOpt where
  | bool (b : Bool)
  | str (s : String)

/-- `bool(permutation_alignment)`. -/
def PermOpt.truthy : PermOpt → Bool
  | .bool b => b
  | .str s => s ≠ ""

/-- One entry `[bin, source]` of the arrays handed to the solver: a row of the separated spectrogram or a row of the
demixing filter. -/
abbrev Cell (n t : ℕ) := (Fin t → ℂ) ⊕ (Fin n → ℂ)

/-- `np.abs(Y)` on the entries of the spectrogram. -/
noncomputable def mag : Cell n t → Fin t → ℝ
  | .inl y => fun k => ‖y k‖
  | .inr _ => 0

/-- `FDICABase.solve_permutation_by_correlation`, `bss/fdica.py` L273-281: new `(output, demix_filter)`. Array 0 is the
spectrogram (a fresh array), array 1 the demixing filter, both are overwritten (the default of the solver). -/
noncomputable def solveByCorrelation (np : Argsort) (floor : ℝ → ℝ) (X : Spec (Fin B) n t) (W : Fin B → Mat n ℂ) :
    Except PyErr (Spec (Fin B) n t × (Fin B → Mat n ℂ)) := do
  let Y := separate X W
  let st : Store B n (Cell n t) := ⟨fun r b i => if r = 0 then .inl (Y b i) else .inr (W b i), 2⟩
  let (y, ps, st) ← correlationSolver np mag floor true 0 [1] st
  match ps with
  | [w] => .ok (fun b => Matrix.of fun i => (st.mem y b i).elim id 0, fun b => Matrix.of fun i => (st.mem w b i).elim 0 id)
  | _ => .error .value

/-- `FDICABase.solve_permutation`, L239-255. -/
noncomputable def solvePermutation (np : Argsort) (opt : PermOpt) (floor : ℝ → ℝ) (X : Spec (Fin B) n t)
    (W : Fin B → Mat n ℂ) : Except PyErr (Spec (Fin B) n t × (Fin B → Mat n ℂ)) :=
  if !opt.truthy then .error .assertion
  else
    let key := match opt with
      | .bool _ => "spectrogram_correlation"
      | .str s => s
    if key = "spectrogram_correlation" then solveByCorrelation np floor X W else .error .notImplemented

/-- The end of `GradFDICABase.__call__` L429-437 and `AuxFDICA.__call__` L1010-1022. -/
noncomputable def finishAligned (np : Argsort) (opt : PermOpt) (floor : ℝ → ℝ) (sr : ScaleOpt) (r : Fin n)
    (X : Spec (Fin B) n t) (W : Fin B → Mat n ℂ) : Except PyErr (Spec (Fin B) n t × (Fin B → Mat n ℂ)) := do
  let W ← if opt.truthy then (do let p ← solvePermutation np opt floor X W; .ok p.2) else .ok W
  finish sr r X W

/-- `NaturalGradFDICA.__call__` with `n_iter` iterations from the filter `W`. -/
noncomputable def naturalCall (np : Argsort) (opt : PermOpt) (floor : ℝ → ℝ) (sr : ScaleOpt) (r : Fin n) (step_size : ℝ)
    (holonomic : Bool) (score : Grad.Data ℂ (Fin B) n t → Grad.Data ℂ (Fin B) n t) (X : Spec (Fin B) n t)
    (n_iter : ℕ) (W : Fin B → Mat n ℂ) : Except PyErr (Spec (Fin B) n t × (Fin B → Mat n ℂ)) :=
  finishAligned np opt floor sr r X (Grad.naturalRun step_size holonomic score X n_iter W)

/-! ## Complete calls of `AuxFDICA` and `AuxLaplaceFDICA` -/

/-- `AuxFDICA.update_once`, L1056-1063. -/
noncomputable def auxUpdate (np : Numpy ℂ) (alg : Ilrma.FilterAlg n) (floor d : ℝ → ℝ) (X : Spec (Fin B) n t)
    (W : Fin B → Mat n ℂ) : Except PyErr (Fin B → Mat n ℂ) :=
  match alg with
  | .ip1 => auxIp1 floor d X W
  | .ip2 pairs => auxIp2 np floor d pairs X W

/-- `FDICABase._reset`, L148-172. -/
def auxReset (X : Spec (Fin B) n t) (kw : Option (Fin B → Mat n ℂ)) (o : IvaCall.Obj (Fin B) n t) :
    Except PyErr (Fin B → Mat n ℂ) :=
  match IlrmaCall.override kw o.demix with
  | .absent => .ok fun _ => 1
  | .none => do
    let _ ← separateOpt X none
    .error .value
  | .val W => .ok W

/-- `AuxFDICA.__call__`, L1004-1022; `G` and `d` are `contrast_fn` and `d_contrast_fn`. The attributes are those of
`AuxIVA`. -/
noncomputable def auxCall (sort : Argsort) (np : Numpy ℂ) (alg : Ilrma.FilterAlg n) (opt : PermOpt) (floor G d : ℝ → ℝ)
    (sr : ScaleOpt) (r : Fin n) (X : Spec (Fin B) n t) (n_iter : ℕ) (initial_call : Bool) (kw : Option (Fin B → Mat n ℂ))
    (o : IvaCall.Obj (Fin B) n t) : Except PyErr (IvaCall.Obj (Fin B) n t) := do
  let W ← auxReset X kw o
  let (W, ls) ← IlrmaCall.baseCall (auxUpdate np alg floor d X) (fun W => .ok (loss G X W)) initial_call n_iter W o.loss
  let (Y, W) ← finishAligned sort opt floor sr r X W
  .ok ⟨.val W, .val Y, ls⟩

end Verif.Fdica
