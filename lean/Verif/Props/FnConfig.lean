import Verif.Model.FnConfig
import Verif.Props.RecordLoss

/-!
# C104: which functions a separator must be given, and what the named classes are
-/

namespace Verif.FnConfig

open Matrix Scale Lifecycle Grad
open IlrmaCall (baseCall iterations)
open RecordLoss (Method call_record call_total call_quiet)

section generic

variable {σ O γ R : Type} {m : Method σ O} {g : σ → Except PyErr γ} {h : σ → γ → List ℝ → O} {existing : Except PyErr O}

theorem use_key (hm : ∀ s, m.finish s = g s >>= fun y => .ok (h s y))
    (v : O → Option (List ℝ) → R) (hv : ∀ s y l x, v (h s y l) x = v (h s y []) x) (lo : O → List ℝ)
    (hlo : ∀ s y l, lo (h s y l) = l) {ic : Bool} {k : ℕ}
    (he : existing = (do
      let s ← m.start
      let q ← baseCall m.step m.loss ic k s []
      let y ← g q.1
      .ok (h q.1 y q.2))) (x : List ℝ → Option (List ℝ)) :
    ((m.call true ic k (some [])).bind fun p => .ok (v (p.1 []) (x (p.2.getD [])))) = existing.map fun o => v o (x (lo o)) := by
  rw [call_record, he]
  cases m.start with
  | error => rfl
  | ok s =>
    simp only [bind, Except.bind]
    cases baseCall m.step m.loss ic k s [] with
    | error => rfl
    | ok q =>
      simp only [hm]
      cases g q.1 with
      | error => rfl
      | ok y => simp only [bind, Except.bind, Except.map, hlo, Option.getD_some]; rw [hv q.1 y q.2]

theorem use_record (hm : ∀ s, m.finish s = g s >>= fun y => .ok (h s y))
    (v : O → Option (List ℝ) → R) (hv : ∀ s y l x, v (h s y l) x = v (h s y []) x) (lo : O → List ℝ)
    (hlo : ∀ s y l, lo (h s y l) = l) {ic : Bool} {k : ℕ}
    (he : existing = (do
      let s ← m.start
      let q ← baseCall m.step m.loss ic k s []
      let y ← g q.1
      .ok (h q.1 y q.2))) :
    (m.call true ic k (emptyLoss true) >>= fun p => .ok (v (p.1 []) p.2)) = existing.map fun o => v o (some (lo o)) := by
  rw [← use_key hm v hv lo hlo he some]
  change (m.call true ic k (some [])).bind _ = _
  rw [call_record]
  cases m.start with
  | error => rfl
  | ok s =>
    simp only [bind, Except.bind]
    cases baseCall m.step m.loss ic k s [] with
    | error => rfl
    | ok q => simp only [hm]; cases g q.1 <;> rfl

theorem use_total {f : σ → ℝ} (hl : ∀ s, m.loss s = .ok (f s)) (hm : ∀ s, m.finish s = g s >>= fun y => .ok (h s y))
    (v : O → Option (List ℝ) → R) (hv : ∀ s y l x, v (h s y l) x = v (h s y []) x) (lo : O → List ℝ)
    (hlo : ∀ s y l, lo (h s y l) = l) (rl : Bool) {ic : Bool} {k : ℕ}
    (he : existing = (do
      let s ← m.start
      let q ← baseCall m.step m.loss ic k s []
      let y ← g q.1
      .ok (h q.1 y q.2))) :
    (m.call rl ic k (emptyLoss rl) >>= fun p => .ok (v (p.1 []) p.2))
      = existing.map fun o => v o (if rl then some (lo o) else none) := by
  cases rl with
  | true =>
    simp only [if_true]
    exact use_record hm v hv lo hlo he
  | false =>
    simp only [Bool.false_eq_true, if_false]
    rw [← use_key hm v hv lo hlo he fun _ => none]
    change (m.call false ic k none).bind _ = _
    rw [call_total m hl ic k []]
    cases m.call true ic k (some []) <;> rfl

end generic

theorem need_some {α : Type} (f : α) : need (some f) = .ok f := rfl

theorem checkRef_ok {n : ℕ} {scale : ScaleOpt} {reference : Option (Fin n)} (h : reference = none → scale.truthy = false) :
    checkRef scale reference = .ok () := by
  cases reference with
  | none => simp [checkRef, h rfl]
  | some c => rfl

theorem checkRef_error {n : ℕ} {scale : ScaleOpt} {reference : Option (Fin n)} (h : reference = none) (h2 : scale.truthy = true) :
    checkRef scale reference = .error .value := by
  simp [checkRef, h, h2]

/-- What is seen of an object after a call, if it was made with `record_loss`. -/
def seenG {𝕜 F : Type} {n t : ℕ} (record_loss : Bool) (o : GradCall.Obj 𝕜 F n t) : Seen 𝕜 F n t :=
  ⟨o.demix, o.output, if record_loss then some o.loss else none⟩

def seenI {F : Type} {n t : ℕ} (record_loss : Bool) (o : IvaCall.Obj F n t) : Seen ℂ F n t :=
  ⟨o.demix, o.output, if record_loss then some o.loss else none⟩

section ica

variable {n t : ℕ} (X : Data ℝ Unit n t) (k : ℕ) (ic : Bool)

/-- C104: a new `GradICA` or `NaturalGradICA` object given both functions. With `record_loss=False` only `loss` differs. -/
theorem C104_ica (kind : GradCall.Kind) (a : IcaArgs n t) {c s} (hc : a.contrast = some c) (hs : a.score = some s) :
    icaUse kind a X k ic = (GradCall.icaCall kind a.step_size a.holonomic c s X k ic none .fresh).map (seenG a.record_loss) := by
  rw [icaUse, hc, hs]
  refine use_total (m := RecordLoss.gradIca kind a.step_size a.holonomic c s X none GradCall.Obj.fresh)
    (g := fun s : Unit → Mat n ℝ => Except.ok (ε := PyErr) s)
    (h := fun _ y ls => (⟨.val y, .val (sep X y), ls⟩ : GradCall.Obj ℝ Unit n t)) (fun _ => rfl) (fun _ => rfl)
    (fun o l => (⟨o.demix, o.output, l⟩ : Seen ℝ Unit n t)) (fun _ _ _ _ => rfl) (fun o => o.loss) (fun _ _ _ => rfl)
    a.record_loss ?_
  rw [GradCall.icaCall]
  rfl

/-- C104: without one of the functions the constructor raises `ValueError`, also with `record_loss=False`, where the contrast
function is never called. -/
theorem C104_ica_missing (kind : GradCall.Kind) (a : IcaArgs n t) (h : a.contrast = none ∨ a.score = none) :
    icaUse kind a X k ic = .error .value := by
  rw [icaUse]
  rcases h with h | h
  · rw [h]; rfl
  · rw [h]; cases a.contrast <;> rfl

/-- C104: with `record_loss=False` the contrast function must be given but does not matter. -/
theorem C104_ica_contrast (kind : GradCall.Kind) (a : IcaArgs n t) (h : a.record_loss = false) {c : Data ℝ Unit n t → Fin n → Fin t → ℝ}
    (hc : a.contrast ≠ none) : icaUse kind { a with contrast := some c } X k ic = icaUse kind a X k ic := by
  obtain ⟨c', hc⟩ := Option.ne_none_iff_exists'.1 hc
  simp only [icaUse, hc, need, h, emptyLoss, Bool.false_eq_true, if_false, call_quiet]
  rfl

/-- `GradICA()`: raises. `GradLaplaceICA()`: does not need the functions, and a call without iterations returns the recording. -/
example (kind : GradCall.Kind) : icaUse kind {} X k ic = .error .value ∧
    laplaceIcaUse kind (1 / 10) false true X 0 false = .ok ⟨.val fun _ => 1, .val (sep X fun _ => 1), some []⟩ :=
  ⟨C104_ica_missing X k ic kind {} (.inl rfl), C104_ica X 0 false kind _ rfl rfl⟩

/-- C104: `GradLaplaceICA` and `NaturalGradLaplaceICA` are the general classes with `np.abs` and `np.sign`. -/
theorem C104_laplace_ica (kind : GradCall.Kind) (mu : ℝ) (hol rl : Bool) :
    laplaceIcaUse kind mu hol rl X k ic
      = icaUse kind ⟨mu, some fun Y i j => |Y () i j|, some fun Y f i j => if 0 < Y f i j then 1 else if Y f i j < 0 then -1 else 0, hol, rl⟩ X k ic := by
  have h : (icaLaplaceScore : Data ℝ Unit n t → Data ℝ Unit n t)
      = fun Y f i j => if 0 < Y f i j then 1 else if Y f i j < 0 then -1 else 0 := by
    funext Y f i j
    simp only [icaLaplaceScore, Matrix.of_apply, Real.sign]
    split_ifs <;> first | rfl | linarith
  rw [laplaceIcaUse, h]
  rfl

/-- C104 for `FastICA`. -/
theorem C104_fast_ica (np : Numpy ℝ) (a : FastIcaArgs t) (X : Matrix (Fin n) (Fin t) ℝ) {c s d} (hc : a.contrast = some c)
    (hs : a.score = some s) (hd : a.d_score = some d) :
    fastIcaUse np a X k ic = (GradCall.fastIcaCall np c s d X k ic none .fresh).map (seenG a.record_loss) := by
  rw [fastIcaUse, hc, hs, hd]
  refine use_total (m := RecordLoss.fastIca np c s d X none GradCall.Obj.fresh)
    (g := fun s : Mat n ℝ => Except.ok (ε := PyErr) s)
    (h := fun s y ls => (⟨.val fun _ => y, .val fun _ => GradCall.fastIcaSeparate np (Transform.whitenCore np X) y false, ls⟩ : GradCall.Obj ℝ Unit n t)) (fun _ => rfl) (fun _ => rfl)
    (fun o l => (⟨o.demix, o.output, l⟩ : Seen ℝ Unit n t)) (fun _ _ _ _ => rfl) (fun o => o.loss) (fun _ _ _ => rfl)
    a.record_loss ?_
  simp only [GradCall.fastIcaCall, RecordLoss.fastIca]
  cases GradCall.reset (Option.map (fun W _ => W) none) (GradCall.Obj.fresh : GradCall.Obj ℝ Unit n t) <;> rfl

/-- C104: `FastICA` needs three functions. -/
theorem C104_fast_ica_missing (np : Numpy ℝ) (a : FastIcaArgs t) (X : Matrix (Fin n) (Fin t) ℝ)
    (h : a.contrast = none ∨ a.score = none ∨ a.d_score = none) : fastIcaUse np a X k ic = .error .value := by
  rw [fastIcaUse]
  rcases h with h | h | h
  · rw [h]; rfl
  · rw [h]; cases a.contrast <;> rfl
  · rw [h]; cases a.contrast <;> cases a.score <;> rfl

end ica

section fdica

variable {B n t : ℕ} [NeZero n] (sort : Permutation.Argsort) (X : Data ℂ (Fin B) n t) (k : ℕ) (ic : Bool)

/-- C104 for `GradFDICA` and `NaturalGradFDICA`. -/
theorem C104_fdica (kind : GradCall.Kind) (a : FdicaArgs B n t) {c s} (hc : a.contrast = some c) (hs : a.score = some s)
    (hr : a.reference = none → a.scale.truthy = false) :
    fdicaUse sort kind a X k ic = (GradCall.fdicaCall sort kind a.alignment (floorOf a.floor) a.scale (a.reference.getD 0) a.step_size a.holonomic c s X
      k ic none .fresh).map (seenG a.record_loss) := by
  rw [fdicaUse, hc, hs, checkRef_ok hr]
  refine use_total (m := RecordLoss.gradFdica sort a.alignment (floorOf a.floor) a.scale (a.reference.getD 0) X kind a.step_size
    a.holonomic c s none GradCall.Obj.fresh)
    (g := fun s : Fin B → Mat n ℂ => Fdica.finishAligned sort a.alignment (floorOf a.floor) a.scale (a.reference.getD 0) X s)
    (h := fun s y ls => (⟨.val y.2, .val y.1, ls⟩ : GradCall.Obj ℂ (Fin B) n t)) (fun _ => rfl) (fun _ => rfl)
    (fun o l => (⟨o.demix, o.output, l⟩ : Seen ℂ (Fin B) n t)) (fun _ _ _ _ => rfl) (fun o => o.loss) (fun _ _ _ => rfl)
    a.record_loss ?_
  rw [GradCall.fdicaCall]
  rfl

/-- C104: when the constructors of `GradFDICA` and `NaturalGradFDICA` raise `ValueError`. -/
theorem C104_fdica_missing (kind : GradCall.Kind) (a : FdicaArgs B n t)
    (h : a.contrast = none ∨ a.score = none ∨ (a.reference = none ∧ a.scale.truthy = true)) :
    fdicaUse sort kind a X k ic = .error .value := by
  rw [fdicaUse]
  rcases h with h | h | h
  · rw [h]; rfl
  · rw [h]
    cases a.contrast <;> simp only [need, checkRef, bind, Except.bind]
    split_ifs <;> rfl
  · rw [checkRef_error h.1 h.2]; cases a.contrast <;> rfl

/-- C104: with `record_loss=False` the contrast function must be given but does not matter. -/
theorem C104_fdica_contrast (kind : GradCall.Kind) (a : FdicaArgs B n t) (h : a.record_loss = false)
    {c : Data ℂ (Fin B) n t → Fin B × Fin n → Fin t → ℝ} (hc : a.contrast ≠ none) :
    fdicaUse sort kind { a with contrast := some c } X k ic = fdicaUse sort kind a X k ic := by
  obtain ⟨c', hc⟩ := Option.ne_none_iff_exists'.1 hc
  simp only [fdicaUse, hc, need, h, emptyLoss, Bool.false_eq_true, if_false, call_quiet]
  rfl

/-- C104: `GradLaplaceFDICA` and `NaturalGradLaplaceFDICA` are the general classes with `2|y|` and `y / flooring_fn(|y|)`;
without `flooring_fn` with `y / |y|`. -/
theorem C104_laplace_fdica (kind : GradCall.Kind) (mu : ℝ) (hol : Bool) (c : Common n) :
    laplaceFdicaUse sort kind mu hol c X k ic
      = fdicaUse sort kind ⟨c, mu, some fun Y i j => 2 * ‖Y i.1 i.2 j‖,
        some fun Y f i j => Y f i j / (((c.floor.getD fun x => x) ‖Y f i j‖ : ℝ) : ℂ), hol⟩ X k ic := by
  rw [laplaceFdicaUse]
  rcases c with ⟨_ | fl, al, sc, rl, rf⟩ <;> rfl

end fdica

section iva

variable {F : Type} [Fintype F] {n t : ℕ} [NeZero n] (X : Data ℂ F n t) (k : ℕ) (ic : Bool)

/-- C104 for `GradIVA` and `NaturalGradIVA`. -/
theorem C104_iva (kind : GradCall.Kind) (a : IvaArgs F n t) {c s} (hc : a.contrast = some c) (hs : a.score = some s)
    (hr : a.reference = none → a.scale.truthy = false) :
    ivaUse kind a X k ic = (GradCall.ivaCall kind a.scale (a.reference.getD 0) a.step_size a.holonomic c s X k ic none .fresh).map (seenG a.record_loss) := by
  rw [ivaUse, hc, hs, checkRef_ok hr]
  refine use_total (m := RecordLoss.gradIva kind a.scale (a.reference.getD 0) a.step_size a.holonomic X c s none GradCall.Obj.fresh)
    (g := fun s : F → Mat n ℂ => Lifecycle.finish a.scale (a.reference.getD 0) X s)
    (h := fun s y ls => (⟨.val y.2, .val y.1, ls⟩ : GradCall.Obj ℂ F n t)) (fun _ => rfl) (fun _ => rfl)
    (fun o l => (⟨o.demix, o.output, l⟩ : Seen ℂ F n t)) (fun _ _ _ _ => rfl) (fun o => o.loss) (fun _ _ _ => rfl)
    a.record_loss ?_
  rw [GradCall.ivaCall]
  rfl

/-- C104: when the constructors of `GradIVA` and `NaturalGradIVA` raise `ValueError`. -/
theorem C104_iva_missing (kind : GradCall.Kind) (a : IvaArgs F n t)
    (h : a.contrast = none ∨ a.score = none ∨ (a.reference = none ∧ a.scale.truthy = true)) :
    ivaUse kind a X k ic = .error .value := by
  rw [ivaUse]
  by_cases hr : a.reference = none ∧ a.scale.truthy = true
  · rw [checkRef_error hr.1 hr.2]; rfl
  · rw [checkRef_ok fun e => by simpa using fun h => hr ⟨e, h⟩]
    rcases h with h | h | h
    · rw [h]; rfl
    · rw [h]; cases a.contrast <;> rfl
    · exact absurd h hr

/-- C104: with `record_loss=False` the contrast function must be given but does not matter. -/
theorem C104_iva_contrast (kind : GradCall.Kind) (a : IvaArgs F n t) (h : a.record_loss = false)
    {c : Data ℂ F n t → Fin n → Fin t → ℝ} (hc : a.contrast ≠ none) :
    ivaUse kind { a with contrast := some c } X k ic = ivaUse kind a X k ic := by
  obtain ⟨c', hc⟩ := Option.ne_none_iff_exists'.1 hc
  simp only [ivaUse, hc, need, h, emptyLoss, Bool.false_eq_true, if_false, call_quiet]
  rfl

/-- C104: `GradLaplaceIVA` and `NaturalGradLaplaceIVA` are the general classes with `2‖y‖` and `y / flooring_fn(‖y‖)`, the norm
over the bins. -/
theorem C104_laplace_iva (kind : GradCall.Kind) (mu : ℝ) (hol : Bool) (c : Common n) :
    laplaceIvaUse kind mu hol c X k ic
      = ivaUse kind ⟨c, mu, some fun Y i j => 2 * Real.sqrt (∑ f, ‖Y f i j‖ ^ 2),
        some fun Y f i j => Y f i j / (((c.floor.getD fun x => x) (Real.sqrt (∑ f, ‖Y f i j‖ ^ 2)) : ℝ) : ℂ), hol⟩ X k ic := by
  rw [laplaceIvaUse]
  rcases c with ⟨_ | fl, al, sc, rl, rf⟩ <;> rfl

/-- C104 for `GradGaussIVA` and `NaturalGradGaussIVA`. -/
theorem C104_gauss_iva (kind : GradCall.Kind) (mu : ℝ) (hol : Bool) (c : Common n) (hr : c.reference = none → c.scale.truthy = false) :
    gaussIvaUse kind mu hol c X k ic = (GradCall.gaussIvaCall kind c.scale (c.reference.getD 0) mu hol X k ic none .fresh).map (seenG c.record_loss) := by
  rw [gaussIvaUse, checkRef_ok hr]
  refine use_total (m := RecordLoss.gradGaussIva kind c.scale (c.reference.getD 0) mu hol X none GradCall.Obj.fresh)
    (g := fun s : (Fin n → Fin t → ℝ) × (F → Mat n ℂ) => Lifecycle.finish c.scale (c.reference.getD 0) X s.2)
    (h := fun s y ls => (⟨.val y.2, .val y.1, ls⟩ : GradCall.Obj ℂ F n t)) (fun _ => rfl) (fun _ => rfl)
    (fun o l => (⟨o.demix, o.output, l⟩ : Seen ℂ F n t)) (fun _ _ _ _ => rfl) (fun o => o.loss) (fun _ _ _ => rfl)
    c.record_loss ?_
  simp only [GradCall.gaussIvaCall, RecordLoss.gradGaussIva]
  cases GradCall.reset none (GradCall.Obj.fresh : GradCall.Obj ℂ F n t) <;> rfl

/-- C104 for `FastIVA`. -/
theorem C104_fast_iva (np : Numpy ℂ) (a : FastIvaArgs n) {g d dd} (hg : a.contrast = some g) (hd : a.d_contrast = some d)
    (hdd : a.dd_contrast = some dd) (hr : a.reference = none → a.scale.truthy = false) :
    fastIvaUse np a X k ic = (GradCall.fastIvaCall np (floorOf a.floor) g d dd a.scale (a.reference.getD 0) X k ic none .fresh).map (seenG a.record_loss) := by
  rw [fastIvaUse, hg, hd, hdd, checkRef_ok hr]
  refine use_total (m := RecordLoss.fastIva np (floorOf a.floor) a.scale (a.reference.getD 0) X g d dd none GradCall.Obj.fresh)
    (g := fun s : F → Mat n ℂ => finishFast np a.scale (a.reference.getD 0) X s)
    (h := fun s y ls => (⟨.val y.2, .val y.1, ls⟩ : GradCall.Obj ℂ F n t)) (fun _ => rfl) (fun _ => rfl)
    (fun o l => (⟨o.demix, o.output, l⟩ : Seen ℂ F n t)) (fun _ _ _ _ => rfl) (fun o => o.loss) (fun _ _ _ => rfl)
    a.record_loss ?_
  rw [GradCall.fastIvaCall]
  rfl

/-- C104 for `FasterIVA`. -/
theorem C104_faster_iva {n : ℕ} (X : Spec F (n + 1) t) (np : Numpy ℂ) (a : FastIvaArgs (n + 1)) {g d} (hg : a.contrast = some g)
    (hd : a.d_contrast = some d) (hr : a.reference = none → a.scale.truthy = false) :
    fasterIvaUse np a X k ic = (GradCall.fasterIvaCall np (floorOf a.floor) g d a.scale (a.reference.getD 0) X k ic none .fresh).map (seenG a.record_loss) := by
  rw [fasterIvaUse, hg, hd, checkRef_ok hr]
  refine use_total (m := RecordLoss.fasterIva np (floorOf a.floor) a.scale (a.reference.getD 0) X g d none GradCall.Obj.fresh)
    (g := fun s : F → Mat (n + 1) ℂ => finishFast np a.scale (a.reference.getD 0) X s)
    (h := fun s y ls => (⟨.val y.2, .val y.1, ls⟩ : GradCall.Obj ℂ F (n + 1) t)) (fun _ => rfl) (fun _ => rfl)
    (fun o l => (⟨o.demix, o.output, l⟩ : Seen ℂ F (n + 1) t)) (fun _ _ _ _ => rfl) (fun o => o.loss) (fun _ _ _ => rfl)
    a.record_loss ?_
  rw [GradCall.fasterIvaCall]
  rfl

/-- C104: `FastIVA` needs three functions. -/
theorem C104_fast_iva_missing (np : Numpy ℂ) (a : FastIvaArgs n)
    (h : a.contrast = none ∨ a.d_contrast = none ∨ a.dd_contrast = none ∨ (a.reference = none ∧ a.scale.truthy = true)) :
    fastIvaUse np a X k ic = .error .value := by
  rw [fastIvaUse]
  by_cases hr : a.reference = none ∧ a.scale.truthy = true
  · rw [checkRef_error hr.1 hr.2]; rfl
  · rw [checkRef_ok fun e => by simpa using fun h => hr ⟨e, h⟩]
    rcases h with h | h | h | h
    · rw [h]; rfl
    · rw [h]; cases a.contrast <;> rfl
    · rw [h]; cases a.contrast <;> cases a.d_contrast <;> rfl
    · exact absurd h hr

/-- C104: `FasterIVA` needs two functions. -/
theorem C104_faster_iva_missing {n : ℕ} (X : Spec F (n + 1) t) (np : Numpy ℂ) (a : FastIvaArgs (n + 1))
    (h : a.contrast = none ∨ a.d_contrast = none ∨ (a.reference = none ∧ a.scale.truthy = true)) :
    fasterIvaUse np a X k ic = .error .value := by
  rw [fasterIvaUse]
  by_cases hr : a.reference = none ∧ a.scale.truthy = true
  · rw [checkRef_error hr.1 hr.2]; rfl
  · rw [checkRef_ok fun e => by simpa using fun h => hr ⟨e, h⟩]
    rcases h with h | h | h
    · rw [h]; rfl
    · rw [h]; cases a.contrast <;> rfl
    · exact absurd h hr

end iva

section aux

open Ilrma (FilterAlg SignalAlg)

/-! ## Auxiliary-function methods: the functions are not checked -/

/-- A call that must compute something that raises does not return. -/
theorem never_returns {σ O : Type} (m : Method σ O) (rl ic : Bool) (k : ℕ) (ls : Option (List ℝ))
    (h : (∃ e, ∀ s, m.step s = .error e) ∧ 0 < k ∨ rl = true ∧ (∃ e, ∀ s, m.loss s = .error e) ∧ (ic = true ∨ 0 < k))
    (q : (List ℝ → O) × Option (List ℝ)) : m.call rl ic k ls ≠ .ok q := by
  intro e
  obtain ⟨s, -, e⟩ := Ilrma.bind_ok e
  obtain ⟨l, e1, s', l', e2⟩ : ∃ l, (if ic then RecordLoss.point rl m.loss s ls else .ok ls) = .ok l ∧ ∃ s' l',
      RecordLoss.loop rl m.step m.loss k s l = .ok (s', l') := by
    cases ic with
    | true =>
      obtain ⟨l, e1, e⟩ := Ilrma.bind_ok e
      obtain ⟨⟨s', l'⟩, e2, -⟩ := Ilrma.bind_ok e
      exact ⟨l, e1, s', l', e2⟩
    | false =>
      obtain ⟨⟨s', l'⟩, e2, -⟩ := Ilrma.bind_ok e
      exact ⟨ls, rfl, s', l', e2⟩
  rcases h with ⟨⟨x, hx⟩, hk⟩ | ⟨rfl, ⟨x, hx⟩, hk⟩
  · obtain ⟨j, rfl⟩ : ∃ j, k = j + 1 := ⟨k - 1, by omega⟩
    obtain ⟨s1, e3, -⟩ := Ilrma.bind_ok (show (m.step s >>= fun s => _) = _ from e2)
    rw [hx] at e3
    cases e3
  · rcases hk with rfl | hk
    · simp only [if_true, RecordLoss.point, hx, bind, Except.bind] at e1
      cases e1
    · obtain ⟨j, rfl⟩ : ∃ j, k = j + 1 := ⟨k - 1, by omega⟩
      obtain ⟨s1, -, e3⟩ := Ilrma.bind_ok (show (m.step s >>= fun s => _) = _ from e2)
      obtain ⟨l1, e4, -⟩ := Ilrma.bind_ok e3
      simp only [if_true, RecordLoss.point, hx, bind, Except.bind] at e4
      cases e4

variable {F : Type} [Fintype F] {n t : ℕ} [NeZero n] (np : Numpy ℂ) (X : Spec F n t) (k : ℕ) (ic : Bool)

omit [NeZero n] in
theorem auxIvaStep_some (alg : FilterAlg n) (floor : ℝ → ℝ) (d : Fin n → Fin t → ℝ → ℝ) :
    auxIvaStep np alg floor X (some d) = IvaCall.update np alg floor d X := by
  funext W
  rcases alg with _ | _ | ⟨x, l⟩ <;> rfl

/-- C104 for `AuxIVA` with IP1 or IP2, given both functions. -/
theorem C104_aux_iva (alg : FilterAlg n) (a : AuxIvaArgs n t) {G d} (hG : a.contrast = some G) (hd : a.d_contrast = some d)
    (hr : a.reference = none → a.scale.truthy = false) :
    auxIvaUse np alg a X k ic = (IvaCall.call np alg (floorOf a.floor) G d a.scale (a.reference.getD 0) X k ic none .fresh).map (seenI a.record_loss) := by
  rw [auxIvaUse, hG, hd, checkRef_ok hr, auxIvaStep_some]
  refine use_total (m := RecordLoss.iva np (floorOf a.floor) G d a.scale (a.reference.getD 0) X alg none IvaCall.Obj.fresh)
    (g := fun s : F → Mat n ℂ => Lifecycle.finish a.scale (a.reference.getD 0) X s)
    (h := fun s y ls => (⟨.val y.2, .val y.1, ls⟩ : IvaCall.Obj F n t)) (fun _ => rfl) (fun _ => rfl)
    (fun o l => (⟨o.demix, o.output, l⟩ : Seen ℂ F n t)) (fun _ _ _ _ => rfl) (fun o => o.loss) (fun _ _ _ => rfl)
    a.record_loss ?_
  rw [IvaCall.call]
  rfl

/-- C104 for `AuxIVA` with ISS1 or ISS2, given both functions and made with `record_loss=True` (for `False` see `C103_iva_signal`
and `C104_aux_iva_signal_contrast`). -/
theorem C104_aux_iva_signal (alg : SignalAlg n) (a : AuxIvaArgs n t) {G d} (hG : a.contrast = some G) (hd : a.d_contrast = some d)
    (hr : a.reference = none → a.scale.truthy = false) (hrl : a.record_loss = true) :
    auxIvaSignalUse np alg a X k ic
      = (IvaCall.callSignal np alg (floorOf a.floor) G d a.scale (a.reference.getD 0) X k ic none .fresh).map (seenI true) := by
  rw [auxIvaSignalUse, hG, hd, hrl, checkRef_ok hr]
  refine use_record (m := RecordLoss.ivaSignal np (floorOf a.floor) G d a.scale (a.reference.getD 0) X alg none IvaCall.Obj.fresh)
    (g := fun s : Spec F n t => finishFree a.scale (a.reference.getD 0) X s)
    (h := fun s y ls => (⟨.none, .val y, ls⟩ : IvaCall.Obj F n t)) (fun _ => rfl)
    (fun o l => (⟨o.demix, o.output, l⟩ : Seen ℂ F n t)) (fun _ _ _ _ => rfl) (fun o => o.loss) (fun _ _ _ => rfl) ?_
  simp only [IvaCall.callSignal, RecordLoss.ivaSignal]
  cases Lifecycle.reset (IlrmaCall.labelY alg) X none ⟨.absent, .absent⟩ <;> rfl

/-- C104: `AuxLaplaceIVA` is `AuxIVA` with the contrast function `2r` of the norm `r`, and its derivative 2. -/
theorem C104_aux_laplace_iva (alg : FilterAlg n) (c : Common n) :
    auxLaplaceIvaUse np alg c X k ic = auxIvaUse np alg ⟨c, some fun _ _ r => 2 * r, some fun _ _ _ => 2⟩ X k ic := rfl

/-- C104: with `record_loss=False` the contrast function of `AuxIVA` is not needed: whatever is given, or nothing, the call is
the same. -/
theorem C104_aux_iva_contrast (alg : FilterAlg n) (a : AuxIvaArgs n t) (h : a.record_loss = false)
    (c : Option (Fin n → Fin t → ℝ → ℝ)) :
    auxIvaUse np alg { a with contrast := c } X k ic = auxIvaUse np alg a X k ic := by
  simp only [auxIvaUse, h, emptyLoss, Bool.false_eq_true, if_false, call_quiet]

/-- C104: the same with ISS1 or ISS2. -/
theorem C104_aux_iva_signal_contrast (alg : SignalAlg n) (a : AuxIvaArgs n t) (h : a.record_loss = false)
    (c : Option (Fin n → Fin t → ℝ → ℝ)) :
    auxIvaSignalUse np alg { a with contrast := c } X k ic = auxIvaSignalUse np alg a X k ic := by
  simp only [auxIvaSignalUse, h, emptyLoss, Bool.false_eq_true, if_false, call_quiet]

/-- C104: `AuxIVA` is constructed without `contrast_fn`, but with `record_loss=True`, which is the default, no call that has a
loss to compute returns. -/
theorem C104_aux_iva_no_contrast (alg : FilterAlg n) (a : AuxIvaArgs n t) (hc : a.contrast = none) (h : a.record_loss = true)
    (hk : ic = true ∨ 0 < k) (q : Seen ℂ F n t) : auxIvaUse np alg a X k ic ≠ .ok q := by
  intro e
  obtain ⟨-, -, e⟩ := Ilrma.bind_ok e
  obtain ⟨p, e, -⟩ := Ilrma.bind_ok e
  exact never_returns _ _ _ _ _ (.inr ⟨h, ⟨.type, fun s => by simp only [hc, calling]⟩, hk⟩) p e

/-- C104: the same with ISS1 or ISS2. -/
theorem C104_aux_iva_signal_no_contrast (alg : SignalAlg n) (a : AuxIvaArgs n t) (hc : a.contrast = none)
    (h : a.record_loss = true) (hk : ic = true ∨ 0 < k) (q : Seen ℂ F n t) : auxIvaSignalUse np alg a X k ic ≠ .ok q := by
  intro e
  obtain ⟨-, -, e⟩ := Ilrma.bind_ok e
  obtain ⟨p, e, -⟩ := Ilrma.bind_ok e
  exact never_returns _ _ _ _ _ (.inr ⟨h, ⟨.type, fun s => by simp only [hc, calling]⟩, hk⟩) p e

/-- C104: `AuxIVA` is constructed without `d_contrast_fn`, but no call with an iteration returns (unless IP2 is given no pairs). -/
theorem C104_aux_iva_no_derivative (alg : FilterAlg n) (halg : alg ≠ .ip2 []) (a : AuxIvaArgs n t) (hd : a.d_contrast = none)
    (hk : 0 < k) (q : Seen ℂ F n t) : auxIvaUse np alg a X k ic ≠ .ok q := by
  intro e
  obtain ⟨-, -, e⟩ := Ilrma.bind_ok e
  obtain ⟨p, e, -⟩ := Ilrma.bind_ok e
  refine never_returns _ _ _ _ _ (.inl ⟨⟨.type, fun s => ?_⟩, hk⟩) p e
  rcases alg with _ | _ | ⟨x, l⟩
  · simp only [auxIvaStep, hd, calling]
  · exact absurd rfl halg
  · simp only [auxIvaStep, hd, calling]

/-- C104: the same with ISS1 or ISS2. -/
theorem C104_aux_iva_signal_no_derivative (alg : SignalAlg n) (a : AuxIvaArgs n t) (hd : a.d_contrast = none)
    (hk : 0 < k) (q : Seen ℂ F n t) : auxIvaSignalUse np alg a X k ic ≠ .ok q := by
  intro e
  obtain ⟨-, -, e⟩ := Ilrma.bind_ok e
  obtain ⟨p, e, -⟩ := Ilrma.bind_ok e
  exact never_returns _ _ _ _ _ (.inl ⟨⟨.type, fun s => by simp only [auxIvaStepY, hd, calling]⟩, hk⟩) p e

/-- C104: with no iteration neither function is needed: a new object returns what it was given, with the scale restored. -/
theorem C104_aux_iva_no_iteration (alg : FilterAlg n) (a : AuxIvaArgs n t) (hr : a.reference = none → a.scale.truthy = false) :
    auxIvaUse np alg a X 0 false = (Lifecycle.finish a.scale (a.reference.getD 0) X fun _ => 1).map
      fun y => ⟨.val y.2, .val y.1, if a.record_loss then some [] else none⟩ := by
  have hst : IvaCall.reset alg X none (IvaCall.Obj.fresh : IvaCall.Obj F n t) = .ok fun _ => 1 := by cases alg <;> rfl
  simp only [auxIvaUse, checkRef_ok hr, Method.call, RecordLoss.iva, hst, RecordLoss.loop, emptyLoss, bind, Except.bind]
  cases Lifecycle.finish a.scale (a.reference.getD 0) X fun _ => 1 <;> rfl

/-- C104: IP2 that is given no pairs never calls `d_contrast_fn`: the result is the same with and without one. -/
theorem C104_aux_iva_no_pairs (a : AuxIvaArgs n t) (d : Option (Fin n → Fin t → ℝ → ℝ)) :
    auxIvaUse np (.ip2 []) { a with d_contrast := d } X k ic = auxIvaUse np (.ip2 []) { a with d_contrast := none } X k ic := rfl

/-- `AuxIVA(d_contrast_fn=..., record_loss=False)`, no contrast function: it runs. With `record_loss=True` it does not. -/
example (n_iter : ℕ) : (∃ q, auxIvaUse np .ip1 ⟨⟨some (Special.max_flooring (1 / 10 ^ 10)), .bool true, .bool true, false, some 0⟩,
      none, some fun _ _ _ => 2⟩ FlooredCall.exX n_iter true = .ok q ∧ q.loss = none) ∧
    ∀ q, auxIvaUse np .ip1 ⟨⟨some (Special.max_flooring (1 / 10 ^ 10)), .bool true, .bool true, true, some 0⟩,
      none, some fun _ _ _ => 2⟩ FlooredCall.exX n_iter true ≠ .ok q := by
  refine ⟨?_, fun q => C104_aux_iva_no_contrast np _ n_iter true .ip1 _ rfl rfl (.inl rfl) q⟩
  have h1 := C104_aux_iva_contrast np FlooredCall.exX n_iter true .ip1
    ⟨⟨some (Special.max_flooring (1 / 10 ^ 10)), .bool true, .bool true, false, some 0⟩, some Iva.laplaceG, some Iva.laplaceD⟩ rfl
    none
  obtain ⟨W, ls, h2, -⟩ := FlooredCall.C88_iva_returns np (floor := Special.max_flooring (1 / 10 ^ 10)) (G := Iva.laplaceG)
    (d := Iva.laplaceD) (fun x _ => FlooredCall.max_flooring_pos x) (fun _ _ _ _ => two_pos) (sr := .bool true)
    (.inr (.inl (.inl rfl))) 0 FlooredCall.exX_indep n_iter true none IvaCall.Obj.fresh (.inl rfl) (alg := .ip1) trivial
  refine ⟨⟨.val W, .val (separate FlooredCall.exX W), none⟩, ?_, rfl⟩
  refine h1.trans ?_
  rw [C104_aux_iva np FlooredCall.exX n_iter true .ip1 _ rfl rfl (fun h => by cases h)]
  exact congrArg (Except.map _) h2

end aux

section auxfdica

open Ilrma (FilterAlg)

variable {B n t : ℕ} [NeZero n] (sort : Permutation.Argsort) (np : Numpy ℂ) (X : Spec (Fin B) n t) (k : ℕ) (ic : Bool)

omit [NeZero n] in
theorem auxFdicaStep_some (alg : FilterAlg n) (floor : ℝ → ℝ) (d : ℝ → ℝ) :
    auxFdicaStep np alg floor X (some d) = Fdica.auxUpdate np alg floor d X := by
  funext W
  rcases alg with _ | _ | ⟨x, l⟩ <;> rfl

/-- C104 for `AuxFDICA`, given both functions. -/
theorem C104_aux_fdica (alg : FilterAlg n) (a : AuxFdicaArgs n) {G d} (hG : a.contrast = some G) (hd : a.d_contrast = some d)
    (hr : a.reference = none → a.scale.truthy = false) :
    auxFdicaUse sort np alg a X k ic = (Fdica.auxCall sort np alg a.alignment (floorOf a.floor) G d a.scale (a.reference.getD 0) X k ic none .fresh).map (seenI a.record_loss) := by
  rw [auxFdicaUse, hG, hd, checkRef_ok hr, auxFdicaStep_some]
  refine use_total (m := RecordLoss.auxFdica sort a.alignment (floorOf a.floor) a.scale (a.reference.getD 0) X np alg G d none IvaCall.Obj.fresh)
    (g := fun s : Fin B → Mat n ℂ => Fdica.finishAligned sort a.alignment (floorOf a.floor) a.scale (a.reference.getD 0) X s)
    (h := fun s y ls => (⟨.val y.2, .val y.1, ls⟩ : IvaCall.Obj (Fin B) n t)) (fun _ => rfl) (fun _ => rfl)
    (fun o l => (⟨o.demix, o.output, l⟩ : Seen ℂ (Fin B) n t)) (fun _ _ _ _ => rfl) (fun o => o.loss) (fun _ _ _ => rfl)
    a.record_loss ?_
  rw [Fdica.auxCall]
  rfl

/-- C104: `AuxFDICA` checks `contrast_fn`, also with `record_loss=False`. -/
theorem C104_aux_fdica_missing (alg : FilterAlg n) (a : AuxFdicaArgs n)
    (h : a.contrast = none ∨ (a.reference = none ∧ a.scale.truthy = true)) : auxFdicaUse sort np alg a X k ic = .error .value := by
  rw [auxFdicaUse]
  rcases h with h | h
  · rw [h]; rfl
  · rw [checkRef_error h.1 h.2]; cases a.contrast <;> rfl

/-- C104: `AuxFDICA` does not check `d_contrast_fn`, but without it no call with an iteration returns. -/
theorem C104_aux_fdica_no_derivative (alg : FilterAlg n) (halg : alg ≠ .ip2 []) (a : AuxFdicaArgs n) (hd : a.d_contrast = none)
    (hk : 0 < k) (q : Seen ℂ (Fin B) n t) : auxFdicaUse sort np alg a X k ic ≠ .ok q := by
  intro e
  obtain ⟨c, -, e⟩ := Ilrma.bind_ok e
  obtain ⟨-, -, e⟩ := Ilrma.bind_ok e
  obtain ⟨p, e, -⟩ := Ilrma.bind_ok e
  refine never_returns _ _ _ _ _ (.inl ⟨⟨.type, fun s => ?_⟩, hk⟩) p e
  rcases alg with _ | _ | ⟨x, l⟩
  · simp only [auxFdicaStep, hd, calling]
  · exact absurd rfl halg
  · simp only [auxFdicaStep, hd, calling]

/-- C104: with no iteration `d_contrast_fn` is not needed. -/
theorem C104_aux_fdica_no_iteration (alg : FilterAlg n) (a : AuxFdicaArgs n) (hc : a.contrast ≠ none)
    (hr : a.reference = none → a.scale.truthy = false) :
    auxFdicaUse sort np alg a X 0 false
      = (Fdica.finishAligned sort a.alignment (floorOf a.floor) a.scale (a.reference.getD 0) X fun _ => 1).map
        fun y => ⟨.val y.2, .val y.1, if a.record_loss then some [] else none⟩ := by
  obtain ⟨c, hc⟩ := Option.ne_none_iff_exists'.1 hc
  have hst : Fdica.auxReset X none (IvaCall.Obj.fresh : IvaCall.Obj (Fin B) n t) = .ok fun _ => 1 := rfl
  simp only [auxFdicaUse, hc, need, checkRef_ok hr, Method.call, RecordLoss.auxFdica, hst, RecordLoss.loop, emptyLoss, bind,
    Except.bind]
  cases Fdica.finishAligned sort a.alignment (floorOf a.floor) a.scale (a.reference.getD 0) X fun _ => 1 <;> rfl

/-- C104: IP2 that is given no pairs never calls `d_contrast_fn`: the result is the same with and without one. -/
theorem C104_aux_fdica_no_pairs (a : AuxFdicaArgs n) (d : Option (ℝ → ℝ)) :
    auxFdicaUse sort np (.ip2 []) { a with d_contrast := d } X k ic
      = auxFdicaUse sort np (.ip2 []) { a with d_contrast := none } X k ic := rfl

/-- C104: `AuxLaplaceFDICA` is `AuxFDICA` with the contrast function `2|y|` and the derivative 2. -/
theorem C104_aux_laplace_fdica (alg : FilterAlg n) (c : Common n) :
    auxLaplaceFdicaUse sort np alg c X k ic = auxFdicaUse sort np alg ⟨c, some fun r => 2 * r, some fun _ => 2⟩ X k ic := rfl

/-- `AuxFDICA(contrast_fn=...)` without derivative is accepted; a call without iterations returns, one with an iteration raises. -/
example (alg : FilterAlg 2) (halg : alg ≠ .ip2 []) (X : Spec (Fin 3) 2 t) :
    (∃ q, auxFdicaUse sort np alg ⟨⟨none, .bool false, .bool false, true, some 0⟩, some fun r => r ^ 2, none⟩ X 0 false = .ok q) ∧
      ∀ q, auxFdicaUse sort np alg ⟨⟨none, .bool false, .bool false, true, some 0⟩, some fun r => r ^ 2, none⟩ X 1 false ≠ .ok q :=
  ⟨⟨_, C104_aux_fdica_no_iteration sort np X alg _ (by simp) (fun h => by cases h)⟩,
    fun q => C104_aux_fdica_no_derivative sort np X 1 false alg halg _ rfl one_pos q⟩

end auxfdica

end Verif.FnConfig
