import Verif.Props.NormFree
import Verif.Props.FastScale

/-! # C113: gains per bin and ILRMA

An equaliser, a delay or another window multiplies bin `f` of the recording by a number `a f`. With `flooring_fn=None` and
scale restoration, ILRMA from bases multiplied by `‖a f‖ ^ domain` returns the output of the original call with those
gains, the same demixing filters and activations, and losses shifted by `2 n ∑ log ‖a f‖` — with whatever normalization.
-/

namespace Verif.IlrmaGain

open Matrix Spatial Scale Ilrma EigPhase NormFree
open IlrmaCall (baseCall Draw Kw Obj)
open Lifecycle (ScaleOpt finish finishFree)
open FastScale (baseCall_shift)
open scoped ComplexOrder

variable {F : Type} [Fintype F] {n t K : ℕ}

/-- The gains as a mixing. -/
noncomputable def gainMat (a : F → ℂ) : F → Mat n ℂ := fun f => a f • 1

variable {a : F → ℂ}

omit [Fintype F] in
theorem gainMat_unit (ha : ∀ f, a f ≠ 0) (f : F) : IsUnit (gainMat (n := n) a f).det := by
  rw [gainMat, det_smul, det_one, mul_one, isUnit_iff_ne_zero]
  exact pow_ne_zero _ (ha f)

omit [Fintype F] in
theorem remix_gainMat (a : F → ℂ) (X : Spec F n t) : remix (gainMat a) X = gain a X := by
  funext f
  rw [remix, gainMat, gain, Matrix.smul_mul, Matrix.one_mul]

omit [Fintype F] in
theorem gainMat_inv (ha : ∀ f, a f ≠ 0) (f : F) : (gainMat (n := n) a f)⁻¹ = (a f)⁻¹ • 1 := by
  apply inv_eq_left_inv
  rw [gainMat, Matrix.smul_mul, Matrix.one_mul, smul_smul, inv_mul_cancel₀ (ha f), one_smul]

omit [Fintype F] in
theorem unmix_gainMat (ha : ∀ f, a f ≠ 0) (W : F → Mat n ℂ) :
    Spatial.unmix (gainMat a) W = scaled (fun f _ => (a f)⁻¹) W := by
  funext f
  rw [Spatial.unmix, gainMat_inv ha, scaled, mulRow_eq, Matrix.mul_smul, Matrix.mul_one]
  ext i j
  simp [diagonal_mul]

omit [Fintype F] in
theorem rows_gain (ha : ∀ f, a f ≠ 0) {X : Spec F n t} (hX : ∀ f, LinearIndependent ℂ (X f).row) (f : F) :
    LinearIndependent ℂ (gain a X f).row := by
  have := (hX f).units_smul fun _ => Units.mk0 (a f) (ha f)
  exact this

/-- Whether a filter can be normalised does not depend on the gains. -/
theorem normReg_gain (ha : ∀ f, a f ≠ 0) (X : Spec F n t) (norm : Norm n) {W : F → Mat n ℂ}
    (h : NormReg id X norm W) : NormReg id (gain a X) norm (Spatial.unmix (gainMat a) W) := by
  cases norm with
  | off => trivial
  | power =>
    intro k
    rw [← remix_gainMat, separate_remix _ (gainMat_unit ha)]
    exact h k
  | projectionBack r =>
    intro f k
    rw [Spatial.unmix, Matrix.mul_inv_rev, nonsing_inv_nonsing_inv _ (gainMat_unit ha f), gainMat, Matrix.smul_mul,
      Matrix.one_mul, Matrix.smul_apply, smul_eq_mul]
    exact mul_ne_zero (ha f) (h f k)

/-- `s'` is `s` with other scales, for the recording with gains. -/
def Gained (p : ℝ) (a : F → ℂ) (s s' : St F n t K) : Prop := ∃ v, Rescaled p s v ∧ s' = v.unmix (gainMat a)

omit [Fintype F] in
/-- Rescaling and undoing the gains commute. -/
theorem Gained.rescaled {p : ℝ} {s s' s'' : St F n t K} (h : Gained p a s s') (h' : Rescaled p s' s'') :
    Gained p a s s'' := by
  obtain ⟨v, hv, rfl⟩ := h
  obtain ⟨c, hc, h1, h2, h3⟩ := h'
  refine ⟨⟨scaled c v.W, mulBasis p c v.T, v.V⟩, hv.trans ⟨c, hc, rfl, rfl, rfl⟩, ?_⟩
  obtain ⟨W, T, V⟩ := s''
  simp only at h1 h2 h3
  subst h1 h2 h3
  have e : scaled c (Spatial.unmix (gainMat a) v.W) = Spatial.unmix (gainMat a) (scaled c v.W) := by
    funext f
    simp only [scaled, Spatial.unmix, mulRow_eq, Matrix.mul_assoc]
  simp only [St.unmix, e]

theorem stepG [Nonempty (Fin K)] (np np' : Numpy ℂ) {src : Source} {p : ℝ} (hm : IsModel src p) (alg : FilterAlg n)
    (norm norm' : Norm n) (ha : ∀ f, a f ≠ 0) (X : Spec F n t) (s s' : St F n t K) (h : Inv s ∧ Gained p a s s')
    (hv : Visits np src alg norm norm' X s) :
    ∃ u u', updateOnce np src p alg norm id X s = .ok u ∧ updateOnce np' src p alg norm' id (gain a X) s' = .ok u' ∧
      Inv u ∧ Gained p a u u' := by
  obtain ⟨hs, v, hR, rfl⟩ := h
  obtain ⟨s₁, e₁, hu, hn, hn'⟩ := hv.spatial
  obtain ⟨u₀, w, e1, e2, hu₀, hw⟩ := step np np' hm alg .off .off X s v ⟨hs, hR⟩
    ⟨hv.basis, hv.activation, hv.pairs, s₁, e₁, hu, trivial, trivial⟩
  have h0 : ∀ (np : Numpy ℂ) (norm : Norm n) (X : Spec F n t) (s u : St F n t K),
      updateOnce np src p alg .off id X s = .ok u →
      updateOnce np src p alg norm id X s = Ilrma.normalize p id X norm u := by
    intro np norm X s u e
    simp only [updateOnce, bind, Except.bind] at e ⊢
    cases e' : updateSpatial np src alg id X (updateSource src id X s) with
    | error => rw [e'] at e; cases e
    | ok y =>
      rw [e'] at e
      cases e
      rfl
  have hu₀s : u₀ = s₁ := by
    have : updateOnce np src p alg .off id X s = .ok s₁ := by
      simp only [updateOnce, bind, Except.bind, e₁]
      rfl
    rw [e1] at this
    exact Except.ok.inj this
  subst hu₀s
  obtain ⟨u, e3, hRu⟩ := normalize_rescaled p X norm hu hn
  have hwn : NormReg id X norm' w.W := by
    obtain ⟨c, hc, h1, -⟩ := hw
    rw [h1]
    exact normReg_scaled X norm' hc hn'
  have hwi := hw.inv hu₀
  have e4 : updateOnce np' src p alg .off id (gain a X) (v.unmix (gainMat a)) = .ok (w.unmix (gainMat a)) := by
    have := C71_ilrma (gainMat a) (gainMat_unit ha) np' src p alg .off (fun r h => nomatch h) id X v 1
    rw [remix_gainMat] at this
    simp only [iterM, bind, Except.bind, e2] at this
    cases e : updateOnce np' src p alg .off id (gain a X) (v.unmix (gainMat a)) with
    | error => rw [e] at this; cases this
    | ok y =>
      rw [e] at this
      exact congrArg _ (Except.ok.inj this)
  have hgi : ∀ f, IsUnit ((w.unmix (gainMat a)).W f).det := fun f => by
    change IsUnit (w.W f * (gainMat a f)⁻¹).det
    rw [det_mul]
    exact (hwi.1 f).mul (isUnit_nonsing_inv_det _ (gainMat_unit ha f))
  obtain ⟨u', e5, hRu'⟩ := normalize_rescaled p (gain a X) norm' hgi (normReg_gain ha X norm' hwn)
  exact ⟨u, u', (h0 np norm X s _ e1).trans e3, (h0 np' norm' _ _ _ e4).trans e5, hRu.inv hu₀,
    Gained.rescaled ⟨w, hRu.symm.trans hw, rfl⟩ hRu'⟩

/-- All losses are shifted by the same amount. -/
theorem Gained.loss [Nonempty (Fin K)] {src : Source} {p : ℝ} (hm : IsModel src p) (ht : 0 < t) (ha : ∀ f, a f ≠ 0)
    (X : Spec F n t) {s s' : St F n t K} (h : Gained p a s s') (hs : Inv s) :
    loss src (gain a X) s' = loss src X s + 2 * n * ∑ f, Real.log ‖a f‖ := by
  obtain ⟨v, hv, rfl⟩ := h
  have hd : ∀ f, Real.log ‖(gainMat (n := n) a f).det‖ = n * Real.log ‖a f‖ := fun f => by
    rw [gainMat, det_smul, det_one, mul_one, norm_pow, Real.log_pow, Fintype.card_fin]
  rw [← hv.loss hm ht X hs, ← remix_gainMat]
  rw [Ilrma.loss, Ilrma.loss, lossOf, lossOf]
  simp only [St.unmix, separate_remix _ (gainMat_unit ha), logdet_unmix _ v.W (gainMat_unit ha) (hv.inv hs).1, mul_sub,
    Finset.sum_sub_distrib, Finset.mul_sum, hd]
  simp only [mul_assoc]
  ring

/-- C113: the losses of a run. -/
theorem C113_run [Nonempty (Fin K)] (np np' : Numpy ℂ) {src : Source} {p : ℝ} (hm : IsModel src p) (ht : 0 < t)
    (alg : FilterAlg n) (norm norm' : Norm n) (ha : ∀ f, a f ≠ 0) (X : Spec F n t) (ic : Bool) (n_iter : ℕ)
    {s s' : St F n t K} (hs : Inv s) (h : Gained p a s s')
    (hreg : RegularRun (updateOnce np src p alg norm id X) (Visits np src alg norm norm' X) n_iter s) :
    ∃ u u' l, (∀ ls, baseCall (updateOnce np src p alg norm id X) (fun s => .ok (loss src X s)) ic n_iter s ls
        = .ok (u, ls ++ l)) ∧
      (∀ ls, baseCall (updateOnce np' src p alg norm' id (gain a X)) (fun s => .ok (loss src (gain a X) s)) ic n_iter s' ls
        = .ok (u', ls ++ l.map (· + 2 * n * ∑ f, Real.log ‖a f‖))) ∧ Inv u ∧ Gained p a u u' :=
  baseCall_shift (R := fun s s' => Inv s ∧ Gained p a s s') _ (stepG np np' hm alg norm norm' ha X)
    (fun _ _ h => ⟨_, rfl, by rw [h.2.loss hm ht ha X h.1]⟩) ic n_iter ⟨hs, h⟩ hreg

omit [Fintype F] in
/-- A call from the filter `W` on the recording with gains starts from a gained state if its bases are adapted. -/
theorem gained_start (p : ℝ) (ha : ∀ f, a f ≠ 0) {c : F → Fin n → ℂ} (hc : ∀ f k, c f k ≠ 0) (W : F → Mat n ℂ)
    (T : Fin n → F → Fin K → ℝ) (V : Fin n → Fin K → Fin t → ℝ) :
    Gained p a ⟨W, T, V⟩ ⟨scaled c W, fun k f b => T k f b * (‖a f‖ * ‖c f k‖) ^ p, V⟩ := by
  refine ⟨⟨scaled (fun f k => a f * c f k) W, mulBasis p (fun f k => a f * c f k) T, V⟩,
    ⟨fun f k => a f * c f k, fun f k => mul_ne_zero (ha f) (hc f k), rfl, rfl, rfl⟩, ?_⟩
  have e : (fun (f : F) (k : Fin n) => (a f)⁻¹ * (a f * c f k)) = c := by
    funext f k
    rw [← mul_assoc, inv_mul_cancel₀ (ha f), one_mul]
  have e' : mulBasis p (fun f k => a f * c f k) T = fun k f b => T k f b * (‖a f‖ * ‖c f k‖) ^ p := by
    funext k f b
    simp only [mulBasis, norm_mul]
  simp only [St.unmix, unmix_gainMat ha, scaled_scaled, e, e']

theorem finish_gained (sr : ScaleOpt) (hsr : sr.truthy = true) (r : Fin n) (ha : ∀ f, a f ≠ 0) (X : Spec F n t) {p : ℝ}
    {s s' : St F n t K} (h : Gained p a s s') :
    finish sr r (gain a X) s'.W = (finish sr r X s.W).map fun q => (gain a q.1, q.2) := by
  obtain ⟨v, ⟨c, hc, h1, -⟩, rfl⟩ := h
  have e : (v.unmix (gainMat a)).W = fun f => mulRow (fun k => (a f)⁻¹ * c f k) (s.W f) := by
    change Spatial.unmix (gainMat a) v.W = _
    rw [unmix_gainMat ha, h1, scaled_scaled]
    rfl
  rw [e, Lifecycle.finish_rescale sr hsr r _ (fun f k => mul_ne_zero (inv_ne_zero (ha f)) (hc f k))]
  have := finish_gain sr hsr r a ha (fun _ _ => 1) (fun _ _ => one_pos) X s.W
  rw [← this]
  congr 1
  funext f
  ext i j
  simp [mulRow]

/-- What the gains do to an output. -/
def gainOut (a : F → ℂ) : Lifecycle.Attr (Spec F n t) → Lifecycle.Attr (Spec F n t)
  | .absent => .absent
  | .none => .none
  | .val Y => .val fun f => a f • Y f

/-- C113: ILRMA with IP1 or IP2 and scale restoration on the recording with gains `a`, started from bases multiplied by
`‖a f‖ ^ domain` (more generally, from rescaled filters and accordingly rescaled bases), with whatever normalisation: the
same filters and activations, the output with the gains, losses shifted by a constant. -/
theorem C113_call [Nonempty (Fin K)] (np np' : Numpy ℂ) {src : Source} {p : ℝ} (hm : IsModel src p) (ht : 0 < t)
    (alg : FilterAlg n) (norm norm' : Norm n) {sr : ScaleOpt} (hsr : sr.truthy = true) (r : Fin n) (draw draw' : Draw F n t K)
    (ha : ∀ f, a f ≠ 0) (X : Spec F n t) (n_iter : ℕ) (ic : Bool) {W : F → Mat n ℂ} {T : Fin n → F → Fin K → ℝ}
    {V : Fin n → Fin K → Fin t → ℝ} (hW : ∀ f, IsUnit (W f).det) (hT : ∀ k f b, 0 < T k f b) (hV : ∀ k b j, 0 < V k b j)
    (hreg : RegularRun (updateOnce np src p alg norm id X) (Visits np src alg norm norm' X) n_iter ⟨W, T, V⟩)
    {c : F → Fin n → ℂ} (hc : ∀ f k, c f k ≠ 0) :
    ∃ T', IlrmaCall.call np' src p alg norm' id sr r draw' (fun f => a f • X f) n_iter ic
        { demix := some fun f => Matrix.of fun k j => c f k * W f k j,
          basis := some fun k f b => T k f b * (‖a f‖ * ‖c f k‖) ^ p, activation := some V } .fresh
      = (IlrmaCall.call np src p alg norm id sr r draw X n_iter ic
          { demix := some W, basis := some T, activation := some V } .fresh).map fun o =>
            { o with basis := .val T', output := gainOut a o.output,
                     loss := o.loss.map (· + 2 * n * ∑ f, Real.log ‖a f‖) } := by
  have h1 : ∀ (draw : Draw F n t K) X W T V, IlrmaCall.resetFilter alg id draw X
      { demix := some W, basis := some T, activation := some V } .fresh = .ok ⟨W, T, V⟩ := by
    intro draw X W T V
    cases alg <;> rfl
  obtain ⟨u, u', l, e1, e2, -, hR⟩ := C113_run np np' hm ht alg norm norm' ha X ic n_iter (s := ⟨W, T, V⟩)
    ⟨hW, hT, hV⟩ (gained_start p ha hc W T V) hreg
  have hV' : u'.V = u.V := by
    obtain ⟨v, ⟨-, -, -, -, h⟩, rfl⟩ := hR
    exact h
  have e2' : baseCall (updateOnce np' src p alg norm' id (gain a X)) (fun s => .ok (loss src (gain a X) s)) ic n_iter
      ⟨fun f => Matrix.of fun k j => c f k * W f k j, fun k f b => T k f b * (‖a f‖ * ‖c f k‖) ^ p, V⟩ []
        = .ok (u', [] ++ l.map (· + 2 * n * ∑ f, Real.log ‖a f‖)) := e2 []
  refine ⟨u'.T, ?_⟩
  change IlrmaCall.call np' src p alg norm' id sr r draw' (gain a X) n_iter ic _ _ = _
  rw [IlrmaCall.call, IlrmaCall.call, h1, h1]
  simp only [bind, Except.bind, IlrmaCall.Obj.fresh, e1, e2', finish_gained sr hsr r ha X hR, hV']
  cases finish sr r X u.W <;> rfl


/-! ## The algorithms without a filter -/

/-- The outputs of gained states. -/
def GainedY (p : ℝ) (a : F → ℂ) (X : Spec F n t) (s s' : StY F n t K) : Prop :=
  ∃ u u' : St F n t K, s = u.toY X ∧ s' = u'.toY (gain a X) ∧ Inv u ∧ Gained p a u u'

theorem stepGY [Nonempty (Fin K)] (np np' : Numpy ℂ) {src : Source} {p : ℝ} (hm : IsModel src p) (alg : SignalAlg n)
    (norm norm' : Norm n) (ha : ∀ f, a f ≠ 0) {X : Spec F n t} (hX : ∀ f, LinearIndependent ℂ (X f).row)
    (s s' : StY F n t K) (h : GainedY p a X s s') (hv : VisitsY np src alg norm norm' X s) :
    ∃ b b', updateOnceY np src p alg norm id X s = .ok b ∧ updateOnceY np' src p alg norm' id (gain a X) s' = .ok b' ∧
      GainedY p a X b b' := by
  obtain ⟨u, u', rfl, rfl, hs, v, hR, rfl⟩ := h
  obtain ⟨W₁, e₁, hu, hn, hn'⟩ := hv.spatial
  have hY : ∀ w : St F n t K, (w.unmix (gainMat a)).toY (gain a X) = w.toY X := fun w => by
    rw [← remix_gainMat]
    simp only [St.toY, St.unmix, separate_remix _ (gainMat_unit ha)]
  obtain ⟨b₀, b₁, e1, e2, w₀, w, rfl, rfl, hw₀, hw⟩ := stepY np np' hm alg .off .off hX (u.toY X) (v.toY X)
    ⟨u, v, rfl, rfl, hs, hR⟩ ⟨hv.basis, hv.activation, hv.pairs, W₁, e₁, hu, trivial, trivial⟩
  have h0 : ∀ (np : Numpy ℂ) (norm : Norm n) (X X' : Spec F n t) (s u : StY F n t K),
      updateOnceY np src p alg .off id X s = .ok u →
      updateOnceY np src p alg norm id X' s = normalizeY p id X' norm u := by
    intro np norm X X' s u e
    simp only [updateOnceY, bind, Except.bind] at e ⊢
    cases e' : updateSpatialY np src alg id (updateSourceY src id s) with
    | error => rw [e'] at e; cases e
    | ok y =>
      rw [e'] at e
      cases e
      rfl
  have hW : w₀.W = W₁ := by
    have h1 : updateOnceY np src p alg .off id X (u.toY X)
        = .ok ⟨separate X W₁, (updateSourceY src id (u.toY X)).T, (updateSourceY src id (u.toY X)).V⟩ := by
      simp only [updateOnceY, bind, Except.bind, e₁]
      rfl
    rw [e1] at h1
    have h2 : separate X w₀.W = separate X W₁ := congrArg StY.Y (Except.ok.inj h1)
    have h3 := filterOf_eq X hX w₀.W
    rw [h2, filterOf_eq X hX W₁] at h3
    exact (Except.ok.inj h3).symm
  subst hW
  obtain ⟨b, e3, hb⟩ := normalize_rescaled p X norm hu hn
  have hwn : NormReg id X norm' w.W := by
    obtain ⟨c, hc, h1, -⟩ := hw
    rw [h1]
    exact normReg_scaled X norm' hc hn'
  have hgi : ∀ f, IsUnit ((w.unmix (gainMat a)).W f).det := fun f => by
    change IsUnit (w.W f * (gainMat a f)⁻¹).det
    rw [det_mul]
    exact ((hw.inv hw₀).1 f).mul (isUnit_nonsing_inv_det _ (gainMat_unit ha f))
  obtain ⟨b', e5, hb'⟩ := normalize_rescaled p (gain a X) norm' hgi (normReg_gain ha X norm' hwn)
  have n1 := normalizeY_toY p id X hX norm w₀ hu
  have n2 := normalizeY_toY p id (gain a X) (rows_gain ha hX) norm' (w.unmix (gainMat a)) hgi
  rw [e3] at n1
  rw [e5, hY] at n2
  refine ⟨b.toY X, b'.toY (gain a X), (h0 np norm X X _ _ e1).trans n1, ?_, b, b', rfl, rfl, hb.inv hw₀,
    Gained.rescaled ⟨w, hb.symm.trans hw, rfl⟩ hb'⟩
  rw [hY]
  exact (h0 np' norm' X _ _ _ e2).trans n2

/-- C113: the losses of a run with ISS. -/
theorem C113_run_signal [Nonempty (Fin K)] (np np' : Numpy ℂ) {src : Source} {p : ℝ} (hm : IsModel src p) (ht : 0 < t)
    (alg : SignalAlg n) (norm norm' : Norm n) (ha : ∀ f, a f ≠ 0) {X : Spec F n t}
    (hX : ∀ f, LinearIndependent ℂ (X f).row) (ic : Bool) (n_iter : ℕ) {s s' : StY F n t K} (h : GainedY p a X s s')
    (hreg : RegularRun (updateOnceY np src p alg norm id X) (VisitsY np src alg norm norm' X) n_iter s) :
    ∃ b b' l, (∀ ls, baseCall (updateOnceY np src p alg norm id X) (lossY src X) ic n_iter s ls = .ok (b, ls ++ l)) ∧
      (∀ ls, baseCall (updateOnceY np' src p alg norm' id (gain a X)) (lossY src (gain a X)) ic n_iter s' ls
        = .ok (b', ls ++ l.map (· + 2 * n * ∑ f, Real.log ‖a f‖))) ∧ GainedY p a X b b' := by
  refine baseCall_shift (R := GainedY p a X) _ (stepGY np np' hm alg norm norm' ha hX) ?_ ic n_iter h hreg
  rintro _ _ ⟨u, u', rfl, rfl, hi, hR⟩
  exact ⟨_, lossY_toY src X hX u, by rw [lossY_toY src _ (rows_gain ha hX) u', hR.loss hm ht ha X hi]⟩

theorem finishFree_gained (sr : ScaleOpt) (hsr : sr.truthy = true) (r : Fin n) (ha : ∀ f, a f ≠ 0) (X : Spec F n t) {p : ℝ}
    {s s' : StY F n t K} (h : GainedY p a X s s') :
    finishFree sr r (gain a X) s'.Y = (finishFree sr r X s.Y).map (gain a) ∧ s'.V = s.V := by
  obtain ⟨u, u', rfl, rfl, -, v, ⟨c, hc, h1, -, h3⟩, rfl⟩ := h
  refine ⟨?_, h3⟩
  have e : ((v.unmix (gainMat a)).toY (gain a X)).Y
      = scaled (fun f k => (a f)⁻¹ * c f k) (fun f => mulRow (fun _ => a f * (1 : ℝ)) (separate X u.W f)) := by
    have e1 : ((v.unmix (gainMat a)).toY (gain a X)).Y = separate X v.W := by
      rw [← remix_gainMat]
      exact separate_remix _ (gainMat_unit ha) X v.W
    rw [e1, h1, separate_scaled]
    funext f
    ext k j
    simp only [scaled, mulRow, of_apply]
    have := ha f
    push_cast
    field_simp
  rw [e, finishFree_rescale sr hsr r _ fun f k => mul_ne_zero (inv_ne_zero (ha f)) (hc f k)]
  exact finishFree_gain sr hsr r a ha (fun _ _ => 1) (fun _ _ => one_pos) X _

/-- C113 for ISS1 and ISS2. -/
theorem C113_call_signal [Nonempty (Fin K)] (np np' : Numpy ℂ) {src : Source} {p : ℝ} (hm : IsModel src p) (ht : 0 < t)
    (alg : SignalAlg n) (norm norm' : Norm n) {sr : ScaleOpt} (hsr : sr.truthy = true) (r : Fin n)
    (draw draw' : Draw F n t K) (ha : ∀ f, a f ≠ 0) {X : Spec F n t} (hX : ∀ f, LinearIndependent ℂ (X f).row)
    (n_iter : ℕ) (ic : Bool) {W : F → Mat n ℂ} {T : Fin n → F → Fin K → ℝ} {V : Fin n → Fin K → Fin t → ℝ}
    (hW : ∀ f, IsUnit (W f).det) (hT : ∀ k f b, 0 < T k f b) (hV : ∀ k b j, 0 < V k b j)
    (hreg : RegularRun (updateOnceY np src p alg norm id X) (VisitsY np src alg norm norm' X) n_iter ⟨separate X W, T, V⟩)
    {c : F → Fin n → ℂ} (hc : ∀ f k, c f k ≠ 0) :
    ∃ T', IlrmaCall.callSignal np' src p alg norm' id sr r draw' (fun f => a f • X f) n_iter ic
        { demix := some fun f => Matrix.of fun k j => c f k * W f k j,
          basis := some fun k f b => T k f b * (‖a f‖ * ‖c f k‖) ^ p, activation := some V } .fresh
      = (IlrmaCall.callSignal np src p alg norm id sr r draw X n_iter ic
          { demix := some W, basis := some T, activation := some V } .fresh).map fun o =>
            { o with basis := .val T', output := gainOut a o.output,
                     loss := o.loss.map (· + 2 * n * ∑ f, Real.log ‖a f‖) } := by
  have h1 : ∀ (draw : Draw F n t K) X W T V, IlrmaCall.resetSignal alg id draw X
      { demix := some W, basis := some T, activation := some V } .fresh = .ok ⟨separate X W, T, V⟩ := by
    intro draw X W T V
    cases alg <;> rfl
  obtain ⟨u, u', l, e1, e2, hR⟩ := C113_run_signal np np' hm ht alg norm norm' ha hX ic n_iter (s := ⟨separate X W, T, V⟩)
    ⟨⟨W, T, V⟩, _, rfl, rfl, ⟨hW, hT, hV⟩, gained_start p ha hc W T V⟩ hreg
  obtain ⟨hf, hV'⟩ := finishFree_gained sr hsr r ha X hR
  have e2' : baseCall (updateOnceY np' src p alg norm' id (gain a X)) (lossY src (gain a X)) ic n_iter
      ⟨separate (gain a X) fun f => Matrix.of fun k j => c f k * W f k j, fun k f b => T k f b * (‖a f‖ * ‖c f k‖) ^ p, V⟩ []
        = .ok (u', [] ++ l.map (· + 2 * n * ∑ f, Real.log ‖a f‖)) := e2 []
  refine ⟨u'.T, ?_⟩
  change IlrmaCall.callSignal np' src p alg norm' id sr r draw' (gain a X) n_iter ic _ _ = _
  rw [IlrmaCall.callSignal, IlrmaCall.callSignal, h1, h1]
  simp only [bind, Except.bind, IlrmaCall.Obj.fresh, e1, e2', hf, hV']
  cases finishFree sr r X u.Y <;> rfl

/-! ## When nothing else is needed -/

/-- The condition on the run for power normalisation after the first iteration too. -/
theorem regularRun_audible_any [Nonempty (Fin K)] [Nonempty F] (np : Numpy ℂ) {src : Source} {p : ℝ} (hm : IsGaussOrT src p)
    {norm norm' : Norm n} (h1 : norm = .off ∨ norm = .power) (h2 : norm' = .off ∨ norm' = .power)
    {X : Spec F n t} (hX : ∀ f, LinearIndependent ℂ (X f).row) (N : ℕ) : ∀ {s : St F n t K}, Inv s →
    RegularRun (updateOnce np src p .ip1 norm id X) (fun s => Audible (separate X s.W)) N s →
    RegularRun (updateOnce np src p .ip1 norm id X) (Visits np src .ip1 norm norm' X) N s := by
  induction N with
  | zero => exact fun _ _ => trivial
  | succ N ih =>
    intro s hs h
    have hv : Visits np src .ip1 norm norm' X s := by
      obtain ⟨b1, b2, b3, s₁, e, hu, b4, b5⟩ := visits_audible np hm hX hs h.1
      refine ⟨b1, b2, b3, s₁, e, hu, ?_, ?_⟩
      · rcases h1 with rfl | rfl
        · trivial
        · exact b5
      · rcases h2 with rfl | rfl
        · trivial
        · exact b5
    refine ⟨hv, fun s' e => ih ?_ (h.2 s' e)⟩
    obtain ⟨a, a', e1, -, hi, -⟩ := step np np hm.isModel .ip1 norm norm' X s s ⟨hs, Rescaled.refl p s⟩ hv
    rw [e] at e1
    cases e1
    exact hi

/-- C113 for GaussILRMA and TILRMA with IP1, unnormalised or normalised by power (the default): all that is asked of the
recording is that its channels are linearly independent, and of the run that no output is silent in all bins of a frame. -/
theorem C113_audible [Nonempty (Fin K)] [Nonempty F] (np np' : Numpy ℂ) {src : Source} {p : ℝ} (hm : IsGaussOrT src p)
    {norm norm' : Norm n} (h1 : norm = .off ∨ norm = .power) (h2 : norm' = .off ∨ norm' = .power)
    {sr : ScaleOpt} (hsr : sr.truthy = true) (r : Fin n) (draw draw' : Draw F n t K) (ha : ∀ f, a f ≠ 0) {X : Spec F n t}
    (hX : ∀ f, LinearIndependent ℂ (X f).row) (n_iter : ℕ) (ic : Bool) {W : F → Mat n ℂ} {T : Fin n → F → Fin K → ℝ}
    {V : Fin n → Fin K → Fin t → ℝ} (hW : ∀ f, IsUnit (W f).det) (hT : ∀ k f b, 0 < T k f b) (hV : ∀ k b j, 0 < V k b j)
    (hreg : RegularRun (updateOnce np src p .ip1 norm id X) (fun s => Audible (separate X s.W)) n_iter ⟨W, T, V⟩) :
    ∃ T', IlrmaCall.call np' src p .ip1 norm' id sr r draw' (fun f => a f • X f) n_iter ic
        { demix := some W, basis := some fun k f b => T k f b * ‖a f‖ ^ p, activation := some V } .fresh
      = (IlrmaCall.call np src p .ip1 norm id sr r draw X n_iter ic
          { demix := some W, basis := some T, activation := some V } .fresh).map fun o =>
            { o with basis := .val T', output := gainOut a o.output,
                     loss := o.loss.map (· + 2 * n * ∑ f, Real.log ‖a f‖) } := by
  have ht : 0 < t := by
    obtain ⟨f⟩ := ‹Nonempty F›
    obtain ⟨j, -⟩ := row_ne_zero (hX f) r
    exact Fin.pos j
  have key := C113_call np np' hm.isModel ht .ip1 norm norm' hsr r draw draw' ha X n_iter ic hW hT hV
    (regularRun_audible_any np hm h1 h2 hX n_iter ⟨hW, hT, hV⟩ hreg) (c := fun _ _ => 1) fun _ _ => one_ne_zero
  have e1 : (fun f => Matrix.of fun k j => (1 : ℂ) * W f k j) = W := by
    funext f
    ext k j
    simp
  simp only [norm_one, mul_one, e1] at key
  exact key

/-! ## Examples -/

/-- C113 for runs of any length of `GaussILRMA`: the second bin is amplified threefold and delayed, and the normalisation
by power is switched off. -/
example (np np' : Numpy ℂ) (draw draw' : Draw (Fin 2) 1 2 3) (n_iter : ℕ) :
    ∃ T', IlrmaCall.call np' (gauss 1) 1 .ip1 .off id (.bool true) 0 draw'
        (fun f => (![2, 3 * Complex.I] f) • monoX f) n_iter true
        { demix := some fun _ => 1, basis := some fun _ f _ => 1 * ‖(![2, 3 * Complex.I] f : ℂ)‖ ^ (1 : ℝ),
          activation := some fun _ _ _ => 2 } .fresh
      = (IlrmaCall.call np (gauss 1) 1 .ip1 .power id (.bool true) 0 draw monoX n_iter true
        { demix := some fun _ => 1, basis := some fun _ _ _ => 1, activation := some fun _ _ _ => 2 } .fresh).map fun o =>
          { o with basis := .val T', output := gainOut ![2, 3 * Complex.I] o.output,
                   loss := o.loss.map (· + 2 * (1 : ℕ) * ∑ f, Real.log ‖(![2, 3 * Complex.I] f : ℂ)‖) } := by
  have hg : ∀ f, (![2, 3 * Complex.I] : Fin 2 → ℂ) f ≠ 0 := by
    intro f
    fin_cases f <;> simp
  have h0 : Inv (⟨fun _ => 1, fun _ _ _ => 1, fun _ _ _ => 2⟩ : St (Fin 2) 1 2 3) :=
    ⟨fun f => by simp, fun _ _ _ => one_pos, fun _ _ _ => two_pos⟩
  refine C113_audible np np' (.gauss one_pos) (.inr rfl) (.inl rfl) rfl 0 draw draw' hg monoX_rows n_iter true h0.1 h0.2.1
    h0.2.2 ?_
  have key : ∀ (N : ℕ) (s : St (Fin 2) 1 2 3), Inv s →
      RegularRun (updateOnce np (gauss 1) 1 .ip1 .power id monoX) (fun s => Audible (separate monoX s.W)) N s := by
    intro N
    induction N with
    | zero => exact fun _ _ => trivial
    | succ N ih =>
      intro s hs
      have ha : Audible (separate monoX s.W) := fun k j => ⟨0, mono_audible hs.1 0 k j⟩
      refine ⟨ha, fun s' e => ih s' ?_⟩
      have hv := (regularRun_audible_any np (.gauss one_pos) (.inr rfl) (.inl rfl) monoX_rows 1 hs
        ⟨ha, fun _ _ => trivial⟩ : RegularRun (updateOnce np (gauss 1) 1 .ip1 .power id monoX)
          (Visits np (gauss 1) .ip1 .power .off monoX) 1 s).1
      obtain ⟨a, a', e1, -, hi, -⟩ := step np np (.gauss one_pos) .ip1 .power .off monoX s s ⟨hs, Rescaled.refl 1 s⟩ hv
      rw [e] at e1
      cases e1
      exact hi
  exact key n_iter _ h0

/-- C113 for an iteration of `TILRMA` with two sources and ISS1, played twice as loud with inverted polarity. -/
example (np np' : Numpy ℂ) (draw draw' : Draw Unit 2 2 2) :
    ∃ T', IlrmaCall.callSignal np' (student 2 5) 2 .iss1 .power id (.str "minimal_distortion_principle") 0 draw'
        (fun f => (-2 : ℂ) • TwoSources.exX f) 1 true
        { demix := some fun _ => Matrix.of fun k j => (3 : ℂ) * (1 : Mat 2 ℂ) k j,
          basis := some fun _ _ _ => 1 * (‖(-2 : ℂ)‖ * ‖(3 : ℂ)‖) ^ (2 : ℝ), activation := some fun _ _ _ => 2 } .fresh
      = (IlrmaCall.callSignal np (student 2 5) 2 .iss1 .off id (.str "minimal_distortion_principle") 0 draw
        TwoSources.exX 1 true
        { demix := some fun _ => 1, basis := some fun _ _ _ => 1, activation := some fun _ _ _ => 2 } .fresh).map fun o =>
          { o with basis := .val T', output := gainOut (fun _ => -2) o.output,
                   loss := o.loss.map (· + 2 * (2 : ℕ) * ∑ _f : Unit, Real.log ‖(-2 : ℂ)‖) } := by
  have hX : ∀ f, LinearIndependent ℂ (TwoSources.exX f).row := fun f =>
    linearIndependent_rows_of_isUnit ((isUnit_iff_isUnit_det _).mpr (TwoSources.exX_unit.1 f))
  have hm : IsGaussOrT (student 2 5) 2 := .student two_pos (by norm_num)
  have h0 : Inv (⟨fun _ => 1, fun _ _ _ => 1, fun _ _ _ => 2⟩ : St Unit 2 2 2) :=
    ⟨fun f => by simp, fun _ _ _ => one_pos, fun _ _ _ => two_pos⟩
  refine C113_call_signal np np' hm.isModel two_pos .iss1 .off .power (by decide) 0 draw draw' (a := fun _ => -2)
    (fun _ => by norm_num) hX 1 true h0.1 h0.2.1 h0.2.2 ?_ (c := fun _ _ => 3) fun _ _ => by norm_num
  refine regularRunY_audible np hm hX 1 ⟨_, rfl, h0⟩ ⟨fun k j => ⟨(), ?_⟩, fun _ _ => trivial⟩
  change separate TwoSources.exX (fun _ => 1) () k j ≠ 0
  rw [separate, Matrix.one_mul]
  intro h0
  have h1 := TwoSources.exX_norm () k j
  have h2 := TwoSources.exP_ge k j
  rw [h0, norm_zero] at h1
  norm_num at h1
  linarith

end Verif.IlrmaGain
