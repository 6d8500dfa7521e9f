import Verif.Lemmas.TwoSources
import Verif.Model.IvaCall
import Verif.Model.SelectPair
import Verif.Props.EigPhase2
import Verif.Props.Lifecycle

/-! # C109: with two sources, IP2 and ISS2 are the same method

IP2 updates the rows of the filter and ISS2 updates the outputs, by different formulas. With two sources both solve the
problem given by the current weights completely, from wherever they start. So they return the same up to one factor of
modulus one per bin and source, and after scale restoration exactly the same.
-/

namespace Verif.TwoSources

open Matrix Spatial Scale EigPhase
open Ilrma (FilterAlg SignalAlg)
open IlrmaCall (baseCall)
open Lifecycle (Attr ScaleOpt finish finishFree AsksPB AsksMDP AsksNone)
open scoped ComplexOrder

variable {F : Type} [Fintype F] {t K : ℕ}

/-- What an update needs, in every bin: positive definite weighted covariances that are not proportional, and a flooring
that does not act on the norms of the pair. -/
def Regular (floor : ℝ → ℝ) (phi : F → Fin 2 → Fin t → ℝ) (X : Spec F 2 t) : Prop :=
  ∀ f, (∀ k, (Iva.wcov (phi f) X f k).PosDef) ∧ NoTie (Iva.wcov (phi f) X f) ∧ Inactive floor (Iva.wcov (phi f) X f)

/-- A pair selector that yields at least one pair, and only pairs of two different sources. -/
def Pairs (pairs : List (Fin 2 × Fin 2)) : Prop := pairs ≠ [] ∧ ∀ p ∈ pairs, p.1 ≠ p.2

omit [Fintype F] in
theorem filter_sweep (np : Numpy ℂ) {floor : ℝ → ℝ} {pairs : List (Fin 2 × Fin 2)} (hp : Pairs pairs)
    {phi : F → Fin 2 → Fin t → ℝ} {X : Spec F 2 t} (hr : Regular floor phi X) {W : F → Mat 2 ℂ}
    (hW : ∀ f, IsUnit (W f).det) :
    ∃ W₁, Ilrma.spatialFilter np (.ip2 pairs) floor phi X W = .ok W₁ ∧
      ∀ f, ∃ a b, Joint (Iva.wcov (phi f) X f) (W₁ f) a b := by
  obtain ⟨hne, hall⟩ := hp
  simp only [Ilrma.spatialFilter]
  induction pairs generalizing W with
  | nil => exact absurd rfl hne
  | cons p l ih =>
    have key := fun f => ip2_joint np floor (hall p (by simp)) (hr f).1 (hW f) (hr f).2.2
    choose W₁ h1 h2 using key
    rw [List.foldlM_cons, onBins_ok h1]
    by_cases hl : l = []
    · subst hl
      exact ⟨W₁, rfl, h2⟩
    · exact ih (fun f => by obtain ⟨a, b, h⟩ := h2 f; exact h.isUnit) hl fun q hq => hall q (List.mem_cons_of_mem _ hq)

theorem signal_sweep (np : Numpy ℂ) {floor : ℝ → ℝ} {pairs : List (Fin 2 × Fin 2)} (hp : Pairs pairs)
    {phi : F → Fin 2 → Fin t → ℝ} {X : Spec F 2 t} (hr : Regular floor phi X) {W : F → Mat 2 ℂ}
    (hW : ∀ f, IsUnit (W f).det) :
    ∃ W₁, Ilrma.spatialSignal np (.iss2 pairs) floor phi (separate X W) = .ok (separate X W₁) ∧
      ∀ f, ∃ a b, Joint (Iva.wcov (phi f) X f) (W₁ f) a b := by
  obtain ⟨hne, hall⟩ := hp
  simp only [Ilrma.spatialSignal]
  induction pairs generalizing W with
  | nil => exact absurd rfl hne
  | cons p l ih =>
    have key := fun f => iss2_joint np floor (hall p (by simp)) (hr f).1 (hW f) (hr f).2.2
    choose W₁ h1 h2 using key
    have e : (onBins fun f => iss2Pair np floor (phi f) (separate X W f) p) = .ok (separate X W₁) := onBins_ok h1
    rw [List.foldlM_cons, e]
    by_cases hl : l = []
    · subst hl
      exact ⟨W₁, rfl, h2⟩
    · exact ih (fun f => by obtain ⟨a, b, h⟩ := h2 f; exact h.isUnit) hl fun q hq => hall q (List.mem_cons_of_mem _ hq)

omit [Fintype F] in
theorem joint_upToPhase {floor : ℝ → ℝ} {phi : F → Fin 2 → Fin t → ℝ} {X : Spec F 2 t} (hr : Regular floor phi X)
    {W W' : F → Mat 2 ℂ} (h : ∀ f, ∃ a b, Joint (Iva.wcov (phi f) X f) (W f) a b)
    (h' : ∀ f, ∃ a b, Joint (Iva.wcov (phi f) X f) (W' f) a b) : UpToPhase W W' := by
  have key : ∀ f, ∃ φ : Fin 2 → ℂ, (∀ i, ‖φ i‖ = 1) ∧ W' f = Matrix.of fun i j => φ i * W f i j := by
    intro f
    obtain ⟨a, b, j⟩ := h f
    obtain ⟨a', b', j'⟩ := h' f
    exact joint_unique (hr f).2.1 j j'
  choose φ h1 h2 using key
  exact ⟨φ, h1, funext h2⟩

/-- C109: one spatial update with given weights. IP2 and ISS2, each with its own pair selector, its own LAPACK and its own
(invertible) starting filter, succeed and return the same outputs up to phases. In particular the result does not depend
on the starting filter, nor on how many pairs the selector yields, nor on their order. -/
theorem C109_update (np np' : Numpy ℂ) {floor : ℝ → ℝ} {pairs pairs' : List (Fin 2 × Fin 2)} (hp : Pairs pairs)
    (hp' : Pairs pairs') {phi : F → Fin 2 → Fin t → ℝ} {X : Spec F 2 t} (hr : Regular floor phi X) {W W' : F → Mat 2 ℂ}
    (hW : ∀ f, IsUnit (W f).det) (hW' : ∀ f, IsUnit (W' f).det) :
    ∃ W₁ W₁' W₂ W₂', Ilrma.spatialFilter np (.ip2 pairs) floor phi X W = .ok W₁ ∧
      Ilrma.spatialFilter np' (.ip2 pairs') floor phi X W' = .ok W₁' ∧
      Ilrma.spatialSignal np (.iss2 pairs) floor phi (separate X W) = .ok (separate X W₂) ∧
      Ilrma.spatialSignal np' (.iss2 pairs') floor phi (separate X W') = .ok (separate X W₂') ∧
      UpToPhase W₁ W₁' ∧ UpToPhase W₁ W₂ ∧ UpToPhase W₁ W₂' := by
  obtain ⟨W₁, e1, j1⟩ := filter_sweep np hp hr hW
  obtain ⟨W₁', e1', j1'⟩ := filter_sweep np' hp' hr hW'
  obtain ⟨W₂, e2, j2⟩ := signal_sweep np hp hr hW
  obtain ⟨W₂', e2', j2'⟩ := signal_sweep np' hp' hr hW'
  exact ⟨W₁, W₁', W₂, W₂', e1, e1', e2, e2', joint_upToPhase hr j1 j1', joint_upToPhase hr j1 j2, joint_upToPhase hr j1 j2'⟩

/-- The outputs `Y` are those of the filter `W`, up to phases. -/
def Same (X : Spec F 2 t) (W : F → Mat 2 ℂ) (Y : Spec F 2 t) : Prop :=
  ∃ W', Y = separate X W' ∧ UpToPhase W W'

theorem Same.up {X : Spec F 2 t} {W : F → Mat 2 ℂ} {Y : Spec F 2 t} (h : Same X W Y) : UpToPhase (separate X W) Y := by
  obtain ⟨W', rfl, h⟩ := h
  exact h.separate X

/-! ## Loops -/

/-- Two loops whose states stay related, with the losses recorded. -/
theorem baseCall_rel {σ τ : Type} {step : σ → Except PyErr σ} {step' : τ → Except PyErr τ} {loss : σ → Except PyErr ℝ}
    {loss' : τ → Except PyErr ℝ} {R : σ → τ → Prop} {Reg : σ → Prop}
    (h : ∀ s s', R s s' → Reg s → ∃ a a', step s = .ok a ∧ step' s' = .ok a' ∧ R a a')
    (hl : ∀ s s', R s s' → ∃ v, loss s = .ok v ∧ loss' s' = .ok v) (ic : Bool) (N : ℕ) {s : σ} {s' : τ} (hR : R s s')
    (hreg : RegularRun step Reg N s) (ls : List ℝ) :
    ∃ a a' ls', baseCall step loss ic N s ls = .ok (a, ls') ∧ baseCall step' loss' ic N s' ls = .ok (a', ls') ∧ R a a' := by
  have key : ∀ (N : ℕ) (s : σ) (s' : τ) (ls : List ℝ), R s s' → RegularRun step Reg N s →
      ∃ a a' ls', IlrmaCall.iterations step loss N s ls = .ok (a, ls') ∧
        IlrmaCall.iterations step' loss' N s' ls = .ok (a', ls') ∧ R a a' := by
    intro N
    induction N with
    | zero => exact fun s s' ls hR _ => ⟨s, s', ls, rfl, rfl, hR⟩
    | succ N ih =>
      intro s s' ls hR hreg
      obtain ⟨a, a', e, e', hR'⟩ := h s s' hR hreg.1
      obtain ⟨v, ev, ev'⟩ := hl a a' hR'
      obtain ⟨b, b', ls', i1, i2, i3⟩ := ih a a' (ls ++ [v]) hR' (hreg.2 a e)
      refine ⟨b, b', ls', ?_, ?_, i3⟩
      · simp only [IlrmaCall.iterations, e, ev, bind, Except.bind, i1]
      · simp only [IlrmaCall.iterations, e', ev', bind, Except.bind, i2]
  cases ic with
  | false => exact key N s s' ls hR hreg
  | true =>
    obtain ⟨v, ev, ev'⟩ := hl s s' hR
    obtain ⟨b, b', ls', i1, i2, i3⟩ := key N s s' (ls ++ [v]) hR hreg
    refine ⟨b, b', ls', ?_, ?_, i3⟩
    · simp only [baseCall, if_true, ev, bind, Except.bind, i1]
    · simp only [baseCall, if_true, ev', bind, Except.bind, i2]

omit [Fintype F] in
theorem mdp_phase {Y Y' : Spec F 2 t} (h : UpToPhase Y Y') (r : Fin 2) (X : Spec F 2 t) : mdp r Y' X = mdp r Y X := by
  obtain ⟨φ, hφ, rfl⟩ := h
  funext f
  ext i s
  simp only [mdp, of_apply, norm_mul, hφ, one_mul, mul_assoc, ← Finset.mul_sum, mul_div_assoc, star_mul']
  linear_combination (star ((∑ x, Y f i x * star (X f r x)) / ((∑ x, ‖Y f i x‖ ^ 2 : ℝ) : ℂ)) * Y f i s)
    * Phase.star_mul_of_norm (hφ f i)

/-- With scale restoration the two ways to finish a call agree, whether or not the filter is invertible. -/
theorem finish_same {sr : ScaleOpt} (hsr : ¬ AsksNone sr) (r : Fin 2) {X : Spec F 2 t}
    (hX : ∀ f, IsUnit (X f * (X f)ᴴ).det) {W : F → Mat 2 ℂ} {Y : Spec F 2 t} (h : Same X W Y) :
    finishFree sr r X Y = (finish sr r X W).map Prod.fst := by
  obtain ⟨W', rfl, h⟩ := h
  by_cases a1 : AsksPB sr
  · obtain ⟨ht, hr⟩ := Lifecycle.restore_pb a1 (projectionBackData r (separate X W') X) (.ok (mdp r (separate X W') X))
    obtain ⟨_, hr'⟩ := Lifecycle.restore_pb a1 (Lifecycle.applyProjectionBack r X W) (Lifecycle.applyMdp r X W)
    rw [finishFree, if_pos ht, hr, finish, if_pos ht, hr', (h.separate X).projectionBackData]
    by_cases hu : ∀ f, IsUnit (W f).det
    · obtain ⟨V, hV, hd⟩ := C24_data_eq_filter r W X hu hX
      rw [hd, Lifecycle.applyProjectionBack, hV]
      rfl
    · have e1 : projectionBackFilter r W = .error .linalg := by
        rw [projectionBackFilter, npInvB, if_neg hu]
        rfl
      have e2 : projectionBackData r (separate X W) X = .error .linalg := by
        rw [projectionBackData, projectionBackScale, npInvB, if_neg]
        · rfl
        · intro hu'
          refine hu fun f => ?_
          have := hu' f
          rw [separate, conjTranspose_mul, Matrix.mul_assoc, det_mul] at this
          exact isUnit_of_mul_isUnit_left this
      rw [e2, Lifecycle.applyProjectionBack, e1]
      rfl
  by_cases a2 : AsksMDP sr
  · obtain ⟨ht, hr⟩ := Lifecycle.restore_mdp a2 (projectionBackData r (separate X W') X) (.ok (mdp r (separate X W') X))
    obtain ⟨_, hr'⟩ := Lifecycle.restore_mdp a2 (Lifecycle.applyProjectionBack r X W) (Lifecycle.applyMdp r X W)
    have i1 : npInvB (fun f => X f * (X f)ᴴ) = .ok fun f => (X f * (X f)ᴴ)⁻¹ := by rw [npInvB, if_pos hX]
    rw [finishFree, if_pos ht, hr, finish, if_pos ht, hr', Lifecycle.applyMdp, i1, mdp_phase (h.separate X)]
    simp only [bind, Except.bind, Except.map]
    congr 1
    funext f
    obtain ⟨d, hd⟩ := Lifecycle.mdp_diag r (separate X W) X f
    rw [separate, hd, separate, Lifecycle.refit _ _ _ (hX f), Matrix.mul_assoc]
  · obtain ⟨ht, hr⟩ := Lifecycle.restore_other hsr a1 a2 (projectionBackData r (separate X W') X)
      (.ok (mdp r (separate X W') X))
    obtain ⟨_, hr'⟩ := Lifecycle.restore_other hsr a1 a2 (Lifecycle.applyProjectionBack r X W) (Lifecycle.applyMdp r X W)
    rw [finishFree, if_pos ht, hr, finish, if_pos ht, hr']
    rfl

omit [Fintype F] in
theorem finish_none {sr : ScaleOpt} (hsr : AsksNone sr) (r : Fin 2) (X : Spec F 2 t) (W : F → Mat 2 ℂ) (Y : Spec F 2 t) :
    finishFree sr r X Y = .ok Y ∧ finish sr r X W = .ok (separate X W, W) := by
  have := Lifecycle.restore_none hsr
  constructor
  · simp [finishFree, this]
  · simp [finish, this, bind, Except.bind]

omit [Fintype F] in
/-- The filter that the outputs imply. -/
theorem refit_same {X : Spec F 2 t} (hX : ∀ f, IsUnit (X f * (X f)ᴴ).det) (W' : F → Mat 2 ℂ) :
    Ilrma.filterOf X (separate X W') = .ok W' := by
  have i1 : npInvB (fun f => X f * (X f)ᴴ) = .ok fun f => (X f * (X f)ᴴ)⁻¹ := by rw [npInvB, if_pos hX]
  rw [Ilrma.filterOf, i1]
  simp only [bind, Except.bind]
  congr 1
  funext f
  have := Lifecycle.refit 1 (W' f) (X f) (hX f)
  rwa [Matrix.one_mul, Matrix.one_mul] at this

/-! ## ILRMA -/

/-- What an iteration of ILRMA visits: an invertible filter and, with the source models updated, weights that determine
the update. -/
def IlrmaRegular (src : Ilrma.Source) (floor : ℝ → ℝ) (X : Spec F 2 t) (s : Ilrma.St F 2 t K) : Prop :=
  (∀ f, IsUnit (s.W f).det) ∧
    let s₁ := Ilrma.updateSource src floor X s
    Regular floor (Ilrma.varphi src floor (separate X s₁.W) (Ilrma.recon s₁.T s₁.V)) X

/-- Same outputs up to phases, same source models. -/
def SameSt (X : Spec F 2 t) (s : Ilrma.St F 2 t K) (s' : Ilrma.StY F 2 t K) : Prop :=
  Same X s.W s'.Y ∧ s'.T = s.T ∧ s'.V = s.V

theorem ilrma_loss {X : Spec F 2 t} (hX : ∀ f, IsUnit (X f * (X f)ᴴ).det) (src : Ilrma.Source) {s : Ilrma.St F 2 t K}
    {s' : Ilrma.StY F 2 t K} (h : SameSt X s s') : Ilrma.lossY src X s' = .ok (Ilrma.loss src X s) := by
  obtain ⟨Y', T', V'⟩ := s'
  obtain ⟨⟨W', h1, h2⟩, h3, h4⟩ := h
  simp only at h1 h3 h4
  subst h1 h3 h4
  simp only [Ilrma.lossY, refit_same hX, bind, Except.bind, Ilrma.loss, Ilrma.lossOf, (h2.separate X).norm_eq, h2.det]

omit [Fintype F] in
theorem separate_divRows (X : Spec F 2 t) (W : F → Mat 2 ℂ) (psi : Fin 2 → ℝ) :
    Ilrma.divRows psi (separate X W) = separate X (Ilrma.divRows psi W) := by
  funext f
  ext i s
  simp only [Ilrma.divRows, separate, of_apply, mul_apply, Finset.sum_div]
  exact Finset.sum_congr rfl fun j _ => by ring

omit [Fintype F] in
theorem separate_mulRows (X : Spec F 2 t) (W : F → Mat 2 ℂ) (c : F → Fin 2 → ℂ) :
    Ilrma.mulRows c (separate X W) = separate X (Ilrma.mulRows c W) := by
  funext f
  ext i s
  simp only [Ilrma.mulRows, separate, of_apply, mul_apply, Finset.sum_mul]
  exact Finset.sum_congr rfl fun j _ => by ring

omit [Fintype F] in
theorem pb_scale {X : Spec F 2 t} (hX : ∀ f, IsUnit (X f * (X f)ᴴ).det) {W : F → Mat 2 ℂ} (hW : ∀ f, IsUnit (W f).det) :
    (∀ f, IsUnit (separate X W f * (separate X W f)ᴴ).det) ∧
      ∀ f, X f * (separate X W f)ᴴ * (separate X W f * (separate X W f)ᴴ)⁻¹ = (W f)⁻¹ := by
  have hC : ∀ f, IsUnit (separate X W f * (separate X W f)ᴴ).det := by
    intro f
    have hWH : IsUnit ((W f)ᴴ).det := by rw [det_conjTranspose]; exact (hW f).star
    have e : separate X W f * (separate X W f)ᴴ = W f * (X f * (X f)ᴴ) * (W f)ᴴ := by
      rw [separate, conjTranspose_mul]
      simp only [Matrix.mul_assoc]
    rw [e, det_mul, det_mul]
    exact ((hW f).mul (hX f)).mul hWH
  refine ⟨hC, fun f => ?_⟩
  have e : separate X W f * (separate X W f)ᴴ = W f * (X f * (separate X W f)ᴴ) := by
    rw [separate, Matrix.mul_assoc]
  have e2 : X f * (separate X W f)ᴴ = (W f)⁻¹ * (separate X W f * (separate X W f)ᴴ) := by
    rw [e, ← Matrix.mul_assoc (W f)⁻¹, nonsing_inv_mul _ (hW f), Matrix.one_mul]
  rw [e2, Matrix.mul_assoc, mul_nonsing_inv _ (hC f), Matrix.mul_one]

theorem ilrma_step (np np' : Numpy ℂ) (src : Ilrma.Source) (p : ℝ) (norm : Ilrma.Norm 2) {floor : ℝ → ℝ}
    {pairs pairs' : List (Fin 2 × Fin 2)} (hp : Pairs pairs) (hp' : Pairs pairs') {X : Spec F 2 t}
    (hX : ∀ f, IsUnit (X f * (X f)ᴴ).det) (s : Ilrma.St F 2 t K) (s' : Ilrma.StY F 2 t K) (h : SameSt X s s')
    (hreg : IlrmaRegular src floor X s) :
    ∃ a a', Ilrma.updateOnce np src p (.ip2 pairs) norm floor X s = .ok a ∧
      Ilrma.updateOnceY np' src p (.iss2 pairs') norm floor X s' = .ok a' ∧ SameSt X a a' := by
  obtain ⟨W, T, V⟩ := s
  obtain ⟨Y', T', V'⟩ := s'
  obtain ⟨⟨W', e1, h⟩, e2, e3⟩ := h
  obtain ⟨hW, hr⟩ := hreg
  simp only at e1 e2 e3 hW h
  subst e1 e2 e3
  have hY := h.separate X
  have hW' : ∀ f, IsUnit (W' f).det := fun f => (h.isUnit f).mpr (hW f)
  simp only [Ilrma.updateSource] at hr
  simp only [Ilrma.updateOnce, Ilrma.updateSpatial, Ilrma.updateSource, Ilrma.updateOnceY, Ilrma.updateSpatialY,
    Ilrma.updateSourceY, (hY.source src floor T' V').1, fun T => (hY.source src floor T V').2.1,
    (hY.source src floor T' V').2.2.2]
  obtain ⟨W₁, x1, j1⟩ := filter_sweep np hp hr hW
  obtain ⟨W₂, x2, j2⟩ := signal_sweep np' hp' hr hW'
  have h3 := joint_upToPhase hr j1 j2
  have hu1 : ∀ f, IsUnit (W₁ f).det := fun f => by obtain ⟨a, b, h⟩ := j1 f; exact h.isUnit
  have hu2 : ∀ f, IsUnit (W₂ f).det := fun f => by obtain ⟨a, b, h⟩ := j2 f; exact h.isUnit
  simp only [x1, x2, bind, Except.bind]
  have hp := (h3.separate X).source src floor T' V'
  cases norm with
  | off => exact ⟨_, _, rfl, rfl, ⟨W₂, rfl, h3⟩, rfl, rfl⟩
  | power =>
    refine ⟨_, _, rfl, rfl, ⟨Ilrma.divRows (Ilrma.psi floor (separate X W₁)) W₂, ?_, h3.divRows _⟩, ?_, rfl⟩
    · simp only [hp.2.2.1]
      exact separate_divRows X W₂ _
    · simp only [hp.2.2.1]
  | projectionBack r =>
    obtain ⟨c1, c2⟩ := pb_scale hX hu2
    have i1 : npInvB W₁ = .ok fun f => (W₁ f)⁻¹ := by rw [npInvB, if_pos hu1]
    have i2 : npInvB (fun f => separate X W₂ f * (separate X W₂ f)ᴴ)
        = .ok fun f => (separate X W₂ f * (separate X W₂ f)ᴴ)⁻¹ := by rw [npInvB, if_pos c1]
    simp only [Ilrma.normalize, Ilrma.normalizeY, i1, i2, bind, Except.bind, c2]
    refine ⟨_, _, rfl, rfl, ⟨Ilrma.mulRows (fun f k => (W₂ f)⁻¹ r k) W₂, separate_mulRows X W₂ _, ?_⟩, ?_, rfl⟩
    · rw [(h3.pbRows r).1]
      exact UpToPhase.refl _
    · funext k f b
      simp only [Ilrma.mulBasis, (h3.pbRows r).2]

/-- C109: ILRMA (Gauss, Student's t, generalised Gauss; with any normalisation) run with IP2 and with ISS2 on two sources,
from the same start: after any number of iterations the outputs agree up to phases, the source models agree, scale
restoration of either returns the same, and the losses agree. The two runs may use different pair selectors. -/
theorem C109_ilrma (np np' : Numpy ℂ) (src : Ilrma.Source) (p : ℝ) (norm : Ilrma.Norm 2) {floor : ℝ → ℝ}
    {pairs pairs' : List (Fin 2 × Fin 2)} (hp : Pairs pairs) (hp' : Pairs pairs') {X : Spec F 2 t}
    (hX : ∀ f, IsUnit (X f * (X f)ᴴ).det) (s : Ilrma.St F 2 t K) (n_iter : ℕ)
    (hreg : RegularRun (Ilrma.updateOnce np src p (.ip2 pairs) norm floor X) (IlrmaRegular src floor X) n_iter s) :
    (∃ s₁ s₁', iterM (Ilrma.updateOnce np src p (.ip2 pairs) norm floor X) n_iter s = .ok s₁ ∧
      iterM (Ilrma.updateOnceY np' src p (.iss2 pairs') norm floor X) n_iter ⟨separate X s.W, s.T, s.V⟩ = .ok s₁' ∧
      UpToPhase (separate X s₁.W) s₁'.Y ∧ s₁'.T = s₁.T ∧ s₁'.V = s₁.V) ∧
    lossList (Ilrma.updateOnce np src p (.ip2 pairs) norm floor X) (fun s => .ok (Ilrma.loss src X s)) n_iter s
      = lossList (Ilrma.updateOnceY np' src p (.iss2 pairs') norm floor X) (Ilrma.lossY src X) n_iter
        ⟨separate X s.W, s.T, s.V⟩ := by
  have h0 : SameSt X s (⟨separate X s.W, s.T, s.V⟩ : Ilrma.StY F 2 t K) := ⟨⟨s.W, rfl, UpToPhase.refl _⟩, rfl, rfl⟩
  have step := ilrma_step (K := K) np np' src p norm (floor := floor) hp hp' hX
  constructor
  · obtain ⟨s₁, s₁', h1, h2, h3⟩ := iterM_rel _ _ (SameSt X) _ step n_iter s _ h0 hreg
    exact ⟨s₁, s₁', h1, h2, h3.1.up, h3.2.1, h3.2.2⟩
  · exact lossList_rel _ _ _ _ (SameSt X) _ step (fun s s' h => (ilrma_loss hX src h).symm) n_iter s _ h0 hreg

omit [Fintype F] in
/-- Both kinds of call start from the same filter, or both raise. -/
theorem reset_same (pairs pairs' : List (Fin 2 × Fin 2)) (X : Spec F 2 t) (kw : Option (F → Mat 2 ℂ)) (o : Lifecycle.Obj F 2 t) :
    (∃ e, Lifecycle.reset (IlrmaCall.label (.ip2 pairs)) X kw o = .error e ∧
      Lifecycle.reset (IlrmaCall.labelY (.iss2 pairs')) X kw o = .error e) ∨
    ∃ W, Lifecycle.reset (IlrmaCall.label (.ip2 pairs)) X kw o = .ok (some W, separate X W) ∧
      Lifecycle.reset (IlrmaCall.labelY (.iss2 pairs')) X kw o = .ok (none, separate X W) := by
  rcases kw with _ | W
  · rcases h : o.demix with _ | _ | W
    · exact .inr ⟨fun _ => 1, by simp only [Lifecycle.reset, h]; rfl, by simp only [Lifecycle.reset, h]; rfl⟩
    · exact .inl ⟨.value, by simp only [Lifecycle.reset, h]; rfl, by simp only [Lifecycle.reset, h]; rfl⟩
    · exact .inr ⟨W, by simp only [Lifecycle.reset, h]; rfl, by simp only [Lifecycle.reset, h]; rfl⟩
  · exact .inr ⟨W, rfl, rfl⟩

/-- C109: the whole call. With scale restoration (projection back or minimal distortion), calling with ISS2 returns the
same object as calling with IP2, except that no filter is kept: the same output, source models and losses. -/
theorem C109_ilrma_call (np np' : Numpy ℂ) (src : Ilrma.Source) (p : ℝ) (norm : Ilrma.Norm 2) {floor : ℝ → ℝ}
    {pairs pairs' : List (Fin 2 × Fin 2)} (hp : Pairs pairs) (hp' : Pairs pairs') {X : Spec F 2 t}
    (hX : ∀ f, IsUnit (X f * (X f)ᴴ).det) {sr : ScaleOpt} (hsr : ¬ AsksNone sr) (r : Fin 2) (draw : IlrmaCall.Draw F 2 t K)
    (n_iter : ℕ) (ic : Bool) (kw : IlrmaCall.Kw F 2 t K) (o : IlrmaCall.Obj F 2 t K)
    (hreg : ∀ s, IlrmaCall.resetFilter (.ip2 pairs) floor draw X kw o = .ok s →
      RegularRun (Ilrma.updateOnce np src p (.ip2 pairs) norm floor X) (IlrmaRegular src floor X) n_iter s) :
    IlrmaCall.callSignal np' src p (.iss2 pairs') norm floor sr r draw X n_iter ic kw o
      = (IlrmaCall.call np src p (.ip2 pairs) norm floor sr r draw X n_iter ic kw o).map
        fun o => { o with demix := .none } := by
  simp only [IlrmaCall.callSignal, IlrmaCall.call, IlrmaCall.resetFilter, IlrmaCall.resetSignal] at hreg ⊢
  rcases reset_same pairs pairs' X kw.demix ⟨o.demix, o.output⟩ with ⟨e, e1, e2⟩ | ⟨W, e1, e2⟩
  · rw [e1, e2]
    rfl
  rw [e1] at hreg ⊢
  rw [e2]
  rcases hq : IlrmaCall.initNmf floor draw.T draw.V (IlrmaCall.override kw.basis o.basis)
    (IlrmaCall.override kw.activation o.activation) with e | ⟨T, V⟩
  · rfl
  obtain ⟨a, a', ls, h1, h2, h3⟩ := baseCall_rel (R := SameSt X) (ilrma_step (K := K) np np' src p norm hp hp' hX)
    (loss := fun s => .ok (Ilrma.loss src X s)) (loss' := Ilrma.lossY src X)
    (fun s s' h => ⟨_, rfl, ilrma_loss hX src h⟩) ic n_iter (s := ⟨W, T, V⟩) (s' := ⟨separate X W, T, V⟩)
    ⟨⟨W, rfl, UpToPhase.refl _⟩, rfl, rfl⟩ (hreg _ (by rw [hq]; rfl)) o.loss
  simp only [h1, h2, bind, Except.bind]
  rw [finish_same hsr r hX h3.1, h3.2.1, h3.2.2]
  cases finish sr r X a.W <;> rfl

/-- C109: without scale restoration the two calls agree up to phases of the outputs. -/
theorem C109_ilrma_call_unscaled (np np' : Numpy ℂ) (src : Ilrma.Source) (p : ℝ) (norm : Ilrma.Norm 2) {floor : ℝ → ℝ}
    {pairs pairs' : List (Fin 2 × Fin 2)} (hp : Pairs pairs) (hp' : Pairs pairs') {X : Spec F 2 t}
    (hX : ∀ f, IsUnit (X f * (X f)ᴴ).det) {sr : ScaleOpt} (hsr : AsksNone sr) (r : Fin 2) (draw : IlrmaCall.Draw F 2 t K)
    (n_iter : ℕ) (ic : Bool) (kw : IlrmaCall.Kw F 2 t K) (o : IlrmaCall.Obj F 2 t K) {s : Ilrma.St F 2 t K}
    (hs : IlrmaCall.resetFilter (.ip2 pairs) floor draw X kw o = .ok s)
    (hreg : RegularRun (Ilrma.updateOnce np src p (.ip2 pairs) norm floor X) (IlrmaRegular src floor X) n_iter s) :
    ∃ W T V Y Y' ls, IlrmaCall.call np src p (.ip2 pairs) norm floor sr r draw X n_iter ic kw o
        = .ok ⟨.val W, .val T, .val V, .val Y, ls⟩ ∧
      IlrmaCall.callSignal np' src p (.iss2 pairs') norm floor sr r draw X n_iter ic kw o
        = .ok ⟨.none, .val T, .val V, .val Y', ls⟩ ∧ UpToPhase Y Y' := by
  simp only [IlrmaCall.callSignal, IlrmaCall.call, hs, bind, Except.bind]
  simp only [IlrmaCall.resetFilter, IlrmaCall.resetSignal] at hs ⊢
  rcases reset_same pairs pairs' X kw.demix ⟨o.demix, o.output⟩ with ⟨e, e1, e2⟩ | ⟨W, e1, e2⟩
  · rw [e1] at hs
    exact nomatch hs
  rw [e1] at hs
  rw [e2]
  rcases hq : IlrmaCall.initNmf floor draw.T draw.V (IlrmaCall.override kw.basis o.basis)
    (IlrmaCall.override kw.activation o.activation) with e | ⟨T, V⟩
  · rw [hq] at hs
    exact nomatch hs
  rw [hq] at hs
  have es : s = ⟨W, T, V⟩ := (Except.ok.inj hs).symm
  subst es
  obtain ⟨a, a', ls, h1, h2, h3⟩ := baseCall_rel (R := SameSt X) (ilrma_step (K := K) np np' src p norm hp hp' hX)
    (loss := fun s => .ok (Ilrma.loss src X s)) (loss' := Ilrma.lossY src X)
    (fun s s' h => ⟨_, rfl, ilrma_loss hX src h⟩) ic n_iter (s := ⟨W, T, V⟩) (s' := ⟨separate X W, T, V⟩)
    ⟨⟨W, rfl, UpToPhase.refl _⟩, rfl, rfl⟩ hreg o.loss
  refine ⟨a.W, a.T, a.V, separate X a.W, a'.Y, ls, ?_, ?_, h3.1.up⟩
  · simp only [h1, (finish_none hsr r X a.W a'.Y).2]
  · simp only [h2, bind, Except.bind, (finish_none hsr r X a.W a'.Y).1, h3.2.1, h3.2.2]

/-! ## ILRMA with a partitioning function -/

/-- What an iteration of ILRMA with partitioning visits. -/
def IlrmaRegularP (src : Ilrma.Source) (floor : ℝ → ℝ) (X : Spec F 2 t) (s : Ilrma.StP F 2 t K) : Prop :=
  (∀ f, IsUnit (s.W f).det) ∧
    let s₁ := Ilrma.updateSourceP src floor X s
    Regular floor (Ilrma.varphi src floor (separate X s₁.W) (Ilrma.reconP s₁.Z s₁.T s₁.V)) X

/-- Same outputs up to phases, same source models. -/
def SameStP (X : Spec F 2 t) (s : Ilrma.StP F 2 t K) (s' : Ilrma.StYP F 2 t K) : Prop :=
  Same X s.W s'.Y ∧ s'.Z = s.Z ∧ s'.T = s.T ∧ s'.V = s.V

theorem ilrma_lossP {X : Spec F 2 t} (hX : ∀ f, IsUnit (X f * (X f)ᴴ).det) (src : Ilrma.Source) {s : Ilrma.StP F 2 t K}
    {s' : Ilrma.StYP F 2 t K} (h : SameStP X s s') : Ilrma.lossYP src X s' = .ok (Ilrma.lossP src X s) := by
  obtain ⟨Y', Z', T', V'⟩ := s'
  obtain ⟨⟨W', h1, h2⟩, h3, h4, h5⟩ := h
  simp only at h1 h3 h4 h5
  subst h1 h3 h4 h5
  simp only [Ilrma.lossYP, refit_same hX, bind, Except.bind, Ilrma.lossP, Ilrma.lossOf, (h2.separate X).norm_eq, h2.det]

theorem ilrma_stepP (np np' : Numpy ℂ) (src : Ilrma.Source) (p : ℝ) {norm : Ilrma.Norm 2}
    (hnorm : ∀ r, norm ≠ .projectionBack r) {floor : ℝ → ℝ} {pairs pairs' : List (Fin 2 × Fin 2)} (hp : Pairs pairs)
    (hp' : Pairs pairs') {X : Spec F 2 t} (s : Ilrma.StP F 2 t K) (s' : Ilrma.StYP F 2 t K) (h : SameStP X s s')
    (hreg : IlrmaRegularP src floor X s) :
    ∃ a a', Ilrma.updateOnceP np src p (.ip2 pairs) norm floor X s = .ok a ∧
      Ilrma.updateOnceYP np' src p (.iss2 pairs') norm floor s' = .ok a' ∧ SameStP X a a' := by
  obtain ⟨W, Z, T, V⟩ := s
  obtain ⟨Y', Z', T', V'⟩ := s'
  obtain ⟨⟨W', e1, h⟩, e2, e3, e4⟩ := h
  obtain ⟨hW, hr⟩ := hreg
  simp only at e1 e2 e3 e4 hW h
  subst e1 e2 e3 e4
  have hY := h.separate X
  have hW' : ∀ f, IsUnit (W' f).det := fun f => (h.isUnit f).mpr (hW f)
  have eZ := fun Z T V => (hY.sourceP (K := K) src floor Z T V).1
  have eT := fun Z T V => (hY.sourceP (K := K) src floor Z T V).2.1
  have eV := fun Z T V => (hY.sourceP (K := K) src floor Z T V).2.2.1
  have eφ := (hY.sourceP src floor Z' T' V').2.2.2.2
  simp only [Ilrma.updateSourceP] at hr
  simp only [Ilrma.updateOnceP, Ilrma.updateSpatialP, Ilrma.updateSourceP, Ilrma.updateOnceYP, Ilrma.updateSpatialYP,
    Ilrma.updateSourceYP, eZ, eT, eV, eφ]
  obtain ⟨W₁, x1, j1⟩ := filter_sweep np hp hr hW
  obtain ⟨W₂, x2, j2⟩ := signal_sweep np' hp' hr hW'
  have h3 := joint_upToPhase hr j1 j2
  simp only [x1, x2, bind, Except.bind]
  have eψ := ((h3.separate X).sourceP src floor Z' T' V').2.2.2.1
  cases norm with
  | off => exact ⟨_, _, rfl, rfl, ⟨W₂, rfl, h3⟩, rfl, rfl, rfl⟩
  | power =>
    simp only [Ilrma.normalizeP, Ilrma.normalizeYP, eψ]
    exact ⟨_, _, rfl, rfl, ⟨Ilrma.divRows (Ilrma.psi floor (separate X W₁)) W₂, separate_divRows X W₂ _, h3.divRows _⟩,
      rfl, rfl, rfl⟩
  | projectionBack r => exact absurd rfl (hnorm r)

/-- C109: the same for ILRMA with a partitioning function. Normalisation by projection back is excluded because it raises
there. -/
theorem C109_ilrma_call_partitioned (np np' : Numpy ℂ) (src : Ilrma.Source) (p : ℝ) {norm : Ilrma.Norm 2}
    (hnorm : ∀ r, norm ≠ .projectionBack r) {floor : ℝ → ℝ} {pairs pairs' : List (Fin 2 × Fin 2)} (hp : Pairs pairs)
    (hp' : Pairs pairs') {X : Spec F 2 t} (hX : ∀ f, IsUnit (X f * (X f)ᴴ).det) {sr : ScaleOpt} (hsr : ¬ AsksNone sr)
    (r : Fin 2) (draw : IlrmaCall.DrawP F 2 t K) (n_iter : ℕ) (ic : Bool) (kw : IlrmaCall.KwP F 2 t K)
    (o : IlrmaCall.ObjP F 2 t K)
    (hreg : ∀ s, IlrmaCall.resetFilterP (.ip2 pairs) floor draw X kw o = .ok s →
      RegularRun (Ilrma.updateOnceP np src p (.ip2 pairs) norm floor X) (IlrmaRegularP src floor X) n_iter s) :
    IlrmaCall.callSignalP np' src p (.iss2 pairs') norm floor sr r draw X n_iter ic kw o
      = (IlrmaCall.callP np src p (.ip2 pairs) norm floor sr r draw X n_iter ic kw o).map
        fun o => { o with demix := .none } := by
  simp only [IlrmaCall.callSignalP, IlrmaCall.callP, IlrmaCall.resetFilterP, IlrmaCall.resetSignalP] at hreg ⊢
  rcases reset_same pairs pairs' X kw.demix ⟨o.demix, o.output⟩ with ⟨e, e1, e2⟩ | ⟨W, e1, e2⟩
  · rw [e1, e2]
    rfl
  rw [e1] at hreg ⊢
  rw [e2]
  rcases hq : IlrmaCall.initNmfP floor draw.Z draw.T draw.V (IlrmaCall.override kw.latent o.latent)
    (IlrmaCall.override kw.basis o.basis) (IlrmaCall.override kw.activation o.activation) with e | ⟨Z, T, V⟩
  · rfl
  obtain ⟨a, a', ls, h1, h2, h3⟩ := baseCall_rel (R := SameStP X) (ilrma_stepP (K := K) np np' src p hnorm hp hp')
    (loss := fun s => .ok (Ilrma.lossP src X s)) (loss' := Ilrma.lossYP src X)
    (fun s s' h => ⟨_, rfl, ilrma_lossP hX src h⟩) ic n_iter (s := ⟨W, Z, T, V⟩) (s' := ⟨separate X W, Z, T, V⟩)
    ⟨⟨W, rfl, UpToPhase.refl _⟩, rfl, rfl, rfl⟩ (hreg _ (by rw [hq]; rfl)) o.loss
  simp only [h1, h2, bind, Except.bind]
  rw [finish_same hsr r hX h3.1, h3.2.1, h3.2.2.1, h3.2.2.2]
  cases finish sr r X a.W <;> rfl

/-! ## AuxIVA -/

/-- What a pair of AuxIVA visits: an invertible filter, and weights that determine the update. -/
def IvaRegular (floor : ℝ → ℝ) (d : Fin 2 → Fin t → ℝ → ℝ) (X : Spec F 2 t) (W : F → Mat 2 ℂ) : Prop :=
  (∀ f, IsUnit (W f).det) ∧ Regular floor (fun _ => Iva.weight floor d (separate X W)) X

theorem iva_step (np np' : Numpy ℂ) {floor : ℝ → ℝ} (d : Fin 2 → Fin t → ℝ → ℝ) {q : Fin 2 × Fin 2} (hq : q.1 ≠ q.2)
    {pairs' : List (Fin 2 × Fin 2)} (hp' : Pairs pairs') {X : Spec F 2 t} (W : F → Mat 2 ℂ) (Y : Spec F 2 t) (h : Same X W Y)
    (hreg : IvaRegular floor d X W) :
    ∃ a a', Iva.auxIp2Pair np floor d X W q = .ok a ∧ Iva.auxIss2 np' floor pairs' d Y = .ok a' ∧ Same X a a' := by
  obtain ⟨W', rfl, h⟩ := h
  obtain ⟨hW, hr⟩ := hreg
  obtain ⟨W₁, x1, j1⟩ := filter_sweep np (pairs := [q]) ⟨by simp, by simpa using hq⟩ hr hW
  obtain ⟨W₂, x2, j2⟩ := signal_sweep np' hp' hr fun f => (h.isUnit f).mpr (hW f)
  refine ⟨W₁, separate X W₂, ?_, ?_, W₂, rfl, joint_upToPhase hr j1 j2⟩
  · simpa only [Ilrma.spatialFilter, List.foldlM_cons, List.foldlM_nil, bind_pure, Iva.auxIp2Pair] using x1
  · simpa only [Ilrma.spatialSignal, Iva.auxIss2, (h.separate X).weight] using x2

theorem iva_loss {X : Spec F 2 t} (hX : ∀ f, IsUnit (X f * (X f)ᴴ).det) (G : Fin 2 → Fin t → ℝ → ℝ) {W : F → Mat 2 ℂ}
    {Y : Spec F 2 t} (h : Same X W Y) : Iva.lossFree G X Y = .ok (Iva.lossIp G X W) := by
  obtain ⟨W', rfl, h⟩ := h
  have i1 : npInvB (fun f => X f * (X f)ᴴ) = .ok fun f => (X f * (X f)ᴴ)⁻¹ := by rw [npInvB, if_pos hX]
  have := refit_same hX W'
  rw [Ilrma.filterOf, i1] at this
  have e : (fun f => separate X W' f * (X f)ᴴ * (X f * (X f)ᴴ)⁻¹) = W' := Except.ok.inj this
  rw [Iva.lossFree, i1]
  show Except.ok (Iva.ivaLoss G (separate X W') fun f => separate X W' f * (X f)ᴴ * (X f * (X f)ᴴ)⁻¹) = _
  rw [e]
  simp only [Iva.lossIp, Iva.ivaLoss, (h.separate X).binNorm, h.det]

theorem iva_fold (np np' : Numpy ℂ) {floor : ℝ → ℝ} (d : Fin 2 → Fin t → ℝ → ℝ) {pairs pairs' : List (Fin 2 × Fin 2)}
    (hall : ∀ p ∈ pairs, p.1 ≠ p.2) (hp' : Pairs pairs') {X : Spec F 2 t} (W : F → Mat 2 ℂ) (Y : Spec F 2 t) (h : Same X W Y)
    (hreg : RegularFold (Iva.auxIp2Pair np floor d X) (fun W _ => IvaRegular floor d X W) pairs W) :
    ∃ a a', Iva.auxIp2 np floor pairs d X W = .ok a ∧
      iterM (Iva.auxIss2 np' floor pairs' d) pairs.length Y = .ok a' ∧ Same X a a' := by
  induction pairs generalizing W Y with
  | nil => exact ⟨W, Y, rfl, rfl, h⟩
  | cons q l ih =>
    obtain ⟨a, a', e, e', hR⟩ := iva_step np np' d (hall q (by simp)) hp' W Y h hreg.1
    obtain ⟨b, b', i1, i2, i3⟩ := ih (fun p hp => hall p (List.mem_cons_of_mem _ hp)) a a' hR (hreg.2 a e)
    refine ⟨b, b', ?_, ?_, i3⟩
    · rw [Iva.auxIp2, List.foldlM_cons, e]
      exact i1
    · rw [List.length_cons, iterM, e']
      exact i2

theorem iterM_add {σ : Type} (g : σ → Except PyErr σ) (m l : ℕ) (s : σ) :
    iterM g (m + l) s = (iterM g m s).bind (iterM g l) := by
  induction m generalizing s with
  | zero => rw [Nat.zero_add]; rfl
  | succ m ih =>
    rw [Nat.succ_add, iterM, iterM]
    cases g s with
    | error e => rfl
    | ok a => exact ih a

/-- C109: AuxIVA with IP2 recomputes its weights before every pair, with ISS2 only once in every iteration. So with two
sources `n_iter` iterations of IP2 are `n_iter` times the number of pairs iterations of ISS2: outputs up to phases, and
the final loss. -/
theorem C109_aux_iva (np np' : Numpy ℂ) {floor : ℝ → ℝ} (G d : Fin 2 → Fin t → ℝ → ℝ)
    {pairs pairs' : List (Fin 2 × Fin 2)} (hall : ∀ p ∈ pairs, p.1 ≠ p.2) (hp' : Pairs pairs') {X : Spec F 2 t}
    (hX : ∀ f, IsUnit (X f * (X f)ᴴ).det) (W : F → Mat 2 ℂ) (n_iter : ℕ)
    (hreg : RegularRun (Iva.auxIp2 np floor pairs d X)
      (RegularFold (Iva.auxIp2Pair np floor d X) (fun W _ => IvaRegular floor d X W) pairs) n_iter W) :
    ∃ W₁ Y₁, iterM (Iva.auxIp2 np floor pairs d X) n_iter W = .ok W₁ ∧
      iterM (Iva.auxIss2 np' floor pairs' d) (n_iter * pairs.length) (separate X W) = .ok Y₁ ∧
      UpToPhase (separate X W₁) Y₁ ∧ Iva.lossFree G X Y₁ = .ok (Iva.lossIp G X W₁) ∧
      ∀ r, projectionBackData r Y₁ X = projectionBackData r (separate X W₁) X := by
  suffices H : ∀ (n_iter : ℕ) (W : F → Mat 2 ℂ) (Y : Spec F 2 t), Same X W Y → RegularRun (Iva.auxIp2 np floor pairs d X)
      (RegularFold (Iva.auxIp2Pair np floor d X) (fun W _ => IvaRegular floor d X W) pairs) n_iter W →
      ∃ a a', iterM (Iva.auxIp2 np floor pairs d X) n_iter W = .ok a ∧
        iterM (Iva.auxIss2 np' floor pairs' d) (n_iter * pairs.length) Y = .ok a' ∧ Same X a a' by
    obtain ⟨a, a', h1, h2, h3⟩ := H n_iter W _ ⟨W, rfl, UpToPhase.refl _⟩ hreg
    exact ⟨a, a', h1, h2, h3.up, iva_loss hX G h3, fun r => h3.up.projectionBackData r X⟩
  intro N
  induction N with
  | zero => exact fun W Y h _ => ⟨W, Y, rfl, by rw [Nat.zero_mul]; rfl, h⟩
  | succ N ih =>
    intro W Y h hreg
    obtain ⟨a, a', e, e', hR⟩ := iva_fold np np' d hall hp' W Y h hreg.1
    obtain ⟨b, b', i1, i2, i3⟩ := ih a a' hR (hreg.2 a e)
    refine ⟨b, b', ?_, ?_, i3⟩
    · rw [iterM, e]
      exact i1
    · rw [Nat.succ_mul, Nat.add_comm, iterM_add, e']
      exact i2

/-- C109: with a selector of one pair, the whole call of AuxIVA with ISS2 is that with IP2, except that no filter is kept. -/
theorem C109_aux_iva_call (np np' : Numpy ℂ) {floor : ℝ → ℝ} (G d : Fin 2 → Fin t → ℝ → ℝ) {q : Fin 2 × Fin 2}
    (hq : q.1 ≠ q.2) {pairs' : List (Fin 2 × Fin 2)} (hp' : Pairs pairs') {X : Spec F 2 t}
    (hX : ∀ f, IsUnit (X f * (X f)ᴴ).det) {sr : ScaleOpt} (hsr : ¬ AsksNone sr) (r : Fin 2) (n_iter : ℕ) (ic : Bool)
    (kw : Option (F → Mat 2 ℂ)) (o : IvaCall.Obj F 2 t)
    (hreg : ∀ W, IvaCall.reset (.ip2 [q]) X kw o = .ok W →
      RegularRun (Iva.auxIp2 np floor [q] d X) (IvaRegular floor d X) n_iter W) :
    IvaCall.callSignal np' (.iss2 pairs') floor G d sr r X n_iter ic kw o
      = (IvaCall.call np (.ip2 [q]) floor G d sr r X n_iter ic kw o).map fun o => { o with demix := .none } := by
  simp only [IvaCall.callSignal, IvaCall.call, IvaCall.reset] at hreg ⊢
  rcases reset_same [q] pairs' X kw ⟨o.demix, o.output⟩ with ⟨e, e1, e2⟩ | ⟨W, e1, e2⟩
  · rw [e1, e2]
    rfl
  rw [e1] at hreg ⊢
  rw [e2]
  obtain ⟨a, a', ls, h1, h2, h3⟩ := baseCall_rel (R := Same X) (step := IvaCall.update np (.ip2 [q]) floor d X)
    (step' := IvaCall.updateY np' (.iss2 pairs') floor d) (Reg := IvaRegular floor d X)
    (loss := fun W => .ok (Iva.lossIp G X W)) (loss' := Iva.lossFree G X)
    (fun W Y h hr => by
      obtain ⟨a, a', x1, x2, x3⟩ := iva_step np np' d hq hp' W Y h hr
      exact ⟨a, a', by simpa only [IvaCall.update, Iva.auxIp2, List.foldlM_cons, List.foldlM_nil, bind_pure] using x1, x2, x3⟩)
    (fun s s' h => ⟨_, rfl, iva_loss hX G h⟩) ic n_iter (s := W) (s' := separate X W)
    ⟨W, rfl, UpToPhase.refl _⟩ (hreg _ rfl) o.loss
  simp only [h1, h2, bind, Except.bind]
  rw [finish_same hsr r hX h3]
  cases finish sr r X a <;> rfl

/-! ## AuxGaussIVA -/

/-- The flooring leaves the norms of the outputs alone. -/
def Unfloored (floor : ℝ → ℝ) (Y : Spec F 2 t) : Prop :=
  ∀ k s, 0 < Iva.binNorm Y k s ∧ floor (2 * Iva.binNorm Y k s) = 2 * Iva.binNorm Y k s

theorem gauss_weight {floor : ℝ → ℝ} {Y : Spec F 2 t} (h : Unfloored floor Y) (v : Fin 2 → Fin t → ℝ) :
    Iva.weight floor (Iva.gaussD v) Y = fun k s => 1 / v k s := by
  funext k s
  obtain ⟨h1, h2⟩ := h k s
  rw [Iva.weight, h2, Iva.gaussD]
  have : (2 * Iva.binNorm Y k s) ≠ 0 := by positivity
  by_cases hv : v k s = 0
  · simp [hv]
  · field_simp

theorem foldlM_congr {σ β : Type} {g g' : σ → β → Except PyErr σ} {Reg : σ → β → Prop} (h : ∀ s b, Reg s b → g s b = g' s b)
    (l : List β) (s : σ) (hreg : RegularFold g Reg l s) : l.foldlM g s = l.foldlM g' s := by
  induction l generalizing s with
  | nil => rfl
  | cons b l ih =>
    have h2 := hreg.2
    rw [List.foldlM_cons, List.foldlM_cons, ← h s b hreg.1]
    generalize g s b = z at h2
    cases z with
    | error e => rfl
    | ok s₁ => exact ih s₁ (h2 s₁ rfl)

theorem gauss_fold (np : Numpy ℂ) {floor : ℝ → ℝ} (X : Spec F 2 t) (v : Fin 2 → Fin t → ℝ) (pairs : List (Fin 2 × Fin 2))
    (W : F → Mat 2 ℂ)
    (h : RegularFold (Iva.auxIp2Pair np floor (Iva.gaussD v) X) (fun W _ => Unfloored floor (separate X W)) pairs W) :
    Iva.auxIp2 np floor pairs (Iva.gaussD v) X W
      = Ilrma.spatialFilter np (.ip2 pairs) floor (fun _ k j => 1 / v k j) X W := by
  rw [Iva.auxIp2, Ilrma.spatialFilter]
  refine foldlM_congr (fun W q hW => ?_) pairs W h
  simp only [Iva.auxIp2Pair, gauss_weight hW]

/-- What an iteration of AuxGaussIVA visits: an invertible filter, variances that determine the update, and no output norm
that the flooring changes. -/
def GaussRegular (np : Numpy ℂ) (floor : ℝ → ℝ) (pairs : List (Fin 2 × Fin 2)) (X : Spec F 2 t) (s : Iva.GaussState F 2 t) :
    Prop :=
  let v := Iva.gaussVariance (separate X s.W)
  (∀ f, IsUnit (s.W f).det) ∧ Regular floor (fun _ k j => 1 / v k j) X ∧
    RegularFold (Iva.auxIp2Pair np floor (Iva.gaussD v) X) (fun W _ => Unfloored floor (separate X W)) pairs s.W

/-- C109: AuxGaussIVA computes its variances once in every iteration, so with two sources IP2 and ISS2 agree iteration by
iteration, whatever the pair selectors: outputs up to phases, variances and losses. -/
theorem C109_aux_gauss_iva (np np' : Numpy ℂ) {floor : ℝ → ℝ} {pairs pairs' : List (Fin 2 × Fin 2)} (hp : Pairs pairs)
    (hp' : Pairs pairs') {X : Spec F 2 t} (hX : ∀ f, IsUnit (X f * (X f)ᴴ).det) (s : Iva.GaussState F 2 t) (n_iter : ℕ)
    (hreg : RegularRun (Iva.gaussIp2 np floor pairs X) (GaussRegular np floor pairs X) n_iter s) :
    (∃ s₁ s₁', iterM (Iva.gaussIp2 np floor pairs X) n_iter s = .ok s₁ ∧
      iterM (Iva.gaussIss2 np' floor pairs') n_iter ⟨separate X s.W, s.variance⟩ = .ok s₁' ∧
      UpToPhase (separate X s₁.W) s₁'.Y ∧ s₁'.variance = s₁.variance ∧
      ∀ r, projectionBackData r s₁'.Y X = projectionBackData r (separate X s₁.W) X) ∧
    lossList (Iva.gaussIp2 np floor pairs X) (fun s => .ok (Iva.gaussLoss X s)) n_iter s
      = lossList (Iva.gaussIss2 np' floor pairs') (Iva.gaussLossFree X) n_iter ⟨separate X s.W, s.variance⟩ := by
  have step : ∀ (s : Iva.GaussState F 2 t) (s' : Iva.GaussSignal F 2 t), (Same X s.W s'.Y ∧ s'.variance = s.variance) →
      GaussRegular np floor pairs X s → ∃ a a', Iva.gaussIp2 np floor pairs X s = .ok a ∧
        Iva.gaussIss2 np' floor pairs' s' = .ok a' ∧ (Same X a.W a'.Y ∧ a'.variance = a.variance) := by
    rintro ⟨W, v⟩ ⟨Y', v'⟩ ⟨⟨W', e1, h⟩, e2⟩ ⟨hW, hr, hf⟩
    simp only at e1 e2 h hW hr hf
    subst e1 e2
    have hY := h.separate X
    have ev : Iva.gaussVariance (separate X W') = Iva.gaussVariance (separate X W) := by
      funext k j
      simp only [Iva.gaussVariance, hY.norm_eq]
    obtain ⟨W₁, x1, j1⟩ := filter_sweep np hp hr hW
    obtain ⟨W₂, x2, j2⟩ := signal_sweep np' hp' hr fun f => (h.isUnit f).mpr (hW f)
    have hu : Unfloored floor (separate X W) := by
      obtain ⟨hne, _⟩ := hp
      cases pairs with
      | nil => exact absurd rfl hne
      | cons q l => exact hf.1
    refine ⟨⟨W₁, Iva.gaussVariance (separate X W)⟩, ⟨separate X W₂, Iva.gaussVariance (separate X W)⟩, ?_, ?_, ⟨W₂, rfl, joint_upToPhase hr j1 j2⟩, rfl⟩
    · simp only [Iva.gaussIp2, gauss_fold np X _ _ _ hf, x1, bind, Except.bind]
    · simp only [Ilrma.spatialSignal] at x2
      simp only [Iva.gaussIss2, Iva.auxIss2, ev, hY.weight, gauss_weight hu, x2, bind, Except.bind]
  have h0 : Same X s.W (separate X s.W) ∧ s.variance = s.variance := ⟨⟨s.W, rfl, UpToPhase.refl _⟩, rfl⟩
  constructor
  · obtain ⟨s₁, s₁', h1, h2, h3⟩ := iterM_rel _ _ _ _ step n_iter s ⟨separate X s.W, s.variance⟩ h0 hreg
    exact ⟨s₁, s₁', h1, h2, h3.1.up, h3.2, fun r => h3.1.up.projectionBackData r X⟩
  · refine lossList_rel _ _ _ _ _ _ step (fun s s' h => ?_) n_iter s ⟨separate X s.W, s.variance⟩ h0 hreg
    rw [Iva.gaussLossFree, h.2, iva_loss hX _ h.1]
    rfl

/-! ## Pair selectors and examples -/

/-- The pairs of a selector, as indices of the two sources. -/
def toFin (l : List (Int × Int)) : List (Fin 2 × Fin 2) := l.map fun p => (if p.1 = 0 then 0 else 1, if p.2 = 0 then 0 else 1)

/-- C109: the default selector yields two pairs for two sources, the same pair in both orders; `sort` makes them equal. The
combination selector yields one. All satisfy what the theorems ask. -/
theorem C109_selectors (sort : Bool) :
    (∃ l, SelectPair.sequentialPairSelector 2 none 1 sort = .ok l ∧ l.length = 2 ∧ Pairs (toFin l)) ∧
      (SelectPair.combinationPairSelector 2 sort).length = 1 ∧ Pairs (toFin (SelectPair.combinationPairSelector 2 sort)) := by
  cases sort
  · exact ⟨⟨_, rfl, by decide, by unfold Pairs; decide⟩, by decide, by unfold Pairs; decide⟩
  · exact ⟨⟨_, rfl, by decide, by unfold Pairs; decide⟩, by decide, by unfold Pairs; decide⟩

/-- Two frames that span the space: the weights decide everything. -/
theorem regular_square {F : Type} [Fintype F] {floor : ℝ → ℝ} {phi : F → Fin 2 → Fin 2 → ℝ} {X : Spec F 2 2} (hX : ∀ f, IsUnit (X f).det)
    (hphi : ∀ f k s, 0 < phi f k s) (hne : ∀ f, phi f 0 0 * phi f 1 1 ≠ phi f 0 1 * phi f 1 0) (h1 : floor 1 = 1)
    (hfl : ∀ f m k s, floor (Real.sqrt (phi f m s / phi f k s)) = Real.sqrt (phi f m s / phi f k s)) : Regular floor phi X := by
  have e : ∀ f (x : ℝ) m k, Iva.wcov (phi f) X f m - (x : ℂ) • Iva.wcov (phi f) X f k
      = X f * diagonal (fun s => ((phi f m s - x * phi f k s : ℝ) : ℂ) / 2) * (X f)ᴴ := by
    intro f x m k
    rw [Iva.wcov_eq, Iva.wcov_eq, ← Matrix.smul_mul, ← Matrix.mul_smul, ← Matrix.sub_mul, ← Matrix.mul_sub]
    congr 2
    ext i j
    by_cases h : i = j
    · subst h
      simp [wdiag]
      ring
    · simp [wdiag, h]
  have hd : ∀ f (x : ℝ) m k, (Iva.wcov (phi f) X f m - (x : ℂ) • Iva.wcov (phi f) X f k).det = 0 →
      phi f m 0 = x * phi f k 0 ∨ phi f m 1 = x * phi f k 1 := by
    intro f x m k h
    rw [e, det_mul, det_mul, det_conjTranspose, det_diagonal, Fin.prod_univ_two] at h
    have hx : (X f).det ≠ 0 := (hX f).ne_zero
    have hx' : star (X f).det ≠ 0 := star_ne_zero.mpr hx
    have := (mul_eq_zero.mp ((mul_eq_zero.mp h).resolve_right hx')).resolve_left hx
    rcases mul_eq_zero.mp this with h | h
    · refine .inl (sub_eq_zero.mp ?_)
      exact_mod_cast (div_eq_zero_iff.mp h).resolve_right two_ne_zero
    · refine .inr (sub_eq_zero.mp ?_)
      exact_mod_cast (div_eq_zero_iff.mp h).resolve_right two_ne_zero
  refine fun f => ⟨fun k => ?_, fun x hx => ?_, h1, fun x m k _ _ h => ?_⟩
  · have := e f 0 k k
    simp only [Complex.ofReal_zero, zero_smul, sub_zero, zero_mul] at this
    rw [this]
    have hD : (diagonal fun s => ((phi f k s : ℝ) : ℂ) / 2).PosDef :=
      PosDef.diagonal fun s => by
        have : (0 : ℝ) < phi f k s / 2 := half_pos (hphi f k s)
        exact_mod_cast this
    exact hD.mul_mul_conjTranspose_same (Matrix.vecMul_injective_of_isUnit ((isUnit_iff_isUnit_det _).mpr (hX f)))
  · have h2 := e f x 0 1
    rw [hx, sub_self] at h2
    have hu := (isUnit_iff_isUnit_det _).mpr (hX f)
    have hu' : IsUnit (X f)ᴴ := by
      rw [isUnit_iff_isUnit_det, det_conjTranspose]
      exact (hX f).star
    have h3 := (hu'.mul_left_eq_zero.mp h2.symm)
    have h4 := (hu.mul_right_eq_zero.mp h3)
    have c : ∀ s, phi f 0 s = x * phi f 1 s := by
      intro s
      have := congrFun (congrFun h4 s) s
      simp only [diagonal_apply_eq, Matrix.zero_apply] at this
      exact sub_eq_zero.mp (by exact_mod_cast (div_eq_zero_iff.mp this).resolve_right two_ne_zero)
    exact hne f (by rw [c 0, c 1]; ring)
  · have key : ∀ s, phi f m s = x * phi f k s → floor (Real.sqrt x) = Real.sqrt x := by
      intro s hs
      have : phi f m s / phi f k s = x := by rw [hs, mul_div_assoc, div_self (hphi f k s).ne', mul_one]
      rw [← this]
      exact hfl f m k s
    rcases hd f x m k h with h | h
    · exact key 0 h
    · exact key 1 h

/-- A flooring by the library's default leaves one and everything above alone. -/
theorem floor_ge {x : ℝ} (h : 1 / 10 ^ 10 ≤ x) : Special.max_flooring (1 / 10 ^ 10) x = x := max_eq_left h

/-- A mixture of two frames. -/
noncomputable def exX : Spec Unit 2 2 := fun _ => !![1, 1; 1, 2]

theorem exX_unit : (∀ f, IsUnit (exX f).det) ∧ ∀ f, IsUnit (exX f * (exX f)ᴴ).det := by
  have h : ∀ f, IsUnit (exX f).det := fun f => by
    rw [exX, det_fin_two_of]
    norm_num
  refine ⟨h, fun f => ?_⟩
  rw [det_mul, det_conjTranspose]
  exact (h f).mul (h f).star

/-- Its powers. -/
def exP : Fin 2 → Fin 2 → ℝ := ![![1, 1], ![1, 4]]

theorem exP_ge (k s : Fin 2) : 1 ≤ exP k s := by
  fin_cases k <;> fin_cases s <;> norm_num [exP]

theorem exX_norm : ∀ f k s, ‖exX f k s‖ ^ 2 = exP k s := by
  intro f k s
  fin_cases k <;> fin_cases s <;> norm_num [exX, exP]

theorem ex_regular (phi : Unit → Fin 2 → Fin 2 → ℝ)
    (h : ∀ f k s, phi f k s = 1 / exP k s) :
    Regular (Special.max_flooring (1 / 10 ^ 10)) phi exX := by
  refine regular_square exX_unit.1 (fun f k s => ?_) (fun f => ?_) (floor_ge (by norm_num)) fun f m k s => floor_ge ?_
  · rw [h]
    fin_cases k <;> fin_cases s <;> norm_num [exP]
  · rw [h, h, h, h]
    norm_num [exP]
  · rw [h, h]
    refine Real.le_sqrt_of_sq_le ?_
    fin_cases m <;> fin_cases k <;> fin_cases s <;> norm_num [exP]

/-- C109 for a call of `GaussILRMA` on that mixture, with the default selector in one run and the combination selector in
the other. -/
example (np np' : Numpy ℂ) (draw : IlrmaCall.Draw Unit 2 2 1) (norm : Ilrma.Norm 2) :
    IlrmaCall.callSignal np' (Ilrma.gauss 2) 2 (.iss2 [(0, 1)]) norm (Special.max_flooring (1 / 10 ^ 10)) (.bool true) 0 draw exX
        1 true { basis := some fun _ _ _ => 1, activation := some fun k _ s => exP k s } .fresh
      = (IlrmaCall.call np (Ilrma.gauss 2) 2 (.ip2 [(0, 1), (1, 0)]) norm (Special.max_flooring (1 / 10 ^ 10)) (.bool true) 0 draw exX
        1 true { basis := some fun _ _ _ => 1, activation := some fun k _ s => exP k s }
        .fresh).map fun o => { o with demix := .none } := by
  refine C109_ilrma_call np np' _ 2 norm ⟨by simp, by decide⟩ ⟨by simp, by decide⟩ exX_unit.2 (by simp [AsksNone]) 0 draw 1 true _ _
    fun s hs => ⟨?_, fun _ _ => trivial⟩
  have es : s = ⟨fun _ => 1, fun _ _ _ => 1, fun k _ s => exP k s⟩ :=
    (Except.ok.inj hs).symm
  subst es
  have eY : separate exX (fun _ => (1 : Mat 2 ℂ)) = exX := by
    funext f
    rw [separate, Matrix.one_mul]
  have eR : ∀ k f s, Ilrma.recon (F := Unit) (fun _ _ (_ : Fin 1) => (1 : ℝ))
      (fun k (_ : Fin 1) s => exP k s) k f s
        = exP k s := by
    intro k f s
    simp [Ilrma.recon]
  have eT : Ilrma.updateBasis (Ilrma.gauss 2) (Special.max_flooring (1 / 10 ^ 10)) exX (fun _ _ (_ : Fin 1) => (1 : ℝ))
      (fun k (_ : Fin 1) s => exP k s) = fun _ _ _ => 1 := by
    funext k f b
    simp only [Ilrma.updateBasis, Ilrma.basisRaw, Ilrma.gauss, eR, exX_norm]
    rw [show ((2 : ℝ) + 2) / 2 = (2 : ℕ) by norm_num]
    simp only [Real.rpow_natCast]
    rw [show (∑ s, exP k s * (exP k s / exP k s ^ 2)) = ∑ s, exP k s / exP k s from Finset.sum_congr rfl fun s _ => by
      have := exP_ge k s
      field_simp, div_self, Real.one_rpow, one_mul]
    · exact floor_ge (by norm_num)
    · refine (Finset.sum_pos (fun s _ => ?_) Finset.univ_nonempty).ne'
      have := exP_ge k s
      positivity
  have eV : Ilrma.updateActivation (Ilrma.gauss 2) (Special.max_flooring (1 / 10 ^ 10)) exX (fun _ _ (_ : Fin 1) => (1 : ℝ))
      (fun k (_ : Fin 1) s => exP k s)
        = fun k _ s => exP k s := by
    funext k b s
    simp only [Ilrma.updateActivation, Ilrma.activationRaw, Ilrma.gauss, eR, exX_norm]
    rw [show ((2 : ℝ) + 2) / 2 = (2 : ℕ) by norm_num]
    simp only [Real.rpow_natCast]
    have := exP_ge k s
    have h0 : exP k s ≠ 0 := by positivity
    rw [show exP k s / exP k s ^ 2 = 1 / exP k s from by field_simp]
    simp only [one_mul]
    rw [div_self, Real.one_rpow, one_mul]
    · exact floor_ge (le_trans (by norm_num) this)
    · simp [h0]
  refine ⟨fun f => by simp, ex_regular _ fun f k s => ?_⟩
  simp only [Ilrma.updateSource, eY, eT, eV, Ilrma.varphi, eR]
  norm_num [Ilrma.gauss]

/-- C109 for a call of `AuxIVA` that runs as long as one likes: a quadratic contrast function whose scale depends on source
and frame. -/
example (np np' : Numpy ℂ) (G : Fin 2 → Fin 2 → ℝ → ℝ) (n_iter : ℕ) :
    IvaCall.callSignal np' (.iss2 [(0, 1), (1, 0)]) (Special.max_flooring (1 / 10 ^ 10)) G
        (fun k s r => (1 / exP k s) * Special.max_flooring (1 / 10 ^ 10) (2 * r))
        (.bool true) 0 exX n_iter true none .fresh
      = (IvaCall.call np (.ip2 [(0, 1)]) (Special.max_flooring (1 / 10 ^ 10)) G
        (fun k s r => (1 / exP k s) * Special.max_flooring (1 / 10 ^ 10) (2 * r))
        (.bool true) 0 exX n_iter true none .fresh).map fun o => { o with demix := .none } := by
  refine C109_aux_iva_call np np' G _ (by decide) ⟨by simp, by decide⟩ exX_unit.2 (by simp [AsksNone]) 0 n_iter true _ _ fun W hW => ?_
  have hr : ∀ W : Unit → Mat 2 ℂ, Regular (Special.max_flooring (1 / 10 ^ 10)) (fun _ => Iva.weight (Special.max_flooring (1 / 10 ^ 10))
      (fun k s r => (1 / exP k s) * Special.max_flooring (1 / 10 ^ 10) (2 * r))
      (separate exX W)) exX := by
    refine fun W => ex_regular _ fun f k s => ?_
    rw [Iva.weight, mul_div_assoc, div_self, mul_one]
    exact (lt_of_lt_of_le (by norm_num) (le_max_right _ _)).ne'
  have run : ∀ (N : ℕ) (W : Unit → Mat 2 ℂ), (∀ f, IsUnit (W f).det) → RegularRun (Iva.auxIp2 np (Special.max_flooring (1 / 10 ^ 10)) [(0, 1)]
      (fun k s r => (1 / exP k s) * Special.max_flooring (1 / 10 ^ 10) (2 * r)) exX)
      (IvaRegular (Special.max_flooring (1 / 10 ^ 10))
        (fun k s r => (1 / exP k s) * Special.max_flooring (1 / 10 ^ 10) (2 * r)) exX) N W := by
    intro N
    induction N with
    | zero => exact fun _ _ => trivial
    | succ N ih =>
      refine fun W hW => ⟨⟨hW, hr W⟩, fun W' h => ih W' ?_⟩
      obtain ⟨W₁, x1, j1⟩ := filter_sweep np (pairs := [(0, 1)]) ⟨by simp, by decide⟩ (hr W) hW
      simp only [Iva.auxIp2, List.foldlM_cons, List.foldlM_nil, bind_pure, Iva.auxIp2Pair] at h
      simp only [Ilrma.spatialFilter, List.foldlM_cons, List.foldlM_nil, bind_pure] at x1
      rw [x1] at h
      rw [← Except.ok.inj h]
      exact fun f => by obtain ⟨a, b, h⟩ := j1 f; exact h.isUnit
  refine run n_iter W ?_
  rw [← Except.ok.inj hW]
  exact fun f => by simp

/-- C109 for `AuxGaussIVA` on that mixture. -/
example (np np' : Numpy ℂ) :
    lossList (Iva.gaussIp2 np (Special.max_flooring (1 / 10 ^ 10)) [(0, 1)] exX) (fun s => .ok (Iva.gaussLoss exX s)) 1
        ⟨fun _ => 1, fun _ _ => 1⟩
      = lossList (Iva.gaussIss2 np' (Special.max_flooring (1 / 10 ^ 10)) [(0, 1), (1, 0)]) (Iva.gaussLossFree exX) 1
        ⟨separate exX fun _ => 1, fun _ _ => 1⟩ := by
  have eY : separate exX (fun _ => (1 : Mat 2 ℂ)) = exX := by
    funext f
    rw [separate, Matrix.one_mul]
  refine (C109_aux_gauss_iva np np' (floor := Special.max_flooring (1 / 10 ^ 10)) (pairs := [(0, 1)]) ⟨by simp, by decide⟩
    ⟨by simp, by decide⟩ exX_unit.2 ⟨fun _ => 1, fun _ _ => 1⟩ 1
    ⟨⟨fun f => by simp, ?_, ?_, fun _ _ => trivial⟩, fun _ _ => trivial⟩).2
  · refine ex_regular _ fun f k s => ?_
    simp only [eY, Iva.gaussVariance, exX_norm]
    simp
  · intro k s
    have h : 1 ≤ Iva.binNorm exX k s := by
      rw [Iva.binNorm]
      refine Real.le_sqrt_of_sq_le ?_
      simp only [exX_norm]
      simpa using exP_ge k s
    rw [eY]
    exact ⟨by linarith, floor_ge (by norm_num; linarith)⟩

end Verif.TwoSources
