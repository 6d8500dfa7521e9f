import Verif.Model.ProxCall
import Verif.Props.IvaCall
import Verif.Props.ProxBss

/-!
# Calls of the proximal methods (C90)
-/

namespace Verif.ProxBss

open Matrix Scale Lifecycle
open scoped ComplexOrder
open Ilrma (bind_ok)
open IlrmaCall (finish_eq)

variable {F : Type} [Fintype F] {n t q : ℕ}

section loop

variable {σ τ : Type} (attr : Option Bool) {loss : σ → Except PyErr ℝ} {update : σ → Except PyErr σ}

theorem proxLoop_add (a b : ℕ) (s : σ) (l : Option (List ℝ)) :
    proxLoop attr loss update (a + b) s l
      = (proxLoop attr loss update a s l).bind fun p => proxLoop attr loss update b p.1 p.2 := by
  induction a generalizing s l with
  | zero => rw [Nat.zero_add]; rfl
  | succ a ih =>
    rw [Nat.succ_add]
    simp only [proxLoop, bind, Except.bind]
    cases update s with
    | error e => rfl
    | ok s' =>
      simp only
      cases recordPoint attr loss s' l with
      | error e => rfl
      | ok l' => exact ih s' l'

theorem proxIterate_add (a b : ℕ) (ic : Bool) (s : σ) (l : Option (List ℝ)) :
    proxIterate attr loss update (a + b) ic s l
      = (proxIterate attr loss update a ic s l).bind fun p => proxIterate attr loss update b false p.1 p.2 := by
  cases ic with
  | false => exact proxLoop_add attr a b s l
  | true =>
    simp only [proxIterate, bind, Except.bind, Bool.false_eq_true, if_false, if_true]
    cases recordPoint attr loss s l with
    | error e => rfl
    | ok l' => exact proxLoop_add attr a b s l'

/-- A run never fails if its steps and its losses do not. -/
theorem proxIterate_inv (Inv : σ → Prop) (hu : ∀ s, Inv s → ∃ s', update s = .ok s' ∧ Inv s')
    (hl : attr = some true → ∀ s, ∃ v, loss s = .ok v) (n_iter : ℕ) (ic : Bool) (s : σ) (hs : Inv s) (l : Option (List ℝ)) :
    ∃ s' l', proxIterate attr loss update n_iter ic s l = .ok (s', l') ∧ Inv s' := by
  have hr : ∀ s l, ∃ l', recordPoint attr loss s l = .ok l' := by
    intro s l
    unfold recordPoint
    split
    · rename_i h
      obtain ⟨v, hv⟩ := hl h s
      exact ⟨_, by rw [hv]; rfl⟩
    · exact ⟨l, rfl⟩
  have key : ∀ k s l, Inv s → ∃ s' l', proxLoop attr loss update k s l = .ok (s', l') ∧ Inv s' := by
    intro k
    induction k with
    | zero => exact fun s l hs => ⟨s, l, rfl, hs⟩
    | succ k ih =>
      intro s l hs
      obtain ⟨s1, h1, i1⟩ := hu s hs
      obtain ⟨l1, h2⟩ := hr s1 l
      obtain ⟨s2, l2, h3, i2⟩ := ih s1 l1 i1
      exact ⟨s2, l2, by simp only [proxLoop, h1, h2, h3, bind, Except.bind], i2⟩
  cases ic with
  | false => exact key n_iter s l hs
  | true =>
    obtain ⟨l1, h1⟩ := hr s l
    obtain ⟨s2, l2, h2, i2⟩ := key n_iter s l1 hs
    exact ⟨s2, l2, by simp only [proxIterate, if_true, h1, h2, bind, Except.bind], i2⟩

/-- A run in other coordinates. -/
theorem proxIterate_map {loss' : τ → Except PyErr ℝ} {update' : τ → Except PyErr τ} (g : σ → τ)
    (hu : ∀ s, update' (g s) = (update s).map g) (hl : ∀ s, loss' (g s) = loss s) (n_iter : ℕ) (ic : Bool) (s : σ)
    (l : Option (List ℝ)) :
    proxIterate attr loss' update' n_iter ic (g s) l
      = (proxIterate attr loss update n_iter ic s l).map fun p => (g p.1, p.2) := by
  have hr : ∀ s l, recordPoint attr loss' (g s) l = recordPoint attr loss s l := fun s l => by
    simp only [recordPoint, hl]
  have key : ∀ k s l, proxLoop attr loss' update' k (g s) l
      = (proxLoop attr loss update k s l).map fun p => (g p.1, p.2) := by
    intro k
    induction k with
    | zero => exact fun s l => rfl
    | succ k ih =>
      intro s l
      simp only [proxLoop, hu, bind, Except.bind]
      cases update s with
      | error e => rfl
      | ok s' =>
        simp only [Except.map, hr]
        cases recordPoint attr loss s' l with
        | error e => rfl
        | ok l' => exact ih s' l'
  cases ic with
  | false => exact key n_iter s l
  | true =>
    simp only [proxIterate, hr, bind, Except.bind, if_true]
    cases recordPoint attr loss s l with
    | error e => rfl
    | ok l' => exact key n_iter s l'

/-- The states do not depend on the losses recorded before. -/
theorem proxLoop_fst (k : ℕ) (s : σ) (l l' : Option (List ℝ)) :
    (proxLoop attr loss update k s l).map Prod.fst = (proxLoop attr loss update k s l').map Prod.fst := by
  induction k generalizing s l l' with
  | zero => rfl
  | succ k ih =>
    simp only [proxLoop, bind, Except.bind]
    cases update s with
    | error e => rfl
    | ok s' =>
      by_cases h : attr = some true
      · simp only [recordPoint, if_pos h, bind, Except.bind]
        cases loss s' with
        | error e => rfl
        | ok v => exact ih s' _ _
      · simp only [recordPoint, if_neg h]
        exact ih s' _ _

end loop

/-- The loss can be computed whenever it is asked for: no `record_loss=True`, or a list of penalties. -/
def LossOk (attr : Option Bool) (penalty : Penalty F n t) : Prop := attr = some true → ∃ ps, penalty = .list ps

theorem LossOk.ok {attr : Option Bool} {penalty : Penalty F n t} (h : LossOk attr penalty) (X : Spec F n t)
    {σ : Type} (filter : σ → F → Mat n ℂ) : attr = some true → ∀ s, ∃ v, computeLoss penalty X (filter s) = .ok v := by
  intro ha s
  obtain ⟨ps, rfl⟩ := h ha
  exact ⟨_, rfl⟩

theorem finish_none {sr : ScaleOpt} (hsr : AsksNone sr) (r : Fin n) (X : Spec F n t) (W : F → Mat n ℂ) :
    finish sr r X W = .ok (separate X W, W) := by
  rw [finish_eq, if_neg (by simp [restore_none hsr])]

/-! ## PDSBSS -/

section pds

variable (np : Numpy ℂ) (mu1 mu2 : ℝ) (relaxation : ℝ) (prox : Fin q → Spec F n t → ℝ → Spec F n t) (penalty : Penalty F n t)
  (attr : Option Bool) {sr : ScaleOpt} (r : Fin n) (X : Spec F n t)

/-- C90: without scale restoration, a second call of `PDSBSS` with `initial_call=False` continues where the first one ended:
the two calls do exactly what one call with all the iterations does, exceptions and losses included. -/
theorem C90_pds_resume (hsr : AsksNone sr) (a b : ℕ) (ic : Bool) (kw : PdsKw F n t q) (o : PdsObj F n t q) :
    ((pdsCall np mu1 mu2 relaxation prox penalty attr sr r X a ic kw o).bind fun o =>
        pdsCall np mu1 mu2 relaxation prox penalty attr sr r X b false {} o)
      = pdsCall np mu1 mu2 relaxation prox penalty attr sr r X (a + b) ic kw o := by
  simp only [pdsCall, proxIterate_add attr a b, finish_none hsr, bind, Except.bind]
  cases proxIterate attr (fun s : PdsState F n t q => computeLoss penalty X s.W) (pdsStep np mu1 mu2 relaxation prox X) a ic
    (pdsReset kw o) o.loss with
  | error e => rfl
  | ok p => rfl

/-- C90: with positive step sizes and no relaxation, `PDSBSS` with projection back returns for every recording, even a
silent one, every proximal operator, every object and every keyword argument, as soon as there is one iteration; the
filter reported is invertible, produces the output, and the outputs sum to the reference channel. -/
theorem C90_pds_returns (h1 : 0 < mu1) (hp : LossOk attr penalty) (hsr : AsksPB sr) (n_iter : ℕ) (hn : n_iter ≠ 0) (ic : Bool)
    (kw : PdsKw F n t q) (o : PdsObj F n t q) :
    ∃ W dual l, pdsCall np mu1 mu2 1 prox penalty attr sr r X n_iter ic kw o
        = .ok ⟨some W, some dual, some (separate X W), l⟩ ∧ ∀ f j, ∑ k, separate X W f k j = X f r j := by
  obtain ⟨m, rfl⟩ := Nat.exists_eq_succ_of_ne_zero hn
  have hstep : ∀ s : PdsState F n t q, ∃ s', pdsStep np mu1 mu2 1 prox X s = .ok s' ∧ ∀ f, IsUnit (s'.W f).det := by
    intro s
    obtain ⟨P, hP, e⟩ := pdsStep_ok np h1 mu2 1 prox X s
    refine ⟨_, e, fun f => ?_⟩
    obtain ⟨Q, hQ, q1, -, -⟩ := neg_logdet_spec np h1 (s.W f - ((mu1 * mu2 : ℝ) : ℂ) • ((∑ i, s.dual i f) * (X f)ᴴ))
    rw [hP f] at hQ
    cases hQ
    have h0 : (mu1 : ℂ) ≠ 0 := by exact_mod_cast h1.ne'
    have : IsUnit ((P f)ᴴ).det := by
      refine (isUnit_iff_isUnit_det _).mp (IsUnit.of_mul_eq_one ((mu1 : ℂ)⁻¹ • (P f - (s.W f - ((mu1 * mu2 : ℝ) : ℂ) • ((∑ i, s.dual i f) * (X f)ᴴ)))) ?_)
      rw [mul_eq_one_comm, Matrix.smul_mul, q1, smul_smul, inv_mul_cancel₀ h0, one_smul]
    rw [det_conjTranspose, isUnit_star] at this
    simpa using this
  obtain ⟨s', l', e1, -⟩ := proxIterate_inv attr (fun _ : PdsState F n t q => True) (fun s _ => (hstep s).imp fun s' h => ⟨h.1, trivial⟩)
    (hp.ok X fun s => s.W) m ic (pdsReset kw o) trivial o.loss
  obtain ⟨s2, l2, e2, i2⟩ : ∃ s2 l2, proxIterate attr (fun s : PdsState F n t q => computeLoss penalty X s.W)
      (pdsStep np mu1 mu2 1 prox X) 1 false s' l' = .ok (s2, l2) ∧ ∀ f, IsUnit (s2.W f).det := by
    obtain ⟨s2, a1, a2⟩ := hstep s'
    obtain ⟨l2, a3⟩ : ∃ l2, recordPoint attr (fun s : PdsState F n t q => computeLoss penalty X s.W) s2 l' = .ok l2 := by
      unfold recordPoint
      split
      · rename_i h
        obtain ⟨v, hv⟩ := hp.ok X (fun s : PdsState F n t q => s.W) h s2
        exact ⟨_, by simp only [hv]; rfl⟩
      · exact ⟨l', rfl⟩
    exact ⟨s2, l2, by simp [proxIterate, proxLoop, a1, a3, bind, Except.bind], a2⟩
  obtain ⟨W, g1, g2⟩ := IvaCall.finish_sum hsr r X i2
  refine ⟨W, s2.dual, l2, ?_, g2⟩
  simp only [pdsCall, Nat.succ_eq_add_one, proxIterate_add attr m 1, e1, e2, g1, bind, Except.bind]

/-- C90: a call without iterations and without scale restoration applies the filter given as keyword argument, or else the one
on the object, or else none. -/
theorem C90_pds_keyword (hsr : AsksNone sr) (W W' : F → Mat n ℂ) (o : PdsObj F n t q) :
    (pdsCall np mu1 mu2 relaxation prox penalty attr sr r X 0 false { demix := some W } o).map PdsObj.output
      = .ok (some (separate X W)) ∧
    (pdsCall np mu1 mu2 relaxation prox penalty attr sr r X 0 false {} { o with demix := some W' }).map PdsObj.output
      = .ok (some (separate X W')) ∧
    (pdsCall np mu1 mu2 relaxation prox penalty attr sr r X 0 false {} (PdsObj.fresh attr)).map PdsObj.output
      = .ok (some X) := by
  have hone : separate X (fun _ => 1) = X := by funext f; simp [separate]
  simp only [pdsCall, proxIterate, proxLoop, finish_none hsr, bind, Except.bind, Except.map, pdsReset, keep, PdsObj.fresh,
    Bool.false_eq_true, if_false, Option.getD_some, Option.getD_none, hone, and_self]

end pds

/-! ## ADMMBSS -/

section admm

variable (np : Numpy ℂ) (rho : ℝ) (relaxation : ℝ) (prox : Fin q → Spec F n t → ℝ → Spec F n t) (penalty : Penalty F n t)
  (attr : Option Bool) (sr : ScaleOpt) (r : Fin n) (X : Spec F n t)

omit [Fintype F] in
/-- One ADMM step does not look at the filter. -/
theorem admmStep_filter (s : AdmmState F n t q) (W : F → Mat n ℂ) :
    admmStep np rho relaxation prox X { s with W := W } = admmStep np rho relaxation prox X s := rfl

theorem admmLoop_filter (s : AdmmState F n t q) (W : F → Mat n ℂ) {k : ℕ} (hk : k ≠ 0) (l : Option (List ℝ)) :
    proxLoop attr (fun s : AdmmState F n t q => computeLoss penalty X s.W) (admmStep np rho relaxation prox X) k
        { s with W := W } l
      = proxLoop attr (fun s : AdmmState F n t q => computeLoss penalty X s.W) (admmStep np rho relaxation prox X) k s l := by
  obtain ⟨m, rfl⟩ := Nat.exists_eq_succ_of_ne_zero hk
  rfl

/-- C90: `ADMMBSS` resumes exactly through any scale restoration: if the first call returned, a second call with
`initial_call=False` and at least one iteration leaves the object exactly as one call with all the iterations does. -/
theorem C90_admm_resume (a b : ℕ) (hb : b ≠ 0) (ic : Bool) (kw : AdmmKw F n t q) (o o' : AdmmObj F n t q)
    (h : admmCall np rho relaxation prox penalty attr sr r X a ic kw o = .ok o') :
    admmCall np rho relaxation prox penalty attr sr r X b false {} o'
      = admmCall np rho relaxation prox penalty attr sr r X (a + b) ic kw o := by
  simp only [admmCall, proxIterate_add attr a b, bind, Except.bind] at h ⊢
  cases hp : proxIterate attr (fun s : AdmmState F n t q => computeLoss penalty X s.W) (admmStep np rho relaxation prox X) a ic
    (admmReset kw o) o.loss with
  | error e => rw [hp] at h; cases h
  | ok p =>
    rw [hp] at h
    simp only at h ⊢
    cases hf : finish sr r X p.1.W with
    | error e => rw [hf] at h; cases h
    | ok y =>
      rw [hf] at h
      cases h
      have : proxIterate attr (fun s : AdmmState F n t q => computeLoss penalty X s.W) (admmStep np rho relaxation prox X) b false
          { p.1 with W := y.2 } p.2
        = proxIterate attr (fun s : AdmmState F n t q => computeLoss penalty X s.W) (admmStep np rho relaxation prox X) b false
          p.1 p.2 := admmLoop_filter np rho relaxation prox penalty attr X p.1 y.2 hb p.2
      rw [← this]
      rfl

/-- C90: **finding.** The keyword argument `demix_filter` of an `ADMMBSS` call is without effect: as soon as there is one
iteration, the object is left the same (up to the loss recorded before the iterations) whatever filter is given. -/
theorem C90_admm_keyword (n_iter : ℕ) (hn : n_iter ≠ 0) (ic : Bool) (kw : AdmmKw F n t q) (o : AdmmObj F n t q)
    (W : Option (F → Mat n ℂ)) :
    (admmCall np rho relaxation prox penalty attr sr r X n_iter ic { kw with demix := W } o).map
        (fun o => { o with loss := none })
      = (admmCall np rho relaxation prox penalty attr sr r X n_iter ic kw o).map (fun o => { o with loss := none }) ∧
    (ic = false → admmCall np rho relaxation prox penalty attr sr r X n_iter ic { kw with demix := W } o
      = admmCall np rho relaxation prox penalty attr sr r X n_iter ic kw o) := by
  obtain ⟨s, hs⟩ : ∃ s, s = admmReset kw o := ⟨_, rfl⟩
  obtain ⟨V, hV⟩ : ∃ V, admmReset { kw with demix := W } o = { s with W := V } := ⟨_, by rw [hs]; rfl⟩
  have hcall : ∀ s : AdmmState F n t q, ∀ x : Except PyErr (AdmmState F n t q × Option (List ℝ)),
      (x.bind fun p => (finish sr r X p.1.W).bind fun y => Except.ok (⟨some y.2, some p.1.V, some p.1.V_tilde, some p.1.Y,
          some p.1.Y_tilde, some y.1, p.2⟩ : AdmmObj F n t q)).map (fun o => { o with loss := none })
        = (x.map Prod.fst).bind fun s => (finish sr r X s.W).bind fun y => Except.ok (⟨some y.2, some s.V, some s.V_tilde,
          some s.Y, some s.Y_tilde, some y.1, none⟩ : AdmmObj F n t q) := by
    intro s x
    cases x with
    | error e => rfl
    | ok p =>
      simp only [Except.map, Except.bind]
      cases finish sr r X p.1.W <;> rfl
  have hunf : ∀ kw', admmCall np rho relaxation prox penalty attr sr r X n_iter ic kw' o
      = (proxIterate attr (fun s => computeLoss penalty X s.W) (admmStep np rho relaxation prox X) n_iter ic (admmReset kw' o)
          o.loss).bind fun p => (finish sr r X p.1.W).bind fun y => Except.ok (⟨some y.2, some p.1.V, some p.1.V_tilde,
            some p.1.Y, some p.1.Y_tilde, some y.1, p.2⟩ : AdmmObj F n t q) := fun kw' => by
    simp only [admmCall, bind]
  rw [hunf, hunf, hV, ← hs]
  refine ⟨?_, fun h => ?_⟩
  · rw [hcall s, hcall s]
    congr 1
    cases ic with
    | false =>
      exact congrArg (Except.map Prod.fst) (admmLoop_filter np rho relaxation prox penalty attr X s V hn o.loss)
    | true =>
      simp only [proxIterate, if_true, bind, Except.bind]
      have hrec : ∀ W₁ W₂ : F → Mat n ℂ, ∀ e, recordPoint attr (fun s : AdmmState F n t q => computeLoss penalty X s.W)
          { s with W := W₁ } o.loss = .error e → recordPoint attr (fun s : AdmmState F n t q => computeLoss penalty X s.W)
          { s with W := W₂ } o.loss = .error e := by
        intro W₁ W₂ e
        unfold recordPoint
        split
        · cases penalty with
          | none => exact id
          | fn p => exact id
          | list ps => intro h; cases h
        · intro h; cases h
      cases h1 : recordPoint attr (fun s : AdmmState F n t q => computeLoss penalty X s.W) { s with W := V } o.loss with
      | error e =>
        rw [hrec V s.W e h1]
      | ok l1 =>
        cases h2 : recordPoint attr (fun s : AdmmState F n t q => computeLoss penalty X s.W) s o.loss with
        | error e =>
          rw [hrec s.W V e h2] at h1
          cases h1
        | ok l2 =>
          simp only
          rw [admmLoop_filter np rho relaxation prox penalty attr X s V hn]
          exact proxLoop_fst attr n_iter s l1 l2
  · subst h
    exact congrArg (Except.bind · _) (admmLoop_filter np rho relaxation prox penalty attr X s V hn o.loss)

theorem iterate_fresh {σ : Type} {filter : σ → F → Mat n ℂ} {update : σ → Except PyErr σ} (hp : LossOk attr penalty) (n_iter : ℕ)
    (ic : Bool) (s : σ) (l : Option (List ℝ)) {s' : σ} (h : iterM update n_iter s = .ok s') :
    ∃ l', proxIterate attr (fun s => computeLoss penalty X (filter s)) update n_iter ic s l = .ok (s', l') := by
  have hr : ∀ s l, ∃ l', recordPoint attr (fun s => computeLoss penalty X (filter s)) s l = .ok l' := by
    intro s l
    unfold recordPoint
    split
    · rename_i h
      obtain ⟨v, hv⟩ := hp.ok X filter h s
      exact ⟨_, by simp only [hv]; rfl⟩
    · exact ⟨l, rfl⟩
  have key : ∀ k s l, iterM update k s = .ok s' →
      ∃ l', proxLoop attr (fun s => computeLoss penalty X (filter s)) update k s l = .ok (s', l') := by
    intro k
    induction k with
    | zero => intro s l h; cases h; exact ⟨l, rfl⟩
    | succ k ih =>
      intro s l h
      rw [iterM] at h
      obtain ⟨s1, h1, h2⟩ := bind_ok h
      obtain ⟨l1, h3⟩ := hr s1 l
      obtain ⟨l2, h4⟩ := ih s1 l1 h2
      exact ⟨l2, by simp only [proxLoop, h1, h3, h4, bind, Except.bind]⟩
  cases ic with
  | false => exact key n_iter s l h
  | true =>
    obtain ⟨l1, h1⟩ := hr s l
    obtain ⟨l2, h2⟩ := key n_iter s l1 h
    exact ⟨l2, by simp only [proxIterate, if_true, h1, h2, bind, Except.bind]⟩

omit [Fintype F] in
/-- The first step of a new `ADMMBSS` object. -/
theorem admmStep_first {rho : ℝ} (hr : 0 < rho) (s : AdmmState F n t q) (hV : s.V = fun _ => 0) (hY : s.Y = fun _ => 0)
    (hV' : s.V_tilde = fun _ _ => 0) (hY' : s.Y_tilde = fun _ _ => 0) :
    ∃ P : F → Mat n ℂ, (∀ f, P f * (P f)ᴴ = ((1 / rho : ℝ) : ℂ) • 1) ∧
      admmStep np rho relaxation prox X s = .ok ⟨fun _ => 0, P, fun i => prox i (fun _ => 0) (1 / rho), fun f => - P f,
        fun i f => - prox i (fun _ => 0) (1 / rho) f⟩ := by
  have hr' : 0 < 1 / rho := one_div_pos.mpr hr
  obtain ⟨P, hP, hP1⟩ : ∃ P : F → Mat n ℂ, (∀ f, Linalg.neg_logdet np (1 / rho) (0 : Mat n ℂ) = .ok (P f)) ∧
      ∀ f, P f * (P f)ᴴ = ((1 / rho : ℝ) : ℂ) • 1 := by
    obtain ⟨P, h1, h2, -⟩ := neg_logdet_spec np hr' (0 : Mat n ℂ)
    rw [sub_zero] at h2
    exact ⟨fun _ => P, fun _ => h1, fun _ => h2⟩
  refine ⟨P, hP1, ?_⟩
  obtain ⟨W, hW, hW1⟩ := C50_filter_equation X s
  have hW0 : W = fun _ => 0 := by
    funext f
    have h := hW1 f
    simp only [hV, hY, hV', hY', sub_self, Finset.sum_const_zero, Matrix.zero_mul, add_zero] at h
    have hu : IsUnit ((normalMat q (X f))ᵀ).det := by
      rw [det_transpose]
      exact Tr.isUnit_det (normalMat_posDef (X f))
    have := congrArg (((normalMat q (X f))ᵀ)⁻¹ * ·) h
    simp only [Matrix.mul_zero] at this
    rw [← this]
    exact (nonsing_inv_mul_cancel_left _ _ hu).symm
  subst hW0
  have hst : negLogdetStack np (1 / rho) (fun _ : F => (0 : Mat n ℂ)) = .ok P := Spatial.onBins_ok hP
  have hsep : separate X (fun _ => (0 : Mat n ℂ)) = fun _ => 0 := by funext f; simp [separate]
  simp only [admmStep, hW, hst, bind, Except.bind, hsep, hV, hY, hV', hY', smul_zero, add_zero, zero_sub]

/-- C90: **finding.** The first iteration of a new `ADMMBSS` object sets the demixing filter to zero, whatever the recording and
the filter given: with one iteration the output is silent without scale restoration, and projection back (the default) raises
`LinAlgError`. -/
theorem C90_admm_first [Nonempty F] {rho : ℝ} (hr : 0 < rho) (hp : LossOk attr penalty) (ic : Bool)
    (W : Option (F → Mat n ℂ)) :
    (AsksNone sr → (admmCall np rho relaxation prox penalty attr sr r X 1 ic { demix := W }
        (AdmmObj.fresh attr)).map AdmmObj.output = .ok (some fun _ => 0)) ∧
    (AsksPB sr → admmCall np rho relaxation prox penalty attr sr r X 1 ic { demix := W } (AdmmObj.fresh attr)
      = .error .linalg) := by
  obtain ⟨P, -, hP⟩ := admmStep_first np relaxation prox X hr
    (admmReset { demix := W } (AdmmObj.fresh attr : AdmmObj F n t q)) rfl rfl rfl rfl
  obtain ⟨l, hl⟩ := iterate_fresh penalty attr X (filter := fun s : AdmmState F n t q => s.W)
    (update := admmStep np rho relaxation prox X) hp 1 ic
    (admmReset { demix := W } (AdmmObj.fresh attr : AdmmObj F n t q)) (AdmmObj.fresh attr : AdmmObj F n t q).loss
    (s' := ⟨fun _ => 0, P, fun i => prox i (fun _ => 0) (1 / rho), fun f => - P f,
        fun i f => - prox i (fun _ => 0) (1 / rho) f⟩) (by simp only [iterM, hP]; rfl)
  have hsep : separate X (fun _ => (0 : Mat n ℂ)) = fun _ => 0 := by funext f; simp [separate]
  refine ⟨fun h => ?_, fun h => ?_⟩
  · simp only [admmCall, hl, finish_none h, bind, Except.bind, Except.map, hsep]
  · have hz : ¬ ∀ f : F, IsUnit ((fun _ : F => (0 : Mat n ℂ)) f).det := by
      intro hu
      have := hu (Classical.arbitrary F)
      have hne : Nonempty (Fin n) := ⟨r⟩
      simp [det_zero] at this
    have : finish sr r X (fun _ => (0 : Mat n ℂ)) = .error .linalg := by
      obtain ⟨ht, hr⟩ := restore_pb h (applyProjectionBack r X fun _ => 0) (applyMdp r X fun _ => 0)
      rw [finish_eq, if_pos ht, hr, applyProjectionBack, (C22_succeeds_iff r _).2 hz]
      rfl
    simp only [admmCall, hl, this, bind, Except.bind]

/-- C90: with two iterations and proximal operators that leave silence alone a new `ADMMBSS` object returns, for every
recording. -/
theorem C90_admm_two {rho : ℝ} (hr : 0 < rho) (hp : LossOk attr penalty) (hprox : ∀ i, prox i (fun _ => 0) (1 / rho) = fun _ => 0)
    (hsr : AsksPB sr) (ic : Bool) (W : Option (F → Mat n ℂ)) :
    ∃ o, admmCall np rho relaxation prox penalty attr sr r X 2 ic { demix := W } (AdmmObj.fresh attr) = .ok o ∧
      ∃ V, o.demix = some V ∧ o.output = some (separate X V) ∧ ∀ f j, ∑ k, separate X V f k j = X f r j := by
  obtain ⟨P, hP0, hP⟩ := admmStep_first np relaxation prox X hr
    (admmReset { demix := W } (AdmmObj.fresh attr : AdmmObj F n t q)) rfl rfl rfl rfl
  obtain ⟨s, hs⟩ : ∃ s : AdmmState F n t q, s = ⟨fun _ => 0, P, fun i => prox i (fun _ => 0) (1 / rho), fun f => - P f,
        fun i f => - prox i (fun _ => 0) (1 / rho) f⟩ := ⟨_, rfl⟩
  rw [← hs] at hP
  obtain ⟨V, hV, hV1⟩ := C50_filter_equation X s
  have hVu : ∀ f, IsUnit (V f).det := by
    intro f
    have h := hV1 f
    simp only [hs, hprox, neg_zero, sub_self, sub_neg_eq_add, Finset.sum_const_zero, Matrix.zero_mul, add_zero] at h
    have hr0 : (rho : ℂ) ≠ 0 := by exact_mod_cast hr.ne'
    have hPu : IsUnit (P f) := by
      refine IsUnit.of_mul_eq_one ((rho : ℂ) • (P f)ᴴ) ?_
      rw [Matrix.mul_smul, hP0, smul_smul]
      push_cast
      rw [mul_one_div_cancel hr0, one_smul]
    have h2 : IsUnit (P f + P f) := by
      rw [← two_smul ℂ]
      have h2 : IsUnit (2 : ℂ) := isUnit_iff_ne_zero.mpr two_ne_zero
      exact (hPu.smul h2.unit)
    rw [← h, isUnit_iff_isUnit_det, det_mul, IsUnit.mul_iff] at h2
    exact h2.2
  obtain ⟨s2, e2, e3⟩ : ∃ s2, admmStep np rho relaxation prox X s = .ok s2 ∧ s2.W = V := by
    obtain ⟨Q, hQ⟩ : ∃ Q, negLogdetStack np (1 / rho)
        (fun f => ((relaxation : ℂ) • V f + ((1 - relaxation : ℝ) : ℂ) • s.V f) + s.Y f) = .ok Q := by
      choose Q hQ _ using fun f => neg_logdet_spec np (one_div_pos.mpr hr)
        (((relaxation : ℂ) • V f + ((1 - relaxation : ℝ) : ℂ) • s.V f) + s.Y f)
      exact ⟨Q, Spatial.onBins_ok hQ⟩
    simp only [admmStep, hV, hQ, bind, Except.bind]
    exact ⟨_, rfl, rfl⟩
  obtain ⟨l, hl⟩ := iterate_fresh penalty attr X (filter := fun s : AdmmState F n t q => s.W)
    (update := admmStep np rho relaxation prox X) hp 2 ic
    (admmReset { demix := W } (AdmmObj.fresh attr : AdmmObj F n t q)) (AdmmObj.fresh attr : AdmmObj F n t q).loss
    (s' := s2) (by simp only [iterM, hP, e2, bind, Except.bind])
  rw [← e3] at hVu
  obtain ⟨V', g1, g2⟩ := IvaCall.finish_sum hsr r X hVu
  exact ⟨⟨some V', some s2.V, some s2.V_tilde, some s2.Y, some s2.Y_tilde, some (separate X V'), l⟩,
    by simp only [admmCall, hl, g1, bind, Except.bind], V', rfl, rfl, g2⟩

end admm

/-! ## The masking classes -/

/-- The proximal operator a mask stands for. -/
noncomputable def maskProx (mask : Spec F n t → F → Matrix (Fin n) (Fin t) ℝ) : Fin 1 → Spec F n t → ℝ → Spec F n t :=
  fun _ Z _ f => Matrix.of fun k j => (mask Z f k j : ℂ) * Z f k j

def MaskPdsKw.lift (kw : MaskPdsKw F n t) : PdsKw F n t 1 := ⟨kw.demix, kw.dual.map fun Y _ => Y⟩

def MaskPdsObj.lift (o : MaskPdsObj F n t) : PdsObj F n t 1 := ⟨o.demix, o.dual.map fun Y _ => Y, o.output, o.loss⟩

def MaskAdmmKw.lift (kw : MaskAdmmKw F n t) : AdmmKw F n t 1 :=
  ⟨kw.demix, kw.auxiliary1, kw.auxiliary2.map fun Y _ => Y, kw.dual1, kw.dual2.map fun Y _ => Y⟩

def MaskAdmmObj.lift (o : MaskAdmmObj F n t) : AdmmObj F n t 1 :=
  ⟨o.demix, o.auxiliary1, o.auxiliary2.map fun Y _ => Y, o.dual1, o.dual2.map fun Y _ => Y, o.output, o.loss⟩

omit [Fintype F] in
theorem const_dual (d : Fin 1 → Spec F n t) : (fun _ => d 0) = d := by
  funext i
  rw [Subsingleton.elim i 0]

omit [Fintype F] in
theorem keep_lift (kw o : Option (Spec F n t)) :
    keep (fun _ _ => 0) (kw.map fun Y _ => Y) (o.map fun (Y : Spec F n t) (_ : Fin 1) => Y) = fun _ => keep (fun _ => 0) kw o := by
  cases kw <;> cases o <;> rfl

/-- C90: a `MaskingPDSBSS` call is the `PDSBSS` call with one penalty whose proximal operator is the mask, so that what is
proved about `PDSBSS` calls holds for it. -/
theorem C90_masking_pds (np : Numpy ℂ) (mu1 mu2 relaxation : ℝ) (mask : Spec F n t → F → Matrix (Fin n) (Fin t) ℝ)
    (penalty : Penalty F n t) (attr : Option Bool) (sr : ScaleOpt) (r : Fin n) (X : Spec F n t) (n_iter : ℕ) (ic : Bool)
    (kw : MaskPdsKw F n t) (o : MaskPdsObj F n t) :
    pdsCall np mu1 mu2 relaxation (maskProx mask) penalty attr sr r X n_iter ic kw.lift o.lift
      = (maskingPdsCall np mu1 mu2 relaxation mask penalty attr sr r X n_iter ic kw o).map MaskPdsObj.lift := by
  have h := proxIterate_map attr (loss' := fun s : PdsState F n t 1 => computeLoss penalty X s.W)
    (update' := pdsStep np mu1 mu2 relaxation (maskProx mask) X)
    (loss := fun s => computeLoss penalty X s.1) (update := maskingPdsStep np mu1 mu2 relaxation mask X)
    (fun s => (⟨s.1, fun _ => s.2⟩ : PdsState F n t 1)) (by
      rintro ⟨W, Y⟩
      rw [C51_masking]
      change pdsStep np mu1 mu2 relaxation (maskProx mask) X ⟨W, fun _ => Y⟩ = _
      cases he : pdsStep np mu1 mu2 relaxation (maskProx mask) X ⟨W, fun _ => Y⟩ with
      | error e =>
        have : pdsStep np mu1 mu2 relaxation (fun _ : Fin 1 => fun Z _ f => Matrix.of fun k j => (mask Z f k j : ℂ) * Z f k j) X
          ⟨W, fun _ => Y⟩ = .error e := he
        rw [this]
        rfl
      | ok s =>
        have : pdsStep np mu1 mu2 relaxation (fun _ : Fin 1 => fun Z _ f => Matrix.of fun k j => (mask Z f k j : ℂ) * Z f k j) X
          ⟨W, fun _ => Y⟩ = .ok s := he
        rw [this]
        simp only [Except.map, const_dual]) (fun _ => rfl) n_iter ic
    (keep (fun _ => 1) kw.demix o.demix, keep (fun _ => 0) kw.dual o.dual) o.loss
  have hreset : pdsReset kw.lift o.lift = ⟨keep (fun _ => 1) kw.demix o.demix, fun _ => keep (fun _ => 0) kw.dual o.dual⟩ := by
    simp only [pdsReset, MaskPdsKw.lift, MaskPdsObj.lift, keep_lift]
  simp only [pdsCall, maskingPdsCall, hreset, bind]
  rw [show o.lift.loss = o.loss from rfl, h]
  cases proxIterate attr (fun s => computeLoss penalty X s.1) (maskingPdsStep np mu1 mu2 relaxation mask X) n_iter ic
    (keep (fun _ => 1) kw.demix o.demix, keep (fun _ => 0) kw.dual o.dual) o.loss with
  | error e => rfl
  | ok p =>
    simp only [Except.map, Except.bind]
    cases finish sr r X p.1.1 <;> rfl

/-- C90: a `MaskingADMMBSS` call is the `ADMMBSS` call with one penalty whose proximal operator is the mask. -/
theorem C90_masking_admm (np : Numpy ℂ) (rho relaxation : ℝ) (mask : Spec F n t → F → Matrix (Fin n) (Fin t) ℝ)
    (penalty : Penalty F n t) (attr : Option Bool) (sr : ScaleOpt) (r : Fin n) (X : Spec F n t) (n_iter : ℕ) (ic : Bool)
    (kw : MaskAdmmKw F n t) (o : MaskAdmmObj F n t) :
    admmCall np rho relaxation (maskProx mask) penalty attr sr r X n_iter ic kw.lift o.lift
      = (maskingAdmmCall np rho relaxation mask penalty attr sr r X n_iter ic kw o).map MaskAdmmObj.lift := by
  obtain ⟨s0, hs0⟩ : ∃ s0 : (F → Mat n ℂ) × (F → Mat n ℂ) × Spec F n t × (F → Mat n ℂ) × Spec F n t,
    s0 = (keep (fun _ => 1) kw.demix o.demix, keep (fun _ => 0) kw.auxiliary1 o.auxiliary1,
      keep (fun _ => 0) kw.auxiliary2 o.auxiliary2, keep (fun _ => 0) kw.dual1 o.dual1, keep (fun _ => 0) kw.dual2 o.dual2) :=
    ⟨_, rfl⟩
  have h := proxIterate_map attr (loss' := fun s : AdmmState F n t 1 => computeLoss penalty X s.W)
    (update' := admmStep np rho relaxation (maskProx mask) X)
    (loss := fun s => computeLoss penalty X s.1) (update := maskingAdmmStep np rho relaxation mask X)
    (fun s => (⟨s.1, s.2.1, fun _ => s.2.2.1, s.2.2.2.1, fun _ => s.2.2.2.2⟩ : AdmmState F n t 1)) (by
      rintro ⟨W, V, V', Y, Y'⟩
      rw [C50_masking]
      change admmStep np rho relaxation (maskProx mask) X ⟨W, V, fun _ => V', Y, fun _ => Y'⟩ = _
      cases he : admmStep np rho relaxation (maskProx mask) X ⟨W, V, fun _ => V', Y, fun _ => Y'⟩ with
      | error e =>
        have : admmStep np rho relaxation (fun _ : Fin 1 => fun Z _ f => Matrix.of fun k j => (mask Z f k j : ℂ) * Z f k j) X
          ⟨W, V, fun _ => V', Y, fun _ => Y'⟩ = .error e := he
        rw [this]
        rfl
      | ok s =>
        have : admmStep np rho relaxation (fun _ : Fin 1 => fun Z _ f => Matrix.of fun k j => (mask Z f k j : ℂ) * Z f k j) X
          ⟨W, V, fun _ => V', Y, fun _ => Y'⟩ = .ok s := he
        rw [this]
        simp only [Except.map, const_dual]) (fun _ => rfl) n_iter ic s0 o.loss
  have hreset : admmReset kw.lift o.lift = ⟨s0.1, s0.2.1, fun _ => s0.2.2.1, s0.2.2.2.1, fun _ => s0.2.2.2.2⟩ := by
    simp only [admmReset, MaskAdmmKw.lift, MaskAdmmObj.lift, keep_lift, hs0]
  simp only [admmCall, maskingAdmmCall, hreset, bind, ← hs0]
  rw [show o.lift.loss = o.loss from rfl, h]
  cases proxIterate attr (fun s => computeLoss penalty X s.1) (maskingAdmmStep np rho relaxation mask X) n_iter ic s0 o.loss with
  | error e => rfl
  | ok p =>
    simp only [Except.map, Except.bind]
    cases finish sr r X p.1.1 <;> rfl

/-! ## Scale restoration and resumed PDS runs -/

/-- The step of the scalar example below. -/
noncomputable def grow (w : ℝ) : ℝ := (w + Real.sqrt (w ^ 2 + 4)) / 2

theorem grow_spec (w : ℝ) : (grow w - w) * grow w = 1 ∧ 0 < grow w ∧ w < grow w := by
  have h := Real.sq_sqrt (show (0 : ℝ) ≤ w ^ 2 + 4 by positivity)
  have h2 : |w| < Real.sqrt (w ^ 2 + 4) := by
    rw [← Real.sqrt_sq_eq_abs]
    exact Real.sqrt_lt_sqrt (sq_nonneg w) (by linarith)
  have h3 := abs_lt.mp h2
  refine ⟨?_, ?_, ?_⟩ <;> unfold grow
  · nlinarith
  · linarith [h3.1]
  · linarith [h3.2]

theorem exStep (np : Numpy ℂ) (X : Spec Unit 1 1) {w : ℝ} (hw : 0 < w) :
    pdsStep np 1 1 1 (fun (_ : Fin 1) Z _ => Z) X ⟨fun _ => (w : ℂ) • 1, fun _ _ => 0⟩
      = .ok ⟨fun _ => (grow w : ℂ) • 1, fun _ _ => 0⟩ := by
  obtain ⟨g1, g2, g3⟩ := grow_spec w
  have hn : Linalg.neg_logdet np 1 ((w : ℂ) • (1 : Mat 1 ℂ)) = .ok ((grow w : ℂ) • 1) := by
    refine neg_logdet_eq np one_pos ?_ ?_
    · rw [← sub_smul, conjTranspose_smul, conjTranspose_one, Matrix.smul_mul, Matrix.mul_smul, Matrix.mul_one, smul_smul,
        Complex.star_def, Complex.conj_ofReal]
      congr 1
      exact_mod_cast g1
    · rw [conjTranspose_smul, conjTranspose_one, Matrix.smul_mul, Matrix.mul_smul, Matrix.mul_one, smul_smul,
        Complex.star_def, Complex.conj_ofReal, ← sub_smul, ← Complex.ofReal_mul, ← Complex.ofReal_sub]
      refine Tr.smul_posDef PosDef.one ?_
      nlinarith
  obtain ⟨P, hP, e⟩ := pdsStep_ok np one_pos 1 1 (fun (_ : Fin 1) Z _ => Z) X
    (⟨fun _ => (w : ℂ) • 1, fun _ _ => 0⟩ : PdsState Unit 1 1 1)
  have hPe : P = fun _ => (grow w : ℂ) • 1 := by
    funext f
    have := hP f
    simp only [Finset.sum_const_zero, Matrix.zero_mul, smul_zero, sub_zero, hn] at this
    exact (Except.ok.inj this).symm
  rw [e, hPe]
  simp

theorem exFinish (X : Spec Unit 1 1) {w : ℝ} (hw : 0 < w) :
    finish (.bool true) 0 X (fun _ => (w : ℂ) • 1) = .ok (X, fun _ => 1) := by
  have hw0 : (w : ℂ) ≠ 0 := by exact_mod_cast hw.ne'
  have hu : ∀ _ : Unit, IsUnit ((w : ℂ) • (1 : Mat 1 ℂ)).det := fun _ => by
    rw [det_smul, det_one, mul_one]
    exact (isUnit_iff_ne_zero.mpr hw0).pow _
  obtain ⟨ht, hr⟩ := restore_pb (sr := .bool true) (Or.inl rfl) (applyProjectionBack 0 X fun _ => (w : ℂ) • 1)
    (applyMdp 0 X fun _ => (w : ℂ) • 1)
  have hinv : ((w : ℂ) • (1 : Mat 1 ℂ))⁻¹ = (w : ℂ)⁻¹ • 1 := inv_eq_right_inv (by
    rw [Matrix.smul_mul, Matrix.mul_smul, Matrix.mul_one, smul_smul, mul_inv_cancel₀ hw0, one_smul])
  have hV : (fun _ : Unit => Matrix.of fun i j => ((w : ℂ) • (1 : Mat 1 ℂ)) i j * ((w : ℂ) • (1 : Mat 1 ℂ))⁻¹ 0 i) = fun _ => 1 := by
    funext _
    ext i j
    rw [Subsingleton.elim i 0, Subsingleton.elim j 0, hinv]
    simp [hw0]
  have hone : separate X (fun _ => 1) = X := by funext f; simp [separate]
  rw [finish_eq, if_pos ht, hr, applyProjectionBack, pb_ok hu, hV]
  simp only [bind, Except.bind, hone]

/-- C90: **finding.** With scale restoration (the default) `PDSBSS` does not resume: for every one-channel recording, two calls
with one iteration each record other losses than one call with two iterations. -/
theorem C90_pds_rescaled (np : Numpy ℂ) (X : Spec Unit 1 1) :
    ∃ o₁ o₂ o : PdsObj Unit 1 1 1,
      pdsCall np 1 1 1 (fun _ Z _ => Z) (.list [fun _ => 0]) (some true) (.bool true) 0 X 1 true {} (PdsObj.fresh (some true))
        = .ok o₁ ∧
      pdsCall np 1 1 1 (fun _ Z _ => Z) (.list [fun _ => 0]) (some true) (.bool true) 0 X 1 false {} o₁ = .ok o₂ ∧
      pdsCall np 1 1 1 (fun _ Z _ => Z) (.list [fun _ => 0]) (some true) (.bool true) 0 X 2 true {} (PdsObj.fresh (some true))
        = .ok o ∧
      o₂.loss ≠ o.loss := by
  have h1 : (fun _ : Unit => (1 : Mat 1 ℂ)) = fun _ => ((1 : ℝ) : ℂ) • 1 := by funext; simp
  obtain ⟨-, g2, -⟩ := grow_spec 1
  obtain ⟨-, k2, k3⟩ := grow_spec (grow 1)
  have e1 := exStep np X one_pos
  have e2 := exStep np X g2
  have f1 := exFinish X g2
  have f2 := exFinish X k2
  rw [← h1] at e1
  refine ⟨⟨some fun _ => 1, some fun _ _ => 0, some X, some [- Real.log 1, - Real.log (grow 1)]⟩,
    ⟨some fun _ => 1, some fun _ _ => 0, some X, some [- Real.log 1, - Real.log (grow 1), - Real.log (grow 1)]⟩,
    ⟨some fun _ => 1, some fun _ _ => 0, some X, some [- Real.log 1, - Real.log (grow 1), - Real.log (grow (grow 1))]⟩,
    ?_, ?_, ?_, ?_⟩
  · simp [-Complex.coe_smul, pdsCall, proxIterate, proxLoop, pdsReset, keep, PdsObj.fresh, recordPoint, computeLoss, e1, f1, bind, Except.bind,
      abs_of_pos g2]
  · simp [-Complex.coe_smul, pdsCall, proxIterate, proxLoop, pdsReset, keep, recordPoint, computeLoss, e1, f1, bind, Except.bind, abs_of_pos g2]
  · simp [-Complex.coe_smul, pdsCall, proxIterate, proxLoop, pdsReset, keep, PdsObj.fresh, recordPoint, computeLoss, e1, e2, f2, bind, Except.bind,
      abs_of_pos g2, abs_of_pos k2]
  · simp only [ne_eq, Option.some.injEq, List.cons.injEq, and_true, true_and, neg_inj]
    intro h
    exact absurd (Real.log_injOn_pos g2 k2 h) k3.ne

/-! ## The hypotheses can be met -/

/-- PDSIVA with its defaults returns, on a silent recording as well. -/
example (np : Numpy ℂ) : ∃ o, pdsCall (q := 1) np 1 1 1 (fun _ => ivaProx (b := 3)) (.list [ivaPenalty]) (some true) (.bool true) (0 : Fin 2)
    (fun _ => (0 : Matrix (Fin 2) (Fin 5) ℂ)) 100 true {} (PdsObj.fresh (some true)) = .ok o := by
  obtain ⟨W, d, l, h, -⟩ := C90_pds_returns (q := 1) np 1 1 (fun _ => ivaProx (b := 3)) (.list [ivaPenalty]) (some true)
    (sr := .bool true) (0 : Fin 2) (fun _ => (0 : Matrix (Fin 2) (Fin 5) ℂ)) one_pos (fun _ => ⟨_, rfl⟩) (Or.inl rfl) 100
    (by norm_num) true {} (PdsObj.fresh (some true))
  exact ⟨_, h⟩

theorem ivaProx_zero {b : ℕ} (step : ℝ) : ivaProx (b := b) (n := n) (t := t) (fun _ => 0) step = fun _ => 0 := by
  funext f
  ext k j
  simp [ivaProx, Linalg.l21]

/-- ADMMIVA with its defaults raises with one iteration and returns with two; resuming after two iterations is possible. -/
example (np : Numpy ℂ) (X : Spec (Fin 3) 2 5) :
    admmCall (q := 1) np 1 1 (fun _ => ivaProx) (.list [ivaPenalty]) (some true) (.bool true) 0 X 1 true {}
      (AdmmObj.fresh (some true)) = .error .linalg ∧
    ∃ o, admmCall (q := 1) np 1 1 (fun _ => ivaProx) (.list [ivaPenalty]) (some true) (.bool true) 0 X 2 true {}
      (AdmmObj.fresh (some true)) = .ok o ∧
      ∀ k, k ≠ 0 → admmCall np 1 1 (fun _ => ivaProx) (.list [ivaPenalty]) (some true) (.bool true) 0 X k false {} o
        = admmCall np 1 1 (fun _ => ivaProx) (.list [ivaPenalty]) (some true) (.bool true) 0 X (2 + k) true {}
          (AdmmObj.fresh (some true)) := by
  refine ⟨(C90_admm_first np 1 (fun _ => ivaProx) (.list [ivaPenalty]) (some true) (.bool true) 0 X one_pos
    (fun _ => ⟨_, rfl⟩) true none).2 (Or.inl rfl), ?_⟩
  obtain ⟨o, h, -⟩ := C90_admm_two (q := 1) np 1 (fun _ => ivaProx) (.list [ivaPenalty]) (some true) (.bool true) 0 X one_pos
    (fun _ => ⟨_, rfl⟩) (fun _ => ivaProx_zero _) (Or.inl rfl) true none
  exact ⟨o, h, fun k hk => C90_admm_resume np 1 1 _ _ _ _ 0 X 2 k hk true {} _ o h⟩

end Verif.ProxBss
