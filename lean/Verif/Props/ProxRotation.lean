import Verif.Props.SourceOrder
import Verif.Props.ProxConfig
import Verif.Props.EigFree
import Verif.Model.Hva

/-!
# C99: rotating the channels and renumbering the sources of the proximal methods

`P f` acts on the sources and `Q f` on the channels of bin `f`; both are unitary. The results are for runs in which
`prox.neg_logdet` is only applied to invertible matrices; by C79 its value depends on LAPACK otherwise. The two runs may use
different correct LAPACKs.
-/

namespace Verif.ProxRotation

open Matrix Scale ProxBss
open Lifecycle (finish ScaleOpt)
open _root_.Verif.Spatial (onBins onBins_map onBins_ok npSolve)
open SourceOrder (permX perm C97_finish)
open _root_.Verif.EigFree (svd_unique C79_neg_logdet)

variable {F : Type} [Fintype F] {n t q : ℕ}

/-- Unitary matrices in all bins. -/
def Rot (P : F → Mat n ℂ) : Prop := ∀ f, (P f)ᴴ * P f = 1

/-- The signals in other coordinates. -/
def rotX (P : F → Mat n ℂ) (X : Spec F n t) : Spec F n t := fun f => P f * X f

/-- The filters for sources in the coordinates `P` and channels in the coordinates `Q`. -/
def rotW (P Q : F → Mat n ℂ) (W : F → Mat n ℂ) : F → Mat n ℂ := fun f => P f * W f * (Q f)ᴴ

section algebra

variable {P Q : Mat n ℂ}

theorem neg_logdet_rot (np np' : Numpy ℂ) (hP : Pᴴ * P = 1) (hQ : Qᴴ * Q = 1) (s : ℝ) {A : Mat n ℂ} (hA : IsUnit A.det) :
    Linalg.neg_logdet np' s (P * A * Qᴴ) = Except.map (fun B => P * B * Qᴴ) (Linalg.neg_logdet np s A) := by
  have h := np.svd_spec A
  have h' := np'.svd_spec (P * A * Qᴴ)
  have h2 : SvdSpec (P * A * Qᴴ) (P * (np.svd A).1) (np.svd A).2.1 ((np.svd A).2.2 * Qᴴ) := by
    refine ⟨?_, ?_, ?_, h.nonneg, h.sorted⟩
    · rw [conjTranspose_mul, Matrix.mul_assoc, ← Matrix.mul_assoc Pᴴ, hP, Matrix.one_mul, h.unitaryU]
    · rw [conjTranspose_mul, conjTranspose_conjTranspose, Matrix.mul_assoc, ← Matrix.mul_assoc Qᴴ, hQ, Matrix.one_mul,
        h.unitaryV]
    · conv_lhs => rw [h.decomp]
      simp only [Matrix.mul_assoc]
  have hd : IsUnit (P * A * Qᴴ).det := by
    have hP' : IsUnit P.det := (isUnit_iff_isUnit_det _).mp (IsUnit.of_mul_eq_one Pᴴ (mul_eq_one_comm.mp hP))
    have hQ' : IsUnit Qᴴ.det := (isUnit_iff_isUnit_det _).mp (IsUnit.of_mul_eq_one Q hQ)
    rw [det_mul, det_mul]
    exact (hP'.mul hA).mul hQ'
  simp only [Linalg.neg_logdet, Linalg.neg_log, if_pos h.nonneg, if_pos h'.nonneg, ge_iff_le, Bind.bind, Except.bind, Except.map]
  rw [svd_unique h' h2 hd fun x => Linalg.negLogElem s x]
  simp only [Matrix.mul_assoc]

theorem norm_det_rot (hP : Pᴴ * P = 1) : ‖P.det‖ = 1 := by
  have h := congrArg det hP
  rw [det_mul, det_conjTranspose, det_one] at h
  have h' : ‖P.det‖ * ‖P.det‖ = 1 := by
    have := congrArg norm h
    rwa [norm_mul, norm_star, norm_one] at this
  nlinarith [norm_nonneg P.det]

end algebra

variable {P Q : F → Mat n ℂ}

omit [Fintype F] in
theorem separate_rot (hQ : Rot Q) (X : Spec F n t) (W : F → Mat n ℂ) :
    separate (rotX Q X) (rotW P Q W) = rotX P (separate X W) := by
  funext f
  change P f * W f * (Q f)ᴴ * (Q f * X f) = P f * (W f * X f)
  rw [Matrix.mul_assoc, ← Matrix.mul_assoc (Q f)ᴴ, hQ f, Matrix.one_mul, Matrix.mul_assoc]

/-- The penalties do not see the coordinates `P` of the sources. -/
def PenaltyInv (P : F → Mat n ℂ) : Penalty F n t → Prop
  | .list ps => ∀ p ∈ ps, ∀ Y, p (rotX P Y) = p Y
  | _ => True

theorem computeLoss_rot (hP : Rot P) (hQ : Rot Q) {penalty : Penalty F n t} (hp : PenaltyInv P penalty) (X : Spec F n t)
    (W : F → Mat n ℂ) : computeLoss penalty (rotX Q X) (rotW P Q W) = computeLoss penalty X W := by
  cases penalty with
  | none => rfl
  | fn p => rfl
  | list ps =>
    have hd : ∀ f, ‖(rotW P Q W f).det‖ = ‖(W f).det‖ := fun f => by
      rw [rotW, det_mul, det_mul, det_conjTranspose, norm_mul, norm_mul, norm_star, norm_det_rot (hP f), norm_det_rot (hQ f),
        one_mul, mul_one]
    have hs : (ps.map fun p => p (rotX P (separate X W))) = ps.map fun p => p (separate X W) :=
      List.map_congr_left fun p h => hp p h _
    simp only [computeLoss, foldl_penalty, separate_rot hQ, hd, hs]

/-- A run in other coordinates, as long as it stays where the change of coordinates commutes with the steps. -/
theorem proxIterate_map_reg {σ τ : Type} (attr : Option Bool) {loss : σ → Except PyErr ℝ} {update : σ → Except PyErr σ}
    {loss' : τ → Except PyErr ℝ} {update' : τ → Except PyErr τ} {Reg : σ → Prop} (g : σ → τ)
    (hu : ∀ s, Reg s → update' (g s) = (update s).map g) (hl : ∀ s, loss' (g s) = loss s) (n_iter : ℕ) (ic : Bool) (s : σ)
    (hreg : RegularRun update Reg n_iter s) (l : Option (List ℝ)) :
    proxIterate attr loss' update' n_iter ic (g s) l
      = (proxIterate attr loss update n_iter ic s l).map fun p => (g p.1, p.2) := by
  have hr : ∀ s l, recordPoint attr loss' (g s) l = recordPoint attr loss s l := fun s l => by
    simp only [recordPoint, hl]
  have key : ∀ k s l, RegularRun update Reg k s → proxLoop attr loss' update' k (g s) l
      = (proxLoop attr loss update k s l).map fun p => (g p.1, p.2) := by
    intro k
    induction k with
    | zero => exact fun s l _ => rfl
    | succ k ih =>
      intro s l h
      simp only [proxLoop, hu s h.1, bind, Except.bind]
      have h2 := h.2
      cases hs : update s with
      | error e => rfl
      | ok s' =>
        simp only [Except.map, hr]
        cases recordPoint attr loss s' l with
        | error e => rfl
        | ok l' => exact ih s' l' (h2 s' hs)
  cases ic with
  | false => exact key n_iter s l hreg
  | true =>
    simp only [proxIterate, hr, bind, Except.bind, if_true]
    cases recordPoint attr loss s l with
    | error e => rfl
    | ok l' => exact key n_iter s l' hreg

/-! ## PDSBSS -/

/-- The attributes in other coordinates. -/
def rotS (P Q : F → Mat n ℂ) (s : PdsState F n t q) : PdsState F n t q := ⟨rotW P Q s.W, fun i => rotX P (s.dual i)⟩

/-- The objects in other coordinates. -/
def rotO (P Q : F → Mat n ℂ) (o : PdsObj F n t q) : PdsObj F n t q :=
  ⟨o.demix.map (rotW P Q), o.dual.map fun d i => rotX P (d i), o.output.map (rotX P), o.loss⟩

/-- The keyword arguments in other coordinates. -/
def rotKw (P Q : F → Mat n ℂ) (kw : PdsKw F n t q) : PdsKw F n t q :=
  ⟨kw.demix.map (rotW P Q), kw.dual.map fun d i => rotX P (d i)⟩

/-- The matrix an iteration of `PDSBSS` applies `prox.neg_logdet` to is invertible in every bin. -/
def RegPds (mu1 mu2 : ℝ) (X : Spec F n t) (s : PdsState F n t q) : Prop :=
  ∀ f, IsUnit (s.W f - ((mu1 * mu2 : ℝ) : ℂ) • ((∑ i, s.dual i f) * (X f)ᴴ)).det

omit [Fintype F] in
theorem pdsStep_rot (np np' : Numpy ℂ) (hP : Rot P) (hQ : Rot Q) (mu1 mu2 alpha : ℝ)
    {prox : Fin q → Spec F n t → ℝ → Spec F n t} (hprox : ∀ i Y c, prox i (rotX P Y) c = rotX P (prox i Y c)) (X : Spec F n t)
    (s : PdsState F n t q) (hs : RegPds mu1 mu2 X s) :
    pdsStep np' mu1 mu2 alpha prox (rotX Q X) (rotS P Q s) = (pdsStep np mu1 mu2 alpha prox X s).map (rotS P Q) := by
  have e : (fun f => (rotS P Q s).W f - ((mu1 * mu2 : ℝ) : ℂ) • ((∑ i, (rotS P Q s).dual i f) * (rotX Q X f)ᴴ))
      = fun f => P f * (s.W f - ((mu1 * mu2 : ℝ) : ℂ) • ((∑ i, s.dual i f) * (X f)ᴴ)) * (Q f)ᴴ := by
    funext f
    simp only [rotS, rotX, rotW]
    rw [← Matrix.mul_sum, conjTranspose_mul, Matrix.mul_sub, Matrix.sub_mul, Matrix.mul_smul, Matrix.smul_mul]
    simp only [Matrix.mul_assoc]
  have e2 : negLogdetStack np' mu1 (fun f => (rotS P Q s).W f
        - ((mu1 * mu2 : ℝ) : ℂ) • ((∑ i, (rotS P Q s).dual i f) * (rotX Q X f)ᴴ))
      = (negLogdetStack np mu1 fun f => s.W f - ((mu1 * mu2 : ℝ) : ℂ) • ((∑ i, s.dual i f) * (X f)ᴴ)).map (rotW P Q) := by
    rw [e, negLogdetStack, negLogdetStack]
    simp only [fun f => neg_logdet_rot np np' (hP f) (hQ f) mu1 (hs f)]
    exact onBins_map _ fun f B => P f * B * (Q f)ᴴ
  change (negLogdetStack np' mu1 _ >>= _) = Except.map _ (negLogdetStack np mu1 _ >>= _)
  rw [e2, bind_map, map_bind]
  congr 1
  funext Wt
  have e3 : (fun f => (2 : ℂ) • rotW P Q Wt f - (rotS P Q s).W f) = rotW P Q fun f => (2 : ℂ) • Wt f - s.W f := by
    funext f
    simp only [rotS, rotW]
    rw [Matrix.mul_sub, Matrix.sub_mul, Matrix.mul_smul, Matrix.smul_mul]
  have e4 : ∀ i, (fun f => (rotS P Q s).dual i f + separate (rotX Q X) (fun f => (2 : ℂ) • rotW P Q Wt f - (rotS P Q s).W f) f)
      = rotX P fun f => s.dual i f + separate X (fun f => (2 : ℂ) • Wt f - s.W f) f := by
    intro i
    rw [e3, separate_rot hQ]
    funext f
    simp only [rotS, rotX]
    rw [Matrix.mul_add]
  refine congrArg Except.ok ?_
  simp only [rotS, PdsState.mk.injEq]
  constructor
  · funext f
    simp only [rotW]
    rw [Matrix.mul_add, Matrix.add_mul, Matrix.mul_smul, Matrix.smul_mul, Matrix.mul_smul, Matrix.smul_mul]
  · funext i f
    have e5 := e4 i
    simp only [rotS] at e5
    have e6 := congrFun e5 f
    simp only [e5, hprox]
    rw [e6]
    simp only [rotX]
    rw [← Matrix.mul_sub, ← Matrix.mul_smul, ← Matrix.mul_smul, ← Matrix.mul_add]

omit [Fintype F] in
/-- What a call starts from, in other coordinates. -/
theorem pdsReset_rot (hQ : Rot Q) (kw : PdsKw F n t q) (o : PdsObj F n t q) (h0 : kw.demix = none → o.demix = none → P = Q) :
    pdsReset (rotKw P Q kw) (rotO P Q o) = rotS P Q (pdsReset kw o) := by
  obtain ⟨kw1, kw2⟩ := kw
  obtain ⟨o1, o2, o3, o4⟩ := o
  simp only [pdsReset, rotKw, rotO, rotS, PdsState.mk.injEq]
  constructor
  · cases kw1 with
    | some W => rfl
    | none =>
      cases o1 with
      | some W => rfl
      | none =>
        obtain rfl := h0 rfl rfl
        funext f
        simp only [keep, Option.map_none, Option.getD_none, rotW, Matrix.mul_one]
        exact (mul_eq_one_comm.mp (hQ f)).symm
  · cases kw2 with
    | some W => rfl
    | none =>
      cases o2 with
      | some W => rfl
      | none =>
        funext i f
        simp only [keep, Option.map_none, Option.getD_none, rotX, Matrix.mul_zero]

/-- C99: `PDSBSS` on other coordinates of the channels (and of the sources, if penalties and proximal operators do not see
them) with the initial filter in the same coordinates, for any end of the call that commutes with the change of
coordinates. -/
theorem C99_pds_call (np np' : Numpy ℂ) (hP : Rot P) (hQ : Rot Q) (mu1 mu2 relaxation : ℝ)
    {prox : Fin q → Spec F n t → ℝ → Spec F n t} (hprox : ∀ i Y c, prox i (rotX P Y) c = rotX P (prox i Y c))
    {penalty : Penalty F n t} (hpen : PenaltyInv P penalty) (attr : Option Bool) {sr : ScaleOpt} {r r' : Fin n} {X : Spec F n t}
    (hfin : ∀ W, finish sr r' (rotX Q X) (rotW P Q W) = (finish sr r X W).map fun p => (rotX P p.1, rotW P Q p.2)) (n_iter : ℕ)
    (ic : Bool) (kw : PdsKw F n t q) (o : PdsObj F n t q) (h0 : kw.demix = none → o.demix = none → P = Q)
    (hreg : RegularRun (pdsStep np mu1 mu2 relaxation prox X) (RegPds mu1 mu2 X) n_iter (pdsReset kw o)) :
    pdsCall np' mu1 mu2 relaxation prox penalty attr sr r' (rotX Q X) n_iter ic (rotKw P Q kw) (rotO P Q o)
      = (pdsCall np mu1 mu2 relaxation prox penalty attr sr r X n_iter ic kw o).map (rotO P Q) := by
  have h := proxIterate_map_reg attr (loss := fun s : PdsState F n t q => computeLoss penalty X s.W)
    (loss' := fun s : PdsState F n t q => computeLoss penalty (rotX Q X) s.W) (rotS P Q)
    (pdsStep_rot np np' hP hQ mu1 mu2 relaxation hprox X) (fun s => computeLoss_rot hP hQ hpen X s.W) n_iter ic _ hreg o.loss
  simp only [pdsCall]
  rw [pdsReset_rot hQ kw o h0]
  change (proxIterate attr _ _ n_iter ic _ o.loss >>= _) = Except.map _ (proxIterate attr _ _ n_iter ic _ o.loss >>= _)
  rw [h, bind_map, map_bind]
  congr 1
  funext p
  change (finish sr r' (rotX Q X) (rotW P Q p.1.W) >>= _) = Except.map _ (finish sr r X p.1.W >>= _)
  rw [hfin, bind_map, map_bind]
  rfl

/-- **C99.** Without scale restoration, `PDSBSS` does not see rotations of the channels: on the recording `Q X`, started from
the filter `W Qᴴ`, it returns the same outputs, the same losses and the filter `W' Qᴴ`, or raises the same exception. -/
theorem C99_pds_rotation (np np' : Numpy ℂ) (hQ : Rot Q) (mu1 mu2 relaxation : ℝ)
    (prox : Fin q → Spec F n t → ℝ → Spec F n t) (ps : List (Spec F n t → ℝ)) (attr : Option Bool) {sr : ScaleOpt}
    (hsr : Lifecycle.AsksNone sr) (r r' : Fin n) (X : Spec F n t) (n_iter : ℕ) (ic : Bool) (W : F → Mat n ℂ)
    (o : PdsObj F n t q)
    (hreg : RegularRun (pdsStep np mu1 mu2 relaxation prox X) (RegPds mu1 mu2 X) n_iter (pdsReset { demix := some W } o)) :
    pdsCall np' mu1 mu2 relaxation prox (.list ps) attr sr r' (fun f => Q f * X f) n_iter ic
        { demix := some fun f => W f * (Q f)ᴴ } o
      = (pdsCall np mu1 mu2 relaxation prox (.list ps) attr sr r X n_iter ic { demix := some W } o).map fun o =>
          { o with demix := o.demix.map fun W f => W f * (Q f)ᴴ } := by
  have h1 : ∀ Y : Spec F n t, rotX (fun _ => (1 : Mat n ℂ)) Y = Y := fun Y => by
    funext f
    exact Matrix.one_mul _
  have h2 : rotW (fun _ => (1 : Mat n ℂ)) Q = fun W f => W f * (Q f)ᴴ := by
    funext W f
    rw [rotW, Matrix.one_mul]
  have hone : Rot (fun _ : F => (1 : Mat n ℂ)) := fun f => by simp
  have h := C99_pds_call (P := fun _ => 1) np np' hone hQ mu1 mu2 relaxation (prox := prox)
    (fun i Y c => by rw [h1, h1]) (penalty := .list ps) (fun p _ Y => by rw [h1]) attr (sr := sr) (r := r) (r' := r') (X := X)
    (fun W => by
      rw [ProxBss.finish_none hsr, ProxBss.finish_none hsr, separate_rot hQ]
      rfl) n_iter ic { demix := some W } o (by simp) hreg
  have h3 : ∀ d : Fin q → Spec F n t, (fun i => rotX (fun _ => (1 : Mat n ℂ)) (d i)) = d := fun d => funext fun i => h1 _
  have h4 : ∀ o : PdsObj F n t q, rotO (fun _ => 1) Q o = { o with demix := o.demix.map fun W f => W f * (Q f)ᴴ } := by
    rintro ⟨o1, o2, o3, o4⟩
    simp only [rotO, h2, PdsObj.mk.injEq, true_and, and_true]
    constructor
    · cases o2 with
      | none => rfl
      | some d => exact congrArg some (h3 d)
    · cases o3 with
      | none => rfl
      | some y => exact congrArg some (h1 y)
  have h5 : rotO (fun _ => (1 : Mat n ℂ)) Q = fun o : PdsObj F n t q =>
    { o with demix := o.demix.map fun W f => W f * (Q f)ᴴ } := funext h4
  rw [h5] at h
  rw [← h]
  simp only [rotKw, h2, Option.map_some, Option.map_none]
  rfl

/-! ### Permutations -/

/-- The permutation matrices of `σ`. -/
def pm (σ : F → Equiv.Perm (Fin n)) : F → Mat n ℂ := fun f => (1 : Mat n ℂ).submatrix (σ f) id

omit [Fintype F] in
theorem rot_pm (σ : F → Equiv.Perm (Fin n)) : Rot (pm σ) := by
  intro f
  rw [pm, conjTranspose_submatrix, conjTranspose_one, submatrix_mul_equiv, Matrix.one_mul, submatrix_id_id]

omit [Fintype F] in
theorem rotX_pm (σ : F → Equiv.Perm (Fin n)) : rotX (t := t) (pm σ) = permX σ := by
  funext X f
  ext i j
  simp [rotX, pm, permX, Matrix.mul_apply, Matrix.one_apply]

omit [Fintype F] in
theorem rotW_pm (σ τ : F → Equiv.Perm (Fin n)) : rotW (pm σ) (pm τ) = perm σ τ := by
  funext W f
  ext i j
  simp [rotW, pm, perm, Matrix.mul_apply, Matrix.one_apply]

/-- The object with channels and sources renumbered. -/
def permPds (σ τ : F → Equiv.Perm (Fin n)) (o : PdsObj F n t q) : PdsObj F n t q :=
  ⟨o.demix.map (perm σ τ), o.dual.map fun d i => permX σ (d i), o.output.map (permX σ), o.loss⟩

omit [Fintype F] in
theorem rotO_pm (σ τ : F → Equiv.Perm (Fin n)) : rotO (t := t) (q := q) (pm σ) (pm τ) = permPds σ τ := by
  funext o
  simp only [rotO, permPds, rotX_pm, rotW_pm]

/-- **C99.** `PDSBSS` with any scale restoration: renumbering the microphones (with the reference) renumbers the outputs and
nothing else changes, for penalties and proximal operators that do not depend on the numbering of the sources. Here the
numbering may differ between bins. -/
theorem C99_pds_renumber (np np' : Numpy ℂ) (σ : F → Equiv.Perm (Fin n)) (mu1 mu2 relaxation : ℝ)
    {prox : Fin q → Spec F n t → ℝ → Spec F n t} (hprox : ∀ i Y c, prox i (permX σ Y) c = permX σ (prox i Y c))
    {ps : List (Spec F n t → ℝ)} (hpen : ∀ p ∈ ps, ∀ Y, p (permX σ Y) = p Y) (attr : Option Bool) (sr : ScaleOpt)
    {r r' : Fin n} (hr : ∀ f, σ f r' = r) (X : Spec F n t) (n_iter : ℕ) (ic : Bool) (o : PdsObj F n t q)
    (hreg : RegularRun (pdsStep np mu1 mu2 relaxation prox X) (RegPds mu1 mu2 X) n_iter (pdsReset {} o)) :
    pdsCall np' mu1 mu2 relaxation prox (.list ps) attr sr r' (permX σ X) n_iter ic {} (permPds σ σ o)
      = (pdsCall np mu1 mu2 relaxation prox (.list ps) attr sr r X n_iter ic {} o).map (permPds σ σ) := by
  have h := C99_pds_call np np' (rot_pm σ) (rot_pm σ) mu1 mu2 relaxation (prox := prox) (by simpa only [rotX_pm] using hprox)
    (penalty := .list ps) (by simpa only [PenaltyInv, rotX_pm] using hpen) attr (sr := sr) (r := r) (r' := r') (X := X)
    (by simpa only [rotX_pm, rotW_pm] using C97_finish σ σ sr hr X) n_iter ic {} o (fun _ _ => rfl) hreg
  rw [rotX_pm, rotO_pm] at h
  exact h

section iva

variable {b : ℕ}

theorem ivaProx_perm (σ : Equiv.Perm (Fin n)) (Y : Spec (Fin b) n t) (c : ℝ) :
    ivaProx (permX (fun _ => σ) Y) c = permX (fun _ => σ) (ivaProx Y c) := rfl

theorem ivaPenalty_perm (σ : Equiv.Perm (Fin n)) (Y : Spec (Fin b) n t) :
    ivaPenalty (permX (fun _ => σ) Y) = ivaPenalty Y :=
  Equiv.sum_comp σ fun k => ∑ j, Real.sqrt (∑ f, ‖Y f k j‖ ^ 2)

/-- C99: `PDSIVA` with its default penalty and any scale restoration: renumbering the microphones renumbers the outputs. -/
theorem C99_pds_iva (np np' : Numpy ℂ) (σ : Equiv.Perm (Fin n)) (mu1 mu2 relaxation : ℝ) (attr : Option Bool) (sr : ScaleOpt)
    {r r' : Fin n} (hr : σ r' = r) (X : Spec (Fin b) n t) (n_iter : ℕ) (ic : Bool)
    (hreg : RegularRun (pdsStep np mu1 mu2 relaxation (fun _ : Fin 1 => ivaProx) X) (RegPds mu1 mu2 X) n_iter
      (pdsReset {} (PdsObj.fresh attr))) :
    pdsCall (q := 1) np' mu1 mu2 relaxation (fun _ => ivaProx) (.list [ivaPenalty]) attr sr r'
        (fun f => (X f).submatrix σ id) n_iter ic {} (PdsObj.fresh attr)
      = (pdsCall (q := 1) np mu1 mu2 relaxation (fun _ => ivaProx) (.list [ivaPenalty]) attr sr r X n_iter ic {}
          (PdsObj.fresh attr)).map (permPds (fun _ => σ) fun _ => σ) :=
  C99_pds_renumber np np' (fun _ => σ) mu1 mu2 relaxation (fun _ => ivaProx_perm σ)
    (by simp only [List.mem_singleton, forall_eq]; exact ivaPenalty_perm σ) attr sr (fun _ => hr) X n_iter ic
    (PdsObj.fresh attr) hreg

end iva

/-- C99: `MaskingPDSBSS`, for masks that follow the numbering of the sources. -/
theorem C99_masking_pds (np np' : Numpy ℂ) (σ : F → Equiv.Perm (Fin n)) (mu1 mu2 relaxation : ℝ)
    {mask : Spec F n t → F → Matrix (Fin n) (Fin t) ℝ} (hmask : ∀ Y f, mask (permX σ Y) f = (mask Y f).submatrix (σ f) id)
    (attr : Option Bool) (sr : ScaleOpt) {r r' : Fin n} (hr : ∀ f, σ f r' = r) (X : Spec F n t) (n_iter : ℕ) (ic : Bool)
    (hreg : RegularRun (pdsStep np mu1 mu2 relaxation (maskProx mask) X) (RegPds mu1 mu2 X) n_iter
      ⟨fun _ => 1, fun _ _ => 0⟩) :
    maskingPdsCall np' mu1 mu2 relaxation mask .none attr sr r' (permX σ X) n_iter ic {} ⟨none, none, none, none⟩
      = (maskingPdsCall np mu1 mu2 relaxation mask .none attr sr r X n_iter ic {} ⟨none, none, none, none⟩).map fun o =>
        ⟨o.demix.map (perm σ σ), o.dual.map (permX σ), o.output.map (permX σ), o.loss⟩ := by
  have hprox : ∀ i Y c, maskProx mask i (permX σ Y) c = permX σ (maskProx mask i Y c) := by
    intro i Y c
    funext f
    ext k j
    simp only [maskProx, hmask]
    rfl
  have h := C99_pds_call np np' (rot_pm σ) (rot_pm σ) mu1 mu2 relaxation (prox := maskProx mask)
    (by simpa only [rotX_pm] using hprox) (penalty := .none) trivial attr (sr := sr) (r := r) (r' := r') (X := X)
    (by simpa only [rotX_pm, rotW_pm] using C97_finish σ σ sr hr X) n_iter ic (MaskPdsKw.lift {})
    (MaskPdsObj.lift ⟨none, none, none, none⟩) (fun _ _ => rfl) hreg
  rw [rotX_pm, rotO_pm] at h
  have h1 := C90_masking_pds np mu1 mu2 relaxation mask .none attr sr r X n_iter ic {} ⟨none, none, none, none⟩
  have h2 := C90_masking_pds np' mu1 mu2 relaxation mask .none attr sr r' (permX σ X) n_iter ic {} ⟨none, none, none, none⟩
  rw [h1] at h
  have h3 := h2.symm.trans h
  have hinj : ∀ a b : MaskPdsObj F n t, a.lift = b.lift → a = b := by
    rintro ⟨a1, a2, a3, a4⟩ ⟨b1, b2, b3, b4⟩ hab
    simp only [MaskPdsObj.lift, PdsObj.mk.injEq] at hab
    obtain ⟨rfl, h2, rfl, rfl⟩ := hab
    congr 1
    cases a2 <;> cases b2 <;> simp_all
    exact congrFun h2 0
  revert h3
  cases maskingPdsCall np' mu1 mu2 relaxation mask .none attr sr r' (permX σ X) n_iter ic {} ⟨none, none, none, none⟩ with
  | error e =>
    cases maskingPdsCall np mu1 mu2 relaxation mask .none attr sr r X n_iter ic {} ⟨none, none, none, none⟩ with
    | error e' => exact fun h3 => by cases h3; rfl
    | ok o => exact fun h3 => by cases h3
  | ok o' =>
    cases maskingPdsCall np mu1 mu2 relaxation mask .none attr sr r X n_iter ic {} ⟨none, none, none, none⟩ with
    | error e' => exact fun h3 => by cases h3
    | ok o =>
      intro h3
      refine congrArg Except.ok (hinj _ _ ?_)
      refine (Except.ok.inj h3).trans ?_
      obtain ⟨o1, o2, o3, o4⟩ := o
      cases o2 <;> rfl

/-- C99: the mask of harmonic vector analysis follows the numbering of the sources. -/
theorem C99_hva_mask {m : ℕ} (floor : ℝ → ℝ) (mask_iter : ℕ) (attenuation : Option ℝ) (σ : Equiv.Perm (Fin n)) (Y : Spec (Fin m) n t) :
    Hva.maskFn floor mask_iter attenuation (fun f => (Y f).submatrix σ id)
      = (Hva.maskFn floor mask_iter attenuation Y).map fun p => (p.1, fun f => (p.2 f).submatrix σ id) := by
  simp only [Hva.maskFn]
  split
  · rfl
  · refine congrArg Except.ok (Prod.ext rfl ?_)
    funext f
    ext k j
    simp only [Matrix.of_apply, submatrix_apply, id]
    rw [Equiv.sum_comp σ fun l => Hva.envelope floor mask_iter (fun f => Y f l j) f]

/-! ## ADMMBSS

`ADMMBSS` multiplies the filters from the left by a matrix of the channels, so sources and channels have to be in the same
coordinates, and these have to be real. -/

/-- Real orthogonal matrices in all bins. -/
def RealRot (P : F → Mat n ℂ) : Prop := Rot P ∧ ∀ f, (P f).map star = P f

def rotA (P : F → Mat n ℂ) (s : AdmmState F n t q) : AdmmState F n t q :=
  ⟨rotW P P s.W, rotW P P s.V, fun i => rotX P (s.V_tilde i), rotW P P s.Y, fun i => rotX P (s.Y_tilde i)⟩

def rotAO (P : F → Mat n ℂ) (o : AdmmObj F n t q) : AdmmObj F n t q :=
  ⟨o.demix.map (rotW P P), o.auxiliary1.map (rotW P P), o.auxiliary2.map fun d i => rotX P (d i), o.dual1.map (rotW P P),
    o.dual2.map fun d i => rotX P (d i), o.output.map (rotX P), o.loss⟩

def rotAKw (P : F → Mat n ℂ) (o : AdmmKw F n t q) : AdmmKw F n t q :=
  ⟨o.demix.map (rotW P P), o.auxiliary1.map (rotW P P), o.auxiliary2.map fun d i => rotX P (d i), o.dual1.map (rotW P P),
    o.dual2.map fun d i => rotX P (d i)⟩

/-- The matrix an iteration of `ADMMBSS` applies `prox.neg_logdet` to is invertible or zero in every bin. It is zero in the
first iteration of a fresh object. -/
def RegAdmm (alpha : ℝ) (X : Spec F n t) (s : AdmmState F n t q) : Prop :=
  ∀ W, admmFilter X s = .ok W → ∀ f, IsUnit ((alpha : ℂ) • W f + ((1 - alpha : ℝ) : ℂ) • s.V f + s.Y f).det
    ∨ (alpha : ℂ) • W f + ((1 - alpha : ℝ) : ℂ) • s.V f + s.Y f = 0

/-- The singular vectors LAPACK returns for the zero matrix are each other's adjoints. -/
def ZeroSvd (np : Numpy ℂ) (n : ℕ) : Prop := (np.svd (0 : Mat n ℂ)).1 * (np.svd (0 : Mat n ℂ)).2.2 = 1

theorem npSolve_conj {P : Mat n ℂ} (hP : Pᴴ * P = 1) (A B : Mat n ℂ) :
    npSolve (P * A * Pᴴ) (P * B * Pᴴ) = (npSolve A B).map fun C => P * C * Pᴴ := by
  have hP' : P * Pᴴ = 1 := mul_eq_one_comm.mp hP
  have hd : (P * A * Pᴴ).det = A.det := by
    rw [det_mul_comm, ← Matrix.mul_assoc, hP, Matrix.one_mul]
  by_cases h : IsUnit A.det
  · have h' : IsUnit (P * A * Pᴴ).det := hd ▸ h
    have hi : (P * A * Pᴴ)⁻¹ = P * A⁻¹ * Pᴴ := by
      refine inv_eq_right_inv ?_
      calc P * A * Pᴴ * (P * A⁻¹ * Pᴴ) = P * (A * ((Pᴴ * P) * A⁻¹)) * Pᴴ := by simp only [Matrix.mul_assoc]
        _ = 1 := by rw [hP, Matrix.one_mul, mul_nonsing_inv _ h, Matrix.mul_one, hP']
    simp only [npSolve, if_pos h, if_pos h', Except.map, hi]
    congr 1
    calc P * A⁻¹ * Pᴴ * (P * B * Pᴴ) = P * (A⁻¹ * ((Pᴴ * P) * B)) * Pᴴ := by simp only [Matrix.mul_assoc]
      _ = P * (A⁻¹ * B) * Pᴴ := by rw [hP, Matrix.one_mul]
  · have h' : ¬ IsUnit (P * A * Pᴴ).det := hd ▸ h
    simp only [npSolve, if_neg h, if_neg h', Except.map]

theorem neg_logdet_zero (np np' : Numpy ℂ) (hz : ZeroSvd np n) (hz' : ZeroSvd np' n) {P : Mat n ℂ} (hP : Pᴴ * P = 1) (s : ℝ) :
    Linalg.neg_logdet np' s (0 : Mat n ℂ) = (Linalg.neg_logdet np s (0 : Mat n ℂ)).map fun C => P * C * Pᴴ := by
  have key : ∀ np : Numpy ℂ, ZeroSvd np n → Linalg.neg_logdet np s (0 : Mat n ℂ)
      = .ok (((Linalg.negLogElem s 0 : ℝ) : ℂ) • (1 : Mat n ℂ)) := by
    intro np hz
    have h := np.svd_spec (0 : Mat n ℂ)
    obtain ⟨U, S, V, hU⟩ : ∃ U S V, np.svd (0 : Mat n ℂ) = (U, S, V) := ⟨_, _, _, rfl⟩
    rw [ZeroSvd, hU] at hz
    rw [hU] at h
    have hs : ∀ i, S i = 0 := by
      intro i
      have h2 : Uᴴ * 0 * Vᴴ = diagonal fun i => ((S i : ℝ) : ℂ) := by
        conv_lhs => rw [h.decomp]
        rw [← Matrix.mul_assoc, ← Matrix.mul_assoc, h.unitaryU, Matrix.one_mul, Matrix.mul_assoc, h.unitaryV, Matrix.mul_one]
        rfl
      rw [Matrix.mul_zero, Matrix.zero_mul] at h2
      have h4 := congrFun (congrFun h2 i) i
      rw [diagonal_apply_eq] at h4
      exact Complex.ofReal_eq_zero.mp h4.symm
    simp only [Linalg.neg_logdet, Linalg.neg_log, hU, hs, ge_iff_le, le_refl, implies_true, if_true, Bind.bind, Except.bind]
    congr 1
    have e : npDiag (fun _ : Fin n => Linalg.negLogElem s 0) = ((Linalg.negLogElem s 0 : ℝ) : ℂ) • (1 : Mat n ℂ) := by
      ext i j
      by_cases hij : i = j
      · subst hij
        simp [npDiag]
      · simp [npDiag, hij]
    rw [e, Matrix.mul_smul, Matrix.smul_mul, Matrix.mul_one]
    exact congrArg _ hz
  rw [key np hz, key np' hz', Except.map, Matrix.mul_smul, Matrix.smul_mul, Matrix.mul_one, mul_eq_one_comm.mp hP]

theorem neg_logdet_admm (np np' : Numpy ℂ) (hz : ZeroSvd np n) (hz' : ZeroSvd np' n) {P : Mat n ℂ} (hP : Pᴴ * P = 1) (s : ℝ)
    {A : Mat n ℂ} (hA : IsUnit A.det ∨ A = 0) :
    Linalg.neg_logdet np' s (P * A * Pᴴ) = (Linalg.neg_logdet np s A).map fun C => P * C * Pᴴ := by
  rcases hA with hA | rfl
  · exact neg_logdet_rot np np' hP hP s hA
  · rw [Matrix.mul_zero, Matrix.zero_mul]
    exact neg_logdet_zero np np' hz hz' hP s

omit [Fintype F] in
theorem admmFilter_rot (hP : RealRot P) (X : Spec F n t) (s : AdmmState F n t q) :
    admmFilter (rotX P X) (rotA P s) = (admmFilter X s).map (rotW P P) := by
  have e : ∀ f, npSolve ((q : ℂ) • ((rotX P X f).map star * (rotX P X f)ᵀ) + 1)
      ((rotA P s).V f - (rotA P s).Y f
        + ((rotX P X f).map star * (∑ i, ((rotA P s).V_tilde i f - (rotA P s).Y_tilde i f))ᵀ)ᵀ)
      = (npSolve ((q : ℂ) • ((X f).map star * (X f)ᵀ) + 1)
          (s.V f - s.Y f + ((X f).map star * (∑ i, (s.V_tilde i f - s.Y_tilde i f))ᵀ)ᵀ)).map fun C => P f * C * (P f)ᴴ := by
    intro f
    have hT : (P f)ᵀ = (P f)ᴴ := by
      conv_lhs => rw [← hP.2 f]
      rfl
    have hm : (P f * X f).map star = P f * (X f).map star := by
      rw [show (P f * X f).map star = (P f).map star * (X f).map star from Matrix.map_mul (f := starRingEnd ℂ), hP.2 f]
    have hx : ((X f).map star)ᵀ = (X f)ᴴ := rfl
    have hmT : ((P f * X f).map star)ᵀ = (X f)ᴴ * (P f)ᴴ := by rw [hm, transpose_mul, hT, hx]
    rw [← npSolve_conj (hP.1 f)]
    congr 1
    · rw [rotX, hm, transpose_mul, hT, Matrix.mul_add, Matrix.add_mul, Matrix.mul_one, mul_eq_one_comm.mp (hP.1 f),
        Matrix.mul_smul, Matrix.smul_mul]
      simp only [Matrix.mul_assoc]
    · rw [transpose_mul, transpose_transpose, transpose_mul, transpose_transpose, hx]
      simp only [rotA, rotW, rotX]
      rw [hmT]
      simp only [← Matrix.mul_sub, ← Matrix.mul_sum, Matrix.mul_add, Matrix.add_mul, Matrix.sub_mul, Matrix.mul_assoc]
  simp only [admmFilter]
  simp only [e]
  exact onBins_map _ fun f B => P f * B * (P f)ᴴ

omit [Fintype F] in
theorem admmStep_rot (np np' : Numpy ℂ) (hz : ZeroSvd np n) (hz' : ZeroSvd np' n) (hP : RealRot P) (rho alpha : ℝ)
    {prox : Fin q → Spec F n t → ℝ → Spec F n t} (hprox : ∀ i Y c, prox i (rotX P Y) c = rotX P (prox i Y c)) (X : Spec F n t)
    (s : AdmmState F n t q) (hs : RegAdmm alpha X s) :
    admmStep np' rho alpha prox (rotX P X) (rotA P s) = (admmStep np rho alpha prox X s).map (rotA P) := by
  simp only [admmStep]
  rw [admmFilter_rot hP]
  cases hW : admmFilter X s with
  | error e => rfl
  | ok W =>
    simp only [Except.map, bind, Except.bind]
    have hU : ∀ f, (alpha : ℂ) • rotW P P W f + ((1 - alpha : ℝ) : ℂ) • (rotA P s).V f
        = P f * ((alpha : ℂ) • W f + ((1 - alpha : ℝ) : ℂ) • s.V f) * (P f)ᴴ := fun f => by
      simp only [rotA, rotW]
      rw [Matrix.mul_add, Matrix.add_mul, Matrix.mul_smul, Matrix.smul_mul, Matrix.mul_smul, Matrix.smul_mul]
    have hV : negLogdetStack np' (1 / rho) (fun f => (alpha : ℂ) • rotW P P W f + ((1 - alpha : ℝ) : ℂ) • (rotA P s).V f + (rotA P s).Y f)
        = (negLogdetStack np (1 / rho) fun f => (alpha : ℂ) • W f + ((1 - alpha : ℝ) : ℂ) • s.V f + s.Y f).map (rotW P P) := by
      have : (fun f => (alpha : ℂ) • rotW P P W f + ((1 - alpha : ℝ) : ℂ) • (rotA P s).V f + (rotA P s).Y f)
          = fun f => P f * ((alpha : ℂ) • W f + ((1 - alpha : ℝ) : ℂ) • s.V f + s.Y f) * (P f)ᴴ := by
        funext f
        rw [hU]
        simp only [rotA, rotW]
        rw [Matrix.mul_add (P f) (_ + _), Matrix.add_mul]
      rw [this, negLogdetStack, negLogdetStack]
      simp only [fun f => neg_logdet_admm np np' hz hz' (hP.1 f) (1 / rho) (hs W hW f)]
      exact onBins_map _ fun f B => P f * B * (P f)ᴴ
    have hUt : ∀ i f, (alpha : ℂ) • separate (rotX P X) (rotW P P W) f + ((1 - alpha : ℝ) : ℂ) • (rotA P s).V_tilde i f
        = P f * ((alpha : ℂ) • separate X W f + ((1 - alpha : ℝ) : ℂ) • s.V_tilde i f) := fun i f => by
      rw [separate_rot hP.1]
      simp only [rotA, rotX]
      rw [Matrix.mul_add, Matrix.mul_smul, Matrix.mul_smul]
    rw [hV]
    cases negLogdetStack np (1 / rho) fun f => (alpha : ℂ) • W f + ((1 - alpha : ℝ) : ℂ) • s.V f + s.Y f with
    | error e => rfl
    | ok V =>
      simp only [Except.map, hU, hUt]
      have hp : ∀ i, (fun f => P f * ((alpha : ℂ) • separate X W f + ((1 - alpha : ℝ) : ℂ) • s.V_tilde i f) + (rotA P s).Y_tilde i f)
          = rotX P fun f => (alpha : ℂ) • separate X W f + ((1 - alpha : ℝ) : ℂ) • s.V_tilde i f + s.Y_tilde i f := fun i => by
        funext f
        simp only [rotA, rotX]
        rw [Matrix.mul_add (P f) (_ + _)]
      simp only [hp, hprox]
      refine congrArg Except.ok ?_
      simp only [rotA, AdmmState.mk.injEq, true_and]
      constructor
      · funext f
        simp only [rotW]
        rw [Matrix.mul_sub, Matrix.sub_mul, Matrix.mul_add (P f) (s.Y f), Matrix.add_mul]
      · funext i f
        simp only [rotX]
        rw [Matrix.mul_sub, Matrix.mul_add (P f) (s.Y_tilde i f)]

omit [Fintype F] in
theorem admmReset_rot (hP : Rot P) (kw : AdmmKw F n t q) (o : AdmmObj F n t q) :
    admmReset (rotAKw P kw) (rotAO P o) = rotA P (admmReset kw o) := by
  have k1 : ∀ a b : Option (F → Mat n ℂ), keep (fun _ => 0) (a.map (rotW P P)) (b.map (rotW P P))
      = rotW P P (keep (fun _ => 0) a b) := by
    intro a b
    cases a with
    | some a => rfl
    | none =>
      cases b with
      | some b => rfl
      | none =>
        funext f
        simp [keep, rotW]
  have k2 : ∀ a b : Option (Fin q → Spec F n t), keep (fun _ _ => 0) (a.map fun d i => rotX P (d i)) (b.map fun d i => rotX P (d i))
      = fun i => rotX P (keep (fun _ _ => 0) a b i) := by
    intro a b
    cases a with
    | some a => rfl
    | none =>
      cases b with
      | some b => rfl
      | none =>
        funext i f
        simp [keep, rotX]
  have k3 : ∀ a b : Option (F → Mat n ℂ), keep (fun _ => 1) (a.map (rotW P P)) (b.map (rotW P P))
      = rotW P P (keep (fun _ => 1) a b) := by
    intro a b
    cases a with
    | some a => rfl
    | none =>
      cases b with
      | some b => rfl
      | none =>
        funext f
        simp [keep, rotW, mul_eq_one_comm.mp (hP f)]
  simp only [admmReset, rotAKw, rotAO, rotA, k1, k2, k3]

/-- C99: `ADMMBSS` on other real coordinates, common to channels and sources, for penalties and proximal operators that do not
see them and any end of the call that commutes with the change of coordinates. -/
theorem C99_admm_call (np np' : Numpy ℂ) (hz : ZeroSvd np n) (hz' : ZeroSvd np' n) (hP : RealRot P) (rho relaxation : ℝ)
    {prox : Fin q → Spec F n t → ℝ → Spec F n t} (hprox : ∀ i Y c, prox i (rotX P Y) c = rotX P (prox i Y c))
    {penalty : Penalty F n t} (hpen : PenaltyInv P penalty) (attr : Option Bool) {sr : ScaleOpt} {r r' : Fin n} {X : Spec F n t}
    (hfin : ∀ W, finish sr r' (rotX P X) (rotW P P W) = (finish sr r X W).map fun p => (rotX P p.1, rotW P P p.2)) (n_iter : ℕ)
    (ic : Bool) (kw : AdmmKw F n t q) (o : AdmmObj F n t q)
    (hreg : RegularRun (admmStep np rho relaxation prox X) (RegAdmm relaxation X) n_iter (admmReset kw o)) :
    admmCall np' rho relaxation prox penalty attr sr r' (rotX P X) n_iter ic (rotAKw P kw) (rotAO P o)
      = (admmCall np rho relaxation prox penalty attr sr r X n_iter ic kw o).map (rotAO P) := by
  have h := proxIterate_map_reg attr (loss := fun s : AdmmState F n t q => computeLoss penalty X s.W)
    (loss' := fun s : AdmmState F n t q => computeLoss penalty (rotX P X) s.W) (rotA P)
    (admmStep_rot np np' hz hz' hP rho relaxation hprox X) (fun s => computeLoss_rot hP.1 hP.1 hpen X s.W) n_iter ic _ hreg o.loss
  simp only [admmCall]
  rw [admmReset_rot hP.1 kw o]
  change (proxIterate attr _ _ n_iter ic _ o.loss >>= _) = Except.map _ (proxIterate attr _ _ n_iter ic _ o.loss >>= _)
  rw [h, bind_map, map_bind]
  congr 1
  funext p
  change (finish sr r' (rotX P X) (rotW P P p.1.W) >>= _) = Except.map _ (finish sr r X p.1.W >>= _)
  rw [hfin, bind_map, map_bind]
  rfl

/-- The object with channels and sources renumbered. -/
def permAdmm (σ : F → Equiv.Perm (Fin n)) (o : AdmmObj F n t q) : AdmmObj F n t q :=
  ⟨o.demix.map (perm σ σ), o.auxiliary1.map (perm σ σ), o.auxiliary2.map fun d i => permX σ (d i), o.dual1.map (perm σ σ),
    o.dual2.map fun d i => permX σ (d i), o.output.map (permX σ), o.loss⟩

/-- **C99.** `ADMMBSS` with any scale restoration: renumbering the microphones (with the reference) renumbers the outputs, for
penalties and proximal operators that do not depend on the numbering of the sources. -/
theorem C99_admm_renumber (np np' : Numpy ℂ) (hz : ZeroSvd np n) (hz' : ZeroSvd np' n) (σ : F → Equiv.Perm (Fin n))
    (rho relaxation : ℝ) {prox : Fin q → Spec F n t → ℝ → Spec F n t}
    (hprox : ∀ i Y c, prox i (permX σ Y) c = permX σ (prox i Y c))
    {ps : List (Spec F n t → ℝ)} (hpen : ∀ p ∈ ps, ∀ Y, p (permX σ Y) = p Y) (attr : Option Bool) (sr : ScaleOpt)
    {r r' : Fin n} (hr : ∀ f, σ f r' = r) (X : Spec F n t) (n_iter : ℕ) (ic : Bool) (o : AdmmObj F n t q)
    (hreg : RegularRun (admmStep np rho relaxation prox X) (RegAdmm relaxation X) n_iter (admmReset {} o)) :
    admmCall np' rho relaxation prox (.list ps) attr sr r' (permX σ X) n_iter ic {} (permAdmm σ o)
      = (admmCall np rho relaxation prox (.list ps) attr sr r X n_iter ic {} o).map (permAdmm σ) := by
  have hreal : RealRot (pm σ) := ⟨rot_pm σ, fun f => by
    ext i j
    simp [pm, Matrix.one_apply, apply_ite]⟩
  have hO : rotAO (t := t) (q := q) (pm σ) = permAdmm σ := by
    funext o
    simp only [rotAO, permAdmm, rotX_pm, rotW_pm]
  have h := C99_admm_call np np' hz hz' hreal rho relaxation (prox := prox) (by simpa only [rotX_pm] using hprox)
    (penalty := .list ps) (by simpa only [PenaltyInv, rotX_pm] using hpen) attr (sr := sr) (r := r) (r' := r') (X := X)
    (by simpa only [rotX_pm, rotW_pm] using C97_finish σ σ sr hr X) n_iter ic {} o hreg
  rw [rotX_pm, hO] at h
  exact h

/-- C99: `ADMMIVA` with its default penalty and any scale restoration. -/
theorem C99_admm_iva {b : ℕ} (np np' : Numpy ℂ) (hz : ZeroSvd np n) (hz' : ZeroSvd np' n) (σ : Equiv.Perm (Fin n))
    (rho relaxation : ℝ) (attr : Option Bool) (sr : ScaleOpt) {r r' : Fin n} (hr : σ r' = r) (X : Spec (Fin b) n t) (n_iter : ℕ)
    (ic : Bool)
    (hreg : RegularRun (admmStep np rho relaxation (fun _ : Fin 1 => ivaProx) X) (RegAdmm relaxation X) n_iter
      (admmReset {} (AdmmObj.fresh attr))) :
    admmCall (q := 1) np' rho relaxation (fun _ => ivaProx) (.list [ivaPenalty]) attr sr r'
        (fun f => (X f).submatrix σ id) n_iter ic {} (AdmmObj.fresh attr)
      = (admmCall (q := 1) np rho relaxation (fun _ => ivaProx) (.list [ivaPenalty]) attr sr r X n_iter ic {}
          (AdmmObj.fresh attr)).map (permAdmm fun _ => σ) :=
  C99_admm_renumber np np' hz hz' (fun _ => σ) rho relaxation (fun _ => ivaProx_perm σ)
    (by simp only [List.mem_singleton, forall_eq]; exact ivaPenalty_perm σ) attr sr (fun _ => hr) X n_iter ic
    (AdmmObj.fresh attr) hreg

/-! ## The hypotheses can be met -/

theorem apply_of_onBins {β : Type} {g : F → Except PyErr β} {y : F → β} (h : onBins g = .ok y) (f : F) : g f = .ok (y f) := by
  rw [onBins] at h
  split_ifs at h with hg
  cases h
  exact (hg f).choose_spec

/-- `PDSIVA` with projection back: exchanging two microphones and the reference exchanges the outputs. -/
example (np : Numpy ℂ) (X : Spec (Fin 3) 2 5) :
    pdsCall (q := 1) np 1 1 1 (fun _ => ivaProx) (.list [ivaPenalty]) (some true) (.bool true) 1
        (fun f => (X f).submatrix (Equiv.swap 0 1) id) 1 true {} (PdsObj.fresh (some true))
      = (pdsCall (q := 1) np 1 1 1 (fun _ => ivaProx) (.list [ivaPenalty]) (some true) (.bool true) 0 X 1 true {}
          (PdsObj.fresh (some true))).map (permPds (fun _ => Equiv.swap 0 1) fun _ => Equiv.swap 0 1) := by
  refine C99_pds_iva np np (Equiv.swap 0 1) 1 1 1 (some true) (.bool true) (by decide) X 1 true ⟨?_, fun _ _ => trivial⟩
  intro f
  simp [pdsReset, keep, PdsObj.fresh]

/-- A LAPACK that returns the identity for the singular vectors of zero. -/
example : ∃ np : Numpy ℂ, ∀ n, ZeroSvd np n := by
  classical
  refine ⟨{ (someNumpy : Numpy ℂ) with
    svd := fun X => if X = 0 then (1, 0, 1) else (someNumpy : Numpy ℂ).svd X
    svd_spec := fun X => by
      by_cases h : X = 0
      · rw [if_pos h, h]
        exact ⟨by simp, by simp, by simp, fun _ => le_rfl, fun _ _ _ => le_rfl⟩
      · rw [if_neg h]
        exact (someNumpy : Numpy ℂ).svd_spec X }, fun n => ?_⟩
  simp [ZeroSvd]

/-- One iteration of `ADMMIVA` from a fresh object. -/
example (np : Numpy ℂ) (hz : ZeroSvd np 2) (X : Spec (Fin 3) 2 5) :
    admmCall (q := 1) np 1 1 (fun _ => ivaProx) (.list [ivaPenalty]) (some true) (.bool false) 1
        (fun f => (X f).submatrix (Equiv.swap 0 1) id) 1 true {} (AdmmObj.fresh (some true))
      = (admmCall (q := 1) np 1 1 (fun _ => ivaProx) (.list [ivaPenalty]) (some true) (.bool false) 0 X 1 true {}
          (AdmmObj.fresh (some true))).map (permAdmm fun _ => Equiv.swap 0 1) := by
  refine C99_admm_iva np np hz hz (Equiv.swap 0 1) 1 1 (some true) (.bool false) (by decide) X 1 true ⟨?_, fun _ _ => trivial⟩
  intro W hW f
  right
  have h := apply_of_onBins hW f
  simp only [npSolve, admmReset, keep, AdmmObj.fresh, Option.getD_none, sub_self, Finset.sum_const_zero, transpose_zero,
    Matrix.mul_zero, add_zero] at h
  split at h
  · simp [admmReset, keep, AdmmObj.fresh, ← Except.ok.inj h]
  · cases h

end Verif.ProxRotation
