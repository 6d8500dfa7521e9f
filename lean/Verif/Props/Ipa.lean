import Verif.Lemmas.Ipa
import Verif.Props.AuxIva
import Verif.Props.MnmfWiener

/-! # C68: iterative projection with adjustment -/

namespace Verif.Spatial

open Matrix Scale Verif.Linalg Verif.Lqpqm Iva
open scoped ComplexOrder Topology

variable {F : Type} [Fintype F] {t : ℕ}

/-- Flooring does not act on this step for two sources, and in every bin the vector `v` of the problem is zero or above
the floor. -/
structure StepRegular (np : Numpy ℂ) (floor : ℝ → ℝ) (phi : F → Fin 2 → Fin t → ℝ) (Y : Spec F 2 t) (idx : Fin 2) :
    Prop where
  eps : 0 ≤ floor 0
  one : floor 1 = 1
  psd : ∀ f k, Special.toPsdCore np floor (wcov (phi f) Y f k) = wcov (phi f) Y f k
  eig : ∀ f i, floor ((np.eigh (wcov (phi f) Y f idx)).1 i) = (np.eigh (wcov (phi f) Y f idx)).1 i
  root : ∀ f q, IsMinimiser (exactProblem (n := 0) (wcov (phi f) Y f) idx).H
      (exactProblem (n := 0) (wcov (phi f) Y f) idx).v (exactProblem (n := 0) (wcov (phi f) Y f) idx).z q →
    floor (Real.sqrt (inner (exactProblem (n := 0) (wcov (phi f) Y f) idx) q)) =
      Real.sqrt (inner (exactProblem (n := 0) (wcov (phi f) Y f) idx) q)
  v : Clear floor fun f => (exactProblem (n := 0) (wcov (phi f) Y f) idx).v

/-- What a regular step computes. -/
theorem ipaStep_eq (np : Numpy ℂ) (floor : ℝ → ℝ) {max_iter : ℕ} (hm : 0 < max_iter)
    {phi : F → Fin 2 → Fin t → ℝ} {Y : Spec F 2 t} (hU : ∀ f k, (wcov (phi f) Y f k).PosDef) {idx : Fin 2}
    (h : StepRegular np floor phi Y idx) :
    ∃ q, lqpqm2 np floor (fun x => x < floor 0) max_iter (fun _ => (1 : Mat 1 ℂ))
        (fun f => (exactProblem (n := 0) (wcov (phi f) Y f) idx).v)
        (fun f => (normalise (exactProblem (n := 0) (wcov (phi f) Y f) idx)).z) = .ok (q, false) ∧
      (∀ f, IsMinimiser (exactProblem (n := 0) (wcov (phi f) Y f) idx).H
        (exactProblem (n := 0) (wcov (phi f) Y f) idx).v (exactProblem (n := 0) (wcov (phi f) Y f) idx).z (q f)) ∧
      ipaStep (n := 0) np floor true max_iter phi Y idx =
        .ok fun f => ipaT (n := 0) (wcov (phi f) Y f) idx (q f) * Y f := by
  obtain ⟨U, hUe⟩ : ∃ U : F → Fin 2 → Mat 2 ℂ, U = fun f => wcov (phi f) Y f := ⟨_, rfl⟩
  have hUe' : ∀ f, wcov (phi f) Y f = U f := fun f => by rw [hUe]
  have hcov : ∀ f, ipaCov np floor (phi f) (Y f) = U f := by
    intro f
    rw [hUe]
    funext k
    exact h.psd f k
  have hU' : ∀ f k, (U f k).PosDef := by rw [hUe]; exact hU
  have hp : (onBins fun f => ipaProblem (n := 0) np floor true (U f) idx) =
      .ok fun f => normalise (exactProblem (n := 0) (U f) idx) := by
    refine onBins_ok fun f => ?_
    rw [ipaProblem_eq np true (hU' f) idx (by rw [hUe]; exact h.eig f)]
    rfl
  have hz : ∀ f, 0 ≤ (normalise (exactProblem (n := 0) (U f) idx)).z := fun f =>
    (div_pos (exactProblem_z (hU' f) idx) (exactProblem_trace (hU' f) idx)).le
  obtain ⟨q, hq, hmin⟩ := lqpqm2_one np h.eps h.one hm (v := fun f => (exactProblem (n := 0) (U f) idx).v) hz
    (by rw [hUe]; exact h.v)
  have hmin' : ∀ f, IsMinimiser (exactProblem (n := 0) (U f) idx).H (exactProblem (n := 0) (U f) idx).v
      (exactProblem (n := 0) (U f) idx).z (q f) := by
    intro f
    rw [← isMinimiser_normalise (exactProblem_trace (hU' f) idx), normalise_two (hU' f) idx]
    exact hmin f
  simp only [hUe']
  refine ⟨q, hq, hmin', ?_⟩
  have hH : (fun f => (normalise (exactProblem (n := 0) (U f) idx)).H) = fun _ => (1 : Mat 1 ℂ) := by
    funext f
    exact normalise_two (hU' f) idx
  have hl : lqpqm2 np floor (fun x => x < floor 0) max_iter (fun f => (normalise (exactProblem (n := 0) (U f) idx)).H)
      (fun f => (normalise (exactProblem (n := 0) (U f) idx)).v)
      (fun f => (normalise (exactProblem (n := 0) (U f) idx)).z) = .ok (q, false) := by
    rw [hH]
    exact hq
  have ha : (onBins fun f => ipaApply (n := 0) floor (U f) idx (q f) (Y f)) =
      .ok fun f => ipaT (n := 0) (U f) idx (q f) * Y f := by
    refine onBins_ok fun f => ipaApply_eq (hU' f) idx ?_ (Y f)
    have := hmin' f
    rw [hUe] at this ⊢
    exact h.root f (q f) this
  unfold ipaStep
  dsimp only
  simp only [hcov]
  rw [hp]
  change (lqpqm2 np floor (fun x => x < floor 0) max_iter (fun f => (normalise (exactProblem (n := 0) (U f) idx)).H)
      (fun f => (normalise (exactProblem (n := 0) (U f) idx)).v)
      (fun f => (normalise (exactProblem (n := 0) (U f) idx)).z) >>= _) = _
  rw [hl]
  exact ha

/-- C68, two sources, `normalization=True`, any number of Newton iterations: the step for source `idx` multiplies the
signals of every bin by the best of all matrices that replace row `idx` freely and add multiples of source `idx` to the
other source. -/
theorem C68_two_sources_step (np : Numpy ℂ) (floor : ℝ → ℝ) {max_iter : ℕ} (hm : 0 < max_iter)
    {phi : F → Fin 2 → Fin t → ℝ} (hphi : ∀ f k s, 0 < phi f k s) {Y : Spec F 2 t}
    (hY : ∀ f, LinearIndependent ℂ (Y f).row) {idx : Fin 2} (h : StepRegular np floor phi Y idx) :
    ∃ T : F → Mat 2 ℂ, ipaStep (n := 0) np floor true max_iter phi Y idx = .ok (fun f => T f * Y f) ∧
      ∀ f, IsUnit (T f).det ∧ (∀ i j, i ≠ idx → j ≠ idx → T f i j = (1 : Mat 2 ℂ) i j) ∧
        ∀ S : Mat 2 ℂ, IsUnit S.det → (∀ i j, i ≠ idx → j ≠ idx → S i j = (1 : Mat 2 ℂ) i j) →
          power (phi f) (T f * Y f) - 2 * Real.log ‖(T f).det‖ ≤ power (phi f) (S * Y f) - 2 * Real.log ‖S.det‖ := by
  have hU : ∀ f k, (wcov (phi f) Y f k).PosDef := fun f k => wcov_posDef (hphi f) hY f k
  obtain ⟨q, -, hmin, hq⟩ := ipaStep_eq np floor hm hU h
  refine ⟨fun f => ipaT (n := 0) (wcov (phi f) Y f) idx (q f), hq, fun f => ⟨(ipLoss_ipaT (hU f) idx (q f)).1,
    ipaT_form (n := 0) _ idx (q f), fun S hS hf => ?_⟩⟩
  have := ipaT_best (hU f) (hmin f) (S := S) hf hS
  have e1 := ipLoss_wcov (phi f) Y (fun _ => ipaT (n := 0) (wcov (phi f) Y f) idx (q f)) f
  have e2 := ipLoss_wcov (phi f) Y (fun _ => S) f
  dsimp only at e1 e2 this ⊢
  rw [e1, e2] at this
  exact this

/-- Regular steps agree for all flooring functions and numbers of iterations. -/
theorem ipaStep_unique (np : Numpy ℂ) {floor floor' : ℝ → ℝ} {m m' : ℕ} (hm : 0 < m) (hm' : 0 < m')
    {phi : F → Fin 2 → Fin t → ℝ} (hphi : ∀ f k s, 0 < phi f k s) {Y : Spec F 2 t}
    (hY : ∀ f, LinearIndependent ℂ (Y f).row) {idx : Fin 2} (h : StepRegular np floor phi Y idx)
    (h' : StepRegular np floor' phi Y idx) :
    ipaStep (n := 0) np floor true m phi Y idx = ipaStep (n := 0) np floor' true m' phi Y idx := by
  have hU : ∀ f k, (wcov (phi f) Y f k).PosDef := fun f k => wcov_posDef (hphi f) hY f k
  obtain ⟨q, h1, -, h2⟩ := ipaStep_eq np floor hm hU h
  obtain ⟨q', h1', -, h2'⟩ := ipaStep_eq np floor' hm' hU h'
  have hz : ∀ f, 0 ≤ (normalise (exactProblem (n := 0) (wcov (phi f) Y f) idx)).z := fun f =>
    (div_pos (exactProblem_z (hU f) idx) (exactProblem_trace (hU f) idx)).le
  have := lqpqm2_one_unique np h.eps h'.eps h.one h'.one hm hm' hz h.v h'.v
  rw [h1, h1'] at this
  rw [h2, h2', (Prod.mk.inj (Except.ok.inj this)).1]

omit [Fintype F] in
theorem row_independent {m : ℕ} {T : Mat m ℂ} (hT : IsUnit T.det) {Y : Matrix (Fin m) (Fin t) ℂ}
    (hY : LinearIndependent ℂ Y.row) : LinearIndependent ℂ (T * Y).row := by
  rw [← vecMul_injective_iff] at hY ⊢
  intro a b hab
  have h1 : ∀ c, c ᵥ* (T * Y) = (c ᵥ* T) ᵥ* Y := fun c => (vecMul_vecMul c T Y).symm
  have h2 : a ᵥ* T = b ᵥ* T := hY (by have := hab; dsimp only at this; rwa [h1, h1] at this)
  have h3 := congrArg (· ᵥ* T⁻¹) h2
  simpa only [vecMul_vecMul, mul_nonsing_inv _ hT, vecMul_one] using h3

/-- A sweep of steps that do not increase the loss. -/
theorem sweep_of_steps {m : ℕ} {phi : F → Fin m → Fin t → ℝ} (step : Spec F m t → Fin m → Except PyErr (Spec F m t))
    (Reg : Spec F m t → Fin m → Prop)
    (hstep : ∀ (Y : Spec F m t) (idx : Fin m), (∀ f, LinearIndependent ℂ (Y f).row) → Reg Y idx →
      ∃ T : F → Mat m ℂ, step Y idx = .ok (fun f => T f * Y f) ∧ ∀ f, IsUnit (T f).det ∧
        power (phi f) (T f * Y f) - 2 * Real.log ‖(T f).det‖ ≤ power (phi f) (Y f)) (l : List (Fin m)) :
    ∀ Y : Spec F m t, (∀ f, LinearIndependent ℂ (Y f).row) → RegularFold step Reg l Y →
      ∃ T : F → Mat m ℂ, l.foldlM step Y = .ok (fun f => T f * Y f) ∧ ∀ f, IsUnit (T f).det ∧
        power (phi f) (T f * Y f) - 2 * Real.log ‖(T f).det‖ ≤ power (phi f) (Y f) := by
  induction l with
  | nil =>
    intro Y _ _
    refine ⟨fun _ => 1, ?_, fun f => ⟨by simp, by simp⟩⟩
    simp only [Matrix.one_mul]
    rfl
  | cons b l ih =>
    intro Y hY h
    obtain ⟨T1, h1, h2⟩ := hstep Y b hY h.1
    obtain ⟨T2, h3, h4⟩ := ih (fun f => T1 f * Y f) (fun f => row_independent (h2 f).1 (hY f)) (h.2 _ h1)
    refine ⟨fun f => T2 f * T1 f, ?_, fun f => ⟨?_, ?_⟩⟩
    · rw [List.foldlM_cons, h1]
      simp only [Matrix.mul_assoc]
      exact h3
    · rw [det_mul]
      exact (h4 f).1.mul (h2 f).1
    · have e1 := (h4 f).2
      have e2 := (h2 f).2
      rw [det_mul, norm_mul, Real.log_mul (norm_ne_zero_iff.2 (h4 f).1.ne_zero)
        (norm_ne_zero_iff.2 (h2 f).1.ne_zero), Matrix.mul_assoc]
      linarith

/-- C68, two sources: a sweep of `update_by_ipa` multiplies the signals of every bin by an invertible matrix and does not
increase the weighted power of the signals minus twice the logarithm of the determinant. -/
theorem C68_two_sources_sweep (np : Numpy ℂ) (floor : ℝ → ℝ) {max_iter : ℕ} (hm : 0 < max_iter)
    {phi : F → Fin 2 → Fin t → ℝ} (hphi : ∀ f k s, 0 < phi f k s) {Y : Spec F 2 t}
    (hY : ∀ f, LinearIndependent ℂ (Y f).row)
    (h : RegularFold (ipaStep (n := 0) np floor true max_iter phi) (StepRegular np floor phi) (List.finRange 2) Y) :
    ∃ T : F → Mat 2 ℂ, ipa (n := 0) np floor true max_iter phi Y = .ok (fun f => T f * Y f) ∧
      ∀ f, IsUnit (T f).det ∧
        power (phi f) (T f * Y f) - 2 * Real.log ‖(T f).det‖ ≤ power (phi f) (Y f) := by
  refine sweep_of_steps _ _ (fun Y idx hY h => ?_) _ Y hY h
  obtain ⟨T, h1, h2⟩ := C68_two_sources_step np floor hm hphi hY h
  refine ⟨T, h1, fun f => ⟨(h2 f).1, ?_⟩⟩
  have e := (h2 f).2.2 1 (by simp) fun _ _ _ _ => rfl
  rwa [Matrix.one_mul, det_one, norm_one, Real.log_one, mul_zero, sub_zero] at e

/-! ### Any number of sources -/

section
variable {n : ℕ}

/-- The problem of one bin and its eigenvalues. -/
noncomputable abbrev stepProblem (phi : F → Fin (n + 2) → Fin t → ℝ) (Y : Spec F (n + 2) t) (idx : Fin (n + 2)) (f : F) :
    IpaProblem n := normalise (exactProblem (wcov (phi f) Y f) idx)

/-- A step whose flooring is inactive and whose root finding succeeds without a warning. In every bin either `v` is below
the floor and `y = 0` is a solution, or `v` has a non-negligible component along the top eigenvector and the floor is small
compared with `v`. -/
structure StepSafe (np : Numpy ℂ) (floor : ℝ → ℝ) (max_iter : ℕ) (phi : F → Fin (n + 2) → Fin t → ℝ)
    (Y : Spec F (n + 2) t) (idx : Fin (n + 2)) : Prop where
  psd : ∀ f k, Special.toPsdCore np floor (wcov (phi f) Y f k) = wcov (phi f) Y f k
  eig : ∀ f i, floor ((np.eigh (wcov (phi f) Y f idx)).1 i) = (np.eigh (wcov (phi f) Y f idx)).1 i
  root : ∀ f x, (exactProblem (wcov (phi f) Y f) idx).z ≤ x → floor (Real.sqrt x) = Real.sqrt x
  bins : ∀ f, let p := stepProblem phi Y idx f
    let lam := (np.eigh p.H).1
    let vt := vTilde (np.eigh p.H).2 p.v
    let top := lam (Fin.last n)
    Real.sqrt (∑ i, ‖p.v i‖ ^ 2) < floor 0 ∧ top ≤ p.z ∨
      floor 0 ≤ Real.sqrt (∑ i, ‖p.v i‖ ^ 2) ∧ Regular floor lam vt p.z top ∧
        floor 0 * top ^ 3 ≤ (1 - top ^ 2) * ∑ i, lam i * ‖vt i‖ ^ 2
  quiet : ∀ y, lqpqm2 np floor (fun x => x < floor 0) max_iter (fun f => (stepProblem phi Y idx f).H)
    (fun f => (stepProblem phi Y idx f).v) (fun f => (stepProblem phi Y idx f).z) ≠ .ok (y, true)

/-- What a safe step computes: in the bins with small `v` the solution is zero. -/
theorem ipaStep_safe (np : Numpy ℂ) (floor : ℝ → ℝ) {max_iter : ℕ} (hm : 0 < max_iter)
    {phi : F → Fin (n + 2) → Fin t → ℝ} (hphi : ∀ f k s, 0 < phi f k s) {Y : Spec F (n + 2) t}
    (hY : ∀ f, LinearIndependent ℂ (Y f).row) {idx : Fin (n + 2)} (h : StepSafe np floor max_iter phi Y idx) :
    ∃ q : F → Fin (n + 1) → ℂ,
      ipaStep np floor true max_iter phi Y idx = .ok (fun f => ipaT (wcov (phi f) Y f) idx (q f) * Y f) ∧
      (∀ f, Real.sqrt (∑ i, ‖(stepProblem phi Y idx f).v i‖ ^ 2) < floor 0 → q f = 0) ∧
      ∀ f, power (phi f) (ipaT (wcov (phi f) Y f) idx (q f) * Y f)
        - 2 * Real.log ‖(ipaT (wcov (phi f) Y f) idx (q f)).det‖ ≤ power (phi f) (Y f) := by
  have hU : ∀ f k, (wcov (phi f) Y f k).PosDef := fun f k => wcov_posDef (hphi f) hY f k
  obtain ⟨U, hUe⟩ : ∃ U : F → Fin (n + 2) → Mat (n + 2) ℂ, U = fun f => wcov (phi f) Y f := ⟨_, rfl⟩
  have hcov : ∀ f, ipaCov np floor (phi f) (Y f) = U f := by
    intro f
    rw [hUe]
    funext k
    exact h.psd f k
  have hU' : ∀ f k, (U f k).PosDef := by rw [hUe]; exact hU
  obtain ⟨p, hpe⟩ : ∃ p : F → IpaProblem n, p = fun f => stepProblem phi Y idx f := ⟨_, rfl⟩
  have hpU : ∀ f, p f = normalise (exactProblem (U f) idx) := by
    intro f
    rw [hpe, hUe]
  have hp : (onBins fun f => ipaProblem np floor true (U f) idx) = .ok p := by
    refine onBins_ok fun f => ?_
    rw [ipaProblem_eq np true (hU' f) idx (by rw [hUe]; exact h.eig f), hpU]
    rfl
  have hτ := fun f => exactProblem_trace (hU' f) idx
  have hz : ∀ f, 0 < (p f).z := by
    intro f
    rw [hpU]
    exact div_pos (exactProblem_z (hU' f) idx) (hτ f)
  have hherm : ∀ f, ((p f).H).PosDef := by
    intro f
    have e : (p f).H = (((∑ i, (exactProblem (U f) idx).H i i).re⁻¹ : ℝ) : ℂ) • (exactProblem (U f) idx).H := by
      rw [hpU]
      ext i j
      rw [Matrix.smul_apply, smul_eq_mul]
      simp only [normalise, of_apply]
      push_cast
      ring
    rw [e]
    exact Tr.smul_posDef (exactProblem_posDef (hU' f) idx) (inv_pos.2 (hτ f))
  have hspec := fun f => np.eigh_spec _ (hherm f).isHermitian
  have hlam : ∀ f i, 0 < (np.eigh (p f).H).1 i := fun f => (hspec f).posDef_iff.1 (hherm f)
  have hbins : ∀ f, Real.sqrt (∑ i, ‖(p f).v i‖ ^ 2) < floor 0 ∧ (np.eigh (p f).H).1 (Fin.last n) ≤ (p f).z ∨
      floor 0 ≤ Real.sqrt (∑ i, ‖(p f).v i‖ ^ 2) ∧
        Regular floor (np.eigh (p f).H).1 (vTilde (np.eigh (p f).H).2 (p f).v) (p f).z
          ((np.eigh (p f).H).1 (Fin.last n)) ∧
        floor 0 * (np.eigh (p f).H).1 (Fin.last n) ^ 3 ≤ (1 - (np.eigh (p f).H).1 (Fin.last n) ^ 2) *
          ∑ i, (np.eigh (p f).H).1 i * ‖vTilde (np.eigh (p f).H).2 (p f).v i‖ ^ 2 := by
    rw [hpe]
    exact h.bins
  obtain ⟨lamb, w, h1, h2, h3⟩ := solve_spec (F := {f // ¬ Real.sqrt (∑ i, ‖(p f).v i‖ ^ 2) < floor 0})
    (phi := fun f => (np.eigh (p f).H).1) (v := fun f => vTilde (np.eigh (p f).H).2 (p f).v) (z := fun f => (p f).z)
    (top := fun f => (np.eigh (p f).H).1 (Fin.last n))
    (fun f => ((hbins f.1).resolve_left fun hh => f.2 hh.1).2.1) hm
  obtain ⟨q, h4, h5, h6⟩ := lqpqm2_eq (H := fun f => (p f).H) (v := fun f => (p f).v) (z := fun f => (p f).z) np
    (fun x => x < floor 0) h1
  have hw : w = false := by
    rw [← Bool.not_eq_true]
    intro hw
    rw [hw] at h4
    have := h.quiet q
    rw [hpe] at h4
    exact this h4
  rw [hw] at h3
  have h3' := h3.1 rfl
  have hzero : ∀ f, Real.sqrt (∑ i, ‖(p f).v i‖ ^ 2) < floor 0 → (np.eigh (p f).H).1 (Fin.last n) ≤ (p f).z →
      q f = 0 := by
    intro f ha hb
    rw [h6 f ha]
    funext i
    rw [ySingular]
    simp only [max_eq_left hb, sub_self, zero_div, max_self, Real.sqrt_zero, Complex.ofReal_zero, zero_mul, Pi.zero_apply]
  have hobj : ∀ f, objective (p f).H (p f).v (p f).z (q f) ≤ objective (p f).H (p f).v (p f).z 0 := by
    intro f
    rcases hbins f with ⟨ha, hb⟩ | ⟨ha, hb, hc⟩
    · rw [hzero f ha hb]
    · have hf : ¬ Real.sqrt (∑ i, ‖(p f).v i‖ ^ 2) < floor 0 := not_lt.2 ha
      rw [h5 f hf]
      have htop := (h2 ⟨f, hf⟩).1
      have hres := h3' ⟨f, hf⟩
      dsimp only at htop hres
      refine yRegular_le_zero (hspec f) (fun i => (hlam f i).le) (hz f)
        (fun i => ((hb.le_top i).trans_lt htop)) ?_
      refine fn_unscaled (fun i => (hlam f i).le) hb.top_pos hb.le_top htop hb.eps ?_ hres hc
      obtain ⟨i, hi, hi'⟩ := hb.attained
      refine Finset.sum_pos' (fun i _ => mul_nonneg (hlam f i).le (sq_nonneg _)) ⟨i, Finset.mem_univ i, ?_⟩
      rcases hb.active i hi with hh | hh
      · exact hh.trans_le hi'
      · exact mul_pos (hlam f i) (pow_pos (norm_pos_iff.2 hh) 2)
  have hwU : ∀ f, wcov (phi f) Y f = U f := fun f => by rw [hUe]
  simp only [hwU]
  refine ⟨q, ?_, fun f hf => ?_, fun f => ?_⟩
  · have ha : (onBins fun f => ipaApply floor (U f) idx (q f) (Y f)) = .ok fun f => ipaT (U f) idx (q f) * Y f := by
      refine onBins_ok fun f => ipaApply_eq (hU' f) idx ?_ (Y f)
      have h0 : 0 ≤ (star (q f + (exactProblem (U f) idx).v) ⬝ᵥ (exactProblem (U f) idx).H *ᵥ
          (q f + (exactProblem (U f) idx).v)).re :=
        (exactProblem_posDef (hU' f) idx).posSemidef.re_dotProduct_nonneg _
      have hzi : (exactProblem (U f) idx).z ≤ inner (exactProblem (U f) idx) (q f) := by
        rw [inner]
        linarith
      rw [hUe] at hzi ⊢
      exact h.root f _ hzi
    unfold ipaStep
    dsimp only
    simp only [hcov]
    rw [hp]
    change (lqpqm2 np floor (fun x => x < floor 0) max_iter (fun f => (p f).H) (fun f => (p f).v)
        (fun f => (p f).z) >>= _) = _
    rw [h4]
    exact ha
  · have hp' : stepProblem phi Y idx f = p f := by rw [hpe]
    rw [hp'] at hf
    rcases hbins f with ⟨ha, hb⟩ | ⟨ha, -⟩
    · exact hzero f ha hb
    · exact absurd hf (not_lt.2 ha)
  · have hpos0 : ∀ y, 0 < inner (exactProblem (U f) idx) y := by
      intro y
      have h0 : 0 ≤ (star (y + (exactProblem (U f) idx).v) ⬝ᵥ (exactProblem (U f) idx).H *ᵥ
          (y + (exactProblem (U f) idx).v)).re :=
        (exactProblem_posDef (hU' f) idx).posSemidef.re_dotProduct_nonneg _
      have := exactProblem_z (hU' f) idx
      rw [inner]
      linarith
    have hle := hobj f
    rw [hpU, objective_normalise (hτ f) (hpos0 _), objective_normalise (hτ f) (hpos0 _), add_le_add_iff_right] at hle
    have h0 := objective_zero_le (hU' f) idx
    have hT := (ipLoss_ipaT (hU' f) idx (q f)).2
    have key : ipLoss (U f) (ipaT (U f) idx (q f)) ≤ ipLoss (U f) 1 := by linarith
    have e1 := ipLoss_wcov (phi f) Y (fun _ => ipaT (U f) idx (q f)) f
    have e2 := ipLoss_wcov (phi f) Y (fun _ => 1) f
    rw [hUe] at key e1 ⊢
    dsimp only at e1 e2 key ⊢
    rw [e1, e2] at key
    rw [separate, separate, Matrix.one_mul, det_one, norm_one, Real.log_one, mul_zero, sub_zero] at key
    exact key

/-- C68, any number of sources: the step for source `idx` succeeds, multiplies the signals of every bin by an invertible
matrix that differs from the identity in row and column `idx` only, and does not increase the loss. -/
theorem C68_step (np : Numpy ℂ) (floor : ℝ → ℝ) {max_iter : ℕ} (hm : 0 < max_iter)
    {phi : F → Fin (n + 2) → Fin t → ℝ} (hphi : ∀ f k s, 0 < phi f k s) {Y : Spec F (n + 2) t}
    (hY : ∀ f, LinearIndependent ℂ (Y f).row) {idx : Fin (n + 2)} (h : StepSafe np floor max_iter phi Y idx) :
    ∃ T : F → Mat (n + 2) ℂ, ipaStep np floor true max_iter phi Y idx = .ok (fun f => T f * Y f) ∧
      ∀ f, IsUnit (T f).det ∧ (∀ i j, i ≠ idx → j ≠ idx → T f i j = (1 : Mat (n + 2) ℂ) i j) ∧
        power (phi f) (T f * Y f) - 2 * Real.log ‖(T f).det‖ ≤ power (phi f) (Y f) := by
  obtain ⟨q, h1, -, h2⟩ := ipaStep_safe np floor hm hphi hY h
  exact ⟨_, h1, fun f => ⟨(ipLoss_ipaT (fun k => wcov_posDef (hphi f) hY f k) idx (q f)).1, ipaT_form _ idx (q f), h2 f⟩⟩

/-- C68, any number of sources: a sweep of `update_by_ipa` multiplies the signals of every bin by an invertible matrix and
does not increase the weighted power of the signals minus twice the logarithm of the determinant. -/
theorem C68_sweep (np : Numpy ℂ) (floor : ℝ → ℝ) {max_iter : ℕ} (hm : 0 < max_iter)
    {phi : F → Fin (n + 2) → Fin t → ℝ} (hphi : ∀ f k s, 0 < phi f k s) {Y : Spec F (n + 2) t}
    (hY : ∀ f, LinearIndependent ℂ (Y f).row)
    (h : RegularFold (ipaStep np floor true max_iter phi) (StepSafe np floor max_iter phi) (List.finRange (n + 2)) Y) :
    ∃ T : F → Mat (n + 2) ℂ, ipa np floor true max_iter phi Y = .ok (fun f => T f * Y f) ∧
      ∀ f, IsUnit (T f).det ∧
        power (phi f) (T f * Y f) - 2 * Real.log ‖(T f).det‖ ≤ power (phi f) (Y f) := by
  refine sweep_of_steps _ _ (fun Y idx hY h => ?_) _ Y hY h
  obtain ⟨T, h1, h2⟩ := C68_step np floor hm hphi hY h
  exact ⟨T, h1, fun f => ⟨(h2 f).1, (h2 f).2.2⟩⟩

end

/-- For two sources the vector `v` of the problem is zero exactly if the two weighted covariance matrices have the same
ratio of their entries in row `idx`. -/
theorem exactProblem_v {U : Fin 2 → Mat 2 ℂ} (hU : ∀ k, (U k).PosDef) (idx : Fin 2) :
    (exactProblem (n := 0) U idx).v 0 = 0 ↔
      U (1 - idx) idx (1 - idx) * U idx idx idx = U idx idx (1 - idx) * U (1 - idx) idx idx := by
  have ha := ipaA_pos (n := 0) hU idx 0
  have hs : (Real.sqrt (ipaA (n := 0) U idx 0) : ℂ) ≠ 0 := by exact_mod_cast (Real.sqrt_pos.2 ha).ne'
  have hae : (Real.sqrt (ipaA (n := 0) U idx 0) : ℂ) ^ 2 = U (1 - idx) idx idx := by
    have h1 : (Real.sqrt (ipaA (n := 0) U idx 0) : ℂ) ^ 2 = (ipaA (n := 0) U idx 0 : ℂ) := by
      exact_mod_cast Real.sq_sqrt ha.le
    rw [h1]
    have h2 := Complex.conj_eq_iff_re.1 (by
      have := congrFun (congrFun (hU (idx.succAbove (0 : Fin 1))).isHermitian idx) idx
      rwa [conjTranspose_apply] at this)
    rw [ipaA, h2]
    congr 1
    fin_cases idx <;> rfl
  have hd := (hU idx).det_pos
  have hdet : (U idx).det ≠ 0 := hd.ne'
  have hii : U idx idx idx ≠ 0 := ((hU idx).diag_pos (i := idx)).ne'
  have hx : ((ipaC (n := 0) (U idx)⁻¹ idx)⁻¹ *ᵥ ipaD (n := 0) (U idx)⁻¹ idx) 0 =
      -(U idx idx (1 - idx) / U idx idx idx) := by
    have hherm := (hU idx).isHermitian
    have hr : star (U idx idx idx) = U idx idx idx := by
      have := congrFun (congrFun hherm idx) idx
      rwa [conjTranspose_apply] at this
    have hrd : star (U idx).det = (U idx).det := by rw [← det_conjTranspose, hherm.eq]
    have hro : star (U idx (1 - idx) idx) = U idx idx (1 - idx) := by
      have := congrFun (congrFun hherm idx) (1 - idx)
      rwa [conjTranspose_apply] at this
    have hinv : (U idx)⁻¹ = (U idx).det⁻¹ • (U idx).adjugate := by rw [inv_def, Ring.inverse_eq_inv']
    have hC : ipaC (n := 0) (U idx)⁻¹ idx 0 0 = U idx idx idx / (U idx).det := by
      have : (U idx)⁻¹ (idx.succAbove (0 : Fin 1)) (idx.succAbove (0 : Fin 1)) = (U idx).det⁻¹ * U idx idx idx := by
        rw [hinv, adjugate_fin_two]
        fin_cases idx <;> rfl
      rw [ipaC, of_apply, this, star_mul', star_inv₀, hrd, hr]
      ring
    have hD : ipaD (n := 0) (U idx)⁻¹ idx 0 = -(U idx idx (1 - idx)) / (U idx).det := by
      have : (U idx)⁻¹ (idx.succAbove (0 : Fin 1)) idx = (U idx).det⁻¹ * -U idx (1 - idx) idx := by
        rw [hinv, adjugate_fin_two]
        fin_cases idx <;> rfl
      rw [ipaD, this, star_mul', star_inv₀, hrd, star_neg, hro]
      ring
    have hCu : IsUnit (ipaC (n := 0) (U idx)⁻¹ idx).det :=
      (isUnit_iff_isUnit_det _).mp (ipaC_posDef (hU idx).inv idx).isUnit
    have hx : ipaC (n := 0) (U idx)⁻¹ idx *ᵥ ((ipaC (n := 0) (U idx)⁻¹ idx)⁻¹ *ᵥ ipaD (n := 0) (U idx)⁻¹ idx) =
        ipaD (n := 0) (U idx)⁻¹ idx := by
      rw [mulVec_mulVec, mul_nonsing_inv _ hCu, one_mulVec]
    have hx0 := congrFun hx 0
    rw [mulVec, dotProduct, Fin.sum_univ_one, hC, hD] at hx0
    field_simp at hx0 ⊢
    linear_combination hx0
  have hb : ipaB (n := 0) U idx 0 = U (1 - idx) idx (1 - idx) := by
    rw [ipaB]
    fin_cases idx <;> rfl
  change -ipaB (n := 0) U idx 0 / (Real.sqrt (ipaA (n := 0) U idx 0) : ℂ) - (Real.sqrt (ipaA (n := 0) U idx 0) : ℂ) *
    ((ipaC (n := 0) (U idx)⁻¹ idx)⁻¹ *ᵥ ipaD (n := 0) (U idx)⁻¹ idx) 0 = 0 ↔ _
  rw [hx, hb]
  obtain ⟨s, hse⟩ : ∃ s : ℂ, s = (Real.sqrt (ipaA (n := 0) U idx 0) : ℂ) := ⟨_, rfl⟩
  rw [← hse] at hs hae ⊢
  have e : -U (1 - idx) idx (1 - idx) / s - s * -(U idx idx (1 - idx) / U idx idx idx) =
      (U idx idx (1 - idx) * U (1 - idx) idx idx - U (1 - idx) idx (1 - idx) * U idx idx idx) /
        (s * U idx idx idx) := by
    rw [← hae]
    field_simp
    ring
  rw [e, div_eq_zero_iff, or_iff_left (mul_ne_zero hs hii), sub_eq_zero, eq_comm]

/-! ### Small floors -/

/-- A positive constant is above every small floor. -/
theorem floor_small {x : ℝ} (hx : 0 < x) : ∀ᶠ eps in 𝓝[>] (0 : ℝ), eps ≤ x := by
  have : Set.Iic x ∈ 𝓝 (0 : ℝ) := Iic_mem_nhds hx
  exact mem_nhdsWithin_of_mem_nhds this

/-- Every small positive floor makes a step for two sources regular. -/
theorem stepRegular_small (np : Numpy ℂ) {phi : F → Fin 2 → Fin t → ℝ} (hphi : ∀ f k s, 0 < phi f k s)
    {Y : Spec F 2 t} (hY : ∀ f, LinearIndependent ℂ (Y f).row) (idx : Fin 2) :
    ∀ᶠ eps in 𝓝[>] (0 : ℝ), StepRegular np (Special.max_flooring eps) phi Y idx := by
  have hU : ∀ f k, (wcov (phi f) Y f k).PosDef := fun f k => wcov_posDef (hphi f) hY f k
  have e0 : ∀ᶠ eps in 𝓝[>] (0 : ℝ), 0 < eps := eventually_mem_nhdsWithin
  have e1 := floor_small one_pos
  have e2 : ∀ᶠ eps in 𝓝[>] (0 : ℝ), ∀ f k i, eps ≤ (np.eigh (wcov (phi f) Y f k)).1 i := by
    rw [Filter.eventually_all]
    intro f
    rw [Filter.eventually_all]
    intro k
    rw [Filter.eventually_all]
    intro i
    exact floor_small ((np.eigh_spec _ (hU f k).isHermitian).posDef_iff.1 (hU f k) i)
  have e3 : ∀ᶠ eps in 𝓝[>] (0 : ℝ), ∀ f, eps ≤ Real.sqrt (exactProblem (n := 0) (wcov (phi f) Y f) idx).z := by
    rw [Filter.eventually_all]
    intro f
    exact floor_small (Real.sqrt_pos.2 (exactProblem_z (hU f) idx))
  have e4 : ∀ᶠ eps in 𝓝[>] (0 : ℝ), ∀ f, (exactProblem (n := 0) (wcov (phi f) Y f) idx).v 0 ≠ 0 →
      eps ≤ ‖(exactProblem (n := 0) (wcov (phi f) Y f) idx).v 0‖ ∧
      eps ≤ ‖(exactProblem (n := 0) (wcov (phi f) Y f) idx).v 0‖ ^ 2 := by
    rw [Filter.eventually_all]
    intro f
    by_cases h : (exactProblem (n := 0) (wcov (phi f) Y f) idx).v 0 = 0
    · exact Filter.Eventually.of_forall fun _ h' => absurd h h'
    · have hn := norm_pos_iff.2 h
      filter_upwards [floor_small hn, floor_small (pow_pos hn 2)] with eps h1 h2 _ using ⟨h1, h2⟩
  filter_upwards [e0, e1, e2, e3, e4] with eps h0 h1 h2 h3 h4
  have hz : Special.max_flooring eps 0 = eps := max_eq_right h0.le
  refine ⟨by rw [hz]; exact h0.le, max_eq_left h1, fun f k => ?_, fun f i => max_eq_left (h2 f idx i), fun f q _ => ?_,
    fun f => ?_⟩
  · exact Mnmf.toPsd_max_fixed np eps (((np.eigh_spec _ (hU f k).isHermitian).sub_posSemidef_iff eps).2 (h2 f k))
  · refine max_eq_left ((h3 f).trans (Real.sqrt_le_sqrt ?_))
    rw [inner]
    have : 0 ≤ (star (q + (exactProblem (n := 0) (wcov (phi f) Y f) idx).v) ⬝ᵥ
        (exactProblem (n := 0) (wcov (phi f) Y f) idx).H *ᵥ
          (q + (exactProblem (n := 0) (wcov (phi f) Y f) idx).v)).re :=
      (exactProblem_posDef (n := 0) (hU f) idx).posSemidef.re_dotProduct_nonneg _
    linarith
  · rw [hz]
    by_cases h : (exactProblem (n := 0) (wcov (phi f) Y f) idx).v 0 = 0
    · exact Or.inl ⟨h, h0⟩
    · exact Or.inr ⟨h, h4 f h⟩

/-- The steps of a sweep with a small floor are regular, and the result does not depend on the floor. -/
theorem sweep_small (np : Numpy ℂ) {max_iter : ℕ} (hm : 0 < max_iter) {phi : F → Fin 2 → Fin t → ℝ}
    (hphi : ∀ f k s, 0 < phi f k s) (l : List (Fin 2)) (Y : Spec F 2 t) (hY : ∀ f, LinearIndependent ℂ (Y f).row) :
    ∃ Y' : Spec F 2 t, (∀ f, LinearIndependent ℂ (Y' f).row) ∧ ∀ᶠ eps in 𝓝[>] (0 : ℝ),
      RegularFold (ipaStep (n := 0) np (Special.max_flooring eps) true max_iter phi)
        (StepRegular np (Special.max_flooring eps) phi) l Y ∧
      l.foldlM (ipaStep (n := 0) np (Special.max_flooring eps) true max_iter phi) Y = .ok Y' := by
  induction l generalizing Y with
  | nil => exact ⟨Y, hY, Filter.Eventually.of_forall fun _ => ⟨trivial, rfl⟩⟩
  | cons b l ih =>
    have h := stepRegular_small np hphi hY b
    obtain ⟨eps0, h0⟩ := h.exists
    obtain ⟨T, h1, h2⟩ := C68_two_sources_step np _ hm hphi hY h0
    obtain ⟨Y', h3, h4⟩ := ih (fun f => T f * Y f) fun f => row_independent (h2 f).1 (hY f)
    refine ⟨Y', h3, ?_⟩
    filter_upwards [h, h4] with eps h5 h6
    have h7 := ipaStep_unique np hm hm hphi hY h5 h0
    rw [h1] at h7
    refine ⟨⟨h5, fun s' hs' => ?_⟩, ?_⟩
    · rw [h7] at hs'
      rw [← Except.ok.inj hs']
      exact h6.1
    · rw [List.foldlM_cons, h7]
      exact h6.2

end Verif.Spatial

namespace Verif.Iva

open Matrix Spatial Scale
open scoped ComplexOrder Topology

variable {F : Type} [Fintype F] {t : ℕ}

/-- One update that does not increase the weighted power of the signals minus twice the logarithm of the determinant does
not increase the loss. -/
theorem step_of_sweep {m : ℕ} {G d : Fin m → Fin t → ℝ → ℝ} (hG : Majorised G d) (floor : ℝ → ℝ)
    (update : Spec F m t → Except PyErr (Spec F m t)) (X : Spec F m t) (hX : ∀ f, LinearIndependent ℂ (X f).row)
    (W : F → Mat m ℂ) (hW : ∀ f, IsUnit (W f).det)
    (hr : (∀ k s, 0 < binNorm (separate X W) k s) ∧ weight floor d (separate X W) = weight id d (separate X W) ∧
      ((∀ k s, 0 < weight floor d (separate X W) k s) →
        ∃ T : F → Mat m ℂ, update (separate X W) = .ok (fun f => T f * separate X W f) ∧
        ∀ f, IsUnit (T f).det ∧ power (weight floor d (separate X W)) (T f * separate X W f)
          - 2 * Real.log ‖(T f).det‖ ≤ power (weight floor d (separate X W)) (separate X W f))) :
    ∃ W' : F → Mat m ℂ, update (separate X W) = .ok (separate X W') ∧ (∀ f, IsUnit (W' f).det) ∧
      lossIp G X W' ≤ lossIp G X W := by
  obtain ⟨h0, h1, h2⟩ := hr
  obtain ⟨phi, hphi⟩ : ∃ phi, phi = weight floor d (separate X W) := ⟨_, rfl⟩
  rw [← hphi] at h1 h2
  obtain ⟨T, h3, h4⟩ := h2 (by
    rw [h1]
    exact weight_id_pos hG h0)
  have hsep : (fun f => T f * separate X W f) = separate X fun f => T f * W f := by
    funext f
    simp only [separate, Matrix.mul_assoc]
  refine ⟨fun f => T f * W f, ?_, fun f => ?_, ?_⟩
  · rw [← hsep]
    exact h3
  · rw [det_mul]
    exact (h4 f).1.mul (hW f)
  · refine mm_step G phi _ _ W _ (fun k s => ?_) fun f => ?_
    · rw [h1]
      exact hG.le k s _ _ (h0 k s) (binNorm_nonneg _ k s)
    · have e := (h4 f).2
      rw [← hsep, det_mul, norm_mul, Real.log_mul (norm_ne_zero_iff.2 (h4 f).1.ne_zero)
        (norm_ne_zero_iff.2 (hW f).ne_zero)]
      dsimp only at e ⊢
      linarith

/-- A run whose sweeps do not increase the weighted power of the signals minus twice the logarithm of the determinant does
not increase the loss. -/
theorem run_of_sweep {m : ℕ} {G d : Fin m → Fin t → ℝ → ℝ} (hG : Majorised G d) (floor : ℝ → ℝ)
    (update : Spec F m t → Except PyErr (Spec F m t)) (Reg : Spec F m t → Prop)
    (hReg : ∀ Y : Spec F m t, (∀ f, LinearIndependent ℂ (Y f).row) → Reg Y →
      (∀ k s, 0 < binNorm Y k s) ∧ weight floor d Y = weight id d Y ∧
      ((∀ k s, 0 < weight floor d Y k s) → ∃ T : F → Mat m ℂ, update Y = .ok (fun f => T f * Y f) ∧
        ∀ f, IsUnit (T f).det ∧
          power (weight floor d Y) (T f * Y f) - 2 * Real.log ‖(T f).det‖ ≤ power (weight floor d Y) (Y f)))
    (X : Spec F m t) (hX : ∀ f, LinearIndependent ℂ (X f).row)
    (W : F → Mat m ℂ) (hW : ∀ f, IsUnit (W f).det) (n_iter : ℕ)
    (hreg : RegularRun update Reg n_iter (separate X W)) :
    ∃ ls, lossList update (lossFree G X) n_iter (separate X W) = .ok ls ∧
      ls.length = n_iter + 1 ∧ ls.Pairwise (· ≥ ·) := by
  exact iss_run X hX _ _ (fun W hW hr => step_of_sweep hG floor update X hX W hW
    (hReg (separate X W) (fun f => row_independent (hW f) (hX f)) hr)) W hW n_iter hreg

/-- Regularity of one `AuxIVA` update with IPA: no source is silent over all bins in any frame, flooring does not act, and
the root findings succeed without a warning. -/
def SafeIpa {n : ℕ} (np : Numpy ℂ) (floor : ℝ → ℝ) (newton_iter : ℕ) (d : Fin (n + 2) → Fin t → ℝ → ℝ)
    (Y : Spec F (n + 2) t) : Prop :=
  (∀ k s, 0 < binNorm Y k s) ∧ weight floor d Y = weight id d Y ∧
    RegularFold (ipaStep np floor true newton_iter fun _ => weight floor d Y)
      (StepSafe np floor newton_iter fun _ => weight floor d Y) (List.finRange (n + 2)) Y

/-- C68: `AuxIVA` with IPA, any number of sources, the default `lqpqm_normalization=True`: for linearly independent mixtures
in every bin, invertible initial filters and a run without warnings in which flooring does not act, all updates succeed and
the recorded loss never increases. -/
theorem C68_run {n : ℕ} (np : Numpy ℂ) {G d : Fin (n + 2) → Fin t → ℝ → ℝ} (hG : Majorised G d) (floor : ℝ → ℝ)
    {newton_iter : ℕ} (hm : 0 < newton_iter) (X : Spec F (n + 2) t) (hX : ∀ f, LinearIndependent ℂ (X f).row)
    (W : F → Mat (n + 2) ℂ) (hW : ∀ f, IsUnit (W f).det) (n_iter : ℕ)
    (hreg : RegularRun (auxIpa np floor true newton_iter d) (SafeIpa np floor newton_iter d) n_iter (separate X W)) :
    ∃ ls, lossList (auxIpa np floor true newton_iter d) (lossFree G X) n_iter (separate X W) = .ok ls ∧
      ls.length = n_iter + 1 ∧ ls.Pairwise (· ≥ ·) :=
  run_of_sweep hG floor _ _ (fun _ hY hr => ⟨hr.1, hr.2.1, fun hpos =>
    C68_sweep np floor hm (phi := fun _ => weight floor d _) (fun _ => hpos) hY hr.2.2⟩) X hX W hW n_iter hreg

/-- Regularity of one `AuxIVA` update with IPA for two sources: no source is silent over all bins in any frame, and flooring
does not act. -/
def RegIpa (np : Numpy ℂ) (floor : ℝ → ℝ) (newton_iter : ℕ) (d : Fin 2 → Fin t → ℝ → ℝ) (Y : Spec F 2 t) : Prop :=
  (∀ k s, 0 < binNorm Y k s) ∧ weight floor d Y = weight id d Y ∧
    RegularFold (ipaStep (n := 0) np floor true newton_iter fun _ => weight floor d Y)
      (StepRegular np floor fun _ => weight floor d Y) (List.finRange 2) Y

/-- C68: `AuxIVA` with IPA, two sources, the default `lqpqm_normalization=True` and any `newton_iter`: for linearly
independent mixtures in every bin, invertible initial filters and a regular run, all updates succeed and the recorded
loss never increases. -/
theorem C68_two_sources_run (np : Numpy ℂ) {G d : Fin 2 → Fin t → ℝ → ℝ} (hG : Majorised G d) (floor : ℝ → ℝ)
    {newton_iter : ℕ} (hm : 0 < newton_iter) (X : Spec F 2 t) (hX : ∀ f, LinearIndependent ℂ (X f).row)
    (W : F → Mat 2 ℂ) (hW : ∀ f, IsUnit (W f).det) (n_iter : ℕ)
    (hreg : RegularRun (auxIpa (n := 0) np floor true newton_iter d) (RegIpa np floor newton_iter d) n_iter
      (separate X W)) :
    ∃ ls, lossList (auxIpa (n := 0) np floor true newton_iter d) (lossFree G X) n_iter (separate X W) = .ok ls ∧
      ls.length = n_iter + 1 ∧ ls.Pairwise (· ≥ ·) :=
  run_of_sweep hG floor _ _ (fun _ hY hr => ⟨hr.1, hr.2.1, fun hpos =>
    C68_two_sources_sweep np floor hm (phi := fun _ => weight floor d _) (fun _ => hpos) hY hr.2.2⟩) X hX W hW n_iter hreg

/-- One update with a small floor is regular. -/
theorem update_small (np : Numpy ℂ) {G d : Fin 2 → Fin t → ℝ → ℝ} (hG : Majorised G d) {newton_iter : ℕ}
    (hm : 0 < newton_iter) (Y : Spec F 2 t) (hY : ∀ f, LinearIndependent ℂ (Y f).row)
    (h0 : ∀ k s, 0 < binNorm Y k s) :
    ∃ Y' : Spec F 2 t, (∀ f, LinearIndependent ℂ (Y' f).row) ∧ ∀ᶠ eps in 𝓝[>] (0 : ℝ),
      RegIpa np (Special.max_flooring eps) newton_iter d Y ∧
      auxIpa (n := 0) np (Special.max_flooring eps) true newton_iter d Y = .ok Y' := by
  obtain ⟨Y', h1, h2⟩ := sweep_small np hm (phi := fun _ => weight id d Y) (fun _ => weight_id_pos hG h0)
    (List.finRange 2) Y hY
  refine ⟨Y', h1, ?_⟩
  have e : ∀ᶠ eps in 𝓝[>] (0 : ℝ), ∀ k s, eps ≤ 2 * binNorm Y k s := by
    rw [Filter.eventually_all]
    intro k
    rw [Filter.eventually_all]
    intro s
    exact floor_small (mul_pos two_pos (h0 k s))
  filter_upwards [h2, e] with eps h3 h4
  have hw : weight (Special.max_flooring eps) d Y = weight id d Y := by
    funext k s
    rw [weight, weight]
    congr 1
    exact max_eq_left (h4 k s)
  refine ⟨⟨h0, hw, ?_⟩, ?_⟩
  · rw [hw]
    exact h3.1
  · rw [auxIpa, hw]
    exact h3.2

/-- C68: `AuxIVA` with IPA, two sources, the default `lqpqm_normalization=True` and any `newton_iter`, with
`flooring_fn` the maximum with a small constant: if the mixtures of every bin are linearly independent, the initial filters
are invertible and no source is silent over all bins in any frame before an update, all updates succeed and the recorded
loss never increases. -/
theorem C68_two_sources (np : Numpy ℂ) {G d : Fin 2 → Fin t → ℝ → ℝ} (hG : Majorised G d)
    {newton_iter : ℕ} (hm : 0 < newton_iter) (X : Spec F 2 t) (hX : ∀ f, LinearIndependent ℂ (X f).row)
    (W : F → Mat 2 ℂ) (hW : ∀ f, IsUnit (W f).det) (n_iter : ℕ) {eps₁ : ℝ} (heps₁ : 0 < eps₁)
    (hsound : ∀ eps, 0 < eps → eps < eps₁ →
      RegularRun (auxIpa (n := 0) np (Special.max_flooring eps) true newton_iter d) (fun Y => ∀ k s, 0 < binNorm Y k s)
        n_iter (separate X W)) :
    ∃ eps₀ > 0, ∀ eps, 0 < eps → eps < eps₀ → ∃ ls,
      lossList (auxIpa (n := 0) np (Special.max_flooring eps) true newton_iter d) (lossFree G X) n_iter (separate X W)
        = .ok ls ∧ ls.length = n_iter + 1 ∧ ls.Pairwise (· ≥ ·) := by
  have key : ∀ (n_iter : ℕ) (Y : Spec F 2 t), (∀ f, LinearIndependent ℂ (Y f).row) →
      (∀ᶠ eps in 𝓝[>] (0 : ℝ), RegularRun (auxIpa (n := 0) np (Special.max_flooring eps) true newton_iter d)
        (fun Y => ∀ k s, 0 < binNorm Y k s) n_iter Y) →
      ∀ᶠ eps in 𝓝[>] (0 : ℝ), RegularRun (auxIpa (n := 0) np (Special.max_flooring eps) true newton_iter d)
        (RegIpa np (Special.max_flooring eps) newton_iter d) n_iter Y := by
    intro n_iter
    induction n_iter with
    | zero => exact fun Y _ _ => Filter.Eventually.of_forall fun _ => trivial
    | succ n_iter ih =>
      intro Y hY h
      obtain ⟨eps1, h1⟩ := h.exists
      obtain ⟨Y', h2, h3⟩ := update_small np hG hm Y hY h1.1
      have h4 := ih Y' h2 (by
        filter_upwards [h, h3] with eps a b using a.2 Y' b.2)
      filter_upwards [h3, h4] with eps a b
      refine ⟨a.1, fun s' hs' => ?_⟩
      rw [a.2] at hs'
      rw [← Except.ok.inj hs']
      exact b
  have h := key n_iter (separate X W) (fun f => row_independent (hW f) (hX f)) (by
    filter_upwards [Ioo_mem_nhdsGT heps₁] with eps h using hsound eps h.1 h.2)
  obtain ⟨eps₀, h0, h1⟩ := (mem_nhdsGT_iff_exists_Ioo_subset).1 h
  exact ⟨eps₀, h0, fun eps h2 h3 =>
    C68_two_sources_run np hG (Special.max_flooring eps) hm X hX W hW n_iter (h1 ⟨h2, h3⟩)⟩

/-- C68 for `AuxLaplaceIVA`. -/
theorem C68_laplace_two_sources (np : Numpy ℂ) {newton_iter : ℕ} (hm : 0 < newton_iter) (X : Spec F 2 t)
    (hX : ∀ f, LinearIndependent ℂ (X f).row) (W : F → Mat 2 ℂ) (hW : ∀ f, IsUnit (W f).det) (n_iter : ℕ)
    {eps₁ : ℝ} (heps₁ : 0 < eps₁)
    (hsound : ∀ eps, 0 < eps → eps < eps₁ →
      RegularRun (auxIpa (n := 0) np (Special.max_flooring eps) true newton_iter laplaceD)
        (fun Y => ∀ k s, 0 < binNorm Y k s) n_iter (separate X W)) :
    ∃ eps₀ > 0, ∀ eps, 0 < eps → eps < eps₀ → ∃ ls,
      lossList (auxIpa (n := 0) np (Special.max_flooring eps) true newton_iter laplaceD) (lossFree laplaceG X) n_iter
        (separate X W) = .ok ls ∧ ls.length = n_iter + 1 ∧ ls.Pairwise (· ≥ ·) :=
  C68_two_sources np laplace_majorised hm X hX W hW n_iter heps₁ hsound

/-- Two sources, two frames, one bin: the hypotheses hold and one iteration is covered, for every small floor. -/
example (np : Numpy ℂ) : ∃ eps₀ > 0, ∀ eps, 0 < eps → eps < eps₀ → ∃ ls,
    lossList (auxIpa (n := 0) np (Special.max_flooring eps) true 1 laplaceD)
      (lossFree laplaceG fun _ : Unit => (!![1, 2; 2, 1] : Matrix (Fin 2) (Fin 2) ℂ)) 1
      (separate (fun _ : Unit => (!![1, 2; 2, 1] : Matrix (Fin 2) (Fin 2) ℂ)) 1) = .ok ls ∧
    ls.length = 2 ∧ ls.Pairwise (· ≥ ·) := by
  have hdet : IsUnit (!![1, 2; 2, 1] : Matrix (Fin 2) (Fin 2) ℂ) := by
    rw [isUnit_iff_isUnit_det, det_fin_two, isUnit_iff_ne_zero]
    norm_num
  refine C68_laplace_two_sources np one_pos _ (fun _ => (linearIndependent_rows_iff_isUnit).mpr hdet) 1 (fun _ => ?_) 1
    one_pos fun eps _ _ => ⟨?_, fun _ _ => trivial⟩
  · simp
  · intro k s
    refine Real.sqrt_pos.mpr ?_
    fin_cases k <;> fin_cases s <;> simp [separate]

end Verif.Iva
