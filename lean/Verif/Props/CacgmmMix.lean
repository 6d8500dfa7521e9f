import Verif.Lemmas.CacgmmMix

/-! # C115: CACGMM and remixed recordings

With `flooring_fn=None`, CACGMM does not care how the microphone signals are combined: mixing them in every bin by an
invertible matrix, with covariances that follow, gives the same posteriors, hence the same masks. In particular neither
`normalization` nor the calibration of the microphones matters. All that is assumed of the recording is that no vector of
observations is zero and that in every bin no channel is a combination of the others. -/

set_option linter.unusedSectionVars false

namespace Verif.CacgmmMix

open Matrix Spatial Scale Cacgmm Mnmf
open MnmfMix (cong cong_smul cong_sum cong_cong cong_one cong_inv cong_posDef isUnit_conj)
open Fdica (PermOpt)
open scoped ComplexOrder

variable {F : Type} [Fintype F] {B n m t : ℕ} [Nonempty (Fin m)]

/-- The recording with the channels of every bin mixed by `A`. -/
def mixX (A : F → Mat m ℂ) (X : Spec F m t) : Spec F m t := fun f => A f * X f

/-- How much louder the mixing makes each vector of observations. -/
noncomputable def stretch (A : F → Mat m ℂ) (X : Spec F m t) (f : F) (j : Fin t) : ℝ :=
  Real.sqrt (∑ c, ‖mixX A X f c j‖ ^ 2) / Real.sqrt (∑ c, ‖X f c j‖ ^ 2)

theorem loud_pos {X : Spec F m t} (hX0 : ∀ f j, ∃ c, X f c j ≠ 0) (f : F) (j : Fin t) :
    0 < Real.sqrt (∑ c, ‖X f c j‖ ^ 2) := by
  obtain ⟨c, hc⟩ := hX0 f j
  exact Real.sqrt_pos.mpr (Finset.sum_pos' (fun c _ => by positivity)
    ⟨c, Finset.mem_univ c, pow_pos (norm_pos_iff.mpr hc) 2⟩)

theorem mixX_ne {A : F → Mat m ℂ} (hA : ∀ f, IsUnit (A f).det) {X : Spec F m t} (hX0 : ∀ f j, ∃ c, X f c j ≠ 0) (f : F)
    (j : Fin t) : ∃ c, mixX A X f c j ≠ 0 := by
  obtain ⟨c, hc⟩ := hX0 f j
  by_contra h
  push Not at h
  refine hc ?_
  have h1 : A f *ᵥ (fun c => X f c j) = 0 := funext h
  have h2 := congrArg (fun v => (A f)⁻¹ *ᵥ v) h1
  simp only [mulVec_mulVec, nonsing_inv_mul _ (hA f), one_mulVec, mulVec_zero] at h2
  exact congrFun h2 c

theorem stretch_pos {A : F → Mat m ℂ} (hA : ∀ f, IsUnit (A f).det) {X : Spec F m t} (hX0 : ∀ f j, ∃ c, X f c j ≠ 0)
    (f : F) (j : Fin t) : 0 < stretch A X f j := div_pos (loud_pos (mixX_ne hA hX0) f j) (loud_pos hX0 f j)

theorem unitInput_mix {A : F → Mat m ℂ} {X : Spec F m t} (hX0 : ∀ f j, ∃ c, X f c j ≠ 0) (f : F) (j : Fin t) :
    unitInput id (mixX A X) f j = ((stretch A X f j)⁻¹ : ℂ) • (A f *ᵥ unitInput id X f j) := by
  funext c
  have h : ((Real.sqrt (∑ c, ‖X f c j‖ ^ 2) : ℝ) : ℂ) ≠ 0 := by exact_mod_cast (loud_pos hX0 f j).ne'
  have e : (A f *ᵥ unitInput id X f j) c = mixX A X f c j / (Real.sqrt (∑ c, ‖X f c j‖ ^ 2) : ℂ) := by
    simp only [mulVec, dotProduct, unitInput, mixX, mul_apply, id, ← mul_div_assoc, Finset.sum_div]
  rw [Pi.smul_apply, smul_eq_mul, e, unitInput, stretch, id]
  push_cast
  rw [inv_div, div_mul_div_comm, mul_comm, mul_div_mul_right _ _ h]

/-- The state of the one run is that of the other, mixed, on any scale. -/
def Mixed (A : F → Mat m ℂ) (s s' : CSt F n m) : Prop :=
  ∃ c : Fin (n + 1) → F → ℝ, (∀ k f, 0 < c k f) ∧ s' = mix A c s

/-- One update of related states: the same posterior, related parameters. -/
theorem step_mix (np np' : Numpy ℂ) (norm norm' : Bool) {A : F → Mat m ℂ} (hA : ∀ f, IsUnit (A f).det) {X : Spec F m t}
    (ht : 0 < t) (hX : ∀ f, LinearIndependent ℂ (X f).row) (hX0 : ∀ f j, ∃ c, X f c j ≠ 0) {s s' : CSt F n m}
    (hs : CInv id (unitInput id X) s) (h : Mixed A s s') :
    ∃ u u' γ, updateOnce np norm id (unitInput id X) s = .ok (u, γ) ∧
      updateOnce np' norm' id (unitInput id (mixX A X)) s' = .ok (u', γ) ∧ CInv id (unitInput id X) u ∧ Mixed A u u' := by
  obtain ⟨c, hc, rfl⟩ := h
  obtain ⟨-, hReg⟩ := creg_id (n := n) np norm X ht hX hX0
  have hr := hReg s hs
  have hν := stretch_pos hA hX0
  have hZ := unitInput_mix (A := A) hX0
  have hi := inv_mix hA hc hν hZ hs
  have e1 := updateOnce_eq np norm id (unitInput id X) hs.1
  have e2 := updateOnce_eq np' norm' id (unitInput id (mixX A X)) hi.1
  have hB : ∀ k f, (params np id (unitInput id X) s).B k f
      = rawCovariance (unitInput id X) (q (unitInput id X) s) (post id (unitInput id X) s) k f := by
    intro k f
    simp only [params, quadForm_eq hs]
    exact hr.psd k f
  have hp : CPos (params np id (unitInput id X) s) :=
    ⟨(params_mixing np id _ ht s).1, fun k f => by rw [hB]; exact hr.posDef k f⟩
  have hP : params np' id (unitInput id (mixX A X)) (mix A c s) = mix A c (params np id (unitInput id X) s) := by
    have h1 : (params np' id (unitInput id (mixX A X)) (mix A c s)).B = (mix A c (params np id (unitInput id X) s)).B := by
      funext k f
      simp only [params, quadForm_eq hi]
      rw [post_mix hA hc hν hZ hs]
      rw [raw_mix hA hc hν hZ hs.1]
      have h2 := (pos_mix hA hc hp).2 k f
      simp only [mix, hB] at h2 ⊢
      rw [toPsd_id np' h2.1]
      congr 2
      exact (hB k f).symm
    have h2 : (params np' id (unitInput id (mixX A X)) (mix A c s)).α = (mix A c (params np id (unitInput id X) s)).α := by
      funext k f
      change meanT (post id (unitInput id (mixX A X)) (mix A c s) k f) = meanT (post id (unitInput id X) s k f)
      rw [post_mix hA hc hν hZ hs]
    cases e : params np' id (unitInput id (mixX A X)) (mix A c s)
    rw [e] at h1 h2
    simp only at h1 h2
    rw [h1, h2]
  rw [hP, post_mix hA hc hν hZ hs] at e2
  obtain ⟨c1, hc1, g1⟩ := norm_mix norm hp
  obtain ⟨c2, hc2, g2⟩ := norm_mix norm' (pos_mix hA hc hp)
  refine ⟨_, _, _, e1, e2, ?_, fun k f => c2 k f * c k f * (c1 k f)⁻¹, fun k f =>
    mul_pos (mul_pos (hc2 k f) (hc k f)) (inv_pos.mpr (hc1 k f)), ?_⟩
  · obtain ⟨u, e3, h3, -⟩ := c_step np norm id (unitInput id X) ht s hs hr
    rw [e1] at e3
    cases e3
    exact h3
  · rw [g1, g2, mix_mix, mix_mix]
    simp only [Matrix.one_mul, Matrix.mul_one]
    congr 1
    funext k f
    rw [mul_assoc, inv_mul_cancel₀ (hc1 k f).ne', mul_one]

theorem iterate_mix (np np' : Numpy ℂ) (norm norm' : Bool) {A : F → Mat m ℂ} (hA : ∀ f, IsUnit (A f).det) {X : Spec F m t}
    (ht : 0 < t) (hX : ∀ f, LinearIndependent ℂ (X f).row) (hX0 : ∀ f j, ∃ c, X f c j ≠ 0) (n_iter : ℕ) {s s' : CSt F n m}
    (hs : CInv id (unitInput id X) s) (h : Mixed A s s') :
    ∃ u u', iterate np norm id (unitInput id X) n_iter s = .ok u ∧
      iterate np' norm' id (unitInput id (mixX A X)) n_iter s' = .ok u' ∧ CInv id (unitInput id X) u ∧ Mixed A u u' := by
  induction n_iter generalizing s s' with
  | zero => exact ⟨s, s', rfl, rfl, hs, h⟩
  | succ i ih =>
    obtain ⟨u, u', γ, e1, e2, hu, hm⟩ := step_mix np np' norm norm' hA ht hX hX0 hs h
    obtain ⟨v, v', i1, i2, hv, hm'⟩ := ih hu hm
    refine ⟨v, v', ?_, ?_, hv, hm'⟩
    · rw [iterate, e1]
      exact i1
    · rw [iterate, e2]
      exact i2

/-- C115: all losses of the mixed recording are shifted by the same number. -/
theorem C115_loss (np np' : Numpy ℂ) (norm norm' : Bool) {A : F → Mat m ℂ} (hA : ∀ f, IsUnit (A f).det) {X : Spec F m t}
    (ht : 0 < t) (hX : ∀ f, LinearIndependent ℂ (X f).row) (hX0 : ∀ f j, ∃ c, X f c j ≠ 0) (n_iter : ℕ) {s : CSt F n m}
    (hs : CPos s) (hα : ∀ f, ∑ k, s.α k f = 1) {c : Fin (n + 1) → F → ℝ} (hc : ∀ k f, 0 < c k f) :
    ∃ l, lossList (fun s => (updateOnce np norm id (unitInput id X) s).map Prod.fst) (loss id (unitInput id X)) n_iter s
        = .ok l ∧
      lossList (fun s => (updateOnce np' norm' id (unitInput id (mixX A X)) s).map Prod.fst)
          (loss id (unitInput id (mixX A X))) n_iter ⟨s.α, fun k f => (c k f : ℂ) • (A f * s.B k f * (A f)ᴴ)⟩
        = .ok (l.map (· + ∑ f, (2 * Real.log ‖(A f).det‖ - 2 * m * meanT fun j => Real.log (stretch A X f j)))) := by
  have key : ∀ (n_iter : ℕ) (s s' : CSt F n m), CInv id (unitInput id X) s → Mixed A s s' →
      ∃ l, lossList (fun s => (updateOnce np norm id (unitInput id X) s).map Prod.fst) (loss id (unitInput id X)) n_iter s
          = .ok l ∧
        lossList (fun s => (updateOnce np' norm' id (unitInput id (mixX A X)) s).map Prod.fst)
            (loss id (unitInput id (mixX A X))) n_iter s'
          = .ok (l.map (· + ∑ f, (2 * Real.log ‖(A f).det‖ - 2 * m * meanT fun j => Real.log (stretch A X f j)))) := by
    intro n_iter
    have hl : ∀ s s' : CSt F n m, CInv id (unitInput id X) s → Mixed A s s' →
        loss id (unitInput id X) s = .ok (val (unitInput id X) s) ∧ loss id (unitInput id (mixX A X)) s'
          = .ok (val (unitInput id X) s + ∑ f, (2 * Real.log ‖(A f).det‖ - 2 * m * meanT fun j => Real.log (stretch A X f j))) := by
      rintro s s' hs ⟨c, hc, rfl⟩
      have hν := stretch_pos hA hX0
      have hZ := unitInput_mix (A := A) hX0
      rw [loss_eq hs, loss_eq (inv_mix hA hc hν hZ hs), val_mix hA hc hν hZ ht hs]
      exact ⟨rfl, rfl⟩
    induction n_iter with
    | zero =>
      intro s s' hs h
      obtain ⟨h1, h2⟩ := hl s s' hs h
      exact ⟨[_], by rw [lossList, h1]; rfl, by rw [lossList, h2]; rfl⟩
    | succ i ih =>
      intro s s' hs h
      obtain ⟨h1, h2⟩ := hl s s' hs h
      obtain ⟨u, u', γ, e1, e2, hu, hm⟩ := step_mix np np' norm norm' hA ht hX hX0 hs h
      obtain ⟨l, i1, i2⟩ := ih u u' hu hm
      refine ⟨val (unitInput id X) s :: l, ?_, ?_⟩
      · rw [lossList, h1, e1]
        change (lossList _ _ i u >>= fun vs => Except.ok (_ :: vs)) = _
        rw [i1]
        rfl
      · rw [lossList, h2, e2]
        change (lossList _ _ i u' >>= fun vs => Except.ok (_ :: vs)) = _
        rw [i2]
        rfl
  obtain ⟨hI, -⟩ := creg_id (n := n) np norm X ht hX hX0
  exact key n_iter s _ (hI s hs hα) ⟨c, hc, rfl⟩

/-- C115: a call on the recording with the channels of every bin mixed by `A`, from parameters that follow, returns the
same posterior and mixing weights. -/
theorem C115_call (np np' : Numpy ℂ) (norm norm' : Bool) {A : F → Mat m ℂ} (hA : ∀ f, IsUnit (A f).det) {X : Spec F m t}
    (ht : 0 < t) (hX : ∀ f, LinearIndependent ℂ (X f).row) (hX0 : ∀ f j, ∃ c, X f c j ≠ 0) (r r' : Fin m)
    (σ : F → Equiv.Perm (Fin (n + 1))) (n_iter : ℕ) {s : CSt F n m} (hs : CPos s) (hα : ∀ f, ∑ k, s.α k f = 1)
    {c : Fin (n + 1) → F → ℝ} (hc : ∀ k f, 0 < c k f) :
    ∃ (u : CSt F n m) (γ : Posterior F n t) (c₁ : Fin (n + 1) → F → ℝ), (∀ k f, 0 < c₁ k f) ∧
      call np norm id X r σ n_iter s = .ok (u, γ, fun k f j => γ k f j * X f r j) ∧
      call np' norm' id (fun f => A f * X f) r' σ n_iter ⟨s.α, fun k f => (c k f : ℂ) • (A f * s.B k f * (A f)ᴴ)⟩
        = .ok (⟨u.α, fun k f => (c₁ k f : ℂ) • (A f * u.B k f * (A f)ᴴ)⟩, γ,
            fun k f j => γ k f j * ∑ d, A f r' d * X f d j) := by
  obtain ⟨hI, -⟩ := creg_id (n := n) np norm X ht hX hX0
  obtain ⟨u, u', i1, i2, hu, c₁, hc₁, rfl⟩ := iterate_mix np np' norm norm' hA ht hX hX0 n_iter (hI s hs hα)
    (s' := ⟨s.α, fun k f => (c k f : ℂ) • (A f * s.B k f * (A f)ᴴ)⟩) ⟨c, hc, rfl⟩
  have hν := stretch_pos hA hX0
  have hZ := unitInput_mix (A := A) hX0
  refine ⟨(align σ u (post id (unitInput id X) u)).1, (align σ u (post id (unitInput id X) u)).2,
    fun k f => c₁ (σ f k) f, fun k f => hc₁ (σ f k) f, ?_, ?_⟩
  · rw [call]
    simp only [i1, Bind.bind, Except.bind, updatePosterior_eq _ _ hu.1]
    rfl
  · rw [call]
    change (iterate np' norm' id (unitInput id (mixX A X)) n_iter _ >>= _) = _
    simp only [i2, Bind.bind, Except.bind]
    change (updatePosterior id (unitInput id (mixX A X)) (mix A c₁ u) >>= _) = _
    rw [updatePosterior_eq _ _ (pos_mix hA hc₁ hu.1), post_mix hA hc₁ hν hZ hu]
    rfl

/-! ## Calls with random initial values -/

/-- Initial parameters for microphones with other gains. -/
theorem init_mix {F : Type} (a : Fin (n + 1) → F → ℝ) {d : Fin (n + 1) → F → Fin m → ℝ} (hd : ∀ k f c, 0 < d k f c)
    {g : F → Fin m → ℂ} (hg : ∀ f c, g f c ≠ 0) :
    ∃ c : Fin (n + 1) → F → ℝ, (∀ k f, 0 < c k f) ∧ initParameters a (fun k f i => ‖g f i‖ ^ 2 * d k f i)
      = ⟨(initParameters a d).α, fun k f => (c k f : ℂ) • (diagonal (g f) * (initParameters a d).B k f * (diagonal (g f))ᴴ)⟩ := by
  have h1 : ∀ k f, 0 < ∑ c, d k f c := fun k f => Finset.sum_pos (fun c _ => hd k f c) Finset.univ_nonempty
  have h2 : ∀ k f, 0 < ∑ i, ‖g f i‖ ^ 2 * d k f i := fun k f =>
    Finset.sum_pos (fun i _ => mul_pos (pow_pos (norm_pos_iff.mpr (hg f i)) 2) (hd k f i)) Finset.univ_nonempty
  refine ⟨fun k f => (∑ c, d k f c) / ∑ i, ‖g f i‖ ^ 2 * d k f i, fun k f => div_pos (h1 k f) (h2 k f), ?_⟩
  simp only [initParameters, CSt.mk.injEq, true_and, diagonal_conjTranspose, diagonal_mul_diagonal, ← diagonal_smul]
  funext k f
  congr 1
  funext i
  have e1 : ((∑ c, d k f c : ℝ) : ℂ) ≠ 0 := by exact_mod_cast (h1 k f).ne'
  have e2 : ((∑ i, ‖g f i‖ ^ 2 * d k f i : ℝ) : ℂ) ≠ 0 := by exact_mod_cast (h2 k f).ne'
  have e3 : g f i * star (g f i) = ((‖g f i‖ ^ 2 : ℝ) : ℂ) := by
    rw [RCLike.star_def, Complex.mul_conj, Complex.normSq_eq_norm_sq]
  rw [Pi.smul_apply, smul_eq_mul, Pi.star_apply, mul_right_comm (g f i), e3, Complex.ofReal_div, Complex.ofReal_div,
    Complex.ofReal_div, Complex.ofReal_mul]
  field_simp

/-- C115: the calibration of the microphones does not matter. If every microphone gets its own gain in every bin and the random
initial covariances follow, a call returns the same posterior, up to the order in which the alignment leaves the sources of
each bin, and the output with the gain of the reference microphone. -/
theorem C115_calibration {R R' : Type} (np np' : Numpy ℂ) (srt srt' : Permutation.Argsort)
    (draw : R → ((Fin (n + 1) → Fin B → ℝ) × (Fin (n + 1) → Fin B → Fin m → ℝ)) × R)
    (draw' : R' → ((Fin (n + 1) → Fin B → ℝ) × (Fin (n + 1) → Fin B → Fin m → ℝ)) × R') (norm norm' : Bool)
    (opt opt' : PermOpt) (gi li gi' li' : Option ℤ) (hopt : ValidOption opt gi li) (hopt' : ValidOption opt' gi' li')
    {g : Fin B → Fin m → ℂ} (hg : ∀ f c, g f c ≠ 0) {X : Spec (Fin B) m t} (ht : 0 < t) (hB : 0 < B)
    (hX : ∀ f, LinearIndependent ℂ (X f).row) (hX0 : ∀ f j, ∃ c, X f c j ≠ 0) (r : Fin m) (n_iter : ℕ) (rng : R) (rng' : R')
    (ha : ∀ k f, 0 < (draw rng).1.1 k f) (hd : ∀ k f c, 0 < (draw rng).1.2 k f c)
    (hdraw : (draw' rng').1 = ((draw rng).1.1, fun k f c => ‖g f c‖ ^ 2 * (draw rng).1.2 k f c)) :
    ∃ (τ : Fin B → Equiv.Perm (Fin (n + 1))) (s s' : CSt (Fin B) n m) (γ : Posterior (Fin B) n t),
      callWith np srt draw norm opt gi li id X r n_iter rng = .ok ((draw rng).2, s, γ, fun k f j => γ k f j * X f r j) ∧
      callWith np' srt' draw' norm' opt' gi' li' id (fun f => Matrix.of fun c j => g f c * X f c j) r n_iter rng'
        = .ok ((draw' rng').2, s', fun k f => γ (τ f k) f, fun k f j => g f r * (γ (τ f k) f j * X f r j)) ∧
      (opt.truthy = false → opt'.truthy = false → τ = 1) := by
  obtain ⟨p1, p2, p3, -⟩ := C85_initial (draw rng).1.1 (draw rng).1.2 ha hd
  obtain ⟨c, hc, hi⟩ := init_mix (draw rng).1.1 hd hg
  have hA : ∀ f, IsUnit (diagonal (g f)).det := fun f => by
    rw [det_diagonal, isUnit_iff_ne_zero]
    exact Finset.prod_ne_zero_iff.mpr fun c _ => hg f c
  have eX : (fun f => Matrix.of fun c j => g f c * X f c j) = fun f => diagonal (g f) * X f := by
    funext f
    ext c j
    rw [diagonal_mul, of_apply]
  have eY : ∀ f j, ∑ d, diagonal (g f) r d * X f d j = g f r * X f r j := fun f j => by
    rw [Fintype.sum_eq_single r fun d h => by rw [diagonal_apply_ne _ h.symm, zero_mul], diagonal_apply_eq]
  have get : ∀ {R : Type} (np : Numpy ℂ) (srt : Permutation.Argsort)
      (draw : R → ((Fin (n + 1) → Fin B → ℝ) × (Fin (n + 1) → Fin B → Fin m → ℝ)) × R) (norm : Bool) (opt : PermOpt)
      (gi li : Option ℤ), ValidOption opt gi li → ∀ (X : Spec (Fin B) m t) (rng : R),
      ∃ σ : Fin B → Equiv.Perm (Fin (n + 1)), callWith np srt draw norm opt gi li id X r n_iter rng
        = (call np norm id X r σ n_iter (initParameters (draw rng).1.1 (draw rng).1.2)).map
            (fun out => ((draw rng).2, out)) ∧ (opt.truthy = false → σ = 1) := by
    intro R np srt draw norm opt gi li h X rng
    cases e : opt.truthy with
    | true =>
      obtain ⟨σ, h1⟩ := C85_call np srt draw norm opt gi li h id X r n_iter rng hB
      exact ⟨σ, h1, (fun h => nomatch h)⟩
    | false =>
      refine ⟨1, ?_, fun _ => rfl⟩
      simp only [callWith, call, Bind.bind, Except.bind, Except.map, e, Bool.false_eq_true, if_false]
      cases iterate np norm id (unitInput id X) n_iter (initParameters (draw rng).1.1 (draw rng).1.2) with
      | error => rfl
      | ok s =>
        simp only []
        cases updatePosterior id (unitInput id X) s with
        | error => rfl
        | ok γ => rfl
  obtain ⟨σ, h1, t1⟩ := get np srt draw norm opt gi li hopt X rng
  obtain ⟨σ', h2, t2⟩ := get np' srt' draw' norm' opt' gi' li' hopt' (fun f => Matrix.of fun c j => g f c * X f c j) rng'
  obtain ⟨u, γ, c₁, -, k1, k2⟩ := C115_call np np' norm norm' hA ht hX hX0 r r (fun _ => 1) n_iter ⟨p1, p3⟩ p2 hc
  have re : ∀ (np : Numpy ℂ) (norm : Bool) (X : Spec (Fin B) m t) (σ : Fin B → Equiv.Perm (Fin (n + 1))) (s : CSt (Fin B) n m),
      call np norm id X r σ n_iter s = (call np norm id X r (fun _ => 1) n_iter s).map fun p =>
        (⟨fun k f => p.1.α (σ f k) f, fun k f => p.1.B (σ f k) f⟩, fun k f => p.2.1 (σ f k) f, fun k f j => p.2.2 (σ f k) f j) := by
    intro np norm X σ s
    simp only [call, Bind.bind, Except.bind, Except.map]
    cases iterate np norm id (unitInput id X) n_iter s with
    | error => rfl
    | ok s =>
      simp only []
      cases updatePosterior id (unitInput id X) s with
      | error => rfl
      | ok γ => rfl
  refine ⟨fun f => (σ' f).trans (σ f).symm, ⟨fun k f => u.α (σ f k) f, fun k f => u.B (σ f k) f⟩,
    ⟨fun k f => u.α (σ' f k) f, fun k f => (c₁ (σ' f k) f : ℂ) • (diagonal (g f) * u.B (σ' f k) f * (diagonal (g f))ᴴ)⟩,
    fun k f => γ (σ f k) f, ?_, ?_, ?_⟩
  · rw [h1, re, k1]
    rfl
  · rw [h2, hdraw, re, eX]
    simp only [hi]
    rw [k2]
    simp only [Except.map, eY, Equiv.trans_apply, Equiv.apply_symm_apply, mul_left_comm]
  · intro o1 o2
    rw [t1 o1, t2 o2]
    rfl

/-- C115: `normalization` does not influence what CACGMM returns (with the same random numbers), except that two calls may
leave the sources of a bin in another order if they align them. -/
theorem C115_normalization {R : Type} (np np' : Numpy ℂ) (srt : Permutation.Argsort)
    (draw : R → ((Fin (n + 1) → Fin B → ℝ) × (Fin (n + 1) → Fin B → Fin m → ℝ)) × R) (norm norm' : Bool)
    (opt : PermOpt) (gi li : Option ℤ) (hopt : ValidOption opt gi li) {X : Spec (Fin B) m t} (ht : 0 < t) (hB : 0 < B)
    (hX : ∀ f, LinearIndependent ℂ (X f).row) (hX0 : ∀ f j, ∃ c, X f c j ≠ 0) (r : Fin m) (n_iter : ℕ) (rng : R)
    (ha : ∀ k f, 0 < (draw rng).1.1 k f) (hd : ∀ k f c, 0 < (draw rng).1.2 k f c) :
    ∃ (τ : Fin B → Equiv.Perm (Fin (n + 1))) (s s' : CSt (Fin B) n m) (γ : Posterior (Fin B) n t),
      callWith np srt draw norm opt gi li id X r n_iter rng = .ok ((draw rng).2, s, γ, fun k f j => γ k f j * X f r j) ∧
      callWith np' srt draw norm' opt gi li id X r n_iter rng
        = .ok ((draw rng).2, s', fun k f => γ (τ f k) f, fun k f j => γ (τ f k) f j * X f r j) ∧
      (opt.truthy = false → τ = 1) := by
  obtain ⟨τ, s, s', γ, h1, h2, h3⟩ := C115_calibration np np' srt srt draw draw norm norm' opt opt gi li gi li hopt hopt
    (g := fun _ _ => 1) (fun _ _ => one_ne_zero) ht hB hX hX0 r n_iter rng rng ha hd
    (by simp only [norm_one, one_pow, one_mul])
  simp only [one_mul] at h2
  exact ⟨τ, s, s', γ, h1, h2, fun h => h3 h h⟩

theorem ex_indep (f : Fin 2) : LinearIndependent ℂ ((fun _ : Fin 2 => !![(1 : ℂ), 2, 0; 0, 1, 1]) f).row := by
  rw [Fintype.linearIndependent_iff]
  intro g hg i
  have h0 := congrFun hg 0
  have h2 := congrFun hg 2
  simp [Fin.sum_univ_two, Matrix.row] at h0 h2
  fin_cases i
  · exact h0
  · exact h2

theorem ex_audible (f : Fin 2) (j : Fin 3) : ∃ c, (fun _ : Fin 2 => !![(1 : ℂ), 2, 0; 0, 1, 1]) f c j ≠ 0 := by
  fin_cases j
  · exact ⟨0, by simp⟩
  · exact ⟨0, by simp⟩
  · exact ⟨1, by simp⟩

/-- Three sources, two microphones one of which has ten times the gain it had, with alignment in the one call only. -/
example (np np' : Numpy ℂ) (srt : Permutation.Argsort) (n_iter : ℕ) :
    ∃ (τ : Fin 2 → Equiv.Perm (Fin 3)) (s s' : CSt (Fin 2) 2 2) (γ : Posterior (Fin 2) 2 3),
      callWith np srt (fun _ : Unit => ((fun k _ => k + 1, fun k f c => k + f + c + 1), ())) true (.bool true) none none id
          (fun _ => !![1, 2, 0; 0, 1, 1]) 0 n_iter ()
        = .ok ((), s, γ, fun k f j => γ k f j * (fun _ : Fin 2 => !![1, 2, 0; 0, 1, 1]) f 0 j) ∧
      callWith np' srt (fun _ : Unit => ((fun k _ => k + 1, fun k f c => ‖![(1 : ℂ), 10] c‖ ^ 2 * (k + f + c + 1)), ())) false
          (.bool false) none none id (fun _ => Matrix.of fun c j => ![1, 10] c * !![1, 2, 0; 0, 1, 1] c j) 0 n_iter ()
        = .ok ((), s', fun k f => γ (τ f k) f, fun k f j => 1 * (γ (τ f k) f j * (fun _ : Fin 2 => !![1, 2, 0; 0, 1, 1]) f 0 j)) := by
  obtain ⟨τ, s, s', γ, h1, h2, -⟩ := C115_calibration np np' srt srt
    (fun _ : Unit => ((fun (k : Fin 3) (_ : Fin 2) => (k : ℝ) + 1, fun (k : Fin 3) (f : Fin 2) (c : Fin 2) => (k : ℝ) + f + c + 1), ()))
    (fun _ : Unit => ((fun (k : Fin 3) (_ : Fin 2) => (k : ℝ) + 1,
      fun (k : Fin 3) (f : Fin 2) (c : Fin 2) => ‖![(1 : ℂ), 10] c‖ ^ 2 * ((k : ℝ) + f + c + 1)), ()))
    true false (.bool true) (.bool false) none none none none (.inr (.inr (.inr ⟨.inl rfl, .inl le_rfl⟩))) (.inl rfl)
    (g := fun _ => ![1, 10]) (fun _ c => by fin_cases c <;> simp) (by norm_num) (by norm_num) ex_indep ex_audible 0 n_iter () ()
    (fun k _ => by positivity) (fun k f c => by positivity) rfl
  exact ⟨τ, s, s', γ, h1, h2⟩

/-- The mixing of the example below: one channel doubled and the other with the first added. -/
def exA : Mat 2 ℂ := !![2, 0; 1, 1]

/-- Two sources from covariances `1`, and the same recording mixed by `exA`, with the second channel as reference. -/
example (np np' : Numpy ℂ) (n_iter : ℕ) (s : CSt (Fin 2) 1 2) (hs : s = ⟨fun k _ => ![1 / 3, 2 / 3] k, fun _ _ => 1⟩)
    (X : Spec (Fin 2) 2 3) (hX : X = fun _ => !![1, 2, 0; 0, 1, 1]) :
    ∃ (u : CSt (Fin 2) 1 2) (γ : Posterior (Fin 2) 1 3) (c₁ : Fin 2 → Fin 2 → ℝ), (∀ k f, 0 < c₁ k f) ∧
      call np true id X 0 (fun _ => 1) n_iter s = .ok (u, γ, fun k f j => γ k f j * X f 0 j) ∧
      call np' false id (fun f => exA * X f) 1 (fun _ => 1) n_iter
          ⟨s.α, fun k f => ((1 : ℝ) : ℂ) • (exA * s.B k f * exAᴴ)⟩
        = .ok (⟨u.α, fun k f => (c₁ k f : ℂ) • (exA * u.B k f * exAᴴ)⟩, γ,
            fun k f j => γ k f j * ∑ d, exA 1 d * X f d j) := by
  have h1 : CPos s := by
    rw [hs]
    exact ⟨fun k _ => by fin_cases k <;> norm_num, fun _ _ => PosDef.one⟩
  have h2 : ∀ f, ∑ k, s.α k f = 1 := by
    rw [hs]
    intro f
    simp [Fin.sum_univ_two]
    norm_num
  exact C115_call np np' true false (A := fun _ => exA) (fun _ => by simp [exA, det_fin_two]) (by norm_num)
    (by rw [hX]; exact ex_indep) (by rw [hX]; exact ex_audible) 0 1 (fun _ => 1) n_iter h1 h2 (c := fun _ _ => 1)
    fun _ _ => one_pos

end Verif.CacgmmMix
