import Verif.Model.Lifecycle
import Verif.Props.Scale
import Verif.Props.Transform

/-! # C26, C49: results reported after scale restoration, repeated calls -/

namespace Verif.Lifecycle

open Matrix Scale
open scoped ComplexOrder

variable {n t : ℕ} {F : Type}

/-- The option values that ask for projection back, as documented. -/
def AsksPB (sr : ScaleOpt) : Prop :=
  sr = .bool true ∨ sr = .str "projection_back" ∨ sr = .str "projection-back" ∨ sr = .str "PB"

/-- The option values that ask for the minimal distortion principle. -/
def AsksMDP (sr : ScaleOpt) : Prop :=
  sr = .str "minimal_distortion_principle" ∨ sr = .str "minimal-distortion-principle" ∨ sr = .str "MDP"

/-- The option values that switch scale restoration off. -/
def AsksNone (sr : ScaleOpt) : Prop := sr = .bool false ∨ sr = .str ""

theorem restore_pb {α : Type} {sr : ScaleOpt} (h : AsksPB sr) (a b : Except PyErr α) :
    sr.truthy = true ∧ restoreScale sr a b = a := by
  rcases h with h | h | h | h <;> subst h <;>
    simp [ScaleOpt.truthy, restoreScale, projectionBackKeywords]

theorem restore_mdp {α : Type} {sr : ScaleOpt} (h : AsksMDP sr) (a b : Except PyErr α) :
    sr.truthy = true ∧ restoreScale sr a b = b := by
  rcases h with h | h | h <;> subst h <;>
    simp [ScaleOpt.truthy, restoreScale, projectionBackKeywords, mdpKeywords]

theorem restore_none {sr : ScaleOpt} (h : AsksNone sr) : sr.truthy = false := by
  rcases h with h | h <;> subst h <;> simp [ScaleOpt.truthy]

theorem restore_other {α : Type} {sr : ScaleOpt} (h0 : ¬ AsksNone sr) (h1 : ¬ AsksPB sr)
    (h2 : ¬ AsksMDP sr) (a b : Except PyErr α) :
    sr.truthy = true ∧ restoreScale sr a b = .error .value := by
  cases sr with
  | bool b => cases b <;> simp [AsksNone, AsksPB] at h0 h1
  | str s =>
    simp only [AsksNone, AsksPB, AsksMDP, reduceCtorEq, ScaleOpt.str.injEq, false_or, not_or] at h0 h1 h2
    simp [ScaleOpt.truthy, restoreScale, projectionBackKeywords, mdpKeywords, h0, h1, h2]

theorem mdp_diag (r : Fin n) (Y X : Spec F n t) (f : F) :
    ∃ d : Fin n → ℂ, mdp r Y X f = diagonal d * Y f :=
  ⟨_, by ext i k; rw [diagonal_mul]; rfl⟩

theorem refit (D W : Mat n ℂ) (X : Matrix (Fin n) (Fin t) ℂ) (hX : IsUnit (X * Xᴴ).det) :
    D * (W * X) * Xᴴ * (X * Xᴴ)⁻¹ = D * W := by
  calc _ = D * W * ((X * Xᴴ) * (X * Xᴴ)⁻¹) := by simp only [Matrix.mul_assoc]
    _ = _ := by rw [mul_nonsing_inv _ hX, Matrix.mul_one]

private theorem inv_ok {W : F → Mat n ℂ} (h : ∀ f, IsUnit (W f).det) :
    npInvB W = .ok fun f => (W f)⁻¹ := by rw [npInvB, if_pos h]

private theorem pbd_diag {r : Fin n} {Y X Y' : Spec F n t} (h : projectionBackData r Y X = .ok Y') (f : F) :
    ∃ d : Fin n → ℂ, Y' f = diagonal d * Y f := by
  simp only [projectionBackData, bind, Except.bind] at h
  split at h
  · cases h
  rename_i S _
  refine ⟨fun i => S f r i, ?_⟩
  rw [← Except.ok.inj h]
  ext i k
  rw [diagonal_mul, mul_comm]
  rfl

/-- C26 for methods with a demixing filter (FDICA, IVA, ILRMA, IPSDTA and the proximal methods): the
signals returned are the reported filter applied to the input, and they are the signals before the
restoration, restored by the requested technique. Unknown options raise `ValueError`. -/
theorem C26_filter_methods (sr : ScaleOpt) (r : Fin n) (X : Spec F n t) (W : F → Mat n ℂ)
    (hW : ∀ f, IsUnit (W f).det) (hX : ∀ f, IsUnit (X f * (X f)ᴴ).det) :
    (AsksNone sr → finish sr r X W = .ok (separate X W, W)) ∧
    (AsksPB sr → ∃ V, finish sr r X W = .ok (separate X V, V) ∧
      projectionBackData r (separate X W) X = .ok (separate X V)) ∧
    (AsksMDP sr → ∃ V, finish sr r X W = .ok (separate X V, V) ∧
      mdp r (separate X W) X = separate X V) ∧
    (¬ AsksNone sr → ¬ AsksPB sr → ¬ AsksMDP sr → finish sr r X W = .error .value) := by
  refine ⟨fun h => ?_, fun h => ?_, fun h => ?_, fun h0 h1 h2 => ?_⟩
  · simp [finish, restore_none h, bind, Except.bind]
  · obtain ⟨V, hV, hd⟩ := C24_data_eq_filter r W X hW hX
    refine ⟨V, ?_, hd⟩
    obtain ⟨ht, hr⟩ := restore_pb h (applyProjectionBack r X W) (applyMdp r X W)
    simp only [finish, ht, hr, if_true]
    simp only [applyProjectionBack, hV, bind, Except.bind]
  · refine ⟨fun f => mdp r (separate X W) X f * (X f)ᴴ * (X f * (X f)ᴴ)⁻¹, ?_, ?_⟩
    · obtain ⟨ht, hr⟩ := restore_mdp h (applyProjectionBack r X W) (applyMdp r X W)
      simp only [finish, ht, hr, if_true]
      simp only [applyMdp, inv_ok hX, bind, Except.bind]
    · funext f
      obtain ⟨d, hd⟩ := mdp_diag r (separate X W) X f
      simp only [separate] at hd ⊢
      rw [hd, refit _ _ _ (hX f), Matrix.mul_assoc]
  · obtain ⟨ht, hr⟩ := restore_other h0 h1 h2 (applyProjectionBack r X W) (applyMdp r X W)
    simp only [finish, ht, hr, if_true, bind, Except.bind]

/-- C26 for filter-free runs (ISS, IPA): the final signals are restored in the same way as a filter method
would restore the same signals. -/
theorem C26_filter_free (sr : ScaleOpt) (r : Fin n) (X : Spec F n t) (W : F → Mat n ℂ)
    (hW : ∀ f, IsUnit (W f).det) (hX : ∀ f, IsUnit (X f * (X f)ᴴ).det) :
    finishFree sr r X (separate X W) = (finish sr r X W).map Prod.fst := by
  obtain ⟨h0, h1, h2, h3⟩ := C26_filter_methods sr r X W hW hX
  by_cases a0 : AsksNone sr
  · simp [h0 a0, finishFree, restore_none a0, Except.map]
  by_cases a1 : AsksPB sr
  · obtain ⟨V, hV, hd⟩ := h1 a1
    obtain ⟨ht, hr⟩ := restore_pb a1 (projectionBackData r (separate X W) X) (.ok (mdp r (separate X W) X))
    rw [finishFree, if_pos ht, hr, hV, hd]
    rfl
  by_cases a2 : AsksMDP sr
  · obtain ⟨V, hV, hd⟩ := h2 a2
    obtain ⟨ht, hr⟩ := restore_mdp a2 (projectionBackData r (separate X W) X) (.ok (mdp r (separate X W) X))
    rw [finishFree, if_pos ht, hr, hV, hd]
    rfl
  · obtain ⟨ht, hr⟩ := restore_other a0 a1 a2 (projectionBackData r (separate X W) X)
      (.ok (mdp r (separate X W) X))
    rw [finishFree, if_pos ht, hr, h3 a0 a1 a2]
    rfl

private theorem posDef_cov {X : Matrix (Fin n) (Fin t) ℂ} (r : Fin n) (hX : IsUnit (X * Xᴴ).det) :
    (Transform.sampleCov X).PosDef ∧ (t : ℂ) ≠ 0 := by
  have ht : t ≠ 0 := by
    rintro rfl
    have : X * Xᴴ = 0 := by ext i j; simp [mul_apply]
    have hne : Nonempty (Fin n) := ⟨r⟩
    rw [this, det_zero] at hX
    exact not_isUnit_zero hX
  refine ⟨?_, by exact_mod_cast ht⟩
  have h : (X * Xᴴ).PosDef :=
    (posSemidef_self_mul_conjTranspose X).posDef_iff_isUnit.mpr ((isUnit_iff_isUnit_det _).mpr hX)
  refine h.smul ?_
  have h0 : (0 : ℝ) < (t : ℝ)⁻¹ := inv_pos.mpr (Nat.cast_pos.mpr (Nat.pos_of_ne_zero ht))
  have h1 : (t : ℂ)⁻¹ = (((t : ℝ)⁻¹ : ℝ) : ℂ) := by push_cast; rfl
  rw [h1]
  exact Complex.zero_lt_real.mpr h0

private theorem whitened_unit (np : Numpy ℂ) (r : Fin n) (X : Spec F n t)
    (hX : ∀ f, IsUnit (X f * (X f)ᴴ).det) (f : F) : IsUnit (whitened np X f * (whitened np X f)ᴴ).det := by
  have h := Transform.C20_identity_covariance np 3 true X (whitened np X) (fun f => (posDef_cov r (hX f)).1)
    (by simp [Transform.whiten, Transform.dispatch, bind, Except.bind]; rfl) f
  have ht := (posDef_cov r (hX f)).2
  have e : whitened np X f * (whitened np X f)ᴴ = (t : ℂ) • (1 : Mat n ℂ) := by
    rw [← h, Transform.sampleCov, smul_smul, mul_inv_cancel₀ ht, one_smul]
  rw [e, det_smul, det_one, mul_one]
  exact (isUnit_iff_ne_zero.mpr ht).pow _

/-- C26 for `FastIVA` and `FasterIVA` without restoration or with projection back: the signals returned are
the reported filter applied to the whitened input, and they are the unrestored signals projected back onto
the *original* mixture. For the minimal distortion principle see `C26_fast_mdp`. -/
theorem C26_fast (np : Numpy ℂ) (sr : ScaleOpt) (r : Fin n) (X : Spec F n t) (W : F → Mat n ℂ)
    (hW : ∀ f, IsUnit (W f).det) (hX : ∀ f, IsUnit (X f * (X f)ᴴ).det) :
    (AsksNone sr → finishFast np sr r X W = .ok (separate (whitened np X) W, W)) ∧
    (AsksPB sr → ∃ V, finishFast np sr r X W = .ok (separate (whitened np X) V, V) ∧
      projectionBackData r (separate (whitened np X) W) X = .ok (separate (whitened np X) V)) ∧
    (¬ AsksNone sr → ¬ AsksPB sr → ¬ AsksMDP sr → finishFast np sr r X W = .error .value) := by
  have hZ := whitened_unit np r X hX
  refine ⟨fun h => ?_, fun h => ?_, fun h0 h1 h2 => ?_⟩
  · simp [finishFast, restore_none h, bind, Except.bind]
  · have hY : ∀ f, IsUnit (separate (whitened np X) W f * (separate (whitened np X) W f)ᴴ).det := by
      intro f
      have e : separate (whitened np X) W f * (separate (whitened np X) W f)ᴴ =
          W f * (whitened np X f * (whitened np X f)ᴴ) * (W f)ᴴ := by
        simp only [separate, conjTranspose_mul, Matrix.mul_assoc]
      rw [e, det_mul, det_mul, det_conjTranspose]
      exact ((hW f).mul (hZ f)).mul (hW f).star
    obtain ⟨Y', hY'⟩ : ∃ Y', projectionBackData r (separate (whitened np X) W) X = .ok Y' := by
      simp only [projectionBackData, projectionBackScale, inv_ok hY, bind, Except.bind]
      exact ⟨_, rfl⟩
    refine ⟨fun f => Y' f * (whitened np X f)ᴴ * (whitened np X f * (whitened np X f)ᴴ)⁻¹, ?_, ?_⟩
    · obtain ⟨ht, hr⟩ := restore_pb h (applyProjectionBackFast r X (whitened np X) W) (applyMdpFast np r X W)
      simp only [finishFast, ht, hr, if_true]
      simp only [applyProjectionBackFast, hY', inv_ok hZ, bind, Except.bind]
    · rw [hY']
      congr 1
      funext f
      obtain ⟨d, hd⟩ := pbd_diag hY' f
      simp only [separate] at hd ⊢
      rw [hd, refit _ _ _ (hZ f), Matrix.mul_assoc]
  · obtain ⟨ht, hr⟩ := restore_other h0 h1 h2 (applyProjectionBackFast r X (whitened np X) W)
      (applyMdpFast np r X W)
    simp only [finishFast, ht, hr, if_true, bind, Except.bind]

/-- C26 for `FastIVA` and `FasterIVA` with the minimal distortion principle: the signals returned are the reported filter
applied to the whitened input, but the filter is the one that gives the restored signals when it is applied to the
original input. -/
theorem C26_fast_mdp (np : Numpy ℂ) (sr : ScaleOpt) (r : Fin n) (X : Spec F n t) (W : F → Mat n ℂ)
    (hX : ∀ f, IsUnit (X f * (X f)ᴴ).det) (h : AsksMDP sr) :
    ∃ V, finishFast np sr r X W = .ok (separate (whitened np X) V, V) ∧
      separate X V = mdp r (separate (whitened np X) W) X := by
  refine ⟨fun f => mdp r (separate (whitened np X) W) X f * (X f)ᴴ * (X f * (X f)ᴴ)⁻¹, ?_, ?_⟩
  · obtain ⟨ht, hr⟩ := restore_mdp h (applyProjectionBackFast r X (whitened np X) W) (applyMdpFast np r X W)
    simp only [finishFast, ht, hr, if_true]
    simp only [applyMdpFast, inv_ok hX, bind, Except.bind]
  · funext f
    obtain ⟨d, hd⟩ := mdp_diag r (separate (whitened np X) W) X f
    obtain ⟨Q, hQ⟩ : ∃ Q : Mat n ℂ, whitened np X f = Q * X f := ⟨_, rfl⟩
    simp only [separate, hQ] at hd ⊢
    have hd' : mdp r (separate (whitened np X) W) X f = (diagonal d * W f) * (Q * X f) := by
      rw [hd]
      simp only [Matrix.mul_assoc]
    rw [hd', refit _ _ _ (hX f), Matrix.mul_assoc]

/-- C26 fails for `FastIVA` / `FasterIVA` with the minimal distortion principle: whatever `eigh` returns, the
one-channel mixture `X = 2` separated with `W = 1` has minimal-distortion signal `2`, but the call returns a
signal of modulus 1 (the whitened one). -/
theorem C26_fast_mdp_counterexample (np : Numpy ℂ) :
    ∃ (X : Spec Unit 1 1) (W : Unit → Mat 1 ℂ), (∀ f, IsUnit (W f).det) ∧ (∀ f, IsUnit (X f * (X f)ᴴ).det) ∧
      ∃ Y V, finishFast np (.str "MDP") 0 X W = .ok (Y, V) ∧
        Y ≠ mdp 0 (separate (whitened np X) W) X := by
  let X : Spec Unit 1 1 := fun _ => !![2]
  have hX : ∀ f, IsUnit (X f * (X f)ᴴ).det := by
    intro f
    rw [isUnit_iff_ne_zero]
    rw [det_fin_one, mul_apply]
    simp [X]
  refine ⟨X, fun _ => 1, fun f => by simp, hX, ?_⟩
  have hz := Transform.C20_identity_covariance np 3 true X (whitened np X)
    (fun f => (posDef_cov 0 (hX f)).1)
    (by simp [Transform.whiten, Transform.dispatch, bind, Except.bind]; rfl) ()
  set z := whitened np X () 0 0 with hzd
  have hz1 : z * star z = 1 := by
    have := congrFun (congrFun hz 0) 0
    simpa [Transform.sampleCov, mul_apply, ← hzd] using this
  have hzn : ‖z‖ ^ 2 = 1 := by
    have : ((‖z‖ ^ 2 : ℝ) : ℂ) = 1 := by
      rw [← hz1]; simpa using (Complex.mul_conj' z).symm
    exact_mod_cast this
  have hm : mdp 0 (separate (whitened np X) fun _ => 1) X () 0 0 = 2 := by
    simp only [mdp, separate, Matrix.one_mul, of_apply, Fin.sum_univ_one, ← hzd, Fin.isValue]
    rw [hzn]
    have : star z * z = 1 := by rw [mul_comm, hz1]
    simp only [X, star_div₀, star_mul', star_star, of_apply, cons_val', cons_val_fin_one]
    simp only [Complex.ofReal_one, star_one, div_one]
    rw [mul_right_comm, this, one_mul]
  have hfin : finishFast np (.str "MDP") 0 X (fun _ => 1) = .ok (separate (whitened np X) (fun f =>
      mdp 0 (separate (whitened np X) fun _ => 1) X f * (X f)ᴴ * (X f * (X f)ᴴ)⁻¹), fun f =>
      mdp 0 (separate (whitened np X) fun _ => 1) X f * (X f)ᴴ * (X f * (X f)ᴴ)⁻¹) := by
    obtain ⟨ht, hr⟩ := restore_mdp (sr := .str "MDP") (Or.inr (Or.inr rfl))
      (applyProjectionBackFast 0 X (whitened np X) fun _ => 1) (applyMdpFast np 0 X fun _ => 1)
    simp only [finishFast, ht, hr, if_true]
    simp only [applyMdpFast, inv_ok hX, bind, Except.bind]
  refine ⟨_, _, hfin, ?_⟩
  intro h
  have h0 := congrFun (congrFun (congrFun h ()) 0) 0
  rw [hm] at h0
  have hx : ((X () * (X ())ᴴ)⁻¹ : Mat 1 ℂ) 0 0 = 1 / 4 := by
    rw [inv_def, adjugate_fin_one]
    rw [det_fin_one, mul_apply]
    simp [X]
    norm_num
  simp only [separate, mul_apply, Fin.sum_univ_one, hx, Fin.isValue] at h0
  rw [← hzd] at h0
  rw [hm] at h0
  have : z = 2 := by
    have h2 : (X ())ᴴ 0 0 = 2 := by simp [X]
    rw [h2] at h0
    have : (2 * 2 * (1 / 4) : ℂ) = 1 := by norm_num
    rwa [this, one_mul] at h0
  rw [this] at hzn
  norm_num at hzn

/-- The hypotheses of C26 are met by a two-channel mixture and a non-diagonal filter. -/
example : (∀ _ : Fin 2, IsUnit (!![1, 1; 0, 1] : Mat 2 ℂ).det) ∧
    ∀ _ : Fin 2, IsUnit ((!![1, 0, 1; 0, 1, 0] : Matrix (Fin 2) (Fin 3) ℂ) *
      (!![1, 0, 1; 0, 1, 0] : Matrix (Fin 2) (Fin 3) ℂ)ᴴ).det := by
  constructor <;> intro _ <;> rw [isUnit_iff_ne_zero, det_fin_two] <;>
    simp [mul_apply, Fin.sum_univ_three]

/-- C26 for the public methods `apply_projection_back` and `apply_minimal_distortion_principle` themselves: they leave
behind a filter and signals that agree, and the signals are the previous ones restored by the technique. -/
theorem C26_apply (r : Fin n) (X : Spec F n t) (W : F → Mat n ℂ) (hW : ∀ f, IsUnit (W f).det)
    (hX : ∀ f, IsUnit (X f * (X f)ᴴ).det) :
    (∃ V, applyProjectionBack r X W = .ok (separate X V, V) ∧
      projectionBackData r (separate X W) X = .ok (separate X V)) ∧
    ∃ V, applyMdp r X W = .ok (separate X V, V) ∧ separate X V = mdp r (separate X W) X := by
  refine ⟨?_, fun f => mdp r (separate X W) X f * (X f)ᴴ * (X f * (X f)ᴴ)⁻¹, ?_⟩
  · obtain ⟨V, hV, hd⟩ := C24_data_eq_filter r W X hW hX
    refine ⟨V, ?_, hd⟩
    simp only [applyProjectionBack, hV, bind, Except.bind]
  · have h : separate X (fun f => mdp r (separate X W) X f * (X f)ᴴ * (X f * (X f)ᴴ)⁻¹) = mdp r (separate X W) X := by
      funext f
      obtain ⟨d, hd⟩ := mdp_diag r (separate X W) X f
      simp only [separate] at hd ⊢
      rw [hd, refit _ _ _ (hX f), Matrix.mul_assoc]
    refine ⟨?_, h⟩
    rw [h]
    simp only [applyMdp, inv_ok hX, bind, Except.bind]

/-! ## C49 -/

/-- The algorithms that work on the separated signals and keep no filter. -/
def KeepsNoFilter (alg : Spatial) : Prop := alg = .ISS ∨ alg = .ISS1 ∨ alg = .ISS2 ∨ alg = .IPA

/-- The algorithms that keep a filter. -/
def KeepsFilter (alg : Spatial) : Prop := alg = .IP ∨ alg = .IP1 ∨ alg = .IP2

private theorem filterFree_eq {alg : Spatial} :
    (KeepsNoFilter alg → alg.filterFree = true) ∧ (KeepsFilter alg → alg.filterFree = false) := by
  constructor
  · rintro (rfl | rfl | rfl | rfl) <;> rfl
  · rintro (rfl | rfl | rfl) <;> rfl

/-- C49 is false for the filter-free algorithms: after any successful first call with ISS, ISS1, ISS2 or IPA,
every further call of the same object without an explicit `demix_filter` raises, whatever the mixture, the
options and the iterations. -/
theorem C49_filter_free_counterexample (alg : Spatial) (h : KeepsNoFilter alg) (sr : ScaleOpt) (r : Fin n)
    (runW : Spec F n t → (F → Mat n ℂ) → F → Mat n ℂ) (runY : Spec F n t → Spec F n t → Spec F n t)
    (X : Spec F n t) (kw : Option (F → Mat n ℂ)) (o o₁ : Obj F n t)
    (h₁ : call alg sr r runW runY X kw o = .ok o₁) (X₂ : Spec F n t) :
    Raises (call alg sr r runW runY X₂ none o₁) := by
  replace h := filterFree_eq.1 h
  have hd : o₁.demix = .none := by
    simp only [call, reset, h, if_true, bind, Except.bind] at h₁
    split at h₁
    · cases h₁
    rename_i x hx
    split at hx
    · cases hx
    rw [← Except.ok.inj hx] at h₁
    simp only at h₁
    split at h₁
    · cases h₁
    · rw [← Except.ok.inj h₁]
  refine ⟨.value, ?_⟩
  simp [call, reset, hd, separateOpt, bind, Except.bind]

/-- Such first calls exist: without scale restoration the first call always succeeds. -/
example (X : Spec F n t) (r : Fin n) (runW : Spec F n t → (F → Mat n ℂ) → F → Mat n ℂ)
    (runY : Spec F n t → Spec F n t → Spec F n t) :
    ∃ o₁, call .ISS (.bool false) r runW runY X none Obj.fresh = .ok o₁ :=
  ⟨_, by simp [call, reset, Obj.fresh, separateOpt, finishFree, ScaleOpt.truthy, Spatial.filterFree, bind,
    Except.bind]; rfl⟩

/-- C49 for the algorithms that keep a filter (IP, IP1, IP2): after a successful call the object can be called
again with any mixture of the same shape. The new run starts from the filter reported by the previous call and
ends like the first one; with projection back it succeeds whenever the final filter is invertible. Filter-free
algorithms, for which a plain second call raises (see above), can be restarted when the caller passes
`demix_filter` (last part). -/
theorem C49_filter (alg : Spatial) (sr : ScaleOpt) (r : Fin n)
    (runW : Spec F n t → (F → Mat n ℂ) → F → Mat n ℂ) (runY : Spec F n t → Spec F n t → Spec F n t)
    (X : Spec F n t) (kw : Option (F → Mat n ℂ)) (o o₁ : Obj F n t)
    (h₁ : call alg sr r runW runY X kw o = .ok o₁) (X₂ : Spec F n t) :
    (KeepsFilter alg → ∃ W₁, o₁.demix = .val W₁ ∧
      (call alg sr r runW runY X₂ none o₁ =
        (finish sr r X₂ (runW X₂ W₁)).map fun p => ⟨.val p.2, .val p.1⟩) ∧
      (sr.truthy = false ∨ (AsksPB sr ∧ ∀ f, IsUnit (runW X₂ W₁ f).det) →
        ∃ o₂, call alg sr r runW runY X₂ none o₁ = .ok o₂)) ∧
    (KeepsNoFilter alg → ∀ W₀, call alg sr r runW runY X₂ (some W₀) o₁ =
      (finishFree sr r X₂ (runY X₂ (separate X₂ W₀))).map fun Y => ⟨.none, .val Y⟩) := by
  refine ⟨fun h => ?_, fun h W₀ => ?_⟩ <;> [replace h := filterFree_eq.2 h; replace h := filterFree_eq.1 h]
  · obtain ⟨W₁, hW₁⟩ : ∃ W₁, o₁.demix = .val W₁ := by
      simp only [call, reset, h, bind, Except.bind] at h₁
      split at h₁
      · cases h₁
      rename_i x hx
      split at hx
      · cases hx
      rename_i Y hY
      rw [← Except.ok.inj hx] at h₁
      simp only [separateOpt] at hY
      split at hY
      · cases hY
      rename_i W hW
      simp only [hW] at h₁
      simp only [Bool.false_eq_true, if_false] at h₁
      split at h₁
      · cases h₁
      · rw [← Except.ok.inj h₁]; exact ⟨_, rfl⟩
    have hc : call alg sr r runW runY X₂ none o₁ =
        (finish sr r X₂ (runW X₂ W₁)).map fun p => ⟨.val p.2, .val p.1⟩ := by
      simp only [call, reset, h, hW₁, separateOpt, bind, Except.bind, Except.map, Bool.false_eq_true, if_false]
    refine ⟨W₁, hW₁, hc, fun hs => ?_⟩
    rw [hc]
    rcases hs with hs | ⟨hs, hu⟩
    · simp [finish, hs, Except.map, bind, Except.bind]
    · obtain ⟨ht, hr⟩ := restore_pb hs (applyProjectionBack r X₂ (runW X₂ W₁)) (applyMdp r X₂ (runW X₂ W₁))
      obtain ⟨V, hV⟩ := (C22_succeeds_iff r (runW X₂ W₁)).1.mpr hu
      simp only [finish, ht, hr, if_true]
      simp only [applyProjectionBack, hV, bind, Except.bind, Except.map]
      exact ⟨_, rfl⟩
  · simp only [call, reset, h, separateOpt, bind, Except.bind, Except.map, if_true]

/-- Two calls in a row with IP on different mixtures: the first call's result exists. -/
example (X : Spec F n t) (r : Fin n) : ∃ o₁ W₁, call .IP1 (.bool false) r (fun _ W => W) (fun _ Y => Y) X none
    Obj.fresh = .ok o₁ ∧ o₁.demix = .val W₁ :=
  ⟨_, _, by simp [call, reset, Obj.fresh, separateOpt, finish, ScaleOpt.truthy, Spatial.filterFree, bind,
    Except.bind]; exact ⟨rfl, rfl⟩⟩

end Verif.Lifecycle
