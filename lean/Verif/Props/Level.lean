import Verif.Lemmas.Level
import Verif.Props.Scale
import Verif.Props.Equivariance

/-! # C72: the loudness of the recording does not change what the separators do

`gain a X` multiplies bin `f` of the recording by `a f`. For AuxLaplaceIVA, AuxGaussIVA and AuxLaplaceFDICA without
flooring (`flooring_fn=None`, i.e. the identity) and with scale restoration, the output of the whole call is multiplied
by the same numbers and the reported filter is unchanged, for any initial filter, any number of iterations and any
recording; one call raises iff the other does. For IVA, `‖a f‖` must be the same in all bins: a change of the level, of
the polarity, or a delay (a phase per bin). For FDICA `a` is any non-zero gain per bin. -/

set_option linter.unusedSectionVars false

namespace Verif

open Matrix Spatial Scale Lifecycle

variable {F : Type} [Fintype F] {n t : ℕ}

theorem separate_gain (a : F → ℂ) (X : Spec F n t) (W : F → Mat n ℂ) :
    separate (gain a X) W = gain a (separate X W) := by
  funext f
  simp only [separate, gain, Matrix.mul_smul]

theorem separate_gain_mulRow (a : F → ℂ) (rho : F → Fin n → ℝ) (X : Spec F n t) (W : F → Mat n ℂ) (f : F) :
    separate (gain a X) (fun f => mulRow (fun k => (rho f k : ℂ)) (W f)) f
      = mulRow (fun k => a f * rho f k) (separate X W f) := by
  ext k s
  simp only [separate, gain, Matrix.smul_apply, mulRow, Matrix.mul_apply, Matrix.of_apply, smul_eq_mul,
    Finset.mul_sum]
  exact Finset.sum_congr rfl fun c _ => by ring

theorem mdp_gain (r : Fin n) (a : F → ℂ) (ha : ∀ f, a f ≠ 0) (rho : F → Fin n → ℝ) (hr : ∀ f k, 0 < rho f k)
    (X Y : Spec F n t) : mdp r (fun f => mulRow (fun k => a f * rho f k) (Y f)) (gain a X) = gain a (mdp r Y X) := by
  funext f
  ext i k
  have h1 : (∑ k, mulRow (fun k => a f * rho f k) (Y f) i k * star (gain a X f r k))
      = a f * rho f i * star (a f) * ∑ k, Y f i k * star (X f r k) := by
    rw [Finset.mul_sum]
    refine Finset.sum_congr rfl fun s _ => ?_
    simp only [mulRow, gain, Matrix.of_apply, Matrix.smul_apply, smul_eq_mul, star_mul']
    ring
  have h2 : (∑ k, ‖mulRow (fun k => a f * rho f k) (Y f) i k‖ ^ 2) = ‖a f‖ ^ 2 * rho f i ^ 2 * ∑ k, ‖Y f i k‖ ^ 2 := by
    rw [Finset.mul_sum]
    refine Finset.sum_congr rfl fun s _ => ?_
    simp only [mulRow, Matrix.of_apply, norm_mul, Complex.norm_real, Real.norm_of_nonneg (hr f i).le]
    ring
  have e1 : gain a (mdp r Y X) f i k
      = a f * (star ((∑ k, Y f i k * star (X f r k)) / ((∑ k, ‖Y f i k‖ ^ 2 : ℝ) : ℂ)) * Y f i k) := rfl
  have e2 : mulRow (fun k => a f * rho f k) (Y f) i k = a f * rho f i * Y f i k := rfl
  rw [e1]
  simp only [mdp, Matrix.of_apply, h1, h2, e2]
  have h3 : ((‖a f‖ ^ 2 : ℝ) : ℂ) = a f * star (a f) := by
    rw [RCLike.star_def, Complex.mul_conj, Complex.normSq_eq_norm_sq]
  have h4 : (rho f i : ℂ) ≠ 0 := by exact_mod_cast (hr f i).ne'
  have h5 := star_ne_zero.mpr (ha f)
  have h6 := ha f
  rw [Complex.ofReal_mul, Complex.ofReal_mul, h3, Complex.ofReal_pow]
  generalize ((∑ k, ‖Y f i k‖ ^ 2 : ℝ) : ℂ) = M
  generalize (∑ k, Y f i k * star (X f r k)) = N
  have h7 : a f * rho f i * star (a f) * N / (a f * star (a f) * (rho f i : ℂ) ^ 2 * M) = (rho f i : ℂ)⁻¹ * (N / M) := by
    by_cases hM : M = 0
    · simp [hM]
    · field_simp
  rw [h7, star_mul', star_inv₀, RCLike.star_def, Complex.conj_ofReal]
  field_simp

theorem npInvB_gain (c : F → ℂ) (hc : ∀ f, c f ≠ 0) (M : F → Mat n ℂ) :
    npInvB (fun f => c f • M f) = Except.map (fun N f => (c f)⁻¹ • N f) (npInvB M) := by
  have hu : ∀ f, IsUnit (c f ^ n) := fun f => isUnit_iff_ne_zero.mpr (pow_ne_zero _ (hc f))
  rw [npInvB, npInvB]
  by_cases h : ∀ f, IsUnit (M f).det
  · rw [if_pos h, if_pos]
    · simp only [Except.map]
      congr 1
      funext f
      apply inv_eq_left_inv
      rw [Matrix.smul_mul, Matrix.mul_smul, smul_smul, inv_mul_cancel₀ (hc f), one_smul, nonsing_inv_mul _ (h f)]
    · intro f
      rw [det_smul, Fintype.card_fin]
      exact (hu f).mul (h f)
  · rw [if_neg h, if_neg]
    · rfl
    · intro h'
      apply h
      intro f
      have := h' f
      rw [det_smul, Fintype.card_fin] at this
      exact isUnit_of_mul_isUnit_right this

theorem gram_gain (a : F → ℂ) (X : Spec F n t) (f : F) :
    gain a X f * (gain a X f)ᴴ = (a f * star (a f)) • (X f * (X f)ᴴ) := by
  rw [gain, conjTranspose_smul, Matrix.smul_mul, Matrix.mul_smul, smul_smul]

/-- The end of `__call__` with scale restoration does not see the level of the filters, and multiplies the output by
the gain of the recording. -/
theorem finish_gain (sr : ScaleOpt) (hsr : sr.truthy = true) (r : Fin n) (a : F → ℂ) (ha : ∀ f, a f ≠ 0)
    (rho : F → Fin n → ℝ) (hr : ∀ f k, 0 < rho f k) (X : Spec F n t) (W : F → Mat n ℂ) :
    finish sr r (gain a X) (fun f => mulRow (fun k => (rho f k : ℂ)) (W f))
      = Except.map (fun p => (gain a p.1, p.2)) (finish sr r X W) := by
  have hpb : applyProjectionBack r (gain a X) (fun f => mulRow (fun k => (rho f k : ℂ)) (W f))
      = Except.map (fun p => (gain a p.1, p.2)) (applyProjectionBack r X W) := by
    have := C22_scale_invariant r W (fun f k => (rho f k : ℂ)) fun f k => by exact_mod_cast (hr f k).ne'
    rw [applyProjectionBack, applyProjectionBack, map_bind]
    simp only [separate_gain]
    exact congrArg (· >>= _) this
  have hmdp : applyMdp r (gain a X) (fun f => mulRow (fun k => (rho f k : ℂ)) (W f))
      = Except.map (fun p => (gain a p.1, p.2)) (applyMdp r X W) := by
    have e1 : separate (gain a X) (fun f => mulRow (fun k => (rho f k : ℂ)) (W f))
        = fun f => mulRow (fun k => a f * rho f k) (separate X W f) :=
      funext fun f => separate_gain_mulRow a rho X W f
    have hc : ∀ f, a f * star (a f) ≠ 0 := fun f => mul_ne_zero (ha f) (star_ne_zero.mpr (ha f))
    rw [applyMdp, applyMdp]
    simp only [e1, mdp_gain r a ha rho hr, gram_gain]
    rw [npInvB_gain _ hc, bind_map, map_bind]
    congr 1
    funext N
    simp only [Except.map]
    congr 2
    funext f
    rw [gain, gain, conjTranspose_smul]
    simp only [Matrix.smul_mul, Matrix.mul_smul, smul_smul]
    rw [show (a f * star (a f))⁻¹ * (star (a f) * a f) = 1 from by
      rw [mul_comm (star (a f))]; exact inv_mul_cancel₀ (hc f), one_smul]
  rw [finish, finish]
  simp only [hsr, if_true, hpb, hmdp]
  have hres : ∀ (e : Spec F n t × (F → Mat n ℂ) → Spec F n t × (F → Mat n ℂ)) (x y : Except PyErr _),
      restoreScale sr (Except.map e x) (Except.map e y) = Except.map e (restoreScale sr x y) := by
    intro e x y
    simp only [restoreScale, hsr, Bool.not_true, Bool.false_eq_true, if_false]
    split_ifs <;> rfl
  rw [hres]
  cases restoreScale sr (applyProjectionBack r X W) (applyMdp r X W) with
  | error => rfl
  | ok p =>
    simp only [Except.map, Bind.bind, Except.bind, separate_gain]

/-- The same for the methods without a filter. -/
theorem finishFree_gain (sr : ScaleOpt) (hsr : sr.truthy = true) (r : Fin n) (a : F → ℂ) (ha : ∀ f, a f ≠ 0)
    (rho : F → Fin n → ℝ) (hr : ∀ f k, 0 < rho f k) (X Y : Spec F n t) :
    finishFree sr r (gain a X) (fun f => mulRow (fun k => a f * rho f k) (Y f))
      = Except.map (gain a) (finishFree sr r X Y) := by
  have hpb : projectionBackData r (fun f => mulRow (fun k => a f * rho f k) (Y f)) (gain a X)
      = Except.map (gain a) (projectionBackData r Y X) := by
    obtain ⟨D, hD⟩ : ∃ D : F → Mat n ℂ, D = fun f => diagonal fun k => a f * rho f k := ⟨_, rfl⟩
    have hne : ∀ f k, a f * rho f k ≠ 0 := fun f k => mul_ne_zero (ha f) (by exact_mod_cast (hr f k).ne')
    have hDu : ∀ f, IsUnit (D f).det := by
      intro f
      rw [hD, det_diagonal, isUnit_iff_ne_zero]
      exact Finset.prod_ne_zero_iff.mpr fun i _ => hne f i
    have hDi : ∀ f, (D f)⁻¹ = diagonal fun k => (a f * rho f k)⁻¹ := by
      intro f
      apply inv_eq_left_inv
      rw [hD, diagonal_mul_diagonal, ← diagonal_one]
      congr 1
      funext i
      exact inv_mul_cancel₀ (hne f i)
    have hDu' : ∀ f, IsUnit ((D f)ᴴ).det := fun f => by rw [det_conjTranspose]; exact (hDu f).star
    have e : (fun f => mulRow (fun k => a f * rho f k) (Y f)) = fun f => D f * Y f :=
      funext fun f => by rw [mulRow_eq, hD]
    rw [e, projectionBackData, projectionBackData, projectionBackScale, projectionBackScale]
    have e2 : npInvB (fun f => D f * Y f * (D f * Y f)ᴴ)
        = Except.map (fun N f => ((D f)ᴴ)⁻¹ * N f * (D f)⁻¹) (npInvB fun f => Y f * (Y f)ᴴ) := by
      have e3 : ∀ f, D f * Y f * (D f * Y f)ᴴ = D f * (Y f * (Y f)ᴴ) * (D f)ᴴ := fun f => by
        rw [conjTranspose_mul]; simp only [Matrix.mul_assoc]
      simp only [e3]
      rw [npInvB, npInvB]
      by_cases h : ∀ f, IsUnit (Y f * (Y f)ᴴ).det
      · rw [if_pos h, if_pos]
        · simp only [Except.map]
          congr 1
          funext f
          rw [Matrix.mul_inv_rev, Matrix.mul_inv_rev, Matrix.mul_assoc]
        · intro f
          rw [det_mul, det_mul]
          exact ((hDu f).mul (h f)).mul (hDu' f)
      · rw [if_neg h, if_neg]
        · rfl
        · intro h'
          apply h
          intro f
          have := h' f
          rw [det_mul, det_mul] at this
          exact isUnit_of_mul_isUnit_right (isUnit_of_mul_isUnit_left this)
    rw [e2, bind_map]
    cases npInvB fun f => Y f * (Y f)ᴴ with
    | error => rfl
    | ok N =>
      simp only [Except.map, Bind.bind, Except.bind]
      congr 1
      funext f
      ext i k
      have e4 : gain a X f * (D f * Y f)ᴴ * (((D f)ᴴ)⁻¹ * N f * (D f)⁻¹) = a f • (X f * (Y f)ᴴ * N f * (D f)⁻¹) := by
        rw [gain, conjTranspose_mul]
        simp only [Matrix.smul_mul, Matrix.mul_assoc]
        rw [mul_nonsing_inv_cancel_left _ _ (hDu' f)]
      rw [e4]
      have e5 : ∀ M : Mat n ℂ, (M * (D f)⁻¹) r i = M r i * (a f * rho f i)⁻¹ := fun M => by
        rw [hDi, mul_diagonal]
      have e6 : (D f * Y f) i k = a f * rho f i * Y f i k := by rw [hD, diagonal_mul]
      have h1 : (rho f i : ℂ) ≠ 0 := by exact_mod_cast (hr f i).ne'
      have h2 := ha f
      simp only [Matrix.of_apply, gain, Matrix.smul_apply, smul_eq_mul, e5, e6]
      field_simp
  have hres : ∀ (e : Spec F n t → Spec F n t) (x y : Except PyErr _),
      restoreScale sr (Except.map e x) (Except.map e y) = Except.map e (restoreScale sr x y) := by
    intro e x y
    simp only [restoreScale, hsr, Bool.not_true, Bool.false_eq_true, if_false]
    split_ifs <;> rfl
  rw [finishFree, finishFree]
  simp only [hsr, if_true, hpb, mdp_gain r a ha rho hr]
  exact hres (gain a) _ (.ok _)

/-! ## IVA -/

namespace Iva

theorem binNorm_level (alpha : ℝ) (a : F → ℂ) (ha : ∀ f, ‖a f‖ = alpha) (h0 : 0 < alpha) (rho : Fin n → ℝ)
    (hr : ∀ k, 0 < rho k) (Y : Spec F n t) (k : Fin n) (s : Fin t) :
    binNorm (fun f => mulRow (fun k => a f * rho k) (Y f)) k s = alpha * rho k * binNorm Y k s := by
  rw [binNorm, binNorm]
  have : ∀ f, ‖mulRow (fun k => a f * rho k) (Y f) k s‖ ^ 2 = (alpha * rho k) ^ 2 * ‖Y f k s‖ ^ 2 := by
    intro f
    simp only [mulRow, Matrix.of_apply, norm_mul, ha, Complex.norm_real, Real.norm_of_nonneg (hr k).le]
    ring
  simp only [this]
  rw [← Finset.mul_sum, Real.sqrt_mul (by positivity), Real.sqrt_sq (mul_pos h0 (hr k)).le]

theorem weight_laplace (alpha : ℝ) (a : F → ℂ) (ha : ∀ f, ‖a f‖ = alpha) (h0 : 0 < alpha) (rho : Fin n → ℝ)
    (hr : ∀ k, 0 < rho k) (Y : Spec F n t) :
    weight id laplaceD (fun f => mulRow (fun k => a f * rho k) (Y f))
      = fun k s => (alpha * rho k)⁻¹ * weight id laplaceD Y k s := by
  funext k s
  have h1 := (mul_pos h0 (hr k)).ne'
  rw [weight, weight, binNorm_level alpha a ha h0 rho hr, laplaceD, laplaceD, id, id]
  by_cases hb : binNorm Y k s = 0
  · simp [hb]
  · field_simp

theorem weight_gauss (alpha : ℝ) (a : F → ℂ) (ha : ∀ f, ‖a f‖ = alpha) (h0 : 0 < alpha) (rho : Fin n → ℝ)
    (hr : ∀ k, 0 < rho k) (Y : Spec F n t) :
    weight id (gaussD (gaussVariance fun f => mulRow (fun k => a f * rho k) (Y f)))
        (fun f => mulRow (fun k => a f * rho k) (Y f))
      = fun k s => ((alpha * rho k) ^ 2)⁻¹ * weight id (gaussD (gaussVariance Y)) Y k s := by
  funext k s
  have h1 := (mul_pos h0 (hr k)).ne'
  have hv : gaussVariance (fun f => mulRow (fun k => a f * rho k) (Y f)) k s = (alpha * rho k) ^ 2 * gaussVariance Y k s := by
    rw [gaussVariance, gaussVariance, ← mul_div_assoc, Finset.mul_sum]
    congr 1
    refine Finset.sum_congr rfl fun f _ => ?_
    simp only [mulRow, Matrix.of_apply, norm_mul, ha, Complex.norm_real, Real.norm_of_nonneg (hr k).le]
    ring
  rw [weight, weight, binNorm_level alpha a ha h0 rho hr, gaussD, gaussD, hv, id, id]
  by_cases hb : binNorm Y k s = 0
  · simp [hb]
  · by_cases hg : gaussVariance Y k s = 0
    · simp [hg]
    · field_simp

/-- The filters of one run are those of the other, with positive factors per source. -/
def LevelRel (W W' : F → Mat n ℂ) : Prop :=
  ∃ rho : Fin n → ℝ, (∀ k, 0 < rho k) ∧ W' = fun f => mulRow (fun k => (rho k : ℂ)) (W f)

theorem LevelRel.refl (W : F → Mat n ℂ) : LevelRel W W :=
  ⟨fun _ => 1, fun _ => one_pos, by funext f; ext k j; simp [mulRow]⟩

/-- One IP1 sweep when the weights of source `k` are multiplied by `kappa k`. -/
theorem ip1_level (alpha : ℝ) (a : F → ℂ) (ha : ∀ f, ‖a f‖ = alpha) (h0 : 0 < alpha) (rho kappa : Fin n → ℝ)
    (hr : ∀ k, 0 < rho k) (hk : ∀ k, 0 < kappa k) (phi : Fin n → Fin t → ℝ) (X : Spec F n t) (W : F → Mat n ℂ) :
    ExRel LevelRel (ip1Stack id (wcov phi X) W)
      (ip1Stack id (wcov (fun k s => kappa k * phi k s) (gain a X)) fun f => mulRow (fun k => (rho k : ℂ)) (W f)) := by
  have e : wcov (fun k s => kappa k * phi k s) (gain a X)
      = fun f k => ((kappa k * ‖a f‖ ^ 2 : ℝ) : ℂ) • wcov phi X f k := by
    funext f k
    exact wcov_gain a kappa phi X f k
  have hc : ∀ k, 0 < kappa k * alpha ^ 2 := fun k => mul_pos (hk k) (by positivity)
  rw [e]
  simp only [ha]
  rw [ip1Stack_level (fun _ k => kappa k * alpha ^ 2) (fun _ k => rho k) (fun _ k => hc k) (fun _ k => hr k)]
  exact ExRel.map _ fun W => ⟨fun k => 1 / Real.sqrt (kappa k * alpha ^ 2),
    fun k => one_div_pos.mpr (Real.sqrt_pos.mpr (hc k)), rfl⟩

/-- C72 for AuxLaplaceIVA with IP1: a recording played `alpha` times louder (and possibly with other phases) gives the
separated signals of the original recording, `alpha` times louder and with these phases, and the same filter. -/
theorem C72_laplace_ip1 (alpha : ℝ) (h0 : 0 < alpha) (a : F → ℂ) (ha : ∀ f, ‖a f‖ = alpha) (sr : ScaleOpt)
    (hsr : sr.truthy = true) (r : Fin n) (X : Spec F n t) (W : F → Mat n ℂ) (n_iter : ℕ) :
    (iterM (auxIp1 id laplaceD (fun f => a f • X f)) n_iter W >>= finish sr r (fun f => a f • X f))
      = Except.map (fun p => (fun f => a f • p.1 f, p.2))
        (iterM (auxIp1 id laplaceD X) n_iter W >>= finish sr r X) := by
  have ha0 : ∀ f, a f ≠ 0 := fun f h => by
    have := ha f
    rw [h, norm_zero] at this
    exact h0.ne this
  have hrun : ExRel LevelRel (iterM (auxIp1 id laplaceD X) n_iter W) (iterM (auxIp1 id laplaceD (gain a X)) n_iter W) := by
    refine ExRel.iterM ?_ n_iter (LevelRel.refl W)
    rintro W W' ⟨rho, hr, rfl⟩
    rw [auxIp1, auxIp1]
    have e1 : separate (gain a X) (fun f => mulRow (fun k => (rho k : ℂ)) (W f))
        = fun f => mulRow (fun k => a f * rho k) (separate X W f) :=
      funext fun f => separate_gain_mulRow a (fun _ => rho) X W f
    simp only [e1, weight_laplace alpha a ha h0 rho hr]
    exact ip1_level alpha a ha h0 rho _ hr (fun k => inv_pos.mpr (mul_pos h0 (hr k))) _ X W
  apply ExRel.eq_map
  refine hrun.bind ?_
  rintro W W' ⟨rho, hr, rfl⟩
  have := finish_gain sr hsr r a ha0 (fun _ => rho) (fun _ => hr) X W
  change ExRel _ _ (finish sr r (gain a X) _)
  rw [this]
  exact ExRel.map _ fun _ => rfl

/-- C72 for AuxGaussIVA with IP1. -/
theorem C72_gauss_ip1 (alpha : ℝ) (h0 : 0 < alpha) (a : F → ℂ) (ha : ∀ f, ‖a f‖ = alpha) (sr : ScaleOpt)
    (hsr : sr.truthy = true) (r : Fin n) (X : Spec F n t) (s : GaussState F n t) (n_iter : ℕ) :
    (iterM (gaussIp1 id (fun f => a f • X f)) n_iter s >>= fun s => finish sr r (fun f => a f • X f) s.W)
      = Except.map (fun p => (fun f => a f • p.1 f, p.2))
        (iterM (gaussIp1 id X) n_iter s >>= fun s => finish sr r X s.W) := by
  have ha0 : ∀ f, a f ≠ 0 := fun f h => by
    have := ha f
    rw [h, norm_zero] at this
    exact h0.ne this
  have hrun : ExRel (fun s s' : GaussState F n t => LevelRel s.W s'.W) (iterM (gaussIp1 id X) n_iter s)
      (iterM (gaussIp1 id (gain a X)) n_iter s) := by
    refine ExRel.iterM ?_ n_iter (LevelRel.refl s.W)
    rintro ⟨W, v⟩ ⟨W', v'⟩ ⟨rho, hr, hW'⟩
    dsimp only at hW'
    subst hW'
    rw [gaussIp1, gaussIp1, auxIp1, auxIp1]
    have e1 : separate (gain a X) (fun f => mulRow (fun k => (rho k : ℂ)) (W f))
        = fun f => mulRow (fun k => a f * rho k) (separate X W f) :=
      funext fun f => separate_gain_mulRow a (fun _ => rho) X W f
    simp only [e1, weight_gauss alpha a ha h0 rho hr]
    exact (ip1_level alpha a ha h0 rho _ hr (fun k => inv_pos.mpr (pow_pos (mul_pos h0 (hr k)) 2)) _ X W).bind
      fun _ _ h => h
  apply ExRel.eq_map
  refine hrun.bind ?_
  rintro ⟨W, v⟩ ⟨W', v'⟩ ⟨rho, hr, hW'⟩
  dsimp only at hW' ⊢
  subst hW'
  have := finish_gain sr hsr r a ha0 (fun _ => rho) (fun _ => hr) X W
  change ExRel _ _ (finish sr r (gain a X) _)
  rw [this]
  exact ExRel.map _ fun _ => rfl

/-- The separated signals of one run are those of the other, with the gain and positive factors per source. -/
def SignalRel (a : F → ℂ) (Y Y' : Spec F n t) : Prop :=
  ∃ rho : Fin n → ℝ, (∀ k, 0 < rho k) ∧ Y' = fun f => mulRow (fun k => a f * rho k) (Y f)

/-- One ISS1 sweep when the weights of source `k` are multiplied by `kappa k`. -/
theorem iss1_levelRel (alpha : ℝ) (a : F → ℂ) (ha : ∀ f, ‖a f‖ = alpha) (h0 : 0 < alpha) (rho kappa : Fin n → ℝ)
    (hr : ∀ k, 0 < rho k) (hk : ∀ k, 0 < kappa k) (phi : Fin n → Fin t → ℝ) (Y : Spec F n t) :
    SignalRel a (fun f => iss1 id phi (Y f))
      fun f => iss1 id (fun k s => kappa k * phi k s) (mulRow (fun k => a f * rho k) (Y f)) := by
  refine ⟨fun k => 1 / (Real.sqrt (kappa k) * alpha), fun k =>
    one_div_pos.mpr (mul_pos (Real.sqrt_pos.mpr (hk k)) h0), ?_⟩
  have ha0 : ∀ f, a f ≠ 0 := fun f h => by
    have := ha f
    rw [h, norm_zero] at this
    exact h0.ne this
  have hrho : ∀ k, (rho k : ℂ) ≠ 0 := fun k => by exact_mod_cast (hr k).ne'
  funext f
  rw [iss1_level kappa hk _ fun k => mul_ne_zero (ha0 f) (hrho k)]
  congr 1
  funext k
  have h1 : ((Real.sqrt (kappa k) : ℝ) : ℂ) ≠ 0 := by exact_mod_cast (Real.sqrt_pos.mpr (hk k)).ne'
  have h2 : (alpha : ℂ) ≠ 0 := by exact_mod_cast h0.ne'
  have h3 := hrho k
  rw [norm_mul, ha, Complex.norm_real, Real.norm_of_nonneg (hr k).le]
  push_cast
  field_simp

/-- C72 for AuxLaplaceIVA with ISS1; `Y` is the initial output (`separate` with the initial filter). -/
theorem C72_laplace_iss1 (alpha : ℝ) (h0 : 0 < alpha) (a : F → ℂ) (ha : ∀ f, ‖a f‖ = alpha) (sr : ScaleOpt)
    (hsr : sr.truthy = true) (r : Fin n) (X : Spec F n t) (W : F → Mat n ℂ) (n_iter : ℕ) :
    finishFree sr r (fun f => a f • X f) ((auxIss1 id laplaceD)^[n_iter] (separate (fun f => a f • X f) W))
      = Except.map (fun Y f => a f • Y f) (finishFree sr r X ((auxIss1 id laplaceD)^[n_iter] (separate X W))) := by
  have ha0 : ∀ f, a f ≠ 0 := fun f h => by
    have := ha f
    rw [h, norm_zero] at this
    exact h0.ne this
  have hrun : SignalRel a ((auxIss1 id laplaceD)^[n_iter] (separate X W))
      ((auxIss1 id laplaceD)^[n_iter] (separate (gain a X) W)) := by
    induction n_iter with
    | zero =>
      refine ⟨fun _ => 1, fun _ => one_pos, ?_⟩
      funext f
      ext k j
      simp [separate_gain, gain, mulRow]
    | succ N ih =>
      obtain ⟨rho, hr, hY⟩ := ih
      rw [Function.iterate_succ_apply', Function.iterate_succ_apply', hY]
      rw [auxIss1, auxIss1]
      simp only [weight_laplace alpha a ha h0 rho hr]
      exact iss1_levelRel alpha a ha h0 rho _ hr (fun k => inv_pos.mpr (mul_pos h0 (hr k))) _ _
  obtain ⟨rho, hr, hY⟩ := hrun
  change finishFree sr r (gain a X) ((auxIss1 id laplaceD)^[n_iter] (separate (gain a X) W)) = _
  rw [hY]
  exact finishFree_gain sr hsr r a ha0 (fun _ => rho) (fun _ => hr) X _

/-- C72 for AuxGaussIVA with ISS1. -/
theorem C72_gauss_iss1 (alpha : ℝ) (h0 : 0 < alpha) (a : F → ℂ) (ha : ∀ f, ‖a f‖ = alpha) (sr : ScaleOpt)
    (hsr : sr.truthy = true) (r : Fin n) (X : Spec F n t) (W : F → Mat n ℂ) (v : Fin n → Fin t → ℝ) (n_iter : ℕ) :
    (iterM (gaussIss1 id) n_iter ⟨separate (fun f => a f • X f) W, v⟩ >>= fun s =>
        finishFree sr r (fun f => a f • X f) s.Y)
      = Except.map (fun Y f => a f • Y f)
        (iterM (gaussIss1 id) n_iter ⟨separate X W, v⟩ >>= fun s => finishFree sr r X s.Y) := by
  have ha0 : ∀ f, a f ≠ 0 := fun f h => by
    have := ha f
    rw [h, norm_zero] at this
    exact h0.ne this
  have hrun : ExRel (fun s s' : GaussSignal F n t => SignalRel a s.Y s'.Y) (iterM (gaussIss1 id) n_iter ⟨separate X W, v⟩)
      (iterM (gaussIss1 id) n_iter ⟨separate (gain a X) W, v⟩) := by
    refine ExRel.iterM ?_ n_iter ?_
    · rintro ⟨Y, v⟩ ⟨Y', v'⟩ ⟨rho, hr, hY⟩
      dsimp only at hY
      subst hY
      rw [gaussIss1, gaussIss1, auxIss1, auxIss1]
      simp only [weight_gauss alpha a ha h0 rho hr]
      exact iss1_levelRel alpha a ha h0 rho _ hr (fun k => inv_pos.mpr (pow_pos (mul_pos h0 (hr k)) 2)) _ _
    · refine ⟨fun _ => 1, fun _ => one_pos, ?_⟩
      funext f
      ext k j
      simp [separate_gain, gain, mulRow]
  apply ExRel.eq_map
  refine hrun.bind ?_
  rintro ⟨Y, v⟩ ⟨Y', v'⟩ ⟨rho, hr, hY⟩
  dsimp only at hY ⊢
  subst hY
  change ExRel _ _ (finishFree sr r (gain a X) _)
  rw [finishFree_gain sr hsr r a ha0 (fun _ => rho) (fun _ => hr) X Y]
  exact ExRel.map _ fun _ => rfl

end Iva

/-! ## FDICA -/

namespace Fdica

theorem weight_laplace (a : ℂ) (ha : a ≠ 0) (rho : Fin n → ℝ) (hr : ∀ k, 0 < rho k) (Y : Matrix (Fin n) (Fin t) ℂ) :
    weight id laplaceD (mulRow (fun k => a * rho k) Y) = fun k s => (‖a‖ * rho k)⁻¹ * weight id laplaceD Y k s := by
  funext k s
  have h1 := (mul_pos (norm_pos_iff.mpr ha) (hr k)).ne'
  have h2 := hr k
  simp only [weight, laplaceD, id, mulRow, Matrix.of_apply, norm_mul, Complex.norm_real, Real.norm_of_nonneg (hr k).le]
  by_cases hb : ‖Y k s‖ = 0
  · simp [hb]
  · field_simp

/-- C72 for AuxLaplaceFDICA with IP1 (without permutation alignment): every bin has its own gain. -/
theorem C72_laplace_ip1 (a : F → ℂ) (ha : ∀ f, a f ≠ 0) (sr : ScaleOpt) (hsr : sr.truthy = true) (r : Fin n)
    (X : Spec F n t) (W : F → Mat n ℂ) (n_iter : ℕ) :
    (iterM (auxIp1 id laplaceD (fun f => a f • X f)) n_iter W >>= finish sr r (fun f => a f • X f))
      = Except.map (fun p => (fun f => a f • p.1 f, p.2))
        (iterM (auxIp1 id laplaceD X) n_iter W >>= finish sr r X) := by
  have hrun : ExRel (fun W W' : F → Mat n ℂ => ∃ rho : F → Fin n → ℝ, (∀ f k, 0 < rho f k) ∧
      W' = fun f => mulRow (fun k => (rho f k : ℂ)) (W f))
      (iterM (auxIp1 id laplaceD X) n_iter W) (iterM (auxIp1 id laplaceD (gain a X)) n_iter W) := by
    refine ExRel.iterM ?_ n_iter ⟨fun _ _ => 1, fun _ _ => one_pos, by funext f; ext k j; simp [mulRow]⟩
    rintro W W' ⟨rho, hr, rfl⟩
    rw [auxIp1, auxIp1]
    have hk : ∀ f k, 0 < (‖a f‖ * rho f k)⁻¹ := fun f k => inv_pos.mpr (mul_pos (norm_pos_iff.mpr (ha f)) (hr f k))
    have e : (fun f => Iva.wcov (weight id laplaceD
          (separate (gain a X) (fun f => mulRow (fun k => (rho f k : ℂ)) (W f)) f)) (gain a X) f)
        = fun f k => (((‖a f‖ * rho f k)⁻¹ * ‖a f‖ ^ 2 : ℝ) : ℂ) •
          Iva.wcov (weight id laplaceD (separate X W f)) X f k := by
      funext f k
      rw [separate_gain_mulRow a rho X W f, weight_laplace (a f) (ha f) (rho f) (hr f)]
      exact wcov_gain a _ _ X f k
    have hc : ∀ f k, 0 < (‖a f‖ * rho f k)⁻¹ * ‖a f‖ ^ 2 := fun f k =>
      mul_pos (hk f k) (pow_pos (norm_pos_iff.mpr (ha f)) 2)
    simp only [e]
    rw [ip1Stack_level (fun f k => (‖a f‖ * rho f k)⁻¹ * ‖a f‖ ^ 2) rho hc hr]
    exact ExRel.map _ fun W => ⟨fun f k => 1 / Real.sqrt ((‖a f‖ * rho f k)⁻¹ * ‖a f‖ ^ 2),
      fun f k => one_div_pos.mpr (Real.sqrt_pos.mpr (hc f k)), rfl⟩
  apply ExRel.eq_map
  refine hrun.bind ?_
  rintro W W' ⟨rho, hr, rfl⟩
  change ExRel _ _ (finish sr r (gain a X) _)
  rw [finish_gain sr hsr r a ha rho hr X W]
  exact ExRel.map _ fun _ => rfl

end Fdica

/-! ## Examples -/

theorem lim_finish (i : ℕ) : finish (.bool true) 0 limX (limW (limA i))
    = .ok (fun _ => !![1, 1; 0, 0], fun _ => !![1, 0; 0, 0]) := by
  have hu := limW_unit (limA_pos i)
  have hi : (limW (limA i) ())⁻¹ = diagonal fun k => ((limA i k)⁻¹ : ℂ) := by
    apply inv_eq_left_inv
    rw [limW, diagonal_mul_diagonal, ← diagonal_one]
    congr 1
    funext k
    exact inv_mul_cancel₀ (by exact_mod_cast (limA_pos i k).ne')
  have h0 : (limA i 0 : ℂ) ≠ 0 := by exact_mod_cast (limA_pos i 0).ne'
  have hpb : projectionBackFilter 0 (limW (limA i)) = .ok fun _ => !![1, 0; 0, 0] := by
    rw [projectionBackFilter, npInvB, if_pos hu]
    simp only [Bind.bind, Except.bind]
    congr 1
    funext f
    ext k j
    simp only [Matrix.of_apply, hi]
    fin_cases k <;> fin_cases j <;> simp [limW, h0]
  have hs : separate limX (fun _ => !![1, 0; 0, 0]) = fun _ => (!![1, 1; 0, 0] : Matrix (Fin 2) (Fin 2) ℂ) := by
    funext f
    ext k j
    fin_cases k <;> fin_cases j <;> simp [separate, limX, Matrix.mul_apply, Fin.sum_univ_two]
  have hr : restoreScale (.bool true) (applyProjectionBack 0 limX (limW (limA i))) (applyMdp 0 limX (limW (limA i)))
      = applyProjectionBack 0 limX (limW (limA i)) := by
    simp [restoreScale, ScaleOpt.truthy, projectionBackKeywords]
  rw [finish, hr, applyProjectionBack, hpb]
  simp only [ScaleOpt.truthy, if_true, Bind.bind, Except.bind, hs]

/-- Playing the recording of the endless run of `Verif.Props.Limit` 5 times louder and with the opposite polarity
multiplies the output of a call with any number of iterations by `-5`. -/
example (N : ℕ) : (iterM (Iva.auxIp1 id Iva.laplaceD fun f => (-5 : ℂ) • limX f) N (limW (limA 0))
      >>= finish (.bool true) 0 fun f => (-5 : ℂ) • limX f)
    = .ok (fun _ => !![-5, -5; 0, 0], fun _ => !![1, 0; 0, 0]) := by
  rw [Iva.C72_laplace_ip1 5 (by norm_num) (fun _ => -5) (fun _ => by norm_num) (.bool true) rfl 0 limX, lim_run]
  change Except.map _ (finish (.bool true) 0 limX (limW (limA N))) = _
  rw [lim_finish]
  simp only [Except.map]
  congr 2
  funext f
  ext k j
  fin_cases k <;> fin_cases j <;> simp

end Verif
