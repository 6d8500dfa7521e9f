import Verif.Lemmas.NormFree
import Verif.Lemmas.PairScale
import Verif.Lemmas.Floored
import Verif.Props.TwoSources
import Verif.Props.IlrmaNorm

/-! # C110: the normalization of ILRMA does not influence its results

With `flooring_fn=None`, multiplying a row of the demixing filter by a non-zero number and the bases of that source
accordingly commutes with every update. So the option `normalization` (off, by power, by projection back) chooses between
equivalent runs: the recorded losses, the activations and, with scale restoration, the filters and the output are equal.
-/

namespace Verif.NormFree

open Matrix Spatial Scale Ilrma EigPhase
open IlrmaCall (baseCall Draw Kw Obj)
open Lifecycle (ScaleOpt finish finishFree restoreScale)
open scoped ComplexOrder

variable {F : Type} [Fintype F] {n t K : ℕ}

/-! ## The end of `__call__` -/

omit [Fintype F] in
theorem mdp_rescale (r : Fin n) (c : F → Fin n → ℂ) (hc : ∀ f k, c f k ≠ 0) (X Y : Spec F n t) :
    mdp r (scaled c Y) X = mdp r Y X := by
  ext f i k
  by_cases h0 : ∀ k, Y f i k = 0
  · simp [mdp, scaled, mulRow, h0]
  · obtain ⟨k0, hk0⟩ := not_forall.mp h0
    have h1 : ((∑ k, ‖Y f i k‖ ^ 2 : ℝ) : ℂ) ≠ 0 := by
      have : 0 < ∑ k, ‖Y f i k‖ ^ 2 := Finset.sum_pos' (fun _ _ => by positivity)
        ⟨k0, Finset.mem_univ _, by have := norm_pos_iff.mpr hk0; positivity⟩
      exact_mod_cast this.ne'
    have h2 : ((‖c f i‖ ^ 2 : ℝ) : ℂ) = c f i * star (c f i) := by
      rw [RCLike.star_def, Complex.mul_conj, Complex.normSq_eq_norm_sq]
    have h3 := hc f i
    have h4 : star (c f i) ≠ 0 := star_ne_zero.mpr h3
    simp only [mdp, scaled, mulRow, of_apply, mul_assoc, ← Finset.mul_sum, norm_mul, mul_pow]
    rw [Complex.ofReal_mul, h2]
    generalize ((∑ k, ‖Y f i k‖ ^ 2 : ℝ) : ℂ) = q at h1 ⊢
    simp only [star_div₀, star_mul', star_star]
    have h5 : star q ≠ 0 := star_ne_zero.mpr h1
    field_simp

omit [Fintype F] in
theorem projectionBackData_rescale (r : Fin n) (c : F → Fin n → ℂ) (hc : ∀ f k, c f k ≠ 0) (X Y : Spec F n t) :
    projectionBackData r (scaled c Y) X = projectionBackData r Y X := by
  obtain ⟨D, hD⟩ : ∃ D : F → Mat n ℂ, D = fun f => diagonal (c f) := ⟨_, rfl⟩
  have hDu : ∀ f, IsUnit (D f).det := by
    intro f
    rw [hD, det_diagonal, isUnit_iff_ne_zero]
    exact Finset.prod_ne_zero_iff.mpr fun i _ => hc f i
  have hDi : ∀ f, (D f)⁻¹ = diagonal fun k => (c f k)⁻¹ := by
    intro f
    apply inv_eq_left_inv
    rw [hD, diagonal_mul_diagonal, ← diagonal_one]
    congr 1
    funext i
    exact inv_mul_cancel₀ (hc f i)
  have hDu' : ∀ f, IsUnit ((D f)ᴴ).det := fun f => by rw [det_conjTranspose]; exact (hDu f).star
  have e : scaled c Y = fun f => D f * Y f := funext fun f => by rw [scaled, mulRow_eq, hD]
  rw [e, projectionBackData, projectionBackData, projectionBackScale, projectionBackScale]
  have e3 : ∀ f, D f * Y f * (D f * Y f)ᴴ = D f * (Y f * (Y f)ᴴ) * (D f)ᴴ := fun f => by
    rw [conjTranspose_mul]; simp only [Matrix.mul_assoc]
  simp only [e3]
  rw [npInvB, npInvB]
  by_cases h : ∀ f, IsUnit (Y f * (Y f)ᴴ).det
  · rw [if_pos h, if_pos]
    · simp only [bind, Except.bind]
      congr 1
      funext f
      ext i k
      have e4 : X f * (D f * Y f)ᴴ * (D f * (Y f * (Y f)ᴴ) * (D f)ᴴ)⁻¹ = X f * (Y f)ᴴ * (Y f * (Y f)ᴴ)⁻¹ * (D f)⁻¹ := by
        rw [conjTranspose_mul, Matrix.mul_inv_rev, Matrix.mul_inv_rev (D f)]
        simp only [Matrix.mul_assoc]
        rw [mul_nonsing_inv_cancel_left _ _ (hDu' f)]
      rw [e4]
      have e5 : ∀ M : Mat n ℂ, (M * (D f)⁻¹) r i = M r i * (c f i)⁻¹ := fun M => by rw [hDi, mul_diagonal]
      have e6 : (D f * Y f) i k = c f i * Y f i k := by rw [hD, diagonal_mul]
      have h2 := hc f i
      simp only [of_apply, e5, e6]
      field_simp
    · intro f
      rw [det_mul, det_mul]
      exact ((hDu f).mul (h f)).mul (hDu' f)
  · rw [if_neg h, if_neg]
    · rfl
    · intro h'
      refine h fun f => ?_
      have := h' f
      rw [det_mul, det_mul] at this
      exact isUnit_of_mul_isUnit_right (isUnit_of_mul_isUnit_left this)

omit [Fintype F] in
theorem finishFree_rescale (sr : ScaleOpt) (hsr : sr.truthy = true) (r : Fin n) (c : F → Fin n → ℂ)
    (hc : ∀ f k, c f k ≠ 0) (X Y : Spec F n t) : finishFree sr r X (scaled c Y) = finishFree sr r X Y := by
  rw [finishFree, finishFree, projectionBackData_rescale r c hc, mdp_rescale r c hc]
  simp only [hsr, if_true]

/-! ## The models -/

/-- The source models of the ILRMA classes with their `domain`. -/
inductive IsModel : Source → ℝ → Prop
  | gauss {p : ℝ} (hp : 0 < p) : IsModel (gauss p) p
  | gaussME : IsModel gaussME 2
  | student {p nu : ℝ} (hp : 0 < p) : IsModel (student p nu) p
  | studentME {nu : ℝ} : IsModel (studentME nu) 2
  | ggd {p beta : ℝ} (hp : 0 < p) : IsModel (ggd p beta) p

theorem IsModel.homogeneous {src : Source} {p : ℝ} (h : IsModel src p) : Homogeneous src p := by
  cases h with
  | gauss hp => exact gauss_homogeneous hp
  | gaussME => exact gaussME_homogeneous
  | student hp => exact student_homogeneous hp
  | studentME => exact studentME_homogeneous
  | ggd hp => exact ggd_homogeneous hp

theorem IsModel.scaleInv {src : Source} {p : ℝ} (h : IsModel src p) : ScaleInv src p := by
  cases h with
  | gauss hp => exact gauss_scaleInv hp
  | gaussME => exact gaussME_scaleInv
  | student hp => exact student_scaleInv hp
  | studentME => exact studentME_scaleInv
  | ggd hp => exact ggd_scaleInv hp

/-! ## Rescaled states -/

/-- The rows of the filter of `s` multiplied by numbers other than zero, the bases by the powers of their moduli. -/
def Rescaled (p : ℝ) (s s' : St F n t K) : Prop :=
  ∃ c : F → Fin n → ℂ, (∀ f k, c f k ≠ 0) ∧ s'.W = scaled c s.W ∧ s'.T = mulBasis p c s.T ∧ s'.V = s.V

omit [Fintype F] in
theorem Rescaled.refl (p : ℝ) (s : St F n t K) : Rescaled p s s :=
  ⟨fun _ _ => 1, fun _ _ => one_ne_zero, (scaled_one _).symm, (mulBasis_one p _).symm, rfl⟩

omit [Fintype F] in
theorem Rescaled.symm {p : ℝ} {s s' : St F n t K} (h : Rescaled p s s') : Rescaled p s' s := by
  obtain ⟨c, hc, h1, h2, h3⟩ := h
  have e : (fun f k => (c f k)⁻¹ * c f k) = fun (_ : F) (_ : Fin n) => (1 : ℂ) :=
    funext fun f => funext fun k => inv_mul_cancel₀ (hc f k)
  refine ⟨fun f k => (c f k)⁻¹, fun f k => inv_ne_zero (hc f k), ?_, ?_, h3.symm⟩
  · rw [h1, scaled_scaled, e, scaled_one]
  · rw [h2, mulBasis_mulBasis, e, mulBasis_one]

omit [Fintype F] in
theorem Rescaled.trans {p : ℝ} {s s' s'' : St F n t K} (h : Rescaled p s s') (h' : Rescaled p s' s'') :
    Rescaled p s s'' := by
  obtain ⟨c, hc, h1, h2, h3⟩ := h
  obtain ⟨c', hc', h1', h2', h3'⟩ := h'
  exact ⟨fun f k => c' f k * c f k, fun f k => mul_ne_zero (hc' f k) (hc f k), by rw [h1', h1, scaled_scaled],
    by rw [h2', h2, mulBasis_mulBasis], h3'.trans h3⟩

omit [Fintype F] in
theorem scaled_det {c : F → Fin n → ℂ} (hc : ∀ f k, c f k ≠ 0) {W : F → Mat n ℂ} (hW : ∀ f, IsUnit (W f).det) (f : F) :
    IsUnit (scaled c W f).det := by
  rw [scaled, mulRow_eq]
  exact det_diagonal_isUnit (hc f) (hW f)

omit [Fintype F] in
theorem Rescaled.inv {p : ℝ} {s s' : St F n t K} (h : Rescaled p s s') (hs : Inv s) : Inv s' := by
  obtain ⟨c, hc, h1, h2, h3⟩ := h
  refine ⟨?_, ?_, ?_⟩
  · rw [h1]; exact scaled_det hc hs.1
  · rw [h2]; exact mulBasis_pos hc hs.2.1
  · rw [h3]; exact hs.2.2

/-- A rescaled state has the same loss. -/
theorem Rescaled.loss [Nonempty (Fin K)] {src : Source} {p : ℝ} (hm : IsModel src p) (ht : 0 < t) (X : Spec F n t)
    {s s' : St F n t K} (h : Rescaled p s s') (hs : Inv s) : loss src X s' = loss src X s := by
  obtain ⟨c, hc, h1, h2, h3⟩ := h
  have e : ∀ f, s'.W f = diagonal (c f) * s.W f := fun f => by rw [h1, scaled, mulRow_eq]
  exact lossOf_scale hm.scaleInv _ _ _ _ _ _ c hc ht (recon_pos hs.2.1 hs.2.2) (separate_diagonal X s.W s'.W c e)
    (fun k f j => by rw [h2, h3, recon_mulBasis]) e hs.1

/-! ## Normalisation -/

/-- Normalising, in whatever way, is rescaling. -/
theorem normalize_rescaled (p : ℝ) (X : Spec F n t) (norm : Norm n) {s : St F n t K} (hW : ∀ f, IsUnit (s.W f).det)
    (hreg : NormReg id X norm s.W) : ∃ s', normalize p id X norm s = .ok s' ∧ Rescaled p s s' := by
  cases norm with
  | off => exact ⟨s, rfl, Rescaled.refl p s⟩
  | power =>
    have hψ : ∀ k, 0 < psi id (separate X s.W) k := hreg
    refine ⟨_, rfl, fun _ k => ((psi id (separate X s.W) k : ℂ))⁻¹, fun f k => inv_ne_zero (by exact_mod_cast (hψ k).ne'),
      ?_, ?_, rfl⟩
    · funext f
      rw [scaled, mulRow_eq]
      exact divRows_eq _ _ f
    · funext k f b
      change s.T k f b / psi id (separate X s.W) k ^ p = _
      rw [mulBasis, norm_inv, Complex.norm_real, Real.norm_of_nonneg (hψ k).le, Real.inv_rpow (hψ k).le,
        div_eq_mul_inv]
  | projectionBack r =>
    simp only [Ilrma.normalize, npInvB, if_pos hW, bind, Except.bind]
    refine ⟨_, rfl, fun f k => (s.W f)⁻¹ r k, hreg, ?_, rfl, rfl⟩
    funext f
    rw [scaled, mulRow_eq]
    exact mulRows_eq (fun f k => (s.W f)⁻¹ r k) s.W f

/-- Whether a filter can be normalised does not depend on its scale. -/
theorem normReg_scaled (X : Spec F n t) (norm : Norm n) {c : F → Fin n → ℂ} (hc : ∀ f k, c f k ≠ 0) {W : F → Mat n ℂ}
    (h : NormReg id X norm W) : NormReg id X norm (scaled c W) := by
  cases norm with
  | off => trivial
  | power =>
    intro k
    have hk : 0 < psi id (separate X W) k := h k
    simp only [psi, id, Real.sqrt_pos] at hk ⊢
    have h1 : 0 < (∑ f, ∑ s, ‖separate X W f k s‖ ^ 2) := by
      refine lt_of_le_of_ne (by positivity) fun h0 => ?_
      rw [← h0, zero_div] at hk
      exact hk.false
    have h2 : (0 : ℝ) < Fintype.card F * t := by
      refine lt_of_le_of_ne (by positivity) fun h0 => ?_
      rw [← h0, div_zero] at hk
      exact hk.false
    refine div_pos ?_ h2
    obtain ⟨f, -, hf⟩ := Finset.exists_ne_zero_of_sum_ne_zero h1.ne'
    obtain ⟨s, -, hs⟩ := Finset.exists_ne_zero_of_sum_ne_zero hf
    have h3 : separate X (scaled c W) f k s ≠ 0 := by
      intro h0
      rw [← norm_eq_zero, separate_scaled, norm_scaled] at h0
      rcases mul_eq_zero.mp h0 with h0 | h0
      · exact hs (by rw [h0]; ring)
      · exact hc f k (norm_eq_zero.mp h0)
    have h4 : 0 < ∑ s, ‖separate X (scaled c W) f k s‖ ^ 2 :=
      Finset.sum_pos' (fun _ _ => sq_nonneg _) ⟨s, Finset.mem_univ _, pow_pos (norm_pos_iff.mpr h3) 2⟩
    exact Finset.sum_pos' (fun _ _ => Finset.sum_nonneg fun _ _ => sq_nonneg _) ⟨f, Finset.mem_univ _, h4⟩
  | projectionBack r =>
    intro f k
    rw [scaled, mulRow_eq, Matrix.mul_inv_rev, inv_diagonal, mul_diagonal]
    refine mul_ne_zero (h f k) ?_
    have hu : IsUnit (c f) := Pi.isUnit_iff.mpr fun i => (hc f i).isUnit
    obtain ⟨u, hu⟩ := hu
    rw [← hu, Ring.inverse_unit]
    intro h0
    have := congrFun (Units.inv_mul u) k
    rw [Pi.mul_apply, h0, zero_mul, Pi.one_apply] at this
    exact zero_ne_one this

/-! ## One iteration -/

/-- What an iteration of a run visits: bases and activations that stay positive, for IP2 pairs that determine their update,
and a filter that is invertible and can be normalised in both ways. -/
structure Visits (np : Numpy ℂ) (src : Source) (alg : FilterAlg n) (norm norm' : Norm n) (X : Spec F n t) (s : St F n t K) :
    Prop where
  basis : ∀ k f b, 0 < (updateSource src id X s).T k f b
  activation : ∀ k b j, 0 < (updateSource src id X s).V k b j
  pairs : ∀ l, alg = .ip2 l →
    let s₁ := updateSource src id X s
    let phi := varphi src id (separate X s₁.W) (recon s₁.T s₁.V)
    RegularFold (fun W p => onBins fun f => ip2Pair np id (Iva.wcov (phi f) X f) (W f) p) (Ip2Regular phi X) l s.W
  spatial : ∃ s₁, updateSpatial np src alg id X (updateSource src id X s) = .ok s₁ ∧ (∀ f, IsUnit (s₁.W f).det) ∧
    NormReg id X norm s₁.W ∧ NormReg id X norm' s₁.W

theorem source_rescaled [Nonempty (Fin K)] {src : Source} {p : ℝ} (hm : IsModel src p) (X : Spec F n t) {s s' : St F n t K}
    (hs : Inv s) {c : F → Fin n → ℂ} (hc : ∀ f k, c f k ≠ 0) (h1 : s'.W = scaled c s.W) (h2 : s'.T = mulBasis p c s.T)
    (h3 : s'.V = s.V) (hT : ∀ k f b, 0 < (updateSource src id X s).T k f b) :
    updateSource src id X s'
      = ⟨scaled c s.W, mulBasis p c (updateSource src id X s).T, (updateSource src id X s).V⟩ := by
  have e1 : basisRaw src (separate X s'.W) s'.T s'.V = mulBasis p c (basisRaw src (separate X s.W) s.T s.V) := by
    rw [h1, h2, h3, separate_scaled, basisRaw_scaled hm.homogeneous hc hs.2.1 hs.2.2]
  have e2 : activationRaw src (separate X s'.W) (mulBasis p c (basisRaw src (separate X s.W) s.T s.V)) s'.V
      = activationRaw src (separate X s.W) (basisRaw src (separate X s.W) s.T s.V) s.V := by
    rw [h1, h3, separate_scaled]
    exact activationRaw_scaled hm.homogeneous hc hT hs.2.2 _
  have e3 : updateSource src id X s' = ⟨s'.W, basisRaw src (separate X s'.W) s'.T s'.V,
      activationRaw src (separate X s'.W) (basisRaw src (separate X s'.W) s'.T s'.V) s'.V⟩ := rfl
  rw [e3, e1, e2, h1]
  rfl

omit [Fintype F] in
/-- The spatial update of a rescaled filter with the weights that belong to it. -/
theorem spatial_rescaled (np np' : Numpy ℂ) (alg : FilterAlg n) (phi : F → Fin n → Fin t → ℝ) (X : Spec F n t)
    {c : F → Fin n → ℂ} (hc : ∀ f k, c f k ≠ 0) {W W₁ : F → Mat n ℂ}
    (hp : ∀ l, alg = .ip2 l →
      RegularFold (fun W p => onBins fun f => ip2Pair np id (Iva.wcov (phi f) X f) (W f) p) (Ip2Regular phi X) l W)
    (h : spatialFilter np alg id phi X W = .ok W₁) :
    ∃ d : F → Fin n → ℂ, (∀ f k, ‖d f k‖ = ‖c f k‖) ∧
      spatialFilter np' alg id (fun f k s => (‖c f k‖ ^ 2)⁻¹ * phi f k s) X (scaled c W) = .ok (scaled d W₁) := by
  cases alg with
  | ip1 =>
    refine ⟨c, fun _ _ => rfl, ?_⟩
    simp only [spatialFilter] at h ⊢
    rw [ip1_scaled hc, h]
    rfl
  | ip2 l =>
    have key := foldlM_rel (fun W p => onBins fun f => ip2Pair np id (Iva.wcov (phi f) X f) (W f) p)
      (fun W p => onBins fun f => ip2Pair np' id (Iva.wcov (fun k s => (‖c f k‖ ^ 2)⁻¹ * phi f k s) X f) (W f) p)
      (fun W W' => ∃ d : F → Fin n → ℂ, (∀ f k, ‖d f k‖ = ‖c f k‖) ∧ W' = scaled d W) (Ip2Regular phi X) ?_ l W
      (scaled c W) ⟨c, fun _ _ => rfl, rfl⟩ (hp l rfl)
    · obtain ⟨a, a', e, e', d, hd, rfl⟩ := key
      simp only [spatialFilter] at h ⊢
      rw [e] at h
      cases h
      exact ⟨d, hd, e'⟩
    · rintro W W' p ⟨d, hd, rfl⟩ hr
      have hd0 : ∀ f k, d f k ≠ 0 := fun f k => norm_pos_iff.mp (by rw [hd]; exact norm_pos_iff.mpr (hc f k))
      have key := fun f => Phase.ip2Pair_scale np np' hr.1 (hr.2 f).2.1 (hr.2 f).2.2.1 (hr.2 f).1 (hr.2 f).2.2.2 (hd0 f)
      choose W₁ d₁ h1 h2 h3 using key
      refine ⟨W₁, scaled d₁ W₁, onBins_ok h1, onBins_ok fun f => ?_, d₁, fun f k => (h3 f k).trans (hd f k), rfl⟩
      rw [← show (fun k => (((‖d f k‖ ^ 2)⁻¹ : ℝ) : ℂ) • Iva.wcov (phi f) X f k)
        = Iva.wcov (fun k s => (‖c f k‖ ^ 2)⁻¹ * phi f k s) X f from ?_]
      · exact h2 f
      · funext k
        rw [hd]
        ext i j
        simp only [Iva.wcov, Matrix.smul_apply, smul_eq_mul, of_apply, meanT]
        rw [mul_div_assoc', Finset.mul_sum]
        congr 1
        exact Finset.sum_congr rfl fun s _ => by push_cast; ring

theorem step [Nonempty (Fin K)] (np np' : Numpy ℂ) {src : Source} {p : ℝ} (hm : IsModel src p) (alg : FilterAlg n)
    (norm norm' : Norm n) (X : Spec F n t) (s s' : St F n t K) (h : Inv s ∧ Rescaled p s s')
    (hv : Visits np src alg norm norm' X s) :
    ∃ a a', updateOnce np src p alg norm id X s = .ok a ∧ updateOnce np' src p alg norm' id X s' = .ok a' ∧
      Inv a ∧ Rescaled p a a' := by
  obtain ⟨hs, c, hc, h1, h2, h3⟩ := h
  obtain ⟨s₁, e₁, hu, hn, hn'⟩ := hv.spatial
  simp only [updateSpatial, bind, Except.bind] at e₁
  cases e : spatialFilter np alg id (varphi src id (separate X (updateSource src id X s).W)
      (recon (updateSource src id X s).T (updateSource src id X s).V)) X (updateSource src id X s).W with
  | error => rw [e] at e₁; cases e₁
  | ok W₁ =>
    rw [e] at e₁
    cases e₁
    obtain ⟨d, hd, e'⟩ := spatial_rescaled np np' alg _ X hc (fun l hl => hv.pairs l hl) e
    have hd0 : ∀ f k, d f k ≠ 0 := fun f k => norm_pos_iff.mp (by rw [hd]; exact norm_pos_iff.mpr (hc f k))
    obtain ⟨a, ha, hR⟩ := normalize_rescaled p X norm (s := ⟨W₁, (updateSource src id X s).T, (updateSource src id X s).V⟩)
      hu hn
    obtain ⟨a', ha', hR'⟩ := normalize_rescaled p X norm'
      (s := ⟨scaled d W₁, mulBasis p c (updateSource src id X s).T, (updateSource src id X s).V⟩)
      (scaled_det hd0 hu) (normReg_scaled X norm' hd0 hn')
    have hmid : Rescaled p (⟨W₁, (updateSource src id X s).T, (updateSource src id X s).V⟩ : St F n t K)
        ⟨scaled d W₁, mulBasis p c (updateSource src id X s).T, (updateSource src id X s).V⟩ :=
      ⟨d, hd0, rfl, by funext k f b; simp only [mulBasis, hd], rfl⟩
    refine ⟨a, a', ?_, ?_, hR.inv ⟨hu, hv.basis, hv.activation⟩, hR.symm.trans (hmid.trans hR')⟩
    · simp only [updateOnce, updateSpatial, bind, Except.bind, e]
      exact ha
    · have ephi : varphi src id (separate X (scaled c s.W))
          (recon (mulBasis p c (updateSource src id X s).T) (updateSource src id X s).V)
            = fun f k j => (‖c f k‖ ^ 2)⁻¹ * varphi src id (separate X (updateSource src id X s).W)
                (recon (updateSource src id X s).T (updateSource src id X s).V) f k j := by
        funext f k j
        rw [separate_scaled]
        exact varphi_scaled hm.homogeneous hc hv.basis hv.activation _ f k j
      simp only [updateOnce, updateSpatial, source_rescaled hm X hs hc h1 h2 h3 hv.basis, ephi, bind, Except.bind]
      have e'' : spatialFilter np' alg id (fun f k j => (‖c f k‖ ^ 2)⁻¹ * varphi src id
          (separate X (updateSource src id X s).W) (recon (updateSource src id X s).T (updateSource src id X s).V) f k j) X
          (scaled c s.W) = .ok (scaled d W₁) := e'
      rw [e'']
      exact ha'

/-! ## Runs and calls -/

/-- C110: two runs from states that differ in scale, with whatever normalisation in each, record the same losses. -/
theorem C110_run [Nonempty (Fin K)] (np np' : Numpy ℂ) {src : Source} {p : ℝ} (hm : IsModel src p) (ht : 0 < t)
    (alg : FilterAlg n) (norm norm' : Norm n) (X : Spec F n t) (ic : Bool) (n_iter : ℕ) {s s' : St F n t K} (hs : Inv s)
    (h : Rescaled p s s') (hreg : RegularRun (updateOnce np src p alg norm id X) (Visits np src alg norm norm' X) n_iter s)
    (ls : List ℝ) :
    ∃ a a' ls', baseCall (updateOnce np src p alg norm id X) (fun s => .ok (loss src X s)) ic n_iter s ls = .ok (a, ls') ∧
      baseCall (updateOnce np' src p alg norm' id X) (fun s => .ok (loss src X s)) ic n_iter s' ls = .ok (a', ls') ∧
      Inv a ∧ Rescaled p a a' :=
  TwoSources.baseCall_rel (R := fun s s' => Inv s ∧ Rescaled p s s') (step np np' hm alg norm norm' X)
    (fun _ _ h => ⟨_, rfl, by rw [h.2.loss hm ht X h.1]⟩) ic n_iter ⟨hs, h⟩ hreg ls

omit [Fintype F] in
theorem finish_same (sr : ScaleOpt) (hsr : sr.truthy = true) (r : Fin n) (X : Spec F n t) {p : ℝ} {s s' : St F n t K}
    (h : Rescaled p s s') : finish sr r X s'.W = finish sr r X s.W := by
  obtain ⟨c, hc, h1, -⟩ := h
  rw [h1]
  exact Lifecycle.finish_rescale sr hsr r c hc X s.W

/-- C110: a call with scale restoration. Another normalisation changes the bases and nothing else: the same losses, the
same activations, the same filters, the same output. -/
theorem C110_call [Nonempty (Fin K)] (np np' : Numpy ℂ) {src : Source} {p : ℝ} (hm : IsModel src p) (ht : 0 < t)
    (alg : FilterAlg n) (norm norm' : Norm n) {sr : ScaleOpt} (hsr : sr.truthy = true) (r : Fin n) (draw : Draw F n t K)
    (X : Spec F n t) (n_iter : ℕ) (ic : Bool) (kw : Kw F n t K) (o : Obj F n t K)
    (hreg : ∀ s, IlrmaCall.resetFilter alg id draw X kw o = .ok s → Inv s ∧
      RegularRun (updateOnce np src p alg norm id X) (Visits np src alg norm norm' X) n_iter s) :
    ∃ T', IlrmaCall.call np' src p alg norm' id sr r draw X n_iter ic kw o
      = (IlrmaCall.call np src p alg norm id sr r draw X n_iter ic kw o).map fun o => { o with basis := .val T' } := by
  rw [IlrmaCall.call, IlrmaCall.call]
  cases e : IlrmaCall.resetFilter alg id draw X kw o with
  | error => exact ⟨fun _ _ _ => 0, rfl⟩
  | ok s =>
    obtain ⟨hs, hr⟩ := hreg s e
    obtain ⟨a, a', ls, e1, e2, -, hR⟩ := C110_run np np' hm ht alg norm norm' X ic n_iter hs (Rescaled.refl p s) hr o.loss
    refine ⟨a'.T, ?_⟩
    have hV : a'.V = a.V := hR.choose_spec.2.2.2
    simp only [bind, Except.bind, e1, e2, finish_same sr hsr r X hR, hV]
    cases finish sr r X a.W <;> rfl

/-- C110: the scale of the filter and the bases that a call starts from is as irrelevant. -/
theorem C110_initial_scale [Nonempty (Fin K)] (np np' : Numpy ℂ) {src : Source} {p : ℝ} (hm : IsModel src p) (ht : 0 < t)
    (alg : FilterAlg n) (norm norm' : Norm n) {sr : ScaleOpt} (hsr : sr.truthy = true) (r : Fin n) (draw draw' : Draw F n t K)
    (X : Spec F n t) (n_iter : ℕ) (ic : Bool) (o : Obj F n t K) {W : F → Mat n ℂ} {T : Fin n → F → Fin K → ℝ}
    {V : Fin n → Fin K → Fin t → ℝ} (hW : ∀ f, IsUnit (W f).det) (hT : ∀ k f b, 0 < T k f b) (hV : ∀ k b j, 0 < V k b j)
    (hreg : RegularRun (updateOnce np src p alg norm id X) (Visits np src alg norm norm' X) n_iter ⟨W, T, V⟩)
    {c : F → Fin n → ℂ} (hc : ∀ f k, c f k ≠ 0) :
    ∃ T', IlrmaCall.call np' src p alg norm' id sr r draw' X n_iter ic
        { demix := some fun f => Matrix.of fun k j => c f k * W f k j, basis := some fun k f b => T k f b * ‖c f k‖ ^ p,
          activation := some V } o
      = (IlrmaCall.call np src p alg norm id sr r draw X n_iter ic
          { demix := some W, basis := some T, activation := some V } o).map fun o => { o with basis := .val T' } := by
  have h1 : ∀ (draw : Draw F n t K) W T V, IlrmaCall.resetFilter alg id draw X
      { demix := some W, basis := some T, activation := some V } o = .ok ⟨W, T, V⟩ := by
    intro draw W T V
    cases alg <;> rfl
  rw [IlrmaCall.call, IlrmaCall.call, h1, h1]
  obtain ⟨a, a', ls, e1, e2, -, hR⟩ := C110_run np np' hm ht alg norm norm' X ic n_iter (s := ⟨W, T, V⟩)
    (s' := ⟨scaled c W, mulBasis p c T, V⟩) ⟨hW, hT, hV⟩ ⟨c, hc, rfl, rfl, rfl⟩ hreg o.loss
  refine ⟨a'.T, ?_⟩
  have hV : a'.V = a.V := hR.choose_spec.2.2.2
  simp only [bind, Except.bind, e1]
  have e2' : baseCall (updateOnce np' src p alg norm' id X) (fun s => .ok (loss src X s)) ic n_iter
      ⟨fun f => Matrix.of fun k j => c f k * W f k j, fun k f b => T k f b * ‖c f k‖ ^ p, V⟩ o.loss = .ok (a', ls) := e2
  simp only [e2', finish_same sr hsr r X hR, hV]
  cases finish sr r X a.W <;> rfl

/-! ## The algorithms without a filter -/

/-- As `Visits`: the outputs are the mixture seen through invertible filters that can be normalised in both ways. -/
structure VisitsY (np : Numpy ℂ) (src : Source) (alg : SignalAlg n) (norm norm' : Norm n) (X : Spec F n t)
    (s : StY F n t K) : Prop where
  basis : ∀ k f b, 0 < (updateSourceY src id s).T k f b
  activation : ∀ k b j, 0 < (updateSourceY src id s).V k b j
  pairs : ∀ l, alg = .iss2 l →
    let s₁ := updateSourceY src id s
    let phi := varphi src id s₁.Y (recon s₁.T s₁.V)
    RegularFold (fun Y p => onBins fun f => iss2Pair np id (phi f) (Y f) p) (Iss2Regular phi) l s.Y
  spatial : ∃ W₁ : F → Mat n ℂ, updateSpatialY np src alg id (updateSourceY src id s)
      = .ok ⟨separate X W₁, (updateSourceY src id s).T, (updateSourceY src id s).V⟩ ∧ (∀ f, IsUnit (W₁ f).det) ∧
    NormReg id X norm W₁ ∧ NormReg id X norm' W₁

/-- The outputs of states that are rescaled. -/
def RescaledY (p : ℝ) (X : Spec F n t) (s s' : StY F n t K) : Prop :=
  ∃ u u' : St F n t K, s = u.toY X ∧ s' = u'.toY X ∧ Inv u ∧ Rescaled p u u'

omit [Fintype F] in
theorem signal_rescaled (np np' : Numpy ℂ) (alg : SignalAlg n) (phi : F → Fin n → Fin t → ℝ)
    {c : F → Fin n → ℂ} (hc : ∀ f k, c f k ≠ 0) {Y Y₁ : Spec F n t}
    (hp : ∀ l, alg = .iss2 l →
      RegularFold (fun Y p => onBins fun f => iss2Pair np id (phi f) (Y f) p) (Iss2Regular phi) l Y)
    (h : spatialSignal np alg id phi Y = .ok Y₁) :
    ∃ d : F → Fin n → ℂ, (∀ f k, ‖d f k‖ = ‖c f k‖) ∧
      spatialSignal np' alg id (fun f k s => (‖c f k‖ ^ 2)⁻¹ * phi f k s) (scaled c Y) = .ok (scaled d Y₁) := by
  cases alg with
  | iss1 =>
    refine ⟨c, fun _ _ => rfl, ?_⟩
    simp only [spatialSignal] at h ⊢
    cases h
    rw [iss1_scaled hc]
  | iss2 l =>
    have key := foldlM_rel (fun Y p => onBins fun f => iss2Pair np id (phi f) (Y f) p)
      (fun Y p => onBins fun f => iss2Pair np' id (fun k s => (‖c f k‖ ^ 2)⁻¹ * phi f k s) (Y f) p)
      (fun Y Y' => ∃ d : F → Fin n → ℂ, (∀ f k, ‖d f k‖ = ‖c f k‖) ∧ Y' = scaled d Y) (Iss2Regular phi) ?_ l Y
      (scaled c Y) ⟨c, fun _ _ => rfl, rfl⟩ (hp l rfl)
    · obtain ⟨a, a', e, e', d, hd, rfl⟩ := key
      simp only [spatialSignal] at h ⊢
      rw [e] at h
      cases h
      exact ⟨d, hd, e'⟩
    · rintro Y Y' p ⟨d, hd, rfl⟩ hr
      have hd0 : ∀ f k, d f k ≠ 0 := fun f k => norm_pos_iff.mp (by rw [hd]; exact norm_pos_iff.mpr (hc f k))
      have key := fun f => Phase.iss2Pair_scale np np' (hr f).1 (hr f).2.1 (hr f).2.2 (hd0 f)
      choose Y₁ d₁ h1 h2 h3 using key
      refine ⟨Y₁, scaled d₁ Y₁, onBins_ok h1, onBins_ok fun f => ?_, d₁, fun f k => (h3 f k).trans (hd f k), rfl⟩
      have := h2 f
      simp only [hd] at this
      exact this

theorem stepY [Nonempty (Fin K)] (np np' : Numpy ℂ) {src : Source} {p : ℝ} (hm : IsModel src p) (alg : SignalAlg n)
    (norm norm' : Norm n) {X : Spec F n t} (hX : ∀ f, LinearIndependent ℂ (X f).row) (s s' : StY F n t K)
    (h : RescaledY p X s s') (hv : VisitsY np src alg norm norm' X s) :
    ∃ a a', updateOnceY np src p alg norm id X s = .ok a ∧ updateOnceY np' src p alg norm' id X s' = .ok a' ∧
      RescaledY p X a a' := by
  obtain ⟨u, u', rfl, rfl, hs, c, hc, h1, h2, h3⟩ := h
  obtain ⟨W₁, e₁, hu, hn, hn'⟩ := hv.spatial
  have esrc : ∀ u : St F n t K, updateSourceY src id (u.toY X) = (updateSource src id X u).toY X := fun _ => rfl
  have hT : ∀ k f b, 0 < (updateSource src id X u).T k f b := hv.basis
  have hV : ∀ k b j, 0 < (updateSource src id X u).V k b j := hv.activation
  simp only [updateSpatialY, bind, Except.bind] at e₁
  cases e : spatialSignal np alg id (varphi src id (updateSourceY src id (u.toY X)).Y
      (recon (updateSourceY src id (u.toY X)).T (updateSourceY src id (u.toY X)).V)) (updateSourceY src id (u.toY X)).Y with
  | error => rw [e] at e₁; cases e₁
  | ok Y₁ =>
    rw [e] at e₁
    have hY : Y₁ = separate X W₁ := congrArg StY.Y (Except.ok.inj e₁)
    subst hY
    obtain ⟨d, hd, e'⟩ := signal_rescaled np np' alg _ hc (fun l hl => hv.pairs l hl) e
    have hd0 : ∀ f k, d f k ≠ 0 := fun f k => norm_pos_iff.mp (by rw [hd]; exact norm_pos_iff.mpr (hc f k))
    obtain ⟨a, ha, hR⟩ := normalize_rescaled p X norm (s := ⟨W₁, (updateSource src id X u).T, (updateSource src id X u).V⟩)
      hu hn
    obtain ⟨a', ha', hR'⟩ := normalize_rescaled p X norm'
      (s := ⟨scaled d W₁, mulBasis p c (updateSource src id X u).T, (updateSource src id X u).V⟩)
      (scaled_det hd0 hu) (normReg_scaled X norm' hd0 hn')
    have hmid : Rescaled p (⟨W₁, (updateSource src id X u).T, (updateSource src id X u).V⟩ : St F n t K)
        ⟨scaled d W₁, mulBasis p c (updateSource src id X u).T, (updateSource src id X u).V⟩ :=
      ⟨d, hd0, rfl, by funext k f b; simp only [mulBasis, hd], rfl⟩
    have n1 := normalizeY_toY p id X hX norm (⟨W₁, (updateSource src id X u).T, (updateSource src id X u).V⟩ : St F n t K) hu
    have n2 := normalizeY_toY p id X hX norm'
      (⟨scaled d W₁, mulBasis p c (updateSource src id X u).T, (updateSource src id X u).V⟩ : St F n t K) (scaled_det hd0 hu)
    rw [ha] at n1
    rw [ha'] at n2
    refine ⟨a.toY X, a'.toY X, ?_, ?_, a, a', rfl, rfl, hR.inv ⟨hu, hT, hV⟩, hR.symm.trans (hmid.trans hR')⟩
    · simp only [updateOnceY, updateSpatialY, bind, Except.bind, e]
      exact n1
    · have ephi : varphi src id (separate X (scaled c u.W))
          (recon (mulBasis p c (updateSource src id X u).T) (updateSource src id X u).V)
            = fun f k j => (‖c f k‖ ^ 2)⁻¹ * varphi src id (separate X u.W)
                (recon (updateSource src id X u).T (updateSource src id X u).V) f k j := by
        funext f k j
        rw [separate_scaled]
        exact varphi_scaled hm.homogeneous hc hT hV _ f k j
      have e'' : spatialSignal np' alg id (fun f k j => (‖c f k‖ ^ 2)⁻¹ * varphi src id (separate X u.W)
          (recon (updateSource src id X u).T (updateSource src id X u).V) f k j) (separate X (scaled c u.W))
            = .ok (separate X (scaled d W₁)) := by
        rw [separate_scaled, separate_scaled]
        exact e'
      simp only [updateOnceY, updateSpatialY, esrc, source_rescaled hm X hs hc h1 h2 h3 hT, bind, Except.bind]
      simp only [St.toY, ephi, e'']
      exact n2

/-- C110 for the losses of ISS. -/
theorem C110_run_signal [Nonempty (Fin K)] (np np' : Numpy ℂ) {src : Source} {p : ℝ} (hm : IsModel src p) (ht : 0 < t)
    (alg : SignalAlg n) (norm norm' : Norm n) {X : Spec F n t} (hX : ∀ f, LinearIndependent ℂ (X f).row) (ic : Bool)
    (n_iter : ℕ) {s s' : StY F n t K} (h : RescaledY p X s s')
    (hreg : RegularRun (updateOnceY np src p alg norm id X) (VisitsY np src alg norm norm' X) n_iter s) (ls : List ℝ) :
    ∃ a a' ls', baseCall (updateOnceY np src p alg norm id X) (lossY src X) ic n_iter s ls = .ok (a, ls') ∧
      baseCall (updateOnceY np' src p alg norm' id X) (lossY src X) ic n_iter s' ls = .ok (a', ls') ∧ RescaledY p X a a' :=
  TwoSources.baseCall_rel (R := RescaledY p X) (stepY np np' hm alg norm norm' hX)
    (by
      rintro _ _ ⟨u, u', rfl, rfl, hi, hR⟩
      exact ⟨_, lossY_toY src X hX u, by rw [lossY_toY src X hX u', hR.loss hm ht X hi]⟩) ic n_iter h hreg ls

omit [Fintype F] in
theorem finishFree_same (sr : ScaleOpt) (hsr : sr.truthy = true) (r : Fin n) (X : Spec F n t) {p : ℝ} {s s' : StY F n t K}
    (h : RescaledY p X s s') : finishFree sr r X s'.Y = finishFree sr r X s.Y ∧ s'.V = s.V := by
  obtain ⟨u, u', rfl, rfl, -, c, hc, h1, -, h3⟩ := h
  refine ⟨?_, h3⟩
  simp only [St.toY, h1, separate_scaled]
  exact finishFree_rescale sr hsr r c hc X _

/-- C110 for a call with ISS and scale restoration. -/
theorem C110_call_signal [Nonempty (Fin K)] (np np' : Numpy ℂ) {src : Source} {p : ℝ} (hm : IsModel src p) (ht : 0 < t)
    (alg : SignalAlg n) (norm norm' : Norm n) {sr : ScaleOpt} (hsr : sr.truthy = true) (r : Fin n) (draw : Draw F n t K)
    {X : Spec F n t} (hX : ∀ f, LinearIndependent ℂ (X f).row) (n_iter : ℕ) (ic : Bool) (kw : Kw F n t K) (o : Obj F n t K)
    (hreg : ∀ s, IlrmaCall.resetSignal alg id draw X kw o = .ok s → InvY X s ∧
      RegularRun (updateOnceY np src p alg norm id X) (VisitsY np src alg norm norm' X) n_iter s) :
    ∃ T', IlrmaCall.callSignal np' src p alg norm' id sr r draw X n_iter ic kw o
      = (IlrmaCall.callSignal np src p alg norm id sr r draw X n_iter ic kw o).map fun o => { o with basis := .val T' } := by
  rw [IlrmaCall.callSignal, IlrmaCall.callSignal]
  cases e : IlrmaCall.resetSignal alg id draw X kw o with
  | error => exact ⟨fun _ _ _ => 0, rfl⟩
  | ok s =>
    obtain ⟨⟨u, hu, hs⟩, hr⟩ := hreg s e
    obtain ⟨a, a', ls, e1, e2, hR⟩ := C110_run_signal np np' hm ht alg norm norm' hX ic n_iter (s := s) (s' := s)
      ⟨u, u, hu, hu, hs, Rescaled.refl p u⟩ hr o.loss
    obtain ⟨hf, hV⟩ := finishFree_same sr hsr r X hR
    refine ⟨a'.T, ?_⟩
    simp only [bind, Except.bind, e1, e2, hf, hV]
    cases finishFree sr r X a.Y <;> rfl

/-- C110: the scale of the initial filter and bases for ISS. -/
theorem C110_initial_scale_signal [Nonempty (Fin K)] (np np' : Numpy ℂ) {src : Source} {p : ℝ} (hm : IsModel src p)
    (ht : 0 < t) (alg : SignalAlg n) (norm norm' : Norm n) {sr : ScaleOpt} (hsr : sr.truthy = true) (r : Fin n)
    (draw draw' : Draw F n t K) {X : Spec F n t} (hX : ∀ f, LinearIndependent ℂ (X f).row) (n_iter : ℕ) (ic : Bool)
    (o : Obj F n t K) {W : F → Mat n ℂ} {T : Fin n → F → Fin K → ℝ} {V : Fin n → Fin K → Fin t → ℝ}
    (hW : ∀ f, IsUnit (W f).det) (hT : ∀ k f b, 0 < T k f b) (hV : ∀ k b j, 0 < V k b j)
    (hreg : RegularRun (updateOnceY np src p alg norm id X) (VisitsY np src alg norm norm' X) n_iter ⟨separate X W, T, V⟩)
    {c : F → Fin n → ℂ} (hc : ∀ f k, c f k ≠ 0) :
    ∃ T', IlrmaCall.callSignal np' src p alg norm' id sr r draw' X n_iter ic
        { demix := some fun f => Matrix.of fun k j => c f k * W f k j, basis := some fun k f b => T k f b * ‖c f k‖ ^ p,
          activation := some V } o
      = (IlrmaCall.callSignal np src p alg norm id sr r draw X n_iter ic
          { demix := some W, basis := some T, activation := some V } o).map fun o => { o with basis := .val T' } := by
  have h1 : ∀ (draw : Draw F n t K) W T V, IlrmaCall.resetSignal alg id draw X
      { demix := some W, basis := some T, activation := some V } o = .ok ⟨separate X W, T, V⟩ := by
    intro draw W T V
    cases alg <;> rfl
  rw [IlrmaCall.callSignal, IlrmaCall.callSignal, h1, h1]
  obtain ⟨a, a', ls, e1, e2, hR⟩ := C110_run_signal np np' hm ht alg norm norm' hX ic n_iter (s := ⟨separate X W, T, V⟩)
    (s' := ⟨separate X (scaled c W), mulBasis p c T, V⟩)
    ⟨⟨W, T, V⟩, ⟨scaled c W, mulBasis p c T, V⟩, rfl, rfl, ⟨hW, hT, hV⟩, c, hc, rfl, rfl, rfl⟩ hreg o.loss
  obtain ⟨hf, hV'⟩ := finishFree_same sr hsr r X hR
  refine ⟨a'.T, ?_⟩
  simp only [bind, Except.bind, e1]
  have e2' : baseCall (updateOnceY np' src p alg norm' id X) (lossY src X) ic n_iter
      ⟨separate X fun f => Matrix.of fun k j => c f k * W f k j, fun k f b => T k f b * ‖c f k‖ ^ p, V⟩ o.loss
        = .ok (a', ls) := e2
  simp only [e2', hf, hV']
  cases finishFree sr r X a.Y <;> rfl

/-! ## When nothing else is needed -/

/-- GaussILRMA and TILRMA, with MM or ME updates. -/
inductive IsGaussOrT : Source → ℝ → Prop
  | gauss {p : ℝ} (hp : 0 < p) : IsGaussOrT (gauss p) p
  | gaussME : IsGaussOrT gaussME 2
  | student {p nu : ℝ} (hp : 0 < p) (hnu : 0 < nu) : IsGaussOrT (student p nu) p
  | studentME {nu : ℝ} (hnu : 0 < nu) : IsGaussOrT (studentME nu) 2

theorem IsGaussOrT.isModel {src : Source} {p : ℝ} (h : IsGaussOrT src p) : IsModel src p := by
  cases h with
  | gauss hp => exact .gauss hp
  | gaussME => exact .gaussME
  | student hp => exact .student hp
  | studentME => exact .studentME

theorem rTilde_pos {p nu y r : ℝ} (hnu : 0 < nu) (hr : 0 < r) : 0 < rTilde p nu y r := by
  have h1 : 0 < nu / (nu + 2) := by positivity
  have h2 : 0 ≤ 1 - nu / (nu + 2) := by
    rw [sub_nonneg, div_le_one (by positivity)]
    linarith
  have h3 := Real.rpow_pos_of_pos hr (2 / p)
  rw [rTilde]
  have := mul_nonneg h2 (sq_nonneg y)
  have := mul_pos h1 h3
  linarith

theorem IsGaussOrT.phi_pos {src : Source} {p : ℝ} (h : IsGaussOrT src p) {y r : ℝ} (hr : 0 < r) : 0 < src.phi id y r := by
  cases h with
  | gauss hp => exact one_div_pos.mpr (Real.rpow_pos_of_pos hr _)
  | gaussME => exact one_div_pos.mpr (Real.rpow_pos_of_pos hr _)
  | student hp hnu => exact one_div_pos.mpr (rTilde_pos hnu hr)
  | studentME hnu => exact one_div_pos.mpr (rTilde_pos hnu hr)

theorem IsGaussOrT.num_nonneg {src : Source} {p : ℝ} (h : IsGaussOrT src p) {y r : ℝ} (hr : 0 < r) :
    0 ≤ src.num y r ∧ (y ≠ 0 → 0 < src.num y r) := by
  have hq : ∀ {nu : ℝ}, 0 < nu → 0 < nu / (nu + 2) * r + (1 - nu / (nu + 2)) * y ^ 2 := by
    intro nu hnu
    have := rTilde_pos (p := 2) (y := y) hnu hr
    rwa [rTilde, div_self two_ne_zero, Real.rpow_one] at this
  have key : ∀ q : ℝ, 0 < q → 0 ≤ y ^ 2 / q ∧ (y ≠ 0 → 0 < y ^ 2 / q) := fun q hq =>
    ⟨by positivity, fun hy => by positivity⟩
  cases h with
  | gauss hp => exact key _ (Real.rpow_pos_of_pos hr _)
  | gaussME => exact key _ (by positivity)
  | student hp hnu => exact key _ (mul_pos (rTilde_pos hnu hr) hr)
  | studentME hnu => exact key _ (mul_pos (hq hnu) hr)

/-- No output is silent in all bins of a frame. -/
def Audible (Y : Spec F n t) : Prop := ∀ k j, ∃ f, Y f k j ≠ 0

theorem source_pos [Nonempty (Fin K)] {src : Source} {p : ℝ} (hm : IsGaussOrT src p) {Y : Spec F n t} (ha : Audible Y)
    (hy : ∀ f k, ∃ j, Y f k j ≠ 0) {s : StY F n t K} (hs : s.Y = Y) (hT : ∀ k f b, 0 < s.T k f b)
    (hV : ∀ k b j, 0 < s.V k b j) :
    (∀ k f b, 0 < (updateSourceY src id s).T k f b) ∧ ∀ k b j, 0 < (updateSourceY src id s).V k b j := by
  subst hs
  have hT' : ∀ k f b, 0 < (updateSourceY src id s).T k f b := by
    intro k f b
    obtain ⟨j0, hj⟩ := hy f k
    have hR := recon_pos hT hV
    refine mul_pos (Real.rpow_pos_of_pos (div_pos ?_ ?_) _) (hT k f b)
    · exact Finset.sum_pos' (fun j _ => mul_nonneg (hV k b j).le (hm.num_nonneg (hR k f j)).1) ⟨j0, Finset.mem_univ _,
        mul_pos (hV k b j0) ((hm.num_nonneg (hR k f j0)).2 (norm_ne_zero_iff.mpr hj))⟩
    · exact Finset.sum_pos (fun j _ => div_pos (hV k b j) (hR k f j)) ⟨j0, Finset.mem_univ _⟩
  refine ⟨hT', fun k b j => ?_⟩
  obtain ⟨f0, hf⟩ := ha k j
  have hR := recon_pos hT' hV
  refine mul_pos (Real.rpow_pos_of_pos (div_pos ?_ ?_) _) (hV k b j)
  · exact Finset.sum_pos' (fun f _ => mul_nonneg (hT' k f b).le (hm.num_nonneg (hR k f j)).1) ⟨f0, Finset.mem_univ _,
      mul_pos (hT' k f0 b) ((hm.num_nonneg (hR k f0 j)).2 (norm_ne_zero_iff.mpr hf))⟩
  · exact Finset.sum_pos (fun f _ => div_pos (hT' k f b) (hR k f j)) ⟨f0, Finset.mem_univ _⟩

/-- Filters can be normalised by power unless a channel is a combination of the others. -/
theorem normReg_power [Nonempty F] {X : Spec F n t} (hX : ∀ f, LinearIndependent ℂ (X f).row) {W : F → Mat n ℂ}
    (hW : ∀ f, IsUnit (W f).det) : NormReg id X .power W := by
  intro k
  obtain ⟨f⟩ := ‹Nonempty F›
  obtain ⟨j, hj⟩ := Iva.exists_separate_ne hX hW f k
  have ht : 0 < t := Fin.pos j
  have : Nonempty F := ⟨f⟩
  have h4 : 0 < ∑ s, ‖separate X W f k s‖ ^ 2 :=
    Finset.sum_pos' (fun _ _ => sq_nonneg _) ⟨j, Finset.mem_univ _, pow_pos (norm_pos_iff.mpr hj) 2⟩
  have h5 : 0 < ∑ f, ∑ s, ‖separate X W f k s‖ ^ 2 :=
    Finset.sum_pos' (fun _ _ => Finset.sum_nonneg fun _ _ => sq_nonneg _) ⟨f, Finset.mem_univ _, h4⟩
  refine Real.sqrt_pos.mpr (div_pos h5 ?_)
  have := Fintype.card_pos (α := F)
  positivity

theorem visits_audible [Nonempty (Fin K)] [Nonempty F] (np : Numpy ℂ) {src : Source} {p : ℝ} (hm : IsGaussOrT src p)
    {X : Spec F n t} (hX : ∀ f, LinearIndependent ℂ (X f).row) {s : St F n t K} (hs : Inv s)
    (ha : Audible (separate X s.W)) : Visits np src .ip1 .off .power X s := by
  obtain ⟨hT, hV⟩ := source_pos hm ha (fun f k => Iva.exists_separate_ne hX hs.1 f k) (s := s.toY X) rfl hs.2.1 hs.2.2
  obtain ⟨W', h1, h2, -⟩ := Iva.ip1Stack_weighted (varphi src id (separate X (updateSource src id X s).W)
    (recon (updateSource src id X s).T (updateSource src id X s).V)) (fun f k j => hm.phi_pos (recon_pos hT hV k f j)) X hX
    s.W hs.1
  refine ⟨hT, hV, (fun l hl => nomatch hl), ⟨W', (updateSource src id X s).T, (updateSource src id X s).V⟩, ?_, h2, trivial,
    normReg_power hX h2⟩
  have h1' : spatialFilter np .ip1 id (varphi src id (separate X (updateSource src id X s).W)
    (recon (updateSource src id X s).T (updateSource src id X s).V)) X (updateSource src id X s).W = .ok W' := h1
  simp only [updateSpatial, bind, Except.bind, h1']

theorem visitsY_audible [Nonempty (Fin K)] [Nonempty F] (np : Numpy ℂ) {src : Source} {p : ℝ} (hm : IsGaussOrT src p)
    {X : Spec F n t} (hX : ∀ f, LinearIndependent ℂ (X f).row) {s : StY F n t K} (hs : InvY X s)
    (ha : Audible s.Y) : VisitsY np src .iss1 .off .power X s := by
  obtain ⟨u, rfl, hs⟩ := hs
  obtain ⟨hT, hV⟩ := source_pos hm ha (fun f k => Iva.exists_separate_ne hX hs.1 f k) (s := u.toY X) rfl hs.2.1 hs.2.2
  obtain ⟨W', h1, h2, -⟩ := Iva.iss1_weighted (varphi src id (separate X u.W)
    (recon (updateSourceY src id (u.toY X)).T (updateSourceY src id (u.toY X)).V))
    (fun f k j => hm.phi_pos (recon_pos hT hV k f j)) X hX u.W hs.1
  refine ⟨hT, hV, (fun l hl => nomatch hl), W', ?_, h2, trivial, normReg_power hX h2⟩
  simp only [updateSpatialY, spatialSignal, bind, Except.bind]
  congr 2

/-- The states of a run all satisfy `Inv`. -/
theorem regularRun_audible [Nonempty (Fin K)] [Nonempty F] (np : Numpy ℂ) {src : Source} {p : ℝ} (hm : IsGaussOrT src p)
    {X : Spec F n t} (hX : ∀ f, LinearIndependent ℂ (X f).row) (N : ℕ) : ∀ {s : St F n t K}, Inv s →
    RegularRun (updateOnce np src p .ip1 .off id X) (fun s => Audible (separate X s.W)) N s →
    RegularRun (updateOnce np src p .ip1 .off id X) (Visits np src .ip1 .off .power X) N s := by
  induction N with
  | zero => exact fun _ _ => trivial
  | succ N ih =>
    intro s hs h
    have hv := visits_audible np hm hX hs h.1
    refine ⟨hv, fun s' e => ih ?_ (h.2 s' e)⟩
    obtain ⟨a, a', e1, -, hi, -⟩ := step np np hm.isModel .ip1 .off .power X s s ⟨hs, Rescaled.refl p s⟩ hv
    rw [e] at e1
    cases e1
    exact hi

theorem regularRunY_audible [Nonempty (Fin K)] [Nonempty F] (np : Numpy ℂ) {src : Source} {p : ℝ} (hm : IsGaussOrT src p)
    {X : Spec F n t} (hX : ∀ f, LinearIndependent ℂ (X f).row) (N : ℕ) : ∀ {s : StY F n t K}, InvY X s →
    RegularRun (updateOnceY np src p .iss1 .off id X) (fun s => Audible s.Y) N s →
    RegularRun (updateOnceY np src p .iss1 .off id X) (VisitsY np src .iss1 .off .power X) N s := by
  induction N with
  | zero => exact fun _ _ => trivial
  | succ N ih =>
    intro s hs h
    have hv := visitsY_audible np hm hX hs h.1
    refine ⟨hv, fun s' e => ih ?_ (h.2 s' e)⟩
    obtain ⟨u, hu, hs⟩ := hs
    obtain ⟨a, a', e1, -, v, v', rfl, -, hi, -⟩ := stepY np np hm.isModel .iss1 .off .power hX s s
      ⟨u, u, hu, hu, hs, Rescaled.refl p u⟩ hv
    rw [e] at e1
    cases e1
    exact ⟨v, rfl, hi⟩

/-- C110: normalisation by power, the default, can be switched off in `GaussILRMA` and `TILRMA` with IP1. All that is asked
of the recording is that its channels are linearly independent, and of the run that no output is silent in all bins of a
frame. -/
theorem C110_power [Nonempty (Fin K)] [Nonempty F] (np np' : Numpy ℂ) {src : Source} {p : ℝ} (hm : IsGaussOrT src p)
    {sr : ScaleOpt} (hsr : sr.truthy = true) (r : Fin n) (draw : Draw F n t K) {X : Spec F n t}
    (hX : ∀ f, LinearIndependent ℂ (X f).row) (n_iter : ℕ) (ic : Bool) (kw : Kw F n t K) (o : Obj F n t K)
    (hreg : ∀ s, IlrmaCall.resetFilter .ip1 id draw X kw o = .ok s → Inv s ∧
      RegularRun (updateOnce np src p .ip1 .off id X) (fun s => Audible (separate X s.W)) n_iter s) :
    ∃ T', IlrmaCall.call np' src p .ip1 .power id sr r draw X n_iter ic kw o
      = (IlrmaCall.call np src p .ip1 .off id sr r draw X n_iter ic kw o).map fun o => { o with basis := .val T' } := by
  have ht : 0 < t := by
    obtain ⟨f⟩ := ‹Nonempty F›
    obtain ⟨j, -⟩ := row_ne_zero (hX f) r
    exact Fin.pos j
  exact C110_call np np' hm.isModel ht .ip1 .off .power hsr r draw X n_iter ic kw o fun s e =>
    ⟨(hreg s e).1, regularRun_audible np hm hX n_iter (hreg s e).1 (hreg s e).2⟩

/-- C110: the same with ISS1. -/
theorem C110_power_signal [Nonempty (Fin K)] [Nonempty F] (np np' : Numpy ℂ) {src : Source} {p : ℝ} (hm : IsGaussOrT src p)
    {sr : ScaleOpt} (hsr : sr.truthy = true) (r : Fin n) (draw : Draw F n t K) {X : Spec F n t}
    (hX : ∀ f, LinearIndependent ℂ (X f).row) (n_iter : ℕ) (ic : Bool) (kw : Kw F n t K) (o : Obj F n t K)
    (hreg : ∀ s, IlrmaCall.resetSignal .iss1 id draw X kw o = .ok s → InvY X s ∧
      RegularRun (updateOnceY np src p .iss1 .off id X) (fun s => Audible s.Y) n_iter s) :
    ∃ T', IlrmaCall.callSignal np' src p .iss1 .power id sr r draw X n_iter ic kw o
      = (IlrmaCall.callSignal np src p .iss1 .off id sr r draw X n_iter ic kw o).map fun o =>
          { o with basis := .val T' } := by
  have ht : 0 < t := by
    obtain ⟨f⟩ := ‹Nonempty F›
    obtain ⟨j, -⟩ := row_ne_zero (hX f) r
    exact Fin.pos j
  exact C110_call_signal np np' hm.isModel ht .iss1 .off .power hsr r draw hX n_iter ic kw o fun s e =>
    ⟨(hreg s e).1, regularRunY_audible np hm hX n_iter (hreg s e).1 (hreg s e).2⟩

/-! ## Examples -/

/-- Two bins, one channel, two frames. -/
noncomputable def monoX : Spec (Fin 2) 1 2 := fun f => Matrix.of fun _ j => ((f : ℕ) : ℂ) + ((j : ℕ) : ℂ) + 1

theorem monoX_ne (f : Fin 2) (k : Fin 1) (j : Fin 2) : monoX f k j ≠ 0 := by
  fin_cases f <;> fin_cases j <;> norm_num [monoX]

theorem mono_audible {W : Fin 2 → Mat 1 ℂ} (hW : ∀ f, IsUnit (W f).det) (f : Fin 2) (k : Fin 1) (j : Fin 2) :
    separate monoX W f k j ≠ 0 := by
  have h := (hW f).ne_zero
  rw [det_fin_one] at h
  have e : separate monoX W f k j = W f 0 0 * monoX f 0 j := by
    rw [Subsingleton.elim k 0]
    simp [separate, mul_apply]
  rw [e]
  exact mul_ne_zero h (monoX_ne f 0 j)

theorem monoX_rows (f : Fin 2) : LinearIndependent ℂ (monoX f).row := by
  rw [linearIndependent_unique_iff]
  exact fun h => monoX_ne f 0 0 (congrFun h 0)

/-- C110 for runs of any length of `GaussILRMA`, normalised by power or not. -/
example (np np' : Numpy ℂ) (draw : Draw (Fin 2) 1 2 3) (n_iter : ℕ) :
    ∃ T', IlrmaCall.call np' (gauss 1) 1 .ip1 .power id (.bool true) 0 draw monoX n_iter true
        { basis := some fun _ _ _ => 1, activation := some fun _ _ _ => 2 } .fresh
      = (IlrmaCall.call np (gauss 1) 1 .ip1 .off id (.bool true) 0 draw monoX n_iter true
        { basis := some fun _ _ _ => 1, activation := some fun _ _ _ => 2 } .fresh).map fun o =>
          { o with basis := .val T' } := by
  refine C110_power np np' (.gauss one_pos) rfl 0 draw monoX_rows n_iter true _ _ fun s hs => ?_
  have h0 : Inv s := by
    rw [← Except.ok.inj hs]
    exact ⟨fun f => by simp, fun _ _ _ => one_pos, fun _ _ _ => two_pos⟩
  refine ⟨h0, ?_⟩
  have key : ∀ (N : ℕ) (s : St (Fin 2) 1 2 3), Inv s →
      RegularRun (updateOnce np (gauss 1) 1 .ip1 .off id monoX) (fun s => Audible (separate monoX s.W)) N s := by
    intro N
    induction N with
    | zero => exact fun _ _ => trivial
    | succ N ih =>
      intro s hs
      have ha : Audible (separate monoX s.W) := fun k j => ⟨0, mono_audible hs.1 0 k j⟩
      refine ⟨ha, fun s' e => ih s' ?_⟩
      obtain ⟨a, a', e1, -, hi, -⟩ := step np np (.gauss one_pos) .ip1 .off .power monoX s s ⟨hs, Rescaled.refl 1 s⟩
        (visits_audible np (.gauss one_pos) monoX_rows hs ha)
      rw [e] at e1
      cases e1
      exact hi
  exact key n_iter s h0

/-- C110 for runs of any length of `GaussILRMA` with the ME algorithm, normalised by projection back or by power. -/
example (np np' : Numpy ℂ) (draw : Draw (Fin 2) 1 2 3) (n_iter : ℕ) :
    ∃ T', IlrmaCall.call np' gaussME 2 .ip1 (.projectionBack 0) id (.bool true) 0 draw monoX n_iter true
        { basis := some fun _ _ _ => 1, activation := some fun _ _ _ => 2 } .fresh
      = (IlrmaCall.call np gaussME 2 .ip1 .power id (.bool true) 0 draw monoX n_iter true
        { basis := some fun _ _ _ => 1, activation := some fun _ _ _ => 2 } .fresh).map fun o =>
          { o with basis := .val T' } := by
  refine C110_call np np' .gaussME two_pos .ip1 .power (.projectionBack 0) rfl 0 draw monoX n_iter true _ _ fun s hs => ?_
  have h0 : Inv s := by
    rw [← Except.ok.inj hs]
    exact ⟨fun f => by simp, fun _ _ _ => one_pos, fun _ _ _ => two_pos⟩
  have key : ∀ (N : ℕ) (s : St (Fin 2) 1 2 3), Inv s → RegularRun (updateOnce np gaussME 2 .ip1 .power id monoX)
      (Visits np gaussME .ip1 .power (.projectionBack 0) monoX) N s := by
    intro N
    induction N with
    | zero => exact fun _ _ => trivial
    | succ N ih =>
      intro s hs
      have hv := visits_audible np .gaussME monoX_rows hs fun k j => ⟨0, mono_audible hs.1 0 k j⟩
      obtain ⟨s₁, e1, hu, -, hn⟩ := hv.spatial
      have hv' : Visits np gaussME .ip1 .power (.projectionBack 0) monoX s := by
        refine ⟨hv.basis, hv.activation, hv.pairs, s₁, e1, hu, hn, fun f k => ?_⟩
        intro h
        have hi : IsUnit ((s₁.W f)⁻¹).det := isUnit_nonsing_inv_det _ (hu f)
        rw [det_fin_one, ← Subsingleton.elim k 0] at hi
        rw [Subsingleton.elim k 0] at hi h
        exact hi.ne_zero h
      refine ⟨hv', fun s' e => ih s' ?_⟩
      obtain ⟨a, a', e1, -, hi, -⟩ := step np np .gaussME .ip1 .power (.projectionBack 0) monoX s s
        ⟨hs, Rescaled.refl 2 s⟩ hv'
      rw [e] at e1
      cases e1
      exact hi
  exact ⟨h0, key n_iter s h0⟩

/-- C110 for an iteration of `TILRMA` with two sources and ISS1. -/
example (np np' : Numpy ℂ) (draw : Draw Unit 2 2 2) :
    ∃ T', IlrmaCall.callSignal np' (student 2 5) 2 .iss1 .power id (.str "minimal_distortion_principle") 0 draw
        TwoSources.exX 1 true { basis := some fun _ _ _ => 1, activation := some fun _ _ _ => 2 } .fresh
      = (IlrmaCall.callSignal np (student 2 5) 2 .iss1 .off id (.str "minimal_distortion_principle") 0 draw
        TwoSources.exX 1 true { basis := some fun _ _ _ => 1, activation := some fun _ _ _ => 2 } .fresh).map fun o =>
          { o with basis := .val T' } := by
  have hX : ∀ f, LinearIndependent ℂ (TwoSources.exX f).row := fun f =>
    linearIndependent_rows_of_isUnit ((isUnit_iff_isUnit_det _).mpr (TwoSources.exX_unit.1 f))
  refine C110_power_signal np np' (.student two_pos (by norm_num)) (by decide) 0 draw hX 1 true _ _ fun s hs => ?_
  rw [← Except.ok.inj hs]
  refine ⟨⟨⟨fun _ => 1, fun _ _ _ => 1, fun _ _ _ => 2⟩, rfl, fun f => by simp, fun _ _ _ => one_pos, fun _ _ _ => two_pos⟩,
    fun k j => ⟨(), ?_⟩, fun _ _ => trivial⟩
  change separate TwoSources.exX (fun _ => 1) () k j ≠ 0
  rw [separate, Matrix.one_mul]
  intro h0
  have h1 := TwoSources.exX_norm () k j
  have h2 := TwoSources.exP_ge k j
  rw [h0, norm_zero] at h1
  norm_num at h1
  linarith

/-- The weights of an iteration of `GaussILRMA` on that mixture. -/
theorem ex_source :
    updateSource (gauss 2) id TwoSources.exX ⟨fun _ => 1, fun _ _ (_ : Fin 1) => 1, fun k _ s => TwoSources.exP k s⟩
      = ⟨fun _ => 1, fun _ _ _ => 1, fun k _ s => TwoSources.exP k s⟩ := by
  have eY : separate TwoSources.exX (fun _ => (1 : Mat 2 ℂ)) = TwoSources.exX := by
    funext f
    rw [separate, Matrix.one_mul]
  have eR : ∀ k f s, recon (F := Unit) (fun _ _ (_ : Fin 1) => (1 : ℝ)) (fun k (_ : Fin 1) s => TwoSources.exP k s) k f s
      = TwoSources.exP k s := by
    intro k f s
    simp [recon]
  have eT : updateBasis (gauss 2) id TwoSources.exX (fun _ _ (_ : Fin 1) => (1 : ℝ))
      (fun k (_ : Fin 1) s => TwoSources.exP k s) = fun _ _ _ => 1 := by
    funext k f b
    simp only [updateBasis, basisRaw, gauss, eR, TwoSources.exX_norm]
    rw [show ((2 : ℝ) + 2) / 2 = (2 : ℕ) by norm_num]
    simp only [Real.rpow_natCast]
    rw [show (∑ s, TwoSources.exP k s * (TwoSources.exP k s / TwoSources.exP k s ^ 2))
      = ∑ s, TwoSources.exP k s / TwoSources.exP k s from Finset.sum_congr rfl fun s _ => by
        have := TwoSources.exP_ge k s
        field_simp, div_self, Real.one_rpow, one_mul]
    · rfl
    · refine (Finset.sum_pos (fun s _ => ?_) Finset.univ_nonempty).ne'
      have := TwoSources.exP_ge k s
      positivity
  have eV : updateActivation (gauss 2) id TwoSources.exX (fun _ _ (_ : Fin 1) => (1 : ℝ))
      (fun k (_ : Fin 1) s => TwoSources.exP k s) = fun k _ s => TwoSources.exP k s := by
    funext k b s
    simp only [updateActivation, activationRaw, gauss, eR, TwoSources.exX_norm]
    rw [show ((2 : ℝ) + 2) / 2 = (2 : ℕ) by norm_num]
    simp only [Real.rpow_natCast]
    have := TwoSources.exP_ge k s
    have h0 : TwoSources.exP k s ≠ 0 := by positivity
    rw [show TwoSources.exP k s / TwoSources.exP k s ^ 2 = 1 / TwoSources.exP k s from by field_simp]
    simp only [one_mul]
    rw [div_self, Real.one_rpow, one_mul]
    · rfl
    · simp [h0]
  simp only [updateSource, eY, eT, eV]

/-- C110 for an iteration of `GaussILRMA` with IP2: from another scale, normalised or not, with another LAPACK. -/
example (np np' : Numpy ℂ) (draw draw' : Draw Unit 2 2 1) (c : Unit → Fin 2 → ℂ) (hc : ∀ f k, c f k ≠ 0) :
    ∃ T', IlrmaCall.call np' (gauss 2) 2 (.ip2 [(0, 1)]) .power id (.bool true) 0 draw' TwoSources.exX 1 true
        { demix := some fun f => Matrix.of fun k j => c f k * (1 : Mat 2 ℂ) k j,
          basis := some fun k f _ => 1 * ‖c f k‖ ^ (2 : ℝ), activation := some fun k _ s => TwoSources.exP k s } .fresh
      = (IlrmaCall.call np (gauss 2) 2 (.ip2 [(0, 1)]) .off id (.bool true) 0 draw TwoSources.exX 1 true
        { demix := some fun _ => 1, basis := some fun _ _ _ => 1, activation := some fun k _ s => TwoSources.exP k s }
        .fresh).map fun o => { o with basis := .val T' } := by
  have hX : ∀ f, LinearIndependent ℂ (TwoSources.exX f).row := fun f =>
    linearIndependent_rows_of_isUnit ((isUnit_iff_isUnit_det _).mpr (TwoSources.exX_unit.1 f))
  have hP : ∀ k s, 0 < TwoSources.exP k s := fun k s => lt_of_lt_of_le one_pos (TwoSources.exP_ge k s)
  refine C110_initial_scale np np' (.gauss two_pos) two_pos (.ip2 [(0, 1)]) .off .power rfl 0 draw draw' _ 1 true .fresh
    (W := fun _ => 1) (T := fun _ _ _ => 1) (V := fun k _ s => TwoSources.exP k s) (fun f => by simp) (fun _ _ _ => one_pos)
    (fun k _ s => hP k s) ⟨?_, fun _ _ => trivial⟩ hc
  have hphi : ∀ f k s, varphi (gauss 2) id (separate TwoSources.exX fun _ => 1)
      (recon (F := Unit) (fun _ _ (_ : Fin 1) => (1 : ℝ)) (fun k (_ : Fin 1) s => TwoSources.exP k s)) f k s
        = 1 / TwoSources.exP k s := by
    intro f k s
    norm_num [varphi, gauss, recon]
  obtain ⟨phi, hphi'⟩ : ∃ phi, phi = varphi (gauss 2) id (separate TwoSources.exX fun _ => 1)
      (recon (F := Unit) (fun _ _ (_ : Fin 1) => (1 : ℝ)) (fun k (_ : Fin 1) s => TwoSources.exP k s)) := ⟨_, rfl⟩
  rw [← hphi'] at hphi
  have hr : TwoSources.Regular id phi TwoSources.exX := by
    refine TwoSources.regular_square TwoSources.exX_unit.1 (fun f k s => ?_) (fun f => ?_) rfl fun f m k s => rfl
    · rw [hphi]
      exact one_div_pos.mpr (hP k s)
    · rw [hphi, hphi, hphi, hphi]
      norm_num [TwoSources.exP]
  obtain ⟨W₁, e1, j1⟩ := TwoSources.filter_sweep np (pairs := [(0, 1)]) ⟨by simp, by decide⟩ hr (W := fun _ => 1)
    fun f => by simp
  have hu : ∀ f, IsUnit (W₁ f).det := fun f => (j1 f).choose_spec.choose_spec.isUnit
  refine ⟨?_, ?_, ?_, ⟨W₁, fun _ _ _ => 1, fun k _ s => TwoSources.exP k s⟩, ?_, hu, trivial, normReg_power hX hu⟩
  · rw [ex_source]
    exact fun _ _ _ => one_pos
  · rw [ex_source]
    exact fun k _ s => hP k s
  · intro l hl
    cases hl
    simp only [ex_source, ← hphi']
    refine ⟨⟨by decide, fun f => ⟨by simp, (hr f).1 0, (hr f).1 1, ?_⟩⟩, fun _ _ => trivial⟩
    rintro ⟨x, hx⟩
    have hs : ∀ M : Mat 2 ℂ, M.submatrix ![0, 1] ![0, 1] = M := by
      intro M
      ext i j
      fin_cases i <;> fin_cases j <;> rfl
    simp only [Matrix.one_mul, conjTranspose_one, Matrix.mul_one, hs] at hx
    have u0 : IsUnit (Iva.wcov (phi f) TwoSources.exX f 0).det := ((hr f).1 0).isUnit.map detMonoidHom
    have u1 : IsUnit (Iva.wcov (phi f) TwoSources.exX f 1).det := ((hr f).1 1).isUnit.map detMonoidHom
    have e : Iva.wcov (phi f) TwoSources.exX f 1 = (x : ℂ) • Iva.wcov (phi f) TwoSources.exX f 0 := by
      have h := congrArg (fun M => Iva.wcov (phi f) TwoSources.exX f 0 * M * Iva.wcov (phi f) TwoSources.exX f 1) hx
      simpa only [mul_nonsing_inv _ u0, Matrix.one_mul, Matrix.mul_smul, Matrix.smul_mul, Matrix.mul_assoc,
        nonsing_inv_mul _ u1, Matrix.mul_one] using h
    have hx0 : (x : ℂ) ≠ 0 := by
      intro h0
      rw [h0, zero_smul] at e
      rw [e] at u1
      simp at u1
    refine (hr f).2.1 x⁻¹ ?_
    rw [e, smul_smul, Complex.ofReal_inv, inv_mul_cancel₀ hx0, one_smul]
  · simp only [updateSpatial, ex_source, ← hphi', e1, bind, Except.bind]

end Verif.NormFree
