import Verif.Props.FastMnmf
import Verif.Props.MnmfWiener
import Verif.Props.NormFree
import Verif.Props.Phase2

/-! How the updates of FastGaussMNMF act on a state whose parameters are rescaled and a recording whose bins are
multiplied by gains. -/

namespace Verif.FastScale
open Matrix Spatial Scale Mnmf NormFree EigPhase
open Ilrma (recon FilterAlg spatialFilter recon_pos)
open scoped ComplexOrder

variable {F : Type} [Fintype F] {n m t K : ℕ}

/-- The parameters with the rows of the diagonalizer multiplied by `κ`, the bases by `τ` and `ρ`, the activations divided
by `ρ`, and the spatial weights by what the bins of the recording (gains `a`), the rows and the bases leave over. -/
noncomputable def respread (a : F → ℂ) (κ : F → Fin m → ℂ) (τ : Fin n → F → ℝ) (ρ : Fin n → Fin K → ℝ)
    (s : FSt F n m t K) : FSt F n m t K :=
  ⟨scaled κ s.Q, fun k f b => τ k f * ρ k b * s.T k f b, fun k b j => s.V k b j / ρ k b,
    fun f k c => ‖κ f c‖ ^ 2 * ‖a f‖ ^ 2 / τ k f * s.D f k c⟩

section
variable {a : F → ℂ} (ha : ∀ f, a f ≠ 0) {κ : F → Fin m → ℂ} (hκ : ∀ f c, κ f c ≠ 0) {τ : Fin n → F → ℝ}
  (hτ : ∀ k f, 0 < τ k f) {ρ : Fin n → Fin K → ℝ} (hρ : ∀ k b, 0 < ρ k b)

omit [Fintype F] in
theorem separate_gain (a : F → ℂ) (κ : F → Fin m → ℂ) (X : Spec F m t) (Q : F → Mat m ℂ) (f : F) (c : Fin m) (j : Fin t) :
    ‖separate (gain a X) (scaled κ Q) f c j‖ = ‖κ f c‖ * ‖a f‖ * ‖separate X Q f c j‖ := by
  have e : separate (gain a X) (scaled κ Q) f c j = κ f c * a f * separate X Q f c j := by
    simp only [separate, gain, scaled, mulRow, mul_apply, of_apply, Matrix.smul_apply, smul_eq_mul, Finset.mul_sum]
    exact Finset.sum_congr rfl fun i _ => by ring
  rw [e, norm_mul, norm_mul]

include hρ in
omit [Fintype F] in
theorem recon_respread (s : FSt F n m t K) (k : Fin n) (f : F) (j : Fin t) :
    recon (respread a κ τ ρ s).T (respread a κ τ ρ s).V k f j = τ k f * recon s.T s.V k f j := by
  simp only [recon, respread, Finset.mul_sum]
  refine Finset.sum_congr rfl fun b _ => ?_
  have := (hρ k b).ne'
  field_simp

include hτ hρ in
omit [Fintype F] in
theorem lambD_respread (s : FSt F n m t K) (f : F) (c : Fin m) (j : Fin t) :
    lambD (respread a κ τ ρ s) f c j = ‖κ f c‖ ^ 2 * ‖a f‖ ^ 2 * lambD s f c j := by
  simp only [lambD, recon_respread hρ, Finset.mul_sum]
  refine Finset.sum_congr rfl fun k _ => ?_
  have := (hτ k f).ne'
  simp only [respread]
  field_simp

include ha hκ in
omit [Fintype F] in
theorem gain_pos (f : F) (c : Fin m) : 0 < ‖κ f c‖ ^ 2 * ‖a f‖ ^ 2 := by
  have h1 := norm_pos_iff.mpr (ha f)
  have h2 := norm_pos_iff.mpr (hκ f c)
  positivity

omit [Fintype F] in
theorem ratio_same {x y q : ℝ} (hq : q ≠ 0) : q * x / (q * y) = x / y := mul_div_mul_left x y hq

include ha hκ hτ hρ in
omit [Fintype F] in
theorem basis_respread (X : Spec F m t) (s : FSt F n m t K) :
    fastUpdateBasis id (gain a X) (respread a κ τ ρ s) = respread a κ τ ρ (fastUpdateBasis id X s) := by
  have e : fastBasisRaw (gain a X) (respread a κ τ ρ s) = fun k f b => τ k f * ρ k b * fastBasisRaw X s k f b := by
    funext k f b
    have h1 := (hτ k f).ne'
    have h2 := (hρ k b).ne'
    have e1 : ∑ j, (respread a κ τ ρ s).V k b j * ∑ c, (respread a κ τ ρ s).D f k c
          * (‖separate (gain a X) (respread a κ τ ρ s).Q f c j‖ / lambD (respread a κ τ ρ s) f c j) ^ 2
        = (ρ k b * τ k f)⁻¹ * ∑ j, s.V k b j * ∑ c, s.D f k c * (‖separate X s.Q f c j‖ / lambD s f c j) ^ 2 := by
      simp only [Finset.mul_sum]
      refine Finset.sum_congr rfl fun j _ => Finset.sum_congr rfl fun c _ => ?_
      rw [lambD_respread hτ hρ]
      simp only [respread]
      rw [separate_gain]
      have h3 := (norm_pos_iff.mpr (ha f)).ne'
      have h4 := (norm_pos_iff.mpr (hκ f c)).ne'
      by_cases h : lambD s f c j = 0
      · simp [h]
      field_simp
    have e2 : ∑ j, (respread a κ τ ρ s).V k b j * ∑ c, (respread a κ τ ρ s).D f k c / lambD (respread a κ τ ρ s) f c j
        = (ρ k b * τ k f)⁻¹ * ∑ j, s.V k b j * ∑ c, s.D f k c / lambD s f c j := by
      simp only [Finset.mul_sum]
      refine Finset.sum_congr rfl fun j _ => Finset.sum_congr rfl fun c _ => ?_
      rw [lambD_respread hτ hρ]
      simp only [respread]
      have h3 := (norm_pos_iff.mpr (ha f)).ne'
      have h4 := (norm_pos_iff.mpr (hκ f c)).ne'
      by_cases h : lambD s f c j = 0
      · simp [h]
      field_simp
    simp only [fastBasisRaw, e1, e2]
    rw [ratio_same (inv_ne_zero (mul_ne_zero h2 h1))]
    simp only [respread]
    ring
  simp only [fastUpdateBasis, id, e]
  simp only [respread]

include ha hκ hτ hρ in
theorem activation_respread (X : Spec F m t) (s : FSt F n m t K) :
    fastUpdateActivation id (gain a X) (respread a κ τ ρ s) = respread a κ τ ρ (fastUpdateActivation id X s) := by
  have e : fastActivationRaw (gain a X) (respread a κ τ ρ s) = fun k b j => fastActivationRaw X s k b j / ρ k b := by
    funext k b j
    have h2 := (hρ k b).ne'
    have e1 : ∑ f, (respread a κ τ ρ s).T k f b * ∑ c, (respread a κ τ ρ s).D f k c
          * (‖separate (gain a X) (respread a κ τ ρ s).Q f c j‖ / lambD (respread a κ τ ρ s) f c j) ^ 2
        = ρ k b * ∑ f, s.T k f b * ∑ c, s.D f k c * (‖separate X s.Q f c j‖ / lambD s f c j) ^ 2 := by
      simp only [Finset.mul_sum]
      refine Finset.sum_congr rfl fun f _ => Finset.sum_congr rfl fun c _ => ?_
      rw [lambD_respread hτ hρ]
      simp only [respread]
      rw [separate_gain]
      have h1 := (hτ k f).ne'
      have h3 := (norm_pos_iff.mpr (ha f)).ne'
      have h4 := (norm_pos_iff.mpr (hκ f c)).ne'
      by_cases h : lambD s f c j = 0
      · simp [h]
      field_simp
    have e2 : ∑ f, (respread a κ τ ρ s).T k f b * ∑ c, (respread a κ τ ρ s).D f k c / lambD (respread a κ τ ρ s) f c j
        = ρ k b * ∑ f, s.T k f b * ∑ c, s.D f k c / lambD s f c j := by
      simp only [Finset.mul_sum]
      refine Finset.sum_congr rfl fun f _ => Finset.sum_congr rfl fun c _ => ?_
      rw [lambD_respread hτ hρ]
      simp only [respread]
      have h1 := (hτ k f).ne'
      have h3 := (norm_pos_iff.mpr (ha f)).ne'
      have h4 := (norm_pos_iff.mpr (hκ f c)).ne'
      by_cases h : lambD s f c j = 0
      · simp [h]
      field_simp
    simp only [fastActivationRaw, e1, e2]
    rw [ratio_same h2]
    simp only [respread]
    ring
  simp only [fastUpdateActivation, id, e]
  simp only [respread]

include ha hκ hτ hρ in
omit [Fintype F] in
theorem spatial_respread (X : Spec F m t) (s : FSt F n m t K) :
    fastUpdateSpatial (gain a X) (respread a κ τ ρ s) = respread a κ τ ρ (fastUpdateSpatial X s) := by
  have e : ∀ f k c, (fastUpdateSpatial (gain a X) (respread a κ τ ρ s)).D f k c
      = (respread a κ τ ρ (fastUpdateSpatial X s)).D f k c := by
    intro f k c
    have h1 := (hτ k f).ne'
    have h3 := (norm_pos_iff.mpr (ha f)).ne'
    have h4 := (norm_pos_iff.mpr (hκ f c)).ne'
    have e1 : ∑ j, recon (respread a κ τ ρ s).T (respread a κ τ ρ s).V k f j / lambD (respread a κ τ ρ s) f c j ^ 2
          * ‖separate (gain a X) (respread a κ τ ρ s).Q f c j‖ ^ 2
        = τ k f / (‖κ f c‖ ^ 2 * ‖a f‖ ^ 2) * ∑ j, recon s.T s.V k f j / lambD s f c j ^ 2 * ‖separate X s.Q f c j‖ ^ 2 := by
      rw [Finset.mul_sum]
      refine Finset.sum_congr rfl fun j _ => ?_
      rw [recon_respread hρ, lambD_respread hτ hρ]
      simp only [respread]
      rw [separate_gain]
      by_cases h : lambD s f c j = 0
      · simp [h]
      field_simp
    have e2 : ∑ j, recon (respread a κ τ ρ s).T (respread a κ τ ρ s).V k f j / lambD (respread a κ τ ρ s) f c j
        = τ k f / (‖κ f c‖ ^ 2 * ‖a f‖ ^ 2) * ∑ j, recon s.T s.V k f j / lambD s f c j := by
      rw [Finset.mul_sum]
      refine Finset.sum_congr rfl fun j _ => ?_
      rw [recon_respread hρ, lambD_respread hτ hρ]
      by_cases h : lambD s f c j = 0
      · simp [h]
      field_simp
    simp only [fastUpdateSpatial, e1, e2]
    rw [ratio_same (by positivity)]
    simp only [respread]
    ring
  have e' : (fastUpdateSpatial (gain a X) (respread a κ τ ρ s)).D = (respread a κ τ ρ (fastUpdateSpatial X s)).D :=
    funext fun f => funext fun k => funext fun c => e f k c
  calc fastUpdateSpatial (gain a X) (respread a κ τ ρ s)
      = ⟨(respread a κ τ ρ s).Q, (respread a κ τ ρ s).T, (respread a κ τ ρ s).V,
          (fastUpdateSpatial (gain a X) (respread a κ τ ρ s)).D⟩ := rfl
    _ = respread a κ τ ρ (fastUpdateSpatial X s) := by rw [e']; rfl

include ha in
omit [Fintype F] in
/-- The spatial updates of a louder recording with weights turned down accordingly. -/
theorem spatialFilter_gain (np : Numpy ℂ) (alg : FilterAlg m) (phi : F → Fin m → Fin t → ℝ) (X : Spec F m t)
    (W : F → Mat m ℂ) :
    spatialFilter np alg id (fun f c j => (‖a f‖ ^ 2)⁻¹ * phi f c j) (gain a X) W = spatialFilter np alg id phi X W := by
  have e : ∀ f, Iva.wcov (fun c j => (‖a f‖ ^ 2)⁻¹ * phi f c j) (gain a X) f = Iva.wcov (phi f) X f := by
    intro f
    funext c
    rw [wcov_gain a (fun _ => (‖a f‖ ^ 2)⁻¹) (phi f) X f c]
    have h := (norm_pos_iff.mpr (ha f)).ne'
    rw [inv_mul_cancel₀ (by positivity), Complex.ofReal_one, one_smul]
  cases alg with
  | ip1 => simp only [spatialFilter, e]
  | ip2 l => simp only [spatialFilter, e]

include ha hκ hτ hρ in
omit [Fintype F] in
theorem diagonalizer_respread (np np' : Numpy ℂ) (alg : FilterAlg m) (X : Spec F m t) {s s₁ : FSt F n m t K}
    (hp : ∀ l, alg = .ip2 l → RegularFold (fun W p => onBins fun f =>
      ip2Pair np id (Iva.wcov (fun c j => 1 / lambD s f c j) X f) (W f) p)
      (Ip2Regular (fun f c j => 1 / lambD s f c j) X) l s.Q)
    (h : fastUpdateDiagonalizer np alg id X s = .ok s₁) :
    ∃ κ', (∀ f c, ‖κ' f c‖ = ‖κ f c‖) ∧
      fastUpdateDiagonalizer np' alg id (gain a X) (respread a κ τ ρ s) = .ok (respread a κ' τ ρ s₁) := by
  rw [fastUpdateDiagonalizer] at h
  rcases hq : spatialFilter np alg id (fun f c j => 1 / lambD s f c j) X s.Q with e | Q₁
  · rw [hq] at h; exact nomatch h
  rw [hq] at h
  obtain rfl : (⟨Q₁, s.T, s.V, s.D⟩ : FSt F n m t K) = s₁ := Except.ok.inj h
  obtain ⟨κ', h1, h2⟩ := spatial_rescaled np np' alg _ X hκ hp hq
  refine ⟨κ', h1, ?_⟩
  have e : (fun f c j => 1 / lambD (respread a κ τ ρ s) f c j)
      = fun f c j => (‖a f‖ ^ 2)⁻¹ * ((‖κ f c‖ ^ 2)⁻¹ * (1 / lambD s f c j)) := by
    funext f c j
    rw [lambD_respread hτ hρ, one_div, one_div, mul_inv, mul_inv]
    ring
  rw [fastUpdateDiagonalizer, e, spatialFilter_gain ha]
  simp only [respread, h2, bind, Except.bind, h1]

include ha hκ hτ hρ in
omit [Fintype F] in
theorem inv_respread {s : FSt F n m t K} (hs : FInv s) : FInv (respread a κ τ ρ s) := by
  refine ⟨scaled_det hκ hs.1, fun k f b => ?_, fun k b j => ?_, fun f k c => ?_⟩
  · exact mul_pos (mul_pos (hτ k f) (hρ k b)) (hs.2.1 k f b)
  · exact div_pos (hs.2.2.1 k b j) (hρ k b)
  · exact mul_pos (div_pos (gain_pos ha hκ f c) (hτ k f)) (hs.2.2.2 f k c)

/-- The normalization is itself such a rescaling. -/
theorem normalize_respread (X : Spec F m t) (s : FSt F n m t K) :
    fastNormalize id X s = respread (fun _ => 1) (fun _ c => ((fastPsi id X s c : ℝ) : ℂ)⁻¹) (fun _ _ => 1) (fun _ _ => 1) s := by
  rw [fastNormalize, respread]
  congr 1
  · funext f
    ext c i
    simp only [scaled, mulRow, of_apply, div_eq_inv_mul]
  · funext k f b
    ring
  · funext k b j
    rw [div_one]
  · funext f k c
    rw [norm_inv, Complex.norm_real, Real.norm_eq_abs, inv_pow, sq_abs, norm_one]
    ring

omit [Fintype F] in
theorem respread_respread (b : F → ℂ) {κ κ' : F → Fin m → ℂ} {τ τ' : Fin n → F → ℝ} {ρ ρ' : Fin n → Fin K → ℝ}
    (s : FSt F n m t K) :
    respread b κ' τ' ρ' (respread a κ τ ρ s)
      = respread (fun f => b f * a f) (fun f c => κ' f c * κ f c) (fun k f => τ' k f * τ k f) (fun k c => ρ' k c * ρ k c) s := by
  simp only [respread, scaled_scaled]
  congr 1
  · funext k f c
    ring
  · funext k c j
    rw [div_div, mul_comm]
  · funext f k c
    rw [norm_mul, norm_mul]
    ring

omit [Fintype F] in
theorem respread_one (s : FSt F n m t K) :
    respread (fun _ => 1) (fun _ _ => 1) (fun _ _ => 1) (fun _ _ => 1) s = s := by
  simp [respread, scaled_one]

include ha hκ hτ hρ in
theorem loss_respread [Nonempty (Fin K)] [Nonempty (Fin n)] (ht : 0 < t) (X : Spec F m t) {s : FSt F n m t K} (hs : FInv s) :
    fastLoss (gain a X) (respread a κ τ ρ s) = fastLoss X s + 2 * m * ∑ f, Real.log ‖a f‖ := by
  rw [fastLoss, fastLoss, Finset.mul_sum, ← Finset.sum_add_distrib]
  refine Finset.sum_congr rfl fun f _ => ?_
  have h3 := (norm_pos_iff.mpr (ha f)).ne'
  have e1 : ∀ j, ∑ c, (‖separate (gain a X) (respread a κ τ ρ s).Q f c j‖ ^ 2 / lambD (respread a κ τ ρ s) f c j
        + Real.log (lambD (respread a κ τ ρ s) f c j))
      = ∑ c, (‖separate X s.Q f c j‖ ^ 2 / lambD s f c j + Real.log (lambD s f c j))
        + (2 * ∑ c, Real.log ‖κ f c‖ + 2 * m * Real.log ‖a f‖) := by
    intro j
    have : (2 * m * Real.log ‖a f‖ : ℝ) = ∑ _c : Fin m, 2 * Real.log ‖a f‖ := by
      rw [Finset.sum_const, Finset.card_univ, Fintype.card_fin, nsmul_eq_mul]
      ring
    rw [this, Finset.mul_sum, ← Finset.sum_add_distrib, ← Finset.sum_add_distrib]
    refine Finset.sum_congr rfl fun c _ => ?_
    have h4 := (norm_pos_iff.mpr (hκ f c)).ne'
    have h5 := (lambD_pos hs f c j).ne'
    rw [lambD_respread hτ hρ, Real.log_mul (by positivity) h5, Real.log_mul (by positivity) (by positivity), Real.log_pow,
      Real.log_pow]
    have : separate (gain a X) (respread a κ τ ρ s).Q = separate (gain a X) (scaled κ s.Q) := rfl
    rw [this, separate_gain]
    push_cast
    field_simp
    ring
  have e2 : Real.log ‖((respread a κ τ ρ s).Q f).det‖ = ∑ c, Real.log ‖κ f c‖ + Real.log ‖(s.Q f).det‖ := by
    have : (respread a κ τ ρ s).Q f = diagonal (κ f) * s.Q f := by
      change scaled κ s.Q f = _
      rw [scaled, mulRow_eq]
    rw [this, det_mul, det_diagonal, norm_mul, norm_prod, Real.log_mul, Real.log_prod]
    · exact fun c _ => (norm_pos_iff.mpr (hκ f c)).ne'
    · exact Finset.prod_ne_zero_iff.mpr fun c _ => (norm_pos_iff.mpr (hκ f c)).ne'
    · exact norm_ne_zero_iff.mpr (hs.1 f).ne_zero
  simp only [e1, e2, meanT]
  rw [Finset.sum_add_distrib, Finset.sum_const, Finset.card_univ, Fintype.card_fin, nsmul_eq_mul, add_div,
    mul_div_cancel_left₀ _ (by exact_mod_cast ht.ne')]
  ring

include ha hκ hτ hρ in
theorem separate_respread (np np' : Numpy ℂ) (r : Fin m) (X : Spec F m t) (s : FSt F n m t K) :
    fastSeparate np' id r (gain a X) (respread a κ τ ρ s)
      = Except.map (fun y f j k => a f * y f j k) (fastSeparate np id r X s) := by
  have hi : npInvB (respread a κ τ ρ s).Q
      = Except.map (fun Q f => Q f * diagonal fun c => (κ f c)⁻¹) (npInvB s.Q) := by
    have e : ∀ f, (respread a κ τ ρ s).Q f = diagonal (κ f) * s.Q f := fun f => by
      change scaled κ s.Q f = _
      rw [scaled, mulRow_eq]
    have hd : ∀ f, IsUnit (diagonal (κ f)).det := fun f => by
      rw [det_diagonal, isUnit_iff_ne_zero]
      exact Finset.prod_ne_zero_iff.mpr fun c _ => hκ f c
    rw [npInvB, npInvB]
    by_cases h : ∀ f, IsUnit (s.Q f).det
    · rw [if_pos h, if_pos fun f => by rw [e, det_mul]; exact (hd f).mul (h f)]
      refine congrArg Except.ok (funext fun f => ?_)
      rw [e, Matrix.mul_inv_rev]
      congr 1
      refine inv_eq_left_inv ?_
      rw [diagonal_mul_diagonal, ← diagonal_one]
      congr 1
      funext c
      exact inv_mul_cancel₀ (hκ f c)
    · rw [if_neg h, if_neg]
      · rfl
      · intro h'
        refine h fun f => ?_
        have := h' f
        rw [e, det_mul] at this
        exact isUnit_of_mul_isUnit_right this
  rw [fastSeparate, fastSeparate, hi]
  cases npInvB s.Q with
  | error => rfl
  | ok Qi =>
    change (onBins fun f => onBins fun j => wiener np' id r (fastRn (fun f => Qi f * diagonal fun c => (κ f c)⁻¹)
      (respread a κ τ ρ s) f j) fun c => gain a X f c j)
      = Except.map _ (onBins fun f => onBins fun j => wiener np id r (fastRn Qi s f j) fun c => X f c j)
    have eR : ∀ f j k, fastRn (fun f => Qi f * diagonal fun c => (κ f c)⁻¹) (respread a κ τ ρ s) f j k
        = ((‖a f‖ ^ 2 : ℝ) : ℂ) • fastRn Qi s f j k := by
      intro f j k
      ext x y
      simp only [fastRn, of_apply, Matrix.smul_apply, smul_eq_mul, Finset.mul_sum, recon_respread hρ, mul_diagonal,
        conjTranspose_apply, star_mul', star_inv₀]
      refine Finset.sum_congr rfl fun c _ => ?_
      have h1 : ((τ k f : ℝ) : ℂ) ≠ 0 := by exact_mod_cast (hτ k f).ne'
      have h2 := hκ f c
      have h4 : star (κ f c) ≠ 0 := star_ne_zero.mpr h2
      have h3 : ((‖κ f c‖ : ℝ) : ℂ) ^ 2 = κ f c * star (κ f c) := by
        rw [RCLike.star_def, Complex.mul_conj, Complex.normSq_eq_norm_sq, Complex.ofReal_pow]
      simp only [respread]
      push_cast
      rw [h3]
      field_simp
    have hH : ∀ f j k, (fastRn Qi s f j k).IsHermitian := by
      intro f j k
      rw [fastRn_eq]
      refine isHermitian_mul_mul_conjTranspose _ ?_
      refine isHermitian_diagonal_of_self_adjoint _ (funext fun c => ?_)
      simp [Complex.conj_ofReal]
    rw [← Spatial.onBins_map (e := fun f (y : Fin t → Fin n → ℂ) j k => a f * y j k)]
    congr 1
    funext f
    rw [← Spatial.onBins_map (e := fun (_ : Fin t) (y : Fin n → ℂ) k => a f * y k)]
    congr 1
    funext j
    have h3 : ((‖a f‖ ^ 2 : ℝ) : ℂ) ≠ 0 := by
      have := (norm_pos_iff.mpr (ha f)).ne'
      exact_mod_cast pow_ne_zero 2 this
    generalize hq : ((‖a f‖ ^ 2 : ℝ) : ℂ) = q at h3 eR
    have hs : (∑ k, fastRn Qi s f j k).IsHermitian := by
      simp only [IsHermitian, conjTranspose_sum]
      exact Finset.sum_congr rfl fun k _ => hH f j k
    have hs' : (q • ∑ k, fastRn Qi s f j k).IsHermitian := by
      rw [← hq, IsHermitian, conjTranspose_smul, hs.eq, RCLike.star_def, Complex.conj_ofReal]
    have hu : IsUnit (q • ∑ k, fastRn Qi s f j k).det ↔ IsUnit (∑ k, fastRn Qi s f j k).det := by
      rw [det_smul, isUnit_iff_ne_zero, isUnit_iff_ne_zero, mul_ne_zero_iff]
      exact and_iff_right (pow_ne_zero _ h3)
    have ev : ∀ k, npSolve (q • ∑ k, fastRn Qi s f j k) (q • fastRn Qi s f j k)
        = npSolve (∑ k, fastRn Qi s f j k) (fastRn Qi s f j k) := by
      intro k
      rw [npSolve, npSolve]
      by_cases h : IsUnit (∑ k, fastRn Qi s f j k).det
      · rw [if_pos h, if_pos (hu.mpr h)]
        have := invertibleOfNonzero h3
        rw [inv_smul _ q h, Matrix.smul_mul, Matrix.mul_smul, smul_smul, invOf_mul_self, one_smul]
      · rw [if_neg h, if_neg fun h' => h (hu.mp h')]
    simp only [wiener, eR, hq, ← Finset.smul_sum, toPsd_id np hs, toPsd_id np' hs', ev]
    rw [map_bind]
    congr 1
    funext W
    simp only [Except.map]
    congr 1
    funext k
    simp only [gain, Matrix.smul_apply, smul_eq_mul, Finset.mul_sum]
    exact Finset.sum_congr rfl fun c _ => by ring

end
end Verif.FastScale
