import Verif.Lemmas.Rescale
import Verif.Lemmas.IlrmaStep
import Verif.Props.Ilrma

/-! # Rescaled demixing filters with accordingly rescaled bases

Multiplying row `k` of the demixing filter in bin `f` by a non-zero `c f k`, and the bases of source `k` in bin `f` by
`‖c f k‖ ^ p`, is undone by none of the ILRMA updates: every update of the rescaled state is the rescaled update. -/

namespace Verif.NormFree

open Matrix Spatial Scale Ilrma

variable {F : Type} [Fintype F] {n t K : ℕ}

/-- How the numerators of the source updates and the weights of the spatial update scale. -/
structure Homogeneous (src : Source) (p : ℝ) : Prop where
  num : ∀ y r a, 0 ≤ y → 0 < r → 0 < a → src.num (y * a) (r * a ^ p) = src.num y r / a ^ p
  phi : ∀ y r a, 0 ≤ y → 0 < r → 0 < a → src.phi id (y * a) (r * a ^ p) = (a ^ 2)⁻¹ * src.phi id y r

theorem rpow_two' (a : ℝ) : a ^ (2 : ℝ) = a ^ 2 := by exact_mod_cast Real.rpow_natCast a 2

theorem gauss_homogeneous {p : ℝ} (hp : 0 < p) : Homogeneous (gauss p) p where
  num := by
    intro y r a _ hr ha
    simp only [gauss]
    rw [rpow_scale hp.ne' hr ha, Real.rpow_add ha, rpow_two']
    have h1 := (Real.rpow_pos_of_pos hr ((p + 2) / p)).ne'
    have h2 := (Real.rpow_pos_of_pos ha p).ne'
    field_simp
  phi := by
    intro y r a _ hr ha
    simp only [gauss]
    rw [rpow_scale hp.ne' hr ha, rpow_two']
    have h1 := (Real.rpow_pos_of_pos hr (2 / p)).ne'
    field_simp

theorem gaussME_homogeneous : Homogeneous gaussME 2 where
  num := by
    intro y r a _ hr ha
    simp only [gaussME, rpow_two']
    field_simp
  phi := (gauss_homogeneous two_pos).phi

theorem rTilde_scale {p nu y r a : ℝ} (hp : 0 < p) (hr : 0 < r) (ha : 0 < a) :
    rTilde p nu (y * a) (r * a ^ p) = a ^ 2 * rTilde p nu y r := by
  rw [rTilde, rTilde, rpow_scale hp.ne' hr ha, rpow_two']
  ring

theorem student_homogeneous {p nu : ℝ} (hp : 0 < p) : Homogeneous (student p nu) p where
  num := by
    intro y r a _ hr ha
    simp only [student]
    rw [rTilde_scale hp hr ha]
    have h2 := (Real.rpow_pos_of_pos ha p).ne'
    by_cases h : rTilde p nu y r = 0
    · simp [h]
    · field_simp
  phi := by
    intro y r a _ hr ha
    simp only [student]
    rw [rTilde_scale hp hr ha]
    by_cases h : rTilde p nu y r = 0
    · simp [h]
    · field_simp

theorem studentME_homogeneous {nu : ℝ} : Homogeneous (studentME nu) 2 where
  num := by
    intro y r a _ hr ha
    simp only [studentME, rpow_two']
    have e : nu / (nu + 2) * (r * a ^ 2) + (1 - nu / (nu + 2)) * (y * a) ^ 2
        = a ^ 2 * (nu / (nu + 2) * r + (1 - nu / (nu + 2)) * y ^ 2) := by ring
    rw [e]
    generalize nu / (nu + 2) * r + (1 - nu / (nu + 2)) * y ^ 2 = q
    by_cases h : q = 0
    · simp [h]
    · field_simp
  phi := (student_homogeneous two_pos).phi

theorem ggd_homogeneous {p beta : ℝ} (hp : 0 < p) : Homogeneous (ggd p beta) p where
  num := by
    intro y r a hy hr ha
    simp only [ggd]
    rw [rpow_scale hp.ne' hr ha, Real.rpow_add ha, Real.mul_rpow hy ha.le]
    have h1 := (Real.rpow_pos_of_pos hr ((beta + p) / p)).ne'
    have h2 := (Real.rpow_pos_of_pos ha p).ne'
    have h3 := (Real.rpow_pos_of_pos ha beta).ne'
    field_simp
  phi := by
    intro y r a hy hr ha
    simp only [ggd, id]
    rw [rpow_scale hp.ne' hr ha, Real.mul_rpow hy ha.le]
    have h1 := (Real.rpow_pos_of_pos hr (beta / p)).ne'
    have h4 : a ^ (2 - beta) * a ^ beta = a ^ 2 := by rw [← Real.rpow_add ha, sub_add_cancel, rpow_two']
    rw [← h4]
    have h2 := (Real.rpow_pos_of_pos ha (2 - beta)).ne'
    have h3 := (Real.rpow_pos_of_pos ha beta).ne'
    rw [one_div, one_div, ← mul_inv]
    congr 1
    ring

/-- All rows rescaled. -/
def scaled {c : ℕ} (d : F → Fin n → ℂ) (A : F → Matrix (Fin n) (Fin c) ℂ) : F → Matrix (Fin n) (Fin c) ℂ :=
  fun f => mulRow (d f) (A f)

omit [Fintype F] in
theorem scaled_scaled {c : ℕ} (d e : F → Fin n → ℂ) (A : F → Matrix (Fin n) (Fin c) ℂ) :
    scaled d (scaled e A) = scaled (fun f k => d f k * e f k) A := by
  funext f
  ext k j
  simp only [scaled, mulRow, of_apply, mul_assoc]

omit [Fintype F] in
theorem scaled_one {c : ℕ} (A : F → Matrix (Fin n) (Fin c) ℂ) : scaled (fun _ _ => 1) A = A := by
  funext f
  ext k j
  simp only [scaled, mulRow, of_apply, one_mul]

omit [Fintype F] in
theorem separate_scaled (d : F → Fin n → ℂ) (X : Spec F n t) (W : F → Mat n ℂ) :
    separate X (scaled d W) = scaled d (separate X W) := by
  funext f
  simp only [separate, scaled, mulRow_eq, Matrix.mul_assoc]

omit [Fintype F] in
theorem mulBasis_mulBasis (p : ℝ) (d e : F → Fin n → ℂ) (T : Fin n → F → Fin K → ℝ) :
    mulBasis p d (mulBasis p e T) = mulBasis p (fun f k => d f k * e f k) T := by
  funext k f b
  simp only [mulBasis, norm_mul]
  rw [Real.mul_rpow (norm_nonneg _) (norm_nonneg _)]
  ring

omit [Fintype F] in
theorem mulBasis_one (p : ℝ) (T : Fin n → F → Fin K → ℝ) : mulBasis p (fun _ _ => 1) T = T := by
  funext k f b
  simp [mulBasis]

omit [Fintype F] in
theorem mulBasis_pos {p : ℝ} {d : F → Fin n → ℂ} (hd : ∀ f k, d f k ≠ 0) {T : Fin n → F → Fin K → ℝ}
    (hT : ∀ k f b, 0 < T k f b) (k : Fin n) (f : F) (b : Fin K) : 0 < mulBasis p d T k f b :=
  mul_pos (hT k f b) (Real.rpow_pos_of_pos (norm_pos_iff.mpr (hd f k)) p)

omit [Fintype F] in
theorem norm_scaled (d : F → Fin n → ℂ) (Y : Spec F n t) (f : F) (k : Fin n) (s : Fin t) :
    ‖scaled d Y f k s‖ = ‖Y f k s‖ * ‖d f k‖ := by
  simp only [scaled, mulRow, of_apply, norm_mul, mul_comm]

section source

variable [Nonempty (Fin K)] {src : Source} {p : ℝ} (h : Homogeneous src p) {d : F → Fin n → ℂ}
  (hd : ∀ f k, d f k ≠ 0) {T : Fin n → F → Fin K → ℝ} {V : Fin n → Fin K → Fin t → ℝ}
  (hT : ∀ k f b, 0 < T k f b) (hV : ∀ k b s, 0 < V k b s)
include h hd hT hV

theorem num_scaled (Y : Spec F n t) (k : Fin n) (f : F) (s : Fin t) :
    src.num ‖scaled d Y f k s‖ (recon (mulBasis p d T) V k f s)
      = src.num ‖Y f k s‖ (recon T V k f s) / ‖d f k‖ ^ p := by
  rw [norm_scaled, recon_mulBasis]
  exact h.num _ _ _ (norm_nonneg _) (recon_pos hT hV k f s) (norm_pos_iff.mpr (hd f k))

theorem basisRaw_scaled (Y : Spec F n t) :
    basisRaw src (scaled d Y) (mulBasis p d T) V = mulBasis p d (basisRaw src Y T V) := by
  funext k f b
  have hc := (Real.rpow_pos_of_pos (norm_pos_iff.mpr (hd f k)) p).ne'
  simp only [basisRaw, num_scaled h hd hT hV]
  simp only [recon_mulBasis]
  have e1 : ∑ s, V k b s * (src.num ‖Y f k s‖ (recon T V k f s) / ‖d f k‖ ^ p)
      = (∑ s, V k b s * src.num ‖Y f k s‖ (recon T V k f s)) / ‖d f k‖ ^ p := by
    rw [Finset.sum_div]
    exact Finset.sum_congr rfl fun s _ => by ring
  have e2 : ∑ s, V k b s / (recon T V k f s * ‖d f k‖ ^ p) = (∑ s, V k b s / recon T V k f s) / ‖d f k‖ ^ p := by
    rw [Finset.sum_div]
    exact Finset.sum_congr rfl fun s _ => by rw [div_div]
  rw [e1, e2, div_div_div_cancel_right₀ hc, mulBasis, mulBasis, basisRaw]
  ring

theorem activationRaw_scaled (Y : Spec F n t) :
    activationRaw src (scaled d Y) (mulBasis p d T) V = activationRaw src Y T V := by
  funext k b s
  simp only [activationRaw, num_scaled h hd hT hV]
  simp only [recon_mulBasis]
  have hc := fun f => (Real.rpow_pos_of_pos (norm_pos_iff.mpr (hd f k)) p).ne'
  have e1 : ∑ f, mulBasis p d T k f b * (src.num ‖Y f k s‖ (recon T V k f s) / ‖d f k‖ ^ p)
      = ∑ f, T k f b * src.num ‖Y f k s‖ (recon T V k f s) := by
    refine Finset.sum_congr rfl fun f _ => ?_
    have := hc f
    rw [mulBasis]
    field_simp
  have e2 : ∑ f, mulBasis p d T k f b / (recon T V k f s * ‖d f k‖ ^ p) = ∑ f, T k f b / recon T V k f s := by
    refine Finset.sum_congr rfl fun f _ => ?_
    rw [mulBasis, mul_div_mul_right _ _ (hc f)]
  rw [e1, e2]

theorem varphi_scaled (Y : Spec F n t) (f : F) (k : Fin n) (s : Fin t) :
    varphi src id (scaled d Y) (recon (mulBasis p d T) V) f k s
      = (‖d f k‖ ^ 2)⁻¹ * varphi src id Y (recon T V) f k s := by
  rw [varphi, varphi, norm_scaled, recon_mulBasis]
  exact h.phi _ _ _ (norm_nonneg _) (recon_pos hT hV k f s) (norm_pos_iff.mpr (hd f k))

end source

omit [Fintype F] in
/-- One IP1 sweep of the rescaled filter with the rescaled weights is the rescaled sweep. -/
theorem ip1_scaled {d : F → Fin n → ℂ} (hd : ∀ f k, d f k ≠ 0) (phi : F → Fin n → Fin t → ℝ) (X : Spec F n t)
    (W : F → Mat n ℂ) :
    Iva.ip1Stack id (fun f => Iva.wcov (fun k s => (‖d f k‖ ^ 2)⁻¹ * phi f k s) X f) (scaled d W)
      = Except.map (scaled d) (Iva.ip1Stack id (fun f => Iva.wcov (phi f) X f) W) := by
  have hc : ∀ f k, 0 < (‖d f k‖ ^ 2)⁻¹ := fun f k => inv_pos.mpr (pow_pos (norm_pos_iff.mpr (hd f k)) 2)
  have e : (fun f => Iva.wcov (fun k s => (‖d f k‖ ^ 2)⁻¹ * phi f k s) X f)
      = fun f k => (((‖d f k‖ ^ 2)⁻¹ : ℝ) : ℂ) • Iva.wcov (phi f) X f k := by
    funext f k
    have := wcov_gain (fun _ => 1) (fun k => (‖d f k‖ ^ 2)⁻¹) (phi f) X f k
    have hg : gain (fun _ : F => (1 : ℂ)) X = X := funext fun f => one_smul _ _
    rw [hg, norm_one, one_pow, mul_one] at this
    exact this
  rw [e]
  unfold scaled
  rw [ip1Stack_rescale _ d hc hd]
  congr 1
  funext W f
  congr 1
  funext k
  have h1 : ((‖d f k‖ : ℝ) : ℂ) ≠ 0 := by exact_mod_cast (norm_pos_iff.mpr (hd f k)).ne'
  rw [Real.sqrt_inv, Real.sqrt_sq (norm_nonneg _), Complex.ofReal_inv]
  field_simp

omit [Fintype F] in
theorem iss1_scaled {d : F → Fin n → ℂ} (hd : ∀ f k, d f k ≠ 0) (phi : F → Fin n → Fin t → ℝ) (Y : Spec F n t) :
    (fun f => iss1 id (fun k s => (‖d f k‖ ^ 2)⁻¹ * phi f k s) (scaled d Y f))
      = scaled d fun f => iss1 id (phi f) (Y f) := by
  funext f
  rw [scaled, iss1_level _ (fun k => inv_pos.mpr (pow_pos (norm_pos_iff.mpr (hd f k)) 2)) _ (hd f)]
  rw [scaled]
  congr 1
  funext k
  have h1 : ‖d f k‖ ≠ 0 := (norm_pos_iff.mpr (hd f k)).ne'
  rw [Real.sqrt_inv, Real.sqrt_sq (norm_nonneg _), inv_mul_cancel₀ h1, Complex.ofReal_one, div_one]

end Verif.NormFree
