import Verif.Props.WhitenPhaseEx
import Verif.Props.TwoSources
import Verif.Props.GradCall
import Verif.Props.Rotation
import Verif.Lemmas.Level

/-!
# C117: FastICA, FastIVA and FasterIVA see an invertible mixing of the channels only through the start
-/

set_option linter.unusedSectionVars false

namespace Verif
namespace FastMix

open Matrix Spatial Scale Lifecycle EigPhase
open IlrmaCall (baseCall)
open scoped ComplexOrder

section whiten

variable {𝕜 : Type} [RCLike 𝕜] {n t : ℕ}

/-- C117: mixing the channels by an invertible matrix multiplies the whitened data by a unitary matrix, whatever
eigenvectors the two LAPACKs return. -/
theorem C117_whiten (np np' : Numpy 𝕜) (X : Transform.Data n t 𝕜) (hX : (Transform.sampleCov X).PosDef) (A : Mat n 𝕜)
    (hA : IsUnit A.det) :
    ∃ U : Mat n 𝕜, U * Uᴴ = 1 ∧ Uᴴ * U = 1 ∧ Transform.whitenCore np' (A * X) = U * Transform.whitenCore np X := by
  have cov : ∀ (B : Mat n 𝕜) (Y : Transform.Data n t 𝕜),
      Transform.sampleCov (B * Y) = B * Transform.sampleCov Y * Bᴴ := fun B Y => by
    simp only [Transform.sampleCov, conjTranspose_mul, Matrix.mul_smul, Matrix.smul_mul, Matrix.mul_assoc]
  have hX' : (Transform.sampleCov (A * X)).PosDef := by
    rw [cov]
    exact hX.mul_mul_conjTranspose_same (vecMul_injective_iff_isUnit.mpr ((isUnit_iff_isUnit_det A).mpr hA))
  have ok : ∀ (np : Numpy 𝕜) (X : Transform.Data n t 𝕜), Transform.whiten np 2 false (fun _ : Unit => X)
      = .ok fun _ => Transform.whitenCore np X := fun _ _ => rfl
  obtain ⟨V, hV, e⟩ := Transform.C20_invertible_map np 2 false (fun _ : Unit => X) _ (fun _ => hX) (ok np X) ()
  obtain ⟨V', -, e'⟩ := Transform.C20_invertible_map np' 2 false (fun _ : Unit => A * X) _ (fun _ => hX') (ok np' (A * X)) ()
  have hVd : IsUnit V.det := (isUnit_iff_isUnit_det V).mp hV
  have hU : Transform.whitenCore np' (A * X) = V' * A * V⁻¹ * Transform.whitenCore np X := by
    rw [e, e', Matrix.mul_assoc (V' * A), nonsing_inv_mul_cancel_left _ _ hVd, Matrix.mul_assoc]
  have c := cov (V' * A * V⁻¹) (Transform.whitenCore np X)
  rw [← hU, Transform.C20_identity_covariance np 2 false (fun _ : Unit => X) _ (fun _ => hX) (ok np X) (),
    Transform.C20_identity_covariance np' 2 false (fun _ : Unit => A * X) _ (fun _ => hX') (ok np' (A * X)) (),
    Matrix.mul_one] at c
  exact ⟨_, c.symm, mul_eq_one_comm.mp c.symm, hU⟩

end whiten

/-! ## FastICA -/

section ica

variable {n t : ℕ} {U : Mat n ℝ} (hU : Uᵀ * U = 1)

theorem row_turn (W : Mat n ℝ) (k : Fin n) : (W * Uᵀ) k = U *ᵥ W k := by
  funext c
  simp only [mul_apply, transpose_apply, mulVec, dotProduct]
  exact Finset.sum_congr rfl fun b _ => mul_comm _ _

include hU

theorem dot_turn (v w : Fin n → ℝ) : ∑ c, (U *ᵥ v) c * (U *ᵥ w) c = ∑ c, v c * w c := by
  change (U *ᵥ v) ⬝ᵥ (U *ᵥ w) = v ⬝ᵥ w
  rw [dotProduct_mulVec, ← mulVec_transpose, mulVec_mulVec, hU, one_mulVec]

theorem project_turn (Z : Matrix (Fin n) (Fin t) ℝ) (w : Fin n → ℝ) :
    Fast.project (U * Z) (U *ᵥ w) = Fast.project Z w := by
  funext s
  have := dot_turn hU w fun b => Z b s
  simp only [Fast.project]
  rw [← this]
  exact Finset.sum_congr rfl fun c _ => by simp [mul_apply, mulVec, dotProduct]

theorem direction_turn (score d_score : (Fin t → ℝ) → Fin t → ℝ) (Z : Matrix (Fin n) (Fin t) ℝ) (w : Fin n → ℝ) :
    Fast.icaDirection score d_score (U * Z) (U *ᵥ w) = U *ᵥ Fast.icaDirection score d_score Z w := by
  funext c
  simp only [Fast.icaDirection, project_turn hU, meanT, mulVec, dotProduct, mul_sub, Finset.sum_sub_distrib, mul_apply,
    Finset.mul_sum, Finset.sum_div]
  congr 1
  · exact Finset.sum_congr rfl fun b _ => by ring
  · rw [Finset.sum_comm]
    exact Finset.sum_congr rfl fun b _ => Finset.sum_congr rfl fun s _ => by ring

theorem deflate_turn (W : Mat n ℝ) (src : Fin n) (w : Fin n → ℝ) :
    Fast.deflate (W * Uᵀ) src (U *ᵥ w) = U *ᵥ Fast.deflate W src w := by
  funext c
  simp only [Fast.deflate, row_turn, dot_turn hU]
  simp only [mulVec, dotProduct, Fast.deflate, mul_sub, Finset.sum_sub_distrib, Finset.mul_sum]
  congr 1
  rw [Finset.sum_comm]
  exact Finset.sum_congr rfl fun b _ => Finset.sum_congr rfl fun s _ => by ring

theorem norm2_turn (w : Fin n → ℝ) : Fast.norm2 (U *ᵥ w) = Fast.norm2 w := by
  have := dot_turn hU w w
  simp only [← sq] at this
  rw [Fast.norm2, Fast.norm2, this]

theorem icaRow_turn (score d_score : (Fin t → ℝ) → Fin t → ℝ) (Z : Matrix (Fin n) (Fin t) ℝ) (W : Mat n ℝ) (src : Fin n) :
    Fast.icaRow score d_score (U * Z) (W * Uᵀ) src
      = Except.map (fun W => W * Uᵀ) (Fast.icaRow score d_score Z W src) := by
  simp only [Fast.icaRow, row_turn, direction_turn hU, deflate_turn hU, norm2_turn hU]
  split
  · rfl
  · refine congrArg Except.ok ?_
    ext k c
    change _ = (updateRow W src _ * Uᵀ) k c
    by_cases hk : k = src
    · subst hk
      rw [row_turn, updateRow_self, updateRow_self]
      simp only [mulVec, dotProduct, Finset.sum_div, mul_div_assoc]
    · rw [updateRow_ne hk, row_turn, row_turn, updateRow_ne hk]

end ica

section fastica

variable {n t : ℕ}

/-- C117 (FastICA): on a recording whose channels are mixed by an invertible matrix, a call started from the filter in the
rotated whitened coordinates returns the same output and the same losses, and raises the same exceptions, as the call on
the original recording; the resulting filter is the same in the rotated coordinates. -/
theorem C117_fast_ica (np np' : Numpy ℝ) (contrast : ℝ → ℝ) (score d_score : (Fin t → ℝ) → Fin t → ℝ)
    (X : Transform.Data n t ℝ) (hX : (Transform.sampleCov X).PosDef) (A : Mat n ℝ) (hA : IsUnit A.det) :
    ∃ U : Mat n ℝ, U * Uᵀ = 1 ∧ Transform.whitenCore np' (A * X) = U * Transform.whitenCore np X ∧
      ∀ (n_iter : ℕ) (ic : Bool) (W : Mat n ℝ) (o o' : GradCall.Obj ℝ Unit n t), o'.loss = o.loss →
        ExRel (fun p p' => p'.output = p.output ∧ p'.loss = p.loss ∧
            ∃ W₁, p.demix = .val (fun _ => W₁) ∧ p'.demix = .val fun _ => W₁ * Uᵀ)
          (GradCall.fastIcaCall np contrast score d_score X n_iter ic (some W) o)
          (GradCall.fastIcaCall np' contrast score d_score (A * X) n_iter ic (some (W * Uᵀ)) o') := by
  obtain ⟨U, h1, h2, hZ⟩ := C117_whiten np np' X hX A hA
  rw [conjTranspose_eq_transpose_of_trivial] at h1 h2
  refine ⟨U, h1, hZ, fun n_iter ic W o o' hl => ?_⟩
  have e := Rotation.baseCall_map (step := Fast.icaStep score d_score (Transform.whitenCore np X))
    (step' := Fast.icaStep score d_score (U * Transform.whitenCore np X))
    (loss := fun W => .ok (Fast.icaLoss contrast (Transform.whitenCore np X) W))
    (loss' := fun W => .ok (Fast.icaLoss contrast (U * Transform.whitenCore np X) W)) (e := fun W => W * Uᵀ)
    (fun W => foldlM_map _ _ (fun W : Mat n ℝ => W * Uᵀ) (fun W k => icaRow_turn h2 score d_score _ W k) _ W)
    (fun W => by simp only [Fast.icaLoss, row_turn, project_turn h2]) ic n_iter W o.loss
  simp only [GradCall.fastIcaCall, GradCall.reset, IlrmaCall.override, Option.map, bind, Except.bind, hZ, hl, e]
  cases baseCall (Fast.icaStep score d_score (Transform.whitenCore np X))
    (fun W => .ok (Fast.icaLoss contrast (Transform.whitenCore np X) W)) ic n_iter W o.loss with
  | error x => rfl
  | ok q =>
    refine ⟨congrArg Attr.val (funext fun _ => ?_), rfl, q.1, rfl, rfl⟩
    simp only [GradCall.fastIcaSeparate, Bool.false_eq_true, if_false]
    rw [Matrix.mul_assoc, ← Matrix.mul_assoc Uᵀ, h2, Matrix.one_mul]

end fastica

/-! ## FastIVA and FasterIVA -/

section iva

variable {F : Type} [Fintype F] {n t : ℕ}

/-- The matrix that reorders the sources by `σ` and multiplies them by `φ`. -/
def mono (φ : Fin n → ℂ) (σ : Equiv.Perm (Fin n)) : Mat n ℂ := Matrix.of fun k j => if j = σ k then φ k else 0

theorem mono_mul {m : ℕ} (φ : Fin n → ℂ) (σ : Equiv.Perm (Fin n)) (B : Matrix (Fin n) (Fin m) ℂ) (k : Fin n) (c : Fin m) :
    (mono φ σ * B) k c = φ k * B (σ k) c := by
  rw [mul_apply, Finset.sum_eq_single (σ k)]
  · simp [mono]
  · intro j _ hj; simp [mono, hj]
  · intro h; exact absurd (Finset.mem_univ _) h

theorem mono_unitary {φ : Fin n → ℂ} (hφ : ∀ k, ‖φ k‖ = 1) (σ : Equiv.Perm (Fin n)) :
    (mono φ σ)ᴴ * mono φ σ = 1 ∧ mono φ σ * (mono φ σ)ᴴ = 1 := by
  have h : mono φ σ * (mono φ σ)ᴴ = 1 := by
    ext k l
    rw [mono_mul, conjTranspose_apply, mono, of_apply]
    by_cases hkl : k = l
    · subst hkl
      rw [if_pos rfl, one_apply_eq, Phase.mul_star_of_norm (hφ k)]
    · rw [if_neg fun h => hkl (σ.injective h), star_zero, mul_zero, one_apply_ne hkl]
  exact ⟨mul_eq_one_comm.mp h, h⟩

/-- Filters of two runs: the second has the sources in the order `σ`, up to the factors `φ`, and works in the coordinates `U`. -/
def Turned (φ : F → Fin n → ℂ) (σ : Equiv.Perm (Fin n)) (U : F → Mat n ℂ) (W W' : F → Mat n ℂ) : Prop :=
  ∀ f, W' f = mono (φ f) σ * W f * (U f)ᴴ

variable {φ : F → Fin n → ℂ} {σ : Equiv.Perm (Fin n)} {U : F → Mat n ℂ}

theorem Turned.separate (hU : ∀ f, (U f)ᴴ * U f = 1) {Z Z' : Spec F n t} (hZ : ∀ f, Z' f = U f * Z f)
    {W W' : F → Mat n ℂ} (h : Turned φ σ U W W') (f : F) :
    Scale.separate Z' W' f = mono (φ f) σ * Scale.separate Z W f := by
  rw [Scale.separate, Scale.separate, h, hZ, Matrix.mul_assoc, ← Matrix.mul_assoc _ (U f), hU, Matrix.one_mul,
    Matrix.mul_assoc]

theorem Turned.separate_apply (hU : ∀ f, (U f)ᴴ * U f = 1) {Z Z' : Spec F n t} (hZ : ∀ f, Z' f = U f * Z f)
    {W W' : F → Mat n ℂ} (h : Turned φ σ U W W') (f : F) (k : Fin n) (s : Fin t) :
    Scale.separate Z' W' f k s = φ f k * Scale.separate Z W f (σ k) s := by
  rw [h.separate hU hZ, mono_mul]

theorem Turned.binNorm (hφ : ∀ f k, ‖φ f k‖ = 1) (hU : ∀ f, (U f)ᴴ * U f = 1) {Z Z' : Spec F n t}
    (hZ : ∀ f, Z' f = U f * Z f) {W W' : F → Mat n ℂ} (h : Turned φ σ U W W') :
    Iva.binNorm (Scale.separate Z' W') = fun k s => Iva.binNorm (Scale.separate Z W) (σ k) s := by
  funext k s
  simp only [Iva.binNorm, h.separate_apply hU hZ, norm_mul, hφ, one_mul]

theorem Turned.loss (hφ : ∀ f k, ‖φ f k‖ = 1) (hU : ∀ f, (U f)ᴴ * U f = 1) {Z Z' : Spec F n t}
    (hZ : ∀ f, Z' f = U f * Z f) {W W' : F → Mat n ℂ} (h : Turned φ σ U W W') (G : ℝ → ℝ) :
    Fast.ivaLoss G Z' W' = Fast.ivaLoss G Z W := by
  rw [Fast.ivaLoss, Fast.ivaLoss, h.binNorm hφ hU hZ]
  exact Equiv.sum_comp σ fun k => meanT fun s => G (Iva.binNorm (Scale.separate Z W) k s)

/-- The direction FastIVA orthonormalises, written out. -/
theorem filter_eq (floor d dd : ℝ → ℝ) :
    ∃ α : (Fin t → ℝ) → (Fin t → ℝ) → ℂ, ∃ β : (Fin t → ℝ) → Fin t → ℂ, ∀ (Z : Spec F n t) (W : F → Mat n ℂ) f k c,
      Fast.fastIvaFilter floor d dd Z W f k c
        = α (Iva.binNorm (Scale.separate Z W) k) (fun s => ‖Scale.separate Z W f k s‖) * W f k c
          - ∑ s, β (Iva.binNorm (Scale.separate Z W) k) s * Scale.separate Z W f k s * star (Z f c s) := by
  refine ⟨fun b y => (∑ s, ((d (b s) / floor (2 * b s) : ℝ) : ℂ)) / t
      - (∑ s, (((2 * (d (b s) / floor (2 * b s)) - dd (b s)) / floor (2 * b s) * y s ^ 2 : ℝ) : ℂ)) / t,
    fun b s => ((d (b s) / floor (2 * b s) : ℝ) : ℂ) / t, fun Z W f k c => ?_⟩
  simp only [Fast.fastIvaFilter, of_apply, meanT, star_sub, star_div₀, star_sum, star_mul', star_star, star_natCast,
    show ∀ x : ℝ, star (x : ℂ) = x from fun x => Complex.conj_ofReal x, mul_sub, Finset.sum_sub_distrib, sub_mul, sub_div,
    Finset.sum_div, Finset.sum_mul]
  rw [sub_right_comm]
  congr 1
  · congr 1
    · exact Finset.sum_congr rfl fun s _ => by ring
    · exact Finset.sum_congr rfl fun s _ => by ring
  · exact Finset.sum_congr rfl fun s _ => by ring

/-- An update of FastIVA. -/
theorem fastIva_turn (np np' : Numpy ℂ) (floor d dd : ℝ → ℝ) (hφ : ∀ f k, ‖φ f k‖ = 1) (hU : ∀ f, (U f)ᴴ * U f = 1)
    {Z Z' : Spec F n t} (hZ : ∀ f, Z' f = U f * Z f) {W W' : F → Mat n ℂ} (h : Turned φ σ U W W')
    (hreg : ∀ f, IsUnit (Fast.fastIvaFilter floor d dd Z W f).det) :
    Turned φ σ U (Fast.fastIvaStep np floor d dd Z W) (Fast.fastIvaStep np' floor d dd Z' W') := by
  intro f
  rw [Fast.fastIvaStep, Fast.fastIvaStep, ← polar_conj np np' _ _ _ (mono_unitary (hφ f) σ).1
    (by rw [conjTranspose_conjTranspose]; exact hU f) (hreg f)]
  congr 1
  obtain ⟨α, β, e⟩ := filter_eq (F := F) (n := n) (t := t) floor d dd
  ext k c
  rw [e, Matrix.mul_assoc, mono_mul, mul_apply]
  have hn : (fun s => ‖Scale.separate Z' W' f k s‖) = fun s => ‖Scale.separate Z W f (σ k) s‖ := by
    funext s
    rw [h.separate_apply hU hZ, norm_mul, hφ, one_mul]
  rw [hn, h.binNorm hφ hU hZ]
  simp only [e, h.separate_apply hU hZ, hZ, h f]
  rw [Matrix.mul_assoc, mono_mul, mul_apply]
  simp only [mul_apply, star_sum, star_mul', sub_mul, Finset.sum_sub_distrib, mul_sub, Finset.mul_sum, Finset.sum_mul,
    conjTranspose_apply]
  congr 1
  · exact Finset.sum_congr rfl fun b _ => by ring
  · rw [Finset.sum_comm]
    exact Finset.sum_congr rfl fun b _ => Finset.sum_congr rfl fun s _ => by ring

/-- An update of FasterIVA. -/
theorem fasterIva_turn (np np' : Numpy ℂ) (floor d : ℝ → ℝ) {φ : F → Fin (n + 1) → ℂ} {σ : Equiv.Perm (Fin (n + 1))}
    {U : F → Mat (n + 1) ℂ} (hφ : ∀ f k, ‖φ f k‖ = 1) (hU : ∀ f, (U f)ᴴ * U f = 1) {Z Z' : Spec F (n + 1) t}
    (hZ : ∀ f, Z' f = U f * Z f) {W W' : F → Mat (n + 1) ℂ} (h : Turned φ σ U W W') (hreg : FasterRegular np floor d Z W) :
    ∃ φ' : F → Fin (n + 1) → ℂ, (∀ f k, ‖φ' f k‖ = 1) ∧
      Turned φ' σ U (Fast.fasterIvaStep np floor d Z W) (Fast.fasterIvaStep np' floor d Z' W') := by
  have hb := h.binNorm hφ hU hZ
  obtain ⟨phi, hphi⟩ : ∃ phi : Fin (n + 1) → Fin t → ℝ, phi = fun k s => d (Iva.binNorm (Scale.separate Z W) k s)
      / floor (2 * Iva.binNorm (Scale.separate Z W) k s) := ⟨_, rfl⟩
  have hcov : ∀ f k, Iva.wcov (fun k => phi (σ k)) Z' f k = U f * Iva.wcov phi Z f (σ k) * (U f)ᴴ := by
    intro f k
    have : Z' = remix U Z := funext hZ
    rw [this, wcov_remix]
    rfl
  have hrow : ∀ f k, ∃ u : ℂ, ‖u‖ = 1 ∧ ∀ c, (np'.eigh (Iva.wcov (fun k => phi (σ k)) Z' f k)).2 c (Fin.last n)
      = u * (U f * (np.eigh (Iva.wcov phi Z f (σ k))).2) c (Fin.last n) := by
    intro f k
    have s := np.eigh_spec _ (wcov_herm phi Z f (σ k))
    have s' := np'.eigh_spec _ (wcov_herm (fun k => phi (σ k)) Z' f k)
    have s2 : EighSpec (Iva.wcov (fun k => phi (σ k)) Z' f k) (np.eigh (Iva.wcov phi Z f (σ k))).1
        (U f * (np.eigh (Iva.wcov phi Z f (σ k))).2) := by
      refine ⟨?_, ?_, s.sorted⟩
      · rw [conjTranspose_mul, Matrix.mul_assoc, ← Matrix.mul_assoc _ (U f), hU, Matrix.one_mul, s.unitary]
      · rw [hcov]
        conv_lhs => rw [s.decomp]
        rw [conjTranspose_mul]
        simp only [Matrix.mul_assoc]
    exact eigh_simple s2 s' (Fin.last n) (by rw [hphi]; exact (hreg f).2 (σ k))
  choose u hu hue using hrow
  have hs : ∀ f k, ‖star (u f k)‖ = 1 := fun f k => by rw [norm_star, hu]
  refine ⟨fun f k => star (u f k), hs, fun f => ?_⟩
  rw [Fast.fasterIvaStep, Fast.fasterIvaStep, ← polar_conj np np' _ _ _ (mono_unitary (hs f) σ).1
    (by rw [conjTranspose_conjTranspose]; exact hU f) (hreg f).1]
  congr 1
  ext k c
  rw [Matrix.mul_assoc, mono_mul, mul_apply]
  have e : Fast.fasterIvaFilter np' floor d Z' W' f k c
      = star ((np'.eigh (Iva.wcov (fun k => phi (σ k)) Z' f k)).2 c (Fin.last n)) := by
    simp only [Fast.fasterIvaFilter, of_apply, hb, hphi]
  rw [e, hue, star_mul', mul_apply, star_sum]
  congr 1
  refine Finset.sum_congr rfl fun b _ => ?_
  simp only [Fast.fasterIvaFilter, of_apply, ← hphi, conjTranspose_apply, star_mul']
  exact mul_comm _ _

/-! ### The end of a call -/

/-- The output of the second run: sources in the order `σ`, bins multiplied by `a`. -/
def relabel (σ : Equiv.Perm (Fin n)) (a : F → ℂ) (Y : Spec F n t) : Spec F n t := fun f => Matrix.of fun k s => a f * Y f (σ k) s

theorem isUnit_conj {M B : Mat n ℂ} (hM : Mᴴ * M = 1) : IsUnit (M * B * Mᴴ).det ↔ IsUnit B.det := by
  have h1 : IsUnit (M.det * Mᴴ.det) := by rw [← det_mul, mul_eq_one_comm.mp hM, det_one]; exact isUnit_one
  rw [det_mul, det_mul, mul_right_comm, IsUnit.mul_iff]
  exact ⟨fun h => h.2, fun h => ⟨h1, h⟩⟩

theorem inv_conj {M : Mat n ℂ} (hM : Mᴴ * M = 1) (B : Mat n ℂ) : (M * B * Mᴴ)⁻¹ = M * B⁻¹ * Mᴴ := by
  rw [Matrix.mul_inv_rev, Matrix.mul_inv_rev, inv_eq_right_inv hM, inv_eq_right_inv (mul_eq_one_comm.mp hM), Matrix.mul_assoc]

/-- `npInvB` of conjugated matrices. -/
theorem npInvB_conj {M : F → Mat n ℂ} (hM : ∀ f, (M f)ᴴ * M f = 1) (B : F → Mat n ℂ) :
    npInvB (fun f => M f * B f * (M f)ᴴ) = Except.map (fun I f => M f * I f * (M f)ᴴ) (npInvB B) := by
  by_cases h : ∀ f, IsUnit (B f).det
  · rw [npInvB, npInvB, if_pos h, if_pos fun f => (isUnit_conj (hM f)).mpr (h f)]
    simp only [Except.map, inv_conj (hM _)]
  · rw [npInvB, npInvB, if_neg h, if_neg fun h' => h fun f => (isUnit_conj (hM f)).mp (h' f)]
    rfl

/-- Projection back onto the reference channel. -/
theorem pb_turn (hφ : ∀ f k, ‖φ f k‖ = 1) {A : F → Mat n ℂ} {a : F → ℂ} {r r' : Fin n}
    (ha : ∀ f c, A f r' c = if c = r then a f else 0) {Y Y' X : Spec F n t} (hY : ∀ f, Y' f = mono (φ f) σ * Y f) :
    projectionBackData r' Y' (remix A X) = Except.map (relabel σ a) (projectionBackData r Y X) := by
  have hM : ∀ f, (mono (φ f) σ)ᴴ * mono (φ f) σ = 1 := fun f => (mono_unitary (hφ f) σ).1
  have e : (fun f => Y' f * (Y' f)ᴴ) = fun f => mono (φ f) σ * (Y f * (Y f)ᴴ) * (mono (φ f) σ)ᴴ := funext fun f => by
    rw [hY, conjTranspose_mul]; simp only [Matrix.mul_assoc]
  simp only [projectionBackData, projectionBackScale, e, npInvB_conj hM]
  cases npInvB fun f => Y f * (Y f)ᴴ with
  | error x => rfl
  | ok I =>
    refine congrArg Except.ok (funext fun f => ?_)
    ext k s
    have e2 : remix A X f * (Y' f)ᴴ * (mono (φ f) σ * I f * (mono (φ f) σ)ᴴ)
        = A f * (X f * (Y f)ᴴ * I f) * (mono (φ f) σ)ᴴ := by
      rw [hY, conjTranspose_mul, remix]
      calc _ = A f * X f * (Y f)ᴴ * ((mono (φ f) σ)ᴴ * mono (φ f) σ) * I f * (mono (φ f) σ)ᴴ := by
            simp only [Matrix.mul_assoc]
        _ = _ := by rw [hM, Matrix.mul_one]; simp only [Matrix.mul_assoc]
    change Y' f k s * (remix A X f * (Y' f)ᴴ * (mono (φ f) σ * I f * (mono (φ f) σ)ᴴ)) r' k
      = a f * (Y f (σ k) s * (X f * (Y f)ᴴ * I f) r (σ k))
    have e3 : ∀ B : Mat n ℂ, (A f * B * (mono (φ f) σ)ᴴ) r' k = a f * B r (σ k) * star (φ f k) := by
      intro B
      rw [mul_apply, Finset.sum_eq_single (σ k)]
      · rw [mul_apply, Finset.sum_eq_single r]
        · rw [ha, if_pos rfl, conjTranspose_apply, mono, of_apply, if_pos rfl]
        · intro c _ hc; rw [ha, if_neg hc, zero_mul]
        · intro hh; exact absurd (Finset.mem_univ _) hh
      · intro j _ hj
        rw [conjTranspose_apply, mono, of_apply, if_neg hj, star_zero, mul_zero]
      · intro hh; exact absurd (Finset.mem_univ _) hh
    rw [e2, e3, hY, mono_mul]
    linear_combination (a f * Y f (σ k) s * (X f * (Y f)ᴴ * I f) r (σ k)) * Phase.mul_star_of_norm (hφ f k)

/-- The end of a call with projection back. -/
theorem finish_pb (np np' : Numpy ℂ) {sr : ScaleOpt} (hsr : AsksPB sr) (hφ : ∀ f k, ‖φ f k‖ = 1)
    (hU : ∀ f, (U f)ᴴ * U f = 1) {A : F → Mat n ℂ} {a : F → ℂ} {r r' : Fin n}
    (ha : ∀ f c, A f r' c = if c = r then a f else 0) (X : Spec F n t)
    (hZ : ∀ f, whitened np' (remix A X) f = U f * whitened np X f) {W W' : F → Mat n ℂ} (h : Turned φ σ U W W') :
    finishFast np' sr r' (remix A X) W'
      = Except.map (fun p => (relabel σ a p.1, fun f => a f • (mono 1 σ * p.2 f * (U f)ᴴ))) (finishFast np sr r X W) := by
  have e : (fun f => whitened np' (remix A X) f * (whitened np' (remix A X) f)ᴴ)
      = fun f => U f * (whitened np X f * (whitened np X f)ᴴ) * (U f)ᴴ := funext fun f => by
    rw [hZ, conjTranspose_mul]; simp only [Matrix.mul_assoc]
  simp only [finishFast, (restore_pb hsr (.error (α := Unit) .value) (.error .value)).1, if_true, (restore_pb hsr _ _).2,
    applyProjectionBackFast, pb_turn hφ ha (h.separate hU hZ), e, npInvB_conj hU]
  cases projectionBackData r (Scale.separate (whitened np X) W) X with
  | error x => rfl
  | ok Y =>
    cases npInvB fun f => whitened np X f * (whitened np X f)ᴴ with
    | error x => rfl
    | ok I =>
      have hr : ∀ f, relabel σ a Y f = a f • (mono 1 σ * Y f) := fun f => by
        ext k s
        rw [Matrix.smul_apply, mono_mul, Pi.one_apply, one_mul, relabel, of_apply, smul_eq_mul]
      have hw : ∀ f, relabel σ a Y f * (whitened np' (remix A X) f)ᴴ * (U f * I f * (U f)ᴴ)
          = a f • (mono 1 σ * (Y f * (whitened np X f)ᴴ * I f) * (U f)ᴴ) := fun f => by
        rw [hr, hZ, conjTranspose_mul, smul_mul, smul_mul]
        congr 1
        calc _ = mono 1 σ * Y f * (whitened np X f)ᴴ * ((U f)ᴴ * U f) * I f * (U f)ᴴ := by simp only [Matrix.mul_assoc]
          _ = _ := by rw [hU, Matrix.mul_one]; simp only [Matrix.mul_assoc]
      change Except.ok _ = Except.ok _
      refine congrArg Except.ok (Prod.ext (funext fun f => ?_) (funext fun f => hw f))
      change relabel σ a Y f * (whitened np' (remix A X) f)ᴴ * (U f * I f * (U f)ᴴ) * whitened np' (remix A X) f = _
      rw [hw, hZ]
      ext k s
      rw [smul_mul, Matrix.mul_assoc _ (U f)ᴴ, ← Matrix.mul_assoc (U f)ᴴ, hU, Matrix.one_mul, Matrix.smul_apply, Matrix.mul_assoc,
        mono_mul, Pi.one_apply, one_mul]
      rfl

theorem finish_none (np : Numpy ℂ) {sr : ScaleOpt} (hsr : AsksNone sr) (r : Fin n) (X : Spec F n t) (W : F → Mat n ℂ) :
    finishFast np sr r X W = .ok (Scale.separate (whitened np X) W, W) := by
  rcases hsr with rfl | rfl <;> rfl

theorem coordinates (np np' : Numpy ℂ) (X : Spec F n t) (hX : ∀ f, (Transform.sampleCov (X f)).PosDef) (A : F → Mat n ℂ)
    (hA : ∀ f, IsUnit (A f).det) : ∃ U : F → Mat n ℂ, (∀ f, U f * (U f)ᴴ = 1) ∧ (∀ f, (U f)ᴴ * U f = 1) ∧
      ∀ f, whitened np' (remix A X) f = U f * whitened np X f := by
  choose U h1 h2 h3 using fun f => C117_whiten np np' (X f) (hX f) (A f) (hA f)
  exact ⟨U, h1, h2, h3⟩

/-- C117 (FastIVA): mix the channels of every bin by an invertible matrix, reorder the sources of the start by `σ` and
express it in the whitened coordinates of the new recording. Without scale restoration the call returns the same signals
in the order `σ`. With projection back, if the reference channel of the new recording is `a` times that of the old one,
it returns the old output times `a`, in the order `σ`. The losses are the same. -/
theorem C117_fast_iva (np np' : Numpy ℂ) (floor G d dd : ℝ → ℝ) (X : Spec F n t)
    (hX : ∀ f, (Transform.sampleCov (X f)).PosDef) (A : F → Mat n ℂ) (hA : ∀ f, IsUnit (A f).det) :
    ∃ U : F → Mat n ℂ, (∀ f, U f * (U f)ᴴ = 1) ∧ (∀ f, whitened np' (remix A X) f = U f * whitened np X f) ∧
      ∀ (σ : Equiv.Perm (Fin n)) (n_iter : ℕ) (ic : Bool) (W : F → Mat n ℂ) (o o' : GradCall.Obj ℂ F n t) (r r' : Fin n)
        (sr : ScaleOpt) (a : F → ℂ), o'.loss = o.loss →
        (AsksNone sr ∧ (∀ f, a f = 1) ∨ AsksPB sr ∧ ∀ f c, A f r' c = if c = r then a f else 0) →
        RegularRun (fun W => .ok (Fast.fastIvaStep np floor d dd (whitened np X) W))
          (fun W => ∀ f, IsUnit (Fast.fastIvaFilter floor d dd (whitened np X) W f).det) n_iter W →
        ExRel (fun p p' => p'.loss = p.loss ∧ ∃ Y W₁, p.output = .val Y ∧ p.demix = .val W₁ ∧
            p'.output = .val (fun f => Matrix.of fun k s => a f * Y f (σ k) s) ∧
            p'.demix = .val fun f => a f • (W₁ f * (U f)ᴴ).submatrix σ id)
          (GradCall.fastIvaCall np floor G d dd sr r X n_iter ic (some W) o)
          (GradCall.fastIvaCall np' floor G d dd sr r' (remix A X) n_iter ic
            (some fun f => (W f * (U f)ᴴ).submatrix σ id) o') := by
  obtain ⟨U, h1, h2, hZ⟩ := coordinates np np' X hX A hA
  refine ⟨U, h1, hZ, fun σ n_iter ic W o o' r r' sr a hl hsr hreg => ?_⟩
  have hm : ∀ B : Mat n ℂ, ∀ f, mono 1 σ * B * (U f)ᴴ = (B * (U f)ᴴ).submatrix σ id := fun B f => by
    ext k c
    rw [Matrix.mul_assoc, mono_mul, Pi.one_apply, one_mul, submatrix_apply, id]
  have hφ : ∀ (f : F) (k : Fin n), ‖(fun _ _ => 1 : F → Fin n → ℂ) f k‖ = 1 := fun _ _ => norm_one
  obtain ⟨W₁, W₁', ls, e, e', hT⟩ := TwoSources.baseCall_rel
    (step := fun W => .ok (Fast.fastIvaStep np floor d dd (whitened np X) W))
    (step' := fun W => .ok (Fast.fastIvaStep np' floor d dd (whitened np' (remix A X)) W))
    (loss := fun W => .ok (Fast.ivaLoss G (whitened np X) W))
    (loss' := fun W => .ok (Fast.ivaLoss G (whitened np' (remix A X)) W))
    (R := Turned (fun _ _ => 1) σ U)
    (fun W W' h hr => ⟨_, _, rfl, rfl, fastIva_turn np np' floor d dd hφ h2 hZ h hr⟩)
    (fun W W' h => ⟨_, rfl, by rw [h.loss hφ h2 hZ]⟩) ic n_iter
    (s := W) (s' := fun f => (W f * (U f)ᴴ).submatrix σ id) (fun f => (hm _ f).symm) hreg o.loss
  simp only [GradCall.fastIvaCall, GradCall.reset, IlrmaCall.override, bind, Except.bind, hl, e, e']
  rcases hsr with ⟨hn, ha⟩ | ⟨hp, ha⟩
  · rw [finish_none np hn, finish_none np' hn]
    refine ⟨rfl, _, _, rfl, rfl, congrArg Attr.val (funext fun f => ?_), congrArg Attr.val (funext fun f => ?_)⟩
    · ext k s
      exact (hT.separate_apply h2 hZ f k s).trans (by rw [of_apply, ha])
    · rw [ha, one_smul]
      exact (hT f).trans (hm _ f)
  · rw [finish_pb np np' hp hφ h2 ha X hZ hT]
    cases finishFast np sr r X W₁ with
    | error x => rfl
    | ok p => exact ⟨rfl, _, _, rfl, rfl, rfl, congrArg Attr.val (funext fun f => congrArg (a f • ·) (hm _ f))⟩

/-- C117 (FasterIVA): the same; without scale restoration every signal may differ by a phase in every bin. -/
theorem C117_faster_iva (np np' : Numpy ℂ) (floor G d : ℝ → ℝ) (X : Spec F (n + 1) t)
    (hX : ∀ f, (Transform.sampleCov (X f)).PosDef) (A : F → Mat (n + 1) ℂ) (hA : ∀ f, IsUnit (A f).det) :
    ∃ U : F → Mat (n + 1) ℂ, (∀ f, U f * (U f)ᴴ = 1) ∧ (∀ f, whitened np' (remix A X) f = U f * whitened np X f) ∧
      ∀ (σ : Equiv.Perm (Fin (n + 1))) (n_iter : ℕ) (ic : Bool) (W : F → Mat (n + 1) ℂ) (o o' : GradCall.Obj ℂ F (n + 1) t)
        (r r' : Fin (n + 1)) (sr : ScaleOpt), o'.loss = o.loss →
        RegularRun (fun W => .ok (Fast.fasterIvaStep np floor d (whitened np X) W))
          (FasterRegular np floor d (whitened np X)) n_iter W →
        (AsksNone sr → ∃ p p' Y W₁, GradCall.fasterIvaCall np floor G d sr r X n_iter ic (some W) o = .ok p ∧
          GradCall.fasterIvaCall np' floor G d sr r' (remix A X) n_iter ic
            (some fun f => (W f * (U f)ᴴ).submatrix σ id) o' = .ok p' ∧ p'.loss = p.loss ∧ p.output = .val Y ∧
          p.demix = .val W₁ ∧ ∃ φ : F → Fin (n + 1) → ℂ, (∀ f k, ‖φ f k‖ = 1) ∧
            p'.output = .val (fun f => Matrix.of fun k s => φ f k * Y f (σ k) s) ∧
            p'.demix = .val fun f => Matrix.of fun k c => φ f k * (W₁ f * (U f)ᴴ) (σ k) c) ∧
        (AsksPB sr → ∀ a : F → ℂ, (∀ f c, A f r' c = if c = r then a f else 0) →
          ExRel (fun p p' => p'.loss = p.loss ∧ ∃ Y W₁, p.output = .val Y ∧ p.demix = .val W₁ ∧
              p'.output = .val (fun f => Matrix.of fun k s => a f * Y f (σ k) s) ∧
              p'.demix = .val fun f => a f • (W₁ f * (U f)ᴴ).submatrix σ id)
            (GradCall.fasterIvaCall np floor G d sr r X n_iter ic (some W) o)
            (GradCall.fasterIvaCall np' floor G d sr r' (remix A X) n_iter ic
              (some fun f => (W f * (U f)ᴴ).submatrix σ id) o')) := by
  obtain ⟨U, h1, h2, hZ⟩ := coordinates np np' X hX A hA
  refine ⟨U, h1, hZ, fun σ n_iter ic W o o' r r' sr hl hreg => ?_⟩
  have hm : ∀ B : Mat (n + 1) ℂ, ∀ f, mono 1 σ * B * (U f)ᴴ = (B * (U f)ᴴ).submatrix σ id := fun B f => by
    ext k c
    rw [Matrix.mul_assoc, mono_mul, Pi.one_apply, one_mul, submatrix_apply, id]
  obtain ⟨W₁, W₁', ls, e, e', φ, hφ, hT⟩ := TwoSources.baseCall_rel
    (step := fun W => .ok (Fast.fasterIvaStep np floor d (whitened np X) W))
    (step' := fun W => .ok (Fast.fasterIvaStep np' floor d (whitened np' (remix A X)) W))
    (loss := fun W => .ok (Fast.ivaLoss G (whitened np X) W))
    (loss' := fun W => .ok (Fast.ivaLoss G (whitened np' (remix A X)) W))
    (R := fun W W' => ∃ φ : F → Fin (n + 1) → ℂ, (∀ f k, ‖φ f k‖ = 1) ∧ Turned φ σ U W W')
    (fun W W' ⟨φ, hφ, h⟩ hr => ⟨_, _, rfl, rfl, fasterIva_turn np np' floor d hφ h2 hZ h hr⟩)
    (fun W W' ⟨φ, hφ, h⟩ => ⟨_, rfl, by rw [h.loss hφ h2 hZ]⟩) ic n_iter
    (s := W) (s' := fun f => (W f * (U f)ᴴ).submatrix σ id)
    ⟨fun _ _ => 1, fun _ _ => norm_one, fun f => (hm _ f).symm⟩ hreg o.loss
  simp only [GradCall.fasterIvaCall, GradCall.reset, IlrmaCall.override, bind, Except.bind, hl, e, e']
  constructor
  · intro hn
    rw [finish_none np hn, finish_none np' hn]
    refine ⟨_, _, _, _, rfl, rfl, rfl, rfl, rfl, φ, hφ, congrArg Attr.val (funext fun f => ?_),
      congrArg Attr.val (funext fun f => ?_)⟩
    · ext k s
      exact hT.separate_apply h2 hZ f k s
    · ext k c
      change W₁' f k c = φ f k * (W₁ f * (U f)ᴴ) (σ k) c
      rw [hT f, Matrix.mul_assoc, mono_mul]
  · intro hp a ha
    rw [finish_pb np np' hp hφ h2 ha X hZ hT]
    cases finishFast np sr r X W₁ with
    | error x => rfl
    | ok p => exact ⟨rfl, _, _, rfl, rfl, rfl, congrArg Attr.val (funext fun f => congrArg (a f • ·) (hm _ f))⟩

end iva

/-! ## Examples -/

section ex

theorem sampleCov_diag {t : ℕ} {X : Transform.Data 2 t ℂ} (h : Transform.covariance X = diagonal ![1, 4]) :
    (Transform.sampleCov X).PosDef := by
  have : Transform.sampleCov X = diagonal ![1, 4] := by
    rw [← h]
    ext i j
    simp [Transform.sampleCov, Transform.covariance, mul_apply, div_eq_inv_mul]
  rw [this, posDef_diagonal_iff]
  intro i
  fin_cases i <;> simp

/-- The channels are exchanged and the first one is added to the new second one; channel 0 is now three times
the former channel 1. -/
def exA : Unit → Mat 2 ℂ := fun _ => !![0, 3; 1, 1]

theorem exA_unit (f : Unit) : IsUnit (exA f).det := by
  rw [exA, det_fin_two_of, isUnit_iff_ne_zero]
  norm_num

theorem exA_ref (f : Unit) (c : Fin 2) : exA f 0 c = if c = 1 then 3 else 0 := by
  fin_cases c <;> simp [exA]

/-- FastIVA with projection back, sources exchanged, one iteration from the identity. -/
example (np np' : Numpy ℂ) (G : ℝ → ℝ) (o : GradCall.Obj ℂ Unit 2 2) : ∃ U : Unit → Mat 2 ℂ,
    ExRel (fun p p' => p'.loss = p.loss ∧ ∃ Y, p.output = .val Y ∧
        p'.output = .val (fun f => Matrix.of fun k s => 3 * Y f (Equiv.swap 0 1 k) s))
      (GradCall.fastIvaCall np id G (fun _ => 2) (fun _ => 0) (.bool true) 1 (fun _ => pmX) 1 true (some 1) o)
      (GradCall.fastIvaCall np' id G (fun _ => 2) (fun _ => 0) (.bool true) 0 (remix exA fun _ => pmX) 1 true
        (some fun f => ((1 : Unit → Mat 2 ℂ) f * (U f)ᴴ).submatrix (Equiv.swap 0 1) id) o) := by
  obtain ⟨U, -, -, h⟩ := C117_fast_iva np np' id G (fun _ => 2) (fun _ => 0) (fun _ : Unit => pmX)
    (fun _ => sampleCov_diag pmX_cov) exA exA_unit
  have := h (Equiv.swap 0 1) 1 true 1 o o 1 0 (.bool true) (fun _ => 3) rfl (.inr ⟨.inl rfl, exA_ref⟩)
    ⟨fun f => pmX_regular np f, fun _ _ => trivial⟩
  refine ⟨U, ?_⟩
  revert this
  cases GradCall.fastIvaCall np id G (fun _ => 2) (fun _ => 0) (.bool true) 1 (fun _ : Unit => pmX) 1 true (some 1) o <;>
    cases GradCall.fastIvaCall np' id G (fun _ => 2) (fun _ => 0) (.bool true) 0 (remix exA fun _ : Unit => pmX) 1 true
        (some fun f => ((1 : Unit → Mat 2 ℂ) f * (U f)ᴴ).submatrix (Equiv.swap 0 1) id) o
  · exact id
  · exact id
  · exact id
  · rintro ⟨h1, Y, W₁, h2, -, h3, -⟩
    exact ⟨h1, Y, h2, h3⟩

/-- FasterIVA without scale restoration, one iteration from the identity. -/
example (np np' : Numpy ℂ) (G : ℝ → ℝ) (o : GradCall.Obj ℂ Unit 2 4) : ∃ (U : Unit → Mat 2 ℂ) (p p' : GradCall.Obj ℂ Unit 2 4),
    GradCall.fasterIvaCall np id G (fun _ => 2) (.bool false) 1 (fun _ => qX) 1 true (some 1) o = .ok p ∧
    GradCall.fasterIvaCall np' id G (fun _ => 2) (.bool false) 0 (remix exA fun _ => qX) 1 true
        (some fun f => ((1 : Unit → Mat 2 ℂ) f * (U f)ᴴ).submatrix (Equiv.refl _) id) o = .ok p' ∧ p'.loss = p.loss := by
  obtain ⟨U, -, -, h⟩ := C117_faster_iva np np' id G (fun _ => 2) (fun _ : Unit => qX)
    (fun _ => sampleCov_diag qX_cov) exA exA_unit
  obtain ⟨p, p', _, _, h1, h2, h3, -⟩ := (h (Equiv.refl _) 1 true 1 o o 1 0 (.bool false) rfl
    ⟨qX_regular np, fun _ _ => trivial⟩).1 (.inl rfl)
  exact ⟨U, p, p', h1, h2, h3⟩

/-- The conditions of `C117_fast_ica` and `C117_whiten`: a recording with independent channels, and a mixing of them. -/
example (np np' : Numpy ℝ) (contrast : ℝ → ℝ) (score d_score : (Fin 2 → ℝ) → Fin 2 → ℝ) (o : GradCall.Obj ℝ Unit 2 2) :
    ∃ U : Mat 2 ℝ, U * Uᵀ = 1 ∧
      ExRel (fun p p' => p'.output = p.output)
        (GradCall.fastIcaCall np contrast score d_score pmX 5 true (some 1) o)
        (GradCall.fastIcaCall np' contrast score d_score (!![0, 3; 1, 1] * pmX) 5 true (some (1 * Uᵀ)) o) := by
  have hX : (Transform.sampleCov (pmX : Transform.Data 2 2 ℝ)).PosDef := by
    have : Transform.sampleCov (pmX : Transform.Data 2 2 ℝ) = diagonal ![1, 4] := by
      rw [← pmX_cov]
      ext i j
      simp [Transform.sampleCov, Transform.covariance, mul_apply, div_eq_inv_mul]
    rw [this, posDef_diagonal_iff]
    intro i
    fin_cases i <;> simp
  obtain ⟨U, h1, -, h⟩ := C117_fast_ica np np' contrast score d_score pmX hX !![0, 3; 1, 1]
    (by rw [det_fin_two_of, isUnit_iff_ne_zero]; norm_num)
  refine ⟨U, h1, ?_⟩
  have := h 5 true 1 o o rfl
  revert this
  cases GradCall.fastIcaCall np contrast score d_score (pmX : Transform.Data 2 2 ℝ) 5 true (some 1) o <;>
    cases GradCall.fastIcaCall np' contrast score d_score (!![0, 3; 1, 1] * (pmX : Transform.Data 2 2 ℝ)) 5 true
      (some (1 * Uᵀ)) o
  · exact id
  · exact id
  · exact id
  · exact fun h => h.1

end ex

end FastMix
end Verif
