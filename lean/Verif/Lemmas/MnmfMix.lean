import Verif.Props.MnmfFull
import Verif.Props.EigFree
import Verif.Lemmas.Level

/-! # GaussMNMF on a remixed recording

Microphone signals mixed by an invertible matrix `A f` in every bin, spatial covariances `H ↦ A H Aᴴ`, with the scale of
source `k` in bin `f` moved between bases and spatial covariances and the scale of component `b` between bases and
activations: every update of the remixed state is the remixed update. -/

set_option linter.unusedSectionVars false

namespace Verif.MnmfMix

open Matrix Spatial Scale Ilrma Mnmf Linalg
open scoped ComplexOrder

variable {F : Type} [Fintype F] {n m t K : ℕ}

/-- `A M Aᴴ`. -/
noncomputable def cong (A M : Mat m ℂ) : Mat m ℂ := A * M * Aᴴ

theorem cong_smul (A M : Mat m ℂ) (c : ℂ) : cong A (c • M) = c • cong A M := by
  simp only [cong, Matrix.mul_smul, Matrix.smul_mul]

theorem cong_sum {ι : Type} [Fintype ι] (A : Mat m ℂ) (M : ι → Mat m ℂ) : cong A (∑ i, M i) = ∑ i, cong A (M i) := by
  simp only [cong, Finset.mul_sum, Finset.sum_mul]

theorem cong_cong (A B M : Mat m ℂ) : cong A (cong B M) = cong (A * B) M := by
  simp only [cong, conjTranspose_mul, Matrix.mul_assoc]

theorem cong_one (M : Mat m ℂ) : cong 1 M = M := by
  simp only [cong, conjTranspose_one, Matrix.one_mul, Matrix.mul_one]

theorem isUnit_conj {A : Mat m ℂ} (hA : IsUnit A.det) : IsUnit (Aᴴ).det := by
  rw [det_conjTranspose]
  exact hA.star

theorem cong_posDef {A M : Mat m ℂ} (hA : IsUnit A.det) (hM : M.PosDef) : (cong A M).PosDef :=
  hM.mul_mul_conjTranspose_same (vecMul_injective_iff_isUnit.mpr ((isUnit_iff_isUnit_det A).mpr hA))

theorem cong_posSemidef {A M : Mat m ℂ} (hM : M.PosSemidef) : (cong A M).PosSemidef := hM.mul_mul_conjTranspose_same A

/-- The inverse of a congruent matrix, multiplied by a congruent matrix, is similar to the product. -/
theorem cong_inv_mul {A : Mat m ℂ} (hA : IsUnit A.det) (R M : Mat m ℂ) :
    (cong A R)⁻¹ * cong A M = (Aᴴ)⁻¹ * (R⁻¹ * M) * Aᴴ := by
  rw [cong, cong, Matrix.mul_inv_rev, Matrix.mul_inv_rev]
  simp only [Matrix.mul_assoc]
  rw [nonsing_inv_mul_cancel_left _ _ hA]

theorem cong_inv {A : Mat m ℂ} (R : Mat m ℂ) : (cong A R)⁻¹ = cong (Aᴴ)⁻¹ R⁻¹ := by
  rw [cong, cong, Matrix.mul_inv_rev, Matrix.mul_inv_rev, conjTranspose_nonsing_inv, conjTranspose_conjTranspose,
    Matrix.mul_assoc]

theorem trace_sim {B : Mat m ℂ} (hB : IsUnit B.det) (M : Mat m ℂ) : (B⁻¹ * M * B).trace = M.trace := by
  rw [Matrix.mul_assoc, trace_mul_comm, Matrix.mul_assoc, mul_nonsing_inv _ hB, Matrix.mul_one]

/-- The remixed state. -/
noncomputable def respread (A : F → Mat m ℂ) (α : Fin n → F → ℝ) (ρ : Fin n → Fin K → ℝ) (s : MSt F n m t K) :
    MSt F n m t K :=
  ⟨fun k f b => α k f * ρ k b * s.T k f b, fun k b j => s.V k b j / ρ k b,
    fun k f => (((α k f)⁻¹ : ℝ) : ℂ) • cong (A f) (s.H k f)⟩

theorem respread_respread (A B : F → Mat m ℂ) (α β : Fin n → F → ℝ) (ρ : Fin n → Fin K → ℝ)
    (s : MSt F n m t K) :
    respread A α (fun _ _ => 1) (respread B β ρ s) = respread (fun f => A f * B f) (fun k f => α k f * β k f) ρ s := by
  simp only [respread, MSt.mk.injEq, mul_one, div_one, cong_smul, cong_cong, smul_smul]
  refine ⟨?_, trivial, ?_⟩
  · funext k f b
    ring
  · funext k f
    rw [← Complex.ofReal_mul, mul_inv]

theorem respread_respread' (A B : F → Mat m ℂ) (α β : Fin n → F → ℝ) (ρ : Fin n → Fin K → ℝ)
    (s : MSt F n m t K) :
    respread A α ρ (respread B β (fun _ _ => 1) s) = respread (fun f => A f * B f) (fun k f => α k f * β k f) ρ s := by
  simp only [respread, MSt.mk.injEq, mul_one, div_one, cong_smul, cong_cong, smul_smul]
  refine ⟨?_, trivial, ?_⟩
  · funext k f b
    ring
  · funext k f
    rw [← Complex.ofReal_mul, mul_inv]

theorem respread_one (s : MSt F n m t K) : respread (fun _ => 1) (fun _ _ => 1) (fun _ _ => 1) s = s := by
  simp only [respread, one_mul, div_one, inv_one, Complex.ofReal_one, one_smul, cong_one]

theorem normalize_eq (s : MSt F n m t K) :
    fullNormalize s = respread (fun _ => 1) (fun k f => (s.H k f).trace.re) (fun _ _ => 1) s := by
  simp only [fullNormalize, respread, div_one, mul_one, Complex.ofReal_inv, cong_one]

section

variable {A : F → Mat m ℂ} (hA : ∀ f, IsUnit (A f).det) {α : Fin n → F → ℝ} (hα : ∀ k f, 0 < α k f)
  {ρ : Fin n → Fin K → ℝ} (hρ : ∀ k b, 0 < ρ k b)
include hρ

theorem recon_respread (s : MSt F n m t K) (k : Fin n) (f : F) (j : Fin t) :
    recon (respread A α ρ s).T (respread A α ρ s).V k f j = α k f * recon s.T s.V k f j := by
  simp only [recon, respread, Finset.mul_sum]
  refine Finset.sum_congr rfl fun b _ => ?_
  have := (hρ k b).ne'
  field_simp

include hα

theorem Rn_respread (s : MSt F n m t K) (f : F) (j : Fin t) (k : Fin n) :
    fullRn (recon (respread A α ρ s).T (respread A α ρ s).V) (respread A α ρ s).H f j k
      = cong (A f) (fullRn (recon s.T s.V) s.H f j k) := by
  have h := (hα k f).ne'
  rw [fullRn, recon_respread hρ, fullRn, cong_smul]
  change _ • ((((α k f)⁻¹ : ℝ) : ℂ) • cong (A f) (s.H k f)) = _
  rw [smul_smul, ← Complex.ofReal_mul]
  congr 2
  field_simp

theorem R_respread (s : MSt F n m t K) (f : F) (j : Fin t) : (respread A α ρ s).R f j = cong (A f) (s.R f j) := by
  simp only [MSt.R, fullR, Rn_respread hα hρ, cong_sum]

include hA

theorem pos_respread {s : MSt F n m t K} (hs : MPos s) : MPos (respread A α ρ s) :=
  ⟨fun k f b => mul_pos (mul_pos (hα k f) (hρ k b)) (hs.1 k f b), fun k b j => div_pos (hs.2.1 k b j) (hρ k b),
    fun k f => Tr.smul_posDef (cong_posDef (hA f) (hs.2.2 k f)) (inv_pos.mpr (hα k f))⟩

theorem trace_H (s : MSt F n m t K) (f : F) (j : Fin t) (k : Fin n) :
    (((respread A α ρ s).R f j)⁻¹ * (respread A α ρ s).H k f).trace.re
      = (α k f)⁻¹ * ((s.R f j)⁻¹ * s.H k f).trace.re := by
  rw [R_respread hα hρ]
  change ((cong (A f) (s.R f j))⁻¹ * ((((α k f)⁻¹ : ℝ) : ℂ) • cong (A f) (s.H k f))).trace.re = _
  rw [Matrix.mul_smul, cong_inv_mul (hA f), trace_smul, trace_sim (isUnit_conj (hA f)), smul_eq_mul, Complex.re_ofReal_mul]

theorem trace_XXH (XX : F → Fin t → Mat m ℂ) (s : MSt F n m t K) (f : F) (j : Fin t) (k : Fin n) :
    (((respread A α ρ s).R f j)⁻¹ * cong (A f) (XX f j) * (((respread A α ρ s).R f j)⁻¹ * (respread A α ρ s).H k f)).trace.re
      = (α k f)⁻¹ * ((s.R f j)⁻¹ * XX f j * ((s.R f j)⁻¹ * s.H k f)).trace.re := by
  have hB := isUnit_conj (hA f)
  rw [R_respread hα hρ]
  change ((cong (A f) (s.R f j))⁻¹ * cong (A f) (XX f j)
    * ((cong (A f) (s.R f j))⁻¹ * ((((α k f)⁻¹ : ℝ) : ℂ) • cong (A f) (s.H k f)))).trace.re = _
  have e : ∀ M N : Mat m ℂ, ((A f)ᴴ)⁻¹ * M * (A f)ᴴ * (((A f)ᴴ)⁻¹ * N * (A f)ᴴ) = ((A f)ᴴ)⁻¹ * (M * N) * (A f)ᴴ := by
    intro M N
    simp only [Matrix.mul_assoc]
    rw [mul_nonsing_inv_cancel_left _ _ hB]
  rw [Matrix.mul_smul, Matrix.mul_smul, cong_inv_mul (hA f), cong_inv_mul (hA f), e, trace_smul, trace_sim hB, smul_eq_mul,
    Complex.re_ofReal_mul]

theorem basis_respread (XX : F → Fin t → Mat m ℂ) (s : MSt F n m t K) (k : Fin n) (f : F) (b : Fin K) :
    fullBasisRaw (fun f j => cong (A f) (XX f j)) (respread A α ρ s) k f b
      = α k f * ρ k b * fullBasisRaw XX s k f b := by
  rw [fullBasisRaw, fullBasisRaw]
  simp only [trace_H hA hα hρ, trace_XXH hA hα hρ]
  have h1 : ∀ x : Fin t → ℝ, (∑ j, (respread A α ρ s).V k b j * ((α k f)⁻¹ * x j))
      = (ρ k b)⁻¹ * (α k f)⁻¹ * ∑ j, s.V k b j * x j := by
    intro x
    rw [Finset.mul_sum]
    refine Finset.sum_congr rfl fun j _ => ?_
    change s.V k b j / ρ k b * _ = _
    ring
  have h2 : (ρ k b)⁻¹ * (α k f)⁻¹ ≠ 0 := mul_ne_zero (inv_ne_zero (hρ k b).ne') (inv_ne_zero (hα k f).ne')
  rw [h1, h1, mul_div_mul_left _ _ h2]
  change α k f * ρ k b * s.T k f b * _ = _
  ring

theorem activation_respread (XX : F → Fin t → Mat m ℂ) (s : MSt F n m t K) (k : Fin n) (b : Fin K) (j : Fin t) :
    fullActivationRaw (fun f j => cong (A f) (XX f j)) (respread A α ρ s) k b j = fullActivationRaw XX s k b j / ρ k b := by
  rw [fullActivationRaw, fullActivationRaw]
  simp only [trace_H hA hα hρ, trace_XXH hA hα hρ]
  have h1 : ∀ x : F → ℝ, (∑ f, (respread A α ρ s).T k f b * ((α k f)⁻¹ * x f)) = ρ k b * ∑ f, s.T k f b * x f := by
    intro x
    rw [Finset.mul_sum]
    refine Finset.sum_congr rfl fun f _ => ?_
    change α k f * ρ k b * s.T k f b * _ = _
    have := (hα k f).ne'
    field_simp
  rw [h1, h1, mul_div_mul_left _ _ (hρ k b).ne']
  change s.V k b j / ρ k b * _ = _
  ring

theorem matP_respread (s : MSt F n m t K) (k : Fin n) (f : F) :
    matP (respread A α ρ s) k f = (α k f : ℂ) • cong ((A f)ᴴ)⁻¹ (matP s k f) := by
  simp only [matP, recon_respread hρ, R_respread hα hρ, cong_inv, cong_sum, cong_smul, Finset.smul_sum, smul_smul,
    Complex.ofReal_mul]

theorem matHQH_respread (XX : F → Fin t → Mat m ℂ) (s : MSt F n m t K) (k : Fin n) (f : F) :
    matHQH (fun f j => cong (A f) (XX f j)) (respread A α ρ s) k f
      = (((α k f)⁻¹ : ℝ) : ℂ) • cong (A f) (matHQH XX s k f) := by
  have hB := isUnit_conj (hA f)
  have h1 : ∀ j, ((respread A α ρ s).R f j)⁻¹ * cong (A f) (XX f j) * ((respread A α ρ s).R f j)⁻¹
      = cong ((A f)ᴴ)⁻¹ ((s.R f j)⁻¹ * XX f j * (s.R f j)⁻¹) := by
    intro j
    rw [R_respread hα hρ, cong_inv_mul (hA f), cong_inv, cong, cong]
    simp only [Matrix.mul_assoc]
    rw [mul_nonsing_inv_cancel_left _ _ hB]
  have h2 : ∀ M N : Mat m ℂ, cong (A f) M * cong ((A f)ᴴ)⁻¹ N * cong (A f) M = cong (A f) (M * N * M) := by
    intro M N
    have e : (((A f)ᴴ)⁻¹)ᴴ = (A f)⁻¹ := by rw [conjTranspose_nonsing_inv, conjTranspose_conjTranspose]
    simp only [cong, e, Matrix.mul_assoc]
    rw [mul_nonsing_inv_cancel_left _ _ hB, nonsing_inv_mul_cancel_left _ _ (hA f)]
  have h3 := (hα k f).ne'
  rw [matHQH, matHQH]
  simp only [h1, recon_respread hρ]
  change ((((α k f)⁻¹ : ℝ) : ℂ) • cong (A f) (s.H k f)) * _ * ((((α k f)⁻¹ : ℝ) : ℂ) • cong (A f) (s.H k f)) = _
  have h4 : (∑ j, ((α k f * recon s.T s.V k f j : ℝ) : ℂ) • cong ((A f)ᴴ)⁻¹ ((s.R f j)⁻¹ * XX f j * (s.R f j)⁻¹))
      = (α k f : ℂ) • cong ((A f)ᴴ)⁻¹ (∑ j, (recon s.T s.V k f j : ℂ) • ((s.R f j)⁻¹ * XX f j * (s.R f j)⁻¹)) := by
    simp only [cong_sum, cong_smul, Finset.smul_sum, smul_smul, Complex.ofReal_mul]
  rw [h4]
  simp only [Matrix.smul_mul, Matrix.mul_smul, smul_smul, h2, ← Complex.ofReal_mul]
  congr 2
  field_simp

/-- The remixed solution solves the remixed Riccati equation. -/
theorem riccati_respread {XX : F → Fin t → Mat m ℂ} {s : MSt F n m t K} {k : Fin n} {f : F} {G : Mat m ℂ}
    (h : G * matP s k f * G = matHQH XX s k f) :
    ((((α k f)⁻¹ : ℝ) : ℂ) • cong (A f) G) * matP (respread A α ρ s) k f * ((((α k f)⁻¹ : ℝ) : ℂ) • cong (A f) G)
      = matHQH (fun f j => cong (A f) (XX f j)) (respread A α ρ s) k f := by
  have hB := isUnit_conj (hA f)
  have h2 : ∀ M N : Mat m ℂ, cong (A f) M * cong ((A f)ᴴ)⁻¹ N * cong (A f) M = cong (A f) (M * N * M) := by
    intro M N
    have e : (((A f)ᴴ)⁻¹)ᴴ = (A f)⁻¹ := by rw [conjTranspose_nonsing_inv, conjTranspose_conjTranspose]
    simp only [cong, e, Matrix.mul_assoc]
    rw [mul_nonsing_inv_cancel_left _ _ hB, nonsing_inv_mul_cancel_left _ _ (hA f)]
  have h3 := (hα k f).ne'
  rw [matP_respread hA hα hρ, matHQH_respread hA hα hρ, ← h]
  simp only [Matrix.smul_mul, Matrix.mul_smul, smul_smul, h2, ← Complex.ofReal_mul]
  congr 2
  field_simp

/-- All losses are shifted by the same amount. -/
theorem val_respread (ht : 0 < t) (XX : F → Fin t → Mat m ℂ) {s : MSt F n m t K}
    (hR : ∀ f j, (s.R f j).PosDef) :
    fullVal (fun f j => cong (A f) (XX f j)) (respread A α ρ s) = fullVal XX s + 2 * ∑ f, Real.log ‖(A f).det‖ := by
  rw [fullVal, fullVal, Finset.mul_sum, ← Finset.sum_add_distrib]
  refine Finset.sum_congr rfl fun f _ => ?_
  have h1 : ∀ j, (((respread A α ρ s).R f j)⁻¹ * cong (A f) (XX f j)).trace.re + Real.log ‖((respread A α ρ s).R f j).det‖
      = (((s.R f j)⁻¹ * XX f j).trace.re + Real.log ‖(s.R f j).det‖) + 2 * Real.log ‖(A f).det‖ := by
    intro j
    have hd : ‖(A f).det‖ ≠ 0 := norm_ne_zero_iff.mpr (hA f).ne_zero
    have hr : ‖(s.R f j).det‖ ≠ 0 := norm_ne_zero_iff.mpr (Tr.isUnit_det (hR f j)).ne_zero
    rw [R_respread hα hρ, cong_inv_mul (hA f), trace_sim (isUnit_conj (hA f)), cong, det_mul, det_mul, det_conjTranspose,
      norm_mul, norm_mul, norm_star, Real.log_mul (mul_ne_zero hd hr) hd, Real.log_mul hd hr]
    ring
  have ht' : (t : ℝ) ≠ 0 := by exact_mod_cast ht.ne'
  simp only [h1, meanT, Finset.sum_add_distrib, Finset.sum_const, Finset.card_univ, Fintype.card_fin, nsmul_eq_mul]
  field_simp

end

end Verif.MnmfMix
