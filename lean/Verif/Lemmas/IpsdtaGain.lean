import Verif.Props.IpsdtaCall
import Verif.Props.EigFree
import Verif.Props.Level
import Verif.Lemmas.MnmfMix

/-!
How the quantities of IPSDTA (`ssspy/bss/ipsdta.py`) change if every bin of the recording is multiplied by a number and
the scales are exchanged between bases and activations. Used by `Verif/Props/IpsdtaGain.lean`.
-/

set_option linter.unusedSectionVars false

namespace Verif.IpsdtaGain
open Matrix Spatial Scale Ipsdta
open MnmfMix (cong cong_smul cong_sum cong_cong cong_one cong_inv cong_posDef isUnit_conj trace_sim)
open scoped ComplexOrder

section generic
variable {ι : Type} [Fintype ι] {sz : ι → ℕ} {n t K : ℕ}

/-- The bases of the recording with the gains `d`: `ρ D T D^H`. -/
noncomputable def resT (d : (β : ι) → Fin (sz β) → ℂ) (ρ : Fin n → Fin K → ℝ) (T : Fin n → Fin K → (β : ι) → Mat (sz β) ℂ)
    (k : Fin n) (b : Fin K) (β : ι) : Mat (sz β) ℂ := (ρ k b : ℂ) • cong (diagonal (d β)) (T k b β)

/-- The activations divided by `ρ`. -/
noncomputable def resV (ρ : Fin n → Fin K → ℝ) (V : Fin n → Fin K → Fin t → ℝ) (k : Fin n) (b : Fin K) (j : Fin t) : ℝ :=
  V k b j / ρ k b

variable {d : (β : ι) → Fin (sz β) → ℂ} (hd : ∀ β i, d β i ≠ 0) {ρ : Fin n → Fin K → ℝ} (hρ : ∀ k b, 0 < ρ k b)

include hd in
theorem unit_d (β : ι) : IsUnit (diagonal (d β) : Mat (sz β) ℂ).det := by
  rw [det_diagonal, isUnit_iff_ne_zero]
  exact Finset.prod_ne_zero_iff.mpr fun i _ => hd β i

include hρ in
theorem raw_res (T : Fin n → Fin K → (β : ι) → Mat (sz β) ℂ) (V : Fin n → Fin K → Fin t → ℝ) (k : Fin n) (j : Fin t) (β : ι) :
    raw (resT d ρ T) (resV ρ V) k j β = cong (diagonal (d β)) (raw T V k j β) := by
  simp only [raw, resT, resV, cong_sum, cong_smul, smul_smul]
  refine Finset.sum_congr rfl fun b _ => ?_
  congr 1
  have : (ρ k b : ℂ) ≠ 0 := by exact_mod_cast (hρ k b).ne'
  push_cast
  field_simp

theorem yy_res (Y Y' : (β : ι) → Fin (sz β) → Matrix (Fin n) (Fin t) ℂ) (h : ∀ β i, Y' β i = d β i • Y β i) (k : Fin n)
    (j : Fin t) (β : ι) : yy Y' k j β = cong (diagonal (d β)) (yy Y k j β) := by
  ext a b
  simp only [yy, of_apply, h, cong, diagonal_conjTranspose, mul_diagonal, diagonal_mul, Matrix.smul_apply, smul_eq_mul,
    star_mul', Pi.star_apply]
  ring

include hd in
/-- `D⁻ᴴ A D⁻¹ · D B Dᴴ` is similar to `A B`. -/
theorem cancel (β : ι) (A B : Mat (sz β) ℂ) :
    cong ((diagonal (d β))ᴴ)⁻¹ A * cong (diagonal (d β)) B = ((diagonal (d β))ᴴ)⁻¹ * (A * B) * (diagonal (d β))ᴴ := by
  rw [cong, cong, conjTranspose_nonsing_inv, conjTranspose_conjTranspose]
  simp only [Matrix.mul_assoc]
  rw [nonsing_inv_mul_cancel_left _ _ (unit_d hd β)]

include hd in
theorem cancel' (β : ι) (A B : Mat (sz β) ℂ) :
    cong (diagonal (d β)) A * cong ((diagonal (d β))ᴴ)⁻¹ B = diagonal (d β) * (A * B) * (diagonal (d β))⁻¹ := by
  rw [cong, cong, conjTranspose_nonsing_inv, conjTranspose_conjTranspose]
  simp only [Matrix.mul_assoc]
  rw [mul_nonsing_inv_cancel_left _ _ (isUnit_conj (unit_d hd β))]

include hd in
theorem sandwich (β : ι) (A B C : Mat (sz β) ℂ) :
    cong (diagonal (d β)) A * cong ((diagonal (d β))ᴴ)⁻¹ B * cong (diagonal (d β)) C
      = cong (diagonal (d β)) (A * B * C) := by
  rw [cancel' hd, cong, cong]
  simp only [Matrix.mul_assoc]
  rw [nonsing_inv_mul_cancel_left _ _ (unit_d hd β)]

include hd in
theorem sandwich' (β : ι) (A B C : Mat (sz β) ℂ) :
    cong ((diagonal (d β))ᴴ)⁻¹ A * cong (diagonal (d β)) B * cong ((diagonal (d β))ᴴ)⁻¹ C
      = cong ((diagonal (d β))ᴴ)⁻¹ (A * B * C) := by
  rw [cancel hd, cong, cong]
  simp only [Matrix.mul_assoc]
  rw [mul_nonsing_inv_cancel_left _ _ (isUnit_conj (unit_d hd β))]

section
variable {X X' : (β : ι) → Fin (sz β) → Matrix (Fin n) (Fin t) ℂ} (hX : ∀ β i, X' β i = d β i • X β i)
  {T : Fin n → Fin K → (β : ι) → Mat (sz β) ℂ} {V : Fin n → Fin K → Fin t → ℝ}

include hρ in
theorem inv_res (k : Fin n) (j : Fin t) (β : ι) :
    (raw (resT d ρ T) (resV ρ V) k j β)⁻¹ = cong ((diagonal (d β))ᴴ)⁻¹ (raw T V k j β)⁻¹ := by
  rw [raw_res hρ, cong_inv]

include hX in
theorem out_res (W : (β : ι) → Fin (sz β) → Mat n ℂ) (β : ι) (i : Fin (sz β)) : W β i * X' β i = d β i • (W β i * X β i) := by
  rw [hX, Matrix.mul_smul]

include hd hρ hX in
theorem qv_res (W : (β : ι) → Fin (sz β) → Mat n ℂ) : qv X' W (resT d ρ T) (resV ρ V) = qv X W T V := by
  funext k j
  refine Finset.sum_congr rfl fun β _ => ?_
  rw [inv_res hρ, yy_res (d := d) (fun β i => W β i * X β i) _ (out_res hX W), cancel hd,
    trace_sim (isUnit_conj (unit_d hd β))]

include hρ in
theorem matP_res (k : Fin n) (b : Fin K) (β : ι) :
    matP (fun k j β => (raw (resT d ρ T) (resV ρ V) k j β)⁻¹) (resV ρ V) k b β
      = ((ρ k b)⁻¹ : ℂ) • cong ((diagonal (d β))ᴴ)⁻¹ (matP (fun k j β => (raw T V k j β)⁻¹) V k b β) := by
  simp only [matP, inv_res hρ, cong_smul, cong_sum, Finset.smul_sum, smul_smul, resV]
  refine Finset.sum_congr rfl fun j _ => ?_
  congr 1
  push_cast
  ring

include hd hρ in
theorem matQ_res {Y Y' : (β : ι) → Fin (sz β) → Matrix (Fin n) (Fin t) ℂ} (hY : ∀ β i, Y' β i = d β i • Y β i)
    (w : Fin n → Fin t → ℝ) (k : Fin n) (b : Fin K) (β : ι) :
    matQ (fun k j β => (raw (resT d ρ T) (resV ρ V) k j β)⁻¹) w Y' (resV ρ V) k b β
      = ((ρ k b)⁻¹ : ℂ) • cong ((diagonal (d β))ᴴ)⁻¹ (matQ (fun k j β => (raw T V k j β)⁻¹) w Y V k b β) := by
  simp only [matQ, inv_res hρ, yy_res Y Y' hY, sandwich' hd, cong_smul, cong_sum, Finset.smul_sum, smul_smul, resV]
  refine Finset.sum_congr rfl fun j _ => ?_
  congr 1
  push_cast
  ring

include hd hρ in
theorem tqt_res {Y Y' : (β : ι) → Fin (sz β) → Matrix (Fin n) (Fin t) ℂ} (hY : ∀ β i, Y' β i = d β i • Y β i)
    (w : Fin n → Fin t → ℝ) (k : Fin n) (b : Fin K) (β : ι) :
    resT d ρ T k b β * matQ (fun k j β => (raw (resT d ρ T) (resV ρ V) k j β)⁻¹) w Y' (resV ρ V) k b β * resT d ρ T k b β
      = (ρ k b : ℂ) • cong (diagonal (d β)) (T k b β * matQ (fun k j β => (raw T V k j β)⁻¹) w Y V k b β * T k b β) := by
  have : (ρ k b : ℂ) ≠ 0 := by exact_mod_cast (hρ k b).ne'
  rw [matQ_res hd hρ hY]
  simp only [resT, Matrix.smul_mul, Matrix.mul_smul, sandwich hd, smul_smul]
  congr 1
  field_simp

include hd hρ in
theorem resT_posDef (h : ∀ k b β, (T k b β).PosDef) (k : Fin n) (b : Fin K) (β : ι) : (resT d ρ T k b β).PosDef :=
  Tr.smul_posDef (cong_posDef (unit_d hd β) (h k b β)) (hρ k b)

include hd hρ in
theorem pos_res (h : Pos T V) : Pos (resT d ρ T) (resV ρ V) :=
  ⟨resT_posDef hd hρ h.1, fun k b j => div_pos (h.2 k b j) (hρ k b)⟩

/-- The new bases solve a Riccati equation with one positive definite solution. -/
theorem basis_res [Nonempty (Fin K)] [Nonempty (Fin t)]
    (hd : ∀ β i, d β i ≠ 0) (hρ : ∀ k b, 0 < ρ k b) {Y Y' : (β : ι) → Fin (sz β) → Matrix (Fin n) (Fin t) ℂ}
    (hY : ∀ β i, Y' β i = d β i • Y β i) {w : Fin n → Fin t → ℝ} (h : Pos T V) {G G' : Fin n → Fin K → (β : ι) → Mat (sz β) ℂ}
    (hG : ∀ k b β, (G k b β).PosDef) (hG' : ∀ k b β, (G' k b β).PosDef)
    (e : ∀ k b β, G k b β * matP (fun k j β => (raw T V k j β)⁻¹) V k b β * G k b β
      = T k b β * matQ (fun k j β => (raw T V k j β)⁻¹) w Y V k b β * T k b β)
    (e' : ∀ k b β, G' k b β * matP (fun k j β => (raw (resT d ρ T) (resV ρ V) k j β)⁻¹) (resV ρ V) k b β * G' k b β
      = resT d ρ T k b β * matQ (fun k j β => (raw (resT d ρ T) (resV ρ V) k j β)⁻¹) w Y' (resV ρ V) k b β
        * resT d ρ T k b β) : G' = resT d ρ G := by
  funext k b β
  refine EigFree.riccati_unique (matP_posDef (pos_res hd hρ h) k b β) (hG' k b β) (resT_posDef hd hρ hG k b β) ?_
  rw [e', tqt_res hd hρ hY, ← e, matP_res hρ]
  have : (ρ k b : ℂ) ≠ 0 := by exact_mod_cast (hρ k b).ne'
  simp only [resT, Matrix.smul_mul, Matrix.mul_smul, sandwich hd, smul_smul]
  congr 1
  field_simp

/-- The activations an update computes, with nothing floored. -/
noncomputable def newV (w : Fin n → Fin t → ℝ) (Y : (β : ι) → Fin (sz β) → Matrix (Fin n) (Fin t) ℂ)
    (T : Fin n → Fin K → (β : ι) → Mat (sz β) ℂ) (V : Fin n → Fin K → Fin t → ℝ) (k : Fin n) (b : Fin K) (j : Fin t) : ℝ :=
  V k b j * Real.sqrt ((∑ β, (((w k j : ℂ) • ((raw T V k j β)⁻¹ * yy Y k j β * (raw T V k j β)⁻¹)) * T k b β).trace.re)
    / ∑ β, ((raw T V k j β)⁻¹ * T k b β).trace.re)

theorem activationMM_eq [Nonempty (Fin K)] {np : Numpy ℂ} (h : Pos T V) (hc : CovFixed np T V) (w : Fin n → Fin t → ℝ)
    (Y : (β : ι) → Fin (sz β) → Matrix (Fin n) (Fin t) ℂ) : activationMM np w Y T V = .ok (newV w Y T V) := by
  simp only [activationMM, covInv_eq h hc, bind, Except.bind]
  rfl

include hd hρ in
theorem newV_res {Y Y' : (β : ι) → Fin (sz β) → Matrix (Fin n) (Fin t) ℂ} (hY : ∀ β i, Y' β i = d β i • Y β i)
    (w : Fin n → Fin t → ℝ) : newV w Y' (resT d ρ T) (resV ρ V) = resV ρ (newV w Y T V) := by
  funext k b j
  have e1 : ∀ β, (((w k j : ℂ) • ((raw (resT d ρ T) (resV ρ V) k j β)⁻¹ * yy Y' k j β
      * (raw (resT d ρ T) (resV ρ V) k j β)⁻¹)) * resT d ρ T k b β).trace.re
      = ρ k b * (((w k j : ℂ) • ((raw T V k j β)⁻¹ * yy Y k j β * (raw T V k j β)⁻¹)) * T k b β).trace.re := by
    intro β
    rw [inv_res hρ, yy_res Y Y' hY, sandwich' hd, resT, Matrix.mul_smul, Matrix.smul_mul, Matrix.smul_mul, cancel hd, trace_smul,
      trace_smul, trace_sim (isUnit_conj (unit_d hd β)), trace_smul, smul_eq_mul, Complex.re_ofReal_mul]
  have e2 : ∀ β, ((raw (resT d ρ T) (resV ρ V) k j β)⁻¹ * resT d ρ T k b β).trace.re
      = ρ k b * ((raw T V k j β)⁻¹ * T k b β).trace.re := by
    intro β
    rw [inv_res hρ, resT, Matrix.mul_smul, cancel hd, trace_smul, trace_sim (isUnit_conj (unit_d hd β)), smul_eq_mul,
      Complex.re_ofReal_mul]
  simp only [newV, resV, e1, e2, ← Finset.mul_sum]
  rw [mul_div_mul_left _ _ (hρ k b).ne']
  ring

include hd hρ hX in
theorem rxx_res (w : Fin n → Fin t → ℝ) :
    rxx w (fun k j β => (raw (resT d ρ T) (resV ρ V) k j β)⁻¹) X' = rxx w (fun k j β => (raw T V k j β)⁻¹) X := by
  funext β i i' k
  ext c c'
  simp only [rxx, of_apply, meanT]
  congr 1
  refine Finset.sum_congr rfl fun j _ => ?_
  have e : (diagonal (d β))ᴴ⁻¹ = (diagonal fun i => (star (d β i))⁻¹ : Mat (sz β) ℂ) := by
    refine inv_eq_right_inv ?_
    rw [diagonal_conjTranspose, diagonal_mul_diagonal, ← diagonal_one]
    congr 1
    funext i
    exact mul_inv_cancel₀ (star_ne_zero.mpr (hd β i))
  have h1 := hd β i
  have h2 : star (d β i') ≠ 0 := star_ne_zero.mpr (hd β i')
  rw [inv_res hρ, e, cong, diagonal_conjTranspose, mul_diagonal, diagonal_mul, hX, hX]
  simp only [Pi.star_apply, star_inv₀, star_star, Matrix.smul_apply, smul_eq_mul, star_mul']
  field_simp

end

theorem resT_resT (d' : (β : ι) → Fin (sz β) → ℂ) (ρ' : Fin n → Fin K → ℝ) (T : Fin n → Fin K → (β : ι) → Mat (sz β) ℂ) :
    resT d' ρ' (resT d ρ T) = resT (fun β i => d' β i * d β i) (fun k b => ρ' k b * ρ k b) T := by
  funext k b β
  simp only [resT, cong_smul, cong_cong, diagonal_mul_diagonal, smul_smul, Complex.ofReal_mul]

theorem resV_resV (ρ' : Fin n → Fin K → ℝ) (V : Fin n → Fin K → Fin t → ℝ) :
    resV ρ' (resV ρ V) = resV (fun k b => ρ' k b * ρ k b) V := by
  funext k b j
  simp only [resV]
  rw [div_div, mul_comm]

theorem resT_one (T : Fin n → Fin K → (β : ι) → Mat (sz β) ℂ) : resT (fun _ _ => 1) (fun _ _ => 1) T = T := by
  funext k b β
  have : (diagonal fun _ => 1 : Mat (sz β) ℂ) = 1 := diagonal_one
  simp only [resT, this, cong_one, Complex.ofReal_one, one_smul]

theorem resV_one (V : Fin n → Fin K → Fin t → ℝ) : resV (fun _ _ => 1) V = V := by
  funext k b j
  simp only [resV, div_one]

theorem basisTrace_pos (hsz : ∃ β, 0 < sz β) {T : Fin n → Fin K → (β : ι) → Mat (sz β) ℂ} (h : ∀ k b β, (T k b β).PosDef)
    (k : Fin n) (b : Fin K) : 0 < basisTrace T k b := by
  obtain ⟨β₀, h0⟩ := hsz
  have : Nonempty (Fin (sz β₀)) := ⟨⟨0, h0⟩⟩
  exact Finset.sum_pos' (fun β _ => (Complex.le_def.mp (h k b β).posSemidef.trace_nonneg).1)
    ⟨β₀, Finset.mem_univ _, (Complex.lt_def.mp (h k b β₀).trace_pos).1⟩

/-- Normalising exchanges scales between bases and activations. -/
theorem norm_res (hsz : ∃ β, 0 < sz β) (normalization : Bool) {T : Fin n → Fin K → (β : ι) → Mat (sz β) ℂ}
    (h : ∀ k b β, (T k b β).PosDef) (V : Fin n → Fin K → Fin t → ℝ) :
    ∃ ρ : Fin n → Fin K → ℝ, (∀ k b, 0 < ρ k b) ∧
      (if normalization then Ipsdta.normalize T V else (T, V)) = (resT (fun _ _ => 1) ρ T, resV ρ V) := by
  cases normalization with
  | false => exact ⟨fun _ _ => 1, fun _ _ => one_pos, by simp only [resT_one, resV_one]; rfl⟩
  | true =>
    refine ⟨fun k b => (basisTrace T k b)⁻¹, fun k b => inv_pos.mpr (basisTrace_pos hsz h k b), ?_⟩
    simp only [if_true, Ipsdta.normalize, Prod.mk.injEq]
    refine ⟨?_, ?_⟩
    · funext k b β
      have : (diagonal fun _ => 1 : Mat (sz β) ℂ) = 1 := diagonal_one
      simp only [resT, this, cong_one, Complex.ofReal_inv]
    · funext k b j
      simp only [resV, div_inv_eq_mul]

/-- Two ways of normalising bases that agree up to gains and scales. -/
theorem norm_rel (hsz : ∃ β, 0 < sz β) (hd : ∀ β i, d β i ≠ 0) (hρ : ∀ k b, 0 < ρ k b) (norm norm' : Bool)
    {T : Fin n → Fin K → (β : ι) → Mat (sz β) ℂ} (h : ∀ k b β, (T k b β).PosDef) (V : Fin n → Fin K → Fin t → ℝ) :
    ∃ ρ' : Fin n → Fin K → ℝ, (∀ k b, 0 < ρ' k b) ∧
      (if norm' then Ipsdta.normalize (resT d ρ T) (resV ρ V) else (resT d ρ T, resV ρ V))
        = (resT d ρ' (if norm then Ipsdta.normalize T V else (T, V)).1, resV ρ' (if norm then Ipsdta.normalize T V else (T, V)).2) := by
  obtain ⟨ρ₁, h1, e1⟩ := norm_res hsz norm h V
  obtain ⟨ρ₂, h2, e2⟩ := norm_res hsz norm' (resT_posDef hd hρ h) (resV ρ V)
  refine ⟨fun k b => ρ₂ k b * ρ k b / ρ₁ k b, fun k b => div_pos (mul_pos (h2 k b) (hρ k b)) (h1 k b), ?_⟩
  have e : ∀ k b, ρ₂ k b * ρ k b / ρ₁ k b * ρ₁ k b = ρ₂ k b * ρ k b := fun k b => div_mul_cancel₀ _ (h1 k b).ne'
  rw [e1, e2]
  simp only [resT_resT, resV_resV, one_mul, mul_one, e]

theorem ld_res (hd : ∀ β i, d β i ≠ 0) (hρ : ∀ k b, 0 < ρ k b) [Nonempty (Fin K)] {T : Fin n → Fin K → (β : ι) → Mat (sz β) ℂ}
    {V : Fin n → Fin K → Fin t → ℝ} (h : Pos T V) (k : Fin n) (j : Fin t) :
    ld (resT d ρ T) (resV ρ V) k j = ld T V k j + 2 * ∑ β, ∑ i, Real.log ‖d β i‖ := by
  simp only [ld]
  rw [Finset.mul_sum, ← Finset.sum_add_distrib]
  refine Finset.sum_congr rfl fun β _ => ?_
  have h0 : ‖(raw T V k j β).det‖ ≠ 0 := norm_ne_zero_iff.mpr (raw_posDef h k j β).det_pos.ne'
  have h1 : ‖(diagonal (d β) : Mat (sz β) ℂ).det‖ ≠ 0 := norm_ne_zero_iff.mpr (unit_d hd β).ne_zero
  have h2 : ‖((diagonal (d β) : Mat (sz β) ℂ)ᴴ).det‖ = ‖(diagonal (d β) : Mat (sz β) ℂ).det‖ := by
    rw [det_conjTranspose, norm_star]
  have h3 : Real.log ‖(diagonal (d β) : Mat (sz β) ℂ).det‖ = ∑ i, Real.log ‖d β i‖ := by
    rw [det_diagonal, norm_prod, Real.log_prod fun i _ => norm_ne_zero_iff.mpr (hd β i)]
  rw [raw_res hρ, cong, det_mul, det_mul, norm_mul, norm_mul, h2, Real.log_mul (mul_ne_zero h1 h0) h1, Real.log_mul h1 h0, h3]
  ring

end generic

end Verif.IpsdtaGain
