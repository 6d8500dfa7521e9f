import Mathlib.Analysis.Complex.ExponentialBounds
import Verif.Model.MnmfPart
import Verif.Model.Run
import Verif.Props.MnmfFull

/-! # C78: GaussMNMF with partitioning -/

set_option linter.unusedSectionVars false

namespace Verif.Mnmf

open Matrix Spatial Scale Ilrma Special Linalg
open scoped ComplexOrder

variable {F : Type} [Fintype F] {n m t K : ℕ}

/-- Positive parameters and positive definite spatial covariances. -/
def PPos (s : MStP F n m t K) : Prop :=
  (∀ k b, 0 < s.Z k b) ∧ (∀ f b, 0 < s.T f b) ∧ (∀ b j, 0 < s.V b j) ∧ ∀ k f, (s.H k f).PosDef

/-- The flooring inside `to_psd` leaves the modelled covariances alone. -/
def PInv (np : Numpy ℂ) (floor : ℝ → ℝ) (s : MStP F n m t K) : Prop :=
  PPos s ∧ ∀ f j, toPsd np floor (s.R f j) = s.R f j

/-- A partitioned model written as one without partitioning. -/
def MStP.flat (s : MStP F n m t K) : MSt F n m t K := ⟨fun k f b => s.Z k b * s.T f b, fun _ b j => s.V b j, s.H⟩

/-- `compute_loss` with partitioning. -/
noncomputable def lossP (np : Numpy ℂ) (floor : ℝ → ℝ) (XX : F → Fin t → Mat m ℂ) (s : MStP F n m t K) :
    Except PyErr ℝ := fullLoss np floor XX (reconP s.Z s.T s.V) s.H

/-- The number `compute_loss` returns. -/
noncomputable def valP (XX : F → Fin t → Mat m ℂ) (s : MStP F n m t K) : ℝ :=
  ∑ f, meanT fun j => ((s.R f j)⁻¹ * XX f j).trace.re + Real.log ‖(s.R f j).det‖

theorem flat_recon (s : MStP F n m t K) : recon s.flat.T s.flat.V = reconP s.Z s.T s.V := by
  funext k f j
  simp only [recon, reconP, MStP.flat, mul_assoc]

theorem flat_R (s : MStP F n m t K) (f : F) (j : Fin t) : s.flat.R f j = s.R f j := by
  simp only [MSt.R, MStP.R, flat_recon]
  rfl

theorem flat_pos {s : MStP F n m t K} (hs : PPos s) : MPos s.flat :=
  ⟨fun k f b => mul_pos (hs.1 k b) (hs.2.1 f b), fun _ b j => hs.2.2.1 b j, hs.2.2.2⟩

theorem flat_val (XX : F → Fin t → Mat m ℂ) (s : MStP F n m t K) : fullVal XX s.flat = valP XX s := by
  simp only [fullVal, valP, flat_R]

theorem flat_inv {np : Numpy ℂ} {floor : ℝ → ℝ} {s : MStP F n m t K} (hs : PInv np floor s) : MInv np floor s.flat :=
  ⟨flat_pos hs.1, fun f j => by rw [flat_R]; exact hs.2 f j⟩

section

variable [Nonempty (Fin K)] [Nonempty (Fin n)]

theorem RP_posDef {s : MStP F n m t K} (hs : PPos s) (f : F) (j : Fin t) : (s.R f j).PosDef := by
  rw [← flat_R]
  exact R_posDef (flat_pos hs) f j

theorem lossP_eq {np : Numpy ℂ} {floor : ℝ → ℝ} (XX : F → Fin t → Mat m ℂ) {s : MStP F n m t K}
    (hs : PInv np floor s) : lossP np floor XX s = .ok (valP XX s) := by
  have := fullLoss_eq XX (flat_inv hs)
  rwa [flat_recon, flat_val] at this

theorem tracesP_eq {np : Numpy ℂ} {floor : ℝ → ℝ} (XX : F → Fin t → Mat m ℂ) {s : MStP F n m t K}
    (hs : PInv np floor s) : traces (fun f j => toPsd np floor (s.R f j)) XX s.H
      = .ok (fun k f j => ((s.R f j)⁻¹ * XX f j * ((s.R f j)⁻¹ * s.H k f)).trace.re,
        fun k f j => ((s.R f j)⁻¹ * s.H k f).trace.re) := by
  have h := traces_eq XX (flat_pos hs.1)
  have e : s.flat.R = s.R := funext fun f => funext fun j => flat_R s f j
  simp only [hs.2]
  rwa [e] at h

end

/-- The updated basis before flooring. -/
noncomputable def basisRawPM (XX : F → Fin t → Mat m ℂ) (s : MStP F n m t K) (f : F) (b : Fin K) : ℝ :=
  s.T f b * Real.sqrt
    ((∑ k, s.Z k b * ∑ j, s.V b j * ((s.R f j)⁻¹ * XX f j * ((s.R f j)⁻¹ * s.H k f)).trace.re)
      / ∑ k, s.Z k b * ∑ j, s.V b j * ((s.R f j)⁻¹ * s.H k f).trace.re)

/-- The updated activation before flooring. -/
noncomputable def activationRawPM (XX : F → Fin t → Mat m ℂ) (s : MStP F n m t K) (b : Fin K) (j : Fin t) : ℝ :=
  s.V b j * Real.sqrt
    ((∑ k, s.Z k b * ∑ f, s.T f b * ((s.R f j)⁻¹ * XX f j * ((s.R f j)⁻¹ * s.H k f)).trace.re)
      / ∑ k, s.Z k b * ∑ f, s.T f b * ((s.R f j)⁻¹ * s.H k f).trace.re)

/-- The updated latent variables before they are divided by their sums. -/
noncomputable def latentRawPM (XX : F → Fin t → Mat m ℂ) (s : MStP F n m t K) (k : Fin n) (b : Fin K) : ℝ :=
  s.Z k b * Real.sqrt
    ((∑ f, s.T f b * ∑ j, s.V b j * ((s.R f j)⁻¹ * XX f j * ((s.R f j)⁻¹ * s.H k f)).trace.re)
      / ∑ f, s.T f b * ∑ j, s.V b j * ((s.R f j)⁻¹ * s.H k f).trace.re)

section

variable [Nonempty (Fin K)] [Nonempty (Fin n)] [Nonempty (Fin m)] [Nonempty (Fin t)] [Nonempty F]

theorem valP_le {XX : F → Fin t → Mat m ℂ} {s s' : MStP F n m t K}
    (h : ∑ f, ∑ j, (((s'.R f j)⁻¹ * XX f j).trace.re + Real.log ‖(s'.R f j).det‖)
      ≤ ∑ f, ∑ j, (((s.R f j)⁻¹ * XX f j).trace.re + Real.log ‖(s.R f j).det‖)) : valP XX s' ≤ valP XX s := by
  simp only [valP, meanT, ← Finset.sum_div]
  exact div_le_div_of_nonneg_right h (by positivity)

theorem RP_basis (Z : Fin n → Fin K → ℝ) (T : F → Fin K → ℝ) (V : Fin K → Fin t → ℝ) (H : Fin n → F → Mat m ℂ) (f : F)
    (j : Fin t) : (⟨Z, T, V, H⟩ : MStP F n m t K).R f j
      = ∑ b, (T f b : ℂ) • ((V b j : ℂ) • ∑ k, (Z k b : ℂ) • H k f) := by
  simp only [MStP.R, fullR, fullRn, reconP, Finset.smul_sum, smul_smul]
  rw [Finset.sum_comm]
  refine Finset.sum_congr rfl fun k _ => ?_
  rw [← Finset.sum_smul]
  push_cast
  congr 1
  exact Finset.sum_congr rfl fun b _ => by ring

theorem RP_activation (Z : Fin n → Fin K → ℝ) (T : F → Fin K → ℝ) (V : Fin K → Fin t → ℝ) (H : Fin n → F → Mat m ℂ)
    (f : F) (j : Fin t) : (⟨Z, T, V, H⟩ : MStP F n m t K).R f j
      = ∑ b, (V b j : ℂ) • ((T f b : ℂ) • ∑ k, (Z k b : ℂ) • H k f) := by
  rw [RP_basis]
  exact Finset.sum_congr rfl fun p _ => by rw [smul_comm]

theorem RP_latent (Z : Fin n → Fin K → ℝ) (T : F → Fin K → ℝ) (V : Fin K → Fin t → ℝ) (H : Fin n → F → Mat m ℂ) (f : F)
    (j : Fin t) : (⟨Z, T, V, H⟩ : MStP F n m t K).R f j
      = ∑ p : Fin n × Fin K, (Z p.1 p.2 : ℂ) • (((T f p.2 * V p.2 j : ℝ) : ℂ) • H p.1 f) := by
  simp only [MStP.R, fullR, fullRn, reconP, Fintype.sum_prod_type, smul_smul, ← Finset.sum_smul]
  push_cast
  rfl

theorem basisP_eq {np : Numpy ℂ} {floor : ℝ → ℝ} (XX : F → Fin t → Mat m ℂ) {s : MStP F n m t K}
    (hs : PInv np floor s) : fullUpdateBasisP np floor XX s
      = .ok ⟨s.Z, fun f b => floor (basisRawPM XX s f b), s.V, s.H⟩ := by
  simp only [fullUpdateBasisP, tracesP_eq XX hs]
  rfl

theorem activationP_eq {np : Numpy ℂ} {floor : ℝ → ℝ} (XX : F → Fin t → Mat m ℂ) {s : MStP F n m t K}
    (hs : PInv np floor s) : fullUpdateActivationP np floor XX s
      = .ok ⟨s.Z, s.T, fun b j => floor (activationRawPM XX s b j), s.H⟩ := by
  simp only [fullUpdateActivationP, tracesP_eq XX hs]
  rfl

theorem latentP_eq {np : Numpy ℂ} {floor : ℝ → ℝ} (XX : F → Fin t → Mat m ℂ) {s : MStP F n m t K}
    (hs : PInv np floor s) : fullUpdateLatent np floor XX s
      = .ok ⟨fun k b => latentRawPM XX s k b / ∑ k', latentRawPM XX s k' b, s.T, s.V, s.H⟩ := by
  simp only [fullUpdateLatent, tracesP_eq XX hs]
  rfl

/-- C78: `update_basis` does not increase the loss. -/
theorem C78_basis (np : Numpy ℂ) (floor : ℝ → ℝ) (XX : F → Fin t → Mat m ℂ) (hXX : ∀ f j, (XX f j).PosSemidef)
    (s : MStP F n m t K) (hs : PInv np floor s) (hfl : ∀ f b, FloorMild floor (s.T f b) (basisRawPM XX s f b)) :
    ∃ s', fullUpdateBasisP np floor XX s = .ok s' ∧ PPos s' ∧ s'.Z = s.Z ∧ s'.V = s.V ∧ s'.H = s.H ∧
      valP XX s' ≤ valP XX s := by
  refine ⟨⟨s.Z, fun f b => floor (basisRawPM XX s f b), s.V, s.H⟩, ?_,
    ⟨hs.1.1, fun f b => (hfl f b).1, hs.1.2.2⟩, rfl, rfl, rfl, valP_le (Finset.sum_le_sum fun f _ => ?_)⟩
  · exact basisP_eq XX hs
  · have hG : ∀ b, (∑ k, (s.Z k b : ℂ) • s.H k f).PosDef := fun b =>
      Tr.sum_posDef fun k => Tr.smul_posDef (hs.1.2.2.2 k f) (hs.1.1 k b)
    simp only [RP_basis]
    refine Tr.slice_le (fun j b => (s.V b j : ℂ) • ∑ k, (s.Z k b : ℂ) • s.H k f)
      (fun j b => Tr.smul_posDef (hG b) (hs.1.2.2.1 b j)) (XX f) (hXX f) (s.T f)
      (fun b => floor (basisRawPM XX s f b)) (hs.1.2.1 f) (fun b => (hfl f b).1)
      (s.R f) (fun j => RP_basis s.Z s.T s.V s.H f j) _ _ (fun p => rfl) (fun p => rfl) fun b => ?_
    have e : basisRawPM XX s f b = s.T f b * Real.sqrt (
        (∑ j, ((s.R f j)⁻¹ * XX f j * ((s.R f j)⁻¹ * ((s.V b j : ℂ) • ∑ k, (s.Z k b : ℂ) • s.H k f))).trace.re)
        / ∑ j, ((s.R f j)⁻¹ * ((s.V b j : ℂ) • ∑ k, (s.Z k b : ℂ) • s.H k f)).trace.re) := by
      simp only [basisRawPM, mul_smul_comm, trace_sum, trace_smul, smul_eq_mul, Complex.re_ofReal_mul,
        Complex.re_sum, Finset.mul_sum]
      congr 3
      · rw [Finset.sum_comm]
        exact Finset.sum_congr rfl fun j _ => Finset.sum_congr rfl fun k _ => by ring
      · rw [Finset.sum_comm]
        exact Finset.sum_congr rfl fun j _ => Finset.sum_congr rfl fun k _ => by ring
    rw [← e]
    exact (hfl f b).2

/-- C78: `update_activation` does not increase the loss. -/
theorem C78_activation (np : Numpy ℂ) (floor : ℝ → ℝ) (XX : F → Fin t → Mat m ℂ)
    (hXX : ∀ f j, (XX f j).PosSemidef) (s : MStP F n m t K) (hs : PInv np floor s)
    (hfl : ∀ b j, FloorMild floor (s.V b j) (activationRawPM XX s b j)) :
    ∃ s', fullUpdateActivationP np floor XX s = .ok s' ∧ PPos s' ∧ s'.Z = s.Z ∧ s'.T = s.T ∧ s'.H = s.H ∧
      valP XX s' ≤ valP XX s := by
  refine ⟨⟨s.Z, s.T, fun b j => floor (activationRawPM XX s b j), s.H⟩, ?_,
    ⟨hs.1.1, hs.1.2.1, fun b j => (hfl b j).1, hs.1.2.2.2⟩, rfl, rfl, rfl, valP_le ?_⟩
  · exact activationP_eq XX hs
  · rw [Finset.sum_comm, Finset.sum_comm (s := Finset.univ (α := F))]
    refine Finset.sum_le_sum fun j _ => ?_
    have hG : ∀ f b, (∑ k, (s.Z k b : ℂ) • s.H k f).PosDef := fun f b =>
      Tr.sum_posDef fun k => Tr.smul_posDef (hs.1.2.2.2 k f) (hs.1.1 k b)
    simp only [RP_activation]
    refine Tr.slice_le (fun f b => (s.T f b : ℂ) • ∑ k, (s.Z k b : ℂ) • s.H k f)
      (fun f b => Tr.smul_posDef (hG f b) (hs.1.2.1 f b)) (fun f => XX f j) (fun f => hXX f j) (fun b => s.V b j)
      (fun b => floor (activationRawPM XX s b j)) (fun b => hs.1.2.2.1 b j) (fun b => (hfl b j).1)
      (fun f => s.R f j) (fun f => RP_activation s.Z s.T s.V s.H f j) _ _ (fun p => rfl) (fun p => rfl) fun b => ?_
    have e : activationRawPM XX s b j = s.V b j * Real.sqrt (
        (∑ f, ((s.R f j)⁻¹ * XX f j * ((s.R f j)⁻¹ * ((s.T f b : ℂ) • ∑ k, (s.Z k b : ℂ) • s.H k f))).trace.re)
        / ∑ f, ((s.R f j)⁻¹ * ((s.T f b : ℂ) • ∑ k, (s.Z k b : ℂ) • s.H k f)).trace.re) := by
      simp only [activationRawPM, mul_smul_comm, trace_sum, trace_smul, smul_eq_mul,
        Complex.re_ofReal_mul, Complex.re_sum, Finset.mul_sum]
      congr 3
      · rw [Finset.sum_comm]
        exact Finset.sum_congr rfl fun f _ => Finset.sum_congr rfl fun k _ => by ring
      · rw [Finset.sum_comm]
        exact Finset.sum_congr rfl fun f _ => Finset.sum_congr rfl fun k _ => by ring
    rw [← e]
    exact (hfl b j).2

end

/-- `P` of the spatial update. -/
noncomputable def matPP (s : MStP F n m t K) (k : Fin n) (f : F) : Mat m ℂ :=
  ∑ j, (reconP s.Z s.T s.V k f j : ℂ) • (s.R f j)⁻¹

/-- `HQH` of the spatial update. -/
noncomputable def matHQHP (XX : F → Fin t → Mat m ℂ) (s : MStP F n m t K) (k : Fin n) (f : F) : Mat m ℂ :=
  s.H k f * (∑ j, (reconP s.Z s.T s.V k f j : ℂ) • ((s.R f j)⁻¹ * XX f j * (s.R f j)⁻¹)) * s.H k f

theorem flat_matP (s : MStP F n m t K) (k : Fin n) (f : F) : matP s.flat k f = matPP s k f := by
  simp only [matP, matPP, flat_R, flat_recon]

theorem flat_matHQH (XX : F → Fin t → Mat m ℂ) (s : MStP F n m t K) (k : Fin n) (f : F) :
    matHQH XX s.flat k f = matHQHP XX s k f := by
  simp only [matHQH, matHQHP, flat_R, flat_recon]
  rfl

section

variable [Nonempty (Fin K)] [Nonempty (Fin n)] [Nonempty (Fin m)] [Nonempty (Fin t)] [Nonempty F]

/-- C78: `update_spatial` does not increase the loss. -/
theorem C78_spatial (np : Numpy ℂ) (floor : ℝ → ℝ) (XX : F → Fin t → Mat m ℂ)
    (hXX : ∀ f j, (XX f j).PosSemidef) (s : MStP F n m t K) (hs : PInv np floor s)
    (hP : ∀ k f, toPsd np floor (matPP s k f) = matPP s k f)
    (hQ : ∀ k f, toPsd np floor (matHQHP XX s k f) = matHQHP XX s k f) (hQp : ∀ k f, (matHQHP XX s k f).PosDef)
    (hH : ∀ k f G, gmeanmh np (matPP s k f) (matHQHP XX s k f) 2 = .ok G → toPsd np floor G = G) :
    ∃ H, fullUpdateSpatial np floor XX (reconP s.Z s.T s.V) s.H = .ok H ∧
      PPos (⟨s.Z, s.T, s.V, H⟩ : MStP F n m t K) ∧
      (∀ k f, H k f * matPP s k f * H k f = matHQHP XX s k f) ∧
      valP XX (⟨s.Z, s.T, s.V, H⟩ : MStP F n m t K) ≤ valP XX s := by
  have hP' : ∀ k f, toPsd np floor (matP s.flat k f) = matP s.flat k f := fun k f => by rw [flat_matP, hP]
  have hQ' : ∀ k f, toPsd np floor (matHQH XX s.flat k f) = matHQH XX s.flat k f := fun k f => by
    rw [flat_matHQH, hQ]
  have hQp' : ∀ k f, (matHQH XX s.flat k f).PosDef := fun k f => by rw [flat_matHQH]; exact hQp k f
  have hH' : ∀ k f G, gmeanmh np (matP s.flat k f) (matHQH XX s.flat k f) 2 = .ok G → toPsd np floor G = G :=
    fun k f G => by rw [flat_matP, flat_matHQH]; exact hH k f G
  obtain ⟨H, h1, h2, h3⟩ := full_spatial_step np floor XX hXX s.flat (flat_inv hs) hP' hQ' hQp' hH'
  obtain ⟨H', h1', -, h4⟩ := full_spatial_eq np floor XX s.flat (flat_inv hs) hP' hQ' hQp' hH'
  rw [h1] at h1'
  cases h1'
  simp only [flat_recon, flat_matP, flat_matHQH, flat_val] at h1 h3 h4
  refine ⟨H, h1, ⟨hs.1.1, hs.1.2.1, hs.1.2.2.1, h2.2.2⟩, h4, ?_⟩
  rw [← flat_val]
  exact h3

/-- C78: what `update_latent` does: it never increases the loss if every basis vector is multiplied by the sum by which
the latent variables have been divided, and the code does not do that. The new latent variables sum to one. -/
theorem C78_latent (np : Numpy ℂ) (floor : ℝ → ℝ) (XX : F → Fin t → Mat m ℂ) (hXX : ∀ f j, (XX f j).PosSemidef)
    (s : MStP F n m t K) (hs : PInv np floor s) (hpos : ∀ k b, 0 < latentRawPM XX s k b) :
    ∃ s', fullUpdateLatent np floor XX s = .ok s' ∧ PPos s' ∧ s'.T = s.T ∧ s'.V = s.V ∧ s'.H = s.H ∧
      (∀ b, ∑ k, s'.Z k b = 1) ∧
      ∃ c : Fin K → ℝ, (∀ b, 0 < c b) ∧ (∀ k b, c b * s'.Z k b = latentRawPM XX s k b) ∧
        valP XX { s' with T := fun f b => c b * s'.T f b } ≤ valP XX s := by
  have hc : ∀ b, 0 < ∑ k, latentRawPM XX s k b := fun b => Finset.sum_pos (fun k _ => hpos k b) Finset.univ_nonempty
  refine ⟨⟨fun k b => latentRawPM XX s k b / ∑ k', latentRawPM XX s k' b, s.T, s.V, s.H⟩, ?_,
    ⟨fun k b => div_pos (hpos k b) (hc b), hs.1.2⟩, rfl, rfl, rfl, fun b => ?_,
    fun b => ∑ k', latentRawPM XX s k' b, hc, fun k b => mul_div_cancel₀ _ (hc b).ne', ?_⟩
  · exact latentP_eq XX hs
  · simp only [← Finset.sum_div]
    exact div_self (hc b).ne'
  · have e : ∀ f j, (⟨fun k b => latentRawPM XX s k b / ∑ k', latentRawPM XX s k' b,
        fun f b => (∑ k', latentRawPM XX s k' b) * s.T f b, s.V, s.H⟩ : MStP F n m t K).R f j
        = (⟨latentRawPM XX s, s.T, s.V, s.H⟩ : MStP F n m t K).R f j := fun f j => by
      rw [RP_latent, RP_latent]
      refine Finset.sum_congr rfl fun p _ => ?_
      simp only [smul_smul, ← Complex.ofReal_mul]
      congr 2
      have := (hc p.2).ne'
      field_simp
    have e' : valP XX (⟨fun k b => latentRawPM XX s k b / ∑ k', latentRawPM XX s k' b,
        fun f b => (∑ k', latentRawPM XX s k' b) * s.T f b, s.V, s.H⟩ : MStP F n m t K)
        = valP XX (⟨latentRawPM XX s, s.T, s.V, s.H⟩ : MStP F n m t K) := by simp only [valP, e]
    refine e'.trans_le (valP_le ?_)
    simp only [← Fintype.sum_prod_type', RP_latent]
    have := Tr.slice_le (fun (i : F × Fin t) (p : Fin n × Fin K) => ((s.T i.1 p.2 * s.V p.2 i.2 : ℝ) : ℂ) • s.H p.1 i.1)
      (fun i p => Tr.smul_posDef (hs.1.2.2.2 p.1 i.1) (mul_pos (hs.1.2.1 _ _) (hs.1.2.2.1 _ _)))
      (fun i => XX i.1 i.2) (fun i => hXX i.1 i.2) (fun p => s.Z p.1 p.2) (fun p => latentRawPM XX s p.1 p.2)
      (fun p => hs.1.1 _ _) (fun p => hpos _ _) (fun i => s.R i.1 i.2) (fun i => RP_latent s.Z s.T s.V s.H i.1 i.2)
      _ _ (fun p => rfl) (fun p => rfl) fun p => .inl ?_
    · exact this
    · simp only [latentRawPM, mul_smul_comm, trace_smul, smul_eq_mul, Complex.re_ofReal_mul, Fintype.sum_prod_type,
        Finset.mul_sum, mul_assoc]

end

theorem pInv_id (np : Numpy ℂ) [Nonempty (Fin K)] [Nonempty (Fin n)] {s : MStP F n m t K}
    (hs : PPos s) : PInv np id s :=
  ⟨hs, fun f j => toPsd_id np (RP_posDef hs f j).1⟩

section

variable [Nonempty (Fin K)] [Nonempty (Fin n)] [Nonempty (Fin m)] [Nonempty (Fin t)] [Nonempty F]

private theorem num_pos {XX : F → Fin t → Mat m ℂ} (hXX : ∀ f j, (XX f j).PosDef) {s : MStP F n m t K} (hs : PPos s)
    (k : Fin n) (f : F) (j : Fin t) : 0 < ((s.R f j)⁻¹ * XX f j * ((s.R f j)⁻¹ * s.H k f)).trace.re :=
  trace_pos' (RP_posDef hs f j) (hXX f j).posSemidef
    (fun h => (Tr.isUnit_det (hXX f j)).ne_zero (by rw [h, det_zero])) (hs.2.2.2 k f)

private theorem denom_pos {s : MStP F n m t K} (hs : PPos s) (k : Fin n) (f : F) (j : Fin t) :
    0 < ((s.R f j)⁻¹ * s.H k f).trace.re := Tr.trace_mul_pos (RP_posDef hs f j).inv (hs.2.2.2 k f)

theorem basisRawPM_pos {XX : F → Fin t → Mat m ℂ} (hXX : ∀ f j, (XX f j).PosDef) {s : MStP F n m t K} (hs : PPos s)
    (f : F) (b : Fin K) : 0 < basisRawPM XX s f b :=
  mul_pos (hs.2.1 f b) (Real.sqrt_pos.mpr (div_pos
    (Finset.sum_pos (fun k _ => mul_pos (hs.1 k b) (Finset.sum_pos (fun j _ => mul_pos (hs.2.2.1 b j)
      (num_pos hXX hs k f j)) Finset.univ_nonempty)) Finset.univ_nonempty)
    (Finset.sum_pos (fun k _ => mul_pos (hs.1 k b) (Finset.sum_pos (fun j _ => mul_pos (hs.2.2.1 b j)
      (denom_pos hs k f j)) Finset.univ_nonempty)) Finset.univ_nonempty)))

theorem activationRawPM_pos {XX : F → Fin t → Mat m ℂ} (hXX : ∀ f j, (XX f j).PosDef) {s : MStP F n m t K}
    (hs : PPos s) (b : Fin K) (j : Fin t) : 0 < activationRawPM XX s b j :=
  mul_pos (hs.2.2.1 b j) (Real.sqrt_pos.mpr (div_pos
    (Finset.sum_pos (fun k _ => mul_pos (hs.1 k b) (Finset.sum_pos (fun f _ => mul_pos (hs.2.1 f b)
      (num_pos hXX hs k f j)) Finset.univ_nonempty)) Finset.univ_nonempty)
    (Finset.sum_pos (fun k _ => mul_pos (hs.1 k b) (Finset.sum_pos (fun f _ => mul_pos (hs.2.1 f b)
      (denom_pos hs k f j)) Finset.univ_nonempty)) Finset.univ_nonempty)))

theorem latentRawPM_pos {XX : F → Fin t → Mat m ℂ} (hXX : ∀ f j, (XX f j).PosDef) {s : MStP F n m t K} (hs : PPos s)
    (k : Fin n) (b : Fin K) : 0 < latentRawPM XX s k b :=
  mul_pos (hs.1 k b) (Real.sqrt_pos.mpr (div_pos
    (Finset.sum_pos (fun f _ => mul_pos (hs.2.1 f b) (Finset.sum_pos (fun j _ => mul_pos (hs.2.2.1 b j)
      (num_pos hXX hs k f j)) Finset.univ_nonempty)) Finset.univ_nonempty)
    (Finset.sum_pos (fun f _ => mul_pos (hs.2.1 f b) (Finset.sum_pos (fun j _ => mul_pos (hs.2.2.1 b j)
      (denom_pos hs k f j)) Finset.univ_nonempty)) Finset.univ_nonempty)))

private theorem spatial_id (np : Numpy ℂ) {XX : F → Fin t → Mat m ℂ} (hXX : ∀ f j, (XX f j).PosDef)
    {s : MStP F n m t K} (hs : PPos s) : ∃ H, fullUpdateSpatial np id XX (reconP s.Z s.T s.V) s.H = .ok H ∧
      PPos (⟨s.Z, s.T, s.V, H⟩ : MStP F n m t K) ∧ valP XX (⟨s.Z, s.T, s.V, H⟩ : MStP F n m t K) ≤ valP XX s := by
  have hP : ∀ k f, (matPP s k f).PosDef := fun k f => by
    rw [← flat_matP]
    exact matP_posDef (flat_pos hs) k f
  have hQ : ∀ k f, (matHQHP XX s k f).PosDef := fun k f => by
    rw [← flat_matHQH]
    exact matHQH_posDef (fun f j => (hXX f j).posSemidef) (flat_pos hs) (spans_of_posDef hXX (flat_pos hs)) k f
  obtain ⟨H, h1, h2, -, h4⟩ := C78_spatial np id XX (fun f j => (hXX f j).posSemidef) s (pInv_id np hs)
    (fun k f => toPsd_id np (hP k f).1) (fun k f => toPsd_id np (hQ k f).1) hQ fun k f G hG => toPsd_id np (by
      obtain ⟨G', e, hG', -⟩ := C17_gmeanmh np _ _ (hP k f) (hQ k f) 2 (Or.inr (Or.inl rfl))
      rw [hG] at e
      cases e
      exact hG'.1)
  exact ⟨H, h1, h2, h4⟩

/-- C78: one iteration without flooring, from positive parameters and positive definite instantaneous covariances. It
does not fail, all parameters stay positive, the latent variables sum to one and, with the normalisation, the spatial
covariances have unit trace. Without the normalisation, the loss would not have increased had the bases been multiplied
by the sums by which the latent variables were divided. -/
theorem C78_update_once (np : Numpy ℂ) (normalization : Bool) (XX : F → Fin t → Mat m ℂ)
    (hXX : ∀ f j, (XX f j).PosDef) (s : MStP F n m t K) (hs : PPos s) :
    ∃ s', fullUpdateOnceP np normalization id XX s = .ok s' ∧ PPos s' ∧ (∀ b, ∑ k, s'.Z k b = 1) ∧
      (normalization = true → ∀ k f, (s'.H k f).trace = 1) ∧
      (normalization = false → ∃ c : Fin K → ℝ, (∀ b, 0 < c b) ∧
        valP XX { s' with T := fun f b => c b * s'.T f b } ≤ valP XX s) := by
  have hX' := fun f j => (hXX f j).posSemidef
  obtain ⟨s1, e1, p1, -, -, -, l1⟩ := C78_basis np id XX hX' s (pInv_id np hs)
    fun f b => FloorMild.of_id (basisRawPM_pos hXX hs f b)
  obtain ⟨s2, e2, p2, -, -, -, l2⟩ := C78_activation np id XX hX' s1 (pInv_id np p1)
    fun b j => FloorMild.of_id (activationRawPM_pos hXX p1 b j)
  obtain ⟨H, e3, p3, l3⟩ := spatial_id np hXX p2
  have hH : ∀ k f, 0 < (H k f).trace.re := fun k f => by
    have := Tr.trace_mul_pos PosDef.one (p3.2.2.2 k f)
    rwa [Matrix.one_mul] at this
  have p3' : PPos (fullNormalizeP (⟨s2.Z, s2.T, s2.V, H⟩ : MStP F n m t K)) :=
    ⟨p3.1, p3.2.1, p3.2.2.1, fun k f => by
      have := Tr.smul_posDef (p3.2.2.2 k f) (inv_pos.mpr (hH k f))
      rwa [Complex.ofReal_inv] at this⟩
  obtain ⟨s3, hs3⟩ : ∃ s3 : MStP F n m t K, s3 = if normalization then fullNormalizeP ⟨s2.Z, s2.T, s2.V, H⟩
    else ⟨s2.Z, s2.T, s2.V, H⟩ := ⟨_, rfl⟩
  have q3 : PPos s3 := by
    rw [hs3]
    split_ifs
    exacts [p3', p3]
  obtain ⟨s4, e4, p4, t4, v4, h4, z4, c, hc, -, l4⟩ := C78_latent np id XX hX' s3 (pInv_id np q3)
    fun k b => latentRawPM_pos hXX q3 k b
  refine ⟨s4, ?_, p4, z4, fun hn k f => ?_, fun hn => ⟨c, hc, l4.trans ?_⟩⟩
  · rw [fullUpdateOnceP, e1]
    simp only [Bind.bind, Except.bind]
    rw [e2]
    simp only
    rw [e3]
    simp only
    rw [← hs3, e4]
  · rw [h4, hs3, if_pos hn]
    have h1 : (H k f).trace = (((H k f).trace.re : ℝ) : ℂ) :=
      (Complex.conj_eq_iff_re.mp (by
        have := trace_conjTranspose (H k f)
        rw [(p3.2.2.2 k f).1] at this
        exact this.symm)).symm
    simp only [fullNormalizeP, trace_smul, smul_eq_mul]
    rw [h1, Complex.ofReal_re]
    exact inv_mul_cancel₀ (by exact_mod_cast (hH k f).ne')
  · rw [hs3, hn, if_neg Bool.false_ne_true]
    exact l3.trans (l2.trans l1)

/-- C78: no iteration of a run fails, whatever their number. -/
theorem C78_runs (np : Numpy ℂ) (normalization : Bool) (XX : F → Fin t → Mat m ℂ) (hXX : ∀ f j, (XX f j).PosDef)
    (n_iter : ℕ) (s : MStP F n m t K) (hs : PPos s) :
    ∃ s', iterM (fullUpdateOnceP np normalization id XX) n_iter s = .ok s' ∧ PPos s' ∧
      (0 < n_iter → (∀ b, ∑ k, s'.Z k b = 1) ∧ (normalization = true → ∀ k f, (s'.H k f).trace = 1)) := by
  induction n_iter generalizing s with
  | zero => exact ⟨s, rfl, hs, fun h => absurd h (lt_irrefl _)⟩
  | succ i ih =>
    obtain ⟨s1, e1, p1, z1, t1, -⟩ := C78_update_once np normalization XX hXX s hs
    obtain ⟨s', e, p, h⟩ := ih s1 p1
    refine ⟨s', ?_, p, fun _ => ?_⟩
    · rw [iterM, e1]
      exact e
    · rcases Nat.eq_zero_or_pos i with rfl | hi
      · rw [iterM] at e
        cases e
        exact ⟨z1, t1⟩
      · exact h hi

end

/-- Two sources that share two bases, two channels, three frames. -/
example (np : Numpy ℂ) : ∃ s' : MStP Unit 2 2 3 2,
    iterM (fullUpdateOnceP np true id fun (_ : Unit) (j : Fin 3) => (((j : ℝ) + 1 : ℝ) : ℂ) • (1 : Mat 2 ℂ)) 5
      ⟨fun k b => (k + b + 1 : ℝ), fun _ b => (b + 1 : ℝ), fun _ j => (j + 1 : ℝ), fun k _ => (((k : ℝ) + 1 : ℝ) : ℂ) • 1⟩
        = .ok s' ∧ PPos s' ∧ ∀ b, ∑ k, s'.Z k b = 1 := by
  obtain ⟨s', h1, h2, h3⟩ := C78_runs np true (fun (_ : Unit) (j : Fin 3) => (((j : ℝ) + 1 : ℝ) : ℂ) • (1 : Mat 2 ℂ))
    (fun _ j => Tr.smul_posDef PosDef.one (by positivity)) 5
    (⟨fun k b => (k + b + 1 : ℝ), fun _ b => (b + 1 : ℝ), fun _ j => (j + 1 : ℝ),
      fun k _ => (((k : ℝ) + 1 : ℝ) : ℂ) • 1⟩ : MStP Unit 2 2 3 2)
    ⟨fun _ _ => by positivity, fun _ _ => by positivity, fun _ _ => by positivity,
      fun k _ => Tr.smul_posDef PosDef.one (by positivity)⟩
  exact ⟨s', h1, h2, (h3 (by norm_num)).1⟩

/-! ## One bin, diagonal spatial covariances -/

namespace PartEx

/-- The state with diagonal spatial covariances. -/
noncomputable def st (Z : Fin n → Fin K → ℝ) (T : Fin K → ℝ) (V : Fin K → Fin t → ℝ) (d : Fin n → Fin m → ℝ) :
    MStP Unit n m t K := ⟨Z, fun _ => T, V, fun k _ => diagonal fun a => (d k a : ℂ)⟩

/-- The diagonal of the modelled covariance. -/
def dg (Z : Fin n → Fin K → ℝ) (T : Fin K → ℝ) (V : Fin K → Fin t → ℝ) (d : Fin n → Fin m → ℝ) (j : Fin t)
    (a : Fin m) : ℝ := ∑ k, (∑ b, Z k b * (T b * V b j)) * d k a

variable {Z : Fin n → Fin K → ℝ} {T : Fin K → ℝ} {V : Fin K → Fin t → ℝ} {d : Fin n → Fin m → ℝ}

theorem st_R (f : Unit) (j : Fin t) : (st Z T V d).R f j = diagonal fun a => (dg Z T V d j a : ℂ) := by
  ext a c
  simp only [MStP.R, fullR, fullRn, Matrix.sum_apply, Matrix.smul_apply, st, reconP, diagonal_apply, dg, smul_eq_mul]
  split_ifs
  · push_cast
    rfl
  · simp

theorem inv_diag {r : Fin m → ℝ} (hr : ∀ a, 0 < r a) :
    (diagonal fun a => (r a : ℂ))⁻¹ = diagonal fun a => ((r a)⁻¹ : ℂ) := by
  refine inv_eq_right_inv ?_
  rw [diagonal_mul_diagonal, ← diagonal_one]
  congr 1
  funext a
  exact mul_inv_cancel₀ (by exact_mod_cast (hr a).ne')

theorem st_num (XX : Mat m ℂ) {r : Fin m → ℝ} (hr : ∀ a, 0 < r a) (e : Fin m → ℝ) :
    ((diagonal fun a => (r a : ℂ))⁻¹ * XX * ((diagonal fun a => (r a : ℂ))⁻¹ * diagonal fun a => (e a : ℂ))).trace.re
      = ∑ a, (XX a a).re * e a / r a ^ 2 := by
  rw [inv_diag hr, diagonal_mul_diagonal]
  simp only [Matrix.trace, diag_apply, mul_diagonal, diagonal_mul, Complex.re_sum]
  refine Finset.sum_congr rfl fun a _ => ?_
  rw [show ((r a : ℂ))⁻¹ * XX a a * (((r a : ℂ))⁻¹ * (e a : ℂ)) = ((e a / r a ^ 2 : ℝ) : ℂ) * XX a a from by
    push_cast; ring, Complex.re_ofReal_mul]
  ring

theorem st_denom {r : Fin m → ℝ} (hr : ∀ a, 0 < r a) (e : Fin m → ℝ) :
    ((diagonal fun a => (r a : ℂ))⁻¹ * diagonal fun a => (e a : ℂ)).trace.re = ∑ a, e a / r a := by
  rw [inv_diag hr, diagonal_mul_diagonal, trace_diagonal, Complex.re_sum]
  refine Finset.sum_congr rfl fun a _ => ?_
  rw [show ((r a : ℂ))⁻¹ * (e a : ℂ) = ((e a / r a : ℝ) : ℂ) from by push_cast; ring, Complex.ofReal_re]

theorem st_val (XX : Unit → Fin t → Mat m ℂ) (hr : ∀ j a, 0 < dg Z T V d j a) :
    valP XX (st Z T V d) = meanT fun j => (∑ a, (XX () j a a).re / dg Z T V d j a)
      + Real.log (∏ a, dg Z T V d j a) := by
  simp only [valP, st_R, Finset.univ_unique, Finset.sum_singleton]
  congr 1
  funext j
  congr 1
  · rw [inv_diag (hr j)]
    simp only [Matrix.trace, diag_apply, diagonal_mul, Complex.re_sum]
    refine Finset.sum_congr rfl fun a _ => ?_
    rw [show ((dg Z T V d j a : ℂ))⁻¹ = (((dg Z T V d j a)⁻¹ : ℝ) : ℂ) from by push_cast; rfl, Complex.re_ofReal_mul]
    exact (div_eq_inv_mul _ _).symm
  · rw [det_diagonal, ← Complex.ofReal_prod, Complex.norm_real, Real.norm_of_nonneg (Finset.prod_nonneg fun a _ =>
      (hr j a).le)]

theorem st_basis (XX : Unit → Fin t → Mat m ℂ) (hr : ∀ j a, 0 < dg Z T V d j a) (f : Unit) (b : Fin K) :
    basisRawPM XX (st Z T V d) f b = T b * Real.sqrt
      ((∑ k, Z k b * ∑ j, V b j * ∑ a, (XX () j a a).re * d k a / dg Z T V d j a ^ 2)
        / ∑ k, Z k b * ∑ j, V b j * ∑ a, d k a / dg Z T V d j a) := by
  simp only [basisRawPM, st_R]
  simp only [st, st_num _ (hr _), st_denom (hr _)]

theorem st_activation (XX : Unit → Fin t → Mat m ℂ) (hr : ∀ j a, 0 < dg Z T V d j a) (b : Fin K) (j : Fin t) :
    activationRawPM XX (st Z T V d) b j = V b j * Real.sqrt
      ((∑ k, Z k b * (T b * ∑ a, (XX () j a a).re * d k a / dg Z T V d j a ^ 2))
        / ∑ k, Z k b * (T b * ∑ a, d k a / dg Z T V d j a)) := by
  simp only [activationRawPM, st_R, Finset.univ_unique, Finset.sum_singleton]
  simp only [st, st_num _ (hr _), st_denom (hr _)]

theorem st_latent (XX : Unit → Fin t → Mat m ℂ) (hr : ∀ j a, 0 < dg Z T V d j a) (k : Fin n) (b : Fin K) :
    latentRawPM XX (st Z T V d) k b = Z k b * Real.sqrt
      ((T b * ∑ j, V b j * ∑ a, (XX () j a a).re * d k a / dg Z T V d j a ^ 2)
        / (T b * ∑ j, V b j * ∑ a, d k a / dg Z T V d j a)) := by
  simp only [latentRawPM, st_R, Finset.univ_unique, Finset.sum_singleton]
  simp only [st, st_num _ (hr _), st_denom (hr _)]

theorem st_pos (hZ : ∀ k b, 0 < Z k b) (hT : ∀ b, 0 < T b) (hV : ∀ b j, 0 < V b j) (hd : ∀ k a, 0 < d k a) :
    PPos (st Z T V d) :=
  ⟨hZ, fun _ => hT, hV, fun k _ => PosDef.diagonal fun a => by exact_mod_cast hd k a⟩

theorem st_spatial (np : Numpy ℂ) [Nonempty (Fin K)] [Nonempty (Fin n)] [Nonempty (Fin m)] [Nonempty (Fin t)]
    (XX : Unit → Fin t → Mat m ℂ) (hXX : ∀ f j, (XX f j).PosSemidef) (hs : PPos (st Z T V d))
    (hr : ∀ j a, 0 < dg Z T V d j a) (d' : Fin n → Fin m → ℝ) (hd' : ∀ k a, 0 < d' k a)
    (hQ : ∀ k a c, (d k a : ℂ) * (∑ j, ((∑ b, Z k b * (T b * V b j) : ℝ) : ℂ) *
        (((dg Z T V d j a : ℂ))⁻¹ * XX () j a c * ((dg Z T V d j c : ℂ))⁻¹)) * (d k c : ℂ)
      = if a = c then ((d' k a * (∑ j, (∑ b, Z k b * (T b * V b j)) / dg Z T V d j a) * d' k a : ℝ) : ℂ) else 0) :
    fullUpdateSpatial np id XX (reconP Z (fun _ => T) V) (st Z T V d).H
      = .ok fun k _ => diagonal fun a => (d' k a : ℂ) := by
  have hL : ∀ k j, 0 < ∑ b, Z k b * (T b * V b j) := fun k j =>
    Finset.sum_pos (fun b _ => mul_pos (hs.1 k b) (mul_pos (hs.2.1 () b) (hs.2.2.1 b j))) Finset.univ_nonempty
  have hP : ∀ k f, matPP (st Z T V d) k f
      = diagonal fun a => ((∑ j, (∑ b, Z k b * (T b * V b j)) / dg Z T V d j a : ℝ) : ℂ) := by
    intro k f
    ext a c
    simp only [matPP, st_R, inv_diag (hr _), Matrix.sum_apply, Matrix.smul_apply, diagonal_apply, smul_eq_mul]
    split_ifs
    · push_cast
      exact Finset.sum_congr rfl fun j _ => by simp only [st, reconP]; push_cast; ring
    · simp
  have hM : ∀ k f, matHQHP XX (st Z T V d) k f
      = (diagonal fun a => (d' k a : ℂ)) * matPP (st Z T V d) k f * diagonal fun a => (d' k a : ℂ) := by
    intro k f
    rw [hP, diagonal_mul_diagonal, diagonal_mul_diagonal]
    ext a c
    rw [diagonal_apply, ← Complex.ofReal_mul, ← Complex.ofReal_mul, ← hQ k a c]
    simp only [matHQHP, st_R, inv_diag (hr _)]
    simp only [st, mul_diagonal, diagonal_mul, Matrix.sum_apply, Matrix.smul_apply, smul_eq_mul, reconP]
  have hPp : ∀ k f, (matPP (st Z T V d) k f).PosDef := by
    intro k f
    rw [hP]
    exact PosDef.diagonal fun a => by
      exact_mod_cast Finset.sum_pos (fun j _ => div_pos (hL k j) (hr j a)) Finset.univ_nonempty
  have hD : ∀ k, (diagonal fun a => (d' k a : ℂ) : Mat m ℂ).PosDef := fun k =>
    PosDef.diagonal fun a => by exact_mod_cast hd' k a
  have hQp : ∀ k f, (matHQHP XX (st Z T V d) k f).PosDef := by
    intro k f
    rw [hM, hP, diagonal_mul_diagonal, diagonal_mul_diagonal]
    exact PosDef.diagonal fun a => by
      exact_mod_cast mul_pos (mul_pos (hd' k a) (Finset.sum_pos (fun j _ => div_pos (hL k j) (hr j a))
        Finset.univ_nonempty)) (hd' k a)
  obtain ⟨H, h1, h2, h3, -⟩ := C78_spatial np id XX hXX _ (pInv_id np hs) (fun k f => toPsd_id np (hPp k f).1)
    (fun k f => toPsd_id np (hQp k f).1) hQp fun k f G hG => toPsd_id np (by
      obtain ⟨G', e, hG', -⟩ := C17_gmeanmh np _ _ (hPp k f) (hQp k f) 2 (Or.inr (Or.inl rfl))
      rw [hG] at e
      cases e
      exact hG'.1)
  have : H = fun k _ => diagonal fun a => (d' k a : ℂ) := by
    funext k f
    exact Tr.riccati_unique (hPp k f) (hD k) (h2.2.2.2 k f) ((h3 k f).trans (hM k f))
  rw [this] at h1
  exact h1

/-- The frames `(1, 1)` and `(1, -1)`. -/
noncomputable def X1 : Spec Unit 2 2 := fun _ => !![1, 1; 1, -1]

theorem instant (np : Numpy ℂ) (X : Spec Unit 2 2) (f : Unit) (j : Fin 2) :
    instantCovariance np id X f j = Matrix.of fun a b => X f a j * star (X f b j) :=
  toPsd_id np (by
    ext a b
    simp only [conjTranspose_apply, of_apply, star_mul', star_star]
    exact mul_comm _ _)

theorem instant_psd (np : Numpy ℂ) (X : Spec Unit 2 2) (f : Unit) (j : Fin 2) :
    (instantCovariance np id X f j).PosSemidef := by
  rw [instant]
  exact posSemidef_vecMulVec_self_star fun a => X f a j

/-- The state before the update. -/
noncomputable def s1 (d : Fin 2 → ℝ) : MStP Unit 2 2 2 1 :=
  st (fun _ _ => 1 / 2) (fun _ => 1250 / 49) (fun _ _ => 1) fun _ => d

theorem s1_dg (d : Fin 2 → ℝ) (j : Fin 2) (a : Fin 2) :
    dg (K := 1) (n := 2) (fun _ _ => 1 / 2) (fun _ => 1250 / 49) (fun _ _ => 1) (fun _ => d) j a = 1250 / 49 * d a := by
  simp [dg]
  ring

theorem s1_pos {d : Fin 2 → ℝ} (hd : ∀ a, 0 < d a) : PPos (s1 d) :=
  st_pos (fun _ _ => by norm_num) (fun _ => by norm_num) (fun _ _ => one_pos) fun _ => hd

theorem s1_r {d : Fin 2 → ℝ} (hd : ∀ a, 0 < d a) (j : Fin 2) (a : Fin 2) :
    0 < dg (K := 1) (n := 2) (t := 2) (fun _ _ => 1 / 2) (fun _ => 1250 / 49) (fun _ _ => 1) (fun _ => d) j a := by
  rw [s1_dg]
  have := hd a
  positivity

theorem X1_diag (np : Numpy ℂ) (j a : Fin 2) : (instantCovariance np id X1 () j a a).re = 1 := by
  rw [instant]
  fin_cases j <;> fin_cases a <;> simp [X1]

theorem d1_pos : ∀ a, 0 < (![49 / 50, 1 / 50] : Fin 2 → ℝ) a := by
  intro a
  fin_cases a <;> norm_num

theorem d1'_pos : ∀ a, 0 < (![49 / 250, 7 / 250] : Fin 2 → ℝ) a := by
  intro a
  fin_cases a <;> norm_num

theorem d1''_pos : ∀ a, 0 < (![7 / 8, 1 / 8] : Fin 2 → ℝ) a := by
  intro a
  fin_cases a <;> norm_num

theorem s1_basis (np : Numpy ℂ) : fullUpdateBasisP np id (instantCovariance np id X1) (s1 ![49 / 50, 1 / 50])
    = .ok (s1 ![49 / 50, 1 / 50]) := by
  rw [basisP_eq _ (pInv_id np (s1_pos d1_pos))]
  congr 1
  rw [s1, MStP.mk.injEq]
  refine ⟨rfl, ?_, rfl, rfl⟩
  funext f b
  rw [id, st_basis _ (s1_r d1_pos)]
  simp only [X1_diag, s1_dg, Fin.sum_univ_two, cons_val_zero, cons_val_one, st]
  norm_num

theorem s1_activation (np : Numpy ℂ) :
    fullUpdateActivationP np id (instantCovariance np id X1) (s1 ![49 / 50, 1 / 50])
      = .ok (s1 ![49 / 50, 1 / 50]) := by
  rw [activationP_eq _ (pInv_id np (s1_pos d1_pos))]
  congr 1
  rw [s1, MStP.mk.injEq]
  refine ⟨rfl, rfl, ?_, rfl⟩
  funext b j
  rw [id, st_activation _ (s1_r d1_pos)]
  simp only [X1_diag, s1_dg, Fin.sum_univ_two, cons_val_zero, cons_val_one, st]
  norm_num

theorem s1_spatial (np : Numpy ℂ) : fullUpdateSpatial np id (instantCovariance np id X1)
    (reconP (s1 ![49 / 50, 1 / 50]).Z (s1 ![49 / 50, 1 / 50]).T (s1 ![49 / 50, 1 / 50]).V) (s1 ![49 / 50, 1 / 50]).H
      = .ok (s1 ![49 / 250, 7 / 250]).H := by
  refine st_spatial np _ (instant_psd np X1) (s1_pos d1_pos) (s1_r d1_pos) (fun _ => ![49 / 250, 7 / 250])
    (fun _ => d1'_pos) fun k a c => ?_
  simp only [s1_dg, Fin.sum_univ_two, instant]
  fin_cases a <;> fin_cases c <;> simp [X1] <;> norm_num

theorem s1_normalize : fullNormalizeP (s1 ![49 / 250, 7 / 250]) = s1 ![7 / 8, 1 / 8] := by
  rw [fullNormalizeP, s1, s1, st, st, MStP.mk.injEq]
  refine ⟨rfl, rfl, rfl, ?_⟩
  funext k f
  have : ((diagonal fun a => ((![49 / 250, 7 / 250] : Fin 2 → ℝ) a : ℂ)).trace.re : ℝ) = 28 / 125 := by
    rw [trace_diagonal, Fin.sum_univ_two]
    simp only [cons_val_zero, cons_val_one, ← Complex.ofReal_add, Complex.ofReal_re]
    norm_num
  simp only [this]
  rw [← diagonal_smul]
  congr 1
  funext a
  fin_cases a <;> simp <;> norm_num

theorem s1_latent (np : Numpy ℂ) : fullUpdateLatent np id (instantCovariance np id X1) (s1 ![7 / 8, 1 / 8])
    = .ok (s1 ![7 / 8, 1 / 8]) := by
  rw [latentP_eq _ (pInv_id np (s1_pos d1''_pos))]
  congr 1
  rw [s1, MStP.mk.injEq]
  refine ⟨?_, rfl, rfl, rfl⟩
  funext k b
  simp only [st_latent _ (s1_r d1''_pos)]
  simp only [X1_diag, s1_dg, Fin.sum_univ_two, cons_val_zero, cons_val_one, st]
  have : 0 < Real.sqrt (1250 / 49 * (1 * (1 * (7 / 8) / (1250 / 49 * (7 / 8)) ^ 2
      + 1 * (1 / 8) / (1250 / 49 * (1 / 8)) ^ 2) + 1 * (1 * (7 / 8) / (1250 / 49 * (7 / 8)) ^ 2
      + 1 * (1 / 8) / (1250 / 49 * (1 / 8)) ^ 2)) / (1250 / 49 * (1 * (7 / 8 / (1250 / 49 * (7 / 8))
      + 1 / 8 / (1250 / 49 * (1 / 8))) + 1 * (7 / 8 / (1250 / 49 * (7 / 8))
      + 1 / 8 / (1250 / 49 * (1 / 8)))))) := by positivity
  generalize Real.sqrt _ = q at this ⊢
  field_simp
  norm_num

theorem s1_val (np : Numpy ℂ) {d : Fin 2 → ℝ} (hd : ∀ a, 0 < d a) : valP (instantCovariance np id X1) (s1 d)
    = 1 / (1250 / 49 * d 0) + 1 / (1250 / 49 * d 1) + Real.log (1250 / 49 * d 0 * (1250 / 49 * d 1)) := by
  rw [s1, st_val _ (s1_r hd)]
  simp only [X1_diag, s1_dg, Fin.sum_univ_two, Fin.prod_univ_two, meanT]
  norm_num

/-! ### Three sources, two bases -/

/-- One channel per frame. -/
noncomputable def X2 : Spec Unit 2 2 := fun _ => diagonal fun _ => ((Real.sqrt 200000 : ℝ) : ℂ)

/-- The latent variables before the update. -/
noncomputable def z2 : Fin 3 → Fin 2 → ℝ := fun k _ => ![4 / 5, 1 / 10, 1 / 10] k

/-- The latent variables after the update. -/
noncomputable def z2' : Fin 3 → Fin 2 → ℝ := ![![28 / 31, 2 / 5], ![1 / 62, 7 / 20], ![5 / 62, 1 / 4]]

/-- The activations. -/
noncomputable def v2 : Fin 2 → Fin 2 → ℝ := ![![99, 1], ![1, 99]]

/-- The diagonals of the spatial covariances. -/
noncomputable def d2 : Fin 3 → Fin 2 → ℝ := ![![485 / 4, 5 / 4], ![10, 970], ![9020, 9020]]

/-- The state with latent variables `z`. -/
noncomputable def s2 (z : Fin 3 → Fin 2 → ℝ) : MStP Unit 3 2 2 2 := st z (fun _ => 1) v2 d2

theorem X2_diag (np : Numpy ℂ) (j a c : Fin 2) :
    instantCovariance np id X2 () j a c = if a = j ∧ c = j then 200000 else 0 := by
  have h : ((Real.sqrt 200000 : ℝ) : ℂ) * ((Real.sqrt 200000 : ℝ) : ℂ) = 200000 := by
    rw [← Complex.ofReal_mul, Real.mul_self_sqrt (by norm_num)]
    norm_num
  rw [instant]
  fin_cases j <;> fin_cases a <;> fin_cases c <;> simp [X2, h]

theorem z2_dg (j a : Fin 2) : dg z2 (fun _ => 1) v2 d2 j a = 100000 := by
  fin_cases j <;> fin_cases a <;> simp [dg, z2, v2, d2, Fin.sum_univ_three] <;> norm_num

theorem z2'_dg (j a : Fin 2) : dg z2' (fun _ => 1) v2 d2 j a
    = (![![2640567 / 31, 2364375 / 31], ![7106133 / 31, 7987125 / 31]] : Fin 2 → Fin 2 → ℝ) j a := by
  fin_cases j <;> fin_cases a <;> simp [dg, z2', v2, d2, Fin.sum_univ_three] <;> norm_num

theorem z2_r (j a : Fin 2) : 0 < dg z2 (fun _ => 1) v2 d2 j a := by
  rw [z2_dg]
  norm_num

theorem z2'_r (j a : Fin 2) : 0 < dg z2' (fun _ => 1) v2 d2 j a := by
  rw [z2'_dg]
  fin_cases j <;> fin_cases a <;> norm_num

theorem s2_pos {z : Fin 3 → Fin 2 → ℝ} (hz : ∀ k b, 0 < z k b) : PPos (s2 z) :=
  st_pos hz (fun _ => one_pos) (fun b j => by fin_cases b <;> fin_cases j <;> norm_num [v2])
    fun k a => by fin_cases k <;> fin_cases a <;> norm_num [d2]

theorem z2_pos (k : Fin 3) (b : Fin 2) : 0 < z2 k b := by
  fin_cases k <;> norm_num [z2]

theorem z2'_pos (k : Fin 3) (b : Fin 2) : 0 < z2' k b := by
  fin_cases k <;> fin_cases b <;> norm_num [z2']

theorem X2_re (np : Numpy ℂ) (j a : Fin 2) :
    (instantCovariance np id X2 () j a a).re = if a = j then 200000 else 0 := by
  rw [X2_diag]
  fin_cases j <;> fin_cases a <;> norm_num

theorem s2_basis (np : Numpy ℂ) :
    fullUpdateBasisP np id (instantCovariance np id X2) (s2 z2) = .ok (s2 z2) := by
  rw [basisP_eq _ (pInv_id np (s2_pos z2_pos))]
  congr 1
  rw [s2, MStP.mk.injEq]
  refine ⟨rfl, ?_, rfl, rfl⟩
  funext f b
  rw [id, st_basis _ z2_r]
  simp only [X2_re, z2_dg, Fin.sum_univ_two, Fin.sum_univ_three, st]
  fin_cases b <;> simp [z2, v2, d2] <;> norm_num

theorem s2_activation (np : Numpy ℂ) :
    fullUpdateActivationP np id (instantCovariance np id X2) (s2 z2) = .ok (s2 z2) := by
  rw [activationP_eq _ (pInv_id np (s2_pos z2_pos))]
  congr 1
  rw [s2, MStP.mk.injEq]
  refine ⟨rfl, rfl, ?_, rfl⟩
  funext b j
  rw [id, st_activation _ z2_r]
  simp only [X2_re, z2_dg, Fin.sum_univ_two, Fin.sum_univ_three, st]
  fin_cases b <;> fin_cases j <;> simp [z2, v2, d2] <;> norm_num

theorem s2_spatial (np : Numpy ℂ) : fullUpdateSpatial np id (instantCovariance np id X2)
    (reconP (s2 z2).Z (s2 z2).T (s2 z2).V) (s2 z2).H = .ok (s2 z2).H := by
  refine st_spatial np _ (instant_psd np X2) (s2_pos z2_pos) z2_r d2
    (fun k a => by fin_cases k <;> fin_cases a <;> norm_num [d2]) fun k a c => ?_
  simp only [z2_dg, Fin.sum_univ_two, X2_diag]
  fin_cases k <;> fin_cases a <;> fin_cases c <;> simp [z2, v2, d2] <;> norm_num

theorem s2_latent (np : Numpy ℂ) :
    fullUpdateLatent np id (instantCovariance np id X2) (s2 z2) = .ok (s2 z2') := by
  rw [latentP_eq _ (pInv_id np (s2_pos z2_pos))]
  congr 1
  rw [s2, s2, st, st, MStP.mk.injEq]
  refine ⟨?_, rfl, rfl, rfl⟩
  have h : ∀ k b, latentRawPM (instantCovariance np id X2) (st z2 (fun _ => 1) v2 d2) k b
      = (![![28 / 25, 4 / 25], ![1 / 50, 7 / 50], ![1 / 10, 1 / 10]] : Fin 3 → Fin 2 → ℝ) k b := by
    intro k b
    have e1 : Real.sqrt (49 / 25) = 7 / 5 := by
      rw [Real.sqrt_eq_iff_mul_self_eq (by norm_num) (by norm_num)]
      norm_num
    have e2 : Real.sqrt (1 / 25) = 1 / 5 := by
      rw [Real.sqrt_eq_iff_mul_self_eq (by norm_num) (by norm_num)]
      norm_num
    rw [st_latent _ z2_r]
    simp only [X2_re, z2_dg, Fin.sum_univ_two]
    fin_cases k <;> fin_cases b <;> simp only [z2, v2, d2] <;> norm_num [e1, e2]
  funext k b
  have h' : ∀ k b, latentRawPM (instantCovariance np id X2)
      (⟨z2, fun _ _ => 1, v2, fun k _ => diagonal fun a => (d2 k a : ℂ)⟩ : MStP Unit 3 2 2 2) k b
      = (![![28 / 25, 4 / 25], ![1 / 50, 7 / 50], ![1 / 10, 1 / 10]] : Fin 3 → Fin 2 → ℝ) k b := h
  simp only [h', Fin.sum_univ_three]
  fin_cases k <;> fin_cases b <;> simp [z2'] <;> norm_num

end PartEx

/-- C78: **finding.** With `partitioning=True` the loss can also increase without the normalisation of the spatial
covariances: `update_latent` divides the latent variables by their sums and does not multiply the bases by them. -/
theorem C78_latent_can_increase (np : Numpy ℂ) : ∃ (X : Spec Unit 2 2) (s s' : MStP Unit 3 2 2 2) (l l' : ℝ),
    PPos s ∧ (∀ b, ∑ k, s.Z k b = 1) ∧
      fullUpdateOnceP np false id (instantCovariance np id X) s = .ok s' ∧ PPos s' ∧
      lossP np id (instantCovariance np id X) s = .ok l ∧ lossP np id (instantCovariance np id X) s' = .ok l' ∧
      l < l' := by
  refine ⟨PartEx.X2, PartEx.s2 PartEx.z2, PartEx.s2 PartEx.z2', _, _, PartEx.s2_pos PartEx.z2_pos, fun b => ?_, ?_,
    PartEx.s2_pos PartEx.z2'_pos, lossP_eq _ (pInv_id np (PartEx.s2_pos PartEx.z2_pos)),
    lossP_eq _ (pInv_id np (PartEx.s2_pos PartEx.z2'_pos)), ?_⟩
  · simp [PartEx.s2, PartEx.st, PartEx.z2, Fin.sum_univ_three]
    norm_num
  · simp only [fullUpdateOnceP, PartEx.s2_basis, PartEx.s2_activation, Bind.bind, Except.bind, PartEx.s2_spatial]
    exact PartEx.s2_latent np
  · rw [PartEx.s2, PartEx.s2, PartEx.st_val _ PartEx.z2_r, PartEx.st_val _ PartEx.z2'_r]
    simp only [PartEx.X2_re, PartEx.z2_dg, PartEx.z2'_dg, Fin.sum_univ_two, Fin.prod_univ_two, meanT]
    have h : Real.log (2640567 / 31 * (2364375 / 31)) + Real.log (7106133 / 31 * (7987125 / 31))
        = 2 * Real.log (100000 * 100000) + Real.log (4535731444972106133261 / 1182106880000000000000) := by
      rw [← Real.log_rpow (by norm_num), ← Real.log_mul (by norm_num) (by norm_num),
        ← Real.log_mul (by norm_num) (by norm_num)]
      norm_num
    have h2 : 1 < Real.log (4535731444972106133261 / 1182106880000000000000) := by
      rw [Real.lt_log_iff_exp_lt (by norm_num)]
      exact Real.exp_one_lt_d9.trans (by norm_num)
    simp
    norm_num at h h2 ⊢
    linarith

/-- C78: **finding.** With `partitioning=True` and the default `normalization=True` the loss can increase: the
normalisation divides the spatial covariances by their traces and, with shared bases, the division is not undone. -/
theorem C78_loss_can_increase (np : Numpy ℂ) : ∃ (X : Spec Unit 2 2) (s s' : MStP Unit 2 2 2 1) (l l' : ℝ),
    PPos s ∧ (∀ b, ∑ k, s.Z k b = 1) ∧ (∀ k f, (s.H k f).trace = 1) ∧
      fullUpdateOnceP np true id (instantCovariance np id X) s = .ok s' ∧ PPos s' ∧
      lossP np id (instantCovariance np id X) s = .ok l ∧ lossP np id (instantCovariance np id X) s' = .ok l' ∧
      l < l' := by
  refine ⟨PartEx.X1, PartEx.s1 ![49 / 50, 1 / 50], PartEx.s1 ![7 / 8, 1 / 8], _, _, PartEx.s1_pos PartEx.d1_pos,
    fun b => ?_, fun k f => ?_, ?_, PartEx.s1_pos PartEx.d1''_pos, lossP_eq _ (pInv_id np (PartEx.s1_pos PartEx.d1_pos)),
    lossP_eq _ (pInv_id np (PartEx.s1_pos PartEx.d1''_pos)), ?_⟩
  · simp [PartEx.s1, PartEx.st]
  · rw [PartEx.s1, PartEx.st, trace_diagonal, Fin.sum_univ_two]
    simp only [cons_val_zero, cons_val_one]
    norm_num
  · simp only [fullUpdateOnceP, PartEx.s1_basis, PartEx.s1_activation, Bind.bind, Except.bind, PartEx.s1_spatial,
      if_true]
    exact (congrArg _ PartEx.s1_normalize).trans (PartEx.s1_latent np)
  · rw [PartEx.s1_val np PartEx.d1_pos, PartEx.s1_val np PartEx.d1''_pos]
    simp only [cons_val_zero, cons_val_one]
    have h : Real.log (1250 / 49 * (7 / 8) * (1250 / 49 * (1 / 8)))
        = Real.log (1250 / 49 * (49 / 50) * (1250 / 49 * (1 / 50))) + Real.log (10937500 / 1960000) := by
      rw [← Real.log_mul (by norm_num) (by norm_num)]
      norm_num
    have h2 : 5 / 3 < Real.log (10937500 / 1960000) := by
      have h3 : 5 < Real.log ((10937500 / 1960000 : ℝ) ^ 3) := by
        rw [Real.lt_log_iff_exp_lt (by norm_num)]
        have he := Real.exp_one_lt_d9
        have : Real.exp 5 = Real.exp 1 ^ 5 := by rw [← Real.exp_nat_mul]; norm_num
        rw [this]
        calc Real.exp 1 ^ 5 < 2.7182818286 ^ 5 := pow_lt_pow_left₀ he (Real.exp_pos 1).le (by norm_num)
          _ < _ := by norm_num
      rw [Real.log_pow] at h3
      push_cast at h3
      linarith
    rw [h]
    norm_num at h2 ⊢
    linarith

end Verif.Mnmf
