import Verif.Props.MnmfWiener
import Verif.Props.Linalg
import Verif.Lemmas.MatStrict

/-! # C56: the recorded loss of GaussMNMF never increases -/

set_option linter.unusedSectionVars false

namespace Verif.Mnmf

open Matrix Spatial Scale Ilrma Special Linalg
open scoped ComplexOrder

variable {F : Type} [Fintype F] {n m t K : ℕ}

/-- The modelled covariance `∑ k, λ k • H k` of a state at one point. -/
noncomputable abbrev MSt.R (s : MSt F n m t K) (f : F) (j : Fin t) : Mat m ℂ := fullR (recon s.T s.V) s.H f j

/-- Positive basis and activation, positive definite spatial covariances. -/
def MPos (s : MSt F n m t K) : Prop :=
  (∀ k f b, 0 < s.T k f b) ∧ (∀ k b j, 0 < s.V k b j) ∧ ∀ k f, (s.H k f).PosDef

/-- `MPos`, and `to_psd` does not change the modelled covariances. -/
def MInv (np : Numpy ℂ) (floor : ℝ → ℝ) (s : MSt F n m t K) : Prop :=
  MPos s ∧ ∀ f j, toPsd np floor (s.R f j) = s.R f j

/-- The loss when `to_psd` does not change the modelled covariances. -/
noncomputable def fullVal (XX : F → Fin t → Mat m ℂ) (s : MSt F n m t K) : ℝ :=
  ∑ f, meanT fun j => ((s.R f j)⁻¹ * XX f j).trace.re + Real.log ‖(s.R f j).det‖

section

variable [Nonempty (Fin K)] [Nonempty (Fin n)]

theorem R_posDef {s : MSt F n m t K} (hs : MPos s) (f : F) (j : Fin t) : (s.R f j).PosDef :=
  Tr.sum_posDef fun k => Tr.smul_posDef (hs.2.2 k f) (recon_pos hs.1 hs.2.1 k f j)

theorem fullLoss_eq {np : Numpy ℂ} {floor : ℝ → ℝ} (XX : F → Fin t → Mat m ℂ) {s : MSt F n m t K}
    (hs : MInv np floor s) : fullLoss np floor XX (recon s.T s.V) s.H = .ok (fullVal XX s) := by
  have h1 : (onBins fun f => onBins fun j => npSolve (s.R f j) (XX f j)) = .ok fun f j => (s.R f j)⁻¹ * XX f j :=
    onBins_ok fun f => onBins_ok fun j => by rw [npSolve, if_pos (Tr.isUnit_det (R_posDef hs.1 f j))]
  simp only [fullLoss, hs.2, h1, bind, Except.bind]
  rfl

theorem traces_eq (XX : F → Fin t → Mat m ℂ) {s : MSt F n m t K} (hs : MPos s) :
    traces s.R XX s.H = .ok (fun k f j => ((s.R f j)⁻¹ * XX f j * ((s.R f j)⁻¹ * s.H k f)).trace.re,
      fun k f j => ((s.R f j)⁻¹ * s.H k f).trace.re) := by
  have h1 : (onBins fun f => onBins fun j => npSolve (s.R f j) (XX f j)) = .ok fun f j => (s.R f j)⁻¹ * XX f j :=
    onBins_ok fun f => onBins_ok fun j => by rw [npSolve, if_pos (Tr.isUnit_det (R_posDef hs f j))]
  have h2 : (onBins fun k => onBins fun f => onBins fun j => npSolve (s.R f j) (s.H k f))
      = .ok fun k f j => (s.R f j)⁻¹ * s.H k f :=
    onBins_ok fun k => onBins_ok fun f => onBins_ok fun j => by
      rw [npSolve, if_pos (Tr.isUnit_det (R_posDef hs f j))]
  simp only [traces, h1, h2, bind, Except.bind]

end

/-- The basis update before flooring. -/
noncomputable def fullBasisRaw (XX : F → Fin t → Mat m ℂ) (s : MSt F n m t K) (k : Fin n) (f : F) (b : Fin K) : ℝ :=
  s.T k f b * Real.sqrt ((∑ j, s.V k b j * ((s.R f j)⁻¹ * XX f j * ((s.R f j)⁻¹ * s.H k f)).trace.re)
    / ∑ j, s.V k b j * ((s.R f j)⁻¹ * s.H k f).trace.re)

/-- The activation update before flooring. -/
noncomputable def fullActivationRaw (XX : F → Fin t → Mat m ℂ) (s : MSt F n m t K) (k : Fin n) (b : Fin K)
    (j : Fin t) : ℝ :=
  s.V k b j * Real.sqrt ((∑ f, s.T k f b * ((s.R f j)⁻¹ * XX f j * ((s.R f j)⁻¹ * s.H k f)).trace.re)
    / ∑ f, s.T k f b * ((s.R f j)⁻¹ * s.H k f).trace.re)

section

variable [Nonempty (Fin K)] [Nonempty (Fin n)] [Nonempty (Fin m)] [Nonempty (Fin t)] [Nonempty F]

theorem fullVal_le {XX : F → Fin t → Mat m ℂ} {s s' : MSt F n m t K}
    (h : ∑ f, ∑ j, (((s'.R f j)⁻¹ * XX f j).trace.re + Real.log ‖(s'.R f j).det‖)
      ≤ ∑ f, ∑ j, (((s.R f j)⁻¹ * XX f j).trace.re + Real.log ‖(s.R f j).det‖)) : fullVal XX s' ≤ fullVal XX s := by
  simp only [fullVal, meanT, ← Finset.sum_div]
  exact div_le_div_of_nonneg_right h (by positivity)

theorem R_basis (T : Fin n → F → Fin K → ℝ) (V : Fin n → Fin K → Fin t → ℝ) (H : Fin n → F → Mat m ℂ) (f : F)
    (j : Fin t) : (⟨T, V, H⟩ : MSt F n m t K).R f j
      = ∑ p : Fin n × Fin K, (T p.1 f p.2 : ℂ) • ((V p.1 p.2 j : ℂ) • H p.1 f) := by
  simp only [MSt.R, fullR, fullRn, recon, Fintype.sum_prod_type, smul_smul, ← Finset.sum_smul]
  push_cast
  rfl

theorem R_activation (T : Fin n → F → Fin K → ℝ) (V : Fin n → Fin K → Fin t → ℝ) (H : Fin n → F → Mat m ℂ)
    (f : F) (j : Fin t) : (⟨T, V, H⟩ : MSt F n m t K).R f j
      = ∑ p : Fin n × Fin K, (V p.1 p.2 j : ℂ) • ((T p.1 f p.2 : ℂ) • H p.1 f) := by
  rw [R_basis]
  exact Finset.sum_congr rfl fun p _ => by rw [smul_comm]

theorem full_basis_step (np : Numpy ℂ) (floor : ℝ → ℝ) (XX : F → Fin t → Mat m ℂ) (hXX : ∀ f j, (XX f j).PosSemidef)
    (s : MSt F n m t K) (hs : MInv np floor s)
    (hfl : ∀ k f b, FloorMild floor (s.T k f b) (fullBasisRaw XX s k f b)) :
    fullUpdateBasis np floor XX s = .ok ⟨fun k f b => floor (fullBasisRaw XX s k f b), s.V, s.H⟩ ∧
      MPos (⟨fun k f b => floor (fullBasisRaw XX s k f b), s.V, s.H⟩ : MSt F n m t K) ∧
      fullVal XX (⟨fun k f b => floor (fullBasisRaw XX s k f b), s.V, s.H⟩ : MSt F n m t K) ≤ fullVal XX s := by
  refine ⟨?_, ⟨fun k f b => (hfl k f b).1, hs.1.2⟩, fullVal_le (Finset.sum_le_sum fun f _ => ?_)⟩
  · have := traces_eq XX hs.1
    simp only [fullUpdateBasis, hs.2]
    rw [this]
    rfl
  · simp only [R_basis]
    refine Tr.slice_le (fun j (p : Fin n × Fin K) => (s.V p.1 p.2 j : ℂ) • s.H p.1 f)
      (fun j p => Tr.smul_posDef (hs.1.2.2 p.1 f) (hs.1.2.1 p.1 p.2 j)) (XX f) (hXX f) (fun p => s.T p.1 f p.2)
      (fun p => floor (fullBasisRaw XX s p.1 f p.2)) (fun p => hs.1.1 p.1 f p.2) (fun p => (hfl p.1 f p.2).1)
      (s.R f) (fun j => R_basis s.T s.V s.H f j) _ _ (fun p => rfl) (fun p => rfl) fun p => ?_
    have e : fullBasisRaw XX s p.1 f p.2 = s.T p.1 f p.2 * Real.sqrt (
        (∑ j, ((s.R f j)⁻¹ * XX f j * ((s.R f j)⁻¹ * ((s.V p.1 p.2 j : ℂ) • s.H p.1 f))).trace.re)
        / ∑ j, ((s.R f j)⁻¹ * ((s.V p.1 p.2 j : ℂ) • s.H p.1 f)).trace.re) := by
      simp only [fullBasisRaw, mul_smul_comm, trace_smul, smul_eq_mul, Complex.re_ofReal_mul]
    rw [← e]
    exact (hfl p.1 f p.2).2

theorem full_activation_step (np : Numpy ℂ) (floor : ℝ → ℝ) (XX : F → Fin t → Mat m ℂ)
    (hXX : ∀ f j, (XX f j).PosSemidef) (s : MSt F n m t K) (hs : MInv np floor s)
    (hfl : ∀ k b j, FloorMild floor (s.V k b j) (fullActivationRaw XX s k b j)) :
    fullUpdateActivation np floor XX s = .ok ⟨s.T, fun k b j => floor (fullActivationRaw XX s k b j), s.H⟩ ∧
      MPos (⟨s.T, fun k b j => floor (fullActivationRaw XX s k b j), s.H⟩ : MSt F n m t K) ∧
      fullVal XX (⟨s.T, fun k b j => floor (fullActivationRaw XX s k b j), s.H⟩ : MSt F n m t K) ≤ fullVal XX s := by
  refine ⟨?_, ⟨hs.1.1, fun k b j => (hfl k b j).1, hs.1.2.2⟩, fullVal_le ?_⟩
  · have := traces_eq XX hs.1
    simp only [fullUpdateActivation, hs.2]
    rw [this]
    rfl
  · rw [Finset.sum_comm, Finset.sum_comm (s := Finset.univ (α := F))]
    refine Finset.sum_le_sum fun j _ => ?_
    simp only [R_activation]
    refine Tr.slice_le (fun f (p : Fin n × Fin K) => (s.T p.1 f p.2 : ℂ) • s.H p.1 f)
      (fun f p => Tr.smul_posDef (hs.1.2.2 p.1 f) (hs.1.1 p.1 f p.2)) (fun f => XX f j) (fun f => hXX f j)
      (fun p => s.V p.1 p.2 j) (fun p => floor (fullActivationRaw XX s p.1 p.2 j)) (fun p => hs.1.2.1 p.1 p.2 j)
      (fun p => (hfl p.1 p.2 j).1) (fun f => s.R f j) (fun f => R_activation s.T s.V s.H f j) _ _ (fun p => rfl)
      (fun p => rfl) fun p => ?_
    have e : fullActivationRaw XX s p.1 p.2 j = s.V p.1 p.2 j * Real.sqrt (
        (∑ f, ((s.R f j)⁻¹ * XX f j * ((s.R f j)⁻¹ * ((s.T p.1 f p.2 : ℂ) • s.H p.1 f))).trace.re)
        / ∑ f, ((s.R f j)⁻¹ * ((s.T p.1 f p.2 : ℂ) • s.H p.1 f)).trace.re) := by
      simp only [fullActivationRaw, mul_smul_comm, trace_smul, smul_eq_mul, Complex.re_ofReal_mul]
    rw [← e]
    exact (hfl p.1 p.2 j).2

end

/-- `P` of `update_spatial`. -/
noncomputable def matP (s : MSt F n m t K) (k : Fin n) (f : F) : Mat m ℂ :=
  ∑ j, (recon s.T s.V k f j : ℂ) • (s.R f j)⁻¹

/-- `HQH` of `update_spatial`. -/
noncomputable def matHQH (XX : F → Fin t → Mat m ℂ) (s : MSt F n m t K) (k : Fin n) (f : F) : Mat m ℂ :=
  s.H k f * (∑ j, (recon s.T s.V k f j : ℂ) • ((s.R f j)⁻¹ * XX f j * (s.R f j)⁻¹)) * s.H k f

section

variable [Nonempty (Fin K)] [Nonempty (Fin n)] [Nonempty (Fin m)] [Nonempty (Fin t)] [Nonempty F]

theorem matP_posDef {s : MSt F n m t K} (hs : MPos s) (k : Fin n) (f : F) : (matP s k f).PosDef :=
  Tr.sum_posDef fun j => Tr.smul_posDef (R_posDef hs f j).inv (recon_pos hs.1 hs.2.1 k f j)

/-- The spatial update returns the positive definite solution of a Riccati equation. -/
theorem full_spatial_eq (np : Numpy ℂ) (floor : ℝ → ℝ) (XX : F → Fin t → Mat m ℂ)
    (s : MSt F n m t K) (hs : MInv np floor s)
    (hP : ∀ k f, toPsd np floor (matP s k f) = matP s k f)
    (hQ : ∀ k f, toPsd np floor (matHQH XX s k f) = matHQH XX s k f) (hQp : ∀ k f, (matHQH XX s k f).PosDef)
    (hH : ∀ k f G, gmeanmh np (matP s k f) (matHQH XX s k f) 2 = .ok G → toPsd np floor G = G) :
    ∃ H, fullUpdateSpatial np floor XX (recon s.T s.V) s.H = .ok H ∧ MPos (⟨s.T, s.V, H⟩ : MSt F n m t K) ∧
      ∀ k f, H k f * matP s k f * H k f = matHQH XX s k f := by
  choose H h1 h2 h3 using fun k f => C17_gmeanmh np (matP s k f) (matHQH XX s k f) (matP_posDef hs.1 k f) (hQp k f) 2
    (Or.inr (Or.inl rfl))
  refine ⟨H, ?_, ⟨hs.1.1, hs.1.2.1, h2⟩, fun k f => (h3 k f).2.1 rfl⟩
  have e1 : (onBins fun f => onBins fun j => npInv (s.R f j)) = .ok fun f j => (s.R f j)⁻¹ :=
    onBins_ok fun f => onBins_ok fun j => by rw [npInv, if_pos (Tr.isUnit_det (R_posDef hs.1 f j))]
  simp only [fullUpdateSpatial, hs.2, e1, bind, Except.bind]
  refine onBins_ok fun k => onBins_ok fun f => ?_
  have hP' := hP k f
  have hQ' := hQ k f
  simp only [matP, matHQH] at hP' hQ'
  rw [hP', hQ']
  have := h1 k f
  simp only [matP, matHQH] at this
  rw [this]
  simp only
  rw [hH k f _ (h1 k f)]

theorem full_spatial_step (np : Numpy ℂ) (floor : ℝ → ℝ) (XX : F → Fin t → Mat m ℂ)
    (hXX : ∀ f j, (XX f j).PosSemidef) (s : MSt F n m t K) (hs : MInv np floor s)
    (hP : ∀ k f, toPsd np floor (matP s k f) = matP s k f)
    (hQ : ∀ k f, toPsd np floor (matHQH XX s k f) = matHQH XX s k f) (hQp : ∀ k f, (matHQH XX s k f).PosDef)
    (hH : ∀ k f G, gmeanmh np (matP s k f) (matHQH XX s k f) 2 = .ok G → toPsd np floor G = G) :
    ∃ H, fullUpdateSpatial np floor XX (recon s.T s.V) s.H = .ok H ∧ MPos (⟨s.T, s.V, H⟩ : MSt F n m t K) ∧
      fullVal XX (⟨s.T, s.V, H⟩ : MSt F n m t K) ≤ fullVal XX s := by
  obtain ⟨H, h1, h2, h3⟩ := full_spatial_eq np floor XX s hs hP hQ hQp hH
  refine ⟨H, h1, h2, fullVal_le (Finset.sum_le_sum fun f _ => ?_)⟩
  exact Tr.riccati_step (fun j k => recon s.T s.V k f j) (fun j k => recon_pos hs.1.1 hs.1.2.1 k f j)
    (fun k => s.H k f) (fun k => H k f) (fun k => hs.1.2.2 k f) (fun k => h2.2.2 k f) (XX f) (hXX f) (s.R f)
    (fun j => rfl) fun k => h3 k f

theorem full_normalize_step (XX : F → Fin t → Mat m ℂ) {s : MSt F n m t K} (hs : MPos s) :
    MPos (fullNormalize s) ∧ fullVal XX (fullNormalize s) = fullVal XX s ∧
      ∀ f j, (fullNormalize s).R f j = s.R f j := by
  have htr : ∀ k f, 0 < (s.H k f).trace.re := fun k f => (Complex.lt_def.mp (hs.2.2 k f).trace_pos).1
  have h := fullR_normalize s fun k f => (htr k f).ne'
  have hR : ∀ f j, (fullNormalize s).R f j = s.R f j := fun f j => by simp only [MSt.R, fullR, h]
  refine ⟨⟨fun k f b => mul_pos (htr k f) (hs.1 k f b), hs.2.1, fun k f => ?_⟩, ?_, hR⟩
  · simp only [fullNormalize, ← Complex.ofReal_inv]
    exact Tr.smul_posDef (hs.2.2 k f) (inv_pos.mpr (htr k f))
  · simp only [fullVal, hR]

/-- Regularity of one update: the flooring of basis and activation is mild, and `to_psd` changes none of the matrices
it is applied to. -/
structure MReg (np : Numpy ℂ) (normalization : Bool) (floor : ℝ → ℝ) (XX : F → Fin t → Mat m ℂ)
    (s : MSt F n m t K) : Prop where
  basis : ∀ k f b, FloorMild floor (s.T k f b) (fullBasisRaw XX s k f b)
  activation : ∀ s1, fullUpdateBasis np floor XX s = .ok s1 → (∀ f j, toPsd np floor (s1.R f j) = s1.R f j) ∧
    ∀ k b j, FloorMild floor (s1.V k b j) (fullActivationRaw XX s1 k b j)
  spatial : ∀ s1 s2, fullUpdateBasis np floor XX s = .ok s1 → fullUpdateActivation np floor XX s1 = .ok s2 →
    (∀ f j, toPsd np floor (s2.R f j) = s2.R f j) ∧
    ∀ k f, toPsd np floor (matP s2 k f) = matP s2 k f ∧ toPsd np floor (matHQH XX s2 k f) = matHQH XX s2 k f ∧
      (matHQH XX s2 k f).PosDef ∧
      ∀ G, gmeanmh np (matP s2 k f) (matHQH XX s2 k f) 2 = .ok G → toPsd np floor G = G
  result : ∀ s', fullUpdateOnce np normalization floor XX s = .ok s' → ∀ f j, toPsd np floor (s'.R f j) = s'.R f j

theorem full_step (np : Numpy ℂ) (normalization : Bool) (floor : ℝ → ℝ) (XX : F → Fin t → Mat m ℂ)
    (hXX : ∀ f j, (XX f j).PosSemidef) (s : MSt F n m t K) (hs : MInv np floor s)
    (hr : MReg np normalization floor XX s) :
    ∃ s', fullUpdateOnce np normalization floor XX s = .ok s' ∧ MInv np floor s' ∧ fullVal XX s' ≤ fullVal XX s := by
  obtain ⟨s1, e1, p1, l1⟩ : ∃ s1, fullUpdateBasis np floor XX s = .ok s1 ∧ MPos s1 ∧ fullVal XX s1 ≤ fullVal XX s :=
    ⟨_, full_basis_step np floor XX hXX s hs hr.basis⟩
  obtain ⟨i1, f1⟩ := hr.activation _ e1
  obtain ⟨s2, e2, p2, l2⟩ : ∃ s2, fullUpdateActivation np floor XX s1 = .ok s2 ∧ MPos s2 ∧
      fullVal XX s2 ≤ fullVal XX s1 := ⟨_, full_activation_step np floor XX hXX _ ⟨p1, i1⟩ f1⟩
  obtain ⟨i2, f2⟩ := hr.spatial _ _ e1 e2
  obtain ⟨H, e3, p3, l3⟩ := full_spatial_step np floor XX hXX _ ⟨p2, i2⟩ (fun k f => (f2 k f).1)
    (fun k f => (f2 k f).2.1) (fun k f => (f2 k f).2.2.1) fun k f => (f2 k f).2.2.2
  cases normalization with
  | false =>
    have e : fullUpdateOnce np false floor XX s = .ok ⟨s2.T, s2.V, H⟩ := by
      rw [fullUpdateOnce, e1]
      simp only [bind, Except.bind]
      rw [e2]
      simp only
      rw [e3]
      rfl
    exact ⟨_, e, ⟨p3, hr.result _ e⟩, l3.trans (l2.trans l1)⟩
  | true =>
    have e : fullUpdateOnce np true floor XX s = .ok (fullNormalize ⟨s2.T, s2.V, H⟩) := by
      rw [fullUpdateOnce, e1]
      simp only [bind, Except.bind]
      rw [e2]
      simp only
      rw [e3]
      rfl
    obtain ⟨p4, l4, -⟩ := full_normalize_step XX p3
    exact ⟨_, e, ⟨p4, hr.result _ e⟩, l4.trans_le (l3.trans (l2.trans l1))⟩

/-- C56: the losses recorded by `GaussMNMF` without partitioning never increase, for any numbers of sources, channels,
bins, frames, bases and iterations, with and without normalisation. -/
theorem C56_gauss_mnmf (np : Numpy ℂ) (normalization : Bool) (floor : ℝ → ℝ) (XX : F → Fin t → Mat m ℂ)
    (hXX : ∀ f j, (XX f j).PosSemidef) (s : MSt F n m t K) (hs : MInv np floor s) (n_iter : ℕ)
    (hreg : RegularRun (fullUpdateOnce np normalization floor XX) (MReg np normalization floor XX) n_iter s) :
    ∃ ls, lossList (fullUpdateOnce np normalization floor XX) (fun s => fullLoss np floor XX (recon s.T s.V) s.H)
      n_iter s = .ok ls ∧ ls.length = n_iter + 1 ∧ ls.Pairwise (· ≥ ·) := by
  obtain ⟨ls, h1, h2, h3, -⟩ := lossList_antitone (fullUpdateOnce np normalization floor XX)
    (fun s => fullLoss np floor XX (recon s.T s.V) s.H) (MInv np floor) (MReg np normalization floor XX) (fullVal XX)
    (fun s hs => fullLoss_eq XX hs) (fun s hs hr => full_step np normalization floor XX hXX s hs hr) n_iter s hs hreg
  exact ⟨ls, h1, h2, h3⟩

/-- In every bin the vectors `R⁻¹ x` of all frames span the whole space, where `x` is the input and `R` its modelled
covariance. -/
def Spans (XX : F → Fin t → Mat m ℂ) (s : MSt F n m t K) : Prop :=
  ∀ f v, (∀ j, XX f j *ᵥ ((s.R f j)⁻¹ *ᵥ v) = 0) → v = 0

private theorem trace_pos {A B : Mat m ℂ} (hA : A.PosSemidef) (h0 : A ≠ 0) (hB : B.PosDef) : 0 < (A * B).trace.re := by
  obtain ⟨C, hC⟩ := Tr.exists_gram _ hA
  have h := Tr.trace_sandwich hB PosDef.one C
  rw [Matrix.mul_one, ← hC, trace_mul_comm] at h
  refine lt_of_le_of_ne h.1 fun h1 => h0 ?_
  rw [hC, h.2 h1.symm, Matrix.mul_zero]

theorem trace_pos' {R X H : Mat m ℂ} (hR : R.PosDef) (hX : X.PosSemidef) (h0 : X ≠ 0) (hH : H.PosDef) :
    0 < (R⁻¹ * X * (R⁻¹ * H)).trace.re := by
  have hu := Tr.isUnit_det hR
  have h1 := hX.mul_mul_conjTranspose_same R⁻¹
  rw [show (R⁻¹)ᴴ = R⁻¹ from hR.inv.1] at h1
  rw [show R⁻¹ * X * (R⁻¹ * H) = R⁻¹ * X * R⁻¹ * H by simp only [Matrix.mul_assoc]]
  refine trace_pos h1 (fun h => h0 ?_) hH
  have h2 := congrArg (fun M => R * M * R) h
  simp only [Matrix.mul_assoc, nonsing_inv_mul _ hu, Matrix.mul_one, Matrix.mul_zero, Matrix.zero_mul] at h2
  rwa [mul_nonsing_inv_cancel_left _ _ hu] at h2

theorem basisRaw_pos {XX : F → Fin t → Mat m ℂ} (hXX : ∀ f j, (XX f j).PosSemidef) (hb : ∀ f, ∃ j, XX f j ≠ 0)
    {s : MSt F n m t K} (hs : MPos s) (k : Fin n) (f : F) (b : Fin K) : 0 < fullBasisRaw XX s k f b := by
  obtain ⟨j, hj⟩ := hb f
  refine mul_pos (hs.1 k f b) (Real.sqrt_pos.mpr (div_pos ?_ ?_))
  · refine Finset.sum_pos' (fun j _ => mul_nonneg (hs.2.1 k b j).le ?_) ⟨j, Finset.mem_univ _,
      mul_pos (hs.2.1 k b j) (trace_pos' (R_posDef hs f j) (hXX f j) hj (hs.2.2 k f))⟩
    by_cases h0 : XX f j = 0
    · rw [h0, Matrix.mul_zero, Matrix.zero_mul, trace_zero]
      rfl
    · exact (trace_pos' (R_posDef hs f j) (hXX f j) h0 (hs.2.2 k f)).le
  · exact Finset.sum_pos (fun j _ => mul_pos (hs.2.1 k b j) (Tr.trace_mul_pos (R_posDef hs f j).inv (hs.2.2 k f)))
      Finset.univ_nonempty

theorem activationRaw_pos {XX : F → Fin t → Mat m ℂ} (hXX : ∀ f j, (XX f j).PosSemidef) (hz : ∀ j, ∃ f, XX f j ≠ 0)
    {s : MSt F n m t K} (hs : MPos s) (k : Fin n) (b : Fin K) (j : Fin t) : 0 < fullActivationRaw XX s k b j := by
  obtain ⟨f, hf⟩ := hz j
  refine mul_pos (hs.2.1 k b j) (Real.sqrt_pos.mpr (div_pos ?_ ?_))
  · refine Finset.sum_pos' (fun f _ => mul_nonneg (hs.1 k f b).le ?_) ⟨f, Finset.mem_univ _,
      mul_pos (hs.1 k f b) (trace_pos' (R_posDef hs f j) (hXX f j) hf (hs.2.2 k f))⟩
    by_cases h0 : XX f j = 0
    · rw [h0, Matrix.mul_zero, Matrix.zero_mul, trace_zero]
      rfl
    · exact (trace_pos' (R_posDef hs f j) (hXX f j) h0 (hs.2.2 k f)).le
  · exact Finset.sum_pos (fun f _ => mul_pos (hs.1 k f b) (Tr.trace_mul_pos (R_posDef hs f j).inv (hs.2.2 k f)))
      Finset.univ_nonempty

theorem matHQH_posDef {XX : F → Fin t → Mat m ℂ} (hXX : ∀ f j, (XX f j).PosSemidef) {s : MSt F n m t K} (hs : MPos s)
    (hsp : Spans XX s) (k : Fin n) (f : F) : (matHQH XX s k f).PosDef := by
  have hterm : ∀ j, ((recon s.T s.V k f j : ℂ) • ((s.R f j)⁻¹ * XX f j * (s.R f j)⁻¹)).PosSemidef := by
    intro j
    have h1 := (hXX f j).mul_mul_conjTranspose_same (s.R f j)⁻¹
    rw [show ((s.R f j)⁻¹)ᴴ = (s.R f j)⁻¹ from (R_posDef hs f j).inv.1] at h1
    exact h1.smul (by exact_mod_cast (recon_pos hs.1 hs.2.1 k f j).le)
  have hQ : (∑ j, (recon s.T s.V k f j : ℂ) • ((s.R f j)⁻¹ * XX f j * (s.R f j)⁻¹)).PosDef := by
    refine (posSemidef_sum _ fun j _ => hterm j).posDef_iff_isUnit.mpr ?_
    rw [isUnit_iff_isUnit_det, isUnit_iff_ne_zero]
    intro hdet
    obtain ⟨v, hv, h0⟩ := exists_mulVec_eq_zero_iff.mpr hdet
    refine hv (hsp f v fun j => ?_)
    have h1 : ∑ j, star v ⬝ᵥ (((recon s.T s.V k f j : ℂ) • ((s.R f j)⁻¹ * XX f j * (s.R f j)⁻¹)) *ᵥ v) = 0 := by
      rw [← dotProduct_sum, ← sum_mulVec, h0, dotProduct_zero]
    have h2 := (Finset.sum_eq_zero_iff_of_nonneg fun j _ => (hterm j).dotProduct_mulVec_nonneg v).mp h1 j
      (Finset.mem_univ _)
    have h3 := (hterm j).dotProduct_mulVec_zero_iff v |>.mp h2
    have hne : (recon s.T s.V k f j : ℂ) ≠ 0 := by exact_mod_cast (recon_pos hs.1 hs.2.1 k f j).ne'
    rw [smul_mulVec, smul_eq_zero] at h3
    have h4 := congrArg (fun w => s.R f j *ᵥ w) (h3.resolve_left hne)
    simp only [mulVec_zero, mulVec_mulVec] at h4
    rw [← Matrix.mul_assoc, mul_nonsing_inv_cancel_left _ _ (Tr.isUnit_det (R_posDef hs f j)), ← mulVec_mulVec] at h4
    exact h4
  have := hQ.mul_mul_conjTranspose_same (B := s.H k f) (vecMul_injective_iff_isUnit.mpr (hs.2.2 k f).isUnit)
  rwa [show (s.H k f)ᴴ = s.H k f from (hs.2.2 k f).1] at this

/-- What remains of the regularity of one update without flooring. -/
def MSpan (np : Numpy ℂ) (XX : F → Fin t → Mat m ℂ) (s : MSt F n m t K) : Prop :=
  ∀ s1 s2, fullUpdateBasis np id XX s = .ok s1 → fullUpdateActivation np id XX s1 = .ok s2 → Spans XX s2

theorem mInv_id (np : Numpy ℂ) {s : MSt F n m t K} (hs : MPos s) : MInv np id s :=
  ⟨hs, fun f j => toPsd_id np (R_posDef hs f j).1⟩

/-- The intermediate states of one update without flooring. -/
theorem full_steps_id (np : Numpy ℂ) (normalization : Bool) {XX : F → Fin t → Mat m ℂ}
    (hXX : ∀ f j, (XX f j).PosSemidef) (hb : ∀ f, ∃ j, XX f j ≠ 0) (hz : ∀ j, ∃ f, XX f j ≠ 0)
    (s : MSt F n m t K) (hs : MPos s) (hsp : MSpan np XX s) :
    ∃ s1 s2 s', fullUpdateBasis np id XX s = .ok s1 ∧ fullUpdateActivation np id XX s1 = .ok s2 ∧
      fullUpdateOnce np normalization id XX s = .ok s' ∧ MPos s1 ∧ MPos s2 ∧ MPos s' ∧
      (∀ k f, (matHQH XX s2 k f).PosDef) ∧
      ∀ k f G, gmeanmh np (matP s2 k f) (matHQH XX s2 k f) 2 = .ok G → toPsd np id G = G := by
  obtain ⟨s1, e1, p1, -⟩ : ∃ s1, fullUpdateBasis np id XX s = .ok s1 ∧ MPos s1 ∧ fullVal XX s1 ≤ fullVal XX s :=
    ⟨_, full_basis_step np id XX hXX s (mInv_id np hs) fun k f b => FloorMild.of_id (basisRaw_pos hXX hb hs k f b)⟩
  obtain ⟨s2, e2, p2, -⟩ : ∃ s2, fullUpdateActivation np id XX s1 = .ok s2 ∧ MPos s2 ∧
      fullVal XX s2 ≤ fullVal XX s1 := ⟨_, full_activation_step np id XX hXX _ (mInv_id np p1)
    fun k b j => FloorMild.of_id (activationRaw_pos hXX hz p1 k b j)⟩
  have hQ := matHQH_posDef hXX p2 (hsp s1 s2 e1 e2)
  have hG : ∀ k f G, gmeanmh np (matP s2 k f) (matHQH XX s2 k f) 2 = .ok G → toPsd np id G = G := by
    intro k f G h
    obtain ⟨G', h1, h2, -⟩ := C17_gmeanmh np (matP s2 k f) (matHQH XX s2 k f) (matP_posDef p2 k f) (hQ k f) 2
      (Or.inr (Or.inl rfl))
    rw [h] at h1
    cases h1
    exact toPsd_id np h2.1
  obtain ⟨H, e3, p3, -⟩ := full_spatial_step np id XX hXX _ (mInv_id np p2)
    (fun k f => toPsd_id np (matP_posDef p2 k f).1) (fun k f => toPsd_id np (hQ k f).1) hQ hG
  refine ⟨s1, s2, if normalization then fullNormalize ⟨s2.T, s2.V, H⟩ else ⟨s2.T, s2.V, H⟩, e1, e2, ?_, p1, p2, ?_, hQ,
    hG⟩
  · rw [fullUpdateOnce, e1]
    simp only [bind, Except.bind]
    rw [e2]
    simp only
    rw [e3]
  · cases normalization
    · exact p3
    · exact (full_normalize_step XX p3).1

theorem mReg_id (np : Numpy ℂ) (normalization : Bool) {XX : F → Fin t → Mat m ℂ}
    (hXX : ∀ f j, (XX f j).PosSemidef) (hb : ∀ f, ∃ j, XX f j ≠ 0) (hz : ∀ j, ∃ f, XX f j ≠ 0)
    (s : MSt F n m t K) (hs : MPos s) (hsp : MSpan np XX s) : MReg np normalization id XX s := by
  obtain ⟨s1, s2, s', e1, e2, e3, p1, p2, p3, hQ, hG⟩ := full_steps_id np normalization hXX hb hz s hs hsp
  refine ⟨fun k f b => FloorMild.of_id (basisRaw_pos hXX hb hs k f b), fun s1' h => ?_, fun s1' s2' h h' => ?_,
    fun s'' h => ?_⟩
  · rw [e1] at h
    cases h
    exact ⟨(mInv_id np p1).2, fun k b j => FloorMild.of_id (activationRaw_pos hXX hz p1 k b j)⟩
  · rw [e1] at h
    cases h
    rw [e2] at h'
    cases h'
    exact ⟨(mInv_id np p2).2, fun k f => ⟨toPsd_id np (matP_posDef p2 k f).1, toPsd_id np (hQ k f).1, hQ k f, hG k f⟩⟩
  · rw [e3] at h
    cases h
    exact (mInv_id np p3).2

/-- C56: without flooring, for instantaneous covariances of any rank (`x xᴴ` has rank one), the losses recorded by
`GaussMNMF` never increase as long as the vectors `R⁻¹ x` of every bin span the whole space at each spatial update. -/
theorem C56_no_flooring (np : Numpy ℂ) (normalization : Bool) (XX : F → Fin t → Mat m ℂ)
    (hXX : ∀ f j, (XX f j).PosSemidef) (hb : ∀ f, ∃ j, XX f j ≠ 0) (hz : ∀ j, ∃ f, XX f j ≠ 0)
    (s : MSt F n m t K) (hs : MPos s) (n_iter : ℕ)
    (hsp : RegularRun (fullUpdateOnce np normalization id XX) (MSpan np XX) n_iter s) :
    ∃ ls, lossList (fullUpdateOnce np normalization id XX) (fun s => fullLoss np id XX (recon s.T s.V) s.H)
      n_iter s = .ok ls ∧ ls.length = n_iter + 1 ∧ ls.Pairwise (· ≥ ·) := by
  refine C56_gauss_mnmf np normalization id XX hXX s (mInv_id np hs) n_iter ?_
  induction n_iter generalizing s with
  | zero => trivial
  | succ n ih =>
    refine ⟨mReg_id np normalization hXX hb hz s hs hsp.1, fun s' h => ?_⟩
    obtain ⟨-, -, s'', -, -, e, -, -, p, -⟩ := full_steps_id np normalization hXX hb hz s hs hsp.1
    rw [h] at e
    cases e
    exact ih s' p (hsp.2 s' h)

theorem spans_of_posDef {XX : F → Fin t → Mat m ℂ} (hXX : ∀ f j, (XX f j).PosDef) {s : MSt F n m t K} (hs : MPos s) :
    Spans XX s := by
  intro f v h
  have h1 := h (Classical.arbitrary _)
  have h2 := eq_zero_of_mulVec_eq_zero (Tr.isUnit_det (hXX f _)).ne_zero h1
  exact eq_zero_of_mulVec_eq_zero (Tr.isUnit_det (R_posDef hs f _).inv).ne_zero h2

/-- C56: without flooring and with positive definite instantaneous covariances, every run from positive parameters is
regular: the losses recorded by `GaussMNMF` never increase. -/
theorem C56_unfloored (np : Numpy ℂ) (normalization : Bool) (XX : F → Fin t → Mat m ℂ)
    (hXX : ∀ f j, (XX f j).PosDef) (s : MSt F n m t K) (hs : MPos s) (n_iter : ℕ) :
    ∃ ls, lossList (fullUpdateOnce np normalization id XX) (fun s => fullLoss np id XX (recon s.T s.V) s.H)
      n_iter s = .ok ls ∧ ls.length = n_iter + 1 ∧ ls.Pairwise (· ≥ ·) := by
  have hX' : ∀ f j, (XX f j).PosSemidef := fun f j => (hXX f j).posSemidef
  have h0 : ∀ f j, XX f j ≠ 0 := fun f j h => by
    have := (Tr.isUnit_det (hXX f j)).ne_zero
    rw [h, det_zero] at this
    exact this rfl
  have hb : ∀ f, ∃ j, XX f j ≠ 0 := fun f => ⟨Classical.arbitrary _, h0 f _⟩
  have hz : ∀ j, ∃ f, XX f j ≠ 0 := fun j => ⟨Classical.arbitrary _, h0 _ j⟩
  have hspan : ∀ s : MSt F n m t K, MPos s → MSpan np XX s := by
    intro s hs s1 s2 e1 e2
    obtain ⟨e1', p1, -⟩ := full_basis_step np id XX hX' s (mInv_id np hs)
      fun k f b => FloorMild.of_id (basisRaw_pos hX' hb hs k f b)
    rw [e1] at e1'
    cases e1'
    obtain ⟨e2', p2, -⟩ := full_activation_step np id XX hX' _ (mInv_id np p1)
      fun k b j => FloorMild.of_id (activationRaw_pos hX' hz p1 k b j)
    rw [e2] at e2'
    cases e2'
    exact spans_of_posDef hXX p2
  refine C56_no_flooring np normalization XX hX' hb hz s hs n_iter (regularRun_of_inv MPos hspan (fun s s' hs h => ?_) _ _ hs)
  obtain ⟨-, -, s'', -, -, e, -, -, p, -⟩ := full_steps_id np normalization hX' hb hz s hs (hspan s hs)
  rw [h] at e
  cases e
  exact p

end

/-- Two sources, two channels, three frames. -/
example (np : Numpy ℂ) (n_iter : ℕ) :
    ∃ ls, lossList (fullUpdateOnce np true id fun (_ : Unit) (j : Fin 3) => (((j : ℝ) + 1 : ℝ) : ℂ) • (1 : Mat 2 ℂ))
      (fun s => fullLoss np id (fun (_ : Unit) (j : Fin 3) => (((j : ℝ) + 1 : ℝ) : ℂ) • (1 : Mat 2 ℂ))
        (recon s.T s.V) s.H) n_iter
      (⟨fun _ _ _ => 1, fun _ _ _ => 2, fun k _ => (((k : ℝ) + 1 : ℝ) : ℂ) • 1⟩ : MSt Unit 2 2 3 2) = .ok ls ∧
      ls.length = n_iter + 1 ∧ ls.Pairwise (· ≥ ·) :=
  C56_unfloored np true _ (fun _ j => Tr.smul_posDef PosDef.one (by positivity)) _
    ⟨fun _ _ _ => one_pos, fun _ _ _ => two_pos, fun k _ => Tr.smul_posDef PosDef.one (by positivity)⟩ n_iter

end Verif.Mnmf
