import Verif.Props.MnmfFull
import Verif.Lemmas.MatStrict
import Verif.Lemmas.IlrmaStrict

/-!
# GaussMNMF makes the loss strictly smaller unless it has reached a stationary point (C66)

One iteration of `GaussMNMF` without partitioning: bases, activations and spatial covariances are updated in turn.  The
loss becomes strictly smaller exactly if some partial derivative of the loss does not vanish; at a stationary point only
the normalization acts.
-/

set_option linter.unusedSectionVars false

namespace Verif.Mnmf
open Matrix Spatial Scale Ilrma Special Linalg
open scoped ComplexOrder

variable {F : Type} [Fintype F] {n m t K : ℕ}

/-- The number `compute_loss` returns without flooring. -/
noncomputable def mLossVal (np : Numpy ℂ) (XX : F → Fin t → Mat m ℂ) (s : MSt F n m t K) : ℝ :=
  match fullLoss np id XX (recon s.T s.V) s.H with
  | .ok l => l
  | .error _ => 0

/-- The derivative of the loss vanishes in every direction of the bases. -/
def MStationaryBasis (np : Numpy ℂ) (XX : F → Fin t → Mat m ℂ) (s : MSt F n m t K) : Prop :=
  ∀ A : Fin n → F → Fin K → ℝ,
    HasDerivAt (fun ε : ℝ => mLossVal np XX ⟨fun k f b => s.T k f b + ε * A k f b, s.V, s.H⟩) 0 0

/-- ... of the activations. -/
def MStationaryActivation (np : Numpy ℂ) (XX : F → Fin t → Mat m ℂ) (s : MSt F n m t K) : Prop :=
  ∀ A : Fin n → Fin K → Fin t → ℝ,
    HasDerivAt (fun ε : ℝ => mLossVal np XX ⟨s.T, fun k b j => s.V k b j + ε * A k b j, s.H⟩) 0 0

/-- ... of the spatial covariances, along Hermitian matrices. -/
def MStationarySpatial (np : Numpy ℂ) (XX : F → Fin t → Mat m ℂ) (s : MSt F n m t K) : Prop :=
  ∀ A : Fin n → F → Mat m ℂ, (∀ k f, (A k f).IsHermitian) →
    HasDerivAt (fun ε : ℝ => mLossVal np XX ⟨s.T, s.V, fun k f => s.H k f + (ε : ℂ) • A k f⟩) 0 0

/-- All partial derivatives of the loss vanish. -/
def MStationary (np : Numpy ℂ) (XX : F → Fin t → Mat m ℂ) (s : MSt F n m t K) : Prop :=
  MStationaryBasis np XX s ∧ MStationaryActivation np XX s ∧ MStationarySpatial np XX s

section

variable [Nonempty (Fin K)] [Nonempty (Fin n)]

theorem mLossVal_eq (np : Numpy ℂ) (XX : F → Fin t → Mat m ℂ) {s : MSt F n m t K}
    (hH : ∀ f j, (s.R f j).IsHermitian) (hu : ∀ f j, IsUnit (s.R f j).det) : mLossVal np XX s = fullVal XX s := by
  have h0 : ∀ f j, toPsd np id (s.R f j) = s.R f j := fun f j => toPsd_id np (hH f j)
  have h1 : (onBins fun f => onBins fun j => npSolve (s.R f j) (XX f j)) = .ok fun f j => (s.R f j)⁻¹ * XX f j :=
    onBins_ok fun f => onBins_ok fun j => by rw [npSolve, if_pos (hu f j)]
  simp only [mLossVal, fullLoss, h0, h1, bind, Except.bind]
  rfl

variable [Nonempty (Fin m)] [Nonempty (Fin t)] [Nonempty F]

/-- Along a line of states whose covariances move along a line, the derivative of the loss vanishes exactly if that of
the sums over all points does. -/
theorem hasDerivAt_mLossVal_iff (np : Numpy ℂ) (XX : F → Fin t → Mat m ℂ) {s : MSt F n m t K} (hs : MPos s)
    (c : ℝ → MSt F n m t K) (D : F → Fin t → Mat m ℂ) (hD : ∀ f j, (D f j).IsHermitian)
    (hc : ∀ ε f j, (c ε).R f j = s.R f j + (ε : ℂ) • D f j) (V : ℝ → ℝ)
    (hV : ∀ ε, V ε = ∑ f, ∑ j, ((((c ε).R f j)⁻¹ * XX f j).trace.re + Real.log ‖((c ε).R f j).det‖)) :
    HasDerivAt (fun ε => mLossVal np XX (c ε)) 0 0 ↔ HasDerivAt V 0 0 := by
  have h1 : ∀ᶠ ε : ℝ in nhds 0, ∀ f j, IsUnit ((c ε).R f j).det := by
    simp only [hc]
    exact Filter.eventually_all.mpr fun f => Filter.eventually_all.mpr fun j =>
      Tr.eventually_isUnit _ _ (Tr.isUnit_det (R_posDef hs f j))
  have h2 : (fun ε => mLossVal np XX (c ε)) =ᶠ[nhds 0] fun ε => V ε / t := by
    refine h1.mono fun ε hε => ?_
    change mLossVal np XX (c ε) = V ε / t
    rw [mLossVal_eq np XX (fun f j => ?_) hε, hV]
    · simp only [fullVal, meanT, Finset.sum_div]
    · rw [hc]
      refine (R_posDef hs f j).1.add ?_
      rw [IsHermitian, conjTranspose_smul, (hD f j).eq]
      exact congrArg (· • D f j) (Complex.conj_ofReal ε)
  have ht : (t : ℝ) ≠ 0 := by
    have : 0 < t := Fin.pos (Classical.arbitrary (Fin t))
    exact_mod_cast this.ne'
  rw [h2.hasDerivAt_iff]
  constructor
  · intro h
    have := h.mul_const (t : ℝ)
    simpa only [zero_mul, div_mul_cancel₀ _ ht] using this
  · intro h
    simpa only [zero_div] using h.div_const (t : ℝ)

theorem fullVal_lt {XX : F → Fin t → Mat m ℂ} {s s' : MSt F n m t K}
    (h : ∑ f, ∑ j, (((s'.R f j)⁻¹ * XX f j).trace.re + Real.log ‖(s'.R f j).det‖)
      < ∑ f, ∑ j, (((s.R f j)⁻¹ * XX f j).trace.re + Real.log ‖(s.R f j).det‖)) : fullVal XX s' < fullVal XX s := by
  simp only [fullVal, meanT, ← Finset.sum_div]
  exact div_lt_div_of_pos_right h (Nat.cast_pos.mpr (Fin.pos (Classical.arbitrary (Fin t))))

theorem hermitian_sum {J : Type} [Fintype J] {A : J → Mat m ℂ} (hA : ∀ j, (A j).IsHermitian) (c : J → ℝ) :
    (∑ j, (c j : ℂ) • A j).IsHermitian := by
  rw [IsHermitian, conjTranspose_sum]
  refine Finset.sum_congr rfl fun j _ => ?_
  rw [conjTranspose_smul, (hA j).eq]
  exact congrArg (· • A j) (Complex.conj_ofReal _)

theorem basis_val (XX : F → Fin t → Mat m ℂ) (T : Fin n → F → Fin K → ℝ) (V : Fin n → Fin K → Fin t → ℝ)
    (H : Fin n → F → Mat m ℂ) :
    ∑ f, ∑ j, ((((⟨T, V, H⟩ : MSt F n m t K).R f j)⁻¹ * XX f j).trace.re
        + Real.log ‖((⟨T, V, H⟩ : MSt F n m t K).R f j).det‖)
      = ∑ f, Tr.sliceVal (fun j (p : Fin n × Fin K) => (V p.1 p.2 j : ℂ) • H p.1 f) (XX f) fun p => T p.1 f p.2 := by
  simp only [R_basis, Tr.sliceVal]

theorem activation_val (XX : F → Fin t → Mat m ℂ) (T : Fin n → F → Fin K → ℝ) (V : Fin n → Fin K → Fin t → ℝ)
    (H : Fin n → F → Mat m ℂ) :
    ∑ f, ∑ j, ((((⟨T, V, H⟩ : MSt F n m t K).R f j)⁻¹ * XX f j).trace.re
        + Real.log ‖((⟨T, V, H⟩ : MSt F n m t K).R f j).det‖)
      = ∑ j, Tr.sliceVal (fun f (p : Fin n × Fin K) => (T p.1 f p.2 : ℂ) • H p.1 f) (fun f => XX f j)
        fun p => V p.1 p.2 j := by
  rw [Finset.sum_comm]
  simp only [R_activation, Tr.sliceVal]

theorem hasDerivAt_basis_iff (np : Numpy ℂ) (XX : F → Fin t → Mat m ℂ) {T : Fin n → F → Fin K → ℝ}
    {V : Fin n → Fin K → Fin t → ℝ} {H : Fin n → F → Mat m ℂ} (hs : MPos (⟨T, V, H⟩ : MSt F n m t K))
    (A : Fin n → F → Fin K → ℝ) :
    HasDerivAt (fun ε : ℝ => mLossVal np XX (⟨fun k f b => T k f b + ε * A k f b, V, H⟩ : MSt F n m t K)) 0 0 ↔
      HasDerivAt (fun ε : ℝ => ∑ f, Tr.sliceVal (fun j (p : Fin n × Fin K) => (V p.1 p.2 j : ℂ) • H p.1 f) (XX f)
        fun p => T p.1 f p.2 + ε * A p.1 f p.2) 0 0 := by
  refine hasDerivAt_mLossVal_iff np XX hs (fun ε => ⟨fun k f b => T k f b + ε * A k f b, V, H⟩)
    (fun f j => ∑ p : Fin n × Fin K, (A p.1 f p.2 : ℂ) • ((V p.1 p.2 j : ℂ) • H p.1 f))
    (fun f j => hermitian_sum (A := fun p : Fin n × Fin K => (V p.1 p.2 j : ℂ) • H p.1 f)
      (fun p => (Tr.smul_posDef (hs.2.2 p.1 f) (hs.2.1 p.1 p.2 j)).1) fun p => A p.1 f p.2) (fun ε f j => ?_) _
    fun ε => (basis_val XX (fun k f b => T k f b + ε * A k f b) V H).symm
  rw [R_basis, R_basis, Finset.smul_sum, ← Finset.sum_add_distrib]
  refine Finset.sum_congr rfl fun p _ => ?_
  push_cast
  rw [add_smul, smul_smul (ε : ℂ)]

theorem hasDerivAt_activation_iff (np : Numpy ℂ) (XX : F → Fin t → Mat m ℂ) {T : Fin n → F → Fin K → ℝ}
    {V : Fin n → Fin K → Fin t → ℝ} {H : Fin n → F → Mat m ℂ} (hs : MPos (⟨T, V, H⟩ : MSt F n m t K))
    (A : Fin n → Fin K → Fin t → ℝ) :
    HasDerivAt (fun ε : ℝ => mLossVal np XX (⟨T, fun k b j => V k b j + ε * A k b j, H⟩ : MSt F n m t K)) 0 0 ↔
      HasDerivAt (fun ε : ℝ => ∑ j, Tr.sliceVal (fun f (p : Fin n × Fin K) => (T p.1 f p.2 : ℂ) • H p.1 f)
        (fun f => XX f j) fun p => V p.1 p.2 j + ε * A p.1 p.2 j) 0 0 := by
  refine hasDerivAt_mLossVal_iff np XX hs (fun ε => ⟨T, fun k b j => V k b j + ε * A k b j, H⟩)
    (fun f j => ∑ p : Fin n × Fin K, (A p.1 p.2 j : ℂ) • ((T p.1 f p.2 : ℂ) • H p.1 f))
    (fun f j => hermitian_sum (A := fun p : Fin n × Fin K => (T p.1 f p.2 : ℂ) • H p.1 f)
      (fun p => (Tr.smul_posDef (hs.2.2 p.1 f) (hs.1 p.1 f p.2)).1) fun p => A p.1 p.2 j) (fun ε f j => ?_) _
    fun ε => (activation_val XX T (fun k b j => V k b j + ε * A k b j) H).symm
  rw [R_activation, R_activation, Finset.smul_sum, ← Finset.sum_add_distrib]
  refine Finset.sum_congr rfl fun p _ => ?_
  push_cast
  rw [add_smul, smul_smul (ε : ℂ)]

theorem full_basis_strict (np : Numpy ℂ) (floor : ℝ → ℝ) (XX : F → Fin t → Mat m ℂ)
    (hXX : ∀ f j, (XX f j).PosSemidef) (s : MSt F n m t K) (hs : MPos s)
    (hfl : ∀ k f b, Exact floor (fullBasisRaw XX s k f b)) {s' : MSt F n m t K}
    (hs' : s' = ⟨fun k f b => floor (fullBasisRaw XX s k f b), s.V, s.H⟩) :
    (fullVal XX s' < fullVal XX s ∨ s' = s) ∧ (s' = s ↔ MStationaryBasis np XX s) := by
  obtain ⟨T, V, H⟩ := s
  subst hs'
  have key := Tr.slices_strict (O := F) (I := Fin t) (J := Fin n × Fin K) (m := fun _ _ => m)
    (fun _ => ⟨Classical.arbitrary _, Fin.pos (Classical.arbitrary (Fin m))⟩)
    (fun f j p => (V p.1 p.2 j : ℂ) • H p.1 f)
    (fun f j p => Tr.smul_posDef (hs.2.2 p.1 f) (hs.2.1 p.1 p.2 j)) XX hXX
    (fun f p => T p.1 f p.2) (fun f p => floor (fullBasisRaw XX ⟨T, V, H⟩ p.1 f p.2)) (fun f p => hs.1 p.1 f p.2)
    (fun f p => by rw [(hfl p.1 f p.2).2]; exact (hfl p.1 f p.2).1)
    (fun f p => by
      rw [(hfl p.1 f p.2).2]
      simp only [fullBasisRaw, Tr.sliceNum, Tr.sliceDenom, ← R_basis T V H f, mul_smul_comm, trace_smul, smul_eq_mul,
        Complex.re_ofReal_mul])
  have heq : (⟨fun k f b => floor (fullBasisRaw XX ⟨T, V, H⟩ k f b), V, H⟩ : MSt F n m t K) = ⟨T, V, H⟩ ↔
      (fun f (p : Fin n × Fin K) => floor (fullBasisRaw XX ⟨T, V, H⟩ p.1 f p.2)) = fun f p => T p.1 f p.2 := by
    constructor
    · intro h
      have h1 := congrArg MSt.T h
      funext f p
      exact congrFun (congrFun (congrFun h1 p.1) f) p.2
    · intro h
      congr 1
      funext k f b
      exact congrFun (congrFun h f) (k, b)
  rw [heq]
  refine ⟨key.1.imp (fun h => fullVal_lt ?_) id, key.2.trans ⟨fun h A => ?_, fun h D => ?_⟩⟩
  · rw [basis_val, basis_val]
    exact h
  · exact (hasDerivAt_basis_iff np XX hs A).mpr (h fun f p => A p.1 f p.2)
  · exact (hasDerivAt_basis_iff np XX hs fun k f b => D f (k, b)).mp (h _)

theorem full_activation_strict (np : Numpy ℂ) (floor : ℝ → ℝ) (XX : F → Fin t → Mat m ℂ)
    (hXX : ∀ f j, (XX f j).PosSemidef) (s : MSt F n m t K) (hs : MPos s)
    (hfl : ∀ k b j, Exact floor (fullActivationRaw XX s k b j)) {s' : MSt F n m t K}
    (hs' : s' = ⟨s.T, fun k b j => floor (fullActivationRaw XX s k b j), s.H⟩) :
    (fullVal XX s' < fullVal XX s ∨ s' = s) ∧ (s' = s ↔ MStationaryActivation np XX s) := by
  obtain ⟨T, V, H⟩ := s
  subst hs'
  have key := Tr.slices_strict (O := Fin t) (I := F) (J := Fin n × Fin K) (m := fun _ _ => m)
    (fun _ => ⟨Classical.arbitrary _, Fin.pos (Classical.arbitrary (Fin m))⟩)
    (fun j f p => (T p.1 f p.2 : ℂ) • H p.1 f)
    (fun j f p => Tr.smul_posDef (hs.2.2 p.1 f) (hs.1 p.1 f p.2)) (fun j f => XX f j) (fun j f => hXX f j)
    (fun j p => V p.1 p.2 j) (fun j p => floor (fullActivationRaw XX ⟨T, V, H⟩ p.1 p.2 j)) (fun j p => hs.2.1 p.1 p.2 j)
    (fun j p => by rw [(hfl p.1 p.2 j).2]; exact (hfl p.1 p.2 j).1)
    (fun j p => by
      rw [(hfl p.1 p.2 j).2]
      simp only [fullActivationRaw, Tr.sliceNum, Tr.sliceDenom, ← R_activation T V H, mul_smul_comm, trace_smul,
        smul_eq_mul, Complex.re_ofReal_mul])
  have heq : (⟨T, fun k b j => floor (fullActivationRaw XX ⟨T, V, H⟩ k b j), H⟩ : MSt F n m t K) = ⟨T, V, H⟩ ↔
      (fun j (p : Fin n × Fin K) => floor (fullActivationRaw XX ⟨T, V, H⟩ p.1 p.2 j)) = fun j p => V p.1 p.2 j := by
    constructor
    · intro h
      have h1 := congrArg MSt.V h
      funext j p
      exact congrFun (congrFun (congrFun h1 p.1) p.2) j
    · intro h
      congr 1
      funext k b j
      exact congrFun (congrFun h j) (k, b)
  rw [heq]
  refine ⟨key.1.imp (fun h => fullVal_lt ?_) id, key.2.trans ⟨fun h A => ?_, fun h D => ?_⟩⟩
  · rw [activation_val, activation_val]
    exact h
  · exact (hasDerivAt_activation_iff np XX hs A).mpr (h fun j p => A p.1 p.2 j)
  · exact (hasDerivAt_activation_iff np XX hs fun k b j => D j (k, b)).mp (h _)

theorem full_spatial_strict (np : Numpy ℂ) (XX : F → Fin t → Mat m ℂ)
    (hXX : ∀ f j, (XX f j).PosSemidef) (s : MSt F n m t K) (hs : MPos s) {G : Fin n → F → Mat m ℂ}
    (hG : ∀ k f, (G k f).PosDef) (hr : ∀ k f, G k f * matP s k f * G k f = matHQH XX s k f) {s' : MSt F n m t K}
    (hs' : s' = ⟨s.T, s.V, G⟩) :
    (fullVal XX s' < fullVal XX s ∨ s' = s) ∧ (s' = s ↔ MStationarySpatial np XX s) := by
  obtain ⟨T, V, H⟩ := s
  subst hs'
  have key := Tr.riccatis_strict (O := F) (I := Fin t) (J := Fin n) (m := fun _ => m)
    (fun f j k => recon T V k f j) (fun f j k => recon_pos hs.1 hs.2.1 k f j) XX hXX (fun f k => H k f)
    (fun f k => G k f) (fun f k => hs.2.2 k f) (fun f k => hG k f) (fun f k => hr k f)
  have heq : (⟨T, V, G⟩ : MSt F n m t K) = ⟨T, V, H⟩ ↔ (fun f k => G k f) = fun f k => H k f := by
    constructor
    · intro h
      have h1 := congrArg MSt.H h
      funext f k
      exact congrFun (congrFun h1 k) f
    · intro h
      congr 1
      funext k f
      exact congrFun (congrFun h f) k
  have hline : ∀ (D : Fin n → F → Mat m ℂ) (ε : ℝ) f j,
      (⟨T, V, fun k f => H k f + (ε : ℂ) • D k f⟩ : MSt F n m t K).R f j
        = (⟨T, V, H⟩ : MSt F n m t K).R f j + (ε : ℂ) • ∑ k, (recon T V k f j : ℂ) • D k f := by
    intro D ε f j
    simp only [MSt.R, fullR, fullRn, smul_add, Finset.sum_add_distrib, Finset.smul_sum]
    congr 1
    exact Finset.sum_congr rfl fun k _ => smul_comm _ _ _
  rw [heq]
  refine ⟨key.1.imp (fun h => fullVal_lt h) id, key.2.trans ⟨fun h A hA => ?_, fun h D hD => ?_⟩⟩
  · exact (hasDerivAt_mLossVal_iff np XX hs _ (fun f j => ∑ k, (recon T V k f j : ℂ) • A k f)
      (fun f j => hermitian_sum (fun k => hA k f) _) (hline A) _ fun ε => rfl).mpr (h (fun f k => A k f) fun f k => hA k f)
  · exact (hasDerivAt_mLossVal_iff np XX hs _ (fun f j => ∑ k, (recon T V k f j : ℂ) • D f k)
      (fun f j => hermitian_sum (fun k => hD f k) _) (hline fun k f => D f k) _ fun ε => rfl).mp
      (h (fun k f => D f k) fun k f => hD f k)

/-- The flooring is inactive in the iteration that starts at `s`. -/
structure MRegExact (np : Numpy ℂ) (normalization : Bool) (floor : ℝ → ℝ) (XX : F → Fin t → Mat m ℂ)
    (s : MSt F n m t K) : Prop where
  basis : ∀ k f b, Exact floor (fullBasisRaw XX s k f b)
  activation : ∀ s1, fullUpdateBasis np floor XX s = .ok s1 → (∀ f j, toPsd np floor (s1.R f j) = s1.R f j) ∧
    ∀ k b j, Exact floor (fullActivationRaw XX s1 k b j)
  spatial : ∀ s1 s2, fullUpdateBasis np floor XX s = .ok s1 → fullUpdateActivation np floor XX s1 = .ok s2 →
    (∀ f j, toPsd np floor (s2.R f j) = s2.R f j) ∧
    ∀ k f, toPsd np floor (matP s2 k f) = matP s2 k f ∧ toPsd np floor (matHQH XX s2 k f) = matHQH XX s2 k f ∧
      (matHQH XX s2 k f).PosDef ∧
      ∀ G, gmeanmh np (matP s2 k f) (matHQH XX s2 k f) 2 = .ok G → toPsd np floor G = G
  result : ∀ s', fullUpdateOnce np normalization floor XX s = .ok s' → ∀ f j, toPsd np floor (s'.R f j) = s'.R f j

/-- One iteration of `GaussMNMF`: the recorded loss becomes strictly smaller exactly if the state is not stationary; at a
stationary state only the normalization acts. -/
theorem C66_gauss_mnmf (np : Numpy ℂ) (normalization : Bool) (floor : ℝ → ℝ) (XX : F → Fin t → Mat m ℂ)
    (hXX : ∀ f j, (XX f j).PosSemidef) (s : MSt F n m t K) (hs : MInv np floor s)
    (hr : MRegExact np normalization floor XX s) :
    ∃ s' l l', fullUpdateOnce np normalization floor XX s = .ok s' ∧ MInv np floor s' ∧
      fullLoss np floor XX (recon s.T s.V) s.H = .ok l ∧ fullLoss np floor XX (recon s'.T s'.V) s'.H = .ok l' ∧
      (l' < l ↔ ¬ MStationary np XX s) ∧
      (MStationary np XX s → s' = if normalization then fullNormalize s else s) := by
  obtain ⟨e1, p1, -⟩ := full_basis_step np floor XX hXX s hs fun k f b => (hr.basis k f b).mild _
  obtain ⟨s1, d1⟩ : ∃ s1 : MSt F n m t K, s1 = ⟨fun k f b => floor (fullBasisRaw XX s k f b), s.V, s.H⟩ := ⟨_, rfl⟩
  rw [← d1] at e1 p1
  obtain ⟨i1, f1⟩ := hr.activation _ e1
  obtain ⟨e2, p2, -⟩ := full_activation_step np floor XX hXX s1 ⟨p1, i1⟩ fun k b j => (f1 k b j).mild _
  obtain ⟨s2, d2⟩ : ∃ s2 : MSt F n m t K, s2 = ⟨s1.T, fun k b j => floor (fullActivationRaw XX s1 k b j), s1.H⟩ :=
    ⟨_, rfl⟩
  rw [← d2] at e2 p2
  obtain ⟨i2, f2⟩ := hr.spatial _ _ e1 e2
  obtain ⟨H, e3, p3, r3⟩ := full_spatial_eq np floor XX s2 ⟨p2, i2⟩ (fun k f => (f2 k f).1)
    (fun k f => (f2 k f).2.1) (fun k f => (f2 k f).2.2.1) fun k f => (f2 k f).2.2.2
  obtain ⟨s3, d3⟩ : ∃ s3 : MSt F n m t K, s3 = ⟨s2.T, s2.V, H⟩ := ⟨_, rfl⟩
  obtain ⟨b1, b2⟩ := full_basis_strict np floor XX hXX s hs.1 hr.basis d1
  obtain ⟨a1, a2⟩ := full_activation_strict np floor XX hXX s1 p1 f1 d2
  obtain ⟨c1, c2⟩ := full_spatial_strict np XX hXX s2 p2 p3.2.2 r3 d3
  rw [← d3] at p3
  have hup : fullUpdateOnce np normalization floor XX s = .ok (if normalization then fullNormalize s3 else s3) := by
    rw [fullUpdateOnce, e1]
    simp only [bind, Except.bind]
    rw [e2]
    simp only
    rw [e3, d3]
  have hle : ∀ {a b : MSt F n m t K}, fullVal XX a < fullVal XX b ∨ a = b → fullVal XX a ≤ fullVal XX b := by
    rintro a b (h | h)
    exacts [h.le, by rw [h]]
  have hstat : MStationary np XX s → s3 = s := by
    rintro ⟨k1, k2, k3⟩
    have e1 := b2.mpr k1
    have e2 : s2 = s := (a2.mpr (by rw [e1]; exact k2)).trans e1
    exact (c2.mpr (by rw [e2]; exact k3)).trans e2
  have hlt : fullVal XX s3 < fullVal XX s ↔ ¬ MStationary np XX s := by
    constructor
    · intro h hst
      rw [hstat hst] at h
      exact lt_irrefl _ h
    · intro hns
      by_cases e1 : s1 = s
      · by_cases e2 : s2 = s1
        · have e3 : s3 ≠ s2 := fun e3 => hns (by
            have k1 := b2.mp e1
            have k2 := a2.mp e2
            have k3 := c2.mp e3
            rw [e2, e1] at k3
            rw [e1] at k2
            exact ⟨k1, k2, k3⟩)
          have := c1.resolve_right e3
          rwa [show fullVal XX s2 = fullVal XX s by rw [e2, e1]] at this
        · have := (hle c1).trans_lt (a1.resolve_right e2)
          rwa [e1] at this
      · exact ((hle c1).trans (hle a1)).trans_lt (b1.resolve_right e1)
  cases normalization with
  | false =>
    have hi : MInv np floor s3 := ⟨p3, hr.result _ hup⟩
    exact ⟨s3, _, _, hup, hi, fullLoss_eq XX hs, fullLoss_eq XX hi, hlt, fun hst => hstat hst⟩
  | true =>
    obtain ⟨p4, l4, -⟩ := full_normalize_step XX p3
    have hi : MInv np floor (fullNormalize s3) := ⟨p4, hr.result _ hup⟩
    refine ⟨fullNormalize s3, _, _, hup, hi, fullLoss_eq XX hs, fullLoss_eq XX hi, by rw [l4]; exact hlt, fun hst => ?_⟩
    rw [hstat hst]
    rfl

/-- Without normalization the iteration returns the state unchanged exactly at the stationary states. -/
theorem C66_fixed (np : Numpy ℂ) (floor : ℝ → ℝ) (XX : F → Fin t → Mat m ℂ)
    (hXX : ∀ f j, (XX f j).PosSemidef) (s : MSt F n m t K) (hs : MInv np floor s)
    (hr : MRegExact np false floor XX s) :
    fullUpdateOnce np false floor XX s = .ok s ↔ MStationary np XX s := by
  obtain ⟨s', l, l', h1, -, h2, h3, h4, h5⟩ := C66_gauss_mnmf np false floor XX hXX s hs hr
  rw [h1]
  constructor
  · intro e
    cases e
    rw [h2] at h3
    cases h3
    by_contra hns
    exact lt_irrefl _ (h4.mpr hns)
  · intro hst
    exact congrArg _ (h5 hst)

theorem mRegExact_id (np : Numpy ℂ) (normalization : Bool) {XX : F → Fin t → Mat m ℂ}
    (hXX : ∀ f j, (XX f j).PosSemidef) (hb : ∀ f, ∃ j, XX f j ≠ 0) (hz : ∀ j, ∃ f, XX f j ≠ 0)
    (s : MSt F n m t K) (hs : MPos s) (hsp : MSpan np XX s) : MRegExact np normalization id XX s := by
  have h := mReg_id np normalization hXX hb hz s hs hsp
  exact ⟨fun k f b => ⟨basisRaw_pos hXX hb hs k f b, rfl⟩,
    fun s1 e1 => ⟨(h.activation s1 e1).1, fun k b j => ⟨((h.activation s1 e1).2 k b j).1, rfl⟩⟩, h.spatial, h.result⟩

/-- Without flooring the characterisation holds for every mixture without silent bins and frames, as long as the vectors
`R⁻¹ x` span the whole space in every bin at the spatial update. -/
theorem C66_no_flooring (np : Numpy ℂ) (normalization : Bool) (XX : F → Fin t → Mat m ℂ)
    (hXX : ∀ f j, (XX f j).PosSemidef) (hb : ∀ f, ∃ j, XX f j ≠ 0) (hz : ∀ j, ∃ f, XX f j ≠ 0)
    (s : MSt F n m t K) (hs : MPos s) (hsp : MSpan np XX s) :
    ∃ s' l l', fullUpdateOnce np normalization id XX s = .ok s' ∧ MPos s' ∧
      fullLoss np id XX (recon s.T s.V) s.H = .ok l ∧ fullLoss np id XX (recon s'.T s'.V) s'.H = .ok l' ∧
      (l' < l ↔ ¬ MStationary np XX s) ∧
      (MStationary np XX s → s' = if normalization then fullNormalize s else s) := by
  obtain ⟨s', l, l', h1, h2, h3⟩ := C66_gauss_mnmf np normalization id XX hXX s (mInv_id np hs)
    (mRegExact_id np normalization hXX hb hz s hs hsp)
  exact ⟨s', l, l', h1, h2.1, h3⟩

/-- The condition on the span in the first iteration, when the spatial covariances still are multiples of the identity:
the channels are linearly independent. -/
theorem mSpan_initial (np : Numpy ℂ) {XX : F → Fin t → Mat m ℂ} (hXX : ∀ f j, (XX f j).PosSemidef)
    (hb : ∀ f, ∃ j, XX f j ≠ 0) (hz : ∀ j, ∃ f, XX f j ≠ 0) (hX : ∀ f v, (∀ j, XX f j *ᵥ v = 0) → v = 0)
    (s : MSt F n m t K) (hs : MPos s) {h : Fin n → F → ℝ} (hH : ∀ k f, s.H k f = (h k f : ℂ) • 1) : MSpan np XX s := by
  intro s1 s2 e1 e2
  obtain ⟨e1', p1, -⟩ := full_basis_step np id XX hXX s (mInv_id np hs)
    fun k f b => FloorMild.of_id (basisRaw_pos hXX hb hs k f b)
  rw [e1] at e1'
  obtain ⟨e2', p2, -⟩ := full_activation_step np id XX hXX s1 (mInv_id np (by cases e1'; exact p1))
    fun k b j => FloorMild.of_id (activationRaw_pos hXX hz (by cases e1'; exact p1) k b j)
  rw [e2] at e2'
  have hH2 : s2.H = s.H := by
    cases e2'
    cases e1'
    rfl
  have p2 : MPos s2 := by
    cases e2'
    exact p2
  intro f v hv
  refine hX f v fun j => ?_
  have hR : s2.R f j = ((∑ k, recon s2.T s2.V k f j * h k f : ℝ) : ℂ) • 1 := by
    simp only [MSt.R, fullR, fullRn, hH2, hH, smul_smul, ← Finset.sum_smul]
    push_cast
    rfl
  have hu := Tr.isUnit_det (R_posDef p2 f j)
  have h1 := hv j
  have h2 : s2.R f j *ᵥ ((s2.R f j)⁻¹ *ᵥ v) = v := by rw [mulVec_mulVec, mul_nonsing_inv _ hu, one_mulVec]
  have h3 : XX f j *ᵥ (s2.R f j *ᵥ ((s2.R f j)⁻¹ *ᵥ v)) = 0 := by
    conv_lhs => rw [hR]
    rw [smul_mulVec, one_mulVec, mulVec_smul, ← hR, h1, smul_zero]
  rwa [h2] at h3

end

/-! Two channels that are heard one after the other. -/

noncomputable def exXX : Unit → Fin 2 → Mat 2 ℂ := fun _ j => diagonal (Pi.single j 1)

/-- Two sources with bases `c` and spatial covariances `1 / 2`. -/
noncomputable def exM (c : ℝ) : MSt Unit 2 2 2 1 := ⟨fun _ _ _ => c, fun _ _ _ => 1, fun _ _ => ((1 / 2 : ℝ) : ℂ) • 1⟩

theorem exM_pos {c : ℝ} (hc : 0 < c) : MPos (exM c) :=
  ⟨fun _ _ _ => hc, fun _ _ _ => one_pos, fun _ _ => Tr.smul_posDef PosDef.one (by norm_num)⟩

theorem exXX_psd (f : Unit) (j : Fin 2) : (exXX f j).PosSemidef := by
  refine PosSemidef.diagonal fun i => ?_
  by_cases h : i = j
  · subst h
    simp
  · simp [Pi.single_eq_of_ne h]

theorem exXX_ne (f : Unit) (j : Fin 2) : exXX f j ≠ 0 := by
  intro h
  have := congrFun (congrFun h j) j
  simp [exXX] at this

theorem exXX_span (f : Unit) (v : Fin 2 → ℂ) (h : ∀ j, exXX f j *ᵥ v = 0) : v = 0 := by
  funext j
  have := congrFun (h j) j
  simpa [exXX, mulVec_diagonal] using this

theorem exM_span (np : Numpy ℂ) {c : ℝ} (hc : 0 < c) : MSpan np exXX (exM c) :=
  mSpan_initial np exXX_psd (fun f => ⟨0, exXX_ne f 0⟩) (fun j => ⟨(), exXX_ne () j⟩) exXX_span _ (exM_pos hc)
    (h := fun _ _ => 1 / 2) fun _ _ => rfl

theorem exM_R (c : ℝ) (f : Unit) (j : Fin 2) : (exM c).R f j = (c : ℂ) • 1 := by
  simp only [MSt.R, fullR, fullRn, exM, recon, Fin.sum_univ_two, Finset.univ_unique, Finset.sum_singleton, mul_one,
    smul_smul, ← add_smul]
  congr 1
  push_cast
  ring

theorem smul_one_inv {c : ℝ} (hc : 0 < c) : ((c : ℂ) • (1 : Mat 2 ℂ))⁻¹ = ((c⁻¹ : ℝ) : ℂ) • 1 := by
  refine inv_eq_right_inv ?_
  rw [smul_mul_smul_comm, Matrix.one_mul, ← Complex.ofReal_mul, mul_inv_cancel₀ hc.ne', Complex.ofReal_one, one_smul]

theorem exM_num {c : ℝ} (hc : 0 < c) (k : Fin 2) (f : Unit) (j : Fin 2) :
    (((exM c).R f j)⁻¹ * exXX f j * (((exM c).R f j)⁻¹ * (exM c).H k f)).trace.re = 1 / (2 * c ^ 2) := by
  rw [exM_R, smul_one_inv hc, show (exM c).H k f = ((1 / 2 : ℝ) : ℂ) • 1 from rfl]
  simp only [smul_mul_assoc, mul_smul_comm, Matrix.one_mul, Matrix.mul_one, trace_smul, smul_eq_mul,
    Complex.re_ofReal_mul]
  rw [show (exXX f j).trace = 1 by simp [exXX, trace_diagonal]]
  simp only [Complex.one_re]
  field_simp

theorem exM_denom {c : ℝ} (hc : 0 < c) (k : Fin 2) (f : Unit) (j : Fin 2) :
    (((exM c).R f j)⁻¹ * (exM c).H k f).trace.re = 1 / c := by
  rw [exM_R, smul_one_inv hc, show (exM c).H k f = ((1 / 2 : ℝ) : ℂ) • 1 from rfl]
  simp only [smul_mul_assoc, mul_smul_comm, Matrix.one_mul, trace_smul, smul_eq_mul, Complex.re_ofReal_mul, trace_one,
    Fintype.card_fin]
  norm_num
  ring

theorem exM_basis {c : ℝ} (hc : 0 < c) (k : Fin 2) (f : Unit) (b : Fin 1) :
    fullBasisRaw exXX (exM c) k f b = c * Real.sqrt (1 / (2 * c)) := by
  simp only [fullBasisRaw, exM_num hc, exM_denom hc]
  simp only [exM, Fin.sum_univ_two]
  congr 2
  field_simp

/-- `C56_no_flooring` applies to rank-one instantaneous covariances. -/
example (np : Numpy ℂ) : ∃ ls, lossList (fullUpdateOnce np true id exXX)
    (fun s => fullLoss np id exXX (recon s.T s.V) s.H) 1 (exM 2) = .ok ls ∧ ls.length = 2 ∧ ls.Pairwise (· ≥ ·) :=
  C56_no_flooring np true exXX exXX_psd (fun f => ⟨0, exXX_ne f 0⟩) (fun j => ⟨(), exXX_ne () j⟩) _
    (exM_pos (by norm_num)) 1 ⟨exM_span np (by norm_num), fun _ _ => trivial⟩

/-- The state with bases `2` is not stationary, so one iteration strictly decreases its loss. -/
example (np : Numpy ℂ) : ∃ s' l l', fullUpdateOnce np true id exXX (exM 2) = .ok s' ∧
    fullLoss np id exXX (recon (exM 2).T (exM 2).V) (exM 2).H = .ok l ∧
    fullLoss np id exXX (recon s'.T s'.V) s'.H = .ok l' ∧ l' < l := by
  have hs := exM_pos (c := 2) (by norm_num)
  have hb : ∀ f, ∃ j, exXX f j ≠ 0 := fun f => ⟨0, exXX_ne f 0⟩
  obtain ⟨s', l, l', h1, -, h2, h3, h4, -⟩ := C66_no_flooring np true exXX exXX_psd hb
    (fun j => ⟨(), exXX_ne () j⟩) (exM 2) hs (exM_span np (by norm_num))
  refine ⟨s', l, l', h1, h2, h3, h4.mpr fun hst => ?_⟩
  have h5 := (full_basis_strict np id exXX exXX_psd (exM 2) hs (fun k f b => ⟨basisRaw_pos exXX_psd hb hs k f b, rfl⟩)
    rfl).2.mpr hst.1
  have h6 := congrFun (congrFun (congrFun (congrArg MSt.T h5) 0) ()) 0
  change fullBasisRaw exXX (exM 2) 0 () 0 = 2 at h6
  rw [exM_basis (by norm_num), show (1 / (2 * 2) : ℝ) = (1 / 2) ^ 2 by norm_num, Real.sqrt_sq (by norm_num)] at h6
  norm_num at h6

/-- The state with bases `1 / 2` is stationary, so one iteration changes nothing. -/
example (np : Numpy ℂ) : MStationary np exXX (exM (1 / 2)) ∧
    fullUpdateOnce np false id exXX (exM (1 / 2)) = .ok (exM (1 / 2)) := by
  have hc : (0 : ℝ) < 1 / 2 := by norm_num
  have hs := exM_pos hc
  have hb : ∀ f, ∃ j, exXX f j ≠ 0 := fun f => ⟨0, exXX_ne f 0⟩
  have hz : ∀ j, ∃ f, exXX f j ≠ 0 := fun j => ⟨(), exXX_ne () j⟩
  have hT : (⟨fun k f b => id (fullBasisRaw exXX (exM (1 / 2)) k f b), (exM (1 / 2)).V, (exM (1 / 2)).H⟩
      : MSt Unit 2 2 2 1) = exM (1 / 2) := by
    have : (fun k f b => id (fullBasisRaw exXX (exM (1 / 2)) k f b)) = (exM (1 / 2)).T := by
      funext k f b
      simp only [id, exM_basis hc]
      norm_num [exM]
    rw [this]
  have hV : (⟨(exM (1 / 2)).T, fun k b j => id (fullActivationRaw exXX (exM (1 / 2)) k b j), (exM (1 / 2)).H⟩
      : MSt Unit 2 2 2 1) = exM (1 / 2) := by
    have : (fun k b j => id (fullActivationRaw exXX (exM (1 / 2)) k b j)) = (exM (1 / 2)).V := by
      funext k b j
      simp only [id, fullActivationRaw, exM_num hc, exM_denom hc]
      norm_num [exM]
    rw [this]
  have hP : ∀ k f, matP (exM (1 / 2)) k f = ((2 : ℝ) : ℂ) • 1 := by
    intro k f
    simp only [matP, exM_R, smul_one_inv hc, Fin.sum_univ_two, smul_smul, ← add_smul]
    simp only [exM, recon, Finset.univ_unique, Finset.sum_singleton]
    congr 1
    push_cast
    norm_num
  have hsum : ∀ f, ∑ j, exXX f j = 1 := by
    intro f
    rw [Fin.sum_univ_two]
    ext a b
    fin_cases a <;> fin_cases b <;> simp [exXX]
  have hQ : ∀ k f, matHQH exXX (exM (1 / 2)) k f = ((1 / 2 : ℝ) : ℂ) • 1 := by
    intro k f
    simp only [matHQH, exM_R, smul_one_inv hc, show ∀ j, recon (exM (1 / 2)).T (exM (1 / 2)).V k f j = 1 / 2 from
      fun j => by simp [exM, recon]]
    rw [show (exM (1 / 2)).H k f = ((1 / 2 : ℝ) : ℂ) • 1 from rfl]
    simp only [smul_mul_assoc, mul_smul_comm, Matrix.one_mul, Matrix.mul_one, smul_smul, ← Finset.smul_sum, hsum]
    congr 1
    push_cast
    norm_num
  have hst : MStationary np exXX (exM (1 / 2)) := by
    refine ⟨(full_basis_strict np id exXX exXX_psd _ hs (fun k f b => ⟨basisRaw_pos exXX_psd hb hs k f b, rfl⟩)
      rfl).2.mp hT, (full_activation_strict np id exXX exXX_psd _ hs
        (fun k b j => ⟨activationRaw_pos exXX_psd hz hs k b j, rfl⟩) rfl).2.mp hV,
      (full_spatial_strict np exXX exXX_psd _ hs hs.2.2 (fun k f => ?_) rfl).2.mp rfl⟩
    rw [hP, hQ, show (exM (1 / 2)).H k f = ((1 / 2 : ℝ) : ℂ) • 1 from rfl]
    simp only [smul_mul_assoc, mul_smul_comm, Matrix.one_mul, smul_smul]
    congr 1
    push_cast
    norm_num
  exact ⟨hst, (C66_fixed np id exXX exXX_psd _ (mInv_id np hs) (mRegExact_id np false exXX_psd hb hz _ hs
    (exM_span np hc))).mpr hst⟩

end Verif.Mnmf
