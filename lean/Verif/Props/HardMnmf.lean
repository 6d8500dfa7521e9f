import Verif.Props.HardPartition
import Verif.Props.MnmfCall

/-!
# C108: partitioned GaussMNMF never reassigns a component, and with hard assignments it is GaussMNMF without partitioning
-/

namespace Verif.HardMnmf

open Matrix Spatial Scale Mnmf MnmfCall
open Lifecycle (Attr)
open EigFree (toPsd_posDef)
open Ilrma (recon reconP)
open IlrmaCall (override attrOr initNmf initNmfP initLatent baseCall Draw DrawP)
open HardPartition (Covers Supp supp_div hard flatT flatV sum_hard reconP_hard Uses covers supp_hard hard_div baseCall_corr)
open scoped ComplexOrder

variable {F : Type} [Fintype F] {n m t K M : ℕ} {np : Numpy ℂ} {floor : ℝ → ℝ}

/-! ## Which sources use which components -/

/-- The update of the latent variables multiplies each of them by a positive number before it divides by their sums. -/
theorem latent_factor [Nonempty F] [Nonempty (Fin m)] [Nonempty (Fin t)] (hf : ∀ x, 0 < floor x) {XX : F → Fin t → Mat m ℂ}
    (hXX : ∀ f j, (XX f j).PosDef) (s : MStP F n m t K) (hT : ∀ f b, 0 < s.T f b) (hV : ∀ b j, 0 < s.V b j)
    (hH : ∀ k f, (s.H k f).PosDef) :
    ∃ c : Fin n → Fin K → ℝ, (∀ k b, 0 < c k b) ∧
      fullUpdateLatent np floor XX s = .ok ⟨fun k b => s.Z k b * c k b / ∑ k', s.Z k' b * c k' b, s.T, s.V, s.H⟩ := by
  have hR : ∀ f j, (toPsd np floor (s.R f j)).PosDef := fun f j => toPsd_posDef np hf _
  rw [fullUpdateLatent, traces_ok hR]
  refine ⟨fun k b => Real.sqrt ((∑ f, s.T f b * ∑ j, s.V b j * ((toPsd np floor (s.R f j))⁻¹ * XX f j
    * ((toPsd np floor (s.R f j))⁻¹ * s.H k f)).trace.re) / ∑ f, s.T f b * ∑ j, s.V b j * ((toPsd np floor (s.R f j))⁻¹
    * s.H k f).trace.re), fun k b => ?_, rfl⟩
  refine Real.sqrt_pos.mpr (div_pos ?_ ?_) <;>
    refine Finset.sum_pos (fun f _ => mul_pos (hT f b) (Finset.sum_pos (fun j _ => mul_pos (hV b j) ?_) Finset.univ_nonempty))
      Finset.univ_nonempty
  · have h1 : ((toPsd np floor (s.R f j))⁻¹ * XX f j * (toPsd np floor (s.R f j))⁻¹).PosDef := by
      have h2 := (hR f j).inv
      have h3 := (hXX f j).mul_mul_conjTranspose_same (B := (toPsd np floor (s.R f j))⁻¹) (vecMul_injective_iff_isUnit.mpr h2.isUnit)
      rwa [h2.1] at h3
    rw [← Matrix.mul_assoc]
    exact Tr.trace_mul_pos h1 (hH k f)
  · exact Tr.trace_mul_pos (hR f j).inv (hH k f)

/-- Scaling by positive numbers keeps the support. -/
theorem supp_mul {S : Fin n → Fin K → Prop} {Z c : Fin n → Fin K → ℝ} (hZ : Supp S Z) (hc : ∀ k b, 0 < c k b) :
    Supp S fun k b => Z k b * c k b := fun k b =>
  ⟨fun h => mul_pos ((hZ k b).1 h) (hc k b), fun h => by simp only [(hZ k b).2 h, zero_mul]⟩

/-- What a run keeps: the support of the latent variables, positive bases and activations, positive definite covariances with
unit traces if they are normalised. -/
def InvS (S : Fin n → Fin K → Prop) (norm : Bool) (s : MStP F n m t K) : Prop :=
  Supp S s.Z ∧ (∀ f b, 0 < s.T f b) ∧ (∀ b j, 0 < s.V b j) ∧ ∀ k f, (s.H k f).PosDef ∧ (norm = true → (s.H k f).trace = 1)

/-- The steps of one iteration before the update of the latent variables. -/
theorem steps_ok [Nonempty (Fin m)] (hf : ∀ x, 0 < floor x) (norm : Bool) (XX : F → Fin t → Mat m ℂ) (s : MStP F n m t K) :
    ∃ T V H, fullUpdateOnceP np norm floor XX s = fullUpdateLatent np floor XX ⟨s.Z, T, V, H⟩ ∧ (∀ f b, 0 < T f b) ∧
      (∀ b j, 0 < V b j) ∧ ∀ k f, (H k f).PosDef ∧ (norm = true → (H k f).trace = 1) := by
  have hR : ∀ (s : MStP F n m t K) f j, (toPsd np floor (s.R f j)).PosDef := fun _ f j => toPsd_posDef np hf _
  obtain ⟨T, e1, hT⟩ : ∃ T, fullUpdateBasisP np floor XX s = .ok ⟨s.Z, T, s.V, s.H⟩ ∧ ∀ f b, 0 < T f b := by
    rw [fullUpdateBasisP, traces_ok (hR _)]
    exact ⟨_, rfl, fun f b => hf _⟩
  obtain ⟨V, e2, hV⟩ : ∃ V, fullUpdateActivationP np floor XX ⟨s.Z, T, s.V, s.H⟩ = .ok ⟨s.Z, T, V, s.H⟩ ∧ ∀ b j, 0 < V b j := by
    rw [fullUpdateActivationP, traces_ok (hR _)]
    exact ⟨_, rfl, fun f b => hf _⟩
  obtain ⟨H, e3, hH⟩ := spatial_ok (np := np) hf XX (reconP s.Z T V) s.H
  obtain ⟨H', e4, hH'⟩ : ∃ H' : Fin n → F → Mat m ℂ, (if norm then fullNormalizeP (⟨s.Z, T, V, H⟩ : MStP F n m t K) else ⟨s.Z, T, V, H⟩)
      = ⟨s.Z, T, V, H'⟩ ∧ ∀ k f, (H' k f).PosDef ∧ (norm = true → (H' k f).trace = 1) := by
    cases norm with
    | false => exact ⟨H, rfl, fun k f => ⟨hH k f, fun h => nomatch h⟩⟩
    | true => exact ⟨_, rfl, fun k f => ⟨(normalize_pos (hH k f)).1, fun _ => (normalize_pos (hH k f)).2⟩⟩
  exact ⟨T, V, H', by simp only [fullUpdateOnceP, e1, e2, e3, e4, bind, Except.bind], hT, hV, hH'⟩

theorem update_invS [Nonempty F] [Nonempty (Fin m)] [Nonempty (Fin t)] {S : Fin n → Fin K → Prop} (hS : Covers S)
    (hf : ∀ x, 0 < floor x) (norm : Bool) {XX : F → Fin t → Mat m ℂ} (hXX : ∀ f j, (XX f j).PosDef) (s : MStP F n m t K)
    (hs : InvS S norm s) : ∃ s', fullUpdateOnceP np norm floor XX s = .ok s' ∧ InvS S norm s' ∧ ∀ b, ∑ k, s'.Z k b = 1 := by
  obtain ⟨T, V, H, e1, hT, hV, hH⟩ := steps_ok (np := np) hf norm XX s
  obtain ⟨c, hc, e2⟩ := latent_factor (np := np) hf hXX ⟨s.Z, T, V, H⟩ hT hV fun k f => (hH k f).1
  obtain ⟨h1, h2⟩ := supp_div hS (supp_mul hs.1 hc)
  refine ⟨_, e1.trans e2, ⟨h1, hT, hV, hH⟩, fun b => ?_⟩
  simp only
  rw [← Finset.sum_div, div_self (h2 b).ne']

/-- C108: partitioned GaussMNMF started with latent variables of which some are zero returns and leaves exactly the same ones
zero: a source never starts and never stops using a component. -/
theorem C108_support [Nonempty F] [Nonempty (Fin m)] [Nonempty (Fin t)] (np : Numpy ℂ) (norm : Bool) (hf : ∀ x, 0 < floor x)
    (r : Fin m) {S : Fin n → Fin K → Prop} (hS : Covers S) (draw : DrawP F n t K) (X : Spec F m t) (n_iter : ℕ) (ic : Bool)
    (kw : KwP F n m t K) (o : ObjP F n m t K)
    {Z : Fin n → Fin K → ℝ} (hZ : override kw.latent o.latent = .val Z) (hZS : Supp S Z)
    (hT : Attr.Has (fun T => ∀ f b, 0 < T f b) (override kw.basis o.basis))
    (hV : Attr.Has (fun V => ∀ b j, 0 < V b j) (override kw.activation o.activation))
    (hH : Attr.Has (fun H => ∀ k f, (H k f).PosDef ∧ (norm = true → (H k f).trace = 1)) (override kw.spatial o.spatial)) :
    ∃ Z' T V H Y ls, callP np norm floor r draw X n_iter ic kw o = .ok ⟨.val Z', .val T, .val V, .val H, .val Y, ls⟩ ∧ Supp S Z' ∧
      (0 < n_iter → ∀ b, ∑ k, Z' k b = 1) ∧ ls.length = o.loss.length + (if ic then 1 else 0) + n_iter := by
  obtain ⟨T, a1, a2⟩ := attrOr_has hT (fun f b => floor (draw.T f b)) fun _ _ => hf _
  obtain ⟨V, b1, b2⟩ := attrOr_has hV (fun f b => floor (draw.V f b)) fun _ _ => hf _
  obtain ⟨H, c1, c2⟩ := attrOr_has hH (fun _ _ => eyeOverTrace m) fun _ _ => ⟨eyeOverTrace_spec.1, fun _ => eyeOverTrace_spec.2⟩
  obtain ⟨Y0, d1⟩ := fullSeparate_ok (np := np) hf r X (reconP Z T V) H
  have hreset : resetP np floor r draw X kw o = .ok ⟨Z, T, V, H⟩ := by
    simp only [resetP, initNmfP, hZ, show attrOr (initLatent floor draw.Z) (.val Z) = .ok Z from rfl, a1, b1, c1, d1, bind,
      Except.bind]
  have hXX : ∀ f j, (instantCovariance np floor X f j).PosDef := fun f j => toPsd_posDef np hf _
  obtain ⟨s', ls, e1, e2, e3, e4⟩ := baseCall_inv (InvS S norm) (fun s => InvS S norm s ∧ ∀ b, ∑ k, s.Z k b = 1) (fun _ h => h.1)
    (fun s hs => update_invS (np := np) hS hf norm hXX s hs)
    (fun s _ => fullLoss_ok (np := np) hf (instantCovariance np floor X) (reconP s.Z s.T s.V) s.H) ic n_iter
    (⟨Z, T, V, H⟩ : MStP F n m t K) o.loss ⟨hZS, a2, b2, c2⟩
  obtain ⟨Y, f1⟩ := fullSeparate_ok (np := np) hf r X (reconP s'.Z s'.T s'.V) s'.H
  refine ⟨s'.Z, s'.T, s'.V, s'.H, Y, ls, ?_, e2.1, fun h => (e3 h).2, e4⟩
  simp only [callP, hreset, e1, f1, bind, Except.bind]

/-! ## Hard assignments -/

section hard

variable (e : Fin n × Fin K ≃ Fin M)

/-- The state of a partitioned run that corresponds to a state of a run without partitioning. -/
def toP (s : MSt F n m t K) : MStP F n m t M := ⟨hard e, flatT e s.T, flatV e s.V, s.H⟩

omit [Fintype F] in
theorem R_hard (s : MSt F n m t K) : (toP e s).R = fullR (recon s.T s.V) s.H := by
  funext f j
  simp only [MStP.R, toP, reconP_hard]

omit [Fintype F] in
theorem basis_hard (XX : F → Fin t → Mat m ℂ) (s : MSt F n m t K) :
    fullUpdateBasisP np floor XX (toP e s) = Except.map (toP e) (fullUpdateBasis np floor XX s) := by
  rw [fullUpdateBasisP, fullUpdateBasis, R_hard, show (toP e s).H = s.H from rfl, map_bind]
  congr 1
  funext q
  obtain ⟨a, b⟩ := q
  simp only [Except.map, toP, sum_hard, Except.ok.injEq]
  rfl

theorem activation_hard (XX : F → Fin t → Mat m ℂ) (s : MSt F n m t K) :
    fullUpdateActivationP np floor XX (toP e s) = Except.map (toP e) (fullUpdateActivation np floor XX s) := by
  rw [fullUpdateActivationP, fullUpdateActivation, R_hard, show (toP e s).H = s.H from rfl, map_bind]
  congr 1
  funext q
  obtain ⟨a, b⟩ := q
  simp only [Except.map, toP, sum_hard, Except.ok.injEq]
  rfl

theorem latent_hard [Nonempty F] [Nonempty (Fin m)] [Nonempty (Fin t)] [Nonempty (Fin K)] (hf : ∀ x, 0 < floor x)
    {XX : F → Fin t → Mat m ℂ} (hXX : ∀ f j, (XX f j).PosDef) {s : MSt F n m t K} (hs : MPos s) :
    fullUpdateLatent np floor XX (toP e s) = .ok (toP e s) := by
  obtain ⟨c, hc, h⟩ := latent_factor (np := np) hf hXX (toP e s) (fun f b => hs.1 _ f _) (fun b j => hs.2.1 _ _ j) hs.2.2
  rw [h]
  have := hard_div e (supp_mul (supp_hard e) hc)
  rw [show (fun k b => (toP e s).Z k b * c k b / ∑ k', (toP e s).Z k' b * c k' b) = hard e from this]
  rfl

/-- An iteration without normalisation. -/
theorem update_hard [Nonempty F] [Nonempty (Fin m)] [Nonempty (Fin t)] [Nonempty (Fin K)] (hf : ∀ x, 0 < floor x)
    {XX : F → Fin t → Mat m ℂ} (hXX : ∀ f j, (XX f j).PosDef) (s : MSt F n m t K) :
    fullUpdateOnceP np false floor XX (toP e s) = Except.map (toP e) (fullUpdateOnce np false floor XX s) := by
  obtain ⟨s', h1, h2⟩ := MnmfCall.update_ok (np := np) hf false XX s
  have h3 : fullUpdateOnceP np false floor XX (toP e s)
      = Except.map (toP e) (fullUpdateOnce np false floor XX s) >>= fullUpdateLatent np floor XX := by
    rw [fullUpdateOnceP, basis_hard, bind_map, fullUpdateOnce, bind_map, bind_assoc]
    congr 1
    funext s
    rw [activation_hard, bind_map, bind_assoc]
    congr 1
    funext s
    rw [show reconP (toP e s).Z (toP e s).T (toP e s).V = recon s.T s.V from reconP_hard e s.T s.V, bind_assoc]
    rfl
  rw [h3, h1]
  exact latent_hard e hf hXX h2.1

/-- Two objects and the keywords of a call of each start it from the same covariances and losses and from corresponding bases
and activations, with hard assignments on the partitioned side. -/
structure SameStart (kw : Kw F n m t K) (o : Obj F n m t K) (kwP : KwP F n m t M) (oP : ObjP F n m t M)
    (T : Fin n → F → Fin K → ℝ) (V : Fin n → Fin K → Fin t → ℝ) : Prop where
  spatial : override kwP.spatial oP.spatial = override kw.spatial o.spatial
  has : override kw.spatial o.spatial ≠ .none
  loss : oP.loss = o.loss
  latent : override kwP.latent oP.latent = .val (hard e)
  basis : override kw.basis o.basis = .val T
  basisP : override kwP.basis oP.basis = .val (flatT e T)
  activation : override kw.activation o.activation = .val V
  activationP : override kwP.activation oP.activation = .val (flatV e V)

/-- What a call without partitioning leaves, as what a call with partitioning leaves. -/
def asP (o : Obj F n m t K) : ObjP F n m t M :=
  ⟨.val (hard e), match o.basis with | .val T => .val (flatT e T) | .none => .none | .absent => .absent,
    match o.activation with | .val V => .val (flatV e V) | .none => .none | .absent => .absent, o.spatial, o.output, o.loss⟩

omit [Fintype F] in
theorem resets [Nonempty (Fin m)] (np : Numpy ℂ) (hf : ∀ x, 0 < floor x) (r : Fin m) (X : Spec F m t) (draw : Draw F n t K)
    (drawP : DrawP F n t M)
    {kw : Kw F n m t K} {o : Obj F n m t K} {kwP : KwP F n m t M} {oP : ObjP F n m t M} {T : Fin n → F → Fin K → ℝ}
    {V : Fin n → Fin K → Fin t → ℝ} (h : SameStart e kw o kwP oP T V) :
    ∃ s, reset np floor r draw X kw o = .ok s ∧ resetP np floor r drawP X kwP oP = .ok (toP e s) := by
  obtain ⟨H, c1⟩ : ∃ H, attrOr (fun _ _ => eyeOverTrace m) (override kw.spatial o.spatial) = .ok H := by
    cases hq : override kw.spatial o.spatial with
    | absent => exact ⟨_, rfl⟩
    | none => exact absurd hq h.has
    | val a => exact ⟨_, rfl⟩
  obtain ⟨Y, d1⟩ := fullSeparate_ok (np := np) hf r X (recon T V) H
  refine ⟨⟨T, V, H⟩, ?_, ?_⟩
  · simp only [reset, initNmf, h.basis, h.activation, c1, bind, Except.bind, show ∀ x, attrOr x (.val T) = .ok T from fun _ => rfl,
      show ∀ x, attrOr x (.val V) = .ok V from fun _ => rfl, d1]
  · have d2 : fullSeparate np floor r X (reconP (hard e) (flatT e T) (flatV e V)) H = .ok Y := by rw [reconP_hard, d1]
    simp only [resetP, initNmfP, h.latent, h.basisP, h.activationP, h.spatial, bind, Except.bind]
    rw [show attrOr (initLatent floor drawP.Z) (.val (hard e)) = .ok (hard e) from rfl]
    simp only [show ∀ x, attrOr x (.val (flatT e T)) = .ok (flatT e T) from fun _ => rfl,
      show ∀ x, attrOr x (.val (flatV e V)) = .ok (flatV e V) from fun _ => rfl, c1, d2]
    rfl

/-- C108: partitioned GaussMNMF without normalisation whose components are assigned to one source each, equally many to every
source, does what GaussMNMF without partitioning does: it leaves the same covariances, outputs and losses, the bases and
activations of all sources side by side, and the assignment as it was. -/
theorem C108_hard [Nonempty F] [Nonempty (Fin m)] [Nonempty (Fin t)] [Nonempty (Fin K)] (np : Numpy ℂ) (hf : ∀ x, 0 < floor x)
    (r : Fin m) (X : Spec F m t) (n_iter : ℕ) (ic : Bool) (draw : Draw F n t K) (drawP : DrawP F n t M)
    {kw : Kw F n m t K} {o : Obj F n m t K} {kwP : KwP F n m t M} {oP : ObjP F n m t M} {T : Fin n → F → Fin K → ℝ}
    {V : Fin n → Fin K → Fin t → ℝ} (h : SameStart e kw o kwP oP T V) :
    ∃ o', call np false floor r draw X n_iter ic kw o = .ok o' ∧ callP np false floor r drawP X n_iter ic kwP oP = .ok (asP e o') := by
  obtain ⟨s, h1, h2⟩ := resets e np hf r X draw drawP h
  have hXX : ∀ f j, (instantCovariance np floor X f j).PosDef := fun f j => toPsd_posDef np hf _
  have h3 := baseCall_corr (toP e) (fun _ => True)
    (fun s _ => by obtain ⟨s', h, -⟩ := MnmfCall.update_ok (np := np) hf false (instantCovariance np floor X) s; exact ⟨s', h, trivial⟩)
    (fun s _ => update_hard (np := np) e hf hXX s)
    (loss := fun s => fullLoss np floor (instantCovariance np floor X) (recon s.T s.V) s.H)
    (loss' := fun s => fullLoss np floor (instantCovariance np floor X) (reconP s.Z s.T s.V) s.H)
    (fun s _ => by simp only [toP, reconP_hard]) ic n_iter (s := s) trivial o.loss
  obtain ⟨s', ls, e1, -, -, -⟩ := baseCall_inv (step := fullUpdateOnce np false floor (instantCovariance np floor X))
    (fun _ => True) (fun _ => True) (fun _ h => h)
    (fun s _ => by obtain ⟨s', h, -⟩ := MnmfCall.update_ok (np := np) hf false (instantCovariance np floor X) s; exact ⟨s', h, trivial⟩)
    (fun s _ => fullLoss_ok (np := np) hf (instantCovariance np floor X) (recon s.T s.V) s.H) ic n_iter s o.loss trivial
  rw [e1] at h3
  obtain ⟨Y, f1⟩ := fullSeparate_ok (np := np) hf r X (recon s'.T s'.V) s'.H
  have f2 : fullSeparate np floor r X (reconP (toP e s').Z (toP e s').T (toP e s').V) (toP e s').H = .ok Y := by
    simp only [toP, reconP_hard, f1]
  refine ⟨⟨.val s'.T, .val s'.V, .val s'.H, .val Y, ls⟩, ?_, ?_⟩
  · simp only [call, h1, e1, f1, bind, Except.bind]
  · simp only [callP, h2, h.loss, bind, Except.bind]
    rw [h3]
    simp only [Except.map, f2]
    rfl

/-- C108: with normalisation the two differ. After one iteration the partitioned class has the covariances with unit trace and
the bases of a class that does not normalise, whereas without partitioning every basis is multiplied by the trace that its
covariances lost. -/
theorem C108_normalization [Nonempty F] [Nonempty (Fin m)] [Nonempty (Fin t)] [Nonempty (Fin K)] (np : Numpy ℂ)
    (hf : ∀ x, 0 < floor x) (r : Fin m) (X : Spec F m t) (ic : Bool) (draw : Draw F n t K) (drawP : DrawP F n t M)
    {kw : Kw F n m t K} {o : Obj F n m t K} {kwP : KwP F n m t M} {oP : ObjP F n m t M} {T : Fin n → F → Fin K → ℝ}
    {V : Fin n → Fin K → Fin t → ℝ} (h : SameStart e kw o kwP oP T V) :
    ∃ T' V' H' o1 o2 o3, call np false floor r draw X 1 ic kw o = .ok o1 ∧ o1.basis = .val T' ∧ o1.activation = .val V' ∧
      o1.spatial = .val H' ∧ (∀ k f, 0 < (H' k f).trace.re) ∧
      call np true floor r draw X 1 ic kw o = .ok o2 ∧ o2.basis = .val (fun k f b => (H' k f).trace.re * T' k f b) ∧
      o2.activation = .val V' ∧ o2.spatial = .val (fun k f => (((H' k f).trace.re : ℂ))⁻¹ • H' k f) ∧
      callP np true floor r drawP X 1 ic kwP oP = .ok o3 ∧ o3.latent = .val (hard e) ∧ o3.basis = .val (flatT e T') ∧
      o3.activation = .val (flatV e V') ∧ o3.spatial = .val (fun k f => (((H' k f).trace.re : ℂ))⁻¹ • H' k f) := by
  obtain ⟨s, h1, h2⟩ := resets e np hf r X draw drawP h
  have hXX : ∀ f j, (instantCovariance np floor X f j).PosDef := fun f j => toPsd_posDef np hf _
  obtain ⟨XX, hXXd⟩ : ∃ XX, XX = instantCovariance np floor X := ⟨_, rfl⟩
  rw [← hXXd] at hXX
  obtain ⟨u, g1, g2⟩ := MnmfCall.update_ok (np := np) hf false XX s
  have g3 : fullUpdateOnce np true floor XX s = .ok (fullNormalize u) := by
    have : fullUpdateOnce np true floor XX s = Except.map fullNormalize (fullUpdateOnce np false floor XX s) := by
      rw [fullUpdateOnce, fullUpdateOnce, map_bind]
      congr 1
      funext s
      rw [map_bind]
      congr 1
      funext s
      rw [map_bind]
      rfl
    rw [this, g1]
    rfl
  have g4 : fullUpdateOnceP np true floor XX (toP e s) = .ok (fullNormalizeP (toP e u)) := by
    have : fullUpdateOnceP np true floor XX (toP e s) = Except.map (fun s => fullNormalizeP (toP e s)) (fullUpdateOnce np false floor XX s)
        >>= fullUpdateLatent np floor XX := by
      rw [fullUpdateOnceP, basis_hard, bind_map, fullUpdateOnce, bind_map, bind_assoc]
      congr 1
      funext s
      rw [activation_hard, bind_map, bind_assoc]
      congr 1
      funext s
      rw [show reconP (toP e s).Z (toP e s).T (toP e s).V = recon s.T s.V from reconP_hard e s.T s.V, bind_assoc]
      rfl
    rw [this, g1]
    exact latent_hard e hf hXX (s := ⟨u.T, u.V, fun k f => (((u.H k f).trace.re : ℂ))⁻¹ • u.H k f⟩)
      ⟨g2.1.1, g2.1.2.1, fun k f => (normalize_pos (g2.1.2.2 k f)).1⟩
  have b1 : ∀ (norm : Bool) {s'}, fullUpdateOnce np norm floor XX s = .ok s' →
      ∃ Y ls, call np norm floor r draw X 1 ic kw o = .ok ⟨.val s'.T, .val s'.V, .val s'.H, .val Y, ls⟩ := by
    intro norm s' hs'
    obtain ⟨Y, f1⟩ := fullSeparate_ok (np := np) hf r X (recon s'.T s'.V) s'.H
    obtain ⟨l0, l1⟩ := fullLoss_ok (np := np) hf XX (recon s.T s.V) s.H
    obtain ⟨l2, l3⟩ := fullLoss_ok (np := np) hf XX (recon s'.T s'.V) s'.H
    refine ⟨Y, if ic then o.loss ++ [l0] ++ [l2] else o.loss ++ [l2], ?_⟩
    · cases ic <;> simp only [call, h1, ← hXXd, baseCall, IlrmaCall.iterations, hs', l1, l3, f1, bind, Except.bind, if_true,
        Bool.false_eq_true, if_false]
  have b2 : ∃ Y ls, callP np true floor r drawP X 1 ic kwP oP = .ok ⟨.val (hard e), .val (flatT e u.T), .val (flatV e u.V),
      .val (fullNormalizeP (toP e u)).H, .val Y, ls⟩ := by
    obtain ⟨Y, f1⟩ := fullSeparate_ok (np := np) hf r X (reconP (fullNormalizeP (toP e u)).Z (fullNormalizeP (toP e u)).T
      (fullNormalizeP (toP e u)).V) (fullNormalizeP (toP e u)).H
    obtain ⟨l0, l1⟩ := fullLoss_ok (np := np) hf XX (reconP (toP e s).Z (toP e s).T (toP e s).V) (toP e s).H
    obtain ⟨l2, l3⟩ := fullLoss_ok (np := np) hf XX (reconP (fullNormalizeP (toP e u)).Z (fullNormalizeP (toP e u)).T
      (fullNormalizeP (toP e u)).V) (fullNormalizeP (toP e u)).H
    refine ⟨Y, if ic then oP.loss ++ [l0] ++ [l2] else oP.loss ++ [l2], ?_⟩
    · cases ic <;> simp only [callP, h2, ← hXXd, baseCall, IlrmaCall.iterations, g4, l1, l3, f1, bind, Except.bind, if_true,
        Bool.false_eq_true, if_false] <;> rfl
  obtain ⟨Y1, ls1, b1'⟩ := b1 false g1
  obtain ⟨Y2, ls2, b1''⟩ := b1 true g3
  obtain ⟨Y3, ls3, b2⟩ := b2
  exact ⟨u.T, u.V, u.H, _, _, _, b1', rfl, rfl, rfl, fun k f => trace_pos (g2.1.2.2 k f), b1'', rfl, rfl, rfl, b2, rfl, rfl, rfl, rfl⟩

end hard

/-- Three components, the middle one shared by both sources: the two zeros stay where they are. -/
example (np : Numpy ℂ) (draw : DrawP (Fin 3) 2 4 3) (X : Spec (Fin 3) 2 4) (n_iter : ℕ) :
    ∃ o' Z', callP np true (Special.max_flooring (1 / 10 ^ 10)) 0 draw X n_iter true { latent := some !![1, 1 / 2, 0; 0, 1 / 2, 1] }
      ObjP.fresh = .ok o' ∧ o'.latent = .val Z' ∧ Z' 1 0 = 0 ∧ Z' 0 2 = 0 ∧ 0 < Z' 0 1 ∧ 0 < Z' 1 1 := by
  let S : Fin 2 → Fin 3 → Prop := fun k b => ¬ (k = 1 ∧ b = 0) ∧ ¬ (k = 0 ∧ b = 2)
  have hS : Covers S := ⟨fun k => ⟨1, by simp [S]⟩, fun b => by
    fin_cases b
    · exact ⟨0, by simp [S]⟩
    · exact ⟨0, by simp [S]⟩
    · exact ⟨1, by simp [S]⟩⟩
  have hZ : Supp S !![1, 1 / 2, 0; 0, 1 / 2, 1] := by
    intro k b
    fin_cases k <;> fin_cases b <;> simp [S]
  obtain ⟨Z', T, V, H, Y, ls, h, hz, -⟩ := C108_support np true (floor := Special.max_flooring (1 / 10 ^ 10))
    (fun x => lt_max_of_lt_right (by norm_num)) 0 hS draw X n_iter true { latent := some !![1, 1 / 2, 0; 0, 1 / 2, 1] } ObjP.fresh rfl hZ
    (.inl rfl) (.inl rfl) (.inl rfl)
  exact ⟨_, Z', h, rfl, (hz 1 0).2 (by simp [S]), (hz 0 2).2 (by simp [S]), (hz 0 1).1 (by simp [S]), (hz 1 1).1 (by simp [S])⟩

/-- Two sources with three components each, all six side by side, from the initial covariances. -/
example (np : Numpy ℂ) (draw : Draw (Fin 3) 2 4 3) (drawP : DrawP (Fin 3) 2 4 6) (X : Spec (Fin 3) 2 4) (n_iter : ℕ) :
    ∃ o' oP', call np false (Special.max_flooring (1 / 10 ^ 10)) 1 draw X n_iter true
        { basis := some (fun _ _ _ => 1), activation := some (fun _ _ _ => 2) } Obj.fresh = .ok o' ∧
      callP np false (Special.max_flooring (1 / 10 ^ 10)) 1 drawP X n_iter true
        { latent := some (hard (finProdFinEquiv (m := 2) (n := 3))), basis := some (fun _ _ => 1), activation := some (fun _ _ => 2) } ObjP.fresh
        = .ok oP' ∧ oP'.output = o'.output ∧ oP'.loss = o'.loss := by
  have h : SameStart (F := Fin 3) (m := 2) (t := 4) finProdFinEquiv
      { basis := some (fun _ _ _ => 1), activation := some (fun _ _ _ => 2) } (Obj.fresh : Obj (Fin 3) 2 2 4 3)
      { latent := some (hard (finProdFinEquiv (m := 2) (n := 3))), basis := some (fun _ _ => 1), activation := some (fun _ _ => 2) } ObjP.fresh
      (fun _ _ _ => 1) fun _ _ _ => 2 :=
    ⟨rfl, (fun h => nomatch h), rfl, rfl, rfl, rfl, rfl, rfl⟩
  obtain ⟨o', h1, h2⟩ := C108_hard finProdFinEquiv np (floor := Special.max_flooring (1 / 10 ^ 10))
    (fun x => lt_max_of_lt_right (by norm_num)) 1 X n_iter true draw drawP h
  exact ⟨o', _, h1, h2, rfl, rfl⟩

end Verif.HardMnmf
