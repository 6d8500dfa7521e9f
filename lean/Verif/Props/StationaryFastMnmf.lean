import Verif.Props.FastMnmf
import Verif.Props.StationaryIlrma

/-!
# FastMNMF makes the loss strictly smaller unless it has reached a stationary point (C64)

One iteration of `FastGaussMNMF`: bases, activations, diagonalizers and spatial weights are updated in turn.  The loss
becomes strictly smaller exactly if some partial derivative of the loss does not vanish; at a stationary point only the
normalization acts.
-/

set_option linter.unusedSectionVars false

namespace Verif.Mnmf
open Matrix Spatial Scale Ilrma Iva

variable {F : Type} [Fintype F] {n m t K : ℕ}

/-- The derivative of the loss vanishes in every direction of the bases. -/
def FStationaryBasis (X : Spec F m t) (s : FSt F n m t K) : Prop :=
  ∀ A : Fin n → F → Fin K → ℝ,
    HasDerivAt (fun ε : ℝ => fastLoss X ⟨s.Q, fun k f b => s.T k f b + ε * A k f b, s.V, s.D⟩) 0 0

/-- ... of the activations. -/
def FStationaryActivation (X : Spec F m t) (s : FSt F n m t K) : Prop :=
  ∀ A : Fin n → Fin K → Fin t → ℝ,
    HasDerivAt (fun ε : ℝ => fastLoss X ⟨s.Q, s.T, fun k b j => s.V k b j + ε * A k b j, s.D⟩) 0 0

/-- ... of the diagonalizers. -/
def FStationaryDiagonalizer (X : Spec F m t) (s : FSt F n m t K) : Prop :=
  Stationary (fun Q => fastLoss X ⟨Q, s.T, s.V, s.D⟩) s.Q

/-- ... of the spatial weights. -/
def FStationarySpatial (X : Spec F m t) (s : FSt F n m t K) : Prop :=
  ∀ A : F → Fin n → Fin m → ℝ,
    HasDerivAt (fun ε : ℝ => fastLoss X ⟨s.Q, s.T, s.V, fun f k c => s.D f k c + ε * A f k c⟩) 0 0

/-- All partial derivatives of the loss vanish. -/
def FStationary (X : Spec F m t) (s : FSt F n m t K) : Prop :=
  FStationaryBasis X s ∧ FStationaryActivation X s ∧ FStationaryDiagonalizer X s ∧ FStationarySpatial X s

theorem fastLoss_lossOf (X : Spec F m t) (s : FSt F n m t K) :
    fastLoss X s = lossOf (gauss 2) (separate X s.Q) (fun c f j => lambD s f c j) s.Q := by
  rw [fastLoss_eq, lossOf_eq]
  congr 2
  exact Finset.sum_congr rfl fun f _ => Finset.sum_comm

theorem hasDerivAt_fast_iff (X : Spec F m t) (ht : 0 < t) (Q : F → Mat m ℂ) (s : ℝ → FSt F n m t K)
    (hQ : ∀ ε, (s ε).Q = Q) : HasDerivAt (fun ε => fastLoss X (s ε)) 0 0 ↔
      HasDerivAt (fun ε => ∑ f, ∑ c, ∑ j, (gauss 2).ell ‖separate X Q f c j‖ (lambD (s ε) f c j)) 0 0 := by
  simp only [fastLoss_lossOf, hQ]
  exact hasDerivAt_lossOf_iff (Y := fun _ => separate X Q) (R := fun ε c f j => lambD (s ε) f c j) Q ht

theorem fastLoss_lt {X : Spec F m t} (ht : 0 < t) {s s' : FSt F n m t K} (hQ : s'.Q = s.Q)
    (h : ∑ f, ∑ c, ∑ j, (gauss 2).ell ‖separate X s.Q f c j‖ (lambD s' f c j)
      < ∑ f, ∑ c, ∑ j, (gauss 2).ell ‖separate X s.Q f c j‖ (lambD s f c j)) : fastLoss X s' < fastLoss X s := by
  rw [fastLoss_lossOf, fastLoss_lossOf, hQ]
  exact lossOf_lt s.Q ht h

section
variable [Nonempty (Fin K)] [Nonempty (Fin n)] {floor : ℝ → ℝ} (X : Spec F m t) (ht : 0 < t) (s : FSt F n m t K)
  (hs : FInv s)
include ht hs

theorem fast_basis_strict (hfl : ∀ k f b, Exact floor (fastBasisRaw X s k f b)) :
    (fastLoss X (fastUpdateBasis floor X s) < fastLoss X s ∨ fastUpdateBasis floor X s = s) ∧
    (fastUpdateBasis floor X s = s ↔ FStationaryBasis X s) := by
  obtain ⟨T', hT'⟩ : ∃ T', T' = (fastUpdateBasis floor X s).T := ⟨_, rfl⟩
  have hup : fastUpdateBasis floor X s = ⟨s.Q, T', s.V, s.D⟩ := by rw [hT']; rfl
  have hraw : ∀ k f b, T' k f b = fastBasisRaw X s k f b := fun k f b => by
    rw [hT']
    exact (hfl k f b).2
  have key : ∀ (T : Fin n → F → Fin K → ℝ) f c j, lambD (⟨s.Q, T, s.V, s.D⟩ : FSt F n m t K) f c j
      = ∑ p : Fin n × Fin K, s.V p.1 p.2 j * s.D f p.1 c * T p.1 f p.2 := by
    intro T f c j
    simp only [lambD, recon, Finset.sum_mul, Fintype.sum_prod_type]
    exact Finset.sum_congr rfl fun k _ => Finset.sum_congr rfl fun b _ => by ring
  obtain ⟨h1, h2⟩ := slices_strict (gauss_isMM two_pos) (gauss_ellDeriv two_pos)
    (fun (f : F) (i : Fin m × Fin t) (p : Fin n × Fin K) => s.V p.1 p.2 i.2 * s.D f p.1 i.1)
    (fun f i p => mul_pos (hs.2.2.1 p.1 p.2 i.2) (hs.2.2.2 f p.1 i.1)) (fun f p => s.T p.1 f p.2)
    (fun f p => T' p.1 f p.2) (fun f p => hs.2.1 p.1 f p.2) (fun f p => by rw [hraw]; exact (hfl _ _ _).1)
    (fun f i => ‖separate X s.Q f i.1 i.2‖) (fun f i => lambD s f i.1 i.2) (fun f i => norm_nonneg _)
    (fun f i => trivial) (fun f i => key s.T f i.1 i.2) (fun f i => lambD_pos hs f i.1 i.2)
    (fun f p => by
      rw [hraw, expo2, mul_comm, fastBasisRaw]
      simp only [Fintype.sum_prod_type_right, num2, Finset.mul_sum, mul_assoc, mul_div_assoc])
  have hext : (fun (f : F) (p : Fin n × Fin K) => T' p.1 f p.2) = (fun f p => s.T p.1 f p.2) ↔
      fastUpdateBasis floor X s = s := by
    rw [hup]
    constructor
    · intro e
      have : T' = s.T := funext fun k => funext fun f => funext fun b => congrFun (congrFun e f) (k, b)
      rw [this]
    · intro e
      have : T' = s.T := congrArg FSt.T e
      rw [this]
  rw [hext] at h1 h2
  constructor
  · refine h1.imp (fun hlt => ?_) id
    rw [hup]
    refine fastLoss_lt ht rfl ?_
    simp only [key T']
    simpa only [Fintype.sum_prod_type (α₁ := Fin m) (α₂ := Fin t)] using hlt
  · refine h2.trans ?_
    have hconv : ∀ A : Fin n → F → Fin K → ℝ,
        (HasDerivAt (fun ε : ℝ => fastLoss X ⟨s.Q, fun k f b => s.T k f b + ε * A k f b, s.V, s.D⟩) 0 0 ↔
        HasDerivAt (fun ε : ℝ => ∑ f, ∑ i : Fin m × Fin t, (gauss 2).ell ‖separate X s.Q f i.1 i.2‖
          (∑ p : Fin n × Fin K, s.V p.1 p.2 i.2 * s.D f p.1 i.1 * (s.T p.1 f p.2 + ε * A p.1 f p.2))) 0 0) := fun A => by
      rw [hasDerivAt_fast_iff X ht s.Q (fun ε => ⟨s.Q, fun k f b => s.T k f b + ε * A k f b, s.V, s.D⟩) fun _ => rfl]
      simp only [key, Fintype.sum_prod_type (α₁ := Fin m) (α₂ := Fin t)]
    exact ⟨fun e A => (hconv A).mpr (e fun f p => A p.1 f p.2), fun e A => (hconv fun k f b => A f (k, b)).mp (e _)⟩

theorem fast_activation_strict (hfl : ∀ k b j, Exact floor (fastActivationRaw X s k b j)) :
    (fastLoss X (fastUpdateActivation floor X s) < fastLoss X s ∨ fastUpdateActivation floor X s = s) ∧
    (fastUpdateActivation floor X s = s ↔ FStationaryActivation X s) := by
  obtain ⟨V', hV'⟩ : ∃ V', V' = (fastUpdateActivation floor X s).V := ⟨_, rfl⟩
  have hup : fastUpdateActivation floor X s = ⟨s.Q, s.T, V', s.D⟩ := by rw [hV']; rfl
  have hraw : ∀ k b j, V' k b j = fastActivationRaw X s k b j := fun k b j => by
    rw [hV']
    exact (hfl k b j).2
  have key : ∀ (V : Fin n → Fin K → Fin t → ℝ) f c j, lambD (⟨s.Q, s.T, V, s.D⟩ : FSt F n m t K) f c j
      = ∑ p : Fin n × Fin K, s.T p.1 f p.2 * s.D f p.1 c * V p.1 p.2 j := by
    intro V f c j
    simp only [lambD, recon, Finset.sum_mul, Fintype.sum_prod_type]
    exact Finset.sum_congr rfl fun k _ => Finset.sum_congr rfl fun b _ => by ring
  have swap : ∀ g : F → Fin m → Fin t → ℝ, ∑ f, ∑ c, ∑ j, g f c j = ∑ j, ∑ i : F × Fin m, g i.1 i.2 j := by
    intro g
    simp only [Fintype.sum_prod_type]
    rw [Finset.sum_comm (s := Finset.univ (α := Fin t))]
    exact Finset.sum_congr rfl fun f _ => Finset.sum_comm
  obtain ⟨h1, h2⟩ := slices_strict (gauss_isMM two_pos) (gauss_ellDeriv two_pos)
    (fun (j : Fin t) (i : F × Fin m) (p : Fin n × Fin K) => s.T p.1 i.1 p.2 * s.D i.1 p.1 i.2)
    (fun j i p => mul_pos (hs.2.1 p.1 i.1 p.2) (hs.2.2.2 i.1 p.1 i.2)) (fun j p => s.V p.1 p.2 j)
    (fun j p => V' p.1 p.2 j) (fun j p => hs.2.2.1 p.1 p.2 j) (fun j p => by rw [hraw]; exact (hfl _ _ _).1)
    (fun j i => ‖separate X s.Q i.1 i.2 j‖) (fun j i => lambD s i.1 i.2 j) (fun j i => norm_nonneg _)
    (fun j i => trivial) (fun j i => key s.V i.1 i.2 j) (fun j i => lambD_pos hs i.1 i.2 j)
    (fun j p => by
      rw [hraw, expo2, mul_comm, fastActivationRaw]
      simp only [Fintype.sum_prod_type, num2, Finset.mul_sum, mul_assoc, mul_div_assoc])
  have hext : (fun (j : Fin t) (p : Fin n × Fin K) => V' p.1 p.2 j) = (fun j p => s.V p.1 p.2 j) ↔
      fastUpdateActivation floor X s = s := by
    rw [hup]
    constructor
    · intro e
      have : V' = s.V := funext fun k => funext fun b => funext fun j => congrFun (congrFun e j) (k, b)
      rw [this]
    · intro e
      have : V' = s.V := congrArg FSt.V e
      rw [this]
  rw [hext] at h1 h2
  constructor
  · refine h1.imp (fun hlt => ?_) id
    rw [hup]
    refine fastLoss_lt ht rfl ?_
    simp only [swap, key V']
    exact hlt
  · refine h2.trans ?_
    have hconv : ∀ A : Fin n → Fin K → Fin t → ℝ,
        (HasDerivAt (fun ε : ℝ => fastLoss X ⟨s.Q, s.T, fun k b j => s.V k b j + ε * A k b j, s.D⟩) 0 0 ↔
        HasDerivAt (fun ε : ℝ => ∑ j, ∑ i : F × Fin m, (gauss 2).ell ‖separate X s.Q i.1 i.2 j‖
          (∑ p : Fin n × Fin K, s.T p.1 i.1 p.2 * s.D i.1 p.1 i.2 * (s.V p.1 p.2 j + ε * A p.1 p.2 j))) 0 0) := fun A => by
      rw [hasDerivAt_fast_iff X ht s.Q (fun ε => ⟨s.Q, s.T, fun k b j => s.V k b j + ε * A k b j, s.D⟩) fun _ => rfl]
      simp only [key, swap]
    exact ⟨fun e A => (hconv A).mpr (e fun j p => A p.1 p.2 j), fun e A => (hconv fun k b j => A j (k, b)).mp (e _)⟩

theorem fast_spatial_strict (hpos : ∀ f k c, 0 < (fastUpdateSpatial X s).D f k c) :
    (fastLoss X (fastUpdateSpatial X s) < fastLoss X s ∨ fastUpdateSpatial X s = s) ∧
    (fastUpdateSpatial X s = s ↔ FStationarySpatial X s) := by
  obtain ⟨D', hD'⟩ : ∃ D', D' = (fastUpdateSpatial X s).D := ⟨_, rfl⟩
  have hup : fastUpdateSpatial X s = ⟨s.Q, s.T, s.V, D'⟩ := by rw [hD']; rfl
  obtain ⟨h1, h2⟩ := slices_strict (gauss_isMM two_pos) (gauss_ellDeriv two_pos)
    (fun (p : F × Fin m) (j : Fin t) (k : Fin n) => recon s.T s.V k p.1 j)
    (fun p j k => recon_pos hs.2.1 hs.2.2.1 k p.1 j) (fun p k => s.D p.1 k p.2)
    (fun p k => D' p.1 k p.2) (fun p k => hs.2.2.2 p.1 k p.2) (fun p k => by rw [hD']; exact hpos _ _ _)
    (fun p j => ‖separate X s.Q p.1 p.2 j‖) (fun p j => lambD s p.1 p.2 j) (fun p j => norm_nonneg _)
    (fun p j => trivial) (fun p j => rfl) (fun p j => lambD_pos hs p.1 p.2 j)
    (fun p k => by
      rw [hD', expo2, fastUpdateSpatial]
      simp only [num2, div_pow]
      congr 4
      funext j
      ring)
  have hext : (fun (p : F × Fin m) (k : Fin n) => D' p.1 k p.2) = (fun p k => s.D p.1 k p.2) ↔
      fastUpdateSpatial X s = s := by
    rw [hup]
    constructor
    · intro e
      have : D' = s.D := funext fun f => funext fun k => funext fun c => congrFun (congrFun e (f, c)) k
      rw [this]
    · intro e
      have : D' = s.D := congrArg FSt.D e
      rw [this]
  rw [hext] at h1 h2
  constructor
  · refine h1.imp (fun hlt => ?_) id
    rw [hup]
    refine fastLoss_lt ht rfl ?_
    simp only [Fintype.sum_prod_type] at hlt
    exact hlt
  · refine h2.trans ?_
    have hconv : ∀ A : F → Fin n → Fin m → ℝ,
        (HasDerivAt (fun ε : ℝ => fastLoss X ⟨s.Q, s.T, s.V, fun f k c => s.D f k c + ε * A f k c⟩) 0 0 ↔
        HasDerivAt (fun ε : ℝ => ∑ p : F × Fin m, ∑ j, (gauss 2).ell ‖separate X s.Q p.1 p.2 j‖
          (∑ k, recon s.T s.V k p.1 j * (s.D p.1 k p.2 + ε * A p.1 k p.2))) 0 0) := fun A => by
      rw [hasDerivAt_fast_iff X ht s.Q (fun ε => ⟨s.Q, s.T, s.V, fun f k c => s.D f k c + ε * A f k c⟩) fun _ => rfl]
      simp only [Fintype.sum_prod_type]
      rfl
    exact ⟨fun e A => (hconv A).mpr (e fun p k => A p.1 k p.2), fun e A => (hconv fun f k c => A (f, c) k).mp (e _)⟩

end

theorem fast_varphi (X : Spec F m t) (s : FSt F n m t K) :
    varphi (gauss 2) id (separate X s.Q) (fun c f j => lambD s f c j) = fun f c j => 1 / lambD s f c j := by
  funext f c j
  simp [varphi, gauss]

theorem fast_eq_grad (X : Spec F m t) (s : FSt F n m t K) : (fun Q => fastLoss X ⟨Q, s.T, s.V, s.D⟩)
    = Grad.loss 2 (Ilrma.contrast (gauss 2) fun c f j => lambD s f c j) X := by
  funext Q
  rw [fastLoss_lossOf]
  simp only [lossOf, Grad.loss, Finset.sum_sub_distrib, Finset.mul_sum, Fintype.sum_prod_type]
  rfl

section
variable [Nonempty (Fin K)] [Nonempty (Fin n)] (np : Numpy ℂ) {floor : ℝ → ℝ} (X : Spec F m t)
  (hX : ∀ f, LinearIndependent ℂ (X f).row) (s : FSt F n m t K) (hs : FInv s)
include hX hs

theorem fast_diagonalizer_strict (hfl : spatialFilter np .ip1 floor (fun f c j => 1 / lambD s f c j) X s.Q
      = spatialFilter np .ip1 id (fun f c j => 1 / lambD s f c j) X s.Q) :
    ∃ s', fastUpdateDiagonalizer np .ip1 floor X s = .ok s' ∧ FInv s' ∧ (fastLoss X s' < fastLoss X s ∨ s' = s) ∧
      (s' = s ↔ FStationaryDiagonalizer X s) := by
  have hR : ∀ c f j, 0 < lambD s f c j := fun c f j => lambD_pos hs f c j
  obtain ⟨Q', h1, h2, h3, h4⟩ := ip1Stack_strict (fun f c j => 1 / lambD s f c j)
    (fun f c j => one_div_pos.mpr (hR c f j)) X hX s.Q hs.1
  refine ⟨⟨Q', s.T, s.V, s.D⟩, ?_, ⟨h2, hs.2⟩, ?_, ?_⟩
  · rw [fastUpdateDiagonalizer, hfl]
    have : spatialFilter np .ip1 id (fun f c j => 1 / lambD s f c j) X s.Q = .ok Q' := h1
    rw [this]
    rfl
  · refine h3.imp (fun h => ?_) fun h => by rw [h]
    have hgap := spatial_gap (src := gauss 2) (floor := id) (separate X s.Q) (separate X Q') (fun c f j => lambD s f c j)
      s.Q Q' fun f c j => gauss_spatialOk id (hR c f j)
    rw [fast_varphi] at hgap
    rw [fastLoss_lossOf, fastLoss_lossOf]
    change lossOf (gauss 2) (separate X Q') (fun c f j => lambD s f c j) Q' < _
    linarith
  · have : (⟨Q', s.T, s.V, s.D⟩ : FSt F n m t K) = s ↔ Q' = s.Q :=
      ⟨fun e => congrArg FSt.Q e, fun e => by rw [e]⟩
    rw [this, h4, FStationaryDiagonalizer, fast_eq_grad]
    refine (Grad.stationary_iff_balanced _ X s.Q hs.1 ?_).symm
    have := isScoreAt (gauss_spatialDeriv (p := 2) id) (fun c f j => lambD s f c j) hR (separate X s.Q)
      fun _ _ _ => trivial
    rwa [fast_varphi] at this

end

/-- The flooring is inactive in the iteration that starts at `s`. -/
structure FRegExact (np : Numpy ℂ) (normalization : Bool) (floor : ℝ → ℝ) (X : Spec F m t) (s : FSt F n m t K) :
    Prop where
  basis : ∀ k f b, Exact floor (fastBasisRaw X s k f b)
  activation : ∀ k b j, Exact floor (fastActivationRaw X (fastUpdateBasis floor X s) k b j)
  diagonalizer : ∀ s1, s1 = fastUpdateActivation floor X (fastUpdateBasis floor X s) →
    spatialFilter np .ip1 floor (fun f c j => 1 / lambD s1 f c j) X s1.Q
      = spatialFilter np .ip1 id (fun f c j => 1 / lambD s1 f c j) X s1.Q
  spatial : ∀ s1, fastUpdateDiagonalizer np .ip1 floor X (fastUpdateActivation floor X (fastUpdateBasis floor X s))
    = .ok s1 → (∀ f k c, 0 < (fastUpdateSpatial X s1).D f k c) ∧
      (normalization = true → ∀ c, 0 < fastPsi floor X (fastUpdateSpatial X s1) c)

/-- One iteration of FastMNMF with IP1: the loss becomes strictly smaller exactly if the state is not stationary; at a
stationary state only the normalization acts. -/
theorem C64_fast_mnmf [Nonempty (Fin K)] [Nonempty (Fin n)] (np : Numpy ℂ) (normalization : Bool) (floor : ℝ → ℝ)
    (X : Spec F m t) (ht : 0 < t) (hX : ∀ f, LinearIndependent ℂ (X f).row) (s : FSt F n m t K) (hs : FInv s)
    (hr : FRegExact np normalization floor X s) :
    ∃ s', fastUpdateOnce np .ip1 normalization floor X s = .ok s' ∧ FInv s' ∧
      (fastLoss X s' < fastLoss X s ↔ ¬ FStationary X s) ∧
      (FStationary X s → s' = if normalization then fastNormalize floor X s else s) := by
  obtain ⟨s1, d1⟩ : ∃ s1, s1 = fastUpdateBasis floor X s := ⟨_, rfl⟩
  obtain ⟨s2, d2⟩ : ∃ s2, s2 = fastUpdateActivation floor X s1 := ⟨_, rfl⟩
  have hact := hr.activation
  have hdiag := hr.diagonalizer
  have hspat := hr.spatial
  rw [← d1] at hact
  rw [← d1, ← d2] at hdiag hspat
  have hs1 : FInv s1 := by
    rw [d1]
    exact ⟨hs.1, fun k f b => ((hr.basis k f b).mild 0).1, hs.2.2⟩
  have hs2 : FInv s2 := by
    rw [d2]
    exact ⟨hs1.1, hs1.2.1, fun k b j => ((hact k b j).mild 0).1, hs1.2.2.2⟩
  obtain ⟨b1, b2⟩ := fast_basis_strict X ht s hs hr.basis
  obtain ⟨a1, a2⟩ := fast_activation_strict X ht s1 hs1 hact
  rw [← d1] at b1 b2
  rw [← d2] at a1 a2
  obtain ⟨s3, e3, hs3, c1, c2⟩ := fast_diagonalizer_strict np X hX s2 hs2 (hdiag _ rfl)
  obtain ⟨hp, hψ⟩ := hspat s3 e3
  obtain ⟨s4, d4⟩ : ∃ s4, s4 = fastUpdateSpatial X s3 := ⟨_, rfl⟩
  obtain ⟨f1, f2⟩ := fast_spatial_strict X ht s3 hs3 hp
  rw [← d4] at f1 f2 hp hψ
  have hs4 : FInv s4 := ⟨by rw [d4]; exact hs3.1, by rw [d4]; exact hs3.2.1, by rw [d4]; exact hs3.2.2.1, hp⟩
  have hup : fastUpdateOnce np .ip1 normalization floor X s
      = .ok (if normalization then fastNormalize floor X s4 else s4) := by
    rw [fastUpdateOnce, ← d1, ← d2, e3, d4]
    rfl
  have hle : ∀ {a b : FSt F n m t K}, fastLoss X a < fastLoss X b ∨ a = b → fastLoss X a ≤ fastLoss X b := by
    rintro a b (h | h)
    exacts [h.le, by rw [h]]
  have hstat : FStationary X s → s4 = s := by
    rintro ⟨k1, k2, k3, k4⟩
    have e1 := b2.mpr k1
    have e2 : s2 = s := (a2.mpr (by rw [e1]; exact k2)).trans e1
    have e3 : s3 = s := (c2.mpr (by rw [e2]; exact k3)).trans e2
    exact (f2.mpr (by rw [e3]; exact k4)).trans e3
  have hlt : fastLoss X s4 < fastLoss X s ↔ ¬ FStationary X s := by
    constructor
    · intro h hst
      rw [hstat hst] at h
      exact lt_irrefl _ h
    · intro hns
      by_cases e1 : s1 = s
      · by_cases e2 : s2 = s1
        · by_cases e3 : s3 = s2
          · have e4 : s4 ≠ s3 := fun e4 => hns (by
              have k1 := b2.mp e1
              have k2 := a2.mp e2
              have k3 := c2.mp e3
              have k4 := f2.mp e4
              rw [e3, e2, e1] at k4
              rw [e2, e1] at k3
              rw [e1] at k2
              exact ⟨k1, k2, k3, k4⟩)
            have := f1.resolve_right e4
            rwa [show fastLoss X s3 = fastLoss X s by rw [e3, e2, e1]] at this
          · have := (hle f1).trans_lt (c1.resolve_right e3)
            rwa [show fastLoss X s2 = fastLoss X s by rw [e2, e1]] at this
        · have := ((hle f1).trans (hle c1)).trans_lt (a1.resolve_right e2)
          rwa [e1] at this
      · exact (((hle f1).trans (hle c1)).trans (hle a1)).trans_lt (b1.resolve_right e1)
  cases normalization with
  | false => exact ⟨s4, hup, hs4, hlt, fun hst => hstat hst⟩
  | true =>
    obtain ⟨hs5, l5⟩ := C42_normalise floor X ht s4 hs4 (hψ rfl)
    refine ⟨fastNormalize floor X s4, hup, hs5, by rw [l5]; exact hlt, fun hst => ?_⟩
    rw [hstat hst]
    rfl

/-- Without normalization the iteration returns the state unchanged exactly at the stationary states. -/
theorem C64_fixed [Nonempty (Fin K)] [Nonempty (Fin n)] (np : Numpy ℂ) (floor : ℝ → ℝ)
    (X : Spec F m t) (ht : 0 < t) (hX : ∀ f, LinearIndependent ℂ (X f).row) (s : FSt F n m t K) (hs : FInv s)
    (hr : FRegExact np false floor X s) :
    fastUpdateOnce np .ip1 false floor X s = .ok s ↔ FStationary X s := by
  obtain ⟨s', h1, -, h2, h3⟩ := C64_fast_mnmf np false floor X ht hX s hs hr
  rw [h1]
  constructor
  · intro e
    cases e
    by_contra hns
    exact lt_irrefl _ (h2.mpr hns)
  · intro hst
    exact congrArg _ (h3 hst)

/-- Without flooring every step is regular as soon as the channels are linearly independent in every bin and no frame is
silent in all bins. -/
theorem fregExact_id [Nonempty F] [Nonempty (Fin m)] [Nonempty (Fin K)] [Nonempty (Fin n)] (np : Numpy ℂ)
    (normalization : Bool) (X : Spec F m t) (hX : ∀ f, LinearIndependent ℂ (X f).row)
    (hz : ∀ j, ∃ f c, X f c j ≠ 0) (s : FSt F n m t K) (hs : FInv s) : FRegExact np normalization id X s := by
  have hrow : ∀ Q : F → Mat m ℂ, (∀ f, IsUnit (Q f).det) → ∀ f c, ∃ j, 0 < ‖separate X Q f c j‖ := by
    intro Q hQ f c
    by_contra hcon
    push Not at hcon
    have h0 : Q f c = 0 := by
      refine funext (Fintype.linearIndependent_iff.mp (hX f) (Q f c) (funext fun j => ?_))
      have := norm_le_zero_iff.mp (hcon j)
      simpa [separate, mul_apply, Finset.sum_apply, Matrix.row] using this
    exact (hQ f).ne_zero (det_eq_zero_of_row_eq_zero c fun a => congrFun h0 a)
  have hcol : ∀ Q : F → Mat m ℂ, (∀ f, IsUnit (Q f).det) → ∀ j, ∃ f c, 0 < ‖separate X Q f c j‖ := by
    intro Q hQ j
    obtain ⟨f, c, hfc⟩ := hz j
    refine ⟨f, ?_⟩
    by_contra hcon
    push Not at hcon
    have h0 : Q f *ᵥ (fun c => X f c j) = 0 := by
      funext c
      have := norm_le_zero_iff.mp (hcon c)
      simpa [separate, mul_apply, mulVec, dotProduct] using this
    exact hfc (congrFun (eq_zero_of_mulVec_eq_zero (hQ f).ne_zero h0) c)
  have hJ : Nonempty (Fin t) := by
    obtain ⟨f⟩ := ‹Nonempty F›
    obtain ⟨c⟩ := ‹Nonempty (Fin m)›
    obtain ⟨j, -⟩ := hrow s.Q hs.1 f c
    exact ⟨j⟩
  have hB : ∀ s : FSt F n m t K, FInv s → ∀ k f b, 0 < fastBasisRaw X s k f b := by
    intro s hs k f b
    have hL := lambD_pos hs
    have hi : ∀ j c, 0 ≤ s.D f k c * (‖separate X s.Q f c j‖ / lambD s f c j) ^ 2 := fun j c =>
      mul_nonneg (hs.2.2.2 f k c).le (sq_nonneg _)
    obtain ⟨c⟩ := ‹Nonempty (Fin m)›
    obtain ⟨j, hj⟩ := hrow s.Q hs.1 f c
    refine mul_pos (hs.2.1 k f b) (Real.sqrt_pos.mpr (div_pos ?_ ?_))
    · refine Finset.sum_pos' (fun j _ => mul_nonneg (hs.2.2.1 k b j).le (Finset.sum_nonneg fun c _ => hi j c))
        ⟨j, Finset.mem_univ _, mul_pos (hs.2.2.1 k b j) (Finset.sum_pos' (fun c _ => hi j c) ⟨c, Finset.mem_univ _,
          mul_pos (hs.2.2.2 f k c) (pow_pos (div_pos hj (hL f c j)) 2)⟩)⟩
    · exact Finset.sum_pos (fun j _ => mul_pos (hs.2.2.1 k b j) (Finset.sum_pos (fun c _ => div_pos (hs.2.2.2 f k c)
        (hL f c j)) ⟨c, Finset.mem_univ _⟩)) Finset.univ_nonempty
  have hA : ∀ s : FSt F n m t K, FInv s → ∀ k b j, 0 < fastActivationRaw X s k b j := by
    intro s hs k b j
    have hL := lambD_pos hs
    have hi : ∀ f c, 0 ≤ s.D f k c * (‖separate X s.Q f c j‖ / lambD s f c j) ^ 2 := fun f c =>
      mul_nonneg (hs.2.2.2 f k c).le (sq_nonneg _)
    obtain ⟨f, c, hj⟩ := hcol s.Q hs.1 j
    refine mul_pos (hs.2.2.1 k b j) (Real.sqrt_pos.mpr (div_pos ?_ ?_))
    · exact Finset.sum_pos' (fun f _ => mul_nonneg (hs.2.1 k f b).le (Finset.sum_nonneg fun c _ => hi f c))
        ⟨f, Finset.mem_univ _, mul_pos (hs.2.1 k f b) (Finset.sum_pos' (fun c _ => hi f c) ⟨c, Finset.mem_univ _,
          mul_pos (hs.2.2.2 f k c) (pow_pos (div_pos hj (hL f c j)) 2)⟩)⟩
    · exact Finset.sum_pos (fun f _ => mul_pos (hs.2.1 k f b) (Finset.sum_pos (fun c _ => div_pos (hs.2.2.2 f k c)
        (hL f c j)) ⟨c, Finset.mem_univ _⟩)) ⟨f, Finset.mem_univ _⟩
  have hD : ∀ s : FSt F n m t K, FInv s → ∀ f k c, 0 < (fastUpdateSpatial X s).D f k c := by
    intro s hs f k c
    have hL := lambD_pos hs
    obtain ⟨j, hj⟩ := hrow s.Q hs.1 f c
    have hr := recon_pos hs.2.1 hs.2.2.1 k f
    refine mul_pos (Real.sqrt_pos.mpr (div_pos ?_ ?_)) (hs.2.2.2 f k c)
    · exact Finset.sum_pos' (fun j _ => mul_nonneg (div_pos (hr j) (pow_pos (hL f c j) 2)).le (sq_nonneg _))
        ⟨j, Finset.mem_univ _, mul_pos (div_pos (hr j) (pow_pos (hL f c j) 2)) (pow_pos hj 2)⟩
    · exact Finset.sum_pos (fun j _ => div_pos (hr j) (hL f c j)) ⟨j, Finset.mem_univ _⟩
  have hs1 : FInv (fastUpdateBasis id X s) := ⟨hs.1, hB s hs, hs.2.2⟩
  have hs2 : FInv (fastUpdateActivation id X (fastUpdateBasis id X s)) := ⟨hs.1, hs1.2.1, hA _ hs1, hs.2.2.2⟩
  refine ⟨fun k f b => ⟨hB s hs k f b, rfl⟩, fun k b j => ⟨hA _ hs1 k b j, rfl⟩, fun _ _ => rfl, fun s3 h => ?_⟩
  obtain ⟨s3', e3, hs3, -⟩ := fast_diagonalizer_step np .ip1 trivial id X hX _ hs2 rfl
  rw [h] at e3
  cases e3
  refine ⟨hD s3 hs3, fun _ c => Real.sqrt_pos.mpr (div_pos ?_ ?_)⟩
  · obtain ⟨f⟩ := ‹Nonempty F›
    obtain ⟨j, hj⟩ := hrow s3.Q hs3.1 f c
    exact Finset.sum_pos' (fun f _ => Finset.sum_nonneg fun j _ => sq_nonneg _)
      ⟨f, Finset.mem_univ _, Finset.sum_pos' (fun j _ => sq_nonneg _) ⟨j, Finset.mem_univ _, pow_pos hj 2⟩⟩
  · exact mul_pos (Nat.cast_pos.mpr Fintype.card_pos) (Nat.cast_pos.mpr (Fin.pos_iff_nonempty.mpr hJ))

/-- Without flooring the characterisation holds for every mixture whose channels are linearly independent in every bin
and that has no frame which is silent in all bins. -/
theorem C64_no_flooring [Nonempty F] [Nonempty (Fin m)] [Nonempty (Fin K)] [Nonempty (Fin n)] (np : Numpy ℂ)
    (normalization : Bool) (X : Spec F m t) (hX : ∀ f, LinearIndependent ℂ (X f).row) (hz : ∀ j, ∃ f c, X f c j ≠ 0)
    (s : FSt F n m t K) (hs : FInv s) :
    ∃ s', fastUpdateOnce np .ip1 normalization id X s = .ok s' ∧ FInv s' ∧
      (fastLoss X s' < fastLoss X s ↔ ¬ FStationary X s) ∧
      (FStationary X s → s' = if normalization then fastNormalize id X s else s) := by
  refine C64_fast_mnmf np normalization id X ?_ hX s hs (fregExact_id np normalization X hX hz s hs)
  obtain ⟨f⟩ := ‹Nonempty F›
  obtain ⟨c⟩ := ‹Nonempty (Fin m)›
  by_contra ht
  obtain rfl : t = 0 := by omega
  exact (hX f).ne_zero c (Subsingleton.elim _ _)

/-- Diagonalizers `1`, bases `c`, activations `1`, spatial weights `1 / 2`. -/
noncomputable def exFast (c : ℝ) : FSt Unit 2 2 2 1 := ⟨fun _ => 1, fun _ _ _ => c, fun _ _ _ => 1, fun _ _ _ => 1 / 2⟩

theorem exFast_inv {c : ℝ} (hc : 0 < c) : FInv (exFast c) :=
  ⟨fun _ => by simp [exFast], fun _ _ _ => hc, fun _ _ _ => one_pos, fun _ _ _ => by norm_num [exFast]⟩

theorem exFast_lambD (c : ℝ) (f : Unit) (a j : Fin 2) : lambD (exFast c) f a j = c := by
  simp only [lambD, exFast, recon, Finset.univ_unique, Finset.sum_singleton, Fin.sum_univ_two]
  ring

theorem exFast_norm (c : ℝ) (f : Unit) (k j : Fin 2) : ‖separate exX (exFast c).Q f k j‖ = 1 := exState_norm c f k j

theorem exFast_basis (c : ℝ) (hc : 0 < c) (k : Fin 2) (f : Unit) (b : Fin 1) :
    fastBasisRaw exX (exFast c) k f b = c * Real.sqrt (1 / c) := by
  simp only [fastBasisRaw, exFast_norm, exFast_lambD]
  simp only [exFast, Fin.sum_univ_two]
  congr 2
  field_simp

theorem exX_frames (j : Fin 2) : ∃ f c, exX f c j ≠ 0 := ⟨(), 0, by fin_cases j <;> simp [exX]⟩

/-- The state with bases `4` is not stationary, so one iteration strictly decreases its loss. -/
example (np : Numpy ℂ) : ∃ s', fastUpdateOnce np .ip1 true id exX (exFast 4) = .ok s' ∧
    fastLoss exX s' < fastLoss exX (exFast 4) := by
  have hs := exFast_inv (c := 4) (by norm_num)
  obtain ⟨s', h1, -, h2, -⟩ := C64_no_flooring np true exX exX_indep exX_frames _ hs
  refine ⟨s', h1, h2.mpr fun hst => ?_⟩
  have hr := fregExact_id np true exX exX_indep exX_frames _ hs
  have := congrArg FSt.T ((fast_basis_strict exX two_pos _ hs hr.basis).2.mpr hst.1)
  have := congrFun (congrFun (congrFun this 0) ()) 0
  change fastBasisRaw exX (exFast 4) 0 () 0 = 4 at this
  rw [exFast_basis 4 (by norm_num), show (1 / 4 : ℝ) = (1 / 2) ^ 2 by norm_num,
    Real.sqrt_sq (by norm_num)] at this
  norm_num [exFast] at this

/-- The state with bases `1` is stationary, so one iteration changes nothing. -/
example (np : Numpy ℂ) : FStationary exX (exFast 1) ∧ fastUpdateOnce np .ip1 false id exX (exFast 1) = .ok (exFast 1) := by
  have hs := exFast_inv one_pos
  have hr := fregExact_id np false exX exX_indep exX_frames _ hs
  have hT : fastUpdateBasis id exX (exFast 1) = exFast 1 := by
    have : (fastUpdateBasis id exX (exFast 1)).T = (exFast 1).T := by
      funext k f b
      change fastBasisRaw exX (exFast 1) k f b = 1
      rw [exFast_basis 1 one_pos]
      simp
    rw [fastUpdateBasis] at this ⊢
    exact congrArg (fun T => FSt.mk (exFast 1).Q T (exFast 1).V (exFast 1).D) this
  have hV : fastUpdateActivation id exX (exFast 1) = exFast 1 := by
    have : (fastUpdateActivation id exX (exFast 1)).V = (exFast 1).V := by
      funext k b j
      simp only [fastUpdateActivation, fastActivationRaw, exFast_norm, exFast_lambD]
      simp [exFast]
    rw [fastUpdateActivation] at this ⊢
    exact congrArg (fun V => FSt.mk (exFast 1).Q (exFast 1).T V (exFast 1).D) this
  have hD : fastUpdateSpatial exX (exFast 1) = exFast 1 := by
    have : (fastUpdateSpatial exX (exFast 1)).D = (exFast 1).D := by
      funext f k c
      simp only [fastUpdateSpatial, exFast_norm, exFast_lambD]
      simp [exFast, recon]
    rw [fastUpdateSpatial] at this ⊢
    exact congrArg (fun D => FSt.mk (exFast 1).Q (exFast 1).T (exFast 1).V D) this
  have ha := hr.activation
  rw [hT] at ha
  have hst : FStationary exX (exFast 1) := by
    refine ⟨(fast_basis_strict exX two_pos _ hs hr.basis).2.mp hT, (fast_activation_strict exX two_pos _ hs ha).2.mp hV,
      ?_, (fast_spatial_strict exX two_pos _ hs (by rw [hD]; exact hs.2.2.2)).2.mp hD⟩
    rw [FStationaryDiagonalizer, fast_eq_grad]
    refine (Grad.stationary_iff_balanced _ exX _ hs.1 (isScoreAt (gauss_spatialDeriv id) _
      (fun c f j => lambD_pos hs f c j) _ fun _ _ _ => trivial)).mpr fun f i j => ?_
    rw [← meanT_form]
    fin_cases i <;> fin_cases j <;> simp [meanT, Grad.sep, exX, exFast, varphi, gauss, lambD, recon]
  exact ⟨hst, (C64_fixed np id exX two_pos exX_indep _ hs hr).mpr hst⟩

end Verif.Mnmf
