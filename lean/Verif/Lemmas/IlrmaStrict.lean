import Verif.Props.Ilrma
import Verif.Props.Stationary

/-!
# Multiplicative updates that change something make the loss strictly smaller

Used for C63: a multiplicative update either strictly decreases the loss of its slice or leaves the parameters as they
are, and it leaves them as they are exactly where the gradient vanishes.
-/

set_option linter.unusedSectionVars false

namespace Verif.Ilrma
open Matrix Spatial Scale Mult Iva

/-- The derivative of the contrast with respect to the model variance is the one the update is built on. -/
def HasEllDeriv (src : Source) (κ : ℝ) (ok : ℝ → Prop) : Prop :=
  ∀ y r, 0 ≤ y → ok y → 0 < r → HasDerivAt (src.ell y) (κ * (1 / r - src.num y r)) r

/-- The weight of the spatial update is the derivative of the contrast with respect to the signal. -/
def HasSpatialDeriv (src : Source) (floor : ℝ → ℝ) (ok : ℝ → Prop) : Prop :=
  ∀ (y δ : ℂ) (r : ℝ), ok ‖y‖ → 0 < r →
    HasDerivAt (fun ε : ℝ => src.ell ‖y + (ε : ℂ) * δ‖ r) (2 * (src.phi floor ‖y‖ r * (star y * δ).re)) 0

section slice
variable {I J : Type} [Fintype I] [Fintype J]

theorem IsMM.expo_pos {src : Source} {q κ : ℝ} {w : ℝ → ℝ → ℝ} (h : IsMM src q κ w) : 0 < src.expo := by
  have := h.q_pos
  rcases h.expo_eq with e | ⟨-, e⟩
  · rw [e]
    positivity
  · rw [e]
    exact one_pos

variable {src : Source} {q κ : ℝ} {w : ℝ → ℝ → ℝ} (h : IsMM src q κ w) (a : I → J → ℝ)
    (ha : ∀ i j, 0 < a i j) (θ θ' : J → ℝ) (hθ : ∀ j, 0 < θ j) (hθ' : ∀ j, 0 < θ' j) (y R : I → ℝ)
    (hy : ∀ i, 0 ≤ y i) (hRd : ∀ i, R i = ∑ j, a i j * θ j) (hR : ∀ i, 0 < R i)
    (hupd : ∀ j, θ' j = ((∑ i, a i j * src.num (y i) (R i)) / ∑ i, a i j / R i) ^ src.expo * θ j)
include h ha hθ hθ' hy hRd hR hupd

/-- Numerator and denominator of the update are positive. -/
theorem slice_pos (j : J) : 0 < ∑ i, a i j * src.num (y i) (R i) ∧ 0 < ∑ i, a i j / R i := by
  have hbase : (∑ i, a i j * src.num (y i) (R i)) / (∑ i, a i j / R i) ≠ 0 := by
    intro h0
    have := hupd j
    rw [h0, Real.zero_rpow h.expo_pos.ne', zero_mul] at this
    exact (hθ' j).ne' this
  have hn : 0 ≤ ∑ i, a i j * src.num (y i) (R i) := Finset.sum_nonneg fun i _ => by
    rw [h.num_eq _ _ (hy i) (hR i)]
    exact mul_nonneg (ha i j).le (mul_nonneg (div_pos h.q_pos h.κ_pos).le
      (mul_nonneg (h.w_nonneg _ _ (hy i) (hR i)) (Real.rpow_nonneg (hR i).le _)))
  have hd : 0 ≤ ∑ i, a i j / R i := Finset.sum_nonneg fun i _ => (div_pos (ha i j) (hR i)).le
  exact ⟨lt_of_le_of_ne hn fun e => hbase (by rw [← e, zero_div]),
    lt_of_le_of_ne hd fun e => hbase (by rw [← e, div_zero])⟩

/-- One multiplicative update strictly decreases the loss of its slice or leaves the parameters unchanged. -/
theorem slice_strict :
    ∑ i, src.ell (y i) (∑ j, a i j * θ' j) < ∑ i, src.ell (y i) (R i) ∨ θ' = θ := by
  by_cases he : θ' = θ
  · exact .inr he
  left
  obtain ⟨j, hj⟩ := Function.ne_iff.mp he
  have hρθ : ∀ j, θ' j / θ j * θ j = θ' j := fun j => div_mul_cancel₀ _ (hθ j).ne'
  have hRs : ∀ i, 0 < ∑ j, a i j * θ j := fun i => by rw [← hRd]; exact hR i
  have hρpos : ∀ j, 0 < θ' j / θ j := fun j => div_pos (hθ' j) (hθ j)
  have hwnn : ∀ i, 0 ≤ w (y i) (R i) := fun i => h.w_nonneg _ _ (hy i) (hR i)
  have hw : ∃ i, 0 < w (y i) (R i) := by
    by_contra hno
    push Not at hno
    have h0 : ∀ i, w (y i) (R i) = 0 := fun i => le_antisymm (hno i) (hwnn i)
    have := (slice_pos h a ha θ θ' hθ hθ' y R hy hRd hR hupd j).1
    rw [Finset.sum_eq_zero fun i _ => by rw [h.num_eq _ _ (hy i) (hR i), h0]; ring] at this
    exact lt_irrefl _ this
  have hlt := obj_lt_maj a θ (fun j => θ' j / θ j) (fun i => w (y i) (R i)) ha hθ hρpos h.q_pos h.κ_pos hwnn hRs hw
    ⟨j, fun e => hj (by rwa [div_eq_one_iff_eq (hθ j).ne'] at e)⟩
  rw [maj_eq a θ _ _ hRs] at hlt
  have haux : ∑ j, θ j * (aux q κ (∑ i, a i j * (w (y i) (R i) * (∑ j, a i j * θ j) ^ (-(1 + q))))
          (∑ i, a i j / ∑ j, a i j * θ j) (θ' j / θ j)
        - aux q κ (∑ i, a i j * (w (y i) (R i) * (∑ j, a i j * θ j) ^ (-(1 + q))))
          (∑ i, a i j / ∑ j, a i j * θ j) 1) ≤ 0 := by
    simp only [← hRd]
    exact Finset.sum_nonpos fun j _ => mul_nonpos_of_nonneg_of_nonpos (hθ j).le (sub_nonpos.mpr
      (slice_aux h a (fun i j => (ha i j).le) θ θ' hθ hθ' y R hy hRd hR (fun j => .inl (hupd j)) j))
  have hR' := model_pos a θ (fun j => θ' j / θ j) (fun i j => (ha i j).le) hθ hρpos hRs
  simp only [hρθ, ← hRd] at hlt hR' haux
  have := slice_gap h y R _ hy hR hR'
  linarith

/-- It leaves them unchanged exactly where numerator and denominator agree. -/
theorem slice_fixed_iff : θ' = θ ↔ ∀ j, ∑ i, a i j / R i = ∑ i, a i j * src.num (y i) (R i) := by
  rw [funext_iff]
  refine forall_congr' fun j => ?_
  obtain ⟨hn, hd⟩ := slice_pos h a ha θ θ' hθ hθ' y R hy hRd hR hupd j
  have hone : ∀ x : ℝ, 0 < x → (x ^ src.expo = 1 ↔ x = 1) := fun x hx =>
    ⟨fun e => by
      have := congrArg (· ^ src.expo⁻¹) e
      simpa only [Real.one_rpow, Real.rpow_rpow_inv hx.le h.expo_pos.ne'] using this, fun e => by rw [e, Real.one_rpow]⟩
  rw [hupd j, mul_eq_right₀ (hθ j).ne', hone _ (div_pos hn hd), div_eq_one_iff_eq hd.ne', eq_comm]

end slice

section deriv
variable {I J : Type} [Fintype I] [Fintype J]

/-- The directional derivative of the loss of a slice. -/
theorem slice_hasDerivAt {src : Source} {κ : ℝ} {ok : ℝ → Prop} (h : HasEllDeriv src κ ok) (a : I → J → ℝ)
    (θ D : J → ℝ) (y R : I → ℝ) (hy : ∀ i, 0 ≤ y i) (hok : ∀ i, ok (y i)) (hRd : ∀ i, R i = ∑ j, a i j * θ j)
    (hR : ∀ i, 0 < R i) :
    HasDerivAt (fun ε : ℝ => ∑ i, src.ell (y i) (∑ j, a i j * (θ j + ε * D j)))
      (∑ j, κ * (D j * (∑ i, a i j / R i - ∑ i, a i j * src.num (y i) (R i)))) 0 := by
  have h1 : ∀ i, HasDerivAt (fun ε : ℝ => ∑ j, a i j * (θ j + ε * D j)) (∑ j, a i j * D j) 0 := fun i =>
    HasDerivAt.fun_sum fun j _ => by
      have := (((hasDerivAt_id (0 : ℝ)).mul_const (D j)).const_add (θ j)).const_mul (a i j)
      exact this.congr_deriv (by simp)
  have h2 : ∀ i, HasDerivAt (fun ε : ℝ => src.ell (y i) (∑ j, a i j * (θ j + ε * D j)))
      (κ * (1 / R i - src.num (y i) (R i)) * ∑ j, a i j * D j) 0 := fun i => by
    have e : ∑ j, a i j * (θ j + (0 : ℝ) * D j) = R i := by simp [hRd]
    have := h (y i) (R i) (hy i) (hok i) (hR i)
    rw [← e] at this
    refine (this.comp (0 : ℝ) (h1 i)).congr_deriv ?_
    rw [e]
  refine (HasDerivAt.fun_sum fun i _ => h2 i).congr_deriv ?_
  simp only [Finset.mul_sum, mul_sub, ← Finset.sum_sub_distrib]
  rw [Finset.sum_comm]
  refine Finset.sum_congr rfl fun j _ => Finset.sum_congr rfl fun i _ => ?_
  ring

/-- All slices together: the update strictly decreases the loss or changes nothing, and it changes nothing exactly where
all directional derivatives vanish. -/
theorem slices_strict {P : Type} [Fintype P] {src : Source} {q κ : ℝ} {w : ℝ → ℝ → ℝ} (h : IsMM src q κ w)
    {ok : ℝ → Prop} (hd : HasEllDeriv src κ ok) (a : P → I → J → ℝ) (ha : ∀ p i j, 0 < a p i j) (θ θ' : P → J → ℝ)
    (hθ : ∀ p j, 0 < θ p j) (hθ' : ∀ p j, 0 < θ' p j) (y R : P → I → ℝ) (hy : ∀ p i, 0 ≤ y p i)
    (hok : ∀ p i, ok (y p i)) (hRd : ∀ p i, R p i = ∑ j, a p i j * θ p j) (hR : ∀ p i, 0 < R p i)
    (hupd : ∀ p j, θ' p j
      = ((∑ i, a p i j * src.num (y p i) (R p i)) / ∑ i, a p i j / R p i) ^ src.expo * θ p j) :
    (∑ p, ∑ i, src.ell (y p i) (∑ j, a p i j * θ' p j) < ∑ p, ∑ i, src.ell (y p i) (R p i) ∨ θ' = θ) ∧
    (θ' = θ ↔ ∀ D : P → J → ℝ,
      HasDerivAt (fun ε : ℝ => ∑ p, ∑ i, src.ell (y p i) (∑ j, a p i j * (θ p j + ε * D p j))) 0 0) := by
  have hst := fun p => slice_strict h (a p) (ha p) (θ p) (θ' p) (hθ p) (hθ' p) (y p) (R p) (hy p) (hRd p) (hR p)
    (hupd p)
  have hfx := fun p => slice_fixed_iff h (a p) (ha p) (θ p) (θ' p) (hθ p) (hθ' p) (y p) (R p) (hy p) (hRd p) (hR p)
    (hupd p)
  have hder : ∀ D : P → J → ℝ,
      HasDerivAt (fun ε : ℝ => ∑ p, ∑ i, src.ell (y p i) (∑ j, a p i j * (θ p j + ε * D p j)))
        (∑ p, ∑ j, κ * (D p j * (∑ i, a p i j / R p i - ∑ i, a p i j * src.num (y p i) (R p i)))) 0 := fun D =>
    HasDerivAt.fun_sum fun p _ => slice_hasDerivAt hd (a p) (θ p) (D p) (y p) (R p) (hy p) (hok p) (hRd p) (hR p)
  constructor
  · by_cases he : θ' = θ
    · exact .inr he
    obtain ⟨p, hp⟩ := Function.ne_iff.mp he
    refine .inl (Finset.sum_lt_sum (fun p _ => ?_) ⟨p, Finset.mem_univ p, (hst p).resolve_right hp⟩)
    rcases hst p with h1 | h1
    · exact h1.le
    · rw [h1]
      simp only [← hRd]
      exact le_rfl
  · rw [funext_iff]
    constructor
    · intro e D
      refine (hder D).congr_deriv (Finset.sum_eq_zero fun p _ => Finset.sum_eq_zero fun j _ => ?_)
      rw [(hfx p).mp (e p) j, sub_self, mul_zero, mul_zero]
    · intro hst p
      rw [hfx]
      intro j
      have e := (hder fun p j => ∑ i, a p i j / R p i - ∑ i, a p i j * src.num (y p i) (R p i)).unique (hst _)
      have hnn : ∀ p j, 0 ≤ κ * ((∑ i, a p i j / R p i - ∑ i, a p i j * src.num (y p i) (R p i))
          * (∑ i, a p i j / R p i - ∑ i, a p i j * src.num (y p i) (R p i))) := fun p j =>
        mul_nonneg h.κ_pos.le (mul_self_nonneg _)
      have e1 := (Finset.sum_eq_zero_iff_of_nonneg fun p _ => Finset.sum_nonneg fun j _ => hnn p j).mp e p
        (Finset.mem_univ p)
      have e2 := (Finset.sum_eq_zero_iff_of_nonneg fun j _ => hnn p j).mp e1 j (Finset.mem_univ j)
      exact sub_eq_zero.mp (mul_self_eq_zero.mp ((mul_eq_zero.mp e2).resolve_left h.κ_pos.ne'))

end deriv

variable {F : Type} [Fintype F] {n t K : ℕ}

/-- The derivative of the loss vanishes in every direction of the bases. -/
def StationaryBasis (src : Source) (X : Spec F n t) (s : St F n t K) : Prop :=
  ∀ D : Fin n → F → Fin K → ℝ,
    HasDerivAt (fun ε : ℝ => loss src X ⟨s.W, fun k f b => s.T k f b + ε * D k f b, s.V⟩) 0 0

/-- The derivative of the loss vanishes in every direction of the activations. -/
def StationaryActivation (src : Source) (X : Spec F n t) (s : St F n t K) : Prop :=
  ∀ E : Fin n → Fin K → Fin t → ℝ,
    HasDerivAt (fun ε : ℝ => loss src X ⟨s.W, s.T, fun k b j => s.V k b j + ε * E k b j⟩) 0 0

/-- The derivative of the loss vanishes in every direction of the demixing filters. -/
def StationaryFilter (src : Source) (X : Spec F n t) (s : St F n t K) : Prop :=
  Stationary (fun W => loss src X ⟨W, s.T, s.V⟩) s.W

/-- All partial derivatives of the loss vanish. -/
def StationaryState (src : Source) (X : Spec F n t) (s : St F n t K) : Prop :=
  StationaryBasis src X s ∧ StationaryActivation src X s ∧ StationaryFilter src X s

/-- The new value is positive and the flooring does not change it. -/
def Exact (floor : ℝ → ℝ) (new : ℝ) : Prop := 0 < new ∧ floor new = new

theorem Exact.mild {floor : ℝ → ℝ} {new : ℝ} (h : Exact floor new) (old : ℝ) : FloorMild floor old new :=
  ⟨by rw [h.2]; exact h.1, .inl h.2⟩

theorem lossOf_lt {src : Source} {Y Y' : Spec F n t} {R R' : Fin n → F → Fin t → ℝ} (W : F → Mat n ℂ) (ht : 0 < t)
    (h : ∑ f, ∑ k, ∑ s, src.ell ‖Y' f k s‖ (R' k f s) < ∑ f, ∑ k, ∑ s, src.ell ‖Y f k s‖ (R k f s)) :
    lossOf src Y' R' W < lossOf src Y R W := by
  rw [lossOf_eq, lossOf_eq]
  exact sub_lt_sub_right (div_lt_div_of_pos_right h (by exact_mod_cast ht)) _

/-- Only the contrast depends on the perturbed parameters. -/
theorem hasDerivAt_lossOf_iff {src : Source} {Y : ℝ → Spec F n t} {R : ℝ → Fin n → F → Fin t → ℝ} (W : F → Mat n ℂ)
    (ht : 0 < t) : HasDerivAt (fun ε => lossOf src (Y ε) (R ε) W) 0 0 ↔
      HasDerivAt (fun ε => ∑ f, ∑ k, ∑ s, src.ell ‖Y ε f k s‖ (R ε k f s)) 0 0 := by
  have ht' : (t : ℝ) ≠ 0 := by exact_mod_cast ht.ne'
  constructor
  · intro h
    have := (h.add_const (2 * ∑ f, Real.log ‖(W f).det‖)).mul_const (t : ℝ)
    refine (this.congr_of_eventuallyEq (Filter.Eventually.of_forall fun ε => ?_)).congr_deriv (zero_mul _)
    simp only [lossOf_eq]
    field_simp
    ring
  · intro h
    simp only [lossOf_eq]
    exact ((h.div_const (t : ℝ)).sub_const _).congr_deriv (zero_div _)

section source
variable [Nonempty (Fin K)] {src : Source} {q κ : ℝ} {w : ℝ → ℝ → ℝ} (h : IsMM src q κ w) {ok : ℝ → Prop}
  (hd : HasEllDeriv src κ ok) {floor : ℝ → ℝ} (X : Spec F n t) (ht : 0 < t) (s : St F n t K) (hs : Inv s)
  (hok : ∀ f k j, ok ‖separate X s.W f k j‖)
include h hd ht hs hok

theorem basis_strict (hfl : ∀ k f b, Exact floor (basisRaw src (separate X s.W) s.T s.V k f b)) :
    (loss src X ⟨s.W, updateBasis src floor (separate X s.W) s.T s.V, s.V⟩ < loss src X s ∨
      updateBasis src floor (separate X s.W) s.T s.V = s.T) ∧
    (updateBasis src floor (separate X s.W) s.T s.V = s.T ↔ StationaryBasis src X s) := by
  obtain ⟨T', hT'⟩ : ∃ T', T' = updateBasis src floor (separate X s.W) s.T s.V := ⟨_, rfl⟩
  have hraw : ∀ k f b, T' k f b = basisRaw src (separate X s.W) s.T s.V k f b := fun k f b => by
    rw [hT', updateBasis, (hfl k f b).2]
  have hRd : ∀ (T : Fin n → F → Fin K → ℝ) k f j, recon T s.V k f j = ∑ b, s.V k b j * T k f b :=
    fun T k f j => Finset.sum_congr rfl fun b _ => mul_comm _ _
  obtain ⟨h1, h2⟩ := slices_strict h hd (fun (p : F × Fin n) j b => s.V p.2 b j) (fun p j b => hs.2.2 p.2 b j)
    (fun p b => s.T p.2 p.1 b) (fun p b => T' p.2 p.1 b) (fun p b => hs.2.1 p.2 p.1 b)
    (fun p b => by rw [hraw]; exact (hfl _ _ _).1) (fun p j => ‖separate X s.W p.1 p.2 j‖)
    (fun p j => recon s.T s.V p.2 p.1 j) (fun p j => norm_nonneg _) (fun p j => hok p.1 p.2 j)
    (fun p j => hRd s.T p.2 p.1 j) (fun p j => recon_pos hs.2.1 hs.2.2 p.2 p.1 j)
    (fun p b => (hraw p.2 p.1 b).trans rfl)
  have hext : (fun (p : F × Fin n) b => T' p.2 p.1 b) = (fun p b => s.T p.2 p.1 b) ↔ T' = s.T :=
    ⟨fun e => funext fun k => funext fun f => congrFun e (f, k), fun e => by rw [e]⟩
  rw [hext] at h1 h2
  rw [← hT']
  simp only [Fintype.sum_prod_type, ← hRd T'] at h1
  refine ⟨h1.imp (fun hlt => lossOf_lt s.W ht hlt) id, h2.trans ?_⟩
  have hconv : ∀ D : Fin n → F → Fin K → ℝ,
      (HasDerivAt (fun ε : ℝ => loss src X ⟨s.W, fun k f b => s.T k f b + ε * D k f b, s.V⟩) 0 0 ↔
      HasDerivAt (fun ε : ℝ => ∑ p : F × Fin n, ∑ j, src.ell ‖separate X s.W p.1 p.2 j‖
        (∑ b, s.V p.2 b j * (s.T p.2 p.1 b + ε * D p.2 p.1 b))) 0 0) := fun D => by
    refine (hasDerivAt_lossOf_iff (Y := fun _ => separate X s.W) s.W ht).trans ?_
    simp only [Fintype.sum_prod_type, hRd]
  exact ⟨fun e D => (hconv D).mpr (e fun p b => D p.2 p.1 b), fun e D => (hconv fun k f b => D (f, k) b).mp (e _)⟩

theorem activation_strict (hfl : ∀ k b j, Exact floor (activationRaw src (separate X s.W) s.T s.V k b j)) :
    (loss src X ⟨s.W, s.T, updateActivation src floor (separate X s.W) s.T s.V⟩ < loss src X s ∨
      updateActivation src floor (separate X s.W) s.T s.V = s.V) ∧
    (updateActivation src floor (separate X s.W) s.T s.V = s.V ↔ StationaryActivation src X s) := by
  obtain ⟨V', hV'⟩ : ∃ V', V' = updateActivation src floor (separate X s.W) s.T s.V := ⟨_, rfl⟩
  have hraw : ∀ k b j, V' k b j = activationRaw src (separate X s.W) s.T s.V k b j := fun k b j => by
    rw [hV', updateActivation, (hfl k b j).2]
  have swap : ∀ g : F → Fin n → Fin t → ℝ, ∑ f, ∑ k, ∑ j, g f k j = ∑ p : Fin n × Fin t, ∑ f, g f p.1 p.2 := by
    intro g
    rw [Finset.sum_comm, Fintype.sum_prod_type]
    exact Finset.sum_congr rfl fun k _ => Finset.sum_comm
  obtain ⟨h1, h2⟩ := slices_strict h hd (fun (p : Fin n × Fin t) f b => s.T p.1 f b) (fun p f b => hs.2.1 p.1 f b)
    (fun p b => s.V p.1 b p.2) (fun p b => V' p.1 b p.2) (fun p b => hs.2.2 p.1 b p.2)
    (fun p b => by rw [hraw]; exact (hfl _ _ _).1) (fun p f => ‖separate X s.W f p.1 p.2‖)
    (fun p f => recon s.T s.V p.1 f p.2) (fun p f => norm_nonneg _) (fun p f => hok f p.1 p.2)
    (fun p f => rfl) (fun p f => recon_pos hs.2.1 hs.2.2 p.1 f p.2)
    (fun p b => (hraw p.1 b p.2).trans rfl)
  have hext : (fun (p : Fin n × Fin t) b => V' p.1 b p.2) = (fun p b => s.V p.1 b p.2) ↔ V' = s.V :=
    ⟨fun e => funext fun k => funext fun b => funext fun j => congrFun (congrFun e (k, j)) b, fun e => by rw [e]⟩
  rw [hext] at h1 h2
  rw [← hV']
  refine ⟨h1.imp (fun hlt => lossOf_lt s.W ht ?_) id, h2.trans ?_⟩
  · rw [swap, swap]
    exact hlt
  have hconv : ∀ E : Fin n → Fin K → Fin t → ℝ,
      (HasDerivAt (fun ε : ℝ => loss src X ⟨s.W, s.T, fun k b j => s.V k b j + ε * E k b j⟩) 0 0 ↔
      HasDerivAt (fun ε : ℝ => ∑ p : Fin n × Fin t, ∑ f, src.ell ‖separate X s.W f p.1 p.2‖
        (∑ b, s.T p.1 f b * (s.V p.1 b p.2 + ε * E p.1 b p.2))) 0 0) := fun E => by
    refine (hasDerivAt_lossOf_iff (Y := fun _ => separate X s.W) s.W ht).trans ?_
    simp only [swap]
    rfl
  exact ⟨fun e E => (hconv E).mpr (e fun p b => E p.1 b p.2), fun e D => (hconv fun k b j => D (k, j) b).mp (e _)⟩

end source

/-! ## The spatial step -/

/-- The contrast for fixed variances. -/
noncomputable def contrast (src : Source) (R : Fin n → F → Fin t → ℝ) (Y : Spec F n t) (i : F × Fin n)
    (j : Fin t) : ℝ := src.ell ‖Y i.1 i.2 j‖ (R i.2 i.1 j)

theorem loss_eq_grad (src : Source) (X : Spec F n t) (T : Fin n → F → Fin K → ℝ) (V : Fin n → Fin K → Fin t → ℝ) :
    (fun W => loss src X ⟨W, T, V⟩) = Grad.loss 2 (contrast src (recon T V)) X := by
  funext W
  simp only [loss, lossOf, Grad.loss, Finset.sum_sub_distrib, Finset.mul_sum, Fintype.sum_prod_type]
  rfl

theorem isScoreAt {src : Source} {floor : ℝ → ℝ} {ok : ℝ → Prop} (hd : HasSpatialDeriv src floor ok)
    (R : Fin n → F → Fin t → ℝ) (hR : ∀ k f j, 0 < R k f j) (Y : Spec F n t) (hok : ∀ f k j, ok ‖Y f k j‖) :
    Grad.IsScoreAt 2 (contrast src R) (Grad.weighted (varphi src floor Y R)) Y := by
  intro Δ
  have := HasDerivAt.fun_sum (u := Finset.univ) fun (i : F × Fin n) _ =>
    HasDerivAt.fun_sum (u := Finset.univ) fun (j : Fin t) _ =>
      hd (Y i.1 i.2 j) (Δ i.1 i.2 j) (R i.2 i.1 j) (hok i.1 i.2 j) (hR i.2 i.1 j)
  refine (this.congr_of_eventuallyEq (Filter.Eventually.of_forall fun ε => ?_)).congr_deriv ?_
  · simp [contrast]
  · simp only [← Finset.mul_sum, Fintype.sum_prod_type, Grad.weighted, of_apply]
    congr 1
    refine Finset.sum_congr rfl fun f _ => Finset.sum_congr rfl fun k _ => Finset.sum_congr rfl fun j _ => ?_
    rw [star_mul', show star ((varphi src floor Y R f k j : ℝ) : ℂ) = (varphi src floor Y R f k j : ℂ) from
      Complex.conj_ofReal _, mul_assoc]
    exact (Complex.re_ofReal_mul _ _).symm

/-- The loss changes at most as much as the weighted power. -/
theorem spatial_gap {src : Source} {floor : ℝ → ℝ} (Y Y' : Spec F n t) (R : Fin n → F → Fin t → ℝ)
    (W W' : F → Mat n ℂ) (hok : ∀ f k s, SpatialOk src floor ‖Y f k s‖ (R k f s)) :
    lossOf src Y' R W' ≤ lossOf src Y R W
      + (∑ f, (Spatial.power (varphi src floor Y R f) (Y' f) - 2 * Real.log ‖(W' f).det‖)
        - ∑ f, (Spatial.power (varphi src floor Y R f) (Y f) - 2 * Real.log ‖(W f).det‖)) := by
  rw [lossOf, lossOf, ← Finset.sum_sub_distrib, ← Finset.sum_add_distrib]
  refine Finset.sum_le_sum fun f _ => ?_
  have h2 : ∑ k, meanT (fun s => src.ell ‖Y' f k s‖ (R k f s))
      ≤ ∑ k, meanT (fun s => src.ell ‖Y f k s‖ (R k f s))
        + (Spatial.power (varphi src floor Y R f) (Y' f) - Spatial.power (varphi src floor Y R f) (Y f)) := by
    unfold Spatial.power
    rw [← Finset.sum_sub_distrib, ← Finset.sum_add_distrib]
    refine Finset.sum_le_sum fun k _ => ?_
    simp only [meanT]
    rw [← sub_div, ← add_div, ← Finset.sum_sub_distrib, ← Finset.sum_add_distrib]
    refine div_le_div_of_nonneg_right (Finset.sum_le_sum fun s _ => ?_) (by positivity)
    have := (hok f k s).2 _ (norm_nonneg (Y' f k s))
    rw [varphi]
    linarith
  linarith

end Verif.Ilrma
