import Verif.Lemmas.Ipsdta
import Verif.Lemmas.MatStrict
import Verif.Lemmas.VcdStrict

/-! # Strict decrease of the parts of an IPSDTA update -/

set_option linter.unusedSectionVars false

namespace Verif.Ipsdta

open Matrix Spatial Scale
open scoped ComplexOrder

variable {ι : Type} [Fintype ι] {sz : ι → ℕ} {n t K : ℕ}

section

variable [Nonempty (Fin K)] [Nonempty (Fin t)]

theorem t_pos : (0 : ℝ) < t := Nat.cast_pos.mpr (Fin.pos (Classical.arbitrary (Fin t)))

/-- `obj` as a function of the bases. -/
theorem obj_basis (w : Fin n → Fin t → ℝ) (X : (β : ι) → Fin (sz β) → Matrix (Fin n) (Fin t) ℂ)
    (W : (β : ι) → Fin (sz β) → Mat n ℂ) (T : Fin n → Fin K → (β : ι) → Mat (sz β) ℂ)
    (V : Fin n → Fin K → Fin t → ℝ) :
    obj w X W T V = (∑ o : Fin n × ι, Tr.riccVal (fun j b => V o.1 b j)
        (fun j => (w o.1 j : ℂ) • yy (fun β i => W β i * X β i) o.1 j o.2) fun b => T o.1 b o.2) / t
      - 2 * ∑ β, ∑ i, Real.log ‖(W β i).det‖ := by
  simp only [obj, term_eq]
  congr 2
  rw [Finset.sum_comm, Fintype.sum_prod_type]
  refine Finset.sum_congr rfl fun k _ => ?_
  rw [Finset.sum_comm]
  rfl

/-- `obj` as a function of the activations. -/
theorem obj_activation (w : Fin n → Fin t → ℝ) (X : (β : ι) → Fin (sz β) → Matrix (Fin n) (Fin t) ℂ)
    (W : (β : ι) → Fin (sz β) → Mat n ℂ) (T : Fin n → Fin K → (β : ι) → Mat (sz β) ℂ)
    (V : Fin n → Fin K → Fin t → ℝ) :
    obj w X W T V = (∑ o : Fin t × Fin n, Tr.sliceVal (fun β b => T o.2 b β)
        (fun β => (w o.2 o.1 : ℂ) • yy (fun β i => W β i * X β i) o.2 o.1 β) fun b => V o.2 b o.1) / t
      - 2 * ∑ β, ∑ i, Real.log ‖(W β i).det‖ := by
  simp only [obj, term_eq]
  congr 2
  rw [Fintype.sum_prod_type]
  rfl

theorem hasDerivAt_scaled (S : ℝ → ℝ) (c : ℝ) :
    HasDerivAt (fun ε => S ε / (t : ℝ) - c) 0 0 ↔ HasDerivAt S 0 0 := by
  have ht := (t_pos (t := t)).ne'
  constructor
  · intro h
    have := (h.add_const c).mul_const (t : ℝ)
    simpa only [sub_add_cancel, zero_mul, div_mul_cancel₀ _ ht] using this
  · intro h
    simpa only [zero_div] using (h.div_const (t : ℝ)).sub_const c

/-- The basis update decreases the objective or changes nothing. -/
theorem basis_strict {w : Fin n → Fin t → ℝ} (hw : ∀ k j, 0 ≤ w k j)
    (X : (β : ι) → Fin (sz β) → Matrix (Fin n) (Fin t) ℂ)
    (W : (β : ι) → Fin (sz β) → Mat n ℂ) {T T' : Fin n → Fin K → (β : ι) → Mat (sz β) ℂ}
    {V : Fin n → Fin K → Fin t → ℝ} (h : Pos T V) (hT' : ∀ k b β, (T' k b β).PosDef)
    (hr : ∀ k b β, T' k b β * matP (fun k j β => (raw T V k j β)⁻¹) V k b β * T' k b β
      = T k b β * matQ (fun k j β => (raw T V k j β)⁻¹) w (fun β i => W β i * X β i) V k b β * T k b β) :
    (obj w X W T' V < obj w X W T V ∨ T' = T) ∧
    (T' = T ↔ ∀ A : Fin n → Fin K → (β : ι) → Mat (sz β) ℂ, (∀ k b β, (A k b β).IsHermitian) →
      HasDerivAt (fun ε : ℝ => obj w X W (fun k b β => T k b β + (ε : ℂ) • A k b β) V) 0 0) := by
  have ht : (t : ℂ) ≠ 0 := by exact_mod_cast (t_pos (t := t)).ne'
  obtain ⟨h1, h2⟩ := Tr.riccatis_strict (O := Fin n × ι) (m := fun o => sz o.2) (fun o j b => V o.1 b j)
    (fun o j b => h.2 o.1 b j)
    (fun o j => (w o.1 j : ℂ) • yy (fun β i => W β i * X β i) o.1 j o.2)
    (fun o j => (yy_posSemidef _ o.1 j o.2).smul (by exact_mod_cast hw o.1 j))
    (fun o b => T o.1 b o.2) (fun o b => T' o.1 b o.2) (fun o b => h.1 o.1 b o.2) (fun o b => hT' o.1 b o.2)
    (fun o b => by
      have := hr o.1 b o.2
      simp only [matP, matQ, mul_smul_comm, smul_mul_assoc] at this
      have := smul_right_injective _ (inv_ne_zero ht) this
      simp only [Tr.riccP, Tr.riccQ, mul_smul_comm, smul_mul_assoc]
      exact this)
  have hT : (fun (o : Fin n × ι) b => T' o.1 b o.2) = (fun (o : Fin n × ι) b => T o.1 b o.2) ↔ T' = T :=
    ⟨fun e => by
      funext k b β
      exact congrFun (congrFun e (k, β)) b, fun e => by rw [e]⟩
  rw [hT] at h1 h2
  refine ⟨h1.imp (fun h => ?_) id, h2.trans ⟨fun h A hA => ?_, fun h D hD => ?_⟩⟩
  · rw [obj_basis, obj_basis]
    have := div_lt_div_of_pos_right h (t_pos (t := t))
    linarith
  · simp only [obj_basis]
    rw [hasDerivAt_scaled]
    exact h (fun o b => A o.1 b o.2) fun o b => hA o.1 b o.2
  · have := h (fun k b β => D (k, β) b) fun k b β => hD (k, β) b
    simp only [obj_basis] at this
    rw [hasDerivAt_scaled] at this
    exact this

/-- The activation update decreases the objective or changes nothing. -/
theorem activation_strict (hsz : ∃ β, 0 < sz β) {w : Fin n → Fin t → ℝ} (hw : ∀ k j, 0 ≤ w k j)
    (X : (β : ι) → Fin (sz β) → Matrix (Fin n) (Fin t) ℂ)
    (W : (β : ι) → Fin (sz β) → Mat n ℂ) {T : Fin n → Fin K → (β : ι) → Mat (sz β) ℂ}
    {V V' : Fin n → Fin K → Fin t → ℝ} (np : Numpy ℂ) (h : Pos T V) (hc : CovFixed np T V)
    (hV' : activationMM np w (fun β i => W β i * X β i) T V = .ok V') (hp : ∀ k b j, 0 < V' k b j) :
    (obj w X W T V' < obj w X W T V ∨ V' = V) ∧
    (V' = V ↔ ∀ A : Fin n → Fin K → Fin t → ℝ,
      HasDerivAt (fun ε : ℝ => obj w X W T fun k b j => V k b j + ε * A k b j) 0 0) := by
  simp only [activationMM, covInv_eq h hc, bind, Except.bind, Except.ok.injEq] at hV'
  obtain ⟨h1, h2⟩ := Tr.slices_strict (O := Fin t × Fin n) (m := fun _ β => sz β) (fun _ => hsz)
    (fun o β b => T o.2 b β) (fun o β b => h.1 o.2 b β)
    (fun o β => (w o.2 o.1 : ℂ) • yy (fun β i => W β i * X β i) o.2 o.1 β)
    (fun o β => (yy_posSemidef _ o.2 o.1 β).smul (by exact_mod_cast hw o.2 o.1)) (fun o b => V o.2 b o.1)
    (fun o b => V' o.2 b o.1) (fun o b => h.2 o.2 b o.1) (fun o b => hp o.2 b o.1)
    (fun o b => by
      have e := (congrFun (congrFun (congrFun hV' o.2) b) o.1).symm
      refine e.trans ?_
      simp only [Tr.sliceNum, Tr.sliceDenom, mul_smul_comm, smul_mul_assoc, Matrix.mul_assoc]
      rfl)
  have hV : (fun (o : Fin t × Fin n) b => V' o.2 b o.1) = (fun (o : Fin t × Fin n) b => V o.2 b o.1) ↔ V' = V :=
    ⟨fun e => by
      funext k b j
      exact congrFun (congrFun e (j, k)) b, fun e => by rw [e]⟩
  rw [hV] at h1 h2
  refine ⟨h1.imp (fun h => ?_) id, h2.trans ⟨fun h A => ?_, fun h D => ?_⟩⟩
  · rw [obj_activation, obj_activation]
    have := div_lt_div_of_pos_right h (t_pos (t := t))
    linarith
  · simp only [obj_activation]
    rw [hasDerivAt_scaled]
    exact h fun o b => A o.2 b o.1
  · have := h fun k b j => D (j, k) b
    simp only [obj_activation] at this
    rw [hasDerivAt_scaled] at this
    exact this

/-- No replacement of a single row of a demixing filter decreases the objective. -/
def RowsOptimal (w : Fin n → Fin t → ℝ) (X : (β : ι) → Fin (sz β) → Matrix (Fin n) (Fin t) ℂ)
    (W : (β : ι) → Fin (sz β) → Mat n ℂ) (T : Fin n → Fin K → (β : ι) → Mat (sz β) ℂ)
    (V : Fin n → Fin K → Fin t → ℝ) : Prop :=
  ∀ β i k, RowOptimal (rxx w (fun k j β => (raw T V k j β)⁻¹) X β) (W β) i k

/-- The update of the demixing filters decreases the objective or changes nothing. -/
theorem spatial_strict {floor : ℝ → ℝ} {w : Fin n → Fin t → ℝ} (hw : ∀ k j, 0 < w k j)
    {X : (β : ι) → Fin (sz β) → Matrix (Fin n) (Fin t) ℂ} (hX : ∀ β i, LinearIndependent ℂ (X β i).row)
    {W : (β : ι) → Fin (sz β) → Mat n ℂ} (hW : ∀ β i, IsUnit (W β i).det)
    {T : Fin n → Fin K → (β : ι) → Mat (sz β) ℂ} {V : Fin n → Fin K → Fin t → ℝ} (h : Pos T V)
    (hv : ∀ β, VcdExact floor (rxx w (fun k j β => (raw T V k j β)⁻¹) X β) (W β)) :
    ∃ W', spatialVcd floor w (fun k j β => (raw T V k j β)⁻¹) X W = .ok W' ∧ (∀ β i, IsUnit (W' β i).det) ∧
      (obj w X W' T V < obj w X W T V ∨ W' = W) ∧ (W' = W ↔ RowsOptimal w X W T V) := by
  have hR : ∀ k j β, ((raw T V k j β)⁻¹).PosDef := fun k j β => (raw_posDef h k j β).inv
  have := fun β => vcd_strict _ (rxx_symm w X (fun k j β => (hR k j β).1) β) (rxx_posDef hw hX hR β) (W β) (hW β)
  choose W' h1 h2 h3 h4 using this
  refine ⟨W', onBlocks_ok fun β => (foldlM_congr_regular _ _ (hv β)).trans (h1 β), h2, ?_, ?_⟩
  · by_cases he : W' = W
    · exact .inr he
    left
    obtain ⟨β, hβ⟩ := Function.ne_iff.mp he
    rw [obj_blocks, obj_blocks]
    refine add_lt_add_left (Finset.sum_lt_sum (fun β _ => ?_) ⟨β, Finset.mem_univ _, (h3 β).resolve_right hβ⟩) _
    exact (h3 β).elim le_of_lt fun e => by rw [e]
  · rw [funext_iff]
    exact forall_congr' h4

/-- Row-wise optimal demixing filters are stationary. -/
theorem rowsOptimal_stationary {w : Fin n → Fin t → ℝ} {X : (β : ι) → Fin (sz β) → Matrix (Fin n) (Fin t) ℂ}
    {W : (β : ι) → Fin (sz β) → Mat n ℂ} (hW : ∀ β i, IsUnit (W β i).det)
    {T : Fin n → Fin K → (β : ι) → Mat (sz β) ℂ} {V : Fin n → Fin K → Fin t → ℝ} (h : RowsOptimal w X W T V)
    (D : (β : ι) → Fin (sz β) → Mat n ℂ) :
    HasDerivAt (fun ε : ℝ => obj w X (fun β i => W β i + (ε : ℂ) • D β i) T V) 0 0 := by
  simp only [obj_blocks]
  have h1 := HasDerivAt.fun_sum (u := Finset.univ) fun β _ => rowOptimal_stationary _ (hW β) (h β) (D β)
  simpa only [Finset.sum_const_zero] using h1.add_const ((∑ j, ∑ k, ld T V k j) / t)

end

end Verif.Ipsdta
