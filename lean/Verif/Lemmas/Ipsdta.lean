import Verif.Lemmas.Majorise
import Verif.Lemmas.Trace
import Verif.Model.Ipsdta
import Verif.Props.MnmfWiener
import Verif.Props.Vcd

/-! # The parts of an IPSDTA update for arbitrary families of blocks -/

set_option linter.unusedSectionVars false

namespace Verif.Ipsdta

open Matrix Spatial Scale
open scoped ComplexOrder

variable {ι : Type} [Fintype ι] {sz : ι → ℕ} {n t K : ℕ}

theorem onBlocks_ok {α : ι → Type} {g : (β : ι) → Except PyErr (α β)} {y : (β : ι) → α β}
    (h : ∀ β, g β = .ok (y β)) : onBlocks g = .ok y := by
  have h' : ∀ β, ∃ z, g β = .ok z := fun β => ⟨y β, h β⟩
  rw [onBlocks, dif_pos h']
  congr 1
  funext β
  exact Except.ok.inj ((h' β).choose_spec.symm.trans (h β))

/-- The modelled covariance before `to_psd`. -/
noncomputable def raw (T : Fin n → Fin K → (β : ι) → Mat (sz β) ℂ) (V : Fin n → Fin K → Fin t → ℝ) (k : Fin n)
    (j : Fin t) (β : ι) : Mat (sz β) ℂ := ∑ b, (V k b j : ℂ) • T k b β

/-- `to_psd` leaves the modelled covariances alone. -/
def CovFixed (np : Numpy ℂ) (T : Fin n → Fin K → (β : ι) → Mat (sz β) ℂ) (V : Fin n → Fin K → Fin t → ℝ) : Prop :=
  ∀ k j β, Mnmf.toPsd np floor0 (raw T V k j β) = raw T V k j β

/-- Positive definite basis matrices and positive activations. -/
def Pos (T : Fin n → Fin K → (β : ι) → Mat (sz β) ℂ) (V : Fin n → Fin K → Fin t → ℝ) : Prop :=
  (∀ k b β, (T k b β).PosDef) ∧ ∀ k b j, 0 < V k b j

/-- The quadratic form `∑ y^H R⁻¹ y` of one source and frame. -/
noncomputable def qv (X : (β : ι) → Fin (sz β) → Matrix (Fin n) (Fin t) ℂ) (W : (β : ι) → Fin (sz β) → Mat n ℂ)
    (T : Fin n → Fin K → (β : ι) → Mat (sz β) ℂ) (V : Fin n → Fin K → Fin t → ℝ) (k : Fin n) (j : Fin t) : ℝ :=
  ∑ β, ((raw T V k j β)⁻¹ * yy (fun β i => W β i * X β i) k j β).trace.re

/-- The log-determinant of one source and frame. -/
noncomputable def ld (T : Fin n → Fin K → (β : ι) → Mat (sz β) ℂ) (V : Fin n → Fin K → Fin t → ℝ) (k : Fin n)
    (j : Fin t) : ℝ := ∑ β, Real.log ‖(raw T V k j β).det‖

/-- The weighted objective of all parts. -/
noncomputable def obj (w : Fin n → Fin t → ℝ) (X : (β : ι) → Fin (sz β) → Matrix (Fin n) (Fin t) ℂ)
    (W : (β : ι) → Fin (sz β) → Mat n ℂ) (T : Fin n → Fin K → (β : ι) → Mat (sz β) ℂ)
    (V : Fin n → Fin K → Fin t → ℝ) : ℝ :=
  (∑ j, ∑ k, (w k j * qv X W T V k j + ld T V k j)) / t - 2 * ∑ β, ∑ i, Real.log ‖(W β i).det‖

theorem yy_posSemidef (Y : (β : ι) → Fin (sz β) → Matrix (Fin n) (Fin t) ℂ) (k : Fin n) (j : Fin t) (β : ι) :
    (yy Y k j β).PosSemidef := by
  have : yy Y k j β = vecMulVec (fun i => Y β i k j) (star fun i => Y β i k j) := rfl
  rw [this]
  exact posSemidef_vecMulVec_self_star _

theorem quadratic_trace (Y : (β : ι) → Fin (sz β) → Matrix (Fin n) (Fin t) ℂ) (k : Fin n) (j : Fin t) (β : ι)
    (A : Mat (sz β) ℂ) : Linalg.quadratic (fun i => Y β i k j) A = (A * yy Y k j β).trace := by
  simp only [Linalg.quadratic, trace, diag, mul_apply, yy, of_apply, dotProduct, vecMul, Pi.star_apply, Finset.sum_mul]
  rw [Finset.sum_comm]
  exact Finset.sum_congr rfl fun a _ => Finset.sum_congr rfl fun b _ => by ring

section

variable [Nonempty (Fin K)]

theorem raw_posDef {T : Fin n → Fin K → (β : ι) → Mat (sz β) ℂ} {V : Fin n → Fin K → Fin t → ℝ} (h : Pos T V)
    (k : Fin n) (j : Fin t) (β : ι) : (raw T V k j β).PosDef :=
  Tr.sum_posDef fun b => Tr.smul_posDef (h.1 k b β) (h.2 k b j)

theorem covInv_eq {np : Numpy ℂ} {T : Fin n → Fin K → (β : ι) → Mat (sz β) ℂ} {V : Fin n → Fin K → Fin t → ℝ}
    (h : Pos T V) (hc : CovFixed np T V) : covInv np T V = .ok fun k j β => (raw T V k j β)⁻¹ := by
  refine onBins_ok fun k => onBins_ok fun j => onBlocks_ok fun β => ?_
  have : cov np T V k j β = raw T V k j β := hc k j β
  rw [this, npInv, if_pos (Tr.isUnit_det (raw_posDef h k j β))]

theorem cov_eq {np : Numpy ℂ} {T : Fin n → Fin K → (β : ι) → Mat (sz β) ℂ} {V : Fin n → Fin K → Fin t → ℝ}
    (hc : CovFixed np T V) : cov np T V = raw T V := by
  funext k j β
  exact hc k j β

theorem qv_nonneg (X : (β : ι) → Fin (sz β) → Matrix (Fin n) (Fin t) ℂ) (W : (β : ι) → Fin (sz β) → Mat n ℂ)
    {T : Fin n → Fin K → (β : ι) → Mat (sz β) ℂ} {V : Fin n → Fin K → Fin t → ℝ} (h : Pos T V) (k : Fin n)
    (j : Fin t) : 0 ≤ qv X W T V k j :=
  Finset.sum_nonneg fun β _ => Tr.trace_mul_nonneg (raw_posDef h k j β).inv.posSemidef (yy_posSemidef _ k j β)

/-- `obj` sorted by sources, frames and blocks. -/
theorem obj_le_of (w : Fin n → Fin t → ℝ) (X : (β : ι) → Fin (sz β) → Matrix (Fin n) (Fin t) ℂ)
    (W : (β : ι) → Fin (sz β) → Mat n ℂ) {T T' : Fin n → Fin K → (β : ι) → Mat (sz β) ℂ}
    {V V' : Fin n → Fin K → Fin t → ℝ}
    (h : ∑ j, ∑ k, (w k j * qv X W T' V' k j + ld T' V' k j) ≤ ∑ j, ∑ k, (w k j * qv X W T V k j + ld T V k j)) :
    obj w X W T' V' ≤ obj w X W T V := by
  have := div_le_div_of_nonneg_right h (show (0 : ℝ) ≤ t by positivity)
  simp only [obj]
  linarith

theorem term_eq (w : Fin n → Fin t → ℝ) (X : (β : ι) → Fin (sz β) → Matrix (Fin n) (Fin t) ℂ)
    (W : (β : ι) → Fin (sz β) → Mat n ℂ) (T : Fin n → Fin K → (β : ι) → Mat (sz β) ℂ)
    (V : Fin n → Fin K → Fin t → ℝ) (k : Fin n) (j : Fin t) :
    w k j * qv X W T V k j + ld T V k j = ∑ β, (((raw T V k j β)⁻¹ *
      ((w k j : ℂ) • yy (fun β i => W β i * X β i) k j β)).trace.re + Real.log ‖(raw T V k j β).det‖) := by
  rw [qv, ld, Finset.mul_sum, ← Finset.sum_add_distrib]
  refine Finset.sum_congr rfl fun β _ => ?_
  rw [mul_smul_comm, trace_smul, smul_eq_mul, Complex.re_ofReal_mul]

/-- The basis update by the solution of the Riccati equation. -/
theorem basis_step [Nonempty (Fin t)] {w : Fin n → Fin t → ℝ} (hw : ∀ k j, 0 ≤ w k j)
    (X : (β : ι) → Fin (sz β) → Matrix (Fin n) (Fin t) ℂ)
    (W : (β : ι) → Fin (sz β) → Mat n ℂ) {T T' : Fin n → Fin K → (β : ι) → Mat (sz β) ℂ}
    {V : Fin n → Fin K → Fin t → ℝ} (h : Pos T V) (hT' : ∀ k b β, (T' k b β).PosDef)
    (hr : ∀ k b β, T' k b β * matP (fun k j β => (raw T V k j β)⁻¹) V k b β * T' k b β
      = T k b β * matQ (fun k j β => (raw T V k j β)⁻¹) w (fun β i => W β i * X β i) V k b β * T k b β) :
    obj w X W T' V ≤ obj w X W T V := by
  refine obj_le_of w X W ?_
  simp only [term_eq]
  rw [Finset.sum_comm, Finset.sum_comm (s := Finset.univ (α := Fin t))]
  refine Finset.sum_le_sum fun k _ => ?_
  rw [Finset.sum_comm, Finset.sum_comm (s := Finset.univ (α := Fin t))]
  refine Finset.sum_le_sum fun β _ => ?_
  have ht : (t : ℂ) ≠ 0 := by
    have : 0 < t := Fin.pos (Classical.arbitrary (Fin t))
    exact_mod_cast this.ne'
  refine Tr.riccati_step (fun j b => V k b j) (fun j b => h.2 k b j) (fun b => T k b β) (fun b => T' k b β)
    (fun b => h.1 k b β) (fun b => hT' k b β) (fun j => (w k j : ℂ) • yy (fun β i => W β i * X β i) k j β)
    (fun j => (yy_posSemidef _ k j β).smul (by exact_mod_cast hw k j)) (fun j => raw T V k j β) (fun j => rfl)
    fun b => ?_
  have := hr k b β
  simp only [matP, matQ, mul_smul_comm, smul_mul_assoc] at this
  have := smul_right_injective _ (inv_ne_zero ht) this
  simp only [mul_smul_comm, smul_mul_assoc]
  exact this

/-- The activation update. -/
theorem activation_step (hsz : ∃ β, 0 < sz β) {w : Fin n → Fin t → ℝ} (hw : ∀ k j, 0 ≤ w k j)
    (X : (β : ι) → Fin (sz β) → Matrix (Fin n) (Fin t) ℂ)
    (W : (β : ι) → Fin (sz β) → Mat n ℂ) {T : Fin n → Fin K → (β : ι) → Mat (sz β) ℂ}
    {V V' : Fin n → Fin K → Fin t → ℝ} (np : Numpy ℂ) (h : Pos T V) (hc : CovFixed np T V)
    (hV' : activationMM np w (fun β i => W β i * X β i) T V = .ok V') (hp : ∀ k b j, 0 < V' k b j) :
    obj w X W T V' ≤ obj w X W T V := by
  refine obj_le_of w X W (Finset.sum_le_sum fun j _ => Finset.sum_le_sum fun k _ => ?_)
  simp only [activationMM, covInv_eq h hc, bind, Except.bind, Except.ok.injEq] at hV'
  rw [term_eq, term_eq]
  refine Tr.slice_le_dep hsz (fun β b => T k b β) (fun β b => h.1 k b β)
    (fun β => (w k j : ℂ) • yy (fun β i => W β i * X β i) k j β)
    (fun β => (yy_posSemidef _ k j β).smul (by exact_mod_cast hw k j)) (fun b => V k b j) (fun b => V' k b j)
    (fun b => h.2 k b j) (fun b => hp k b j) (fun β => raw T V k j β) (fun β => rfl) _ _ (fun b => rfl) (fun b => rfl)
    fun b => .inl ?_
  have e := (congrFun (congrFun (congrFun hV' k) b) j).symm
  refine e.trans ?_
  simp only [mul_smul_comm, smul_mul_assoc, Matrix.mul_assoc]

/-- Normalisation. -/
theorem normalize_step (hsz : ∃ β, 0 < sz β) {T : Fin n → Fin K → (β : ι) → Mat (sz β) ℂ}
    {V : Fin n → Fin K → Fin t → ℝ} (h : Pos T V) :
    Pos (normalize T V).1 (normalize T V).2 ∧ raw (normalize T V).1 (normalize T V).2 = raw T V := by
  have htr : ∀ k b, 0 < basisTrace T k b := by
    intro k b
    obtain ⟨β₀, h0⟩ := hsz
    have : Nonempty (Fin (sz β₀)) := ⟨⟨0, h0⟩⟩
    exact Finset.sum_pos' (fun β _ => (Complex.le_def.mp (h.1 k b β).posSemidef.trace_nonneg).1)
      ⟨β₀, Finset.mem_univ _, (Complex.lt_def.mp (h.1 k b β₀).trace_pos).1⟩
  refine ⟨⟨fun k b β => ?_, fun k b j => mul_pos (h.2 k b j) (htr k b)⟩, ?_⟩
  · simp only [normalize, ← Complex.ofReal_inv]
    exact Tr.smul_posDef (h.1 k b β) (inv_pos.mpr (htr k b))
  · funext k j β
    simp only [raw, normalize, smul_smul]
    refine Finset.sum_congr rfl fun b _ => ?_
    congr 1
    have : (basisTrace T k b : ℂ) ≠ 0 := by exact_mod_cast (htr k b).ne'
    push_cast
    field_simp

theorem rxx_symm (w : Fin n → Fin t → ℝ) (X : (β : ι) → Fin (sz β) → Matrix (Fin n) (Fin t) ℂ)
    {Rinv : Fin n → Fin t → (β : ι) → Mat (sz β) ℂ} (hR : ∀ k j β, (Rinv k j β).IsHermitian) (β : ι)
    (i i' : Fin (sz β)) (k : Fin n) : rxx w Rinv X β i i' k = (rxx w Rinv X β i' i k)ᴴ := by
  ext c c'
  simp only [rxx, conjTranspose_apply, of_apply, meanT, Complex.star_def, map_div₀, map_sum, map_mul, Complex.conj_conj,
    Complex.conj_ofReal, Complex.conj_natCast]
  congr 1
  refine Finset.sum_congr rfl fun j _ => ?_
  have := (hR k j β).apply i' i
  rw [Complex.star_def] at this
  rw [this]
  ring

theorem rxx_posDef {w : Fin n → Fin t → ℝ} (hw : ∀ k j, 0 < w k j)
    {X : (β : ι) → Fin (sz β) → Matrix (Fin n) (Fin t) ℂ} (hX : ∀ β i, LinearIndependent ℂ (X β i).row)
    {Rinv : Fin n → Fin t → (β : ι) → Mat (sz β) ℂ} (hR : ∀ k j β, (Rinv k j β).PosDef) (β : ι)
    (i : Fin (sz β)) (k : Fin n) : (rxx w Rinv X β i i k).PosDef := by
  have hd : ∀ j, 0 < Rinv k j β i i := fun j => (hR k j β).diag_pos
  have : rxx w Rinv X β i i k
      = Iva.wcov (fun k s => w k s * (Rinv k s β i i).re) (X β) i k := by
    ext c c'
    simp only [rxx, Iva.wcov, of_apply]
    congr 1
    funext j
    have h1 : Rinv k j β i i = ((Rinv k j β i i).re : ℂ) := by
      apply Complex.ext
      · simp
      · simp [(Complex.lt_def.mp (hd j)).2.symm]
    rw [h1]
    simp
  rw [this]
  exact Iva.wcov_posDef (fun k s => mul_pos (hw k s) (Complex.lt_def.mp ((hR k s β).diag_pos)).1) (hX β) i k

theorem blockLoss_eq [Nonempty (Fin t)] (w : Fin n → Fin t → ℝ)
    (X : (β : ι) → Fin (sz β) → Matrix (Fin n) (Fin t) ℂ)
    (Rinv : Fin n → Fin t → (β : ι) → Mat (sz β) ℂ) (W : (β : ι) → Fin (sz β) → Mat n ℂ) (β : ι) :
    blockLoss (rxx w Rinv X β) (W β)
      = (∑ j, ∑ k, w k j * (Rinv k j β * yy (fun β i => W β i * X β i) k j β).trace.re) / t
        - 2 * ∑ i, Real.log ‖(W β i).det‖ := by
  have key : ∀ k, ∑ i, ∑ i', W β i k ⬝ᵥ (rxx w Rinv X β i i' k *ᵥ star (W β i' k))
      = (∑ j, (w k j : ℂ) * (Rinv k j β * yy (fun β i => W β i * X β i) k j β).trace) / t := by
    intro k
    have h1 : ∀ i i', W β i k ⬝ᵥ (rxx w Rinv X β i i' k *ᵥ star (W β i' k))
        = (∑ j, (w k j : ℂ) * (Rinv k j β i' i * ((W β i * X β i) k j * star ((W β i' * X β i') k j)))) / t := by
      intro i i'
      simp only [dotProduct, mulVec, rxx, of_apply, meanT, mul_apply, Finset.sum_div, Finset.sum_mul, Finset.mul_sum,
        star_sum, star_mul', Pi.star_apply]
      simp_rw [Finset.sum_comm (s := Finset.univ (α := Fin n)) (t := Finset.univ (α := Fin t))]
      refine Finset.sum_congr rfl fun j _ => ?_
      rw [Finset.sum_comm]
      exact Finset.sum_congr rfl fun c _ => Finset.sum_congr rfl fun c' _ => by ring
    simp only [h1, ← Finset.sum_div]
    congr 1
    simp only [trace, diag, mul_apply, yy, of_apply, Finset.mul_sum]
    simp_rw [Finset.sum_comm (s := Finset.univ (α := Fin (sz β))) (t := Finset.univ (α := Fin t))]
    exact Finset.sum_congr rfl fun j _ => Finset.sum_comm
  rw [blockLoss]
  congr 1
  conv_rhs => rw [Finset.sum_comm, Finset.sum_div]
  refine Finset.sum_congr rfl fun k _ => ?_
  have := congrArg Complex.re (key k)
  simp only [Complex.div_natCast_re, Complex.re_sum, Complex.re_ofReal_mul] at this
  exact this

/-- The singularity test of the VCD sweep `|x| < flooring_fn(0)` decides `x = 0` in every step. -/
def VcdExact (floor : ℝ → ℝ) {b : ℕ} (R : Fin b → Fin b → Fin n → Mat n ℂ) (W : Fin b → Mat n ℂ) : Prop :=
  RegularFold (vcdStep (fun x => ‖x‖ < floor 0) R)
    (fun W p => vcdStep (fun x => ‖x‖ < floor 0) R W p = vcdStep (fun x => x = 0) R W p)
    ((List.finRange b).flatMap fun i => (List.finRange n).map fun k => (i, k)) W

theorem vcd_exact {floor : ℝ → ℝ} {b : ℕ} {R : Fin b → Fin b → Fin n → Mat n ℂ} {W : Fin b → Mat n ℂ}
    (hR : ∀ i j k, R i j k = (R j i k)ᴴ) (hpd : ∀ i k, (R i i k).PosDef) (hW : ∀ i, IsUnit (W i).det)
    (h : VcdExact floor R W) :
    ∃ W', vcd (fun x => ‖x‖ < floor 0) R W = .ok W' ∧ (∀ i, IsUnit (W' i).det) ∧ blockLoss R W' ≤ blockLoss R W := by
  refine foldlM_regular _ (fun W => ∀ i, IsUnit (W i).det) _ (blockLoss R) _ (fun M p _ hM hreg => ?_) W hW h
  obtain ⟨M', h1, h2, -, h3⟩ := C35_step_optimal R hR hpd M hM p.1 p.2
  refine ⟨M', hreg.trans h1, h2, ?_⟩
  have := h3 (M p.1 p.2) (by rw [updateRow_eq_self]; exact hM p.1)
  rwa [updateRow_eq_self, Function.update_eq_self] at this

/-- `obj` as a function of the demixing filters. -/
theorem obj_blocks [Nonempty (Fin t)] (w : Fin n → Fin t → ℝ)
    (X : (β : ι) → Fin (sz β) → Matrix (Fin n) (Fin t) ℂ) (W : (β : ι) → Fin (sz β) → Mat n ℂ)
    (T : Fin n → Fin K → (β : ι) → Mat (sz β) ℂ) (V : Fin n → Fin K → Fin t → ℝ) : obj w X W T V
      = (∑ β, blockLoss (rxx w (fun k j β => (raw T V k j β)⁻¹) X β) (W β)) + (∑ j, ∑ k, ld T V k j) / t := by
  simp only [blockLoss_eq, obj, qv]
  have : ∑ β, ∑ j, ∑ k, w k j * ((raw T V k j β)⁻¹ * yy (fun β i => W β i * X β i) k j β).trace.re
      = ∑ j, ∑ k, w k j * ∑ β, ((raw T V k j β)⁻¹ * yy (fun β i => W β i * X β i) k j β).trace.re := by
    rw [Finset.sum_comm]
    refine Finset.sum_congr rfl fun j _ => ?_
    rw [Finset.sum_comm]
    simp only [Finset.mul_sum]
  rw [Finset.sum_sub_distrib, ← Finset.mul_sum, ← Finset.sum_div, this]
  simp only [Finset.sum_add_distrib, add_div]
  ring

/-- The update of the demixing filters. -/
theorem spatial_step [Nonempty (Fin t)] {floor : ℝ → ℝ} {w : Fin n → Fin t → ℝ} (hw : ∀ k j, 0 < w k j)
    {X : (β : ι) → Fin (sz β) → Matrix (Fin n) (Fin t) ℂ} (hX : ∀ β i, LinearIndependent ℂ (X β i).row)
    {W : (β : ι) → Fin (sz β) → Mat n ℂ} (hW : ∀ β i, IsUnit (W β i).det)
    {T : Fin n → Fin K → (β : ι) → Mat (sz β) ℂ} {V : Fin n → Fin K → Fin t → ℝ} (h : Pos T V)
    (hv : ∀ β, VcdExact floor (rxx w (fun k j β => (raw T V k j β)⁻¹) X β) (W β)) :
    ∃ W', spatialVcd floor w (fun k j β => (raw T V k j β)⁻¹) X W = .ok W' ∧ (∀ β i, IsUnit (W' β i).det) ∧
      obj w X W' T V ≤ obj w X W T V := by
  have hR : ∀ k j β, ((raw T V k j β)⁻¹).PosDef := fun k j β => (raw_posDef h k j β).inv
  have := fun β => vcd_exact (rxx_symm w X (fun k j β => (hR k j β).1) β) (rxx_posDef hw hX hR β) (hW β) (hv β)
  choose W' h1 h2 h3 using this
  refine ⟨W', onBlocks_ok h1, h2, ?_⟩
  rw [obj_blocks, obj_blocks]
  have := Finset.sum_le_sum (s := Finset.univ) fun β _ => h3 β
  linarith

/-- The flooring of the basis update of `GaussIPSDTA` is inactive. -/
def BasisGaussReg (np : Numpy ℂ) (floor : ℝ → ℝ) (Y : (β : ι) → Fin (sz β) → Matrix (Fin n) (Fin t) ℂ)
    (T : Fin n → Fin K → (β : ι) → Mat (sz β) ℂ) (V : Fin n → Fin K → Fin t → ℝ) : Prop :=
  ∀ k b β, let P := matP (fun k j β => (raw T V k j β)⁻¹) V k b β
    let TQT := T k b β * matQ (fun k j β => (raw T V k j β)⁻¹) (fun _ _ => 1) Y V k b β * T k b β
    Mnmf.toPsd np floor P = P ∧ Mnmf.toPsd np floor TQT = TQT ∧ TQT.PosDef ∧
      ∀ G, Linalg.gmeanmh np P TQT 2 = .ok G → Mnmf.toPsd np floor G = G

theorem matP_posDef [Nonempty (Fin t)] {T : Fin n → Fin K → (β : ι) → Mat (sz β) ℂ}
    {V : Fin n → Fin K → Fin t → ℝ} (h : Pos T V) (k : Fin n) (b : Fin K) (β : ι) :
    (matP (fun k j β => (raw T V k j β)⁻¹) V k b β).PosDef := by
  have ht : 0 < t := Fin.pos (Classical.arbitrary (Fin t))
  have h1 : (∑ j, (V k b j : ℂ) • (raw T V k j β)⁻¹).PosDef :=
    Tr.sum_posDef fun j => Tr.smul_posDef (raw_posDef h k j β).inv (h.2 k b j)
  have := Tr.smul_posDef h1 (r := (t : ℝ)⁻¹) (by positivity)
  simpa [matP] using this

theorem basisGauss_ok [Nonempty (Fin t)] {np : Numpy ℂ} {floor : ℝ → ℝ}
    {Y : (β : ι) → Fin (sz β) → Matrix (Fin n) (Fin t) ℂ}
    {T : Fin n → Fin K → (β : ι) → Mat (sz β) ℂ} {V : Fin n → Fin K → Fin t → ℝ} (h : Pos T V) (hc : CovFixed np T V)
    (hr : BasisGaussReg np floor Y T V) :
    ∃ T', basisGauss np floor Y T V = .ok T' ∧ (∀ k b β, (T' k b β).PosDef) ∧
      ∀ k b β, T' k b β * matP (fun k j β => (raw T V k j β)⁻¹) V k b β * T' k b β
        = T k b β * matQ (fun k j β => (raw T V k j β)⁻¹) (fun _ _ => 1) Y V k b β * T k b β := by
  have := fun k b β => Linalg.C17_gmeanmh np _ _ (matP_posDef h k b β) (hr k b β).2.2.1 2 (by norm_num)
  choose G h1 h2 h3 using this
  refine ⟨G, ?_, h2, fun k b β => ?_⟩
  · simp only [basisGauss, covInv_eq h hc, bind, Except.bind]
    refine onBins_ok fun k => onBins_ok fun b => onBlocks_ok fun β => ?_
    obtain ⟨r1, r2, -, r4⟩ := hr k b β
    rw [r1, r2, h1 k b β]
    exact congrArg Except.ok (r4 _ (h1 k b β))
  · have := h3 k b β
    simpa [Linalg.GMeanSpec] using this

/-- The flooring of the basis update of `TIPSDTA` is inactive. -/
def BasisTReg (np : Numpy ℂ) (floor : ℝ → ℝ) (w : Fin n → Fin t → ℝ)
    (Y : (β : ι) → Fin (sz β) → Matrix (Fin n) (Fin t) ℂ)
    (T : Fin n → Fin K → (β : ι) → Mat (sz β) ℂ) (V : Fin n → Fin K → Fin t → ℝ) : Prop :=
  ∀ k b β, let P := matP (fun k j β => (raw T V k j β)⁻¹) V k b β
    let Q := matQ (fun k j β => (raw T V k j β)⁻¹) w Y V k b β
    let S := Linalg.sqrtmh np Q
    let M := S * T k b β * P * T k b β * S
    let G := T k b β * S * Linalg.invsqrtmh np (some floor) M * S * T k b β
    Mnmf.toPsd np floor Q = Q ∧ Q.PosDef ∧ Mnmf.toPsd np floor M = M ∧
      (∀ i, floor (Real.sqrt ((np.eigh M).1 i)) = Real.sqrt ((np.eigh M).1 i)) ∧ Mnmf.toPsd np floor G = G

theorem basisT_ok [Nonempty (Fin t)] {np : Numpy ℂ} {floor : ℝ → ℝ} {w : Fin n → Fin t → ℝ}
    {Y : (β : ι) → Fin (sz β) → Matrix (Fin n) (Fin t) ℂ}
    {T : Fin n → Fin K → (β : ι) → Mat (sz β) ℂ} {V : Fin n → Fin K → Fin t → ℝ} (h : Pos T V) (hc : CovFixed np T V)
    (hr : BasisTReg np floor w Y T V) :
    ∃ T', basisT np floor w Y T V = .ok T' ∧ (∀ k b β, (T' k b β).PosDef) ∧
      ∀ k b β, T' k b β * matP (fun k j β => (raw T V k j β)⁻¹) V k b β * T' k b β
        = T k b β * matQ (fun k j β => (raw T V k j β)⁻¹) w Y V k b β * T k b β := by
  simp only [basisT, covInv_eq h hc, bind, Except.bind]
  refine ⟨_, rfl, fun k b β => ?_, fun k b β => ?_⟩ <;> obtain ⟨r1, r2, r3, r4, r5⟩ := hr k b β <;>
    simp only [r1, r3, r5]
  all_goals
    obtain ⟨P, hP⟩ : ∃ P, P = matP (fun k j β => (raw T V k j β)⁻¹) V k b β := ⟨_, rfl⟩
    have hPd := matP_posDef h k b β
    rw [← hP] at hPd r3 r4 r5 ⊢
    obtain ⟨Q, hQ⟩ : ∃ Q, Q = matQ (fun k j β => (raw T V k j β)⁻¹) w Y V k b β := ⟨_, rfl⟩
    rw [← hQ] at r1 r2 r3 r4 r5 ⊢
    have hTd := h.1 k b β
    obtain ⟨S, hS⟩ : ∃ S, S = Linalg.sqrtmh np Q := ⟨_, rfl⟩
    obtain ⟨s1, s2⟩ := Linalg.C18_sqrtmh np Q r2.posSemidef
    rw [← hS] at s1 s2 r3 r4 r5 ⊢
    generalize T k b β = A at *
    have hSu : IsUnit S := by
      rw [isUnit_iff_isUnit_det]
      have := Tr.isUnit_det r2
      rw [← s1, det_mul] at this
      exact isUnit_of_mul_isUnit_left this
    have hAu : IsUnit A := hTd.isUnit
    have hM : (S * A * P * A * S).PosDef := by
      have := (IsUnit.posDef_star_left_conjugate_iff (hAu.mul hSu)).mpr hPd
      rw [star_eq_conjTranspose, conjTranspose_mul, hTd.1.eq, s2.1.eq] at this
      simpa only [Matrix.mul_assoc] using this
    obtain ⟨i1, i2, -⟩ := Linalg.C18_invsqrtmh np (some floor) _ hM (by
      intro g hg i
      cases hg
      exact r4 i)
    obtain ⟨N, hN⟩ : ∃ N, N = Linalg.invsqrtmh np (some floor) (S * A * P * A * S) := ⟨_, rfl⟩
    rw [← hN] at i1 i2 ⊢
  · have := (IsUnit.posDef_star_left_conjugate_iff (hSu.mul hAu)).mpr i1
    rw [star_eq_conjTranspose, conjTranspose_mul, hTd.1.eq, s2.1.eq] at this
    simpa only [Matrix.mul_assoc] using this
  · calc A * S * N * S * A * P * (A * S * N * S * A)
        = A * S * (N * (S * A * P * A * S) * N) * S * A := by simp only [Matrix.mul_assoc]
      _ = A * (S * S) * A := by rw [i2]; simp only [Matrix.mul_assoc, Matrix.one_mul]
      _ = A * Q * A := by rw [s1]

theorem yry_eq {X : (β : ι) → Fin (sz β) → Matrix (Fin n) (Fin t) ℂ} {W : (β : ι) → Fin (sz β) → Mat n ℂ}
    {T : Fin n → Fin K → (β : ι) → Mat (sz β) ℂ} {V : Fin n → Fin K → Fin t → ℝ} (h : Pos T V) (k : Fin n)
    (j : Fin t) : yry (fun β i => W β i * X β i) (fun k j β => (raw T V k j β)⁻¹) k j = qv X W T V k j := by
  refine Finset.sum_congr rfl fun β _ => ?_
  have e := quadratic_trace (fun β i => W β i * X β i) k j β (raw T V k j β)⁻¹
  refine (congrArg (fun z : ℂ => max z.re 0) e).trans (max_eq_left ?_)
  exact Tr.trace_mul_nonneg (raw_posDef h k j β).inv.posSemidef (yy_posSemidef _ k j β)

end

end Verif.Ipsdta
