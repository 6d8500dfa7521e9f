import Verif.Lemmas.Ipsdta
import Verif.Model.IpsdtaCall
import Verif.Model.Run
import Verif.Props.Blocks

/-! # C105: with one bin in every block `GaussIPSDTA` is `GaussILRMA` -/

set_option linter.unusedSectionVars false

namespace Verif.Ipsdta

open Matrix Spatial Scale
open scoped ComplexOrder

section scalar

variable {m : ℕ}

/-- A multiple of the identity. -/
noncomputable def sm (m : ℕ) (x : ℝ) : Mat m ℂ := (x : ℂ) • (1 : Mat m ℂ)

theorem sm_mul (x y : ℝ) : sm m x * sm m y = sm m (x * y) := by
  rw [sm, sm, sm, Matrix.smul_mul, Matrix.one_mul, smul_smul, Complex.ofReal_mul]

theorem smul_sm (x y : ℝ) : (x : ℂ) • sm m y = sm m (x * y) := by
  rw [sm, sm, smul_smul, Complex.ofReal_mul]

theorem sm_apply (x : ℝ) (i : Fin m) : sm m x i i = (x : ℂ) := by
  rw [sm, Matrix.smul_apply, one_apply_eq, smul_eq_mul, mul_one]

theorem sum_sm {ι : Type} (s : Finset ι) (x : ι → ℝ) : ∑ i ∈ s, sm m (x i) = sm m (∑ i ∈ s, x i) := by
  simp [sm, Finset.sum_smul]

theorem sm_inv {x : ℝ} (hx : x ≠ 0) : npInv (sm m x) = .ok (sm m x⁻¹) := by
  have h : sm m x * sm m x⁻¹ = 1 := by rw [sm_mul, mul_inv_cancel₀ hx, sm]; simp
  have hd : IsUnit (sm m x).det := by
    have := congrArg det h
    rw [det_mul, det_one] at this
    exact IsUnit.of_mul_eq_one _ this
  rw [npInv, if_pos hd, inv_eq_right_inv h]

theorem sm_posDef {x : ℝ} (hx : 0 < x) : (sm m x).PosDef := Tr.smul_posDef PosDef.one hx

theorem toPsd_sm (np : Numpy ℂ) {floor : ℝ → ℝ} {x : ℝ} (h : floor x = x) : Mnmf.toPsd np floor (sm m x) = sm m x := by
  have hh : (sm m x).IsHermitian := by
    rw [sm, IsHermitian, conjTranspose_smul, conjTranspose_one]
    simp
  have hs : Special.symmetrise (sm m x) = sm m x := by
    simp only [Special.symmetrise]
    rw [hh.eq, ← two_smul ℂ (sm m x), smul_smul, inv_mul_cancel₀ two_ne_zero, one_smul]
  have sp := np.eigh_spec _ hh
  have hu : Mnmf.toPsd np floor (sm m x) = Special.symmetrise ((np.eigh (Special.symmetrise (sm m x))).2
      * npDiag (fun i => floor ((np.eigh (Special.symmetrise (sm m x))).1 i))
      * (np.eigh (Special.symmetrise (sm m x))).2ᴴ) := rfl
  rw [hu, hs]
  generalize (np.eigh (sm m x)).1 = l at sp ⊢
  generalize (np.eigh (sm m x)).2 = P at sp ⊢
  have h1 : npDiag l = sm m x := by
    rw [npDiag_eq]
    have h3 : Pᴴ * sm m x * P = sm m x := by
      rw [sm, Matrix.mul_smul, Matrix.mul_one, Matrix.smul_mul, sp.unitary]
    rw [← h3]
    conv_rhs => rw [sp.decomp]
    simp only [Matrix.mul_assoc, sp.unitary, Matrix.mul_one]
    rw [← Matrix.mul_assoc, sp.unitary, Matrix.one_mul]
  have hl : ∀ i, floor (l i) = l i := by
    intro i
    have h2 := congrFun (congrFun h1 i) i
    rw [npDiag_eq, diagonal_apply_eq, sm_apply] at h2
    have h3 : l i = x := Complex.ofReal_injective h2
    rw [h3, h]
  rw [funext hl, npDiag_eq, ← sp.decomp, hs]

/-- A matrix of size one. -/
theorem eq_smul_one (hm : m = 1) (i : Fin m) (A : Mat m ℂ) : A = A i i • (1 : Mat m ℂ) := by
  subst hm
  ext a b
  obtain rfl := Subsingleton.elim a i
  obtain rfl := Subsingleton.elim b a
  simp

theorem gmeanmh_sm (hm : m = 1) (np : Numpy ℂ) {p q : ℝ} (hp : 0 < p) (hq : 0 < q) :
    Linalg.gmeanmh np (sm m p) (sm m q) 2 = .ok (sm m (Real.sqrt (q / p))) := by
  obtain ⟨G, h1, h2, -, h3, -⟩ := Linalg.C17_gmeanmh np (sm m p) (sm m q) (sm_posDef hp) (sm_posDef hq) 2 (by norm_num)
  rw [h1]
  have i : Fin m := ⟨0, by omega⟩
  have hg := h2.diag_pos (i := i)
  have hG : G = sm m (G i i).re := by
    rw [eq_smul_one hm i G, sm]
    congr 1
    rw [Matrix.smul_apply, one_apply_eq, smul_eq_mul, mul_one]
    exact Complex.ext rfl (by simp [(Complex.lt_def.mp hg).2.symm])
  have hr : 0 < (G i i).re := (Complex.lt_def.mp hg).1
  generalize (G i i).re = g at hG hr
  have e := h3 rfl
  rw [hG, sm_mul, sm_mul] at e
  have e2 := congrFun (congrFun e i) i
  rw [sm_apply, sm_apply] at e2
  have e3 : g * p * g = q := by exact_mod_cast e2
  rw [hG, ← e3, show g * p * g / p = g ^ 2 by field_simp, Real.sqrt_sq hr.le]

end scalar

/-- A loop over the sources on all bins at once is the loop on every bin. -/
theorem foldlM_onBins_eq {F α β : Type} (g : F → α → β → Except PyErr α) (l : List β) (a : F → α) :
    l.foldlM (fun A b => onBins fun f => g f (A f) b) a = onBins fun f => l.foldlM (g f) (a f) := by
  induction l generalizing a with
  | nil => exact (onBins_ok fun f => rfl).symm
  | cons b l ih =>
    by_cases h : ∀ f, ∃ c, g f (a f) b = .ok c
    · choose c hc using h
      rw [List.foldlM_cons, onBins_ok hc]
      refine (ih c).trans ?_
      congr 1
      funext f
      rw [List.foldlM_cons, hc f]
      rfl
    · have h1 : (onBins fun f => g f (a f) b) = .error .linalg := by rw [onBins, dif_neg h]
      rw [List.foldlM_cons, h1, onBins, dif_neg]
      · rfl
      · intro h2
        refine h fun f => ?_
        obtain ⟨y, hy⟩ := h2 f
        rw [List.foldlM_cons] at hy
        cases hg : g f (a f) b with
        | ok c => exact ⟨c, rfl⟩
        | error e => rw [hg] at hy; cases hy

section vcd

variable {n m : ℕ}

/-- A step of VCD on a block of one bin is a step of IP1. -/
theorem vcdStep_one (hm : m = 1) (i : Fin m) {singular : ℂ → Prop} (hs : singular 0) (R : Fin m → Fin m → Fin n → Mat n ℂ)
    (W : Mat n ℂ) (k : Fin n) :
    vcdStep singular R (fun _ => W) (i, k) = (ip1Row id (R i i) W k).map fun M _ => M := by
  have hg : (∑ j, (1 - if j = i then 1 else 0 : ℂ) • (R i j k *ᵥ star (W k))) = 0 := by
    subst hm
    refine Finset.sum_eq_zero fun j _ => ?_
    rw [if_pos (Subsingleton.elim j i), sub_self, zero_smul]
  simp only [vcdStep, ip1Row, hg]
  by_cases h1 : IsUnit (W * R i i k).det
  · have h2 : IsUnit (R i i k).det := by
      rw [det_mul] at h1
      exact isUnit_of_mul_isUnit_right h1
    obtain ⟨eta, he⟩ : ∃ eta, solveVec (W * R i i k) (Pi.single k 1) = .ok eta := by
      simp only [solveVec, npSolve, if_pos h1]
      exact ⟨_, rfl⟩
    have h0 : solveVec (R i i k) 0 = .ok 0 := by
      simp only [solveVec, npSolve, if_pos h2, bind, Except.bind]
      congr 1
      funext c
      have : (Matrix.of fun (i : Fin n) (_ : Fin 1) => (0 : Fin n → ℂ) i) = 0 := rfl
      rw [this, Matrix.mul_zero]
      rfl
    have hc : ∀ xi, vcdCoeff singular xi 0 = ((1 / Real.sqrt xi : ℝ) : ℂ) := fun xi => by rw [vcdCoeff, if_pos hs]
    simp only [he, h0, bind, Except.bind, Except.map, mulVec_zero, dotProduct_zero, hc, sub_zero, id]
    congr 1
    funext j
    subst hm
    rw [Subsingleton.elim j i, Function.update_self]
    congr 1
    funext c
    simp only [Pi.star_apply, Pi.smul_apply, smul_eq_mul, star_mul', RCLike.star_def, one_div, Complex.ofReal_inv]
    rw [map_inv₀, Complex.conj_ofReal, div_eq_mul_inv, mul_comm]
  · have : solveVec (W * R i i k) (Pi.single k 1) = .error .linalg := by
      simp only [solveVec, npSolve, if_neg h1]
      rfl
    simp only [this, bind, Except.bind, Except.map]

theorem vcd_one (hm : m = 1) (i : Fin m) {singular : ℂ → Prop} (hs : singular 0) (R : Fin m → Fin m → Fin n → Mat n ℂ)
    (W : Mat n ℂ) : vcd singular R (fun _ => W) = (ip1 id (R i i) W).map fun M _ => M := by
  have hl : (List.finRange m).flatMap (fun i => (List.finRange n).map fun k => (i, k))
      = (List.finRange n).map fun k => (i, k) := by
    subst hm
    rw [Subsingleton.elim i 0]
    simp [List.finRange_succ]
  rw [vcd, hl, ip1, List.foldlM_map]
  generalize List.finRange n = l
  induction l generalizing W with
  | nil => rfl
  | cons k l ih =>
    rw [List.foldlM_cons, List.foldlM_cons, vcdStep_one hm i hs]
    cases ip1Row id (R i i) W k with
    | error e => rfl
    | ok M => exact ih M

end vcd

/-! ## One bin in every block -/

variable {N n t K : ℕ}

theorem bsize_one (hN : N ≠ 0) (β : Blk N N) : bsize N N β = 1 := by
  cases β with
  | inl β => exact Nat.div_self (Nat.pos_of_ne_zero hN)
  | inr β => exact absurd β.2 (by simp)

/-- The bin of a block. -/
def binAt (hN : N ≠ 0) (β : Blk N N) : Fin N := binOf N N β ⟨0, by rw [bsize_one hN]; exact one_pos⟩

theorem binOf_eq (hN : N ≠ 0) (β : Blk N N) (i : Fin (bsize N N β)) : binOf N N β i = binAt hN β := by
  rw [binAt]
  congr 1
  have := bsize_one hN β
  exact Fin.ext (by have := i.2; simp; omega)

theorem binAt_surjective (hN : N ≠ 0) (f : Fin N) : ∃ β, binAt hN β = f := by
  obtain ⟨β, i, h⟩ := binOf_exists (n_blocks := N) f
  exact ⟨β, by rw [← binOf_eq hN β i, h]⟩

theorem sum_binAt (hN : N ≠ 0) {M : Type} [AddCommMonoid M] (g : Fin N → M) : ∑ β, g (binAt hN β) = ∑ f, g f := by
  rw [← sum_blocks (n_blocks := N) g]
  refine Finset.sum_congr rfl fun β _ => ?_
  simp only [binOf_eq hN]
  rw [Finset.sum_const, Finset.card_univ, Fintype.card_fin, bsize_one hN, one_smul]

/-- The basis matrices of IPSDTA with the nonnegative bases of ILRMA on the diagonal. -/
noncomputable def onDiagonal (T : Fin n → Fin N → Fin K → ℝ) (k : Fin n) (b : Fin K) (β : Blk N N) : Mat (bsize N N β) ℂ :=
  Matrix.diagonal fun i => (T k (binOf N N β i) b : ℂ)

/-- The state of IPSDTA for a state of ILRMA. -/
noncomputable def asIpsdta (s : Ilrma.St (Fin N) n t K) : St N N n t K := ⟨onDiagonal s.T, s.V, s.W⟩

theorem onDiagonal_eq (hN : N ≠ 0) (T : Fin n → Fin N → Fin K → ℝ) (k : Fin n) (b : Fin K) (β : Blk N N) :
    onDiagonal T k b β = sm _ (T k (binAt hN β) b) := by
  simp only [onDiagonal, binOf_eq hN, sm, Matrix.smul_one_eq_diagonal]

theorem floor0_eq {x : ℝ} (h : 1 / 10 ^ 10 ≤ x) : floor0 x = x := max_eq_left h

theorem raw_onDiagonal (hN : N ≠ 0) (T : Fin n → Fin N → Fin K → ℝ) (V : Fin n → Fin K → Fin t → ℝ) (k : Fin n)
    (j : Fin t) (β : Blk N N) :
    ∑ b, (V k b j : ℂ) • onDiagonal T k b β = sm _ (Ilrma.recon T V k (binAt hN β) j) := by
  simp only [onDiagonal_eq hN, smul_sm, sum_sm]
  congr 1
  exact Finset.sum_congr rfl fun b _ => mul_comm _ _

theorem cov_onDiagonal (hN : N ≠ 0) (np : Numpy ℂ) {T : Fin n → Fin N → Fin K → ℝ} {V : Fin n → Fin K → Fin t → ℝ}
    (h : ∀ k f j, 1 / 10 ^ 10 ≤ Ilrma.recon T V k f j) (k : Fin n) (j : Fin t) (β : Blk N N) :
    cov np (onDiagonal T) V k j β = sm _ (Ilrma.recon T V k (binAt hN β) j) := by
  rw [cov, raw_onDiagonal hN, toPsd_sm np (floor0_eq (h _ _ _))]

theorem covInv_onDiagonal (hN : N ≠ 0) (np : Numpy ℂ) {T : Fin n → Fin N → Fin K → ℝ} {V : Fin n → Fin K → Fin t → ℝ}
    (h : ∀ k f j, 1 / 10 ^ 10 ≤ Ilrma.recon T V k f j) :
    covInv np (onDiagonal T) V = .ok fun k j β => sm _ (Ilrma.recon T V k (binAt hN β) j)⁻¹ := by
  refine onBins_ok fun k => onBins_ok fun j => onBlocks_ok fun β => ?_
  rw [cov_onDiagonal hN np h]
  exact sm_inv (lt_of_lt_of_le (by norm_num) (h _ _ _)).ne'

theorem yy_one (hN : N ≠ 0) (Y : Spec (Fin N) n t) (k : Fin n) (j : Fin t) (β : Blk N N) :
    yy (fun β i => Y (binOf N N β i)) k j β = sm _ (‖Y (binAt hN β) k j‖ ^ 2) := by
  rw [eq_smul_one (bsize_one hN β) ⟨0, by rw [bsize_one hN]; exact one_pos⟩ (yy _ k j β), sm]
  congr 1
  simp only [yy, of_apply, binOf_eq hN]
  rw [RCLike.star_def, RCLike.mul_conj]
  norm_cast

/-- The flooring functions act on none of the values of one update: with `T`, `V` the basis and activation, `Y` the separated
signals and `R` the reconstruction, these are the reconstruction with the new basis and with both new factors,
`mean(V / R)`, `T ** 2 * mean(V * |Y| ** 2 / R ** 2)` and the new basis. -/
structure Clear (floor : ℝ → ℝ) (X : Spec (Fin N) n t) (s : Ilrma.St (Fin N) n t K) : Prop where
  between : ∀ k f j, 1 / 10 ^ 10 ≤ Ilrma.recon (Ilrma.updateSource (Ilrma.gauss 2) id X s).T s.V k f j
  after : ∀ k f j, 1 / 10 ^ 10 ≤ Ilrma.recon (Ilrma.updateSource (Ilrma.gauss 2) id X s).T
    (Ilrma.updateSource (Ilrma.gauss 2) id X s).V k f j
  denom : ∀ k f b, floor ((∑ j, s.V k b j / Ilrma.recon s.T s.V k f j) / t)
    = (∑ j, s.V k b j / Ilrma.recon s.T s.V k f j) / t
  num : ∀ k f b, floor (s.T k f b ^ 2 * ((∑ j, s.V k b j * (‖separate X s.W f k j‖ ^ 2 / Ilrma.recon s.T s.V k f j ^ 2)) / t))
    = s.T k f b ^ 2 * ((∑ j, s.V k b j * (‖separate X s.W f k j‖ ^ 2 / Ilrma.recon s.T s.V k f j ^ 2)) / t)
  basis : ∀ k f b, floor ((Ilrma.updateSource (Ilrma.gauss 2) id X s).T k f b)
    = (Ilrma.updateSource (Ilrma.gauss 2) id X s).T k f b

theorem gauss_num (y r : ℝ) : (Ilrma.gauss 2).num y r = y ^ 2 / r ^ 2 := by
  simp only [Ilrma.gauss]
  rw [show ((2 : ℝ) + 2) / 2 = (2 : ℕ) by norm_num, Real.rpow_natCast]

theorem gauss_expo (x : ℝ) : x ^ (Ilrma.gauss 2).expo = Real.sqrt x := by
  rw [Real.sqrt_eq_rpow]
  simp only [Ilrma.gauss]
  norm_num

theorem basisGauss_one (hN : N ≠ 0) (np : Numpy ℂ) {floor : ℝ → ℝ} (hf : ∀ x, 0 < floor x) {X : Spec (Fin N) n t}
    {s : Ilrma.St (Fin N) n t K} (h0 : ∀ k f j, 1 / 10 ^ 10 ≤ Ilrma.recon s.T s.V k f j) (h : Clear floor X s) :
    basisGauss np floor (fun β i => separate X s.W (binOf N N β i)) (onDiagonal s.T) s.V
      = .ok (onDiagonal (Ilrma.updateSource (Ilrma.gauss 2) id X s).T) := by
  simp only [basisGauss, covInv_onDiagonal hN np h0, bind, Except.bind]
  refine onBins_ok fun k => onBins_ok fun b => onBlocks_ok fun β => ?_
  have hP : matP (fun k j β => sm (bsize N N β) (Ilrma.recon s.T s.V k (binAt hN β) j)⁻¹) s.V k b β
      = sm _ ((∑ j, s.V k b j / Ilrma.recon s.T s.V k (binAt hN β) j) / t) := by
    simp only [matP, smul_sm, sum_sm]
    rw [← Complex.ofReal_natCast, ← Complex.ofReal_inv, smul_sm, div_eq_inv_mul]
    rfl
  have hQ : matQ (fun k j β => sm (bsize N N β) (Ilrma.recon s.T s.V k (binAt hN β) j)⁻¹) (fun _ _ => 1)
      (fun β i => separate X s.W (binOf N N β i)) s.V k b β
      = sm _ ((∑ j, s.V k b j * (‖separate X s.W (binAt hN β) k j‖ ^ 2 / Ilrma.recon s.T s.V k (binAt hN β) j ^ 2)) / t) := by
    simp only [matQ, yy_one hN, sm_mul, smul_sm, sum_sm]
    rw [← Complex.ofReal_natCast, ← Complex.ofReal_inv, smul_sm, div_eq_inv_mul]
    congr 2
    refine Finset.sum_congr rfl fun j _ => ?_
    have : Ilrma.recon s.T s.V k (binAt hN β) j ≠ 0 := (lt_of_lt_of_le (by norm_num) (h0 k (binAt hN β) j)).ne'
    field_simp
  rw [hP, hQ, onDiagonal_eq hN, sm_mul, sm_mul, onDiagonal_eq hN]
  have d1 := h.denom k (binAt hN β) b
  have d2 := h.num k (binAt hN β) b
  have d3 := h.basis k (binAt hN β) b
  have e : s.T k (binAt hN β) b * ((∑ j, s.V k b j * (‖separate X s.W (binAt hN β) k j‖ ^ 2
      / Ilrma.recon s.T s.V k (binAt hN β) j ^ 2)) / t) * s.T k (binAt hN β) b
      = s.T k (binAt hN β) b ^ 2 * ((∑ j, s.V k b j * (‖separate X s.W (binAt hN β) k j‖ ^ 2
      / Ilrma.recon s.T s.V k (binAt hN β) j ^ 2)) / t) := by ring
  have hT : (Ilrma.updateSource (Ilrma.gauss 2) id X s).T k (binAt hN β) b
      = Real.sqrt ((∑ j, s.V k b j * (‖separate X s.W (binAt hN β) k j‖ ^ 2 / Ilrma.recon s.T s.V k (binAt hN β) j ^ 2))
        / (∑ j, s.V k b j / Ilrma.recon s.T s.V k (binAt hN β) j)) * s.T k (binAt hN β) b := by
    simp only [Ilrma.updateSource, Ilrma.updateBasis, Ilrma.basisRaw, gauss_num, gauss_expo, id]
  have hT0 : 0 < (Ilrma.updateSource (Ilrma.gauss 2) id X s).T k (binAt hN β) b := by rw [← d3]; exact hf _
  have hpos : 0 < s.T k (binAt hN β) b := by
    rw [hT] at hT0
    exact pos_of_mul_pos_right hT0 (Real.sqrt_nonneg _)
  rw [e, toPsd_sm np d1, toPsd_sm np d2, gmeanmh_sm (bsize_one hN β) np (by rw [← d1]; exact hf _) (by rw [← d2]; exact hf _)]
  have hs : Real.sqrt (s.T k (binAt hN β) b ^ 2 * ((∑ j, s.V k b j * (‖separate X s.W (binAt hN β) k j‖ ^ 2
      / Ilrma.recon s.T s.V k (binAt hN β) j ^ 2)) / t) / ((∑ j, s.V k b j / Ilrma.recon s.T s.V k (binAt hN β) j) / t))
      = (Ilrma.updateSource (Ilrma.gauss 2) id X s).T k (binAt hN β) b := by
    have ht : (t : ℝ) ≠ 0 := by
      intro h
      rw [h, div_zero] at d1
      exact (hf 0).ne' d1
    rw [hT, mul_div_assoc, div_div_div_cancel_right₀ ht, Real.sqrt_mul (sq_nonneg _), Real.sqrt_sq hpos.le, mul_comm]
  rw [hs]
  exact congrArg Except.ok (toPsd_sm np d3)

theorem trace_sm (hN : N ≠ 0) (β : Blk N N) (x : ℝ) : (sm (bsize N N β) x).trace = (x : ℂ) := by
  rw [sm, trace_smul, trace_one, Fintype.card_fin, bsize_one hN]
  simp

theorem activation_one (hN : N ≠ 0) (np : Numpy ℂ) (Y : Spec (Fin N) n t) {T : Fin n → Fin N → Fin K → ℝ}
    {V : Fin n → Fin K → Fin t → ℝ} (h : ∀ k f j, 1 / 10 ^ 10 ≤ Ilrma.recon T V k f j) :
    activationMM np (fun _ _ => 1) (fun β i => Y (binOf N N β i)) (onDiagonal T) V
      = .ok (Ilrma.updateActivation (Ilrma.gauss 2) id Y T V) := by
  simp only [activationMM, covInv_onDiagonal hN np h, bind, Except.bind, yy_one hN, sm_mul, smul_sm, onDiagonal_eq hN,
    trace_sm hN, Complex.ofReal_re]
  congr 1
  funext k b j
  simp only [Ilrma.updateActivation, Ilrma.activationRaw, gauss_num, gauss_expo, id]
  rw [mul_comm]
  congr 3
  · refine Eq.trans (Finset.sum_congr rfl fun β _ => ?_) (sum_binAt hN fun f => T k f b * (‖Y f k j‖ ^ 2 / Ilrma.recon T V k f j ^ 2))
    have : Ilrma.recon T V k (binAt hN β) j ≠ 0 := (lt_of_lt_of_le (by norm_num) (h k (binAt hN β) j)).ne'
    field_simp
  · refine Eq.trans (Finset.sum_congr rfl fun β _ => ?_) (sum_binAt hN fun f => T k f b / Ilrma.recon T V k f j)
    rw [div_eq_inv_mul]

theorem onBlocks_one (hN : N ≠ 0) {α : Type} (g : Fin N → Except PyErr α) :
    (onBlocks (α := fun β : Blk N N => Fin (bsize N N β) → α) fun β => (g (binAt hN β)).map fun M _ => M).map joinBlocks
      = onBins g := by
  by_cases h : ∀ f, ∃ y, g f = .ok y
  · choose y hy using h
    rw [onBins_ok hy, onBlocks_ok (y := fun β _ => y (binAt hN β)) fun β => by rw [hy]; rfl]
    refine congrArg Except.ok (funext fun f => ?_)
    obtain ⟨β, i, rfl⟩ := binOf_exists (n_blocks := N) f
    rw [joinBlocks_binOf, binOf_eq hN]
  · rw [onBins, dif_neg h, onBlocks, dif_neg]
    · rfl
    · intro h1
      refine h fun f => ?_
      obtain ⟨β, rfl⟩ := binAt_surjective hN f
      obtain ⟨y, hy⟩ := h1 β
      cases hg : g (binAt hN β) with
      | ok c => exact ⟨c, rfl⟩
      | error e => rw [hg] at hy; cases hy

theorem spatial_one (hN : N ≠ 0) {floor : ℝ → ℝ} (hf : 0 < floor 0) (R : Fin n → Fin N → Fin t → ℝ) (X : Spec (Fin N) n t)
    (W : Fin N → Mat n ℂ) (np : Numpy ℂ) (Y : Spec (Fin N) n t) :
    (spatialVcd floor (fun _ _ => 1) (fun k j β => sm (bsize N N β) (R k (binAt hN β) j)⁻¹)
      (fun β i => X (binOf N N β i)) (fun β i => W (binOf N N β i))).map joinBlocks
      = Ilrma.spatialFilter np .ip1 id (Ilrma.varphi (Ilrma.gauss 2) id Y R) X W := by
  simp only [spatialVcd, Ilrma.spatialFilter, Iva.ip1Stack, foldlM_onBins_eq, binOf_eq hN]
  rw [← onBlocks_one hN]
  congr 2
  funext β
  rw [vcd_one (bsize_one hN β) ⟨0, by rw [bsize_one hN]; exact one_pos⟩ (by simpa using hf)]
  refine congrArg (fun U => Except.map (fun M _ => M) (ip1 id U (W (binAt hN β)))) ?_
  funext k
  ext c c'
  simp only [rxx, of_apply, Iva.wcov, Ilrma.varphi, Ilrma.gauss, sm_apply, Complex.ofReal_one, one_mul]
  simp

/-- C105: one update of `GaussIPSDTA` without normalization, with one bin in every block and diagonal basis matrices, is one update
of `GaussILRMA` with `source_algorithm="MM"`, `spatial_algorithm="IP1"`, `domain=2`, `normalization=False` and
`flooring_fn=None` — as long as no flooring function acts in IPSDTA. It also raises for the same input. -/
theorem C105_step (hN : N ≠ 0) (np : Numpy ℂ) {floor : ℝ → ℝ} (hf : ∀ x, 0 < floor x) {X : Spec (Fin N) n t}
    {s : Ilrma.St (Fin N) n t K} (h0 : ∀ k f j, 1 / 10 ^ 10 ≤ Ilrma.recon s.T s.V k f j) (h : Clear floor X s) :
    gaussUpdate np false floor X (asIpsdta s)
      = (Ilrma.updateOnce np (Ilrma.gauss 2) 2 .ip1 .off id X s).map asIpsdta := by
  simp only [gaussUpdate, asIpsdta, splitBlocks_eq hN, bind, Except.bind, basisGauss_one hN np hf h0 h,
    activation_one hN np _ h.between, Bool.false_eq_true, if_false]
  have hV : Ilrma.updateActivation (Ilrma.gauss 2) id (separate X s.W) (Ilrma.updateSource (Ilrma.gauss 2) id X s).T s.V
      = (Ilrma.updateSource (Ilrma.gauss 2) id X s).V := rfl
  rw [hV]
  simp only [covInv_onDiagonal hN np h.after, Ilrma.updateOnce, Ilrma.updateSpatial, Ilrma.normalize, bind, Except.bind]
  rw [← spatial_one hN (hf 0) (np := np)]
  have hW : (Ilrma.updateSource (Ilrma.gauss 2) id X s).W = s.W := rfl
  rw [hW]
  cases spatialVcd floor (fun _ _ => 1)
    (fun k j β => sm (bsize N N β) (Ilrma.recon (Ilrma.updateSource (Ilrma.gauss 2) id X s).T
      (Ilrma.updateSource (Ilrma.gauss 2) id X s).V k (binAt hN β) j)⁻¹)
    (fun β i => X (binOf N N β i)) (fun β i => s.W (binOf N N β i)) <;> rfl

/-! ## Loss, iterations and calls -/

theorem sum_low (hN : N ≠ 0) {M : Type} [AddCommMonoid M] (g : Fin N → M) :
    ∑ β : Fin (N - N % N), g (binAt hN (.inl β)) = ∑ f, g f := by
  rw [← sum_binAt hN g, Fintype.sum_sum_type]
  have : ∑ β : Fin (N % N), g (binAt hN (.inr β)) = 0 :=
    Finset.sum_eq_zero fun β _ => absurd β.2 (by simp)
  rw [this, add_zero]

/-- C105: and its loss is the loss of `GaussILRMA`. -/
theorem C105_loss (hN : N ≠ 0) (np : Numpy ℂ) (X : Spec (Fin N) n t) {s : Ilrma.St (Fin N) n t K}
    (h0 : ∀ k f j, 1 / 10 ^ 10 ≤ Ilrma.recon s.T s.V k f j) :
    gaussLoss np X (asIpsdta s) = .ok (Ilrma.loss (Ilrma.gauss 2) X s) := by
  have hr : ∀ k f j, 0 < Ilrma.recon s.T s.V k f j := fun k f j => lt_of_lt_of_le (by norm_num) (h0 k f j)
  simp only [gaussLoss, asIpsdta, splitBlocks_eq hN, covInv_onDiagonal hN np h0, bind, Except.bind, Nat.mod_self,
    lt_irrefl, if_false]
  refine congrArg Except.ok ?_
  have hq : ∀ k j (β : Blk N N), Linalg.quadratic (fun i => separate X s.W (binOf N N β i) k j)
      (sm (bsize N N β) (Ilrma.recon s.T s.V k (binAt hN β) j)⁻¹)
      = ((‖separate X s.W (binAt hN β) k j‖ ^ 2 / Ilrma.recon s.T s.V k (binAt hN β) j : ℝ) : ℂ) := by
    intro k j β
    have := quadratic_trace (fun (β : Blk N N) i => separate X s.W (binOf N N β i)) k j β
      (sm (bsize N N β) (Ilrma.recon s.T s.V k (binAt hN β) j)⁻¹)
    rw [this, yy_one hN, sm_mul, trace_sm hN, div_eq_inv_mul]
  have hd : ∀ k j (β : Blk N N), Real.log ‖(cov np (onDiagonal s.T) s.V k j β).det‖
      = Real.log (Ilrma.recon s.T s.V k (binAt hN β) j) := by
    intro k j β
    rw [cov_onDiagonal hN np h0, sm, det_smul, det_one, Fintype.card_fin, bsize_one hN, pow_one, mul_one,
      Complex.norm_real, Real.norm_of_nonneg (hr _ _ _).le]
  have hw : ∀ β : Fin (N - N % N), (∑ i : Fin (bsize N N (.inl β)), Real.log ‖(s.W (binOf N N (.inl β) i)).det‖)
      = Real.log ‖(s.W (binAt hN (.inl β))).det‖ := by
    intro β
    simp only [binOf_eq hN]
    rw [Finset.sum_const, Finset.card_univ, Fintype.card_fin, bsize_one hN, one_smul]
  simp only [gaussGroupLoss, hq, hd, hw]
  simp only [sum_low hN fun f => Real.log ‖(s.W f).det‖]
  have e1 : ∀ j k, ∑ β : Fin (N - N % N), ((‖separate X s.W (binAt hN (.inl β)) k j‖ ^ 2
      / Ilrma.recon s.T s.V k (binAt hN (.inl β)) j : ℝ) : ℂ)
      = ((∑ f, ‖separate X s.W f k j‖ ^ 2 / Ilrma.recon s.T s.V k f j : ℝ) : ℂ) := by
    intro j k
    rw [sum_low hN fun f => ((‖separate X s.W f k j‖ ^ 2 / Ilrma.recon s.T s.V k f j : ℝ) : ℂ), Complex.ofReal_sum]
  have e2 : ∀ j k, ∑ β : Fin (N - N % N), Real.log (Ilrma.recon s.T s.V k (binAt hN (.inl β)) j)
      = ∑ f, Real.log (Ilrma.recon s.T s.V k f j) := fun j k => sum_low hN fun f => Real.log (Ilrma.recon s.T s.V k f j)
  simp only [e1, e2, ← Complex.ofReal_sum, Complex.ofReal_re]
  have e3 : ∀ j, max (∑ k, ∑ f, ‖separate X s.W f k j‖ ^ 2 / Ilrma.recon s.T s.V k f j) 0
      = ∑ k, ∑ f, ‖separate X s.W f k j‖ ^ 2 / Ilrma.recon s.T s.V k f j := fun j =>
    max_eq_left (Finset.sum_nonneg fun k _ => Finset.sum_nonneg fun f _ => div_nonneg (sq_nonneg _) (hr k f j).le)
  simp only [e3, Ilrma.loss, Ilrma.lossOf, Ilrma.gauss, div_self (two_ne_zero' ℝ), Real.rpow_one, one_mul]
  rw [Finset.sum_sub_distrib, ← Finset.mul_sum]
  congr 1
  simp only [meanT, ← Finset.sum_div, ← Finset.sum_add_distrib]
  congr 1
  rw [Finset.sum_comm]
  conv_rhs => rw [Finset.sum_comm]
  refine Finset.sum_congr rfl fun k _ => ?_
  exact Finset.sum_comm

theorem recon_next {np : Numpy ℂ} {floor : ℝ → ℝ} {X : Spec (Fin N) n t} {s s' : Ilrma.St (Fin N) n t K}
    (h : Clear floor X s) (hs : Ilrma.updateOnce np (Ilrma.gauss 2) 2 .ip1 .off id X s = .ok s') (k : Fin n) (f : Fin N)
    (j : Fin t) : 1 / 10 ^ 10 ≤ Ilrma.recon s'.T s'.V k f j := by
  simp only [Ilrma.updateOnce, Ilrma.updateSpatial, Ilrma.normalize, bind, Except.bind] at hs
  cases hw : Ilrma.spatialFilter np .ip1 id (Ilrma.varphi (Ilrma.gauss 2) id
      (separate X (Ilrma.updateSource (Ilrma.gauss 2) id X s).W) (Ilrma.recon (Ilrma.updateSource (Ilrma.gauss 2) id X s).T
      (Ilrma.updateSource (Ilrma.gauss 2) id X s).V)) X (Ilrma.updateSource (Ilrma.gauss 2) id X s).W with
  | error e => rw [hw] at hs; cases hs
  | ok W =>
    rw [hw] at hs
    cases hs
    exact h.after k f j

theorem iterations_one (hN : N ≠ 0) (np : Numpy ℂ) {floor : ℝ → ℝ} (hf : ∀ x, 0 < floor x) (X : Spec (Fin N) n t)
    (n_iter : ℕ) {s : Ilrma.St (Fin N) n t K} (h0 : ∀ k f j, 1 / 10 ^ 10 ≤ Ilrma.recon s.T s.V k f j)
    (h : RegularRun (Ilrma.updateOnce np (Ilrma.gauss 2) 2 .ip1 .off id X) (Clear floor X) n_iter s) (ls : List ℝ) :
    IlrmaCall.iterations (gaussUpdate np false floor X) (gaussLoss np X) n_iter (asIpsdta s) ls
      = (IlrmaCall.iterations (Ilrma.updateOnce np (Ilrma.gauss 2) 2 .ip1 .off id X)
        (fun s => .ok (Ilrma.loss (Ilrma.gauss 2) X s)) n_iter s ls).map fun p => (asIpsdta p.1, p.2) := by
  induction n_iter generalizing s ls with
  | zero => rfl
  | succ n_iter ih =>
    simp only [IlrmaCall.iterations, C105_step hN np hf h0 h.1, bind, Except.bind]
    cases hs : Ilrma.updateOnce np (Ilrma.gauss 2) 2 .ip1 .off id X s with
    | error e => rfl
    | ok s' =>
      simp only [Except.map, C105_loss hN np X (recon_next h.1 hs)]
      exact ih (recon_next h.1 hs) (h.2 s' hs) _

/-- The attributes of an object of IPSDTA for those of an object of ILRMA. -/
noncomputable def asObj (o : IlrmaCall.Obj (Fin N) n t K) : IpsdtaCall.Obj N N n t K where
  demix := o.demix
  basis := match o.basis with
    | .absent => .absent
    | .none => .none
    | .val T => .val (onDiagonal T)
  activation := o.activation
  output := o.output
  loss := o.loss
  initial_call := .absent

/-- The keyword arguments. -/
noncomputable def asKw (kw : IlrmaCall.Kw (Fin N) n t K) : IpsdtaCall.Kw N N n t K where
  demix := kw.demix
  basis := kw.basis.map onDiagonal
  activation := kw.activation
  initial_call := none

/-- The random numbers in the order of IPSDTA. -/
def asDraw (draw : IlrmaCall.Draw (Fin N) n t K) : IpsdtaCall.Draw N N n t K :=
  ⟨fun k b β i => draw.T k (binOf N N β i) b, draw.V⟩

theorem reset_one (hN : N ≠ 0) {floor : ℝ → ℝ} {draw : IlrmaCall.Draw (Fin N) n t K}
    (hV : ∀ k b j, floor (draw.V k b j) = draw.V k b j) (X : Spec (Fin N) n t) (kw : IlrmaCall.Kw (Fin N) n t K)
    (o : IlrmaCall.Obj (Fin N) n t K) :
    IpsdtaCall.reset false floor (asDraw draw) (asKw kw) (asObj o)
      = (IlrmaCall.resetFilter .ip1 id draw X kw o).map asIpsdta := by
  have hb : IpsdtaCall.initBasis (asDraw draw) (IlrmaCall.override (asKw kw).basis (asObj o).basis)
      = (IlrmaCall.attrOr (fun k f b => id (draw.T k f b)) (IlrmaCall.override kw.basis o.basis)).map onDiagonal := by
    rcases kw with ⟨kd, kb, ka⟩
    rcases o with ⟨od, ob, oa, oo, ol⟩
    cases kb with
    | some T => rfl
    | none =>
      cases ob with
      | val T => rfl
      | absent => rfl
      | none =>
        simp [asKw, asObj, IlrmaCall.override, IpsdtaCall.initBasis, IlrmaCall.attrOr, Except.map]
  have hd : IpsdtaCall.startFilter (IlrmaCall.override (asKw kw).demix (asObj o).demix)
      = (Lifecycle.reset (IlrmaCall.label (.ip1 : Ilrma.FilterAlg n)) X kw.demix ⟨o.demix, o.output⟩).map
        fun p => p.1.getD fun _ => 1 := by
    rcases kw with ⟨kd, kb, ka⟩
    rcases o with ⟨od, ob, oa, oo, ol⟩
    cases kd with
    | some W => rfl
    | none => cases od <;> rfl
  have hs : ∀ p, Lifecycle.reset (IlrmaCall.label (.ip1 : Ilrma.FilterAlg n)) X kw.demix ⟨o.demix, o.output⟩ = .ok p →
      ∃ W, p.1 = some W := by
    intro p hp
    rcases kw with ⟨kd, kb, ka⟩
    rcases o with ⟨od, ob, oa, oo, ol⟩
    cases kd with
    | some W => cases hp; exact ⟨_, rfl⟩
    | none => cases od <;> cases hp <;> exact ⟨_, rfl⟩
  have ha : IlrmaCall.attrOr (fun k b j => floor ((asDraw draw).V k b j)) (IlrmaCall.override (asKw kw).activation (asObj o).activation)
      = IlrmaCall.attrOr (fun k b j => id (draw.V k b j)) (IlrmaCall.override kw.activation o.activation) := by
    have : (fun k b j => floor ((asDraw draw).V k b j)) = fun k b j => id (draw.V k b j) := by
      funext k b j
      exact hV k b j
    rw [this]
    rfl
  simp only [IpsdtaCall.reset, IpsdtaCall.initPsdtf, if_neg hN, hb, hd, ha, IlrmaCall.resetFilter, IlrmaCall.initNmf, bind,
    Except.bind]
  cases hr : Lifecycle.reset (IlrmaCall.label (.ip1 : Ilrma.FilterAlg n)) X kw.demix ⟨o.demix, o.output⟩ with
  | error e => rfl
  | ok p =>
    obtain ⟨W, hW⟩ := hs p hr
    rcases p with ⟨p1, p2⟩
    cases hW
    cases IlrmaCall.attrOr (fun k f b => id (draw.T k f b)) (IlrmaCall.override kw.basis o.basis) with
    | error e => rfl
    | ok T => cases IlrmaCall.attrOr (fun k b j => id (draw.V k b j)) (IlrmaCall.override kw.activation o.activation) <;> rfl

/-- C105: a call of `GaussIPSDTA` with `normalization=False` and as many blocks as bins leaves the attributes that a call of
`GaussILRMA` leaves with `domain=2`, `normalization=False` and `flooring_fn=None` for the same initial values: the same demixing
filters, outputs, activations and losses, and basis matrices with the bases of ILRMA on the diagonal. If the one raises, so does
the other. No flooring function of IPSDTA may act during the run. -/
theorem C105_call (hN : N ≠ 0) (np : Numpy ℂ) {floor : ℝ → ℝ} (hf : ∀ x, 0 < floor x) (sr : Lifecycle.ScaleOpt) (r : Fin n)
    {draw : IlrmaCall.Draw (Fin N) n t K} (hV : ∀ k b j, floor (draw.V k b j) = draw.V k b j) (X : Spec (Fin N) n t)
    (n_iter : ℕ) (kw : IlrmaCall.Kw (Fin N) n t K) (o : IlrmaCall.Obj (Fin N) n t K)
    (h : ∀ s, IlrmaCall.resetFilter .ip1 id draw X kw o = .ok s → (∀ k f j, 1 / 10 ^ 10 ≤ Ilrma.recon s.T s.V k f j) ∧
      RegularRun (Ilrma.updateOnce np (Ilrma.gauss 2) 2 .ip1 .off id X) (Clear floor X) n_iter s) :
    IpsdtaCall.gaussCall np false floor sr r (asDraw draw) X n_iter (asKw kw) (asObj o)
      = (IlrmaCall.call np (Ilrma.gauss 2) 2 .ip1 .off id sr r draw X n_iter true kw o).map asObj := by
  simp only [IpsdtaCall.gaussCall, IpsdtaCall.call, IlrmaCall.call, reset_one hN hV X]
  cases hr : IlrmaCall.resetFilter .ip1 id draw X kw o with
  | error e => rfl
  | ok s =>
    obtain ⟨h0, hreg⟩ := h s hr
    simp only [Except.map, bind, Except.bind, IlrmaCall.baseCall, if_true, C105_loss hN np X h0,
      show (asObj o).loss = o.loss from rfl, iterations_one hN np hf X n_iter h0 hreg]
    cases IlrmaCall.iterations (Ilrma.updateOnce np (Ilrma.gauss 2) 2 .ip1 .off id X)
        (fun s => .ok (Ilrma.loss (Ilrma.gauss 2) X s)) n_iter s (o.loss ++ [Ilrma.loss (Ilrma.gauss 2) X s]) with
    | error e => rfl
    | ok p =>
      dsimp only [asIpsdta]
      cases Lifecycle.finish sr r X p.1.W with
      | error e => rfl
      | ok q => rfl

/-- Two bins, two sources, two frames, one basis. -/
noncomputable def exMix : Spec (Fin 2) 2 2 := fun _ => !![2, 2; 2, -2]

noncomputable def exStart : Ilrma.St (Fin 2) 2 2 1 := ⟨fun _ => 1, fun _ _ _ => 1, fun _ _ _ => 1⟩

theorem exMix_norm (f k j : Fin 2) : ‖separate exMix exStart.W f k j‖ = 2 := by
  have : separate exMix exStart.W f k j = exMix f k j := by simp [separate, exStart]
  rw [this]
  fin_cases k <;> fin_cases j <;> simp [exMix]

theorem exStart_basis (k f : Fin 2) (b : Fin 1) : (Ilrma.updateSource (Ilrma.gauss 2) id exMix exStart).T k f b = 2 := by
  simp only [Ilrma.updateSource, Ilrma.updateBasis, Ilrma.basisRaw, gauss_num, gauss_expo, id, exMix_norm]
  simp only [exStart, Ilrma.recon]
  norm_num
  rw [show (4 : ℝ) = 2 ^ 2 by norm_num, Real.sqrt_sq (by norm_num)]

theorem exStart_activation (k : Fin 2) (b : Fin 1) (j : Fin 2) :
    (Ilrma.updateSource (Ilrma.gauss 2) id exMix exStart).V k b j = Real.sqrt 2 := by
  have hV : (Ilrma.updateSource (Ilrma.gauss 2) id exMix exStart).V k b j = Ilrma.updateActivation (Ilrma.gauss 2) id
    (separate exMix exStart.W) (Ilrma.updateSource (Ilrma.gauss 2) id exMix exStart).T exStart.V k b j := rfl
  rw [hV]
  simp only [Ilrma.updateActivation, Ilrma.activationRaw, gauss_num, gauss_expo, id, exMix_norm, Ilrma.recon, exStart_basis]
  simp only [exStart]
  norm_num

theorem exClear : Clear (Special.max_flooring (1 / 10 ^ 10)) exMix exStart := by
  have hm : ∀ x : ℝ, 1 / 10 ^ 10 ≤ x → Special.max_flooring (1 / 10 ^ 10) x = x := fun x hx => floor0_eq hx
  refine ⟨fun k f j => ?_, fun k f j => ?_, fun k f b => hm _ ?_, fun k f b => hm _ ?_, fun k f b => hm _ ?_⟩
  · simp only [Ilrma.recon, exStart_basis]
    simp only [exStart]
    norm_num
  · simp only [Ilrma.recon, exStart_basis, exStart_activation]
    have : (1 : ℝ) ≤ Real.sqrt 2 := Real.one_le_sqrt.mpr (by norm_num)
    simp only [Finset.univ_unique, Finset.sum_const, Finset.card_singleton, one_smul]
    refine le_trans ?_ (mul_le_mul_of_nonneg_left this (by norm_num : (0 : ℝ) ≤ 2))
    norm_num
  · simp only [Ilrma.recon, exStart]
    norm_num
  · simp only [Ilrma.recon, exMix_norm]
    simp only [exStart]
    norm_num
  · rw [exStart_basis]
    norm_num

/-- The hypotheses of `C105_call` are met: a new object with the default flooring function, a call with one iteration and given
basis and activation. -/
example (np : Numpy ℂ) (draw : IlrmaCall.Draw (Fin 2) 2 2 1) (hV : ∀ k b j, 1 / 10 ^ 10 ≤ draw.V k b j) :
    IpsdtaCall.gaussCall np false (Special.max_flooring (1 / 10 ^ 10)) (.bool true) 0 (asDraw draw) exMix 1
      { basis := some (onDiagonal fun _ _ _ => 1), activation := some fun _ _ _ => 1 } IpsdtaCall.Obj.fresh
      = (IlrmaCall.call np (Ilrma.gauss 2) 2 .ip1 .off id (.bool true) 0 draw exMix 1 true
        { basis := some fun _ _ _ => 1, activation := some fun _ _ _ => 1 } IlrmaCall.Obj.fresh).map asObj := by
  refine C105_call two_ne_zero np (floor := Special.max_flooring (1 / 10 ^ 10))
    (fun x => lt_of_lt_of_le (by norm_num) (le_max_right _ _)) (.bool true) 0 (fun k b j => floor0_eq (hV k b j)) exMix 1 { basis := some fun _ _ _ => 1, activation := some fun _ _ _ => 1 }
    IlrmaCall.Obj.fresh fun s hs => ?_
  have : s = exStart := by cases hs; rfl
  subst this
  refine ⟨fun k f j => ?_, exClear, fun _ _ => trivial⟩
  simp only [Ilrma.recon, exStart]
  norm_num

end Verif.Ipsdta
