import Verif.Props.Partitioned

/-! # C69: with `partitioning=True` an iteration of `GaussILRMA` can increase the loss -/

set_option linter.unusedSectionVars false

namespace Verif.Ilrma

open Matrix Spatial Scale Iva Filter
open scoped Topology ComplexOrder

variable {F : Type} [Fintype F] {n t K : ℕ}

/-! ### Continuity of the source updates -/

section Continuity

variable {Y : Spec F n t} {Z : ℝ → Fin n → Fin K → ℝ} {T : ℝ → F → Fin K → ℝ} {V : ℝ → Fin K → Fin t → ℝ}

theorem cont_reconP (hZ : ∀ k b, ContinuousAt (fun d => Z d k b) 0) (hT : ∀ f b, ContinuousAt (fun d => T d f b) 0)
    (hV : ∀ b j, ContinuousAt (fun d => V d b j) 0) (k : Fin n) (f : F) (j : Fin t) :
    ContinuousAt (fun d => reconP (Z d) (T d) (V d) k f j) 0 :=
  tendsto_finsetSum _ fun b _ => (hZ k b).mul ((hT f b).mul (hV b j))

theorem cont_num {R : ℝ → ℝ} (hR : ContinuousAt R 0) (h0 : 0 < R 0) (p y : ℝ) :
    ContinuousAt (fun d => (gauss p).num y (R d)) 0 :=
  continuousAt_const.div (hR.rpow_const (.inl h0.ne')) (Real.rpow_pos_of_pos h0 _).ne'

theorem cont_latent {p : ℝ} (hp : 0 < p) (hZ : ∀ k b, ContinuousAt (fun d => Z d k b) 0)
    (hT : ∀ f b, ContinuousAt (fun d => T d f b) 0) (hV : ∀ b j, ContinuousAt (fun d => V d b j) 0)
    (hR : ∀ k f j, 0 < reconP (Z 0) (T 0) (V 0) k f j)
    (hden : ∀ k b, ∑ f, ∑ j, T 0 f b * V 0 b j / reconP (Z 0) (T 0) (V 0) k f j ≠ 0) (k : Fin n) (b : Fin K) :
    ContinuousAt (fun d => latentRaw (gauss p) Y (Z d) (T d) (V d) k b) 0 := by
  have hc := cont_reconP hZ hT hV
  refine ContinuousAt.mul (ContinuousAt.rpow_const (ContinuousAt.div ?_ ?_ (hden k b)) (.inr ?_)) (hZ k b)
  · exact tendsto_finsetSum _ fun f _ => tendsto_finsetSum _ fun j _ =>
      ((hT f b).mul (hV b j)).mul (cont_num (hc k f j) (hR k f j) p _)
  · exact tendsto_finsetSum _ fun f _ => tendsto_finsetSum _ fun j _ =>
      ((hT f b).mul (hV b j)).div (hc k f j) (hR k f j).ne'
  · change 0 ≤ p / (p + 2)
    positivity

theorem cont_basis {p : ℝ} (hp : 0 < p) (hZ : ∀ k b, ContinuousAt (fun d => Z d k b) 0)
    (hT : ∀ f b, ContinuousAt (fun d => T d f b) 0) (hV : ∀ b j, ContinuousAt (fun d => V d b j) 0)
    (hR : ∀ k f j, 0 < reconP (Z 0) (T 0) (V 0) k f j)
    (hden : ∀ f b, ∑ k, ∑ j, Z 0 k b * V 0 b j / reconP (Z 0) (T 0) (V 0) k f j ≠ 0) (f : F) (b : Fin K) :
    ContinuousAt (fun d => basisRawP (gauss p) Y (Z d) (T d) (V d) f b) 0 := by
  have hc := cont_reconP hZ hT hV
  refine ContinuousAt.mul (ContinuousAt.rpow_const (ContinuousAt.div ?_ ?_ (hden f b)) (.inr ?_)) (hT f b)
  · exact tendsto_finsetSum _ fun k _ => tendsto_finsetSum _ fun j _ =>
      ((hZ k b).mul (hV b j)).mul (cont_num (hc k f j) (hR k f j) p _)
  · exact tendsto_finsetSum _ fun k _ => tendsto_finsetSum _ fun j _ =>
      ((hZ k b).mul (hV b j)).div (hc k f j) (hR k f j).ne'
  · change 0 ≤ p / (p + 2)
    positivity

theorem cont_activation {p : ℝ} (hp : 0 < p) (hZ : ∀ k b, ContinuousAt (fun d => Z d k b) 0)
    (hT : ∀ f b, ContinuousAt (fun d => T d f b) 0) (hV : ∀ b j, ContinuousAt (fun d => V d b j) 0)
    (hR : ∀ k f j, 0 < reconP (Z 0) (T 0) (V 0) k f j)
    (hden : ∀ b j, ∑ k, ∑ f, Z 0 k b * T 0 f b / reconP (Z 0) (T 0) (V 0) k f j ≠ 0) (b : Fin K) (j : Fin t) :
    ContinuousAt (fun d => activationRawP (gauss p) Y (Z d) (T d) (V d) b j) 0 := by
  have hc := cont_reconP hZ hT hV
  refine ContinuousAt.mul (ContinuousAt.rpow_const (ContinuousAt.div ?_ ?_ (hden b j)) (.inr ?_)) (hV b j)
  · exact tendsto_finsetSum _ fun k _ => tendsto_finsetSum _ fun f _ =>
      ((hZ k b).mul (hT f b)).mul (cont_num (hc k f j) (hR k f j) p _)
  · exact tendsto_finsetSum _ fun k _ => tendsto_finsetSum _ fun f _ =>
      ((hZ k b).mul (hT f b)).div (hc k f j) (hR k f j).ne'
  · change 0 ≤ p / (p + 2)
    positivity

end Continuity

/-! ### The example: five sources, one bin, six frames, two bases -/

/-- The factor by which the weight of the first basis in the first source is too large. -/
noncomputable def peMu : ℝ := Real.exp (-400)

noncomputable def peX1 (k : Fin 5) : ℝ := if k = 0 then peMu else 1

noncomputable def peZ1 (k : Fin 5) : ℝ := if k = 0 then 1 - peMu / 2 else peMu / 8

/-- The mixture: a first frame with small values, then one frame per channel. -/
noncomputable def peX : Spec Unit 5 6 := fun _ => Matrix.of fun k =>
  Fin.cons (((Real.sqrt (peZ1 k) * peX1 k : ℝ)) : ℂ) fun i => if i = k then ((Real.sqrt 5 : ℝ) : ℂ) else 0

noncomputable def peZ : Fin 5 → Fin 2 → ℝ := fun k b => if b = 0 then peZ1 k else 1 / 5

/-- The first basis is active in the first frame, the second basis in the others, up to `d`. -/
noncomputable def peV (d : ℝ) : Fin 2 → Fin 6 → ℝ := fun b =>
  if b = 0 then Fin.cons 1 fun _ => d else Fin.cons d fun _ => 5

noncomputable def peS (d : ℝ) : StP Unit 5 6 2 := ⟨fun _ => 1, peZ, fun _ _ => 1, peV d⟩

noncomputable def peC : ℝ := ∑ k, peZ1 k * peX1 k

noncomputable def peTau : ℝ := Real.sqrt (peC * (∑ k, peX1 k) / 5)

theorem peMu_pos : 0 < peMu := Real.exp_pos _

theorem peMu_lt : peMu < 1 := Real.exp_lt_one_iff.2 (by norm_num)

theorem peX1_pos (k : Fin 5) : 0 < peX1 k := by
  unfold peX1
  split
  · exact peMu_pos
  · exact one_pos

theorem peZ1_pos (k : Fin 5) : 0 < peZ1 k := by
  have := peMu_pos
  have := peMu_lt
  unfold peZ1
  split <;> linarith

theorem peZ_pos (k : Fin 5) (b : Fin 2) : 0 < peZ k b := by
  unfold peZ
  split
  · exact peZ1_pos k
  · norm_num

theorem peC_pos : 0 < peC := Finset.sum_pos (fun k _ => mul_pos (peZ1_pos k) (peX1_pos k)) Finset.univ_nonempty

theorem peM_pos : 0 < ∑ k, peX1 k := Finset.sum_pos (fun k _ => peX1_pos k) Finset.univ_nonempty

theorem peTau_sq : peTau ^ 2 = peC * (∑ k, peX1 k) / 5 := Real.sq_sqrt (by have := peC_pos; have := peM_pos; positivity)

theorem peTau_pos : 0 < peTau := Real.sqrt_pos.2 (by have := peC_pos; have := peM_pos; positivity)

theorem peZ_sum (b : Fin 2) : ∑ k, peZ k b = 1 := by
  fin_cases b
  · simp [peZ, peZ1, Fin.sum_univ_five]
    ring
  · simp [peZ]

theorem peX_zero (k : Fin 5) : ‖peX () k 0‖ ^ 2 = peZ1 k * peX1 k ^ 2 := by
  have h1 := (peZ1_pos k).le
  simp only [peX, of_apply, Fin.cons_zero, Complex.norm_real, Real.norm_eq_abs, sq_abs, mul_pow, Real.sq_sqrt h1]

theorem peX_succ (k i : Fin 5) : ‖peX () k i.succ‖ ^ 2 = if i = k then 5 else 0 := by
  simp only [peX, of_apply, Fin.cons_succ]
  split
  · simp [sq_abs]
  · simp

theorem separate_one (X : Spec F n t) : separate X (fun _ => 1) = X := by
  funext f
  simp [separate]

/-! The source update at `d = 0`. -/

theorem gauss_num {y r : ℝ} (_hr : 0 < r) : (gauss 2).num y r = y ^ 2 / r ^ 2 := by
  change y ^ 2 / r ^ ((2 + 2) / 2 : ℝ) = _
  norm_num

theorem gauss_expo (x : ℝ) : x ^ (gauss 2).expo = Real.sqrt x := by
  change x ^ (2 / (2 + 2) : ℝ) = _
  rw [Real.sqrt_eq_rpow]
  norm_num

theorem pe_recon (Z : Fin 5 → Fin 2 → ℝ) (T : Unit → Fin 2 → ℝ) (v : ℝ) (w : Fin 5 → ℝ) (k : Fin 5) :
    reconP Z T (fun b => if b = 0 then Fin.cons v fun _ => 0 else Fin.cons 0 w) k () 0 = Z k 0 * (T () 0 * v) ∧
    ∀ i : Fin 5, reconP Z T (fun b => if b = 0 then Fin.cons v fun _ => 0 else Fin.cons 0 w) k () i.succ
      = Z k 1 * (T () 1 * w i) := by
  constructor
  · simp [reconP, Fin.sum_univ_two]
  · intro i
    simp [reconP, Fin.sum_univ_two]

theorem pe_R0 (k : Fin 5) : reconP peZ (fun _ _ => 1) (peV 0) k () 0 = peZ1 k ∧
    ∀ i : Fin 5, reconP peZ (fun _ _ => 1) (peV 0) k () i.succ = 1 := by
  have := pe_recon peZ (fun _ _ => 1) 1 (fun _ => 5) k
  refine ⟨this.1.trans ?_, fun i => (this.2 i).trans ?_⟩
  · simp [peZ]
  · simp [peZ]

theorem pe_latent (k : Fin 5) : latentRaw (gauss 2) peX peZ (fun _ _ => 1) (peV 0) k 0 = peZ1 k * peX1 k ∧
    latentRaw (gauss 2) peX peZ (fun _ _ => 1) (peV 0) k 1 = 1 / 5 := by
  have hz := peZ1_pos k
  have hx := peX1_pos k
  constructor
  · simp only [latentRaw, gauss_expo, Fintype.univ_unit, Finset.sum_singleton, Fin.sum_univ_succ (n := 5), (pe_R0 k).1,
      (pe_R0 k).2, gauss_num hz, gauss_num one_pos, peX_zero]
    simp only [peV, if_true, Fin.cons_zero, Fin.cons_succ, peZ]
    simp only [mul_zero, zero_mul, zero_div, Finset.sum_const_zero, add_zero, one_mul]
    have : peZ1 k * peX1 k ^ 2 / peZ1 k ^ 2 / (1 / peZ1 k) = peX1 k ^ 2 := by field_simp
    rw [this, Real.sqrt_sq hx.le, mul_comm]
  · simp only [latentRaw, gauss_expo, Fintype.univ_unit, Finset.sum_singleton, Fin.sum_univ_succ (n := 5), (pe_R0 k).1,
      (pe_R0 k).2, gauss_num hz, gauss_num one_pos, peX_succ]
    simp [peV, peZ]

theorem pe_updateLatent (k : Fin 5) :
    updateLatent (gauss 2) peX peZ (fun _ _ => 1) (peV 0) k 0 = peZ1 k * peX1 k / peC ∧
    updateLatent (gauss 2) peX peZ (fun _ _ => 1) (peV 0) k 1 = 1 / 5 := by
  constructor
  · simp only [updateLatent, (pe_latent _).1, peC]
  · simp only [updateLatent, (pe_latent _).2]
    simp

/-- Latent variables, bases and activations after the source update without flooring. -/
noncomputable def peLat (d : ℝ) : Fin 5 → Fin 2 → ℝ := updateLatent (gauss 2) peX peZ (fun _ _ => 1) (peV d)

noncomputable def peBas (d : ℝ) : Unit → Fin 2 → ℝ := basisRawP (gauss 2) peX (peLat d) (fun _ _ => 1) (peV d)

noncomputable def peAct (d : ℝ) : Fin 2 → Fin 6 → ℝ := activationRawP (gauss 2) peX (peLat d) (peBas d) (peV d)

noncomputable def peRec (d : ℝ) (k : Fin 5) (j : Fin 6) : ℝ := reconP (peLat d) (peBas d) (peAct d) k () j

theorem peQ_pos (k : Fin 5) : 0 < peZ1 k * peX1 k / peC := div_pos (mul_pos (peZ1_pos k) (peX1_pos k)) peC_pos

theorem pe_R1 (k : Fin 5) : reconP (peLat 0) (fun _ _ => 1) (peV 0) k () 0 = peZ1 k * peX1 k / peC ∧
    ∀ i : Fin 5, reconP (peLat 0) (fun _ _ => 1) (peV 0) k () i.succ = 1 := by
  have := pe_recon (peLat 0) (fun _ _ => 1) 1 (fun _ => 5) k
  refine ⟨this.1.trans ?_, fun i => (this.2 i).trans ?_⟩
  · rw [peLat, (pe_updateLatent k).1]
    ring
  · rw [peLat, (pe_updateLatent k).2]
    norm_num

theorem pe_quot (k : Fin 5) {c : ℝ} (hc : 0 < c) :
    peZ1 k * peX1 k / peC * c * (peZ1 k * peX1 k ^ 2 / (peZ1 k * peX1 k / peC * c) ^ 2) = peC / c * peX1 k := by
  have h1 := peZ1_pos k
  have h2 := peX1_pos k
  have h3 := peC_pos
  field_simp

theorem pe_basis : peBas 0 () 0 = peTau ∧ peBas 0 () 1 = 1 := by
  constructor
  · simp only [peBas, basisRawP, gauss_expo, Fin.sum_univ_succ (n := 5), (pe_R1 _).1, (pe_R1 _).2, gauss_num (peQ_pos _),
      gauss_num one_pos, peX_zero]
    simp only [peV, if_true, Fin.cons_zero, Fin.cons_succ, peLat, (pe_updateLatent _).1]
    simp only [mul_zero, zero_mul, zero_div, Finset.sum_const_zero, add_zero, mul_one]
    have e1 : ∀ k, peZ1 k * peX1 k / peC * (peZ1 k * peX1 k ^ 2 / (peZ1 k * peX1 k / peC) ^ 2) = peC * peX1 k :=
      fun k => by simpa using pe_quot k one_pos
    have e2 : ∀ k, peZ1 k * peX1 k / peC / (peZ1 k * peX1 k / peC) = 1 := fun k => div_self (peQ_pos k).ne'
    simp only [e1, e2, ← Finset.mul_sum, peTau]
    simp
  · simp only [peBas, basisRawP, gauss_expo, Fin.sum_univ_succ (n := 5), (pe_R1 _).1, (pe_R1 _).2, gauss_num (peQ_pos _),
      gauss_num one_pos, peX_succ]
    simp [peV, peLat, (pe_updateLatent _).2]

theorem pe_R2 (k : Fin 5) : reconP (peLat 0) (peBas 0) (peV 0) k () 0 = peZ1 k * peX1 k / peC * peTau ∧
    ∀ i : Fin 5, reconP (peLat 0) (peBas 0) (peV 0) k () i.succ = 1 := by
  have := pe_recon (peLat 0) (peBas 0) 1 (fun _ => 5) k
  refine ⟨this.1.trans ?_, fun i => (this.2 i).trans ?_⟩
  · rw [peLat, (pe_updateLatent k).1, pe_basis.1]
    ring
  · rw [peLat, (pe_updateLatent k).2, pe_basis.2]
    norm_num

theorem pe_activation : peAct 0 = fun b => if b = 0 then Fin.cons (Real.sqrt peTau) fun _ => 0 else
    Fin.cons 0 fun _ => 5 := by
  have hτ := peTau_pos
  funext b j
  fin_cases b
  · refine Fin.cases ?_ (fun i => ?_) j
    · change peAct 0 0 0 = Real.sqrt peTau
      simp only [peAct, activationRawP, gauss_expo, Fintype.univ_unit, Finset.sum_singleton, (pe_R2 _).1,
        gauss_num (mul_pos (peQ_pos _) hτ), peX_zero]
      simp only [peV, if_true, Fin.cons_zero, peLat, (pe_updateLatent _).1, pe_basis.1, mul_one]
      have e2 : ∀ k, peZ1 k * peX1 k / peC * peTau / (peZ1 k * peX1 k / peC * peTau) = 1 := fun k =>
        div_self (mul_pos (peQ_pos k) hτ).ne'
      simp only [pe_quot _ hτ, e2, ← Finset.mul_sum]
      congr 1
      have := peTau_sq
      simp
      field_simp
      linarith
    · change peAct 0 0 i.succ = 0
      simp [peAct, activationRawP, peV]
  · refine Fin.cases ?_ (fun i => ?_) j
    · change peAct 0 1 0 = 0
      simp [peAct, activationRawP, peV]
    · change peAct 0 1 i.succ = 5
      simp only [peAct, activationRawP, gauss_expo, Fintype.univ_unit, Finset.sum_singleton, (pe_R2 _).2,
        gauss_num one_pos, peX_succ]
      simp [peV, peLat, (pe_updateLatent _).2, pe_basis.2]

theorem pe_R3 (k : Fin 5) : peRec 0 k 0 = peZ1 k * peX1 k / peC * (peTau * Real.sqrt peTau) ∧
    ∀ i : Fin 5, peRec 0 k i.succ = 1 := by
  have := pe_recon (peLat 0) (peBas 0) (Real.sqrt peTau) (fun _ => 5) k
  rw [← pe_activation] at this
  refine ⟨this.1.trans ?_, fun i => (this.2 i).trans ?_⟩
  · rw [peLat, (pe_updateLatent k).1, pe_basis.1]
  · rw [peLat, (pe_updateLatent k).2, pe_basis.2]
    norm_num

/-! Continuity at `d = 0`. -/

theorem cont_peV (b : Fin 2) (j : Fin 6) : ContinuousAt (fun d => peV d b j) 0 := by
  fin_cases b
  · refine Fin.cases ?_ (fun i => ?_) j
    · exact continuousAt_const
    · exact continuousAt_id
  · refine Fin.cases ?_ (fun i => ?_) j
    · exact continuousAt_id
    · exact continuousAt_const

theorem pe_pos {R : Fin 5 → Unit → Fin 6 → ℝ} (h0 : ∀ k, 0 < R k () 0) (h1 : ∀ k (i : Fin 5), R k () i.succ = 1)
    (k : Fin 5) (f : Unit) (j : Fin 6) : 0 < R k f j := by
  refine Fin.cases (h0 k) (fun i => ?_) j
  rw [h1]
  exact one_pos

theorem peV_nonneg {d : ℝ} (hd : 0 ≤ d) (b : Fin 2) (j : Fin 6) : 0 ≤ peV d b j := by
  fin_cases b
  · exact Fin.cases zero_le_one (fun _ => hd) j
  · exact Fin.cases hd (fun _ => by change (0 : ℝ) ≤ 5; norm_num) j

theorem peV_pos {d : ℝ} (hd : 0 < d) (b : Fin 2) (j : Fin 6) : 0 < peV d b j := by
  fin_cases b
  · exact Fin.cases zero_lt_one (fun _ => hd) j
  · exact Fin.cases hd (fun _ => by change (0 : ℝ) < 5; norm_num) j

theorem peV_some (b : Fin 2) : ∃ j, 0 < peV 0 b j := by
  fin_cases b
  · exact ⟨0, zero_lt_one⟩
  · exact ⟨1, by change (0 : ℝ) < 5; norm_num⟩

theorem pe_latent_pos (k : Fin 5) (b : Fin 2) : 0 < latentRaw (gauss 2) peX peZ (fun _ _ => 1) (peV 0) k b := by
  fin_cases b
  · exact ((pe_latent k).1.symm ▸ mul_pos (peZ1_pos k) (peX1_pos k) :)
  · exact lt_of_lt_of_eq (by norm_num : (0 : ℝ) < 1 / 5) (pe_latent k).2.symm

theorem peLat_pos (k : Fin 5) (b : Fin 2) : 0 < peLat 0 k b :=
  div_pos (pe_latent_pos k b) (Finset.sum_pos (fun k _ => pe_latent_pos k b) Finset.univ_nonempty)

theorem peBas_pos (b : Fin 2) : 0 < peBas 0 () b := by
  fin_cases b
  · exact (pe_basis.1.symm ▸ peTau_pos :)
  · exact (pe_basis.2.symm ▸ one_pos :)

theorem cont_peLat (k : Fin 5) (b : Fin 2) : ContinuousAt (fun d => peLat d k b) 0 := by
  have hR := pe_pos (fun k => (pe_R0 k).1.symm ▸ peZ1_pos k) fun k i => (pe_R0 k).2 i
  have h : ∀ k b, ContinuousAt (fun d => latentRaw (gauss 2) peX peZ (fun _ _ => 1) (peV d) k b) 0 := fun k b => by
    refine cont_latent (Z := fun _ => peZ) (T := fun _ _ _ => 1) (V := peV) two_pos (fun _ _ => continuousAt_const)
      (fun _ _ => continuousAt_const) cont_peV hR (fun k b => ?_) k b
    obtain ⟨j, hj⟩ := peV_some b
    refine (Finset.sum_pos (fun f _ => Finset.sum_pos' (fun j _ => ?_) ⟨j, Finset.mem_univ j, ?_⟩)
      Finset.univ_nonempty).ne'
    · exact div_nonneg (mul_nonneg zero_le_one (peV_nonneg le_rfl b j)) (hR k f j).le
    · exact div_pos (mul_pos one_pos hj) (hR k f j)
  exact (h k b).div (tendsto_finsetSum _ fun k' _ => h k' b)
    (Finset.sum_pos (fun k _ => pe_latent_pos k b) Finset.univ_nonempty).ne'

theorem cont_peBas (f : Unit) (b : Fin 2) : ContinuousAt (fun d => peBas d f b) 0 := by
  have hR := pe_pos (fun k => (pe_R1 k).1.symm ▸ peQ_pos k) fun k i => (pe_R1 k).2 i
  refine cont_basis (Z := peLat) (T := fun _ _ _ => 1) (V := peV) two_pos cont_peLat
    (fun _ _ => continuousAt_const) cont_peV hR (fun f b => ?_) f b
  obtain ⟨j, hj⟩ := peV_some b
  refine (Finset.sum_pos (fun k _ => Finset.sum_pos' (fun j _ => ?_) ⟨j, Finset.mem_univ j, ?_⟩)
    Finset.univ_nonempty).ne'
  · exact div_nonneg (mul_nonneg (peLat_pos k b).le (peV_nonneg le_rfl b j)) (hR k f j).le
  · exact div_pos (mul_pos (peLat_pos k b) hj) (hR k f j)

theorem cont_peAct (b : Fin 2) (j : Fin 6) : ContinuousAt (fun d => peAct d b j) 0 := by
  have hR := pe_pos (fun k => (pe_R2 k).1.symm ▸ mul_pos (peQ_pos k) peTau_pos) fun k i => (pe_R2 k).2 i
  refine cont_activation (Z := peLat) (T := peBas) (V := peV) two_pos cont_peLat cont_peBas cont_peV hR
    (fun b j => ?_) b j
  exact (Finset.sum_pos (fun k _ => Finset.sum_pos (fun f _ => div_pos (mul_pos (peLat_pos k b) (peBas_pos b))
    (hR k f j)) Finset.univ_nonempty) Finset.univ_nonempty).ne'

theorem cont_peRec (k : Fin 5) (j : Fin 6) : ContinuousAt (fun d => peRec d k j) 0 :=
  cont_reconP cont_peLat cont_peBas cont_peAct k () j

/-! Positivity for `d > 0`. -/

theorem pe_ne_zero (k : Fin 5) : 0 < ‖peX () k 0‖ := by
  have h : 0 < ‖peX () k 0‖ ^ 2 := by
    rw [peX_zero]
    exact mul_pos (peZ1_pos k) (pow_pos (peX1_pos k) 2)
  exact lt_of_le_of_ne (norm_nonneg _) fun e => by rw [← e] at h; simp at h

theorem pe_frame (j : Fin 6) : ∃ k, 0 < ‖peX () k j‖ := by
  refine Fin.cases ⟨0, pe_ne_zero 0⟩ (fun i => ⟨i, ?_⟩) j
  have h : 0 < ‖peX () i i.succ‖ ^ 2 := by
    rw [peX_succ, if_pos rfl]
    norm_num
  exact lt_of_le_of_ne (norm_nonneg _) fun e => by rw [← e] at h; simp at h

section

variable {d : ℝ} (hd : 0 < d)
include hd

theorem pe_latentRaw_pos (k : Fin 5) (b : Fin 2) : 0 < latentRaw (gauss 2) peX peZ (fun _ _ => 1) (peV d) k b := by
  have hR := reconP_pos (F := Unit) peZ_pos (fun _ _ => one_pos) (peV_pos hd)
  have hw : ∀ j, 0 < (1 : ℝ) * peV d b j := fun j => mul_pos one_pos (peV_pos hd b j)
  refine mul_pos (Real.rpow_pos_of_pos (div_pos (Finset.sum_pos (fun f _ => ?_) Finset.univ_nonempty) ?_) _) (peZ_pos k b)
  · exact Finset.sum_pos' (fun j _ => mul_nonneg (hw j).le (gauss_num_nonneg (hR k f j)))
      ⟨0, Finset.mem_univ _, mul_pos (hw 0) (gauss_num_pos (pe_ne_zero k) (hR k f 0))⟩
  · exact Finset.sum_pos (fun f _ => Finset.sum_pos (fun j _ => div_pos (hw j) (hR k f j)) Finset.univ_nonempty)
      Finset.univ_nonempty

theorem peLat_pos' (k : Fin 5) (b : Fin 2) : 0 < peLat d k b :=
  div_pos (pe_latentRaw_pos hd k b) (Finset.sum_pos (fun k _ => pe_latentRaw_pos hd k b) Finset.univ_nonempty)

theorem peBas_pos' (f : Unit) (b : Fin 2) : 0 < peBas d f b := by
  have hR := reconP_pos (F := Unit) (peLat_pos' hd) (fun _ _ => one_pos) (peV_pos hd)
  have hw : ∀ k j, 0 < peLat d k b * peV d b j := fun k j => mul_pos (peLat_pos' hd k b) (peV_pos hd b j)
  refine mul_pos (Real.rpow_pos_of_pos (div_pos (Finset.sum_pos (fun k _ => ?_) Finset.univ_nonempty) ?_) _) one_pos
  · exact Finset.sum_pos' (fun j _ => mul_nonneg (hw k j).le (gauss_num_nonneg (hR k f j)))
      ⟨0, Finset.mem_univ _, mul_pos (hw k 0) (gauss_num_pos (pe_ne_zero k) (hR k f 0))⟩
  · exact Finset.sum_pos (fun k _ => Finset.sum_pos (fun j _ => div_pos (hw k j) (hR k f j)) Finset.univ_nonempty)
      Finset.univ_nonempty

theorem peAct_pos' (b : Fin 2) (j : Fin 6) : 0 < peAct d b j := by
  have hR := reconP_pos (F := Unit) (peLat_pos' hd) (peBas_pos' hd) (peV_pos hd)
  have hw : ∀ k, 0 < peLat d k b * peBas d () b := fun k => mul_pos (peLat_pos' hd k b) (peBas_pos' hd () b)
  obtain ⟨k, hk⟩ := pe_frame j
  refine mul_pos (Real.rpow_pos_of_pos (div_pos ?_ ?_) _) (peV_pos hd b j)
  · refine Finset.sum_pos' (fun k _ => Finset.sum_nonneg fun f _ =>
      mul_nonneg (hw k).le (gauss_num_nonneg (hR k f j))) ⟨k, Finset.mem_univ _, ?_⟩
    exact Finset.sum_pos (fun f _ => mul_pos (hw k) (gauss_num_pos hk (hR k f j))) Finset.univ_nonempty
  · exact Finset.sum_pos (fun k _ => Finset.sum_pos (fun f _ => div_pos (hw k) (hR k f j)) Finset.univ_nonempty)
      Finset.univ_nonempty

end

/-! A lower bound of the loss over all filters. -/

theorem filter_bound (W : Mat n ℂ) (hW : IsUnit W.det) {c : ℝ} (hc : 0 < c) :
    n + n * Real.log c ≤ c * ∑ k, ∑ i, ‖W k i‖ ^ 2 - 2 * Real.log ‖W.det‖ := by
  have hWu : IsUnit W := (isUnit_iff_isUnit_det W).2 hW
  have hpd : (W * Wᴴ).PosDef := by
    have := Matrix.PosDef.mul_conjTranspose_self W (vecMul_injective_iff_isUnit.2 hWu)
    exact this
  have hpd' : ((c : ℂ) • (W * Wᴴ)).PosDef := hpd.smul (by exact_mod_cast hc)
  have h := logdet_le_trace _ hpd'
  have e1 : ((c : ℂ) • (W * Wᴴ)).det = ((c ^ n * ‖W.det‖ ^ 2 : ℝ) : ℂ) := by
    rw [det_smul, det_mul, det_conjTranspose, Fintype.card_fin]
    push_cast
    rw [← Complex.mul_conj']
    rfl
  have e2 : ((c : ℂ) • (W * Wᴴ)).trace = ((c * ∑ k, ∑ i, ‖W k i‖ ^ 2 : ℝ) : ℂ) := by
    rw [trace_smul, smul_eq_mul]
    simp only [trace, diag_apply, mul_apply, conjTranspose_apply]
    push_cast
    congr 1
    refine Finset.sum_congr rfl fun k _ => Finset.sum_congr rfl fun i _ => ?_
    rw [← Complex.mul_conj']
    rfl
  rw [e1, e2] at h
  simp only [RCLike.re_to_complex, Complex.ofReal_re] at h
  rw [Real.log_mul (pow_pos hc n).ne' (pow_pos (norm_pos_iff.2 hW.ne_zero) 2).ne', Real.log_pow, Real.log_pow] at h
  push_cast at h
  linarith

theorem pe_separate (W : Unit → Mat 5 ℂ) (k i : Fin 5) : ‖separate peX W () k i.succ‖ ^ 2 = 5 * ‖W () k i‖ ^ 2 := by
  have : separate peX W () k i.succ = W () k i * ((Real.sqrt 5 : ℝ) : ℂ) := by
    simp [separate, mul_apply, peX]
  rw [this, norm_mul, mul_pow, Complex.norm_real, Real.norm_eq_abs, sq_abs, Real.sq_sqrt (by norm_num), mul_comm]

theorem gauss_ell (y r : ℝ) : (gauss 2).ell y r = y ^ 2 / r + Real.log r := by
  change y ^ 2 / r ^ (2 / 2 : ℝ) + 2 / 2 * Real.log r = _
  norm_num

theorem pe_lower {R : Fin 5 → Unit → Fin 6 → ℝ} (hR : ∀ k f j, 0 < R k f j) (h2 : ∀ k (i : Fin 5), R k () i.succ ≤ 2)
    (W : Unit → Mat 5 ℂ) (hW : IsUnit (W ()).det) :
    5 + 5 * Real.log (5 / 12) + (∑ k, ∑ j, Real.log (R k () j)) / 6 ≤ lossOf (gauss 2) (separate peX W) R W := by
  have hb := filter_bound (W ()) hW (c := 5 / 12) (by norm_num)
  have h : ∀ k, 5 / 12 * ∑ i, ‖W () k i‖ ^ 2 + (∑ j, Real.log (R k () j)) / 6
      ≤ meanT fun s => (gauss 2).ell ‖separate peX W () k s‖ (R k () s) := fun k => by
    simp only [meanT, gauss_ell, Finset.sum_add_distrib]
    rw [Fin.sum_univ_succ (f := fun j => ‖separate peX W () k j‖ ^ 2 / R k () j)]
    have h0 : 0 ≤ ‖separate peX W () k 0‖ ^ 2 / R k () 0 := div_nonneg (sq_nonneg _) (hR k () 0).le
    have h1 : ∑ i : Fin 5, 5 * ‖W () k i‖ ^ 2 / 2 ≤ ∑ i : Fin 5, ‖separate peX W () k i.succ‖ ^ 2 / R k () i.succ :=
      Finset.sum_le_sum fun i _ => by
        rw [pe_separate]
        exact div_le_div_of_nonneg_left (by positivity) (hR k () _) (h2 k i)
    have h3 : ∑ i : Fin 5, 5 * ‖W () k i‖ ^ 2 / 2 = 5 / 2 * ∑ i, ‖W () k i‖ ^ 2 := by
      rw [Finset.mul_sum]
      exact Finset.sum_congr rfl fun i _ => by ring
    push_cast
    linarith
  have hs := Finset.sum_le_sum fun k (_ : k ∈ Finset.univ) => h k
  rw [Finset.sum_add_distrib, ← Finset.mul_sum, ← Finset.sum_div] at hs
  simp only [lossOf, Fintype.univ_unit, Finset.sum_singleton]
  push_cast at hb
  change _ ≤ (∑ k, meanT fun s => (gauss 2).ell ‖separate peX W () k s‖ (R k () s)) - 2 * Real.log ‖(W ()).det‖
  linarith

/-- Six times the initial loss. -/
noncomputable def peLoss0 (d : ℝ) : ℝ :=
  ∑ k, ∑ j, (‖peX () k j‖ ^ 2 / reconP peZ (fun _ : Unit => fun _ => 1) (peV d) k () j
    + Real.log (reconP peZ (fun _ : Unit => fun _ => 1) (peV d) k () j))

theorem peLoss0_eq (d : ℝ) : lossP (gauss 2) peX (peS d) = peLoss0 d / 6 := by
  simp only [lossP, lossOf, peS, separate_one, Fintype.univ_unit, Finset.sum_singleton, det_one, norm_one, Real.log_one,
    mul_zero, sub_zero, meanT, gauss_ell, peLoss0, Finset.sum_div]
  push_cast
  rfl

theorem peLoss0_zero : peLoss0 0 = ∑ k, (peX1 k ^ 2 + Real.log (peZ1 k)) + 25 := by
  simp only [peLoss0, Fin.sum_univ_succ (n := 5), (pe_R0 _).1, (pe_R0 _).2, peX_zero, peX_succ, Real.log_one, div_one,
    add_zero]
  simp only [Finset.sum_ite_eq', Finset.mem_univ, if_true]
  rw [Finset.sum_add_distrib]
  congr 1
  · refine Finset.sum_congr rfl fun k _ => ?_
    have := (peZ1_pos k).ne'
    field_simp
  · norm_num

theorem cont_peLoss0 : ContinuousAt peLoss0 0 := by
  have hR := pe_pos (fun k => (pe_R0 k).1.symm ▸ peZ1_pos k) fun k i => (pe_R0 k).2 i
  have hc := cont_reconP (F := Unit) (Z := fun _ => peZ) (T := fun _ _ _ => 1) (V := peV)
    (fun _ _ => continuousAt_const) (fun _ _ => continuousAt_const) cont_peV
  exact tendsto_finsetSum _ fun k _ => tendsto_finsetSum _ fun j _ =>
    (continuousAt_const.div (hc k () j) (hR k () j).ne').add ((hc k () j).log (hR k () j).ne')

noncomputable def peLog (d : ℝ) : ℝ := ∑ k, ∑ j, Real.log (peRec d k j)

theorem peRec_pos (k : Fin 5) (j : Fin 6) : 0 < peRec 0 k j := by
  refine Fin.cases ?_ (fun i => ?_) j
  · rw [(pe_R3 k).1]
    exact mul_pos (peQ_pos k) (mul_pos peTau_pos (Real.sqrt_pos.2 peTau_pos))
  · rw [(pe_R3 k).2]
    exact one_pos

theorem cont_peLog : ContinuousAt peLog 0 :=
  tendsto_finsetSum _ fun k _ => tendsto_finsetSum _ fun j _ => (cont_peRec k j).log (peRec_pos k j).ne'

theorem peLog_zero : peLog 0 = ∑ k, (Real.log (peZ1 k) + Real.log (peX1 k)) - 5 * Real.log peC
    + 15 / 2 * Real.log peTau := by
  simp only [peLog, Fin.sum_univ_succ (n := 5), (pe_R3 _).1, (pe_R3 _).2, Real.log_one, Finset.sum_const_zero, add_zero]
  have e : ∀ k, Real.log (peZ1 k * peX1 k / peC * (peTau * Real.sqrt peTau))
      = (Real.log (peZ1 k) + Real.log (peX1 k)) + (3 / 2 * Real.log peTau - Real.log peC) := fun k => by
    rw [Real.log_mul (peQ_pos k).ne' (mul_pos peTau_pos (Real.sqrt_pos.2 peTau_pos)).ne',
      Real.log_div (mul_pos (peZ1_pos k) (peX1_pos k)).ne' peC_pos.ne',
      Real.log_mul (peZ1_pos k).ne' (peX1_pos k).ne', Real.log_mul peTau_pos.ne' (Real.sqrt_pos.2 peTau_pos).ne',
      Real.log_sqrt peTau_pos.le]
    ring
  simp only [e]
  rw [Finset.sum_add_distrib]
  simp
  ring

theorem pe_gap : peLoss0 0 < 6 * (5 + 5 * Real.log (5 / 12)) + peLog 0 := by
  have hμ := peMu_pos
  have hμ1 := peMu_lt
  have hM : ∑ k, peX1 k = 4 + peMu := by
    simp [peX1, Fin.sum_univ_five]
    ring
  have hC : peC ≤ 2 * peMu := by
    have : peC = (1 - peMu / 2) * peMu + 4 * (peMu / 8) := by
      simp [peC, peX1, peZ1, Fin.sum_univ_five]
      ring
    rw [this]
    nlinarith
  have hlogμ : Real.log peMu = -400 := Real.log_exp _
  have hlogC : Real.log peC ≤ -399 := by
    refine (Real.log_le_log peC_pos hC).trans ?_
    rw [Real.log_mul two_ne_zero hμ.ne', hlogμ]
    have := Real.log_le_sub_one_of_pos (two_pos (α := ℝ))
    linarith
  have hτ : Real.log peTau = (Real.log peC + Real.log ((4 + peMu) / 5)) / 2 := by
    have h : 0 < (4 + peMu) / 5 := by positivity
    rw [peTau, Real.log_sqrt (by have := peC_pos; rw [hM]; positivity), hM, mul_div_assoc,
      Real.log_mul peC_pos.ne' h.ne']
  have hm : -(1 / 4) ≤ Real.log ((4 + peMu) / 5) := by
    have h1 : Real.log (4 / 5) ≤ Real.log ((4 + peMu) / 5) := Real.log_le_log (by norm_num) (by linarith)
    have h2 : Real.log (4 / 5) = -Real.log (5 / 4) := by
      rw [← Real.log_inv]
      norm_num
    have h3 := Real.log_le_sub_one_of_pos (show (0 : ℝ) < 5 / 4 by norm_num)
    linarith
  have h12 : -(7 / 5) ≤ Real.log (5 / 12) := by
    have h2 : Real.log (5 / 12) = -Real.log (12 / 5) := by
      rw [← Real.log_inv]
      norm_num
    have h3 := Real.log_le_sub_one_of_pos (show (0 : ℝ) < 12 / 5 by norm_num)
    linarith
  have hx : ∑ k, Real.log (peX1 k) = -400 := by
    simp [peX1, Fin.sum_univ_five, hlogμ]
  have hx2 : ∑ k, peX1 k ^ 2 ≤ 5 := by
    have : ∑ k, peX1 k ^ 2 = 4 + peMu ^ 2 := by
      simp [peX1, Fin.sum_univ_five]
      ring
    rw [this]
    nlinarith
  rw [peLoss0_zero, peLog_zero, hτ, Finset.sum_add_distrib, Finset.sum_add_distrib, hx]
  linarith

theorem pe_rows : ∀ f, LinearIndependent ℂ (peX f).row := by
  rintro ⟨⟩
  rw [Fintype.linearIndependent_iff]
  intro g hg i
  have := congrFun hg i.succ
  simpa [peX, Finset.sum_apply, Matrix.row] using this

/-- C69: with `partitioning=True`, an iteration of `GaussILRMA` (MM, domain 2) can increase the loss. There are a mixture
of five channels with linearly independent channels and a positive state with the identity as filter and latent
variables that sum to one, such that after the update of the source model, for every small floor, the loss is larger
than before *whatever filter* the spatial update then chooses. -/
theorem C69_loss_can_increase : ∃ (X : Spec Unit 5 6) (s : StP Unit 5 6 2), (∀ f, LinearIndependent ℂ (X f).row) ∧
    InvP s ∧ (∀ b, ∑ k, s.Z k b = 1) ∧ s.W = (fun _ => 1) ∧
    (∀ W, (∀ f, IsUnit (W f).det) →
      lossP (gauss 2) X s < lossP (gauss 2) X { updateSourceP (gauss 2) id X s with W := W }) ∧
    InvP (updateSourceP (gauss 2) id X s) ∧
    ∃ eps₀ > 0, ∀ eps, 0 < eps → eps < eps₀ →
      updateSourceP (gauss 2) (Special.max_flooring eps) X s = updateSourceP (gauss 2) id X s := by
  have hev : ∀ᶠ d in 𝓝[>] (0 : ℝ), peLoss0 d < 6 * (5 + 5 * Real.log (5 / 12)) + peLog d :=
    (cont_peLoss0.eventually_lt (continuousAt_const.add cont_peLog) pe_gap).filter_mono nhdsWithin_le_nhds
  have h2 : ∀ᶠ d in 𝓝[>] (0 : ℝ), ∀ p : Fin 5 × Fin 5, peRec d p.1 p.2.succ < 2 := by
    rw [Filter.eventually_all]
    intro p
    refine ((cont_peRec p.1 p.2.succ).eventually_lt continuousAt_const ?_).filter_mono nhdsWithin_le_nhds
    rw [(pe_R3 p.1).2]
    norm_num
  obtain ⟨d, hd, h1, h2⟩ := ((eventually_mem_nhdsWithin (a := (0 : ℝ)) (s := Set.Ioi 0)).and (hev.and h2)).exists
  have hd : 0 < d := hd
  have hup : updateSourceP (gauss 2) id peX (peS d) = ⟨fun _ => 1, peLat d, peBas d, peAct d⟩ := by
    unfold updateSourceP
    simp only [peS, separate_one]
    rfl
  have hpos := reconP_pos (F := Unit) (peLat_pos' hd) (peBas_pos' hd) (peAct_pos' hd)
  refine ⟨peX, peS d, pe_rows, ⟨fun _ => by simp [peS], peZ_pos, fun _ _ => one_pos, peV_pos hd⟩, peZ_sum, rfl,
    fun W hW => ?_, ?_, ?_⟩
  · rw [peLoss0_eq, hup]
    refine lt_of_lt_of_le ?_ (pe_lower hpos (fun k i => (h2 (k, i)).le) W (hW ()))
    change _ < _ + peLog d / 6
    linarith
  · rw [hup]
    exact ⟨fun _ => by simp, peLat_pos' hd, peBas_pos' hd, peAct_pos' hd⟩
  · have e1 : ∀ᶠ eps in 𝓝[>] (0 : ℝ), ∀ i : Unit × Fin 2,
        Special.max_flooring eps (peBas d i.1 i.2) = peBas d i.1 i.2 := floor_eventually fun i => peBas_pos' hd _ _
    have e2 : ∀ᶠ eps in 𝓝[>] (0 : ℝ), ∀ i : Fin 2 × Fin 6,
        Special.max_flooring eps (peAct d i.1 i.2) = peAct d i.1 i.2 := floor_eventually fun i => peAct_pos' hd _ _
    obtain ⟨eps₀, h3, h4⟩ := (mem_nhdsGT_iff_exists_Ioo_subset).1 (e1.and e2)
    refine ⟨eps₀, h3, fun eps h5 h6 => ?_⟩
    obtain ⟨k1, k2⟩ := h4 ⟨h5, h6⟩
    rw [hup]
    unfold updateSourceP
    simp only [peS, separate_one]
    have k1' : updateBasisP (gauss 2) (Special.max_flooring eps) peX (peLat d) (fun _ _ => 1) (peV d) = peBas d := by
      funext f b
      exact k1 (f, b)
    have k2' : updateActivationP (gauss 2) (Special.max_flooring eps) peX (peLat d) (peBas d) (peV d) = peAct d := by
      funext b j
      exact k2 (b, j)
    change (⟨_, peLat d, updateBasisP (gauss 2) (Special.max_flooring eps) peX (peLat d) (fun _ _ => 1) (peV d),
      updateActivationP (gauss 2) (Special.max_flooring eps) peX (peLat d)
        (updateBasisP (gauss 2) (Special.max_flooring eps) peX (peLat d) (fun _ _ => 1) (peV d)) (peV d)⟩ :
      StP Unit 5 6 2) = _
    rw [k1', k2']

/-- C69: in terms of whole iterations without flooring: the iteration succeeds and ends at a larger loss, for IP1 and IP2,
without normalisation and with power normalisation. -/
theorem C69_iteration_can_increase : ∃ (X : Spec Unit 5 6) (s : StP Unit 5 6 2),
    (∀ f, LinearIndependent ℂ (X f).row) ∧ InvP s ∧ (∀ b, ∑ k, s.Z k b = 1) ∧ s.W = (fun _ => 1) ∧
    ∀ (np : Numpy ℂ) (alg : FilterAlg 5), alg.Valid → ∀ norm : Norm 5, norm.Plain →
      ∃ s', updateOnceP np (gauss 2) 2 alg norm id X s = .ok s' ∧ lossP (gauss 2) X s < lossP (gauss 2) X s' := by
  obtain ⟨X, s, h1, h2, h3, h4, h5, h6, -⟩ := C69_loss_can_increase
  refine ⟨X, s, h1, h2, h3, h4, fun np alg halg norm hn => ?_⟩
  obtain ⟨s', k1, k2, k3, k4, k5, -⟩ := C69_spatial np (.gauss two_pos) (floor := id) alg halg X h1
    (updateSourceP (gauss 2) id X s) h6 (fun f k j p beta h => by
      have := congrArg (fun S : Source => S.phi (fun _ => 0) 1 1) h
      simp [gauss, ggd] at this) fun _ _ => rfl
  have hs' : s' = { updateSourceP (gauss 2) id X s with W := s'.W } := by
    cases s'
    simp only at k3 k4 k5
    rw [k3, k4, k5]
  have hlt : lossP (gauss 2) X s < lossP (gauss 2) X s' := by
    rw [hs']
    exact h5 s'.W k2.1
  cases norm with
  | off => exact ⟨s', by rw [updateOnceP, k1]; rfl, hlt⟩
  | projectionBack r => exact absurd hn (by simp [Norm.Plain])
  | power =>
    obtain ⟨s5, e1, -, -, -, -, -, e2⟩ := C40_partitioned (gauss_scaleInv two_pos) id X (by norm_num) s' k2.1 k2.2.1
      k2.2.2.1 k2.2.2.2 (psi_pos fun f => row_independent (k2.1 f) (h1 f))
    exact ⟨s5, by rw [updateOnceP, k1]; exact e1, by rw [e2]; exact hlt⟩

/-- The condition of `C69_latent_balanced` holds, for example, where the model fits exactly. -/
example : ∀ b, latentScale (gauss 2) (fun _ : Unit => (!![1, 1; 1, -1] : Matrix (Fin 2) (Fin 2) ℂ))
    (fun _ _ => 1 / 2 : Fin 2 → Fin 1 → ℝ) (fun _ _ => 1) (fun _ _ => 2) b = 1 := by
  intro b
  have hR : ∀ k f j, reconP (F := Unit) (fun _ _ => 1 / 2 : Fin 2 → Fin 1 → ℝ) (fun _ _ => 1)
      (fun _ _ => 2 : Fin 1 → Fin 2 → ℝ) k f j = 1 := fun k f j => by simp [reconP]
  simp only [latentScale, latentRaw, hR, gauss_num one_pos, gauss_expo, Fintype.univ_unit, Finset.sum_singleton,
    Fin.sum_univ_two]
  norm_num

end Verif.Ilrma
