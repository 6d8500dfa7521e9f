import Verif.Model.Mnmf
import Verif.Lemmas.IlrmaStep
import Verif.Props.Special

/-! # C42: the recorded loss of FastGaussMNMF never increases -/

set_option linter.unusedSectionVars false

namespace Verif.Mnmf

open Matrix Spatial Scale Ilrma

variable {F : Type} [Fintype F] {n m t K : ℕ}

theorem ell2 (y r : ℝ) : (gauss 2).ell y r = y ^ 2 / r + Real.log r := by
  simp [gauss]

theorem num2 (y r : ℝ) : (gauss 2).num y r = (y / r) ^ 2 := by
  simp only [gauss]
  rw [show ((2 : ℝ) + 2) / 2 = (2 : ℕ) by norm_num, Real.rpow_natCast, div_pow]

theorem expo2 (x : ℝ) : x ^ (gauss 2).expo = Real.sqrt x := by
  rw [Real.sqrt_eq_rpow]
  congr 1
  simp only [gauss]
  norm_num

/-- Invertible diagonalisers, positive basis, activation and spatial parameters. -/
def FInv (s : FSt F n m t K) : Prop :=
  (∀ f, IsUnit (s.Q f).det) ∧ (∀ k f b, 0 < s.T k f b) ∧ (∀ k b j, 0 < s.V k b j) ∧ ∀ f k c, 0 < s.D f k c

theorem lambD_pos [Nonempty (Fin K)] [Nonempty (Fin n)] {s : FSt F n m t K} (hs : FInv s) (f : F) (c : Fin m)
    (j : Fin t) : 0 < lambD s f c j :=
  Finset.sum_pos (fun k _ => mul_pos (recon_pos hs.2.1 hs.2.2.1 k f j) (hs.2.2.2 f k c)) Finset.univ_nonempty

theorem fastLoss_eq (X : Spec F m t) (s : FSt F n m t K) :
    fastLoss X s = (∑ f, ∑ j, ∑ c, (gauss 2).ell ‖separate X s.Q f c j‖ (lambD s f c j)) / t
      - 2 * ∑ f, Real.log ‖(s.Q f).det‖ := by
  simp only [fastLoss, meanT, ell2, Finset.sum_sub_distrib, Finset.sum_div, Finset.mul_sum]

theorem fastLoss_le {X : Spec F m t} {s s' : FSt F n m t K} (hQ : s'.Q = s.Q)
    (h : ∑ f, ∑ j, ∑ c, (gauss 2).ell ‖separate X s.Q f c j‖ (lambD s' f c j)
      ≤ ∑ f, ∑ j, ∑ c, (gauss 2).ell ‖separate X s.Q f c j‖ (lambD s f c j)) : fastLoss X s' ≤ fastLoss X s := by
  rw [fastLoss_eq, fastLoss_eq, hQ]
  exact sub_le_sub_right (div_le_div_of_nonneg_right h (by positivity)) _

theorem fast_basis_le [Nonempty (Fin K)] [Nonempty (Fin n)] (floor : ℝ → ℝ) (X : Spec F m t) (s : FSt F n m t K)
    (hs : FInv s) (hfl : ∀ k f b, FloorMild floor (s.T k f b) (fastBasisRaw X s k f b)) :
    fastLoss X (fastUpdateBasis floor X s) ≤ fastLoss X s := by
  refine fastLoss_le rfl (Finset.sum_le_sum fun f _ => ?_)
  have key : ∀ T : Fin n → F → Fin K → ℝ, ∀ c j, lambD (⟨s.Q, T, s.V, s.D⟩ : FSt F n m t K) f c j
      = ∑ p : Fin n × Fin K, s.V p.1 p.2 j * s.D f p.1 c * T p.1 f p.2 := by
    intro T c j
    simp only [lambD, recon, Finset.sum_mul, Fintype.sum_prod_type]
    exact Finset.sum_congr rfl fun k _ => Finset.sum_congr rfl fun b _ => by ring
  have := slice_le (gauss_isMM two_pos) (fun (i : Fin t × Fin m) (p : Fin n × Fin K) => s.V p.1 p.2 i.1 * s.D f p.1 i.2)
    (fun i p => (mul_pos (hs.2.2.1 p.1 p.2 i.1) (hs.2.2.2 f p.1 i.2)).le) (fun p => s.T p.1 f p.2)
    (fun p => (fastUpdateBasis floor X s).T p.1 f p.2) (fun p => hs.2.1 p.1 f p.2) (fun p => (hfl p.1 f p.2).1)
    (fun i => ‖separate X s.Q f i.2 i.1‖) (fun i => lambD s f i.2 i.1) (fun i => norm_nonneg _)
    (fun i => key s.T i.2 i.1) (fun i => lambD_pos hs f i.2 i.1)
    (fun p => by
      have e : ((∑ i : Fin t × Fin m, s.V p.1 p.2 i.1 * s.D f p.1 i.2
          * (gauss 2).num ‖separate X s.Q f i.2 i.1‖ (lambD s f i.2 i.1))
          / ∑ i : Fin t × Fin m, s.V p.1 p.2 i.1 * s.D f p.1 i.2 / lambD s f i.2 i.1) ^ (gauss 2).expo
          * s.T p.1 f p.2 = fastBasisRaw X s p.1 f p.2 := by
        rw [expo2, mul_comm, fastBasisRaw]
        simp only [Fintype.sum_prod_type, num2, Finset.mul_sum, mul_assoc, mul_div_assoc]
      rw [e]
      exact (hfl p.1 f p.2).2)
  simp only [Fintype.sum_prod_type, ← key] at this
  refine le_trans (le_of_eq ?_) this
  refine Finset.sum_congr rfl fun j _ => Finset.sum_congr rfl fun c _ => ?_
  rw [fastUpdateBasis, key, Fintype.sum_prod_type]

theorem fast_activation_le [Nonempty (Fin K)] [Nonempty (Fin n)] (floor : ℝ → ℝ) (X : Spec F m t) (s : FSt F n m t K)
    (hs : FInv s) (hfl : ∀ k b j, FloorMild floor (s.V k b j) (fastActivationRaw X s k b j)) :
    fastLoss X (fastUpdateActivation floor X s) ≤ fastLoss X s := by
  refine fastLoss_le rfl ?_
  rw [Finset.sum_comm, Finset.sum_comm (s := Finset.univ (α := F))]
  refine Finset.sum_le_sum fun j _ => ?_
  have key : ∀ V : Fin n → Fin K → Fin t → ℝ, ∀ f c, lambD (⟨s.Q, s.T, V, s.D⟩ : FSt F n m t K) f c j
      = ∑ p : Fin n × Fin K, s.T p.1 f p.2 * s.D f p.1 c * V p.1 p.2 j := by
    intro V f c
    simp only [lambD, recon, Finset.sum_mul, Fintype.sum_prod_type]
    exact Finset.sum_congr rfl fun k _ => Finset.sum_congr rfl fun b _ => by ring
  have := slice_le (gauss_isMM two_pos) (fun (i : F × Fin m) (p : Fin n × Fin K) => s.T p.1 i.1 p.2 * s.D i.1 p.1 i.2)
    (fun i p => (mul_pos (hs.2.1 p.1 i.1 p.2) (hs.2.2.2 i.1 p.1 i.2)).le) (fun p => s.V p.1 p.2 j)
    (fun p => (fastUpdateActivation floor X s).V p.1 p.2 j) (fun p => hs.2.2.1 p.1 p.2 j) (fun p => (hfl p.1 p.2 j).1)
    (fun i => ‖separate X s.Q i.1 i.2 j‖) (fun i => lambD s i.1 i.2 j) (fun i => norm_nonneg _)
    (fun i => key s.V i.1 i.2) (fun i => lambD_pos hs i.1 i.2 j)
    (fun p => by
      have e : ((∑ i : F × Fin m, s.T p.1 i.1 p.2 * s.D i.1 p.1 i.2
          * (gauss 2).num ‖separate X s.Q i.1 i.2 j‖ (lambD s i.1 i.2 j))
          / ∑ i : F × Fin m, s.T p.1 i.1 p.2 * s.D i.1 p.1 i.2 / lambD s i.1 i.2 j) ^ (gauss 2).expo
          * s.V p.1 p.2 j = fastActivationRaw X s p.1 p.2 j := by
        rw [expo2, mul_comm, fastActivationRaw]
        simp only [Fintype.sum_prod_type, num2, Finset.mul_sum, mul_assoc, mul_div_assoc]
      rw [e]
      exact (hfl p.1 p.2 j).2)
  simp only [Fintype.sum_prod_type] at this
  refine le_trans (le_of_eq ?_) this
  refine Finset.sum_congr rfl fun f _ => Finset.sum_congr rfl fun c _ => ?_
  congr 1
  rw [fastUpdateActivation, key, Fintype.sum_prod_type]

theorem fast_spatial_le [Nonempty (Fin K)] [Nonempty (Fin n)] (X : Spec F m t) (s : FSt F n m t K) (hs : FInv s)
    (hpos : ∀ f k c, 0 < (fastUpdateSpatial X s).D f k c) :
    fastLoss X (fastUpdateSpatial X s) ≤ fastLoss X s := by
  refine fastLoss_le rfl (Finset.sum_le_sum fun f _ => ?_)
  rw [Finset.sum_comm, Finset.sum_comm (s := Finset.univ (α := Fin t))]
  refine Finset.sum_le_sum fun c _ => ?_
  exact slice_le (gauss_isMM two_pos) (fun (j : Fin t) (k : Fin n) => recon s.T s.V k f j)
    (fun j k => (recon_pos hs.2.1 hs.2.2.1 k f j).le) (fun k => s.D f k c)
    (fun k => (fastUpdateSpatial X s).D f k c) (fun k => hs.2.2.2 f k c) (fun k => hpos f k c)
    (fun j => ‖separate X s.Q f c j‖) (fun j => lambD s f c j) (fun j => norm_nonneg _)
    (fun j => rfl) (fun j => lambD_pos hs f c j)
    (fun k => by
      left
      rw [expo2, fastUpdateSpatial]
      simp only [num2, div_pow]
      congr 4
      funext j
      ring)

theorem fast_diagonalizer_step [Nonempty (Fin K)] [Nonempty (Fin n)] (np : Numpy ℂ) (alg : FilterAlg m)
    (halg : alg.Valid) (floor : ℝ → ℝ) (X : Spec F m t) (hX : ∀ f, LinearIndependent ℂ (X f).row) (s : FSt F n m t K)
    (hs : FInv s) (hfl : spatialFilter np alg floor (fun f c j => 1 / lambD s f c j) X s.Q
      = spatialFilter np alg id (fun f c j => 1 / lambD s f c j) X s.Q) :
    ∃ s', fastUpdateDiagonalizer np alg floor X s = .ok s' ∧ FInv s' ∧ fastLoss X s' ≤ fastLoss X s := by
  obtain ⟨Q', h1, h2, h3⟩ := spatialFilter_weighted np alg halg (fun f c j => 1 / lambD s f c j)
    (fun f c j => one_div_pos.mpr (lambD_pos hs f c j)) X hX s.Q hs.1
  refine ⟨⟨Q', s.T, s.V, s.D⟩, ?_, ⟨h2, hs.2⟩, ?_⟩
  · rw [fastUpdateDiagonalizer, hfl, h1]
    rfl
  · refine Finset.sum_le_sum fun f _ => ?_
    have h := h3 f
    have e : ∀ Q : F → Mat m ℂ, meanT (fun j => ∑ c, (‖separate X Q f c j‖ ^ 2 / lambD s f c j
        + Real.log (lambD s f c j))) = Spatial.power (fun c j => 1 / lambD s f c j) (separate X Q f)
        + meanT (fun j => ∑ c, Real.log (lambD s f c j)) := by
      intro Q
      simp only [Spatial.power, meanT, Finset.sum_add_distrib]
      rw [add_div, ← Finset.sum_div, Finset.sum_comm]
      congr 2
      exact Finset.sum_congr rfl fun c _ => Finset.sum_congr rfl fun j _ => by ring
    have e1 := e Q'
    have e2 := e s.Q
    change meanT (fun j => ∑ c, (‖separate X Q' f c j‖ ^ 2 / lambD s f c j + Real.log (lambD s f c j)))
      - 2 * Real.log ‖(Q' f).det‖ ≤ _
    rw [e1, e2]
    linarith

/-- C42: normalisation leaves the loss unchanged. -/
theorem C42_normalise [Nonempty (Fin K)] [Nonempty (Fin n)] (floor : ℝ → ℝ) (X : Spec F m t) (ht : 0 < t)
    (s : FSt F n m t K) (hs : FInv s) (hψ : ∀ c, 0 < fastPsi floor X s c) :
    FInv (fastNormalize floor X s) ∧ fastLoss X (fastNormalize floor X s) = fastLoss X s := by
  set ψ := fastPsi floor X s with hψd
  have hQ : ∀ f, (fastNormalize floor X s).Q f = diagonal (fun c => ((ψ c : ℂ))⁻¹) * s.Q f := by
    intro f
    ext c a
    rw [diagonal_mul]
    simp only [fastNormalize, of_apply, ← hψd, div_eq_inv_mul]
  have hψc : ∀ c, (ψ c : ℂ) ≠ 0 := fun c => by exact_mod_cast (hψ c).ne'
  have hsep : ∀ f c j, separate X (fastNormalize floor X s).Q f c j = ((ψ c : ℂ))⁻¹ * separate X s.Q f c j := by
    intro f c j
    rw [separate, hQ, Matrix.mul_assoc, diagonal_mul]
    rfl
  have hL : ∀ f c j, lambD (fastNormalize floor X s) f c j = lambD s f c j / ψ c ^ 2 := by
    intro f c j
    simp only [lambD, Finset.sum_div]
    exact Finset.sum_congr rfl fun k _ => by rw [mul_div_assoc]; rfl
  refine ⟨⟨fun f => ?_, hs.2.1, hs.2.2.1, fun f k c => div_pos (hs.2.2.2 f k c) (pow_pos (hψ c) 2)⟩, ?_⟩
  · rw [hQ, det_mul, det_diagonal]
    exact (isUnit_iff_ne_zero.mpr (Finset.prod_ne_zero_iff.mpr fun c _ => inv_ne_zero (hψc c))).mul (hs.1 f)
  · refine Finset.sum_congr rfl fun f _ => ?_
    have h1 : ∀ c j, ‖separate X (fastNormalize floor X s).Q f c j‖ ^ 2 / lambD (fastNormalize floor X s) f c j
        + Real.log (lambD (fastNormalize floor X s) f c j)
        = (‖separate X s.Q f c j‖ ^ 2 / lambD s f c j + Real.log (lambD s f c j)) - 2 * Real.log (ψ c) := by
      intro c j
      have hp := (hψ c).ne'
      rw [hsep, hL, Real.log_div (lambD_pos hs f c j).ne' (pow_ne_zero 2 hp), Real.log_pow, norm_mul, norm_inv,
        Complex.norm_real, Real.norm_of_nonneg (hψ c).le]
      have := (lambD_pos hs f c j).ne'
      push_cast
      field_simp
      ring
    have h2 : Real.log ‖((fastNormalize floor X s).Q f).det‖
        = -∑ c, Real.log (ψ c) + Real.log ‖(s.Q f).det‖ := by
      rw [hQ, det_mul, det_diagonal, norm_mul, norm_prod, Real.log_mul
        (Finset.prod_ne_zero_iff.mpr fun c _ => norm_ne_zero_iff.mpr (inv_ne_zero (hψc c)))
        (norm_ne_zero_iff.mpr (hs.1 f).ne_zero),
        Real.log_prod fun c _ => norm_ne_zero_iff.mpr (inv_ne_zero (hψc c)), ← Finset.sum_neg_distrib]
      congr 1
      refine Finset.sum_congr rfl fun c _ => ?_
      rw [norm_inv, Complex.norm_real, Real.norm_of_nonneg (hψ c).le, Real.log_inv]
    rw [h2]
    simp only [h1, meanT, Finset.sum_sub_distrib, Finset.sum_const, Finset.card_univ, Fintype.card_fin, nsmul_eq_mul]
    have : (t : ℝ) ≠ 0 := by exact_mod_cast ht.ne'
    rw [← Finset.mul_sum]
    change (_ - (t : ℝ) * _) / (t : ℝ) - _ = _ / (t : ℝ) - _
    field_simp
    ring

/-- Regularity of one update: the flooring of basis and activation is mild, flooring does not change the diagonaliser
update, the spatial parameters do not vanish and neither do the normalisation scales. -/
structure FReg (np : Numpy ℂ) (alg : FilterAlg m) (normalization : Bool) (floor : ℝ → ℝ) (X : Spec F m t)
    (s : FSt F n m t K) : Prop where
  basis : ∀ k f b, FloorMild floor (s.T k f b) (fastBasisRaw X s k f b)
  activation : ∀ k b j, FloorMild floor (s.V k b j) (fastActivationRaw X (fastUpdateBasis floor X s) k b j)
  diagonalizer : ∀ s1, s1 = fastUpdateActivation floor X (fastUpdateBasis floor X s) →
    spatialFilter np alg floor (fun f c j => 1 / lambD s1 f c j) X s1.Q
      = spatialFilter np alg id (fun f c j => 1 / lambD s1 f c j) X s1.Q
  spatial : ∀ s1, fastUpdateDiagonalizer np alg floor X (fastUpdateActivation floor X (fastUpdateBasis floor X s))
    = .ok s1 → (∀ f k c, 0 < (fastUpdateSpatial X s1).D f k c) ∧
      (normalization = true → ∀ c, 0 < fastPsi floor X (fastUpdateSpatial X s1) c)

theorem fast_step [Nonempty (Fin K)] [Nonempty (Fin n)] (np : Numpy ℂ) (alg : FilterAlg m)
    (halg : alg.Valid) (normalization : Bool) (floor : ℝ → ℝ) (X : Spec F m t) (ht : 0 < t)
    (hX : ∀ f, LinearIndependent ℂ (X f).row) (s : FSt F n m t K) (hs : FInv s)
    (hr : FReg np alg normalization floor X s) :
    ∃ s', fastUpdateOnce np alg normalization floor X s = .ok s' ∧ FInv s' ∧ fastLoss X s' ≤ fastLoss X s := by
  have hs1 : FInv (fastUpdateBasis floor X s) := ⟨hs.1, fun k f b => (hr.basis k f b).1, hs.2.2⟩
  have hs2 : FInv (fastUpdateActivation floor X (fastUpdateBasis floor X s)) :=
    ⟨hs.1, hs1.2.1, fun k b j => (hr.activation k b j).1, hs.2.2.2⟩
  have l1 := fast_basis_le floor X s hs hr.basis
  have l2 := fast_activation_le floor X _ hs1 hr.activation
  obtain ⟨s3, e3, hs3, l3⟩ := fast_diagonalizer_step np alg halg floor X hX _ hs2 (hr.diagonalizer _ rfl)
  obtain ⟨hp, hψ⟩ := hr.spatial s3 e3
  have hs4 : FInv (fastUpdateSpatial X s3) := ⟨hs3.1, hs3.2.1, hs3.2.2.1, hp⟩
  have l4 := fast_spatial_le X s3 hs3 hp
  cases normalization with
  | false =>
    refine ⟨fastUpdateSpatial X s3, ?_, hs4, l4.trans (l3.trans (l2.trans l1))⟩
    rw [fastUpdateOnce, e3]
    rfl
  | true =>
    obtain ⟨hs5, l5⟩ := C42_normalise floor X ht _ hs4 (hψ rfl)
    refine ⟨fastNormalize floor X (fastUpdateSpatial X s3), ?_, hs5, l5.trans_le (l4.trans (l3.trans (l2.trans l1)))⟩
    rw [fastUpdateOnce, e3]
    rfl

/-- C42: the losses recorded by `FastGaussMNMF` never increase, for any number of sources, channels, bins, frames,
bases and iterations, IP1 or IP2, with and without normalisation. -/
theorem C42_fast_mnmf [Nonempty (Fin K)] [Nonempty (Fin n)] (np : Numpy ℂ) (alg : FilterAlg m)
    (halg : alg.Valid) (normalization : Bool) (floor : ℝ → ℝ) (X : Spec F m t) (ht : 0 < t)
    (hX : ∀ f, LinearIndependent ℂ (X f).row) (s : FSt F n m t K) (hs : FInv s) (n_iter : ℕ)
    (hreg : RegularRun (fastUpdateOnce np alg normalization floor X) (FReg np alg normalization floor X) n_iter s) :
    ∃ ls, lossList (fastUpdateOnce np alg normalization floor X) (fun s => .ok (fastLoss X s)) n_iter s = .ok ls ∧
      ls.length = n_iter + 1 ∧ ls.Pairwise (· ≥ ·) := by
  obtain ⟨ls, h1, h2, h3, -⟩ := lossList_antitone (fastUpdateOnce np alg normalization floor X)
    (fun s => .ok (fastLoss X s)) FInv (FReg np alg normalization floor X) (fastLoss X) (fun _ _ => rfl)
    (fun s hs hr => fast_step np alg halg normalization floor X ht hX s hs hr) n_iter s hs hreg
  exact ⟨ls, h1, h2, h3⟩

/-- Two sources, one channel, one bin, two frames, never silent: every run is regular. -/
example (np : Numpy ℂ) (x : Matrix (Fin 1) (Fin 2) ℂ) (hx : ∀ s, x 0 s ≠ 0) (n_iter : ℕ) :
    ∃ ls, lossList (fastUpdateOnce np .ip1 true id fun _ : Unit => x) (fun s => .ok (fastLoss (fun _ => x) s)) n_iter
      (⟨fun _ => 1, fun _ _ _ => 1, fun _ _ _ => 1, fun _ k _ => k + 1⟩ : FSt Unit 2 1 2 1) = .ok ls ∧
      ls.length = n_iter + 1 ∧ ls.Pairwise (· ≥ ·) := by
  have hx' : ∀ _ : Unit, LinearIndependent ℂ x.row := by
    intro _
    rw [Fintype.linearIndependent_iff]
    intro g hg i
    have := congrFun hg 0
    simpa [Subsingleton.elim i 0, hx 0] using this
  have hs0 : FInv (⟨fun _ => 1, fun _ _ _ => 1, fun _ _ _ => 1, fun _ k _ => k + 1⟩ : FSt Unit 2 1 2 1) :=
    ⟨fun _ => by simp, fun _ _ _ => one_pos, fun _ _ _ => one_pos, fun _ k _ => by positivity⟩
  have hy : ∀ s : FSt Unit 2 1 2 1, FInv s → ∀ f c j, 0 < ‖separate (fun _ => x) s.Q f c j‖ := by
    intro s hs f c j
    have h0 := (hs.1 f).ne_zero
    rw [det_fin_one] at h0
    refine norm_pos_iff.mpr ?_
    simpa [separate, mul_apply, Subsingleton.elim c 0] using And.intro h0 (hx j)
  have hReg : ∀ s : FSt Unit 2 1 2 1, FInv s → FReg np .ip1 true id (fun _ : Unit => x) s := by
    intro s hs
    have hB : ∀ (s : FSt Unit 2 1 2 1), FInv s → ∀ k f b, 0 < fastBasisRaw (fun _ => x) s k f b := by
      intro s hs k f b
      have hL := lambD_pos hs
      refine mul_pos (hs.2.1 k f b) (Real.sqrt_pos.mpr (div_pos ?_ ?_))
      · exact Finset.sum_pos (fun j _ => mul_pos (hs.2.2.1 k b j) (Finset.sum_pos (fun c _ => mul_pos (hs.2.2.2 f k c)
          (pow_pos (div_pos (hy s hs f c j) (hL f c j)) 2)) Finset.univ_nonempty)) Finset.univ_nonempty
      · exact Finset.sum_pos (fun j _ => mul_pos (hs.2.2.1 k b j) (Finset.sum_pos (fun c _ => div_pos (hs.2.2.2 f k c)
          (hL f c j)) Finset.univ_nonempty)) Finset.univ_nonempty
    have hA : ∀ (s : FSt Unit 2 1 2 1), FInv s → ∀ k b j, 0 < fastActivationRaw (fun _ => x) s k b j := by
      intro s hs k b j
      have hL := lambD_pos hs
      refine mul_pos (hs.2.2.1 k b j) (Real.sqrt_pos.mpr (div_pos ?_ ?_))
      · exact Finset.sum_pos (fun f _ => mul_pos (hs.2.1 k f b) (Finset.sum_pos (fun c _ => mul_pos (hs.2.2.2 f k c)
          (pow_pos (div_pos (hy s hs f c j) (hL f c j)) 2)) Finset.univ_nonempty)) Finset.univ_nonempty
      · exact Finset.sum_pos (fun f _ => mul_pos (hs.2.1 k f b) (Finset.sum_pos (fun c _ => div_pos (hs.2.2.2 f k c)
          (hL f c j)) Finset.univ_nonempty)) Finset.univ_nonempty
    have hD : ∀ (s : FSt Unit 2 1 2 1), FInv s → ∀ f k c, 0 < (fastUpdateSpatial (fun _ => x) s).D f k c := by
      intro s hs f k c
      have hL := lambD_pos hs
      refine mul_pos (Real.sqrt_pos.mpr (div_pos ?_ ?_)) (hs.2.2.2 f k c)
      · exact Finset.sum_pos (fun j _ => mul_pos (div_pos (recon_pos hs.2.1 hs.2.2.1 k f j) (pow_pos (hL f c j) 2))
          (pow_pos (hy s hs f c j) 2)) Finset.univ_nonempty
      · exact Finset.sum_pos (fun j _ => div_pos (recon_pos hs.2.1 hs.2.2.1 k f j) (hL f c j)) Finset.univ_nonempty
    have hs1 : FInv (fastUpdateBasis id (fun _ => x) s) := ⟨hs.1, hB s hs, hs.2.2⟩
    have hs2 : FInv (fastUpdateActivation id (fun _ => x) (fastUpdateBasis id (fun _ => x) s)) :=
      ⟨hs.1, hs1.2.1, hA _ hs1, hs.2.2.2⟩
    refine ⟨fun k f b => FloorMild.of_id (hB s hs k f b), fun k b j => FloorMild.of_id (hA _ hs1 k b j),
      fun _ _ => rfl, fun s3 h => ?_⟩
    obtain ⟨s3', e3, hs3, -⟩ := fast_diagonalizer_step np .ip1 trivial id (fun _ : Unit => x) hx' _ hs2 rfl
    rw [h] at e3
    cases e3
    refine ⟨hD s3 hs3, fun _ c => Real.sqrt_pos.mpr (div_pos ?_ (by simp))⟩
    exact Finset.sum_pos (fun f _ => Finset.sum_pos (fun j _ =>
      pow_pos (hy (fastUpdateSpatial (fun _ => x) s3) ⟨hs3.1, hs3.2.1, hs3.2.2.1, hD s3 hs3⟩ f c j) 2)
      Finset.univ_nonempty) Finset.univ_nonempty
  refine C42_fast_mnmf np .ip1 trivial true id (fun _ => x) two_pos hx' _ hs0 n_iter ?_
  refine regularRun_of_inv FInv hReg (fun s s' hs h => ?_) _ _ hs0
  obtain ⟨s'', e1, e2, -⟩ := fast_step np .ip1 trivial true id (fun _ : Unit => x) two_pos hx' s hs (hReg s hs)
  rw [h] at e1
  cases e1
  exact e2

end Verif.Mnmf
