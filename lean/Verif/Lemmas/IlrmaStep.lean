import Verif.Lemmas.Ilrma

/-! # The parts of one ILRMA update -/

set_option linter.unusedSectionVars false

namespace Verif.Ilrma

open Matrix Spatial Scale Mult Iva

variable {F : Type} [Fintype F] {n t K : ℕ}

theorem lossOf_eq (src : Source) (Y : Spec F n t) (R : Fin n → F → Fin t → ℝ) (W : F → Mat n ℂ) :
    lossOf src Y R W = (∑ f, ∑ k, ∑ s, src.ell ‖Y f k s‖ (R k f s)) / t - 2 * ∑ f, Real.log ‖(W f).det‖ := by
  simp only [lossOf, meanT, Finset.sum_sub_distrib, Finset.sum_div, Finset.mul_sum]

theorem lossOf_le {src : Source} {Y Y' : Spec F n t} {R R' : Fin n → F → Fin t → ℝ} (W : F → Mat n ℂ)
    (h : ∑ f, ∑ k, ∑ s, src.ell ‖Y' f k s‖ (R' k f s) ≤ ∑ f, ∑ k, ∑ s, src.ell ‖Y f k s‖ (R k f s)) :
    lossOf src Y' R' W ≤ lossOf src Y R W := by
  rw [lossOf_eq, lossOf_eq]
  exact sub_le_sub_right (div_le_div_of_nonneg_right h (by positivity)) _

theorem recon_pos [Nonempty (Fin K)] {T : Fin n → F → Fin K → ℝ} {V : Fin n → Fin K → Fin t → ℝ}
    (hT : ∀ k f b, 0 < T k f b) (hV : ∀ k b s, 0 < V k b s) (k : Fin n) (f : F) (s : Fin t) : 0 < recon T V k f s :=
  Finset.sum_pos (fun b _ => mul_pos (hT k f b) (hV k b s)) Finset.univ_nonempty

theorem reconP_pos [Nonempty (Fin K)] {Z : Fin n → Fin K → ℝ} {T : F → Fin K → ℝ} {V : Fin K → Fin t → ℝ}
    (hZ : ∀ k b, 0 < Z k b) (hT : ∀ f b, 0 < T f b) (hV : ∀ b s, 0 < V b s) (k : Fin n) (f : F) (s : Fin t) :
    0 < reconP Z T V k f s :=
  Finset.sum_pos (fun b _ => mul_pos (hZ k b) (mul_pos (hT f b) (hV b s))) Finset.univ_nonempty

/-- `update_basis_mm`. -/
theorem basis_le [Nonempty (Fin K)] {src : Source} {q κ : ℝ} {w : ℝ → ℝ → ℝ} (h : IsMM src q κ w) (floor : ℝ → ℝ)
    (Y : Spec F n t) (T : Fin n → F → Fin K → ℝ) (V : Fin n → Fin K → Fin t → ℝ) (W : F → Mat n ℂ)
    (hT : ∀ k f b, 0 < T k f b) (hV : ∀ k b s, 0 < V k b s)
    (hfl : ∀ k f b, FloorMild floor (T k f b) (basisRaw src Y T V k f b)) :
    lossOf src Y (recon (updateBasis src floor Y T V) V) W ≤ lossOf src Y (recon T V) W := by
  refine lossOf_le W (Finset.sum_le_sum fun f _ => Finset.sum_le_sum fun k _ => ?_)
  have := slice_le h (fun s b => V k b s) (fun s b => (hV k b s).le) (fun b => T k f b)
    (fun b => updateBasis src floor Y T V k f b) (fun b => hT k f b) (fun b => (hfl k f b).1)
    (fun s => ‖Y f k s‖) (fun s => recon T V k f s) (fun s => norm_nonneg _)
    (fun s => Finset.sum_congr rfl fun b _ => mul_comm _ _) (fun s => recon_pos hT hV k f s)
    (fun b => (hfl k f b).2)
  refine le_trans (le_of_eq ?_) this
  refine Finset.sum_congr rfl fun s _ => ?_
  congr 1
  exact Finset.sum_congr rfl fun b _ => mul_comm _ _

/-- `update_activation_mm`. -/
theorem activation_le [Nonempty (Fin K)] {src : Source} {q κ : ℝ} {w : ℝ → ℝ → ℝ} (h : IsMM src q κ w)
    (floor : ℝ → ℝ) (Y : Spec F n t) (T : Fin n → F → Fin K → ℝ) (V : Fin n → Fin K → Fin t → ℝ) (W : F → Mat n ℂ)
    (hT : ∀ k f b, 0 < T k f b) (hV : ∀ k b s, 0 < V k b s)
    (hfl : ∀ k b s, FloorMild floor (V k b s) (activationRaw src Y T V k b s)) :
    lossOf src Y (recon T (updateActivation src floor Y T V)) W ≤ lossOf src Y (recon T V) W := by
  have swap : ∀ g : F → Fin n → Fin t → ℝ, ∑ f, ∑ k, ∑ s, g f k s = ∑ k, ∑ s, ∑ f, g f k s := by
    intro g
    rw [Finset.sum_comm]
    exact Finset.sum_congr rfl fun k _ => Finset.sum_comm
  refine lossOf_le W ?_
  rw [swap, swap]
  refine Finset.sum_le_sum fun k _ => Finset.sum_le_sum fun s _ => ?_
  exact slice_le h (fun f b => T k f b) (fun f b => (hT k f b).le) (fun b => V k b s)
    (fun b => updateActivation src floor Y T V k b s) (fun b => hV k b s) (fun b => (hfl k b s).1)
    (fun f => ‖Y f k s‖) (fun f => recon T V k f s) (fun f => norm_nonneg _)
    (fun f => rfl) (fun f => recon_pos hT hV k f s) (fun b => (hfl k b s).2)

/-- `update_latent_mm` before the last line. -/
theorem latentRaw_le [Nonempty (Fin K)] {src : Source} {q κ : ℝ} {w : ℝ → ℝ → ℝ} (h : IsMM src q κ w)
    (Y : Spec F n t) (Z : Fin n → Fin K → ℝ) (T : F → Fin K → ℝ) (V : Fin K → Fin t → ℝ) (W : F → Mat n ℂ)
    (hZ : ∀ k b, 0 < Z k b) (hT : ∀ f b, 0 < T f b) (hV : ∀ b s, 0 < V b s)
    (hpos : ∀ k b, 0 < latentRaw src Y Z T V k b) :
    lossOf src Y (reconP (latentRaw src Y Z T V) T V) W ≤ lossOf src Y (reconP Z T V) W := by
  refine lossOf_le W ?_
  rw [Finset.sum_comm, Finset.sum_comm (s := Finset.univ (α := F))]
  refine Finset.sum_le_sum fun k _ => ?_
  have := slice_le h (fun (i : F × Fin t) b => T i.1 b * V b i.2) (fun i b => (mul_pos (hT i.1 b) (hV b i.2)).le)
    (fun b => Z k b) (fun b => latentRaw src Y Z T V k b) (fun b => hZ k b) (fun b => hpos k b)
    (fun i => ‖Y i.1 k i.2‖) (fun i => reconP Z T V k i.1 i.2) (fun i => norm_nonneg _)
    (fun i => Finset.sum_congr rfl fun b _ => mul_comm _ _) (fun i => reconP_pos hZ hT hV k i.1 i.2)
    (fun b => .inl (by simp only [Fintype.sum_prod_type, latentRaw]))
  simp only [Fintype.sum_prod_type] at this
  refine le_trans (le_of_eq ?_) this
  refine Finset.sum_congr rfl fun f _ => Finset.sum_congr rfl fun s _ => ?_
  congr 1
  exact Finset.sum_congr rfl fun b _ => mul_comm _ _

/-- `update_basis_mm` with partitioning. -/
theorem basisP_le [Nonempty (Fin K)] {src : Source} {q κ : ℝ} {w : ℝ → ℝ → ℝ} (h : IsMM src q κ w) (floor : ℝ → ℝ)
    (Y : Spec F n t) (Z : Fin n → Fin K → ℝ) (T : F → Fin K → ℝ) (V : Fin K → Fin t → ℝ) (W : F → Mat n ℂ)
    (hZ : ∀ k b, 0 < Z k b) (hT : ∀ f b, 0 < T f b) (hV : ∀ b s, 0 < V b s)
    (hfl : ∀ f b, FloorMild floor (T f b) (basisRawP src Y Z T V f b)) :
    lossOf src Y (reconP Z (updateBasisP src floor Y Z T V) V) W ≤ lossOf src Y (reconP Z T V) W := by
  refine lossOf_le W (Finset.sum_le_sum fun f _ => ?_)
  have := slice_le h (fun (i : Fin n × Fin t) b => Z i.1 b * V b i.2)
    (fun i b => (mul_pos (hZ i.1 b) (hV b i.2)).le) (fun b => T f b)
    (fun b => updateBasisP src floor Y Z T V f b) (fun b => hT f b) (fun b => (hfl f b).1)
    (fun i => ‖Y f i.1 i.2‖) (fun i => reconP Z T V i.1 f i.2) (fun i => norm_nonneg _)
    (fun i => Finset.sum_congr rfl fun b _ => by ring) (fun i => reconP_pos hZ hT hV i.1 f i.2)
    (fun b => by
      have := (hfl f b).2
      simp only [Fintype.sum_prod_type]
      exact this)
  simp only [Fintype.sum_prod_type] at this
  refine le_trans (le_of_eq ?_) this
  refine Finset.sum_congr rfl fun k _ => Finset.sum_congr rfl fun s _ => ?_
  congr 1
  exact Finset.sum_congr rfl fun b _ => by ring

/-- `update_activation_mm` with partitioning. -/
theorem activationP_le [Nonempty (Fin K)] {src : Source} {q κ : ℝ} {w : ℝ → ℝ → ℝ} (h : IsMM src q κ w)
    (floor : ℝ → ℝ) (Y : Spec F n t) (Z : Fin n → Fin K → ℝ) (T : F → Fin K → ℝ) (V : Fin K → Fin t → ℝ)
    (W : F → Mat n ℂ) (hZ : ∀ k b, 0 < Z k b) (hT : ∀ f b, 0 < T f b) (hV : ∀ b s, 0 < V b s)
    (hfl : ∀ b s, FloorMild floor (V b s) (activationRawP src Y Z T V b s)) :
    lossOf src Y (reconP Z T (updateActivationP src floor Y Z T V)) W ≤ lossOf src Y (reconP Z T V) W := by
  have swap : ∀ g : F → Fin n → Fin t → ℝ, ∑ f, ∑ k, ∑ s, g f k s = ∑ s, ∑ k, ∑ f, g f k s := by
    intro g
    rw [Finset.sum_comm, Finset.sum_comm (s := Finset.univ (α := Fin t))]
    exact Finset.sum_congr rfl fun k _ => Finset.sum_comm
  refine lossOf_le W ?_
  rw [swap, swap]
  refine Finset.sum_le_sum fun s _ => ?_
  have := slice_le h (fun (i : Fin n × F) b => Z i.1 b * T i.2 b)
    (fun i b => (mul_pos (hZ i.1 b) (hT i.2 b)).le) (fun b => V b s)
    (fun b => updateActivationP src floor Y Z T V b s) (fun b => hV b s) (fun b => (hfl b s).1)
    (fun i => ‖Y i.2 i.1 s‖) (fun i => reconP Z T V i.1 i.2 s) (fun i => norm_nonneg _)
    (fun i => Finset.sum_congr rfl fun b _ => by ring) (fun i => reconP_pos hZ hT hV i.1 i.2 s)
    (fun b => by
      have := (hfl b s).2
      simp only [Fintype.sum_prod_type]
      exact this)
  simp only [Fintype.sum_prod_type] at this
  refine le_trans (le_of_eq ?_) this
  refine Finset.sum_congr rfl fun k _ => Finset.sum_congr rfl fun f _ => ?_
  congr 1
  exact Finset.sum_congr rfl fun b _ => by ring

/-! ## Spatial update -/

theorem spatial_mm {src : Source} {floor : ℝ → ℝ} (Y Y' : Spec F n t) (R : Fin n → F → Fin t → ℝ)
    (W W' : F → Mat n ℂ) (hok : ∀ f k s, SpatialOk src floor ‖Y f k s‖ (R k f s))
    (hdec : ∀ f, Spatial.power (varphi src floor Y R f) (Y' f) - 2 * Real.log ‖(W' f).det‖
      ≤ Spatial.power (varphi src floor Y R f) (Y f) - 2 * Real.log ‖(W f).det‖) :
    lossOf src Y' R W' ≤ lossOf src Y R W := by
  refine Finset.sum_le_sum fun f _ => ?_
  have h1 := hdec f
  have h2 : ∑ k, meanT (fun s => src.ell ‖Y' f k s‖ (R k f s))
      ≤ ∑ k, meanT (fun s => src.ell ‖Y f k s‖ (R k f s))
        + (Spatial.power (varphi src floor Y R f) (Y' f) - Spatial.power (varphi src floor Y R f) (Y f)) := by
    unfold Spatial.power
    rw [← Finset.sum_sub_distrib, ← Finset.sum_add_distrib]
    refine Finset.sum_le_sum fun k _ => ?_
    simp only [meanT]
    rw [← sub_div, ← add_div, ← Finset.sum_sub_distrib, ← Finset.sum_add_distrib]
    refine div_le_div_of_nonneg_right (Finset.sum_le_sum fun s _ => ?_) (by positivity)
    have := (hok f k s).2 _ (norm_nonneg (Y' f k s))
    rw [varphi]
    linarith
  linarith

/-- The pairs of the algorithm consist of different sources. -/
def FilterAlg.Valid : FilterAlg n → Prop
  | .ip1 => True
  | .ip2 pairs => ∀ p ∈ pairs, p.1 ≠ p.2

def SignalAlg.Valid : SignalAlg n → Prop
  | .iss1 => True
  | .iss2 pairs => ∀ p ∈ pairs, p.1 ≠ p.2

theorem spatialFilter_weighted (np : Numpy ℂ) (alg : FilterAlg n) (halg : alg.Valid)
    (phi : F → Fin n → Fin t → ℝ) (hphi : ∀ f k s, 0 < phi f k s) (X : Spec F n t)
    (hX : ∀ f, LinearIndependent ℂ (X f).row) (W : F → Mat n ℂ) (hW : ∀ f, IsUnit (W f).det) :
    ∃ W', spatialFilter np alg id phi X W = .ok W' ∧ (∀ f, IsUnit (W' f).det) ∧
      ∀ f, Spatial.power (phi f) (separate X W' f) - 2 * Real.log ‖(W' f).det‖
        ≤ Spatial.power (phi f) (separate X W f) - 2 * Real.log ‖(W f).det‖ := by
  cases alg with
  | ip1 => exact ip1Stack_weighted phi hphi X hX W hW
  | ip2 pairs =>
    have h := fun f => C32_sweep np id pairs halg (wcov (phi f) X f)
      (fun k => wcov_posDef (hphi f) hX f k) (W f) (hW f) rfl
    choose W' h1 h2 h3 using h
    refine ⟨W', foldlM_onBins (fun f => ip2Pair np id (wcov (phi f) X f)) pairs W W' h1, h2, fun f => ?_⟩
    have := h3 f
    rwa [ipLoss_wcov, ipLoss_wcov] at this

theorem spatialSignal_weighted (np : Numpy ℂ) (alg : SignalAlg n) (halg : alg.Valid)
    (phi : F → Fin n → Fin t → ℝ) (hphi : ∀ f k s, 0 < phi f k s) (X : Spec F n t)
    (hX : ∀ f, LinearIndependent ℂ (X f).row) (W : F → Mat n ℂ) (hW : ∀ f, IsUnit (W f).det) :
    ∃ W', spatialSignal np alg id phi (separate X W) = .ok (separate X W') ∧ (∀ f, IsUnit (W' f).det) ∧
      ∀ f, Spatial.power (phi f) (separate X W' f) - 2 * Real.log ‖(W' f).det‖
        ≤ Spatial.power (phi f) (separate X W f) - 2 * Real.log ‖(W f).det‖ := by
  cases alg with
  | iss1 =>
    obtain ⟨W', h1, h2, h3⟩ := iss1_weighted phi hphi X hX W hW
    exact ⟨W', by rw [spatialSignal, h1], h2, h3⟩
  | iss2 pairs => exact iss2_weighted np pairs halg phi hphi X hX W hW

/-- The filter estimated from the signals is the filter that produced them. -/
theorem filterOf_eq (X : Spec F n t) (hX : ∀ f, LinearIndependent ℂ (X f).row) (W : F → Mat n ℂ) :
    filterOf X (separate X W) = .ok W := by
  have hu : ∀ f, IsUnit (X f * (X f)ᴴ).det := gram_isUnit X hX
  rw [filterOf, npInvB, if_pos hu]
  simp only [bind, Except.bind]
  congr 1
  funext f
  rw [separate, Matrix.mul_assoc (W f), Matrix.mul_assoc (W f), mul_nonsing_inv _ (hu f), Matrix.mul_one]

/-! ## Normalisation -/

/-- Scaling source `k` of bin `f` by `c f k`, with the model scaled accordingly, does not change the loss. -/
theorem lossOf_scale {src : Source} {p : ℝ} (h : ScaleInv src p) (Y Y' : Spec F n t)
    (R R' : Fin n → F → Fin t → ℝ) (W W' : F → Mat n ℂ) (c : F → Fin n → ℂ) (hc : ∀ f k, c f k ≠ 0)
    (ht : 0 < t) (hR : ∀ k f s, 0 < R k f s) (hY' : ∀ f k s, Y' f k s = c f k * Y f k s)
    (hR' : ∀ k f s, R' k f s = R k f s * ‖c f k‖ ^ p) (hW' : ∀ f, W' f = diagonal (c f) * W f)
    (hW : ∀ f, IsUnit (W f).det) :
    lossOf src Y' R' W' = lossOf src Y R W := by
  refine Finset.sum_congr rfl fun f _ => ?_
  have h1 : ∀ k, meanT (fun s => src.ell ‖Y' f k s‖ (R' k f s))
      = meanT (fun s => src.ell ‖Y f k s‖ (R k f s)) + 2 * Real.log ‖c f k‖ := by
    intro k
    have : ∀ s, src.ell ‖Y' f k s‖ (R' k f s) = src.ell ‖Y f k s‖ (R k f s) + 2 * Real.log ‖c f k‖ := by
      intro s
      rw [hY', hR', norm_mul, mul_comm ‖c f k‖ ‖Y f k s‖]
      exact h _ _ _ (norm_nonneg _) (hR k f s) (norm_pos_iff.mpr (hc f k))
    simp only [meanT, this, Finset.sum_add_distrib, Finset.sum_const, Finset.card_univ, Fintype.card_fin,
      nsmul_eq_mul]
    have : (t : ℝ) ≠ 0 := by exact_mod_cast ht.ne'
    field_simp
  have h2 : Real.log ‖(W' f).det‖ = ∑ k, Real.log ‖c f k‖ + Real.log ‖(W f).det‖ := by
    rw [hW', det_mul, det_diagonal, norm_mul, norm_prod,
      Real.log_mul (Finset.prod_ne_zero_iff.mpr fun k _ => norm_ne_zero_iff.mpr (hc f k))
        (norm_ne_zero_iff.mpr (hW f).ne_zero),
      Real.log_prod fun k _ => norm_ne_zero_iff.mpr (hc f k)]
  rw [h2]
  simp only [h1, Finset.sum_add_distrib, ← Finset.mul_sum]
  ring

end Verif.Ilrma
