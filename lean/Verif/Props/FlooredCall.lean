import Verif.Props.MnmfCall
import Verif.Props.IlrmaIpa
import Verif.Model.IvaCall
import Verif.Props.FdicaCall

/-!
# C88: ILRMA, AuxIVA and AuxFDICA calls with a positive flooring function
-/

namespace Verif.FlooredCall

open Matrix Scale Spatial Ilrma Lifecycle IlrmaCall
open MnmfCall (Attr.Has attrOr_has baseCall_inv)

variable {F : Type} [Fintype F] {n t K : ℕ}

/-! ## The source models -/

theorem rTilde_pos {p nu y r : ℝ} (hnu : 0 < nu) (hr : 0 < r) : 0 < rTilde p nu y r := by
  have h1 : 0 < nu / (nu + 2) := by positivity
  have h2 : nu / (nu + 2) < 1 := by rw [div_lt_one (by linarith)]; linarith
  exact add_pos_of_pos_of_nonneg (mul_pos h1 (Real.rpow_pos_of_pos hr _)) (mul_nonneg (by linarith) (sq_nonneg _))

theorem phi_pos {src : Source} (h : Standard src) {floor : ℝ → ℝ} (hf : ∀ x, 0 ≤ x → 0 < floor x) {y r : ℝ} (hy : 0 ≤ y)
    (hr : 0 < r) : 0 < src.phi floor y r := by
  cases h with
  | gauss hp => exact one_div_pos.mpr (Real.rpow_pos_of_pos hr _)
  | gaussME => exact one_div_pos.mpr (Real.rpow_pos_of_pos hr _)
  | student hp hnu => exact one_div_pos.mpr (rTilde_pos hnu hr)
  | studentME hnu => exact one_div_pos.mpr (rTilde_pos hnu hr)
  | ggd hp hb hb2 =>
    exact one_div_pos.mpr (mul_pos (mul_pos (by positivity) (hf _ (Real.rpow_nonneg hy _))) (Real.rpow_pos_of_pos hr _))

theorem num_spec {src : Source} (h : Standard src) {y r : ℝ} (hy : 0 ≤ y) (hr : 0 < r) :
    0 ≤ src.num y r ∧ (0 < y → 0 < src.num y r) := by
  have key : ∀ a b : ℝ, 0 ≤ a → (0 < y → 0 < a) → 0 < b → 0 ≤ a / b ∧ (0 < y → 0 < a / b) :=
    fun a b ha ha' hb => ⟨div_nonneg ha hb.le, fun h => div_pos (ha' h) hb⟩
  have hsq : 0 < y → 0 < y ^ 2 := fun h => pow_pos h 2
  cases h with
  | gauss hp => exact key _ _ (sq_nonneg _) hsq (Real.rpow_pos_of_pos hr _)
  | gaussME => exact key _ _ (sq_nonneg _) hsq (pow_pos hr 2)
  | student hp hnu => exact key _ _ (sq_nonneg _) hsq (mul_pos (rTilde_pos hnu hr) hr)
  | @studentME nu hnu =>
    refine key _ _ (sq_nonneg _) hsq (mul_pos ?_ hr)
    have := rTilde_pos (p := 2) (y := y) hnu hr
    rwa [rTilde, show (2 : ℝ) / 2 = 1 by norm_num, Real.rpow_one] at this
  | @ggd p beta hp hb hb2 =>
    obtain ⟨h1, h2⟩ := key (y ^ beta) (r ^ ((beta + p) / p)) (Real.rpow_nonneg hy _) (fun h => Real.rpow_pos_of_pos h _)
      (Real.rpow_pos_of_pos hr _)
    exact ⟨mul_nonneg (by positivity) h1, fun h => mul_pos (by positivity) (h2 h)⟩

/-! ## The updates -/

section

variable {np : Numpy ℂ} {src : Source} {p : ℝ} {floor : ℝ → ℝ} {X : Spec F n t}

theorem psi_pos (hf : ∀ x, 0 ≤ x → 0 < floor x) (Y : Spec F n t) (k : Fin n) : 0 < psi floor Y k := hf _ (Real.sqrt_nonneg _)

theorem divRows_isUnit {ψ : Fin n → ℝ} (hψ : ∀ k, 0 < ψ k) {W : F → Mat n ℂ} (hW : ∀ f, IsUnit (W f).det) (f : F) :
    IsUnit (divRows ψ W f).det := by
  rw [divRows_eq, det_mul, det_diagonal]
  refine (isUnit_iff_ne_zero.mpr (Finset.prod_ne_zero_iff.mpr fun k _ => inv_ne_zero ?_)).mul (hW f)
  exact_mod_cast (hψ k).ne'

theorem updateSource_pos (hsrc : Standard src) (hf : ∀ x, 0 ≤ x → 0 < floor x) (Y : Spec F n t)
    {T : Fin n → F → Fin K → ℝ} {V : Fin n → Fin K → Fin t → ℝ} (hT : ∀ k f b, 0 < T k f b) (hV : ∀ k b j, 0 < V k b j) :
    (∀ k f b, 0 < updateBasis src floor Y T V k f b) ∧ ∀ k b j, 0 < updateActivation src floor Y T V k b j := by
  refine ⟨fun k f b => hf _ ?_, fun k b j => hf _ ?_⟩
  · have : Nonempty (Fin K) := ⟨b⟩
    refine mul_nonneg (Real.rpow_nonneg (div_nonneg (Finset.sum_nonneg fun j _ => ?_) (Finset.sum_nonneg fun j _ => ?_)) _)
      (hT k f b).le
    · exact mul_nonneg (hV k b j).le (num_spec hsrc (norm_nonneg _) (recon_pos hT hV k f j)).1
    · exact div_nonneg (hV k b j).le (recon_pos hT hV k f j).le
  · have : Nonempty (Fin K) := ⟨b⟩
    refine mul_nonneg (Real.rpow_nonneg (div_nonneg (Finset.sum_nonneg fun f _ => ?_) (Finset.sum_nonneg fun f _ => ?_)) _)
      (hV k b j).le
    · exact mul_nonneg (hT k f b).le (num_spec hsrc (norm_nonneg _) (recon_pos hT hV k f j)).1
    · exact div_nonneg (hT k f b).le (recon_pos hT hV k f j).le

theorem updateSource_inv (hsrc : Standard src) (hf : ∀ x, 0 ≤ x → 0 < floor x) {s : St F n t K} (hs : Inv s) :
    Inv (updateSource src floor X s) := by
  have hT := (updateSource_pos hsrc hf (separate X s.W) hs.2.1 hs.2.2).1
  exact ⟨hs.1, hT, (updateSource_pos hsrc hf (separate X s.W) hT hs.2.2).2⟩

theorem normalize_inv {norm : Norm n} (hn : norm.Plain) (hf : ∀ x, 0 ≤ x → 0 < floor x) {s : St F n t K} (hs : Inv s) :
    ∃ s', normalize p floor X norm s = .ok s' ∧ Inv s' := by
  cases norm with
  | off => exact ⟨s, rfl, hs⟩
  | power =>
    exact ⟨_, rfl, divRows_isUnit (psi_pos hf _) hs.1,
      fun k f b => div_pos (hs.2.1 k f b) (Real.rpow_pos_of_pos (psi_pos hf _ k) p), hs.2.2⟩
  | projectionBack r => exact absurd hn (by simp [Norm.Plain])

theorem updateOnce_inv [Nonempty (Fin K)] (hsrc : Standard src) {alg : FilterAlg n} (halg : alg.Valid) {norm : Norm n}
    (hn : norm.Plain) (hf : ∀ x, 0 ≤ x → 0 < floor x) (hX : ∀ f, LinearIndependent ℂ (X f).row) (s : St F n t K) (hs : Inv s) :
    ∃ s', updateOnce np src p alg norm floor X s = .ok s' ∧ Inv s' := by
  obtain ⟨s1, e1⟩ : ∃ s1, s1 = updateSource src floor X s := ⟨_, rfl⟩
  have hs1 : Inv s1 := e1 ▸ updateSource_inv hsrc hf hs
  obtain ⟨W, h1, h2⟩ := spatialFilter_floored np halg (fun x hx => (hf x hx.le).ne')
    (fun f k j => phi_pos hsrc hf (norm_nonneg (separate X s1.W f k j)) (recon_pos hs1.2.1 hs1.2.2 k f j)) hX hs1.1
  obtain ⟨s', h3, h4⟩ := normalize_inv (p := p) (X := X) hn hf (s := (⟨W, s1.T, s1.V⟩ : St F n t K)) ⟨h2, hs1.2⟩
  refine ⟨s', ?_, h4⟩
  have h1' : spatialFilter np alg floor (varphi src floor (separate X s1.W) (recon s1.T s1.V)) X s1.W = .ok W := h1
  simp only [updateOnce, ← e1, updateSpatial, h1', bind, Except.bind, h3]

theorem updateOnceY_inv [Nonempty (Fin K)] (hsrc : Standard src) {alg : SignalAlg n} (halg : alg.Valid) {norm : Norm n}
    (hn : norm.Plain) (hf : ∀ x, 0 ≤ x → 0 < floor x) (hX : ∀ f, LinearIndependent ℂ (X f).row) (s : StY F n t K)
    (hs : ∃ s0, Inv s0 ∧ s = s0.toY X) :
    ∃ s', updateOnceY np src p alg norm floor X s = .ok s' ∧ ∃ s0, Inv s0 ∧ s' = s0.toY X := by
  obtain ⟨s0, hs0, rfl⟩ := hs
  obtain ⟨s1, e1⟩ : ∃ s1, s1 = updateSource src floor X s0 := ⟨_, rfl⟩
  have hs1 : Inv s1 := e1 ▸ updateSource_inv hsrc hf hs0
  obtain ⟨W, h1, h2⟩ := spatialSignal_floored np halg hf
    (fun f k j => phi_pos hsrc hf (norm_nonneg (separate X s1.W f k j)) (recon_pos hs1.2.1 hs1.2.2 k f j)) hX hs1.1
  obtain ⟨s', h3, h4⟩ := normalize_inv (p := p) (X := X) hn hf (s := (⟨W, s1.T, s1.V⟩ : St F n t K)) ⟨h2, hs1.2⟩
  refine ⟨s'.toY X, ?_, s', h4, rfl⟩
  have h1' : spatialSignal np alg floor (varphi src floor (separate X s1.W) (recon s1.T s1.V)) (separate X s1.W)
    = .ok (separate X W) := h1
  have e2 : updateSourceY src floor (s0.toY X) = s1.toY X := by rw [e1]; rfl
  have h5 := normalizeY_toY p floor X hX norm (⟨W, s1.T, s1.V⟩ : St F n t K) h2
  rw [h3] at h5
  rw [updateOnceY, e2]
  simp only [updateSpatialY, St.toY, h1', bind, Except.bind]
  exact h5

/-! ### Partitioned -/

theorem updateLatent_pos [Nonempty F] [Nonempty (Fin t)] (hsrc : Standard src) {Y : Spec F n t}
    (hY : ∀ f k, ∃ j, Y f k j ≠ 0) {Z : Fin n → Fin K → ℝ} {T : F → Fin K → ℝ} {V : Fin K → Fin t → ℝ} (hZ : ∀ k b, 0 < Z k b)
    (hT : ∀ f b, 0 < T f b) (hV : ∀ b j, 0 < V b j) (k : Fin n) (b : Fin K) : 0 < updateLatent src Y Z T V k b := by
  have : Nonempty (Fin K) := ⟨b⟩
  have hraw : ∀ k, 0 < latentRaw src Y Z T V k b := by
    intro k
    refine mul_pos (Real.rpow_pos_of_pos (div_pos ?_ ?_) _) (hZ k b)
    · refine Finset.sum_pos (fun f _ => ?_) Finset.univ_nonempty
      obtain ⟨j, hj⟩ := hY f k
      refine Finset.sum_pos' (fun j _ => ?_) ⟨j, Finset.mem_univ _, ?_⟩
      · exact mul_nonneg (mul_pos (hT f b) (hV b j)).le (num_spec hsrc (norm_nonneg _) (reconP_pos hZ hT hV k f j)).1
      · exact mul_pos (mul_pos (hT f b) (hV b j))
          ((num_spec hsrc (norm_nonneg _) (reconP_pos hZ hT hV k f j)).2 (norm_pos_iff.mpr hj))
    · exact Finset.sum_pos (fun f _ => Finset.sum_pos (fun j _ => div_pos (mul_pos (hT f b) (hV b j))
        (reconP_pos hZ hT hV k f j)) Finset.univ_nonempty) Finset.univ_nonempty
  exact div_pos (hraw k) (Finset.sum_pos (fun k' _ => hraw k') ⟨k, Finset.mem_univ _⟩)

theorem updateSourceP_pos (hsrc : Standard src) (hf : ∀ x, 0 ≤ x → 0 < floor x) (Y : Spec F n t) {Z : Fin n → Fin K → ℝ}
    {T : F → Fin K → ℝ} {V : Fin K → Fin t → ℝ} (hZ : ∀ k b, 0 < Z k b) (hT : ∀ f b, 0 < T f b) (hV : ∀ b j, 0 < V b j) :
    (∀ f b, 0 < updateBasisP src floor Y Z T V f b) ∧ ∀ b j, 0 < updateActivationP src floor Y Z T V b j := by
  refine ⟨fun f b => hf _ ?_, fun b j => hf _ ?_⟩
  · have : Nonempty (Fin K) := ⟨b⟩
    refine mul_nonneg (Real.rpow_nonneg (div_nonneg (Finset.sum_nonneg fun k _ => Finset.sum_nonneg fun j _ => ?_)
      (Finset.sum_nonneg fun k _ => Finset.sum_nonneg fun j _ => ?_)) _) (hT f b).le
    · exact mul_nonneg (mul_pos (hZ k b) (hV b j)).le (num_spec hsrc (norm_nonneg _) (reconP_pos hZ hT hV k f j)).1
    · exact div_nonneg (mul_pos (hZ k b) (hV b j)).le (reconP_pos hZ hT hV k f j).le
  · have : Nonempty (Fin K) := ⟨b⟩
    refine mul_nonneg (Real.rpow_nonneg (div_nonneg (Finset.sum_nonneg fun k _ => Finset.sum_nonneg fun f _ => ?_)
      (Finset.sum_nonneg fun k _ => Finset.sum_nonneg fun f _ => ?_)) _) (hV b j).le
    · exact mul_nonneg (mul_pos (hZ k b) (hT f b)).le (num_spec hsrc (norm_nonneg _) (reconP_pos hZ hT hV k f j)).1
    · exact div_nonneg (mul_pos (hZ k b) (hT f b)).le (reconP_pos hZ hT hV k f j).le

theorem updateSourceP_inv [Nonempty F] [Nonempty (Fin t)] (hsrc : Standard src) (hf : ∀ x, 0 ≤ x → 0 < floor x)
    (hX : ∀ f, LinearIndependent ℂ (X f).row) {s : StP F n t K} (hs : InvP s) : InvP (updateSourceP src floor X s) := by
  have hZ := updateLatent_pos hsrc (Y := separate X s.W) (fun f k => Iva.exists_separate_ne hX hs.1 f k) hs.2.1 hs.2.2.1 hs.2.2.2
  have hT := (updateSourceP_pos hsrc hf (separate X s.W) hZ hs.2.2.1 hs.2.2.2).1
  exact ⟨hs.1, hZ, hT, (updateSourceP_pos hsrc hf (separate X s.W) hZ hT hs.2.2.2).2⟩

theorem normLatent_pos {ψ : Fin n → ℝ} (hψ : ∀ k, 0 < ψ k) {Z : Fin n → Fin K → ℝ} (hZ : ∀ k b, 0 < Z k b) :
    ∀ k b, 0 < latentPsi p ψ Z k b := fun k b => div_pos (hZ k b) (Real.rpow_pos_of_pos (hψ k) p)

theorem normalizeP_inv [Nonempty (Fin n)] {norm : Norm n} (hn : norm.Plain) (hf : ∀ x, 0 ≤ x → 0 < floor x) {s : StP F n t K}
    (hs : InvP s) : ∃ s', normalizeP p floor X norm s = .ok s' ∧ InvP s' := by
  cases norm with
  | off => exact ⟨s, rfl, hs⟩
  | power =>
    have h := normLatent_pos (p := p) (psi_pos hf (separate X s.W)) hs.2.1
    have hsum : ∀ b, 0 < ∑ k', latentPsi p (psi floor (separate X s.W)) s.Z k' b :=
      fun b => Finset.sum_pos (fun k _ => h k b) Finset.univ_nonempty
    exact ⟨_, rfl, divRows_isUnit (psi_pos hf _) hs.1, fun k b => div_pos (h k b) (hsum b),
      fun f b => mul_pos (hs.2.2.1 f b) (hsum b), hs.2.2.2⟩
  | projectionBack r => exact absurd hn (by simp [Norm.Plain])

theorem updateOnceP_inv [Nonempty F] [Nonempty (Fin n)] [Nonempty (Fin t)] [Nonempty (Fin K)] (hsrc : Standard src)
    {alg : FilterAlg n} (halg : alg.Valid) {norm : Norm n} (hn : norm.Plain) (hf : ∀ x, 0 ≤ x → 0 < floor x)
    (hX : ∀ f, LinearIndependent ℂ (X f).row) (s : StP F n t K) (hs : InvP s) :
    ∃ s', updateOnceP np src p alg norm floor X s = .ok s' ∧ InvP s' := by
  obtain ⟨s1, e1⟩ : ∃ s1, s1 = updateSourceP src floor X s := ⟨_, rfl⟩
  have hs1 : InvP s1 := e1 ▸ updateSourceP_inv hsrc hf hX hs
  obtain ⟨W, h1, h2⟩ := spatialFilter_floored np halg (fun x hx => (hf x hx.le).ne') (fun f k j => phi_pos hsrc hf
    (norm_nonneg (separate X s1.W f k j)) (reconP_pos hs1.2.1 hs1.2.2.1 hs1.2.2.2 k f j)) hX hs1.1
  obtain ⟨s', h3, h4⟩ := normalizeP_inv (p := p) (X := X) hn hf (s := (⟨W, s1.Z, s1.T, s1.V⟩ : StP F n t K)) ⟨h2, hs1.2⟩
  refine ⟨s', ?_, h4⟩
  have h1' : spatialFilter np alg floor (varphi src floor (separate X s1.W) (reconP s1.Z s1.T s1.V)) X s1.W = .ok W := h1
  simp only [updateOnceP, ← e1, updateSpatialP, h1', bind, Except.bind, h3]

theorem updateOnceYP_inv [Nonempty F] [Nonempty (Fin n)] [Nonempty (Fin t)] [Nonempty (Fin K)] (hsrc : Standard src)
    {alg : SignalAlg n} (halg : alg.Valid) {norm : Norm n} (hn : norm.Plain) (hf : ∀ x, 0 ≤ x → 0 < floor x)
    (hX : ∀ f, LinearIndependent ℂ (X f).row) (s : StYP F n t K) (hs : ∃ s0, InvP s0 ∧ s = s0.toY X) :
    ∃ s', updateOnceYP np src p alg norm floor s = .ok s' ∧ ∃ s0, InvP s0 ∧ s' = s0.toY X := by
  obtain ⟨s0, hs0, rfl⟩ := hs
  obtain ⟨s1, e1⟩ : ∃ s1, s1 = updateSourceP src floor X s0 := ⟨_, rfl⟩
  have hs1 : InvP s1 := e1 ▸ updateSourceP_inv hsrc hf hX hs0
  obtain ⟨W, h1, h2⟩ := spatialSignal_floored np halg hf (fun f k j => phi_pos hsrc hf
    (norm_nonneg (separate X s1.W f k j)) (reconP_pos hs1.2.1 hs1.2.2.1 hs1.2.2.2 k f j)) hX hs1.1
  obtain ⟨s', h3, h4⟩ := normalizeP_inv (p := p) (X := X) hn hf (s := (⟨W, s1.Z, s1.T, s1.V⟩ : StP F n t K)) ⟨h2, hs1.2⟩
  refine ⟨s'.toY X, ?_, s', h4, rfl⟩
  have h1' : spatialSignal np alg floor (varphi src floor (separate X s1.W) (reconP s1.Z s1.T s1.V)) (separate X s1.W)
    = .ok (separate X W) := h1
  have e2 : updateSourceYP src floor (s0.toY X) = s1.toY X := by rw [e1]; rfl
  rw [updateOnceYP, e2]
  simp only [updateSpatialYP, StP.toY, h1', bind, Except.bind]
  cases norm with
  | off => rw [← Except.ok.inj h3]; rfl
  | power => rw [← Except.ok.inj h3]; simp only [normalizeYP, separate_divRows]
  | projectionBack r => exact absurd hn (by simp [Norm.Plain])

end

/-! ## The calls -/

/-- The scale restorations that exist. -/
def Known (sr : ScaleOpt) : Prop := AsksNone sr ∨ AsksPB sr ∨ AsksMDP sr

theorem finish_ok {sr : ScaleOpt} (hsr : Known sr) (r : Fin n) {X : Spec F n t} (hX : ∀ f, LinearIndependent ℂ (X f).row)
    {W : F → Mat n ℂ} (hW : ∀ f, IsUnit (W f).det) : ∃ V, finish sr r X W = .ok (separate X V, V) := by
  obtain ⟨h0, h1, h2, -⟩ := C26_filter_methods sr r X W hW (Iva.gram_isUnit X hX)
  rcases hsr with h | h | h
  · exact ⟨W, h0 h⟩
  · obtain ⟨V, hV, -⟩ := h1 h
    exact ⟨V, hV⟩
  · obtain ⟨V, hV, -⟩ := h2 h
    exact ⟨V, hV⟩

theorem finishFree_ok {sr : ScaleOpt} (hsr : Known sr) (r : Fin n) {X : Spec F n t} (hX : ∀ f, LinearIndependent ℂ (X f).row)
    {W : F → Mat n ℂ} (hW : ∀ f, IsUnit (W f).det) : ∃ V, finishFree sr r X (separate X W) = .ok (separate X V) := by
  obtain ⟨V, hV⟩ := finish_ok hsr r hX hW
  exact ⟨V, by rw [C26_filter_free sr r X W hW (Iva.gram_isUnit X hX), hV]; rfl⟩

omit [Fintype F] in
theorem reset_ok (alg : Lifecycle.Spatial) (X : Spec F n t) {kw : Option (F → Mat n ℂ)} {o : Lifecycle.Obj F n t}
    (h : Attr.Has (fun W => ∀ f, IsUnit (W f).det) (override kw o.demix)) :
    ∃ W, (∀ f, IsUnit (W f).det) ∧ Lifecycle.reset alg X kw o = .ok (if alg.filterFree then none else some W, separate X W) := by
  cases kw with
  | some W =>
    rcases h with h | ⟨V, h, hV⟩
    · cases h
    · cases h
      exact ⟨W, hV, rfl⟩
  | none =>
    rcases h with h | ⟨V, h, hV⟩
    · refine ⟨fun _ => 1, fun _ => by rw [det_one]; exact isUnit_one, ?_⟩
      simp only [override] at h
      simp only [Lifecycle.reset, h]
      rfl
    · refine ⟨V, hV, ?_⟩
      simp only [override] at h
      simp only [Lifecycle.reset, h]
      rfl

section

variable [Nonempty (Fin K)] (np : Numpy ℂ) {src : Source} (hsrc : Standard src) (p : ℝ) {norm : Norm n} (hn : norm.Plain)
  {floor : ℝ → ℝ} (hf : ∀ x, 0 ≤ x → 0 < floor x) {sr : ScaleOpt} (hsr : Known sr) (r : Fin n) {X : Spec F n t}
  (hX : ∀ f, LinearIndependent ℂ (X f).row) (n_iter : ℕ) (ic : Bool)

include hsrc hn hf hsr hX

/-- C88: with a flooring function that is positive, a call of `GaussILRMA`, `TILRMA` or `GGDILRMA` with IP1 or IP2 returns for
every recording whose channels are linearly independent in every bin, whatever numbers are drawn and however many iterations
are run, and the bases and activations it leaves are positive. -/
theorem C88_returns {alg : FilterAlg n} (halg : alg.Valid) (draw : Draw F n t K) (hdT : ∀ k f b, 0 ≤ draw.T k f b)
    (hdV : ∀ k b j, 0 ≤ draw.V k b j) (kw : Kw F n t K) (o : IlrmaCall.Obj F n t K)
    (hW : Attr.Has (fun W => ∀ f, IsUnit (W f).det) (override kw.demix o.demix))
    (hT : Attr.Has (fun T => ∀ k f b, 0 < T k f b) (override kw.basis o.basis))
    (hV : Attr.Has (fun V => ∀ k b j, 0 < V k b j) (override kw.activation o.activation)) :
    ∃ W T V ls, IlrmaCall.call np src p alg norm floor sr r draw X n_iter ic kw o
        = .ok ⟨.val W, .val T, .val V, .val (separate X W), ls⟩ ∧
      (∀ k f b, 0 < T k f b) ∧ (∀ k b j, 0 < V k b j) ∧ ls.length = o.loss.length + (if ic then 1 else 0) + n_iter := by
  obtain ⟨T, a1, a2⟩ := attrOr_has hT (fun k f b => floor (draw.T k f b)) fun _ _ _ => hf _ (hdT _ _ _)
  obtain ⟨V, b1, b2⟩ := attrOr_has hV (fun k f b => floor (draw.V k f b)) fun _ _ _ => hf _ (hdV _ _ _)
  obtain ⟨W, w1, w2⟩ := reset_ok (label alg) X (kw := kw.demix) (o := ⟨o.demix, o.output⟩) hW
  rw [label_filterFree, if_neg (by simp)] at w2
  have hreset : resetFilter alg floor draw X kw o = .ok ⟨W, T, V⟩ := by
    simp only [resetFilter, w2, initNmf, a1, b1, bind, Except.bind]
  obtain ⟨s', ls, e1, e2, -, e3⟩ := baseCall_inv Inv Inv (fun _ h => h)
    (fun s hs => updateOnce_inv (np := np) (p := p) hsrc halg hn hf hX s hs)
    (loss := fun s => .ok (loss src X s)) (fun s _ => ⟨_, rfl⟩) ic n_iter (⟨W, T, V⟩ : St F n t K) o.loss ⟨w1, a2, b2⟩
  obtain ⟨W', f1⟩ := finish_ok hsr r hX e2.1
  refine ⟨W', s'.T, s'.V, ls, ?_, e2.2.1, e2.2.2, e3⟩
  simp only [IlrmaCall.call, hreset, e1, f1, bind, Except.bind]

/-- C88 with ISS1 or ISS2: the output is the recording separated by invertible filters. -/
theorem C88_returns_signal {alg : SignalAlg n} (halg : alg.Valid) (draw : Draw F n t K) (hdT : ∀ k f b, 0 ≤ draw.T k f b)
    (hdV : ∀ k b j, 0 ≤ draw.V k b j) (kw : Kw F n t K) (o : IlrmaCall.Obj F n t K)
    (hW : Attr.Has (fun W => ∀ f, IsUnit (W f).det) (override kw.demix o.demix))
    (hT : Attr.Has (fun T => ∀ k f b, 0 < T k f b) (override kw.basis o.basis))
    (hV : Attr.Has (fun V => ∀ k b j, 0 < V k b j) (override kw.activation o.activation)) :
    ∃ W T V ls, callSignal np src p alg norm floor sr r draw X n_iter ic kw o
        = .ok ⟨.none, .val T, .val V, .val (separate X W), ls⟩ ∧
      (∀ k f b, 0 < T k f b) ∧ (∀ k b j, 0 < V k b j) ∧ ls.length = o.loss.length + (if ic then 1 else 0) + n_iter := by
  obtain ⟨T, a1, a2⟩ := attrOr_has hT (fun k f b => floor (draw.T k f b)) fun _ _ _ => hf _ (hdT _ _ _)
  obtain ⟨V, b1, b2⟩ := attrOr_has hV (fun k f b => floor (draw.V k f b)) fun _ _ _ => hf _ (hdV _ _ _)
  obtain ⟨W, w1, w2⟩ := reset_ok (labelY alg) X (kw := kw.demix) (o := ⟨o.demix, o.output⟩) hW
  have hreset : resetSignal alg floor draw X kw o = .ok ((⟨W, T, V⟩ : St F n t K).toY X) := by
    simp only [resetSignal, w2, initNmf, a1, b1, bind, Except.bind]
    rfl
  obtain ⟨s', ls, e1, ⟨s0, e2, rfl⟩, -, e3⟩ := baseCall_inv (fun s => ∃ s0, Inv s0 ∧ s = s0.toY X) (fun s => ∃ s0, Inv s0 ∧ s = s0.toY X)
    (fun _ h => h) (fun s hs => updateOnceY_inv (np := np) (p := p) hsrc halg hn hf hX s hs)
    (loss := lossY src X) (fun s hs => by
      obtain ⟨s0, -, rfl⟩ := hs
      exact ⟨_, lossY_toY src X hX s0⟩) ic n_iter _ o.loss ⟨⟨W, T, V⟩, ⟨w1, a2, b2⟩, rfl⟩
  obtain ⟨W', f1⟩ := finishFree_ok hsr r hX e2.1
  refine ⟨W', s0.T, s0.V, ls, ?_, e2.2.1, e2.2.2, e3⟩
  simp only [callSignal, hreset, e1, bind, Except.bind]
  rw [show (s0.toY X).Y = separate X s0.W from rfl, f1]
  rfl

/-- The drawn numbers with partitioning: nonnegative, and for no component all zero. -/
structure DrawOk (draw : DrawP F n t K) : Prop where
  Z : ∀ k b, 0 ≤ draw.Z k b
  Z_sum : ∀ b, 0 < ∑ k, draw.Z k b
  T : ∀ f b, 0 ≤ draw.T f b
  V : ∀ b j, 0 ≤ draw.V b j

variable [Nonempty F] [Nonempty (Fin t)]

/-- C88 with partitioning and IP1 or IP2. -/
theorem C88_returns_partitioned {alg : FilterAlg n} (halg : alg.Valid) (draw : DrawP F n t K) (hd : DrawOk draw)
    (kw : KwP F n t K) (o : ObjP F n t K) (hW : Attr.Has (fun W => ∀ f, IsUnit (W f).det) (override kw.demix o.demix))
    (hZ : Attr.Has (fun Z => ∀ k b, 0 < Z k b) (override kw.latent o.latent))
    (hT : Attr.Has (fun T => ∀ f b, 0 < T f b) (override kw.basis o.basis))
    (hV : Attr.Has (fun V => ∀ b j, 0 < V b j) (override kw.activation o.activation)) :
    ∃ W Z T V ls, callP np src p alg norm floor sr r draw X n_iter ic kw o
        = .ok ⟨.val W, .val Z, .val T, .val V, .val (separate X W), ls⟩ ∧ (∀ k b, 0 < Z k b) ∧
      (∀ f b, 0 < T f b) ∧ (∀ b j, 0 < V b j) ∧ ls.length = o.loss.length + (if ic then 1 else 0) + n_iter := by
  have : Nonempty (Fin n) := ⟨r⟩
  obtain ⟨Z, z1, z2⟩ := attrOr_has hZ (initLatent floor draw.Z) fun k b => hf _ (div_nonneg (hd.Z k b) (hd.Z_sum b).le)
  obtain ⟨T, a1, a2⟩ := attrOr_has hT (fun f b => floor (draw.T f b)) fun _ _ => hf _ (hd.T _ _)
  obtain ⟨V, b1, b2⟩ := attrOr_has hV (fun f b => floor (draw.V f b)) fun _ _ => hf _ (hd.V _ _)
  obtain ⟨W, w1, w2⟩ := reset_ok (label alg) X (kw := kw.demix) (o := ⟨o.demix, o.output⟩) hW
  rw [label_filterFree, if_neg (by simp)] at w2
  have hreset : resetFilterP alg floor draw X kw o = .ok ⟨W, Z, T, V⟩ := by
    simp only [resetFilterP, w2, initNmfP, z1, a1, b1, bind, Except.bind]
  obtain ⟨s', ls, e1, e2, -, e3⟩ := baseCall_inv InvP InvP (fun _ h => h)
    (fun s hs => updateOnceP_inv (np := np) (p := p) hsrc halg hn hf hX s hs)
    (loss := fun s => .ok (lossP src X s)) (fun s _ => ⟨_, rfl⟩) ic n_iter (⟨W, Z, T, V⟩ : StP F n t K) o.loss ⟨w1, z2, a2, b2⟩
  obtain ⟨W', f1⟩ := finish_ok hsr r hX e2.1
  refine ⟨W', s'.Z, s'.T, s'.V, ls, ?_, e2.2.1, e2.2.2.1, e2.2.2.2, e3⟩
  simp only [callP, hreset, e1, f1, bind, Except.bind]

/-- C88 with partitioning and ISS1 or ISS2. -/
theorem C88_returns_signal_partitioned {alg : SignalAlg n} (halg : alg.Valid) (draw : DrawP F n t K) (hd : DrawOk draw)
    (kw : KwP F n t K) (o : ObjP F n t K) (hW : Attr.Has (fun W => ∀ f, IsUnit (W f).det) (override kw.demix o.demix))
    (hZ : Attr.Has (fun Z => ∀ k b, 0 < Z k b) (override kw.latent o.latent))
    (hT : Attr.Has (fun T => ∀ f b, 0 < T f b) (override kw.basis o.basis))
    (hV : Attr.Has (fun V => ∀ b j, 0 < V b j) (override kw.activation o.activation)) :
    ∃ W Z T V ls, callSignalP np src p alg norm floor sr r draw X n_iter ic kw o
        = .ok ⟨.none, .val Z, .val T, .val V, .val (separate X W), ls⟩ ∧ (∀ k b, 0 < Z k b) ∧
      (∀ f b, 0 < T f b) ∧ (∀ b j, 0 < V b j) ∧ ls.length = o.loss.length + (if ic then 1 else 0) + n_iter := by
  have : Nonempty (Fin n) := ⟨r⟩
  obtain ⟨Z, z1, z2⟩ := attrOr_has hZ (initLatent floor draw.Z) fun k b => hf _ (div_nonneg (hd.Z k b) (hd.Z_sum b).le)
  obtain ⟨T, a1, a2⟩ := attrOr_has hT (fun f b => floor (draw.T f b)) fun _ _ => hf _ (hd.T _ _)
  obtain ⟨V, b1, b2⟩ := attrOr_has hV (fun f b => floor (draw.V f b)) fun _ _ => hf _ (hd.V _ _)
  obtain ⟨W, w1, w2⟩ := reset_ok (labelY alg) X (kw := kw.demix) (o := ⟨o.demix, o.output⟩) hW
  have hreset : resetSignalP alg floor draw X kw o = .ok ((⟨W, Z, T, V⟩ : StP F n t K).toY X) := by
    simp only [resetSignalP, w2, initNmfP, z1, a1, b1, bind, Except.bind]
    rfl
  obtain ⟨s', ls, e1, ⟨s0, e2, rfl⟩, -, e3⟩ := baseCall_inv (fun s => ∃ s0, InvP s0 ∧ s = s0.toY X)
    (fun s => ∃ s0, InvP s0 ∧ s = s0.toY X)
    (fun _ h => h) (fun s hs => updateOnceYP_inv (np := np) (p := p) hsrc halg hn hf hX s hs)
    (loss := lossYP src X) (fun s hs => by
      obtain ⟨s0, -, rfl⟩ := hs
      exact ⟨_, lossYP_toY src X hX s0⟩) ic n_iter _ o.loss ⟨⟨W, Z, T, V⟩, ⟨w1, z2, a2, b2⟩, rfl⟩
  obtain ⟨W', f1⟩ := finishFree_ok hsr r hX e2.1
  refine ⟨W', s0.Z, s0.T, s0.V, ls, ?_, e2.2.1, e2.2.2.1, e2.2.2.2, e3⟩
  simp only [callSignalP, hreset, e1, bind, Except.bind]
  rw [show (s0.toY X).Y = separate X s0.W from rfl, f1]
  rfl

end

/-- C88, why the result is not a quotient of zeros: in every state with invertible filters and positive bases and activations
the variances, the denominators of the source updates, the weights of the spatial update and the numbers `power`
normalisation divides by are positive. -/
theorem C88_denominators [Nonempty F] [Nonempty (Fin t)] [Nonempty (Fin K)] {src : Source} (hsrc : Standard src)
    {floor : ℝ → ℝ} (hf : ∀ x, 0 ≤ x → 0 < floor x) (Y : Spec F n t) {T : Fin n → F → Fin K → ℝ} {V : Fin n → Fin K → Fin t → ℝ}
    (hT : ∀ k f b, 0 < T k f b) (hV : ∀ k b j, 0 < V k b j) :
    (∀ k f j, 0 < ∑ b, T k f b * V k b j) ∧ (∀ k f b, 0 < ∑ j, V k b j / ∑ b, T k f b * V k b j) ∧
      (∀ k b j, 0 < ∑ f, T k f b / ∑ b, T k f b * V k b j) ∧
      (∀ k f j, 0 < src.phi floor ‖Y f k j‖ (∑ b, T k f b * V k b j)) ∧
      ∀ k, 0 < floor (√((∑ f, ∑ j, ‖Y f k j‖ ^ 2) / (Fintype.card F * t))) :=
  ⟨fun k f j => recon_pos hT hV k f j,
    fun k f b => Finset.sum_pos (fun j _ => div_pos (hV k b j) (recon_pos hT hV k f j)) Finset.univ_nonempty,
    fun k b j => Finset.sum_pos (fun f _ => div_pos (hT k f b) (recon_pos hT hV k f j)) Finset.univ_nonempty,
    fun k f j => phi_pos hsrc hf (norm_nonneg _) (recon_pos hT hV k f j), fun k => psi_pos hf Y k⟩

/-! ### Examples -/

/-- A recording with four frames. -/
def exX : Spec (Fin 3) 2 4 := fun _ => !![1, 0, 2, 0; 0, 1, 0, Complex.I]

theorem exX_indep (f : Fin 3) : LinearIndependent ℂ (exX f).row := by
  refine LinearIndependent.pair_iff.mpr fun a b h => ?_
  have h0 := congrFun h 0
  have h1 := congrFun h 1
  simp at h0 h1
  exact ⟨h0, h1⟩

theorem max_flooring_pos (x : ℝ) : 0 < Special.max_flooring (1 / 10 ^ 10) x := lt_max_of_lt_right (by norm_num)

/-- `TILRMA` with IP2, the default flooring function and projection back. -/
example (np : Numpy ℂ) (n_iter : ℕ) : ∃ o', IlrmaCall.call np (student 2 1) 2 (.ip2 [(0, 1)]) .power
    (Special.max_flooring (1 / 10 ^ 10)) (.bool true) 0 (⟨fun _ _ _ => 0, fun _ _ _ => 1 / 2⟩ : Draw (Fin 3) 2 4 2) exX n_iter true
    {} Obj.fresh = .ok o' := by
  obtain ⟨W, T, V, ls, h, -⟩ := C88_returns np (.student two_pos one_pos) 2 (norm := .power) trivial
    (fun x _ => max_flooring_pos x) (sr := .bool true) (.inr (.inl (.inl rfl))) 0 exX_indep n_iter true (alg := .ip2 [(0, 1)])
    (by simp [FilterAlg.Valid]) (⟨fun _ _ _ => 0, fun _ _ _ => 1 / 2⟩ : Draw (Fin 3) 2 4 2) (fun _ _ _ => le_rfl)
    (fun _ _ _ => by norm_num) {} Obj.fresh (.inl rfl) (.inl rfl) (.inl rfl)
  exact ⟨_, h⟩

/-- `GGDILRMA` with ISS2 and partitioning, with the flooring function that adds a constant. -/
example (np : Numpy ℂ) (n_iter : ℕ) : ∃ o', callSignalP np (ggd 2 1) 2 (.iss2 [(0, 1)]) .power
    (Special.add_flooring (1 / 10 ^ 10)) (.bool false) 0
    (⟨fun _ _ => 1 / 3, fun _ _ => 0, fun _ _ => 1 / 2⟩ : DrawP (Fin 3) 2 4 2) exX n_iter true {} ObjP.fresh = .ok o' := by
  obtain ⟨W, Z, T, V, ls, h, -⟩ := C88_returns_signal_partitioned np (.ggd two_pos one_pos one_le_two) 2 (norm := .power) trivial
    (floor := Special.add_flooring (1 / 10 ^ 10)) (fun x hx => by rw [Special.add_flooring]; positivity) (sr := .bool false)
    (.inl (.inl rfl)) 0 exX_indep n_iter true (alg := .iss2 [(0, 1)]) (by simp [SignalAlg.Valid])
    (⟨fun _ _ => 1 / 3, fun _ _ => 0, fun _ _ => 1 / 2⟩ : DrawP (Fin 3) 2 4 2)
    ⟨fun _ _ => by norm_num, fun _ => by norm_num, fun _ _ => le_rfl, fun _ _ => by norm_num⟩ {} ObjP.fresh (.inl rfl) (.inl rfl)
    (.inl rfl) (.inl rfl)
  exact ⟨_, h⟩

/-! ## The exception: normalisation by projection back -/

section

variable {X : Spec F n t}

/-- No two channels sound in the same frame of a bin, and every channel sounds in every bin. -/
structure Disjoint (X : Spec F n t) : Prop where
  apart : ∀ f i k j, i ≠ k → X f i j * star (X f k j) = 0
  sounds : ∀ f k, ∃ j, X f k j ≠ 0

omit [Fintype F] in
theorem wcov_diag (hX : Disjoint X) {phi : Fin n → Fin t → ℝ} (hphi : ∀ k j, 0 < phi k j) (f : F) (k : Fin n) :
    ∃ u : Fin n → ℂ, (∀ i, u i ≠ 0) ∧ Iva.wcov phi X f k = diagonal u := by
  refine ⟨fun i => ((meanT fun j => phi k j * ‖X f i j‖ ^ 2 : ℝ) : ℂ), fun i => ?_, ?_⟩
  · obtain ⟨j, hj⟩ := hX.sounds f i
    have ht : 0 < t := j.pos
    refine Complex.ofReal_ne_zero.mpr (div_pos (Finset.sum_pos' (fun j _ => ?_) ⟨j, Finset.mem_univ _, ?_⟩) ?_).ne'
    · exact mul_nonneg (hphi k j).le (sq_nonneg _)
    · exact mul_pos (hphi k j) (pow_pos (norm_pos_iff.mpr hj) 2)
    · exact_mod_cast ht
  · ext i i'
    by_cases h : i = i'
    · subst h
      rw [diagonal_apply_eq, Iva.wcov, of_apply, meanT, meanT]
      push_cast
      congr 1
      refine Finset.sum_congr rfl fun j _ => ?_
      rw [RCLike.star_def, Complex.mul_conj']
    · rw [diagonal_apply_ne _ h, Iva.wcov, of_apply, meanT]
      rw [Finset.sum_eq_zero fun j _ => by rw [hX.apart f i i' j h, mul_zero], zero_div]

theorem ip1Row_diag {floor : ℝ → ℝ} (hf : ∀ x, 0 ≤ x → 0 < floor x) {U : Fin n → Mat n ℂ}
    (hU : ∀ k, ∃ u : Fin n → ℂ, (∀ i, u i ≠ 0) ∧ U k = diagonal u) {w : Fin n → ℂ} (hw : ∀ i, w i ≠ 0) (src : Fin n) :
    ∃ w' : Fin n → ℂ, (∀ i, w' i ≠ 0) ∧ ip1Row floor U (diagonal w) src = .ok (diagonal w') := by
  obtain ⟨u, hu, hUu⟩ := hU src
  have e1 : diagonal w * U src = diagonal fun i => w i * u i := by rw [hUu, diagonal_mul_diagonal]
  have hdet : IsUnit (diagonal w * U src).det := by
    rw [e1, det_diagonal]
    exact isUnit_iff_ne_zero.mpr (Finset.prod_ne_zero_iff.mpr fun i _ => mul_ne_zero (hw i) (hu i))
  have e2 : (diagonal w * U src)⁻¹ *ᵥ Pi.single src 1 = Pi.single src (w src * u src)⁻¹ := by
    have hinv : (diagonal fun i => w i * u i)⁻¹ = diagonal fun i => (w i * u i)⁻¹ := by
      refine inv_eq_right_inv ?_
      rw [diagonal_mul_diagonal, ← diagonal_one]
      congr 1
      funext i
      exact mul_inv_cancel₀ (mul_ne_zero (hw i) (hu i))
    rw [e1, hinv, mulVec_single_one]
    funext i
    by_cases h : i = src
    · subst h; simp
    · simp [col_apply, h]
  obtain ⟨c, hc⟩ : ∃ c, c = floor (√(hUh (U src) (Pi.single src (w src * u src)⁻¹))) := ⟨_, rfl⟩
  have hc0 : (c : ℂ) ≠ 0 := Complex.ofReal_ne_zero.mpr (hc ▸ (hf _ (Real.sqrt_nonneg _)).ne')
  refine ⟨Function.update w src (star (w src * u src)⁻¹ / (c : ℂ)), fun i => ?_, ?_⟩
  · by_cases h : i = src
    · subst h
      rw [Function.update_self]
      exact div_ne_zero (star_ne_zero.mpr (inv_ne_zero (mul_ne_zero (hw _) (hu _)))) hc0
    · rw [Function.update_of_ne h]
      exact hw i
  · simp only [ip1Row, solveVec_ok hdet, e2, bind, Except.bind, ← hc]
    congr 1
    ext i j
    by_cases h : i = src
    · subst h
      rw [updateRow_self]
      by_cases h' : j = i
      · subst h'; simp
      · rw [diagonal_apply_ne _ (Ne.symm h')]
        simp [h']
    · rw [updateRow_ne h, diagonal_apply, diagonal_apply, Function.update_of_ne h]

omit [Fintype F] in
theorem ip1Stack_diag {floor : ℝ → ℝ} (hf : ∀ x, 0 ≤ x → 0 < floor x) (hX : Disjoint X) {phi : F → Fin n → Fin t → ℝ}
    (hphi : ∀ f k j, 0 < phi f k j) : ∃ w : F → Fin n → ℂ, (∀ f i, w f i ≠ 0) ∧
      Iva.ip1Stack floor (fun f => Iva.wcov (phi f) X f) (fun _ => 1) = .ok fun f => diagonal (w f) := by
  obtain ⟨V, h0, hrun, -, hP⟩ := foldlM_trace
    (fun W src => onBins fun f => ip1Row floor (Iva.wcov (phi f) X f) (W f) src)
    (fun W => ∃ w : F → Fin n → ℂ, (∀ f i, w f i ≠ 0) ∧ W = fun f => diagonal (w f)) (fun _ _ _ => True) (List.finRange n)
    (fun W src _ hW => by
      obtain ⟨w, hw, rfl⟩ := hW
      choose w' h1 h2 using fun f => ip1Row_diag hf (fun k => wcov_diag hX (hphi f) f k) (hw f) src
      exact ⟨_, onBins_ok h2, ⟨w', h1, rfl⟩, trivial⟩) (fun _ => 1)
    ⟨fun _ _ => 1, fun _ _ => one_ne_zero, funext fun _ => diagonal_one.symm⟩
  obtain ⟨w, hw, e⟩ := hP _ le_rfl
  exact ⟨w, hw, e ▸ hrun⟩

/-- C88, the exception: with `normalization="projection_back"` one iteration of a new object can silence every source but one,
whatever the flooring function is. This happens if no two channels sound in the same frame: the filters become diagonal, and
the normalisation multiplies the filters by the entries of one row of their inverse. Without scale restoration the call
returns zeros for all sources but the reference; with projection back it raises. -/
theorem C88_projection_back_silences [Nonempty F] [Nonempty (Fin K)] (np : Numpy ℂ) {src : Source} (hsrc : Standard src) (p : ℝ)
    {floor : ℝ → ℝ} (hf : ∀ x, 0 ≤ x → 0 < floor x) (r' r : Fin n) (hX : Disjoint X) (ic : Bool) (draw : Draw F n t K)
    (hdT : ∀ k f b, 0 ≤ draw.T k f b) (hdV : ∀ k b j, 0 ≤ draw.V k b j) :
    (∀ sr, AsksNone sr → ∃ o' Y, IlrmaCall.call np src p .ip1 (.projectionBack r') floor sr r draw X 1 ic {} Obj.fresh = .ok o' ∧
      o'.output = .val Y ∧ ∀ f k j, k ≠ r' → Y f k j = 0) ∧
    ∀ sr, AsksPB sr → 1 < n →
      IlrmaCall.call np src p .ip1 (.projectionBack r') floor sr r draw X 1 ic {} Obj.fresh = .error .linalg := by
  have hs0 : Inv (start floor draw : St F n t K) :=
    (C86_initial .ip1 floor draw X).2 (fun k f b => hf _ (hdT k f b)) fun k b j => hf _ (hdV k b j)
  obtain ⟨s1, e1⟩ : ∃ s1, s1 = updateSource src floor X (start floor draw) := ⟨_, rfl⟩
  have hs1 : Inv s1 := e1 ▸ updateSource_inv hsrc hf hs0
  have hW1 : s1.W = fun _ => 1 := by rw [e1]; rfl
  obtain ⟨w, hw, e2⟩ := ip1Stack_diag hf hX (phi := varphi src floor (separate X s1.W) (recon s1.T s1.V))
    (fun f k j => phi_pos hsrc hf (norm_nonneg (separate X s1.W f k j)) (recon_pos hs1.2.1 hs1.2.2 k f j))
  have hu : ∀ f, IsUnit (diagonal (w f)).det := fun f => by
    rw [det_diagonal]
    exact isUnit_iff_ne_zero.mpr (Finset.prod_ne_zero_iff.mpr fun i _ => hw f i)
  obtain ⟨W2, hW2⟩ : ∃ W2 : F → Mat n ℂ, W2 = mulRows (fun f k => (diagonal (w f))⁻¹ r' k) fun f => diagonal (w f) := ⟨_, rfl⟩
  have hrow : ∀ f k, k ≠ r' → ∀ j, W2 f k j = 0 := by
    intro f k hk j
    have : (diagonal (w f))⁻¹ r' k = 0 := by
      rw [inv_diagonal, diagonal_apply_ne _ hk.symm]
    rw [hW2, mulRows, of_apply, this, mul_zero]
  obtain ⟨T2, hstep⟩ : ∃ T2, updateOnce np src p .ip1 (.projectionBack r') floor X (start floor draw) = .ok ⟨W2, T2, s1.V⟩ := by
    refine ⟨mulBasis p (fun f k => (diagonal (w f))⁻¹ r' k) s1.T, ?_⟩
    have e2' : spatialFilter np .ip1 floor (varphi src floor (separate X s1.W) (recon s1.T s1.V)) X s1.W
        = .ok fun f => diagonal (w f) := by rw [hW1]; rw [hW1] at e2; exact e2
    simp only [updateOnce, ← e1, updateSpatial, e2', Ilrma.normalize, npInvB, if_pos hu, bind, Except.bind, hW2]
  have hcall : ∀ sr, ∃ ls, IlrmaCall.call np src p .ip1 (.projectionBack r') floor sr r draw X 1 ic {} Obj.fresh
      = (finish sr r X W2).bind fun q => .ok ⟨.val q.2, .val T2, .val s1.V, .val q.1, ls⟩ := by
    intro sr
    cases ic with
    | true =>
      refine ⟨[Ilrma.loss src X (start floor draw), Ilrma.loss src X ⟨W2, T2, s1.V⟩], ?_⟩
      simp only [IlrmaCall.call, (C86_initial .ip1 floor draw X).1, baseCall, iterations, hstep, if_true, bind, Except.bind]
      rfl
    | false =>
      refine ⟨[Ilrma.loss src X ⟨W2, T2, s1.V⟩], ?_⟩
      simp only [IlrmaCall.call, (C86_initial .ip1 floor draw X).1, baseCall, iterations, hstep, bind, Except.bind,
        Bool.false_eq_true, if_false]
      rfl
  refine ⟨fun sr hsr => ?_, fun sr hsr hn => ?_⟩
  · obtain ⟨ls, h⟩ := hcall sr
    have : finish sr r X W2 = .ok (separate X W2, W2) := by
      rw [finish_eq, restore_none hsr]
      rfl
    rw [this] at h
    refine ⟨_, _, h, rfl, fun f k j hk => ?_⟩
    change (W2 f * X f) k j = 0
    rw [mul_apply]
    exact Finset.sum_eq_zero fun i _ => by rw [hrow f k hk i, zero_mul]
  · obtain ⟨ls, h⟩ := hcall sr
    have hsing : ¬ ∀ f, IsUnit (W2 f).det := by
      intro hall
      obtain ⟨f⟩ := ‹Nonempty F›
      have : ∃ k : Fin n, k ≠ r' := by
        have : Nontrivial (Fin n) := Fin.nontrivial_iff_two_le.mpr hn
        exact exists_ne r'
      obtain ⟨k, hk⟩ := this
      exact (hall f).ne_zero (det_eq_zero_of_row_eq_zero k (hrow f k hk))
    obtain ⟨ht, hr⟩ := restore_pb hsr (applyProjectionBack r X W2) (applyMdp r X W2)
    have : finish sr r X W2 = .error .linalg := by
      simp only [finish, ht, hr, if_true]
      simp only [applyProjectionBack, projectionBackFilter, npInvB, if_neg hsing, bind, Except.bind]
    rw [h, this]
    rfl

/-- Such a recording. -/
example : Disjoint exX where
  apart f i k j h := by
    fin_cases i <;> fin_cases k <;> first | exact absurd rfl h | (fin_cases j <;> simp [exX])
  sounds f k := by
    fin_cases k
    · exact ⟨0, by simp [exX]⟩
    · exact ⟨1, by simp [exX]⟩

end

/-! ## `AuxIVA` -/

section

variable (np : Numpy ℂ) {floor : ℝ → ℝ} (hf : ∀ x, 0 ≤ x → 0 < floor x) (G : Fin n → Fin t → ℝ → ℝ)
  {d : Fin n → Fin t → ℝ → ℝ} (hd : ∀ k j x, 0 ≤ x → 0 < d k j x) {X : Spec F n t}

include hf hd in
theorem weight_pos (Y : Spec F n t) (k : Fin n) (j : Fin t) : 0 < Iva.weight floor d Y k j :=
  div_pos (hd k j _ (Iva.binNorm_nonneg Y k j)) (hf _ (mul_nonneg zero_le_two (Iva.binNorm_nonneg Y k j)))

include hf hd

theorem update_ok (hX : ∀ f, LinearIndependent ℂ (X f).row) {alg : FilterAlg n} (halg : alg.Valid) (W : F → Mat n ℂ)
    (hW : ∀ f, IsUnit (W f).det) :
    ∃ W', IvaCall.update np alg floor d X W = .ok W' ∧ ∀ f, IsUnit (W' f).det := by
  have hf' : ∀ x, 0 < x → floor x ≠ 0 := fun x hx => (hf x hx.le).ne'
  cases alg with
  | ip1 => exact Iva.ip1Stack_floored hf' (fun _ => weight_pos hf hd (separate X W)) hX hW
  | ip2 pairs =>
    obtain ⟨V, h0, hrun, -, hP⟩ := foldlM_trace (Iva.auxIp2Pair np floor d X) (fun W => ∀ f, IsUnit (W f).det)
      (fun _ _ _ => True) pairs (fun W q hq hW => by
        choose W' h1 h2 using fun f => ip2Pair_floored np hf' (U := Iva.wcov (Iva.weight floor d (separate X W)) X f) (halg q hq)
          (fun k => Iva.wcov_posDef (weight_pos hf hd (separate X W)) hX f k) (hW f)
        exact ⟨W', onBins_ok h1, h2, trivial⟩) W hW
    exact ⟨_, hrun, hP _ le_rfl⟩

theorem updateY_ok (hX : ∀ f, LinearIndependent ℂ (X f).row) {alg : SignalAlg n} (halg : alg.Valid) (Y : Spec F n t)
    (hY : ∃ W : F → Mat n ℂ, (∀ f, IsUnit (W f).det) ∧ Y = separate X W) :
    ∃ Y', IvaCall.updateY np alg floor d Y = .ok Y' ∧ ∃ W : F → Mat n ℂ, (∀ f, IsUnit (W f).det) ∧ Y' = separate X W := by
  obtain ⟨W, hW, rfl⟩ := hY
  obtain ⟨W', h1, h2⟩ := spatialSignal_floored np halg hf (phi := fun _ => Iva.weight floor d (separate X W))
    (fun _ => weight_pos hf hd (separate X W)) hX hW
  refine ⟨_, ?_, W', h2, rfl⟩
  cases alg with
  | iss1 => exact h1
  | iss2 pairs => exact h1

variable {sr : ScaleOpt} (hsr : Known sr) (r : Fin n) (hX : ∀ f, LinearIndependent ℂ (X f).row) (n_iter : ℕ) (ic : Bool)
  (kw : Option (F → Mat n ℂ)) (o : IvaCall.Obj F n t)
  (hW : Attr.Has (fun W => ∀ f, IsUnit (W f).det) (override kw o.demix))

include hX hW hsr

/-- C88 for `AuxIVA` with IP1 or IP2 and any contrast function whose derivative is positive, also at zero (for `AuxLaplaceIVA`
it is constant): a call returns for every recording whose channels are linearly independent in every bin. -/
theorem C88_iva_returns {alg : FilterAlg n} (halg : alg.Valid) :
    ∃ W ls, IvaCall.call np alg floor G d sr r X n_iter ic kw o = .ok ⟨.val W, .val (separate X W), ls⟩ ∧
      ls.length = o.loss.length + (if ic then 1 else 0) + n_iter := by
  obtain ⟨W, w1, w2⟩ := reset_ok (label alg) X (kw := kw) (o := ⟨o.demix, o.output⟩) hW
  rw [label_filterFree, if_neg (by simp)] at w2
  have hreset : IvaCall.reset alg X kw o = .ok W := by
    simp only [IvaCall.reset, w2, bind, Except.bind]
  obtain ⟨W', ls, e1, e2, -, e3⟩ := baseCall_inv (fun W : F → Mat n ℂ => ∀ f, IsUnit (W f).det) (fun W => ∀ f, IsUnit (W f).det)
    (fun _ h => h) (fun W hW => update_ok np hf hd hX halg W hW) (loss := fun W => .ok (Iva.lossIp G X W))
    (fun _ _ => ⟨_, rfl⟩) ic n_iter W o.loss w1
  obtain ⟨V, f1⟩ := finish_ok hsr r hX e2
  refine ⟨V, ls, ?_, e3⟩
  simp only [IvaCall.call, hreset, e1, f1, bind, Except.bind]

/-- C88 for `AuxIVA` with ISS1 or ISS2. -/
theorem C88_iva_returns_signal {alg : SignalAlg n} (halg : alg.Valid) :
    ∃ W ls, IvaCall.callSignal np alg floor G d sr r X n_iter ic kw o = .ok ⟨.none, .val (separate X W), ls⟩ ∧
      ls.length = o.loss.length + (if ic then 1 else 0) + n_iter := by
  obtain ⟨W, w1, w2⟩ := reset_ok (labelY alg) X (kw := kw) (o := ⟨o.demix, o.output⟩) hW
  obtain ⟨Y', ls, e1, ⟨W', e2, rfl⟩, -, e3⟩ := baseCall_inv
    (fun Y : Spec F n t => ∃ W : F → Mat n ℂ, (∀ f, IsUnit (W f).det) ∧ Y = separate X W)
    (fun Y => ∃ W : F → Mat n ℂ, (∀ f, IsUnit (W f).det) ∧ Y = separate X W)
    (fun _ h => h) (fun Y hY => updateY_ok np hf hd hX halg Y hY) (loss := Iva.lossFree G X)
    (fun Y _ => by
      have hu : ∀ f, IsUnit (X f * (X f)ᴴ).det := Iva.gram_isUnit X hX
      rw [Iva.lossFree, npInvB, if_pos hu]
      exact ⟨_, rfl⟩) ic n_iter (separate X W) o.loss ⟨W, w1, rfl⟩
  obtain ⟨V, f1⟩ := finishFree_ok hsr r hX e2
  refine ⟨V, ls, ?_, e3⟩
  simp only [IvaCall.callSignal, w2, e1, f1, bind, Except.bind]

end

/-! ## `AuxFDICA` -/

/-- The settings of `permutation_alignment` that exist. -/
def KnownAlign (opt : Fdica.PermOpt) : Prop :=
  opt = .bool true ∨ opt = .bool false ∨ opt = .str "" ∨ opt = .str "spectrogram_correlation"

/-- C88 for `AuxFDICA` with IP1 or IP2 and any contrast function whose derivative is positive, also at zero, with or without
alignment of the sources. -/
theorem C88_fdica_returns {B : ℕ} (hB : 0 < B) (sort : Permutation.Argsort) (np : Numpy ℂ) {alg : FilterAlg n} (halg : alg.Valid)
    {opt : Fdica.PermOpt} (hopt : KnownAlign opt) {floor : ℝ → ℝ} (hf : ∀ x, 0 ≤ x → 0 < floor x) (G : ℝ → ℝ) {d : ℝ → ℝ}
    (hd : ∀ x, 0 ≤ x → 0 < d x) {sr : ScaleOpt} (hsr : Known sr) (r : Fin n) {X : Spec (Fin B) n t}
    (hX : ∀ f, LinearIndependent ℂ (X f).row) (n_iter : ℕ) (ic : Bool) (kw : Option (Fin B → Mat n ℂ))
    (o : IvaCall.Obj (Fin B) n t) (hW : Attr.Has (fun W => ∀ f, IsUnit (W f).det) (override kw o.demix)) :
    ∃ W ls, Fdica.auxCall sort np alg opt floor G d sr r X n_iter ic kw o = .ok ⟨.val W, .val (separate X W), ls⟩ ∧
      ls.length = o.loss.length + (if ic then 1 else 0) + n_iter := by
  have hf' : ∀ x, 0 < x → floor x ≠ 0 := fun x hx => (hf x hx.le).ne'
  have hw : ∀ (Y : Matrix (Fin n) (Fin t) ℂ) k j, 0 < Fdica.weight floor d Y k j := fun Y k j =>
    div_pos (hd _ (norm_nonneg _)) (hf _ (mul_nonneg zero_le_two (norm_nonneg _)))
  have hstep : ∀ W : Fin B → Mat n ℂ, (∀ f, IsUnit (W f).det) →
      ∃ W', Fdica.auxUpdate np alg floor d X W = .ok W' ∧ ∀ f, IsUnit (W' f).det := by
    intro W hW
    cases alg with
    | ip1 => exact Iva.ip1Stack_floored hf' (fun f => hw (separate X W f)) hX hW
    | ip2 pairs =>
      obtain ⟨V, h0, hrun, -, hP⟩ := foldlM_trace (Fdica.auxIp2Pair np floor d X) (fun W => ∀ f, IsUnit (W f).det)
        (fun _ _ _ => True) pairs (fun W q hq hW => by
          choose W' h1 h2 using fun f => ip2Pair_floored np hf' (U := Iva.wcov (Fdica.weight floor d (separate X W f)) X f)
            (halg q hq) (fun k => Iva.wcov_posDef (hw (separate X W f)) hX f k) (hW f)
          exact ⟨W', onBins_ok h1, h2, trivial⟩) W hW
      exact ⟨_, hrun, hP _ le_rfl⟩
  obtain ⟨W, w1, w2⟩ : ∃ W, (∀ f, IsUnit (W f).det) ∧ Fdica.auxReset X kw o = .ok W := by
    rcases hW with h | ⟨W, h, hW⟩
    · exact ⟨fun _ => 1, fun _ => by rw [det_one]; exact isUnit_one, by rw [Fdica.auxReset, h]⟩
    · exact ⟨W, hW, by rw [Fdica.auxReset, h]⟩
  obtain ⟨W', ls, e1, e2, -, e3⟩ := baseCall_inv (fun W : Fin B → Mat n ℂ => ∀ f, IsUnit (W f).det)
    (fun W => ∀ f, IsUnit (W f).det) (fun _ h => h) hstep (loss := fun W => .ok (Fdica.loss G X W)) (fun _ _ => ⟨_, rfl⟩) ic
    n_iter W o.loss w1
  obtain ⟨V, f1⟩ := finish_ok hsr r hX e2
  obtain ⟨V', f2⟩ : ∃ V', Fdica.finishAligned sort opt floor sr r X W' = .ok (separate X V', V') := by
    have hon : opt = .bool true ∨ opt = .str "spectrogram_correlation" →
        ∃ V', Fdica.finishAligned sort opt floor sr r X W' = .ok (separate X V', V') := by
      intro h
      obtain ⟨σ, -, -, h1, -⟩ := Fdica.C84_reorders sort opt h floor sr r X W' hB
      refine ⟨Fdica.rows σ V, ?_⟩
      rw [h1, f1, Fdica.separate_rows]
      rfl
    rcases hopt with h | h | h | h
    · exact hon (.inl h)
    · exact ⟨V, by rw [Fdica.C84_off sort opt (.inl h), f1]⟩
    · exact ⟨V, by rw [Fdica.C84_off sort opt (.inr h), f1]⟩
    · exact hon (.inr h)
  refine ⟨V', ls, ?_, e3⟩
  simp only [Fdica.auxCall, w2, e1, f2, bind, Except.bind]

/-- `AuxLaplaceFDICA` with default options. -/
example (sort : Permutation.Argsort) (np : Numpy ℂ) (n_iter : ℕ) : ∃ o', Fdica.auxCall sort np .ip1 (.bool true)
    (Special.max_flooring (1 / 10 ^ 10)) Fdica.laplaceG Fdica.laplaceD (.bool true) 0 exX n_iter true none IvaCall.Obj.fresh
    = .ok o' := by
  obtain ⟨W, ls, h, -⟩ := C88_fdica_returns (by norm_num) sort np (alg := .ip1) trivial (opt := .bool true) (.inl rfl)
    (fun x _ => max_flooring_pos x) Fdica.laplaceG (d := Fdica.laplaceD) (fun _ _ => two_pos) (sr := .bool true)
    (.inr (.inl (.inl rfl))) 0 exX_indep n_iter true none IvaCall.Obj.fresh (.inl rfl)
  exact ⟨_, h⟩

/-- `AuxLaplaceIVA` with ISS2. -/
example (np : Numpy ℂ) (n_iter : ℕ) : ∃ o', IvaCall.callSignal np (.iss2 [(1, 0)]) (Special.max_flooring (1 / 10 ^ 10))
    Iva.laplaceG Iva.laplaceD (.str "MDP") 0 exX n_iter true none IvaCall.Obj.fresh = .ok o' := by
  obtain ⟨W, ls, h, -⟩ := C88_iva_returns_signal np (fun x _ => max_flooring_pos x) Iva.laplaceG (d := Iva.laplaceD)
    (fun _ _ _ _ => two_pos) (sr := .str "MDP") (.inr (.inr (.inr (.inr rfl)))) 0 exX_indep n_iter true none
    IvaCall.Obj.fresh (.inl rfl) (alg := .iss2 [(1, 0)]) (by simp [SignalAlg.Valid])
  exact ⟨_, h⟩

/-- C88, the exception: `AuxGaussIVA` divides by the variance of the frame, which the flooring function does not see. In a
frame that is silent in all bins the variance is zero for every demixing filter, so its weight and its part of the loss are
quotients of zeros (not a number in floating point), whatever the flooring function is. -/
theorem C88_gauss_silent_frame (X : Spec F n t) (j : Fin t) (hj : ∀ f c, X f c j = 0) (W : F → Mat n ℂ) (k : Fin n) :
    Iva.gaussVariance (separate X W) k j = 0 ∧ Iva.binNorm (separate X W) k j = 0 := by
  have h : ∀ f, separate X W f k j = 0 := by
    intro f
    simp only [separate, mul_apply, hj, mul_zero, Finset.sum_const_zero]
  simp [Iva.gaussVariance, Iva.binNorm, h]

end Verif.FlooredCall
