import Verif.Props.Ilrma

/-! # C41: the floor of the NMF parameters of ILRMA, and C38 with the default flooring -/

set_option linter.unusedSectionVars false

namespace Verif

/-- The state after `n` updates. -/
def stateAfter {σ : Type} (step : σ → Except PyErr σ) : ℕ → σ → Except PyErr σ
  | 0, s => .ok s
  | n + 1, s => do
    let s' ← step s
    stateAfter step n s'

/-- What one update establishes holds after every positive number of updates. -/
theorem stateAfter_of_step {σ : Type} {step : σ → Except PyErr σ} {P : σ → Prop}
    (h : ∀ s s', step s = .ok s' → P s') (n : ℕ) (s s' : σ) (hn : n ≠ 0) (hrun : stateAfter step n s = .ok s') :
    P s' := by
  induction n generalizing s with
  | zero => exact absurd rfl hn
  | succ n ih =>
    rw [stateAfter] at hrun
    cases hstep : step s with
    | error e => simp [hstep, bind, Except.bind] at hrun
    | ok s1 =>
      rw [hstep] at hrun
      change stateAfter step n s1 = .ok s' at hrun
      rcases n with _ | n
      · cases hrun
        exact h s _ hstep
      · exact ih s1 (by omega) hrun

/-- The same for what holds as long as every update starts from a regular state. -/
theorem stateAfter_of_reg {σ : Type} {step : σ → Except PyErr σ} {P Q Reg : σ → Prop}
    (h : ∀ s s', P s → Reg s → step s = .ok s' → P s' ∧ Q s') (n : ℕ) (s s' : σ) (hn : n ≠ 0) (hs : P s)
    (hreg : RegularRun step Reg n s) (hrun : stateAfter step n s = .ok s') : Q s' := by
  induction n generalizing s with
  | zero => exact absurd rfl hn
  | succ n ih =>
    rw [stateAfter] at hrun
    cases hstep : step s with
    | error e => simp [hstep, bind, Except.bind] at hrun
    | ok s1 =>
      rw [hstep] at hrun
      change stateAfter step n s1 = .ok s' at hrun
      obtain ⟨h1, h2⟩ := h s s1 hs hreg.1 hstep
      rcases n with _ | n
      · cases hrun
        exact h2
      · exact ih s1 (by omega) h1 (hreg.2 s1 hstep) hrun

namespace Ilrma

open Matrix Spatial Scale Mult Iva

variable {F : Type} [Fintype F] {n t K : ℕ}

private theorem bind_ok {α β : Type} {x : Except PyErr α} {g : α → Except PyErr β} {b : β}
    (h : x.bind g = .ok b) : ∃ a, x = .ok a ∧ g a = .ok b := by
  cases x with
  | error e => simp [Except.bind] at h
  | ok a => exact ⟨a, rfl, h⟩

private theorem updateSpatial_keeps {np : Numpy ℂ} {src : Source} {alg : FilterAlg n} {floor : ℝ → ℝ} {X : Spec F n t}
    {s s' : St F n t K} (h : updateSpatial np src alg floor X s = .ok s') : s'.T = s.T ∧ s'.V = s.V := by
  obtain ⟨W, -, h2⟩ := bind_ok h
  cases h2
  exact ⟨rfl, rfl⟩

/-- C41: after any positive number of iterations, whatever the mixture, the start, the algorithm and the
normalisation, every activation is at or above the floor; without normalisation so is every basis value. -/
theorem C41_floor (np : Numpy ℂ) (src : Source) (p : ℝ) (alg : FilterAlg n) (norm : Norm n) (floor : ℝ → ℝ) (eps : ℝ)
    (hfloor : ∀ x, eps ≤ floor x) (X : Spec F n t) (s s' : St F n t K) (n_iter : ℕ) (hn : n_iter ≠ 0)
    (h : stateAfter (updateOnce np src p alg norm floor X) n_iter s = .ok s') :
    (∀ k b j, eps ≤ s'.V k b j) ∧ (norm = .off → ∀ k f b, eps ≤ s'.T k f b) := by
  refine stateAfter_of_step (P := fun s' : St F n t K =>
    (∀ k b j, eps ≤ s'.V k b j) ∧ (norm = .off → ∀ k f b, eps ≤ s'.T k f b)) ?_ n_iter s s' hn h
  intro s s' h
  obtain ⟨s1, h1, h2⟩ := bind_ok h
  obtain ⟨hT, hV⟩ := updateSpatial_keeps h1
  have hV1 : ∀ k b j, eps ≤ s1.V k b j := fun k b j => by rw [hV]; exact hfloor _
  have hT1 : ∀ k f b, eps ≤ s1.T k f b := fun k f b => by rw [hT]; exact hfloor _
  cases norm with
  | off => cases h2; exact ⟨hV1, fun _ => hT1⟩
  | power => cases h2; exact ⟨hV1, fun h => by cases h⟩
  | projectionBack r =>
    obtain ⟨_, -, h3⟩ := bind_ok h2
    cases h3
    exact ⟨hV1, fun h => by cases h⟩

/-- C41: with power normalisation the bases stay positive. -/
theorem C41_positive (np : Numpy ℂ) (src : Source) (p : ℝ) (alg : FilterAlg n) (floor : ℝ → ℝ) (eps : ℝ) (heps : 0 < eps)
    (hfloor : ∀ x, eps ≤ floor x) (X : Spec F n t) (s s' : St F n t K) (n_iter : ℕ) (hn : n_iter ≠ 0)
    (h : stateAfter (updateOnce np src p alg .power floor X) n_iter s = .ok s') (k : Fin n) (f : F) (b : Fin K) :
    0 < s'.T k f b := by
  refine stateAfter_of_step (P := fun s' : St F n t K => ∀ k f b, 0 < s'.T k f b) ?_ n_iter s s' hn h k f b
  intro s s' h k f b
  obtain ⟨s1, h1, h2⟩ := bind_ok h
  cases h2
  have : eps ≤ s1.T k f b := by rw [(updateSpatial_keeps h1).1]; exact hfloor _
  exact div_pos (heps.trans_le this) (Real.rpow_pos_of_pos (heps.trans_le (hfloor _)) p)

/-- C41, where the claim fails: with the (default) power normalisation one iteration can leave a basis value below
the floor, because nothing is floored after the division. For every floor in `(0, 1)` there is a mixture of one
source on which it happens. -/
theorem C41_normalisation_breaks_floor (np : Numpy ℂ) (eps : ℝ) (h0 : 0 < eps) (h1 : eps < 1) :
    ∃ (x : ℂ) (s' : St Unit 1 1 1),
      updateOnce np (gauss 2) 2 .ip1 .power (fun a => max a eps) (fun _ => !![x])
        ⟨fun _ => 1, fun _ _ _ => 1, fun _ _ _ => 1⟩ = .ok s' ∧ s'.T 0 () 0 < eps := by
  obtain ⟨c, rfl⟩ : ∃ c : ℝ, eps = c⁻¹ := ⟨eps⁻¹, (inv_inv eps).symm⟩
  have hc : 0 < c := inv_pos.mp h0
  have hc1 : 1 < c := by
    by_contra h
    exact absurd h1 (not_lt.mpr ((one_le_inv₀ hc).mpr (not_lt.mp h)))
  have hle : ∀ a : ℝ, 1 ≤ a → max a c⁻¹ = a := fun a ha => max_eq_left (h1.le.trans ha)
  set floor : ℝ → ℝ := fun a => max a c⁻¹ with hfl
  set X : Spec Unit 1 1 := fun _ => !![((c ^ 4 : ℝ) : ℂ)] with hX
  set s : St Unit 1 1 1 := ⟨fun _ => 1, fun _ _ _ => 1, fun _ _ _ => 1⟩ with hs
  have hY : separate X s.W = X := by
    funext f
    simp [separate, hs]
  have hYn : ‖X () 0 0‖ = c ^ 4 := by
    simp only [hX, of_apply, cons_val', cons_val_fin_one, Complex.norm_real]
    exact Real.norm_of_nonneg (by positivity)
  have hT1 : updateBasis (gauss 2) floor X s.T s.V 0 () 0 = c ^ 4 := by
    have : basisRaw (gauss 2) X s.T s.V 0 () 0 = c ^ 4 := by
      simp only [basisRaw, recon, gauss, hs, Finset.univ_unique, Finset.sum_singleton, Fin.default_eq_zero, hYn,
        Real.one_rpow, mul_one, one_mul, div_one]
      rw [show (2 : ℝ) / (2 + 2) = 1 / 2 by norm_num, ← Real.sqrt_eq_rpow, Real.sqrt_sq (by positivity)]
    rw [updateBasis, this]
    exact hle _ (one_le_pow₀ hc1.le)
  have hV1 : updateActivation (gauss 2) floor X (updateBasis (gauss 2) floor X s.T s.V) s.V 0 0 0 = c ^ 2 := by
    have : activationRaw (gauss 2) X (updateBasis (gauss 2) floor X s.T s.V) s.V 0 0 0 = c ^ 2 := by
      simp only [activationRaw, recon, gauss, Finset.univ_unique, Finset.sum_singleton, Fin.default_eq_zero,
        PUnit.default_eq_unit, hYn] at hT1 ⊢
      rw [hT1]
      simp only [hs, mul_one]
      rw [show ((2 : ℝ) + 2) / 2 = (2 : ℕ) by norm_num, Real.rpow_natCast, show (2 : ℝ) / (2 + 2) = 1 / 2 by norm_num,
        ← Real.sqrt_eq_rpow]
      rw [show (c ^ 4 * ((c ^ 4) ^ 2 / (c ^ 4) ^ 2) / (c ^ 4 / c ^ 4)) = (c ^ 2) ^ 2 by field_simp]
      exact Real.sqrt_sq (by positivity)
    rw [updateActivation, this]
    exact hle _ (one_le_pow₀ hc1.le)
  set s1 := updateSource (gauss 2) floor X s with hs1
  have hR : recon s1.T s1.V 0 () 0 = c ^ 6 := by
    have hT : s1.T 0 () 0 = c ^ 4 := by rw [hs1, updateSource, hY]; exact hT1
    have hV : s1.V 0 0 0 = c ^ 2 := by rw [hs1, updateSource, hY]; exact hV1
    simp only [recon, Finset.univ_unique, Finset.sum_singleton, Fin.default_eq_zero, hT, hV]
    ring
  have hU : ∀ f k, wcov (varphi (gauss 2) floor (separate X s1.W) (recon s1.T s1.V) f) X f k
      = !![((c ^ 2 : ℝ) : ℂ)] := by
    intro f k
    ext i j
    rw [Subsingleton.elim i 0, Subsingleton.elim j 0, Subsingleton.elim k 0]
    simp only [wcov, varphi, gauss, of_apply, meanT, hR, hX, cons_val', cons_val_fin_one,
      Finset.univ_unique, Finset.sum_singleton, Fin.default_eq_zero]
    rw [show (2 : ℝ) / 2 = (1 : ℕ) by norm_num, Real.rpow_natCast]
    simp only [Complex.star_def, Complex.conj_ofReal]
    norm_cast
    field_simp
  have hsp : updateSpatial np (gauss 2) .ip1 floor X s1 = .ok ⟨fun _ => !![((c⁻¹ : ℝ) : ℂ)], s1.T, s1.V⟩ := by
    have hc0 : (c : ℂ) ≠ 0 := by exact_mod_cast hc.ne'
    have hrow : ip1Row floor (fun _ => !![((c ^ 2 : ℝ) : ℂ)]) (1 : Mat 1 ℂ) 0 = .ok !![((c⁻¹ : ℝ) : ℂ)] := by
      rw [ip1Row_of_solution floor (w := fun _ => (((c ^ 2)⁻¹ : ℝ) : ℂ)) (by simp [hc0]) ?_]
      · have hq : hUh (!![((c ^ 2 : ℝ) : ℂ)] : Mat 1 ℂ) (fun _ => (((c ^ 2)⁻¹ : ℝ) : ℂ)) = (c⁻¹) ^ 2 := by
          have e : (star (fun _ => (((c ^ 2)⁻¹ : ℝ) : ℂ)) ⬝ᵥ
              ((!![((c ^ 2 : ℝ) : ℂ)] : Mat 1 ℂ) *ᵥ (fun _ => (((c ^ 2)⁻¹ : ℝ) : ℂ)))) = (((c⁻¹) ^ 2 : ℝ) : ℂ) := by
            simp [dotProduct, mulVec, hc0]
          rw [hUh, e, Complex.ofReal_re]
          exact max_eq_left (by positivity)
        congr 1
        ext i j
        rw [Subsingleton.elim i 0, Subsingleton.elim j 0, hq, Real.sqrt_sq h0.le]
        simp only [hfl, max_self, updateRow_self, of_apply, cons_val', cons_val_fin_one, Complex.star_def,
          Complex.conj_ofReal]
        norm_cast
        field_simp
      · ext i
        rw [Subsingleton.elim i 0]
        simp [mulVec, dotProduct, hc0]
    have : spatialFilter np .ip1 floor (varphi (gauss 2) floor (separate X s1.W) (recon s1.T s1.V)) X s1.W
        = .ok fun _ => !![((c⁻¹ : ℝ) : ℂ)] := by
      have hU' : (fun f => wcov (varphi (gauss 2) floor (separate X s1.W) (recon s1.T s1.V) f) X f)
          = fun _ _ => !![((c ^ 2 : ℝ) : ℂ)] := by
        funext f k
        exact hU f k
      rw [spatialFilter, hU']
      refine foldlM_onBins (fun _ => ip1Row floor fun _ => !![((c ^ 2 : ℝ) : ℂ)]) (List.finRange 1) s1.W _ fun f => ?_
      change (List.finRange 1).foldlM _ (1 : Mat 1 ℂ) = _
      rw [show List.finRange 1 = [0] from rfl, List.foldlM_cons, hrow]
      rfl
    rw [updateSpatial, this]
    rfl
  have hpsi : psi floor (separate X fun _ => !![((c⁻¹ : ℝ) : ℂ)]) 0 = c ^ 3 := by
    have e : separate X (fun _ => !![((c⁻¹ : ℝ) : ℂ)]) () 0 0 = ((c ^ 3 : ℝ) : ℂ) := by
      simp only [separate, hX, mul_apply, Finset.univ_unique, Finset.sum_singleton, of_apply, cons_val',
        cons_val_fin_one]
      norm_cast
      field_simp
    rw [psi]
    simp only [Finset.univ_unique, Finset.sum_singleton, Fin.default_eq_zero, PUnit.default_eq_unit, e,
      Complex.norm_real, Fintype.card_unit]
    rw [Real.norm_of_nonneg (by positivity)]
    norm_num
    rw [Real.sqrt_sq (by positivity)]
    exact hle _ (one_le_pow₀ hc1.le)
  refine ⟨((c ^ 4 : ℝ) : ℂ),
    ⟨divRows (psi floor (separate X fun _ => !![((c⁻¹ : ℝ) : ℂ)])) fun _ => !![((c⁻¹ : ℝ) : ℂ)],
      divBasis 2 (psi floor (separate X fun _ => !![((c⁻¹ : ℝ) : ℂ)])) s1.T, s1.V⟩, ?_, ?_⟩
  · rw [updateOnce, hsp]
    rfl
  · have hT : s1.T 0 () 0 = c ^ 4 := by rw [hs1, updateSource, hY]; exact hT1
    simp only [divBasis, hpsi, hT]
    rw [show (2 : ℝ) = (2 : ℕ) by norm_num, Real.rpow_natCast]
    rw [show c ^ 4 / (c ^ 3) ^ 2 = c⁻¹ * c⁻¹ by field_simp]
    nlinarith

/-- The factors of the numerators are not negative; true of every class. -/
def NumNonneg (src : Source) : Prop := ∀ y r, 0 ≤ y → 0 ≤ r → 0 ≤ src.num y r

theorem gauss_numNonneg (p : ℝ) : NumNonneg (gauss p) := fun y r _ hr =>
  div_nonneg (sq_nonneg y) (Real.rpow_nonneg hr _)

theorem student_numNonneg {p nu : ℝ} (hnu : 0 < nu) : NumNonneg (student p nu) := fun y r _ hr => by
  have h1 : 0 ≤ nu / (nu + 2) := by positivity
  have h2 : 0 ≤ 1 - nu / (nu + 2) := by
    rw [sub_nonneg, div_le_one (by positivity)]
    linarith
  exact div_nonneg (sq_nonneg y) (mul_nonneg (add_nonneg (mul_nonneg h1 (Real.rpow_nonneg hr _))
    (mul_nonneg h2 (sq_nonneg y))) hr)

theorem ggd_numNonneg {p beta : ℝ} (hb : 0 < beta) : NumNonneg (ggd p beta) := fun y r hy hr =>
  mul_nonneg (by positivity) (div_nonneg (Real.rpow_nonneg hy _) (Real.rpow_nonneg hr _))

private theorem reconP_nonneg {Z : Fin n → Fin K → ℝ} {T : F → Fin K → ℝ} {V : Fin K → Fin t → ℝ}
    (hZ : ∀ k b, 0 ≤ Z k b) (hT : ∀ f b, 0 < T f b) (hV : ∀ b j, 0 < V b j) (k : Fin n) (f : F) (j : Fin t) :
    0 ≤ reconP Z T V k f j :=
  Finset.sum_nonneg fun b _ => mul_nonneg (hZ k b) (mul_pos (hT f b) (hV b j)).le

private theorem latentRaw_nonneg {src : Source} (hnum : NumNonneg src) {Y : Spec F n t} {Z : Fin n → Fin K → ℝ}
    {T : F → Fin K → ℝ} {V : Fin K → Fin t → ℝ} (hZ : ∀ k b, 0 ≤ Z k b) (hT : ∀ f b, 0 < T f b)
    (hV : ∀ b j, 0 < V b j) (k : Fin n) (b : Fin K) : 0 ≤ latentRaw src Y Z T V k b := by
  refine mul_nonneg (Real.rpow_nonneg (div_nonneg ?_ ?_) _) (hZ k b)
  · exact Finset.sum_nonneg fun f _ => Finset.sum_nonneg fun j _ => mul_nonneg (mul_pos (hT f b) (hV b j)).le
      (hnum _ _ (norm_nonneg _) (reconP_nonneg hZ hT hV k f j))
  · exact Finset.sum_nonneg fun f _ => Finset.sum_nonneg fun j _ => div_nonneg (mul_pos (hT f b) (hV b j)).le
      (reconP_nonneg hZ hT hV k f j)

private theorem updateSpatialP_keeps {np : Numpy ℂ} {src : Source} {alg : FilterAlg n} {floor : ℝ → ℝ}
    {X : Spec F n t} {s s' : StP F n t K} (h : updateSpatialP np src alg floor X s = .ok s') :
    s'.Z = s.Z ∧ s'.T = s.T ∧ s'.V = s.V := by
  obtain ⟨W, -, h2⟩ := bind_ok h
  cases h2
  exact ⟨rfl, rfl, rfl⟩

/-- C41: with partitioning, after any positive number of iterations, whatever the algorithm and the normalisation, the
latent variables are non-negative and sum to one over the sources, activations are at or above the floor and bases
are positive, provided no base vanished from all sources at once (then the code divides zero by zero). -/
theorem C41_latent (np : Numpy ℂ) (src : Source) (hnum : NumNonneg src) (p : ℝ) (alg : FilterAlg n) (norm : Norm n)
    (floor : ℝ → ℝ) (eps : ℝ) (heps : 0 < eps) (hfloor : ∀ x, eps ≤ floor x) (X : Spec F n t) (s s' : StP F n t K)
    (hZ : ∀ k b, 0 ≤ s.Z k b) (hT : ∀ f b, 0 < s.T f b) (hV : ∀ b j, 0 < s.V b j) (n_iter : ℕ) (hn : n_iter ≠ 0)
    (hreg : RegularRun (updateOnceP np src p alg norm floor X)
      (fun s => ∀ b, ∑ k, latentRaw src (separate X s.W) s.Z s.T s.V k b ≠ 0) n_iter s)
    (h : stateAfter (updateOnceP np src p alg norm floor X) n_iter s = .ok s') :
    (∀ k b, 0 ≤ s'.Z k b) ∧ (∀ b, ∑ k, s'.Z k b = 1) ∧ (∀ b j, eps ≤ s'.V b j) ∧ (∀ f b, 0 < s'.T f b) := by
  refine stateAfter_of_reg (P := fun s : StP F n t K => (∀ k b, 0 ≤ s.Z k b) ∧ (∀ f b, 0 < s.T f b) ∧
      ∀ b j, 0 < s.V b j)
    (Q := fun s' : StP F n t K => (∀ k b, 0 ≤ s'.Z k b) ∧ (∀ b, ∑ k, s'.Z k b = 1) ∧ (∀ b j, eps ≤ s'.V b j) ∧
      (∀ f b, 0 < s'.T f b)) ?_ n_iter s s' hn ⟨hZ, hT, hV⟩ hreg h
  clear hreg h hZ hT hV s s'
  rintro s s' ⟨hZ, hT, hV⟩ hreg h
  suffices hQ : (∀ k b, 0 ≤ s'.Z k b) ∧ (∀ b, ∑ k, s'.Z k b = 1) ∧ (∀ b j, eps ≤ s'.V b j) ∧
      (∀ f b, 0 < s'.T f b) from ⟨⟨hQ.1, hQ.2.2.2, fun b j => heps.trans_le (hQ.2.2.1 b j)⟩, hQ⟩
  obtain ⟨s1, h1, h2⟩ := bind_ok h
  obtain ⟨eZ, eT, eV⟩ := updateSpatialP_keeps h1
  have hV1 : ∀ b j, eps ≤ s1.V b j := fun b j => by rw [eV]; exact hfloor _
  have hT1 : ∀ f b, 0 < s1.T f b := fun f b => by rw [eT]; exact heps.trans_le (hfloor _)
  have hZ1 : ∀ k b, 0 ≤ s1.Z k b := fun k b => by
    rw [eZ]
    exact div_nonneg (latentRaw_nonneg hnum hZ hT hV k b)
      (Finset.sum_nonneg fun k' _ => latentRaw_nonneg hnum hZ hT hV k' b)
  have hS1 : ∀ b, ∑ k, s1.Z k b = 1 := fun b => by
    rw [eZ]
    simp only [updateSourceP, updateLatent, ← Finset.sum_div]
    exact div_self (hreg b)
  cases norm with
  | off => cases h2; exact ⟨hZ1, hS1, hV1, hT1⟩
  | projectionBack r => cases h2
  | power =>
    cases h2
    have hψ : ∀ k, 0 < psi floor (separate X s1.W) k := fun k => heps.trans_le (hfloor _)
    have hnn : ∀ k b, 0 ≤ latentPsi p (psi floor (separate X s1.W)) s1.Z k b := fun k b =>
      div_nonneg (hZ1 k b) (Real.rpow_pos_of_pos (hψ k) p).le
    have hsum : ∀ b, 0 < ∑ k, latentPsi p (psi floor (separate X s1.W)) s1.Z k b := by
      intro b
      obtain ⟨k, -, hk⟩ := Finset.exists_ne_zero_of_sum_ne_zero
        (show ∑ k, s1.Z k b ≠ 0 by rw [hS1 b]; exact one_ne_zero)
      exact Finset.sum_pos' (fun k _ => hnn k b) ⟨k, Finset.mem_univ k,
        div_pos (lt_of_le_of_ne (hZ1 k b) hk.symm) (Real.rpow_pos_of_pos (hψ k) p)⟩
    refine ⟨fun k b => div_nonneg (hnn k b) (hsum b).le, fun b => ?_, hV1, fun f b => mul_pos (hT1 f b) (hsum b)⟩
    simp only [normLatent, ← Finset.sum_div]
    exact div_self (hsum b).ne'

/-! ## Monotonicity with the default flooring -/

/-- Regularity left when the floor is `np.maximum(x, eps)`: the separated signals are admissible and the denominators
of the spatial update are not floored. -/
structure RegMax (np : Numpy ℂ) (src : Source) (ok : ℝ → Prop) (alg : FilterAlg n) (eps : ℝ) (X : Spec F n t)
    (s : St F n t K) : Prop where
  point : ∀ f k j, ok ‖separate X s.W f k j‖
  spatial : ∀ phi, phi = varphi src (fun x => max x eps) (separate X s.W)
      (recon (updateSource src (fun x => max x eps) X s).T (updateSource src (fun x => max x eps) X s).V) →
    spatialFilter np alg (fun x => max x eps) phi X s.W = spatialFilter np alg id phi X s.W

/-- With `max_flooring` (the default) and no normalisation, the loss never increases although basis and activation may
be floored at any iteration. -/
theorem ilrma_run_max [Nonempty (Fin K)] (np : Numpy ℂ) {src : Source} {q κ p : ℝ} {w : ℝ → ℝ → ℝ}
    (hmm : IsMM src q κ w) (hsc : ScaleInv src p) {ok : ℝ → Prop} {eps : ℝ} (heps : 0 < eps)
    (hsp : ∀ y r, 0 ≤ y → ok y → 0 < r → SpatialOk src (fun x => max x eps) y r) (alg : FilterAlg n)
    (halg : alg.Valid) (X : Spec F n t) (ht : 0 < t) (hX : ∀ f, LinearIndependent ℂ (X f).row) (s : St F n t K)
    (hW : ∀ f, IsUnit (s.W f).det) (hT : ∀ k f b, eps ≤ s.T k f b) (hV : ∀ k b j, eps ≤ s.V k b j) (n_iter : ℕ)
    (hreg : RegularRun (updateOnce np src p alg .off (fun x => max x eps) X) (RegMax np src ok alg eps X) n_iter s) :
    ∃ ls, lossList (updateOnce np src p alg .off (fun x => max x eps) X) (fun s => .ok (loss src X s)) n_iter s
      = .ok ls ∧ ls.length = n_iter + 1 ∧ ls.Pairwise (· ≥ ·) := by
  obtain ⟨ls, h1, h2, h3, -⟩ := lossList_antitone (updateOnce np src p alg .off (fun x => max x eps) X)
    (fun s => .ok (loss src X s))
    (fun s => (∀ f, IsUnit (s.W f).det) ∧ (∀ k f b, eps ≤ s.T k f b) ∧ ∀ k b j, eps ≤ s.V k b j)
    (RegMax np src ok alg eps X) (loss src X) (fun _ _ => rfl)
    (fun s hs hr => by
      obtain ⟨s', e1, e2, e3⟩ := updateOnce_step np hmm hsc hsp alg halg .off X ht hX s
        ⟨hs.1, fun k f b => heps.trans_le (hs.2.1 k f b), fun k b j => heps.trans_le (hs.2.2 k b j)⟩
        ⟨fun k f b => FloorMild.of_max heps (hs.2.1 k f b), fun k b j => FloorMild.of_max heps (hs.2.2 k b j),
          hr.point, hr.spatial, fun _ _ => trivial⟩
      have hf := C41_floor np src p alg .off (fun x => max x eps) eps (fun x => le_max_right x eps) X s s' 1 one_ne_zero
        (by rw [stateAfter, e1]; rfl)
      exact ⟨s', e1, ⟨e2.1, hf.2 rfl, hf.1⟩, e3⟩)
    n_iter s ⟨hW, hT, hV⟩ hreg
  exact ⟨ls, h1, h2, h3⟩

/-- C38 with the default flooring: bases and activations may hit the floor. -/
theorem C38_gauss_max_flooring [Nonempty (Fin K)] (np : Numpy ℂ) {p : ℝ} (hp : 0 < p) {eps : ℝ} (heps : 0 < eps)
    (alg : FilterAlg n) (halg : alg.Valid) (X : Spec F n t) (ht : 0 < t) (hX : ∀ f, LinearIndependent ℂ (X f).row)
    (s : St F n t K) (hW : ∀ f, IsUnit (s.W f).det) (hT : ∀ k f b, eps ≤ s.T k f b) (hV : ∀ k b j, eps ≤ s.V k b j)
    (n_iter : ℕ)
    (hreg : RegularRun (updateOnce np (gauss p) p alg .off (fun x => max x eps) X)
      (RegMax np (gauss p) (fun _ => True) alg eps X) n_iter s) :
    ∃ ls, lossList (updateOnce np (gauss p) p alg .off (fun x => max x eps) X) (fun s => .ok (loss (gauss p) X s))
      n_iter s = .ok ls ∧ ls.length = n_iter + 1 ∧ ls.Pairwise (· ≥ ·) :=
  ilrma_run_max np (gauss_isMM hp) (gauss_scaleInv hp) heps (fun _ _ _ _ hr => gauss_spatialOk _ hr) alg halg X ht hX s
    hW hT hV n_iter hreg

/-- C39 with the default flooring. -/
theorem C39_student_max_flooring [Nonempty (Fin K)] (np : Numpy ℂ) {p nu : ℝ} (hp : 0 < p) (hnu : 0 < nu) {eps : ℝ}
    (heps : 0 < eps) (alg : FilterAlg n) (halg : alg.Valid) (X : Spec F n t) (ht : 0 < t)
    (hX : ∀ f, LinearIndependent ℂ (X f).row)
    (s : St F n t K) (hW : ∀ f, IsUnit (s.W f).det) (hT : ∀ k f b, eps ≤ s.T k f b) (hV : ∀ k b j, eps ≤ s.V k b j)
    (n_iter : ℕ)
    (hreg : RegularRun (updateOnce np (student p nu) p alg .off (fun x => max x eps) X)
      (RegMax np (student p nu) (fun _ => True) alg eps X) n_iter s) :
    ∃ ls, lossList (updateOnce np (student p nu) p alg .off (fun x => max x eps) X)
      (fun s => .ok (loss (student p nu) X s)) n_iter s = .ok ls ∧ ls.length = n_iter + 1 ∧ ls.Pairwise (· ≥ ·) :=
  ilrma_run_max np (student_isMM hp hnu) (student_scaleInv hp) heps (fun _ _ _ _ hr => student_spatialOk hnu _ hr) alg
    halg X ht hX s hW hT hV n_iter hreg

/-! ## The hypotheses can be met -/

/-- One source, one bin, two frames, never silent: every run of Gaussian ILRMA with IP1 and power normalisation is
regular, for every number of iterations and every domain parameter. -/
example (np : Numpy ℂ) {p : ℝ} (hp : 0 < p) (x : Matrix (Fin 1) (Fin 2) ℂ) (hx : ∀ s, x 0 s ≠ 0) (n_iter : ℕ) :
    ∃ ls, lossList (updateOnce np (gauss p) p .ip1 .power id fun _ : Unit => x)
      (fun s => .ok (loss (gauss p) (fun _ => x) s)) n_iter
      (⟨fun _ => 1, fun _ _ _ => 1, fun _ _ _ => 1⟩ : St Unit 1 2 1) = .ok ls ∧ ls.length = n_iter + 1 ∧
      ls.Pairwise (· ≥ ·) := by
  have hx' : ∀ _ : Unit, LinearIndependent ℂ x.row := by
    intro _
    rw [Fintype.linearIndependent_iff]
    intro g hg i
    have := congrFun hg 0
    simpa [Subsingleton.elim i 0, hx 0] using this
  have hs0 : Inv (⟨fun _ => 1, fun _ _ _ => 1, fun _ _ _ => 1⟩ : St Unit 1 2 1) :=
    ⟨fun _ => by simp, fun _ _ _ => one_pos, fun _ _ _ => one_pos⟩
  have hy : ∀ W : Unit → Mat 1 ℂ, (∀ f, IsUnit (W f).det) → ∀ f k s, 0 < ‖separate (fun _ => x) W f k s‖ := by
    intro W hW f k s
    have h0 := (hW f).ne_zero
    rw [det_fin_one] at h0
    refine norm_pos_iff.mpr ?_
    simpa [separate, mul_apply, Subsingleton.elim k 0] using And.intro h0 (hx s)
  have hpsi : ∀ W : Unit → Mat 1 ℂ, (∀ f, IsUnit (W f).det) → ∀ k, 0 < psi id (separate (fun _ => x) W) k := by
    intro W hW k
    refine Real.sqrt_pos.mpr (div_pos ?_ (by simp))
    exact Finset.sum_pos (fun f _ => Finset.sum_pos (fun s _ => pow_pos (hy W hW f k s) 2) Finset.univ_nonempty)
      Finset.univ_nonempty
  have hnum : ∀ y r : ℝ, 0 < y → 0 < r → 0 < (gauss p).num y r := fun y r h1 h2 =>
    div_pos (pow_pos h1 2) (Real.rpow_pos_of_pos h2 _)
  have hReg : ∀ s : St Unit 1 2 1, Inv s →
      Reg np (gauss p) p (fun _ => True) .ip1 .power id (fun _ : Unit => x) s := by
    intro s hs
    have hR := recon_pos hs.2.1 hs.2.2
    have hB : ∀ k f b, 0 < basisRaw (gauss p) (separate (fun _ => x) s.W) s.T s.V k f b := fun k f b =>
      mul_pos (Real.rpow_pos_of_pos (div_pos
        (Finset.sum_pos (fun j _ => mul_pos (hs.2.2 k b j) (hnum _ _ (hy s.W hs.1 f k j) (hR k f j)))
          Finset.univ_nonempty)
        (Finset.sum_pos (fun j _ => div_pos (hs.2.2 k b j) (hR k f j)) Finset.univ_nonempty)) _) (hs.2.1 k f b)
    have hR' := recon_pos (T := updateBasis (gauss p) id (separate (fun _ => x) s.W) s.T s.V) hB hs.2.2
    have hA : ∀ k b j, 0 < activationRaw (gauss p) (separate (fun _ => x) s.W)
        (updateBasis (gauss p) id (separate (fun _ => x) s.W) s.T s.V) s.V k b j := fun k b j =>
      mul_pos (Real.rpow_pos_of_pos (div_pos
        (Finset.sum_pos (fun f _ => mul_pos (hB k f b) (hnum _ _ (hy s.W hs.1 f k j) (hR' k f j)))
          Finset.univ_nonempty)
        (Finset.sum_pos (fun f _ => div_pos (hB k f b) (hR' k f j)) Finset.univ_nonempty)) _) (hs.2.2 k b j)
    refine ⟨fun k f b => FloorMild.of_id (hB k f b), fun k b j => FloorMild.of_id (hA k b j), fun _ _ _ => trivial,
      fun _ _ => rfl, fun s' h => ?_⟩
    obtain ⟨s'', e1, e2, -⟩ := updateSpatial_step np (ok := fun _ => True) (floor := id)
      (fun _ _ _ _ hr => gauss_spatialOk id hr) .ip1 trivial (fun _ : Unit => x) hx'
      (updateSource (gauss p) id (fun _ => x) s) ⟨hs.1, hB, hA⟩ (fun _ _ _ => trivial) (fun _ _ => rfl)
    rw [h] at e1
    cases e1
    exact hpsi _ e2.1
  refine C38_gauss_mm np hp id .ip1 trivial .power (fun _ => x) two_pos hx' _ hs0 n_iter ?_
  refine regularRun_of_inv Inv hReg (fun s s' hs h => ?_) _ _ hs0
  obtain ⟨s'', e1, e2, -⟩ := updateOnce_step np (gauss_isMM hp) (gauss_scaleInv hp)
    (fun _ _ _ _ hr => gauss_spatialOk id hr) .ip1 trivial .power (fun _ : Unit => x) two_pos hx' s hs (hReg s hs)
  rw [h] at e1
  cases e1
  exact e2

end Ilrma
end Verif
