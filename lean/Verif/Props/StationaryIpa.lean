import Verif.Props.Ipa
import Verif.Props.Stationary

/-! # C61 for iterative projection with adjustment, two sources

`update_by_ipa` can do without a decrease only at stationary points. -/

namespace Verif.Spatial

open Matrix Scale Verif.Linalg Verif.Lqpqm Iva
open scoped ComplexOrder Topology

/-- All points with the minimal value of the inner problem have the same norm. -/
theorem coord_eq {n : ℕ} {phi : Fin n → ℝ} {l z : ℝ} (hl : 0 < l) (hphi : ∀ i, phi i ≤ l) {a v : Fin n → ℂ}
    (ha : ∀ i, (l : ℂ) * a i = phi i * (a i + v i)) (hz : ∑ i, phi i * ‖a i + v i‖ ^ 2 + z = l) (b : Fin n → ℂ)
    (hb : 0 < ∑ i, phi i * ‖b i + v i‖ ^ 2 + z)
    (hle : ∑ i, ‖b i‖ ^ 2 - Real.log (∑ i, phi i * ‖b i + v i‖ ^ 2 + z) ≤
      ∑ i, ‖a i‖ ^ 2 - Real.log (∑ i, phi i * ‖a i + v i‖ ^ 2 + z)) :
    ∑ i, ‖b i‖ ^ 2 = ∑ i, ‖a i‖ ^ 2 := by
  have h1 : ∑ i, (l * ‖a i‖ ^ 2 - phi i * ‖a i + v i‖ ^ 2) ≤ ∑ i, (l * ‖b i‖ ^ 2 - phi i * ‖b i + v i‖ ^ 2) :=
    Finset.sum_le_sum fun i _ => by
      have := scalar_min (hphi i) (ha i) (b i - a i)
      rwa [add_sub_cancel, show a i + v i + (b i - a i) = b i + v i by ring] at this
  rw [Finset.sum_sub_distrib, Finset.sum_sub_distrib, ← Finset.mul_sum, ← Finset.mul_sum] at h1
  rw [hz] at hle
  obtain ⟨m, hm⟩ : ∃ m, m = ∑ i, phi i * ‖b i + v i‖ ^ 2 + z := ⟨_, rfl⟩
  rw [← hm] at hb hle
  by_cases hml : m = l
  · rw [hml] at hle hm
    refine le_antisymm (by linarith) (le_of_mul_le_mul_left ?_ hl)
    linarith
  · exfalso
    have h2 := Real.log_lt_sub_one_of_pos (div_pos hb hl) fun h => hml ((div_eq_one_iff_eq hl.ne').1 h)
    rw [Real.log_div hb.ne' hl.ne'] at h2
    have h3 : l * (∑ i, ‖a i‖ ^ 2) ≤ l * (∑ i, ‖b i‖ ^ 2 - (m / l - 1)) := by
      rw [mul_sub, mul_sub, mul_div_cancel₀ _ hl.ne']
      linarith
    have h4 := le_of_mul_le_mul_left h3 hl
    linarith

theorem quad_one (v z : ℝ) (q w : Fin 1 → ℂ) :
    (star (q + w) ⬝ᵥ (1 : Mat 1 ℂ) *ᵥ (q + w)).re + z = ∑ i, (1 : ℝ) * ‖q i + w i‖ ^ 2 + z := by
  rw [one_mulVec, dotProduct, Fin.sum_univ_one, Fin.sum_univ_one, one_mul, Pi.star_apply, Pi.add_apply,
    ← starRingEnd_apply, Complex.conj_mul']
  norm_cast

/-- Two minimisers of the inner problem for two sources have the same norm. -/
theorem minimiser_norm {v : Fin 1 → ℂ} {z : ℝ} (hz : 0 ≤ z) {q q' : Fin 1 → ℂ} (h : IsMinimiser 1 v z q)
    (h' : IsMinimiser 1 v z q') : ∑ i, ‖q i‖ ^ 2 = ∑ i, ‖q' i‖ ^ 2 := by
  have key : ∃ (l : ℝ) (a : Fin 1 → ℂ), 1 ≤ l ∧ (∀ i, (l : ℂ) * a i = ((1 : ℝ) : ℂ) * (a i + v i)) ∧
      ∑ i, (1 : ℝ) * ‖a i + v i‖ ^ 2 + z = l := by
    by_cases hv : v 0 = 0
    · obtain ⟨s, hs⟩ : ∃ s, s = Real.sqrt (max 1 z - z) := ⟨_, rfl⟩
      refine ⟨max 1 z, fun _ => (s : ℂ), le_max_left _ _, fun i => ?_, ?_⟩
      · obtain rfl : i = 0 := Fin.ext (by omega)
        rw [hv, add_zero]
        rcases le_total z 1 with h1 | h1
        · rw [max_eq_left h1]
        · rw [hs, max_eq_right h1, sub_self, Real.sqrt_zero]
          simp
      · rw [Fin.sum_univ_one, hv, add_zero, one_mul, Complex.norm_real, Real.norm_eq_abs, sq_abs, hs,
          Real.sq_sqrt (sub_nonneg.2 (le_max_right _ _))]
        ring
    · obtain ⟨h1, h2, -⟩ := start_root (p := 1) (a := ‖v 0‖) (z := z) one_pos (norm_ne_zero_iff.2 hv) hz
      obtain ⟨r, hr⟩ : ∃ r, r = findLargestRoot (-(1 * ‖v 0‖ ^ 2 + 2 * 1 + z)) ((1 + 2 * z) * 1) (-1 ^ 2 * z) := ⟨_, rfl⟩
      rw [← hr] at h1 h2
      have hr1 : ((r : ℂ) - 1) ≠ 0 := by
        have : r - 1 ≠ 0 := by linarith
        exact_mod_cast this
      refine ⟨r, fun i => v i / ((r : ℂ) - 1), h1.le, fun i => ?_, ?_⟩
      · push_cast
        field_simp
        ring
      · rw [Fin.sum_univ_one, one_mul]
        have e : v 0 / ((r : ℂ) - 1) + v 0 = ((r / (r - 1) : ℝ) : ℂ) * v 0 := by
          push_cast
          field_simp
          ring
        rw [e, norm_mul, Complex.norm_real, mul_pow, Real.norm_eq_abs, sq_abs, div_pow]
        have h3 : r - 1 ≠ 0 := by linarith
        field_simp
        linarith
  obtain ⟨l, a, hl, ha, hza⟩ := key
  have hl0 : 0 < l := one_pos.trans_le hl
  have haq : 0 < (star (a + v) ⬝ᵥ (1 : Mat 1 ℂ) *ᵥ (a + v)).re + z := by
    rw [quad_one 0, hza]
    exact hl0
  have hb : ∀ q, IsMinimiser 1 v z q → ∑ i, ‖q i‖ ^ 2 = ∑ i, ‖a i‖ ^ 2 := by
    intro q h
    have h1 := h.2 a haq
    have h2 := h.1
    rw [objective, objective, quad_one 0, quad_one 0] at h1
    rw [quad_one 0] at h2
    exact coord_eq hl0 (fun _ => hl) ha hza q h2 h1
  rw [hb q h, hb q' h']

variable {t n : ℕ}

/-- If no change of row and column `idx` decreases the objective, then source `idx` is balanced. -/
theorem balanced_of_best {phi : Fin n → Fin t → ℝ} (hphi : ∀ k s, 0 < phi k s) {Y : Matrix (Fin n) (Fin t) ℂ}
    (hY : LinearIndependent ℂ Y.row) (idx : Fin n)
    (h : ∀ S : Mat n ℂ, IsUnit S.det → (∀ i j, i ≠ idx → j ≠ idx → S i j = (1 : Mat n ℂ) i j) →
      power phi Y ≤ power phi (S * Y) - 2 * Real.log ‖S.det‖) :
    (∀ j, Y idx ⬝ᵥ (wdiag (phi idx) *ᵥ star (Y j)) = (1 : Mat n ℂ) idx j) ∧
      ∀ k, Y k ⬝ᵥ (wdiag (phi k) *ᵥ star (Y idx)) = (1 : Mat n ℂ) k idx := by
  constructor
  · obtain ⟨U, hU⟩ : ∃ U, U = wcov phi (fun _ : Unit => Y) () := ⟨_, rfl⟩
    have hUp : (U idx).PosDef := by
      rw [hU]
      exact wcov_posDef (F := Unit) hphi (X := fun _ : Unit => Y) (fun _ => hY) () idx
    have h1 : IsUnit (1 : Mat n ℂ).det := by simp
    obtain ⟨W', h2, h3, h4, h5⟩ := ip1Row_strict idx hUp h1
    obtain ⟨w, -, -, h6⟩ := ip1Row_ok id hUp h1
    rw [h6] at h2
    have hW' := Except.ok.inj h2
    have hl : ∀ S : Mat n ℂ, ipLoss U S = power phi (S * Y) - 2 * Real.log ‖S.det‖ := fun S => by
      rw [hU]
      exact ipLoss_wcov phi (fun _ : Unit => Y) (fun _ => S) ()
    have h7 := h W' h3 fun i j hi hj => by rw [← hW', updateRow_ne hi]
    have h8 : W' = 1 := h4.resolve_left fun hlt => by
      rw [hl, hl, Matrix.one_mul, det_one, norm_one, Real.log_one] at hlt
      linarith
    have h9 := h5.1 h8
    rw [hU, row_equation_iff phi (fun _ : Unit => Y) () 1 idx] at h9
    simpa only [Matrix.one_mul] using h9
  · obtain ⟨T, h1, h2, h3, h4, h5⟩ := iss1Row_strict phi hphi Y idx (by
      intro h0
      exact hY.ne_zero idx h0)
    have h6 := h T h1 fun i j _ hj => h3 i j hj
    exact h5.1 (h4.resolve_left fun hlt => by linarith)

/-- The power of the other source is the same for all best steps. -/
theorem other_power {U : Fin 2 → Mat 2 ℂ} (hU : ∀ k, (U k).PosDef) {idx : Fin 2} {q : Fin 1 → ℂ}
    (h : IsMinimiser (exactProblem (n := 0) U idx).H (exactProblem (n := 0) U idx).v (exactProblem (n := 0) U idx).z q)
    (heq : ipLoss U (ipaT (n := 0) U idx q) = ipLoss U 1) (j : Fin 1) :
    quad (U (idx.succAbove j)) (ipaT (n := 0) U idx q (idx.succAbove j)) =
      quad (U (idx.succAbove j)) ((1 : Mat 2 ℂ) (idx.succAbove j)) := by
  have hf1 : StepForm (n := 0) idx (1 : Mat 2 ℂ) := fun _ _ _ _ => rfl
  have hfT : StepForm (n := 0) idx (ipaT (n := 0) U idx q) := ipaT_form (n := 0) U idx q
  have hrow : ∀ S : Mat 2 ℂ, StepForm (n := 0) idx S → quad (U (idx.succAbove j)) (S (idx.succAbove j)) =
      ∑ i, ‖checkOf (n := 0) U idx (stepQ (n := 0) idx S) i‖ ^ 2 + ipaRest (n := 0) U idx := by
    intro S hS
    have h1 := ipLoss_stepForm (n := 0) hU hS
    have h2 : ipLoss U S = quad (U idx) (S idx) + ∑ i : Fin 1, quad (U (idx.succAbove i)) (S (idx.succAbove i))
        - 2 * Real.log ‖S.det‖ := by
      rw [ipLoss, Fin.sum_univ_succAbove _ idx]
    rw [hS.det, Fin.sum_univ_one] at h2
    obtain rfl : j = 0 := Fin.ext (by omega)
    linarith
  have hτ := exactProblem_trace (n := 0) hU idx
  have hz := exactProblem_z (n := 0) hU idx
  have hmin : IsMinimiser (exactProblem (n := 0) U idx).H (exactProblem (n := 0) U idx).v
      (exactProblem (n := 0) U idx).z (checkOf (n := 0) U idx (stepQ (n := 0) idx (1 : Mat 2 ℂ))) := by
    refine ⟨inner_pos hU idx _, fun q' hq' => ?_⟩
    have h1 := ipLoss_ge (n := 0) hU hf1 (by simp)
    have h2 := (ipLoss_ipaT (n := 0) hU idx q).2
    have h3 := h.2 q' hq'
    linarith
  have hq : checkOf (n := 0) U idx (stepQ (n := 0) idx (ipaT (n := 0) U idx q)) = q := by
    rw [ipaT_q]
    exact checkOf_inv hU idx q
  rw [hrow _ hf1, hrow _ hfT, hq]
  rw [← isMinimiser_normalise hτ, normalise_two hU idx] at h hmin
  rw [minimiser_norm (div_pos hz hτ).le h hmin]

variable {F : Type} [Fintype F]

/-- A sweep with two sources decreases the objective strictly in some bin, or all bins are balanced. -/
theorem ipa_strict (np : Numpy ℂ) (floor : ℝ → ℝ) {max_iter : ℕ} (hm : 0 < max_iter)
    {phi : F → Fin 2 → Fin t → ℝ} (hphi : ∀ f k s, 0 < phi f k s) {Y : Spec F 2 t}
    (hY : ∀ f, LinearIndependent ℂ (Y f).row)
    (h : RegularFold (ipaStep (n := 0) np floor true max_iter phi) (StepRegular np floor phi) (List.finRange 2) Y) :
    ∃ T : F → Mat 2 ℂ, ipa (n := 0) np floor true max_iter phi Y = .ok (fun f => T f * Y f) ∧
      ∀ f, IsUnit (T f).det ∧ power (phi f) (T f * Y f) - 2 * Real.log ‖(T f).det‖ ≤ power (phi f) (Y f) ∧
        (power (phi f) (T f * Y f) - 2 * Real.log ‖(T f).det‖ < power (phi f) (Y f) ∨ Balanced (phi f) (Y f)) := by
  have h : RegularFold (ipaStep (n := 0) np floor true max_iter phi) (StepRegular np floor phi) [0, 1] Y := h
  have hU : ∀ f k, (wcov (phi f) Y f k).PosDef := fun f k => wcov_posDef (hphi f) hY f k
  obtain ⟨q, -, hmin, hq⟩ := ipaStep_eq np floor hm hU h.1
  obtain ⟨P, hP⟩ : ∃ P : F → Mat 2 ℂ, P = fun f => ipaT (n := 0) (wcov (phi f) Y f) 0 (q f) := ⟨_, rfl⟩
  have hPd : ∀ f, IsUnit (P f).det := fun f => by
    rw [hP]
    exact (ipLoss_ipaT (hU f) 0 (q f)).1
  have hqP : ipaStep (n := 0) np floor true max_iter phi Y 0 = .ok fun f => P f * Y f := by rw [hP]; exact hq
  have hPb : ∀ f (S : Mat 2 ℂ), IsUnit S.det → (∀ i j, i ≠ 0 → j ≠ 0 → S i j = (1 : Mat 2 ℂ) i j) →
      power (phi f) (P f * Y f) - 2 * Real.log ‖(P f).det‖ ≤ power (phi f) (S * Y f) - 2 * Real.log ‖S.det‖ := by
    intro f S hS hf
    have h1 := ipaT_best (n := 0) (hU f) (hmin f) (S := S) hf hS
    have e1 := ipLoss_wcov (phi f) Y (fun _ => P f) f
    have e2 := ipLoss_wcov (phi f) Y (fun _ => S) f
    dsimp only [separate] at e1 e2
    rw [← e1, ← e2, hP]
    exact h1
  have hY1 : ∀ f, LinearIndependent ℂ (P f * Y f).row := fun f => row_independent (hPd f) (hY f)
  obtain ⟨T1, hT1, hb1⟩ := C68_two_sources_step np floor hm hphi hY1 (h.2 _ hqP).1
  refine ⟨fun f => T1 f * P f, ?_, fun f => ?_⟩
  · change ([0, 1].foldlM _ _ : Except PyErr _) = _
    rw [List.foldlM_cons, hqP]
    change ([1].foldlM _ _ : Except PyErr _) = _
    rw [List.foldlM_cons, hT1]
    simp only [Matrix.mul_assoc]
    rfl
  have hdet : Real.log ‖(T1 f * P f).det‖ = Real.log ‖(T1 f).det‖ + Real.log ‖(P f).det‖ := by
    rw [det_mul, norm_mul, Real.log_mul (norm_ne_zero_iff.2 (hb1 f).1.ne_zero) (norm_ne_zero_iff.2 (hPd f).ne_zero)]
  have h0 := hPb f 1 (by simp) fun _ _ _ _ => rfl
  have h1 := (hb1 f).2.2 1 (by simp) fun _ _ _ _ => rfl
  rw [Matrix.one_mul, det_one, norm_one, Real.log_one, mul_zero, sub_zero] at h0 h1
  refine ⟨by rw [det_mul]; exact (hb1 f).1.mul (hPd f), ?_, ?_⟩
  · dsimp only
    rw [hdet, Matrix.mul_assoc]
    linarith
  by_cases hlt : power (phi f) (T1 f * P f * Y f) - 2 * Real.log ‖(T1 f * P f).det‖ < power (phi f) (Y f)
  · exact Or.inl hlt
  right
  rw [hdet, Matrix.mul_assoc] at hlt
  -- both steps keep the value
  have hB0 := balanced_of_best (hphi f) (hY f) 0 fun S hS hf => by
    have := hPb f S hS hf
    linarith
  have hB1 := balanced_of_best (hphi f) (hY1 f) 1 fun S hS hf => by
    have := (hb1 f).2.2 S hS hf
    linarith
  have hpow : Y f 1 ⬝ᵥ (wdiag (phi f 1) *ᵥ star (Y f 1)) = 1 := by
    have hw := (wdiag_posDef (hphi f 1)).1
    have h2 := hB1.1 1
    rw [one_apply_eq, quad_eq hw] at h2
    rw [quad_eq hw, ← h2]
    have heq : ipLoss (wcov (phi f) Y f) (ipaT (n := 0) (wcov (phi f) Y f) 0 (q f)) = ipLoss (wcov (phi f) Y f) 1 := by
      have e1 := ipLoss_wcov (phi f) Y (fun _ => P f) f
      have e2 := ipLoss_wcov (phi f) Y (fun _ => 1) f
      dsimp only [separate] at e1 e2
      rw [Matrix.one_mul, det_one, norm_one, Real.log_one, mul_zero, sub_zero] at e2
      rw [e2]
      rw [hP] at e1 h0 h1 hlt
      rw [e1]
      linarith
    have h3 := other_power (hU f) (hmin f) heq 0
    have e : ((0 : Fin 2).succAbove (0 : Fin 1)) = 1 := rfl
    rw [e, quad_wcov, quad_wcov, Matrix.one_mul] at h3
    rw [hP]
    exact_mod_cast h3.symm
  intro i j
  fin_cases i <;> fin_cases j
  · exact hB0.1 0
  · exact hB0.1 1
  · exact hB0.2 1
  · exact hpow

end Verif.Spatial

namespace Verif.Iva

open Matrix Spatial Scale
open scoped ComplexOrder Topology

variable {F : Type} [Fintype F] {t : ℕ}

/-- C61, one iteration of `AuxIVA` with IPA and two sources: the loss becomes strictly smaller, or the filters are a stationary
point of the loss. -/
theorem C61_ipa_two (np : Numpy ℂ) {G d : Fin 2 → Fin t → ℝ → ℝ} (hG : Majorised G d)
    (hd : ∀ k s r, 0 < r → HasDerivAt (G k s) (d k s r) r) (floor : ℝ → ℝ) {newton_iter : ℕ} (hm : 0 < newton_iter)
    (X : Spec F 2 t) (hX : ∀ f, LinearIndependent ℂ (X f).row) (W : F → Mat 2 ℂ) (hW : ∀ f, IsUnit (W f).det)
    (hr : RegIpa np floor newton_iter d (separate X W)) :
    ∃ W' : F → Mat 2 ℂ, auxIpa (n := 0) np floor true newton_iter d (separate X W) = .ok (separate X W') ∧
      (∀ f, IsUnit (W' f).det) ∧ (lossIp G X W' < lossIp G X W ∨ Stationary (lossIp G X) W) := by
  obtain ⟨h0, h1, h2⟩ := hr
  have hpos : ∀ k s, 0 < weight floor d (separate X W) k s := by
    rw [h1]
    exact weight_id_pos hG h0
  obtain ⟨T, h3, h4⟩ := ipa_strict np floor hm (phi := fun _ => weight floor d (separate X W)) (fun _ => hpos)
    (fun f => row_independent (hW f) (hX f)) h2
  have hsep : (fun f => T f * separate X W f) = separate X fun f => T f * W f := by
    funext f
    simp only [separate, Matrix.mul_assoc]
  refine ⟨fun f => T f * W f, ?_, fun f => ?_, ?_⟩
  · rw [← hsep]
    exact h3
  · rw [det_mul]
    exact (h4 f).1.mul (hW f)
  · have hgap := mm_gap G (weight id d (separate X W)) (separate X W) (separate X fun f => T f * W f) W
      (fun f => T f * W f) (fun k s => hG.le k s _ _ (h0 k s) (binNorm_nonneg _ k s))
    rw [← h1] at hgap
    have hdet : ∀ f, Real.log ‖(T f * W f).det‖ = Real.log ‖(T f).det‖ + Real.log ‖(W f).det‖ := fun f => by
      rw [det_mul, norm_mul, Real.log_mul (norm_ne_zero_iff.2 (h4 f).1.ne_zero) (norm_ne_zero_iff.2 (hW f).ne_zero)]
    by_cases hall : ∀ f, Balanced (weight floor d (separate X W)) (separate X W f)
    · right
      rw [lossIp_eq]
      refine (Grad.stationary_iff_balanced (fun _ => weight id d (separate X W)) X W hW (isScoreAt hd _ h0)).2 fun f => ?_
      rw [← h1]
      exact hall f
    · left
      push Not at hall
      obtain ⟨f, hf⟩ := hall
      have he : ∀ f, separate X (fun f => T f * W f) f = T f * (W f * X f) := fun f => Matrix.mul_assoc _ _ _
      have hlt : ∑ f, (power (weight floor d (separate X W)) ((separate X fun f => T f * W f) f)
            - 2 * Real.log ‖(T f * W f).det‖) <
          ∑ f, (power (weight floor d (separate X W)) (separate X W f) - 2 * Real.log ‖(W f).det‖) := by
        refine Finset.sum_lt_sum (fun f _ => ?_) ⟨f, Finset.mem_univ f, ?_⟩
        · have := (h4 f).2.1
          rw [he f, hdet]
          have e : separate X W f = W f * X f := rfl
          rw [e]
          linarith
        · have := (h4 f).2.2.resolve_right hf
          rw [he f, hdet]
          have e : separate X W f = W f * X f := rfl
          rw [e]
          linarith
      rw [lossIp, lossIp]
      linarith

/-- `AuxLaplaceIVA` with IPA and two sources, for every small floor. -/
theorem C61_laplace_ipa_two (np : Numpy ℂ) {newton_iter : ℕ} (hm : 0 < newton_iter) (X : Spec F 2 t)
    (hX : ∀ f, LinearIndependent ℂ (X f).row) (W : F → Mat 2 ℂ) (hW : ∀ f, IsUnit (W f).det)
    (h0 : ∀ k s, 0 < binNorm (separate X W) k s) :
    ∃ eps₀ > 0, ∀ eps, 0 < eps → eps < eps₀ → ∃ W' : F → Mat 2 ℂ,
      auxIpa (n := 0) np (Special.max_flooring eps) true newton_iter laplaceD (separate X W) = .ok (separate X W') ∧
      (∀ f, IsUnit (W' f).det) ∧ (lossIp laplaceG X W' < lossIp laplaceG X W ∨ Stationary (lossIp laplaceG X) W) := by
  obtain ⟨Y', -, h⟩ := update_small np laplace_majorised hm (separate X W) (fun f => row_independent (hW f) (hX f)) h0
  obtain ⟨eps₀, h1, h2⟩ := (mem_nhdsGT_iff_exists_Ioo_subset).1 h
  exact ⟨eps₀, h1, fun eps h3 h4 => C61_ipa_two np laplace_majorised laplace_hasDerivAt _ hm X hX W hW (h2 ⟨h3, h4⟩).1⟩

/-- A mixture that satisfies the hypotheses. -/
example (np : Numpy ℂ) : ∃ eps₀ > 0, ∀ eps, 0 < eps → eps < eps₀ → ∃ W' : Unit → Mat 2 ℂ,
    auxIpa (n := 0) np (Special.max_flooring eps) true 1 laplaceD
      (separate (fun _ : Unit => (!![1, 2; 2, 1] : Matrix (Fin 2) (Fin 2) ℂ)) 1) =
        .ok (separate (fun _ : Unit => !![1, 2; 2, 1]) W') ∧ (∀ f, IsUnit (W' f).det) ∧
      (lossIp laplaceG (fun _ : Unit => !![1, 2; 2, 1]) W' < lossIp laplaceG (fun _ : Unit => !![1, 2; 2, 1]) 1 ∨
        Stationary (lossIp laplaceG fun _ : Unit => (!![1, 2; 2, 1] : Matrix (Fin 2) (Fin 2) ℂ)) 1) := by
  have hdet : IsUnit (!![1, 2; 2, 1] : Matrix (Fin 2) (Fin 2) ℂ) := by
    rw [isUnit_iff_isUnit_det, det_fin_two, isUnit_iff_ne_zero]
    norm_num
  refine C61_laplace_ipa_two np one_pos _ (fun _ => (linearIndependent_rows_iff_isUnit).mpr hdet) 1 (fun _ => by simp)
    fun k s => ?_
  refine Real.sqrt_pos.mpr ?_
  fin_cases k <;> fin_cases s <;> simp [separate]

end Verif.Iva
