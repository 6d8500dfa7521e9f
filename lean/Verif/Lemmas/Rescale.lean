import Verif.Props.Level

/-! # IP1 and the end of a call do not see complex scalings of the demixing filters -/

namespace Verif

namespace Spatial

open Matrix Scale

variable {F : Type} {n t m : ℕ}

theorem hUh_rescale (c : ℝ) (hc : 0 ≤ c) (a : ℂ) (U : Mat n ℂ) (w : Fin n → ℂ) :
    hUh ((c : ℂ) • U) (a • w) = c * ‖a‖ ^ 2 * hUh U w := by
  rw [hUh, hUh, smul_mulVec, mulVec_smul, star_smul, smul_dotProduct, dotProduct_smul, dotProduct_smul]
  have : star a • (c : ℂ) • a • (star w ⬝ᵥ (U *ᵥ w)) = ((c * ‖a‖ ^ 2 : ℝ) : ℂ) * (star w ⬝ᵥ (U *ᵥ w)) := by
    have h : star a * a = ((‖a‖ ^ 2 : ℝ) : ℂ) := by
      rw [RCLike.star_def, mul_comm, Complex.mul_conj, Complex.normSq_eq_norm_sq]
    simp only [smul_eq_mul]
    rw [show star a * (↑c * (a * (star w ⬝ᵥ U *ᵥ w))) = ↑c * (star a * a) * (star w ⬝ᵥ U *ᵥ w) from by ring, h]
    push_cast
    ring
  rw [this, Complex.re_ofReal_mul, mul_max_of_nonneg _ _ (by positivity), mul_zero]

/-- One row update without flooring on rescaled filters: the new row keeps the phase of the scaling. -/
theorem ip1Row_rescale (c : Fin n → ℝ) (r : Fin n → ℂ) (hc : ∀ k, 0 < c k) (hr : ∀ k, r k ≠ 0) (U : Fin n → Mat n ℂ)
    (W : Mat n ℂ) (k : Fin n) :
    ip1Row id (fun k => (c k : ℂ) • U k) (mulRow r W) k
      = Except.map (mulRow (Function.update r k (r k / ‖r k‖ / Real.sqrt (c k)))) (ip1Row id U W k) := by
  have hck := hc k
  have hrk := hr k
  obtain ⟨D, hD⟩ : ∃ D : Mat n ℂ, D = diagonal r := ⟨_, rfl⟩
  have hDu : IsUnit D.det := by
    rw [hD, det_diagonal, isUnit_iff_ne_zero]
    exact Finset.prod_ne_zero_iff.mpr fun i _ => hr i
  have hDi : D⁻¹ = diagonal fun k => (r k)⁻¹ := by
    apply inv_eq_left_inv
    rw [hD, diagonal_mul_diagonal, ← diagonal_one]
    congr 1
    funext i
    exact inv_mul_cancel₀ (hr i)
  have hc0 : (c k : ℂ) ≠ 0 := by exact_mod_cast hck.ne'
  have hsolve : solveVec (mulRow r W * ((c k : ℂ) • U k)) (Pi.single k 1)
      = Except.map (fun w => ((c k : ℂ) * r k)⁻¹ • w) (solveVec (W * U k) (Pi.single k 1)) := by
    have e : mulRow r W * ((c k : ℂ) • U k) = (c k : ℂ) • (D * (W * U k)) := by
      rw [mulRow_eq, ← hD, Matrix.mul_smul, Matrix.mul_assoc]
    have hcu : IsUnit ((c k : ℂ) ^ n) := isUnit_iff_ne_zero.mpr (pow_ne_zero _ hc0)
    rw [e, solveVec, solveVec, npSolve, npSolve]
    by_cases h : IsUnit (W * U k).det
    · rw [if_pos h, if_pos]
      · simp only [Bind.bind, Except.bind, Except.map]
        congr 1
        have hinv : ((c k : ℂ) • (D * (W * U k)))⁻¹ = (c k : ℂ)⁻¹ • ((W * U k)⁻¹ * D⁻¹) := by
          apply inv_eq_left_inv
          rw [Matrix.smul_mul, Matrix.mul_smul, smul_smul, inv_mul_cancel₀ hc0, one_smul,
            Matrix.mul_assoc, nonsing_inv_mul_cancel_left _ _ hDu, nonsing_inv_mul _ h]
        have hcol : D⁻¹ * (Matrix.of fun i (_ : Fin 1) => (Pi.single k 1 : Fin n → ℂ) i)
            = (r k)⁻¹ • Matrix.of fun i (_ : Fin 1) => (Pi.single k 1 : Fin n → ℂ) i := by
          ext i j
          rw [hDi, diagonal_mul, Matrix.smul_apply, smul_eq_mul]
          by_cases hi : i = k
          · subst hi; rfl
          · simp [Matrix.of_apply, Pi.single_apply, hi]
        funext i
        rw [hinv, Matrix.smul_mul, Matrix.mul_assoc, hcol, Matrix.mul_smul, smul_smul]
        simp only [Matrix.smul_apply, Pi.smul_apply, smul_eq_mul]
        rw [mul_inv]
      · rw [det_smul, det_mul, Fintype.card_fin]
        exact hcu.mul (hDu.mul h)
    · rw [if_neg h, if_neg]
      · rfl
      · rw [det_smul, det_mul, Fintype.card_fin]
        exact fun h' => h (isUnit_of_mul_isUnit_right (isUnit_of_mul_isUnit_right h'))
  rw [ip1Row, ip1Row]
  simp only
  rw [hsolve, bind_map, map_bind]
  congr 1
  funext w
  simp only [Except.map, id, hUh_rescale _ hck.le]
  congr 1
  ext i j
  by_cases hi : i = k
  · subst hi
    simp only [mulRow, updateRow_self, Matrix.of_apply, Function.update_self, Pi.smul_apply, smul_eq_mul, star_mul']
    have hn : 0 < ‖r i‖ := norm_pos_iff.mpr hrk
    have hs : Real.sqrt (c i * ‖((c i : ℂ) * r i)⁻¹‖ ^ 2 * hUh (U i) w)
        = (Real.sqrt (c i) * ‖r i‖)⁻¹ * Real.sqrt (hUh (U i) w) := by
      have : c i * ‖((c i : ℂ) * r i)⁻¹‖ ^ 2 = ((Real.sqrt (c i) * ‖r i‖)⁻¹) ^ 2 := by
        rw [norm_inv, norm_mul, Complex.norm_real, Real.norm_of_nonneg hck.le, inv_pow, inv_pow, mul_pow, mul_pow,
          Real.sq_sqrt hck.le]
        field_simp
      rw [this, Real.sqrt_mul (by positivity), Real.sqrt_sq (by positivity)]
    rw [hs]
    have h1 : ((Real.sqrt (c i) : ℝ) : ℂ) ≠ 0 := by exact_mod_cast (Real.sqrt_pos.mpr hck).ne'
    have h2 : ((‖r i‖ : ℝ) : ℂ) ≠ 0 := by exact_mod_cast hn.ne'
    have h3 : star (r i) ≠ 0 := star_ne_zero.mpr hrk
    have h4 : r i * star (r i) = ((‖r i‖ : ℝ) : ℂ) ^ 2 := by
      rw [RCLike.star_def, Complex.mul_conj, Complex.normSq_eq_norm_sq]
      push_cast
      rfl
    have h5 : ((Real.sqrt (c i) : ℝ) : ℂ) ^ 2 = c i := by
      rw [← Complex.ofReal_pow, Real.sq_sqrt hck.le]
    rw [star_inv₀, star_mul', Complex.ofReal_mul, Complex.ofReal_inv, Complex.ofReal_mul, show star (c i : ℂ) = c i from by
      rw [RCLike.star_def, Complex.conj_ofReal]]
    have key : ((c i : ℂ) * star (r i))⁻¹ * (((Real.sqrt (c i) : ℝ) : ℂ) * ((‖r i‖ : ℝ) : ℂ))
        = r i / ((‖r i‖ : ℝ) : ℂ) / ((Real.sqrt (c i) : ℝ) : ℂ) := by
      rw [← h5]
      field_simp
      rw [mul_comm, h4]
    rw [← key, div_eq_mul_inv, mul_inv (((Real.sqrt (c i) : ℝ) : ℂ) * _)⁻¹, inv_inv, div_eq_mul_inv]
    ring
  · simp only [mulRow, updateRow_ne hi, Matrix.of_apply, Function.update_of_ne hi]

/-- The same for a complete sweep over the sources. -/
theorem ip1Stack_rescale (c : F → Fin n → ℝ) (r : F → Fin n → ℂ) (hc : ∀ f k, 0 < c f k) (hr : ∀ f k, r f k ≠ 0)
    (U : F → Fin n → Mat n ℂ) (W : F → Mat n ℂ) :
    Iva.ip1Stack id (fun f k => (c f k : ℂ) • U f k) (fun f => mulRow (r f) (W f))
      = Except.map (fun W f => mulRow (fun k => r f k / ‖r f k‖ / Real.sqrt (c f k)) (W f)) (Iva.ip1Stack id U W) := by
  have h0 : ∀ f k, r f k / ‖r f k‖ / Real.sqrt (c f k) ≠ 0 := fun f k =>
    div_ne_zero (div_ne_zero (hr f k) (by exact_mod_cast (norm_pos_iff.mpr (hr f k)).ne'))
      (by exact_mod_cast (Real.sqrt_pos.mpr (hc f k)).ne')
  have key : ∀ (l : List (Fin n)) (_ : l.Nodup) (q : F → Fin n → ℂ) (_ : ∀ f k, q f k ≠ 0) (_ : ∀ f, ∀ k ∈ l, q f k = r f k)
      (W : F → Mat n ℂ),
      l.foldlM (fun W src => onBins fun f => ip1Row id (fun k => (c f k : ℂ) • U f k) (W f) src)
        (fun f => mulRow (q f) (W f))
      = Except.map (fun (W : F → Mat n ℂ) f =>
          mulRow (fun k => if k ∈ l then r f k / ‖r f k‖ / Real.sqrt (c f k) else q f k) (W f))
        (l.foldlM (fun W src => onBins fun f => ip1Row id (U f) (W f) src) W) := by
    intro l
    induction l with
    | nil => intro _ q hq _ W; simp [Except.map, pure, Except.pure]
    | cons b l ih =>
      intro hnd q hq hqr W
      rw [List.foldlM_cons, List.foldlM_cons]
      simp only [fun f => ip1Row_rescale (c f) (q f) (hc f) (hq f) (U f) (W f) b]
      rw [onBins_map (e := fun f => mulRow (Function.update (q f) b (q f b / ‖q f b‖ / Real.sqrt (c f b)))), bind_map, map_bind]
      congr 1
      funext W'
      obtain ⟨hb, hnd'⟩ := List.nodup_cons.mp hnd
      rw [ih hnd' (fun f => Function.update (q f) b (q f b / ‖q f b‖ / Real.sqrt (c f b)))]
      · congr 1
        funext W'' f
        congr 1
        funext k
        by_cases hk : k = b
        · subst hk
          simp [hb, hqr f k (by simp)]
        · simp [hk]
      · intro f k
        by_cases hk : k = b
        · subst hk
          rw [Function.update_self, hqr f k (by simp)]
          exact h0 f k
        · rw [Function.update_of_ne hk]
          exact hq f k
      · intro f k hk
        have : k ≠ b := fun h => hb (h ▸ hk)
        rw [Function.update_of_ne this]
        exact hqr f k (List.mem_cons_of_mem _ hk)
  rw [Iva.ip1Stack, Iva.ip1Stack, key _ (List.nodup_finRange n) r hr fun _ _ _ => rfl]
  simp

end Spatial

namespace Lifecycle

open Matrix Scale _root_.Verif.Spatial

variable {F : Type} {n t : ℕ}

/-- The end of a call with scale restoration does not see the scale of the filters. -/
theorem finish_rescale (sr : ScaleOpt) (hsr : sr.truthy = true) (r : Fin n) (c : F → Fin n → ℂ) (hc : ∀ f k, c f k ≠ 0)
    (X : Spec F n t) (W : F → Mat n ℂ) : finish sr r X (fun f => mulRow (c f) (W f)) = finish sr r X W := by
  have hpb : applyProjectionBack r X (fun f => mulRow (c f) (W f)) = applyProjectionBack r X W := by
    rw [applyProjectionBack, applyProjectionBack]
    exact congrArg (· >>= _) (C22_scale_invariant r W c hc)
  have hmdp : applyMdp r X (fun f => mulRow (c f) (W f)) = applyMdp r X W := by
    have e : separate X (fun f => mulRow (c f) (W f)) = fun f => Matrix.of fun i j => c f i * separate X W f i j := by
      funext f
      ext i j
      simp only [separate, mulRow_eq, Matrix.mul_assoc, diagonal_mul, Matrix.of_apply]
    have hm : mdp r (fun f => Matrix.of fun i j => c f i * separate X W f i j) X = mdp r (separate X W) X := by
      ext f i k
      by_cases h0 : ∀ k, separate X W f i k = 0
      · simp [mdp, h0]
      · obtain ⟨k0, hk0⟩ := not_forall.mp h0
        have h1 : ((∑ k, ‖separate X W f i k‖ ^ 2 : ℝ) : ℂ) ≠ 0 := by
          have : 0 < ∑ k, ‖separate X W f i k‖ ^ 2 := Finset.sum_pos' (fun _ _ => by positivity)
            ⟨k0, Finset.mem_univ _, by have := norm_pos_iff.mpr hk0; positivity⟩
          exact_mod_cast this.ne'
        have h2 : ((‖c f i‖ ^ 2 : ℝ) : ℂ) = c f i * star (c f i) := by
          rw [RCLike.star_def, Complex.mul_conj, Complex.normSq_eq_norm_sq]
        have h3 := hc f i
        have h4 : star (c f i) ≠ 0 := star_ne_zero.mpr h3
        simp only [mdp, of_apply, mul_assoc, ← Finset.mul_sum, norm_mul, mul_pow]
        rw [Complex.ofReal_mul, h2]
        generalize ((∑ k, ‖separate X W f i k‖ ^ 2 : ℝ) : ℂ) = q at h1 ⊢
        simp only [star_div₀, star_mul', star_star]
        have h5 : star q ≠ 0 := star_ne_zero.mpr h1
        field_simp
    rw [applyMdp, applyMdp]
    simp only [e, hm]
  rw [finish, finish, hpb, hmdp]
  simp only [hsr, if_true]

end Lifecycle

end Verif
