import Verif.Lemmas.Equivariance
import Verif.Model.Lifecycle

/-! # Lemmas for C72: what the updates do when the recording is made louder -/

namespace Verif

/-- Two programs end the same way: with related results, or with the same exception. -/
def ExRel {α β : Type} (R : α → β → Prop) : Except PyErr α → Except PyErr β → Prop
  | .ok a, .ok b => R a b
  | .error e, .error e' => e = e'
  | _, _ => False

theorem ExRel.map {α β : Type} {R : α → β → Prop} {e : α → β} (x : Except PyErr α) (h : ∀ a, R a (e a)) :
    ExRel R x (Except.map e x) := by
  cases x with
  | ok a => exact h a
  | error => exact rfl

theorem ExRel.bind {α β γ δ : Type} {R : α → β → Prop} {S : γ → δ → Prop} {x : Except PyErr α} {y : Except PyErr β}
    {g : α → Except PyErr γ} {h : β → Except PyErr δ} (hxy : ExRel R x y) (hgh : ∀ a b, R a b → ExRel S (g a) (h b)) :
    ExRel S (x >>= g) (y >>= h) := by
  cases x <;> cases y
  · exact hxy
  · exact hxy.elim
  · exact hxy.elim
  · exact hgh _ _ hxy

theorem ExRel.iterM {σ τ : Type} {R : σ → τ → Prop} {g : σ → Except PyErr σ} {g' : τ → Except PyErr τ}
    (h : ∀ s s', R s s' → ExRel R (g s) (g' s')) (N : ℕ) {s : σ} {s' : τ} (hs : R s s') :
    ExRel R (Verif.iterM g N s) (Verif.iterM g' N s') := by
  induction N generalizing s s' with
  | zero => exact hs
  | succ N ih => exact (h s s' hs).bind fun _ _ => ih

theorem ExRel.eq_map {α β : Type} {e : α → β} {x : Except PyErr α} {y : Except PyErr β}
    (h : ExRel (fun a b => b = e a) x y) : y = Except.map e x := by
  cases x <;> cases y
  · exact congrArg _ (Eq.symm h)
  · exact h.elim
  · exact h.elim
  · exact congrArg _ h

namespace Spatial

open Matrix Scale

variable {F : Type} {n t m : ℕ}

/-- Row `k` multiplied by `r k`. -/
def mulRow (r : Fin n → ℂ) (W : Matrix (Fin n) (Fin m) ℂ) : Matrix (Fin n) (Fin m) ℂ :=
  Matrix.of fun k j => r k * W k j

theorem mulRow_eq (r : Fin n → ℂ) (W : Matrix (Fin n) (Fin m) ℂ) : mulRow r W = diagonal r * W := by
  ext k j; simp [mulRow, diagonal_mul]

theorem hUh_smul (c : ℝ) (hc : 0 ≤ c) (a : ℝ) (U : Mat n ℂ) (w : Fin n → ℂ) :
    hUh ((c : ℂ) • U) ((a : ℂ) • w) = c * a ^ 2 * hUh U w := by
  rw [hUh, hUh, smul_mulVec, mulVec_smul, star_smul, smul_dotProduct, dotProduct_smul, dotProduct_smul]
  have : star (a : ℂ) • (c : ℂ) • (a : ℂ) • (star w ⬝ᵥ (U *ᵥ w)) = ((c * a ^ 2 : ℝ) : ℂ) * (star w ⬝ᵥ (U *ᵥ w)) := by
    simp only [smul_eq_mul, RCLike.star_def, Complex.conj_ofReal]
    push_cast
    ring
  rw [this, Complex.re_ofReal_mul, mul_max_of_nonneg _ _ (by positivity), mul_zero]

/-- One row update, with the covariances multiplied by `c k` and the rows by `r k`: the new row is multiplied by
`1 / sqrt (c k)`, whatever the factors of the old rows. -/
theorem ip1Row_level (c r : Fin n → ℝ) (hc : ∀ k, 0 < c k) (hr : ∀ k, 0 < r k) (U : Fin n → Mat n ℂ) (W : Mat n ℂ)
    (k : Fin n) :
    ip1Row id (fun k => (c k : ℂ) • U k) (mulRow (fun k => (r k : ℂ)) W) k
      = Except.map (mulRow fun i => ((Function.update r k (1 / Real.sqrt (c k)) i : ℝ) : ℂ)) (ip1Row id U W k) := by
  have hck := hc k
  have hrk := hr k
  obtain ⟨D, hD⟩ : ∃ D : Mat n ℂ, D = diagonal fun k => (r k : ℂ) := ⟨_, rfl⟩
  have hDu : IsUnit D.det := by
    rw [hD, det_diagonal, isUnit_iff_ne_zero]
    exact Finset.prod_ne_zero_iff.mpr fun i _ => by exact_mod_cast (hr i).ne'
  have hDi : D⁻¹ = diagonal fun k => ((r k)⁻¹ : ℂ) := by
    apply inv_eq_left_inv
    rw [hD, diagonal_mul_diagonal, ← diagonal_one]
    congr 1
    funext i
    exact inv_mul_cancel₀ (by exact_mod_cast (hr i).ne')
  have hsolve : solveVec (mulRow (fun k => (r k : ℂ)) W * ((c k : ℂ) • U k)) (Pi.single k 1)
      = Except.map (fun w => (((c k * r k)⁻¹ : ℝ) : ℂ) • w) (solveVec (W * U k) (Pi.single k 1)) := by
    have e : mulRow (fun k => (r k : ℂ)) W * ((c k : ℂ) • U k) = (c k : ℂ) • (D * (W * U k)) := by
      rw [mulRow_eq, ← hD, Matrix.mul_smul, Matrix.mul_assoc]
    have hcu : IsUnit ((c k : ℂ) ^ n) := isUnit_iff_ne_zero.mpr (pow_ne_zero _ (by exact_mod_cast hck.ne'))
    rw [e, solveVec, solveVec, npSolve, npSolve]
    by_cases h : IsUnit (W * U k).det
    · rw [if_pos h, if_pos]
      · simp only [Bind.bind, Except.bind, Except.map]
        congr 1
        have hinv : ((c k : ℂ) • (D * (W * U k)))⁻¹ = (c k : ℂ)⁻¹ • ((W * U k)⁻¹ * D⁻¹) := by
          apply inv_eq_left_inv
          rw [Matrix.smul_mul, Matrix.mul_smul, smul_smul, inv_mul_cancel₀ (by exact_mod_cast hck.ne'), one_smul,
            Matrix.mul_assoc, nonsing_inv_mul_cancel_left _ _ hDu, nonsing_inv_mul _ h]
        have hcol : D⁻¹ * (Matrix.of fun i (_ : Fin 1) => (Pi.single k 1 : Fin n → ℂ) i)
            = ((r k)⁻¹ : ℂ) • Matrix.of fun i (_ : Fin 1) => (Pi.single k 1 : Fin n → ℂ) i := by
          ext i j
          rw [hDi, diagonal_mul, Matrix.smul_apply, smul_eq_mul]
          by_cases hi : i = k
          · subst hi; rfl
          · simp [Matrix.of_apply, Pi.single_apply, hi]
        funext i
        rw [hinv, Matrix.smul_mul, Matrix.mul_assoc, hcol, Matrix.mul_smul, smul_smul]
        simp only [Matrix.smul_apply, Pi.smul_apply, smul_eq_mul]
        push_cast
        rw [mul_inv]
      · rw [det_smul, det_mul, Fintype.card_fin]
        exact hcu.mul (hDu.mul h)
    · rw [if_neg h, if_neg]
      · rfl
      · rw [det_smul, det_mul, Fintype.card_fin]
        exact fun h' => h (isUnit_of_mul_isUnit_right (isUnit_of_mul_isUnit_right h'))
  rw [ip1Row, ip1Row]
  simp only
  rw [hsolve, bind_map, map_bind]
  congr 1
  funext w
  simp only [Except.map, id, hUh_smul _ hck.le]
  congr 1
  ext i j
  by_cases hi : i = k
  · subst hi
    simp only [mulRow, updateRow_self, Matrix.of_apply, Function.update_self, Pi.smul_apply, smul_eq_mul, star_mul']
    have hs : Real.sqrt (c i * (c i * r i)⁻¹ ^ 2 * hUh (U i) w)
        = Real.sqrt (c i) * (c i * r i)⁻¹ * Real.sqrt (hUh (U i) w) := by
      rw [Real.sqrt_mul (by positivity), Real.sqrt_mul hck.le, Real.sqrt_sq (by positivity)]
    rw [hs]
    have h1 : ((Real.sqrt (c i) : ℝ) : ℂ) ≠ 0 := by exact_mod_cast (Real.sqrt_pos.mpr hck).ne'
    have h2 : (((c i * r i)⁻¹ : ℝ) : ℂ) ≠ 0 := by exact_mod_cast (inv_pos.mpr (mul_pos hck hrk)).ne'
    rw [RCLike.star_def, Complex.conj_ofReal, Complex.ofReal_mul, Complex.ofReal_mul, Complex.ofReal_div, Complex.ofReal_one]
    generalize (((c i * r i)⁻¹ : ℝ) : ℂ) = q at h2 ⊢
    field_simp
  · simp only [mulRow, updateRow_ne hi, Matrix.of_apply, Function.update_of_ne hi]

/-- All rows. -/
theorem ip1Stack_level (c r : F → Fin n → ℝ) (hc : ∀ f k, 0 < c f k) (hr : ∀ f k, 0 < r f k)
    (U : F → Fin n → Mat n ℂ) (W : F → Mat n ℂ) :
    Iva.ip1Stack id (fun f k => (c f k : ℂ) • U f k) (fun f => mulRow (fun k => (r f k : ℂ)) (W f))
      = Except.map (fun W f => mulRow (fun k => ((1 / Real.sqrt (c f k) : ℝ) : ℂ)) (W f)) (Iva.ip1Stack id U W) := by
  have key : ∀ (l : List (Fin n)) (r : F → Fin n → ℝ) (_ : ∀ f k, 0 < r f k) (W : F → Mat n ℂ),
      l.foldlM (fun W src => onBins fun f => ip1Row id (fun k => (c f k : ℂ) • U f k) (W f) src)
        (fun f => mulRow (fun k => (r f k : ℂ)) (W f))
      = Except.map (fun (W : F → Mat n ℂ) f =>
          mulRow (fun k => ((if k ∈ l then 1 / Real.sqrt (c f k) else r f k : ℝ) : ℂ)) (W f))
        (l.foldlM (fun W src => onBins fun f => ip1Row id (U f) (W f) src) W) := by
    intro l
    induction l with
    | nil => intro r hr W; simp [Except.map, pure, Except.pure]
    | cons b l ih =>
      intro r hr W
      rw [List.foldlM_cons, List.foldlM_cons]
      simp only [fun f => ip1Row_level (c f) (r f) (hc f) (hr f) (U f) (W f) b]
      rw [onBins_map (e := fun f => mulRow fun i =>
        ((Function.update (r f) b (1 / Real.sqrt (c f b)) i : ℝ) : ℂ)), bind_map, map_bind]
      congr 1
      funext W'
      rw [ih (fun f => Function.update (r f) b (1 / Real.sqrt (c f b)))]
      · congr 1
        funext W'' f
        congr 1
        funext k
        by_cases hk : k = b
        · subst hk; simp
        · simp [hk]
      · intro f k
        by_cases hk : k = b
        · subst hk
          simp only [Function.update_self]
          exact one_div_pos.mpr (Real.sqrt_pos.mpr (hc f k))
        · rw [Function.update_of_ne hk]; exact hr f k
  rw [Iva.ip1Stack, Iva.ip1Stack, key _ r hr W]
  simp only [List.mem_finRange, if_true]

/-- The recording with bin `f` multiplied by `a f`. -/
def gain (a : F → ℂ) (X : F → Matrix (Fin n) (Fin t) ℂ) : F → Matrix (Fin n) (Fin t) ℂ := fun f => a f • X f

theorem wcov_gain (a : F → ℂ) (kappa : Fin n → ℝ) (phi : Fin n → Fin t → ℝ) (X : Spec F n t) (f : F) (k : Fin n) :
    Iva.wcov (fun k s => kappa k * phi k s) (gain a X) f k = ((kappa k * ‖a f‖ ^ 2 : ℝ) : ℂ) • Iva.wcov phi X f k := by
  ext i j
  simp only [Iva.wcov, Matrix.of_apply, meanT, gain, Matrix.smul_apply, smul_eq_mul]
  rw [← mul_div_assoc, Finset.mul_sum]
  congr 1
  refine Finset.sum_congr rfl fun s _ => ?_
  have h : a f * star (a f) = ((‖a f‖ ^ 2 : ℝ) : ℂ) := by
    rw [RCLike.star_def, Complex.mul_conj, Complex.normSq_eq_norm_sq]
  rw [star_mul', Complex.ofReal_mul, Complex.ofReal_mul, ← h]
  ring

/-- One ISS1 update. -/
theorem iss1Row_level (kappa : Fin n → ℝ) (hk : ∀ k, 0 < kappa k) (b : Fin n → ℂ) (hb : ∀ k, b k ≠ 0)
    (phi : Fin n → Fin t → ℝ) (Y : Matrix (Fin n) (Fin t) ℂ) (src : Fin n) :
    iss1Row id (fun k s => kappa k * phi k s) (mulRow b Y) src
      = mulRow (Function.update b src (b src / (Real.sqrt (kappa src) * ‖b src‖ : ℝ))) (iss1Row id phi Y src) := by
  have hnum : ∀ k, (meanT fun s => (((kappa k * phi k s : ℝ)) : ℂ) * (mulRow b Y k s * star (mulRow b Y src s)))
      = kappa k * b k * star (b src) * meanT fun s => (phi k s : ℂ) * (Y k s * star (Y src s)) := by
    intro k
    simp only [meanT, mulRow, Matrix.of_apply, star_mul']
    rw [← mul_div_assoc, Finset.mul_sum]
    congr 1
    exact Finset.sum_congr rfl fun s _ => by push_cast; ring
  have hden : ∀ k, (meanT fun s => kappa k * phi k s * ‖mulRow b Y src s‖ ^ 2)
      = kappa k * ‖b src‖ ^ 2 * meanT fun s => phi k s * ‖Y src s‖ ^ 2 := by
    intro k
    simp only [meanT, mulRow, Matrix.of_apply, norm_mul]
    rw [← mul_div_assoc, Finset.mul_sum]
    congr 1
    exact Finset.sum_congr rfl fun s _ => by ring
  have hbb : star (b src) * b src = ((‖b src‖ ^ 2 : ℝ) : ℂ) := by
    rw [mul_comm, RCLike.star_def, Complex.mul_conj, Complex.normSq_eq_norm_sq]
  have hb2 : ((‖b src‖ ^ 2 : ℝ) : ℂ) ≠ 0 := by
    exact_mod_cast pow_ne_zero 2 (norm_ne_zero_iff.mpr (hb src))
  ext k s
  simp only [iss1Row, Matrix.of_apply, id, hnum, hden]
  by_cases hks : k = src
  · subst hks
    have hs : Real.sqrt (kappa k * ‖b k‖ ^ 2 * meanT fun s => phi k s * ‖Y k s‖ ^ 2)
        = Real.sqrt (kappa k) * ‖b k‖ * Real.sqrt (meanT fun s => phi k s * ‖Y k s‖ ^ 2) := by
      rw [Real.sqrt_mul (mul_nonneg (hk k).le (by positivity)), Real.sqrt_mul (hk k).le, Real.sqrt_sq (norm_nonneg _)]
    simp only [if_true, mulRow, Matrix.of_apply, Function.update_self, hs]
    have h1 : ((Real.sqrt (kappa k) * ‖b k‖ : ℝ) : ℂ) ≠ 0 := by
      exact_mod_cast (mul_pos (Real.sqrt_pos.mpr (hk k)) (norm_pos_iff.mpr (hb k))).ne'
    rw [Complex.ofReal_mul (Real.sqrt (kappa k) * ‖b k‖)]
    field_simp
    ring
  · simp only [hks, if_false, mulRow, Matrix.of_apply, Function.update_of_ne hks]
    have hk' : ((kappa k : ℝ) : ℂ) ≠ 0 := by exact_mod_cast (hk k).ne'
    rw [Complex.ofReal_mul, Complex.ofReal_mul]
    have : ∀ N M : ℂ, kappa k * b k * star (b src) * N / (kappa k * ((‖b src‖ ^ 2 : ℝ) : ℂ) * M) * (b src * Y src s)
        = b k * (N / M * Y src s) := by
      intro N M
      have hbs := hb src
      have hst : star (b src) ≠ 0 := star_ne_zero.mpr hbs
      rw [← hbb]
      by_cases hM : M = 0
      · simp [hM]
      · field_simp
    rw [this]
    ring

theorem iss1_level (kappa : Fin n → ℝ) (hk : ∀ k, 0 < kappa k) (b : Fin n → ℂ) (hb : ∀ k, b k ≠ 0)
    (phi : Fin n → Fin t → ℝ) (Y : Matrix (Fin n) (Fin t) ℂ) :
    iss1 id (fun k s => kappa k * phi k s) (mulRow b Y)
      = mulRow (fun k => b k / (Real.sqrt (kappa k) * ‖b k‖ : ℝ)) (iss1 id phi Y) := by
  have key : ∀ (l : List (Fin n)) (_ : l.Nodup) (b : Fin n → ℂ) (_ : ∀ k, b k ≠ 0) (Y : Matrix (Fin n) (Fin t) ℂ),
      l.foldl (iss1Row id fun k s => kappa k * phi k s) (mulRow b Y)
      = mulRow (fun k => if k ∈ l then b k / (Real.sqrt (kappa k) * ‖b k‖ : ℝ) else b k) (l.foldl (iss1Row id phi) Y) := by
    intro l
    induction l with
    | nil => intro _ b hb Y; simp
    | cons a l ih =>
      intro hl b hb Y
      rw [List.foldl_cons, List.foldl_cons, iss1Row_level kappa hk b hb, ih (List.nodup_cons.mp hl).2]
      · congr 1
        funext k
        by_cases hka : k = a
        · subst hka
          simp [(List.nodup_cons.mp hl).1]
        · simp [hka]
      · intro k
        by_cases hka : k = a
        · subst hka
          rw [Function.update_self]
          refine div_ne_zero (hb k) ?_
          exact_mod_cast (mul_pos (Real.sqrt_pos.mpr (hk k)) (norm_pos_iff.mpr (hb k))).ne'
        · rw [Function.update_of_ne hka]; exact hb k
  rw [iss1, iss1, key _ (List.nodup_finRange n) b hb]
  simp only [List.mem_finRange, if_true]

end Spatial

end Verif
