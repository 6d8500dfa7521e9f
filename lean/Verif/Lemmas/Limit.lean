import Mathlib.Topology.Instances.Matrix
import Mathlib.Analysis.Normed.Module.FiniteDimension
import Mathlib.Analysis.SpecialFunctions.Sqrt
import Verif.Lemmas.Strict
import Verif.Lemmas.MatrixIneq

/-! # Limits of the spatial updates: IP1 and ISS1 depend continuously on the filters and the weights -/

namespace Verif
open Matrix Spatial Scale Filter Topology
open scoped ComplexOrder

variable {F : Type} {n t : ℕ} {α : Type} {l : Filter α}

theorem tendsto_matrix {m k : ℕ} {A : α → Matrix (Fin m) (Fin k) ℂ} {B : Matrix (Fin m) (Fin k) ℂ} :
    Tendsto A l (𝓝 B) ↔ ∀ i j, Tendsto (fun a => A a i j) l (𝓝 (B i j)) := by
  exact (tendsto_pi_nhds (f := A) (g := B)).trans
    (forall_congr' fun i => tendsto_pi_nhds (f := fun a => A a i) (g := B i))

theorem tendsto_matrix_mul {m k p : ℕ} {A : α → Matrix (Fin m) (Fin k) ℂ} {A' : Matrix (Fin m) (Fin k) ℂ}
    {B : α → Matrix (Fin k) (Fin p) ℂ} {B' : Matrix (Fin k) (Fin p) ℂ} (hA : Tendsto A l (𝓝 A'))
    (hB : Tendsto B l (𝓝 B')) : Tendsto (fun a => A a * B a) l (𝓝 (A' * B')) := by
  rw [tendsto_matrix] at *
  intro i j
  simp only [mul_apply]
  exact tendsto_finsetSum _ fun r _ => (hA i r).mul (hB r j)

theorem tendsto_det {A : α → Mat n ℂ} {B : Mat n ℂ} (h : Tendsto A l (𝓝 B)) :
    Tendsto (fun a => (A a).det) l (𝓝 B.det) :=
  (continuous_id.matrix_det (A := fun A : Mat n ℂ => A)).continuousAt.tendsto.comp h

theorem tendsto_inv {A : α → Mat n ℂ} {B : Mat n ℂ} (h : Tendsto A l (𝓝 B)) (hB : IsUnit B.det) :
    Tendsto (fun a => (A a)⁻¹) l (𝓝 B⁻¹) := by
  refine (continuousAt_matrix_inv B ?_).tendsto.comp h
  rw [Ring.inverse_eq_inv']
  exact continuousAt_inv₀ hB.ne_zero

theorem tendsto_meanT {𝕜 : Type} [RCLike 𝕜] {x : α → Fin t → 𝕜} {y : Fin t → 𝕜}
    (h : ∀ s, Tendsto (fun a => x a s) l (𝓝 (y s))) : Tendsto (fun a => meanT (x a)) l (𝓝 (meanT y)) :=
  (tendsto_finsetSum _ fun s _ => h s).div_const _

theorem tendsto_ofReal {x : α → ℝ} {y : ℝ} (h : Tendsto x l (𝓝 y)) :
    Tendsto (fun a => (x a : ℂ)) l (𝓝 (y : ℂ)) := (Complex.continuous_ofReal.tendsto y).comp h

/-- The row of IP1 without the check that the matrix is invertible. -/
noncomputable def ip1RowT (U W : Mat n ℂ) (i : Fin n) : Mat n ℂ :=
  W.updateRow i fun j => star ((W * U)⁻¹ j i) / (Real.sqrt (hUh U fun r => (W * U)⁻¹ r i) : ℂ)

theorem ip1Row_eq {U : Fin n → Mat n ℂ} {W : Mat n ℂ} {i : Fin n} (hU : (U i).PosDef) (hW : IsUnit W.det) :
    ip1Row id U W i = .ok (ip1RowT (U i) W i) := by
  have hu : IsUnit (W * U i).det := by
    rw [det_mul]
    exact hW.mul ((isUnit_iff_isUnit_det _).mp hU.isUnit)
  have h : solveVec (W * U i) (Pi.single i 1) = .ok fun r => (W * U i)⁻¹ r i := by
    rw [solveVec, npSolve, if_pos hu]
    show Except.ok _ = _
    congr 1
    funext r
    simp [mul_apply, Pi.single_apply]
  rw [ip1Row, h]
  rfl

theorem hUh_pos {U : Mat n ℂ} (hU : U.PosDef) {w : Fin n → ℂ} (hw : w ≠ 0) : 0 < hUh U w := by
  have := hU.dotProduct_mulVec_pos hw
  exact lt_max_of_lt_left (Complex.pos_iff.1 this).1

theorem ip1RowT_tendsto {U W : α → Mat n ℂ} {U' W' : Mat n ℂ} (hU : Tendsto U l (𝓝 U')) (hW : Tendsto W l (𝓝 W'))
    (hU' : U'.PosDef) (hW' : IsUnit W'.det) (i : Fin n) :
    Tendsto (fun a => ip1RowT (U a) (W a) i) l (𝓝 (ip1RowT U' W' i)) := by
  have hu : IsUnit (W' * U').det := by
    rw [det_mul]
    exact hW'.mul ((isUnit_iff_isUnit_det _).mp hU'.isUnit)
  have hinv := tendsto_matrix.1 (tendsto_inv (tendsto_matrix_mul hW hU) hu)
  have hne : (fun r => (W' * U')⁻¹ r i) ≠ 0 := by
    intro h0
    have : (((W' * U') * (W' * U')⁻¹ : Mat n ℂ)) i i = 0 := by
      rw [mul_apply]
      exact Finset.sum_eq_zero fun r _ => by rw [show (W' * U')⁻¹ r i = 0 from congrFun h0 r, mul_zero]
    rw [mul_nonsing_inv _ hu, one_apply_eq] at this
    exact one_ne_zero this
  have hq : Tendsto (fun a => hUh (U a) fun r => (W a * U a)⁻¹ r i) l (𝓝 (hUh U' fun r => (W' * U')⁻¹ r i)) := by
    refine Tendsto.max ?_ tendsto_const_nhds
    refine (Complex.continuous_re.tendsto _).comp ?_
    refine tendsto_finsetSum _ fun r _ => Tendsto.mul ((continuous_star.tendsto _).comp (hinv r i)) ?_
    simp only [mulVec, dotProduct]
    exact tendsto_finsetSum _ fun s _ => (tendsto_matrix.1 hU r s).mul (hinv s i)
  have hpos := hUh_pos hU' hne
  rw [tendsto_matrix]
  intro r j
  by_cases hr : r = i
  · subst hr
    simp only [ip1RowT, updateRow_self]
    refine ((continuous_star.tendsto _).comp (hinv j r)).div (tendsto_ofReal hq.sqrt) ?_
    exact_mod_cast (Real.sqrt_pos.2 hpos).ne'
  · simp only [ip1RowT, updateRow_ne hr]
    exact tendsto_matrix.1 hW r j

theorem ip1Fold_tendsto {U : α → Fin n → Mat n ℂ} {U' : Fin n → Mat n ℂ}
    (hU : ∀ k, Tendsto (fun a => U a k) l (𝓝 (U' k))) (hp : ∀ a k, (U a k).PosDef) (hp' : ∀ k, (U' k).PosDef)
    (is : List (Fin n)) : ∀ {W : α → Mat n ℂ} {W' : Mat n ℂ}, Tendsto W l (𝓝 W') → (∀ a, IsUnit (W a).det) →
      IsUnit W'.det → ∃ V V', (∀ a, is.foldlM (ip1Row id (U a)) (W a) = .ok (V a)) ∧
        is.foldlM (ip1Row id U') W' = .ok V' ∧ Tendsto V l (𝓝 V') := by
  induction is with
  | nil => exact fun {W W'} h _ _ => ⟨W, W', fun _ => rfl, rfl, h⟩
  | cons i is ih =>
    intro W W' hW hu hu'
    have hstep : ∀ {U : Fin n → Mat n ℂ} {W : Mat n ℂ}, (∀ k, (U k).PosDef) → IsUnit W.det →
        IsUnit (ip1RowT (U i) W i).det := by
      intro U W hU hW
      obtain ⟨V, h1, h2, -⟩ := ip1Row_strict i (hU i) hW
      rw [ip1Row_eq (hU i) hW] at h1
      exact Except.ok.inj h1 ▸ h2
    obtain ⟨V, V', h1, h2, h3⟩ := ih (ip1RowT_tendsto (hU i) hW (hp' i) hu' i) (fun a => hstep (hp a) (hu a))
      (hstep hp' hu')
    refine ⟨V, V', fun a => ?_, ?_, h3⟩
    · rw [List.foldlM_cons, ip1Row_eq (hp a i) (hu a)]
      exact h1 a
    · rw [List.foldlM_cons, ip1Row_eq (hp' i) hu']
      exact h2


theorem iss1Row_tendsto {phi : α → Fin n → Fin t → ℝ} {phi' : Fin n → Fin t → ℝ} {Y : α → Matrix (Fin n) (Fin t) ℂ}
    {Y' : Matrix (Fin n) (Fin t) ℂ} (hphi : ∀ k s, Tendsto (fun a => phi a k s) l (𝓝 (phi' k s)))
    (hY : Tendsto Y l (𝓝 Y')) (hp' : ∀ k s, 0 < phi' k s) (src : Fin n) (hne : Y' src ≠ 0) :
    Tendsto (fun a => iss1Row id (phi a) (Y a) src) l (𝓝 (iss1Row id phi' Y' src)) := by
  have hY' := tendsto_matrix.1 hY
  have hden : ∀ k, Tendsto (fun a => meanT fun s => phi a k s * ‖Y a src s‖ ^ 2) l
      (𝓝 (meanT fun s => phi' k s * ‖Y' src s‖ ^ 2)) := fun k =>
    tendsto_meanT fun s => (hphi k s).mul ((hY' src s).norm.pow 2)
  have hpos : ∀ k, 0 < meanT fun s => phi' k s * ‖Y' src s‖ ^ 2 := by
    intro k
    obtain ⟨s, hs⟩ := Function.ne_iff.1 hne
    have ht : (0 : ℝ) < t := by exact_mod_cast s.pos
    refine div_pos (Finset.sum_pos' (fun r _ => mul_nonneg (hp' k r).le (sq_nonneg _)) ⟨s, Finset.mem_univ _, ?_⟩) ht
    exact mul_pos (hp' k s) (pow_pos (norm_pos_iff.2 hs) 2)
  rw [tendsto_matrix]
  intro k s
  simp only [iss1Row, of_apply, id]
  refine (hY' k s).sub (Tendsto.mul ?_ (hY' src s))
  by_cases hk : k = src
  · simp only [hk, if_true]
    refine tendsto_const_nhds.sub (tendsto_const_nhds.div (tendsto_ofReal (hden src).sqrt) ?_)
    exact_mod_cast (Real.sqrt_pos.2 (hpos src)).ne'
  · simp only [hk, if_false]
    refine Tendsto.div (tendsto_meanT fun s => (tendsto_ofReal (hphi k s)).mul
      ((hY' k s).mul ((continuous_star.tendsto _).comp (hY' src s)))) (tendsto_ofReal (hden k)) ?_
    exact_mod_cast (hpos k).ne'

theorem iss1_tendsto {phi : α → Fin n → Fin t → ℝ} {phi' : Fin n → Fin t → ℝ}
    (hphi : ∀ k s, Tendsto (fun a => phi a k s) l (𝓝 (phi' k s))) (hp' : ∀ k s, 0 < phi' k s)
    {X : Matrix (Fin n) (Fin t) ℂ} (hX : LinearIndependent ℂ X.row) (is : List (Fin n)) :
    ∀ {Y : α → Matrix (Fin n) (Fin t) ℂ} {W' : Mat n ℂ}, Tendsto Y l (𝓝 (W' * X)) → IsUnit W'.det →
      Tendsto (fun a => is.foldl (iss1Row id (phi a)) (Y a)) l (𝓝 (is.foldl (iss1Row id phi') (W' * X))) := by
  induction is with
  | nil => exact fun {Y W'} h _ => h
  | cons i is ih =>
    intro Y W' hY hW'
    have hne := row_ne_zero hX hW' i
    obtain ⟨T, hT, hr, -⟩ := iss1Row_spec phi' hp' (W' * X) i hne
    have h := iss1Row_tendsto hphi hY hp' i hne
    rw [hr, ← Matrix.mul_assoc] at h
    have := ih h (by rw [det_mul]; exact hT.mul hW')
    simp only [List.foldl_cons]
    rwa [hr, ← Matrix.mul_assoc]

/-! ## Growth of the loss -/

/-- With linearly independent rows the size of a combination bounds the coefficients. -/
theorem coeff_bound {X : Matrix (Fin n) (Fin t) ℂ} (hX : LinearIndependent ℂ X.row) :
    ∃ κ > 0, ∀ w : Fin n → ℂ, κ * ∑ i, ‖w i‖ ≤ ∑ s, ‖(w ᵥ* X) s‖ := by
  obtain ⟨K, hK, h⟩ := LinearMap.exists_antilipschitzWith (Matrix.vecMulLinear X)
    (LinearMap.ker_eq_bot.2 (vecMul_injective_iff.2 hX))
  have hK' : (0 : ℝ) < K := hK
  have hn : (0 : ℝ) < n + 1 := by positivity
  refine ⟨1 / ((n + 1) * K), by positivity, fun w => ?_⟩
  have h1 : ‖w‖ ≤ K * ‖w ᵥ* X‖ := by
    have := h.le_mul_dist w 0
    simpa [dist_eq_norm] using this
  have h2 : ∑ i, ‖w i‖ ≤ (n + 1) * ‖w‖ := by
    calc ∑ i, ‖w i‖ ≤ ∑ _i : Fin n, ‖w‖ := Finset.sum_le_sum fun i _ => norm_le_pi_norm w i
      _ = n * ‖w‖ := by simp
      _ ≤ _ := by nlinarith [norm_nonneg w]
  have h3 : ‖w ᵥ* X‖ ≤ ∑ s, ‖(w ᵥ* X) s‖ :=
    (pi_norm_le_iff_of_nonneg (Finset.sum_nonneg fun _ _ => norm_nonneg _)).2 fun s =>
      Finset.single_le_sum (f := fun s => ‖(w ᵥ* X) s‖) (fun _ _ => norm_nonneg _) (Finset.mem_univ s)
  rw [div_mul_eq_mul_div, one_mul, div_le_iff₀ (by positivity)]
  nlinarith [mul_le_mul_of_nonneg_left (h1.trans (mul_le_mul_of_nonneg_left h3 hK'.le)) hn.le]

/-- The size of a filter. -/
noncomputable def size (W : Mat n ℂ) : ℝ := ∑ k, ∑ i, ‖W k i‖

theorem size_nonneg (W : Mat n ℂ) : 0 ≤ size W := Finset.sum_nonneg fun _ _ => Finset.sum_nonneg fun _ _ => norm_nonneg _

theorem entry_le_size (W : Mat n ℂ) (k i : Fin n) : ‖W k i‖ ≤ size W :=
  (Finset.single_le_sum (f := fun i => ‖W k i‖) (fun _ _ => norm_nonneg _) (Finset.mem_univ i)).trans
    (Finset.single_le_sum (f := fun k => ∑ i, ‖W k i‖) (fun _ _ => Finset.sum_nonneg fun _ _ => norm_nonneg _)
      (Finset.mem_univ k))

theorem det_le_size (W : Mat n ℂ) : ‖W.det‖ ≤ (Fintype.card (Equiv.Perm (Fin n))) * size W ^ n := by
  rw [det_apply]
  refine (norm_sum_le _ _).trans ?_
  rw [← nsmul_eq_mul]
  refine Finset.sum_le_card_nsmul _ _ _ fun σ _ => ?_
  have : ‖Equiv.Perm.sign σ • ∏ i, W (σ i) i‖ = ∏ i, ‖W (σ i) i‖ := by
    rcases Int.units_eq_one_or (Equiv.Perm.sign σ) with h | h <;> simp [h]
  rw [this]
  calc ∏ i, ‖W (σ i) i‖ ≤ ∏ _i : Fin n, size W := Finset.prod_le_prod (fun _ _ => norm_nonneg _) fun i _ =>
        entry_le_size W _ _
    _ = _ := by simp

/-- The log determinant grows more slowly than any multiple of the size. -/
theorem logdet_growth (n : ℕ) {ε : ℝ} (hε : 0 < ε) :
    ∃ C, ∀ W : Mat n ℂ, IsUnit W.det → 2 * Real.log ‖W.det‖ ≤ ε * size W + C := by
  rcases Nat.eq_zero_or_pos n with rfl | hn
  · exact ⟨0, fun W _ => by simp [size]⟩
  have hn' : (0 : ℝ) < n := by exact_mod_cast hn
  obtain ⟨N, hN⟩ : ∃ N : ℝ, N = Fintype.card (Equiv.Perm (Fin n)) := ⟨_, rfl⟩
  have hNp : 0 < N := by rw [hN]; exact_mod_cast Fintype.card_pos
  obtain ⟨δ, hδ⟩ : ∃ δ : ℝ, δ = ε / (2 * n) := ⟨_, rfl⟩
  have hδp : 0 < δ := by rw [hδ]; positivity
  refine ⟨2 * Real.log N - 2 * n * (1 + Real.log δ), fun W hW => ?_⟩
  have hd : 0 < ‖W.det‖ := norm_pos_iff.2 hW.ne_zero
  have h1 := det_le_size W
  rw [← hN] at h1
  have hs : 0 < size W := by
    rcases (size_nonneg W).lt_or_eq with h | h
    · exact h
    · rw [← h, zero_pow hn.ne', mul_zero] at h1
      exact absurd h1 (not_le.2 hd)
  have h2 := Real.log_le_log hd h1
  rw [Real.log_mul hNp.ne' (pow_pos hs n).ne', Real.log_pow] at h2
  have h3 : Real.log (size W) ≤ δ * size W - 1 - Real.log δ := by
    have := Real.log_le_sub_one_of_pos (mul_pos hδp hs)
    rw [Real.log_mul hδp.ne' hs.ne'] at this
    linarith
  have h4 : 2 * n * δ = ε := by rw [hδ]; field_simp
  nlinarith [mul_le_mul_of_nonneg_left h3 hn'.le]

end Verif
