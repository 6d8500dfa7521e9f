import Verif.Props.Ipa

/-! # C68 for three or more sources: when the steps are safe -/

namespace Verif.Spatial

open Matrix Scale Verif.Linalg Verif.Lqpqm Iva
open scoped ComplexOrder Topology

variable {F : Type} [Fintype F] {t n : ℕ}

theorem eigh_trace {m : ℕ} {X : Mat m ℂ} {l : Fin m → ℝ} {P : Mat m ℂ} (h : EighSpec X l P) :
    (∑ i, X i i).re = ∑ i, l i := by
  have e : ∑ i, X i i = X.trace := rfl
  rw [e, h.decomp, Matrix.trace_mul_comm, ← Matrix.mul_assoc, h.unitary, Matrix.one_mul, trace_diagonal, Complex.re_sum]
  rfl

theorem exists_vTilde_ne {m : ℕ} {P : Mat (m + 1) ℂ} (hP : Pᴴ * P = 1) {v : Fin (m + 1) → ℂ} (hv : v ≠ 0) :
    ∃ i, vTilde P v i ≠ 0 := by
  by_contra hc
  have h0 : vTilde P v = 0 := by
    funext i
    by_contra hi
    exact hc ⟨i, hi⟩
  have : P *ᵥ vTilde P v = v := by
    have hP' : P * Pᴴ = 1 := mul_eq_one_comm.1 hP
    change P *ᵥ (Pᴴ *ᵥ v) = v
    rw [mulVec_mulVec, hP', one_mulVec]
  rw [h0, mulVec_zero] at this
  exact hv this.symm

/-- The normalised problem of one bin: positive definite with trace one, and a positive constant. -/
theorem stepProblem_spec {phi : F → Fin (n + 2) → Fin t → ℝ} (hphi : ∀ f k s, 0 < phi f k s) {Y : Spec F (n + 2) t}
    (hY : ∀ f, LinearIndependent ℂ (Y f).row) (idx : Fin (n + 2)) (f : F) :
    (stepProblem phi Y idx f).H.PosDef ∧ (∑ i, (stepProblem phi Y idx f).H i i).re = 1 ∧
      0 < (stepProblem phi Y idx f).z := by
  have hU : ∀ k, (wcov (phi f) Y f k).PosDef := fun k => wcov_posDef (hphi f) hY f k
  have hτ := exactProblem_trace hU idx
  refine ⟨?_, ?_, div_pos (exactProblem_z hU idx) hτ⟩
  · have e : (stepProblem phi Y idx f).H = (((∑ i, (exactProblem (wcov (phi f) Y f) idx).H i i).re⁻¹ : ℝ) : ℂ) •
        (exactProblem (wcov (phi f) Y f) idx).H := by
      ext i j
      rw [Matrix.smul_apply, smul_eq_mul]
      simp only [stepProblem, normalise, of_apply]
      push_cast
      ring
    rw [e]
    exact Tr.smul_posDef (exactProblem_posDef hU idx) (inv_pos.2 hτ)
  · simp only [stepProblem, normalise, of_apply]
    rw [← Finset.sum_div, Complex.div_ofReal_re, div_self hτ.ne']

/-- The parts of `StepSafe` that only need a small floor. -/
theorem small_floor (np : Numpy ℂ) {phi : F → Fin (n + 2) → Fin t → ℝ} (hphi : ∀ f k s, 0 < phi f k s)
    {Y : Spec F (n + 2) t} (hY : ∀ f, LinearIndependent ℂ (Y f).row) (idx : Fin (n + 2)) :
    ∀ᶠ eps in 𝓝[>] (0 : ℝ),
      (∀ f k, Special.toPsdCore np (Special.max_flooring eps) (wcov (phi f) Y f k) = wcov (phi f) Y f k) ∧
      (∀ f i, Special.max_flooring eps ((np.eigh (wcov (phi f) Y f idx)).1 i) = (np.eigh (wcov (phi f) Y f idx)).1 i) ∧
      ∀ f x, (exactProblem (wcov (phi f) Y f) idx).z ≤ x → Special.max_flooring eps (Real.sqrt x) = Real.sqrt x := by
  have hU : ∀ f k, (wcov (phi f) Y f k).PosDef := fun f k => wcov_posDef (hphi f) hY f k
  have e2 : ∀ᶠ eps in 𝓝[>] (0 : ℝ), ∀ f k i, eps ≤ (np.eigh (wcov (phi f) Y f k)).1 i := by
    rw [Filter.eventually_all]
    intro f
    rw [Filter.eventually_all]
    intro k
    rw [Filter.eventually_all]
    intro i
    exact floor_small ((np.eigh_spec _ (hU f k).isHermitian).posDef_iff.1 (hU f k) i)
  have e3 : ∀ᶠ eps in 𝓝[>] (0 : ℝ), ∀ f, eps ≤ Real.sqrt (exactProblem (wcov (phi f) Y f) idx).z := by
    rw [Filter.eventually_all]
    intro f
    exact floor_small (Real.sqrt_pos.2 (exactProblem_z (hU f) idx))
  filter_upwards [e2, e3] with eps h2 h3
  refine ⟨fun f k => ?_, fun f i => max_eq_left (h2 f idx i), fun f x hx =>
    max_eq_left ((h3 f).trans (Real.sqrt_le_sqrt hx))⟩
  exact Mnmf.toPsd_max_fixed np eps (((np.eigh_spec _ (hU f k).isHermitian).sub_posSemidef_iff eps).2 (h2 f k))

/-- C68: three or more sources. If in every bin the vector `v` of the inner problem is not orthogonal to the eigenvectors of the
largest eigenvalue (or `v = 0` and `y = 0` solves the inner problem), then for every small floor and enough Newton
iterations the step is safe, so that `C68_step` applies. -/
theorem C68_enough_newton (np : Numpy ℂ) {phi : F → Fin (n + 3) → Fin t → ℝ} (hphi : ∀ f k s, 0 < phi f k s)
    {Y : Spec F (n + 3) t} (hY : ∀ f, LinearIndependent ℂ (Y f).row) (idx : Fin (n + 3))
    (hbin : ∀ f, let p := stepProblem (n := n + 1) phi Y idx f
      p.v = 0 ∧ (np.eigh p.H).1 (Fin.last (n + 1)) ≤ p.z ∨
        ∃ i, (np.eigh p.H).1 i = (np.eigh p.H).1 (Fin.last (n + 1)) ∧ vTilde (np.eigh p.H).2 p.v i ≠ 0) :
    ∃ eps₀ > 0, ∀ eps, 0 < eps → eps < eps₀ → ∃ N, ∀ max_iter, N ≤ max_iter →
      StepSafe (n := n + 1) np (Special.max_flooring eps) max_iter phi Y idx := by
  obtain ⟨p, hp⟩ : ∃ p : F → IpaProblem (n + 1), p = fun f => stepProblem (n := n + 1) phi Y idx f := ⟨_, rfl⟩
  have hp' : ∀ f, stepProblem (n := n + 1) phi Y idx f = p f := fun f => by rw [hp]
  have hspec : ∀ f, (p f).H.PosDef ∧ (∑ i, (p f).H i i).re = 1 ∧ 0 < (p f).z := fun f => by
    rw [hp]
    exact stepProblem_spec hphi hY idx f
  have he := fun f => np.eigh_spec _ (hspec f).1.isHermitian
  have hlam : ∀ f i, 0 < (np.eigh (p f).H).1 i := fun f => (he f).posDef_iff.1 (hspec f).1
  have htop : ∀ f, (np.eigh (p f).H).1 (Fin.last (n + 1)) < 1 := by
    intro f
    have h1 := eigh_trace (he f)
    rw [(hspec f).2.1, Fin.sum_univ_castSucc] at h1
    have : 0 < ∑ i : Fin (n + 1), (np.eigh (p f).H).1 i.castSucc :=
      Finset.sum_pos (fun i _ => hlam f _) Finset.univ_nonempty
    linarith
  simp only [hp'] at hbin
  -- the conditions on the floor
  have e0 : ∀ᶠ eps in 𝓝[>] (0 : ℝ), 0 < eps := eventually_mem_nhdsWithin
  have e1 := small_floor (n := n + 1) np hphi hY idx
  have e2 : ∀ᶠ eps in 𝓝[>] (0 : ℝ), ∀ f, eps ≤ (np.eigh (p f).H).1 (Fin.last (n + 1)) := by
    rw [Filter.eventually_all]
    exact fun f => floor_small (hlam f _)
  have e3 : ∀ᶠ eps in 𝓝[>] (0 : ℝ), ∀ f i, vTilde (np.eigh (p f).H).2 (p f).v i ≠ 0 →
      eps ≤ (np.eigh (p f).H).1 i * ‖vTilde (np.eigh (p f).H).2 (p f).v i‖ ^ 2 := by
    rw [Filter.eventually_all]
    intro f
    rw [Filter.eventually_all]
    intro i
    by_cases h : vTilde (np.eigh (p f).H).2 (p f).v i = 0
    · exact Filter.Eventually.of_forall fun _ h' => absurd h h'
    · filter_upwards [floor_small (mul_pos (hlam f i) (pow_pos (norm_pos_iff.2 h) 2))] with eps h1 _ using h1
  have e4 : ∀ᶠ eps in 𝓝[>] (0 : ℝ), ∀ f, (p f).v ≠ 0 → eps ≤ Real.sqrt (∑ i, ‖(p f).v i‖ ^ 2) ∧
      eps * (np.eigh (p f).H).1 (Fin.last (n + 1)) ^ 3 ≤ (1 - (np.eigh (p f).H).1 (Fin.last (n + 1)) ^ 2) *
        ∑ i, (np.eigh (p f).H).1 i * ‖vTilde (np.eigh (p f).H).2 (p f).v i‖ ^ 2 := by
    rw [Filter.eventually_all]
    intro f
    by_cases h : (p f).v = 0
    · exact Filter.Eventually.of_forall fun _ h' => absurd h h'
    · obtain ⟨j, hj⟩ := Function.ne_iff.1 h
      have h1 : 0 < Real.sqrt (∑ i, ‖(p f).v i‖ ^ 2) :=
        Real.sqrt_pos.2 (Finset.sum_pos' (fun i _ => sq_nonneg _)
          ⟨j, Finset.mem_univ j, pow_pos (norm_pos_iff.2 hj) 2⟩)
      obtain ⟨i, hi⟩ := exists_vTilde_ne (he f).unitary h
      have h2 : 0 < (1 - (np.eigh (p f).H).1 (Fin.last (n + 1)) ^ 2) *
          ∑ i, (np.eigh (p f).H).1 i * ‖vTilde (np.eigh (p f).H).2 (p f).v i‖ ^ 2 := by
        refine mul_pos ?_ (Finset.sum_pos' (fun i _ => mul_nonneg (hlam f i).le (sq_nonneg _))
          ⟨i, Finset.mem_univ i, mul_pos (hlam f i) (pow_pos (norm_pos_iff.2 hi) 2)⟩)
        nlinarith [htop f, hlam f (Fin.last (n + 1))]
      have h3 := pow_pos (hlam f (Fin.last (n + 1))) 3
      filter_upwards [floor_small h1, floor_small (div_pos h2 h3)] with eps a b _
      exact ⟨a, (le_div_iff₀ h3).1 b⟩
  have hall : ∀ᶠ eps in 𝓝[>] (0 : ℝ), ∃ N, ∀ max_iter, N ≤ max_iter →
      StepSafe (n := n + 1) np (Special.max_flooring eps) max_iter phi Y idx := by
    filter_upwards [e0, e1, e2, e3, e4] with eps h0 h1 h2 h3 h4
    have hz : Special.max_flooring eps 0 = eps := max_eq_right h0.le
    have hbins : ∀ f, Real.sqrt (∑ i, ‖(p f).v i‖ ^ 2) < eps ∧ (np.eigh (p f).H).1 (Fin.last (n + 1)) ≤ (p f).z ∨
        eps ≤ Real.sqrt (∑ i, ‖(p f).v i‖ ^ 2) ∧
        Regular (Special.max_flooring eps) (np.eigh (p f).H).1 (vTilde (np.eigh (p f).H).2 (p f).v) (p f).z
          ((np.eigh (p f).H).1 (Fin.last (n + 1))) ∧
        eps * (np.eigh (p f).H).1 (Fin.last (n + 1)) ^ 3 ≤ (1 - (np.eigh (p f).H).1 (Fin.last (n + 1)) ^ 2) *
          ∑ i, (np.eigh (p f).H).1 i * ‖vTilde (np.eigh (p f).H).2 (p f).v i‖ ^ 2 := by
      intro f
      rcases hbin f with ⟨ha, hb⟩ | ⟨i, ha, hb⟩
      · left
        refine ⟨?_, hb⟩
        rw [ha]
        simpa using h0
      · right
        have hv : (p f).v ≠ 0 := by
          intro h
          refine hb ?_
          rw [h]
          simp [vTilde]
        refine ⟨(h4 f hv).1, ⟨by rw [hz]; exact h0.le, hlam f _, fun _ _ => Or.inl (by rw [hz]; exact h0),
          (hspec f).2.2.le, fun i => (hlam f i).le, fun i => (he f).sorted (Fin.le_last i), max_eq_left (h2 f),
          ⟨i, ha, by rw [hz]; exact h3 f i hb⟩, fun j => ?_⟩, (h4 f hv).2⟩
        rw [hz]
        by_cases hj : vTilde (np.eigh (p f).H).2 (p f).v j = 0
        · right
          rw [hj, norm_zero]
          ring
        · exact Or.inl (h3 f j hj)
    have hreg : RegularBins np (Special.max_flooring eps) (fun x => x < Special.max_flooring eps 0) (fun f => (p f).H)
        (fun f => (p f).v) (fun f => (p f).z) (fun f => (np.eigh (p f).H).1 (Fin.last (n + 1))) := by
      intro f hf
      rw [hz] at hf
      rcases hbins f with ⟨ha, -⟩ | ⟨-, hb, -⟩
      · exact absurd ha hf
      · exact hb
    obtain ⟨N, hN⟩ := C55_converges np _ (by rw [hz]; exact h0) hreg
    refine ⟨N, fun max_iter hm => ⟨h1.1, h1.2.1, h1.2.2, fun f => ?_, fun y hy => ?_⟩⟩
    · rw [hp', hz]
      exact hbins f
    · obtain ⟨y', hy'⟩ := hN max_iter hm
      simp only [hp'] at hy
      rw [hy'] at hy
      have := (Prod.mk.inj (Except.ok.inj hy)).2
      cases this
  obtain ⟨eps₀, h0, h1⟩ := (mem_nhdsGT_iff_exists_Ioo_subset).1 hall
  exact ⟨eps₀, h0, fun eps h2 h3 => h1 ⟨h2, h3⟩⟩

/-- The eigenvalues of a multiple of the identity. -/
theorem eigh_scalar {m : ℕ} {X : Mat m ℂ} {l : Fin m → ℝ} {P : Mat m ℂ} (h : EighSpec X l P) {c : ℝ}
    (hX : X = (c : ℂ) • 1) (i : Fin m) : l i = c := by
  have e : Pᴴ * X * P = diagonal fun i => (l i : ℂ) := by
    rw [h.decomp, Matrix.mul_assoc, Matrix.mul_assoc, h.unitary, Matrix.mul_one, ← Matrix.mul_assoc, h.unitary,
      Matrix.one_mul]
    rfl
  rw [hX, Matrix.mul_smul, Matrix.mul_one, Matrix.smul_mul, h.unitary] at e
  have := congrFun (congrFun e i) i
  rw [Matrix.smul_apply, one_apply_eq, diagonal_apply_eq, smul_eq_mul, mul_one] at this
  exact_mod_cast this.symm

/-- Eigenvalues are bounded by a bound of the quadratic form. -/
theorem eigh_le {m : ℕ} {X : Mat m ℂ} {l : Fin m → ℝ} {P : Mat m ℂ} (h : EighSpec X l P) {c : ℝ}
    (hX : ∀ x : Fin m → ℂ, (star x ⬝ᵥ X *ᵥ x).re ≤ c * ∑ i, ‖x i‖ ^ 2) (i : Fin m) : l i ≤ c := by
  have h1 := hX (P *ᵥ Pi.single i 1)
  have e : Pᴴ *ᵥ (P *ᵥ Pi.single i 1) = Pi.single i (1 : ℂ) := by rw [mulVec_mulVec, h.unitary, one_mulVec]
  rw [quad_coord h, ← norm_coord h.unitary, e] at h1
  rw [Finset.sum_eq_single i (fun j _ hj => by rw [Pi.single_eq_of_ne hj]; simp) (by simp),
    Finset.sum_eq_single i (fun j _ hj => by rw [Pi.single_eq_of_ne hj]; simp) (by simp)] at h1
  simpa using h1

/-- A step is safe for every number of Newton iterations if `v = 0` and `y = 0` is a solution in every bin. -/
theorem stepSafe_zero (np : Numpy ℂ) {phi : F → Fin (n + 2) → Fin t → ℝ} (hphi : ∀ f k s, 0 < phi f k s)
    {Y : Spec F (n + 2) t} (hY : ∀ f, LinearIndependent ℂ (Y f).row) (idx : Fin (n + 2))
    (hbin : ∀ f, (stepProblem phi Y idx f).v = 0 ∧
      (np.eigh (stepProblem phi Y idx f).H).1 (Fin.last n) ≤ (stepProblem phi Y idx f).z) :
    ∀ᶠ eps in 𝓝[>] (0 : ℝ), ∀ max_iter, 0 < max_iter →
      StepSafe np (Special.max_flooring eps) max_iter phi Y idx := by
  have e0 : ∀ᶠ eps in 𝓝[>] (0 : ℝ), 0 < eps := eventually_mem_nhdsWithin
  filter_upwards [e0, small_floor np hphi hY idx] with eps h0 h1 max_iter hm
  have hz : Special.max_flooring eps 0 = eps := max_eq_right h0.le
  have hs : ∀ f, Real.sqrt (∑ i, ‖(stepProblem phi Y idx f).v i‖ ^ 2) < Special.max_flooring eps 0 := by
    intro f
    rw [hz, (hbin f).1]
    simpa using h0
  refine ⟨h1.1, h1.2.1, h1.2.2, fun f => Or.inl ⟨hs f, (hbin f).2⟩, fun y hy => ?_⟩
  have hempty : IsEmpty {f : F // ¬ Real.sqrt (∑ i, ‖(stepProblem phi Y idx f).v i‖ ^ 2) < Special.max_flooring eps 0} :=
    ⟨fun f => f.2 (hs f.1)⟩
  obtain ⟨lamb, w, h2, -, h3⟩ := solve_spec
    (F := {f : F // ¬ Real.sqrt (∑ i, ‖(stepProblem phi Y idx f).v i‖ ^ 2) < Special.max_flooring eps 0})
    (floor := Special.max_flooring eps)
    (phi := fun f => (np.eigh (stepProblem phi Y idx f).H).1)
    (v := fun f => vTilde (np.eigh (stepProblem phi Y idx f).H).2 (stepProblem phi Y idx f).v)
    (z := fun f => (stepProblem phi Y idx f).z) (top := fun _ => 1) (fun f => (hempty.false f).elim) hm
  have hw : w = false := h3.2 fun f => (hempty.false f).elim
  obtain ⟨y', h4, -⟩ := lqpqm2_eq (H := fun f => (stepProblem phi Y idx f).H) (v := fun f => (stepProblem phi Y idx f).v)
    (z := fun f => (stepProblem phi Y idx f).z) np (fun x => x < Special.max_flooring eps 0) h2
  rw [h4, hw] at hy
  have := (Prod.mk.inj (Except.ok.inj hy)).2
  cases this

/-! ### Uncorrelated signals -/

/-- The inner problem for diagonal covariances. -/
theorem exactProblem_diag {U : Fin (n + 2) → Mat (n + 2) ℂ} {w c : Fin (n + 2) → ℝ} (hw : ∀ k, 0 < w k)
    (hc : ∀ k, 0 < c k) (hU : ∀ k, U k = diagonal fun i => ((w k * c i ^ 2 : ℝ) : ℂ)) (idx : Fin (n + 2)) :
    (exactProblem U idx).v = 0 ∧ (exactProblem U idx).z = (w idx * c idx ^ 2)⁻¹ ∧
      (exactProblem U idx).H = diagonal fun j : Fin (n + 1) =>
        ((((w idx * c (idx.succAbove j) ^ 2) * (w (idx.succAbove j) * c idx ^ 2))⁻¹ : ℝ) : ℂ) := by
  have hM : (U idx)⁻¹ = diagonal fun i => (((w idx * c i ^ 2)⁻¹ : ℝ) : ℂ) := by
    rw [hU]
    refine inv_eq_right_inv ?_
    rw [diagonal_mul_diagonal, ← diagonal_one]
    congr 1
    funext i
    rw [← Complex.ofReal_mul, mul_inv_cancel₀ (mul_pos (hw idx) (pow_pos (hc i) 2)).ne', Complex.ofReal_one]
  have hd : ipaD (U idx)⁻¹ idx = 0 := by
    funext i
    rw [ipaD, hM, diagonal_apply_ne _ (Fin.succAbove_ne idx i), star_zero]
    rfl
  have ha : ∀ j, ipaA U idx j = w (idx.succAbove j) * c idx ^ 2 := by
    intro j
    rw [ipaA, hU, diagonal_apply_eq, Complex.ofReal_re]
  have hb : ∀ j, ipaB U idx j = 0 := by
    intro j
    rw [ipaB, hU, diagonal_apply_ne _ (Fin.succAbove_ne idx j).symm]
  refine ⟨?_, ?_, ?_⟩
  · funext i
    simp only [exactProblem, hd, hb, mulVec_zero]
    simp
  · simp only [exactProblem, hd, mulVec_zero]
    rw [hM, diagonal_apply_eq, Complex.ofReal_re]
    simp
  · ext i j
    simp only [exactProblem, ha, of_apply, ipaC, hM]
    by_cases hij : i = j
    · subst hij
      rw [diagonal_apply_eq, diagonal_apply_eq, Real.mul_self_sqrt (mul_pos (hw _) (pow_pos (hc _) 2)).le]
      have : star (((w idx * c (idx.succAbove i) ^ 2)⁻¹ : ℝ) : ℂ) = (((w idx * c (idx.succAbove i) ^ 2)⁻¹ : ℝ) : ℂ) :=
        Complex.conj_ofReal _
      rw [this, ← Complex.ofReal_div, div_eq_mul_inv, ← mul_inv]
    · rw [diagonal_apply_ne _ hij, diagonal_apply_ne _ fun h => hij (Fin.succAbove_right_injective h), star_zero,
        zero_div]

/-- Signals that are uncorrelated over the frames, with amplitudes `c`. -/
noncomputable def scaled (A : Matrix (Fin (n + 2)) (Fin t) ℂ) (c : Fin (n + 2) → ℝ) : Spec F (n + 2) t :=
  fun _ => diagonal (fun i => (c i : ℂ)) * A

theorem row_independent_of_orth {m : ℕ} {A : Matrix (Fin m) (Fin t) ℂ}
    (hA : ∀ i j, (meanT fun s => A i s * star (A j s)) = if i = j then 1 else 0) : LinearIndependent ℂ A.row := by
  rw [Fintype.linearIndependent_iff]
  intro g hg i
  have h1 : ∀ s, ∑ k, g k * A k s = 0 := by
    intro s
    have := congrFun hg s
    simpa [Finset.sum_apply, Matrix.row] using this
  have h2 : ∑ k, g k * (meanT fun s => A k s * star (A i s)) = 0 := by
    have : ∑ k, g k * (meanT fun s => A k s * star (A i s)) = meanT fun s => (∑ k, g k * A k s) * star (A i s) := by
      simp only [meanT, Finset.sum_mul, ← mul_div_assoc, Finset.mul_sum]
      rw [← Finset.sum_div, Finset.sum_comm]
      simp only [mul_assoc]
    rw [this]
    simp [h1, meanT]
  simp only [hA, mul_ite, mul_one, mul_zero, Finset.sum_ite_eq', Finset.mem_univ, if_true] at h2
  exact h2

/-- One step on uncorrelated signals rescales one source. -/
theorem scaled_step (np : Numpy ℂ) {A : Matrix (Fin (n + 2)) (Fin t) ℂ}
    (hA : ∀ i j, (meanT fun s => A i s * star (A j s)) = if i = j then 1 else 0) {w c : Fin (n + 2) → ℝ}
    (hw : ∀ k, 0 < w k) (hc : ∀ k, 0 < c k) (hwc : ∀ k, 1 ≤ w k * c k ^ 2) (idx : Fin (n + 2)) :
    ∀ᶠ eps in 𝓝[>] (0 : ℝ), ∀ max_iter, 0 < max_iter →
      StepSafe np (Special.max_flooring eps) max_iter (fun (_ : F) k _ => w k) (scaled A c) idx ∧
      ipaStep np (Special.max_flooring eps) true max_iter (fun (_ : F) k _ => w k) (scaled A c) idx =
        .ok (scaled A (Function.update c idx (1 / Real.sqrt (w idx)))) := by
  have ht : (t : ℂ) ≠ 0 := by
    intro h
    have := hA 0 0
    rw [meanT, h, div_zero, if_pos rfl] at this
    exact zero_ne_one this
  have hU : ∀ (f : F) k, wcov (fun k _ => w k) (scaled A c) f k = diagonal fun i => ((w k * c i ^ 2 : ℝ) : ℂ) := by
    intro f k
    ext i j
    have h1 := hA i j
    have h2 : wcov (fun k _ => w k) (scaled A c) f k i j = (w k : ℂ) * c i * c j * meanT fun s => A i s * star (A j s) := by
      simp only [wcov, of_apply, scaled, diagonal_mul, meanT]
      rw [← mul_div_assoc, Finset.mul_sum]
      congr 1
      refine Finset.sum_congr rfl fun s _ => ?_
      have : star ((c j : ℂ) * A j s) = (c j : ℂ) * star (A j s) := by
        rw [star_mul', show star (c j : ℂ) = (c j : ℂ) from Complex.conj_ofReal _]
      rw [this]
      ring
    rw [h2, h1]
    by_cases hij : i = j
    · subst hij
      rw [if_pos rfl, diagonal_apply_eq]
      push_cast
      ring
    · rw [if_neg hij, diagonal_apply_ne _ hij, mul_zero]
  have hAi : LinearIndependent ℂ A.row := row_independent_of_orth hA
  have hcd : IsUnit (diagonal fun i => (c i : ℂ)).det := by
    rw [det_diagonal, isUnit_iff_ne_zero, Finset.prod_ne_zero_iff]
    exact fun i _ => by exact_mod_cast (hc i).ne'
  have hY : ∀ f : F, LinearIndependent ℂ (scaled A c f).row := fun f => row_independent hcd hAi
  have hphi : ∀ (f : F) k (s : Fin t), 0 < (fun (_ : F) (k : Fin (n + 2)) (_ : Fin t) => w k) f k s := fun _ k _ => hw k
  have hex := fun f : F => exactProblem_diag hw hc (hU f) idx
  have hbin : ∀ f, (stepProblem (fun (_ : F) k _ => w k) (scaled A c) idx f).v = 0 ∧
      (np.eigh (stepProblem (fun (_ : F) k _ => w k) (scaled A c) idx f).H).1 (Fin.last n) ≤
        (stepProblem (fun (_ : F) k _ => w k) (scaled A c) idx f).z := by
    intro f
    refine ⟨(hex f).1, eigh_le (np.eigh_spec _ (stepProblem_spec hphi hY idx f).1.isHermitian) (fun x => ?_) _⟩
    have hτ := exactProblem_trace (fun k => wcov_posDef (hphi f) hY f k) idx
    obtain ⟨τ, hτe⟩ : ∃ τ, τ = (∑ i, (exactProblem (wcov (fun k _ => w k) (scaled A c) f) idx).H i i).re := ⟨_, rfl⟩
    have hH : (stepProblem (fun (_ : F) k _ => w k) (scaled A c) idx f).H = diagonal fun j : Fin (n + 1) =>
        ((((w idx * c (idx.succAbove j) ^ 2) * (w (idx.succAbove j) * c idx ^ 2))⁻¹ / τ : ℝ) : ℂ) := by
      ext i j
      simp only [stepProblem, normalise, of_apply, ← hτe]
      rw [(hex f).2.2]
      by_cases hij : i = j
      · subst hij
        rw [diagonal_apply_eq, diagonal_apply_eq]
        push_cast
        ring
      · rw [diagonal_apply_ne _ hij, diagonal_apply_ne _ hij, zero_div]
    have hz : (stepProblem (fun (_ : F) k _ => w k) (scaled A c) idx f).z = (w idx * c idx ^ 2)⁻¹ / τ := by
      simp only [stepProblem, normalise, ← hτe]
      rw [(hex f).2.1]
    rw [← hτe] at hτ
    rw [hH, hz, dotProduct, Complex.re_sum, Finset.mul_sum]
    refine Finset.sum_le_sum fun j _ => ?_
    rw [mulVec_diagonal, Pi.star_apply]
    have e : star (x j) * (((((w idx * c (idx.succAbove j) ^ 2) * (w (idx.succAbove j) * c idx ^ 2))⁻¹ / τ : ℝ) : ℂ) * x j) =
        (((((w idx * c (idx.succAbove j) ^ 2) * (w (idx.succAbove j) * c idx ^ 2))⁻¹ / τ) * ‖x j‖ ^ 2 : ℝ) : ℂ) := by
      have := Complex.conj_mul' (x j)
      rw [← starRingEnd_apply]
      push_cast
      rw [← this]
      ring
    rw [e, Complex.ofReal_re]
    refine mul_le_mul_of_nonneg_right ?_ (sq_nonneg _)
    refine div_le_div_of_nonneg_right ?_ hτ.le
    refine inv_anti₀ (mul_pos (hw _) (pow_pos (hc _) 2)) ?_
    have h1 := hwc (idx.succAbove j)
    have h2 : 0 < w idx * c idx ^ 2 := mul_pos (hw _) (pow_pos (hc _) 2)
    calc w idx * c idx ^ 2 = w idx * c idx ^ 2 * 1 := (mul_one _).symm
      _ ≤ w idx * c idx ^ 2 * (w (idx.succAbove j) * c (idx.succAbove j) ^ 2) := mul_le_mul_of_nonneg_left h1 h2.le
      _ = _ := by ring
  have e0 : ∀ᶠ eps in 𝓝[>] (0 : ℝ), 0 < eps := eventually_mem_nhdsWithin
  filter_upwards [e0, stepSafe_zero np hphi hY idx hbin] with eps h0 h1 max_iter hm
  refine ⟨h1 max_iter hm, ?_⟩
  obtain ⟨q, h2, h3, -⟩ := ipaStep_safe np _ hm hphi hY (h1 max_iter hm)
  rw [h2]
  congr 1
  funext f
  have hz : Special.max_flooring eps 0 = eps := max_eq_right h0.le
  have hq : q f = 0 := h3 f (by
    rw [hz, (hbin f).1]
    simpa using h0)
  have hT : ipaT (wcov (fun k _ => w k) (scaled A c) f) idx 0 =
      diagonal fun i => ((if i = idx then 1 / (Real.sqrt (w idx) * c idx) else 1 : ℝ) : ℂ) := by
    have hb : ∀ j, ipaB (wcov (fun k _ => w k) (scaled A c) f) idx j = 0 := by
      intro j
      rw [ipaB, hU, diagonal_apply_ne _ (Fin.succAbove_ne idx j).symm]
    have hq0 : (fun j => (0 : Fin (n + 1) → ℂ) j / ((Real.sqrt (ipaA (wcov (fun k _ => w k) (scaled A c) f) idx j) : ℝ) : ℂ) -
        ipaB (wcov (fun k _ => w k) (scaled A c) f) idx j / (ipaA (wcov (fun k _ => w k) (scaled A c) f) idx j : ℂ)) =
        fun _ => 0 := by
      funext j
      rw [hb, Pi.zero_apply, zero_div, zero_div, sub_zero]
    have hM : (wcov (fun k _ => w k) (scaled A c) f idx)⁻¹ = diagonal fun i => (((w idx * c i ^ 2)⁻¹ : ℝ) : ℂ) := by
      rw [hU]
      refine inv_eq_right_inv ?_
      rw [diagonal_mul_diagonal, ← diagonal_one]
      congr 1
      funext i
      rw [← Complex.ofReal_mul, mul_inv_cancel₀ (mul_pos (hw idx) (pow_pos (hc i) 2)).ne', Complex.ofReal_one]
    have htil : ipaTilde idx (fun _ : Fin (n + 1) => (0 : ℂ)) = Pi.single idx 1 := by
      funext k
      rw [ipaTilde]
      refine Fin.succAboveCases idx ?_ (fun j => ?_) k
      · rw [Fin.insertNth_apply_same, Pi.single_eq_same]
      · rw [Fin.insertNth_apply_succAbove, star_zero, neg_zero, Pi.single_eq_of_ne (Fin.succAbove_ne idx j)]
    have hin : inner (exactProblem (wcov (fun k _ => w k) (scaled A c) f) idx) 0 = (w idx * c idx ^ 2)⁻¹ := by
      rw [inner, (hex f).1, (hex f).2.1]
      simp
    have hins : (idx.insertNth 0 (fun _ : Fin (n + 1) => star (0 : ℂ)) : Fin (n + 2) → ℂ) = 0 := by
      funext k
      refine Fin.succAboveCases idx ?_ (fun j => ?_) k
      · rw [Fin.insertNth_apply_same]
        rfl
      · rw [Fin.insertNth_apply_succAbove, star_zero]
        rfl
    rw [ipaT]
    simp only [hq0, hin, htil, hM]
    ext i j
    rw [of_apply]
    by_cases hi : i = idx
    · subst hi
      rw [if_pos rfl, mulVec_diagonal]
      by_cases hj : i = j
      · subst hj
        rw [Pi.single_eq_same, diagonal_apply_eq, if_pos rfl, mul_one, ← Complex.ofReal_div]
        have : star ((((w i * c i ^ 2)⁻¹ / Real.sqrt (w i * c i ^ 2)⁻¹ : ℝ)) : ℂ) =
          (((w i * c i ^ 2)⁻¹ / Real.sqrt (w i * c i ^ 2)⁻¹ : ℝ) : ℂ) := Complex.conj_ofReal _
        rw [this]
        congr 1
        rw [Real.div_sqrt, Real.sqrt_inv, Real.sqrt_mul (hw i).le, Real.sqrt_sq (hc i).le, one_div]
      · rw [Pi.single_eq_of_ne (Ne.symm hj), diagonal_apply_ne _ hj, mul_zero, zero_div, star_zero]
    · have hi0 : (idx.insertNth 0 (fun j => star ((0 : Fin (n + 1) → ℂ) j /
          ((Real.sqrt (ipaA (wcov (fun k _ => w k) (scaled A c) f) idx j) : ℝ) : ℂ) -
          ipaB (wcov (fun k _ => w k) (scaled A c) f) idx j / (ipaA (wcov (fun k _ => w k) (scaled A c) f) idx j : ℂ))) :
          Fin (n + 2) → ℂ) i = 0 := by
        refine Eq.trans ?_ (congrFun hins i)
        congr 1
        funext j
        rw [congrFun hq0 j]
      rw [if_neg hi, hi0, zero_mul, add_zero]
      by_cases hj : i = j
      · subst hj
        rw [one_apply_eq, diagonal_apply_eq, if_neg hi, Complex.ofReal_one]
      · rw [one_apply_ne hj, diagonal_apply_ne _ hj]
  rw [hq, hT, scaled, scaled, ← Matrix.mul_assoc, diagonal_mul_diagonal]
  congr 2
  funext i
  rw [← Complex.ofReal_mul]
  congr 1
  by_cases hi : i = idx
  · subst hi
    rw [if_pos rfl, Function.update_self]
    have := (hc i).ne'
    have h4 := (Real.sqrt_pos.2 (hw i)).ne'
    field_simp
  · rw [if_neg hi, Function.update_of_ne hi, one_mul]

/-- All steps of a sweep on uncorrelated signals are safe, and the sweep sets the amplitudes. -/
theorem scaled_sweep (np : Numpy ℂ) {A : Matrix (Fin (n + 2)) (Fin t) ℂ}
    (hA : ∀ i j, (meanT fun s => A i s * star (A j s)) = if i = j then 1 else 0) {w : Fin (n + 2) → ℝ}
    (hw : ∀ k, 0 < w k) {max_iter : ℕ} (hm : 0 < max_iter) (l : List (Fin (n + 2))) :
    ∀ c : Fin (n + 2) → ℝ, (∀ k, 0 < c k) → (∀ k, 1 ≤ w k * c k ^ 2) → ∀ᶠ eps in 𝓝[>] (0 : ℝ),
      RegularFold (ipaStep np (Special.max_flooring eps) true max_iter fun (_ : F) k _ => w k)
        (StepSafe np (Special.max_flooring eps) max_iter fun (_ : F) k _ => w k) l (scaled A c) ∧
      l.foldlM (ipaStep np (Special.max_flooring eps) true max_iter fun (_ : F) k _ => w k) (scaled A c) =
        .ok (scaled A fun k => if k ∈ l then 1 / Real.sqrt (w k) else c k) := by
  induction l with
  | nil =>
    intro c _ _
    refine Filter.Eventually.of_forall fun _ => ⟨trivial, ?_⟩
    simp only [List.not_mem_nil, if_false]
    rfl
  | cons b l ih =>
    intro c hc hwc
    have hs := Real.sqrt_pos.2 (hw b)
    filter_upwards [scaled_step (F := F) np hA hw hc hwc b, ih (Function.update c b (1 / Real.sqrt (w b)))
      (fun k => by
        by_cases hk : k = b
        · subst hk
          rw [Function.update_self]
          positivity
        · rw [Function.update_of_ne hk]
          exact hc k)
      (fun k => by
        by_cases hk : k = b
        · subst hk
          rw [Function.update_self, div_pow, one_pow, Real.sq_sqrt (hw k).le, mul_one_div, div_self (hw k).ne']
        · rw [Function.update_of_ne hk]
          exact hwc k)] with eps h1 h2
    refine ⟨⟨(h1 max_iter hm).1, fun s' hs' => ?_⟩, ?_⟩
    · rw [(h1 max_iter hm).2] at hs'
      rw [← Except.ok.inj hs']
      exact h2.1
    · rw [List.foldlM_cons, (h1 max_iter hm).2]
      refine h2.2.trans ?_
      congr 2
      funext k
      by_cases hk : k = b
      · subst hk
        simp
      · by_cases hl : k ∈ l <;> simp [hk, hl]

/-- Unit-modulus signals: the Laplace weights are constant, and an iteration takes the square root of the amplitude. -/
theorem scaled_run (np : Numpy ℂ) {A : Matrix (Fin (n + 2)) (Fin t) ℂ}
    (hA : ∀ i j, (meanT fun s => A i s * star (A j s)) = if i = j then 1 else 0) (hA1 : ∀ i s, ‖A i s‖ = 1)
    {newton_iter : ℕ} (hm : 0 < newton_iter) (n_iter : ℕ) : ∀ c : ℝ, 1 ≤ c → ∀ᶠ eps in 𝓝[>] (0 : ℝ),
      RegularRun (auxIpa np (Special.max_flooring eps) true newton_iter laplaceD)
        (SafeIpa np (Special.max_flooring eps) newton_iter laplaceD) n_iter
        (scaled A (fun _ => c) : Spec Unit (n + 2) t) := by
  induction n_iter with
  | zero => exact fun _ _ => Filter.Eventually.of_forall fun _ => trivial
  | succ n_iter ih =>
    intro c hc
    have hc0 : 0 < c := one_pos.trans_le hc
    have hn : ∀ k s, binNorm (scaled A (fun _ => c) : Spec Unit (n + 2) t) k s = c := by
      intro k s
      rw [binNorm]
      simp [scaled, hA1, Real.sqrt_sq hc0.le, abs_of_pos hc0]
    have e1 := scaled_sweep (F := Unit) np hA (w := fun _ => 1 / c) (fun _ => by positivity) hm
      (List.finRange (n + 2)) (fun _ => c) (fun _ => hc0) (fun _ => by
        rw [one_div, pow_two, inv_mul_cancel_left₀ hc0.ne']
        exact hc)
    filter_upwards [e1, floor_small (mul_pos two_pos hc0), ih (Real.sqrt c) (Real.one_le_sqrt.2 hc)] with eps h1 h2 h3
    have hwt : weight (Special.max_flooring eps) laplaceD (scaled A (fun _ => c) : Spec Unit (n + 2) t) =
        fun _ _ => 1 / c := by
      funext k s
      rw [weight, hn, laplaceD, Special.max_flooring, max_eq_left h2]
      field_simp
    have hwi : weight id laplaceD (scaled A (fun _ => c) : Spec Unit (n + 2) t) =
        fun _ _ => 1 / c := by
      funext k s
      rw [weight, hn, laplaceD, id]
      field_simp
    refine ⟨⟨fun k s => ?_, hwt.trans hwi.symm, ?_⟩, fun s' hs' => ?_⟩
    · rw [hn]
      exact hc0
    · rw [hwt]
      exact h1.1
    · have e : auxIpa np (Special.max_flooring eps) true newton_iter laplaceD
          (scaled A (fun _ => c) : Spec Unit (n + 2) t) = .ok (scaled A fun _ => Real.sqrt c) := by
        rw [auxIpa, hwt]
        refine h1.2.trans ?_
        simp [Real.sqrt_inv]
      rw [e] at hs'
      rw [← Except.ok.inj hs']
      exact h3

/-- Three uncorrelated signals over four frames. -/
noncomputable def hadamard : Matrix (Fin 3) (Fin 4) ℂ :=
  !![1, 1, 1, 1; 1, -1, 1, -1; 1, 1, -1, -1]

theorem hadamard_orth (i j : Fin 3) :
    (meanT fun s => hadamard i s * star (hadamard j s)) = if i = j then 1 else 0 := by
  fin_cases i <;> fin_cases j <;> simp [meanT, hadamard, Fin.sum_univ_four] <;> norm_num

theorem hadamard_norm (i : Fin 3) (s : Fin 4) : ‖hadamard i s‖ = 1 := by
  fin_cases i <;> fin_cases s <;> simp [hadamard]

/-- Three sources, any number of iterations and the default single Newton iteration. -/
example (np : Numpy ℂ) (n_iter : ℕ) : ∃ eps₀ > 0, ∀ eps, 0 < eps → eps < eps₀ → ∃ ls,
    lossList (auxIpa (n := 1) np (Special.max_flooring eps) true 1 laplaceD)
      (lossFree laplaceG fun _ : Unit => hadamard) n_iter
      (separate (fun _ : Unit => hadamard) fun _ => diagonal fun _ => 16) = .ok ls ∧
    ls.length = n_iter + 1 ∧ ls.Pairwise (· ≥ ·) := by
  have h := scaled_run (n := 1) np hadamard_orth hadamard_norm one_pos n_iter 16 (by norm_num)
  obtain ⟨eps₀, h0, h1⟩ := (mem_nhdsGT_iff_exists_Ioo_subset).1 h
  have e : (separate (fun _ : Unit => hadamard) fun _ => diagonal fun _ => 16) =
      (scaled hadamard (fun _ => (16 : ℝ)) : Spec Unit 3 4) := by
    funext f
    simp [separate, scaled]
  refine ⟨eps₀, h0, fun eps h2 h3 => ?_⟩
  refine C68_run (n := 1) np laplace_majorised _ one_pos _ (fun _ => ?_) _ (fun _ => ?_) n_iter ?_
  · exact row_independent_of_orth hadamard_orth
  · rw [det_diagonal]
    simp
  · rw [e]
    exact h1 ⟨h2, h3⟩

/-- A step with correlated signals, where `v ≠ 0` in the inner problem. -/
example (np : Numpy ℂ) : ∃ eps₀ > 0, ∀ eps, 0 < eps → eps < eps₀ → ∃ N, ∀ max_iter, N ≤ max_iter →
    StepSafe (n := 1) np (Special.max_flooring eps) max_iter
      (fun (_ : Unit) k s => if k = 0 then 1 else if s = 0 ∨ s = 2 then 2 else 1) (fun _ => hadamard) 0 := by
  obtain ⟨phi, hphi⟩ : ∃ phi : Unit → Fin 3 → Fin 4 → ℝ,
    phi = fun _ k s => if k = 0 then 1 else if s = 0 ∨ s = 2 then 2 else 1 := ⟨_, rfl⟩
  rw [← hphi]
  have hpos : ∀ f k s, 0 < phi f k s := by
    intro f k s
    rw [hphi]
    dsimp only
    split_ifs <;> norm_num
  have hY : ∀ f : Unit, LinearIndependent ℂ ((fun _ => hadamard : Spec Unit 3 4) f).row :=
    fun _ => row_independent_of_orth hadamard_orth
  refine C68_enough_newton (n := 0) np hpos hY 0 fun f => Or.inr ?_
  obtain ⟨U, hUe⟩ : ∃ U, U = wcov (phi f) (fun _ => hadamard : Spec Unit 3 4) f := ⟨_, rfl⟩
  have hU0 : U 0 = 1 := by
    rw [hUe, hphi]
    ext i j
    have := hadamard_orth i j
    rw [wcov, of_apply, one_apply, ← this]
    simp
  have hUd : ∀ j : Fin 2, U j.succ 0 0 = 3 / 2 := by
    intro j
    rw [hUe, hphi]
    fin_cases j <;> simp [wcov, meanT, hadamard, Fin.sum_univ_four] <;> norm_num
  have hU1 : U 1 0 1 = 1 / 2 := by
    rw [hUe, hphi]
    simp [wcov, meanT, hadamard, Fin.sum_univ_four]
    norm_num
  have ha : ∀ j, ipaA (n := 1) U 0 j = 3 / 2 := by
    intro j
    rw [ipaA, Fin.zero_succAbove, hUd]
    norm_num
  have hs : Real.sqrt (3 / 2) * Real.sqrt (3 / 2) = 3 / 2 := Real.mul_self_sqrt (by norm_num)
  have hH0 : (exactProblem (n := 1) U 0).H = ((2 / 3 : ℝ) : ℂ) • 1 := by
    ext i j
    simp only [exactProblem, of_apply, ha, hs, ipaC, hU0, inv_one, Matrix.smul_apply, smul_eq_mul]
    by_cases hij : i = j
    · subst hij
      rw [one_apply_eq, one_apply_eq]
      norm_num
    · rw [one_apply_ne hij, one_apply_ne fun h => hij (Fin.succAbove_right_injective h)]
      simp
  have hH : (stepProblem (n := 1) phi (fun _ => hadamard : Spec Unit 3 4) 0 f).H = ((1 / 2 : ℝ) : ℂ) • 1 := by
    ext i j
    simp only [stepProblem, normalise, ← hUe, hH0]
    simp [Fin.sum_univ_two]
    by_cases hij : i = j
    · subst hij
      rw [one_apply_eq]
      norm_num
    · rw [one_apply_ne hij]
      simp
  have hv : (stepProblem (n := 1) phi (fun _ => hadamard : Spec Unit 3 4) 0 f).v ≠ 0 := by
    intro h0
    have h1 := congrFun h0 0
    have hd : ipaD (n := 1) (U 0)⁻¹ 0 = 0 := by
      funext i
      rw [ipaD, hU0, inv_one, one_apply_ne (Fin.succAbove_ne 0 i), star_zero]
      rfl
    have hb : ipaB (n := 1) U 0 0 = 1 / 2 := hU1
    simp only [stepProblem, normalise, ← hUe, exactProblem, hd, mulVec_zero, hb, ha, Pi.zero_apply, mul_zero, sub_zero] at h1
    have h2 : (Real.sqrt (3 / 2) : ℂ) ≠ 0 := by exact_mod_cast (Real.sqrt_pos.2 (by norm_num : (0 : ℝ) < 3 / 2)).ne'
    rcases div_eq_zero_iff.1 h1 with h | h
    · norm_num at h
    · exact h2 h
  have he := np.eigh_spec _ (stepProblem_spec (n := 1) hpos hY 0 f).1.isHermitian
  obtain ⟨i, hi⟩ := exists_vTilde_ne he.unitary hv
  exact ⟨i, by rw [eigh_scalar he hH, eigh_scalar he hH], hi⟩

end Verif.Spatial
