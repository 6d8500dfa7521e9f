import Verif.Lemmas.Equivariance
import Verif.Props.Ip2

/-! # Multiplying rows by numbers of modulus one, and what the pairwise updates make of it -/

set_option linter.unusedSectionVars false

namespace Verif

/-- Two loops whose states stay related. The relation is only asked for at states the first loop visits. -/
theorem foldlM_rel {σ τ β : Type} (g : σ → β → Except PyErr σ) (g' : τ → β → Except PyErr τ) (R : σ → τ → Prop)
    (Reg : σ → β → Prop)
    (h : ∀ s s' b, R s s' → Reg s b → ∃ a a', g s b = .ok a ∧ g' s' b = .ok a' ∧ R a a') (l : List β) (s : σ) (s' : τ)
    (hR : R s s') (hreg : RegularFold g Reg l s) :
    ∃ a a', l.foldlM g s = .ok a ∧ l.foldlM g' s' = .ok a' ∧ R a a' := by
  induction l generalizing s s' with
  | nil => exact ⟨s, s', rfl, rfl, hR⟩
  | cons b l ih =>
    obtain ⟨a, a', e, e', hR'⟩ := h s s' b hR hreg.1
    rw [List.foldlM_cons, List.foldlM_cons, e, e']
    exact ih a a' hR' (hreg.2 a e)

theorem iterM_rel {σ τ : Type} (g : σ → Except PyErr σ) (g' : τ → Except PyErr τ) (R : σ → τ → Prop)
    (Reg : σ → Prop) (h : ∀ s s', R s s' → Reg s → ∃ a a', g s = .ok a ∧ g' s' = .ok a' ∧ R a a') (N : ℕ)
    (s : σ) (s' : τ) (hR : R s s') (hreg : RegularRun g Reg N s) :
    ∃ a a', iterM g N s = .ok a ∧ iterM g' N s' = .ok a' ∧ R a a' := by
  induction N generalizing s s' with
  | zero => exact ⟨s, s', rfl, rfl, hR⟩
  | succ N ih =>
    obtain ⟨a, a', e, e', hR'⟩ := h s s' hR hreg.1
    rw [iterM, iterM, e, e']
    exact ih a a' hR' (hreg.2 a e)

namespace Phase

open Matrix Spatial
open scoped ComplexOrder

variable {n t c : ℕ}

/-- Every row multiplied by its own number. -/
def rot (φ : Fin n → ℂ) (A : Matrix (Fin n) (Fin c) ℂ) : Matrix (Fin n) (Fin c) ℂ := Matrix.of fun i j => φ i * A i j

theorem rot_eq (φ : Fin n → ℂ) (A : Matrix (Fin n) (Fin c) ℂ) : rot φ A = diagonal φ * A := by
  ext i j
  rw [rot, of_apply, diagonal_mul]

theorem star_mul_of_norm {z : ℂ} (h : ‖z‖ = 1) : star z * z = 1 := by
  have := Complex.conj_mul' z
  rw [h] at this
  simpa using this

theorem mul_star_of_norm {z : ℂ} (h : ‖z‖ = 1) : z * star z = 1 := by rw [mul_comm, star_mul_of_norm h]

/-- A 2x2 generalised eigenproblem whose matrices are not proportional has its eigenvectors fixed up to phases. -/
theorem geig_phase {A B Z Z' D : Mat 2 ℂ} {l l' : Fin 2 → ℝ} (hne : ∀ x : ℝ, A ≠ (x : ℂ) • B)
    (hl : Monotone l) (hl' : Monotone l') (hD : IsUnit D.det) (h : Linalg.GEigSpec A B 1 l Z)
    (h' : Linalg.GEigSpec (Dᴴ * A * D) (Dᴴ * B * D) 1 l' Z') :
    ∃ u : Fin 2 → ℂ, (∀ i, ‖u i‖ = 1) ∧ D * Z' = Z * diagonal u := by
  obtain ⟨h1, h2⟩ := h.1 rfl
  obtain ⟨h1', h2'⟩ := h'.1 rfl
  obtain ⟨Y, hY⟩ : ∃ Y, Y = D * Z' := ⟨_, rfl⟩
  have hDH : IsUnit (Dᴴ).det := by rw [det_conjTranspose]; exact hD.star
  have k1 : A * Y = B * Y * diagonal fun i => (l' i : ℂ) := by
    have e : Dᴴ * (A * Y) = Dᴴ * (B * Y * diagonal fun i => (l' i : ℂ)) := by
      rw [hY]
      have := h1'
      simp only [Matrix.mul_assoc] at this ⊢
      exact this
    have := congrArg ((Dᴴ)⁻¹ * ·) e
    simpa only [nonsing_inv_mul_cancel_left _ _ hDH] using this
  have k2 : Yᴴ * B * Y = 1 := by
    rw [hY, conjTranspose_mul]
    have := h2'
    simp only [Matrix.mul_assoc] at this ⊢
    exact this
  have hZ : Z * (Zᴴ * B) = 1 := mul_eq_one_comm.mp h2
  obtain ⟨C, hC⟩ : ∃ C, C = Zᴴ * B * Y := ⟨_, rfl⟩
  have hYC : Y = Z * C := by rw [hC, ← Matrix.mul_assoc, ← Matrix.mul_assoc, Matrix.mul_assoc Z, hZ, Matrix.one_mul]
  have hCu : Cᴴ * C = 1 := by
    have : Cᴴ * (Zᴴ * B * Z) * C = 1 := by
      rw [← k2, hYC, conjTranspose_mul]
      simp only [Matrix.mul_assoc]
    rwa [h2, Matrix.mul_one] at this
  have hCu' : C * Cᴴ = 1 := mul_eq_one_comm.mp hCu
  have hcomm : (diagonal fun i => (l i : ℂ)) * C = C * diagonal fun i => (l' i : ℂ) := by
    have e : Zᴴ * (A * Y) = Zᴴ * (B * Y * diagonal fun i => (l' i : ℂ)) := by rw [k1]
    rw [hYC, ← Matrix.mul_assoc A, h1] at e
    have e2 : Zᴴ * (B * Z * (diagonal fun i => (l i : ℂ)) * C) = Zᴴ * B * Z * ((diagonal fun i => (l i : ℂ)) * C) := by
      simp only [Matrix.mul_assoc]
    have e3 : Zᴴ * (B * (Z * C) * diagonal fun i => (l' i : ℂ)) = Zᴴ * B * Z * (C * diagonal fun i => (l' i : ℂ)) := by
      simp only [Matrix.mul_assoc]
    have e4 := e2.symm.trans (e.trans e3)
    rwa [h2, Matrix.one_mul, Matrix.one_mul] at e4
  have hij : ∀ i j, C i j ≠ 0 → l i = l' j := by
    intro i j h0
    have := congrFun (congrFun hcomm i) j
    rw [diagonal_mul, mul_diagonal, mul_comm] at this
    exact_mod_cast mul_left_cancel₀ h0 this
  have strict : ∀ {V : Mat 2 ℂ} {k : Fin 2 → ℝ}, Monotone k → Vᴴ * B * V = 1 →
      A * V = B * V * (diagonal fun i => (k i : ℂ)) → k 0 < k 1 := by
    intro V k hk hV hA
    refine lt_of_le_of_ne (hk (by decide)) fun he => hne (k 0) ?_
    have hV' : V * (Vᴴ * B) = 1 := mul_eq_one_comm.mp hV
    have e : (diagonal fun i => (k i : ℂ)) = (k 0 : ℂ) • (1 : Mat 2 ℂ) := by
      rw [smul_one_eq_diagonal]
      congr 1
      funext i
      fin_cases i
      · rfl
      · exact congrArg _ he.symm
    rw [e, Matrix.mul_smul, Matrix.mul_one] at hA
    calc A = A * V * (Vᴴ * B) := by rw [Matrix.mul_assoc, hV', Matrix.mul_one]
      _ = (k 0 : ℂ) • (B * (V * (Vᴴ * B))) := by rw [hA, Matrix.smul_mul, Matrix.mul_assoc]
      _ = _ := by rw [hV', Matrix.mul_one]
  have s1 : l 0 < l 1 := strict hl h2 h1
  have s2 : l' 0 < l' 1 := strict hl' k2 k1
  have row : ∀ i, C i 0 * star (C i 0) + C i 1 * star (C i 1) = 1 := by
    intro i
    have := congrFun (congrFun hCu' i) i
    rwa [mul_apply, Fin.sum_univ_two, one_apply_eq, conjTranspose_apply, conjTranspose_apply] at this
  have nz : ∀ i, C i 0 ≠ 0 ∨ C i 1 ≠ 0 := by
    intro i
    by_contra h0
    push Not at h0
    have := row i
    rw [h0.1, h0.2] at this
    simp at this
  have c01 : C 0 1 = 0 := by
    by_contra h0
    have e1 := hij 0 1 h0
    rcases nz 1 with h | h
    · have := hij 1 0 h; linarith
    · have := hij 1 1 h; linarith
  have c10 : C 1 0 = 0 := by
    by_contra h0
    have e1 := hij 1 0 h0
    rcases nz 0 with h | h
    · have := hij 0 0 h; linarith
    · exact h c01
  refine ⟨fun i => C i i, fun i => ?_, ?_⟩
  · have h0 : C i i * star (C i i) = 1 := by
      have := row i
      fin_cases i
      · simpa [c01] using this
      · simpa [c10] using this
    have h3 : ‖C i i‖ * ‖C i i‖ = 1 := by
      have := congrArg norm h0
      rwa [norm_mul, norm_star, norm_one] at this
    exact (mul_self_eq_one_iff.mp h3).resolve_right fun h4 => by linarith [norm_nonneg (C i i)]
  · rw [← hY, hYC]
    congr 1
    ext i j
    fin_cases i <;> fin_cases j <;> simp [c01, c10]

/-- `w^H U w` does not see a phase. -/
theorem hUh_conj {k : ℕ} (U D : Mat k ℂ) (w : Fin k → ℂ) : hUh (Dᴴ * U * D) w = hUh U (D *ᵥ w) := by
  rw [hUh, hUh, star_mulVec, ← dotProduct_mulVec, mulVec_mulVec, mulVec_mulVec, Matrix.mul_assoc]

theorem hUh_smul {k : ℕ} (U : Mat k ℂ) (u : ℂ) (hu : ‖u‖ = 1) (w : Fin k → ℂ) : hUh U (u • w) = hUh U w := by
  rw [hUh, hUh, star_smul, mulVec_smul, smul_dotProduct, dotProduct_smul, smul_smul, star_mul_of_norm hu, one_smul]

theorem rot_updateRow (φ : Fin n → ℂ) (W : Matrix (Fin n) (Fin c) ℂ) (k : Fin n) (u : ℂ) (x : Fin c → ℂ) :
    (rot φ W).updateRow k (u • x) = rot (Function.update φ k u) (W.updateRow k x) := by
  ext i j
  by_cases h : i = k
  · subst h; simp [rot]
  · simp [rot, h]

/-- The rows of the pair `(m, k)` are not determined by the update when these two 2x2 matrices are proportional: the
blocks of the inverse weighted covariances of the current outputs. -/
def Tie (U : Fin n → Mat n ℂ) (W : Mat n ℂ) (p : Fin n × Fin n) : Prop :=
  ∃ x : ℝ, ((W * U p.1 * Wᴴ)⁻¹).submatrix ![p.1, p.2] ![p.1, p.2]
    = (x : ℂ) • ((W * U p.2 * Wᴴ)⁻¹).submatrix ![p.1, p.2] ![p.1, p.2]

theorem pairCols_conj (m k : Fin n) (M : Mat n ℂ) :
    (pairCols m k)ᴴ * M * pairCols m k = M.submatrix ![m, k] ![m, k] := by
  ext i j
  simp [pairCols, mul_apply, conjTranspose_apply, Matrix.submatrix_apply]

theorem diagonal_pairCols (φ : Fin n → ℂ) (m k : Fin n) :
    diagonal φ * pairCols m k = pairCols m k * diagonal ![φ m, φ k] := by
  ext i j
  rw [diagonal_mul, mul_diagonal, pairCols, of_apply]
  by_cases h : i = ![m, k] j
  · rw [if_pos h, h]
    fin_cases j <;> simp
  · rw [if_neg h, mul_zero, zero_mul]

/-- The two matrices whose generalised eigenvectors IP2 takes. -/
theorem pup_eq {V W : Mat n ℂ} (hV : V.PosDef) (hW : IsUnit W.det) (E : Matrix (Fin n) (Fin 2) ℂ) :
    npSolve (W * V) E = .ok (V⁻¹ * (W⁻¹ * E)) ∧
      (V⁻¹ * (W⁻¹ * E))ᴴ * V * (V⁻¹ * (W⁻¹ * E)) = Eᴴ * (W * V * Wᴴ)⁻¹ * E := by
  have hVu : IsUnit V.det := (isUnit_iff_isUnit_det V).mp hV.isUnit
  constructor
  · rw [npSolve_ok (isUnit_det_mul hW hV), Matrix.mul_inv_rev, Matrix.mul_assoc]
  · rw [conjTranspose_mul, hV.1.inv.eq, Matrix.mul_assoc _ _ V, nonsing_inv_mul V hVu, Matrix.mul_one,
      Matrix.mul_inv_rev, Matrix.mul_inv_rev, conjTranspose_mul, conjTranspose_nonsing_inv]
    simp only [Matrix.mul_assoc]

/-- The update of a pair of rows started from rows with other phases, on another LAPACK: the same up to phases. -/
theorem ip2Pair_phase (np np' : Numpy ℂ) (floor : ℝ → ℝ) {U : Fin n → Mat n ℂ} {W : Mat n ℂ} {p : Fin n × Fin n}
    (hmk : p.1 ≠ p.2) (hm : (U p.1).PosDef) (hk : (U p.2).PosDef) (hW : IsUnit W.det) (ht : ¬ Tie U W p)
    {φ : Fin n → ℂ} (hφ : ∀ i, ‖φ i‖ = 1) :
    ∃ W₁ φ₁, ip2Pair np floor U W p = .ok W₁ ∧ ip2Pair np' floor U (rot φ W) p = .ok (rot φ₁ W₁) ∧
      ∀ i, ‖φ₁ i‖ = 1 := by
  obtain ⟨m, k⟩ := p
  simp only at hmk hm hk ht
  obtain ⟨E, hE⟩ : ∃ E, E = pairCols (n := n) m k := ⟨_, rfl⟩
  obtain ⟨Φ, hΦ⟩ : ∃ Φ : Mat n ℂ, Φ = diagonal φ := ⟨_, rfl⟩
  obtain ⟨D, hD⟩ : ∃ D : Mat 2 ℂ, D = diagonal ![star (φ m), star (φ k)] := ⟨_, rfl⟩
  have hΦs : Φ * diagonal (star φ) = 1 := by
    rw [hΦ, diagonal_mul_diagonal, ← diagonal_one]
    congr 1
    funext i
    exact mul_star_of_norm (hφ i)
  have hΦi : Φ⁻¹ = diagonal (star φ) := inv_eq_right_inv hΦs
  have hΦu : IsUnit Φ.det := by
    have := congrArg det hΦs
    rw [det_mul, det_one] at this
    exact IsUnit.of_mul_eq_one _ this
  have hW' : IsUnit (rot φ W).det := by
    rw [rot_eq, ← hΦ, det_mul]
    exact hΦu.mul hW
  have hDu : IsUnit D.det := by
    rw [hD, det_diagonal, Fin.prod_univ_two]
    refine IsUnit.mk0 _ ?_
    have h1 : φ m ≠ 0 := fun h => by simpa [h] using hφ m
    have h2 : φ k ≠ 0 := fun h => by simpa [h] using hφ k
    simp [h1, h2]
  have hA' : (rot φ W)⁻¹ * E = W⁻¹ * E * D := by
    rw [rot_eq, ← hΦ, Matrix.mul_inv_rev, hΦi, Matrix.mul_assoc, hE, diagonal_pairCols, hD, Matrix.mul_assoc]
    rfl
  obtain ⟨A, hA⟩ : ∃ A, A = W⁻¹ * E := ⟨_, rfl⟩
  rw [← hA] at hA'
  obtain ⟨Gm, hGm⟩ : ∃ G, G = Aᴴ * (U m)⁻¹ * A := ⟨_, rfl⟩
  obtain ⟨Gk, hGk⟩ : ∃ G, G = Aᴴ * (U k)⁻¹ * A := ⟨_, rfl⟩
  have hinj : Function.Injective A.mulVec := by
    intro x y h
    have h' := congrArg (fun z => W *ᵥ z) (show A *ᵥ x = A *ᵥ y from h)
    simp only [hA, hE, mulVec_mulVec, ← Matrix.mul_assoc, mul_nonsing_inv W hW, Matrix.one_mul] at h'
    exact pairCols_injective hmk h'
  have hGmp : Gm.PosDef := hGm ▸ hm.inv.conjTranspose_mul_mul_same hinj
  have hGkp : Gk.PosDef := hGk ▸ hk.inv.conjTranspose_mul_mul_same hinj
  have hinjD : Function.Injective D.mulVec := by
    rw [mulVec_injective_iff_isUnit]
    exact (isUnit_iff_isUnit_det D).mpr hDu
  have hGmp' : (Dᴴ * Gm * D).PosDef := hGmp.conjTranspose_mul_mul_same hinjD
  have hGkp' : (Dᴴ * Gk * D).PosDef := hGkp.conjTranspose_mul_mul_same hinjD
  have pup : ∀ {V : Mat n ℂ}, V.PosDef → (V⁻¹ * A)ᴴ * V * (V⁻¹ * A) = Aᴴ * V⁻¹ * A := by
    intro V hV
    have hVu : IsUnit V.det := (isUnit_iff_isUnit_det V).mp hV.isUnit
    rw [conjTranspose_mul, hV.1.inv.eq, Matrix.mul_assoc Aᴴ, nonsing_inv_mul V hVu, Matrix.mul_one, Matrix.mul_assoc]
  have pup' : ∀ {V : Mat n ℂ}, V.PosDef → (V⁻¹ * (A * D))ᴴ * V * (V⁻¹ * (A * D)) = Dᴴ * (Aᴴ * V⁻¹ * A) * D := by
    intro V hV
    rw [← pup hV, ← Matrix.mul_assoc V⁻¹, conjTranspose_mul]
    simp only [Matrix.mul_assoc]
  have hne : ∀ x : ℝ, Gm ≠ (x : ℂ) • Gk := by
    intro x h
    refine ht ⟨x, ?_⟩
    have e : ∀ {V : Mat n ℂ}, V.PosDef → ((W * V * Wᴴ)⁻¹).submatrix ![m, k] ![m, k] = Aᴴ * V⁻¹ * A := by
      intro V hV
      rw [← pairCols_conj, ← hE, ← (pup_eq hV hW E).2, ← hA, pup hV]
    rw [e hm, e hk, ← hGm, ← hGk, h]
  obtain ⟨l, Z, hZ, hmono, hspec⟩ := Linalg.C16_eigh2 np Gm Gk hGmp.1 hGkp 1 (.inl rfl)
  obtain ⟨l', Z', hZ', hmono', hspec'⟩ := Linalg.C16_eigh2 np' (Dᴴ * Gm * D) (Dᴴ * Gk * D) hGmp'.1 hGkp' 1 (.inl rfl)
  obtain ⟨u, hu, hDZ⟩ := geig_phase hne hmono hmono' hDu hspec hspec'
  have hcol : ∀ i, D *ᵥ (fun a => Z' a i) = u i • fun a => Z a i := by
    intro i
    funext a
    have := congrFun (congrFun hDZ a) i
    rw [mul_diagonal, mul_comm] at this
    exact this
  have hh : ∀ (G : Mat 2 ℂ) (i : Fin 2), hUh (Dᴴ * G * D) (fun a => Z' a i) = hUh G fun a => Z a i := by
    intro G i
    rw [hUh_conj, hcol, hUh_smul _ _ (hu i)]
  have hw : ∀ (P : Matrix (Fin n) (Fin 2) ℂ) (i : Fin 2) (δ : ℂ),
      (P * D) *ᵥ (fun a => Z' a i / δ) = u i • (P *ᵥ fun a => Z a i / δ) := by
    intro P i δ
    have e : ∀ v : Fin 2 → ℂ, (fun a => v a / δ) = δ⁻¹ • v := fun v => by
      funext a
      rw [Pi.smul_apply, smul_eq_mul, div_eq_inv_mul]
    rw [e, e, ← mulVec_mulVec, mulVec_smul, hcol, mulVec_smul, mulVec_smul, mulVec_smul, smul_comm]
  obtain ⟨x, hx⟩ : ∃ x, x = star (((U m)⁻¹ * A) *ᵥ
    fun i => Z i 1 / (floor (Real.sqrt (hUh Gm fun i => Z i 1)) : ℂ)) := ⟨_, rfl⟩
  obtain ⟨y, hy⟩ : ∃ y, y = star (((U k)⁻¹ * A) *ᵥ
    fun i => Z i 0 / (floor (Real.sqrt (hUh Gk fun i => Z i 0)) : ℂ)) := ⟨_, rfl⟩
  refine ⟨(W.updateRow m x).updateRow k y, Function.update (Function.update φ m (star (u 1))) k (star (u 0)), ?_, ?_, ?_⟩
  · simp only [ip2Pair, ip2OnePair]
    rw [show (Matrix.of fun i j => if i = ![m, k] j then 1 else 0 : Matrix (Fin n) (Fin 2) ℂ) = E from hE.symm,
      (pup_eq hm hW E).1, (pup_eq hk hW E).1]
    simp only [bind, Except.bind]
    rw [← hA, pup hm, pup hk, ← hGm, ← hGk, hZ, hx, hy]
    rfl
  · simp only [ip2Pair, ip2OnePair]
    rw [show (Matrix.of fun i j => if i = ![m, k] j then 1 else 0 : Matrix (Fin n) (Fin 2) ℂ) = E from hE.symm,
      (pup_eq hm hW' E).1, (pup_eq hk hW' E).1]
    simp only [bind, Except.bind]
    rw [hA', pup' hm, pup' hk, ← hGm, ← hGk, hZ']
    simp only [hh, ← Matrix.mul_assoc, hw, star_smul, Matrix.cons_val_zero, Matrix.cons_val_one, rot_updateRow, hx, hy]
  · intro i
    by_cases h1 : i = k
    · subst h1; simp [hu]
    · by_cases h2 : i = m
      · subst h2; simp [h1, hu]
      · simp [h1, h2, hφ]

/-- The same for ISS2: the outputs of the pair `(m, k)` are not determined by the update when the two weighted
covariances of the pair are proportional. -/
def TieY (phi : Fin n → Fin t → ℝ) (Y : Matrix (Fin n) (Fin t) ℂ) (p : Fin n × Fin n) : Prop :=
  ∃ x : ℝ, pairCov (phi p.1) ![Y p.1, Y p.2] = (x : ℂ) • pairCov (phi p.2) ![Y p.1, Y p.2]

theorem pairCov_rot (phi : Fin t → ℝ) (y : Fin 2 → Fin t → ℂ) (φ : Fin 2 → ℂ) :
    pairCov phi (fun i s => φ i * y i s) = (diagonal (star φ))ᴴ * pairCov phi y * diagonal (star φ) := by
  ext i j
  rw [diagonal_conjTranspose, star_star, mul_diagonal, diagonal_mul]
  simp only [pairCov, of_apply, meanT, star_mul', Pi.star_apply]
  rw [mul_div_assoc', div_mul_eq_mul_div, Finset.mul_sum, Finset.sum_mul]
  congr 1
  exact Finset.sum_congr rfl fun s _ => by ring

theorem inv2_form (G : Mat 2 ℂ) : Linalg.inv2 G = .ok
    !![G 1 1 / (G 0 0 * G 1 1 - G 0 1 * G 1 0), -G 0 1 / (G 0 0 * G 1 1 - G 0 1 * G 1 0);
      -G 1 0 / (G 0 0 * G 1 1 - G 0 1 * G 1 0), G 0 0 / (G 0 0 * G 1 1 - G 0 1 * G 1 0)] := by
  simp [Linalg.inv2]

theorem inv2_rot {G G' : Mat 2 ℂ} {ψ : Fin 2 → ℂ} (hψ : ∀ i, ‖ψ i‖ = 1)
    (h : ∀ i j, G' i j = ψ i * G i j * star (ψ j)) :
    ∃ I I', Linalg.inv2 G = .ok I ∧ Linalg.inv2 G' = .ok I' ∧ ∀ i j, I' i j = ψ i * I i j * star (ψ j) := by
  refine ⟨_, _, inv2_form G, inv2_form G', ?_⟩
  have h0 := mul_star_of_norm (hψ 0)
  have h1 := mul_star_of_norm (hψ 1)
  have hd : G' 0 0 * G' 1 1 - G' 0 1 * G' 1 0 = G 0 0 * G 1 1 - G 0 1 * G 1 0 := by
    rw [h, h, h, h]
    linear_combination (G 0 0 * G 1 1 - G 0 1 * G 1 0) * (h0 + (ψ 0 * star (ψ 0)) * h1)
  rw [hd]
  intro i j
  obtain ⟨δ, hδ⟩ : ∃ δ, δ = (G 0 0 * G 1 1 - G 0 1 * G 1 0)⁻¹ := ⟨_, rfl⟩
  simp only [div_eq_mul_inv, ← hδ]
  fin_cases i <;> fin_cases j
  · simp only [Fin.zero_eta, of_apply, cons_val', cons_val_zero, cons_val_fin_one]
    rw [h]
    linear_combination (G 1 1 * δ) * (h1 - h0)
  · simp only [Fin.zero_eta, Fin.mk_one, of_apply, cons_val', cons_val_zero, cons_val_one, cons_val_fin_one]
    rw [h]
    ring
  · simp only [Fin.zero_eta, Fin.mk_one, of_apply, cons_val', cons_val_zero, cons_val_one, cons_val_fin_one]
    rw [h]
    ring
  · simp only [Fin.mk_one, of_apply, cons_val', cons_val_one, cons_val_fin_one]
    rw [h]
    linear_combination (G 0 0 * δ) * (h0 - h1)

theorem iss2Pair_phase (np np' : Numpy ℂ) (floor : ℝ → ℝ) {phi : Fin n → Fin t → ℝ} {Y : Matrix (Fin n) (Fin t) ℂ}
    {p : Fin n × Fin n} (hm : (pairCov (phi p.1) ![Y p.1, Y p.2]).PosDef)
    (hk : (pairCov (phi p.2) ![Y p.1, Y p.2]).PosDef) (ht : ¬ TieY phi Y p) {φ : Fin n → ℂ} (hφ : ∀ i, ‖φ i‖ = 1) :
    ∃ Y₁ φ₁, iss2Pair np floor phi Y p = .ok Y₁ ∧ iss2Pair np' floor phi (rot φ Y) p = .ok (rot φ₁ Y₁) ∧
      ∀ i, ‖φ₁ i‖ = 1 := by
  obtain ⟨m, k⟩ := p
  simp only at hm hk
  obtain ⟨y, hy⟩ : ∃ y, y = ![Y m, Y k] := ⟨_, rfl⟩
  obtain ⟨ψ, hψ⟩ : ∃ ψ, ψ = ![φ m, φ k] := ⟨_, rfl⟩
  have hψ1 : ∀ i, ‖ψ i‖ = 1 := by
    intro i
    rw [hψ]
    fin_cases i
    · exact hφ m
    · exact hφ k
  have hy' : (![rot φ Y m, rot φ Y k] : Fin 2 → Fin t → ℂ) = fun i s => ψ i * y i s := by
    funext i s
    rw [hψ, hy]
    fin_cases i <;> rfl
  obtain ⟨D, hD⟩ : ∃ D : Mat 2 ℂ, D = diagonal (star ψ) := ⟨_, rfl⟩
  have hDu : IsUnit D.det := by
    rw [hD, det_diagonal, Fin.prod_univ_two]
    refine IsUnit.mk0 _ ?_
    have h1 : ψ 0 ≠ 0 := fun h => by simpa [h] using hψ1 0
    have h2 : ψ 1 ≠ 0 := fun h => by simpa [h] using hψ1 1
    simp [h1, h2]
  have hinjD : Function.Injective D.mulVec := by
    rw [mulVec_injective_iff_isUnit]
    exact (isUnit_iff_isUnit_det D).mpr hDu
  rw [← hy] at hm hk
  have cov' : ∀ q : Fin t → ℝ, pairCov q (fun i s => ψ i * y i s) = Dᴴ * pairCov q y * D := fun q => by
    rw [pairCov_rot, hD]
  have hmp' : (Dᴴ * pairCov (phi m) y * D).PosDef := hm.conjTranspose_mul_mul_same hinjD
  have hkp' : (Dᴴ * pairCov (phi k) y * D).PosDef := hk.conjTranspose_mul_mul_same hinjD
  have hne : ∀ x : ℝ, pairCov (phi m) y ≠ (x : ℂ) • pairCov (phi k) y := fun x h => ht ⟨x, by rw [← hy]; exact h⟩
  obtain ⟨l, Z, hZ, hmono, hspec⟩ := Linalg.C16_eigh2 np _ _ hm.1 hk 1 (.inl rfl)
  obtain ⟨l', Z', hZ', hmono', hspec'⟩ := Linalg.C16_eigh2 np' _ _ hmp'.1 hkp' 1 (.inl rfl)
  obtain ⟨u, hu, hDZ⟩ := geig_phase hne hmono hmono' hDu hspec hspec'
  have hent : ∀ a i, star (ψ a) * Z' a i = Z a i * u i := by
    intro a i
    have := congrFun (congrFun hDZ a) i
    rwa [mul_diagonal, hD, diagonal_mul, Pi.star_apply] at this
  have hcol : ∀ i, D *ᵥ (fun a => Z' a i) = u i • fun a => Z a i := by
    intro i
    funext a
    have := congrFun (congrFun hDZ a) i
    rw [mul_diagonal, mul_comm] at this
    exact this
  have hh : ∀ (G : Mat 2 ℂ) (i : Fin 2), hUh (Dᴴ * G * D) (fun a => Z' a i) = hUh G fun a => Z a i := by
    intro G i
    rw [hUh_conj, hcol, hUh_smul _ _ (hu i)]
  have hp : ∀ (i : Fin 2) (δ : ℝ) (s : Fin t), ∑ a, star (Z' a i / (δ : ℂ)) * (ψ a * y a s)
      = star (u i) * ∑ a, star (Z a i / (δ : ℂ)) * y a s := by
    intro i δ s
    rw [Finset.mul_sum]
    refine Finset.sum_congr rfl fun a _ => ?_
    have e := congrArg star (hent a i)
    rw [star_mul', star_mul', star_star] at e
    rw [star_div₀, star_div₀]
    linear_combination (y a s / star (δ : ℂ)) * e
  have hQ : ∀ (q : Fin t → ℝ) (z : Fin t → ℂ) (w : ℂ) (s : Fin t),
      (∑ i, star ((match Linalg.inv2 (Dᴴ * pairCov q y * D) with
        | .ok G_inv => -(G_inv *ᵥ fun i => meanT fun s => (q s : ℂ) * (ψ i * y i s * star (w * z s)))
        | .error _ => 0) i) * (ψ i * y i s))
      = w * ∑ i, star ((match Linalg.inv2 (pairCov q y) with
        | .ok G_inv => -(G_inv *ᵥ fun i => meanT fun s => (q s : ℂ) * (y i s * star (z s)))
        | .error _ => 0) i) * y i s := by
    intro q z w s
    obtain ⟨b, hb⟩ : ∃ b : Fin 2 → ℂ, b = fun i => meanT fun s => (q s : ℂ) * (y i s * star (z s)) := ⟨_, rfl⟩
    have hb' : (fun i => meanT fun s => (q s : ℂ) * (ψ i * y i s * star (w * z s))) = fun i => ψ i * star w * b i := by
      funext i
      rw [hb]
      simp only [meanT]
      rw [mul_div_assoc', Finset.mul_sum]
      congr 1
      refine Finset.sum_congr rfl fun s _ => ?_
      rw [star_mul']
      ring
    obtain ⟨I, I', e, e', hI⟩ := inv2_rot (G := pairCov q y) (G' := Dᴴ * pairCov q y * D) hψ1 fun i j => by
      rw [hD, diagonal_conjTranspose, star_star, mul_diagonal, diagonal_mul, Pi.star_apply]
    rw [hb', ← hb, e, e', Finset.mul_sum]
    refine Finset.sum_congr rfl fun i _ => ?_
    have hmv : (I' *ᵥ fun i => ψ i * star w * b i) i = ψ i * star w * (I *ᵥ b) i := by
      simp only [mulVec, dotProduct, hI]
      rw [Finset.mul_sum]
      refine Finset.sum_congr rfl fun j _ => ?_
      linear_combination (ψ i * I i j * star w * b j) * star_mul_of_norm (hψ1 j)
    simp only [Pi.neg_apply, hmv, star_neg, star_mul', star_star]
    linear_combination (-(w * star ((I *ᵥ b) i) * y i s)) * star_mul_of_norm (hψ1 i)
  simp only [iss2Pair, hy', ← hy, cov', bind, Except.bind]
  rw [hZ, hZ']
  refine ⟨_, Function.update (Function.update φ k (star (u 1))) m (star (u 0)), rfl, ?_, ?_⟩
  · simp only [hh]
    congr 1
    ext i s
    simp only [of_apply, rot]
    by_cases h1 : i = m
    · subst h1
      simp only [if_true, Function.update_self]
      exact hp 0 _ s
    · by_cases h2 : i = k
      · subst h2
        simp only [h1, if_true, if_false, Function.update_of_ne h1, Function.update_self]
        exact hp 1 _ s
      · simp only [h1, h2, if_false]
        rw [Function.update_of_ne h1, Function.update_of_ne h2, mul_add]
        exact congrArg (φ i * Y i s + ·) (hQ (phi i) (Y i) (φ i) s)
  · intro i
    by_cases h1 : i = m
    · subst h1; simp [hu]
    · by_cases h2 : i = k
      · subst h2; simp [h1, hu]
      · simp [h1, h2, hφ]

end Phase

end Verif
