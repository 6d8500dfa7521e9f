import Verif.Lemmas.Phase
import Verif.Lemmas.Level

/-! # The pairwise updates of rows with another scale

As `Verif.Lemmas.Phase`, but the rows may also have other (non-zero) absolute values, if the weights of each source
are divided by the square of its absolute value. -/

namespace Verif.Phase

open Matrix Spatial
open scoped ComplexOrder

variable {n t c : ℕ}

/-- `geig_phase` for matrices that are multiplied by positive numbers. -/
theorem geig_scale {A B Z Z' C : Mat 2 ℂ} {l l' : Fin 2 → ℝ} {α β : ℝ} (hα : 0 < α) (hβ : 0 < β)
    (hne : ∀ x : ℝ, A ≠ (x : ℂ) • B) (hl : Monotone l) (hl' : Monotone l') (hC : IsUnit C.det)
    (h : Linalg.GEigSpec A B 1 l Z)
    (h' : Linalg.GEigSpec ((α : ℂ) • (Cᴴ * A * C)) ((β : ℂ) • (Cᴴ * B * C)) 1 l' Z') :
    ∃ u : Fin 2 → ℂ, (∀ i, ‖u i‖ = 1) ∧ ∀ i, (Real.sqrt β : ℂ) • (C *ᵥ fun a => Z' a i) = u i • fun a => Z a i := by
  have hs : ((Real.sqrt β : ℝ) : ℂ) ≠ 0 := by exact_mod_cast (Real.sqrt_pos.mpr hβ).ne'
  have hss : ((Real.sqrt β : ℝ) : ℂ) * ((Real.sqrt β : ℝ) : ℂ) = (β : ℂ) := by
    exact_mod_cast Real.mul_self_sqrt hβ.le
  have hβ0 : (β : ℂ) ≠ 0 := by exact_mod_cast hβ.ne'
  obtain ⟨D, hD⟩ : ∃ D : Mat 2 ℂ, D = ((Real.sqrt β : ℝ) : ℂ) • C := ⟨_, rfl⟩
  have hDu : IsUnit D.det := by
    rw [hD, det_smul]
    exact (IsUnit.mk0 _ (pow_ne_zero _ hs)).mul hC
  have hconj : ∀ M : Mat 2 ℂ, Dᴴ * M * D = (β : ℂ) • (Cᴴ * M * C) := by
    intro M
    rw [hD, conjTranspose_smul, RCLike.star_def, Complex.conj_ofReal]
    simp only [Matrix.smul_mul, Matrix.mul_smul, smul_smul, hss]
  have hx : 0 < α / β := div_pos hα hβ
  have hx0 : ((α / β : ℝ) : ℂ) ≠ 0 := by exact_mod_cast hx.ne'
  obtain ⟨u, hu, hZ⟩ := geig_phase (A := ((α / β : ℝ) : ℂ) • A) (B := B) (D := D) (Z := Z) (Z' := Z')
    (l := fun i => α / β * l i) (l' := l')
    (fun x hx' => hne (x / (α / β)) (by
      have := congrArg (fun M => ((α / β : ℝ) : ℂ)⁻¹ • M) hx'
      simp only [smul_smul, inv_mul_cancel₀ hx0, one_smul] at this
      rw [this]
      congr 1
      push_cast
      ring))
    (fun i j hij => mul_le_mul_of_nonneg_left (hl hij) hx.le) hl' hDu
    (by
      obtain ⟨h1, h2⟩ := h.1 rfl
      refine ⟨fun _ => ⟨?_, h2⟩, by norm_num, by norm_num⟩
      have e : (diagonal fun i => ((α / β * l i : ℝ) : ℂ)) = ((α / β : ℝ) : ℂ) • diagonal fun i => (l i : ℂ) := by
        rw [← diagonal_smul]
        congr 1
        funext i
        simp
      have e' : (diagonal fun i => (RCLike.ofReal (α / β * l i) : ℂ)) = diagonal fun i => ((α / β * l i : ℝ) : ℂ) := rfl
      rw [e', e, Matrix.smul_mul, h1, Matrix.mul_smul]
      rfl)
    (by
      rw [Matrix.mul_smul, Matrix.smul_mul, hconj, hconj, smul_smul]
      have : ((α / β : ℝ) : ℂ) * (β : ℂ) = (α : ℂ) := by
        rw [Complex.ofReal_div, div_mul_cancel₀ _ hβ0]
      rw [this]
      exact h')
  refine ⟨u, hu, fun i => ?_⟩
  funext a
  have := congrFun (congrFun hZ a) i
  rw [mul_diagonal, hD, Matrix.smul_mul, Matrix.smul_apply] at this
  rw [Pi.smul_apply, Pi.smul_apply, smul_eq_mul (a := u i), mul_comm (u i)]
  exact this

theorem hUh_real_smul {k : ℕ} (U : Mat k ℂ) {x : ℝ} (hx : 0 ≤ x) (w : Fin k → ℂ) :
    hUh ((x : ℂ) • U) w = x * hUh U w := by
  have := Spatial.hUh_smul x hx 1 U w
  simpa using this

theorem hUh_vec_smul {k : ℕ} (U : Mat k ℂ) (x : ℝ) (w : Fin k → ℂ) : hUh U ((x : ℂ) • w) = x ^ 2 * hUh U w := by
  have := Spatial.hUh_smul 1 zero_le_one x U w
  simpa using this

theorem sqrt_ofReal_ne {x : ℝ} (hx : 0 < x) : ((Real.sqrt x : ℝ) : ℂ) ≠ 0 := by
  exact_mod_cast (Real.sqrt_pos.mpr hx).ne'

theorem ip2Pair_scale (np np' : Numpy ℂ) {U : Fin n → Mat n ℂ} {W : Mat n ℂ} {p : Fin n × Fin n}
    (hmk : p.1 ≠ p.2) (hm : (U p.1).PosDef) (hk : (U p.2).PosDef) (hW : IsUnit W.det) (ht : ¬ Tie U W p)
    {d : Fin n → ℂ} (hd : ∀ i, d i ≠ 0) :
    ∃ W₁ d₁, ip2Pair np id U W p = .ok W₁ ∧
      ip2Pair np' id (fun i => (((‖d i‖ ^ 2)⁻¹ : ℝ) : ℂ) • U i) (rot d W) p = .ok (rot d₁ W₁) ∧
      ∀ i, ‖d₁ i‖ = ‖d i‖ := by
  obtain ⟨m, k⟩ := p
  simp only at hmk hm hk ht
  have hn : ∀ i, 0 < ‖d i‖ := fun i => norm_pos_iff.mpr (hd i)
  have hn2 : ∀ i, 0 < ‖d i‖ ^ 2 := fun i => pow_pos (hn i) 2
  obtain ⟨E, hE⟩ : ∃ E, E = pairCols (n := n) m k := ⟨_, rfl⟩
  obtain ⟨Φ, hΦ⟩ : ∃ Φ : Mat n ℂ, Φ = diagonal d := ⟨_, rfl⟩
  obtain ⟨C, hC⟩ : ∃ C : Mat 2 ℂ, C = diagonal ![(d m)⁻¹, (d k)⁻¹] := ⟨_, rfl⟩
  have hΦs : Φ * diagonal (fun i => (d i)⁻¹) = 1 := by
    rw [hΦ, diagonal_mul_diagonal, ← diagonal_one]
    congr 1
    funext i
    exact mul_inv_cancel₀ (hd i)
  have hΦi : Φ⁻¹ = diagonal (fun i => (d i)⁻¹) := inv_eq_right_inv hΦs
  have hΦu : IsUnit Φ.det := by
    have := congrArg det hΦs
    rw [det_mul, det_one] at this
    exact IsUnit.of_mul_eq_one _ this
  have hW' : IsUnit (rot d W).det := by
    rw [rot_eq, ← hΦ, det_mul]
    exact hΦu.mul hW
  have hCu : IsUnit C.det := by
    rw [hC, det_diagonal, Fin.prod_univ_two]
    exact IsUnit.mk0 _ (mul_ne_zero (inv_ne_zero (hd m)) (inv_ne_zero (hd k)))
  have hA' : (rot d W)⁻¹ * E = W⁻¹ * E * C := by
    rw [rot_eq, ← hΦ, Matrix.mul_inv_rev, hΦi, Matrix.mul_assoc, hE, diagonal_pairCols, hC, Matrix.mul_assoc]
  obtain ⟨A, hA⟩ : ∃ A, A = W⁻¹ * E := ⟨_, rfl⟩
  rw [← hA] at hA'
  obtain ⟨Gm, hGm⟩ : ∃ G, G = Aᴴ * (U m)⁻¹ * A := ⟨_, rfl⟩
  obtain ⟨Gk, hGk⟩ : ∃ G, G = Aᴴ * (U k)⁻¹ * A := ⟨_, rfl⟩
  have hinj : Function.Injective A.mulVec := by
    intro x y h
    have h' := congrArg (fun z => W *ᵥ z) (show A *ᵥ x = A *ᵥ y from h)
    simp only [hA, hE, mulVec_mulVec, ← Matrix.mul_assoc, mul_nonsing_inv W hW, Matrix.one_mul] at h'
    exact pairCols_injective hmk h'
  have hGmp : Gm.PosDef := hGm ▸ hm.inv.conjTranspose_mul_mul_same hinj
  have hGkp : Gk.PosDef := hGk ▸ hk.inv.conjTranspose_mul_mul_same hinj
  have hinjC : Function.Injective C.mulVec := by
    rw [mulVec_injective_iff_isUnit]
    exact (isUnit_iff_isUnit_det C).mpr hCu
  have hpos : ∀ {M : Mat 2 ℂ} {x : ℝ}, 0 < x → M.PosDef → ((x : ℂ) • M).PosDef := fun hx hM =>
    hM.smul (by exact_mod_cast hx)
  have hposn : ∀ {M : Mat n ℂ} {x : ℝ}, 0 < x → M.PosDef → ((x : ℂ) • M).PosDef := fun hx hM =>
    hM.smul (by exact_mod_cast hx)
  have hGmp' : (((‖d m‖ ^ 2 : ℝ) : ℂ) • (Cᴴ * Gm * C)).PosDef := hpos (hn2 m) (hGmp.conjTranspose_mul_mul_same hinjC)
  have hGkp' : (((‖d k‖ ^ 2 : ℝ) : ℂ) • (Cᴴ * Gk * C)).PosDef := hpos (hn2 k) (hGkp.conjTranspose_mul_mul_same hinjC)
  have pup : ∀ {V : Mat n ℂ}, V.PosDef → (V⁻¹ * A)ᴴ * V * (V⁻¹ * A) = Aᴴ * V⁻¹ * A := by
    intro V hV
    have hVu : IsUnit V.det := (isUnit_iff_isUnit_det V).mp hV.isUnit
    rw [conjTranspose_mul, hV.1.inv.eq, Matrix.mul_assoc Aᴴ, nonsing_inv_mul V hVu, Matrix.mul_one, Matrix.mul_assoc]
  have vinv : ∀ {V : Mat n ℂ} (i : Fin n), V.PosDef →
      ((((‖d i‖ ^ 2)⁻¹ : ℝ) : ℂ) • V)⁻¹ = ((‖d i‖ ^ 2 : ℝ) : ℂ) • V⁻¹ := by
    intro V i hV
    have hVu : IsUnit V.det := (isUnit_iff_isUnit_det V).mp hV.isUnit
    apply inv_eq_left_inv
    have h0 : ((‖d i‖ ^ 2 : ℝ) : ℂ) ≠ 0 := by exact_mod_cast (hn2 i).ne'
    rw [Matrix.smul_mul, Matrix.mul_smul, smul_smul, nonsing_inv_mul V hVu, Complex.ofReal_inv, mul_inv_cancel₀ h0, one_smul]
  have pup' : ∀ {V : Mat n ℂ} (i : Fin n), V.PosDef →
      (((‖d i‖ ^ 2 : ℝ) : ℂ) • V⁻¹ * (A * C))ᴴ * ((((‖d i‖ ^ 2)⁻¹ : ℝ) : ℂ) • V) * (((‖d i‖ ^ 2 : ℝ) : ℂ) • V⁻¹ * (A * C))
        = ((‖d i‖ ^ 2 : ℝ) : ℂ) • (Cᴴ * (Aᴴ * V⁻¹ * A) * C) := by
    intro V i hV
    have h0 : ((‖d i‖ ^ 2 : ℝ) : ℂ) ≠ 0 := by exact_mod_cast (hn2 i).ne'
    rw [← pup hV, ← Matrix.mul_assoc _ A C, Matrix.smul_mul, Matrix.smul_mul, conjTranspose_smul, conjTranspose_mul _ C,
      RCLike.star_def, Complex.conj_ofReal]
    simp only [Matrix.smul_mul, Matrix.mul_smul, smul_smul, Complex.ofReal_inv, Matrix.mul_assoc]
    congr 1
    rw [inv_mul_cancel₀ h0, mul_one]
  have hne : ∀ x : ℝ, Gm ≠ (x : ℂ) • Gk := by
    intro x h
    refine ht ⟨x, ?_⟩
    have e : ∀ {V : Mat n ℂ}, V.PosDef → ((W * V * Wᴴ)⁻¹).submatrix ![m, k] ![m, k] = Aᴴ * V⁻¹ * A := by
      intro V hV
      rw [← pairCols_conj, ← hE, ← (pup_eq hV hW E).2, ← hA, pup hV]
    rw [e hm, e hk, ← hGm, ← hGk, h]
  obtain ⟨l, Z, hZ, hmono, hspec⟩ := Linalg.C16_eigh2 np Gm Gk hGmp.1 hGkp 1 (.inl rfl)
  obtain ⟨l', Z', hZ', hmono', hspec'⟩ := Linalg.C16_eigh2 np' _ _ hGmp'.1 hGkp' 1 (.inl rfl)
  obtain ⟨u, hu, hcol'⟩ := geig_scale (hn2 m) (hn2 k) hne hmono hmono' hCu hspec hspec'
  have hsq : ∀ i, Real.sqrt (‖d i‖ ^ 2) = ‖d i‖ := fun i => Real.sqrt_sq (norm_nonneg _)
  have hdk : ((‖d k‖ : ℝ) : ℂ) ≠ 0 := by exact_mod_cast (hn k).ne'
  have hdm : ((‖d m‖ : ℝ) : ℂ) ≠ 0 := by exact_mod_cast (hn m).ne'
  have hcol : ∀ i, C *ᵥ (fun a => Z' a i) = (‖d k‖⁻¹ : ℝ) • (u i • fun a => Z a i) := by
    intro i
    have := hcol' i
    rw [hsq] at this
    rw [← this]
    funext a
    simp only [Pi.smul_apply, smul_eq_mul, Complex.real_smul, Complex.ofReal_inv]
    rw [inv_mul_cancel_left₀ hdk]
  have hh : ∀ (G : Mat 2 ℂ) (i : Fin 2) (x : ℝ), 0 ≤ x → hUh ((x : ℂ) • (Cᴴ * G * C)) (fun a => Z' a i)
      = x * (‖d k‖⁻¹ ^ 2 * hUh G fun a => Z a i) := by
    intro G i x hx
    rw [hUh_real_smul _ hx, hUh_conj, hcol]
    have e : ((‖d k‖⁻¹ : ℝ) • (u i • fun a => Z a i) : Fin 2 → ℂ) = ((‖d k‖⁻¹ : ℝ) : ℂ) • (u i • fun a => Z a i) := by
      funext a
      simp
    rw [e, hUh_vec_smul, hUh_smul _ _ (hu i)]
  have hdm' : Real.sqrt (hUh (((‖d m‖ ^ 2 : ℝ) : ℂ) • (Cᴴ * Gm * C)) fun a => Z' a 1)
      = ‖d m‖ * ‖d k‖⁻¹ * Real.sqrt (hUh Gm fun a => Z a 1) := by
    rw [hh _ _ _ (hn2 m).le, Real.sqrt_mul (hn2 m).le, Real.sqrt_mul (by positivity), hsq,
      Real.sqrt_sq (by positivity), mul_assoc]
  have hdk' : Real.sqrt (hUh (((‖d k‖ ^ 2 : ℝ) : ℂ) • (Cᴴ * Gk * C)) fun a => Z' a 0)
      = Real.sqrt (hUh Gk fun a => Z a 0) := by
    rw [hh _ _ _ (hn2 k).le, ← mul_assoc, ← mul_pow, mul_inv_cancel₀ (hn k).ne', one_pow, one_mul]
  have he : ∀ (δ : ℂ) (v : Fin 2 → ℂ), (fun a => v a / δ) = δ⁻¹ • v := fun δ v => by
    funext a
    rw [Pi.smul_apply, smul_eq_mul, div_eq_inv_mul]
  have hw : ∀ (P : Matrix (Fin n) (Fin n) ℂ) (i : Fin 2) (x δ : ℂ),
      (x • P * (A * C)) *ᵥ (fun a => Z' a i / δ) = (x * (‖d k‖ : ℂ)⁻¹ * δ⁻¹ * u i) • ((P * A) *ᵥ fun a => Z a i) := by
    intro P i x δ
    rw [he, ← Matrix.mul_assoc, ← mulVec_mulVec, mulVec_smul, hcol, Matrix.smul_mul, smul_mulVec]
    have e : ((‖d k‖⁻¹ : ℝ) • (u i • fun a => Z a i) : Fin 2 → ℂ) = ((‖d k‖ : ℂ)⁻¹ * u i) • fun a => Z a i := by
      funext a
      simp [mul_assoc]
    rw [e, smul_smul, mulVec_smul, smul_smul]
    congr 1
    ring
  obtain ⟨x, hx⟩ : ∃ x, x = star (((U m)⁻¹ * A) *ᵥ
    fun i => Z i 1 / (Real.sqrt (hUh Gm fun i => Z i 1) : ℂ)) := ⟨_, rfl⟩
  obtain ⟨y, hy⟩ : ∃ y, y = star (((U k)⁻¹ * A) *ᵥ
    fun i => Z i 0 / (Real.sqrt (hUh Gk fun i => Z i 0) : ℂ)) := ⟨_, rfl⟩
  have hrx : star ((((‖d m‖ ^ 2 : ℝ) : ℂ) • (U m)⁻¹ * (A * C)) *ᵥ
      (fun i => Z' i 1 / (Real.sqrt (hUh (((‖d m‖ ^ 2 : ℝ) : ℂ) • (Cᴴ * Gm * C)) fun a => Z' a 1) : ℂ)))
      = ((‖d m‖ : ℂ) * star (u 1)) • x := by
    rw [hw, hx, he _ fun a => Z a 1, mulVec_smul, hdm', star_smul, star_smul, smul_smul]
    congr 1
    generalize Real.sqrt (hUh Gm fun a => Z a 1) = q
    simp only [star_mul', star_inv₀, RCLike.star_def, Complex.conj_ofReal]
    push_cast
    by_cases hq : (q : ℂ) = 0
    · simp [hq]
    · field_simp
  have hry : star ((((‖d k‖ ^ 2 : ℝ) : ℂ) • (U k)⁻¹ * (A * C)) *ᵥ
      (fun i => Z' i 0 / (Real.sqrt (hUh (((‖d k‖ ^ 2 : ℝ) : ℂ) • (Cᴴ * Gk * C)) fun a => Z' a 0) : ℂ)))
      = ((‖d k‖ : ℂ) * star (u 0)) • y := by
    rw [hw, hy, he _ fun a => Z a 0, mulVec_smul, hdk', star_smul, star_smul, smul_smul]
    congr 1
    generalize Real.sqrt (hUh Gk fun a => Z a 0) = q
    simp only [star_mul', star_inv₀, RCLike.star_def, Complex.conj_ofReal]
    push_cast
    by_cases hq : (q : ℂ) = 0
    · simp [hq]
    · field_simp
  refine ⟨(W.updateRow m x).updateRow k y,
    Function.update (Function.update d m ((‖d m‖ : ℂ) * star (u 1))) k ((‖d k‖ : ℂ) * star (u 0)), ?_, ?_, ?_⟩
  · simp only [ip2Pair, ip2OnePair]
    rw [show (Matrix.of fun i j => if i = ![m, k] j then 1 else 0 : Matrix (Fin n) (Fin 2) ℂ) = E from hE.symm,
      (pup_eq hm hW E).1, (pup_eq hk hW E).1]
    simp only [bind, Except.bind]
    rw [← hA, pup hm, pup hk, ← hGm, ← hGk, hZ, hx, hy]
    rfl
  · simp only [ip2Pair, ip2OnePair]
    rw [show (Matrix.of fun i j => if i = ![m, k] j then 1 else 0 : Matrix (Fin n) (Fin 2) ℂ) = E from hE.symm,
      (pup_eq (hposn (inv_pos.mpr (hn2 m)) hm) hW' E).1, (pup_eq (hposn (inv_pos.mpr (hn2 k)) hk) hW' E).1]
    simp only [bind, Except.bind]
    rw [hA', vinv m hm, vinv k hk, pup' m hm, pup' k hk, ← hGm, ← hGk, hZ']
    simp only [id, hrx, hry, Matrix.cons_val_zero, Matrix.cons_val_one, rot_updateRow]
  · intro i
    by_cases h1 : i = k
    · subst h1; simp [hu]
    · by_cases h2 : i = m
      · subst h2; simp [h1, hu]
      · simp [h1, h2]

theorem inv2_scale {G G' : Mat 2 ℂ} {ψ : Fin 2 → ℂ} {x : ℂ} (hx : x ≠ 0) (hψ : ∀ i, ψ i ≠ 0)
    (h : ∀ i j, G' i j = x * (ψ i * G i j * star (ψ j))) :
    ∃ I I', Linalg.inv2 G = .ok I ∧ Linalg.inv2 G' = .ok I' ∧
      ∀ i j, I' i j = x⁻¹ * ((star (ψ i))⁻¹ * I i j * (ψ j)⁻¹) := by
  refine ⟨_, _, inv2_form G, inv2_form G', ?_⟩
  have h0 := hψ 0
  have h1 := hψ 1
  have s0 : star (ψ 0) ≠ 0 := star_ne_zero.mpr h0
  have s1 : star (ψ 1) ≠ 0 := star_ne_zero.mpr h1
  have hd : G' 0 0 * G' 1 1 - G' 0 1 * G' 1 0
      = x ^ 2 * (ψ 0 * ψ 1 * star (ψ 0) * star (ψ 1)) * (G 0 0 * G 1 1 - G 0 1 * G 1 0) := by
    rw [h, h, h, h]
    ring
  rw [hd]
  intro i j
  have key : ∀ (a b z : ℂ), z / (x ^ 2 * (ψ 0 * ψ 1 * star (ψ 0) * star (ψ 1)) * (G 0 0 * G 1 1 - G 0 1 * G 1 0))
      = z * (x ^ 2 * (ψ 0 * ψ 1 * star (ψ 0) * star (ψ 1)))⁻¹ / (G 0 0 * G 1 1 - G 0 1 * G 1 0) := by
    intro _ _ z
    rw [← div_div, div_eq_mul_inv z]
  obtain ⟨δ, hδ⟩ : ∃ δ, δ = (G 0 0 * G 1 1 - G 0 1 * G 1 0)⁻¹ := ⟨_, rfl⟩
  fin_cases i <;> fin_cases j
  · simp only [Fin.zero_eta, of_apply, cons_val', cons_val_zero, cons_val_fin_one]
    rw [h, key 0 0]
    simp only [div_eq_mul_inv, ← hδ]
    field_simp
  · simp only [Fin.zero_eta, Fin.mk_one, of_apply, cons_val', cons_val_zero, cons_val_one, cons_val_fin_one]
    rw [h, key 0 0]
    simp only [div_eq_mul_inv, ← hδ]
    field_simp
  · simp only [Fin.zero_eta, Fin.mk_one, of_apply, cons_val', cons_val_zero, cons_val_one, cons_val_fin_one]
    rw [h, key 0 0]
    simp only [div_eq_mul_inv, ← hδ]
    field_simp
  · simp only [Fin.mk_one, of_apply, cons_val', cons_val_one, cons_val_fin_one]
    rw [h, key 0 0]
    simp only [div_eq_mul_inv, ← hδ]
    field_simp

theorem pairCov_weight (x : ℝ) (phi : Fin t → ℝ) (y : Fin 2 → Fin t → ℂ) :
    pairCov (fun s => x * phi s) y = (x : ℂ) • pairCov phi y := by
  ext i j
  simp only [pairCov, of_apply, meanT, Matrix.smul_apply, smul_eq_mul]
  rw [mul_div_assoc', Finset.mul_sum]
  congr 1
  exact Finset.sum_congr rfl fun s _ => by push_cast; ring

theorem iss2Pair_scale (np np' : Numpy ℂ) {phi : Fin n → Fin t → ℝ} {Y : Matrix (Fin n) (Fin t) ℂ}
    {p : Fin n × Fin n} (hm : (pairCov (phi p.1) ![Y p.1, Y p.2]).PosDef)
    (hk : (pairCov (phi p.2) ![Y p.1, Y p.2]).PosDef) (ht : ¬ TieY phi Y p) {d : Fin n → ℂ} (hd : ∀ i, d i ≠ 0) :
    ∃ Y₁ d₁, iss2Pair np id phi Y p = .ok Y₁ ∧
      iss2Pair np' id (fun i s => (‖d i‖ ^ 2)⁻¹ * phi i s) (rot d Y) p = .ok (rot d₁ Y₁) ∧ ∀ i, ‖d₁ i‖ = ‖d i‖ := by
  obtain ⟨m, k⟩ := p
  simp only at hm hk
  have hn : ∀ i, 0 < ‖d i‖ := fun i => norm_pos_iff.mpr (hd i)
  have hn2 : ∀ i, 0 < (‖d i‖ ^ 2)⁻¹ := fun i => inv_pos.mpr (pow_pos (hn i) 2)
  obtain ⟨y, hy⟩ : ∃ y, y = ![Y m, Y k] := ⟨_, rfl⟩
  obtain ⟨ψ, hψ⟩ : ∃ ψ, ψ = ![d m, d k] := ⟨_, rfl⟩
  have hψ1 : ∀ i, ψ i ≠ 0 := by
    intro i
    rw [hψ]
    fin_cases i
    · exact hd m
    · exact hd k
  have hy' : (![rot d Y m, rot d Y k] : Fin 2 → Fin t → ℂ) = fun i s => ψ i * y i s := by
    funext i s
    rw [hψ, hy]
    fin_cases i <;> rfl
  obtain ⟨C, hC⟩ : ∃ C : Mat 2 ℂ, C = diagonal (star ψ) := ⟨_, rfl⟩
  have hCu : IsUnit C.det := by
    rw [hC, det_diagonal, Fin.prod_univ_two]
    exact IsUnit.mk0 _ (mul_ne_zero (star_ne_zero.mpr (hψ1 0)) (star_ne_zero.mpr (hψ1 1)))
  have hinjC : Function.Injective C.mulVec := by
    rw [mulVec_injective_iff_isUnit]
    exact (isUnit_iff_isUnit_det C).mpr hCu
  rw [← hy] at hm hk
  have cov' : ∀ (i : Fin n), pairCov (fun s => (‖d i‖ ^ 2)⁻¹ * phi i s) (fun i s => ψ i * y i s)
      = (((‖d i‖ ^ 2)⁻¹ : ℝ) : ℂ) • (Cᴴ * pairCov (phi i) y * C) := fun i => by
    rw [pairCov_weight, pairCov_rot, hC]
  have hpos : ∀ {M : Mat 2 ℂ} {x : ℝ}, 0 < x → M.PosDef → ((x : ℂ) • M).PosDef := fun hx hM =>
    hM.smul (by exact_mod_cast hx)
  have hmp' := hpos (hn2 m) (hm.conjTranspose_mul_mul_same hinjC)
  have hkp' := hpos (hn2 k) (hk.conjTranspose_mul_mul_same hinjC)
  have hne : ∀ x : ℝ, pairCov (phi m) y ≠ (x : ℂ) • pairCov (phi k) y := fun x h => ht ⟨x, by rw [← hy]; exact h⟩
  obtain ⟨l, Z, hZ, hmono, hspec⟩ := Linalg.C16_eigh2 np _ _ hm.1 hk 1 (.inl rfl)
  obtain ⟨l', Z', hZ', hmono', hspec'⟩ := Linalg.C16_eigh2 np' _ _ hmp'.1 hkp' 1 (.inl rfl)
  obtain ⟨u, hu, hcol'⟩ := geig_scale (hn2 m) (hn2 k) hne hmono hmono' hCu hspec hspec'
  have hsq : ∀ i, Real.sqrt ((‖d i‖ ^ 2)⁻¹) = ‖d i‖⁻¹ := fun i => by
    rw [Real.sqrt_inv, Real.sqrt_sq (norm_nonneg _)]
  have hdk : ((‖d k‖ : ℝ) : ℂ) ≠ 0 := by exact_mod_cast (hn k).ne'
  have hdm : ((‖d m‖ : ℝ) : ℂ) ≠ 0 := by exact_mod_cast (hn m).ne'
  have hcol : ∀ i, C *ᵥ (fun a => Z' a i) = (‖d k‖ : ℂ) • (u i • fun a => Z a i) := by
    intro i
    have := hcol' i
    rw [hsq] at this
    rw [← this, smul_smul, Complex.ofReal_inv, mul_inv_cancel₀ hdk, one_smul]
  have hent : ∀ a i, star (ψ a) * Z' a i = (‖d k‖ : ℂ) * (u i * Z a i) := by
    intro a i
    have := congrFun (hcol i) a
    rwa [hC, mulVec_diagonal, Pi.star_apply, Pi.smul_apply, Pi.smul_apply, smul_eq_mul, smul_eq_mul] at this
  have hh : ∀ (G : Mat 2 ℂ) (i : Fin 2) (x : ℝ), 0 ≤ x → hUh ((x : ℂ) • (Cᴴ * G * C)) (fun a => Z' a i)
      = x * (‖d k‖ ^ 2 * hUh G fun a => Z a i) := by
    intro G i x hx
    rw [hUh_real_smul _ hx, hUh_conj, hcol, hUh_vec_smul, hUh_smul _ _ (hu i)]
  have hdm' : Real.sqrt (hUh ((((‖d m‖ ^ 2)⁻¹ : ℝ) : ℂ) • (Cᴴ * pairCov (phi m) y * C)) fun a => Z' a 0)
      = ‖d m‖⁻¹ * ‖d k‖ * Real.sqrt (hUh (pairCov (phi m) y) fun a => Z a 0) := by
    rw [hh _ _ _ (hn2 m).le, Real.sqrt_mul (hn2 m).le, Real.sqrt_mul (by positivity), hsq,
      Real.sqrt_sq (norm_nonneg _), mul_assoc]
  have hdk' : Real.sqrt (hUh ((((‖d k‖ ^ 2)⁻¹ : ℝ) : ℂ) • (Cᴴ * pairCov (phi k) y * C)) fun a => Z' a 1)
      = Real.sqrt (hUh (pairCov (phi k) y) fun a => Z a 1) := by
    rw [hh _ _ _ (hn2 k).le, ← mul_assoc, inv_mul_cancel₀ (pow_pos (hn k) 2).ne', one_mul]
  have hsr : ∀ r : ℝ, star (r : ℂ) = r := fun r => Complex.conj_ofReal r
  have hp : ∀ (i : Fin 2) (δ : ℝ) (s : Fin t), ∑ a, star (Z' a i / (δ : ℂ)) * (ψ a * y a s)
      = (‖d k‖ : ℂ) * star (u i) * (δ : ℂ)⁻¹ * ∑ a, star (Z a i) * y a s := by
    intro i δ s
    rw [Finset.mul_sum]
    refine Finset.sum_congr rfl fun a _ => ?_
    have e := congrArg star (hent a i)
    rw [star_mul', star_mul', star_mul', star_star, hsr] at e
    rw [star_div₀, hsr]
    linear_combination (y a s / (δ : ℂ)) * e
  have hp0 : ∀ (i : Fin 2) (δ : ℝ) (s : Fin t), ∑ a, star (Z a i / (δ : ℂ)) * y a s
      = (δ : ℂ)⁻¹ * ∑ a, star (Z a i) * y a s := by
    intro i δ s
    rw [Finset.mul_sum]
    refine Finset.sum_congr rfl fun a _ => ?_
    rw [star_div₀, hsr]
    ring
  have hQ : ∀ (j : Fin n) (s : Fin t),
      (∑ i, star ((match Linalg.inv2 ((((‖d j‖ ^ 2)⁻¹ : ℝ) : ℂ) • (Cᴴ * pairCov (phi j) y * C)) with
        | .ok G_inv => -(G_inv *ᵥ fun i => meanT fun s => (((‖d j‖ ^ 2)⁻¹ * phi j s : ℝ) : ℂ) *
            (ψ i * y i s * star (d j * Y j s)))
        | .error _ => 0) i) * (ψ i * y i s))
      = d j * ∑ i, star ((match Linalg.inv2 (pairCov (phi j) y) with
        | .ok G_inv => -(G_inv *ᵥ fun i => meanT fun s => (phi j s : ℂ) * (y i s * star (Y j s)))
        | .error _ => 0) i) * y i s := by
    intro j s
    have hx : (((‖d j‖ ^ 2)⁻¹ : ℝ) : ℂ) ≠ 0 := by exact_mod_cast (hn2 j).ne'
    obtain ⟨b, hb⟩ : ∃ b : Fin 2 → ℂ, b = fun i => meanT fun s => (phi j s : ℂ) * (y i s * star (Y j s)) := ⟨_, rfl⟩
    obtain ⟨x, hxd⟩ : ∃ x : ℂ, x = (((‖d j‖ ^ 2)⁻¹ : ℝ) : ℂ) := ⟨_, rfl⟩
    have hb' : (fun i => meanT fun s => (((‖d j‖ ^ 2)⁻¹ * phi j s : ℝ) : ℂ) * (ψ i * y i s * star (d j * Y j s)))
        = fun i => x * (ψ i * star (d j) * b i) := by
      funext i
      rw [hb, hxd]
      simp only [meanT]
      rw [mul_div_assoc', mul_div_assoc', Finset.mul_sum, Finset.mul_sum]
      congr 1
      refine Finset.sum_congr rfl fun s _ => ?_
      rw [star_mul', Complex.ofReal_mul]
      ring
    obtain ⟨I, I', e, e', hI⟩ := inv2_scale (G := pairCov (phi j) y)
      (G' := (((‖d j‖ ^ 2)⁻¹ : ℝ) : ℂ) • (Cᴴ * pairCov (phi j) y * C)) hx hψ1 fun i l => by
      rw [Matrix.smul_apply, smul_eq_mul, hC, diagonal_conjTranspose, star_star, mul_diagonal, diagonal_mul, Pi.star_apply]
    rw [hb', ← hb, e, e', Finset.mul_sum]
    refine Finset.sum_congr rfl fun i _ => ?_
    rw [← hxd] at hI hx
    have hi := hψ1 i
    have hsi : star (ψ i) ≠ 0 := star_ne_zero.mpr hi
    have hmv : (I' *ᵥ fun i => x * (ψ i * star (d j) * b i)) i = (star (ψ i))⁻¹ * star (d j) * (I *ᵥ b) i := by
      simp only [mulVec, dotProduct, hI]
      rw [Finset.mul_sum]
      refine Finset.sum_congr rfl fun a _ => ?_
      have ha := hψ1 a
      field_simp
    simp only [Pi.neg_apply, hmv, star_neg, star_mul', star_star, star_inv₀]
    field_simp
  simp only [iss2Pair, hy', ← hy, cov', bind, Except.bind]
  rw [hZ, hZ']
  refine ⟨_, Function.update (Function.update d k ((‖d k‖ : ℂ) * star (u 1))) m ((‖d m‖ : ℂ) * star (u 0)), rfl, ?_, ?_⟩
  · simp only [id, hdm', hdk']
    congr 1
    ext i s
    simp only [of_apply, rot]
    by_cases h1 : i = m
    · subst h1
      simp only [if_true, Function.update_self]
      rw [hp, hp0]
      generalize Real.sqrt (hUh (pairCov (phi i) y) fun a => Z a 0) = q
      push_cast
      by_cases hq : (q : ℂ) = 0
      · simp [hq]
      · field_simp
    · by_cases h2 : i = k
      · subst h2
        simp only [h1, if_true, if_false, Function.update_of_ne h1, Function.update_self]
        rw [hp, hp0]
        ring
      · simp only [h1, h2, if_false]
        rw [Function.update_of_ne h1, Function.update_of_ne h2, mul_add]
        exact congrArg (d i * Y i s + ·) (hQ i s)
  · intro i
    by_cases h1 : i = m
    · subst h1; simp [hu]
    · by_cases h2 : i = k
      · subst h2; simp [h1, hu]
      · simp [h1, h2]

end Verif.Phase
