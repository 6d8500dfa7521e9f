import Verif.Lemmas.Majorise
import Verif.Lemmas.Phase
import Verif.Props.Iss

/-! # Two sources: what a pairwise update returns

With two sources the pair is everything there is, and a pairwise update solves the problem completely: it returns the
filter that diagonalises both weighted covariances. -/

namespace Verif.TwoSources

open Matrix Spatial
open scoped ComplexOrder

/-- The filter `W` diagonalises both weighted covariances; each output has power one under its own weights; of the two
ways to number the outputs the one with the smaller product of powers is taken. -/
structure Joint (U : Fin 2 → Mat 2 ℂ) (W : Mat 2 ℂ) (a b : ℝ) : Prop where
  h0 : W * U 0 * Wᴴ = diagonal ![1, (a : ℂ)]
  h1 : W * U 1 * Wᴴ = diagonal ![(b : ℂ), 1]
  ha : 0 < a
  hb : 0 < b
  le : 1 ≤ a * b

theorem Joint.isUnit {U : Fin 2 → Mat 2 ℂ} {W : Mat 2 ℂ} {a b : ℝ} (h : Joint U W a b) : IsUnit W.det := by
  have e := congrArg det h.h0
  rw [det_mul, det_mul, det_diagonal, Fin.prod_univ_two] at e
  refine isUnit_iff_ne_zero.mpr fun h0 => ?_
  rw [h0, zero_mul, zero_mul] at e
  have : (a : ℂ) = 0 := by simpa using e.symm
  exact h.ha.ne' (by exact_mod_cast this)

/-- The two weighted covariances are not proportional. -/
def NoTie (U : Fin 2 → Mat 2 ℂ) : Prop := ∀ x : ℝ, U 0 ≠ (x : ℂ) • U 1

theorem Joint.lt {U : Fin 2 → Mat 2 ℂ} {W : Mat 2 ℂ} {a b : ℝ} (hne : NoTie U) (h : Joint U W a b) : 1 < a * b := by
  refine lt_of_le_of_ne h.le fun e => hne a ?_
  have hu := h.isUnit
  have huH : IsUnit Wᴴ.det := by rw [det_conjTranspose]; exact hu.star
  have e1 : W * U 0 * Wᴴ = W * ((a : ℂ) • U 1) * Wᴴ := by
    rw [Matrix.mul_smul, Matrix.smul_mul, h.h0, h.h1]
    ext i j
    have ec : (a : ℂ) * b = 1 := by exact_mod_cast e.symm
    fin_cases i <;> fin_cases j <;> simp [ec]
  have e2 := congrArg (fun M => W⁻¹ * M * Wᴴ⁻¹) e1
  simp only [Matrix.mul_assoc, mul_nonsing_inv _ huH, Matrix.mul_one] at e2
  simpa only [nonsing_inv_mul_cancel_left _ _ hu] using e2

/-- Without a tie the filter is determined up to one factor of modulus one per row. -/
theorem joint_unique {U : Fin 2 → Mat 2 ℂ} {W W' : Mat 2 ℂ} {a b a' b' : ℝ} (hne : NoTie U) (h : Joint U W a b)
    (h' : Joint U W' a' b') : ∃ φ : Fin 2 → ℂ, (∀ i, ‖φ i‖ = 1) ∧ W' = Matrix.of fun i j => φ i * W i j := by
  have hu := h.isUnit
  obtain ⟨C, hC⟩ : ∃ C, C = W' * W⁻¹ := ⟨_, rfl⟩
  have hW' : W' = C * W := by rw [hC, Matrix.mul_assoc, nonsing_inv_mul _ hu, Matrix.mul_one]
  have k0 : C * diagonal ![1, (a : ℂ)] * Cᴴ = diagonal ![1, (a' : ℂ)] := by
    rw [← h.h0, ← h'.h0, hW', conjTranspose_mul]
    simp only [Matrix.mul_assoc]
  have k1 : C * diagonal ![(b : ℂ), 1] * Cᴴ = diagonal ![(b' : ℂ), 1] := by
    rw [← h.h1, ← h'.h1, hW', conjTranspose_mul]
    simp only [Matrix.mul_assoc]
  have hCu : IsUnit C.det := by
    have := h'.isUnit
    rw [hW', det_mul] at this
    exact isUnit_of_mul_isUnit_left this
  have hCH : IsUnit Cᴴ.det := by rw [det_conjTranspose]; exact hCu.star
  have b0 : (b' : ℂ) ≠ 0 := by exact_mod_cast h'.hb.ne'
  have key : C * diagonal ![1, (a : ℂ)] = diagonal ![(b' : ℂ)⁻¹, (a' : ℂ)] * (C * diagonal ![(b : ℂ), 1]) := by
    have e : (C * diagonal ![1, (a : ℂ)]) * Cᴴ = (diagonal ![(b' : ℂ)⁻¹, (a' : ℂ)] * (C * diagonal ![(b : ℂ), 1])) * Cᴴ := by
      rw [k0, Matrix.mul_assoc, k1, diagonal_mul_diagonal]
      congr 1
      funext i
      fin_cases i
      · simp [b0]
      · simp
    have := congrArg (· * (Cᴴ)⁻¹) e
    simpa only [Matrix.mul_assoc, mul_nonsing_inv _ hCH, Matrix.mul_one] using this
  have ent : ∀ i j, C i j * ![1, (a : ℂ)] j = ![(b' : ℂ)⁻¹, (a' : ℂ)] i * (C i j * ![(b : ℂ), 1] j) := by
    intro i j
    have := congrFun (congrFun key i) j
    rwa [mul_diagonal, diagonal_mul, mul_diagonal] at this
  have q := h.lt hne
  have q' := h'.lt hne
  have r00 : C 0 0 ≠ 0 → b' = b := fun hc => by
    have := ent 0 0
    simp only [cons_val_zero, mul_one] at this
    have e : (b' : ℂ) = b :=
      mul_left_cancel₀ hc (by linear_combination (b' : ℂ) * this + C 0 0 * b * mul_inv_cancel₀ b0)
    exact_mod_cast e
  have r01 : C 0 1 ≠ 0 → a * b' = 1 := fun hc => by
    have := ent 0 1
    simp only [cons_val_zero, cons_val_one, cons_val_fin_one, mul_one] at this
    have e : (a : ℂ) * b' = 1 :=
      mul_left_cancel₀ hc (by linear_combination (b' : ℂ) * this + C 0 1 * mul_inv_cancel₀ b0)
    exact_mod_cast e
  have r10 : C 1 0 ≠ 0 → a' * b = 1 := fun hc => by
    have := ent 1 0
    simp only [cons_val_zero, cons_val_one, cons_val_fin_one, mul_one] at this
    have e : (a' : ℂ) * b = 1 := mul_left_cancel₀ hc (by linear_combination -this)
    exact_mod_cast e
  have r11 : C 1 1 ≠ 0 → a = a' := fun hc => by
    have := ent 1 1
    simp only [cons_val_one, cons_val_fin_one, mul_one] at this
    have e : (a : ℂ) = a' := mul_left_cancel₀ hc (by linear_combination this)
    exact_mod_cast e
  have hdet : C 0 0 * C 1 1 - C 0 1 * C 1 0 ≠ 0 := by
    have := isUnit_iff_ne_zero.mp hCu
    rwa [det_fin_two] at this
  have contra : a * b' = 1 → a' * b = 1 → False := fun e1 e2 => by nlinarith
  have c01 : C 0 1 = 0 := by
    by_contra hc
    have e1 := r01 hc
    by_cases h10 : C 1 0 = 0
    · have : C 1 1 ≠ 0 := fun h11 => hdet (by rw [h10, h11]; ring)
      rw [r11 this] at e1
      linarith
    · exact contra e1 (r10 h10)
  have c10 : C 1 0 = 0 := by
    by_contra hc
    have e1 := r10 hc
    have : C 1 1 ≠ 0 ∨ C 0 0 ≠ 0 := by
      by_contra hh
      push Not at hh
      exact hdet (by rw [hh.1, c01]; ring)
    have h00 : C 0 0 ≠ 0 := fun h00 => hdet (by rw [h00, c01]; ring)
    rw [← r00 h00] at e1
    linarith
  have nrm : ∀ {z : ℂ}, z * star z = 1 → ‖z‖ = 1 := by
    intro z hz
    have h3 : ‖z‖ * ‖z‖ = 1 := by
      have := congrArg norm hz
      rwa [norm_mul, norm_star, norm_one] at this
    exact (mul_self_eq_one_iff.mp h3).resolve_right fun h4 => by linarith [norm_nonneg z]
  refine ⟨![C 0 0, C 1 1], fun i => ?_, ?_⟩
  · fin_cases i
    · have := congrFun (congrFun k0 0) 0
      rw [mul_apply, Fin.sum_univ_two, mul_diagonal, mul_diagonal, conjTranspose_apply, conjTranspose_apply, c01] at this
      exact nrm (by simpa using this)
    · have := congrFun (congrFun k1 1) 1
      rw [mul_apply, Fin.sum_univ_two, mul_diagonal, mul_diagonal, conjTranspose_apply, conjTranspose_apply, c10] at this
      exact nrm (by simpa using this)
  · rw [hW']
    ext i j
    rw [mul_apply, Fin.sum_univ_two]
    fin_cases i
    · simp [c01]
    · simp [c10]

/-- The flooring leaves alone what it is applied to: one, and the square roots of the generalised eigenvalues of the
two weighted covariances. -/
def Inactive (floor : ℝ → ℝ) (U : Fin 2 → Mat 2 ℂ) : Prop :=
  floor 1 = 1 ∧ ∀ (x : ℝ) (m k : Fin 2), 0 < x → m ≠ k → (U m - (x : ℂ) • U k).det = 0 →
    floor (Real.sqrt x) = Real.sqrt x

theorem pairCols_two {m k : Fin 2} (hmk : m ≠ k) :
    pairCols m k * (pairCols m k)ᴴ = 1 ∧ (pairCols m k)ᴴ * pairCols m k = 1 := by
  have h : pairCols m k * (pairCols m k)ᴴ = 1 := by
    ext i j
    have : (m = 0 ∧ k = 1) ∨ (m = 1 ∧ k = 0) := by omega
    rcases this with ⟨rfl, rfl⟩ | ⟨rfl, rfl⟩ <;> fin_cases i <;> fin_cases j <;>
      simp [pairCols, mul_apply, Fin.sum_univ_two]
  exact ⟨h, mul_eq_one_comm.mp h⟩

theorem joint_of {U : Fin 2 → Mat 2 ℂ} {m k : Fin 2} (hmk : m ≠ k) {R : Mat 2 ℂ} {a b : ℝ}
    (hm : R * U m * Rᴴ = diagonal ![1, (a : ℂ)]) (hk : R * U k * Rᴴ = diagonal ![(b : ℂ), 1]) (ha : 0 < a) (hb : 0 < b)
    (hab : 1 ≤ a * b) : ∃ a b, Joint U (pairCols m k * R) a b := by
  have e : ∀ V : Mat 2 ℂ, pairCols m k * R * V * (pairCols m k * R)ᴴ = pairCols m k * (R * V * Rᴴ) * (pairCols m k)ᴴ := by
    intro V
    rw [conjTranspose_mul]
    simp only [Matrix.mul_assoc]
  have : (m = 0 ∧ k = 1) ∨ (m = 1 ∧ k = 0) := by omega
  rcases this with ⟨rfl, rfl⟩ | ⟨rfl, rfl⟩
  · refine ⟨a, b, ?_, ?_, ha, hb, hab⟩
    · rw [e, hm]
      ext i j
      fin_cases i <;> fin_cases j <;> simp [pairCols, mul_apply, Fin.sum_univ_two]
    · rw [e, hk]
      ext i j
      fin_cases i <;> fin_cases j <;> simp [pairCols, mul_apply, Fin.sum_univ_two]
  · refine ⟨b, a, ?_, ?_, hb, ha, by linarith⟩
    · rw [e, hk]
      ext i j
      fin_cases i <;> fin_cases j <;> simp [pairCols, mul_apply, Fin.sum_univ_two]
    · rw [e, hm]
      ext i j
      fin_cases i <;> fin_cases j <;> simp [pairCols, mul_apply, Fin.sum_univ_two]

theorem det_of_diag {A B R : Mat 2 ℂ} {a b x : ℂ} (hA : R * A * Rᴴ = diagonal ![x * b, a]) (hB : R * B * Rᴴ = diagonal ![b, 1])
    (hR : R.det ≠ 0) : (A - x • B).det = 0 := by
  have e : R * (A - x • B) * Rᴴ = diagonal ![0, a - x] := by
    rw [Matrix.mul_sub, Matrix.sub_mul, Matrix.mul_smul, Matrix.smul_mul, hA, hB]
    ext i j
    fin_cases i <;> fin_cases j <;> simp
  have := congrArg det e
  rw [det_mul, det_mul, det_diagonal, Fin.prod_univ_two] at this
  simp only [cons_val_zero, zero_mul, mul_eq_zero, det_conjTranspose, star_eq_zero, hR, false_or, or_false] at this
  exact this

/-- IP2 with two sources, from any invertible filter and for either order of the pair. -/
theorem ip2_joint (np : Numpy ℂ) (floor : ℝ → ℝ) {U : Fin 2 → Mat 2 ℂ} {W : Mat 2 ℂ} {p : Fin 2 × Fin 2} (hp : p.1 ≠ p.2)
    (hU : ∀ k, (U k).PosDef) (hW : IsUnit W.det) (hf : Inactive floor U) :
    ∃ W₁, ip2Pair np floor U W p = .ok W₁ ∧ ∃ a b, Joint U W₁ a b := by
  obtain ⟨m, k⟩ := p
  simp only at hp
  obtain ⟨E, hE⟩ : ∃ E, E = pairCols (n := 2) m k := ⟨_, rfl⟩
  obtain ⟨hEE, hEE'⟩ := pairCols_two hp
  rw [← hE] at hEE hEE'
  obtain ⟨A, hA⟩ : ∃ A, A = W⁻¹ * E := ⟨_, rfl⟩
  have hEu : IsUnit E.det := by
    have := congrArg det hEE
    rw [det_mul, det_one] at this
    exact IsUnit.of_mul_eq_one _ this
  have hAu : IsUnit A.det := by
    rw [hA, det_mul]
    exact (isUnit_nonsing_inv_det _ hW).mul hEu
  have hAH : IsUnit Aᴴ.det := by rw [det_conjTranspose]; exact hAu.star
  have hinj : Function.Injective A.mulVec := by
    rw [mulVec_injective_iff_isUnit]
    exact (isUnit_iff_isUnit_det A).mpr hAu
  have pup : ∀ j, ((U j)⁻¹ * A)ᴴ * U j * ((U j)⁻¹ * A) = Aᴴ * (U j)⁻¹ * A := by
    intro j
    have hVu : IsUnit (U j).det := (isUnit_iff_isUnit_det _).mp (hU j).isUnit
    rw [conjTranspose_mul, (hU j).1.inv.eq, Matrix.mul_assoc Aᴴ, nonsing_inv_mul _ hVu, Matrix.mul_one, Matrix.mul_assoc]
  obtain ⟨Gm, hGm⟩ : ∃ G, G = Aᴴ * (U m)⁻¹ * A := ⟨_, rfl⟩
  obtain ⟨Gk, hGk⟩ : ∃ G, G = Aᴴ * (U k)⁻¹ * A := ⟨_, rfl⟩
  have hGmp : Gm.PosDef := hGm ▸ (hU m).inv.conjTranspose_mul_mul_same hinj
  have hGkp : Gk.PosDef := hGk ▸ (hU k).inv.conjTranspose_mul_mul_same hinj
  obtain ⟨l, Z, hZ, hmono, hspec⟩ := Linalg.C16_eigh2 np Gm Gk hGmp.1 hGkp 1 (.inl rfl)
  obtain ⟨d1, d2, d3, d4⟩ := geig_diag hGmp hspec
  have hg := (hspec.1 rfl).1
  have u1 : hUh Gm (fun i => Z i 1) = l 1 := hUh_col (d4 1).le (by rw [d1, diagonal_apply_eq])
  have u0 : hUh Gk (fun i => Z i 0) = 1 := hUh_col zero_le_one (by rw [d2, one_apply_eq, Complex.ofReal_one])
  obtain ⟨Mm, hMm⟩ : ∃ M, M = (U m)⁻¹ * A := ⟨_, rfl⟩
  obtain ⟨Mk, hMk⟩ : ∃ M, M = (U k)⁻¹ * A := ⟨_, rfl⟩
  have hM : Mm * Z = Mk * Z * diagonal fun i => (l i : ℂ) := by
    have e : Aᴴ * (Mm * Z) = Aᴴ * (Mk * Z * diagonal fun i => (l i : ℂ)) := by
      rw [hGm, hGk] at hg
      rw [hMm, hMk]
      simp only [Matrix.mul_assoc] at hg ⊢
      exact hg
    have := congrArg ((Aᴴ)⁻¹ * ·) e
    simpa only [nonsing_inv_mul_cancel_left _ _ hAH] using this
  have s1 : 0 < Real.sqrt (l 1) := Real.sqrt_pos.mpr (d4 1)
  have sq1 : (Real.sqrt (l 1) : ℂ) * Real.sqrt (l 1) = l 1 := by exact_mod_cast Real.mul_self_sqrt (d4 1).le
  have l0c : (l 0 : ℂ) ≠ 0 := by exact_mod_cast (d4 0).ne'
  have l1c : (l 1 : ℂ) ≠ 0 := by exact_mod_cast (d4 1).ne'
  have s1c : (Real.sqrt (l 1) : ℂ) ≠ 0 := by exact_mod_cast s1.ne'
  obtain ⟨S, hS⟩ : ∃ S : Mat 2 ℂ, S = !![0, 1; (Real.sqrt (l 1) : ℂ), 0] := ⟨_, rfl⟩
  have S00 : S 0 0 = 0 := by rw [hS]; rfl
  have S01 : S 0 1 = 1 := by rw [hS]; rfl
  have S10 : S 1 0 = (Real.sqrt (l 1) : ℂ) := by rw [hS]; rfl
  have S11 : S 1 1 = 0 := by rw [hS]; rfl
  obtain ⟨Q, hQ⟩ : ∃ Q, Q = Mk * Z * S := ⟨_, rfl⟩
  have Qe : ∀ i j, Q i j = (Mk * Z) i 0 * S 0 j + (Mk * Z) i 1 * S 1 j := fun i j => by
    rw [hQ, mul_apply, Fin.sum_univ_two]
  have hk : Qᴴ * U k * Qᴴᴴ = diagonal ![((l 1 : ℝ) : ℂ), 1] := by
    have e : Qᴴ * U k * Qᴴᴴ = Sᴴ * (Zᴴ * (Mkᴴ * U k * Mk) * Z) * S := by
      rw [hQ, conjTranspose_conjTranspose, conjTranspose_mul, conjTranspose_mul]
      simp only [Matrix.mul_assoc]
    rw [e, hMk, pup, ← hGk, d2, Matrix.mul_one, hS]
    ext i j
    fin_cases i <;> fin_cases j <;> simp [mul_apply, Fin.sum_univ_two, sq1]
  have hm : Qᴴ * U m * Qᴴᴴ = diagonal ![1, (((l 0)⁻¹ : ℝ) : ℂ)] := by
    have hMi : Mk * Z = Mm * Z * diagonal fun i => (l i : ℂ)⁻¹ := by
      rw [hM, Matrix.mul_assoc, diagonal_mul_diagonal]
      have : (diagonal fun i => (l i : ℂ) * (l i : ℂ)⁻¹) = (1 : Mat 2 ℂ) := by
        rw [← diagonal_one]
        congr 1
        funext i
        exact mul_inv_cancel₀ (by exact_mod_cast (d4 i).ne')
      rw [this, Matrix.mul_one]
    have e : Qᴴ * U m * Qᴴᴴ = Sᴴ * ((diagonal fun i => (l i : ℂ)⁻¹)ᴴ * (Zᴴ * (Mmᴴ * U m * Mm) * Z)
        * diagonal fun i => (l i : ℂ)⁻¹) * S := by
      rw [hQ, conjTranspose_conjTranspose, hMi, conjTranspose_mul, conjTranspose_mul, conjTranspose_mul]
      simp only [Matrix.mul_assoc]
    rw [e, hMm, pup, ← hGm, d1, hS]
    ext i j
    fin_cases i <;> fin_cases j <;>
      simp [mul_apply, Fin.sum_univ_two, diagonal_conjTranspose, l0c, l1c, sq1, mul_comm, mul_left_comm]
  obtain ⟨a, b, hJ⟩ := joint_of hp hm hk (inv_pos.mpr (d4 0)) (d4 1)
    (by rw [inv_mul_eq_div, le_div_iff₀ (d4 0), one_mul]; exact hmono (by decide))
  have hQu : Qᴴ.det ≠ 0 := by
    have := isUnit_iff_ne_zero.mp hJ.isUnit
    rw [det_mul] at this
    exact right_ne_zero_of_mul this
  have hfl : floor (Real.sqrt (l 1)) = Real.sqrt (l 1) := by
    refine hf.2 (l 1) k m (d4 1) (Ne.symm hp) ?_
    have := congrArg det (show Qᴴ * (U k - (l 1 : ℂ) • U m) * Qᴴᴴ = diagonal ![0, 1 - (l 1 : ℂ) * ((l 0)⁻¹ : ℝ)] by
      rw [Matrix.mul_sub, Matrix.sub_mul, Matrix.mul_smul, Matrix.smul_mul, hm, hk]
      ext i j
      fin_cases i <;> fin_cases j <;> simp)
    rw [det_mul, det_mul, det_diagonal, Fin.prod_univ_two] at this
    simp only [cons_val_zero, zero_mul, mul_eq_zero, conjTranspose_conjTranspose] at this
    have hQ2 : Q.det ≠ 0 := by
      intro h0
      rw [det_conjTranspose, h0, star_zero] at hQu
      exact hQu rfl
    rcases this with (h | h) | h
    · exact absurd h hQu
    · exact h
    · exact absurd h hQ2
  refine ⟨pairCols m k * Qᴴ, ?_, a, b, hJ⟩
  simp only [ip2Pair, ip2OnePair]
  rw [show (Matrix.of fun i j => if i = ![m, k] j then 1 else 0 : Mat 2 ℂ) = E from hE.symm,
    (Phase.pup_eq (hU m) hW E).1, (Phase.pup_eq (hU k) hW E).1]
  simp only [bind, Except.bind]
  rw [← hA, pup m, pup k, ← hGm, ← hGk, hZ]
  simp only
  rw [u1, u0, hfl, Real.sqrt_one, hf.1, ← hMm, ← hMk]
  congr 1
  have em : ∀ j, (Mm *ᵥ fun i => Z i 1 / (Real.sqrt (l 1) : ℂ)) j = Q j 0 := by
    intro j
    have h1 : (Mm *ᵥ fun i => Z i 1 / (Real.sqrt (l 1) : ℂ)) j = (Mm * Z) j 1 / (Real.sqrt (l 1) : ℂ) := by
      simp only [mulVec, dotProduct, mul_apply, Finset.sum_div, mul_div_assoc]
    rw [h1, hM, mul_diagonal, Qe, S00, S10, mul_zero, zero_add, ← sq1, ← mul_assoc,
      mul_div_assoc, div_self s1c, mul_one]
  have ek : ∀ j, (Mk *ᵥ fun i => Z i 0 / ((1 : ℝ) : ℂ)) j = Q j 1 := by
    intro j
    have h1 : (Mk *ᵥ fun i => Z i 0 / ((1 : ℝ) : ℂ)) j = (Mk * Z) j 0 := by
      simp only [mulVec, dotProduct, mul_apply, Complex.ofReal_one, div_one]
    rw [h1, Qe, S01, S11, mul_zero, add_zero, mul_one]
  ext i j
  rw [show (pairCols m k * Qᴴ) i j = if i = m then star (Q j 0) else star (Q j 1) by
    have : (m = 0 ∧ k = 1) ∨ (m = 1 ∧ k = 0) := by omega
    rcases this with ⟨rfl, rfl⟩ | ⟨rfl, rfl⟩ <;> fin_cases i <;>
      simp [pairCols, mul_apply, Fin.sum_univ_two, conjTranspose_apply]]
  by_cases hi : i = m
  · rw [if_pos hi, hi, updateRow_ne hp, updateRow_self]
    simp only [cons_val_zero, Pi.star_apply, em]
  · have hik : i = k := by omega
    rw [if_neg hi, hik, updateRow_self]
    simp only [cons_val_one, cons_val_fin_one, Pi.star_apply, ek]

/-- ISS2 with two sources, from the outputs of any invertible filter and for either order of the pair. -/
theorem iss2_joint {F : Type} [Fintype F] {t : ℕ} (np : Numpy ℂ) (floor : ℝ → ℝ) {phi : Fin 2 → Fin t → ℝ} {X : Scale.Spec F 2 t} {f : F}
    {W : Mat 2 ℂ} {p : Fin 2 × Fin 2} (hp : p.1 ≠ p.2) (hU : ∀ k, (Iva.wcov phi X f k).PosDef) (hW : IsUnit W.det)
    (hf : Inactive floor (Iva.wcov phi X f)) :
    ∃ W₁, iss2Pair np floor phi (W * X f) p = .ok (W₁ * X f) ∧ ∃ a b, Joint (Iva.wcov phi X f) W₁ a b := by
  obtain ⟨m, k⟩ := p
  simp only at hp
  obtain ⟨U, hUe⟩ : ∃ U, U = Iva.wcov phi X f := ⟨_, rfl⟩
  rw [← hUe] at hU hf ⊢
  obtain ⟨E, hE⟩ : ∃ E, E = pairCols (n := 2) m k := ⟨_, rfl⟩
  obtain ⟨hEE, hEE'⟩ := pairCols_two hp
  rw [← hE] at hEE hEE'
  obtain ⟨L, hL⟩ : ∃ L, L = Eᴴ * W := ⟨_, rfl⟩
  have hEu : IsUnit Eᴴ.det := by
    have := congrArg det hEE'
    rw [det_mul, det_one] at this
    exact IsUnit.of_mul_eq_one _ this
  have hLu : IsUnit L.det := by
    rw [hL, det_mul]
    exact hEu.mul hW
  have hinj : Function.Injective L.vecMul := by
    rw [vecMul_injective_iff_isUnit]
    exact (isUnit_iff_isUnit_det L).mpr hLu
  have hrow : ∀ i, (L * X f) i = (![(W * X f) m, (W * X f) k] : Fin 2 → Fin t → ℂ) i := by
    intro i
    funext s
    rw [hL, hE, Matrix.mul_assoc, mul_apply, Fin.sum_univ_two]
    have : (m = 0 ∧ k = 1) ∨ (m = 1 ∧ k = 0) := by omega
    rcases this with ⟨rfl, rfl⟩ | ⟨rfl, rfl⟩ <;> fin_cases i <;> simp [pairCols, conjTranspose_apply]
  have hY : (![(W * X f) m, (W * X f) k] : Fin 2 → Fin t → ℂ) = L * X f := (funext hrow).symm
  have hcov : ∀ j, pairCov (phi j) (L * X f) = L * U j * Lᴴ := by
    intro j
    rw [pairCov_eq, hUe, Iva.wcov_eq, conjTranspose_mul]
    simp only [Matrix.mul_assoc]
  obtain ⟨Gm, hGm⟩ : ∃ G, G = L * U m * Lᴴ := ⟨_, rfl⟩
  obtain ⟨Gk, hGk⟩ : ∃ G, G = L * U k * Lᴴ := ⟨_, rfl⟩
  have hGmp : Gm.PosDef := hGm ▸ (hU m).mul_mul_conjTranspose_same hinj
  have hGkp : Gk.PosDef := hGk ▸ (hU k).mul_mul_conjTranspose_same hinj
  obtain ⟨l, Z, hZ, hmono, hspec⟩ := Linalg.C16_eigh2 np Gm Gk hGmp.1 hGkp 1 (.inl rfl)
  obtain ⟨d1, d2, d3, d4⟩ := geig_diag hGmp hspec
  have u0 : hUh Gm (fun i => Z i 0) = l 0 := hUh_col (d4 0).le (by rw [d1, diagonal_apply_eq])
  have u1 : hUh Gk (fun i => Z i 1) = 1 := hUh_col zero_le_one (by rw [d2, one_apply_eq, Complex.ofReal_one])
  have s0 : 0 < Real.sqrt (l 0) := Real.sqrt_pos.mpr (d4 0)
  have sq0 : (Real.sqrt (l 0) : ℂ) * Real.sqrt (l 0) = l 0 := by exact_mod_cast Real.mul_self_sqrt (d4 0).le
  have l0c : (l 0 : ℂ) ≠ 0 := by exact_mod_cast (d4 0).ne'
  have s0c : (Real.sqrt (l 0) : ℂ) ≠ 0 := by exact_mod_cast s0.ne'
  obtain ⟨S, hS⟩ : ∃ S : Mat 2 ℂ, S = diagonal ![(Real.sqrt (l 0) : ℂ)⁻¹, 1] := ⟨_, rfl⟩
  have hSH : Sᴴ = S := by
    rw [hS, diagonal_conjTranspose]
    congr 1
    funext i
    fin_cases i <;> simp
  obtain ⟨R, hR⟩ : ∃ R, R = S * Zᴴ * L := ⟨_, rfl⟩
  have eR : ∀ V : Mat 2 ℂ, R * V * Rᴴ = S * (Zᴴ * (L * V * Lᴴ) * Z) * S := by
    intro V
    rw [hR, conjTranspose_mul, conjTranspose_mul, hSH, conjTranspose_conjTranspose]
    simp only [Matrix.mul_assoc]
  have hm : R * U m * Rᴴ = diagonal ![1, ((l 1 : ℝ) : ℂ)] := by
    rw [eR, ← hGm, d1, hS, diagonal_mul_diagonal, diagonal_mul_diagonal]
    congr 1
    funext i
    fin_cases i
    · simp only [Fin.zero_eta, cons_val_zero]
      rw [← sq0]
      field_simp
    · simp
  have hk : R * U k * Rᴴ = diagonal ![(((l 0)⁻¹ : ℝ) : ℂ), 1] := by
    rw [eR, ← hGk, d2, Matrix.mul_one, hS, diagonal_mul_diagonal]
    congr 1
    funext i
    fin_cases i
    · simp only [Fin.zero_eta, cons_val_zero, Complex.ofReal_inv]
      rw [← sq0, mul_inv]
    · simp
  obtain ⟨a, b, hJ⟩ := joint_of hp hm hk (d4 1) (inv_pos.mpr (d4 0))
    (by rw [mul_comm, inv_mul_eq_div, le_div_iff₀ (d4 0), one_mul]; exact hmono (by decide))
  have hRu : R.det ≠ 0 := by
    have := isUnit_iff_ne_zero.mp hJ.isUnit
    rw [det_mul] at this
    exact right_ne_zero_of_mul this
  have hfl : floor (Real.sqrt (l 0)) = Real.sqrt (l 0) := by
    refine hf.2 (l 0) m k (d4 0) hp (det_of_diag (a := (l 1 : ℂ)) (b := (((l 0)⁻¹ : ℝ) : ℂ)) ?_ hk hRu)
    rw [hm]
    congr 1
    funext i
    fin_cases i
    · simp [l0c]
    · simp
  refine ⟨pairCols m k * R, ?_, a, b, hJ⟩
  simp only [iss2Pair]
  rw [hY, hcov m, hcov k, ← hGm, ← hGk, hZ]
  simp only [bind, Except.bind]
  rw [u0, u1, hfl, Real.sqrt_one, hf.1]
  congr 1
  ext i s
  have e0 : (R * X f) 0 s = ∑ i, star (Z i 0 / (Real.sqrt (l 0) : ℂ)) * (L * X f) i s := by
    rw [hR, Matrix.mul_assoc S, Matrix.mul_assoc S, hS, diagonal_mul, Matrix.mul_assoc, mul_apply, Finset.mul_sum]
    refine Finset.sum_congr rfl fun i _ => ?_
    simp only [cons_val_zero, conjTranspose_apply, star_div₀, Complex.star_def, Complex.conj_ofReal]
    field_simp
  have e1 : (R * X f) 1 s = ∑ i, star (Z i 1 / ((1 : ℝ) : ℂ)) * (L * X f) i s := by
    rw [hR, Matrix.mul_assoc S, Matrix.mul_assoc S, hS, diagonal_mul, Matrix.mul_assoc, mul_apply, Finset.mul_sum]
    refine Finset.sum_congr rfl fun i _ => ?_
    simp
  rw [Matrix.mul_assoc, show (pairCols m k * (R * X f)) i s = if i = m then (R * X f) 0 s else (R * X f) 1 s by
    have : (m = 0 ∧ k = 1) ∨ (m = 1 ∧ k = 0) := by omega
    rcases this with ⟨rfl, rfl⟩ | ⟨rfl, rfl⟩ <;> fin_cases i <;>
      simp [pairCols, mul_apply (M := Matrix.of _), Fin.sum_univ_two]]
  rw [of_apply]
  by_cases hi : i = m
  · rw [if_pos hi, if_pos hi, e0]
  · have hik : i = k := by omega
    rw [if_neg hi, if_neg hi, if_pos hik, e1]

end Verif.TwoSources
