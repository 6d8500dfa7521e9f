import Verif.Lemmas.Pair
import Verif.Props.Linalg
import Verif.Props.Spatial

/-! # C32: pairwise iterative projection (IP2) -/

namespace Verif.Spatial

open Matrix
open scoped ComplexOrder

variable {n t : ℕ}

/-- Eigenvalues of a definite pair are positive and the eigenvectors diagonalise both matrices. -/
theorem geig_diag {A B Z : Mat 2 ℂ} {l : Fin 2 → ℝ} (hA : A.PosDef)
    (h : Linalg.GEigSpec A B 1 l Z) :
    Zᴴ * A * Z = diagonal (fun i => (l i : ℂ)) ∧ Zᴴ * B * Z = 1 ∧ Z.det ≠ 0 ∧ ∀ i, 0 < l i := by
  obtain ⟨h1, h2⟩ := h.1 rfl
  have hd : Z.det ≠ 0 := by
    intro h0
    have := congrArg Matrix.det h2
    rw [det_mul, h0, mul_zero, det_one] at this
    exact zero_ne_one this
  have hz : Zᴴ * A * Z = diagonal (fun i => (l i : ℂ)) := by
    rw [Matrix.mul_assoc, h1, ← Matrix.mul_assoc, ← Matrix.mul_assoc, h2, Matrix.one_mul]
    rfl
  refine ⟨hz, h2, hd, fun i => ?_⟩
  have hpd : (Zᴴ * A * Z).PosDef := by
    refine hA.conjTranspose_mul_mul_same ?_
    rw [mulVec_injective_iff_isUnit]
    exact (isUnit_iff_isUnit_det Z).mpr (isUnit_iff_ne_zero.mpr hd)
  rw [hz, posDef_diagonal_iff] at hpd
  exact Complex.zero_lt_real.mp (hpd i)

theorem hUh_col {G Z : Mat 2 ℂ} {c : Fin 2} {x : ℝ} (hx : 0 ≤ x) (h : (Zᴴ * G * Z) c c = (x : ℂ)) :
    hUh G (fun i => Z i c) = x := by
  have : star (fun i => Z i c) ⬝ᵥ (G *ᵥ fun i => Z i c) = (Zᴴ * G * Z) c c := by
    rw [Matrix.mul_assoc, mul_apply]
    rfl
  rw [hUh, this, h, Complex.ofReal_re, max_eq_left hx]

/-- The unit vectors of a pair as columns. -/
def pairCols (m k : Fin n) : Matrix (Fin n) (Fin 2) ℂ := Matrix.of fun i j => if i = ![m, k] j then 1 else 0

theorem vecMul_pairCols (x : Fin n → ℂ) (m k : Fin n) : x ᵥ* pairCols m k = ![x m, x k] := by
  funext j
  simp only [pairCols, vecMul, dotProduct, of_apply, mul_ite, mul_one, mul_zero]
  rw [Finset.sum_ite_eq' Finset.univ, if_pos (Finset.mem_univ _)]
  fin_cases j <;> rfl

theorem pairCols_injective {m k : Fin n} (hmk : m ≠ k) : Function.Injective (pairCols m k).mulVec := by
  intro x y h
  have h' : ∀ i, (pairCols m k *ᵥ x) i = (pairCols m k *ᵥ y) i := fun i => congrFun h i
  simp only [pairCols, mulVec, dotProduct, Fin.sum_univ_two, of_apply] at h'
  funext j
  fin_cases j
  · simpa [hmk] using h' m
  · simpa [hmk.symm] using h' k

/-- The result of one pair update and the comparison of its objective with that of any other two rows. -/
theorem ip2Pair_spec (np : Numpy ℂ) {U : Fin n → Mat n ℂ} {W : Mat n ℂ} {m k : Fin n} (hmk : m ≠ k)
    (hm : (U m).PosDef) (hk : (U k).PosDef) (hW : IsUnit W.det) :
    ∃ x y : Fin n → ℂ, ip2Pair np id U W (m, k) = .ok ((W.updateRow m x).updateRow k y) ∧
      IsUnit ((W.updateRow m x).updateRow k y).det ∧ quad (U m) x = 1 ∧ quad (U k) y = 1 ∧
      ∀ v v' : Fin n → ℂ, IsUnit ((W.updateRow m v).updateRow k v').det →
        quad (U m) x + quad (U k) y - 2 * Real.log ‖((W.updateRow m x).updateRow k y).det‖
          ≤ quad (U m) v + quad (U k) v' - 2 * Real.log ‖((W.updateRow m v).updateRow k v').det‖ := by
  -- the projected problem
  set E := pairCols (n := n) m k with hE
  set A := W⁻¹ * E with hA
  have hWi : IsUnit W⁻¹.det := W.isUnit_nonsing_inv_det hW
  have hAinj : Function.Injective A.mulVec := by
    intro x y h
    have h' := congrArg (fun z => W *ᵥ z) (show A *ᵥ x = A *ᵥ y from h)
    simp only [hA, mulVec_mulVec, ← Matrix.mul_assoc, mul_nonsing_inv W hW, Matrix.one_mul] at h'
    exact pairCols_injective hmk h'
  have hP : ∀ {V : Mat n ℂ}, V.PosDef → npSolve (W * V) E = .ok (V⁻¹ * A) := by
    intro V hV
    rw [npSolve_ok (isUnit_det_mul hW hV), Matrix.mul_inv_rev, Matrix.mul_assoc]
  have hPUP : ∀ {V : Mat n ℂ}, V.PosDef → (V⁻¹ * A)ᴴ * V * (V⁻¹ * A) = Aᴴ * V⁻¹ * A := by
    intro V hV
    have hVu : IsUnit V.det := (isUnit_iff_isUnit_det V).mp hV.isUnit
    rw [conjTranspose_mul, hV.1.inv.eq, Matrix.mul_assoc Aᴴ, nonsing_inv_mul V hVu, Matrix.mul_one,
      Matrix.mul_assoc]
  set Gm := Aᴴ * (U m)⁻¹ * A with hGm
  set Gk := Aᴴ * (U k)⁻¹ * A with hGk
  have hGmp : Gm.PosDef := hm.inv.conjTranspose_mul_mul_same hAinj
  have hGkp : Gk.PosDef := hk.inv.conjTranspose_mul_mul_same hAinj
  have hGmu : IsUnit Gm.det := (isUnit_iff_isUnit_det Gm).mp hGmp.isUnit
  have hGku : IsUnit Gk.det := (isUnit_iff_isUnit_det Gk).mp hGkp.isUnit
  obtain ⟨l, Z, hZ, hmono, hspec⟩ := Linalg.C16_eigh2 np Gm Gk hGmp.1 hGkp 1 (.inl rfl)
  obtain ⟨hZm, hZk, hZd, hl⟩ := geig_diag hGmp hspec
  have hGZ : Gm * Z = Gk * Z * diagonal fun i => (l i : ℂ) := (hspec.1 rfl).1
  have h01 : l 0 ≤ l 1 := hmono (by decide)
  have hs : 0 < Real.sqrt (l 1) := Real.sqrt_pos.mpr (hl 1)
  have hsq : Real.sqrt (l 1) ^ 2 = l 1 := Real.sq_sqrt (hl 1).le
  have hum : hUh Gm (fun i => Z i 1) = l 1 := hUh_col (hl 1).le (by rw [hZm, diagonal_apply_eq])
  have huk : hUh Gk (fun i => Z i 0) = 1 :=
    hUh_col zero_le_one (by rw [hZk, one_apply_eq, Complex.ofReal_one])
  -- the rows
  set gm : Fin 2 → ℂ := fun i => Z i 1 / (Real.sqrt (l 1) : ℂ) with hgm
  set gk : Fin 2 → ℂ := fun i => Z i 0 with hgk
  set x := star (((U m)⁻¹ * A) *ᵥ gm) with hx
  set y := star (((U k)⁻¹ * A) *ᵥ gk) with hy
  have hrun : ip2Pair np id U W (m, k) = .ok ((W.updateRow m x).updateRow k y) := by
    simp only [ip2Pair, ip2OnePair]
    have hEE : (Matrix.of fun i j => if i = ![m, k] j then 1 else 0 : Matrix (Fin n) (Fin 2) ℂ) = E := rfl
    rw [hEE, hP hm, hP hk]
    simp only [bind, Except.bind]
    rw [hPUP hm, hPUP hk, hZ]
    simp only [← hGm, ← hGk]
    rw [hum]
    rw [show hUh Gk (fun i => (l, Z).2 i 0) = 1 from huk]
    simp [hx, hy, hgm, hgk]
  -- coordinates of the rows in the projected problem
  have hcoord : ∀ {V : Mat n ℂ}, V.PosDef → ∀ g : Fin 2 → ℂ,
      star ((V⁻¹ * A) *ᵥ g) ᵥ* A = star g ᵥ* (Aᴴ * V⁻¹ * A) := by
    intro V hV g
    rw [star_mulVec, conjTranspose_mul, hV.1.inv.eq, vecMul_vecMul]
  have hvA : ∀ v : Fin n → ℂ, v ᵥ* A = ![(v ᵥ* W⁻¹) m, (v ᵥ* W⁻¹) k] := by
    intro v
    rw [hA, ← vecMul_vecMul, hE, vecMul_pairCols]
  have hdet : ∀ v v' : Fin n → ℂ, ((W.updateRow m v).updateRow k v').det
      = W.det * (Matrix.of ![v ᵥ* A, v' ᵥ* A] : Mat 2 ℂ).det := by
    intro v v'
    rw [det_updateRow_pair hmk hW, det_fin_two, hvA, hvA]
    simp
  -- the optimum of the projected problem
  set K := Gk * Z with hK
  have hKk : Kᴴ * Gk⁻¹ * K = 1 := by
    rw [hK, conjTranspose_mul, hGkp.1.eq, Matrix.mul_assoc Zᴴ, mul_nonsing_inv Gk hGku, Matrix.mul_one,
      ← Matrix.mul_assoc, hZk]
  have hdd : (diagonal fun i => ((l i : ℂ))) * (diagonal fun i => (((l i)⁻¹ : ℝ) : ℂ)) = (1 : Mat 2 ℂ) := by
    rw [diagonal_mul_diagonal, ← diagonal_one]
    congr 1
    funext i
    rw [← Complex.ofReal_mul, mul_inv_cancel₀ (hl i).ne', Complex.ofReal_one]
  have hKm' : K = Gm * Z * diagonal fun i => (((l i)⁻¹ : ℝ) : ℂ) := by
    rw [hGZ, Matrix.mul_assoc, hdd, Matrix.mul_one]
  have hKm : Kᴴ * Gm⁻¹ * K = diagonal fun i => (((l i)⁻¹ : ℝ) : ℂ) := by
    have e : Gm⁻¹ * K = Z * diagonal fun i => (((l i)⁻¹ : ℝ) : ℂ) := by
      rw [hKm', ← Matrix.mul_assoc, ← Matrix.mul_assoc, nonsing_inv_mul Gm hGmu, Matrix.one_mul]
    rw [Matrix.mul_assoc, e, hK, conjTranspose_mul, hGkp.1.eq, ← Matrix.mul_assoc, hZk, Matrix.one_mul]
  obtain ⟨hNd, hN0, hN1, hNmin⟩ := pair_min (l := fun i => (l i)⁻¹) (a := 1) (b := 0) (by decide)
    (inv_pos.mpr (hl 1)) (inv_anti₀ (hl 0) h01) hKm hKk
  set N : Mat 2 ℂ := Matrix.of ![(1 / (Real.sqrt ((l 1)⁻¹) : ℂ)) • fun j => star (K j 1),
    fun j => star (K j 0)] with hN
  have hNeq : N = Matrix.of ![x ᵥ* A, y ᵥ* A] := by
    have e0 : x ᵥ* A = (1 / (Real.sqrt ((l 1)⁻¹) : ℂ)) • fun j => star (K j 1) := by
      rw [hx, hcoord hm, ← hGm]
      have : star gm ᵥ* Gm = star (Gm *ᵥ gm) := by rw [star_mulVec, hGmp.1.eq]
      rw [this]
      funext j
      have e3 : (Gm *ᵥ gm) j = (Gm * Z) j 1 / (Real.sqrt (l 1) : ℂ) := by
        simp only [mulVec, dotProduct, hgm, mul_apply, Finset.sum_div, mul_div_assoc]
      rw [Pi.star_apply, e3, hGZ, mul_diagonal, Pi.smul_apply, smul_eq_mul, Real.sqrt_inv, star_div₀, star_mul']
      have e4 : ((l 1 : ℝ) : ℂ) = (Real.sqrt (l 1) : ℂ) ^ 2 := by rw [← Complex.ofReal_pow, hsq]
      have e5 : (Real.sqrt (l 1) : ℂ) ≠ 0 := by exact_mod_cast hs.ne'
      rw [Complex.star_def, Complex.conj_ofReal, Complex.conj_ofReal]
      nth_rewrite 1 [e4]
      push_cast
      field_simp
    have e1 : y ᵥ* A = fun j => star (K j 0) := by
      rw [hy, hcoord hk, ← hGk]
      have : star gk ᵥ* Gk = star (Gk *ᵥ gk) := by rw [star_mulVec, hGkp.1.eq]
      rw [this]
      rfl
    rw [hN, e0, e1]
  have hqx : quad (U m) x = 1 := by
    have : quad (U m) x = quad Gm (star gm) := by
      rw [hx, star_mulVec, quad_vecMul, conjTranspose_conjTranspose, hPUP hm]
    rw [this, quad, star_star]
    have e3 : star gm ⬝ᵥ (Gm *ᵥ gm) = (Zᴴ * Gm * Z) 1 1 / ((Real.sqrt (l 1) : ℂ) ^ 2) := by
      have : gm = (1 / (Real.sqrt (l 1) : ℂ)) • fun i => Z i 1 := by
        funext i; simp [hgm, div_eq_inv_mul]
      rw [this, star_smul, mulVec_smul, smul_dotProduct, dotProduct_smul, Matrix.mul_assoc Zᴴ, mul_apply,
        Complex.star_def, map_div₀, map_one, Complex.conj_ofReal]
      simp only [smul_eq_mul, dotProduct, mulVec, mul_apply, conjTranspose_apply, Pi.star_apply]
      field_simp
    rw [e3, hZm, diagonal_apply_eq, ← Complex.ofReal_pow, hsq, div_self]
    · rfl
    · exact_mod_cast (hl 1).ne'
  have hqy : quad (U k) y = 1 := by
    have : quad (U k) y = quad Gk (star gk) := by
      rw [hy, star_mulVec, quad_vecMul, conjTranspose_conjTranspose, hPUP hk]
    rw [this, quad, star_star]
    have e3 : star gk ⬝ᵥ (Gk *ᵥ gk) = (Zᴴ * Gk * Z) 0 0 := by
      rw [Matrix.mul_assoc Zᴴ, mul_apply]; rfl
    rw [e3, hZk, one_apply_eq, Complex.one_re]
  have hWn : 0 < ‖W.det‖ := norm_pos_iff.mpr hW.ne_zero
  refine ⟨x, y, hrun, ?_, hqx, hqy, fun v v' hv => ?_⟩
  · rw [hdet, ← hNeq]
    exact hW.mul (isUnit_iff_ne_zero.mpr hNd)
  · have hMd : (Matrix.of ![v ᵥ* A, v' ᵥ* A] : Mat 2 ℂ).det ≠ 0 := by
      rw [hdet] at hv
      exact right_ne_zero_of_mul hv.ne_zero
    have h1 := hNmin _ hMd
    have h2 := quad_schur_le hm A hGmu v
    have h3 := quad_schur_le hk A hGku v'
    rw [hqx, hqy, hdet, hdet, ← hNeq, norm_mul, norm_mul,
      Real.log_mul hWn.ne' (norm_pos_iff.mpr hNd).ne', Real.log_mul hWn.ne' (norm_pos_iff.mpr hMd).ne']
    have h4 : quad Gm⁻¹ ((Matrix.of ![v ᵥ* A, v' ᵥ* A] : Mat 2 ℂ) 0) = quad Gm⁻¹ (v ᵥ* A) := rfl
    have h5 : quad Gk⁻¹ ((Matrix.of ![v ᵥ* A, v' ᵥ* A] : Mat 2 ℂ) 1) = quad Gk⁻¹ (v' ᵥ* A) := rfl
    rw [h4, h5] at h1
    linarith

/-- The value of the objective when only two rows change. -/
theorem ipLoss_updateRow_pair (U : Fin n → Mat n ℂ) (W : Mat n ℂ) {m k : Fin n} (hmk : m ≠ k)
    (x y : Fin n → ℂ) :
    ipLoss U ((W.updateRow m x).updateRow k y)
      = (∑ j ∈ (Finset.univ.erase m).erase k, quad (U j) (W j))
        + (quad (U m) x + quad (U k) y - 2 * Real.log ‖((W.updateRow m x).updateRow k y).det‖) := by
  rw [ipLoss, ← Finset.sum_erase_add _ _ (Finset.mem_univ m),
    ← Finset.sum_erase_add _ _ (Finset.mem_erase.mpr ⟨hmk.symm, Finset.mem_univ k⟩), updateRow_self,
    updateRow_ne hmk, updateRow_self]
  have : ∑ j ∈ (Finset.univ.erase m).erase k, quad (U j) (((W.updateRow m x).updateRow k y) j)
      = ∑ j ∈ (Finset.univ.erase m).erase k, quad (U j) (W j) := by
    refine Finset.sum_congr rfl fun j hj => ?_
    rw [Finset.mem_erase, Finset.mem_erase] at hj
    rw [updateRow_ne hj.1, updateRow_ne hj.2.1]
  rw [this]
  ring

theorem updateRow_pair_self (W : Mat n ℂ) (m k : Fin n) : (W.updateRow m (W m)).updateRow k (W k) = W := by
  rw [updateRow_eq_self, updateRow_eq_self]

/-- C32: `update_by_ip2` with any pair selector (every yielded pair consisting of two different sources)
succeeds, keeps the filter invertible and never increases the objective; flooring inactive. -/
theorem C32_sweep (np : Numpy ℂ) (floor : ℝ → ℝ) (pairs : List (Fin n × Fin n))
    (hpairs : ∀ p ∈ pairs, p.1 ≠ p.2) (U : Fin n → Mat n ℂ) (hU : ∀ k, (U k).PosDef) (W : Mat n ℂ)
    (hW : IsUnit W.det) (hfloor : ip2 np floor pairs U W = ip2 np id pairs U W) :
    ∃ W', ip2 np floor pairs U W = .ok W' ∧ IsUnit W'.det ∧ ipLoss U W' ≤ ipLoss U W := by
  obtain ⟨V, h0, hrun, hQ, hP⟩ := foldlM_trace (ip2Pair np id U) (fun M => IsUnit M.det)
    (fun _ M M' => ipLoss U M' ≤ ipLoss U M) pairs (fun M p hp hM => by
      obtain ⟨x, y, h1, h2, -, -, h3⟩ := ip2Pair_spec np (hpairs p hp) (hU p.1) (hU p.2) hM
      refine ⟨_, h1, h2, ?_⟩
      rw [ipLoss_updateRow_pair U M (hpairs p hp)]
      have h4 := h3 (M p.1) (M p.2) (by rw [updateRow_pair_self]; exact hM)
      have h5 := ipLoss_updateRow_pair U M (hpairs p hp) (M p.1) (M p.2)
      rw [updateRow_pair_self] at h4 h5
      rw [h5]
      exact add_le_add_right h4 _) W hW
  refine ⟨V pairs.length, hfloor ▸ hrun, hP _ le_rfl, ?_⟩
  rw [← h0]
  exact le_of_trace (ipLoss U) V _ fun i hi => hQ i hi

/-- C32: the update of one pair is the global minimiser over the two rows, leaves all other rows alone, and both
new rows have unit norm in their covariance. -/
theorem C32_pair_optimal (np : Numpy ℂ) (U : Fin n → Mat n ℂ) (hU : ∀ k, (U k).PosDef) (W : Mat n ℂ)
    (hW : IsUnit W.det) (m k : Fin n) (hmk : m ≠ k) :
    ∃ W', ip2 np id [(m, k)] U W = .ok W' ∧ (∀ j, j ≠ m → j ≠ k → W' j = W j) ∧
      quad (U m) (W' m) = 1 ∧ quad (U k) (W' k) = 1 ∧
      ∀ V : Mat n ℂ, IsUnit V.det → (∀ j, j ≠ m → j ≠ k → V j = W j) → ipLoss U W' ≤ ipLoss U V := by
  obtain ⟨x, y, h1, h2, h3, h4, h5⟩ := ip2Pair_spec np hmk (hU m) (hU k) hW
  refine ⟨_, by rw [ip2, List.foldlM_cons, h1]; rfl, fun j hm hk => ?_, ?_, ?_, fun V hV hVW => ?_⟩
  · rw [updateRow_ne hk, updateRow_ne hm]
  · rw [updateRow_ne hmk, updateRow_self, h3]
  · rw [updateRow_self, h4]
  · have hVe : V = (W.updateRow m (V m)).updateRow k (V k) := by
      funext j
      by_cases hj : j = k
      · rw [hj, updateRow_self]
      · rw [updateRow_ne hj]
        by_cases hj' : j = m
        · rw [hj', updateRow_self]
        · rw [updateRow_ne hj', hVW j hj' hj]
    rw [hVe] at hV ⊢
    rw [ipLoss_updateRow_pair U W hmk, ipLoss_updateRow_pair U W hmk]
    exact add_le_add_right (h5 _ _ hV) _

end Verif.Spatial
