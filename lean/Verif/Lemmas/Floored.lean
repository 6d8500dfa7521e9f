import Verif.Props.Spatial
import Verif.Lemmas.Majorise
import Verif.Lemmas.IlrmaStep

/-!
# The spatial updates with a flooring function that never returns zero
-/

namespace Verif.Iva

open Matrix Scale Spatial
open scoped ComplexOrder

variable {F : Type} [Fintype F] {n t : ℕ}

/-- IP1 succeeds and gives invertible filters whatever the flooring does, as long as it does not return zero. -/
theorem ip1Stack_floored {floor : ℝ → ℝ} (hf : ∀ x, 0 < x → floor x ≠ 0) {phi : F → Fin n → Fin t → ℝ}
    (hphi : ∀ f k s, 0 < phi f k s) {X : Spec F n t} (hX : ∀ f, LinearIndependent ℂ (X f).row) {W : F → Mat n ℂ}
    (hW : ∀ f, IsUnit (W f).det) :
    ∃ W', ip1Stack floor (fun f => wcov (phi f) X f) W = .ok W' ∧ ∀ f, IsUnit (W' f).det := by
  choose Q hQ hQu _ _ using fun f => C30_decorrelates floor hf (wcov (phi f) X f) (wcov_posDef (hphi f) hX f) (W f) (hW f)
  exact ⟨Q, foldlM_onBins _ _ _ _ hQ, hQu⟩

omit [Fintype F] in
/-- Every output of invertible filters sounds in some frame if the channels are linearly independent. -/
theorem exists_separate_ne {X : Spec F n t} (hX : ∀ f, LinearIndependent ℂ (X f).row) {W : F → Mat n ℂ}
    (hW : ∀ f, IsUnit (W f).det) (f : F) (c : Fin n) : ∃ j, separate X W f c j ≠ 0 := by
  by_contra h
  push Not at h
  have h1 : W f c ᵥ* X f = 0 := funext fun j => h j
  have h2 : W f c = 0 := by
    refine vecMul_injective_iff.mpr (hX f) ?_
    change W f c ᵥ* X f = (0 : Fin n → ℂ) ᵥ* X f
    rw [h1, zero_vecMul]
  exact (hW f).ne_zero (det_eq_zero_of_row_eq_zero c fun j => congrFun h2 j)

end Verif.Iva

namespace Verif.Spatial

open Matrix
open scoped ComplexOrder

variable {n t : ℕ}

/-- One pair of IP2 succeeds and keeps the filter invertible. -/
theorem ip2Pair_floored (np : Numpy ℂ) {floor : ℝ → ℝ} (hf : ∀ x, 0 < x → floor x ≠ 0) {U : Fin n → Mat n ℂ} {W : Mat n ℂ}
    {p : Fin n × Fin n} (hp : p.1 ≠ p.2) (hU : ∀ k, (U k).PosDef) (hW : IsUnit W.det) :
    ∃ W', ip2Pair np floor U W p = .ok W' ∧ IsUnit W'.det := by
  obtain ⟨m, k⟩ := p
  obtain ⟨x, y, h1, h2, -⟩ := ip2Pair_spec np (U := U) hp (hU m) (hU k) hW
  simp only [ip2Pair, ip2OnePair, bind, Except.bind, id] at h1 ⊢
  split at h1
  · cases h1
  rename_i rows h3
  split at h3
  · cases h3
  rename_i Pm hPm
  split at h3
  · cases h3
  rename_i Pn hPn
  split at h3
  · cases h3
  rename_i r hr
  obtain ⟨a, ha⟩ : ∃ a, a = √(hUh (Pmᴴ * U m * Pm) fun i => r.2 i 1) := ⟨_, rfl⟩
  obtain ⟨b, hb⟩ : ∃ b, b = √(hUh (Pnᴴ * U k * Pn) fun i => r.2 i 0) := ⟨_, rfl⟩
  rw [← ha, ← hb] at h3
  have hrows := Except.ok.inj h3
  subst hrows
  have hA := Except.ok.inj h1
  rw [← hA] at h2
  clear hA h1 h3
  have hzero : ∀ P : Matrix (Fin n) (Fin 2) ℂ, ∀ h : Fin 2 → ℂ, star (P *ᵥ fun i => h i / ((0 : ℝ) : ℂ)) = 0 := by
    intro P h
    simp only [Complex.ofReal_zero, div_zero]
    rw [show (fun _ : Fin 2 => (0 : ℂ)) = 0 from rfl, mulVec_zero, star_zero]
  have ha0 : 0 < a := by
    refine lt_of_le_of_ne (ha ▸ Real.sqrt_nonneg _) fun h0 => h2.ne_zero ?_
    refine det_eq_zero_of_row_eq_zero m fun j => ?_
    rw [updateRow_ne hp, updateRow_self, ← h0]
    exact congrFun (hzero _ _) j
  have hb0 : 0 < b := by
    refine lt_of_le_of_ne (hb ▸ Real.sqrt_nonneg _) fun h0 => h2.ne_zero ?_
    refine det_eq_zero_of_row_eq_zero k fun j => ?_
    rw [updateRow_self, ← h0]
    exact congrFun (hzero _ _) j
  have hscale : ∀ (P : Matrix (Fin n) (Fin 2) ℂ) (h : Fin 2 → ℂ) (a : ℝ), 0 < a →
      star (P *ᵥ fun i => h i / ((floor a : ℝ) : ℂ)) = ((a / floor a : ℝ) : ℂ) • star (P *ᵥ fun i => h i / (a : ℂ)) := by
    intro P h a ha
    have e : (fun i => h i / ((floor a : ℝ) : ℂ)) = ((a / floor a : ℝ) : ℂ) • fun i => h i / (a : ℂ) := by
      funext i
      have : (a : ℂ) ≠ 0 := by exact_mod_cast ha.ne'
      simp only [Pi.smul_apply, smul_eq_mul]
      push_cast
      field_simp
    rw [e, mulVec_smul, star_smul]
    simp
  refine ⟨_, by simp only [hPm, hPn, hr]; rfl, ?_⟩
  simp only [← ha, ← hb]
  rw [show (![star (Pm *ᵥ fun i => r.2 i 1 / ((floor a : ℝ) : ℂ)), star (Pn *ᵥ fun i => r.2 i 0 / ((floor b : ℝ) : ℂ))] : Fin 2 → Fin n → ℂ) 0
      = ((a / floor a : ℝ) : ℂ) • star (Pm *ᵥ fun i => r.2 i 1 / (a : ℂ)) from hscale _ _ _ ha0,
    show (![star (Pm *ᵥ fun i => r.2 i 1 / ((floor a : ℝ) : ℂ)), star (Pn *ᵥ fun i => r.2 i 0 / ((floor b : ℝ) : ℂ))] : Fin 2 → Fin n → ℂ) 1
      = ((b / floor b : ℝ) : ℂ) • star (Pn *ᵥ fun i => r.2 i 0 / (b : ℂ)) from hscale _ _ _ hb0]
  have hca : ((a / floor a : ℝ) : ℂ) ≠ 0 := by exact_mod_cast div_ne_zero ha0.ne' (hf a ha0)
  have hcb : ((b / floor b : ℝ) : ℂ) ≠ 0 := by exact_mod_cast div_ne_zero hb0.ne' (hf b hb0)
  rw [det_updateRow_smul, updateRow_comm _ hp, det_updateRow_smul, updateRow_comm _ hp.symm]
  exact (isUnit_iff_ne_zero.mpr hcb).mul ((isUnit_iff_ne_zero.mpr hca).mul h2)

/-- One step of ISS1 multiplies the signals by an invertible matrix if the floored denominator is positive. -/
theorem iss1Row_floored {floor : ℝ → ℝ} (hf : ∀ x, 0 ≤ x → 0 < floor x) {phi : Fin n → Fin t → ℝ} (hphi : ∀ k s, 0 < phi k s)
    (Y : Matrix (Fin n) (Fin t) ℂ) (src : Fin n) :
    ∃ T : Mat n ℂ, IsUnit T.det ∧ iss1Row floor phi Y src = T * Y := by
  obtain ⟨v, hv⟩ : ∃ v : Fin n → ℂ, v = fun k => if k = src then
      1 - 1 / ((Real.sqrt (floor (meanT fun s => phi src s * ‖Y src s‖ ^ 2)) : ℝ) : ℂ)
      else (meanT fun s => (phi k s : ℂ) * (Y k s * star (Y src s))) / ((floor (meanT fun s => phi k s * ‖Y src s‖ ^ 2) : ℝ) : ℂ) :=
    ⟨_, rfl⟩
  refine ⟨Matrix.of fun i j => (1 : Mat n ℂ) i j - if j = src then v i else 0, ?_, ?_⟩
  · rw [det_one_sub_col, hv]
    simp only [if_true, sub_sub_cancel]
    refine isUnit_iff_ne_zero.mpr (one_div_ne_zero ?_)
    have : 0 ≤ meanT fun s => phi src s * ‖Y src s‖ ^ 2 :=
      div_nonneg (Finset.sum_nonneg fun s _ => mul_nonneg (hphi src s).le (sq_nonneg _)) (Nat.cast_nonneg _)
    exact_mod_cast (Real.sqrt_pos.mpr (hf _ this)).ne'
  · ext k s
    rw [show (Matrix.of fun i j => (1 : Mat n ℂ) i j - if j = src then v i else 0 : Mat n ℂ)
        = 1 - Matrix.of fun i j => if j = src then v i else 0 from rfl, Matrix.sub_mul, Matrix.one_mul, Matrix.sub_apply, mul_apply]
    simp only [iss1Row, of_apply, ite_mul, zero_mul, Finset.sum_ite_eq', Finset.mem_univ, if_true, hv]

theorem iss1_floored {floor : ℝ → ℝ} (hf : ∀ x, 0 ≤ x → 0 < floor x) {phi : Fin n → Fin t → ℝ} (hphi : ∀ k s, 0 < phi k s)
    (X : Matrix (Fin n) (Fin t) ℂ) {W : Mat n ℂ} (hW : IsUnit W.det) :
    ∃ W' : Mat n ℂ, iss1 floor phi (W * X) = W' * X ∧ IsUnit W'.det := by
  obtain ⟨V, h0, hrun, -, hP⟩ := foldl_trace (iss1Row floor phi) (fun Y => ∃ W' : Mat n ℂ, Y = W' * X ∧ IsUnit W'.det)
    (fun _ _ _ => True) (List.finRange n) (fun Y src _ hY => by
      obtain ⟨W', rfl, hW'⟩ := hY
      obtain ⟨T, hT, hr⟩ := iss1Row_floored hf hphi (W' * X) src
      exact ⟨⟨T * W', by rw [hr, Matrix.mul_assoc], by rw [det_mul]; exact hT.mul hW'⟩, trivial⟩) (W * X) ⟨W, rfl, hW⟩
  obtain ⟨W', h1, h2⟩ := hP _ le_rfl
  exact ⟨W', by rw [iss1, hrun, h1], h2⟩

/-- One pair of ISS2 multiplies the signals by an invertible matrix. -/
theorem iss2Pair_floored (np : Numpy ℂ) {floor : ℝ → ℝ} (hf : ∀ x, 0 < x → floor x ≠ 0) {phi : Fin n → Fin t → ℝ}
    (hphi : ∀ k s, 0 < phi k s) {X : Matrix (Fin n) (Fin t) ℂ} (hX : LinearIndependent ℂ X.row) {W : Mat n ℂ}
    (hW : IsUnit W.det) {p : Fin n × Fin n} (hp : p.1 ≠ p.2) :
    ∃ W' : Mat n ℂ, iss2Pair np floor phi (W * X) p = .ok (W' * X) ∧ IsUnit W'.det := by
  obtain ⟨m, k⟩ := p
  obtain ⟨T, hT, h1, -⟩ := iss2Pair_spec np phi hphi (W * X) hp (pair_rows_injective hX hW hp)
  have hTW : IsUnit (T * W).det := by rw [det_mul]; exact hT.mul hW
  simp only [iss2Pair, bind, Except.bind, id] at h1 ⊢
  split at h1
  · cases h1
  rename_i r hr
  obtain ⟨a, ha⟩ : ∃ a, a = √(hUh (pairCov (phi m) ![(W * X) m, (W * X) k]) fun i => r.2 i 0) := ⟨_, rfl⟩
  obtain ⟨b, hb⟩ : ∃ b, b = √(hUh (pairCov (phi k) ![(W * X) m, (W * X) k]) fun i => r.2 i 1) := ⟨_, rfl⟩
  rw [← ha, ← hb] at h1
  have hA := Except.ok.inj h1
  have hm : ∀ s, (T * (W * X)) m s
      = ∑ i, star (r.2 i 0 / (a : ℂ)) * (![(W * X) m, (W * X) k] : Fin 2 → Fin t → ℂ) i s := by
    intro s
    rw [← hA, of_apply, if_pos rfl]
  have hk : ∀ s, (T * (W * X)) k s
      = ∑ i, star (r.2 i 1 / (b : ℂ)) * (![(W * X) m, (W * X) k] : Fin 2 → Fin t → ℂ) i s := by
    intro s
    rw [← hA, of_apply, if_neg hp.symm, if_pos rfl]
  have hrow := fun j => row_ne_zero hX hTW j
  have ha0 : 0 < a := by
    refine lt_of_le_of_ne (ha ▸ Real.sqrt_nonneg _) fun h0 => hrow m ?_
    funext s
    rw [Matrix.mul_assoc, hm, ← h0]
    simp
  have hb0 : 0 < b := by
    refine lt_of_le_of_ne (hb ▸ Real.sqrt_nonneg _) fun h0 => hrow k ?_
    funext s
    rw [Matrix.mul_assoc, hk, ← h0]
    simp
  obtain ⟨c, hc⟩ : ∃ c : Fin n → ℝ, c = fun j => if j = m then a / floor a else if j = k then b / floor b else 1 := ⟨_, rfl⟩
  have hc0 : ∀ j, c j ≠ 0 := by
    intro j
    rw [hc]
    dsimp only
    split_ifs
    · exact div_ne_zero ha0.ne' (hf a ha0)
    · exact div_ne_zero hb0.ne' (hf b hb0)
    · exact one_ne_zero
  refine ⟨diagonal (fun j => (c j : ℂ)) * (T * W), ?_, ?_⟩
  · simp only [← ha, ← hb]
    congr 1
    ext j s
    rw [Matrix.mul_assoc, diagonal_mul, Matrix.mul_assoc, of_apply]
    have ha' : (a : ℂ) ≠ 0 := by exact_mod_cast ha0.ne'
    have hb' : (b : ℂ) ≠ 0 := by exact_mod_cast hb0.ne'
    by_cases g1 : j = m
    · subst g1
      rw [if_pos rfl, hm, Finset.mul_sum]
      refine Finset.sum_congr rfl fun i _ => ?_
      simp only [hc, if_true, star_div₀, RCLike.star_def, Complex.conj_ofReal]
      push_cast
      field_simp
    · by_cases g2 : j = k
      · subst g2
        rw [if_neg g1, if_pos rfl, hk, Finset.mul_sum]
        refine Finset.sum_congr rfl fun i _ => ?_
        simp only [hc, g1, if_false, if_true, star_div₀, RCLike.star_def, Complex.conj_ofReal]
        push_cast
        field_simp
      · rw [if_neg g1, if_neg g2, ← hA, of_apply, if_neg g1, if_neg g2]
        simp [hc, g1, g2]
  · rw [det_mul, det_diagonal]
    refine (isUnit_iff_ne_zero.mpr (Finset.prod_ne_zero_iff.mpr fun j _ => ?_)).mul hTW
    exact_mod_cast hc0 j

end Verif.Spatial

namespace Verif.Ilrma

open Matrix Scale Spatial

variable {F : Type} [Fintype F] {n t : ℕ}

/-- The spatial update of the filter succeeds with a flooring function that is positive. -/
theorem spatialFilter_floored (np : Numpy ℂ) {alg : FilterAlg n} (halg : alg.Valid) {floor : ℝ → ℝ}
    (hf : ∀ x, 0 < x → floor x ≠ 0) {phi : F → Fin n → Fin t → ℝ} (hphi : ∀ f k s, 0 < phi f k s) {X : Spec F n t}
    (hX : ∀ f, LinearIndependent ℂ (X f).row) {W : F → Mat n ℂ} (hW : ∀ f, IsUnit (W f).det) :
    ∃ W', spatialFilter np alg floor phi X W = .ok W' ∧ ∀ f, IsUnit (W' f).det := by
  cases alg with
  | ip1 => exact Iva.ip1Stack_floored hf hphi hX hW
  | ip2 pairs =>
    obtain ⟨V, h0, hrun, -, hP⟩ := foldlM_trace
      (fun W p => onBins fun f => ip2Pair np floor (Iva.wcov (phi f) X f) (W f) p) (fun W => ∀ f, IsUnit (W f).det)
      (fun _ _ _ => True) pairs (fun W p hp hW => by
        choose W' h1 h2 using fun f => ip2Pair_floored np hf (U := Iva.wcov (phi f) X f) (halg p hp)
          (fun k => Iva.wcov_posDef (hphi f) hX f k) (hW f)
        exact ⟨W', onBins_ok h1, h2, trivial⟩) W hW
    exact ⟨_, hrun, hP _ le_rfl⟩

omit [Fintype F] in
/-- The same for the update of the separated signals. -/
theorem spatialSignal_floored (np : Numpy ℂ) {alg : SignalAlg n} (halg : alg.Valid) {floor : ℝ → ℝ}
    (hf : ∀ x, 0 ≤ x → 0 < floor x) {phi : F → Fin n → Fin t → ℝ} (hphi : ∀ f k s, 0 < phi f k s) {X : Spec F n t}
    (hX : ∀ f, LinearIndependent ℂ (X f).row) {W : F → Mat n ℂ} (hW : ∀ f, IsUnit (W f).det) :
    ∃ W', spatialSignal np alg floor phi (separate X W) = .ok (separate X W') ∧ ∀ f, IsUnit (W' f).det := by
  cases alg with
  | iss1 =>
    choose W' h1 h2 using fun f => iss1_floored hf (hphi f) (X f) (hW f)
    exact ⟨W', congrArg Except.ok (funext h1), h2⟩
  | iss2 pairs =>
    obtain ⟨V, h0, hrun, -, hP⟩ := foldlM_trace
      (fun Y p => onBins fun f => iss2Pair np floor (phi f) (Y f) p)
      (fun Y => ∃ W, Y = separate X W ∧ ∀ f, IsUnit (W f).det)
      (fun _ _ _ => True) pairs (fun Y p hp hY => by
        obtain ⟨W, rfl, hW⟩ := hY
        choose W' h1 h2 using fun f => iss2Pair_floored np (fun x hx => (hf x hx.le).ne') (hphi f) (hX f) (hW f) (halg p hp)
        exact ⟨separate X W', onBins_ok h1, ⟨W', rfl, h2⟩, trivial⟩) (separate X W) ⟨W, rfl, hW⟩
    obtain ⟨W', h1, h2⟩ := hP _ le_rfl
    exact ⟨W', by rw [← h1]; exact hrun, h2⟩

end Verif.Ilrma
