import Mathlib.Analysis.CStarAlgebra.Matrix
import Verif.Lemmas.MatrixIneq
import Verif.Model.SpectralNorm
import Verif.Props.ProxBss

/-!
# C91: what spectral normalisation of a recording achieves
-/

namespace Verif.ProxBss

open Matrix Scale

variable {F : Type} [Fintype F] {n t : ℕ}

theorem norm2_nonneg (A : Matrix (Fin n) (Fin t) ℂ) : 0 ≤ norm2 A := norm_nonneg _

theorem norm2_smul (c : ℝ) (hc : 0 ≤ c) (A : Matrix (Fin n) (Fin t) ℂ) : norm2 ((c : ℂ) • A) = c * norm2 A := by
  unfold norm2
  rw [map_smul, map_smul, norm_smul, Complex.norm_real, Real.norm_of_nonneg hc]

theorem norm2_eq_zero {A : Matrix (Fin n) (Fin t) ℂ} : norm2 A = 0 ↔ A = 0 := by
  unfold norm2
  rw [norm_eq_zero, LinearEquiv.map_eq_zero_iff, LinearEquiv.map_eq_zero_iff]

/-- The stretch of one vector. -/
theorem norm2_vec (A : Matrix (Fin n) (Fin t) ℂ) (v : Fin t → ℂ) :
    ∑ i, ‖(A *ᵥ v) i‖ ^ 2 ≤ norm2 A ^ 2 * ∑ j, ‖v j‖ ^ 2 := by
  have h := (LinearMap.toContinuousLinearMap (Matrix.toEuclideanLin A)).le_opNorm (WithLp.toLp 2 v)
  have h2 := pow_le_pow_left₀ (norm_nonneg _) h 2
  rw [mul_pow, EuclideanSpace.norm_sq_eq, EuclideanSpace.norm_sq_eq] at h2
  unfold norm2
  simpa using h2

theorem norm2_attained (ht : 0 < t) (A : Matrix (Fin n) (Fin t) ℂ) :
    ∃ v : Fin t → ℂ, ∑ j, ‖v j‖ ^ 2 = 1 ∧ ∑ i, ‖(A *ᵥ v) i‖ ^ 2 = norm2 A ^ 2 := by
  have : Nonempty (Fin t) := ⟨⟨0, ht⟩⟩
  let L := LinearMap.toContinuousLinearMap (Matrix.toEuclideanLin A)
  have hc : IsCompact (Metric.sphere (0 : EuclideanSpace ℂ (Fin t)) 1) := isCompact_sphere _ _
  have hne : (Metric.sphere (0 : EuclideanSpace ℂ (Fin t)) 1).Nonempty := NormedSpace.sphere_nonempty.2 zero_le_one
  obtain ⟨v, hv, hmax⟩ := hc.exists_isMaxOn hne (f := fun x => ‖L x‖) (L.continuous.norm.continuousOn)
  have hv1 : ‖v‖ = 1 := by simpa using hv
  have hle : ‖L‖ ≤ ‖L v‖ := by
    refine ContinuousLinearMap.opNorm_le_of_unit_norm (norm_nonneg _) fun x hx => hmax (by simpa using hx)
  have heq : ‖L v‖ = ‖L‖ := le_antisymm (by simpa [hv1] using L.le_opNorm v) hle
  refine ⟨WithLp.ofLp v, ?_, ?_⟩
  · have := EuclideanSpace.norm_sq_eq v
    rw [hv1] at this
    simpa using this.symm
  · have h : ‖L v‖ ^ 2 = ‖L‖ ^ 2 := by rw [heq]
    rw [EuclideanSpace.norm_sq_eq] at h
    unfold norm2
    simpa [L] using h

theorem norm2_conjTranspose (A : Matrix (Fin n) (Fin t) ℂ) : norm2 Aᴴ = norm2 A := by
  open scoped Matrix.Norms.L2Operator in
  exact Matrix.l2_opNorm_conjTranspose A

theorem row_mul (w : Fin n → ℂ) (X : Matrix (Fin n) (Fin t) ℂ) (j : Fin t) :
    ‖(w ᵥ* X) j‖ = ‖(Xᴴ *ᵥ star w) j‖ := by
  rw [← norm_star]
  congr 1
  simp [Matrix.vecMul, Matrix.mulVec, dotProduct, mul_comm]

theorem frobSq_mul_le (W : Mat n ℂ) (X : Matrix (Fin n) (Fin t) ℂ) :
    frobSq (W * X) ≤ norm2 X ^ 2 * frobSq W := by
  unfold frobSq
  rw [Finset.mul_sum]
  refine Finset.sum_le_sum fun k _ => ?_
  have h := norm2_vec Xᴴ (star (W k))
  rw [norm2_conjTranspose] at h
  refine le_trans (le_of_eq ?_) (h.trans (le_of_eq ?_))
  · refine Finset.sum_congr rfl fun j _ => ?_
    rw [← row_mul]
    rfl
  · simp

theorem frobSq_mul_attained (hn : 0 < n) (X : Matrix (Fin n) (Fin t) ℂ) :
    ∃ W : Mat n ℂ, frobSq W = 1 ∧ frobSq (W * X) = norm2 X ^ 2 := by
  obtain ⟨v, hv, hm⟩ := norm2_attained hn Xᴴ
  rw [norm2_conjTranspose] at hm
  have h0 : ∀ k : Fin n, k ≠ ⟨0, hn⟩ → ∀ c, (Matrix.of fun k c => if k = ⟨0, hn⟩ then star (v c) else 0 : Mat n ℂ) k c = 0 := by
    intro k hk c
    simp [hk]
  refine ⟨Matrix.of fun k c => if k = ⟨0, hn⟩ then star (v c) else 0, ?_, ?_⟩
  · unfold frobSq
    rw [Finset.sum_eq_single ⟨0, hn⟩ (fun k _ hk => by simp [hk]) (by simp)]
    simpa using hv
  · unfold frobSq
    rw [Finset.sum_eq_single ⟨0, hn⟩ (fun k _ hk => by simp [hk, Matrix.mul_apply]) (by simp), ← hm]
    refine Finset.sum_congr rfl fun j _ => ?_
    have := row_mul (star v) X j
    rw [star_star] at this
    rw [← this]
    simp [Matrix.mul_apply, Matrix.vecMul, dotProduct]

theorem ip_comm {m k : ℕ} (A B : Matrix (Fin m) (Fin k) ℂ) : ip A B = ip B A := by
  simp only [ip]
  refine Finset.sum_congr rfl fun i _ => Finset.sum_congr rfl fun j _ => ?_
  simp
  ring

/-- What `normalize_by_spectral_norm` returns when it returns. -/
theorem normalize_form {kw : Option ℕ} {len : ℕ} {X X' : Spec F n t}
    (h : normalizeBySpectralNorm kw len X = .ok X') :
    ∃ m : ℝ, 0 < m ∧ 0 < kw.getD len ∧ (∀ f, norm2 (X f) ≤ m) ∧ (∃ f, norm2 (X f) = m) ∧
      ∀ f, X' f = ((1 / (Real.sqrt (kw.getD len : ℕ) * m) : ℝ) : ℂ) • X f := by
  unfold normalizeBySpectralNorm at h
  by_cases hne : (Finset.univ : Finset F).Nonempty
  · simp only [hne, dite_true] at h
    split at h
    · cases h
    · rename_i hd
      have hm0 : (Finset.univ : Finset F).sup' hne (fun f => norm2 (X f)) ≠ 0 := right_ne_zero_of_mul hd
      have hq0 : Real.sqrt (kw.getD len : ℕ) ≠ 0 := left_ne_zero_of_mul hd
      obtain ⟨f0, -, hf0⟩ := Finset.exists_mem_eq_sup' hne fun f => norm2 (X f)
      refine ⟨_, lt_of_le_of_ne ?_ (Ne.symm hm0), ?_, fun f => Finset.le_sup' (fun f => norm2 (X f)) (Finset.mem_univ f),
        ⟨f0, hf0.symm⟩, ?_⟩
      · rw [hf0]
        exact norm2_nonneg _
      · refine Nat.pos_of_ne_zero fun hq => hq0 ?_
        rw [hq]
        simp
      · intro f
        rw [← Except.ok.inj h]
        ext c j
        simp only [Matrix.of_apply, Matrix.smul_apply, smul_eq_mul]
        push_cast
        ring
  · simp only [hne, dite_false] at h
    cases h

/-- **C91.** After the normalisation the defaults `mu1 = mu2 = 1` satisfy the step size condition of the primal-dual
method, for every demixing filter at once, and nothing is given away: some filter attains the bound. -/
theorem C91_step_sizes {kw : Option ℕ} {len : ℕ} {X X' : Spec F n t}
    (h : normalizeBySpectralNorm kw len X = .ok X') :
    (∀ W : F → Mat n ℂ, (kw.getD len : ℝ) * ∑ f, frobSq (separate X' W f) ≤ ∑ f, frobSq (W f)) ∧
      ∃ W : F → Mat n ℂ, W ≠ 0 ∧ (kw.getD len : ℝ) * ∑ f, frobSq (separate X' W f) = ∑ f, frobSq (W f) := by
  classical
  obtain ⟨m, hm, hq, hle, ⟨f0, hf0⟩, hX'⟩ := normalize_form h
  obtain ⟨q, hqe⟩ : ∃ q, q = kw.getD len := ⟨_, rfl⟩
  rw [← hqe] at hq hX' ⊢
  have hq' : (0 : ℝ) < q := by exact_mod_cast hq
  have hs : Real.sqrt q ^ 2 = q := Real.sq_sqrt hq'.le
  have hspos : 0 < Real.sqrt q := Real.sqrt_pos.2 hq'
  have hnorm : ∀ f, norm2 (X' f) = norm2 (X f) / (Real.sqrt q * m) := by
    intro f
    rw [hX', norm2_smul _ (by positivity)]
    ring
  have hsq : ∀ f, (q : ℝ) * norm2 (X' f) ^ 2 = (norm2 (X f) / m) ^ 2 := by
    intro f
    rw [hnorm, div_pow, mul_pow, hs, div_pow]
    field_simp
  constructor
  · intro W
    rw [Finset.mul_sum]
    refine Finset.sum_le_sum fun f _ => ?_
    have h1 : (norm2 (X f) / m) ^ 2 ≤ 1 := by
      refine pow_le_one₀ (div_nonneg (norm2_nonneg _) hm.le) ?_
      rw [div_le_one hm]
      exact hle f
    calc (q : ℝ) * frobSq (separate X' W f) ≤ q * (norm2 (X' f) ^ 2 * frobSq (W f)) :=
          mul_le_mul_of_nonneg_left (frobSq_mul_le (W f) (X' f)) hq'.le
      _ = (norm2 (X f) / m) ^ 2 * frobSq (W f) := by rw [← mul_assoc, hsq]
      _ ≤ 1 * frobSq (W f) := mul_le_mul_of_nonneg_right h1 (frobSq_nonneg _)
      _ = frobSq (W f) := one_mul _
  · have hn : 0 < n := by
      refine Nat.pos_of_ne_zero fun h0 => ?_
      subst h0
      have : X f0 = 0 := by
        ext i
        exact i.elim0
      rw [this, norm2_eq_zero.2 rfl] at hf0
      exact hm.ne hf0
    obtain ⟨V, hV1, hV2⟩ := frobSq_mul_attained hn (X' f0)
    have hz : frobSq (0 : Mat n ℂ) = 0 := by simp [frobSq]
    have hz' : frobSq (0 : Matrix (Fin n) (Fin t) ℂ) = 0 := by simp [frobSq]
    refine ⟨fun f => if f = f0 then V else 0, ?_, ?_⟩
    · intro h0
      have := congrFun h0 f0
      simp only [if_true] at this
      rw [this] at hV1
      change frobSq (0 : Mat n ℂ) = 1 at hV1
      rw [hz] at hV1
      exact zero_ne_one hV1
    · rw [Finset.sum_eq_single f0, Finset.sum_eq_single f0]
      · simp only [separate, if_true]
        rw [hV1, hV2, hsq, hf0, div_self hm.ne', one_pow]
      · intro f _ hf
        simp only [hf, if_false]
        exact hz
      · simp
      · intro f _ hf
        simp only [separate, hf, if_false, Matrix.zero_mul]
        exact hz'
      · simp

/-- **C91.** The consequence the convergence theory of the primal-dual method asks for: with `mu1 = mu2 = 1` and one
dual variable per penalty, the quadratic form that couples filters and dual variables is positive semidefinite. -/
theorem C91_metric {q len : ℕ} {X X' : Spec F n t} (h : normalizeBySpectralNorm (some q) len X = .ok X')
    (W : F → Mat n ℂ) (U : Fin q → Spec F n t) :
    0 ≤ ∑ f, frobSq (W f) - 2 * ∑ i, ∑ f, ip (separate X' W f) (U i f) + ∑ i, ∑ f, frobSq (U i f) := by
  have h1 := (C91_step_sizes h).1 W
  simp only [Option.getD_some] at h1
  have h2 : ∀ i, 2 * ∑ f, ip (separate X' W f) (U i f) ≤
      ∑ f, frobSq (separate X' W f) + ∑ f, frobSq (U i f) := by
    intro i
    rw [Finset.mul_sum, ← Finset.sum_add_distrib]
    refine Finset.sum_le_sum fun f _ => ?_
    have h3 := frobSq_nonneg (separate X' W f + ((-1 : ℝ) : ℂ) • U i f)
    rw [frobSq_add, frobSq_smul, ip_smul_left, ip_comm] at h3
    linarith
  have h4 : 2 * ∑ i, ∑ f, ip (separate X' W f) (U i f) ≤
      q * ∑ f, frobSq (separate X' W f) + ∑ i, ∑ f, frobSq (U i f) := by
    rw [Finset.mul_sum]
    refine (Finset.sum_le_sum fun i _ => h2 i).trans (le_of_eq ?_)
    rw [Finset.sum_add_distrib]
    simp
  linarith

/-- **C91.** The normalised recording is the recording times one positive number, common to all channels, bins and
frames, so the demixing filters that separate the one separate the other. -/
theorem C91_scalar {kw : Option ℕ} {len : ℕ} {X X' : Spec F n t} (h : normalizeBySpectralNorm kw len X = .ok X') :
    ∃ c : ℝ, 0 < c ∧ (∀ f i j, X' f i j = (c : ℂ) * X f i j) ∧
      ∀ W f k j, separate X' W f k j = (c : ℂ) * separate X W f k j := by
  obtain ⟨m, hm, hq, -, -, hX'⟩ := normalize_form h
  have hq' : (0 : ℝ) < (kw.getD len : ℕ) := by exact_mod_cast hq
  refine ⟨_, ?_, fun f i j => by rw [hX' f]; rfl, fun W f k j => ?_⟩
  · have := Real.sqrt_pos.2 hq'
    positivity
  · simp only [separate]
    rw [hX' f, Matrix.mul_smul]
    rfl

/-- **C91.** The level of the recording is removed altogether, and normalising twice is normalising once. -/
theorem C91_level {kw : Option ℕ} {len : ℕ} {X X' : Spec F n t} (h : normalizeBySpectralNorm kw len X = .ok X')
    {c : ℝ} (hc : 0 < c) :
    normalizeBySpectralNorm kw len (fun f => (c : ℂ) • X f) = .ok X' ∧ normalizeBySpectralNorm kw len X' = .ok X' := by
  have key : ∀ {X X' : Spec F n t}, normalizeBySpectralNorm kw len X = .ok X' → ∀ {c : ℝ}, 0 < c →
      normalizeBySpectralNorm kw len (fun f => (c : ℂ) • X f) = .ok X' := by
    intro X X' h c hc
    have h' := h
    unfold normalizeBySpectralNorm at h ⊢
    by_cases hne : (Finset.univ : Finset F).Nonempty
    · simp only [hne, dite_true] at h ⊢
      have hsup : (Finset.univ : Finset F).sup' hne (fun f => norm2 ((c : ℂ) • X f)) =
          c * (Finset.univ : Finset F).sup' hne (fun f => norm2 (X f)) := by
        refine le_antisymm (Finset.sup'_le _ _ fun f _ => ?_) ?_
        · rw [norm2_smul c hc.le]
          exact mul_le_mul_of_nonneg_left (Finset.le_sup' (fun f => norm2 (X f)) (Finset.mem_univ f)) hc.le
        · obtain ⟨f0, -, hf0⟩ := Finset.exists_mem_eq_sup' hne fun f => norm2 (X f)
          rw [hf0, ← norm2_smul c hc.le]
          exact Finset.le_sup' (fun f => norm2 ((c : ℂ) • X f)) (Finset.mem_univ f0)
      rw [hsup]
      split at h
      · cases h
      · rename_i hd
        rw [if_neg (by
          intro h0
          refine hd ?_
          have : c * (Real.sqrt (kw.getD len : ℕ) * (Finset.univ : Finset F).sup' hne (fun f => norm2 (X f))) = 0 := by
            rw [← h0]
            ring
          exact (mul_eq_zero.1 this).resolve_left hc.ne')]
        rw [← h]
        congr 1
        ext f i j
        have hcc : (c : ℂ) ≠ 0 := by exact_mod_cast hc.ne'
        simp only [Matrix.of_apply, Matrix.smul_apply, smul_eq_mul]
        push_cast
        rw [mul_left_comm]
        exact mul_div_mul_left _ _ hcc
    · simp only [hne, dite_false] at h
      cases h
  refine ⟨key h hc, ?_⟩
  obtain ⟨d, hd, hX', -⟩ := C91_scalar h
  have : X' = fun f => (d : ℂ) • X f := by
    ext f i j
    exact hX' f i j
  conv_lhs => rw [this]
  exact key h hd

/-- **C91.** It fails exactly for a silent recording, a recording without bins, and without penalties. -/
theorem C91_fails_iff (kw : Option ℕ) (len : ℕ) (X : Spec F n t) :
    (∃ X', normalizeBySpectralNorm kw len X = .ok X') ↔ kw.getD len ≠ 0 ∧ ∃ f, X f ≠ 0 := by
  constructor
  · rintro ⟨X', h⟩
    obtain ⟨m, hm, hq, -, ⟨f0, hf0⟩, -⟩ := normalize_form h
    refine ⟨hq.ne', f0, fun h0 => ?_⟩
    rw [h0, norm2_eq_zero.2 rfl] at hf0
    exact hm.ne hf0
  · rintro ⟨hq, f, hf⟩
    unfold normalizeBySpectralNorm
    have hne : (Finset.univ : Finset F).Nonempty := ⟨f, Finset.mem_univ f⟩
    simp only [hne, dite_true]
    have hpos : 0 < (Finset.univ : Finset F).sup' hne (fun f => norm2 (X f)) :=
      lt_of_lt_of_le (lt_of_le_of_ne (norm2_nonneg _) fun h0 => hf (norm2_eq_zero.1 h0.symm))
        (Finset.le_sup' (fun f => norm2 (X f)) (Finset.mem_univ f))
    have hsq : 0 < Real.sqrt (kw.getD len : ℕ) := Real.sqrt_pos.2 (by exact_mod_cast Nat.pos_of_ne_zero hq)
    rw [if_neg (mul_pos hsq hpos).ne']
    exact ⟨_, rfl⟩

/-- Two bins, two channels, one frame, two penalties: the normalisation returns. -/
example : ∃ X', normalizeBySpectralNorm none 2 (fun f : Bool => (Matrix.of fun _ _ => if f then 3 else 4 :
    Matrix (Fin 2) (Fin 1) ℂ)) = .ok X' :=
  (C91_fails_iff none 2 _).2 ⟨by decide, true, fun h => by
    have := congrFun (congrFun h 0) 0
    simp at this⟩

end Verif.ProxBss
