import Verif.Props.Ilrma
import Verif.Props.Ipa

/-! # C40: what the normalisations of ILRMA achieve, at the end of every iteration -/

set_option linter.unusedSectionVars false

namespace Verif.Ilrma

open Matrix Spatial Scale Iva

variable {F : Type} [Fintype F] {n t K : ℕ}

theorem bind_ok {α β : Type} {a : Except PyErr α} {g : α → Except PyErr β} {b : β} (h : a.bind g = .ok b) :
    ∃ x, a = .ok x ∧ g x = .ok b := by
  cases a with
  | error e => exact absurd h (by simp [Except.bind])
  | ok x => exact ⟨x, rfl, h⟩

/-- The mean power of a source over all bins and frames. -/
noncomputable def meanPower (Y : Spec F n t) (k : Fin n) : ℝ := (∑ f, ∑ j, ‖Y f k j‖ ^ 2) / (Fintype.card F * t)

/-- Flooring leaves the root of the mean power of every source alone. -/
def PowerOk (floor : ℝ → ℝ) (Y : Spec F n t) : Prop :=
  ∀ k, 0 < meanPower Y k ∧ floor (Real.sqrt (meanPower Y k)) = Real.sqrt (meanPower Y k)

theorem meanPower_divRows {floor : ℝ → ℝ} {Y : Spec F n t} (h : PowerOk floor Y) (k : Fin n) :
    meanPower (divRows (psi floor Y) Y) k = 1 := by
  obtain ⟨h1, h2⟩ := h k
  have e : psi floor Y k = Real.sqrt (meanPower Y k) := h2
  have hs : ∀ f j, ‖divRows (psi floor Y) Y f k j‖ ^ 2 = ‖Y f k j‖ ^ 2 / meanPower Y k := fun f j => by
    simp only [divRows, of_apply, norm_div, div_pow, Complex.norm_real, Real.norm_eq_abs, sq_abs, e, Real.sq_sqrt h1.le]
  rw [meanPower]
  simp only [hs, ← Finset.sum_div]
  rw [div_right_comm]
  exact div_self h1.ne'

/-- C40: after an iteration with power normalisation every estimated source has mean power one (IP1, IP2). -/
theorem C40_power_one (np : Numpy ℂ) (src : Source) (p : ℝ) (alg : FilterAlg n) (floor : ℝ → ℝ) (X : Spec F n t)
    (s s' : St F n t K) (h : updateOnce np src p alg .power floor X s = .ok s')
    (hfl : ∀ s2, updateSpatial np src alg floor X (updateSource src floor X s) = .ok s2 →
      PowerOk floor (separate X s2.W)) (k : Fin n) : meanPower (separate X s'.W) k = 1 := by
  obtain ⟨s2, h2, h3⟩ := bind_ok h
  cases h3
  rw [separate_divRows]
  exact meanPower_divRows (hfl s2 h2) k

/-- C40: the same with partitioning. -/
theorem C40_power_one_partitioned (np : Numpy ℂ) (src : Source) (p : ℝ) (alg : FilterAlg n) (floor : ℝ → ℝ)
    (X : Spec F n t) (s s' : StP F n t K) (h : updateOnceP np src p alg .power floor X s = .ok s')
    (hfl : ∀ s2, updateSpatialP np src alg floor X (updateSourceP src floor X s) = .ok s2 →
      PowerOk floor (separate X s2.W)) (k : Fin n) : meanPower (separate X s'.W) k = 1 := by
  obtain ⟨s2, h2, h3⟩ := bind_ok h
  cases h3
  change meanPower (separate X (divRows _ s2.W)) k = 1
  rw [separate_divRows]
  exact meanPower_divRows (hfl s2 h2) k

/-- C40: the same with ISS1 and ISS2. -/
theorem C40_power_one_iss (np : Numpy ℂ) (src : Source) (p : ℝ) (alg : SignalAlg n) (floor : ℝ → ℝ) (X : Spec F n t)
    (s s' : StY F n t K) (h : updateOnceY np src p alg .power floor X s = .ok s')
    (hfl : ∀ s2 : StY F n t K, updateSpatialY np src alg floor (updateSourceY src floor s) = .ok s2 →
      PowerOk floor s2.Y) (k : Fin n) : meanPower s'.Y k = 1 := by
  obtain ⟨s2, h2, h3⟩ := bind_ok h
  cases h3
  exact meanPower_divRows (hfl s2 h2) k

/-- C40: the same with ISS1 and ISS2 and partitioning. -/
theorem C40_power_one_iss_partitioned (np : Numpy ℂ) (src : Source) (p : ℝ) (alg : SignalAlg n) (floor : ℝ → ℝ)
    (s s' : StYP F n t K) (h : updateOnceYP np src p alg .power floor s = .ok s')
    (hfl : ∀ s2 : StYP F n t K, updateSpatialYP np src alg floor (updateSourceYP src floor s) = .ok s2 →
      PowerOk floor s2.Y) (k : Fin n) : meanPower s'.Y k = 1 := by
  obtain ⟨s2, h2, h3⟩ := bind_ok h
  cases h3
  exact meanPower_divRows (hfl s2 h2) k

/-- C40: the same with IPA. -/
theorem C40_power_one_ipa (np : Numpy ℂ) (src : Source) (p : ℝ) (lqpqm_normalization : Bool) (newton_iter : ℕ)
    (floor : ℝ → ℝ) (X : Spec F (n + 2) t) (s s' : StY F (n + 2) t K)
    (h : updateOnceIpa np src p lqpqm_normalization newton_iter .power floor X s = .ok s')
    (hfl : ∀ s2 : StY F (n + 2) t K,
      updateSpatialIpa np src lqpqm_normalization newton_iter floor (updateSourceY src floor s) = .ok s2 →
      PowerOk floor s2.Y) (k : Fin (n + 2)) : meanPower s'.Y k = 1 := by
  obtain ⟨s2, h2, h3⟩ := bind_ok h
  cases h3
  exact meanPower_divRows (hfl s2 h2) k

/-- C40: the same with IPA and partitioning. -/
theorem C40_power_one_ipa_partitioned (np : Numpy ℂ) (src : Source) (p : ℝ) (lqpqm_normalization : Bool)
    (newton_iter : ℕ) (floor : ℝ → ℝ) (s s' : StYP F (n + 2) t K)
    (h : updateOnceIpaP np src p lqpqm_normalization newton_iter .power floor s = .ok s')
    (hfl : ∀ s2 : StYP F (n + 2) t K,
      updateSpatialIpaP np src lqpqm_normalization newton_iter floor (updateSourceYP src floor s) = .ok s2 →
      PowerOk floor s2.Y) (k : Fin (n + 2)) : meanPower s'.Y k = 1 := by
  obtain ⟨s2, h2, h3⟩ := bind_ok h
  cases h3
  exact meanPower_divRows (hfl s2 h2) k

/-! ### Projection back -/

theorem npInvB_ok {W : F → Mat n ℂ} {S : F → Mat n ℂ} (h : npInvB W = .ok S) (f : F) :
    S f * W f = 1 ∧ W f * S f = 1 := by
  have hu : ∀ f, IsUnit (W f).det := by
    by_contra hc
    rw [npInvB, if_neg hc] at h
    exact absurd h (by simp)
  rw [npInvB, if_pos hu] at h
  rw [← Except.ok.inj h]
  exact ⟨nonsing_inv_mul _ (hu f), mul_nonsing_inv _ (hu f)⟩

theorem sum_mulRows (c : F → Mat n ℂ) (r : Fin n) (Y : Spec F n t) (f : F) (j : Fin t) :
    ∑ k, mulRows (fun f k => c f r k) Y f k j = (c f * Y f) r j := by
  simp only [mulRows, of_apply, Matrix.mul_apply, mul_comm]

/-- C40: after an iteration with projection-back normalisation the estimated sources of every bin add up to the
reference channel (IP1, IP2). -/
theorem C40_projection_back_sum (np : Numpy ℂ) (src : Source) (p : ℝ) (alg : FilterAlg n) (r : Fin n)
    (floor : ℝ → ℝ) (X : Spec F n t) (s s' : St F n t K)
    (h : updateOnce np src p alg (.projectionBack r) floor X s = .ok s') (f : F) (j : Fin t) :
    ∑ k, separate X s'.W f k j = X f r j := by
  obtain ⟨s2, h2, h3⟩ := bind_ok h
  obtain ⟨S, h4, h5⟩ := bind_ok h3
  cases h5
  rw [separate_mulRows, sum_mulRows, separate, ← Matrix.mul_assoc, (npInvB_ok h4 f).1, Matrix.one_mul]

theorem projection_sum {X Y : Spec F n t} {S : F → Mat n ℂ} (h : npInvB (fun f => Y f * (Y f)ᴴ) = .ok S)
    (hA : ∀ f, ∃ A : Mat n ℂ, X f = A * Y f) (r : Fin n) (f : F) (j : Fin t) :
    ∑ k, mulRows (fun f k => (X f * (Y f)ᴴ * S f) r k) Y f k j = X f r j := by
  obtain ⟨A, e⟩ := hA f
  rw [sum_mulRows (fun f => X f * (Y f)ᴴ * S f), e, Matrix.mul_assoc A, Matrix.mul_assoc A, (npInvB_ok h f).2,
    Matrix.mul_one]

/-- C40: the same with ISS1 and ISS2, as long as the mixture can be recovered from the signals that the spatial
update returns. -/
theorem C40_projection_back_sum_iss (np : Numpy ℂ) (src : Source) (p : ℝ) (alg : SignalAlg n) (r : Fin n)
    (floor : ℝ → ℝ) (X : Spec F n t) (s s' : StY F n t K)
    (h : updateOnceY np src p alg (.projectionBack r) floor X s = .ok s')
    (hA : ∀ s2 : StY F n t K, updateSpatialY np src alg floor (updateSourceY src floor s) = .ok s2 →
      ∀ f, ∃ A : Mat n ℂ, X f = A * s2.Y f) (f : F) (j : Fin t) : ∑ k, s'.Y f k j = X f r j := by
  obtain ⟨s2, h2, h3⟩ := bind_ok h
  obtain ⟨S, h4, h5⟩ := bind_ok h3
  cases h5
  exact projection_sum h4 (hA s2 h2) r f j

/-- C40: the same with IPA. -/
theorem C40_projection_back_sum_ipa (np : Numpy ℂ) (src : Source) (p : ℝ) (lqpqm_normalization : Bool)
    (newton_iter : ℕ) (r : Fin (n + 2)) (floor : ℝ → ℝ) (X : Spec F (n + 2) t) (s s' : StY F (n + 2) t K)
    (h : updateOnceIpa np src p lqpqm_normalization newton_iter (.projectionBack r) floor X s = .ok s')
    (hA : ∀ s2 : StY F (n + 2) t K,
      updateSpatialIpa np src lqpqm_normalization newton_iter floor (updateSourceY src floor s) = .ok s2 →
      ∀ f, ∃ A : Mat (n + 2) ℂ, X f = A * s2.Y f) (f : F) (j : Fin t) : ∑ k, s'.Y f k j = X f r j := by
  obtain ⟨s2, h2, h3⟩ := bind_ok h
  obtain ⟨S, h4, h5⟩ := bind_ok h3
  cases h5
  exact projection_sum h4 (hA s2 h2) r f j

/-! ### The hypotheses can be met -/

theorem row_ne_zero {m : ℕ} {Y : Matrix (Fin m) (Fin t) ℂ} (hY : LinearIndependent ℂ Y.row) (k : Fin m) :
    ∃ j, Y k j ≠ 0 := by
  by_contra h
  push Not at h
  exact hY.ne_zero k (funext h)

theorem psi_pos {Y : Spec F n t} (hY : ∀ f, LinearIndependent ℂ (Y f).row) [Nonempty F] (k : Fin n) :
    0 < psi id Y k := by
  obtain ⟨f⟩ := ‹Nonempty F›
  obtain ⟨j, hj⟩ := row_ne_zero (hY f) k
  have ht : 0 < t := j.pos
  refine Real.sqrt_pos.2 (div_pos ?_ ?_)
  · exact Finset.sum_pos' (fun f _ => Finset.sum_nonneg fun j _ => sq_nonneg _)
      ⟨f, Finset.mem_univ f, Finset.sum_pos' (fun j _ => sq_nonneg _) ⟨j, Finset.mem_univ j, pow_pos (norm_pos_iff.2 hj) 2⟩⟩
  · have : 0 < Fintype.card F := Fintype.card_pos_iff.2 ⟨f⟩
    positivity

/-- Without flooring the hypothesis holds as soon as the separated signals of some bin are linearly independent. -/
theorem powerOk_id {Y : Spec F n t} (hY : ∀ f, LinearIndependent ℂ (Y f).row) [Nonempty F] : PowerOk id Y :=
  fun k => ⟨Real.sqrt_pos.1 (psi_pos hY k), rfl⟩

/-- Two sources, two frames, one bin, two bases, IP1 with either normalisation: the iteration succeeds and the
theorems apply to its result. -/
example (np : Numpy ℂ) : ∃ (X : Spec Unit 2 2) (s : St Unit 2 2 2),
    (∃ s', updateOnce np (gauss 2) 2 .ip1 .power id X s = .ok s' ∧ ∀ k, meanPower (separate X s'.W) k = 1) ∧
    ∃ s', updateOnce np (gauss 2) 2 .ip1 (.projectionBack 1) id X s = .ok s' ∧
      ∀ f j, ∑ k, separate X s'.W f k j = X f 1 j := by
  obtain ⟨X, hXd⟩ : ∃ X : Spec Unit 2 2, X = fun _ => !![1, 2; 2, 1] := ⟨_, rfl⟩
  obtain ⟨s, hsd⟩ : ∃ s : St Unit 2 2 2, s = ⟨1, fun k _ b => k + b + 1, fun k b j => k + 2 * b + j + 1⟩ := ⟨_, rfl⟩
  have hX : ∀ f, LinearIndependent ℂ (X f).row := fun f => by
    rw [hXd]
    refine (linearIndependent_rows_iff_isUnit).mpr ?_
    rw [isUnit_iff_isUnit_det, det_fin_two, isUnit_iff_ne_zero]
    norm_num
  have hT : ∀ k f b, 0 < s.T k f b := fun k f b => by rw [hsd]; positivity
  have hV : ∀ k b j, 0 < s.V k b j := fun k b j => by rw [hsd]; positivity
  have hW : s.W = 1 := by rw [hsd]
  have hy : ∀ f k j, 0 < ‖separate X s.W f k j‖ := fun f k j => by
    rw [hW, hXd]
    fin_cases k <;> fin_cases j <;> simp [separate]
  have hnum : ∀ y r : ℝ, 0 < y → 0 < r → 0 < (gauss 2).num y r := fun y r h1 h2 =>
    div_pos (pow_pos h1 2) (Real.rpow_pos_of_pos h2 _)
  have hR := recon_pos hT hV
  have hB : ∀ k f b, 0 < basisRaw (gauss 2) (separate X s.W) s.T s.V k f b := fun k f b =>
    mul_pos (Real.rpow_pos_of_pos (div_pos
      (Finset.sum_pos (fun j _ => mul_pos (hV k b j) (hnum _ _ (hy f k j) (hR k f j))) Finset.univ_nonempty)
      (Finset.sum_pos (fun j _ => div_pos (hV k b j) (hR k f j)) Finset.univ_nonempty)) _) (hT k f b)
  have hR' := recon_pos (T := updateBasis (gauss 2) id (separate X s.W) s.T s.V) hB hV
  have hA : ∀ k b j, 0 < activationRaw (gauss 2) (separate X s.W)
      (updateBasis (gauss 2) id (separate X s.W) s.T s.V) s.V k b j := fun k b j =>
    mul_pos (Real.rpow_pos_of_pos (div_pos
      (Finset.sum_pos (fun f _ => mul_pos (hB k f b) (hnum _ _ (hy f k j) (hR' k f j))) Finset.univ_nonempty)
      (Finset.sum_pos (fun f _ => div_pos (hB k f b) (hR' k f j)) Finset.univ_nonempty)) _) (hV k b j)
  obtain ⟨s2, e1, e2, -⟩ := updateSpatial_step np (ok := fun _ => True) (floor := id)
    (fun _ _ _ _ hr => gauss_spatialOk id hr) .ip1 trivial X hX (updateSource (gauss 2) id X s)
    ⟨fun _ => by change IsUnit (s.W _).det; simp [hW], hB, hA⟩ (fun _ _ _ => trivial) (fun _ _ => rfl)
  refine ⟨X, s, ?_, ?_⟩
  · have e : ∃ s', updateOnce np (gauss 2) 2 .ip1 .power id X s = .ok s' := by
      rw [updateOnce]
      change ∃ s', (updateSpatial np (gauss 2) .ip1 id X (updateSource (gauss 2) id X s)).bind _ = .ok s'
      rw [e1]
      exact ⟨_, rfl⟩
    obtain ⟨s', hs'⟩ := e
    refine ⟨s', hs', C40_power_one np _ _ _ _ X s s' hs' fun s3 h3 => powerOk_id fun f => ?_⟩
    rw [e1] at h3
    cases h3
    exact row_independent (e2.1 f) (hX f)
  · have e : ∃ s', updateOnce np (gauss 2) 2 .ip1 (.projectionBack 1) id X s = .ok s' := by
      simp only [updateOnce, e1, bind, Except.bind, normalize, npInvB, if_pos e2.1]
      exact ⟨_, rfl⟩
    obtain ⟨s', hs'⟩ := e
    exact ⟨s', hs', C40_projection_back_sum np _ _ _ _ _ X s s' hs'⟩

end Verif.Ilrma
