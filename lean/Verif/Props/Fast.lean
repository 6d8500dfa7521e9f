import Mathlib.Tactic.FinCases
import Mathlib.Tactic.NormNum.Ineq
import Mathlib.Tactic.FieldSimp
import Verif.Model.Fast
import Verif.Model.Lifecycle
import Verif.Model.Run
import Verif.Props.Transform

/-! # C47: FastICA, FastIVA and FasterIVA keep their filters unitary -/

set_option linter.unusedSectionVars false

namespace Verif.Fast

open Matrix Spatial Scale
open scoped ComplexOrder

variable {n t : ℕ}

/-- An invariant indexed by the number of loop iterations done. -/
theorem foldlM_finRange {α : Type} (g : α → Fin n → Except PyErr α) (Inv : ℕ → α → Prop)
    (hstep : ∀ (k : Fin n) a a', Inv k a → g a k = .ok a' → Inv (k + 1) a') (a a' : α) (h0 : Inv 0 a)
    (h : (List.finRange n).foldlM g a = .ok a') : Inv n a' := by
  have key : ∀ m k, k + m = n → ∀ a, Inv k a → ((List.finRange n).drop k).foldlM g a = .ok a' → Inv n a' := by
    intro m
    induction m with
    | zero =>
      intro k hk a ha h
      have hk : k = n := by omega
      subst hk
      rw [List.drop_of_length_le (by simp)] at h
      cases h
      exact ha
    | succ m ih =>
      intro k hk a ha h
      have hlt : k < n := by omega
      rw [List.drop_eq_getElem_cons (by simpa using hlt), List.foldlM_cons] at h
      cases hg : g a ((List.finRange n)[k]'(by simpa using hlt)) with
      | error e => rw [hg] at h; simp [bind, Except.bind] at h
      | ok b =>
        rw [hg] at h
        exact ih (k + 1) (by omega) b (hstep ⟨k, hlt⟩ a b ha (by simpa using hg)) h
  exact key n 0 (by omega) a h0 (by simpa using h)

/-- The first `k` rows are orthonormal. -/
def Ortho (k : ℕ) (W : Mat n ℝ) : Prop :=
  ∀ i j : Fin n, (i : ℕ) < k → (j : ℕ) < k → ∑ c, W i c * W j c = if i = j then 1 else 0

theorem deflate_orth (W : Mat n ℝ) (src : Fin n) (hW : Ortho src W) (w : Fin n → ℝ) (j : Fin n) (hj : j < src) :
    ∑ c, W j c * deflate W src w c = 0 := by
  simp only [deflate, mul_sub, Finset.sum_sub_distrib, Finset.mul_sum]
  rw [Finset.sum_comm]
  have : ∀ k ∈ Finset.univ.filter (· < src), ∑ c, W j c * ((∑ b, W k b * w b) * W k c)
      = if j = k then ∑ b, W k b * w b else 0 := by
    intro k hk
    have hk : k < src := by simpa using hk
    have := hW j k hj hk
    calc _ = (∑ b, W k b * w b) * ∑ c, W j c * W k c := by
          rw [Finset.mul_sum]; exact Finset.sum_congr rfl fun c _ => by ring
      _ = _ := by rw [this]; split <;> simp
  rw [Finset.sum_congr rfl this, Finset.sum_ite_eq]
  simp [hj]

theorem norm2_sq (w : Fin n → ℝ) : norm2 w * norm2 w = ∑ c, w c * w c := by
  rw [norm2, Real.mul_self_sqrt (Finset.sum_nonneg fun c _ => sq_nonneg _)]
  exact Finset.sum_congr rfl fun c _ => sq _

private theorem icaRow_ortho (score d_score : (Fin t → ℝ) → Fin t → ℝ) (Z : Matrix (Fin n) (Fin t) ℝ)
    (src : Fin n) (W W' : Mat n ℝ) (hW : Ortho src W) (h : icaRow score d_score Z W src = .ok W') :
    Ortho (src + 1) W' := by
  simp only [icaRow] at h
  split at h
  · cases h
  rename_i hne
  have h := (Except.ok.inj h).symm
  subst h
  set w := deflate W src (icaDirection score d_score Z (W src)) with hw
  have orth : ∀ j, j < src → ∑ c, W j c * w c = 0 := deflate_orth W src hW _
  have row : ∀ j, j < src → ∀ c, (W.updateRow src fun c => w c / norm2 w) j c = W j c := fun j hj c => by
    rw [updateRow_ne hj.ne]
  have self : ∀ c, (W.updateRow src fun c => w c / norm2 w) src c = w c / norm2 w := fun c => by
    rw [updateRow_self]
  intro i j hi hj
  rcases lt_or_eq_of_le (Nat.lt_succ_iff.mp hi) with hi' | hi' <;>
    rcases lt_or_eq_of_le (Nat.lt_succ_iff.mp hj) with hj' | hj'
  · simp only [row i hi', row j hj']
    exact hW i j hi' hj'
  · have hj' : j = src := Fin.ext hj'
    subst hj'
    simp only [row i hi', self]
    rw [if_neg (fun h => by subst h; exact lt_irrefl _ hi')]
    have := orth i hi'
    calc _ = (∑ c, W i c * w c) / norm2 w := by
          rw [Finset.sum_div]; exact Finset.sum_congr rfl fun c _ => by ring
      _ = 0 := by rw [this, zero_div]
  · have hi' : i = src := Fin.ext hi'
    subst hi'
    simp only [row j hj', self]
    rw [if_neg (fun h => by subst h; exact lt_irrefl _ hj')]
    have := orth j hj'
    calc _ = (∑ c, W j c * w c) / norm2 w := by
          rw [Finset.sum_div]; exact Finset.sum_congr rfl fun c _ => by ring
      _ = 0 := by rw [this, zero_div]
  · have hi' : i = src := Fin.ext hi'
    have hj' : j = src := Fin.ext hj'
    subst hi'; subst hj'
    simp only [self, if_true]
    calc _ = (∑ c, w c * w c) / (norm2 w * norm2 w) := by
          rw [Finset.sum_div]; exact Finset.sum_congr rfl fun c _ => by ring
      _ = 1 := by rw [← norm2_sq, div_self (mul_ne_zero hne hne)]

/-- C47 for FastICA: whatever the filter was before, after an update that does not divide by zero its rows are
orthonormal. -/
theorem C47_fastica (score d_score : (Fin t → ℝ) → Fin t → ℝ) (Z : Matrix (Fin n) (Fin t) ℝ) (W W' : Mat n ℝ)
    (h : icaStep score d_score Z W = .ok W') : W' * W'ᵀ = 1 := by
  have := foldlM_finRange (icaRow score d_score Z) Ortho (fun k a a' => icaRow_ortho score d_score Z k a a') W W'
    (fun i j hi => absurd hi (Nat.not_lt_zero _)) h
  ext i j
  rw [mul_apply, one_apply]
  exact this i j i.2 j.2

/-- The filter after `n_iter` updates. -/
def iterM {σ : Type} (step : σ → Except PyErr σ) : ℕ → σ → Except PyErr σ
  | 0, s => .ok s
  | k + 1, s => do
    let s' ← iterM step k s
    step s'

private theorem iterM_last {σ : Type} {step : σ → Except PyErr σ} {k : ℕ} {s s' : σ} (h : iterM step (k + 1) s = .ok s') :
    ∃ a, step a = .ok s' := by
  simp only [iterM] at h
  cases ha : iterM step k s with
  | error e => rw [ha] at h; simp [bind, Except.bind] at h
  | ok a => rw [ha] at h; exact ⟨a, h⟩

theorem sampleCov_unitary {𝕜 : Type} [RCLike 𝕜] (W : Mat n 𝕜) (Z : Transform.Data n t 𝕜)
    (hW : W * Wᴴ = 1) (hZ : Transform.sampleCov Z = 1) : Transform.sampleCov (W * Z) = 1 := by
  have : Transform.sampleCov (W * Z) = W * Transform.sampleCov Z * Wᴴ := by
    simp only [Transform.sampleCov, conjTranspose_mul, Matrix.mul_smul, Matrix.smul_mul, Matrix.mul_assoc]
  rw [this, hZ, Matrix.mul_one, hW]

/-- C47 for FastICA, all iterations: after at least one update the filter is orthonormal and the separated signals
have zero correlation and unit power, whatever the initial filter and the score functions. -/
theorem C47_fastica_run (np : Numpy ℝ) (score d_score : (Fin t → ℝ) → Fin t → ℝ) (X : Transform.Data n t ℝ)
    (hX : (Transform.sampleCov X).PosDef) (W W' : Mat n ℝ) (n_iter : ℕ)
    (h : iterM (icaStep score d_score (Transform.whitenCore np X)) (n_iter + 1) W = .ok W') :
    W' * W'ᵀ = 1 ∧ W'ᵀ * W' = 1 ∧ Transform.sampleCov (W' * Transform.whitenCore np X) = 1 := by
  obtain ⟨a, ha⟩ := iterM_last h
  have h1 := C47_fastica score d_score _ a W' ha
  refine ⟨h1, mul_eq_one_comm.mp h1, ?_⟩
  have hZ := Transform.C20_identity_covariance (B := Unit) np 2 false (fun _ => X)
    (fun _ => Transform.whitenCore np X) (fun _ => hX) rfl ()
  exact sampleCov_unitary W' _ (by rwa [conjTranspose_eq_transpose_of_trivial]) hZ

/-- The result of the orthonormalisation is unitary. -/
theorem C47_polar_unitary (np : Numpy ℂ) (W : Mat n ℂ) : polar np W * (polar np W)ᴴ = 1 ∧ (polar np W)ᴴ * polar np W = 1 := by
  have hs := np.svd_spec W
  have hU := mul_eq_one_comm.mp hs.unitaryU
  have h : polar np W * (polar np W)ᴴ = 1 := by
    rw [polar, conjTranspose_mul, Matrix.mul_assoc, ← Matrix.mul_assoc (np.svd W).2.2, hs.unitaryV, Matrix.one_mul, hU]
  exact ⟨h, mul_eq_one_comm.mp h⟩

/-- The orthonormalisation is the documented `(W W^H)^{-1/2} W`: with the positive semidefinite square root `S` of
`W W^H`, `W = S * polar W`; if `W` is invertible this determines the result. -/
theorem C47_polar_eq (np : Numpy ℂ) (W : Mat n ℂ) :
    ∃ S : Mat n ℂ, S.PosSemidef ∧ S * S = W * Wᴴ ∧ W = S * polar np W ∧ (IsUnit W.det → polar np W = S⁻¹ * W) := by
  have hs := np.svd_spec W
  set U := (np.svd W).1
  set s := (np.svd W).2.1
  set V := (np.svd W).2.2
  have hp : polar np W = U * V := rfl
  have hdec : W = U * diagonal (fun i => (s i : ℂ)) * V := hs.decomp
  have hUU : Uᴴ * U = 1 := hs.unitaryU
  have hVV : V * Vᴴ = 1 := hs.unitaryV
  have e : star (fun i => ((s i : ℝ) : ℂ)) = fun i => ((s i : ℝ) : ℂ) := by
    ext i; simp
  have hW : W = U * diagonal (fun i => (s i : ℂ)) * Uᴴ * (U * V) := by
    conv_lhs => rw [hdec]
    rw [Matrix.mul_assoc _ Uᴴ, ← Matrix.mul_assoc Uᴴ U V, hUU, Matrix.one_mul]
  refine ⟨U * diagonal (fun i => (s i : ℂ)) * Uᴴ, ?_, ?_, by rw [hp]; exact hW, fun hdet => ?_⟩
  · exact (PosSemidef.diagonal fun i => by simpa using hs.nonneg i).mul_mul_conjTranspose_same U
  · have e2 : diagonal (fun i => (s i : ℂ)) * diagonal (fun i => (s i : ℂ))
        = diagonal (fun i => (s i : ℂ)) * (V * Vᴴ) * diagonal (fun i => (s i : ℂ)) := by
      rw [hVV, Matrix.mul_one]
    have lhs : U * diagonal (fun i => (s i : ℂ)) * Uᴴ * (U * diagonal (fun i => (s i : ℂ)) * Uᴴ)
        = U * (diagonal (fun i => (s i : ℂ)) * diagonal (fun i => (s i : ℂ))) * Uᴴ := by
      calc _ = U * diagonal (fun i => (s i : ℂ)) * (Uᴴ * U) * diagonal (fun i => (s i : ℂ)) * Uᴴ := by
            simp only [Matrix.mul_assoc]
        _ = _ := by rw [hUU, Matrix.mul_one]; simp only [Matrix.mul_assoc]
    rw [lhs, e2]
    conv_rhs => rw [hdec]
    rw [conjTranspose_mul, conjTranspose_mul, diagonal_conjTranspose, e]
    simp only [Matrix.mul_assoc]
  · rw [hp]
    have hdet' : IsUnit (U * diagonal (fun i => (s i : ℂ)) * Uᴴ).det := by
      rw [hW, det_mul] at hdet
      exact isUnit_of_mul_isUnit_left hdet
    conv_rhs => rw [hW]
    rw [← Matrix.mul_assoc, nonsing_inv_mul _ hdet', Matrix.one_mul]

variable {F : Type} [Fintype F]

/-- C47 for FastIVA: after every update the filter of every bin is unitary. -/
theorem C47_fastiva (np : Numpy ℂ) (floor d dd : ℝ → ℝ) (Z : Spec F n t) (W : F → Mat n ℂ) (f : F) :
    fastIvaStep np floor d dd Z W f * (fastIvaStep np floor d dd Z W f)ᴴ = 1 ∧
    (fastIvaStep np floor d dd Z W f)ᴴ * fastIvaStep np floor d dd Z W f = 1 :=
  C47_polar_unitary np _

/-- C47 for FasterIVA. -/
theorem C47_fasteriva (np : Numpy ℂ) (floor d : ℝ → ℝ) (Z : Spec F (n + 1) t) (W : F → Mat (n + 1) ℂ) (f : F) :
    fasterIvaStep np floor d Z W f * (fasterIvaStep np floor d Z W f)ᴴ = 1 ∧
    (fasterIvaStep np floor d Z W f)ᴴ * fasterIvaStep np floor d Z W f = 1 :=
  C47_polar_unitary np _

/-- C47, the output: with `scale_restoration=False` the separated signals returned by FastIVA after at least one
update have identity sample covariance in every bin. -/
theorem C47_fastiva_output (np : Numpy ℂ) (floor d dd : ℝ → ℝ) (r : Fin n) (X : Spec F n t)
    (hX : ∀ f, (Transform.sampleCov (X f)).PosDef) (W W' : F → Mat n ℂ) (Y : Spec F n t) (n_iter : ℕ)
    (h : Lifecycle.finishFast np (.bool false) r X
      ((fastIvaStep np floor d dd (Lifecycle.whitened np X))^[n_iter + 1] W) = .ok (Y, W')) (f : F) :
    W' f * (W' f)ᴴ = 1 ∧ Transform.sampleCov (Y f) = 1 := by
  have hZ := Transform.C20_identity_covariance (B := F) np 3 true X (Lifecycle.whitened np X) hX rfl f
  simp only [Lifecycle.finishFast, Lifecycle.ScaleOpt.truthy, bind, Except.bind, Bool.false_eq_true, if_false] at h
  obtain ⟨rfl, rfl⟩ := Prod.mk.inj (Except.ok.inj h)
  rw [Function.iterate_succ', Function.comp]
  have hu := (C47_fastiva np floor d dd (Lifecycle.whitened np X)
    ((fastIvaStep np floor d dd (Lifecycle.whitened np X))^[n_iter] W) f).1
  exact ⟨hu, sampleCov_unitary _ _ hu hZ⟩

/-- C47, the output of FasterIVA. -/
theorem C47_fasteriva_output (np : Numpy ℂ) (floor d : ℝ → ℝ) (r : Fin (n + 1)) (X : Spec F (n + 1) t)
    (hX : ∀ f, (Transform.sampleCov (X f)).PosDef) (W W' : F → Mat (n + 1) ℂ) (Y : Spec F (n + 1) t) (n_iter : ℕ)
    (h : Lifecycle.finishFast np (.bool false) r X
      ((fasterIvaStep np floor d (Lifecycle.whitened np X))^[n_iter + 1] W) = .ok (Y, W')) (f : F) :
    W' f * (W' f)ᴴ = 1 ∧ Transform.sampleCov (Y f) = 1 := by
  have hZ := Transform.C20_identity_covariance (B := F) np 3 true X (Lifecycle.whitened np X) hX rfl f
  simp only [Lifecycle.finishFast, Lifecycle.ScaleOpt.truthy, bind, Except.bind, Bool.false_eq_true, if_false] at h
  obtain ⟨rfl, rfl⟩ := Prod.mk.inj (Except.ok.inj h)
  rw [Function.iterate_succ', Function.comp]
  have hu := (C47_fasteriva np floor d (Lifecycle.whitened np X)
    ((fasterIvaStep np floor d (Lifecycle.whitened np X))^[n_iter] W) f).1
  exact ⟨hu, sampleCov_unitary _ _ hu hZ⟩

/-- A FastICA update on non-trivial data does not divide by zero: the hypothesis of `C47_fastica` can be met. -/
example : ∃ W', icaStep (fun y s => y s ^ 3) (fun y s => 3 * y s ^ 2)
    (!![1, 0; 0, 1] : Matrix (Fin 2) (Fin 2) ℝ) !![1, 0; 0, 1] = .ok W' := by
  have h0 : ∀ w : Fin 2 → ℝ, w ≠ 0 → norm2 w ≠ 0 := by
    intro w hw h
    have := norm2_sq w
    rw [h, mul_zero, Fin.sum_univ_two] at this
    apply hw
    have a := mul_self_nonneg (w 0)
    have b := mul_self_nonneg (w 1)
    have e0 : w 0 = 0 := mul_self_eq_zero.mp (by linarith)
    have e1 : w 1 = 0 := mul_self_eq_zero.mp (by linarith)
    funext i
    fin_cases i
    · exact e0
    · exact e1
  rw [icaStep, show List.finRange 2 = [0, 1] from rfl]
  simp only [List.foldlM_cons, List.foldlM_nil]
  obtain ⟨W1, e1, hr⟩ : ∃ W1 : Mat 2 ℝ, icaRow (fun y s => y s ^ 3) (fun y s => 3 * y s ^ 2)
      (!![1, 0; 0, 1] : Matrix (Fin 2) (Fin 2) ℝ) !![1, 0; 0, 1] 0 = .ok W1 ∧ W1 1 = ![0, 1] ∧ W1 0 1 = 0 := by
    refine ⟨_, by rw [icaRow, if_neg]; apply h0; intro h; have := congrFun h 0; simp [deflate, icaDirection, project, meanT] at this; norm_num at this, ?_, ?_⟩
    · rw [updateRow_ne (by decide)]; ext i; fin_cases i <;> simp
    · rw [updateRow_self]; simp [deflate, icaDirection, project, meanT]
  obtain ⟨W2, e2⟩ : ∃ W2 : Mat 2 ℝ, icaRow (fun y s => y s ^ 3) (fun y s => 3 * y s ^ 2)
      (!![1, 0; 0, 1] : Matrix (Fin 2) (Fin 2) ℝ) W1 1 = .ok W2 := by
    refine ⟨_, by rw [icaRow, if_neg]; apply h0; intro h; have := congrFun h 1; simp [deflate, icaDirection, project, meanT, hr.1, Finset.filter_eq', hr.2] at this; norm_num at this⟩
  exact ⟨W2, by rw [e1]; simp only [bind, Except.bind, e2]; rfl⟩

end Verif.Fast
