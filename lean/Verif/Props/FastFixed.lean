import Verif.Props.Fast
import Verif.Props.Grad

/-! # C74: what FastICA and FastIVA converge to -/

set_option linter.unusedSectionVars false

namespace Verif.Fast

open Matrix Spatial Scale
open scoped ComplexOrder

variable {n t : ℕ}

/-! ## FastICA -/

private theorem deflate_congr (W W' : Mat n ℝ) (src : Fin n) (w : Fin n → ℝ)
    (h : ∀ j < src, W' j = W j ∨ W' j = -W j) : deflate W' src w = deflate W src w := by
  funext c
  simp only [deflate]
  congr 1
  refine Finset.sum_congr rfl fun k hk => ?_
  rcases h k (by simpa using hk) with e | e <;> rw [e]
  simp [Finset.sum_neg_distrib]

/-- What a complete FastICA update computes: row `k` is the normalised deflated direction, deflated with the new
rows before it. -/
private theorem icaStep_rows (score d_score : (Fin t → ℝ) → Fin t → ℝ) (Z : Matrix (Fin n) (Fin t) ℝ) (W W' : Mat n ℝ)
    (h : icaStep score d_score Z W = .ok W') (k : Fin n) :
    norm2 (deflate W' k (icaDirection score d_score Z (W k))) ≠ 0 ∧
    ∀ c, W' k c = deflate W' k (icaDirection score d_score Z (W k)) c /
      norm2 (deflate W' k (icaDirection score d_score Z (W k))) := by
  have := foldlM_finRange (icaRow score d_score Z) (fun m A => (∀ j : Fin n, m ≤ j → A j = W j) ∧
    ∀ j : Fin n, (j : ℕ) < m → norm2 (deflate A j (icaDirection score d_score Z (W j))) ≠ 0 ∧
      ∀ c, A j c = deflate A j (icaDirection score d_score Z (W j)) c /
        norm2 (deflate A j (icaDirection score d_score Z (W j)))) ?_ W W' ⟨fun _ _ => rfl, fun j hj => absurd hj (Nat.not_lt_zero _)⟩ h
  · exact this.2 k k.2
  · rintro m A A' ⟨h1, h2⟩ hA
    simp only [icaRow] at hA
    split at hA
    · cases hA
    rename_i hne
    have hA := (Except.ok.inj hA).symm
    subst hA
    have hd : ∀ j : Fin n, (j : ℕ) ≤ m → ∀ w x, deflate (A.updateRow m x) j w = deflate A j w := by
      intro j hj w x
      refine deflate_congr _ _ _ _ fun i hi => Or.inl ?_
      rw [Matrix.updateRow_ne]
      exact fun e => absurd (lt_of_lt_of_le (Fin.lt_def.mp hi) hj) (by rw [e]; exact lt_irrefl _)
    refine ⟨fun j hj => ?_, fun j hj => ?_⟩
    · rw [Matrix.updateRow_ne (by rintro rfl; omega)]
      exact h1 j (by omega)
    · rw [hd j (by omega)]
      rcases Nat.lt_succ_iff_lt_or_eq.mp hj with hj' | hj'
      · rw [Matrix.updateRow_ne (by rintro rfl; omega)]
        exact h2 j hj'
      · have : j = m := Fin.ext hj'
        subst this
        rw [Matrix.updateRow_self, ← h1 j le_rfl]
        exact ⟨hne, fun c => rfl⟩

private theorem deflate_dot (W : Mat n ℝ) (k : Fin n) (w v : Fin n → ℝ) (hv : ∀ j < k, ∑ c, W j c * v c = 0) :
    ∑ c, v c * deflate W k w c = ∑ c, v c * w c := by
  simp only [deflate, mul_sub, Finset.sum_sub_distrib, Finset.mul_sum]
  rw [Finset.sum_comm, sub_eq_self]
  refine Finset.sum_eq_zero fun j hj => ?_
  calc _ = (∑ b, W j b * w b) * ∑ c, W j c * v c := by
        rw [Finset.mul_sum]
        exact Finset.sum_congr rfl fun c _ => by ring
    _ = 0 := by rw [hv j (by simpa using hj), mul_zero]

private theorem mean_project (x : Fin t → ℝ) (Z : Matrix (Fin n) (Fin t) ℝ) (v : Fin n → ℝ) :
    ∑ c, v c * meanT (fun s => x s * Z c s) = (∑ s, x s * project Z v s) / (t : ℝ) := by
  have : ∀ c, v c * meanT (fun s => x s * Z c s) = (∑ s, v c * (x s * Z c s)) / (t : ℝ) := fun c => by
    rw [meanT, ← mul_div_assoc, Finset.mul_sum]
  rw [Finset.sum_congr rfl fun c _ => this c, ← Finset.sum_div, Finset.sum_comm]
  congr 1
  refine Finset.sum_congr rfl fun s _ => ?_
  rw [project, Finset.mul_sum]
  exact Finset.sum_congr rfl fun c _ => by ring

private theorem contrast_deriv (G g : ℝ → ℝ) (Z : Matrix (Fin n) (Fin t) ℝ) (w v : Fin n → ℝ)
    (hG : ∀ s, HasDerivAt G (g (project Z w s)) (project Z w s)) :
    HasDerivAt (fun ε : ℝ => meanT fun s => G (project Z (fun c => w c + ε * v c) s))
      (∑ c, v c * meanT fun s => g (project Z w s) * Z c s) 0 := by
  have hp : ∀ (ε : ℝ) s, project Z (fun c => w c + ε * v c) s = project Z w s + ε * project Z v s := fun ε s => by
    simp only [project, add_mul, Finset.sum_add_distrib, Finset.mul_sum, mul_assoc]
  have h : ∀ s, HasDerivAt (fun ε : ℝ => G (project Z (fun c => w c + ε * v c) s)) (g (project Z w s) * project Z v s) 0 := by
    intro s
    have h1 : HasDerivAt (fun ε : ℝ => project Z w s + ε * project Z v s) (project Z v s) 0 :=
      (((hasDerivAt_id (0 : ℝ)).mul_const (project Z v s)).const_add (project Z w s)).congr_deriv (by simp)
    simp only [hp]
    exact HasDerivAt.comp (0 : ℝ) (by simpa using hG s) h1
  have := (HasDerivAt.fun_sum (u := Finset.univ) fun s _ => h s).div_const (t : ℝ)
  refine this.congr_deriv ?_
  exact (mean_project (fun s => g (project Z w s)) Z v).symm

private theorem fixed_iff (g dg : ℝ → ℝ) (Z : Matrix (Fin n) (Fin t) ℝ) (W W' : Mat n ℝ) (hW : W * Wᵀ = 1)
    (h : icaStep (fun y s => g (y s)) (fun y s => dg (y s)) Z W = .ok W') :
    (∀ k, W' k = W k ∨ W' k = -W k) ↔
    ∀ (k : Fin n) (v : Fin n → ℝ), (∀ j ≤ k, ∑ c, W j c * v c = 0) →
      ∑ c, v c * meanT (fun s => g (project Z (W k) s) * Z c s) = 0 := by
  have hO : ∀ i j, ∑ c, W i c * W j c = if i = j then 1 else 0 := fun i j => by
    have := congrFun (congrFun hW i) j
    rwa [mul_apply, one_apply] at this
  have hdir : ∀ (k : Fin n) (v : Fin n → ℝ), (∑ c, W k c * v c = 0) →
      ∑ c, v c * icaDirection (fun y s => g (y s)) (fun y s => dg (y s)) Z (W k) c = -∑ c, v c * meanT (fun s => g (project Z (W k) s) * Z c s) := by
    intro k v hv
    simp only [icaDirection, mul_sub, Finset.sum_sub_distrib]
    rw [show ∑ c, v c * (meanT (fun s => dg (project Z (W k) s)) * W k c) = 0 by
      calc _ = meanT (fun s => dg (project Z (W k) s)) * ∑ c, W k c * v c := by
            rw [Finset.mul_sum]
            exact Finset.sum_congr rfl fun c _ => by ring
        _ = 0 := by rw [hv, mul_zero]]
    rw [zero_sub]
  have hrows := icaStep_rows _ _ Z W W' h
  constructor
  · intro hfix k v hv
    obtain ⟨hN, hk⟩ := hrows k
    rw [deflate_congr W W' k _ fun j _ => hfix j] at hN hk
    obtain ⟨w, hw⟩ : ∃ w, w = deflate W k (icaDirection (fun y s => g (y s)) (fun y s => dg (y s)) Z (W k)) := ⟨_, rfl⟩
    rw [← hw] at hN hk
    have e1 : ∑ c, v c * w c = 0 := by
      have : ∀ c, w c = norm2 w * W' k c := fun c => by rw [hk c, mul_div_cancel₀ _ hN]
      calc _ = norm2 w * ∑ c, v c * W' k c := by
            rw [Finset.mul_sum]
            exact Finset.sum_congr rfl fun c _ => by rw [this c]; ring
        _ = 0 := by
            have h0 : ∑ c, v c * W k c = 0 := by
              rw [← hv k le_rfl]
              exact Finset.sum_congr rfl fun c _ => mul_comm _ _
            rcases hfix k with e | e
            · rw [e, h0, mul_zero]
            · rw [e]; simp [h0]
    rw [hw, deflate_dot W k _ v fun j hj => hv j hj.le, hdir k v (hv k le_rfl)] at e1
    linarith
  · intro hs
    have key : ∀ (m : ℕ) (k : Fin n), (k : ℕ) = m → W' k = W k ∨ W' k = -W k := by
      intro m
      induction m using Nat.strong_induction_on with
      | _ m ih =>
        intro k hkm
        obtain ⟨hN, hk⟩ := hrows k
        rw [deflate_congr W W' k _ fun j hj => ih j (by rw [← hkm]; exact hj) j rfl] at hN hk
        obtain ⟨w, hw⟩ : ∃ w, w = deflate W k (icaDirection (fun y s => g (y s)) (fun y s => dg (y s)) Z (W k)) := ⟨_, rfl⟩
        rw [← hw] at hN hk
        have horth : ∀ j < k, ∑ c, W j c * w c = 0 := fun j hj => by
          rw [hw]
          exact deflate_orth W k (fun i j _ _ => hO i j) _ j hj
        obtain ⟨α, hα⟩ : ∃ α, α = ∑ c, W k c * w c := ⟨_, rfl⟩
        have hv : ∀ j ≤ k, ∑ c, W j c * (w c - α * W k c) = 0 := by
          intro j hj
          have : ∑ c, W j c * (w c - α * W k c) = ∑ c, W j c * w c - α * ∑ c, W j c * W k c := by
            rw [Finset.mul_sum, ← Finset.sum_sub_distrib]
            exact Finset.sum_congr rfl fun c _ => by ring
          rw [this, hO]
          rcases lt_or_eq_of_le hj with hj | hj
          · rw [horth j hj, if_neg hj.ne]; ring
          · rw [hj, ← hα, if_pos rfl]; ring
        have h0 := hs k _ hv
        have h1 : ∑ c, (w c - α * W k c) * w c = 0 := by
          have := deflate_dot W k (icaDirection (fun y s => g (y s)) (fun y s => dg (y s)) Z (W k)) _ fun j hj => hv j hj.le
          rw [← hw, hdir k _ (hv k le_rfl), h0, neg_zero] at this
          exact this
        have h2 : ∑ c, (w c - α * W k c) * (w c - α * W k c) = 0 := by
          have : ∑ c, (w c - α * W k c) * (w c - α * W k c)
              = ∑ c, (w c - α * W k c) * w c - α * ∑ c, W k c * (w c - α * W k c) := by
            rw [Finset.mul_sum, ← Finset.sum_sub_distrib]
            exact Finset.sum_congr rfl fun c _ => by ring
          rw [this, h1, hv k le_rfl]; ring
        have h3 : ∀ c, w c = α * W k c := fun c => by
          have := (Finset.sum_eq_zero_iff_of_nonneg fun c _ => mul_self_nonneg _).mp h2 c (Finset.mem_univ c)
          linarith [mul_self_eq_zero.mp this]
        have h4 : norm2 w = |α| := by
          rw [norm2, ← Real.sqrt_sq_eq_abs]
          congr 1
          calc _ = α ^ 2 * ∑ c, W k c * W k c := by
                rw [Finset.mul_sum]
                exact Finset.sum_congr rfl fun c _ => by rw [h3 c]; ring
            _ = α ^ 2 := by rw [hO, if_pos rfl, mul_one]
        rw [h4] at hN hk
        have hα0 : α ≠ 0 := abs_ne_zero.mp hN
        rcases lt_or_gt_of_ne hα0 with hneg | hpos
        · right
          funext c
          rw [hk c, h3 c, abs_of_neg hneg, Pi.neg_apply]
          field_simp
        · left
          funext c
          rw [hk c, h3 c, abs_of_pos hpos, mul_div_cancel_left₀ _ hα0]
    exact fun k => key k k rfl

/-- C74 for FastICA. Let the rows of `W` be orthonormal and let the update succeed. The update returns `W` up to the
signs of its rows if and only if for every output `k` the recorded loss is stationary with respect to every change of
filter `k` alone that is orthogonal to the filters of the outputs up to `k`. -/
theorem C74_fastica_fixed_iff (G g dg : ℝ → ℝ) (Z : Matrix (Fin n) (Fin t) ℝ) (W W' : Mat n ℝ) (hW : W * Wᵀ = 1)
    (hG : ∀ k s, HasDerivAt G (g (project Z (W k) s)) (project Z (W k) s))
    (h : icaStep (fun y s => g (y s)) (fun y s => dg (y s)) Z W = .ok W') :
    (∀ k, W' k = W k ∨ W' k = -W k) ↔
    ∀ (k : Fin n) (v : Fin n → ℝ), (∀ j ≤ k, ∑ c, W j c * v c = 0) →
      HasDerivAt (fun ε : ℝ => icaLoss G Z (W.updateRow k fun c => W k c + ε * v c)) 0 0 := by
  rw [fixed_iff g dg Z W W' hW h]
  refine forall_congr' fun k => forall_congr' fun v => imp_congr_right fun _ => ?_
  have hd : HasDerivAt (fun ε : ℝ => icaLoss G Z (W.updateRow k fun c => W k c + ε * v c))
      (∑ c, v c * meanT fun s => g (project Z (W k) s) * Z c s) 0 := by
    have e : ∀ ε : ℝ, icaLoss G Z (W.updateRow k fun c => W k c + ε * v c)
        = (meanT fun s => G (project Z (fun c => W k c + ε * v c) s))
          + ∑ l ∈ Finset.univ.erase k, meanT fun s => G (project Z (W l) s) := fun ε => by
      rw [icaLoss, ← Finset.add_sum_erase _ _ (Finset.mem_univ k)]
      congr 1
      · rw [updateRow_self]
      · exact Finset.sum_congr rfl fun l hl => by rw [updateRow_ne (Finset.ne_of_mem_erase hl)]
    simp only [e]
    exact (contrast_deriv G g Z (W k) v (hG k)).add_const _
  exact ⟨fun h0 => hd.congr_deriv h0, fun h0 => hd.unique h0⟩

/-- C74, FastICA leaves separated signals alone: if the score of every output is uncorrelated with the outputs after
it, an update that succeeds changes nothing but signs. -/
theorem C74_fastica_separated (g dg : ℝ → ℝ) (Z : Matrix (Fin n) (Fin t) ℝ) (W W' : Mat n ℝ) (hW : W * Wᵀ = 1)
    (hsep : ∀ k l : Fin n, k < l → meanT (fun s => g (project Z (W k) s) * project Z (W l) s) = 0)
    (h : icaStep (fun y s => g (y s)) (fun y s => dg (y s)) Z W = .ok W') :
    ∀ k, W' k = W k ∨ W' k = -W k := by
  rw [fixed_iff g dg Z W W' hW h]
  intro k v hv
  have hWT := mul_eq_one_comm.mp hW
  have hvc : ∀ c, v c = ∑ l, (∑ b, W l b * v b) * W l c := fun c => by
    have : ∀ b, ∑ l, W l c * W l b = if c = b then 1 else 0 := fun b => by
      have := congrFun (congrFun hWT c) b
      rwa [mul_apply, one_apply] at this
    simp only [Finset.sum_mul]
    rw [Finset.sum_comm]
    calc v c = ∑ b, (if c = b then 1 else 0) * v b := by simp
      _ = _ := Finset.sum_congr rfl fun b _ => by
          rw [← this b, Finset.sum_mul]
          exact Finset.sum_congr rfl fun l _ => by ring
  have hm : ∀ l, ∑ c, W l c * meanT (fun s => g (project Z (W k) s) * Z c s)
      = meanT (fun s => g (project Z (W k) s) * project Z (W l) s) := fun l =>
    mean_project (fun s => g (project Z (W k) s)) Z (W l)
  calc _ = ∑ l, (∑ b, W l b * v b) * ∑ c, W l c * meanT (fun s => g (project Z (W k) s) * Z c s) := by
        obtain ⟨β, hβ⟩ : ∃ β : Fin n → ℝ, β = fun l => ∑ b, W l b * v b := ⟨_, rfl⟩
        have hvc' : ∀ c, v c = ∑ l, β l * W l c := fun c => by rw [hβ]; exact hvc c
        calc _ = ∑ c, ∑ l, β l * (W l c * meanT (fun s => g (project Z (W k) s) * Z c s)) :=
              Finset.sum_congr rfl fun c _ => by
                rw [hvc' c, Finset.sum_mul]
                exact Finset.sum_congr rfl fun l _ => mul_assoc _ _ _
          _ = _ := by
                rw [Finset.sum_comm]
                exact Finset.sum_congr rfl fun l _ => by rw [Finset.mul_sum, hβ]
    _ = 0 := Finset.sum_eq_zero fun l _ => by
        rcases le_or_gt l k with hl | hl
        · rw [hv l hl, zero_mul]
        · rw [hm l, hsep k l hl, mul_zero]

private theorem cov_apply {𝕜 : Type} [RCLike 𝕜] (Z : Transform.Data n t 𝕜) (hZ : Transform.sampleCov Z = 1) (b c : Fin n) :
    meanT (fun s => Z b s * star (Z c s)) = if b = c then 1 else 0 := by
  have := congrFun (congrFun hZ b) c
  rw [one_apply] at this
  rw [← this, Transform.sampleCov, Matrix.smul_apply, mul_apply, meanT, smul_eq_mul, div_eq_inv_mul]
  rfl

private theorem frames_ne_zero {𝕜 : Type} [RCLike 𝕜] (Z : Transform.Data n t 𝕜) (hZ : Transform.sampleCov Z = 1) (c : Fin n) :
    (t : 𝕜) ≠ 0 := by
  intro h0
  have := cov_apply Z hZ c c
  rw [meanT, h0, div_zero, if_pos rfl] at this
  exact zero_ne_one this

/-- C74: on whitened data FastICA does not see a quadratic term of the contrast function. Adding `a y²/2` to the
contrast, hence `a y` to `score_fn` and `a` to `d_score_fn`, changes no update. -/
theorem C74_fastica_quadratic (g dg : ℝ → ℝ) (a : ℝ) (Z : Matrix (Fin n) (Fin t) ℝ) (hZ : Transform.sampleCov Z = 1)
    (W : Mat n ℝ) :
    icaStep (fun y s => g (y s) + a * y s) (fun y s => dg (y s) + a) Z W
      = icaStep (fun y s => g (y s)) (fun y s => dg (y s)) Z W := by
  have hdir : ∀ w, icaDirection (fun y s => g (y s) + a * y s) (fun y s => dg (y s) + a) Z w
      = icaDirection (fun y s => g (y s)) (fun y s => dg (y s)) Z w := by
    intro w
    funext c
    have ht := frames_ne_zero Z hZ c
    have e1 : meanT (fun s => dg (project Z w s) + a) = meanT (fun s => dg (project Z w s)) + a := by
      simp only [meanT, Finset.sum_add_distrib, Finset.sum_const, Finset.card_univ, Fintype.card_fin, nsmul_eq_mul]
      rw [add_div, mul_div_cancel_left₀ _ ht]
    have e2 : meanT (fun s => (g (project Z w s) + a * project Z w s) * Z c s)
        = meanT (fun s => g (project Z w s) * Z c s) + a * w c := by
      have hc : meanT (fun s => project Z w s * Z c s) = w c := by
        calc _ = ∑ b, w b * meanT (fun s => Z c s * Z b s) := by
              rw [mean_project (fun s => Z c s) Z w, meanT]
              congr 1
              exact Finset.sum_congr rfl fun s _ => mul_comm _ _
          _ = ∑ b, w b * (if c = b then 1 else 0) := Finset.sum_congr rfl fun b _ => by
              rw [← cov_apply Z hZ c b]
              rfl
          _ = w c := by simp
      calc _ = meanT (fun s => g (project Z w s) * Z c s) + a * meanT (fun s => project Z w s * Z c s) := by
            simp only [meanT, ← mul_div_assoc, Finset.mul_sum, ← add_div, ← Finset.sum_add_distrib]
            congr 1
            exact Finset.sum_congr rfl fun s _ => by ring
        _ = _ := by rw [hc]
    simp only [icaDirection]
    rw [e1, e2]
    ring
  simp only [icaStep]
  congr 1
  funext W src
  simp only [icaRow, hdir]

/-! ## FastIVA -/

/-- A positive semidefinite matrix has one positive semidefinite square root. -/
theorem psd_sqrt_unique {A B : Mat n ℂ} (hA : A.PosSemidef) (hB : B.PosSemidef) (h : A * A = B * B) : A = B := by
  obtain ⟨D, hD⟩ : ∃ D, D = A - B := ⟨_, rfl⟩
  have hDH : Dᴴ = D := by rw [hD, conjTranspose_sub, hA.1.eq, hB.1.eq]
  have hAD := hA.mul_mul_conjTranspose_same D
  have hBD := hB.mul_mul_conjTranspose_same D
  rw [hDH] at hAD hBD
  have hsum : (D * A * D).trace + (D * B * D).trace = 0 := by
    have e : A * D + D * B = 0 := by
      rw [hD, Matrix.mul_sub, Matrix.sub_mul, h]
      abel
    calc _ = (D * (A * D + D * B)).trace := by
          rw [Matrix.mul_add, trace_add, Matrix.mul_assoc, ← Matrix.mul_assoc D D B, trace_mul_comm (D * B) D,
            ← Matrix.mul_assoc, ← Matrix.mul_assoc]
      _ = 0 := by rw [e, Matrix.mul_zero, trace_zero]
  have h1 := hAD.trace_nonneg
  have h2 := hBD.trace_nonneg
  have t1 : (D * A * D).trace = 0 := le_antisymm (by rw [← hsum]; exact le_add_of_nonneg_right h2) h1
  have t2 : (D * B * D).trace = 0 := by rw [t1, zero_add] at hsum; exact hsum
  have z1 := hAD.trace_eq_zero_iff.mp t1
  have z2 := hBD.trace_eq_zero_iff.mp t2
  have kill : ∀ {C : Mat n ℂ}, C.PosSemidef → D * C * D = 0 → C * D = 0 := by
    intro C hC hz
    have : ∀ x, C *ᵥ (D *ᵥ x) = 0 := fun x => by
      refine hC.dotProduct_mulVec_zero_iff _ |>.mp ?_
      rw [star_mulVec, hDH, ← dotProduct_mulVec, mulVec_mulVec, mulVec_mulVec, hz, zero_mulVec,
        dotProduct_zero]
    exact Matrix.ext_of_mulVec_single fun i => by rw [← mulVec_mulVec, this, zero_mulVec]
  have z3 : D * D = 0 := by
    conv_lhs => rw [hD, Matrix.sub_mul]
    rw [← hD, kill hA z1, kill hB z2, sub_zero]
  have : D = 0 := by
    rw [← hDH] at z3
    nth_rewrite 2 [hDH] at z3
    exact (conjTranspose_mul_self_eq_zero (A := D)).mp (by rw [hDH] at z3 ⊢; exact z3)
  exact sub_eq_zero.mp (hD ▸ this)

/-- The orthonormalisation of `P W` with `W` unitary and `P` positive definite is `W`. -/
private theorem polar_posDef (np : Numpy ℂ) (P W : Mat n ℂ) (hP : P.PosDef) (hW : W * Wᴴ = 1) : polar np (P * W) = W := by
  obtain ⟨S, hS, hSS, -, hu⟩ := C47_polar_eq np (P * W)
  have hPS : S = P := psd_sqrt_unique hS hP.posSemidef (by
    rw [hSS, conjTranspose_mul, Matrix.mul_assoc, ← Matrix.mul_assoc W, hW, Matrix.one_mul, hP.1.eq])
  have hWd : IsUnit W.det := by
    have := congrArg det hW
    rw [det_mul, det_one] at this
    exact IsUnit.of_mul_eq_one _ this
  have hPd : IsUnit P.det := (isUnit_iff_isUnit_det P).mp hP.isUnit
  rw [hu (by rw [det_mul]; exact hPd.mul hWd), hPS, nonsing_inv_mul_cancel_left _ _ hPd]

variable {F : Type} [Fintype F]

/-- The weighted correlations `E[G'(r_k)/(2 r_k) y_k y_l*]` of the separated signals in one bin. -/
noncomputable def corr (d : ℝ → ℝ) (Y : Spec F n t) (f : F) : Mat n ℂ :=
  Matrix.of fun k l => meanT fun s => ((d (Iva.binNorm Y k s) / (2 * Iva.binNorm Y k s) : ℝ) : ℂ) * (Y f k s * star (Y f l s))

private theorem meanT_sub' (x y : Fin t → ℂ) : meanT (fun s => x s - y s) = meanT x - meanT y := by
  simp only [meanT, Finset.sum_sub_distrib, sub_div]

private theorem meanT_const_mul (a : ℂ) (x : Fin t → ℂ) : meanT (fun s => a * x s) = a * meanT x := by
  simp only [meanT, ← Finset.mul_sum, mul_div_assoc]

private theorem star_meanT' (x : Fin t → ℂ) : star (meanT x) = meanT fun s => star (x s) := by
  simp only [meanT, star_div₀, star_sum, star_natCast]

private theorem meanT_ofReal (x : Fin t → ℝ) : meanT (fun s => ((x s : ℝ) : ℂ)) = ((meanT x : ℝ) : ℂ) := by
  simp [meanT]

private theorem star_real (x : ℝ) : star (x : ℂ) = x := Complex.conj_ofReal x

/-- With a unitary filter the new filter before the orthonormalisation is `(diag(c) - corr) W` with real `c`. -/
private theorem filter_eq (floor d dd : ℝ → ℝ) (Z : Spec F n t) (W : F → Mat n ℂ) (f : F) (hW : (W f)ᴴ * W f = 1)
    (hfl : ∀ k s, floor (2 * Iva.binNorm (separate Z W) k s) = 2 * Iva.binNorm (separate Z W) k s) :
    ∃ c : Fin n → ℝ, fastIvaFilter floor d dd Z W f
      = (diagonal (fun k => (c k : ℂ)) - corr d (separate Z W) f) * W f := by
  obtain ⟨Y, hY⟩ : ∃ Y, Y = separate Z W := ⟨_, rfl⟩
  obtain ⟨φ, hφ⟩ : ∃ φ : Fin n → Fin t → ℝ, φ = fun k s => d (Iva.binNorm Y k s) / (2 * Iva.binNorm Y k s) := ⟨_, rfl⟩
  obtain ⟨q, hq⟩ : ∃ q : Fin n → Fin t → ℝ, q = fun k s =>
    (2 * φ k s - dd (Iva.binNorm Y k s)) / (2 * Iva.binNorm Y k s) * ‖Y f k s‖ ^ 2 := ⟨_, rfl⟩
  refine ⟨fun k => meanT (φ k) - meanT (q k), ?_⟩
  have hZ : ∀ c s, star (Z f c s) = ∑ l, star (Y f l s) * W f l c := fun c s => by
    have : Z f = (W f)ᴴ * Y f := by rw [hY, separate, ← Matrix.mul_assoc, hW, Matrix.one_mul]
    rw [this, mul_apply, star_sum]
    exact Finset.sum_congr rfl fun l _ => by rw [conjTranspose_apply, star_mul', star_star, mul_comm]
  ext k c
  have e1 : fastIvaFilter floor d dd Z W f k c = star ((meanT fun s => (φ k s : ℂ) * (star (W f k c) - star (Y f k s) * Z f c s))
      - meanT fun s => star (W f k c) * ((q k s : ℝ) : ℂ)) := by
    simp only [fastIvaFilter, of_apply, ← hY]
    rw [hq]
    simp only [hφ, hY, hfl]
  rw [e1, star_sub, star_meanT', star_meanT', Matrix.sub_mul, Matrix.sub_apply, diagonal_mul]
  have e2 : (meanT fun s => star ((φ k s : ℂ) * (star (W f k c) - star (Y f k s) * Z f c s)))
      = ((meanT (φ k) : ℝ) : ℂ) * W f k c - meanT fun s => (φ k s : ℂ) * (Y f k s * star (Z f c s)) := by
    rw [← meanT_ofReal, mul_comm, ← meanT_const_mul, ← meanT_sub']
    congr 1
    funext s
    rw [star_mul', star_real, star_sub, star_star, star_mul', star_star]
    ring
  have e3 : (meanT fun s => star (star (W f k c) * ((q k s : ℝ) : ℂ))) = W f k c * ((meanT (q k) : ℝ) : ℂ) := by
    rw [← meanT_ofReal, ← meanT_const_mul]
    congr 1
    funext s
    rw [star_mul', star_star, star_real]
  have e4 : (corr d Y f * W f) k c = meanT fun s => (φ k s : ℂ) * (Y f k s * star (Z f c s)) := by
    rw [mul_apply]
    simp only [corr, of_apply, hφ]
    simp only [meanT, div_mul_eq_mul_div, Finset.sum_mul, ← Finset.sum_div]
    rw [Finset.sum_comm]
    congr 1
    refine Finset.sum_congr rfl fun s _ => ?_
    rw [hZ, Finset.mul_sum, Finset.mul_sum]
    exact Finset.sum_congr rfl fun l _ => by ring
  rw [e2, e3, ← hY, e4]
  push_cast
  ring

private theorem loss_deriv (G d : ℝ → ℝ) (Z : Spec F n t) (W A : F → Mat n ℂ)
    (hr : ∀ k s, Iva.binNorm (separate Z W) k s ≠ 0)
    (hG : ∀ k s, HasDerivAt G (d (Iva.binNorm (separate Z W) k s)) (Iva.binNorm (separate Z W) k s)) :
    HasDerivAt (fun ε : ℝ => ivaLoss G Z fun f => W f + (ε : ℂ) • (A f * W f))
      (2 * ∑ f, (A f * (corr d (separate Z W) f)ᴴ).trace.re) 0 := by
  obtain ⟨Y, hY⟩ : ∃ Y, Y = separate Z W := ⟨_, rfl⟩
  rw [← hY] at hr hG ⊢
  have hsep : ∀ ε : ℝ, separate Z (fun f => W f + (ε : ℂ) • (A f * W f)) = fun f => Y f + (ε : ℂ) • (A f * Y f) := by
    intro ε
    funext f
    simp only [separate, hY, Matrix.add_mul, Matrix.smul_mul, Matrix.mul_assoc]
  have h : ∀ k s, HasDerivAt (fun ε : ℝ => G (Iva.binNorm (fun f => Y f + (ε : ℂ) • (A f * Y f)) k s))
      (d (Iva.binNorm Y k s) * (∑ f, (star (Y f k s) * (A f * Y f) k s).re / Iva.binNorm Y k s)) 0 := by
    intro k s
    have hpos : (∑ f, ‖Y f k s‖ ^ 2) ≠ 0 := fun h0 => hr k s (by rw [Iva.binNorm, h0, Real.sqrt_zero])
    have h1 : HasDerivAt (fun ε : ℝ => Iva.binNorm (fun f => Y f + (ε : ℂ) • (A f * Y f)) k s)
        (∑ f, (star (Y f k s) * (A f * Y f) k s).re / Iva.binNorm Y k s) 0 := by
      have := (Grad.hasDerivAt_binNormSq Y (fun f => A f * Y f) k s).sqrt (by simpa using hpos)
      refine this.congr_deriv ?_
      simp only [Complex.ofReal_zero, zero_mul, add_zero]
      rw [mul_div_mul_left _ _ two_ne_zero, ← Finset.sum_div, Iva.binNorm]
    exact HasDerivAt.comp (0 : ℝ) (by simpa using hG k s) h1
  have := HasDerivAt.fun_sum (u := Finset.univ) fun (k : Fin n) _ =>
    (HasDerivAt.fun_sum (u := Finset.univ) fun (s : Fin t) _ => h k s).div_const (t : ℝ)
  refine (this.congr_of_eventuallyEq (Filter.Eventually.of_forall fun ε => ?_)).congr_deriv ?_
  · simp only [ivaLoss, hsep, meanT]
  · have key : ∀ f, 2 * (A f * (corr d Y f)ᴴ).trace.re
        = ∑ k, (∑ s, d (Iva.binNorm Y k s) * ((star (Y f k s) * (A f * Y f) k s).re / Iva.binNorm Y k s)) / (t : ℝ) := by
      intro f
      rw [trace, Complex.re_sum, Finset.mul_sum]
      refine Finset.sum_congr rfl fun k _ => ?_
      have e : (A f * (corr d Y f)ᴴ) k k
          = meanT fun s => ((d (Iva.binNorm Y k s) / (2 * Iva.binNorm Y k s) : ℝ) : ℂ) * (star (Y f k s) * (A f * Y f) k s) := by
        rw [mul_apply]
        simp only [conjTranspose_apply, corr, of_apply, star_meanT', star_mul', star_real, star_star]
        simp only [meanT, ← mul_div_assoc, Finset.mul_sum, ← Finset.sum_div]
        rw [Finset.sum_comm]
        congr 1
        refine Finset.sum_congr rfl fun s _ => ?_
        rw [mul_apply, Finset.mul_sum, Finset.mul_sum]
        exact Finset.sum_congr rfl fun l _ => by ring
      rw [diag_apply, e, meanT, show ((t : ℂ)) = ((t : ℝ) : ℂ) from (Complex.ofReal_natCast t).symm,
        Complex.div_ofReal_re, Complex.re_sum, ← mul_div_assoc, Finset.mul_sum]
      congr 1
      refine Finset.sum_congr rfl fun s _ => ?_
      rw [Complex.re_ofReal_mul]
      have := hr k s
      field_simp
    rw [Finset.mul_sum, Finset.sum_congr rfl fun f _ => key f, Finset.sum_comm]
    refine Finset.sum_congr rfl fun k _ => ?_
    rw [← Finset.sum_div, Finset.sum_comm]
    congr 1
    exact Finset.sum_congr rfl fun s _ => Finset.mul_sum _ _ _

/-- Stationarity over the unitary filters says that the weighted correlations are Hermitian. -/
private theorem stationary_iff_hermitian (G d : ℝ → ℝ) (Z : Spec F n t) (W : F → Mat n ℂ)
    (hr : ∀ k s, Iva.binNorm (separate Z W) k s ≠ 0)
    (hG : ∀ k s, HasDerivAt G (d (Iva.binNorm (separate Z W) k s)) (Iva.binNorm (separate Z W) k s)) :
    (∀ A : F → Mat n ℂ, (∀ f, (A f)ᴴ = -A f) →
      HasDerivAt (fun ε : ℝ => ivaLoss G Z fun f => W f + (ε : ℂ) • (A f * W f)) 0 0) ↔
    ∀ f, (corr d (separate Z W) f).IsHermitian := by
  obtain ⟨M, hM⟩ : ∃ M, M = corr d (separate Z W) := ⟨_, rfl⟩
  constructor
  · intro h
    have hd := loss_deriv G d Z W (fun f => M f - (M f)ᴴ) hr hG
    have h0 := hd.unique (h _ fun f => by rw [conjTranspose_sub, conjTranspose_conjTranspose, neg_sub])
    rw [← hM] at h0 ⊢
    have e : ∀ f, 2 * ((M f - (M f)ᴴ) * (M f)ᴴ).trace.re = Grad.frob (M f - (M f)ᴴ) := by
      intro f
      rw [← Grad.re_trace_self]
      have e1 : ((M f - (M f)ᴴ) * M f).trace.re = -((M f - (M f)ᴴ) * (M f)ᴴ).trace.re := by
        have : ((M f - (M f)ᴴ) * M f).trace = star (((M f)ᴴ * ((M f)ᴴ - M f)).trace) := by
          rw [← trace_conjTranspose, conjTranspose_mul, conjTranspose_sub, conjTranspose_conjTranspose]
        rw [this, trace_mul_comm, show ((M f)ᴴ - M f) = -(M f - (M f)ᴴ) from (neg_sub _ _).symm, Matrix.neg_mul, trace_neg,
          Complex.star_def, Complex.conj_re, Complex.neg_re]
      rw [conjTranspose_sub, conjTranspose_conjTranspose, Matrix.mul_sub, trace_sub, map_sub]
      change _ = ((M f - (M f)ᴴ) * (M f)ᴴ).trace.re - ((M f - (M f)ᴴ) * M f).trace.re
      rw [e1]; ring
    rw [Finset.mul_sum, Finset.sum_congr rfl fun f _ => e f] at h0
    intro f
    have := (Finset.sum_eq_zero_iff_of_nonneg fun f _ => Grad.frob_nonneg _).mp h0 f (Finset.mem_univ f)
    exact (sub_eq_zero.mp (Grad.frob_eq_zero this)).symm
  · intro h A hA
    refine (loss_deriv G d Z W A hr hG).congr_deriv ?_
    rw [← hM] at h ⊢
    have : ∀ f, (A f * (M f)ᴴ).trace.re = 0 := by
      intro f
      have e : (A f * (M f)ᴴ).trace = -star ((A f * (M f)ᴴ).trace) := by
        rw [← trace_conjTranspose, conjTranspose_mul, conjTranspose_conjTranspose, hA f, Matrix.mul_neg, trace_neg, neg_neg,
          trace_mul_comm, (h f).eq]
      have := congrArg Complex.re e
      rw [Complex.neg_re, Complex.star_def, Complex.conj_re] at this
      linarith
    simp [this]

/-- C74 for FastIVA: a unitary filter that the update returns unchanged is a stationary point of the recorded loss
among the unitary filters: rotating the filters infinitesimally in any direction changes the loss by nothing to first
order. -/
theorem C74_fastiva_stationary (np : Numpy ℂ) (floor G d dd : ℝ → ℝ) (Z : Spec F n t) (W : F → Mat n ℂ)
    (hW : ∀ f, W f * (W f)ᴴ = 1) (hr : ∀ k s, Iva.binNorm (separate Z W) k s ≠ 0)
    (hfl : ∀ k s, floor (2 * Iva.binNorm (separate Z W) k s) = 2 * Iva.binNorm (separate Z W) k s)
    (hG : ∀ k s, HasDerivAt G (d (Iva.binNorm (separate Z W) k s)) (Iva.binNorm (separate Z W) k s))
    (hfix : fastIvaStep np floor d dd Z W = W) (A : F → Mat n ℂ) (hA : ∀ f, (A f)ᴴ = -A f) :
    HasDerivAt (fun ε : ℝ => ivaLoss G Z fun f => W f + (ε : ℂ) • (A f * W f)) 0 0 := by
  refine (stationary_iff_hermitian G d Z W hr hG).mpr (fun f => ?_) A hA
  obtain ⟨c, hc⟩ := filter_eq floor d dd Z W f (mul_eq_one_comm.mp (hW f)) hfl
  obtain ⟨S, hS, -, hSW, -⟩ := C47_polar_eq np (fastIvaFilter floor d dd Z W f)
  have hp : polar np (fastIvaFilter floor d dd Z W f) = W f := congrFun hfix f
  rw [hp, hc] at hSW
  have e : diagonal (fun k => (c k : ℂ)) - corr d (separate Z W) f = S := by
    have := congrArg (· * (W f)ᴴ) hSW
    simpa only [Matrix.mul_assoc, hW f, Matrix.mul_one] using this
  have hc' : (diagonal (fun k => (c k : ℂ))).IsHermitian := by
    rw [IsHermitian, diagonal_conjTranspose]
    congr 1
    funext k
    exact star_real _
  have : corr d (separate Z W) f = diagonal (fun k => (c k : ℂ)) - S := by rw [← e, sub_sub_cancel]
  rw [this]
  exact hc'.sub hS.1

/-- C74, the converse: a stationary point is returned unchanged where the new filter, before the orthonormalisation,
points in the direction of the old one: `x^H W⁺ W^H x` has positive real part for all `x ≠ 0`. -/
theorem C74_fastiva_fixed (np : Numpy ℂ) (floor G d dd : ℝ → ℝ) (Z : Spec F n t) (W : F → Mat n ℂ)
    (hW : ∀ f, W f * (W f)ᴴ = 1) (hr : ∀ k s, Iva.binNorm (separate Z W) k s ≠ 0)
    (hfl : ∀ k s, floor (2 * Iva.binNorm (separate Z W) k s) = 2 * Iva.binNorm (separate Z W) k s)
    (hG : ∀ k s, HasDerivAt G (d (Iva.binNorm (separate Z W) k s)) (Iva.binNorm (separate Z W) k s))
    (hpos : ∀ f (x : Fin n → ℂ), x ≠ 0 → 0 < (star x ⬝ᵥ ((fastIvaFilter floor d dd Z W f * (W f)ᴴ) *ᵥ x)).re)
    (hst : ∀ A : F → Mat n ℂ, (∀ f, (A f)ᴴ = -A f) →
      HasDerivAt (fun ε : ℝ => ivaLoss G Z fun f => W f + (ε : ℂ) • (A f * W f)) 0 0) :
    fastIvaStep np floor d dd Z W = W := by
  funext f
  have hH := (stationary_iff_hermitian G d Z W hr hG).mp hst f
  obtain ⟨c, hc⟩ := filter_eq floor d dd Z W f (mul_eq_one_comm.mp (hW f)) hfl
  have hc' : (diagonal (fun k => (c k : ℂ))).IsHermitian := by
    rw [IsHermitian, diagonal_conjTranspose]
    congr 1
    funext k
    exact star_real _
  have hP : (diagonal (fun k => (c k : ℂ)) - corr d (separate Z W) f).PosDef := by
    refine PosDef.of_dotProduct_mulVec_pos (hc'.sub hH) fun x hx => ?_
    have := hpos f x hx
    rw [hc, Matrix.mul_assoc, hW f, Matrix.mul_one] at this
    have him := (hc'.sub hH).im_star_dotProduct_mulVec_self x
    exact Complex.lt_def.mpr ⟨this, by simpa using him.symm⟩
  rw [fastIvaStep, hc]
  exact polar_posDef np _ _ hP (hW f)

/-- C74, FastIVA leaves separated signals alone: if in every bin the outputs are uncorrelated under the weights of
each of them and the new filter is invertible before the orthonormalisation, the update changes nothing but signs. -/
theorem C74_fastiva_separated (np : Numpy ℂ) (floor d dd : ℝ → ℝ) (Z : Spec F n t) (W : F → Mat n ℂ)
    (hW : ∀ f, W f * (W f)ᴴ = 1)
    (hfl : ∀ k s, floor (2 * Iva.binNorm (separate Z W) k s) = 2 * Iva.binNorm (separate Z W) k s)
    (hsep : ∀ f k l, k ≠ l → (meanT fun s => ((d (Iva.binNorm (separate Z W) k s) /
      (2 * Iva.binNorm (separate Z W) k s) : ℝ) : ℂ) * (separate Z W f k s * star (separate Z W f l s))) = 0)
    (hdet : ∀ f, (fastIvaFilter floor d dd Z W f).det ≠ 0) (f : F) (k : Fin n) :
    fastIvaStep np floor d dd Z W f k = W f k ∨ fastIvaStep np floor d dd Z W f k = -W f k := by
  obtain ⟨c, hc⟩ := filter_eq floor d dd Z W f (mul_eq_one_comm.mp (hW f)) hfl
  obtain ⟨m, hm⟩ : ∃ m : Fin n → ℝ, corr d (separate Z W) f = diagonal fun k => (m k : ℂ) := by
    refine ⟨fun k => meanT fun s => d (Iva.binNorm (separate Z W) k s) / (2 * Iva.binNorm (separate Z W) k s) *
      ‖separate Z W f k s‖ ^ 2, ?_⟩
    ext k l
    rw [corr, of_apply]
    by_cases hkl : k = l
    · subst hkl
      rw [diagonal_apply_eq, ← meanT_ofReal]
      congr 1
      funext s
      push_cast
      rw [Complex.star_def, Complex.mul_conj, Complex.normSq_eq_norm_sq]
      push_cast
      ring
    · rw [diagonal_apply_ne _ hkl, hsep f k l hkl]
  rw [hm, diagonal_sub] at hc
  have hdiag : (fun i => (c i : ℂ) - (m i : ℂ)) = fun i => ((c i - m i : ℝ) : ℂ) := by funext i; push_cast; rfl
  rw [hdiag] at hc
  have hne : ∀ i, c i - m i ≠ 0 := fun i h0 => by
    refine hdet f ?_
    rw [hc, det_mul, det_diagonal, Finset.prod_eq_zero (Finset.mem_univ i) (by rw [h0]; simp), zero_mul]
  obtain ⟨σ, hσ⟩ : ∃ σ : Fin n → ℝ, σ = fun i => ((SignType.sign (c i - m i) : SignType) : ℝ) := ⟨_, rfl⟩
  have hσ2 : ∀ i, σ i = 1 ∨ σ i = -1 := fun i => by
    rcases lt_or_gt_of_ne (hne i) with h | h
    · right; rw [hσ]; simp [sign_neg h]
    · left; rw [hσ]; simp [sign_pos h]
  have habs : ∀ i, c i - m i = |c i - m i| * σ i := fun i => by
    rw [hσ]; exact (abs_mul_sign _).symm
  have hfac : fastIvaFilter floor d dd Z W f
      = diagonal (fun i => ((|c i - m i| : ℝ) : ℂ)) * (diagonal (fun i => (σ i : ℂ)) * W f) := by
    rw [hc, ← Matrix.mul_assoc, diagonal_mul_diagonal]
    congr 2
    funext i
    rw [← Complex.ofReal_mul, ← habs i]
  have hP : (diagonal (fun i => ((|c i - m i| : ℝ) : ℂ))).PosDef :=
    PosDef.diagonal fun i => by exact_mod_cast abs_pos.mpr (hne i)
  have hU : (diagonal (fun i => (σ i : ℂ)) * W f) * (diagonal (fun i => (σ i : ℂ)) * W f)ᴴ = 1 := by
    rw [conjTranspose_mul, Matrix.mul_assoc, ← Matrix.mul_assoc (W f), hW f, Matrix.one_mul, diagonal_conjTranspose,
      diagonal_mul_diagonal, ← diagonal_one]
    congr 1
    funext i
    rw [Pi.star_apply, star_real]
    rcases hσ2 i with h | h <;> simp [h]
  have hstep : fastIvaStep np floor d dd Z W f = diagonal (fun i => (σ i : ℂ)) * W f := by
    rw [fastIvaStep, hfac]
    exact polar_posDef np _ _ hP hU
  rw [hstep]
  rcases hσ2 k with h | h
  · left
    funext j
    rw [diagonal_mul, h]
    simp
  · right
    funext j
    rw [diagonal_mul, h]
    simp

/-- C74: on whitened data FastIVA does not see a quadratic term of the contrast function. Adding `a r²` to the contrast,
hence `2 a r` to `d_contrast_fn` and `2 a` to `dd_contrast_fn`, changes no update. -/
theorem C74_fastiva_quadratic (np : Numpy ℂ) (floor d dd : ℝ → ℝ) (a : ℝ) (Z : Spec F n t)
    (hZ : ∀ f, Transform.sampleCov (Z f) = 1) (W : F → Mat n ℂ) (hr : ∀ k s, Iva.binNorm (separate Z W) k s ≠ 0)
    (hfl : ∀ k s, floor (2 * Iva.binNorm (separate Z W) k s) = 2 * Iva.binNorm (separate Z W) k s) :
    fastIvaStep np floor (fun r => d r + 2 * a * r) (fun r => dd r + 2 * a) Z W = fastIvaStep np floor d dd Z W := by
  have key : fastIvaFilter floor (fun r => d r + 2 * a * r) (fun r => dd r + 2 * a) Z W = fastIvaFilter floor d dd Z W := by
    funext f
    ext k c
    simp only [fastIvaFilter, of_apply, hfl]
    have e1 : ∀ s, (d (Iva.binNorm (separate Z W) k s) + 2 * a * Iva.binNorm (separate Z W) k s) /
        (2 * Iva.binNorm (separate Z W) k s) = d (Iva.binNorm (separate Z W) k s) / (2 * Iva.binNorm (separate Z W) k s) + a := by
      intro s
      have := hr k s
      field_simp
    simp only [e1]
    have e2 : ∀ x y : ℝ, 2 * (x + a) - (y + 2 * a) = 2 * x - y := fun x y => by ring
    simp only [e2]
    congr 2
    have ht := frames_ne_zero (Z f) (hZ f) c
    have hq : meanT (fun s => star (separate Z W f k s) * Z f c s) = star (W f k c) := by
      have h1 : meanT (fun s => star (separate Z W f k s) * Z f c s)
          = ∑ b, star (W f k b) * meanT (fun s => Z f c s * star (Z f b s)) := by
        simp only [meanT, separate, mul_apply, star_sum, star_mul', ← mul_div_assoc, Finset.mul_sum, Finset.sum_mul, ← Finset.sum_div]
        rw [Finset.sum_comm]
        congr 1
        exact Finset.sum_congr rfl fun b _ => Finset.sum_congr rfl fun s _ => by ring
      rw [h1, Finset.sum_congr rfl fun b _ => by rw [cov_apply (Z f) (hZ f) c b]]
      simp
    have hc : meanT (fun _ : Fin t => star (W f k c)) = star (W f k c) := by
      simp only [meanT, Finset.sum_const, Finset.card_univ, Fintype.card_fin, nsmul_eq_mul]
      rw [mul_div_cancel_left₀ _ ht]
    have h2 : meanT (fun s => star (W f k c) - star (separate Z W f k s) * Z f c s) = 0 := by
      rw [meanT_sub', hq, hc, sub_self]
    calc _ = (meanT fun s => ((d (Iva.binNorm (separate Z W) k s) / (2 * Iva.binNorm (separate Z W) k s) : ℝ) : ℂ) *
            (star (W f k c) - star (separate Z W f k s) * Z f c s))
          + (a : ℂ) * meanT (fun s => star (W f k c) - star (separate Z W f k s) * Z f c s) := by
          simp only [meanT, ← mul_div_assoc, Finset.mul_sum, ← add_div, ← Finset.sum_add_distrib]
          congr 1
          refine Finset.sum_congr rfl fun s _ => ?_
          push_cast
          ring
      _ = _ := by rw [h2, mul_zero, add_zero]
  funext f
  rw [fastIvaStep, fastIvaStep, key]

/-! ## Concrete data -/

/-- Two uncorrelated binary signals in four frames. -/
def exZ : Matrix (Fin 2) (Fin 4) ℝ := !![1, 1, -1, -1; 1, -1, 1, -1]

/-- The update with the cubic score on this data succeeds, so `C74_fastica_fixed_iff`,
`C74_fastica_separated` and `C74_fastica_quadratic` can be applied. -/
example : ∃ W', icaStep (fun y s => y s ^ 3) (fun y s => 3 * y s ^ 2) exZ 1 = .ok W' ∧ (1 : Mat 2 ℝ) * 1ᵀ = 1 ∧
    (∀ k l : Fin 2, k < l → meanT (fun s => project exZ ((1 : Mat 2 ℝ) k) s ^ 3 * project exZ ((1 : Mat 2 ℝ) l) s) = 0) ∧
    Transform.sampleCov (𝕜 := ℝ) exZ = 1 := by
  have h1 : ∀ k : Fin 2, icaDirection (fun y s => y s ^ 3) (fun y s => 3 * y s ^ 2) exZ ((1 : Mat 2 ℝ) k) = fun c => if c = k then 2 else 0 := by
    intro k
    funext c
    fin_cases k <;> fin_cases c <;>
      simp [icaDirection, project, meanT, exZ, Fin.sum_univ_succ, one_apply] <;> norm_num
  have hrow : ∀ k : Fin 2, icaRow (fun y s => y s ^ 3) (fun y s => 3 * y s ^ 2) exZ 1 k = .ok 1 := by
    intro k
    have hd : deflate (1 : Mat 2 ℝ) k (fun c => if c = k then 2 else 0) = fun c => if c = k then 2 else 0 := by
      funext c
      fin_cases k <;> fin_cases c <;> simp [deflate, one_apply]
    have hn : norm2 (fun c : Fin 2 => if c = k then (2 : ℝ) else 0) = 2 := by
      rw [norm2, show ∑ c : Fin 2, (if c = k then (2 : ℝ) else 0) ^ 2 = 2 ^ 2 by
        fin_cases k <;> simp]
      exact Real.sqrt_sq two_pos.le
    rw [icaRow, h1, hd]
    simp only [hn]
    rw [if_neg two_ne_zero]
    congr 1
    ext i j
    fin_cases k <;> fin_cases i <;> fin_cases j <;> simp [Matrix.updateRow_apply, one_apply]
  refine ⟨1, ?_, by simp, ?_, ?_⟩
  · rw [icaStep, show List.finRange 2 = [0, 1] from rfl]
    simp only [List.foldlM_cons, List.foldlM_nil, hrow, bind, Except.bind]
    rfl
  · intro k l hkl
    fin_cases k <;> fin_cases l <;> first | exact absurd hkl (by decide) | skip
    simp [project, meanT, exZ, Fin.sum_univ_succ, one_apply]
  · ext i j
    rw [Transform.sampleCov, Matrix.smul_apply, mul_apply]
    fin_cases i <;> fin_cases j <;> simp [exZ, Fin.sum_univ_succ] <;> norm_num

/-- The same data as a spectrogram with one bin. -/
noncomputable def exZc : Spec Unit 2 4 := fun _ => Matrix.of fun c s => (exZ c s : ℂ)

/-- With the contrast `r⁴` the identity is returned unchanged, it is stationary, and the condition of
`C74_fastiva_fixed` holds; the hypotheses of `C74_fastiva_separated` and `C74_fastiva_quadratic` hold as well. -/
example (np : Numpy ℂ) :
    fastIvaStep np id (fun r => 4 * r ^ 3) (fun r => 12 * r ^ 2) exZc (fun _ => 1) = (fun _ => 1) ∧
    (∀ A : Unit → Mat 2 ℂ, (∀ f, (A f)ᴴ = -A f) →
      HasDerivAt (fun ε : ℝ => ivaLoss (fun r => r ^ 4) exZc fun f => 1 + (ε : ℂ) • (A f * 1)) 0 0) ∧
    (∀ f (x : Fin 2 → ℂ), x ≠ 0 → 0 < (star x ⬝ᵥ ((fastIvaFilter id (fun r => 4 * r ^ 3) (fun r => 12 * r ^ 2) exZc
      (fun _ => 1) f * (1 : Mat 2 ℂ)ᴴ) *ᵥ x)).re) ∧
    (∀ k s, Iva.binNorm (separate exZc fun _ => 1) k s = 1) ∧ (∀ f, Transform.sampleCov (exZc f) = 1) := by
  have hY : separate exZc (fun _ => 1) = exZc := by funext f; exact Matrix.one_mul _
  have hr : ∀ k s, Iva.binNorm (separate exZc fun _ => 1) k s = 1 := by
    intro k s
    rw [hY]
    fin_cases k <;> fin_cases s <;> simp [Iva.binNorm, exZc, exZ]
  have hfilter : fastIvaFilter id (fun r => 4 * r ^ 3) (fun r => 12 * r ^ 2) exZc (fun _ => 1) () = (4 : ℂ) • (1 : Mat 2 ℂ) := by
    ext k c
    have hr' : ∀ k s, Iva.binNorm exZc k s = 1 := by rw [← hY]; exact hr
    simp only [fastIvaFilter, of_apply, hY, hr']
    fin_cases k <;> fin_cases c <;> simp [meanT, exZc, exZ, Fin.sum_univ_succ, one_apply] <;> norm_num
  have hP : ((4 : ℂ) • (1 : Mat 2 ℂ)).PosDef := PosDef.one.smul (by norm_num)
  have hfix : fastIvaStep np id (fun r => 4 * r ^ 3) (fun r => 12 * r ^ 2) exZc (fun _ => 1) = (fun _ => 1) := by
    funext f
    rw [fastIvaStep, hfilter, ← Matrix.mul_one ((4 : ℂ) • (1 : Mat 2 ℂ))]
    exact polar_posDef np _ 1 hP (by simp)
  refine ⟨hfix, fun A hA => ?_, fun f x hx => ?_, hr, fun f => ?_⟩
  · refine C74_fastiva_stationary np id (fun r => r ^ 4) _ _ exZc (fun _ => 1) (fun f => by simp)
      (fun k s => by rw [hr]; exact one_ne_zero) (fun k s => rfl) (fun k s => ?_) hfix A hA
    simpa using hasDerivAt_pow 4 (Iva.binNorm (separate exZc fun _ => 1) k s)
  · rw [hfilter, conjTranspose_one, Matrix.mul_one]
    exact (Complex.lt_def.mp (hP.dotProduct_mulVec_pos hx)).1
  · ext i j
    rw [Transform.sampleCov, Matrix.smul_apply, mul_apply]
    fin_cases i <;> fin_cases j <;> simp [exZc, exZ, Fin.sum_univ_succ] <;> norm_num

end Verif.Fast
