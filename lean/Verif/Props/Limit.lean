import Verif.Lemmas.Limit
import Verif.Props.AuxGauss

set_option linter.unusedSectionVars false

/-!
# What the auxiliary-function methods converge to (C70)

C36, C37, C61 and C62 are about one iteration or finitely many. Here: an endless run. The loss converges, the filters
stay bounded, they have accumulation points, and every accumulation point without silent frames is a stationary point
of the loss.
-/

namespace Verif
open Matrix Spatial Scale Filter Topology
open scoped ComplexOrder

variable {F : Type} [Fintype F] {n t : ℕ}

/-- The loss without the log-determinants grows at least linearly in the filters. -/
def Grows (loss : (F → Mat n ℂ) → ℝ) : Prop :=
  ∃ κ > 0, ∃ b, ∀ V : F → Mat n ℂ, κ * ∑ f, size (V f) - b - 2 * ∑ f, Real.log ‖(V f).det‖ ≤ loss V

theorem Grows.size_le {loss : (F → Mat n ℂ) → ℝ} (h : Grows loss) :
    ∃ κ > 0, ∃ b, ∀ V : F → Mat n ℂ, (∀ f, IsUnit (V f).det) → κ * ∑ f, size (V f) - b ≤ loss V := by
  obtain ⟨κ, hκ, b, h⟩ := h
  obtain ⟨C, hC⟩ := logdet_growth n (half_pos hκ)
  refine ⟨κ / 2, half_pos hκ, b + Fintype.card F * C, fun V hV => ?_⟩
  have h1 := h V
  have h2 : 2 * ∑ f, Real.log ‖(V f).det‖ ≤ κ / 2 * ∑ f, size (V f) + Fintype.card F * C := by
    rw [Finset.mul_sum, Finset.mul_sum]
    calc _ ≤ ∑ f, (κ / 2 * size (V f) + C) := Finset.sum_le_sum fun f _ => hC (V f) (hV f)
      _ = _ := by rw [Finset.sum_add_distrib]; simp
  linarith

/-- A descending sequence of invertible filters: the loss converges, some subsequence converges, and the limit of every
convergent subsequence is invertible. -/
theorem descent {loss : (F → Mat n ℂ) → ℝ} {W : ℕ → F → Mat n ℂ} (h : Grows loss)
    (hunit : ∀ i f, IsUnit (W i f).det) (hdec : ∀ i, loss (W (i + 1)) ≤ loss (W i)) :
    (∃ v, Tendsto (fun i => loss (W i)) atTop (𝓝 v)) ∧
    (∃ V, ∃ φ : ℕ → ℕ, StrictMono φ ∧ Tendsto (fun i => W (φ i)) atTop (𝓝 V)) ∧
    ∀ (V : F → Mat n ℂ) (φ : ℕ → ℕ), Tendsto (fun i => W (φ i)) atTop (𝓝 V) → ∀ f, IsUnit (V f).det := by
  have hanti : Antitone fun i => loss (W i) := antitone_nat_of_succ_le hdec
  have hle : ∀ i, loss (W i) ≤ loss (W 0) := fun i => hanti (Nat.zero_le i)
  obtain ⟨κ, hκ, b, hs⟩ := h.size_le
  have hsum : ∀ i, ∑ f, size (W i f) ≤ (loss (W 0) + b) / κ := fun i => by
    rw [le_div_iff₀ hκ]
    linarith [hs (W i) (hunit i), hle i]
  refine ⟨?_, ?_, ?_⟩
  · refine ⟨_, tendsto_atTop_ciInf hanti ⟨-b, ?_⟩⟩
    rintro _ ⟨i, rfl⟩
    have := hs (W i) (hunit i)
    have h0 : 0 ≤ κ * ∑ f, size (W i f) := mul_nonneg hκ.le (Finset.sum_nonneg fun f _ => size_nonneg _)
    show -b ≤ loss (W i)
    linarith
  · have hcomp : IsCompact (Set.univ.pi fun _ : F => Set.univ.pi fun _ : Fin n => Set.univ.pi fun _ : Fin n =>
        Metric.closedBall (0 : ℂ) ((loss (W 0) + b) / κ)) :=
      isCompact_univ_pi fun _ => isCompact_univ_pi fun _ => isCompact_univ_pi fun _ => isCompact_closedBall _ _
    obtain ⟨V, -, φ, h1, h2⟩ := IsCompact.tendsto_subseq (X := F → Fin n → Fin n → ℂ) hcomp (x := W) fun i => by
      intro f _ k _ j _
      rw [mem_closedBall_zero_iff]
      refine (entry_le_size (W i f) k j).trans (le_trans ?_ (hsum i))
      exact Finset.single_le_sum (f := fun f => size (W i f)) (fun f _ => size_nonneg _) (Finset.mem_univ f)
    exact ⟨V, φ, h1, h2⟩
  · intro V φ hV
    obtain ⟨κ, hκ, b, h⟩ := h
    have hprod : ∀ i, Real.exp (-(loss (W 0) + b) / 2) ≤ ∏ f, ‖(W i f).det‖ := by
      intro i
      have hp : ∀ f, ‖(W i f).det‖ ≠ 0 := fun f => norm_ne_zero_iff.2 (hunit i f).ne_zero
      rw [← Real.le_log_iff_exp_le (Finset.prod_pos fun f _ => (norm_nonneg _).lt_of_ne' (hp f)),
        Real.log_prod fun f _ => hp f]
      have h0 : 0 ≤ κ * ∑ f, size (W i f) := mul_nonneg hκ.le (Finset.sum_nonneg fun f _ => size_nonneg _)
      linarith [h (W i), hle i]
    have hlim : Tendsto (fun i => ∏ f, ‖(W (φ i) f).det‖) atTop (𝓝 (∏ f, ‖(V f).det‖)) :=
      tendsto_finsetProd _ fun f _ => (tendsto_det (tendsto_pi_nhds.1 hV f)).norm
    have hpos : 0 < ∏ f, ‖(V f).det‖ :=
      (Real.exp_pos _).trans_le (ge_of_tendsto' hlim fun i => hprod (φ i))
    intro f
    have := Finset.prod_ne_zero_iff.1 hpos.ne' f (Finset.mem_univ f)
    exact isUnit_iff_ne_zero.2 (norm_ne_zero_iff.1 this)

theorem tendsto_logdet {α : Type} {l : Filter α} {A : α → F → Mat n ℂ} {V : F → Mat n ℂ} (hA : Tendsto A l (𝓝 V))
    (hV : ∀ f, IsUnit (V f).det) (f : F) :
    Tendsto (fun a => Real.log ‖(A a f).det‖) l (𝓝 (Real.log ‖(V f).det‖)) :=
  ((tendsto_det (tendsto_pi_nhds.1 hA f)).norm).log (norm_ne_zero_iff.2 (hV f).ne_zero)

theorem tendsto_separate {α : Type} {l : Filter α} (X : Spec F n t) {A : α → F → Mat n ℂ} {V : F → Mat n ℂ}
    (hA : Tendsto A l (𝓝 V)) (f : F) : Tendsto (fun a => separate X (A a) f) l (𝓝 (separate X V f)) :=
  tendsto_matrix_mul (tendsto_pi_nhds.1 hA f) tendsto_const_nhds

/-- The objective of the spatial updates for given weights. -/
noncomputable def auxFn (phi : F → Fin n → Fin t → ℝ) (X : Spec F n t) (V : F → Mat n ℂ) : ℝ :=
  ∑ f, (power (phi f) (separate X V f) - 2 * Real.log ‖(V f).det‖)

theorem tendsto_auxFn {α : Type} {l : Filter α} {phi : α → F → Fin n → Fin t → ℝ} {phi' : F → Fin n → Fin t → ℝ}
    (hphi : ∀ f k s, Tendsto (fun a => phi a f k s) l (𝓝 (phi' f k s))) (X : Spec F n t) {A : α → F → Mat n ℂ}
    {V : F → Mat n ℂ} (hA : Tendsto A l (𝓝 V)) (hV : ∀ f, IsUnit (V f).det) :
    Tendsto (fun a => auxFn (phi a) X (A a)) l (𝓝 (auxFn phi' X V)) := by
  refine tendsto_finsetSum _ fun f _ => Tendsto.sub ?_ (tendsto_const_nhds.mul (tendsto_logdet hA hV f))
  exact tendsto_finsetSum _ fun k _ => tendsto_meanT fun s =>
    (hphi f k s).mul ((tendsto_matrix.1 (tendsto_separate X hA f) k s).norm.pow 2)

/-- Along a descending sequence the decreases vanish where a subsequence of the losses converges. -/
theorem decrease_tendsto {x : ℕ → ℝ} (hdec : ∀ i, x (i + 1) ≤ x i) {φ : ℕ → ℕ} (hφ : StrictMono φ) {v : ℝ}
    (h : Tendsto (fun i => x (φ i)) atTop (𝓝 v)) : Tendsto (fun i => x (φ i + 1) - x (φ i)) atTop (𝓝 0) := by
  have hanti : Antitone x := antitone_nat_of_succ_le hdec
  have h3 : Tendsto (fun i => x (φ (i + 1)) - x (φ i)) atTop (𝓝 0) := by
    have := (h.comp (tendsto_add_atTop_nat 1)).sub h
    rwa [sub_self] at this
  refine tendsto_of_tendsto_of_tendsto_of_le_of_le h3 tendsto_const_nhds (fun i => ?_) fun i => ?_
  · exact sub_le_sub_right (hanti (hφ (Nat.lt_succ_self i))) _
  · exact sub_nonpos.2 (hdec _)

/-- In the limit a competitor is no better if the decreases that it guarantees vanish. -/
theorem limit_no_better {phi : ℕ → F → Fin n → Fin t → ℝ} {phi' : F → Fin n → Fin t → ℝ}
    (hphi : ∀ f k s, Tendsto (fun i => phi i f k s) atTop (𝓝 (phi' f k s))) (X : Spec F n t)
    {A B : ℕ → F → Mat n ℂ} {V V' : F → Mat n ℂ} (hA : Tendsto A atTop (𝓝 V)) (hV : ∀ f, IsUnit (V f).det)
    (hB : Tendsto B atTop (𝓝 V')) (hV' : ∀ f, IsUnit (V' f).det) {e : ℕ → ℝ} (he : Tendsto e atTop (𝓝 0))
    (hgap : ∀ i, e i ≤ auxFn (phi i) X (B i) - auxFn (phi i) X (A i)) : auxFn phi' X V ≤ auxFn phi' X V' :=
  sub_nonneg.1 (le_of_tendsto_of_tendsto' he ((tendsto_auxFn hphi X hB hV').sub (tendsto_auxFn hphi X hA hV)) hgap)

namespace Iva

variable {α : Type} {l : Filter α}

theorem tendsto_binNorm {Y : α → Spec F n t} {Y' : Spec F n t} (hY : ∀ f, Tendsto (fun a => Y a f) l (𝓝 (Y' f)))
    (k : Fin n) (s : Fin t) : Tendsto (fun a => binNorm (Y a) k s) l (𝓝 (binNorm Y' k s)) :=
  (tendsto_finsetSum _ fun f _ => (tendsto_matrix.1 (hY f) k s).norm.pow 2).sqrt

theorem weight_pos {d : Fin n → Fin t → ℝ → ℝ} (hd : ∀ k s r, 0 < r → 0 < d k s r) {Y : Spec F n t}
    (hY : ∀ k s, 0 < binNorm Y k s) (k : Fin n) (s : Fin t) : 0 < weight id d Y k s :=
  div_pos (hd k s _ (hY k s)) (mul_pos two_pos (hY k s))

theorem tendsto_weight {d : Fin n → Fin t → ℝ → ℝ} (hd : ∀ k s, ContinuousOn (d k s) (Set.Ioi 0)) {Y : α → Spec F n t}
    {Y' : Spec F n t} (hY : ∀ f, Tendsto (fun a => Y a f) l (𝓝 (Y' f))) (hp : ∀ k s, 0 < binNorm Y' k s) (k : Fin n)
    (s : Fin t) : Tendsto (fun a => weight id d (Y a) k s) l (𝓝 (weight id d Y' k s)) := by
  have h := tendsto_binNorm hY k s
  have hc := (hd k s).continuousAt (Ioi_mem_nhds (hp k s))
  exact (hc.tendsto.comp h).div (tendsto_const_nhds.mul h) (mul_pos two_pos (hp k s)).ne'

theorem tendsto_wcov {phi : α → Fin n → Fin t → ℝ} {phi' : Fin n → Fin t → ℝ}
    (h : ∀ k s, Tendsto (fun a => phi a k s) l (𝓝 (phi' k s))) (X : Spec F n t) (f : F) (k : Fin n) :
    Tendsto (fun a => wcov (phi a) X f k) l (𝓝 (wcov phi' X f k)) := by
  rw [tendsto_matrix]
  intro i j
  exact tendsto_meanT fun s => (tendsto_ofReal (h k s)).mul tendsto_const_nhds

theorem tendsto_lossIp {G : Fin n → Fin t → ℝ → ℝ} (hG : ∀ k s r, 0 < r → ContinuousAt (G k s) r) (X : Spec F n t)
    {A : α → F → Mat n ℂ} {V : F → Mat n ℂ} (hA : Tendsto A l (𝓝 V)) (hV : ∀ f, IsUnit (V f).det)
    (hp : ∀ k s, 0 < binNorm (separate X V) k s) :
    Tendsto (fun a => lossIp G X (A a)) l (𝓝 (lossIp G X V)) := by
  refine Tendsto.sub (tendsto_finsetSum _ fun k _ => tendsto_meanT fun s => ?_)
    (tendsto_const_nhds.mul (tendsto_finsetSum _ fun f _ => tendsto_logdet hA hV f))
  have h := tendsto_binNorm (tendsto_separate X hA) k s
  exact (hG k s _ (hp k s)).tendsto.comp h

theorem ip1Stack_tendsto {U : α → F → Fin n → Mat n ℂ} {U' : F → Fin n → Mat n ℂ}
    (hU : ∀ f k, Tendsto (fun a => U a f k) l (𝓝 (U' f k))) (hp : ∀ a f k, (U a f k).PosDef)
    (hp' : ∀ f k, (U' f k).PosDef) {A : α → F → Mat n ℂ} {V : F → Mat n ℂ} (hA : Tendsto A l (𝓝 V))
    (hAu : ∀ a f, IsUnit (A a f).det) (hV : ∀ f, IsUnit (V f).det) {B : α → F → Mat n ℂ} {V' : F → Mat n ℂ}
    (hB : ∀ a, ip1Stack id (U a) (A a) = .ok (B a)) (hV' : ip1Stack id U' V = .ok V') : Tendsto B l (𝓝 V') := by
  have h := fun f => ip1Fold_tendsto (hU f) (fun a => hp a f) (hp' f) (List.finRange n) (tendsto_pi_nhds.1 hA f)
    (fun a => hAu a f) (hV f)
  choose C C' h1 h2 h3 using h
  have e1 : ∀ a, B a = fun f => C f a := fun a => Except.ok.inj ((hB a).symm.trans
    (foldlM_onBins (fun f => ip1Row id (U a f)) (List.finRange n) (A a) (fun f => C f a) fun f => h1 f a))
  have e2 : V' = C' := Except.ok.inj (hV'.symm.trans
    (foldlM_onBins (fun f => ip1Row id (U' f)) (List.finRange n) V C' h2))
  rw [e2, tendsto_pi_nhds]
  intro f
  refine (h3 f).congr fun a => ?_
  rw [e1 a]

/-- A contrast function that grows at least linearly. -/
def Linear (G : Fin n → Fin t → ℝ → ℝ) : Prop := ∃ a > 0, ∃ b, ∀ k s r, 0 ≤ r → a * r - b ≤ G k s r

theorem norm_le_binNorm (Y : Spec F n t) (f : F) (k : Fin n) (s : Fin t) : ‖Y f k s‖ ≤ binNorm Y k s := by
  refine Real.le_sqrt_of_sq_le ?_
  exact Finset.single_le_sum (f := fun f => ‖Y f k s‖ ^ 2) (fun _ _ => sq_nonneg _) (Finset.mem_univ f)

end Iva

/-- The mean magnitude of the separated signals of a bin bounds the filter of the bin. -/
theorem mean_bound {X : Matrix (Fin n) (Fin t) ℂ} (hX : LinearIndependent ℂ X.row) :
    ∃ κ > 0, ∀ V : Mat n ℂ, κ * size V ≤ ∑ k, meanT fun s => ‖(V * X) k s‖ := by
  rcases Nat.eq_zero_or_pos n with rfl | hn
  · exact ⟨1, one_pos, fun V => by simp [size]⟩
  have ht : 0 < t := by
    rcases Nat.eq_zero_or_pos t with rfl | ht
    · exact absurd (Subsingleton.elim (X.row ⟨0, hn⟩) 0) (hX.ne_zero _)
    · exact ht
  obtain ⟨κ, hκ, h⟩ := coeff_bound hX
  have ht' : (0 : ℝ) < t := by exact_mod_cast ht
  refine ⟨κ / t, div_pos hκ ht', fun V => ?_⟩
  rw [size, Finset.mul_sum]
  refine Finset.sum_le_sum fun k _ => ?_
  rw [meanT, div_mul_eq_mul_div]
  exact div_le_div_of_nonneg_right (h (V k)) ht'.le

theorem Iva.grows {G : Fin n → Fin t → ℝ → ℝ} (hG : Iva.Linear G) (X : Spec F n t)
    (hX : ∀ f, LinearIndependent ℂ (X f).row) : Grows (Iva.lossIp G X) := by
  obtain ⟨a, ha, b, hb⟩ := hG
  have h := fun f => mean_bound (hX f)
  choose κ hκ h using h
  have hbound : ∀ V : F → Mat n ℂ, a * ∑ k, meanT (fun s => Iva.binNorm (separate X V) k s)
      - n * |b| ≤ ∑ k, meanT fun s => G k s (Iva.binNorm (separate X V) k s) := by
    intro V
    have : ∀ k : Fin n, a * meanT (fun s => Iva.binNorm (separate X V) k s) - |b|
        ≤ meanT fun s => G k s (Iva.binNorm (separate X V) k s) := by
      intro k
      rcases Nat.eq_zero_or_pos t with rfl | ht
      · simp [meanT]
      have ht' : (0 : ℝ) < t := by exact_mod_cast ht
      rw [meanT, meanT, mul_div_assoc', sub_le_iff_le_add, div_le_iff₀ ht', add_mul, div_mul_cancel₀ _ ht'.ne',
        Finset.mul_sum]
      calc ∑ s, a * Iva.binNorm (separate X V) k s
          ≤ ∑ s, (G k s (Iva.binNorm (separate X V) k s) + |b|) := Finset.sum_le_sum fun s _ => by
            have := hb k s _ (Iva.binNorm_nonneg (separate X V) k s)
            linarith [le_abs_self b]
        _ = _ := by rw [Finset.sum_add_distrib]; simp; ring
    calc _ = ∑ k : Fin n, (a * meanT (fun s => Iva.binNorm (separate X V) k s) - |b|) := by
          rw [Finset.sum_sub_distrib, Finset.mul_sum]
          simp
      _ ≤ _ := Finset.sum_le_sum fun k _ => this k
  rcases isEmpty_or_nonempty F with hF | hF
  · refine ⟨1, one_pos, n * |b|, fun V => ?_⟩
    have := hbound V
    have h0 : 0 ≤ a * ∑ k, meanT (fun s => Iva.binNorm (separate X V) k s) :=
      mul_nonneg ha.le (Finset.sum_nonneg fun k _ => div_nonneg (Finset.sum_nonneg fun s _ => Iva.binNorm_nonneg _ k s)
        (Nat.cast_nonneg _))
    rw [Iva.lossIp, Iva.ivaLoss]
    simp only [Finset.univ_eq_empty, Finset.sum_empty] at *
    linarith
  obtain ⟨κ₀, hκ₀⟩ : ∃ κ₀, κ₀ = Finset.univ.inf' Finset.univ_nonempty κ := ⟨_, rfl⟩
  have hκ₀p : 0 < κ₀ := by
    rw [hκ₀, Finset.lt_inf'_iff]
    exact fun f _ => hκ f
  have hc : (0 : ℝ) < Fintype.card F := by exact_mod_cast Fintype.card_pos
  refine ⟨a * κ₀ / Fintype.card F, by positivity, n * |b|, fun V => ?_⟩
  have h1 : ∀ f, κ₀ * size (V f) ≤ ∑ k, meanT fun s => Iva.binNorm (separate X V) k s := by
    intro f
    have hk : κ₀ ≤ κ f := by rw [hκ₀]; exact Finset.inf'_le _ (Finset.mem_univ f)
    refine (mul_le_mul_of_nonneg_right hk (size_nonneg _)).trans ((h f (V f)).trans ?_)
    refine Finset.sum_le_sum fun k _ => div_le_div_of_nonneg_right (Finset.sum_le_sum fun s _ => ?_) (Nat.cast_nonneg _)
    exact Iva.norm_le_binNorm (separate X V) f k s
  have h2 : κ₀ * ∑ f, size (V f) ≤ Fintype.card F * ∑ k, meanT fun s => Iva.binNorm (separate X V) k s := by
    rw [Finset.mul_sum]
    calc _ ≤ ∑ _f : F, ∑ k, meanT fun s => Iva.binNorm (separate X V) k s := Finset.sum_le_sum fun f _ => h1 f
      _ = _ := by simp
  have h3 := hbound V
  have h4 : a * κ₀ / Fintype.card F * ∑ f, size (V f) ≤ a * ∑ k, meanT fun s => Iva.binNorm (separate X V) k s := by
    rw [div_mul_eq_mul_div, div_le_iff₀ hc]
    nlinarith [mul_le_mul_of_nonneg_left h2 ha.le]
  rw [Iva.lossIp, Iva.ivaLoss]
  linarith

theorem filter_of_separate (X : Spec F n t) (hX : ∀ f, LinearIndependent ℂ (X f).row) (V : F → Mat n ℂ) (f : F) :
    separate X V f * (X f)ᴴ * (X f * (X f)ᴴ)⁻¹ = V f := by
  rw [separate, Matrix.mul_assoc (V f), mul_nonsing_inv_cancel_right _ _ (Iva.gram_isUnit X hX f)]

theorem tendsto_filter {α : Type} {l : Filter α} (X : Spec F n t) (hX : ∀ f, LinearIndependent ℂ (X f).row)
    {A : α → F → Mat n ℂ} {V : F → Mat n ℂ}
    (h : ∀ f, Tendsto (fun a => separate X (A a) f) l (𝓝 (separate X V f))) : Tendsto A l (𝓝 V) := by
  rw [tendsto_pi_nhds]
  intro f
  have := tendsto_matrix_mul (tendsto_matrix_mul (h f) (tendsto_const_nhds (x := (X f)ᴴ)))
    (tendsto_const_nhds (x := (X f * (X f)ᴴ)⁻¹))
  rw [filter_of_separate X hX] at this
  exact this.congr fun a => filter_of_separate X hX (A a) f

namespace Iva

section
variable {G d : Fin n → Fin t → ℝ → ℝ} (hG : Majorised G d)
  (hd : ∀ k s r, 0 < r → HasDerivAt (G k s) (d k s r) r) (hdc : ∀ k s, ContinuousOn (d k s) (Set.Ioi 0))
  (X : Spec F n t) (hX : ∀ f, LinearIndependent ℂ (X f).row)
include hG hd hdc hX

omit hG in
/-- If every iteration of a descending run improves the loss at least as much as IP1 improves its auxiliary function, then
every invertible accumulation point of the filters without silent frames is a stationary point of the loss. -/
theorem limit_stationary (hpos : ∀ k s r, 0 < r → 0 < d k s r) (W B : ℕ → F → Mat n ℂ) (hu : ∀ i f, IsUnit (W i f).det)
    (hdec : ∀ i, lossIp G X (W (i + 1)) ≤ lossIp G X (W i)) (hp : ∀ i k s, 0 < binNorm (separate X (W i)) k s)
    (hB : ∀ i, auxIp1 id d X (W i) = .ok (B i))
    (hgap : ∀ i, lossIp G X (W (i + 1)) - lossIp G X (W i)
      ≤ auxFn (fun _ => weight id d (separate X (W i))) X (B i)
        - auxFn (fun _ => weight id d (separate X (W i))) X (W i))
    (V : F → Mat n ℂ) (φ : ℕ → ℕ) (hφ : StrictMono φ) (hV : Tendsto (fun i => W (φ i)) atTop (𝓝 V))
    (hVu : ∀ f, IsUnit (V f).det) (hVp : ∀ k s, 0 < binNorm (separate X V) k s) : Stationary (lossIp G X) V := by
  obtain ⟨V', h1, h2, h3, h4⟩ := ip1Stack_strict (fun _ => weight id d (separate X V))
    (fun _ => weight_pos hpos hVp) X hX V hVu
  have hw := tendsto_weight hdc (tendsto_separate X hV) hVp
  have hlim : Tendsto (fun i => B (φ i)) atTop (𝓝 V') :=
    ip1Stack_tendsto (fun f k => tendsto_wcov hw X f k)
      (fun i f k => wcov_posDef (weight_pos hpos (hp (φ i))) hX f k)
      (fun f k => wcov_posDef (weight_pos hpos hVp) hX f k) hV (fun i => hu (φ i)) hVu
      (fun i => hB (φ i)) h1
  have hle := limit_no_better (fun _ => hw) X hV hVu hlim h2
    (decrease_tendsto (x := fun i => lossIp G X (W i)) hdec hφ (tendsto_lossIp (fun k s r hr => (hd k s r hr).continuousAt) X hV hVu hVp))
    fun i => hgap (φ i)
  rw [lossIp_eq]
  refine (Grad.stationary_iff_balanced _ X V hVu (isScoreAt hd _ hVp)).2 (h4.1 (h3.resolve_left fun h => ?_))
  exact absurd hle (not_le.2 h)

/-- The filters of an endless run with IP1. -/
theorem limit_stationary_ip1 (floor : ℝ → ℝ) (W : ℕ → F → Mat n ℂ) (hW : ∀ f, IsUnit (W 0 f).det)
    (hrun : ∀ i, auxIp1 floor d X (W i) = .ok (W (i + 1))) (hr : ∀ i, RegIp1 floor d X (W i)) :
    (∀ i f, IsUnit (W i f).det) ∧ (∀ i, lossIp G X (W (i + 1)) ≤ lossIp G X (W i)) ∧
    ∀ (V : F → Mat n ℂ) (φ : ℕ → ℕ), StrictMono φ → Tendsto (fun i => W (φ i)) atTop (𝓝 V) →
      (∀ f, IsUnit (V f).det) → (∀ k s, 0 < binNorm (separate X V) k s) → Stationary (lossIp G X) V := by
  have hstep : ∀ i, (∀ f, IsUnit (W i f).det) →
      (∀ f, IsUnit (W (i + 1) f).det) ∧ lossIp G X (W (i + 1)) ≤ lossIp G X (W i) := by
    intro i hi
    obtain ⟨W', h1, h2, h3⟩ := auxIp1_step hG floor X hX (W i) hi (hr i).1 (hr i).2
    rw [hrun i] at h1
    cases h1
    exact ⟨h2, h3⟩
  have hu : ∀ i f, IsUnit (W i f).det := fun i => by
    induction i with
    | zero => exact hW
    | succ i ih => exact (hstep i ih).1
  refine ⟨hu, fun i => (hstep i (hu i)).2, ?_⟩
  refine limit_stationary hd hdc X hX hG.pos W (fun i => W (i + 1)) hu (fun i => (hstep i (hu i)).2) (fun i => (hr i).1)
    (fun i => by rw [← (hr i).2]; exact hrun i) fun i => ?_
  exact mm_gap G (weight id d (separate X (W i))) _ _ (W i) (W (i + 1)) fun k s =>
    hG.le k s _ _ ((hr i).1 k s) (binNorm_nonneg _ k s)

/-- The same for ISS1. -/
theorem limit_stationary_iss1 (floor : ℝ → ℝ) (W : ℕ → F → Mat n ℂ) (hW : ∀ f, IsUnit (W 0 f).det)
    (hrun : ∀ i, auxIss1 floor d (separate X (W i)) = separate X (W (i + 1)))
    (hr : ∀ i, RegIss1 floor d (separate X (W i))) :
    (∀ i f, IsUnit (W i f).det) ∧ (∀ i, lossIp G X (W (i + 1)) ≤ lossIp G X (W i)) ∧
    ∀ (V : F → Mat n ℂ) (φ : ℕ → ℕ), StrictMono φ → Tendsto (fun i => W (φ i)) atTop (𝓝 V) →
      (∀ f, IsUnit (V f).det) → (∀ k s, 0 < binNorm (separate X V) k s) → Stationary (lossIp G X) V := by
  have hstep : ∀ i, (∀ f, IsUnit (W i f).det) →
      (∀ f, IsUnit (W (i + 1) f).det) ∧ lossIp G X (W (i + 1)) ≤ lossIp G X (W i) := by
    intro i hi
    obtain ⟨W', h1, h2, h3⟩ := auxIss1_step hG floor X hX (W i) hi (hr i)
    have e : W (i + 1) = W' := separate_injective X hX ((hrun i).symm.trans (Except.ok.inj h1))
    rw [e]
    exact ⟨h2, h3⟩
  have hu : ∀ i f, IsUnit (W i f).det := fun i => by
    induction i with
    | zero => exact hW
    | succ i ih => exact (hstep i ih).1
  refine ⟨hu, fun i => (hstep i (hu i)).2, fun V φ hφ hV hVu hVp => ?_⟩
  obtain ⟨V', h1, h2, h3, h4⟩ := iss1Stack_strict (fun _ => weight id d (separate X V))
    (fun _ => weight_id_pos hG hVp) X hX V hVu
  have hw := tendsto_weight hdc (tendsto_separate X hV) hVp
  have hlimY : ∀ f, Tendsto (fun i => separate X (W (φ i + 1)) f) atTop (𝓝 (separate X V' f)) := by
    intro f
    have h := iss1_tendsto hw (weight_id_pos hG hVp) (hX f) (List.finRange n) (tendsto_separate X hV f) (hVu f)
    have e1 : (List.finRange n).foldl (iss1Row id (weight id d (separate X V))) (V f * X f) = separate X V' f :=
      congrFun h1 f
    rw [e1] at h
    refine h.congr fun i => ?_
    have := hrun (φ i)
    rw [(hr (φ i)).2] at this
    exact congrFun this f
  have hle := limit_no_better (fun _ => hw) X hV hVu (tendsto_filter X hX hlimY) h2
    (decrease_tendsto (x := fun i => lossIp G X (W i)) (fun i => (hstep i (hu i)).2) hφ
      (tendsto_lossIp (fun k s r hr => (hd k s r hr).continuousAt) X hV hVu hVp)) fun i =>
    mm_gap G (weight id d (separate X (W (φ i)))) _ _ (W (φ i)) (W (φ i + 1)) fun k s =>
      hG.le k s _ _ ((hr (φ i)).1 k s) (binNorm_nonneg _ k s)
  rw [lossIp_eq]
  refine (Grad.stationary_iff_balanced _ X V hVu (isScoreAt hd _ hVp)).2 (h4.1 (h3.resolve_left fun h => ?_))
  exact absurd hle (not_le.2 h)

end

/-- What C70 says about the separated signals follows from what it says about the filters. -/
theorem output_form (X : Spec F n t) (hX : ∀ f, LinearIndependent ℂ (X f).row)
    {W : ℕ → F → Mat n ℂ} {Y : ℕ → Spec F n t} (hWY : ∀ i, Y i = separate X (W i))
    {P : (F → Mat n ℂ) → Prop}
    (hex : ∃ V, ∃ φ : ℕ → ℕ, StrictMono φ ∧ Tendsto (fun i => W (φ i)) atTop (𝓝 V))
    (hall : ∀ (V : F → Mat n ℂ) (φ : ℕ → ℕ), StrictMono φ → Tendsto (fun i => W (φ i)) atTop (𝓝 V) → P V) :
    (∃ Y', ∃ φ : ℕ → ℕ, StrictMono φ ∧ Tendsto (fun i => Y (φ i)) atTop (𝓝 Y')) ∧
    ∀ (Y' : Spec F n t) (φ : ℕ → ℕ), StrictMono φ → Tendsto (fun i => Y (φ i)) atTop (𝓝 Y') →
      ∃ V : F → Mat n ℂ, Y' = separate X V ∧ P V := by
  obtain ⟨V, φ, k2, k2'⟩ := hex
  refine ⟨⟨separate X V, φ, k2, ?_⟩, fun Y' φ hφ hY' => ?_⟩
  · rw [tendsto_pi_nhds]
    intro f
    refine (tendsto_separate X k2' f).congr fun i => ?_
    rw [hWY]
  · obtain ⟨V, hV⟩ : ∃ V : F → Mat n ℂ, V = fun f => Y' f * (X f)ᴴ * (X f * (X f)ᴴ)⁻¹ := ⟨_, rfl⟩
    have hlim : Tendsto (fun i => W (φ i)) atTop (𝓝 V) := by
      rw [tendsto_pi_nhds, hV]
      intro f
      refine (tendsto_matrix_mul (tendsto_matrix_mul (tendsto_pi_nhds.1 hY' f) tendsto_const_nhds)
        tendsto_const_nhds).congr fun i => ?_
      rw [hWY, filter_of_separate X hX]
    have hYV : Y' = separate X V := by
      funext f
      refine tendsto_nhds_unique (tendsto_pi_nhds.1 hY' f) ((tendsto_separate X hlim f).congr fun i => ?_)
      rw [hWY]
    exact ⟨V, hYV, hall V φ hφ hlim⟩

/-- If an iteration finds the global minimum of the auxiliary function, then the accumulation points are stationary. -/
theorem limit_stationary_of_best {n : ℕ} {G d : Fin n → Fin t → ℝ → ℝ} (hG : Majorised G d)
    (hd : ∀ k s r, 0 < r → HasDerivAt (G k s) (d k s r) r) (hdc : ∀ k s, ContinuousOn (d k s) (Set.Ioi 0))
    (X : Spec F n t) (hX : ∀ f, LinearIndependent ℂ (X f).row) (W : ℕ → F → Mat n ℂ) (hW : ∀ f, IsUnit (W 0 f).det)
    (hp : ∀ i k s, 0 < binNorm (separate X (W i)) k s)
    (hbest : ∀ i, (∀ f, IsUnit (W i f).det) → (∀ f, IsUnit (W (i + 1) f).det) ∧
      ∀ B : F → Mat n ℂ, (∀ f, IsUnit (B f).det) → auxFn (fun _ => weight id d (separate X (W i))) X (W (i + 1))
        ≤ auxFn (fun _ => weight id d (separate X (W i))) X B) :
    (∀ i f, IsUnit (W i f).det) ∧ (∀ i, lossIp G X (W (i + 1)) ≤ lossIp G X (W i)) ∧
    ∀ (V : F → Mat n ℂ) (φ : ℕ → ℕ), StrictMono φ → Tendsto (fun i => W (φ i)) atTop (𝓝 V) →
      (∀ f, IsUnit (V f).det) → (∀ k s, 0 < binNorm (separate X V) k s) → Stationary (lossIp G X) V := by
  have hu : ∀ i f, IsUnit (W i f).det := fun i => by
    induction i with
    | zero => exact hW
    | succ i ih => exact (hbest i ih).1
  have hmm : ∀ i, lossIp G X (W (i + 1)) - lossIp G X (W i)
      ≤ auxFn (fun _ => weight id d (separate X (W i))) X (W (i + 1))
        - auxFn (fun _ => weight id d (separate X (W i))) X (W i) := fun i =>
    mm_gap G (weight id d (separate X (W i))) _ _ (W i) (W (i + 1)) fun k s =>
      hG.le k s _ _ (hp i k s) (binNorm_nonneg _ k s)
  have hdec : ∀ i, lossIp G X (W (i + 1)) ≤ lossIp G X (W i) := fun i => by
    have h1 := (hbest i (hu i)).2 (W i) (hu i)
    have h2 := hmm i
    linarith
  have h := fun i => ip1Stack_strict (fun _ => weight id d (separate X (W i))) (fun _ => weight_id_pos hG (hp i)) X hX
    (W i) (hu i)
  choose B h1 h2 h3 h4 using h
  refine ⟨hu, hdec, limit_stationary hd hdc X hX hG.pos W B hu hdec hp h1 fun i => ?_⟩
  have := (hbest i (hu i)).2 (B i) (h2 i)
  linarith [hmm i]

theorem onBins_apply {β : Type} {g : F → Except PyErr β} {y : F → β} (h : onBins g = .ok y) (f : F) :
    g f = .ok (y f) := by
  rw [onBins] at h
  split_ifs at h with hg
  · rw [← Except.ok.inj h]
    exact (hg f).choose_spec

/-- With two sources IP2 finds the global minimum of the auxiliary function. -/
theorem ip2_best (np : Numpy ℂ) {phi : F → Fin 2 → Fin t → ℝ} (hphi : ∀ f k s, 0 < phi f k s) (X : Spec F 2 t)
    (hX : ∀ f, LinearIndependent ℂ (X f).row) (W : F → Mat 2 ℂ) (hW : ∀ f, IsUnit (W f).det) :
    ∃ W' : F → Mat 2 ℂ, onBins (fun f => ip2Pair np id (wcov (phi f) X f) (W f) (0, 1)) = .ok W' ∧
      (∀ f, IsUnit (W' f).det) ∧ ∀ B : F → Mat 2 ℂ, (∀ f, IsUnit (B f).det) → auxFn phi X W' ≤ auxFn phi X B := by
  have hU : ∀ f k, (wcov (phi f) X f k).PosDef := fun f k => wcov_posDef (hphi f) hX f k
  obtain ⟨W', h1, h2, -⟩ := ip2Pair_weighted np phi hphi X hX W hW (0, 1) (by decide)
  refine ⟨W', h1, h2, fun B hB => Finset.sum_le_sum fun f _ => ?_⟩
  obtain ⟨V, k1, -, -, -, k2⟩ := C32_pair_optimal np (wcov (phi f) X f) (hU f) (W f) (hW f) 0 1 (by decide)
  have e : W' f = V := by
    have h3 := onBins_apply h1 f
    rw [ip2, List.foldlM_cons, h3] at k1
    exact Except.ok.inj k1
  have := k2 (B f) (hB f) fun j h0 h1 => by
    exfalso
    revert h0 h1
    fin_cases j <;> simp
  rw [← e] at this
  rwa [ipLoss_wcov, ipLoss_wcov] at this

/-- With two sources ISS2 finds the global minimum of the auxiliary function. -/
theorem iss2_best (np : Numpy ℂ) {phi : F → Fin 2 → Fin t → ℝ} (hphi : ∀ f k s, 0 < phi f k s) (X : Spec F 2 t)
    (hX : ∀ f, LinearIndependent ℂ (X f).row) (W : F → Mat 2 ℂ) (hW : ∀ f, IsUnit (W f).det) :
    ∃ W' : F → Mat 2 ℂ, onBins (fun f => iss2Pair np id (phi f) (separate X W f) (0, 1)) = .ok (separate X W') ∧
      (∀ f, IsUnit (W' f).det) ∧ ∀ B : F → Mat 2 ℂ, (∀ f, IsUnit (B f).det) → auxFn phi X W' ≤ auxFn phi X B := by
  have h := fun f => iss2Pair_best np (phi f) (hphi f) (separate X W f) (show (0 : Fin 2) ≠ 1 by decide)
    (pair_rows_injective (hX f) (hW f) (by decide))
  choose T h1 h2 h3 h4 using h
  have hu : ∀ f, IsUnit (T f * W f).det := fun f => by rw [det_mul]; exact (h1 f).mul (hW f)
  refine ⟨fun f => T f * W f, onBins_ok fun f => ?_, hu, fun B hB => Finset.sum_le_sum fun f _ => ?_⟩
  · rw [h2 f]
    simp only [separate, Matrix.mul_assoc]
  · have hS : IsUnit (B f * (W f)⁻¹).det := by
      rw [det_mul]
      exact (hB f).mul ((W f).isUnit_nonsing_inv_det (hW f))
    have h5 := h4 f (B f * (W f)⁻¹) hS fun i j h0 h1 => by
      exfalso
      revert h0 h1
      fin_cases j <;> simp
    have e1 : B f * (W f)⁻¹ * separate X W f = separate X B f := by
      rw [separate, ← Matrix.mul_assoc, nonsing_inv_mul_cancel_right _ _ (hW f)]
      rfl
    have e2 : separate X (fun f => T f * W f) f = T f * separate X W f := by
      simp only [separate, Matrix.mul_assoc]
    have hlog : ∀ S : Mat 2 ℂ, IsUnit S.det →
        Real.log ‖(S * W f).det‖ = Real.log ‖S.det‖ + Real.log ‖(W f).det‖ := fun S hS => by
      rw [det_mul, norm_mul, Real.log_mul (norm_ne_zero_iff.2 hS.ne_zero) (norm_ne_zero_iff.2 (hW f).ne_zero)]
    have h6 := hlog _ hS
    rw [nonsing_inv_mul_cancel_right _ _ (hW f)] at h6
    rw [e1] at h5
    rw [e2, hlog _ (h1 f)]
    linarith

/-- C70: an endless run of `AuxIVA` with IP1. -/
theorem C70_ip1 {G d : Fin n → Fin t → ℝ → ℝ} (hG : Majorised G d)
    (hd : ∀ k s r, 0 < r → HasDerivAt (G k s) (d k s r) r) (hdc : ∀ k s, ContinuousOn (d k s) (Set.Ioi 0))
    (hGl : Linear G) (floor : ℝ → ℝ) (X : Spec F n t)
    (hX : ∀ f, LinearIndependent ℂ (X f).row) (W : ℕ → F → Mat n ℂ) (hW : ∀ f, IsUnit (W 0 f).det)
    (hrun : ∀ i, auxIp1 floor d X (W i) = .ok (W (i + 1))) (hr : ∀ i, RegIp1 floor d X (W i)) :
    (∃ v, Tendsto (fun i => lossIp G X (W i)) atTop (𝓝 v)) ∧
    (∃ V, ∃ φ : ℕ → ℕ, StrictMono φ ∧ Tendsto (fun i => W (φ i)) atTop (𝓝 V)) ∧
    ∀ (V : F → Mat n ℂ) (φ : ℕ → ℕ), StrictMono φ → Tendsto (fun i => W (φ i)) atTop (𝓝 V) →
      (∀ f, IsUnit (V f).det) ∧ ((∀ k s, 0 < binNorm (separate X V) k s) → Stationary (lossIp G X) V) := by
  obtain ⟨h1, h2, h3⟩ := limit_stationary_ip1 hG hd hdc X hX floor W hW hrun hr
  obtain ⟨k1, k2, k3⟩ := descent (grows hGl X hX) h1 h2
  exact ⟨k1, k2, fun V φ hφ hV => ⟨k3 V φ hV, h3 V φ hφ hV (k3 V φ hV)⟩⟩

/-- C70: an endless run of `AuxIVA` with ISS1, in terms of the output. -/
theorem C70_iss1 {G d : Fin n → Fin t → ℝ → ℝ} (hG : Majorised G d)
    (hd : ∀ k s r, 0 < r → HasDerivAt (G k s) (d k s r) r) (hdc : ∀ k s, ContinuousOn (d k s) (Set.Ioi 0))
    (hGl : Linear G) (floor : ℝ → ℝ) (X : Spec F n t)
    (hX : ∀ f, LinearIndependent ℂ (X f).row) (W₀ : F → Mat n ℂ) (hW : ∀ f, IsUnit (W₀ f).det) (Y : ℕ → Spec F n t)
    (hY₀ : Y 0 = separate X W₀) (hrun : ∀ i, Y (i + 1) = auxIss1 floor d (Y i)) (hr : ∀ i, RegIss1 floor d (Y i)) :
    (∃ ls : ℕ → ℝ, (∀ i, lossFree G X (Y i) = .ok (ls i)) ∧ ∃ v, Tendsto ls atTop (𝓝 v)) ∧
    (∃ Y', ∃ φ : ℕ → ℕ, StrictMono φ ∧ Tendsto (fun i => Y (φ i)) atTop (𝓝 Y')) ∧
    ∀ (Y' : Spec F n t) (φ : ℕ → ℕ), StrictMono φ → Tendsto (fun i => Y (φ i)) atTop (𝓝 Y') →
      ∃ V : F → Mat n ℂ, Y' = separate X V ∧ (∀ f, IsUnit (V f).det) ∧
        ((∀ k s, 0 < binNorm Y' k s) → Stationary (lossIp G X) V) := by
  have hex : ∀ i, ∃ V : F → Mat n ℂ, Y i = separate X V ∧ ∀ f, IsUnit (V f).det := by
    intro i
    induction i with
    | zero => exact ⟨W₀, hY₀, hW⟩
    | succ i ih =>
      obtain ⟨V, h1, h2⟩ := ih
      have hri := hr i
      rw [h1] at hri
      obtain ⟨V', k1, k2, -⟩ := auxIss1_step hG floor X hX V h2 hri
      exact ⟨V', by rw [hrun i, h1]; exact Except.ok.inj k1, k2⟩
  choose W hWY hWu using hex
  obtain ⟨h1, h2, h3⟩ := limit_stationary_iss1 hG hd hdc X hX floor W (hWu 0)
    (fun i => by rw [← hWY, ← hWY, hrun i]) (fun i => by rw [← hWY]; exact hr i)
  obtain ⟨⟨v, k1⟩, k2, k3⟩ := descent (grows hGl X hX) h1 h2
  obtain ⟨k4, k5⟩ := output_form X hX hWY k2 fun V φ hφ hV =>
    (⟨k3 V φ hV, h3 V φ hφ hV (k3 V φ hV)⟩ : (∀ f, IsUnit (V f).det) ∧
      ((∀ k s, 0 < binNorm (separate X V) k s) → Stationary (lossIp G X) V))
  refine ⟨⟨_, fun i => by rw [hWY]; exact lossFree_eq G X hX (W i), v, k1⟩, k4, fun Y' φ hφ hY' => ?_⟩
  obtain ⟨V, rfl, h5, h6⟩ := k5 Y' φ hφ hY'
  exact ⟨V, rfl, h5, h6⟩

/-- C70: an endless run of `AuxIVA` with IP2 and two sources. -/
theorem C70_ip2_two (np : Numpy ℂ) {G d : Fin 2 → Fin t → ℝ → ℝ} (hG : Majorised G d)
    (hd : ∀ k s r, 0 < r → HasDerivAt (G k s) (d k s r) r) (hdc : ∀ k s, ContinuousOn (d k s) (Set.Ioi 0))
    (hGl : Linear G) (floor : ℝ → ℝ) (X : Spec F 2 t)
    (hX : ∀ f, LinearIndependent ℂ (X f).row) (W : ℕ → F → Mat 2 ℂ) (hW : ∀ f, IsUnit (W 0 f).det)
    (hrun : ∀ i, auxIp2 np floor [(0, 1)] d X (W i) = .ok (W (i + 1)))
    (hr : ∀ i, RegIp2 np floor d X (W i) (0, 1)) :
    (∃ v, Tendsto (fun i => lossIp G X (W i)) atTop (𝓝 v)) ∧
    (∃ V, ∃ φ : ℕ → ℕ, StrictMono φ ∧ Tendsto (fun i => W (φ i)) atTop (𝓝 V)) ∧
    ∀ (V : F → Mat 2 ℂ) (φ : ℕ → ℕ), StrictMono φ → Tendsto (fun i => W (φ i)) atTop (𝓝 V) →
      (∀ f, IsUnit (V f).det) ∧ ((∀ k s, 0 < binNorm (separate X V) k s) → Stationary (lossIp G X) V) := by
  obtain ⟨h1, h2, h3⟩ := limit_stationary_of_best hG hd hdc X hX W hW (fun i => (hr i).1) fun i hu => by
    obtain ⟨W', k1, k2⟩ := ip2_best np (fun _ => weight_id_pos hG (hr i).1) X hX (W i) hu
    have e : W (i + 1) = W' := by
      have := hrun i
      rw [auxIp2, List.foldlM_cons, (hr i).2, auxIp2Pair, k1] at this
      exact (Except.ok.inj this).symm
    rw [e]
    exact k2
  obtain ⟨k1, k2, k3⟩ := descent (grows hGl X hX) h1 h2
  exact ⟨k1, k2, fun V φ hφ hV => ⟨k3 V φ hV, h3 V φ hφ hV (k3 V φ hV)⟩⟩

/-- C70: an endless run of `AuxIVA` with ISS2 and two sources, in terms of the output. -/
theorem C70_iss2_two (np : Numpy ℂ) {G d : Fin 2 → Fin t → ℝ → ℝ} (hG : Majorised G d)
    (hd : ∀ k s r, 0 < r → HasDerivAt (G k s) (d k s r) r) (hdc : ∀ k s, ContinuousOn (d k s) (Set.Ioi 0))
    (hGl : Linear G) (floor : ℝ → ℝ) (X : Spec F 2 t)
    (hX : ∀ f, LinearIndependent ℂ (X f).row) (W₀ : F → Mat 2 ℂ) (hW : ∀ f, IsUnit (W₀ f).det) (Y : ℕ → Spec F 2 t)
    (hY₀ : Y 0 = separate X W₀) (hrun : ∀ i, auxIss2 np floor [(0, 1)] d (Y i) = .ok (Y (i + 1)))
    (hr : ∀ i, RegIss2 np floor [(0, 1)] d (Y i)) :
    (∃ ls : ℕ → ℝ, (∀ i, lossFree G X (Y i) = .ok (ls i)) ∧ ∃ v, Tendsto ls atTop (𝓝 v)) ∧
    (∃ Y', ∃ φ : ℕ → ℕ, StrictMono φ ∧ Tendsto (fun i => Y (φ i)) atTop (𝓝 Y')) ∧
    ∀ (Y' : Spec F 2 t) (φ : ℕ → ℕ), StrictMono φ → Tendsto (fun i => Y (φ i)) atTop (𝓝 Y') →
      ∃ V : F → Mat 2 ℂ, Y' = separate X V ∧ (∀ f, IsUnit (V f).det) ∧
        ((∀ k s, 0 < binNorm Y' k s) → Stationary (lossIp G X) V) := by
  have hstep : ∀ i (V : F → Mat 2 ℂ), Y i = separate X V → (∀ f, IsUnit (V f).det) →
      ∃ V' : F → Mat 2 ℂ, Y (i + 1) = separate X V' ∧ (∀ f, IsUnit (V' f).det) ∧
        ∀ B : F → Mat 2 ℂ, (∀ f, IsUnit (B f).det) → auxFn (fun _ => weight id d (separate X V)) X V'
          ≤ auxFn (fun _ => weight id d (separate X V)) X B := by
    intro i V hV hu
    have hri := hr i
    have hi := hrun i
    rw [hV] at hri hi
    obtain ⟨V', k1, k2⟩ := iss2_best np (fun _ => weight_id_pos hG hri.1) X hX V hu
    refine ⟨V', ?_, k2⟩
    rw [hri.2, auxIss2, List.foldlM_cons, k1] at hi
    exact (Except.ok.inj hi).symm
  have hex : ∀ i, ∃ V : F → Mat 2 ℂ, Y i = separate X V ∧ ∀ f, IsUnit (V f).det := by
    intro i
    induction i with
    | zero => exact ⟨W₀, hY₀, hW⟩
    | succ i ih =>
      obtain ⟨V, h1, h2⟩ := ih
      obtain ⟨V', k1, k2, -⟩ := hstep i V h1 h2
      exact ⟨V', k1, k2⟩
  choose W hWY hWu using hex
  obtain ⟨h1, h2, h3⟩ := limit_stationary_of_best hG hd hdc X hX W (hWu 0)
    (fun i => by rw [← hWY]; exact (hr i).1) fun i hu => by
    obtain ⟨V', k1, k2⟩ := hstep i (W i) (hWY i) hu
    have e : W (i + 1) = V' := separate_injective X hX ((hWY (i + 1)).symm.trans k1)
    rw [e]
    exact k2
  obtain ⟨⟨v, k1⟩, k2, k3⟩ := descent (grows hGl X hX) h1 h2
  obtain ⟨k4, k5⟩ := output_form X hX hWY k2 fun V φ hφ hV =>
    (⟨k3 V φ hV, h3 V φ hφ hV (k3 V φ hV)⟩ : (∀ f, IsUnit (V f).det) ∧
      ((∀ k s, 0 < binNorm (separate X V) k s) → Stationary (lossIp G X) V))
  refine ⟨⟨_, fun i => by rw [hWY]; exact lossFree_eq G X hX (W i), v, k1⟩, k4, fun Y' φ hφ hY' => ?_⟩
  obtain ⟨V, rfl, h5, h6⟩ := k5 Y' φ hφ hY'
  exact ⟨V, rfl, h5, h6⟩

/-! ## `AuxLaplaceIVA` -/

theorem laplace_linear : Linear (laplaceG (n := n) (t := t)) :=
  ⟨2, two_pos, 0, fun _ _ r _ => by simp [laplaceG]⟩

/-- C70 for `AuxLaplaceIVA` with IP1. -/
theorem C70_laplace_ip1 (floor : ℝ → ℝ) (X : Spec F n t)
    (hX : ∀ f, LinearIndependent ℂ (X f).row) (W : ℕ → F → Mat n ℂ) (hW : ∀ f, IsUnit (W 0 f).det)
    (hrun : ∀ i, auxIp1 floor laplaceD X (W i) = .ok (W (i + 1))) (hr : ∀ i, RegIp1 floor laplaceD X (W i)) :
    (∃ v, Tendsto (fun i => lossIp laplaceG X (W i)) atTop (𝓝 v)) ∧
    (∃ V, ∃ φ : ℕ → ℕ, StrictMono φ ∧ Tendsto (fun i => W (φ i)) atTop (𝓝 V)) ∧
    ∀ (V : F → Mat n ℂ) (φ : ℕ → ℕ), StrictMono φ → Tendsto (fun i => W (φ i)) atTop (𝓝 V) →
      (∀ f, IsUnit (V f).det) ∧ ((∀ k s, 0 < binNorm (separate X V) k s) → Stationary (lossIp laplaceG X) V) :=
  C70_ip1 laplace_majorised laplace_hasDerivAt (fun _ _ => continuousOn_const) laplace_linear floor X hX W hW hrun hr

/-- C70 for `AuxLaplaceIVA` with ISS1. -/
theorem C70_laplace_iss1 (floor : ℝ → ℝ) (X : Spec F n t)
    (hX : ∀ f, LinearIndependent ℂ (X f).row) (W₀ : F → Mat n ℂ) (hW : ∀ f, IsUnit (W₀ f).det) (Y : ℕ → Spec F n t)
    (hY₀ : Y 0 = separate X W₀) (hrun : ∀ i, Y (i + 1) = auxIss1 floor laplaceD (Y i))
    (hr : ∀ i, RegIss1 floor laplaceD (Y i)) :
    (∃ ls : ℕ → ℝ, (∀ i, lossFree laplaceG X (Y i) = .ok (ls i)) ∧ ∃ v, Tendsto ls atTop (𝓝 v)) ∧
    (∃ Y', ∃ φ : ℕ → ℕ, StrictMono φ ∧ Tendsto (fun i => Y (φ i)) atTop (𝓝 Y')) ∧
    ∀ (Y' : Spec F n t) (φ : ℕ → ℕ), StrictMono φ → Tendsto (fun i => Y (φ i)) atTop (𝓝 Y') →
      ∃ V : F → Mat n ℂ, Y' = separate X V ∧ (∀ f, IsUnit (V f).det) ∧
        ((∀ k s, 0 < binNorm Y' k s) → Stationary (lossIp laplaceG X) V) :=
  C70_iss1 laplace_majorised laplace_hasDerivAt (fun _ _ => continuousOn_const) laplace_linear floor X hX W₀ hW Y hY₀
    hrun hr

/-! ## `AuxGaussIVA` -/

/-- The loss of `AuxGaussIVA` with the best variances, up to a constant, as a function of the norms. -/
noncomputable def profileG (F : Type) [Fintype F] : Fin n → Fin t → ℝ → ℝ := fun _ _ r => Fintype.card F * Real.log (r ^ 2)
noncomputable def profileD (F : Type) [Fintype F] : Fin n → Fin t → ℝ → ℝ := fun _ _ r => Fintype.card F * (2 / r)

theorem profile_hasDerivAt (k : Fin n) (s : Fin t) (r : ℝ) (hr : 0 < r) :
    HasDerivAt (profileG F k s) (profileD F k s r) r := by
  have := ((hasDerivAt_pow 2 r).log (pow_ne_zero 2 hr.ne')).const_mul (Fintype.card F : ℝ)
  refine this.congr_deriv ?_
  rw [profileD]
  push_cast
  field_simp

theorem gauss_weight [Nonempty F] {Y : Spec F n t} (hY : ∀ k s, 0 < binNorm Y k s) :
    weight id (gaussD (gaussVariance Y)) Y = weight id (profileD F) Y := by
  funext k s
  have h0 := (hY k s).ne'
  have hN : (Fintype.card F : ℝ) ≠ 0 := by exact_mod_cast Fintype.card_ne_zero
  rw [weight, weight, gaussD, gaussVariance, ← binNorm_sq, profileD, id]
  field_simp

/-- The profile loss grows no faster than its parabola. -/
theorem profile_le {r₀ r : ℝ} (h₀ : 0 < r₀) (hr : 0 < r) (k : Fin n) (s : Fin t) :
    profileG F k s r ≤ profileG F k s r₀ + profileD F k s r₀ / (2 * r₀) * (r ^ 2 - r₀ ^ 2) := by
  have h := Real.log_le_sub_one_of_pos (div_pos (pow_pos hr 2) (pow_pos h₀ 2))
  rw [Real.log_div (pow_ne_zero 2 hr.ne') (pow_ne_zero 2 h₀.ne')] at h
  have e : profileD F k s r₀ / (2 * r₀) * (r ^ 2 - r₀ ^ 2) = Fintype.card F * (r ^ 2 / r₀ ^ 2 - 1) := by
    rw [profileD]
    field_simp
  rw [e, profileG, profileG, ← mul_add]
  exact mul_le_mul_of_nonneg_left (by linarith) (Nat.cast_nonneg _)

/-- C70 for `AuxGaussIVA` with IP1: every invertible accumulation point of the filters without silent frames, together
with the variances of its signals, is a stationary point of the loss. -/
theorem C70_gauss_ip1 [Nonempty F] (floor : ℝ → ℝ) (X : Spec F n t) (hX : ∀ f, LinearIndependent ℂ (X f).row)
    (s : ℕ → GaussState F n t) (hW : ∀ f, IsUnit ((s 0).W f).det)
    (hrun : ∀ i, gaussIp1 floor X (s i) = .ok (s (i + 1))) (hr : ∀ i, RegGaussIp1 floor X (s i)) (V : F → Mat n ℂ)
    (φ : ℕ → ℕ) (hφ : StrictMono φ) (hV : Tendsto (fun i => (s (φ i)).W) atTop (𝓝 V))
    (hVu : ∀ f, IsUnit (V f).det) (hVp : ∀ k j, 0 < binNorm (separate X V) k j) :
    GaussStationary X ⟨V, gaussVariance (separate X V)⟩ := by
  have hN : (0 : ℝ) < Fintype.card F := by exact_mod_cast Fintype.card_pos
  have hpos : ∀ (k : Fin n) (j : Fin t) r, 0 < r → 0 < profileD F k j r := fun k j r h =>
    mul_pos hN (div_pos two_pos h)
  have hrun' : ∀ i, auxIp1 id (profileD F) X (s i).W = .ok (s (i + 1)).W := by
    intro i
    have h := hrun i
    rw [(hr i).2, gaussIp1] at h
    cases h1 : auxIp1 id (gaussD (gaussVariance (separate X (s i).W))) X (s i).W with
    | error e => simp only [h1, Bind.bind, Except.bind] at h; cases h
    | ok W' =>
      simp only [h1, Bind.bind, Except.bind] at h
      rw [← Except.ok.inj h, ← h1, auxIp1, auxIp1]
      simp only [gauss_weight (hr i).1]
  have hspec := fun i (hu : ∀ f, IsUnit ((s i).W f).det) =>
    ip1Stack_strict (fun _ => weight id (profileD F) (separate X (s i).W)) (fun _ => weight_pos hpos (hr i).1) X hX
      (s i).W hu
  have hstep : ∀ i, (∀ f, IsUnit ((s i).W f).det) → (∀ f, IsUnit ((s (i + 1)).W f).det) ∧
      auxFn (fun _ => weight id (profileD F) (separate X (s i).W)) X (s (i + 1)).W
        ≤ auxFn (fun _ => weight id (profileD F) (separate X (s i).W)) X (s i).W := by
    intro i hu
    obtain ⟨W', h1, h2, h3, -⟩ := hspec i hu
    have e : (s (i + 1)).W = W' := Except.ok.inj ((hrun' i).symm.trans h1)
    rw [e]
    exact ⟨h2, h3.elim le_of_lt fun h => by rw [h]⟩
  have hu : ∀ i f, IsUnit ((s i).W f).det := fun i => by
    induction i with
    | zero => exact hW
    | succ i ih => exact (hstep i ih).1
  have hgap : ∀ i, lossIp (profileG F) X (s (i + 1)).W - lossIp (profileG F) X (s i).W
      ≤ auxFn (fun _ => weight id (profileD F) (separate X (s i).W)) X (s (i + 1)).W
        - auxFn (fun _ => weight id (profileD F) (separate X (s i).W)) X (s i).W := fun i =>
    mm_gap (profileG F) (weight id (profileD F) (separate X (s i).W)) _ _ (s i).W (s (i + 1)).W fun k j =>
      profile_le ((hr i).1 k j) ((hr (i + 1)).1 k j) k j
  have hst := limit_stationary profile_hasDerivAt (fun k j => ?_) X hX hpos (fun i => (s i).W) (fun i => (s (i + 1)).W) hu
    (fun i => by linarith [hgap i, (hstep i (hu i)).2]) (fun i => (hr i).1) hrun' hgap V φ hφ hV hVu hVp
  · refine ⟨?_, (gaussVariance_stationary X V _ (gaussVariance_pos hVp)).1 rfl⟩
    rw [lossIp_eq, Grad.stationary_iff_balanced _ X V hVu (isScoreAt profile_hasDerivAt _ hVp)] at hst
    change Stationary (lossIp (gaussG F (gaussVariance (separate X V))) X) V
    rw [lossIp_eq]
    refine (Grad.stationary_iff_balanced _ X V hVu (isScoreAt (gauss_hasDerivAt (F := F) _) _ hVp)).2 ?_
    intro f
    have e := gauss_weight (Y := separate X V) hVp
    change Balanced (weight id (gaussD (gaussVariance (separate X V))) (separate X V)) _
    rw [e]
    exact hst f
  · exact continuousOn_const.mul (continuousOn_const.div continuousOn_id fun r hr => ne_of_gt hr)

end Iva

namespace Fdica

variable {α : Type} {l : Filter α}

/-- A contrast function that grows at least linearly. -/
def Linear (G : ℝ → ℝ) : Prop := ∃ a > 0, ∃ b, ∀ r, 0 ≤ r → a * r - b ≤ G r

theorem grows {G : ℝ → ℝ} (hG : Linear G) (X : Spec F n t) (hX : ∀ f, LinearIndependent ℂ (X f).row) :
    Grows (loss G X) := by
  obtain ⟨a, ha, b, hb⟩ := hG
  have h := fun f => mean_bound (hX f)
  choose κ hκ h using h
  have hbound : ∀ (V : F → Mat n ℂ) f, a * κ f * size (V f) - n * |b| ≤ ∑ k, meanT fun s => G ‖separate X V f k s‖ := by
    intro V f
    have : ∀ k : Fin n, a * meanT (fun s => ‖separate X V f k s‖) - |b| ≤ meanT fun s => G ‖separate X V f k s‖ := by
      intro k
      rcases Nat.eq_zero_or_pos t with rfl | ht
      · simp [meanT]
      have ht' : (0 : ℝ) < t := by exact_mod_cast ht
      rw [meanT, meanT, mul_div_assoc', sub_le_iff_le_add, div_le_iff₀ ht', add_mul, div_mul_cancel₀ _ ht'.ne',
        Finset.mul_sum]
      calc ∑ s, a * ‖separate X V f k s‖ ≤ ∑ s, (G ‖separate X V f k s‖ + |b|) := Finset.sum_le_sum fun s _ => by
            have := hb _ (norm_nonneg (separate X V f k s))
            linarith [le_abs_self b]
        _ = _ := by rw [Finset.sum_add_distrib]; simp; ring
    calc a * κ f * size (V f) - n * |b| ≤ a * ∑ k, meanT (fun s => ‖separate X V f k s‖) - n * |b| := by
          have := mul_le_mul_of_nonneg_left (h f (V f)) ha.le
          rw [← mul_assoc] at this
          exact sub_le_sub_right this _
      _ = ∑ k : Fin n, (a * meanT (fun s => ‖separate X V f k s‖) - |b|) := by
          rw [Finset.sum_sub_distrib, Finset.mul_sum]
          simp
      _ ≤ _ := Finset.sum_le_sum fun k _ => this k
  rcases isEmpty_or_nonempty F with hF | hF
  · exact ⟨1, one_pos, 0, fun V => by simp [loss]⟩
  obtain ⟨κ₀, hκ₀⟩ : ∃ κ₀, κ₀ = Finset.univ.inf' Finset.univ_nonempty κ := ⟨_, rfl⟩
  have hκ₀p : 0 < κ₀ := by
    rw [hκ₀, Finset.lt_inf'_iff]
    exact fun f _ => hκ f
  refine ⟨a * κ₀, mul_pos ha hκ₀p, Fintype.card F * (n * |b|), fun V => ?_⟩
  calc a * κ₀ * ∑ f, size (V f) - Fintype.card F * (n * |b|) - 2 * ∑ f, Real.log ‖(V f).det‖
      = ∑ f, (a * κ₀ * size (V f) - n * |b| - 2 * Real.log ‖(V f).det‖) := by
        rw [Finset.sum_sub_distrib, Finset.sum_sub_distrib, Finset.mul_sum, Finset.mul_sum]
        simp
    _ ≤ _ := Finset.sum_le_sum fun f _ => by
        have hk : κ₀ ≤ κ f := by rw [hκ₀]; exact Finset.inf'_le _ (Finset.mem_univ f)
        have h1 := mul_le_mul_of_nonneg_right (mul_le_mul_of_nonneg_left hk ha.le) (size_nonneg (V f))
        linarith [hbound V f]

theorem tendsto_weight {d : ℝ → ℝ} (hd : ContinuousOn d (Set.Ioi 0)) {Y : α → Matrix (Fin n) (Fin t) ℂ}
    {Y' : Matrix (Fin n) (Fin t) ℂ} (hY : Tendsto Y l (𝓝 Y')) (hp : ∀ k s, Y' k s ≠ 0) (k : Fin n)
    (s : Fin t) : Tendsto (fun a => weight id d (Y a) k s) l (𝓝 (weight id d Y' k s)) := by
  have h := (tendsto_matrix.1 hY k s).norm
  have hc := hd.continuousAt (Ioi_mem_nhds (norm_pos_iff.2 (hp k s)))
  exact (hc.tendsto.comp h).div (tendsto_const_nhds.mul h) (mul_pos two_pos (norm_pos_iff.2 (hp k s))).ne'

theorem tendsto_loss {G : ℝ → ℝ} (hG : ∀ r, 0 < r → ContinuousAt G r) (X : Spec F n t)
    {A : α → F → Mat n ℂ} {V : F → Mat n ℂ} (hA : Tendsto A l (𝓝 V)) (hV : ∀ f, IsUnit (V f).det)
    (hp : ∀ f k s, separate X V f k s ≠ 0) : Tendsto (fun a => loss G X (A a)) l (𝓝 (loss G X V)) := by
  refine tendsto_finsetSum _ fun f _ => Tendsto.sub (tendsto_finsetSum _ fun k _ => tendsto_meanT fun s => ?_)
    (tendsto_const_nhds.mul (tendsto_logdet hA hV f))
  exact (hG _ (norm_pos_iff.2 (hp f k s))).tendsto.comp (tendsto_matrix.1 (tendsto_separate X hA f) k s).norm

/-- The same as for `AuxIVA`. -/
theorem limit_stationary {G d : ℝ → ℝ} (hG : Majorised G d) (hd : ∀ r, 0 < r → HasDerivAt G (d r) r)
    (hdc : ContinuousOn d (Set.Ioi 0)) (X : Spec F n t) (hX : ∀ f, LinearIndependent ℂ (X f).row)
    (W B : ℕ → F → Mat n ℂ) (hu : ∀ i f, IsUnit (W i f).det)
    (hp : ∀ i f k s, separate X (W i) f k s ≠ 0) (hB : ∀ i, auxIp1 id d X (W i) = .ok (B i))
    (hbest : ∀ i, auxFn (fun f => weight id d (separate X (W i) f)) X (W (i + 1))
        ≤ auxFn (fun f => weight id d (separate X (W i) f)) X (B i)) :
    (∀ i, loss G X (W (i + 1)) ≤ loss G X (W i)) ∧
    ∀ (V : F → Mat n ℂ) (φ : ℕ → ℕ), StrictMono φ → Tendsto (fun i => W (φ i)) atTop (𝓝 V) →
      (∀ f, IsUnit (V f).det) → (∀ f k s, separate X V f k s ≠ 0) → Stationary (loss G X) V := by
  have hgap : ∀ i, loss G X (W (i + 1)) - loss G X (W i)
      ≤ auxFn (fun f => weight id d (separate X (W i) f)) X (B i)
        - auxFn (fun f => weight id d (separate X (W i) f)) X (W i) := fun i => by
    have h1 := mm_gap hG X (W i) (W (i + 1)) (hp i)
    have h2 := hbest i
    unfold auxFn at h2 ⊢
    linarith
  have hdec : ∀ i, loss G X (W (i + 1)) ≤ loss G X (W i) := fun i => by
    obtain ⟨W', h1, h2, h3, -⟩ := Iva.ip1Stack_strict (fun f => weight id d (separate X (W i) f))
      (fun f => weight_id_pos hG (hp i f)) X hX (W i) (hu i)
    have e : B i = W' := Except.ok.inj ((hB i).symm.trans h1)
    have h4 : auxFn (fun f => weight id d (separate X (W i) f)) X (B i)
        ≤ auxFn (fun f => weight id d (separate X (W i) f)) X (W i) := by
      rw [e]
      exact h3.elim le_of_lt fun h => by rw [h]
    linarith [hgap i]
  refine ⟨hdec, fun V φ hφ hV hVu hVp => ?_⟩
  obtain ⟨V', h1, h2, h3, h4⟩ := Iva.ip1Stack_strict (fun f => weight id d (separate X V f))
    (fun f => weight_id_pos hG (hVp f)) X hX V hVu
  have hw := fun f => tendsto_weight hdc (tendsto_separate X hV f) (hVp f)
  have hlim : Tendsto (fun i => B (φ i)) atTop (𝓝 V') :=
    Iva.ip1Stack_tendsto (fun f k => Iva.tendsto_wcov (hw f) X f k)
      (fun i f k => Iva.wcov_posDef (weight_id_pos hG (hp (φ i) f)) hX f k)
      (fun f k => Iva.wcov_posDef (weight_id_pos hG (hVp f)) hX f k) hV (fun i => hu (φ i)) hVu
      (fun i => hB (φ i)) h1
  have hle := limit_no_better hw X hV hVu hlim h2
    (decrease_tendsto (x := fun i => loss G X (W i)) hdec hφ
      (tendsto_loss (fun r hr => (hd r hr).continuousAt) X hV hVu hVp)) fun i => hgap (φ i)
  rw [loss_eq]
  refine (Grad.stationary_iff_balanced _ X V hVu (isScoreAt hd _ hVp)).2 (h4.1 (h3.resolve_left fun h => ?_))
  exact absurd hle (not_le.2 h)

/-- C70: an endless run of `AuxFDICA` with IP1. -/
theorem C70_ip1 {G d : ℝ → ℝ} (hG : Majorised G d) (hd : ∀ r, 0 < r → HasDerivAt G (d r) r)
    (hdc : ContinuousOn d (Set.Ioi 0)) (hGl : Linear G) (floor : ℝ → ℝ) (X : Spec F n t)
    (hX : ∀ f, LinearIndependent ℂ (X f).row) (W : ℕ → F → Mat n ℂ) (hW : ∀ f, IsUnit (W 0 f).det)
    (hrun : ∀ i, auxIp1 floor d X (W i) = .ok (W (i + 1))) (hr : ∀ i, RegIp1 floor d X (W i)) :
    (∃ v, Tendsto (fun i => loss G X (W i)) atTop (𝓝 v)) ∧
    (∃ V, ∃ φ : ℕ → ℕ, StrictMono φ ∧ Tendsto (fun i => W (φ i)) atTop (𝓝 V)) ∧
    ∀ (V : F → Mat n ℂ) (φ : ℕ → ℕ), StrictMono φ → Tendsto (fun i => W (φ i)) atTop (𝓝 V) →
      (∀ f, IsUnit (V f).det) ∧ ((∀ f k s, separate X V f k s ≠ 0) → Stationary (loss G X) V) := by
  have hu : ∀ i f, IsUnit (W i f).det := fun i => by
    induction i with
    | zero => exact hW
    | succ i ih =>
      obtain ⟨W', h1, h2, -⟩ := auxIp1_step hG floor X hX (W i) ih (hr i)
      rw [hrun i] at h1
      cases h1
      exact h2
  obtain ⟨h2, h3⟩ := limit_stationary hG hd hdc X hX W (fun i => W (i + 1)) hu (fun i => (hr i).1)
    (fun i => by rw [← (hr i).2]; exact hrun i) fun i => le_rfl
  obtain ⟨k1, k2, k3⟩ := descent (grows hGl X hX) hu h2
  exact ⟨k1, k2, fun V φ hφ hV => ⟨k3 V φ hV, h3 V φ hφ hV (k3 V φ hV)⟩⟩

/-- C70: an endless run of `AuxFDICA` with IP2 and two sources. -/
theorem C70_ip2_two (np : Numpy ℂ) {G d : ℝ → ℝ} (hG : Majorised G d) (hd : ∀ r, 0 < r → HasDerivAt G (d r) r)
    (hdc : ContinuousOn d (Set.Ioi 0)) (hGl : Linear G) (floor : ℝ → ℝ) (X : Spec F 2 t)
    (hX : ∀ f, LinearIndependent ℂ (X f).row) (W : ℕ → F → Mat 2 ℂ) (hW : ∀ f, IsUnit (W 0 f).det)
    (hrun : ∀ i, auxIp2 np floor d [(0, 1)] X (W i) = .ok (W (i + 1)))
    (hr : ∀ i, RegIp2 np floor d X (W i) (0, 1)) :
    (∃ v, Tendsto (fun i => loss G X (W i)) atTop (𝓝 v)) ∧
    (∃ V, ∃ φ : ℕ → ℕ, StrictMono φ ∧ Tendsto (fun i => W (φ i)) atTop (𝓝 V)) ∧
    ∀ (V : F → Mat 2 ℂ) (φ : ℕ → ℕ), StrictMono φ → Tendsto (fun i => W (φ i)) atTop (𝓝 V) →
      (∀ f, IsUnit (V f).det) ∧ ((∀ f k s, separate X V f k s ≠ 0) → Stationary (loss G X) V) := by
  have hbest : ∀ i, (∀ f, IsUnit (W i f).det) → (∀ f, IsUnit (W (i + 1) f).det) ∧
      ∀ B : F → Mat 2 ℂ, (∀ f, IsUnit (B f).det) → auxFn (fun f => weight id d (separate X (W i) f)) X (W (i + 1))
        ≤ auxFn (fun f => weight id d (separate X (W i) f)) X B := by
    intro i hu
    obtain ⟨W', k1, k2⟩ := Iva.ip2_best np (fun f => weight_id_pos hG ((hr i).1 f)) X hX (W i) hu
    have e : W (i + 1) = W' := by
      have := hrun i
      rw [auxIp2, List.foldlM_cons, (hr i).2, auxIp2Pair, k1] at this
      exact (Except.ok.inj this).symm
    rw [e]
    exact k2
  have hu : ∀ i f, IsUnit (W i f).det := fun i => by
    induction i with
    | zero => exact hW
    | succ i ih => exact (hbest i ih).1
  have h := fun i => Iva.ip1Stack_strict (fun f => weight id d (separate X (W i) f))
    (fun f => weight_id_pos hG ((hr i).1 f)) X hX (W i) (hu i)
  choose B h1 h2 _ _ using h
  obtain ⟨h4, h3⟩ := limit_stationary hG hd hdc X hX W B hu (fun i => (hr i).1) h1 fun i =>
    (hbest i (hu i)).2 (B i) (h2 i)
  obtain ⟨k1, k2, k3⟩ := descent (grows hGl X hX) hu h4
  exact ⟨k1, k2, fun V φ hφ hV => ⟨k3 V φ hV, h3 V φ hφ hV (k3 V φ hV)⟩⟩

theorem laplace_linear : Linear laplaceG := ⟨2, two_pos, 0, fun r _ => by simp [laplaceG]⟩

/-- C70 for `AuxLaplaceFDICA` with IP1. -/
theorem C70_laplace_ip1 (floor : ℝ → ℝ) (X : Spec F n t)
    (hX : ∀ f, LinearIndependent ℂ (X f).row) (W : ℕ → F → Mat n ℂ) (hW : ∀ f, IsUnit (W 0 f).det)
    (hrun : ∀ i, auxIp1 floor laplaceD X (W i) = .ok (W (i + 1))) (hr : ∀ i, RegIp1 floor laplaceD X (W i)) :
    (∃ v, Tendsto (fun i => loss laplaceG X (W i)) atTop (𝓝 v)) ∧
    (∃ V, ∃ φ : ℕ → ℕ, StrictMono φ ∧ Tendsto (fun i => W (φ i)) atTop (𝓝 V)) ∧
    ∀ (V : F → Mat n ℂ) (φ : ℕ → ℕ), StrictMono φ → Tendsto (fun i => W (φ i)) atTop (𝓝 V) →
      (∀ f, IsUnit (V f).det) ∧ ((∀ f k s, separate X V f k s ≠ 0) → Stationary (loss laplaceG X) V) :=
  C70_ip1 laplace_majorised laplace_hasDerivAt continuousOn_const laplace_linear floor X hX W hW hrun hr

end Fdica

/-! ## The hypotheses can be met

Two sources in two frames with orthogonal rows, starting from the filters `diag(4, 9)`: the run is endless and not
constant. -/

/-- The recording of the example. -/
def limX : Spec Unit 2 2 := fun _ => !![1, 1; 1, -1]

/-- A diagonal filter of the example. -/
noncomputable def limW (a : Fin 2 → ℝ) : Unit → Mat 2 ℂ := fun _ => diagonal fun k => (a k : ℂ)

theorem limX_ind (f : Unit) : LinearIndependent ℂ (limX f).row := by
  have hdet : IsUnit (limX f) := by
    rw [isUnit_iff_isUnit_det, limX, det_fin_two_of]
    norm_num
  exact linearIndependent_rows_of_isUnit hdet

theorem limW_unit {a : Fin 2 → ℝ} (ha : ∀ k, 0 < a k) (f : Unit) : IsUnit (limW a f).det := by
  rw [limW, det_diagonal]
  refine isUnit_iff_ne_zero.2 (Finset.prod_ne_zero_iff.2 fun k _ => ?_)
  exact_mod_cast (ha k).ne'

theorem lim_entry (a : Fin 2 → ℝ) (f : Unit) (k s : Fin 2) : separate limX (limW a) f k s = a k * limX f k s := by
  rw [separate, limW, diagonal_mul]

theorem limX_norm (f : Unit) (k s : Fin 2) : ‖limX f k s‖ = 1 := by
  fin_cases k <;> fin_cases s <;> simp [limX]

theorem lim_norm {a : Fin 2 → ℝ} (ha : ∀ k, 0 < a k) (f : Unit) (k s : Fin 2) :
    ‖separate limX (limW a) f k s‖ = a k := by
  rw [lim_entry, norm_mul, limX_norm, mul_one, Complex.norm_real, Real.norm_of_nonneg (ha k).le]

theorem lim_binNorm {a : Fin 2 → ℝ} (ha : ∀ k, 0 < a k) (k s : Fin 2) :
    Iva.binNorm (separate limX (limW a)) k s = a k := by
  rw [Iva.binNorm, Fintype.sum_unique, lim_norm ha, Real.sqrt_sq (ha k).le]

theorem lim_wcov {a : Fin 2 → ℝ} (k : Fin 2) :
    Iva.wcov (fun k (_ : Fin 2) => (a k)⁻¹) limX () k = ((a k)⁻¹ : ℂ) • (1 : Mat 2 ℂ) := by
  ext i j
  fin_cases i <;> fin_cases j <;> simp [Iva.wcov, meanT, limX, Fin.sum_univ_two]

theorem lim_row {a b : Fin 2 → ℝ} (ha : ∀ k, 0 < a k) (hb : ∀ k, 0 < b k) (i : Fin 2) :
    ip1RowT (((a i)⁻¹ : ℂ) • (1 : Mat 2 ℂ)) (diagonal fun k => (b k : ℂ)) i
      = diagonal fun k => ((Function.update b i (Real.sqrt (a i)) k : ℝ) : ℂ) := by
  have hai : (a i : ℂ) ≠ 0 := by exact_mod_cast (ha i).ne'
  have hbi : ∀ k, (b k : ℂ) ≠ 0 := fun k => by exact_mod_cast (hb k).ne'
  have hinv : ((diagonal fun k => (b k : ℂ)) * (((a i)⁻¹ : ℂ) • (1 : Mat 2 ℂ)))⁻¹
      = diagonal fun k => ((a i / b k : ℝ) : ℂ) := by
    refine inv_eq_right_inv ?_
    rw [Matrix.mul_smul, Matrix.mul_one, Matrix.smul_mul, diagonal_mul_diagonal, ← diagonal_smul, ← diagonal_one]
    congr 1
    funext k
    have := hbi k
    push_cast
    simp only [Pi.smul_apply, smul_eq_mul]
    field_simp
  have hq : hUh (((a i)⁻¹ : ℂ) • (1 : Mat 2 ℂ)) (fun r => diagonal (fun k => ((a i / b k : ℝ) : ℂ)) r i)
      = a i / b i ^ 2 := by
    have h1 : star (fun r => diagonal (fun k => ((a i / b k : ℝ) : ℂ)) r i) ⬝ᵥ
        ((((a i)⁻¹ : ℂ) • (1 : Mat 2 ℂ)) *ᵥ fun r => diagonal (fun k => ((a i / b k : ℝ) : ℂ)) r i)
        = ((a i / b i ^ 2 : ℝ) : ℂ) := by
      have := hbi i
      rw [smul_mulVec, one_mulVec, dotProduct_smul, dotProduct, Finset.sum_eq_single i]
      · rw [Pi.star_apply, diagonal_apply_eq, show star ((a i / b i : ℝ) : ℂ) = _ from Complex.conj_ofReal _,
          smul_eq_mul]
        push_cast
        field_simp
      · intro r _ hr
        rw [diagonal_apply_ne _ hr, mul_zero]
      · simp
    rw [hUh, h1, Complex.ofReal_re, max_eq_left]
    have := ha i
    positivity
  rw [ip1RowT, hinv, hq]
  ext r j
  by_cases hr : r = i
  · subst hr
    rw [updateRow_self]
    by_cases hj : j = r
    · subst hj
      rw [diagonal_apply_eq, diagonal_apply_eq, Function.update_self,
        show star ((a j / b j : ℝ) : ℂ) = _ from Complex.conj_ofReal _, ← Complex.ofReal_div]
      congr 1
      have h1 := ha j
      have h2 := hb j
      rw [Real.sqrt_div h1.le, Real.sqrt_sq h2.le]
      have h3 := Real.sqrt_pos.2 h1
      have h4 := Real.mul_self_sqrt h1.le
      field_simp
      nlinarith
    · rw [diagonal_apply_ne _ hj, diagonal_apply_ne _ (Ne.symm hj), star_zero, zero_div]
  · rw [updateRow_ne hr]
    by_cases hj : r = j
    · subst hj
      rw [diagonal_apply_eq, diagonal_apply_eq, Function.update_of_ne hr]
    · rw [diagonal_apply_ne _ hj, diagonal_apply_ne _ hj]

theorem lim_step {a c : Fin 2 → ℝ} (ha : ∀ k, 0 < a k) (hc : ∀ k, 0 < c k) :
    Iva.ip1Stack id (fun f => Iva.wcov (fun k (_ : Fin 2) => (c k)⁻¹) limX f) (limW a)
      = .ok (limW fun k => Real.sqrt (c k)) := by
  refine foldlM_onBins (fun f => ip1Row id (Iva.wcov (fun k (_ : Fin 2) => (c k)⁻¹) limX f)) (List.finRange 2)
    (limW a) _ fun f => ?_
  have hpd := fun k => Iva.wcov_posDef (phi := fun k (_ : Fin 2) => (c k)⁻¹) (fun k _ => inv_pos.2 (hc k)) limX_ind f k
  have hs : ∀ k, 0 < Function.update a 0 (Real.sqrt (c 0)) k := by
    intro k
    fin_cases k
    · exact Real.sqrt_pos.2 (hc 0)
    · exact ha 1
  have e0 := lim_row hc ha 0
  have e1 := lim_row hc hs 1
  rw [← lim_wcov] at e0 e1
  have h0 : ip1Row id (Iva.wcov (fun k (_ : Fin 2) => (c k)⁻¹) limX f) (limW a f) 0
      = .ok (limW (Function.update a 0 (Real.sqrt (c 0))) f) := by
    rw [ip1Row_eq (hpd 0) (limW_unit ha f)]
    exact congrArg Except.ok e0
  have h1 : ip1Row id (Iva.wcov (fun k (_ : Fin 2) => (c k)⁻¹) limX f) (limW (Function.update a 0 (Real.sqrt (c 0))) f) 1
      = .ok (diagonal fun k =>
        ((Function.update (Function.update a 0 (Real.sqrt (c 0))) 1 (Real.sqrt (c 1)) k : ℝ) : ℂ)) := by
    rw [ip1Row_eq (hpd 1) (limW_unit hs f)]
    exact congrArg Except.ok e1
  simp only [show List.finRange 2 = [0, 1] from rfl, List.foldlM_cons, List.foldlM_nil, h0, h1, Bind.bind, Except.bind]
  show Except.ok _ = _
  congr 1
  rw [limW]
  congr 1
  funext k
  fin_cases k <;> simp [Function.update]

/-- The size of the two filters after `i` iterations. -/
noncomputable def limA (i : ℕ) : Fin 2 → ℝ := (fun a k => Real.sqrt (a k))^[i] ![4, 9]

theorem limA_succ (i : ℕ) : limA (i + 1) = fun k => Real.sqrt (limA i k) := by
  rw [limA, limA, Function.iterate_succ_apply']

theorem limA_pos (i : ℕ) : ∀ k, 0 < limA i k := by
  induction i with
  | zero =>
    intro k
    fin_cases k <;> simp [limA]
  | succ i ih =>
    intro k
    rw [limA_succ]
    exact Real.sqrt_pos.2 (ih k)

theorem lim_iva (i : ℕ) : Iva.auxIp1 id Iva.laplaceD limX (limW (limA i)) = .ok (limW (limA (i + 1))) := by
  rw [Iva.auxIp1]
  have : Iva.weight id Iva.laplaceD (separate limX (limW (limA i))) = fun k (_ : Fin 2) => (limA i k)⁻¹ := by
    funext k s
    have := (limA_pos i k).ne'
    rw [Iva.weight, lim_binNorm (limA_pos i), Iva.laplaceD, id]
    field_simp
  rw [this, limA_succ]
  exact lim_step (limA_pos i) (limA_pos i)

/-- The theorems apply to this run, with IP1, of `AuxLaplaceIVA` and `AuxLaplaceFDICA`. -/
example : (∃ V, ∃ φ : ℕ → ℕ, StrictMono φ ∧ Tendsto (fun i => limW (limA (φ i))) atTop (𝓝 V)) ∧
    ∀ (V : Unit → Mat 2 ℂ) (φ : ℕ → ℕ), StrictMono φ → Tendsto (fun i => limW (limA (φ i))) atTop (𝓝 V) →
      (∀ f, IsUnit (V f).det) ∧
        ((∀ k s, 0 < Iva.binNorm (separate limX V) k s) → Stationary (Iva.lossIp Iva.laplaceG limX) V) :=
  (Iva.C70_laplace_ip1 id limX limX_ind (fun i => limW (limA i)) (limW_unit (limA_pos 0)) lim_iva fun i =>
    ⟨fun k s => by rw [lim_binNorm (limA_pos i)]; exact limA_pos i k, rfl⟩).2

example : (∃ V, ∃ φ : ℕ → ℕ, StrictMono φ ∧ Tendsto (fun i => limW (limA (φ i))) atTop (𝓝 V)) := by
  refine (Fdica.C70_laplace_ip1 id limX limX_ind (fun i => limW (limA i)) (limW_unit (limA_pos 0)) (fun i => ?_) fun i =>
    ⟨fun f k s h => ?_, rfl⟩).2.1
  · rw [Fdica.auxIp1]
    have : ∀ f, Fdica.weight id Fdica.laplaceD (separate limX (limW (limA i)) f) = fun k (_ : Fin 2) => (limA i k)⁻¹ := by
      intro f
      funext k s
      have := (limA_pos i k).ne'
      rw [Fdica.weight, lim_norm (limA_pos i), Fdica.laplaceD, id]
      field_simp
    simp only [this]
    rw [limA_succ]
    exact lim_step (limA_pos i) (limA_pos i)
  · have := lim_norm (limA_pos i) f k s
    rw [h, norm_zero] at this
    exact (limA_pos i k).ne this

end Verif
