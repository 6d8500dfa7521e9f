import Verif.Lemmas.Majorise

/-! # C36: the recorded loss of auxiliary-function IVA never increases -/

namespace Verif.Iva

open Matrix Spatial Scale
open scoped ComplexOrder

variable {F : Type} [Fintype F] {n t : ℕ}

/-- One IP1 update of `AuxIVA`. -/
theorem auxIp1_step {G d : Fin n → Fin t → ℝ → ℝ} (hG : Majorised G d) (floor : ℝ → ℝ) (X : Spec F n t)
    (hX : ∀ f, LinearIndependent ℂ (X f).row) (W : F → Mat n ℂ) (hW : ∀ f, IsUnit (W f).det)
    (hY : ∀ k s, 0 < binNorm (separate X W) k s) (hfloor : auxIp1 floor d X W = auxIp1 id d X W) :
    ∃ W', auxIp1 floor d X W = .ok W' ∧ (∀ f, IsUnit (W' f).det) ∧ lossIp G X W' ≤ lossIp G X W := by
  set phi := weight id d (separate X W) with hphi
  have hpos : ∀ k s, 0 < phi k s := weight_id_pos hG hY
  obtain ⟨W', h1, h2, h3⟩ := ip1Stack_spec (wcov phi X) (fun f k => wcov_posDef hpos hX f k) W hW
  refine ⟨W', by rw [hfloor]; exact h1, h2, ?_⟩
  refine mm_step G phi _ _ W W' (fun k s => ?_) fun f => ?_
  · exact hG.le k s _ _ (hY k s) (binNorm_nonneg _ k s)
  · have := h3 f
    rwa [ipLoss_wcov, ipLoss_wcov] at this

/-- One pair update of `AuxIVA` with IP2. -/
theorem auxIp2Pair_step (np : Numpy ℂ) {G d : Fin n → Fin t → ℝ → ℝ} (hG : Majorised G d) (floor : ℝ → ℝ)
    (X : Spec F n t) (hX : ∀ f, LinearIndependent ℂ (X f).row) (W : F → Mat n ℂ) (hW : ∀ f, IsUnit (W f).det)
    (hY : ∀ k s, 0 < binNorm (separate X W) k s) (p : Fin n × Fin n) (hp : p.1 ≠ p.2)
    (hfloor : auxIp2Pair np floor d X W p = auxIp2Pair np id d X W p) :
    ∃ W', auxIp2Pair np floor d X W p = .ok W' ∧ (∀ f, IsUnit (W' f).det) ∧ lossIp G X W' ≤ lossIp G X W := by
  set phi := weight id d (separate X W) with hphi
  have hpos : ∀ k s, 0 < phi k s := weight_id_pos hG hY
  have h := fun f => C32_sweep np id [p] (by simpa using hp) (wcov phi X f)
    (fun k => wcov_posDef hpos hX f k) (W f) (hW f) rfl
  choose W' h1 h2 h3 using h
  have h1' : ∀ f, ip2Pair np id (wcov phi X f) (W f) p = .ok (W' f) := by
    intro f
    have := h1 f
    rw [ip2, List.foldlM_cons] at this
    cases hg : ip2Pair np id (wcov phi X f) (W f) p with
    | ok c => rw [hg] at this; exact this
    | error e => rw [hg] at this; cases this
  refine ⟨W', by rw [hfloor]; exact onBins_ok h1', h2, ?_⟩
  refine mm_step G phi _ _ W W' (fun k s => ?_) fun f => ?_
  · exact hG.le k s _ _ (hY k s) (binNorm_nonneg _ k s)
  · have := h3 f
    rwa [ipLoss_wcov, ipLoss_wcov] at this

/-- No source is silent over all bins in any frame, and the flooring function changes nothing in this update. -/
def RegIp1 (floor : ℝ → ℝ) (d : Fin n → Fin t → ℝ → ℝ) (X : Spec F n t) (W : F → Mat n ℂ) : Prop :=
  (∀ k s, 0 < binNorm (separate X W) k s) ∧ auxIp1 floor d X W = auxIp1 id d X W

/-- The same for the update of one pair. -/
def RegIp2 (np : Numpy ℂ) (floor : ℝ → ℝ) (d : Fin n → Fin t → ℝ → ℝ) (X : Spec F n t) (W : F → Mat n ℂ)
    (p : Fin n × Fin n) : Prop :=
  (∀ k s, 0 < binNorm (separate X W) k s) ∧ auxIp2Pair np floor d X W p = auxIp2Pair np id d X W p

/-- C36: `AuxIVA` with IP1 and any contrast function that the auxiliary function method covers: for linearly
independent mixtures in every bin, invertible initial filters and a regular run, all updates succeed and the
recorded losses never increase, for any number of iterations. -/
theorem C36_auxiva_ip1 {G d : Fin n → Fin t → ℝ → ℝ} (hG : Majorised G d) (floor : ℝ → ℝ) (X : Spec F n t)
    (hX : ∀ f, LinearIndependent ℂ (X f).row) (W : F → Mat n ℂ) (hW : ∀ f, IsUnit (W f).det) (n_iter : ℕ)
    (hreg : RegularRun (auxIp1 floor d X) (RegIp1 floor d X) n_iter W) :
    ∃ ls, lossList (auxIp1 floor d X) (fun W => .ok (lossIp G X W)) n_iter W = .ok ls ∧
      ls.length = n_iter + 1 ∧ ls.Pairwise (· ≥ ·) := by
  obtain ⟨ls, h1, h2, h3, -⟩ := lossList_antitone (auxIp1 floor d X) (fun W => .ok (lossIp G X W))
    (fun W => ∀ f, IsUnit (W f).det) (RegIp1 floor d X) (lossIp G X) (fun _ _ => rfl)
    (fun W hW hr => auxIp1_step hG floor X hX W hW hr.1 hr.2) n_iter W hW hreg
  exact ⟨ls, h1, h2, h3⟩

/-- C36: the same for IP2 with any pair selector. -/
theorem C36_auxiva_ip2 (np : Numpy ℂ) {G d : Fin n → Fin t → ℝ → ℝ} (hG : Majorised G d) (floor : ℝ → ℝ)
    (pairs : List (Fin n × Fin n)) (hpairs : ∀ p ∈ pairs, p.1 ≠ p.2) (X : Spec F n t)
    (hX : ∀ f, LinearIndependent ℂ (X f).row) (W : F → Mat n ℂ) (hW : ∀ f, IsUnit (W f).det) (n_iter : ℕ)
    (hreg : RegularRun (auxIp2 np floor pairs d X)
      (RegularFold (auxIp2Pair np floor d X) (RegIp2 np floor d X) pairs) n_iter W) :
    ∃ ls, lossList (auxIp2 np floor pairs d X) (fun W => .ok (lossIp G X W)) n_iter W = .ok ls ∧
      ls.length = n_iter + 1 ∧ ls.Pairwise (· ≥ ·) := by
  obtain ⟨ls, h1, h2, h3, -⟩ := lossList_antitone (auxIp2 np floor pairs d X) (fun W => .ok (lossIp G X W))
    (fun W => ∀ f, IsUnit (W f).det) (RegularFold (auxIp2Pair np floor d X) (RegIp2 np floor d X) pairs)
    (lossIp G X) (fun _ _ => rfl)
    (fun W hW hr => foldlM_regular (auxIp2Pair np floor d X) (fun W => ∀ f, IsUnit (W f).det)
      (RegIp2 np floor d X) (lossIp G X) pairs
      (fun W p hp hW hr => auxIp2Pair_step np hG floor X hX W hW hr.1 p (hpairs p hp) hr.2) W hW hr)
    n_iter W hW hreg
  exact ⟨ls, h1, h2, h3⟩

/-! ## Filter-free updates -/

/-- The filter estimated by `compute_loss` is the filter that produced the signals. -/
theorem lossFree_eq (G : Fin n → Fin t → ℝ → ℝ) (X : Spec F n t) (hX : ∀ f, LinearIndependent ℂ (X f).row)
    (W : F → Mat n ℂ) : lossFree G X (separate X W) = .ok (lossIp G X W) := by
  have hu : ∀ f, IsUnit (X f * (X f)ᴴ).det := by
    intro f
    have : (X f * (X f)ᴴ).PosDef := PosDef.mul_conjTranspose_self _ (vecMul_injective_iff.mpr (hX f))
    exact (isUnit_iff_isUnit_det _).mp this.isUnit
  rw [lossFree, npInvB, if_pos hu]
  simp only [bind, Except.bind]
  congr 2
  funext f
  rw [separate, Matrix.mul_assoc (W f), Matrix.mul_assoc (W f), mul_nonsing_inv _ (hu f), Matrix.mul_one]

/-- No source is silent over all bins in any frame, and flooring changes nothing in this ISS1 update. -/
def RegIss1 (floor : ℝ → ℝ) (d : Fin n → Fin t → ℝ → ℝ) (Y : Spec F n t) : Prop :=
  (∀ k s, 0 < binNorm Y k s) ∧ auxIss1 floor d Y = auxIss1 id d Y

def RegIss2 (np : Numpy ℂ) (floor : ℝ → ℝ) (pairs : List (Fin n × Fin n)) (d : Fin n → Fin t → ℝ → ℝ)
    (Y : Spec F n t) : Prop :=
  (∀ k s, 0 < binNorm Y k s) ∧ auxIss2 np floor pairs d Y = auxIss2 np id pairs d Y

theorem iss_run {G : Fin n → Fin t → ℝ → ℝ} (X : Spec F n t)
    (hX : ∀ f, LinearIndependent ℂ (X f).row) (step : Spec F n t → Except PyErr (Spec F n t))
    (Reg : Spec F n t → Prop)
    (hstep : ∀ W : F → Mat n ℂ, (∀ f, IsUnit (W f).det) → Reg (separate X W) →
      ∃ W' : F → Mat n ℂ, step (separate X W) = .ok (separate X W') ∧ (∀ f, IsUnit (W' f).det) ∧
        lossIp G X W' ≤ lossIp G X W) (W : F → Mat n ℂ) (hW : ∀ f, IsUnit (W f).det) (n_iter : ℕ)
    (hreg : RegularRun step Reg n_iter (separate X W)) :
    ∃ ls, lossList step (lossFree G X) n_iter (separate X W) = .ok ls ∧
      ls.length = n_iter + 1 ∧ ls.Pairwise (· ≥ ·) := by
  set val : Spec F n t → ℝ := fun Y => match lossFree G X Y with
    | .ok v => v
    | .error _ => 0 with hval
  have hv : ∀ W, val (separate X W) = lossIp G X W := fun W => by simp only [hval, lossFree_eq G X hX W]
  obtain ⟨ls, h1, h2, h3, -⟩ := lossList_antitone step (lossFree G X)
    (fun Y => ∃ W : F → Mat n ℂ, Y = separate X W ∧ ∀ f, IsUnit (W f).det) Reg val
    (by
      rintro Y ⟨W, rfl, -⟩
      rw [hv, lossFree_eq G X hX])
    (by
      rintro Y ⟨W, rfl, hW⟩ hr
      obtain ⟨W', h1, h2, h3⟩ := hstep W hW hr
      exact ⟨_, h1, ⟨W', rfl, h2⟩, by rw [hv, hv]; exact h3⟩) n_iter (separate X W) ⟨W, rfl, hW⟩ hreg
  exact ⟨ls, h1, h2, h3⟩

/-- One ISS1 update of `AuxIVA`. -/
theorem auxIss1_step {G d : Fin n → Fin t → ℝ → ℝ} (hG : Majorised G d) (floor : ℝ → ℝ) (X : Spec F n t)
    (hX : ∀ f, LinearIndependent ℂ (X f).row) (W : F → Mat n ℂ) (hW : ∀ f, IsUnit (W f).det)
    (hr : RegIss1 floor d (separate X W)) :
    ∃ W' : F → Mat n ℂ, (Except.ok (auxIss1 floor d (separate X W)) : Except PyErr _) = .ok (separate X W') ∧
      (∀ f, IsUnit (W' f).det) ∧ lossIp G X W' ≤ lossIp G X W := by
  set phi := weight id d (separate X W) with hphi
  have hpos : ∀ k s, 0 < phi k s := weight_id_pos hG hr.1
  have h := fun f => C33_iss1 id phi hpos (X f) (hX f) (W f) (hW f) rfl
  choose W' h1 h2 h3 using h
  refine ⟨W', ?_, h2, ?_⟩
  · rw [hr.2]
    congr 1
    funext f
    exact h1 f
  · exact mm_step G phi _ _ W W' (fun k s => hG.le k s _ _ (hr.1 k s) (binNorm_nonneg _ k s)) h3

/-- C36: the same for ISS1, where the loss is computed from the signals alone. -/
theorem C36_auxiva_iss1 {G d : Fin n → Fin t → ℝ → ℝ} (hG : Majorised G d) (floor : ℝ → ℝ) (X : Spec F n t)
    (hX : ∀ f, LinearIndependent ℂ (X f).row) (W : F → Mat n ℂ) (hW : ∀ f, IsUnit (W f).det) (n_iter : ℕ)
    (hreg : RegularRun (fun Y => .ok (auxIss1 floor d Y)) (RegIss1 floor d) n_iter (separate X W)) :
    ∃ ls, lossList (fun Y => .ok (auxIss1 floor d Y)) (lossFree G X) n_iter (separate X W) = .ok ls ∧
      ls.length = n_iter + 1 ∧ ls.Pairwise (· ≥ ·) := by
  exact iss_run X hX _ _ (fun W hW hr => auxIss1_step hG floor X hX W hW hr) W hW n_iter hreg

/-- One ISS2 update of `AuxIVA`. -/
theorem auxIss2_step (np : Numpy ℂ) {G d : Fin n → Fin t → ℝ → ℝ} (hG : Majorised G d) (floor : ℝ → ℝ)
    (pairs : List (Fin n × Fin n)) (hpairs : ∀ p ∈ pairs, p.1 ≠ p.2) (X : Spec F n t)
    (hX : ∀ f, LinearIndependent ℂ (X f).row) (W : F → Mat n ℂ) (hW : ∀ f, IsUnit (W f).det)
    (hr : RegIss2 np floor pairs d (separate X W)) :
    ∃ W' : F → Mat n ℂ, auxIss2 np floor pairs d (separate X W) = .ok (separate X W') ∧
      (∀ f, IsUnit (W' f).det) ∧ lossIp G X W' ≤ lossIp G X W := by
  set phi := weight id d (separate X W) with hphi
  have hpos : ∀ k s, 0 < phi k s := weight_id_pos hG hr.1
  have h := fun f => C34_iss2 np id pairs hpairs phi hpos (X f) (hX f) (W f) (hW f) rfl
  choose W' h1 h2 h3 using h
  refine ⟨W', ?_, h2, ?_⟩
  · rw [hr.2]
    exact foldlM_onBins (fun f => iss2Pair np id phi) pairs (separate X W) (separate X W') h1
  · exact mm_step G phi _ _ W W' (fun k s => hG.le k s _ _ (hr.1 k s) (binNorm_nonneg _ k s)) h3

/-- C36: the same for ISS2 with any schedule of pairs. -/
theorem C36_auxiva_iss2 (np : Numpy ℂ) {G d : Fin n → Fin t → ℝ → ℝ} (hG : Majorised G d) (floor : ℝ → ℝ)
    (pairs : List (Fin n × Fin n)) (hpairs : ∀ p ∈ pairs, p.1 ≠ p.2) (X : Spec F n t)
    (hX : ∀ f, LinearIndependent ℂ (X f).row) (W : F → Mat n ℂ) (hW : ∀ f, IsUnit (W f).det) (n_iter : ℕ)
    (hreg : RegularRun (auxIss2 np floor pairs d) (RegIss2 np floor pairs d) n_iter (separate X W)) :
    ∃ ls, lossList (auxIss2 np floor pairs d) (lossFree G X) n_iter (separate X W) = .ok ls ∧
      ls.length = n_iter + 1 ∧ ls.Pairwise (· ≥ ·) := by
  exact iss_run X hX _ _ (fun W hW hr => auxIss2_step np hG floor pairs hpairs X hX W hW hr) W hW n_iter hreg

/-! ## The two source models -/

/-- The Laplace contrast `2 r` with slope `2` is covered. -/
theorem laplace_majorised : Majorised (laplaceG (n := n) (t := t)) laplaceD := by
  refine ⟨fun _ _ _ _ => two_pos, fun _ _ r₀ r h₀ _ => ?_⟩
  simp only [laplaceG, laplaceD]
  have h : 2 / (2 * r₀) * (r ^ 2 - r₀ ^ 2) = (r - r₀) ^ 2 / r₀ + 2 * r - 2 * r₀ := by field_simp; ring
  have : 0 ≤ (r - r₀) ^ 2 / r₀ := by positivity
  linarith

/-- The Gauss contrast is covered for every positive variance (with equality). -/
theorem gauss_majorised (alpha : Fin n → Fin t → ℝ) (ha : ∀ k s, 0 < alpha k s) :
    Majorised (gaussG F alpha) (gaussD alpha) := by
  refine ⟨fun k s r hr => div_pos (by linarith) (ha k s), fun k s r₀ r h₀ _ => ?_⟩
  simp only [gaussG, gaussD]
  have := (ha k s).ne'
  apply le_of_eq
  field_simp
  ring

/-- The new variance minimises the loss. -/
theorem gaussVariance_min [Nonempty F] (X : Spec F n t) (W : F → Mat n ℂ) (alpha : Fin n → Fin t → ℝ)
    (ha : ∀ k s, 0 < alpha k s) (hY : ∀ k s, 0 < binNorm (separate X W) k s) :
    lossIp (gaussG F (gaussVariance (separate X W))) X W ≤ lossIp (gaussG F alpha) X W := by
  unfold lossIp ivaLoss
  refine sub_le_sub_right (Finset.sum_le_sum fun k _ => ?_) _
  simp only [meanT]
  refine div_le_div_of_nonneg_right (Finset.sum_le_sum fun s _ => ?_) (by positivity)
  have hN : (0 : ℝ) < Fintype.card F := by exact_mod_cast Fintype.card_pos
  have hr := pow_pos (hY k s) 2
  have ha' := ha k s
  simp only [gaussG]
  have hv : gaussVariance (separate X W) k s = binNorm (separate X W) k s ^ 2 / Fintype.card F := by
    rw [binNorm_sq]; rfl
  rw [hv]
  set r := binNorm (separate X W) k s ^ 2 with hrd
  set N : ℝ := (Fintype.card F : ℝ) with hNd
  set a := alpha k s with had
  have h1 : r / (r / N) = N := by field_simp
  have h2 := Real.log_le_sub_one_of_pos (show 0 < r / N / a by positivity)
  rw [Real.log_div (by positivity) ha'.ne'] at h2
  rw [h1]
  have h3 : N * (r / N / a) = r / a := by field_simp
  nlinarith [mul_le_mul_of_nonneg_left h2 hN.le]

/-- C36: `AuxLaplaceIVA`, IP1. -/
theorem C36_laplace_ip1 (floor : ℝ → ℝ) (X : Spec F n t)
    (hX : ∀ f, LinearIndependent ℂ (X f).row) (W : F → Mat n ℂ) (hW : ∀ f, IsUnit (W f).det) (n_iter : ℕ)
    (hreg : RegularRun (auxIp1 floor laplaceD X) (RegIp1 floor laplaceD X) n_iter W) :
    ∃ ls, lossList (auxIp1 floor laplaceD X) (fun W => .ok (lossIp laplaceG X W)) n_iter W = .ok ls ∧
      ls.length = n_iter + 1 ∧ ls.Pairwise (· ≥ ·) :=
  C36_auxiva_ip1 laplace_majorised floor X hX W hW n_iter hreg

/-- Regularity of one `AuxGaussIVA` update: no silent source, flooring inactive. -/
def RegGaussIp1 (floor : ℝ → ℝ) (X : Spec F n t) (s : GaussState F n t) : Prop :=
  (∀ k j, 0 < binNorm (separate X s.W) k j) ∧ gaussIp1 floor X s = gaussIp1 id X s

/-- C36: `AuxGaussIVA`, IP1, starting from invertible filters and positive variances. -/
theorem C36_gauss_ip1 [Nonempty F] (floor : ℝ → ℝ) (X : Spec F n t)
    (hX : ∀ f, LinearIndependent ℂ (X f).row) (s : GaussState F n t) (hW : ∀ f, IsUnit (s.W f).det)
    (hv : ∀ k j, 0 < s.variance k j) (n_iter : ℕ)
    (hreg : RegularRun (gaussIp1 floor X) (RegGaussIp1 floor X) n_iter s) :
    ∃ ls, lossList (gaussIp1 floor X) (fun s => .ok (gaussLoss X s)) n_iter s = .ok ls ∧
      ls.length = n_iter + 1 ∧ ls.Pairwise (· ≥ ·) := by
  obtain ⟨ls, h1, h2, h3, -⟩ := lossList_antitone (gaussIp1 floor X) (fun s => .ok (gaussLoss X s))
    (fun s => (∀ f, IsUnit (s.W f).det) ∧ ∀ k j, 0 < s.variance k j) (RegGaussIp1 floor X) (gaussLoss X)
    (fun _ _ => rfl) (fun s hs hr => by
      set v := gaussVariance (separate X s.W) with hvd
      have hN : (0 : ℝ) < Fintype.card F := by exact_mod_cast Fintype.card_pos
      have hvpos : ∀ k j, 0 < v k j := by
        intro k j
        have := pow_pos (hr.1 k j) 2
        rw [binNorm_sq] at this
        exact div_pos this hN
      obtain ⟨W', h1, h2, h3⟩ := auxIp1_step (gauss_majorised (F := F) v hvpos) id X hX s.W hs.1 hr.1 rfl
      refine ⟨⟨W', v⟩, ?_, ⟨h2, hvpos⟩, ?_⟩
      · rw [hr.2, gaussIp1]
        simp only [← hvd, h1, bind, Except.bind]
      · exact le_trans h3 (gaussVariance_min X s.W s.variance hs.2 hr.1)) n_iter s ⟨hW, hv⟩ hreg
  exact ⟨ls, h1, h2, h3⟩

/-- C36: `AuxLaplaceIVA`, IP2. -/
theorem C36_laplace_ip2 (np : Numpy ℂ) (floor : ℝ → ℝ) (pairs : List (Fin n × Fin n))
    (hpairs : ∀ p ∈ pairs, p.1 ≠ p.2) (X : Spec F n t)
    (hX : ∀ f, LinearIndependent ℂ (X f).row) (W : F → Mat n ℂ) (hW : ∀ f, IsUnit (W f).det) (n_iter : ℕ)
    (hreg : RegularRun (auxIp2 np floor pairs laplaceD X)
      (RegularFold (auxIp2Pair np floor laplaceD X) (RegIp2 np floor laplaceD X) pairs) n_iter W) :
    ∃ ls, lossList (auxIp2 np floor pairs laplaceD X) (fun W => .ok (lossIp laplaceG X W)) n_iter W = .ok ls ∧
      ls.length = n_iter + 1 ∧ ls.Pairwise (· ≥ ·) :=
  C36_auxiva_ip2 np laplace_majorised floor pairs hpairs X hX W hW n_iter hreg

/-- C36: `AuxLaplaceIVA`, ISS1. -/
theorem C36_laplace_iss1 (floor : ℝ → ℝ) (X : Spec F n t)
    (hX : ∀ f, LinearIndependent ℂ (X f).row) (W : F → Mat n ℂ) (hW : ∀ f, IsUnit (W f).det) (n_iter : ℕ)
    (hreg : RegularRun (fun Y => .ok (auxIss1 floor laplaceD Y)) (RegIss1 floor laplaceD) n_iter (separate X W)) :
    ∃ ls, lossList (fun Y => .ok (auxIss1 floor laplaceD Y)) (lossFree laplaceG X) n_iter (separate X W) = .ok ls ∧
      ls.length = n_iter + 1 ∧ ls.Pairwise (· ≥ ·) :=
  C36_auxiva_iss1 laplace_majorised floor X hX W hW n_iter hreg

/-- C36: `AuxLaplaceIVA`, ISS2. -/
theorem C36_laplace_iss2 (np : Numpy ℂ) (floor : ℝ → ℝ) (pairs : List (Fin n × Fin n))
    (hpairs : ∀ p ∈ pairs, p.1 ≠ p.2) (X : Spec F n t)
    (hX : ∀ f, LinearIndependent ℂ (X f).row) (W : F → Mat n ℂ) (hW : ∀ f, IsUnit (W f).det) (n_iter : ℕ)
    (hreg : RegularRun (auxIss2 np floor pairs laplaceD) (RegIss2 np floor pairs laplaceD) n_iter
      (separate X W)) :
    ∃ ls, lossList (auxIss2 np floor pairs laplaceD) (lossFree laplaceG X) n_iter (separate X W) = .ok ls ∧
      ls.length = n_iter + 1 ∧ ls.Pairwise (· ≥ ·) :=
  C36_auxiva_iss2 np laplace_majorised floor pairs hpairs X hX W hW n_iter hreg

/-- Two sources, two frames, one bin: the hypotheses of `C36_laplace_ip1` hold and one iteration is covered. -/
example : ∃ ls, lossList (auxIp1 id laplaceD fun _ : Unit => (!![1, 2; 2, 1] : Matrix (Fin 2) (Fin 2) ℂ))
    (fun W => .ok (lossIp laplaceG (fun _ : Unit => (!![1, 2; 2, 1] : Matrix (Fin 2) (Fin 2) ℂ)) W)) 1 1 = .ok ls ∧
    ls.length = 2 ∧ ls.Pairwise (· ≥ ·) := by
  have hdet : IsUnit (!![1, 2; 2, 1] : Matrix (Fin 2) (Fin 2) ℂ) := by
    rw [isUnit_iff_isUnit_det, det_fin_two, isUnit_iff_ne_zero]
    norm_num
  refine C36_laplace_ip1 id _ (fun _ => (linearIndependent_rows_iff_isUnit).mpr hdet) 1 (fun _ => ?_) 1
    ⟨⟨?_, rfl⟩, fun _ _ => trivial⟩
  · simp
  · intro k s
    refine Real.sqrt_pos.mpr ?_
    fin_cases k <;> fin_cases s <;> simp [separate]

/-- One source with a sound in every frame: every run is regular. -/
example (x : Matrix (Fin 1) (Fin 3) ℂ) (hx : ∀ s, x 0 s ≠ 0) (n_iter : ℕ) :
    ∃ ls, lossList (auxIp1 id laplaceD fun _ : Unit => x) (fun W => .ok (lossIp laplaceG (fun _ => x) W)) n_iter 1
      = .ok ls ∧ ls.length = n_iter + 1 ∧ ls.Pairwise (· ≥ ·) := by
  have hx' : LinearIndependent ℂ x.row := by
    rw [Fintype.linearIndependent_iff]
    intro g hg i
    have := congrFun hg 0
    simpa [Subsingleton.elim i 0, hx 0] using this
  have hpos : ∀ W : Unit → Mat 1 ℂ, (∀ f, IsUnit (W f).det) → ∀ k s, 0 < binNorm (separate (fun _ => x) W) k s := by
    intro W hW k s
    refine Real.sqrt_pos.mpr ?_
    have h0 := (hW ()).ne_zero
    rw [det_fin_one] at h0
    have : 0 < ‖W () 0 0 * x 0 s‖ ^ 2 := pow_pos (norm_pos_iff.mpr (mul_ne_zero h0 (hx s))) 2
    simpa [separate, mul_apply, Subsingleton.elim k 0] using this
  refine C36_laplace_ip1 id _ (fun _ => hx') 1 (fun _ => by simp) n_iter ?_
  refine regularRun_of_inv (fun W => ∀ f, IsUnit (W f).det) (fun W hW => ⟨hpos W hW, rfl⟩) (fun W W' hW h => ?_) _ _
    (fun _ => by simp)
  obtain ⟨W'', h1, h2, -⟩ := auxIp1_step laplace_majorised id (fun _ : Unit => x) (fun _ => hx') W hW (hpos W hW) rfl
  rw [h1] at h
  cases h
  exact h2

end Verif.Iva
