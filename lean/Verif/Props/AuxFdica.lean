import Verif.Lemmas.Majorise
import Verif.Model.Fdica

/-! # C37: the recorded loss of auxiliary-function FDICA never increases -/

namespace Verif.Fdica

open Matrix Spatial Scale
open scoped ComplexOrder

variable {F : Type} [Fintype F] {n t : ℕ}

/-- What the method needs from the contrast function, see `Iva.Majorised`. -/
structure Majorised (G d : ℝ → ℝ) : Prop where
  pos : ∀ r, 0 < r → 0 < d r
  le : ∀ r₀ r, 0 < r₀ → 0 ≤ r → G r ≤ G r₀ + d r₀ / (2 * r₀) * (r ^ 2 - r₀ ^ 2)

theorem mm_step {G d : ℝ → ℝ} (hG : Majorised G d) (X : Spec F n t) (W W' : F → Mat n ℂ)
    (hY : ∀ f k s, separate X W f k s ≠ 0)
    (hdec : ∀ f, power (weight id d (separate X W f)) (separate X W' f) - 2 * Real.log ‖(W' f).det‖
      ≤ power (weight id d (separate X W f)) (separate X W f) - 2 * Real.log ‖(W f).det‖) :
    loss G X W' ≤ loss G X W := by
  refine Finset.sum_le_sum fun f _ => ?_
  have h1 := hdec f
  have h2 : ∑ k, meanT (fun s => G ‖separate X W' f k s‖)
      ≤ ∑ k, meanT (fun s => G ‖separate X W f k s‖)
        + (power (weight id d (separate X W f)) (separate X W' f)
          - power (weight id d (separate X W f)) (separate X W f)) := by
    unfold power
    rw [← Finset.sum_sub_distrib, ← Finset.sum_add_distrib]
    refine Finset.sum_le_sum fun k _ => ?_
    simp only [meanT]
    rw [← sub_div, ← add_div, ← Finset.sum_sub_distrib, ← Finset.sum_add_distrib]
    refine div_le_div_of_nonneg_right (Finset.sum_le_sum fun s _ => ?_) (by positivity)
    have := hG.le _ _ (norm_pos_iff.mpr (hY f k s)) (norm_nonneg (separate X W' f k s))
    rw [weight, id]
    linarith
  linarith

theorem weight_id_pos {G d : ℝ → ℝ} (hG : Majorised G d) {Y : Matrix (Fin n) (Fin t) ℂ} (hY : ∀ k s, Y k s ≠ 0)
    (k : Fin n) (s : Fin t) : 0 < weight id d Y k s :=
  div_pos (hG.pos _ (norm_pos_iff.mpr (hY k s))) (mul_pos two_pos (norm_pos_iff.mpr (hY k s)))

/-- No entry of the separated spectrograms vanishes, and flooring changes nothing in this update. -/
def RegIp1 (floor d : ℝ → ℝ) (X : Spec F n t) (W : F → Mat n ℂ) : Prop :=
  (∀ f k s, separate X W f k s ≠ 0) ∧ auxIp1 floor d X W = auxIp1 id d X W

def RegIp2 (np : Numpy ℂ) (floor d : ℝ → ℝ) (X : Spec F n t) (W : F → Mat n ℂ) (p : Fin n × Fin n) : Prop :=
  (∀ f k s, separate X W f k s ≠ 0) ∧ auxIp2Pair np floor d X W p = auxIp2Pair np id d X W p

theorem auxIp1_step {G d : ℝ → ℝ} (hG : Majorised G d) (floor : ℝ → ℝ) (X : Spec F n t)
    (hX : ∀ f, LinearIndependent ℂ (X f).row) (W : F → Mat n ℂ) (hW : ∀ f, IsUnit (W f).det)
    (hr : RegIp1 floor d X W) :
    ∃ W', auxIp1 floor d X W = .ok W' ∧ (∀ f, IsUnit (W' f).det) ∧ loss G X W' ≤ loss G X W := by
  obtain ⟨W', h1, h2, h3⟩ := Iva.ip1Stack_weighted (fun f => weight id d (separate X W f))
    (fun f => weight_id_pos hG (hr.1 f)) X hX W hW
  exact ⟨W', by rw [hr.2]; exact h1, h2, mm_step hG X W W' hr.1 h3⟩

theorem auxIp2Pair_step (np : Numpy ℂ) {G d : ℝ → ℝ} (hG : Majorised G d) (floor : ℝ → ℝ) (X : Spec F n t)
    (hX : ∀ f, LinearIndependent ℂ (X f).row) (W : F → Mat n ℂ) (hW : ∀ f, IsUnit (W f).det)
    (p : Fin n × Fin n) (hp : p.1 ≠ p.2) (hr : RegIp2 np floor d X W p) :
    ∃ W', auxIp2Pair np floor d X W p = .ok W' ∧ (∀ f, IsUnit (W' f).det) ∧ loss G X W' ≤ loss G X W := by
  obtain ⟨W', h1, h2, h3⟩ := Iva.ip2Pair_weighted np (fun f => weight id d (separate X W f))
    (fun f => weight_id_pos hG (hr.1 f)) X hX W hW p hp
  exact ⟨W', by rw [hr.2]; exact h1, h2, mm_step hG X W W' hr.1 h3⟩

/-- C37: `AuxFDICA` with IP1 and any contrast function covered by the method. -/
theorem C37_auxfdica_ip1 {G d : ℝ → ℝ} (hG : Majorised G d) (floor : ℝ → ℝ) (X : Spec F n t)
    (hX : ∀ f, LinearIndependent ℂ (X f).row) (W : F → Mat n ℂ) (hW : ∀ f, IsUnit (W f).det) (n_iter : ℕ)
    (hreg : RegularRun (auxIp1 floor d X) (RegIp1 floor d X) n_iter W) :
    ∃ ls, lossList (auxIp1 floor d X) (fun W => .ok (loss G X W)) n_iter W = .ok ls ∧
      ls.length = n_iter + 1 ∧ ls.Pairwise (· ≥ ·) := by
  obtain ⟨ls, h1, h2, h3, -⟩ := lossList_antitone (auxIp1 floor d X) (fun W => .ok (loss G X W))
    (fun W => ∀ f, IsUnit (W f).det) (RegIp1 floor d X) (loss G X) (fun _ _ => rfl)
    (fun W hW hr => auxIp1_step hG floor X hX W hW hr) n_iter W hW hreg
  exact ⟨ls, h1, h2, h3⟩

/-- C37: the same for IP2 with any pair selector. -/
theorem C37_auxfdica_ip2 (np : Numpy ℂ) {G d : ℝ → ℝ} (hG : Majorised G d) (floor : ℝ → ℝ)
    (pairs : List (Fin n × Fin n)) (hpairs : ∀ p ∈ pairs, p.1 ≠ p.2) (X : Spec F n t)
    (hX : ∀ f, LinearIndependent ℂ (X f).row) (W : F → Mat n ℂ) (hW : ∀ f, IsUnit (W f).det) (n_iter : ℕ)
    (hreg : RegularRun (auxIp2 np floor d pairs X)
      (RegularFold (auxIp2Pair np floor d X) (RegIp2 np floor d X) pairs) n_iter W) :
    ∃ ls, lossList (auxIp2 np floor d pairs X) (fun W => .ok (loss G X W)) n_iter W = .ok ls ∧
      ls.length = n_iter + 1 ∧ ls.Pairwise (· ≥ ·) := by
  obtain ⟨ls, h1, h2, h3, -⟩ := lossList_antitone (auxIp2 np floor d pairs X) (fun W => .ok (loss G X W))
    (fun W => ∀ f, IsUnit (W f).det) (RegularFold (auxIp2Pair np floor d X) (RegIp2 np floor d X) pairs)
    (loss G X) (fun _ _ => rfl)
    (fun W hW hr => foldlM_regular (auxIp2Pair np floor d X) (fun W => ∀ f, IsUnit (W f).det)
      (RegIp2 np floor d X) (loss G X) pairs
      (fun W p hp hW hr => auxIp2Pair_step np hG floor X hX W hW p (hpairs p hp) hr) W hW hr)
    n_iter W hW hreg
  exact ⟨ls, h1, h2, h3⟩

theorem laplace_majorised : Majorised laplaceG laplaceD := by
  refine ⟨fun _ _ => two_pos, fun r₀ r h₀ _ => ?_⟩
  simp only [laplaceG, laplaceD]
  have h : 2 / (2 * r₀) * (r ^ 2 - r₀ ^ 2) = (r - r₀) ^ 2 / r₀ + 2 * r - 2 * r₀ := by field_simp; ring
  have : 0 ≤ (r - r₀) ^ 2 / r₀ := by positivity
  linarith

/-- C37: `AuxLaplaceFDICA`, IP1. -/
theorem C37_laplace_ip1 (floor : ℝ → ℝ) (X : Spec F n t)
    (hX : ∀ f, LinearIndependent ℂ (X f).row) (W : F → Mat n ℂ) (hW : ∀ f, IsUnit (W f).det) (n_iter : ℕ)
    (hreg : RegularRun (auxIp1 floor laplaceD X) (RegIp1 floor laplaceD X) n_iter W) :
    ∃ ls, lossList (auxIp1 floor laplaceD X) (fun W => .ok (loss laplaceG X W)) n_iter W = .ok ls ∧
      ls.length = n_iter + 1 ∧ ls.Pairwise (· ≥ ·) :=
  C37_auxfdica_ip1 laplace_majorised floor X hX W hW n_iter hreg

/-- C37: `AuxLaplaceFDICA`, IP2. -/
theorem C37_laplace_ip2 (np : Numpy ℂ) (floor : ℝ → ℝ) (pairs : List (Fin n × Fin n))
    (hpairs : ∀ p ∈ pairs, p.1 ≠ p.2) (X : Spec F n t)
    (hX : ∀ f, LinearIndependent ℂ (X f).row) (W : F → Mat n ℂ) (hW : ∀ f, IsUnit (W f).det) (n_iter : ℕ)
    (hreg : RegularRun (auxIp2 np floor laplaceD pairs X)
      (RegularFold (auxIp2Pair np floor laplaceD X) (RegIp2 np floor laplaceD X) pairs) n_iter W) :
    ∃ ls, lossList (auxIp2 np floor laplaceD pairs X) (fun W => .ok (loss laplaceG X W)) n_iter W = .ok ls ∧
      ls.length = n_iter + 1 ∧ ls.Pairwise (· ≥ ·) :=
  C37_auxfdica_ip2 np laplace_majorised floor pairs hpairs X hX W hW n_iter hreg

/-- Two sources, two frames, two bins: the hypotheses hold and one iteration is covered. -/
example : ∃ ls, lossList (auxIp1 id laplaceD fun _ : Fin 2 => (!![1, 2; 2, 1] : Matrix (Fin 2) (Fin 2) ℂ))
    (fun W => .ok (loss laplaceG (fun _ : Fin 2 => (!![1, 2; 2, 1] : Matrix (Fin 2) (Fin 2) ℂ)) W)) 1 1 = .ok ls ∧
    ls.length = 2 ∧ ls.Pairwise (· ≥ ·) := by
  have hdet : IsUnit (!![1, 2; 2, 1] : Matrix (Fin 2) (Fin 2) ℂ) := by
    rw [isUnit_iff_isUnit_det, det_fin_two, isUnit_iff_ne_zero]
    norm_num
  refine C37_laplace_ip1 id _ (fun _ => (linearIndependent_rows_iff_isUnit).mpr hdet) 1 (fun _ => ?_) 1
    ⟨⟨?_, rfl⟩, fun _ _ => trivial⟩
  · simp
  · intro f k s
    fin_cases k <;> fin_cases s <;> simp [separate]

end Verif.Fdica
