import Verif.Props.IlrmaFloor
import Verif.Props.EigFree
import Verif.Props.MnmfCall
import Verif.Props.FlooredCall

/-! # C41 for MNMF: the floor of the NMF parameters and the definiteness of the spatial parameters -/

namespace Verif.Mnmf

open Matrix Spatial Scale
open scoped ComplexOrder
open Ilrma (FilterAlg)

variable {F : Type} [Fintype F] {n m t K : ℕ}

private theorem bind_ok {α β : Type} {x : Except PyErr α} {g : α → Except PyErr β} {b : β}
    (h : x.bind g = .ok b) : ∃ a, x = .ok a ∧ g a = .ok b := by
  cases x with
  | error e => simp [Except.bind] at h
  | ok a => exact ⟨a, rfl, h⟩

private theorem fast_floored {np : Numpy ℂ} {alg : FilterAlg m} {normalization : Bool} {floor : ℝ → ℝ} {X : Spec F m t}
    {s s' : FSt F n m t K} (h : fastUpdateOnce np alg normalization floor X s = .ok s') :
    (∀ k f b, ∃ x, s'.T k f b = floor x) ∧ (∀ k b j, ∃ x, s'.V k b j = floor x) ∧
      ((∀ f k c, 0 ≤ s.D f k c) → ∀ f k c, 0 ≤ s'.D f k c) := by
  obtain ⟨s1, h1, h2⟩ := bind_ok h
  obtain ⟨Q, -, h3⟩ := bind_ok h1
  cases h3
  cases h2
  cases normalization
  · exact ⟨fun k f b => ⟨_, rfl⟩, fun k b j => ⟨_, rfl⟩, fun hD f k c => mul_nonneg (Real.sqrt_nonneg _) (hD f k c)⟩
  · exact ⟨fun k f b => ⟨_, rfl⟩, fun k b j => ⟨_, rfl⟩, fun hD f k c =>
      div_nonneg (mul_nonneg (Real.sqrt_nonneg _) (hD f k c)) (sq_nonneg _)⟩

/-- C41 for `FastGaussMNMF`: after any positive number of iterations, whatever the recording, the start, the algorithm and the
normalisation, every basis and every activation value is at or above the floor. -/
theorem C41_fastMnmf (np : Numpy ℂ) (alg : FilterAlg m) (normalization : Bool) (floor : ℝ → ℝ) (eps : ℝ)
    (hfloor : ∀ x, eps ≤ floor x) (X : Spec F m t) (s s' : FSt F n m t K) (n_iter : ℕ) (hn : n_iter ≠ 0)
    (h : stateAfter (fastUpdateOnce np alg normalization floor X) n_iter s = .ok s') :
    (∀ k f b, eps ≤ s'.T k f b) ∧ ∀ k b j, eps ≤ s'.V k b j := by
  refine stateAfter_of_step (P := fun s' : FSt F n m t K => (∀ k f b, eps ≤ s'.T k f b) ∧ ∀ k b j, eps ≤ s'.V k b j) ?_
    n_iter s s' hn h
  intro s s' h
  obtain ⟨hT, hV, -⟩ := fast_floored h
  constructor
  · intro k f b
    obtain ⟨x, hx⟩ := hT k f b
    exact hx ▸ hfloor x
  · intro k b j
    obtain ⟨x, hx⟩ := hV k b j
    exact hx ▸ hfloor x

/-- C41 for `FastGaussMNMF`: the spatial weights, which are not floored, stay non-negative. -/
theorem C41_fastMnmf_spatial (np : Numpy ℂ) (alg : FilterAlg m) (normalization : Bool) (floor : ℝ → ℝ)
    (X : Spec F m t) (s s' : FSt F n m t K) (n_iter : ℕ) (hD : ∀ f k c, 0 ≤ s.D f k c)
    (h : stateAfter (fastUpdateOnce np alg normalization floor X) n_iter s = .ok s') (f : F) (k : Fin n) (c : Fin m) :
    0 ≤ s'.D f k c := by
  induction n_iter generalizing s with
  | zero =>
    cases h
    exact hD f k c
  | succ n_iter ih =>
    obtain ⟨s1, h1, h2⟩ := bind_ok h
    exact ih s1 ((fast_floored h1).2.2 hD) h2

private theorem onBins_at {ι α : Type} {g : ι → Except PyErr α} {a : ι → α} (h : onBins g = .ok a) (i : ι) : g i = .ok (a i) := by
  rw [onBins] at h
  split_ifs at h with hg
  rw [← Except.ok.inj h]
  exact (hg i).choose_spec

omit [Fintype F] in
private theorem spatial_posDef {np : Numpy ℂ} {floor : ℝ → ℝ} (hf : ∀ x, 0 < floor x) {XX : F → Fin t → Mat m ℂ}
    {Lamb : Fin n → F → Fin t → ℝ} {H H' : Fin n → F → Mat m ℂ} (h : fullUpdateSpatial np floor XX Lamb H = .ok H')
    (k : Fin n) (f : F) : (H' k f).PosDef := by
  obtain ⟨R, -, h2⟩ := bind_ok h
  obtain ⟨G, -, h3⟩ := bind_ok (onBins_at (onBins_at h2 k) f)
  rw [← Except.ok.inj h3]
  exact EigFree.toPsd_posDef np hf G

/-- C41 for `GaussMNMF`: after any positive number of iterations, whatever the recording and the start, every activation is at or
above the floor, every basis value is positive and every spatial covariance is positive definite. Without normalisation the bases
are at or above the floor, too; with normalisation the spatial covariances have trace one. -/
theorem C41_gaussMnmf [Nonempty (Fin m)] (np : Numpy ℂ) (normalization : Bool) (floor : ℝ → ℝ) (eps : ℝ) (heps : 0 < eps)
    (hfloor : ∀ x, eps ≤ floor x) (XX : F → Fin t → Mat m ℂ) (s s' : MSt F n m t K) (n_iter : ℕ) (hn : n_iter ≠ 0)
    (h : stateAfter (fullUpdateOnce np normalization floor XX) n_iter s = .ok s') :
    (∀ k b j, eps ≤ s'.V k b j) ∧ (∀ k f b, 0 < s'.T k f b) ∧ (∀ k f, (s'.H k f).PosDef) ∧
      (normalization = false → ∀ k f b, eps ≤ s'.T k f b) ∧ (normalization = true → ∀ k f, (s'.H k f).trace = 1) := by
  refine stateAfter_of_step (P := fun s' : MSt F n m t K => (∀ k b j, eps ≤ s'.V k b j) ∧ (∀ k f b, 0 < s'.T k f b) ∧
    (∀ k f, (s'.H k f).PosDef) ∧ (normalization = false → ∀ k f b, eps ≤ s'.T k f b) ∧
      (normalization = true → ∀ k f, (s'.H k f).trace = 1)) ?_ n_iter s s' hn h
  intro s s' h
  obtain ⟨s1, h1, h2⟩ := bind_ok h
  obtain ⟨s2, h3, h4⟩ := bind_ok h2
  obtain ⟨H, h5, h6⟩ := bind_ok h4
  obtain ⟨p, -, h7⟩ := bind_ok h1
  obtain ⟨q, -, h8⟩ := bind_ok h3
  have hH := spatial_posDef (fun x => heps.trans_le (hfloor x)) h5
  cases h7
  cases h8
  cases h6
  have htr : ∀ k f, 0 < (H k f).trace.re := fun k f => (Complex.lt_def.mp (hH k f).trace_pos).1
  have him : ∀ k f, (H k f).trace = ((H k f).trace.re : ℂ) := fun k f => by
    refine Complex.ext rfl ?_
    exact (Complex.lt_def.mp (hH k f).trace_pos).2.symm
  cases normalization
  · exact ⟨fun k b j => hfloor _, fun k f b => heps.trans_le (hfloor _), hH, fun _ k f b => hfloor _, nofun⟩
  · refine ⟨fun k b j => hfloor _, fun k f b => mul_pos (htr k f) (heps.trans_le (hfloor _)), fun k f => ?_, nofun, fun _ k f => ?_⟩
    · refine (hH k f).smul ?_
      rw [← Complex.ofReal_inv]
      exact_mod_cast inv_pos.mpr (htr k f)
    · change ((((H k f).trace.re : ℂ))⁻¹ • H k f).trace = 1
      rw [trace_smul, smul_eq_mul, him k f, Complex.ofReal_re]
      exact inv_mul_cancel₀ (by exact_mod_cast (htr k f).ne')

/-- C41 for `GaussMNMF` with partitioning: bases and activations are at or above the floor, with and without normalisation. -/
theorem C41_gaussMnmf_partitioned (np : Numpy ℂ) (normalization : Bool) (floor : ℝ → ℝ) (eps : ℝ)
    (hfloor : ∀ x, eps ≤ floor x) (XX : F → Fin t → Mat m ℂ) (s s' : MStP F n m t K) (n_iter : ℕ) (hn : n_iter ≠ 0)
    (h : stateAfter (fullUpdateOnceP np normalization floor XX) n_iter s = .ok s') :
    (∀ f b, eps ≤ s'.T f b) ∧ ∀ b j, eps ≤ s'.V b j := by
  refine stateAfter_of_step (P := fun s' : MStP F n m t K => (∀ f b, eps ≤ s'.T f b) ∧ ∀ b j, eps ≤ s'.V b j) ?_ n_iter s s' hn h
  intro s s' h
  obtain ⟨s1, h1, h2⟩ := bind_ok h
  obtain ⟨s2, h3, h4⟩ := bind_ok h2
  obtain ⟨H, -, h5⟩ := bind_ok h4
  obtain ⟨p, -, h6⟩ := bind_ok h1
  obtain ⟨q, -, h7⟩ := bind_ok h3
  obtain ⟨w, -, h8⟩ := bind_ok h5
  cases h6
  cases h7
  cases h8
  cases normalization <;> exact ⟨fun f b => hfloor _, fun b j => hfloor _⟩

/-- One iteration of `FastGaussMNMF` with the default flooring function. -/
example (np : Numpy ℂ) : ∃ s', stateAfter (fastUpdateOnce np .ip1 true (Special.max_flooring (1 / 10 ^ 10)) FlooredCall.exX) 1
      (⟨fun _ => 1, fun _ _ _ => 1, fun _ _ _ => 1, fun _ _ _ => 1⟩ : FSt (Fin 3) 2 2 4 2) = .ok s' ∧
    (∀ k f b, 1 / 10 ^ 10 ≤ s'.T k f b) ∧ ∀ f k c, 0 ≤ s'.D f k c := by
  obtain ⟨s', h, -⟩ := MnmfCall.updateF_ok np (floor := Special.max_flooring (1 / 10 ^ 10))
    (fun x => lt_max_of_lt_right (by norm_num)) (alg := .ip1) trivial true FlooredCall.exX_indep
    (⟨fun _ => 1, fun _ _ _ => 1, fun _ _ _ => 1, fun _ _ _ => 1⟩ : FSt (Fin 3) 2 2 4 2)
    ⟨fun _ => by simp, fun _ _ _ => one_pos, fun _ _ _ => one_pos, fun _ _ _ => one_pos⟩
  have e : stateAfter (fastUpdateOnce np .ip1 true (Special.max_flooring (1 / 10 ^ 10)) FlooredCall.exX) 1
      (⟨fun _ => 1, fun _ _ _ => 1, fun _ _ _ => 1, fun _ _ _ => 1⟩ : FSt (Fin 3) 2 2 4 2) = .ok s' := by
    rw [stateAfter, h]
    rfl
  exact ⟨s', e, (C41_fastMnmf np .ip1 true _ _ (fun x => le_max_right _ _) _ _ s' 1 one_ne_zero e).1,
    C41_fastMnmf_spatial np .ip1 true _ _ _ s' 1 (fun _ _ _ => zero_le_one) e⟩

/-- Two iterations of `GaussMNMF` with the default flooring function, from any start and for any recording. -/
example (np : Numpy ℂ) (XX : Fin 3 → Fin 4 → Mat 2 ℂ) (s : MSt (Fin 3) 2 2 4 2) :
    ∃ s', stateAfter (fullUpdateOnce np true (Special.max_flooring (1 / 10 ^ 10)) XX) 2 s = .ok s' ∧
      (∀ k b j, 1 / 10 ^ 10 ≤ s'.V k b j) ∧ ∀ k f, (s'.H k f).trace = 1 := by
  have hf : ∀ x, 0 < Special.max_flooring (1 / 10 ^ 10) x := fun x => lt_max_of_lt_right (by norm_num)
  obtain ⟨s1, h1, -⟩ := MnmfCall.update_ok (np := np) hf true XX s
  obtain ⟨s2, h2, -⟩ := MnmfCall.update_ok (np := np) hf true XX s1
  have e : stateAfter (fullUpdateOnce np true (Special.max_flooring (1 / 10 ^ 10)) XX) 2 s = .ok s2 := by
    rw [stateAfter, h1]
    change stateAfter _ 1 s1 = _
    rw [stateAfter, h2]
    rfl
  have := C41_gaussMnmf np true _ (1 / 10 ^ 10) (by norm_num) (fun x => le_max_right _ _) XX s s2 2 two_ne_zero e
  exact ⟨s2, e, this.1, this.2.2.2.2 rfl⟩

/-- One iteration of `GaussMNMF` with partitioning and the default flooring function. -/
example (np : Numpy ℂ) : ∃ s', stateAfter (fullUpdateOnceP np false (Special.max_flooring (1 / 10 ^ 10))
      fun (_ : Fin 3) (_ : Fin 4) => (1 : Mat 2 ℂ)) 1
      (⟨fun _ _ => 1 / 2, fun _ _ => 1, fun _ _ => 2, fun _ _ => 1⟩ : MStP (Fin 3) 2 2 4 5) = .ok s' ∧
    ∀ f b, 1 / 10 ^ 10 ≤ s'.T f b := by
  obtain ⟨s', h, -⟩ := MnmfCall.updateP_ok (np := np) (floor := Special.max_flooring (1 / 10 ^ 10))
    (fun x => lt_max_of_lt_right (by norm_num)) false (XX := fun (_ : Fin 3) (_ : Fin 4) => (1 : Mat 2 ℂ)) (fun _ _ => PosDef.one)
    (⟨fun _ _ => 1 / 2, fun _ _ => 1, fun _ _ => 2, fun _ _ => 1⟩ : MStP (Fin 3) 2 2 4 5)
    ⟨⟨fun _ _ => by norm_num, fun _ _ => one_pos, fun _ _ => two_pos, fun _ _ => PosDef.one⟩, nofun⟩
  have e : stateAfter (fullUpdateOnceP np false (Special.max_flooring (1 / 10 ^ 10)) fun (_ : Fin 3) (_ : Fin 4) => (1 : Mat 2 ℂ)) 1
      (⟨fun _ _ => 1 / 2, fun _ _ => 1, fun _ _ => 2, fun _ _ => 1⟩ : MStP (Fin 3) 2 2 4 5) = .ok s' := by
    rw [stateAfter, h]
    rfl
  exact ⟨s', e, (C41_gaussMnmf_partitioned np false _ _ (fun x => le_max_right _ _) _ _ s' 1 one_ne_zero e).1⟩

end Verif.Mnmf
