import Verif.Props.LimitIlrma
import Verif.Props.StationaryFastMnmf

/-!
# What endless runs of FastMNMF accumulate at (C76)

The same as `LimitIlrma.lean` for `FastGaussMNMF` with IP1, with or without normalization: every accumulation point of
the states (diagonalizers, bases, activations and spatial weights together) with invertible diagonalizers and positive
parameters is a stationary point of the loss.
-/

set_option linter.unusedSectionVars false

namespace Verif.Mnmf
open Matrix Spatial Scale Ilrma Iva Filter Topology
open scoped ComplexOrder

variable {F : Type} [Fintype F] {n m t K : ℕ}

/-- The states `s i` converge to `s'`. -/
structure FLim {α : Type} (l : Filter α) (s : α → FSt F n m t K) (s' : FSt F n m t K) : Prop where
  Q : Tendsto (fun i => (s i).Q) l (𝓝 s'.Q)
  T : ∀ k f b, Tendsto (fun i => (s i).T k f b) l (𝓝 (s'.T k f b))
  V : ∀ k b j, Tendsto (fun i => (s i).V k b j) l (𝓝 (s'.V k b j))
  D : ∀ f k c, Tendsto (fun i => (s i).D f k c) l (𝓝 (s'.D f k c))

section
variable [Nonempty (Fin K)] [Nonempty (Fin n)] {α : Type} {l : Filter α} {s : α → FSt F n m t K} {s' : FSt F n m t K}
  (h : FLim l s s')
include h

theorem FLim.lambD (f : F) (c : Fin m) (j : Fin t) : Tendsto (fun i => lambD (s i) f c j) l (𝓝 (lambD s' f c j)) :=
  tendsto_finsetSum _ fun k _ => (tendsto_recon h.T h.V k f j).mul (h.D f k c)

theorem FLim.out (X : Spec F m t) (f : F) (c : Fin m) (j : Fin t) :
    Tendsto (fun i => ‖separate X (s i).Q f c j‖) l (𝓝 ‖separate X s'.Q f c j‖) :=
  (tendsto_matrix.1 (tendsto_separate X h.Q f) c j).norm

theorem FLim.loss (X : Spec F m t) (hs' : FInv s') : Tendsto (fun i => fastLoss X (s i)) l (𝓝 (fastLoss X s')) := by
  refine tendsto_finsetSum _ fun f _ => Tendsto.sub (tendsto_meanT fun j => tendsto_finsetSum _ fun c _ => ?_)
    (tendsto_const_nhds.mul (tendsto_logdet h.Q hs'.1 f))
  have hp := (lambD_pos hs' f c j).ne'
  exact (((h.out X f c j).pow 2).div (h.lambD f c j) hp).add ((h.lambD f c j).log hp)

theorem FLim.basis [Nonempty (Fin m)] (ht : 0 < t) (X : Spec F m t) (hs' : FInv s') :
    FLim l (fun i => fastUpdateBasis id X (s i)) (fastUpdateBasis id X s') := by
  have : Nonempty (Fin t) := ⟨⟨0, ht⟩⟩
  refine ⟨h.Q, fun k f b => ?_, h.V, h.D⟩
  have hp := lambD_pos hs'
  refine (h.T k f b).mul (Tendsto.sqrt (Tendsto.div ?_ ?_ ?_))
  · exact tendsto_finsetSum _ fun j _ => (h.V k b j).mul (tendsto_finsetSum _ fun c _ =>
      (h.D f k c).mul (((h.out X f c j).div (h.lambD f c j) (hp f c j).ne').pow 2))
  · exact tendsto_finsetSum _ fun j _ => (h.V k b j).mul (tendsto_finsetSum _ fun c _ =>
      (h.D f k c).div (h.lambD f c j) (hp f c j).ne')
  · exact (Finset.sum_pos (fun j _ => mul_pos (hs'.2.2.1 k b j) (Finset.sum_pos
      (fun c _ => div_pos (hs'.2.2.2 f k c) (hp f c j)) Finset.univ_nonempty)) Finset.univ_nonempty).ne'

theorem FLim.activation [Nonempty F] [Nonempty (Fin m)] (X : Spec F m t) (hs' : FInv s') :
    FLim l (fun i => fastUpdateActivation id X (s i)) (fastUpdateActivation id X s') := by
  refine ⟨h.Q, h.T, fun k b j => ?_, h.D⟩
  have hp := lambD_pos hs'
  refine (h.V k b j).mul (Tendsto.sqrt (Tendsto.div ?_ ?_ ?_))
  · exact tendsto_finsetSum _ fun f _ => (h.T k f b).mul (tendsto_finsetSum _ fun c _ =>
      (h.D f k c).mul (((h.out X f c j).div (h.lambD f c j) (hp f c j).ne').pow 2))
  · exact tendsto_finsetSum _ fun f _ => (h.T k f b).mul (tendsto_finsetSum _ fun c _ =>
      (h.D f k c).div (h.lambD f c j) (hp f c j).ne')
  · exact (Finset.sum_pos (fun f _ => mul_pos (hs'.2.1 k f b) (Finset.sum_pos
      (fun c _ => div_pos (hs'.2.2.2 f k c) (hp f c j)) Finset.univ_nonempty)) Finset.univ_nonempty).ne'

theorem FLim.diagonalizer (np : Numpy ℂ) (X : Spec F m t) (hX : ∀ f, LinearIndependent ℂ (X f).row)
    (hs : ∀ i, FInv (s i)) (hs' : FInv s') {r : α → FSt F n m t K} {r' : FSt F n m t K}
    (hr : ∀ i, fastUpdateDiagonalizer np .ip1 id X (s i) = .ok (r i))
    (hr' : fastUpdateDiagonalizer np .ip1 id X s' = .ok r') : FLim l r r' := by
  have hform : ∀ {a b : FSt F n m t K}, FInv a → fastUpdateDiagonalizer np .ip1 id X a = .ok b →
      ip1Stack id (fun f => wcov (fun c j => 1 / Mnmf.lambD a f c j) X f) a.Q = .ok b.Q ∧ b.T = a.T ∧ b.V = a.V ∧ b.D = a.D := by
    intro a b ha hb
    obtain ⟨Q', h1, -⟩ := ip1Stack_strict (fun f c j => 1 / Mnmf.lambD a f c j)
      (fun f c j => one_div_pos.mpr (lambD_pos ha f c j)) X hX a.Q ha.1
    have h2 : spatialFilter np .ip1 id (fun f c j => 1 / Mnmf.lambD a f c j) X a.Q = .ok Q' := h1
    rw [fastUpdateDiagonalizer, h2] at hb
    have hb : (⟨Q', a.T, a.V, a.D⟩ : FSt F n m t K) = b := Except.ok.inj hb
    rw [← hb]
    exact ⟨h1, rfl, rfl, rfl⟩
  have k := fun i => hform (hs i) (hr i)
  have k' := hform hs' hr'
  have hp := lambD_pos hs'
  refine ⟨ip1Stack_tendsto (fun f c => tendsto_wcov (fun c j => tendsto_const_nhds.div (h.lambD f c j) (hp f c j).ne') X f c)
    (fun i f c => wcov_posDef (fun c j => one_div_pos.mpr (lambD_pos (hs i) f c j)) hX f c)
    (fun f c => wcov_posDef (fun c j => one_div_pos.mpr (hp f c j)) hX f c) h.Q (fun i => (hs i).1) hs'.1
    (fun i => (k i).1) k'.1, fun a f b => ?_, fun a b j => ?_, fun f a c => ?_⟩
  · rw [k'.2.1]
    exact (h.T a f b).congr fun i => by rw [(k i).2.1]
  · rw [k'.2.2.1]
    exact (h.V a b j).congr fun i => by rw [(k i).2.2.1]
  · rw [k'.2.2.2]
    exact (h.D f a c).congr fun i => by rw [(k i).2.2.2]

theorem FLim.spatial (ht : 0 < t) (X : Spec F m t) (hs' : FInv s') :
    FLim l (fun i => fastUpdateSpatial X (s i)) (fastUpdateSpatial X s') := by
  have : Nonempty (Fin t) := ⟨⟨0, ht⟩⟩
  refine ⟨h.Q, h.T, h.V, fun f k c => ?_⟩
  have hp := lambD_pos hs'
  have hR := recon_pos hs'.2.1 hs'.2.2.1
  refine (Tendsto.sqrt (Tendsto.div ?_ ?_ ?_)).mul (h.D f k c)
  · exact tendsto_finsetSum _ fun j _ => ((tendsto_recon h.T h.V k f j).div ((h.lambD f c j).pow 2)
      (pow_pos (hp f c j) 2).ne').mul ((h.out X f c j).pow 2)
  · exact tendsto_finsetSum _ fun j _ => (tendsto_recon h.T h.V k f j).div (h.lambD f c j) (hp f c j).ne'
  · exact (Finset.sum_pos (fun j _ => div_pos (hR k f j) (hp f c j)) Finset.univ_nonempty).ne'

end

/-- The state before the normalization, computed without flooring. -/
theorem fast_unfloored [Nonempty (Fin K)] [Nonempty (Fin n)] (np : Numpy ℂ) (normalization : Bool) (floor : ℝ → ℝ)
    (X : Spec F m t) (ht : 0 < t) (hX : ∀ f, LinearIndependent ℂ (X f).row) (s : FSt F n m t K) (hs : FInv s)
    (hr : FRegExact np normalization floor X s) {s' : FSt F n m t K}
    (h : fastUpdateOnce np .ip1 normalization floor X s = .ok s') :
    FInv (fastUpdateBasis id X s) ∧ FInv (fastUpdateActivation id X (fastUpdateBasis id X s)) ∧
    ∃ s3, fastUpdateDiagonalizer np .ip1 id X (fastUpdateActivation id X (fastUpdateBasis id X s)) = .ok s3 ∧ FInv s3 ∧
      FInv (fastUpdateSpatial X s3) ∧ fastLoss X s' = fastLoss X (fastUpdateSpatial X s3) := by
  have e1 : fastUpdateBasis floor X s = fastUpdateBasis id X s := by
    rw [fastUpdateBasis, fastUpdateBasis]
    congr 1
    funext k f b
    exact (hr.basis k f b).2
  have hact := hr.activation
  have hdiag := hr.diagonalizer
  have hspat := hr.spatial
  rw [fastUpdateOnce] at h
  rw [e1] at hact hdiag hspat h
  have e2 : fastUpdateActivation floor X (fastUpdateBasis id X s) = fastUpdateActivation id X (fastUpdateBasis id X s) := by
    rw [fastUpdateActivation, fastUpdateActivation]
    congr 1
    funext k b j
    exact (hact k b j).2
  rw [e2] at hdiag hspat h
  have hs1 : FInv (fastUpdateBasis id X s) := ⟨hs.1, fun k f b => (hr.basis k f b).1, hs.2.2⟩
  have hs2 : FInv (fastUpdateActivation id X (fastUpdateBasis id X s)) :=
    ⟨hs.1, hs1.2.1, fun k b j => (hact k b j).1, hs.2.2.2⟩
  obtain ⟨s3, e3, hs3, -, -⟩ := fast_diagonalizer_strict np (floor := id) X hX _ hs2 rfl
  have e4 : fastUpdateDiagonalizer np .ip1 floor X (fastUpdateActivation id X (fastUpdateBasis id X s)) = .ok s3 := by
    rw [← e3, fastUpdateDiagonalizer, fastUpdateDiagonalizer, hdiag _ rfl]
  obtain ⟨hp, hψ⟩ := hspat s3 e4
  have hs4 : FInv (fastUpdateSpatial X s3) := ⟨hs3.1, hs3.2.1, hs3.2.2.1, hp⟩
  refine ⟨hs1, hs2, s3, e3, hs3, hs4, ?_⟩
  rw [e4] at h
  cases normalization with
  | false => rw [← Except.ok.inj h]; rfl
  | true =>
    rw [← Except.ok.inj h]
    exact (C42_normalise floor X ht _ hs4 (hψ rfl)).2

/-- C76 for FastMNMF: along an endless run the losses never increase, and every accumulation point of the states with
invertible diagonalizers and positive parameters is a stationary point of the loss. -/
theorem C76_fast_mnmf [Nonempty F] [Nonempty (Fin m)] [Nonempty (Fin K)] [Nonempty (Fin n)] (np : Numpy ℂ)
    (normalization : Bool) (floor : ℝ → ℝ) (X : Spec F m t) (hX : ∀ f, LinearIndependent ℂ (X f).row)
    (hz : ∀ j, ∃ f c, X f c j ≠ 0) (s : ℕ → FSt F n m t K) (h0 : FInv (s 0))
    (hrun : ∀ i, fastUpdateOnce np .ip1 normalization floor X (s i) = .ok (s (i + 1)))
    (hr : ∀ i, FRegExact np normalization floor X (s i)) :
    (∀ i, fastLoss X (s (i + 1)) ≤ fastLoss X (s i)) ∧
    ∀ (s' : FSt F n m t K) (φ : ℕ → ℕ), StrictMono φ → Tendsto (fun i => (s (φ i)).Q) atTop (𝓝 s'.Q) →
      Tendsto (fun i => (s (φ i)).T) atTop (𝓝 s'.T) → Tendsto (fun i => (s (φ i)).V) atTop (𝓝 s'.V) →
      Tendsto (fun i => (s (φ i)).D) atTop (𝓝 s'.D) → FInv s' → FStationary X s' := by
  have ht : 0 < t := by
    obtain ⟨f⟩ := ‹Nonempty F›
    obtain ⟨c⟩ := ‹Nonempty (Fin m)›
    by_contra ht
    obtain rfl : t = 0 := by omega
    exact (hX f).ne_zero c (Subsingleton.elim _ _)
  have hle : ∀ {a b : FSt F n m t K}, fastLoss X a < fastLoss X b ∨ a = b → fastLoss X a ≤ fastLoss X b := by
    rintro a b (h | h)
    exacts [h.le, by rw [h]]
  have hstep : ∀ i, FInv (s i) → FInv (s (i + 1)) ∧ fastLoss X (s (i + 1)) ≤ fastLoss X (s i) := by
    intro i hi
    obtain ⟨r, h1, h2, -⟩ := C64_fast_mnmf np normalization floor X ht hX (s i) hi (hr i)
    rw [hrun i] at h1
    cases h1
    obtain ⟨k1, k2, s3, k3, k4, k5, k6⟩ := fast_unfloored np normalization floor X ht hX (s i) hi (hr i) (hrun i)
    refine ⟨h2, ?_⟩
    obtain ⟨b1, -⟩ := fast_basis_strict (floor := id) X ht (s i) hi fun k f b => ⟨k1.2.1 k f b, rfl⟩
    obtain ⟨a1, -⟩ := fast_activation_strict (floor := id) X ht _ k1 fun k b j => ⟨k2.2.2.1 k b j, rfl⟩
    obtain ⟨s3', e3, -, c1, -⟩ := fast_diagonalizer_strict np (floor := id) X hX _ k2 rfl
    rw [k3] at e3
    cases e3
    obtain ⟨f1, -⟩ := fast_spatial_strict X ht s3 k4 k5.2.2.2
    rw [k6]
    exact (hle f1).trans ((hle c1).trans ((hle a1).trans (hle b1)))
  have hu : ∀ i, FInv (s i) := fun i => by
    induction i with
    | zero => exact h0
    | succ i ih => exact (hstep i ih).1
  refine ⟨fun i => (hstep i (hu i)).2, fun s' φ hφ hQ hT hV hD hs' => ?_⟩
  have hlim : FLim atTop (fun i => s (φ i)) s' :=
    ⟨hQ, fun k f b => tendsto_pi_nhds.1 (tendsto_pi_nhds.1 (tendsto_pi_nhds.1 hT k) f) b,
      fun k b j => tendsto_pi_nhds.1 (tendsto_pi_nhds.1 (tendsto_pi_nhds.1 hV k) b) j,
      fun f k c => tendsto_pi_nhds.1 (tendsto_pi_nhds.1 (tendsto_pi_nhds.1 hD f) k) c⟩
  have hreg := fregExact_id np false X hX hz s' hs'
  obtain ⟨r, b1, -, b2, -⟩ := C64_fast_mnmf np false id X ht hX s' hs' hreg
  obtain ⟨c1, c2, r3, c3, c4, c5, c6⟩ := fast_unfloored np false id X ht hX s' hs' hreg b1
  have h := fun i => fast_unfloored np normalization floor X ht hX (s (φ i)) (hu _) (hr _) (hrun _)
  choose d1 d2 s3 d3 d4 d5 d6 using h
  have hl3 := ((hlim.basis ht X hs').activation X c1).diagonalizer np X hX d2 c2 d3 c3
  have e1 : Tendsto (fun i => fastLoss X (s (φ i + 1))) atTop (𝓝 (fastLoss X r)) := by
    rw [c6]
    exact ((hl3.spatial ht X c4).loss X c5).congr fun i => (d6 i).symm
  have e2 := hlim.loss X hs'
  have e3 := tendsto_nhds_unique (e1.sub e2) (decrease_tendsto (x := fun i => fastLoss X (s i))
    (fun i => (hstep i (hu i)).2) hφ e2)
  by_contra hns
  exact absurd (b2.mpr hns) (by linarith)

/-- Without flooring the hypothesis on the iterates is void: every run from a positive initial state is covered. -/
theorem C76_fast_mnmf_no_flooring [Nonempty F] [Nonempty (Fin m)] [Nonempty (Fin K)] [Nonempty (Fin n)] (np : Numpy ℂ)
    (normalization : Bool) (X : Spec F m t) (hX : ∀ f, LinearIndependent ℂ (X f).row)
    (hz : ∀ j, ∃ f c, X f c j ≠ 0) (s0 : FSt F n m t K) (h0 : FInv s0) :
    ∃ s : ℕ → FSt F n m t K, s 0 = s0 ∧
      (∀ i, fastUpdateOnce np .ip1 normalization id X (s i) = .ok (s (i + 1))) ∧
      (∀ i, fastLoss X (s (i + 1)) ≤ fastLoss X (s i)) ∧
      ∀ (s' : FSt F n m t K) (φ : ℕ → ℕ), StrictMono φ → Tendsto (fun i => (s (φ i)).Q) atTop (𝓝 s'.Q) →
        Tendsto (fun i => (s (φ i)).T) atTop (𝓝 s'.T) → Tendsto (fun i => (s (φ i)).V) atTop (𝓝 s'.V) →
        Tendsto (fun i => (s (φ i)).D) atTop (𝓝 s'.D) → FInv s' → FStationary X s' := by
  have hnext : ∀ s : {s : FSt F n m t K // FInv s}, ∃ s' : {s : FSt F n m t K // FInv s},
      fastUpdateOnce np .ip1 normalization id X s = .ok s'.1 := fun s => by
    obtain ⟨s', h1, h2, -⟩ := C64_no_flooring np normalization X hX hz s.1 s.2
    exact ⟨⟨s', h2⟩, h1⟩
  choose g hg using hnext
  obtain ⟨s, hs⟩ : ∃ s : ℕ → {s : FSt F n m t K // FInv s}, s = fun i => g^[i] ⟨s0, h0⟩ := ⟨_, rfl⟩
  have hrun : ∀ i, fastUpdateOnce np .ip1 normalization id X (s i).1 = .ok (s (i + 1)).1 := fun i => by
    rw [hg, hs]
    simp only [Function.iterate_succ_apply']
  refine ⟨fun i => (s i).1, by rw [hs]; rfl, hrun, ?_⟩
  exact C76_fast_mnmf np normalization id X hX hz (fun i => (s i).1) (s 0).2 hrun fun i =>
    fregExact_id np normalization X hX hz _ (s i).2

/-- The theorem applies, for example, to the run from bases `4` with normalization. -/
example (np : Numpy ℂ) : ∃ s : ℕ → FSt Unit 2 2 2 1, s 0 = exFast 4 ∧
    (∀ i, fastUpdateOnce np .ip1 true id exX (s i) = .ok (s (i + 1))) ∧
    ∀ i, fastLoss exX (s (i + 1)) ≤ fastLoss exX (s i) := by
  obtain ⟨s, h1, h2, h3, -⟩ := C76_fast_mnmf_no_flooring np true exX exX_indep exX_frames _ (exFast_inv (c := 4) (by norm_num))
  exact ⟨s, h1, h2, h3⟩

end Verif.Mnmf
