import Verif.Props.Limit
import Verif.Props.StationaryIlrma

/-!
# What endless runs of ILRMA accumulate at (C76)

C63 is about one iteration. Here: an endless run of GaussILRMA, TILRMA or GGDILRMA without partitioning, with any
normalization. The recorded losses never increase, and every accumulation point of the states (filters, bases and
activations together) that is not degenerate is a stationary point of the loss.
-/

set_option linter.unusedSectionVars false

namespace Verif.Ilrma
open Matrix Spatial Scale Iva Filter Topology
open scoped ComplexOrder

variable {F : Type} [Fintype F] {n t K : ℕ}

/-- What the claim needs to know about a source model besides `Smooth`; proved below for all five. -/
structure Contin (src : Source) (floor : ℝ → ℝ) (ok : ℝ → Prop) : Prop where
  num_pos : ∀ y r, 0 < y → 0 < r → 0 < src.num y r
  num : ∀ y r, 0 < y → 0 < r → ContinuousAt (fun q : ℝ × ℝ => src.num q.1 q.2) (y, r)
  ell : ∀ y r, 0 < r → ContinuousAt (fun q : ℝ × ℝ => src.ell q.1 q.2) (y, r)
  phi : ∀ y r, 0 < y → 0 < r → ContinuousAt (fun q : ℝ × ℝ => src.phi id q.1 q.2) (y, r)
  floored : ∀ y r, ok y → src.phi floor y r = src.phi id y r

theorem gauss_contin (p : ℝ) (floor : ℝ → ℝ) : Contin (gauss p) floor fun _ => True where
  num_pos y r hy hr := by simp only [gauss]; positivity
  num y r hy hr := by
    simp only [gauss]
    have := (Real.rpow_pos_of_pos hr ((p + 2) / p)).ne'
    fun_prop (disch := simp_all [hr.ne'])
  ell y r hr := by
    simp only [gauss]
    have := (Real.rpow_pos_of_pos hr (2 / p)).ne'
    fun_prop (disch := simp_all [hr.ne'])
  phi y r hy hr := by
    simp only [gauss]
    have := (Real.rpow_pos_of_pos hr (2 / p)).ne'
    fun_prop (disch := simp_all [hr.ne'])
  floored _ _ _ := rfl

theorem gaussME_contin (floor : ℝ → ℝ) : Contin gaussME floor fun _ => True where
  num_pos y r hy hr := by simp only [gaussME]; positivity
  num y r hy hr := by
    simp only [gaussME]
    fun_prop (disch := simp_all [hr.ne'])
  ell := (gauss_contin 2 floor).ell
  phi := (gauss_contin 2 floor).phi
  floored _ _ _ := rfl

theorem student_contin {p nu : ℝ} (hnu : 0 < nu) (floor : ℝ → ℝ) : Contin (student p nu) floor fun _ => True where
  num_pos y r hy hr := by
    have := rTilde_pos (p := p) (y := y) hnu hr
    simp only [student]
    positivity
  num y r hy hr := by
    have h := (rTilde_pos (p := p) (y := y) hnu hr).ne'
    simp only [student, rTilde] at h ⊢
    fun_prop (disch := simp_all [hr.ne'])
  ell y r hr := by
    simp only [student]
    have := (Real.rpow_pos_of_pos hr (2 / p))
    have h : 0 < 1 + 2 / nu * (y ^ 2 / r ^ (2 / p)) := by positivity
    fun_prop (disch := first | exact h.ne' | simp_all [hr.ne', this.ne'])
  phi y r hy hr := by
    have h := (rTilde_pos (p := p) (y := y) hnu hr).ne'
    simp only [student, rTilde] at h ⊢
    fun_prop (disch := simp_all [hr.ne'])
  floored _ _ _ := rfl

theorem studentME_contin {nu : ℝ} (hnu : 0 < nu) (floor : ℝ → ℝ) : Contin (studentME nu) floor fun _ => True where
  num_pos y r hy hr := by
    have := rTilde_pos (p := 2) (y := y) hnu hr
    simp only [rTilde, div_self (two_ne_zero (α := ℝ)), Real.rpow_one] at this
    simp only [studentME]
    positivity
  num y r hy hr := by
    have h := (rTilde_pos (p := 2) (y := y) hnu hr).ne'
    simp only [rTilde, div_self (two_ne_zero (α := ℝ)), Real.rpow_one] at h
    simp only [studentME]
    fun_prop (disch := simp_all [hr.ne'])
  ell := (student_contin (p := 2) hnu floor).ell
  phi := (student_contin (p := 2) hnu floor).phi
  floored _ _ _ := rfl

theorem ggd_contin {p beta : ℝ} (hb : 0 < beta) (floor : ℝ → ℝ) :
    Contin (ggd p beta) floor fun y => 0 < y ∧ floor (y ^ (2 - beta)) = y ^ (2 - beta) where
  num_pos y r hy hr := by simp only [ggd]; positivity
  num y r hy hr := by
    simp only [ggd]
    have := (Real.rpow_pos_of_pos hr ((beta + p) / p)).ne'
    fun_prop (disch := simp_all [hr.ne', hy.ne'])
  ell y r hr := by
    simp only [ggd]
    have := (Real.rpow_pos_of_pos hr (beta / p)).ne'
    fun_prop (disch := first | exact .inr hb.le | simp_all [hr.ne'])
  phi y r hy hr := by
    simp only [ggd, id]
    have := (Real.rpow_pos_of_pos hr (beta / p)).ne'
    have := (Real.rpow_pos_of_pos hy (2 - beta)).ne'
    fun_prop (disch := simp_all [hr.ne', hy.ne', hb.ne'])
  floored y r hok := by simp only [ggd, id, hok.2]

/-! ### Continuity of one iteration -/

section
variable {α : Type} {l : Filter α} {src : Source}

theorem tendsto_two {f : ℝ → ℝ → ℝ} {y r : ℝ} (hf : ContinuousAt (fun q : ℝ × ℝ => f q.1 q.2) (y, r)) {a b : α → ℝ}
    (ha : Tendsto a l (𝓝 y)) (hb : Tendsto b l (𝓝 r)) : Tendsto (fun i => f (a i) (b i)) l (𝓝 (f y r)) :=
  hf.tendsto.comp (ha.prodMk_nhds hb)

variable {T : α → Fin n → F → Fin K → ℝ} {T' : Fin n → F → Fin K → ℝ} {V : α → Fin n → Fin K → Fin t → ℝ}
  {V' : Fin n → Fin K → Fin t → ℝ} (hT : ∀ k f b, Tendsto (fun i => T i k f b) l (𝓝 (T' k f b)))
  (hV : ∀ k b j, Tendsto (fun i => V i k b j) l (𝓝 (V' k b j)))
include hT hV

theorem tendsto_recon (k : Fin n) (f : F) (j : Fin t) :
    Tendsto (fun i => recon (T i) (V i) k f j) l (𝓝 (recon T' V' k f j)) :=
  tendsto_finsetSum _ fun b _ => (hT k f b).mul (hV k b j)

variable {Y : α → Spec F n t} {Y' : Spec F n t} (hY : ∀ f, Tendsto (fun i => Y i f) l (𝓝 (Y' f)))
include hY

theorem tendsto_lossOf {floor : ℝ → ℝ} {ok : ℝ → Prop} (hc : Contin src floor ok)
    (hR : ∀ k f j, 0 < recon T' V' k f j) {W : α → F → Mat n ℂ} {W' : F → Mat n ℂ} (hW : Tendsto W l (𝓝 W'))
    (hu : ∀ f, IsUnit (W' f).det) :
    Tendsto (fun i => lossOf src (Y i) (recon (T i) (V i)) (W i)) l (𝓝 (lossOf src Y' (recon T' V') W')) := by
  refine tendsto_finsetSum _ fun f _ => Tendsto.sub (tendsto_finsetSum _ fun k _ => tendsto_meanT fun j => ?_)
    (tendsto_const_nhds.mul (tendsto_logdet hW hu f))
  exact tendsto_two (hc.ell _ _ (hR k f j)) (tendsto_matrix.1 (hY f) k j).norm (tendsto_recon hT hV k f j)

variable {floor : ℝ → ℝ} {ok : ℝ → Prop} (hc : Contin src floor ok) (hY0 : ∀ f k j, Y' f k j ≠ 0)
  (hT0 : ∀ k f b, 0 < T' k f b) (hV0 : ∀ k b j, 0 < V' k b j)
include hc hY0 hT0 hV0

theorem tendsto_basisRaw [Nonempty (Fin K)] [Nonempty (Fin t)] (k : Fin n) (f : F) (b : Fin K) :
    Tendsto (fun i => basisRaw src (Y i) (T i) (V i) k f b) l (𝓝 (basisRaw src Y' T' V' k f b)) ∧
    0 < basisRaw src Y' T' V' k f b := by
  have hR := recon_pos hT0 hV0
  have hn : ∀ j, 0 < src.num ‖Y' f k j‖ (recon T' V' k f j) := fun j =>
    hc.num_pos _ _ (norm_pos_iff.mpr (hY0 f k j)) (hR k f j)
  have hnum : 0 < ∑ j, V' k b j * src.num ‖Y' f k j‖ (recon T' V' k f j) :=
    Finset.sum_pos (fun j _ => mul_pos (hV0 k b j) (hn j)) Finset.univ_nonempty
  have hden : 0 < ∑ j, V' k b j / recon T' V' k f j :=
    Finset.sum_pos (fun j _ => div_pos (hV0 k b j) (hR k f j)) Finset.univ_nonempty
  refine ⟨?_, mul_pos (Real.rpow_pos_of_pos (div_pos hnum hden) _) (hT0 k f b)⟩
  refine Tendsto.mul (Tendsto.rpow_const (Tendsto.div ?_ ?_ hden.ne') (.inl (div_pos hnum hden).ne')) (hT k f b)
  · exact tendsto_finsetSum _ fun j _ => (hV k b j).mul
      (tendsto_two (hc.num _ _ (norm_pos_iff.mpr (hY0 f k j)) (hR k f j)) (tendsto_matrix.1 (hY f) k j).norm
        (tendsto_recon hT hV k f j))
  · exact tendsto_finsetSum _ fun j _ => (hV k b j).div (tendsto_recon hT hV k f j) (hR k f j).ne'

theorem tendsto_activationRaw [Nonempty (Fin K)] [Nonempty F] (k : Fin n) (b : Fin K) (j : Fin t) :
    Tendsto (fun i => activationRaw src (Y i) (T i) (V i) k b j) l (𝓝 (activationRaw src Y' T' V' k b j)) ∧
    0 < activationRaw src Y' T' V' k b j := by
  have hR := recon_pos hT0 hV0
  have hn : ∀ f, 0 < src.num ‖Y' f k j‖ (recon T' V' k f j) := fun f =>
    hc.num_pos _ _ (norm_pos_iff.mpr (hY0 f k j)) (hR k f j)
  have hnum : 0 < ∑ f, T' k f b * src.num ‖Y' f k j‖ (recon T' V' k f j) :=
    Finset.sum_pos (fun f _ => mul_pos (hT0 k f b) (hn f)) Finset.univ_nonempty
  have hden : 0 < ∑ f, T' k f b / recon T' V' k f j :=
    Finset.sum_pos (fun f _ => div_pos (hT0 k f b) (hR k f j)) Finset.univ_nonempty
  refine ⟨?_, mul_pos (Real.rpow_pos_of_pos (div_pos hnum hden) _) (hV0 k b j)⟩
  refine Tendsto.mul (Tendsto.rpow_const (Tendsto.div ?_ ?_ hden.ne') (.inl (div_pos hnum hden).ne')) (hV k b j)
  · exact tendsto_finsetSum _ fun f _ => (hT k f b).mul
      (tendsto_two (hc.num _ _ (norm_pos_iff.mpr (hY0 f k j)) (hR k f j)) (tendsto_matrix.1 (hY f) k j).norm
        (tendsto_recon hT hV k f j))
  · exact tendsto_finsetSum _ fun f _ => (hT k f b).div (tendsto_recon hT hV k f j) (hR k f j).ne'

theorem tendsto_varphi [Nonempty (Fin K)] (f : F) (k : Fin n) (j : Fin t) :
    Tendsto (fun i => varphi src id (Y i) (recon (T i) (V i)) f k j) l (𝓝 (varphi src id Y' (recon T' V') f k j)) :=
  tendsto_two (hc.phi _ _ (norm_pos_iff.mpr (hY0 f k j)) (recon_pos hT0 hV0 k f j)) (tendsto_matrix.1 (hY f) k j).norm
    (tendsto_recon hT hV k f j)

end

/-! ### One iteration before the normalization -/

/-- Where the flooring is inactive, the source update without flooring does the same. -/
theorem updateSource_unfloored {src : Source} {floor : ℝ → ℝ} {X : Spec F n t} {s : St F n t K}
    (hb : ∀ k f b, Exact floor (basisRaw src (separate X s.W) s.T s.V k f b))
    (ha : ∀ k b j, Exact floor
      (activationRaw src (separate X s.W) (updateBasis src floor (separate X s.W) s.T s.V) s.V k b j)) :
    updateSource src floor X s = updateSource src id X s := by
  have h1 : updateBasis src floor (separate X s.W) s.T s.V = updateBasis src id (separate X s.W) s.T s.V := by
    funext k f b
    exact (hb k f b).2
  rw [h1] at ha
  simp only [updateSource, h1]
  congr 1
  funext k b j
  exact (ha k b j).2

section
variable [Nonempty (Fin K)] (np : Numpy ℂ) {src : Source} {p : ℝ} {floor : ℝ → ℝ} {ok : ℝ → Prop}
  (hsm : Smooth src p floor ok) (hc : Contin src floor ok) (norm : Norm n) (X : Spec F n t) (ht : 0 < t)
  (hX : ∀ f, LinearIndependent ℂ (X f).row) (s : St F n t K) (hs : Inv s)
include hsm hc ht hX hs

/-- The auxiliary function of the spatial update majorises the loss. -/
theorem gap_unfloored (hb : ∀ k f b, Exact floor (basisRaw src (separate X s.W) s.T s.V k f b))
    (ha : ∀ k b j, Exact floor
      (activationRaw src (separate X s.W) (updateBasis src floor (separate X s.W) s.T s.V) s.V k b j))
    (hpt : ∀ f k j, ok ‖separate X s.W f k j‖) (A : F → Mat n ℂ) :
    loss src X ⟨A, (updateSource src id X s).T, (updateSource src id X s).V⟩
      ≤ loss src X (updateSource src id X s) + (auxFn (varphi src id (separate X s.W)
          (recon (updateSource src id X s).T (updateSource src id X s).V)) X A
        - auxFn (varphi src id (separate X s.W)
          (recon (updateSource src id X s).T (updateSource src id X s).V)) X s.W) := by
  obtain ⟨hs1, -, -⟩ := source_strict hsm X ht s hs hpt hb ha
  rw [updateSource_unfloored hb ha] at hs1
  have h := spatial_gap (separate X s.W) (separate X A) (recon (updateSource src id X s).T (updateSource src id X s).V)
    s.W A fun f k j => hsm.spatial _ _ (norm_nonneg _) (hpt f k j) (recon_pos hs1.2.1 hs1.2.2 k f j)
  have hphi : varphi src floor (separate X s.W) (recon (updateSource src id X s).T (updateSource src id X s).V)
      = varphi src id (separate X s.W) (recon (updateSource src id X s).T (updateSource src id X s).V) := by
    funext f k j
    exact hc.floored _ _ (hpt f k j)
  rw [hphi] at h
  exact h

/-- The state before the normalization and its loss, if the spatial update is known to succeed. -/
theorem filter_unfloored {alg : FilterAlg n} {P : (F → Mat n ℂ) → Prop}
    (hr : RegExact np src ok alg norm floor X s) {s' : St F n t K}
    (h : updateOnce np src p alg norm floor X s = .ok s')
    (hW' : (∀ f k j, 0 < varphi src id (separate X s.W)
        (recon (updateSource src id X s).T (updateSource src id X s).V) f k j) →
      ∃ W', spatialFilter np alg id (varphi src id (separate X s.W)
        (recon (updateSource src id X s).T (updateSource src id X s).V)) X s.W = .ok W' ∧
        (∀ f, IsUnit (W' f).det) ∧ P W') :
    ∃ W', P W' ∧
      (∀ f k j, 0 < varphi src id (separate X s.W)
        (recon (updateSource src id X s).T (updateSource src id X s).V) f k j) ∧
      (∀ f, IsUnit (W' f).det) ∧
      loss src X s' = loss src X ⟨W', (updateSource src id X s).T, (updateSource src id X s).V⟩ := by
  obtain ⟨hs1, -, -⟩ := source_strict hsm X ht s hs hr.point hr.basis hr.activation
  have hsp := hr.spatial
  have hnorm := hr.norm
  rw [updateOnce] at h
  rw [updateSource_unfloored hr.basis hr.activation] at hs1 hsp hnorm h
  obtain ⟨s1, hs1d⟩ : ∃ s1, s1 = updateSource src id X s := ⟨_, rfl⟩
  have hW1 : s1.W = s.W := by rw [hs1d]; rfl
  rw [← hs1d] at hs1 hsp hnorm h hW' ⊢
  have hR := recon_pos hs1.2.1 hs1.2.2
  have hphi : varphi src floor (separate X s.W) (recon s1.T s1.V) = varphi src id (separate X s.W) (recon s1.T s1.V) := by
    funext f k j
    exact hc.floored _ _ (hr.point f k j)
  have hpos : ∀ f k j, 0 < varphi src id (separate X s.W) (recon s1.T s1.V) f k j := fun f k j => by
    rw [← hphi]
    exact (hsm.spatial _ _ (norm_nonneg _) (hr.point f k j) (hR k f j)).1
  obtain ⟨W', h1, h2, hP⟩ := hW' hpos
  have hup : updateSpatial np src alg floor X s1 = .ok ⟨W', s1.T, s1.V⟩ := by
    have : spatialFilter np alg floor (varphi src floor (separate X s1.W) (recon s1.T s1.V)) X s1.W = .ok W' := by
      rw [hW1, hsp _ rfl, hphi]
      exact h1
    rw [updateSpatial, this]
    rfl
  obtain ⟨s3, h5, -, -, -, hl3⟩ := C40_loss hsm.scale floor X ht norm ⟨W', s1.T, s1.V⟩ h2 hs1.2.1 hs1.2.2
    (hnorm _ hup)
  rw [hup] at h
  have e : s' = s3 := Except.ok.inj (h.symm.trans h5)
  exact ⟨W', hP, hpos, h2, by rw [e, hl3]⟩

theorem ip1_unfloored (hr : RegExact np src ok .ip1 norm floor X s) {s' : St F n t K}
    (h : updateOnce np src p .ip1 norm floor X s = .ok s') :
    ∃ W', (ip1Stack id (fun f => wcov (varphi src id (separate X s.W)
        (recon (updateSource src id X s).T (updateSource src id X s).V) f) X f) s.W = .ok W') ∧
      (∀ f k j, 0 < varphi src id (separate X s.W)
        (recon (updateSource src id X s).T (updateSource src id X s).V) f k j) ∧
      (∀ f, IsUnit (W' f).det) ∧
      loss src X s' = loss src X ⟨W', (updateSource src id X s).T, (updateSource src id X s).V⟩ := by
  refine filter_unfloored np hsm hc norm X ht hX s hs hr h fun hpos => ?_
  obtain ⟨W', h1, h2, -, -⟩ := ip1Stack_strict _ hpos X hX s.W hs.1
  exact ⟨W', h1, h2, h1⟩

/-- The same for source steering. -/
theorem signal_unfloored {alg : SignalAlg n} {P : (F → Mat n ℂ) → Prop}
    (hr : RegExactY np src ok alg norm floor X (s.toY X)) {s' : St F n t K}
    (h : updateOnceY np src p alg norm floor X (s.toY X) = .ok (s'.toY X))
    (hW' : (∀ f k j, 0 < varphi src id (separate X s.W)
        (recon (updateSource src id X s).T (updateSource src id X s).V) f k j) →
      ∃ W', spatialSignal np alg id (varphi src id (separate X s.W)
        (recon (updateSource src id X s).T (updateSource src id X s).V)) (separate X s.W) = .ok (separate X W') ∧
        (∀ f, IsUnit (W' f).det) ∧ P W') :
    ∃ W', P W' ∧
      (∀ f k j, 0 < varphi src id (separate X s.W)
        (recon (updateSource src id X s).T (updateSource src id X s).V) f k j) ∧
      (∀ f, IsUnit (W' f).det) ∧
      loss src X s' = loss src X ⟨W', (updateSource src id X s).T, (updateSource src id X s).V⟩ := by
  obtain ⟨hs1, -, -⟩ := source_strict hsm X ht s hs hr.point hr.basis hr.activation
  have hsp := hr.spatial
  have hnorm := hr.norm
  have hun : updateSource src floor X s = updateSource src id X s := updateSource_unfloored hr.basis hr.activation
  obtain ⟨s1, hs1d⟩ : ∃ s1, s1 = updateSource src id X s := ⟨_, rfl⟩
  have hW1 : s1.W = s.W := by rw [hs1d]; rfl
  have hY1 : updateSourceY src floor (s.toY X) = s1.toY X := by rw [hs1d, ← hun]; rfl
  rw [updateOnceY, hY1] at h
  rw [hY1] at hsp hnorm
  rw [hun, ← hs1d] at hs1
  rw [← hs1d] at hW' ⊢
  have hR := recon_pos hs1.2.1 hs1.2.2
  have hpt : ∀ f k j, ok ‖separate X s.W f k j‖ := hr.point
  have hphi : varphi src floor (separate X s.W) (recon s1.T s1.V) = varphi src id (separate X s.W) (recon s1.T s1.V) := by
    funext f k j
    exact hc.floored _ _ (hpt f k j)
  have hpos : ∀ f k j, 0 < varphi src id (separate X s.W) (recon s1.T s1.V) f k j := fun f k j => by
    rw [← hphi]
    exact (hsm.spatial _ _ (norm_nonneg _) (hpt f k j) (hR k f j)).1
  obtain ⟨W', h1, h2, hP⟩ := hW' hpos
  obtain ⟨s2, hs2⟩ : ∃ s2 : St F n t K, s2 = ⟨W', s1.T, s1.V⟩ := ⟨_, rfl⟩
  have hup : updateSpatialY np src alg floor (s1.toY X) = .ok (s2.toY X) := by
    have e : updateSpatialY np src alg floor (s1.toY X)
        = (do
          let Y ← spatialSignal np alg floor (varphi src floor (separate X s1.W) (recon s1.T s1.V)) (separate X s1.W)
          .ok ⟨Y, s1.T, s1.V⟩) := rfl
    have : spatialSignal np alg floor (varphi src floor (separate X s1.W) (recon s1.T s1.V)) (separate X s1.W)
        = .ok (separate X W') := by
      rw [hW1]
      refine (hsp _ rfl).trans ?_
      rw [← hphi] at h1
      exact h1
    rw [e, this, hs2]
    rfl
  obtain ⟨s3, h5, -, -, -, hl3⟩ := C40_loss hsm.scale floor X ht norm s2 (by rw [hs2]; exact h2)
    (by rw [hs2]; exact hs1.2.1) (by rw [hs2]; exact hs1.2.2) (hnorm _ hup s2.W rfl)
  have e : s'.toY X = s3.toY X := by
    have k : updateSpatialY np src alg floor (s1.toY X) >>= normalizeY p floor X norm = .ok (s3.toY X) := by
      rw [hup]
      change normalizeY p floor X norm (s2.toY X) = _
      rw [normalizeY_toY p floor X hX norm s2 (by rw [hs2]; exact h2), h5]
      rfl
    exact Except.ok.inj (h.symm.trans k)
  have hl : loss src X s' = loss src X s3 := by
    have k1 := lossY_toY src X hX s'
    rw [e, lossY_toY src X hX s3] at k1
    exact (Except.ok.inj k1).symm
  exact ⟨W', hP, hpos, h2, by rw [hl, hl3, hs2]⟩

theorem iss1_unfloored (hr : RegExactY np src ok .iss1 norm floor X (s.toY X)) {s' : St F n t K}
    (h : updateOnceY np src p .iss1 norm floor X (s.toY X) = .ok (s'.toY X)) :
    ∃ W', (∀ f, iss1 id (varphi src id (separate X s.W)
        (recon (updateSource src id X s).T (updateSource src id X s).V) f) (separate X s.W f) = separate X W' f) ∧
      (∀ f k j, 0 < varphi src id (separate X s.W)
        (recon (updateSource src id X s).T (updateSource src id X s).V) f k j) ∧
      (∀ f, IsUnit (W' f).det) ∧
      loss src X s' = loss src X ⟨W', (updateSource src id X s).T, (updateSource src id X s).V⟩ := by
  refine signal_unfloored np hsm hc norm X ht hX s hs hr h fun hpos => ?_
  obtain ⟨W', h1, h2, -, -⟩ := iss1Stack_strict _ hpos X hX s.W hs.1
  exact ⟨W', congrArg Except.ok h1, h2, fun f => congrFun h1 f⟩

end

/-! ### Endless runs -/

section
variable [Nonempty F] [Nonempty (Fin K)] (np : Numpy ℂ) {src : Source} {p : ℝ} {floor : ℝ → ℝ} {ok ok' : ℝ → Prop}
  (hsm : Smooth src p floor ok) (hc : Contin src floor ok) (hsm' : Smooth src p id ok') (hc' : Contin src id ok')
  (hok : ∀ y, 0 < y → ok' y) (norm : Norm n) (X : Spec F n t) (ht : 0 < t) (hX : ∀ f, LinearIndependent ℂ (X f).row)
include hc' ht

/-- The source update is continuous, and without flooring it keeps everything positive. -/
theorem tendsto_source {α : Type} {l : Filter α} {s : α → St F n t K} {s' : St F n t K} (hs' : Inv s')
    (hY' : ∀ f k j, separate X s'.W f k j ≠ 0) (hW : Tendsto (fun i => (s i).W) l (𝓝 s'.W))
    (hT : ∀ k f b, Tendsto (fun i => (s i).T k f b) l (𝓝 (s'.T k f b)))
    (hV : ∀ k b j, Tendsto (fun i => (s i).V k b j) l (𝓝 (s'.V k b j))) :
    ((∀ k f b, Tendsto (fun i => (updateSource src id X (s i)).T k f b) l (𝓝 ((updateSource src id X s').T k f b))) ∧
      ∀ k b j, Tendsto (fun i => (updateSource src id X (s i)).V k b j) l (𝓝 ((updateSource src id X s').V k b j))) ∧
    (∀ k f b, 0 < (updateSource src id X s').T k f b) ∧ ∀ k b j, 0 < (updateSource src id X s').V k b j := by
  have : Nonempty (Fin t) := ⟨⟨0, ht⟩⟩
  have hb := fun k f b => tendsto_basisRaw hT hV (tendsto_separate X hW) hc' hY' hs'.2.1 hs'.2.2 k f b
  have ha := fun k b j => tendsto_activationRaw (fun k f b => (hb k f b).1) hV (tendsto_separate X hW) hc' hY'
    (fun k f b => (hb k f b).2) hs'.2.2 k b j
  exact ⟨⟨fun k f b => (hb k f b).1, fun k b j => (ha k b j).1⟩, fun k f b => (hb k f b).2, fun k b j => (ha k b j).2⟩

include hok

/-- Without flooring the iteration is regular wherever no entry of the separated signals vanishes. -/
theorem regExact_unfloored (s : St F n t K) (hs : Inv s) (hY : ∀ f k j, separate X s.W f k j ≠ 0) :
    RegExact np src ok' .ip1 .off id X s := by
  obtain ⟨-, h1, h2⟩ := tendsto_source (l := (⊤ : Filter Unit)) (s := fun _ => s) (s' := s) hc' X ht hs hY
    tendsto_const_nhds (fun _ _ _ => tendsto_const_nhds) fun _ _ _ => tendsto_const_nhds
  exact ⟨fun k f b => ⟨h1 k f b, rfl⟩, fun k b j => ⟨h2 k b j, rfl⟩, fun f k j => hok _ (norm_pos_iff.mpr (hY f k j)),
    fun _ _ => rfl, fun _ _ => trivial⟩

theorem regExactY_unfloored (s : St F n t K) (hs : Inv s) (hY : ∀ f k j, separate X s.W f k j ≠ 0) :
    RegExactY np src ok' .iss1 .off id X (s.toY X) := by
  have h := regExact_unfloored np hc' hok X ht s hs hY
  exact ⟨h.basis, h.activation, h.point, fun _ _ => rfl, fun _ _ _ _ => trivial⟩

end

/-- The states of a run with source steering. -/
theorem signal_run [Nonempty (Fin K)] (np : Numpy ℂ) {src : Source} {p : ℝ} {floor : ℝ → ℝ} {ok : ℝ → Prop}
    (hsm : Smooth src p floor ok) (alg : SignalAlg n) (halg : alg.Valid) (norm : Norm n) (X : Spec F n t) (ht : 0 < t)
    (hX : ∀ f, LinearIndependent ℂ (X f).row) (y : ℕ → StY F n t K) (h0 : InvY X (y 0))
    (hrun : ∀ i, updateOnceY np src p alg norm floor X (y i) = .ok (y (i + 1)))
    (hr : ∀ i, RegExactY np src ok alg norm floor X (y i)) :
    (∀ i, InvY X (y i)) ∧ ∃ s : ℕ → St F n t K, (∀ i, y i = (s i).toY X) ∧ (∀ i, Inv (s i)) ∧
      (∀ i, lossY src X (y i) = .ok (loss src X (s i))) ∧ ∀ i, loss src X (s (i + 1)) ≤ loss src X (s i) := by
  have hstep : ∀ i (s : St F n t K), y i = s.toY X → Inv s →
      ∃ s' : St F n t K, y (i + 1) = s'.toY X ∧ Inv s' ∧ loss src X s' ≤ loss src X s := by
    intro i s hi hs
    obtain ⟨q, κ, w, hmm, -⟩ := hsm.mm
    have hri := hr i
    rw [hi] at hri
    obtain ⟨s', h1, h2, h3⟩ := updateOnceY_step np hmm hsm.scale hsm.spatial alg halg norm X ht hX s hs
      ⟨fun k f b => (hri.basis k f b).mild _, fun k b j => (hri.activation k b j).mild _, hri.point,
        hri.spatial, hri.norm⟩
    rw [← hi, hrun i] at h1
    exact ⟨s', Except.ok.inj h1, h2, h3⟩
  have hu : ∀ i, InvY X (y i) := fun i => by
    induction i with
    | zero => exact h0
    | succ i ih =>
      obtain ⟨s, h1, h2⟩ := ih
      obtain ⟨s', h3, h4, -⟩ := hstep i s h1 h2
      exact ⟨s', h3, h4⟩
  have hu' := hu
  choose s hy hs using hu'
  have hl : ∀ i, lossY src X (y i) = .ok (loss src X (s i)) := fun i => by rw [hy]; exact lossY_toY src X hX (s i)
  refine ⟨hu, s, hy, hs, hl, fun i => ?_⟩
  obtain ⟨s', h1, -, h2⟩ := hstep i (s i) (hy i) (hs i)
  have h3 := hl (i + 1)
  rw [h1, lossY_toY src X hX] at h3
  rw [← Except.ok.inj h3]
  exact h2

section
variable [Nonempty F] [Nonempty (Fin K)] (np : Numpy ℂ) {src : Source} {p : ℝ} {floor : ℝ → ℝ} {ok ok' : ℝ → Prop}
  (hsm : Smooth src p floor ok) (hc : Contin src floor ok) (hsm' : Smooth src p id ok') (hc' : Contin src id ok')
  (hok : ∀ y, 0 < y → ok' y) (norm : Norm n) (X : Spec F n t) (ht : 0 < t) (hX : ∀ f, LinearIndependent ℂ (X f).row)
include hsm hc hsm' hc' hok ht hX

/-- An endless run with IP1. -/
theorem limit_ip1 (s : ℕ → St F n t K) (h0 : Inv (s 0))
    (hrun : ∀ i, updateOnce np src p .ip1 norm floor X (s i) = .ok (s (i + 1)))
    (hr : ∀ i, RegExact np src ok .ip1 norm floor X (s i)) :
    (∀ i, Inv (s i)) ∧ (∀ i, loss src X (s (i + 1)) ≤ loss src X (s i)) ∧
    ∀ (s' : St F n t K) (φ : ℕ → ℕ), StrictMono φ → Tendsto (fun i => (s (φ i)).W) atTop (𝓝 s'.W) →
      Tendsto (fun i => (s (φ i)).T) atTop (𝓝 s'.T) → Tendsto (fun i => (s (φ i)).V) atTop (𝓝 s'.V) → Inv s' →
      (∀ f k j, separate X s'.W f k j ≠ 0) → StationaryState src X s' := by
  have hstep : ∀ i, Inv (s i) → Inv (s (i + 1)) ∧ loss src X (s (i + 1)) ≤ loss src X (s i) := by
    intro i hi
    obtain ⟨q, κ, w, hmm, -⟩ := hsm.mm
    obtain ⟨s', h1, h2, h3⟩ := updateOnce_step np hmm hsm.scale hsm.spatial .ip1 trivial norm X ht hX (s i) hi
      ⟨fun k f b => ((hr i).basis k f b).mild _, fun k b j => ((hr i).activation k b j).mild _, (hr i).point,
        (hr i).spatial, (hr i).norm⟩
    rw [hrun i] at h1
    cases h1
    exact ⟨h2, h3⟩
  have hu : ∀ i, Inv (s i) := fun i => by
    induction i with
    | zero => exact h0
    | succ i ih => exact (hstep i ih).1
  refine ⟨hu, fun i => (hstep i (hu i)).2, fun s' φ hφ hW hT hV hs' hY' => ?_⟩
  have hT' : ∀ k f b, Tendsto (fun i => (s (φ i)).T k f b) atTop (𝓝 (s'.T k f b)) := fun k f b =>
    tendsto_pi_nhds.1 (tendsto_pi_nhds.1 (tendsto_pi_nhds.1 hT k) f) b
  have hV' : ∀ k b j, Tendsto (fun i => (s (φ i)).V k b j) atTop (𝓝 (s'.V k b j)) := fun k b j =>
    tendsto_pi_nhds.1 (tendsto_pi_nhds.1 (tendsto_pi_nhds.1 hV k) b) j
  obtain ⟨⟨a1, a2⟩, a3, a4⟩ := tendsto_source hc' X ht hs' hY' hW hT' hV'
  have hreg := regExact_unfloored np hc' hok X ht s' hs' hY'
  obtain ⟨r, b1, -, b2, -⟩ := C63_ip1 np hsm' .off X ht hX s' hs' hreg
  obtain ⟨W', c1, c2, c3, c4⟩ := ip1_unfloored np hsm' hc' .off X ht hX s' hs' hreg b1
  have h := fun i => ip1_unfloored np hsm hc norm X ht hX (s (φ i)) (hu _) (hr _) (hrun _)
  choose B d1 d2 d3 d4 using h
  have hphi := fun f k j => tendsto_varphi a1 a2 (tendsto_separate X hW) hc' hY' a3 a4 f k j
  have hB : Tendsto B atTop (𝓝 W') := ip1Stack_tendsto (fun f k => tendsto_wcov (hphi f) X f k)
    (fun i f k => wcov_posDef (d2 i f) hX f k) (fun f k => wcov_posDef (c2 f) hX f k) hW (fun i => (hu _).1) hs'.1 d1 c1
  have e1 : Tendsto (fun i => loss src X (s (φ i + 1))) atTop (𝓝 (loss src X r)) := by
    rw [c4]
    refine (tendsto_lossOf a1 a2 (tendsto_separate X hB) hc' (recon_pos a3 a4) hB c3).congr fun i => ?_
    rw [d4]
    rfl
  have e2 : Tendsto (fun i => loss src X (s (φ i))) atTop (𝓝 (loss src X s')) :=
    tendsto_lossOf hT' hV' (tendsto_separate X hW) hc' (recon_pos hs'.2.1 hs'.2.2) hW hs'.1
  have e3 := tendsto_nhds_unique (e1.sub e2) (decrease_tendsto (x := fun i => loss src X (s i))
    (fun i => (hstep i (hu i)).2) hφ e2)
  by_contra hns
  exact absurd (b2.mpr hns) (by linarith)

/-- An endless run with ISS1, which works on the separated signals. -/
theorem limit_iss1 (y : ℕ → StY F n t K) (h0 : InvY X (y 0))
    (hrun : ∀ i, updateOnceY np src p .iss1 norm floor X (y i) = .ok (y (i + 1)))
    (hr : ∀ i, RegExactY np src ok .iss1 norm floor X (y i)) :
    (∀ i, InvY X (y i)) ∧
    (∃ c : ℕ → ℝ, (∀ i, lossY src X (y i) = .ok (c i)) ∧ ∀ i, c (i + 1) ≤ c i) ∧
    ∀ (s' : St F n t K) (φ : ℕ → ℕ), StrictMono φ → Tendsto (fun i => (y (φ i)).Y) atTop (𝓝 (separate X s'.W)) →
      Tendsto (fun i => (y (φ i)).T) atTop (𝓝 s'.T) → Tendsto (fun i => (y (φ i)).V) atTop (𝓝 s'.V) → Inv s' →
      (∀ f k j, separate X s'.W f k j ≠ 0) → StationaryState src X s' := by
  obtain ⟨hu, s, hy, hs, hl, hdec⟩ := signal_run np hsm .iss1 trivial norm X ht hX y h0 hrun hr
  refine ⟨hu, ⟨fun i => loss src X (s i), hl, hdec⟩, fun s' φ hφ hY hT hV hs' hY' => ?_⟩
  have hW : Tendsto (fun i => (s (φ i)).W) atTop (𝓝 s'.W) := tendsto_filter X hX fun f =>
    (tendsto_pi_nhds.1 hY f).congr fun i => by rw [hy]; rfl
  have hT' : ∀ k f b, Tendsto (fun i => (s (φ i)).T k f b) atTop (𝓝 (s'.T k f b)) := fun k f b =>
    (tendsto_pi_nhds.1 (tendsto_pi_nhds.1 (tendsto_pi_nhds.1 hT k) f) b).congr fun i => by rw [hy]; rfl
  have hV' : ∀ k b j, Tendsto (fun i => (s (φ i)).V k b j) atTop (𝓝 (s'.V k b j)) := fun k b j =>
    (tendsto_pi_nhds.1 (tendsto_pi_nhds.1 (tendsto_pi_nhds.1 hV k) b) j).congr fun i => by rw [hy]; rfl
  obtain ⟨⟨a1, a2⟩, a3, a4⟩ := tendsto_source hc' X ht hs' hY' hW hT' hV'
  have hreg := regExactY_unfloored np hc' hok X ht s' hs' hY'
  obtain ⟨r, b1, -, b2, -⟩ := C63_iss1 np hsm' .off X ht hX s' hs' hreg
  obtain ⟨W', c1, c2, c3, c4⟩ := iss1_unfloored np hsm' hc' .off X ht hX s' hs' hreg b1
  have h := fun i => iss1_unfloored np hsm hc norm X ht hX (s (φ i)) (hs _) (by rw [← hy]; exact hr _)
    (s' := s (φ i + 1)) (by rw [← hy, ← hy]; exact hrun _)
  choose B d1 d2 d3 d4 using h
  have hphi := fun f k j => tendsto_varphi a1 a2 (tendsto_separate X hW) hc' hY' a3 a4 f k j
  have hB : Tendsto B atTop (𝓝 W') := tendsto_filter X hX fun f => by
    have h := iss1_tendsto (hphi f) (c2 f) (hX f) (List.finRange n) (tendsto_separate X hW f) (hs'.1 f)
    rw [← c1 f]
    exact h.congr fun i => d1 i f
  have e1 : Tendsto (fun i => loss src X (s (φ i + 1))) atTop (𝓝 (loss src X r)) := by
    rw [c4]
    refine (tendsto_lossOf a1 a2 (tendsto_separate X hB) hc' (recon_pos a3 a4) hB c3).congr fun i => ?_
    rw [d4]
    rfl
  have e2 : Tendsto (fun i => loss src X (s (φ i))) atTop (𝓝 (loss src X s')) :=
    tendsto_lossOf hT' hV' (tendsto_separate X hW) hc' (recon_pos hs'.2.1 hs'.2.2) hW hs'.1
  have e3 := tendsto_nhds_unique (e1.sub e2) (decrease_tendsto (x := fun i => loss src X (s i)) hdec hφ e2)
  by_contra hns
  exact absurd (b2.mpr hns) (by linarith)

end

section
variable [Nonempty F] [Nonempty (Fin K)] {src : Source} {p : ℝ} {floor : ℝ → ℝ} {ok' : ℝ → Prop}
  (hsm' : Smooth src p id ok') (hc' : Contin src id ok') (hok : ∀ y, 0 < y → ok' y) (X : Spec F n t) (ht : 0 < t)
  (hX : ∀ f, LinearIndependent ℂ (X f).row)
include hsm' hc' hok ht hX

/-- If an iteration decreases the loss at least as much as the global minimum of the auxiliary function would, then the
accumulation points are stationary. -/
theorem limit_of_best (s : ℕ → St F n t K) (hu : ∀ i, Inv (s i)) (hp : ∀ i f k j, 0 < varphi src id (separate X (s i).W)
      (recon (updateSource src id X (s i)).T (updateSource src id X (s i)).V) f k j)
    (hdec : ∀ i, loss src X (s (i + 1)) ≤ loss src X (s i))
    (hbest : ∀ i (B : F → Mat n ℂ), (∀ f, IsUnit (B f).det) →
      loss src X (s (i + 1)) ≤ loss src X (updateSource src id X (s i))
        + (auxFn (varphi src id (separate X (s i).W)
            (recon (updateSource src id X (s i)).T (updateSource src id X (s i)).V)) X B
          - auxFn (varphi src id (separate X (s i).W)
            (recon (updateSource src id X (s i)).T (updateSource src id X (s i)).V)) X (s i).W))
    (s' : St F n t K) (φ : ℕ → ℕ) (hφ : StrictMono φ) (hW : Tendsto (fun i => (s (φ i)).W) atTop (𝓝 s'.W))
    (hT : Tendsto (fun i => (s (φ i)).T) atTop (𝓝 s'.T)) (hV : Tendsto (fun i => (s (φ i)).V) atTop (𝓝 s'.V))
    (hs' : Inv s') (hY' : ∀ f k j, separate X s'.W f k j ≠ 0) : StationaryState src X s' := by
  have hT' : ∀ k f b, Tendsto (fun i => (s (φ i)).T k f b) atTop (𝓝 (s'.T k f b)) := fun k f b =>
    tendsto_pi_nhds.1 (tendsto_pi_nhds.1 (tendsto_pi_nhds.1 hT k) f) b
  have hV' : ∀ k b j, Tendsto (fun i => (s (φ i)).V k b j) atTop (𝓝 (s'.V k b j)) := fun k b j =>
    tendsto_pi_nhds.1 (tendsto_pi_nhds.1 (tendsto_pi_nhds.1 hV k) b) j
  obtain ⟨⟨a1, a2⟩, a3, a4⟩ := tendsto_source hc' X ht hs' hY' hW hT' hV'
  obtain ⟨-, b1, b2⟩ := source_strict hsm' X ht s' hs' (fun f k j => hok _ (norm_pos_iff.mpr (hY' f k j)))
    (fun k f b => ⟨a3 k f b, rfl⟩) fun k b j => ⟨a4 k b j, rfl⟩
  obtain ⟨s1, hs1⟩ : ∃ s1, s1 = updateSource src id X s' := ⟨_, rfl⟩
  have hW1 : s1.W = s'.W := by rw [hs1]; rfl
  have hphi := fun f k j => tendsto_varphi a1 a2 (tendsto_separate X hW) hc' hY' a3 a4 f k j
  rw [← hs1] at a1 a2 a3 a4 b1 b2 hphi
  have hR := recon_pos a3 a4
  have hpos : ∀ f k j, 0 < varphi src id (separate X s'.W) (recon s1.T s1.V) f k j := fun f k j =>
    (hsm'.spatial _ _ (norm_nonneg _) (hok _ (norm_pos_iff.mpr (hY' f k j))) (hR k f j)).1
  obtain ⟨W', c1, c2, c3, c4⟩ := ip1Stack_strict _ hpos X hX s'.W hs'.1
  have h := fun i => ip1Stack_strict _ (hp (φ i)) X hX (s (φ i)).W (hu _).1
  choose B d1 d2 d3 d4 using h
  have hB : Tendsto B atTop (𝓝 W') := ip1Stack_tendsto (fun f k => tendsto_wcov (hphi f) X f k)
    (fun i f k => wcov_posDef (hp _ f) hX f k) (fun f k => wcov_posDef (hpos f) hX f k) hW (fun i => (hu _).1) hs'.1 d1 c1
  have e1 : Tendsto (fun i => loss src X (updateSource src id X (s (φ i)))) atTop (𝓝 (loss src X s1)) := by
    have := tendsto_lossOf a1 a2 (tendsto_separate X hW) hc' hR hW hs'.1
    rw [← hW1] at this
    exact this
  have e2 : Tendsto (fun i => loss src X (s (φ i))) atTop (𝓝 (loss src X s')) :=
    tendsto_lossOf hT' hV' (tendsto_separate X hW) hc' (recon_pos hs'.2.1 hs'.2.2) hW hs'.1
  have e3 := decrease_tendsto (x := fun i => loss src X (s i)) hdec hφ e2
  have e4 := (e1.sub e2).add ((tendsto_auxFn hphi X hB c2).sub (tendsto_auxFn hphi X hW hs'.1))
  have hle : 0 ≤ loss src X s1 - loss src X s'
      + (auxFn (varphi src id (separate X s'.W) (recon s1.T s1.V)) X W'
        - auxFn (varphi src id (separate X s'.W) (recon s1.T s1.V)) X s'.W) := by
    refine le_of_tendsto_of_tendsto' e3 e4 fun i => ?_
    have := hbest (φ i) (B i) (d2 i)
    linarith
  have h1 : loss src X s1 ≤ loss src X s' := b1.elim (fun h => h.le) fun h => by rw [h]
  have h2 : auxFn (varphi src id (separate X s'.W) (recon s1.T s1.V)) X W'
      ≤ auxFn (varphi src id (separate X s'.W) (recon s1.T s1.V)) X s'.W :=
    c3.elim (fun h => le_of_lt h) fun h => by rw [h]
  have h3 : s1 = s' := b1.resolve_left fun h => by linarith
  have h4 : W' = s'.W := c3.resolve_left fun h => by
    have h : auxFn (varphi src id (separate X s'.W) (recon s1.T s1.V)) X W'
      < auxFn (varphi src id (separate X s'.W) (recon s1.T s1.V)) X s'.W := h
    linarith
  obtain ⟨k1, k2⟩ := b2.mp h3
  refine ⟨k1, k2, ?_⟩
  have h5 := c4.mp h4
  rw [h3] at h5
  rw [StationaryFilter, loss_eq_grad]
  exact (Grad.stationary_iff_balanced _ X s'.W hs'.1 (isScoreAt hsm'.deriv _ (recon_pos hs'.2.1 hs'.2.2) _
    fun f k j => hok _ (norm_pos_iff.mpr (hY' f k j)))).mpr h5

end

section
variable [Nonempty F] [Nonempty (Fin K)] (np : Numpy ℂ) {src : Source} {p : ℝ} {floor : ℝ → ℝ} {ok ok' : ℝ → Prop}
  (hsm : Smooth src p floor ok) (hc : Contin src floor ok) (hsm' : Smooth src p id ok') (hc' : Contin src id ok')
  (hok : ∀ y, 0 < y → ok' y) (norm : Norm 2) (X : Spec F 2 t) (ht : 0 < t) (hX : ∀ f, LinearIndependent ℂ (X f).row)
include hsm hc hsm' hc' hok ht hX

/-- An endless run with IP2 and two sources. -/
theorem limit_ip2_two (s : ℕ → St F 2 t K) (h0 : Inv (s 0))
    (hrun : ∀ i, updateOnce np src p (.ip2 [(0, 1)]) norm floor X (s i) = .ok (s (i + 1)))
    (hr : ∀ i, RegExact np src ok (.ip2 [(0, 1)]) norm floor X (s i)) :
    (∀ i, Inv (s i)) ∧ (∀ i, loss src X (s (i + 1)) ≤ loss src X (s i)) ∧
    ∀ (s' : St F 2 t K) (φ : ℕ → ℕ), StrictMono φ → Tendsto (fun i => (s (φ i)).W) atTop (𝓝 s'.W) →
      Tendsto (fun i => (s (φ i)).T) atTop (𝓝 s'.T) → Tendsto (fun i => (s (φ i)).V) atTop (𝓝 s'.V) → Inv s' →
      (∀ f k j, separate X s'.W f k j ≠ 0) → StationaryState src X s' := by
  have hval : (FilterAlg.ip2 [((0 : Fin 2), (1 : Fin 2))]).Valid := by
    intro q hq
    rw [List.mem_singleton] at hq
    rw [hq]
    exact zero_ne_one
  have hstep : ∀ i, Inv (s i) → Inv (s (i + 1)) ∧ loss src X (s (i + 1)) ≤ loss src X (s i) := by
    intro i hi
    obtain ⟨q, κ, w, hmm, -⟩ := hsm.mm
    obtain ⟨s', h1, h2, h3⟩ := updateOnce_step np hmm hsm.scale hsm.spatial _ hval norm X ht hX (s i) hi
      ⟨fun k f b => ((hr i).basis k f b).mild _, fun k b j => ((hr i).activation k b j).mild _, (hr i).point,
        (hr i).spatial, (hr i).norm⟩
    rw [hrun i] at h1
    cases h1
    exact ⟨h2, h3⟩
  have hu : ∀ i, Inv (s i) := fun i => by
    induction i with
    | zero => exact h0
    | succ i ih => exact (hstep i ih).1
  have h := fun i => filter_unfloored np hsm hc norm X ht hX (s i) (hu i) (hr i) (hrun i)
    (P := fun W' => ∀ B : F → Mat 2 ℂ, (∀ f, IsUnit (B f).det) →
      auxFn (varphi src id (separate X (s i).W)
        (recon (updateSource src id X (s i)).T (updateSource src id X (s i)).V)) X W'
      ≤ auxFn (varphi src id (separate X (s i).W)
        (recon (updateSource src id X (s i)).T (updateSource src id X (s i)).V)) X B) fun hpos => by
    obtain ⟨W', k1, k2, k3⟩ := ip2_best np hpos X hX (s i).W (hu i).1
    refine ⟨W', ?_, k2, k3⟩
    rw [spatialFilter, List.foldlM_cons, k1]
    rfl
  choose B d1 d2 d3 d4 using h
  refine ⟨hu, fun i => (hstep i (hu i)).2, limit_of_best hsm' hc' hok X ht hX s hu d2 (fun i => (hstep i (hu i)).2)
    fun i A hA => ?_⟩
  have h1 := gap_unfloored hsm hc X ht hX (s i) (hu i) (hr i).basis (hr i).activation (hr i).point (B i)
  have h2 := d1 i A hA
  rw [d4]
  linarith

/-- An endless run with ISS2 and two sources. -/
theorem limit_iss2_two (y : ℕ → StY F 2 t K) (h0 : InvY X (y 0))
    (hrun : ∀ i, updateOnceY np src p (.iss2 [(0, 1)]) norm floor X (y i) = .ok (y (i + 1)))
    (hr : ∀ i, RegExactY np src ok (.iss2 [(0, 1)]) norm floor X (y i)) :
    (∀ i, InvY X (y i)) ∧
    (∃ c : ℕ → ℝ, (∀ i, lossY src X (y i) = .ok (c i)) ∧ ∀ i, c (i + 1) ≤ c i) ∧
    ∀ (s' : St F 2 t K) (φ : ℕ → ℕ), StrictMono φ → Tendsto (fun i => (y (φ i)).Y) atTop (𝓝 (separate X s'.W)) →
      Tendsto (fun i => (y (φ i)).T) atTop (𝓝 s'.T) → Tendsto (fun i => (y (φ i)).V) atTop (𝓝 s'.V) → Inv s' →
      (∀ f k j, separate X s'.W f k j ≠ 0) → StationaryState src X s' := by
  have hval : (SignalAlg.iss2 [((0 : Fin 2), (1 : Fin 2))]).Valid := by
    intro q hq
    rw [List.mem_singleton] at hq
    rw [hq]
    exact zero_ne_one
  obtain ⟨hu, s, hy, hs, hl, hdec⟩ := signal_run np hsm _ hval norm X ht hX y h0 hrun hr
  refine ⟨hu, ⟨fun i => loss src X (s i), hl, hdec⟩, fun s' φ hφ hY hT hV hs' hY' => ?_⟩
  have hW : Tendsto (fun i => (s (φ i)).W) atTop (𝓝 s'.W) := tendsto_filter X hX fun f =>
    (tendsto_pi_nhds.1 hY f).congr fun i => by rw [hy]; rfl
  have hr' : ∀ i, RegExactY np src ok (.iss2 [(0, 1)]) norm floor X ((s i).toY X) := fun i => by rw [← hy]; exact hr i
  have h := fun i => signal_unfloored np hsm hc norm X ht hX (s i) (hs i) (hr' i)
    (s' := s (i + 1)) (by rw [← hy, ← hy]; exact hrun i)
    (P := fun W' => ∀ B : F → Mat 2 ℂ, (∀ f, IsUnit (B f).det) →
      auxFn (varphi src id (separate X (s i).W)
        (recon (updateSource src id X (s i)).T (updateSource src id X (s i)).V)) X W'
      ≤ auxFn (varphi src id (separate X (s i).W)
        (recon (updateSource src id X (s i)).T (updateSource src id X (s i)).V)) X B) fun hpos => by
    obtain ⟨W', k1, k2, k3⟩ := iss2_best np hpos X hX (s i).W (hs i).1
    refine ⟨W', ?_, k2, k3⟩
    rw [spatialSignal, List.foldlM_cons, k1]
    rfl
  choose B d1 d2 d3 d4 using h
  refine limit_of_best hsm' hc' hok X ht hX s hs d2 hdec (fun i A hA => ?_) s' φ hφ hW (by simpa only [hy, St.toY] using hT)
    (by simpa only [hy, St.toY] using hV) hs' hY'
  have h1 := gap_unfloored hsm hc X ht hX (s i) (hs i) (hr' i).basis (hr' i).activation (hr' i).point (B i)
  have h2 := d1 i A hA
  rw [d4]
  linarith

end

/-! ### The five source models -/

/-- The source models of `GaussILRMA`, `TILRMA` and `GGDILRMA`, their `domain`, and the magnitudes at which the flooring
in the weights of the spatial update is inactive. -/
inductive Model (floor : ℝ → ℝ) : Source → ℝ → (ℝ → Prop) → Prop
  | gauss {p : ℝ} (hp : 0 < p) : Model floor (gauss p) p fun _ => True
  | gaussME : Model floor gaussME 2 fun _ => True
  | student {p nu : ℝ} (hp : 0 < p) (hnu : 0 < nu) : Model floor (student p nu) p fun _ => True
  | studentME {nu : ℝ} (hnu : 0 < nu) : Model floor (studentME nu) 2 fun _ => True
  | ggd {p beta : ℝ} (hp : 0 < p) (hb : 0 < beta) (hb2 : beta ≤ 2) :
    Model floor (ggd p beta) p fun y => 0 < y ∧ floor (y ^ (2 - beta)) = y ^ (2 - beta)

theorem Model.smooth {floor : ℝ → ℝ} {src : Source} {p : ℝ} {ok : ℝ → Prop} (h : Model floor src p ok) :
    Smooth src p floor ok ∧ Contin src floor ok := by
  cases h with
  | gauss hp => exact ⟨gauss_smooth hp floor, gauss_contin _ floor⟩
  | gaussME => exact ⟨gaussME_smooth floor, gaussME_contin floor⟩
  | student hp hnu => exact ⟨student_smooth hp hnu floor, student_contin hnu floor⟩
  | studentME hnu => exact ⟨studentME_smooth hnu floor, studentME_contin hnu floor⟩
  | ggd hp hb hb2 => exact ⟨ggd_smooth hp hb hb2 floor, ggd_contin hb floor⟩

theorem Model.unfloored {floor : ℝ → ℝ} {src : Source} {p : ℝ} {ok : ℝ → Prop} (h : Model floor src p ok) :
    ∃ ok', Model id src p ok' ∧ ∀ y, 0 < y → ok' y := by
  cases h with
  | gauss hp => exact ⟨_, .gauss hp, fun _ _ => trivial⟩
  | gaussME => exact ⟨_, .gaussME, fun _ _ => trivial⟩
  | student hp hnu => exact ⟨_, .student hp hnu, fun _ _ => trivial⟩
  | studentME hnu => exact ⟨_, .studentME hnu, fun _ _ => trivial⟩
  | ggd hp hb hb2 => exact ⟨_, .ggd hp hb hb2, fun _ hy => ⟨hy, rfl⟩⟩

/-- C76 with IP1: along an endless run the losses never increase, and every accumulation point of the states (with
invertible filters, positive bases and activations and without vanishing outputs) is a stationary point of the loss. -/
theorem C76_ip1 [Nonempty F] [Nonempty (Fin K)] (np : Numpy ℂ) {src : Source} {p : ℝ} {floor : ℝ → ℝ} {ok : ℝ → Prop}
    (hm : Model floor src p ok) (norm : Norm n) (X : Spec F n t) (ht : 0 < t)
    (hX : ∀ f, LinearIndependent ℂ (X f).row) (s : ℕ → St F n t K) (h0 : Inv (s 0))
    (hrun : ∀ i, updateOnce np src p .ip1 norm floor X (s i) = .ok (s (i + 1)))
    (hr : ∀ i, RegExact np src ok .ip1 norm floor X (s i)) :
    (∀ i, loss src X (s (i + 1)) ≤ loss src X (s i)) ∧
    ∀ (s' : St F n t K) (φ : ℕ → ℕ), StrictMono φ → Tendsto (fun i => (s (φ i)).W) atTop (𝓝 s'.W) →
      Tendsto (fun i => (s (φ i)).T) atTop (𝓝 s'.T) → Tendsto (fun i => (s (φ i)).V) atTop (𝓝 s'.V) → Inv s' →
      (∀ f k j, separate X s'.W f k j ≠ 0) → StationaryState src X s' := by
  obtain ⟨ok', hm', hok⟩ := hm.unfloored
  exact (limit_ip1 np hm.smooth.1 hm.smooth.2 hm'.smooth.1 hm'.smooth.2 hok norm X ht hX s h0 hrun hr).2

/-- C76 with ISS1, a statement about the separated signals. -/
theorem C76_iss1 [Nonempty F] [Nonempty (Fin K)] (np : Numpy ℂ) {src : Source} {p : ℝ} {floor : ℝ → ℝ} {ok : ℝ → Prop}
    (hm : Model floor src p ok) (norm : Norm n) (X : Spec F n t) (ht : 0 < t)
    (hX : ∀ f, LinearIndependent ℂ (X f).row) (y : ℕ → StY F n t K) (h0 : InvY X (y 0))
    (hrun : ∀ i, updateOnceY np src p .iss1 norm floor X (y i) = .ok (y (i + 1)))
    (hr : ∀ i, RegExactY np src ok .iss1 norm floor X (y i)) :
    (∃ c : ℕ → ℝ, (∀ i, lossY src X (y i) = .ok (c i)) ∧ ∀ i, c (i + 1) ≤ c i) ∧
    ∀ (s' : St F n t K) (φ : ℕ → ℕ), StrictMono φ → Tendsto (fun i => (y (φ i)).Y) atTop (𝓝 (separate X s'.W)) →
      Tendsto (fun i => (y (φ i)).T) atTop (𝓝 s'.T) → Tendsto (fun i => (y (φ i)).V) atTop (𝓝 s'.V) → Inv s' →
      (∀ f k j, separate X s'.W f k j ≠ 0) → StationaryState src X s' := by
  obtain ⟨ok', hm', hok⟩ := hm.unfloored
  exact (limit_iss1 np hm.smooth.1 hm.smooth.2 hm'.smooth.1 hm'.smooth.2 hok norm X ht hX y h0 hrun hr).2

/-- C76 with IP2 and two sources. -/
theorem C76_ip2_two [Nonempty F] [Nonempty (Fin K)] (np : Numpy ℂ) {src : Source} {p : ℝ} {floor : ℝ → ℝ}
    {ok : ℝ → Prop} (hm : Model floor src p ok) (norm : Norm 2) (X : Spec F 2 t) (ht : 0 < t)
    (hX : ∀ f, LinearIndependent ℂ (X f).row) (s : ℕ → St F 2 t K) (h0 : Inv (s 0))
    (hrun : ∀ i, updateOnce np src p (.ip2 [(0, 1)]) norm floor X (s i) = .ok (s (i + 1)))
    (hr : ∀ i, RegExact np src ok (.ip2 [(0, 1)]) norm floor X (s i)) :
    (∀ i, loss src X (s (i + 1)) ≤ loss src X (s i)) ∧
    ∀ (s' : St F 2 t K) (φ : ℕ → ℕ), StrictMono φ → Tendsto (fun i => (s (φ i)).W) atTop (𝓝 s'.W) →
      Tendsto (fun i => (s (φ i)).T) atTop (𝓝 s'.T) → Tendsto (fun i => (s (φ i)).V) atTop (𝓝 s'.V) → Inv s' →
      (∀ f k j, separate X s'.W f k j ≠ 0) → StationaryState src X s' := by
  obtain ⟨ok', hm', hok⟩ := hm.unfloored
  exact (limit_ip2_two np hm.smooth.1 hm.smooth.2 hm'.smooth.1 hm'.smooth.2 hok norm X ht hX s h0 hrun hr).2

/-- C76 with ISS2 and two sources. -/
theorem C76_iss2_two [Nonempty F] [Nonempty (Fin K)] (np : Numpy ℂ) {src : Source} {p : ℝ} {floor : ℝ → ℝ}
    {ok : ℝ → Prop} (hm : Model floor src p ok) (norm : Norm 2) (X : Spec F 2 t) (ht : 0 < t)
    (hX : ∀ f, LinearIndependent ℂ (X f).row) (y : ℕ → StY F 2 t K) (h0 : InvY X (y 0))
    (hrun : ∀ i, updateOnceY np src p (.iss2 [(0, 1)]) norm floor X (y i) = .ok (y (i + 1)))
    (hr : ∀ i, RegExactY np src ok (.iss2 [(0, 1)]) norm floor X (y i)) :
    (∃ c : ℕ → ℝ, (∀ i, lossY src X (y i) = .ok (c i)) ∧ ∀ i, c (i + 1) ≤ c i) ∧
    ∀ (s' : St F 2 t K) (φ : ℕ → ℕ), StrictMono φ → Tendsto (fun i => (y (φ i)).Y) atTop (𝓝 (separate X s'.W)) →
      Tendsto (fun i => (y (φ i)).T) atTop (𝓝 s'.T) → Tendsto (fun i => (y (φ i)).V) atTop (𝓝 s'.V) → Inv s' →
      (∀ f k j, separate X s'.W f k j ≠ 0) → StationaryState src X s' := by
  obtain ⟨ok', hm', hok⟩ := hm.unfloored
  exact (limit_iss2_two np hm.smooth.1 hm.smooth.2 hm'.smooth.1 hm'.smooth.2 hok norm X ht hX y h0 hrun hr).2

/-! ### A concrete endless run: two channels, one bin, two frames -/

/-- Diagonal filters, any basis, activations that do not depend on the frame. -/
def Diag (s : St Unit 2 2 1) : Prop :=
  (∃ a : Fin 2 → ℝ, (∀ k, 0 < a k) ∧ s.W = limW a) ∧ (∀ k f b, 0 < s.T k f b) ∧
    ∃ v : Fin 2 → ℝ, (∀ k, 0 < v k) ∧ s.V = fun k _ _ => v k

theorem Diag.inv {s : St Unit 2 2 1} (h : Diag s) : Inv s := by
  obtain ⟨⟨a, ha, hW⟩, hT, v, hv, hV⟩ := h
  exact ⟨by rw [hW]; exact limW_unit ha, hT, fun k b j => by rw [hV]; exact hv k⟩

theorem Diag.ne {s : St Unit 2 2 1} (h : Diag s) (f : Unit) (k j : Fin 2) : separate limX s.W f k j ≠ 0 := by
  obtain ⟨⟨a, ha, hW⟩, -⟩ := h
  rw [hW]
  exact norm_ne_zero_iff.1 (by rw [lim_norm ha]; exact (ha k).ne')

theorem Diag.step (np : Numpy ℂ) {src : Source} {p : ℝ} {ok : ℝ → Prop} (hm : Model id src p ok)
    (hok : ∀ y, 0 < y → ok y) {s : St Unit 2 2 1} (h : Diag s) :
    ∃ s', updateOnce np src p .ip1 .off id limX s = .ok s' ∧ Diag s' := by
  have hinv := h.inv
  have hne := h.ne
  obtain ⟨⟨⟨-, -⟩, h3, h4⟩⟩ : Nonempty _ := ⟨tendsto_source (l := (⊤ : Filter Unit)) (s := fun _ => s) (s' := s)
    hm.smooth.2 limX two_pos hinv hne tendsto_const_nhds (fun _ _ _ => tendsto_const_nhds) fun _ _ _ => tendsto_const_nhds⟩
  obtain ⟨⟨a, ha, hW⟩, hT, v, hv, hV⟩ := h
  obtain ⟨T1, hT1⟩ : ∃ T1, T1 = (updateSource src id limX s).T := ⟨_, rfl⟩
  obtain ⟨V1, hV1⟩ : ∃ V1, V1 = (updateSource src id limX s).V := ⟨_, rfl⟩
  rw [← hT1] at h3
  rw [← hV1] at h4
  have hn : ∀ f k j, ‖separate limX s.W f k j‖ = a k := fun f k j => by rw [hW, lim_norm ha]
  have hV1c : V1 = fun k _ _ => V1 k 0 0 := by
    funext k b j
    have e : ∀ b j, V1 k b j = activationRaw src (separate limX s.W) T1 s.V k b j := fun b j => by
      rw [hV1, hT1]
      rfl
    rw [e, e]
    simp only [activationRaw, hn, hV, recon, Subsingleton.elim b 0]
  obtain ⟨c, hc⟩ : ∃ c : Fin 2 → ℝ, c = fun k => (src.phi id (a k) (T1 k () 0 * V1 k 0 0))⁻¹ := ⟨_, rfl⟩
  have hphi : varphi src id (separate limX s.W) (recon T1 V1) = fun _ k _ => (c k)⁻¹ := by
    funext f k j
    rw [varphi, hn, hc, inv_inv, recon, Fintype.sum_unique, hV1c]
    rfl
  have hcp : ∀ k, 0 < c k := fun k => by
    have := (hm.smooth.1.spatial (a k) (T1 k () 0 * V1 k 0 0) (ha k).le (hok _ (ha k))
      (mul_pos (h3 _ _ _) (h4 _ _ _))).1
    rw [hc]
    exact inv_pos.2 this
  refine ⟨⟨limW fun k => Real.sqrt (c k), T1, V1⟩, ?_, ⟨_, fun k => Real.sqrt_pos.2 (hcp k), rfl⟩, h3, _,
    fun k => h4 k 0 0, hV1c⟩
  have hup : updateSource src id limX s = ⟨s.W, T1, V1⟩ := by rw [hT1, hV1]; rfl
  have hsp : updateSpatial np src .ip1 id limX ⟨s.W, T1, V1⟩ = .ok ⟨limW fun k => Real.sqrt (c k), T1, V1⟩ := by
    rw [updateSpatial]
    simp only [hphi, spatialFilter]
    rw [hW, lim_step ha hcp]
    rfl
  rw [updateOnce, hup, hsp]
  rfl

/-- From every such state TILRMA runs on without end, and the theorem applies to this run. -/
example (np : Numpy ℂ) {s0 : St Unit 2 2 1} (h0 : Diag s0) : ∃ s : ℕ → St Unit 2 2 1, s 0 = s0 ∧
    (∀ i, updateOnce np (student 1 3) 1 .ip1 .off id limX (s i) = .ok (s (i + 1))) ∧
    ∀ (s' : St Unit 2 2 1) (φ : ℕ → ℕ), StrictMono φ → Tendsto (fun i => (s (φ i)).W) atTop (𝓝 s'.W) →
      Tendsto (fun i => (s (φ i)).T) atTop (𝓝 s'.T) → Tendsto (fun i => (s (φ i)).V) atTop (𝓝 s'.V) → Inv s' →
      (∀ f k j, separate limX s'.W f k j ≠ 0) → StationaryState (student 1 3) limX s' := by
  have hm : Model id (student 1 3) 1 fun _ => True := .student one_pos (by norm_num)
  have hnext : ∀ s : {s : St Unit 2 2 1 // Diag s}, ∃ s' : {s : St Unit 2 2 1 // Diag s},
      updateOnce np (student 1 3) 1 .ip1 .off id limX s = .ok s'.1 := fun s => by
    obtain ⟨s', h1, h2⟩ := s.2.step np hm fun _ _ => trivial
    exact ⟨⟨s', h2⟩, h1⟩
  choose g hg using hnext
  obtain ⟨s, hs⟩ : ∃ s : ℕ → {s : St Unit 2 2 1 // Diag s}, s = fun i => g^[i] ⟨s0, h0⟩ := ⟨_, rfl⟩
  have hrun : ∀ i, updateOnce np (student 1 3) 1 .ip1 .off id limX (s i).1 = .ok (s (i + 1)).1 := fun i => by
    rw [hg, hs]
    simp only [Function.iterate_succ_apply']
  refine ⟨fun i => (s i).1, by rw [hs]; rfl, hrun, ?_⟩
  exact (C76_ip1 np hm .off limX two_pos limX_ind (fun i => (s i).1) (s 0).2.inv hrun fun i =>
    regExact_unfloored np hm.smooth.2 (fun _ _ => trivial) limX two_pos _ (s i).2.inv (s i).2.ne).2

end Verif.Ilrma
