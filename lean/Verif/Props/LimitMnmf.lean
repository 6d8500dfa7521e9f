import Verif.Props.LimitFastMnmf
import Verif.Props.StationaryMnmf

/-!
# Endless runs of GaussMNMF (C77)

Every accumulation point of the states with positive parameters is a stationary point of the loss.
-/

set_option linter.unusedSectionVars false

namespace Verif

open Matrix Filter Topology Spatial
open scoped ComplexOrder

/-- The solution of a Riccati equation is bounded by its coefficients. -/
theorem riccati_entry {m : ℕ} {P G M : Mat m ℂ} (hP : P.PosDef) (hG : G.IsHermitian) (h : G * P * G = M) (a b : Fin m) :
    ‖G b a‖ ^ 2 ≤ (M b b).re * (P⁻¹ a a).re := by
  have hu := Tr.isUnit_det hP
  have h1 := quad_cauchy hP (fun j => G b j) (star (P⁻¹ *ᵥ Pi.single a 1))
  have h2 : P *ᵥ (P⁻¹ *ᵥ Pi.single a 1) = Pi.single a 1 := by
    rw [mulVec_mulVec, mul_nonsing_inv _ hu, one_mulVec]
  have h3 : quad P (fun j => G b j) = (M b b).re := by
    rw [quad, ← h, Matrix.mul_assoc]
    congr 1
    rw [mul_apply, dotProduct]
    simp only [mul_apply, dotProduct, mulVec, Pi.star_apply]
    refine Finset.sum_congr rfl fun i _ => ?_
    congr 1
    exact Finset.sum_congr rfl fun j _ => by rw [hG.apply]
  have h4 : quad P (star (P⁻¹ *ᵥ Pi.single a 1)) = (P⁻¹ a a).re := by
    rw [quad, star_star, h2]
    simp
  rw [h3, h4, star_star, h2] at h1
  simpa using h1

/-- Solutions of Riccati equations with convergent coefficients have a convergent subsequence. -/
theorem riccati_subseq {J : Type} [Fintype J] {m : ℕ} {P G M : ℕ → J → Mat m ℂ} {P' M' : J → Mat m ℂ}
    (hP : ∀ i k, (P i k).PosDef) (hG : ∀ i k, (G i k).PosDef) (h : ∀ i k, G i k * P i k * G i k = M i k)
    (hP' : ∀ k, (P' k).PosDef) (hM' : ∀ k, (M' k).PosDef) (lP : ∀ k, Tendsto (fun i => P i k) atTop (𝓝 (P' k)))
    (lM : ∀ k, Tendsto (fun i => M i k) atTop (𝓝 (M' k))) :
    ∃ (G' : J → Mat m ℂ) (φ : ℕ → ℕ), StrictMono φ ∧ (∀ k, Tendsto (fun i => G (φ i) k) atTop (𝓝 (G' k))) ∧
      (∀ k, (G' k).PosDef) ∧ ∀ k, G' k * P' k * G' k = M' k := by
  have hbd : ∀ k a b, ∃ C : ℝ, ∀ i, ‖G i k b a‖ ≤ C := by
    intro k a b
    have h1 := ((Complex.continuous_re.tendsto _).comp (tendsto_matrix.1 (lM k) b b)).mul
      ((Complex.continuous_re.tendsto _).comp
        (tendsto_matrix.1 (tendsto_inv (lP k) (Tr.isUnit_det (hP' k))) a a))
    obtain ⟨C, hC⟩ := h1.bddAbove_range
    refine ⟨Real.sqrt C, fun i => Real.le_sqrt_of_sq_le ?_⟩
    exact (riccati_entry (hP i k) (hG i k).1 (h i k) a b).trans (hC ⟨i, rfl⟩)
  choose C hC using hbd
  have hcomp : IsCompact (Set.univ.pi fun k : J => Set.univ.pi fun b : Fin m => Set.univ.pi fun a : Fin m =>
      Metric.closedBall (0 : ℂ) (C k a b)) :=
    isCompact_univ_pi fun _ => isCompact_univ_pi fun _ => isCompact_univ_pi fun _ => isCompact_closedBall _ _
  obtain ⟨G', -, φ, h1, h2⟩ := IsCompact.tendsto_subseq (X := J → Fin m → Fin m → ℂ) hcomp (x := G) fun i => by
    intro k _ b _ a _
    rw [mem_closedBall_zero_iff]
    exact hC k a b i
  obtain ⟨G', rfl⟩ : ∃ A : J → Mat m ℂ, A = G' := ⟨G', rfl⟩
  have h3 : ∀ k, Tendsto (fun i => G (φ i) k) atTop (𝓝 (G' k)) := fun k => tendsto_pi_nhds.1 h2 k
  have h4 : ∀ k, G' k * P' k * G' k = M' k := fun k => by
    refine tendsto_nhds_unique (tendsto_matrix_mul (tendsto_matrix_mul (h3 k) ((lP k).comp h1.tendsto_atTop)) (h3 k)) ?_
    exact ((lM k).comp h1.tendsto_atTop).congr fun i => (h (φ i) k).symm
  refine ⟨G', φ, h1, h3, fun k => ?_, h4⟩
  have h5 : (G' k).IsHermitian := by
    ext a b
    rw [conjTranspose_apply]
    refine tendsto_nhds_unique ((continuous_star.tendsto _).comp (tendsto_matrix.1 (h3 k) b a)) ?_
    exact (tendsto_matrix.1 (h3 k) a b).congr fun i => ((hG (φ i) k).1.apply a b).symm
  have h6 : (G' k).PosSemidef := by
    refine PosSemidef.of_dotProduct_mulVec_nonneg h5 fun v => ?_
    refine ge_of_tendsto' (x := atTop) (f := fun i => star v ⬝ᵥ (G (φ i) k *ᵥ v)) ?_
      fun i => (hG (φ i) k).posSemidef.dotProduct_mulVec_nonneg v
    simp only [dotProduct, mulVec]
    exact tendsto_finsetSum _ fun a _ => tendsto_const_nhds.mul (tendsto_finsetSum _ fun b _ =>
      (tendsto_matrix.1 (h3 k) a b).mul tendsto_const_nhds)
  rw [h6.posDef_iff_isUnit, isUnit_iff_isUnit_det]
  have h7 := Tr.isUnit_det (hM' k)
  rw [← h4 k, det_mul] at h7
  exact isUnit_of_mul_isUnit_right h7

end Verif

namespace Verif.Mnmf

open Matrix Spatial Scale Ilrma Special Linalg Filter Topology
open scoped ComplexOrder

variable {F : Type} [Fintype F] {n m t K : ℕ}

/-- Convergence of the states. -/
structure MLim {α : Type} (l : Filter α) (s : α → MSt F n m t K) (s' : MSt F n m t K) : Prop where
  T : ∀ k f b, Tendsto (fun i => (s i).T k f b) l (𝓝 (s'.T k f b))
  V : ∀ k b j, Tendsto (fun i => (s i).V k b j) l (𝓝 (s'.V k b j))
  H : ∀ k f, Tendsto (fun i => (s i).H k f) l (𝓝 (s'.H k f))

theorem tendsto_smul_matrix {α : Type} {l : Filter α} {c : α → ℂ} {c' : ℂ} (hc : Tendsto c l (𝓝 c')) {A : α → Mat m ℂ}
    {A' : Mat m ℂ} (hA : Tendsto A l (𝓝 A')) : Tendsto (fun a => c a • A a) l (𝓝 (c' • A')) := by
  rw [tendsto_matrix] at *
  exact fun i j => hc.mul (hA i j)

theorem tendsto_sum_matrix {α J : Type} [Fintype J] {l : Filter α} {A : J → α → Mat m ℂ}
    {A' : J → Mat m ℂ} (hA : ∀ j, Tendsto (A j) l (𝓝 (A' j))) : Tendsto (fun a => ∑ j, A j a) l (𝓝 (∑ j, A' j)) := by
  rw [tendsto_matrix]
  intro i j
  simp only [Matrix.sum_apply]
  exact tendsto_finsetSum _ fun k _ => tendsto_matrix.1 (hA k) i j

theorem tendsto_trace_re {α : Type} {l : Filter α} {A : α → Mat m ℂ} {A' : Mat m ℂ} (hA : Tendsto A l (𝓝 A')) :
    Tendsto (fun a => (A a).trace.re) l (𝓝 A'.trace.re) :=
  (Complex.continuous_re.tendsto _).comp (tendsto_finsetSum _ fun i _ => tendsto_matrix.1 hA i i)

section

variable [Nonempty (Fin K)] [Nonempty (Fin n)] [Nonempty (Fin m)] [Nonempty (Fin t)] [Nonempty F] {α : Type}
  {l : Filter α} {s : α → MSt F n m t K} {s' : MSt F n m t K} (h : MLim l s s')
include h

theorem MLim.recon (k : Fin n) (f : F) (j : Fin t) :
    Tendsto (fun i => Ilrma.recon (s i).T (s i).V k f j) l (𝓝 (Ilrma.recon s'.T s'.V k f j)) :=
  tendsto_recon h.T h.V k f j

theorem MLim.R (f : F) (j : Fin t) : Tendsto (fun i => (s i).R f j) l (𝓝 (s'.R f j)) :=
  tendsto_sum_matrix fun k => tendsto_smul_matrix (tendsto_ofReal (h.recon k f j)) (h.H k f)

variable (hs' : MPos s')
include hs'

theorem MLim.Rinv (f : F) (j : Fin t) : Tendsto (fun i => ((s i).R f j)⁻¹) l (𝓝 (s'.R f j)⁻¹) :=
  tendsto_inv (h.R f j) (Tr.isUnit_det (R_posDef hs' f j))

theorem MLim.val (XX : F → Fin t → Mat m ℂ) : Tendsto (fun i => fullVal XX (s i)) l (𝓝 (fullVal XX s')) := by
  refine tendsto_finsetSum _ fun f _ => tendsto_meanT fun j => Tendsto.add
    (tendsto_trace_re (tendsto_matrix_mul (h.Rinv hs' f j) tendsto_const_nhds)) (Tendsto.log (tendsto_det (h.R f j)).norm ?_)
  exact norm_ne_zero_iff.2 (Tr.isUnit_det (R_posDef hs' f j)).ne_zero

theorem MLim.num (XX : F → Fin t → Mat m ℂ) (k : Fin n) (f : F) (j : Fin t) :
    Tendsto (fun i => (((s i).R f j)⁻¹ * XX f j * (((s i).R f j)⁻¹ * (s i).H k f)).trace.re) l
      (𝓝 ((s'.R f j)⁻¹ * XX f j * ((s'.R f j)⁻¹ * s'.H k f)).trace.re) :=
  tendsto_trace_re (tendsto_matrix_mul (tendsto_matrix_mul (h.Rinv hs' f j) tendsto_const_nhds)
    (tendsto_matrix_mul (h.Rinv hs' f j) (h.H k f)))

theorem MLim.denom (k : Fin n) (f : F) (j : Fin t) :
    Tendsto (fun i => (((s i).R f j)⁻¹ * (s i).H k f).trace.re) l (𝓝 ((s'.R f j)⁻¹ * s'.H k f).trace.re) :=
  tendsto_trace_re (tendsto_matrix_mul (h.Rinv hs' f j) (h.H k f))

theorem MLim.basis (XX : F → Fin t → Mat m ℂ) :
    MLim l (fun i => ⟨fullBasisRaw XX (s i), (s i).V, (s i).H⟩) ⟨fullBasisRaw XX s', s'.V, s'.H⟩ := by
  refine ⟨fun k f b => (h.T k f b).mul (Tendsto.sqrt (Tendsto.div (tendsto_finsetSum _ fun j _ =>
    (h.V k b j).mul (h.num hs' XX k f j)) (tendsto_finsetSum _ fun j _ => (h.V k b j).mul (h.denom hs' k f j)) ?_)),
    h.V, h.H⟩
  exact (Finset.sum_pos (fun j _ => mul_pos (hs'.2.1 k b j) (Tr.trace_mul_pos (R_posDef hs' f j).inv (hs'.2.2 k f)))
    Finset.univ_nonempty).ne'

theorem MLim.activation (XX : F → Fin t → Mat m ℂ) :
    MLim l (fun i => ⟨(s i).T, fullActivationRaw XX (s i), (s i).H⟩) ⟨s'.T, fullActivationRaw XX s', s'.H⟩ := by
  refine ⟨h.T, fun k b j => (h.V k b j).mul (Tendsto.sqrt (Tendsto.div (tendsto_finsetSum _ fun f _ =>
    (h.T k f b).mul (h.num hs' XX k f j)) (tendsto_finsetSum _ fun f _ => (h.T k f b).mul (h.denom hs' k f j)) ?_)),
    h.H⟩
  exact (Finset.sum_pos (fun f _ => mul_pos (hs'.1 k f b) (Tr.trace_mul_pos (R_posDef hs' f j).inv (hs'.2.2 k f)))
    Finset.univ_nonempty).ne'

theorem MLim.matP (k : Fin n) (f : F) : Tendsto (fun i => matP (s i) k f) l (𝓝 (Mnmf.matP s' k f)) :=
  tendsto_sum_matrix fun j => tendsto_smul_matrix (tendsto_ofReal (h.recon k f j)) (h.Rinv hs' f j)

theorem MLim.matHQH (XX : F → Fin t → Mat m ℂ) (k : Fin n) (f : F) :
    Tendsto (fun i => matHQH XX (s i) k f) l (𝓝 (Mnmf.matHQH XX s' k f)) :=
  tendsto_matrix_mul (tendsto_matrix_mul (h.H k f) (tendsto_sum_matrix fun j => tendsto_smul_matrix
    (tendsto_ofReal (h.recon k f j)) (tendsto_matrix_mul (tendsto_matrix_mul (h.Rinv hs' f j) tendsto_const_nhds)
      (h.Rinv hs' f j)))) (h.H k f)

end

section

variable [Nonempty (Fin K)] [Nonempty (Fin n)] [Nonempty (Fin m)] [Nonempty (Fin t)] [Nonempty F]

/-- One iteration when flooring is inactive: the intermediate states. -/
theorem full_unfloored (np : Numpy ℂ) (normalization : Bool) (floor : ℝ → ℝ) (XX : F → Fin t → Mat m ℂ)
    (hXX : ∀ f j, (XX f j).PosSemidef) (s : MSt F n m t K) (hs : MInv np floor s)
    (hr : MRegExact np normalization floor XX s) {s' : MSt F n m t K}
    (h : fullUpdateOnce np normalization floor XX s = .ok s') :
    ∃ (s1 s2 : MSt F n m t K) (G : Fin n → F → Mat m ℂ), s1 = ⟨fullBasisRaw XX s, s.V, s.H⟩ ∧
      s2 = ⟨s1.T, fullActivationRaw XX s1, s1.H⟩ ∧ MPos s1 ∧ MPos s2 ∧ (∀ k f, (G k f).PosDef) ∧
      (∀ k f, G k f * matP s2 k f * G k f = matHQH XX s2 k f) ∧
      fullVal XX s' = fullVal XX (⟨s2.T, s2.V, G⟩ : MSt F n m t K) ∧ fullVal XX s' ≤ fullVal XX s := by
  obtain ⟨e1, p1, l1⟩ := full_basis_step np floor XX hXX s hs fun k f b => (hr.basis k f b).mild _
  obtain ⟨s1, d1⟩ : ∃ s1 : MSt F n m t K, s1 = ⟨fun k f b => floor (fullBasisRaw XX s k f b), s.V, s.H⟩ := ⟨_, rfl⟩
  rw [← d1] at e1 p1 l1
  obtain ⟨i1, f1⟩ := hr.activation _ e1
  obtain ⟨e2, p2, l2⟩ := full_activation_step np floor XX hXX s1 ⟨p1, i1⟩ fun k b j => (f1 k b j).mild _
  obtain ⟨s2, d2⟩ : ∃ s2 : MSt F n m t K, s2 = ⟨s1.T, fun k b j => floor (fullActivationRaw XX s1 k b j), s1.H⟩ :=
    ⟨_, rfl⟩
  rw [← d2] at e2 p2 l2
  obtain ⟨i2, f2⟩ := hr.spatial _ _ e1 e2
  obtain ⟨H, e3, p3, r3⟩ := full_spatial_eq np floor XX s2 ⟨p2, i2⟩ (fun k f => (f2 k f).1)
    (fun k f => (f2 k f).2.1) (fun k f => (f2 k f).2.2.1) fun k f => (f2 k f).2.2.2
  obtain ⟨H', e3', -, l3⟩ := full_spatial_step np floor XX hXX s2 ⟨p2, i2⟩ (fun k f => (f2 k f).1)
    (fun k f => (f2 k f).2.1) (fun k f => (f2 k f).2.2.1) fun k f => (f2 k f).2.2.2
  rw [e3] at e3'
  cases e3'
  have hup : fullUpdateOnce np normalization floor XX s
      = .ok (if normalization then fullNormalize ⟨s2.T, s2.V, H⟩ else ⟨s2.T, s2.V, H⟩) := by
    rw [fullUpdateOnce, e1]
    simp only [Bind.bind, Except.bind]
    rw [e2]
    simp only
    rw [e3]
  have hval : fullVal XX s' = fullVal XX (⟨s2.T, s2.V, H⟩ : MSt F n m t K) := by
    rw [hup] at h
    rw [← Except.ok.inj h]
    cases normalization with
    | false => rfl
    | true => exact (full_normalize_step XX p3).2.1
  refine ⟨s1, s2, H, ?_, ?_, p1, p2, p3.2.2, r3, hval, hval.trans_le (l3.trans (l2.trans l1))⟩
  · rw [d1]
    congr 1
    funext k f b
    exact (hr.basis k f b).2
  · rw [d2]
    congr 1
    funext k b j
    exact (f1 k b j).2

/-- C77 for GaussMNMF: along an endless run the recorded losses never increase, and every accumulation point of the
states with positive parameters, at which the spatial update is defined, is a stationary point of the loss. -/
theorem C77_gauss_mnmf (np : Numpy ℂ) (normalization : Bool) (floor : ℝ → ℝ) (XX : F → Fin t → Mat m ℂ)
    (hXX : ∀ f j, (XX f j).PosSemidef) (hb : ∀ f, ∃ j, XX f j ≠ 0) (hz : ∀ j, ∃ f, XX f j ≠ 0)
    (s : ℕ → MSt F n m t K) (h0 : MInv np floor (s 0))
    (hrun : ∀ i, fullUpdateOnce np normalization floor XX (s i) = .ok (s (i + 1)))
    (hr : ∀ i, MRegExact np normalization floor XX (s i)) :
    (∀ i, ∃ l l', fullLoss np floor XX (recon (s i).T (s i).V) (s i).H = .ok l ∧
      fullLoss np floor XX (recon (s (i + 1)).T (s (i + 1)).V) (s (i + 1)).H = .ok l' ∧ l' ≤ l) ∧
    ∀ (s' : MSt F n m t K) (φ : ℕ → ℕ), StrictMono φ → Tendsto (fun i => (s (φ i)).T) atTop (𝓝 s'.T) →
      Tendsto (fun i => (s (φ i)).V) atTop (𝓝 s'.V) → Tendsto (fun i => (s (φ i)).H) atTop (𝓝 s'.H) → MPos s' →
      MSpan np XX s' → MStationary np XX s' := by
  have hstep : ∀ i, MInv np floor (s i) → MInv np floor (s (i + 1)) := by
    intro i hi
    obtain ⟨r, l, l', h1, h2, -⟩ := C66_gauss_mnmf np normalization floor XX hXX (s i) hi (hr i)
    rw [hrun i] at h1
    cases h1
    exact h2
  have hu : ∀ i, MInv np floor (s i) := fun i => by
    induction i with
    | zero => exact h0
    | succ i ih => exact hstep i ih
  have h := fun i => full_unfloored np normalization floor XX hXX (s i) (hu i) (hr i) (hrun i)
  choose s1 s2 G d1 d2 q1 q2 hG hric hval hdec using h
  refine ⟨fun i => ⟨_, _, fullLoss_eq XX (hu i), fullLoss_eq XX (hu (i + 1)), hdec i⟩,
    fun s' φ hφ hT hV hH hs' hsp => ?_⟩
  have hlim : MLim atTop (fun i => s (φ i)) s' :=
    ⟨fun k f b => tendsto_pi_nhds.1 (tendsto_pi_nhds.1 (tendsto_pi_nhds.1 hT k) f) b,
      fun k b j => tendsto_pi_nhds.1 (tendsto_pi_nhds.1 (tendsto_pi_nhds.1 hV k) b) j,
      fun k f => tendsto_pi_nhds.1 (tendsto_pi_nhds.1 hH k) f⟩
  have hreg := mRegExact_id np false hXX hb hz s' hs' hsp
  have hi := mInv_id np hs'
  obtain ⟨r, l, l', b1, b2, b3, b4, b5, -⟩ := C66_gauss_mnmf np false id XX hXX s' hi hreg
  obtain ⟨r1, r2, Gr, c1, c2, w1, w2, -, -, -, -⟩ := full_unfloored np false id XX hXX s' hi hreg b1
  have hQ : ∀ k f, (matHQH XX r2 k f).PosDef := by
    obtain ⟨t1, t2, -, g1, g2, -, -, -, -, g3, -⟩ := full_steps_id np false hXX hb hz s' hs' hsp
    have e1 := (full_basis_step np id XX hXX s' hi fun k f b => (hreg.basis k f b).mild _).1
    have : t1 = r1 := by
      rw [g1] at e1
      rw [Except.ok.inj e1, c1]
      rfl
    rw [this] at g1 g2
    obtain ⟨i1, f1⟩ := hreg.activation _ g1
    have e2 := (full_activation_step np id XX hXX r1 ⟨w1, i1⟩ fun k b j => (f1 k b j).mild _).1
    have : t2 = r2 := by
      rw [g2] at e2
      rw [Except.ok.inj e2, c2]
      rfl
    rwa [this] at g3
  have l1 : MLim atTop (fun i => s1 (φ i)) r1 := by
    rw [c1]
    simp only [d1]
    exact hlim.basis hs' XX
  have l2 : MLim atTop (fun i => s2 (φ i)) r2 := by
    rw [c2]
    simp only [d2]
    exact l1.activation w1 XX
  obtain ⟨G', ψ, k1, k2, k3, k4⟩ := riccati_subseq (J := Fin n × F) (P := fun i p => matP (s2 (φ i)) p.1 p.2)
    (G := fun i p => G (φ i) p.1 p.2) (M := fun i p => matHQH XX (s2 (φ i)) p.1 p.2)
    (P' := fun p => matP r2 p.1 p.2) (M' := fun p => matHQH XX r2 p.1 p.2)
    (fun i p => matP_posDef (q2 _) p.1 p.2) (fun i p => hG _ p.1 p.2) (fun i p => hric _ p.1 p.2)
    (fun p => matP_posDef w2 p.1 p.2) (fun p => hQ p.1 p.2) (fun p => l2.matP w2 p.1 p.2)
    fun p => l2.matHQH w2 XX p.1 p.2
  obtain ⟨r3, c3⟩ : ∃ r3 : MSt F n m t K, r3 = ⟨r2.T, r2.V, fun k f => G' (k, f)⟩ := ⟨_, rfl⟩
  have w3 : MPos r3 := by
    rw [c3]
    exact ⟨w2.1, w2.2.1, fun k f => k3 (k, f)⟩
  have l3 : MLim atTop (fun i => (⟨(s2 (φ (ψ i))).T, (s2 (φ (ψ i))).V, G (φ (ψ i))⟩ : MSt F n m t K)) r3 := by
    rw [c3]
    exact ⟨fun k f b => (l2.T k f b).comp k1.tendsto_atTop, fun k b j => (l2.V k b j).comp k1.tendsto_atTop,
      fun k f => k2 (k, f)⟩
  have e1 : Tendsto (fun i => fullVal XX (s (φ (ψ i) + 1))) atTop (𝓝 (fullVal XX r3)) :=
    (l3.val w3 XX).congr fun i => (hval (φ (ψ i))).symm
  have e2 := (hlim.val hs' XX).comp k1.tendsto_atTop
  have e3 := tendsto_nhds_unique (e1.sub e2) (decrease_tendsto (x := fun i => fullVal XX (s i))
    hdec (hφ.comp k1) e2)
  obtain ⟨b1', b2'⟩ := full_basis_strict np id XX hXX s' hs' hreg.basis (s' := r1) c1
  have f1 : ∀ k b j, Exact id (fullActivationRaw XX r1 k b j) := fun k b j => ⟨by
    have := w2.2.1 k b j
    rwa [c2] at this, rfl⟩
  obtain ⟨a1, a2⟩ := full_activation_strict np id XX hXX r1 w1 f1 (s' := r2) c2
  obtain ⟨g1, g2⟩ := full_spatial_strict np XX hXX r2 w2 (G := fun k f => G' (k, f)) (fun k f => k3 (k, f))
    (fun k f => k4 (k, f)) c3
  have hle : ∀ {a b : MSt F n m t K}, fullVal XX a < fullVal XX b ∨ a = b → fullVal XX a ≤ fullVal XX b := by
    rintro a b (h | h)
    exacts [h.le, by rw [h]]
  have v1 := hle b1'
  have v2 := hle a1
  have v3 := hle g1
  have u1 : r1 = s' := b1'.resolve_left fun h => by linarith
  have u2 : r2 = r1 := a1.resolve_left fun h => by linarith
  have u3 : r3 = r2 := g1.resolve_left fun h => by linarith
  refine ⟨b2'.mp u1, ?_, ?_⟩
  · have := a2.mp u2
    rwa [u1] at this
  · have := g2.mp u3
    rwa [u2, u1] at this

/-- Without flooring the hypotheses on the iterates reduce to the condition that the vectors `R⁻¹ x` span the whole space
at every spatial update. -/
theorem C77_gauss_mnmf_no_flooring (np : Numpy ℂ) (normalization : Bool) (XX : F → Fin t → Mat m ℂ)
    (hXX : ∀ f j, (XX f j).PosSemidef) (hb : ∀ f, ∃ j, XX f j ≠ 0) (hz : ∀ j, ∃ f, XX f j ≠ 0)
    (s : ℕ → MSt F n m t K) (h0 : MPos (s 0))
    (hrun : ∀ i, fullUpdateOnce np normalization id XX (s i) = .ok (s (i + 1))) (hsp : ∀ i, MSpan np XX (s i)) :
    (∀ i, ∃ l l', fullLoss np id XX (recon (s i).T (s i).V) (s i).H = .ok l ∧
      fullLoss np id XX (recon (s (i + 1)).T (s (i + 1)).V) (s (i + 1)).H = .ok l' ∧ l' ≤ l) ∧
    ∀ (s' : MSt F n m t K) (φ : ℕ → ℕ), StrictMono φ → Tendsto (fun i => (s (φ i)).T) atTop (𝓝 s'.T) →
      Tendsto (fun i => (s (φ i)).V) atTop (𝓝 s'.V) → Tendsto (fun i => (s (φ i)).H) atTop (𝓝 s'.H) → MPos s' →
      MSpan np XX s' → MStationary np XX s' := by
  have hpos : ∀ i, MPos (s i) := fun i => by
    induction i with
    | zero => exact h0
    | succ i ih =>
      obtain ⟨r, l, l', h1, h2, -⟩ := C66_no_flooring np normalization XX hXX hb hz (s i) ih (hsp i)
      rw [hrun i] at h1
      cases h1
      exact h2
  exact C77_gauss_mnmf np normalization id XX hXX hb hz s (mInv_id np h0) hrun fun i =>
    mRegExact_id np normalization hXX hb hz (s i) (hpos i) (hsp i)

end

/-! An endless run: the recording has one frame along each axis, and the spatial covariances stay diagonal. -/

namespace Diag

noncomputable def flip : Mat 2 ℂ := diagonal ![1, -1]

theorem flip_sq : flip * flip = 1 := by
  rw [flip, diagonal_mul_diagonal, ← diagonal_one]
  congr 1
  funext i
  fin_cases i <;> simp

theorem flip_posDef {A : Mat 2 ℂ} (h : A.PosDef) : (flip * A * flip).PosDef := by
  have hf : flipᴴ = flip := by
    rw [flip, diagonal_conjTranspose]
    congr 1
    funext i
    fin_cases i <;> simp
  have := h.mul_mul_conjTranspose_same (B := flip) (vecMul_injective_iff_isUnit.mpr ⟨⟨flip, flip, flip_sq, flip_sq⟩, rfl⟩)
  rwa [hf] at this

theorem flip_inv {A : Mat 2 ℂ} (hA : A.PosDef) (h : Commute flip A) : Commute flip A⁻¹ := by
  have hu := Tr.isUnit_det hA
  have h1 : A⁻¹ * (flip * A) * A⁻¹ = A⁻¹ * (A * flip) * A⁻¹ := by rw [h.eq]
  rw [Matrix.mul_assoc A⁻¹ (flip * A), mul_nonsing_inv_cancel_right _ _ hu, ← Matrix.mul_assoc A⁻¹ A,
    nonsing_inv_mul _ hu, Matrix.one_mul] at h1
  exact h1.symm

theorem flip_entry {A : Mat 2 ℂ} (h : Commute flip A) : A 0 1 = 0 ∧ A 1 0 = 0 := by
  have h1 := congrFun (congrFun h.eq 0) 1
  have h2 := congrFun (congrFun h.eq 1) 0
  simp only [flip, diagonal_mul, mul_diagonal] at h1 h2
  simp only [cons_val_zero, cons_val_one, one_mul, mul_neg, mul_one, neg_mul] at h1 h2
  exact ⟨self_eq_neg.mp h1, self_eq_neg.mp h2.symm⟩

/-- Positive parameters and diagonal spatial covariances. -/
def Inv (s : MSt Unit 2 2 2 1) : Prop := MPos s ∧ ∀ k f, Commute flip (s.H k f)

theorem R_commute {s : MSt Unit 2 2 2 1} (hH : ∀ k f, Commute flip (s.H k f)) (f : Unit) (j : Fin 2) :
    Commute flip (s.R f j) :=
  Commute.sum_right _ _ _ fun k _ => (hH k f).smul_right _

theorem XX_commute (f : Unit) (j : Fin 2) : Commute flip (exXX f j) := by
  rw [Commute, SemiconjBy, flip, exXX, diagonal_mul_diagonal, diagonal_mul_diagonal]
  congr 1
  funext i
  exact mul_comm _ _

theorem spans {s : MSt Unit 2 2 2 1} (hs : Inv s) : Spans exXX s := by
  have key : ∀ f v (j : Fin 2), (∀ j, exXX f j *ᵥ ((s.R f j)⁻¹ *ᵥ v) = 0) →
      (s.R f j)⁻¹ j 0 * v 0 + (s.R f j)⁻¹ j 1 * v 1 = 0 := by
    intro f v j h
    have h4 := congrFun (h j) j
    rw [exXX, mulVec_diagonal] at h4
    simpa only [Pi.single_eq_same, one_mul, mulVec, dotProduct, Fin.sum_univ_two, Pi.zero_apply] using h4
  have hd := fun f j => flip_entry (flip_inv (R_posDef hs.1 f j) (R_commute hs.2 f j))
  intro f v h
  have h0 := key f v 0 h
  have h1 := key f v 1 h
  rw [(hd f 0).1, zero_mul, add_zero] at h0
  rw [(hd f 1).2, zero_mul, zero_add] at h1
  have e0 := (mul_eq_zero.mp h0).resolve_left ((R_posDef hs.1 f 0).inv.diag_pos (i := 0)).ne'
  have e1 := (mul_eq_zero.mp h1).resolve_left ((R_posDef hs.1 f 1).inv.diag_pos (i := 1)).ne'
  funext j
  fin_cases j
  exacts [e0, e1]

theorem step (np : Numpy ℂ) {s : MSt Unit 2 2 2 1} (hs : Inv s) :
    MSpan np exXX s ∧ ∃ s', fullUpdateOnce np true id exXX s = .ok s' ∧ Inv s' := by
  have hb : ∀ f, ∃ j, exXX f j ≠ 0 := fun f => ⟨0, exXX_ne f 0⟩
  have hz : ∀ j, ∃ f, exXX f j ≠ 0 := fun j => ⟨(), exXX_ne () j⟩
  have hsp : MSpan np exXX s := by
    intro s1 s2 e1 e2
    obtain ⟨e1', p1, -⟩ := full_basis_step np id exXX exXX_psd s (mInv_id np hs.1)
      fun k f b => FloorMild.of_id (basisRaw_pos exXX_psd hb hs.1 k f b)
    rw [e1] at e1'
    cases e1'
    obtain ⟨e2', p2, -⟩ := full_activation_step np id exXX exXX_psd _ (mInv_id np p1)
      fun k b j => FloorMild.of_id (activationRaw_pos exXX_psd hz p1 k b j)
    rw [e2] at e2'
    cases e2'
    exact spans ⟨p2, hs.2⟩
  refine ⟨hsp, ?_⟩
  have hreg := mRegExact_id np true exXX_psd hb hz s hs.1 hsp
  have hi := mInv_id np hs.1
  obtain ⟨e1, p1, -⟩ := full_basis_step np id exXX exXX_psd s hi fun k f b => (hreg.basis k f b).mild _
  obtain ⟨i1, f1⟩ := hreg.activation _ e1
  obtain ⟨e2, p2, -⟩ := full_activation_step np id exXX exXX_psd _ ⟨p1, i1⟩ fun k b j => (f1 k b j).mild _
  obtain ⟨s2, d2⟩ : ∃ s2 : MSt Unit 2 2 2 1, s2 = ⟨fun k f b => id (fullBasisRaw exXX s k f b), fun k b j =>
    id (fullActivationRaw exXX ⟨fun k f b => id (fullBasisRaw exXX s k f b), s.V, s.H⟩ k b j), s.H⟩ := ⟨_, rfl⟩
  rw [← d2] at e2 p2
  obtain ⟨i2, f2⟩ := hreg.spatial _ _ e1 e2
  obtain ⟨H, e3, p3, r3⟩ := full_spatial_eq np id exXX s2 ⟨p2, i2⟩ (fun k f => (f2 k f).1)
    (fun k f => (f2 k f).2.1) (fun k f => (f2 k f).2.2.1) fun k f => (f2 k f).2.2.2
  have c0 : ∀ k f, Commute flip (s2.H k f) := by
    rw [d2]
    exact hs.2
  have cR := fun f j => flip_inv (R_posDef p2 f j) (R_commute c0 f j)
  have cP : ∀ k f, Commute flip (matP s2 k f) := fun k f =>
    Commute.sum_right _ _ _ fun j _ => (cR f j).smul_right _
  have cM : ∀ k f, Commute flip (matHQH exXX s2 k f) := fun k f =>
    ((c0 k f).mul_right (Commute.sum_right _ _ _ fun j _ =>
      (((cR f j).mul_right (XX_commute f j)).mul_right (cR f j)).smul_right _)).mul_right (c0 k f)
  have cH : ∀ k f, Commute flip (H k f) := fun k f => by
    have h1 : flip * H k f * flip = H k f := by
      refine Tr.riccati_unique (matP_posDef p2 k f) (p3.2.2 k f) (flip_posDef (p3.2.2 k f)) ?_
      calc flip * H k f * flip * matP s2 k f * (flip * H k f * flip)
          = flip * H k f * (flip * matP s2 k f) * flip * H k f * flip := by simp only [Matrix.mul_assoc]
        _ = flip * (H k f * matP s2 k f * (flip * flip) * H k f) * flip := by
          rw [(cP k f).eq]
          simp only [Matrix.mul_assoc]
        _ = flip * matHQH exXX s2 k f * flip := by rw [flip_sq, Matrix.mul_one, r3]
        _ = H k f * matP s2 k f * H k f := by rw [(cM k f).eq, Matrix.mul_assoc, flip_sq, Matrix.mul_one, r3]
    have h2 := congrArg (fun M => M * flip) h1
    simp only [Matrix.mul_assoc, flip_sq, Matrix.mul_one] at h2
    exact h2
  refine ⟨fullNormalize ⟨s2.T, s2.V, H⟩, ?_, (full_normalize_step exXX p3).1, fun k f => (cH k f).smul_right _⟩
  rw [fullUpdateOnce, e1]
  simp only [Bind.bind, Except.bind]
  rw [e2]
  simp only
  rw [e3]
  rfl

/-- The theorem applies to the endless run from bases `2`. -/
example (np : Numpy ℂ) : ∃ s : ℕ → MSt Unit 2 2 2 1, s 0 = exM 2 ∧
    (∀ i, fullUpdateOnce np true id exXX (s i) = .ok (s (i + 1))) ∧ (∀ i, MSpan np exXX (s i)) ∧
    ∀ i, ∃ l l', fullLoss np id exXX (recon (s i).T (s i).V) (s i).H = .ok l ∧
      fullLoss np id exXX (recon (s (i + 1)).T (s (i + 1)).V) (s (i + 1)).H = .ok l' ∧ l' ≤ l := by
  have h0 : Inv (exM 2) := ⟨exM_pos two_pos, fun _ _ => (Commute.one_right _).smul_right _⟩
  have hnext : ∀ s : {s : MSt Unit 2 2 2 1 // Inv s}, ∃ s' : {s : MSt Unit 2 2 2 1 // Inv s},
      fullUpdateOnce np true id exXX s.1 = .ok s'.1 := fun s => by
    obtain ⟨-, s', h1, h2⟩ := step np s.2
    exact ⟨⟨s', h2⟩, h1⟩
  choose g hg using hnext
  obtain ⟨s, hs⟩ : ∃ s : ℕ → {s : MSt Unit 2 2 2 1 // Inv s}, s = fun i => g^[i] ⟨exM 2, h0⟩ := ⟨_, rfl⟩
  have hrun : ∀ i, fullUpdateOnce np true id exXX (s i).1 = .ok (s (i + 1)).1 := fun i => by
    rw [hg, hs]
    simp only [Function.iterate_succ_apply']
  have hsp := fun i => (step np (s i).2).1
  exact ⟨fun i => (s i).1, by rw [hs]; rfl, hrun, hsp, (C77_gauss_mnmf_no_flooring np true exXX exXX_psd
    (fun f => ⟨0, exXX_ne f 0⟩) (fun j => ⟨(), exXX_ne () j⟩) (fun i => (s i).1) (s 0).2.1 hrun hsp).1⟩

end Diag

end Verif.Mnmf
