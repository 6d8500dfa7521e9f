import Verif.Props.Limit
import Verif.Props.StationaryCacgmm

/-!
# Endless runs of CACGMM (C77)

Every accumulation point of the parameters with positive weights and positive definite covariances is a stationary
point of the loss.
-/

set_option linter.unusedSectionVars false

namespace Verif.Cacgmm

open Matrix Spatial Scale Special Mnmf Filter Topology
open scoped ComplexOrder

variable {F : Type} [Fintype F] {n m t : ℕ}

/-- Convergence of the parameters. -/
structure CLim {α : Type} (l : Filter α) (s : α → CSt F n m) (s' : CSt F n m) : Prop where
  α : ∀ k f, Tendsto (fun i => (s i).α k f) l (𝓝 (s'.α k f))
  B : ∀ k f, Tendsto (fun i => (s i).B k f) l (𝓝 (s'.B k f))

section

variable {α : Type} {l : Filter α} {s : α → CSt F n m} {s' : CSt F n m} (h : CLim l s s') (hs' : CPos s')
  (Z : F → Fin t → Fin m → ℂ)
include h hs'

theorem CLim.q (k : Fin (n + 1)) (f : F) (j : Fin t) :
    Tendsto (fun i => Cacgmm.q Z (s i) k f j) l (𝓝 (Cacgmm.q Z s' k f j)) := by
  have hi := tendsto_matrix.1 (tendsto_inv (h.B k f) (Tr.isUnit_det (hs'.2 k f)))
  refine (Complex.continuous_re.tendsto _).comp ?_
  simp only [Linalg.quadratic, dotProduct, vecMul]
  exact tendsto_finsetSum _ fun b _ => (tendsto_finsetSum _ fun a _ => tendsto_const_nhds.mul (hi a b)).mul
    tendsto_const_nhds

theorem CLim.logGamma (hq : ∀ k f j, 0 < Cacgmm.q Z s' k f j) (f : F) (j : Fin t) (k : Fin (n + 1)) :
    Tendsto (fun i => Cacgmm.logGamma (s i) (Cacgmm.q Z (s i)) f j k) l
      (𝓝 (Cacgmm.logGamma s' (Cacgmm.q Z s') f j k)) := by
  refine Tendsto.sub (((h.α k f).log (hs'.1 k f).ne').sub ((tendsto_det (h.B k f)).norm.log ?_))
    (tendsto_const_nhds.mul ((h.q hs' Z k f j).log (hq k f j).ne'))
  exact norm_ne_zero_iff.2 (Tr.isUnit_det (hs'.2 k f)).ne_zero

theorem CLim.val (hq : ∀ k f j, 0 < Cacgmm.q Z s' k f j) :
    Tendsto (fun i => Cacgmm.val Z (s i)) l (𝓝 (Cacgmm.val Z s')) := by
  refine tendsto_finsetSum _ fun f _ => tendsto_meanT fun j => Tendsto.neg (Tendsto.log ?_
    (Finset.sum_pos (fun _ _ => Real.exp_pos _) Finset.univ_nonempty).ne')
  exact tendsto_finsetSum _ fun k _ => (Real.continuous_exp.tendsto _).comp (h.logGamma hs' Z hq f j k)

end

/-- The parameters after the M step without flooring. -/
noncomputable def rawParams (Z : F → Fin t → Fin m → ℂ) (s : CSt F n m) : CSt F n m :=
  ⟨fun k f => meanT fun j => softmax (logGamma s (q Z s) f j) k,
    fun k f => rawCovariance Z (q Z s) (fun k f j => softmax (logGamma s (q Z s) f j) k) k f⟩

theorem params_raw (np : Numpy ℂ) (normalization : Bool) (floor : ℝ → ℝ) (Z : F → Fin t → Fin m → ℂ) (s : CSt F n m)
    (hs : CInv floor Z s) (hr : CReg np normalization floor Z s) : params np floor Z s = rawParams Z s := by
  have h1 : post floor Z s = fun k f j => softmax (logGamma s (q Z s) f j) k := by
    funext k f j
    rw [post, quadForm_eq hs]
  rw [params, quadForm_eq hs, rawParams]
  congr 1
  · rw [h1]
  · funext k f
    rw [hr.psd k f, h1]

theorem CLim.rawParams (ht : 0 < t) {α : Type} {l : Filter α} {s : α → CSt F n m} {s' : CSt F n m} (h : CLim l s s')
    (hs' : CPos s') (Z : F → Fin t → Fin m → ℂ) (hq : ∀ k f j, 0 < Cacgmm.q Z s' k f j) :
    CLim l (fun i => rawParams Z (s i)) (rawParams Z s') := by
  have : Nonempty (Fin t) := ⟨⟨0, ht⟩⟩
  have hγ : ∀ k f j, Tendsto (fun i => softmax (Cacgmm.logGamma (s i) (Cacgmm.q Z (s i)) f j) k) l
      (𝓝 (softmax (Cacgmm.logGamma s' (Cacgmm.q Z s') f j) k)) := by
    intro k f j
    simp only [C12_softmax_eq]
    have he := fun k => (Real.continuous_exp.tendsto _).comp (h.logGamma hs' Z hq f j k)
    exact (he k).div (tendsto_finsetSum _ fun k _ => he k)
      (Finset.sum_pos (fun _ _ => Real.exp_pos _) Finset.univ_nonempty).ne'
  refine ⟨fun k f => tendsto_meanT fun j => hγ k f j, fun k f => ?_⟩
  rw [tendsto_matrix]
  intro a b
  have hΓ : (((∑ j, softmax (Cacgmm.logGamma s' (Cacgmm.q Z s') f j) k : ℝ) : ℂ)) ≠ 0 := by
    exact_mod_cast (Finset.sum_pos (fun j _ => C12_softmax_pos _ k) Finset.univ_nonempty).ne'
  simp only [Cacgmm.rawParams, rawCovariance, Matrix.smul_apply, Matrix.sum_apply, of_apply, smul_eq_mul]
  refine tendsto_const_nhds.mul (Tendsto.mul ((tendsto_ofReal (tendsto_finsetSum _ fun j _ => hγ k f j)).inv₀ hΓ) ?_)
  exact tendsto_finsetSum _ fun j _ => (tendsto_ofReal ((hγ k f j).div (h.q hs' Z k f j) (hq k f j).ne')).mul
    tendsto_const_nhds

theorem unitInput_floor {floor : ℝ → ℝ} {X : Spec F m t}
    (hf : ∀ f j, floor (Real.sqrt (∑ c, ‖X f c j‖ ^ 2)) = Real.sqrt (∑ c, ‖X f c j‖ ^ 2)) :
    unitInput floor X = unitInput id X := by
  funext f j c
  rw [unitInput, unitInput, hf]
  rfl

/-- C77: along an endless run of `CACGMM` the recorded losses never increase, and every accumulation point of the
parameters with positive weights and positive definite covariances is a stationary point of the loss. -/
theorem C77_cacgmm [Nonempty (Fin m)] (np : Numpy ℂ) (normalization : Bool) (floor : ℝ → ℝ) (X : Spec F m t)
    (ht : 0 < t) (hX : ∀ f, LinearIndependent ℂ (X f).row) (hX0 : ∀ f j, ∃ c, X f c j ≠ 0)
    (hf : ∀ f j, floor (Real.sqrt (∑ c, ‖X f c j‖ ^ 2)) = Real.sqrt (∑ c, ‖X f c j‖ ^ 2))
    (s : ℕ → CSt F n m) (h0 : CInv floor (unitInput floor X) (s 0))
    (hrun : ∀ i, (updateOnce np normalization floor (unitInput floor X) (s i)).map Prod.fst = .ok (s (i + 1)))
    (hr : ∀ i, CReg np normalization floor (unitInput floor X) (s i)) :
    (∀ i, ∃ l l', loss floor (unitInput floor X) (s i) = .ok l ∧ loss floor (unitInput floor X) (s (i + 1)) = .ok l' ∧
      l' ≤ l) ∧
    ∀ (s' : CSt F n m) (φ : ℕ → ℕ), StrictMono φ → Tendsto (fun i => (s (φ i)).α) atTop (𝓝 s'.α) →
      Tendsto (fun i => (s (φ i)).B) atTop (𝓝 s'.B) → (∀ k f, 0 < s'.α k f) → (∀ k f, (s'.B k f).PosDef) →
      CStationary (unitInput floor X) s' := by
  have hZ : unitInput floor X = unitInput id X := unitInput_floor hf
  obtain ⟨hI, hReg⟩ := creg_id (n := n) np false X ht hX hX0
  rw [← hZ] at hI hReg
  obtain ⟨Z, hZd⟩ : ∃ Z, Z = unitInput floor X := ⟨_, rfl⟩
  rw [← hZd] at h0 hrun hr hI hReg ⊢
  have hstep : ∀ i, CInv floor Z (s i) → CInv floor Z (s (i + 1)) ∧ val Z (s (i + 1)) ≤ val Z (s i) ∧
      val Z (s (i + 1)) = val Z (rawParams Z (s i)) := by
    intro i hi
    obtain ⟨r, h1, h2, h3⟩ := c_step np normalization floor Z ht (s i) hi (hr i)
    have h4 := (hrun i).symm.trans h1
    cases h4
    refine ⟨h2, h3, ?_⟩
    have e := updateOnce_eq np normalization floor Z hi.1
    have hp := hrun i
    rw [e] at hp
    have hp' := Except.ok.inj hp
    rw [← hp', ← params_raw np normalization floor Z (s i) hi (hr i)]
    cases normalization with
    | false => rfl
    | true =>
      have hpos : CPos (params np floor Z (s i)) := by
        refine ⟨(params_mixing np floor Z ht (s i)).1, fun k f => ?_⟩
        simp only [params, quadForm_eq hi]
        rw [(hr i).psd k f]
        exact (hr i).posDef k f
      exact (C46_normalise Z _ hpos (q_pos (hr i).frames hpos)).1
  have hu : ∀ i, CInv floor Z (s i) := fun i => by
    induction i with
    | zero => exact h0
    | succ i ih => exact (hstep i ih).1
  refine ⟨fun i => ⟨_, _, loss_eq (hu i), loss_eq (hu (i + 1)), (hstep i (hu i)).2.1⟩, fun s' φ hφ hα hB p1 p2 => ?_⟩
  have hlim : CLim atTop (fun i => s (φ i)) s' :=
    ⟨fun k f => tendsto_pi_nhds.1 (tendsto_pi_nhds.1 hα k) f, fun k f => tendsto_pi_nhds.1 (tendsto_pi_nhds.1 hB k) f⟩
  have hpos : CPos s' := ⟨p1, p2⟩
  have hsum : ∀ f, ∑ k, s'.α k f = 1 := fun f => by
    refine tendsto_nhds_unique (tendsto_finsetSum _ fun k _ => hlim.α k f) ?_
    simp only [(hu _).2.1 f]
    exact tendsto_const_nhds
  have hi := hI s' hpos hsum
  have hreg := hReg s' hi
  have hq := q_pos hreg.frames hpos
  obtain ⟨r, γ, l, l', b1, b2, b3, b4, b5, -⟩ := C65_cacgmm np false id Z ht s' hi hreg
  have b6 : r = rawParams Z s' := by
    rw [updateOnce_eq np false id Z hpos, params_raw np false id Z s' hi hreg] at b1
    have := congrArg Prod.fst (Except.ok.inj b1)
    simpa using this.symm
  rw [loss_eq hi] at b3
  rw [loss_eq b2] at b4
  cases b3
  cases b4
  have e1 : Tendsto (fun i => val Z (s (φ i + 1))) atTop (𝓝 (val Z r)) := by
    rw [b6] at b2 ⊢
    refine ((hlim.rawParams ht hpos Z hq).val b2.1 Z fun k f j => (b2.2.2 k f j).1).congr fun i => ?_
    exact ((hstep _ (hu _)).2.2).symm
  have e2 := hlim.val hpos Z hq
  have e3 := tendsto_nhds_unique (e1.sub e2) (decrease_tendsto (x := fun i => val Z (s i))
    (fun i => (hstep i (hu i)).2.1) hφ e2)
  by_contra hns
  exact absurd (b5.mpr hns) (by linarith)

/-- Without flooring the hypotheses on the iterates are void: every run from positive weights summing to one and
positive definite covariances is covered. -/
theorem C77_cacgmm_no_flooring [Nonempty (Fin m)] (np : Numpy ℂ) (normalization : Bool) (X : Spec F m t)
    (ht : 0 < t) (hX : ∀ f, LinearIndependent ℂ (X f).row) (hX0 : ∀ f j, ∃ c, X f c j ≠ 0) (s0 : CSt F n m)
    (hα : ∀ k f, 0 < s0.α k f) (hsum : ∀ f, ∑ k, s0.α k f = 1) (hB : ∀ k f, (s0.B k f).PosDef) :
    ∃ s : ℕ → CSt F n m, s 0 = s0 ∧
      (∀ i, (updateOnce np normalization id (unitInput id X) (s i)).map Prod.fst = .ok (s (i + 1))) ∧
      (∀ i, ∃ l l', loss id (unitInput id X) (s i) = .ok l ∧ loss id (unitInput id X) (s (i + 1)) = .ok l' ∧ l' ≤ l) ∧
      ∀ (s' : CSt F n m) (φ : ℕ → ℕ), StrictMono φ → Tendsto (fun i => (s (φ i)).α) atTop (𝓝 s'.α) →
        Tendsto (fun i => (s (φ i)).B) atTop (𝓝 s'.B) → (∀ k f, 0 < s'.α k f) → (∀ k f, (s'.B k f).PosDef) →
        CStationary (unitInput id X) s' := by
  obtain ⟨hI, hReg⟩ := creg_id (n := n) np normalization X ht hX hX0
  have h0 := hI s0 ⟨hα, hB⟩ hsum
  have hnext : ∀ s : {s : CSt F n m // CInv id (unitInput id X) s}, ∃ s' : {s : CSt F n m // CInv id (unitInput id X) s},
      (updateOnce np normalization id (unitInput id X) s.1).map Prod.fst = .ok s'.1 := fun s => by
    obtain ⟨s', h1, h2, -⟩ := c_step np normalization id (unitInput id X) ht s.1 s.2 (hReg s.1 s.2)
    exact ⟨⟨s', h2⟩, h1⟩
  choose g hg using hnext
  obtain ⟨s, hs⟩ : ∃ s : ℕ → {s : CSt F n m // CInv id (unitInput id X) s}, s = fun i => g^[i] ⟨s0, h0⟩ := ⟨_, rfl⟩
  have hrun : ∀ i, (updateOnce np normalization id (unitInput id X) (s i).1).map Prod.fst = .ok (s (i + 1)).1 := fun i => by
    rw [hg, hs]
    simp only [Function.iterate_succ_apply']
  refine ⟨fun i => (s i).1, by rw [hs]; rfl, hrun, ?_⟩
  exact C77_cacgmm np normalization id X ht hX hX0 (fun _ _ => rfl) (fun i => (s i).1) (s 0).2 hrun fun i =>
    hReg _ (s i).2

/-- The theorem applies, for example, to two sources, two channels and three frames, starting from equal weights. -/
example (np : Numpy ℂ) : ∃ s : ℕ → CSt Unit 1 2, s 0 = exS ∧
    (∀ i, (updateOnce np true id (unitInput id fun _ : Unit => !![1, 0, 0; 0, 1, 1]) (s i)).map Prod.fst
      = .ok (s (i + 1))) ∧
    ∀ i, ∃ l l', loss id (unitInput id fun _ : Unit => !![1, 0, 0; 0, 1, 1]) (s i) = .ok l ∧
      loss id (unitInput id fun _ : Unit => !![1, 0, 0; 0, 1, 1]) (s (i + 1)) = .ok l' ∧ l' ≤ l := by
  have hX : ∀ _ : Unit, LinearIndependent ℂ (!![1, 0, 0; 0, 1, 1] : Matrix (Fin 2) (Fin 3) ℂ).row := by
    intro _
    rw [Fintype.linearIndependent_iff]
    intro g hg i
    have h0 := congrFun hg 0
    have h2 := congrFun hg 2
    simp [Fin.sum_univ_two, Matrix.row] at h0 h2
    fin_cases i
    · exact h0
    · exact h2
  have hX0 : ∀ (_ : Unit) j, ∃ c, (!![1, 0, 0; 0, 1, 1] : Matrix (Fin 2) (Fin 3) ℂ) c j ≠ 0 := by
    intro _ j
    fin_cases j
    · exact ⟨0, by simp⟩
    · exact ⟨1, by simp⟩
    · exact ⟨1, by simp⟩
  obtain ⟨s, h1, h2, h3, -⟩ := C77_cacgmm_no_flooring np true (fun _ : Unit => !![1, 0, 0; 0, 1, 1]) (by norm_num) hX hX0
    exS exS_pos.1.1 exS_pos.2 exS_pos.1.2
  exact ⟨s, h1, h2, h3⟩

end Verif.Cacgmm
