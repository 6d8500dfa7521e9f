import Verif.Lemmas.Equivariance
import Verif.Props.Limit

/-! # C71: the IP-based separators do not depend on how the recording is mixed

`remix A X` is the recording `X` with the channels of every bin `f` mixed once more by an invertible matrix `A f` (other
microphone gains, a rotation, whitening, ...), and `unmix A W` the filters with this mixing undone. Started from
`unmix A W` on `remix A X`, a separator goes through the states it goes through when started from `W` on `X`, with
`unmix A` applied to the filters: same separated signals, same source models, same exceptions. Nothing is assumed about
the signals, the filters, the contrast function, the flooring function or the number of iterations. -/

set_option linter.unusedSectionVars false

namespace Verif

open Matrix Spatial Scale

variable {F : Type} [Fintype F] {n t K : ℕ}

theorem logdet_unmix (A W : F → Mat n ℂ) (hA : ∀ f, IsUnit (A f).det) (hW : ∀ f, IsUnit (W f).det) (f : F) :
    Real.log ‖(unmix A W f).det‖ = Real.log ‖(W f).det‖ - Real.log ‖(A f).det‖ := by
  have h1 : ‖(W f).det‖ ≠ 0 := norm_ne_zero_iff.mpr (hW f).ne_zero
  have h2 : ‖(A f).det‖ ≠ 0 := norm_ne_zero_iff.mpr (hA f).ne_zero
  rw [unmix, det_mul, det_nonsing_inv, Ring.inverse_eq_inv', norm_mul, norm_inv, Real.log_mul h1 (inv_ne_zero h2),
    Real.log_inv, sub_eq_add_neg]

namespace Iva

theorem ip1Stack_remix (A : F → Mat n ℂ) (hA : ∀ f, IsUnit (A f).det) (floor : ℝ → ℝ) (phi : F → Fin n → Fin t → ℝ)
    (X : Spec F n t) (W : F → Mat n ℂ) :
    ip1Stack floor (fun f => wcov (phi f) (remix A X) f) (unmix A W)
      = Except.map (unmix A) (ip1Stack floor (fun f => wcov (phi f) X f) W) := by
  refine foldlM_map _ _ (unmix A) (fun W k => ?_) _ W
  rw [show unmix A = fun (y : F → Mat n ℂ) f => y f * (A f)⁻¹ from rfl,
    ← onBins_map (e := fun f (y : Mat n ℂ) => y * (A f)⁻¹)]
  congr 1
  funext f
  rw [← ip1Row_remix (A f) (hA f)]
  congr 1
  funext k
  exact wcov_remix A (phi f) X f k

theorem ip2Pair_onBins_remix (A : F → Mat n ℂ) (hA : ∀ f, IsUnit (A f).det) (np : Numpy ℂ) (floor : ℝ → ℝ)
    (phi : F → Fin n → Fin t → ℝ) (X : Spec F n t) (W : F → Mat n ℂ) (p : Fin n × Fin n) :
    (onBins fun f => ip2Pair np floor (wcov (phi f) (remix A X) f) (unmix A W f) p)
      = Except.map (unmix A) (onBins fun f => ip2Pair np floor (wcov (phi f) X f) (W f) p) := by
  rw [show unmix A = fun (y : F → Mat n ℂ) f => y f * (A f)⁻¹ from rfl,
    ← onBins_map (e := fun f (y : Mat n ℂ) => y * (A f)⁻¹)]
  congr 1
  funext f
  rw [← ip2Pair_remix (A f) (hA f)]
  congr 1
  funext k
  exact wcov_remix A (phi f) X f k

/-- C71 for AuxIVA with IP1: the filters of the two runs differ by `A⁻¹`, and one run raises iff the other does. -/
theorem C71_ip1 (A : F → Mat n ℂ) (hA : ∀ f, IsUnit (A f).det) (floor : ℝ → ℝ) (d : Fin n → Fin t → ℝ → ℝ)
    (X : Spec F n t) (W : F → Mat n ℂ) (n_iter : ℕ) :
    iterM (auxIp1 floor d (remix A X)) n_iter (unmix A W)
      = Except.map (unmix A) (iterM (auxIp1 floor d X) n_iter W) := by
  refine iterM_map _ _ (unmix A) (fun W => ?_) n_iter W
  rw [auxIp1, auxIp1]
  simp only [separate_remix A hA]
  exact ip1Stack_remix A hA floor (fun _ => weight floor d (separate X W)) X W

/-- C71 for AuxIVA with IP2, for every list of pairs. -/
theorem C71_ip2 (A : F → Mat n ℂ) (hA : ∀ f, IsUnit (A f).det) (np : Numpy ℂ) (floor : ℝ → ℝ)
    (pairs : List (Fin n × Fin n)) (d : Fin n → Fin t → ℝ → ℝ) (X : Spec F n t) (W : F → Mat n ℂ) (n_iter : ℕ) :
    iterM (auxIp2 np floor pairs d (remix A X)) n_iter (unmix A W)
      = Except.map (unmix A) (iterM (auxIp2 np floor pairs d X) n_iter W) := by
  refine iterM_map _ _ (unmix A) (fun W => ?_) n_iter W
  refine foldlM_map _ _ (unmix A) (fun W p => ?_) pairs W
  rw [auxIp2Pair, auxIp2Pair]
  simp only [separate_remix A hA]
  exact ip2Pair_onBins_remix A hA np floor (fun _ => weight floor d (separate X W)) X W p

/-- A state of AuxGaussIVA with the mixing undone in its filters. -/
noncomputable def GaussState.unmix (A : F → Mat n ℂ) (s : GaussState F n t) : GaussState F n t :=
  ⟨Spatial.unmix A s.W, s.variance⟩

/-- C71 for AuxGaussIVA with IP1: the variances are the same too. -/
theorem C71_gauss_ip1 (A : F → Mat n ℂ) (hA : ∀ f, IsUnit (A f).det) (floor : ℝ → ℝ) (X : Spec F n t)
    (s : GaussState F n t) (n_iter : ℕ) :
    iterM (gaussIp1 floor (remix A X)) n_iter (s.unmix A)
      = Except.map (GaussState.unmix A) (iterM (gaussIp1 floor X) n_iter s) := by
  refine iterM_map _ _ (GaussState.unmix A) (fun s => ?_) n_iter s
  rw [gaussIp1, gaussIp1, map_bind]
  simp only [GaussState.unmix, separate_remix A hA]
  have h := C71_ip1 A hA floor (gaussD (gaussVariance (separate X s.W))) X s.W 1
  simp only [iterM, Bind.bind, Except.bind] at h
  cases h1 : auxIp1 floor (gaussD (gaussVariance (separate X s.W))) X s.W <;>
    cases h2 : auxIp1 floor (gaussD (gaussVariance (separate X s.W))) (remix A X) (Spatial.unmix A s.W) <;>
    simp_all [Except.map, Bind.bind, Except.bind, GaussState.unmix]

/-- C71 for AuxGaussIVA with IP2. -/
theorem C71_gauss_ip2 (A : F → Mat n ℂ) (hA : ∀ f, IsUnit (A f).det) (np : Numpy ℂ) (floor : ℝ → ℝ)
    (pairs : List (Fin n × Fin n)) (X : Spec F n t) (s : GaussState F n t) (n_iter : ℕ) :
    iterM (gaussIp2 np floor pairs (remix A X)) n_iter (s.unmix A)
      = Except.map (GaussState.unmix A) (iterM (gaussIp2 np floor pairs X) n_iter s) := by
  refine iterM_map _ _ (GaussState.unmix A) (fun s => ?_) n_iter s
  rw [gaussIp2, gaussIp2, map_bind]
  simp only [GaussState.unmix, separate_remix A hA]
  have h := C71_ip2 A hA np floor pairs (gaussD (gaussVariance (separate X s.W))) X s.W 1
  simp only [iterM, Bind.bind, Except.bind] at h
  cases h1 : auxIp2 np floor pairs (gaussD (gaussVariance (separate X s.W))) X s.W <;>
    cases h2 : auxIp2 np floor pairs (gaussD (gaussVariance (separate X s.W))) (remix A X) (Spatial.unmix A s.W) <;>
    simp_all [Except.map, Bind.bind, Except.bind, GaussState.unmix]

/-- C71: what the user of AuxIVA with IP1 sees. When one run ends normally so does the other; the separated signals are
the same, and the recorded losses differ by the constant `2 Σ log |det A|`. -/
theorem C71_ip1_outcome (A : F → Mat n ℂ) (hA : ∀ f, IsUnit (A f).det) (floor : ℝ → ℝ) (G d : Fin n → Fin t → ℝ → ℝ)
    (X : Spec F n t) (W W1 : F → Mat n ℂ) (n_iter : ℕ) (h : iterM (auxIp1 floor d X) n_iter W = .ok W1) :
    ∃ W2, iterM (auxIp1 floor d (fun f => A f * X f)) n_iter (fun f => W f * (A f)⁻¹) = .ok W2 ∧
      separate (fun f => A f * X f) W2 = separate X W1 ∧
      ((∀ f, IsUnit (W1 f).det) →
        lossIp G (fun f => A f * X f) W2 = lossIp G X W1 + 2 * ∑ f, Real.log ‖(A f).det‖) := by
  refine ⟨unmix A W1, (C71_ip1 A hA floor d X W n_iter).trans (by rw [h]; rfl), separate_remix A hA X W1, fun hW => ?_⟩
  have e : lossIp G (remix A X) (unmix A W1) = _ := rfl
  change lossIp G (remix A X) (unmix A W1) = _
  rw [lossIp, lossIp, separate_remix A hA, ivaLoss, ivaLoss]
  simp only [logdet_unmix A W1 hA hW, Finset.sum_sub_distrib]
  ring

end Iva

namespace Fdica

/-- C71 for AuxFDICA with IP1. -/
theorem C71_ip1 (A : F → Mat n ℂ) (hA : ∀ f, IsUnit (A f).det) (floor d : ℝ → ℝ)
    (X : Spec F n t) (W : F → Mat n ℂ) (n_iter : ℕ) :
    iterM (auxIp1 floor d (remix A X)) n_iter (unmix A W)
      = Except.map (unmix A) (iterM (auxIp1 floor d X) n_iter W) := by
  refine iterM_map _ _ (unmix A) (fun W => ?_) n_iter W
  rw [auxIp1, auxIp1]
  simp only [separate_remix A hA]
  exact Iva.ip1Stack_remix A hA floor (fun f => weight floor d (separate X W f)) X W

/-- C71 for AuxFDICA with IP2. -/
theorem C71_ip2 (A : F → Mat n ℂ) (hA : ∀ f, IsUnit (A f).det) (np : Numpy ℂ) (floor d : ℝ → ℝ)
    (pairs : List (Fin n × Fin n)) (X : Spec F n t) (W : F → Mat n ℂ) (n_iter : ℕ) :
    iterM (auxIp2 np floor d pairs (remix A X)) n_iter (unmix A W)
      = Except.map (unmix A) (iterM (auxIp2 np floor d pairs X) n_iter W) := by
  refine iterM_map _ _ (unmix A) (fun W => ?_) n_iter W
  refine foldlM_map _ _ (unmix A) (fun W p => ?_) pairs W
  rw [auxIp2Pair, auxIp2Pair]
  simp only [separate_remix A hA]
  exact Iva.ip2Pair_onBins_remix A hA np floor (fun f => weight floor d (separate X W f)) X W p

end Fdica

namespace Ilrma

theorem spatialFilter_remix (A : F → Mat n ℂ) (hA : ∀ f, IsUnit (A f).det) (np : Numpy ℂ) (alg : FilterAlg n)
    (floor : ℝ → ℝ) (phi : F → Fin n → Fin t → ℝ) (X : Spec F n t) (W : F → Mat n ℂ) :
    spatialFilter np alg floor phi (remix A X) (unmix A W)
      = Except.map (unmix A) (spatialFilter np alg floor phi X W) := by
  cases alg with
  | ip1 => exact Iva.ip1Stack_remix A hA floor phi X W
  | ip2 pairs => exact foldlM_map _ _ (unmix A) (fun W p => Iva.ip2Pair_onBins_remix A hA np floor phi X W p) pairs W

/-- A state of ILRMA with the mixing undone in its filters. -/
noncomputable def St.unmix (A : F → Mat n ℂ) (s : St F n t K) : St F n t K := ⟨Spatial.unmix A s.W, s.T, s.V⟩

noncomputable def StP.unmix (A : F → Mat n ℂ) (s : StP F n t K) : StP F n t K := ⟨Spatial.unmix A s.W, s.Z, s.T, s.V⟩

theorem divRows_unmix (A : F → Mat n ℂ) (psi : Fin n → ℝ) (W : F → Mat n ℂ) :
    divRows psi (Spatial.unmix A W) = Spatial.unmix A (divRows psi W) := by
  funext f
  ext k j
  simp only [divRows, Spatial.unmix, Matrix.of_apply, Matrix.mul_apply, Finset.sum_div]
  exact Finset.sum_congr rfl fun i _ => by ring

/-- C71 for ILRMA (Gauss, t and GGD; MM or ME) with IP1 or IP2, with power normalisation or without normalisation: the
bases and activations are the same too. (Normalisation by projection back refers to a recorded channel, so it does
depend on the mixing.) -/
theorem C71_ilrma (A : F → Mat n ℂ) (hA : ∀ f, IsUnit (A f).det) (np : Numpy ℂ) (src : Source) (p : ℝ)
    (alg : FilterAlg n) (norm : Norm n) (hnorm : ∀ r, norm ≠ .projectionBack r) (floor : ℝ → ℝ) (X : Spec F n t)
    (s : St F n t K) (n_iter : ℕ) :
    iterM (updateOnce np src p alg norm floor (remix A X)) n_iter (s.unmix A)
      = Except.map (St.unmix A) (iterM (updateOnce np src p alg norm floor X) n_iter s) := by
  refine iterM_map _ _ (St.unmix A) (fun s => ?_) n_iter s
  simp only [updateOnce, updateSpatial, updateSource, St.unmix, separate_remix A hA, spatialFilter_remix A hA]
  cases spatialFilter np alg floor _ X s.W with
  | error => rfl
  | ok W =>
    simp only [Except.map, Bind.bind, Except.bind]
    cases norm with
    | off => rfl
    | power => simp only [normalize, separate_remix A hA, divRows_unmix, St.unmix]
    | projectionBack r => exact absurd rfl (hnorm r)

/-- C71 for ILRMA with partitioning. -/
theorem C71_ilrma_partitioned (A : F → Mat n ℂ) (hA : ∀ f, IsUnit (A f).det) (np : Numpy ℂ) (src : Source) (p : ℝ)
    (alg : FilterAlg n) (norm : Norm n) (floor : ℝ → ℝ) (X : Spec F n t) (s : StP F n t K) (n_iter : ℕ) :
    iterM (updateOnceP np src p alg norm floor (remix A X)) n_iter (s.unmix A)
      = Except.map (StP.unmix A) (iterM (updateOnceP np src p alg norm floor X) n_iter s) := by
  refine iterM_map _ _ (StP.unmix A) (fun s => ?_) n_iter s
  simp only [updateOnceP, updateSpatialP, updateSourceP, StP.unmix, separate_remix A hA, spatialFilter_remix A hA]
  cases spatialFilter np alg floor _ X s.W with
  | error => rfl
  | ok W =>
    simp only [Except.map, Bind.bind, Except.bind]
    cases norm with
    | off => rfl
    | power => simp only [normalizeP, separate_remix A hA, divRows_unmix, StP.unmix]
    | projectionBack r => rfl

/-- C71: what the user of ILRMA sees: same separated signals, same source model, losses differing by a constant. -/
theorem C71_ilrma_outcome (A : F → Mat n ℂ) (hA : ∀ f, IsUnit (A f).det) (np : Numpy ℂ) (src : Source) (p : ℝ)
    (alg : FilterAlg n) (norm : Norm n) (hnorm : ∀ r, norm ≠ .projectionBack r) (floor : ℝ → ℝ) (X : Spec F n t)
    (s s1 : St F n t K) (n_iter : ℕ) (h : iterM (updateOnce np src p alg norm floor X) n_iter s = .ok s1) :
    ∃ s2, iterM (updateOnce np src p alg norm floor (fun f => A f * X f)) n_iter
        ⟨fun f => s.W f * (A f)⁻¹, s.T, s.V⟩ = .ok s2 ∧
      separate (fun f => A f * X f) s2.W = separate X s1.W ∧ s2.T = s1.T ∧ s2.V = s1.V ∧
      ((∀ f, IsUnit (s1.W f).det) →
        loss src (fun f => A f * X f) s2 = loss src X s1 + 2 * ∑ f, Real.log ‖(A f).det‖) := by
  refine ⟨s1.unmix A, (C71_ilrma A hA np src p alg norm hnorm floor X s n_iter).trans (by rw [h]; rfl),
    separate_remix A hA X s1.W, rfl, rfl, fun hW => ?_⟩
  change loss src (remix A X) (s1.unmix A) = _
  rw [loss, loss, lossOf, lossOf]
  simp only [St.unmix, separate_remix A hA, logdet_unmix A s1.W hA hW, mul_sub, Finset.sum_sub_distrib, Finset.mul_sum]
  ring

end Ilrma

namespace Mnmf

open Ilrma (FilterAlg spatialFilter_remix)

variable {m : ℕ}

/-- A state of FastGaussMNMF with the mixing undone in its diagonalisers. -/
noncomputable def FSt.unmix (A : F → Mat m ℂ) (s : FSt F n m t K) : FSt F n m t K :=
  ⟨Spatial.unmix A s.Q, s.T, s.V, s.D⟩

/-- C71 for FastGaussMNMF with IP1 or IP2, with or without normalisation. -/
theorem C71_fast (A : F → Mat m ℂ) (hA : ∀ f, IsUnit (A f).det) (np : Numpy ℂ) (alg : FilterAlg m)
    (normalization : Bool) (floor : ℝ → ℝ) (X : Spec F m t) (s : FSt F n m t K) (n_iter : ℕ) :
    iterM (fastUpdateOnce np alg normalization floor (remix A X)) n_iter (s.unmix A)
      = Except.map (FSt.unmix A) (iterM (fastUpdateOnce np alg normalization floor X) n_iter s) := by
  refine iterM_map _ _ (FSt.unmix A) (fun s => ?_) n_iter s
  have h1 : ∀ s : FSt F n m t K, fastUpdateBasis floor (remix A X) (s.unmix A)
      = (fastUpdateBasis floor X s).unmix A := fun s => by
    simp only [fastUpdateBasis, fastBasisRaw, FSt.unmix, separate_remix A hA, lambD]
  have h2 : ∀ s : FSt F n m t K, fastUpdateActivation floor (remix A X) (s.unmix A)
      = (fastUpdateActivation floor X s).unmix A := fun s => by
    simp only [fastUpdateActivation, fastActivationRaw, FSt.unmix, separate_remix A hA, lambD]
  have h3 : ∀ s : FSt F n m t K, fastUpdateSpatial (remix A X) (s.unmix A)
      = (fastUpdateSpatial X s).unmix A := fun s => by
    simp only [fastUpdateSpatial, FSt.unmix, separate_remix A hA, lambD]
  have h4 : ∀ s : FSt F n m t K, fastNormalize floor (remix A X) (s.unmix A)
      = (fastNormalize floor X s).unmix A := fun s => by
    have e : fastPsi floor (remix A X) (s.unmix A) = fastPsi floor X s := by
      funext c
      simp only [fastPsi, FSt.unmix, separate_remix A hA]
    rw [fastNormalize, fastNormalize, e]
    exact congrArg (fun Q => (⟨Q, s.T, s.V, fun f k c => s.D f k c / fastPsi floor X s c ^ 2⟩ : FSt F n m t K))
      (Ilrma.divRows_unmix A (fastPsi floor X s) s.Q)
  simp only [fastUpdateOnce, h1, h2]
  generalize fastUpdateActivation floor X (fastUpdateBasis floor X s) = s
  simp only [fastUpdateDiagonalizer]
  rw [show (s.unmix A).Q = Spatial.unmix A s.Q from rfl, spatialFilter_remix A hA]
  change (Except.map (Spatial.unmix A) (Ilrma.spatialFilter np alg floor (fun f c j => 1 / lambD s f c j) X s.Q)
    >>= _) >>= _ = _
  cases Ilrma.spatialFilter np alg floor (fun f c j => 1 / lambD s f c j) X s.Q with
  | error => rfl
  | ok Q =>
    have h5 : (⟨Spatial.unmix A Q, s.T, s.V, s.D⟩ : FSt F n m t K) = FSt.unmix A ⟨Q, s.T, s.V, s.D⟩ := rfl
    cases normalization
    · simp only [Except.map, Bind.bind, Except.bind, Bool.false_eq_true, if_false]
      rw [← h3]; rfl
    · simp only [Except.map, Bind.bind, Except.bind, if_true]
      rw [← h4, ← h3]; rfl

end Mnmf

/-! ## Example -/

theorem lim_run (N : ℕ) : iterM (Iva.auxIp1 id Iva.laplaceD limX) N (limW (limA 0)) = .ok (limW (limA N)) := by
  have key : ∀ N i, iterM (Iva.auxIp1 id Iva.laplaceD limX) N (limW (limA i)) = .ok (limW (limA (i + N))) := by
    intro N
    induction N with
    | zero => intro i; rfl
    | succ N ih =>
      intro i
      rw [iterM, lim_iva i]
      change iterM (Iva.auxIp1 id Iva.laplaceD limX) N (limW (limA (i + 1))) = _
      rw [ih, Nat.add_assoc, Nat.add_comm 1 N]
  simpa using key N 0

/-- The run of `Verif.Props.Limit` with the channels mixed once more by a matrix that is not unitary. -/
example (N : ℕ) :
    ∃ W2, iterM (Iva.auxIp1 id Iva.laplaceD fun f => !![1, 2; 0, 3] * limX f) N
        (fun f => limW (limA 0) f * (!![1, 2; 0, 3])⁻¹) = .ok W2 ∧
      separate (fun f => !![1, 2; 0, 3] * limX f) W2 = separate limX (limW (limA N)) ∧
      Iva.lossIp Iva.laplaceG (fun f => !![1, 2; 0, 3] * limX f) W2
        = Iva.lossIp Iva.laplaceG limX (limW (limA N)) + 2 * Real.log 3 := by
  obtain ⟨W2, h1, h2, h3⟩ := Iva.C71_ip1_outcome (fun _ => !![1, 2; 0, 3])
    (fun _ => by simp [det_fin_two_of]) id Iva.laplaceG Iva.laplaceD limX (limW (limA 0)) _ N (lim_run N)
  exact ⟨W2, h1, h2, by simpa [det_fin_two_of] using h3 (limW_unit (limA_pos N))⟩

end Verif
