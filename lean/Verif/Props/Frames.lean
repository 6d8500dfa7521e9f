import Verif.Lemmas.Frames
import Verif.Model.Cacgmm
import Verif.Model.Grad
import Verif.Props.Level

/-! # C73: only the collection of frames matters, not their order nor how often the recording is repeated

`Cover π m`: the map `π` from the frames of one recording to those of another hits every frame exactly `m` times. The
first recording, whose frame `s` is frame `π s` of the second one, is the second one with its frames in another order
(`m = 1`), played `m` times in a row, or both. `frames π X` is this recording. The separators compute the same filters
and the same spectral parameters for both, and signals and activations that correspond frame by frame. -/

set_option linter.unusedSectionVars false

namespace Verif

open Matrix Spatial Scale Lifecycle

variable {F : Type} [Fintype F] {n t t' K : ℕ} {π : Fin t' → Fin t} {m : ℕ}

/-! ## Scale restoration -/

theorem gramInv_frames (h : Cover π m) (X : Spec F n t) :
    npInvB (fun f => frames π X f * (frames π X f)ᴴ)
      = Except.map (fun N f => (m : ℂ)⁻¹ • N f) (npInvB fun f => X f * (X f)ᴴ) := by
  simp only [gram_frames h]
  exact npInvB_gain (fun _ => (m : ℂ)) (fun _ => h.ne ℂ) _

/-- C73: the end of `__call__` with a filter. -/
theorem C73_finish (h : Cover π m) (sr : ScaleOpt) (r : Fin n) (X : Spec F n t) (W : F → Mat n ℂ) :
    finish sr r (frames π X) W = Except.map (fun p => (frames π p.1, p.2)) (finish sr r X W) := by
  have hpb : applyProjectionBack r (frames π X) W
      = Except.map (fun p => (frames π p.1, p.2)) (applyProjectionBack r X W) := by
    rw [applyProjectionBack, applyProjectionBack, map_bind]
    simp only [separate_frames, Except.map]
  have hmdp : applyMdp r (frames π X) W = Except.map (fun p => (frames π p.1, p.2)) (applyMdp r X W) := by
    rw [applyMdp, applyMdp]
    simp only [separate_frames, mdp_frames h]
    rw [gramInv_frames h, bind_map, map_bind]
    congr 1
    funext N
    simp only [Except.map]
    congr 2
    funext f
    rw [gram_frames h, Matrix.smul_mul, Matrix.mul_smul, smul_smul, mul_inv_cancel₀ (h.ne ℂ), one_smul]
  rw [finish, finish]
  cases hsr : sr.truthy with
  | false =>
    simp only [Bool.false_eq_true, if_false, Bind.bind, Except.bind, Except.map, separate_frames]
  | true =>
    have hres : ∀ (e : Spec F n t × (F → Mat n ℂ) → Spec F n t' × (F → Mat n ℂ)) (x y : Except PyErr _),
        restoreScale sr (Except.map e x) (Except.map e y) = Except.map e (restoreScale sr x y) := by
      intro e x y
      simp only [restoreScale, hsr, Bool.not_true, Bool.false_eq_true, if_false]
      split_ifs <;> rfl
    simp only [if_true, hpb, hmdp, hres]
    cases restoreScale sr (applyProjectionBack r X W) (applyMdp r X W) with
    | error => rfl
    | ok p => simp only [Except.map, Bind.bind, Except.bind, separate_frames]

/-- C73: the end of `__call__` without a filter. -/
theorem C73_finishFree (h : Cover π m) (sr : ScaleOpt) (r : Fin n) (X Y : Spec F n t) :
    finishFree sr r (frames π X) (frames π Y) = Except.map (frames π) (finishFree sr r X Y) := by
  have hpb : projectionBackData r (frames π Y) (frames π X) = Except.map (frames π) (projectionBackData r Y X) := by
    rw [projectionBackData, projectionBackData, projectionBackScale, projectionBackScale, gramInv_frames h, bind_map]
    cases npInvB fun f => Y f * (Y f)ᴴ with
    | error => rfl
    | ok N =>
      simp only [Except.map, Bind.bind, Except.bind]
      congr 1
      funext f
      ext i s
      rw [gram_frames h, Matrix.smul_mul, Matrix.mul_smul, smul_smul, mul_inv_cancel₀ (h.ne ℂ), one_smul]
      rfl
  rw [finishFree, finishFree]
  cases hsr : sr.truthy with
  | false => simp only [Bool.false_eq_true, if_false, Except.map]
  | true =>
    simp only [if_true, hpb, mdp_frames h]
    simp only [restoreScale, hsr, Bool.not_true, Bool.false_eq_true, if_false]
    split_ifs <;> rfl

/-! ## IVA -/

namespace Iva

theorem weight_frames (floor : ℝ → ℝ) (d : Fin n → Fin t → ℝ → ℝ) (Y : Spec F n t) :
    weight floor (fun k s => d k (π s)) (frames π Y) = fun k s => weight floor d Y k (π s) := rfl

theorem wcovs_frames (h : Cover π m) (phi : F → Fin n → Fin t → ℝ) (X : Spec F n t) :
    (fun f => wcov (fun k s => phi f k (π s)) (frames π X) f) = fun f => wcov (phi f) X f := by
  funext f k
  exact wcov_frames h (phi f) X f k

/-- C73 for AuxIVA with IP1: the same filters (`d` may depend on the frame, as for AuxGaussIVA). -/
theorem C73_ip1 (h : Cover π m) (floor : ℝ → ℝ) (d : Fin n → Fin t → ℝ → ℝ) (X : Spec F n t) (W : F → Mat n ℂ)
    (n_iter : ℕ) :
    iterM (auxIp1 floor (fun k s => d k (π s)) (frames π X)) n_iter W = iterM (auxIp1 floor d X) n_iter W := by
  congr 1
  funext W
  rw [auxIp1, auxIp1]
  simp only [separate_frames, weight_frames]
  exact congrArg (fun U => ip1Stack floor U W) (wcovs_frames h (fun _ => weight floor d (separate X W)) X)

/-- C73 for AuxIVA with IP2. -/
theorem C73_ip2 (h : Cover π m) (np : Numpy ℂ) (floor : ℝ → ℝ) (pairs : List (Fin n × Fin n))
    (d : Fin n → Fin t → ℝ → ℝ) (X : Spec F n t) (W : F → Mat n ℂ) (n_iter : ℕ) :
    iterM (auxIp2 np floor pairs (fun k s => d k (π s)) (frames π X)) n_iter W
      = iterM (auxIp2 np floor pairs d X) n_iter W := by
  congr 1
  funext W
  rw [auxIp2, auxIp2]
  congr 1
  funext W p
  rw [auxIp2Pair, auxIp2Pair]
  simp only [separate_frames, weight_frames]
  have := wcovs_frames h (fun _ => weight floor d (separate X W)) X
  congr 1
  funext f
  exact congrArg (fun U => ip2Pair np floor U (W f) p) (congrFun this f)

/-- C73 for AuxIVA with ISS1: the signals correspond frame by frame. -/
theorem C73_iss1 (h : Cover π m) (floor : ℝ → ℝ) (d : Fin n → Fin t → ℝ → ℝ) (Y : Spec F n t) (n_iter : ℕ) :
    (auxIss1 floor fun k s => d k (π s))^[n_iter] (frames π Y) = frames π ((auxIss1 floor d)^[n_iter] Y) := by
  induction n_iter with
  | zero => rfl
  | succ N ih =>
    rw [Function.iterate_succ_apply', Function.iterate_succ_apply', ih]
    exact iss1_frames h floor (fun _ => weight floor d ((auxIss1 floor d)^[N] Y)) _

theorem iss2_frames (h : Cover π m) (np : Numpy ℂ) (floor : ℝ → ℝ) (pairs : List (Fin n × Fin n))
    (phi : F → Fin n → Fin t → ℝ) (Y : Spec F n t) :
    pairs.foldlM (fun Y p => onBins fun f => iss2Pair np floor (fun k s => phi f k (π s)) (Y f) p) (frames π Y)
      = Except.map (frames π) (pairs.foldlM (fun Y p => onBins fun f => iss2Pair np floor (phi f) (Y f) p) Y) := by
  refine foldlM_map _ _ (frames π) (fun Y p => ?_) pairs Y
  rw [show frames π = fun (Y : Spec F n t) f => Matrix.of fun c s => Y f c (π s) from rfl,
    ← onBins_map (e := fun _ (y : Matrix (Fin n) (Fin t) ℂ) => Matrix.of fun c s => y c (π s))]
  congr 1
  funext f
  exact iss2Pair_frames h np floor (phi f) (Y f) p

/-- C73 for AuxIVA with ISS2. -/
theorem C73_iss2 (h : Cover π m) (np : Numpy ℂ) (floor : ℝ → ℝ) (pairs : List (Fin n × Fin n))
    (d : Fin n → Fin t → ℝ → ℝ) (Y : Spec F n t) (n_iter : ℕ) :
    iterM (auxIss2 np floor pairs fun k s => d k (π s)) n_iter (frames π Y)
      = Except.map (frames π) (iterM (auxIss2 np floor pairs d) n_iter Y) :=
  iterM_map _ _ (frames π) (fun Y => iss2_frames h np floor pairs (fun _ => weight floor d Y) Y) n_iter Y

def GaussState.frames (π : Fin t' → Fin t) (s : GaussState F n t) : GaussState F n t' :=
  ⟨s.W, fun k j => s.variance k (π j)⟩

/-- C73 for AuxGaussIVA with IP1: the variances correspond frame by frame. -/
theorem C73_gauss_ip1 (h : Cover π m) (floor : ℝ → ℝ) (X : Spec F n t) (s : GaussState F n t) (n_iter : ℕ) :
    iterM (gaussIp1 floor (Verif.frames π X)) n_iter (s.frames π)
      = Except.map (GaussState.frames π) (iterM (gaussIp1 floor X) n_iter s) := by
  refine iterM_map _ _ (GaussState.frames π) (fun s => ?_) n_iter s
  have := C73_ip1 h floor (gaussD (gaussVariance (separate X s.W))) X s.W 1
  simp only [iterM, Bind.bind, Except.bind] at this
  rw [gaussIp1, gaussIp1, map_bind]
  simp only [GaussState.frames, separate_frames]
  have e : auxIp1 floor (gaussD (gaussVariance (Verif.frames π (separate X s.W)))) (Verif.frames π X) s.W
      = auxIp1 floor (gaussD (gaussVariance (separate X s.W))) X s.W := by
    change auxIp1 floor (fun k j => gaussD (gaussVariance (separate X s.W)) k (π j)) (Verif.frames π X) s.W = _
    cases h1 : auxIp1 floor (fun k j => gaussD (gaussVariance (separate X s.W)) k (π j)) (Verif.frames π X) s.W <;>
      cases h2 : auxIp1 floor (gaussD (gaussVariance (separate X s.W))) X s.W <;> simp_all
  rw [e]
  rfl

/-- C73 for AuxGaussIVA with IP2. -/
theorem C73_gauss_ip2 (h : Cover π m) (np : Numpy ℂ) (floor : ℝ → ℝ) (pairs : List (Fin n × Fin n)) (X : Spec F n t)
    (s : GaussState F n t) (n_iter : ℕ) :
    iterM (gaussIp2 np floor pairs (Verif.frames π X)) n_iter (s.frames π)
      = Except.map (GaussState.frames π) (iterM (gaussIp2 np floor pairs X) n_iter s) := by
  refine iterM_map _ _ (GaussState.frames π) (fun s => ?_) n_iter s
  have := C73_ip2 h np floor pairs (gaussD (gaussVariance (separate X s.W))) X s.W 1
  simp only [iterM, Bind.bind, Except.bind] at this
  rw [gaussIp2, gaussIp2, map_bind]
  simp only [GaussState.frames, separate_frames]
  have e : auxIp2 np floor pairs (gaussD (gaussVariance (Verif.frames π (separate X s.W)))) (Verif.frames π X) s.W
      = auxIp2 np floor pairs (gaussD (gaussVariance (separate X s.W))) X s.W := by
    change auxIp2 np floor pairs (fun k j => gaussD (gaussVariance (separate X s.W)) k (π j)) (Verif.frames π X) s.W = _
    cases h1 : auxIp2 np floor pairs (fun k j => gaussD (gaussVariance (separate X s.W)) k (π j)) (Verif.frames π X) s.W <;>
      cases h2 : auxIp2 np floor pairs (gaussD (gaussVariance (separate X s.W))) X s.W <;> simp_all
  rw [e]
  rfl

/-- C73: the recorded loss is the same. -/
theorem C73_loss (h : Cover π m) (G : Fin n → Fin t → ℝ → ℝ) (X : Spec F n t) (W : F → Mat n ℂ) :
    lossIp (fun k s => G k (π s)) (frames π X) W = lossIp G X W := by
  rw [lossIp, lossIp, separate_frames, ivaLoss, ivaLoss]
  congr 1
  exact Finset.sum_congr rfl fun k _ => h.mean fun s => G k s (binNorm (separate X W) k s)

/-- C73, whole call of AuxLaplaceIVA with IP1: same filter, and the output corresponds frame by frame. -/
theorem C73_laplace_call (h : Cover π m) (floor : ℝ → ℝ) (sr : ScaleOpt) (r : Fin n) (X : Spec F n t)
    (W : F → Mat n ℂ) (n_iter : ℕ) :
    (iterM (auxIp1 floor laplaceD (frames π X)) n_iter W >>= finish sr r (frames π X))
      = Except.map (fun p => (frames π p.1, p.2)) (iterM (auxIp1 floor laplaceD X) n_iter W >>= finish sr r X) := by
  have e := C73_ip1 h floor laplaceD X W n_iter
  change iterM (auxIp1 floor laplaceD (frames π X)) n_iter W = _ at e
  rw [e, map_bind]
  congr 1
  funext W
  exact C73_finish h sr r X W

end Iva

/-! ## FDICA -/

namespace Fdica

/-- C73 for AuxFDICA with IP1. -/
theorem C73_ip1 (h : Cover π m) (floor d : ℝ → ℝ) (X : Spec F n t) (W : F → Mat n ℂ) (n_iter : ℕ) :
    iterM (auxIp1 floor d (frames π X)) n_iter W = iterM (auxIp1 floor d X) n_iter W := by
  congr 1
  funext W
  rw [auxIp1, auxIp1]
  simp only [separate_frames]
  exact congrArg (fun U => Iva.ip1Stack floor U W)
    (Iva.wcovs_frames h (fun f => weight floor d (separate X W f)) X)

/-- C73 for AuxFDICA with IP2. -/
theorem C73_ip2 (h : Cover π m) (np : Numpy ℂ) (floor d : ℝ → ℝ) (pairs : List (Fin n × Fin n)) (X : Spec F n t)
    (W : F → Mat n ℂ) (n_iter : ℕ) :
    iterM (auxIp2 np floor d pairs (frames π X)) n_iter W = iterM (auxIp2 np floor d pairs X) n_iter W := by
  congr 1
  funext W
  rw [auxIp2, auxIp2]
  congr 1
  funext W p
  rw [auxIp2Pair, auxIp2Pair]
  simp only [separate_frames]
  have := Iva.wcovs_frames h (fun f => weight floor d (separate X W f)) X
  congr 1
  funext f
  exact congrArg (fun U => ip2Pair np floor U (W f) p) (congrFun this f)

end Fdica

/-! ## Gradient methods -/

namespace Grad

/-- C73 for the natural gradient, for any pair of score functions that correspond frame by frame. -/
theorem C73_natural (h : Cover π m) (step_size : ℝ) (holonomic : Bool) (score : Data ℂ F n t → Data ℂ F n t)
    (score' : Data ℂ F n t' → Data ℂ F n t') (hs : ∀ Y, score' (frames π Y) = frames π (score Y)) (X : Data ℂ F n t)
    (W : F → Mat n ℂ) (n_iter : ℕ) :
    naturalRun step_size holonomic score' (frames π X) n_iter W = naturalRun step_size holonomic score X n_iter W := by
  rw [naturalRun, naturalRun]
  congr 1
  funext W f
  have e : ∀ f, phiY score' (frames π (sep X W)) f = phiY score (sep X W) f := by
    intro f
    ext i j
    simp only [phiY, Matrix.of_apply, hs]
    exact h.mean fun s => score (sep X W) f i s * star (sep X W f j s)
  have e2 : sep (frames π X) W = frames π (sep X W) := separate_frames X W
  simp only [naturalStep, e2, e]

/-- C73 for NaturalGradLaplaceIVA. -/
theorem C73_laplace_iva (h : Cover π m) (floor : ℝ → ℝ) (step_size : ℝ) (holonomic : Bool) (X : Data ℂ F n t)
    (W : F → Mat n ℂ) (n_iter : ℕ) :
    naturalRun step_size holonomic (ivaLaplaceScore floor) (frames π X) n_iter W
      = naturalRun step_size holonomic (ivaLaplaceScore floor) X n_iter W :=
  C73_natural h step_size holonomic _ _ (fun _ => rfl) X W n_iter

/-- C73 for NaturalGradLaplaceFDICA. -/
theorem C73_laplace_fdica (h : Cover π m) (floor : ℝ → ℝ) (step_size : ℝ) (holonomic : Bool) (X : Data ℂ F n t)
    (W : F → Mat n ℂ) (n_iter : ℕ) :
    naturalRun step_size holonomic (fdicaLaplaceScore floor) (frames π X) n_iter W
      = naturalRun step_size holonomic (fdicaLaplaceScore floor) X n_iter W :=
  C73_natural h step_size holonomic _ _ (fun _ => rfl) X W n_iter

end Grad

/-! ## ILRMA -/

namespace Ilrma

/-- The activations that correspond frame by frame. -/
def St.frames (π : Fin t' → Fin t) (s : St F n t K) : St F n t' K := ⟨s.W, s.T, fun k b j => s.V k b (π j)⟩

def StP.frames (π : Fin t' → Fin t) (s : StP F n t K) : StP F n t' K := ⟨s.W, s.Z, s.T, fun b j => s.V b (π j)⟩

def StY.frames (π : Fin t' → Fin t) (s : StY F n t K) : StY F n t' K :=
  ⟨Verif.frames π s.Y, s.T, fun k b j => s.V k b (π j)⟩

theorem updateBasis_frames (h : Cover π m) (src : Source) (floor : ℝ → ℝ) (Y : Spec F n t)
    (T : Fin n → F → Fin K → ℝ) (V : Fin n → Fin K → Fin t → ℝ) :
    updateBasis src floor (frames π Y) T (fun k b j => V k b (π j)) = updateBasis src floor Y T V := by
  funext k f b
  have := h.ratio (fun s => V k b s * src.num ‖Y f k s‖ (recon T V k f s)) (fun s => V k b s / recon T V k f s)
  rw [updateBasis, updateBasis, basisRaw, basisRaw]
  rw [← this]
  rfl

theorem psi_frames (h : Cover π m) (floor : ℝ → ℝ) (Y : Spec F n t) : psi floor (frames π Y) = psi floor Y := by
  funext k
  have e : ∀ f, (∑ s, ‖frames π Y f k s‖ ^ 2) = m • ∑ s, ‖Y f k s‖ ^ 2 := fun f => h.sum fun s => ‖Y f k s‖ ^ 2
  have hm := h.ne ℝ
  simp only [psi, e, nsmul_eq_mul]
  rw [← Finset.mul_sum, h.card, Nat.cast_mul, mul_left_comm, mul_div_mul_left _ _ hm]

theorem spatialFilter_frames (h : Cover π m) (np : Numpy ℂ) (alg : FilterAlg n) (floor : ℝ → ℝ)
    (phi : F → Fin n → Fin t → ℝ) (X : Spec F n t) (W : F → Mat n ℂ) :
    spatialFilter np alg floor (fun f k s => phi f k (π s)) (frames π X) W = spatialFilter np alg floor phi X W := by
  have := Iva.wcovs_frames h phi X
  cases alg with
  | ip1 => exact congrArg (fun U => Iva.ip1Stack floor U W) this
  | ip2 pairs =>
    simp only [spatialFilter]
    congr 1
    funext W p
    congr 1
    funext f
    exact congrArg (fun U => ip2Pair np floor U (W f) p) (congrFun this f)

/-- C73 for ILRMA (Gauss, t, GGD; MM or ME) with IP1 or IP2 and any normalisation: same filters, same bases, and
activations that correspond frame by frame. -/
theorem C73_ilrma (h : Cover π m) (np : Numpy ℂ) (src : Source) (p : ℝ) (alg : FilterAlg n) (norm : Norm n)
    (floor : ℝ → ℝ) (X : Spec F n t) (s : St F n t K) (n_iter : ℕ) :
    iterM (updateOnce np src p alg norm floor (frames π X)) n_iter (s.frames π)
      = Except.map (St.frames π) (iterM (updateOnce np src p alg norm floor X) n_iter s) := by
  refine iterM_map _ _ (St.frames π) (fun s => ?_) n_iter s
  rw [updateOnce, updateOnce, updateSpatial, updateSpatial]
  have e1 : updateSource src floor (frames π X) (s.frames π) = (updateSource src floor X s).frames π := by
    simp only [updateSource, St.frames, separate_frames, updateBasis_frames h]
    rfl
  rw [e1]
  obtain ⟨u, hu⟩ : ∃ u, u = updateSource src floor X s := ⟨_, rfl⟩
  rw [← hu]
  have e2 : spatialFilter np alg floor (varphi src floor (separate (frames π X) (u.frames π).W)
        (recon (u.frames π).T (u.frames π).V)) (frames π X) (u.frames π).W
      = spatialFilter np alg floor (varphi src floor (separate X u.W) (recon u.T u.V)) X u.W := by
    rw [separate_frames]
    exact spatialFilter_frames h np alg floor (varphi src floor (separate X u.W) (recon u.T u.V)) X u.W
  rw [e2]
  cases spatialFilter np alg floor (varphi src floor (separate X u.W) (recon u.T u.V)) X u.W with
  | error => rfl
  | ok W =>
    simp only [Bind.bind, Except.bind]
    cases norm with
    | off => rfl
    | power =>
      simp only [normalize, separate_frames, psi_frames h]
      rfl
    | projectionBack r =>
      simp only [normalize]
      cases npInvB W <;> rfl

/-- C73 for ILRMA with ISS1 or ISS2. -/
theorem C73_ilrma_iss (h : Cover π m) (np : Numpy ℂ) (src : Source) (p : ℝ) (alg : SignalAlg n) (norm : Norm n)
    (floor : ℝ → ℝ) (X : Spec F n t) (s : StY F n t K) (n_iter : ℕ) :
    iterM (updateOnceY np src p alg norm floor (frames π X)) n_iter (s.frames π)
      = Except.map (StY.frames π) (iterM (updateOnceY np src p alg norm floor X) n_iter s) := by
  refine iterM_map _ _ (StY.frames π) (fun s => ?_) n_iter s
  rw [updateOnceY, updateOnceY, updateSpatialY, updateSpatialY]
  have e1 : updateSourceY src floor (s.frames π) = (updateSourceY src floor s).frames π := by
    simp only [updateSourceY, StY.frames, updateBasis_frames h]
    rfl
  rw [e1]
  obtain ⟨u, hu⟩ : ∃ u, u = updateSourceY src floor s := ⟨_, rfl⟩
  rw [← hu]
  have e2 : spatialSignal np alg floor (varphi src floor (u.frames π).Y (recon (u.frames π).T (u.frames π).V))
        (u.frames π).Y
      = Except.map (Verif.frames π) (spatialSignal np alg floor (varphi src floor u.Y (recon u.T u.V)) u.Y) := by
    cases alg with
    | iss1 => exact congrArg Except.ok (iss1_frames h floor (varphi src floor u.Y (recon u.T u.V)) u.Y)
    | iss2 pairs => exact Iva.iss2_frames h np floor pairs (varphi src floor u.Y (recon u.T u.V)) u.Y
  rw [e2]
  cases spatialSignal np alg floor (varphi src floor u.Y (recon u.T u.V)) u.Y with
  | error => rfl
  | ok Y =>
    simp only [Bind.bind, Except.bind, Except.map]
    cases norm with
    | off => rfl
    | power =>
      simp only [normalizeY, psi_frames h]
      rfl
    | projectionBack r =>
      simp only [normalizeY]
      rw [gramInv_frames h]
      cases npInvB fun f => Y f * (Y f)ᴴ with
      | error => rfl
      | ok N =>
        have e3 : ∀ f, frames π X f * (frames π Y f)ᴴ * ((m : ℂ)⁻¹ • N f) = X f * (Y f)ᴴ * N f := fun f => by
          rw [gram_frames h, Matrix.smul_mul, Matrix.mul_smul, smul_smul, mul_inv_cancel₀ (h.ne ℂ), one_smul]
        simp only [Except.map, Bind.bind, Except.bind, e3]
        rfl

theorem sum_ratio (h : Cover π m) {ι : Type} [Fintype ι] (g d : ι → Fin t → ℝ) :
    (∑ i, ∑ s, g i (π s)) / (∑ i, ∑ s, d i (π s)) = (∑ i, ∑ s, g i s) / ∑ i, ∑ s, d i s := by
  simp only [h.sum, nsmul_eq_mul]
  rw [← Finset.mul_sum, ← Finset.mul_sum, mul_div_mul_left _ _ (h.ne ℝ)]

/-- C73 for ILRMA with partitioning, IP1 or IP2. -/
theorem C73_ilrma_partitioned (h : Cover π m) (np : Numpy ℂ) (src : Source) (p : ℝ) (alg : FilterAlg n)
    (norm : Norm n) (floor : ℝ → ℝ) (X : Spec F n t) (s : StP F n t K) (n_iter : ℕ) :
    iterM (updateOnceP np src p alg norm floor (frames π X)) n_iter (s.frames π)
      = Except.map (StP.frames π) (iterM (updateOnceP np src p alg norm floor X) n_iter s) := by
  refine iterM_map _ _ (StP.frames π) (fun s => ?_) n_iter s
  rw [updateOnceP, updateOnceP, updateSpatialP, updateSpatialP]
  have hl : ∀ (Y : Spec F n t) Z T (V : Fin K → Fin t → ℝ), updateLatent src (frames π Y) Z T (fun b j => V b (π j))
      = updateLatent src Y Z T V := by
    intro Y Z T V
    have : ∀ k b, latentRaw src (frames π Y) Z T (fun b j => V b (π j)) k b = latentRaw src Y Z T V k b := by
      intro k b
      have := sum_ratio h (fun (f : F) s => T f b * V b s * src.num ‖Y f k s‖ (reconP Z T V k f s))
        (fun f s => T f b * V b s / reconP Z T V k f s)
      rw [latentRaw, latentRaw]
      rw [← this]
      rfl
    funext k b
    simp only [updateLatent, this]
  have hb : ∀ (Y : Spec F n t) Z T (V : Fin K → Fin t → ℝ),
      updateBasisP src floor (frames π Y) Z T (fun b j => V b (π j)) = updateBasisP src floor Y Z T V := by
    intro Y Z T V
    funext f b
    have := sum_ratio h (fun (k : Fin n) s => Z k b * V b s * src.num ‖Y f k s‖ (reconP Z T V k f s))
      (fun k s => Z k b * V b s / reconP Z T V k f s)
    rw [updateBasisP, updateBasisP, basisRawP, basisRawP]
    rw [← this]
    rfl
  have e1 : updateSourceP src floor (frames π X) (s.frames π) = (updateSourceP src floor X s).frames π := by
    simp only [updateSourceP, StP.frames, separate_frames, hl, hb]
    rfl
  rw [e1]
  obtain ⟨u, hu⟩ : ∃ u, u = updateSourceP src floor X s := ⟨_, rfl⟩
  rw [← hu]
  have e2 : spatialFilter np alg floor (varphi src floor (separate (frames π X) (u.frames π).W)
        (reconP (u.frames π).Z (u.frames π).T (u.frames π).V)) (frames π X) (u.frames π).W
      = spatialFilter np alg floor (varphi src floor (separate X u.W) (reconP u.Z u.T u.V)) X u.W := by
    rw [separate_frames]
    exact spatialFilter_frames h np alg floor (varphi src floor (separate X u.W) (reconP u.Z u.T u.V)) X u.W
  rw [e2]
  cases spatialFilter np alg floor (varphi src floor (separate X u.W) (reconP u.Z u.T u.V)) X u.W with
  | error => rfl
  | ok W =>
    simp only [Bind.bind, Except.bind]
    cases norm with
    | off => rfl
    | power =>
      simp only [normalizeP, separate_frames, psi_frames h]
      rfl
    | projectionBack r => rfl

/-- C73: the recorded loss of ILRMA is the same. -/
theorem C73_ilrma_loss (h : Cover π m) (src : Source) (X : Spec F n t) (s : St F n t K) :
    loss src (frames π X) (s.frames π) = loss src X s := by
  rw [loss, loss, lossOf, lossOf]
  refine Finset.sum_congr rfl fun f _ => ?_
  congr 1
  refine Finset.sum_congr rfl fun k _ => ?_
  have := h.mean fun j => src.ell ‖separate X s.W f k j‖ (recon s.T s.V k f j)
  rw [← this, separate_frames]
  rfl

end Ilrma

/-! ## FastGaussMNMF -/

namespace Mnmf

open Ilrma (FilterAlg spatialFilter_frames)

variable {c : ℕ}

def FSt.frames (π : Fin t' → Fin t) (s : FSt F n c t K) : FSt F n c t' K :=
  ⟨s.Q, s.T, fun k b j => s.V k b (π j), s.D⟩

/-- C73 for FastGaussMNMF. -/
theorem C73_fast (h : Cover π m) (np : Numpy ℂ) (alg : FilterAlg c) (normalization : Bool) (floor : ℝ → ℝ)
    (X : Spec F c t) (s : FSt F n c t K) (n_iter : ℕ) :
    iterM (fastUpdateOnce np alg normalization floor (Verif.frames π X)) n_iter (s.frames π)
      = Except.map (FSt.frames π) (iterM (fastUpdateOnce np alg normalization floor X) n_iter s) := by
  refine iterM_map _ _ (FSt.frames π) (fun s => ?_) n_iter s
  have h1 : ∀ s : FSt F n c t K, fastUpdateBasis floor (Verif.frames π X) (s.frames π)
      = (fastUpdateBasis floor X s).frames π := fun s => by
    have : ∀ k f b, fastBasisRaw (Verif.frames π X) (s.frames π) k f b = fastBasisRaw X s k f b := by
      intro k f b
      have := h.ratio (fun j => s.V k b j * ∑ c, s.D f k c * (‖separate X s.Q f c j‖ / lambD s f c j) ^ 2)
        (fun j => s.V k b j * ∑ c, s.D f k c / lambD s f c j)
      rw [fastBasisRaw, fastBasisRaw]
      rw [← this, show (s.frames π).Q = s.Q from rfl, separate_frames]
      rfl
    simp only [fastUpdateBasis, this]
    rfl
  have h2 : ∀ s : FSt F n c t K, fastUpdateActivation floor (Verif.frames π X) (s.frames π)
      = (fastUpdateActivation floor X s).frames π := fun s => by
    have : ∀ k b j, fastActivationRaw (Verif.frames π X) (s.frames π) k b j = fastActivationRaw X s k b (π j) := by
      intro k b j
      rw [fastActivationRaw, fastActivationRaw]
      rw [show (s.frames π).Q = s.Q from rfl, separate_frames]
      rfl
    simp only [fastUpdateActivation, this]
    rfl
  have h3 : ∀ s : FSt F n c t K, fastUpdateSpatial (Verif.frames π X) (s.frames π)
      = (fastUpdateSpatial X s).frames π := fun s => by
    rw [fastUpdateSpatial, fastUpdateSpatial, FSt.frames]
    simp only
    congr 1
    funext f k a
    have := h.ratio (fun j => Ilrma.recon s.T s.V k f j / lambD s f a j ^ 2 * ‖separate X s.Q f a j‖ ^ 2)
      (fun j => Ilrma.recon s.T s.V k f j / lambD s f a j)
    refine Eq.trans ?_ (congrArg (fun x => √x * s.D f k a) this)
    rw [separate_frames]
    rfl
  have h4 : ∀ s : FSt F n c t K, fastNormalize floor (Verif.frames π X) (s.frames π)
      = (fastNormalize floor X s).frames π := fun s => by
    have e : fastPsi floor (Verif.frames π X) (s.frames π) = fastPsi floor X s := by
      funext a
      have := congrFun (Ilrma.psi_frames h floor (separate X s.Q)) a
      rw [Ilrma.psi, Ilrma.psi, ← separate_frames] at this
      exact this
    rw [fastNormalize, fastNormalize, e]
    rfl
  simp only [fastUpdateOnce, h1, h2]
  generalize fastUpdateActivation floor X (fastUpdateBasis floor X s) = s
  simp only [fastUpdateDiagonalizer]
  have e := spatialFilter_frames h np alg floor (fun f a j => 1 / lambD s f a j) X s.Q
  change (Ilrma.spatialFilter np alg floor (fun f a j => 1 / lambD s f a (π j)) (Verif.frames π X) s.Q >>= _) >>= _ = _
  rw [e]
  cases Ilrma.spatialFilter np alg floor (fun f a j => 1 / lambD s f a j) X s.Q with
  | error => rfl
  | ok Q =>
    cases normalization
    · simp only [Except.map, Bind.bind, Except.bind, Bool.false_eq_true, if_false]
      rw [← h3]; rfl
    · simp only [Except.map, Bind.bind, Except.bind, if_true]
      rw [← h4, ← h3]; rfl

end Mnmf

/-! ## cACGMM -/

namespace Cacgmm

variable {c : ℕ}

/-- The normalised inputs correspond frame by frame. -/
theorem unitInput_frames (floor : ℝ → ℝ) (X : Spec F c t) :
    unitInput floor (frames π X) = fun f j => unitInput floor X f (π j) := rfl

/-- C73: the posteriors correspond frame by frame. -/
theorem C73_posterior (floor : ℝ → ℝ) (X : Spec F c t) (s : CSt F n c) :
    updatePosterior floor (unitInput floor (frames π X)) s
      = Except.map (fun g k f j => g k f (π j)) (updatePosterior floor (unitInput floor X) s) := by
  rw [updatePosterior, updatePosterior, map_bind]
  rfl

/-- C73: the mixture parameters are the same after every number of EM iterations. -/
theorem C73_iterate (h : Cover π m) (np : Numpy ℂ) (normalization : Bool) (floor : ℝ → ℝ) (X : Spec F c t)
    (n_iter : ℕ) (s : CSt F n c) :
    iterate np normalization floor (unitInput floor (frames π X)) n_iter s
      = iterate np normalization floor (unitInput floor X) n_iter s := by
  have hraw : ∀ (Z : F → Fin t → Fin c → ℂ) (q g : Fin (n + 1) → F → Fin t → ℝ) k f,
      rawCovariance (fun f j => Z f (π j)) (fun k f j => q k f (π j)) (fun k f j => g k f (π j)) k f
        = rawCovariance Z q g k f := by
    intro Z q g k f
    have hm := h.ne ℂ
    rw [rawCovariance, rawCovariance, h.sum fun j => g k f j,
      h.sum fun j => (((g k f j / q k f j : ℝ) : ℂ) • Matrix.of fun a b => Z f j a * star (Z f j b)),
      nsmul_eq_mul, Complex.ofReal_mul, Complex.ofReal_natCast, ← Nat.cast_smul_eq_nsmul ℂ, mul_inv]
    congr 1
    rw [smul_smul, mul_right_comm, inv_mul_cancel₀ hm, one_mul]
  have hpar : ∀ (g : Posterior F n t) (s : CSt F n c),
      updateParameters np floor (unitInput floor (frames π X)) (fun k f j => g k f (π j)) s
        = updateParameters np floor (unitInput floor X) g s := by
    intro g s
    rw [updateParameters, updateParameters]
    congr 1
    funext B
    simp only
    congr 2
    · funext k f
      exact h.mean fun j => g k f j
    · funext k f
      exact congrArg (Mnmf.toPsd np floor) (hraw (unitInput floor X) (quadForm floor (unitInput floor X) B) g k f)
  induction n_iter generalizing s with
  | zero => rfl
  | succ N ih =>
    simp only [iterate, updateOnce]
    rw [C73_posterior]
    cases updatePosterior floor (unitInput floor X) s with
    | error => rfl
    | ok g =>
      simp only [Except.map, Bind.bind, Except.bind]
      rw [hpar]
      cases updateParameters np floor (unitInput floor X) g s with
      | error => rfl
      | ok s' => exact ih _

/-- C73: the recorded loss is the same. -/
theorem C73_loss (h : Cover π m) (floor : ℝ → ℝ) (X : Spec F c t) (s : CSt F n c) :
    loss floor (unitInput floor (frames π X)) s = loss floor (unitInput floor X) s := by
  rw [loss, loss]
  congr 1
  funext B
  simp only
  congr 1
  exact Finset.sum_congr rfl fun f _ =>
    h.mean fun j => -Special.logsumexp (logGamma s (quadForm floor (unitInput floor X) B) f j)

end Cacgmm

/-- Non-vacuity of C73: the recording of C70, whose two frames are `(1, 1)` and `(1, -1)`, played three times. Every run
ends without an exception and returns the same filter. -/
example (N : ℕ) :
    (iterM (Iva.auxIp1 id Iva.laplaceD (frames (fun s : Fin (3 * 2) => s.modNat) limX)) N (limW (limA 0))
      >>= finish (.bool true) 0 (frames (fun s : Fin (3 * 2) => s.modNat) limX))
    = .ok (fun _ => !![1, 1, 1, 1, 1, 1; 0, 0, 0, 0, 0, 0], fun _ => !![1, 0; 0, 0]) := by
  rw [Iva.C73_laplace_call (Cover.repeat 3 (by norm_num)) id (.bool true) 0 limX, lim_run]
  change Except.map _ (finish (.bool true) 0 limX (limW (limA N))) = _
  rw [lim_finish]
  simp only [Except.map]
  congr 2
  funext f
  ext k j
  fin_cases k <;> fin_cases j <;> rfl

/-- The frames swapped. -/
example (N : ℕ) :
    iterM (Iva.auxIp1 id Iva.laplaceD fun _ => !![1, 1; -1, 1]) N (limW (limA 0)) = .ok (limW (limA N)) := by
  have e : (fun _ => !![1, 1; -1, 1] : Spec Unit 2 2) = frames (Equiv.swap 0 1) limX := by
    funext f
    ext k j
    fin_cases k <;> fin_cases j <;> simp [frames, limX]
  rw [e, ← lim_run]
  exact Iva.C73_ip1 (Cover.perm (Equiv.swap 0 1)) id Iva.laplaceD limX (limW (limA 0)) N

end Verif
