import Verif.Props.Frames
import Verif.Props.FramesFull
import Verif.Model.Fast
import Verif.Model.Ipa

/-!
C73 for the separators that update the signals in place of a demixing filter: AuxGaussIVA with iterative source steering,
IPA in AuxIVA, AuxGaussIVA and ILRMA, partitioned ILRMA; for the gradient methods without natural gradient; for FastIVA and
FasterIVA; and for the losses of all of these.
-/

set_option linter.unusedSectionVars false

namespace Verif

open Matrix Spatial Scale Lifecycle

variable {F : Type} [Fintype F] {n t t' K : ℕ} {π : Fin t' → Fin t} {m : ℕ}

/-! ## IPA -/

namespace Spatial

theorem ipaCov_frames (h : Cover π m) (np : Numpy ℂ) (floor : ℝ → ℝ) (phi : Fin n → Fin t → ℝ) (Y : Spec F n t) (f : F) :
    ipaCov np floor (fun k s => phi k (π s)) (frames π Y f) = ipaCov np floor phi (Y f) := by
  funext k
  refine congrArg (Special.toPsdCore np floor) ?_
  ext i j
  exact h.mean fun s => (phi k s : ℂ) * (Y f i s * star (Y f j s))

theorem ipaApply_frames (floor : ℝ → ℝ) (U : Fin (n + 2) → Mat (n + 2) ℂ) (idx : Fin (n + 2)) (q : Fin (n + 1) → ℂ)
    (Y : Matrix (Fin (n + 2)) (Fin t) ℂ) :
    ipaApply floor U idx q (Matrix.of fun c s => Y c (π s))
      = Except.map (fun Y => Matrix.of fun c s => Y c (π s)) (ipaApply floor U idx q Y) := by
  rw [ipaApply, ipaApply, map_bind]
  rfl

theorem ipa_frames (h : Cover π m) (np : Numpy ℂ) (floor : ℝ → ℝ) (normalization : Bool) (max_iter : ℕ)
    (phi : F → Fin (n + 2) → Fin t → ℝ) (Y : Spec F (n + 2) t) :
    ipa np floor normalization max_iter (fun f k s => phi f k (π s)) (frames π Y)
      = Except.map (frames π) (ipa np floor normalization max_iter phi Y) := by
  refine foldlM_map _ _ (frames π) (fun Y idx => ?_) _ Y
  rw [ipaStep, ipaStep]
  simp only [ipaCov_frames h]
  rw [map_bind]
  congr 1
  funext p
  rw [map_bind]
  congr 1
  funext q
  rw [show frames π = fun (Y : Spec F (n + 2) t) f => Matrix.of fun c s => Y f c (π s) from rfl,
    ← onBins_map (e := fun _ (y : Matrix (Fin (n + 2)) (Fin t) ℂ) => Matrix.of fun c s => y c (π s))]
  congr 1
  funext f
  exact ipaApply_frames floor _ idx (q.1 f) (Y f)

end Spatial

/-- The filter that takes one signal to another is the same. -/
theorem filterOf_frames (h : Cover π m) (X Y : Spec F n t) : Ilrma.filterOf (frames π X) (frames π Y) = Ilrma.filterOf X Y := by
  rw [Ilrma.filterOf, Ilrma.filterOf, gramInv_frames h, bind_map]
  congr 1
  funext N
  congr 1
  funext f
  rw [gram_frames h, Matrix.smul_mul, Matrix.mul_smul, smul_smul, mul_inv_cancel₀ (h.ne ℂ), one_smul]

/-! ## IVA -/

namespace Iva

/-- C73 for AuxIVA with IPA. -/
theorem C73_ipa (h : Cover π m) (np : Numpy ℂ) (floor : ℝ → ℝ) (normalization : Bool) (newton_iter : ℕ)
    (d : Fin (n + 2) → Fin t → ℝ → ℝ) (Y : Spec F (n + 2) t) (n_iter : ℕ) :
    iterM (auxIpa np floor normalization newton_iter fun k s => d k (π s)) n_iter (frames π Y)
      = Except.map (frames π) (iterM (auxIpa np floor normalization newton_iter d) n_iter Y) :=
  iterM_map _ _ (frames π) (fun Y => ipa_frames h np floor normalization newton_iter (fun _ => weight floor d Y) Y) n_iter Y

def GaussSignal.frames (π : Fin t' → Fin t) (s : GaussSignal F n t) : GaussSignal F n t' :=
  ⟨Verif.frames π s.Y, fun k j => s.variance k (π j)⟩

/-- C73 for AuxGaussIVA with ISS1. -/
theorem C73_gauss_iss1 (h : Cover π m) (floor : ℝ → ℝ) (s : GaussSignal F n t) (n_iter : ℕ) :
    iterM (gaussIss1 floor) n_iter (s.frames π) = Except.map (GaussSignal.frames π) (iterM (gaussIss1 floor) n_iter s) := by
  refine iterM_map _ _ (GaussSignal.frames π) (fun s => ?_) n_iter s
  have e := C73_iss1 h floor (gaussD (gaussVariance s.Y)) s.Y 1
  exact congrArg (fun Y => Except.ok (GaussSignal.mk Y fun k j => gaussVariance s.Y k (π j))) e

/-- C73 for AuxGaussIVA with ISS2. -/
theorem C73_gauss_iss2 (h : Cover π m) (np : Numpy ℂ) (floor : ℝ → ℝ) (pairs : List (Fin n × Fin n)) (s : GaussSignal F n t)
    (n_iter : ℕ) :
    iterM (gaussIss2 np floor pairs) n_iter (s.frames π)
      = Except.map (GaussSignal.frames π) (iterM (gaussIss2 np floor pairs) n_iter s) := by
  refine iterM_map _ _ (GaussSignal.frames π) (fun s => ?_) n_iter s
  have e : auxIss2 np floor pairs (gaussD (gaussVariance (Verif.frames π s.Y))) (Verif.frames π s.Y)
      = Except.map (Verif.frames π) (auxIss2 np floor pairs (gaussD (gaussVariance s.Y)) s.Y) :=
    iss2_frames h np floor pairs (fun _ => weight floor (gaussD (gaussVariance s.Y)) s.Y) s.Y
  rw [gaussIss2, gaussIss2, show (s.frames π).Y = Verif.frames π s.Y from rfl, e, bind_map, map_bind]
  rfl

/-- C73 for AuxGaussIVA with IPA. -/
theorem C73_gauss_ipa (h : Cover π m) (np : Numpy ℂ) (floor : ℝ → ℝ) (normalization : Bool) (newton_iter : ℕ)
    (s : GaussSignal F (n + 2) t) (n_iter : ℕ) :
    iterM (gaussIpa np floor normalization newton_iter) n_iter (s.frames π)
      = Except.map (GaussSignal.frames π) (iterM (gaussIpa np floor normalization newton_iter) n_iter s) := by
  refine iterM_map _ _ (GaussSignal.frames π) (fun s => ?_) n_iter s
  have e : auxIpa np floor normalization newton_iter (gaussD (gaussVariance (Verif.frames π s.Y))) (Verif.frames π s.Y)
      = Except.map (Verif.frames π) (auxIpa np floor normalization newton_iter (gaussD (gaussVariance s.Y)) s.Y) :=
    ipa_frames h np floor normalization newton_iter (fun _ => weight floor (gaussD (gaussVariance s.Y)) s.Y) s.Y
  rw [gaussIpa, gaussIpa, show (s.frames π).Y = Verif.frames π s.Y from rfl, e, bind_map, map_bind]
  rfl

/-- C73: the losses of the variants without a filter, and of AuxGaussIVA. -/
theorem C73_loss_free (h : Cover π m) (G : Fin n → Fin t → ℝ → ℝ) (X Y : Spec F n t) (s : GaussSignal F n t)
    (w : GaussState F n t) :
    lossFree (fun k s => G k (π s)) (frames π X) (frames π Y) = lossFree G X Y ∧
    gaussLossFree (frames π X) (s.frames π) = gaussLossFree X s ∧ gaussLoss (frames π X) (w.frames π) = gaussLoss X w := by
  have key : ∀ (G : Fin n → Fin t → ℝ → ℝ) (Y : Spec F n t),
      lossFree (fun k s => G k (π s)) (frames π X) (frames π Y) = lossFree G X Y := by
    intro G Y
    have e1 : ∀ (G : Fin n → Fin t → ℝ → ℝ) (Y : Spec F n t), lossFree G X Y = Ilrma.filterOf X Y >>= fun W => .ok (ivaLoss G Y W) := by
      intro G Y
      rw [lossFree, Ilrma.filterOf]
      cases npInvB fun f => X f * (X f)ᴴ <;> rfl
    have e2 : lossFree (fun k s => G k (π s)) (frames π X) (frames π Y) = Ilrma.filterOf (frames π X) (frames π Y) >>=
        fun W => .ok (ivaLoss (fun k s => G k (π s)) (frames π Y) W) := by
      rw [lossFree, Ilrma.filterOf]
      cases npInvB fun f => frames π X f * (frames π X f)ᴴ <;> rfl
    rw [e1, e2, filterOf_frames h]
    congr 1
    funext W
    rw [ivaLoss, ivaLoss]
    congr 2
    exact Finset.sum_congr rfl fun k _ => h.mean fun s => G k s (binNorm Y k s)
  exact ⟨key G Y, key (gaussG F s.variance) s.Y, C73_loss h (gaussG F w.variance) X w.W⟩

end Iva

/-- C73: the loss of AuxFDICA. -/
theorem Fdica.C73_loss (h : Cover π m) (G : ℝ → ℝ) (X : Spec F n t) (W : F → Mat n ℂ) :
    Fdica.loss G (frames π X) W = Fdica.loss G X W := by
  rw [Fdica.loss, Fdica.loss, separate_frames]
  refine Finset.sum_congr rfl fun f _ => ?_
  congr 1
  exact Finset.sum_congr rfl fun k _ => h.mean fun s => G ‖separate X W f k s‖

/-! ## Gradient methods -/

namespace Grad

theorem phiY_frames (h : Cover π m) (score : Data ℂ F n t → Data ℂ F n t) (score' : Data ℂ F n t' → Data ℂ F n t')
    (hs : ∀ Y, score' (frames π Y) = frames π (score Y)) (Y : Data ℂ F n t) (f : F) :
    phiY score' (frames π Y) f = phiY score Y f := by
  ext i j
  simp only [phiY, Matrix.of_apply, hs]
  exact h.mean fun s => score Y f i s * star (Y f j s)

theorem gradStep_frames (h : Cover π m) (step_size : ℝ) (holonomic : Bool) (score : Data ℂ F n t → Data ℂ F n t)
    (score' : Data ℂ F n t' → Data ℂ F n t') (hs : ∀ Y, score' (frames π Y) = frames π (score Y)) (X : Data ℂ F n t)
    (W : F → Mat n ℂ) :
    gradStep step_size holonomic score' (frames π X) W = gradStep step_size holonomic score X W := by
  have e2 : sep (frames π X) W = frames π (sep X W) := separate_frames X W
  simp only [gradStep, e2, phiY_frames h score score' hs]

/-- C73 for gradient descent (GradIVA, GradFDICA) with a score function that works frame by frame. -/
theorem C73_gradient (h : Cover π m) (step_size : ℝ) (holonomic : Bool) (score : Data ℂ F n t → Data ℂ F n t)
    (score' : Data ℂ F n t' → Data ℂ F n t') (hs : ∀ Y, score' (frames π Y) = frames π (score Y)) (X : Data ℂ F n t)
    (W : F → Mat n ℂ) (n_iter : ℕ) :
    iterM (gradStep step_size holonomic score' (frames π X)) n_iter W = iterM (gradStep step_size holonomic score X) n_iter W := by
  congr 1
  funext W
  exact gradStep_frames h step_size holonomic score score' hs X W

/-- C73 for GradLaplaceIVA and GradLaplaceFDICA. -/
theorem C73_gradient_laplace (h : Cover π m) (floor : ℝ → ℝ) (step_size : ℝ) (holonomic : Bool) (X : Data ℂ F n t)
    (W : F → Mat n ℂ) (n_iter : ℕ) :
    iterM (gradStep step_size holonomic (ivaLaplaceScore floor) (frames π X)) n_iter W
      = iterM (gradStep step_size holonomic (ivaLaplaceScore floor) X) n_iter W ∧
    iterM (gradStep step_size holonomic (fdicaLaplaceScore floor) (frames π X)) n_iter W
      = iterM (gradStep step_size holonomic (fdicaLaplaceScore floor) X) n_iter W :=
  ⟨C73_gradient h step_size holonomic _ _ (fun _ => rfl) X W n_iter, C73_gradient h step_size holonomic _ _ (fun _ => rfl) X W n_iter⟩

/-- C73 for GradGaussIVA and NaturalGradGaussIVA. -/
theorem C73_gradient_gauss (h : Cover π m) (step_size : ℝ) (holonomic : Bool) (X : Data ℂ F n t)
    (s : (Fin n → Fin t → ℝ) × (F → Mat n ℂ)) (n_iter : ℕ) :
    iterM (gradGaussStep step_size holonomic (frames π X)) n_iter (fun k j => s.1 k (π j), s.2)
      = Except.map (fun s => (fun k j => s.1 k (π j), s.2)) (iterM (gradGaussStep step_size holonomic X) n_iter s) ∧
    (naturalGaussStep step_size holonomic (frames π X))^[n_iter] (fun k j => s.1 k (π j), s.2)
      = (fun s : (Fin n → Fin t → ℝ) × (F → Mat n ℂ) => (fun k j => s.1 k (π j), s.2))
        ((naturalGaussStep step_size holonomic X)^[n_iter] s) := by
  have e2 : ∀ W : F → Mat n ℂ, sep (frames π X) W = frames π (sep X W) := fun W => separate_frames X W
  have e3 : ∀ W : F → Mat n ℂ, Iva.gaussVariance (sep (frames π X) W) = fun k j => Iva.gaussVariance (sep X W) k (π j) :=
    fun W => by rw [e2]; rfl
  constructor
  · refine iterM_map _ _ (fun s : (Fin n → Fin t → ℝ) × (F → Mat n ℂ) => (fun k j => s.1 k (π j), s.2)) (fun s => ?_) n_iter s
    simp only [gradGaussStep, e3]
    rw [gradStep_frames h step_size holonomic (ivaGaussScore (Iva.gaussVariance (sep X s.2))) _ (fun _ => rfl), map_bind]
    rfl
  · induction n_iter with
    | zero => rfl
    | succ N ih =>
      rw [Function.iterate_succ_apply', Function.iterate_succ_apply', ih]
      obtain ⟨u, hu⟩ : ∃ u, u = (naturalGaussStep step_size holonomic X)^[N] s := ⟨_, rfl⟩
      rw [← hu]
      simp only [naturalGaussStep, e3]
      refine Prod.ext rfl ?_
      exact C73_natural h step_size holonomic (ivaGaussScore (Iva.gaussVariance (sep X u.2))) _ (fun _ => rfl) X u.2 1

/-- C73: the losses of the gradient methods. -/
theorem C73_loss {ι : Type} [Fintype ι] (h : Cover π m) (c : ℝ) (contrast : Data ℂ F n t → ι → Fin t → ℝ)
    (contrast' : Data ℂ F n t' → ι → Fin t' → ℝ) (hc : ∀ Y i s, contrast' (frames π Y) i s = contrast Y i (π s))
    (X : Data ℂ F n t) (W : F → Mat n ℂ) : loss c contrast' (frames π X) W = loss c contrast X W := by
  have e2 : sep (frames π X) W = frames π (sep X W) := separate_frames X W
  rw [loss, loss, e2]
  congr 1
  refine Finset.sum_congr rfl fun i _ => ?_
  rw [← h.mean (contrast (sep X W) i)]
  congr 1
  funext s
  exact hc _ i s

end Grad

/-! ## FastIVA and FasterIVA -/

namespace Fast

/-- C73: what FastIVA and FasterIVA work on, the whitened recording, has its frames rearranged. -/
theorem C73_whitened (h : Cover π m) (np : Numpy ℂ) (X : Spec F n t) : whitened np (frames π X) = frames π (whitened np X) := by
  have e : ∀ f, Transform.covariance (frames π X f) = Transform.covariance (X f) := by
    intro f
    ext i j
    exact h.mean fun s => X f i s * star (X f j s)
  funext f
  simp only [whitened, Transform.whitenCore, e]
  ext i s
  simp only [frames, whitened, Transform.whitenCore, Matrix.mul_apply, Matrix.of_apply]

/-- C73 for FastIVA and FasterIVA, given the whitened recording. -/
theorem C73_fast_iva (h : Cover π m) (np : Numpy ℂ) (floor d dd : ℝ → ℝ) (Z : Spec F n t) (Z' : Spec F (n + 1) t)
    (W : F → Mat n ℂ) (W' : F → Mat (n + 1) ℂ) (n_iter : ℕ) :
    (fastIvaStep np floor d dd (frames π Z))^[n_iter] W = (fastIvaStep np floor d dd Z)^[n_iter] W ∧
    (fasterIvaStep np floor d (frames π Z'))^[n_iter] W' = (fasterIvaStep np floor d Z')^[n_iter] W' := by
  constructor
  · congr 1
    funext W f
    refine congrArg (polar np) ?_
    ext k c
    simp only [fastIvaFilter, separate_frames, Matrix.of_apply]
    refine congrArg star (congrArg₂ (· - ·) ?_ ?_)
    · exact h.mean fun s => ((d (Iva.binNorm (separate Z W) k s) / floor (2 * Iva.binNorm (separate Z W) k s) : ℝ) : ℂ)
        * (star (W f k c) - star (separate Z W f k s) * Z f c s)
    · exact h.mean fun s => star (W f k c) * (((2 * (d (Iva.binNorm (separate Z W) k s) / floor (2 * Iva.binNorm (separate Z W) k s))
        - dd (Iva.binNorm (separate Z W) k s)) / floor (2 * Iva.binNorm (separate Z W) k s) * ‖separate Z W f k s‖ ^ 2 : ℝ) : ℂ)
  · congr 1
    funext W f
    refine congrArg (polar np) ?_
    ext k c
    simp only [fasterIvaFilter, separate_frames, Matrix.of_apply]
    have e := wcov_frames h (fun k s => d (Iva.binNorm (separate Z' W) k s) / floor (2 * Iva.binNorm (separate Z' W) k s)) Z' f k
    exact congrArg (fun U => star ((np.eigh U).2 c (Fin.last n))) e

/-- C73: the loss of FastIVA and FasterIVA. -/
theorem C73_fast_iva_loss (h : Cover π m) (G : ℝ → ℝ) (Z : Spec F n t) (W : F → Mat n ℂ) :
    ivaLoss G (frames π Z) W = ivaLoss G Z W := by
  rw [ivaLoss, ivaLoss, separate_frames]
  exact Finset.sum_congr rfl fun k _ => h.mean fun s => G (Iva.binNorm (separate Z W) k s)

end Fast

/-! ## ILRMA -/

namespace Ilrma

def StYP.frames (π : Fin t' → Fin t) (s : StYP F n t K) : StYP F n t' K :=
  ⟨Verif.frames π s.Y, s.Z, s.T, fun b j => s.V b (π j)⟩

theorem updateSourceY_frames (h : Cover π m) (src : Source) (floor : ℝ → ℝ) (s : StY F n t K) :
    updateSourceY src floor (s.frames π) = (updateSourceY src floor s).frames π := by
  simp only [updateSourceY, StY.frames, updateBasis_frames h]
  rfl

theorem updateSourceYP_frames (h : Cover π m) (src : Source) (floor : ℝ → ℝ) (s : StYP F n t K) :
    updateSourceYP src floor (s.frames π) = (updateSourceYP src floor s).frames π := by
  have hl : ∀ (Y : Spec F n t) Z T (V : Fin K → Fin t → ℝ), updateLatent src (Verif.frames π Y) Z T (fun b j => V b (π j))
      = updateLatent src Y Z T V := by
    intro Y Z T V
    have : ∀ k b, latentRaw src (Verif.frames π Y) Z T (fun b j => V b (π j)) k b = latentRaw src Y Z T V k b := by
      intro k b
      have := sum_ratio h (fun (f : F) s => T f b * V b s * src.num ‖Y f k s‖ (reconP Z T V k f s))
        (fun f s => T f b * V b s / reconP Z T V k f s)
      rw [latentRaw, latentRaw]
      rw [← this]
      rfl
    funext k b
    simp only [updateLatent, this]
  have hb : ∀ (Y : Spec F n t) Z T (V : Fin K → Fin t → ℝ),
      updateBasisP src floor (Verif.frames π Y) Z T (fun b j => V b (π j)) = updateBasisP src floor Y Z T V := by
    intro Y Z T V
    funext f b
    have := sum_ratio h (fun (k : Fin n) s => Z k b * V b s * src.num ‖Y f k s‖ (reconP Z T V k f s))
      (fun k s => Z k b * V b s / reconP Z T V k f s)
    rw [updateBasisP, updateBasisP, basisRawP, basisRawP]
    rw [← this]
    rfl
  simp only [updateSourceYP, StYP.frames, hl, hb]
  rfl

theorem normalizeY_frames (h : Cover π m) (p : ℝ) (floor : ℝ → ℝ) (X : Spec F n t) (norm : Norm n) (s : StY F n t K) :
    normalizeY p floor (Verif.frames π X) norm (s.frames π) = Except.map (StY.frames π) (normalizeY p floor X norm s) := by
  cases norm with
  | off => rfl
  | power =>
    simp only [normalizeY, StY.frames, psi_frames h]
    rfl
  | projectionBack r =>
    simp only [normalizeY]
    rw [show (s.frames π).Y = Verif.frames π s.Y from rfl, gramInv_frames h]
    cases npInvB fun f => s.Y f * (s.Y f)ᴴ with
    | error => rfl
    | ok N =>
      have e3 : ∀ f, Verif.frames π X f * (Verif.frames π s.Y f)ᴴ * ((m : ℂ)⁻¹ • N f) = X f * (s.Y f)ᴴ * N f := fun f => by
        rw [gram_frames h, Matrix.smul_mul, Matrix.mul_smul, smul_smul, mul_inv_cancel₀ (h.ne ℂ), one_smul]
      simp only [Except.map, Bind.bind, Except.bind, e3]
      rfl

theorem normalizeYP_frames (h : Cover π m) (p : ℝ) (floor : ℝ → ℝ) (norm : Norm n) (s : StYP F n t K) :
    normalizeYP p floor norm (s.frames π) = Except.map (StYP.frames π) (normalizeYP p floor norm s) := by
  cases norm with
  | off => rfl
  | power =>
    simp only [normalizeYP, StYP.frames, psi_frames h]
    rfl
  | projectionBack r => rfl

theorem spatialSignal_frames (h : Cover π m) (np : Numpy ℂ) (alg : SignalAlg n) (floor : ℝ → ℝ) (phi : F → Fin n → Fin t → ℝ)
    (Y : Spec F n t) :
    spatialSignal np alg floor (fun f k s => phi f k (π s)) (Verif.frames π Y)
      = Except.map (Verif.frames π) (spatialSignal np alg floor phi Y) := by
  cases alg with
  | iss1 => exact congrArg Except.ok (iss1_frames h floor phi Y)
  | iss2 pairs => exact Iva.iss2_frames h np floor pairs phi Y

/-- C73 for partitioned ILRMA with iterative source steering. -/
theorem C73_ilrma_partitioned_iss (h : Cover π m) (np : Numpy ℂ) (src : Source) (p : ℝ) (alg : SignalAlg n) (norm : Norm n)
    (floor : ℝ → ℝ) (s : StYP F n t K) (n_iter : ℕ) :
    iterM (updateOnceYP np src p alg norm floor) n_iter (s.frames π)
      = Except.map (StYP.frames π) (iterM (updateOnceYP np src p alg norm floor) n_iter s) := by
  refine iterM_map _ _ (StYP.frames π) (fun s => ?_) n_iter s
  rw [updateOnceYP, updateOnceYP, updateSpatialYP, updateSpatialYP, updateSourceYP_frames h]
  obtain ⟨u, hu⟩ : ∃ u, u = updateSourceYP src floor s := ⟨_, rfl⟩
  rw [← hu]
  have e := spatialSignal_frames h np alg floor (varphi src floor u.Y (reconP u.Z u.T u.V)) u.Y
  have e' : spatialSignal np alg floor (varphi src floor (u.frames π).Y (reconP (u.frames π).Z (u.frames π).T (u.frames π).V))
      (u.frames π).Y = _ := e
  rw [e']
  cases spatialSignal np alg floor (varphi src floor u.Y (reconP u.Z u.T u.V)) u.Y with
  | error => rfl
  | ok Y => exact normalizeYP_frames h p floor norm ⟨Y, u.Z, u.T, u.V⟩

/-- C73 for ILRMA with IPA. -/
theorem C73_ilrma_ipa (h : Cover π m) (np : Numpy ℂ) (src : Source) (p : ℝ) (normalization : Bool) (newton_iter : ℕ)
    (norm : Norm (n + 2)) (floor : ℝ → ℝ) (X : Spec F (n + 2) t) (s : StY F (n + 2) t K) (n_iter : ℕ) :
    iterM (updateOnceIpa np src p normalization newton_iter norm floor (Verif.frames π X)) n_iter (s.frames π)
      = Except.map (StY.frames π) (iterM (updateOnceIpa np src p normalization newton_iter norm floor X) n_iter s) := by
  refine iterM_map _ _ (StY.frames π) (fun s => ?_) n_iter s
  rw [updateOnceIpa, updateOnceIpa, updateSpatialIpa, updateSpatialIpa, updateSourceY_frames h]
  obtain ⟨u, hu⟩ : ∃ u, u = updateSourceY src floor s := ⟨_, rfl⟩
  rw [← hu]
  have e := ipa_frames h np floor normalization newton_iter (varphi src floor u.Y (recon u.T u.V)) u.Y
  have e' : ipa np floor normalization newton_iter (varphi src floor (u.frames π).Y (recon (u.frames π).T (u.frames π).V))
      (u.frames π).Y = _ := e
  rw [e']
  cases ipa np floor normalization newton_iter (varphi src floor u.Y (recon u.T u.V)) u.Y with
  | error => rfl
  | ok Y => exact normalizeY_frames h p floor X norm ⟨Y, u.T, u.V⟩

/-- C73 for partitioned ILRMA with IPA. -/
theorem C73_ilrma_partitioned_ipa (h : Cover π m) (np : Numpy ℂ) (src : Source) (p : ℝ) (normalization : Bool) (newton_iter : ℕ)
    (norm : Norm (n + 2)) (floor : ℝ → ℝ) (s : StYP F (n + 2) t K) (n_iter : ℕ) :
    iterM (updateOnceIpaP np src p normalization newton_iter norm floor) n_iter (s.frames π)
      = Except.map (StYP.frames π) (iterM (updateOnceIpaP np src p normalization newton_iter norm floor) n_iter s) := by
  refine iterM_map _ _ (StYP.frames π) (fun s => ?_) n_iter s
  rw [updateOnceIpaP, updateOnceIpaP, updateSpatialIpaP, updateSpatialIpaP, updateSourceYP_frames h]
  obtain ⟨u, hu⟩ : ∃ u, u = updateSourceYP src floor s := ⟨_, rfl⟩
  rw [← hu]
  have e := ipa_frames h np floor normalization newton_iter (varphi src floor u.Y (reconP u.Z u.T u.V)) u.Y
  have e' : ipa np floor normalization newton_iter
      (varphi src floor (u.frames π).Y (reconP (u.frames π).Z (u.frames π).T (u.frames π).V)) (u.frames π).Y = _ := e
  rw [e']
  cases ipa np floor normalization newton_iter (varphi src floor u.Y (reconP u.Z u.T u.V)) u.Y with
  | error => rfl
  | ok Y => exact normalizeYP_frames h p floor norm ⟨Y, u.Z, u.T, u.V⟩

/-- C73: the losses of partitioned and signal-based ILRMA. -/
theorem C73_ilrma_losses (h : Cover π m) (src : Source) (X : Spec F n t) (s : StP F n t K) (y : StY F n t K) (z : StYP F n t K) :
    lossP src (Verif.frames π X) (s.frames π) = lossP src X s ∧
    lossY src (Verif.frames π X) (y.frames π) = lossY src X y ∧
    lossYP src (Verif.frames π X) (z.frames π) = lossYP src X z := by
  have key : ∀ (Y : Spec F n t) (R : Fin n → F → Fin t → ℝ) (W : F → Mat n ℂ),
      lossOf src (Verif.frames π Y) (fun k f s => R k f (π s)) W = lossOf src Y R W := by
    intro Y R W
    rw [lossOf, lossOf]
    refine Finset.sum_congr rfl fun f _ => ?_
    congr 1
    exact Finset.sum_congr rfl fun k _ => h.mean fun j => src.ell ‖Y f k j‖ (R k f j)
  refine ⟨?_, ?_, ?_⟩
  · rw [lossP, lossP, separate_frames]
    exact key (separate X s.W) (reconP s.Z s.T s.V) s.W
  · rw [lossY, lossY, show (y.frames π).Y = Verif.frames π y.Y from rfl, filterOf_frames h]
    congr 1
    funext W
    exact congrArg Except.ok (key y.Y (recon y.T y.V) W)
  · rw [lossYP, lossYP, show (z.frames π).Y = Verif.frames π z.Y from rfl, filterOf_frames h]
    congr 1
    funext W
    exact congrArg Except.ok (key z.Y (reconP z.Z z.T z.V) W)

/-- A recording of three frames played twice, three sources. -/
example (np : Numpy ℂ) (floor : ℝ → ℝ) (X : Spec (Fin 2) 3 3) (s : StY (Fin 2) 3 3 2) (n_iter : ℕ) :
    iterM (updateOnceIpa np (gauss 2) 2 true 1 .power floor (Verif.frames (fun j : Fin (2 * 3) => j.modNat) X)) n_iter
        (s.frames fun j : Fin (2 * 3) => j.modNat)
      = Except.map (StY.frames fun j : Fin (2 * 3) => j.modNat)
        (iterM (updateOnceIpa np (gauss 2) 2 true 1 .power floor X) n_iter s) :=
  C73_ilrma_ipa (Cover.repeat 2 two_pos) np (gauss 2) 2 true 1 .power floor X s n_iter

end Ilrma

/-! ## FastGaussMNMF -/

namespace Mnmf

variable {c : ℕ}

/-- C73: the loss of FastGaussMNMF. -/
theorem C73_fast_loss (h : Cover π m) (X : Spec F c t) (s : FSt F n c t K) :
    fastLoss (Verif.frames π X) (s.frames π) = fastLoss X s := by
  rw [fastLoss, fastLoss, show (s.frames π).Q = s.Q from rfl, separate_frames]
  refine Finset.sum_congr rfl fun f _ => ?_
  congr 1
  exact h.mean fun j => ∑ a, (‖separate X s.Q f a j‖ ^ 2 / lambD s f a j + Real.log (lambD s f a j))

/-- C73: the output of FastGaussMNMF. -/
theorem C73_fast_separate (h : Cover π m) (np : Numpy ℂ) (floor : ℝ → ℝ) (r : Fin c) (X : Spec F c t) (s : FSt F n c t K) :
    fastSeparate np floor r (Verif.frames π X) (s.frames π) = (fastSeparate np floor r X s).map fun Y f j => Y f (π j) := by
  rw [fastSeparate, fastSeparate, show (s.frames π).Q = s.Q from rfl, map_bind]
  congr 1
  funext Q
  exact onBins2_comp h fun f j => wiener np floor r (fastRn Q s f j) fun a => X f a j

end Mnmf

end Verif
