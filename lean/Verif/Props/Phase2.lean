import Verif.Model.Ipa
import Verif.Props.EigFree
import Verif.Props.Phase

/-! # C83, continued: ILRMA, MNMF, cACGMM, FastIVA -/

set_option linter.unusedSectionVars false

namespace Verif

open Matrix Spatial Scale Lifecycle

section

variable {F : Type} [Fintype F] {n t K : ℕ} {u : F → Fin t → ℂ} (hu : ∀ f s, ‖u f s‖ = 1)

include hu

/-! ## ILRMA -/

namespace Ilrma

def StY.turn (u : F → Fin t → ℂ) (s : StY F n t K) : StY F n t K := ⟨Verif.turn u s.Y, s.T, s.V⟩

def StYP.turn (u : F → Fin t → ℂ) (s : StYP F n t K) : StYP F n t K := ⟨Verif.turn u s.Y, s.Z, s.T, s.V⟩

theorem varphi_turn (src : Source) (floor : ℝ → ℝ) (Y : Spec F n t) (R : Fin n → F → Fin t → ℝ) :
    varphi src floor (turn u Y) R = varphi src floor Y R := by
  funext f k s
  simp only [varphi, turn_norm hu]

theorem psi_turn (floor : ℝ → ℝ) (Y : Spec F n t) : psi floor (turn u Y) = psi floor Y := by
  funext k
  simp only [psi, turn_norm hu]

theorem updateBasis_turn (src : Source) (floor : ℝ → ℝ) (Y : Spec F n t) (T : Fin n → F → Fin K → ℝ)
    (V : Fin n → Fin K → Fin t → ℝ) :
    updateBasis src floor (turn u Y) T V = updateBasis src floor Y T V := by
  funext k f j
  simp only [updateBasis, basisRaw, turn_norm hu]

theorem updateActivation_turn (src : Source) (floor : ℝ → ℝ) (Y : Spec F n t) (T : Fin n → F → Fin K → ℝ)
    (V : Fin n → Fin K → Fin t → ℝ) : updateActivation src floor (turn u Y) T V = updateActivation src floor Y T V := by
  funext k f j
  simp only [updateActivation, activationRaw, turn_norm hu]

theorem updateLatent_turn (src : Source) (Y : Spec F n t) (Z : Fin n → Fin K → ℝ) (T : F → Fin K → ℝ)
    (V : Fin K → Fin t → ℝ) : updateLatent src (turn u Y) Z T V = updateLatent src Y Z T V := by
  funext k f
  simp only [updateLatent, latentRaw, turn_norm hu]

theorem updateBasisP_turn (src : Source) (floor : ℝ → ℝ) (Y : Spec F n t) (Z : Fin n → Fin K → ℝ)
    (T : F → Fin K → ℝ) (V : Fin K → Fin t → ℝ) :
    updateBasisP src floor (turn u Y) Z T V = updateBasisP src floor Y Z T V := by
  funext k f
  simp only [updateBasisP, basisRawP, turn_norm hu]

theorem updateActivationP_turn (src : Source) (floor : ℝ → ℝ) (Y : Spec F n t) (Z : Fin n → Fin K → ℝ)
    (T : F → Fin K → ℝ) (V : Fin K → Fin t → ℝ) :
    updateActivationP src floor (turn u Y) Z T V = updateActivationP src floor Y Z T V := by
  funext k f
  simp only [updateActivationP, activationRawP, turn_norm hu]

theorem spatialFilter_turn (np : Numpy ℂ) (alg : FilterAlg n) (floor : ℝ → ℝ) (phi : F → Fin n → Fin t → ℝ)
    (X : Spec F n t) (W : F → Mat n ℂ) :
    spatialFilter np alg floor phi (turn u X) W = spatialFilter np alg floor phi X W := by
  cases alg <;> simp only [spatialFilter, wcov_turn hu]

theorem spatialSignal_turn (np : Numpy ℂ) (alg : SignalAlg n) (floor : ℝ → ℝ) (phi : F → Fin n → Fin t → ℝ)
    (Y : Spec F n t) :
    spatialSignal np alg floor phi (turn u Y) = Except.map (turn u) (spatialSignal np alg floor phi Y) := by
  cases alg with
  | iss1 => exact congrArg Except.ok (iss1_turn hu floor phi Y)
  | iss2 pairs => exact Iva.iss2_turn hu np floor pairs phi Y

/-- C83 for ILRMA (Gauss, t, GGD; MM or ME) with IP1 or IP2 and any normalisation: the same filters, bases and
activations. -/
theorem C83_ilrma (np : Numpy ℂ) (src : Source) (p : ℝ) (alg : FilterAlg n) (norm : Norm n) (floor : ℝ → ℝ)
    (X : Spec F n t) (s : St F n t K) (n_iter : ℕ) :
    iterM (updateOnce np src p alg norm floor (turn u X)) n_iter s
      = iterM (updateOnce np src p alg norm floor X) n_iter s := by
  have e : updateOnce (K := K) np src p alg norm floor (turn u X) = updateOnce np src p alg norm floor X := by
    funext s
    have e1 : updateSource src floor (turn u X) s = updateSource src floor X s := by
      simp only [updateSource, separate_turn, updateBasis_turn hu, updateActivation_turn hu]
    have e2 : ∀ s : St F n t K, normalize p floor (turn u X) norm s = normalize p floor X norm s := fun s => by
      cases norm <;> simp only [normalize, separate_turn, psi_turn hu]
    simp only [updateOnce, updateSpatial, e1, e2, separate_turn, varphi_turn hu, spatialFilter_turn hu]
  rw [e]

/-- C83 for ILRMA with partitioning, IP1 or IP2. -/
theorem C83_ilrma_partitioned (np : Numpy ℂ) (src : Source) (p : ℝ) (alg : FilterAlg n) (norm : Norm n)
    (floor : ℝ → ℝ) (X : Spec F n t) (s : StP F n t K) (n_iter : ℕ) :
    iterM (updateOnceP np src p alg norm floor (turn u X)) n_iter s
      = iterM (updateOnceP np src p alg norm floor X) n_iter s := by
  have e : updateOnceP (K := K) np src p alg norm floor (turn u X) = updateOnceP np src p alg norm floor X := by
    funext s
    have e1 : updateSourceP src floor (turn u X) s = updateSourceP src floor X s := by
      simp only [updateSourceP, separate_turn, updateLatent_turn hu, updateBasisP_turn hu,
        updateActivationP_turn hu]
    have e2 : ∀ s : StP F n t K, normalizeP p floor (turn u X) norm s = normalizeP p floor X norm s := fun s => by
      cases norm <;> simp only [normalizeP, separate_turn, psi_turn hu]
    simp only [updateOnceP, updateSpatialP, e1, e2, separate_turn, varphi_turn hu, spatialFilter_turn hu]
  rw [e]

theorem updateSourceY_turn (src : Source) (floor : ℝ → ℝ) (s : StY F n t K) :
    updateSourceY src floor (s.turn u) = (updateSourceY src floor s).turn u := by
  simp only [updateSourceY, StY.turn, updateBasis_turn hu, updateActivation_turn hu]

theorem updateSourceYP_turn (src : Source) (floor : ℝ → ℝ) (s : StYP F n t K) :
    updateSourceYP src floor (s.turn u) = (updateSourceYP src floor s).turn u := by
  simp only [updateSourceYP, StYP.turn, updateLatent_turn hu, updateBasisP_turn hu,
    updateActivationP_turn hu]

omit hu in
theorem divRows_turn (a : Fin n → ℝ) (Y : Spec F n t) : divRows a (turn u Y) = turn u (divRows a Y) := by
  funext f
  ext k s
  simp only [divRows, turn_apply, Matrix.of_apply]
  ring

omit hu in
theorem mulRows_turn (a : F → Fin n → ℂ) (Y : Spec F n t) : mulRows a (turn u Y) = turn u (mulRows a Y) := by
  funext f
  ext k s
  simp only [mulRows, turn_apply, Matrix.of_apply]
  ring

theorem normalizeY_turn (p : ℝ) (floor : ℝ → ℝ) (X : Spec F n t) (norm : Norm n) (s : StY F n t K) :
    normalizeY p floor (turn u X) norm (s.turn u) = Except.map (StY.turn u) (normalizeY p floor X norm s) := by
  cases norm with
  | off => rfl
  | power =>
    simp only [normalizeY, StY.turn, psi_turn hu, divRows_turn, Except.map]
  | projectionBack r =>
    simp only [normalizeY, StY.turn, gram_turn hu, mulRows_turn]
    cases npInvB fun f => s.Y f * (s.Y f)ᴴ <;> rfl

theorem normalizeYP_turn (p : ℝ) (floor : ℝ → ℝ) (norm : Norm n) (s : StYP F n t K) :
    normalizeYP p floor norm (s.turn u) = Except.map (StYP.turn u) (normalizeYP p floor norm s) := by
  cases norm with
  | off => rfl
  | power => simp only [normalizeYP, StYP.turn, psi_turn hu, divRows_turn, Except.map]
  | projectionBack r => rfl

/-- C83 for ILRMA with ISS1 or ISS2: the separated signals carry the same factors. -/
theorem C83_ilrma_iss (np : Numpy ℂ) (src : Source) (p : ℝ) (alg : SignalAlg n) (norm : Norm n) (floor : ℝ → ℝ)
    (X : Spec F n t) (s : StY F n t K) (n_iter : ℕ) :
    iterM (updateOnceY np src p alg norm floor (turn u X)) n_iter (s.turn u)
      = Except.map (StY.turn u) (iterM (updateOnceY np src p alg norm floor X) n_iter s) := by
  refine iterM_map _ _ (StY.turn u) (fun s => ?_) n_iter s
  rw [updateOnceY, updateOnceY, updateSpatialY, updateSpatialY, updateSourceY_turn hu]
  obtain ⟨v, hv⟩ : ∃ v, v = updateSourceY src floor s := ⟨_, rfl⟩
  rw [← hv, show (v.turn u).Y = Verif.turn u v.Y from rfl, varphi_turn hu, spatialSignal_turn hu]
  change (Except.map _ (spatialSignal np alg floor (varphi src floor v.Y (recon v.T v.V)) v.Y) >>= _) >>= _ = _
  cases spatialSignal np alg floor (varphi src floor v.Y (recon v.T v.V)) v.Y with
  | error => rfl
  | ok Y => exact normalizeY_turn hu p floor X norm ⟨Y, v.T, v.V⟩

/-- C83 for ILRMA with partitioning and ISS1 or ISS2. -/
theorem C83_ilrma_partitioned_iss (np : Numpy ℂ) (src : Source) (p : ℝ) (alg : SignalAlg n) (norm : Norm n)
    (floor : ℝ → ℝ) (s : StYP F n t K) (n_iter : ℕ) :
    iterM (updateOnceYP np src p alg norm floor) n_iter (s.turn u)
      = Except.map (StYP.turn u) (iterM (updateOnceYP np src p alg norm floor) n_iter s) := by
  refine iterM_map _ _ (StYP.turn u) (fun s => ?_) n_iter s
  rw [updateOnceYP, updateOnceYP, updateSpatialYP, updateSpatialYP, updateSourceYP_turn hu]
  obtain ⟨v, hv⟩ : ∃ v, v = updateSourceYP src floor s := ⟨_, rfl⟩
  rw [← hv, show (v.turn u).Y = Verif.turn u v.Y from rfl, varphi_turn hu, spatialSignal_turn hu]
  change (Except.map _ (spatialSignal np alg floor (varphi src floor v.Y (reconP v.Z v.T v.V)) v.Y) >>= _) >>= _ = _
  cases spatialSignal np alg floor (varphi src floor v.Y (reconP v.Z v.T v.V)) v.Y with
  | error => rfl
  | ok Y => exact normalizeYP_turn hu p floor norm ⟨Y, v.Z, v.T, v.V⟩

/-- C83: the recorded losses of ILRMA are the same. -/
theorem C83_ilrma_loss (src : Source) (X : Spec F n t) (s : St F n t K) (s' : StP F n t K) (y : StY F n t K)
    (y' : StYP F n t K) :
    loss src (turn u X) s = loss src X s ∧ lossP src (turn u X) s' = lossP src X s' ∧
    lossY src (turn u X) (y.turn u) = lossY src X y ∧ lossYP src (turn u X) (y'.turn u) = lossYP src X y' := by
  refine ⟨?_, ?_, ?_, ?_⟩
  · simp only [loss, separate_turn, lossOf, turn_norm hu]
  · simp only [lossP, separate_turn, lossOf, turn_norm hu]
  · simp only [lossY, filterOf, StY.turn, gram_turn hu, lossOf, turn_norm hu]
  · simp only [lossYP, filterOf, StYP.turn, gram_turn hu, lossOf, turn_norm hu]

end Ilrma

/-! ## FastGaussMNMF and GaussMNMF -/

namespace Mnmf

open Ilrma (FilterAlg spatialFilter_turn)

variable {c : ℕ}

/-- C83 for FastGaussMNMF: the same parameters. -/
theorem C83_fast (np : Numpy ℂ) (alg : FilterAlg c) (normalization : Bool) (floor : ℝ → ℝ) (X : Spec F c t)
    (s : FSt F n c t K) (n_iter : ℕ) :
    iterM (fastUpdateOnce np alg normalization floor (turn u X)) n_iter s
      = iterM (fastUpdateOnce np alg normalization floor X) n_iter s := by
  have e : fastUpdateOnce (n := n) (K := K) np alg normalization floor (turn u X)
      = fastUpdateOnce np alg normalization floor X := by
    funext s
    simp only [fastUpdateOnce, fastUpdateActivation, fastActivationRaw, fastUpdateBasis, fastBasisRaw,
      fastUpdateDiagonalizer, fastUpdateSpatial, fastNormalize, fastPsi, separate_turn, turn_norm hu, spatialFilter_turn hu]
  rw [e]

/-- C83: the recorded loss of FastGaussMNMF is the same. -/
theorem C83_fast_loss (X : Spec F c t) (s : FSt F n c t K) : fastLoss (turn u X) s = fastLoss X s := by
  simp only [fastLoss, separate_turn, turn_norm hu]

omit hu in
theorem wiener_turn (np : Numpy ℂ) (floor : ℝ → ℝ) (r : Fin c) (Rn : Fin n → Mat c ℂ) (a : ℂ) (x : Fin c → ℂ) :
    wiener np floor r Rn (fun i => a * x i) = Except.map (fun y k => a * y k) (wiener np floor r Rn x) := by
  rw [wiener, wiener, map_bind]
  congr 1
  funext W
  simp only [Except.map]
  congr 1
  funext k
  rw [Finset.mul_sum]
  exact Finset.sum_congr rfl fun i _ => by ring

omit hu in
/-- C83: the signals FastGaussMNMF returns carry the same factors. -/
theorem C83_fast_output (np : Numpy ℂ) (floor : ℝ → ℝ) (r : Fin c) (X : Spec F c t) (s : FSt F n c t K) :
    fastSeparate np floor r (turn u X) s
      = Except.map (fun y f j k => u f j * y f j k) (fastSeparate np floor r X s) := by
  rw [fastSeparate, fastSeparate, map_bind]
  congr 1
  funext Q
  rw [← onBins_map (e := fun f (y : Fin t → Fin n → ℂ) j k => u f j * y j k)]
  congr 1
  funext f
  rw [← onBins_map (e := fun j (y : Fin n → ℂ) k => u f j * y k)]
  congr 1
  funext j
  exact wiener_turn np floor r _ (u f j) _

/-- The instantaneous covariances are the same. -/
theorem instantCovariance_turn (np : Numpy ℂ) (floor : ℝ → ℝ) (X : Spec F c t) :
    instantCovariance np floor (turn u X) = instantCovariance np floor X := by
  funext f j
  simp only [instantCovariance, turn_mul_star hu]

omit hu in
/-- What the floored instantaneous covariance is: the outer product of the observation with its conjugate, rescaled,
plus a multiple of the identity. No channel, bin or frame is preferred. -/
theorem C83_instant_covariance (np : Numpy ℂ) (floor : ℝ → ℝ) (X : Spec F c t) (f : F) (j : Fin t) :
    instantCovariance np floor X f j
      = ((floor 0 : ℝ) : ℂ) • (1 : Mat c ℂ)
        + (((floor (∑ i, ‖X f i j‖ ^ 2) - floor 0) / ∑ i, ‖X f i j‖ ^ 2 : ℝ) : ℂ)
          • vecMulVec (fun i => X f i j) (star fun i => X f i j) := by
  obtain ⟨x, hx⟩ : ∃ x : Fin c → ℂ, x = fun i => X f i j := ⟨_, rfl⟩
  obtain ⟨q, hq⟩ : ∃ q : ℝ, q = ∑ i, ‖X f i j‖ ^ 2 := ⟨_, rfl⟩
  obtain ⟨A, hA⟩ : ∃ A : Mat c ℂ, A = vecMulVec x (star x) := ⟨_, rfl⟩
  have e0 : (Matrix.of fun a b => X f a j * star (X f b j)) = A := by
    rw [hA, hx]
    rfl
  have hh : A.IsHermitian := by
    rw [hA, IsHermitian, conjTranspose_vecMulVec, star_star]
  have sym : ∀ B : Mat c ℂ, B.IsHermitian → Special.symmetrise B = B := fun B hB => by
    rw [Special.symmetrise, hB.eq, ← two_smul ℂ B, smul_smul, inv_mul_cancel₀ two_ne_zero, one_smul]
  have hAA : A * A = (q : ℂ) • A := by
    rw [hA, vecMulVec_mul_vecMulVec]
    have : star x ⬝ᵥ x = (q : ℂ) := by
      rw [hx, hq, dotProduct]
      push_cast
      refine Finset.sum_congr rfl fun i _ => ?_
      rw [Pi.star_apply, mul_comm]
      exact_mod_cast Complex.mul_conj' (X f i j)
    rw [this]
    ext a b
    simp only [Matrix.smul_apply, vecMulVec_apply, Pi.smul_apply, smul_eq_mul]
    ring
  have hs := np.eigh_spec A hh
  rw [instantCovariance, e0, ← hx, ← hq, ← hA]
  change Special.symmetrise ((np.eigh (Special.symmetrise A)).2
    * npDiag (fun i => floor ((np.eigh (Special.symmetrise A)).1 i)) * (np.eigh (Special.symmetrise A)).2ᴴ) = _
  rw [sym A hh]
  generalize (np.eigh A).1 = l, (np.eigh A).2 = P at hs ⊢
  have hdec : A = P * (diagonal fun i => ((l i : ℝ) : ℂ)) * Pᴴ := hs.decomp
  have hl : ∀ i, l i = 0 ∨ l i = q := by
    intro i
    have e1 : (diagonal fun i => (l i : ℂ)) * (diagonal fun i => (l i : ℂ)) = (q : ℂ) • diagonal fun i => (l i : ℂ) := by
      have e2 : Pᴴ * (A * A) * P = Pᴴ * ((q : ℂ) • A) * P := by rw [hAA]
      have e3 : Pᴴ * (A * A) * P = (diagonal fun i => (l i : ℂ)) * (diagonal fun i => (l i : ℂ)) := by
        calc Pᴴ * (A * A) * P = Pᴴ * P * (diagonal fun i => (l i : ℂ)) * (Pᴴ * P) * (diagonal fun i => (l i : ℂ)) * (Pᴴ * P) := by
              rw [hdec]
              simp only [Matrix.mul_assoc]
          _ = _ := by simp only [hs.unitary, Matrix.one_mul, Matrix.mul_one]
      have e4 : Pᴴ * ((q : ℂ) • A) * P = (q : ℂ) • diagonal fun i => (l i : ℂ) := by
        calc Pᴴ * ((q : ℂ) • A) * P = (q : ℂ) • (Pᴴ * P * (diagonal fun i => (l i : ℂ)) * (Pᴴ * P)) := by
              rw [hdec, Matrix.mul_smul, Matrix.smul_mul]
              simp only [Matrix.mul_assoc]
          _ = _ := by simp only [hs.unitary, Matrix.one_mul, Matrix.mul_one]
      rw [← e3, e2, e4]
    have e5 := congrFun (congrFun e1 i) i
    rw [diagonal_mul_diagonal, diagonal_apply_eq, Matrix.smul_apply, diagonal_apply_eq, smul_eq_mul] at e5
    have e6 : l i * l i = q * l i := by exact_mod_cast e5
    rcases eq_or_ne (l i) 0 with h | h
    · exact .inl h
    · exact .inr (mul_right_cancel₀ h e6)
  have hd : (npDiag fun i => floor (l i) : Mat c ℂ)
      = ((floor 0 : ℝ) : ℂ) • 1 + (((floor q - floor 0) / q : ℝ) : ℂ) • diagonal fun i => (l i : ℂ) := by
    ext a b
    simp only [npDiag_eq, Matrix.add_apply, Matrix.smul_apply, smul_eq_mul]
    rcases eq_or_ne a b with rfl | hab
    · rw [diagonal_apply_eq, diagonal_apply_eq, one_apply_eq]
      rcases hl a with h | h
      · simp [h]
      · rw [h]
        rcases eq_or_ne q 0 with h0 | h0
        · simp [h0]
        · have e7 : floor q = floor 0 * 1 + (floor q - floor 0) / q * q := by
            rw [div_mul_cancel₀ _ h0]
            ring
          change ((floor q : ℝ) : ℂ) = _
          exact_mod_cast e7
    · rw [diagonal_apply_ne _ hab, diagonal_apply_ne _ hab, one_apply_ne hab]
      simp
  have he : P * npDiag (fun i => floor (l i)) * Pᴴ
      = ((floor 0 : ℝ) : ℂ) • (1 : Mat c ℂ) + (((floor q - floor 0) / q : ℝ) : ℂ) • A := by
    rw [hd, Matrix.mul_add, Matrix.add_mul, Matrix.mul_smul, Matrix.smul_mul, Matrix.mul_one,
      mul_eq_one_comm.mp hs.unitary, Matrix.mul_smul, Matrix.smul_mul, ← hdec]
  rw [he]
  refine sym _ ?_
  rw [IsHermitian, conjTranspose_add, conjTranspose_smul, conjTranspose_smul, conjTranspose_one, hh.eq]
  simp only [RCLike.star_def, Complex.conj_ofReal]

/-- C83 for GaussMNMF: the same parameters and losses. -/
theorem C83_gauss_mnmf (np : Numpy ℂ) (normalization : Bool) (floor : ℝ → ℝ) (X : Spec F c t) (s : MSt F n c t K)
    (s' : MStP F n c t K) (n_iter : ℕ) :
    iterM (fullUpdateOnce np normalization floor (instantCovariance np floor (turn u X))) n_iter s
      = iterM (fullUpdateOnce np normalization floor (instantCovariance np floor X)) n_iter s ∧
    iterM (fullUpdateOnceP np normalization floor (instantCovariance np floor (turn u X))) n_iter s'
      = iterM (fullUpdateOnceP np normalization floor (instantCovariance np floor X)) n_iter s' ∧
    ∀ (Lamb : Fin n → F → Fin t → ℝ) (H : Fin n → F → Mat c ℂ),
      fullLoss np floor (instantCovariance np floor (turn u X)) Lamb H
        = fullLoss np floor (instantCovariance np floor X) Lamb H := by
  rw [instantCovariance_turn hu]
  exact ⟨rfl, rfl, fun _ _ => rfl⟩

omit hu in
/-- C83: the signals GaussMNMF returns carry the same factors. -/
theorem C83_gauss_mnmf_output (np : Numpy ℂ) (floor : ℝ → ℝ) (r : Fin c) (X : Spec F c t)
    (Lamb : Fin n → F → Fin t → ℝ) (H : Fin n → F → Mat c ℂ) :
    fullSeparate np floor r (turn u X) Lamb H
      = Except.map (fun y f j k => u f j * y f j k) (fullSeparate np floor r X Lamb H) := by
  rw [fullSeparate, fullSeparate, ← onBins_map (e := fun f (y : Fin t → Fin n → ℂ) j k => u f j * y j k)]
  congr 1
  funext f
  rw [← onBins_map (e := fun j (y : Fin n → ℂ) k => u f j * y k)]
  congr 1
  funext j
  exact wiener_turn np floor r _ (u f j) _

end Mnmf

/-! ## cACGMM -/

namespace Cacgmm

variable {c : ℕ}

theorem unitInput_turn (floor : ℝ → ℝ) (X : Spec F c t) :
    unitInput floor (turn u X) = fun f j i => u f j * unitInput floor X f j i := by
  funext f j i
  simp only [unitInput, turn_norm hu]
  rw [turn_apply, mul_div_assoc]

theorem quadForm_turn (floor : ℝ → ℝ) (X : Spec F c t) (B : Fin (n + 1) → F → Mat c ℂ) :
    quadForm floor (unitInput floor (turn u X)) B = quadForm floor (unitInput floor X) B := by
  funext k f j
  rw [unitInput_turn hu, quadForm, quadForm]
  have : Linalg.quadratic (fun i => u f j * unitInput floor X f j i) (B k f)
      = Linalg.quadratic (unitInput floor X f j) (B k f) := by
    simp only [Linalg.quadratic, dotProduct, vecMul, Pi.star_apply, Finset.sum_mul]
    refine Finset.sum_congr rfl fun i _ => Finset.sum_congr rfl fun i' _ => ?_
    have := unit_mul_star (hu f j) (unitInput floor X f j i) (unitInput floor X f j i')
    linear_combination B k f i' i * this
  rw [this]

/-- C83: posteriors, mixture parameters and loss are the same, and the separated signals carry the same factors. -/
theorem C83_cacgmm (np : Numpy ℂ) (normalization : Bool) (floor : ℝ → ℝ) (X : Spec F c t) (r : Fin c)
    (σ : F → Equiv.Perm (Fin (n + 1))) (n_iter : ℕ) (s : CSt F n c) :
    call np normalization floor (turn u X) r σ n_iter s
      = Except.map (fun p => (p.1, p.2.1, fun k f j => u f j * p.2.2 k f j)) (call np normalization floor X r σ n_iter s) ∧
    loss floor (unitInput floor (turn u X)) s = loss floor (unitInput floor X) s := by
  have hp : ∀ s : CSt F n c, updatePosterior floor (unitInput floor (turn u X)) s
      = updatePosterior floor (unitInput floor X) s := fun s => by
    simp only [updatePosterior, quadForm_turn hu]
  have hr : ∀ q g (k : Fin (n + 1)) f, rawCovariance (unitInput floor (turn u X)) q g k f
      = rawCovariance (unitInput floor X) q g k f := fun q g k f => by
    simp only [rawCovariance, unitInput_turn hu, unit_mul_star (hu _ _)]
  have ho : updateOnce (n := n) np normalization floor (unitInput floor (turn u X))
      = updateOnce np normalization floor (unitInput floor X) := by
    funext s
    simp only [updateOnce, updateParameters, hp, quadForm_turn hu, hr]
  have hi : ∀ N (s : CSt F n c), iterate np normalization floor (unitInput floor (turn u X)) N s
      = iterate np normalization floor (unitInput floor X) N s := by
    intro N
    induction N with
    | zero => intro s; rfl
    | succ N ih =>
      intro s
      simp only [iterate, ho, ih]
  refine ⟨?_, ?_⟩
  · rw [call, call, map_bind]
    simp only [hi]
    congr 1
    funext s
    simp only [hp]
    rw [map_bind]
    congr 1
    funext g
    simp only [Except.map]
    congr 3
    funext k f j
    simp only [separateP, turn_apply]
    ring
  · simp only [loss, quadForm_turn hu]

end Cacgmm

/-! ## FastIVA and FasterIVA -/

namespace Fast

theorem whitened_turn (np : Numpy ℂ) (X : Spec F n t) : whitened np (turn u X) = turn u (whitened np X) := by
  funext f
  have e : Transform.covariance (turn u X f) = Transform.covariance (X f) := by
    ext i j
    simp only [Transform.covariance, Matrix.of_apply, turn_mul_star hu]
  rw [whitened, Transform.whitenCore, e]
  ext i j
  simp only [turn_apply, whitened, Transform.whitenCore]
  rw [Matrix.mul_apply, Matrix.mul_apply, Finset.mul_sum]
  exact Finset.sum_congr rfl fun c _ => by rw [turn_apply]; ring

/-- C83 for FastIVA: the same filters. -/
theorem C83_fast_iva (np : Numpy ℂ) (floor d dd : ℝ → ℝ) (X : Spec F n t) (W : F → Mat n ℂ) (n_iter : ℕ) :
    (fastIvaStep np floor d dd (whitened np (turn u X)))^[n_iter] W
      = (fastIvaStep np floor d dd (whitened np X))^[n_iter] W := by
  have e : fastIvaStep np floor d dd (whitened np (turn u X)) = fastIvaStep np floor d dd (whitened np X) := by
    funext W f
    have h : ∀ (Y Z : Spec F n t) f k c s, star (turn u Y f k s) * turn u Z f c s = star (Y f k s) * Z f c s :=
      fun Y Z f k c s => by rw [mul_comm, turn_mul_star hu, mul_comm]
    simp only [fastIvaStep, fastIvaFilter, whitened_turn hu, separate_turn, Iva.binNorm_turn hu, turn_norm hu, h]
  rw [e]

/-- C83 for FasterIVA: the same filters. -/
theorem C83_faster_iva (np : Numpy ℂ) (floor d : ℝ → ℝ) (X : Spec F (n + 1) t) (W : F → Mat (n + 1) ℂ) (n_iter : ℕ) :
    (fasterIvaStep np floor d (whitened np (turn u X)))^[n_iter] W
      = (fasterIvaStep np floor d (whitened np X))^[n_iter] W := by
  have e : fasterIvaStep np floor d (whitened np (turn u X)) = fasterIvaStep np floor d (whitened np X) := by
    funext W f
    simp only [fasterIvaStep, fasterIvaFilter, whitened_turn hu, separate_turn, Iva.binNorm_turn hu, wcov_turn hu]
  rw [e]

/-- C83: the recorded loss of FastIVA and FasterIVA is the same. -/
theorem C83_fast_iva_loss (np : Numpy ℂ) (G : ℝ → ℝ) (X : Spec F n t) (W : F → Mat n ℂ) :
    ivaLoss G (whitened np (turn u X)) W = ivaLoss G (whitened np X) W := by
  simp only [ivaLoss, whitened_turn hu, separate_turn, Iva.binNorm_turn hu]

end Fast

/-! ## IPA -/

namespace Spatial

theorem ipaCov_turn (np : Numpy ℂ) (floor : ℝ → ℝ) (phi : Fin n → Fin t → ℝ) (Y : Spec F n t) (f : F) :
    ipaCov np floor phi (turn u Y f) = ipaCov np floor phi (Y f) := by
  funext k
  simp only [ipaCov, turn_mul_star hu]

theorem ipaStep_turn (np : Numpy ℂ) (floor : ℝ → ℝ) (normalization : Bool) (max_iter : ℕ)
    (phi : F → Fin (n + 2) → Fin t → ℝ) (Y : Spec F (n + 2) t) (idx : Fin (n + 2)) :
    ipaStep np floor normalization max_iter phi (turn u Y) idx
      = Except.map (turn u) (ipaStep np floor normalization max_iter phi Y idx) := by
  rw [ipaStep, ipaStep]
  simp only [ipaCov_turn hu]
  rw [map_bind]
  congr 1
  funext p
  rw [map_bind]
  congr 1
  funext q
  change _ = Except.map (fun (y : Spec F (n + 2) t) f => (fun f (M : Matrix (Fin (n + 2)) (Fin t) ℂ) =>
    (Matrix.of fun c s => u f s * M c s)) f (y f)) _
  rw [← onBins_map (e := fun f (M : Matrix (Fin (n + 2)) (Fin t) ℂ) => (Matrix.of fun c s => u f s * M c s))]
  congr 1
  funext f
  rw [ipaApply, ipaApply, map_bind]
  congr 1
  funext Uq
  simp only [Except.map]
  congr 1
  ext k s
  simp only [Matrix.of_apply, turn_apply]
  rw [show (∀ (p : Fin (n + 2) → ℂ), ∑ c, p c * (u f s * Y f c s) = u f s * ∑ c, p c * Y f c s) from fun p => by
    rw [Finset.mul_sum]; exact Finset.sum_congr rfl fun _ _ => by ring]
  split_ifs <;> ring

theorem ipa_turn (np : Numpy ℂ) (floor : ℝ → ℝ) (normalization : Bool) (max_iter : ℕ)
    (phi : F → Fin (n + 2) → Fin t → ℝ) (Y : Spec F (n + 2) t) :
    ipa np floor normalization max_iter phi (turn u Y)
      = Except.map (turn u) (ipa np floor normalization max_iter phi Y) :=
  foldlM_map _ _ (turn u) (fun Y idx => ipaStep_turn hu np floor normalization max_iter phi Y idx) _ Y

end Spatial

/-- C83 for AuxIVA with IPA. -/
theorem Iva.C83_ipa (np : Numpy ℂ) (floor : ℝ → ℝ) (normalization : Bool) (newton_iter : ℕ)
    (d : Fin (n + 2) → Fin t → ℝ → ℝ) (Y : Spec F (n + 2) t) (n_iter : ℕ) :
    iterM (Iva.auxIpa np floor normalization newton_iter d) n_iter (turn u Y)
      = Except.map (turn u) (iterM (Iva.auxIpa np floor normalization newton_iter d) n_iter Y) := by
  refine iterM_map _ _ (turn u) (fun Y => ?_) n_iter Y
  simp only [Iva.auxIpa, Iva.weight_turn hu, ipa_turn hu]

/-- C83 for ILRMA with IPA. -/
theorem Ilrma.C83_ilrma_ipa (np : Numpy ℂ) (src : Source) (p : ℝ) (normalization : Bool) (newton_iter : ℕ)
    (norm : Norm (n + 2)) (floor : ℝ → ℝ) (X : Spec F (n + 2) t) (s : StY F (n + 2) t K) (n_iter : ℕ) :
    iterM (updateOnceIpa np src p normalization newton_iter norm floor (turn u X)) n_iter (s.turn u)
      = Except.map (StY.turn u) (iterM (updateOnceIpa np src p normalization newton_iter norm floor X) n_iter s) := by
  refine iterM_map _ _ (StY.turn u) (fun s => ?_) n_iter s
  rw [updateOnceIpa, updateOnceIpa, updateSpatialIpa, updateSpatialIpa, updateSourceY_turn hu]
  obtain ⟨v, hv⟩ : ∃ v, v = updateSourceY src floor s := ⟨_, rfl⟩
  rw [← hv, show (v.turn u).Y = Verif.turn u v.Y from rfl, varphi_turn hu, ipa_turn hu]
  change (Except.map _ (ipa np floor normalization newton_iter (varphi src floor v.Y (recon v.T v.V)) v.Y) >>= _)
    >>= _ = _
  cases ipa np floor normalization newton_iter (varphi src floor v.Y (recon v.T v.V)) v.Y with
  | error => rfl
  | ok Y => exact normalizeY_turn hu p floor X norm ⟨Y, v.T, v.V⟩

end

/-! ## Non-vacuity -/

/-- A run of AuxIVA on two channels and two frames whose frames are multiplied by `i` and `-1`. -/
example (N : ℕ) :
    (iterM (Iva.auxIp1 id Iva.laplaceD fun _ => !![Complex.I, -1; Complex.I, 1]) N (limW (limA 0))
      >>= finish (.bool true) 0 fun _ => !![Complex.I, -1; Complex.I, 1])
    = .ok (fun _ => !![Complex.I, -1; 0, 0], fun _ => !![1, 0; 0, 0]) := by
  have e : (fun _ => !![Complex.I, -1; Complex.I, 1] : Spec Unit 2 2) = turn (fun _ => ![Complex.I, -1]) limX := by
    funext f
    ext k j
    fin_cases k <;> fin_cases j <;> simp [turn, limX]
  have hu : ∀ (f : Unit) s, ‖(![Complex.I, -1] : Fin 2 → ℂ) s‖ = 1 := fun _ s => by
    fin_cases s <;> simp
  rw [e, Iva.C83_call hu, lim_run]
  change Except.map _ (finish (.bool true) 0 limX (limW (limA N))) = _
  rw [lim_finish]
  simp only [Except.map]
  congr 2
  funext f
  ext k j
  fin_cases k <;> fin_cases j <;> simp [turn]

/-- The instantaneous covariance of the observation `(1, i)` with `max(·, 1/2)` as flooring. -/
example (np : Numpy ℂ) :
    Mnmf.instantCovariance np (fun x => max x (1 / 2)) (fun _ : Unit => (!![1; Complex.I] : Matrix (Fin 2) (Fin 1) ℂ)) () 0
      = !![5 / 4, -(3 / 4) * Complex.I; 3 / 4 * Complex.I, 5 / 4] := by
  rw [Mnmf.C83_instant_covariance]
  ext a b
  fin_cases a <;> fin_cases b <;> simp [vecMulVec] <;> norm_num

end Verif
