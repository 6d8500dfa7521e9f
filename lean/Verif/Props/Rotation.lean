import Verif.Lemmas.Equivariance
import Verif.Props.EigFree
import Verif.Props.MnmfCall

/-!
# C95: GaussMNMF and CACGMM do not see a rotation of the channels

`U f` is a unitary matrix for every bin, for example a permutation of the microphones, a change of sign of one of them, or a delay
of one of them (a phase). The recording `U f * X f` leads to the same NMF parameters, losses and posterior probabilities.
-/

set_option linter.unusedSectionVars false

namespace Verif.Rotation

open Matrix Scale
open _root_.Verif.Spatial (onBins onBins_map onBins_ok npSolve)
open scoped ComplexOrder

variable {F : Type} [Fintype F] {n m t K : ℕ}

/-! ## Conjugation with a unitary matrix -/

/-- `U A Uᴴ`. -/
def cj (U A : Mat m ℂ) : Mat m ℂ := U * A * Uᴴ

section conj

variable {U : Mat m ℂ} (hU : Uᴴ * U = 1)
include hU

theorem cj_mul (A B : Mat m ℂ) : cj U A * cj U B = cj U (A * B) := by
  simp only [cj]
  calc U * A * Uᴴ * (U * B * Uᴴ) = U * A * (Uᴴ * U) * B * Uᴴ := by simp only [Matrix.mul_assoc]
    _ = _ := by rw [hU, Matrix.mul_one]; simp only [Matrix.mul_assoc]

theorem cj_one : cj U 1 = 1 := by rw [cj, Matrix.mul_one, mul_eq_one_comm.mp hU]

theorem cj_inv (A : Mat m ℂ) : (cj U A)⁻¹ = cj U A⁻¹ := by
  have h1 : U⁻¹ = Uᴴ := inv_eq_left_inv hU
  have h2 : Uᴴ⁻¹ = U := inv_eq_right_inv hU
  rw [cj, cj, Matrix.mul_inv_rev, Matrix.mul_inv_rev, h1, h2, Matrix.mul_assoc]

theorem cj_trace (A : Mat m ℂ) : (cj U A).trace = A.trace := by
  rw [cj, Matrix.trace_mul_comm, ← Matrix.mul_assoc, hU, Matrix.one_mul]

theorem cj_det (A : Mat m ℂ) : (cj U A).det = A.det := by
  have h : Uᴴ.det * U.det = 1 := by rw [← det_mul, hU, det_one]
  rw [cj, det_mul, det_mul]
  linear_combination A.det * h

omit hU in
theorem cj_smul (a : ℂ) (A : Mat m ℂ) : cj U (a • A) = a • cj U A := by
  rw [cj, cj, Matrix.mul_smul, Matrix.smul_mul]

omit hU in
theorem cj_sum {ι : Type} (S : Finset ι) (A : ι → Mat m ℂ) : cj U (∑ i ∈ S, A i) = ∑ i ∈ S, cj U (A i) := by
  rw [cj, Finset.mul_sum, Finset.sum_mul]
  rfl

omit hU in
theorem cj_conjTranspose (A : Mat m ℂ) : (cj U A)ᴴ = cj U Aᴴ := by
  simp only [cj, conjTranspose_mul, conjTranspose_conjTranspose, Matrix.mul_assoc]

omit hU in
theorem cj_symmetrise (A : Mat m ℂ) : Special.symmetrise (cj U A) = cj U (Special.symmetrise A) := by
  rw [Special.symmetrise, Special.symmetrise, cj_smul, cj_conjTranspose]
  congr 1
  simp only [cj, Matrix.mul_add, Matrix.add_mul]

theorem cj_posDef {A : Mat m ℂ} (hA : A.PosDef) : (cj U A).PosDef := by
  refine hA.mul_mul_conjTranspose_same (vecMul_injective_of_isUnit ?_)
  exact IsUnit.of_mul_eq_one _ (mul_eq_one_comm.mp hU)

theorem npInv_cj (A : Mat m ℂ) : npInv (cj U A) = Except.map (cj U) (npInv A) := by
  rw [npInv, npInv, cj_det hU, cj_inv hU]
  split_ifs <;> rfl

theorem npSolve_cj (A B : Mat m ℂ) : npSolve (cj U A) (cj U B) = Except.map (cj U) (npSolve A B) := by
  rw [npSolve, npSolve, cj_det hU, cj_inv hU, cj_mul hU]
  split_ifs <;> rfl

theorem toPsd_cj (np : Numpy ℂ) (floor : ℝ → ℝ) (A : Mat m ℂ) :
    Mnmf.toPsd np floor (cj U A) = cj U (Mnmf.toPsd np floor A) := by
  have h1 := np.eigh_spec _ (EigFree.symmetrise_hermitian (cj U A))
  have h2 := np.eigh_spec _ (EigFree.symmetrise_hermitian A)
  have hu : (U * (np.eigh (Special.symmetrise A)).2)ᴴ * (U * (np.eigh (Special.symmetrise A)).2) = 1 := by
    rw [conjTranspose_mul]
    calc (np.eigh (Special.symmetrise A)).2ᴴ * Uᴴ * (U * (np.eigh (Special.symmetrise A)).2)
        = (np.eigh (Special.symmetrise A)).2ᴴ * (Uᴴ * U) * (np.eigh (Special.symmetrise A)).2 := by
          simp only [Matrix.mul_assoc]
      _ = 1 := by rw [hU, Matrix.mul_one, h2.unitary]
  have hd : (np.eigh (Special.symmetrise (cj U A))).2
      * (diagonal fun i => ((np.eigh (Special.symmetrise (cj U A))).1 i : ℂ)) * (np.eigh (Special.symmetrise (cj U A))).2ᴴ
      = U * (np.eigh (Special.symmetrise A)).2 * (diagonal fun i => ((np.eigh (Special.symmetrise A)).1 i : ℂ))
        * (U * (np.eigh (Special.symmetrise A)).2)ᴴ := by
    have e1 := h1.decomp
    have e2 := h2.decomp
    refine e1.symm.trans ?_
    rw [cj_symmetrise]
    conv_lhs => rw [e2]
    rw [cj, conjTranspose_mul]
    simp only [Matrix.mul_assoc]
    rfl
  have key := EigFree.spectral_unique h1.unitary hu hd floor
  change Special.symmetrise ((np.eigh (Special.symmetrise (cj U A))).2
    * npDiag (fun i => floor ((np.eigh (Special.symmetrise (cj U A))).1 i)) * (np.eigh (Special.symmetrise (cj U A))).2ᴴ)
    = cj U (Special.symmetrise ((np.eigh (Special.symmetrise A)).2
    * npDiag (fun i => floor ((np.eigh (Special.symmetrise A)).1 i)) * (np.eigh (Special.symmetrise A)).2ᴴ))
  rw [← cj_symmetrise]
  congr 1
  refine key.trans ?_
  rw [cj, conjTranspose_mul]
  simp only [Matrix.mul_assoc]

theorem gmeanmh_cj (np : Numpy ℂ) {A B : Mat m ℂ} (hA : A.PosDef) (hB : B.PosDef) :
    Linalg.gmeanmh np (cj U A) (cj U B) 2 = Except.map (cj U) (Linalg.gmeanmh np A B 2) := by
  obtain ⟨G, e, p, -, h2, -⟩ := Linalg.C17_gmeanmh np A B hA hB 2 (by tauto)
  obtain ⟨G', e', p', -, h2', -⟩ := Linalg.C17_gmeanmh np (cj U A) (cj U B) (cj_posDef hU hA) (cj_posDef hU hB) 2 (by tauto)
  rw [e, e']
  refine congrArg Except.ok (EigFree.riccati_unique (cj_posDef hU hA) p' (cj_posDef hU p) ?_)
  rw [cj_mul hU, cj_mul hU, h2 rfl, h2' rfl]

theorem cj_outer (x : Fin m → ℂ) :
    (Matrix.of fun a b => (U *ᵥ x) a * star ((U *ᵥ x) b)) = cj U (Matrix.of fun a b => x a * star (x b)) := by
  have h : ∀ y : Fin m → ℂ, (Matrix.of fun a b => y a * star (y b)) = vecMulVec y (star y) := fun _ => rfl
  rw [h, h, cj, mul_vecMulVec, vecMulVec_mul, star_mulVec]

theorem norm_rot (x : Fin m → ℂ) : ∑ c, ‖(U *ᵥ x) c‖ ^ 2 = ∑ c, ‖x c‖ ^ 2 := by
  have h : ∀ y : Fin m → ℂ, ((∑ c, ‖y c‖ ^ 2 : ℝ) : ℂ) = star y ⬝ᵥ y := fun y => by
    rw [dotProduct]
    push_cast
    refine Finset.sum_congr rfl fun i _ => ?_
    rw [Pi.star_apply, mul_comm]
    exact (Complex.mul_conj' (y i)).symm
  have : ((∑ c, ‖(U *ᵥ x) c‖ ^ 2 : ℝ) : ℂ) = ((∑ c, ‖x c‖ ^ 2 : ℝ) : ℂ) := by
    rw [h, h, star_mulVec, dotProduct_mulVec, vecMul_vecMul, hU, vecMul_one]
  exact_mod_cast this

theorem quadratic_cj (x : Fin m → ℂ) (A : Mat m ℂ) : Linalg.quadratic (U *ᵥ x) (cj U A) = Linalg.quadratic x A := by
  rw [Linalg.quadratic, Linalg.quadratic, star_mulVec, cj, vecMul_vecMul, ← Matrix.mul_assoc, ← Matrix.mul_assoc, hU,
    Matrix.one_mul, dotProduct_mulVec, vecMul_vecMul, Matrix.mul_assoc, hU, Matrix.mul_one]

end conj

/-! ## GaussMNMF -/

section mnmf

open Mnmf Ilrma

variable {U : F → Mat m ℂ} (hU : ∀ f, (U f)ᴴ * U f = 1)

/-- The recording after the rotation. -/
def rotX (U : F → Mat m ℂ) (X : Spec F m t) : Spec F m t := fun f => U f * X f

/-- The spatial covariances after the rotation. -/
def rotH (U : F → Mat m ℂ) (H : Fin n → F → Mat m ℂ) : Fin n → F → Mat m ℂ := fun k f => cj (U f) (H k f)

omit [Fintype F] in
private theorem onBins2 {I J α β : Type} (g : I → J → Except PyErr α) (e : I → α → β) :
    (onBins fun i => onBins fun j => Except.map (e i) (g i j))
      = Except.map (fun y i j => e i (y i j)) (onBins fun i => onBins fun j => g i j) := by
  rw [← onBins_map (e := fun i (y : J → α) j => e i (y j))]
  congr 1
  funext i
  exact onBins_map (g i) fun _ => e i

omit [Fintype F] in
private theorem onBins2' {I J α β : Type} (g : I → J → Except PyErr α) (e : J → α → β) :
    (onBins fun i => onBins fun j => Except.map (e j) (g i j))
      = Except.map (fun y i j => e j (y i j)) (onBins fun i => onBins fun j => g i j) := by
  rw [← onBins_map (e := fun _ (y : J → α) j => e j (y j))]
  congr 1
  funext i
  exact onBins_map (g i) e

theorem fullRn_rot (Lamb : Fin n → F → Fin t → ℝ) (H : Fin n → F → Mat m ℂ) (f : F) (j : Fin t) (k : Fin n) :
    fullRn Lamb (rotH U H) f j k = cj (U f) (fullRn Lamb H f j k) := by
  rw [fullRn, fullRn, cj_smul]
  rfl

theorem fullR_rot (Lamb : Fin n → F → Fin t → ℝ) (H : Fin n → F → Mat m ℂ) (f : F) (j : Fin t) :
    fullR Lamb (rotH U H) f j = cj (U f) (fullR Lamb H f j) := by
  simp only [fullR, fullRn_rot, cj_sum]

include hU

theorem instantCovariance_rot (np : Numpy ℂ) (floor : ℝ → ℝ) (X : Spec F m t) :
    instantCovariance np floor (rotX U X) = fun f j => cj (U f) (instantCovariance np floor X f j) := by
  funext f j
  rw [instantCovariance, instantCovariance, ← toPsd_cj (hU f), ← cj_outer (hU f)]
  rfl

theorem traces_rot (R XX : F → Fin t → Mat m ℂ) (H : Fin n → F → Mat m ℂ) :
    traces (fun f j => cj (U f) (R f j)) (fun f j => cj (U f) (XX f j)) (rotH U H) = traces R XX H := by
  simp only [traces, rotH, npSolve_cj (hU _)]
  rw [onBins2 (fun f j => npSolve (R f j) (XX f j)) fun f => cj (U f), bind_map]
  congr 1
  funext RXX
  have e : (onBins fun k => onBins fun f => onBins fun j => Except.map (cj (U f)) (npSolve (R f j) (H k f)))
      = Except.map (fun y k f j => cj (U f) (y k f j)) (onBins fun k => onBins fun f => onBins fun j => npSolve (R f j) (H k f)) := by
    rw [← onBins_map (e := fun _ (y : F → Fin t → Mat m ℂ) f j => cj (U f) (y f j))]
    congr 1
    funext k
    exact onBins2 (fun f j => npSolve (R f j) (H k f)) fun f => cj (U f)
  rw [e, bind_map]
  congr 1
  funext RH
  simp only [cj_mul (hU _), cj_trace (hU _)]

theorem fullUpdateSpatial_rot (np : Numpy ℂ) {floor : ℝ → ℝ} (hf : ∀ x, 0 < floor x) (XX : F → Fin t → Mat m ℂ)
    (Lamb : Fin n → F → Fin t → ℝ) (H : Fin n → F → Mat m ℂ) :
    fullUpdateSpatial np floor (fun f j => cj (U f) (XX f j)) Lamb (rotH U H)
      = Except.map (rotH U) (fullUpdateSpatial np floor XX Lamb H) := by
  simp only [fullUpdateSpatial, fullR_rot, toPsd_cj (hU _), npInv_cj (hU _)]
  rw [onBins2 (fun f j => npInv (toPsd np floor (fullR Lamb H f j))) fun f => cj (U f), bind_map, map_bind]
  congr 1
  funext Ri
  change _ = Except.map (fun (y : Fin n → F → Mat m ℂ) k f => cj (U f) (y k f)) _
  rw [← onBins2' _ fun f => cj (U f)]
  congr 1
  funext k
  congr 1
  funext f
  have e1 : ∑ j, (Lamb k f j : ℂ) • cj (U f) (Ri f j) = cj (U f) (∑ j, (Lamb k f j : ℂ) • Ri f j) := by
    simp only [cj_sum, cj_smul]
  have e2 : rotH U H k f * (∑ j, (Lamb k f j : ℂ) • (cj (U f) (Ri f j) * cj (U f) (XX f j) * cj (U f) (Ri f j))) * rotH U H k f
      = cj (U f) (H k f * (∑ j, (Lamb k f j : ℂ) • (Ri f j * XX f j * Ri f j)) * H k f) := by
    simp only [rotH, cj_mul (hU f), ← cj_smul, ← cj_sum]
  rw [e1, e2, toPsd_cj (hU f), toPsd_cj (hU f), gmeanmh_cj (hU f) np (EigFree.toPsd_posDef np hf _) (EigFree.toPsd_posDef np hf _),
    bind_map, map_bind]
  congr 1
  funext G
  rw [toPsd_cj (hU f)]
  rfl

theorem fullLoss_rot (np : Numpy ℂ) (floor : ℝ → ℝ) (XX : F → Fin t → Mat m ℂ) (Lamb : Fin n → F → Fin t → ℝ)
    (H : Fin n → F → Mat m ℂ) :
    fullLoss np floor (fun f j => cj (U f) (XX f j)) Lamb (rotH U H) = fullLoss np floor XX Lamb H := by
  simp only [fullLoss, fullR_rot, toPsd_cj (hU _), npSolve_cj (hU _), cj_det (hU _)]
  rw [onBins2 (fun f j => npSolve (toPsd np floor (fullR Lamb H f j)) (XX f j)) fun f => cj (U f), bind_map]
  simp only [cj_trace (hU _)]

/-- The state after the rotation. -/
def rotS (U : F → Mat m ℂ) (s : MSt F n m t K) : MSt F n m t K := ⟨s.T, s.V, rotH U s.H⟩

/-- The state after the rotation, with partitioning. -/
def rotP (U : F → Mat m ℂ) (s : MStP F n m t K) : MStP F n m t K := ⟨s.Z, s.T, s.V, rotH U s.H⟩

theorem fullUpdateOnce_rot (np : Numpy ℂ) (normalization : Bool) {floor : ℝ → ℝ} (hf : ∀ x, 0 < floor x)
    (XX : F → Fin t → Mat m ℂ) (s : MSt F n m t K) :
    fullUpdateOnce np normalization floor (fun f j => cj (U f) (XX f j)) (rotS U s)
      = Except.map (rotS U) (fullUpdateOnce np normalization floor XX s) := by
  have h1 : fullUpdateBasis np floor (fun f j => cj (U f) (XX f j)) (rotS U s)
      = Except.map (rotS U) (fullUpdateBasis np floor XX s) := by
    simp only [fullUpdateBasis, rotS, fullR_rot, toPsd_cj (hU _), traces_rot hU]
    rw [map_bind]
    rfl
  have h2 : ∀ s : MSt F n m t K, fullUpdateActivation np floor (fun f j => cj (U f) (XX f j)) (rotS U s)
      = Except.map (rotS U) (fullUpdateActivation np floor XX s) := by
    intro s
    simp only [fullUpdateActivation, rotS, fullR_rot, toPsd_cj (hU _), traces_rot hU]
    rw [map_bind]
    rfl
  rw [fullUpdateOnce, fullUpdateOnce, h1, bind_map, map_bind]
  congr 1
  funext s1
  rw [h2, bind_map, map_bind]
  congr 1
  funext s2
  change (fullUpdateSpatial np floor (fun f j => cj (U f) (XX f j)) (recon s2.T s2.V) (rotH U s2.H) >>= _) = _
  rw [fullUpdateSpatial_rot hU np hf, bind_map, map_bind]
  congr 1
  funext H
  cases normalization with
  | false => rfl
  | true =>
    simp only [if_true, Except.map]
    congr 1
    have e : (rotH U fun k f => (((H k f).trace.re : ℝ) : ℂ)⁻¹ • H k f)
        = fun k f => (((H k f).trace.re : ℝ) : ℂ)⁻¹ • cj (U f) (H k f) := by
      funext k f
      rw [rotH, cj_smul]
    simp only [fullNormalize, rotS, e]
    simp only [rotH, cj_trace (hU _)]

theorem fullUpdateOnceP_rot (np : Numpy ℂ) (normalization : Bool) {floor : ℝ → ℝ} (hf : ∀ x, 0 < floor x)
    (XX : F → Fin t → Mat m ℂ) (s : MStP F n m t K) :
    fullUpdateOnceP np normalization floor (fun f j => cj (U f) (XX f j)) (rotP U s)
      = Except.map (rotP U) (fullUpdateOnceP np normalization floor XX s) := by
  have h1 : fullUpdateBasisP np floor (fun f j => cj (U f) (XX f j)) (rotP U s)
      = Except.map (rotP U) (fullUpdateBasisP np floor XX s) := by
    simp only [fullUpdateBasisP, MStP.R, rotP, fullR_rot, toPsd_cj (hU _), traces_rot hU]
    rw [map_bind]
    rfl
  have h2 : ∀ s : MStP F n m t K, fullUpdateActivationP np floor (fun f j => cj (U f) (XX f j)) (rotP U s)
      = Except.map (rotP U) (fullUpdateActivationP np floor XX s) := by
    intro s
    simp only [fullUpdateActivationP, MStP.R, rotP, fullR_rot, toPsd_cj (hU _), traces_rot hU]
    rw [map_bind]
    rfl
  have h3 : ∀ s : MStP F n m t K, fullUpdateLatent np floor (fun f j => cj (U f) (XX f j)) (rotP U s)
      = Except.map (rotP U) (fullUpdateLatent np floor XX s) := by
    intro s
    simp only [fullUpdateLatent, MStP.R, rotP, fullR_rot, toPsd_cj (hU _), traces_rot hU]
    rw [map_bind]
    rfl
  rw [fullUpdateOnceP, fullUpdateOnceP, h1, bind_map, map_bind]
  congr 1
  funext s1
  rw [h2, bind_map, map_bind]
  congr 1
  funext s2
  change (fullUpdateSpatial np floor (fun f j => cj (U f) (XX f j)) (reconP s2.Z s2.T s2.V) (rotH U s2.H) >>= _) = _
  rw [fullUpdateSpatial_rot hU np hf, bind_map, map_bind]
  congr 1
  funext H
  cases normalization with
  | false => exact h3 ⟨s2.Z, s2.T, s2.V, H⟩
  | true =>
    have e : fullNormalizeP (rotP U ⟨s2.Z, s2.T, s2.V, H⟩) = rotP U (fullNormalizeP ⟨s2.Z, s2.T, s2.V, H⟩) := by
      have e : (rotH U fun k f => (((H k f).trace.re : ℝ) : ℂ)⁻¹ • H k f)
          = fun k f => (((H k f).trace.re : ℝ) : ℂ)⁻¹ • cj (U f) (H k f) := by
        funext k f
        rw [rotH, cj_smul]
      simp only [fullNormalizeP, rotP, e]
      simp only [rotH, cj_trace (hU _)]
    have := h3 (fullNormalizeP ⟨s2.Z, s2.T, s2.V, H⟩)
    rw [← e] at this
    exact this

/-- The output with reference channel `r` is the rotated vector of the outputs with all reference channels. -/
theorem fullSeparate_rot (np : Numpy ℂ) {floor : ℝ → ℝ} (hf : ∀ x, 0 < floor x) (r : Fin m) (X : Spec F m t)
    (Lamb : Fin n → F → Fin t → ℝ) (H : Fin n → F → Mat m ℂ) {Y : Fin m → F → Fin t → Fin n → ℂ}
    (hY : ∀ c, fullSeparate np floor c X Lamb H = .ok (Y c)) :
    fullSeparate np floor r (rotX U X) Lamb (rotH U H) = .ok fun f j k => ∑ c, U f r c * Y c f j k := by
  have hu : ∀ f j, IsUnit (toPsd np floor (fullR Lamb H f j)).det := fun f j =>
    (isUnit_iff_isUnit_det _).mp (EigFree.toPsd_posDef np hf _).isUnit
  have hw : ∀ c f j, wiener np floor c (fullRn Lamb H f j) (fun c => X f c j)
      = .ok fun k => ∑ c', (((toPsd np floor (fullR Lamb H f j))⁻¹ * fullRn Lamb H f j k)ᴴ c c') * X f c' j := by
    intro c f j
    have : ∀ k, npSolve (toPsd np floor (∑ k, fullRn Lamb H f j k)) (fullRn Lamb H f j k)
        = .ok ((toPsd np floor (fullR Lamb H f j))⁻¹ * fullRn Lamb H f j k) := fun k => by
      exact if_pos (hu f j)
    simp only [wiener, onBins_ok this, bind, Except.bind]
  have hYe : ∀ c f j k, Y c f j k
      = ∑ c', (((toPsd np floor (fullR Lamb H f j))⁻¹ * fullRn Lamb H f j k)ᴴ c c') * X f c' j := by
    intro c f j k
    have h1 : fullSeparate np floor c X Lamb H = .ok fun f j k =>
        ∑ c', (((toPsd np floor (fullR Lamb H f j))⁻¹ * fullRn Lamb H f j k)ᴴ c c') * X f c' j :=
      onBins_ok fun f => onBins_ok fun j => hw c f j
    rw [hY c] at h1
    exact congrFun (congrFun (congrFun (Except.ok.inj h1) f) j) k
  refine onBins_ok fun f => onBins_ok fun j => ?_
  have hs : ∀ k, npSolve (toPsd np floor (∑ k, fullRn Lamb (rotH U H) f j k)) (fullRn Lamb (rotH U H) f j k)
      = .ok (cj (U f) ((toPsd np floor (fullR Lamb H f j))⁻¹ * fullRn Lamb H f j k)) := fun k => by
    have e : toPsd np floor (∑ k, fullRn Lamb (rotH U H) f j k) = cj (U f) (toPsd np floor (fullR Lamb H f j)) := by
      rw [← toPsd_cj (hU f), ← fullR_rot]
      rfl
    rw [e, fullRn_rot, npSolve_cj (hU f), npSolve, if_pos (hu f j)]
    rfl
  simp only [wiener, onBins_ok hs, bind, Except.bind]
  refine congrArg Except.ok (funext fun k => ?_)
  simp only [hYe]
  obtain ⟨M, hM⟩ : ∃ M, M = (toPsd np floor (fullR Lamb H f j))⁻¹ * fullRn Lamb H f j k := ⟨_, rfl⟩
  rw [← hM, cj_conjTranspose]
  have e1 : ∑ c, cj (U f) Mᴴ r c * rotX U X f c j = (cj (U f) Mᴴ * (U f * X f)) r j := rfl
  have e2 : ∑ c, U f r c * ∑ c', Mᴴ c c' * X f c' j = (U f * (Mᴴ * X f)) r j := rfl
  rw [e1, e2, cj, Matrix.mul_assoc, ← Matrix.mul_assoc (U f)ᴴ, hU f, Matrix.one_mul, Matrix.mul_assoc]

end mnmf

/-! ## Calls of `GaussMNMF` -/

section calls

open Mnmf MnmfCall
open Ilrma (recon reconP)
open Lifecycle (Attr)
open IlrmaCall (override attrOr initNmf initNmfP baseCall iterations Draw DrawP)

theorem iterations_map {σ τ : Type} {step : σ → Except PyErr σ} {step' : τ → Except PyErr τ} {loss : σ → Except PyErr ℝ}
    {loss' : τ → Except PyErr ℝ} {e : σ → τ} (hs : ∀ s, step' (e s) = Except.map e (step s)) (hl : ∀ s, loss' (e s) = loss s)
    (n_iter : ℕ) (s : σ) (ls : List ℝ) :
    iterations step' loss' n_iter (e s) ls = Except.map (fun p => (e p.1, p.2)) (iterations step loss n_iter s ls) := by
  induction n_iter generalizing s ls with
  | zero => rfl
  | succ N ih =>
    rw [iterations, iterations, hs, map_bind, bind_map]
    congr 1
    funext s1
    rw [hl, map_bind]
    congr 1
    funext v
    exact ih s1 _

theorem baseCall_map {σ τ : Type} {step : σ → Except PyErr σ} {step' : τ → Except PyErr τ} {loss : σ → Except PyErr ℝ}
    {loss' : τ → Except PyErr ℝ} {e : σ → τ} (hs : ∀ s, step' (e s) = Except.map e (step s)) (hl : ∀ s, loss' (e s) = loss s)
    (ic : Bool) (n_iter : ℕ) (s : σ) (ls : List ℝ) :
    baseCall step' loss' ic n_iter (e s) ls = Except.map (fun p => (e p.1, p.2)) (baseCall step loss ic n_iter s ls) := by
  cases ic with
  | false => exact iterations_map hs hl n_iter s ls
  | true =>
    change (loss' (e s) >>= fun v => iterations step' loss' n_iter (e s) (ls ++ [v]))
      = Except.map _ (loss s >>= fun v => iterations step loss n_iter s (ls ++ [v]))
    rw [hl, map_bind]
    congr 1
    funext v
    exact iterations_map hs hl n_iter s _

/-- An attribute that holds spatial covariances, after the rotation. -/
def rotA (U : F → Mat m ℂ) : Attr (Fin n → F → Mat m ℂ) → Attr (Fin n → F → Mat m ℂ)
  | .absent => .absent
  | .none => .none
  | .val H => .val (rotH U H)

variable {U : F → Mat m ℂ} (hU : ∀ f, (U f)ᴴ * U f = 1)
include hU

theorem attrOr_rot (kw : Option (Fin n → F → Mat m ℂ)) (a : Attr (Fin n → F → Mat m ℂ)) :
    attrOr (fun _ _ => eyeOverTrace m) (override (kw.map (rotH U)) (rotA U a))
      = Except.map (rotH U) (attrOr (fun _ _ => eyeOverTrace m) (override kw a)) := by
  cases kw with
  | some H => rfl
  | none =>
    cases a with
    | absent =>
      refine congrArg Except.ok (funext fun k => funext fun f => ?_)
      rw [rotH, eyeOverTrace, cj_smul, cj_one (hU f)]
    | none => rfl
    | val H => rfl

theorem baseCall_rot (np : Numpy ℂ) (norm : Bool) {floor : ℝ → ℝ} (hf : ∀ x, 0 < floor x) (X : Spec F m t) (ic : Bool)
    (n_iter : ℕ) (s : MSt F n m t K) (ls : List ℝ) :
    baseCall (fullUpdateOnce np norm floor (instantCovariance np floor (rotX U X)))
        (fun s => fullLoss np floor (instantCovariance np floor (rotX U X)) (recon s.T s.V) s.H) ic n_iter (rotS U s) ls
      = Except.map (fun p => (rotS U p.1, p.2)) (baseCall (fullUpdateOnce np norm floor (instantCovariance np floor X))
        (fun s => fullLoss np floor (instantCovariance np floor X) (recon s.T s.V) s.H) ic n_iter s ls) := by
  rw [instantCovariance_rot hU]
  generalize instantCovariance np floor X = XX
  refine baseCall_map (fun s => fullUpdateOnce_rot hU np norm hf XX s) (fun s => ?_) ic n_iter s ls
  exact fullLoss_rot hU np floor XX (recon s.T s.V) s.H

theorem baseCall_rotP (np : Numpy ℂ) (norm : Bool) {floor : ℝ → ℝ} (hf : ∀ x, 0 < floor x) (X : Spec F m t) (ic : Bool)
    (n_iter : ℕ) (s : MStP F n m t K) (ls : List ℝ) :
    baseCall (fullUpdateOnceP np norm floor (instantCovariance np floor (rotX U X)))
        (fun s => fullLoss np floor (instantCovariance np floor (rotX U X)) (reconP s.Z s.T s.V) s.H) ic n_iter (rotP U s) ls
      = Except.map (fun p => (rotP U p.1, p.2)) (baseCall (fullUpdateOnceP np norm floor (instantCovariance np floor X))
        (fun s => fullLoss np floor (instantCovariance np floor X) (reconP s.Z s.T s.V) s.H) ic n_iter s ls) := by
  rw [instantCovariance_rot hU]
  generalize instantCovariance np floor X = XX
  refine baseCall_map (fun s => fullUpdateOnceP_rot hU np norm hf XX s) (fun s => ?_) ic n_iter s ls
  exact fullLoss_rot hU np floor XX (reconP s.Z s.T s.V) s.H

/-- C95: a `GaussMNMF` call on the rotated recording, on an object (or with a keyword argument) whose spatial covariances are
rotated as well, raises the exception the call on the recording itself raises, or it returns with the same basis, the same
activations, the same losses and the rotated covariances; its outputs are the rotated outputs, where `Y r` is the output of
the call with reference channel `r`. The covariances every new object starts with are the same for both. -/
theorem C95_gauss (np : Numpy ℂ) (norm : Bool) (floor : ℝ → ℝ) (hf : ∀ x, 0 < floor x) (draw : Draw F n t K)
    (X : Spec F m t) (n_iter : ℕ) (ic : Bool) (kw : Kw F n m t K) (o : Obj F n m t K) :
    (∃ e, ∀ r, call np norm floor r draw X n_iter ic kw o = .error e ∧
      call np norm floor r draw (rotX U X) n_iter ic ⟨kw.basis, kw.activation, kw.spatial.map (rotH U)⟩
        ⟨o.basis, o.activation, rotA U o.spatial, o.output, o.loss⟩ = .error e) ∨
    ∃ (T : _) (V : _) (H : _) (Y : Fin m → Out F n t) (ls : _), ∀ r, call np norm floor r draw X n_iter ic kw o = .ok ⟨.val T, .val V, .val H, .val (Y r), ls⟩ ∧
      call np norm floor r draw (rotX U X) n_iter ic ⟨kw.basis, kw.activation, kw.spatial.map (rotH U)⟩
        ⟨o.basis, o.activation, rotA U o.spatial, o.output, o.loss⟩
        = .ok ⟨.val T, .val V, .val (rotH U H), .val fun f j k => ∑ c, U f r c * Y c f j k, ls⟩ := by
  have hN := attrOr_rot hU kw.spatial o.spatial
  cases e1 : initNmf floor draw.T draw.V (override kw.basis o.basis) (override kw.activation o.activation) with
  | error e =>
    refine .inl ⟨e, fun r => ⟨?_, ?_⟩⟩ <;> simp only [call, reset, e1, bind, Except.bind]
  | ok TV =>
    cases e2 : attrOr (fun _ _ => eyeOverTrace m) (override kw.spatial o.spatial) with
    | error e =>
      rw [e2] at hN
      refine .inl ⟨e, fun r => ⟨?_, ?_⟩⟩ <;> simp only [call, reset, e1, e2, hN, Except.map, bind, Except.bind]
    | ok H0 =>
      rw [e2] at hN
      choose Y0 hY0 using fun r => fullSeparate_ok (np := np) hf r X (recon TV.1 TV.2) H0
      have hY0' := fun r => fullSeparate_rot hU np hf r X (recon TV.1 TV.2) H0 hY0
      have hb := baseCall_rot hU np norm hf X ic n_iter ⟨TV.1, TV.2, H0⟩ o.loss
      rw [rotS] at hb
      cases e3 : baseCall (fullUpdateOnce np norm floor (instantCovariance np floor X))
          (fun s => fullLoss np floor (instantCovariance np floor X) (recon s.T s.V) s.H) ic n_iter (⟨TV.1, TV.2, H0⟩ : MSt F n m t K)
          o.loss with
      | error e =>
        rw [e3] at hb
        refine .inl ⟨e, fun r => ⟨?_, ?_⟩⟩
        · simp only [call, reset, e1, e2, hY0, e3, bind, Except.bind]
        · simp only [call, reset, e1, hN, hY0', hb, Except.map, bind, Except.bind]
      | ok p =>
        rw [e3] at hb
        choose Y hY using fun r => fullSeparate_ok (np := np) hf r X (recon p.1.T p.1.V) p.1.H
        have hY' := fun r => fullSeparate_rot hU np hf r X (recon p.1.T p.1.V) p.1.H hY
        refine .inr ⟨p.1.T, p.1.V, p.1.H, Y, p.2, fun r => ⟨?_, ?_⟩⟩
        · simp only [call, reset, e1, e2, hY0, e3, hY, bind, Except.bind]
        · simp only [call, reset, e1, hN, hY0', hb, rotS, hY', Except.map, bind, Except.bind]

/-- C95 with partitioning. -/
theorem C95_partitioned (np : Numpy ℂ) (norm : Bool) (floor : ℝ → ℝ) (hf : ∀ x, 0 < floor x) (draw : DrawP F n t K)
    (X : Spec F m t) (n_iter : ℕ) (ic : Bool) (kw : KwP F n m t K) (o : ObjP F n m t K) :
    (∃ e, ∀ r, callP np norm floor r draw X n_iter ic kw o = .error e ∧
      callP np norm floor r draw (rotX U X) n_iter ic ⟨kw.latent, kw.basis, kw.activation, kw.spatial.map (rotH U)⟩
        ⟨o.latent, o.basis, o.activation, rotA U o.spatial, o.output, o.loss⟩ = .error e) ∨
    ∃ (Z : _) (T : _) (V : _) (H : _) (Y : Fin m → Out F n t) (ls : _), ∀ r,
      callP np norm floor r draw X n_iter ic kw o = .ok ⟨.val Z, .val T, .val V, .val H, .val (Y r), ls⟩ ∧
      callP np norm floor r draw (rotX U X) n_iter ic ⟨kw.latent, kw.basis, kw.activation, kw.spatial.map (rotH U)⟩
        ⟨o.latent, o.basis, o.activation, rotA U o.spatial, o.output, o.loss⟩
        = .ok ⟨.val Z, .val T, .val V, .val (rotH U H), .val fun f j k => ∑ c, U f r c * Y c f j k, ls⟩ := by
  have hN := attrOr_rot hU kw.spatial o.spatial
  cases e1 : initNmfP floor draw.Z draw.T draw.V (override kw.latent o.latent) (override kw.basis o.basis)
      (override kw.activation o.activation) with
  | error e =>
    refine .inl ⟨e, fun r => ⟨?_, ?_⟩⟩ <;> simp only [callP, resetP, e1, bind, Except.bind]
  | ok TV =>
    cases e2 : attrOr (fun _ _ => eyeOverTrace m) (override kw.spatial o.spatial) with
    | error e =>
      rw [e2] at hN
      refine .inl ⟨e, fun r => ⟨?_, ?_⟩⟩ <;> simp only [callP, resetP, e1, e2, hN, Except.map, bind, Except.bind]
    | ok H0 =>
      rw [e2] at hN
      choose Y0 hY0 using fun r => fullSeparate_ok (np := np) hf r X (reconP TV.1 TV.2.1 TV.2.2) H0
      have hY0' := fun r => fullSeparate_rot hU np hf r X (reconP TV.1 TV.2.1 TV.2.2) H0 hY0
      have hb := baseCall_rotP hU np norm hf X ic n_iter ⟨TV.1, TV.2.1, TV.2.2, H0⟩ o.loss
      rw [rotP] at hb
      cases e3 : baseCall (fullUpdateOnceP np norm floor (instantCovariance np floor X))
          (fun s => fullLoss np floor (instantCovariance np floor X) (reconP s.Z s.T s.V) s.H) ic n_iter
          (⟨TV.1, TV.2.1, TV.2.2, H0⟩ : MStP F n m t K) o.loss with
      | error e =>
        rw [e3] at hb
        refine .inl ⟨e, fun r => ⟨?_, ?_⟩⟩
        · simp only [callP, resetP, e1, e2, hY0, e3, bind, Except.bind]
        · simp only [callP, resetP, e1, hN, hY0', hb, Except.map, bind, Except.bind]
      | ok p =>
        rw [e3] at hb
        choose Y hY using fun r => fullSeparate_ok (np := np) hf r X (reconP p.1.Z p.1.T p.1.V) p.1.H
        have hY' := fun r => fullSeparate_rot hU np hf r X (reconP p.1.Z p.1.T p.1.V) p.1.H hY
        refine .inr ⟨p.1.Z, p.1.T, p.1.V, p.1.H, Y, p.2, fun r => ⟨?_, ?_⟩⟩
        · simp only [callP, resetP, e1, e2, hY0, e3, hY, bind, Except.bind]
        · simp only [callP, resetP, e1, hN, hY0', hb, rotP, hY', Except.map, bind, Except.bind]

end calls

/-! ## The order of the microphones -/

section channels

open MnmfCall
open IlrmaCall (Draw DrawP)

/-- The rotation that renames the channels. -/
def chan (τ : Equiv.Perm (Fin m)) : Mat m ℂ := Matrix.of fun c d => if d = τ c then 1 else 0

theorem chan_mul (τ : Equiv.Perm (Fin m)) {l : ℕ} (A : Matrix (Fin m) (Fin l) ℂ) :
    chan τ * A = Matrix.of fun c j => A (τ c) j := by
  ext c j
  simp [chan, Matrix.mul_apply]

theorem chan_cj (τ : Equiv.Perm (Fin m)) (A : Mat m ℂ) : cj (chan τ) A = Matrix.of fun a b => A (τ a) (τ b) := by
  rw [cj, chan_mul]
  ext a b
  simp [chan, Matrix.mul_apply, conjTranspose_apply, apply_ite]

theorem chan_unitary (τ : Equiv.Perm (Fin m)) : (chan τ)ᴴ * chan τ = 1 := by
  have h : chan τ * (chan τ)ᴴ = 1 := by
    have := chan_cj τ (1 : Mat m ℂ)
    rw [cj, Matrix.mul_one] at this
    rw [this]
    ext a b
    simp [Matrix.one_apply]
  exact mul_eq_one_comm.mp h

/-- C95: the order of the microphones does not matter to `GaussMNMF`. For a new object, the recording with channel `τ c` in
place `c` and the reference channel `r` lead to the basis, the activations, the losses and the outputs the recording
itself leads to with the reference channel `τ r`; the covariances are those with rows and columns renamed. -/
theorem C95_channels [Nonempty (Fin m)] (np : Numpy ℂ) (norm : Bool) (floor : ℝ → ℝ) (hf : ∀ x, 0 < floor x) (draw : Draw F n t K)
    (X : Spec F m t) (τ : Equiv.Perm (Fin m)) (n_iter : ℕ) (ic : Bool) :
    ∃ (T : _) (V : _) (H : _) (Y : Fin m → Out F n t) (ls : _), ∀ r, call np norm floor (τ r) draw X n_iter ic {} Obj.fresh = .ok ⟨.val T, .val V, .val H, .val (Y r), ls⟩ ∧
      call np norm floor r draw (fun f => Matrix.of fun c j => X f (τ c) j) n_iter ic {} Obj.fresh
        = .ok ⟨.val T, .val V, .val fun k f => Matrix.of fun a b => H k f (τ a) (τ b), .val (Y r), ls⟩ := by
  have e : rotX (fun _ : F => chan τ) X = fun f => Matrix.of fun c j => X f (τ c) j := funext fun f => chan_mul τ (X f)
  rcases C95_gauss (U := fun _ : F => chan τ) (fun _ => chan_unitary τ) np norm floor hf draw X n_iter ic {} Obj.fresh with
    ⟨err, h⟩ | ⟨T, V, H, Y, ls, h⟩
  · obtain ⟨o', -, -, -, -, h', -⟩ := C87_gauss_returns np norm floor hf (Classical.arbitrary _) draw X n_iter ic {} Obj.fresh
      (.inl rfl) (.inl rfl) (.inl rfl)
    rw [(h _).1] at h'
    cases h'
  · refine ⟨T, V, H, fun r => Y (τ r), ls, fun r => ⟨(h (τ r)).1, ?_⟩⟩
    rw [← e]
    refine ((h r).2).trans ?_
    have e1 : rotH (fun _ : F => chan τ) H = fun k f => Matrix.of fun a b => H k f (τ a) (τ b) :=
      funext fun k => funext fun f => chan_cj τ _
    have e2 : (fun f j k => ∑ c, chan τ r c * Y c f j k) = Y (τ r) := by
      funext f j k
      simp [chan]
    rw [e1, e2]

/-- Two microphones exchanged, with the default flooring function. -/
example (np : Numpy ℂ) (draw : Draw (Fin 3) 2 4 2) (X : Spec (Fin 3) 2 4) :
    ∃ o o', call np true (Special.max_flooring (1 / 10 ^ 10)) 1 draw X 100 true {} Obj.fresh = .ok o ∧
      call np true (Special.max_flooring (1 / 10 ^ 10)) 0 draw (fun f => Matrix.of fun c j => X f (Equiv.swap 0 1 c) j) 100 true {}
        Obj.fresh = .ok o' ∧ o'.output = o.output ∧ o'.loss = o.loss := by
  obtain ⟨T, V, H, Y, ls, h⟩ := C95_channels np true (Special.max_flooring (1 / 10 ^ 10)) (fun x => lt_max_of_lt_right (by norm_num))
    draw X (Equiv.swap 0 1) 100 true
  exact ⟨_, _, (h 0).1, (h 0).2, rfl, rfl⟩

/-- A microphone connected with the wrong polarity: nothing but the sign of its own channel changes. -/
example (np : Numpy ℂ) (draw : Draw (Fin 3) 2 4 2) (X : Spec (Fin 3) 2 4) :
    ∃ o o', call np true (Special.max_flooring (1 / 10 ^ 10)) 0 draw X 100 true {} Obj.fresh = .ok o ∧
      call np true (Special.max_flooring (1 / 10 ^ 10)) 0 draw (rotX (fun _ => diagonal ![1, -1]) X) 100 true {} Obj.fresh = .ok o' ∧
      o'.output = o.output ∧ o'.loss = o.loss := by
  rcases C95_gauss (U := fun _ : Fin 3 => diagonal ![(1 : ℂ), -1])
    (fun _ => by ext a b; fin_cases a <;> fin_cases b <;> simp [Matrix.mul_apply, Matrix.diagonal]) np true
    (Special.max_flooring (1 / 10 ^ 10)) (fun x => lt_max_of_lt_right (by norm_num)) draw X 100 true {} Obj.fresh with
    ⟨e, h⟩ | ⟨T, V, H, Y, ls, h⟩
  · obtain ⟨o', -, -, -, -, h', -⟩ := C87_gauss_returns np true (Special.max_flooring (1 / 10 ^ 10))
      (fun x => lt_max_of_lt_right (by norm_num)) 0 draw X 100 true {} Obj.fresh (.inl rfl) (.inl rfl) (.inl rfl)
    rw [(h 0).1] at h'
    cases h'
  · refine ⟨_, _, (h 0).1, (h 0).2, ?_, rfl⟩
    refine congrArg Lifecycle.Attr.val (funext fun f => funext fun j => funext fun k => ?_)
    simp [Matrix.diagonal]

/-- C95 with partitioning: the order of the microphones. -/
theorem C95_channels_partitioned [Nonempty (Fin m)] [Nonempty (Fin n)] [Nonempty (Fin t)] [Nonempty F] (np : Numpy ℂ) (norm : Bool)
    (floor : ℝ → ℝ) (hf : ∀ x, 0 < floor x) (draw : DrawP F n t K) (hdraw : ∀ b, 0 < ∑ k, draw.Z k b) (X : Spec F m t)
    (τ : Equiv.Perm (Fin m)) (n_iter : ℕ) (ic : Bool) :
    ∃ (Z : _) (T : _) (V : _) (H : _) (Y : Fin m → Out F n t) (ls : _), ∀ r,
      callP np norm floor (τ r) draw X n_iter ic {} ObjP.fresh = .ok ⟨.val Z, .val T, .val V, .val H, .val (Y r), ls⟩ ∧
      callP np norm floor r draw (fun f => Matrix.of fun c j => X f (τ c) j) n_iter ic {} ObjP.fresh
        = .ok ⟨.val Z, .val T, .val V, .val fun k f => Matrix.of fun a b => H k f (τ a) (τ b), .val (Y r), ls⟩ := by
  have e : rotX (fun _ : F => chan τ) X = fun f => Matrix.of fun c j => X f (τ c) j := funext fun f => chan_mul τ (X f)
  rcases C95_partitioned (U := fun _ : F => chan τ) (fun _ => chan_unitary τ) np norm floor hf draw X n_iter ic {} ObjP.fresh with
    ⟨err, h⟩ | ⟨Z, T, V, H, Y, ls, h⟩
  · obtain ⟨o', -, -, -, -, -, h', -⟩ := C87_partitioned_returns np norm floor hf (Classical.arbitrary _) draw hdraw X n_iter ic {}
      ObjP.fresh (.inl rfl) (.inl rfl) (.inl rfl) (.inl rfl)
    rw [(h _).1] at h'
    cases h'
  · refine ⟨Z, T, V, H, fun r => Y (τ r), ls, fun r => ⟨(h (τ r)).1, ?_⟩⟩
    rw [← e]
    refine ((h r).2).trans ?_
    have e1 : rotH (fun _ : F => chan τ) H = fun k f => Matrix.of fun a b => H k f (τ a) (τ b) :=
      funext fun k => funext fun f => chan_cj τ _
    have e2 : (fun f j k => ∑ c, chan τ r c * Y c f j k) = Y (τ r) := by
      funext f j k
      simp [chan]
    rw [e1, e2]

end channels

/-! ## CACGMM -/

section cacgmm

open Cacgmm

variable {U : F → Mat m ℂ} (hU : ∀ f, (U f)ᴴ * U f = 1)

/-- The parameters after the rotation. -/
def rotC (U : F → Mat m ℂ) (s : CSt F n m) : CSt F n m := ⟨s.α, fun k f => cj (U f) (s.B k f)⟩

include hU

theorem unitInput_rot (floor : ℝ → ℝ) (X : Spec F m t) :
    unitInput floor (rotX U X) = fun f j => U f *ᵥ unitInput floor X f j := by
  funext f j c
  have h : Real.sqrt (∑ c, ‖rotX U X f c j‖ ^ 2) = Real.sqrt (∑ c, ‖X f c j‖ ^ 2) :=
    congrArg Real.sqrt (norm_rot (hU f) fun c => X f c j)
  rw [unitInput, h]
  simp only [unitInput, rotX, Matrix.mul_apply, mulVec, dotProduct, Finset.sum_div, mul_div_assoc]

theorem invB_rot (B : Fin (n + 1) → F → Mat m ℂ) :
    invB (fun k f => cj (U f) (B k f)) = Except.map (fun B k f => cj (U f) (B k f)) (invB B) := by
  simp only [invB, npInv_cj (hU _)]
  exact onBins2' (fun k f => npInv (B k f)) fun f => cj (U f)

theorem quadForm_rot (floor : ℝ → ℝ) (Z : F → Fin t → Fin m → ℂ) (B : Fin (n + 1) → F → Mat m ℂ) :
    quadForm floor (fun f j => U f *ᵥ Z f j) (fun k f => cj (U f) (B k f)) = quadForm floor Z B := by
  funext k f j
  rw [quadForm, quadForm, quadratic_cj (hU f)]

theorem logGamma_rot (s : CSt F n m) (Q : Fin (n + 1) → F → Fin t → ℝ) : logGamma (rotC U s) Q = logGamma s Q := by
  funext f j k
  simp only [logGamma, rotC, cj_det (hU f)]

theorem updatePosterior_rot (floor : ℝ → ℝ) (Z : F → Fin t → Fin m → ℂ) (s : CSt F n m) :
    updatePosterior floor (fun f j => U f *ᵥ Z f j) (rotC U s) = updatePosterior floor Z s := by
  simp only [updatePosterior, rotC, invB_rot hU]
  rw [bind_map]
  congr 1
  funext B
  simp only [quadForm_rot hU]
  have := logGamma_rot hU s (quadForm floor Z B)
  rw [rotC] at this
  rw [this]

theorem updateOnce_rot (np : Numpy ℂ) (norm : Bool) (floor : ℝ → ℝ) (Z : F → Fin t → Fin m → ℂ) (s : CSt F n m) :
    Cacgmm.updateOnce np norm floor (fun f j => U f *ᵥ Z f j) (rotC U s)
      = Except.map (fun p => (rotC U p.1, p.2)) (Cacgmm.updateOnce np norm floor Z s) := by
  rw [Cacgmm.updateOnce, Cacgmm.updateOnce, updatePosterior_rot hU, map_bind]
  congr 1
  funext gamma
  have h : updateParameters np floor (fun f j => U f *ᵥ Z f j) gamma (rotC U s)
      = Except.map (rotC U) (updateParameters np floor Z gamma s) := by
    simp only [updateParameters, rotC, invB_rot hU]
    rw [bind_map, map_bind]
    congr 1
    funext B
    simp only [quadForm_rot hU, Except.map]
    congr 2
    funext k f
    rw [← toPsd_cj (hU f)]
    congr 1
    simp only [rawCovariance, cj_smul, cj_sum, cj_outer (hU f)]
  rw [h, bind_map, map_bind]
  congr 1
  funext s1
  cases norm with
  | false => rfl
  | true =>
    refine congrArg Except.ok ?_
    simp only [if_true]
    congr 1
    simp only [Cacgmm.normalize, rotC, cj_trace (hU _), cj_smul]

theorem iterate_rot (np : Numpy ℂ) (norm : Bool) (floor : ℝ → ℝ) (Z : F → Fin t → Fin m → ℂ) (n_iter : ℕ) (s : CSt F n m) :
    iterate np norm floor (fun f j => U f *ᵥ Z f j) n_iter (rotC U s) = Except.map (rotC U) (iterate np norm floor Z n_iter s) := by
  induction n_iter generalizing s with
  | zero => rfl
  | succ N ih =>
    rw [iterate, iterate, updateOnce_rot hU, bind_map, map_bind]
    congr 1
    funext p
    exact ih p.1

/-- C95: the loss `CACGMM` records does not see a rotation of the channels. -/
theorem C95_cacgmm_loss (floor : ℝ → ℝ) (X : Spec F m t) (s : CSt F n m) :
    loss floor (unitInput floor (rotX U X)) (rotC U s) = loss floor (unitInput floor X) s := by
  rw [unitInput_rot hU]
  simp only [loss, rotC, invB_rot hU]
  rw [bind_map]
  congr 1
  funext B
  simp only [quadForm_rot hU]
  have := logGamma_rot hU s (quadForm floor (unitInput floor X) B)
  rw [rotC] at this
  rw [this]

/-- C95: `CACGMM` on the rotated recording, started with the rotated covariances: the exception of the call on the recording
itself, or the same mixing proportions and posterior probabilities and the rotated covariances. The outputs are the same
posterior probabilities times the reference channel of the rotated recording. This holds for any flooring function, any
number of iterations and with any permutation of the sources in each bin at the end. -/
theorem C95_cacgmm (np : Numpy ℂ) (norm : Bool) (floor : ℝ → ℝ) (X : Spec F m t) (r : Fin m)
    (σ : F → Equiv.Perm (Fin (n + 1))) (n_iter : ℕ) (s : CSt F n m) :
    Cacgmm.call np norm floor (rotX U X) r σ n_iter (rotC U s)
      = Except.map (fun p => (rotC U p.1, p.2.1, fun k f j => (p.2.1 k f j : ℂ) * (U f * X f) r j))
          (Cacgmm.call np norm floor X r σ n_iter s) := by
  simp only [Cacgmm.call, unitInput_rot hU, iterate_rot hU]
  rw [bind_map, map_bind]
  congr 1
  funext s1
  rw [updatePosterior_rot hU, map_bind]
  rfl

end cacgmm

/-- C95: the order of the microphones does not matter to `CACGMM`: posterior probabilities and outputs are those of the
recording itself with the renamed reference channel. -/
theorem C95_cacgmm_channels (np : Numpy ℂ) (norm : Bool) (floor : ℝ → ℝ) (X : Spec F m t) (r : Fin m) (τ : Equiv.Perm (Fin m))
    (σ : F → Equiv.Perm (Fin (n + 1))) (n_iter : ℕ) (s : Cacgmm.CSt F n m) :
    Cacgmm.call np norm floor (fun f => Matrix.of fun c j => X f (τ c) j) r σ n_iter
        ⟨s.α, fun k f => Matrix.of fun a b => s.B k f (τ a) (τ b)⟩
      = Except.map (fun p => (⟨p.1.α, fun k f => Matrix.of fun a b => p.1.B k f (τ a) (τ b)⟩, p.2))
          (Cacgmm.call np norm floor X (τ r) σ n_iter s) := by
  have e : rotX (fun _ : F => chan τ) X = fun f => Matrix.of fun c j => X f (τ c) j := funext fun f => chan_mul τ (X f)
  have e1 : ∀ s : Cacgmm.CSt F n m, rotC (fun _ : F => chan τ) s = ⟨s.α, fun k f => Matrix.of fun a b => s.B k f (τ a) (τ b)⟩ :=
    fun s => by
      rw [rotC]
      congr 1
      exact funext fun k => funext fun f => chan_cj τ _
  have h := C95_cacgmm (U := fun _ : F => chan τ) (fun _ => chan_unitary τ) np norm floor X r σ n_iter s
  rw [e, e1] at h
  rw [h]
  rw [Cacgmm.call, Cacgmm.call]
  simp only [e1, chan_mul, Matrix.of_apply]
  rw [map_bind, map_bind]
  congr 1
  funext s1
  rw [map_bind, map_bind]
  rfl

/-- Two sources, three microphones in another order, with the permutation solver having exchanged the sources in one bin. -/
example (np : Numpy ℂ) (X : Spec (Fin 3) 3 4) (α : Fin 2 → Fin 3 → ℝ) (p : Cacgmm.CSt (Fin 3) 1 3 × Cacgmm.Posterior (Fin 3) 1 4 ×
    (Fin 2 → Fin 3 → Fin 4 → ℂ))
    (h : Cacgmm.call np true (Special.max_flooring (1 / 10 ^ 10)) X 2 (fun f => if f = 1 then Equiv.swap 0 1 else 1) 20
      ⟨α, fun _ _ => 1⟩ = .ok p) :
    ∃ s, Cacgmm.call np true (Special.max_flooring (1 / 10 ^ 10)) (fun f => Matrix.of fun c j => X f (finRotate 3 c) j) 1
      (fun f => if f = 1 then Equiv.swap 0 1 else 1) 20 ⟨α, fun _ _ => 1⟩ = .ok (s, p.2) := by
  have := C95_cacgmm_channels np true (Special.max_flooring (1 / 10 ^ 10)) X 1 (finRotate 3)
    (fun f => if f = 1 then Equiv.swap 0 1 else 1) 20 ⟨α, fun _ _ => 1⟩
  have e : (Matrix.of fun a b => (1 : Mat 3 ℂ) (finRotate 3 a) (finRotate 3 b)) = 1 := by
    ext a b
    simp [Matrix.one_apply]
  have e2 : finRotate 3 1 = 2 := rfl
  rw [e2] at this
  simp only [e, h, Except.map] at this
  exact ⟨_, this⟩

end Verif.Rotation
