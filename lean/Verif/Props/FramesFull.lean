import Verif.Props.Frames
import Verif.Props.Blocks
import Verif.Model.MnmfPart
import Verif.Model.Ipsdta

/-!
# C73 for GaussMNMF, GaussIPSDTA and TIPSDTA

IPSDTA averages over frames, so its frames may be reordered and repeated. GaussMNMF adds up the matrices of the Riccati equation
over the frames before it floors their eigenvalues: here frames may be reordered.
-/

set_option linter.unusedSectionVars false

namespace Verif

open Matrix Spatial Scale

variable {F : Type} [Fintype F] {n t t' K m : ℕ} {π : Fin t' → Fin t}

theorem Cover.surjective (h : Cover π m) : Function.Surjective π := by
  intro s
  have : 0 < (Finset.univ.filter fun s' => π s' = s).card := by rw [h.2 s]; exact h.1
  obtain ⟨s', hs⟩ := Finset.card_pos.mp this
  exact ⟨s', (Finset.mem_filter.mp hs).2⟩

theorem onBins_comp {α : Type} (h : Cover π m) (g : Fin t → Except PyErr α) :
    onBins (fun j => g (π j)) = (onBins g).map fun y j => y (π j) := by
  by_cases hg : ∀ j, ∃ y, g j = .ok y
  · choose y hy using hg
    rw [onBins_ok hy]
    exact onBins_ok fun j => hy (π j)
  · rw [onBins, onBins, dif_neg hg, dif_neg]
    · rfl
    · intro h'
      refine hg fun j => ?_
      obtain ⟨j', rfl⟩ := h.surjective j
      exact h' j'

theorem onBins2_comp {ι α : Type} (h : Cover π m) (g : ι → Fin t → Except PyErr α) :
    onBins (fun i => onBins fun j => g i (π j)) = (onBins fun i => onBins (g i)).map fun y i j => y i (π j) := by
  simp only [onBins_comp h]
  exact onBins_map (fun i => onBins (g i)) fun _ y j => y (π j)

theorem onBins3_comp {ι κ α : Type} (h : Cover π m) (g : ι → κ → Fin t → Except PyErr α) :
    onBins (fun i => onBins fun k => onBins fun j => g i k (π j))
      = (onBins fun i => onBins fun k => onBins (g i k)).map fun y i k j => y i k (π j) := by
  simp only [onBins2_comp h]
  exact onBins_map (fun i => onBins fun k => onBins (g i k)) fun _ y k j => y k (π j)

/-! ## GaussMNMF -/

namespace Mnmf
open Ilrma (recon reconP)

variable {c : ℕ}

def MSt.frames (π : Fin t' → Fin t) (s : MSt F n c t K) : MSt F n c t' K := ⟨s.T, fun k b j => s.V k b (π j), s.H⟩

def MStP.frames (π : Fin t' → Fin t) (s : MStP F n c t K) : MStP F n c t' K := ⟨s.Z, s.T, fun b j => s.V b (π j), s.H⟩

theorem traces_frames (h : Cover π m) (R XX : F → Fin t → Mat c ℂ) (H : Fin n → F → Mat c ℂ) :
    traces (fun f j => R f (π j)) (fun f j => XX f (π j)) H
      = (traces R XX H).map fun p => (fun k f j => p.1 k f (π j), fun k f j => p.2 k f (π j)) := by
  rw [traces, traces, onBins2_comp h (fun f j => npSolve (R f j) (XX f j)), bind_map, map_bind]
  congr 1
  funext A
  rw [onBins3_comp h (fun k f j => npSolve (R f j) (H k f)), bind_map, map_bind]
  rfl

theorem basis_frames (h : Cover π m) (np : Numpy ℂ) (floor : ℝ → ℝ) (XX : F → Fin t → Mat c ℂ) (s : MSt F n c t K) :
    fullUpdateBasis np floor (fun f j => XX f (π j)) (s.frames π) = (fullUpdateBasis np floor XX s).map (MSt.frames π) := by
  have e := traces_frames h (fun f j => toPsd np floor (fullR (recon s.T s.V) s.H f j)) XX s.H
  rw [fullUpdateBasis, fullUpdateBasis, map_bind]
  refine (congrArg (· >>= _) e).trans ?_
  rw [bind_map]
  congr 1
  funext p
  refine congrArg Except.ok ?_
  simp only [MSt.frames]
  congr 1
  funext k f b
  rw [h.ratio (fun j => s.V k b j * p.1 k f j) (fun j => s.V k b j * p.2 k f j)]

theorem activation_frames (h : Cover π m) (np : Numpy ℂ) (floor : ℝ → ℝ) (XX : F → Fin t → Mat c ℂ) (s : MSt F n c t K) :
    fullUpdateActivation np floor (fun f j => XX f (π j)) (s.frames π)
      = (fullUpdateActivation np floor XX s).map (MSt.frames π) := by
  have e := traces_frames h (fun f j => toPsd np floor (fullR (recon s.T s.V) s.H f j)) XX s.H
  rw [fullUpdateActivation, fullUpdateActivation, map_bind]
  refine (congrArg (· >>= _) e).trans ?_
  rw [bind_map]
  rfl

theorem spatial_frames (h : Cover π 1) (np : Numpy ℂ) (floor : ℝ → ℝ) (XX : F → Fin t → Mat c ℂ)
    (L : Fin n → F → Fin t → ℝ) (H : Fin n → F → Mat c ℂ) :
    fullUpdateSpatial np floor (fun f j => XX f (π j)) (fun k f j => L k f (π j)) H = fullUpdateSpatial np floor XX L H := by
  have e := onBins2_comp h fun f j => npInv (toPsd np floor (fullR L H f j))
  have e0 : ∀ f j, fullR (fun k f j => L k f (π j)) H f j = fullR L H f (π j) := fun _ _ => rfl
  rw [fullUpdateSpatial, fullUpdateSpatial]
  simp only [e0]
  rw [e]
  cases onBins fun f => onBins fun j => npInv (toPsd np floor (fullR L H f j)) with
  | error => rfl
  | ok R =>
  simp only [Except.map, bind, Except.bind]
  have e1 : ∀ k f, ∑ j, (L k f (π j) : ℂ) • R f (π j) = ∑ j, (L k f j : ℂ) • R f j := fun k f => by
    rw [h.sum fun j => (L k f j : ℂ) • R f j, one_smul]
  have e2 : ∀ k f, ∑ j, (L k f (π j) : ℂ) • (R f (π j) * XX f (π j) * R f (π j))
      = ∑ j, (L k f j : ℂ) • (R f j * XX f j * R f j) := fun k f => by
    rw [h.sum fun j => (L k f j : ℂ) • (R f j * XX f j * R f j), one_smul]
  simp only [e1, e2]

/-- C73 for GaussMNMF and the order of the frames. -/
theorem C73_mnmf (h : Cover π 1) (np : Numpy ℂ) (normalization : Bool) (floor : ℝ → ℝ) (X : Spec F c t) (s : MSt F n c t K)
    (n_iter : ℕ) :
    iterM (fullUpdateOnce np normalization floor (instantCovariance np floor (Verif.frames π X))) n_iter (s.frames π)
      = Except.map (MSt.frames π) (iterM (fullUpdateOnce np normalization floor (instantCovariance np floor X)) n_iter s) := by
  refine iterM_map _ _ (MSt.frames π) (fun s => ?_) n_iter s
  rw [show instantCovariance np floor (Verif.frames π X) = fun f j => instantCovariance np floor X f (π j) from rfl]
  generalize instantCovariance np floor X = XX
  rw [fullUpdateOnce, fullUpdateOnce, basis_frames h, bind_map, map_bind]
  congr 1
  funext s
  rw [activation_frames h, bind_map, map_bind]
  congr 1
  funext s
  have e := spatial_frames h np floor XX (recon s.T s.V) s.H
  refine (congrArg (· >>= _) e).trans ?_
  rw [map_bind]
  congr 1
  funext H
  cases normalization <;> rfl

/-- C73: the loss of GaussMNMF. -/
theorem C73_mnmf_loss (h : Cover π m) (np : Numpy ℂ) (floor : ℝ → ℝ) (X : Spec F c t) (L : Fin n → F → Fin t → ℝ)
    (H : Fin n → F → Mat c ℂ) :
    fullLoss np floor (instantCovariance np floor (Verif.frames π X)) (fun k f j => L k f (π j)) H
      = fullLoss np floor (instantCovariance np floor X) L H := by
  have e := onBins2_comp h fun f j => npSolve (toPsd np floor (fullR L H f j)) (instantCovariance np floor X f j)
  rw [fullLoss, fullLoss]
  refine (congrArg (· >>= _) e).trans ?_
  rw [bind_map]
  congr 1
  funext A
  refine congrArg Except.ok (Finset.sum_congr rfl fun f _ => ?_)
  exact h.mean fun j => (A f j).trace.re + Real.log ‖(toPsd np floor (fullR L H f j)).det‖

/-- C73: the output of GaussMNMF. -/
theorem C73_mnmf_separate (h : Cover π m) (np : Numpy ℂ) (floor : ℝ → ℝ) (r : Fin c) (X : Spec F c t)
    (L : Fin n → F → Fin t → ℝ) (H : Fin n → F → Mat c ℂ) :
    fullSeparate np floor r (Verif.frames π X) (fun k f j => L k f (π j)) H
      = (fullSeparate np floor r X L H).map fun Y f j => Y f (π j) :=
  onBins2_comp h fun f j => wiener np floor r (fullRn L H f j) fun c => X f c j

theorem basisP_frames (h : Cover π m) (np : Numpy ℂ) (floor : ℝ → ℝ) (XX : F → Fin t → Mat c ℂ) (s : MStP F n c t K) :
    fullUpdateBasisP np floor (fun f j => XX f (π j)) (s.frames π) = (fullUpdateBasisP np floor XX s).map (MStP.frames π) := by
  have e := traces_frames h (fun f j => toPsd np floor (s.R f j)) XX s.H
  rw [fullUpdateBasisP, fullUpdateBasisP, map_bind]
  refine (congrArg (· >>= _) e).trans ?_
  rw [bind_map]
  congr 1
  funext p
  refine congrArg Except.ok ?_
  have e1 : ∀ (q : Fin n → F → Fin t → ℝ) k f b, ∑ j, s.V b (π j) * q k f (π j) = m * ∑ j, s.V b j * q k f j :=
    fun q k f b => (h.sum fun j => s.V b j * q k f j).trans (nsmul_eq_mul _ _)
  simp only [MStP.frames]
  congr 1
  funext f b
  simp only [e1, mul_left_comm _ (m : ℝ)]
  rw [← Finset.mul_sum, ← Finset.mul_sum, mul_div_mul_left _ _ (h.ne ℝ)]

theorem latent_frames (h : Cover π m) (np : Numpy ℂ) (floor : ℝ → ℝ) (XX : F → Fin t → Mat c ℂ) (s : MStP F n c t K) :
    fullUpdateLatent np floor (fun f j => XX f (π j)) (s.frames π) = (fullUpdateLatent np floor XX s).map (MStP.frames π) := by
  have e := traces_frames h (fun f j => toPsd np floor (s.R f j)) XX s.H
  rw [fullUpdateLatent, fullUpdateLatent, map_bind]
  refine (congrArg (· >>= _) e).trans ?_
  rw [bind_map]
  congr 1
  funext p
  refine congrArg Except.ok ?_
  have : ∀ k b, (∑ f, s.T f b * ∑ j, s.V b (π j) * p.1 k f (π j)) / (∑ f, s.T f b * ∑ j, s.V b (π j) * p.2 k f (π j))
      = (∑ f, s.T f b * ∑ j, s.V b j * p.1 k f j) / ∑ f, s.T f b * ∑ j, s.V b j * p.2 k f j := by
    have e1 : ∀ (q : Fin n → F → Fin t → ℝ) k f b, ∑ j, s.V b (π j) * q k f (π j) = m * ∑ j, s.V b j * q k f j :=
      fun q k f b => (h.sum fun j => s.V b j * q k f j).trans (nsmul_eq_mul _ _)
    intro k b
    simp only [e1, mul_left_comm _ (m : ℝ)]
    rw [← Finset.mul_sum, ← Finset.mul_sum, mul_div_mul_left _ _ (h.ne ℝ)]
  simp only [MStP.frames, this]

theorem activationP_frames (h : Cover π m) (np : Numpy ℂ) (floor : ℝ → ℝ) (XX : F → Fin t → Mat c ℂ) (s : MStP F n c t K) :
    fullUpdateActivationP np floor (fun f j => XX f (π j)) (s.frames π)
      = (fullUpdateActivationP np floor XX s).map (MStP.frames π) := by
  have e := traces_frames h (fun f j => toPsd np floor (s.R f j)) XX s.H
  rw [fullUpdateActivationP, fullUpdateActivationP, map_bind]
  refine (congrArg (· >>= _) e).trans ?_
  rw [bind_map]
  rfl

/-- C73 for GaussMNMF with partitioning and the order of the frames. -/
theorem C73_mnmf_partitioned (h : Cover π 1) (np : Numpy ℂ) (normalization : Bool) (floor : ℝ → ℝ) (X : Spec F c t)
    (s : MStP F n c t K) (n_iter : ℕ) :
    iterM (fullUpdateOnceP np normalization floor (instantCovariance np floor (Verif.frames π X))) n_iter (s.frames π)
      = Except.map (MStP.frames π) (iterM (fullUpdateOnceP np normalization floor (instantCovariance np floor X)) n_iter s) := by
  refine iterM_map _ _ (MStP.frames π) (fun s => ?_) n_iter s
  rw [show instantCovariance np floor (Verif.frames π X) = fun f j => instantCovariance np floor X f (π j) from rfl]
  generalize instantCovariance np floor X = XX
  rw [fullUpdateOnceP, fullUpdateOnceP, basisP_frames h, bind_map, map_bind]
  congr 1
  funext s
  rw [activationP_frames h, bind_map, map_bind]
  congr 1
  funext s
  have e := spatial_frames h np floor XX (reconP s.Z s.T s.V) s.H
  refine (congrArg (· >>= _) e).trans ?_
  rw [map_bind]
  congr 1
  funext H
  cases normalization
  · exact latent_frames h np floor XX ⟨s.Z, s.T, s.V, H⟩
  · exact latent_frames h np floor XX (fullNormalizeP ⟨s.Z, s.T, s.V, H⟩)

end Mnmf

/-! ## IPSDTA -/

namespace Ipsdta

section blocks
variable {ι : Type} [Fintype ι] {sz : ι → ℕ}

theorem covInv_frames (h : Cover π m) (np : Numpy ℂ) (T : Fin n → Fin K → (β : ι) → Mat (sz β) ℂ) (V : Fin n → Fin K → Fin t → ℝ) :
    covInv np T (fun k b j => V k b (π j)) = (covInv np T V).map fun R k j => R k (π j) :=
  onBins2_comp h fun k j => onBlocks fun β => npInv (cov np T V k j β)

theorem matP_frames (h : Cover π m) (R : Fin n → Fin t → (β : ι) → Mat (sz β) ℂ) (V : Fin n → Fin K → Fin t → ℝ) (k : Fin n)
    (b : Fin K) (β : ι) : matP (fun k j => R k (π j)) (fun k b j => V k b (π j)) k b β = matP R V k b β := by
  have hm := h.ne ℂ
  rw [matP, matP, h.sum fun j => (V k b j : ℂ) • R k j β, h.card, ← Nat.cast_smul_eq_nsmul ℂ, smul_smul]
  congr 1
  rw [Nat.cast_mul, mul_inv, mul_comm, ← mul_assoc, mul_inv_cancel₀ hm, one_mul]

/-- The signals of the blocks with the frames `π`. -/
def framesB (π : Fin t' → Fin t) (Y : (β : ι) → Fin (sz β) → Matrix (Fin n) (Fin t) ℂ) :
    (β : ι) → Fin (sz β) → Matrix (Fin n) (Fin t') ℂ := fun β i => Matrix.of fun k j => Y β i k (π j)

theorem matQ_frames (h : Cover π m) (R : Fin n → Fin t → (β : ι) → Mat (sz β) ℂ) (w : Fin n → Fin t → ℝ)
    (Y : (β : ι) → Fin (sz β) → Matrix (Fin n) (Fin t) ℂ) (V : Fin n → Fin K → Fin t → ℝ) (k : Fin n) (b : Fin K) (β : ι) :
    matQ (fun k j => R k (π j)) (fun k j => w k (π j)) (framesB π Y) (fun k b j => V k b (π j)) k b β = matQ R w Y V k b β := by
  have hm := h.ne ℂ
  have e : ∀ j, yy (framesB π Y) k j β = yy Y k (π j) β := fun _ => rfl
  simp only [matQ, e]
  rw [h.sum fun j => (V k b j : ℂ) • ((w k j : ℂ) • (R k j β * yy Y k j β * R k j β)), h.card, ← Nat.cast_smul_eq_nsmul ℂ, smul_smul]
  congr 1
  rw [Nat.cast_mul, mul_inv, mul_comm, ← mul_assoc, mul_inv_cancel₀ hm, one_mul]

theorem basisGauss_frames (h : Cover π m) (np : Numpy ℂ) (floor : ℝ → ℝ) (Y : (β : ι) → Fin (sz β) → Matrix (Fin n) (Fin t) ℂ)
    (T : Fin n → Fin K → (β : ι) → Mat (sz β) ℂ) (V : Fin n → Fin K → Fin t → ℝ) :
    basisGauss np floor (framesB π Y) T (fun k b j => V k b (π j)) = basisGauss np floor Y T V := by
  rw [basisGauss, basisGauss, covInv_frames h]
  cases covInv np T V with
  | error => rfl
  | ok R =>
    simp only [Except.map, bind, Except.bind, matP_frames h]
    have : ∀ k b β, matQ (fun k j => R k (π j)) (fun _ _ => 1) (framesB π Y) (fun k b j => V k b (π j)) k b β
        = matQ R (fun _ _ => 1) Y V k b β := matQ_frames h R (fun _ _ => 1) Y V
    simp only [this]

theorem basisT_frames (h : Cover π m) (np : Numpy ℂ) (floor : ℝ → ℝ) (w : Fin n → Fin t → ℝ)
    (Y : (β : ι) → Fin (sz β) → Matrix (Fin n) (Fin t) ℂ) (T : Fin n → Fin K → (β : ι) → Mat (sz β) ℂ)
    (V : Fin n → Fin K → Fin t → ℝ) :
    basisT np floor (fun k j => w k (π j)) (framesB π Y) T (fun k b j => V k b (π j)) = basisT np floor w Y T V := by
  rw [basisT, basisT, covInv_frames h]
  cases covInv np T V with
  | error => rfl
  | ok R => simp only [Except.map, bind, Except.bind, matP_frames h, matQ_frames h]

theorem activationMM_frames (h : Cover π m) (np : Numpy ℂ) (w : Fin n → Fin t → ℝ)
    (Y : (β : ι) → Fin (sz β) → Matrix (Fin n) (Fin t) ℂ) (T : Fin n → Fin K → (β : ι) → Mat (sz β) ℂ)
    (V : Fin n → Fin K → Fin t → ℝ) :
    activationMM np (fun k j => w k (π j)) (framesB π Y) T (fun k b j => V k b (π j))
      = (activationMM np w Y T V).map fun V k b j => V k b (π j) := by
  rw [activationMM, activationMM, covInv_frames h]
  cases covInv np T V with
  | error => rfl
  | ok R => rfl

theorem spatialVcd_frames (h : Cover π m) (floor : ℝ → ℝ) (w : Fin n → Fin t → ℝ) (R : Fin n → Fin t → (β : ι) → Mat (sz β) ℂ)
    (X : (β : ι) → Fin (sz β) → Matrix (Fin n) (Fin t) ℂ) (W : (β : ι) → Fin (sz β) → Mat n ℂ) :
    spatialVcd floor (fun k j => w k (π j)) (fun k j => R k (π j)) (framesB π X) W = spatialVcd floor w R X W := by
  have e : ∀ β, rxx (fun k j => w k (π j)) (fun k j => R k (π j)) (framesB π X) β = rxx w R X β := by
    intro β
    funext i i' k
    ext c c'
    exact h.mean fun j => ((w k j : ℂ) * R k j β i' i) * (X β i c j * star (X β i' c' j))
  simp only [spatialVcd, e]

end blocks

variable {N B : ℕ}

def St.frames (π : Fin t' → Fin t) (s : St N B n t K) : St N B n t' K := ⟨s.T, fun k b j => s.V k b (π j), s.W⟩

theorem split_frames (x : Fin N → Matrix (Fin n) (Fin t) ℂ) :
    splitBlocks B (Verif.frames π x) = (splitBlocks B x).map (framesB π) := by
  by_cases hB : B = 0
  · subst hB
    rw [C53_no_blocks, C53_no_blocks]
    rfl
  · rw [splitBlocks_eq hB, splitBlocks_eq hB]
    rfl

/-- C73 for GaussIPSDTA. -/
theorem C73_gauss (h : Cover π m) (np : Numpy ℂ) (normalization : Bool) (floor : ℝ → ℝ) (X : Spec (Fin N) n t)
    (s : St N B n t K) (n_iter : ℕ) :
    iterM (gaussUpdate np normalization floor (Verif.frames π X)) n_iter (s.frames π)
      = Except.map (St.frames π) (iterM (gaussUpdate np normalization floor X) n_iter s) := by
  refine iterM_map _ _ (St.frames π) (fun s => ?_) n_iter s
  rw [gaussUpdate, gaussUpdate, show (s.frames π).W = s.W from rfl, separate_frames, split_frames, bind_map, map_bind]
  congr 1
  funext Y
  rw [show (s.frames π).V = fun k b j => s.V k b (π j) from rfl, show (s.frames π).T = s.T from rfl, basisGauss_frames h, map_bind]
  congr 1
  funext T
  have e := activationMM_frames h np (fun _ _ => 1) Y T s.V
  refine (congrArg (· >>= _) e).trans ?_
  rw [bind_map, map_bind]
  congr 1
  funext V
  have key : ∀ (T : Fin n → Fin K → (β : Blk N B) → Mat (bsize N B β) ℂ) (V : Fin n → Fin K → Fin t → ℝ),
      ((splitBlocks B (Verif.frames π X) >>= fun Xb => splitBlocks B s.W >>= fun Wb =>
        covInv np T (fun k b j => V k b (π j)) >>= fun R => spatialVcd floor (fun _ _ => 1) R Xb Wb >>= fun W =>
          .ok ⟨T, fun k b j => V k b (π j), joinBlocks W⟩ : Except PyErr (St N B n t' K)))
      = Except.map (St.frames π) (splitBlocks B X >>= fun Xb => splitBlocks B s.W >>= fun Wb =>
        covInv np T V >>= fun R => spatialVcd floor (fun _ _ => 1) R Xb Wb >>= fun W => .ok ⟨T, V, joinBlocks W⟩) := by
    intro T V
    rw [split_frames, bind_map, map_bind]
    congr 1
    funext Xb
    rw [map_bind]
    congr 1
    funext Wb
    rw [covInv_frames h, bind_map, map_bind]
    congr 1
    funext R
    have e := spatialVcd_frames h floor (fun _ _ => 1) R Xb Wb
    rw [map_bind]
    exact (congrArg (· >>= _) e).trans rfl
  cases normalization with
  | false => exact key T V
  | true => exact key (normalize T V).1 (normalize T V).2

/-- C73 for TIPSDTA. -/
theorem C73_t (h : Cover π m) (np : Numpy ℂ) (normalization : Bool) (floor : ℝ → ℝ) (nu : ℝ) (X : Spec (Fin N) n t)
    (s : St N B n t K) (n_iter : ℕ) :
    iterM (tUpdate np normalization floor nu (Verif.frames π X)) n_iter (s.frames π)
      = Except.map (St.frames π) (iterM (tUpdate np normalization floor nu X) n_iter s) := by
  refine iterM_map _ _ (St.frames π) (fun s => ?_) n_iter s
  rw [tUpdate, tUpdate, show (s.frames π).W = s.W from rfl, separate_frames, split_frames, bind_map, map_bind]
  congr 1
  funext Y
  rw [show (s.frames π).V = fun k b j => s.V k b (π j) from rfl, show (s.frames π).T = s.T from rfl, covInv_frames h, bind_map, map_bind]
  congr 1
  funext R
  have e := basisT_frames h np floor (fun k j => tWeight nu N (yry Y R k j)) Y s.T s.V
  refine (congrArg (· >>= _) e).trans ?_
  rw [map_bind]
  congr 1
  funext T
  rw [covInv_frames h, bind_map, map_bind]
  congr 1
  funext R
  have e := activationMM_frames h np (fun k j => tWeight nu N (yry Y R k j)) Y T s.V
  refine (congrArg (· >>= _) e).trans ?_
  rw [bind_map, map_bind]
  congr 1
  funext V
  have key : ∀ (T : Fin n → Fin K → (β : Blk N B) → Mat (bsize N B β) ℂ) (V : Fin n → Fin K → Fin t → ℝ),
      ((splitBlocks B (Verif.frames π X) >>= fun Xb => splitBlocks B s.W >>= fun Wb =>
        covInv np T (fun k b j => V k b (π j)) >>= fun R =>
          spatialVcd floor (fun k j => tWeight nu N (yry (fun β i => Wb β i * Xb β i) R k j)) R Xb Wb >>= fun W =>
          .ok ⟨T, fun k b j => V k b (π j), joinBlocks W⟩ : Except PyErr (St N B n t' K)))
      = Except.map (St.frames π) (splitBlocks B X >>= fun Xb => splitBlocks B s.W >>= fun Wb =>
        covInv np T V >>= fun R =>
          spatialVcd floor (fun k j => tWeight nu N (yry (fun β i => Wb β i * Xb β i) R k j)) R Xb Wb >>= fun W =>
          .ok ⟨T, V, joinBlocks W⟩) := by
    intro T V
    rw [split_frames, bind_map, map_bind]
    congr 1
    funext Xb
    rw [map_bind]
    congr 1
    funext Wb
    rw [covInv_frames h, bind_map, map_bind]
    congr 1
    funext R
    have e := spatialVcd_frames h floor (fun k j => tWeight nu N (yry (fun β i => Wb β i * Xb β i) R k j)) R Xb Wb
    rw [map_bind]
    exact (congrArg (· >>= _) e).trans rfl
  cases normalization with
  | false => exact key T V
  | true => exact key (normalize T V).1 (normalize T V).2

theorem groupLoss_frames {ι : Type} [Fintype ι] {sz : ι → ℕ} (h : Cover π m)
    (Y : (β : ι) → Fin (sz β) → Matrix (Fin n) (Fin t) ℂ) (W : (β : ι) → Fin (sz β) → Mat n ℂ)
    (R R' : Fin n → Fin t → (β : ι) → Mat (sz β) ℂ) :
    gaussGroupLoss (framesB π Y) W (fun k j => R k (π j)) (fun k j => R' k (π j)) = gaussGroupLoss Y W R R' := by
  rw [gaussGroupLoss, gaussGroupLoss]
  congr 1
  exact h.mean fun j => max (∑ k, ∑ β, Linalg.quadratic (fun i => Y β i k j) (R' k j β)).re 0 + ∑ k, ∑ β, Real.log ‖(R k j β).det‖

/-- C73: the loss of GaussIPSDTA. -/
theorem C73_gauss_loss (h : Cover π m) (np : Numpy ℂ) (X : Spec (Fin N) n t) (s : St N B n t K) :
    gaussLoss np (Verif.frames π X) (s.frames π) = gaussLoss np X s := by
  rw [gaussLoss, gaussLoss, show (s.frames π).W = s.W from rfl, separate_frames, split_frames, bind_map]
  congr 1
  funext Y
  congr 1
  funext W
  rw [show (s.frames π).V = fun k b j => s.V k b (π j) from rfl, show (s.frames π).T = s.T from rfl, covInv_frames h, bind_map]
  congr 1
  funext R
  have e1 := groupLoss_frames h (fun β => Y (.inl β)) (fun β => W (.inl β)) (fun k j β => cov np s.T s.V k j (.inl β))
    fun k j β => R k j (.inl β)
  have e2 := groupLoss_frames h (fun β => Y (.inr β)) (fun β => W (.inr β)) (fun k j β => cov np s.T s.V k j (.inr β))
    fun k j β => R k j (.inr β)
  simp only [← e1, ← e2]
  rfl

/-- C73: the loss of TIPSDTA. -/
theorem C73_t_loss (h : Cover π m) (np : Numpy ℂ) (nu : ℝ) (X : Spec (Fin N) n t) (s : St N B n t K) :
    tLoss np nu (Verif.frames π X) (s.frames π) = tLoss np nu X s := by
  rw [tLoss, tLoss, show (s.frames π).W = s.W from rfl, separate_frames, split_frames, bind_map]
  congr 1
  funext Y
  congr 1
  funext W
  rw [show (s.frames π).V = fun k b j => s.V k b (π j) from rfl, show (s.frames π).T = s.T from rfl, covInv_frames h, bind_map]
  congr 1
  funext R
  refine congrArg (fun x => Except.ok (x - 2 * ∑ β, ∑ i, Real.log ‖(W β i).det‖)) ?_
  exact h.mean fun j => (∑ k, (nu + 2 * N) / 2 * Real.log (1 + 2 / nu * yry Y R k j))
    + ∑ k, ∑ β, Real.log ‖(cov np s.T s.V k j β).det‖

/-- Two bins in one block, the recording of three frames played twice. -/
example (np : Numpy ℂ) (floor : ℝ → ℝ) (X : Spec (Fin 2) 2 3) (s : St 2 1 2 3 1) (n_iter : ℕ) :
    iterM (gaussUpdate np true floor (Verif.frames (fun j : Fin (2 * 3) => j.modNat) X)) n_iter (s.frames fun j : Fin (2 * 3) => j.modNat)
      = Except.map (St.frames fun j : Fin (2 * 3) => j.modNat) (iterM (gaussUpdate np true floor X) n_iter s) :=
  C73_gauss (Cover.repeat 2 two_pos) np true floor X s n_iter

end Ipsdta

/-- The recording played backwards. -/
example (np : Numpy ℂ) (floor : ℝ → ℝ) (X : Spec (Fin 2) 2 3) (s : Mnmf.MSt (Fin 2) 2 2 3 1) (n_iter : ℕ) :
    iterM (Mnmf.fullUpdateOnce np true floor (Mnmf.instantCovariance np floor (frames Fin.revPerm X))) n_iter (s.frames Fin.revPerm)
      = Except.map (Mnmf.MSt.frames Fin.revPerm)
        (iterM (Mnmf.fullUpdateOnce np true floor (Mnmf.instantCovariance np floor X)) n_iter s) :=
  Mnmf.C73_mnmf (Cover.perm Fin.revPerm) np true floor X s n_iter

end Verif
