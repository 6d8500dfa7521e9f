import Verif.Lemmas.MnmfMix
import Verif.Props.FastScale
import Verif.Props.StationaryMnmf
import Verif.Model.MnmfCall

/-! # C114: GaussMNMF and remixed recordings

With `flooring_fn=None`, GaussMNMF without partitioning does not care how the microphone signals are combined: mixing them
in every bin by an invertible matrix, with spatial covariances that follow, shifts all losses by the same constant and
leaves bases and activations alone (up to the scale that `normalization` moves between bases and spatial covariances). If
the reference channel of the new recording is a multiple of the reference channel of the old one, the output is the old
output with that gain. In particular `normalization` does not influence losses, activations or output. -/

set_option linter.unusedSectionVars false

namespace Verif.MnmfMix

open Matrix Spatial Scale Ilrma Mnmf Linalg
open IlrmaCall (baseCall Draw)
open FastScale (baseCall_shift)
open MnmfCall (Obj Kw)
open scoped ComplexOrder

variable {F : Type} [Fintype F] {n m t K : ℕ}
variable [Nonempty (Fin K)] [Nonempty (Fin n)] [Nonempty (Fin m)] [Nonempty (Fin t)] [Nonempty F]

/-- A remixed state, with any scales. -/
def Remixed (A : F → Mat m ℂ) (ρ : Fin n → Fin K → ℝ) (s s' : MSt F n m t K) : Prop :=
  ∃ α : Fin n → F → ℝ, (∀ k f, 0 < α k f) ∧ s' = respread A α ρ s

/-- Normalised or not. -/
theorem norm_respread (norm : Bool) {s : MSt F n m t K} (hs : MPos s) : ∃ β : Fin n → F → ℝ, (∀ k f, 0 < β k f) ∧
    (if norm then fullNormalize s else s) = respread (fun _ => 1) β (fun _ _ => 1) s := by
  cases norm
  · exact ⟨fun _ _ => 1, fun _ _ => one_pos, (respread_one s).symm⟩
  · exact ⟨fun k f => (s.H k f).trace.re, fun k f => (Complex.lt_def.mp (hs.2.2 k f).trace_pos).1, normalize_eq s⟩

/-- The update without flooring, in terms of the equations that define it. -/
theorem update_eq (np : Numpy ℂ) (norm : Bool) {XX : F → Fin t → Mat m ℂ} (hXX : ∀ f j, (XX f j).PosSemidef)
    {s : MSt F n m t K} (hs : MPos s) (hb : ∀ k f b, 0 < fullBasisRaw XX s k f b)
    (ha : ∀ k b j, 0 < fullActivationRaw XX ⟨fullBasisRaw XX s, s.V, s.H⟩ k b j)
    (hq : ∀ k f, (matHQH XX ⟨fullBasisRaw XX s, fullActivationRaw XX ⟨fullBasisRaw XX s, s.V, s.H⟩, s.H⟩ k f).PosDef) :
    ∃ H, fullUpdateOnce np norm id XX s
        = .ok (if norm then fullNormalize ⟨fullBasisRaw XX s, fullActivationRaw XX ⟨fullBasisRaw XX s, s.V, s.H⟩, H⟩
            else ⟨fullBasisRaw XX s, fullActivationRaw XX ⟨fullBasisRaw XX s, s.V, s.H⟩, H⟩) ∧
      MPos (⟨fullBasisRaw XX s, fullActivationRaw XX ⟨fullBasisRaw XX s, s.V, s.H⟩, H⟩ : MSt F n m t K) ∧
      ∀ k f, H k f * matP ⟨fullBasisRaw XX s, fullActivationRaw XX ⟨fullBasisRaw XX s, s.V, s.H⟩, s.H⟩ k f * H k f
        = matHQH XX ⟨fullBasisRaw XX s, fullActivationRaw XX ⟨fullBasisRaw XX s, s.V, s.H⟩, s.H⟩ k f := by
  obtain ⟨e1, p1, -⟩ := full_basis_step np id XX hXX s (mInv_id np hs) fun k f b => FloorMild.of_id (hb k f b)
  obtain ⟨e2, p2, -⟩ := full_activation_step np id XX hXX ⟨fullBasisRaw XX s, s.V, s.H⟩ (mInv_id np p1)
    fun k b j => FloorMild.of_id (ha k b j)
  have hG : ∀ k f G, gmeanmh np (matP ⟨fullBasisRaw XX s, fullActivationRaw XX ⟨fullBasisRaw XX s, s.V, s.H⟩, s.H⟩ k f)
      (matHQH XX ⟨fullBasisRaw XX s, fullActivationRaw XX ⟨fullBasisRaw XX s, s.V, s.H⟩, s.H⟩ k f) 2 = .ok G →
      toPsd np id G = G := by
    intro k f G h
    obtain ⟨G', h1, h2, -⟩ := C17_gmeanmh np _ _ (matP_posDef p2 k f) (hq k f) 2 (Or.inr (Or.inl rfl))
    simp only [id] at h1
    rw [h] at h1
    cases h1
    exact toPsd_id np h2.1
  obtain ⟨H, e3, p3, h3⟩ := full_spatial_eq np id XX ⟨fullBasisRaw XX s,
    fullActivationRaw XX ⟨fullBasisRaw XX s, s.V, s.H⟩, s.H⟩ (mInv_id np p2)
    (fun k f => toPsd_id np (matP_posDef p2 k f).1) (fun k f => toPsd_id np (hq k f).1) hq hG
  refine ⟨H, ?_, p3, h3⟩
  rw [fullUpdateOnce, e1]
  simp only [bind, Except.bind]
  have e2' : fullUpdateActivation np id XX (⟨fun k f b => id (fullBasisRaw XX s k f b), s.V, s.H⟩ : MSt F n m t K)
      = .ok ⟨fullBasisRaw XX s, fullActivationRaw XX ⟨fullBasisRaw XX s, s.V, s.H⟩, s.H⟩ := e2
  rw [e2']
  simp only
  rw [e3]

/-- One iteration. -/
theorem step (np np' : Numpy ℂ) (norm norm' : Bool) {A : F → Mat m ℂ} (hA : ∀ f, IsUnit (A f).det)
    {ρ : Fin n → Fin K → ℝ} (hρ : ∀ k b, 0 < ρ k b) {XX : F → Fin t → Mat m ℂ} (hXX : ∀ f j, (XX f j).PosSemidef)
    (hb : ∀ f, ∃ j, XX f j ≠ 0) (hz : ∀ j, ∃ f, XX f j ≠ 0) (s s' : MSt F n m t K) (h : MPos s ∧ Remixed A ρ s s')
    (hsp : MSpan np XX s) :
    ∃ u u', fullUpdateOnce np norm id XX s = .ok u ∧
      fullUpdateOnce np' norm' id (fun f j => cong (A f) (XX f j)) s' = .ok u' ∧ MPos u ∧ Remixed A ρ u u' := by
  obtain ⟨hs, α, hα, rfl⟩ := h
  have hXX' : ∀ f j, (cong (A f) (XX f j)).PosSemidef := fun f j => cong_posSemidef (hXX f j)
  have b1 := basisRaw_pos hXX hb hs
  obtain ⟨e1, p1, -⟩ := full_basis_step np id XX hXX s (mInv_id np hs) fun k f b => FloorMild.of_id (b1 k f b)
  have p1' : MPos (⟨fullBasisRaw XX s, s.V, s.H⟩ : MSt F n m t K) := p1
  have a1 := activationRaw_pos hXX hz p1'
  obtain ⟨e2, p2, -⟩ := full_activation_step np id XX hXX ⟨fullBasisRaw XX s, s.V, s.H⟩ (mInv_id np p1)
    fun k b j => FloorMild.of_id (a1 k b j)
  have p2' : MPos (⟨fullBasisRaw XX s, fullActivationRaw XX ⟨fullBasisRaw XX s, s.V, s.H⟩, s.H⟩ : MSt F n m t K) := p2
  have hq := matHQH_posDef hXX p2' (hsp _ _ e1 e2)
  obtain ⟨H, e, p3, h3⟩ := update_eq np norm hXX hs b1 a1 hq
  -- the remixed recording
  have hs' := pos_respread hA hα hρ hs
  have c1 : fullBasisRaw (fun f j => cong (A f) (XX f j)) (respread A α ρ s)
      = fun k f b => α k f * ρ k b * fullBasisRaw XX s k f b := by
    funext k f b
    exact basis_respread hA hα hρ XX s k f b
  have c2 : (⟨fullBasisRaw (fun f j => cong (A f) (XX f j)) (respread A α ρ s), (respread A α ρ s).V,
      (respread A α ρ s).H⟩ : MSt F n m t K) = respread A α ρ ⟨fullBasisRaw XX s, s.V, s.H⟩ := by
    rw [c1]
    rfl
  have c3 : fullActivationRaw (fun f j => cong (A f) (XX f j)) (respread A α ρ ⟨fullBasisRaw XX s, s.V, s.H⟩)
      = fun k b j => fullActivationRaw XX ⟨fullBasisRaw XX s, s.V, s.H⟩ k b j / ρ k b := by
    funext k b j
    exact activation_respread hA hα hρ XX _ k b j
  have c4 : (⟨fullBasisRaw (fun f j => cong (A f) (XX f j)) (respread A α ρ s),
      fullActivationRaw (fun f j => cong (A f) (XX f j)) (respread A α ρ ⟨fullBasisRaw XX s, s.V, s.H⟩),
      (respread A α ρ s).H⟩ : MSt F n m t K)
        = respread A α ρ ⟨fullBasisRaw XX s, fullActivationRaw XX ⟨fullBasisRaw XX s, s.V, s.H⟩, s.H⟩ := by
    rw [c1, c3]
    rfl
  have key := update_eq np' norm' hXX' hs'
    (fun k f b => by rw [c1]; exact mul_pos (mul_pos (hα k f) (hρ k b)) (b1 k f b))
    (fun k b j => by rw [c2, c3]; exact div_pos (a1 k b j) (hρ k b))
    (fun k f => by
      rw [c2, c4, matHQH_respread hA hα hρ]
      exact Tr.smul_posDef (cong_posDef (hA f) (hq k f)) (inv_pos.mpr (hα k f)))
  rw [c2, c4] at key
  obtain ⟨H', e', p3', h3'⟩ := key
  have hH : H' = fun k f => (((α k f)⁻¹ : ℝ) : ℂ) • cong (A f) (H k f) := by
    funext k f
    refine EigFree.riccati_unique (matP_posDef (pos_respread hA hα hρ p2') k f) (p3'.2.2 k f)
      (Tr.smul_posDef (cong_posDef (hA f) (p3.2.2 k f)) (inv_pos.mpr (hα k f))) ?_
    rw [h3' k f, riccati_respread hA hα hρ (h3 k f)]
  have c5 : (⟨fullBasisRaw (fun f j => cong (A f) (XX f j)) (respread A α ρ s),
      fullActivationRaw (fun f j => cong (A f) (XX f j)) (respread A α ρ ⟨fullBasisRaw XX s, s.V, s.H⟩), H'⟩
        : MSt F n m t K)
        = respread A α ρ ⟨fullBasisRaw XX s, fullActivationRaw XX ⟨fullBasisRaw XX s, s.V, s.H⟩, H⟩ := by
    rw [c1, c3, hH]
    rfl
  rw [c5] at e' p3'
  generalize (⟨fullBasisRaw XX s, fullActivationRaw XX ⟨fullBasisRaw XX s, s.V, s.H⟩, H⟩ : MSt F n m t K) = v at *
  obtain ⟨β, hβ, n1⟩ := norm_respread norm p3
  obtain ⟨γ, hγ, n2⟩ := norm_respread norm' p3'
  have hβ' : ∀ k f, 0 < (β k f)⁻¹ := fun k f => inv_pos.mpr (hβ k f)
  refine ⟨_, _, e, e', ?_, fun k f => γ k f * α k f * (β k f)⁻¹, fun k f => mul_pos (mul_pos (hγ k f) (hα k f)) (hβ' k f), ?_⟩
  · rw [n1]
    exact pos_respread (fun _ => by simp) hβ (fun _ _ => one_pos) p3
  · rw [n1, n2, respread_respread, respread_respread']
    have h1 : (fun k f => γ k f * α k f * (β k f)⁻¹ * β k f) = fun k f => γ k f * α k f := by
      funext k f
      rw [mul_assoc, inv_mul_cancel₀ (hβ k f).ne', mul_one]
    simp only [h1, Matrix.one_mul, Matrix.mul_one]

/-- C114: the losses of a run. -/
theorem C114_run (np np' : Numpy ℂ) (norm norm' : Bool) {A : F → Mat m ℂ} (hA : ∀ f, IsUnit (A f).det)
    {ρ : Fin n → Fin K → ℝ} (hρ : ∀ k b, 0 < ρ k b) {XX : F → Fin t → Mat m ℂ} (hXX : ∀ f j, (XX f j).PosSemidef)
    (hb : ∀ f, ∃ j, XX f j ≠ 0) (hz : ∀ j, ∃ f, XX f j ≠ 0) (ic : Bool) (n_iter : ℕ) {s s' : MSt F n m t K}
    (hs : MPos s) (h : Remixed A ρ s s') (hreg : RegularRun (fullUpdateOnce np norm id XX) (MSpan np XX) n_iter s) :
    ∃ u u' l, (∀ ls, baseCall (fullUpdateOnce np norm id XX) (fun s => fullLoss np id XX (recon s.T s.V) s.H) ic n_iter s ls
        = .ok (u, ls ++ l)) ∧
      (∀ ls, baseCall (fullUpdateOnce np' norm' id fun f j => cong (A f) (XX f j))
          (fun s => fullLoss np' id (fun f j => cong (A f) (XX f j)) (recon s.T s.V) s.H) ic n_iter s' ls
        = .ok (u', ls ++ l.map (· + 2 * ∑ f, Real.log ‖(A f).det‖))) ∧ MPos u ∧ Remixed A ρ u u' := by
  refine baseCall_shift (R := fun s s' => MPos s ∧ Remixed A ρ s s') _ (step np np' norm norm' hA hρ hXX hb hz) ?_ ic n_iter
    ⟨hs, h⟩ hreg
  rintro s s' ⟨hs, α, hα, rfl⟩
  refine ⟨_, fullLoss_eq XX (mInv_id np hs), ?_⟩
  rw [fullLoss_eq _ (mInv_id np' (pos_respread hA hα hρ hs)), val_respread hA hα hρ (Fin.pos (Classical.arbitrary (Fin t))) XX
    (R_posDef hs)]

/-! ## The output -/

theorem separate_eq (np : Numpy ℂ) (r : Fin m) (X : Spec F m t) {s : MSt F n m t K} (hs : MPos s) :
    fullSeparate np id r X (recon s.T s.V) s.H = .ok fun f j k =>
      ∑ c, ((s.R f j)⁻¹ * fullRn (recon s.T s.V) s.H f j k)ᴴ r c * X f c j := by
  refine onBins_ok fun f => onBins_ok fun j => ?_
  have hp : (∑ k, fullRn (recon s.T s.V) s.H f j k).PosDef := R_posDef hs f j
  have h1 : (onBins fun k => npSolve (∑ k, fullRn (recon s.T s.V) s.H f j k) (fullRn (recon s.T s.V) s.H f j k))
      = .ok fun k => (∑ k, fullRn (recon s.T s.V) s.H f j k)⁻¹ * fullRn (recon s.T s.V) s.H f j k :=
    onBins_ok fun k => by rw [npSolve, if_pos (Tr.isUnit_det hp)]
  simp only [wiener, toPsd_id np hp.1, h1, bind, Except.bind]
  rfl

/-- The output of the remixed recording if its reference channel `r'` is a multiple of the reference channel `r`. -/
theorem separate_remixed (np np' : Numpy ℂ) {A : F → Mat m ℂ} (hA : ∀ f, IsUnit (A f).det) {r r' : Fin m} {a : F → ℂ}
    (hr : ∀ f c, A f r' c = if c = r then a f else 0) {ρ : Fin n → Fin K → ℝ} (hρ : ∀ k b, 0 < ρ k b) (X : Spec F m t)
    {s s' : MSt F n m t K} (hs : MPos s) (h : Remixed A ρ s s') :
    ∃ Y, fullSeparate np id r X (recon s.T s.V) s.H = .ok Y ∧
      fullSeparate np' id r' (fun f => A f * X f) (recon s'.T s'.V) s'.H = .ok fun f j k => a f * Y f j k := by
  obtain ⟨α, hα, rfl⟩ := h
  refine ⟨_, separate_eq np r X hs, ?_⟩
  rw [separate_eq np' r' _ (pos_respread hA hα hρ hs)]
  refine congrArg Except.ok (funext fun f => funext fun j => funext fun k => ?_)
  simp only [R_respread hα hρ, Rn_respread hα hρ, cong_inv_mul (hA f)]
  have e1 : ∀ M : Mat m ℂ, (((A f)ᴴ)⁻¹ * M * (A f)ᴴ)ᴴ * (A f * X f) = A f * (Mᴴ * X f) := by
    intro M
    rw [conjTranspose_mul, conjTranspose_mul, conjTranspose_conjTranspose, conjTranspose_nonsing_inv,
      conjTranspose_conjTranspose]
    simp only [Matrix.mul_assoc]
    rw [nonsing_inv_mul_cancel_left _ _ (hA f)]
  have e2 := congrFun (congrFun (e1 ((s.R f j)⁻¹ * fullRn (recon s.T s.V) s.H f j k)) r') j
  rw [mul_apply, mul_apply] at e2
  rw [e2]
  simp only [hr, ite_mul, zero_mul, Finset.sum_ite_eq', Finset.mem_univ, if_true]
  rfl

/-! ## Whole calls -/

theorem instant_eq (np : Numpy ℂ) (X : Spec F m t) (f : F) (j : Fin t) :
    instantCovariance np id X f j = vecMulVec (fun c => X f c j) (star fun c => X f c j) := by
  have h : (vecMulVec (fun c => X f c j) (star fun c => X f c j)).IsHermitian := (posSemidef_vecMulVec_self_star _).1
  exact toPsd_id np h

theorem instant_posSemidef (np : Numpy ℂ) (X : Spec F m t) (f : F) (j : Fin t) :
    (instantCovariance np id X f j).PosSemidef := by
  rw [instant_eq]
  exact posSemidef_vecMulVec_self_star _

theorem instant_ne_zero (np : Numpy ℂ) {X : Spec F m t} {f : F} {j : Fin t} (h : ∃ c, X f c j ≠ 0) :
    instantCovariance np id X f j ≠ 0 := by
  obtain ⟨c, hc⟩ := h
  intro h0
  have := congrFun (congrFun h0 c) c
  rw [instant_eq, vecMulVec_apply] at this
  exact (mul_ne_zero hc (star_ne_zero.mpr hc)) this

theorem instant_remix (np np' : Numpy ℂ) (A : F → Mat m ℂ) (X : Spec F m t) :
    instantCovariance np' id (fun f => A f * X f) = fun f j => cong (A f) (instantCovariance np id X f j) := by
  funext f j
  rw [instant_eq, instant_eq, cong]
  have e : (fun c => (A f * X f) c j) = A f *ᵥ fun c => X f c j := rfl
  rw [e, star_mulVec, mul_vecMulVec, vecMulVec_mul]

/-- C114: a call of GaussMNMF on the recording with the channels of every bin mixed by `A`, with any setting of
`normalization`. -/
theorem C114_call (np np' : Numpy ℂ) (norm norm' : Bool) {A : F → Mat m ℂ} (hA : ∀ f, IsUnit (A f).det) {r r' : Fin m}
    {a : F → ℂ} (hr : ∀ f c, A f r' c = if c = r then a f else 0) {α : Fin n → F → ℝ} (hα : ∀ k f, 0 < α k f)
    {ρ : Fin n → Fin K → ℝ} (hρ : ∀ k b, 0 < ρ k b) (draw draw' : Draw F n t K) {X : Spec F m t}
    (hb : ∀ f, ∃ j c, X f c j ≠ 0) (hz : ∀ j, ∃ f c, X f c j ≠ 0) (n_iter : ℕ) (ic : Bool) (o o' : Obj F n m t K)
    {T : Fin n → F → Fin K → ℝ} {V : Fin n → Fin K → Fin t → ℝ} {H : Fin n → F → Mat m ℂ} (hT : ∀ k f b, 0 < T k f b)
    (hV : ∀ k b j, 0 < V k b j) (hH : ∀ k f, (H k f).PosDef)
    (hreg : RegularRun (fullUpdateOnce np norm id (instantCovariance np id X)) (MSpan np (instantCovariance np id X)) n_iter
      ⟨T, V, H⟩) :
    ∃ (α₁ : Fin n → F → ℝ) (T₁ : Fin n → F → Fin K → ℝ) (V₁ : Fin n → Fin K → Fin t → ℝ) (H₁ : Fin n → F → Mat m ℂ)
      (Y : F → Fin t → Fin n → ℂ) (l : List ℝ), (∀ k f, 0 < α₁ k f) ∧
      MnmfCall.call np norm id r draw X n_iter ic { basis := some T, activation := some V, spatial := some H } o
        = .ok ⟨.val T₁, .val V₁, .val H₁, .val Y, o.loss ++ l⟩ ∧
      MnmfCall.call np' norm' id r' draw' (fun f => A f * X f) n_iter ic
          { basis := some fun k f b => α k f * ρ k b * T k f b,
            activation := some fun k b j => V k b j / ρ k b,
            spatial := some fun k f => (((α k f)⁻¹ : ℝ) : ℂ) • (A f * H k f * (A f)ᴴ) } o'
        = .ok ⟨.val fun k f b => α₁ k f * ρ k b * T₁ k f b, .val fun k b j => V₁ k b j / ρ k b,
            .val fun k f => (((α₁ k f)⁻¹ : ℝ) : ℂ) • (A f * H₁ k f * (A f)ᴴ), .val fun f j k => a f * Y f j k,
            o'.loss ++ l.map (· + 2 * ∑ f, Real.log ‖(A f).det‖)⟩ := by
  have hs : MPos (⟨T, V, H⟩ : MSt F n m t K) := ⟨hT, hV, hH⟩
  have hXX := instant_posSemidef np X
  have hb' : ∀ f, ∃ j, instantCovariance np id X f j ≠ 0 := fun f => (hb f).imp fun j h => instant_ne_zero np h
  have hz' : ∀ j, ∃ f, instantCovariance np id X f j ≠ 0 := fun j => (hz j).imp fun f h => instant_ne_zero np h
  have h0 : Remixed A ρ ⟨T, V, H⟩ (respread A α ρ ⟨T, V, H⟩) := ⟨α, hα, rfl⟩
  obtain ⟨u, u', l, h1, h2, hu, hR⟩ := C114_run np np' norm norm' hA hρ hXX hb' hz' ic n_iter hs h0 hreg
  obtain ⟨Y₀, y1, y2⟩ := separate_remixed np np' hA hr hρ X hs h0
  obtain ⟨Y, y3, y4⟩ := separate_remixed np np' hA hr hρ X hu hR
  obtain ⟨α₁, hα₁, rfl⟩ := hR
  refine ⟨α₁, u.T, u.V, u.H, Y, l, hα₁, ?_, ?_⟩
  · have e0 : MnmfCall.reset np id r draw X { basis := some T, activation := some V, spatial := some H } o
        = .ok ⟨T, V, H⟩ := by
      change (fullSeparate np id r X (recon T V) H >>= fun _ => Except.ok (⟨T, V, H⟩ : MSt F n m t K)) = _
      rw [y1]
      rfl
    simp only [MnmfCall.call, e0, bind, Except.bind, h1, y3]
  · have e0 : MnmfCall.reset np' id r' draw' (fun f => A f * X f)
        { basis := some fun k f b => α k f * ρ k b * T k f b,
          activation := some fun k b j => V k b j / ρ k b,
          spatial := some fun k f => (((α k f)⁻¹ : ℝ) : ℂ) • (A f * H k f * (A f)ᴴ) } o'
        = .ok (respread A α ρ ⟨T, V, H⟩) := by
      change (fullSeparate np' id r' (fun f => A f * X f) (recon (respread A α ρ ⟨T, V, H⟩).T (respread A α ρ ⟨T, V, H⟩).V)
        (respread A α ρ ⟨T, V, H⟩).H >>= fun _ => .ok (respread A α ρ ⟨T, V, H⟩)) = _
      rw [y2]
      rfl
    simp only [MnmfCall.call, e0, bind, Except.bind, instant_remix np np', h2, y4]
    rfl

/-- The start of a call does not depend on LAPACK. -/
theorem reset_ok (np np' : Numpy ℂ) (r : Fin m) (draw : Draw F n t K) (X : Spec F m t) (kw : Kw F n m t K)
    (o : Obj F n m t K) {s : MSt F n m t K} (h : MnmfCall.reset np id r draw X kw o = .ok s) (hs : MPos s) :
    MnmfCall.reset np' id r draw X kw o = .ok s := by
  rw [MnmfCall.reset] at h ⊢
  cases e1 : IlrmaCall.initNmf id draw.T draw.V (IlrmaCall.override kw.basis o.basis)
      (IlrmaCall.override kw.activation o.activation) with
  | error => rw [e1] at h; cases h
  | ok TV =>
    rw [e1] at h
    obtain ⟨T, V⟩ := TV
    simp only [bind, Except.bind] at h ⊢
    cases e2 : IlrmaCall.attrOr (fun _ _ => MnmfCall.eyeOverTrace m) (IlrmaCall.override kw.spatial o.spatial) with
    | error => rw [e2] at h; cases h
    | ok H =>
      rw [e2] at h
      simp only at h ⊢
      cases e3 : fullSeparate np id r X (recon T V) H with
      | error => rw [e3] at h; cases h
      | ok Y =>
        rw [e3] at h
        cases h
        have := separate_eq np' r X hs
        simp only at this
        rw [this]

/-- C114: `normalization` does not influence losses, activations or output of GaussMNMF, whatever the start. -/
theorem C114_normalization (np np' : Numpy ℂ) (norm norm' : Bool) (r : Fin m) (draw : Draw F n t K) {X : Spec F m t}
    (hb : ∀ f, ∃ j c, X f c j ≠ 0) (hz : ∀ j, ∃ f c, X f c j ≠ 0) (n_iter : ℕ) (ic : Bool) (kw : Kw F n m t K)
    (o : Obj F n m t K)
    (hreg : ∀ s, MnmfCall.reset np id r draw X kw o = .ok s → MPos s ∧ RegularRun
      (fullUpdateOnce np norm id (instantCovariance np id X)) (MSpan np (instantCovariance np id X)) n_iter s)
    {o₁ : Obj F n m t K} (h : MnmfCall.call np norm id r draw X n_iter ic kw o = .ok o₁) :
    ∃ T' H', MnmfCall.call np' norm' id r draw X n_iter ic kw o = .ok { o₁ with basis := .val T', spatial := .val H' } := by
  rw [MnmfCall.call] at h
  cases e : MnmfCall.reset np id r draw X kw o with
  | error => rw [e] at h; cases h
  | ok s =>
    obtain ⟨hs, hr⟩ := hreg s e
    have hXX := instant_posSemidef np X
    have hb' : ∀ f, ∃ j, instantCovariance np id X f j ≠ 0 := fun f => (hb f).imp fun j h => instant_ne_zero np h
    have hz' : ∀ j, ∃ f, instantCovariance np id X f j ≠ 0 := fun j => (hz j).imp fun f h => instant_ne_zero np h
    have hA : ∀ f : F, IsUnit ((fun _ => (1 : Mat m ℂ)) f).det := fun _ => by simp
    have hρ : ∀ (k : Fin n) (b : Fin K), 0 < (fun _ _ => (1 : ℝ) : Fin n → Fin K → ℝ) k b := fun _ _ => one_pos
    have h0 : Remixed (fun _ => 1) (fun _ _ => 1) s s := ⟨fun _ _ => 1, fun _ _ => one_pos, (respread_one s).symm⟩
    obtain ⟨u, u', l, h1, h2, hu, hR⟩ := C114_run np np' norm norm' hA hρ hXX hb' hz' ic n_iter hs h0 hr
    obtain ⟨Y, y3, y4⟩ := separate_remixed np np' hA (r := r) (r' := r) (a := fun _ => 1)
      (fun f c => by simp [Matrix.one_apply, eq_comm]) hρ X hu hR
    obtain ⟨α₁, hα₁, rfl⟩ := hR
    simp only [cong_one, Matrix.one_mul, one_mul, det_one, norm_one, Real.log_one, Finset.sum_const_zero, mul_zero, add_zero,
      List.map_id'] at h2 y4
    have e2 : instantCovariance np' id X = instantCovariance np id X := by
      funext f j
      rw [instant_eq, instant_eq]
    have e' := reset_ok np np' r draw X kw o e hs
    refine ⟨(respread (fun _ => 1) α₁ (fun _ _ => 1) u).T, (respread (fun _ => 1) α₁ (fun _ _ => 1) u).H, ?_⟩
    simp only [e, bind, Except.bind, h1, y3] at h
    rw [MnmfCall.call, e']
    simp only [bind, Except.bind, e2, h2, y4]
    rw [← Except.ok.inj h]
    simp only [respread, div_one]

theorem cong_eye {A : Mat m ℂ} {c : ℝ} (hA : A * Aᴴ = (c : ℂ) • 1) :
    A * MnmfCall.eyeOverTrace m * Aᴴ = (c : ℂ) • MnmfCall.eyeOverTrace m := by
  rw [MnmfCall.eyeOverTrace, Matrix.mul_smul, Matrix.mul_one, Matrix.smul_mul, hA, smul_comm]

theorem eye_posDef : (MnmfCall.eyeOverTrace m).PosDef := by
  have : 0 < ((1 : Mat m ℂ).trace.re) := (Complex.lt_def.mp (PosDef.one (n := Fin m) (R := ℂ)).trace_pos).1
  rw [MnmfCall.eyeOverTrace, ← Complex.ofReal_inv]
  exact Tr.smul_posDef PosDef.one (inv_pos.mpr this)

/-- C114 from the default spatial covariances: a mixing by multiples of unitary matrices (gains, delays, reordered channels)
needs only bases multiplied by the squared gains. -/
theorem C114_default_spatial (np np' : Numpy ℂ) (norm norm' : Bool) {A : F → Mat m ℂ} {r r' : Fin m} {a : F → ℂ}
    (ha : ∀ f, a f ≠ 0) (hA : ∀ f, A f * (A f)ᴴ = ((‖a f‖ ^ 2 : ℝ) : ℂ) • 1)
    (hr : ∀ f c, A f r' c = if c = r then a f else 0) (draw draw' : Draw F n t K) {X : Spec F m t}
    (hb : ∀ f, ∃ j c, X f c j ≠ 0) (hz : ∀ j, ∃ f c, X f c j ≠ 0) (n_iter : ℕ) (ic : Bool)
    {T : Fin n → F → Fin K → ℝ} {V : Fin n → Fin K → Fin t → ℝ} (hT : ∀ k f b, 0 < T k f b)
    (hV : ∀ k b j, 0 < V k b j)
    (hreg : RegularRun (fullUpdateOnce np norm id (instantCovariance np id X)) (MSpan np (instantCovariance np id X)) n_iter
      ⟨T, V, fun _ _ => MnmfCall.eyeOverTrace m⟩) :
    ∃ (α₁ : Fin n → F → ℝ) (T₁ : Fin n → F → Fin K → ℝ) (V₁ : Fin n → Fin K → Fin t → ℝ) (H₁ : Fin n → F → Mat m ℂ)
      (Y : F → Fin t → Fin n → ℂ) (l : List ℝ), (∀ k f, 0 < α₁ k f) ∧
      MnmfCall.call np norm id r draw X n_iter ic { basis := some T, activation := some V } .fresh
        = .ok ⟨.val T₁, .val V₁, .val H₁, .val Y, l⟩ ∧
      MnmfCall.call np' norm' id r' draw' (fun f => A f * X f) n_iter ic
          { basis := some fun k f b => ‖a f‖ ^ 2 * T k f b, activation := some V } .fresh
        = .ok ⟨.val fun k f b => α₁ k f * T₁ k f b, .val V₁, .val fun k f => (((α₁ k f)⁻¹ : ℝ) : ℂ) • (A f * H₁ k f * (A f)ᴴ),
            .val fun f j k => a f * Y f j k, l.map (· + 2 * ∑ f, Real.log ‖(A f).det‖)⟩ := by
  have ha2 : ∀ f, 0 < ‖a f‖ ^ 2 := fun f => pow_pos (norm_pos_iff.mpr (ha f)) 2
  have hA' : ∀ f, IsUnit (A f).det := by
    intro f
    have h1 : IsUnit (A f * (A f)ᴴ).det := by
      rw [hA, det_smul, det_one, mul_one, isUnit_iff_ne_zero]
      exact pow_ne_zero _ (by exact_mod_cast (ha2 f).ne')
    rw [det_mul] at h1
    exact isUnit_of_mul_isUnit_left h1
  obtain ⟨α₁, T₁, V₁, H₁, Y, l, h1, h2, h3⟩ := C114_call np np' norm norm' hA' hr (α := fun _ f => ‖a f‖ ^ 2)
    (fun _ f => ha2 f) (ρ := fun _ _ => 1) (fun _ _ => one_pos) draw draw' hb hz n_iter ic .fresh .fresh hT hV
    (H := fun _ _ => MnmfCall.eyeOverTrace m) (fun _ _ => eye_posDef) hreg
  refine ⟨α₁, T₁, V₁, H₁, Y, l, h1, h2, ?_⟩
  have e : (fun (_ : Fin n) f => (((‖a f‖ ^ 2)⁻¹ : ℝ) : ℂ) • (A f * MnmfCall.eyeOverTrace m * (A f)ᴴ))
      = fun _ _ => MnmfCall.eyeOverTrace m := by
    funext _ f
    rw [cong_eye (hA f), smul_smul, ← Complex.ofReal_mul, inv_mul_cancel₀ (ha2 f).ne', Complex.ofReal_one, one_smul]
  simp only [e, mul_one, div_one] at h3
  exact h3

/-- C114: gains per bin pass through GaussMNMF. -/
theorem C114_gain (np np' : Numpy ℂ) (norm norm' : Bool) (r : Fin m) {a : F → ℂ} (ha : ∀ f, a f ≠ 0)
    (draw draw' : Draw F n t K) {X : Spec F m t} (hb : ∀ f, ∃ j c, X f c j ≠ 0) (hz : ∀ j, ∃ f c, X f c j ≠ 0)
    (n_iter : ℕ) (ic : Bool) {T : Fin n → F → Fin K → ℝ} {V : Fin n → Fin K → Fin t → ℝ} (hT : ∀ k f b, 0 < T k f b)
    (hV : ∀ k b j, 0 < V k b j)
    (hreg : RegularRun (fullUpdateOnce np norm id (instantCovariance np id X)) (MSpan np (instantCovariance np id X)) n_iter
      ⟨T, V, fun _ _ => MnmfCall.eyeOverTrace m⟩) :
    ∃ (T₁ T₂ : Fin n → F → Fin K → ℝ) (V₁ : Fin n → Fin K → Fin t → ℝ) (H₁ H₂ : Fin n → F → Mat m ℂ)
      (Y : F → Fin t → Fin n → ℂ) (l : List ℝ),
      MnmfCall.call np norm id r draw X n_iter ic { basis := some T, activation := some V } .fresh
        = .ok ⟨.val T₁, .val V₁, .val H₁, .val Y, l⟩ ∧
      MnmfCall.call np' norm' id r draw' (fun f => a f • X f) n_iter ic
          { basis := some fun k f b => ‖a f‖ ^ 2 * T k f b, activation := some V } .fresh
        = .ok ⟨.val T₂, .val V₁, .val H₂, .val fun f j k => a f * Y f j k, l.map (· + 2 * m * ∑ f, Real.log ‖a f‖)⟩ := by
  have h1 : ∀ f, a f • (1 : Mat m ℂ) * (a f • (1 : Mat m ℂ))ᴴ = ((‖a f‖ ^ 2 : ℝ) : ℂ) • 1 := by
    intro f
    rw [conjTranspose_smul, conjTranspose_one, Matrix.smul_mul, Matrix.mul_smul, Matrix.mul_one, smul_smul, RCLike.star_def,
      Complex.mul_conj, Complex.normSq_eq_norm_sq]
  obtain ⟨α₁, T₁, V₁, H₁, Y, l, -, h2, h3⟩ := C114_default_spatial np np' norm norm' (A := fun f => a f • 1) (r := r)
    (r' := r) ha h1 (fun f c => by
      rw [Matrix.smul_apply, one_apply, smul_eq_mul, mul_ite, mul_one, mul_zero]
      simp only [eq_comm]) draw draw' hb hz n_iter ic hT hV hreg
  have e1 : (fun f => a f • (1 : Mat m ℂ) * X f) = fun f => a f • X f := by
    funext f
    rw [Matrix.smul_mul, Matrix.one_mul]
  have e2 : (2 * ∑ f, Real.log ‖(a f • (1 : Mat m ℂ)).det‖) = 2 * m * ∑ f, Real.log ‖a f‖ := by
    rw [mul_assoc, Finset.mul_sum (s := Finset.univ) (a := (m : ℝ))]
    congr 1
    refine Finset.sum_congr rfl fun f _ => ?_
    rw [det_smul, det_one, mul_one, norm_pow, Real.log_pow, Fintype.card_fin]
  rw [e1, e2] at h3
  exact ⟨T₁, _, V₁, H₁, _, Y, l, h2, h3⟩

/-- C114: the order of the microphones does not matter, if the reference is the same microphone. -/
theorem C114_reordered (np np' : Numpy ℂ) (norm norm' : Bool) (σ : Equiv.Perm (Fin m)) (r : Fin m)
    (draw draw' : Draw F n t K) {X : Spec F m t} (hb : ∀ f, ∃ j c, X f c j ≠ 0) (hz : ∀ j, ∃ f c, X f c j ≠ 0)
    (n_iter : ℕ) (ic : Bool) {T : Fin n → F → Fin K → ℝ} {V : Fin n → Fin K → Fin t → ℝ} (hT : ∀ k f b, 0 < T k f b)
    (hV : ∀ k b j, 0 < V k b j)
    (hreg : RegularRun (fullUpdateOnce np norm id (instantCovariance np id X)) (MSpan np (instantCovariance np id X)) n_iter
      ⟨T, V, fun _ _ => MnmfCall.eyeOverTrace m⟩) :
    ∃ (T₁ T₂ : Fin n → F → Fin K → ℝ) (V₁ : Fin n → Fin K → Fin t → ℝ) (H₁ H₂ : Fin n → F → Mat m ℂ)
      (Y : F → Fin t → Fin n → ℂ) (l : List ℝ),
      MnmfCall.call np norm id (σ r) draw X n_iter ic { basis := some T, activation := some V } .fresh
        = .ok ⟨.val T₁, .val V₁, .val H₁, .val Y, l⟩ ∧
      MnmfCall.call np' norm' id r draw' (fun f => Matrix.of fun c j => X f (σ c) j) n_iter ic
          { basis := some T, activation := some V } .fresh
        = .ok ⟨.val T₂, .val V₁, .val H₂, .val Y, l⟩ := by
  obtain ⟨P, hP⟩ : ∃ P : Mat m ℂ, P = Matrix.of fun c d => if d = σ c then 1 else 0 := ⟨_, rfl⟩
  have h1 : P * Pᴴ = 1 := by
    rw [hP]
    ext c d
    simp [mul_apply, one_apply, eq_comm]
  have hn : ‖P.det‖ = 1 := by
    have := congrArg (fun M : Mat m ℂ => ‖M.det‖) h1
    simp only [det_mul, det_conjTranspose, norm_mul, norm_star, det_one, norm_one] at this
    nlinarith [norm_nonneg P.det]
  obtain ⟨α₁, T₁, V₁, H₁, Y, l, -, h2, h3⟩ := C114_default_spatial np np' norm norm' (A := fun _ : F => P) (r := σ r)
    (r' := r) (a := fun _ => 1) (fun _ => one_ne_zero) (fun _ => by simp [h1]) (fun _ c => by rw [hP]; rfl) draw draw' hb hz
    n_iter ic hT hV hreg
  have e1 : (fun f => P * X f) = fun f => Matrix.of fun c j => X f (σ c) j := by
    funext f
    ext c j
    simp [hP, mul_apply]
  simp only [e1, norm_one, one_pow, one_mul, hn, Real.log_one, Finset.sum_const_zero, mul_zero, add_zero, List.map_id'] at h3
  exact ⟨T₁, _, V₁, H₁, _, Y, l, h2, h3⟩

/-! ## The hypotheses are satisfiable -/

/-- The states between the updates. -/
theorem mSpan_of (np : Numpy ℂ) {XX : F → Fin t → Mat m ℂ} (hXX : ∀ f j, (XX f j).PosSemidef)
    (hb : ∀ f, ∃ j, XX f j ≠ 0) (hz : ∀ j, ∃ f, XX f j ≠ 0) (h : ∀ s : MSt F n m t K, MPos s → Spans XX s)
    {s : MSt F n m t K} (hs : MPos s) : MSpan np XX s := by
  intro s1 s2 e1 e2
  obtain ⟨e1', p1, -⟩ := full_basis_step np id XX hXX s (mInv_id np hs)
    fun k f b => FloorMild.of_id (basisRaw_pos hXX hb hs k f b)
  rw [e1] at e1'
  obtain ⟨e2', p2, -⟩ := full_activation_step np id XX hXX s1 (mInv_id np (by cases e1'; exact p1))
    fun k b j => FloorMild.of_id (activationRaw_pos hXX hz (by cases e1'; exact p1) k b j)
  rw [e2] at e2'
  exact h s2 (by cases e2'; exact p2)

/-- If the frames span the space whatever the model, all runs are regular. -/
theorem regular_of (np : Numpy ℂ) (norm : Bool) {XX : F → Fin t → Mat m ℂ} (hXX : ∀ f j, (XX f j).PosSemidef)
    (hb : ∀ f, ∃ j, XX f j ≠ 0) (hz : ∀ j, ∃ f, XX f j ≠ 0) (h : ∀ s : MSt F n m t K, MPos s → Spans XX s) (n_iter : ℕ)
    {s : MSt F n m t K} (hs : MPos s) : RegularRun (fullUpdateOnce np norm id XX) (MSpan np XX) n_iter s := by
  refine regularRun_of_inv MPos (fun s hs => mSpan_of np hXX hb hz h hs) (fun s s' hs e => ?_) n_iter s hs
  obtain ⟨_, _, s'', -, -, e', -, -, p, -⟩ := full_steps_id np norm hXX hb hz s hs (mSpan_of np hXX hb hz h hs)
  rw [e] at e'
  cases e'
  exact p

/-- With one microphone all runs are regular. -/
theorem C114_regular_mono (np : Numpy ℂ) (norm : Bool) {X : Spec F 1 t} (hb : ∀ f, ∃ j c, X f c j ≠ 0)
    (hz : ∀ j, ∃ f c, X f c j ≠ 0) (n_iter : ℕ) {s : MSt F n 1 t K} (hs : MPos s) :
    RegularRun (fullUpdateOnce np norm id (instantCovariance np id X)) (MSpan np (instantCovariance np id X)) n_iter s := by
  refine regular_of np norm (instant_posSemidef np X) (fun f => (hb f).imp fun j h => instant_ne_zero np h)
    (fun j => (hz j).imp fun f h => instant_ne_zero np h) (fun s hs f v hv => ?_) n_iter hs
  obtain ⟨j, c, hc⟩ := hb f
  have h1 : (s.R f j)⁻¹ *ᵥ v = 0 := by
    funext c'
    have h2 := congrFun (hv j) c
    rw [instant_eq, vecMulVec_mulVec] at h2
    have h3 : star (X f c j) * ((s.R f j)⁻¹ *ᵥ v) c = 0 := by
      have h4 : (star fun c => X f c j) ⬝ᵥ ((s.R f j)⁻¹ *ᵥ v) = star (X f c j) * ((s.R f j)⁻¹ *ᵥ v) c := by
        rw [dotProduct, Fintype.sum_eq_single c fun c' h => absurd (Subsingleton.elim c' c) h]
        rfl
      rw [← h4]
      simpa [hc] using h2
    rw [Subsingleton.elim c' c]
    exact (mul_eq_zero.mp h3).resolve_left (star_ne_zero.mpr hc)
  have h2 := congrArg (fun w => s.R f j *ᵥ w) h1
  simp only [mulVec_mulVec, mulVec_zero] at h2
  rwa [mul_nonsing_inv _ (Tr.isUnit_det (R_posDef hs f j)), one_mulVec] at h2

/-- With one source all runs are regular if no channel of any bin is a combination of the others. -/
theorem C114_regular_one_source (np : Numpy ℂ) (norm : Bool) {X : Spec F m t}
    (hX : ∀ f v, (∀ j, instantCovariance np id X f j *ᵥ v = 0) → v = 0) (hz : ∀ j, ∃ f c, X f c j ≠ 0) (n_iter : ℕ)
    {s : MSt F 1 m t K} (hs : MPos s) :
    RegularRun (fullUpdateOnce np norm id (instantCovariance np id X)) (MSpan np (instantCovariance np id X)) n_iter s := by
  refine regular_of np norm (instant_posSemidef np X) (fun f => ?_)
    (fun j => (hz j).imp fun f h => instant_ne_zero np h) (fun s hs f v hv => ?_) n_iter hs
  · by_contra h
    push Not at h
    have := hX f (fun _ => 1) fun j => by rw [h j, zero_mulVec]
    exact one_ne_zero (congrFun this (Classical.arbitrary (Fin m)))
  · have hu : ∀ j, IsUnit (s.R f j).det := fun j => Tr.isUnit_det (R_posDef hs f j)
    have hH := Tr.isUnit_det (hs.2.2 0 f)
    have h1 : (s.H 0 f)⁻¹ *ᵥ v = 0 := by
      refine hX f _ fun j => ?_
      have hR : s.R f j = (recon s.T s.V 0 f j : ℂ) • s.H 0 f := by
        simp only [MSt.R, fullR, fullRn, Finset.univ_unique, Finset.sum_singleton, Fin.default_eq_zero]
      have e : (s.H 0 f)⁻¹ *ᵥ v = (recon s.T s.V 0 f j : ℂ) • ((s.R f j)⁻¹ *ᵥ v) := by
        have h2 : s.H 0 f *ᵥ ((recon s.T s.V 0 f j : ℂ) • ((s.R f j)⁻¹ *ᵥ v)) = v := by
          rw [mulVec_smul, ← smul_mulVec, ← hR, mulVec_mulVec, mul_nonsing_inv _ (hu j), one_mulVec]
        conv_lhs => rw [← h2]
        rw [mulVec_mulVec, nonsing_inv_mul _ hH, one_mulVec]
      rw [e, mulVec_smul, hv j, smul_zero]
    have h2 := congrArg (fun w => s.H 0 f *ᵥ w) h1
    simp only [mulVec_mulVec, mulVec_zero] at h2
    rwa [mul_nonsing_inv _ hH, one_mulVec] at h2

/-- A run of any length of two sources at one microphone, with a gain. -/
example (np np' : Numpy ℂ) (draw draw' : Draw Unit 2 2 1) (n_iter : ℕ) :
    ∃ (T₁ T₂ : Fin 2 → Unit → Fin 1 → ℝ) (V₁ : Fin 2 → Fin 1 → Fin 2 → ℝ) (H₁ H₂ : Fin 2 → Unit → Mat 1 ℂ)
      (Y : Unit → Fin 2 → Fin 2 → ℂ) (l : List ℝ),
      MnmfCall.call np true id 0 draw (fun _ => !![1, 2]) n_iter true
          { basis := some fun k _ _ => k + 1, activation := some fun _ _ _ => 1 } .fresh
        = .ok ⟨.val T₁, .val V₁, .val H₁, .val Y, l⟩ ∧
      MnmfCall.call np' false id 0 draw' (fun _ => (3 : ℂ) • !![1, 2]) n_iter true
          { basis := some fun k _ _ => ‖(3 : ℂ)‖ ^ 2 * (k + 1), activation := some fun _ _ _ => 1 } .fresh
        = .ok ⟨.val T₂, .val V₁, .val H₂, .val fun f j k => 3 * Y f j k,
          l.map (· + 2 * (1 : ℕ) * ∑ _ : Unit, Real.log ‖(3 : ℂ)‖)⟩ := by
  have hb : ∀ f : Unit, ∃ j c, (fun _ : Unit => !![(1 : ℂ), 2]) f c j ≠ 0 := fun _ => ⟨0, 0, by simp⟩
  have hz : ∀ j : Fin 2, ∃ (f : Unit) (c : Fin 1), (fun _ : Unit => !![(1 : ℂ), 2]) f c j ≠ 0 :=
    fun j => ⟨(), 0, by fin_cases j <;> simp⟩
  have hT : ∀ (k : Fin 2) (_ : Unit) (_ : Fin 1), (0 : ℝ) < k + 1 := fun k _ _ => by positivity
  exact C114_gain np np' true false 0 (a := fun _ : Unit => 3) (fun _ => by norm_num) draw draw' hb hz n_iter true hT
    (fun _ _ _ => one_pos) (C114_regular_mono np true hb hz n_iter ⟨hT, fun _ _ _ => one_pos, fun _ _ => eye_posDef⟩)

/-- A run of any length of one source at two microphones that change places. -/
example (np np' : Numpy ℂ) (draw draw' : Draw Unit 1 2 1) (n_iter : ℕ) :
    ∃ (T₁ T₂ : Fin 1 → Unit → Fin 1 → ℝ) (V₁ : Fin 1 → Fin 1 → Fin 2 → ℝ) (H₁ H₂ : Fin 1 → Unit → Mat 2 ℂ)
      (Y : Unit → Fin 2 → Fin 1 → ℂ) (l : List ℝ),
      MnmfCall.call np true id 1 draw (fun _ => 1) n_iter true
          { basis := some fun _ _ _ => 1, activation := some fun _ _ _ => 1 } .fresh
        = .ok ⟨.val T₁, .val V₁, .val H₁, .val Y, l⟩ ∧
      MnmfCall.call np' false id 0 draw' (fun _ => Matrix.of fun c j => (1 : Mat 2 ℂ) (Equiv.swap 0 1 c) j) n_iter true
          { basis := some fun _ _ _ => 1, activation := some fun _ _ _ => 1 } .fresh
        = .ok ⟨.val T₂, .val V₁, .val H₂, .val Y, l⟩ := by
  have hz : ∀ j : Fin 2, ∃ (f : Unit) (c : Fin 2), (fun _ : Unit => (1 : Mat 2 ℂ)) f c j ≠ 0 :=
    fun j => ⟨(), j, by simp⟩
  refine C114_reordered np np' true false (Equiv.swap 0 1) 0 draw draw' (fun _ => ⟨0, 0, by simp⟩) hz n_iter true
    (fun _ _ _ => one_pos) (fun _ _ _ => one_pos) (C114_regular_one_source np true (fun f v h => ?_) hz n_iter
      ⟨fun _ _ _ => one_pos, fun _ _ _ => one_pos, fun _ _ => eye_posDef⟩)
  funext j
  have := congrFun (h j) j
  simpa [instant_eq, vecMulVec_mulVec, dotProduct, one_apply] using this

/-- Two sources at two microphones, mixed anew, in one iteration. -/
example (np np' : Numpy ℂ) (draw draw' : Draw Unit 2 2 1) :
    ∃ (α₁ : Fin 2 → Unit → ℝ) (T₁ : Fin 2 → Unit → Fin 1 → ℝ) (V₁ : Fin 2 → Fin 1 → Fin 2 → ℝ) (H₁ : Fin 2 → Unit → Mat 2 ℂ)
      (Y : Unit → Fin 2 → Fin 2 → ℂ) (l : List ℝ), (∀ k f, 0 < α₁ k f) ∧
      MnmfCall.call np true id 0 draw (fun _ => 1) 1 true
          { basis := some fun k _ _ => k + 1, activation := some fun k _ j => k + j + 1, spatial := some fun _ _ => 1 } .fresh
        = .ok ⟨.val T₁, .val V₁, .val H₁, .val Y, l⟩ ∧
      MnmfCall.call np' true id 0 draw' (fun _ => !![2, 0; 1, 1] * 1) 1 true
          { basis := some fun k _ _ => 1 * 1 * (k + 1), activation := some fun k _ j => (k + j + 1) / 1,
            spatial := some fun _ _ => ((1⁻¹ : ℝ) : ℂ) • (!![2, 0; 1, 1] * 1 * !![2, 0; 1, 1]ᴴ) } .fresh
        = .ok ⟨.val fun k f b => α₁ k f * 1 * T₁ k f b, .val fun k b j => V₁ k b j / 1,
            .val fun k f => (((α₁ k f)⁻¹ : ℝ) : ℂ) • (!![2, 0; 1, 1] * H₁ k f * !![2, 0; 1, 1]ᴴ),
            .val fun f j k => 2 * Y f j k, l.map (· + 2 * ∑ _ : Unit, Real.log ‖(!![(2 : ℂ), 0; 1, 1]).det‖)⟩ := by
  have hz : ∀ j : Fin 2, ∃ (f : Unit) (c : Fin 2), (fun _ : Unit => (1 : Mat 2 ℂ)) f c j ≠ 0 :=
    fun j => ⟨(), j, by simp⟩
  have hb : ∀ f : Unit, ∃ (j : Fin 2) (c : Fin 2), (fun _ : Unit => (1 : Mat 2 ℂ)) f c j ≠ 0 := fun _ => ⟨0, 0, by simp⟩
  have hT : ∀ (k : Fin 2) (_ : Unit) (_ : Fin 1), (0 : ℝ) < k + 1 := fun k _ _ => by positivity
  have hV : ∀ (k : Fin 2) (_ : Fin 1) (j : Fin 2), (0 : ℝ) < k + j + 1 := fun k _ j => by positivity
  refine C114_call np np' true true (A := fun _ => !![2, 0; 1, 1]) (fun _ => by simp [det_fin_two]) (r := 0) (r' := 0)
    (a := fun _ => 2) (fun _ c => by fin_cases c <;> simp) (α := fun _ _ => 1) (fun _ _ => one_pos) (ρ := fun _ _ => 1)
    (fun _ _ => one_pos) draw draw' hb hz 1 true .fresh .fresh hT hV (fun _ _ => PosDef.one) ⟨?_, fun _ _ => trivial⟩
  refine mSpan_initial np (instant_posSemidef np _) (fun f => (hb f).imp fun j h => instant_ne_zero np h)
    (fun j => (hz j).imp fun f h => instant_ne_zero np h) (fun f v h => ?_) _ ⟨hT, hV, fun _ _ => PosDef.one⟩
    (h := fun _ _ => 1) fun _ _ => by simp
  funext j
  have := congrFun (h j) j
  simpa [instant_eq, vecMulVec_mulVec, dotProduct, one_apply] using this

end Verif.MnmfMix
