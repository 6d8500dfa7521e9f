import Verif.Props.MicrophonesAll
import Verif.Props.MnmfWiener
import Verif.Lemmas.MnmfMix

/-!
# C118 for complete calls of FastGaussMNMF with `flooring_fn=None`
-/

set_option linter.unusedSectionVars false

namespace Verif.Microphones

open Matrix Spatial Scale Lifecycle Mnmf
open MnmfMix (cong cong_inv_mul)
open IlrmaCall (override attrOr baseCall)
open Relabel (mapA)

variable {F : Type} [Fintype F] {n m t K : ℕ} {A : F → Mat m ℂ} (hA : ∀ f, IsUnit (A f).det) {g : F → ℂ} {r r' : Fin m}
  (hr : ∀ f c, A f r' c = if c = r then g f else 0)

theorem fastRn_eq (I : F → Mat m ℂ) (s : FSt F n m t K) (f : F) (j : Fin t) (k : Fin n) :
    fastRn I s f j k = I f * diagonal (fun c => ((Ilrma.recon s.T s.V k f j * s.D f k c : ℝ) : ℂ)) * (I f)ᴴ := by
  ext a b
  rw [fastRn, Matrix.of_apply, Matrix.mul_apply]
  refine Finset.sum_congr rfl fun c _ => ?_
  rw [mul_diagonal]
  ring

theorem fastRn_hermitian (I : F → Mat m ℂ) (s : FSt F n m t K) (f : F) (j : Fin t) (k : Fin n) :
    (fastRn I s f j k).IsHermitian := by
  rw [fastRn_eq, Matrix.IsHermitian, conjTranspose_mul, conjTranspose_mul, conjTranspose_conjTranspose, diagonal_conjTranspose,
    ← Matrix.mul_assoc]
  congr 2
  refine congrArg diagonal (funext fun c => ?_)
  rw [Pi.star_apply, RCLike.star_def, Complex.conj_ofReal]

theorem fastRn_mixed (I : F → Mat m ℂ) (s : FSt F n m t K) (f : F) (j : Fin t) (k : Fin n) :
    fastRn (fun f => A f * I f) (s.unmix A) f j k = cong (A f) (fastRn I s f j k) := by
  rw [fastRn_eq, fastRn_eq, cong, conjTranspose_mul]
  simp only [Matrix.mul_assoc]
  rfl

include hA hr

omit [Fintype F] in
/-- The Wiener filter at one time-frequency point. -/
theorem wiener_mixed (np : Numpy ℂ) (f : F) {Rn : Fin n → Mat m ℂ} (hR : ∀ k, (Rn k).IsHermitian) (X : Matrix (Fin m) (Fin t) ℂ)
    (j : Fin t) : wiener np id r' (fun k => cong (A f) (Rn k)) (fun c => (A f * X) c j)
      = (wiener np id r Rn fun c => X c j).map fun y k => g f * y k := by
  have hs : (∑ k, Rn k).IsHermitian := by
    rw [Matrix.IsHermitian, conjTranspose_sum]
    exact Finset.sum_congr rfl fun k _ => hR k
  have hc : ∑ k, cong (A f) (Rn k) = cong (A f) (∑ k, Rn k) := by
    simp only [cong, Finset.mul_sum, Finset.sum_mul]
  have hs' : (cong (A f) (∑ k, Rn k)).IsHermitian := by
    rw [Matrix.IsHermitian, cong, conjTranspose_mul, conjTranspose_mul, conjTranspose_conjTranspose, hs.eq, Matrix.mul_assoc]
  have hA' : IsUnit ((A f)ᴴ).det := by rw [det_conjTranspose]; exact (hA f).star
  have hsolve : ∀ k, npSolve (cong (A f) (∑ k, Rn k)) (cong (A f) (Rn k))
      = Except.map (fun M => ((A f)ᴴ)⁻¹ * M * (A f)ᴴ) (npSolve (∑ k, Rn k) (Rn k)) := by
    intro k
    rw [npSolve, npSolve]
    by_cases h : IsUnit (∑ k, Rn k).det
    · rw [if_pos h, if_pos, cong_inv_mul (hA f)]
      · rfl
      · rw [cong, det_mul, det_mul]; exact ((hA f).mul h).mul hA'
    · rw [if_neg h, if_neg]
      · rfl
      · intro h'
        rw [cong, det_mul, det_mul] at h'
        exact h (isUnit_of_mul_isUnit_right (isUnit_of_mul_isUnit_left h'))
  simp only [wiener, hc, toPsd_id np hs, toPsd_id np hs', hsolve]
  rw [onBins_map (fun k => npSolve (∑ k, Rn k) (Rn k)) fun _ M => ((A f)ᴴ)⁻¹ * M * (A f)ᴴ]
  cases onBins fun k => npSolve (∑ k, Rn k) (Rn k) with
  | error => rfl
  | ok M =>
    refine congrArg Except.ok (funext fun k => ?_)
    have e1 : (((A f)ᴴ)⁻¹ * M k * (A f)ᴴ)ᴴ * (A f * X) = A f * ((M k)ᴴ * X) := by
      rw [conjTranspose_mul, conjTranspose_mul, conjTranspose_conjTranspose, conjTranspose_nonsing_inv,
        conjTranspose_conjTranspose]
      simp only [Matrix.mul_assoc]
      rw [nonsing_inv_mul_cancel_left _ _ (hA f)]
    have e2 := congrFun (congrFun e1 r') j
    rw [row_mul (hr f), Matrix.mul_apply, Matrix.mul_apply] at e2
    exact e2

theorem fastSeparate_mixed (np : Numpy ℂ) (X : Spec F m t) (s : FSt F n m t K) :
    fastSeparate np id r' (fun f => A f * X f) (s.unmix A)
      = (fastSeparate np id r X s).map fun Y f j k => g f * Y f j k := by
  rw [fastSeparate, fastSeparate, show (s.unmix A).Q = unmix A s.Q from rfl, npInvB_unmix hA]
  cases npInvB s.Q with
  | error => rfl
  | ok I =>
    simp only [Except.map, bind, Except.bind]
    have e : ∀ f j, wiener np id r' (fastRn (fun f => A f * I f) (s.unmix A) f j) (fun c => (A f * X f) c j)
        = (wiener np id r (fastRn I s f j) fun c => X f c j).map fun y k => g f * y k := fun f j => by
      rw [show fastRn (fun f => A f * I f) (s.unmix A) f j = fun k => cong (A f) (fastRn I s f j k) from
        funext fun k => fastRn_mixed I s f j k]
      exact wiener_mixed hA hr np f (fun k => fastRn_hermitian I s f j k) (X f) j
    simp only [e]
    have e2 : ∀ f, (onBins fun j => (wiener np id r (fastRn I s f j) fun c => X f c j).map fun y k => g f * y k)
        = Except.map (fun Y j k => g f * Y j k) (onBins fun j => wiener np id r (fastRn I s f j) fun c => X f c j) := fun f =>
      onBins_map (fun j => wiener np id r (fastRn I s f j) fun c => X f c j) fun _ y k => g f * y k
    simp only [e2]
    exact onBins_map (fun f => onBins fun j => wiener np id r (fastRn I s f j) fun c => X f c j) fun f Y j k => g f * Y j k

omit hr in
theorem fastLoss_mixed (X : Spec F m t) {s : FSt F n m t K} (hs : ∀ f, IsUnit (s.Q f).det) :
    fastLoss (fun f => A f * X f) (s.unmix A) = fastLoss X s + shift A := by
  change fastLoss (remix A X) (s.unmix A) = _
  simp only [fastLoss, show (s.unmix A).Q = unmix A s.Q from rfl, separate_remix A hA, logdet_unmix A s.Q hA hs, shift,
    Finset.mul_sum, ← Finset.sum_add_distrib]
  refine Finset.sum_congr rfl fun f _ => ?_
  simp only [show ∀ c j, lambD (s.unmix A) f c j = lambD s f c j from fun _ _ => rfl]
  ring

/-- C118 for `FastGaussMNMF` with `flooring_fn=None`, IP1 or IP2, with or without normalisation: whatever the other attributes are,
passed or drawn. The losses are those of the old recording plus a constant as long as the diagonalisers are invertible. -/
theorem C118_fastMnmf (np : Numpy ℂ) (alg : Ilrma.FilterAlg m) (normalization : Bool) (draw : IlrmaCall.Draw F n t K)
    (drawD : F → Fin n → Fin m → ℝ) (X : Spec F m t) (n_iter : ℕ) (ic : Bool) (Q : F → Mat m ℂ)
    (kT : Option (Fin n → F → Fin K → ℝ)) (kV : Option (Fin n → Fin K → Fin t → ℝ)) (kD : Option (F → Fin n → Fin m → ℝ)) :
    (MnmfCall.callF np alg normalization id r' draw drawD (fun f => A f * X f) n_iter ic
        ⟨some fun f => Q f * (A f)⁻¹, kT, kV, kD⟩ .fresh).map (fun o => (o.diagonalizer, o.basis, o.activation, o.spatial, o.output))
      = (MnmfCall.callF np alg normalization id r draw drawD X n_iter ic ⟨some Q, kT, kV, kD⟩ .fresh).map (fun o =>
        (mapA (fun Q f => Q f * (A f)⁻¹) o.diagonalizer, o.basis, o.activation, o.spatial,
          mapA (fun Y f j k => g f * Y f j k) o.output)) ∧
    ((∀ s, MnmfCall.resetF np id r draw drawD X ⟨some Q, kT, kV, kD⟩ .fresh = .ok s →
        Keeps (fastUpdateOnce np alg normalization id X) (fun s => ∀ f, IsUnit (s.Q f).det) n_iter s) →
      (MnmfCall.callF np alg normalization id r' draw drawD (fun f => A f * X f) n_iter ic
          ⟨some fun f => Q f * (A f)⁻¹, kT, kV, kD⟩ .fresh).map (fun o => o.loss)
        = (MnmfCall.callF np alg normalization id r draw drawD X n_iter ic ⟨some Q, kT, kV, kD⟩ .fresh).map fun o =>
          o.loss.map (· + 2 * ∑ f, Real.log ‖(A f).det‖)) := by
  have hs : ∀ s : FSt F n m t K, fastUpdateOnce np alg normalization id (fun f => A f * X f) (s.unmix A)
      = Except.map (FSt.unmix A) (fastUpdateOnce np alg normalization id X s) := fun s =>
    step_of_run (C71_fast A hA np alg normalization id X s 1)
  have hreset : MnmfCall.resetF np id r' draw drawD (fun f => A f * X f) ⟨some fun f => Q f * (A f)⁻¹, kT, kV, kD⟩ .fresh
      = Except.map (FSt.unmix A) (MnmfCall.resetF np id r draw drawD X ⟨some Q, kT, kV, kD⟩ .fresh) := by
    obtain ⟨T, hT⟩ : ∃ T, attrOr (fun k f b => id (draw.T k f b)) (override kT .absent) = .ok T := by cases kT <;> exact ⟨_, rfl⟩
    obtain ⟨V, hV⟩ : ∃ V, attrOr (fun k b j => id (draw.V k b j)) (override kV .absent) = .ok V := by cases kV <;> exact ⟨_, rfl⟩
    obtain ⟨D, hD⟩ : ∃ D, attrOr (fun f k c => id (drawD f k c)) (override kD .absent) = .ok D := by cases kD <;> exact ⟨_, rfl⟩
    have e := fastSeparate_mixed hA hr np X (⟨Q, T, V, D⟩ : FSt F n m t K)
    rw [show FSt.unmix A (⟨Q, T, V, D⟩ : FSt F n m t K) = ⟨fun f => Q f * (A f)⁻¹, T, V, D⟩ from rfl] at e
    have hQ : ∀ Q : F → Mat m ℂ, attrOr (fun _ => 1) (override (some Q) .absent) = .ok Q := fun _ => rfl
    simp only [MnmfCall.resetF, MnmfCall.ObjF.fresh, IlrmaCall.initNmf, hT, hV, hD, hQ, bind, Except.bind, e]
    cases fastSeparate np id r X (⟨Q, T, V, D⟩ : FSt F n m t K) <;> rfl
  rw [MnmfCall.callF, MnmfCall.callF, hreset]
  cases MnmfCall.resetF np id r draw drawD X ⟨some Q, kT, kV, kD⟩ .fresh with
  | error => exact ⟨rfl, fun _ => rfl⟩
  | ok s0 =>
    simp only [Except.map, bind, Except.bind, MnmfCall.ObjF.fresh]
    constructor
    · have hrun := run_cases (loss := fun s => .ok (fastLoss X s)) (loss' := fun s => .ok (fastLoss (fun f => A f * X f) s)) hs
        (fun _ => ok_raises _ _) ic n_iter s0 [] []
      rcases hrun with ⟨y, e1, e2⟩ | ⟨a, l, l', e1, e2⟩
      · simp only [e1, e2]
      · simp only [e1, e2, fastSeparate_mixed hA hr]
        cases fastSeparate np id r X a <;> rfl
    · intro h
      have hrun := run_moved (loss := fun s => .ok (fastLoss X s)) (loss' := fun s => .ok (fastLoss (fun f => A f * X f) s))
        (c := shift A) hs (fun s hW => congrArg Except.ok (fastLoss_mixed hA X hW)) ic (h s0 rfl)
      simp only [hrun]
      cases baseCall (fastUpdateOnce np alg normalization id X) (fun s => .ok (fastLoss X s)) ic n_iter s0 [] with
      | error => rfl
      | ok q =>
        simp only [Except.map, fastSeparate_mixed hA hr]
        cases fastSeparate np id r X q.1 <;> rfl

omit hA hr in
/-- Two microphones, three sources: the new microphone 1 is the old microphone 0, played twice as loud. -/
example (np : Numpy ℂ) (draw : IlrmaCall.Draw (Fin 3) 3 4 2) (drawD : Fin 3 → Fin 3 → Fin 2 → ℝ) (n_iter : ℕ) :
    (MnmfCall.callF np .ip1 true id 1 draw drawD (fun f => exA * FlooredCall.exX f) n_iter true
        { diagonalizer := some fun _ => 1 * exA⁻¹ } .fresh).map (fun o => (o.diagonalizer, o.basis, o.activation, o.spatial, o.output))
      = (MnmfCall.callF np .ip1 true id 0 draw drawD FlooredCall.exX n_iter true { diagonalizer := some fun _ => 1 } .fresh).map
        fun o => (mapA (fun Q f => Q f * exA⁻¹) o.diagonalizer, o.basis, o.activation, o.spatial,
          mapA (fun Y f j k => (2 : ℂ) * Y f j k) o.output) :=
  (C118_fastMnmf (A := fun _ => exA) (g := fun _ => 2) (fun _ => by rw [exA, det_fin_two_of]; norm_num)
    (fun f c => by fin_cases c <;> simp [exA]) np .ip1 true draw drawD FlooredCall.exX n_iter true _ none none none).1

omit hA hr in
/-- The loss recorded before the first iteration. -/
example (np : Numpy ℂ) (draw : IlrmaCall.Draw (Fin 3) 3 4 2) (drawD : Fin 3 → Fin 3 → Fin 2 → ℝ) :
    (MnmfCall.callF np .ip1 true id 1 draw drawD (fun f => exA * FlooredCall.exX f) 0 true
        { diagonalizer := some fun _ => 1 * exA⁻¹ } .fresh).map (fun o => o.loss)
      = (MnmfCall.callF np .ip1 true id 0 draw drawD FlooredCall.exX 0 true { diagonalizer := some fun _ => 1 } .fresh).map
        fun o => o.loss.map (· + 2 * ∑ _f : Fin 3, Real.log ‖exA.det‖) := by
  refine (C118_fastMnmf (A := fun _ => exA) (g := fun _ => 2) (fun _ => by rw [exA, det_fin_two_of]; norm_num)
    (fun f c => by fin_cases c <;> simp [exA]) np .ip1 true draw drawD FlooredCall.exX 0 true _ none none none).2 fun s hs f => ?_
  simp only [MnmfCall.resetF, MnmfCall.ObjF.fresh, IlrmaCall.initNmf, override, attrOr, bind, Except.bind] at hs
  split at hs
  · cases hs
  · rw [← Except.ok.inj hs, det_one]; exact isUnit_one

end Verif.Microphones
