import Verif.Model.MnmfCall
import Verif.Props.IlrmaCall
import Verif.Props.EigFree
import Verif.Props.MnmfPart
import Verif.Props.StationaryFastMnmf
import Verif.Lemmas.Floored

/-!
# C87: calls of `GaussMNMF` and `FastGaussMNMF`
-/

namespace Verif.MnmfCall

open Matrix Scale Spatial Mnmf Lifecycle
open Ilrma (recon reconP FilterAlg recon_pos bind_ok)
open IlrmaCall (override attrOr initNmf initNmfP baseCall iterations Draw DrawP initLatent)
open EigFree (toPsd_posDef)
open scoped ComplexOrder

variable {F : Type} {n m t K : ℕ}

/-! ## Loops -/

/-- A loop whose updates and losses succeed under an invariant; `Q` holds after every update. -/
theorem baseCall_inv {σ : Type} {step : σ → Except PyErr σ} {loss : σ → Except PyErr ℝ} (P Q : σ → Prop)
    (hQP : ∀ s, Q s → P s) (hstep : ∀ s, P s → ∃ s', step s = .ok s' ∧ Q s') (hloss : ∀ s, P s → ∃ v, loss s = .ok v)
    (ic : Bool) (n_iter : ℕ) (s : σ) (ls : List ℝ) (hs : P s) :
    ∃ s' ls', baseCall step loss ic n_iter s ls = .ok (s', ls') ∧ P s' ∧ (0 < n_iter → Q s') ∧
      ls'.length = ls.length + (if ic then 1 else 0) + n_iter := by
  have key : ∀ (k : ℕ) (s : σ) (ls : List ℝ), P s →
      ∃ s' ls', iterations step loss k s ls = .ok (s', ls') ∧ P s' ∧ (0 < k ∨ Q s → Q s') ∧ ls'.length = ls.length + k := by
    intro k
    induction k with
    | zero => exact fun s ls hs => ⟨s, ls, rfl, hs, fun h => h.resolve_left (lt_irrefl 0), rfl⟩
    | succ k ih =>
      intro s ls hs
      obtain ⟨s1, h1, h2⟩ := hstep s hs
      obtain ⟨v, h3⟩ := hloss s1 (hQP s1 h2)
      obtain ⟨s', ls', h4, h5, h6, h7⟩ := ih s1 (ls ++ [v]) (hQP s1 h2)
      refine ⟨s', ls', ?_, h5, fun _ => h6 (.inr h2), by rw [h7, List.length_append, List.length_singleton]; omega⟩
      simp only [iterations, h1, h3, bind, Except.bind, h4]
  cases ic with
  | false =>
    obtain ⟨s', ls', h1, h2, h3, h4⟩ := key n_iter s ls hs
    exact ⟨s', ls', by rw [IlrmaCall.baseCall_false, h1], h2, fun h => h3 (.inl h), h4⟩
  | true =>
    obtain ⟨v, hv⟩ := hloss s hs
    obtain ⟨s', ls', h1, h2, h3, h4⟩ := key n_iter s (ls ++ [v]) hs
    refine ⟨s', ls', ?_, h2, fun h => h3 (.inl h), by rw [h4, List.length_append, List.length_singleton, if_pos rfl]⟩
    simp only [baseCall, if_true, hv, bind, Except.bind, h1]

/-- An attribute that is absent or has a value with a property. -/
def Attr.Has {α : Type} (P : α → Prop) (a : Attr α) : Prop := a = .absent ∨ ∃ x, a = .val x ∧ P x

theorem attrOr_has {α : Type} {P : α → Prop} {a : Attr α} (h : Attr.Has P a) (fresh : α) (hf : P fresh) :
    ∃ x, attrOr fresh a = .ok x ∧ P x := by
  rcases h with rfl | ⟨x, rfl, hx⟩
  · exact ⟨fresh, rfl, hf⟩
  · exact ⟨x, rfl, hx⟩

theorem eyeOverTrace_spec [Nonempty (Fin m)] : (eyeOverTrace m).PosDef ∧ (eyeOverTrace m).trace = 1 := by
  have hm : (0 : ℝ) < m := by exact_mod_cast Fin.pos_iff_nonempty.mpr ‹_›
  have h1 : (((1 : Mat m ℂ).trace.re : ℂ)) = (m : ℂ) := by simp
  constructor
  · rw [eyeOverTrace, h1, show ((m : ℂ))⁻¹ = (((m : ℝ)⁻¹ : ℝ) : ℂ) by push_cast; rfl]
    exact Tr.smul_posDef PosDef.one (inv_pos.mpr hm)
  · rw [eyeOverTrace, h1, trace_smul, trace_one, Fintype.card_fin, smul_eq_mul, inv_mul_cancel₀]
    exact_mod_cast hm.ne'

/-! ## `GaussMNMF` with a positive flooring function -/

section

variable {np : Numpy ℂ} {floor : ℝ → ℝ}

theorem wiener_ok (hf : ∀ x, 0 < floor x) (r : Fin m) (Rn : Fin n → Mat m ℂ) (x : Fin m → ℂ) :
    ∃ y, wiener np floor r Rn x = .ok y := by
  have h : (onBins fun k => npSolve (toPsd np floor (∑ k, Rn k)) (Rn k))
      = .ok fun k => (toPsd np floor (∑ k, Rn k))⁻¹ * Rn k :=
    onBins_ok fun k => npSolve_ok (Tr.isUnit_det (toPsd_posDef np hf _)) _
  exact ⟨_, by rw [wiener, h]; rfl⟩

theorem fullSeparate_ok (hf : ∀ x, 0 < floor x) (r : Fin m) (X : Spec F m t) (Lamb : Fin n → F → Fin t → ℝ)
    (H : Fin n → F → Mat m ℂ) : ∃ Y, fullSeparate np floor r X Lamb H = .ok Y := by
  choose y hy using fun f j => wiener_ok (np := np) hf r (fullRn Lamb H f j) fun c => X f c j
  exact ⟨y, onBins_ok fun f => onBins_ok fun j => hy f j⟩

theorem fullLoss_ok [Fintype F] (hf : ∀ x, 0 < floor x) (XX : F → Fin t → Mat m ℂ) (Lamb : Fin n → F → Fin t → ℝ)
    (H : Fin n → F → Mat m ℂ) : ∃ v, fullLoss np floor XX Lamb H = .ok v := by
  have h : (onBins fun f => onBins fun j => npSolve (toPsd np floor (fullR Lamb H f j)) (XX f j))
      = .ok fun f j => (toPsd np floor (fullR Lamb H f j))⁻¹ * XX f j :=
    onBins_ok fun f => onBins_ok fun j => npSolve_ok (Tr.isUnit_det (toPsd_posDef np hf _)) _
  simp only [fullLoss, h, bind, Except.bind]
  exact ⟨_, rfl⟩

theorem traces_ok {R : F → Fin t → Mat m ℂ} (hR : ∀ f j, (R f j).PosDef) (XX : F → Fin t → Mat m ℂ)
    (H : Fin n → F → Mat m ℂ) : traces R XX H = .ok (fun k f j => ((R f j)⁻¹ * XX f j * ((R f j)⁻¹ * H k f)).trace.re,
      fun k f j => ((R f j)⁻¹ * H k f).trace.re) := by
  have h1 : (onBins fun f => onBins fun j => npSolve (R f j) (XX f j)) = .ok fun f j => (R f j)⁻¹ * XX f j :=
    onBins_ok fun f => onBins_ok fun j => npSolve_ok (Tr.isUnit_det (hR f j)) _
  have h2 : (onBins fun k => onBins fun f => onBins fun j => npSolve (R f j) (H k f))
      = .ok fun k f j => (R f j)⁻¹ * H k f :=
    onBins_ok fun k => onBins_ok fun f => onBins_ok fun j => npSolve_ok (Tr.isUnit_det (hR f j)) _
  simp only [traces, h1, h2, bind, Except.bind]

theorem spatial_ok (hf : ∀ x, 0 < floor x) (XX : F → Fin t → Mat m ℂ) (Lamb : Fin n → F → Fin t → ℝ)
    (H : Fin n → F → Mat m ℂ) : ∃ H', fullUpdateSpatial np floor XX Lamb H = .ok H' ∧ ∀ k f, (H' k f).PosDef := by
  have e1 : (onBins fun f => onBins fun j => npInv (toPsd np floor (fullR Lamb H f j)))
      = .ok fun f j => (toPsd np floor (fullR Lamb H f j))⁻¹ :=
    onBins_ok fun f => onBins_ok fun j => by rw [npInv, if_pos (Tr.isUnit_det (toPsd_posDef np hf _))]
  choose G hG using fun (A B : Mat m ℂ) => Linalg.C17_gmeanmh np (toPsd np floor A) (toPsd np floor B) (toPsd_posDef np hf A)
    (toPsd_posDef np hf B) 2 (Or.inr (Or.inl rfl))
  simp only [fullUpdateSpatial, e1, bind, Except.bind]
  exact ⟨fun k f => toPsd np floor (G (∑ j, (Lamb k f j : ℂ) • (toPsd np floor (fullR Lamb H f j))⁻¹)
    (H k f * (∑ j, (Lamb k f j : ℂ) • ((toPsd np floor (fullR Lamb H f j))⁻¹ * XX f j
      * (toPsd np floor (fullR Lamb H f j))⁻¹)) * H k f)),
    onBins_ok fun k => onBins_ok fun f => by rw [(hG _ _).1], fun k f => toPsd_posDef np hf _⟩

theorem trace_pos [Nonempty (Fin m)] {H : Mat m ℂ} (hH : H.PosDef) : 0 < H.trace.re :=
  (Complex.pos_iff.mp hH.trace_pos).1

theorem normalize_pos [Nonempty (Fin m)] {H : Mat m ℂ} (hH : H.PosDef) :
    (((H.trace.re : ℂ))⁻¹ • H).PosDef ∧ (((H.trace.re : ℂ))⁻¹ • H).trace = 1 := by
  have h0 := trace_pos hH
  constructor
  · rw [← Complex.ofReal_inv]
    exact Tr.smul_posDef hH (inv_pos.mpr h0)
  · have h1 : H.trace = (H.trace.re : ℂ) := by
      refine Complex.ext rfl ?_
      rw [Complex.ofReal_im]
      exact (Complex.pos_iff.mp hH.trace_pos).2.symm
    rw [trace_smul, smul_eq_mul]
    nth_rw 2 [h1]
    exact inv_mul_cancel₀ (by exact_mod_cast h0.ne')

/-- Positive parameters, positive definite covariances, and unit traces if they are normalised. -/
def Good (norm : Bool) (s : MSt F n m t K) : Prop := MPos s ∧ (norm = true → ∀ k f, (s.H k f).trace = 1)

/-- C87: one iteration of `GaussMNMF` with a positive flooring function never fails. -/
theorem update_ok [Fintype F] [Nonempty (Fin m)] (hf : ∀ x, 0 < floor x) (norm : Bool) (XX : F → Fin t → Mat m ℂ)
    (s : MSt F n m t K) :
    ∃ s', fullUpdateOnce np norm floor XX s = .ok s' ∧ Good norm s' := by
  have hR : ∀ (Lamb : Fin n → F → Fin t → ℝ) (H : Fin n → F → Mat m ℂ) f j, (toPsd np floor (fullR Lamb H f j)).PosDef :=
    fun _ _ f j => toPsd_posDef np hf _
  obtain ⟨T, e1, hT⟩ : ∃ T, fullUpdateBasis np floor XX s = .ok ⟨T, s.V, s.H⟩ ∧ ∀ k f b, 0 < T k f b := by
    rw [fullUpdateBasis, traces_ok (hR _ _)]
    exact ⟨_, rfl, fun k f b => hf _⟩
  obtain ⟨V, e2, hV⟩ : ∃ V, fullUpdateActivation np floor XX ⟨T, s.V, s.H⟩ = .ok ⟨T, V, s.H⟩ ∧ ∀ k b j, 0 < V k b j := by
    rw [fullUpdateActivation, traces_ok (hR _ _)]
    exact ⟨_, rfl, fun k f b => hf _⟩
  obtain ⟨H, e3, hH⟩ := spatial_ok (np := np) hf XX (recon T V) s.H
  simp only [fullUpdateOnce, e1, e2, e3, bind, Except.bind]
  cases norm with
  | false => exact ⟨_, rfl, ⟨hT, hV, hH⟩, fun h => nomatch h⟩
  | true =>
    exact ⟨_, rfl, ⟨fun k f b => mul_pos (trace_pos (hH k f)) (hT k f b), hV, fun k f => (normalize_pos (hH k f)).1⟩,
      fun _ k f => (normalize_pos (hH k f)).2⟩

end

/-- C87: with a positive flooring function (the default is `max_flooring`) a `GaussMNMF` call returns for every recording,
silent or not, every state of the random number generator and every number of iterations. The same holds if the object
or the keyword arguments supply positive parameters and positive definite spatial covariances. Afterwards the parameters
are positive, the spatial covariances positive definite and, with the default normalisation, of unit trace. -/
theorem C87_gauss_returns [Fintype F] [Nonempty (Fin m)] (np : Numpy ℂ) (norm : Bool) (floor : ℝ → ℝ) (hf : ∀ x, 0 < floor x) (r : Fin m)
    (draw : Draw F n t K) (X : Spec F m t) (n_iter : ℕ) (ic : Bool) (kw : Kw F n m t K) (o : Obj F n m t K)
    (hT : Attr.Has (fun T => ∀ k f b, 0 < T k f b) (override kw.basis o.basis))
    (hV : Attr.Has (fun V => ∀ k b j, 0 < V k b j) (override kw.activation o.activation))
    (hH : Attr.Has (fun H => ∀ k f, (H k f).PosDef ∧ (norm = true → (H k f).trace = 1)) (override kw.spatial o.spatial)) :
    ∃ o' T V H Y, call np norm floor r draw X n_iter ic kw o = .ok o' ∧ o'.basis = .val T ∧ o'.activation = .val V ∧
      o'.spatial = .val H ∧ o'.output = .val Y ∧ (∀ k f b, 0 < T k f b) ∧ (∀ k b j, 0 < V k b j) ∧
      (∀ k f, (H k f).PosDef ∧ (norm = true → (H k f).trace = 1)) ∧
      o'.loss.length = o.loss.length + (if ic then 1 else 0) + n_iter := by
  obtain ⟨T, a1, a2⟩ := attrOr_has hT (fun k f b => floor (draw.T k f b)) fun _ _ _ => hf _
  obtain ⟨V, b1, b2⟩ := attrOr_has hV (fun k f b => floor (draw.V k f b)) fun _ _ _ => hf _
  obtain ⟨H, c1, c2⟩ := attrOr_has hH (fun _ _ => eyeOverTrace m) fun _ _ => ⟨eyeOverTrace_spec.1, fun _ => eyeOverTrace_spec.2⟩
  obtain ⟨Y0, d1⟩ := fullSeparate_ok (np := np) hf r X (recon T V) H
  have hreset : reset np floor r draw X kw o = .ok ⟨T, V, H⟩ := by
    simp only [reset, initNmf, a1, b1, c1, d1, bind, Except.bind]
  obtain ⟨s', ls, e1, e2, -, e3⟩ := baseCall_inv (Good norm) (Good norm) (fun _ h => h) (fun s _ => update_ok (np := np) hf norm (instantCovariance np floor X) s)
    (fun s _ => fullLoss_ok (np := np) hf (instantCovariance np floor X) (recon s.T s.V) s.H) ic n_iter ⟨T, V, H⟩ o.loss
    ⟨⟨a2, b2, fun k f => (c2 k f).1⟩, fun h k f => (c2 k f).2 h⟩
  obtain ⟨Y, f1⟩ := fullSeparate_ok (np := np) hf r X (recon s'.T s'.V) s'.H
  refine ⟨⟨.val s'.T, .val s'.V, .val s'.H, .val Y, ls⟩, s'.T, s'.V, s'.H, Y, ?_, rfl, rfl, rfl, rfl, e2.1.1, e2.1.2.1,
    fun k f => ⟨e2.1.2.2 k f, fun h => e2.2 h k f⟩, e3⟩
  simp only [call, hreset, e1, f1, bind, Except.bind]

/-- The first call of an object, with the default flooring function. -/
example (np : Numpy ℂ) (r : Fin 2) (draw : Draw (Fin 3) 2 4 2) (X : Spec (Fin 3) 2 4) (n_iter : ℕ) :
    ∃ o', call np true (Special.max_flooring (1 / 10 ^ 10)) r draw X n_iter true {} Obj.fresh = .ok o' := by
  obtain ⟨o', -, -, -, -, h, -⟩ := C87_gauss_returns np true (Special.max_flooring (1 / 10 ^ 10))
    (fun x => lt_max_of_lt_right (by norm_num)) r draw X n_iter true {} Obj.fresh (.inl rfl) (.inl rfl) (.inl rfl)
  exact ⟨o', h⟩

/-- C87: none of the divisions of an iteration is by zero: for positive parameters and positive definite covariances the
denominators of the basis and activation updates and the traces the normalisation divides by are positive, whatever the
flooring inside `to_psd` does to the modelled covariances. -/
theorem C87_denominators [Fintype F] [Nonempty (Fin m)] [Nonempty (Fin t)] [Nonempty F] (np : Numpy ℂ) (floor : ℝ → ℝ)
    (hf : ∀ x, 0 < floor x) (Lamb : Fin n → F → Fin t → ℝ) (H : Fin n → F → Mat m ℂ) (hH : ∀ k f, (H k f).PosDef) :
    (∀ k f (V : Fin t → ℝ), (∀ j, 0 < V j) → 0 < ∑ j, V j * ((toPsd np floor (fullR Lamb H f j))⁻¹ * H k f).trace.re) ∧
    (∀ k j (T : F → ℝ), (∀ f, 0 < T f) → 0 < ∑ f, T f * ((toPsd np floor (fullR Lamb H f j))⁻¹ * H k f).trace.re) ∧
    ∀ k f, 0 < (H k f).trace.re := by
  have h : ∀ k f j, 0 < ((toPsd np floor (fullR Lamb H f j))⁻¹ * H k f).trace.re := fun k f j =>
    Tr.trace_mul_pos (toPsd_posDef np hf _).inv (hH k f)
  exact ⟨fun k f V hV => Finset.sum_pos (fun j _ => mul_pos (hV j) (h k f j)) Finset.univ_nonempty,
    fun k j T hT => Finset.sum_pos (fun f _ => mul_pos (hT f) (h k f j)) Finset.univ_nonempty, fun k f => trace_pos (hH k f)⟩

/-! ## `GaussMNMF` with partitioning -/

/-- Positive parameters, positive definite covariances, unit traces if they are normalised. -/
def GoodP (norm : Bool) (s : MStP F n m t K) : Prop := PPos s ∧ (norm = true → ∀ k f, (s.H k f).trace = 1)

theorem updateP_ok [Fintype F] [Nonempty (Fin m)] [Nonempty (Fin n)] [Nonempty (Fin t)] [Nonempty F] {np : Numpy ℂ} {floor : ℝ → ℝ}
    (hf : ∀ x, 0 < floor x) (norm : Bool) {XX : F → Fin t → Mat m ℂ} (hXX : ∀ f j, (XX f j).PosDef) (s : MStP F n m t K)
    (hs : GoodP norm s) :
    ∃ s', fullUpdateOnceP np norm floor XX s = .ok s' ∧ GoodP norm s' ∧ ∀ b, ∑ k, s'.Z k b = 1 := by
  have hR : ∀ (s : MStP F n m t K) f j, (toPsd np floor (s.R f j)).PosDef := fun _ f j => toPsd_posDef np hf _
  obtain ⟨T, e1, hT⟩ : ∃ T, fullUpdateBasisP np floor XX s = .ok ⟨s.Z, T, s.V, s.H⟩ ∧ ∀ f b, 0 < T f b := by
    rw [fullUpdateBasisP, traces_ok (hR _)]
    exact ⟨_, rfl, fun f b => hf _⟩
  obtain ⟨V, e2, hV⟩ : ∃ V, fullUpdateActivationP np floor XX ⟨s.Z, T, s.V, s.H⟩ = .ok ⟨s.Z, T, V, s.H⟩ ∧ ∀ b j, 0 < V b j := by
    rw [fullUpdateActivationP, traces_ok (hR _)]
    exact ⟨_, rfl, fun f b => hf _⟩
  obtain ⟨H, e3, hH⟩ := spatial_ok (np := np) hf XX (reconP s.Z T V) s.H
  obtain ⟨H', e4, hH'⟩ : ∃ H' : Fin n → F → Mat m ℂ, (if norm then fullNormalizeP (⟨s.Z, T, V, H⟩ : MStP F n m t K) else ⟨s.Z, T, V, H⟩)
      = ⟨s.Z, T, V, H'⟩ ∧ ∀ k f, (H' k f).PosDef ∧ (norm = true → (H' k f).trace = 1) := by
    cases norm with
    | false => exact ⟨H, rfl, fun k f => ⟨hH k f, fun h => nomatch h⟩⟩
    | true => exact ⟨_, rfl, fun k f => ⟨(normalize_pos (hH k f)).1, fun _ => (normalize_pos (hH k f)).2⟩⟩
  obtain ⟨Z, e5, hZ, hZ1⟩ : ∃ Z, fullUpdateLatent np floor XX ⟨s.Z, T, V, H'⟩ = .ok ⟨Z, T, V, H'⟩ ∧ (∀ k b, 0 < Z k b) ∧
      ∀ b, ∑ k, Z k b = 1 := by
    have hs1 := hR ⟨s.Z, T, V, H'⟩
    rw [fullUpdateLatent, traces_ok hs1]
    obtain ⟨Q, hQ⟩ : ∃ Q, Q = fun k b => s.Z k b * Real.sqrt ((∑ f, T f b * ∑ j, V b j *
      ((toPsd np floor ((⟨s.Z, T, V, H'⟩ : MStP F n m t K).R f j))⁻¹ * XX f j * ((toPsd np floor ((⟨s.Z, T, V, H'⟩ : MStP F n m t K).R f j))⁻¹
        * H' k f)).trace.re) / ∑ f, T f b * ∑ j, V b j * ((toPsd np floor ((⟨s.Z, T, V, H'⟩ : MStP F n m t K).R f j))⁻¹ * H' k f).trace.re) :=
      ⟨_, rfl⟩
    have hQp : ∀ k b, 0 < Q k b := by
      intro k b
      rw [hQ]
      refine mul_pos (hs.1.1 k b) (Real.sqrt_pos.mpr (div_pos ?_ ?_)) <;>
        refine Finset.sum_pos (fun f _ => mul_pos (hT f b) (Finset.sum_pos (fun j _ => mul_pos (hV b j) ?_) Finset.univ_nonempty))
          Finset.univ_nonempty
      · have h1 : ((toPsd np floor ((⟨s.Z, T, V, H'⟩ : MStP F n m t K).R f j))⁻¹ * XX f j
            * (toPsd np floor ((⟨s.Z, T, V, H'⟩ : MStP F n m t K).R f j))⁻¹).PosDef := by
          have h2 := (hs1 f j).inv
          have h3 := (hXX f j).mul_mul_conjTranspose_same (B := (toPsd np floor ((⟨s.Z, T, V, H'⟩ : MStP F n m t K).R f j))⁻¹)
            (vecMul_injective_iff_isUnit.mpr h2.isUnit)
          rwa [h2.1] at h3
        rw [← Matrix.mul_assoc]
        exact Tr.trace_mul_pos h1 (hH' k f).1
      · exact Tr.trace_mul_pos (hs1 f j).inv (hH' k f).1
    refine ⟨fun k b => Q k b / ∑ k', Q k' b, by rw [hQ]; rfl,
      fun k b => div_pos (hQp k b) (Finset.sum_pos (fun k _ => hQp k b) Finset.univ_nonempty), fun b => ?_⟩
    rw [← Finset.sum_div, div_self (Finset.sum_pos (fun k _ => hQp k b) Finset.univ_nonempty).ne']
  refine ⟨⟨Z, T, V, H'⟩, ?_, ⟨⟨hZ, hT, hV, fun k f => (hH' k f).1⟩, fun h k f => (hH' k f).2 h⟩, hZ1⟩
  simp only [fullUpdateOnceP, e1, e2, e3, e4, e5, bind, Except.bind]

/-- C87 with partitioning: a call returns for every recording; the latents stay positive and sum to one after at least one
iteration. The drawn latents of a component must not all be zero. -/
theorem C87_partitioned_returns [Fintype F] [Nonempty (Fin m)] [Nonempty (Fin n)] [Nonempty (Fin t)] [Nonempty F]
    (np : Numpy ℂ) (norm : Bool) (floor : ℝ → ℝ) (hf : ∀ x, 0 < floor x) (r : Fin m) (draw : DrawP F n t K)
    (_hdraw : ∀ b, 0 < ∑ k, draw.Z k b) (X : Spec F m t) (n_iter : ℕ) (ic : Bool) (kw : KwP F n m t K) (o : ObjP F n m t K)
    (hZ : Attr.Has (fun Z => ∀ k b, 0 < Z k b) (override kw.latent o.latent))
    (hT : Attr.Has (fun T => ∀ f b, 0 < T f b) (override kw.basis o.basis))
    (hV : Attr.Has (fun V => ∀ b j, 0 < V b j) (override kw.activation o.activation))
    (hH : Attr.Has (fun H => ∀ k f, (H k f).PosDef ∧ (norm = true → (H k f).trace = 1)) (override kw.spatial o.spatial)) :
    ∃ o' Z T V H Y, callP np norm floor r draw X n_iter ic kw o = .ok o' ∧ o'.latent = .val Z ∧ o'.basis = .val T ∧
      o'.activation = .val V ∧ o'.spatial = .val H ∧ o'.output = .val Y ∧ (∀ k b, 0 < Z k b) ∧ (∀ f b, 0 < T f b) ∧
      (∀ b j, 0 < V b j) ∧ (∀ k f, (H k f).PosDef ∧ (norm = true → (H k f).trace = 1)) ∧
      (0 < n_iter → ∀ b, ∑ k, Z k b = 1) ∧ o'.loss.length = o.loss.length + (if ic then 1 else 0) + n_iter := by
  obtain ⟨Z, z1, z2⟩ := attrOr_has hZ (initLatent floor draw.Z) fun _ _ => hf _
  obtain ⟨T, a1, a2⟩ := attrOr_has hT (fun f b => floor (draw.T f b)) fun _ _ => hf _
  obtain ⟨V, b1, b2⟩ := attrOr_has hV (fun f b => floor (draw.V f b)) fun _ _ => hf _
  obtain ⟨H, c1, c2⟩ := attrOr_has hH (fun _ _ => eyeOverTrace m) fun _ _ => ⟨eyeOverTrace_spec.1, fun _ => eyeOverTrace_spec.2⟩
  obtain ⟨Y0, d1⟩ := fullSeparate_ok (np := np) hf r X (reconP Z T V) H
  have hreset : resetP np floor r draw X kw o = .ok ⟨Z, T, V, H⟩ := by
    simp only [resetP, initNmfP, z1, a1, b1, c1, d1, bind, Except.bind]
  have hXX : ∀ f j, (instantCovariance np floor X f j).PosDef := fun f j => toPsd_posDef np hf _
  have hg : GoodP norm (⟨Z, T, V, H⟩ : MStP F n m t K) := ⟨⟨z2, a2, b2, fun k f => (c2 k f).1⟩, fun h k f => (c2 k f).2 h⟩
  obtain ⟨s', ls, e1, e2, e3, e4⟩ := baseCall_inv (GoodP norm) (fun s => GoodP norm s ∧ ∀ b, ∑ k, s.Z k b = 1) (fun _ h => h.1)
    (fun s hs => updateP_ok (np := np) hf norm hXX s hs)
    (fun s _ => fullLoss_ok (np := np) hf (instantCovariance np floor X) (reconP s.Z s.T s.V) s.H) ic n_iter _ o.loss hg
  obtain ⟨Y, f1⟩ := fullSeparate_ok (np := np) hf r X (reconP s'.Z s'.T s'.V) s'.H
  refine ⟨⟨.val s'.Z, .val s'.T, .val s'.V, .val s'.H, .val Y, ls⟩, s'.Z, s'.T, s'.V, s'.H, Y, ?_, rfl, rfl, rfl, rfl, rfl, e2.1.1,
    e2.1.2.1, e2.1.2.2.1, fun k f => ⟨e2.1.2.2.2 k f, fun h => e2.2 h k f⟩, fun h => (e3 h).2, e4⟩
  simp only [callP, hreset, e1, f1, bind, Except.bind]

/-- The first call of an object, with the default flooring function; the latents sum to one after ten iterations. -/
example (np : Numpy ℂ) (r : Fin 2) (draw : DrawP (Fin 3) 2 4 2) (hd : ∀ b, 0 < ∑ k, draw.Z k b) (X : Spec (Fin 3) 2 4) :
    ∃ o' Z, callP np true (Special.max_flooring (1 / 10 ^ 10)) r draw X 10 true {} ObjP.fresh = .ok o' ∧ o'.latent = .val Z ∧
      ∀ b, ∑ k, Z k b = 1 := by
  obtain ⟨o', Z, -, -, -, -, h1, h2, -, -, -, -, -, -, -, -, h3, -⟩ := C87_partitioned_returns np true
    (Special.max_flooring (1 / 10 ^ 10)) (fun x => lt_max_of_lt_right (by norm_num)) r draw hd X 10 true {} ObjP.fresh (.inl rfl)
    (.inl rfl) (.inl rfl) (.inl rfl)
  exact ⟨o', Z, h1, h2, h3 (by norm_num)⟩

/-! ## `FastGaussMNMF` -/

theorem fastSeparate_ok {np : Numpy ℂ} {floor : ℝ → ℝ} (hf : ∀ x, 0 < floor x) (r : Fin m) (X : Spec F m t) (s : FSt F n m t K)
    (hs : ∀ f, IsUnit (s.Q f).det) : ∃ Y, fastSeparate np floor r X s = .ok Y := by
  choose y hy using fun f j => wiener_ok (np := np) hf r (fastRn (fun f => (s.Q f)⁻¹) s f j) fun c => X f c j
  refine ⟨y, ?_⟩
  have h1 : npInvB s.Q = .ok fun f => (s.Q f)⁻¹ := by rw [npInvB, if_pos hs]
  simp only [fastSeparate, h1, bind, Except.bind]
  exact onBins_ok fun f => onBins_ok fun j => hy f j

theorem updateF_ok [Fintype F] [Nonempty (Fin K)] [Nonempty (Fin n)] [Nonempty (Fin t)] (np : Numpy ℂ) {floor : ℝ → ℝ}
    (hf : ∀ x, 0 < floor x) {alg : FilterAlg m} (halg : alg.Valid) (norm : Bool) {X : Spec F m t}
    (hX : ∀ f, LinearIndependent ℂ (X f).row) (s : FSt F n m t K)
    (hs : FInv s) : ∃ s', fastUpdateOnce np alg norm floor X s = .ok s' ∧ FInv s' := by
  obtain ⟨s2, e2⟩ : ∃ s2, s2 = fastUpdateActivation floor X (fastUpdateBasis floor X s) := ⟨_, rfl⟩
  have hs2 : FInv s2 := e2 ▸ ⟨hs.1, fun k f b => hf _, fun k b j => hf _, hs.2.2.2⟩
  have hphi : ∀ f c j, 0 < 1 / lambD s2 f c j := fun f c j => one_div_pos.mpr (lambD_pos hs2 f c j)
  obtain ⟨Q, hQ, hQu⟩ := Ilrma.spatialFilter_floored np halg (fun x _ => (hf x).ne') hphi hX hs2.1
  have e3 : fastUpdateDiagonalizer np alg floor X s2 = .ok ⟨Q, s2.T, s2.V, s2.D⟩ := by
    have : Ilrma.spatialFilter np alg floor (fun f c j => 1 / lambD s2 f c j) X s2.Q = .ok Q := hQ
    simp only [fastUpdateDiagonalizer, this, bind, Except.bind]
  obtain ⟨s3, e3'⟩ : ∃ s3 : FSt F n m t K, s3 = ⟨Q, s2.T, s2.V, s2.D⟩ := ⟨_, rfl⟩
  have hs3 : FInv s3 := e3' ▸ ⟨hQu, hs2.2⟩
  have hs4 : FInv (fastUpdateSpatial X s3) := by
    refine ⟨hs3.1, hs3.2.1, hs3.2.2.1, fun f k c => mul_pos (Real.sqrt_pos.mpr (div_pos ?_ ?_)) (hs3.2.2.2 f k c)⟩
    · obtain ⟨j, hj⟩ := Iva.exists_separate_ne hX hs3.1 f c
      refine Finset.sum_pos' (fun j _ => ?_) ⟨j, Finset.mem_univ _, ?_⟩
      · exact mul_nonneg (div_pos (recon_pos hs3.2.1 hs3.2.2.1 k f j) (pow_pos (lambD_pos hs3 f c j) 2)).le (sq_nonneg _)
      · exact mul_pos (div_pos (recon_pos hs3.2.1 hs3.2.2.1 k f j) (pow_pos (lambD_pos hs3 f c j) 2))
          (pow_pos (norm_pos_iff.mpr hj) 2)
    · exact Finset.sum_pos (fun j _ => div_pos (recon_pos hs3.2.1 hs3.2.2.1 k f j) (lambD_pos hs3 f c j)) Finset.univ_nonempty
  refine ⟨if norm then fastNormalize floor X (fastUpdateSpatial X s3) else fastUpdateSpatial X s3, ?_, ?_⟩
  · simp only [fastUpdateOnce, ← e2, e3, ← e3', bind, Except.bind]
  · cases norm with
    | false => exact hs4
    | true => exact (C42_normalise floor X (Fin.pos_iff_nonempty.mpr ‹_›) _ hs4 fun c => hf _).1

/-- C87 for `FastGaussMNMF` with IP1 or IP2 and a positive flooring function: a call returns for every recording whose channels are
linearly independent in every bin, whatever numbers are drawn and however many iterations are run. Afterwards the
diagonalisers are invertible and the parameters positive. -/
theorem C87_fast_returns [Fintype F] [Nonempty (Fin K)] [Nonempty (Fin n)] [Nonempty (Fin t)] (np : Numpy ℂ)
    {alg : FilterAlg m} (halg : alg.Valid) (norm : Bool)
    (floor : ℝ → ℝ) (hf : ∀ x, 0 < floor x) (r : Fin m) (draw : Draw F n t K) (drawD : F → Fin n → Fin m → ℝ)
    (X : Spec F m t) (hX : ∀ f, LinearIndependent ℂ (X f).row) (n_iter : ℕ) (ic : Bool) (kw : KwF F n m t K) (o : ObjF F n m t K)
    (hQ : Attr.Has (fun Q => ∀ f, IsUnit (Q f).det) (override kw.diagonalizer o.diagonalizer))
    (hT : Attr.Has (fun T => ∀ k f b, 0 < T k f b) (override kw.basis o.basis))
    (hV : Attr.Has (fun V => ∀ k b j, 0 < V k b j) (override kw.activation o.activation))
    (hD : Attr.Has (fun D => ∀ f k c, 0 < D f k c) (override kw.spatial o.spatial)) :
    ∃ o' Q T V D Y, callF np alg norm floor r draw drawD X n_iter ic kw o = .ok o' ∧ o'.diagonalizer = .val Q ∧
      o'.basis = .val T ∧ o'.activation = .val V ∧ o'.spatial = .val D ∧ o'.output = .val Y ∧ (∀ f, IsUnit (Q f).det) ∧
      (∀ k f b, 0 < T k f b) ∧ (∀ k b j, 0 < V k b j) ∧ (∀ f k c, 0 < D f k c) ∧
      o'.loss.length = o.loss.length + (if ic then 1 else 0) + n_iter := by
  obtain ⟨T, a1, a2⟩ := attrOr_has hT (fun k f b => floor (draw.T k f b)) fun _ _ _ => hf _
  obtain ⟨V, b1, b2⟩ := attrOr_has hV (fun k f b => floor (draw.V k f b)) fun _ _ _ => hf _
  obtain ⟨Q, q1, q2⟩ := attrOr_has hQ (fun _ => 1) fun _ => by rw [det_one]; exact isUnit_one
  obtain ⟨D, c1, c2⟩ := attrOr_has hD (fun f k c => floor (drawD f k c)) fun _ _ _ => hf _
  obtain ⟨Y0, d1⟩ := fastSeparate_ok (np := np) hf r X (⟨Q, T, V, D⟩ : FSt F n m t K) q2
  have hreset : resetF np floor r draw drawD X kw o = .ok ⟨Q, T, V, D⟩ := by
    simp only [resetF, initNmf, a1, b1, q1, c1, d1, bind, Except.bind]
  obtain ⟨s', ls, e1, e2, -, e3⟩ := baseCall_inv FInv FInv (fun _ h => h) (fun s hs => updateF_ok np hf halg norm hX s hs)
    (loss := fun s => .ok (fastLoss X s)) (fun s _ => ⟨_, rfl⟩) ic n_iter ⟨Q, T, V, D⟩ o.loss ⟨q2, a2, b2, c2⟩
  obtain ⟨Y, f1⟩ := fastSeparate_ok (np := np) hf r X s' e2.1
  refine ⟨⟨.val s'.Q, .val s'.T, .val s'.V, .val s'.D, .val Y, ls⟩, s'.Q, s'.T, s'.V, s'.D, Y, ?_, rfl, rfl, rfl, rfl, rfl, e2.1,
    e2.2.1, e2.2.2.1, e2.2.2.2, e3⟩
  simp only [callF, hreset, e1, f1, bind, Except.bind]

/-- The first call of an object, with the default flooring function, for a recording with four frames. -/
example (np : Numpy ℂ) (r : Fin 2) (draw : Draw (Fin 3) 2 4 2) (drawD : Fin 3 → Fin 2 → Fin 2 → ℝ) (n_iter : ℕ) :
    ∃ o', callF np (.ip2 [(0, 1)]) true (Special.max_flooring (1 / 10 ^ 10)) r draw drawD
      (fun _ => !![1, 0, 2, 0; 0, 1, 0, Complex.I] : Spec (Fin 3) 2 4) n_iter true {} ObjF.fresh = .ok o' := by
  have hX : ∀ f : Fin 3, LinearIndependent ℂ ((fun _ => !![1, 0, 2, 0; 0, 1, 0, Complex.I] : Spec (Fin 3) 2 4) f).row := by
    intro f
    refine LinearIndependent.pair_iff.mpr fun a b h => ?_
    have h0 := congrFun h 0
    have h1 := congrFun h 1
    simp at h0 h1
    exact ⟨h0, h1⟩
  obtain ⟨o', -, -, -, -, -, h, -⟩ := C87_fast_returns np (alg := .ip2 [(0, 1)]) (by simp [FilterAlg.Valid]) true (Special.max_flooring (1 / 10 ^ 10))
    (fun x => lt_max_of_lt_right (by norm_num)) r draw drawD _ hX n_iter true {} ObjF.fresh (.inl rfl) (.inl rfl) (.inl rfl) (.inl rfl)
  exact ⟨o', h⟩

/-- C87: without flooring a first `FastGaussMNMF` call with IP1 returns for every recording whose channels are linearly
independent in every bin and of which no frame is silent: the recorded losses never increase and the separated signals
sum to the reference channel, whatever positive numbers are drawn. -/
theorem C87_fast_descent [Fintype F] [Nonempty F] [Nonempty (Fin m)] [Nonempty (Fin K)] [Nonempty (Fin n)] (np : Numpy ℂ)
    (norm : Bool) (r : Fin m) (draw : Draw F n t K) (drawD : F → Fin n → Fin m → ℝ) (hT : ∀ k f b, 0 < draw.T k f b)
    (hV : ∀ k b j, 0 < draw.V k b j) (hD : ∀ f k c, 0 < drawD f k c) (X : Spec F m t)
    (hX : ∀ f, LinearIndependent ℂ (X f).row) (hz : ∀ j, ∃ f c, X f c j ≠ 0) (n_iter : ℕ) :
    ∃ o' Y, callF np .ip1 norm id r draw drawD X n_iter true {} ObjF.fresh = .ok o' ∧ o'.output = .val Y ∧
      (∀ f j, ∑ k, Y f j k = X f r j) ∧ o'.loss.length = n_iter + 1 ∧ o'.loss.Pairwise (· ≥ ·) := by
  have ht : 0 < t := by
    obtain ⟨f⟩ := ‹Nonempty F›
    obtain ⟨c⟩ := ‹Nonempty (Fin m)›
    by_contra ht
    obtain rfl : t = 0 := by omega
    exact (hX f).ne_zero c (Subsingleton.elim _ _)
  obtain ⟨s, hsd⟩ : ∃ s : FSt F n m t K, s = ⟨fun _ => 1, draw.T, draw.V, drawD⟩ := ⟨_, rfl⟩
  have hs : FInv s := by
    rw [hsd]
    exact ⟨fun _ => by rw [det_one]; exact isUnit_one, hT, hV, hD⟩
  obtain ⟨Y0, d1, -⟩ := C43_fast_mnmf_unfloored np r X s hs
  have hreset : resetF np id r draw drawD X {} ObjF.fresh = .ok s := by
    rw [hsd] at d1 ⊢
    simp only [resetF, initNmf, override, ObjF.fresh, attrOr, bind, Except.bind, id]
    rw [show fastSeparate np id r X (⟨fun _ => 1, fun k f b => draw.T k f b, fun k b j => draw.V k b j, fun f k c => drawD f k c⟩ :
      FSt F n m t K) = .ok Y0 from d1]
  have hstep : ∀ s : FSt F n m t K, FInv s → True →
      ∃ s', fastUpdateOnce np .ip1 norm id X s = .ok s' ∧ FInv s' ∧ fastLoss X s' ≤ fastLoss X s := by
    intro s hs _
    have hr := fregExact_id np norm X hX hz s hs
    exact fast_step np .ip1 trivial norm id X ht hX s hs ⟨fun k f b => (hr.basis k f b).mild _,
      fun k b j => (hr.activation k b j).mild _, fun _ _ => rfl, hr.spatial⟩
  have htriv : ∀ (k : ℕ) (s : FSt F n m t K), RegularRun (fastUpdateOnce np .ip1 norm id X) (fun _ => True) k s := by
    intro k
    induction k with
    | zero => exact fun _ => trivial
    | succ k ih => exact fun s => ⟨trivial, fun s' _ => ih s'⟩
  obtain ⟨vs, l1, l2, l3, -⟩ := lossList_antitone (fastUpdateOnce np .ip1 norm id X) (fun s => .ok (fastLoss X s)) FInv
    (fun _ => True) (fastLoss X) (fun _ _ => rfl) hstep n_iter s hs (htriv _ _)
  obtain ⟨s', ls, e1, e2, -, e3⟩ := baseCall_inv FInv FInv (fun _ h => h)
    (fun s hs => by obtain ⟨s', h1, h2, -⟩ := hstep s hs trivial; exact ⟨s', h1, h2⟩)
    (loss := fun s => .ok (fastLoss X s)) (fun s _ => ⟨_, rfl⟩) true n_iter s [] hs
  have els : ls = vs := by
    obtain ⟨v, s'', g1, -, g3⟩ := IlrmaCall.iterations_of_lossList _ _ n_iter s [] vs l1
    have : baseCall (fastUpdateOnce np .ip1 norm id X) (fun s => .ok (fastLoss X s)) true n_iter s [] = .ok (s'', vs) := by
      simp only [baseCall, if_true, bind, Except.bind]
      rw [Except.ok.inj g1]
      exact g3
    rw [e1] at this
    exact congrArg Prod.snd (Except.ok.inj this)
  obtain ⟨Y, f1, f2⟩ := C43_fast_mnmf_unfloored np r X s' e2
  refine ⟨⟨.val s'.Q, .val s'.T, .val s'.V, .val s'.D, .val Y, ls⟩, Y, ?_, rfl, f2, els ▸ l2, els ▸ l3⟩
  have e1' : baseCall (fastUpdateOnce np .ip1 norm id X) (fun s => .ok (fastLoss X s)) true n_iter s
    (ObjF.fresh : ObjF F n m t K).loss
    = .ok (s', ls) := e1
  simp only [callF, hreset, e1', f1, bind, Except.bind]

/-! ## Resuming -/

/-- C87: after a successful call another one with `initial_call=False` and no keyword arguments gives what a single call
with all the iterations gives; no scale restoration is in the way, and no new numbers matter. -/
theorem C87_resume [Fintype F] (np : Numpy ℂ) (norm : Bool) (floor : ℝ → ℝ) (r : Fin m) (draw draw' : Draw F n t K)
    (X : Spec F m t) (a b : ℕ) (ic : Bool) (kw : Kw F n m t K) (o o1 : Obj F n m t K)
    (h : call np norm floor r draw X a ic kw o = .ok o1) :
    call np norm floor r draw' X b false {} o1 = call np norm floor r draw X (a + b) ic kw o := by
  obtain ⟨s, h1, h2⟩ := bind_ok h
  obtain ⟨q, h3, h4⟩ := bind_ok h2
  obtain ⟨Y, h5, h6⟩ := bind_ok h4
  cases h6
  have h7 : reset np floor r draw' X {} ⟨.val q.1.T, .val q.1.V, .val q.1.H, .val Y, q.2⟩ = .ok q.1 := by
    simp only [reset, initNmf, override, attrOr, h5, bind, Except.bind]
  have h8 := IlrmaCall.baseCall_add (fullUpdateOnce np norm floor (instantCovariance np floor X))
    (fun s => fullLoss np floor (instantCovariance np floor X) (recon s.T s.V) s.H) ic a b s o.loss
  rw [h3] at h8
  simp only [call, h1, h7, h8, bind, Except.bind]
  rfl

/-- Ten iterations and then five more are fifteen. -/
example (np : Numpy ℂ) (r : Fin 2) (draw draw' : Draw (Fin 3) 2 4 2) (X : Spec (Fin 3) 2 4) :
    ∃ o1 o2, call np true (Special.max_flooring (1 / 10 ^ 10)) r draw X 10 true {} Obj.fresh = .ok o1 ∧
      call np true (Special.max_flooring (1 / 10 ^ 10)) r draw' X 5 false {} o1 = .ok o2 ∧
      call np true (Special.max_flooring (1 / 10 ^ 10)) r draw X 15 true {} Obj.fresh = .ok o2 ∧ o2.loss.length = 16 := by
  have h := fun k => C87_gauss_returns np true (Special.max_flooring (1 / 10 ^ 10)) (fun x => lt_max_of_lt_right (by norm_num)) r
    draw X k true {} Obj.fresh (.inl rfl) (.inl rfl) (.inl rfl)
  obtain ⟨o1, -, -, -, -, h1, -⟩ := h 10
  obtain ⟨o2, -, -, -, -, h2, -, -, -, -, -, -, -, h3⟩ := h 15
  exact ⟨o1, o2, h1, by rw [C87_resume np true _ r draw draw' X 10 5 true {} Obj.fresh o1 h1]; exact h2, h2, h3⟩

/-- C87: the same with partitioning. -/
theorem C87_resume_partitioned [Fintype F] (np : Numpy ℂ) (norm : Bool) (floor : ℝ → ℝ) (r : Fin m) (draw draw' : DrawP F n t K)
    (X : Spec F m t) (a b : ℕ) (ic : Bool) (kw : KwP F n m t K) (o o1 : ObjP F n m t K)
    (h : callP np norm floor r draw X a ic kw o = .ok o1) :
    callP np norm floor r draw' X b false {} o1 = callP np norm floor r draw X (a + b) ic kw o := by
  obtain ⟨s, h1, h2⟩ := bind_ok h
  obtain ⟨q, h3, h4⟩ := bind_ok h2
  obtain ⟨Y, h5, h6⟩ := bind_ok h4
  cases h6
  have h7 : resetP np floor r draw' X {} ⟨.val q.1.Z, .val q.1.T, .val q.1.V, .val q.1.H, .val Y, q.2⟩ = .ok q.1 := by
    simp only [resetP, initNmfP, override, attrOr, h5, bind, Except.bind]
  have h8 := IlrmaCall.baseCall_add (fullUpdateOnceP np norm floor (instantCovariance np floor X))
    (fun s => fullLoss np floor (instantCovariance np floor X) (reconP s.Z s.T s.V) s.H) ic a b s o.loss
  rw [h3] at h8
  simp only [callP, h1, h7, h8, bind, Except.bind]
  rfl

/-- C87: the same for `FastGaussMNMF`, with IP1 and IP2. -/
theorem C87_resume_fast [Fintype F] (np : Numpy ℂ) (alg : FilterAlg m) (norm : Bool) (floor : ℝ → ℝ) (r : Fin m)
    (draw draw' : Draw F n t K) (drawD drawD' : F → Fin n → Fin m → ℝ) (X : Spec F m t) (a b : ℕ) (ic : Bool)
    (kw : KwF F n m t K) (o o1 : ObjF F n m t K) (h : callF np alg norm floor r draw drawD X a ic kw o = .ok o1) :
    callF np alg norm floor r draw' drawD' X b false {} o1 = callF np alg norm floor r draw drawD X (a + b) ic kw o := by
  obtain ⟨s, h1, h2⟩ := bind_ok h
  obtain ⟨q, h3, h4⟩ := bind_ok h2
  obtain ⟨Y, h5, h6⟩ := bind_ok h4
  cases h6
  have h7 : resetF np floor r draw' drawD' X {} ⟨.val q.1.Q, .val q.1.T, .val q.1.V, .val q.1.D, .val Y, q.2⟩ = .ok q.1 := by
    simp only [resetF, initNmf, override, attrOr, bind, Except.bind]
    rw [show fastSeparate np floor r X (⟨q.1.Q, q.1.T, q.1.V, q.1.D⟩ : FSt F n m t K) = .ok Y from h5]
  have h8 := IlrmaCall.baseCall_add (fastUpdateOnce np alg norm floor X) (fun s => .ok (fastLoss X s)) ic a b s o.loss
  rw [h3] at h8
  simp only [callF, h1, h7, h8, bind, Except.bind]
  rfl

end Verif.MnmfCall
