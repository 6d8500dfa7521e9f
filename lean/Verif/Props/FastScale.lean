import Verif.Lemmas.FastScale
import Verif.Props.EigPhaseEx
import Verif.Model.MnmfCall

/-! C112: FastGaussMNMF depends neither on the option `normalization` nor on how the scale is spread over diagonalizers,
bases, activations and spatial weights, and it commutes with gains per frequency bin. -/

namespace Verif.FastScale
open Matrix Spatial Scale Mnmf NormFree EigPhase
open Ilrma (recon FilterAlg spatialFilter recon_pos)
open IlrmaCall (baseCall Draw)
open MnmfCall (callF resetF ObjF KwF)
open scoped ComplexOrder

variable {F : Type} [Fintype F] {n m t K : ℕ}

/-- A whole call whose losses are related by `g`. -/
theorem baseCall_shift {σ τ : Type} {step : σ → Except PyErr σ} {step' : τ → Except PyErr τ} {loss : σ → Except PyErr ℝ}
    {loss' : τ → Except PyErr ℝ} {R : σ → τ → Prop} {Reg : σ → Prop} (g : ℝ → ℝ)
    (h : ∀ s s', R s s' → Reg s → ∃ a a', step s = .ok a ∧ step' s' = .ok a' ∧ R a a')
    (hl : ∀ s s', R s s' → ∃ v, loss s = .ok v ∧ loss' s' = .ok (g v)) (ic : Bool) (N : ℕ) {s : σ} {s' : τ} (hR : R s s')
    (hreg : RegularRun step Reg N s) :
    ∃ a a' l, (∀ ls, baseCall step loss ic N s ls = .ok (a, ls ++ l)) ∧
      (∀ ls, baseCall step' loss' ic N s' ls = .ok (a', ls ++ l.map g)) ∧ R a a' := by
  have key : ∀ (N : ℕ) (s : σ) (s' : τ), R s s' → RegularRun step Reg N s →
      ∃ a a' l, (∀ ls, IlrmaCall.iterations step loss N s ls = .ok (a, ls ++ l)) ∧
        (∀ ls, IlrmaCall.iterations step' loss' N s' ls = .ok (a', ls ++ l.map g)) ∧ R a a' := by
    intro N
    induction N with
    | zero => exact fun s s' hR _ => ⟨s, s', [], by simp [IlrmaCall.iterations], by simp [IlrmaCall.iterations], hR⟩
    | succ N ih =>
      intro s s' hR hreg
      obtain ⟨a, a', e, e', hR'⟩ := h s s' hR hreg.1
      obtain ⟨v, ev, ev'⟩ := hl a a' hR'
      obtain ⟨b, b', l, i1, i2, i3⟩ := ih a a' hR' (hreg.2 a e)
      refine ⟨b, b', v :: l, fun ls => ?_, fun ls => ?_, i3⟩
      · simp only [IlrmaCall.iterations, e, ev, bind, Except.bind, i1, List.append_assoc, List.singleton_append]
      · simp only [IlrmaCall.iterations, e', ev', bind, Except.bind, i2, List.append_assoc, List.singleton_append,
          List.map_cons]
  obtain ⟨b, b', l, i1, i2, i3⟩ := key N s s' hR hreg
  cases ic with
  | false => exact ⟨b, b', l, i1, i2, i3⟩
  | true =>
    obtain ⟨v, ev, ev'⟩ := hl s s' hR
    refine ⟨b, b', v :: l, fun ls => ?_, fun ls => ?_, i3⟩
    · simp only [baseCall, if_true, ev, bind, Except.bind, i1, List.append_assoc, List.singleton_append]
    · simp only [baseCall, if_true, ev', bind, Except.bind, i2, List.append_assoc, List.singleton_append, List.map_cons]

/-- What must hold at a state for the next update to go through: the parameters stay positive, the diagonalizers stay
invertible, IP2 does not meet proportional covariances, and with normalization no diagonalized channel is silent. -/
structure Visits (np : Numpy ℂ) (alg : FilterAlg m) (norm norm' : Bool) (X : Spec F m t) (s : FSt F n m t K) : Prop where
  source : FInv (fastUpdateActivation id X (fastUpdateBasis id X s))
  pairs : ∀ l, alg = .ip2 l →
    let s₁ := fastUpdateActivation id X (fastUpdateBasis id X s)
    RegularFold (fun W p => onBins fun f => ip2Pair np id (Iva.wcov (fun c j => 1 / lambD s₁ f c j) X f) (W f) p)
      (Ip2Regular (fun f c j => 1 / lambD s₁ f c j) X) l s₁.Q
  spatial : ∃ s₁, fastUpdateDiagonalizer np alg id X (fastUpdateActivation id X (fastUpdateBasis id X s)) = .ok s₁ ∧
    FInv (fastUpdateSpatial X s₁) ∧ (norm = true ∨ norm' = true → ∀ c, 0 < fastPsi id X s₁ c)

/-- The second state is the first one with the rows of its diagonalizers and its scales spread differently. -/
def Respread (a : F → ℂ) (τ : Fin n → F → ℝ) (ρ : Fin n → Fin K → ℝ) (s s' : FSt F n m t K) : Prop :=
  ∃ κ : F → Fin m → ℂ, (∀ f c, κ f c ≠ 0) ∧ s' = respread a κ τ ρ s

theorem psi_gain {a : F → ℂ} (ha : ∀ f, a f ≠ 0) {κ : F → Fin m → ℂ} (hκ : ∀ f c, κ f c ≠ 0) {τ : Fin n → F → ℝ}
    {ρ : Fin n → Fin K → ℝ} (X : Spec F m t) {s : FSt F n m t K} (h : ∀ c, 0 < fastPsi id X s c) (c : Fin m) :
    0 < fastPsi id (gain a X) (respread a κ τ ρ s) c := by
  have h1 : Ilrma.NormReg id X .power s.Q := h
  have h2 := normReg_scaled X .power (c := fun f c => κ f c * a f) (fun f c => mul_ne_zero (hκ f c) (ha f)) h1 c
  have e : separate (gain a X) (respread a κ τ ρ s).Q = separate X (scaled (fun f c => κ f c * a f) s.Q) := by
    funext f
    ext c j
    change separate (gain a X) (scaled κ s.Q) f c j = _
    simp only [separate, gain, scaled, mulRow, mul_apply, of_apply, Matrix.smul_apply, smul_eq_mul]
    exact Finset.sum_congr rfl fun i _ => by ring
  rw [fastPsi, e]
  exact h2

/-- One update. -/
theorem step (np np' : Numpy ℂ) (alg : FilterAlg m) (norm norm' : Bool) {a : F → ℂ} (ha : ∀ f, a f ≠ 0)
    {τ : Fin n → F → ℝ} (hτ : ∀ k f, 0 < τ k f) {ρ : Fin n → Fin K → ℝ} (hρ : ∀ k b, 0 < ρ k b) (X : Spec F m t)
    (s s' : FSt F n m t K) (h : FInv s ∧ Respread a τ ρ s s') (hv : Visits np alg norm norm' X s) :
    ∃ u u', fastUpdateOnce np alg norm id X s = .ok u ∧ fastUpdateOnce np' alg norm' id (gain a X) s' = .ok u' ∧
      FInv u ∧ Respread a τ ρ u u' := by
  obtain ⟨-, κ, hκ, rfl⟩ := h
  obtain ⟨s₁, e₁, hi, hψ⟩ := hv.spatial
  obtain ⟨κ', hn, e₂⟩ := diagonalizer_respread ha hκ hτ hρ np np' alg X hv.pairs e₁
  have hκ' : ∀ f c, κ' f c ≠ 0 := fun f c => norm_pos_iff.mp (by rw [hn]; exact norm_pos_iff.mpr (hκ f c))
  simp only [fastUpdateOnce, basis_respread ha hκ hτ hρ, activation_respread ha hκ hτ hρ, e₁, e₂, bind, Except.bind,
    spatial_respread ha hκ' hτ hρ]
  refine ⟨_, _, rfl, rfl, ?_, ?_⟩
  · cases norm with
    | false => exact hi
    | true =>
      simp only [if_true]
      rw [normalize_respread]
      exact inv_respread (fun _ => one_ne_zero)
        (fun f c => inv_ne_zero (by exact_mod_cast (hψ (.inl rfl) c).ne')) (fun _ _ => one_pos) (fun _ _ => one_pos) hi
  · -- both normalizations only rescale the rows
    have key : ∀ (nrm : Bool) (b : F → ℂ) (u : FSt F n m t K), (nrm = true → ∀ c, 0 < fastPsi id (gain b X) u c) →
        ∃ q : Fin m → ℂ, (∀ c, q c ≠ 0) ∧ (if nrm then fastNormalize id (gain b X) u else u)
          = respread (fun _ => 1) (fun _ c => q c) (fun _ _ => 1) (fun _ _ => 1) u := by
      intro nrm b u hp
      cases nrm with
      | false => exact ⟨fun _ => 1, fun _ => one_ne_zero, (respread_one u).symm⟩
      | true => exact ⟨_, fun c => inv_ne_zero (by exact_mod_cast (hp rfl c).ne'), normalize_respread _ u⟩
    have g1 : gain (fun _ => 1) X = X := funext fun f => one_smul _ _
    obtain ⟨q, hq, eq⟩ := key norm (fun _ => 1) (fastUpdateSpatial X s₁) (fun hh => by rw [g1]; exact hψ (.inl hh))
    obtain ⟨q', hq', eq'⟩ := key norm' a (respread a κ' τ ρ (fastUpdateSpatial X s₁))
      (fun hh => psi_gain ha hκ' X (hψ (.inr hh)))
    rw [g1] at eq
    refine ⟨fun f c => q' c * κ' f c * (q c)⁻¹, fun f c => mul_ne_zero (mul_ne_zero (hq' c) (hκ' f c)) (inv_ne_zero (hq c)), ?_⟩
    rw [eq, eq', respread_respread, respread_respread]
    have e5 : ∀ f c, q' c * κ' f c * (q c)⁻¹ * q c = q' c * κ' f c := fun f c => inv_mul_cancel_right₀ (hq c) _
    simp only [one_mul, mul_one, e5]

/-- C112, the iterations: from two states that differ only in how the scales are spread, on a recording and the same
recording with gains `a`, with any two settings of `normalization`, all losses differ by the same constant (zero without
gains), and the final states again differ only in this way. -/
theorem C112_run [Nonempty (Fin K)] [Nonempty (Fin n)] (np np' : Numpy ℂ) (ht : 0 < t) (alg : FilterAlg m)
    (norm norm' : Bool) {a : F → ℂ} (ha : ∀ f, a f ≠ 0) {τ : Fin n → F → ℝ} (hτ : ∀ k f, 0 < τ k f)
    {ρ : Fin n → Fin K → ℝ} (hρ : ∀ k b, 0 < ρ k b) (X : Spec F m t) (ic : Bool) (n_iter : ℕ) {s s' : FSt F n m t K}
    (hs : FInv s) (h : Respread a τ ρ s s')
    (hreg : RegularRun (fastUpdateOnce np alg norm id X) (Visits np alg norm norm' X) n_iter s) :
    ∃ u u' l, (∀ ls, baseCall (fastUpdateOnce np alg norm id X) (fun s => .ok (fastLoss X s)) ic n_iter s ls
        = .ok (u, ls ++ l)) ∧
      (∀ ls, baseCall (fastUpdateOnce np' alg norm' id (gain a X)) (fun s => .ok (fastLoss (gain a X) s)) ic n_iter s' ls
        = .ok (u', ls ++ l.map (· + 2 * m * ∑ f, Real.log ‖a f‖))) ∧ FInv u ∧ Respread a τ ρ u u' := by
  refine baseCall_shift (R := fun s s' => FInv s ∧ Respread a τ ρ s s') _ (step np np' alg norm norm' ha hτ hρ X) ?_ ic
    n_iter ⟨hs, h⟩ hreg
  rintro s s' ⟨hs, κ, hκ, rfl⟩
  exact ⟨_, rfl, by rw [loss_respread ha hκ hτ hρ ht X hs]⟩

/-- C112: a call of FastGaussMNMF on the recording with gains `a`, from the same parameters with their scales spread
differently and with any setting of `normalization`, returns the output of the original call with the gains `a`; the bases
and activations are those of the original call in the proportions of the start, and all losses are shifted by the same
constant, which is zero without gains. -/
theorem C112_call [Nonempty (Fin K)] [Nonempty (Fin n)] (np np' : Numpy ℂ) (ht : 0 < t) (alg : FilterAlg m)
    (norm norm' : Bool) {a : F → ℂ} (ha : ∀ f, a f ≠ 0) {κ : F → Fin m → ℂ} (hκ : ∀ f c, κ f c ≠ 0) {τ : Fin n → F → ℝ}
    (hτ : ∀ k f, 0 < τ k f) {ρ : Fin n → Fin K → ℝ} (hρ : ∀ k b, 0 < ρ k b) (r : Fin m) (draw draw' : Draw F n t K)
    (drawD drawD' : F → Fin n → Fin m → ℝ) (X : Spec F m t) (n_iter : ℕ) (ic : Bool) (o o' : ObjF F n m t K)
    {Q : F → Mat m ℂ} {T : Fin n → F → Fin K → ℝ} {V : Fin n → Fin K → Fin t → ℝ} {D : F → Fin n → Fin m → ℝ}
    (hQ : ∀ f, IsUnit (Q f).det) (hT : ∀ k f b, 0 < T k f b) (hV : ∀ k b j, 0 < V k b j) (hD : ∀ f k c, 0 < D f k c)
    (hreg : RegularRun (fastUpdateOnce np alg norm id X) (Visits np alg norm norm' X) n_iter ⟨Q, T, V, D⟩) :
    ∃ (κ₁ : F → Fin m → ℂ) (Q₁ : F → Mat m ℂ) (T₁ : Fin n → F → Fin K → ℝ) (V₁ : Fin n → Fin K → Fin t → ℝ)
      (D₁ : F → Fin n → Fin m → ℝ) (Y : F → Fin t → Fin n → ℂ) (l : List ℝ), (∀ f c, κ₁ f c ≠ 0) ∧
      callF np alg norm id r draw drawD X n_iter ic
          { diagonalizer := some Q, basis := some T, activation := some V, spatial := some D } o
        = .ok ⟨.val Q₁, .val T₁, .val V₁, .val D₁, .val Y, o.loss ++ l⟩ ∧
      callF np' alg norm' id r draw' drawD' (fun f => a f • X f) n_iter ic
          { diagonalizer := some fun f => Matrix.of fun c i => κ f c * Q f c i,
            basis := some fun k f b => τ k f * ρ k b * T k f b,
            activation := some fun k b j => V k b j / ρ k b,
            spatial := some fun f k c => ‖κ f c‖ ^ 2 * ‖a f‖ ^ 2 / τ k f * D f k c } o'
        = .ok ⟨.val fun f => Matrix.of fun c i => κ₁ f c * Q₁ f c i, .val fun k f b => τ k f * ρ k b * T₁ k f b,
            .val fun k b j => V₁ k b j / ρ k b, .val fun f k c => ‖κ₁ f c‖ ^ 2 * ‖a f‖ ^ 2 / τ k f * D₁ f k c,
            .val fun f j k => a f * Y f j k, o'.loss ++ l.map (· + 2 * m * ∑ f, Real.log ‖a f‖)⟩ := by
  have hs : FInv (⟨Q, T, V, D⟩ : FSt F n m t K) := ⟨hQ, hT, hV, hD⟩
  obtain ⟨u, u', l, h1, h2, hu, κ₁, hκ₁, rfl⟩ := C112_run np np' ht alg norm norm' ha hτ hρ X ic n_iter hs
    ⟨κ, hκ, rfl⟩ hreg
  obtain ⟨Y₀, hY₀, -⟩ := C43_fast_mnmf_unfloored np r X _ hs
  obtain ⟨Y, hY, -⟩ := C43_fast_mnmf_unfloored np r X _ hu
  have hY₀' := separate_respread ha hκ hτ hρ np np' r X (⟨Q, T, V, D⟩ : FSt F n m t K)
  have hY' := separate_respread ha hκ₁ hτ hρ np np' r X u
  rw [hY₀] at hY₀'
  rw [hY] at hY'
  refine ⟨κ₁, u.Q, u.T, u.V, u.D, Y, l, hκ₁, ?_, ?_⟩
  · simp only [callF, resetF, IlrmaCall.override, IlrmaCall.initNmf, IlrmaCall.attrOr, bind, Except.bind, hY₀, h1, hY]
  · have e0 : resetF np' id r draw' drawD' (gain a X)
        { diagonalizer := some fun f => Matrix.of fun c i => κ f c * Q f c i,
          basis := some fun k f b => τ k f * ρ k b * T k f b,
          activation := some fun k b j => V k b j / ρ k b,
          spatial := some fun f k c => ‖κ f c‖ ^ 2 * ‖a f‖ ^ 2 / τ k f * D f k c } o'
        = .ok (respread a κ τ ρ ⟨Q, T, V, D⟩) := by
      change (fastSeparate np' id r (gain a X) (respread a κ τ ρ ⟨Q, T, V, D⟩) >>= fun _ =>
        .ok (respread a κ τ ρ ⟨Q, T, V, D⟩)) = _
      rw [hY₀']
      rfl
    change callF np' alg norm' id r draw' drawD' (gain a X) n_iter ic _ o' = _
    simp only [callF, e0, bind, Except.bind, h2, hY', Except.map]
    rfl

/-- C112: `normalization` does not influence losses, output, bases or activations of FastGaussMNMF, whatever the start. -/
theorem C112_normalization [Nonempty (Fin K)] [Nonempty (Fin n)] (np np' : Numpy ℂ) (ht : 0 < t) (alg : FilterAlg m)
    (norm norm' : Bool) (r : Fin m) (draw : Draw F n t K) (drawD : F → Fin n → Fin m → ℝ) (X : Spec F m t) (n_iter : ℕ)
    (ic : Bool) (kw : KwF F n m t K) (o : ObjF F n m t K)
    (hreg : ∀ s, resetF np id r draw drawD X kw o = .ok s → FInv s ∧
      RegularRun (fastUpdateOnce np alg norm id X) (Visits np alg norm norm' X) n_iter s) :
    ∃ Q' D', callF np' alg norm' id r draw drawD X n_iter ic kw o
      = (callF np alg norm id r draw drawD X n_iter ic kw o).map fun o =>
          { o with diagonalizer := .val Q', spatial := .val D' } := by
  have g1 : gain (fun _ => (1 : ℂ)) X = X := funext fun f => one_smul _ _
  have h0 : ∀ s : FSt F n m t K, fastSeparate np' id r X s = fastSeparate np id r X s := by
    intro s
    have := separate_respread (a := fun _ : F => (1 : ℂ)) (fun _ => one_ne_zero) (κ := fun _ (_ : Fin m) => 1)
      (fun _ _ => one_ne_zero) (τ := fun (_ : Fin n) _ => 1) (fun _ _ => one_pos) (ρ := fun _ (_ : Fin K) => 1)
      (fun _ _ => one_pos) np np' r X s
    rw [respread_one, g1] at this
    rw [this]
    simp only [one_mul]
    cases fastSeparate np id r X s <;> rfl
  have e0 : resetF np' id r draw drawD X kw o = resetF np id r draw drawD X kw o := by
    simp only [resetF, h0]
  rw [callF, callF, e0]
  cases e : resetF np id r draw drawD X kw o with
  | error => exact ⟨fun _ => 1, fun _ _ _ => 0, rfl⟩
  | ok s =>
    obtain ⟨hs, hr⟩ := hreg s e
    obtain ⟨u, u', l, h1, h2, hu, κ₁, hκ₁, rfl⟩ := C112_run np np' ht alg norm norm' (a := fun _ => 1)
      (fun _ => one_ne_zero) (τ := fun (_ : Fin n) _ => 1) (fun _ _ => one_pos) (ρ := fun _ (_ : Fin K) => 1)
      (fun _ _ => one_pos) X ic n_iter hs ⟨fun _ _ => 1, fun _ _ => one_ne_zero, (respread_one s).symm⟩ hr
    have hY' := separate_respread (a := fun _ : F => (1 : ℂ)) (fun _ => one_ne_zero) hκ₁ (τ := fun (_ : Fin n) _ => 1)
      (fun _ _ => one_pos) (ρ := fun _ (_ : Fin K) => 1) (fun _ _ => one_pos) np np' r X u
    obtain ⟨Y, hY, -⟩ := C43_fast_mnmf_unfloored np r X _ hu
    simp only [g1, norm_one, Real.log_one, Finset.sum_const_zero, mul_zero, add_zero, List.map_id'] at h2
    rw [g1, hY] at hY'
    refine ⟨(respread (fun _ => 1) κ₁ (fun _ _ => 1) (fun _ _ => 1) u).Q,
      (respread (fun _ => 1) κ₁ (fun _ _ => 1) (fun _ _ => 1) u).D, ?_⟩
    simp only [bind, Except.bind, h1, h2, hY, hY', Except.map, one_mul]
    simp only [respread, one_mul, div_one]

/-! ## Recordings without linear dependence and silent frames -/

/-- A frame in which something is heard. -/
def Sounding (X : Spec F m t) : Prop := ∀ j, ∃ f c, X f c j ≠ 0

omit [Fintype F] in
theorem exists_frame_ne {X : Spec F m t} (hX : Sounding X) {Q : F → Mat m ℂ} (hQ : ∀ f, IsUnit (Q f).det) (j : Fin t) :
    ∃ f c, separate X Q f c j ≠ 0 := by
  obtain ⟨f, c, h⟩ := hX j
  refine ⟨f, ?_⟩
  by_contra h0
  push Not at h0
  have h1 : Q f *ᵥ (fun c => X f c j) = 0 := funext fun c => h0 c
  have h2 : (Q f)⁻¹ *ᵥ (Q f *ᵥ fun c => X f c j) = fun c => X f c j := by
    rw [mulVec_mulVec, nonsing_inv_mul _ (hQ f), one_mulVec]
  rw [h1, mulVec_zero] at h2
  exact h (congrFun h2 c).symm

/-- With IP2, no pair of weighted covariances is proportional (nothing is asked of IP1). -/
def Untied (np : Numpy ℂ) (alg : FilterAlg m) (X : Spec F m t) (s : FSt F n m t K) : Prop :=
  ∀ l, alg = .ip2 l →
    let s₁ := fastUpdateActivation id X (fastUpdateBasis id X s)
    RegularFold (fun W p => onBins fun f => ip2Pair np id (Iva.wcov (fun c j => 1 / lambD s₁ f c j) X f) (W f) p)
      (Ip2Regular (fun f c j => 1 / lambD s₁ f c j) X) l s₁.Q

theorem visits_of [Nonempty F] [Nonempty (Fin m)] [Nonempty (Fin K)] [Nonempty (Fin n)] (np : Numpy ℂ) {alg : FilterAlg m}
    (halg : alg.Valid) (norm norm' : Bool) {X : Spec F m t} (hX : ∀ f, LinearIndependent ℂ (X f).row) (hX' : Sounding X)
    {s : FSt F n m t K} (hs : FInv s) (hp : Untied np alg X s) : Visits np alg norm norm' X s := by
  obtain ⟨c0⟩ := ‹Nonempty (Fin m)›
  have hm : Nonempty (Fin m) := ⟨c0⟩
  have h1 : FInv (fastUpdateBasis id X s) := by
    refine ⟨hs.1, fun k f b => ?_, hs.2.2⟩
    have hL := fun c j => lambD_pos hs f c j
    obtain ⟨j, hj⟩ := Iva.exists_separate_ne hX hs.1 f c0
    have hi : ∀ j c, 0 ≤ s.D f k c * (‖separate X s.Q f c j‖ / lambD s f c j) ^ 2 := fun j c =>
      mul_nonneg (hs.2.2.2 f k c).le (sq_nonneg _)
    refine mul_pos (hs.2.1 k f b) (Real.sqrt_pos.mpr (div_pos ?_ ?_))
    · exact Finset.sum_pos' (fun j _ => mul_nonneg (hs.2.2.1 k b j).le (Finset.sum_nonneg fun c _ => hi j c))
        ⟨j, Finset.mem_univ _, mul_pos (hs.2.2.1 k b j) (Finset.sum_pos' (fun c _ => hi j c) ⟨c0, Finset.mem_univ _,
          mul_pos (hs.2.2.2 f k c0) (pow_pos (div_pos (norm_pos_iff.mpr hj) (hL c0 j)) 2)⟩)⟩
    · exact Finset.sum_pos (fun j _ => mul_pos (hs.2.2.1 k b j) (Finset.sum_pos (fun c _ => div_pos (hs.2.2.2 f k c) (hL c j))
        Finset.univ_nonempty)) ⟨j, Finset.mem_univ _⟩
  have h2 : FInv (fastUpdateActivation id X (fastUpdateBasis id X s)) := by
    refine ⟨h1.1, h1.2.1, fun k b j => ?_, h1.2.2.2⟩
    generalize fastUpdateBasis id X s = s at h1
    have hL := fun f c => lambD_pos h1 f c j
    obtain ⟨f, c, hj⟩ := exists_frame_ne hX' h1.1 j
    have hi : ∀ f c, 0 ≤ s.D f k c * (‖separate X s.Q f c j‖ / lambD s f c j) ^ 2 := fun f c =>
      mul_nonneg (h1.2.2.2 f k c).le (sq_nonneg _)
    refine mul_pos (h1.2.2.1 k b j) (Real.sqrt_pos.mpr (div_pos ?_ ?_))
    · exact Finset.sum_pos' (fun f _ => mul_nonneg (h1.2.1 k f b).le (Finset.sum_nonneg fun c _ => hi f c))
        ⟨f, Finset.mem_univ _, mul_pos (h1.2.1 k f b) (Finset.sum_pos' (fun c _ => hi f c) ⟨c, Finset.mem_univ _,
          mul_pos (h1.2.2.2 f k c) (pow_pos (div_pos (norm_pos_iff.mpr hj) (hL f c)) 2)⟩)⟩
    · exact Finset.sum_pos (fun f _ => mul_pos (h1.2.1 k f b) (Finset.sum_pos (fun c _ => div_pos (h1.2.2.2 f k c) (hL f c))
        Finset.univ_nonempty)) Finset.univ_nonempty
  refine ⟨h2, hp, ?_⟩
  clear hp
  generalize fastUpdateActivation id X (fastUpdateBasis id X s) = s at h2
  obtain ⟨Q', e1, e2, -⟩ := Ilrma.spatialFilter_weighted np alg halg (fun f c j => 1 / lambD s f c j)
    (fun f c j => one_div_pos.mpr (lambD_pos h2 f c j)) X hX s.Q h2.1
  refine ⟨⟨Q', s.T, s.V, s.D⟩, ?_, ?_, ?_⟩
  · simp only [fastUpdateDiagonalizer, e1, bind, Except.bind]
  · have h3 : FInv (⟨Q', s.T, s.V, s.D⟩ : FSt F n m t K) := ⟨e2, h2.2⟩
    refine ⟨e2, h2.2.1, h2.2.2.1, fun f k c => ?_⟩
    have hL := fun j => lambD_pos h3 f c j
    have hR := recon_pos h2.2.1 h2.2.2.1 k f
    obtain ⟨j, hj⟩ := Iva.exists_separate_ne hX e2 f c
    refine mul_pos (Real.sqrt_pos.mpr (div_pos ?_ ?_)) (h2.2.2.2 f k c)
    · exact Finset.sum_pos' (fun j _ => mul_nonneg (div_nonneg (hR j).le (sq_nonneg _)) (sq_nonneg _))
        ⟨j, Finset.mem_univ _, mul_pos (div_pos (hR j) (pow_pos (hL j) 2)) (pow_pos (norm_pos_iff.mpr hj) 2)⟩
    · exact Finset.sum_pos (fun j _ => div_pos (hR j) (hL j)) ⟨j, Finset.mem_univ _⟩
  · exact fun _ => normReg_power hX e2

theorem regularRun_of [Nonempty F] [Nonempty (Fin m)] [Nonempty (Fin K)] [Nonempty (Fin n)] (np : Numpy ℂ)
    {alg : FilterAlg m} (halg : alg.Valid) (norm norm' : Bool) {X : Spec F m t}
    (hX : ∀ f, LinearIndependent ℂ (X f).row) (hX' : Sounding X) (N : ℕ) : ∀ {s : FSt F n m t K}, FInv s →
    RegularRun (fastUpdateOnce np alg norm id X) (Untied np alg X) N s →
    RegularRun (fastUpdateOnce np alg norm id X) (Visits np alg norm norm' X) N s := by
  induction N with
  | zero => exact fun _ _ => trivial
  | succ N ih =>
    intro s hs hr
    have hv := visits_of np halg norm norm' hX hX' hs hr.1
    refine ⟨hv, fun s' e => ih ?_ (hr.2 s' e)⟩
    have hv' := visits_of np halg norm norm hX hX' hs hr.1
    obtain ⟨u, u', e1, -, hi, -⟩ := step np np alg norm norm (a := fun _ => 1) (fun _ => one_ne_zero)
      (τ := fun (_ : Fin n) _ => 1) (fun _ _ => one_pos) (ρ := fun _ (_ : Fin K) => 1) (fun _ _ => one_pos) X s s
      ⟨hs, fun _ _ => 1, fun _ _ => one_ne_zero, (respread_one s).symm⟩ hv'
    rw [e] at e1
    cases e1
    exact hi

theorem untied_ip1 (np : Numpy ℂ) (norm : Bool) (X : Spec F m t) (N : ℕ) : ∀ s : FSt F n m t K,
    RegularRun (fastUpdateOnce np .ip1 norm id X) (Untied np .ip1 X) N s := by
  induction N with
  | zero => exact fun _ => trivial
  | succ N ih => exact fun s => ⟨(fun l hl => nomatch hl), fun s' _ => ih s'⟩

/-- C112: if in every bin the channels are linearly independent, no frame is silent in all bins and (IP2) no pair of
weighted covariances is proportional, then `normalization` does not influence losses, output, bases or activations, from
every positive start. -/
theorem C112_normalization_independent [Nonempty F] [Nonempty (Fin K)] [Nonempty (Fin n)] (np np' : Numpy ℂ)
    {alg : FilterAlg m} (halg : alg.Valid) (norm norm' : Bool) (r : Fin m)
    (draw : Draw F n t K) (drawD : F → Fin n → Fin m → ℝ) {X : Spec F m t} (hX : ∀ f, LinearIndependent ℂ (X f).row)
    (hX' : ∀ j, ∃ f c, X f c j ≠ 0) (n_iter : ℕ) (ic : Bool) (kw : KwF F n m t K) (o : ObjF F n m t K)
    (hs : ∀ s, resetF np id r draw drawD X kw o = .ok s → FInv s ∧
      RegularRun (fastUpdateOnce np alg norm id X) (Untied np alg X) n_iter s) :
    ∃ Q' D', callF np' alg norm' id r draw drawD X n_iter ic kw o
      = (callF np alg norm id r draw drawD X n_iter ic kw o).map fun o =>
          { o with diagonalizer := .val Q', spatial := .val D' } := by
  have hm : Nonempty (Fin m) := ⟨r⟩
  have ht : 0 < t := by
    obtain ⟨f⟩ := ‹Nonempty F›
    obtain ⟨j, -⟩ := Iva.exists_separate_ne hX (W := fun _ => 1) (fun _ => by simp) f r
    exact Fin.pos j
  exact C112_normalization np np' ht alg norm norm' r draw drawD X n_iter ic kw o fun s e =>
    ⟨(hs s e).1, regularRun_of np halg norm norm' hX hX' n_iter (hs s e).1 (hs s e).2⟩

/-- C112 for IP1: if in every bin the channels are linearly independent and no frame is silent in all bins, then
`normalization` does not influence losses, output, bases or activations, from every positive start, for any number of
iterations. -/
theorem C112_ip1 [Nonempty F] [Nonempty (Fin K)] [Nonempty (Fin n)] (np np' : Numpy ℂ) (norm norm' : Bool) (r : Fin m)
    (draw : Draw F n t K) (drawD : F → Fin n → Fin m → ℝ) {X : Spec F m t} (hX : ∀ f, LinearIndependent ℂ (X f).row)
    (hX' : ∀ j, ∃ f c, X f c j ≠ 0) (n_iter : ℕ) (ic : Bool) (kw : KwF F n m t K) (o : ObjF F n m t K)
    (hs : ∀ s, resetF np id r draw drawD X kw o = .ok s → FInv s) :
    ∃ Q' D', callF np' .ip1 norm' id r draw drawD X n_iter ic kw o
      = (callF np .ip1 norm id r draw drawD X n_iter ic kw o).map fun o =>
          { o with diagonalizer := .val Q', spatial := .val D' } :=
  C112_normalization_independent np np' (alg := .ip1) trivial norm norm' r draw drawD hX hX' n_iter ic kw o fun s e =>
    ⟨hs s e, untied_ip1 np norm X n_iter s⟩

/-- C112 for IP1: a recording with gains per bin and bases that follow, `T k f b * ‖a f‖ ^ 2`, has the output of the
original recording with the same gains, for every positive start and any number of iterations. -/
theorem C112_gain [Nonempty F] [Nonempty (Fin K)] [Nonempty (Fin n)] (np np' : Numpy ℂ) (norm norm' : Bool) {a : F → ℂ}
    (ha : ∀ f, a f ≠ 0) (r : Fin m) (draw draw' : Draw F n t K) (drawD drawD' : F → Fin n → Fin m → ℝ) {X : Spec F m t}
    (hX : ∀ f, LinearIndependent ℂ (X f).row) (hX' : ∀ j, ∃ f c, X f c j ≠ 0) (n_iter : ℕ) (ic : Bool)
    (o o' : ObjF F n m t K) {Q : F → Mat m ℂ} {T : Fin n → F → Fin K → ℝ} {V : Fin n → Fin K → Fin t → ℝ}
    {D : F → Fin n → Fin m → ℝ} (hQ : ∀ f, IsUnit (Q f).det) (hT : ∀ k f b, 0 < T k f b) (hV : ∀ k b j, 0 < V k b j)
    (hD : ∀ f k c, 0 < D f k c) :
    ∃ (Q₁ Q₂ : F → Mat m ℂ) (T₁ : Fin n → F → Fin K → ℝ) (V₁ : Fin n → Fin K → Fin t → ℝ)
      (D₁ D₂ : F → Fin n → Fin m → ℝ) (Y : F → Fin t → Fin n → ℂ) (l : List ℝ),
      callF np .ip1 norm id r draw drawD X n_iter ic
          { diagonalizer := some Q, basis := some T, activation := some V, spatial := some D } o
        = .ok ⟨.val Q₁, .val T₁, .val V₁, .val D₁, .val Y, o.loss ++ l⟩ ∧
      callF np' .ip1 norm' id r draw' drawD' (fun f => a f • X f) n_iter ic
          { diagonalizer := some Q, basis := some fun k f b => ‖a f‖ ^ 2 * T k f b, activation := some V,
            spatial := some D } o'
        = .ok ⟨.val Q₂, .val fun k f b => ‖a f‖ ^ 2 * T₁ k f b, .val V₁, .val D₂, .val fun f j k => a f * Y f j k,
            o'.loss ++ l.map (· + 2 * m * ∑ f, Real.log ‖a f‖)⟩ := by
  have hm : Nonempty (Fin m) := ⟨r⟩
  have ht : 0 < t := by
    obtain ⟨f⟩ := ‹Nonempty F›
    obtain ⟨j, -⟩ := Iva.exists_separate_ne hX (W := fun _ => 1) (fun _ => by simp) f r
    exact Fin.pos j
  have hp : ∀ f, 0 < ‖a f‖ ^ 2 := fun f => pow_pos (norm_pos_iff.mpr (ha f)) 2
  obtain ⟨κ₁, Q₁, T₁, V₁, D₁, Y, l, -, h1, h2⟩ := C112_call np np' ht .ip1 norm norm' ha (κ := fun _ _ => 1)
    (fun _ _ => one_ne_zero) (τ := fun _ f => ‖a f‖ ^ 2) (fun _ f => hp f) (ρ := fun _ _ => 1) (fun _ _ => one_pos) r draw
    draw' drawD drawD' X n_iter ic o o' hQ hT hV hD 
    (regularRun_of np (alg := .ip1) trivial norm norm' hX hX' n_iter ⟨hQ, hT, hV, hD⟩ (untied_ip1 np norm X n_iter _))
  have e : ∀ f, ‖a f‖ ^ 2 / ‖a f‖ ^ 2 = 1 := fun f => div_self (hp f).ne'
  have eQ : (fun f => Matrix.of fun c i => Q f c i) = Q := rfl
  simp only [one_mul, mul_one, div_one, norm_one, one_pow, e, eQ] at h2
  exact ⟨Q₁, _, T₁, V₁, D₁, _, Y, l, h1, h2⟩

/-! ## Examples -/

/-- Two bins, two channels, three frames; the channels differ and no frame is silent. -/
noncomputable def exX : Spec (Fin 2) 2 3 := fun f => !![1, 0, 2; 0, (f : ℕ) + 1, 1]

theorem exX_rows (f : Fin 2) : LinearIndependent ℂ (exX f).row := by
  rw [Fintype.linearIndependent_iff]
  intro g hg
  have h0 := congrFun hg 0
  have h1 := congrFun hg 1
  have h2 : ((f : ℕ) : ℂ) + 1 ≠ 0 := Nat.cast_add_one_ne_zero _
  simp [exX, Fin.sum_univ_two, Matrix.row] at h0 h1
  intro i
  fin_cases i
  · exact h0
  · exact h1.resolve_right h2

theorem exX_sounding (j : Fin 3) : ∃ f c, exX f c j ≠ 0 := by
  fin_cases j
  · exact ⟨0, 0, by simp [exX]⟩
  · exact ⟨0, 1, by simp [exX]⟩
  · exact ⟨0, 0, by simp [exX]⟩

/-- Two sources with three components, the default start with positive random numbers: with and without normalization. -/
example (np np' : Numpy ℂ) (draw : Draw (Fin 2) 2 3 3) (drawD : Fin 2 → Fin 2 → Fin 2 → ℝ)
    (hT : ∀ k f b, 0 < draw.T k f b) (hV : ∀ k b j, 0 < draw.V k b j) (hD : ∀ f k c, 0 < drawD f k c) (n_iter : ℕ) :
    ∃ Q' D', callF np' .ip1 false id 0 draw drawD exX n_iter true {} .fresh
      = (callF np .ip1 true id 0 draw drawD exX n_iter true {} .fresh).map fun o =>
          { o with diagonalizer := .val Q', spatial := .val D' } := by
  refine C112_ip1 np np' true false 0 draw drawD exX_rows exX_sounding n_iter true {} .fresh fun s e => ?_
  obtain ⟨Y, hY, -⟩ := C43_fast_mnmf_unfloored np 0 exX (⟨fun _ => 1, draw.T, draw.V, drawD⟩ : FSt (Fin 2) 2 2 3 3)
    ⟨fun _ => by simp, hT, hV, hD⟩
  simp only [resetF, IlrmaCall.override, IlrmaCall.initNmf, IlrmaCall.attrOr, ObjF.fresh, bind, Except.bind, id, hY] at e
  rw [← Except.ok.inj e]
  exact ⟨fun _ => by simp, hT, hV, hD⟩

/-- The second bin three times louder, the first one with the opposite phase. -/
example (np np' : Numpy ℂ) (draw : Draw (Fin 2) 2 3 3) (drawD : Fin 2 → Fin 2 → Fin 2 → ℝ) (n_iter : ℕ) :
    ∃ (Q₁ Q₂ : Fin 2 → Mat 2 ℂ) (T₁ : Fin 2 → Fin 2 → Fin 3 → ℝ) (V₁ : Fin 2 → Fin 3 → Fin 3 → ℝ)
      (D₁ D₂ : Fin 2 → Fin 2 → Fin 2 → ℝ) (Y : Fin 2 → Fin 3 → Fin 2 → ℂ) (l : List ℝ),
      callF np .ip1 true id 0 draw drawD exX n_iter true
          { diagonalizer := some fun _ => 1, basis := some fun _ _ _ => 1, activation := some fun _ _ _ => 2,
            spatial := some fun _ k _ => (k : ℕ) + 1 } .fresh
        = .ok ⟨.val Q₁, .val T₁, .val V₁, .val D₁, .val Y, [] ++ l⟩ ∧
      callF np' .ip1 false id 0 draw drawD (fun f => (![-1, 3] : Fin 2 → ℂ) f • exX f) n_iter true
          { diagonalizer := some fun _ => 1, basis := some fun _ f _ => ‖(![-1, 3] : Fin 2 → ℂ) f‖ ^ 2 * 1,
            activation := some fun _ _ _ => 2, spatial := some fun _ k _ => (k : ℕ) + 1 } .fresh
        = .ok ⟨.val Q₂, .val fun k f b => ‖(![-1, 3] : Fin 2 → ℂ) f‖ ^ 2 * T₁ k f b, .val V₁, .val D₂,
            .val fun f j k => (![-1, 3] : Fin 2 → ℂ) f * Y f j k,
            [] ++ l.map (· + 2 * (2 : ℕ) * ∑ f, Real.log ‖(![-1, 3] : Fin 2 → ℂ) f‖)⟩ :=
  C112_gain np np' true false (a := ![-1, 3]) (fun f => by fin_cases f <;> simp) 0 draw draw drawD drawD exX_rows
    exX_sounding n_iter true .fresh .fresh (fun _ => by simp) (fun _ _ _ => one_pos) (fun _ _ _ => two_pos)
    (fun _ k _ => by positivity)

/-- IP2: two sources, each present in both diagonalized channels, whose variances are the powers of the recording. -/
noncomputable def exTwo : FSt Unit 2 2 2 1 :=
  ⟨1, fun _ _ _ => 1, fun k _ => ![![19 / 24, 1 / 24], ![1 / 24, 19 / 24]] k, fun _ k c => if k = c then 5 else 1⟩

theorem exTwo_source : fastUpdateActivation id EigPhase.exX (fastUpdateBasis id EigPhase.exX exTwo) = exTwo := by
  have hn : ∀ k s, ‖separate EigPhase.exX 1 () k s‖ = (![![2, 1], ![1, 2]] : Fin 2 → Fin 2 → ℝ) k s := fun k s =>
    congrFun (congrFun (exX_norm ()) k) s
  have hT : fastUpdateBasis id EigPhase.exX exTwo = exTwo := by
    have : (fun k f b => id (fastBasisRaw EigPhase.exX exTwo k f b)) = exTwo.T := by
      funext k f b
      simp only [fastBasisRaw, lambD, recon, exTwo, id, hn, Fin.sum_univ_two, Finset.univ_unique, Finset.sum_singleton]
      fin_cases k <;> norm_num
    rw [fastUpdateBasis, this]
  have hV : fastUpdateActivation id EigPhase.exX exTwo = exTwo := by
    have : (fun k b j => id (fastActivationRaw EigPhase.exX exTwo k b j)) = exTwo.V := by
      funext k b j
      simp only [fastActivationRaw, lambD, recon, exTwo, id, hn, Fin.sum_univ_two, Finset.univ_unique,
        Finset.sum_singleton, PUnit.default_eq_unit]
      fin_cases k <;> fin_cases j <;> norm_num
    rw [fastUpdateActivation, this]
  rw [hT, hV]

theorem exTwo_inv : FInv exTwo := by
  refine ⟨fun f => by simp [exTwo], fun _ _ _ => one_pos, fun k _ j => ?_, fun f k c => ?_⟩
  · fin_cases k <;> fin_cases j <;> norm_num [exTwo]
  · by_cases h : k = c <;> simp [exTwo, h]

theorem exTwo_rows (f : Unit) : LinearIndependent ℂ (EigPhase.exX f).row :=
  linearIndependent_rows_of_isUnit ((isUnit_iff_isUnit_det _).mpr (by
    rw [isUnit_iff_ne_zero]; norm_num [EigPhase.exX, det_fin_two]))

example (np np' : Numpy ℂ) (draw : Draw Unit 2 2 1) (drawD : Unit → Fin 2 → Fin 2 → ℝ) :
    ∃ Q' D', callF np' (.ip2 [(0, 1)]) false id 0 draw drawD EigPhase.exX 1 true
        { diagonalizer := some exTwo.Q, basis := some exTwo.T, activation := some exTwo.V, spatial := some exTwo.D } .fresh
      = (callF np (.ip2 [(0, 1)]) true id 0 draw drawD EigPhase.exX 1 true
        { diagonalizer := some exTwo.Q, basis := some exTwo.T, activation := some exTwo.V, spatial := some exTwo.D }
          .fresh).map fun o => { o with diagonalizer := .val Q', spatial := .val D' } := by
  refine C112_normalization_independent np np' (by simp [FilterAlg.Valid]) true false 0 draw drawD exTwo_rows
    (fun j => ⟨(), 0, ?_⟩) 1 true _ .fresh fun s e => ?_
  · fin_cases j <;> simp [EigPhase.exX]
  · obtain ⟨Y, hY, -⟩ := C43_fast_mnmf_unfloored np 0 EigPhase.exX exTwo exTwo_inv
    have e' : resetF np id 0 draw drawD EigPhase.exX
        { diagonalizer := some exTwo.Q, basis := some exTwo.T,
          activation := some exTwo.V, spatial := some exTwo.D } .fresh = .ok exTwo := by
      change (fastSeparate np id 0 EigPhase.exX exTwo >>= fun _ => .ok exTwo) = _
      rw [hY]
      rfl
    rw [e'] at e
    rw [← Except.ok.inj e]
    refine ⟨exTwo_inv, fun l hl => ?_, fun _ _ => trivial⟩
    cases hl
    simp only [exTwo_source]
    refine ⟨exX_regular _ (a := 1 / 4) (b := 1) (by norm_num) (by norm_num) (by norm_num) ?_, fun _ _ => trivial⟩
    funext k s
    simp only [lambD, recon, exTwo, Fin.sum_univ_two, Finset.univ_unique, Finset.sum_singleton]
    fin_cases k <;> fin_cases s <;> norm_num

end Verif.FastScale
