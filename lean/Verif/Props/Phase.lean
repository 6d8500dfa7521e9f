import Verif.Model.Cacgmm
import Verif.Model.Fast
import Verif.Model.Grad
import Verif.Model.MnmfPart
import Verif.Model.Transform
import Verif.Props.Level

/-! # C83: a phase common to all channels does not matter

At every time-frequency point the values of all channels are multiplied by the same factor of absolute value one. This
is what another phase convention of the short-time Fourier transform does, or a delay by a whole number of hops applied
frame by frame. The separators compute the same filters, spectral parameters and losses, and their output at that point
is multiplied by the same factor. -/

set_option linter.unusedSectionVars false

namespace Verif

open Matrix Spatial Scale Lifecycle

variable {F : Type} [Fintype F] {n t K : ℕ} {u : F → Fin t → ℂ}

/-- All channels multiplied by `u f s` at bin `f` and frame `s`. -/
def turn (u : F → Fin t → ℂ) (X : F → Matrix (Fin n) (Fin t) ℂ) : F → Matrix (Fin n) (Fin t) ℂ :=
  fun f => Matrix.of fun c s => u f s * X f c s

theorem turn_apply (u : F → Fin t → ℂ) (X : F → Matrix (Fin n) (Fin t) ℂ) (f : F) (c : Fin n) (s : Fin t) :
    turn u X f c s = u f s * X f c s := rfl

theorem unit_mul_star {a : ℂ} (ha : ‖a‖ = 1) (x y : ℂ) : a * x * star (a * y) = x * star y := by
  have : a * star a = 1 := by
    have := Complex.mul_conj a
    rw [Complex.normSq_eq_norm_sq, ha] at this
    simpa using this
  rw [star_mul', show a * x * (star a * star y) = a * star a * (x * star y) by ring, this, one_mul]

theorem unit_norm {a : ℂ} (ha : ‖a‖ = 1) (x : ℂ) : ‖a * x‖ = ‖x‖ := by rw [norm_mul, ha, one_mul]

section

variable (hu : ∀ f s, ‖u f s‖ = 1)

include hu

theorem turn_norm {k : ℕ} (X : F → Matrix (Fin k) (Fin t) ℂ) (f : F) (c : Fin k) (s : Fin t) :
    ‖turn u X f c s‖ = ‖X f c s‖ := unit_norm (hu f s) _

theorem turn_mul_star {k l : ℕ} (X : F → Matrix (Fin k) (Fin t) ℂ) (Y : F → Matrix (Fin l) (Fin t) ℂ) (f : F)
    (c : Fin k) (b : Fin l) (s : Fin t) : turn u X f c s * star (turn u Y f b s) = X f c s * star (Y f b s) :=
  unit_mul_star (hu f s) _ _

omit hu in
theorem separate_turn (X : Spec F n t) (W : F → Mat n ℂ) : separate (turn u X) W = turn u (separate X W) := by
  funext f
  ext k s
  simp only [separate, turn, Matrix.mul_apply, Matrix.of_apply, Finset.mul_sum]
  exact Finset.sum_congr rfl fun c _ => by ring

theorem wcov_turn (phi : Fin n → Fin t → ℝ) (X : Spec F n t) (f : F) : Iva.wcov phi (turn u X) f = Iva.wcov phi X f := by
  funext k
  ext i j
  simp only [Iva.wcov, Matrix.of_apply, turn_mul_star hu]

theorem gram_turn (X Y : Spec F n t) (f : F) : turn u X f * (turn u Y f)ᴴ = X f * (Y f)ᴴ := by
  ext i j
  simp only [Matrix.mul_apply, Matrix.conjTranspose_apply, turn_mul_star hu]

theorem iss1Row_turn (floor : ℝ → ℝ) (phi : Fin n → Fin t → ℝ) (Y : Spec F n t) (f : F) (src : Fin n) :
    iss1Row floor phi (turn u Y f) src = turn u (fun f => iss1Row floor phi (Y f) src) f := by
  ext k s
  simp only [iss1Row, turn_mul_star hu, turn_norm hu, Matrix.of_apply]
  change u f s * Y f k s - _ = u f s * iss1Row floor phi (Y f) src k s
  simp only [iss1Row, turn_apply, Matrix.of_apply]
  ring

theorem iss1_turn (floor : ℝ → ℝ) (phi : F → Fin n → Fin t → ℝ) (Y : Spec F n t) :
    (fun f => iss1 floor (phi f) (turn u Y f)) = turn u fun f => iss1 floor (phi f) (Y f) := by
  funext f
  have key : ∀ (l : List (Fin n)) (Y : Spec F n t),
      l.foldl (iss1Row floor (phi f)) (turn u Y f)
        = turn u (fun f' => l.foldl (iss1Row floor (phi f)) (Y f')) f := by
    intro l
    induction l with
    | nil => intro Y; rfl
    | cons b l ih =>
      intro Y
      rw [List.foldl_cons, iss1Row_turn hu, ih]
      rfl
  exact key _ Y

omit hu in
theorem iss2Pair_turn {v : Fin t → ℂ} (hv : ∀ s, ‖v s‖ = 1) (np : Numpy ℂ) (floor : ℝ → ℝ) (phi : Fin n → Fin t → ℝ)
    (Y : Matrix (Fin n) (Fin t) ℂ) (p : Fin n × Fin n) :
    iss2Pair np floor phi (Matrix.of fun c s => v s * Y c s) p
      = Except.map (fun Y => Matrix.of fun c s => v s * Y c s) (iss2Pair np floor phi Y p) := by
  have e0 : ∀ i s, (![(Matrix.of fun c s => v s * Y c s) p.1, (Matrix.of fun c s => v s * Y c s) p.2] :
      Fin 2 → Fin t → ℂ) i s = v s * (![Y p.1, Y p.2] : Fin 2 → Fin t → ℂ) i s := by
    intro i s
    fin_cases i <;> rfl
  have e1 : ∀ k, pairCov (phi k)
      ![(Matrix.of fun c s => v s * Y c s) p.1, (Matrix.of fun c s => v s * Y c s) p.2]
        = pairCov (phi k) ![Y p.1, Y p.2] := by
    intro k
    ext i j
    simp only [pairCov, Matrix.of_apply, e0, unit_mul_star (hv _)]
  have e2 : ∀ k, (fun i => meanT fun s => (phi k s : ℂ) *
      ((![(Matrix.of fun c s => v s * Y c s) p.1, (Matrix.of fun c s => v s * Y c s) p.2] : Fin 2 → Fin t → ℂ) i s
        * star ((Matrix.of fun c s => v s * Y c s) k s)))
      = fun i => meanT fun s => (phi k s : ℂ) * ((![Y p.1, Y p.2] : Fin 2 → Fin t → ℂ) i s * star (Y k s)) := by
    intro k
    funext i
    simp only [e0, Matrix.of_apply, unit_mul_star (hv _)]
  rw [iss2Pair, iss2Pair]
  simp only [e1, e2]
  rw [map_bind]
  congr 1
  funext r
  simp only [Except.map, e0, Matrix.of_apply]
  congr 2
  funext k s
  split_ifs
  · rw [Finset.mul_sum]
    exact Finset.sum_congr rfl fun i _ => by ring
  · rw [Finset.mul_sum]
    exact Finset.sum_congr rfl fun i _ => by ring
  · rw [mul_add, Finset.mul_sum]
    congr 1
    exact Finset.sum_congr rfl fun i _ => by ring

theorem mdp_turn (r : Fin n) (Y X : Spec F n t) : mdp r (turn u Y) (turn u X) = turn u (mdp r Y X) := by
  funext f
  ext i s
  simp only [mdp, Matrix.of_apply, turn_mul_star hu, turn_norm hu]
  simp only [turn_apply, mdp, Matrix.of_apply]
  ring

end

/-! ## Scale restoration -/

section

variable (hu : ∀ f s, ‖u f s‖ = 1)

include hu

theorem gramInv_turn (X : Spec F n t) :
    npInvB (fun f => turn u X f * (turn u X f)ᴴ) = npInvB fun f => X f * (X f)ᴴ := by
  simp only [gram_turn hu]

/-- C83: the end of `__call__` with a filter. -/
theorem C83_finish (sr : ScaleOpt) (r : Fin n) (X : Spec F n t) (W : F → Mat n ℂ) :
    finish sr r (turn u X) W = Except.map (fun p => (turn u p.1, p.2)) (finish sr r X W) := by
  have hpb : applyProjectionBack r (turn u X) W
      = Except.map (fun p => (turn u p.1, p.2)) (applyProjectionBack r X W) := by
    rw [applyProjectionBack, applyProjectionBack, map_bind]
    simp only [separate_turn, Except.map]
  have hmdp : applyMdp r (turn u X) W = Except.map (fun p => (turn u p.1, p.2)) (applyMdp r X W) := by
    rw [applyMdp, applyMdp]
    simp only [separate_turn, mdp_turn hu, gram_turn hu]
    rw [map_bind]
    rfl
  rw [finish, finish]
  cases hsr : sr.truthy with
  | false =>
    simp only [Bool.false_eq_true, if_false, Bind.bind, Except.bind, Except.map, separate_turn]
  | true =>
    have hres : ∀ (e : Spec F n t × (F → Mat n ℂ) → Spec F n t × (F → Mat n ℂ)) (x y : Except PyErr _),
        restoreScale sr (Except.map e x) (Except.map e y) = Except.map e (restoreScale sr x y) := by
      intro e x y
      simp only [restoreScale, hsr, Bool.not_true, Bool.false_eq_true, if_false]
      split_ifs <;> rfl
    simp only [if_true, hpb, hmdp, hres]
    cases restoreScale sr (applyProjectionBack r X W) (applyMdp r X W) with
    | error => rfl
    | ok p => simp only [Except.map, Bind.bind, Except.bind, separate_turn]

/-- C83: the end of `__call__` without a filter. -/
theorem C83_finishFree (sr : ScaleOpt) (r : Fin n) (X Y : Spec F n t) :
    finishFree sr r (turn u X) (turn u Y) = Except.map (turn u) (finishFree sr r X Y) := by
  have hpb : projectionBackData r (turn u Y) (turn u X) = Except.map (turn u) (projectionBackData r Y X) := by
    rw [projectionBackData, projectionBackData, projectionBackScale, projectionBackScale]
    simp only [gram_turn hu]
    cases npInvB fun f => Y f * (Y f)ᴴ with
    | error => rfl
    | ok N =>
      simp only [Except.map, Bind.bind, Except.bind]
      congr 1
      funext f
      ext i s
      simp only [turn_apply, Matrix.of_apply]
      ring
  rw [finishFree, finishFree]
  cases hsr : sr.truthy with
  | false => simp only [Bool.false_eq_true, if_false, Except.map]
  | true =>
    simp only [if_true, hpb, mdp_turn hu]
    simp only [restoreScale, hsr, Bool.not_true, Bool.false_eq_true, if_false]
    split_ifs <;> rfl

/-! ## IVA -/

namespace Iva

theorem binNorm_turn (Y : Spec F n t) : binNorm (turn u Y) = binNorm Y := by
  funext k s
  simp only [binNorm, turn_norm hu]

theorem weight_turn (floor : ℝ → ℝ) (d : Fin n → Fin t → ℝ → ℝ) (Y : Spec F n t) :
    weight floor d (turn u Y) = weight floor d Y := by
  funext k s
  simp only [weight, binNorm_turn hu]

theorem gaussVariance_turn (Y : Spec F n t) : gaussVariance (turn u Y) = gaussVariance Y := by
  funext k s
  simp only [gaussVariance, turn_norm hu]

theorem wcovs_turn (phi : Fin n → Fin t → ℝ) (X : Spec F n t) : wcov phi (turn u X) = wcov phi X :=
  funext fun f => wcov_turn hu phi X f

theorem auxIp1_turn (floor : ℝ → ℝ) (d : Fin n → Fin t → ℝ → ℝ) (X : Spec F n t) :
    auxIp1 floor d (turn u X) = auxIp1 floor d X := by
  funext W
  rw [auxIp1, auxIp1, separate_turn, weight_turn hu, wcovs_turn hu]

theorem auxIp2_turn (np : Numpy ℂ) (floor : ℝ → ℝ) (pairs : List (Fin n × Fin n)) (d : Fin n → Fin t → ℝ → ℝ)
    (X : Spec F n t) : auxIp2 np floor pairs d (turn u X) = auxIp2 np floor pairs d X := by
  have e : auxIp2Pair np floor d (turn u X) = auxIp2Pair np floor d X := by
    funext W p
    simp only [auxIp2Pair, separate_turn, weight_turn hu, wcovs_turn hu]
  funext W
  simp only [auxIp2, e]

/-- C83 for AuxIVA with IP1: the same filters. -/
theorem C83_ip1 (floor : ℝ → ℝ) (d : Fin n → Fin t → ℝ → ℝ) (X : Spec F n t) (W : F → Mat n ℂ) (n_iter : ℕ) :
    iterM (auxIp1 floor d (turn u X)) n_iter W = iterM (auxIp1 floor d X) n_iter W := by rw [auxIp1_turn hu]

/-- C83 for AuxIVA with IP2. -/
theorem C83_ip2 (np : Numpy ℂ) (floor : ℝ → ℝ) (pairs : List (Fin n × Fin n)) (d : Fin n → Fin t → ℝ → ℝ)
    (X : Spec F n t) (W : F → Mat n ℂ) (n_iter : ℕ) :
    iterM (auxIp2 np floor pairs d (turn u X)) n_iter W = iterM (auxIp2 np floor pairs d X) n_iter W := by
  rw [auxIp2_turn hu]

/-- C83 for AuxIVA with ISS1: the separated signals carry the same factors. -/
theorem C83_iss1 (floor : ℝ → ℝ) (d : Fin n → Fin t → ℝ → ℝ) (Y : Spec F n t) (n_iter : ℕ) :
    (auxIss1 floor d)^[n_iter] (turn u Y) = turn u ((auxIss1 floor d)^[n_iter] Y) := by
  induction n_iter with
  | zero => rfl
  | succ N ih =>
    rw [Function.iterate_succ_apply', Function.iterate_succ_apply', ih, auxIss1, auxIss1, weight_turn hu]
    exact iss1_turn hu floor (fun _ => weight floor d ((auxIss1 floor d)^[N] Y)) _

theorem iss2_turn (np : Numpy ℂ) (floor : ℝ → ℝ) (pairs : List (Fin n × Fin n))
    (phi : F → Fin n → Fin t → ℝ) (Y : Spec F n t) :
    pairs.foldlM (fun Y p => onBins fun f => iss2Pair np floor (phi f) (Y f) p) (turn u Y)
      = Except.map (turn u) (pairs.foldlM (fun Y p => onBins fun f => iss2Pair np floor (phi f) (Y f) p) Y) := by
  refine foldlM_map _ _ (turn u) (fun Y p => ?_) pairs Y
  rw [show turn u = fun (Y : Spec F n t) f => Matrix.of fun c s => u f s * Y f c s from rfl,
    ← onBins_map (e := fun f (y : Matrix (Fin n) (Fin t) ℂ) => Matrix.of fun c s => u f s * y c s)]
  congr 1
  funext f
  exact iss2Pair_turn (hu f) np floor (phi f) (Y f) p

/-- C83 for AuxIVA with ISS2. -/
theorem C83_iss2 (np : Numpy ℂ) (floor : ℝ → ℝ) (pairs : List (Fin n × Fin n)) (d : Fin n → Fin t → ℝ → ℝ)
    (Y : Spec F n t) (n_iter : ℕ) :
    iterM (auxIss2 np floor pairs d) n_iter (turn u Y)
      = Except.map (turn u) (iterM (auxIss2 np floor pairs d) n_iter Y) := by
  refine iterM_map _ _ (turn u) (fun Y => ?_) n_iter Y
  rw [auxIss2, auxIss2, weight_turn hu]
  exact iss2_turn hu np floor pairs (fun _ => weight floor d Y) Y

/-- C83 for AuxGaussIVA with IP1: same filters and variances. -/
theorem C83_gauss_ip1 (floor : ℝ → ℝ) (X : Spec F n t) (s : GaussState F n t) (n_iter : ℕ) :
    iterM (gaussIp1 floor (turn u X)) n_iter s = iterM (gaussIp1 floor X) n_iter s := by
  have e : gaussIp1 floor (turn u X) = gaussIp1 floor X := by
    funext s
    simp only [gaussIp1, separate_turn, gaussVariance_turn hu, auxIp1_turn hu]
  rw [e]

/-- C83 for AuxGaussIVA with IP2. -/
theorem C83_gauss_ip2 (np : Numpy ℂ) (floor : ℝ → ℝ) (pairs : List (Fin n × Fin n)) (X : Spec F n t)
    (s : GaussState F n t) (n_iter : ℕ) :
    iterM (gaussIp2 np floor pairs (turn u X)) n_iter s = iterM (gaussIp2 np floor pairs X) n_iter s := by
  have e : gaussIp2 np floor pairs (turn u X) = gaussIp2 np floor pairs X := by
    funext s
    simp only [gaussIp2, separate_turn, gaussVariance_turn hu, auxIp2_turn hu]
  rw [e]

def GaussSignal.turn (u : F → Fin t → ℂ) (s : GaussSignal F n t) : GaussSignal F n t := ⟨Verif.turn u s.Y, s.variance⟩

/-- C83 for AuxGaussIVA with ISS1. -/
theorem C83_gauss_iss1 (floor : ℝ → ℝ) (s : GaussSignal F n t) (n_iter : ℕ) :
    iterM (gaussIss1 floor) n_iter (s.turn u) = Except.map (GaussSignal.turn u) (iterM (gaussIss1 floor) n_iter s) := by
  refine iterM_map _ _ (GaussSignal.turn u) (fun s => ?_) n_iter s
  rw [gaussIss1, gaussIss1, show (s.turn u).Y = turn u s.Y from rfl, gaussVariance_turn hu]
  have := C83_iss1 hu floor (gaussD (gaussVariance s.Y)) s.Y 1
  simp only [Function.iterate_one] at this
  rw [this]
  rfl

/-- C83 for AuxGaussIVA with ISS2. -/
theorem C83_gauss_iss2 (np : Numpy ℂ) (floor : ℝ → ℝ) (pairs : List (Fin n × Fin n)) (s : GaussSignal F n t)
    (n_iter : ℕ) : iterM (gaussIss2 np floor pairs) n_iter (s.turn u)
      = Except.map (GaussSignal.turn u) (iterM (gaussIss2 np floor pairs) n_iter s) := by
  refine iterM_map _ _ (GaussSignal.turn u) (fun s => ?_) n_iter s
  rw [gaussIss2, gaussIss2, show (s.turn u).Y = turn u s.Y from rfl, gaussVariance_turn hu]
  have : auxIss2 np floor pairs (gaussD (gaussVariance s.Y)) (turn u s.Y)
      = Except.map (turn u) (auxIss2 np floor pairs (gaussD (gaussVariance s.Y)) s.Y) := by
    rw [auxIss2, auxIss2, weight_turn hu]
    exact iss2_turn hu np floor pairs (fun _ => weight floor (gaussD (gaussVariance s.Y)) s.Y) s.Y
  rw [this, bind_map, map_bind]
  rfl

/-- C83: the recorded losses are the same. -/
theorem C83_loss (G : Fin n → Fin t → ℝ → ℝ) (X Y : Spec F n t) (W : F → Mat n ℂ) :
    lossIp G (turn u X) W = lossIp G X W ∧ lossFree G (turn u X) (turn u Y) = lossFree G X Y := by
  constructor
  · rw [lossIp, lossIp, separate_turn, ivaLoss, ivaLoss, binNorm_turn hu]
  · rw [lossFree, lossFree]
    simp only [gram_turn hu, ivaLoss, binNorm_turn hu]

/-- C83, whole call of AuxIVA with IP1: same filter, and the output carries the same factors. -/
theorem C83_call (floor : ℝ → ℝ) (d : Fin n → Fin t → ℝ → ℝ) (sr : ScaleOpt) (r : Fin n) (X : Spec F n t)
    (W : F → Mat n ℂ) (n_iter : ℕ) :
    (iterM (auxIp1 floor d (turn u X)) n_iter W >>= finish sr r (turn u X))
      = Except.map (fun p => (turn u p.1, p.2)) (iterM (auxIp1 floor d X) n_iter W >>= finish sr r X) := by
  rw [auxIp1_turn hu, map_bind]
  congr 1
  funext W
  exact C83_finish hu sr r X W

end Iva

/-! ## FDICA -/

namespace Fdica

theorem weight_turn (floor d : ℝ → ℝ) (Y : Spec F n t) (f : F) :
    weight floor d (turn u Y f) = weight floor d (Y f) := by
  funext k s
  simp only [weight, turn_norm hu]

/-- C83 for AuxFDICA with IP1. -/
theorem C83_ip1 (floor d : ℝ → ℝ) (X : Spec F n t) (W : F → Mat n ℂ) (n_iter : ℕ) :
    iterM (auxIp1 floor d (turn u X)) n_iter W = iterM (auxIp1 floor d X) n_iter W := by
  have e : auxIp1 floor d (turn u X) = auxIp1 floor d X := by
    funext W
    simp only [auxIp1, separate_turn, weight_turn hu, wcov_turn hu]
  rw [e]

/-- C83 for AuxFDICA with IP2. -/
theorem C83_ip2 (np : Numpy ℂ) (floor d : ℝ → ℝ) (pairs : List (Fin n × Fin n)) (X : Spec F n t)
    (W : F → Mat n ℂ) (n_iter : ℕ) :
    iterM (auxIp2 np floor d pairs (turn u X)) n_iter W = iterM (auxIp2 np floor d pairs X) n_iter W := by
  have e : auxIp2Pair np floor d (turn u X) = auxIp2Pair np floor d X := by
    funext W p
    simp only [auxIp2Pair, separate_turn, weight_turn hu, wcov_turn hu]
  have e' : auxIp2 np floor d pairs (turn u X) = auxIp2 np floor d pairs X := by
    funext W
    simp only [auxIp2, e]
  rw [e']

end Fdica

/-! ## Gradient methods -/

namespace Grad

theorem phiY_turn (score : Data ℂ F n t → Data ℂ F n t) (hs : ∀ Y, score (turn u Y) = turn u (score Y))
    (Y : Data ℂ F n t) (f : F) : phiY score (turn u Y) f = phiY score Y f := by
  ext i j
  simp only [phiY, Matrix.of_apply, hs, turn_mul_star hu]

omit hu in
theorem sep_turn (X : Data ℂ F n t) (W : F → Mat n ℂ) : sep (turn u X) W = turn u (sep X W) := separate_turn X W

/-- C83 for the gradient and the natural gradient, for every score function that keeps the phase of its input. -/
theorem C83_gradient (step_size : ℝ) (holonomic : Bool) (score : Data ℂ F n t → Data ℂ F n t)
    (hs : ∀ Y, score (turn u Y) = turn u (score Y)) (X : Data ℂ F n t) (W : F → Mat n ℂ) (n_iter : ℕ) :
    naturalRun step_size holonomic score (turn u X) n_iter W = naturalRun step_size holonomic score X n_iter W ∧
    iterM (gradStep step_size holonomic score (turn u X)) n_iter W
      = iterM (gradStep step_size holonomic score X) n_iter W := by
  constructor
  · have e : naturalStep step_size holonomic score (turn u X) = naturalStep step_size holonomic score X := by
      funext W f
      simp only [naturalStep, sep_turn, phiY_turn hu score hs]
    rw [naturalRun, naturalRun, e]
  · have e : gradStep step_size holonomic score (turn u X) = gradStep step_size holonomic score X := by
      funext W
      simp only [gradStep, sep_turn, phiY_turn hu score hs]
    rw [e]

/-- C83 for (Natural)GradLaplaceIVA and (Natural)GradLaplaceFDICA: their score functions do. -/
theorem C83_laplace (floor : ℝ → ℝ) (step_size : ℝ) (holonomic : Bool) (X : Data ℂ F n t) (W : F → Mat n ℂ)
    (n_iter : ℕ) :
    naturalRun step_size holonomic (ivaLaplaceScore floor) (turn u X) n_iter W
      = naturalRun step_size holonomic (ivaLaplaceScore floor) X n_iter W ∧
    naturalRun step_size holonomic (fdicaLaplaceScore floor) (turn u X) n_iter W
      = naturalRun step_size holonomic (fdicaLaplaceScore floor) X n_iter W ∧
    iterM (gradStep step_size holonomic (ivaLaplaceScore floor) (turn u X)) n_iter W
      = iterM (gradStep step_size holonomic (ivaLaplaceScore floor) X) n_iter W ∧
    iterM (gradStep step_size holonomic (fdicaLaplaceScore floor) (turn u X)) n_iter W
      = iterM (gradStep step_size holonomic (fdicaLaplaceScore floor) X) n_iter W := by
  have h1 : ∀ Y : Data ℂ F n t, ivaLaplaceScore floor (turn u Y) = turn u (ivaLaplaceScore floor Y) := by
    intro Y
    funext f
    ext k s
    simp only [ivaLaplaceScore, Iva.binNorm_turn hu, turn_apply, Matrix.of_apply]
    ring
  have h2 : ∀ Y : Data ℂ F n t, fdicaLaplaceScore floor (turn u Y) = turn u (fdicaLaplaceScore floor Y) := by
    intro Y
    funext f
    ext k s
    simp only [fdicaLaplaceScore, turn_norm hu, turn_apply, Matrix.of_apply, unit_norm (hu f s)]
    ring
  exact ⟨(C83_gradient hu step_size holonomic _ h1 X W n_iter).1, (C83_gradient hu step_size holonomic _ h2 X W n_iter).1,
    (C83_gradient hu step_size holonomic _ h1 X W n_iter).2, (C83_gradient hu step_size holonomic _ h2 X W n_iter).2⟩

end Grad

end

end Verif
