import Verif.Props.StationaryIpa

/-! # C36, C61, C68: `AuxGaussIVA` with IP2, ISS1, ISS2 and IPA -/

namespace Verif.Iva

open Matrix Spatial Scale
open scoped Topology

variable {F : Type} [Fintype F] {n t : ℕ}

theorem gaussVariance_pos [Nonempty F] {Y : Spec F n t} (h : ∀ k j, 0 < binNorm Y k j) (k : Fin n) (j : Fin t) :
    0 < gaussVariance Y k j := by
  have := pow_pos (h k j) 2
  rw [binNorm_sq] at this
  exact div_pos this (by exact_mod_cast Fintype.card_pos)

/-- The state of `AuxGaussIVA` that has the separated signals but not the filters. -/
def GaussState.toSignal (X : Spec F n t) (s : GaussState F n t) : GaussSignal F n t := ⟨separate X s.W, s.variance⟩

/-- The loss computed from the signals alone is the loss of the filters that produced them. -/
theorem gaussLossFree_eq (X : Spec F n t) (hX : ∀ f, LinearIndependent ℂ (X f).row) (s : GaussState F n t) :
    gaussLossFree X (s.toSignal X) = .ok (gaussLoss X s) := lossFree_eq _ X hX s.W

theorem gaussIp2_ok {np : Numpy ℂ} {floor : ℝ → ℝ} {pairs : List (Fin n × Fin n)} {X : Spec F n t} {s : GaussState F n t}
    {W' : F → Mat n ℂ} (h : auxIp2 np floor pairs (gaussD (gaussVariance (separate X s.W))) X s.W = .ok W') :
    gaussIp2 np floor pairs X s = .ok ⟨W', gaussVariance (separate X s.W)⟩ := by
  simp only [gaussIp2, h, bind, Except.bind]

theorem gaussIss1_ok {floor : ℝ → ℝ} {s : GaussSignal F n t} {Y' : Spec F n t}
    (h : auxIss1 floor (gaussD (gaussVariance s.Y)) s.Y = Y') :
    gaussIss1 floor s = .ok ⟨Y', gaussVariance s.Y⟩ := by
  simp only [gaussIss1, h]

theorem gaussIss2_ok {np : Numpy ℂ} {floor : ℝ → ℝ} {pairs : List (Fin n × Fin n)} {s : GaussSignal F n t}
    {Y' : Spec F n t} (h : auxIss2 np floor pairs (gaussD (gaussVariance s.Y)) s.Y = .ok Y') :
    gaussIss2 np floor pairs s = .ok ⟨Y', gaussVariance s.Y⟩ := by
  simp only [gaussIss2, h, bind, Except.bind]

theorem gaussIpa_ok {np : Numpy ℂ} {floor : ℝ → ℝ} {normalization : Bool} {newton_iter : ℕ}
    {s : GaussSignal F (n + 2) t} {Y' : Spec F (n + 2) t}
    (h : auxIpa np floor normalization newton_iter (gaussD (gaussVariance s.Y)) s.Y = .ok Y') :
    gaussIpa np floor normalization newton_iter s = .ok ⟨Y', gaussVariance s.Y⟩ := by
  simp only [gaussIpa, h, bind, Except.bind]

/-- Invertible filters and positive variances. -/
def GaussInv (s : GaussState F n t) : Prop := (∀ f, IsUnit (s.W f).det) ∧ ∀ k j, 0 < s.variance k j

/-- One update: the variance, then filters that do not increase the loss for the new variance. -/
theorem gauss_step [Nonempty F] {X : Spec F n t} {s : GaussState F n t} (hs : GaussInv s)
    (h0 : ∀ k j, 0 < binNorm (separate X s.W) k j) {W' : F → Mat n ℂ} (hW' : ∀ f, IsUnit (W' f).det)
    (hle : lossIp (gaussG F (gaussVariance (separate X s.W))) X W' ≤
      lossIp (gaussG F (gaussVariance (separate X s.W))) X s.W) :
    GaussInv (⟨W', gaussVariance (separate X s.W)⟩ : GaussState F n t) ∧
      gaussLoss X ⟨W', gaussVariance (separate X s.W)⟩ ≤ gaussLoss X s :=
  ⟨⟨hW', gaussVariance_pos h0⟩, hle.trans (gaussVariance_min X s.W s.variance hs.2 h0)⟩

/-- A run of `AuxGaussIVA` without filters. -/
theorem gauss_signal_run [Nonempty F] (X : Spec F n t) (hX : ∀ f, LinearIndependent ℂ (X f).row)
    (step : GaussSignal F n t → Except PyErr (GaussSignal F n t)) (Reg : GaussSignal F n t → Prop)
    (hstep : ∀ s : GaussState F n t, GaussInv s → Reg (s.toSignal X) →
      ∃ s' : GaussState F n t, step (s.toSignal X) = .ok (s'.toSignal X) ∧ GaussInv s' ∧ gaussLoss X s' ≤ gaussLoss X s)
    (s : GaussState F n t) (hs : GaussInv s) (n_iter : ℕ) (hreg : RegularRun step Reg n_iter (s.toSignal X)) :
    ∃ ls, lossList step (gaussLossFree X) n_iter (s.toSignal X) = .ok ls ∧
      ls.length = n_iter + 1 ∧ ls.Pairwise (· ≥ ·) := by
  obtain ⟨val, hval⟩ : ∃ val : GaussSignal F n t → ℝ, val = fun s => match gaussLossFree X s with
    | .ok v => v
    | .error _ => 0 := ⟨_, rfl⟩
  have hv : ∀ s, val (GaussState.toSignal X s) = gaussLoss X s := fun s => by
    simp only [hval, gaussLossFree_eq X hX s]
  obtain ⟨ls, h1, h2, h3, -⟩ := lossList_antitone step (gaussLossFree X)
    (fun y => ∃ s : GaussState F n t, y = s.toSignal X ∧ GaussInv s) Reg val
    (by
      rintro y ⟨s, rfl, -⟩
      rw [hv, gaussLossFree_eq X hX])
    (by
      rintro y ⟨s, rfl, hs⟩ hr
      obtain ⟨s', h1, h2, h3⟩ := hstep s hs hr
      exact ⟨_, h1, ⟨s', rfl, h2⟩, by rw [hv, hv]; exact h3⟩) n_iter _ ⟨s, rfl, hs⟩ hreg
  exact ⟨ls, h1, h2, h3⟩

/-! ## IP2 -/

/-- Regularity of one `AuxGaussIVA` update with IP2: before every pair no source is silent over all bins in any frame and
flooring does not act. -/
def RegGaussIp2 (np : Numpy ℂ) (floor : ℝ → ℝ) (pairs : List (Fin n × Fin n)) (X : Spec F n t) (s : GaussState F n t) :
    Prop :=
  (∀ k j, 0 < binNorm (separate X s.W) k j) ∧
    RegularFold (auxIp2Pair np floor (gaussD (gaussVariance (separate X s.W))) X)
      (RegIp2 np floor (gaussD (gaussVariance (separate X s.W))) X) pairs s.W

/-- C36: `AuxGaussIVA`, IP2 with any pair selector. -/
theorem C36_gauss_ip2 [Nonempty F] (np : Numpy ℂ) (floor : ℝ → ℝ) (pairs : List (Fin n × Fin n))
    (hpairs : ∀ p ∈ pairs, p.1 ≠ p.2) (X : Spec F n t) (hX : ∀ f, LinearIndependent ℂ (X f).row)
    (s : GaussState F n t) (hW : ∀ f, IsUnit (s.W f).det) (hv : ∀ k j, 0 < s.variance k j) (n_iter : ℕ)
    (hreg : RegularRun (gaussIp2 np floor pairs X) (RegGaussIp2 np floor pairs X) n_iter s) :
    ∃ ls, lossList (gaussIp2 np floor pairs X) (fun s => .ok (gaussLoss X s)) n_iter s = .ok ls ∧
      ls.length = n_iter + 1 ∧ ls.Pairwise (· ≥ ·) := by
  obtain ⟨ls, h1, h2, h3, -⟩ := lossList_antitone (gaussIp2 np floor pairs X) (fun s => .ok (gaussLoss X s))
    GaussInv (RegGaussIp2 np floor pairs X) (gaussLoss X) (fun _ _ => rfl) (fun s hs hr => by
      obtain ⟨v, hvd⟩ : ∃ v, v = gaussVariance (separate X s.W) := ⟨_, rfl⟩
      obtain ⟨h0, h1⟩ := hr
      have hG := gauss_majorised (F := F) v (hvd ▸ gaussVariance_pos h0)
      rw [← hvd] at h1
      obtain ⟨W', h2, h3, h4⟩ := foldlM_regular (auxIp2Pair np floor (gaussD v) X) (fun W => ∀ f, IsUnit (W f).det)
        (RegIp2 np floor (gaussD v) X) (lossIp (gaussG F v) X) pairs
        (fun W p hp hW hr => auxIp2Pair_step np hG floor X hX W hW hr.1 p (hpairs p hp) hr.2) s.W hs.1 h1
      obtain ⟨h5, h6⟩ := gauss_step hs h0 h3 (hvd ▸ h4)
      exact ⟨_, gaussIp2_ok (hvd ▸ h2), h5, h6⟩) n_iter s ⟨hW, hv⟩ hreg
  exact ⟨ls, h1, h2, h3⟩

/-! ## ISS -/

/-- Regularity of one `AuxGaussIVA` update with ISS1. -/
def RegGaussIss1 (floor : ℝ → ℝ) (s : GaussSignal F n t) : Prop := RegIss1 floor (gaussD (gaussVariance s.Y)) s.Y

def RegGaussIss2 (np : Numpy ℂ) (floor : ℝ → ℝ) (pairs : List (Fin n × Fin n)) (s : GaussSignal F n t) : Prop :=
  RegIss2 np floor pairs (gaussD (gaussVariance s.Y)) s.Y

/-- C36: `AuxGaussIVA`, ISS1; the loss is computed from the signals alone. -/
theorem C36_gauss_iss1 [Nonempty F] (floor : ℝ → ℝ) (X : Spec F n t) (hX : ∀ f, LinearIndependent ℂ (X f).row)
    (W : F → Mat n ℂ) (hW : ∀ f, IsUnit (W f).det) (variance : Fin n → Fin t → ℝ) (hv : ∀ k j, 0 < variance k j)
    (n_iter : ℕ) (hreg : RegularRun (gaussIss1 floor) (RegGaussIss1 floor) n_iter ⟨separate X W, variance⟩) :
    ∃ ls, lossList (gaussIss1 floor) (gaussLossFree X) n_iter ⟨separate X W, variance⟩ = .ok ls ∧
      ls.length = n_iter + 1 ∧ ls.Pairwise (· ≥ ·) := by
  refine gauss_signal_run X hX _ _ (fun s hs hr => ?_) ⟨W, variance⟩ ⟨hW, hv⟩ n_iter hreg
  obtain ⟨W', h1, h2, h3⟩ := auxIss1_step (gauss_majorised (F := F) _ (gaussVariance_pos hr.1)) floor X hX s.W hs.1 hr
  obtain ⟨h4, h5⟩ := gauss_step hs hr.1 h2 h3
  exact ⟨⟨W', gaussVariance (separate X s.W)⟩, gaussIss1_ok (s := s.toSignal X) (Except.ok.inj h1), h4, h5⟩

/-- C36: `AuxGaussIVA`, ISS2 with any schedule of pairs. -/
theorem C36_gauss_iss2 [Nonempty F] (np : Numpy ℂ) (floor : ℝ → ℝ) (pairs : List (Fin n × Fin n))
    (hpairs : ∀ p ∈ pairs, p.1 ≠ p.2) (X : Spec F n t) (hX : ∀ f, LinearIndependent ℂ (X f).row)
    (W : F → Mat n ℂ) (hW : ∀ f, IsUnit (W f).det) (variance : Fin n → Fin t → ℝ) (hv : ∀ k j, 0 < variance k j)
    (n_iter : ℕ)
    (hreg : RegularRun (gaussIss2 np floor pairs) (RegGaussIss2 np floor pairs) n_iter ⟨separate X W, variance⟩) :
    ∃ ls, lossList (gaussIss2 np floor pairs) (gaussLossFree X) n_iter ⟨separate X W, variance⟩ = .ok ls ∧
      ls.length = n_iter + 1 ∧ ls.Pairwise (· ≥ ·) := by
  refine gauss_signal_run X hX _ _ (fun s hs hr => ?_) ⟨W, variance⟩ ⟨hW, hv⟩ n_iter hreg
  obtain ⟨W', h1, h2, h3⟩ := auxIss2_step np (gauss_majorised (F := F) _ (gaussVariance_pos hr.1)) floor pairs hpairs X hX
    s.W hs.1 hr
  obtain ⟨h4, h5⟩ := gauss_step hs hr.1 h2 h3
  exact ⟨⟨W', gaussVariance (separate X s.W)⟩, gaussIss2_ok (s := s.toSignal X) h1, h4, h5⟩

/-! ## IPA -/

/-- Regularity of one `AuxGaussIVA` update with IPA. -/
def SafeGaussIpa (np : Numpy ℂ) (floor : ℝ → ℝ) (newton_iter : ℕ) (s : GaussSignal F (n + 2) t) : Prop :=
  SafeIpa np floor newton_iter (gaussD (gaussVariance s.Y)) s.Y

/-- The same for two sources. -/
def RegGaussIpa (np : Numpy ℂ) (floor : ℝ → ℝ) (newton_iter : ℕ) (s : GaussSignal F 2 t) : Prop :=
  RegIpa np floor newton_iter (gaussD (gaussVariance s.Y)) s.Y

/-- C68: `AuxGaussIVA` with IPA, any number of sources. -/
theorem C68_gauss_run [Nonempty F] (np : Numpy ℂ) (floor : ℝ → ℝ) {newton_iter : ℕ} (hm : 0 < newton_iter)
    (X : Spec F (n + 2) t) (hX : ∀ f, LinearIndependent ℂ (X f).row) (W : F → Mat (n + 2) ℂ)
    (hW : ∀ f, IsUnit (W f).det) (variance : Fin (n + 2) → Fin t → ℝ) (hv : ∀ k j, 0 < variance k j) (n_iter : ℕ)
    (hreg : RegularRun (gaussIpa np floor true newton_iter) (SafeGaussIpa np floor newton_iter) n_iter
      ⟨separate X W, variance⟩) :
    ∃ ls, lossList (gaussIpa np floor true newton_iter) (gaussLossFree X) n_iter ⟨separate X W, variance⟩ = .ok ls ∧
      ls.length = n_iter + 1 ∧ ls.Pairwise (· ≥ ·) := by
  refine gauss_signal_run X hX _ _ (fun s hs hr => ?_) ⟨W, variance⟩ ⟨hW, hv⟩ n_iter hreg
  obtain ⟨W', h1, h2, h3⟩ := step_of_sweep (gauss_majorised (F := F) _ (gaussVariance_pos hr.1)) floor _ X hX s.W hs.1
    ⟨hr.1, hr.2.1, fun hpos => C68_sweep np floor hm (phi := fun _ => weight floor _ _) (fun _ => hpos)
      (fun f => row_independent (hs.1 f) (hX f)) hr.2.2⟩
  obtain ⟨h4, h5⟩ := gauss_step hs hr.1 h2 h3
  exact ⟨⟨W', gaussVariance (separate X s.W)⟩, gaussIpa_ok (s := s.toSignal X) h1, h4, h5⟩

/-- C68: `AuxGaussIVA` with IPA and two sources. -/
theorem C68_gauss_two_sources_run [Nonempty F] (np : Numpy ℂ) (floor : ℝ → ℝ) {newton_iter : ℕ} (hm : 0 < newton_iter)
    (X : Spec F 2 t) (hX : ∀ f, LinearIndependent ℂ (X f).row) (W : F → Mat 2 ℂ)
    (hW : ∀ f, IsUnit (W f).det) (variance : Fin 2 → Fin t → ℝ) (hv : ∀ k j, 0 < variance k j) (n_iter : ℕ)
    (hreg : RegularRun (gaussIpa (n := 0) np floor true newton_iter) (RegGaussIpa np floor newton_iter) n_iter
      ⟨separate X W, variance⟩) :
    ∃ ls, lossList (gaussIpa (n := 0) np floor true newton_iter) (gaussLossFree X) n_iter ⟨separate X W, variance⟩
        = .ok ls ∧ ls.length = n_iter + 1 ∧ ls.Pairwise (· ≥ ·) := by
  refine gauss_signal_run X hX _ _ (fun s hs hr => ?_) ⟨W, variance⟩ ⟨hW, hv⟩ n_iter hreg
  obtain ⟨W', h1, h2, h3⟩ := step_of_sweep (gauss_majorised (F := F) _ (gaussVariance_pos hr.1)) floor _ X hX s.W hs.1
    ⟨hr.1, hr.2.1, fun hpos => C68_two_sources_sweep np floor hm (phi := fun _ => weight floor _ _) (fun _ => hpos)
      (fun f => row_independent (hs.1 f) (hX f)) hr.2.2⟩
  obtain ⟨h4, h5⟩ := gauss_step hs hr.1 h2 h3
  exact ⟨⟨W', gaussVariance (separate X s.W)⟩, gaussIpa_ok (s := s.toSignal X) h1, h4, h5⟩

/-- C68: `AuxGaussIVA` with IPA, two sources, any `newton_iter`, and `flooring_fn` the maximum with a small constant: only
linearly independent mixtures, invertible initial filters and sound in every frame before every update are needed. -/
theorem C68_gauss_two_sources [Nonempty F] (np : Numpy ℂ) {newton_iter : ℕ} (hm : 0 < newton_iter)
    (X : Spec F 2 t) (hX : ∀ f, LinearIndependent ℂ (X f).row) (W : F → Mat 2 ℂ)
    (hW : ∀ f, IsUnit (W f).det) (variance : Fin 2 → Fin t → ℝ) (hv : ∀ k j, 0 < variance k j) (n_iter : ℕ)
    {eps₁ : ℝ} (heps₁ : 0 < eps₁)
    (hsound : ∀ eps, 0 < eps → eps < eps₁ →
      RegularRun (gaussIpa (n := 0) np (Special.max_flooring eps) true newton_iter)
        (fun s : GaussSignal F 2 t => ∀ k j, 0 < binNorm s.Y k j) n_iter ⟨separate X W, variance⟩) :
    ∃ eps₀ > 0, ∀ eps, 0 < eps → eps < eps₀ → ∃ ls,
      lossList (gaussIpa (n := 0) np (Special.max_flooring eps) true newton_iter) (gaussLossFree X) n_iter
        ⟨separate X W, variance⟩ = .ok ls ∧ ls.length = n_iter + 1 ∧ ls.Pairwise (· ≥ ·) := by
  have key : ∀ (n_iter : ℕ) (s : GaussSignal F 2 t), (∀ f, LinearIndependent ℂ (s.Y f).row) →
      (∀ᶠ eps in 𝓝[>] (0 : ℝ), RegularRun (gaussIpa (n := 0) np (Special.max_flooring eps) true newton_iter)
        (fun s : GaussSignal F 2 t => ∀ k j, 0 < binNorm s.Y k j) n_iter s) →
      ∀ᶠ eps in 𝓝[>] (0 : ℝ), RegularRun (gaussIpa (n := 0) np (Special.max_flooring eps) true newton_iter)
        (RegGaussIpa np (Special.max_flooring eps) newton_iter) n_iter s := by
    intro n_iter
    induction n_iter with
    | zero => exact fun Y _ _ => Filter.Eventually.of_forall fun _ => trivial
    | succ n_iter ih =>
      intro s hY h
      obtain ⟨eps1, h1⟩ := h.exists
      obtain ⟨Y', h2, h3⟩ := update_small np (gauss_majorised (F := F) _ (gaussVariance_pos h1.1)) hm s.Y hY h1.1
      have h5 : ∀ᶠ eps in 𝓝[>] (0 : ℝ), gaussIpa (n := 0) np (Special.max_flooring eps) true newton_iter s =
          .ok ⟨Y', gaussVariance s.Y⟩ := by
        filter_upwards [h3] with eps a using gaussIpa_ok a.2
      have h4 := ih ⟨Y', gaussVariance s.Y⟩ h2 (by
        filter_upwards [h, h5] with eps a b using a.2 _ b)
      filter_upwards [h3, h4, h5] with eps a b c
      refine ⟨a.1, fun s' hs' => ?_⟩
      rw [c] at hs'
      rw [← Except.ok.inj hs']
      exact b
  have h := key n_iter ⟨separate X W, variance⟩ (fun f => row_independent (hW f) (hX f)) (by
    filter_upwards [Ioo_mem_nhdsGT heps₁] with eps h using hsound eps h.1 h.2)
  obtain ⟨eps₀, h0, h1⟩ := (mem_nhdsGT_iff_exists_Ioo_subset).1 h
  exact ⟨eps₀, h0, fun eps h2 h3 =>
    C68_gauss_two_sources_run np (Special.max_flooring eps) hm X hX W hW variance hv n_iter (h1 ⟨h2, h3⟩)⟩

/-! ## The iterations stop only at stationary points -/

/-- Stationary in the filters and in the variances. -/
def GaussStationary (X : Spec F n t) (s : GaussState F n t) : Prop :=
  Stationary (fun W => gaussLoss X ⟨W, s.variance⟩) s.W ∧ ∀ D : Fin n → Fin t → ℝ,
    HasDerivAt (fun ε : ℝ => gaussLoss X ⟨s.W, fun k j => s.variance k j + ε * D k j⟩) 0 0

/-- New filters that decrease the loss for the new variance or are stationary for it. -/
theorem gauss_strict [Nonempty F] {X : Spec F n t} {s : GaussState F n t} (hv : ∀ k j, 0 < s.variance k j)
    (h0 : ∀ k j, 0 < binNorm (separate X s.W) k j) {W' : F → Mat n ℂ}
    (hle : lossIp (gaussG F (gaussVariance (separate X s.W))) X W' ≤
      lossIp (gaussG F (gaussVariance (separate X s.W))) X s.W)
    (hlt : lossIp (gaussG F (gaussVariance (separate X s.W))) X W' <
      lossIp (gaussG F (gaussVariance (separate X s.W))) X s.W ∨
      Stationary (lossIp (gaussG F (gaussVariance (separate X s.W))) X) s.W) :
    gaussLoss X ⟨W', gaussVariance (separate X s.W)⟩ < gaussLoss X s ∨ GaussStationary X s := by
  by_cases hvs : gaussVariance (separate X s.W) = s.variance
  · refine hlt.imp (fun h => ?_) fun h => ⟨?_, (gaussVariance_stationary X s.W s.variance hv).1 hvs⟩
    · rw [hvs] at h ⊢
      exact h
    · rw [hvs] at h
      exact h
  · exact .inl (hle.trans_lt (gaussVariance_strict X s.W s.variance hv h0 hvs))

/-- C61: `AuxGaussIVA` with IP2 and two sources: an iteration makes the loss strictly smaller, or filters and variances are
a stationary point of the loss. -/
theorem C61_gauss_ip2_two [Nonempty F] (np : Numpy ℂ) (floor : ℝ → ℝ) (X : Spec F 2 t)
    (hX : ∀ f, LinearIndependent ℂ (X f).row) (s : GaussState F 2 t) (hW : ∀ f, IsUnit (s.W f).det)
    (hv : ∀ k j, 0 < s.variance k j) (hr : RegGaussIp2 np floor [(0, 1)] X s) :
    ∃ s', gaussIp2 np floor [(0, 1)] X s = .ok s' ∧ (gaussLoss X s' < gaussLoss X s ∨ GaussStationary X s) := by
  obtain ⟨h0, h1⟩ := hr
  have hG := gauss_majorised (F := F) _ (gaussVariance_pos h0)
  obtain ⟨W', h2, h3⟩ := C61_ip2 np hG (gauss_hasDerivAt (F := F) _) floor (0, 1) [] (by simp) X hX s.W hW h1
  obtain ⟨W2, k1, -, k2⟩ := foldlM_regular (auxIp2Pair np floor (gaussD (gaussVariance (separate X s.W))) X)
    (fun W => ∀ f, IsUnit (W f).det) (RegIp2 np floor (gaussD (gaussVariance (separate X s.W))) X) (lossIp _ X) [(0, 1)]
    (fun W p hp hW hr => auxIp2Pair_step np hG floor X hX W hW hr.1 p (by simp_all) hr.2) s.W hW h1
  have e : W2 = W' := Except.ok.inj (k1.symm.trans h2)
  rw [e] at k2
  exact ⟨_, gaussIp2_ok h2, gauss_strict hv h0 k2 (h3.imp id stationary_of_rows)⟩

/-- C61: `AuxGaussIVA` with ISS1, any number of sources: an iteration makes the loss strictly smaller, or signals and
variances do not change; they do not change exactly at stationary points. -/
theorem C61_gauss_iss1 [Nonempty F] (floor : ℝ → ℝ) (X : Spec F n t) (hX : ∀ f, LinearIndependent ℂ (X f).row)
    (s : GaussState F n t) (hW : ∀ f, IsUnit (s.W f).det) (hv : ∀ k j, 0 < s.variance k j)
    (hr : RegGaussIss1 floor (s.toSignal X)) :
    ∃ s' : GaussState F n t, gaussIss1 floor (s.toSignal X) = .ok (s'.toSignal X) ∧
      (gaussLoss X s' < gaussLoss X s ∨ s'.toSignal X = s.toSignal X) ∧
      (s'.toSignal X = s.toSignal X ↔ GaussStationary X s) := by
  have hG := gauss_majorised (F := F) _ (gaussVariance_pos hr.1)
  obtain ⟨W', h1, h2, h3⟩ := C61_iss1 hG (gauss_hasDerivAt (F := F) _) floor X hX s.W hW hr
  obtain ⟨W2, k1, -, k2⟩ := auxIss1_step hG floor X hX s.W hW hr
  have e : W2 = W' := separate_injective X hX ((Except.ok.inj k1).symm.trans h1)
  rw [e] at k2
  have hiff : (⟨W', gaussVariance (separate X s.W)⟩ : GaussState F n t).toSignal X = s.toSignal X ↔
      GaussStationary X s := by
    rw [h1] at h3
    rw [GaussStationary, ← gaussVariance_stationary X s.W s.variance hv]
    constructor
    · intro h
      have hvs : gaussVariance (separate X s.W) = s.variance := congrArg GaussSignal.variance h
      have hYs : separate X W' = separate X s.W := congrArg GaussSignal.Y h
      refine ⟨?_, hvs⟩
      have := h3.1 hYs
      change Stationary (lossIp (gaussG F (gaussVariance (separate X s.W))) X) s.W at this
      rw [hvs] at this
      exact this
    · rintro ⟨h, hvs⟩
      rw [GaussState.toSignal, GaussState.toSignal, GaussSignal.mk.injEq]
      refine ⟨h3.2 ?_, hvs⟩
      change Stationary (lossIp (gaussG F (gaussVariance (separate X s.W))) X) s.W
      rw [hvs]
      exact h
  refine ⟨⟨W', gaussVariance (separate X s.W)⟩, ?_, ?_, hiff⟩
  · exact gaussIss1_ok (s := s.toSignal X) h1
  · rw [hiff]
    refine gauss_strict hv hr.1 k2 (h2.imp id fun h => h3.1 h)

/-- C61: `AuxGaussIVA` with ISS2 and two sources. -/
theorem C61_gauss_iss2_two [Nonempty F] (np : Numpy ℂ) (floor : ℝ → ℝ) (X : Spec F 2 t)
    (hX : ∀ f, LinearIndependent ℂ (X f).row) (s : GaussState F 2 t) (hW : ∀ f, IsUnit (s.W f).det)
    (hv : ∀ k j, 0 < s.variance k j) (hr : RegGaussIss2 np floor [(0, 1)] (s.toSignal X)) :
    ∃ s' : GaussState F 2 t, gaussIss2 np floor [(0, 1)] (s.toSignal X) = .ok (s'.toSignal X) ∧
      (gaussLoss X s' < gaussLoss X s ∨ GaussStationary X s) := by
  have hG := gauss_majorised (F := F) _ (gaussVariance_pos hr.1)
  obtain ⟨W', h1, h2⟩ := C61_iss2 np hG (gauss_hasDerivAt (F := F) _) floor (0, 1) [] (by simp) X hX s.W hW hr
  obtain ⟨W2, k1, -, k2⟩ := auxIss2_step np hG floor [(0, 1)] (by simp) X hX s.W hW hr
  have e : W2 = W' := separate_injective X hX (Except.ok.inj (k1.symm.trans h1))
  rw [e] at k2
  exact ⟨⟨W', gaussVariance (separate X s.W)⟩, gaussIss2_ok (s := s.toSignal X) h1,
    gauss_strict hv hr.1 k2 (h2.imp id (stationary_of_columns hW))⟩

/-- C61: `AuxGaussIVA` with IPA and two sources. -/
theorem C61_gauss_ipa_two [Nonempty F] (np : Numpy ℂ) (floor : ℝ → ℝ) {newton_iter : ℕ} (hm : 0 < newton_iter)
    (X : Spec F 2 t) (hX : ∀ f, LinearIndependent ℂ (X f).row) (s : GaussState F 2 t) (hW : ∀ f, IsUnit (s.W f).det)
    (hv : ∀ k j, 0 < s.variance k j) (hr : RegGaussIpa np floor newton_iter (s.toSignal X)) :
    ∃ s' : GaussState F 2 t, gaussIpa (n := 0) np floor true newton_iter (s.toSignal X) = .ok (s'.toSignal X) ∧
      (gaussLoss X s' < gaussLoss X s ∨ GaussStationary X s) := by
  have hG := gauss_majorised (F := F) _ (gaussVariance_pos hr.1)
  obtain ⟨W', h1, h2, h3⟩ := C61_ipa_two np hG (gauss_hasDerivAt (F := F) _) floor hm X hX s.W hW hr
  obtain ⟨W2, k1, -, k2⟩ := step_of_sweep hG floor _ X hX s.W hW
    ⟨hr.1, hr.2.1, fun hpos => C68_two_sources_sweep np floor hm (phi := fun _ => weight floor _ _) (fun _ => hpos)
      (fun f => row_independent (hW f) (hX f)) hr.2.2⟩
  have e : W2 = W' := separate_injective X hX (Except.ok.inj (k1.symm.trans h1))
  rw [e] at k2
  exact ⟨⟨W', gaussVariance (separate X s.W)⟩, gaussIpa_ok (s := s.toSignal X) h1, gauss_strict hv hr.1 k2 h3⟩

/-! ## The hypotheses can be met -/

/-- Two sources, two frames, one bin: one iteration with IP2, with ISS1, with ISS2 and, for every small floor, with IPA is
covered. -/
example (np : Numpy ℂ) : ∃ X : Spec Unit 2 2,
    (∃ ls, lossList (gaussIp2 np id [(0, 1)] X) (fun s => .ok (gaussLoss X s)) 1 ⟨1, 1⟩ = .ok ls ∧
      ls.length = 2 ∧ ls.Pairwise (· ≥ ·)) ∧
    (∃ ls, lossList (gaussIss1 id) (gaussLossFree X) 1 ⟨separate X 1, 1⟩ = .ok ls ∧
      ls.length = 2 ∧ ls.Pairwise (· ≥ ·)) ∧
    (∃ ls, lossList (gaussIss2 np id [(0, 1)]) (gaussLossFree X) 1 ⟨separate X 1, 1⟩ = .ok ls ∧
      ls.length = 2 ∧ ls.Pairwise (· ≥ ·)) ∧
    ∃ eps₀ > 0, ∀ eps, 0 < eps → eps < eps₀ →
      ∃ ls, lossList (gaussIpa (n := 0) np (Special.max_flooring eps) true 1) (gaussLossFree X) 1 ⟨separate X 1, 1⟩
        = .ok ls ∧ ls.length = 2 ∧ ls.Pairwise (· ≥ ·) := by
  have hdet : IsUnit (!![1, 2; 2, 1] : Matrix (Fin 2) (Fin 2) ℂ) := by
    rw [isUnit_iff_isUnit_det, det_fin_two, isUnit_iff_ne_zero]
    norm_num
  have hX : ∀ f : Unit, LinearIndependent ℂ ((fun _ : Unit => !![1, 2; 2, 1] : Spec Unit 2 2) f).row :=
    fun _ => (linearIndependent_rows_iff_isUnit).mpr hdet
  have hW : ∀ f : Unit, IsUnit (((1 : Unit → Mat 2 ℂ) f).det) := fun _ => by simp
  have hv : ∀ k j, 0 < (1 : Fin 2 → Fin 2 → ℝ) k j := fun _ _ => one_pos
  have h0 : ∀ k j, 0 < binNorm (separate (fun _ : Unit => !![1, 2; 2, 1] : Spec Unit 2 2) 1) k j := fun k j => by
    refine Real.sqrt_pos.mpr ?_
    fin_cases k <;> fin_cases j <;> simp [separate]
  refine ⟨fun _ => !![1, 2; 2, 1], ?_, ?_, ?_, ?_⟩
  · exact C36_gauss_ip2 np id _ (by simp) _ hX ⟨1, 1⟩ hW hv 1
      ⟨⟨h0, ⟨h0, rfl⟩, fun _ _ => trivial⟩, fun _ _ => trivial⟩
  · exact C36_gauss_iss1 id _ hX 1 hW 1 hv 1 ⟨⟨h0, rfl⟩, fun _ _ => trivial⟩
  · exact C36_gauss_iss2 np id _ (by simp) _ hX 1 hW 1 hv 1 ⟨⟨h0, rfl⟩, fun _ _ => trivial⟩
  · exact C68_gauss_two_sources np one_pos _ hX 1 hW 1 hv 1 one_pos fun eps _ _ => ⟨h0, fun _ _ => trivial⟩

end Verif.Iva
