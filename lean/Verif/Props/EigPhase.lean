import Verif.Lemmas.Phase
import Verif.Model.Fdica
import Verif.Model.Mnmf
import Verif.Props.EigFree
import Verif.Props.Scale

/-! # C80: where LAPACK's choice does show, it shows as phases only

IP2 and ISS2 use generalised eigenvectors as rows of the filter (or to form outputs), FasterIVA uses the leading
eigenvectors of covariances. LAPACK fixes such vectors only up to a factor of modulus one. Two runs of the same
program from the same start on two correct LAPACKs therefore differ, and the difference feeds back into every later
update. These theorems say what survives: as long as no tie occurs, after any number of iterations the filters agree
up to one factor of modulus one per bin and source, the loss histories are identical, and projection back returns
identical filters. At a tie this is false (`C80_tie`).
-/

set_option linter.unusedSectionVars false

namespace Verif

/-- Two loops whose states stay related, with the losses recorded. -/
theorem lossList_rel {σ τ : Type} (g : σ → Except PyErr σ) (g' : τ → Except PyErr τ) (loss : σ → Except PyErr ℝ)
    (loss' : τ → Except PyErr ℝ) (R : σ → τ → Prop) (Reg : σ → Prop)
    (h : ∀ s s', R s s' → Reg s → ∃ a a', g s = .ok a ∧ g' s' = .ok a' ∧ R a a')
    (hl : ∀ s s', R s s' → loss s = loss' s') (N : ℕ) (s : σ) (s' : τ) (hR : R s s') (hreg : RegularRun g Reg N s) :
    lossList g loss N s = lossList g' loss' N s' := by
  induction N generalizing s s' with
  | zero => rw [lossList, lossList, hl s s' hR]
  | succ N ih =>
    obtain ⟨a, a', e, e', hR'⟩ := h s s' hR hreg.1
    have := ih a a' hR' (hreg.2 a e)
    rw [lossList, lossList, hl s s' hR, e, e']
    simp only [Bind.bind, Except.bind] at this ⊢
    rw [this]

namespace EigPhase

open Matrix Spatial Scale
open scoped ComplexOrder

variable {F : Type} [Fintype F] {n t c : ℕ}

/-- Equal up to one factor of modulus one per bin and row. -/
def UpToPhase (A A' : F → Matrix (Fin n) (Fin c) ℂ) : Prop :=
  ∃ φ : F → Fin n → ℂ, (∀ f i, ‖φ f i‖ = 1) ∧ A' = fun f => Matrix.of fun i j => φ f i * A f i j

theorem UpToPhase.refl (A : F → Matrix (Fin n) (Fin c) ℂ) : UpToPhase A A :=
  ⟨fun _ _ => 1, fun _ _ => norm_one, by funext f; ext i j; simp⟩

theorem UpToPhase.norm_eq {A A' : F → Matrix (Fin n) (Fin c) ℂ} (h : UpToPhase A A') (f : F) (i : Fin n) (j : Fin c) :
    ‖A' f i j‖ = ‖A f i j‖ := by
  obtain ⟨φ, hφ, rfl⟩ := h
  change ‖φ f i * A f i j‖ = _
  rw [norm_mul, hφ, one_mul]

theorem UpToPhase.mul {A A' : F → Matrix (Fin n) (Fin c) ℂ} (h : UpToPhase A A') {d : ℕ}
    (B : F → Matrix (Fin c) (Fin d) ℂ) : UpToPhase (fun f => A f * B f) fun f => A' f * B f := by
  obtain ⟨φ, hφ, rfl⟩ := h
  refine ⟨φ, hφ, ?_⟩
  funext f
  ext i j
  change (∑ k, φ f i * A f i k * B f k j) = φ f i * ∑ k, A f i k * B f k j
  rw [Finset.mul_sum]
  exact Finset.sum_congr rfl fun k _ => by rw [mul_assoc]

theorem UpToPhase.separate {W W' : F → Mat n ℂ} (h : UpToPhase W W') (X : Spec F n t) :
    UpToPhase (separate X W) (separate X W') := h.mul X

theorem UpToPhase.det {W W' : F → Mat n ℂ} (h : UpToPhase W W') (f : F) : ‖(W' f).det‖ = ‖(W f).det‖ := by
  obtain ⟨φ, hφ, rfl⟩ := h
  have e : (Matrix.of fun i j => φ f i * W f i j) = diagonal (φ f) * W f := Phase.rot_eq (φ f) (W f)
  simp only
  rw [e, det_mul, det_diagonal, norm_mul, norm_prod, Finset.prod_congr rfl fun i _ => hφ f i, Finset.prod_const_one,
    one_mul]

theorem UpToPhase.binNorm {Y Y' : Spec F n t} (h : UpToPhase Y Y') : Iva.binNorm Y' = Iva.binNorm Y := by
  funext k s
  simp only [Iva.binNorm, h.norm_eq]

theorem UpToPhase.weight {Y Y' : Spec F n t} (h : UpToPhase Y Y') (floor : ℝ → ℝ) (d : Fin n → Fin t → ℝ → ℝ) :
    Iva.weight floor d Y' = Iva.weight floor d Y := by
  funext k s
  simp only [Iva.weight, h.binNorm]

/-- Projection back removes the phases. -/
theorem UpToPhase.projectionBack {W W' : F → Mat n ℂ} (h : UpToPhase W W') (r : Fin n) :
    projectionBackFilter r W' = projectionBackFilter r W := by
  obtain ⟨φ, hφ, rfl⟩ := h
  exact C22_scale_invariant r W φ fun f i h0 => by simpa [h0] using hφ f i

/-! ## IP2 -/

/-- What an IP2 update of the pair `p` needs, in every bin: two different rows, an invertible filter, positive
definite weighted covariances, and no tie. -/
def Ip2Regular (phi : F → Fin n → Fin t → ℝ) (X : Spec F n t) (W : F → Mat n ℂ) (p : Fin n × Fin n) : Prop :=
  p.1 ≠ p.2 ∧ ∀ f, IsUnit (W f).det ∧ (Iva.wcov (phi f) X f p.1).PosDef ∧ (Iva.wcov (phi f) X f p.2).PosDef ∧
    ¬ Phase.Tie (Iva.wcov (phi f) X f) (W f) p

theorem ip2_step (np np' : Numpy ℂ) (floor : ℝ → ℝ) (phi : F → Fin n → Fin t → ℝ) (X : Spec F n t)
    {W W' : F → Mat n ℂ} (h : UpToPhase W W') {p : Fin n × Fin n} (hreg : Ip2Regular phi X W p) :
    ∃ W₁ W₁', (onBins fun f => ip2Pair np floor (Iva.wcov (phi f) X f) (W f) p) = .ok W₁ ∧
      (onBins fun f => ip2Pair np' floor (Iva.wcov (phi f) X f) (W' f) p) = .ok W₁' ∧ UpToPhase W₁ W₁' := by
  obtain ⟨φ, hφ, rfl⟩ := h
  have key := fun f => Phase.ip2Pair_phase np np' floor hreg.1 (hreg.2 f).2.1 (hreg.2 f).2.2.1 (hreg.2 f).1
    (hreg.2 f).2.2.2 (hφ f)
  choose W₁ φ₁ h1 h2 h3 using key
  exact ⟨W₁, _, onBins_ok h1, onBins_ok h2, φ₁, h3, rfl⟩

/-- What a run of AuxIVA-IP2 visits. -/
def AuxRegular (np : Numpy ℂ) (floor : ℝ → ℝ) (pairs : List (Fin n × Fin n)) (d : Fin n → Fin t → ℝ → ℝ)
    (X : Spec F n t) (W : F → Mat n ℂ) : Prop :=
  RegularFold (Iva.auxIp2Pair np floor d X)
    (fun W p => Ip2Regular (fun _ => Iva.weight floor d (separate X W)) X W p) pairs W

theorem auxIp2_step (np np' : Numpy ℂ) (floor : ℝ → ℝ) (pairs : List (Fin n × Fin n)) (d : Fin n → Fin t → ℝ → ℝ)
    (X : Spec F n t) (W W' : F → Mat n ℂ) (h : UpToPhase W W') (hreg : AuxRegular np floor pairs d X W) :
    ∃ W₁ W₁', Iva.auxIp2 np floor pairs d X W = .ok W₁ ∧ Iva.auxIp2 np' floor pairs d X W' = .ok W₁' ∧
      UpToPhase W₁ W₁' := by
  refine foldlM_rel _ _ UpToPhase _ (fun W W' p h hr => ?_) pairs W W' h hreg
  simp only [Iva.auxIp2Pair]
  rw [(h.separate X).weight]
  exact ip2_step np np' floor _ X h hr

theorem lossIp_eq (G : Fin n → Fin t → ℝ → ℝ) (X : Spec F n t) {W W' : F → Mat n ℂ} (h : UpToPhase W W') :
    Iva.lossIp G X W' = Iva.lossIp G X W := by
  simp only [Iva.lossIp, Iva.ivaLoss, (h.separate X).binNorm, h.det]

/-- C80: AuxIVA with IP2 on two LAPACKs, from starting filters that may themselves differ by phases. After any number
of iterations both runs have succeeded, the filters agree up to phases, projection back to any reference channel
returns the same filters, and the recorded losses are the same. -/
theorem C80_aux_iva_ip2 (np np' : Numpy ℂ) (floor : ℝ → ℝ) (pairs : List (Fin n × Fin n))
    (G d : Fin n → Fin t → ℝ → ℝ) (X : Spec F n t) (W W' : F → Mat n ℂ) (h : UpToPhase W W') (n_iter : ℕ)
    (hreg : RegularRun (Iva.auxIp2 np floor pairs d X) (AuxRegular np floor pairs d X) n_iter W) :
    (∃ W₁ W₁', iterM (Iva.auxIp2 np floor pairs d X) n_iter W = .ok W₁ ∧
      iterM (Iva.auxIp2 np' floor pairs d X) n_iter W' = .ok W₁' ∧ UpToPhase W₁ W₁' ∧
      ∀ r, projectionBackFilter r W₁' = projectionBackFilter r W₁) ∧
    lossList (Iva.auxIp2 np floor pairs d X) (fun W => .ok (Iva.lossIp G X W)) n_iter W
      = lossList (Iva.auxIp2 np' floor pairs d X) (fun W => .ok (Iva.lossIp G X W)) n_iter W' := by
  constructor
  · obtain ⟨W₁, W₁', h1, h2, h3⟩ := iterM_rel _ _ UpToPhase _
      (fun W W' h hr => auxIp2_step np np' floor pairs d X W W' h hr) n_iter W W' h hreg
    exact ⟨W₁, W₁', h1, h2, h3, h3.projectionBack⟩
  · exact lossList_rel _ _ _ _ UpToPhase _ (fun W W' h hr => auxIp2_step np np' floor pairs d X W W' h hr)
      (fun W W' h => by rw [lossIp_eq G X h]) n_iter W W' h hreg

/-- C80: AuxGaussIVA with IP2: the same, and the variances agree exactly. -/
theorem C80_aux_gauss_iva_ip2 (np np' : Numpy ℂ) (floor : ℝ → ℝ) (pairs : List (Fin n × Fin n)) (X : Spec F n t)
    (s s' : Iva.GaussState F n t) (h : UpToPhase s.W s'.W) (hv : s'.variance = s.variance) (n_iter : ℕ)
    (hreg : RegularRun (Iva.gaussIp2 np floor pairs X)
      (fun s => AuxRegular np floor pairs (Iva.gaussD (Iva.gaussVariance (separate X s.W))) X s.W) n_iter s) :
    (∃ s₁ s₁', iterM (Iva.gaussIp2 np floor pairs X) n_iter s = .ok s₁ ∧
      iterM (Iva.gaussIp2 np' floor pairs X) n_iter s' = .ok s₁' ∧ UpToPhase s₁.W s₁'.W ∧
      s₁'.variance = s₁.variance ∧ ∀ r, projectionBackFilter r s₁'.W = projectionBackFilter r s₁.W) ∧
    lossList (Iva.gaussIp2 np floor pairs X) (fun s => .ok (Iva.gaussLoss X s)) n_iter s
      = lossList (Iva.gaussIp2 np' floor pairs X) (fun s => .ok (Iva.gaussLoss X s)) n_iter s' := by
  have step : ∀ s s' : Iva.GaussState F n t, (UpToPhase s.W s'.W ∧ s'.variance = s.variance) →
      AuxRegular np floor pairs (Iva.gaussD (Iva.gaussVariance (separate X s.W))) X s.W →
      ∃ a a', Iva.gaussIp2 np floor pairs X s = .ok a ∧ Iva.gaussIp2 np' floor pairs X s' = .ok a' ∧
        (UpToPhase a.W a'.W ∧ a'.variance = a.variance) := by
    intro s s' h hr
    have hvar : Iva.gaussVariance (separate X s'.W) = Iva.gaussVariance (separate X s.W) := by
      funext k j
      simp only [Iva.gaussVariance, (h.1.separate X).norm_eq]
    obtain ⟨W₁, W₁', h1, h2, h3⟩ := auxIp2_step np np' floor pairs _ X s.W s'.W h.1 hr
    simp only [Iva.gaussIp2, hvar, h1, h2]
    exact ⟨_, _, rfl, rfl, h3, rfl⟩
  constructor
  · obtain ⟨s₁, s₁', h1, h2, h3⟩ := iterM_rel _ _ _ _ step n_iter s s' ⟨h, hv⟩ hreg
    exact ⟨s₁, s₁', h1, h2, h3.1, h3.2, h3.1.projectionBack⟩
  · exact lossList_rel _ _ _ _ _ _ step
      (fun s s' h => by rw [Iva.gaussLoss, Iva.gaussLoss, h.2, lossIp_eq _ X h.1]) n_iter s s' ⟨h, hv⟩ hreg

theorem UpToPhase.fdicaWeight {Y Y' : Spec F n t} (h : UpToPhase Y Y') (floor d : ℝ → ℝ) (f : F) :
    Fdica.weight floor d (Y' f) = Fdica.weight floor d (Y f) := by
  funext k s
  simp only [Fdica.weight, h.norm_eq]

/-- What a run of AuxFDICA-IP2 visits. -/
def FdicaRegular (np : Numpy ℂ) (floor d : ℝ → ℝ) (pairs : List (Fin n × Fin n)) (X : Spec F n t) (W : F → Mat n ℂ) :
    Prop :=
  RegularFold (Fdica.auxIp2Pair np floor d X)
    (fun W p => Ip2Regular (fun f => Fdica.weight floor d (separate X W f)) X W p) pairs W

/-- C80: AuxFDICA with IP2. -/
theorem C80_aux_fdica_ip2 (np np' : Numpy ℂ) (floor G d : ℝ → ℝ) (pairs : List (Fin n × Fin n)) (X : Spec F n t)
    (W W' : F → Mat n ℂ) (h : UpToPhase W W') (n_iter : ℕ)
    (hreg : RegularRun (Fdica.auxIp2 np floor d pairs X) (FdicaRegular np floor d pairs X) n_iter W) :
    (∃ W₁ W₁', iterM (Fdica.auxIp2 np floor d pairs X) n_iter W = .ok W₁ ∧
      iterM (Fdica.auxIp2 np' floor d pairs X) n_iter W' = .ok W₁' ∧ UpToPhase W₁ W₁' ∧
      ∀ r, projectionBackFilter r W₁' = projectionBackFilter r W₁) ∧
    lossList (Fdica.auxIp2 np floor d pairs X) (fun W => .ok (Fdica.loss G X W)) n_iter W
      = lossList (Fdica.auxIp2 np' floor d pairs X) (fun W => .ok (Fdica.loss G X W)) n_iter W' := by
  have step : ∀ W W' : F → Mat n ℂ, UpToPhase W W' → FdicaRegular np floor d pairs X W →
      ∃ a a', Fdica.auxIp2 np floor d pairs X W = .ok a ∧ Fdica.auxIp2 np' floor d pairs X W' = .ok a' ∧
        UpToPhase a a' := by
    intro W W' h hr
    refine foldlM_rel _ _ UpToPhase _ (fun W W' p h hr => ?_) pairs W W' h hr
    simp only [Fdica.auxIp2Pair, (h.separate X).fdicaWeight]
    exact ip2_step np np' floor _ X h hr
  constructor
  · obtain ⟨W₁, W₁', h1, h2, h3⟩ := iterM_rel _ _ UpToPhase _ step n_iter W W' h hreg
    exact ⟨W₁, W₁', h1, h2, h3, h3.projectionBack⟩
  · refine lossList_rel _ _ _ _ UpToPhase _ step (fun W W' h => ?_) n_iter W W' h hreg
    simp only [Fdica.loss, (h.separate X).norm_eq, h.det]

/-! ## ILRMA with IP2 -/

theorem isUnit_diag_phase {φ : Fin n → ℂ} (hφ : ∀ i, ‖φ i‖ = 1) :
    (diagonal φ : Mat n ℂ) * diagonal (star φ) = 1 ∧ IsUnit (diagonal φ : Mat n ℂ).det := by
  have h : (diagonal φ : Mat n ℂ) * diagonal (star φ) = 1 := by
    rw [diagonal_mul_diagonal, ← diagonal_one]
    congr 1
    funext i
    exact Phase.mul_star_of_norm (hφ i)
  refine ⟨h, ?_⟩
  have := congrArg Matrix.det h
  rw [det_mul, det_one] at this
  exact IsUnit.of_mul_eq_one _ this

theorem inv_phase {φ : Fin n → ℂ} (hφ : ∀ i, ‖φ i‖ = 1) (W : Mat n ℂ) (i j : Fin n) :
    (Matrix.of fun i j => φ i * W i j)⁻¹ i j = W⁻¹ i j * star (φ j) := by
  have e : (Matrix.of fun i j => φ i * W i j) = diagonal φ * W := Phase.rot_eq φ W
  rw [e, Matrix.mul_inv_rev, inv_eq_right_inv (isUnit_diag_phase hφ).1, mul_diagonal]
  rfl

theorem UpToPhase.isUnit {W W' : F → Mat n ℂ} (h : UpToPhase W W') (f : F) : IsUnit (W' f).det ↔ IsUnit (W f).det := by
  rw [isUnit_iff_ne_zero, isUnit_iff_ne_zero, ← norm_ne_zero_iff, h.det, norm_ne_zero_iff]

variable {K : ℕ}

theorem UpToPhase.source {Y Y' : Spec F n t} (h : UpToPhase Y Y') (src : Ilrma.Source) (floor : ℝ → ℝ)
    (T : Fin n → F → Fin K → ℝ) (V : Fin n → Fin K → Fin t → ℝ) :
    Ilrma.updateBasis src floor Y' T V = Ilrma.updateBasis src floor Y T V ∧
      Ilrma.updateActivation src floor Y' T V = Ilrma.updateActivation src floor Y T V ∧
      Ilrma.psi floor Y' = Ilrma.psi floor Y ∧
      (∀ R : Fin n → F → Fin t → ℝ, Ilrma.varphi src floor Y' R = Ilrma.varphi src floor Y R) := by
  refine ⟨?_, ?_, ?_, fun R => ?_⟩
  · funext k f b; simp only [Ilrma.updateBasis, Ilrma.basisRaw, h.norm_eq]
  · funext k b s; simp only [Ilrma.updateActivation, Ilrma.activationRaw, h.norm_eq]
  · funext k; simp only [Ilrma.psi, h.norm_eq]
  · funext f k s; simp only [Ilrma.varphi, h.norm_eq]

theorem UpToPhase.divRows {A A' : F → Matrix (Fin n) (Fin c) ℂ} (h : UpToPhase A A') (psi : Fin n → ℝ) :
    UpToPhase (Ilrma.divRows psi A) (Ilrma.divRows psi A') := by
  obtain ⟨φ, hφ, rfl⟩ := h
  refine ⟨φ, hφ, ?_⟩
  funext f
  ext k j
  exact mul_div_assoc _ _ _

theorem spatialFilter_step (np np' : Numpy ℂ) (floor : ℝ → ℝ) (pairs : List (Fin n × Fin n))
    (phi : F → Fin n → Fin t → ℝ) (X : Spec F n t) (W W' : F → Mat n ℂ) (h : UpToPhase W W')
    (hreg : RegularFold (fun W p => onBins fun f => ip2Pair np floor (Iva.wcov (phi f) X f) (W f) p)
      (Ip2Regular phi X) pairs W) :
    ∃ W₁ W₁', Ilrma.spatialFilter np (.ip2 pairs) floor phi X W = .ok W₁ ∧
      Ilrma.spatialFilter np' (.ip2 pairs) floor phi X W' = .ok W₁' ∧ UpToPhase W₁ W₁' := by
  rw [Ilrma.spatialFilter, Ilrma.spatialFilter]
  exact foldlM_rel (fun W p => onBins fun f => ip2Pair np floor (Iva.wcov (phi f) X f) (W f) p)
    (fun W p => onBins fun f => ip2Pair np' floor (Iva.wcov (phi f) X f) (W f) p) UpToPhase (Ip2Regular phi X)
    (fun _ _ _ h hr => ip2_step np np' floor phi X h hr) pairs W W' h hreg

/-- What a run of ILRMA-IP2 visits: the source update comes first, the pairs are then updated with fixed weights, and
normalisation by projection back needs the updated filters to be invertible. -/
def IlrmaRegular (np : Numpy ℂ) (src : Ilrma.Source) (norm : Ilrma.Norm n) (floor : ℝ → ℝ)
    (pairs : List (Fin n × Fin n)) (X : Spec F n t) (s : Ilrma.St F n t K) : Prop :=
  let s₁ := Ilrma.updateSource src floor X s
  let phi := Ilrma.varphi src floor (separate X s₁.W) (Ilrma.recon s₁.T s₁.V)
  RegularFold (fun W p => onBins fun f => ip2Pair np floor (Iva.wcov (phi f) X f) (W f) p) (Ip2Regular phi X) pairs
    s₁.W ∧
    ((∃ r, norm = .projectionBack r) →
      ∀ W, Ilrma.spatialFilter np (.ip2 pairs) floor phi X s₁.W = .ok W → ∀ f, IsUnit (W f).det)

theorem UpToPhase.pbRows {W W' : F → Mat n ℂ} (h : UpToPhase W W') (r : Fin n) :
    Ilrma.mulRows (fun f k => (W' f)⁻¹ r k) W' = Ilrma.mulRows (fun f k => (W f)⁻¹ r k) W ∧
      ∀ f k, ‖(W' f)⁻¹ r k‖ = ‖(W f)⁻¹ r k‖ := by
  obtain ⟨φ, hφ, rfl⟩ := h
  constructor
  · funext f
    ext k j
    simp only [Ilrma.mulRows, of_apply, inv_phase (hφ f)]
    linear_combination (W f k j * (W f)⁻¹ r k) * Phase.mul_star_of_norm (hφ f k)
  · intro f k
    simp only [inv_phase (hφ f), norm_mul, norm_star, hφ, mul_one]

/-- C80: ILRMA (Gauss, Student's t, generalised Gauss) with IP2 and any normalisation: the filters agree up to phases,
and the source models and the recorded losses agree exactly. -/
theorem C80_ilrma_ip2 (np np' : Numpy ℂ) (src : Ilrma.Source) (p : ℝ) (norm : Ilrma.Norm n) (floor : ℝ → ℝ)
    (pairs : List (Fin n × Fin n)) (X : Spec F n t) (s s' : Ilrma.St F n t K) (h : UpToPhase s.W s'.W)
    (hT : s'.T = s.T) (hV : s'.V = s.V) (n_iter : ℕ)
    (hreg : RegularRun (Ilrma.updateOnce np src p (.ip2 pairs) norm floor X)
      (IlrmaRegular np src norm floor pairs X) n_iter s) :
    (∃ s₁ s₁', iterM (Ilrma.updateOnce np src p (.ip2 pairs) norm floor X) n_iter s = .ok s₁ ∧
      iterM (Ilrma.updateOnce np' src p (.ip2 pairs) norm floor X) n_iter s' = .ok s₁' ∧ UpToPhase s₁.W s₁'.W ∧
      s₁'.T = s₁.T ∧ s₁'.V = s₁.V ∧ ∀ r, projectionBackFilter r s₁'.W = projectionBackFilter r s₁.W) ∧
    lossList (Ilrma.updateOnce np src p (.ip2 pairs) norm floor X) (fun s => .ok (Ilrma.loss src X s)) n_iter s
      = lossList (Ilrma.updateOnce np' src p (.ip2 pairs) norm floor X) (fun s => .ok (Ilrma.loss src X s)) n_iter
        s' := by
  have step : ∀ s s' : Ilrma.St F n t K, (UpToPhase s.W s'.W ∧ s'.T = s.T ∧ s'.V = s.V) →
      IlrmaRegular np src norm floor pairs X s →
      ∃ a a', Ilrma.updateOnce np src p (.ip2 pairs) norm floor X s = .ok a ∧
        Ilrma.updateOnce np' src p (.ip2 pairs) norm floor X s' = .ok a' ∧
        (UpToPhase a.W a'.W ∧ a'.T = a.T ∧ a'.V = a.V) := by
    rintro ⟨W, T, V⟩ ⟨W', T', V'⟩ ⟨h, h1, h2⟩ ⟨hr, hu⟩
    simp only at h h1 h2
    subst h1 h2
    have hY := h.separate X
    have eT := (hY.source src floor T' V').1
    have eV := fun T => (hY.source src floor T V').2.1
    have eφ := (hY.source src floor T' V').2.2.2
    simp only [Ilrma.updateOnce, Ilrma.updateSpatial, Ilrma.updateSource, eT, eV, eφ]
    obtain ⟨W₁, W₁', e1, e2, h3⟩ := spatialFilter_step np np' floor pairs _ X W W' h hr
    have hu' := fun hn => hu hn W₁ e1
    simp only [Ilrma.updateSource] at e1 e2
    simp only [e1, e2, Bind.bind, Except.bind]
    cases norm with
    | off => exact ⟨_, _, rfl, rfl, h3, rfl, rfl⟩
    | power =>
      refine ⟨_, _, rfl, rfl, ?_, ?_, rfl⟩
      · simp only [((h3.separate X).source src floor T' V').2.2.1]
        exact h3.divRows _
      · simp only [((h3.separate X).source src floor T' V').2.2.1]
    | projectionBack r =>
      have hu1 := hu' ⟨r, rfl⟩
      have hu2 : ∀ f, IsUnit (W₁' f).det := fun f => (h3.isUnit f).mpr (hu1 f)
      have i1 : npInvB W₁ = .ok fun f => (W₁ f)⁻¹ := by rw [npInvB, if_pos hu1]
      have i2 : npInvB W₁' = .ok fun f => (W₁' f)⁻¹ := by rw [npInvB, if_pos hu2]
      simp only [Ilrma.normalize, i1, i2, Bind.bind, Except.bind]
      refine ⟨_, _, rfl, rfl, ?_, ?_, rfl⟩
      · rw [(h3.pbRows r).1]
        exact UpToPhase.refl _
      · funext k f b
        simp only [Ilrma.mulBasis, (h3.pbRows r).2]
  constructor
  · obtain ⟨s₁, s₁', h1, h2, h3⟩ := iterM_rel _ _ _ _ step n_iter s s' ⟨h, hT, hV⟩ hreg
    exact ⟨s₁, s₁', h1, h2, h3.1, h3.2.1, h3.2.2, h3.1.projectionBack⟩
  · refine lossList_rel _ _ _ _ _ _ step (fun s s' h => ?_) n_iter s s' ⟨h, hT, hV⟩ hreg
    simp only [Ilrma.loss, Ilrma.lossOf, h.2.1, h.2.2, (h.1.separate X).norm_eq, h.1.det]

/-- What a run of ILRMA-IP2 with a partitioning function visits. -/
def IlrmaRegularP (np : Numpy ℂ) (src : Ilrma.Source) (floor : ℝ → ℝ) (pairs : List (Fin n × Fin n)) (X : Spec F n t)
    (s : Ilrma.StP F n t K) : Prop :=
  let s₁ := Ilrma.updateSourceP src floor X s
  let phi := Ilrma.varphi src floor (separate X s₁.W) (Ilrma.reconP s₁.Z s₁.T s₁.V)
  RegularFold (fun W p => onBins fun f => ip2Pair np floor (Iva.wcov (phi f) X f) (W f) p) (Ip2Regular phi X) pairs
    s₁.W

theorem UpToPhase.sourceP {Y Y' : Spec F n t} (h : UpToPhase Y Y') (src : Ilrma.Source) (floor : ℝ → ℝ)
    (Z : Fin n → Fin K → ℝ) (T : F → Fin K → ℝ) (V : Fin K → Fin t → ℝ) :
    Ilrma.updateLatent src Y' Z T V = Ilrma.updateLatent src Y Z T V ∧
      Ilrma.updateBasisP src floor Y' Z T V = Ilrma.updateBasisP src floor Y Z T V ∧
      Ilrma.updateActivationP src floor Y' Z T V = Ilrma.updateActivationP src floor Y Z T V ∧
      Ilrma.psi floor Y' = Ilrma.psi floor Y ∧
      (∀ R : Fin n → F → Fin t → ℝ, Ilrma.varphi src floor Y' R = Ilrma.varphi src floor Y R) := by
  refine ⟨?_, ?_, ?_, ?_, fun R => ?_⟩
  · funext k b; simp only [Ilrma.updateLatent, Ilrma.latentRaw, h.norm_eq]
  · funext f b; simp only [Ilrma.updateBasisP, Ilrma.basisRawP, h.norm_eq]
  · funext b s; simp only [Ilrma.updateActivationP, Ilrma.activationRawP, h.norm_eq]
  · funext k; simp only [Ilrma.psi, h.norm_eq]
  · funext f k s; simp only [Ilrma.varphi, h.norm_eq]

/-- C80: ILRMA with IP2 and a partitioning function, without normalisation or normalised by power. -/
theorem C80_ilrma_ip2_partitioned (np np' : Numpy ℂ) (src : Ilrma.Source) (p : ℝ) (norm : Ilrma.Norm n)
    (hnorm : ∀ r, norm ≠ .projectionBack r) (floor : ℝ → ℝ) (pairs : List (Fin n × Fin n)) (X : Spec F n t)
    (s s' : Ilrma.StP F n t K) (h : UpToPhase s.W s'.W) (hZ : s'.Z = s.Z) (hT : s'.T = s.T) (hV : s'.V = s.V)
    (n_iter : ℕ)
    (hreg : RegularRun (Ilrma.updateOnceP np src p (.ip2 pairs) norm floor X)
      (IlrmaRegularP np src floor pairs X) n_iter s) :
    (∃ s₁ s₁', iterM (Ilrma.updateOnceP np src p (.ip2 pairs) norm floor X) n_iter s = .ok s₁ ∧
      iterM (Ilrma.updateOnceP np' src p (.ip2 pairs) norm floor X) n_iter s' = .ok s₁' ∧ UpToPhase s₁.W s₁'.W ∧
      s₁'.Z = s₁.Z ∧ s₁'.T = s₁.T ∧ s₁'.V = s₁.V ∧
      ∀ r, projectionBackFilter r s₁'.W = projectionBackFilter r s₁.W) ∧
    lossList (Ilrma.updateOnceP np src p (.ip2 pairs) norm floor X) (fun s => .ok (Ilrma.lossP src X s)) n_iter s
      = lossList (Ilrma.updateOnceP np' src p (.ip2 pairs) norm floor X) (fun s => .ok (Ilrma.lossP src X s)) n_iter
        s' := by
  have step : ∀ s s' : Ilrma.StP F n t K, (UpToPhase s.W s'.W ∧ s'.Z = s.Z ∧ s'.T = s.T ∧ s'.V = s.V) →
      IlrmaRegularP np src floor pairs X s →
      ∃ a a', Ilrma.updateOnceP np src p (.ip2 pairs) norm floor X s = .ok a ∧
        Ilrma.updateOnceP np' src p (.ip2 pairs) norm floor X s' = .ok a' ∧
        (UpToPhase a.W a'.W ∧ a'.Z = a.Z ∧ a'.T = a.T ∧ a'.V = a.V) := by
    rintro ⟨W, Z, T, V⟩ ⟨W', Z', T', V'⟩ ⟨h, h1, h2, h3⟩ hr
    simp only at h h1 h2 h3
    subst h1 h2 h3
    have hY := h.separate X
    have eZ := fun Z T V => (hY.sourceP (K := K) src floor Z T V).1
    have eT := fun Z T V => (hY.sourceP (K := K) src floor Z T V).2.1
    have eV := fun Z T V => (hY.sourceP (K := K) src floor Z T V).2.2.1
    have eφ := (hY.sourceP src floor Z' T' V').2.2.2.2
    simp only [Ilrma.updateOnceP, Ilrma.updateSpatialP, Ilrma.updateSourceP, eZ, eT, eV, eφ]
    obtain ⟨W₁, W₁', e1, e2, h3⟩ := spatialFilter_step np np' floor pairs _ X W W' h hr
    simp only [Ilrma.updateSourceP] at e1 e2
    simp only [e1, e2, Bind.bind, Except.bind]
    have eψ := ((h3.separate X).sourceP src floor Z' T' V').2.2.2.1
    cases norm with
    | off => exact ⟨_, _, rfl, rfl, h3, rfl, rfl, rfl⟩
    | power =>
      simp only [Ilrma.normalizeP, eψ]
      exact ⟨_, _, rfl, rfl, h3.divRows _, rfl, rfl, rfl⟩
    | projectionBack r => exact absurd rfl (hnorm r)
  constructor
  · obtain ⟨s₁, s₁', h1, h2, h3⟩ := iterM_rel _ _ _ _ step n_iter s s' ⟨h, hZ, hT, hV⟩ hreg
    exact ⟨s₁, s₁', h1, h2, h3.1, h3.2.1, h3.2.2.1, h3.2.2.2, h3.1.projectionBack⟩
  · refine lossList_rel _ _ _ _ _ _ step (fun s s' h => ?_) n_iter s s' ⟨h, hZ, hT, hV⟩ hreg
    simp only [Ilrma.lossP, Ilrma.lossOf, h.2.1, h.2.2.1, h.2.2.2, (h.1.separate X).norm_eq, h.1.det]

/-! ## FastMNMF with IP2 -/

variable {m : ℕ}

/-- What a run of FastMNMF-IP2 visits. -/
def FastMnmfRegular (np : Numpy ℂ) (floor : ℝ → ℝ) (pairs : List (Fin m × Fin m)) (X : Spec F m t)
    (s : Mnmf.FSt F n m t K) : Prop :=
  let s₁ := Mnmf.fastUpdateActivation floor X (Mnmf.fastUpdateBasis floor X s)
  let phi : F → Fin m → Fin t → ℝ := fun f c j => 1 / Mnmf.lambD s₁ f c j
  RegularFold (fun W p => onBins fun f => ip2Pair np floor (Iva.wcov (phi f) X f) (W f) p) (Ip2Regular phi X) pairs
    s₁.Q

/-- Two states with the same source models whose diagonalisers agree up to phases. -/
structure FastEq (s s' : Mnmf.FSt F n m t K) : Prop where
  Q : UpToPhase s.Q s'.Q
  T : s'.T = s.T
  V : s'.V = s.V
  D : s'.D = s.D

/-- The separated signals do not see the phases of the diagonaliser (nor which LAPACK is used). -/
theorem fastSeparate_eq (np np' : Numpy ℂ) (floor : ℝ → ℝ) (r : Fin m) (X : Spec F m t) {s s' : Mnmf.FSt F n m t K}
    (h : FastEq s s') : Mnmf.fastSeparate np' floor r X s' = Mnmf.fastSeparate np floor r X s := by
  obtain ⟨hQ, hT, hV, hD⟩ := h
  by_cases hu : ∀ f, IsUnit (s.Q f).det
  · have hu' : ∀ f, IsUnit (s'.Q f).det := fun f => (hQ.isUnit f).mpr (hu f)
    have i1 : npInvB s.Q = .ok fun f => (s.Q f)⁻¹ := by rw [npInvB, if_pos hu]
    have i2 : npInvB s'.Q = .ok fun f => (s'.Q f)⁻¹ := by rw [npInvB, if_pos hu']
    have hR : Mnmf.fastRn (fun f => (s'.Q f)⁻¹) s' = Mnmf.fastRn (fun f => (s.Q f)⁻¹) s := by
      obtain ⟨φ, hφ, e⟩ := hQ
      funext f j k
      ext a b
      simp only [Mnmf.fastRn, of_apply, hT, hV, hD, e]
      refine Finset.sum_congr rfl fun c _ => ?_
      rw [conjTranspose_apply, conjTranspose_apply, inv_phase (hφ f), inv_phase (hφ f), star_mul', star_star]
      linear_combination ((Ilrma.recon s.T s.V k f j * s.D f k c : ℝ) : ℂ) * (s.Q f)⁻¹ a c * star ((s.Q f)⁻¹ b c)
        * Phase.star_mul_of_norm (hφ f c)
    have hw : Mnmf.wiener (n := n) (m := m) np' floor r = Mnmf.wiener np floor r := by
      funext Rn x
      simp only [Mnmf.wiener, EigFree.toPsd_eq np' np]
    simp only [Mnmf.fastSeparate, i1, i2, Bind.bind, Except.bind, hR, hw]
  · have hu' : ¬ ∀ f, IsUnit (s'.Q f).det := fun h => hu fun f => (hQ.isUnit f).mp (h f)
    have i1 : npInvB s.Q = .error .linalg := by rw [npInvB, if_neg hu]
    have i2 : npInvB s'.Q = .error .linalg := by rw [npInvB, if_neg hu']
    simp only [Mnmf.fastSeparate, i1, i2, Bind.bind, Except.bind]

/-- C80: FastGaussMNMF with IP2: the diagonalisers agree up to phases; the source and spatial models, the recorded
losses and the separated signals agree exactly. -/
theorem C80_fast_mnmf_ip2 (np np' : Numpy ℂ) (normalization : Bool) (floor : ℝ → ℝ) (pairs : List (Fin m × Fin m))
    (X : Spec F m t) (s s' : Mnmf.FSt F n m t K) (h : FastEq s s') (n_iter : ℕ)
    (hreg : RegularRun (Mnmf.fastUpdateOnce np (.ip2 pairs) normalization floor X)
      (FastMnmfRegular np floor pairs X) n_iter s) :
    (∃ s₁ s₁', iterM (Mnmf.fastUpdateOnce np (.ip2 pairs) normalization floor X) n_iter s = .ok s₁ ∧
      iterM (Mnmf.fastUpdateOnce np' (.ip2 pairs) normalization floor X) n_iter s' = .ok s₁' ∧
      UpToPhase s₁.Q s₁'.Q ∧ s₁'.T = s₁.T ∧ s₁'.V = s₁.V ∧ s₁'.D = s₁.D ∧
      ∀ r, Mnmf.fastSeparate np' floor r X s₁' = Mnmf.fastSeparate np floor r X s₁) ∧
    lossList (Mnmf.fastUpdateOnce np (.ip2 pairs) normalization floor X) (fun s => .ok (Mnmf.fastLoss X s)) n_iter s
      = lossList (Mnmf.fastUpdateOnce np' (.ip2 pairs) normalization floor X) (fun s => .ok (Mnmf.fastLoss X s))
        n_iter s' := by
  have hlam : ∀ {s s' : Mnmf.FSt F n m t K}, FastEq s s' → Mnmf.lambD s' = Mnmf.lambD s := by
    intro s s' h
    funext f c j
    simp only [Mnmf.lambD, h.T, h.V, h.D]
  have step : ∀ s s' : Mnmf.FSt F n m t K, FastEq s s' → FastMnmfRegular np floor pairs X s →
      ∃ a a', Mnmf.fastUpdateOnce np (.ip2 pairs) normalization floor X s = .ok a ∧
        Mnmf.fastUpdateOnce np' (.ip2 pairs) normalization floor X s' = .ok a' ∧ FastEq a a' := by
    intro s s' h hr
    have hb : FastEq (Mnmf.fastUpdateBasis floor X s) (Mnmf.fastUpdateBasis floor X s') := by
      refine ⟨h.Q, ?_, h.V, h.D⟩
      funext k f b
      simp only [Mnmf.fastUpdateBasis, Mnmf.fastBasisRaw, (h.Q.separate X).norm_eq, hlam h, h.T, h.V, h.D]
    obtain ⟨s₂, e2⟩ : ∃ s₂, s₂ = Mnmf.fastUpdateBasis floor X s := ⟨_, rfl⟩
    obtain ⟨s₂', e2'⟩ : ∃ s₂', s₂' = Mnmf.fastUpdateBasis floor X s' := ⟨_, rfl⟩
    rw [← e2, ← e2'] at hb
    have ha : FastEq (Mnmf.fastUpdateActivation floor X s₂) (Mnmf.fastUpdateActivation floor X s₂') := by
      refine ⟨hb.Q, hb.T, ?_, hb.D⟩
      funext k b j
      simp only [Mnmf.fastUpdateActivation, Mnmf.fastActivationRaw, (hb.Q.separate X).norm_eq, hlam hb, hb.T, hb.V, hb.D]
    simp only [FastMnmfRegular, ← e2] at hr
    simp only [Mnmf.fastUpdateOnce, ← e2, ← e2']
    obtain ⟨s₃, e3⟩ : ∃ s₃, s₃ = Mnmf.fastUpdateActivation floor X s₂ := ⟨_, rfl⟩
    obtain ⟨s₃', e3'⟩ : ∃ s₃', s₃' = Mnmf.fastUpdateActivation floor X s₂' := ⟨_, rfl⟩
    rw [← e3, ← e3'] at ha
    rw [← e3] at hr
    rw [← e3, ← e3']
    obtain ⟨Q₁, Q₁', h1, h2, h3⟩ := spatialFilter_step np np' floor pairs _ X s₃.Q s₃'.Q ha.Q hr
    simp only [Mnmf.fastUpdateDiagonalizer, hlam ha, h1, h2, Bind.bind, Except.bind]
    refine ⟨_, _, rfl, rfl, ?_⟩
    have hd : FastEq (⟨Q₁, s₃.T, s₃.V, s₃.D⟩ : Mnmf.FSt F n m t K) ⟨Q₁', s₃'.T, s₃'.V, s₃'.D⟩ :=
      ⟨h3, ha.T, ha.V, ha.D⟩
    have hs : FastEq (Mnmf.fastUpdateSpatial X ⟨Q₁, s₃.T, s₃.V, s₃.D⟩)
        (Mnmf.fastUpdateSpatial X ⟨Q₁', s₃'.T, s₃'.V, s₃'.D⟩) := by
      refine ⟨hd.Q, hd.T, hd.V, ?_⟩
      funext f k c
      simp only [Mnmf.fastUpdateSpatial, (h3.separate X).norm_eq, hlam hd]
      rw [ha.T, ha.V, ha.D]
    cases normalization with
    | false => exact hs
    | true =>
      simp only [if_true]
      obtain ⟨s₄, e4⟩ : ∃ s₄, s₄ = Mnmf.fastUpdateSpatial X ⟨Q₁, s₃.T, s₃.V, s₃.D⟩ := ⟨_, rfl⟩
      obtain ⟨s₄', e4'⟩ : ∃ s₄', s₄' = Mnmf.fastUpdateSpatial X ⟨Q₁', s₃'.T, s₃'.V, s₃'.D⟩ := ⟨_, rfl⟩
      rw [← e4, ← e4'] at hs ⊢
      have hp : Mnmf.fastPsi floor X s₄' = Mnmf.fastPsi floor X s₄ := by
        funext c
        simp only [Mnmf.fastPsi, (hs.Q.separate X).norm_eq]
      refine ⟨?_, hs.T, hs.V, ?_⟩
      · simp only [Mnmf.fastNormalize, hp]
        exact hs.Q.divRows _
      · simp only [Mnmf.fastNormalize, hp, hs.D]
  constructor
  · obtain ⟨s₁, s₁', h1, h2, h3⟩ := iterM_rel _ _ _ _ step n_iter s s' h hreg
    exact ⟨s₁, s₁', h1, h2, h3.Q, h3.T, h3.V, h3.D, fun r => fastSeparate_eq np np' floor r X h3⟩
  · refine lossList_rel _ _ _ _ _ _ step (fun s s' h => ?_) n_iter s s' h hreg
    simp only [Mnmf.fastLoss, hlam h, (h.Q.separate X).norm_eq, h.Q.det]

/-! ## ISS2 -/

/-- What an ISS2 update of the pair `p` needs, in every bin: positive definite weighted covariances of the pair, and no
tie. -/
def Iss2Regular (phi : F → Fin n → Fin t → ℝ) (Y : Spec F n t) (p : Fin n × Fin n) : Prop :=
  ∀ f, (pairCov (phi f p.1) ![Y f p.1, Y f p.2]).PosDef ∧ (pairCov (phi f p.2) ![Y f p.1, Y f p.2]).PosDef ∧
    ¬ Phase.TieY (phi f) (Y f) p

theorem iss2_sweep (np np' : Numpy ℂ) (floor : ℝ → ℝ) (phi : F → Fin n → Fin t → ℝ) (pairs : List (Fin n × Fin n))
    (Y Y' : Spec F n t) (h : UpToPhase Y Y')
    (hreg : RegularFold (fun Y p => onBins fun f => iss2Pair np floor (phi f) (Y f) p) (Iss2Regular phi) pairs Y) :
    ∃ Y₁ Y₁', pairs.foldlM (fun Y p => onBins fun f => iss2Pair np floor (phi f) (Y f) p) Y = .ok Y₁ ∧
      pairs.foldlM (fun Y p => onBins fun f => iss2Pair np' floor (phi f) (Y f) p) Y' = .ok Y₁' ∧ UpToPhase Y₁ Y₁' := by
  refine foldlM_rel (fun Y p => onBins fun f => iss2Pair np floor (phi f) (Y f) p)
    (fun Y p => onBins fun f => iss2Pair np' floor (phi f) (Y f) p) UpToPhase (Iss2Regular phi) ?_ pairs Y Y' h hreg
  rintro Y Y' p ⟨φ, hφ, rfl⟩ hr
  have key := fun f => Phase.iss2Pair_phase np np' floor (hr f).1 (hr f).2.1 (hr f).2.2 (hφ f)
  choose Y₁ φ₁ h1 h2 h3 using key
  exact ⟨Y₁, _, onBins_ok h1, onBins_ok h2, φ₁, h3, rfl⟩

theorem UpToPhase.filterDet {Y Y' : Spec F n t} (h : UpToPhase Y Y') (X : Spec F n t) (I : F → Mat n ℂ) (f : F) :
    ‖(Y' f * (X f)ᴴ * I f).det‖ = ‖(Y f * (X f)ᴴ * I f).det‖ :=
  UpToPhase.det (UpToPhase.mul (UpToPhase.mul h fun f => (X f)ᴴ) I) f

/-- The filters that the outputs imply, `Y X^H (X X^H)^{-1}`, carry the same phases; the losses do not see them. -/
theorem lossFree_eq (G : Fin n → Fin t → ℝ → ℝ) (X : Spec F n t) {Y Y' : Spec F n t} (h : UpToPhase Y Y') :
    Iva.lossFree G X Y' = Iva.lossFree G X Y := by
  have hl : ∀ I : F → Mat n ℂ,
      Iva.ivaLoss G Y' (fun f => Y' f * (X f)ᴴ * I f) = Iva.ivaLoss G Y fun f => Y f * (X f)ᴴ * I f := by
    intro I
    rw [Iva.ivaLoss, Iva.ivaLoss, h.binNorm]
    have e : ∀ f, Real.log ‖(Y' f * (X f)ᴴ * I f).det‖ = Real.log ‖(Y f * (X f)ᴴ * I f).det‖ := fun f => by
      rw [h.filterDet X I f]
    rw [Finset.sum_congr rfl fun f _ => e f]
  simp only [Iva.lossFree, hl]

/-- Projection back of the outputs removes the phases. -/
theorem UpToPhase.projectionBackData {Y Y' : Spec F n t} (h : UpToPhase Y Y') (r : Fin n) (X : Spec F n t) :
    projectionBackData r Y' X = projectionBackData r Y X := by
  obtain ⟨φ, hφ, rfl⟩ := h
  have e : ∀ f, (Matrix.of fun i j => φ f i * Y f i j) = diagonal (φ f) * Y f := fun f => Phase.rot_eq (φ f) (Y f)
  have eYY : ∀ f, (Matrix.of fun i j => φ f i * Y f i j) * (Matrix.of fun i j => φ f i * Y f i j)ᴴ
      = diagonal (φ f) * (Y f * (Y f)ᴴ) * (diagonal (φ f))ᴴ := by
    intro f
    rw [e f, conjTranspose_mul]
    simp only [Matrix.mul_assoc]
  have hU : ∀ f, IsUnit ((Matrix.of fun i j => φ f i * Y f i j) * (Matrix.of fun i j => φ f i * Y f i j)ᴴ).det
      ↔ IsUnit (Y f * (Y f)ᴴ).det := by
    intro f
    have h1 := (isUnit_diag_phase (hφ f)).2
    have h2 : IsUnit ((diagonal (φ f))ᴴ : Mat n ℂ).det := by rw [det_conjTranspose]; exact h1.star
    rw [eYY, det_mul, det_mul, IsUnit.mul_iff, IsUnit.mul_iff]
    tauto
  simp only [Scale.projectionBackData, projectionBackScale]
  by_cases hu : ∀ f, IsUnit (Y f * (Y f)ᴴ).det
  · have i1 : npInvB (fun f => Y f * (Y f)ᴴ) = .ok fun f => (Y f * (Y f)ᴴ)⁻¹ := by rw [npInvB, if_pos hu]
    have i2 : npInvB (fun f => (Matrix.of fun i j => φ f i * Y f i j) * (Matrix.of fun i j => φ f i * Y f i j)ᴴ)
        = .ok fun f => ((Matrix.of fun i j => φ f i * Y f i j) * (Matrix.of fun i j => φ f i * Y f i j)ᴴ)⁻¹ := by
      rw [npInvB, if_pos fun f => (hU f).mpr (hu f)]
    rw [i1, i2]
    simp only [Bind.bind, Except.bind]
    congr 1
    funext f
    obtain ⟨hd1, hd2⟩ := isUnit_diag_phase (hφ f)
    have hstar : (diagonal (φ f))ᴴ = diagonal (star (φ f)) := diagonal_conjTranspose _
    have hd3 : (diagonal (star (φ f)) : Mat n ℂ) * diagonal (φ f) = 1 := mul_eq_one_comm.mp hd1
    have hs : X f * (Matrix.of fun i j => φ f i * Y f i j)ᴴ
          * ((Matrix.of fun i j => φ f i * Y f i j) * (Matrix.of fun i j => φ f i * Y f i j)ᴴ)⁻¹
        = X f * (Y f)ᴴ * (Y f * (Y f)ᴴ)⁻¹ * diagonal (star (φ f)) := by
      rw [eYY, e, conjTranspose_mul, hstar, Matrix.mul_inv_rev, Matrix.mul_inv_rev, inv_eq_right_inv hd1,
        inv_eq_right_inv hd3]
      simp only [← Matrix.mul_assoc]
      rw [Matrix.mul_assoc _ (diagonal (star (φ f))) (diagonal (φ f)), hd3, Matrix.mul_one]
    ext i k
    simp only [of_apply]
    rw [hs, mul_diagonal, Pi.star_apply]
    linear_combination (Y f i k * (X f * (Y f)ᴴ * (Y f * (Y f)ᴴ)⁻¹) r i) * Phase.mul_star_of_norm (hφ f i)
  · have i1 : npInvB (fun f => Y f * (Y f)ᴴ) = .error .linalg := by rw [npInvB, if_neg hu]
    have i2 : npInvB (fun f => (Matrix.of fun i j => φ f i * Y f i j) * (Matrix.of fun i j => φ f i * Y f i j)ᴴ)
        = .error .linalg := by
      rw [npInvB, if_neg fun h => hu fun f => (hU f).mp (h f)]
    rw [i1, i2]
    rfl

/-- What a run of AuxIVA-ISS2 visits; the weights are fixed during one iteration. -/
def AuxIss2Regular (np : Numpy ℂ) (floor : ℝ → ℝ) (pairs : List (Fin n × Fin n)) (d : Fin n → Fin t → ℝ → ℝ)
    (Y : Spec F n t) : Prop :=
  RegularFold (fun Y' p => onBins fun f => iss2Pair np floor (Iva.weight floor d Y) (Y' f) p)
    (Iss2Regular fun _ => Iva.weight floor d Y) pairs Y

theorem auxIss2_step (np np' : Numpy ℂ) (floor : ℝ → ℝ) (pairs : List (Fin n × Fin n)) (d : Fin n → Fin t → ℝ → ℝ)
    (Y Y' : Spec F n t) (h : UpToPhase Y Y') (hreg : AuxIss2Regular np floor pairs d Y) :
    ∃ Y₁ Y₁', Iva.auxIss2 np floor pairs d Y = .ok Y₁ ∧ Iva.auxIss2 np' floor pairs d Y' = .ok Y₁' ∧
      UpToPhase Y₁ Y₁' := by
  simp only [Iva.auxIss2, h.weight]
  exact iss2_sweep np np' floor (fun _ => Iva.weight floor d Y) pairs Y Y' h hreg

/-- C80: AuxIVA with ISS2: the outputs agree up to phases, projection back to any reference channel returns the same
signals, and the recorded losses are the same. -/
theorem C80_aux_iva_iss2 (np np' : Numpy ℂ) (floor : ℝ → ℝ) (pairs : List (Fin n × Fin n))
    (G d : Fin n → Fin t → ℝ → ℝ) (X Y Y' : Spec F n t) (h : UpToPhase Y Y') (n_iter : ℕ)
    (hreg : RegularRun (Iva.auxIss2 np floor pairs d) (AuxIss2Regular np floor pairs d) n_iter Y) :
    (∃ Y₁ Y₁', iterM (Iva.auxIss2 np floor pairs d) n_iter Y = .ok Y₁ ∧
      iterM (Iva.auxIss2 np' floor pairs d) n_iter Y' = .ok Y₁' ∧ UpToPhase Y₁ Y₁' ∧
      ∀ r, projectionBackData r Y₁' X = projectionBackData r Y₁ X) ∧
    lossList (Iva.auxIss2 np floor pairs d) (Iva.lossFree G X) n_iter Y
      = lossList (Iva.auxIss2 np' floor pairs d) (Iva.lossFree G X) n_iter Y' := by
  constructor
  · obtain ⟨Y₁, Y₁', h1, h2, h3⟩ := iterM_rel _ _ UpToPhase _
      (fun Y Y' h hr => auxIss2_step np np' floor pairs d Y Y' h hr) n_iter Y Y' h hreg
    exact ⟨Y₁, Y₁', h1, h2, h3, fun r => h3.projectionBackData r X⟩
  · exact lossList_rel _ _ _ _ UpToPhase _ (fun Y Y' h hr => auxIss2_step np np' floor pairs d Y Y' h hr)
      (fun Y Y' h => (lossFree_eq G X h).symm) n_iter Y Y' h hreg

/-- C80: AuxGaussIVA with ISS2. -/
theorem C80_aux_gauss_iva_iss2 (np np' : Numpy ℂ) (floor : ℝ → ℝ) (pairs : List (Fin n × Fin n)) (X : Spec F n t)
    (s s' : Iva.GaussSignal F n t) (h : UpToPhase s.Y s'.Y) (hv : s'.variance = s.variance) (n_iter : ℕ)
    (hreg : RegularRun (Iva.gaussIss2 np floor pairs)
      (fun s => AuxIss2Regular np floor pairs (Iva.gaussD (Iva.gaussVariance s.Y)) s.Y) n_iter s) :
    (∃ s₁ s₁', iterM (Iva.gaussIss2 np floor pairs) n_iter s = .ok s₁ ∧
      iterM (Iva.gaussIss2 np' floor pairs) n_iter s' = .ok s₁' ∧ UpToPhase s₁.Y s₁'.Y ∧
      s₁'.variance = s₁.variance ∧ ∀ r, projectionBackData r s₁'.Y X = projectionBackData r s₁.Y X) ∧
    lossList (Iva.gaussIss2 np floor pairs) (Iva.gaussLossFree X) n_iter s
      = lossList (Iva.gaussIss2 np' floor pairs) (Iva.gaussLossFree X) n_iter s' := by
  have step : ∀ s s' : Iva.GaussSignal F n t, (UpToPhase s.Y s'.Y ∧ s'.variance = s.variance) →
      AuxIss2Regular np floor pairs (Iva.gaussD (Iva.gaussVariance s.Y)) s.Y →
      ∃ a a', Iva.gaussIss2 np floor pairs s = .ok a ∧ Iva.gaussIss2 np' floor pairs s' = .ok a' ∧
        (UpToPhase a.Y a'.Y ∧ a'.variance = a.variance) := by
    intro s s' h hr
    have hvar : Iva.gaussVariance s'.Y = Iva.gaussVariance s.Y := by
      funext k j
      simp only [Iva.gaussVariance, h.1.norm_eq]
    obtain ⟨Y₁, Y₁', h1, h2, h3⟩ := auxIss2_step np np' floor pairs _ s.Y s'.Y h.1 hr
    simp only [Iva.gaussIss2, hvar, h1, h2]
    exact ⟨_, _, rfl, rfl, h3, rfl⟩
  constructor
  · obtain ⟨s₁, s₁', h1, h2, h3⟩ := iterM_rel _ _ _ _ step n_iter s s' ⟨h, hv⟩ hreg
    exact ⟨s₁, s₁', h1, h2, h3.1, h3.2, fun r => h3.1.projectionBackData r X⟩
  · exact lossList_rel _ _ _ _ _ _ step
      (fun s s' h => by rw [Iva.gaussLossFree, Iva.gaussLossFree, h.2, lossFree_eq _ X h.1]) n_iter s s' ⟨h, hv⟩ hreg

end EigPhase

end Verif
