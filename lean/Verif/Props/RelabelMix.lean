import Verif.Props.Relabel
import Verif.Model.CacgmmCall

/-! # C96 for MNMF, FastMNMF, CACGMM and AuxFDICA

The methods below update all sources at once, so that the sources can be renumbered along with the bins and the components. -/

set_option linter.unusedSectionVars false

namespace Verif.Relabel

open Matrix Scale
open Lifecycle (Attr)
open _root_.Verif.Spatial (onBins onBins_ok onBins_map npSolve meanT)
open Rotation (baseCall_map)
open IlrmaCall (override attrOr initNmf initNmfP initLatent baseCall)
open _root_.Verif.Relabel.Ilrma (reT reV reTP reVP reZ)

variable {F : Type} [Fintype F] {n m t K : ℕ}

/-- A tensor indexed by source and bin with the sources numbered by `σ` and the bins by `ρ`. -/
abbrev re2 {I J α : Type} (σ : Equiv.Perm I) (ρ : Equiv.Perm J) (A : I → J → α) : I → J → α := fun k f => A (σ k) (ρ f)

theorem onBins2_re {I J α : Type} [Fintype I] [Fintype J] (σ : Equiv.Perm I) (ρ : Equiv.Perm J) (g : I → J → Except PyErr α) :
    (onBins fun i => onBins fun j => g (σ i) (ρ j)) = Except.map (re2 σ ρ) (onBins fun i => onBins (g i)) := by
  have h : ∀ i, (onBins fun j => g (σ i) (ρ j)) = Except.map (re ρ) (onBins (g (σ i))) := fun i => onBins_re ρ (g (σ i))
  simp only [h]
  rw [onBins_re σ fun i => Except.map (re ρ) (onBins (g i)), onBins_map (fun i => onBins (g i)) fun _ => re ρ]
  cases onBins fun i => onBins (g i) <;> rfl

namespace Mnmf

open _root_.Verif.Mnmf
open _root_.Verif.Ilrma (recon reconP FilterAlg)
open MnmfCall (Out eyeOverTrace)

variable (ρ : Equiv.Perm F) (σ : Equiv.Perm (Fin n))

/-- The output with the bins and the sources renumbered. -/
abbrev reY (Y : Out F n t) : Out F n t := fun f j k => Y (ρ f) j (σ k)

theorem wiener_re (np : Numpy ℂ) (floor : ℝ → ℝ) (r : Fin m) (Rn : Fin n → Mat m ℂ) (x : Fin m → ℂ) :
    wiener np floor r (re σ Rn) x = Except.map (re σ) (wiener np floor r Rn x) := by
  have h : ∑ k, re σ Rn k = ∑ k, Rn k := Equiv.sum_comp σ Rn
  simp only [wiener, h]
  rw [onBins_re σ fun k => npSolve (toPsd np floor (∑ k, Rn k)) (Rn k), bind_map, map_bind]
  rfl

theorem fullR_re (L : Fin n → F → Fin t → ℝ) (H : Fin n → F → Mat m ℂ) (f : F) (j : Fin t) :
    fullR (re2 σ ρ L) (re2 σ ρ H) f j = fullR L H (ρ f) j :=
  Equiv.sum_comp σ fun k => fullRn L H (ρ f) j k

theorem fullSeparate_re (np : Numpy ℂ) (floor : ℝ → ℝ) (r : Fin m) (X : Spec F m t) (L : Fin n → F → Fin t → ℝ)
    (H : Fin n → F → Mat m ℂ) :
    fullSeparate np floor r (re ρ X) (re2 σ ρ L) (re2 σ ρ H) = Except.map (reY ρ σ) (fullSeparate np floor r X L H) := by
  have h : ∀ f, (onBins fun j => wiener np floor r (fullRn (re2 σ ρ L) (re2 σ ρ H) f j) fun c => re ρ X f c j)
      = Except.map (fun Y j => re σ (Y j)) (onBins fun j => wiener np floor r (fullRn L H (ρ f) j) fun c => X (ρ f) c j) := by
    intro f
    rw [← onBins_map (e := fun _ => re σ)]
    congr 1
    funext j
    exact wiener_re σ np floor r (fullRn L H (ρ f) j) fun c => X (ρ f) c j
  rw [fullSeparate]
  simp only [h]
  rw [onBins_re ρ fun f => Except.map (fun (Y : Fin t → Fin n → ℂ) j => re σ (Y j))
      (onBins fun j => wiener np floor r (fullRn L H f j) fun c => X f c j),
    onBins_map (e := fun _ (Y : Fin t → Fin n → ℂ) j => re σ (Y j))]
  rw [fullSeparate]
  cases onBins fun f => onBins fun j => wiener np floor r (fullRn L H f j) fun c => X f c j <;> rfl

theorem fullLoss_re (np : Numpy ℂ) (floor : ℝ → ℝ) (XX : F → Fin t → Mat m ℂ) (L : Fin n → F → Fin t → ℝ)
    (H : Fin n → F → Mat m ℂ) :
    fullLoss np floor (re ρ XX) (re2 σ ρ L) (re2 σ ρ H) = fullLoss np floor XX L H := by
  simp only [fullLoss, fullR_re]
  rw [onBins_re ρ fun f => onBins fun j => npSolve (toPsd np floor (fullR L H f j)) (XX f j), bind_map]
  congr 1
  funext A
  exact congrArg Except.ok (Equiv.sum_comp ρ fun f =>
    meanT fun j => (A f j).trace.re + Real.log ‖(toPsd np floor (fullR L H f j)).det‖)

theorem traces_re (R XX : F → Fin t → Mat m ℂ) (H : Fin n → F → Mat m ℂ) :
    traces (re ρ R) (re ρ XX) (re2 σ ρ H) = Except.map (fun p => (re2 σ ρ p.1, re2 σ ρ p.2)) (traces R XX H) := by
  simp only [traces]
  rw [onBins_re ρ fun f => onBins fun j => npSolve (R f j) (XX f j), bind_map, map_bind]
  congr 1
  funext RXX
  rw [onBins2_re σ ρ fun k f => onBins fun j => npSolve (R f j) (H k f), bind_map, map_bind]
  rfl

theorem fullUpdateSpatial_re (np : Numpy ℂ) (floor : ℝ → ℝ) (XX : F → Fin t → Mat m ℂ) (L : Fin n → F → Fin t → ℝ)
    (H : Fin n → F → Mat m ℂ) :
    fullUpdateSpatial np floor (re ρ XX) (re2 σ ρ L) (re2 σ ρ H) = Except.map (re2 σ ρ) (fullUpdateSpatial np floor XX L H) := by
  simp only [fullUpdateSpatial, fullR_re]
  rw [onBins_re ρ fun f => onBins fun j => npInv (toPsd np floor (fullR L H f j)), bind_map, map_bind]
  congr 1
  funext Ri
  exact onBins2_re σ ρ fun k f => (Linalg.gmeanmh np (toPsd np floor (∑ j, (L k f j : ℂ) • Ri f j))
    (toPsd np floor (H k f * (∑ j, (L k f j : ℂ) • (Ri f j * XX f j * Ri f j)) * H k f)) 2 >>= fun H' => .ok (toPsd np floor H'))

variable (π : Fin n → Equiv.Perm (Fin K))

/-- The state with bins, sources and components renumbered. -/
def reM (s : MSt F n m t K) : MSt F n m t K := ⟨reT ρ π (re σ s.T), reV π (re σ s.V), re2 σ ρ s.H⟩

theorem recon_re2 (T : Fin n → F → Fin K → ℝ) (V : Fin n → Fin K → Fin t → ℝ) :
    recon (reT ρ π (re σ T)) (reV π (re σ V)) = re2 σ ρ (recon T V) := by
  funext k f j
  exact Ilrma.recon_re ρ π (re σ T) (re σ V) k f j

theorem fullUpdateBasis_re (np : Numpy ℂ) (floor : ℝ → ℝ) (XX : F → Fin t → Mat m ℂ) (s : MSt F n m t K) :
    fullUpdateBasis np floor (re ρ XX) (reM ρ σ π s) = Except.map (reM ρ σ π) (fullUpdateBasis np floor XX s) := by
  simp only [fullUpdateBasis, reM, recon_re2, fullR_re]
  have h := traces_re ρ σ (fun f j => toPsd np floor (fullR (recon s.T s.V) s.H f j)) XX s.H
  rw [h, bind_map, map_bind]
  rfl

theorem fullUpdateActivation_re (np : Numpy ℂ) (floor : ℝ → ℝ) (XX : F → Fin t → Mat m ℂ) (s : MSt F n m t K) :
    fullUpdateActivation np floor (re ρ XX) (reM ρ σ π s) = Except.map (reM ρ σ π) (fullUpdateActivation np floor XX s) := by
  simp only [fullUpdateActivation, reM, recon_re2, fullR_re]
  have h := traces_re ρ σ (fun f j => toPsd np floor (fullR (recon s.T s.V) s.H f j)) XX s.H
  rw [h, bind_map, map_bind]
  congr 1
  funext p
  obtain ⟨A, B⟩ := p
  refine congrArg Except.ok ?_
  have e : ∀ (C : Fin n → F → Fin t → ℝ) k b j,
      ∑ f, reT ρ π (re σ s.T) k f b * re2 σ ρ C k f j = ∑ f, s.T (σ k) f (π k b) * C (σ k) f j := fun C k b j =>
    Equiv.sum_comp ρ fun f => s.T (σ k) f (π k b) * C (σ k) f j
  simp only [e]
  rfl

theorem fullUpdateOnce_re (np : Numpy ℂ) (norm : Bool) (floor : ℝ → ℝ) (XX : F → Fin t → Mat m ℂ) (s : MSt F n m t K) :
    fullUpdateOnce np norm floor (re ρ XX) (reM ρ σ π s) = Except.map (reM ρ σ π) (fullUpdateOnce np norm floor XX s) := by
  rw [fullUpdateOnce, fullUpdateOnce, fullUpdateBasis_re, bind_map, map_bind]
  congr 1
  funext s1
  rw [fullUpdateActivation_re, bind_map, map_bind]
  congr 1
  funext s2
  have h := fullUpdateSpatial_re ρ σ np floor XX (recon s2.T s2.V) s2.H
  rw [← recon_re2 ρ σ π] at h
  change (fullUpdateSpatial np floor (re ρ XX) (recon (reT ρ π (re σ s2.T)) (reV π (re σ s2.V))) (re2 σ ρ s2.H) >>= _) = _
  rw [h, bind_map, map_bind]
  cases norm <;> rfl

theorem initNmf_re2 (floor : ℝ → ℝ) (dT : Fin n → F → Fin K → ℝ) (dV : Fin n → Fin K → Fin t → ℝ)
    (kT : Option (Fin n → F → Fin K → ℝ)) (kV : Option (Fin n → Fin K → Fin t → ℝ)) (oT : Attr (Fin n → F → Fin K → ℝ))
    (oV : Attr (Fin n → Fin K → Fin t → ℝ)) :
    initNmf floor (reT ρ π (re σ dT)) (reV π (re σ dV)) (override (kT.map fun T => reT ρ π (re σ T)) (mapA (fun T => reT ρ π (re σ T)) oT))
        (override (kV.map fun V => reV π (re σ V)) (mapA (fun V => reV π (re σ V)) oV))
      = Except.map (fun p => (reT ρ π (re σ p.1), reV π (re σ p.2))) (initNmf floor dT dV (override kT oT) (override kV oV)) := by
  have h1 := attrOr_re (fun T => reT ρ π (re σ T)) (fun k f b => floor (dT k f b)) kT oT
  have h2 := attrOr_re (fun V => reV π (re σ V)) (fun k b j => floor (dV k b j)) kV oV
  simp only [initNmf]
  rw [h1, h2, bind_map, map_bind]
  congr 1
  funext T
  rw [bind_map, map_bind]
  rfl

/-- The attributes of `GaussMNMF` with bins, sources and components renumbered. -/
def reObj (o : MnmfCall.Obj F n m t K) : MnmfCall.Obj F n m t K :=
  ⟨mapA (fun T => reT ρ π (re σ T)) o.basis, mapA (fun V => reV π (re σ V)) o.activation, mapA (re2 σ ρ) o.spatial,
    mapA (reY ρ σ) o.output, o.loss⟩

/-- The keyword arguments of `GaussMNMF` with bins, sources and components renumbered. -/
def reKw (kw : MnmfCall.Kw F n m t K) : MnmfCall.Kw F n m t K :=
  ⟨kw.basis.map fun T => reT ρ π (re σ T), kw.activation.map fun V => reV π (re σ V), kw.spatial.map (re2 σ ρ)⟩

/-- The random numbers with bins, sources and components renumbered. -/
def reDraw (d : IlrmaCall.Draw F n t K) : IlrmaCall.Draw F n t K := ⟨reT ρ π (re σ d.T), reV π (re σ d.V)⟩

/-- **C96.** `GaussMNMF` does not see how the bins, the sources and the components of every source are numbered: renumbering
them in the recording, the random numbers, the keyword arguments and the attributes renumbers everything a call leaves behind
and does not change the losses. -/
theorem C96_mnmf (np : Numpy ℂ) (norm : Bool) (floor : ℝ → ℝ) (r : Fin m) (draw : IlrmaCall.Draw F n t K) (X : Spec F m t) (n_iter : ℕ)
    (ic : Bool) (kw : MnmfCall.Kw F n m t K) (o : MnmfCall.Obj F n m t K) :
    MnmfCall.call np norm floor r (reDraw ρ σ π draw) (re ρ X) n_iter ic (reKw ρ σ π kw) (reObj ρ σ π o)
      = Except.map (reObj ρ σ π) (MnmfCall.call np norm floor r draw X n_iter ic kw o) := by
  have h1 : MnmfCall.reset np floor r (reDraw ρ σ π draw) (re ρ X) (reKw ρ σ π kw) (reObj ρ σ π o)
      = Except.map (reM ρ σ π) (MnmfCall.reset np floor r draw X kw o) := by
    rw [MnmfCall.reset, MnmfCall.reset]
    have h := initNmf_re2 ρ σ π floor draw.T draw.V kw.basis kw.activation o.basis o.activation
    simp only [reDraw, reKw, reObj]
    rw [h, bind_map, map_bind]
    congr 1
    funext p
    obtain ⟨T, V⟩ := p
    have h2 := attrOr_re (re2 σ ρ) (fun _ _ => eyeOverTrace m) kw.spatial o.spatial
    change (attrOr (re2 σ ρ fun _ _ => eyeOverTrace m) _ >>= _) = _
    rw [h2, bind_map, map_bind]
    congr 1
    funext H
    dsimp only
    rw [recon_re2, fullSeparate_re, bind_map, map_bind]
    rfl
  rw [MnmfCall.call, MnmfCall.call, h1, bind_map, map_bind]
  congr 1
  funext s
  have hXX : instantCovariance np floor (re ρ X) = re ρ (instantCovariance np floor X) := rfl
  dsimp only
  rw [hXX]
  generalize instantCovariance np floor X = XX
  have h2 := baseCall_map (e := reM ρ σ π) (fullUpdateOnce_re ρ σ π np norm floor XX)
    (loss' := fun s => fullLoss np floor (re ρ XX) (recon s.T s.V) s.H)
    (loss := fun s => fullLoss np floor XX (recon s.T s.V) s.H)
    (fun s => by
      change fullLoss np floor (re ρ XX) (recon (reT ρ π (re σ s.T)) (reV π (re σ s.V))) (re2 σ ρ s.H) = _
      rw [recon_re2, fullLoss_re]) ic n_iter s o.loss
  change (baseCall _ _ ic n_iter (reM ρ σ π s) o.loss >>= _) = _
  rw [h2, bind_map, map_bind]
  congr 1
  funext q
  obtain ⟨s, ls⟩ := q
  change (fullSeparate np floor r (re ρ X) (recon (reT ρ π (re σ s.T)) (reV π (re σ s.V))) (re2 σ ρ s.H) >>= _) = _
  rw [recon_re2, fullSeparate_re, bind_map, map_bind]
  rfl

/-- Two sources, two bins and two components: swapping the sources, the bins and the components of the first source in the random
numbers and the bins of the recording swaps the sources and the bins of the output of a fresh object, component `b` of the new
first basis is the other component of the old second one, and the losses stay. -/
example (np : Numpy ℂ) (draw : IlrmaCall.Draw (Fin 2) 2 t 2) (X : Spec (Fin 2) 2 t) (o' : MnmfCall.Obj (Fin 2) 2 2 t 2)
    (h : MnmfCall.call np true (fun x => max x (1 / 10)) 0 draw X 50 true {} .fresh = .ok o') :
    ∃ o : MnmfCall.Obj (Fin 2) 2 2 t 2,
      MnmfCall.call np true (fun x => max x (1 / 10)) 0
        (reDraw (Equiv.swap 0 1) (Equiv.swap 0 1) (fun k => if k = 0 then Equiv.swap 0 1 else 1) draw) (fun f => X (Equiv.swap 0 1 f))
        50 true {} .fresh = .ok o ∧ o.loss = o'.loss ∧
      (∀ Y, o'.output = .val Y → o.output = .val fun f j k => Y (Equiv.swap 0 1 f) j (Equiv.swap 0 1 k)) ∧
      (∀ T, o'.basis = .val T → ∃ T', o.basis = .val T' ∧ ∀ f b, T' 0 f b = T 1 (Equiv.swap 0 1 f) (Equiv.swap 0 1 b)) := by
  refine ⟨reObj (Equiv.swap 0 1) (Equiv.swap 0 1) (fun k => if k = 0 then Equiv.swap 0 1 else 1) o', ?_, rfl, fun Y hY => ?_,
    fun T hT => ⟨reT (Equiv.swap 0 1) (fun k => if k = 0 then Equiv.swap 0 1 else 1) (re (Equiv.swap 0 1) T), ?_, fun f b => rfl⟩⟩
  · refine (C96_mnmf (Equiv.swap 0 1) (Equiv.swap 0 1) (fun k => if k = 0 then Equiv.swap 0 1 else 1) np true _ 0 draw X 50 true {}
      .fresh).trans ?_
    rw [h]
    rfl
  · simp only [reObj, hY]
    rfl
  · simp only [reObj, hT]
    rfl

/-! ### With a partitioning function -/

variable (τ : Equiv.Perm (Fin K))

theorem reconP_re2 (Z : Fin n → Fin K → ℝ) (T : F → Fin K → ℝ) (V : Fin K → Fin t → ℝ) :
    reconP (re2 σ τ Z) (reTP ρ τ T) (reVP τ V) = re2 σ ρ (reconP Z T V) := by
  funext k f j
  exact Ilrma.reconP_re ρ τ (re σ Z) T V k f j

/-- The state with bins, sources and components renumbered. -/
def reMP (s : MStP F n m t K) : MStP F n m t K := ⟨re2 σ τ s.Z, reTP ρ τ s.T, reVP τ s.V, re2 σ ρ s.H⟩

theorem tracesP_re (np : Numpy ℂ) (floor : ℝ → ℝ) (XX : F → Fin t → Mat m ℂ) (s : MStP F n m t K) :
    traces (fun f j => toPsd np floor ((reMP ρ σ τ s).R f j)) (re ρ XX) (reMP ρ σ τ s).H
      = Except.map (fun p => (re2 σ ρ p.1, re2 σ ρ p.2)) (traces (fun f j => toPsd np floor (s.R f j)) XX s.H) := by
  have h := traces_re ρ σ (fun f j => toPsd np floor (s.R f j)) XX s.H
  rw [← h]
  congr 1
  funext f j
  simp only [MStP.R, reMP, reconP_re2, fullR_re]

theorem fullUpdateBasisP_re (np : Numpy ℂ) (floor : ℝ → ℝ) (XX : F → Fin t → Mat m ℂ) (s : MStP F n m t K) :
    fullUpdateBasisP np floor (re ρ XX) (reMP ρ σ τ s) = Except.map (reMP ρ σ τ) (fullUpdateBasisP np floor XX s) := by
  rw [fullUpdateBasisP, fullUpdateBasisP, tracesP_re, bind_map, map_bind]
  congr 1
  funext p
  obtain ⟨A, B⟩ := p
  refine congrArg Except.ok ?_
  have e : ∀ (C : Fin n → F → Fin t → ℝ) f b,
      ∑ k, (reMP ρ σ τ s).Z k b * ∑ j, (reMP ρ σ τ s).V b j * re2 σ ρ C k f j
        = ∑ k, s.Z k (τ b) * ∑ j, s.V (τ b) j * C k (ρ f) j := fun C f b =>
    Equiv.sum_comp σ fun k => s.Z k (τ b) * ∑ j, s.V (τ b) j * C k (ρ f) j
  simp only [e]
  rfl

theorem fullUpdateActivationP_re (np : Numpy ℂ) (floor : ℝ → ℝ) (XX : F → Fin t → Mat m ℂ) (s : MStP F n m t K) :
    fullUpdateActivationP np floor (re ρ XX) (reMP ρ σ τ s) = Except.map (reMP ρ σ τ) (fullUpdateActivationP np floor XX s) := by
  rw [fullUpdateActivationP, fullUpdateActivationP, tracesP_re, bind_map, map_bind]
  congr 1
  funext p
  obtain ⟨A, B⟩ := p
  refine congrArg Except.ok ?_
  have e : ∀ (C : Fin n → F → Fin t → ℝ) b j,
      ∑ k, (reMP ρ σ τ s).Z k b * ∑ f, (reMP ρ σ τ s).T f b * re2 σ ρ C k f j
        = ∑ k, s.Z k (τ b) * ∑ f, s.T f (τ b) * C k f j := fun C b j => by
    rw [← Equiv.sum_comp σ fun k => s.Z k (τ b) * ∑ f, s.T f (τ b) * C k f j]
    refine Finset.sum_congr rfl fun k _ => ?_
    rw [← Equiv.sum_comp ρ fun f => s.T f (τ b) * C (σ k) f j]
    rfl
  simp only [e]
  rfl

theorem fullUpdateLatent_re (np : Numpy ℂ) (floor : ℝ → ℝ) (XX : F → Fin t → Mat m ℂ) (s : MStP F n m t K) :
    fullUpdateLatent np floor (re ρ XX) (reMP ρ σ τ s) = Except.map (reMP ρ σ τ) (fullUpdateLatent np floor XX s) := by
  rw [fullUpdateLatent, fullUpdateLatent, tracesP_re, bind_map, map_bind]
  congr 1
  funext p
  obtain ⟨A, B⟩ := p
  refine congrArg Except.ok ?_
  have e : ∀ (C : Fin n → F → Fin t → ℝ) k b,
      ∑ f, (reMP ρ σ τ s).T f b * ∑ j, (reMP ρ σ τ s).V b j * re2 σ ρ C k f j
        = ∑ f, s.T f (τ b) * ∑ j, s.V (τ b) j * C (σ k) f j := fun C k b =>
    Equiv.sum_comp ρ fun f => s.T f (τ b) * ∑ j, s.V (τ b) j * C (σ k) f j
  simp only [e]
  have e2 : ∀ b, ∑ k, (reMP ρ σ τ s).Z k b * Real.sqrt ((∑ f, s.T f (τ b) * ∑ j, s.V (τ b) j * A (σ k) f j)
        / ∑ f, s.T f (τ b) * ∑ j, s.V (τ b) j * B (σ k) f j)
      = ∑ k, s.Z k (τ b) * Real.sqrt ((∑ f, s.T f (τ b) * ∑ j, s.V (τ b) j * A k f j)
        / ∑ f, s.T f (τ b) * ∑ j, s.V (τ b) j * B k f j) := fun b =>
    Equiv.sum_comp σ fun k => s.Z k (τ b) * Real.sqrt ((∑ f, s.T f (τ b) * ∑ j, s.V (τ b) j * A k f j)
        / ∑ f, s.T f (τ b) * ∑ j, s.V (τ b) j * B k f j)
  simp only [e2]
  rfl

theorem fullUpdateOnceP_re (np : Numpy ℂ) (norm : Bool) (floor : ℝ → ℝ) (XX : F → Fin t → Mat m ℂ) (s : MStP F n m t K) :
    fullUpdateOnceP np norm floor (re ρ XX) (reMP ρ σ τ s) = Except.map (reMP ρ σ τ) (fullUpdateOnceP np norm floor XX s) := by
  rw [fullUpdateOnceP, fullUpdateOnceP, fullUpdateBasisP_re, bind_map, map_bind]
  congr 1
  funext s1
  rw [fullUpdateActivationP_re, bind_map, map_bind]
  congr 1
  funext s2
  have h := fullUpdateSpatial_re ρ σ np floor XX (reconP s2.Z s2.T s2.V) s2.H
  rw [← reconP_re2 ρ σ τ] at h
  change (fullUpdateSpatial np floor (re ρ XX) (reconP (re2 σ τ s2.Z) (reTP ρ τ s2.T) (reVP τ s2.V)) (re2 σ ρ s2.H) >>= _) = _
  rw [h, bind_map, map_bind]
  congr 1
  funext H
  cases norm
  · exact fullUpdateLatent_re ρ σ τ np floor XX ⟨s2.Z, s2.T, s2.V, H⟩
  · exact fullUpdateLatent_re ρ σ τ np floor XX (fullNormalizeP ⟨s2.Z, s2.T, s2.V, H⟩)

/-- The attributes of the partitioned `GaussMNMF` with bins, sources and components renumbered. -/
def reObjP (o : MnmfCall.ObjP F n m t K) : MnmfCall.ObjP F n m t K :=
  ⟨mapA (re2 σ τ) o.latent, mapA (reTP ρ τ) o.basis, mapA (reVP τ) o.activation, mapA (re2 σ ρ) o.spatial,
    mapA (reY ρ σ) o.output, o.loss⟩

/-- The keyword arguments of the partitioned `GaussMNMF` with bins, sources and components renumbered. -/
def reKwP (kw : MnmfCall.KwP F n m t K) : MnmfCall.KwP F n m t K :=
  ⟨kw.latent.map (re2 σ τ), kw.basis.map (reTP ρ τ), kw.activation.map (reVP τ), kw.spatial.map (re2 σ ρ)⟩

/-- The random numbers with bins, sources and components renumbered. -/
def reDrawP (d : IlrmaCall.DrawP F n t K) : IlrmaCall.DrawP F n t K := ⟨re2 σ τ d.Z, reTP ρ τ d.T, reVP τ d.V⟩

/-- C96: the same for the partitioned `GaussMNMF`, where the sources share the components. -/
theorem C96_mnmf_partitioned (np : Numpy ℂ) (norm : Bool) (floor : ℝ → ℝ) (r : Fin m) (draw : IlrmaCall.DrawP F n t K)
    (X : Spec F m t) (n_iter : ℕ) (ic : Bool) (kw : MnmfCall.KwP F n m t K) (o : MnmfCall.ObjP F n m t K) :
    MnmfCall.callP np norm floor r (reDrawP ρ σ τ draw) (re ρ X) n_iter ic (reKwP ρ σ τ kw) (reObjP ρ σ τ o)
      = Except.map (reObjP ρ σ τ) (MnmfCall.callP np norm floor r draw X n_iter ic kw o) := by
  have h1 : MnmfCall.resetP np floor r (reDrawP ρ σ τ draw) (re ρ X) (reKwP ρ σ τ kw) (reObjP ρ σ τ o)
      = Except.map (reMP ρ σ τ) (MnmfCall.resetP np floor r draw X kw o) := by
    rw [MnmfCall.resetP, MnmfCall.resetP, initNmfP, initNmfP]
    have hL : initLatent floor (re2 σ τ draw.Z) = re2 σ τ (initLatent floor draw.Z) := by
      funext k b
      simp only [initLatent]
      rw [← Equiv.sum_comp σ fun k => draw.Z k (τ b)]
    have h0 := attrOr_re (re2 σ τ) (initLatent floor draw.Z) kw.latent o.latent
    have h2 := attrOr_re (reTP ρ τ) (fun f b => floor (draw.T f b)) kw.basis o.basis
    have h3 := attrOr_re (reVP τ) (fun b j => floor (draw.V b j)) kw.activation o.activation
    have h4 := attrOr_re (re2 σ ρ) (fun _ _ => eyeOverTrace m) kw.spatial o.spatial
    simp only [reDrawP, reKwP, reObjP, hL]
    rw [h0, h2, h3]
    cases attrOr (initLatent floor draw.Z) (override kw.latent o.latent) with
    | error => rfl
    | ok Z =>
    cases attrOr (fun f b => floor (draw.T f b)) (override kw.basis o.basis) with
    | error => rfl
    | ok T =>
    cases attrOr (fun b j => floor (draw.V b j)) (override kw.activation o.activation) with
    | error => rfl
    | ok V =>
    change (attrOr (re2 σ ρ fun _ _ => eyeOverTrace m) _ >>= fun H => fullSeparate np floor r (re ρ X)
      (reconP (re2 σ τ Z) (reTP ρ τ T) (reVP τ V)) H >>= fun _ => _) = Except.map (reMP ρ σ τ)
      (attrOr (fun _ _ => eyeOverTrace m) _ >>= fun H => fullSeparate np floor r X (reconP Z T V) H >>= fun _ => _)
    rw [h4, bind_map, map_bind]
    congr 1
    funext H
    rw [reconP_re2, fullSeparate_re, bind_map, map_bind]
    rfl
  rw [MnmfCall.callP, MnmfCall.callP, h1, bind_map, map_bind]
  congr 1
  funext s
  have hXX : instantCovariance np floor (re ρ X) = re ρ (instantCovariance np floor X) := rfl
  dsimp only
  rw [hXX]
  generalize instantCovariance np floor X = XX
  have h2 := baseCall_map (e := reMP ρ σ τ) (fullUpdateOnceP_re ρ σ τ np norm floor XX)
    (loss' := fun s => fullLoss np floor (re ρ XX) (reconP s.Z s.T s.V) s.H)
    (loss := fun s => fullLoss np floor XX (reconP s.Z s.T s.V) s.H)
    (fun s => by
      change fullLoss np floor (re ρ XX) (reconP (re2 σ τ s.Z) (reTP ρ τ s.T) (reVP τ s.V)) (re2 σ ρ s.H) = _
      rw [reconP_re2, fullLoss_re]) ic n_iter s o.loss
  change (baseCall _ _ ic n_iter (reMP ρ σ τ s) o.loss >>= _) = _
  rw [h2, bind_map, map_bind]
  congr 1
  funext q
  obtain ⟨s, ls⟩ := q
  change (fullSeparate np floor r (re ρ X) (reconP (re2 σ τ s.Z) (reTP ρ τ s.T) (reVP τ s.V)) (re2 σ ρ s.H) >>= _) = _
  rw [reconP_re2, fullSeparate_re, bind_map, map_bind]
  rfl

/-! ### `FastGaussMNMF` -/

/-- The state with bins, sources and components renumbered. -/
def reF (s : FSt F n m t K) : FSt F n m t K := ⟨re ρ s.Q, reT ρ π (re σ s.T), reV π (re σ s.V), re2 ρ σ s.D⟩

theorem lambD_re (s : FSt F n m t K) (f : F) (c : Fin m) (j : Fin t) : lambD (reF ρ σ π s) f c j = lambD s (ρ f) c j := by
  simp only [lambD, reF, recon_re2]
  exact Equiv.sum_comp σ fun k => recon s.T s.V k (ρ f) j * s.D (ρ f) k c

theorem fastUpdateBasis_re (floor : ℝ → ℝ) (X : Spec F m t) (s : FSt F n m t K) :
    fastUpdateBasis floor (re ρ X) (reF ρ σ π s) = reF ρ σ π (fastUpdateBasis floor X s) := by
  simp only [fastUpdateBasis, fastBasisRaw, lambD_re]
  rfl

theorem fastUpdateActivation_re (floor : ℝ → ℝ) (X : Spec F m t) (s : FSt F n m t K) :
    fastUpdateActivation floor (re ρ X) (reF ρ σ π s) = reF ρ σ π (fastUpdateActivation floor X s) := by
  have e1 : ∀ k b j, ∑ f, (reF ρ σ π s).T k f b * ∑ c, (reF ρ σ π s).D f k c
        * (‖separate (re ρ X) (reF ρ σ π s).Q f c j‖ / lambD s (ρ f) c j) ^ 2
      = ∑ f, s.T (σ k) f (π k b) * ∑ c, s.D f (σ k) c * (‖separate X s.Q f c j‖ / lambD s f c j) ^ 2 := fun k b j =>
    Equiv.sum_comp ρ fun f => s.T (σ k) f (π k b) * ∑ c, s.D f (σ k) c * (‖separate X s.Q f c j‖ / lambD s f c j) ^ 2
  have e2 : ∀ k b j, ∑ f, (reF ρ σ π s).T k f b * ∑ c, (reF ρ σ π s).D f k c / lambD s (ρ f) c j
      = ∑ f, s.T (σ k) f (π k b) * ∑ c, s.D f (σ k) c / lambD s f c j := fun k b j =>
    Equiv.sum_comp ρ fun f => s.T (σ k) f (π k b) * ∑ c, s.D f (σ k) c / lambD s f c j
  simp only [fastUpdateActivation, fastActivationRaw, lambD_re, e1, e2]
  rfl

theorem fastUpdateOnce_re (np : Numpy ℂ) (alg : FilterAlg m) (norm : Bool) (floor : ℝ → ℝ) (X : Spec F m t) (s : FSt F n m t K) :
    fastUpdateOnce np alg norm floor (re ρ X) (reF ρ σ π s) = Except.map (reF ρ σ π) (fastUpdateOnce np alg norm floor X s) := by
  have h1 : ∀ s : FSt F n m t K, fastUpdateDiagonalizer np alg floor (re ρ X) (reF ρ σ π s)
      = Except.map (reF ρ σ π) (fastUpdateDiagonalizer np alg floor X s) := by
    intro s
    simp only [fastUpdateDiagonalizer, lambD_re]
    have h := Ilrma.spatialFilter_re ρ np alg floor (fun f c j => 1 / lambD s f c j) X s.Q
    change (_root_.Verif.Ilrma.spatialFilter np alg floor (re ρ fun f c j => 1 / lambD s f c j) (re ρ X) (re ρ s.Q) >>= _) = _
    rw [h, bind_map, map_bind]
    rfl
  have h2 : ∀ s : FSt F n m t K, fastUpdateSpatial (re ρ X) (reF ρ σ π s) = reF ρ σ π (fastUpdateSpatial X s) := by
    intro s
    simp only [fastUpdateSpatial, lambD_re]
    simp only [reF, recon_re2]
    rfl
  have h3 : ∀ s : FSt F n m t K, fastNormalize floor (re ρ X) (reF ρ σ π s) = reF ρ σ π (fastNormalize floor X s) := by
    intro s
    have hp : fastPsi floor (re ρ X) (reF ρ σ π s) = fastPsi floor X s := by
      funext c
      simp only [fastPsi]
      rw [← Equiv.sum_comp ρ fun f => ∑ j, ‖separate X s.Q f c j‖ ^ 2]
      rfl
    simp only [fastNormalize, hp]
    rfl
  rw [fastUpdateOnce, fastUpdateOnce, fastUpdateBasis_re, fastUpdateActivation_re, h1, bind_map, map_bind]
  congr 1
  funext s
  cases norm with
  | false => exact congrArg Except.ok (h2 s)
  | true => exact congrArg Except.ok ((congrArg (fastNormalize floor (re ρ X)) (h2 s)).trans (h3 _))

theorem fastSeparate_re (np : Numpy ℂ) (floor : ℝ → ℝ) (r : Fin m) (X : Spec F m t) (s : FSt F n m t K) :
    fastSeparate np floor r (re ρ X) (reF ρ σ π s) = Except.map (reY ρ σ) (fastSeparate np floor r X s) := by
  rw [fastSeparate, fastSeparate]
  change (npInvB (re ρ s.Q) >>= _) = _
  rw [npInvB_re, bind_map, map_bind]
  congr 1
  funext Qi
  have h : ∀ f, (onBins fun j => wiener np floor r (fastRn (re ρ Qi) (reF ρ σ π s) f j) fun c => re ρ X f c j)
      = Except.map (fun Y j => re σ (Y j)) (onBins fun j => wiener np floor r (fastRn Qi s (ρ f) j) fun c => X (ρ f) c j) := by
    intro f
    rw [← onBins_map (e := fun _ => re σ)]
    congr 1
    funext j
    rw [← wiener_re]
    congr 1
    funext k
    simp only [fastRn, reF, recon_re2]
  simp only [h]
  rw [onBins_re ρ fun f => Except.map (fun (Y : Fin t → Fin n → ℂ) j => re σ (Y j))
      (onBins fun j => wiener np floor r (fastRn Qi s f j) fun c => X f c j),
    onBins_map (e := fun _ (Y : Fin t → Fin n → ℂ) j => re σ (Y j))]
  cases onBins fun f => onBins fun j => wiener np floor r (fastRn Qi s f j) fun c => X f c j <;> rfl

theorem fastLoss_re (X : Spec F m t) (s : FSt F n m t K) : fastLoss (re ρ X) (reF ρ σ π s) = fastLoss X s := by
  simp only [fastLoss, lambD_re]
  exact Equiv.sum_comp ρ fun f => meanT (fun j => ∑ c, (‖separate X s.Q f c j‖ ^ 2 / lambD s f c j + Real.log (lambD s f c j)))
    - 2 * Real.log ‖(s.Q f).det‖

/-- The attributes of `FastGaussMNMF` with bins, sources and components renumbered. -/
def reObjF (o : MnmfCall.ObjF F n m t K) : MnmfCall.ObjF F n m t K :=
  ⟨mapA (re ρ) o.diagonalizer, mapA (fun T => reT ρ π (re σ T)) o.basis, mapA (fun V => reV π (re σ V)) o.activation,
    mapA (re2 ρ σ) o.spatial, mapA (reY ρ σ) o.output, o.loss⟩

/-- The keyword arguments of `FastGaussMNMF` with bins, sources and components renumbered. -/
def reKwF (kw : MnmfCall.KwF F n m t K) : MnmfCall.KwF F n m t K :=
  ⟨kw.diagonalizer.map (re ρ), kw.basis.map fun T => reT ρ π (re σ T), kw.activation.map fun V => reV π (re σ V),
    kw.spatial.map (re2 ρ σ)⟩

/-- C96: the same for `FastGaussMNMF`. -/
theorem C96_fast (np : Numpy ℂ) (alg : FilterAlg m) (norm : Bool) (floor : ℝ → ℝ) (r : Fin m) (draw : IlrmaCall.Draw F n t K)
    (drawD : F → Fin n → Fin m → ℝ) (X : Spec F m t) (n_iter : ℕ) (ic : Bool) (kw : MnmfCall.KwF F n m t K)
    (o : MnmfCall.ObjF F n m t K) :
    MnmfCall.callF np alg norm floor r (reDraw ρ σ π draw) (re2 ρ σ drawD) (re ρ X) n_iter ic (reKwF ρ σ π kw) (reObjF ρ σ π o)
      = Except.map (reObjF ρ σ π) (MnmfCall.callF np alg norm floor r draw drawD X n_iter ic kw o) := by
  have h1 : MnmfCall.resetF np floor r (reDraw ρ σ π draw) (re2 ρ σ drawD) (re ρ X) (reKwF ρ σ π kw) (reObjF ρ σ π o)
      = Except.map (reF ρ σ π) (MnmfCall.resetF np floor r draw drawD X kw o) := by
    rw [MnmfCall.resetF, MnmfCall.resetF]
    have h := initNmf_re2 ρ σ π floor draw.T draw.V kw.basis kw.activation o.basis o.activation
    simp only [reDraw, reKwF, reObjF]
    rw [h, bind_map, map_bind]
    congr 1
    funext p
    obtain ⟨T, V⟩ := p
    have h2 := attrOr_re (re ρ) (fun _ => (1 : Mat m ℂ)) kw.diagonalizer o.diagonalizer
    have h3 := attrOr_re (re2 ρ σ) (fun f k c => floor (drawD f k c)) kw.spatial o.spatial
    change (attrOr (re ρ fun _ => (1 : Mat m ℂ)) _ >>= fun Q => attrOr (re2 ρ σ fun f k c => floor (drawD f k c)) _ >>= fun D => _) = _
    rw [h2, h3, bind_map, map_bind]
    congr 1
    funext Q
    rw [bind_map, map_bind]
    congr 1
    funext D
    have h4 := fastSeparate_re ρ σ π np floor r X ⟨Q, T, V, D⟩
    change (fastSeparate np floor r (re ρ X) (reF ρ σ π ⟨Q, T, V, D⟩) >>= _) = _
    rw [h4, bind_map, map_bind]
    rfl
  rw [MnmfCall.callF, MnmfCall.callF, h1, bind_map, map_bind]
  congr 1
  funext s
  have h2 := baseCall_map (e := reF ρ σ π) (fastUpdateOnce_re ρ σ π np alg norm floor X)
    (loss' := fun s => .ok (fastLoss (re ρ X) s)) (loss := fun s => .ok (fastLoss X s))
    (fun s => congrArg Except.ok (fastLoss_re ρ σ π X s)) ic n_iter s o.loss
  change (baseCall _ _ ic n_iter (reF ρ σ π s) o.loss >>= _) = _
  rw [h2, bind_map, map_bind]
  congr 1
  funext q
  obtain ⟨s, ls⟩ := q
  change (fastSeparate np floor r (re ρ X) (reF ρ σ π s) >>= _) = _
  rw [fastSeparate_re, bind_map, map_bind]
  rfl

end Mnmf

namespace Cacgmm

open _root_.Verif.Cacgmm

variable (ρ : Equiv.Perm F) (σ : F → Equiv.Perm (Fin (n + 1)))

/-- A tensor indexed by source and bin with the bins numbered by `ρ` and the sources of bin `f` by `σ f`. -/
abbrev reK {α : Type} (A : Fin (n + 1) → F → α) : Fin (n + 1) → F → α := fun k f => A (σ f k) (ρ f)

/-- The parameters with the bins renumbered and the sources renumbered in every bin. -/
def reC (s : CSt F n m) : CSt F n m := ⟨reK ρ σ s.α, reK ρ σ s.B⟩

theorem softmax_re (τ : Equiv.Perm (Fin (n + 1))) (x : Fin (n + 1) → ℝ) (k : Fin (n + 1)) :
    Special.softmax (re τ x) k = Special.softmax x (τ k) := by
  rw [Special.C12_softmax_eq, Special.C12_softmax_eq]
  congr 1
  exact Equiv.sum_comp τ fun j => Real.exp (x j)

theorem logsumexp_re (τ : Equiv.Perm (Fin (n + 1))) (x : Fin (n + 1) → ℝ) : Special.logsumexp (re τ x) = Special.logsumexp x := by
  rw [Special.C12_logsumexp_eq, Special.C12_logsumexp_eq]
  congr 1
  exact Equiv.sum_comp τ fun j => Real.exp (x j)

theorem onBins_reK {α : Type} (g : Fin (n + 1) → F → Except PyErr α) :
    (onBins fun k => onBins fun f => g (σ f k) (ρ f)) = Except.map (reK ρ σ) (onBins fun k => onBins (g k)) := by
  by_cases h : ∀ k f, ∃ y, g k f = .ok y
  · choose y hy using h
    rw [onBins_ok fun k => onBins_ok (hy k), onBins_ok fun k => onBins_ok fun f => hy (σ f k) (ρ f)]
    rfl
  · obtain ⟨k, f, hk⟩ : ∃ k f, ¬∃ y, g k f = .ok y := by
      by_contra h'
      exact h fun k f => by
        by_contra h''
        exact h' ⟨k, f, h''⟩
    have e1 : ∀ k, (∃ f, ¬∃ y, g k f = .ok y) → ¬∃ y, onBins (g k) = .ok y := by
      rintro k ⟨f, hf⟩ ⟨y, hy⟩
      rw [onBins] at hy
      split_ifs at hy with h1
      exact hf (h1 f)
    have e2 : ∀ k, (∃ f, ¬∃ y, g (σ f k) (ρ f) = .ok y) → ¬∃ y, (onBins fun f => g (σ f k) (ρ f)) = .ok y := by
      rintro k ⟨f, hf⟩ ⟨y, hy⟩
      rw [onBins] at hy
      split_ifs at hy with h1
      exact hf (h1 f)
    rw [onBins, dif_neg fun h => e2 ((σ (ρ.symm f)).symm k) ⟨ρ.symm f, by simpa using hk⟩ (h _),
      onBins, dif_neg fun h => e1 k ⟨f, hk⟩ (h k)]
    rfl

theorem invB_re (B : Fin (n + 1) → F → Mat m ℂ) : invB (reK ρ σ B) = Except.map (reK ρ σ) (invB B) :=
  onBins_reK ρ σ fun k f => npInv (B k f)

theorem updatePosterior_re (floor : ℝ → ℝ) (Z : F → Fin t → Fin m → ℂ) (s : CSt F n m) :
    updatePosterior floor (re ρ Z) (reC ρ σ s) = Except.map (reK ρ σ) (updatePosterior floor Z s) := by
  simp only [updatePosterior, reC]
  rw [invB_re, bind_map, map_bind]
  congr 1
  funext B
  refine congrArg Except.ok ?_
  funext k f j
  exact softmax_re (σ f) (logGamma s (quadForm floor Z B) (ρ f) j) k

theorem updateOnce_re (np : Numpy ℂ) (norm : Bool) (floor : ℝ → ℝ) (Z : F → Fin t → Fin m → ℂ) (s : CSt F n m) :
    updateOnce np norm floor (re ρ Z) (reC ρ σ s)
      = Except.map (fun p => (reC ρ σ p.1, reK ρ σ p.2)) (updateOnce np norm floor Z s) := by
  rw [updateOnce, updateOnce, updatePosterior_re, bind_map, map_bind]
  congr 1
  funext gamma
  have h : updateParameters np floor (re ρ Z) (reK ρ σ gamma) (reC ρ σ s)
      = Except.map (reC ρ σ) (updateParameters np floor Z gamma s) := by
    simp only [updateParameters, reC]
    rw [invB_re, bind_map, map_bind]
    rfl
  rw [h, bind_map, map_bind]
  cases norm <;> rfl

theorem iterate_re (np : Numpy ℂ) (norm : Bool) (floor : ℝ → ℝ) (Z : F → Fin t → Fin m → ℂ) (n_iter : ℕ) (s : CSt F n m) :
    iterate np norm floor (re ρ Z) n_iter (reC ρ σ s) = Except.map (reC ρ σ) (iterate np norm floor Z n_iter s) := by
  induction n_iter generalizing s with
  | zero => rfl
  | succ N ih =>
    rw [iterate, iterate, updateOnce_re, bind_map, map_bind]
    congr 1
    funext p
    exact ih p.1

/-- C96: the loss `CACGMM` records does not see how the bins, and in every bin the sources, are numbered. -/
theorem C96_cacgmm_loss (floor : ℝ → ℝ) (X : Spec F m t) (s : CSt F n m) :
    loss floor (unitInput floor (re ρ X)) (reC ρ σ s) = loss floor (unitInput floor X) s := by
  have hZ : unitInput floor (re ρ X) = re ρ (unitInput floor X) := rfl
  simp only [loss, hZ, reC]
  rw [invB_re, bind_map]
  congr 1
  funext B
  refine congrArg Except.ok ?_
  rw [← Equiv.sum_comp ρ fun f => meanT fun j => -Special.logsumexp (logGamma s (quadForm floor (unitInput floor X) B) f j)]
  refine Finset.sum_congr rfl fun f _ => ?_
  congr 1
  funext j
  congr 1
  exact logsumexp_re (σ f) (logGamma s (quadForm floor (unitInput floor X) B) (ρ f) j)

end Cacgmm

namespace Cacgmm

open _root_.Verif.Cacgmm

variable {B : ℕ} (ρ : Equiv.Perm (Fin B)) (σ : Fin B → Equiv.Perm (Fin (n + 1)))

/-- **C96.** `CACGMM` without alignment does not see how the bins are numbered, nor how the sources are numbered in any of the
bins, be it differently from bin to bin: renumbering them in the recording and in the random numbers renumbers the mixing
weights, the covariances, the posterior and the output. -/
theorem C96_cacgmm {R : Type} (np : Numpy ℂ) (srt : Permutation.Argsort)
    (draw : R → ((Fin (n + 1) → Fin B → ℝ) × (Fin (n + 1) → Fin B → Fin m → ℝ)) × R) (norm : Bool) {opt : Fdica.PermOpt}
    (hopt : opt.truthy = false) (gi li : Option ℤ) (floor : ℝ → ℝ) (X : Spec (Fin B) m t) (r : Fin m) (n_iter : ℕ) (rng : R) :
    callWith np srt (fun g => ((reK ρ σ (draw g).1.1, reK ρ σ (draw g).1.2), (draw g).2)) norm opt gi li floor (re ρ X) r n_iter rng
      = Except.map (fun p => (p.1, reC ρ σ p.2.1, reK ρ σ p.2.2.1, reK ρ σ p.2.2.2))
          (callWith np srt draw norm opt gi li floor X r n_iter rng) := by
  have h0 : initParameters (reK ρ σ (draw rng).1.1) (reK ρ σ (draw rng).1.2)
      = reC ρ σ (initParameters (draw rng).1.1 (draw rng).1.2) := by
    simp only [initParameters, reC]
    congr 1
    funext k f
    congr 1
    exact Equiv.sum_comp (σ f) fun k => (draw rng).1.1 k (ρ f)
  have h1 := iterate_re ρ σ np norm floor (unitInput floor X) n_iter (initParameters (draw rng).1.1 (draw rng).1.2)
  simp only [callWith, hopt, h0]
  change (iterate np norm floor (re ρ (unitInput floor X)) n_iter _ >>= _) = _
  rw [h1, bind_map, map_bind]
  congr 1
  funext s
  change (updatePosterior floor (re ρ (unitInput floor X)) (reC ρ σ s) >>= _) = _
  rw [updatePosterior_re, bind_map, map_bind]
  rfl

end Cacgmm

namespace Fdica

open _root_.Verif.Fdica
open _root_.Verif.Relabel.Iva (reObj)

variable {B : ℕ} (ρ : Equiv.Perm (Fin B))

/-- C96: `AuxFDICA` without alignment does not see how the bins are numbered. -/
theorem C96_fdica (sort : Permutation.Argsort) (np : Numpy ℂ) (alg : _root_.Verif.Ilrma.FilterAlg n) {opt : PermOpt}
    (hopt : opt.truthy = false) (floor G d : ℝ → ℝ) (sr : Lifecycle.ScaleOpt) (r : Fin n) (X : Spec (Fin B) n t) (n_iter : ℕ)
    (ic : Bool) (kw : Option (Fin B → Mat n ℂ)) (o : IvaCall.Obj (Fin B) n t) :
    auxCall sort np alg opt floor G d sr r (re ρ X) n_iter ic (kw.map (re ρ)) (reObj ρ o)
      = Except.map (reObj ρ) (auxCall sort np alg opt floor G d sr r X n_iter ic kw o) := by
  have h1 : auxReset (re ρ X) (kw.map (re ρ)) (reObj ρ o) = Except.map (re ρ) (auxReset X kw o) := by
    obtain ⟨dm, y, l⟩ := o
    cases kw with
    | some W => rfl
    | none => cases dm <;> rfl
  have h2 : ∀ W, auxUpdate np alg floor d (re ρ X) (re ρ W) = Except.map (re ρ) (auxUpdate np alg floor d X W) := by
    intro W
    cases alg with
    | ip1 => exact Iva.ip1Stack_re ρ floor (fun f => _root_.Verif.Iva.wcov (weight floor d (separate X W f)) X f) W
    | ip2 pairs =>
      exact foldlM_map _ _ (re ρ) (fun W p => onBins_re ρ fun f =>
        _root_.Verif.Spatial.ip2Pair np floor (_root_.Verif.Iva.wcov (weight floor d (separate X W f)) X f) (W f) p) _ W
  have h3 : ∀ W, loss G (re ρ X) (re ρ W) = loss G X W := fun W =>
    Equiv.sum_comp ρ fun f => ∑ k, meanT (fun s => G ‖separate X W f k s‖) - 2 * Real.log ‖(W f).det‖
  rw [auxCall, auxCall, h1, bind_map, map_bind]
  congr 1
  funext W
  have h4 := baseCall_map (e := re ρ) h2 (loss' := fun W => .ok (loss G (re ρ X) W)) (loss := fun W => .ok (loss G X W))
    (fun W => congrArg Except.ok (h3 W)) ic n_iter W o.loss
  change (baseCall _ _ ic n_iter (re ρ W) o.loss >>= _) = _
  rw [h4, bind_map, map_bind]
  congr 1
  funext p
  obtain ⟨W, ls⟩ := p
  have h5 : ∀ (X : Spec (Fin B) n t) (W : Fin B → Mat n ℂ), finishAligned sort opt floor sr r X W = Lifecycle.finish sr r X W := fun X W => by
    simp only [finishAligned, hopt]
    rfl
  dsimp only
  rw [h5, h5, C96_finish, bind_map, map_bind]
  rfl

end Fdica

end Verif.Relabel
