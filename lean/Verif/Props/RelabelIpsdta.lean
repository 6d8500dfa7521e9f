import Verif.Props.Relabel
import Verif.Props.IpsdtaCall

/-! # C96 for GaussIPSDTA and TIPSDTA: how the components of each source are numbered does not matter -/

set_option linter.unusedSectionVars false

namespace Verif.Ipsdta

open Matrix Spatial Scale

variable {n t K : ℕ}

section blocks
variable {ι : Type} [Fintype ι] {sz : ι → ℕ} (π : Fin n → Equiv.Perm (Fin K))

/-- Basis or activation with the components of every source renumbered. -/
def reK {α : Type} (T : Fin n → Fin K → α) : Fin n → Fin K → α := fun k b => T k (π k b)

theorem cov_re (np : Numpy ℂ) (T : Fin n → Fin K → (β : ι) → Mat (sz β) ℂ) (V : Fin n → Fin K → Fin t → ℝ) :
    cov np (reK π T) (reK π V) = cov np T V := by
  funext k j β
  simp only [cov, reK]
  rw [Equiv.sum_comp (π k) fun b => (V k b j : ℂ) • T k b β]

theorem covInv_re (np : Numpy ℂ) (T : Fin n → Fin K → (β : ι) → Mat (sz β) ℂ) (V : Fin n → Fin K → Fin t → ℝ) :
    covInv np (reK π T) (reK π V) = covInv np T V := by
  simp only [covInv, cov_re]

theorem onBins_reK {α : Type} (g : Fin n → Fin K → Except PyErr α) :
    (onBins fun k => onBins fun b => g k (π k b)) = Except.map (reK π) (onBins fun k => onBins fun b => g k b) := by
  have e : ∀ k, (onBins fun b => g k (π k b)) = Except.map (fun y b => y (π k b)) (onBins fun b => g k b) := fun k =>
    Relabel.onBins_re (π k) (g k)
  simp only [e]
  exact onBins_map (fun k => onBins fun b => g k b) fun k y b => y (π k b)

theorem basisGauss_re (np : Numpy ℂ) (floor : ℝ → ℝ) (Y : (β : ι) → Fin (sz β) → Matrix (Fin n) (Fin t) ℂ)
    (T : Fin n → Fin K → (β : ι) → Mat (sz β) ℂ) (V : Fin n → Fin K → Fin t → ℝ) :
    basisGauss np floor Y (reK π T) (reK π V) = Except.map (reK π) (basisGauss np floor Y T V) := by
  rw [basisGauss, basisGauss, covInv_re]
  cases covInv np T V with
  | error => rfl
  | ok R => exact onBins_reK π fun k b => onBlocks fun β => do
      let G ← Linalg.gmeanmh np (Mnmf.toPsd np floor (matP R V k b β))
        (Mnmf.toPsd np floor (T k b β * matQ R (fun _ _ => 1) Y V k b β * T k b β)) 2
      .ok (Mnmf.toPsd np floor G)

theorem basisT_re (np : Numpy ℂ) (floor : ℝ → ℝ) (w : Fin n → Fin t → ℝ)
    (Y : (β : ι) → Fin (sz β) → Matrix (Fin n) (Fin t) ℂ) (T : Fin n → Fin K → (β : ι) → Mat (sz β) ℂ)
    (V : Fin n → Fin K → Fin t → ℝ) :
    basisT np floor w Y (reK π T) (reK π V) = Except.map (reK π) (basisT np floor w Y T V) := by
  rw [basisT, basisT, covInv_re]
  cases covInv np T V <;> rfl

theorem activationMM_re (np : Numpy ℂ) (w : Fin n → Fin t → ℝ)
    (Y : (β : ι) → Fin (sz β) → Matrix (Fin n) (Fin t) ℂ) (T : Fin n → Fin K → (β : ι) → Mat (sz β) ℂ)
    (V : Fin n → Fin K → Fin t → ℝ) :
    activationMM np w Y (reK π T) (reK π V) = Except.map (reK π) (activationMM np w Y T V) := by
  rw [activationMM, activationMM, covInv_re]
  cases covInv np T V <;> rfl

end blocks

variable {N B : ℕ} (π : Fin n → Equiv.Perm (Fin K))

/-- A state with the components of every source renumbered. -/
def St.re (s : St N B n t K) : St N B n t K := ⟨reK π s.T, reK π s.V, s.W⟩

theorem gaussUpdate_re (np : Numpy ℂ) (normalization : Bool) (floor : ℝ → ℝ) (X : Spec (Fin N) n t) (s : St N B n t K) :
    gaussUpdate np normalization floor X (s.re π) = Except.map (St.re π) (gaussUpdate np normalization floor X s) := by
  rw [gaussUpdate, gaussUpdate, show (s.re π).W = s.W from rfl, map_bind]
  congr 1
  funext Y
  rw [show (s.re π).V = reK π s.V from rfl, show (s.re π).T = reK π s.T from rfl, basisGauss_re, bind_map, map_bind]
  congr 1
  funext T
  rw [activationMM_re, bind_map, map_bind]
  congr 1
  funext V
  have key : ∀ (T : Fin n → Fin K → (β : Blk N B) → Mat (bsize N B β) ℂ) (V : Fin n → Fin K → Fin t → ℝ),
      ((splitBlocks B X >>= fun Xb => splitBlocks B s.W >>= fun Wb =>
        covInv np (reK π T) (reK π V) >>= fun R => spatialVcd floor (fun _ _ => 1) R Xb Wb >>= fun W =>
          .ok ⟨reK π T, reK π V, joinBlocks W⟩ : Except PyErr (St N B n t K)))
      = Except.map (St.re π) (splitBlocks B X >>= fun Xb => splitBlocks B s.W >>= fun Wb =>
        covInv np T V >>= fun R => spatialVcd floor (fun _ _ => 1) R Xb Wb >>= fun W => .ok ⟨T, V, joinBlocks W⟩) := by
    intro T V
    simp only [map_bind, covInv_re]
    rfl
  cases normalization with
  | false => exact key T V
  | true => exact key (normalize T V).1 (normalize T V).2

theorem tUpdate_re (np : Numpy ℂ) (normalization : Bool) (floor : ℝ → ℝ) (nu : ℝ) (X : Spec (Fin N) n t) (s : St N B n t K) :
    tUpdate np normalization floor nu X (s.re π) = Except.map (St.re π) (tUpdate np normalization floor nu X s) := by
  rw [tUpdate, tUpdate, show (s.re π).W = s.W from rfl, map_bind]
  congr 1
  funext Y
  rw [show (s.re π).V = reK π s.V from rfl, show (s.re π).T = reK π s.T from rfl, covInv_re, map_bind]
  congr 1
  funext R
  rw [basisT_re, bind_map, map_bind]
  congr 1
  funext T
  rw [covInv_re, map_bind]
  congr 1
  funext R
  rw [activationMM_re, bind_map, map_bind]
  congr 1
  funext V
  have key : ∀ (T : Fin n → Fin K → (β : Blk N B) → Mat (bsize N B β) ℂ) (V : Fin n → Fin K → Fin t → ℝ),
      ((splitBlocks B X >>= fun Xb => splitBlocks B s.W >>= fun Wb =>
        covInv np (reK π T) (reK π V) >>= fun R =>
          spatialVcd floor (fun k j => tWeight nu N (yry (fun β i => Wb β i * Xb β i) R k j)) R Xb Wb >>= fun W =>
          .ok ⟨reK π T, reK π V, joinBlocks W⟩ : Except PyErr (St N B n t K)))
      = Except.map (St.re π) (splitBlocks B X >>= fun Xb => splitBlocks B s.W >>= fun Wb =>
        covInv np T V >>= fun R =>
          spatialVcd floor (fun k j => tWeight nu N (yry (fun β i => Wb β i * Xb β i) R k j)) R Xb Wb >>= fun W =>
          .ok ⟨T, V, joinBlocks W⟩) := by
    intro T V
    simp only [map_bind, covInv_re]
    rfl
  cases normalization with
  | false => exact key T V
  | true => exact key (normalize T V).1 (normalize T V).2

theorem gaussLoss_re (np : Numpy ℂ) (X : Spec (Fin N) n t) (s : St N B n t K) :
    gaussLoss np X (s.re π) = gaussLoss np X s := by
  rw [gaussLoss, gaussLoss, show (s.re π).W = s.W from rfl, show (s.re π).V = reK π s.V from rfl,
    show (s.re π).T = reK π s.T from rfl, covInv_re, cov_re]

theorem tLoss_re (np : Numpy ℂ) (nu : ℝ) (X : Spec (Fin N) n t) (s : St N B n t K) :
    tLoss np nu X (s.re π) = tLoss np nu X s := by
  rw [tLoss, tLoss, show (s.re π).W = s.W from rfl, show (s.re π).V = reK π s.V from rfl,
    show (s.re π).T = reK π s.T from rfl, covInv_re, cov_re]

end Verif.Ipsdta

namespace Verif.IpsdtaCall

open Scale Ipsdta Lifecycle
open IlrmaCall (override attrOr baseCall)
open Relabel (mapA)

variable {N B n t K : ℕ} (π : Fin n → Equiv.Perm (Fin K))

/-- The object with the components of basis and activation renumbered. -/
def Obj.re (o : Obj N B n t K) : Obj N B n t K :=
  ⟨o.demix, mapA (reK π) o.basis, mapA (reK π) o.activation, o.output, o.loss, o.initial_call⟩

/-- The keyword arguments with the components renumbered. -/
def Kw.re (kw : Kw N B n t K) : Kw N B n t K := ⟨kw.demix, kw.basis.map (reK π), kw.activation.map (reK π), kw.initial_call⟩

/-- The random numbers with the components renumbered. -/
def Draw.re (d : Draw N B n t K) : Draw N B n t K := ⟨reK π d.T, reK π d.V⟩

theorem override_re {α : Type} (g : α → α) (kw : Option α) (a : Attr α) : override (kw.map g) (mapA g a) = mapA g (override kw a) := by
  cases kw <;> rfl

theorem reset_re (normalization : Bool) (floor : ℝ → ℝ) (draw : Draw N B n t K) (kw : Kw N B n t K) (o : Obj N B n t K) :
    reset normalization floor (draw.re π) (kw.re π) (o.re π) = Except.map (St.re π) (reset normalization floor draw kw o) := by
  rw [reset, reset, map_bind]
  change (startFilter (override kw.demix o.demix) >>= _) = _
  congr 1
  funext W
  have e : initPsdtf normalization floor (draw.re π) (override (kw.re π).basis (o.re π).basis) (override (kw.re π).activation (o.re π).activation)
      = Except.map (fun p => (reK π p.1, reK π p.2))
        (initPsdtf normalization floor draw (override kw.basis o.basis) (override kw.activation o.activation)) := by
    rw [show override (kw.re π).basis (o.re π).basis = mapA (reK π) (override kw.basis o.basis) from override_re _ _ _,
      show override (kw.re π).activation (o.re π).activation = mapA (reK π) (override kw.activation o.activation) from override_re _ _ _]
    generalize override kw.basis o.basis = b
    generalize override kw.activation o.activation = a
    rw [initPsdtf, initPsdtf]
    by_cases hB : B = 0
    · rw [if_pos hB, if_pos hB]; rfl
    · rw [if_neg hB, if_neg hB]
      cases b with
      | absent => cases a <;> cases normalization <;> rfl
      | none =>
        by_cases h : N % B > 0
        · simp only [mapA, initBasis, if_pos h]; rfl
        · simp only [mapA, initBasis, if_neg h]; rfl
      | val => cases a <;> cases normalization <;> rfl
  rw [e, bind_map, map_bind]
  rfl

theorem call_re {step : St N B n t K → Except PyErr (St N B n t K)} {loss : St N B n t K → Except PyErr ℝ}
    (hs : ∀ s, step (s.re π) = Except.map (St.re π) (step s)) (hl : ∀ s, loss (s.re π) = loss s)
    (normalization : Bool) (floor : ℝ → ℝ) (sr : ScaleOpt) (r : Fin n) (draw : Draw N B n t K) (X : Spec (Fin N) n t)
    (n_iter : ℕ) (kw : Kw N B n t K) (o : Obj N B n t K) :
    call step loss normalization floor sr r (draw.re π) X n_iter (kw.re π) (o.re π)
      = Except.map (Obj.re π) (call step loss normalization floor sr r draw X n_iter kw o) := by
  rw [call, call, reset_re, bind_map, map_bind]
  congr 1
  funext s
  rw [show (o.re π).loss = o.loss from rfl, Rotation.baseCall_map hs hl, bind_map, map_bind]
  congr 1
  funext q
  rw [map_bind]
  rfl

/-- **C96** for GaussIPSDTA: renumbering the components of every source in the random numbers, the keyword arguments and the
attributes renumbers them in what the call leaves, and changes neither outputs, filters, losses nor exceptions. -/
theorem C96_gauss (np : Numpy ℂ) (normalization : Bool) (floor : ℝ → ℝ) (sr : ScaleOpt) (r : Fin n) (draw : Draw N B n t K)
    (X : Spec (Fin N) n t) (n_iter : ℕ) (kw : Kw N B n t K) (o : Obj N B n t K) :
    gaussCall np normalization floor sr r (draw.re π) X n_iter (kw.re π) (o.re π)
      = Except.map (Obj.re π) (gaussCall np normalization floor sr r draw X n_iter kw o) :=
  call_re π (gaussUpdate_re π np normalization floor X) (gaussLoss_re π np X) normalization floor sr r draw X n_iter kw o

/-- **C96** for TIPSDTA. -/
theorem C96_t (np : Numpy ℂ) (normalization : Bool) (floor : ℝ → ℝ) (nu : ℝ) (sr : ScaleOpt) (r : Fin n) (draw : Draw N B n t K)
    (X : Spec (Fin N) n t) (n_iter : ℕ) (kw : Kw N B n t K) (o : Obj N B n t K) :
    tCall np normalization floor nu sr r (draw.re π) X n_iter (kw.re π) (o.re π)
      = Except.map (Obj.re π) (tCall np normalization floor nu sr r draw X n_iter kw o) :=
  call_re π (tUpdate_re π np normalization floor nu X) (tLoss_re π np nu X) normalization floor sr r draw X n_iter kw o

/-- Two sources with two components; those of the first source are exchanged. -/
example (np : Numpy ℂ) (draw : Draw 3 2 2 6 2) (X : Spec (Fin 3) 2 6) (o : Obj 3 2 2 6 2)
    (h : gaussCall np true floor0 (.bool true) 0 draw X 10 {} Obj.fresh = .ok o) :
    ∃ o', gaussCall np true floor0 (.bool true) 0 (draw.re fun k => if k = 0 then Equiv.swap 0 1 else 1) X 10 {} Obj.fresh = .ok o' ∧
      o'.output = o.output ∧ o'.loss = o.loss :=
  ⟨o.re fun k => if k = 0 then Equiv.swap 0 1 else 1, (C96_gauss _ np true floor0 (.bool true) 0 draw X 10 {} Obj.fresh).trans (by rw [h]; rfl), rfl, rfl⟩

end Verif.IpsdtaCall
