import Verif.Model.Mnmf

/-!
# `bss/mnmf.py`, class `GaussMNMF` with `partitioning=True`

`fullLoss`, `fullSeparate` and `fullUpdateSpatial` of `Verif.Model.Mnmf` take the reconstructed source model, which is
`reconP s.Z s.T s.V` here. `FastGaussMNMF` refuses `partitioning=True` (L1145).
-/

namespace Verif.Mnmf

open Matrix Spatial Scale
open Ilrma (reconP)

variable {F : Type} [Fintype F] {n m t K : ℕ}

/-- `reconstruct_mnmf` with `latent`, L378-389. -/
noncomputable def MStP.R (s : MStP F n m t K) (f : F) (j : Fin t) : Mat m ℂ := fullR (reconP s.Z s.T s.V) s.H f j

/-- `update_basis` with partitioning, L877-889 and L900-903. -/
noncomputable def fullUpdateBasisP (np : Numpy ℂ) (floor : ℝ → ℝ) (XX : F → Fin t → Mat m ℂ) (s : MStP F n m t K) :
    Except PyErr (MStP F n m t K) := do
  let (trace_RXXRH, trace_RH) ← traces (fun f j => toPsd np floor (s.R f j)) XX s.H
  let VRXXRH := fun k f b => ∑ j, s.V b j * trace_RXXRH k f j
  let VRH := fun k f b => ∑ j, s.V b j * trace_RH k f j
  let T := fun f b => s.T f b * Real.sqrt ((∑ k, s.Z k b * VRXXRH k f b) / ∑ k, s.Z k b * VRH k f b)
  .ok ⟨s.Z, fun f b => floor (T f b), s.V, s.H⟩

/-- `update_activation` with partitioning, L944-956 and L967-970. -/
noncomputable def fullUpdateActivationP (np : Numpy ℂ) (floor : ℝ → ℝ) (XX : F → Fin t → Mat m ℂ)
    (s : MStP F n m t K) : Except PyErr (MStP F n m t K) := do
  let (trace_RXXRH, trace_RH) ← traces (fun f j => toPsd np floor (s.R f j)) XX s.H
  let TRXXRH := fun k b j => ∑ f, s.T f b * trace_RXXRH k f j
  let TRH := fun k b j => ∑ f, s.T f b * trace_RH k f j
  let V := fun b j => s.V b j * Real.sqrt ((∑ k, s.Z k b * TRXXRH k b j) / ∑ k, s.Z k b * TRH k b j)
  .ok ⟨s.Z, s.T, fun b j => floor (V b j), s.H⟩

/-- `update_latent`, L1034-1073; the result is not floored. -/
noncomputable def fullUpdateLatent (np : Numpy ℂ) (floor : ℝ → ℝ) (XX : F → Fin t → Mat m ℂ) (s : MStP F n m t K) :
    Except PyErr (MStP F n m t K) := do
  let (trace_RXXRH, trace_RH) ← traces (fun f j => toPsd np floor (s.R f j)) XX s.H
  let VRXXRH := fun k f b => ∑ j, s.V b j * trace_RXXRH k f j
  let VRH := fun k f b => ∑ j, s.V b j * trace_RH k f j
  let Z := fun k b => s.Z k b * Real.sqrt ((∑ f, s.T f b * VRXXRH k f b) / ∑ f, s.T f b * VRH k f b)
  .ok ⟨fun k b => Z k b / ∑ k', Z k' b, s.T, s.V, s.H⟩

/-- `GaussMNMF.update_once` with partitioning, L822-834. -/
noncomputable def fullUpdateOnceP (np : Numpy ℂ) (normalization : Bool) (floor : ℝ → ℝ) (XX : F → Fin t → Mat m ℂ)
    (s : MStP F n m t K) : Except PyErr (MStP F n m t K) := do
  let s ← fullUpdateBasisP np floor XX s
  let s ← fullUpdateActivationP np floor XX s
  let H ← fullUpdateSpatial np floor XX (reconP s.Z s.T s.V) s.H
  let s : MStP F n m t K := ⟨s.Z, s.T, s.V, H⟩
  let s := if normalization then fullNormalizeP s else s
  fullUpdateLatent np floor XX s

end Verif.Mnmf
