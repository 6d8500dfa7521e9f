import Verif.Props.EigPhase

/-!
# C80, continued: ILRMA with ISS2, FasterIVA, whitening, and what a tie does
-/

set_option linter.unusedSectionVars false

namespace Verif
namespace EigPhase

open Matrix Spatial Scale
open scoped ComplexOrder

variable {F : Type} [Fintype F] {n t c K : ℕ}

/-- The scale ILRMA's projection-back normalisation computes from the spectrograms undoes unit phases of the rows. -/
theorem pbScale {φ : F → Fin n → ℂ} (hφ : ∀ f i, ‖φ f i‖ = 1) (X Y : Spec F n t) (f : F) :
    IsUnit ((Matrix.of fun i j => φ f i * Y f i j) * (Matrix.of fun i j => φ f i * Y f i j)ᴴ).det
      = IsUnit (Y f * (Y f)ᴴ).det ∧
    X f * (Matrix.of fun i j => φ f i * Y f i j)ᴴ
        * ((Matrix.of fun i j => φ f i * Y f i j) * (Matrix.of fun i j => φ f i * Y f i j)ᴴ)⁻¹
      = X f * (Y f)ᴴ * (Y f * (Y f)ᴴ)⁻¹ * diagonal (star (φ f)) := by
  have e : (Matrix.of fun i j => φ f i * Y f i j) = diagonal (φ f) * Y f := Phase.rot_eq (φ f) (Y f)
  have eYY : (Matrix.of fun i j => φ f i * Y f i j) * (Matrix.of fun i j => φ f i * Y f i j)ᴴ
      = diagonal (φ f) * (Y f * (Y f)ᴴ) * (diagonal (φ f))ᴴ := by
    rw [e, conjTranspose_mul]
    simp only [Matrix.mul_assoc]
  obtain ⟨hd1, hd2⟩ := isUnit_diag_phase (hφ f)
  have hstar : (diagonal (φ f))ᴴ = diagonal (star (φ f)) := diagonal_conjTranspose _
  have hd3 : (diagonal (star (φ f)) : Mat n ℂ) * diagonal (φ f) = 1 := mul_eq_one_comm.mp hd1
  constructor
  · have h2 : IsUnit ((diagonal (φ f))ᴴ : Mat n ℂ).det := by rw [det_conjTranspose]; exact hd2.star
    rw [eYY, det_mul, det_mul, IsUnit.mul_iff, IsUnit.mul_iff]
    exact propext ⟨fun h => h.1.2, fun h => ⟨⟨hd2, h⟩, h2⟩⟩
  · rw [eYY, e, conjTranspose_mul, hstar, Matrix.mul_inv_rev, Matrix.mul_inv_rev, inv_eq_right_inv hd1,
      inv_eq_right_inv hd3]
    simp only [← Matrix.mul_assoc]
    rw [Matrix.mul_assoc _ (diagonal (star (φ f))) (diagonal (φ f)), hd3, Matrix.mul_one]

/-- The normalisation step of the spectrogram-based ILRMA: unit phases stay unit phases. -/
theorem normalizeY_step (p : ℝ) (floor : ℝ → ℝ) (X : Spec F n t) (norm : Ilrma.Norm n) (Y Y' : Spec F n t)
    (T : Fin n → F → Fin K → ℝ) (V : Fin n → Fin K → Fin t → ℝ) (h : UpToPhase Y Y')
    (hu : (∃ r, norm = .projectionBack r) → ∀ f, IsUnit (Y f * (Y f)ᴴ).det) :
    ∃ a a', Ilrma.normalizeY p floor X norm ⟨Y, T, V⟩ = .ok a ∧ Ilrma.normalizeY p floor X norm ⟨Y', T, V⟩ = .ok a' ∧
      (UpToPhase a.Y a'.Y ∧ a'.T = a.T ∧ a'.V = a.V) := by
  cases norm with
  | off => exact ⟨_, _, rfl, rfl, h, rfl, rfl⟩
  | power =>
    have hp : Ilrma.psi floor Y' = Ilrma.psi floor Y := by funext k; simp only [Ilrma.psi, h.norm_eq]
    refine ⟨_, _, rfl, rfl, ?_, ?_, rfl⟩
    · simp only [hp]; exact h.divRows _
    · simp only [hp]
  | projectionBack r =>
    have hu1 := hu ⟨r, rfl⟩
    obtain ⟨φ, hφ, rfl⟩ := h
    have hu2 : ∀ f, IsUnit ((Matrix.of fun i j => φ f i * Y f i j) * (Matrix.of fun i j => φ f i * Y f i j)ᴴ).det :=
      fun f => (pbScale hφ X Y f).1 ▸ hu1 f
    have i1 : npInvB (fun f => Y f * (Y f)ᴴ) = .ok fun f => (Y f * (Y f)ᴴ)⁻¹ := by rw [npInvB, if_pos hu1]
    have i2 : npInvB (fun f => (Matrix.of fun i j => φ f i * Y f i j) * (Matrix.of fun i j => φ f i * Y f i j)ᴴ)
        = .ok fun f => ((Matrix.of fun i j => φ f i * Y f i j) * (Matrix.of fun i j => φ f i * Y f i j)ᴴ)⁻¹ := by
      rw [npInvB, if_pos hu2]
    have e : ∀ f k, (X f * (Matrix.of fun i j => φ f i * Y f i j)ᴴ
        * ((Matrix.of fun i j => φ f i * Y f i j) * (Matrix.of fun i j => φ f i * Y f i j)ᴴ)⁻¹) r k
        = (X f * (Y f)ᴴ * (Y f * (Y f)ᴴ)⁻¹) r k * star (φ f k) := by
      intro f k
      rw [(pbScale hφ X Y f).2, mul_diagonal]
      rfl
    simp only [Ilrma.normalizeY, i1, i2, Bind.bind, Except.bind, e]
    refine ⟨_, _, rfl, rfl, ?_, ?_, rfl⟩
    · have : (Ilrma.mulRows (fun f k => (X f * (Y f)ᴴ * (Y f * (Y f)ᴴ)⁻¹) r k * star (φ f k)) fun f =>
          Matrix.of fun i j => φ f i * Y f i j) = Ilrma.mulRows (fun f k => (X f * (Y f)ᴴ * (Y f * (Y f)ᴴ)⁻¹) r k) Y := by
        funext f
        ext k j
        simp only [Ilrma.mulRows, of_apply]
        linear_combination (Y f k j * (X f * (Y f)ᴴ * (Y f * (Y f)ᴴ)⁻¹) r k) * Phase.mul_star_of_norm (hφ f k)
      rw [this]
      exact UpToPhase.refl _
    · funext k f b
      simp only [Ilrma.mulBasis, norm_mul, norm_star, hφ, mul_one]

/-- The loss of the spectrogram-based ILRMA does not see unit phases. -/
theorem lossOf_filter_eq (src : Ilrma.Source) (X : Spec F n t) {Y Y' : Spec F n t} (h : UpToPhase Y Y')
    (R : Fin n → F → Fin t → ℝ) :
    (do let W ← Ilrma.filterOf X Y'; (.ok (Ilrma.lossOf src Y' R W) : Except PyErr ℝ))
      = (do let W ← Ilrma.filterOf X Y; .ok (Ilrma.lossOf src Y R W)) := by
  have hl : ∀ I : F → Mat n ℂ, Ilrma.lossOf src Y' R (fun f => Y' f * (X f)ᴴ * I f)
      = Ilrma.lossOf src Y R fun f => Y f * (X f)ᴴ * I f := by
    intro I
    have e : ∀ f, Real.log ‖(Y' f * (X f)ᴴ * I f).det‖ = Real.log ‖(Y f * (X f)ᴴ * I f).det‖ := fun f => by
      rw [h.filterDet X I f]
    rw [Ilrma.lossOf, Ilrma.lossOf]
    simp only [h.norm_eq, e]
  rw [Ilrma.filterOf, Ilrma.filterOf]
  cases npInvB (fun f => X f * (X f)ᴴ) with
  | error e => rfl
  | ok I => exact congrArg Except.ok (hl I)

/-- The condition on an iteration of ILRMA with ISS2: no tie in any pair update of the sweep, and with projection-back
normalisation the updated spectrogram has independent rows. -/
def IlrmaIss2Regular (np : Numpy ℂ) (src : Ilrma.Source) (norm : Ilrma.Norm n) (floor : ℝ → ℝ)
    (pairs : List (Fin n × Fin n)) (s : Ilrma.StY F n t K) : Prop :=
  let s₁ := Ilrma.updateSourceY src floor s
  let phi := Ilrma.varphi src floor s₁.Y (Ilrma.recon s₁.T s₁.V)
  RegularFold (fun Y p => onBins fun f => iss2Pair np floor (phi f) (Y f) p) (Iss2Regular phi) pairs s₁.Y ∧
    ((∃ r, norm = .projectionBack r) →
      ∀ Y, Ilrma.spatialSignal np (.iss2 pairs) floor phi s₁.Y = .ok Y → ∀ f, IsUnit (Y f * (Y f)ᴴ).det)

/-- C80 (ILRMA with ISS2): two runs, one on each LAPACK, give spectrograms that differ by unit phases of the sources
in every bin, the same bases and activations, the same losses and the same output after projection back. -/
theorem C80_ilrma_iss2 (np np' : Numpy ℂ) (src : Ilrma.Source) (p : ℝ) (norm : Ilrma.Norm n) (floor : ℝ → ℝ)
    (pairs : List (Fin n × Fin n)) (X : Spec F n t) (s s' : Ilrma.StY F n t K) (h : UpToPhase s.Y s'.Y)
    (hT : s'.T = s.T) (hV : s'.V = s.V) (n_iter : ℕ)
    (hreg : RegularRun (Ilrma.updateOnceY np src p (.iss2 pairs) norm floor X)
      (IlrmaIss2Regular np src norm floor pairs) n_iter s) :
    (∃ s₁ s₁', iterM (Ilrma.updateOnceY np src p (.iss2 pairs) norm floor X) n_iter s = .ok s₁ ∧
      iterM (Ilrma.updateOnceY np' src p (.iss2 pairs) norm floor X) n_iter s' = .ok s₁' ∧ UpToPhase s₁.Y s₁'.Y ∧
      s₁'.T = s₁.T ∧ s₁'.V = s₁.V ∧ ∀ r, projectionBackData r s₁'.Y X = projectionBackData r s₁.Y X) ∧
    lossList (Ilrma.updateOnceY np src p (.iss2 pairs) norm floor X) (Ilrma.lossY src X) n_iter s
      = lossList (Ilrma.updateOnceY np' src p (.iss2 pairs) norm floor X) (Ilrma.lossY src X) n_iter s' := by
  have step : ∀ s s' : Ilrma.StY F n t K, (UpToPhase s.Y s'.Y ∧ s'.T = s.T ∧ s'.V = s.V) →
      IlrmaIss2Regular np src norm floor pairs s →
      ∃ a a', Ilrma.updateOnceY np src p (.iss2 pairs) norm floor X s = .ok a ∧
        Ilrma.updateOnceY np' src p (.iss2 pairs) norm floor X s' = .ok a' ∧
        (UpToPhase a.Y a'.Y ∧ a'.T = a.T ∧ a'.V = a.V) := by
    rintro ⟨Y, T, V⟩ ⟨Y', T', V'⟩ ⟨h, h1, h2⟩ ⟨hr, hu⟩
    simp only at h h1 h2
    subst h1 h2
    have eT := (h.source src floor T' V').1
    have eV := fun T => (h.source src floor T V').2.1
    have eφ := (h.source src floor T' V').2.2.2
    simp only [Ilrma.updateOnceY, Ilrma.updateSpatialY, Ilrma.updateSourceY, eT, eV, eφ]
    obtain ⟨Y₁, Y₁', e1, e2, h3⟩ := iss2_sweep np np' floor _ pairs Y Y' h hr
    have hu' := fun hn => hu hn Y₁ e1
    simp only [Ilrma.updateSourceY] at e1 e2
    simp only [Ilrma.spatialSignal, e1, e2, Bind.bind, Except.bind]
    exact normalizeY_step p floor X norm Y₁ Y₁' _ _ h3 hu'
  constructor
  · obtain ⟨s₁, s₁', h1, h2, h3⟩ := iterM_rel _ _ _ _ step n_iter s s' ⟨h, hT, hV⟩ hreg
    exact ⟨s₁, s₁', h1, h2, h3.1, h3.2.1, h3.2.2, fun r => h3.1.projectionBackData r X⟩
  · refine lossList_rel _ _ _ _ _ _ step (fun s s' h => ?_) n_iter s s' ⟨h, hT, hV⟩ hreg
    rw [Ilrma.lossY, Ilrma.lossY, h.2.1, h.2.2]
    exact (lossOf_filter_eq src X h.1 _).symm

/-- The condition on an iteration of ILRMA with partitioning and ISS2. -/
def IlrmaIss2RegularP (np : Numpy ℂ) (src : Ilrma.Source) (floor : ℝ → ℝ)
    (pairs : List (Fin n × Fin n)) (s : Ilrma.StYP F n t K) : Prop :=
  let s₁ := Ilrma.updateSourceYP src floor s
  let phi := Ilrma.varphi src floor s₁.Y (Ilrma.reconP s₁.Z s₁.T s₁.V)
  RegularFold (fun Y p => onBins fun f => iss2Pair np floor (phi f) (Y f) p) (Iss2Regular phi) pairs s₁.Y

/-- C80 (ILRMA with partitioning and ISS2). Projection-back normalisation is excluded because it raises. -/
theorem C80_ilrma_iss2_partitioned (np np' : Numpy ℂ) (src : Ilrma.Source) (p : ℝ) (norm : Ilrma.Norm n)
    (hnorm : ∀ r, norm ≠ .projectionBack r) (floor : ℝ → ℝ) (pairs : List (Fin n × Fin n)) (X : Spec F n t)
    (s s' : Ilrma.StYP F n t K) (h : UpToPhase s.Y s'.Y) (hZ : s'.Z = s.Z) (hT : s'.T = s.T) (hV : s'.V = s.V)
    (n_iter : ℕ)
    (hreg : RegularRun (Ilrma.updateOnceYP np src p (.iss2 pairs) norm floor)
      (IlrmaIss2RegularP np src floor pairs) n_iter s) :
    (∃ s₁ s₁', iterM (Ilrma.updateOnceYP np src p (.iss2 pairs) norm floor) n_iter s = .ok s₁ ∧
      iterM (Ilrma.updateOnceYP np' src p (.iss2 pairs) norm floor) n_iter s' = .ok s₁' ∧ UpToPhase s₁.Y s₁'.Y ∧
      s₁'.Z = s₁.Z ∧ s₁'.T = s₁.T ∧ s₁'.V = s₁.V ∧
      ∀ r, projectionBackData r s₁'.Y X = projectionBackData r s₁.Y X) ∧
    lossList (Ilrma.updateOnceYP np src p (.iss2 pairs) norm floor) (Ilrma.lossYP src X) n_iter s
      = lossList (Ilrma.updateOnceYP np' src p (.iss2 pairs) norm floor) (Ilrma.lossYP src X) n_iter s' := by
  have step : ∀ s s' : Ilrma.StYP F n t K, (UpToPhase s.Y s'.Y ∧ s'.Z = s.Z ∧ s'.T = s.T ∧ s'.V = s.V) →
      IlrmaIss2RegularP np src floor pairs s →
      ∃ a a', Ilrma.updateOnceYP np src p (.iss2 pairs) norm floor s = .ok a ∧
        Ilrma.updateOnceYP np' src p (.iss2 pairs) norm floor s' = .ok a' ∧
        (UpToPhase a.Y a'.Y ∧ a'.Z = a.Z ∧ a'.T = a.T ∧ a'.V = a.V) := by
    rintro ⟨Y, Z, T, V⟩ ⟨Y', Z', T', V'⟩ ⟨h, h1, h2, h3⟩ hr
    simp only at h h1 h2 h3
    subst h1 h2 h3
    have eZ := fun Z T V => (h.sourceP (K := K) src floor Z T V).1
    have eT := fun Z T V => (h.sourceP (K := K) src floor Z T V).2.1
    have eV := fun Z T V => (h.sourceP (K := K) src floor Z T V).2.2.1
    have eφ := (h.sourceP src floor Z' T' V').2.2.2.2
    simp only [Ilrma.updateOnceYP, Ilrma.updateSpatialYP, Ilrma.updateSourceYP, eZ, eT, eV, eφ]
    obtain ⟨Y₁, Y₁', e1, e2, h3⟩ := iss2_sweep np np' floor _ pairs Y Y' h hr
    simp only [Ilrma.updateSourceYP] at e1 e2
    simp only [Ilrma.spatialSignal, e1, e2, Bind.bind, Except.bind]
    have eψ := (h3.sourceP src floor Z' T' V').2.2.2.1
    cases norm with
    | off => exact ⟨_, _, rfl, rfl, h3, rfl, rfl, rfl⟩
    | power =>
      simp only [Ilrma.normalizeYP, eψ]
      exact ⟨_, _, rfl, rfl, h3.divRows _, rfl, rfl, rfl⟩
    | projectionBack r => exact absurd rfl (hnorm r)
  constructor
  · obtain ⟨s₁, s₁', h1, h2, h3⟩ := iterM_rel _ _ _ _ step n_iter s s' ⟨h, hZ, hT, hV⟩ hreg
    exact ⟨s₁, s₁', h1, h2, h3.1, h3.2.1, h3.2.2.1, h3.2.2.2, fun r => h3.1.projectionBackData r X⟩
  · refine lossList_rel _ _ _ _ _ _ step (fun s s' h => ?_) n_iter s s' ⟨h, hZ, hT, hV⟩ hreg
    rw [Ilrma.lossYP, Ilrma.lossYP, h.2.1, h.2.2.1, h.2.2.2]
    exact (lossOf_filter_eq src X h.1 _).symm

end EigPhase
end Verif
