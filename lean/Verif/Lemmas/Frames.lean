import Verif.Lemmas.Equivariance

/-! # Lemmas for C73: reordered and repeated recordings -/

set_option linter.unusedSectionVars false

namespace Verif

open Matrix Spatial Scale

variable {F : Type} [Fintype F] {n t t' K : ℕ}

/-- Every frame is used exactly `m` times. -/
def Cover (π : Fin t' → Fin t) (m : ℕ) : Prop :=
  0 < m ∧ ∀ s, (Finset.univ.filter fun s' => π s' = s).card = m

/-- The recording whose frame `s` is frame `π s` of `X`. -/
def frames (π : Fin t' → Fin t) (X : F → Matrix (Fin n) (Fin t) ℂ) : F → Matrix (Fin n) (Fin t') ℂ :=
  fun f => Matrix.of fun c s => X f c (π s)

/-- Every reordering of the frames is a cover. -/
theorem Cover.perm (σ : Equiv.Perm (Fin t)) : Cover σ 1 := by
  refine ⟨one_pos, fun s => ?_⟩
  rw [Finset.card_eq_one]
  refine ⟨σ.symm s, ?_⟩
  ext x
  simp [Equiv.eq_symm_apply]

/-- So is playing the recording `m` times. -/
theorem Cover.repeat (m : ℕ) (hm : 0 < m) : Cover (fun s : Fin (m * t) => s.modNat) m := by
  refine ⟨hm, fun s => ?_⟩
  have : (Finset.univ.filter fun s' : Fin (m * t) => s'.modNat = s)
      = Finset.univ.map ⟨fun i : Fin m => finProdFinEquiv (i, s), fun i j h => by simpa using h⟩ := by
    ext x
    simp only [Finset.mem_filter, Finset.mem_univ, true_and, Finset.mem_map]
    constructor
    · intro h
      refine ⟨x.divNat, ?_⟩
      rw [← h]
      exact finProdFinEquiv.apply_symm_apply x
    · rintro ⟨i, rfl⟩
      exact congrArg Prod.snd (finProdFinEquiv.symm_apply_apply (i, s))
  rw [this, Finset.card_map, Finset.card_univ, Fintype.card_fin]

variable {π : Fin t' → Fin t} {m : ℕ}

theorem Cover.sum {A : Type} [AddCommMonoid A] (h : Cover π m) (g : Fin t → A) : ∑ s, g (π s) = m • ∑ s, g s := by
  rw [← Finset.sum_fiberwise Finset.univ π (fun s => g (π s)), Finset.smul_sum]
  refine Finset.sum_congr rfl fun s _ => ?_
  rw [Finset.sum_congr rfl (g := fun _ => g s), Finset.sum_const, h.2 s]
  intro x hx
  rw [(Finset.mem_filter.mp hx).2]

theorem Cover.card (h : Cover π m) : t' = m * t := by
  have := h.sum fun _ => 1
  simpa using this

theorem Cover.ne (h : Cover π m) (𝕜 : Type) [RCLike 𝕜] : (m : 𝕜) ≠ 0 := by exact_mod_cast h.1.ne'

theorem Cover.mean {𝕜 : Type} [RCLike 𝕜] (h : Cover π m) (g : Fin t → 𝕜) : (meanT fun s => g (π s)) = meanT g := by
  have hm := h.ne 𝕜
  rw [meanT, meanT, h.sum, h.card, nsmul_eq_mul, Nat.cast_mul, mul_div_mul_left _ _ hm]

theorem Cover.ratio (h : Cover π m) (g d : Fin t → ℝ) : (∑ s, g (π s)) / (∑ s, d (π s)) = (∑ s, g s) / ∑ s, d s := by
  rw [h.sum, h.sum, nsmul_eq_mul, nsmul_eq_mul, mul_div_mul_left _ _ (h.ne ℝ)]

theorem separate_frames (X : Spec F n t) (W : F → Mat n ℂ) : separate (frames π X) W = frames π (separate X W) := by
  funext f
  ext k s
  simp only [separate, frames, Matrix.mul_apply, Matrix.of_apply]

theorem wcov_frames (h : Cover π m) (phi : Fin n → Fin t → ℝ) (X : Spec F n t) (f : F) (k : Fin n) :
    Iva.wcov (fun k s => phi k (π s)) (frames π X) f k = Iva.wcov phi X f k := by
  ext i j
  exact h.mean fun s => (phi k s : ℂ) * (X f i s * star (X f j s))

theorem gram_frames (h : Cover π m) (X Y : Spec F n t) (f : F) :
    frames π X f * (frames π Y f)ᴴ = (m : ℂ) • (X f * (Y f)ᴴ) := by
  ext i j
  rw [Matrix.smul_apply, Matrix.mul_apply, Matrix.mul_apply, smul_eq_mul, ← nsmul_eq_mul]
  exact h.sum fun s => X f i s * (Y f)ᴴ s j

theorem iss1Row_frames (h : Cover π m) (floor : ℝ → ℝ) (phi : Fin n → Fin t → ℝ) (Y : Spec F n t) (f : F)
    (src : Fin n) :
    iss1Row floor (fun k s => phi k (π s)) (frames π Y f) src
      = frames π (fun f => iss1Row floor phi (Y f) src) f := by
  ext k s
  have h1 : ∀ k, (meanT fun s => (phi k (π s) : ℂ) * (frames π Y f k s * star (frames π Y f src s)))
      = meanT fun s => (phi k s : ℂ) * (Y f k s * star (Y f src s)) :=
    fun k => h.mean fun s => (phi k s : ℂ) * (Y f k s * star (Y f src s))
  have h2 : ∀ k, (meanT fun s => phi k (π s) * ‖frames π Y f src s‖ ^ 2) = meanT fun s => phi k s * ‖Y f src s‖ ^ 2 :=
    fun k => h.mean fun s => phi k s * ‖Y f src s‖ ^ 2
  simp only [iss1Row, h1, h2]
  rfl

theorem iss1_frames (h : Cover π m) (floor : ℝ → ℝ) (phi : F → Fin n → Fin t → ℝ) (Y : Spec F n t) :
    (fun f => iss1 floor (fun k s => phi f k (π s)) (frames π Y f)) = frames π fun f => iss1 floor (phi f) (Y f) := by
  funext f
  have key : ∀ (l : List (Fin n)) (Y : Spec F n t),
      l.foldl (iss1Row floor fun k s => phi f k (π s)) (frames π Y f)
        = frames π (fun f' => l.foldl (iss1Row floor (phi f)) (Y f')) f := by
    intro l
    induction l with
    | nil => intro Y; rfl
    | cons b l ih =>
      intro Y
      rw [List.foldl_cons, iss1Row_frames h, ih]
      rfl
  exact key _ Y

theorem iss2Pair_frames (h : Cover π m) (np : Numpy ℂ) (floor : ℝ → ℝ) (phi : Fin n → Fin t → ℝ)
    (Y : Matrix (Fin n) (Fin t) ℂ) (p : Fin n × Fin n) :
    iss2Pair np floor (fun k s => phi k (π s)) (Matrix.of fun c s => Y c (π s)) p
      = Except.map (fun Y => Matrix.of fun c s => Y c (π s)) (iss2Pair np floor phi Y p) := by
  have e0 : ∀ i s, (![(Matrix.of fun c s => Y c (π s)) p.1, (Matrix.of fun c s => Y c (π s)) p.2] :
      Fin 2 → Fin t' → ℂ) i s = (![Y p.1, Y p.2] : Fin 2 → Fin t → ℂ) i (π s) := by
    intro i s
    fin_cases i <;> rfl
  have e1 : ∀ k, pairCov (fun s => phi k (π s))
      ![(Matrix.of fun c s => Y c (π s)) p.1, (Matrix.of fun c s => Y c (π s)) p.2] = pairCov (phi k) ![Y p.1, Y p.2] := by
    intro k
    ext i j
    simp only [pairCov, Matrix.of_apply, e0]
    exact h.mean fun s => (phi k s : ℂ) *
      ((![Y p.1, Y p.2] : Fin 2 → Fin t → ℂ) i s * star ((![Y p.1, Y p.2] : Fin 2 → Fin t → ℂ) j s))
  have e2 : ∀ k, (fun i => meanT fun s => (phi k (π s) : ℂ) *
      ((![(Matrix.of fun c s => Y c (π s)) p.1, (Matrix.of fun c s => Y c (π s)) p.2] : Fin 2 → Fin t' → ℂ) i s
        * star ((Matrix.of fun c s => Y c (π s)) k s)))
      = fun i => meanT fun s => (phi k s : ℂ) * ((![Y p.1, Y p.2] : Fin 2 → Fin t → ℂ) i s * star (Y k s)) := by
    intro k
    funext i
    simp only [e0, Matrix.of_apply]
    exact h.mean fun s => (phi k s : ℂ) * ((![Y p.1, Y p.2] : Fin 2 → Fin t → ℂ) i s * star (Y k s))
  rw [iss2Pair, iss2Pair]
  simp only [e1, e2]
  rw [map_bind]
  congr 1

/-- Scale restoration. -/
theorem mdp_frames (h : Cover π m) (r : Fin n) (Y X : Spec F n t) :
    mdp r (frames π Y) (frames π X) = frames π (mdp r Y X) := by
  funext f
  ext i s
  have h1 : (∑ s, frames π Y f i s * star (frames π X f r s)) = m • ∑ s, Y f i s * star (X f r s) :=
    h.sum fun s => Y f i s * star (X f r s)
  have h2 : (∑ s, ‖frames π Y f i s‖ ^ 2) = m • ∑ s, ‖Y f i s‖ ^ 2 := h.sum fun s => ‖Y f i s‖ ^ 2
  have h3 := h.ne ℂ
  have e : frames π (mdp r Y X) f i s
      = star ((∑ s, Y f i s * star (X f r s)) / ((∑ s, ‖Y f i s‖ ^ 2 : ℝ) : ℂ)) * Y f i (π s) := rfl
  rw [e]
  simp only [mdp, Matrix.of_apply, h1, h2, nsmul_eq_mul, Complex.ofReal_mul, Complex.ofReal_natCast,
    mul_div_mul_left _ _ h3]
  rfl

end Verif
