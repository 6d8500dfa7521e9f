import Verif.Lemmas.PermNat
import Verif.Props.CacgmmMix
import Verif.Props.Direction

/-!
# C115, continued: alignment leaves the sources in the same order

`C115_calibration` and `C115_normalization` allow the two calls to use different alignments. Here both use the same
`permutation_alignment`: then also the order of the sources is the same, since the solvers see standardised or normalised values only.
-/

set_option linter.unusedSectionVars false

namespace Verif.Cacgmm
open Matrix Spatial Scale Permutation
open Fdica (PermOpt)
open scoped ComplexOrder

variable {B n m t : ℕ}

section
variable (Q : Fin B → Mat m ℂ → Mat m ℂ → Prop) (κ : Fin B → ℝ)

/-- Entries of the memories of two alignments: covariances related by `Q`, absolute values of signals multiplied by `κ`. -/
def CellRel (b : Fin B) : Cell m t → Cell m t → Prop
  | .mixing a, .mixing a' => a' = a
  | .covariance M, .covariance M' => Q b M M'
  | .posterior γ, .posterior γ' => γ' = γ
  | .amplitude a, .amplitude a' => a' = fun j => κ b * a j
  | .spectrogram y, .spectrogram y' => ∀ j, ‖y' j‖ = κ b * ‖y j‖
  | _, _ => False

variable {Q κ} (hκ : ∀ b, 0 < κ b)

include hκ in
theorem cell_real (b : Fin B) (c c' : Cell m t) (h : CellRel Q κ b c c') :
    standardise (Cell.real c') = standardise (Cell.real c) := by
  cases c <;> cases c' <;> simp only [CellRel] at h
  · rfl
  · rfl
  · rw [h]
  · rw [h]
    exact standardise_scale (hκ b) _
  · rfl

theorem cell_mag (b : Fin B) (c c' : Cell m t) (h : CellRel Q κ b c c') (j : Fin t) : Cell.mag c' j = κ b * Cell.mag c j := by
  cases c <;> cases c' <;> simp only [CellRel] at h <;> simp [Cell.mag]
  exact h j

theorem cell_mixing (b : Fin B) (c c' : Cell m t) (h : CellRel Q κ b c c') : c'.getMixing = c.getMixing := by
  cases c <;> cases c' <;> simp only [CellRel] at h <;> simp [Cell.getMixing, h]

theorem cell_posterior (b : Fin B) (c c' : Cell m t) (h : CellRel Q κ b c c') : c'.getPosterior = c.getPosterior := by
  cases c <;> cases c' <;> simp only [CellRel] at h <;> simp [Cell.getPosterior, h]

theorem cell_covariance (hQ : ∀ b, Q b 0 0) (b : Fin B) (c c' : Cell m t) (h : CellRel Q κ b c c') :
    Q b c.getCovariance c'.getCovariance := by
  cases c <;> cases c' <;> simp only [CellRel] at h <;> first | exact h | exact hQ b

/-- The outcomes of two alignments. -/
def SameAligned (Q : Fin B → Mat m ℂ → Mat m ℂ → Prop) (x x' : Except PyErr (CSt (Fin B) n m × Posterior (Fin B) n t)) : Prop :=
  (∃ u u' γ, x = .ok (u, γ) ∧ x' = .ok (u', γ) ∧ u'.α = u.α ∧ ∀ k b, Q b (u.B k b) (u'.B k b)) ∨ ∃ e, x = .error e ∧ x' = .error e

theorem readBack_rel (hQ : ∀ b, Q b 0 0) {st st' : Store B (n + 1) (Cell m t)} (h : RelStore (CellRel Q κ) st st') (a c g : ℕ) :
    SameAligned Q (.ok (readBack st a c g)) (.ok (readBack st' a c g)) := by
  refine .inl ⟨(readBack st a c g).1, (readBack st' a c g).1, (readBack st a c g).2, rfl, ?_, ?_, ?_⟩
  · refine congrArg Except.ok (Prod.ext rfl ?_)
    funext k b
    exact cell_posterior b _ _ (h.2 g b k)
  · funext k b
    exact cell_mixing b _ _ (h.2 a b k)
  · intro k b
    exact cell_covariance hQ b _ _ (h.2 c b k)

variable (hQ : ∀ b, Q b 0 0) {X X' : Spec (Fin B) m t} {r : Fin m} (hX : ∀ f j, ‖X' f r j‖ = κ f * ‖X f r j‖) {s s' : CSt (Fin B) n m}
  (hα : s'.α = s.α) (hB : ∀ k b, Q b (s.B k b) (s'.B k b))
include hκ hQ hX hα hB

theorem solveByScore_rel (target : String) (g l : ℤ) (floor : ℝ → ℝ) (γ : Posterior (Fin B) n t) :
    SameAligned Q (solveByScore target g l floor X r s γ) (solveByScore target g l floor X' r s' γ) := by
  unfold solveByScore
  by_cases h1 : target = "posterior"
  · simp only [h1, if_true]
    have h : RelStore (CellRel Q κ)
        (⟨fun r b k => if r = 0 then .posterior (γ k b) else if r = 1 then .mixing (s.α k b) else .covariance (s.B k b), 3⟩ :
          Store B (n + 1) (Cell m t))
        ⟨fun r b k => if r = 0 then .posterior (γ k b) else if r = 1 then .mixing (s'.α k b) else .covariance (s'.B k b), 3⟩ := by
      refine ⟨rfl, fun i b k => ?_⟩
      dsimp only
      split_ifs
      · rfl
      · rw [hα]; rfl
      · exact hB k b
    rcases score_rel (cell_real hκ) floor g l false true 0 [1, 2] h with ⟨Y, L, u, u', e, e', hu⟩ | ⟨x, e, e'⟩
    · simp only [e, e', bind, Except.bind]
      split
      · exact readBack_rel hQ hu _ _ _
      · exact .inr ⟨_, rfl, rfl⟩
    · simp only [e, e', bind, Except.bind]
      exact .inr ⟨_, rfl, rfl⟩
  · by_cases h2 : target = "amplitude"
    · simp only [h2, if_true]
      rw [if_neg (by decide), if_neg (by decide)]
      have h : RelStore (CellRel Q κ)
          (⟨fun i b k => if i = 0 then .amplitude (fun j => ‖separateP X r γ k b j‖)
            else if i = 1 then .mixing (s.α k b) else if i = 2 then .covariance (s.B k b) else .posterior (γ k b), 4⟩ :
            Store B (n + 1) (Cell m t))
          ⟨fun i b k => if i = 0 then .amplitude (fun j => ‖separateP X' r γ k b j‖)
            else if i = 1 then .mixing (s'.α k b) else if i = 2 then .covariance (s'.B k b) else .posterior (γ k b), 4⟩ := by
        refine ⟨rfl, fun i b k => ?_⟩
        dsimp only
        split_ifs
        · funext j
          simp only [separateP, norm_mul, hX]
          ring
        · rw [hα]; rfl
        · exact hB k b
        · rfl
      rcases score_rel (cell_real hκ) floor g l false true 0 [1, 2, 3] h with ⟨Y, L, u, u', e, e', hu⟩ | ⟨x, e, e'⟩
      · simp only [e, e', bind, Except.bind]
        split
        · exact readBack_rel hQ hu _ _ _
        · exact .inr ⟨_, rfl, rfl⟩
      · simp only [e, e', bind, Except.bind]
        exact .inr ⟨_, rfl, rfl⟩
    · simp only [h1, h2, if_false]
      exact .inr ⟨_, rfl, rfl⟩

theorem solveByCorrelation_rel (srt : Argsort) (target : String) (γ : Posterior (Fin B) n t) :
    SameAligned Q (solveByCorrelation srt target id X r s γ) (solveByCorrelation srt target id X' r s' γ) := by
  unfold solveByCorrelation
  by_cases h1 : target = "amplitude"
  · rw [if_neg (not_not.mpr h1), if_neg (not_not.mpr h1)]
    have h : RelStore (CellRel Q κ)
        (⟨fun i b k => if i = 0 then .spectrogram (separateP X r γ k b)
          else if i = 1 then .mixing (s.α k b) else if i = 2 then .covariance (s.B k b) else .posterior (γ k b), 4⟩ :
          Store B (n + 1) (Cell m t))
        ⟨fun i b k => if i = 0 then .spectrogram (separateP X' r γ k b)
          else if i = 1 then .mixing (s'.α k b) else if i = 2 then .covariance (s'.B k b) else .posterior (γ k b), 4⟩ := by
      refine ⟨rfl, fun i b k => ?_⟩
      dsimp only
      split_ifs
      · intro j
        simp only [separateP, norm_mul, hX]
        ring
      · rw [hα]; rfl
      · exact hB k b
      · rfl
    rcases correlation_rel srt (mag := Cell.mag) (mag' := Cell.mag) (floor := id) (floor' := id)
      (fun b y y' hy => normalised_scale (hκ b) fun i k => cell_mag b _ _ (hy i) k) true 0 [1, 2, 3] h
      with ⟨Y, L, u, u', e, e', hu⟩ | ⟨x, e, e'⟩
    · simp only [e, e', bind, Except.bind]
      split
      · exact readBack_rel hQ hu _ _ _
      · exact .inr ⟨_, rfl, rfl⟩
    · simp only [e, e', bind, Except.bind]
      exact .inr ⟨_, rfl, rfl⟩
  · rw [if_pos h1, if_pos h1]
    exact .inr ⟨_, rfl, rfl⟩

theorem solvePermutation_rel (srt : Argsort) (opt : PermOpt) (g l : Option ℤ) (floor : ℝ → ℝ)
    (ho : opt = .str "amplitude_correlation" → floor = id) (γ : Posterior (Fin B) n t) :
    SameAligned Q (solvePermutation srt opt g l floor X r s γ) (solvePermutation srt opt g l floor X' r s' γ) := by
  have key : ∀ key : String, (key = "amplitude_correlation" → floor = id) → SameAligned Q
      ((do
        let target ←
          if key ∈ ["posterior_score", "posterior_correlation"] then .ok "posterior"
          else if key ∈ ["amplitude_score", "amplitude_correlation"] then .ok "amplitude"
          else .error .notImplemented
        if key ∈ ["posterior_score", "amplitude_score"] then
          solveByScore target (g.getD 1) (l.getD 1) floor X r s γ
        else if key ∈ ["posterior_correlation", "amplitude_correlation"] then
          solveByCorrelation srt target floor X r s γ
        else .error .notImplemented : Except PyErr (CSt (Fin B) n m × Posterior (Fin B) n t)))
      (do
        let target ←
          if key ∈ ["posterior_score", "posterior_correlation"] then .ok "posterior"
          else if key ∈ ["amplitude_score", "amplitude_correlation"] then .ok "amplitude"
          else .error .notImplemented
        if key ∈ ["posterior_score", "amplitude_score"] then
          solveByScore target (g.getD 1) (l.getD 1) floor X' r s' γ
        else if key ∈ ["posterior_correlation", "amplitude_correlation"] then
          solveByCorrelation srt target floor X' r s' γ
        else .error .notImplemented) := by
    intro key ho
    by_cases h1 : key = "amplitude_correlation"
    · rw [ho h1]
      simp only [bind, Except.bind]
      split_ifs <;> first
        | exact solveByScore_rel hκ hQ hX hα hB _ _ _ id γ
        | exact solveByCorrelation_rel hκ hQ hX hα hB srt _ γ
        | exact .inr ⟨_, rfl, rfl⟩
    · by_cases h2 : key = "posterior_correlation"
      · subst h2
        exact .inr ⟨.assertion, by simp [bind, Except.bind, solveByCorrelation], by simp [bind, Except.bind, solveByCorrelation]⟩
      · simp only [bind, Except.bind]
        have h3 : key ∉ ["posterior_correlation", "amplitude_correlation"] := by simp [h1, h2]
        simp only [h3, if_false]
        split_ifs <;> first
          | exact solveByScore_rel hκ hQ hX hα hB _ _ _ floor γ
          | exact .inr ⟨_, rfl, rfl⟩
  unfold solvePermutation
  cases hb : opt.truthy with
  | false => exact .inr ⟨_, rfl, rfl⟩
  | true =>
    simp only [Bool.not_true, Bool.false_eq_true, if_false]
    refine key _ fun e => ho ?_
    cases opt with
    | bool b => exact absurd (show "posterior_score" = "amplitude_correlation" from e) (by decide)
    | str s => exact congrArg _ e

end

theorem call_inv {F : Type} [Fintype F] {np : Numpy ℂ} {norm : Bool} {X : Spec F m t} {r : Fin m} {n_iter : ℕ} {s u : CSt F n m}
    {γ : Posterior F n t} {y : Fin (n + 1) → F → Fin t → ℂ} (h : call np norm id X r (fun _ => 1) n_iter s = .ok (u, γ, y)) :
    iterate np norm id (unitInput id X) n_iter s = .ok u ∧ updatePosterior id (unitInput id X) u = .ok γ := by
  simp only [call, Bind.bind, Except.bind] at h
  cases e : iterate np norm id (unitInput id X) n_iter s with
  | error => rw [e] at h; exact nomatch h
  | ok v =>
    rw [e] at h
    simp only [] at h
    cases e' : updatePosterior id (unitInput id X) v with
    | error => rw [e'] at h; exact nomatch h
    | ok γ' =>
      rw [e'] at h
      simp only [Except.ok.injEq, Prod.mk.injEq] at h
      obtain ⟨h1, h2, -⟩ := h
      have h1 : v = u := h1
      have h2 : γ' = γ := h2
      exact ⟨h1 ▸ rfl, h1 ▸ h2 ▸ e'⟩

theorem call_order {F : Type} [Fintype F] (np : Numpy ℂ) (norm : Bool) (X : Spec F m t) (r : Fin m) (σ : F → Equiv.Perm (Fin (n + 1)))
    (n_iter : ℕ) (s : CSt F n m) :
    call np norm id X r σ n_iter s = (call np norm id X r (fun _ => 1) n_iter s).map fun p =>
      (⟨fun k f => p.1.α (σ f k) f, fun k f => p.1.B (σ f k) f⟩, fun k f => p.2.1 (σ f k) f, fun k f j => p.2.2 (σ f k) f j) := by
  simp only [call, Bind.bind, Except.bind, Except.map]
  cases iterate np norm id (unitInput id X) n_iter s with
  | error => rfl
  | ok s =>
    simp only []
    cases updatePosterior id (unitInput id X) s with
    | error => rfl
    | ok γ => rfl

/-- C115: gains of the microphones, in every bin, when both calls align the sources in the same way (or not at all): the
posteriors are the same, source by source, and the output is multiplied by the gain of the reference microphone. -/
theorem C115_calibration_aligned [Nonempty (Fin m)] {R R' : Type} (np np' : Numpy ℂ) (srt : Permutation.Argsort)
    (draw : R → ((Fin (n + 1) → Fin B → ℝ) × (Fin (n + 1) → Fin B → Fin m → ℝ)) × R)
    (draw' : R' → ((Fin (n + 1) → Fin B → ℝ) × (Fin (n + 1) → Fin B → Fin m → ℝ)) × R') (norm norm' : Bool)
    (opt : PermOpt) (gi li : Option ℤ) (hopt : ValidOption opt gi li)
    {g : Fin B → Fin m → ℂ} (hg : ∀ f c, g f c ≠ 0) {X : Spec (Fin B) m t} (ht : 0 < t) (hB : 0 < B)
    (hX : ∀ f, LinearIndependent ℂ (X f).row) (hX0 : ∀ f j, ∃ c, X f c j ≠ 0) (r : Fin m) (n_iter : ℕ) (rng : R) (rng' : R')
    (ha : ∀ k f, 0 < (draw rng).1.1 k f) (hd : ∀ k f c, 0 < (draw rng).1.2 k f c)
    (hdraw : (draw' rng').1 = ((draw rng).1.1, fun k f c => ‖g f c‖ ^ 2 * (draw rng).1.2 k f c)) :
    ∃ (s : CSt (Fin B) n m) (γ : Posterior (Fin B) n t) (c : Fin (n + 1) → Fin B → ℝ), (∀ k f, 0 < c k f) ∧
      callWith np srt draw norm opt gi li id X r n_iter rng = .ok ((draw rng).2, s, γ, fun k f j => γ k f j * X f r j) ∧
      callWith np' srt draw' norm' opt gi li id (fun f => Matrix.of fun c j => g f c * X f c j) r n_iter rng'
        = .ok ((draw' rng').2, ⟨s.α, fun k f => (c k f : ℂ) • (diagonal (g f) * s.B k f * (diagonal (g f))ᴴ)⟩, γ,
            fun k f j => g f r * (γ k f j * X f r j)) := by
  obtain ⟨p1, p2, p3, -⟩ := C85_initial (draw rng).1.1 (draw rng).1.2 ha hd
  obtain ⟨c, hc, hi⟩ := CacgmmMix.init_mix (draw rng).1.1 hd hg
  have hA : ∀ f, IsUnit (diagonal (g f)).det := fun f => by
    rw [det_diagonal, isUnit_iff_ne_zero]
    exact Finset.prod_ne_zero_iff.mpr fun c _ => hg f c
  have eX : (fun f => Matrix.of fun c j => g f c * X f c j) = fun f => diagonal (g f) * X f := by
    funext f
    ext c j
    rw [diagonal_mul, of_apply]
  obtain ⟨u, γ, c₁, hc₁, k1, k2⟩ := CacgmmMix.C115_call np np' norm norm' hA ht hX hX0 r r (fun _ => 1) n_iter ⟨p1, p3⟩ p2 hc
  obtain ⟨i1, i2⟩ := call_inv k1
  obtain ⟨j1, j2⟩ := call_inv k2
  rw [← hi] at j1
  rw [← eX] at j1 j2
  have e1 : callWith np srt draw norm opt gi li id X r n_iter rng
      = (if opt.truthy then solvePermutation srt opt gi li id X r u γ else .ok (u, γ)).map
        fun p => ((draw rng).2, p.1, p.2, separateP X r p.2) := by
    simp only [callWith, Bind.bind, Except.bind, i1, i2, Except.map]
    split <;> rfl
  have e2 : callWith np' srt draw' norm' opt gi li id (fun f => Matrix.of fun c j => g f c * X f c j) r n_iter rng'
      = (if opt.truthy then solvePermutation srt opt gi li id (fun f => Matrix.of fun c j => g f c * X f c j) r
          ⟨u.α, fun k f => (c₁ k f : ℂ) • (diagonal (g f) * u.B k f * (diagonal (g f))ᴴ)⟩ γ
          else .ok (⟨u.α, fun k f => (c₁ k f : ℂ) • (diagonal (g f) * u.B k f * (diagonal (g f))ᴴ)⟩, γ)).map
        fun p => ((draw' rng').2, p.1, p.2, separateP (fun f => Matrix.of fun c j => g f c * X f c j) r p.2) := by
    simp only [callWith, Bind.bind, Except.bind, hdraw, j1, j2, Except.map]
    split <;> rfl
  rw [e1, e2]
  have ey : ∀ γ : Posterior (Fin B) n t, separateP (fun f => Matrix.of fun c j => g f c * X f c j) r γ
      = fun k f j => g f r * (γ k f j * X f r j) := by
    intro γ
    funext k f j
    simp only [separateP, of_apply]
    ring
  cases ho : opt.truthy with
  | false =>
    simp only [Bool.false_eq_true, if_false, Except.map, ey]
    exact ⟨u, γ, c₁, hc₁, rfl, rfl⟩
  | true =>
    obtain ⟨σ, hσ⟩ := C85_call np srt draw norm opt gi li hopt id X r n_iter rng hB
    simp only [if_true]
    let Q : Fin B → Mat m ℂ → Mat m ℂ → Prop := fun f M M' =>
      ∃ c : ℝ, 0 < c ∧ M' = (c : ℂ) • (diagonal (g f) * M * (diagonal (g f))ᴴ)
    rcases solvePermutation_rel (Q := Q) (κ := fun f => ‖g f r‖) (fun f => norm_pos_iff.mpr (hg f r))
      (fun f => ⟨1, one_pos, by simp⟩) (X := X) (X' := fun f => Matrix.of fun c j => g f c * X f c j) (r := r)
      (fun f j => norm_mul _ _) (s := u) (s' := ⟨u.α, fun k f => (c₁ k f : ℂ) • (diagonal (g f) * u.B k f * (diagonal (g f))ᴴ)⟩) rfl
      (fun k f => ⟨c₁ k f, hc₁ k f, rfl⟩) srt opt gi li id (fun _ => rfl) γ with ⟨v, v', γ', q1, q2, q3, q4⟩ | ⟨e, q1, -⟩
    · choose c₂ hc₂ hv using q4
      rw [q1, q2]
      simp only [Except.map, ey]
      refine ⟨v, γ', c₂, hc₂, rfl, ?_⟩
      have : v' = ⟨v.α, fun k f => (c₂ k f : ℂ) • (diagonal (g f) * v.B k f * (diagonal (g f))ᴴ)⟩ := by
        cases v'
        simp only [CSt.mk.injEq]
        exact ⟨q3, funext fun k => funext fun f => hv k f⟩
      rw [this]
    · exfalso
      rw [e1, ho, if_pos rfl, q1, call_order, k1] at hσ
      exact nomatch hσ

/-- C115: `normalization` changes neither the posteriors nor the output. -/
theorem C115_normalization_aligned [Nonempty (Fin m)] {R : Type} (np np' : Numpy ℂ) (srt : Permutation.Argsort)
    (draw : R → ((Fin (n + 1) → Fin B → ℝ) × (Fin (n + 1) → Fin B → Fin m → ℝ)) × R) (norm norm' : Bool)
    (opt : PermOpt) (gi li : Option ℤ) (hopt : ValidOption opt gi li) {X : Spec (Fin B) m t} (ht : 0 < t) (hB : 0 < B)
    (hX : ∀ f, LinearIndependent ℂ (X f).row) (hX0 : ∀ f j, ∃ c, X f c j ≠ 0) (r : Fin m) (n_iter : ℕ) (rng : R)
    (ha : ∀ k f, 0 < (draw rng).1.1 k f) (hd : ∀ k f c, 0 < (draw rng).1.2 k f c) :
    ∃ (s : CSt (Fin B) n m) (γ : Posterior (Fin B) n t) (c : Fin (n + 1) → Fin B → ℝ), (∀ k f, 0 < c k f) ∧
      callWith np srt draw norm opt gi li id X r n_iter rng = .ok ((draw rng).2, s, γ, fun k f j => γ k f j * X f r j) ∧
      callWith np' srt draw norm' opt gi li id X r n_iter rng
        = .ok ((draw rng).2, ⟨s.α, fun k f => (c k f : ℂ) • s.B k f⟩, γ, fun k f j => γ k f j * X f r j) := by
  obtain ⟨s, γ, c, hc, h1, h2⟩ := C115_calibration_aligned np np' srt draw draw norm norm' opt gi li hopt
    (g := fun _ _ => 1) (fun _ _ => one_ne_zero) ht hB hX hX0 r n_iter rng rng ha hd
    (by simp only [norm_one, one_pow, one_mul])
  refine ⟨s, γ, c, hc, h1, ?_⟩
  have e : ∀ M : Mat m ℂ, (diagonal fun _ => (1 : ℂ)) * M * (diagonal fun _ => (1 : ℂ))ᴴ = M := fun M => by
    rw [diagonal_one, conjTranspose_one, Matrix.one_mul, Matrix.mul_one]
  simp only [one_mul, e] at h2
  exact h2

/-- Three sources, two microphones one of which has ten times the gain it had, with the default alignment in both calls. -/
example (np np' : Numpy ℂ) (srt : Permutation.Argsort) (n_iter : ℕ) :
    ∃ (s s' : CSt (Fin 2) 2 2) (γ : Posterior (Fin 2) 2 3),
      callWith np srt (fun _ : Unit => ((fun k _ => k + 1, fun k f c => k + f + c + 1), ())) true (.bool true) none none id
          (fun _ => !![1, 2, 0; 0, 1, 1]) 1 n_iter ()
        = .ok ((), s, γ, fun k f j => γ k f j * (fun _ : Fin 2 => !![1, 2, 0; 0, 1, 1]) f 1 j) ∧
      callWith np' srt (fun _ : Unit => ((fun k _ => k + 1, fun k f c => ‖![(1 : ℂ), 10] c‖ ^ 2 * (k + f + c + 1)), ())) false
          (.bool true) none none id (fun _ => Matrix.of fun c j => ![1, 10] c * !![1, 2, 0; 0, 1, 1] c j) 1 n_iter ()
        = .ok ((), s', γ, fun k f j => 10 * (γ k f j * (fun _ : Fin 2 => !![1, 2, 0; 0, 1, 1]) f 1 j)) := by
  obtain ⟨s, γ, c, -, h1, h2⟩ := C115_calibration_aligned np np' srt
    (fun _ : Unit => ((fun (k : Fin 3) (_ : Fin 2) => (k : ℝ) + 1, fun (k : Fin 3) (f : Fin 2) (c : Fin 2) => (k : ℝ) + f + c + 1), ()))
    (fun _ : Unit => ((fun (k : Fin 3) (_ : Fin 2) => (k : ℝ) + 1,
      fun (k : Fin 3) (f : Fin 2) (c : Fin 2) => ‖![(1 : ℂ), 10] c‖ ^ 2 * ((k : ℝ) + f + c + 1)), ()))
    true false (.bool true) none none (.inr (.inr (.inr ⟨.inl rfl, .inl le_rfl⟩)))
    (g := fun _ => ![1, 10]) (fun _ c => by fin_cases c <;> simp) (by norm_num) (by norm_num) CacgmmMix.ex_indep
    CacgmmMix.ex_audible 1 n_iter () () (fun k _ => by positivity) (fun k f c => by positivity) rfl
  exact ⟨s, _, γ, h1, h2⟩

/-- C111: if in every bin the gains of all frames have the same absolute value, also the alignments that look at amplitudes take
the same decisions (`amplitude_correlation` without flooring). -/
theorem C111_callWith_bins {R : Type} (np : Numpy ℂ) (srt : Permutation.Argsort)
    (draw : R → ((Fin (n + 1) → Fin B → ℝ) × (Fin (n + 1) → Fin B → Fin m → ℝ)) × R) (normalization : Bool)
    (opt : PermOpt) (globalIter localIter : Option ℤ) {floor : ℝ → ℝ} (ho : opt = .str "amplitude_correlation" → floor = id)
    {κ : Fin B → ℝ} (hκ : ∀ f, 0 < κ f) {g : Fin B → Fin t → ℂ} (hg : ∀ f j, ‖g f j‖ = κ f)
    {X : Spec (Fin B) m t} (h : Loud floor g X) (r : Fin m) (n_iter : ℕ) (rng : R) :
    callWith np srt draw normalization opt globalIter localIter floor (turn g X) r n_iter rng
      = (callWith np srt draw normalization opt globalIter localIter floor X r n_iter rng).map
          fun p => (p.1, p.2.1, p.2.2.1, fun k f j => g f j * p.2.2.2 k f j) := by
  have hg0 : ∀ f j, g f j ≠ 0 := fun f j => norm_pos_iff.mp ((hg f j).symm ▸ hκ f)
  have hs : ∀ (s : CSt (Fin B) n m) γ, solvePermutation srt opt globalIter localIter floor (turn g X) r s γ
      = solvePermutation srt opt globalIter localIter floor X r s γ := by
    intro s γ
    rcases solvePermutation_rel (Q := fun _ M M' => M' = M) hκ (fun _ => rfl) (X := X) (X' := turn g X) (r := r)
      (fun f j => by rw [← hg f j]; exact norm_mul _ _) (s := s) (s' := s) rfl (fun _ _ => rfl) srt opt globalIter localIter
      floor ho γ with ⟨u, u', γ', e, e', h1, h2⟩ | ⟨x, e, e'⟩
    · rw [e, e']
      have : u' = u := by
        cases u
        cases u'
        simp only [CSt.mk.injEq]
        exact ⟨h1, funext fun k => funext fun b => h2 k b⟩
      rw [this]
    · rw [e, e']
  simp only [callWith, iterate_gain np normalization hg0 h]
  rw [map_bind]
  congr 1
  funext s
  simp only [updatePosterior_gain hg0 h, hs]
  rw [map_bind]
  congr 1
  funext γ
  split
  · rw [map_bind]
    congr 1
    funext p
    simp only [Except.map, separateP_gain]
  · simp only [Bind.bind, Except.bind, Except.map, separateP_gain]

/-- The second of two bins turned up by 5, amplitudes aligned. -/
example (np : Numpy ℂ) (srt : Permutation.Argsort) (n_iter : ℕ) (X : Spec (Fin 2) 2 3) :
    callWith (n := 2) np srt (fun _ : Unit => ((fun k _ => k + 1, fun k f c => k + f + c + 1), ())) true
        (.str "amplitude_correlation") none none id (turn (fun f _ => ![1, 5] f) X) 0 n_iter ()
      = (callWith np srt (fun _ : Unit => ((fun k _ => k + 1, fun k f c => k + f + c + 1), ())) true
        (.str "amplitude_correlation") none none id X 0 n_iter ()).map
          fun p => (p.1, p.2.1, p.2.2.1, fun k f j => ![1, 5] f * p.2.2.2 k f j) :=
  C111_callWith_bins np srt _ true _ none none (fun _ => rfl) (κ := ![1, 5]) (fun f => by fin_cases f <;> simp)
    (g := fun f _ => ![1, 5] f) (fun f j => by fin_cases f <;> simp) (fun f j => .inr ⟨rfl, rfl⟩) 0 n_iter ()

end Verif.Cacgmm
