import Verif.Model.FdicaCall
import Verif.Lemmas.Equivariance
import Verif.Lemmas.Permutation
import Verif.Props.Permutation
import Verif.Props.Scale

/-!
# C84: the call of an FDICA separator aligns the sources and does nothing else to them
-/

namespace Verif

open Matrix Scale Lifecycle Permutation

namespace Permutation

variable {B S T : ℕ} {α : Type}

/-- No other order of the sources of a bin is as good as the one it has. -/
def StrictlyAligned (mag : α → Fin T → ℝ) (floor : ℝ → ℝ) (order : List (Fin B)) (Y : Fin B → Fin S → α) : Prop :=
  ∀ l b r, order = l ++ b :: r → l ≠ [] → ∀ τ : Equiv.Perm (Fin S), τ ≠ 1 →
    ∑ i, ∑ k, (l.map fun c => share mag floor (Y c) i k).sum * share mag floor (Y b) (τ i) k <
      ∑ i, ∑ k, (l.map fun c => share mag floor (Y c) i k).sum * share mag floor (Y b) i k

theorem correlation_comp (mag : α → Fin T → ℝ) (floor : ℝ → ℝ) (y : Fin S → α) (σ : Equiv.Perm (Fin S)) :
    correlation (share mag floor (y ∘ σ)) = correlation (share mag floor y) := by
  rw [share_comp]
  simp only [correlation, Function.comp_apply]
  rw [Equiv.sum_comp σ fun i => ∑ j, ∑ k, share mag floor y i k * share mag floor y (σ j) k]
  exact Finset.sum_congr rfl fun i _ => Equiv.sum_comp σ fun j => ∑ k, share mag floor y i k * share mag floor y j k

/-- Two alignments of the same sources, differently ordered at the start, agree up to one order for all bins. -/
theorem aligned_unique {mag : α → Fin T → ℝ} {floor : ℝ → ℝ} {first : Fin B} {rest : List (Fin B)}
    {Y : Fin B → Fin S → α} {σ σ' τ : Fin B → Equiv.Perm (Fin S)}
    (hs : StrictlyAligned mag floor (first :: rest) fun b => Y b ∘ σ b)
    (ha : Aligned mag floor (first :: rest) fun b => (Y b ∘ τ b) ∘ σ' b) (h1 : σ first = 1) (h1' : σ' first = 1) :
    ∀ b ∈ first :: rest, τ b * σ' b = σ b * τ first := by
  have key : ∀ k, ∀ l b r, first :: rest = l ++ b :: r → l.length = k → (∀ c ∈ l, τ c * σ' c = σ c * τ first) →
      τ b * σ' b = σ b * τ first := by
    intro k l b r e hk hl
    rcases eq_or_ne l [] with rfl | hl0
    · obtain ⟨rfl, -⟩ := List.cons.inj e
      rw [h1, h1', mul_one, one_mul]
    · obtain ⟨ρ, hρ⟩ : ∃ ρ : Equiv.Perm (Fin S), ρ = (σ b)⁻¹ * (τ b * σ' b) := ⟨_, rfl⟩
      have hρ' : τ b * σ' b = σ b * ρ := by rw [hρ, mul_inv_cancel_left]
      by_contra hne
      have hne' : ρ * (τ first)⁻¹ ≠ 1 := fun h => hne (by rw [hρ', mul_inv_eq_one.mp h])
      have hlt := hs l b r e hl0 _ hne'
      have hle := ha l b r e hl0 (ρ⁻¹ * τ first)
      have e1 : ∀ c ∈ l, (Y c ∘ τ c) ∘ σ' c = (Y c ∘ σ c) ∘ τ first := fun c hc => by
        have := hl c hc
        funext i
        exact congrArg (Y c) (DFunLike.congr_fun this i)
      have e2 : (Y b ∘ τ b) ∘ σ' b = (Y b ∘ σ b) ∘ ρ := by
        funext i
        exact congrArg (Y b) (DFunLike.congr_fun hρ' i)
      have e3 : ∀ i k, (l.map fun c => share mag floor ((Y c ∘ τ c) ∘ σ' c) i k).sum
          = (l.map fun c => share mag floor (Y c ∘ σ c) (τ first i) k).sum := fun i k => by
        congr 1
        refine List.map_congr_left fun c hc => ?_
        rw [e1 c hc, share_comp]
        rfl
      simp only [e2, e3, share_comp _ _ (Y b ∘ σ b) ρ, Function.comp_apply, Equiv.Perm.mul_apply,
        Equiv.Perm.inv_def, Equiv.apply_symm_apply] at hle
      rw [Equiv.sum_comp (τ first) fun i => ∑ k, (l.map fun c => share mag floor (Y c ∘ σ c) i k).sum
        * share mag floor (Y b ∘ σ b) i k] at hle
      have e4 : ∑ i, ∑ k, (l.map fun c => share mag floor (Y c ∘ σ c) (τ first i) k).sum
          * share mag floor (Y b ∘ σ b) (ρ i) k
          = ∑ i, ∑ k, (l.map fun c => share mag floor (Y c ∘ σ c) i k).sum
            * share mag floor (Y b ∘ σ b) ((ρ * (τ first)⁻¹) i) k := by
        rw [← Equiv.sum_comp (τ first) fun i => ∑ k, (l.map fun c => share mag floor (Y c ∘ σ c) i k).sum
          * share mag floor (Y b ∘ σ b) ((ρ * (τ first)⁻¹) i) k]
        simp only [Equiv.Perm.mul_apply, Equiv.Perm.inv_def, Equiv.symm_apply_apply]
      rw [e4] at hle
      exact absurd hlt (not_lt.mpr hle)
  have all : ∀ k, ∀ l b r, first :: rest = l ++ b :: r → l.length = k → τ b * σ' b = σ b * τ first := by
    intro k
    induction k using Nat.strong_induction_on with
    | _ k ih =>
      intro l b r e hk
      refine key k l b r e hk fun c hc => ?_
      obtain ⟨l1, l2, rfl⟩ := List.append_of_mem hc
      refine ih l1.length ?_ l1 c (l2 ++ b :: r) ?_ rfl
      · rw [← hk, List.length_append, List.length_cons]
        omega
      · rw [e, List.append_assoc, List.cons_append]
  intro b hb
  obtain ⟨l, r, e⟩ := List.append_of_mem hb
  exact all _ l b r e rfl

end Permutation

namespace Fdica

variable {B n t : ℕ}

/-- The sources of every bin in another order. -/
def rows {m : ℕ} (σ : Fin B → Equiv.Perm (Fin n)) (W : Fin B → Matrix (Fin n) (Fin m) ℂ) :
    Fin B → Matrix (Fin n) (Fin m) ℂ := fun b => (W b).submatrix (σ b) id

theorem rows_apply {m : ℕ} (σ : Fin B → Equiv.Perm (Fin n)) (W : Fin B → Matrix (Fin n) (Fin m) ℂ) (b : Fin B)
    (i : Fin n) (j : Fin m) : rows σ W b i j = W b (σ b i) j := rfl

theorem separate_rows (σ : Fin B → Equiv.Perm (Fin n)) (X : Spec (Fin B) n t) (W : Fin B → Mat n ℂ) :
    separate X (rows σ W) = rows σ (separate X W) := by
  funext b
  ext i j
  rfl

theorem det_rows (σ : Fin B → Equiv.Perm (Fin n)) (W : Fin B → Mat n ℂ) (b : Fin B) :
    ‖(rows σ W b).det‖ = ‖(W b).det‖ := by
  have : (rows σ W b).det = Equiv.Perm.sign (σ b) * (W b).det := det_permute (σ b) (W b)
  rw [this, norm_mul]
  rcases Int.units_eq_one_or (Equiv.Perm.sign (σ b)) with h | h <;> simp [h]

theorem isUnit_rows (σ : Fin B → Equiv.Perm (Fin n)) (W : Fin B → Mat n ℂ) (b : Fin B) :
    IsUnit (rows σ W b).det ↔ IsUnit (W b).det := by
  rw [isUnit_iff_ne_zero, isUnit_iff_ne_zero, ← norm_ne_zero_iff, det_rows, norm_ne_zero_iff]

theorem pb_rows (σ : Fin B → Equiv.Perm (Fin n)) (r : Fin n) (W : Fin B → Mat n ℂ) :
    projectionBackFilter r (rows σ W) = Except.map (rows σ) (projectionBackFilter r W) := by
  by_cases h : ∀ b, IsUnit (W b).det
  · obtain ⟨V, hV⟩ : ∃ V, projectionBackFilter r W = .ok V :=
      ⟨_, by rw [projectionBackFilter, npInvB, if_pos h]; rfl⟩
    rw [hV]
    exact C22_permutation_equivariant r W V σ hV
  · have h' : ¬ ∀ b, IsUnit (rows σ W b).det := by simpa only [isUnit_rows] using h
    rw [projectionBackFilter, projectionBackFilter, npInvB, npInvB, if_neg h, if_neg h']
    rfl

theorem mdp_rows (σ : Fin B → Equiv.Perm (Fin n)) (r : Fin n) (Y X : Spec (Fin B) n t) :
    mdp r (rows σ Y) X = rows σ (mdp r Y X) := by
  funext b
  ext i j
  rfl

/-- C84: restoring the scale treats the sources one by one: sources in another order, differently in every bin, give the
same signals and filters in that order. -/
theorem C84_finish (σ : Fin B → Equiv.Perm (Fin n)) (sr : ScaleOpt) (r : Fin n) (X : Spec (Fin B) n t)
    (W : Fin B → Mat n ℂ) :
    finish sr r X (rows σ W) = Except.map (fun p => (rows σ p.1, rows σ p.2)) (finish sr r X W) := by
  have hpb : applyProjectionBack r X (rows σ W)
      = Except.map (fun p => (rows σ p.1, rows σ p.2)) (applyProjectionBack r X W) := by
    rw [applyProjectionBack, applyProjectionBack, pb_rows]
    cases projectionBackFilter r W <;> rfl
  have hmdp : applyMdp r X (rows σ W) = Except.map (fun p => (rows σ p.1, rows σ p.2)) (applyMdp r X W) := by
    rw [applyMdp, applyMdp]
    simp only [separate_rows, mdp_rows]
    rw [map_bind]
    rfl
  rw [finish, finish]
  cases hsr : sr.truthy with
  | false => rfl
  | true =>
    have hres : ∀ (e : Spec (Fin B) n t × (Fin B → Mat n ℂ) → Spec (Fin B) n t × (Fin B → Mat n ℂ)) (x y : Except PyErr _),
        restoreScale sr (Except.map e x) (Except.map e y) = Except.map e (restoreScale sr x y) := by
      intro e x y
      simp only [restoreScale, hsr, Bool.not_true, Bool.false_eq_true, if_false]
      split_ifs <;> rfl
    simp only [if_true, hpb, hmdp, hres]
    cases restoreScale sr (applyProjectionBack r X W) (applyMdp r X W) with
    | error => rfl
    | ok p => rfl

/-- What the alignment does: the filters of every bin are put in another order, the first bin (in ascending order of the
correlation between its sources) stays, and in every other bin no order fits better to the bins before it. -/
theorem solve_spec (np : Argsort) (floor : ℝ → ℝ) (X : Spec (Fin B) n t) (W : Fin B → Mat n ℂ) (hB : 0 < B) :
    ∃ (σ : Fin B → Equiv.Perm (Fin n)) (first : Fin B) (rest : List (Fin B)),
      solveByCorrelation np floor X W = .ok (separate X (rows σ W), rows σ W) ∧
      first :: rest = (List.finRange B).map (np.sort fun b => correlation
        (share (fun (y : Fin t → ℂ) k => ‖y k‖) floor (separate X W b))) ∧
      IsOrder (fun (y : Fin t → ℂ) k => ‖y k‖) floor (separate X W) (first :: rest) ∧ σ first = 1 ∧
      Aligned (fun (y : Fin t → ℂ) k => ‖y k‖) floor (first :: rest) (separate X (rows σ W)) := by
  obtain ⟨st, hst⟩ : ∃ st : Store B n (Cell n t),
      st = ⟨fun r b i => if r = 0 then .inl (separate X W b i) else .inr (W b i), 2⟩ := ⟨_, rfl⟩
  have hv : ValidCall true 0 [1] st := ⟨by rw [hst]; simp, by simp⟩
  obtain ⟨Y, ps, st', σ, order, h, hF, hO, hord, h1, hA, -, ht, -⟩ := correlation_main np mag floor true 0 [1] st hB hv
  obtain ⟨rfl, rfl, -⟩ := ht rfl
  rw [List.forall₂_cons, List.forall₂_cons] at hF
  obtain ⟨hF0, hF1, -⟩ := hF
  have m0 : st.mem 0 = fun b i => .inl (separate X W b i) := by rw [hst]; rfl
  have m1 : st.mem 1 = fun b i => .inr (W b i) := by rw [hst]; rfl
  rw [m0] at hF0 hO hord
  rw [m1] at hF1
  have hm : ∀ (Y : Fin B → Fin n → Fin t → ℂ) b, share (mag (n := n)) floor (fun i => .inl (Y b i))
      = share (fun (y : Fin t → ℂ) k => ‖y k‖) floor (Y b) := fun Y b => rfl
  have hY : st'.mem 0 = fun b i => .inl (separate X (rows σ W) b i) := by
    funext b
    rw [hF0 b]
    rfl
  rw [hY] at hA
  cases order with
  | nil => exact absurd (hO.all ⟨0, hB⟩) (by simp)
  | cons first rest =>
    refine ⟨σ, first, rest, ?_, hord, ⟨hO.nodup, hO.all, hO.ascending⟩, h1, hA⟩
    rw [solveByCorrelation, ← hst]
    simp only [h]
    change Except.ok _ = _
    congr 2
    · funext b
      rw [hY]
      rfl
    · funext b
      rw [hF1 b]
      rfl

/-- C84: with alignment switched on (`True` or `"spectrogram_correlation"`) the call returns exactly the signals and
filters it would return without alignment, in another order in every bin; the first bin keeps its order, and afterwards
no bin fits better to the bins before it in another order. -/
theorem C84_reorders (np : Argsort) (opt : PermOpt) (hopt : opt = .bool true ∨ opt = .str "spectrogram_correlation")
    (floor : ℝ → ℝ) (sr : ScaleOpt) (r : Fin n) (X : Spec (Fin B) n t) (W : Fin B → Mat n ℂ) (hB : 0 < B) :
    ∃ (σ : Fin B → Equiv.Perm (Fin n)) (first : Fin B) (rest : List (Fin B)),
      finishAligned np opt floor sr r X W = Except.map (fun p => (rows σ p.1, rows σ p.2)) (finish sr r X W) ∧
      IsOrder (fun (y : Fin t → ℂ) k => ‖y k‖) floor (separate X W) (first :: rest) ∧ σ first = 1 ∧
      Aligned (fun (y : Fin t → ℂ) k => ‖y k‖) floor (first :: rest) (rows σ (separate X W)) := by
  obtain ⟨σ, first, rest, h, -, hO, h1, hA⟩ := solve_spec np floor X W hB
  refine ⟨σ, first, rest, ?_, hO, h1, separate_rows σ X W ▸ hA⟩
  rw [← C84_finish]
  rcases hopt with rfl | rfl <;>
    simp [finishAligned, PermOpt.truthy, solvePermutation, h, Bind.bind, Except.bind]

/-- C84: `False` and `""` switch the alignment off. -/
theorem C84_off (np : Argsort) (opt : PermOpt) (hopt : opt = .bool false ∨ opt = .str "") (floor : ℝ → ℝ) (sr : ScaleOpt)
    (r : Fin n) (X : Spec (Fin B) n t) (W : Fin B → Mat n ℂ) :
    finishAligned np opt floor sr r X W = finish sr r X W := by
  rcases hopt with rfl | rfl <;> simp [finishAligned, PermOpt.truthy, Bind.bind, Except.bind]

/-- C84: any other string is rejected, whatever the filters are, but only after all iterations. -/
theorem C84_unknown (np : Argsort) (s : String) (hs : s ≠ "") (hs' : s ≠ "spectrogram_correlation") (floor : ℝ → ℝ)
    (sr : ScaleOpt) (r : Fin n) (step_size : ℝ) (holonomic : Bool)
    (score : Grad.Data ℂ (Fin B) n t → Grad.Data ℂ (Fin B) n t) (X : Spec (Fin B) n t) (n_iter : ℕ) (W : Fin B → Mat n ℂ) :
    naturalCall np (.str s) floor sr r step_size holonomic score X n_iter W = .error .notImplemented := by
  simp [naturalCall, finishAligned, PermOpt.truthy, solvePermutation, hs, hs', Bind.bind, Except.bind]

/-- C84: alignment does not change the loss, for every contrast function of the magnitudes. -/
theorem C84_loss (G : ℝ → ℝ) (σ : Fin B → Equiv.Perm (Fin n)) (X : Spec (Fin B) n t) (W : Fin B → Mat n ℂ) :
    Fdica.loss G X (rows σ W) = Fdica.loss G X W := by
  simp only [loss, separate_rows, det_rows, rows_apply]
  refine Finset.sum_congr rfl fun b _ => ?_
  rw [Equiv.sum_comp (σ b) fun k => Spatial.meanT fun s => G ‖separate X W b k s‖]

/-- A score function that treats the sources one by one, so that it does not see their order. -/
def PerSource (score : Grad.Data ℂ (Fin B) n t → Grad.Data ℂ (Fin B) n t) : Prop :=
  ∀ (σ : Fin B → Equiv.Perm (Fin n)) (Y : Grad.Data ℂ (Fin B) n t), score (rows σ Y) = rows σ (score Y)

theorem perSource_laplace (floor : ℝ → ℝ) :
    PerSource (Grad.fdicaLaplaceScore (F := Fin B) (n := n) (t := t) floor) := fun _ _ => rfl

theorem factor_submatrix (hol : Bool) (P : Mat n ℂ) (σ : Equiv.Perm (Fin n)) :
    Grad.factor hol (P.submatrix σ σ) = (Grad.factor hol P).submatrix σ σ := by
  ext i j
  cases hol <;> simp [Grad.factor, Matrix.one_apply]

theorem natural_rows {score : Grad.Data ℂ (Fin B) n t → Grad.Data ℂ (Fin B) n t} (hscore : PerSource score)
    (μ : ℝ) (hol : Bool) (σ : Fin B → Equiv.Perm (Fin n)) (X : Spec (Fin B) n t) (k : ℕ) (W : Fin B → Mat n ℂ) :
    Grad.naturalRun μ hol score X k (rows σ W) = rows σ (Grad.naturalRun μ hol score X k W) := by
  have step : ∀ W, Grad.naturalStep μ hol score X (rows σ W) = rows σ (Grad.naturalStep μ hol score X W) := by
    intro W
    have hsep : Grad.sep X (rows σ W) = rows σ (Grad.sep X W) := separate_rows σ X W
    have hphi : ∀ b, Grad.phiY score (rows σ (Grad.sep X W)) b
        = (Grad.phiY score (Grad.sep X W) b).submatrix (σ b) (σ b) := by
      intro b
      ext i j
      have hs := hscore σ (Grad.sep X W)
      simp only [Grad.phiY, of_apply, submatrix_apply]
      rw [hs]
      rfl
    funext b
    simp only [Grad.naturalStep, hsep, hphi, factor_submatrix]
    have := submatrix_mul_equiv (Grad.factor hol (Grad.phiY score (Grad.sep X W) b)) (W b) (σ b) (σ b) id
    rw [show rows σ W b = (W b).submatrix (σ b) id from rfl, this]
    rfl
  rw [Grad.naturalRun, Grad.naturalRun]
  induction k generalizing W with
  | zero => rfl
  | succ k ih => rw [Function.iterate_succ_apply, Function.iterate_succ_apply, step, ih]

/-- Wherever an order of the sources of a bin fits best to the bins before it, no other order fits as well. -/
def NoTies (np : Argsort) (floor : ℝ → ℝ) (Y : Spec (Fin B) n t) : Prop :=
  ∀ σ : Fin B → Equiv.Perm (Fin n),
    let order := (List.finRange B).map (np.sort fun b => correlation (share (fun (y : Fin t → ℂ) k => ‖y k‖) floor (Y b)))
    Aligned (fun (y : Fin t → ℂ) k => ‖y k‖) floor order (rows σ Y) →
      StrictlyAligned (fun (y : Fin t → ℂ) k => ‖y k‖) floor order (rows σ Y)

/-- C84: the order the sources have in the initial filters, which may differ from bin to bin, does not matter beyond one
common order of the result: natural gradient FDICA with alignment returns the same signals and filters. -/
theorem C84_initial_order (np : Argsort) (opt : PermOpt)
    (hopt : opt = .bool true ∨ opt = .str "spectrogram_correlation") (floor : ℝ → ℝ) (sr : ScaleOpt) (r : Fin n)
    (step_size : ℝ) (holonomic : Bool) {score : Grad.Data ℂ (Fin B) n t → Grad.Data ℂ (Fin B) n t}
    (hscore : PerSource score) (X : Spec (Fin B) n t) (n_iter : ℕ) (W : Fin B → Mat n ℂ)
    (τ : Fin B → Equiv.Perm (Fin n)) (hB : 0 < B)
    (hties : NoTies np floor (separate X (Grad.naturalRun step_size holonomic score X n_iter W))) :
    ∃ π : Equiv.Perm (Fin n),
      naturalCall np opt floor sr r step_size holonomic score X n_iter (rows τ W)
        = Except.map (fun p => (rows (fun _ => π) p.1, rows (fun _ => π) p.2))
            (naturalCall np opt floor sr r step_size holonomic score X n_iter W) := by
  rw [naturalCall, naturalCall, natural_rows hscore]
  generalize Grad.naturalRun step_size holonomic score X n_iter W = V at *
  obtain ⟨σ, first, rest, h, ho, -, h1, hA⟩ := solve_spec np floor X V hB
  obtain ⟨σ', first', rest', h', ho', -, h1', hA'⟩ := solve_spec np floor X (rows τ V) hB
  have hcorr : ∀ b, correlation (share (fun (y : Fin t → ℂ) k => ‖y k‖) floor (separate X (rows τ V) b))
      = correlation (share (fun (y : Fin t → ℂ) k => ‖y k‖) floor (separate X V b)) :=
    fun b => correlation_comp (fun (y : Fin t → ℂ) k => ‖y k‖) floor (separate X V b) (τ b)
  simp only [hcorr] at ho'
  obtain ⟨rfl, rfl⟩ := List.cons.inj (ho'.trans ho.symm)
  have hall : ∀ b, b ∈ first' :: rest' := by
    intro b
    rw [ho, List.mem_map]
    exact ⟨_, List.mem_finRange _, Equiv.apply_symm_apply _ b⟩
  have hs := hties σ (by rw [← ho, ← separate_rows]; exact hA)
  rw [← ho] at hs
  have hu := aligned_unique (τ := τ) (σ' := σ') (Y := fun b i => separate X V b i) hs hA' h1 h1'
  have hrows : ∀ {m : ℕ} (U : Fin B → Matrix (Fin n) (Fin m) ℂ),
      rows σ' (rows τ U) = rows (fun _ => τ first') (rows σ U) := by
    intro m U
    funext b
    ext i j
    exact congrArg (fun k => U b k j) (DFunLike.congr_fun (hu b (hall b)) i)
  refine ⟨τ first', ?_⟩
  have e : ∀ V σ, solveByCorrelation np floor X V = .ok (separate X (rows σ V), rows σ V) →
      finishAligned np opt floor sr r X V = finish sr r X (rows σ V) := by
    intro V σ h
    rcases hopt with rfl | rfl <;>
      simp [finishAligned, PermOpt.truthy, solvePermutation, h, Bind.bind, Except.bind]
  rw [e _ _ h, e _ _ h', hrows, C84_finish]

/-- Two sources that are never active at the same time are aligned without ties. -/
theorem noTies_alternating (np : Argsort) : NoTies np id (fun _ : Fin 2 => (1 : Matrix (Fin 2) (Fin 2) ℂ)) := by
  have hshare : share (fun (y : Fin 2 → ℂ) k => ‖y k‖) id (1 : Matrix (Fin 2) (Fin 2) ℂ)
      = fun i k => if i = k then 1 else 0 := by
    funext i k
    simp only [share, Matrix.one_apply]
    fin_cases i <;> fin_cases k <;> simp
  have hval : ∀ ρ₁ ρ₂ : Equiv.Perm (Fin 2), ∑ i, ∑ k, share (fun (y : Fin 2 → ℂ) k => ‖y k‖) id (1 : Matrix (Fin 2) (Fin 2) ℂ) (ρ₁ i) k
      * share (fun (y : Fin 2 → ℂ) k => ‖y k‖) id (1 : Matrix (Fin 2) (Fin 2) ℂ) (ρ₂ i) k
      = ((∑ i, if ρ₂ i = ρ₁ i then 1 else 0 : ℕ) : ℝ) := by
    intro ρ₁ ρ₂
    rw [hshare]
    simp [eq_comm]
  intro σ order hA l b r e hl τ hτ
  have hlen : order.length = 2 := by simp [order]
  obtain ⟨c, rfl⟩ : ∃ c, l = [c] := by
    rw [e] at hlen
    match l, hl with
    | [c], _ => exact ⟨c, rfl⟩
    | _ :: _ :: _, _ => simp at hlen
  have hA' := hA [c] b r e hl
  have hr : ∀ b, share (fun (y : Fin 2 → ℂ) k => ‖y k‖) id (rows σ (fun _ : Fin 2 => (1 : Matrix (Fin 2) (Fin 2) ℂ)) b)
      = share (fun (y : Fin 2 → ℂ) k => ‖y k‖) id (1 : Matrix (Fin 2) (Fin 2) ℂ) ∘ σ b := 
    fun b => share_comp (fun (y : Fin 2 → ℂ) k => ‖y k‖) id (1 : Matrix (Fin 2) (Fin 2) ℂ) (σ b)
  simp only [hr, List.map_cons, List.map_nil, List.sum_cons, List.sum_nil, add_zero, Function.comp_apply] at hA' ⊢
  have h3 := hval (σ c) (σ b)
  have h4 := fun τ : Equiv.Perm (Fin 2) => hval (σ c) (σ b * τ)
  simp only [Equiv.Perm.mul_apply] at h4
  simp only [h3, h4, Nat.cast_le, Nat.cast_lt] at hA' ⊢
  clear h3 h4
  generalize σ c = ρ₁ at *
  generalize σ b = ρ₂ at *
  revert ρ₁ ρ₂ τ
  decide

/-- The hypotheses of `C84_initial_order` can be met: a mixture of two sources that are never active together, which
natural gradient FDICA leaves alone for every number of iterations. -/
example (np : Argsort) (sr : ScaleOpt) (r : Fin 2) (step_size : ℝ) (n_iter : ℕ)
    (τ : Fin 2 → Equiv.Perm (Fin 2)) : ∃ π : Equiv.Perm (Fin 2),
      naturalCall np (.bool true) id sr r step_size false (Grad.fdicaLaplaceScore id) (fun _ => (1 : Mat 2 ℂ)) n_iter
          (rows τ fun _ => 1)
        = Except.map (fun p => (rows (fun _ => π) p.1, rows (fun _ => π) p.2))
            (naturalCall np (.bool true) id sr r step_size false (Grad.fdicaLaplaceScore id) (fun _ => (1 : Mat 2 ℂ)) n_iter
              fun _ => 1) := by
  refine C84_initial_order np _ (.inl rfl) id sr r step_size false (perSource_laplace id) _ n_iter _ τ (by decide) ?_
  have hfix : Grad.naturalStep step_size false (Grad.fdicaLaplaceScore id) (fun _ : Fin 2 => (1 : Mat 2 ℂ)) (fun _ => 1)
      = fun _ => 1 := by
    funext b
    have : Grad.factor false (Grad.phiY (Grad.fdicaLaplaceScore id) (fun _ : Fin 2 => (1 : Mat 2 ℂ)) b) = 0 := by
      ext i j
      fin_cases i <;> fin_cases j <;> simp [Grad.factor, Grad.phiY, Grad.fdicaLaplaceScore, Spatial.meanT, Matrix.one_apply]
    have hsep : Grad.sep (fun _ : Fin 2 => (1 : Mat 2 ℂ)) (fun _ => 1) = fun _ => 1 := funext fun _ => Matrix.mul_one 1
    simp only [Grad.naturalStep, hsep, this, Matrix.zero_mul, smul_zero, sub_zero]
  have hrun : Grad.naturalRun step_size false (Grad.fdicaLaplaceScore id) (fun _ : Fin 2 => (1 : Mat 2 ℂ)) n_iter (fun _ => 1)
      = fun _ => 1 := Function.iterate_fixed hfix n_iter
  rw [hrun]
  have : separate (fun _ : Fin 2 => (1 : Matrix (Fin 2) (Fin 2) ℂ)) (fun _ => 1) = fun _ => 1 := by
    funext b
    simp [separate]
  rw [this]
  exact noTies_alternating np

end Fdica

end Verif
