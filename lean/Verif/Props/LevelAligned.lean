import Verif.Lemmas.PermNat
import Verif.Props.Level
import Verif.Props.FdicaCall

/-!
# C72 for whole calls of AuxLaplaceFDICA

`Fdica.C72_laplace_ip1` stops before the alignment of the sources. Started from the same filters, the sources of a bin stay on one
common scale, which the solver of the permutation ambiguity normalises away: it takes the same decisions for both recordings.
-/

set_option linter.unusedSectionVars false

namespace Verif.Fdica
open Matrix Spatial Scale Permutation Lifecycle

variable {B n t : ℕ}

/-- Entries of the memories of two alignments: signals multiplied by `ρ`, filters by `T` from the right. -/
def CellRel (ρ : Fin B → ℂ) (T : Fin B → Mat n ℂ) (b : Fin B) : Cell n t → Cell n t → Prop
  | .inl y, .inl y' => y' = fun j => ρ b * y j
  | .inr w, .inr w' => w' = w ᵥ* T b
  | _, _ => False

theorem cell_mag {ρ : Fin B → ℂ} {T : Fin B → Mat n ℂ} (b : Fin B) (c c' : Cell n t) (h : CellRel ρ T b c c') (j : Fin t) :
    mag c' j = ‖ρ b‖ * mag c j := by
  cases c <;> cases c' <;> simp only [CellRel] at h <;> simp [mag, h]

/-- Alignment of signals multiplied by a gain in every bin. -/
theorem solve_gain (np : Argsort) (opt : PermOpt) {ρ : Fin B → ℂ} (hρ : ∀ b, ρ b ≠ 0) (T : Fin B → Mat n ℂ)
    {X X' : Spec (Fin B) n t} {W W' : Fin B → Mat n ℂ} (hY : ∀ b, separate X' W' b = ρ b • separate X W b) (hW : ∀ b, W' b = W b * T b) :
    solvePermutation np opt id X' W'
      = (solvePermutation np opt id X W).map fun p => (fun b => ρ b • p.1 b, fun b => p.2 b * T b) := by
  have key : solveByCorrelation np id X' W'
      = (solveByCorrelation np id X W).map fun p => (fun b => ρ b • p.1 b, fun b => p.2 b * T b) := by
    have h : RelStore (CellRel ρ T)
        (⟨fun r b i => if r = 0 then .inl (separate X W b i) else .inr (W b i), 2⟩ : Store B n (Cell n t))
        ⟨fun r b i => if r = 0 then .inl (separate X' W' b i) else .inr (W' b i), 2⟩ := by
      refine ⟨rfl, fun r b i => ?_⟩
      dsimp only
      split_ifs
      · rw [hY]; rfl
      · rw [hW]; rfl
    have hin : ∀ b c c', CellRel (n := n) (t := t) ρ T b c c' →
        (c'.elim id 0 : Fin t → ℂ) = (fun j => ρ b * (c.elim id 0 : Fin t → ℂ) j) ∧
          (c'.elim 0 id : Fin n → ℂ) = (c.elim 0 id : Fin n → ℂ) ᵥ* T b := by
      intro b c c' h
      cases c <;> cases c' <;> simp only [CellRel] at h <;> subst h
      · exact ⟨rfl, (zero_vecMul _).symm⟩
      · exact ⟨by funext j; simp, rfl⟩
    rw [solveByCorrelation, solveByCorrelation]
    rcases correlation_rel np (mag := mag) (mag' := mag) (floor := id) (floor' := id)
      (fun b y y' hy => normalised_scale (norm_pos_iff.mpr (hρ b)) fun i k => cell_mag b _ _ (hy i) k) true 0 [1] h
      with ⟨y, l, u, u', e, e', hu⟩ | ⟨x, e, e'⟩
    · simp only [e, e', bind, Except.bind, Except.map]
      split
      · rename_i w
        congr 2
        · funext b
          ext i j
          exact congrFun (hin b _ _ (hu.2 y b i)).1 j
        · funext b
          ext i j
          exact congrFun (hin b _ _ (hu.2 w b i)).2 j
      · rfl
    · simp only [e, e', bind, Except.bind, Except.map]
  unfold solvePermutation
  cases opt.truthy with
  | false => rfl
  | true =>
    simp only [Bool.not_true, Bool.false_eq_true, if_false]
    split_ifs
    · exact key
    · rfl

/-- C72: AuxLaplaceFDICA with IP1, with any setting of `permutation_alignment`: every bin has its own gain. -/
theorem C72_laplace_ip1_aligned (sort : Argsort) (opt : PermOpt) (a : Fin B → ℂ) (ha : ∀ f, a f ≠ 0) (sr : ScaleOpt)
    (hsr : sr.truthy = true) (r : Fin n) (X : Spec (Fin B) n t) (W : Fin B → Mat n ℂ) (n_iter : ℕ) :
    (iterM (auxIp1 id laplaceD (fun f => a f • X f)) n_iter W >>= finishAligned sort opt id sr r (fun f => a f • X f))
      = Except.map (fun p => (fun f => a f • p.1 f, p.2))
        (iterM (auxIp1 id laplaceD X) n_iter W >>= finishAligned sort opt id sr r X) := by
  have hrun : ExRel (fun W W' : Fin B → Mat n ℂ => ∃ rho : Fin B → ℝ, (∀ f, 0 < rho f) ∧
      W' = fun f => mulRow (fun _ => (rho f : ℂ)) (W f))
      (iterM (auxIp1 id laplaceD X) n_iter W) (iterM (auxIp1 id laplaceD (gain a X)) n_iter W) := by
    refine ExRel.iterM ?_ n_iter ⟨fun _ => 1, fun _ => one_pos, by funext f; ext k j; simp [mulRow]⟩
    rintro W W' ⟨rho, hr, rfl⟩
    rw [auxIp1, auxIp1]
    have hk : ∀ f, 0 < (‖a f‖ * rho f)⁻¹ := fun f => inv_pos.mpr (mul_pos (norm_pos_iff.mpr (ha f)) (hr f))
    have e : (fun f => Iva.wcov (weight id laplaceD
          (separate (gain a X) (fun f => mulRow (fun _ => (rho f : ℂ)) (W f)) f)) (gain a X) f)
        = fun f k => (((‖a f‖ * rho f)⁻¹ * ‖a f‖ ^ 2 : ℝ) : ℂ) •
          Iva.wcov (weight id laplaceD (separate X W f)) X f k := by
      funext f k
      rw [separate_gain_mulRow a (fun f _ => rho f) X W f, weight_laplace (a f) (ha f) (fun _ => rho f) (fun _ => hr f)]
      exact wcov_gain a _ _ X f k
    have hc : ∀ f, 0 < (‖a f‖ * rho f)⁻¹ * ‖a f‖ ^ 2 := fun f =>
      mul_pos (hk f) (pow_pos (norm_pos_iff.mpr (ha f)) 2)
    simp only [e]
    rw [ip1Stack_level (fun f _ => (‖a f‖ * rho f)⁻¹ * ‖a f‖ ^ 2) (fun f _ => rho f) (fun f _ => hc f) fun f _ => hr f]
    exact ExRel.map _ fun W => ⟨fun f => 1 / Real.sqrt ((‖a f‖ * rho f)⁻¹ * ‖a f‖ ^ 2),
      fun f => one_div_pos.mpr (Real.sqrt_pos.mpr (hc f)), rfl⟩
  apply ExRel.eq_map
  refine hrun.bind ?_
  rintro W W' ⟨rho, hr, rfl⟩
  have hfin : ∀ W : Fin B → Mat n ℂ, ExRel (fun p p' : Spec (Fin B) n t × (Fin B → Mat n ℂ) => p' = (fun f => a f • p.1 f, p.2))
      (finish sr r X W) (finish sr r (gain a X) fun f => mulRow (fun _ => (rho f : ℂ)) (W f)) := by
    intro W
    rw [finish_gain sr hsr r a ha (fun f _ => rho f) (fun f _ => hr f) X W]
    exact ExRel.map _ fun _ => rfl
  change ExRel _ _ (finishAligned sort opt id sr r (gain a X) _)
  rw [finishAligned, finishAligned]
  cases ho : opt.truthy with
  | false => exact hfin W
  | true =>
    have e : ∀ (W : Fin B → Mat n ℂ) f, mulRow (fun _ => (rho f : ℂ)) (W f) = W f * ((rho f : ℂ) • (1 : Mat n ℂ)) := by
      intro W f
      ext k j
      simp [mulRow]
    have hs := solve_gain sort opt (ρ := fun f => a f * rho f)
      (fun f => mul_ne_zero (ha f) (by exact_mod_cast (hr f).ne')) (fun f => (rho f : ℂ) • (1 : Mat n ℂ)) (X := X)
      (X' := gain a X) (W := W) (W' := fun f => mulRow (fun _ => (rho f : ℂ)) (W f))
      (fun f => by
        rw [separate_gain_mulRow a (fun f _ => rho f) X W f]
        ext k j
        simp [mulRow]) (fun f => e W f)
    rw [hs]
    cases solvePermutation sort opt id X W with
    | error x => exact rfl
    | ok p =>
      have := hfin p.2
      simp only [e] at this
      exact this

theorem baseCall_iterM {σ : Type} (step : σ → Except PyErr σ) (val : σ → ℝ) (ic : Bool) (k : ℕ) (s : σ) (ls : List ℝ) :
    ∃ L, IlrmaCall.baseCall step (fun s => .ok (val s)) ic k s ls = (iterM step k s).map fun s' => (s', L) := by
  have key : ∀ (k : ℕ) (s : σ) (ls : List ℝ), ∃ L, IlrmaCall.iterations step (fun s => .ok (val s)) k s ls
      = (iterM step k s).map fun s' => (s', L) := by
    intro k
    induction k with
    | zero => exact fun s ls => ⟨ls, rfl⟩
    | succ k ih =>
      intro s ls
      simp only [IlrmaCall.iterations, iterM, bind, Except.bind]
      cases step s with
      | error e => exact ⟨[], rfl⟩
      | ok s' => exact ih s' _
  cases ic with
  | false => exact key k s ls
  | true => exact key k s _

/-- C72: the call of a fresh or used separator. Filters and output do not depend on what is recorded as loss. -/
theorem C72_laplace_ip1_call (sort : Argsort) (np : Numpy ℂ) (opt : PermOpt) (G : ℝ → ℝ) (a : Fin B → ℂ) (ha : ∀ f, a f ≠ 0)
    (sr : ScaleOpt) (hsr : sr.truthy = true) (r : Fin n) (X : Spec (Fin B) n t) (n_iter : ℕ) (ic : Bool)
    (kw : Option (Fin B → Mat n ℂ)) (o : IvaCall.Obj (Fin B) n t) :
    (∃ W Y ls ls', auxCall sort np .ip1 opt id G laplaceD sr r X n_iter ic kw o = .ok ⟨.val W, .val Y, ls⟩ ∧
      auxCall sort np .ip1 opt id G laplaceD sr r (fun f => a f • X f) n_iter ic kw o
        = .ok ⟨.val W, .val fun f => a f • Y f, ls'⟩) ∨
    ∃ e, auxCall sort np .ip1 opt id G laplaceD sr r X n_iter ic kw o = .error e ∧
      auxCall sort np .ip1 opt id G laplaceD sr r (fun f => a f • X f) n_iter ic kw o = .error e := by
  have hreset : auxReset (fun f => a f • X f) kw o = auxReset X kw o := by
    cases kw <;> rfl
  rw [auxCall, auxCall, hreset]
  cases auxReset X kw o with
  | error e => exact .inr ⟨e, rfl, rfl⟩
  | ok W =>
    have hstep : ∀ X : Spec (Fin B) n t, auxUpdate np .ip1 id laplaceD X = auxIp1 id laplaceD X := fun _ => rfl
    have h := C72_laplace_ip1_aligned sort opt a ha sr hsr r X W n_iter
    simp only [bind, Except.bind, hstep] at h ⊢
    obtain ⟨L, hL⟩ := baseCall_iterM (auxIp1 id laplaceD X) (loss G X) ic n_iter W o.loss
    obtain ⟨L', hL'⟩ := baseCall_iterM (auxIp1 id laplaceD fun f => a f • X f) (loss G fun f => a f • X f) ic n_iter W o.loss
    rw [hL, hL']
    cases e1 : iterM (auxIp1 id laplaceD X) n_iter W with
    | error e =>
      rw [e1] at h
      cases e2 : iterM (auxIp1 id laplaceD fun f => a f • X f) n_iter W with
      | error e' =>
        rw [e2] at h
        cases h
        exact .inr ⟨_, rfl, rfl⟩
      | ok W₂ =>
        rw [e2] at h
        simp only [Except.map] at h ⊢
        rw [h]
        exact .inr ⟨_, rfl, rfl⟩
    | ok W₁ =>
      rw [e1] at h
      cases e2 : iterM (auxIp1 id laplaceD fun f => a f • X f) n_iter W with
      | error e' =>
        rw [e2] at h
        simp only [Except.map] at h ⊢
        cases e3 : finishAligned sort opt id sr r X W₁ with
        | error e =>
          rw [e3] at h
          cases h
          exact .inr ⟨_, rfl, rfl⟩
        | ok p => rw [e3] at h; exact nomatch h
      | ok W₂ =>
        rw [e2] at h
        simp only [Except.map] at h ⊢
        rw [h]
        cases finishAligned sort opt id sr r X W₁ with
        | error e => exact .inr ⟨e, rfl, rfl⟩
        | ok p => exact .inl ⟨p.2, p.1, L, L', rfl, rfl⟩

/-- Three bins of two microphones, the second bin turned up by 5 and with opposite polarity: with alignment and projection back. -/
example (sort : Argsort) (np : Numpy ℂ) (n_iter : ℕ) (X : Spec (Fin 3) 2 4) :
    (∃ W Y ls ls',
      auxCall sort np .ip1 (.bool true) id laplaceG laplaceD (.bool true) 0 X n_iter true none ⟨.absent, .absent, []⟩
        = .ok ⟨.val W, .val Y, ls⟩ ∧
      auxCall sort np .ip1 (.bool true) id laplaceG laplaceD (.bool true) 0 (fun f => (![1, -5, 1] f : ℂ) • X f) n_iter true none
        ⟨.absent, .absent, []⟩ = .ok ⟨.val W, .val fun f => (![1, -5, 1] f : ℂ) • Y f, ls'⟩) ∨
    ∃ e, auxCall sort np .ip1 (.bool true) id laplaceG laplaceD (.bool true) 0 X n_iter true none ⟨.absent, .absent, []⟩ = .error e ∧
      auxCall sort np .ip1 (.bool true) id laplaceG laplaceD (.bool true) 0 (fun f => (![1, -5, 1] f : ℂ) • X f) n_iter true none
        ⟨.absent, .absent, []⟩ = .error e :=
  C72_laplace_ip1_call sort np (.bool true) laplaceG ![1, -5, 1] (fun f => by fin_cases f <;> simp) (.bool true) rfl 0 X n_iter true
    none ⟨.absent, .absent, []⟩

end Verif.Fdica
