import Verif.Lemmas.Equivariance
import Verif.Lemmas.Run
import Verif.Model.GradCall
import Verif.Props.FlooredCall
import Verif.Props.IlrmaNorm
import Verif.Props.Limit

/-!
# C101: frequency-domain ICA works bin by bin, and on one bin independent vector analysis is frequency-domain ICA
-/

namespace Verif.BinByBin

open Matrix Scale Spatial Lifecycle Grad
open IlrmaCall (baseCall iterations override)

variable {B n t : ℕ} {α : Type}

/-- Bin `b` of a stack of bins, as a stack of one bin. -/
def bin (b : Fin B) (W : Fin B → α) : Fin 1 → α := fun _ => W b

theorem eq_bin (w : Fin 1 → α) : w = fun _ => w 0 := funext fun i => by rw [Subsingleton.elim i 0]

/-- The lists `L b` have the length of `ls` and add up to it entry by entry. -/
def Adds (L : Fin B → List ℝ) (ls : List ℝ) : Prop :=
  (∀ b, (L b).length = ls.length) ∧ ∀ i : ℕ, ls.getD i 0 = ∑ b, (L b).getD i 0

theorem Adds.nil : Adds (fun _ : Fin B => []) [] := ⟨fun _ => rfl, fun i => by simp⟩

theorem Adds.append {L : Fin B → List ℝ} {ls : List ℝ} (h : Adds L ls) {v : Fin B → ℝ} {w : ℝ} (hw : w = ∑ b, v b) :
    Adds (fun b => L b ++ [v b]) (ls ++ [w]) := by
  refine ⟨fun b => by simp [h.1 b], fun i => ?_⟩
  have h1 := h.1
  have h2 := h.2 i
  simp only [List.getD_eq_getElem?_getD, List.getElem?_append, h1] at h2 ⊢
  split_ifs with hi
  · exact h2
  · by_cases e : i - ls.length = 0
    · simp [e, hw]
    · have : i - ls.length = (i - ls.length - 1) + 1 := by omega
      rw [this]
      simp

/-- A computation on all bins succeeds exactly if it succeeds on each bin by itself, with the results of the bins. -/
def PerBin {β : Type} (x : Except PyErr (Fin B → β)) (y : Fin B → Except PyErr (Fin 1 → β)) : Prop :=
  ∀ W, x = .ok W ↔ ∀ b, y b = .ok (bin b W)

theorem PerBin.ok (W : Fin B → α) : PerBin (.ok W) fun b => .ok (bin b W) := by
  intro V
  constructor
  · intro h b
    cases h
    rfl
  · intro h
    congr 1
    funext b
    exact congrFun (Except.ok.inj (h b)) 0

theorem PerBin.onBins (g : Fin B → Except PyErr α) : PerBin (onBins g) fun b => Spatial.onBins fun _ : Fin 1 => g b := by
  intro W
  constructor
  · intro h b
    exact onBins_ok fun _ => Iva.onBins_apply h b
  · intro h
    exact onBins_ok fun b => Iva.onBins_apply (h b) 0

theorem PerBin.npInvB (A : Fin B → Mat n ℂ) : PerBin (npInvB A) fun b => Scale.npInvB (bin b A) := by
  have e : ∀ {F : Type} (C : F → Mat n ℂ), Scale.npInvB C = Spatial.onBins fun f => npInv (C f) := by
    intro F C
    by_cases h : ∀ f, IsUnit (C f).det
    · rw [Scale.npInvB, if_pos h]
      exact (onBins_ok fun f => by rw [npInv, if_pos (h f)]).symm
    · rw [Scale.npInvB, if_neg h, Spatial.onBins, dif_neg]
      intro h'
      apply h
      intro f
      obtain ⟨y, hy⟩ := h' f
      rw [npInv] at hy
      split_ifs at hy with h1
      exact h1
  simp only [e]
  exact PerBin.onBins _

theorem PerBin.bind {β : Type} {x : Except PyErr (Fin B → α)} {y : Fin B → Except PyErr (Fin 1 → α)} (h : PerBin x y)
    {f : (Fin B → α) → Except PyErr (Fin B → β)} {g : Fin B → (Fin 1 → α) → Except PyErr (Fin 1 → β)}
    (hf : ∀ W, PerBin (f W) fun b => g b (bin b W)) : PerBin (x >>= f) fun b => y b >>= g b := by
  intro V
  constructor
  · intro e b
    obtain ⟨W, e1, e2⟩ := Ilrma.bind_ok e
    change y b >>= g b = _
    rw [(h W).mp e1 b]
    exact (hf W V).mp e2 b
  · intro e
    choose w e1 e2 using fun b => Ilrma.bind_ok (e b)
    have e3 : x = .ok fun b => w b 0 := (h _).mpr fun b => by
      rw [e1 b]
      congr 1
      exact eq_bin _
    rw [e3]
    refine (hf _ V).mpr fun b => ?_
    change g b (bin b fun b => w b 0) = _
    rw [← e2 b]
    congr 1
    exact (eq_bin (w b)).symm

theorem PerBin.map {β : Type} {x : Except PyErr (Fin B → α)} {y : Fin B → Except PyErr (Fin 1 → α)} (h : PerBin x y)
    {f : (Fin B → α) → Fin B → β} {g : Fin B → (Fin 1 → α) → Fin 1 → β} (hf : ∀ W b, bin b (f W) = g b (bin b W)) :
    PerBin (x >>= fun W => .ok (f W)) fun b => y b >>= fun w => .ok (g b w) :=
  h.bind fun W => by
    simp only [← hf]
    exact PerBin.ok _

theorem PerBin.error [NeZero B] (e : PyErr) : PerBin (.error e : Except PyErr (Fin B → α)) fun _ => .error e := by
  intro W
  constructor
  · intro h
    cases h
  · intro h
    cases h 0

theorem PerBin.foldlM {β : Type} {g : (Fin B → α) → β → Except PyErr (Fin B → α)}
    {g' : Fin B → (Fin 1 → α) → β → Except PyErr (Fin 1 → α)} (h : ∀ W c, PerBin (g W c) fun b => g' b (bin b W) c)
    (l : List β) (W : Fin B → α) : PerBin (l.foldlM g W) fun b => l.foldlM (g' b) (bin b W) := by
  induction l generalizing W with
  | nil => exact PerBin.ok W
  | cons c l ih =>
    simp only [List.foldlM_cons]
    exact (h W c).bind fun V => ih V

/-- The recorded losses and the final state of a run over all bins are those of the runs over each bin. -/
theorem baseCall_bins {step : (Fin B → α) → Except PyErr (Fin B → α)}
    {step' : Fin B → (Fin 1 → α) → Except PyErr (Fin 1 → α)} (h : ∀ W, PerBin (step W) fun b => step' b (bin b W))
    {val : (Fin B → α) → ℝ} {val' : Fin B → (Fin 1 → α) → ℝ} (hv : ∀ W, val W = ∑ b, val' b (bin b W)) (ic : Bool) (k : ℕ)
    (W : Fin B → α) {L : Fin B → List ℝ} {ls : List ℝ} (hL : Adds L ls) :
    (∀ V ls', baseCall step (fun W => .ok (val W)) ic k W ls = .ok (V, ls') →
      ∃ L', (∀ b, baseCall (step' b) (fun w => .ok (val' b w)) ic k (bin b W) (L b) = .ok (bin b V, L' b)) ∧ Adds L' ls') ∧
    ∀ (v : Fin B → Fin 1 → α) (L' : Fin B → List ℝ), (∀ b, baseCall (step' b) (fun w => .ok (val' b w)) ic k (bin b W) (L b) = .ok (v b, L' b)) →
      ∃ ls', baseCall step (fun W => .ok (val W)) ic k W ls = .ok (fun b => v b 0, ls') ∧ Adds L' ls' := by
  have key : ∀ (k : ℕ) (W : Fin B → α) (L : Fin B → List ℝ) (ls : List ℝ), Adds L ls →
      (∀ V ls', iterations step (fun W => .ok (val W)) k W ls = .ok (V, ls') →
        ∃ L', (∀ b, iterations (step' b) (fun w => .ok (val' b w)) k (bin b W) (L b) = .ok (bin b V, L' b)) ∧ Adds L' ls') ∧
      ∀ (v : Fin B → Fin 1 → α) (L' : Fin B → List ℝ), (∀ b, iterations (step' b) (fun w => .ok (val' b w)) k (bin b W) (L b) = .ok (v b, L' b)) →
        ∃ ls', iterations step (fun W => .ok (val W)) k W ls = .ok (fun b => v b 0, ls') ∧ Adds L' ls' := by
    intro k
    induction k with
    | zero =>
      intro W L ls hL
      constructor
      · intro V ls' e
        cases e
        exact ⟨L, fun b => rfl, hL⟩
      · intro v L' e
        have e1 : ∀ b, v b = bin b W := fun b => (Prod.ext_iff.mp (Except.ok.inj (e b))).1.symm
        have e2 : L' = L := funext fun b => (Prod.ext_iff.mp (Except.ok.inj (e b))).2.symm
        refine ⟨ls, ?_, e2 ▸ hL⟩
        rw [iterations]
        congr 2
        funext b
        rw [e1 b]
        rfl
    | succ k ih =>
      intro W L ls hL
      constructor
      · intro V ls' e
        obtain ⟨W1, e1, e⟩ := Ilrma.bind_ok e
        obtain ⟨L', e2, hL'⟩ := (ih W1 _ _ (hL.append (hv W1))).1 V ls' e
        refine ⟨L', fun b => ?_, hL'⟩
        have e3 : step' b (bin b W) = .ok (bin b W1) := (h W W1).mp e1 b
        rw [iterations, e3]
        exact e2 b
      · intro v L' e
        choose w e1 e2 using fun b => Ilrma.bind_ok (e b)
        have hw : ∀ b, w b = bin b fun b => w b 0 := fun b => eq_bin _
        have e3 : step W = .ok fun b => w b 0 := (h W _).mpr fun b => (e1 b).trans (congrArg _ (hw b))
        obtain ⟨ls', e4, hL'⟩ := (ih (fun b => w b 0) _ _ (hL.append (hv _))).2 v L' fun b => by
          rw [← hw b]
          exact e2 b
        refine ⟨ls', ?_, hL'⟩
        rw [iterations, e3]
        exact e4
  cases ic with
  | false => exact key k W L ls hL
  | true => exact key k W _ _ (hL.append (hv W))

/-! ## Scale restoration -/

theorem perBin_restore [NeZero B] (sr : ScaleOpt) {x x' : Except PyErr (Spec (Fin B) n t × (Fin B → Mat n ℂ))}
    {y y' : Fin B → Except PyErr (Spec (Fin 1) n t × (Fin 1 → Mat n ℂ))}
    (h : PerBin (x >>= fun p => .ok p.2) fun b => y b >>= fun p => .ok p.2)
    (h' : PerBin (x' >>= fun p => .ok p.2) fun b => y' b >>= fun p => .ok p.2) :
    PerBin (restoreScale sr x x' >>= fun p => .ok p.2) fun b => restoreScale sr (y b) (y' b) >>= fun p => .ok p.2 := by
  have key : ∀ {β : Type} (u u' : Except PyErr β), restoreScale sr u u' = if !sr.truthy then .error .assertion else
      if (match sr with | .bool _ => "projection_back" | .str s => s) ∈ projectionBackKeywords then u else
      if (match sr with | .bool _ => "projection_back" | .str s => s) ∈ mdpKeywords then u' else .error .value :=
    fun _ _ => rfl
  simp only [key]
  split_ifs
  · exact PerBin.error _
  · exact h
  · exact h'
  · exact PerBin.error _

/-- Restoring the scale of all bins is restoring the scale of each bin. -/
theorem finish_bins [NeZero B] (sr : ScaleOpt) (r : Fin n) (X : Spec (Fin B) n t) (W : Fin B → Mat n ℂ) :
    (∀ Y V, finish sr r X W = .ok (Y, V) → ∀ b, finish sr r (bin b X) (bin b W) = .ok (bin b Y, bin b V)) ∧
    ∀ (y : Fin B → Spec (Fin 1) n t) (v : Fin B → Fin 1 → Mat n ℂ), (∀ b, finish sr r (bin b X) (bin b W) = .ok (y b, v b)) →
      finish sr r X W = .ok (fun b => y b 0, fun b => v b 0) := by
  have hs : PerBin (if sr.truthy then (do let p ← restoreScale sr (applyProjectionBack r X W) (applyMdp r X W); .ok p.2)
      else .ok W) fun b => if sr.truthy then (do
        let p ← restoreScale sr (applyProjectionBack r (bin b X) (bin b W)) (applyMdp r (bin b X) (bin b W)); .ok p.2)
      else .ok (bin b W) := by
    split_ifs
    · refine perBin_restore sr ?_ ?_
      · have e : ∀ {F : Type} (X : Spec F n t) (W : F → Mat n ℂ), (applyProjectionBack r X W >>= fun p => .ok p.2)
            = (npInvB W >>= fun S => .ok fun f => Matrix.of fun i j => W f i j * S f r i) := by
          intro F X W
          rw [applyProjectionBack, projectionBackFilter]
          cases npInvB W <;> rfl
        simp only [e]
        exact (PerBin.npInvB W).map fun S b => rfl
      · have e : ∀ {F : Type} (X : Spec F n t) (W : F → Mat n ℂ), (applyMdp r X W >>= fun p => .ok p.2)
            = (npInvB (fun f => X f * (X f)ᴴ) >>= fun S => .ok fun f => mdp r (separate X W) X f * (X f)ᴴ * S f) := by
          intro F X W
          rw [applyMdp]
          cases npInvB (fun f => X f * (X f)ᴴ) <;> rfl
        simp only [e]
        exact (PerBin.npInvB fun b => X b * (X b)ᴴ).map fun S b => rfl
    · exact PerBin.ok W
  have fe : ∀ {F : Type} (X : Spec F n t) (W : F → Mat n ℂ), finish sr r X W
      = ((if sr.truthy then (do let p ← restoreScale sr (applyProjectionBack r X W) (applyMdp r X W); .ok p.2)
        else .ok W) >>= fun W => .ok (separate X W, W)) := by
    intro F X W
    rw [finish]
    split_ifs
    · cases restoreScale sr (applyProjectionBack r X W) (applyMdp r X W) <;> rfl
    · rfl
  simp only [fe]
  constructor
  · intro Y V e b
    obtain ⟨U, e1, e2⟩ := Ilrma.bind_ok e
    cases e2
    have e3 := (hs V).mp e1 b
    dsimp only at e3
    rw [e3]
    rfl
  · intro y v e
    choose u e1 e2 using fun b => Ilrma.bind_ok (e b)
    have hu : ∀ b, u b = bin b fun b => u b 0 := fun b => eq_bin _
    rw [(hs fun b => u b 0).mpr fun b => (e1 b).trans (congrArg _ (hu b))]
    have e3 : ∀ b, v b = u b := fun b => (Prod.ext_iff.mp (Except.ok.inj (e2 b))).2.symm
    have e4 : ∀ b, y b = separate (bin b X) (u b) := fun b => (Prod.ext_iff.mp (Except.ok.inj (e2 b))).1.symm
    change Except.ok _ = _
    congr 2
    · funext b
      rw [e4 b]
      rfl
    · funext b
      rw [e3 b]

/-! ## The updates and the losses of frequency-domain ICA -/

theorem auxUpdate_bins (np : Numpy ℂ) (alg : Ilrma.FilterAlg n) (floor d : ℝ → ℝ) (X : Spec (Fin B) n t)
    (W : Fin B → Mat n ℂ) :
    PerBin (Fdica.auxUpdate np alg floor d X W) fun b => Fdica.auxUpdate np alg floor d (bin b X) (bin b W) := by
  cases alg with
  | ip1 =>
    exact PerBin.foldlM (g' := fun b w src => Spatial.onBins fun f => ip1Row floor
      (Iva.wcov (Fdica.weight floor d (separate X W b)) (bin b X) f) (w f) src) (fun V src => PerBin.onBins _) _ W
  | ip2 pairs => exact PerBin.foldlM (fun V p => PerBin.onBins _) pairs W

theorem auxLoss_bins (G : ℝ → ℝ) (X : Spec (Fin B) n t) (W : Fin B → Mat n ℂ) :
    Fdica.loss G X W = ∑ b, Fdica.loss G (bin b X) (bin b W) :=
  Finset.sum_congr rfl fun b _ => by simp [Fdica.loss, bin, separate]

/-- An element-by-element score function. -/
def scoreOf {F : Type} (g : ℂ → ℂ) (Y : Data ℂ F n t) : Data ℂ F n t := fun f => Matrix.of fun k s => g (Y f k s)

/-- An element-by-element contrast function. -/
def contrastOf {F : Type} (c : ℂ → ℝ) (Y : Data ℂ F n t) (i : F × Fin n) (s : Fin t) : ℝ := c (Y i.1 i.2 s)

theorem descend_bins (kind : GradCall.Kind) (mu : ℝ) (hol : Bool) (g : ℂ → ℂ) (X : Data ℂ (Fin B) n t)
    (W : Fin B → Mat n ℂ) :
    PerBin (GradCall.descend kind mu hol (scoreOf g) X W) fun b => GradCall.descend kind mu hol (scoreOf g) (bin b X) (bin b W) := by
  cases kind with
  | natural => exact PerBin.ok _
  | gradient => exact (PerBin.onBins fun b => npInv (W b)).map fun S b => rfl

theorem gradLoss_bins (c : ℂ → ℝ) (X : Data ℂ (Fin B) n t) (W : Fin B → Mat n ℂ) :
    Grad.loss 2 (contrastOf c) X W = ∑ b, Grad.loss 2 (contrastOf c) (bin b X) (bin b W) := by
  simp only [Grad.loss, Fintype.sum_prod_type, Finset.mul_sum, Finset.sum_sub_distrib]
  simp only [Fin.sum_univ_one, bin]
  rfl

/-! ## Objects -/

/-- An attribute, bin by bin. -/
def attrBin {α : Type} (b : Fin B) : Attr (Fin B → α) → Attr (Fin 1 → α)
  | .absent => .absent
  | .none => .none
  | .val W => .val (bin b W)

/-- The objects `os b` hold bin `b` of what the object `o` holds, and their recorded losses add up to those of `o`. -/
structure Bins (o : IvaCall.Obj (Fin B) n t) (os : Fin B → IvaCall.Obj (Fin 1) n t) : Prop where
  demix : ∀ b, (os b).demix = attrBin b o.demix
  output : ∀ b, (os b).output = attrBin b o.output
  loss : Adds (fun b => (os b).loss) o.loss

theorem Bins.fresh : Bins (IvaCall.Obj.fresh : IvaCall.Obj (Fin B) n t) fun _ => IvaCall.Obj.fresh :=
  ⟨fun _ => rfl, fun _ => rfl, Adds.nil⟩

/-- The same for the gradient methods. -/
structure GradBins (o : GradCall.Obj ℂ (Fin B) n t) (os : Fin B → GradCall.Obj ℂ (Fin 1) n t) : Prop where
  demix : ∀ b, (os b).demix = attrBin b o.demix
  output : ∀ b, (os b).output = attrBin b o.output
  loss : Adds (fun b => (os b).loss) o.loss

theorem GradBins.fresh : GradBins (GradCall.Obj.fresh : GradCall.Obj ℂ (Fin B) n t) fun _ => GradCall.Obj.fresh :=
  ⟨fun _ => rfl, fun _ => rfl, Adds.nil⟩

theorem auxReset_bins [NeZero B] (X : Spec (Fin B) n t) (kw : Option (Fin B → Mat n ℂ)) {o : IvaCall.Obj (Fin B) n t}
    {os : Fin B → IvaCall.Obj (Fin 1) n t} (h : Bins o os) :
    PerBin (Fdica.auxReset X kw o) fun b => Fdica.auxReset (bin b X) (kw.map (bin b)) (os b) := by
  obtain ⟨d, y, l⟩ := o
  simp only [Fdica.auxReset, h.demix]
  cases kw with
  | some W => exact PerBin.ok W
  | none =>
    cases d with
    | absent => exact PerBin.ok _
    | none => exact PerBin.error _
    | val W => exact PerBin.ok W

theorem gradReset_bins [NeZero B] (kw : Option (Fin B → Mat n ℂ)) {o : GradCall.Obj ℂ (Fin B) n t}
    {os : Fin B → GradCall.Obj ℂ (Fin 1) n t} (h : GradBins o os) :
    PerBin (GradCall.reset kw o) fun b => GradCall.reset (kw.map (bin b)) (os b) := by
  obtain ⟨d, y, l⟩ := o
  simp only [GradCall.reset, h.demix]
  cases kw with
  | some W => exact PerBin.ok W
  | none =>
    cases d with
    | absent => exact PerBin.ok _
    | none => exact PerBin.error _
    | val W => exact PerBin.ok W

theorem finishAligned_off {opt : Fdica.PermOpt} (ho : opt.truthy = false) (sort : Permutation.Argsort) (floor : ℝ → ℝ)
    (sr : ScaleOpt) (r : Fin n) (X : Spec (Fin B) n t) (W : Fin B → Mat n ℂ) :
    Fdica.finishAligned sort opt floor sr r X W = finish sr r X W := by
  simp [Fdica.finishAligned, ho, Bind.bind, Except.bind]

section aux

variable [NeZero B] (sort : Permutation.Argsort) (np : Numpy ℂ) (alg : Ilrma.FilterAlg n) {opt : Fdica.PermOpt}
  (ho : opt.truthy = false) (floor G d : ℝ → ℝ) (sr : ScaleOpt) (r : Fin n) (X : Spec (Fin B) n t) (n_iter : ℕ) (ic : Bool)
  (kw : Option (Fin B → Mat n ℂ))

include ho

/-- C101: `AuxFDICA` without permutation alignment separates every bin as if it were the only one: a call on a recording
returns exactly if the calls on its bins return, it leaves in each bin the filter and the output of that bin's call, and every
loss it records is the sum of those of the bins. -/
theorem C101_aux {o : IvaCall.Obj (Fin B) n t} {os : Fin B → IvaCall.Obj (Fin 1) n t} (h : Bins o os) :
    (∀ o', Fdica.auxCall sort np alg opt floor G d sr r X n_iter ic kw o = .ok o' →
      ∃ os', (∀ b, Fdica.auxCall sort np alg opt floor G d sr r (bin b X) n_iter ic (kw.map (bin b)) (os b) = .ok (os' b)) ∧
        Bins o' os') ∧
    ∀ os' : Fin B → IvaCall.Obj (Fin 1) n t,
      (∀ b, Fdica.auxCall sort np alg opt floor G d sr r (bin b X) n_iter ic (kw.map (bin b)) (os b) = .ok (os' b)) →
      ∃ o', Fdica.auxCall sort np alg opt floor G d sr r X n_iter ic kw o = .ok o' ∧ Bins o' os' := by
  have hb := fun W => baseCall_bins (step' := fun b => Fdica.auxUpdate np alg floor d (bin b X))
    (fun W => auxUpdate_bins np alg floor d X W) (val' := fun b => Fdica.loss G (bin b X)) (fun W => auxLoss_bins G X W) ic
    n_iter W h.loss
  constructor
  · intro o' e
    obtain ⟨W, e1, e⟩ := Ilrma.bind_ok e
    obtain ⟨⟨V, ls⟩, e2, e⟩ := Ilrma.bind_ok e
    obtain ⟨⟨Y, U⟩, e3, e⟩ := Ilrma.bind_ok e
    cases e
    rw [finishAligned_off ho] at e3
    obtain ⟨L', e4, hL'⟩ := (hb W).1 V ls e2
    refine ⟨fun b => ⟨.val (bin b U), .val (bin b Y), L' b⟩, fun b => ?_, ⟨fun _ => rfl, fun _ => rfl, hL'⟩⟩
    have e5 : Fdica.auxReset (bin b X) (kw.map (bin b)) (os b) = _ := (auxReset_bins X kw h W).mp e1 b
    have e6 := e4 b
    have e7 := (finish_bins sr r X V).1 Y U e3 b
    simp only [Fdica.auxCall, e5, e6, finishAligned_off ho, e7, Bind.bind, Except.bind]
  · intro os' e
    choose w e1 e using fun b => Ilrma.bind_ok (e b)
    choose p e2 e using fun b => Ilrma.bind_ok (e b)
    choose q e3 e using fun b => Ilrma.bind_ok (e b)
    have hw : ∀ b, w b = bin b fun b => w b 0 := fun b => eq_bin _
    have hp : ∀ b, (p b).1 = bin b fun b => (p b).1 0 := fun b => eq_bin _
    have e4 : Fdica.auxReset X kw o = .ok fun b => w b 0 := (auxReset_bins X kw h _).mpr fun b => by
      rw [← hw b]
      exact e1 b
    obtain ⟨ls', e5, hL'⟩ := (hb fun b => w b 0).2 (fun b => (p b).1) (fun b => (p b).2) fun b => by
      rw [← hw b]
      exact e2 b
    have e6 := (finish_bins sr r X fun b => (p b).1 0).2 (fun b => (q b).1) (fun b => (q b).2) fun b => by
      rw [← hp b]
      have := e3 b
      rwa [finishAligned_off ho] at this
    refine ⟨⟨.val fun b => (q b).2 0, .val fun b => (q b).1 0, ls'⟩, ?_, ?_⟩
    · simp only [Fdica.auxCall, e4, e5, finishAligned_off ho, e6, Bind.bind, Except.bind]
    · have e7 : ∀ b, os' b = ⟨.val (q b).2, .val (q b).1, (p b).2⟩ := fun b => (Except.ok.inj (e b)).symm
      refine ⟨fun b => ?_, fun b => ?_, ?_⟩
      · rw [e7 b]
        exact congrArg Attr.val (eq_bin _)
      · rw [e7 b]
        exact congrArg Attr.val (eq_bin _)
      · simpa only [e7] using hL'

/-- C101: separating any selection of the bins, in any order, gives the filters and the outputs that separating all of them
gives for these bins. -/
theorem C101_aux_selection {B' : ℕ} [NeZero B'] (ι : Fin B' → Fin B) {o' : IvaCall.Obj (Fin B) n t} {W : Fin B → Mat n ℂ}
    {Y : Spec (Fin B) n t}
    (e : Fdica.auxCall sort np alg opt floor G d sr r X n_iter ic kw IvaCall.Obj.fresh = .ok o')
    (hW : o'.demix = .val W) (hY : o'.output = .val Y) :
    ∃ o'', Fdica.auxCall sort np alg opt floor G d sr r (fun b => X (ι b)) n_iter ic (kw.map fun W b => W (ι b))
      IvaCall.Obj.fresh = .ok o'' ∧ o''.demix = .val (fun b => W (ι b)) ∧ o''.output = .val (fun b => Y (ι b)) := by
  obtain ⟨os', e1, h1⟩ := (C101_aux sort np alg ho floor G d sr r X n_iter ic kw Bins.fresh).1 o' e
  have hk : ∀ b : Fin B', (kw.map fun W b => W (ι b)).map (bin b) = kw.map (bin (ι b)) := by
    intro b
    cases kw <;> rfl
  obtain ⟨o'', e2, h2⟩ := (C101_aux sort np alg ho floor G d sr r (fun b => X (ι b)) n_iter ic (kw.map fun W b => W (ι b))
    Bins.fresh).2 (fun b => os' (ι b)) fun b => by
      rw [hk b]
      exact e1 (ι b)
  have key : ∀ {α : Type} (a : Attr (Fin B' → α)) (V : Fin B → α), (∀ b, attrBin (ι b) (.val V) = attrBin b a) →
      a = .val fun b => V (ι b) := by
    intro α a V h
    cases a with
    | absent => cases h 0
    | none => cases h 0
    | val U =>
      congr 1
      funext b
      have := h b
      simp only [attrBin, Attr.val.injEq] at this
      exact (congrFun this 0).symm
  refine ⟨o'', e2, key _ _ fun b => ?_, key _ _ fun b => ?_⟩
  · rw [← hW, ← h1.demix, ← h2.demix]
  · rw [← hY, ← h1.output, ← h2.output]

/-- C101: on a single bin `AuxFDICA` without permutation alignment is `AuxIVA` with the same contrast function. -/
theorem C101_aux_iva (X : Spec (Fin 1) n t) (kw : Option (Fin 1 → Mat n ℂ)) (o : IvaCall.Obj (Fin 1) n t) :
    Fdica.auxCall sort np alg opt floor G d sr r X n_iter ic kw o
      = IvaCall.call np alg floor (fun _ _ => G) (fun _ _ => d) sr r X n_iter ic kw o := by
  have hn : ∀ (Y : Spec (Fin 1) n t) k s, Iva.binNorm Y k s = ‖Y 0 k s‖ := by
    intro Y k s
    simp [Iva.binNorm]
  have hw : ∀ (Y : Spec (Fin 1) n t) (f : Fin 1), Fdica.weight floor d (Y f) = Iva.weight floor (fun _ _ => d) Y := by
    intro Y f
    funext k s
    rw [Fdica.weight, Iva.weight, hn, Subsingleton.elim f 0]
  have h1 : Fdica.auxReset X kw o = IvaCall.reset alg X kw o := by
    have hl : (IlrmaCall.label alg).filterFree = false := by cases alg <;> rfl
    simp only [Fdica.auxReset, IvaCall.reset, Lifecycle.reset, hl]
    cases kw with
    | some W => rfl
    | none =>
      obtain ⟨a, y, l⟩ := o
      cases a <;> rfl
  have h2 : Fdica.auxUpdate np alg floor d X = IvaCall.update np alg floor (fun _ _ => d) X := by
    funext W
    cases alg with
    | ip1 => simp only [Fdica.auxUpdate, IvaCall.update, Fdica.auxIp1, Iva.auxIp1, hw]
    | ip2 pairs =>
      simp only [Fdica.auxUpdate, IvaCall.update, Fdica.auxIp2, Iva.auxIp2]
      congr 1
      funext V p
      simp only [Fdica.auxIp2Pair, Iva.auxIp2Pair, hw]
  have h3 : ∀ W, Fdica.loss G X W = Iva.lossIp (fun _ _ => G) X W := by
    intro W
    simp [Fdica.loss, Iva.lossIp, Iva.ivaLoss, hn]
  simp only [Fdica.auxCall, IvaCall.call, h1, h2, h3, finishAligned_off ho]

/-- C101: so `AuxFDICA` without permutation alignment is `AuxIVA` run on each bin by itself. -/
theorem C101_aux_by_iva {o' : IvaCall.Obj (Fin B) n t}
    (e : Fdica.auxCall sort np alg opt floor G d sr r X n_iter ic kw IvaCall.Obj.fresh = .ok o') :
    ∃ os' : Fin B → IvaCall.Obj (Fin 1) n t, (∀ b, IvaCall.call np alg floor (fun _ _ => G) (fun _ _ => d) sr r (bin b X) n_iter
      ic (kw.map (bin b)) IvaCall.Obj.fresh = .ok (os' b)) ∧ Bins o' os' := by
  obtain ⟨os', e1, h1⟩ := (C101_aux sort np alg ho floor G d sr r X n_iter ic kw Bins.fresh).1 o' e
  refine ⟨os', fun b => ?_, h1⟩
  rw [← C101_aux_iva sort np alg ho]
  exact e1 b

end aux

section grad

variable [NeZero B] (sort : Permutation.Argsort) (kind : GradCall.Kind) {opt : Fdica.PermOpt} (ho : opt.truthy = false)
  (floor : ℝ → ℝ) (sr : ScaleOpt) (r : Fin n) (mu : ℝ) (hol : Bool) (c : ℂ → ℝ) (g : ℂ → ℂ) (X : Data ℂ (Fin B) n t)
  (n_iter : ℕ) (ic : Bool) (kw : Option (Fin B → Mat n ℂ))

include ho

/-- C101: the same for `GradFDICA` and `NaturalGradFDICA` with element-by-element contrast and score functions. -/
theorem C101_grad {o : GradCall.Obj ℂ (Fin B) n t} {os : Fin B → GradCall.Obj ℂ (Fin 1) n t} (h : GradBins o os) :
    (∀ o', GradCall.fdicaCall sort kind opt floor sr r mu hol (contrastOf c) (scoreOf g) X n_iter ic kw o = .ok o' →
      ∃ os', (∀ b, GradCall.fdicaCall sort kind opt floor sr r mu hol (contrastOf c) (scoreOf g) (bin b X) n_iter ic
        (kw.map (bin b)) (os b) = .ok (os' b)) ∧ GradBins o' os') ∧
    ∀ os' : Fin B → GradCall.Obj ℂ (Fin 1) n t,
      (∀ b, GradCall.fdicaCall sort kind opt floor sr r mu hol (contrastOf c) (scoreOf g) (bin b X) n_iter ic
        (kw.map (bin b)) (os b) = .ok (os' b)) →
      ∃ o', GradCall.fdicaCall sort kind opt floor sr r mu hol (contrastOf c) (scoreOf g) X n_iter ic kw o = .ok o' ∧
        GradBins o' os' := by
  have hb := fun W => baseCall_bins (step' := fun b => GradCall.descend kind mu hol (scoreOf g) (bin b X))
    (fun W => descend_bins kind mu hol g X W) (val' := fun b => Grad.loss 2 (contrastOf c) (bin b X))
    (fun W => gradLoss_bins c X W) ic n_iter W h.loss
  constructor
  · intro o' e
    obtain ⟨W, e1, e⟩ := Ilrma.bind_ok e
    obtain ⟨⟨V, ls⟩, e2, e⟩ := Ilrma.bind_ok e
    obtain ⟨⟨Y, U⟩, e3, e⟩ := Ilrma.bind_ok e
    cases e
    rw [finishAligned_off ho] at e3
    obtain ⟨L', e4, hL'⟩ := (hb W).1 V ls e2
    refine ⟨fun b => ⟨.val (bin b U), .val (bin b Y), L' b⟩, fun b => ?_, ⟨fun _ => rfl, fun _ => rfl, hL'⟩⟩
    have e5 : GradCall.reset (kw.map (bin b)) (os b) = _ := (gradReset_bins kw h W).mp e1 b
    have e6 := e4 b
    have e7 := (finish_bins sr r X V).1 Y U e3 b
    simp only [GradCall.fdicaCall, e5, e6, finishAligned_off ho, e7, Bind.bind, Except.bind]
  · intro os' e
    choose w e1 e using fun b => Ilrma.bind_ok (e b)
    choose p e2 e using fun b => Ilrma.bind_ok (e b)
    choose q e3 e using fun b => Ilrma.bind_ok (e b)
    have hw : ∀ b, w b = bin b fun b => w b 0 := fun b => eq_bin _
    have hp : ∀ b, (p b).1 = bin b fun b => (p b).1 0 := fun b => eq_bin _
    have e4 : GradCall.reset kw o = .ok fun b => w b 0 := (gradReset_bins kw h _).mpr fun b => by
      rw [← hw b]
      exact e1 b
    obtain ⟨ls', e5, hL'⟩ := (hb fun b => w b 0).2 (fun b => (p b).1) (fun b => (p b).2) fun b => by
      rw [← hw b]
      exact e2 b
    have e6 := (finish_bins sr r X fun b => (p b).1 0).2 (fun b => (q b).1) (fun b => (q b).2) fun b => by
      rw [← hp b]
      have := e3 b
      rwa [finishAligned_off ho] at this
    refine ⟨⟨.val fun b => (q b).2 0, .val fun b => (q b).1 0, ls'⟩, ?_, ?_⟩
    · simp only [GradCall.fdicaCall, e4, e5, finishAligned_off ho, e6, Bind.bind, Except.bind]
    · have e7 : ∀ b, os' b = ⟨.val (q b).2, .val (q b).1, (p b).2⟩ := fun b => (Except.ok.inj (e b)).symm
      refine ⟨fun b => ?_, fun b => ?_, ?_⟩
      · rw [e7 b]
        exact congrArg Attr.val (eq_bin _)
      · rw [e7 b]
        exact congrArg Attr.val (eq_bin _)
      · simpa only [e7] using hL'

omit [NeZero B] in
/-- C101: on a single bin `GradLaplaceFDICA` and `NaturalGradLaplaceFDICA` without permutation alignment are `GradLaplaceIVA`
and `NaturalGradLaplaceIVA`. -/
theorem C101_grad_iva (X : Data ℂ (Fin 1) n t) (kw : Option (Fin 1 → Mat n ℂ)) (o : GradCall.Obj ℂ (Fin 1) n t) :
    GradCall.fdicaCall sort kind opt floor sr r mu hol fdicaLaplaceContrast (fdicaLaplaceScore floor) X n_iter ic kw o
      = GradCall.ivaCall kind sr r mu hol ivaLaplaceContrast (ivaLaplaceScore floor) X n_iter ic kw o := by
  have hn : ∀ (Y : Spec (Fin 1) n t) k s, Iva.binNorm Y k s = ‖Y 0 k s‖ := by
    intro Y k s
    simp [Iva.binNorm]
  have h1 : (fdicaLaplaceScore floor : Data ℂ (Fin 1) n t → _) = ivaLaplaceScore floor := by
    funext Y f
    ext k s
    simp only [fdicaLaplaceScore, ivaLaplaceScore, hn, Matrix.of_apply]
    rw [Subsingleton.elim f 0]
  have h2 : ∀ W, Grad.loss 2 fdicaLaplaceContrast X W = Grad.loss 2 ivaLaplaceContrast X W := by
    intro W
    have h : ∀ Y : Data ℂ (Fin 1) n t, (fun k => fdicaLaplaceContrast Y (0, k)) = ivaLaplaceContrast Y := by
      intro Y
      funext k s
      rw [fdicaLaplaceContrast, ivaLaplaceContrast, hn]
    simp only [Grad.loss, Fintype.sum_prod_type, Fin.sum_univ_one, ← h]
  simp only [GradCall.fdicaCall, GradCall.ivaCall, h1, h2, finishAligned_off ho]

/-- C101: so `GradLaplaceFDICA` and `NaturalGradLaplaceFDICA` without permutation alignment are `GradLaplaceIVA` and
`NaturalGradLaplaceIVA` run on each bin by itself. -/
theorem C101_grad_by_iva {o' : GradCall.Obj ℂ (Fin B) n t}
    (e : GradCall.fdicaCall sort kind opt floor sr r mu hol fdicaLaplaceContrast (fdicaLaplaceScore floor) X n_iter ic kw
      GradCall.Obj.fresh = .ok o') :
    ∃ os' : Fin B → GradCall.Obj ℂ (Fin 1) n t, (∀ b, GradCall.ivaCall kind sr r mu hol ivaLaplaceContrast
      (ivaLaplaceScore floor) (bin b X) n_iter ic (kw.map (bin b)) GradCall.Obj.fresh = .ok (os' b)) ∧ GradBins o' os' := by
  obtain ⟨os', e1, h1⟩ := (C101_grad sort kind ho floor sr r mu hol (fun z => 2 * ‖z‖) (fun z => z / (floor ‖z‖ : ℂ)) X n_iter
    ic kw GradBins.fresh).1 o' e
  refine ⟨os', fun b => ?_, h1⟩
  rw [← C101_grad_iva sort kind ho]
  exact e1 b

end grad

/-! ## Examples -/

/-- `AuxLaplaceFDICA` with its default flooring function and no alignment on a recording of three bins: the call returns, and
`AuxLaplaceIVA` given one of the bins finds the filter and the output that the call left in that bin. -/
example (sort : Permutation.Argsort) (np : Numpy ℂ) (n_iter : ℕ) :
    ∃ W ls, Fdica.auxCall sort np .ip1 (.bool false) (Special.max_flooring (1 / 10 ^ 10)) Fdica.laplaceG Fdica.laplaceD
      (.bool true) 0 FlooredCall.exX n_iter true none IvaCall.Obj.fresh = .ok ⟨.val W, .val (separate FlooredCall.exX W), ls⟩ ∧
      ∀ b, ∃ l, IvaCall.call np .ip1 (Special.max_flooring (1 / 10 ^ 10)) Iva.laplaceG Iva.laplaceD (.bool true) 0
        (bin b FlooredCall.exX) n_iter true none IvaCall.Obj.fresh
          = .ok ⟨.val (bin b W), .val (bin b (separate FlooredCall.exX W)), l⟩ := by
  obtain ⟨W, ls, h, -⟩ := FlooredCall.C88_fdica_returns (by norm_num) sort np (alg := .ip1) trivial (opt := .bool false)
    (by simp [FlooredCall.KnownAlign]) (fun x _ => FlooredCall.max_flooring_pos x) Fdica.laplaceG (d := Fdica.laplaceD)
    (fun _ _ => by norm_num [Fdica.laplaceD]) (sr := .bool true) (.inr (.inl (.inl rfl))) 0 FlooredCall.exX_indep n_iter true
    none IvaCall.Obj.fresh (by simp [MnmfCall.Attr.Has, override, IvaCall.Obj.fresh])
  refine ⟨W, ls, h, fun b => ?_⟩
  obtain ⟨os, h1, h2⟩ := C101_aux_by_iva sort np .ip1 rfl _ _ _ _ _ _ _ _ _ h
  refine ⟨(os b).loss, ?_⟩
  have h3 := h1 b
  have h4 := h2.demix b
  have h5 := h2.output b
  generalize os b = q at h3 h4 h5
  obtain ⟨q1, q2, q3⟩ := q
  dsimp only [attrBin] at h4 h5
  subst h4 h5
  exact h3

end Verif.BinByBin
