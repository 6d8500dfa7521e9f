import Verif.Model.Run
import Verif.Model.Spatial

/-! # Runs and stacks of bins -/

namespace Verif

/-- If every regular update succeeds, keeps an invariant and does not increase the loss, the loss list of a run is
non-increasing. -/
theorem lossList_antitone {σ : Type} (step : σ → Except PyErr σ) (loss : σ → Except PyErr ℝ)
    (Inv Reg : σ → Prop) (val : σ → ℝ) (hval : ∀ s, Inv s → loss s = .ok (val s))
    (hstep : ∀ s, Inv s → Reg s → ∃ s', step s = .ok s' ∧ Inv s' ∧ val s' ≤ val s) (n : ℕ) (s : σ)
    (hs : Inv s) (hreg : RegularRun step Reg n s) :
    ∃ ls, lossList step loss n s = .ok ls ∧ ls.length = n + 1 ∧ ls.Pairwise (· ≥ ·) ∧
      ∀ v ∈ ls, v ≤ val s := by
  induction n generalizing s with
  | zero => exact ⟨[val s], by simp [lossList, hval s hs, bind, Except.bind], rfl, by simp, by simp⟩
  | succ n ih =>
    obtain ⟨s', h1, h2, h3⟩ := hstep s hs hreg.1
    obtain ⟨ls, h4, h5, h6, h7⟩ := ih s' h2 (hreg.2 s' h1)
    refine ⟨val s :: ls, by simp [lossList, hval s hs, h1, h4, bind, Except.bind], by simp [h5], ?_, ?_⟩
    · exact List.pairwise_cons.mpr ⟨fun v hv => (h7 v hv).trans h3, h6⟩
    · intro v hv
      rcases List.mem_cons.mp hv with rfl | hv
      · exact le_rfl
      · exact (h7 v hv).trans h3

/-- The same for the inner loop of one update. -/
theorem foldlM_regular {σ β : Type} (g : σ → β → Except PyErr σ) (Inv : σ → Prop) (Reg : σ → β → Prop)
    (val : σ → ℝ) (l : List β)
    (hstep : ∀ s, ∀ b ∈ l, Inv s → Reg s b → ∃ s', g s b = .ok s' ∧ Inv s' ∧ val s' ≤ val s) (s : σ) (hs : Inv s)
    (hreg : RegularFold g Reg l s) :
    ∃ s', l.foldlM g s = .ok s' ∧ Inv s' ∧ val s' ≤ val s := by
  induction l generalizing s with
  | nil => exact ⟨s, rfl, hs, le_rfl⟩
  | cons b l ih =>
    obtain ⟨s', h1, h2, h3⟩ := hstep s b (by simp) hs hreg.1
    obtain ⟨s'', h4, h5, h6⟩ := ih (fun s b hb => hstep s b (by simp [hb])) s' h2 (hreg.2 s' h1)
    exact ⟨s'', by rw [List.foldlM_cons, h1]; exact h4, h5, h6.trans h3⟩

/-- A run is regular when an invariant of the updates implies regularity. -/
theorem regularRun_of_inv {σ : Type} {step : σ → Except PyErr σ} {Reg : σ → Prop} (Inv : σ → Prop)
    (hreg : ∀ s, Inv s → Reg s) (hstep : ∀ s s', Inv s → step s = .ok s' → Inv s') (n : ℕ) (s : σ) (hs : Inv s) :
    RegularRun step Reg n s := by
  induction n generalizing s with
  | zero => trivial
  | succ n ih => exact ⟨hreg s hs, fun s' h => ih s' (hstep s s' hs h)⟩

namespace Spatial

theorem onBins_ok {F α : Type} {g : F → Except PyErr α} {y : F → α} (h : ∀ f, g f = .ok (y f)) :
    onBins g = .ok y := by
  have h' : ∀ f, ∃ z, g f = .ok z := fun f => ⟨y f, h f⟩
  rw [onBins, dif_pos h']
  congr 1
  funext f
  exact Except.ok.inj ((h' f).choose_spec.symm.trans (h f))

/-- A loop over sources or pairs on a stack of bins does in every bin what the loop does on that bin. -/
theorem foldlM_onBins {F α β : Type} (g : F → α → β → Except PyErr α) (l : List β) (a r : F → α)
    (h : ∀ f, l.foldlM (g f) (a f) = .ok (r f)) :
    l.foldlM (fun A b => onBins fun f => g f (A f) b) a = .ok r := by
  induction l generalizing a with
  | nil =>
    have : a = r := funext fun f => Except.ok.inj (h f)
    rw [this]
    rfl
  | cons b l ih =>
    have h1 : ∀ f, ∃ c, g f (a f) b = .ok c := by
      intro f
      have := h f
      rw [List.foldlM_cons] at this
      cases hg : g f (a f) b with
      | ok c => exact ⟨c, rfl⟩
      | error e => rw [hg] at this; cases this
    choose c hc using h1
    rw [List.foldlM_cons, onBins_ok hc]
    refine ih c fun f => ?_
    have := h f
    rw [List.foldlM_cons, hc f] at this
    exact this

end Spatial
end Verif
