import Mathlib.Analysis.SpecialFunctions.Complex.LogBounds
import Mathlib.Data.List.GetD
import Verif.Lemmas.SourceLimit

/-!
# C100: TILRMA with many degrees of freedom and GGDILRMA with a shape parameter near two are GaussILRMA
-/

set_option linter.unusedSectionVars false

namespace Verif.SourceLimit

open Matrix Spatial Scale Iva Filter Topology Ilrma Lifecycle IlrmaCall
open scoped ComplexOrder
open MnmfCall (Attr.Has attrOr_has)

variable {F : Type} [Fintype F] {n t K : ℕ} {α : Type} {l : Filter α}

/-! ## Lists of losses, loops -/

/-- Every recorded loss converges. -/
def ListLim (ls : α → List ℝ) (ls' : List ℝ) (l : Filter α) : Prop :=
  (∀ᶠ i in l, (ls i).length = ls'.length) ∧ ∀ m, Tendsto (fun i => (ls i).getD m 0) l (𝓝 (ls'.getD m 0))

theorem listLim_append {ls : α → List ℝ} {ls' : List ℝ} (h : ListLim ls ls' l) {v : α → ℝ} {v' : ℝ}
    (hv : Tendsto v l (𝓝 v')) : ListLim (fun i => ls i ++ [v i]) (ls' ++ [v']) l := by
  refine ⟨h.1.mono fun i hi => by simp [hi], fun m => ?_⟩
  rcases lt_trichotomy m ls'.length with hm | hm | hm
  · rw [List.getD_append _ _ _ _ hm]
    refine (h.2 m).congr' (h.1.mono fun i hi => ?_)
    exact (List.getD_append _ _ _ _ (by omega)).symm
  · rw [List.getD_append_right _ _ _ _ hm.ge, hm, Nat.sub_self, List.getD_cons_zero]
    refine hv.congr' (h.1.mono fun i hi => ?_)
    simp only
    rw [List.getD_append_right _ _ _ _ hi.le, hi, Nat.sub_self, List.getD_cons_zero]
  · rw [List.getD_eq_default _ _ (by simp; omega)]
    refine tendsto_const_nhds.congr' (h.1.mono fun i hi => ?_)
    simp only
    rw [List.getD_eq_default _ _ (by simp; omega)]

section loop

variable {σ : Type} {step : α → σ → Except PyErr σ} {step' : σ → Except PyErr σ} {loss : α → σ → Except PyErr ℝ}
  {loss' : σ → Except PyErr ℝ} {Lim : (α → σ) → σ → Prop} {Reg : σ → Prop}
  (hstep : ∀ s s', Lim s s' → Reg s' → ∃ S S', (∀ᶠ i in l, step i (s i) = .ok (S i)) ∧ step' s' = .ok S' ∧ Lim S S')
  (hloss : ∀ s s', Lim s s' → ∃ v v', (∀ᶠ i in l, loss i (s i) = .ok (v i)) ∧ loss' s' = .ok v' ∧ Tendsto v l (𝓝 v'))

include hstep hloss

theorem iterations_lim (k : ℕ) : ∀ (s : α → σ) (s' : σ) (ls : α → List ℝ) (ls' : List ℝ), Lim s s' → ListLim ls ls' l →
    RegularRun step' Reg k s' → ∃ S S' L L', (∀ᶠ i in l, iterations (step i) (loss i) k (s i) (ls i) = .ok (S i, L i)) ∧
      iterations step' loss' k s' ls' = .ok (S', L') ∧ Lim S S' ∧ ListLim L L' l := by
  induction k with
  | zero => exact fun s s' ls ls' hs hl _ => ⟨s, s', ls, ls', .of_forall fun _ => rfl, rfl, hs, hl⟩
  | succ k ih =>
    intro s s' ls ls' hs hl hr
    obtain ⟨S, S', h1, h2, h3⟩ := hstep s s' hs hr.1
    obtain ⟨v, v', g1, g2, g3⟩ := hloss S S' h3
    obtain ⟨Q, Q', L, L', q1, q2, q3, q4⟩ := ih S S' (fun i => ls i ++ [v i]) (ls' ++ [v']) h3 (listLim_append hl g3)
      (hr.2 _ h2)
    refine ⟨Q, Q', L, L', ?_, ?_, q3, q4⟩
    · filter_upwards [h1, g1, q1] with i a b c
      simp only [iterations, a, b, Bind.bind, Except.bind]
      exact c
    · simp only [iterations, h2, g2, Bind.bind, Except.bind]
      exact q2

theorem baseCall_lim (ic : Bool) (k : ℕ) {s : α → σ} {s' : σ} (hs : Lim s s') (ls : List ℝ)
    (hr : RegularRun step' Reg k s') :
    ∃ S S' L L', (∀ᶠ i in l, baseCall (step i) (loss i) ic k (s i) ls = .ok (S i, L i)) ∧
      baseCall step' loss' ic k s' ls = .ok (S', L') ∧ Lim S S' ∧ ListLim L L' l := by
  have h0 : ListLim (fun _ : α => ls) ls l := ⟨.of_forall fun _ => rfl, fun _ => tendsto_const_nhds⟩
  cases ic with
  | false => exact iterations_lim hstep hloss k s s' _ _ hs h0 hr
  | true =>
    obtain ⟨v, v', g1, g2, g3⟩ := hloss s s' hs
    obtain ⟨Q, Q', L, L', q1, q2, q3, q4⟩ := iterations_lim hstep hloss k s s' _ _ hs (listLim_append h0 g3) hr
    refine ⟨Q, Q', L, L', ?_, ?_, q3, q4⟩
    · filter_upwards [g1, q1] with i b c
      simp only [baseCall, b, Bind.bind, Except.bind, if_true]
      exact c
    · simp only [baseCall, g2, Bind.bind, Except.bind, if_true]
      exact q2

end loop

/-! ## One update -/

/-- The states converge to a state with invertible filters and positive bases and activations. -/
structure StLim (l : Filter α) (s : α → St F n t K) (s' : St F n t K) : Prop where
  W : Tendsto (fun i => (s i).W) l (𝓝 s'.W)
  T : ∀ k f b, Tendsto (fun i => (s i).T k f b) l (𝓝 (s'.T k f b))
  V : ∀ k b j, Tendsto (fun i => (s i).V k b j) l (𝓝 (s'.V k b j))
  inv : Inv s'

/-- The same for states that hold the separated signals. -/
structure StYLim (X : Spec F n t) (l : Filter α) (s : α → StY F n t K) (s' : StY F n t K) : Prop where
  Y : ∀ f, Tendsto (fun i => (s i).Y f) l (𝓝 (s'.Y f))
  T : ∀ k f b, Tendsto (fun i => (s i).T k f b) l (𝓝 (s'.T k f b))
  V : ∀ k b j, Tendsto (fun i => (s i).V k b j) l (𝓝 (s'.V k b j))
  inv : ∃ s0 : St F n t K, Inv s0 ∧ s' = s0.toY X

section

variable {floor : ℝ → ℝ} (hf : ∀ x, 0 < x → 0 < floor x) (hc : ∀ x, 0 < x → ContinuousAt floor x)

include hf hc

theorem psi_lim [Nonempty F] {Y : α → Spec F n t} {Y' : Spec F n t} (hY : ∀ f, Tendsto (fun i => Y i f) l (𝓝 (Y' f)))
    (hne : ∀ f k, ∃ j, Y' f k j ≠ 0) (k : Fin n) :
    Tendsto (fun i => psi floor (Y i) k) l (𝓝 (psi floor Y' k)) ∧ 0 < psi floor Y' k := by
  have h : 0 < Real.sqrt ((∑ f, ∑ s, ‖Y' f k s‖ ^ 2) / (Fintype.card F * t)) := by
    obtain ⟨f⟩ := ‹Nonempty F›
    obtain ⟨j, hj⟩ := hne f k
    have ht : 0 < t := j.pos
    refine Real.sqrt_pos.2 (div_pos ?_ ?_)
    · exact Finset.sum_pos' (fun f _ => Finset.sum_nonneg fun j _ => sq_nonneg _) ⟨f, Finset.mem_univ _,
        Finset.sum_pos' (fun j _ => sq_nonneg _) ⟨j, Finset.mem_univ _, pow_pos (norm_pos_iff.2 hj) 2⟩⟩
    · have : 0 < Fintype.card F := Fintype.card_pos_iff.2 ⟨f⟩
      positivity
  refine ⟨(hc _ h).tendsto.comp (Tendsto.sqrt (Tendsto.div_const (tendsto_finsetSum _ fun f _ =>
    tendsto_finsetSum _ fun j _ => (tendsto_matrix.1 (hY f) k j).norm.pow 2) _)), hf _ h⟩

theorem normalize_lim [Nonempty F] (p : ℝ) {X : Spec F n t} (hX : ∀ f, LinearIndependent ℂ (X f).row) {norm : Norm n}
    (hn : norm.Plain) {s : α → St F n t K} {s' : St F n t K} (hs : StLim l s s') :
    ∃ S S', (∀ i, normalize p floor X norm (s i) = .ok (S i)) ∧ normalize p floor X norm s' = .ok S' ∧ StLim l S S' := by
  cases norm with
  | off => exact ⟨s, s', fun _ => rfl, rfl, hs⟩
  | power =>
    have h := psi_lim hf hc (tendsto_separate X hs.W) (exists_separate_ne hX hs.inv.1)
    refine ⟨_, _, fun _ => rfl, rfl, ?_, fun k f b => ?_, hs.V, FlooredCall.divRows_isUnit (fun k => (h k).2) hs.inv.1,
      fun k f b => div_pos (hs.inv.2.1 k f b) (Real.rpow_pos_of_pos (h k).2 p), hs.inv.2.2⟩
    · refine tendsto_pi_nhds.2 fun f => tendsto_matrix.2 fun k j => ?_
      refine (tendsto_matrix.1 (tendsto_pi_nhds.1 hs.W f) k j).div (tendsto_ofReal (h k).1) ?_
      exact_mod_cast (h k).2.ne'
    · exact (hs.T k f b).div ((h k).1.rpow_const (.inl (h k).2.ne')) (Real.rpow_pos_of_pos (h k).2 p).ne'
  | projectionBack r => exact absurd hn (by simp [Norm.Plain])

theorem normalizeY_lim [Nonempty F] (p : ℝ) {X : Spec F n t} (hX : ∀ f, LinearIndependent ℂ (X f).row) {norm : Norm n}
    (hn : norm.Plain) {s : α → StY F n t K} {s' : StY F n t K} (hs : StYLim X l s s') :
    ∃ S S', (∀ i, normalizeY p floor X norm (s i) = .ok (S i)) ∧ normalizeY p floor X norm s' = .ok S' ∧ StYLim X l S S' := by
  cases norm with
  | off => exact ⟨s, s', fun _ => rfl, rfl, hs⟩
  | power =>
    obtain ⟨s0, h0, e⟩ := hs.inv
    have h := psi_lim hf hc hs.Y (by rw [e]; exact exists_separate_ne hX h0.1)
    refine ⟨_, _, fun _ => rfl, rfl, fun f => tendsto_matrix.2 fun k j => ?_, fun k f b => ?_, hs.V,
      ⟨divRows (psi floor s'.Y) s0.W, divBasis p (psi floor s'.Y) s'.T, s'.V⟩, ⟨FlooredCall.divRows_isUnit (fun k => (h k).2) h0.1,
      fun k f b => div_pos ?_ (Real.rpow_pos_of_pos (h k).2 p), ?_⟩, ?_⟩
    · refine (tendsto_matrix.1 (hs.Y f) k j).div (tendsto_ofReal (h k).1) ?_
      exact_mod_cast (h k).2.ne'
    · exact (hs.T k f b).div ((h k).1.rpow_const (.inl (h k).2.ne')) (Real.rpow_pos_of_pos (h k).2 p).ne'
    · rw [e]; exact h0.2.1 k f b
    · rw [e]; exact h0.2.2
    · simp only [St.toY, separate_divRows]
      rw [show separate X s0.W = s'.Y by rw [e]; rfl]
  | projectionBack r => exact absurd hn (by simp [Norm.Plain])

end

section

variable [Nonempty F] [Nonempty (Fin t)] [Nonempty (Fin K)] (np : Numpy ℂ) {src : α → Source} {src' : Source} (p : ℝ)
  {floor : ℝ → ℝ} {ok : ℝ → Prop} (hf : FloorOk floor ok) (hs : SrcLim src src' floor ok l) {norm : Norm n}
  (hn : norm.Plain) {X : Spec F n t} (hX : ∀ f, LinearIndependent ℂ (X f).row)

include hf hs hn hX

theorem updateOnce_lim {s : α → St F n t K} {s' : St F n t K} (h : StLim l s s')
    (hok : ∀ f k j, ok ‖separate X s'.W f k j‖) :
    ∃ S S', (∀ᶠ i in l, updateOnce np (src i) p .ip1 norm floor X (s i) = .ok (S i)) ∧
      updateOnce np src' p .ip1 norm floor X s' = .ok S' ∧ StLim l S S' := by
  have hY := tendsto_separate X h.W
  have hT := basis_lim hf hs hY hok h.T h.V h.inv.2.1 h.inv.2.2
  have hV := activation_lim hf hs hY hok (fun k f b => (hT k f b).1) h.V (fun k f b => (hT k f b).2) h.inv.2.2
  have hphi := phi_lim hs hY hok (fun k f b => (hT k f b).1) (fun k b j => (hV k b j).1) (fun k f b => (hT k f b).2)
    fun k b j => (hV k b j).2
  obtain ⟨V, V', h1, h2, h3, h4⟩ := ip1_lim hf.pos hf.cont (fun f k j => (hphi f k j).1) (fun f k j => (hphi f k j).2) hX
    h.W h.inv.1
  obtain ⟨S, S', g1, g2, g3⟩ := normalize_lim hf.pos hf.cont p hX hn (l := l)
    (s := fun i => (⟨V i, (updateSource (src i) floor X (s i)).T, (updateSource (src i) floor X (s i)).V⟩ : St F n t K))
    (s' := ⟨V', (updateSource src' floor X s').T, (updateSource src' floor X s').V⟩)
    ⟨h3, fun k f b => (hT k f b).1, fun k b j => (hV k b j).1, h4, fun k f b => (hT k f b).2, fun k b j => (hV k b j).2⟩
  refine ⟨S, S', ?_, ?_, g3⟩
  · filter_upwards [h1] with i hi
    change ((ip1Stack floor _ _ >>= _) >>= _) = _
    erw [hi]
    exact g1 i
  · change ((ip1Stack floor _ _ >>= _) >>= _) = _
    erw [h2]
    exact g2

theorem updateOnceY_lim {s : α → StY F n t K} {s' : StY F n t K} (h : StYLim X l s s') (hok : ∀ f k j, ok ‖s'.Y f k j‖) :
    ∃ S S', (∀ᶠ i in l, updateOnceY np (src i) p .iss1 norm floor X (s i) = .ok (S i)) ∧
      updateOnceY np src' p .iss1 norm floor X s' = .ok S' ∧ StYLim X l S S' := by
  obtain ⟨s0, h0, e⟩ := h.inv
  have hT0 : ∀ k f b, 0 < s'.T k f b := by rw [e]; exact h0.2.1
  have hV0 : ∀ k b j, 0 < s'.V k b j := by rw [e]; exact h0.2.2
  have hY0 : ∀ f, s'.Y f = s0.W f * X f := by rw [e]; exact fun _ => rfl
  have hT := basis_lim hf hs h.Y hok h.T h.V hT0 hV0
  have hV := activation_lim hf hs h.Y hok (fun k f b => (hT k f b).1) h.V (fun k f b => (hT k f b).2) hV0
  have hphi := phi_lim hs h.Y hok (fun k f b => (hT k f b).1) (fun k b j => (hV k b j).1) (fun k f b => (hT k f b).2)
    fun k b j => (hV k b j).2
  have hiss := fun f => iss1_lim hf.pos hf.cont (fun k j => (hphi f k j).1) (fun k j => (hphi f k j).2) (hX f)
    (List.finRange n) (Y := fun i => (s i).Y f) (W' := s0.W f) (by rw [← hY0]; exact h.Y f) (h0.1 f)
  choose h3 V' h4 h5 using hiss
  simp only [← hY0] at h3 h4
  obtain ⟨S, S', g1, g2, g3⟩ := normalizeY_lim hf.pos hf.cont p hX hn (l := l)
    (s := fun i => (⟨fun f => iss1 floor (varphi (src i) floor (s i).Y (recon (updateSourceY (src i) floor (s i)).T
      (updateSourceY (src i) floor (s i)).V) f) ((s i).Y f), (updateSourceY (src i) floor (s i)).T,
      (updateSourceY (src i) floor (s i)).V⟩ : StY F n t K))
    (s' := ⟨fun f => iss1 floor (varphi src' floor s'.Y (recon (updateSourceY src' floor s').T
      (updateSourceY src' floor s').V) f) (s'.Y f), (updateSourceY src' floor s').T, (updateSourceY src' floor s').V⟩)
    ⟨h3, fun k f b => (hT k f b).1, fun k b j => (hV k b j).1, ⟨V', (updateSourceY src' floor s').T,
      (updateSourceY src' floor s').V⟩, ⟨h5, fun k f b => (hT k f b).2, fun k b j => (hV k b j).2⟩, by
        simp only [St.toY]
        congr 1
        funext f
        exact h4 f⟩
  exact ⟨S, S', .of_forall g1, g2, g3⟩

end

/-! ## The end of the call -/

theorem finish_lim {sr : ScaleOpt} (hsr : FlooredCall.Known sr) (r : Fin n) {X : Spec F n t}
    (hX : ∀ f, LinearIndependent ℂ (X f).row) {W : α → F → Mat n ℂ} {W' : F → Mat n ℂ} (hW : Tendsto W l (𝓝 W'))
    (hu : ∀ f, IsUnit (W' f).det) :
    ∃ V V', (∀ᶠ i in l, finish sr r X (W i) = .ok (separate X (V i), V i)) ∧
      finish sr r X W' = .ok (separate X V', V') ∧ Tendsto V l (𝓝 V') := by
  have hG := gram_isUnit X hX
  have hev : ∀ᶠ i in l, ∀ f, IsUnit (W i f).det :=
    eventually_all.2 fun f => eventually_isUnit (tendsto_pi_nhds.1 hW f) (hu f)
  rcases hsr with h | h | h
  · exact ⟨W, W', .of_forall fun i => by simp [finish, restore_none h, Bind.bind, Except.bind],
      by simp [finish, restore_none h, Bind.bind, Except.bind], hW⟩
  · have key : ∀ A : F → Mat n ℂ, (∀ f, IsUnit (A f).det) → finish sr r X A
        = .ok (separate X fun f => Matrix.of fun i j => A f i j * (A f)⁻¹ r i,
            fun f => Matrix.of fun i j => A f i j * (A f)⁻¹ r i) := fun A hA => by
      obtain ⟨ht, hr⟩ := restore_pb h (applyProjectionBack r X A) (applyMdp r X A)
      simp only [finish, ht, hr, if_true]
      simp only [applyProjectionBack, projectionBackFilter, npInvB, if_pos hA, Bind.bind, Except.bind]
    refine ⟨_, _, hev.mono fun i hi => key _ hi, key _ hu, tendsto_pi_nhds.2 fun f => tendsto_matrix.2 fun i j => ?_⟩
    exact (tendsto_matrix.1 (tendsto_pi_nhds.1 hW f) i j).mul
      (tendsto_matrix.1 (tendsto_inv (tendsto_pi_nhds.1 hW f) (hu f)) r i)
  · have key : ∀ A : F → Mat n ℂ, finish sr r X A
        = .ok (separate X fun f => mdp r (separate X A) X f * (X f)ᴴ * (X f * (X f)ᴴ)⁻¹,
            fun f => mdp r (separate X A) X f * (X f)ᴴ * (X f * (X f)ᴴ)⁻¹) := fun A => by
      obtain ⟨ht, hr⟩ := restore_mdp h (applyProjectionBack r X A) (applyMdp r X A)
      simp only [finish, ht, hr, if_true]
      simp only [applyMdp, npInvB, if_pos hG, Bind.bind, Except.bind]
    refine ⟨_, _, .of_forall fun i => key _, key _, tendsto_pi_nhds.2 fun f => ?_⟩
    refine tendsto_matrix_mul (tendsto_matrix_mul (tendsto_matrix.2 fun i k => ?_) tendsto_const_nhds) tendsto_const_nhds
    have hY := tendsto_matrix.1 (tendsto_separate X hW f)
    obtain ⟨j, hj⟩ := exists_separate_ne hX hu f i
    have hpos : 0 < ∑ k, ‖separate X W' f i k‖ ^ 2 :=
      Finset.sum_pos' (fun _ _ => sq_nonneg _) ⟨j, Finset.mem_univ _, pow_pos (norm_pos_iff.2 hj) 2⟩
    refine Tendsto.mul ((continuous_star.tendsto _).comp (Tendsto.div
      (tendsto_finsetSum _ fun k _ => (hY i k).mul tendsto_const_nhds)
      (tendsto_ofReal (tendsto_finsetSum _ fun k _ => (hY i k).norm.pow 2)) ?_)) (hY i k)
    exact_mod_cast hpos.ne'

theorem finishFree_lim {sr : ScaleOpt} (hsr : FlooredCall.Known sr) (r : Fin n) {X : Spec F n t}
    (hX : ∀ f, LinearIndependent ℂ (X f).row) {Y : α → Spec F n t} {W' : F → Mat n ℂ}
    (hY : ∀ f, Tendsto (fun i => Y i f) l (𝓝 (separate X W' f))) (hu : ∀ f, IsUnit (W' f).det) :
    ∃ (Z : α → Spec F n t) (Z' : Spec F n t), (∀ᶠ i in l, finishFree sr r X (Y i) = .ok (Z i)) ∧
      finishFree sr r X (separate X W') = .ok Z' ∧ ∀ f, Tendsto (fun i => Z i f) l (𝓝 (Z' f)) := by
  have hY2 := fun f => tendsto_matrix.1 (hY f)
  rcases hsr with h | h | h
  · exact ⟨Y, separate X W', .of_forall fun i => by simp [finishFree, restore_none h],
      by simp [finishFree, restore_none h], hY⟩
  · have hstar : ∀ f, Tendsto (fun i => (Y i f)ᴴ) l (𝓝 (separate X W' f)ᴴ) := fun f =>
      tendsto_matrix.2 fun i j => (continuous_star.tendsto _).comp (hY2 f j i)
    have hg := fun f => tendsto_matrix_mul (hY f) (hstar f)
    have hgu : ∀ f, IsUnit (separate X W' f * (separate X W' f)ᴴ).det := fun f => (signal_scale X hX W' hu f).1
    have hev : ∀ᶠ i in l, ∀ f, IsUnit (Y i f * (Y i f)ᴴ).det :=
      eventually_all.2 fun f => eventually_isUnit (hg f) (hgu f)
    have key : ∀ A : Spec F n t, (∀ f, IsUnit (A f * (A f)ᴴ).det) → finishFree sr r X A
        = .ok fun f => Matrix.of fun i k => A f i k * (X f * (A f)ᴴ * (A f * (A f)ᴴ)⁻¹) r i := fun A hA => by
      obtain ⟨ht, hr⟩ := restore_pb h (projectionBackData r A X) (.ok (mdp r A X))
      simp only [finishFree, ht, hr, if_true]
      simp only [projectionBackData, projectionBackScale, npInvB, if_pos hA, Bind.bind, Except.bind]
    refine ⟨_, _, hev.mono fun i hi => key _ hi, key _ hgu, fun f => tendsto_matrix.2 fun i k => ?_⟩
    exact (hY2 f i k).mul (tendsto_matrix.1 (tendsto_matrix_mul (tendsto_matrix_mul tendsto_const_nhds (hstar f))
      (tendsto_inv (hg f) (hgu f))) r i)
  · have key : ∀ A : Spec F n t, finishFree sr r X A = .ok (mdp r A X) := fun A => by
      obtain ⟨ht, hr⟩ := restore_mdp h (projectionBackData r A X) (.ok (mdp r A X))
      simp only [finishFree, ht, hr, if_true]
    refine ⟨_, _, .of_forall fun i => key _, key _, fun f => tendsto_matrix.2 fun i k => ?_⟩
    obtain ⟨j, hj⟩ := exists_separate_ne hX hu f i
    have hpos : 0 < ∑ k, ‖separate X W' f i k‖ ^ 2 :=
      Finset.sum_pos' (fun _ _ => sq_nonneg _) ⟨j, Finset.mem_univ _, pow_pos (norm_pos_iff.2 hj) 2⟩
    refine Tendsto.mul ((continuous_star.tendsto _).comp (Tendsto.div
      (tendsto_finsetSum _ fun k _ => (hY2 f i k).mul tendsto_const_nhds)
      (tendsto_ofReal (tendsto_finsetSum _ fun k _ => (hY2 f i k).norm.pow 2)) ?_)) (hY2 f i k)
    exact_mod_cast hpos.ne'

/-! ## The calls -/

/-- What a call leaves behind converges: filters, bases, activations, output and recorded losses. -/
structure ObjLim (X : Spec F n t) (l : Filter α) (c : α → Except PyErr (IlrmaCall.Obj F n t K))
    (c' : Except PyErr (IlrmaCall.Obj F n t K)) : Prop where
  out : ∃ (W : α → F → Mat n ℂ) (W' : F → Mat n ℂ) (T : α → Fin n → F → Fin K → ℝ) (T' : Fin n → F → Fin K → ℝ)
    (V : α → Fin n → Fin K → Fin t → ℝ) (V' : Fin n → Fin K → Fin t → ℝ) (ls : α → List ℝ) (ls' : List ℝ),
    (∀ᶠ i in l, c i = .ok ⟨.val (W i), .val (T i), .val (V i), .val (separate X (W i)), ls i⟩) ∧
    c' = .ok ⟨.val W', .val T', .val V', .val (separate X W'), ls'⟩ ∧
    (∀ f k m, Tendsto (fun i => W i f k m) l (𝓝 (W' f k m))) ∧
    (∀ f k j, Tendsto (fun i => separate X (W i) f k j) l (𝓝 (separate X W' f k j))) ∧
    (∀ k f b, Tendsto (fun i => T i k f b) l (𝓝 (T' k f b))) ∧
    (∀ k b j, Tendsto (fun i => V i k b j) l (𝓝 (V' k b j))) ∧ ListLim ls ls' l

/-- The same for the calls that keep no filter. -/
structure ObjYLim (l : Filter α) (c : α → Except PyErr (IlrmaCall.Obj F n t K))
    (c' : Except PyErr (IlrmaCall.Obj F n t K)) : Prop where
  out : ∃ (Y : α → Spec F n t) (Y' : Spec F n t) (T : α → Fin n → F → Fin K → ℝ) (T' : Fin n → F → Fin K → ℝ)
    (V : α → Fin n → Fin K → Fin t → ℝ) (V' : Fin n → Fin K → Fin t → ℝ) (ls : α → List ℝ) (ls' : List ℝ),
    (∀ᶠ i in l, c i = .ok ⟨.none, .val (T i), .val (V i), .val (Y i), ls i⟩) ∧
    c' = .ok ⟨.none, .val T', .val V', .val Y', ls'⟩ ∧
    (∀ f k j, Tendsto (fun i => Y i f k j) l (𝓝 (Y' f k j))) ∧
    (∀ k f b, Tendsto (fun i => T i k f b) l (𝓝 (T' k f b))) ∧
    (∀ k b j, Tendsto (fun i => V i k b j) l (𝓝 (V' k b j))) ∧ ListLim ls ls' l

section

variable [Nonempty F] [Nonempty (Fin t)] [Nonempty (Fin K)] (np : Numpy ℂ) {src : α → Source} {src' : Source} (p : ℝ)
  {floor : ℝ → ℝ} {ok : ℝ → Prop} (hf : FloorOk floor ok) (hs : SrcLim src src' floor ok l) {norm : Norm n}
  (hn : norm.Plain) {sr : ScaleOpt} (hsr : FlooredCall.Known sr) (r : Fin n) {X : Spec F n t}
  (hX : ∀ f, LinearIndependent ℂ (X f).row) (n_iter : ℕ) (ic : Bool) (draw : Draw F n t K)
  (hdT : ∀ k f b, 0 < floor (draw.T k f b)) (hdV : ∀ k b j, 0 < floor (draw.V k b j)) (kw : Kw F n t K)
  (o : IlrmaCall.Obj F n t K) (hW : Attr.Has (fun W => ∀ f, IsUnit (W f).det) (override kw.demix o.demix))
  (hT : Attr.Has (fun T => ∀ k f b, 0 < T k f b) (override kw.basis o.basis))
  (hV : Attr.Has (fun V => ∀ k b j, 0 < V k b j) (override kw.activation o.activation))

include hf hs hn hsr hX hdT hdV hW hT hV

theorem call_lim (hreg : ∀ s0, resetFilter .ip1 floor draw X kw o = .ok s0 →
      RegularRun (updateOnce np src' p .ip1 norm floor X) (fun s => ∀ f k j, ok ‖separate X s.W f k j‖) n_iter s0) :
    ObjLim X l (fun i => call np (src i) p .ip1 norm floor sr r draw X n_iter ic kw o)
      (call np src' p .ip1 norm floor sr r draw X n_iter ic kw o) := by
  obtain ⟨T, a1, a2⟩ := attrOr_has hT (fun k f b => floor (draw.T k f b)) hdT
  obtain ⟨V, b1, b2⟩ := attrOr_has hV (fun k f b => floor (draw.V k f b)) hdV
  obtain ⟨W, w1, w2⟩ := FlooredCall.reset_ok (label (.ip1 : FilterAlg n)) X (kw := kw.demix) (o := ⟨o.demix, o.output⟩) hW
  have hreset : resetFilter .ip1 floor draw X kw o = .ok ⟨W, T, V⟩ := by
    simp only [resetFilter, w2, initNmf, a1, b1, Bind.bind, Except.bind]
    rfl
  obtain ⟨S, S', L, L', h1, h2, h3, h4⟩ := baseCall_lim (Lim := StLim (F := F) (n := n) (t := t) (K := K) l)
    (step := fun i => updateOnce np (src i) p .ip1 norm floor X) (loss := fun i s => .ok (loss (src i) X s))
    (loss' := fun s => .ok (loss src' X s)) (fun s s' h hr => updateOnce_lim np p hf hs hn hX h hr)
    (fun s s' h => ⟨_, _, .of_forall fun _ => rfl, rfl, loss_lim hs (tendsto_separate X h.W) h.T h.V h.inv.2.1 h.inv.2.2 h.W
      h.inv.1⟩) ic n_iter (s := fun _ => (⟨W, T, V⟩ : St F n t K)) (s' := ⟨W, T, V⟩) ⟨tendsto_const_nhds,
        fun _ _ _ => tendsto_const_nhds, fun _ _ _ => tendsto_const_nhds, w1, a2, b2⟩ o.loss (hreg _ hreset)
  obtain ⟨Q, Q', g1, g2, g3⟩ := finish_lim hsr r hX h3.W h3.inv.1
  refine ⟨Q, Q', fun i => (S i).T, S'.T, fun i => (S i).V, S'.V, L, L', ?_, ?_,
    fun f => tendsto_matrix.1 (tendsto_pi_nhds.1 g3 f), fun f => tendsto_matrix.1 (tendsto_separate X g3 f), h3.T, h3.V, h4⟩
  · filter_upwards [h1, g1] with i hi gi
    simp only [IlrmaCall.call, hreset, hi, gi, Bind.bind, Except.bind]
  · simp only [IlrmaCall.call, hreset, h2, g2, Bind.bind, Except.bind]

theorem callSignal_lim (hreg : ∀ s0, resetSignal .iss1 floor draw X kw o = .ok s0 →
      RegularRun (updateOnceY np src' p .iss1 norm floor X) (fun s => ∀ f k j, ok ‖s.Y f k j‖) n_iter s0) :
    ObjYLim l (fun i => callSignal np (src i) p .iss1 norm floor sr r draw X n_iter ic kw o)
      (callSignal np src' p .iss1 norm floor sr r draw X n_iter ic kw o) := by
  obtain ⟨T, a1, a2⟩ := attrOr_has hT (fun k f b => floor (draw.T k f b)) hdT
  obtain ⟨V, b1, b2⟩ := attrOr_has hV (fun k f b => floor (draw.V k f b)) hdV
  obtain ⟨W, w1, w2⟩ := FlooredCall.reset_ok (labelY (.iss1 : SignalAlg n)) X (kw := kw.demix) (o := ⟨o.demix, o.output⟩) hW
  have hreset : resetSignal .iss1 floor draw X kw o = .ok ((⟨W, T, V⟩ : St F n t K).toY X) := by
    simp only [resetSignal, w2, initNmf, a1, b1, Bind.bind, Except.bind]
    rfl
  have hG := gram_isUnit X hX
  have hloss : ∀ (src : Source) (s : StY F n t K), lossY src X s
      = .ok (lossOf src s.Y (recon s.T s.V) fun f => s.Y f * (X f)ᴴ * (X f * (X f)ᴴ)⁻¹) := fun src s => by
    simp only [lossY, filterOf, npInvB, if_pos hG, Bind.bind, Except.bind]
  obtain ⟨S, S', L, L', h1, h2, h3, h4⟩ := baseCall_lim (Lim := StYLim (F := F) (n := n) (t := t) (K := K) X l)
    (step := fun i => updateOnceY np (src i) p .iss1 norm floor X) (loss := fun i => lossY (src i) X)
    (loss' := lossY src' X) (fun s s' h hr => updateOnceY_lim np p hf hs hn hX h hr)
    (fun s s' h => by
      obtain ⟨s0, h0, e⟩ := h.inv
      refine ⟨_, _, .of_forall fun _ => hloss _ _, hloss _ _, loss_lim hs h.Y h.T h.V (by rw [e]; exact h0.2.1)
        (by rw [e]; exact h0.2.2) (tendsto_pi_nhds.2 fun f =>
          tendsto_matrix_mul (tendsto_matrix_mul (h.Y f) tendsto_const_nhds) tendsto_const_nhds) fun f => ?_⟩
      rw [e, show (s0.toY X).Y f = s0.W f * X f from rfl, Matrix.mul_assoc (s0.W f), Matrix.mul_assoc,
        mul_nonsing_inv _ (hG f), Matrix.mul_one]
      exact h0.1 f) ic n_iter (s := fun _ => (⟨W, T, V⟩ : St F n t K).toY X) (s' := (⟨W, T, V⟩ : St F n t K).toY X)
      ⟨fun _ => tendsto_const_nhds, fun _ _ _ => tendsto_const_nhds, fun _ _ _ => tendsto_const_nhds, _, ⟨w1, a2, b2⟩, rfl⟩
      o.loss (hreg _ hreset)
  obtain ⟨s0, h0, e⟩ := h3.inv
  have hY := h3.Y
  rw [show S'.Y = separate X s0.W by rw [e]; rfl] at hY
  obtain ⟨Q, Q', g1, g2, g3⟩ := finishFree_lim hsr r hX hY h0.1
  refine ⟨Q, Q', fun i => (S i).T, S'.T, fun i => (S i).V, S'.V, L, L', ?_, ?_,
    fun f => tendsto_matrix.1 (g3 f), h3.T, h3.V, h4⟩
  · filter_upwards [h1, g1] with i hi gi
    simp only [callSignal, hreset, hi, gi, Bind.bind, Except.bind]
  · rw [← show S'.Y = separate X s0.W by rw [e]; rfl] at g2
    simp only [callSignal, hreset, h2, g2, Bind.bind, Except.bind]

end

/-! ## The source models -/

theorem tendsto_ratio : Tendsto (fun nu : ℝ => nu / (nu + 2)) atTop (𝓝 1) := by
  have h : Tendsto (fun nu : ℝ => 1 - 2 / (nu + 2)) atTop (𝓝 (1 - 0)) :=
    tendsto_const_nhds.sub (tendsto_const_nhds.div_atTop (tendsto_atTop_add_const_right _ _ tendsto_id))
  rw [sub_zero] at h
  refine h.congr' ?_
  filter_upwards [eventually_gt_atTop 0] with nu hnu
  field_simp
  ring

theorem tendsto_rTilde (p : ℝ) {a b : ℝ → ℝ} {y r : ℝ} (hr : 0 < r) (ha : Tendsto a atTop (𝓝 y)) (hb : Tendsto b atTop (𝓝 r)) :
    Tendsto (fun nu => rTilde p nu (a nu) (b nu)) atTop (𝓝 (r ^ (2 / p))) := by
  have h := (tendsto_ratio.mul (hb.rpow_const (p := 2 / p) (.inl hr.ne'))).add
    ((tendsto_const_nhds (x := (1 : ℝ)).sub tendsto_ratio).mul (ha.pow 2))
  simpa [rTilde] using h

theorem tendsto_student_ell {q : ℝ → ℝ} {q' : ℝ} (hq : Tendsto q atTop (𝓝 q')) :
    Tendsto (fun nu => (1 + nu / 2) * Real.log (1 + 2 / nu * q nu)) atTop (𝓝 q') := by
  have hg : Tendsto (fun nu : ℝ => nu * (2 / nu * q nu)) atTop (𝓝 (2 * q')) := by
    refine (hq.const_mul 2).congr' ?_
    filter_upwards [eventually_gt_atTop 0] with nu hnu
    field_simp
  have h1 := Real.tendsto_mul_log_one_add_of_tendsto hg
  have h2 : Tendsto (fun nu : ℝ => Real.log (1 + 2 / nu * q nu)) atTop (𝓝 0) := by
    have : Tendsto (fun nu : ℝ => 1 + 2 / nu * q nu) atTop (𝓝 (1 + 0 * q')) :=
      tendsto_const_nhds.add ((tendsto_const_nhds.div_atTop tendsto_id).mul hq)
    rw [zero_mul, add_zero] at this
    simpa using this.log one_ne_zero
  have h3 := h2.add (h1.const_mul (1 / 2))
  rw [show (0 : ℝ) + 1 / 2 * (2 * q') = q' by ring] at h3
  refine h3.congr fun nu => ?_
  ring

/-- As the degrees of freedom grow, the Student model becomes the Gaussian model. -/
theorem student_srcLim {p : ℝ} (hp : 0 < p) (floor : ℝ → ℝ) (ok : ℝ → Prop) :
    SrcLim (fun nu => student p nu) (gauss p) floor ok atTop where
  num_nonneg y r hr := by simp only [gauss]; positivity
  num_pos y r hy hr := by simp only [gauss]; positivity
  num {a b y r} _ hr ha hb := by
    simp only [student, gauss]
    have e : r ^ ((p + 2) / p) = r ^ (2 / p) * r := by
      rw [add_div, div_self hp.ne', add_comm, Real.rpow_add hr, Real.rpow_one]
    rw [e]
    exact (ha.pow 2).div ((tendsto_rTilde p hr ha hb).mul hb) (by positivity)
  expo_pos := by simp only [gauss]; positivity
  expo := tendsto_const_nhds
  phi_pos y r hr := by simp only [gauss]; positivity
  phi {a b y r} _ hr ha hb := by
    simp only [student, gauss]
    exact tendsto_const_nhds.div (tendsto_rTilde p hr ha hb) (by positivity)
  ell {a b y r} hr ha hb := by
    simp only [student, gauss]
    have hq : Tendsto (fun nu => a nu ^ 2 / b nu ^ (2 / p)) atTop (𝓝 (y ^ 2 / r ^ (2 / p))) :=
      (ha.pow 2).div (hb.rpow_const (.inl hr.ne')) (Real.rpow_pos_of_pos hr _).ne'
    exact (tendsto_student_ell hq).add ((hb.log hr.ne').const_mul _)

/-- The same with the ME updates. -/
theorem studentME_srcLim (floor : ℝ → ℝ) (ok : ℝ → Prop) :
    SrcLim (fun nu => studentME nu) gaussME floor ok atTop where
  num_nonneg y r hr := by simp only [gaussME]; positivity
  num_pos y r hy hr := by simp only [gaussME]; positivity
  num {a b y r} _ hr ha hb := by
    simp only [studentME, gaussME]
    rw [pow_two r]
    have h := tendsto_rTilde 2 hr ha hb
    simp only [rTilde, div_self (two_ne_zero (α := ℝ)), Real.rpow_one] at h
    exact (ha.pow 2).div (h.mul hb) (by positivity)
  expo_pos := by simp only [gaussME]; positivity
  expo := tendsto_const_nhds
  phi_pos y r hr := by simp only [gaussME]; positivity
  phi {a b y r} hok hr ha hb := (student_srcLim two_pos floor ok).phi hok hr ha hb
  ell {a b y r} hr ha hb := (student_srcLim two_pos floor ok).ell hr ha hb

/-- As the shape parameter approaches two, the generalised Gaussian model becomes the Gaussian model, at amplitudes other
than zero. -/
theorem ggd_srcLim {p : ℝ} (hp : 0 < p) {floor : ℝ → ℝ} (h1 : floor 1 = 1) (hc : ContinuousAt floor 1) :
    SrcLim (fun beta => ggd p beta) (gauss p) floor (fun y => 0 < y) (𝓝[<] 2) := by
  have hb2 : Tendsto (fun beta : ℝ => beta) (𝓝[<] 2) (𝓝 2) := tendsto_id.mono_left nhdsWithin_le_nhds
  have hG := student_srcLim hp floor fun y => 0 < y
  refine ⟨hG.num_nonneg, hG.num_pos, ?_, hG.expo_pos, ?_, hG.phi_pos, ?_, ?_⟩
  · intro a b y r hy hr ha hb
    simp only [ggd, gauss]
    have e : y ^ 2 / r ^ ((p + 2) / p) = (2 : ℝ) / 2 * (y ^ (2 : ℝ) / r ^ (((2 : ℝ) + p) / p)) := by
      rw [div_self two_ne_zero, one_mul, Real.rpow_two, add_comm p]
    rw [e]
    exact (hb2.div_const _).mul ((ha.rpow hb2 (.inl hy.ne')).div (hb.rpow ((hb2.add_const p).div_const p) (.inl hr.ne'))
      (Real.rpow_pos_of_pos hr _).ne')
  · simp only [ggd, gauss]
    rw [add_comm p]
    exact tendsto_const_nhds.div (hb2.add_const p) (by positivity)
  · intro a b y r hy hr ha hb
    simp only [ggd, gauss]
    have e : 1 / r ^ (2 / p) = 1 / ((2 : ℝ) / 2 * floor 1 * r ^ ((2 : ℝ) / p)) := by rw [h1]; norm_num
    rw [e]
    have hw : Tendsto (fun i => a i ^ (2 - i)) (𝓝[<] 2) (𝓝 1) := by
      have := ha.rpow (tendsto_const_nhds (x := (2 : ℝ)).sub hb2) (.inl hy.ne')
      simpa using this
    refine tendsto_const_nhds.div (Tendsto.mul (Tendsto.mul (tendsto_const_nhds.div hb2 two_ne_zero)
      (hc.tendsto.comp hw)) (hb.rpow (hb2.div_const p) (.inl hr.ne'))) ?_
    rw [h1]
    positivity
  · intro a b y r hr ha hb
    simp only [ggd, gauss]
    rw [← Real.rpow_two y]
    exact ((ha.rpow hb2 (.inr two_pos)).div (hb.rpow (hb2.div_const p) (.inl hr.ne')) (Real.rpow_pos_of_pos hr _).ne').add
      ((hb.log hr.ne').const_mul _)

/-! ## The property -/

theorem regular_true {σ : Type} (step : σ → Except PyErr σ) {Reg : σ → Prop} (h : ∀ s, Reg s) (k : ℕ) :
    ∀ s, RegularRun step Reg k s := by
  induction k with
  | zero => exact fun _ => trivial
  | succ k ih => exact fun s => ⟨h s, fun s' _ => ih s'⟩

theorem floorOk_pos {floor : ℝ → ℝ} (hf : ∀ x, 0 ≤ x → 0 < floor x) (hc : ContinuousOn floor (Set.Ici 0)) (h0 : ContinuousAt floor 0)
    (ok : ℝ → Prop) : FloorOk floor ok :=
  ⟨fun x hx => hf x hx.le, fun x hx => (hc x hx.le).continuousAt (Ici_mem_nhds hx), .inl ⟨hf 0 le_rfl, h0⟩⟩

theorem floorOk_id : FloorOk id fun y => 0 < y := ⟨fun _ h => h, fun _ _ => continuousAt_id, .inr fun _ h => h⟩

section

variable [Nonempty F] [Nonempty (Fin t)] [Nonempty (Fin K)] (np : Numpy ℂ) {p : ℝ} (hp : 0 < p) {floor : ℝ → ℝ} {norm : Norm n}
  (hn : norm.Plain) {sr : ScaleOpt} (hsr : FlooredCall.Known sr) (r : Fin n) {X : Spec F n t}
  (hX : ∀ f, LinearIndependent ℂ (X f).row) (n_iter : ℕ) (ic : Bool) (draw : Draw F n t K) (kw : Kw F n t K)
  (o : IlrmaCall.Obj F n t K) (hW : Attr.Has (fun W => ∀ f, IsUnit (W f).det) (override kw.demix o.demix))
  (hT : Attr.Has (fun T => ∀ k f b, 0 < T k f b) (override kw.basis o.basis))
  (hV : Attr.Has (fun V => ∀ k b j, 0 < V k b j) (override kw.activation o.activation))

section

variable (hf : ∀ x, 0 ≤ x → 0 < floor x) (hc : Continuous floor) (hdT : ∀ k f b, 0 ≤ draw.T k f b)
  (hdV : ∀ k b j, 0 ≤ draw.V k b j)

include hn hsr hX hW hT hV hf hc hdT hdV

include hp in
/-- C100: with a positive continuous flooring function (`max_flooring`, `add_flooring`), as `dof` grows a call of `TILRMA` with
IP1 leaves in the limit exactly what a call of `GaussILRMA` on the same recording, from the same random numbers, with the same
`n_iter`, `domain`, normalisation and scale restoration leaves: filters, outputs, bases, activations, recorded losses. -/
theorem C100_student : ObjLim X atTop (fun nu => call np (student p nu) p .ip1 norm floor sr r draw X n_iter ic kw o)
    (call np (gauss p) p .ip1 norm floor sr r draw X n_iter ic kw o) :=
  call_lim np p (floorOk_pos hf hc.continuousOn hc.continuousAt fun _ => True) (student_srcLim hp floor _) hn hsr r hX n_iter ic
    draw (fun k f b => hf _ (hdT k f b)) (fun k b j => hf _ (hdV k b j)) kw o hW hT hV
    fun s0 _ => regular_true _ (fun _ _ _ _ => trivial) n_iter s0

/-- C100 with `source_algorithm="ME"`. -/
theorem C100_student_me : ObjLim X atTop (fun nu => call np (studentME nu) 2 .ip1 norm floor sr r draw X n_iter ic kw o)
    (call np gaussME 2 .ip1 norm floor sr r draw X n_iter ic kw o) :=
  call_lim np 2 (floorOk_pos hf hc.continuousOn hc.continuousAt fun _ => True) (studentME_srcLim floor _) hn hsr r hX n_iter ic
    draw (fun k f b => hf _ (hdT k f b)) (fun k b j => hf _ (hdV k b j)) kw o hW hT hV
    fun s0 _ => regular_true _ (fun _ _ _ _ => trivial) n_iter s0

include hp in
/-- C100 with ISS1. -/
theorem C100_student_iss1 :
    ObjYLim atTop (fun nu => callSignal np (student p nu) p .iss1 norm floor sr r draw X n_iter ic kw o)
      (callSignal np (gauss p) p .iss1 norm floor sr r draw X n_iter ic kw o) :=
  callSignal_lim np p (floorOk_pos hf hc.continuousOn hc.continuousAt fun _ => True) (student_srcLim hp floor _) hn hsr r hX n_iter
    ic draw (fun k f b => hf _ (hdT k f b)) (fun k b j => hf _ (hdV k b j)) kw o hW hT hV
    fun s0 _ => regular_true _ (fun _ _ _ _ => trivial) n_iter s0

end

variable (hf : FloorOk floor fun y => 0 < y) (h1 : floor 1 = 1) (hdT : ∀ k f b, 0 < floor (draw.T k f b))
  (hdV : ∀ k b j, 0 < floor (draw.V k b j))

include hn hsr hX hW hT hV hf h1 hdT hdV hp

/-- C100 for `GGDILRMA` with IP1: as `beta` approaches two from below (`beta=2` itself is refused by the constructor) a call
leaves in the limit what `GaussILRMA` leaves, provided no separated entry is exactly zero during the run of `GaussILRMA`. The
flooring function leaves one unchanged, as `max_flooring` with the default threshold and `flooring_fn=None` do. -/
theorem C100_ggd (hreg : ∀ s0, resetFilter .ip1 floor draw X kw o = .ok s0 →
      RegularRun (updateOnce np (gauss p) p .ip1 norm floor X) (fun s => ∀ f k j, 0 < ‖separate X s.W f k j‖) n_iter s0) :
    ObjLim X (𝓝[<] 2) (fun beta => call np (ggd p beta) p .ip1 norm floor sr r draw X n_iter ic kw o)
      (call np (gauss p) p .ip1 norm floor sr r draw X n_iter ic kw o) :=
  call_lim np p hf (ggd_srcLim hp h1 (hf.cont 1 one_pos)) hn hsr r hX n_iter ic draw hdT hdV kw o hW hT hV hreg

/-- C100 for `GGDILRMA` with ISS1. -/
theorem C100_ggd_iss1 (hreg : ∀ s0, resetSignal .iss1 floor draw X kw o = .ok s0 →
      RegularRun (updateOnceY np (gauss p) p .iss1 norm floor X) (fun s => ∀ f k j, 0 < ‖s.Y f k j‖) n_iter s0) :
    ObjYLim (𝓝[<] 2) (fun beta => callSignal np (ggd p beta) p .iss1 norm floor sr r draw X n_iter ic kw o)
      (callSignal np (gauss p) p .iss1 norm floor sr r draw X n_iter ic kw o) :=
  callSignal_lim np p hf (ggd_srcLim hp h1 (hf.cont 1 one_pos)) hn hsr r hX n_iter ic draw hdT hdV kw o hW hT hV hreg

/-- C100 for `TILRMA` without flooring (or with any admissible flooring): the same proviso. -/
theorem C100_student_unfloored (hreg : ∀ s0, resetFilter .ip1 floor draw X kw o = .ok s0 →
      RegularRun (updateOnce np (gauss p) p .ip1 norm floor X) (fun s => ∀ f k j, 0 < ‖separate X s.W f k j‖) n_iter s0) :
    ObjLim X atTop (fun nu => call np (student p nu) p .ip1 norm floor sr r draw X n_iter ic kw o)
      (call np (gauss p) p .ip1 norm floor sr r draw X n_iter ic kw o) :=
  call_lim np p hf (student_srcLim hp floor _) hn hsr r hX n_iter ic draw hdT hdV kw o hW hT hV hreg

end

/-- C100, why the proviso: an entry that is exactly zero gets from `GGDILRMA`, as `beta` approaches two, not the Gaussian weight
but the Gaussian weight divided by the floor of zero. -/
theorem C100_ggd_silent {p : ℝ} (floor : ℝ → ℝ) {r : ℝ} (hr : 0 < r) (h0 : 0 < floor 0) :
    Tendsto (fun beta => (ggd p beta).phi floor 0 r) (𝓝[<] 2) (𝓝 ((gauss p).phi floor 0 r / floor 0)) := by
  have hb2 : Tendsto (fun beta : ℝ => beta) (𝓝[<] 2) (𝓝 2) := tendsto_id.mono_left nhdsWithin_le_nhds
  simp only [ggd, gauss]
  have e : 1 / r ^ (2 / p) / floor 0 = 1 / ((2 : ℝ) / 2 * floor 0 * r ^ ((2 : ℝ) / p)) := by
    rw [div_div, div_self two_ne_zero, one_mul, mul_comm]
  rw [e]
  refine Tendsto.congr' (f₁ := fun beta => 1 / (2 / beta * floor 0 * r ^ (beta / p))) ?_ ?_
  · filter_upwards [self_mem_nhdsWithin] with beta hb
    rw [Real.zero_rpow (by simp only [Set.mem_Iio] at hb; linarith)]
  · refine tendsto_const_nhds.div (Tendsto.mul ((tendsto_const_nhds.div hb2 two_ne_zero).mul tendsto_const_nhds)
      (tendsto_const_nhds.rpow (hb2.div_const p) (.inl hr.ne'))) ?_
    positivity

/-! ## Examples -/

theorem max_flooring_ok (ok : ℝ → Prop) : FloorOk (Special.max_flooring (1 / 10 ^ 10)) ok :=
  floorOk_pos (fun x _ => FlooredCall.max_flooring_pos x) (by unfold Special.max_flooring; fun_prop)
    (by unfold Special.max_flooring; fun_prop) ok

/-- Three bins, two channels, the default flooring, random numbers some of which are zero, any number of iterations. -/
example (np : Numpy ℂ) (n_iter : ℕ) :
    ObjLim FlooredCall.exX atTop (fun nu => call np (student 2 nu) 2 .ip1 .power (Special.max_flooring (1 / 10 ^ 10)) (.bool true) 0
        (⟨fun _ _ _ => 0, fun _ _ _ => 1 / 2⟩ : Draw (Fin 3) 2 4 2) FlooredCall.exX n_iter true {} Obj.fresh)
      (call np (gauss 2) 2 .ip1 .power (Special.max_flooring (1 / 10 ^ 10)) (.bool true) 0
        (⟨fun _ _ _ => 0, fun _ _ _ => 1 / 2⟩ : Draw (Fin 3) 2 4 2) FlooredCall.exX n_iter true {} Obj.fresh) :=
  C100_student np two_pos (norm := .power) trivial (.inr (.inl (.inl rfl))) 0 FlooredCall.exX_indep n_iter true _ {} Obj.fresh
    (.inl rfl) (.inl rfl) (.inl rfl) (fun x _ => FlooredCall.max_flooring_pos x) (by unfold Special.max_flooring; fun_prop)
    (fun _ _ _ => le_rfl) fun _ _ _ => by norm_num

/-- Two channels, one iteration of `GGDILRMA` without flooring: no entry of the recording is zero. -/
example (np : Numpy ℂ) :
    ObjLim (fun _ : Unit => (!![1, 2; 2, 1] : Matrix (Fin 2) (Fin 2) ℂ)) (𝓝[<] 2)
      (fun beta => call np (ggd 2 beta) 2 .ip1 .power id (.bool false) 0
        (⟨fun _ _ _ => 1, fun _ _ _ => 1 / 2⟩ : Draw Unit 2 2 1) (fun _ => !![1, 2; 2, 1]) 1 true {} Obj.fresh)
      (call np (gauss 2) 2 .ip1 .power id (.bool false) 0
        (⟨fun _ _ _ => 1, fun _ _ _ => 1 / 2⟩ : Draw Unit 2 2 1) (fun _ => !![1, 2; 2, 1]) 1 true {} Obj.fresh) := by
  have hdet : IsUnit (!![1, 2; 2, 1] : Matrix (Fin 2) (Fin 2) ℂ) := by
    rw [isUnit_iff_isUnit_det, det_fin_two, isUnit_iff_ne_zero]
    norm_num
  refine C100_ggd np two_pos (norm := .power) trivial (.inl (.inl rfl)) 0 (fun _ => (linearIndependent_rows_iff_isUnit).mpr hdet)
    1 true _ {} Obj.fresh (.inl rfl) (.inl rfl) (.inl rfl) floorOk_id rfl (fun _ _ _ => by simp) (fun _ _ _ => by simp)
    fun s0 hs0 => ⟨fun f k j => ?_, fun _ _ => trivial⟩
  have e := Except.ok.inj hs0
  rw [← e]
  fin_cases k <;> fin_cases j <;> simp [separate]

/-- One channel, any number of iterations of `GGDILRMA` with the default flooring: an invertible filter leaves no entry zero. -/
example (np : Numpy ℂ) (n_iter : ℕ) :
    ObjLim (fun _ : Unit => (!![1, 2] : Matrix (Fin 1) (Fin 2) ℂ)) (𝓝[<] 2)
      (fun beta => call np (ggd 2 beta) 2 .ip1 .power (Special.max_flooring (1 / 10 ^ 10)) (.bool false) 0
        (⟨fun _ _ _ => 1, fun _ _ _ => 1 / 2⟩ : Draw Unit 1 2 1) (fun _ => !![1, 2]) n_iter true {} Obj.fresh)
      (call np (gauss 2) 2 .ip1 .power (Special.max_flooring (1 / 10 ^ 10)) (.bool false) 0
        (⟨fun _ _ _ => 1, fun _ _ _ => 1 / 2⟩ : Draw Unit 1 2 1) (fun _ => !![1, 2]) n_iter true {} Obj.fresh) := by
  have hind : ∀ _ : Unit, LinearIndependent ℂ (!![1, 2] : Matrix (Fin 1) (Fin 2) ℂ).row := fun _ => by
    refine LinearIndependent.of_subsingleton 0 fun h => ?_
    have := congrFun h 0
    simp [Matrix.row] at this
  have key : ∀ (k : ℕ) (s : St Unit 1 2 1), Inv s → RegularRun (updateOnce np (gauss 2) 2 .ip1 .power
      (Special.max_flooring (1 / 10 ^ 10)) fun _ : Unit => (!![1, 2] : Matrix (Fin 1) (Fin 2) ℂ))
      (fun s => ∀ f k j, 0 < ‖separate (fun _ : Unit => (!![1, 2] : Matrix (Fin 1) (Fin 2) ℂ)) s.W f k j‖) k s := by
    intro k
    induction k with
    | zero => exact fun _ _ => trivial
    | succ k ih =>
      refine fun s hs => ⟨fun f c j => ?_, fun s' h => ih s' ?_⟩
      · have h1 := (hs.1 f).ne_zero
        rw [det_fin_one] at h1
        rw [norm_pos_iff]
        fin_cases c
        fin_cases j <;> simp [separate, mul_apply, h1]
      · obtain ⟨q, h1, h2⟩ := FlooredCall.updateOnce_inv (np := np) (p := 2) (.gauss two_pos) (alg := .ip1) trivial
          (norm := .power) trivial (fun x _ => FlooredCall.max_flooring_pos x) hind s hs
        rw [h] at h1
        exact Except.ok.inj h1 ▸ h2
  refine C100_ggd np two_pos (norm := .power) trivial (.inl (.inl rfl)) 0 hind n_iter true _ {} Obj.fresh (.inl rfl) (.inl rfl)
    (.inl rfl) (max_flooring_ok _) (by norm_num [Special.max_flooring]) (fun _ _ _ => FlooredCall.max_flooring_pos _)
    (fun _ _ _ => FlooredCall.max_flooring_pos _) fun s0 hs0 => key n_iter s0 ?_
  rw [← Except.ok.inj hs0]
  exact ⟨fun _ => by simp, fun _ _ _ => FlooredCall.max_flooring_pos _, fun _ _ _ => FlooredCall.max_flooring_pos _⟩

end Verif.SourceLimit
