import Verif.Props.FlooredCall
import Verif.Props.LimitIlrma

/-!
# ILRMA runs under a converging family of source models
-/

set_option linter.unusedSectionVars false

namespace Verif.SourceLimit

open Matrix Spatial Scale Iva Filter Topology Ilrma Lifecycle IlrmaCall
open scoped ComplexOrder

variable {F : Type} [Fintype F] {n t K : ℕ} {α : Type} {l : Filter α}

/-- What is asked of the flooring function: positive and continuous at positive numbers, and at zero as well unless the
admitted amplitudes are positive. -/
structure FloorOk (floor : ℝ → ℝ) (ok : ℝ → Prop) : Prop where
  pos : ∀ x, 0 < x → 0 < floor x
  cont : ∀ x, 0 < x → ContinuousAt floor x
  zero : (0 < floor 0 ∧ ContinuousAt floor 0) ∨ ∀ y, ok y → 0 < y

/-- The source models `src i` converge to `src'` at amplitudes that satisfy `ok`. -/
structure SrcLim (src : α → Source) (src' : Source) (floor : ℝ → ℝ) (ok : ℝ → Prop) (l : Filter α) : Prop where
  num_nonneg : ∀ y r, 0 < r → 0 ≤ src'.num y r
  num_pos : ∀ y r, 0 < y → 0 < r → 0 < src'.num y r
  num : ∀ {a b : α → ℝ} {y r : ℝ}, ok y → 0 < r → Tendsto a l (𝓝 y) → Tendsto b l (𝓝 r) →
    Tendsto (fun i => (src i).num (a i) (b i)) l (𝓝 (src'.num y r))
  expo_pos : 0 < src'.expo
  expo : Tendsto (fun i => (src i).expo) l (𝓝 src'.expo)
  phi_pos : ∀ y r, 0 < r → 0 < src'.phi floor y r
  phi : ∀ {a b : α → ℝ} {y r : ℝ}, ok y → 0 < r → Tendsto a l (𝓝 y) → Tendsto b l (𝓝 r) →
    Tendsto (fun i => (src i).phi floor (a i) (b i)) l (𝓝 (src'.phi floor y r))
  ell : ∀ {a b : α → ℝ} {y r : ℝ}, 0 < r → Tendsto a l (𝓝 y) → Tendsto b l (𝓝 r) →
    Tendsto (fun i => (src i).ell (a i) (b i)) l (𝓝 (src'.ell y r))

theorem floor_lim {floor : ℝ → ℝ} {ok : ℝ → Prop} (hf : FloorOk floor ok) {x : α → ℝ} {x' : ℝ} (hx : Tendsto x l (𝓝 x'))
    (h0 : 0 ≤ x') (h : (∀ y, ok y → 0 < y) → 0 < x') :
    Tendsto (fun i => floor (x i)) l (𝓝 (floor x')) ∧ 0 < floor x' := by
  rcases h0.lt_or_eq with h1 | h1
  · exact ⟨(hf.cont _ h1).tendsto.comp hx, hf.pos _ h1⟩
  · rcases hf.zero with h2 | h2
    · subst h1
      exact ⟨h2.2.tendsto.comp hx, h2.1⟩
    · exact absurd h1 (h h2).ne

section

variable {src : α → Source} {src' : Source} {floor : ℝ → ℝ} {ok : ℝ → Prop} (hf : FloorOk floor ok)
  (hs : SrcLim src src' floor ok l) {Y : α → Spec F n t} {Y' : Spec F n t}
  (hY : ∀ f, Tendsto (fun i => Y i f) l (𝓝 (Y' f))) (hok : ∀ f k j, ok ‖Y' f k j‖)
  {T : α → Fin n → F → Fin K → ℝ} {T' : Fin n → F → Fin K → ℝ} {V : α → Fin n → Fin K → Fin t → ℝ}
  {V' : Fin n → Fin K → Fin t → ℝ} (hT : ∀ k f b, Tendsto (fun i => T i k f b) l (𝓝 (T' k f b)))
  (hV : ∀ k b j, Tendsto (fun i => V i k b j) l (𝓝 (V' k b j))) (hT0 : ∀ k f b, 0 < T' k f b)
  (hV0 : ∀ k b j, 0 < V' k b j)

include hs hY hok hT hV hT0 hV0

theorem phi_lim [Nonempty (Fin K)] (f : F) (k : Fin n) (j : Fin t) :
    Tendsto (fun i => varphi (src i) floor (Y i) (recon (T i) (V i)) f k j) l
      (𝓝 (varphi src' floor Y' (recon T' V') f k j)) ∧ 0 < varphi src' floor Y' (recon T' V') f k j :=
  ⟨hs.phi (hok f k j) (recon_pos hT0 hV0 k f j) (tendsto_matrix.1 (hY f) k j).norm (tendsto_recon hT hV k f j),
    hs.phi_pos _ _ (recon_pos hT0 hV0 k f j)⟩

include hf

theorem basis_lim [Nonempty (Fin K)] [Nonempty (Fin t)] (k : Fin n) (f : F) (b : Fin K) :
    Tendsto (fun i => updateBasis (src i) floor (Y i) (T i) (V i) k f b) l (𝓝 (updateBasis src' floor Y' T' V' k f b)) ∧
      0 < updateBasis src' floor Y' T' V' k f b := by
  have hR := recon_pos hT0 hV0
  have hden : 0 < ∑ j, V' k b j / recon T' V' k f j :=
    Finset.sum_pos (fun j _ => div_pos (hV0 k b j) (hR k f j)) Finset.univ_nonempty
  have hnn : 0 ≤ ∑ j, V' k b j * src'.num ‖Y' f k j‖ (recon T' V' k f j) :=
    Finset.sum_nonneg fun j _ => mul_nonneg (hV0 k b j).le (hs.num_nonneg _ _ (hR k f j))
  refine floor_lim hf ?_ (mul_nonneg (Real.rpow_nonneg (div_nonneg hnn hden.le) _) (hT0 k f b).le) fun hp => ?_
  · refine Tendsto.mul (Tendsto.rpow (Tendsto.div ?_ ?_ hden.ne') hs.expo (.inr hs.expo_pos)) (hT k f b)
    · exact tendsto_finsetSum _ fun j _ => (hV k b j).mul
        (hs.num (hok f k j) (hR k f j) (tendsto_matrix.1 (hY f) k j).norm (tendsto_recon hT hV k f j))
    · exact tendsto_finsetSum _ fun j _ => (hV k b j).div (tendsto_recon hT hV k f j) (hR k f j).ne'
  · refine mul_pos (Real.rpow_pos_of_pos (div_pos ?_ hden) _) (hT0 k f b)
    exact Finset.sum_pos (fun j _ => mul_pos (hV0 k b j) (hs.num_pos _ _ (hp _ (hok f k j)) (hR k f j)))
      Finset.univ_nonempty

theorem activation_lim [Nonempty (Fin K)] [Nonempty F] (k : Fin n) (b : Fin K) (j : Fin t) :
    Tendsto (fun i => updateActivation (src i) floor (Y i) (T i) (V i) k b j) l
        (𝓝 (updateActivation src' floor Y' T' V' k b j)) ∧
      0 < updateActivation src' floor Y' T' V' k b j := by
  have hR := recon_pos hT0 hV0
  have hden : 0 < ∑ f, T' k f b / recon T' V' k f j :=
    Finset.sum_pos (fun f _ => div_pos (hT0 k f b) (hR k f j)) Finset.univ_nonempty
  have hnn : 0 ≤ ∑ f, T' k f b * src'.num ‖Y' f k j‖ (recon T' V' k f j) :=
    Finset.sum_nonneg fun f _ => mul_nonneg (hT0 k f b).le (hs.num_nonneg _ _ (hR k f j))
  refine floor_lim hf ?_ (mul_nonneg (Real.rpow_nonneg (div_nonneg hnn hden.le) _) (hV0 k b j).le) fun hp => ?_
  · refine Tendsto.mul (Tendsto.rpow (Tendsto.div ?_ ?_ hden.ne') hs.expo (.inr hs.expo_pos)) (hV k b j)
    · exact tendsto_finsetSum _ fun f _ => (hT k f b).mul
        (hs.num (hok f k j) (hR k f j) (tendsto_matrix.1 (hY f) k j).norm (tendsto_recon hT hV k f j))
    · exact tendsto_finsetSum _ fun f _ => (hT k f b).div (tendsto_recon hT hV k f j) (hR k f j).ne'
  · refine mul_pos (Real.rpow_pos_of_pos (div_pos ?_ hden) _) (hV0 k b j)
    exact Finset.sum_pos (fun f _ => mul_pos (hT0 k f b) (hs.num_pos _ _ (hp _ (hok f k j)) (hR k f j)))
      Finset.univ_nonempty

end

/-- The losses converge. -/
theorem loss_lim [Nonempty (Fin K)] {src : α → Source} {src' : Source} {floor : ℝ → ℝ} {ok : ℝ → Prop}
    (hs : SrcLim src src' floor ok l) {Y : α → Spec F n t} {Y' : Spec F n t}
    (hY : ∀ f, Tendsto (fun i => Y i f) l (𝓝 (Y' f))) {T : α → Fin n → F → Fin K → ℝ} {T' : Fin n → F → Fin K → ℝ}
    {V : α → Fin n → Fin K → Fin t → ℝ} {V' : Fin n → Fin K → Fin t → ℝ}
    (hT : ∀ k f b, Tendsto (fun i => T i k f b) l (𝓝 (T' k f b)))
    (hV : ∀ k b j, Tendsto (fun i => V i k b j) l (𝓝 (V' k b j))) (hT0 : ∀ k f b, 0 < T' k f b)
    (hV0 : ∀ k b j, 0 < V' k b j) {W : α → F → Mat n ℂ} {W' : F → Mat n ℂ} (hW : Tendsto W l (𝓝 W'))
    (hu : ∀ f, IsUnit (W' f).det) :
    Tendsto (fun i => lossOf (src i) (Y i) (recon (T i) (V i)) (W i)) l (𝓝 (lossOf src' Y' (recon T' V') W')) := by
  refine tendsto_finsetSum _ fun f _ => Tendsto.sub (tendsto_finsetSum _ fun k _ => tendsto_meanT fun j => ?_)
    (tendsto_const_nhds.mul (tendsto_logdet hW hu f))
  exact hs.ell (recon_pos hT0 hV0 k f j) (tendsto_matrix.1 (hY f) k j).norm (tendsto_recon hT hV k f j)

/-! ## The spatial updates -/

/-- The value of `ip1Row`. -/
noncomputable def ip1RowF (floor : ℝ → ℝ) (U W : Mat n ℂ) (i : Fin n) : Mat n ℂ :=
  W.updateRow i fun j => star ((W * U)⁻¹ j i) / (floor (Real.sqrt (hUh U fun r => (W * U)⁻¹ r i)) : ℂ)

theorem mul_isUnit {U W : Mat n ℂ} (hU : U.PosDef) (hW : IsUnit W.det) : IsUnit (W * U).det := by
  rw [det_mul]
  exact hW.mul ((isUnit_iff_isUnit_det _).mp hU.isUnit)

theorem ip1RowF_eq (floor : ℝ → ℝ) {U : Fin n → Mat n ℂ} {W : Mat n ℂ} {i : Fin n} (hU : (U i).PosDef) (hW : IsUnit W.det) :
    ip1Row floor U W i = .ok (ip1RowF floor (U i) W i) := by
  have hu := mul_isUnit hU hW
  have h : solveVec (W * U i) (Pi.single i 1) = .ok fun r => (W * U i)⁻¹ r i := by
    rw [solveVec, npSolve, if_pos hu]
    show Except.ok _ = _
    congr 1
    funext r
    simp [mul_apply, Pi.single_apply]
  rw [ip1Row, h]
  rfl

theorem column_ne {U W : Mat n ℂ} (hu : IsUnit (W * U).det) (i : Fin n) : (fun r => (W * U)⁻¹ r i) ≠ 0 := by
  intro h0
  have : (((W * U) * (W * U)⁻¹ : Mat n ℂ)) i i = 0 := by
    rw [mul_apply]
    exact Finset.sum_eq_zero fun r _ => by rw [show (W * U)⁻¹ r i = 0 from congrFun h0 r, mul_zero]
  rw [mul_nonsing_inv _ hu, one_apply_eq] at this
  exact one_ne_zero this

/-- A floored row is the unfloored one, rescaled. -/
theorem ip1RowF_isUnit {floor : ℝ → ℝ} (hf : ∀ x, 0 < x → 0 < floor x) {U : Fin n → Mat n ℂ} {W : Mat n ℂ} (i : Fin n)
    (hU : (U i).PosDef) (hW : IsUnit W.det) : IsUnit (ip1RowF floor (U i) W i).det := by
  have hu := mul_isUnit hU hW
  have hpos := Real.sqrt_pos.2 (hUh_pos hU (column_ne hu i))
  obtain ⟨V, h1, h2, -⟩ := ip1Row_strict i hU hW
  rw [ip1RowF_eq id hU hW] at h1
  rw [← Except.ok.inj h1] at h2
  obtain ⟨a, ha⟩ : ∃ a, a = Real.sqrt (hUh (U i) fun r => (W * U i)⁻¹ r i) := ⟨_, rfl⟩
  rw [← ha] at hpos
  have e : ip1RowF floor (U i) W i = (ip1RowF id (U i) W i).updateRow i
      (((a / floor a : ℝ) : ℂ) • fun j => star ((W * U i)⁻¹ j i) / (a : ℂ)) := by
    rw [ip1RowF, ip1RowF, ← ha, updateRow_idem]
    congr 1
    funext j
    have h1 : (a : ℂ) ≠ 0 := by exact_mod_cast hpos.ne'
    simp only [Pi.smul_apply, smul_eq_mul]
    push_cast
    field_simp
  rw [e, det_updateRow_smul, show (fun j => star ((W * U i)⁻¹ j i) / (a : ℂ)) = ip1RowF id (U i) W i i by
    rw [ip1RowF, updateRow_self, ← ha]; rfl, updateRow_eq_self]
  refine (isUnit_iff_ne_zero.mpr ?_).mul h2
  exact_mod_cast (div_pos hpos (hf a hpos)).ne'

theorem ip1RowF_tendsto {floor : ℝ → ℝ} (hf : ∀ x, 0 < x → 0 < floor x) (hc : ∀ x, 0 < x → ContinuousAt floor x)
    {U W : α → Mat n ℂ} {U' W' : Mat n ℂ} (hU : Tendsto U l (𝓝 U')) (hW : Tendsto W l (𝓝 W'))
    (hU' : U'.PosDef) (hW' : IsUnit W'.det) (i : Fin n) :
    Tendsto (fun a => ip1RowF floor (U a) (W a) i) l (𝓝 (ip1RowF floor U' W' i)) := by
  have hu := mul_isUnit hU' hW'
  have hinv := tendsto_matrix.1 (tendsto_inv (tendsto_matrix_mul hW hU) hu)
  have hq : Tendsto (fun a => hUh (U a) fun r => (W a * U a)⁻¹ r i) l (𝓝 (hUh U' fun r => (W' * U')⁻¹ r i)) := by
    refine Tendsto.max ?_ tendsto_const_nhds
    refine (Complex.continuous_re.tendsto _).comp ?_
    refine tendsto_finsetSum _ fun r _ => Tendsto.mul ((continuous_star.tendsto _).comp (hinv r i)) ?_
    simp only [mulVec, dotProduct]
    exact tendsto_finsetSum _ fun s _ => (tendsto_matrix.1 hU r s).mul (hinv s i)
  have hpos := Real.sqrt_pos.2 (hUh_pos hU' (column_ne hu i))
  rw [tendsto_matrix]
  intro r j
  by_cases hr : r = i
  · subst hr
    simp only [ip1RowF, updateRow_self]
    refine ((continuous_star.tendsto _).comp (hinv j r)).div
      (tendsto_ofReal ((hc _ hpos).tendsto.comp hq.sqrt)) ?_
    exact_mod_cast (hf _ hpos).ne'
  · simp only [ip1RowF, updateRow_ne hr]
    exact tendsto_matrix.1 hW r j

theorem eventually_isUnit {W : α → Mat n ℂ} {W' : Mat n ℂ} (hW : Tendsto W l (𝓝 W')) (hu : IsUnit W'.det) :
    ∀ᶠ a in l, IsUnit (W a).det :=
  ((tendsto_det hW).eventually_ne hu.ne_zero).mono fun _ h => isUnit_iff_ne_zero.2 h

theorem ip1Fold_lim {floor : ℝ → ℝ} (hf : ∀ x, 0 < x → 0 < floor x) (hc : ∀ x, 0 < x → ContinuousAt floor x)
    {U : α → Fin n → Mat n ℂ} {U' : Fin n → Mat n ℂ}
    (hU : ∀ k, Tendsto (fun a => U a k) l (𝓝 (U' k))) (hp : ∀ᶠ a in l, ∀ k, (U a k).PosDef) (hp' : ∀ k, (U' k).PosDef)
    (is : List (Fin n)) : ∀ {W : α → Mat n ℂ} {W' : Mat n ℂ}, Tendsto W l (𝓝 W') →
      IsUnit W'.det → ∃ V V', (∀ᶠ a in l, is.foldlM (ip1Row floor (U a)) (W a) = .ok (V a)) ∧
        is.foldlM (ip1Row floor U') W' = .ok V' ∧ Tendsto V l (𝓝 V') ∧ IsUnit V'.det := by
  induction is with
  | nil => exact fun {W W'} h hu => ⟨W, W', .of_forall fun _ => rfl, rfl, h, hu⟩
  | cons i is ih =>
    intro W W' hW hu'
    obtain ⟨V, V', h1, h2, h3⟩ := ih (ip1RowF_tendsto hf hc (hU i) hW (hp' i) hu' i) (ip1RowF_isUnit hf i (hp' i) hu')
    refine ⟨V, V', ?_, ?_, h3⟩
    · filter_upwards [h1, hp, eventually_isUnit hW hu'] with a ha hpa hua
      rw [List.foldlM_cons, ip1RowF_eq floor (hpa i) hua]
      exact ha
    · rw [List.foldlM_cons, ip1RowF_eq floor (hp' i) hu']
      exact h2

theorem ip1_lim {floor : ℝ → ℝ} (hf : ∀ x, 0 < x → 0 < floor x) (hc : ∀ x, 0 < x → ContinuousAt floor x)
    {phi : α → F → Fin n → Fin t → ℝ} {phi' : F → Fin n → Fin t → ℝ}
    (hphi : ∀ f k j, Tendsto (fun a => phi a f k j) l (𝓝 (phi' f k j))) (hp : ∀ f k j, 0 < phi' f k j)
    {X : Spec F n t} (hX : ∀ f, LinearIndependent ℂ (X f).row) {W : α → F → Mat n ℂ} {W' : F → Mat n ℂ}
    (hW : Tendsto W l (𝓝 W')) (hu : ∀ f, IsUnit (W' f).det) :
    ∃ V V', (∀ᶠ a in l, ip1Stack floor (fun f => wcov (phi a f) X f) (W a) = .ok (V a)) ∧
      ip1Stack floor (fun f => wcov (phi' f) X f) W' = .ok V' ∧ Tendsto V l (𝓝 V') ∧ ∀ f, IsUnit (V' f).det := by
  have hev : ∀ᶠ a in l, ∀ f k j, 0 < phi a f k j := by
    simp only [eventually_all]
    exact fun f k j => (hphi f k j).eventually_const_lt (hp f k j)
  have h := fun f => ip1Fold_lim hf hc (fun k => tendsto_wcov (hphi f) X f k)
    (hev.mono fun a ha k => wcov_posDef (ha f) hX f k) (fun k => wcov_posDef (hp f) hX f k) (List.finRange n)
    (tendsto_pi_nhds.1 hW f) (hu f)
  choose V V' h1 h2 h3 h4 using h
  refine ⟨fun a f => V f a, V', ?_, foldlM_onBins (fun f => ip1Row floor (wcov (phi' f) X f)) _ _ _ h2,
    tendsto_pi_nhds.2 h3, h4⟩
  filter_upwards [eventually_all.2 h1] with a ha
  exact foldlM_onBins (fun f => ip1Row floor (wcov (phi a f) X f)) _ _ _ ha

theorem iss1Row_lim {floor : ℝ → ℝ} (hf : ∀ x, 0 < x → 0 < floor x) (hc : ∀ x, 0 < x → ContinuousAt floor x)
    {phi : α → Fin n → Fin t → ℝ} {phi' : Fin n → Fin t → ℝ} {Y : α → Matrix (Fin n) (Fin t) ℂ}
    {Y' : Matrix (Fin n) (Fin t) ℂ} (hphi : ∀ k s, Tendsto (fun a => phi a k s) l (𝓝 (phi' k s)))
    (hY : Tendsto Y l (𝓝 Y')) (hp' : ∀ k s, 0 < phi' k s) (src : Fin n) (hne : Y' src ≠ 0) :
    Tendsto (fun a => iss1Row floor (phi a) (Y a) src) l (𝓝 (iss1Row floor phi' Y' src)) ∧
      ∃ T : Mat n ℂ, IsUnit T.det ∧ iss1Row floor phi' Y' src = T * Y' := by
  have hY' := tendsto_matrix.1 hY
  have hpos : ∀ k, 0 < meanT fun s => phi' k s * ‖Y' src s‖ ^ 2 := by
    intro k
    obtain ⟨s, hs⟩ := Function.ne_iff.1 hne
    have ht : (0 : ℝ) < t := by exact_mod_cast s.pos
    refine div_pos (Finset.sum_pos' (fun r _ => mul_nonneg (hp' k r).le (sq_nonneg _)) ⟨s, Finset.mem_univ _, ?_⟩) ht
    exact mul_pos (hp' k s) (pow_pos (norm_pos_iff.2 hs) 2)
  have hden : ∀ k, Tendsto (fun a => floor (meanT fun s => phi a k s * ‖Y a src s‖ ^ 2)) l
      (𝓝 (floor (meanT fun s => phi' k s * ‖Y' src s‖ ^ 2))) := fun k =>
    (hc _ (hpos k)).tendsto.comp (tendsto_meanT fun s => (hphi k s).mul ((hY' src s).norm.pow 2))
  refine ⟨?_, ?_⟩
  · rw [tendsto_matrix]
    intro k s
    simp only [iss1Row, of_apply]
    refine (hY' k s).sub (Tendsto.mul ?_ (hY' src s))
    by_cases hk : k = src
    · simp only [hk, if_true]
      refine tendsto_const_nhds.sub (tendsto_const_nhds.div (tendsto_ofReal (hden src).sqrt) ?_)
      exact_mod_cast (Real.sqrt_pos.2 (hf _ (hpos src))).ne'
    · simp only [hk, if_false]
      refine Tendsto.div (tendsto_meanT fun s => (tendsto_ofReal (hphi k s)).mul
        ((hY' k s).mul ((continuous_star.tendsto _).comp (hY' src s)))) (tendsto_ofReal (hden k)) ?_
      exact_mod_cast (hf _ (hpos k)).ne'
  · obtain ⟨T, h1, h2⟩ := iss1Row_floored (floor := fun x => if 0 < x then floor x else 1)
      (fun x _ => by
        by_cases h : 0 < x
        · simpa [h] using hf x h
        · simp [h]) hp' Y' src
    refine ⟨T, h1, ?_⟩
    rw [← h2]
    simp only [iss1Row, if_pos (hpos _)]

theorem iss1_lim {floor : ℝ → ℝ} (hf : ∀ x, 0 < x → 0 < floor x) (hc : ∀ x, 0 < x → ContinuousAt floor x)
    {phi : α → Fin n → Fin t → ℝ} {phi' : Fin n → Fin t → ℝ}
    (hphi : ∀ k s, Tendsto (fun a => phi a k s) l (𝓝 (phi' k s))) (hp' : ∀ k s, 0 < phi' k s)
    {X : Matrix (Fin n) (Fin t) ℂ} (hX : LinearIndependent ℂ X.row) (is : List (Fin n)) :
    ∀ {Y : α → Matrix (Fin n) (Fin t) ℂ} {W' : Mat n ℂ}, Tendsto Y l (𝓝 (W' * X)) → IsUnit W'.det →
      Tendsto (fun a => is.foldl (iss1Row floor (phi a)) (Y a)) l (𝓝 (is.foldl (iss1Row floor phi') (W' * X))) ∧
      ∃ V' : Mat n ℂ, is.foldl (iss1Row floor phi') (W' * X) = V' * X ∧ IsUnit V'.det := by
  induction is with
  | nil => exact fun {Y W'} h hW => ⟨h, W', rfl, hW⟩
  | cons i is ih =>
    intro Y W' hY hW'
    have hne := Spatial.row_ne_zero hX hW' i
    obtain ⟨h, T, hT, hr⟩ := iss1Row_lim hf hc hphi hY hp' i hne
    rw [hr, ← Matrix.mul_assoc] at h
    have := ih h (by rw [det_mul]; exact hT.mul hW')
    simp only [List.foldl_cons]
    rwa [hr, ← Matrix.mul_assoc]

end Verif.SourceLimit
