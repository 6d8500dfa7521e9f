import Verif.Props.Equivariance
import Verif.Props.Ipsdta

/-! # C71 for GaussIPSDTA and TIPSDTA

The covariances of `update_by_block_decomposition_vcd` belong to pairs of bins: mixing bin `i` by `A i` turns `R i j` into
`A i * R i j * (A j)ᴴ`. -/

set_option linter.unusedSectionVars false

namespace Verif

open Matrix Spatial Scale

variable {n t K : ℕ}

namespace Spatial

theorem solveVec_cong (A : Mat n ℂ) (hA : IsUnit A.det) (U : Mat n ℂ) (b : Fin n → ℂ) :
    solveVec (A * U * Aᴴ) (A *ᵥ b) = Except.map ((Aᴴ)⁻¹ *ᵥ ·) (solveVec U b) := by
  have hA' : IsUnit (Aᴴ).det := by rw [det_conjTranspose]; exact hA.star
  rw [solveVec, solveVec, npSolve, npSolve]
  by_cases h : IsUnit U.det
  · rw [if_pos h, if_pos]
    · simp only [Except.map, bind, Except.bind]
      congr 1
      funext i
      have e : (Matrix.of fun i (_ : Fin 1) => (A *ᵥ b) i) = A * (Matrix.of fun i (_ : Fin 1) => b i) := by
        ext i j; rfl
      have : (A * U * Aᴴ)⁻¹ * (A * (Matrix.of fun i (_ : Fin 1) => b i))
          = (Aᴴ)⁻¹ * (U⁻¹ * (Matrix.of fun i (_ : Fin 1) => b i)) := by
        rw [Matrix.mul_inv_rev, Matrix.mul_inv_rev, Matrix.mul_assoc, Matrix.mul_assoc, nonsing_inv_mul_cancel_left _ _ hA]
      exact congrFun (congrFun ((congrArg ((A * U * Aᴴ)⁻¹ * ·) e).trans this) i) 0
    · rw [det_mul, det_mul]; exact (hA.mul h).mul hA'
  · rw [if_neg h, if_neg]
    · rfl
    · rw [det_mul, det_mul]
      exact fun h' => h (isUnit_of_mul_isUnit_right (isUnit_of_mul_isUnit_left h'))

theorem bilinear_remix (A : Mat n ℂ) (hA : IsUnit A.det) (U : Mat n ℂ) (u v : Fin n → ℂ) :
    star ((Aᴴ)⁻¹ *ᵥ u) ⬝ᵥ ((A * U * Aᴴ) *ᵥ ((Aᴴ)⁻¹ *ᵥ v)) = star u ⬝ᵥ (U *ᵥ v) := by
  have hA' : IsUnit (Aᴴ).det := by rw [det_conjTranspose]; exact hA.star
  rw [star_mulVec_remix, mulVec_mulVec, mul_nonsing_inv_cancel_right _ _ hA', ← dotProduct_mulVec, mulVec_mulVec,
    nonsing_inv_mul_cancel_left _ _ hA]

/-- The filters of a block with the mixing undone. -/
theorem update_unmix {b : ℕ} (A W : Fin b → Mat n ℂ) (i : Fin b) (M : Mat n ℂ) :
    unmix A (Function.update W i M) = Function.update (unmix A W) i (M * (A i)⁻¹) := by
  funext j
  by_cases h : j = i
  · subst h; simp [unmix]
  · simp [unmix, h]

theorem vcdStep_remix {b : ℕ} (A : Fin b → Mat n ℂ) (hA : ∀ i, IsUnit (A i).det) (singular : ℂ → Prop)
    (R : Fin b → Fin b → Fin n → Mat n ℂ) (W : Fin b → Mat n ℂ) (ik : Fin b × Fin n) :
    vcdStep singular (fun i j k => A i * R i j k * (A j)ᴴ) (unmix A W) ik = Except.map (unmix A) (vcdStep singular R W ik) := by
  have hs : ∀ j, star (unmix A W j ik.2) = ((A j)ᴴ)⁻¹ *ᵥ star (W j ik.2) := by
    intro j
    have e : unmix A W j ik.2 = W j ik.2 ᵥ* (A j)⁻¹ := rfl
    rw [e, star_vecMul, conjTranspose_nonsing_inv]
  have hg : ∑ j, (1 - if j = ik.1 then 1 else 0 : ℂ) • ((A ik.1 * R ik.1 j ik.2 * (A j)ᴴ) *ᵥ star (unmix A W j ik.2))
      = A ik.1 *ᵥ ∑ j, (1 - if j = ik.1 then 1 else 0 : ℂ) • (R ik.1 j ik.2 *ᵥ star (W j ik.2)) := by
    rw [mulVec_sum]
    refine Finset.sum_congr rfl fun j _ => ?_
    have hA' : IsUnit ((A j)ᴴ).det := by rw [det_conjTranspose]; exact (hA j).star
    rw [hs, mulVec_smul, mulVec_mulVec, mul_nonsing_inv_cancel_right _ _ hA', mulVec_mulVec]
  rw [vcdStep, vcdStep]
  simp only [hg]
  rw [show unmix A W ik.1 = W ik.1 * (A ik.1)⁻¹ from rfl, solveVec_remix _ (hA ik.1), solveVec_cong _ (hA ik.1), bind_map, map_bind]
  congr 1
  funext eta
  rw [bind_map, map_bind]
  congr 1
  funext eta_hat
  simp only [Except.map, hUh_remix _ (hA ik.1), bilinear_remix _ (hA ik.1)]
  rw [← mulVec_smul, ← mulVec_sub, star_mulVec_remix, ← updateRow_unmix, update_unmix]

theorem vcd_remix {b : ℕ} (A : Fin b → Mat n ℂ) (hA : ∀ i, IsUnit (A i).det) (singular : ℂ → Prop)
    (R : Fin b → Fin b → Fin n → Mat n ℂ) (W : Fin b → Mat n ℂ) :
    vcd singular (fun i j k => A i * R i j k * (A j)ᴴ) (unmix A W) = Except.map (unmix A) (vcd singular R W) :=
  foldlM_map _ _ (unmix A) (fun W ik => vcdStep_remix A hA singular R W ik) _ W

end Spatial

namespace Ipsdta

section blocks
variable {ι : Type} [Fintype ι] {sz : ι → ℕ}

theorem onBlocks_map {α α' : ι → Type} (g : (β : ι) → Except PyErr (α β)) (e : (β : ι) → α β → α' β) :
    onBlocks (fun β => Except.map (e β) (g β)) = Except.map (fun y β => e β (y β)) (onBlocks g) := by
  by_cases h : ∀ β, ∃ y, g β = .ok y
  · choose y hy using h
    rw [onBlocks_ok hy]
    exact onBlocks_ok fun β => by rw [hy β]; rfl
  · rw [onBlocks, onBlocks, dif_neg h, dif_neg]
    · rfl
    · intro h'
      apply h
      intro β
      obtain ⟨y, hy⟩ := h' β
      cases hg : g β with
      | ok z => exact ⟨z, rfl⟩
      | error => rw [hg] at hy; cases hy

theorem rxx_remix (A : (β : ι) → Fin (sz β) → Mat n ℂ) (w : Fin n → Fin t → ℝ) (R : Fin n → Fin t → (β : ι) → Mat (sz β) ℂ)
    (X : (β : ι) → Fin (sz β) → Matrix (Fin n) (Fin t) ℂ) (β : ι) (i i' : Fin (sz β)) (k : Fin n) :
    rxx w R (fun β => remix (A β) (X β)) β i i' k = A β i * rxx w R X β i i' k * (A β i')ᴴ := by
  have key : ∀ Y : (β : ι) → Fin (sz β) → Matrix (Fin n) (Fin t) ℂ, rxx w R Y β i i' k
      = (t : ℂ)⁻¹ • (Y β i * diagonal (fun j => (w k j : ℂ) * R k j β i' i) * (Y β i')ᴴ) := by
    intro Y
    ext c c'
    rw [Matrix.smul_apply, Matrix.mul_apply]
    simp only [rxx, Matrix.of_apply, meanT, smul_eq_mul, mul_diagonal, conjTranspose_apply, RCLike.star_def]
    rw [div_eq_inv_mul]
    congr 1
    exact Finset.sum_congr rfl fun s _ => by ring
  rw [key, key, remix, remix, conjTranspose_mul]
  simp only [Matrix.mul_smul, Matrix.smul_mul, Matrix.mul_assoc]

theorem spatialVcd_remix (A : (β : ι) → Fin (sz β) → Mat n ℂ) (hA : ∀ β i, IsUnit (A β i).det) (floor : ℝ → ℝ)
    (w : Fin n → Fin t → ℝ) (R : Fin n → Fin t → (β : ι) → Mat (sz β) ℂ)
    (X : (β : ι) → Fin (sz β) → Matrix (Fin n) (Fin t) ℂ) (W : (β : ι) → Fin (sz β) → Mat n ℂ) :
    spatialVcd floor w R (fun β => remix (A β) (X β)) (fun β => unmix (A β) (W β))
      = (spatialVcd floor w R X W).map fun W β => unmix (A β) (W β) := by
  rw [spatialVcd, spatialVcd, ← onBlocks_map]
  congr 1
  funext β
  rw [← vcd_remix (A β) (hA β)]
  congr 1
  funext i i' k
  exact rxx_remix A w R X β i i' k

end blocks

variable {N B : ℕ}

/-- A state of IPSDTA with the mixing undone in its demixing filters. -/
noncomputable def St.unmix (A : Fin N → Mat n ℂ) (s : St N B n t K) : St N B n t K := ⟨s.T, s.V, Spatial.unmix A s.W⟩

theorem split_remix (A : Fin N → Mat n ℂ) (X : Spec (Fin N) n t) :
    splitBlocks B (remix A X) = (splitBlocks B X).map fun Xb β => remix (onBlk A β) (Xb β) := by
  by_cases hB : B = 0
  · subst hB
    rw [C53_no_blocks, C53_no_blocks]
    rfl
  · rw [splitBlocks_eq hB, splitBlocks_eq hB]
    rfl

theorem split_unmix (A : Fin N → Mat n ℂ) (W : Fin N → Mat n ℂ) :
    splitBlocks B (Spatial.unmix A W) = (splitBlocks B W).map fun Wb β => Spatial.unmix (onBlk A β) (Wb β) := by
  by_cases hB : B = 0
  · subst hB
    rw [C53_no_blocks, C53_no_blocks]
    rfl
  · rw [splitBlocks_eq hB, splitBlocks_eq hB]
    rfl

theorem join_unmix (A : Fin N → Mat n ℂ) (W : (β : Blk N B) → Fin (bsize N B β) → Mat n ℂ) :
    joinBlocks (fun β => Spatial.unmix (onBlk A β) (W β)) = Spatial.unmix A (joinBlocks W) := by
  funext f
  obtain ⟨β, i, rfl⟩ := binOf_exists (n_blocks := B) f
  rw [joinBlocks_binOf, Spatial.unmix, Spatial.unmix, joinBlocks_binOf]
  rfl

/-- C71 for GaussIPSDTA. -/
theorem C71_gauss (A : Fin N → Mat n ℂ) (hA : ∀ f, IsUnit (A f).det) (np : Numpy ℂ) (normalization : Bool) (floor : ℝ → ℝ)
    (X : Spec (Fin N) n t) (s : St N B n t K) (n_iter : ℕ) :
    iterM (gaussUpdate np normalization floor (remix A X)) n_iter (s.unmix A)
      = Except.map (St.unmix A) (iterM (gaussUpdate np normalization floor X) n_iter s) := by
  refine iterM_map _ _ (St.unmix A) (fun s => ?_) n_iter s
  rw [gaussUpdate, gaussUpdate, show (s.unmix A).W = Spatial.unmix A s.W from rfl, separate_remix A hA, map_bind]
  congr 1
  funext Y
  rw [map_bind]
  congr 1
  funext T
  rw [map_bind]
  congr 1
  funext V
  have key : ∀ (T : Fin n → Fin K → (β : Blk N B) → Mat (bsize N B β) ℂ) (V : Fin n → Fin K → Fin t → ℝ),
      ((splitBlocks B (remix A X) >>= fun Xb => splitBlocks B (Spatial.unmix A s.W) >>= fun Wb =>
        covInv np T V >>= fun R => spatialVcd floor (fun _ _ => 1) R Xb Wb >>= fun W =>
          .ok ⟨T, V, joinBlocks W⟩ : Except PyErr (St N B n t K)))
      = Except.map (St.unmix A) (splitBlocks B X >>= fun Xb => splitBlocks B s.W >>= fun Wb =>
        covInv np T V >>= fun R => spatialVcd floor (fun _ _ => 1) R Xb Wb >>= fun W => .ok ⟨T, V, joinBlocks W⟩) := by
    intro T V
    rw [split_remix, bind_map, map_bind]
    congr 1
    funext Xb
    rw [split_unmix, bind_map, map_bind]
    congr 1
    funext Wb
    rw [map_bind]
    congr 1
    funext R
    rw [spatialVcd_remix (fun β => onBlk A β) (fun β i => hA _), bind_map, map_bind]
    congr 1
    funext W
    rw [join_unmix]
    rfl
  cases normalization with
  | false => exact key T V
  | true => exact key (normalize T V).1 (normalize T V).2

/-- C71: what the user of GaussIPSDTA sees after a run that does not raise. -/
theorem C71_gauss_outcome (A : Fin N → Mat n ℂ) (hA : ∀ f, IsUnit (A f).det) (np : Numpy ℂ) (normalization : Bool)
    (floor : ℝ → ℝ) (X : Spec (Fin N) n t) (s s1 : St N B n t K) (n_iter : ℕ)
    (h : iterM (gaussUpdate np normalization floor X) n_iter s = .ok s1) :
    ∃ s2, iterM (gaussUpdate np normalization floor fun f => A f * X f) n_iter ⟨s.T, s.V, fun f => s.W f * (A f)⁻¹⟩ = .ok s2 ∧
      separate (fun f => A f * X f) s2.W = separate X s1.W ∧ s2.T = s1.T ∧ s2.V = s1.V :=
  ⟨s1.unmix A, (C71_gauss A hA np normalization floor X s n_iter).trans (by rw [h]; rfl), separate_remix A hA X s1.W, rfl, rfl⟩

/-- C71 for TIPSDTA. -/
theorem C71_t (A : Fin N → Mat n ℂ) (hA : ∀ f, IsUnit (A f).det) (np : Numpy ℂ) (normalization : Bool) (floor : ℝ → ℝ) (nu : ℝ)
    (X : Spec (Fin N) n t) (s : St N B n t K) (n_iter : ℕ) :
    iterM (tUpdate np normalization floor nu (remix A X)) n_iter (s.unmix A)
      = Except.map (St.unmix A) (iterM (tUpdate np normalization floor nu X) n_iter s) := by
  refine iterM_map _ _ (St.unmix A) (fun s => ?_) n_iter s
  rw [tUpdate, tUpdate, show (s.unmix A).W = Spatial.unmix A s.W from rfl, separate_remix A hA, map_bind]
  congr 1
  funext Y
  rw [map_bind]
  congr 1
  funext R
  rw [map_bind]
  congr 1
  funext T
  rw [map_bind]
  congr 1
  funext R
  rw [map_bind]
  congr 1
  funext V
  have key : ∀ (T : Fin n → Fin K → (β : Blk N B) → Mat (bsize N B β) ℂ) (V : Fin n → Fin K → Fin t → ℝ),
      ((splitBlocks B (remix A X) >>= fun Xb => splitBlocks B (Spatial.unmix A s.W) >>= fun Wb =>
        covInv np T V >>= fun R =>
          spatialVcd floor (fun k j => tWeight nu N (yry (fun β i => Wb β i * Xb β i) R k j)) R Xb Wb >>= fun W =>
          .ok ⟨T, V, joinBlocks W⟩ : Except PyErr (St N B n t K)))
      = Except.map (St.unmix A) (splitBlocks B X >>= fun Xb => splitBlocks B s.W >>= fun Wb =>
        covInv np T V >>= fun R =>
          spatialVcd floor (fun k j => tWeight nu N (yry (fun β i => Wb β i * Xb β i) R k j)) R Xb Wb >>= fun W =>
          .ok ⟨T, V, joinBlocks W⟩) := by
    intro T V
    rw [split_remix, bind_map, map_bind]
    congr 1
    funext Xb
    rw [split_unmix, bind_map, map_bind]
    congr 1
    funext Wb
    rw [map_bind]
    congr 1
    funext R
    have e : (fun β i => Spatial.unmix (onBlk A β) (Wb β) i * remix (onBlk A β) (Xb β) i) = fun β i => Wb β i * Xb β i := by
      funext β i
      rw [Spatial.unmix, remix, Matrix.mul_assoc, nonsing_inv_mul_cancel_left _ _ (show IsUnit (onBlk A β i).det from hA _)]
    simp only [e]
    rw [spatialVcd_remix (fun β => onBlk A β) (fun β i => hA _), bind_map, map_bind]
    congr 1
    funext W
    rw [join_unmix]
    rfl
  cases normalization with
  | false => exact key T V
  | true => exact key (normalize T V).1 (normalize T V).2

theorem groupLoss_unmix {ι : Type} [Fintype ι] {sz : ι → ℕ} (A : (β : ι) → Fin (sz β) → Mat n ℂ) (hA : ∀ β i, IsUnit (A β i).det)
    (Y : (β : ι) → Fin (sz β) → Matrix (Fin n) (Fin t) ℂ) (W : (β : ι) → Fin (sz β) → Mat n ℂ)
    (hW : ∀ β i, IsUnit (W β i).det) (R R' : Fin n → Fin t → (β : ι) → Mat (sz β) ℂ) :
    gaussGroupLoss Y (fun β => Spatial.unmix (A β) (W β)) R R'
      = gaussGroupLoss Y W R R' + 2 * ∑ β, ∑ i, Real.log ‖(A β i).det‖ := by
  simp only [gaussGroupLoss, logdet_unmix (A _) (W _) (hA _) (hW _), Finset.sum_sub_distrib]
  ring

/-- C71: the loss of GaussIPSDTA. -/
theorem C71_gauss_loss (A : Fin N → Mat n ℂ) (hA : ∀ f, IsUnit (A f).det) (np : Numpy ℂ) (X : Spec (Fin N) n t) (s : St N B n t K)
    (hW : ∀ f, IsUnit (s.W f).det) :
    gaussLoss np (remix A X) (s.unmix A) = (gaussLoss np X s).map (· + 2 * ∑ f, Real.log ‖(A f).det‖) := by
  rw [gaussLoss, gaussLoss, show (s.unmix A).W = Spatial.unmix A s.W from rfl, separate_remix A hA]
  by_cases hB : B = 0
  · subst hB
    rw [C53_no_blocks]
    rfl
  rw [split_unmix, splitBlocks_eq hB, splitBlocks_eq hB]
  rw [show (s.unmix A).V = s.V from rfl, show (s.unmix A).T = s.T from rfl]
  simp only [bind, Except.bind, Except.map]
  cases covInv np s.T s.V with
  | error => rfl
  | ok R =>
    refine congrArg Except.ok ?_
    have e : ∑ f, Real.log ‖(A f).det‖ = (∑ β, ∑ i, Real.log ‖(onBlk (n_blocks := B) A (.inl β) i).det‖)
        + ∑ β, ∑ i, Real.log ‖(onBlk (n_blocks := B) A (.inr β) i).det‖ := by
      rw [← sum_blocks (n_blocks := B) fun f => Real.log ‖(A f).det‖, Fintype.sum_sum_type]
      rfl
    have e1 := groupLoss_unmix (fun β => onBlk (n_blocks := B) A (.inl β)) (fun β i => hA _)
      (fun β i => separate X s.W (binOf N B (.inl β) i)) (fun β i => s.W (binOf N B (.inl β) i)) (fun β i => hW _)
      (fun k j β => cov np s.T s.V k j (.inl β)) (fun k j β => R k j (.inl β))
    have e2 := groupLoss_unmix (fun β => onBlk (n_blocks := B) A (.inr β)) (fun β i => hA _)
      (fun β i => separate X s.W (binOf N B (.inr β) i)) (fun β i => s.W (binOf N B (.inr β) i)) (fun β i => hW _)
      (fun k j β => cov np s.T s.V k j (.inr β)) (fun k j β => R k j (.inr β))
    rw [e]
    by_cases hr : N % B > 0
    · rw [if_pos hr, if_pos hr, e1, e2]
      ring
    · have : IsEmpty (Fin (N % B)) := ⟨fun i => hr i.pos⟩
      rw [if_neg hr, if_neg hr, e1, Fintype.sum_empty (fun β => ∑ i, Real.log ‖(onBlk (n_blocks := B) A (.inr β) i).det‖)]
      ring

/-- C71: the loss of TIPSDTA. -/
theorem C71_t_loss (A : Fin N → Mat n ℂ) (hA : ∀ f, IsUnit (A f).det) (np : Numpy ℂ) (nu : ℝ) (X : Spec (Fin N) n t)
    (s : St N B n t K) (hW : ∀ f, IsUnit (s.W f).det) :
    tLoss np nu (remix A X) (s.unmix A) = (tLoss np nu X s).map (· + 2 * ∑ f, Real.log ‖(A f).det‖) := by
  rw [tLoss, tLoss, show (s.unmix A).W = Spatial.unmix A s.W from rfl, separate_remix A hA]
  by_cases hB : B = 0
  · subst hB
    rw [C53_no_blocks]
    rfl
  rw [split_unmix, splitBlocks_eq hB, splitBlocks_eq hB]
  rw [show (s.unmix A).V = s.V from rfl, show (s.unmix A).T = s.T from rfl]
  simp only [bind, Except.bind, Except.map]
  cases covInv np s.T s.V with
  | error => rfl
  | ok R =>
    refine congrArg Except.ok ?_
    have e : ∀ (β : Blk N B) (i : Fin (bsize N B β)),
        Real.log ‖(Spatial.unmix (onBlk A β) (fun i => s.W (binOf N B β i)) i).det‖
          = Real.log ‖(s.W (binOf N B β i)).det‖ - Real.log ‖(A (binOf N B β i)).det‖ := fun β i =>
      logdet_unmix (onBlk A β) (fun i => s.W (binOf N B β i)) (fun _ => hA _) (fun _ => hW _) i
    simp only [e, Finset.sum_sub_distrib, sum_blocks fun f => Real.log ‖(A f).det‖]
    ring

/-- Three bins in two blocks whose two channels are mixed by `!![1, 1; 0, 2]`: an update that does not raise. -/
example (np : Numpy ℂ) : ∃ s1, gaussUpdate np true floor0 x1 st1 = .ok s1 ∧
    gaussUpdate np true floor0 (remix (fun _ => !![1, 1; 0, 2]) x1) (st1.unmix fun _ => !![1, 1; 0, 2])
      = .ok (s1.unmix fun _ => !![1, 1; 0, 2]) := by
  obtain ⟨s1, h, -⟩ := gauss_step two_ne_zero true floor0 x1_independent (inv1 np) (greg1 np)
  refine ⟨s1, h, ?_⟩
  have := C71_gauss (fun _ => !![1, 1; 0, 2]) (fun _ => by rw [det_fin_two_of]; norm_num) np true floor0 x1 st1 1
  simp only [iterM, h] at this
  cases hg : gaussUpdate np true floor0 (remix (fun _ => !![1, 1; 0, 2]) x1) (st1.unmix fun _ => !![1, 1; 0, 2]) with
  | ok y => rw [hg] at this; exact this
  | error => rw [hg] at this; cases this

end Ipsdta

end Verif
