import Verif.Lemmas.Run
import Verif.Model.Fdica
import Verif.Model.Mnmf

/-! # Lemmas for C71: what the updates do when the recording is mixed once more -/

namespace Verif

/-! ## Carrying a map through programs that can raise -/

theorem map_bind {α β γ : Type} (x : Except PyErr α) (g : α → Except PyErr β) (e : β → γ) :
    Except.map e (x >>= g) = x >>= fun a => Except.map e (g a) := by
  cases x <;> rfl

theorem bind_map {α β γ : Type} (x : Except PyErr α) (e : α → β) (g : β → Except PyErr γ) :
    (Except.map e x) >>= g = x >>= fun a => g (e a) := by
  cases x <;> rfl

theorem foldlM_map {σ τ β : Type} (g : σ → β → Except PyErr σ) (g' : τ → β → Except PyErr τ) (e : σ → τ)
    (h : ∀ s b, g' (e s) b = Except.map e (g s b)) (l : List β) (s : σ) :
    l.foldlM g' (e s) = Except.map e (l.foldlM g s) := by
  induction l generalizing s with
  | nil => rfl
  | cons b l ih =>
    rw [List.foldlM_cons, List.foldlM_cons, h, map_bind, bind_map]
    congr 1
    funext a
    exact ih a

theorem iterM_map {σ τ : Type} (g : σ → Except PyErr σ) (g' : τ → Except PyErr τ) (e : σ → τ)
    (h : ∀ s, g' (e s) = Except.map e (g s)) (N : ℕ) (s : σ) :
    iterM g' N (e s) = Except.map e (iterM g N s) := by
  induction N generalizing s with
  | zero => rfl
  | succ N ih =>
    rw [iterM, iterM, h, map_bind, bind_map]
    congr 1
    funext a
    exact ih a

theorem map_ok {α β : Type} {e : α → β} {x : Except PyErr α} {y : β} (h : Except.map e x = .ok y) :
    ∃ a, x = .ok a ∧ e a = y := by
  cases x with
  | ok a => exact ⟨a, rfl, Except.ok.inj h⟩
  | error => cases h

namespace Spatial

open Matrix Scale

variable {F : Type} {n t : ℕ}

theorem onBins_map {α β : Type} (g : F → Except PyErr α) (e : F → α → β) :
    onBins (fun f => Except.map (e f) (g f)) = Except.map (fun y f => e f (y f)) (onBins g) := by
  by_cases h : ∀ f, ∃ y, g f = .ok y
  · choose y hy using h
    rw [onBins_ok hy]
    exact onBins_ok fun f => by rw [hy f]; rfl
  · rw [onBins, onBins, dif_neg h, dif_neg]
    · rfl
    · intro h'
      apply h
      intro f
      obtain ⟨y, hy⟩ := h' f
      cases hg : g f with
      | ok z => exact ⟨z, rfl⟩
      | error => rw [hg] at hy; cases hy

/-- The recording mixed once more, by `A f` in bin `f`. -/
def remix (A : F → Mat n ℂ) (X : Spec F n t) : Spec F n t := fun f => A f * X f

/-- The filters with that mixing undone. -/
noncomputable def unmix (A : F → Mat n ℂ) (W : F → Mat n ℂ) : F → Mat n ℂ := fun f => W f * (A f)⁻¹

theorem separate_remix (A : F → Mat n ℂ) (hA : ∀ f, IsUnit (A f).det) (X : Spec F n t) (W : F → Mat n ℂ) :
    separate (remix A X) (unmix A W) = separate X W := by
  funext f
  rw [separate, separate, remix, unmix, Matrix.mul_assoc, nonsing_inv_mul_cancel_left _ _ (hA f)]

theorem wcov_remix (A : F → Mat n ℂ) (phi : Fin n → Fin t → ℝ) (X : Spec F n t) (f : F) (k : Fin n) :
    Iva.wcov phi (remix A X) f k = A f * Iva.wcov phi X f k * (A f)ᴴ := by
  have key : ∀ Y : Spec F n t, Iva.wcov phi Y f k
      = (t : ℂ)⁻¹ • (Y f * diagonal (fun s => (phi k s : ℂ)) * (Y f)ᴴ) := by
    intro Y
    ext i j
    rw [Matrix.smul_apply, Matrix.mul_apply]
    simp only [Iva.wcov, Matrix.of_apply, meanT, smul_eq_mul, mul_diagonal, conjTranspose_apply, RCLike.star_def]
    rw [div_eq_inv_mul]
    congr 1
    exact Finset.sum_congr rfl fun s _ => by ring
  rw [key, key, remix, conjTranspose_mul]
  simp only [Matrix.mul_smul, Matrix.smul_mul, Matrix.mul_assoc]

variable (A : Mat n ℂ) (hA : IsUnit A.det)
include hA

theorem npSolve_remix {m : ℕ} (W U : Mat n ℂ) (b : Matrix (Fin n) (Fin m) ℂ) :
    npSolve (W * A⁻¹ * (A * U * Aᴴ)) b = Except.map ((Aᴴ)⁻¹ * ·) (npSolve (W * U) b) := by
  have e : W * A⁻¹ * (A * U * Aᴴ) = W * U * Aᴴ := by
    simp only [Matrix.mul_assoc]
    rw [nonsing_inv_mul_cancel_left _ _ hA]
  have hA' : IsUnit (Aᴴ).det := by rw [det_conjTranspose]; exact hA.star
  rw [e, npSolve, npSolve]
  by_cases h : IsUnit (W * U).det
  · rw [if_pos h, if_pos]
    · simp only [Except.map, Matrix.mul_inv_rev, Matrix.mul_assoc]
    · rw [det_mul]; exact h.mul hA'
  · rw [if_neg h, if_neg]
    · rfl
    · rw [det_mul]
      exact fun h' => h (isUnit_of_mul_isUnit_left h')

theorem solveVec_remix (W U : Mat n ℂ) (b : Fin n → ℂ) :
    solveVec (W * A⁻¹ * (A * U * Aᴴ)) b = Except.map ((Aᴴ)⁻¹ *ᵥ ·) (solveVec (W * U) b) := by
  rw [solveVec, solveVec, npSolve_remix A hA, bind_map, map_bind]
  congr 1

theorem sandwich_remix {m : ℕ} (U : Mat n ℂ) (P : Matrix (Fin n) (Fin m) ℂ) :
    ((Aᴴ)⁻¹ * P)ᴴ * (A * U * Aᴴ) * ((Aᴴ)⁻¹ * P) = Pᴴ * U * P := by
  have hA' : IsUnit (Aᴴ).det := by rw [det_conjTranspose]; exact hA.star
  rw [conjTranspose_mul, conjTranspose_nonsing_inv, conjTranspose_conjTranspose]
  simp only [Matrix.mul_assoc]
  rw [mul_nonsing_inv_cancel_left _ _ hA', nonsing_inv_mul_cancel_left _ _ hA]

theorem hUh_remix (U : Mat n ℂ) (w : Fin n → ℂ) : hUh (A * U * Aᴴ) ((Aᴴ)⁻¹ *ᵥ w) = hUh U w := by
  have h := congrFun (congrFun (sandwich_remix A hA U (Matrix.of fun i (_ : Fin 1) => w i)) 0) 0
  have e : ∀ (B : Mat n ℂ) (u : Fin n → ℂ),
      ((Matrix.of fun i (_ : Fin 1) => u i)ᴴ * B * (Matrix.of fun i (_ : Fin 1) => u i)) 0 0 = star u ⬝ᵥ (B *ᵥ u) := by
    intro B u
    rw [Matrix.mul_assoc, Matrix.mul_apply]
    rfl
  have e2 : (Aᴴ)⁻¹ * (Matrix.of fun i (_ : Fin 1) => w i) = Matrix.of fun i (_ : Fin 1) => ((Aᴴ)⁻¹ *ᵥ w) i := by
    ext i j; rfl
  rw [e2, e, e] at h
  rw [hUh, hUh, h]

omit hA in
theorem updateRow_unmix (W : Mat n ℂ) (k : Fin n) (r : Fin n → ℂ) :
    W.updateRow k r * A⁻¹ = (W * A⁻¹).updateRow k (r ᵥ* A⁻¹) := by
  ext i j
  by_cases h : i = k
  · subst h; simp [Matrix.mul_apply, vecMul, dotProduct]
  · simp [Matrix.mul_apply, h]

omit hA in
theorem star_mulVec_remix (w : Fin n → ℂ) : star ((Aᴴ)⁻¹ *ᵥ w) = star w ᵥ* A⁻¹ := by
  rw [star_mulVec, conjTranspose_nonsing_inv, conjTranspose_conjTranspose]

theorem ip1Row_remix (floor : ℝ → ℝ) (U : Fin n → Mat n ℂ) (W : Mat n ℂ) (k : Fin n) :
    ip1Row floor (fun k => A * U k * Aᴴ) (W * A⁻¹) k = Except.map (· * A⁻¹) (ip1Row floor U W k) := by
  rw [ip1Row, ip1Row]
  simp only
  rw [solveVec_remix A hA, bind_map, map_bind]
  congr 1
  funext w
  simp only [Except.map, hUh_remix A hA, updateRow_unmix A]
  congr 2
  have := star_mulVec_remix A w
  funext j
  have hj := congrFun this j
  simp only [Pi.star_apply] at hj
  rw [hj]
  simp only [vecMul, dotProduct, Finset.sum_div, Pi.star_apply]
  exact Finset.sum_congr rfl fun i _ => by ring

theorem ip2OnePair_remix (np : Numpy ℂ) (floor : ℝ → ℝ) (W Um Un : Mat n ℂ) (m k : Fin n) :
    ip2OnePair np floor (W * A⁻¹) (A * Um * Aᴴ) (A * Un * Aᴴ) m k
      = Except.map (fun r i => r i ᵥ* A⁻¹) (ip2OnePair np floor W Um Un m k) := by
  rw [ip2OnePair, ip2OnePair]
  simp only
  rw [npSolve_remix A hA, npSolve_remix A hA, bind_map, map_bind]
  congr 1
  funext P_m
  rw [bind_map, map_bind]
  congr 1
  funext P_n
  rw [sandwich_remix A hA, sandwich_remix A hA, map_bind]
  congr 1
  funext r
  simp only [Except.map]
  congr 1
  funext i
  fin_cases i <;>
    simp only [Fin.zero_eta, Fin.mk_one, cons_val_zero, cons_val_one, ← mulVec_mulVec, star_mulVec_remix A]

theorem ip2Pair_remix (np : Numpy ℂ) (floor : ℝ → ℝ) (U : Fin n → Mat n ℂ) (W : Mat n ℂ) (p : Fin n × Fin n) :
    ip2Pair np floor (fun k => A * U k * Aᴴ) (W * A⁻¹) p = Except.map (· * A⁻¹) (ip2Pair np floor U W p) := by
  rw [ip2Pair, ip2Pair, ip2OnePair_remix A hA, bind_map, map_bind]
  congr 1
  funext r
  simp only [Except.map, updateRow_unmix A]

end Spatial

end Verif
