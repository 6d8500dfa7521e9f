import Verif.Model.Run
import Verif.Props.IpsdtaIlrma
import Verif.Props.MnmfCall

/-! # C106: `FastGaussMNMF` in which every source owns one diagonalised channel is `GaussILRMA` -/

namespace Verif.FastMnmfIlrma

open Matrix Spatial Scale Mnmf
open Ilrma (recon FilterAlg St recon_pos)
open scoped ComplexOrder

variable {F : Type} [Fintype F] {n t K : ℕ}

/-- The parameters are positive and source `k` occurs only in the diagonalised channel `k`. -/
structure Hard (s : FSt F n n t K) : Prop where
  unit : ∀ f, IsUnit (s.Q f).det
  basis : ∀ k f b, 0 < s.T k f b
  activation : ∀ k b j, 0 < s.V k b j
  own : ∀ f k, 0 < s.D f k k
  other : ∀ f k c, c ≠ k → s.D f k c = 0

/-- The parameters of ILRMA: the diagonaliser is the demixing filter and the power of the source in its channel goes
into the basis. -/
def asIlrma (s : FSt F n n t K) : St F n t K := ⟨s.Q, fun k f b => s.D f k k * s.T k f b, s.V⟩

/-- No separated signal is silent in a whole frame. -/
def Audible (X : Spec F n t) (W : F → Mat n ℂ) : Prop := ∀ k j, ∃ f, separate X W f k j ≠ 0

/-- Every source is updated: IP1, or IP2 with pairs of different sources that cover all sources. -/
def Reaches : FilterAlg n → Prop
  | .ip1 => True
  | .ip2 pairs => (∀ p ∈ pairs, p.1 ≠ p.2) ∧ ∀ k, ∃ p ∈ pairs, k = p.1 ∨ k = p.2

omit [Fintype F] in
theorem sum_hard {s : FSt F n n t K} (hs : Hard s) (f : F) (k : Fin n) (g : Fin n → ℝ) :
    ∑ c, s.D f k c * g c = s.D f k k * g k := by
  rw [Finset.sum_eq_single k (fun c _ hc => by rw [hs.other f k c hc, zero_mul]) (fun h => absurd (Finset.mem_univ k) h)]

omit [Fintype F] in
theorem lambD_hard {s : FSt F n n t K} (hs : Hard s) (f : F) (c : Fin n) (j : Fin t) :
    lambD s f c j = recon (asIlrma s).T (asIlrma s).V c f j := by
  rw [lambD, Finset.sum_eq_single c (fun k _ hk => by rw [hs.other f k c hk.symm, mul_zero])
    (fun h => absurd (Finset.mem_univ c) h)]
  simp only [recon, asIlrma, Finset.sum_mul]
  exact Finset.sum_congr rfl fun b _ => by ring

omit [Fintype F] in
theorem recon_asIlrma (s : FSt F n n t K) (f : F) (k : Fin n) (j : Fin t) :
    recon (asIlrma s).T (asIlrma s).V k f j = s.D f k k * recon s.T s.V k f j := by
  simp only [recon, asIlrma, Finset.mul_sum]
  exact Finset.sum_congr rfl fun b _ => by ring

theorem lambD_pos [Nonempty (Fin K)] {s : FSt F n n t K} (hs : Hard s) (f : F) (c : Fin n) (j : Fin t) : 0 < lambD s f c j := by
  rw [lambD_hard hs, recon_asIlrma]
  exact mul_pos (hs.own f c) (recon_pos hs.basis hs.activation c f j)

/-! ## The updates of the source model -/

omit [Fintype F] in
theorem basis_hard {X : Spec F n t} {s : FSt F n n t K} (hs : Hard s) (k : Fin n) (f : F) (b : Fin K) :
    s.D f k k * fastBasisRaw X s k f b
      = Ilrma.basisRaw (Ilrma.gauss 2) (separate X s.Q) (asIlrma s).T (asIlrma s).V k f b := by
  have h1 : ∀ j, s.V k b j * ∑ c, s.D f k c * (‖separate X s.Q f c j‖ / lambD s f c j) ^ 2
      = s.D f k k * (s.V k b j * (‖separate X s.Q f k j‖ ^ 2 / lambD s f k j ^ 2)) := by
    intro j
    rw [sum_hard hs f k fun c => (‖separate X s.Q f c j‖ / lambD s f c j) ^ 2, div_pow]
    ring
  have h2 : ∀ j, s.V k b j * ∑ c, s.D f k c / lambD s f c j = s.D f k k * (s.V k b j / lambD s f k j) := by
    intro j
    simp only [div_eq_mul_inv]
    rw [sum_hard hs f k fun c => (lambD s f c j)⁻¹]
    ring
  simp only [fastBasisRaw, h1, h2]
  rw [← Finset.mul_sum, ← Finset.mul_sum, mul_div_mul_left _ _ (hs.own f k).ne']
  simp only [Ilrma.basisRaw, Ipsdta.gauss_num, Ipsdta.gauss_expo, lambD_hard hs]
  simp only [asIlrma]
  ring

theorem activation_hard {X : Spec F n t} {s : FSt F n n t K} (hs : Hard s) (k : Fin n) (b : Fin K) (j : Fin t) :
    fastActivationRaw X s k b j
      = Ilrma.activationRaw (Ilrma.gauss 2) (separate X s.Q) (asIlrma s).T (asIlrma s).V k b j := by
  have h1 : ∀ f, s.T k f b * ∑ c, s.D f k c * (‖separate X s.Q f c j‖ / lambD s f c j) ^ 2
      = (asIlrma s).T k f b * (‖separate X s.Q f k j‖ ^ 2 / lambD s f k j ^ 2) := by
    intro f
    rw [sum_hard hs f k fun c => (‖separate X s.Q f c j‖ / lambD s f c j) ^ 2, div_pow]
    simp only [asIlrma]
    ring
  have h2 : ∀ f, s.T k f b * ∑ c, s.D f k c / lambD s f c j = (asIlrma s).T k f b / lambD s f k j := by
    intro f
    simp only [div_eq_mul_inv]
    rw [sum_hard hs f k fun c => (lambD s f c j)⁻¹]
    simp only [asIlrma]
    ring
  simp only [fastActivationRaw, h1, h2]
  simp only [Ilrma.activationRaw, Ipsdta.gauss_num, Ipsdta.gauss_expo, lambD_hard hs]
  rw [mul_comm]
  rfl

theorem basis_pos [Nonempty (Fin K)] [Nonempty (Fin n)] {X : Spec F n t} (hX : ∀ f, LinearIndependent ℂ (X f).row)
    {s : FSt F n n t K} (hs : Hard s) (k : Fin n) (f : F) (b : Fin K) : 0 < fastBasisRaw X s k f b := by
  have hL := fun c j => lambD_pos hs f c j
  have hD : ∀ c, 0 ≤ s.D f k c := by
    intro c
    by_cases h : c = k
    · rw [h]; exact (hs.own f k).le
    · rw [hs.other f k c h]
  obtain ⟨j, hj⟩ := Iva.exists_separate_ne hX hs.unit f k
  have hi : ∀ j c, 0 ≤ s.D f k c * (‖separate X s.Q f c j‖ / lambD s f c j) ^ 2 := fun j c =>
    mul_nonneg (hD c) (sq_nonneg _)
  refine mul_pos (hs.basis k f b) (Real.sqrt_pos.mpr (div_pos ?_ ?_))
  · exact Finset.sum_pos' (fun j _ => mul_nonneg (hs.activation k b j).le (Finset.sum_nonneg fun c _ => hi j c))
      ⟨j, Finset.mem_univ _, mul_pos (hs.activation k b j) (Finset.sum_pos' (fun c _ => hi j c) ⟨k, Finset.mem_univ _,
        mul_pos (hs.own f k) (pow_pos (div_pos (norm_pos_iff.mpr hj) (hL k j)) 2)⟩)⟩
  · exact Finset.sum_pos (fun j _ => mul_pos (hs.activation k b j) (Finset.sum_pos' (fun c _ => div_nonneg (hD c) (hL c j).le)
      ⟨k, Finset.mem_univ _, div_pos (hs.own f k) (hL k j)⟩)) ⟨j, Finset.mem_univ _⟩

theorem activation_pos [Nonempty (Fin K)] {X : Spec F n t} {s : FSt F n n t K} (hs : Hard s) (ha : Audible X s.Q)
    (k : Fin n) (b : Fin K) (j : Fin t) : 0 < fastActivationRaw X s k b j := by
  have hL := fun f c => lambD_pos hs f c j
  have hD : ∀ f c, 0 ≤ s.D f k c := by
    intro f c
    by_cases h : c = k
    · rw [h]; exact (hs.own f k).le
    · rw [hs.other f k c h]
  obtain ⟨f, hj⟩ := ha k j
  have hi : ∀ f c, 0 ≤ s.D f k c * (‖separate X s.Q f c j‖ / lambD s f c j) ^ 2 := fun f c =>
    mul_nonneg (hD f c) (sq_nonneg _)
  refine mul_pos (hs.activation k b j) (Real.sqrt_pos.mpr (div_pos ?_ ?_))
  · exact Finset.sum_pos' (fun f _ => mul_nonneg (hs.basis k f b).le (Finset.sum_nonneg fun c _ => hi f c))
      ⟨f, Finset.mem_univ _, mul_pos (hs.basis k f b) (Finset.sum_pos' (fun c _ => hi f c) ⟨k, Finset.mem_univ _,
        mul_pos (hs.own f k) (pow_pos (div_pos (norm_pos_iff.mpr hj) (hL f k)) 2)⟩)⟩
  · exact Finset.sum_pos (fun f _ => mul_pos (hs.basis k f b) (Finset.sum_pos' (fun c _ => div_nonneg (hD f c) (hL f c).le)
      ⟨k, Finset.mem_univ _, div_pos (hs.own f k) (hL f k)⟩)) ⟨f, Finset.mem_univ _⟩

/-- The two updates of the source model are those of ILRMA. -/
theorem source_hard [Nonempty (Fin K)] [Nonempty (Fin n)] {X : Spec F n t} (hX : ∀ f, LinearIndependent ℂ (X f).row)
    {s : FSt F n n t K} (hs : Hard s) (ha : Audible X s.Q) :
    Hard (fastUpdateActivation id X (fastUpdateBasis id X s)) ∧
      asIlrma (fastUpdateActivation id X (fastUpdateBasis id X s)) = Ilrma.updateSource (Ilrma.gauss 2) id X (asIlrma s) := by
  have h1 : Hard (fastUpdateBasis id X s) := ⟨hs.unit, basis_pos hX hs, hs.activation, hs.own, hs.other⟩
  have e1 : (asIlrma (fastUpdateBasis id X s)).T
      = Ilrma.updateBasis (Ilrma.gauss 2) id (separate X s.Q) (asIlrma s).T (asIlrma s).V := by
    funext k f b
    exact basis_hard hs k f b
  refine ⟨⟨hs.unit, h1.basis, activation_pos h1 ha, hs.own, hs.other⟩, ?_⟩
  have e2 : (asIlrma (fastUpdateActivation id X (fastUpdateBasis id X s))).V
      = Ilrma.updateActivation (Ilrma.gauss 2) id (separate X s.Q) (asIlrma (fastUpdateBasis id X s)).T (asIlrma s).V := by
    funext k b j
    exact activation_hard h1 k b j
  rw [e1] at e2
  simp only [Ilrma.updateSource]
  rw [← show (asIlrma (fastUpdateActivation id X (fastUpdateBasis id X s))).T = (asIlrma (fastUpdateBasis id X s)).T from rfl] at e1
  change _ = (⟨s.Q, Ilrma.updateBasis (Ilrma.gauss 2) id (separate X s.Q) (asIlrma s).T (asIlrma s).V,
    Ilrma.updateActivation (Ilrma.gauss 2) id (separate X s.Q)
      (Ilrma.updateBasis (Ilrma.gauss 2) id (separate X s.Q) (asIlrma s).T (asIlrma s).V) (asIlrma s).V⟩ : St F n t K)
  rw [← e2, ← e1]
  rfl

/-! ## The update of the diagonaliser leaves nothing to do for the spatial parameters -/

/-- After IP1 or IP2 the rows have unit norm in their covariances. -/
theorem unit_rows (np : Numpy ℂ) {alg : FilterAlg n} (halg : Reaches alg) (U : Fin n → Mat n ℂ) (hU : ∀ k, (U k).PosDef)
    (W : Mat n ℂ) (hW : IsUnit W.det) :
    ∃ W', (match alg with | .ip1 => ip1 id U W | .ip2 pairs => ip2 np id pairs U W) = .ok W' ∧ IsUnit W'.det ∧
      ∀ k, quad (U k) (W' k) = 1 := by
  cases alg with
  | ip1 =>
    obtain ⟨W', h1, h2, -⟩ := C31_sweep id U hU W hW rfl
    obtain ⟨W'', h3, h4⟩ := C30_normalises id U hU W hW rfl
    rw [h1] at h3
    cases h3
    exact ⟨W', h1, h2, h4⟩
  | ip2 pairs =>
    obtain ⟨hp, hc⟩ := halg
    have key : ∀ (l : List (Fin n × Fin n)), (∀ p ∈ l, p.1 ≠ p.2) → ∀ W : Mat n ℂ, IsUnit W.det →
        ∃ W', l.foldlM (ip2Pair np id U) W = .ok W' ∧ IsUnit W'.det ∧
          ∀ k, ((∃ p ∈ l, k = p.1 ∨ k = p.2) ∨ quad (U k) (W k) = 1) → quad (U k) (W' k) = 1 := by
      intro l
      induction l with
      | nil =>
        intro _ W hW
        refine ⟨W, rfl, hW, fun k hk => hk.resolve_left ?_⟩
        rintro ⟨p, hp, -⟩
        exact absurd hp List.not_mem_nil
      | cons q l ih =>
        intro hl W hW
        obtain ⟨x, y, h1, h2, hx, hy, -⟩ := ip2Pair_spec np (hl q List.mem_cons_self) (hU q.1) (hU q.2) hW
        obtain ⟨W', h3, h4, h5⟩ := ih (fun p hp => hl p (List.mem_cons_of_mem _ hp)) _ h2
        refine ⟨W', ?_, h4, fun k hk => h5 k ?_⟩
        · rw [List.foldlM_cons, show ip2Pair np id U W q = _ from h1]
          exact h3
        · by_cases hk2 : k = q.2
          · right; rw [hk2, updateRow_self, hy]
          by_cases hk1 : k = q.1
          · right
            rw [updateRow_ne hk2, hk1, updateRow_self, hx]
          rcases hk with ⟨p, hp, hpk⟩ | hk
          · rcases List.mem_cons.mp hp with rfl | hp
            · rcases hpk with h | h
              · exact absurd h hk1
              · exact absurd h hk2
            · exact .inl ⟨p, hp, hpk⟩
          · right
            rw [updateRow_ne hk2, updateRow_ne hk1, hk]
    obtain ⟨W', h1, h2, h3⟩ := key pairs hp W hW
    exact ⟨W', h1, h2, fun k => h3 k (.inl (hc k))⟩

theorem filter_unit (np : Numpy ℂ) {alg : FilterAlg n} (halg : Reaches alg) {phi : F → Fin n → Fin t → ℝ}
    (hphi : ∀ f k j, 0 < phi f k j) {X : Spec F n t} (hX : ∀ f, LinearIndependent ℂ (X f).row) {W : F → Mat n ℂ}
    (hW : ∀ f, IsUnit (W f).det) :
    ∃ W', Ilrma.spatialFilter np alg id phi X W = .ok W' ∧ (∀ f, IsUnit (W' f).det) ∧
      ∀ f k, ∑ j, phi f k j * ‖separate X W' f k j‖ ^ 2 = t := by
  have h := fun f => unit_rows np halg (Iva.wcov (phi f) X f) (fun k => Iva.wcov_posDef (hphi f) hX f k) (W f) (hW f)
  choose W' h1 h2 h3 using h
  refine ⟨W', ?_, h2, fun f k => ?_⟩
  · cases alg with
    | ip1 => exact foldlM_onBins (fun f => ip1Row id (Iva.wcov (phi f) X f)) (List.finRange n) W W' h1
    | ip2 pairs => exact foldlM_onBins (fun f => ip2Pair np id (Iva.wcov (phi f) X f)) pairs W W' h1
  · have h4 := h3 f k
    rw [Iva.quad_wcov, wdiag, quad_diagonal] at h4
    have ht : (t : ℝ) ≠ 0 := by
      rintro ht
      simp [ht] at h4
    have h5 : ∑ j, phi f k j / (t : ℝ) * ‖(W' f * X f) k j‖ ^ 2 = (∑ j, phi f k j * ‖separate X W' f k j‖ ^ 2) / t := by
      rw [Finset.sum_div]
      exact Finset.sum_congr rfl fun j _ => by rw [separate]; ring
    have h6 : (∑ j, phi f k j * ‖separate X W' f k j‖ ^ 2) / t = 1 := by
      rw [← h5, ← h4]
    rwa [div_eq_one_iff_eq ht] at h6

/-- The update of the spatial parameters does nothing when the rows are normalised. -/
theorem spatial_still [Nonempty (Fin K)] (ht : 0 < t) {X : Spec F n t} {s : FSt F n n t K} (hs : Hard s)
    (h : ∀ f k, ∑ j, 1 / lambD s f k j * ‖separate X s.Q f k j‖ ^ 2 = (t : ℝ)) : fastUpdateSpatial X s = s := by
  have hD : (fastUpdateSpatial X s).D = s.D := by
    funext f k c
    by_cases hc : c = k
    · subst hc
      have hd := (hs.own f c).ne'
      have hR : ∀ j, recon s.T s.V c f j = (s.D f c c)⁻¹ * lambD s f c j := by
        intro j
        rw [lambD_hard hs, recon_asIlrma, inv_mul_cancel_left₀ hd]
      have h1 : ∑ j, recon s.T s.V c f j / lambD s f c j ^ 2 * ‖separate X s.Q f c j‖ ^ 2 = (s.D f c c)⁻¹ * (t : ℝ) := by
        refine Eq.trans ?_ (congrArg (fun x => (s.D f c c)⁻¹ * x) (h f c))
        rw [Finset.mul_sum]
        refine Finset.sum_congr rfl fun j _ => ?_
        have := (lambD_pos hs f c j).ne'
        rw [hR]
        field_simp
      have h2 : ∑ j, recon s.T s.V c f j / lambD s f c j = (s.D f c c)⁻¹ * (t : ℝ) := by
        have : ∀ j ∈ Finset.univ, recon s.T s.V c f j / lambD s f c j = (s.D f c c)⁻¹ := by
          intro j _
          rw [hR, mul_div_assoc, div_self (lambD_pos hs f c j).ne', mul_one]
        rw [Finset.sum_congr rfl this, Finset.sum_const, Finset.card_univ, Fintype.card_fin, nsmul_eq_mul, mul_comm]
      simp only [fastUpdateSpatial, h1, h2]
      have ht' : (t : ℝ) ≠ 0 := by exact_mod_cast ht.ne'
      rw [div_self (mul_ne_zero (inv_ne_zero hd) ht'), Real.sqrt_one, one_mul]
    · simp only [fastUpdateSpatial, hs.other f k c hc, mul_zero]
  change (⟨s.Q, s.T, s.V, (fastUpdateSpatial X s).D⟩ : FSt F n n t K) = s
  rw [hD]

/-! ## One update -/

/-- The normalisation of ILRMA that belongs to the option `normalization`. -/
def normOf (normalization : Bool) : Ilrma.Norm n := if normalization then .power else .off

theorem psi_pos [Nonempty F] [Nonempty (Fin n)] {X : Spec F n t} (hX : ∀ f, LinearIndependent ℂ (X f).row) {W : F → Mat n ℂ}
    (hW : ∀ f, IsUnit (W f).det) (k : Fin n) : 0 < Ilrma.psi id (separate X W) k := by
  obtain ⟨f⟩ := ‹Nonempty F›
  obtain ⟨j, hj⟩ := Iva.exists_separate_ne hX hW f k
  have h1 : 0 < ∑ f, ∑ j, ‖separate X W f k j‖ ^ 2 :=
    Finset.sum_pos' (fun f _ => Finset.sum_nonneg fun j _ => sq_nonneg _) ⟨f, Finset.mem_univ _,
      Finset.sum_pos' (fun j _ => sq_nonneg _) ⟨j, Finset.mem_univ _, pow_pos (norm_pos_iff.mpr hj) 2⟩⟩
  have h2 : (0 : ℝ) < Fintype.card F * t := by
    have h3 : 0 < Fintype.card F := Fintype.card_pos_iff.mpr ⟨f⟩
    have h4 : 0 < t := j.pos
    exact_mod_cast Nat.mul_pos h3 h4
  exact Real.sqrt_pos.mpr (div_pos h1 h2)

theorem normalize_hard [Nonempty F] [Nonempty (Fin n)] {X : Spec F n t} (hX : ∀ f, LinearIndependent ℂ (X f).row)
    {s : FSt F n n t K} (hs : Hard s) :
    Hard (fastNormalize id X s) ∧ Ilrma.normalize 2 id X .power (asIlrma s) = .ok (asIlrma (fastNormalize id X s)) := by
  have hpsi : fastPsi id X s = Ilrma.psi id (separate X s.Q) := rfl
  have h0 := psi_pos hX hs.unit
  constructor
  · refine ⟨fun f => ?_, hs.basis, hs.activation, fun f k => div_pos (hs.own f k) (pow_pos (h0 k) 2),
      fun f k c hc => ?_⟩
    · have : (fastNormalize id X s).Q f = diagonal (fun c => ((Ilrma.psi id (separate X s.Q) c : ℂ))⁻¹) * s.Q f := by
        ext c a
        rw [diagonal_mul]
        change s.Q f c a / (Ilrma.psi id (separate X s.Q) c : ℂ) = _
        rw [div_eq_inv_mul]
      rw [this, det_mul, det_diagonal]
      refine IsUnit.mul (IsUnit.mk0 _ (Finset.prod_ne_zero_iff.mpr fun c _ => inv_ne_zero ?_)) (hs.unit f)
      exact_mod_cast (h0 c).ne'
    · change s.D f k c / _ = 0
      rw [hs.other f k c hc, zero_div]
  · simp only [Ilrma.normalize]
    congr 1
    have hT : Ilrma.divBasis 2 (Ilrma.psi id (separate X (asIlrma s).W)) (asIlrma s).T
        = (asIlrma (fastNormalize id X s)).T := by
      funext k f b
      simp only [Ilrma.divBasis, asIlrma, fastNormalize, hpsi]
      rw [Real.rpow_two]
      ring
    rw [hT]
    rfl

/-- C106: one update of `FastGaussMNMF` in which source `k` occurs only in diagonalised channel `k` is one update of
`GaussILRMA`, in both cases without flooring, with IP1 or IP2 and with or without normalisation. Which channel belongs to
which source does not change. Without normalisation, `spatial` does not change at all. -/
theorem C106_step [Nonempty F] [Nonempty (Fin n)] [Nonempty (Fin K)] (np : Numpy ℂ) {alg : FilterAlg n} (halg : Reaches alg)
    (normalization : Bool) {X : Spec F n t} (hX : ∀ f, LinearIndependent ℂ (X f).row) {s : FSt F n n t K} (hs : Hard s)
    (ha : Audible X s.Q) :
    ∃ s', fastUpdateOnce np alg normalization id X s = .ok s' ∧ Hard s' ∧
      Ilrma.updateOnce np (Ilrma.gauss 2) 2 alg (normOf normalization) id X (asIlrma s) = .ok (asIlrma s') ∧
      (normalization = false → s'.D = s.D) := by
  obtain ⟨h1, e1⟩ := source_hard hX hs ha
  obtain ⟨s1, hs1⟩ : ∃ s1, s1 = fastUpdateActivation id X (fastUpdateBasis id X s) := ⟨_, rfl⟩
  rw [← hs1] at h1 e1
  have hD1 : s1.D = s.D := by rw [hs1]; rfl
  have ht : 0 < t := by
    obtain ⟨f⟩ := ‹Nonempty F›
    obtain ⟨k⟩ := ‹Nonempty (Fin n)›
    obtain ⟨j, -⟩ := Iva.exists_separate_ne hX hs.unit f k
    exact j.pos
  obtain ⟨Q, q1, q2, q3⟩ := filter_unit np halg (phi := fun f c j => 1 / lambD s1 f c j)
    (fun f c j => one_div_pos.mpr (lambD_pos h1 f c j)) hX h1.unit
  obtain ⟨s2, hs2⟩ : ∃ s2 : FSt F n n t K, s2 = ⟨Q, s1.T, s1.V, s1.D⟩ := ⟨_, rfl⟩
  have h2 : Hard s2 := hs2 ▸ ⟨q2, h1.basis, h1.activation, h1.own, h1.other⟩
  have d1 : fastUpdateDiagonalizer np alg id X s1 = .ok s2 := by
    simp only [fastUpdateDiagonalizer, q1, bind, Except.bind, hs2]
  have d2 : fastUpdateSpatial X s2 = s2 := spatial_still ht h2 (by rw [hs2]; exact q3)
  have d3 : Ilrma.updateSpatial np (Ilrma.gauss 2) alg id X (asIlrma s1) = .ok (asIlrma s2) := by
    have hphi : Ilrma.varphi (Ilrma.gauss 2) id (separate X (asIlrma s1).W) (recon (asIlrma s1).T (asIlrma s1).V)
        = fun f c j => 1 / lambD s1 f c j := by
      funext f c j
      simp only [Ilrma.varphi, Ilrma.gauss, lambD_hard h1, div_self (two_ne_zero : (2 : ℝ) ≠ 0), Real.rpow_one]
    simp only [Ilrma.updateSpatial, hphi]
    rw [show (asIlrma s1).W = s1.Q from rfl, q1, hs2]
    rfl
  have step : fastUpdateOnce np alg normalization id X s = .ok (if normalization then fastNormalize id X s2 else s2) := by
    simp only [fastUpdateOnce, ← hs1, d1, bind, Except.bind, d2]
  have step' : Ilrma.updateOnce np (Ilrma.gauss 2) 2 alg (normOf normalization) id X (asIlrma s)
      = Ilrma.normalize 2 id X (normOf normalization) (asIlrma s2) := by
    simp only [Ilrma.updateOnce, ← e1, d3, bind, Except.bind]
  refine ⟨_, step, ?_⟩
  rw [step']
  cases normalization with
  | false => exact ⟨h2, rfl, fun _ => by rw [← hD1, hs2]; rfl⟩
  | true =>
    obtain ⟨n1, n2⟩ := normalize_hard hX h2
    exact ⟨n1, n2, fun h => by cases h⟩

/-- C106: the losses agree. -/
theorem C106_loss (X : Spec F n t) {s : FSt F n n t K} (hs : Hard s) :
    fastLoss X s = Ilrma.loss (Ilrma.gauss 2) X (asIlrma s) := by
  simp only [fastLoss, Ilrma.loss, Ilrma.lossOf]
  refine Finset.sum_congr rfl fun f _ => ?_
  congr 1
  simp only [meanT, Ilrma.gauss, div_self (two_ne_zero : (2 : ℝ) ≠ 0), Real.rpow_one, one_mul, lambD_hard hs]
  rw [← Finset.sum_div, Finset.sum_comm]
  rfl

/-! ## The separated signals -/

/-- C106: the Wiener filter of `FastGaussMNMF` is projection back: the output of source `k` is the `k`-th diagonalised
channel times the entry of the inverse diagonaliser for the reference channel. -/
theorem C106_output [Nonempty (Fin K)] (np : Numpy ℂ) (r : Fin n) (X : Spec F n t) {s : FSt F n n t K} (hs : Hard s) :
    fastSeparate np id r X s = .ok fun f j k => (s.Q f)⁻¹ r k * separate X s.Q f k j := by
  have h : ∀ f j, wiener np id r (fastRn (fun f => (s.Q f)⁻¹) s f j) (fun c => X f c j)
      = .ok fun k => (s.Q f)⁻¹ r k * separate X s.Q f k j := by
    intro f j
    have hq : s.Q f * (s.Q f)⁻¹ = 1 := mul_nonsing_inv _ (hs.unit f)
    have hq' : ((s.Q f)⁻¹)ᴴ * (s.Q f)ᴴ = 1 := by rw [← conjTranspose_mul, hq, conjTranspose_one]
    have hRn : ∀ k, fastRn (fun f => (s.Q f)⁻¹) s f j k
        = (s.Q f)⁻¹ * diagonal (Pi.single k (lambD s f k j : ℂ)) * ((s.Q f)⁻¹)ᴴ := by
      intro k
      rw [fastRn_eq]
      congr 3
      funext c
      by_cases hc : c = k
      · subst hc
        rw [Pi.single_eq_same, lambD_hard hs, recon_asIlrma, mul_comm]
      · rw [Pi.single_eq_of_ne hc, hs.other f k c hc, mul_zero, Complex.ofReal_zero]
    have hsum : ∑ k, fastRn (fun f => (s.Q f)⁻¹) s f j k
        = (s.Q f)⁻¹ * diagonal (fun c => (lambD s f c j : ℂ)) * ((s.Q f)⁻¹)ᴴ := by
      simp only [hRn]
      rw [← Finset.sum_mul, ← Finset.mul_sum]
      congr 2
      ext a b
      rw [Matrix.sum_apply]
      by_cases hab : a = b
      · subst hab
        simp [Pi.single_apply]
      · simp [diagonal_apply_ne _ hab]
    have hp : ((s.Q f)⁻¹ * diagonal (fun c => (lambD s f c j : ℂ)) * ((s.Q f)⁻¹)ᴴ).PosDef := by
      refine PosDef.mul_mul_conjTranspose_same (PosDef.diagonal fun c => Complex.zero_lt_real.mpr (lambD_pos hs f c j)) ?_
      rw [vecMul_injective_iff_isUnit, isUnit_nonsing_inv_iff]
      exact (isUnit_iff_isUnit_det _).mpr (hs.unit f)
    have hu := Tr.isUnit_det hp
    have hW : ∀ k, ((s.Q f)⁻¹ * diagonal (fun c => (lambD s f c j : ℂ)) * ((s.Q f)⁻¹)ᴴ)⁻¹ * fastRn (fun f => (s.Q f)⁻¹) s f j k
        = (s.Q f)ᴴ * diagonal (Pi.single k 1) * ((s.Q f)⁻¹)ᴴ := by
      intro k
      have e : fastRn (fun f => (s.Q f)⁻¹) s f j k = ((s.Q f)⁻¹ * diagonal (fun c => (lambD s f c j : ℂ)) * ((s.Q f)⁻¹)ᴴ)
          * ((s.Q f)ᴴ * diagonal (Pi.single k 1) * ((s.Q f)⁻¹)ᴴ) := by
        rw [hRn]
        have : diagonal (Pi.single k (lambD s f k j : ℂ))
            = diagonal (fun c => (lambD s f c j : ℂ)) * diagonal (Pi.single k (1 : ℂ)) := by
          rw [diagonal_mul_diagonal]
          congr 1
          funext c
          by_cases hc : c = k
          · subst hc; simp
          · simp [hc]
        rw [this]
        simp only [Matrix.mul_assoc]
        rw [← Matrix.mul_assoc ((s.Q f)⁻¹)ᴴ (s.Q f)ᴴ, hq', Matrix.one_mul]
      rw [e, nonsing_inv_mul_cancel_left _ _ hu]
    have hsolve : (onBins fun k => npSolve ((s.Q f)⁻¹ * diagonal (fun c => (lambD s f c j : ℂ)) * ((s.Q f)⁻¹)ᴴ)
        (fastRn (fun f => (s.Q f)⁻¹) s f j k)) = .ok fun k => (s.Q f)ᴴ * diagonal (Pi.single k 1) * ((s.Q f)⁻¹)ᴴ :=
      onBins_ok fun k => by rw [npSolve, if_pos hu, hW]
    simp only [wiener, hsum, toPsd_id np hp.1, hsolve, bind, Except.bind]
    congr 1
    funext k
    have hH : ((s.Q f)ᴴ * diagonal (Pi.single k 1) * ((s.Q f)⁻¹)ᴴ)ᴴ = (s.Q f)⁻¹ * diagonal (Pi.single k 1) * s.Q f := by
      rw [conjTranspose_mul, conjTranspose_mul, conjTranspose_conjTranspose, conjTranspose_conjTranspose,
        diagonal_conjTranspose, Matrix.mul_assoc]
      congr 3
      funext c
      by_cases hc : c = k
      · subst hc; simp
      · simp [hc]
    have hent : ∀ c, ((s.Q f)⁻¹ * diagonal (Pi.single k 1) * s.Q f : Mat n ℂ) r c = (s.Q f)⁻¹ r k * s.Q f k c := by
      intro c
      rw [mul_apply]
      simp only [mul_diagonal]
      rw [Finset.sum_eq_single k (fun b _ hb => by rw [Pi.single_eq_of_ne hb, mul_zero, zero_mul])
        (fun h => absurd (Finset.mem_univ k) h), Pi.single_eq_same, mul_one]
    change ∑ c, ((s.Q f)ᴴ * diagonal (Pi.single k 1) * ((s.Q f)⁻¹)ᴴ)ᴴ r c * X f c j = _
    rw [hH]
    simp only [hent]
    simp only [separate, mul_apply, Finset.mul_sum, mul_assoc]
  rw [fastSeparate, npInvB, if_pos hs.unit]
  exact onBins_ok fun f => onBins_ok fun j => h f j

/-! ## Whole calls -/

theorem iterations_hard [Nonempty F] [Nonempty (Fin n)] [Nonempty (Fin K)] (np : Numpy ℂ) {alg : FilterAlg n}
    (halg : Reaches alg) (normalization : Bool) {X : Spec F n t} (hX : ∀ f, LinearIndependent ℂ (X f).row) (n_iter : ℕ)
    {s : FSt F n n t K} (hs : Hard s)
    (h : RegularRun (Ilrma.updateOnce np (Ilrma.gauss 2) 2 alg (normOf normalization) id X) (fun s => Audible X s.W) n_iter
      (asIlrma s)) (ls : List ℝ) :
    ∃ s' ls', IlrmaCall.iterations (fastUpdateOnce np alg normalization id X) (fun s => .ok (fastLoss X s)) n_iter s ls
        = .ok (s', ls') ∧
      IlrmaCall.iterations (Ilrma.updateOnce np (Ilrma.gauss 2) 2 alg (normOf normalization) id X)
        (fun s => .ok (Ilrma.loss (Ilrma.gauss 2) X s)) n_iter (asIlrma s) ls = .ok (asIlrma s', ls') ∧
      Hard s' ∧ (normalization = false → s'.D = s.D) := by
  induction n_iter generalizing s ls with
  | zero => exact ⟨s, ls, rfl, rfl, hs, fun _ => rfl⟩
  | succ n_iter ih =>
    obtain ⟨s1, h1, h2, h3, h4⟩ := C106_step np halg normalization hX hs h.1
    obtain ⟨s', ls', h5, h6, h7, h8⟩ := ih h2 (h.2 _ h3) (ls ++ [fastLoss X s1])
    refine ⟨s', ls', ?_, ?_, h7, fun hn => (h8 hn).trans (h4 hn)⟩
    · simp only [IlrmaCall.iterations, h1, bind, Except.bind]
      exact h5
    · simp only [IlrmaCall.iterations, h3, bind, Except.bind, ← C106_loss X h2]
      exact h6

/-- C106: a call of `FastGaussMNMF` with as many sources as channels and a diagonal `spatial` returns what a call of
`GaussILRMA` with projection back returns: the same separated signals for the same reference channel, the same losses and
the same activations; the basis of ILRMA is the basis of FastMNMF times the diagonal of `spatial`, and its demixing filter is
the rescaled diagonaliser. The calls start from the filter `W`, the basis `T` with powers `d`, and the activation `V`. -/
theorem C106_call [Nonempty F] [Nonempty (Fin n)] [Nonempty (Fin K)] (np : Numpy ℂ) {alg : FilterAlg n} (halg : Reaches alg)
    (normalization : Bool) (r : Fin n) {X : Spec F n t} (hX : ∀ f, LinearIndependent ℂ (X f).row) (n_iter : ℕ)
    (initial_call : Bool) {W : F → Mat n ℂ} (hW : ∀ f, IsUnit (W f).det) {T : Fin n → F → Fin K → ℝ}
    (hT : ∀ k f b, 0 < T k f b) {V : Fin n → Fin K → Fin t → ℝ} (hV : ∀ k b j, 0 < V k b j) {d : F → Fin n → ℝ}
    (hd : ∀ f k, 0 < d f k) (draw drawF : IlrmaCall.Draw F n t K) (drawD : F → Fin n → Fin n → ℝ)
    (oF : MnmfCall.ObjF F n n t K) (o : IlrmaCall.Obj F n t K) (ho : oF.loss = o.loss)
    (hreg : RegularRun (Ilrma.updateOnce np (Ilrma.gauss 2) 2 alg (normOf normalization) id X) (fun s => Audible X s.W) n_iter
      (⟨W, fun k f b => d f k * T k f b, V⟩ : St F n t K)) :
    ∃ (Q : F → Mat n ℂ) (T' : Fin n → F → Fin K → ℝ) (V' : Fin n → Fin K → Fin t → ℝ) (d' : F → Fin n → ℝ)
      (Y : Spec F n t) (W' : F → Mat n ℂ) (ls : List ℝ),
      MnmfCall.callF np alg normalization id r drawF drawD X n_iter initial_call
          ⟨some W, some T, some V, some fun f k c => if c = k then d f k else 0⟩ oF
        = .ok ⟨.val Q, .val T', .val V', .val fun f k c => if c = k then d' f k else 0, .val fun f j k => Y f k j, ls⟩ ∧
      IlrmaCall.call np (Ilrma.gauss 2) 2 alg (normOf normalization) id (.bool true) r draw X n_iter initial_call
          ⟨some W, some fun k f b => d f k * T k f b, some V⟩ o
        = .ok ⟨.val W', .val fun k f b => d' f k * T' k f b, .val V', .val Y, ls⟩ ∧
      (∀ f k c, W' f k c = (Q f)⁻¹ r k * Q f k c) ∧ (∀ f k, 0 < d' f k) ∧ (normalization = false → d' = d) := by
  obtain ⟨s, hsd⟩ : ∃ s : FSt F n n t K, s = ⟨W, T, V, fun f k c => if c = k then d f k else 0⟩ := ⟨_, rfl⟩
  have hs : Hard s := by
    rw [hsd]
    exact ⟨hW, hT, hV, fun f k => by simpa using hd f k, fun f k c hc => if_neg hc⟩
  have has : asIlrma s = ⟨W, fun k f b => d f k * T k f b, V⟩ := by
    rw [hsd]
    simp only [asIlrma, if_true]
  have hreset : MnmfCall.resetF np id r drawF drawD X ⟨some W, some T, some V, some fun f k c => if c = k then d f k else 0⟩ oF
      = .ok s := by
    simp only [MnmfCall.resetF, IlrmaCall.initNmf, IlrmaCall.override, IlrmaCall.attrOr, bind, Except.bind, ← hsd,
      C106_output np r X hs]
  have hreset' : IlrmaCall.resetFilter alg id draw X ⟨some W, some fun k f b => d f k * T k f b, some V⟩ o
      = .ok (asIlrma s) := by
    rw [has]
    cases alg <;> rfl
  rw [← has] at hreg
  have hbase : ∃ s' ls', IlrmaCall.baseCall (fastUpdateOnce np alg normalization id X) (fun s => .ok (fastLoss X s))
        initial_call n_iter s oF.loss = .ok (s', ls') ∧
      IlrmaCall.baseCall (Ilrma.updateOnce np (Ilrma.gauss 2) 2 alg (normOf normalization) id X)
        (fun s => .ok (Ilrma.loss (Ilrma.gauss 2) X s)) initial_call n_iter (asIlrma s) o.loss = .ok (asIlrma s', ls') ∧
      Hard s' ∧ (normalization = false → s'.D = s.D) := by
    rw [ho]
    cases initial_call with
    | false =>
      obtain ⟨s', ls', h⟩ := iterations_hard np halg normalization hX n_iter hs hreg o.loss
      exact ⟨s', ls', h⟩
    | true =>
      obtain ⟨s', ls', h1, h2, h⟩ := iterations_hard np halg normalization hX n_iter hs hreg (o.loss ++ [fastLoss X s])
      refine ⟨s', ls', ?_, ?_, h⟩
      · simp only [IlrmaCall.baseCall, if_true, bind, Except.bind]
        exact h1
      · simp only [IlrmaCall.baseCall, if_true, bind, Except.bind, ← C106_loss X hs]
        exact h2
  obtain ⟨s', ls', h1, h2, h3, h4⟩ := hbase
  refine ⟨s'.Q, s'.T, s'.V, fun f k => s'.D f k k,
    fun f => Matrix.of fun k j => (s'.Q f)⁻¹ r k * separate X s'.Q f k j,
    fun f => Matrix.of fun k c => (s'.Q f)⁻¹ r k * s'.Q f k c, ls', ?_, ?_, fun f k c => rfl, h3.own, fun hn => ?_⟩
  · have hD : s'.D = fun f k c => if c = k then s'.D f k k else 0 := by
      funext f k c
      by_cases hc : c = k
      · rw [hc, if_pos rfl]
      · rw [if_neg hc, h3.other f k c hc]
    simp only [MnmfCall.callF, hreset, bind, Except.bind, h1, C106_output np r X h3]
    rw [← hD]
    rfl
  · have hfin : Lifecycle.finish (.bool true) r X s'.Q
        = .ok (fun f => Matrix.of fun k j => (s'.Q f)⁻¹ r k * separate X s'.Q f k j,
          fun f => Matrix.of fun k c => (s'.Q f)⁻¹ r k * s'.Q f k c) := by
      have hpb : projectionBackFilter r s'.Q = .ok fun f => Matrix.of fun k c => (s'.Q f)⁻¹ r k * s'.Q f k c := by
        rw [projectionBackFilter, npInvB, if_pos h3.unit]
        simp only [bind, Except.bind, mul_comm]
      have htr : (Lifecycle.ScaleOpt.bool true).truthy = true := rfl
      simp only [Lifecycle.finish, htr, if_true, Lifecycle.restoreScale, Lifecycle.applyProjectionBack, hpb, bind, Except.bind]
      have hm : "projection_back" ∈ Lifecycle.projectionBackKeywords := by decide
      simp only [Bool.not_true, Bool.false_eq_true, if_false, hm, if_true]
      congr 2
      funext f
      ext k j
      simp only [separate, mul_apply, of_apply, Finset.mul_sum, mul_assoc]
    simp only [IlrmaCall.call, hreset', bind, Except.bind, h2]
    rw [show (asIlrma s').W = s'.Q from rfl, hfin]
    rfl
  · have := h4 hn
    funext f k
    rw [this, hsd]
    simp

/-- Two sources, two channels, one bin, two frames, one iteration, with normalisation. -/
example (np : Numpy ℂ) (draw drawF : IlrmaCall.Draw Unit 2 2 1) (drawD : Unit → Fin 2 → Fin 2 → ℝ) :
    ∃ (oF : MnmfCall.ObjF Unit 2 2 2 1) (o : IlrmaCall.Obj Unit 2 2 1) (Y : Spec Unit 2 2),
      MnmfCall.callF np .ip1 true id 0 drawF drawD (fun _ => !![1, 1; 1, -1]) 1 true
        ⟨some fun _ => 1, some fun _ _ _ => 1, some fun _ _ _ => 1, some fun _ k c => if c = k then 3 else 0⟩ .fresh = .ok oF ∧
      IlrmaCall.call np (Ilrma.gauss 2) 2 .ip1 .power id (.bool true) 0 draw (fun _ => !![1, 1; 1, -1]) 1 true
        ⟨some fun _ => 1, some fun _ _ _ => 3 * 1, some fun _ _ _ => 1⟩ .fresh = .ok o ∧
      oF.loss = o.loss ∧ o.output = .val Y ∧ oF.output = .val fun f j k => Y f k j := by
  have hX : ∀ _ : Unit, LinearIndependent ℂ (!![1, 1; 1, -1] : Matrix (Fin 2) (Fin 2) ℂ).row := by
    intro _
    rw [linearIndependent_rows_iff_isUnit, isUnit_iff_isUnit_det, det_fin_two_of]
    norm_num
  have ha : Audible (fun _ : Unit => (!![1, 1; 1, -1] : Matrix (Fin 2) (Fin 2) ℂ)) fun _ => 1 := by
    intro k j
    refine ⟨(), ?_⟩
    simp only [separate, Matrix.one_mul]
    fin_cases k <;> fin_cases j <;> simp
  obtain ⟨Q, T', V', d', Y, W', ls, h1, h2, -⟩ := C106_call np (alg := .ip1) trivial true 0 hX 1 true
    (W := fun _ : Unit => 1) (fun _ => by simp) (T := fun _ _ (_ : Fin 1) => 1) (fun _ _ _ => one_pos)
    (V := fun _ _ _ => 1) (fun _ _ _ => one_pos) (d := fun _ _ => 3) (fun _ _ => by norm_num) draw drawF drawD .fresh .fresh rfl
    ⟨ha, fun _ _ => trivial⟩
  exact ⟨_, _, Y, h1, h2, rfl, rfl, rfl⟩

end Verif.FastMnmfIlrma
