import Verif.Props.FlooredCall

/-!
# C102: partitioned ILRMA never reassigns a component, and with hard assignments it is ILRMA without partitioning
-/

namespace Verif.HardPartition

open Matrix Scale Spatial Ilrma Lifecycle IlrmaCall FlooredCall
open MnmfCall (Attr.Has attrOr_has baseCall_inv)

variable {F : Type} [Fintype F] {n t K M : ℕ}

/-! ## Which sources use which components -/

/-- `S` tells which sources use which components: every source uses a component and every component is used by a source. -/
structure Covers (S : Fin n → Fin K → Prop) : Prop where
  source : ∀ k, ∃ b, S k b
  component : ∀ b, ∃ k, S k b

/-- The latent variables are positive where `S` holds and zero elsewhere. -/
def Supp (S : Fin n → Fin K → Prop) (Z : Fin n → Fin K → ℝ) : Prop := ∀ k b, (S k b → 0 < Z k b) ∧ (¬ S k b → Z k b = 0)

theorem Supp.nonneg {S : Fin n → Fin K → Prop} {Z : Fin n → Fin K → ℝ} (h : Supp S Z) (k : Fin n) (b : Fin K) : 0 ≤ Z k b := by
  by_cases hs : S k b
  · exact ((h k b).1 hs).le
  · exact ((h k b).2 hs).ge

/-- What a run with zero latent variables keeps: invertible filters, the support of the latent variables, positive bases and
activations. -/
def InvS (S : Fin n → Fin K → Prop) (s : StP F n t K) : Prop :=
  (∀ f, IsUnit (s.W f).det) ∧ Supp S s.Z ∧ (∀ f b, 0 < s.T f b) ∧ ∀ b j, 0 < s.V b j

section support

variable {S : Fin n → Fin K → Prop} {src : Source} {p : ℝ} {floor : ℝ → ℝ} {X : Spec F n t}

omit [Fintype F] in
theorem reconP_supp (hS : Covers S) {Z : Fin n → Fin K → ℝ} {T : F → Fin K → ℝ} {V : Fin K → Fin t → ℝ} (hZ : Supp S Z)
    (hT : ∀ f b, 0 < T f b) (hV : ∀ b j, 0 < V b j) (k : Fin n) (f : F) (j : Fin t) : 0 < reconP Z T V k f j := by
  obtain ⟨b, hb⟩ := hS.source k
  exact Finset.sum_pos' (fun b _ => mul_nonneg (hZ.nonneg k b) (mul_pos (hT f b) (hV b j)).le)
    ⟨b, Finset.mem_univ _, mul_pos ((hZ k b).1 hb) (mul_pos (hT f b) (hV b j))⟩

/-- Dividing nonnegative numbers by their sum keeps the support. -/
theorem supp_div (hS : Covers S) {Z : Fin n → Fin K → ℝ} (hZ : Supp S Z) :
    Supp S (fun k b => Z k b / ∑ k', Z k' b) ∧ ∀ b, 0 < ∑ k', Z k' b := by
  have hsum : ∀ b, 0 < ∑ k', Z k' b := by
    intro b
    obtain ⟨k, hk⟩ := hS.component b
    exact Finset.sum_pos' (fun k _ => hZ.nonneg k b) ⟨k, Finset.mem_univ _, (hZ k b).1 hk⟩
  exact ⟨fun k b => ⟨fun h => div_pos ((hZ k b).1 h) (hsum b), fun h => by simp only [(hZ k b).2 h, zero_div]⟩, hsum⟩

theorem latentRaw_factor [Nonempty F] [Nonempty (Fin t)] (hS : Covers S) (hsrc : Standard src) {Y : Spec F n t}
    (hY : ∀ f k, ∃ j, Y f k j ≠ 0) {Z : Fin n → Fin K → ℝ} {T : F → Fin K → ℝ} {V : Fin K → Fin t → ℝ} (hZ : Supp S Z)
    (hT : ∀ f b, 0 < T f b) (hV : ∀ b j, 0 < V b j) (k : Fin n) (b : Fin K) :
    ∃ c : ℝ, 0 < c ∧ latentRaw src Y Z T V k b = c * Z k b := by
  refine ⟨_, Real.rpow_pos_of_pos (div_pos ?_ ?_) _, rfl⟩
  · refine Finset.sum_pos (fun f _ => ?_) Finset.univ_nonempty
    obtain ⟨j, hj⟩ := hY f k
    refine Finset.sum_pos' (fun j _ => ?_) ⟨j, Finset.mem_univ _, ?_⟩
    · exact mul_nonneg (mul_pos (hT f b) (hV b j)).le (num_spec hsrc (norm_nonneg _) (reconP_supp hS hZ hT hV k f j)).1
    · exact mul_pos (mul_pos (hT f b) (hV b j))
        ((num_spec hsrc (norm_nonneg _) (reconP_supp hS hZ hT hV k f j)).2 (norm_pos_iff.mpr hj))
  · exact Finset.sum_pos (fun f _ => Finset.sum_pos (fun j _ => div_pos (mul_pos (hT f b) (hV b j))
      (reconP_supp hS hZ hT hV k f j)) Finset.univ_nonempty) Finset.univ_nonempty

theorem updateLatent_supp [Nonempty F] [Nonempty (Fin t)] (hS : Covers S) (hsrc : Standard src) {Y : Spec F n t}
    (hY : ∀ f k, ∃ j, Y f k j ≠ 0) {Z : Fin n → Fin K → ℝ} {T : F → Fin K → ℝ} {V : Fin K → Fin t → ℝ} (hZ : Supp S Z)
    (hT : ∀ f b, 0 < T f b) (hV : ∀ b j, 0 < V b j) : Supp S (updateLatent src Y Z T V) := by
  have hraw : Supp S (latentRaw src Y Z T V) := by
    intro k b
    obtain ⟨c, hc, e⟩ := latentRaw_factor hS hsrc hY hZ hT hV k b
    rw [e]
    exact ⟨fun h => mul_pos hc ((hZ k b).1 h), fun h => by rw [(hZ k b).2 h, mul_zero]⟩
  exact (supp_div hS hraw).1

theorem updateSourceP_supp (hS : Covers S) (hsrc : Standard src) (hf : ∀ x, 0 ≤ x → 0 < floor x) (Y : Spec F n t)
    {Z : Fin n → Fin K → ℝ} {T : F → Fin K → ℝ} {V : Fin K → Fin t → ℝ} (hZ : Supp S Z) (hT : ∀ f b, 0 < T f b)
    (hV : ∀ b j, 0 < V b j) :
    (∀ f b, 0 < updateBasisP src floor Y Z T V f b) ∧ ∀ b j, 0 < updateActivationP src floor Y Z T V b j := by
  refine ⟨fun f b => hf _ ?_, fun b j => hf _ ?_⟩
  · refine mul_nonneg (Real.rpow_nonneg (div_nonneg (Finset.sum_nonneg fun k _ => Finset.sum_nonneg fun j _ => ?_)
      (Finset.sum_nonneg fun k _ => Finset.sum_nonneg fun j _ => ?_)) _) (hT f b).le
    · exact mul_nonneg (mul_nonneg (hZ.nonneg k b) (hV b j).le) (num_spec hsrc (norm_nonneg _) (reconP_supp hS hZ hT hV k f j)).1
    · exact div_nonneg (mul_nonneg (hZ.nonneg k b) (hV b j).le) (reconP_supp hS hZ hT hV k f j).le
  · refine mul_nonneg (Real.rpow_nonneg (div_nonneg (Finset.sum_nonneg fun k _ => Finset.sum_nonneg fun f _ => ?_)
      (Finset.sum_nonneg fun k _ => Finset.sum_nonneg fun f _ => ?_)) _) (hV b j).le
    · exact mul_nonneg (mul_nonneg (hZ.nonneg k b) (hT f b).le) (num_spec hsrc (norm_nonneg _) (reconP_supp hS hZ hT hV k f j)).1
    · exact div_nonneg (mul_nonneg (hZ.nonneg k b) (hT f b).le) (reconP_supp hS hZ hT hV k f j).le

theorem updateSourceP_invS [Nonempty F] [Nonempty (Fin t)] (hS : Covers S) (hsrc : Standard src) (hf : ∀ x, 0 ≤ x → 0 < floor x)
    (hX : ∀ f, LinearIndependent ℂ (X f).row) {s : StP F n t K} (hs : InvS S s) : InvS S (updateSourceP src floor X s) := by
  have hZ := updateLatent_supp hS hsrc (Y := separate X s.W) (fun f k => Iva.exists_separate_ne hX hs.1 f k) hs.2.1 hs.2.2.1
    hs.2.2.2
  have hT := (updateSourceP_supp hS hsrc hf (separate X s.W) hZ hs.2.2.1 hs.2.2.2).1
  exact ⟨hs.1, hZ, hT, (updateSourceP_supp hS hsrc hf (separate X s.W) hZ hT hs.2.2.2).2⟩

theorem normalizeP_invS (hS : Covers S) {norm : Norm n} (hn : norm.Plain) (hf : ∀ x, 0 ≤ x → 0 < floor x) {s : StP F n t K}
    (hs : InvS S s) : ∃ s', normalizeP p floor X norm s = .ok s' ∧ InvS S s' := by
  cases norm with
  | off => exact ⟨s, rfl, hs⟩
  | power =>
    have h : Supp S (latentPsi p (psi floor (separate X s.W)) s.Z) := fun k b =>
      ⟨fun hk => div_pos ((hs.2.1 k b).1 hk) (Real.rpow_pos_of_pos (psi_pos hf _ k) p),
        fun hk => by rw [latentPsi, (hs.2.1 k b).2 hk, zero_div]⟩
    obtain ⟨h1, h2⟩ := supp_div hS h
    exact ⟨_, rfl, divRows_isUnit (psi_pos hf _) hs.1, h1, fun f b => mul_pos (hs.2.2.1 f b) (h2 b), hs.2.2.2⟩
  | projectionBack r => exact absurd hn (by simp [Norm.Plain])

variable {np : Numpy ℂ}

theorem updateOnceP_invS [Nonempty F] [Nonempty (Fin t)] (hS : Covers S) (hsrc : Standard src)
    {alg : FilterAlg n} (halg : alg.Valid) {norm : Norm n} (hn : norm.Plain) (hf : ∀ x, 0 ≤ x → 0 < floor x)
    (hX : ∀ f, LinearIndependent ℂ (X f).row) (s : StP F n t K) (hs : InvS S s) :
    ∃ s', updateOnceP np src p alg norm floor X s = .ok s' ∧ InvS S s' := by
  obtain ⟨s1, e1⟩ : ∃ s1, s1 = updateSourceP src floor X s := ⟨_, rfl⟩
  have hs1 : InvS S s1 := e1 ▸ updateSourceP_invS hS hsrc hf hX hs
  obtain ⟨W, h1, h2⟩ := spatialFilter_floored np halg (fun x hx => (hf x hx.le).ne') (fun f k j => phi_pos hsrc hf
    (norm_nonneg (separate X s1.W f k j)) (reconP_supp hS hs1.2.1 hs1.2.2.1 hs1.2.2.2 k f j)) hX hs1.1
  obtain ⟨s', h3, h4⟩ := normalizeP_invS (p := p) (X := X) hS hn hf (s := (⟨W, s1.Z, s1.T, s1.V⟩ : StP F n t K)) ⟨h2, hs1.2⟩
  refine ⟨s', ?_, h4⟩
  have h1' : spatialFilter np alg floor (varphi src floor (separate X s1.W) (reconP s1.Z s1.T s1.V)) X s1.W = .ok W := h1
  simp only [updateOnceP, ← e1, updateSpatialP, h1', bind, Except.bind, h3]

theorem updateOnceYP_invS [Nonempty F] [Nonempty (Fin t)] (hS : Covers S) (hsrc : Standard src)
    {alg : SignalAlg n} (halg : alg.Valid) {norm : Norm n} (hn : norm.Plain) (hf : ∀ x, 0 ≤ x → 0 < floor x)
    (hX : ∀ f, LinearIndependent ℂ (X f).row) (s : StYP F n t K) (hs : ∃ s0, InvS S s0 ∧ s = s0.toY X) :
    ∃ s', updateOnceYP np src p alg norm floor s = .ok s' ∧ ∃ s0, InvS S s0 ∧ s' = s0.toY X := by
  obtain ⟨s0, hs0, rfl⟩ := hs
  obtain ⟨s1, e1⟩ : ∃ s1, s1 = updateSourceP src floor X s0 := ⟨_, rfl⟩
  have hs1 : InvS S s1 := e1 ▸ updateSourceP_invS hS hsrc hf hX hs0
  obtain ⟨W, h1, h2⟩ := spatialSignal_floored np halg hf (fun f k j => phi_pos hsrc hf
    (norm_nonneg (separate X s1.W f k j)) (reconP_supp hS hs1.2.1 hs1.2.2.1 hs1.2.2.2 k f j)) hX hs1.1
  obtain ⟨s', h3, h4⟩ := normalizeP_invS (p := p) (X := X) hS hn hf (s := (⟨W, s1.Z, s1.T, s1.V⟩ : StP F n t K)) ⟨h2, hs1.2⟩
  refine ⟨s'.toY X, ?_, s', h4, rfl⟩
  have h1' : spatialSignal np alg floor (varphi src floor (separate X s1.W) (reconP s1.Z s1.T s1.V)) (separate X s1.W)
    = .ok (separate X W) := h1
  have e2 : updateSourceYP src floor (s0.toY X) = s1.toY X := by rw [e1]; rfl
  rw [updateOnceYP, e2]
  simp only [updateSpatialYP, StP.toY, h1', bind, Except.bind]
  cases norm with
  | off => rw [← Except.ok.inj h3]; rfl
  | power => rw [← Except.ok.inj h3]; simp only [normalizeYP, separate_divRows]
  | projectionBack r => exact absurd hn (by simp [Norm.Plain])

end support

section calls

variable [Nonempty F] [Nonempty (Fin t)] (np : Numpy ℂ) {src : Source} (hsrc : Standard src) (p : ℝ) {norm : Norm n}
  (hn : norm.Plain) {floor : ℝ → ℝ} (hf : ∀ x, 0 ≤ x → 0 < floor x) {sr : ScaleOpt} (hsr : Known sr) (r : Fin n)
  {X : Spec F n t} (hX : ∀ f, LinearIndependent ℂ (X f).row) (n_iter : ℕ) (ic : Bool)

include hsrc hn hf hsr hX

/-- C102: partitioned ILRMA started with latent variables of which some are zero returns and leaves exactly the same ones zero:
a source never starts and never stops using a component. -/
theorem C102_support {S : Fin n → Fin K → Prop} (hS : Covers S) {alg : FilterAlg n} (halg : alg.Valid) (draw : DrawP F n t K)
    (hdT : ∀ f b, 0 ≤ draw.T f b) (hdV : ∀ b j, 0 ≤ draw.V b j) (kw : KwP F n t K) (o : ObjP F n t K)
    (hW : Attr.Has (fun W => ∀ f, IsUnit (W f).det) (override kw.demix o.demix))
    {Z : Fin n → Fin K → ℝ} (hZ : override kw.latent o.latent = .val Z) (hZS : Supp S Z)
    (hT : Attr.Has (fun T => ∀ f b, 0 < T f b) (override kw.basis o.basis))
    (hV : Attr.Has (fun V => ∀ b j, 0 < V b j) (override kw.activation o.activation)) :
    ∃ W Z' T V ls, callP np src p alg norm floor sr r draw X n_iter ic kw o
        = .ok ⟨.val W, .val Z', .val T, .val V, .val (separate X W), ls⟩ ∧ Supp S Z' ∧
      (∀ f b, 0 < T f b) ∧ (∀ b j, 0 < V b j) ∧ ls.length = o.loss.length + (if ic then 1 else 0) + n_iter := by
  obtain ⟨T, a1, a2⟩ := attrOr_has hT (fun f b => floor (draw.T f b)) fun _ _ => hf _ (hdT _ _)
  obtain ⟨V, b1, b2⟩ := attrOr_has hV (fun f b => floor (draw.V f b)) fun _ _ => hf _ (hdV _ _)
  obtain ⟨W, w1, w2⟩ := reset_ok (label alg) X (kw := kw.demix) (o := ⟨o.demix, o.output⟩) hW
  rw [label_filterFree, if_neg (by simp)] at w2
  have hreset : resetFilterP alg floor draw X kw o = .ok ⟨W, Z, T, V⟩ := by
    simp only [resetFilterP, w2, initNmfP, hZ, a1, b1, bind, Except.bind, show attrOr (initLatent floor draw.Z) (.val Z) = .ok Z from rfl]
  obtain ⟨s', ls, e1, e2, -, e3⟩ := baseCall_inv (InvS S) (InvS S) (fun _ h => h)
    (fun s hs => updateOnceP_invS (np := np) (p := p) hS hsrc halg hn hf hX s hs)
    (loss := fun s => .ok (lossP src X s)) (fun s _ => ⟨_, rfl⟩) ic n_iter (⟨W, Z, T, V⟩ : StP F n t K) o.loss ⟨w1, hZS, a2, b2⟩
  obtain ⟨W', f1⟩ := finish_ok hsr r hX e2.1
  refine ⟨W', s'.Z, s'.T, s'.V, ls, ?_, e2.2.1, e2.2.2.1, e2.2.2.2, e3⟩
  simp only [callP, hreset, e1, f1, bind, Except.bind]

/-- C102 with ISS1 or ISS2. -/
theorem C102_support_signal {S : Fin n → Fin K → Prop} (hS : Covers S) {alg : SignalAlg n} (halg : alg.Valid)
    (draw : DrawP F n t K) (hdT : ∀ f b, 0 ≤ draw.T f b) (hdV : ∀ b j, 0 ≤ draw.V b j) (kw : KwP F n t K) (o : ObjP F n t K)
    (hW : Attr.Has (fun W => ∀ f, IsUnit (W f).det) (override kw.demix o.demix))
    {Z : Fin n → Fin K → ℝ} (hZ : override kw.latent o.latent = .val Z) (hZS : Supp S Z)
    (hT : Attr.Has (fun T => ∀ f b, 0 < T f b) (override kw.basis o.basis))
    (hV : Attr.Has (fun V => ∀ b j, 0 < V b j) (override kw.activation o.activation)) :
    ∃ W Z' T V ls, callSignalP np src p alg norm floor sr r draw X n_iter ic kw o
        = .ok ⟨.none, .val Z', .val T, .val V, .val (separate X W), ls⟩ ∧ Supp S Z' ∧
      (∀ f b, 0 < T f b) ∧ (∀ b j, 0 < V b j) ∧ ls.length = o.loss.length + (if ic then 1 else 0) + n_iter := by
  obtain ⟨T, a1, a2⟩ := attrOr_has hT (fun f b => floor (draw.T f b)) fun _ _ => hf _ (hdT _ _)
  obtain ⟨V, b1, b2⟩ := attrOr_has hV (fun f b => floor (draw.V f b)) fun _ _ => hf _ (hdV _ _)
  obtain ⟨W, w1, w2⟩ := reset_ok (labelY alg) X (kw := kw.demix) (o := ⟨o.demix, o.output⟩) hW
  have hreset : resetSignalP alg floor draw X kw o = .ok ((⟨W, Z, T, V⟩ : StP F n t K).toY X) := by
    simp only [resetSignalP, w2, initNmfP, hZ, a1, b1, bind, Except.bind, show attrOr (initLatent floor draw.Z) (.val Z) = .ok Z from rfl]
    rfl
  obtain ⟨s', ls, e1, ⟨s0, e2, rfl⟩, -, e3⟩ := baseCall_inv (fun s => ∃ s0, InvS S s0 ∧ s = s0.toY X)
    (fun s => ∃ s0, InvS S s0 ∧ s = s0.toY X)
    (fun _ h => h) (fun s hs => updateOnceYP_invS (np := np) (p := p) hS hsrc halg hn hf hX s hs)
    (loss := lossYP src X) (fun s hs => by
      obtain ⟨s0, -, rfl⟩ := hs
      exact ⟨_, lossYP_toY src X hX s0⟩) ic n_iter _ o.loss ⟨⟨W, Z, T, V⟩, ⟨w1, hZS, a2, b2⟩, rfl⟩
  obtain ⟨W', f1⟩ := finishFree_ok hsr r hX e2.1
  refine ⟨W', s0.Z, s0.T, s0.V, ls, ?_, e2.2.1, e2.2.2.1, e2.2.2.2, e3⟩
  simp only [callSignalP, hreset, e1, bind, Except.bind]
  rw [show (s0.toY X).Y = separate X s0.W from rfl, f1]
  rfl

end calls

/-! ## Hard assignments -/

section hard

variable (e : Fin n × Fin K ≃ Fin M)

/-- Component `e (k, b)` belongs to source `k` alone. -/
def hard (k : Fin n) (b : Fin M) : ℝ := if (e.symm b).1 = k then 1 else 0

/-- The bases of all sources side by side. -/
def flatT (T : Fin n → F → Fin K → ℝ) (f : F) (b : Fin M) : ℝ := T (e.symm b).1 f (e.symm b).2

/-- The activations of all sources below each other. -/
def flatV (V : Fin n → Fin K → Fin t → ℝ) (b : Fin M) (j : Fin t) : ℝ := V (e.symm b).1 (e.symm b).2 j

/-- The state of a partitioned run that corresponds to a state of a run without partitioning. -/
def toP (s : St F n t K) : StP F n t M := ⟨s.W, hard e, flatT e s.T, flatV e s.V⟩

/-- The same without filters. -/
def toYP (s : StY F n t K) : StYP F n t M := ⟨s.Y, hard e, flatT e s.T, flatV e s.V⟩

theorem sum_hard (b : Fin M) (g : Fin n → ℝ) : ∑ k, hard e k b * g k = g (e.symm b).1 := by
  simp [hard]

omit [Fintype F] in
theorem reconP_hard (T : Fin n → F → Fin K → ℝ) (V : Fin n → Fin K → Fin t → ℝ) :
    reconP (hard e) (flatT e T) (flatV e V) = recon T V := by
  funext k f j
  rw [reconP, ← e.sum_comp, Fintype.sum_prod_type]
  simp only [hard, flatT, flatV, Equiv.symm_apply_apply, recon]
  rw [Finset.sum_eq_single k]
  · simp
  · intro i _ hi
    exact Finset.sum_eq_zero fun b _ => by rw [if_neg hi, zero_mul]
  · simp

variable {src : Source} {p : ℝ} {floor : ℝ → ℝ} {X : Spec F n t}

omit [Fintype F] in
theorem updateBasisP_hard (Y : Spec F n t) (T : Fin n → F → Fin K → ℝ) (V : Fin n → Fin K → Fin t → ℝ) :
    updateBasisP src floor Y (hard e) (flatT e T) (flatV e V) = flatT e (updateBasis src floor Y T V) := by
  funext f b
  have h : ∀ (g : Fin n → Fin t → ℝ), ∑ k, ∑ j, hard e k b * g k j = ∑ j, g (e.symm b).1 j := by
    intro g
    rw [← sum_hard e b fun k => ∑ j, g k j]
    exact Finset.sum_congr rfl fun k _ => Finset.mul_sum _ _ _ |>.symm
  simp only [updateBasisP, basisRawP, reconP_hard, flatT, updateBasis, basisRaw, mul_assoc, mul_div_assoc, h]
  rfl

theorem updateActivationP_hard (Y : Spec F n t) (T : Fin n → F → Fin K → ℝ) (V : Fin n → Fin K → Fin t → ℝ) :
    updateActivationP src floor Y (hard e) (flatT e T) (flatV e V) = flatV e (updateActivation src floor Y T V) := by
  funext b j
  have h : ∀ (g : Fin n → F → ℝ), ∑ k, ∑ f, hard e k b * g k f = ∑ f, g (e.symm b).1 f := by
    intro g
    rw [← sum_hard e b fun k => ∑ f, g k f]
    exact Finset.sum_congr rfl fun k _ => Finset.mul_sum _ _ _ |>.symm
  simp only [updateActivationP, activationRawP, reconP_hard, flatV, updateActivation, activationRaw, mul_assoc, mul_div_assoc, h]
  rfl

/-- Source `k` uses component `b`. -/
def Uses (k : Fin n) (b : Fin M) : Prop := (e.symm b).1 = k

theorem covers [Nonempty (Fin K)] : Covers (Uses e) := by
  obtain ⟨c⟩ := ‹Nonempty (Fin K)›
  exact ⟨fun k => ⟨e (k, c), by simp [Uses]⟩, fun b => ⟨_, rfl⟩⟩

theorem supp_hard : Supp (Uses e) (hard e) := fun k b =>
  ⟨fun (h : (e.symm b).1 = k) => by rw [hard, if_pos h]; exact one_pos, fun (h : ¬ (e.symm b).1 = k) => by rw [hard, if_neg h]⟩

/-- Latent variables with the support of the hard assignment, divided by their sums, are the hard assignment. -/
theorem hard_div [Nonempty (Fin K)] {Z : Fin n → Fin M → ℝ} (hZ : Supp (Uses e) Z) : (fun k b => Z k b / ∑ k', Z k' b) = hard e := by
  funext k b
  have hs : ∑ k', Z k' b = Z (e.symm b).1 b :=
    Finset.sum_eq_single _ (fun k' _ hk => (hZ k' b).2 fun h => hk h.symm) (by simp)
  rw [hs, hard]
  split_ifs with h
  · rw [← h]
    exact div_self ((hZ _ b).1 rfl).ne'
  · rw [(hZ k b).2 h, zero_div]

theorem updateLatent_hard [Nonempty F] [Nonempty (Fin t)] [Nonempty (Fin K)] (hsrc : Standard src) {Y : Spec F n t}
    (hY : ∀ f k, ∃ j, Y f k j ≠ 0) {T : Fin n → F → Fin K → ℝ} {V : Fin n → Fin K → Fin t → ℝ} (hT : ∀ k f b, 0 < T k f b)
    (hV : ∀ k b j, 0 < V k b j) : updateLatent src Y (hard e) (flatT e T) (flatV e V) = hard e := by
  refine hard_div e fun k b => ?_
  obtain ⟨c, hc, h⟩ := latentRaw_factor (covers e) hsrc hY (supp_hard e) (T := flatT e T) (V := flatV e V)
    (fun f b => hT _ f _) (fun b j => hV _ _ j) k b
  rw [h]
  exact ⟨fun h => mul_pos hc ((supp_hard e k b).1 h), fun h => by rw [(supp_hard e k b).2 h, mul_zero]⟩

theorem updateSourceP_hard [Nonempty F] [Nonempty (Fin t)] [Nonempty (Fin K)] (hsrc : Standard src)
    (hX : ∀ f, LinearIndependent ℂ (X f).row) {s : St F n t K} (hs : Inv s) :
    updateSourceP src floor X (toP e s) = toP e (updateSource src floor X s) := by
  have h := updateLatent_hard e hsrc (Y := separate X s.W) (fun f k => Iva.exists_separate_ne hX hs.1 f k) hs.2.1 hs.2.2
  simp only [updateSourceP, toP, h, updateBasisP_hard, updateActivationP_hard, updateSource]

omit [Fintype F] in
theorem normLatent_hard [Nonempty (Fin K)] {ψ : Fin n → ℝ} (hψ : ∀ k, 0 < ψ k) (T : Fin n → F → Fin K → ℝ) :
    normLatent p ψ (hard e) = hard e ∧ normBasisP p ψ (hard e) (flatT e T) = flatT e (divBasis p ψ T) := by
  constructor
  · refine hard_div e fun k b => ?_
    exact ⟨fun h => div_pos ((supp_hard e k b).1 h) (Real.rpow_pos_of_pos (hψ k) p),
      fun h => by rw [latentPsi, (supp_hard e k b).2 h, zero_div]⟩
  · funext f b
    have : ∑ k', latentPsi p ψ (hard e) k' b = (ψ (e.symm b).1 ^ p)⁻¹ := by
      rw [← sum_hard e b fun k => (ψ k ^ p)⁻¹]
      rfl
    rw [normBasisP, this]
    rfl

theorem normalizeP_hard [Nonempty (Fin K)] {norm : Norm n} (hn : norm.Plain) (hf : ∀ x, 0 ≤ x → 0 < floor x) (s : St F n t K) :
    normalizeP p floor X norm (toP e s) = Except.map (toP e) (Ilrma.normalize p floor X norm s) := by
  cases norm with
  | off => rfl
  | power =>
    obtain ⟨h1, h2⟩ := normLatent_hard e (p := p) (psi_pos hf (separate X s.W)) s.T
    simp only [normalizeP, toP, h1, h2, Ilrma.normalize, Except.map]
  | projectionBack r => exact absurd hn (by simp [Norm.Plain])

theorem normalizeYP_hard [Nonempty (Fin K)] {norm : Norm n} (hn : norm.Plain) (hf : ∀ x, 0 ≤ x → 0 < floor x) (s : StY F n t K) :
    normalizeYP p floor norm (toYP e s) = Except.map (toYP e) (normalizeY p floor X norm s) := by
  cases norm with
  | off => rfl
  | power =>
    obtain ⟨h1, h2⟩ := normLatent_hard e (p := p) (psi_pos hf s.Y) s.T
    simp only [normalizeYP, toYP, h1, h2, normalizeY, Except.map]
  | projectionBack r => exact absurd hn (by simp [Norm.Plain])

variable {np : Numpy ℂ}

theorem updateOnceP_hard [Nonempty F] [Nonempty (Fin t)] [Nonempty (Fin K)] (hsrc : Standard src) (alg : FilterAlg n)
    {norm : Norm n} (hn : norm.Plain) (hf : ∀ x, 0 ≤ x → 0 < floor x) (hX : ∀ f, LinearIndependent ℂ (X f).row) {s : St F n t K}
    (hs : Inv s) : updateOnceP np src p alg norm floor X (toP e s) = Except.map (toP e) (updateOnce np src p alg norm floor X s) := by
  rw [updateOnceP, updateSourceP_hard e hsrc hX hs, updateOnce, map_bind]
  have h : ∀ s : St F n t K, updateSpatialP np src alg floor X (toP e s)
      = Except.map (toP e) (updateSpatial np src alg floor X s) := by
    intro s
    rw [updateSpatialP, updateSpatial, map_bind]
    simp only [toP, reconP_hard]
    rfl
  rw [h, bind_map]
  congr 1
  funext s
  exact normalizeP_hard e hn hf s

theorem updateOnceYP_hard [Nonempty F] [Nonempty (Fin t)] [Nonempty (Fin K)] (hsrc : Standard src) (alg : SignalAlg n)
    {norm : Norm n} (hn : norm.Plain) (hf : ∀ x, 0 ≤ x → 0 < floor x) (hX : ∀ f, LinearIndependent ℂ (X f).row) {s : St F n t K}
    (hs : Inv s) :
    updateOnceYP np src p alg norm floor (toYP e (s.toY X)) = Except.map (toYP e) (updateOnceY np src p alg norm floor X (s.toY X)) := by
  have h0 : updateSourceYP src floor (toYP e (s.toY X)) = toYP e (updateSourceY src floor (s.toY X)) := by
    have h := updateLatent_hard e hsrc (Y := separate X s.W) (fun f k => Iva.exists_separate_ne hX hs.1 f k) hs.2.1 hs.2.2
    simp only [updateSourceYP, toYP, St.toY, h, updateBasisP_hard, updateActivationP_hard, updateSourceY]
  rw [updateOnceYP, h0, updateOnceY, map_bind]
  have h : ∀ s : StY F n t K, updateSpatialYP np src alg floor (toYP e s)
      = Except.map (toYP e) (updateSpatialY np src alg floor s) := by
    intro s
    rw [updateSpatialYP, updateSpatialY, map_bind]
    simp only [toYP, reconP_hard]
    rfl
  rw [h, bind_map]
  congr 1
  funext s
  exact normalizeYP_hard e hn hf s

/-- Two loops whose states correspond as long as an invariant holds. -/
theorem baseCall_corr {σ τ : Type} {step : σ → Except PyErr σ} {step' : τ → Except PyErr τ} {loss : σ → Except PyErr ℝ}
    {loss' : τ → Except PyErr ℝ} (φ : σ → τ) (P : σ → Prop) (hstep : ∀ s, P s → ∃ s', step s = .ok s' ∧ P s')
    (h : ∀ s, P s → step' (φ s) = Except.map φ (step s)) (hl : ∀ s, P s → loss' (φ s) = loss s) (ic : Bool) (k : ℕ) {s : σ}
    (hs : P s) (ls : List ℝ) :
    baseCall step' loss' ic k (φ s) ls = Except.map (fun q => (φ q.1, q.2)) (baseCall step loss ic k s ls) := by
  have key : ∀ (k : ℕ) (s : σ) (ls : List ℝ), P s →
      iterations step' loss' k (φ s) ls = Except.map (fun q => (φ q.1, q.2)) (iterations step loss k s ls) := by
    intro k
    induction k with
    | zero => exact fun s ls _ => rfl
    | succ k ih =>
      intro s ls hs
      obtain ⟨s', e1, h1⟩ := hstep s hs
      rw [iterations, iterations, h s hs, e1]
      change (loss' (φ s') >>= fun v => iterations step' loss' k (φ s') (ls ++ [v]))
        = Except.map _ (loss s' >>= fun v => iterations step loss k s' (ls ++ [v]))
      rw [hl s' h1, map_bind]
      congr 1
      funext v
      exact ih s' _ h1
  cases ic with
  | false => exact key k s ls hs
  | true =>
    change (loss' (φ s) >>= fun v => iterations step' loss' k (φ s) (ls ++ [v]))
      = Except.map _ (loss s >>= fun v => iterations step loss k s (ls ++ [v]))
    rw [hl s hs, map_bind]
    congr 1
    funext v
    exact key k s _ hs

end hard

section hardcalls

variable [Nonempty F] [Nonempty (Fin t)] [Nonempty (Fin K)] (e : Fin n × Fin K ≃ Fin M) (np : Numpy ℂ) {src : Source}
  (hsrc : Standard src) (p : ℝ) {norm : Norm n} (hn : norm.Plain) {floor : ℝ → ℝ} (hf : ∀ x, 0 ≤ x → 0 < floor x)
  (sr : ScaleOpt) (r : Fin n) {X : Spec F n t} (hX : ∀ f, LinearIndependent ℂ (X f).row) (n_iter : ℕ) (ic : Bool)

/-- Two objects and the keywords of a call of each start it from the same filters, outputs and losses and from corresponding
bases and activations, with hard assignments on the partitioned side. -/
structure SameStart (kw : Kw F n t K) (o : IlrmaCall.Obj F n t K) (kwP : KwP F n t M) (oP : ObjP F n t M)
    (T : Fin n → F → Fin K → ℝ) (V : Fin n → Fin K → Fin t → ℝ) : Prop where
  kw_demix : kwP.demix = kw.demix
  demix : oP.demix = o.demix
  output : oP.output = o.output
  loss : oP.loss = o.loss
  unit : Attr.Has (fun W => ∀ f, IsUnit (W f).det) (override kw.demix o.demix)
  latent : override kwP.latent oP.latent = .val (hard e)
  basis : override kw.basis o.basis = .val T
  basisP : override kwP.basis oP.basis = .val (flatT e T)
  basis_pos : ∀ k f b, 0 < T k f b
  activation : override kw.activation o.activation = .val V
  activationP : override kwP.activation oP.activation = .val (flatV e V)
  activation_pos : ∀ k b j, 0 < V k b j

/-- What a call without partitioning leaves, as what a call with partitioning leaves. -/
def asP (o : IlrmaCall.Obj F n t K) : ObjP F n t M :=
  ⟨o.demix, .val (hard e), match o.basis with | .val T => .val (flatT e T) | .none => .none | .absent => .absent,
    match o.activation with | .val V => .val (flatV e V) | .none => .none | .absent => .absent, o.output, o.loss⟩

include hsrc hn hf hX

/-- C102: partitioned ILRMA whose components are assigned to one source each, equally many to every source, does what ILRMA
without partitioning does: the call returns or raises alike, and leaves the same filters, outputs and losses, the bases and
activations of all sources side by side, and the assignment as it was. -/
theorem C102_hard {alg : FilterAlg n} (halg : alg.Valid) (draw : Draw F n t K) (drawP : DrawP F n t M) {kw : Kw F n t K}
    {o : IlrmaCall.Obj F n t K} {kwP : KwP F n t M} {oP : ObjP F n t M} {T : Fin n → F → Fin K → ℝ}
    {V : Fin n → Fin K → Fin t → ℝ} (h : SameStart e kw o kwP oP T V) :
    callP np src p alg norm floor sr r drawP X n_iter ic kwP oP
      = Except.map (asP e) (IlrmaCall.call np src p alg norm floor sr r draw X n_iter ic kw o) := by
  obtain ⟨W, w1, w2⟩ := reset_ok (label alg) X (kw := kw.demix) (o := ⟨o.demix, o.output⟩) h.unit
  rw [label_filterFree, if_neg (by simp)] at w2
  have h1 : resetFilter alg floor draw X kw o = .ok ⟨W, T, V⟩ := by
    simp only [resetFilter, w2, initNmf, h.basis, h.activation, attrOr, bind, Except.bind]
  have h2 : resetFilterP alg floor drawP X kwP oP = .ok (toP e ⟨W, T, V⟩) := by
    simp only [resetFilterP, h.kw_demix, h.demix, h.output, w2, initNmfP, h.latent, h.basisP, h.activationP, attrOr, bind,
      Except.bind]
    rfl
  have h3 := baseCall_corr (toP e) Inv (fun s hs => updateOnce_inv (np := np) (p := p) hsrc halg hn hf hX s hs)
    (fun s hs => updateOnceP_hard e hsrc alg hn hf hX hs) (loss := fun s => .ok (loss src X s))
    (loss' := fun s => .ok (lossP src X s)) (fun s _ => by rw [lossP, loss, toP, reconP_hard]) ic n_iter
    (s := ⟨W, T, V⟩) ⟨w1, h.basis_pos, h.activation_pos⟩ o.loss
  simp only [callP, IlrmaCall.call, h1, h2, h.loss, bind, Except.bind] at h3 ⊢
  rw [h3]
  cases baseCall (updateOnce np src p alg norm floor X) (fun s => .ok (loss src X s)) ic n_iter ⟨W, T, V⟩ o.loss with
  | error e => rfl
  | ok q =>
    simp only [Except.map, toP]
    cases finish sr r X q.1.W <;> rfl

/-- C102 with ISS1 or ISS2. -/
theorem C102_hard_signal {alg : SignalAlg n} (halg : alg.Valid) (draw : Draw F n t K) (drawP : DrawP F n t M) {kw : Kw F n t K}
    {o : IlrmaCall.Obj F n t K} {kwP : KwP F n t M} {oP : ObjP F n t M} {T : Fin n → F → Fin K → ℝ}
    {V : Fin n → Fin K → Fin t → ℝ} (h : SameStart e kw o kwP oP T V) :
    callSignalP np src p alg norm floor sr r drawP X n_iter ic kwP oP
      = Except.map (asP e) (callSignal np src p alg norm floor sr r draw X n_iter ic kw o) := by
  obtain ⟨W, w1, w2⟩ := reset_ok (labelY alg) X (kw := kw.demix) (o := ⟨o.demix, o.output⟩) h.unit
  have h1 : resetSignal alg floor draw X kw o = .ok ((⟨W, T, V⟩ : St F n t K).toY X) := by
    simp only [resetSignal, w2, initNmf, h.basis, h.activation, attrOr, bind, Except.bind]
    rfl
  have h2 : resetSignalP alg floor drawP X kwP oP = .ok (toYP e ((⟨W, T, V⟩ : St F n t K).toY X)) := by
    simp only [resetSignalP, h.kw_demix, h.demix, h.output, w2, initNmfP, h.latent, h.basisP, h.activationP, attrOr, bind,
      Except.bind]
    rfl
  have h3 := baseCall_corr (toYP e) (fun s => ∃ s0, Inv s0 ∧ s = s0.toY X)
    (fun s hs => updateOnceY_inv (np := np) (p := p) hsrc halg hn hf hX s hs)
    (fun s hs => by
      obtain ⟨s0, h0, rfl⟩ := hs
      exact updateOnceYP_hard (np := np) e hsrc alg hn hf hX h0) (loss := lossY src X) (loss' := lossYP src X)
    (fun s _ => by simp only [lossYP, lossY, toYP, reconP_hard]) ic n_iter
    (s := (⟨W, T, V⟩ : St F n t K).toY X) ⟨⟨W, T, V⟩, ⟨w1, h.basis_pos, h.activation_pos⟩, rfl⟩ o.loss
  simp only [callSignalP, callSignal, h1, h2, h.loss, bind, Except.bind] at h3 ⊢
  rw [h3]
  cases baseCall (updateOnceY np src p alg norm floor X) (lossY src X) ic n_iter ((⟨W, T, V⟩ : St F n t K).toY X) o.loss with
  | error e => rfl
  | ok q =>
    simp only [Except.map, toYP]
    cases finishFree sr r X q.1.Y <;> rfl

end hardcalls

/-- Three components, the middle one shared by both sources: `GGDILRMA` with ISS2 leaves the two zeros where they are. -/
example (np : Numpy ℂ) (n_iter : ℕ) : ∃ o' Z', callSignalP np (ggd 2 1) 2 (.iss2 [(0, 1)]) .power
    (Special.max_flooring (1 / 10 ^ 10)) (.bool true) 0
    (⟨fun _ _ => 1 / 3, fun _ _ => 0, fun _ _ => 1 / 2⟩ : DrawP (Fin 3) 2 4 3) FlooredCall.exX n_iter true
    { latent := some !![1, 1 / 2, 0; 0, 1 / 2, 1] } ObjP.fresh = .ok o' ∧ o'.latent = .val Z' ∧ Z' 1 0 = 0 ∧ Z' 0 2 = 0 ∧
      0 < Z' 0 1 ∧ 0 < Z' 1 1 := by
  let S : Fin 2 → Fin 3 → Prop := fun k b => ¬ (k = 1 ∧ b = 0) ∧ ¬ (k = 0 ∧ b = 2)
  have hS : Covers S := ⟨fun k => ⟨1, by simp [S]⟩, fun b => by
    fin_cases b
    · exact ⟨0, by simp [S]⟩
    · exact ⟨0, by simp [S]⟩
    · exact ⟨1, by simp [S]⟩⟩
  have hZ : Supp S !![1, 1 / 2, 0; 0, 1 / 2, 1] := by
    intro k b
    fin_cases k <;> fin_cases b <;> simp [S]
  obtain ⟨W, Z', T, V, ls, h, hz, -⟩ := C102_support_signal np (.ggd two_pos one_pos one_le_two) 2 (norm := .power) trivial
    (fun x _ => max_flooring_pos x) (sr := .bool true) (.inr (.inl (.inl rfl))) 0 FlooredCall.exX_indep n_iter true hS (alg := .iss2 [(0, 1)])
    (by simp [SignalAlg.Valid]) (⟨fun _ _ => 1 / 3, fun _ _ => 0, fun _ _ => 1 / 2⟩ : DrawP (Fin 3) 2 4 3)
    (fun _ _ => le_rfl) (fun _ _ => by norm_num) { latent := some !![1, 1 / 2, 0; 0, 1 / 2, 1] } ObjP.fresh (.inl rfl) rfl hZ
    (.inl rfl) (.inl rfl)
  exact ⟨_, Z', h, rfl, (hz 1 0).2 (by simp [S]), (hz 0 2).2 (by simp [S]), (hz 0 1).1 (by simp [S]), (hz 1 1).1 (by simp [S])⟩

/-- Two sources with three components each, all six side by side. -/
example : SameStart (F := Fin 3) (t := 4) finProdFinEquiv { basis := some (fun _ _ _ => 1), activation := some (fun _ _ _ => 2) }
    (Obj.fresh : IlrmaCall.Obj (Fin 3) 2 4 3)
    { latent := some (hard finProdFinEquiv), basis := some (fun _ _ => 1), activation := some (fun _ _ => 2) } ObjP.fresh (fun _ _ _ => 1) fun _ _ _ => 2 where
  kw_demix := rfl
  demix := rfl
  output := rfl
  loss := rfl
  unit := .inl rfl
  latent := rfl
  basis := rfl
  basisP := rfl
  basis_pos _ _ _ := one_pos
  activation := rfl
  activationP := rfl
  activation_pos _ _ _ := two_pos

end Verif.HardPartition
