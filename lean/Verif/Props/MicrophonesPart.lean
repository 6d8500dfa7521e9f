import Verif.Props.Microphones

/-!
# C118 for AuxGaussIVA and for ILRMA with partitioning
-/

set_option linter.unusedSectionVars false

namespace Verif.Microphones

open Matrix Spatial Scale Lifecycle
open IlrmaCall (override attrOr baseCall)
open Relabel (mapA)

variable {F : Type} [Fintype F] {n t K : ℕ} {A : F → Mat n ℂ} (hA : ∀ f, IsUnit (A f).det) {g : F → ℂ} {r r' : Fin n} {sr : ScaleOpt}
  (hR : Reference sr r r' A g)
include hA

theorem lossOf_unmix (src : Ilrma.Source) (Y : Spec F n t) (R : Fin n → F → Fin t → ℝ) {W : F → Mat n ℂ}
    (hW : ∀ f, IsUnit (W f).det) : Ilrma.lossOf src Y R (unmix A W) = Ilrma.lossOf src Y R W + shift A := by
  simp only [Ilrma.lossOf, logdet_unmix A W hA hW, shift, Finset.mul_sum, ← Finset.sum_add_distrib]
  exact Finset.sum_congr rfl fun f _ => by ring

include hR

/-- C118 for `AuxGaussIVA` with IP1 or IP2. -/
theorem C118_gaussIva (np : Numpy ℂ) (alg : Ilrma.FilterAlg n) (floor : ℝ → ℝ) (X : Spec F n t) (n_iter : ℕ) (ic : Bool)
    {W : F → Mat n ℂ}
    (h : Keeps (IvaCall.gaussUpdate np alg floor X) (fun s => ∀ f, IsUnit (s.W f).det) n_iter ⟨W, fun _ _ => 1⟩) :
    IvaCall.gaussCall np alg floor sr r' (fun f => A f * X f) n_iter ic (some fun f => W f * (A f)⁻¹) .fresh
      = (IvaCall.gaussCall np alg floor sr r X n_iter ic (some W) .fresh).map fun o =>
        ⟨mapA (fun V f => g f • (V f * (A f)⁻¹)) o.demix, o.variance, mapA (fun Y f => g f • Y f) o.output,
          o.loss.map (· + 2 * ∑ f, Real.log ‖(A f).det‖)⟩ := by
  have hs : ∀ s, IvaCall.gaussUpdate np alg floor (remix A X) (Iva.GaussState.unmix A s)
      = Except.map (Iva.GaussState.unmix A) (IvaCall.gaussUpdate np alg floor X s) := by
    intro s
    cases alg with
    | ip1 => exact step_of_run (Iva.C71_gauss_ip1 A hA floor X s 1)
    | ip2 pairs => exact step_of_run (Iva.C71_gauss_ip2 A hA np floor pairs X s 1)
  have hrun := run_moved (loss := fun s => .ok (Iva.gaussLoss X s)) (loss' := fun s => .ok (Iva.gaussLoss (remix A X) s))
    (c := shift A) hs (fun s hW => congrArg Except.ok (by
      rw [Iva.gaussLoss, Iva.lossIp, Iva.ivaLoss, show (Iva.GaussState.unmix A s).W = unmix A s.W from rfl, separate_remix A hA,
        sum_logdet hA hW]
      rfl)) ic h
  have h1 : ∀ X W, IvaCall.gaussReset (F := F) (t := t) alg X (some W) .fresh = .ok ⟨W, fun _ _ => 1⟩ := by
    intro X W; cases alg <;> rfl
  change IvaCall.gaussCall np alg floor sr r' (remix A X) n_iter ic (some (unmix A W)) .fresh = _
  rw [IvaCall.gaussCall, IvaCall.gaussCall, h1, h1]
  rw [show (⟨unmix A W, fun _ _ => 1⟩ : Iva.GaussState F n t) = Iva.GaussState.unmix A ⟨W, fun _ _ => 1⟩ from rfl]
  simp only [bind, Except.bind, IvaCall.GaussObj.fresh, hrun]
  cases baseCall (IvaCall.gaussUpdate np alg floor X) (fun s => .ok (Iva.gaussLoss X s)) ic n_iter ⟨W, fun _ _ => 1⟩ [] with
  | error => rfl
  | ok q =>
    simp only [Except.map, show (Iva.GaussState.unmix A q.1).W = unmix A q.1.W from rfl, C118_finish hA hR]
    cases finish sr r X q.1.W <;> rfl

/-- C118 for ILRMA with partitioning and IP1 or IP2. -/
theorem C118_partitioned (np : Numpy ℂ) (src : Ilrma.Source) (p : ℝ) (alg : Ilrma.FilterAlg n) (norm : Ilrma.Norm n)
    (floor : ℝ → ℝ) (draw : IlrmaCall.DrawP F n t K) (X : Spec F n t) (n_iter : ℕ) (ic : Bool)
    {W : F → Mat n ℂ} {Z : Fin n → Fin K → ℝ} {T : F → Fin K → ℝ} {V : Fin K → Fin t → ℝ}
    (h : Keeps (Ilrma.updateOnceP np src p alg norm floor X) (fun s => ∀ f, IsUnit (s.W f).det) n_iter ⟨W, Z, T, V⟩) :
    IlrmaCall.callP np src p alg norm floor sr r' draw (fun f => A f * X f) n_iter ic
        ⟨some fun f => W f * (A f)⁻¹, some Z, some T, some V⟩ .fresh
      = (IlrmaCall.callP np src p alg norm floor sr r draw X n_iter ic ⟨some W, some Z, some T, some V⟩ .fresh).map fun o =>
        ⟨mapA (fun V f => g f • (V f * (A f)⁻¹)) o.demix, o.latent, o.basis, o.activation, mapA (fun Y f => g f • Y f) o.output,
          o.loss.map (· + 2 * ∑ f, Real.log ‖(A f).det‖)⟩ := by
  have hs : ∀ s : Ilrma.StP F n t K, Ilrma.updateOnceP np src p alg norm floor (remix A X) (s.unmix A)
      = Except.map (Ilrma.StP.unmix A) (Ilrma.updateOnceP np src p alg norm floor X s) := fun s =>
    step_of_run (Ilrma.C71_ilrma_partitioned A hA np src p alg norm floor X s 1)
  have hrun := run_moved (loss := fun s => .ok (Ilrma.lossP src X s)) (loss' := fun s => .ok (Ilrma.lossP src (remix A X) s))
    (c := shift A) hs (fun s hW => congrArg Except.ok (by
      rw [Ilrma.lossP, show (Ilrma.StP.unmix A s).W = unmix A s.W from rfl, separate_remix A hA, lossOf_unmix hA _ _ _ hW]
      rfl)) ic h
  have h1 : ∀ X W, IlrmaCall.resetFilterP alg floor draw X ⟨some W, some Z, some T, some V⟩ IlrmaCall.ObjP.fresh
      = .ok ⟨W, Z, T, V⟩ := by intro X W; cases alg <;> rfl
  change IlrmaCall.callP np src p alg norm floor sr r' draw (remix A X) n_iter ic ⟨some (unmix A W), some Z, some T, some V⟩ .fresh
    = _
  rw [IlrmaCall.callP, IlrmaCall.callP, h1, h1]
  rw [show (⟨unmix A W, Z, T, V⟩ : Ilrma.StP F n t K) = Ilrma.StP.unmix A ⟨W, Z, T, V⟩ from rfl]
  simp only [bind, Except.bind, IlrmaCall.ObjP.fresh, hrun]
  cases baseCall (Ilrma.updateOnceP np src p alg norm floor X) (fun s => .ok (Ilrma.lossP src X s)) ic n_iter ⟨W, Z, T, V⟩ [] with
  | error => rfl
  | ok q =>
    simp only [Except.map, show (Ilrma.StP.unmix A q.1).W = unmix A q.1.W from rfl, C118_finish hA hR]
    cases finish sr r X q.1.W <;> rfl

/-- C118 for ILRMA with partitioning and ISS1 or ISS2. -/
theorem C118_partitioned_signal (np : Numpy ℂ) (src : Ilrma.Source) (p : ℝ) (alg : Ilrma.SignalAlg n) (norm : Ilrma.Norm n)
    (floor : ℝ → ℝ) (draw : IlrmaCall.DrawP F n t K) (X : Spec F n t) (n_iter : ℕ) (ic : Bool)
    {W : F → Mat n ℂ} {Z : Fin n → Fin K → ℝ} {T : F → Fin K → ℝ} {V : Fin K → Fin t → ℝ}
    (h : Keeps (Ilrma.updateOnceYP np src p alg norm floor) (fun s => ∀ f, IsUnit (s.Y f * (X f)ᴴ * (X f * (X f)ᴴ)⁻¹).det) n_iter
      ⟨separate X W, Z, T, V⟩) :
    IlrmaCall.callSignalP np src p alg norm floor sr r' draw (fun f => A f * X f) n_iter ic
        ⟨some fun f => W f * (A f)⁻¹, some Z, some T, some V⟩ .fresh
      = (IlrmaCall.callSignalP np src p alg norm floor sr r draw X n_iter ic ⟨some W, some Z, some T, some V⟩ .fresh).map fun o =>
        ⟨.none, o.latent, o.basis, o.activation, mapA (fun Y f => g f • Y f) o.output,
          o.loss.map (· + 2 * ∑ f, Real.log ‖(A f).det‖)⟩ := by
  have hs : ∀ s : Ilrma.StYP F n t K, Ilrma.updateOnceYP np src p alg norm floor (id s)
      = Except.map id (Ilrma.updateOnceYP np src p alg norm floor s) := fun s => by
    rw [id]
    cases Ilrma.updateOnceYP np src p alg norm floor s <;> rfl
  have hrun := run_moved (loss := Ilrma.lossYP src X) (loss' := Ilrma.lossYP src (remix A X)) (c := shift A) hs (fun s hW => by
      have := npInvB_log hA (X := X) (Y := s.Y) (U := Ilrma.lossOf src s.Y (Ilrma.reconP s.Z s.T s.V)) hW fun W hW =>
        lossOf_unmix hA _ _ _ hW
      simp only [Ilrma.lossYP, Ilrma.filterOf, id, bind_assoc]
      exact this) ic h
  have h1 : ∀ X W, IlrmaCall.resetSignalP alg floor draw X ⟨some W, some Z, some T, some V⟩ IlrmaCall.ObjP.fresh
      = .ok ⟨separate X W, Z, T, V⟩ := by intro X W; cases alg <;> rfl
  change IlrmaCall.callSignalP np src p alg norm floor sr r' draw (remix A X) n_iter ic
    ⟨some (unmix A W), some Z, some T, some V⟩ .fresh = _
  rw [IlrmaCall.callSignalP, IlrmaCall.callSignalP, h1, h1, separate_remix A hA]
  simp only [id] at hrun
  simp only [bind, Except.bind, IlrmaCall.ObjP.fresh, hrun]
  cases baseCall (Ilrma.updateOnceYP np src p alg norm floor) (Ilrma.lossYP src X) ic n_iter ⟨separate X W, Z, T, V⟩ [] with
  | error => rfl
  | ok q =>
    simp only [Except.map, C118_finishFree hA hR]
    cases finishFree sr r X q.1.Y <;> rfl

/-- C118 for ILRMA with partitioning, IP1 or IP2, and a positive flooring function. -/
theorem C118_partitioned_floored [Nonempty F] [Nonempty (Fin t)] [Nonempty (Fin K)] (np : Numpy ℂ) {src : Ilrma.Source}
    (hsrc : Ilrma.Standard src) (p : ℝ) {alg : Ilrma.FilterAlg n} (halg : alg.Valid) {norm : Ilrma.Norm n} (hn : norm.Plain)
    {floor : ℝ → ℝ} (hf : ∀ x, 0 ≤ x → 0 < floor x) (draw : IlrmaCall.DrawP F n t K) (hd : FlooredCall.DrawOk draw) {X : Spec F n t}
    (hX : ∀ f, LinearIndependent ℂ (X f).row) (n_iter : ℕ) (ic : Bool) {W : F → Mat n ℂ} (hW : ∀ f, IsUnit (W f).det)
    {Z : Fin n → Fin K → ℝ} (hZ : ∀ k b, 0 < Z k b) {T : F → Fin K → ℝ} (hT : ∀ f b, 0 < T f b) {V : Fin K → Fin t → ℝ}
    (hV : ∀ b j, 0 < V b j) :
    ∃ U Z' T' V' Y l, IlrmaCall.callP np src p alg norm floor sr r draw X n_iter ic ⟨some W, some Z, some T, some V⟩ .fresh
        = .ok ⟨.val U, .val Z', .val T', .val V', .val Y, l⟩ ∧
      IlrmaCall.callP np src p alg norm floor sr r' draw (fun f => A f * X f) n_iter ic
          ⟨some fun f => W f * (A f)⁻¹, some Z, some T, some V⟩ .fresh
        = .ok ⟨.val fun f => g f • (U f * (A f)⁻¹), .val Z', .val T', .val V', .val fun f => g f • Y f,
            l.map (· + 2 * ∑ f, Real.log ‖(A f).det‖)⟩ := by
  have : Nonempty (Fin n) := ⟨r⟩
  have e := C118_partitioned hA hR np src p alg norm floor draw X n_iter ic (W := W) (Z := Z) (T := T) (V := V)
    (keeps_of_inv (fun s hs => FlooredCall.updateOnceP_inv hsrc halg hn hf hX s hs) (fun _ hs => hs.1) n_iter ⟨hW, hZ, hT, hV⟩)
  obtain ⟨U, Z', T', V', l, e1, -⟩ := FlooredCall.C88_returns_partitioned np hsrc p hn hf (known hR) r hX n_iter ic halg draw hd
    ⟨some W, some Z, some T, some V⟩ .fresh (.inr ⟨W, rfl, hW⟩) (.inr ⟨Z, rfl, hZ⟩) (.inr ⟨T, rfl, hT⟩) (.inr ⟨V, rfl, hV⟩)
  exact ⟨U, Z', T', V', _, l, e1, by rw [e, e1]; rfl⟩

omit hA hR in
/-- `TILRMA` with partitioning, IP1, and the minimal distortion principle. -/
example (np : Numpy ℂ) (n_iter : ℕ) : ∃ U Z T V Y l,
    IlrmaCall.callP np (Ilrma.student 2 1) 2 .ip1 .power (Special.max_flooring (1 / 10 ^ 10)) (.str "MDP") 0
        (⟨fun _ _ => 1, fun _ _ => 1, fun _ _ => 1⟩ : IlrmaCall.DrawP (Fin 3) 2 4 2) FlooredCall.exX n_iter true
        ⟨some fun _ => 1, some fun _ _ => 1 / 2, some fun _ _ => 1, some fun _ _ => 3⟩ .fresh
        = .ok ⟨.val U, .val Z, .val T, .val V, .val Y, l⟩ ∧
      IlrmaCall.callP np (Ilrma.student 2 1) 2 .ip1 .power (Special.max_flooring (1 / 10 ^ 10)) (.str "MDP") 1
        (⟨fun _ _ => 1, fun _ _ => 1, fun _ _ => 1⟩ : IlrmaCall.DrawP (Fin 3) 2 4 2) (fun f => exA * FlooredCall.exX f) n_iter true
        ⟨some fun _ => 1 * exA⁻¹, some fun _ _ => 1 / 2, some fun _ _ => 1, some fun _ _ => 3⟩ .fresh
        = .ok ⟨.val fun f => (2 : ℂ) • (U f * exA⁻¹), .val Z, .val T, .val V, .val fun f => (2 : ℂ) • Y f,
          l.map (· + 2 * ∑ _f : Fin 3, Real.log ‖exA.det‖)⟩ :=
  C118_partitioned_floored (A := fun _ => exA) (g := fun _ => 2) (fun _ => by rw [exA, det_fin_two_of]; norm_num)
    (.inr ⟨.inr (.inr (.inr rfl)), fun f c => by fin_cases c <;> simp [exA]⟩) np (.student two_pos one_pos) 2 (alg := .ip1) trivial (norm := .power) trivial
    (fun x _ => FlooredCall.max_flooring_pos x) _
    ⟨fun _ _ => zero_le_one, fun _ => by norm_num, fun _ _ => zero_le_one, fun _ _ => zero_le_one⟩ FlooredCall.exX_indep n_iter true
    (fun _ => by rw [det_one]; exact isUnit_one) (fun _ _ => by norm_num) (fun _ _ => one_pos) (fun _ _ => three_pos)

omit hA hR in
/-- `GaussIPSDTA`, three bins in two blocks, one iteration, projection back. -/
example (np : Numpy ℂ) (draw : IpsdtaCall.Draw 3 2 2 _ _) :
    IpsdtaCall.gaussCall np false Ipsdta.floor0 (.bool true) 1 draw (fun f => exA * Ipsdta.x1 f) 1
        { demix := some fun f => Ipsdta.st1.W f * exA⁻¹, basis := some Ipsdta.st1.T, activation := some Ipsdta.st1.V } .fresh
      = (IpsdtaCall.gaussCall np false Ipsdta.floor0 (.bool true) 0 draw Ipsdta.x1 1
        { demix := some Ipsdta.st1.W, basis := some Ipsdta.st1.T, activation := some Ipsdta.st1.V } .fresh).map fun o =>
        ⟨mapA (fun V f => (2 : ℂ) • (V f * exA⁻¹)) o.demix, o.basis, o.activation, mapA (fun Y f => (2 : ℂ) • Y f) o.output,
          o.loss.map (· + 2 * ∑ _f : Fin 3, Real.log ‖exA.det‖), o.initial_call⟩ := by
  refine C118_gaussIpsdta (A := fun _ => exA) (g := fun _ => 2) (fun _ => by rw [exA, det_fin_two_of]; norm_num)
    (.inr ⟨.inl (.inl rfl), fun f c => by fin_cases c <;> simp [exA]⟩) np false Ipsdta.floor0 draw Ipsdta.x1 1
    { basis := some Ipsdta.st1.T, activation := some Ipsdta.st1.V } fun s hs => ?_
  have e : s = Ipsdta.st1 := (Except.ok.inj hs).symm
  subst e
  obtain ⟨s1, h, h1, -⟩ := Ipsdta.gauss_step two_ne_zero false Ipsdta.floor0 Ipsdta.x1_independent (Ipsdta.inv1 np) (Ipsdta.greg1 np)
  refine ⟨(Ipsdta.inv1 np).filter, fun a ha => ?_⟩
  rw [h] at ha
  exact Except.ok.inj ha ▸ h1.filter

end Verif.Microphones
