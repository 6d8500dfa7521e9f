import Verif.Model.Flooring

/-! # C82: flooring functions and how a method call chooses one -/

namespace Verif.Flooring

open Ilrma Scale

variable {F : Type} [Fintype F] {n t K : ℕ}

/-- What the documentation promises: a callable is used as it is, `None` means the identity, `"self"` the function
given to the constructor (where `None` also means the identity). -/
def Documented (ctor arg : Arg) (f : ℝ → ℝ) : Prop :=
  arg = .fn f ∨ (arg = .none ∧ f = fun x => x) ∨ (arg = .str "self" ∧ (ctor = .fn f ∨ (ctor = .none ∧ f = fun x => x)))

theorem choose_fn (f : ℝ → ℝ) (m : Option (Option Arg)) : chooseFlooringFn (.fn f) m = .ok f := rfl

theorem choose_documented {ctor arg : Arg} {f : ℝ → ℝ} (h : Documented ctor arg f) (ha : arg ≠ .none) :
    chooseFlooringFn arg (some (some (stored ctor))) = .ok f := by
  rcases h with rfl | ⟨rfl, -⟩ | ⟨rfl, rfl | ⟨rfl, rfl⟩⟩
  · rfl
  · exact absurd rfl ha
  · rfl
  · rfl

theorem choose_undocumented {ctor arg : Arg} (h : ∀ f, ¬ Documented ctor arg f) (m : Arg) (hm : m = stored ctor) :
    chooseFlooringFn arg (some (some m)) = .error .assertion := by
  subst hm
  cases arg with
  | none => rfl
  | fn f => exact absurd (Or.inl rfl) (h f)
  | other => rfl
  | str s =>
    by_cases hs : s = "self"
    · subst hs
      cases ctor with
      | none => exact absurd (Or.inr (Or.inr ⟨rfl, Or.inr ⟨rfl, rfl⟩⟩)) (h fun x => x)
      | fn f => exact absurd (Or.inr (Or.inr ⟨rfl, Or.inl rfl⟩)) (h f)
      | other => rfl
      | str s => rfl
    · simp only [chooseFlooringFn, if_neg hs]
      rfl

/-- C82: `AuxIVA.update_once` with a function or `"self"` performs the update with that function or the constructor's,
also inside the method it dispatches to. -/
theorem C82_aux (np : Numpy ℂ) (alg : FilterAlg n) (d : Fin n → Fin t → ℝ → ℝ) (ctor arg : Arg) (f : ℝ → ℝ)
    (h : Documented ctor arg f) (ha : arg ≠ .none) (X : Spec F n t) (W : F → Mat n ℂ) :
    auxUpdateOnce np alg d (stored ctor) arg X W =
      match alg with
      | .ip1 => Iva.auxIp1 f d X W
      | .ip2 pairs => Iva.auxIp2 np f pairs d X W := by
  rw [auxUpdateOnce, choose_documented h ha]
  rfl

/-- C82: the same for ILRMA, through all levels of methods. -/
theorem C82_ilrma (np : Numpy ℂ) (src : Source) (p : ℝ) (alg : FilterAlg n) (norm : Norm n) (ctor arg : Arg) (f : ℝ → ℝ)
    (h : Documented ctor arg f) (ha : arg ≠ .none) (X : Spec F n t) (s : St F n t K) :
    updateOnceApi np src p alg norm (stored ctor) arg X s = updateOnce np src p alg norm f X s := by
  rw [updateOnceApi, choose_documented h ha, updateOnce]
  cases norm <;> rfl

/-- C82: the public method `normalize` uses the function it is given, and refuses an object constructed without
normalisation. -/
theorem C82_normalize (p : ℝ) (norm : Norm n) (ctor arg : Arg) (f : ℝ → ℝ) (h : Documented ctor arg f) (ha : arg ≠ .none)
    (X : Spec F n t) (s : St F n t K) :
    (norm = .off → normalizeApi p norm (stored ctor) arg X s = .error .assertion) ∧
    (norm ≠ .off → normalizeApi p norm (stored ctor) arg X s = normalize p f X norm s) := by
  rw [normalizeApi, choose_documented h ha]
  cases norm
  · exact ⟨fun _ => rfl, fun h => absurd rfl h⟩
  all_goals exact ⟨fun h => absurd h (by simp), fun _ => rfl⟩

/-- C82, finding: `update_once(flooring_fn=None)` raises `AssertionError` whatever the state, although the documentation
says that the identity is used. -/
theorem C82_none (np : Numpy ℂ) (src : Source) (p : ℝ) (alg : FilterAlg n) (norm : Norm n) (ctor : Arg)
    (d : Fin n → Fin t → ℝ → ℝ) (X : Spec F n t) (s : St F n t K) :
    Documented ctor .none (fun x => x) ∧
    updateOnceApi np src p alg norm (stored ctor) .none X s = .error .assertion ∧
    auxUpdateOnce np alg d (stored ctor) .none X s.W = .error .assertion :=
  ⟨Or.inr (Or.inl ⟨rfl, rfl⟩), rfl, rfl⟩

/-- C82: everything the documentation does not allow is refused: another string, an object that cannot be called, or
`"self"` when the constructor was given such an object. -/
theorem C82_refused (np : Numpy ℂ) (src : Source) (p : ℝ) (alg : FilterAlg n) (norm : Norm n) (ctor arg : Arg)
    (h : ∀ f, ¬ Documented ctor arg f) (d : Fin n → Fin t → ℝ → ℝ) (X : Spec F n t) (s : St F n t K) :
    updateOnceApi np src p alg norm (stored ctor) arg X s = .error .assertion ∧
    auxUpdateOnce np alg d (stored ctor) arg X s.W = .error .assertion := by
  rw [updateOnceApi, auxUpdateOnce, choose_undocumented h _ rfl]
  exact ⟨rfl, rfl⟩

/-- C82: without an object, `choose_flooring_fn` returns the identity for `None` and for `"self"`. -/
theorem C82_no_method : chooseFlooringFn .none none = .ok (fun x => x) ∧
    chooseFlooringFn (.str "self") none = .ok (fun x => x) ∧ chooseFlooringFn (.str "self") (some none) = .ok fun x => x :=
  ⟨rfl, rfl, rfl⟩

/-- C82: what the flooring functions guarantee. `max_flooring` returns the smallest number that is at least the input
and at least `eps`; `add_flooring` with positive `eps` returns more than the input and, for inputs that are not
negative, at least `eps`; both preserve order. -/
theorem C82_functions (eps : ℝ) :
    (∀ x, IsLeast {y | x ≤ y ∧ eps ≤ y} (Special.max_flooring eps x)) ∧ Monotone (Special.max_flooring eps) ∧
    (0 < eps → ∀ x, x < Special.add_flooring eps x) ∧ (∀ x, 0 ≤ x → eps ≤ Special.add_flooring eps x) ∧
    StrictMono (Special.add_flooring eps) := by
  refine ⟨fun x => ⟨⟨le_max_left _ _, le_max_right _ _⟩, fun y hy => max_le hy.1 hy.2⟩,
    fun a b h => max_le_max h le_rfl, fun h x => ?_, fun x h => ?_, fun a b h => ?_⟩ <;>
    simp only [Special.add_flooring] <;> linarith

/-- The hypotheses can be met: the default constructor with the default argument, a function passed to the call, and a
string that is not documented. -/
example : Documented (.fn (Special.max_flooring 1e-10)) (.str "self") (Special.max_flooring 1e-10) ∧
    Documented .none (.str "self") (fun x => x) ∧ Documented .none (.fn (Special.add_flooring 1)) (Special.add_flooring 1) ∧
    ∀ f, ¬ Documented .none (.str "max") f := by
  refine ⟨Or.inr (Or.inr ⟨rfl, Or.inl rfl⟩), Or.inr (Or.inr ⟨rfl, Or.inr ⟨rfl, rfl⟩⟩), Or.inl rfl, fun f h => ?_⟩
  simp [Documented] at h

end Verif.Flooring
