import Verif.Lemmas.OrthoPoly
import Mathlib.Tactic.NormNum
import Mathlib.Tactic.Linarith
/-!
# C25, C26: orthogonal polynomials defined by a three-term recurrence
-/
namespace MParT
open Spec OrthoPoly

section
variable {K : Type} [Field K]

/-- **C25.** For every recurrence, every normalisation, every order and every point, the value computed
by `Evaluate` (downward Clenshaw algorithm) is the member of the family defined by the three-term
recurrence. -/
theorem C25_evaluate (p : OrthoPoly K) (n : Nat) (x : K) : p.evaluate n x = polyVal p n x :=
  evaluate_polyVal p x n

/-- **C25.** `EvaluateAll` fills exactly the entries `0..maxOrder` with those values. -/
theorem C25_evaluateAll (p : OrthoPoly K) (output : List K) (maxOrder : Nat) (x : K)
    (hl : maxOrder < output.length) :
    ∃ o, p.evaluateAll output maxOrder x = .ok o ∧ Filled o output maxOrder (fun k => polyVal p k x) :=
  evaluateAll_eq p output maxOrder x hl

/-- **C25.** `EvaluateDerivatives` returns the same values. -/
theorem C25_evaluateDerivatives (p : OrthoPoly K) (vals derivs : List K) (maxOrder : Nat) (x : K)
    (hl : maxOrder < vals.length) (hd : maxOrder < derivs.length) :
    ∃ v d, p.evaluateDerivatives vals derivs maxOrder x = .ok (v, d) ∧
      Filled v vals maxOrder (fun k => polyVal p k x) := by
  obtain ⟨v, d, e, h, _⟩ := evaluateDerivatives_eq p vals derivs maxOrder x hl hd
  exact ⟨v, d, e, h⟩

/-- **C25.** `EvaluateSecondDerivatives` returns the same values, and the same first derivatives as both
overloads of `EvaluateDerivatives`. -/
theorem C25_evaluateSecondDerivatives (p : OrthoPoly K) (vals derivs second : List K) (maxOrder : Nat)
    (x : K) (hl : maxOrder < vals.length) (hd : maxOrder < derivs.length) (hs : maxOrder < second.length) :
    ∃ v d s, p.evaluateSecondDerivatives vals derivs second maxOrder x = .ok (v, d, s) ∧
      Filled v vals maxOrder (fun k => polyVal p k x) ∧
      p.evaluateDerivatives vals derivs maxOrder x = .ok (v, d) ∧
      p.evaluateDerivs derivs maxOrder x = .ok d := by
  obtain ⟨v, d, s, e, h, hd1, hs1⟩ := evaluateSecondDerivatives_eq p vals derivs second maxOrder x hl hd hs
  obtain ⟨v', d', e', h', hd1'⟩ := evaluateDerivatives_eq p vals derivs maxOrder x hl hd
  obtain ⟨d'', e'', h''⟩ := evaluateDerivs_eq p derivs maxOrder x hd
  have uniq : ∀ {a b old : List K} {f : Nat → K}, Filled a old maxOrder f → Filled b old maxOrder f → a = b := by
    intro a b old f ha hb
    apply List.ext_getElem?
    intro k
    by_cases hk : k ≤ maxOrder
    · rw [ha.2.1 k hk, hb.2.1 k hk]
    · rw [ha.2.2 k (by omega), hb.2.2 k (by omega)]
  refine ⟨v, d, s, e, h, ?_, ?_⟩
  · rw [e', uniq h h', uniq hd1 hd1']
  · rw [e'', uniq hd1 h'']

end

/-- Non-vacuity: a recurrence with all coefficients nontrivial, evaluated by two of the paths. -/
def exampleMixer : OrthoPoly ℚ where
  ak := fun k => k + 1
  bk := fun k => 2 * k
  ck := fun k => k
  phi0 := fun _ => 2
  phi1 := fun x => 3 * x - 1
  phi1Deriv := fun _ => 3
  normalization := fun k => k + 2
  normalize := true

example : exampleMixer.evaluateAll [0, 0, 0, 0, 9] 3 2 = .ok [1, 5 / 3, 23 / 2, 629 / 5, 9] := by
  simp [exampleMixer, evaluateAll, OrthoPoly.init, OrthoPoly.valLoop, finish, normLoop, Res.setIdx, Res.idx]
  norm_num

example : exampleMixer.evaluate 3 2 = 629 / 5 := by
  simp [exampleMixer, evaluate, clenshaw]
  norm_num

/-- **C26.** Every member of a family whose mixer supplies correct starting polynomials is twice
differentiable, so that the statements below are about genuine derivatives. -/
theorem C26_differentiable {p : OrthoPoly ℝ} (hp : SmoothMixer p.toMixer) (n : Nat) :
    Differentiable ℝ (polyVal p n) ∧ Differentiable ℝ (deriv (polyVal p n)) := by
  have e : deriv (polyVal p n) = d1Val p n := funext fun x => (polyVal_hasDerivAt hp n x).deriv
  refine ⟨fun x => (polyVal_hasDerivAt hp n x).differentiableAt, ?_⟩
  rw [e]
  exact fun x => (d1Val_hasDerivAt hp n x).differentiableAt

/-- **C26.** The array routines return the true first and second derivatives, with and without
normalisation. -/
theorem C26_arrays {p : OrthoPoly ℝ} (hp : SmoothMixer p.toMixer) (vals derivs second : List ℝ)
    (maxOrder : Nat) (x : ℝ) (hl : maxOrder < vals.length) (hd : maxOrder < derivs.length)
    (hs : maxOrder < second.length) :
    ∃ v d s, p.evaluateSecondDerivatives vals derivs second maxOrder x = .ok (v, d, s) ∧
      p.evaluateDerivatives vals derivs maxOrder x = .ok (v, d) ∧
      p.evaluateDerivs derivs maxOrder x = .ok d ∧
      Filled d derivs maxOrder (fun k => deriv (polyVal p k) x) ∧
      Filled s second maxOrder (fun k => deriv (deriv (polyVal p k)) x) := by
  obtain ⟨v, d, s, e, _, e1, e2⟩ := C25_evaluateSecondDerivatives p vals derivs second maxOrder x hl hd hs
  obtain ⟨v', d', s', e', h', hd', hs'⟩ := evaluateSecondDerivatives_eq p vals derivs second maxOrder x hl hd hs
  rw [e] at e'
  simp only [Res.ok.injEq, Prod.mk.injEq] at e'
  obtain ⟨rfl, rfl, rfl⟩ := e'
  refine ⟨v, d, s, e, e1, e2, ?_, ?_⟩
  · have : (fun k => deriv (polyVal p k) x) = fun k => d1Val p k x :=
      funext fun k => (polyVal_hasDerivAt hp k x).deriv
    rw [this]; exact hd'
  · have : (fun k => deriv (deriv (polyVal p k)) x) = fun k => d2Val p k x := funext fun k => by
      rw [show deriv (polyVal p k) = d1Val p k from funext fun y => (polyVal_hasDerivAt hp k y).deriv]
      exact (d1Val_hasDerivAt hp k x).deriv
    rw [this]; exact hs'

/-- **C26.** `SecondDerivative` returns the true second derivative, for every order. -/
theorem C26_secondDerivative {p : OrthoPoly ℝ} (hp : SmoothMixer p.toMixer) (n : Nat) (x : ℝ) :
    HasDerivAt (deriv (polyVal p n)) (p.secondDerivative n x) x := by
  rw [secondDerivative_eq,
    show deriv (polyVal p n) = d1Val p n from funext fun y => (polyVal_hasDerivAt hp n y).deriv]
  exact d1Val_hasDerivAt hp n x

/-- **C26, partial.** `Derivative` returns the true derivative except for order one of a normalised family,
see `C26_fails_normalized_order_one`. -/
theorem C26_derivative_partial {p : OrthoPoly ℝ} (hp : SmoothMixer p.toMixer) (n : Nat) (x : ℝ)
    (h : p.normalize = false ∨ n ≠ 1) :
    HasDerivAt (polyVal p n) (p.derivative n x) x := by
  rw [derivative_eq p n x (by rcases h with h | h <;> simp [h])]
  exact polyVal_hasDerivAt hp n x

/-- The mixers of both Hermite families meet the hypothesis. -/
theorem probabilist_smooth (b : Bool) : SmoothMixer (probabilistHermite b).toMixer :=
  ⟨fun x => hasDerivAt_const x _, fun x => hasDerivAt_id x, fun x => hasDerivAt_const x _⟩

theorem physicist_smooth (b : Bool) : SmoothMixer (physicistHermite b).toMixer :=
  ⟨fun x => hasDerivAt_const x _,
   fun x => by simpa [physicistHermite, physicistMixer] using (hasDerivAt_id x).const_mul 2,
   fun x => hasDerivAt_const x _⟩

/-- Non-vacuity of the C26 theorems: the normalised probabilist family at a concrete order. -/
example (x : ℝ) : HasDerivAt (polyVal (probabilistHermite true) 3) ((probabilistHermite true).derivative 3 x) x :=
  C26_derivative_partial (probabilist_smooth true) 3 x (Or.inr (by decide))

theorem normalization_one_ne : (probabilistHermite true).normalization 1 ≠ 1 := by
  intro h
  have h1 : √(√(2 * Real.pi) * (factorial32 1 : ℝ)) = 1 := h
  rw [show factorial32 1 = 1 from rfl, Nat.cast_one, mul_one, Real.sqrt_eq_one, Real.sqrt_eq_one] at h1
  have := Real.pi_gt_three
  linarith

/-- **C26 fails**: `Derivative(1, x)` of the normalised probabilist Hermite family is not the derivative of
`Evaluate(1, ·)`, at any point: the normalisation is left out. -/
theorem C26_fails_normalized_order_one (x : ℝ) :
    ¬ HasDerivAt (fun y => (probabilistHermite true).evaluate 1 y) ((probabilistHermite true).derivative 1 x) x := by
  intro h
  have e : (fun y => (probabilistHermite true).evaluate 1 y) = polyVal (probabilistHermite true) 1 :=
    funext fun y => C25_evaluate _ 1 y
  rw [e] at h
  have u := h.unique (polyVal_hasDerivAt (probabilist_smooth true) 1 x)
  have h1 : (1 : ℝ) = 1 / (probabilistHermite true).normalization 1 := by
    simpa [derivative, d1Val, rec1, probabilistHermite, probabilistMixer] using u
  have h0 : (probabilistHermite true).normalization 1 ≠ 0 := by
    intro h0; rw [h0] at h1; norm_num at h1
  rw [eq_div_iff h0, one_mul] at h1
  exact normalization_one_ne h1

end MParT
