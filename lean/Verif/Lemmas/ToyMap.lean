import Verif.Lemmas.Maps
import Mathlib.Analysis.SpecialFunctions.ExpDeriv
/-!
A small map with one coefficient, `T(a; x₁, x₂) = exp(a) x₂ + x₁²`, used to show that the hypotheses of the theorems about
maps can be met. It is not part of the code.
-/
namespace MParT
open Spec

/-- `T(a; x₁, x₂) = exp(a) x₂ + x₁²`, with exact derivatives, inverse and log-determinant `a`. -/
noncomputable def toy : CMap where
  inputDim := 2
  outputDim := 1
  numCoeffs := 1
  eval c x _ := .ok [Real.exp (c.getD 0 0) * x.getD 1 0 + x.getD 0 0 ^ 2]
  logDet c _ _ := .ok (some (c.getD 0 0))
  inv c x1 r _ := .ok [(r.getD 0 0 - x1.getD 0 0 ^ 2) / Real.exp (c.getD 0 0)]
  grad c x s _ := .ok [2 * x.getD 0 0 * s.getD 0 0, Real.exp (c.getD 0 0) * s.getD 0 0]
  coeffGrad c x s _ := .ok [Real.exp (c.getD 0 0) * x.getD 1 0 * s.getD 0 0]
  ldCoeffGrad _ _ _ := .ok [1]
  ldInputGrad _ _ _ := .ok [0, 0]

theorem length_one {l : List ℝ} (h : l.length = 1) : l = [l.getD 0 0] := by
  match l, h with
  | [a], _ => rfl

theorem length_two {l : List ℝ} (h : l.length = 2) : l = [l.getD 0 0, l.getD 1 0] := by
  match l, h with
  | [a, b], _ => rfl

theorem toy_fn (c x : List ℝ) : fn toy c x = [Real.exp (c.getD 0 0) * x.getD 1 0 + x.getD 0 0 ^ 2] := rfl

theorem toy_evaluates : Evaluates toy := fun _ _ _ => ⟨rfl, fun _ _ => rfl⟩

theorem toy_hasLogDet : HasLogDet toy := fun _ _ _ _ => rfl

theorem toy_inverts {k : Nat} (hk : 1 ≤ k) : InvertsFrom toy k := by
  intro c x1 r hc hx1 hr out ho
  have hE := (Real.exp_pos (c.getD 0 0)).ne'
  have h1 : ∀ y : List ℝ, (x1.take 1 ++ y).getD 0 0 = x1.getD 0 0 := by
    intro y
    rw [getD_append_left (by simp; omega), getD_take (by omega)]
  have h2 : ∀ y : List ℝ, (x1.take 1 ++ y).getD 1 0 = y.getD 0 0 := by
    intro y
    have := getD_append_right (a := x1.take 1) (b := y) (i := 0)
    rwa [show (x1.take 1).length + 0 = 1 by simp; omega] at this
  have hr' : r = [r.getD 0 0] := length_one hr
  refine ⟨_, rfl, rfl, ?_, fun y' hy' h => ?_⟩
  · change fn toy c (x1.take 1 ++ _) = r
    rw [toy_fn, h1, h2, hr']
    simp only [List.getD_cons_zero]
    congr 1
    field_simp
    ring
  · have h : fn toy c (x1.take 1 ++ y') = r := h
    rw [toy_fn, h1, h2, hr'] at h
    have h3 := (List.cons.inj h).1
    rw [length_one hy']
    congr 1
    rw [eq_div_iff hE]
    linarith

theorem toy_jacobian : LogDetIsJacobian toy := by
  intro c x hf
  have hx : x = [x.getD 0 0, x.getD 1 0] := length_two hf.2
  have hj : (jacobian toy c x).det = Real.exp (c.getD 0 0) := by
    refine (Matrix.det_fin_one (jacobian toy c x)).trans ?_
    change deriv (fun t => (fn toy c (x.set 1 t)).getD 0 0) (x.getD 1 0) = _
    have e : (fun t => (fn toy c (x.set 1 t)).getD 0 0) = fun t => Real.exp (c.getD 0 0) * t + x.getD 0 0 ^ 2 := by
      funext t
      rw [hx]
      rfl
    rw [e]
    have := ((hasDerivAt_id (x.getD 1 0)).const_mul (Real.exp (c.getD 0 0))).add_const (x.getD 0 0 ^ 2)
    simpa using this.deriv
  rw [hj]
  refine ⟨(Real.exp_pos _).ne', ?_⟩
  rw [abs_of_pos (Real.exp_pos _), Real.log_exp]
  rfl

theorem toy_differentiates : Differentiates toy := by
  intro c x s hf hs
  refine ⟨fun _ _ => rfl, fun _ _ _ => rfl, rfl, rfl, fun γ δ vc vx t₀ hγ hδ hγc hδx => ?_⟩
  have ha := hγ.2.2 0 Nat.zero_lt_one
  have h0 := hδ.2.2 0 Nat.zero_lt_two
  have h1 := hδ.2.2 1 Nat.one_lt_two
  have e : (fun t => dot s (fn toy (γ t) (δ t)))
      = fun t => s.getD 0 0 * (Real.exp ((γ t).getD 0 0) * (δ t).getD 1 0 + (δ t).getD 0 0 * (δ t).getD 0 0) := by
    funext t
    rw [toy_fn, length_one hs]
    simp [dot, pow_two]
  have hvc := length_one hγ.2.1
  have hvx := length_two hδ.2.1
  rw [e]
  refine (((ha.exp.fun_mul h1).fun_add (h0.fun_mul h0)).const_mul (s.getD 0 0)).congr_deriv ?_
  rw [hvc, hvx, hγc, hδx]
  simp [dot, coeffGrad, grad, toy, value]
  ring

theorem toy_differentiatesLogDet : DifferentiatesLogDet toy := by
  intro c x hf
  refine ⟨fun _ _ => rfl, fun _ _ _ => rfl, rfl, rfl, fun γ δ vc vx t₀ hγ hδ hγc hδx => ?_⟩
  have ha := hγ.2.2 0 Nat.zero_lt_one
  have hvc := length_one hγ.2.1
  have hvx := length_two hδ.2.1
  refine ha.congr_deriv ?_
  rw [hvc, hvx]
  simp [dot, ldCoeffGrad, ldInputGrad, toy, value]

end MParT
