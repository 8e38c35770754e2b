import Verif.Lemmas.Maps
import Mathlib.Analysis.SpecialFunctions.Arsinh
import Mathlib.Analysis.SpecialFunctions.Log.Deriv
/-!
A small square map with one coefficient, `T(a; x) = exp(a) sinh(x)`, used to show that the hypotheses of the theorems about
densities can be met. It is not part of the code.
-/
namespace MParT
open Spec

/-- `T(a; x) = exp(a) sinh(x)`, with exact derivatives, inverse and log-determinant. -/
noncomputable def bend : CMap where
  inputDim := 1
  outputDim := 1
  numCoeffs := 1
  eval c x _ := .ok [Real.exp (c.getD 0 0) * Real.sinh (x.getD 0 0)]
  logDet c x _ := .ok (some (c.getD 0 0 + Real.log (Real.cosh (x.getD 0 0))))
  inv c _ r _ := .ok [Real.arsinh (r.getD 0 0 / Real.exp (c.getD 0 0))]
  grad c x s _ := .ok [Real.exp (c.getD 0 0) * Real.cosh (x.getD 0 0) * s.getD 0 0]
  coeffGrad c x s _ := .ok [Real.exp (c.getD 0 0) * Real.sinh (x.getD 0 0) * s.getD 0 0]
  ldCoeffGrad _ _ _ := .ok [1]
  ldInputGrad _ x _ := .ok [Real.sinh (x.getD 0 0) / Real.cosh (x.getD 0 0)]

theorem bend_len {l : List ℝ} (h : l.length = 1) : l = [l.getD 0 0] := by
  match l, h with
  | [a], _ => rfl

theorem bend_fn (c x : List ℝ) : fn bend c x = [Real.exp (c.getD 0 0) * Real.sinh (x.getD 0 0)] := rfl

theorem bend_logdet (c x : List ℝ) : logdet bend c x = c.getD 0 0 + Real.log (Real.cosh (x.getD 0 0)) := rfl

theorem bend_evaluates : Evaluates bend := fun _ _ _ => ⟨rfl, fun _ _ => rfl⟩

theorem bend_hasLogDet : HasLogDet bend := fun _ _ _ _ => rfl

theorem bend_inverts : InvertsFrom bend 0 := by
  intro c x1 r hc hx1 hr out ho
  have hE := (Real.exp_pos (c.getD 0 0)).ne'
  have hr' : r = [r.getD 0 0] := bend_len hr
  have hx : x1 = [] := List.length_eq_zero_iff.1 hx1
  subst hx
  refine ⟨_, rfl, rfl, ?_, fun y' hy' h => ?_⟩
  · change fn bend c (([] : List ℝ) ++ _) = r
    rw [List.nil_append, bend_fn, hr']
    simp only [List.getD_cons_zero, Real.sinh_arsinh]
    congr 1
    field_simp
  · have h : fn bend c (([] : List ℝ) ++ y') = r := h
    rw [List.nil_append, bend_fn, hr'] at h
    have h3 := (List.cons.inj h).1
    rw [bend_len hy']
    congr 1
    rw [← h3, mul_div_cancel_left₀ _ hE, Real.arsinh_sinh]

theorem bend_jacobian : LogDetIsJacobian bend := by
  intro c x hf
  have hx : x = [x.getD 0 0] := bend_len hf.2
  have hj : (jacobian bend c x).det = Real.exp (c.getD 0 0) * Real.cosh (x.getD 0 0) := by
    refine (Matrix.det_fin_one (jacobian bend c x)).trans ?_
    change deriv (fun t => (fn bend c (x.set 0 t)).getD 0 0) (x.getD 0 0) = _
    have e : (fun t => (fn bend c (x.set 0 t)).getD 0 0) = fun t => Real.exp (c.getD 0 0) * Real.sinh t := by
      funext t
      rw [hx]
      rfl
    rw [e]
    exact ((Real.hasDerivAt_sinh _).const_mul _).deriv
  have hp : 0 < Real.exp (c.getD 0 0) * Real.cosh (x.getD 0 0) := mul_pos (Real.exp_pos _) (Real.cosh_pos _)
  rw [hj]
  refine ⟨hp.ne', ?_⟩
  rw [abs_of_pos hp, Real.log_mul (Real.exp_pos _).ne' (Real.cosh_pos _).ne', Real.log_exp]
  rfl

theorem bend_differentiates : Differentiates bend := by
  intro c x s hf hs
  refine ⟨fun _ _ => rfl, fun _ _ _ => rfl, rfl, rfl, fun γ δ vc vx t₀ hγ hδ hγc hδx => ?_⟩
  have ha := hγ.2.2 0 Nat.zero_lt_one
  have h0 := hδ.2.2 0 Nat.zero_lt_one
  have e : (fun t => dot s (fn bend (γ t) (δ t)))
      = fun t => s.getD 0 0 * (Real.exp ((γ t).getD 0 0) * Real.sinh ((δ t).getD 0 0)) := by
    funext t
    rw [bend_fn, bend_len hs]
    simp [dot]
  have hvc := bend_len hγ.2.1
  have hvx := bend_len hδ.2.1
  rw [e]
  refine ((ha.exp.fun_mul h0.sinh).const_mul (s.getD 0 0)).congr_deriv ?_
  rw [hvc, hvx, hγc, hδx]
  simp [dot, coeffGrad, grad, bend, value]
  ring

theorem bend_differentiatesLogDet : DifferentiatesLogDet bend := by
  intro c x hf
  refine ⟨fun _ _ => rfl, fun _ _ _ => rfl, rfl, rfl, fun γ δ vc vx t₀ hγ hδ hγc hδx => ?_⟩
  have ha := hγ.2.2 0 Nat.zero_lt_one
  have h0 := hδ.2.2 0 Nat.zero_lt_one
  have hvc := bend_len hγ.2.1
  have hvx := bend_len hδ.2.1
  refine (ha.fun_add (h0.cosh.log (Real.cosh_pos _).ne')).congr_deriv ?_
  rw [hvc, hvx, hδx]
  simp [dot, ldCoeffGrad, ldInputGrad, bend, value]
  ring

end MParT
