import Verif.Model.ComponentMap
import Verif.Lemmas.Gradient
import Verif.Props.MonotoneQuad
/-!
# C61: a monotone component meets the contract of a map
-/
namespace MParT
open Spec Finset MonotoneComponent Worker

variable {c : MonotoneComponent} {D : Nat} {ts : List (List Nat)}

theorem coords_set {x : List ℝ} {e : Nat} (he : e < x.length) (y : ℝ) :
    coords (x.set e y) = Function.update (coords x) e y := by
  funext d
  by_cases h : d = e
  · subst h; simp [coords, he]
  · rw [Function.update_of_ne h]; simp [coords, List.getElem?_set, Ne.symm h]

theorem setIdx_one {o : List ℝ} (ho : o.length = 1) (v : ℝ) : Res.setIdx o 0 v = .ok [v] := by
  obtain ⟨a, rfl⟩ := List.length_eq_one_iff.1 ho
  rfl

section
variable (hv : ValidComponent c D ts)
include hv

theorem obj_sizes_component (scr : Cache ℝ) (work : List ℝ) : (c.obj scr work).inputDim = D ∧ (c.obj scr work).outputDim = 1 ∧
    (c.obj scr work).numCoeffs = ts.length := by
  refine ⟨dim_eq hv, rfl, ?_⟩
  simp only [obj, numCoeffs, size_eq hv]

/-! ### Existence of gradients -/

theorem diffAt_expansion {nc nx : Nat} {cs x : List ℝ} (hn : ts.length ≤ nc) (φ : List ℝ → Nat → Nat → ℝ)
    (h : ∀ d n, d < D → DiffAt nc nx (fun _ x => φ x d n) cs x) :
    DiffAt nc nx (fun cs x => expansion D ts cs (φ x)) cs x := by
  refine diffAt_sum _ _ fun k hk => ?_
  have hk := mem_range.1 hk
  exact (diffAt_coeff (by omega)).mul (diffAt_prod _ _ fun d hd => h d _ (mem_range.1 hd))

theorem diffAt_diagD {nc : Nat} {cs x : List ℝ} (hn : ts.length ≤ nc) (u : ℝ)
    (h2 : TwiceAt c.b.eff (u * coords x (D - 1))) :
    DiffAt nc D (fun cs x => diagD c.b.eff D ts cs (Function.update (coords x) (D - 1) (u * coords x (D - 1)))) cs x := by
  have hD := hv.pos
  simp only [diagD_eq hv]
  refine diffAt_expansion hv hn (fun x => facD1 c.b.eff (Function.update (coords x) (D - 1) (u * coords x (D - 1))) (D - 1))
    fun d n hd => ?_
  by_cases h : d = D - 1
  · subst h
    simp only [facD1, if_true, Function.update_self]
    exact ((diffAt_const u).mul (diffAt_coord (e := D - 1) (by omega))).comp (h2 n)
  · simp only [facD1, if_neg h, Function.update_of_ne h]
    exact (diffAt_coord (e := d) hd).comp (hv.basis.d1 n _)

theorem diffAt_diagD' {nc : Nat} {cs x : List ℝ} (hn : ts.length ≤ nc) (h2 : TwiceAt c.b.eff (coords x (D - 1))) :
    DiffAt nc D (fun cs x => diagD c.b.eff D ts cs (coords x)) cs x := by
  have := diffAt_diagD hv (cs := cs) (x := x) hn 1 (by rwa [one_mul])
  simpa only [one_mul, Function.update_eq_self] using this

theorem diffAt_discretised {nc : Nat} {cs x : List ℝ} (hn : ts.length ≤ nc) (ν : ℝ) (R : List (ℝ × ℝ))
    (h2 : ∀ p ∈ R, TwiceAt c.b.eff (p.1 * coords x (D - 1))) :
    DiffAt nc D (fun cs x => discretised c.b.eff c.g.eval ν D ts cs (coords x) R) cs x := by
  have hD := hv.pos
  refine DiffAt.add ?_ (diffAt_listSum _ _ fun p hp => (diffAt_const p.2).mul
    ((diffAt_coord (e := D - 1) (by omega)).mul (((diffAt_diagD hv hn p.1 (h2 p hp)).comp (hv.bij.deriv _)).add (diffAt_const ν))))
  refine diffAt_expansion hv hn (fun x d n => c.b.eff.val n (Function.update (coords x) (D - 1) 0 d)) fun d n hd => ?_
  by_cases h : d = D - 1
  · subst h; simpa only [Function.update_self] using diffAt_const _
  · simp only [Function.update_of_ne h]
    exact (diffAt_coord (e := d) hd).comp (hv.basis.d1 n _)

end

section
variable (hv : ValidComponent c D ts) (scr : Cache ℝ) (hs : scr.length = c.w.cacheSize) (work : List ℝ)
include hv hs

/-- **C61.** `Evaluate` of a component returns, whatever the output and the scratch memory contained, the discretised
component: the offset plus the quadrature applied to the integrand without nugget. -/
theorem C61_evaluates {mesh : (ℝ → ℝ) → List (ℝ × ℝ)} (hm : UsesMesh c.quad mesh) :
    Evaluates (c.obj scr work) ∧ ∀ cs x, Fits (c.obj scr work) cs x → fn (c.obj scr work) cs x
      = [discretised c.b.eff c.g.eval 0 D ts cs (coords x) (mesh (unitDensity c.b.eff c.g.eval 0 D ts cs (coords x)))] := by
  obtain ⟨h1, h2, h3⟩ := obj_sizes_component hv scr work
  have key : ∀ cs x, Fits (c.obj scr work) cs x → ∀ out : List ℝ, out.length = 1 → (c.obj scr work).eval cs x out
      = .ok [discretised c.b.eff c.g.eval 0 D ts cs (coords x) (mesh (unitDensity c.b.eff c.g.eval 0 D ts cs (coords x)))] := by
    intro cs x hf out ho
    rw [Fits, h1, h3] at hf
    simp only [obj, C38_evaluate_partial hv hm hf.1 hf.2 scr hs, Res.bind_ok]
    exact setIdx_one ho _
  have key' : ∀ cs x, Fits (c.obj scr work) cs x → fn (c.obj scr work) cs x
      = [discretised c.b.eff c.g.eval 0 D ts cs (coords x) (mesh (unitDensity c.b.eff c.g.eval 0 D ts cs (coords x)))] := by
    intro cs x hf
    rw [fn, key cs x hf _ (by simp [zeros, h2])]
    rfl
  exact ⟨fun cs x hf => ⟨by rw [key' cs x hf]; rfl, fun out ho => by rw [key' cs x hf]; exact key cs x hf out ho⟩, key'⟩

/-- **C61.** With the continuous derivative, `LogDeterminant` of a component is finite for every input, namely
`log g(∂_D f)`, and for a twice differentiable basis `LogDeterminantCoeffGrad`, `LogDeterminantInputGrad` return its gradient, for
every quadrature. -/
theorem C61_logdet (hcont : c.useContDeriv = true) :
    HasLogDet (c.obj scr work) ∧ ((∀ y, TwiceAt c.b.eff y) → DifferentiatesLogDet (c.obj scr work)) ∧
    ∀ cs x, Fits (c.obj scr work) cs x → logdet (c.obj scr work) cs x
      = Real.log (c.g.eval (diagD c.b.eff D ts cs (coords x))) := by
  obtain ⟨h1, h2, h3⟩ := obj_sizes_component hv scr work
  have key : ∀ cs x, Fits (c.obj scr work) cs x → ∀ o, (c.obj scr work).logDet cs x o
      = .ok (some (Real.log (c.g.eval (diagD c.b.eff D ts cs (coords x))))) := by
    intro cs x hf o
    rw [Fits, h1, h3] at hf
    exact (C39_logdet_continuous hv hf.1 hf.2 scr hs hcont work (zeros ts.length) (zeros D) (by simp [zeros]) (by simp [zeros])).1
  have key' : ∀ cs x, Fits (c.obj scr work) cs x → logdet (c.obj scr work) cs x
      = Real.log (c.g.eval (diagD c.b.eff D ts cs (coords x))) := by
    intro cs x hf
    rw [logdet, key cs x hf]
    rfl
  refine ⟨fun cs x hf o => by rw [key' cs x hf]; exact key cs x hf o, fun h2 cs x hf => ?_, key'⟩
  have hf' := hf
  rw [Fits, h1, h3] at hf'
  have hG : ∀ out out' : List ℝ, out.length = ts.length → out'.length = D → ∃ j j' : List ℝ,
      (c.obj scr work).ldCoeffGrad cs x out = .ok j ∧ (c.obj scr work).ldInputGrad cs x out' = .ok j' ∧
      IsGradient ts.length D (logdet (c.obj scr work)) cs x j j' := by
    intro out out' ho ho'
    obtain ⟨-, ⟨j, e, l, hj⟩, ⟨j', e', l', hj'⟩⟩ := C39_logdet_continuous hv hf'.1 hf'.2 scr hs hcont work out out' ho ho'
    refine ⟨j, j', e, e', IsGradient.congr (f := fun cs x => Real.log (c.g.eval (diagD c.b.eff D ts cs (coords x)))) ?_
      fun cs x h4 h5 => key' cs x ⟨by omega, by omega⟩⟩
    refine (((diffAt_diagD' hv le_rfl (h2 _)).comp (hv.bij.deriv _)).comp (Real.hasDerivAt_log (hv.bij.pos _).ne')).isGradient
      hf'.1 hf'.2 l l' hj fun a ha => ?_
    have := hj' a ha fun _ => h2 _
    simp only [coords_set (show a < x.length by omega)]
    exact this
  obtain ⟨j, j', e, e', hgr⟩ := hG (zeros ts.length) (zeros D) (by simp [zeros]) (by simp [zeros])
  have u1 : ldCoeffGrad (c.obj scr work) cs x = j := by rw [ldCoeffGrad, h3, e]; rfl
  have u2 : ldInputGrad (c.obj scr work) cs x = j' := by rw [ldInputGrad, h1, e']; rfl
  rw [u1, u2, h1, h3]
  refine ⟨fun out ho => ?_, fun _ out ho => ?_, hgr⟩
  · obtain ⟨i, i', -, ei', hi⟩ := hG (zeros ts.length) out (by simp [zeros]) ho
    rw [ei', (IsGradient.unique hgr hi hf'.1 hf'.2).2]
  · obtain ⟨i, i', ei, -, hi⟩ := hG out (zeros D) ho (by simp [zeros])
    rw [ei, (IsGradient.unique hgr hi hf'.1 hf'.2).1]

/-- **C61.** Without nugget, `Gradient` and `CoeffGrad` of a component return, whatever the output and the scratch memory
contained, the gradient of what `Evaluate` computes, provided the value does not depend on which of its meshes the quadrature
picks. -/
theorem C61_gradient_mesh (h2 : ∀ y, TwiceAt c.b.eff y) {mesh : (ℝ → ℝ) → List (ℝ × ℝ)} (hm : UsesMesh c.quad mesh)
    (hν : c.nugget = 0)
    (hind : ∀ (cs : List ℝ) (x : Nat → ℝ) (h h' : ℝ → ℝ),
      discretised c.b.eff c.g.eval 0 D ts cs x (mesh h) = discretised c.b.eff c.g.eval 0 D ts cs x (mesh h')) :
    Differentiates (c.obj scr work) := by
  obtain ⟨h1, -, h3⟩ := obj_sizes_component hv scr work
  have key := (C61_evaluates hv scr hs work hm).2
  intro cs x s hf hsl
  have hf' := hf
  rw [Fits, h1, h3] at hf'
  obtain ⟨s, rfl⟩ := List.length_eq_one_iff.1 hsl
  have hG : ∀ out out' : List ℝ, out.length = ts.length → out'.length = D → ∃ j j' : List ℝ,
      (c.obj scr work).coeffGrad cs x [s] out = .ok j ∧ (c.obj scr work).grad cs x [s] out' = .ok j' ∧
      IsGradient ts.length D (fun cs x => dot [s] (fn (c.obj scr work) cs x)) cs x j j' := by
    intro out out' ho ho'
    obtain ⟨j, e, l, hj⟩ := C39_coeff hv hm hf'.1 hf'.2 scr hs out ho
    obtain ⟨j', e', l', hj'⟩ := C39_input hv hm hf'.1 hf'.2 scr hs out' ho'
    rw [hν] at e e' hj hj'
    generalize hR : mesh _ = R at hj
    generalize hR' : mesh _ = R' at hj'
    refine ⟨j.map (· * s), j'.map (· * s), ?_, ?_, IsGradient.congr
      (f := fun cs x => s * discretised c.b.eff c.g.eval 0 D ts cs (coords x) R) ?_
      fun cs x h4 h5 => by rw [key cs x ⟨by omega, by omega⟩, hind cs (coords x) _ _, hR]; simp [dot]⟩
    · have : numCoeffs c = ts.length := h3
      simp only [obj, gradShapeOk, dim_eq hv, this, ho, hf'.2]
      simp only [List.length_singleton, beq_self_eq_true, Bool.and_self, if_true, coeffGradPt, size_eq hv, e, Res.bind_ok]
      rw [Res.idx_lt (by simp), Res.bind_ok, mapIdx_lt _ _ l.le]
      rfl
    · simp only [obj, gradShapeOk, dim_eq hv, ho', hf'.2]
      simp only [List.length_singleton, beq_self_eq_true, Bool.and_self, if_true, gradientPt, dim_eq hv, e', Res.bind_ok]
      rw [Res.idx_lt (by simp), Res.bind_ok, mapIdx_lt _ _ l'.le]
      rfl
    · refine ((diffAt_const s).mul (diffAt_discretised hv le_rfl 0 R fun p _ => h2 _)).isGradient hf'.1 hf'.2 (by simpa using l)
        (by simpa using l') (fun k hk => ?_) fun a ha => ?_
      · refine ((hj k hk).const_mul s).congr_deriv ?_
        simp [List.getD_eq_getElem?_getD, show k < j.length by omega, mul_comm]
      · simp only [coords_set (show a < x.length by omega), ← hR]
        simp only [← hR', hind cs _ _ (unitDensity c.b.eff c.g.eval 0 D ts cs (coords x))] at hj'
        refine ((hj' a ha fun _ _ _ => h2 _).const_mul s).congr_deriv ?_
        simp [List.getD_eq_getElem?_getD, show a < j'.length by omega, mul_comm]
  obtain ⟨j, j', e, e', hgr⟩ := hG (zeros ts.length) (zeros D) (by simp [zeros]) (by simp [zeros])
  have u1 : coeffGrad (c.obj scr work) cs x [s] = j := by rw [coeffGrad, h3, e]; rfl
  have u2 : grad (c.obj scr work) cs x [s] = j' := by rw [grad, h1, e']; rfl
  rw [u1, u2, h1, h3]
  refine ⟨fun out ho => ?_, fun _ out ho => ?_, hgr⟩
  · obtain ⟨i, i', -, ei', hi⟩ := hG (zeros ts.length) out (by simp [zeros]) ho
    rw [ei', (IsGradient.unique hgr hi hf'.1 hf'.2).2]
  · obtain ⟨i, i', ei, -, hi⟩ := hG out (zeros D) ho (by simp [zeros])
    rw [ei, (IsGradient.unique hgr hi hf'.1 hf'.2).1]

/-- **C61.** With a fixed rule and no nugget, `Gradient` and `CoeffGrad` of a component return, whatever the output and the
scratch memory contained, the gradient of what `Evaluate` computes. -/
theorem C61_gradient (h2 : ∀ y, TwiceAt c.b.eff y) {R : List (ℝ × ℝ)} (hm : UsesMesh c.quad fun _ => R) (hν : c.nugget = 0) :
    Differentiates (c.obj scr work) := C61_gradient_mesh hv scr hs work h2 hm hν fun _ _ _ _ => rfl

/-- **C61 fails with a nugget.** For every component with a fixed rule whose weights sum to 1 and a non-zero nugget, at every
coefficient vector and every point where the second derivatives of the basis are right, the last entry of `Gradient` is not the derivative of what `Evaluate` computes. -/
theorem C61_fails_nugget {R : List (ℝ × ℝ)} (hm : UsesMesh c.quad fun _ => R) (hR : (R.map (·.2)).sum = 1)
    (hν : c.nugget ≠ 0) {cs x : List ℝ} (hf : Fits (c.obj scr work) cs x)
    (htw : ∀ p ∈ R, TwiceAt c.b.eff (p.1 * x.getD (D - 1) 0)) :
    ¬ HasDerivAt (fun y => (fn (c.obj scr work) cs (x.set (D - 1) y)).getD 0 0)
      ((grad (c.obj scr work) cs x [1]).getD (D - 1) 0) (x.getD (D - 1) 0) := by
  have hD := hv.pos
  obtain ⟨h1, h2, h3⟩ := obj_sizes_component hv scr work
  have key := (C61_evaluates hv scr hs work hm).2
  have hf' := hf
  rw [Fits, h1, h3] at hf'
  obtain ⟨j, e, l, hj⟩ := C39_input hv hm hf'.1 hf'.2 scr hs (zeros D) (by simp [zeros])
  have e' : grad (c.obj scr work) cs x [1] = j := by
    rw [grad, h1]
    simp only [obj, gradShapeOk, dim_eq hv, hf'.2]
    simp only [zeros, List.length_replicate, List.length_singleton, beq_self_eq_true, Bool.and_self, if_true, gradientPt,
      dim_eq hv] at e ⊢
    rw [e, Res.idx_lt (by simp), Res.bind_ok, Res.bind_ok, mapIdx_lt _ _ l.le]
    simp [value]
  have hd := hj (D - 1) (by omega) fun _ => htw
  rw [e']
  intro h
  have e1 : (fun y => (fn (c.obj scr work) cs (x.set (D - 1) y)).getD 0 0)
      = fun y => discretised c.b.eff c.g.eval 0 D ts cs (Function.update (coords x) (D - 1) y) R := by
    funext y
    rw [key cs _ ⟨by rw [h3]; exact hf'.1, by rw [h1]; simpa using hf'.2⟩, coords_set (by omega)]
    rfl
  rw [e1] at h
  have h4 := h.add (((hasDerivAt_id (coords x (D - 1))).const_mul c.nugget))
  have e2 : (fun y => discretised c.b.eff c.g.eval c.nugget D ts cs (Function.update (coords x) (D - 1) y) R)
      = (fun y => discretised c.b.eff c.g.eval 0 D ts cs (Function.update (coords x) (D - 1) y) R)
        + fun y => c.nugget * id y := by
    funext y
    rw [discretised_nugget _ _ c.nugget, hR, Function.update_self]
    simp
  rw [e2] at hd
  have := h4.unique hd
  apply hν
  linarith

/-- **C61, partial: the Jacobian.** With the continuous derivative and no nugget, at every coefficient vector and point where
the quadrature integrates the integrand exactly along the last input, `LogDeterminant` is the logarithm of the derivative of
`Evaluate` with respect to the last input, which is positive. -/
theorem C61_jacobian_partial {mesh : (ℝ → ℝ) → List (ℝ × ℝ)} (hm : UsesMesh c.quad mesh) (hcont : c.useContDeriv = true)
    (hex : ∀ (cs : List ℝ) (x : Nat → ℝ), cs.length = ts.length →
      ((mesh (unitDensity c.b.eff c.g.eval 0 D ts cs x)).map fun p => p.2 * unitDensity c.b.eff c.g.eval 0 D ts cs x p.1).sum
        = ∫ t in (0 : ℝ)..1, unitDensity c.b.eff c.g.eval 0 D ts cs x t) :
    LogDetIsJacobian (c.obj scr work) := by
  have hD := hv.pos
  obtain ⟨h1, h2, h3⟩ := obj_sizes_component hv scr work
  have key := (C61_evaluates hv scr hs work hm).2
  intro cs x hf
  have hf' := hf
  rw [Fits, h1, h3] at hf'
  have hex' : ∀ y, discretised c.b.eff c.g.eval 0 D ts cs y (mesh (unitDensity c.b.eff c.g.eval 0 D ts cs y))
      = monotone c.b.eff c.g.eval 0 D ts cs y := by
    intro y
    rw [(C38_exact hv cs y le_rfl).2.2.2, discretised, hex cs y hf'.1]
  have hdet : (jacobian (c.obj scr work) cs x).det = c.g.eval (diagD c.b.eff D ts cs (coords x)) := by
    show (jac (fn (c.obj scr work) cs) ((c.obj scr work).inputDim - 1) 1 x).det = _
    rw [Matrix.det_fin_one, jac, Matrix.of_apply, h1]
    simp only [Fin.val_zero, Nat.add_zero]
    have e1 : (fun y => (fn (c.obj scr work) cs (x.set (D - 1) y)).getD 0 0)
        = fun y => monotone c.b.eff c.g.eval 0 D ts cs (Function.update (coords x) (D - 1) y) := by
      funext y
      rw [key cs _ ⟨by rw [h3]; exact hf'.1, by rw [h1]; simpa using hf'.2⟩, coords_set (by omega), hex']
      rfl
    rw [show (fun t => (fn (c.obj scr work) cs (x.set (D - 1) t)).getD 0 0)
        = fun y => monotone c.b.eff c.g.eval 0 D ts cs (Function.update (coords x) (D - 1) y) from e1]
    exact ((C38_exact hv cs (coords x) le_rfl).1.deriv).trans (add_zero _)
  have hpos := hv.bij.pos (diagD c.b.eff D ts cs (coords x))
  rw [hdet, (C61_logdet hv scr hs work hcont).2.2 cs x hf, abs_of_pos hpos]
  exact ⟨hpos.ne', rfl⟩

/-- **C61, the Jacobian with the discrete derivative.** With a fixed rule, no nugget and the discrete derivative,
`LogDeterminant` is the logarithm of the derivative of `Evaluate` with respect to the last input where that is positive and
`-infinity` elsewhere, exactly. -/
theorem C61_discrete {R : List (ℝ × ℝ)} (hm : UsesMesh c.quad fun _ => R) (hdisc : c.useContDeriv = false) (hν : c.nugget = 0)
    {cs x : List ℝ} (hf : Fits (c.obj scr work) cs x) (htw : ∀ p ∈ R, TwiceAt c.b.eff (p.1 * x.getD (D - 1) 0)) (o : Option ℝ) :
    (c.obj scr work).logDet cs x o = .ok (if 0 < (jacobian (c.obj scr work) cs x).det
      then some (Real.log (jacobian (c.obj scr work) cs x).det) else none) := by
  have hD := hv.pos
  obtain ⟨h1, h2, h3⟩ := obj_sizes_component hv scr work
  have key := (C61_evaluates hv scr hs work hm).2
  have hf' := hf
  rw [Fits, h1, h3] at hf'
  obtain ⟨d, ed, hd⟩ := C39_discrete hv hm hf'.1 hf'.2 scr hs
  replace hd := hd htw
  rw [hν] at hd
  have hdet : (jacobian (c.obj scr work) cs x).det = d := by
    show (jac (fn (c.obj scr work) cs) ((c.obj scr work).inputDim - 1) 1 x).det = _
    rw [Matrix.det_fin_one, jac, Matrix.of_apply, h1]
    simp only [Fin.val_zero, Nat.add_zero]
    have e1 : (fun y => (fn (c.obj scr work) cs (x.set (D - 1) y)).getD 0 0)
        = fun y => discretised c.b.eff c.g.eval 0 D ts cs (Function.update (coords x) (D - 1) y) R := by
      funext y
      rw [key cs _ ⟨by rw [h3]; exact hf'.1, by rw [h1]; simpa using hf'.2⟩, coords_set (by omega)]
      rfl
    rw [show (fun t => (fn (c.obj scr work) cs (x.set (D - 1) t)).getD 0 0) = _ from e1]
    exact hd.deriv
  rw [hdet]
  simp only [obj, logDeterminantPt, diagDerivPt, hdisc, ed, Res.bind_ok]
  by_cases h : 0 < d
  · simp [h]
  · simp [h, not_lt.1 h]

omit hs in
theorem coords_lead {x1 : List ℝ} (hx1 : x1.length = D ∨ x1.length = D - 1) (t : ℝ) :
    coords (x1.take (D - 1) ++ [t]) = Function.update (coords x1) (D - 1) t := by
  have hD := hv.pos
  funext d
  by_cases h : d = D - 1
  · subst h
    have : (x1.take (D - 1)).length = D - 1 := by simp; omega
    rw [Function.update_self, coords, List.getD_eq_getElem?_getD, List.getElem?_append_right (by omega)]
    simp [this]
  · rw [Function.update_of_ne h, coords, coords, List.getD_eq_getElem?_getD, List.getD_eq_getElem?_getD]
    by_cases h2 : d < D - 1
    · rw [List.getElem?_append_left (by simp; omega), List.getElem?_take_of_lt h2]
    · rw [List.getElem?_eq_none (by simp; omega), List.getElem?_eq_none (by omega)]

/-- **C61, partial: the inverse.** Without nugget, whenever `T(x_{1:D-1}, ·)` as computed by `Evaluate` is continuous and
strictly increasing, with mean slope at least `1e-12` over intervals longer than 10, and takes on the value `y` within
`2^128-1` of the starting point, `Inverse` (given `D` rows, or `D-1 > 0` rows) returns a number within `5e-7` of the root or
with a value within `1e-6` of `y`. -/
theorem C61_inverse_partial {mesh : (ℝ → ℝ) → List (ℝ × ℝ)} (hm : UsesMesh c.quad mesh) (hν : c.nugget = 0)
    {cs x1 : List ℝ} (hc : cs.length = ts.length) (hx1 : x1.length = D ∨ x1.length = D - 1) (hne : x1 ≠ []) (y : ℝ)
    {T : ℝ → ℝ} (hT : ∀ t, fn (c.obj scr work) cs (x1.take (D - 1) ++ [t]) = [T t]) (hmono : StrictMono T)
    (hcont : Continuous T) (hsteep : ∀ a b, 10 < b - a → 1e-12 * (b - a) ≤ T b - T a)
    (hlo : T (x1.getLast hne - (2 ^ 128 - 1)) ≤ y) (hhi : y ≤ T (x1.getLast hne + (2 ^ 128 - 1))) :
    ∃ root x, (∀ t, T t = y ↔ t = root) ∧ (|T x - y| < 1e-6 ∨ |x - root| < 1e-6 / 2) ∧
      ∀ out : List ℝ, out.length = 1 → (c.obj scr work).inv cs x1 [y] out = .ok [x] := by
  have hD := hv.pos
  obtain ⟨h1, h2, h3⟩ := obj_sizes_component hv scr work
  have key := (C61_evaluates hv scr hs work hm).2
  have hlen : 0 < x1.length := List.length_pos_of_ne_nil hne
  have hTe : T = fun t => discretised c.b.eff c.g.eval c.nugget D ts cs (Function.update (coords x1) (D - 1) t)
      (mesh (unitDensity c.b.eff c.g.eval c.nugget D ts cs (Function.update (coords x1) (D - 1) t))) := by
    funext t
    have := hT t
    rw [key cs _ ⟨by rw [h3]; exact hc, by rw [h1]; simp; omega⟩, coords_lead hv hx1] at this
    rw [hν]
    exact (List.cons.inj this).1.symm
  have hx0 : coords x1 (x1.length - 1) = x1.getLast hne := by
    rw [coords, List.getLast_eq_getElem, List.getD_eq_getElem?_getD, List.getElem?_eq_getElem (by omega)]
    rfl
  have hxt : (2 ^ 1074 : ℝ)⁻¹ ≤ 1e-6 := by
    have : (2 : ℝ) ^ 20 ≤ 2 ^ 1074 := pow_le_pow_right₀ (by norm_num) (by norm_num)
    refine (inv_anti₀ (by positivity) this).trans (by norm_num)
  obtain ⟨root, x, hr, e, hacc⟩ := RootFinding.C36_root T hmono hcont hsteep y (x1.getLast hne) 1e-6 1e-6
    hxt hlo hhi
  refine ⟨root, x, hr, hacc, fun out ho => ?_⟩
  have hi := C38_inverse hv hm hc (pt := x1) (by omega) hlen scr hs y 1e-6 1e-6
  rw [← hTe, hx0, e] at hi
  have hck : inverseCheck 1e-6 1e-6 1 1 1 = .ok () := by
    rw [inverseCheck, if_neg (by norm_num), if_neg (by norm_num), if_neg (by norm_num), if_neg (by simp), if_neg (by simp)]
  simp only [obj, inverseCol]
  rw [Res.idx_lt (by simp), Res.bind_ok, hck, Res.bind_ok]
  simp only [List.getElem_cons_zero, hi, Res.bind_ok]
  exact setIdx_one ho x

/-- **C61 fails for the inverse of one variable.** The documented first argument of `Inverse` for a component of one input has
no rows; the starting point is then read outside it, which is undefined behaviour. -/
theorem C61_fails_inverse (h1 : D = 1) {cs : List ℝ} (y : ℝ) (out : List ℝ) :
    (c.obj scr work).inv cs [] [y] out = .ub := by
  obtain ⟨cache, e, -⟩ := cached_start hv (pt := []) (by simp; omega) scr hs .none
  have hck : inverseCheck 1e-6 1e-6 1 1 1 = .ok () := by
    rw [inverseCheck, if_neg (by norm_num), if_neg (by norm_num), if_neg (by norm_num), if_neg (by simp), if_neg (by simp)]
  simp only [obj, inverseCol]
  rw [Res.idx_lt (by simp), Res.bind_ok, hck, Res.bind_ok]
  simp only [inversePt, e, Res.bind_ok]
  rfl

end
end MParT
