import Verif.Props.ComponentMap
import Verif.Props.BasisLink
/-!
# C61: quadratures integrate constants exactly; components that are affine in the last input; failure in general
-/
namespace MParT
open Spec Finset MonotoneComponent Worker OrthoPoly Hermite

variable {c : MonotoneComponent} {D : Nat} {ts : List (List Nat)}

/-! ### Weights -/

/-- For every integrand, the weights of the mesh the quadrature picks sum to 1. -/
def Spec.WeightsOne (mesh : (ℝ → ℝ) → List (ℝ × ℝ)) : Prop := ∀ h, ((mesh h).map (·.2)).sum = 1

theorem weights_moved (n : Nat) (p w : Nat → ℝ) (hw : ∑ i ∈ range n, w i = 2) (a b : ℝ) :
    ((QProg.moved n p w a b).map (·.2)).sum = b - a := by
  have := moved_sum n p w (fun _ => 1) a b
  simp only [mul_one] at this
  rw [this, applyRule]
  simp only [mul_one]
  rw [← mul_sum, hw]; ring

theorem weights_adaptive (q : Recursive) (rule : ℝ → ℝ → List (ℝ × ℝ × ℝ))
    (h : ∀ a b, ((rule a b).map (·.2.2)).sum = b - a) : WeightsOne (adaptiveMesh q rule) := by
  intro g
  have := sum_flatMap_est rule (leaves (fun level a b => QProg.stopFirst q level (est rule (·.2.1) a b g)
    (est rule (·.2.2) a b g)) (q.maxSub - 1) 0 0 1) fun _ => 1
  simp only [mul_one, est, h] at this
  rw [adaptiveMesh]
  simp only [est]
  rw [this]
  have t := (Spec.tiles_leaves (fun level a b => QProg.stopFirst q level ((List.map (fun p => p.2.1 * g p.1) (rule a b)).sum)
    ((List.map (fun p => p.2.2 * g p.1) (rule a b)).sum)) (q.maxSub - 1) 0 0 1).sum_integral (fun _ => 1) continuous_const
  simpa using t

/-- **C61.** The weights of every quadrature a factory can select sum to 1, whatever the integrand: Clenshaw–Curtis rules with
1 to 65537 points, adaptive Simpson, and adaptive Clenshaw–Curtis of level 1 to 15. -/
theorem C61_weights :
    (∀ (n : Nat) (wts pts w p : Mem), 1 ≤ n → n ≤ 65537 → wts.size = n → pts.size = n →
      ClenshawCurtis.getRule n wts pts = .ok (w, p) → WeightsOne fun _ => QProg.moved p.size p.val w.val 0 1) ∧
    (∀ q, WeightsOne (adaptiveMesh q QProg.simpsonRule)) ∧
    ∀ q l r, 1 ≤ l → l ≤ 15 → AdaptiveClenshawCurtis.new l = .ok r → WeightsOne (adaptiveMesh q (QProg.nestedRule r)) := by
  refine ⟨fun n wts pts w p h1 h2 hw hp e _ => ?_, fun q => weights_adaptive _ _ fun a b => ?_,
    fun q l r h1 h2 e => weights_adaptive _ _ fun a b => ?_⟩
  · obtain ⟨w', p', e', -, -, h3, -, -, sp, -⟩ := C32_rule n h1 h2 wts pts hw.ge hp.ge
    obtain ⟨rfl, rfl⟩ := Prod.mk.inj (Res.ok.inj (e.symm.trans e'))
    rw [weights_moved _ _ _ (by rw [sp, hp]; exact h3), sub_zero]
  · simp [QProg.simpsonRule]; ring
  · obtain ⟨r', e', hr, -, hw⟩ := AdaptiveClenshawCurtis.new_ok l h1
    obtain ⟨r'', e'', -, -, s1, -⟩ := (C34_rules l).1 h1
    obtain rfl := Res.ok.inj (e.symm.trans e')
    obtain rfl := Res.ok.inj (e.symm.trans e'')
    have hN : 1 ≤ 2 ^ (l + 1) := Nat.one_le_two_pow
    have hb : 2 ^ (l + 1) ≤ 65536 := (Nat.pow_le_pow_right (by omega) (by omega : l + 1 ≤ 16)).trans_eq (by norm_num)
    have h3 : ∑ i ∈ range (2 ^ (l + 1) + 1), r.fineWts.val i = 2 := by
      have := ClenshawCurtis.exact _ hN hb 1 (by simp)
      simp only [Polynomial.eval_one, mul_one] at this
      rw [sum_congr rfl fun i hi => (hw i (by have := mem_range.1 hi; omega)).2, this]
      norm_num
    have := weights_moved r.finePts.size r.finePts.val r.fineWts.val (by rw [s1]; exact h3) a b
    rw [QProg.nestedRule, List.map_append, List.map_map, List.map_map, List.sum_append]
    simpa [Function.comp_def] using this

/-! ### Components that are affine in the last input -/

/-- The expansion is affine in the last input: its degrees there are at most 1 and the function of degree 1 has a constant
derivative. -/
def Spec.AffineLast (b : Basis ℝ) (D : Nat) (ts : List (List Nat)) : Prop :=
  (∀ t ∈ ts, t.getD (D - 1) 0 ≤ 1) ∧ ∀ y, b.d1 1 y = b.d1 1 0

section
variable (hv : ValidComponent c D ts)
include hv

theorem affine_diagD (ha : AffineLast c.b D ts) (cs : List ℝ) (x : Nat → ℝ) (s : ℝ) :
    diagD c.b.eff D ts cs (Function.update x (D - 1) s) = diagD c.b.eff D ts cs x := by
  rw [diagD_eq hv, diagD_eq hv]
  refine sum_congr rfl fun k hk => ?_
  congr 1
  refine prod_congr rfl fun d _ => ?_
  have hk := mem_range.1 hk
  have h1 := ha.1 (ts.getD k []) (by simp [List.getD_eq_getElem?_getD, hk])
  simp only [facD1]
  by_cases h : d = D - 1
  · subst h
    rw [if_pos rfl, if_pos rfl]
    obtain h0 | h0 : (ts.getD k []).getD (D - 1) 0 = 0 ∨ (ts.getD k []).getD (D - 1) 0 = 1 := by omega
    · rw [h0]; rfl
    · rw [h0]
      simp only [Basis.eff, one_ne_zero, if_false]
      rw [ha.2, ha.2 (x _)]
  · rw [if_neg h, if_neg h, Function.update_of_ne h]

theorem affine_discretised (ha : AffineLast c.b D ts) (cs : List ℝ) (x : Nat → ℝ) {R : List (ℝ × ℝ)}
    (hR : (R.map (·.2)).sum = 1) : discretised c.b.eff c.g.eval 0 D ts cs x R
      = offset c.b.eff D ts cs x + x (D - 1) * c.g.eval (diagD c.b.eff D ts cs x) := by
  simp only [discretised, unitDensity, density, affine_diagD hv ha, add_zero]
  rw [List.sum_map_mul_right, hR, one_mul]

theorem affine_unit (ha : AffineLast c.b D ts) (cs : List ℝ) (x : Nat → ℝ) (t : ℝ) :
    unitDensity c.b.eff c.g.eval 0 D ts cs x t = x (D - 1) * c.g.eval (diagD c.b.eff D ts cs x) := by
  simp only [unitDensity, density, affine_diagD hv ha, add_zero]

variable (scr : Cache ℝ) (hs : scr.length = c.w.cacheSize) (work : List ℝ) {mesh : (ℝ → ℝ) → List (ℝ × ℝ)}
  (hm : UsesMesh c.quad mesh) (hw : WeightsOne mesh) (ha : AffineLast c.b D ts)
include hs hm hw ha

/-- **C61.** A component that is affine in its last input, with the continuous derivative and no nugget, meets the whole
contract of a map with every quadrature whose weights sum to 1: the value is `f(x_{1:D-1},0) + x_D g(∂_D f)`, `Gradient` and
`CoeffGrad` are its gradients, `LogDeterminant` the logarithm of its Jacobian and the other two the gradients of that. -/
theorem C61_affine (h2 : ∀ y, TwiceAt c.b.eff y) (hcont : c.useContDeriv = true) (hν : c.nugget = 0) :
    Evaluates (c.obj scr work) ∧ Differentiates (c.obj scr work) ∧ HasLogDet (c.obj scr work) ∧
    LogDetIsJacobian (c.obj scr work) ∧ DifferentiatesLogDet (c.obj scr work) ∧
    ∀ cs x, Fits (c.obj scr work) cs x → fn (c.obj scr work) cs x = [offset c.b.eff D ts cs (coords x)
      + coords x (D - 1) * c.g.eval (diagD c.b.eff D ts cs (coords x))] := by
  obtain ⟨e1, e2⟩ := C61_evaluates hv scr hs work hm
  obtain ⟨l1, l2, -⟩ := C61_logdet hv scr hs work hcont
  refine ⟨e1, C61_gradient_mesh hv scr hs work h2 hm hν fun cs x h h' => ?_, l1,
    C61_jacobian_partial hv scr hs work hm hcont fun cs x _ => ?_, l2 h2, fun cs x hf => ?_⟩
  · rw [affine_discretised hv ha cs x (hw h), affine_discretised hv ha cs x (hw h')]
  · simp only [affine_unit hv ha]
    rw [List.sum_map_mul_right, hw _]
    simp
  · rw [e2 cs x hf, affine_discretised hv ha cs _ (hw _)]

/-- **C61.** For such a component `Inverse` works: if the slope `g(∂_D f)` is at least `1e-12` and the root is within
`2^128-1` of the starting point (the last entry of the first argument), the result is within `5e-7` of the root or its value
is within `1e-6` of the target. -/
theorem C61_affine_inverse (hν : c.nugget = 0) {cs x1 : List ℝ} (hc : cs.length = ts.length)
    (hx1 : x1.length = D ∨ x1.length = D - 1) (hne : x1 ≠ []) (y : ℝ)
    (hslope : 1e-12 ≤ c.g.eval (diagD c.b.eff D ts cs (coords x1)))
    (hnear : |(y - offset c.b.eff D ts cs (coords x1)) / c.g.eval (diagD c.b.eff D ts cs (coords x1)) - x1.getLast hne|
      ≤ 2 ^ 128 - 1) :
    ∃ root x, fn (c.obj scr work) cs (x1.take (D - 1) ++ [root]) = [y] ∧
      (∀ out : List ℝ, out.length = 1 → (c.obj scr work).inv cs x1 [y] out = .ok [x]) ∧
      (|(fn (c.obj scr work) cs (x1.take (D - 1) ++ [x])).getD 0 0 - y| < 1e-6 ∨ |x - root| < 1e-6 / 2) := by
  have hD := hv.pos
  obtain ⟨h1, h2, h3⟩ := obj_sizes_component hv scr work
  set A := offset c.b.eff D ts cs (coords x1)
  set B := c.g.eval (diagD c.b.eff D ts cs (coords x1))
  have hB : 0 < B := lt_of_lt_of_le (by norm_num) hslope
  have hT : ∀ t, fn (c.obj scr work) cs (x1.take (D - 1) ++ [t]) = [A + t * B] := by
    intro t
    rw [(C61_evaluates hv scr hs work hm).2 cs _ ⟨by rw [h3]; exact hc, by rw [h1]; simp; omega⟩,
      affine_discretised hv ha cs _ (hw _), coords_lead hv hx1, affine_diagD hv ha, Function.update_self, offset,
      Function.update_idem]
    rfl
  rw [abs_le] at hnear
  obtain ⟨hn1, hn2⟩ := hnear
  have hy : A + (y - A) / B * B = y := by rw [div_mul_cancel₀ _ hB.ne']; ring
  obtain ⟨root, x, hr, hacc, hinv⟩ := C61_inverse_partial hv scr hs work hm hν hc hx1 hne y hT
    (fun a b hab => by nlinarith) (by fun_prop)
    (fun a b hab => by
      have : 1e-12 * (b - a) ≤ B * (b - a) := mul_le_mul_of_nonneg_right hslope (by linarith)
      linarith)
    (by
      have : (x1.getLast hne - (2 ^ 128 - 1)) * B ≤ (y - A) / B * B := mul_le_mul_of_nonneg_right (by linarith) hB.le
      linarith)
    (by
      have : (y - A) / B * B ≤ (x1.getLast hne + (2 ^ 128 - 1)) * B := mul_le_mul_of_nonneg_right (by linarith) hB.le
      linarith)
  refine ⟨root, x, ?_, hinv, ?_⟩
  · rw [hT, (hr root).2 rfl]
  · rw [hT]; exact hacc

end

/-! ### Failure in general -/

/-- **C61 fails for the Jacobian.** With the one-point Clenshaw–Curtis rule, Hermite polynomials of order 2 in one variable,
`exp`, the continuous derivative and no nugget, there are coefficients for which `LogDeterminant` is finite at every point
although the derivative of what `Evaluate` computes is zero at 2 and negative at 4. -/
theorem C61_fails_jacobian : ∃ (c : MonotoneComponent) (w p : Mem) (cs : List ℝ), ValidComponent c 1 (MISet.toEnum 1 2) ∧
    ClenshawCurtis.getRule 1 ⟨1, fun _ => 0⟩ ⟨1, fun _ => 0⟩ = .ok (w, p) ∧ c.quad = QProg.clenshawCurtis p w ∧
    c.useContDeriv = true ∧ c.nugget = 0 ∧ ∀ (scr : Cache ℝ) (work : List ℝ), scr.length = c.w.cacheSize →
      HasLogDet (c.obj scr work) ∧ Fits (c.obj scr work) cs [2] ∧ (jacobian (c.obj scr work) cs [2]).det = 0 ∧
      (jacobian (c.obj scr work) cs [4]).det < 0 ∧ ¬ LogDetIsJacobian (c.obj scr work) := by
  have hrule : ClenshawCurtis.getRule 1 ⟨1, fun _ => 0⟩ ⟨1, fun _ => 0⟩
      = .ok (⟨1, Function.update (fun _ => 0) 0 2⟩, ⟨1, Function.update (fun _ => 0) 0 0⟩) := by
    simp only [ClenshawCurtis.getRule]
    rw [if_neg one_ne_zero, if_pos trivial, Mem.write_ok (by decide), Res.bind_ok, Mem.write_ok (by decide), Res.bind_ok,
      Res.pure_eq]
  obtain ⟨h1, h2, -⟩ := C39_clenshawCurtis ⟨1, Function.update (fun _ => 0) 0 0⟩ ⟨1, Function.update (fun _ => 0) 0 2⟩ rfl
  have hv := valid_total 1 2 (by decide) C24_bases.1.eff.c1 C30_exp _ h2 true 0
  refine ⟨_, _, _, [0, 0, -1 / 2], hv, hrule, rfl, rfl, rfl, fun scr work hs => ?_⟩
  obtain ⟨s1, s2, s3⟩ := obj_sizes_component hv scr work
  obtain ⟨e1, e2⟩ := C61_evaluates hv scr hs work h1
  have hts : MISet.toEnum 1 2 = [[0], [1], [2]] := by decide
  have hd2 : ∀ y, deriv (He 2) y = 2 * y := fun y => by
    rw [(He_hasDerivAt 1 y).deriv, He_one]; norm_num
  have h2 : ∀ y, He 2 y = y ^ 2 - 1 := fun y => by
    rw [He_rec 0 y, He_one, He_zero]; push_cast; ring
  have hf : ∀ x : Nat → ℝ, diagD (Spec.basisOf He).eff 1 (MISet.toEnum 1 2) [0, 0, -1 / 2] x = - x 0 := by
    intro x
    have := diagD_eq hv [0, 0, -1 / 2] x
    simp only at this
    rw [this, hts, expansion]
    simp [Finset.sum_range_succ, termProd, facD1, Basis.eff, Spec.basisOf, hd2]
    ring
  have ho : ∀ x : Nat → ℝ, offset (Spec.basisOf He).eff 1 (MISet.toEnum 1 2) [0, 0, -1 / 2] x = 1 / 2 := by
    intro x
    rw [offset, expandAt, hts, expansion]
    simp [Finset.sum_range_succ, termProd, Basis.eff, Spec.basisOf, h2]
    norm_num
  have hfit : ∀ y, Fits (MonotoneComponent.obj ⟨totalWorker 1 2, Spec.basisOf He, expBij,
      QProg.clenshawCurtis ⟨1, Function.update (fun _ => 0) 0 0⟩ ⟨1, Function.update (fun _ => 0) 0 2⟩, true, 0⟩ scr work)
      [0, 0, -1 / 2] [y] := fun y => ⟨by rw [s3, hts]; rfl, by rw [s1]; rfl⟩
  have hfn : ∀ y, fn (MonotoneComponent.obj ⟨totalWorker 1 2, Spec.basisOf He, expBij,
      QProg.clenshawCurtis ⟨1, Function.update (fun _ => 0) 0 0⟩ ⟨1, Function.update (fun _ => 0) 0 2⟩, true, 0⟩ scr work)
      [0, 0, -1 / 2] [y] = [1 / 2 + y * Real.exp (-y / 2)] := by
    intro y
    rw [e2 _ _ (hfit y)]
    simp only [discretised, QProg.moved, unitDensity, density, hf, ho]
    simp [coords, expBij]
    left; congr 1; ring
  have hdet : ∀ y, (jacobian (MonotoneComponent.obj ⟨totalWorker 1 2, Spec.basisOf He, expBij,
      QProg.clenshawCurtis ⟨1, Function.update (fun _ => 0) 0 0⟩ ⟨1, Function.update (fun _ => 0) 0 2⟩, true, 0⟩ scr work)
      [0, 0, -1 / 2] [y]).det = (1 - y / 2) * Real.exp (-y / 2) := by
    intro y
    show (jac _ 0 1 [y]).det = _
    rw [Matrix.det_fin_one, jac, Matrix.of_apply]
    have : (fun t => (fn (MonotoneComponent.obj ⟨totalWorker 1 2, Spec.basisOf He, expBij,
      QProg.clenshawCurtis ⟨1, Function.update (fun _ => 0) 0 0⟩ ⟨1, Function.update (fun _ => 0) 0 2⟩, true, 0⟩ scr work)
      [0, 0, -1 / 2] ([y].set 0 t)).getD 0 0) = fun t => 1 / 2 + t * Real.exp (-t / 2) := by
      funext t
      rw [List.set_cons_zero, hfn t]
      rfl
    show deriv _ y = _
    have hd : HasDerivAt (fun t : ℝ => 1 / 2 + t * Real.exp (-t / 2)) ((1 - y / 2) * Real.exp (-y / 2)) y := by
      refine (((hasDerivAt_id y).mul ((((hasDerivAt_id y).neg).div_const 2).exp)).const_add (1 / 2)).congr_deriv ?_
      simp only [id, Pi.neg_apply]
      ring
    rw [← hd.deriv]
    congr 1
  have hz : (jacobian (MonotoneComponent.obj ⟨totalWorker 1 2, Spec.basisOf He, expBij,
      QProg.clenshawCurtis ⟨1, Function.update (fun _ => 0) 0 0⟩ ⟨1, Function.update (fun _ => 0) 0 2⟩, true, 0⟩ scr work)
      [0, 0, -1 / 2] [2]).det = 0 := by rw [hdet]; norm_num
  refine ⟨(C61_logdet hv scr hs work rfl).1, hfit 2, hz, ?_, fun h => (h _ _ (hfit 2)).1 hz⟩
  rw [hdet]
  have := Real.exp_pos (-4 / 2)
  nlinarith

/-! ### The theorems apply -/

theorem affineLast_total (D p : Nat) (hp : p ≤ 1) (b : Basis ℝ) (hb : ∀ y, b.d1 1 y = b.d1 1 0) :
    AffineLast b D (MISet.toEnum D p) := by
  refine ⟨fun t ht => ?_, hb⟩
  obtain ⟨h1, h2⟩ := (MISet.mem_toEnum D p t).1 ht
  refine le_trans ?_ (h2.trans hp)
  by_cases h : D - 1 < t.length
  · rw [List.getD_eq_getElem?_getD, List.getElem?_eq_getElem h]
    exact List.le_sum_of_mem (List.getElem_mem h)
  · simp [h]

/-- The function of degree 1 has a constant derivative in every family the factory offers (without linearisation),
normalised or not. -/
theorem affine_bases (norm : Bool) (y : ℝ) :
    (Spec.basisOf (polyVal (probabilistHermite norm))).d1 1 y = (Spec.basisOf (polyVal (probabilistHermite norm))).d1 1 0 ∧
    (Spec.basisOf (polyVal (physicistHermite norm))).d1 1 y = (Spec.basisOf (polyVal (physicistHermite norm))).d1 1 0 ∧
    (Spec.basisOf hermiteFn).d1 1 y = (Spec.basisOf hermiteFn).d1 1 0 := by
  have key : ∀ (a k : ℝ) (y : ℝ), deriv (fun x => a * x / k) y = a / k := fun a k y => by
    refine ((((hasDerivAt_id y).const_mul a).div_const k).congr_deriv ?_).deriv
    simp
  have h1 : polyVal (probabilistHermite norm) 1
      = fun x => 1 * x / (if norm then (probabilistHermite norm).normalization 1 else 1) := by
    funext x; rw [one_mul]; rfl
  have h2 : polyVal (physicistHermite norm) 1
      = fun x => 2 * x / (if norm then (physicistHermite norm).normalization 1 else 1) := by
    funext x; rfl
  have h3 : hermiteFn 1 = fun x => 1 * x / 1 := by
    funext x; rw [one_mul, div_one]; rfl
  simp only [Spec.basisOf, h1, h2, h3, key, and_self]

/-- Non-vacuity of `C61_affine` and `C61_affine_inverse`: two inputs, total order 1, normalised Hermite polynomials,
`softplus`, adaptive Simpson quadrature with the default settings, coefficients `(1,2,3)`. -/
example : ∃ c : MonotoneComponent, ValidComponent c 2 (MISet.toEnum 2 1) ∧ AffineLast c.b 2 (MISet.toEnum 2 1) ∧
    c.quad = QProg.simpson ⟨1, 30, 0, 1e-6, 1e-6, .first⟩ ∧
    LogDetIsJacobian (c.obj (List.replicate c.w.cacheSize (some 3)) []) ∧
    Differentiates (c.obj (List.replicate c.w.cacheSize (some 3)) []) ∧
    Fits (c.obj (List.replicate c.w.cacheSize (some 3)) []) [1, 2, 3] [4, 5] := by
  obtain ⟨h1, h2, -⟩ := C39_simpson ⟨1, 30, 0, 1e-6, 1e-6, .first⟩ rfl (by decide) (by decide)
  have hv := valid_total 2 1 (by decide) C24_bases_normalized.1.c1 C30_softPlus _ h2 true 0
  have ha := affineLast_total 2 1 le_rfl _ fun y => (affine_bases true y).1
  have hA := C61_affine hv (List.replicate (totalWorker 2 1).cacheSize (some 3)) (by simp) [] h1 (C61_weights.2.1 _) ha
    C24_bases_normalized.1.twice rfl rfl
  obtain ⟨s1, s2, s3⟩ := obj_sizes_component hv (List.replicate (totalWorker 2 1).cacheSize (some 3)) []
  exact ⟨_, hv, ha, rfl, hA.2.2.2.1, hA.2.1, by rw [s3]; rfl, by rw [s1]; rfl⟩

/-- Non-vacuity of `C61_gradient`, `C61_discrete`, `C61_fails_nugget` and `C61_fails_inverse`: one input, order 3, Hermite
functions, `exp`, the Clenshaw–Curtis rule with 5 points. -/
example : ∃ (w p : Mem) (c c' : MonotoneComponent), ClenshawCurtis.getRule 5 ⟨5, fun _ => 0⟩ ⟨5, fun _ => 0⟩ = .ok (w, p) ∧
    ValidComponent c 1 (MISet.toEnum 1 3) ∧ ValidComponent c' 1 (MISet.toEnum 1 3) ∧
    c.quad = QProg.clenshawCurtis p w ∧ c'.quad = QProg.clenshawCurtis p w ∧
    Differentiates (c.obj (List.replicate c.w.cacheSize none) []) ∧
    (∀ o, (c.obj (List.replicate c.w.cacheSize none) []).logDet [1, 2, 3, 4] [5] o ≠ .ub) ∧
    (¬ HasDerivAt (fun y => (fn (c'.obj (List.replicate c'.w.cacheSize none) []) [1, 2, 3, 4] [y]).getD 0 0)
      ((grad (c'.obj (List.replicate c'.w.cacheSize none) []) [1, 2, 3, 4] [5] [1]).getD 0 0) 5) ∧
    (c.obj (List.replicate c.w.cacheSize none) []).inv [1, 2, 3, 4] [] [7] [0] = .ub := by
  obtain ⟨w, p, e, -, -, -, -, sw, sp, -⟩ := C32_rule 5 (by decide) (by decide) ⟨5, fun _ => 0⟩ ⟨5, fun _ => 0⟩ le_rfl le_rfl
  obtain ⟨h1, h2, -⟩ := C39_clenshawCurtis p w (by rw [sw, sp])
  have hw := C61_weights.1 5 _ _ w p (by decide) (by decide) rfl rfl e (fun _ => 0)
  have hv := valid_total 1 3 (by decide) C24_bases.2.2.eff.c1 C30_exp _ h2 false 0
  have hv' := valid_total 1 3 (by decide) C24_bases.2.2.eff.c1 C30_exp _ h2 false 1
  obtain ⟨s1, s2, s3⟩ := obj_sizes_component hv (List.replicate (totalWorker 1 3).cacheSize none) []
  obtain ⟨s1', s2', s3'⟩ := obj_sizes_component hv' (List.replicate (totalWorker 1 3).cacheSize none) []
  refine ⟨w, p, _, _, e, hv, hv', rfl, rfl, C61_gradient hv _ (by simp) _ C24_bases.2.2.eff.twice h1 rfl, fun o => ?_,
    C61_fails_nugget (x := [5]) hv' _ (by simp) _ h1 hw one_ne_zero ⟨by rw [s3']; rfl, by rw [s1']; rfl⟩
      (fun _ _ => C24_bases.2.2.eff.twice _),
    C61_fails_inverse hv _ (by simp) _ rfl _ _⟩
  rw [C61_discrete (x := [5]) hv _ (by simp) _ h1 rfl rfl ⟨by rw [s3]; rfl, by rw [s1]; rfl⟩ (fun _ _ => C24_bases.2.2.eff.twice _)]
  simp

end MParT
