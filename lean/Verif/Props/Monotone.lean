import Verif.Lemmas.MonotoneDeriv
import Verif.Props.BasisLink
import Verif.Props.RootFinding
import Mathlib.MeasureTheory.Integral.IntervalIntegral.FundThmCalculus
import Mathlib.Analysis.Calculus.Deriv.MeanValue
import Mathlib.Analysis.SpecialFunctions.Log.Deriv
/-!
# Properties C38 and C39: monotone components

`x = coords pt` are the coordinates of the point, `x (D-1)` the last one. All kernels start from scratch memory `scr` with
arbitrary contents. `UsesMesh c.quad mesh` says what the quadrature does with an integrand; everything else is proved.
-/
namespace MParT
open Spec Worker FixedSet Finset

variable {c : MonotoneComponent} {D : Nat} {ts : List (List Nat)}

/-! ### C38, exact integration -/

theorem density_continuous (hv : ValidComponent c D ts) (ν : ℝ) (cs : List ℝ) (x : Nat → ℝ) :
    Continuous (density c.b.eff c.g.eval ν D ts cs x) := by
  have h1 : Continuous fun s => diagD c.b.eff D ts cs (Function.update x (D - 1) s) := by
    simp only [diagD_eq hv, expansion, termProd]
    refine continuous_finset_sum _ fun k _ => continuous_const.mul (continuous_finset_prod _ fun d _ => ?_)
    by_cases h : d = D - 1
    · subst h
      simpa only [facD1, if_true, Function.update_self] using hv.basis.cont _
    · simp only [facD1, if_neg h, Function.update_of_ne h]
      exact continuous_const
  have h2 : Continuous c.g.eval := continuous_iff_continuousAt.2 fun s => (hv.bij.deriv s).continuousAt
  exact (h2.comp h1).add continuous_const

/-- **C38** (exact integration). The component `T(x) = f(x_{1:D-1},0) + ∫_0^{x_D} (g(∂_D f)+ν)` has the derivative
`g(∂_D f(x)) + ν` in its last input, this is positive, and `T` is strictly increasing in the last input; and the integral
over `[0,x_D]` is the integral over `[0,1]` of the function the code integrates. -/
theorem C38_exact (hv : ValidComponent c D ts) (cs : List ℝ) (x : Nat → ℝ) {ν : ℝ} (hν : 0 ≤ ν) :
    HasDerivAt (fun y => monotone c.b.eff c.g.eval ν D ts cs (Function.update x (D - 1) y))
      (c.g.eval (diagD c.b.eff D ts cs x) + ν) (x (D - 1)) ∧
    0 < c.g.eval (diagD c.b.eff D ts cs x) + ν ∧
    StrictMono (fun y => monotone c.b.eff c.g.eval ν D ts cs (Function.update x (D - 1) y)) ∧
    monotone c.b.eff c.g.eval ν D ts cs x
      = offset c.b.eff D ts cs x + ∫ t in (0 : ℝ)..1, unitDensity c.b.eff c.g.eval ν D ts cs x t := by
  have hpos : ∀ x, 0 < c.g.eval (diagD c.b.eff D ts cs x) + ν := fun x => by linarith [hv.bij.pos (diagD c.b.eff D ts cs x)]
  have key : ∀ y, HasDerivAt (fun y => monotone c.b.eff c.g.eval ν D ts cs (Function.update x (D - 1) y))
      (density c.b.eff c.g.eval ν D ts cs x y) y := by
    intro y
    have h := ((density_continuous hv ν cs x).integral_hasStrictDerivAt 0 y).hasDerivAt
    have e : (fun y => monotone c.b.eff c.g.eval ν D ts cs (Function.update x (D - 1) y))
        = fun y => offset c.b.eff D ts cs x + ∫ s in (0 : ℝ)..y, density c.b.eff c.g.eval ν D ts cs x s := by
      funext y
      rw [monotone, offset, offset]
      simp only [Function.update_idem, Function.update_self, density]
    rw [e]
    exact h.const_add _
  refine ⟨?_, hpos x, ?_, ?_⟩
  · have := key (x (D - 1))
    rwa [density, Function.update_eq_self] at this
  · refine strictMono_of_deriv_pos fun y => ?_
    rw [(key y).deriv]
    exact hpos _
  · rw [monotone]
    congr 1
    simp only [unitDensity]
    rw [intervalIntegral.integral_const_mul, intervalIntegral.mul_integral_comp_mul_right, zero_mul, one_mul]

/-! ### C38, the value -/

theorem map_sum_congr (R : List (ℝ × ℝ)) (F G : ℝ → ℝ) (h : ∀ t, F t = G t) :
    (R.map fun p => p.2 * F p.1).sum = (R.map fun p => p.2 * G p.1).sum := by
  rw [funext h]

theorem offset_pointOf (b : Basis ℝ) (cs pt : List ℝ) (xd : ℝ) : expandAt b D ts cs (pointOf D pt 0)
    = offset b D ts cs (Function.update (coords pt) (D - 1) xd) := by
  rw [offset, pointOf_eq, Function.update_idem]

section
variable (hv : ValidComponent c D ts) {mesh : (ℝ → ℝ) → List (ℝ × ℝ)} (hm : UsesMesh c.quad mesh) {cs pt : List ℝ}
  (hc : cs.length = ts.length)
include hv hm hc

/-- **C38.** `EvaluateSingle`, with any nugget and from any state of the cache reached after `FillCache1`, applies the
quadrature to exactly `t ↦ x_D (g(∂_D f(x_{1:D-1}, t x_D)) + ν)`, adds `f(x_{1:D-1},0)` and leaves the cache in such a
state again. -/
theorem C38_single (hpt : D - 1 ≤ pt.length) {f1 : DFlag} {cache : Cache ℝ} (hs : Cached c pt f1 cache) (xd ν : ℝ) :
    ∃ cache', c.evaluateSingle cache pt xd cs ν = .ok (cache',
        discretised c.b.eff c.g.eval ν D ts cs (Function.update (coords pt) (D - 1) xd)
          (mesh (unitDensity c.b.eff c.g.eval ν D ts cs (Function.update (coords pt) (D - 1) xd)))) ∧
      Cached c pt f1 cache' := by
  obtain ⟨s', e, hs'⟩ := run_eq hv cs pt ν hm hc .none f1 xd hpt (by simp) (cache, []) hs (by simp)
  obtain ⟨c2, e2, hf⟩ := hs'.fill hv hpt 0 .none (by simp)
  refine ⟨c2, ?_, hf.cached⟩
  rw [show vecLen D ts .none = 1 from rfl] at e
  simp only [MonotoneComponent.evaluateSingle, e, Res.bind_ok]
  simp only [List.range_one, List.map_cons, List.map_nil, Res.idx, List.getElem?_cons_zero, Res.bind_ok, e2,
    hf.evaluate hv hpt hc (by simp)]
  rw [offset_pointOf c.b.eff cs pt xd, discretised, add_comm]
  simp only [integralOf, vecAt_zero, out0_eq, show out0 c D ts cs pt xd ν
    = unitDensity c.b.eff c.g.eval ν D ts cs (Function.update (coords pt) (D - 1) xd) from
    funext fun t => out0_eq cs pt ν xd t]
  rfl

/-- **C38.** `Evaluate` at a point returns `f(x_{1:D-1},0)` plus the quadrature applied to
`t ↦ x_D g(∂_D f(x_{1:D-1}, t x_D))`. Missing from the full property: the nugget, see `C38_fails_nugget`. -/
theorem C38_evaluate_partial (hpt : pt.length = D) (scr : Cache ℝ) (hs : scr.length = c.w.cacheSize) :
    c.evaluatePt scr cs pt = .ok (discretised c.b.eff c.g.eval 0 D ts cs (coords pt)
      (mesh (unitDensity c.b.eff c.g.eval 0 D ts cs (coords pt)))) := by
  have hD := hv.pos
  obtain ⟨cache, e, hC⟩ := cached_start hv (pt := pt) (by omega) scr hs .none
  obtain ⟨cache', e', -⟩ := C38_single hv hm hc (by omega) hC (coords pt (D - 1)) 0
  rw [Function.update_eq_self] at e'
  simp only [MonotoneComponent.evaluatePt, e, Res.bind_ok, dim_eq hv]
  rw [Res.idx_lt (by omega), Res.bind_ok, show pt[D - 1] = coords pt (D - 1) by simp [coords, hpt, hD]]
  rw [e']
  rfl

/-- **C38.** If the quadrature integrates the integrand exactly, and the nugget is zero, `Evaluate` returns the exact
component, which is strictly increasing in the last input. -/
theorem C38_increasing_partial (hnu : c.nugget = 0) (hex : ∀ x : Nat → ℝ,
      ((mesh (unitDensity c.b.eff c.g.eval 0 D ts cs x)).map fun p => p.2 * unitDensity c.b.eff c.g.eval 0 D ts cs x p.1).sum
        = ∫ t in (0 : ℝ)..1, unitDensity c.b.eff c.g.eval 0 D ts cs x t)
    (pre : List ℝ) (hpre : pre.length = D - 1) (scr : Cache ℝ) (hs : scr.length = c.w.cacheSize) :
    ∃ T : ℝ → ℝ, StrictMono T ∧ (∀ y, c.evaluatePt scr cs (pre ++ [y]) = .ok (T y)) ∧
      ∀ y, HasDerivAt T (c.g.eval (diagD c.b.eff D ts cs (coords (pre ++ [y]))) + c.nugget) y := by
  have hD := hv.pos
  have hx : ∀ y, coords (pre ++ [y]) = Function.update (coords pre) (D - 1) y := by
    intro y; funext d
    by_cases h : d = D - 1
    · subst h; simp [coords, hpre]
    · rw [Function.update_of_ne h]
      by_cases h2 : d < D - 1
      · simp [coords, List.getElem?_append_left (show d < pre.length by omega)]
      · simp [coords, List.getElem?_eq_none (show (pre ++ [y]).length ≤ d by simp; omega),
          List.getElem?_eq_none (show pre.length ≤ d by omega)]
  refine ⟨fun y => monotone c.b.eff c.g.eval 0 D ts cs (Function.update (coords pre) (D - 1) y),
    (C38_exact hv cs (coords pre) le_rfl).2.2.1, fun y => ?_, fun y => ?_⟩
  · rw [C38_evaluate_partial hv hm hc (by simp; omega) scr hs, discretised, hex, hx]
    exact congrArg Res.ok (C38_exact hv cs _ le_rfl).2.2.2.symm
  · have h := (C38_exact hv cs (coords (pre ++ [y])) le_rfl).1
    rw [hnu]
    simpa only [hx, Function.update_idem, Function.update_self] using h

/-- **C38.** The function whose root `Inverse` looks for: the discretised component as a function of the last input, with
the component's nugget; `pt` holds the leading inputs. -/
theorem C38_inverse (hpt : D - 1 ≤ pt.length) (hne : 0 < pt.length) (scr : Cache ℝ) (hs : scr.length = c.w.cacheSize)
    (y xtol ytol : ℝ) :
    c.inversePt scr cs pt y xtol ytol = .ok (RootFinding.inverseSingleBracket y
      (fun t => discretised c.b.eff c.g.eval c.nugget D ts cs (Function.update (coords pt) (D - 1) t)
        (mesh (unitDensity c.b.eff c.g.eval c.nugget D ts cs (Function.update (coords pt) (D - 1) t))))
      (coords pt (pt.length - 1)) xtol ytol) := by
  obtain ⟨cache, e, hC⟩ := cached_start hv (pt := pt) hpt scr hs .none
  simp only [MonotoneComponent.inversePt, e, Res.bind_ok]
  rw [Res.idx_lt (by omega), Res.bind_ok, show pt[pt.length - 1] = coords pt (pt.length - 1) by simp [coords, hne]]
  have : c.singleEvaluator cache pt cs
      = fun t => discretised c.b.eff c.g.eval c.nugget D ts cs (Function.update (coords pt) (D - 1) t)
        (mesh (unitDensity c.b.eff c.g.eval c.nugget D ts cs (Function.update (coords pt) (D - 1) t))) := by
    funext t
    obtain ⟨cache', e', -⟩ := C38_single hv hm hc hpt hC t c.nugget
    rw [MonotoneComponent.singleEvaluator, e']
  rw [this]
  rfl

end

/-! ### C39 -/

theorem getD_map_range (n : Nat) (F : Nat → ℝ) (k : Nat) (h : k < n) : ((List.range n).map F).getD k 0 = F k := by
  simp [h]

theorem getD_replicate_zero (n k : Nat) : (List.replicate n (0 : ℝ)).getD k 0 = 0 := by
  by_cases h : k < n <;> simp [List.getD_eq_getElem?_getD, List.getElem?_replicate, h]

theorem offset_coeff {cs : List ℝ} (hc : cs.length = ts.length) (b : Basis ℝ) (x : Nat → ℝ) (k : Nat) (hk : k < ts.length) :
    HasDerivAt (fun z => offset b D ts (cs.set k z) x)
      (termProd D (fun d n => b.val n (Function.update x (D - 1) 0 d)) (ts.getD k [])) (cs.getD k 0) :=
  expansion_coeff_hasDerivAt D ts cs _ k hk hc.ge _

theorem vecAt_diag (cs pt : List ℝ) (xd ν t : ℝ) : vecAt c D ts cs pt xd ν .diagonal t 1 = outD c D ts cs pt xd ν t := rfl

theorem vecAt_par (cs pt : List ℝ) (xd ν t : ℝ) (k : Nat) (hk : k < ts.length) :
    vecAt c D ts cs pt xd ν .parameters t (k + 1) = outP c D ts cs pt xd t k := by
  simp [vecAt, vec, hk]

theorem vecAt_mixed (cs pt : List ℝ) (xd ν t : ℝ) (k : Nat) (hk : k < ts.length) :
    vecAt c D ts cs pt xd ν .mixed t (k + 1) = outM c D ts cs pt xd t k := by
  simp [vecAt, vec, hk]

theorem vecAt_input (cs pt : List ℝ) (xd ν t : ℝ) (e : Nat) (he : e < D - 1) :
    vecAt c D ts cs pt xd ν .input t (e + 1) = outI c D ts cs pt xd t e := by
  simp [vecAt, vec, List.getElem?_append_left, he]

theorem vecAt_inputD (cs pt : List ℝ) (xd ν t : ℝ) (hD : 0 < D) :
    vecAt c D ts cs pt xd ν .input t D = outD c D ts cs pt xd ν t := by
  obtain ⟨n, rfl⟩ : ∃ n, D = n + 1 := ⟨D - 1, by omega⟩
  simp [vecAt, vec]

section
variable (hv : ValidComponent c D ts) {mesh : (ℝ → ℝ) → List (ℝ × ℝ)} (hm : UsesMesh c.quad mesh) {cs pt : List ℝ}
  (hc : cs.length = ts.length) (hpt : pt.length = D) (scr : Cache ℝ) (hs : scr.length = c.w.cacheSize)
include hv hc hpt

theorem discretised_deriv_last (ν : ℝ) (R : List (ℝ × ℝ)) (h2 : ∀ p ∈ R, TwiceAt c.b.eff (p.1 * coords pt (D - 1))) :
    HasDerivAt (fun y => discretised c.b.eff c.g.eval ν D ts cs (Function.update (coords pt) (D - 1) y) R)
      (R.map fun p => p.2 * outD c D ts cs pt (coords pt (D - 1)) ν p.1).sum (coords pt (D - 1)) := by
  simp only [discretised, offset, Function.update_idem]
  exact (hasDerivAt_meshSum R (fun t y => unitDensity c.b.eff c.g.eval ν D ts cs (Function.update (coords pt) (D - 1) y) t)
    (outD c D ts cs pt (coords pt (D - 1)) ν) _ fun p hp => outD_deriv hv cs pt ν p.1 _ (h2 p hp)).const_add _

include hm hs

/-- **C39.** `DiscreteDerivative` returns the value of the discretised component (nugget included) and its exact
derivative with respect to the last input for the quadrature nodes used, at nodes where the second derivatives of the basis
are right. -/
theorem C39_discrete : ∃ d, c.discreteDerivativePt scr cs pt = .ok (discretised c.b.eff c.g.eval c.nugget D ts cs (coords pt)
        (mesh (unitDensity c.b.eff c.g.eval c.nugget D ts cs (coords pt))), d) ∧
      ((∀ p ∈ mesh (unitDensity c.b.eff c.g.eval c.nugget D ts cs (coords pt)), TwiceAt c.b.eff (p.1 * coords pt (D - 1))) →
      HasDerivAt (fun y => discretised c.b.eff c.g.eval c.nugget D ts cs (Function.update (coords pt) (D - 1) y)
        (mesh (unitDensity c.b.eff c.g.eval c.nugget D ts cs (coords pt)))) d (coords pt (D - 1))) := by
  have hD := hv.pos
  obtain ⟨cache, e, hC⟩ := cached_start hv (pt := pt) (by omega) scr hs .none
  obtain ⟨s', e1, hs'⟩ := run_eq hv cs pt c.nugget hm hc .diagonal .none (coords pt (D - 1)) (by omega) (by simp) (cache, []) hC
    (by simp)
  obtain ⟨c2, e2, hf⟩ := hs'.fill hv (by omega) 0 .none (by simp)
  have h0 : out0 c D ts cs pt (coords pt (D - 1)) c.nugget = unitDensity c.b.eff c.g.eval c.nugget D ts cs (coords pt) :=
    funext fun t => by rw [out0_eq, Function.update_eq_self]
  rw [h0] at e1
  refine ⟨_, ?_, discretised_deriv_last hv hc hpt c.nugget _⟩
  simp only [MonotoneComponent.discreteDerivativePt, e, Res.bind_ok, hpt]
  rw [Res.idx_lt (by omega), Res.bind_ok, show pt[D - 1] = coords pt (D - 1) by simp [coords, hpt, hD]]
  rw [show vecLen D ts .diagonal = 2 from rfl] at e1
  rw [e1]
  simp only [Res.bind_ok, Res.idx, List.range_succ, List.range_zero, List.nil_append, List.map_append, List.map_cons, List.map_nil,
    List.cons_append, List.getElem?_cons_zero, List.getElem?_cons_succ, e2, hf.evaluate hv (by omega) hc (by simp)]
  rw [offset_pointOf c.b.eff cs pt (coords pt (D - 1)), Function.update_eq_self, discretised, add_comm]
  simp only [integralOf, vecAt_zero, vecAt_diag, h0]
  rfl

/-- **C39.** `CoeffJacobian` returns the value of the discretised component and its exact derivative with respect to each
coefficient, whatever the output column contained before. -/
theorem C39_coeff (jac : List ℝ) (hj : jac.length = ts.length) :
    ∃ j, c.coeffJacobianPt scr cs pt jac = .ok (discretised c.b.eff c.g.eval c.nugget D ts cs (coords pt)
        (mesh (unitDensity c.b.eff c.g.eval c.nugget D ts cs (coords pt))), j) ∧ j.length = ts.length ∧
      ∀ k, k < ts.length → HasDerivAt (fun z => discretised c.b.eff c.g.eval c.nugget D ts (cs.set k z) (coords pt)
        (mesh (unitDensity c.b.eff c.g.eval c.nugget D ts cs (coords pt)))) (j.getD k 0) (cs.getD k 0) := by
  have hD := hv.pos
  obtain ⟨cache, e, hC⟩ := cached_start hv (pt := pt) (by omega) scr hs .none
  obtain ⟨s', e1, hs'⟩ := run_eq hv cs pt c.nugget hm hc .parameters .none (coords pt (D - 1)) (by omega) (by simp) (cache, []) hC
    (by simp)
  obtain ⟨c2, e2, hf⟩ := hs'.fill hv (by omega) 0 .none (by simp)
  have h0 : out0 c D ts cs pt (coords pt (D - 1)) c.nugget = unitDensity c.b.eff c.g.eval c.nugget D ts cs (coords pt) :=
    funext fun t => by rw [out0_eq, Function.update_eq_self]
  rw [h0] at e1
  generalize mesh (unitDensity c.b.eff c.g.eval c.nugget D ts cs (coords pt)) = R at *
  rw [show vecLen D ts .parameters = ts.length + 1 from rfl, ← hc] at e1
  obtain ⟨j, e3, hl, hk⟩ := addIntegral_eq ((List.range (cs.length + 1)).map
    (integralOf c D ts cs pt (coords pt (D - 1)) c.nugget .parameters R)) cs.length
    (termF D ts fun d n => c.b.eff.val n (pointOf D pt 0 d)) 0 (by simp [termF, hc]) (by simp)
  refine ⟨j, ?_, by rw [hl]; simp [termF], fun k hk' => ?_⟩
  · simp only [MonotoneComponent.coeffJacobianPt, e, Res.bind_ok, hpt]
    rw [Res.idx_lt (by omega), Res.bind_ok, show pt[D - 1] = coords pt (D - 1) by simp [coords, hpt, hD], e1]
    simp only [Res.bind_ok]
    rw [Res.idx_lt (by simp), Res.bind_ok]
    simp only [Res.bind_ok, e2, hf.coeff hv (by omega) hc (by simp) jac hj, e3]
    rw [offset_pointOf c.b.eff cs pt (coords pt (D - 1)), Function.update_eq_self, discretised, add_comm]
    simp only [List.getElem_map, List.getElem_range, integralOf, vecAt_zero, h0]
    rfl
  · simp only [discretised]
    refine ((offset_coeff hc c.b.eff (coords pt) k hk').add (hasDerivAt_meshSum R
      (fun t z => unitDensity c.b.eff c.g.eval c.nugget D ts (cs.set k z) (coords pt) t)
      (fun t => outP c D ts cs pt (coords pt (D - 1)) t k) _ fun p _ => by
        have := outP_deriv hv cs pt c.nugget hc (coords pt (D - 1)) p.1 k hk'
        rwa [Function.update_eq_self] at this)).congr_deriv ?_
    rw [hk k, if_pos (by omega), termF, getD_map_range _ _ _ hk', getD_map_range _ _ _ (by omega), pointOf_eq]
    simp only [integralOf, vecAt_par _ _ _ _ _ _ hk']

/-- **C39.** `InputJacobian` returns the value of the discretised component and its exact derivative with respect to each
input, whatever the output column contained before; for the last input, at nodes where the second derivatives of the basis
are right. -/
theorem C39_input (jac : List ℝ) (hj : jac.length = D) :
    ∃ j, c.inputJacobianPt scr cs pt jac = .ok (discretised c.b.eff c.g.eval c.nugget D ts cs (coords pt)
        (mesh (unitDensity c.b.eff c.g.eval c.nugget D ts cs (coords pt))), j) ∧ j.length = D ∧
      ∀ e, e < D → (e = D - 1 → ∀ p ∈ mesh (unitDensity c.b.eff c.g.eval c.nugget D ts cs (coords pt)),
        TwiceAt c.b.eff (p.1 * coords pt (D - 1))) →
        HasDerivAt (fun y => discretised c.b.eff c.g.eval c.nugget D ts cs (Function.update (coords pt) e y)
        (mesh (unitDensity c.b.eff c.g.eval c.nugget D ts cs (coords pt)))) (j.getD e 0) (coords pt e) := by
  have hD := hv.pos
  obtain ⟨cache, e, hC⟩ := cached_start hv (pt := pt) (by omega) scr hs .input
  obtain ⟨s', e1, hs'⟩ := run_eq hv cs pt c.nugget hm hc .input .input (coords pt (D - 1)) (by omega) (by simp [hpt]) (cache, []) hC
    (by simp)
  obtain ⟨c2, e2, hf⟩ := hs'.fill hv (by omega) 0 .input (by simp)
  have h0 : out0 c D ts cs pt (coords pt (D - 1)) c.nugget = unitDensity c.b.eff c.g.eval c.nugget D ts cs (coords pt) :=
    funext fun t => by rw [out0_eq, Function.update_eq_self]
  rw [h0] at e1
  generalize hR : mesh (unitDensity c.b.eff c.g.eval c.nugget D ts cs (coords pt)) = R at *
  rw [show vecLen D ts .input = D + 1 from rfl] at e1
  obtain ⟨j, e3, hl, hk⟩ := addIntegral_eq ((List.range (D + 1)).map
    (integralOf c D ts cs pt (coords pt (D - 1)) c.nugget .input R)) (D - 1)
    ((List.range D).map fun e => expansion D ts cs (facD1 c.b.eff (pointOf D pt 0) e)) 0 (by simp) (by simp)
  have hjl : j.length = D := by rw [hl]; simp
  refine ⟨j.set (D - 1) (integralOf c D ts cs pt (coords pt (D - 1)) c.nugget .input R D), ?_, by simp [hjl], fun a ha h2 => ?_⟩
  · simp only [MonotoneComponent.inputJacobianPt, e, Res.bind_ok, hpt, dim_eq hv]
    rw [Res.idx_lt (by omega), Res.bind_ok, show pt[D - 1] = coords pt (D - 1) by simp [coords, hpt, hD], e1]
    simp only [Res.bind_ok]
    rw [Res.idx_lt (by simp), Res.bind_ok]
    simp only [Res.bind_ok, e2, hf.inputD hv (by omega) hc (by simp) (by simp) jac hj, e3]
    rw [Res.idx_lt (by simp), Res.bind_ok, Res.setIdx_lt (by omega), Res.bind_ok]
    rw [offset_pointOf c.b.eff cs pt (coords pt (D - 1)), Function.update_eq_self, discretised, add_comm]
    simp only [List.getElem_map, List.getElem_range, integralOf, vecAt_zero, h0]
    rfl
  · by_cases hl : a = D - 1
    · subst hl
      refine (discretised_deriv_last hv hc hpt c.nugget R (h2 rfl)).congr_deriv ?_
      simp only [List.getD_eq_getElem?_getD, List.getElem?_set, if_true, hjl, ha, Option.getD_some, integralOf,
        vecAt_inputD cs pt _ _ _ hD]
    · have hne : D - 1 ≠ a := fun h => hl h.symm
      simp only [discretised]
      have hoff : HasDerivAt (fun y => offset c.b.eff D ts cs (Function.update (coords pt) a y))
          (expansion D ts cs (facD1 c.b.eff (Function.update (coords pt) (D - 1) 0) a)) (coords pt a) := by
        have := expandAt_partial (ts := ts) c.b.eff cs hv.basis D (Function.update (coords pt) (D - 1) 0) a ha
        rw [Function.update_of_ne hl] at this
        refine this.congr_of_eventuallyEq (Filter.Eventually.of_forall fun y => ?_)
        show offset _ _ _ _ _ = _
        rw [offset, Function.update_comm hl]
      refine (hoff.add (hasDerivAt_meshSum R
        (fun t z => unitDensity c.b.eff c.g.eval c.nugget D ts cs (Function.update (coords pt) a z) t)
        (fun t => outI c D ts cs pt (coords pt (D - 1)) t a) _ fun p _ => by
          have := outI_deriv hv cs pt c.nugget (coords pt (D - 1)) p.1 a (by omega)
          rwa [Function.update_eq_self] at this)).congr_deriv ?_
      have hset : (j.set (D - 1) (integralOf c D ts cs pt (coords pt (D - 1)) c.nugget .input R D)).getD a 0 = j.getD a 0 := by
        simp [List.getD_eq_getElem?_getD, List.getElem?_set, hne]
      rw [hset, hk a, if_pos (by omega), getD_map_range _ _ _ ha, getD_map_range _ _ _ (by omega), pointOf_eq]
      simp only [integralOf, vecAt_input cs pt _ _ _ a (show a < D - 1 by omega)]

/-- **C39.** `DiscreteMixedJacobian` adds to the output column the exact derivative with respect to each coefficient of the
derivative of the discretised component in the last input. Missing from the full property: the previous content of
the column is not overwritten (`C39_fails_accumulate`), so this is the Jacobian only if the column was zero. -/
theorem C39_discreteMixed_partial (h2 : ∀ p ∈ mesh (unitDensity c.b.eff c.g.eval c.nugget D ts cs (coords pt)), TwiceAt c.b.eff (p.1 * coords pt (D - 1)))
    (work jac : List ℝ) (hw : work.length = ts.length) (hj : jac.length = ts.length) :
    ∃ j, c.discreteMixedJacobianPt scr work cs pt jac = .ok j ∧ j.length = ts.length ∧
      ∀ k, k < ts.length → HasDerivAt (fun z => partialDeriv (fun x => discretised c.b.eff c.g.eval c.nugget D ts (cs.set k z) x
        (mesh (unitDensity c.b.eff c.g.eval c.nugget D ts cs (coords pt)))) (D - 1) (coords pt))
        (j.getD k 0 - jac.getD k 0) (cs.getD k 0) := by
  have hD := hv.pos
  obtain ⟨cache, e, hC⟩ := cached_start hv (pt := pt) (by omega) scr hs .none
  obtain ⟨s', e1, hs'⟩ := run_eq hv cs pt c.nugget hm hc .mixed .none (coords pt (D - 1)) (by omega) (by simp) (cache, work) hC
    (fun _ => hw)
  have h0 : out0 c D ts cs pt (coords pt (D - 1)) c.nugget = unitDensity c.b.eff c.g.eval c.nugget D ts cs (coords pt) :=
    funext fun t => by rw [out0_eq, Function.update_eq_self]
  rw [h0] at e1
  generalize mesh (unitDensity c.b.eff c.g.eval c.nugget D ts cs (coords pt)) = R at *
  rw [show vecLen D ts .mixed = ts.length + 1 from rfl, ← hc] at e1
  obtain ⟨j, e3, hl, hk⟩ := addIntegral_eq ((List.range (cs.length + 1)).map
    (integralOf c D ts cs pt (coords pt (D - 1)) c.nugget .mixed R)) cs.length jac 0 (by omega) (by simp)
  refine ⟨j, ?_, hl.trans hj, fun k hk' => ?_⟩
  · simp only [MonotoneComponent.discreteMixedJacobianPt, e, Res.bind_ok, hpt]
    rw [Res.idx_lt (by omega), Res.bind_ok, show pt[D - 1] = coords pt (D - 1) by simp [coords, hpt, hD], e1]
    exact e3
  · have hd : ∀ z, partialDeriv (fun x => discretised c.b.eff c.g.eval c.nugget D ts (cs.set k z) x R) (D - 1) (coords pt)
        = (R.map fun p => p.2 * outD c D ts (cs.set k z) pt (coords pt (D - 1)) c.nugget p.1).sum := fun z =>
      (discretised_deriv_last hv (cs := cs.set k z) (by simpa using hc) hpt c.nugget R h2).deriv
    simp only [hd]
    refine (hasDerivAt_meshSum R (fun t z => outD c D ts (cs.set k z) pt (coords pt (D - 1)) c.nugget t)
      (fun t => outM c D ts cs pt (coords pt (D - 1)) t k) _ fun p _ =>
      outM_deriv hv cs pt c.nugget hc (coords pt (D - 1)) p.1 k hk').congr_deriv ?_
    rw [hk k, if_pos (by omega), getD_map_range _ _ _ (by omega), add_sub_cancel_left]
    simp only [integralOf, vecAt_mixed _ _ _ _ _ _ hk']


/-- **C39 fails for reused output memory.** Whatever non-zero number the column contained before the call makes the entry
returned by `DiscreteMixedJacobian` wrong. -/
theorem C39_fails_accumulate (h2 : ∀ p ∈ mesh (unitDensity c.b.eff c.g.eval c.nugget D ts cs (coords pt)), TwiceAt c.b.eff (p.1 * coords pt (D - 1)))
    (work jac : List ℝ) (hw : work.length = ts.length) (hj : jac.length = ts.length) (k : Nat)
    (hk : k < ts.length) (hne : jac.getD k 0 ≠ 0) :
    ∃ j, c.discreteMixedJacobianPt scr work cs pt jac = .ok j ∧
      ¬ HasDerivAt (fun z => partialDeriv (fun x => discretised c.b.eff c.g.eval c.nugget D ts (cs.set k z) x
        (mesh (unitDensity c.b.eff c.g.eval c.nugget D ts cs (coords pt)))) (D - 1) (coords pt)) (j.getD k 0) (cs.getD k 0) := by
  obtain ⟨j, e, -, h⟩ := C39_discreteMixed_partial hv hm hc hpt scr hs h2 work jac hw hj
  refine ⟨j, e, fun h' => hne ?_⟩
  have := (h k hk).unique h'
  linarith

omit hm

/-- **C39.** `ContinuousDerivative` returns `g(∂_D f(x))`; for a component without nugget this is the derivative of the
exact component in the last input. Missing from the full property: components with a nugget, for which it is not
(`C39_fails_continuous`). -/
theorem C39_continuous_partial : c.continuousDerivativePt scr cs pt = .ok (c.g.eval (diagD c.b.eff D ts cs (coords pt))) ∧
    (c.nugget = 0 → HasDerivAt (fun y => monotone c.b.eff c.g.eval c.nugget D ts cs (Function.update (coords pt) (D - 1) y))
      (c.g.eval (diagD c.b.eff D ts cs (coords pt))) (coords pt (D - 1))) := by
  have hD := hv.pos
  refine ⟨?_, fun h0 => ?_⟩
  · obtain ⟨cache, e, hC⟩ := cached_start hv (pt := pt) (by omega) scr hs .none
    obtain ⟨c2, e2, hf⟩ := hC.fill hv (by omega) (coords pt (D - 1)) .diagonal (by simp)
    simp only [MonotoneComponent.continuousDerivativePt, e, Res.bind_ok, hpt]
    rw [Res.idx_lt (by omega), Res.bind_ok, show pt[D - 1] = coords pt (D - 1) by simp [coords, hpt, hD], e2]
    simp only [Res.bind_ok, hf.diag1 hv (by omega) hc (by simp)]
    rw [pointOf_eq, Function.update_eq_self]
    rfl
  · rw [h0]
    simpa using (C38_exact hv cs (coords pt) le_rfl).1

/-- **C39 fails with a nugget.** For every component with a positive nugget, at every point, the value returned by
`ContinuousDerivative` is not the derivative of the exact component. -/
theorem C39_fails_continuous (hn : 0 < c.nugget) : ∃ d, c.continuousDerivativePt scr cs pt = .ok d ∧
    ¬ HasDerivAt (fun y => monotone c.b.eff c.g.eval c.nugget D ts cs (Function.update (coords pt) (D - 1) y)) d
      (coords pt (D - 1)) := by
  refine ⟨_, (C39_continuous_partial hv hc hpt scr hs).1, fun h => ?_⟩
  have := h.unique (C38_exact hv cs (coords pt) hn.le).1
  linarith

/-- **C39.** `ContinuousMixedJacobian` returns the derivative of `g(∂_D f(x))` with respect to each coefficient. -/
theorem C39_continuousMixed (jac : List ℝ) (hj : jac.length = ts.length) :
    ∃ j, c.continuousMixedJacobianPt scr cs pt jac = .ok j ∧ j.length = ts.length ∧
      ∀ k, k < ts.length → HasDerivAt (fun z => c.g.eval (diagD c.b.eff D ts (cs.set k z) (coords pt))) (j.getD k 0)
        (cs.getD k 0) := by
  have hD := hv.pos
  obtain ⟨cache, e, hC⟩ := cached_start hv (pt := pt) (by omega) scr hs .none
  obtain ⟨c2, e2, hf⟩ := hC.fill hv (by omega) (coords pt (D - 1)) .diagonal (by simp)
  refine ⟨(List.range ts.length).map fun k => termProd D (facD1 c.b.eff (coords pt) (D - 1)) (ts.getD k [])
    * c.g.deriv (diagD c.b.eff D ts cs (coords pt)), ?_, by simp, fun k hk => ?_⟩
  · simp only [MonotoneComponent.continuousMixedJacobianPt, e, Res.bind_ok, hpt]
    rw [Res.idx_lt (by omega), Res.bind_ok, show pt[D - 1] = coords pt (D - 1) by simp [coords, hpt, hD], e2]
    simp only [Res.bind_ok, hf.mixedCoeff1 hv (by omega) hc (by simp) jac hj]
    rw [mapIdx_lt _ _ (by simp [termF, hc]), pointOf_eq, Function.update_eq_self, termF, List.map_map]
    rfl
  · rw [getD_map_range _ _ _ hk]
    simp only [diagD_eq hv]
    have h1 := expansion_coeff_hasDerivAt D ts cs (facD1 c.b.eff (coords pt) (D - 1)) k hk hc.ge (cs.getD k 0)
    refine (HasDerivAt.comp_of_eq _ (hv.bij.deriv _) h1 rfl).congr_deriv ?_
    rw [set_getD _ _ (by omega)]
    ring

/-- **C39.** `ContinuousMixedInputJacobian` returns the derivative of `g(∂_D f(x))` with respect to each input; for the last
input, where the second derivatives of the basis are right. -/
theorem C39_continuousMixedInput (jac : List ℝ) (hj : jac.length = D) :
    ∃ j, c.continuousMixedInputJacobianPt scr cs pt jac = .ok j ∧ j.length = D ∧
      ∀ e, e < D → (e = D - 1 → TwiceAt c.b.eff (coords pt (D - 1))) →
        HasDerivAt (fun y => c.g.eval (diagD c.b.eff D ts cs (Function.update (coords pt) e y))) (j.getD e 0) (coords pt e) := by
  have hD := hv.pos
  obtain ⟨cache, e, hC⟩ := cached_start hv (pt := pt) (by omega) scr hs .mixedInput
  obtain ⟨c2, e2, hf⟩ := hC.fill hv (by omega) (coords pt (D - 1)) .mixedInput (by simp)
  refine ⟨(List.range D).map fun e => expansion D ts cs (facMixed c.b.eff D (coords pt) e)
    * c.g.deriv (diagD c.b.eff D ts cs (coords pt)), ?_, by simp, fun a ha h2 => ?_⟩
  · simp only [MonotoneComponent.continuousMixedInputJacobianPt, e, Res.bind_ok, hpt]
    rw [Res.idx_lt (by omega), Res.bind_ok, show pt[D - 1] = coords pt (D - 1) by simp [coords, hpt, hD], e2]
    simp only [Res.bind_ok, hf.mixedInputD hv (by omega) hc (by simp) (by simp) jac hj]
    rw [mapIdx_lt _ _ (by simp), pointOf_eq, Function.update_eq_self, List.map_map]
    rfl
  · rw [getD_map_range _ _ _ ha]
    simp only [diagD_eq hv]
    have h1 := facD1_partial (ts := ts) c.b.eff cs hv.basis D (coords pt) a ha h2
    refine (HasDerivAt.comp_of_eq _ (hv.bij.deriv _) h1 rfl).congr_deriv ?_
    rw [Function.update_eq_self]
    ring

/-! ### Log-determinants -/

/-- **C39.** With the continuous derivative, `LogDeterminant` is the logarithm of `g(∂_D f(x))` (never `-inf`), and
`LogDeterminantCoeffGrad`, `LogDeterminantInputGrad` are its gradients, for any previous content of the outputs; for the last
input, where the second derivatives of the basis are right. -/
theorem C39_logdet_continuous (hcont : c.useContDeriv = true) (work out out' : List ℝ) (ho : out.length = ts.length)
    (ho' : out'.length = D) :
    c.logDeterminantPt scr cs pt = .ok (some (Real.log (c.g.eval (diagD c.b.eff D ts cs (coords pt))))) ∧
    (∃ j, c.logDeterminantCoeffGradPt scr work cs pt out = .ok j ∧ j.length = ts.length ∧ ∀ k, k < ts.length →
      HasDerivAt (fun z => Real.log (c.g.eval (diagD c.b.eff D ts (cs.set k z) (coords pt)))) (j.getD k 0) (cs.getD k 0)) ∧
    (∃ j, c.logDeterminantInputGradPt scr cs pt out' = .ok j ∧ j.length = D ∧ ∀ e, e < D → (e = D - 1 → TwiceAt c.b.eff (coords pt (D - 1))) →
      HasDerivAt (fun y => Real.log (c.g.eval (diagD c.b.eff D ts cs (Function.update (coords pt) e y)))) (j.getD e 0)
        (coords pt e)) := by
  have hcd := (C39_continuous_partial hv hc hpt scr hs).1
  have hpos : ∀ s, 0 < c.g.eval s := hv.bij.pos
  refine ⟨?_, ?_, ?_⟩
  · simp only [MonotoneComponent.logDeterminantPt, MonotoneComponent.diagDerivPt, hcont, if_true, hcd, Res.bind_ok]
    rw [if_neg (not_le.2 (hpos _))]
    rfl
  · obtain ⟨j, e, hl, hj⟩ := C39_continuousMixed hv hc hpt scr hs out ho
    refine ⟨j.map (· * (1 / c.g.eval (diagD c.b.eff D ts cs (coords pt)))), ?_, by simpa using hl, fun k hk => ?_⟩
    · simp only [MonotoneComponent.logDeterminantCoeffGradPt, MonotoneComponent.diagDerivPt, hcont, if_true, size_eq hv, e, hcd,
        Res.bind_ok]
      rw [mapIdx_lt _ _ hl.le]
      rfl
    · refine ((hj k hk).log (hpos _).ne').congr_deriv ?_
      rw [set_getD _ _ (by omega)]
      simp [List.getD_eq_getElem?_getD, show k < j.length by omega, div_eq_mul_inv]
  · obtain ⟨j, e, hl, hj⟩ := C39_continuousMixedInput hv hc hpt scr hs out' ho'
    refine ⟨j.map (· * (1 / c.g.eval (diagD c.b.eff D ts cs (coords pt)))), ?_, by simpa using hl, fun k hk h2 => ?_⟩
    · simp only [MonotoneComponent.logDeterminantInputGradPt, hcont, if_true, e, hcd, Res.bind_ok, dim_eq hv]
      rw [mapIdx_lt _ _ hl.le]
      rfl
    · refine ((hj k hk h2).log (hpos _).ne').congr_deriv ?_
      rw [Function.update_eq_self]
      simp [List.getD_eq_getElem?_getD, show k < j.length by omega, div_eq_mul_inv]

include hm

/-- **C39.** With the discrete derivative, `LogDeterminant` is the logarithm of the derivative of the discretised component
in the last input (`-inf` exactly if this is not positive), `LogDeterminantCoeffGrad` is its gradient for outputs that
were zero, and `LogDeterminantInputGrad` throws. -/
theorem C39_logdet_discrete (h2 : ∀ p ∈ mesh (unitDensity c.b.eff c.g.eval c.nugget D ts cs (coords pt)), TwiceAt c.b.eff (p.1 * coords pt (D - 1)))
    (hdisc : c.useContDeriv = false) (work out' : List ℝ) (hw : work.length = ts.length) :
    ∃ T' : List ℝ → ℝ, (∀ cs' : List ℝ, cs'.length = ts.length → HasDerivAt (fun y => discretised c.b.eff c.g.eval c.nugget D ts cs'
          (Function.update (coords pt) (D - 1) y) (mesh (unitDensity c.b.eff c.g.eval c.nugget D ts cs (coords pt)))) (T' cs')
          (coords pt (D - 1))) ∧
      (T' cs ≤ 0 → c.logDeterminantPt scr cs pt = .ok none) ∧
      (0 < T' cs → c.logDeterminantPt scr cs pt = .ok (some (Real.log (T' cs)))) ∧
      (T' cs ≠ 0 → ∃ j, c.logDeterminantCoeffGradPt scr work cs pt (List.replicate ts.length 0) = .ok j ∧ j.length = ts.length ∧
        ∀ k, k < ts.length → HasDerivAt (fun z => Real.log (T' (cs.set k z))) (j.getD k 0) (cs.getD k 0)) ∧
      c.logDeterminantInputGradPt scr cs pt out' = .throw := by
  obtain ⟨d, ed, hd⟩ := C39_discrete hv hm hc hpt scr hs
  replace hd := hd h2
  have hT : ∀ cs' : List ℝ, cs'.length = ts.length → HasDerivAt (fun y => discretised c.b.eff c.g.eval c.nugget D ts cs'
          (Function.update (coords pt) (D - 1) y) (mesh (unitDensity c.b.eff c.g.eval c.nugget D ts cs (coords pt))))
          (partialDeriv (fun x => discretised c.b.eff c.g.eval c.nugget D ts cs' x
            (mesh (unitDensity c.b.eff c.g.eval c.nugget D ts cs (coords pt)))) (D - 1) (coords pt)) (coords pt (D - 1)) := by
    intro cs' hcs'
    exact (discretised_deriv_last hv hcs' hpt c.nugget _ h2).differentiableAt.hasDerivAt
  refine ⟨fun cs' => partialDeriv (fun x => discretised c.b.eff c.g.eval c.nugget D ts cs' x
            (mesh (unitDensity c.b.eff c.g.eval c.nugget D ts cs (coords pt)))) (D - 1) (coords pt), hT, ?_, ?_, ?_, ?_⟩
  · intro h
    simp only at h
    rw [← hd.unique (hT cs hc)] at h
    simp only [MonotoneComponent.logDeterminantPt, MonotoneComponent.diagDerivPt, hdisc, ed, Res.bind_ok]
    simp [h]
  · intro h
    simp only at h ⊢
    rw [← hd.unique (hT cs hc)] at h ⊢
    simp only [MonotoneComponent.logDeterminantPt, MonotoneComponent.diagDerivPt, hdisc, ed, Res.bind_ok]
    simp [h]
  · intro h
    obtain ⟨j, e, hl, hj⟩ := C39_discreteMixed_partial hv hm hc hpt scr hs h2 work (List.replicate ts.length 0) hw (by simp)
    refine ⟨j.map (· * (1 / d)), ?_, by simpa using hl, fun k hk => ?_⟩
    · simp only [MonotoneComponent.logDeterminantCoeffGradPt, MonotoneComponent.diagDerivPt, hdisc, size_eq hv, e, ed,
        Res.bind_ok, Bool.false_eq_true, if_false, Res.pure_eq]
      rw [mapIdx_lt _ _ hl.le]
    · have h1 := hj k hk
      rw [getD_replicate_zero, sub_zero] at h1
      refine (h1.log (by rw [set_getD _ _ (by omega)]; exact h)).congr_deriv ?_
      rw [set_getD _ _ (by omega), ← hd.unique (hT cs hc)]
      simp [List.getD_eq_getElem?_getD, show k < j.length by omega, div_eq_mul_inv]
  · simp [MonotoneComponent.logDeterminantInputGradPt, hdisc]


/-- **C39.** `Gradient` returns the derivatives of `s·T` with respect to the inputs for the sensitivity `s`, and
`CoeffGrad` those with respect to the coefficients, `T` being the discretised component; for the last input, at nodes where
the second derivatives of the basis are right. -/
theorem C39_gradients (s : ℝ) (out out' : List ℝ) (ho : out.length = D) (ho' : out'.length = ts.length) :
    (∃ j, c.gradientPt scr cs pt s out = .ok j ∧ j.length = D ∧ ∀ e, e < D → (e = D - 1 → ∀ p ∈ mesh (unitDensity c.b.eff c.g.eval c.nugget D ts cs (coords pt)),
        TwiceAt c.b.eff (p.1 * coords pt (D - 1))) →
      HasDerivAt (fun y => s * discretised c.b.eff c.g.eval c.nugget D ts cs (Function.update (coords pt) e y)
        (mesh (unitDensity c.b.eff c.g.eval c.nugget D ts cs (coords pt)))) (j.getD e 0) (coords pt e)) ∧
    (∃ j, c.coeffGradPt scr cs pt s out' = .ok j ∧ j.length = ts.length ∧ ∀ k, k < ts.length →
      HasDerivAt (fun z => s * discretised c.b.eff c.g.eval c.nugget D ts (cs.set k z) (coords pt)
        (mesh (unitDensity c.b.eff c.g.eval c.nugget D ts cs (coords pt)))) (j.getD k 0) (cs.getD k 0)) := by
  constructor
  · obtain ⟨j, e, hl, hj⟩ := C39_input hv hm hc hpt scr hs out ho
    refine ⟨j.map (· * s), ?_, by simpa using hl, fun k hk h2 => ?_⟩
    · simp only [MonotoneComponent.gradientPt, e, Res.bind_ok, dim_eq hv]
      rw [mapIdx_lt _ _ hl.le]
      rfl
    · refine ((hj k hk h2).const_mul s).congr_deriv ?_
      simp [List.getD_eq_getElem?_getD, show k < j.length by omega, mul_comm]
  · obtain ⟨j, e, hl, hj⟩ := C39_coeff hv hm hc hpt scr hs out' ho'
    refine ⟨j.map (· * s), ?_, by simpa using hl, fun k hk => ?_⟩
    · simp only [MonotoneComponent.coeffGradPt, e, Res.bind_ok, size_eq hv]
      rw [mapIdx_lt _ _ hl.le]
      rfl
    · refine ((hj k hk).const_mul s).congr_deriv ?_
      simp [List.getD_eq_getElem?_getD, show k < j.length by omega, mul_comm]

end

/-- **C38.** `Evaluate` on many points: throws unless the output has one entry per point, and otherwise entry `i` is the
value at point `i` alone. -/
theorem C38_points_partial (hv : ValidComponent c D ts) {mesh : (ℝ → ℝ) → List (ℝ × ℝ)} (hm : UsesMesh c.quad mesh) {cs : List ℝ}
    (hc : cs.length = ts.length) (pts : List (List ℝ)) (hpts : ∀ pt ∈ pts, pt.length = D) (outLen : Nat) (scr : Cache ℝ)
    (hs : scr.length = c.w.cacheSize) :
    (outLen ≠ pts.length → c.evaluateImpl scr cs pts outLen = .throw) ∧
    (outLen = pts.length → c.evaluateImpl scr cs pts outLen
      = .ok (pts.map fun pt => discretised c.b.eff c.g.eval 0 D ts cs (coords pt)
          (mesh (unitDensity c.b.eff c.g.eval 0 D ts cs (coords pt))))) := by
  refine ⟨fun h => by rw [MonotoneComponent.evaluateImpl, if_pos h], fun h => ?_⟩
  rw [MonotoneComponent.evaluateImpl, if_neg (by simpa using h)]
  clear h
  induction pts with
  | nil => rfl
  | cons pt pts ih =>
    rw [List.mapM_cons, C38_evaluate_partial hv hm hc (hpts pt (by simp)) scr hs, Res.bind_ok,
      ih fun p hp => hpts p (by simp [hp])]
    rfl

end MParT
