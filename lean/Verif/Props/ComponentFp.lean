import Verif.Lemmas.ComponentFp
import Mathlib.Analysis.Complex.ExponentialBounds
/-!
# C108: an infinite value of the positive function is reported, not integrated

Nothing is assumed about the arithmetic: sums, products, the basis and the positive function may round, overflow and return NaN.
-/
namespace MParT
open Spec Spec.Fp Worker FixedSet Fp

section
variable {K : Type} [Add K] [Mul K] [Zero K] [One K] {c : Component K} {D : Nat} {ts : List (List Nat)}
  (hv : Valid c D ts) {cs : List K} (hc : cs.length = ts.length) {pt : List K} (hpt : pt.length = D)
  (scratch : Cache K) (hs : scratch.length = c.w.cacheSize)
include hv hc hpt hs

/-- **C108, evaluation with any last coordinate and nugget** (the calls `Inverse` makes): if the positive function is infinite at one of the
points at which the quadrature asks for it, an exception is thrown; otherwise the result is the quadrature of the integrand plus the value of the
expansion at zero. -/
theorem C108_single (xd ν : K) :
    ((∃ t ∈ nodes (integrandAt c D ts cs pt xd ν) (c.quad 1), Overflows c D ts cs pt (t * xd)) →
      (do let cache ← fillCache1 c.w c.b scratch pt .none
          let r ← c.evaluateSingle cache pt xd cs ν
          return r.2) = Res.throw) ∧
    ((∀ t ∈ nodes (integrandAt c D ts cs pt xd ν) (c.quad 1), ¬ Overflows c D ts cs pt (t * xd)) →
      (do let cache ← fillCache1 c.w c.b scratch pt .none
          let r ← c.evaluateSingle cache pt xd cs ν
          return r.2)
        = (integral (integrandAt c D ts cs pt xd ν) (c.quad 1)).bind fun r => Res.ok (r.headD 0 + value c.b D ts cs pt 0)) := by
  obtain ⟨cache, e, hcache⟩ := cached_start hv (pt := pt) (by omega) scratch hs .none
  obtain ⟨h1, h2, h3⟩ := evaluateSingle_out hv hc (pt := pt) (cache := cache) hcache xd ν
  rw [e, Res.bind_ok]
  refine ⟨fun h => ?_, fun h => ?_⟩
  · rw [h1 h]; rfl
  · obtain ⟨k1, k2⟩ := h2 fun t ht => by simpa [Overflows] using h t ht
    show _ = (integral (fun t => [xd * (c.g.eval (slope c.b D ts cs pt (t * xd)) + ν)]) (c.quad 1)).bind _
    cases hr : integral (fun t => [xd * (c.g.eval (slope c.b D ts cs pt (t * xd)) + ν)]) (c.quad 1) with
    | ok r =>
      obtain ⟨v, cache', rfl, e1, -⟩ := k1 r hr
      rw [e1]
      rfl
    | throw => exact absurd hr h3
    | ub => rw [k2 hr]; rfl

/-- **C108, Evaluate**: at a point `x` an exception is thrown if the positive function is infinite at one of the points at which the quadrature
asks for it; otherwise the result is the quadrature of `t ↦ x_D (g(∂_D f(x_{1:D-1}, t x_D)) + 0)` plus `f(x_{1:D-1}, 0)`. -/
theorem C108_evaluate (xd : K) (hxd : pt[D - 1]? = some xd) :
    ((∃ t ∈ nodes (integrandAt c D ts cs pt xd 0) (c.quad 1), Overflows c D ts cs pt (t * xd)) → c.evaluatePt scratch cs pt = .throw) ∧
    ((∀ t ∈ nodes (integrandAt c D ts cs pt xd 0) (c.quad 1), ¬ Overflows c D ts cs pt (t * xd)) → c.evaluatePt scratch cs pt
        = (integral (integrandAt c D ts cs pt xd 0) (c.quad 1)).bind fun r => .ok (r.headD 0 + value c.b D ts cs pt 0)) := by
  have := C108_single hv hc hpt scratch hs xd 0
  have e : c.evaluatePt scratch cs pt = (do
      let cache ← fillCache1 c.w c.b scratch pt .none
      let r ← c.evaluateSingle cache pt xd cs 0
      return r.2) := by
    obtain ⟨cache, e, -⟩ := cached_start hv (pt := pt) (by omega) scratch hs .none
    rw [Component.evaluatePt, e, Res.bind_ok, dim_eq hv, Res.idx_some hxd]
    rfl
  rw [e]
  exact this

omit hpt in
/-- **C108, Evaluate for many points**: if the call returns, the positive function was finite at every point the quadrature asked for. -/
theorem C108_batch (pts : List (List K)) (hD : ∀ pt ∈ pts, pt.length = D) (vs : List K) (h : pts.mapM (c.evaluatePt scratch cs) = .ok vs) (pt : List K)
    (hp : pt ∈ pts) (xd : K) (hxd : pt[D - 1]? = some xd) (t : K) (ht : t ∈ nodes (integrandAt c D ts cs pt xd 0) (c.quad 1)) :
    ¬ Overflows c D ts cs pt (t * xd) := by
  intro ho
  have e := (C108_evaluate hv hc (hD pt hp) scratch hs xd hxd).1 ⟨t, ht, ho⟩
  clear hD
  induction pts generalizing vs with
  | nil => cases hp
  | cons a l ih =>
    rw [List.mapM_cons] at h
    obtain ⟨v, h1, h⟩ := Res.bind_eq_ok.1 h
    obtain ⟨ws, h2, h⟩ := Res.bind_eq_ok.1 h
    rcases List.mem_cons.1 hp with rfl | hp
    · rw [e] at h1; cases h1
    · exact ih ws h2 hp

/-- **C108, the discrete derivative** (`LogDeterminant` without the option `contDeriv`): an exception is thrown exactly if the positive function
is infinite at one of the points at which the quadrature calls the integrand. -/
theorem C108_discrete (xd : K) (hxd : pt[D - 1]? = some xd) (hcd : c.useContDeriv = false) :
    ∃ cache, fillCache1 c.w c.b scratch pt .none = .ok cache ∧
      (c.logDeterminantPt scratch cs pt = .throw ↔
        ∃ t ∈ visited (c.integrand pt xd cs .diagonal c.nugget).call (c.quad 2) (cache, []), Overflows c D ts cs pt (t * xd)) := by
  obtain ⟨cache, e, hcache⟩ := cached_start hv (pt := pt) (by omega) scratch hs .none
  refine ⟨cache, e, ?_⟩
  obtain ⟨h1, h2⟩ := run_kernel hv hc (pt := pt) (flag := .diagonal) ⟨by decide, by decide⟩ xd c.nugget (by simp) (cache, [])
    ⟨hcache, by simp⟩ (n := 2) rfl
  show _ ↔ ∃ t ∈ _, c.isInf _ = true
  rw [← h1]
  have hx : Res.idx pt (pt.length - 1) = .ok xd := Res.idx_some (by rw [hpt]; exact hxd)
  simp only [Component.logDeterminantPt, Component.diagDerivPt, hcd, Bool.false_eq_true, if_false, Component.discreteDerivativePt, e,
    Res.bind_ok, hx]
  cases hr : (c.quad 2).run (c.integrand pt xd cs .diagonal c.nugget).call (cache, []) with
  | ok r =>
    obtain ⟨k1, k2⟩ := h2 r hr
    obtain ⟨cache', e1, hf⟩ := k1.1.fill hv 0 .none (by decide)
    simp only [Res.bind_ok]
    rw [Res.idx_lt (by omega), Res.bind_ok, Res.idx_lt (by omega), Res.bind_ok, e1, Res.bind_ok, hf.evaluate hv hc, Res.bind_ok]
    simp
  | throw => exact ⟨fun _ => rfl, fun _ => rfl⟩
  | ub => exact ⟨fun h => (by cases h), fun h => (by cases h)⟩

/-- **C108, the gradient with respect to the coefficients**. -/
theorem C108_coeff (xd : K) (hxd : pt[D - 1]? = some xd) (jac : List K) (hj : jac.length = ts.length) :
    ∃ cache, fillCache1 c.w c.b scratch pt .none = .ok cache ∧
      (c.coeffJacobianPt scratch cs pt jac = .throw ↔
        ∃ t ∈ visited (c.integrand pt xd cs .parameters c.nugget).call (c.quad (cs.length + 1)) (cache, []),
          Overflows c D ts cs pt (t * xd)) := by
  obtain ⟨cache, e, hcache⟩ := cached_start hv (pt := pt) (by omega) scratch hs .none
  refine ⟨cache, e, ?_⟩
  obtain ⟨h1, h2⟩ := run_kernel hv hc (pt := pt) (flag := .parameters) ⟨by decide, by decide⟩ xd c.nugget (by simp) (cache, [])
    ⟨hcache, by simp⟩ (n := cs.length + 1) (by simp [vecLen, hc])
  show _ ↔ ∃ t ∈ _, c.isInf _ = true
  rw [← h1]
  have hx : Res.idx pt (pt.length - 1) = .ok xd := Res.idx_some (by rw [hpt]; exact hxd)
  simp only [Component.coeffJacobianPt, e, Res.bind_ok, hx]
  cases hr : (c.quad (cs.length + 1)).run (c.integrand pt xd cs .parameters c.nugget).call (cache, []) with
  | ok r =>
    obtain ⟨k1, k2⟩ := h2 r hr
    obtain ⟨cache', e1, hf⟩ := k1.1.fill hv 0 .none (by decide)
    obtain ⟨g, e2, l2⟩ := hf.coeff hv hc jac hj.ge
    obtain ⟨j, e3, -⟩ := addIntegral_ok r.2 cs.length 0 g (by omega) (by omega)
    simp only [Res.bind_ok]
    rw [Res.idx_lt (by omega), Res.bind_ok, e1, Res.bind_ok, e2, Res.bind_ok, e3, Res.bind_ok]
    simp
  | throw => exact ⟨fun _ => rfl, fun _ => rfl⟩
  | ub => exact ⟨fun h => (by cases h), fun h => (by cases h)⟩

/-- **C108, the gradient with respect to the inputs**. -/
theorem C108_input (xd : K) (hxd : pt[D - 1]? = some xd) (jac : List K) (hj : jac.length = D) :
    ∃ cache, fillCache1 c.w c.b scratch pt .input = .ok cache ∧
      (c.inputJacobianPt scratch cs pt jac = .throw ↔
        ∃ t ∈ visited (c.integrand pt xd cs .input c.nugget).call (c.quad (D + 1)) (cache, []), Overflows c D ts cs pt (t * xd)) := by
  have hD := hv.pos
  obtain ⟨cache, e, hcache⟩ := cached_start hv (pt := pt) (by omega) scratch hs .input
  refine ⟨cache, e, ?_⟩
  obtain ⟨h1, h2⟩ := run_kernel hv hc (pt := pt) (flag := .input) ⟨by decide, by decide⟩ xd c.nugget (fun _ => hpt) (cache, [])
    ⟨hcache, by simp⟩ (n := D + 1) rfl
  show _ ↔ ∃ t ∈ _, c.isInf _ = true
  rw [← h1]
  have hx : Res.idx pt (pt.length - 1) = .ok xd := Res.idx_some (by rw [hpt]; exact hxd)
  simp only [Component.inputJacobianPt, e, Res.bind_ok, hx, dim_eq hv]
  cases hr : (c.quad (D + 1)).run (c.integrand pt xd cs .input c.nugget).call (cache, []) with
  | ok r =>
    obtain ⟨k1, k2⟩ := h2 r hr
    obtain ⟨cache', e1, hf⟩ := k1.1.fill hv 0 .input (by decide)
    obtain ⟨g, e2, l2⟩ := hf.inputD hv hc (by decide) (by decide) jac hj.ge
    obtain ⟨j, e3, l3⟩ := addIntegral_ok r.2 (D - 1) 0 g (by omega) (by omega)
    simp only [Res.bind_ok]
    rw [Res.idx_lt (by omega), Res.bind_ok, e1, Res.bind_ok, e2, Res.bind_ok, e3, Res.bind_ok, Res.idx_lt (by omega), Res.bind_ok,
      Res.setIdx_lt (by omega), Res.bind_ok]
    simp
  | throw => exact ⟨fun _ => rfl, fun _ => rfl⟩
  | ub => exact ⟨fun h => (by cases h), fun h => (by cases h)⟩

/-- **C108, the discrete mixed derivative** (`LogDeterminantCoeffGrad` without the option `contDeriv`). -/
theorem C108_mixed (xd : K) (hxd : pt[D - 1]? = some xd) (work jac : List K) (hw : work.length = ts.length) (hj : jac.length = ts.length) :
    ∃ cache, fillCache1 c.w c.b scratch pt .none = .ok cache ∧
      (c.discreteMixedJacobianPt scratch work cs pt jac = .throw ↔
        ∃ t ∈ visited (c.integrand pt xd cs .mixed c.nugget).call (c.quad (cs.length + 1)) (cache, work),
          Overflows c D ts cs pt (t * xd)) := by
  obtain ⟨cache, e, hcache⟩ := cached_start hv (pt := pt) (by omega) scratch hs .none
  refine ⟨cache, e, ?_⟩
  obtain ⟨h1, h2⟩ := run_kernel hv hc (pt := pt) (flag := .mixed) ⟨by decide, by decide⟩ xd c.nugget (by simp) (cache, work)
    ⟨hcache, fun _ => hw⟩ (n := cs.length + 1) (by simp [vecLen, hc])
  show _ ↔ ∃ t ∈ _, c.isInf _ = true
  rw [← h1]
  have hx : Res.idx pt (pt.length - 1) = .ok xd := Res.idx_some (by rw [hpt]; exact hxd)
  simp only [Component.discreteMixedJacobianPt, e, Res.bind_ok, hx]
  cases hr : (c.quad (cs.length + 1)).run (c.integrand pt xd cs .mixed c.nugget).call (cache, work) with
  | ok r =>
    obtain ⟨k1, k2⟩ := h2 r hr
    obtain ⟨j, e3, l3⟩ := addIntegral_ok r.2 cs.length 0 jac (by omega) (by omega)
    simp only [Res.bind_ok]
    rw [e3]
    simp
  | throw => exact ⟨fun _ => rfl, fun _ => rfl⟩
  | ub => exact ⟨fun h => (by cases h), fun h => (by cases h)⟩

/-- **C108 fails for the continuous derivative** (the default): `LogDeterminant` never throws; it returns the logarithm of the positive function
at the slope whatever that is, infinity included. -/
theorem C108_continuous (xd : K) (hxd : pt[D - 1]? = some xd) (hcd : c.useContDeriv = true) :
    c.logDeterminantPt scratch cs pt = .ok (if c.nonpos (c.g.eval (slope c.b D ts cs pt xd)) then c.negInf
      else c.log (c.g.eval (slope c.b D ts cs pt xd))) := by
  obtain ⟨cache, e, hcache⟩ := cached_start hv (pt := pt) (by omega) scratch hs .none
  obtain ⟨cache', e1, hf⟩ := hcache.fill hv xd .diagonal (by decide)
  have hx : Res.idx pt (pt.length - 1) = .ok xd := Res.idx_some (by rw [hpt]; exact hxd)
  simp only [Component.logDeterminantPt, Component.diagDerivPt, hcd, if_true, Component.continuousDerivativePt, e, Res.bind_ok, hx, e1,
    hf.diag1 hv hc (by decide) (by decide)]
  rfl

end
end MParT

namespace MParT
open Spec Spec.Fp Worker FixedSet Fp

/-! ### Exact arithmetic -/

theorem ofQ_run {σ : Type} (f : σ → ℝ → List ℝ → Res (σ × List ℝ)) : ∀ (q : QProg) (s : σ), (ofQ q).run f s = q.run f s
  | .done r, s => rfl
  | .call t buf k, s => by
    simp only [ofQ, Prog.run, QProg.run]
    cases f s t buf with
    | ok r => exact ofQ_run f (k r.2) r.1
    | throw => rfl
    | ub => rfl
  | .bad, s => rfl

theorem putValue_exact (m : MonotoneIntegrand) (fn : Bool) (df : ℝ) (out : List ℝ) :
    (⟨m.w, m.b, ⟨m.g.eval, m.g.deriv, m.g.deriv2⟩, fun _ => false, m.pt, m.xd, m.coeffs, m.flag, m.nugget, fn⟩ : Integrand ℝ).putValue df out
      = m.putValue df out := by
  simp only [Integrand.putValue, MonotoneIntegrand.putValue, Bool.false_and, Bool.false_eq_true, if_false]
  cases Res.setIdx out 0 (m.xd * (m.g.eval df + m.nugget)) <;> rfl

theorem call_exact (c : MonotoneComponent) (pt : List ℝ) (xd : ℝ) (cs : List ℝ) (flag : DFlag) (ν : ℝ) :
    ((ofM c).integrand pt xd cs flag ν).call = (c.integrand pt xd cs flag ν).call := by
  funext s t out
  have h := fun df out => putValue_exact (c.integrand pt xd cs flag ν) true df out
  cases flag <;>
    simp only [Integrand.call, MonotoneIntegrand.call, Component.integrand, MonotoneComponent.integrand, ofM] at h ⊢ <;>
    simp only [h] <;> rfl

/-- **C108, exact arithmetic**: where nothing is infinite, the programs are those of `Model/MonotoneComponent.lean`. -/
theorem C108_exact (c : MonotoneComponent) (scratch : Cache ℝ) (work cs pt jac : List ℝ) :
    (ofM c).evaluatePt scratch cs pt = c.evaluatePt scratch cs pt ∧
    (ofM c).continuousDerivativePt scratch cs pt = c.continuousDerivativePt scratch cs pt ∧
    (ofM c).discreteDerivativePt scratch cs pt = c.discreteDerivativePt scratch cs pt ∧
    (ofM c).coeffJacobianPt scratch cs pt jac = c.coeffJacobianPt scratch cs pt jac ∧
    (ofM c).inputJacobianPt scratch cs pt jac = c.inputJacobianPt scratch cs pt jac ∧
    (ofM c).discreteMixedJacobianPt scratch work cs pt jac = c.discreteMixedJacobianPt scratch work cs pt jac ∧
    (ofM c).diagDerivPt scratch cs pt = c.diagDerivPt scratch cs pt := by
  have hq : ∀ {σ : Type} (f : σ → ℝ → List ℝ → Res (σ × List ℝ)) n s, ((ofM c).quad n).run f s = (c.quad n).run f s :=
    fun f n s => ofQ_run f (c.quad n) s
  have ha : ∀ (I : List ℝ) n i J, Component.addIntegral I J i n = MonotoneComponent.addIntegral I J i n := by
    intro I n
    induction n with
    | zero => intros; rfl
    | succ n ih => intro i J; simp only [Component.addIntegral, MonotoneComponent.addIntegral, ih]
  have hd : (ofM c).discreteDerivativePt scratch cs pt = c.discreteDerivativePt scratch cs pt := by
    simp only [Component.discreteDerivativePt, MonotoneComponent.discreteDerivativePt, hq, call_exact]; rfl
  refine ⟨?_, rfl, hd, ?_, ?_, ?_, ?_⟩
  · simp only [Component.evaluatePt, MonotoneComponent.evaluatePt, Component.evaluateSingle, MonotoneComponent.evaluateSingle, hq, call_exact]
    rfl
  · simp only [Component.coeffJacobianPt, MonotoneComponent.coeffJacobianPt, hq, call_exact, ha]; rfl
  · simp only [Component.inputJacobianPt, MonotoneComponent.inputJacobianPt, hq, call_exact, ha]; rfl
  · simp only [Component.discreteMixedJacobianPt, MonotoneComponent.discreteMixedJacobianPt, hq, call_exact, ha]; rfl
  · simp only [Component.diagDerivPt, MonotoneComponent.diagDerivPt, hd]; rfl

end MParT

namespace MParT
open Spec Spec.Fp Worker FixedSet Fp

/-! ### Concrete components -/

namespace Spec.Fp.Dbl

theorem res_small {x : ℝ} (h : |x| < 2 ^ 1024) : res x = num x := by
  unfold res
  rw [if_neg (not_le.2 h)]

theorem res_large {x : ℝ} (h : 2 ^ 1024 ≤ x) : res x = inf false := by
  unfold res
  have h0 : (0 : ℝ) < x := lt_of_lt_of_le (by positivity) h
  rw [if_pos (by rwa [abs_of_pos h0]), decide_eq_false (not_lt.2 h0.le)]

theorem one_mul_num {x : ℝ} (h : |x| < 2 ^ 1024) : (1 : Dbl) * num x = num x := by
  show res (1 * x) = num x
  rw [one_mul, res_small h]

theorem zero_add_num {x : ℝ} (h : |x| < 2 ^ 1024) : (0 : Dbl) + num x = num x := by
  show res (0 + x) = num x
  rw [zero_add, res_small h]

theorem num_add_zero {x : ℝ} (h : |x| < 2 ^ 1024) : num x + (0 : Dbl) = num x := by
  show res (x + 0) = num x
  rw [add_zero, res_small h]

theorem zero_small : |(0 : ℝ)| < 2 ^ 1024 := by rw [abs_zero]; positivity

theorem one_small : |(1 : ℝ)| < 2 ^ 1024 := by rw [abs_one]; exact one_lt_pow₀ (by norm_num) (by norm_num)

theorem exp_small {x : ℝ} (h : x ≤ 709) : |Real.exp x| < 2 ^ 1024 := by
  rw [abs_of_pos (Real.exp_pos x), ← Real.lt_log_iff_exp_lt (by positivity), Real.log_pow]
  have := Real.log_two_gt_d9
  norm_num
  nlinarith

theorem exp_large {x : ℝ} (h : 710 ≤ x) : 2 ^ 1024 ≤ Real.exp x := by
  rw [← Real.log_le_iff_le_exp (by positivity), Real.log_pow]
  have := Real.log_two_lt_d9
  norm_num
  nlinarith

end Spec.Fp.Dbl

open Spec.Fp.Dbl

/-- The monomials over numbers that overflow. -/
noncomputable def monoFp : Basis Dbl where
  val n x := Nat.rec 1 (fun _ a => a * x) n
  d1 n x := match n with
    | 0 => 0
    | n + 1 => res (n + 1) * Nat.rec 1 (fun _ a => a * x) n
  d2 n x := match n with
    | 0 => 0
    | 1 => 0
    | n + 2 => res ((n + 2) * (n + 1)) * Nat.rec 1 (fun _ a => a * x) n

/-- The component `c0 + c1 x` of one variable with `g = exp` and the midpoint rule. -/
noncomputable def lineFp (contDeriv : Bool) : Component Dbl where
  w := ⟨1, ⟨1, true, [0, 0, 1], [0], [1], [1]⟩, [0, 2, 4, 6], [1], 6⟩
  b := monoFp
  g := ⟨Dbl.exp, Dbl.exp, Dbl.exp⟩
  quad n := Prog.ofRule n [(num (1 / 2), 1)] (List.replicate n 0)
  useContDeriv := contDeriv
  nugget := 0
  isInf := Dbl.isInf
  nonpos := Dbl.nonpos
  log := Dbl.log
  negInf := .inf true

theorem lineFp_valid (cd : Bool) : Valid (lineFp cd) 1 [[0], [1]] := by
  refine ⟨⟨⟨1, true, [0, 0, 1], [0], [1], [1]⟩, .totalOrder (dim := 1) (p := 1) (by decide), rfl, rfl, ⟨by decide, ?_⟩, by
    have h : ofFixed ⟨1, true, [0, 0, 1], [0], [1], [1]⟩ = Res.ok (⟨1, ⟨1, true, [0, 0, 1], [0], [1], [1]⟩, [0, 2, 4, 6], [1], 6⟩ : Worker) := by
      decide
    exact h⟩, by norm_num, fun n => ?_⟩
  · intro i t h
    match i with
    | 0 => cases h; decide
    | 1 => cases h; decide
    | i + 2 => cases h
  · refine ⟨by simp, fun o ho => ?_⟩
    show (List.zipWith _ _ o).length = n
    simp [ho]

theorem lineFp_slope (c0 c1 x y : Dbl) : slope monoFp 1 [[0], [1]] [c0, c1] [x] y = 0 + (1 * (res (((0 : ℕ) : ℝ) + 1) * 1)) * c1 := by
  simp [Spec.Fp.slope, Spec.Fp.sum, product, monoFp, List.range_succ]

theorem lineFp_slope_num (c0 x y : Dbl) {c1 : ℝ} (h : |c1| < 2 ^ 1024) :
    slope monoFp 1 [[0], [1]] [c0, num c1] [x] y = num c1 := by
  rw [lineFp_slope, Nat.cast_zero, zero_add, res_small one_small]
  show (0 : Dbl) + 1 * (1 * 1) * num c1 = num c1
  have : (1 : Dbl) * 1 = 1 := one_mul_num one_small
  rw [this, this, one_mul_num h, zero_add_num h]

theorem lineFp_slope_nan (c0 x y : Dbl) : slope monoFp 1 [[0], [1]] [c0, .nan] [x] y = .nan := by
  rw [lineFp_slope, Nat.cast_zero, zero_add, res_small one_small]
  show (0 : Dbl) + 1 * (1 * 1) * .nan = .nan
  have : (1 : Dbl) * 1 = 1 := one_mul_num one_small
  rw [this, this]
  rfl

/-- What `Evaluate` returns for this component when the positive function is not infinite. -/
theorem lineFp_evaluate (cd : Bool) (c0 c1 x : Dbl) (h : ∀ y, ¬ Overflows (lineFp cd) 1 [[0], [1]] [c0, c1] [x] y) :
    (lineFp cd).evaluatePt (List.replicate 6 none) [c0, c1] [x]
      = .ok ((0 + 1 * (x * (Dbl.exp (slope monoFp 1 [[0], [1]] [c0, c1] [x] (num (1 / 2) * x)) + 0)))
        + (0 + 1 * c0 + 1 * (1 * 0) * c1)) := by
  rw [(C108_evaluate (lineFp_valid cd) rfl rfl (List.replicate 6 none) rfl x rfl).2 fun t _ => h _]
  have hval : Spec.Fp.value (lineFp cd).b 1 [[0], [1]] [c0, c1] [x] 0 = 0 + 1 * c0 + 1 * (1 * 0) * c1 := by
    simp [lineFp, Spec.Fp.value, Spec.Fp.sum, product, monoFp, List.range_succ]
  rw [hval]
  rfl

theorem small_of_le {x : ℝ} (h : |x| ≤ 10 ^ 10) : |x| < 2 ^ 1024 :=
  lt_of_le_of_lt h (lt_of_lt_of_le (by norm_num : (10 : ℝ) ^ 10 < 2 ^ 40) (pow_le_pow_right₀ (by norm_num) (by norm_num)))

/-- **C108, a case where the exception is thrown**: coefficients `0` and `1000`, so that `g` is asked for `exp(1000)`. -/
theorem C108_throws (cd : Bool) (x : Dbl) : (lineFp cd).evaluatePt (List.replicate 6 none) [0, num 1000] [x] = .throw := by
  refine (C108_evaluate (lineFp_valid cd) rfl rfl (List.replicate 6 none) rfl x rfl).1 ⟨num (1 / 2), by
    simp [lineFp, Prog.ofRule, nodes], ?_⟩
  show Dbl.isInf (Dbl.exp (slope monoFp 1 [[0], [1]] [0, num 1000] [x] _)) = true
  rw [lineFp_slope_num _ _ _ (small_of_le (by norm_num [abs_of_pos]))]
  show Dbl.isInf (res (Real.exp 1000)) = true
  rw [res_large (exp_large (by norm_num))]
  rfl

/-- **C108 fails for the log-determinant** with the continuous derivative, the default: where `Evaluate` throws, `LogDeterminant` returns `+∞`. -/
theorem C108_fails_logdet : ∃ (c : Component Dbl) (cs pt : List Dbl), Valid c 1 [[0], [1]] ∧ c.useContDeriv = true ∧
    c.evaluatePt (List.replicate 6 none) cs pt = .throw ∧ c.logDeterminantPt (List.replicate 6 none) cs pt = .ok (.inf false) := by
  refine ⟨lineFp true, [0, num 1000], [1], lineFp_valid true, rfl, C108_throws true 1, ?_⟩
  rw [C108_continuous (lineFp_valid true) rfl rfl (List.replicate 6 none) rfl 1 rfl rfl]
  have e : (lineFp true).g.eval (slope (lineFp true).b 1 [[0], [1]] [0, num 1000] [1] 1) = .inf false := by
    show Dbl.exp (slope monoFp 1 [[0], [1]] [0, num 1000] [1] 1) = .inf false
    rw [lineFp_slope_num _ _ _ (small_of_le (by norm_num [abs_of_pos]))]
    exact res_large (exp_large (by norm_num))
  rw [e]
  rfl

/-- **C108 fails for NaN**: the message of the exception says "nan", but a NaN in the coefficients is not noticed; `Evaluate` returns NaN. -/
theorem C108_fails_nan : ∃ (c : Component Dbl) (cs pt : List Dbl), Valid c 1 [[0], [1]] ∧
    c.g.eval (slope c.b 1 [[0], [1]] cs pt 1) = .nan ∧ c.evaluatePt (List.replicate 6 none) cs pt = .ok .nan := by
  refine ⟨lineFp true, [0, .nan], [1], lineFp_valid true, ?_, ?_⟩
  · show Dbl.exp (slope monoFp 1 [[0], [1]] [0, .nan] [1] 1) = .nan
    rw [lineFp_slope_nan]
    rfl
  · rw [lineFp_evaluate true 0 .nan 1 ?_, lineFp_slope_nan]
    · rfl
    · intro y
      show ¬ Dbl.isInf (Dbl.exp (slope monoFp 1 [[0], [1]] [0, .nan] [1] y)) = true
      rw [lineFp_slope_nan]
      simp [Dbl.exp, Dbl.isInf]

/-- **C108 fails for the product**: the positive function is finite, `exp(709)`, but `x_D` times it is not; `Evaluate` returns `+∞`. -/
theorem C108_fails_product : ∃ (c : Component Dbl) (cs pt : List Dbl), Valid c 1 [[0], [1]] ∧
    (∀ y, ¬ Overflows c 1 [[0], [1]] cs pt y) ∧ pt = [num (10 ^ 10)] ∧
    c.evaluatePt (List.replicate 6 none) cs pt = .ok (.inf false) := by
  have hs : |(709 : ℝ)| < 2 ^ 1024 := small_of_le (by norm_num [abs_of_pos])
  have hg : ∀ x y, Dbl.exp (slope monoFp 1 [[0], [1]] [0, num 709] [x] y) = num (Real.exp 709) := by
    intro x y
    rw [lineFp_slope_num _ _ _ hs]
    exact res_small (exp_small le_rfl)
  have ho : ∀ x y, ¬ Overflows (lineFp true) 1 [[0], [1]] [0, num 709] [x] y := by
    intro x y
    show ¬ Dbl.isInf (Dbl.exp (slope monoFp 1 [[0], [1]] [0, num 709] [x] y)) = true
    rw [hg]
    simp [Dbl.isInf]
  refine ⟨lineFp true, [0, num 709], [num (10 ^ 10)], lineFp_valid true, fun y => ho _ y, rfl, ?_⟩
  rw [lineFp_evaluate true 0 (num 709) (num (10 ^ 10)) (ho _), hg, num_add_zero (exp_small le_rfl)]
  have h1 : num (10 ^ 10) * num (Real.exp 709) = Dbl.inf false := by
    refine res_large (le_trans (exp_large le_rfl) ?_)
    rw [show (710 : ℝ) = 1 + 709 by norm_num, Real.exp_add]
    refine mul_le_mul_of_nonneg_right ?_ (Real.exp_pos _).le
    have := Real.exp_one_lt_d9
    norm_num
    linarith
  have h2 : (1 : Dbl) * .inf false = .inf false := by
    show (if (1 : ℝ) = 0 then Dbl.nan else .inf (decide ((1 : ℝ) < 0) != false)) = .inf false
    rw [if_neg one_ne_zero, decide_eq_false (by norm_num)]
    rfl
  rw [h1, h2]
  have h3 : (0 : Dbl) + 1 * 0 + 1 * (1 * 0) * num 709 = num 0 := by
    have a : (1 : Dbl) * 0 = num 0 := one_mul_num zero_small
    have b : (0 : Dbl) + num 0 = num 0 := zero_add_num zero_small
    have d : (num 0 : Dbl) * num 709 = num 0 := by show res (0 * 709) = num 0; rw [zero_mul, res_small zero_small]
    rw [a, b]
    show num 0 + 1 * num 0 * num 709 = num 0
    rw [show (1 : Dbl) * num 0 = num 0 from a, d]
    exact b
  rw [h3]
  rfl

end MParT
