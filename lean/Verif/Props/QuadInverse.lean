import Verif.Props.QuadGradient
import Verif.Lemmas.RootNear
/-!
# C110: `Inverse` of a component with any quadrature

With an adaptive rule the nodes depend on the point, and the discretised component need not be increasing or continuous in its last input. The root search is still accurate.
-/
namespace MParT
open Spec Finset Worker MonotoneComponent

variable {c : MonotoneComponent} {D : Nat} {ts : List (List Nat)} {mesh : (ℝ → ℝ) → List (ℝ × ℝ)} {cs pt : List ℝ}

/-- **C110** (inverse, every quadrature). Let the exact component (nugget included) be within `η` of the target `y` at `s`. If as far as `W` around `s` the exact slope is at least `m`
and the quadrature is within `ε` of the integral, then `Inverse` reports success and returns a point within `max (xtol/2) (ytol/m) + (ε + η)/m` of `s`, whatever nodes the
quadrature uses at each point. -/
theorem C110_inverse_any (hv : ValidComponent c D ts) (hmesh : UsesMesh c.quad mesh) (hc : cs.length = ts.length) (hpt : D - 1 ≤ pt.length) (hne : 0 < pt.length)
    (scr : Cache ℝ) (hs : scr.length = c.w.cacheSize) {y s m ε η W xtol ytol : ℝ}
    (hres : |monotone c.b.eff c.g.eval c.nugget D ts cs (Function.update (coords pt) (D - 1) s) - y| ≤ η)
    (hnear : ∀ t, |t - s| ≤ W → m ≤ c.g.eval (diagD c.b.eff D ts cs (Function.update (coords pt) (D - 1) t)) + c.nugget ∧
      |((mesh (unitDensity c.b.eff c.g.eval c.nugget D ts cs (Function.update (coords pt) (D - 1) t))).map fun q =>
          q.2 * unitDensity c.b.eff c.g.eval c.nugget D ts cs (Function.update (coords pt) (D - 1) t) q.1).sum
        - ∫ u in (0 : ℝ)..1, unitDensity c.b.eff c.g.eval c.nugget D ts cs (Function.update (coords pt) (D - 1) t) u| ≤ ε)
    (hm0 : 0 < m) (hW : 3 * (η / m) + 2 * |coords pt (pt.length - 1) - s| + 5 ≤ W) (hm : 1e-12 ≤ m - ε / 5) (hε : ε ≤ m)
    (hfar : |coords pt (pt.length - 1) - s| + η / m ≤ 2 ^ 128 - 3) (hx : 2 ^ (-1074 : ℤ) ≤ xtol) (hy : 0 ≤ ytol) :
    ∃ x, c.inversePt scr cs pt y xtol ytol = .ok (some x, 0) ∧ |x - s| ≤ η / m + (max (xtol / 2) (ytol / m) + ε / m) := by
  rw [C38_inverse hv hmesh hc hpt hne scr hs]
  set v := coords pt with hvdef
  set t0 := v (pt.length - 1) with ht0
  set F := fun t => monotone c.b.eff c.g.eval c.nugget D ts cs (Function.update v (D - 1) t) with hF
  set f := fun t => discretised c.b.eff c.g.eval c.nugget D ts cs (Function.update v (D - 1) t)
    (mesh (unitDensity c.b.eff c.g.eval c.nugget D ts cs (Function.update v (D - 1) t))) with hf
  have hη : 0 ≤ η := (abs_nonneg _).trans hres
  have hρ : 0 ≤ |t0 - s| := abs_nonneg _
  have hh : 0 ≤ η / m := div_nonneg hη hm0.le
  have hd : ∀ t, HasDerivAt F (c.g.eval (diagD c.b.eff D ts cs (Function.update v (D - 1) t)) + c.nugget) t :=
    fun t => monotone_last_deriv hv c.nugget cs v t
  have hcont : Continuous F := continuous_iff_continuousAt.2 fun t => (hd t).continuousAt
  have hgrow : ∀ x z, s - W ≤ x → x ≤ z → z ≤ s + W → m * (z - x) ≤ F z - F x := by
    intro x z hx hxz hz
    rcases hxz.eq_or_lt with rfl | hlt
    · simp
    obtain ⟨t, ht, e⟩ := exists_hasDerivAt_eq_slope F _ hlt hcont.continuousOn fun t _ => hd t
    have h1 := (hnear t (abs_le.2 ⟨by linarith [ht.1], by linarith [ht.2]⟩)).1
    rw [e, le_div_iff₀ (by linarith)] at h1
    exact h1
  have hclose : ∀ t, |t - s| ≤ W → |f t - F t| ≤ ε := fun t ht => by
    simp only [hf, hF, discretised, monotone_unit]
    rw [add_sub_add_left_eq_sub]
    exact (hnear t ht).2
  have hε0 : 0 ≤ ε := (abs_nonneg _).trans (hclose s (by rw [sub_self, abs_zero]; linarith))
  have hres' : |F s - y| ≤ η := hres
  have hres' := abs_le.1 hres'
  have hδ : 0 ≤ (ε + η) / m := by positivity
  have hδe : (ε + η) / m = ε / m + η / m := add_div _ _ _
  have hε1 : ε / m ≤ 1 := (div_le_one hm0).2 hε
  have hmδ : m * ((ε + η) / m) = ε + η := by field_simp
  have hcross : CrossesNear f y s ((ε + η) / m) m W := by
    refine ⟨fun x hx hsx => ?_, fun x hx hsx => ?_, fun a b ha hb hab => ?_⟩
    · have h1 := abs_le.1 hx
      have h2 := hgrow s x (by linarith) hsx (by linarith)
      have h3 := abs_le.1 (hclose x hx)
      rw [mul_sub, hmδ]
      linarith
    · have h1 := abs_le.1 hx
      have h2 := hgrow x s (by linarith) hsx (by linarith)
      have h3 := abs_le.1 (hclose x hx)
      rw [mul_sub, hmδ]
      linarith
    · have h1 := abs_le.1 ha
      have h2 := abs_le.1 hb
      have h3 := hgrow a b (by linarith) (by linarith) (by linarith)
      have h4 := abs_le.1 (hclose a ha)
      have h5 := abs_le.1 (hclose b hb)
      have h6 : 0 ≤ m - 1e-12 := by linarith
      have h7 : (m - 1e-12) * 10 ≤ (m - 1e-12) * (b - a) := mul_le_mul_of_nonneg_left hab.le h6
      linarith
  have hst : |s - t0| = |t0 - s| := abs_sub_comm _ _
  obtain ⟨x, ex, hx'⟩ := inverse_near hcross hm0 hδ (x0 := t0) (by rw [hδe, hst]; linarith) (by rw [hδe, hst]; linarith) xtol ytol hx hy
  refine ⟨x, by rw [ex], ?_⟩
  rw [hδe] at hx'
  linarith

/-- **C110** (inverse, rate). When the integrand on `[0,1]` has the Lipschitz constant `L` at the last inputs around the solution `r` of the exact component, the point that `Inverse`
returns is within `max (xtol/2) (ytol/m) + L ρ / m` of `r`, with `ρ = 1/√(n-1)` for `n` fixed points and `1/2^minSub` for the adaptive rules. -/
theorem C110_inverse_rate {ρ : ℝ} (hq : Fine c.quad ρ) (hv : ValidComponent c D ts) (hc : cs.length = ts.length) (hpt : D - 1 ≤ pt.length) (hne : 0 < pt.length)
    (scr : Cache ℝ) (hs : scr.length = c.w.cacheSize) {y r m L xtol ytol : ℝ}
    (hroot : monotone c.b.eff c.g.eval c.nugget D ts cs (Function.update (coords pt) (D - 1) r) = y)
    (hnear : ∀ t, |t - r| ≤ 2 * |coords pt (pt.length - 1) - r| + 5 →
      m ≤ c.g.eval (diagD c.b.eff D ts cs (Function.update (coords pt) (D - 1) t)) + c.nugget ∧
      LipUnit (unitDensity c.b.eff c.g.eval c.nugget D ts cs (Function.update (coords pt) (D - 1) t)) L)
    (hm0 : 0 < m) (hm : 1e-12 ≤ m - L * ρ / 5) (hε : L * ρ ≤ m) (hfar : |coords pt (pt.length - 1) - r| ≤ 2 ^ 128 - 3)
    (hx : 2 ^ (-1074 : ℤ) ≤ xtol) (hy : 0 ≤ ytol) :
    ∃ x, c.inversePt scr cs pt y xtol ytol = .ok (some x, 0) ∧ |x - r| ≤ max (xtol / 2) (ytol / m) + L * ρ / m := by
  obtain ⟨-, -, mesh, hmesh, he⟩ := fine_mesh hq
  have := C110_inverse_any hv hmesh hc hpt hne scr hs (y := y) (s := r) (m := m) (ε := L * ρ) (η := 0) (W := 2 * |coords pt (pt.length - 1) - r| + 5)
    (xtol := xtol) (ytol := ytol) (by rw [hroot, sub_self, abs_zero])
    (fun t ht => ⟨(hnear t ht).1, he _ _ L (unitDensity_cont hv _ _ _) (hnear t ht).2⟩) hm0 (by rw [zero_div]; linarith) hm hε
    (by rw [zero_div]; linarith) hx hy
  simpa using this

/-- `Inverse` with adaptive Simpson, whatever the tolerances of the rule, for the component with integrand `exp`, which takes the value `-1/2` at 0, from the guess 1. -/
example (absTol relTol : ℝ) : ∃ x : ℝ,
    (expComponent (QProg.simpson ⟨1, 32, 30, absTol, relTol, .first⟩)).inversePt (List.replicate (totalWorker 1 2).cacheSize none) [0, 0, 1 / 2] [1] (-(1 / 2))
      1e-6 1e-6 = .ok (some x, 0) ∧ |x| ≤ 3 / 50 := by
  have hf : Fine (QProg.simpson ⟨1, 32, 30, absTol, relTol, .first⟩) (1 / 2 ^ 30) := .simpson rfl (show 30 < 32 by decide) (show 32 ≤ 32 by decide)
  have hv := valid_total 1 2 (by decide) C24_bases.1.eff.c1 C30_exp _ (fine_mesh hf).2.1 true 0
  have he7 : Real.exp 7 ≤ 1100 := by
    have := exp_neg_seven
    rw [Real.exp_neg, ← one_div] at this
    exact (one_div_le_one_div (by norm_num) (Real.exp_pos 7)).1 this
  obtain ⟨x, ex, hx⟩ := C110_inverse_rate (c := expComponent (QProg.simpson ⟨1, 32, 30, absTol, relTol, .first⟩)) (ρ := 1 / 2 ^ 30) hf hv (cs := [0, 0, 1 / 2]) (pt := [1])
    rfl (by decide) (by decide) (List.replicate (totalWorker 1 2).cacheSize none) (by simp [expComponent]) (y := -(1 / 2)) (r := 0) (m := 1 / 1100) (L := 53900)
    (xtol := 1e-6) (ytol := 1e-6)
    (by
      have := monotone_unit (c := expComponent (QProg.simpson ⟨1, 32, 30, absTol, relTol, .first⟩)) (D := 1) (ts := MISet.toEnum 1 2) 0 [0, 0, 1 / 2]
        (Function.update (coords [1]) (1 - 1) 0)
      refine this.trans ?_
      simp only [expComponent, exp_unit_update, exp_offset]
      simp)
    (fun t ht => by
      have h7 : |t| ≤ 7 := by
        simpa [coords] using ht.trans (by simp [coords]; norm_num : _ ≤ (7 : ℝ))
      constructor
      · simp only [expComponent, exp_diagD, Function.update_self, Nat.sub_self, expBij]
        have := Real.exp_le_exp.2 (abs_le.1 h7).1
        simpa using exp_neg_seven.trans this
      · simp only [expComponent]
        rw [show unitDensity _ _ _ _ _ _ _ = _ from funext (exp_unit_update t)]
        intro a b a0 a1 b0 b1
        have hd : ∀ u ∈ Set.Icc (0 : ℝ) 1, HasDerivWithinAt (fun u : ℝ => t * Real.exp (u * t)) (t * (Real.exp (u * t) * t)) (Set.Icc 0 1) u := fun u _ => by
          have h1 : HasDerivAt (fun u : ℝ => u * t) t u := by simpa using (hasDerivAt_id u).mul_const t
          exact (h1.exp.const_mul t).hasDerivWithinAt
        have := (convex_Icc (0 : ℝ) 1).norm_image_sub_le_of_norm_hasDerivWithin_le hd (C := 53900) (fun u hu => ?_) ⟨b0, b1⟩ ⟨a0, a1⟩
        · simpa using this
        · have h1 := abs_le.1 h7
          have h2 : Real.exp (u * t) ≤ 1100 := (Real.exp_le_exp.2 (by nlinarith [hu.1, hu.2])).trans he7
          rw [Real.norm_eq_abs, show t * (Real.exp (u * t) * t) = t ^ 2 * Real.exp (u * t) by ring, abs_of_nonneg (by positivity)]
          have h3 : t ^ 2 ≤ 49 := by nlinarith
          nlinarith [Real.exp_pos (u * t), sq_nonneg t])
    (by norm_num) (by norm_num) (by norm_num) (by simp [coords]; norm_num)
    ((zpow_le_zpow_right₀ (by norm_num : (1 : ℝ) ≤ 2) (by norm_num : (-1074 : ℤ) ≤ -20)).trans (by norm_num)) (by norm_num)
  refine ⟨x, ex, ?_⟩
  rw [sub_zero] at hx
  refine hx.trans ?_
  have : max ((1e-6 : ℝ) / 2) (1e-6 / (1 / 1100)) ≤ 0.0011 := max_le (by norm_num) (by norm_num)
  calc _ ≤ (0.0011 : ℝ) + 53900 * (1 / 2 ^ 30) / (1 / 1100) := by gcongr
    _ ≤ _ := by norm_num

end MParT
