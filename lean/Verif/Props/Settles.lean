import Verif.Spec.Factory
import Verif.Props.MonotoneQuad
/-!
# The adaptive quadratures over short intervals

Over intervals short enough every estimate is accepted at the least depth, so that the adaptive quadratures are fixed rules there.
-/
namespace MParT
open Finset Spec Filter Topology

theorem leaves_same {P Q : Nat → ℝ → ℝ → Prop} (h : ∀ k a b, P k a b ↔ Q k a b) (d level : Nat) (a b : ℝ) :
    leaves P d level a b = leaves Q d level a b := by
  have : P = Q := by funext k a b; exact propext (h k a b)
  rw [this]

theorem est_scaled (rule : ℝ → ℝ → List (ℝ × ℝ × ℝ)) (wt : ℝ × ℝ × ℝ → ℝ) (a b y : ℝ) (u : ℝ → ℝ) :
    est rule wt a b (fun t => y * u (t * y)) = y * est rule wt a b fun t => u (t * y) := by
  simp only [est, ← List.sum_map_mul_left]
  congr 2
  funext p; ring

theorem est_limit (rule : ℝ → ℝ → List (ℝ × ℝ × ℝ)) (wt : ℝ × ℝ × ℝ → ℝ) (a b : ℝ) {u : ℝ → ℝ} (hu : ContinuousAt u 0) :
    Tendsto (fun y => est rule wt a b fun t => u (t * y)) (𝓝 0) (𝓝 (((rule a b).map wt).sum * u 0)) := by
  simp only [est]
  induction rule a b with
  | nil => simp
  | cons p l ih =>
    simp only [List.map_cons, List.sum_cons, add_mul]
    refine Tendsto.add (Tendsto.const_mul _ ?_) ih
    have h : Tendsto (fun y : ℝ => p.1 * y) (𝓝 0) (𝓝 0) := by
      simpa using (tendsto_id (α := ℝ) (x := 𝓝 0)).const_mul p.1
    exact hu.tendsto.comp h

/-- The adaptive quadrature settles, whatever its tolerances: if one of them is positive the least depth is used everywhere, and if none
is the greatest. -/
theorem adaptive_settles (q : Recursive) (rule : ℝ → ℝ → List (ℝ × ℝ × ℝ)) (hc : ∀ a b, ((rule a b).map (·.2.1)).sum = b - a)
    (hf : ∀ a b, ((rule a b).map (·.2.2)).sum = b - a) : Settles (adaptiveMesh q rule) := by
  by_cases htol : 0 < q.absTol ∨ 0 < q.relTol
  · refine ⟨(leaves (fun level _ _ => q.minSub ≤ level) (q.maxSub - 1) 0 0 1).flatMap fun p => (rule p.1 p.2).map fun r => (r.1, r.2.2),
      fun u hu hpos => ?_⟩
    have hstop : ∀ a b : ℝ, a < b → ∀ᶠ y in 𝓝[≠] (0 : ℝ), ∀ level, (QProg.stopFirst q level (est rule (·.2.1) a b fun t => y * u (t * y))
        (est rule (·.2.2) a b fun t => y * u (t * y)) ↔ q.minSub ≤ level) := by
      intro a b hab
      have h1 := est_limit rule (·.2.1) a b hu
      have h2 := est_limit rule (·.2.2) a b hu
      rw [hc] at h1
      rw [hf] at h2
      have h3 : Tendsto (fun y => |est rule (·.2.2) a b (fun t => u (t * y)) - est rule (·.2.1) a b fun t => u (t * y)|) (𝓝 0) (𝓝 0) := by
        simpa using (h2.sub h1).abs
      have hlt : ∀ᶠ y in 𝓝[≠] (0 : ℝ), |y| * |est rule (·.2.2) a b (fun t => u (t * y)) - est rule (·.2.1) a b fun t => u (t * y)|
          < max (q.relTol * (|y| * |est rule (·.2.1) a b fun t => u (t * y)|)) q.absTol := by
        rcases htol with ht | ht
        · have h4 : Tendsto (fun y : ℝ => |y| * |est rule (·.2.2) a b (fun t => u (t * y)) - est rule (·.2.1) a b fun t => u (t * y)|)
              (𝓝 0) (𝓝 0) := by
            simpa using (continuous_abs.tendsto (0 : ℝ)).mul h3
          filter_upwards [mem_nhdsWithin_of_mem_nhds (h4.eventually_lt_const ht)] with y hy using lt_max_of_lt_right hy
        · have h4 : Tendsto (fun y => q.relTol * |est rule (·.2.1) a b fun t => u (t * y)|) (𝓝 0) (𝓝 (q.relTol * |(b - a) * u 0|)) :=
            h1.abs.const_mul _
          have h5 : 0 < q.relTol * |(b - a) * u 0| := mul_pos ht (abs_pos.2 (mul_pos (by linarith) hpos).ne')
          filter_upwards [mem_nhdsWithin_of_mem_nhds (h3.eventually_lt h4 h5), self_mem_nhdsWithin] with y hy hy0
          refine lt_max_of_lt_left ?_
          have h6 : 0 < |y| := abs_pos.2 hy0
          calc _ < |y| * (q.relTol * |est rule (·.2.1) a b fun t => u (t * y)|) := mul_lt_mul_of_pos_left hy h6
            _ = _ := by ring
      filter_upwards [hlt] with y hy level
      rw [QProg.stopFirst, est_scaled, est_scaled, ← mul_sub, abs_mul, abs_mul]
      exact and_iff_right hy
    have key : ∀ (d level : Nat) (a b : ℝ), a < b → ∀ᶠ y in 𝓝[≠] (0 : ℝ),
        leaves (fun level a b => QProg.stopFirst q level (est rule (·.2.1) a b fun t => y * u (t * y)) (est rule (·.2.2) a b fun t => y * u (t * y)))
          d level a b = leaves (fun level _ _ => q.minSub ≤ level) d level a b := by
      intro d
      induction d with
      | zero => intro level a b _; exact Eventually.of_forall fun y => rfl
      | succ d ih =>
        intro level a b hab
        filter_upwards [hstop a b hab, ih (level + 1) a ((a + b) / 2) (by linarith), ih (level + 1) ((a + b) / 2) b (by linarith)]
          with y h1 h2 h3
        rw [leaves, leaves, h2, h3]
        by_cases hk : q.minSub ≤ level
        · rw [if_pos ((h1 level).2 hk), if_pos hk]
        · rw [if_neg (mt (h1 level).1 hk), if_neg hk]
    filter_upwards [key (q.maxSub - 1) 0 0 1 one_pos] with y hy
    rw [adaptiveMesh, hy]
  · push Not at htol
    refine ⟨(leaves (fun _ _ _ => False) (q.maxSub - 1) 0 0 1).flatMap fun p => (rule p.1 p.2).map fun r => (r.1, r.2.2),
      fun u hu hpos => Eventually.of_forall fun y => ?_⟩
    rw [adaptiveMesh]
    congr 1
    refine leaves_same (fun k a b => iff_of_false (fun h => ?_) id) _ _ _ _
    have h1 := h.1
    have h2 := max_le (mul_nonpos_of_nonpos_of_nonneg htol.2 (abs_nonneg (est rule (·.2.1) a b fun t => y * u (t * y)))) htol.1
    have h3 := abs_nonneg (est rule (·.2.2) a b (fun t => y * u (t * y)) - est rule (·.2.1) a b fun t => y * u (t * y))
    linarith

theorem simpson_coarse_sum (a b : ℝ) : ((QProg.simpsonRule a b).map (·.2.1)).sum = b - a := by
  simp [QProg.simpsonRule]; ring

theorem nested_coarse_sum {l : Nat} (hl : 1 ≤ l) {r : NestedRule} (hr : AdaptiveClenshawCurtis.new l = .ok r) (a b : ℝ) :
    ((QProg.nestedRule r a b).map (·.2.1)).sum = b - a := by
  obtain ⟨r', e, s1, -⟩ := (C34_rules l).1 hl
  obtain ⟨r'', e', -, hc, -⟩ := AdaptiveClenshawCurtis.new_ok l hl
  rw [hr] at e e'
  obtain rfl := Res.ok.inj e
  obtain rfl := Res.ok.inj e'
  have h1 := moved_sum (2 ^ l + 1) r.coarsePts.val r.coarseWts.val (fun _ => 1) a b
  rw [QProg.nestedRule, s1]
  simp only [mul_one] at h1
  simp only [List.map_append, List.map_map, List.sum_append, Function.comp_def, List.map_const', List.sum_replicate, smul_zero,
    add_zero, h1, applyRule, mul_one]
  rw [← mul_sum, sum_congr rfl fun i hi => (hc i (by have := mem_range.1 hi; omega)).2,
    ClenshawCurtis.wt_total _ Nat.one_le_two_pow]
  ring

end MParT
