import Verif.Lemmas.AdaptiveRun
import Verif.Props.ClenshawCurtis
/-!
# C33, C34: adaptive quadrature
-/
namespace MParT
open Finset Polynomial

/-! ### Recursive bisection -/

theorem Spec.Tiles.append {a m b : ℝ} {l t : List (ℝ × ℝ)} (hl : Tiles a m l) (ht : Tiles m b t) : Tiles a b (l ++ t) := by
  induction l generalizing a with
  | nil => rw [show a = m from hl]; exact ht
  | cons p l ih => exact ⟨hl.1, ih hl.2⟩

theorem Spec.tiles_leaves (stop : Nat → ℝ → ℝ → Prop) (d level : Nat) (a b : ℝ) : Tiles a b (leaves stop d level a b) := by
  induction d generalizing level a b with
  | zero => exact ⟨rfl, rfl⟩
  | succ d ih =>
    rw [leaves]
    split
    · exact ⟨rfl, rfl⟩
    · exact (ih _ _ _).append (ih _ _ _)

theorem Spec.length_leaves (stop : Nat → ℝ → ℝ → Prop) (d level : Nat) (a b : ℝ) : (leaves stop d level a b).length ≤ 2 ^ d := by
  induction d generalizing level a b with
  | zero => simp [leaves]
  | succ d ih =>
    rw [leaves]
    split
    · simpa using Nat.one_le_two_pow
    · have h1 := ih (level + 1) a ((a + b) / 2)
      have h2 := ih (level + 1) ((a + b) / 2) b
      rw [List.length_append, pow_succ]; omega

/-- Every leaf at level `L+k` is one of the `2^k` dyadic pieces and passes the test, unless it is at the deepest level. -/
theorem Spec.leaves_spec (stop : Nat → ℝ → ℝ → Prop) (d level : Nat) (a b : ℝ) :
    ∀ p ∈ leaves stop d level a b, ∃ k ≤ d, (p.2 - p.1) * 2 ^ k = b - a ∧ (k = d ∨ stop (level + k) p.1 p.2) := by
  induction d generalizing level a b with
  | zero =>
    intro p hp
    obtain rfl : p = (a, b) := by simpa [leaves] using hp
    exact ⟨0, le_rfl, by simp, Or.inl rfl⟩
  | succ d ih =>
    intro p hp
    rw [leaves] at hp
    split at hp
    · next h =>
      obtain rfl : p = (a, b) := by simpa using hp
      exact ⟨0, by omega, by simp, Or.inr h⟩
    · rcases List.mem_append.mp hp with hp | hp
      · obtain ⟨k, h1, h2, h3⟩ := ih _ _ _ p hp
        refine ⟨k + 1, by omega, by rw [pow_succ, ← mul_assoc, h2]; ring, ?_⟩
        rw [show level + (k + 1) = level + 1 + k by omega]
        rcases h3 with h | h
        · exact Or.inl (by omega)
        · exact Or.inr h
      · obtain ⟨k, h1, h2, h3⟩ := ih _ _ _ p hp
        refine ⟨k + 1, by omega, by rw [pow_succ, ← mul_assoc, h2]; ring, ?_⟩
        rw [show level + (k + 1) = level + 1 + k by omega]
        rcases h3 with h | h
        · exact Or.inl (by omega)
        · exact Or.inr h

theorem Spec.Tiles.sum_integral {a b : ℝ} {l : List (ℝ × ℝ)} (h : Tiles a b l) (g : ℝ → ℝ) (hg : Continuous g) :
    (l.map fun p => ∫ x in p.1..p.2, g x).sum = ∫ x in a..b, g x := by
  induction l generalizing a with
  | nil => rw [show a = b from h]; simp
  | cons p l ih =>
    rw [List.map_cons, List.sum_cons, ih h.2, h.1,
      intervalIntegral.integral_add_adjacent_intervals (hg.intervalIntegrable _ _) (hg.intervalIntegrable _ _)]

/-! ### C33 -/

/-- The intervals accepted by the adaptive rule with configuration `q` whose two estimates on an interval are `coarse` and
`fine`. -/
noncomputable def Spec.accepted (q : Recursive) (coarse fine : (ℝ → ℝ) → ℝ → ℝ → ℝ) (f : Integrand) (lb ub : ℝ) :
    List (ℝ × ℝ) :=
  Spec.leaves (Spec.converged coarse fine q.errorMetric.norm q.fdim q.absTol q.relTol q.minSub lb ub f) (q.maxSub - 1) 0 lb ub

/-- C33 (value, termination and memory). With `minSub < maxSub ≤ 32`, for every integrand, every pair of bounds and all
tolerances, `AdaptiveSimpson::Integrate` on a workspace of at least `GetWorkspaceSize()` entries stops within `2^maxSub` iterations and
accesses nothing outside its buffers; each of the first `fdim` entries of the result is the sum, over the leaves of the
recursive bisection from left to right, of Simpson's rule on the two halves; the other entries of `res` keep their content. -/
theorem C33_value (q : Recursive) (hf : 1 ≤ q.fdim) (hmin : q.minSub < q.maxSub) (hmax : q.maxSub ≤ 32) (f : Integrand)
    (lb ub : ℝ) (ws res : Mem) (hws : AdaptiveSimpson.workspaceSize q.maxSub q.fdim ≤ ws.size) (hres : q.fdim ≤ res.size)
    (fuel : Nat) (hfuel : 2 ^ q.maxSub ≤ fuel) :
    ∃ ws' res' : Mem, AdaptiveSimpson.integrate q ws f lb ub res fuel = .ok (some (ws', res')) ∧ ws'.size = ws.size ∧ res'.size = res.size ∧
      (∀ j < q.fdim, res'.val j =
        ((Spec.accepted q Spec.simpson Spec.simpson2 f lb ub).map fun p => Spec.simpson2 (f · j) p.1 p.2).sum) ∧
      ∀ j, q.fdim ≤ j → res'.val j = res.val j := by
  obtain ⟨w, r, h1, h2, h3, h4, h5, h6, h7, h8⟩ := AdaptiveSimpson.setup q (by omega) f lb ub ws res hws hres
  obtain ⟨ws', res', e, s1, s2, v, k⟩ := Recursive.run (AdaptiveSimpson.ok q f _ (hws.trans_eq h1.symm)) hf hmin hmax lb ub w r _ rfl (by omega) h7 rfl
    fuel hfuel
  have hst : (AdaptiveSimpson.scheme q.fdim f).start 0 = 5 * q.fdim := AdaptiveSimpson.start_zero _
  rw [hst] at e v
  refine ⟨ws', res', by rw [h8, e], s1.trans h1, s2.trans h2, fun j hj => ?_, fun j hj => by rw [k j hj, h4 j hj]⟩
  rw [v j hj, h3 j hj, zero_add, h5, h6]
  rfl

/-- C33 and C34 (the leaves). The accepted intervals tile the domain from left to right, there are at most `2^(maxSub-1)` of
them, each is the domain halved at most `maxSub-1` times, and each passes the stopping test unless it is at the deepest
level. -/
theorem C33_leaves (q : Recursive) (hmin : q.minSub < q.maxSub) (coarse fine : (ℝ → ℝ) → ℝ → ℝ → ℝ) (f : Integrand)
    (lb ub : ℝ) :
    Spec.Tiles lb ub (Spec.accepted q coarse fine f lb ub) ∧
      (Spec.accepted q coarse fine f lb ub).length ≤ 2 ^ (q.maxSub - 1) ∧
      ∀ p ∈ Spec.accepted q coarse fine f lb ub, ∃ k < q.maxSub, (p.2 - p.1) * 2 ^ k = ub - lb ∧ (k + 1 = q.maxSub ∨
        (q.errorMetric.norm.of q.fdim (fun j => fine (f · j) p.1 p.2 - coarse (f · j) p.1 p.2) <
          max (q.relTol * q.errorMetric.norm.of q.fdim (fun j => coarse (f · j) p.1 p.2)) q.absTol ∧ q.minSub ≤ k) ∨
        |ub - lb| < 1e-14) := by
  refine ⟨Spec.tiles_leaves _ _ _ _ _, Spec.length_leaves _ _ _ _ _, fun p hp => ?_⟩
  obtain ⟨k, h1, h2, h3⟩ := Spec.leaves_spec _ _ _ _ _ p hp
  refine ⟨k, by omega, h2, ?_⟩
  rcases h3 with h | h
  · exact Or.inl (by omega)
  · rw [Nat.zero_add] at h
    exact Or.inr h

theorem simpson_exact (P : ℝ[X]) (hP : P.natDegree ≤ 3) (a b : ℝ) :
    Spec.simpson (fun x => P.eval x) a b = ∫ x in a..b, P.eval x := by
  have hev : ∀ x, P.eval x = P.coeff 0 + P.coeff 1 * x + P.coeff 2 * x ^ 2 + P.coeff 3 * x ^ 3 := fun x => by
    rw [eval_eq_sum_range' (show P.natDegree < 4 by omega)]
    simp [sum_range_succ]
  simp only [hev]
  rw [Spec.simpson, intervalIntegral.integral_add (Continuous.intervalIntegrable (by fun_prop) _ _)
      (Continuous.intervalIntegrable (by fun_prop) _ _), intervalIntegral.integral_add
      (Continuous.intervalIntegrable (by fun_prop) _ _) (Continuous.intervalIntegrable (by fun_prop) _ _),
    intervalIntegral.integral_add (Continuous.intervalIntegrable (by fun_prop) _ _)
      (Continuous.intervalIntegrable (by fun_prop) _ _), intervalIntegral.integral_const,
    intervalIntegral.integral_const_mul, intervalIntegral.integral_const_mul, intervalIntegral.integral_const_mul,
    integral_id, integral_pow, integral_pow, smul_eq_mul]
  norm_num
  ring

theorem simpson2_exact (P : ℝ[X]) (hP : P.natDegree ≤ 3) (a b : ℝ) :
    Spec.simpson2 (fun x => P.eval x) a b = ∫ x in a..b, P.eval x := by
  rw [Spec.simpson2, simpson_exact P hP, simpson_exact P hP, intervalIntegral.integral_add_adjacent_intervals
    (P.continuous.intervalIntegrable _ _) (P.continuous.intervalIntegrable _ _)]

/-- C33 (exactness). Whatever the tolerances, a component that is a polynomial of degree at most 3 is integrated exactly,
also when `ub < lb`; and for `lb ≤ ub` a nonnegative component has a nonnegative integral. -/
theorem C33_exact (q : Recursive) (hf : 1 ≤ q.fdim) (hmin : q.minSub < q.maxSub) (hmax : q.maxSub ≤ 32) (f : Integrand)
    (lb ub : ℝ) (ws res : Mem) (hws : AdaptiveSimpson.workspaceSize q.maxSub q.fdim ≤ ws.size) (hres : q.fdim ≤ res.size)
    (fuel : Nat) (hfuel : 2 ^ q.maxSub ≤ fuel) :
    ∃ ws' res' : Mem, AdaptiveSimpson.integrate q ws f lb ub res fuel = .ok (some (ws', res')) ∧ ∀ j < q.fdim,
      (∀ P : ℝ[X], P.natDegree ≤ 3 → (∀ x, f x j = P.eval x) → res'.val j = ∫ x in lb..ub, f x j) ∧
      ((∀ x, 0 ≤ f x j) → lb ≤ ub → 0 ≤ res'.val j) := by
  obtain ⟨ws', res', e, _, _, v, _⟩ := C33_value q hf hmin hmax f lb ub ws res hws hres fuel hfuel
  obtain ⟨t, _, l⟩ := C33_leaves q hmin Spec.simpson Spec.simpson2 f lb ub
  refine ⟨ws', res', e, fun j hj => ⟨fun P hP hfP => ?_, fun h0 hle => ?_⟩⟩
  · rw [v j hj]
    simp only [hfP, simpson2_exact P hP]
    exact t.sum_integral _ P.continuous
  · rw [v j hj]
    refine List.sum_nonneg fun x hx => ?_
    obtain ⟨p, hp, rfl⟩ := List.mem_map.mp hx
    obtain ⟨k, _, h2, _⟩ := l p hp
    have hp : p.1 ≤ p.2 := by
      by_contra hlt
      have : (p.2 - p.1) * 2 ^ k < 0 := mul_neg_of_neg_of_pos (by linarith) (by positivity)
      linarith
    have hs : ∀ a b : ℝ, a ≤ b → 0 ≤ Spec.simpson (f · j) a b := fun a b hab => by
      have h1 := h0 a
      have h2 := h0 b
      have h3 := h0 ((a + b) / 2)
      rw [Spec.simpson]
      exact mul_nonneg (by linarith) (by linarith)
    exact add_nonneg (hs _ _ (by linarith)) (hs _ _ (by linarith))

/-- C33 (additivity). If the whole domain does not pass the stopping test, the accepted intervals are those of the left half
followed by those of the right half, for the same tolerances and depths one less. -/
theorem C33_additive (q : Recursive) (hmax : 2 ≤ q.maxSub) (coarse fine : (ℝ → ℝ) → ℝ → ℝ → ℝ) (f : Integrand) (lb ub : ℝ)
    (hlen : 2e-14 ≤ |ub - lb|)
    (hsplit : ¬ (q.errorMetric.norm.of q.fdim (fun j => fine (f · j) lb ub - coarse (f · j) lb ub) <
          max (q.relTol * q.errorMetric.norm.of q.fdim (fun j => coarse (f · j) lb ub)) q.absTol ∧ q.minSub = 0)) :
    Spec.accepted q coarse fine f lb ub =
      Spec.accepted { q with maxSub := q.maxSub - 1, minSub := q.minSub - 1 } coarse fine f lb ((lb + ub) / 2) ++
      Spec.accepted { q with maxSub := q.maxSub - 1, minSub := q.minSub - 1 } coarse fine f ((lb + ub) / 2) ub := by
  obtain ⟨d, hd⟩ : ∃ d, q.maxSub = d + 2 := ⟨q.maxSub - 2, by omega⟩
  simp only [Spec.accepted, hd]
  rw [show d + 2 - 1 = d + 1 by omega, show d + 1 - 1 = d by omega, Spec.leaves, if_neg]
  · congr 1
    · refine Spec.leaves_congr _ _ _ _ (fun k a b => ?_) d _ _
      have h1 : |(lb + ub) / 2 - lb| = |ub - lb| / 2 := by
        rw [show (lb + ub) / 2 - lb = (ub - lb) / 2 by ring, abs_div, abs_two]
      simp only [Spec.converged]
      rw [h1]
      constructor
      · rintro (⟨h, h'⟩ | h)
        · exact Or.inl ⟨h, by omega⟩
        · linarith
      · rintro (⟨h, h'⟩ | h)
        · exact Or.inl ⟨h, by omega⟩
        · linarith
    · refine Spec.leaves_congr _ _ _ _ (fun k a b => ?_) d _ _
      have h1 : |ub - (lb + ub) / 2| = |ub - lb| / 2 := by
        rw [show ub - (lb + ub) / 2 = (ub - lb) / 2 by ring, abs_div, abs_two]
      simp only [Spec.converged]
      rw [h1]
      constructor
      · rintro (⟨h, h'⟩ | h)
        · exact Or.inl ⟨h, by omega⟩
        · linarith
      · rintro (⟨h, h'⟩ | h)
        · exact Or.inl ⟨h, by omega⟩
        · linarith
  · rintro (⟨h, h'⟩ | h)
    · exact hsplit ⟨h, by omega⟩
    · linarith

/-- The hypotheses of `C33_exact` are met by `x ↦ (x^3, sin x)` on `[0,2]` with three levels, one of them forced. -/
example : ∃ ws' res' : Mem, AdaptiveSimpson.integrate ⟨2, 3, 1, 1e-6, 1e-6, .norm2⟩
    ⟨AdaptiveSimpson.workspaceSize 3 2, fun _ => 0⟩ (fun x j => if j = 0 then x ^ 3 else Real.sin x) 0 2 ⟨2, fun _ => 0⟩ 8 =
      .ok (some (ws', res')) ∧ res'.val 0 = 4 := by
  obtain ⟨ws', res', e, h⟩ := C33_exact ⟨2, 3, 1, 1e-6, 1e-6, .norm2⟩ (by decide) (by decide) (by decide)
    (fun x j => if j = 0 then x ^ 3 else Real.sin x) 0 2 ⟨AdaptiveSimpson.workspaceSize 3 2, fun _ => 0⟩ ⟨2, fun _ => 0⟩ le_rfl
    (by decide) 8 (by decide)
  refine ⟨ws', res', e, ?_⟩
  rw [(h 0 (by decide)).1 (X ^ 3) (by simp) (fun x => by simp)]
  simp
  norm_num

/-- Disagreement: `minSub` at or above `maxSub` is accepted by the constructor, and then every integrand on every interval
longer than `1e-14` makes `Integrate` write past the end of a workspace of `GetWorkspaceSize()` entries. -/
theorem C33_fails_minSub (q : Recursive) (hf : 1 ≤ q.fdim) (h1 : 1 ≤ q.maxSub) (hmin : q.maxSub ≤ q.minSub) (f : Integrand)
    (lb ub : ℝ) (hlen : 1e-14 ≤ |ub - lb|) (ws res : Mem) (hws : ws.size = AdaptiveSimpson.workspaceSize q.maxSub q.fdim)
    (hres : q.fdim ≤ res.size) (fuel : Nat) (hfuel : q.maxSub ≤ fuel) :
    AdaptiveSimpson.integrate q ws f lb ub res fuel = .ub := by
  obtain ⟨w, r, s1, _, _, _, _, _, c, e⟩ := AdaptiveSimpson.setup q h1 f lb ub ws res hws.ge hres
  have hst : (AdaptiveSimpson.scheme q.fdim f).start 0 = 5 * q.fdim := AdaptiveSimpson.start_zero _
  rw [e, ← hst]
  exact Recursive.overrun (AdaptiveSimpson.ok q f _ le_rfl) hf h1 hmin rfl lb ub hlen w r _ (s1.trans hws) c fuel hfuel

/-- Disagreement: more than 32 forced levels shift the 32-bit segment mask by 32 or more. -/
theorem C33_fails_mask (q : Recursive) (hf : 1 ≤ q.fdim) (hmin : q.minSub + 1 = q.maxSub) (h32 : 32 ≤ q.minSub)
    (hmax : q.maxSub < 2 ^ 32) (f : Integrand) (lb ub : ℝ) (hlen : 1e-14 ≤ |ub - lb|) (ws res : Mem)
    (hws : ws.size = AdaptiveSimpson.workspaceSize q.maxSub q.fdim) (hres : q.fdim ≤ res.size) (fuel : Nat)
    (hfuel : q.maxSub ≤ fuel) :
    AdaptiveSimpson.integrate q ws f lb ub res fuel = .ub := by
  obtain ⟨w, r, s1, s2, _, _, _, _, c, e⟩ := AdaptiveSimpson.setup q (by omega) f lb ub ws res hws.ge hres
  have hst : (AdaptiveSimpson.scheme q.fdim f).start 0 = 5 * q.fdim := AdaptiveSimpson.start_zero _
  rw [e, ← hst]
  exact Recursive.shift (AdaptiveSimpson.ok q f _ le_rfl) hf hmin h32 hmax lb ub hlen w r _ (s1.trans hws) (by omega) c fuel hfuel

/-! ### C34 -/

/-- C34 (constructor). For every level from 1, the constructor stores the Clenshaw–Curtis rules with `2^level+1` and
`2^(level+1)+1` points, each array holding exactly that many entries; level 0 fails the assertion. -/
theorem C34_rules (l : Nat) :
    (1 ≤ l → ∃ r, AdaptiveClenshawCurtis.new l = .ok r ∧
      r.coarsePts.size = 2 ^ l + 1 ∧ r.coarseWts.size = 2 ^ l + 1 ∧
      r.finePts.size = 2 ^ (l + 1) + 1 ∧ r.fineWts.size = 2 ^ (l + 1) + 1 ∧
      ∃ w p w' p' : Mem, ClenshawCurtis.getRule (2 ^ l + 1) w p = .ok (r.coarseWts, r.coarsePts) ∧
        ClenshawCurtis.getRule (2 ^ (l + 1) + 1) w' p' = .ok (r.fineWts, r.finePts)) ∧
    (l = 0 → AdaptiveClenshawCurtis.new l = .throw) := by
  refine ⟨fun hl => ?_, fun hl => by subst hl; rw [AdaptiveClenshawCurtis.new, if_neg (by decide)]⟩
  obtain ⟨r, e, hr, _⟩ := AdaptiveClenshawCurtis.new_ok l hl
  have hl2 : 2 ^ l = 2 * 2 ^ (l - 1) := by
    obtain ⟨k, rfl⟩ : ∃ k, l = k + 1 := ⟨l - 1, by omega⟩
    rw [Nat.add_sub_cancel, pow_succ]; ring
  have hl3 : 2 ^ (l + 1) = 2 * 2 ^ l := by rw [pow_succ]; ring
  refine ⟨r, e, by rw [hr.cp, hl2], by rw [hr.cw, hl2], by rw [hr.fp]; omega, by rw [hr.fw]; omega, ?_⟩
  rw [AdaptiveClenshawCurtis.new] at e
  split at e
  · obtain ⟨c, e1, e⟩ := Res.bind_eq_ok.mp e
    obtain ⟨g, e2, e⟩ := Res.bind_eq_ok.mp e
    rw [Res.pure_eq] at e
    obtain rfl := Res.ok.inj e
    exact ⟨_, _, _, _, e1, e2⟩
  · cases e

/-- C34 (value, termination and memory). With `minSub < maxSub ≤ 32`, for every level from 1, every integrand, every pair of
bounds and all tolerances, `AdaptiveClenshawCurtis::Integrate` on a workspace of at least `GetWorkspaceSize()` entries stops within
`2^maxSub` iterations and accesses nothing outside its buffers; each entry of the result is the sum, over the leaves of the
recursive bisection from left to right, of the full fine rule, where the stopping test compares the full coarse and fine
rules; the other entries of `res` keep their content. -/
theorem C34_value (l : Nat) (hl : 1 ≤ l) (r : NestedRule) (hr : AdaptiveClenshawCurtis.new l = .ok r) (q : Recursive)
    (hf : 1 ≤ q.fdim) (hmin : q.minSub < q.maxSub) (hmax : q.maxSub ≤ 32) (f : Integrand)
    (lb ub : ℝ) (ws res : Mem) (hws : AdaptiveClenshawCurtis.workspaceSize q.maxSub q.fdim ≤ ws.size)
    (hres : q.fdim ≤ res.size) (fuel : Nat) (hfuel : 2 ^ q.maxSub ≤ fuel) :
    ∃ ws' res' : Mem, AdaptiveClenshawCurtis.integrate q r ws f lb ub res fuel = .ok (some (ws', res')) ∧ ws'.size = ws.size ∧ res'.size = res.size ∧
      (∀ j < q.fdim, res'.val j =
        ((Spec.accepted q (Spec.applyRule (2 ^ l + 1) r.coarsePts.val r.coarseWts.val)
          (Spec.applyRule (2 ^ (l + 1) + 1) r.finePts.val r.fineWts.val) f lb ub).map fun p =>
            Spec.applyRule (2 ^ (l + 1) + 1) r.finePts.val r.fineWts.val (f · j) p.1 p.2).sum) ∧
      ∀ j, q.fdim ≤ j → res'.val j = res.val j := by
  obtain ⟨r', e', hn, _⟩ := AdaptiveClenshawCurtis.new_ok l hl
  obtain rfl : r' = r := by rw [e'] at hr; exact Res.ok.inj hr
  have hl2 : 2 ^ l = 2 * 2 ^ (l - 1) := by
    obtain ⟨k, rfl⟩ : ∃ k, l = k + 1 := ⟨l - 1, by omega⟩
    rw [Nat.add_sub_cancel, pow_succ]; ring
  have hl3 : 2 ^ (l + 1) = 4 * 2 ^ (l - 1) := by rw [pow_succ, hl2]; ring
  obtain ⟨w, r, h1, h2, h3, h4, h5, h6, h7, h8⟩ := AdaptiveClenshawCurtis.setup q r' (by omega) f lb ub ws res hws hres
  obtain ⟨ws', res', e, s1, s2, v, k⟩ := Recursive.run (AdaptiveClenshawCurtis.ok hn q f _ (hws.trans_eq h1.symm)) hf hmin hmax lb ub w r _ rfl (by omega)
    h7 rfl fuel hfuel
  have hst : (AdaptiveClenshawCurtis.scheme r' q.fdim f).start 0 = 5 * q.fdim := AdaptiveClenshawCurtis.start_zero _
  rw [hst] at e v
  refine ⟨ws', res', by rw [h8, e], s1.trans h1, s2.trans h2, fun j hj => ?_, fun j hj => by rw [k j hj, h4 j hj]⟩
  rw [v j hj, h3 j hj, zero_add, h5, h6, hl3, hl2]
  rfl

/-- C34 (exactness). Whatever the tolerances, a component that is a polynomial of degree at most `2^(level+1)` is integrated
exactly (levels 1 to 15), also when `ub < lb`; and for `lb ≤ ub` a nonnegative component has a nonnegative integral. -/
theorem C34_exact (l : Nat) (hl : 1 ≤ l) (hl' : l ≤ 15) (r : NestedRule) (hr : AdaptiveClenshawCurtis.new l = .ok r)
    (q : Recursive) (hf : 1 ≤ q.fdim) (hmin : q.minSub < q.maxSub) (hmax : q.maxSub ≤ 32) (f : Integrand)
    (lb ub : ℝ) (ws res : Mem) (hws : AdaptiveClenshawCurtis.workspaceSize q.maxSub q.fdim ≤ ws.size)
    (hres : q.fdim ≤ res.size) (fuel : Nat) (hfuel : 2 ^ q.maxSub ≤ fuel) :
    ∃ ws' res' : Mem, AdaptiveClenshawCurtis.integrate q r ws f lb ub res fuel = .ok (some (ws', res')) ∧ ∀ j < q.fdim,
      (∀ P : ℝ[X], P.natDegree ≤ 2 ^ (l + 1) → (∀ x, f x j = P.eval x) → res'.val j = ∫ x in lb..ub, f x j) ∧
      ((∀ x, 0 ≤ f x j) → lb ≤ ub → 0 ≤ res'.val j) := by
  obtain ⟨ws', res', e, _, _, v, _⟩ := C34_value l hl r hr q hf hmin hmax f lb ub ws res hws hres fuel hfuel
  obtain ⟨r', e', _, _, hw⟩ := AdaptiveClenshawCurtis.new_ok l hl
  obtain rfl : r' = r := by rw [e'] at hr; exact Res.ok.inj hr
  have hN : 1 ≤ 2 ^ (l + 1) := Nat.one_le_two_pow
  have hb : 2 ^ (l + 1) ≤ 65536 := (Nat.pow_le_pow_right (by omega) (by omega : l + 1 ≤ 16)).trans_eq (by norm_num)
  obtain ⟨t, _, lv⟩ := C33_leaves q hmin (Spec.applyRule (2 ^ l + 1) r'.coarsePts.val r'.coarseWts.val)
    (Spec.applyRule (2 ^ (l + 1) + 1) r'.finePts.val r'.fineWts.val) f lb ub
  refine ⟨ws', res', e, fun j hj => ⟨fun P hP hfP => ?_, fun h0 hle => ?_⟩⟩
  · rw [v j hj]
    have hex : ∀ Q : ℝ[X], Q.natDegree ≤ 2 ^ (l + 1) →
        ∑ i ∈ range (2 ^ (l + 1) + 1), r'.fineWts.val i * Q.eval (r'.finePts.val i) = ∫ x in (-1 : ℝ)..1, Q.eval x := by
      intro Q hQ
      rw [← ClenshawCurtis.exact _ hN hb Q hQ]
      refine sum_congr rfl fun i hi => ?_
      have := mem_range.mp hi
      rw [(hw i (by omega)).1, (hw i (by omega)).2]
    have hap := fun a b => applyRule_exact _ _ _ _ hex P hP a b
    simp only [hfP, hap]
    exact t.sum_integral _ P.continuous
  · rw [v j hj]
    refine List.sum_nonneg fun x hx => ?_
    obtain ⟨p, hp, rfl⟩ := List.mem_map.mp hx
    obtain ⟨k, _, h2, _⟩ := lv p hp
    have hp : p.1 ≤ p.2 := by
      by_contra hlt
      have : (p.2 - p.1) * 2 ^ k < 0 := mul_neg_of_neg_of_pos (by linarith) (by positivity)
      linarith
    refine sum_nonneg fun i hi => mul_nonneg (mul_nonneg (by linarith) ?_) (h0 _)
    have := mem_range.mp hi
    rw [(hw i (by omega)).2]
    exact (ClenshawCurtis.wt_pos _ _ hN (by omega)).le

/-- The hypotheses of `C34_exact` are met by `x ↦ (x^4, exp x)` on `[0,1]` with level 1 and three levels of bisection. -/
example : ∃ (r : NestedRule) (ws' res' : Mem), AdaptiveClenshawCurtis.new 1 = .ok r ∧
    AdaptiveClenshawCurtis.integrate ⟨2, 3, 1, 1e-6, 1e-6, .norm1⟩ r
      ⟨AdaptiveClenshawCurtis.workspaceSize 3 2, fun _ => 0⟩ (fun x j => if j = 0 then x ^ 4 else Real.exp x) 0 1
      ⟨2, fun _ => 0⟩ 8 = .ok (some (ws', res')) ∧ res'.val 0 = 1 / 5 := by
  obtain ⟨r, hr, _⟩ := (C34_rules 1).1 le_rfl
  obtain ⟨ws', res', e, h⟩ := C34_exact 1 le_rfl (by decide) r hr ⟨2, 3, 1, 1e-6, 1e-6, .norm1⟩ (by decide) (by decide) (by decide)
    (fun x j => if j = 0 then x ^ 4 else Real.exp x) 0 1 ⟨AdaptiveClenshawCurtis.workspaceSize 3 2, fun _ => 0⟩ ⟨2, fun _ => 0⟩
    le_rfl (by decide) 8 (by decide)
  refine ⟨r, ws', res', hr, e, ?_⟩
  rw [(h 0 (by decide)).1 (X ^ 4) (by simp) (fun x => by simp)]
  simp
  norm_num

/-- Disagreement: as for `AdaptiveSimpson`, `minSub` at or above `maxSub` overruns the workspace. -/
theorem C34_fails_minSub (l : Nat) (hl : 1 ≤ l) (r : NestedRule) (hr : AdaptiveClenshawCurtis.new l = .ok r) (q : Recursive)
    (hf : 1 ≤ q.fdim) (h1 : 1 ≤ q.maxSub) (hmin : q.maxSub ≤ q.minSub) (f : Integrand)
    (lb ub : ℝ) (hlen : 1e-14 ≤ |ub - lb|) (ws res : Mem)
    (hws : ws.size = AdaptiveClenshawCurtis.workspaceSize q.maxSub q.fdim)
    (hres : q.fdim ≤ res.size) (fuel : Nat) (hfuel : q.maxSub ≤ fuel) :
    AdaptiveClenshawCurtis.integrate q r ws f lb ub res fuel = .ub := by
  obtain ⟨r', e', hn, _⟩ := AdaptiveClenshawCurtis.new_ok l hl
  obtain rfl : r' = r := by rw [e'] at hr; exact Res.ok.inj hr
  obtain ⟨w, r, s1, _, _, _, _, _, c, e⟩ := AdaptiveClenshawCurtis.setup q r' h1 f lb ub ws res hws.ge hres
  have hst : (AdaptiveClenshawCurtis.scheme r' q.fdim f).start 0 = 5 * q.fdim := AdaptiveClenshawCurtis.start_zero _
  rw [e, ← hst]
  exact Recursive.overrun (AdaptiveClenshawCurtis.ok hn q f _ le_rfl) hf h1 hmin rfl lb ub hlen w r _ (s1.trans hws) c fuel hfuel

/-- Disagreement: the constructor taking views of `2^l+1` and `2^(l+1)+1` entries computes its level as
`floor(log2(extent-2))`, one too small: `l = 1` fails the assertion, and for `l ≥ 2` the last entries of the coarse rule are
left as they were. -/
theorem C34_fails_views (l : Nat) (hl : 1 ≤ l) (v : NestedRule) (h1 : v.coarsePts.size = 2 ^ l + 1)
    (h2 : v.coarseWts.size = 2 ^ l + 1) (h3 : v.finePts.size = 2 ^ (l + 1) + 1) (h4 : v.fineWts.size = 2 ^ (l + 1) + 1) :
    (l = 1 → AdaptiveClenshawCurtis.ofViews v = .throw) ∧
    (2 ≤ l → ∃ r, AdaptiveClenshawCurtis.ofViews v = .ok r ∧ ∀ i, 2 ^ (l - 1) < i →
      r.coarsePts.val i = v.coarsePts.val i ∧ r.coarseWts.val i = v.coarseWts.val i) := by
  have hlog : Nat.log 2 (v.coarsePts.size - 2) = l - 1 := by
    rw [h1]
    obtain ⟨k, rfl⟩ : ∃ k, l = k + 1 := ⟨l - 1, by omega⟩
    have := Nat.one_le_two_pow (n := k)
    rw [Nat.add_sub_cancel]
    rcases Nat.eq_zero_or_pos k with rfl | hk
    · decide
    · have h2 : 2 ≤ 2 ^ k := by simpa using Nat.pow_le_pow_right (show 0 < 2 by omega) hk
      refine Nat.log_eq_of_pow_le_of_lt_pow ?_ ?_ <;> rw [pow_succ] <;> omega
  constructor
  · rintro rfl
    rw [AdaptiveClenshawCurtis.ofViews]
    simp only [hlog]
    rw [if_neg (by decide)]
  · intro h
    have hl2 : 2 ^ l = 2 * 2 ^ (l - 1) := by
      obtain ⟨k, rfl⟩ : ∃ k, l = k + 1 := ⟨l - 1, by omega⟩
      rw [Nat.add_sub_cancel, pow_succ]; ring
    have hl3 : 2 ^ (l + 1) = 2 * 2 ^ l := by rw [pow_succ]; ring
    have p1 : 2 ≤ 2 ^ (l - 1) := by simpa using Nat.pow_le_pow_right (show 0 < 2 by omega) (show 1 ≤ l - 1 by omega)
    obtain ⟨p, ep, _, _, p3⟩ := ClenshawCurtis.points_eq (2 ^ (l - 1)) (by omega) v.coarsePts (by omega)
    obtain ⟨w, ew, _, _, w3⟩ := ClenshawCurtis.weights_eq (2 ^ (l - 1)) (by omega) v.coarseWts (by omega)
    obtain ⟨p', ep', _⟩ := ClenshawCurtis.points_eq (2 ^ l) (by omega) v.finePts (by omega)
    obtain ⟨w', ew', _⟩ := ClenshawCurtis.weights_eq (2 ^ l) (by omega) v.fineWts (by omega)
    refine ⟨⟨p, w, p', w'⟩, ?_, fun i hi => ⟨p3 i hi, w3 i hi⟩⟩
    rw [AdaptiveClenshawCurtis.ofViews]
    simp only [hlog, ClenshawCurtis.getRule]
    rw [Nat.sub_add_cancel hl, if_pos (by omega), if_neg (by omega), if_neg (by omega), if_neg (by omega), if_neg (by omega), ep,
      Res.bind_ok, ew, Res.bind_ok, Res.pure_eq, Res.bind_ok, ep', Res.bind_ok, ew', Res.bind_ok, Res.pure_eq, Res.bind_ok,
      Res.pure_eq]

end MParT
