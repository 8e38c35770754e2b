import Verif.Lemmas.RootLocal
/-!
# Lemmas: the root finder on functions that are only close to an increasing one

The discretised component of an adaptive quadrature is neither increasing nor continuous. Two properties suffice for the search: the
function leaves the target at a rate `m` once it is more than `δ` away from `s`, and it is not flat over long stretches.
-/
namespace MParT
open RootFinding

/-- Within `W` of `s`, the function departs from the target `yd` at rate `m` from a distance `δ` on, and it is not flat. -/
structure CrossesNear (f : ℝ → ℝ) (yd s δ m W : ℝ) : Prop where
  right : ∀ x, |x - s| ≤ W → s ≤ x → m * (x - s - δ) ≤ f x - yd
  left : ∀ x, |x - s| ≤ W → x ≤ s → m * (s - x - δ) ≤ yd - f x
  steep : ∀ a b, |a - s| ≤ W → |b - s| ≤ W → 10 < b - a → 1e-12 * (b - a) ≤ f b - f a

section
variable {f : ℝ → ℝ} {yd s δ m W x0 : ℝ} (hc : CrossesNear f yd s δ m W) (hm : 0 < m) (hδ : 0 ≤ δ)
include hc

theorem CrossesNear.not_flat {a b : ℝ} (ha : |a - s| ≤ W) (hb : |b - s| ≤ W) : ¬ flat a (f a) b (f b) := by
  rintro ⟨h1, h2⟩
  have h := hc.steep a b ha hb h2
  have hp : 0 < b - a := by linarith
  rw [abs_lt, div_lt_iff₀ hp] at h1
  linarith [h1.2]

include hm hδ

theorem CrossesNear.le_of {x t : ℝ} (hx : |x - s| ≤ W) (ht : 0 ≤ t) (h : f x ≤ yd + t) : x ≤ s + δ + t / m := by
  have ht' : 0 ≤ t / m := div_nonneg ht hm.le
  rcases le_total x s with h' | h'
  · linarith
  · have h1 : m * (x - s - δ) ≤ t := by linarith [hc.right x hx h']
    have := (le_div_iff₀' hm).2 h1
    linarith

theorem CrossesNear.ge_of {x t : ℝ} (hx : |x - s| ≤ W) (ht : 0 ≤ t) (h : yd - t ≤ f x) : s - δ - t / m ≤ x := by
  have ht' : 0 ≤ t / m := div_nonneg ht hm.le
  rcases le_total s x with h' | h'
  · linarith
  · have h1 : m * (s - x - δ) ≤ t := by linarith [hc.left x hx h']
    have := (le_div_iff₀' hm).2 h1
    linarith

theorem CrossesNear.low {x : ℝ} (hx : |x - s| ≤ W) (h : f x ≤ yd) : x ≤ s + δ := by
  simpa using hc.le_of hm hδ hx le_rfl (by simpa using h)

theorem CrossesNear.high {x : ℝ} (hx : |x - s| ≤ W) (h : yd ≤ f x) : s - δ ≤ x := by
  simpa using hc.ge_of hm hδ hx le_rfl (by simpa using h)

/-- What the bracketing phase delivers. -/
structure Bracket.Good (f : ℝ → ℝ) (yd s δ W x0 : ℝ) (b : Bracket) : Prop where
  info : b.info = 0
  ylb : b.ylb = f b.xlb
  yub : b.yub = f b.xub
  below : b.ylb ≤ yd
  above : yd ≤ b.yub
  lt : b.xlb < b.xub
  nearL : |b.xlb - s| ≤ W
  nearU : |b.xub - s| ≤ W
  width : b.xub - b.xlb ≤ |s - x0| + δ + 1

theorem upLoop_near (hW : |s - x0| + 2 * δ + 1 ≤ W) (n : Nat) : ∀ xlb ylb xub yub step, step = xlb - x0 + 1 → x0 ≤ xlb →
    |xlb - s| ≤ W → ylb = f xlb → f xlb ≤ yd → s + δ < xlb + step * (2 ^ n - 1) →
    Bracket.Good f yd s δ W x0 (upLoop f yd xlb ylb xub yub step n) := by
  induction n with
  | zero =>
    intro xlb ylb xub yub step hs h0 hn hy hl hfar
    have := hc.low hm hδ hn hl
    norm_num at hfar
    linarith
  | succ n ih =>
    intro xlb ylb xub yub step hs h0 hn hy hl hfar
    have hA := le_abs_self (s - x0)
    have hlow := hc.low hm hδ hn hl
    obtain ⟨g1, g2⟩ := abs_le.1 hn
    have hu : |xlb + step - s| ≤ W := by rw [abs_le]; constructor <;> linarith
    simp only [upLoop]
    subst hy
    rw [if_neg (hc.not_flat hn hu)]
    by_cases c2 : f (xlb + step) < yd
    · simp only [if_pos c2]
      refine ih _ _ _ _ (step * 2) (by rw [hs]; ring) (by linarith) hu rfl c2.le ?_
      rw [pow_succ] at hfar
      nlinarith
    · simp only [if_neg c2]
      exact ⟨rfl, rfl, rfl, hl, not_lt.1 c2, by simp only; linarith, hn, hu, by simp only; linarith⟩

theorem downLoop_near (hW : |s - x0| + 2 * δ + 1 ≤ W) (n : Nat) : ∀ xlb ylb xub yub step, step = x0 - xub + 1 → xub ≤ x0 →
    |xub - s| ≤ W → yub = f xub → yd ≤ f xub → xub - step * (2 ^ n - 1) < s - δ →
    Bracket.Good f yd s δ W x0 (downLoop f yd xlb ylb xub yub step n) := by
  induction n with
  | zero =>
    intro xlb ylb xub yub step hs h0 hn hy hl hfar
    have := hc.high hm hδ hn hl
    norm_num at hfar
    linarith
  | succ n ih =>
    intro xlb ylb xub yub step hs h0 hn hy hl hfar
    have hA := neg_abs_le (s - x0)
    have hhigh := hc.high hm hδ hn hl
    obtain ⟨g1, g2⟩ := abs_le.1 hn
    have hu : |xub - step - s| ≤ W := by rw [abs_le]; constructor <;> linarith
    simp only [downLoop]
    subst hy
    rw [if_neg (hc.not_flat hu hn)]
    by_cases c2 : f (xub - step) > yd
    · simp only [if_pos c2]
      refine ih _ _ _ _ (step * 2) (by rw [hs]; ring) (by linarith) hu rfl c2.le ?_
      rw [pow_succ] at hfar
      nlinarith
    · simp only [if_neg c2]
      exact ⟨rfl, rfl, rfl, not_lt.1 c2, hl, by simp only; linarith, hu, hn, by simp only; linarith⟩

theorem findBracket_near (hW : |s - x0| + 2 * δ + 1 ≤ W) (hfar : |s - x0| + δ < 2 ^ 128 - 1) :
    Bracket.Good f yd s δ W x0 (findBracket f x0 x0 yd) := by
  have h0 : |x0 - s| ≤ W := by rw [abs_sub_comm]; linarith
  simp only [findBracket]
  by_cases h : f x0 > yd
  · rw [if_pos h]
    exact downLoop_near hc hm hδ hW 128 _ _ _ _ 1 (by ring) le_rfl h0 rfl h.le (by linarith [neg_abs_le (s - x0)])
  · rw [if_neg h]
    exact upLoop_near hc hm hδ hW 128 _ _ _ _ 1 (by ring) le_rfl h0 rfl (not_lt.1 h) (by linarith [le_abs_self (s - x0)])

theorem search_near (xtol ftol nhalf : ℝ) (hx : 0 < xtol) (n : Nat) :
    ∀ (xlb ylb xub yub : ℝ) (it : Nat), ylb = f xlb → yub = f xub → ylb ≤ yd → yd ≤ yub → |xlb - s| ≤ W → |xub - s| ≤ W → xlb ≤ xub →
      0.5 * (xub - xlb) ≤ xtol * (2 : ℝ) ^ (nhalf + 1 - it) → xtol * (2 : ℝ) ^ (nhalf + 1 - it) + δ ≤ W →
      match search f yd xtol ftol nhalf xlb ylb xub yub it n with
      | .early xc => |f xc - yd| < ftol ∧ |xc - s| ≤ W
      | .done xl xu it' => f xl ≤ yd ∧ yd ≤ f xu ∧ |xl - s| ≤ W ∧ |xu - s| ≤ W ∧ it ≤ it' ∧ it' ≤ it + n ∧
          (it' < it + n → xu - xl < xtol ∨ f xu - f xl < ftol) ∧ (it < it' → (it' : ℝ) ≤ nhalf + 2) := by
  induction n with
  | zero =>
    intro xlb ylb xub yub it hl hu h1 h2 w1 w2 h3 h4 h5
    rw [search]
    exact ⟨hl ▸ h1, hu ▸ h2, w1, w2, le_rfl, le_rfl, fun h => absurd h (by simp), fun h => absurd h (lt_irrefl _)⟩
  | succ n ih =>
    intro xlb ylb xub yub it hl hu h1 h2 w1 w2 h3 h4 h5
    have r1 : xlb ≤ s + δ := hc.low hm hδ w1 (hl ▸ h1)
    have r2 : s - δ ≤ xub := hc.high hm hδ w2 (hu ▸ h2)
    have hnear := findXItp_near xlb xub yd ylb yub 0.1 2 nhalf 1 it xtol h4
    rw [search]
    generalize findXItp xlb xub yd ylb yub 0.1 2 nhalf 1 it xtol = xc at hnear ⊢
    obtain ⟨n1, n2⟩ := abs_le.mp hnear
    set B : ℝ := xtol * (2 : ℝ) ^ (nhalf + 1 - it) with hB
    have hB0 : 0 < B := mul_pos hx (Real.rpow_pos_of_pos (by norm_num) _)
    have hhalf : xtol * (2 : ℝ) ^ (nhalf + 1 - ((it + 1 : Nat) : ℝ)) = B / 2 := by
      rw [hB, Nat.cast_add, Nat.cast_one, show nhalf + 1 - ((it : ℝ) + 1) = (nhalf + 1 - it) - 1 by ring,
        Real.rpow_sub_one (by norm_num)]
      ring
    have hcount : ∀ w, xtol ≤ w → w ≤ B → ((it + 1 : Nat) : ℝ) ≤ nhalf + 2 := by
      intro w hw hw'
      by_contra hlt
      push_cast at hlt
      have : (2 : ℝ) ^ (nhalf + 1 - it) < 1 := Real.rpow_lt_one_of_one_lt_of_neg (by norm_num) (by linarith)
      have : B < xtol := by rw [hB]; nlinarith
      linarith
    have hxc : |xc - s| ≤ W := by rw [abs_le]; constructor <;> linarith
    by_cases c1 : |f xc - yd| < ftol
    · simp only [if_pos c1]; exact ⟨c1, hxc⟩
    · simp only [if_neg c1]
      by_cases c2 : f xc > yd
      · simp only [if_pos c2]
        by_cases c3 : xc - xlb < xtol ∨ f xc - ylb < ftol
        · simp only [if_pos c3]
          exact ⟨hl ▸ h1, c2.le, w1, hxc, le_rfl, by omega, fun _ => hl ▸ c3, fun h => absurd h (lt_irrefl _)⟩
        · simp only [if_neg c3]
          rw [not_or, not_lt, not_lt] at c3
          have hI := ih xlb ylb xc (f xc) (it + 1) hl rfl h1 c2.le w1 hxc (by linarith) (by rw [hhalf]; linarith) (by rw [hhalf]; linarith)
          have hk := hcount _ c3.1 (by linarith)
          generalize search f yd xtol ftol nhalf xlb ylb xc (f xc) (it + 1) n = out at hI ⊢
          cases out with
          | early _ => exact hI
          | done xl xu it' =>
            obtain ⟨a1, a2, a3, a4, a5, a6, a7, a8⟩ := hI
            refine ⟨a1, a2, a3, a4, by omega, by omega, fun h => a7 (by omega), fun _ => ?_⟩
            rcases Nat.eq_or_lt_of_le a5 with h | h
            · rw [← h]; exact hk
            · exact a8 h
      · simp only [if_neg c2]
        by_cases c3 : xub - xc < xtol ∨ yub - f xc < ftol
        · simp only [if_pos c3]
          exact ⟨not_lt.1 c2, hu ▸ h2, hxc, w2, le_rfl, by omega, fun _ => hu ▸ c3, fun h => absurd h (lt_irrefl _)⟩
        · simp only [if_neg c3]
          rw [not_or, not_lt, not_lt] at c3
          have hI := ih xc (f xc) xub yub (it + 1) rfl hu (not_lt.1 c2) h2 hxc w2 (by linarith) (by rw [hhalf]; linarith) (by rw [hhalf]; linarith)
          have hk := hcount _ c3.1 (by linarith)
          generalize search f yd xtol ftol nhalf xc (f xc) xub yub (it + 1) n = out at hI ⊢
          cases out with
          | early _ => exact hI
          | done xl xu it' =>
            obtain ⟨a1, a2, a3, a4, a5, a6, a7, a8⟩ := hI
            refine ⟨a1, a2, a3, a4, by omega, by omega, fun h => a7 (by omega), fun _ => ?_⟩
            rcases Nat.eq_or_lt_of_le a5 with h | h
            · rw [← h]; exact hk
            · exact a8 h

/-- `InverseSingleBracket` on a function that need not be monotone or continuous: the search from `x0` succeeds, with a point within
`max (xtol/2) (ftol/m) + δ` of `s`. -/
theorem inverse_near (hW : 2 * |s - x0| + 3 * δ + 2 ≤ W) (hfar : |s - x0| + δ < 2 ^ 128 - 1) (xtol ftol : ℝ)
    (hx : (2 : ℝ) ^ (-1074 : ℤ) ≤ xtol) (hft : 0 ≤ ftol) :
    ∃ x, inverseSingleBracket yd f x0 xtol ftol = (some x, 0) ∧ |x - s| ≤ max (xtol / 2) (ftol / m) + δ := by
  have hx0 : 0 < xtol := lt_of_lt_of_le (by positivity) hx
  have hA : 0 ≤ |s - x0| := abs_nonneg _
  have hft' : 0 ≤ ftol / m := div_nonneg hft hm.le
  have m1 := le_max_left (xtol / 2) (ftol / m)
  have m2 := le_max_right (xtol / 2) (ftol / m)
  have hg := findBracket_near hc hm hδ (x0 := x0) (by linarith) hfar
  rw [inverseSingleBracket]
  set b := findBracket f x0 x0 yd with hb
  have hwidth : 0 < b.xub - b.xlb := by linarith [hg.lt]
  have hn : (nhalf b.xlb b.xub xtol : ℝ) = (⌈Real.logb 2 ((b.xub - b.xlb) / (2 * xtol))⌉ : ℝ) := by
    rw [nhalf, show 0.5 * (b.xub - b.xlb) / xtol = (b.xub - b.xlb) / (2 * xtol) by field_simp; ring]
  have hB : xtol * (2 : ℝ) ^ ((nhalf b.xlb b.xub xtol : ℝ) + 1 - ((0 : Nat) : ℝ)) + δ ≤ W := by
    have h1 : (2 : ℝ) ^ (nhalf b.xlb b.xub xtol : ℝ) ≤ 2 * ((b.xub - b.xlb) / (2 * xtol)) := by
      have hpos : 0 < (b.xub - b.xlb) / (2 * xtol) := by positivity
      calc (2 : ℝ) ^ (nhalf b.xlb b.xub xtol : ℝ) ≤ 2 ^ (Real.logb 2 ((b.xub - b.xlb) / (2 * xtol)) + 1) :=
            Real.rpow_le_rpow_of_exponent_le (by norm_num) (by rw [hn]; exact (Int.ceil_lt_add_one _).le)
        _ = 2 * ((b.xub - b.xlb) / (2 * xtol)) := by
            rw [Real.rpow_add_one (by norm_num), Real.rpow_logb (by norm_num) (by norm_num) hpos]
            ring
    rw [Nat.cast_zero, sub_zero, Real.rpow_add_one (by norm_num)]
    have h2 := mul_le_mul_of_nonneg_left h1 hx0.le
    have h3 : xtol * (2 * ((b.xub - b.xlb) / (2 * xtol))) = b.xub - b.xlb := by field_simp
    have := hg.width
    linarith
  have key := search_near hc hm hδ xtol ftol (nhalf b.xlb b.xub xtol) hx0 10000 b.xlb b.ylb b.xub b.yub 0 hg.ylb hg.yub hg.below hg.above
    hg.nearL hg.nearU hg.lt.le (nhalf_spec (b.xub - b.xlb) xtol hwidth hx0) hB
  have hnh := nhalf_le b.xlb b.xub xtol 1074 hg.lt (C35_bracket f x0 x0 yd hg.info).2.2.2.2.2.2.2 hx
  rw [if_neg (by
    rintro (h' | h' | h')
    · rw [hg.info] at h'; omega
    · linarith [hg.below]
    · linarith [hg.above])]
  generalize search f yd xtol ftol _ b.xlb b.ylb b.xub b.yub 0 10000 = out at key ⊢
  cases out with
  | early x =>
    obtain ⟨k1, k2⟩ := key
    rw [abs_lt] at k1
    have u1 := hc.le_of hm hδ k2 hft (by linarith [k1.2])
    have u2 := hc.ge_of hm hδ k2 hft (by linarith [k1.1])
    exact ⟨x, rfl, abs_le.2 ⟨by linarith, by linarith⟩⟩
  | done xl xu it =>
    obtain ⟨a1, a2, a3, a4, a5, a6, a7, a8⟩ := key
    have hit : it < 10000 := by
      rcases Nat.eq_zero_or_pos it with h | h
      · omega
      · have h8 : (it : ℝ) ≤ ((nhalf b.xlb b.xub xtol + 2 : ℤ) : ℝ) := by push_cast; exact a8 h
        have : (it : ℤ) ≤ nhalf b.xlb b.xub xtol + 2 := by exact_mod_cast h8
        omega
    have hlow := hc.low hm hδ a3 a1
    have hhigh := hc.high hm hδ a4 a2
    refine ⟨0.5 * (xu + xl), by rw [finish, if_neg (by omega)], ?_⟩
    rcases a7 (by omega) with h' | h'
    · rw [abs_le]; constructor <;> linarith
    · have u1 := hc.ge_of hm hδ a3 hft (by linarith)
      have u2 := hc.le_of hm hδ a4 hft (by linarith)
      rw [abs_le]; constructor <;> linarith
end
end MParT
