import Verif.Props.RootFinding
/-!
# C77: the root finder on functions that need not be increasing

The discretised components need not be increasing (C38), so the guarantees of C36 are not enough for them.
-/
namespace MParT.RootFinding
open Classical

/-- With target 0 the trial point is between the bounds. -/
theorem findXItp_inside {xlb xub ylb yub k1 k2 nhalf n0 : ℝ} {it : Nat} {xtol : ℝ} (yd : ℝ) (hk : 0 ≤ k1) (h1 : ylb ≤ 0) (h2 : 0 ≤ yub)
    (hy : ylb < yub) (hx : xlb ≤ xub) (h : 0.5 * (xub - xlb) ≤ xtol * (2 : ℝ) ^ (nhalf + n0 - it)) :
    xlb ≤ findXItp xlb xub yd ylb yub k1 k2 nhalf n0 it xtol ∧ findXItp xlb xub yd ylb yub k1 k2 nhalf n0 it xtol ≤ xub := by
  rw [findXItp]
  set xb := 0.5 * (xub + xlb) with hxb
  set xf := (xub * ylb - xlb * yub) / (ylb - yub) with hxf
  have hd : ylb - yub < 0 := by linarith
  have f1 : xlb ≤ xf := by rw [hxf, le_div_iff_of_neg hd]; nlinarith
  have f2 : xf ≤ xub := by rw [hxf, div_le_iff_of_neg hd]; nlinarith
  set delta := min (k1 * (xub - xlb) ^ k2) |xb - xf| with hdel
  have d0 : 0 ≤ delta := le_min (mul_nonneg hk (Real.rpow_nonneg (by linarith) _)) (abs_nonneg _)
  have d1 : delta ≤ |xb - xf| := min_le_right _ _
  by_cases c : xb - xf > 0
  · rw [if_pos c, mul_one, one_mul]
    rw [abs_of_pos c] at d1
    have e : |xf + delta - xb| = xb - xf - delta := by rw [abs_of_nonpos (by linarith)]; ring
    rw [e]
    have r0 : 0 ≤ min (xtol * (2 : ℝ) ^ (nhalf + n0 - it) - 0.5 * (xub - xlb)) (xb - xf - delta) := le_min (by linarith) (by linarith)
    have r1 := min_le_right (xtol * (2 : ℝ) ^ (nhalf + n0 - it) - 0.5 * (xub - xlb)) (xb - xf - delta)
    constructor <;> linarith
  · rw [if_neg c]
    rw [abs_of_nonpos (not_lt.mp c)] at d1
    have e : |xf + delta * -1 - xb| = xf - delta - xb := by rw [abs_of_nonneg (by linarith)]; ring
    rw [e]
    have r0 : 0 ≤ min (xtol * (2 : ℝ) ^ (nhalf + n0 - it) - 0.5 * (xub - xlb)) (xf - delta - xb) := le_min (by linarith) (by linarith)
    have r1 := min_le_right (xtol * (2 : ℝ) ^ (nhalf + n0 - it) - 0.5 * (xub - xlb)) (xf - delta - xb)
    constructor <;> linarith

theorem search_any (f : ℝ → ℝ) (xtol ftol nhalf : ℝ) (hx : 0 < xtol) (hft : 0 < ftol) (n : Nat) :
    ∀ (xlb ylb xub yub : ℝ) (it : Nat), ylb = f xlb → yub = f xub → ylb ≤ 0 → 0 ≤ yub → ylb < yub → xlb ≤ xub →
      0.5 * (xub - xlb) ≤ xtol * (2 : ℝ) ^ (nhalf + 1 - it) →
      match search f 0 xtol ftol nhalf xlb ylb xub yub it n with
      | .early xc => |f xc| < ftol ∧ xlb ≤ xc ∧ xc ≤ xub
      | .done xl xu it' => f xl ≤ 0 ∧ 0 ≤ f xu ∧ xl ≤ xu ∧ xlb ≤ xl ∧ xu ≤ xub ∧ it ≤ it' ∧ it' ≤ it + n ∧
          (it' < it + n → xu - xl < xtol) ∧ (it < it' → (it' : ℝ) ≤ nhalf + 2) := by
  induction n with
  | zero =>
    intro xlb ylb xub yub it hl hu h1 h2 hy h3 h4
    rw [search]
    exact ⟨hl ▸ h1, hu ▸ h2, h3, le_rfl, le_rfl, le_rfl, le_rfl, fun h => absurd h (by simp), fun h => absurd h (lt_irrefl _)⟩
  | succ n ih =>
    intro xlb ylb xub yub it hl hu h1 h2 hy h3 h4
    have hnear := findXItp_near xlb xub 0 ylb yub 0.1 2 nhalf 1 it xtol h4
    have hin := findXItp_inside (k1 := 0.1) (k2 := 2) 0 (by norm_num) h1 h2 hy h3 h4
    rw [search]
    generalize findXItp xlb xub 0 ylb yub 0.1 2 nhalf 1 it xtol = xc at hnear hin ⊢
    obtain ⟨n1, n2⟩ := abs_le.mp hnear
    obtain ⟨i1, i2⟩ := hin
    set B : ℝ := xtol * (2 : ℝ) ^ (nhalf + 1 - it) with hB
    have hB0 : 0 < B := mul_pos hx (Real.rpow_pos_of_pos (by norm_num) _)
    have hhalf : xtol * (2 : ℝ) ^ (nhalf + 1 - ((it + 1 : Nat) : ℝ)) = B / 2 := by
      rw [hB, Nat.cast_add, Nat.cast_one, show nhalf + 1 - ((it : ℝ) + 1) = (nhalf + 1 - it) - 1 by ring,
        Real.rpow_sub_one (by norm_num)]
      ring
    have hcount : ∀ w, xtol ≤ w → w ≤ B → ((it + 1 : Nat) : ℝ) ≤ nhalf + 2 := by
      intro w hw hw'
      by_contra hlt
      push_cast at hlt
      have : (2 : ℝ) ^ (nhalf + 1 - it) < 1 := Real.rpow_lt_one_of_one_lt_of_neg (by norm_num) (by linarith)
      have : B < xtol := by rw [hB]; nlinarith
      linarith
    simp only [sub_zero]
    by_cases c1 : |f xc| < ftol
    · rw [if_pos c1]; exact ⟨c1, i1, i2⟩
    · rw [if_neg c1]
      by_cases c2 : f xc > 0
      · rw [if_pos c2]
        rw [abs_of_pos c2] at c1
        have hw : xc - xlb ≤ B := by linarith
        by_cases c3 : xc - xlb < xtol ∨ f xc - ylb < ftol
        · rw [if_pos c3]
          exact ⟨hl ▸ h1, c2.le, i1, le_rfl, i2, le_rfl, by omega, fun _ => c3.resolve_right (by linarith), fun h => absurd h (lt_irrefl _)⟩
        · rw [if_neg c3]
          have hI := ih xlb ylb xc (f xc) (it + 1) hl rfl h1 c2.le (by linarith) i1 (by rw [hhalf]; linarith)
          generalize search f 0 xtol ftol nhalf xlb ylb xc (f xc) (it + 1) n = out at hI ⊢
          cases out with
          | early x => exact ⟨hI.1, hI.2.1, hI.2.2.trans i2⟩
          | done xl xu it' =>
            obtain ⟨a1, a2, a3, a3', a3'', a4, a5, a7, a8⟩ := hI
            refine ⟨a1, a2, a3, a3', a3''.trans i2, by omega, by omega, fun h => a7 (by omega), fun _ => ?_⟩
            rcases Nat.eq_or_lt_of_le a4 with h | h
            · rw [← h]; exact hcount _ (not_lt.mp fun hh => c3 (Or.inl hh)) hw
            · exact a8 h
      · rw [if_neg c2]
        rw [abs_of_nonpos (not_lt.mp c2)] at c1
        have hw : xub - xc ≤ B := by linarith
        by_cases c3 : xub - xc < xtol ∨ yub - f xc < ftol
        · rw [if_pos c3]
          exact ⟨not_lt.mp c2, hu ▸ h2, i2, i1, le_rfl, le_rfl, by omega, fun _ => c3.resolve_right (by linarith),
            fun h => absurd h (lt_irrefl _)⟩
        · rw [if_neg c3]
          have hI := ih xc (f xc) xub yub (it + 1) rfl hu (not_lt.mp c2) h2 (by linarith) i2 (by rw [hhalf]; linarith)
          generalize search f 0 xtol ftol nhalf xc (f xc) xub yub (it + 1) n = out at hI ⊢
          cases out with
          | early x => exact ⟨hI.1, i1.trans hI.2.1, hI.2.2⟩
          | done xl xu it' =>
            obtain ⟨a1, a2, a3, a3', a3'', a4, a5, a7, a8⟩ := hI
            refine ⟨a1, a2, a3, i1.trans a3', a3'', by omega, by omega, fun h => a7 (by omega), fun _ => ?_⟩
            rcases Nat.eq_or_lt_of_le a4 with h | h
            · rw [← h]; exact hcount _ (not_lt.mp fun hh => c3 (Or.inl hh)) hw
            · exact a8 h

/-- Every bracket whose values are not both the target: the values differ. -/
theorem bracket_strict (f : ℝ → ℝ) (x0 yd : ℝ) (h : (findBracket f x0 x0 yd).info = 0) (h0 : f x0 ≠ yd) :
    (findBracket f x0 x0 yd).ylb < (findBracket f x0 x0 yd).yub := by
  have down : ∀ n xlb ylb xub yub step, yd < yub → (downLoop f yd xlb ylb xub yub step n).info = 0 →
      (downLoop f yd xlb ylb xub yub step n).ylb < (downLoop f yd xlb ylb xub yub step n).yub := by
    intro n
    induction n with
    | zero => intro xlb ylb xub yub step _ h; simp [downLoop] at h
    | succ n ih =>
      intro xlb ylb xub yub step hd h
      rw [downLoop] at h ⊢
      split at h
      · simp at h
      · rename_i c
        rw [if_neg c]
        split at h
        · rename_i c2; rw [if_pos c2]; exact ih _ _ _ _ _ c2 h
        · rename_i c2; rw [if_neg c2]; exact lt_of_le_of_lt (not_lt.mp c2) hd
  have up : ∀ n xlb ylb xub yub step, ylb < yd → (upLoop f yd xlb ylb xub yub step n).info = 0 →
      (upLoop f yd xlb ylb xub yub step n).ylb < (upLoop f yd xlb ylb xub yub step n).yub := by
    intro n
    induction n with
    | zero => intro xlb ylb xub yub step _ h; simp [upLoop] at h
    | succ n ih =>
      intro xlb ylb xub yub step hd h
      rw [upLoop] at h ⊢
      split at h
      · simp at h
      · rename_i c
        rw [if_neg c]
        split at h
        · rename_i c2; rw [if_pos c2]; exact ih _ _ _ _ _ c2 h
        · rename_i c2; rw [if_neg c2]; exact lt_of_lt_of_le hd (not_lt.mp c2)
  rw [findBracket] at h ⊢
  by_cases c : f x0 > yd
  · rw [if_pos c] at h ⊢; exact down _ _ _ _ _ _ c h
  · rw [if_neg c] at h ⊢; exact up _ _ _ _ _ _ (lt_of_le_of_ne (not_lt.mp c) h0) h

/-- **C77** for target 0. For every function whatsoever that is not zero at the starting point, every `ftol > 0` and
`xtol ≥ 2^(-1074)`: the call reports failure, or returns a point whose value is within `ftol` of zero, or the middle of an interval
shorter than `xtol` on which the function changes sign. -/
theorem C77_zero_partial (f : ℝ → ℝ) (x0 xtol ftol : ℝ) (hx : (2 : ℝ) ^ (-1074 : ℤ) ≤ xtol) (hft : 0 < ftol) (h0 : f x0 ≠ 0) :
    ((findBracket f x0 x0 0).info ≠ 0 → inverseSingleBracket 0 f x0 xtol ftol = (none, -2)) ∧
    ((findBracket f x0 x0 0).info = 0 → ∃ x, inverseSingleBracket 0 f x0 xtol ftol = (some x, 0) ∧
      (|f x| < ftol ∨ ∃ xl xu, xl ≤ x ∧ x ≤ xu ∧ xu - xl < xtol ∧ x = (xl + xu) / 2 ∧ f xl ≤ 0 ∧ 0 ≤ f xu)) := by
  have hx0 : 0 < xtol := lt_of_lt_of_le (by positivity) hx
  have hst := C35_status f x0 x0 0
  constructor
  · intro h
    rw [inverseSingleBracket]
    rw [if_pos (Or.inl (by rcases hst with h' | h' | h' <;> omega))]
  · intro h
    obtain ⟨b1, b2, b3, b4, b5, _, _, b8⟩ := C35_bracket f x0 x0 0 h
    have b9 := bracket_strict f x0 0 h h0
    rw [inverseSingleBracket]
    rw [if_neg (by
      rintro (h' | h' | h')
      · omega
      · linarith
      · linarith)]
    generalize findBracket f x0 x0 0 = b at *
    have hs := search_any f xtol ftol (nhalf b.xlb b.xub xtol) hx0 hft 10000 b.xlb b.ylb b.xub b.yub 0 b2 b3 b4 b5 b9 b1.le
      (nhalf_spec _ _ (by linarith) hx0)
    have hnh := nhalf_le b.xlb b.xub xtol 1074 b1 b8 hx
    generalize search f 0 xtol ftol _ b.xlb b.ylb b.xub b.yub 0 10000 = out at hs ⊢
    cases out with
    | early x => exact ⟨x, rfl, Or.inl hs.1⟩
    | done xl xu it =>
      obtain ⟨a1, a2, a3, _, _, a4, a5, a6, a7⟩ := hs
      have hit : it < 10000 := by
        rcases Nat.eq_zero_or_pos it with h | h
        · omega
        · have h1 := a7 h
          have h2 : ((nhalf b.xlb b.xub xtol : ℤ) : ℝ) ≤ 127 + 1074 := by exact_mod_cast hnh
          have h3 : (it : ℝ) < 10000 := by linarith
          exact_mod_cast h3
      exact ⟨0.5 * (xu + xl), by rw [finish, if_neg (by omega)],
        Or.inr ⟨xl, xu, by linarith, by linarith, a6 (by omega), by ring, a1, a2⟩⟩

/-- **C77** in terms of the roots: if the function is continuous, the point returned is within `xtol/2` of a root, or its value is within
`ftol` of zero. -/
theorem C77_zero_root (f : ℝ → ℝ) (hc : Continuous f) (x0 xtol ftol x : ℝ) (hx : (2 : ℝ) ^ (-1074 : ℤ) ≤ xtol) (hft : 0 < ftol)
    (h0 : f x0 ≠ 0) {info : Int} (h : inverseSingleBracket 0 f x0 xtol ftol = (some x, info)) :
    |f x| < ftol ∨ ∃ r, f r = 0 ∧ |x - r| < xtol / 2 := by
  obtain ⟨h1, h2⟩ := C77_zero_partial f x0 xtol ftol hx hft h0
  by_cases c : (findBracket f x0 x0 0).info = 0
  · obtain ⟨x', e, h3⟩ := h2 c
    rw [e] at h
    obtain rfl : x' = x := by simpa using congrArg Prod.fst h
    refine h3.imp id ?_
    rintro ⟨xl, xu, l1, l2, l3, l4, l5, l6⟩
    obtain ⟨r, ⟨r1, r2⟩, hr⟩ := intermediate_value_Icc (f := f) (l1.trans l2) hc.continuousOn ⟨l5, l6⟩
    refine ⟨r, hr, ?_⟩
    rw [abs_lt, l4]
    constructor <;> linarith
  · rw [h1 c] at h; simp at h

/-- A function that is not increasing, with three roots. -/
example : ∃ x info, inverseSingleBracket 0 (fun x => x ^ 3 - 4 * x + 1) 0 1e-6 1e-6 = (some x, info) := by
  have hb : (findBracket (fun x : ℝ => x ^ 3 - 4 * x + 1) 0 0 0).info = 0 := by
    rw [findBracket]
    rw [if_pos (by norm_num), downLoop, if_neg (by unfold flat; norm_num), if_pos (by norm_num), downLoop,
      if_neg (by unfold flat; norm_num), if_neg (by norm_num)]
  obtain ⟨x, e, _⟩ := (C77_zero_partial (fun x => x ^ 3 - 4 * x + 1) 0 1e-6 1e-6
    (le_trans (zpow_le_zpow_right₀ (by norm_num) (by norm_num : (-1074 : ℤ) ≤ -20)) (by norm_num)) (by norm_num) (by norm_num)).2 hb
  exact ⟨x, _, e⟩

/-- The function of the counterexample: it increases with slope 1/5 to the right of zero and decreases to the left. -/
noncomputable def bent (x : ℝ) : ℝ := if 0 ≤ x then 1 + (x - 1 / 2) / 5 else 9 / 10 - 100 * x

/-- **C77** fails for other targets: the trial point is computed as if the target were zero, and may leave the bracket.  With target 1
and start 0 the continuous function `bent` has the bracket [0, 1]; the first trial point is -1/3, and the call returns -1/6 with success,
although the value there is off by more than 16 and every root is farther than 1/7. -/
theorem C77_fails_target (k : Nat) (ftol : ℝ) (h2 : ftol ≤ 1) :
    inverseSingleBracket 1 bent 0 (1 / (6 * 2 ^ k)) ftol = (some (-1 / 6), 0) ∧ Continuous bent ∧
    16 < |bent (-1 / 6) - 1| ∧ ∀ r, bent r = 1 → 1 / 7 < |(-1 / 6) - r| := by
  have hc : Continuous bent := by
    refine Continuous.if_le (by fun_prop) (by fun_prop) continuous_const continuous_id fun x hx => ?_
    rw [← hx]; norm_num
  have b0 : bent 0 = 9 / 10 := by rw [bent, if_pos le_rfl]; norm_num
  have b1 : bent 1 = 11 / 10 := by rw [bent, if_pos (by norm_num)]; norm_num
  have b2 : bent (-1 / 3) = 9 / 10 + 100 / 3 := by rw [bent, if_neg (by norm_num)]; norm_num
  have b3 : bent (-1 / 6) = 9 / 10 + 100 / 6 := by rw [bent, if_neg (by norm_num)]; norm_num
  have hb : findBracket bent 0 0 1 = ⟨0, 9 / 10, 1, 11 / 10, 0⟩ := by
    rw [findBracket]
    simp only [b0]
    rw [if_neg (by norm_num), upLoop]
    simp only [zero_add, b1]
    rw [if_neg (by unfold flat; norm_num), if_neg (by norm_num)]
  have hn : nhalf 0 1 (1 / (6 * 2 ^ k)) = k + 2 := by
    have e : (0.5 : ℝ) * (1 - 0) / (1 / (6 * 2 ^ k)) = 3 * 2 ^ k := by field_simp; norm_num
    rw [nhalf, e, Int.ceil_eq_iff]
    have hp : (0 : ℝ) < 3 * 2 ^ k := by positivity
    have e1 : ((k + 2 : ℤ) : ℝ) - 1 = ((k + 1 : ℕ) : ℝ) := by push_cast; ring
    have e2 : ((k + 2 : ℤ) : ℝ) = ((k + 2 : ℕ) : ℝ) := by push_cast; ring
    rw [e1, e2, Real.lt_logb_iff_rpow_lt (by norm_num) hp, Real.logb_le_iff_le_rpow (by norm_num) hp, Real.rpow_natCast,
      Real.rpow_natCast, pow_succ, pow_add]
    have : (0 : ℝ) < 2 ^ k := by positivity
    constructor <;> linarith
  have hi : findXItp 0 1 1 (9 / 10) (11 / 10) 0.1 2 ((k + 2 : ℤ) : ℝ) 1 0 (1 / (6 * 2 ^ k)) = -1 / 3 := by
    have e : (1 / (6 * 2 ^ k) : ℝ) * 2 ^ (((k + 2 : ℤ) : ℝ) + 1 - ((0 : ℕ) : ℝ)) = 4 / 3 := by
      rw [show ((k + 2 : ℤ) : ℝ) + 1 - ((0 : ℕ) : ℝ) = ((k + 3 : ℕ) : ℝ) by push_cast; ring, Real.rpow_natCast, pow_add]
      field_simp
      norm_num
    rw [findXItp]
    simp only [e]
    norm_num [abs_of_pos, abs_of_neg, min_def]
  refine ⟨?_, hc, ?_, fun r hr => ?_⟩
  · rw [inverseSingleBracket]
    simp only [hb]
    rw [if_neg (by norm_num), hn, search]
    simp only [hi, b2]
    have hp : (0 : ℝ) < 1 / (6 * 2 ^ k) := by positivity
    rw [if_neg (by rw [not_lt]; refine h2.trans ?_; norm_num [abs_of_pos]), if_pos (by norm_num), if_pos (Or.inl (by linarith)), finish]
    norm_num
  · rw [b3]; norm_num [abs_of_pos]
  · rw [bent] at hr
    split at hr
    · have : r = 1 / 2 := by linarith
      rw [this]; norm_num [abs_of_neg]
    · have : r = -1 / 1000 := by linarith
      rw [this]; norm_num [abs_of_neg]

end MParT.RootFinding
