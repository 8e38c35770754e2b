import Verif.Props.RootFinding
/-!
# Lemmas: the root finder on functions that are increasing near the root only
-/
namespace MParT
open RootFinding

/-- The function that continues `f` beyond `[a,b]` with slope one. -/
noncomputable def lineExt (f : ℝ → ℝ) (a b x : ℝ) : ℝ := f (max a (min b x)) + (x - max a (min b x))

theorem lineExt_eq (f : ℝ → ℝ) {a b x : ℝ} (h1 : a ≤ x) (h2 : x ≤ b) : lineExt f a b x = f x := by
  simp [lineExt, h1, h2]

theorem lineExt_steep {f : ℝ → ℝ} {a b s : ℝ} (hab : a ≤ b) (hs : s ≤ 1)
    (hf : ∀ x y, a ≤ x → x ≤ y → y ≤ b → s * (y - x) ≤ f y - f x) {x y : ℝ} (hxy : x ≤ y) :
    s * (y - x) ≤ lineExt f a b y - lineExt f a b x := by
  have hx1 : a ≤ max a (min b x) := le_max_left _ _
  have hy2 : max a (min b y) ≤ b := max_le hab (min_le_left _ _)
  have hc : max a (min b x) ≤ max a (min b y) := max_le_max le_rfl (min_le_min le_rfl hxy)
  have h1 := hf _ _ hx1 hc hy2
  have h2 : max a (min b y) - max a (min b x) ≤ y - x := by
    rcases le_total a (min b x) with h | h
    · rw [max_eq_right h, max_eq_right (h.trans (min_le_min le_rfl hxy))]
      rcases le_total b x with h3 | h3
      · rw [min_eq_left h3, min_eq_left (h3.trans hxy)]; linarith
      · rw [min_eq_right h3]; linarith [min_le_right b y]
    · rw [max_eq_left h]
      rcases le_total a (min b y) with h3 | h3
      · rw [max_eq_right h3]
        rcases le_total b x with h4 | h4
        · rw [min_eq_left h4] at h; linarith [min_le_left b y]
        · rw [min_eq_right h4] at h; linarith [min_le_right b y]
      · rw [max_eq_left h3]; linarith
  simp only [lineExt]
  nlinarith

theorem lineExt_strictMono {f : ℝ → ℝ} {a b s : ℝ} (hab : a ≤ b) (h0 : 0 < s) (hs : s ≤ 1)
    (hf : ∀ x y, a ≤ x → x ≤ y → y ≤ b → s * (y - x) ≤ f y - f x) : StrictMono (lineExt f a b) := by
  intro x y hxy
  have := lineExt_steep hab hs hf hxy.le
  have := mul_pos h0 (sub_pos.2 hxy)
  linarith

/-- The searches for the upper bound of two functions that agree wherever it looks. -/
theorem upLoop_congr {f F : ℝ → ℝ} (hF : StrictMono F) {yd r x0 : ℝ} (hr : F r = yd) {W : ℝ} (hW : |r - x0| + 1 ≤ W)
    (hag : ∀ x, |x - r| ≤ W → f x = F x) (n : Nat) : ∀ xlb ylb xub yub step, step = xlb - x0 + 1 → x0 ≤ xlb → xlb ≤ r →
      upLoop f yd xlb ylb xub yub step n = upLoop F yd xlb ylb xub yub step n ∧
      ((upLoop F yd xlb ylb xub yub step n).info = 0 →
        (upLoop F yd xlb ylb xub yub step n).xub - (upLoop F yd xlb ylb xub yub step n).xlb ≤ |r - x0| + 1) := by
  induction n with
  | zero => intros; exact ⟨rfl, fun h => by simp [upLoop] at h⟩
  | succ n ih =>
    intro xlb ylb xub yub step hs h0 hl
    have habs : |r - x0| = r - x0 := abs_of_nonneg (by linarith)
    have he : f (xlb + step) = F (xlb + step) := hag _ (by
      rw [habs] at hW
      rw [abs_le]; constructor <;> linarith)
    simp only [upLoop]
    by_cases c1 : flat xlb ylb (xlb + step) (F (xlb + step))
    · have c1' := c1
      rw [← he] at c1'
      simp only [if_pos c1, if_pos c1', he]
      exact ⟨trivial, fun h => by simp at h⟩
    · have c1' := c1
      rw [← he] at c1'
      simp only [if_neg c1, if_neg c1', he]
      by_cases c2 : F (xlb + step) < yd
      · simp only [if_pos c2]
        exact ih _ _ _ _ (step * 2) (by rw [hs]; ring) (by linarith) (hF.lt_iff_lt.1 (hr ▸ c2)).le
      · simp only [if_neg c2]
        exact ⟨trivial, fun _ => by rw [habs]; linarith⟩

theorem downLoop_congr {f F : ℝ → ℝ} (hF : StrictMono F) {yd r x0 : ℝ} (hr : F r = yd) {W : ℝ} (hW : |r - x0| + 1 ≤ W)
    (hag : ∀ x, |x - r| ≤ W → f x = F x) (n : Nat) : ∀ xlb ylb xub yub step, step = x0 - xub + 1 → xub ≤ x0 → r ≤ xub →
      downLoop f yd xlb ylb xub yub step n = downLoop F yd xlb ylb xub yub step n ∧
      ((downLoop F yd xlb ylb xub yub step n).info = 0 →
        (downLoop F yd xlb ylb xub yub step n).xub - (downLoop F yd xlb ylb xub yub step n).xlb ≤ |r - x0| + 1) := by
  induction n with
  | zero => intros; exact ⟨rfl, fun h => by simp [downLoop] at h⟩
  | succ n ih =>
    intro xlb ylb xub yub step hs h0 hl
    have habs : |r - x0| = x0 - r := by rw [abs_of_nonpos (by linarith)]; ring
    have he : f (xub - step) = F (xub - step) := hag _ (by
      rw [habs] at hW
      rw [abs_le]; constructor <;> linarith)
    simp only [downLoop]
    by_cases c1 : flat (xub - step) (F (xub - step)) xub yub
    · have c1' := c1
      rw [← he] at c1'
      simp only [if_pos c1, if_pos c1', he]
      exact ⟨trivial, fun h => by simp at h⟩
    · have c1' := c1
      rw [← he] at c1'
      simp only [if_neg c1, if_neg c1', he]
      by_cases c2 : F (xub - step) > yd
      · simp only [if_pos c2]
        exact ih _ _ _ _ (step * 2) (by rw [hs]; ring) (by linarith) (hF.lt_iff_lt.1 (by rw [hr]; exact c2)).le
      · simp only [if_neg c2]
        exact ⟨trivial, fun _ => by rw [habs]; linarith⟩

theorem findBracket_congr {f F : ℝ → ℝ} (hF : StrictMono F) {yd r x0 : ℝ} (hr : F r = yd) {W : ℝ} (hW : |r - x0| + 1 ≤ W)
    (hag : ∀ x, |x - r| ≤ W → f x = F x) : findBracket f x0 x0 yd = findBracket F x0 x0 yd ∧
      ((findBracket F x0 x0 yd).info = 0 →
        (findBracket F x0 x0 yd).xub - (findBracket F x0 x0 yd).xlb ≤ |r - x0| + 1) := by
  have he : f x0 = F x0 := hag _ (by rw [abs_sub_comm]; linarith)
  simp only [findBracket, he]
  by_cases h : F x0 > yd
  · simp only [if_pos h]
    exact downLoop_congr hF hr hW hag 128 _ _ _ _ 1 (by ring) le_rfl (hF.lt_iff_lt.1 (by rw [hr]; exact h)).le
  · simp only [if_neg h]
    exact upLoop_congr hF hr hW hag 128 _ _ _ _ 1 (by ring) le_rfl (hF.le_iff_le.1 (by rw [hr]; exact not_lt.1 h))

theorem search_congr {f F : ℝ → ℝ} (hF : StrictMono F) {yd r : ℝ} (hr : F r = yd) {W : ℝ} (xtol ftol nhalf : ℝ) (hx : 0 < xtol)
    (hag : ∀ x, |x - r| ≤ W → f x = F x) (n : Nat) :
    ∀ (xlb ylb xub yub : ℝ) (it : Nat), ylb = F xlb → yub = F xub → ylb ≤ yd → yd ≤ yub →
      0.5 * (xub - xlb) ≤ xtol * (2 : ℝ) ^ (nhalf + 1 - it) → xtol * (2 : ℝ) ^ (nhalf + 1 - it) ≤ W →
      search f yd xtol ftol nhalf xlb ylb xub yub it n = search F yd xtol ftol nhalf xlb ylb xub yub it n ∧
      match search F yd xtol ftol nhalf xlb ylb xub yub it n with
      | .early xc => |xc - r| ≤ W
      | .done xl xu _ => xl ≤ r ∧ r ≤ xu := by
  induction n with
  | zero =>
    intro xlb ylb xub yub it hl hu h1 h2 h3 h4
    simp only [search]
    exact ⟨trivial, hF.le_iff_le.1 (by rw [← hl, hr]; exact h1), hF.le_iff_le.1 (by rw [← hu, hr]; exact h2)⟩
  | succ n ih =>
    intro xlb ylb xub yub it hl hu h1 h2 h3 h4
    have r1 : xlb ≤ r := hF.le_iff_le.1 (by rw [← hl, hr]; exact h1)
    have r2 : r ≤ xub := hF.le_iff_le.1 (by rw [← hu, hr]; exact h2)
    have hnear := findXItp_near xlb xub yd ylb yub 0.1 2 nhalf 1 it xtol h3
    simp only [search]
    generalize findXItp xlb xub yd ylb yub 0.1 2 nhalf 1 it xtol = xc at hnear ⊢
    obtain ⟨n1, n2⟩ := abs_le.mp hnear
    set B : ℝ := xtol * (2 : ℝ) ^ (nhalf + 1 - it) with hB
    have hB0 : 0 < B := mul_pos hx (Real.rpow_pos_of_pos (by norm_num) _)
    have hhalf : xtol * (2 : ℝ) ^ (nhalf + 1 - ((it + 1 : Nat) : ℝ)) = B / 2 := by
      rw [hB, Nat.cast_add, Nat.cast_one, show nhalf + 1 - ((it : ℝ) + 1) = (nhalf + 1 - it) - 1 by ring,
        Real.rpow_sub_one (by norm_num)]
      ring
    have hxc : |xc - r| ≤ W := by rw [abs_le]; constructor <;> linarith
    have he : f xc = F xc := hag _ hxc
    simp only [he]
    by_cases c1 : |F xc - yd| < ftol
    · simp only [if_pos c1]; exact ⟨trivial, hxc⟩
    · simp only [if_neg c1]
      by_cases c2 : F xc > yd
      · simp only [if_pos c2]
        have hlt : r < xc := hF.lt_iff_lt.mp (by rw [hr]; exact c2)
        by_cases c3 : xc - xlb < xtol ∨ F xc - ylb < ftol
        · simp only [if_pos c3]; exact ⟨trivial, r1, hlt.le⟩
        · simp only [if_neg c3]
          exact ih xlb ylb xc (F xc) (it + 1) hl rfl h1 c2.le (by rw [hhalf]; linarith) (by rw [hhalf]; linarith)
      · simp only [if_neg c2]
        have hlt : xc ≤ r := hF.le_iff_le.mp (by rw [hr]; exact not_lt.1 c2)
        by_cases c3 : xub - xc < xtol ∨ yub - F xc < ftol
        · simp only [if_pos c3]; exact ⟨trivial, hlt, r2⟩
        · simp only [if_neg c3]
          exact ih xc (F xc) xub yub (it + 1) rfl hu (not_lt.mp c2) h2 (by rw [hhalf]; linarith) (by rw [hhalf]; linarith)

/-- `InverseSingleBracket` looks at the function only near the root: if `f` has the root `r`, and slope at least `s ≥ 1e-12` within
`2 (|r - x0| + 1)` of it, then the search from `x0` succeeds with a point there, whatever `f` is elsewhere. -/
theorem inverse_local {f : ℝ → ℝ} {yd r x0 s : ℝ} (hr : f r = yd) (hs : 1e-12 ≤ s) (hfar : |r - x0| ≤ 2 ^ 128 - 1)
    (hf : ∀ x y, r - 2 * (|r - x0| + 1) ≤ x → x ≤ y → y ≤ r + 2 * (|r - x0| + 1) → s * (y - x) ≤ f y - f x)
    (xtol ftol : ℝ) (hx : (2 : ℝ) ^ (-1074 : ℤ) ≤ xtol) :
    ∃ x, inverseSingleBracket yd f x0 xtol ftol = (some x, 0) ∧
      (|f x - yd| < ftol ∧ |x - r| ≤ 2 * (|r - x0| + 1) ∨ |x - r| < xtol / 2) := by
  have hx0 : 0 < xtol := lt_of_lt_of_le (by positivity) hx
  set W := 2 * (|r - x0| + 1) with hW
  have hA : 0 ≤ |r - x0| := abs_nonneg _
  set s' := min s 1 with hs'
  have hs0 : (1e-12 : ℝ) ≤ s' := le_min hs (by norm_num)
  have hf' : ∀ x y, r - W ≤ x → x ≤ y → y ≤ r + W → s' * (y - x) ≤ f y - f x := fun x y h1 h2 h3 =>
    (mul_le_mul_of_nonneg_right (min_le_left _ _) (by linarith)).trans (hf x y h1 h2 h3)
  set F := lineExt f (r - W) (r + W) with hFdef
  have hab : r - W ≤ r + W := by linarith
  have hF : StrictMono F := lineExt_strictMono hab (lt_of_lt_of_le (by norm_num) hs0) (min_le_right _ _) hf'
  have hag : ∀ x, |x - r| ≤ W → f x = F x := fun x h => by
    rw [abs_le] at h
    exact (lineExt_eq f (by linarith) (by linarith)).symm
  have hFr : F r = yd := by rw [← hag r (by simp; linarith), hr]
  have hsteep : ∀ a b, 10 < b - a → 1e-12 * (b - a) ≤ F b - F a := fun a b h =>
    (mul_le_mul_of_nonneg_right hs0 (by linarith)).trans (lineExt_steep hab (min_le_right _ _) hf' (by linarith))
  have hfr := abs_le.1 hfar
  have hsucc := C35_succeeds F hsteep x0 x0 yd (by rw [← hFr]; exact hF.monotone (by linarith)) (by rw [← hFr]; exact hF.monotone (by linarith))
  obtain ⟨e1, hw⟩ := findBracket_congr hF hFr (W := W) (by linarith) hag
  have hw := hw hsucc
  obtain ⟨b1, b2, b3, b4, b5, -, -, b8⟩ := C35_bracket F x0 x0 yd hsucc
  set b := findBracket F x0 x0 yd with hb
  have hwidth : 0 < b.xub - b.xlb := by linarith
  have hn : (nhalf b.xlb b.xub xtol : ℝ) = (⌈Real.logb 2 ((b.xub - b.xlb) / (2 * xtol))⌉ : ℝ) := by
    rw [nhalf, show 0.5 * (b.xub - b.xlb) / xtol = (b.xub - b.xlb) / (2 * xtol) by field_simp; ring]
  have hB : xtol * (2 : ℝ) ^ ((nhalf b.xlb b.xub xtol : ℝ) + 1 - ((0 : Nat) : ℝ)) ≤ W := by
    have h1 : (2 : ℝ) ^ (nhalf b.xlb b.xub xtol : ℝ) ≤ 2 * ((b.xub - b.xlb) / (2 * xtol)) := by
      have hpos : 0 < (b.xub - b.xlb) / (2 * xtol) := by positivity
      calc (2 : ℝ) ^ (nhalf b.xlb b.xub xtol : ℝ) ≤ 2 ^ (Real.logb 2 ((b.xub - b.xlb) / (2 * xtol)) + 1) :=
            Real.rpow_le_rpow_of_exponent_le (by norm_num) (by rw [hn]; exact (Int.ceil_lt_add_one _).le)
        _ = 2 * ((b.xub - b.xlb) / (2 * xtol)) := by
            rw [Real.rpow_add_one (by norm_num), Real.rpow_logb (by norm_num) (by norm_num) hpos]
            ring
    rw [Nat.cast_zero, sub_zero, Real.rpow_add_one (by norm_num)]
    have h2 := mul_le_mul_of_nonneg_left h1 hx0.le
    have h3 : xtol * (2 * ((b.xub - b.xlb) / (2 * xtol))) = b.xub - b.xlb := by field_simp
    linarith
  have key := search_congr hF hFr xtol ftol (nhalf b.xlb b.xub xtol) hx0 hag 10000 b.xlb b.ylb b.xub b.yub 0 b2 b3 b4 b5
    (nhalf_spec (b.xub - b.xlb) xtol hwidth hx0) hB
  have hsp := C36_search F hF yd xtol ftol hx0 b.xlb b.xub (b2 ▸ b4) (b3 ▸ b5) b1 10000
  rw [← b2, ← b3] at hsp
  have hnh := nhalf_le b.xlb b.xub xtol 1074 b1 b8 hx
  rw [inverseSingleBracket, e1]
  rw [if_neg (by
    rintro (h' | h' | h')
    · rw [hsucc] at h'; omega
    · linarith
    · linarith), key.1]
  have key2 := key.2
  generalize search F yd xtol ftol _ b.xlb b.ylb b.xub b.yub 0 10000 = out at hsp key2 ⊢
  rw [← hn] at hsp
  cases out with
  | early x => exact ⟨x, rfl, Or.inl ⟨by rw [hag x key2]; exact hsp, key2⟩⟩
  | done xl xu it =>
    obtain ⟨a1, a2, a3, a4, a5, a6, a7⟩ := hsp
    obtain ⟨k1, k2⟩ := key2
    have hit : it < 10000 := by
      rcases Nat.eq_zero_or_pos it with h | h
      · omega
      · have := a7 h
        have hn' : ⌈Real.logb 2 ((b.xub - b.xlb) / (2 * xtol))⌉ = nhalf b.xlb b.xub xtol := by exact_mod_cast hn.symm
        omega
    refine ⟨0.5 * (xu + xl), by rw [finish, if_neg (by omega)], ?_⟩
    rcases a6 hit with h' | h'
    · refine Or.inr ?_
      rw [abs_lt]; constructor <;> linarith
    · refine Or.inl ?_
      have m1 : F xl ≤ F (0.5 * (xu + xl)) := hF.monotone (by linarith)
      have m2 : F (0.5 * (xu + xl)) ≤ F xu := hF.monotone (by linarith)
      have hB2 : xtol * (2 : ℝ) ^ ((nhalf b.xlb b.xub xtol : ℝ) + 1 - (it : ℝ)) ≤ W := by
        refine le_trans (mul_le_mul_of_nonneg_left (Real.rpow_le_rpow_of_exponent_le (by norm_num) ?_) hx0.le) hB
        have : (0 : ℝ) ≤ it := by positivity
        simp only [Nat.cast_zero]; linarith
      have hxr : |0.5 * (xu + xl) - r| ≤ W := by
        rw [abs_le]; constructor <;> linarith
      refine ⟨?_, hxr⟩
      rw [hag _ hxr, abs_lt]; constructor <;> linarith

end MParT
