import Verif.Model.RootFindingFp
import Verif.Props.RootFinding
import Verif.Props.InverseBatch
/-!
# Property C94: rounding and NaN in the inverse

The first part holds for every arithmetic, so for `double` whatever the rounding, overflow and NaN.
-/
namespace MParT.RootFinding.Fp

/-- What a user may conclude from a success, in the arithmetic of the program: the returned point was tried and the value there differs from the
target by less than `ftol`; or it is the middle of two points that were tried, of which the first has a value not above the target and the
second a value not below it, and the points are closer than `xtol` or the values closer than `ftol` - unless the search was given up
after 10000 trial points. -/
def Certified {F : Type} (A : Arith F) (f : F → F) (yd xtol ftol : F) (o : Outcome F) : Prop :=
  (o.value ∈ o.calls ∧ A.lt (A.abs (A.sub (f o.value) yd)) ftol = true) ∨
  ∃ a ∈ o.calls, ∃ b ∈ o.calls, o.value = A.mul (A.num 0.5) (A.add b a) ∧ A.lt yd (f a) = false ∧ A.lt (f b) yd = false ∧
    (A.lt (A.sub b a) xtol = true ∨ A.lt (A.sub (f b) (f a)) ftol = true ∨ 10004 ≤ o.calls.length)

section
variable {F : Type} (A : Arith F) (f : F → F)

theorem downLoop_calls (yd : F) (n : Nat) : ∀ xlb ylb xub yub step, yub = f xub →
    ((downLoop A f yd xlb ylb xub yub step n).1.info = 0 ∨ (downLoop A f yd xlb ylb xub yub step n).1.info = -1 ∨
      (downLoop A f yd xlb ylb xub yub step n).1.info = -2) ∧
    (downLoop A f yd xlb ylb xub yub step n).2.length ≤ n ∧
    ((downLoop A f yd xlb ylb xub yub step n).1.info = 0 →
      1 ≤ (downLoop A f yd xlb ylb xub yub step n).2.length ∧
      (downLoop A f yd xlb ylb xub yub step n).1.ylb = f (downLoop A f yd xlb ylb xub yub step n).1.xlb ∧
      (downLoop A f yd xlb ylb xub yub step n).1.yub = f (downLoop A f yd xlb ylb xub yub step n).1.xub ∧
      (downLoop A f yd xlb ylb xub yub step n).1.xlb ∈ (downLoop A f yd xlb ylb xub yub step n).2 ∧
      (downLoop A f yd xlb ylb xub yub step n).1.xub ∈ xub :: (downLoop A f yd xlb ylb xub yub step n).2) := by
  induction n with
  | zero => intro xlb ylb xub yub step h; simp [downLoop]
  | succ n ih =>
    intro xlb ylb xub yub step h
    rw [downLoop]
    split
    · simp
    · split
      · obtain ⟨h1, h2, h3⟩ := ih (A.sub xub step) (f (A.sub xub step)) (A.sub xub step) (f (A.sub xub step)) (A.mul step (A.num 2)) rfl
        refine ⟨h1, by simpa using h2, fun h0 => ?_⟩
        obtain ⟨-, a2, a3, a4, a5⟩ := h3 h0
        exact ⟨by simp, a2, a3, List.mem_cons_of_mem _ a4, List.mem_cons_of_mem _ a5⟩
      · simp [h]

theorem upLoop_calls (yd : F) (n : Nat) : ∀ xlb ylb xub yub step, ylb = f xlb →
    ((upLoop A f yd xlb ylb xub yub step n).1.info = 0 ∨ (upLoop A f yd xlb ylb xub yub step n).1.info = -1 ∨
      (upLoop A f yd xlb ylb xub yub step n).1.info = -2) ∧
    (upLoop A f yd xlb ylb xub yub step n).2.length ≤ n ∧
    ((upLoop A f yd xlb ylb xub yub step n).1.info = 0 →
      1 ≤ (upLoop A f yd xlb ylb xub yub step n).2.length ∧
      (upLoop A f yd xlb ylb xub yub step n).1.ylb = f (upLoop A f yd xlb ylb xub yub step n).1.xlb ∧
      (upLoop A f yd xlb ylb xub yub step n).1.yub = f (upLoop A f yd xlb ylb xub yub step n).1.xub ∧
      (upLoop A f yd xlb ylb xub yub step n).1.xlb ∈ xlb :: (upLoop A f yd xlb ylb xub yub step n).2 ∧
      (upLoop A f yd xlb ylb xub yub step n).1.xub ∈ (upLoop A f yd xlb ylb xub yub step n).2) := by
  induction n with
  | zero => intro xlb ylb xub yub step h; simp [upLoop]
  | succ n ih =>
    intro xlb ylb xub yub step h
    rw [upLoop]
    split
    · simp
    · split
      · obtain ⟨h1, h2, h3⟩ := ih (A.add xlb step) (f (A.add xlb step)) (A.add xlb step) (f (A.add xlb step)) (A.mul step (A.num 2)) rfl
        refine ⟨h1, by simpa using h2, fun h0 => ?_⟩
        obtain ⟨-, a2, a3, a4, a5⟩ := h3 h0
        exact ⟨by simp, a2, a3, List.mem_cons_of_mem _ a4, List.mem_cons_of_mem _ a5⟩
      · simp [h]

theorem findBracket_calls (x0 yd : F) :
    ((findBracket A f x0 x0 yd).1.info = 0 ∨ (findBracket A f x0 x0 yd).1.info = -1 ∨ (findBracket A f x0 x0 yd).1.info = -2) ∧
    (findBracket A f x0 x0 yd).2.length ≤ 130 ∧
    ((findBracket A f x0 x0 yd).1.info = 0 → 3 ≤ (findBracket A f x0 x0 yd).2.length ∧
      (findBracket A f x0 x0 yd).1.ylb = f (findBracket A f x0 x0 yd).1.xlb ∧
      (findBracket A f x0 x0 yd).1.yub = f (findBracket A f x0 x0 yd).1.xub ∧
      (findBracket A f x0 x0 yd).1.xlb ∈ (findBracket A f x0 x0 yd).2 ∧ (findBracket A f x0 x0 yd).1.xub ∈ (findBracket A f x0 x0 yd).2) := by
  rw [findBracket]
  by_cases c : A.lt yd (f x0) = true
  · simp only [c, if_true]
    obtain ⟨h1, h2, h3⟩ := downLoop_calls A f yd 128 x0 (f x0) x0 (f x0) (A.num 1) rfl
    refine ⟨h1, by simp only [List.length_cons]; omega, fun h => ?_⟩
    obtain ⟨a1, a2, a3, a4, a5⟩ := h3 h
    exact ⟨by simp only [List.length_cons]; omega, a2, a3, by simp [a4], List.mem_cons_of_mem _ a5⟩
  · simp only [c]
    obtain ⟨h1, h2, h3⟩ := upLoop_calls A f yd 128 x0 (f x0) x0 (f x0) (A.num 1) rfl
    refine ⟨h1, ?_, fun h => ?_⟩
    · simp only [Bool.false_eq_true, if_false, List.length_cons]; omega
    · obtain ⟨a1, a2, a3, a4, a5⟩ := h3 h
      refine ⟨?_, a2, a3, List.mem_cons_of_mem _ a4, List.mem_cons_of_mem _ (List.mem_cons_of_mem _ a5)⟩
      simp only [Bool.false_eq_true, if_false, List.length_cons]; omega

/-- The bracketed search. -/
theorem search_calls (hA : ∀ a b, A.lt a b = true → A.lt b a = false) (yd xtol ftol nh : F) (n : Nat) :
    ∀ (xlb ylb xub yub : F) (it : Nat), ylb = f xlb → yub = f xub → A.lt yd ylb = false → A.lt yub yd = false →
    (search A f yd xtol ftol nh xlb ylb xub yub it n).2.length ≤ n ∧
    match (search A f yd xtol ftol nh xlb ylb xub yub it n).1 with
    | .early xc => xc ∈ (search A f yd xtol ftol nh xlb ylb xub yub it n).2 ∧ A.lt (A.abs (A.sub (f xc) yd)) ftol = true
    | .done xl xu it' => it' ≤ it + n ∧ xl ∈ xlb :: (search A f yd xtol ftol nh xlb ylb xub yub it n).2 ∧
        xu ∈ xub :: (search A f yd xtol ftol nh xlb ylb xub yub it n).2 ∧ A.lt yd (f xl) = false ∧ A.lt (f xu) yd = false ∧
        (A.lt (A.sub xu xl) xtol = true ∨ A.lt (A.sub (f xu) (f xl)) ftol = true ∨
          n ≤ (search A f yd xtol ftol nh xlb ylb xub yub it n).2.length) := by
  induction n with
  | zero => intro xlb ylb xub yub it h1 h2 h3 h4; simp [search, ← h1, ← h2, h3, h4]
  | succ n ih =>
    intro xlb ylb xub yub it h1 h2 h3 h4
    rw [search]
    generalize findXItp A xlb xub yd ylb yub (A.num 0.1) (A.num 2) nh (A.num 1) it xtol = xc
    dsimp only
    by_cases c1 : A.lt (A.abs (A.sub (f xc) yd)) ftol = true
    · simp [c1]
    · rw [if_neg c1]
      by_cases c2 : A.lt yd (f xc) = true
      · rw [if_pos c2]
        by_cases c3 : (A.lt (A.sub xc xlb) xtol || A.lt (A.sub (f xc) ylb) ftol) = true
        · rw [if_pos c3]
          rw [Bool.or_eq_true] at c3
          refine ⟨by simp, by omega, by simp, by simp, h1 ▸ h3, hA _ _ c2, ?_⟩
          rw [← h1]
          exact c3.imp id Or.inl
        · rw [if_neg c3]
          obtain ⟨a1, a2⟩ := ih xlb ylb xc (f xc) (it + 1) h1 rfl h3 (hA _ _ c2)
          refine ⟨by simpa using a1, ?_⟩
          revert a2
          cases (search A f yd xtol ftol nh xlb ylb xc (f xc) (it + 1) n).1 with
          | early x => exact fun a2 => ⟨List.mem_cons_of_mem _ a2.1, a2.2⟩
          | done xl xu it' =>
            rintro ⟨b1, b2, b3, b4, b5, b6⟩
            refine ⟨by omega, ?_, List.mem_cons_of_mem _ b3, b4, b5, b6.imp id (Or.imp id fun h => by simpa using h)⟩
            rcases List.mem_cons.mp b2 with h | h
            · simp [h]
            · simp [h]
      · rw [if_neg c2]
        have c2' : A.lt yd (f xc) = false := by simpa using c2
        by_cases c3 : (A.lt (A.sub xub xc) xtol || A.lt (A.sub yub (f xc)) ftol) = true
        · rw [if_pos c3]
          rw [Bool.or_eq_true] at c3
          refine ⟨by simp, by omega, by simp, by simp, c2', h2 ▸ h4, ?_⟩
          rw [← h2]
          exact c3.imp id Or.inl
        · rw [if_neg c3]
          obtain ⟨a1, a2⟩ := ih xc (f xc) xub yub (it + 1) rfl h2 c2' h4
          refine ⟨by simpa using a1, ?_⟩
          revert a2
          cases (search A f yd xtol ftol nh xc (f xc) xub yub (it + 1) n).1 with
          | early x => exact fun a2 => ⟨List.mem_cons_of_mem _ a2.1, a2.2⟩
          | done xl xu it' =>
            rintro ⟨b1, b2, b3, b4, b5, b6⟩
            refine ⟨by omega, List.mem_cons_of_mem _ b2, ?_, b4, b5, b6.imp id (Or.imp id fun h => by simpa using h)⟩
            rcases List.mem_cons.mp b3 with h | h
            · simp [h]
            · simp [h]

/-- **C94**, every arithmetic in which `a < b` excludes `b < a`, every function, target, start and tolerances, numbers or not: the call ends after at
most 10131 evaluations; it reports failure and returns NaN, or reports success and what it returns is certified by the function values that were computed. -/
theorem C94_certified (hA : ∀ a b, A.lt a b = true → A.lt b a = false) (yd x0 xtol ftol : F) :
    (inverseSingleBracket A yd f x0 xtol ftol).calls.length ≤ 10131 ∧
    ((inverseSingleBracket A yd f x0 xtol ftol).info = -2 ∧ (inverseSingleBracket A yd f x0 xtol ftol).value = A.nan ∨
     (inverseSingleBracket A yd f x0 xtol ftol).info = 0 ∧ Certified A f yd xtol ftol (inverseSingleBracket A yd f x0 xtol ftol)) := by
  obtain ⟨h1, h2, h3⟩ := findBracket_calls A f x0 yd
  rw [inverseSingleBracket]
  generalize findBracket A f x0 x0 yd = r at *
  by_cases c : (decide (r.1.info < 0) || (A.lt yd r.1.ylb || A.lt r.1.yub yd)) = true
  · simp only [c, if_true]
    exact ⟨by simp only [List.length_cons]; omega, Or.inl (by simp)⟩
  · simp only [c]
    simp only [Bool.or_eq_true, decide_eq_true_eq, not_or, Bool.not_eq_true] at c
    obtain ⟨a1, a2, a3, a4, a5⟩ := h3 (by omega)
    obtain ⟨s1, s2⟩ := search_calls A f hA yd xtol ftol (nhalf A r.1.xlb r.1.xub xtol) 10000 r.1.xlb r.1.ylb r.1.xub r.1.yub 0 a2 a3
      c.2.1 c.2.2
    generalize search A f yd xtol ftol _ r.1.xlb r.1.ylb r.1.xub r.1.yub 0 10000 = s at *
    obtain ⟨s, cl⟩ := s
    simp only [Bool.false_eq_true, if_false] at *
    refine ⟨by simp only [List.cons_append, List.length_cons, List.length_append]; omega, Or.inr ?_⟩
    cases s with
    | early xc => exact ⟨rfl, Or.inl ⟨by simp [finish, s2.1], s2.2⟩⟩
    | done xl xu it =>
      obtain ⟨b1, b2, b3, b4, b5, b6⟩ := s2
      refine ⟨if_neg (by omega), Or.inr ⟨xl, ?_, xu, ?_, rfl, b4, b5, b6.imp id (Or.imp id fun h => ?_)⟩⟩
      · rcases List.mem_cons.mp b2 with h | h
        · simp [h, a4]
        · simp [h]
      · rcases List.mem_cons.mp b3 with h | h
        · simp [h, a5]
        · simp [h]
      · simp only [List.cons_append, List.length_cons, List.length_append]; omega

/-- **C94** fails for tolerances that are not numbers: in every arithmetic in which nothing is smaller than NaN, once a bracket is found the
search makes all its 10000 trials, and then reports success. -/
theorem C94_fails_tolerances (hA : ∀ a, A.lt a A.nan = false) (yd x0 : F)
    (hb : (inverseSingleBracket A yd f x0 A.nan A.nan).info ≠ -2) :
    (inverseSingleBracket A yd f x0 A.nan A.nan).info = 0 ∧ 10004 ≤ (inverseSingleBracket A yd f x0 A.nan A.nan).calls.length := by
  have key : ∀ n nh xlb ylb xub yub it, (search A f yd A.nan A.nan nh xlb ylb xub yub it n).2.length = n ∧
      ∃ xl xu, (search A f yd A.nan A.nan nh xlb ylb xub yub it n).1 = .done xl xu (it + n) := by
    intro n
    induction n with
    | zero => intro nh xlb ylb xub yub it; exact ⟨rfl, xlb, xub, rfl⟩
    | succ n ih =>
      intro nh xlb ylb xub yub it
      rw [search]
      simp only [hA, Bool.or_self, Bool.false_eq_true, if_false]
      split
      · obtain ⟨h1, xl, xu, h2⟩ := ih nh xlb ylb (findXItp A xlb xub yd ylb yub (A.num 0.1) (A.num 2) nh (A.num 1) it A.nan)
          (f (findXItp A xlb xub yd ylb yub (A.num 0.1) (A.num 2) nh (A.num 1) it A.nan)) (it + 1)
        exact ⟨by simpa using h1, xl, xu, by rw [h2]; congr 1; omega⟩
      · obtain ⟨h1, xl, xu, h2⟩ := ih nh (findXItp A xlb xub yd ylb yub (A.num 0.1) (A.num 2) nh (A.num 1) it A.nan)
          (f (findXItp A xlb xub yd ylb yub (A.num 0.1) (A.num 2) nh (A.num 1) it A.nan)) xub yub (it + 1)
        exact ⟨by simpa using h1, xl, xu, by rw [h2]; congr 1; omega⟩
  obtain ⟨h1, -, h3⟩ := findBracket_calls A f x0 yd
  rw [inverseSingleBracket] at hb ⊢
  generalize findBracket A f x0 x0 yd = r at *
  by_cases c : (decide (r.1.info < 0) || (A.lt yd r.1.ylb || A.lt r.1.yub yd)) = true
  · simp [c] at hb
  · simp only [c]
    simp only [Bool.or_eq_true, decide_eq_true_eq, not_or, Bool.not_eq_true] at c
    obtain ⟨a1, -⟩ := h3 (by omega)
    obtain ⟨k1, xl, xu, k2⟩ := key 10000 (nhalf A r.1.xlb r.1.xub A.nan) r.1.xlb r.1.ylb r.1.xub r.1.yub 0
    simp only [Bool.false_eq_true, if_false]
    exact ⟨by rw [k2]; rfl, by simp only [List.cons_append, List.length_cons, List.length_append, k1]; omega⟩
end

/-! ### Numbers and NaN -/

theorem num_lt (x y : ℝ) : numArith.lt (some x) (some y) = decide (x < y) := rfl

theorem num_asymm (a b : Option ℝ) (h : numArith.lt a b = true) : numArith.lt b a = false := by
  cases a <;> cases b <;> simp_all [numArith, le_of_lt]

theorem num_nan (a : Option ℝ) : numArith.lt a numArith.nan = false := by cases a <;> rfl

theorem num_nan' (a : Option ℝ) : numArith.lt none a = false := by cases a <;> rfl

theorem flat_num (xlb ylb xub yub : ℝ) :
    flat numArith (some xlb) (some ylb) (some xub) (some yub) = true ↔ RootFinding.flat xlb ylb xub yub := by
  rw [flat, RootFinding.flat, Bool.and_eq_true]
  by_cases h : xub - xlb = 0
  · simp [numArith, lift2, h]
  · simp [numArith, lift2, h]

/-- A bracket of numbers. -/
abbrev ofReal (b : RootFinding.Bracket) : Bracket (Option ℝ) := ⟨some b.xlb, some b.ylb, some b.xub, some b.yub, b.info⟩

theorem downLoop_num (f : ℝ → ℝ) (yd : ℝ) (n : Nat) : ∀ xlb ylb xub yub step : ℝ,
    (downLoop numArith (Option.map f) (some yd) (some xlb) (some ylb) (some xub) (some yub) (some step) n).1
      = ofReal (RootFinding.downLoop f yd xlb ylb xub yub step n) := by
  induction n with
  | zero => intros; rfl
  | succ n ih =>
    intro xlb ylb xub yub step
    have e1 : numArith.sub (some xub) (some step) = some (xub - step) := rfl
    have e2 : numArith.mul (some step) (numArith.num 2) = some (step * 2) := by simp [numArith, lift2]
    rw [downLoop, RootFinding.downLoop]
    dsimp only
    rw [e1, e2, Option.map_some]
    simp only [num_lt, decide_eq_true_eq]
    by_cases c : RootFinding.flat (xub - step) (f (xub - step)) xub yub
    · simp only [(flat_num _ _ _ _).mpr c, c, if_true]
    · simp only [mt (flat_num _ _ _ _).mp c, c, if_false]
      by_cases c2 : yd < f (xub - step)
      · simp only [c2, if_true, gt_iff_lt]; exact ih _ _ _ _ _
      · simp only [c2, if_false, gt_iff_lt]; rfl

theorem upLoop_num (f : ℝ → ℝ) (yd : ℝ) (n : Nat) : ∀ xlb ylb xub yub step : ℝ,
    (upLoop numArith (Option.map f) (some yd) (some xlb) (some ylb) (some xub) (some yub) (some step) n).1
      = ofReal (RootFinding.upLoop f yd xlb ylb xub yub step n) := by
  induction n with
  | zero => intros; rfl
  | succ n ih =>
    intro xlb ylb xub yub step
    have e1 : numArith.add (some xlb) (some step) = some (xlb + step) := rfl
    have e2 : numArith.mul (some step) (numArith.num 2) = some (step * 2) := by simp [numArith, lift2]
    rw [upLoop, RootFinding.upLoop]
    dsimp only
    rw [e1, e2, Option.map_some]
    simp only [num_lt, decide_eq_true_eq]
    by_cases c : RootFinding.flat xlb ylb (xlb + step) (f (xlb + step))
    · simp only [(flat_num _ _ _ _).mpr c, c, if_true]
    · simp only [mt (flat_num _ _ _ _).mp c, c, if_false]
      by_cases c2 : f (xlb + step) < yd
      · simp only [c2, if_true]; exact ih _ _ _ _ _
      · simp only [c2, if_false]; rfl

theorem findBracket_num (f : ℝ → ℝ) (x0 yd : ℝ) :
    (findBracket numArith (Option.map f) (some x0) (some x0) (some yd)).1 = ofReal (RootFinding.findBracket f x0 x0 yd) := by
  have e1 : numArith.num 1 = some 1 := by simp [numArith]
  rw [findBracket, RootFinding.findBracket]
  simp only [Option.map_some, num_lt, decide_eq_true_eq, e1]
  by_cases c : yd < f x0
  · simp only [c, if_true, gt_iff_lt]; exact downLoop_num _ _ _ _ _ _ _ _
  · simp only [c, if_false, gt_iff_lt]; exact upLoop_num _ _ _ _ _ _ _ _

theorem findXItp_num (xlb xub ylb yub nh xtol : ℝ) (yd : Option ℝ) (yd' : ℝ) (it : Nat) (hx : xlb < xub) (hy : ylb ≠ yub) :
    findXItp numArith (some xlb) (some xub) yd (some ylb) (some yub) (numArith.num 0.1) (numArith.num 2) (some nh) (numArith.num 1) it
      (some xtol) = some (RootFinding.findXItp xlb xub yd' ylb yub 0.1 2 nh 1 it xtol) := by
  have h1 : ylb - yub ≠ 0 := sub_ne_zero.mpr hy
  have h2 : 0 < xub - xlb := by linarith
  have h3 : ((0.5 : ℚ) : ℝ) = 0.5 := by norm_num
  have h4 : ((0.1 : ℚ) : ℝ) = 0.1 := by norm_num
  rw [findXItp, RootFinding.findXItp]
  have hs : (if decide ((0 : ℝ) < 0.5 * (xub + xlb) - (xub * ylb - xlb * yub) / (ylb - yub)) = true then some (1 : ℝ) else some (-1))
      = some (if 0.5 * (xub + xlb) - (xub * ylb - xlb * yub) / (ylb - yub) > 0 then (1 : ℝ) else -1) := by
    simp only [decide_eq_true_eq, gt_iff_lt]; split <;> rfl
  simp only [numArith, lift2, Option.bind_some, h1, if_false, Option.map_some, Rat.cast_zero, Rat.cast_one, Rat.cast_ofNat, Rat.cast_natCast,
    h2, if_true, zero_lt_two, Rat.cast_neg, h3, h4, hs]

theorem nhalf_num (xlb xub xtol : ℝ) (hx : xlb < xub) (ht : 0 < xtol) :
    nhalf numArith (some xlb) (some xub) (some xtol) = some (RootFinding.nhalf xlb xub xtol : ℝ) := by
  have h3 : ((0.5 : ℚ) : ℝ) = 0.5 := by norm_num
  have h0 : 0 < 0.5 * (xub - xlb) / xtol := by have : 0 < xub - xlb := by linarith
                                               positivity
  rw [nhalf, RootFinding.nhalf]
  simp only [numArith, lift2, Option.bind_some, ht.ne', if_false, h3, h0, if_true, Option.map_some]

/-- A result of the search with numbers. -/
def ofSearch : RootFinding.Search → Search (Option ℝ)
  | .early x => .early (some x)
  | .done xl xu it => .done (some xl) (some xu) it

theorem search_num (f : ℝ → ℝ) (hf : StrictMono f) (yd xtol ftol nh : ℝ) (hx : 0 < xtol) (n : Nat) : ∀ (xlb xub : ℝ) (it : Nat),
    f xlb ≤ yd → yd ≤ f xub → xlb < xub →
    (search numArith (Option.map f) (some yd) (some xtol) (some ftol) (some nh) (some xlb) (some (f xlb)) (some xub) (some (f xub)) it n).1
      = ofSearch (RootFinding.search f yd xtol ftol nh xlb (f xlb) xub (f xub) it n) := by
  induction n with
  | zero => intros; rfl
  | succ n ih =>
    intro xlb xub it h1 h2 h3
    rw [search, RootFinding.search, findXItp_num xlb xub _ _ nh xtol (some yd) yd it h3 (hf h3).ne]
    generalize RootFinding.findXItp xlb xub yd (f xlb) (f xub) 0.1 2 nh 1 it xtol = xc
    have e : ∀ a b : ℝ, numArith.sub (some a) (some b) = some (a - b) := fun _ _ => rfl
    have e' : ∀ a : ℝ, numArith.abs (some a) = some |a| := fun _ => rfl
    dsimp only [Option.map_some]
    simp only [e, e', num_lt, decide_eq_true_eq, Bool.or_eq_true, gt_iff_lt]
    by_cases c1 : |f xc - yd| < ftol
    · simp only [c1, if_true]; rfl
    · simp only [c1, if_false]
      by_cases c2 : yd < f xc
      · simp only [c2, if_true]
        by_cases c3 : xc - xlb < xtol ∨ f xc - f xlb < ftol
        · simp only [c3, if_true]; rfl
        · simp only [c3, if_false]
          exact ih xlb xc (it + 1) h1 c2.le (by rw [not_or] at c3; linarith)
      · simp only [c2, if_false]
        by_cases c3 : xub - xc < xtol ∨ f xub - f xc < ftol
        · simp only [c3, if_true]; rfl
        · simp only [c3, if_false]
          exact ih xc xub (it + 1) (not_lt.mp c2) h2 (by rw [not_or] at c3; linarith)

/-- **C94**, numbers: with exact arithmetic and NaN, for every strictly increasing function and `xtol > 0`, no NaN arises on the way, and the call does what
`Model/RootFinding.lean` says, so that C36 holds for it. -/
theorem C94_numbers_partial (f : ℝ → ℝ) (hf : StrictMono f) (yd x0 xtol ftol : ℝ) (hx : 0 < xtol) :
    ((inverseSingleBracket numArith (some yd) (Option.map f) (some x0) (some xtol) (some ftol)).value,
      (inverseSingleBracket numArith (some yd) (Option.map f) (some x0) (some xtol) (some ftol)).info)
      = RootFinding.inverseSingleBracket yd f x0 xtol ftol := by
  rw [inverseSingleBracket, RootFinding.inverseSingleBracket]
  have hb := findBracket_num f x0 yd
  have hs := C35_status f x0 x0 yd
  generalize findBracket numArith (Option.map f) (some x0) (some x0) (some yd) = r at *
  obtain ⟨b, cl⟩ := r
  simp only at hb
  subst hb
  have hk := C35_bracket f x0 x0 yd
  generalize RootFinding.findBracket f x0 x0 yd = b at *
  simp only [ofReal, num_lt]
  by_cases c : b.info < 0 ∨ b.ylb > yd ∨ b.yub < yd
  · rw [if_pos c]
    simp only [gt_iff_lt] at c
    simp only [Bool.or_eq_true, decide_eq_true_eq, c, if_true]
    rfl
  · rw [if_neg c]
    simp only [gt_iff_lt] at c
    simp only [Bool.or_eq_true, decide_eq_true_eq, c, if_false]
    obtain ⟨k1, k2, k3, k4, k5, -⟩ := hk (by omega)
    rw [nhalf_num _ _ _ k1 hx, k2, k3, search_num f hf yd xtol ftol _ hx 10000 b.xlb b.xub 0 (k2 ▸ k4) (k3 ▸ k5) k1]
    have h3 : ((0.5 : ℚ) : ℝ) = 0.5 := by norm_num
    cases RootFinding.search f yd xtol ftol (RootFinding.nhalf b.xlb b.xub xtol : ℝ) b.xlb (f b.xlb) b.xub (f b.xub) 0 10000 with
    | early x => rfl
    | done xl xu it => simp [ofSearch, finish, RootFinding.finish, numArith, lift2, h3]

theorem search_nanTarget (f : ℝ → ℝ) (hf : StrictMono f) (xtol nh : ℝ) (ftol : Option ℝ) (hx : 0 < xtol) (n : Nat) : ∀ (xlb xub : ℝ) (it : Nat),
    xlb < xub → 0.5 * (xub - xlb) ≤ xtol * (2 : ℝ) ^ (nh + 1 - it) →
    ∃ xl it', (search numArith (Option.map f) none (some xtol) ftol (some nh) (some xlb) (some (f xlb)) (some xub) (some (f xub)) it n).1
      = .done (some xl) (some xub) it' ∧ it' ≤ it + n ∧ |xl - xub| ≤ 2 * (xtol * (2 : ℝ) ^ (nh + 1 - it)) := by
  induction n with
  | zero => intro xlb xub it h1 h2; exact ⟨xlb, it, rfl, by omega, by rw [abs_sub_comm, abs_of_pos (by linarith)]; linarith⟩
  | succ n ih =>
    intro xlb xub it h1 h2
    rw [search, findXItp_num xlb xub _ _ nh xtol none 0 it h1 (hf h1).ne]
    have hnear := findXItp_near xlb xub 0 (f xlb) (f xub) 0.1 2 nh 1 it xtol h2
    generalize RootFinding.findXItp xlb xub 0 (f xlb) (f xub) 0.1 2 nh 1 it xtol = xc at *
    obtain ⟨n1, n2⟩ := abs_le.mp hnear
    set B : ℝ := xtol * (2 : ℝ) ^ (nh + 1 - it) with hB
    have hhalf : xtol * (2 : ℝ) ^ (nh + 1 - ((it + 1 : Nat) : ℝ)) = B / 2 := by
      rw [hB, Nat.cast_add, Nat.cast_one, show nh + 1 - ((it : ℝ) + 1) = (nh + 1 - it) - 1 by ring,
        Real.rpow_sub_one (by norm_num)]
      ring
    have e1 : numArith.lt (numArith.abs (numArith.sub (some (f xc)) none)) ftol = false := num_nan' _
    have e2 : numArith.lt none (some (f xc)) = false := rfl
    have e3 : numArith.sub (some xub) (some xc) = some (xub - xc) := rfl
    simp only [Option.map_some, e1, e2, e3, num_lt, Bool.false_eq_true, if_false]
    have hB0 : 0 < B := mul_pos hx (Real.rpow_pos_of_pos (by norm_num) _)
    have hxc : |xc - xub| ≤ 2 * B := abs_le.mpr ⟨by linarith, by linarith⟩
    by_cases c : (decide (xub - xc < xtol) || numArith.lt (numArith.sub (some (f xub)) (some (f xc))) ftol) = true
    · rw [if_pos c]
      exact ⟨xc, it, rfl, by omega, hxc⟩
    · rw [if_neg c]
      simp only [Bool.or_eq_true, decide_eq_true_eq, not_or, not_lt] at c
      have hw : 0 < xub - xc := by linarith
      obtain ⟨xl, it', r1, r2, r3⟩ := ih xc xub (it + 1) (by linarith) (by rw [hhalf]; linarith)
      exact ⟨xl, it', r1, by omega, r3.trans (by rw [hhalf]; linarith)⟩

theorem nhalf_lt (xtol : ℝ) (hx : 0 < xtol) (w : ℝ) (hw : 0 < w) :
    xtol * (2 : ℝ) ^ ((⌈Real.logb 2 (0.5 * w / xtol)⌉ : ℝ) + 1 - ((0 : Nat) : ℝ)) < 2 * w := by
  have h0 : 0 < 0.5 * w / xtol := by positivity
  have h1 := Int.ceil_lt_add_one (Real.logb 2 (0.5 * w / xtol))
  have h2 : (2 : ℝ) ^ ((⌈Real.logb 2 (0.5 * w / xtol)⌉ : ℝ) + 1 - ((0 : Nat) : ℝ)) < (2 : ℝ) ^ (Real.logb 2 (0.5 * w / xtol) + 2) :=
    Real.rpow_lt_rpow_of_exponent_lt (by norm_num) (by push_cast; linarith)
  rw [Real.rpow_add (by norm_num), Real.rpow_logb (by norm_num) (by norm_num) h0] at h2
  calc _ < xtol * (0.5 * w / xtol * (2 : ℝ) ^ (2 : ℝ)) := by gcongr
    _ = 2 * w := by rw [show (2 : ℝ) ^ (2 : ℝ) = 4 by norm_num]; field_simp; norm_num

theorem nhalf_ge (xtol : ℝ) (hx : 0 < xtol) (w : ℝ) (hw : 0 < w) :
    w ≤ xtol * (2 : ℝ) ^ ((⌈Real.logb 2 (0.5 * w / xtol)⌉ : ℝ) + 1 - ((0 : Nat) : ℝ)) := by
  have h0 : 0 < 0.5 * w / xtol := by positivity
  have h1 := Int.le_ceil (Real.logb 2 (0.5 * w / xtol))
  have h2 : (2 : ℝ) ^ (Real.logb 2 (0.5 * w / xtol) + 1) ≤ (2 : ℝ) ^ ((⌈Real.logb 2 (0.5 * w / xtol)⌉ : ℝ) + 1 - ((0 : Nat) : ℝ)) :=
    Real.rpow_le_rpow_of_exponent_le (by norm_num) (by push_cast; linarith)
  rw [Real.rpow_add (by norm_num), Real.rpow_logb (by norm_num) (by norm_num) h0, Real.rpow_one] at h2
  calc w = xtol * (0.5 * w / xtol * 2) := by field_simp; norm_num
    _ ≤ _ := by gcongr

/-- The bracket when the target or the function value is NaN: the interval of length one that begins at the start. -/
theorem findBracket_nan (f : Option ℝ → Option ℝ) (yd : Option ℝ) (x0 : ℝ) (h : yd = none ∨ ∀ x, f x = none) :
    (findBracket numArith f (some x0) (some x0) yd).1 = ⟨some x0, f (some x0), some (x0 + 1), f (some (x0 + 1)), 0⟩ := by
  have e1 : ∀ x y, numArith.lt yd (f x) = false ∧ numArith.lt (f y) yd = false := by
    intro x y
    rcases h with h | h
    · rw [h]; exact ⟨num_nan' _, num_nan _⟩
    · rw [h, h]; exact ⟨num_nan _, num_nan' _⟩
  have e2 : numArith.add (some x0) (numArith.num 1) = some (x0 + 1) := by simp [numArith, lift2]
  have e3 : numArith.lt (numArith.num 10) (numArith.sub (some (x0 + 1)) (some x0)) = false := by simp [numArith, lift2]
  rw [findBracket]
  simp only [(e1 (some x0) (some x0)).1, Bool.false_eq_true, if_false]
  rw [upLoop]
  simp only [e2, flat, e3, Bool.and_false, Bool.false_eq_true, if_false, (e1 (some x0) (some (x0 + 1))).2]

/-- **C94** fails for a target that is NaN: for every strictly increasing function, start and tolerances, the call reports success and returns a number,
which lies within distance 2 of `x0 + 1`. -/
theorem C94_fails_target (f : ℝ → ℝ) (hf : StrictMono f) (x0 xtol : ℝ) (ftol : Option ℝ) (hx : 0 < xtol) :
    ∃ x, (inverseSingleBracket numArith none (Option.map f) (some x0) (some xtol) ftol).value = some x ∧ |x - (x0 + 1)| < 2 ∧
      (inverseSingleBracket numArith none (Option.map f) (some x0) (some xtol) ftol).info = 0 := by
  have hw : (x0 + 1) - x0 = 1 := by ring
  have hs := nhalf_spec ((x0 + 1) - x0) xtol (by linarith) hx
  have hl := nhalf_lt xtol hx ((x0 + 1) - x0) (by linarith)
  obtain ⟨xl, it, s1, s2, s3⟩ := search_nanTarget f hf xtol (RootFinding.nhalf x0 (x0 + 1) xtol) ftol hx 10000 x0 (x0 + 1) 0 (by linarith) hs
  have hb := findBracket_nan (Option.map f) none x0 (Or.inl rfl)
  rw [inverseSingleBracket]
  generalize findBracket numArith (Option.map f) (some x0) (some x0) none = r at *
  obtain ⟨b, cl⟩ := r
  simp only at hb
  subst hb
  simp only [num_nan', show ∀ a, numArith.lt a none = false from num_nan, Option.map_some, nhalf_num x0 (x0 + 1) xtol (by linarith) hx, s1]
  refine ⟨0.5 * (x0 + 1 + xl), ?_, ?_, ?_⟩
  · simp [finish, numArith, lift2]
  · rw [RootFinding.nhalf] at s3
    rw [hw] at hl s3
    have := lt_of_le_of_lt s3 (mul_lt_mul_of_pos_left hl zero_lt_two)
    rw [abs_lt] at this ⊢
    constructor <;> linarith
  · simp only [lt_irrefl, decide_false, Bool.or_self, Bool.false_eq_true, if_false, finish]
    exact if_neg (by omega)

/-- **C94** fails for a function that is NaN (as a component is, if a coefficient is NaN): for every target, start and tolerances, the call reports success and
returns a number between `x0 + 1` and `x0 + 3/2`. -/
theorem C94_fails_function (yd ftol : Option ℝ) (x0 xtol : ℝ) (hx : 0 < xtol) :
    ∃ x, (inverseSingleBracket numArith yd (fun _ => none) (some x0) (some xtol) ftol).value = some x ∧ x0 + 1 ≤ x ∧ x ≤ x0 + 3 / 2 ∧
      (inverseSingleBracket numArith yd (fun _ => none) (some x0) (some xtol) ftol).info = 0 := by
  have hw : (x0 + 1) - x0 = 1 := by ring
  have hs := nhalf_ge xtol hx ((x0 + 1) - x0) (by linarith)
  have hl := nhalf_lt xtol hx ((x0 + 1) - x0) (by linarith)
  have hb := findBracket_nan (fun _ => none) yd x0 (Or.inr fun _ => rfl)
  rw [inverseSingleBracket]
  generalize findBracket numArith (fun _ => none) (some x0) (some x0) yd = r at *
  obtain ⟨b, cl⟩ := r
  simp only at hb
  subst hb
  simp only [num_nan', show ∀ a, numArith.lt a none = false from num_nan, nhalf_num x0 (x0 + 1) xtol (by linarith) hx]
  simp only [lt_irrefl, decide_false, Bool.or_self, Bool.false_eq_true, if_false]
  rw [search]
  have h3 : ((0.5 : ℚ) : ℝ) = 0.5 := by norm_num
  have e : findXItp numArith (some x0) (some (x0 + 1)) yd none none (numArith.num 0.1) (numArith.num 2)
      (some (RootFinding.nhalf x0 (x0 + 1) xtol : ℝ)) (numArith.num 1) 0 (some xtol)
      = some (x0 + xtol * (2 : ℝ) ^ ((RootFinding.nhalf x0 (x0 + 1) xtol : ℝ) + 1 - ((0 : Nat) : ℝ))) := by
    rw [findXItp]
    have h2 : (0 : ℝ) < x0 + 1 - x0 := by linarith
    simp only [numArith, lift2, Option.bind_some, Option.bind_none, Option.map_none, Rat.cast_zero, Rat.cast_one, Rat.cast_ofNat,
      Rat.cast_natCast, h2, if_true, zero_lt_two, Rat.cast_neg, h3, Bool.false_eq_true, if_false]
    congr 1
    norm_num
    ring
  rw [e]
  generalize hB : xtol * (2 : ℝ) ^ ((RootFinding.nhalf x0 (x0 + 1) xtol : ℝ) + 1 - ((0 : Nat) : ℝ)) = B
  rw [RootFinding.nhalf] at hB
  rw [hB, hw] at hs hl
  have e1 : numArith.lt (numArith.abs (numArith.sub none yd)) ftol = false := num_nan' _
  have e2 : numArith.lt yd none = false := num_nan _
  have e3 : numArith.sub (some (x0 + 1)) (some (x0 + B)) = some (x0 + 1 - (x0 + B)) := rfl
  have e4 : numArith.lt (some (x0 + 1 - (x0 + B))) (some xtol) = true := by rw [num_lt, decide_eq_true_eq]; linarith
  simp only [e1, e2, e3, e4, Bool.true_or, if_true, Bool.false_eq_true, if_false, finish]
  refine ⟨0.5 * (x0 + 1 + (x0 + B)), ?_, by linarith, by linarith, ?_⟩
  · simp [numArith, lift2]
  · exact if_neg (by omega)

/-- **C94**, start: a starting point that is NaN gives NaN. -/
theorem C94_start_partial (f : ℝ → ℝ) (yd xtol ftol : Option ℝ) :
    (inverseSingleBracket numArith yd (Option.map f) none xtol ftol).value = none := by
  have hup : ∀ n step, (upLoop numArith (Option.map f) yd none none none none step n).1.xlb = none ∧
      (upLoop numArith (Option.map f) yd none none none none step n).1.xub = none := by
    intro n step
    cases n with
    | zero => exact ⟨rfl, rfl⟩
    | succ n =>
      rw [upLoop]
      have e1 : numArith.add none step = none := rfl
      simp only [e1, Option.map_none, num_nan', Bool.false_eq_true, if_false]
      split <;> exact ⟨rfl, rfl⟩
  have hs : ∀ n nh xlb ylb xub yub it, xlb = none → xub = none →
      (finish numArith (search numArith (Option.map f) yd xtol ftol nh xlb ylb xub yub it n).1).1 = none := by
    intro n
    induction n with
    | zero => rintro nh xlb ylb xub yub it rfl rfl; rfl
    | succ n ih =>
      rintro nh xlb ylb xub yub it rfl rfl
      rw [search]
      have e1 : findXItp numArith none none yd ylb yub (numArith.num 0.1) (numArith.num 2) nh (numArith.num 1) it xtol = none := rfl
      have e2 : numArith.lt yd none = false := num_nan _
      have e3 : numArith.lt (numArith.abs (numArith.sub none yd)) ftol = false := num_nan' _
      simp only [e1, Option.map_none, e2, e3, Bool.false_eq_true, if_false]
      split
      · rfl
      · exact ih _ _ _ _ _ _ rfl rfl
  rw [inverseSingleBracket]
  split
  · rfl
  · refine hs _ _ _ _ _ _ _ ?_ ?_
    · rw [findBracket]
      have e2 : numArith.lt yd none = false := num_nan _
      simp only [Option.map_none, e2, Bool.false_eq_true, if_false]
      exact (hup _ _).1
    · rw [findBracket]
      have e2 : numArith.lt yd none = false := num_nan _
      simp only [Option.map_none, e2, Bool.false_eq_true, if_false]
      exact (hup _ _).2

/-- Non-vacuity of `C94_certified` and `C94_fails_tolerances`: the numbers with NaN are such an arithmetic; target 1/2 for the identity from 0. -/
example : (∀ a b, numArith.lt a b = true → numArith.lt b a = false) ∧ (∀ a, numArith.lt a numArith.nan = false) ∧
    (inverseSingleBracket numArith (some (1 / 2)) (Option.map fun x => x) (some 0) none none).info ≠ -2 := by
  refine ⟨num_asymm, num_nan, fun h => ?_⟩
  have hb := findBracket_num (fun x => x) 0 (1 / 2)
  have hb' : RootFinding.findBracket (fun x : ℝ => x) 0 0 (1 / 2) = ⟨0, 0, 1, 1, 0⟩ := by
    rw [RootFinding.findBracket]
    rw [if_neg (by norm_num), RootFinding.upLoop]
    rw [if_neg (by unfold RootFinding.flat; norm_num), if_neg (by norm_num)]
    norm_num
  rw [hb'] at hb
  rw [inverseSingleBracket] at h
  simp only [hb, num_lt] at h
  norm_num at h
  revert h
  have : ∀ s : Search (Option ℝ), (finish numArith s).2 ≠ -2 := by
    intro s
    cases s with
    | early x => simp [finish]
    | done a b it => simp only [finish]; split <;> simp
  exact this _

end MParT.RootFinding.Fp

namespace MParT.MonotoneComponent
open Spec Worker

variable {c : MonotoneComponent} {D : Nat} {ts : List (List Nat)}

section
variable (hv : ValidComponent c D ts) {mesh : (ℝ → ℝ) → List (ℝ × ℝ)} (hm : UsesMesh c.quad mesh) {cs : List ℝ}
  (hc : cs.length = ts.length) (scr : Cache ℝ) (hs : scr.length = c.w.cacheSize)
include hv hm hc hs

theorem inverseColumnNaN_ok (xtol ytol : ℝ) (xs : List (List (Option ℝ))) (hr : ∀ x ∈ xs, D ≤ x.length) (i : Nat) (y : Option ℝ)
    (hi : xs.length = 1 ∨ i < xs.length) (x : List (Option ℝ)) (hx : xs.getD (if xs.length = 1 then 0 else i) [] = x) :
    c.inverseColumnNaN scr cs xtol ytol xs i y = .ok (if none ∈ x then none else
      (RootFinding.Fp.inverseSingleBracket RootFinding.Fp.numArith y
        (Option.map (component c D ts mesh cs (coords (x.map fun v => v.getD 0))))
        (some (coords (x.map fun v => v.getD 0) (x.length - 1))) (some xtol) (some ytol)).value) := by
  have hD := hv.pos
  have hlt : (if xs.length = 1 then 0 else i) < xs.length := by split <;> omega
  rw [List.getD_eq_getElem?_getD, List.getElem?_eq_getElem hlt, Option.getD_some] at hx
  rw [inverseColumnNaN]
  rw [Res.idx_lt hlt, Res.bind_ok, hx]
  have hl := hr x (hx ▸ List.getElem_mem hlt)
  by_cases hn : none ∈ x
  · rw [if_pos hn, if_pos]
    · rfl
    · exact List.any_eq_true.mpr ⟨none, hn, rfl⟩
  · rw [if_neg hn, if_neg]
    · set pt := x.map fun v => v.getD 0 with hpt
      have hpl : pt.length = x.length := by simp [hpt]
      obtain ⟨cache, e, hC⟩ := cached_start hv (pt := pt) (by omega) scr hs .none
      simp only [e, Res.bind_ok]
      rw [Res.idx_lt (by omega), Res.bind_ok, show pt[pt.length - 1] = coords pt (pt.length - 1) by simp [coords, show 0 < pt.length by omega]]
      have : c.singleEvaluator cache pt cs = component c D ts mesh cs (coords pt) := by
        funext t
        obtain ⟨cache', e', -⟩ := C38_single hv hm hc (by omega) hC t c.nugget
        rw [MonotoneComponent.singleEvaluator, e']
        rfl
      rw [this, hpl]
      rfl
    · simp only [List.any_eq_true, Option.isNone_iff_eq_none]
      rintro ⟨v, h1, rfl⟩
      exact hn h1

/-- **C94**, components: where the component is strictly increasing in its last input, a target that is a number gives the entry that C87 describes. -/
theorem C94_component_partial (xtol ytol : ℝ) (ht : 0 < xtol) (xs : List (List (Option ℝ))) (hr : ∀ x ∈ xs, D ≤ x.length) (i : Nat)
    (hi : xs.length = 1 ∨ i < xs.length)
    (hT : StrictMono (component c D ts mesh cs (coords ((xs.getD (if xs.length = 1 then 0 else i) []).map fun v => v.getD 0)))) (y : ℝ) :
    c.inverseColumnNaN scr cs xtol ytol xs i (some y) = c.inverseColumn scr cs xtol ytol xs i y := by
  rw [inverseColumnNaN_ok hv hm hc scr hs xtol ytol xs hr i (some y) hi _ rfl, inverseColumn_ok hv hm hc scr hs xtol ytol xs hr i y hi, Inverted]
  have h := congrArg Prod.fst (RootFinding.Fp.C94_numbers_partial _ hT y
    (coords ((xs.getD (if xs.length = 1 then 0 else i) []).map fun v => v.getD 0) ((xs.getD (if xs.length = 1 then 0 else i) []).length - 1)) xtol ytol ht)
  simp only at h
  rw [h]

/-- **C94** fails for components: a target that is NaN is inverted to a number, for every column of numbers at which the component is strictly
increasing in its last input. -/
theorem C94_fails_component (xtol ytol : ℝ) (ht : 0 < xtol) (xs : List (List (Option ℝ))) (hr : ∀ x ∈ xs, D ≤ x.length) (i : Nat)
    (hi : xs.length = 1 ∨ i < xs.length) (hn : none ∉ xs.getD (if xs.length = 1 then 0 else i) [])
    (hT : StrictMono (component c D ts mesh cs (coords ((xs.getD (if xs.length = 1 then 0 else i) []).map fun v => v.getD 0)))) :
    ∃ r : ℝ, c.inverseColumnNaN scr cs xtol ytol xs i none = .ok (some r) := by
  rw [inverseColumnNaN_ok hv hm hc scr hs xtol ytol xs hr i none hi _ rfl, if_neg hn]
  obtain ⟨r, h, -⟩ := RootFinding.Fp.C94_fails_target _ hT
    (coords ((xs.getD (if xs.length = 1 then 0 else i) []).map fun v => v.getD 0) ((xs.getD (if xs.length = 1 then 0 else i) []).length - 1))
    xtol (some ytol) ht
  exact ⟨r, by rw [h]⟩

end

/-- A component that is affine in its last input is strictly increasing there. -/
theorem component_affine (hv : ValidComponent c D ts) {mesh : (ℝ → ℝ) → List (ℝ × ℝ)} (hw : WeightsOne mesh) (ha : AffineLast c.b D ts)
    (hν : c.nugget = 0) (hg : ∀ t, 0 < c.g.eval t) (cs : List ℝ) (x : Nat → ℝ) : StrictMono (component c D ts mesh cs x) := by
  intro a b hab
  simp only [component, hν]
  rw [affine_discretised hv ha cs _ (hw _), affine_discretised hv ha cs _ (hw _), affine_diagD hv ha, affine_diagD hv ha,
    Function.update_self, Function.update_self, offset, offset, Function.update_idem, Function.update_idem]
  have := mul_lt_mul_of_pos_right hab (hg (diagD c.b.eff D ts cs x))
  linarith

/-- Non-vacuity: two inputs, total order 1, softplus, adaptive Simpson quadrature. The inverse of a target that is NaN is a number. -/
example : ∃ (c : MonotoneComponent) (r : ℝ),
    c.inverseColumnNaN (List.replicate c.w.cacheSize (some 3)) [1, 2, 3] 1e-6 1e-6 [[some 4, some 0]] 0 none = .ok (some r) := by
  obtain ⟨h1, h2, -⟩ := C39_simpson ⟨1, 30, 0, 1e-6, 1e-6, .first⟩ rfl (by decide) (by decide)
  have hv := valid_total 2 1 (by decide) C24_bases_normalized.1.c1 C30_softPlus _ h2 true 0
  have ha := affineLast_total 2 1 le_rfl _ fun y => (affine_bases true y).1
  have hT := component_affine hv (C61_weights.2.1 ⟨1, 30, 0, 1e-6, 1e-6, .first⟩) ha rfl C30_softPlus.pos [1, 2, 3]
  obtain ⟨r, e⟩ := C94_fails_component hv h1 (cs := [1, 2, 3]) rfl (List.replicate (totalWorker 2 1).cacheSize (some 3)) (by simp) 1e-6 1e-6
    (by norm_num) [[some 4, some 0]] (by simp) 0 (Or.inl rfl) (by simp) (hT _)
  exact ⟨_, r, e⟩

end MParT.MonotoneComponent
