import Verif.Model.RootFinding
import Mathlib.Topology.Order.IntermediateValue
import Mathlib.Topology.Instances.Real.Lemmas
/-!
# C35, C36, C37: bracketing and the ITP root finder
-/
namespace MParT.RootFinding
open Classical

/-! ### C35 -/

theorem downLoop_spec (f : ℝ → ℝ) (yd : ℝ) (n : Nat) : ∀ xlb ylb xub yub step, 0 < step → yub = f xub → yd < yub →
    (downLoop f yd xlb ylb xub yub step n).info = 0 →
    (downLoop f yd xlb ylb xub yub step n).xlb < (downLoop f yd xlb ylb xub yub step n).xub ∧
    (downLoop f yd xlb ylb xub yub step n).ylb = f (downLoop f yd xlb ylb xub yub step n).xlb ∧
    (downLoop f yd xlb ylb xub yub step n).yub = f (downLoop f yd xlb ylb xub yub step n).xub ∧
    (downLoop f yd xlb ylb xub yub step n).ylb ≤ yd ∧ yd ≤ (downLoop f yd xlb ylb xub yub step n).yub ∧
    (downLoop f yd xlb ylb xub yub step n).xub ≤ xub ∧
    (downLoop f yd xlb ylb xub yub step n).xub - (downLoop f yd xlb ylb xub yub step n).xlb ≤ step * 2 ^ (n - 1) := by
  induction n with
  | zero => intro xlb ylb xub yub step _ _ _ h; simp [downLoop] at h
  | succ n ih =>
    intro xlb ylb xub yub step hs hy hd h
    have h1 : (1 : ℝ) ≤ 2 ^ n := one_le_pow₀ (by norm_num)
    rw [downLoop] at h ⊢
    by_cases c1 : flat (xub - step) (f (xub - step)) xub yub
    · rw [if_pos c1] at h; simp at h
    · rw [if_neg c1] at h ⊢
      by_cases c2 : f (xub - step) > yd
      · rw [if_pos c2] at h ⊢
        obtain ⟨a1, a2, a3, a4, a5, a6, a7⟩ := ih (xub - step) (f (xub - step)) (xub - step) (f (xub - step)) (step * 2)
          (by linarith) rfl c2 h
        refine ⟨a1, a2, a3, a4, a5, by linarith, a7.trans ?_⟩
        cases n with
        | zero => simp [downLoop] at h
        | succ n => rw [Nat.add_sub_cancel, Nat.add_sub_cancel, pow_succ]; linarith
      · rw [if_neg c2] at h ⊢
        refine ⟨by simp only; linarith, rfl, hy, not_lt.mp c2, hd.le, le_rfl, ?_⟩
        simp only [Nat.add_sub_cancel]; nlinarith

theorem upLoop_spec (f : ℝ → ℝ) (yd : ℝ) (n : Nat) : ∀ xlb ylb xub yub step, 0 < step → ylb = f xlb → ylb ≤ yd →
    (upLoop f yd xlb ylb xub yub step n).info = 0 →
    (upLoop f yd xlb ylb xub yub step n).xlb < (upLoop f yd xlb ylb xub yub step n).xub ∧
    (upLoop f yd xlb ylb xub yub step n).ylb = f (upLoop f yd xlb ylb xub yub step n).xlb ∧
    (upLoop f yd xlb ylb xub yub step n).yub = f (upLoop f yd xlb ylb xub yub step n).xub ∧
    (upLoop f yd xlb ylb xub yub step n).ylb ≤ yd ∧ yd ≤ (upLoop f yd xlb ylb xub yub step n).yub ∧
    xlb ≤ (upLoop f yd xlb ylb xub yub step n).xlb ∧
    (upLoop f yd xlb ylb xub yub step n).xub - (upLoop f yd xlb ylb xub yub step n).xlb ≤ step * 2 ^ (n - 1) := by
  induction n with
  | zero => intro xlb ylb xub yub step _ _ _ h; simp [upLoop] at h
  | succ n ih =>
    intro xlb ylb xub yub step hs hy hd h
    have h1 : (1 : ℝ) ≤ 2 ^ n := one_le_pow₀ (by norm_num)
    rw [upLoop] at h ⊢
    by_cases c1 : flat xlb ylb (xlb + step) (f (xlb + step))
    · rw [if_pos c1] at h; simp at h
    · rw [if_neg c1] at h ⊢
      by_cases c2 : f (xlb + step) < yd
      · rw [if_pos c2] at h ⊢
        obtain ⟨a1, a2, a3, a4, a5, a6, a7⟩ := ih (xlb + step) (f (xlb + step)) (xlb + step) (f (xlb + step)) (step * 2)
          (by linarith) rfl c2.le h
        refine ⟨a1, a2, a3, a4, a5, by linarith, a7.trans ?_⟩
        cases n with
        | zero => simp [upLoop] at h
        | succ n => rw [Nat.add_sub_cancel, Nat.add_sub_cancel, pow_succ]; linarith
      · rw [if_neg c2] at h ⊢
        refine ⟨by simp only; linarith, hy, rfl, hd, not_lt.mp c2, le_rfl, ?_⟩
        simp only [Nat.add_sub_cancel]; nlinarith

/-- C35 (soundness). For every function, start and target: if `FindBracket` reports success, the returned bounds are ordered,
the reported values are the function values there, and they enclose the target. The bracket is at most `2^127` wide and lies
on the side of the starting point where the target was not yet passed. -/
theorem C35_bracket (f : ℝ → ℝ) (xlb xub yd : ℝ) (h : (findBracket f xlb xub yd).info = 0) :
    (findBracket f xlb xub yd).xlb < (findBracket f xlb xub yd).xub ∧
    (findBracket f xlb xub yd).ylb = f (findBracket f xlb xub yd).xlb ∧
    (findBracket f xlb xub yd).yub = f (findBracket f xlb xub yd).xub ∧
    (findBracket f xlb xub yd).ylb ≤ yd ∧ yd ≤ (findBracket f xlb xub yd).yub ∧
    (yd < f xlb → (findBracket f xlb xub yd).xub ≤ xlb) ∧ (f xlb ≤ yd → xlb ≤ (findBracket f xlb xub yd).xlb) ∧
    (findBracket f xlb xub yd).xub - (findBracket f xlb xub yd).xlb ≤ 2 ^ 127 := by
  rw [findBracket] at h ⊢
  by_cases c : f xlb > yd
  · rw [if_pos c] at h ⊢
    obtain ⟨a1, a2, a3, a4, a5, a6, a7⟩ := downLoop_spec f yd 128 _ _ _ _ _ one_pos rfl c h
    exact ⟨a1, a2, a3, a4, a5, fun _ => a6, fun h => absurd c (not_lt.mpr h), by simpa using a7⟩
  · rw [if_neg c] at h ⊢
    obtain ⟨a1, a2, a3, a4, a5, a6, a7⟩ := upLoop_spec f yd 128 _ _ _ _ _ one_pos rfl (not_lt.mp c) h
    exact ⟨a1, a2, a3, a4, a5, fun h => absurd h c, fun _ => a6, by simpa using a7⟩

theorem not_flat {f : ℝ → ℝ} (hsteep : ∀ a b, 10 < b - a → 1e-12 * (b - a) ≤ f b - f a) (a b : ℝ) : ¬ flat a (f a) b (f b) := by
  rintro ⟨h1, h2⟩
  have h := hsteep a b h2
  have hp : 0 < b - a := by linarith
  rw [abs_lt, div_lt_iff₀ hp] at h1
  linarith [h1.2]

theorem downLoop_succeeds (f : ℝ → ℝ) (hsteep : ∀ a b, 10 < b - a → 1e-12 * (b - a) ≤ f b - f a) (yd : ℝ)
    (n : Nat) : ∀ xlb ylb xub yub step, 0 < step → yub = f xub → f (xub - step * (2 ^ (n + 1) - 1)) ≤ yd →
    (downLoop f yd xlb ylb xub yub step (n + 1)).info = 0 := by
  induction n with
  | zero =>
    intro xlb ylb xub yub step hs hy hr
    rw [downLoop]
    rw [if_neg (by rw [hy]; exact not_flat hsteep _ _), if_neg]
    rw [show xub - step * (2 ^ (0 + 1) - 1) = xub - step by ring] at hr
    exact not_lt.mpr hr
  | succ n ih =>
    intro xlb ylb xub yub step hs hy hr
    rw [downLoop]
    rw [if_neg (by rw [hy]; exact not_flat hsteep _ _)]
    split
    · refine ih _ _ _ _ _ (by linarith) rfl (le_of_eq_of_le ?_ hr)
      congr 1
      ring
    · rfl

theorem upLoop_succeeds (f : ℝ → ℝ) (hsteep : ∀ a b, 10 < b - a → 1e-12 * (b - a) ≤ f b - f a) (yd : ℝ)
    (n : Nat) : ∀ xlb ylb xub yub step, 0 < step → ylb = f xlb → yd ≤ f (xlb + step * (2 ^ (n + 1) - 1)) →
    (upLoop f yd xlb ylb xub yub step (n + 1)).info = 0 := by
  induction n with
  | zero =>
    intro xlb ylb xub yub step hs hy hr
    rw [upLoop]
    rw [if_neg (by rw [hy]; exact not_flat hsteep _ _), if_neg]
    rw [show xlb + step * (2 ^ (0 + 1) - 1) = xlb + step by ring] at hr
    exact not_lt.mpr hr
  | succ n ih =>
    intro xlb ylb xub yub step hs hy hr
    rw [upLoop]
    rw [if_neg (by rw [hy]; exact not_flat hsteep _ _)]
    split
    · refine ih _ _ _ _ _ (by linarith) rfl (le_of_le_of_eq hr ?_)
      congr 1
      ring
    · rfl

/-- C35 (completeness). For every function (increasing or not) whose mean slope over every interval longer than 10 is at least
`1e-12`, and every target that the function takes on between `x0 - (2^128-1)` and `x0 + (2^128-1)`, `FindBracket` succeeds. -/
theorem C35_succeeds (f : ℝ → ℝ) (hsteep : ∀ a b, 10 < b - a → 1e-12 * (b - a) ≤ f b - f a)
    (x0 xub yd : ℝ) (h1 : f (x0 - (2 ^ 128 - 1)) ≤ yd) (h2 : yd ≤ f (x0 + (2 ^ 128 - 1))) :
    (findBracket f x0 xub yd).info = 0 := by
  rw [findBracket]
  split
  · exact downLoop_succeeds f hsteep yd 127 _ _ _ _ _ one_pos rfl (by rw [one_mul]; exact h1)
  · exact upLoop_succeeds f hsteep yd 127 _ _ _ _ _ one_pos rfl (by rw [one_mul]; exact h2)

theorem downLoop_status (f : ℝ → ℝ) (yd : ℝ) (n : Nat) : ∀ xlb ylb xub yub step, 0 < step → yub = f xub →
    yd < yub →
    (downLoop f yd xlb ylb xub yub step n).info = 0 ∨
    ((downLoop f yd xlb ylb xub yub step n).info = -1 ∧ ∃ a b, 10 < b - a ∧ f b - f a < 1e-12 * (b - a)) ∨
    ((downLoop f yd xlb ylb xub yub step n).info = -2 ∧ yd < f (xub - step * (2 ^ n - 1))) := by
  induction n with
  | zero =>
    intro xlb ylb xub yub step hs hy hd
    refine Or.inr (Or.inr ⟨rfl, ?_⟩)
    rw [pow_zero, sub_self, mul_zero, sub_zero, ← hy]; exact hd
  | succ n ih =>
    intro xlb ylb xub yub step hs hy hd
    rw [downLoop]
    split
    · next c =>
      refine Or.inr (Or.inl ⟨rfl, xub - step, xub, c.2, ?_⟩)
      have hp : 0 < xub - (xub - step) := by linarith
      have h1 := (abs_lt.mp c.1).2
      rwa [div_lt_iff₀ hp, hy] at h1
    · split
      · next c =>
        have := ih (xub - step) (f (xub - step)) (xub - step) (f (xub - step)) (step * 2) (by linarith) rfl c
        rwa [show xub - step - step * 2 * (2 ^ n - 1) = xub - step * (2 ^ (n + 1) - 1) by ring] at this
      · exact Or.inl rfl

theorem upLoop_status (f : ℝ → ℝ) (yd : ℝ) (n : Nat) : ∀ xlb ylb xub yub step, 0 < step → ylb = f xlb →
    (n = 0 → ylb < yd) →
    (upLoop f yd xlb ylb xub yub step n).info = 0 ∨
    ((upLoop f yd xlb ylb xub yub step n).info = -1 ∧ ∃ a b, 10 < b - a ∧ f b - f a < 1e-12 * (b - a)) ∨
    ((upLoop f yd xlb ylb xub yub step n).info = -2 ∧ f (xlb + step * (2 ^ n - 1)) < yd) := by
  induction n with
  | zero =>
    intro xlb ylb xub yub step hs hy hd
    refine Or.inr (Or.inr ⟨rfl, ?_⟩)
    rw [pow_zero, sub_self, mul_zero, add_zero, ← hy]; exact hd rfl
  | succ n ih =>
    intro xlb ylb xub yub step hs hy hd
    rw [upLoop]
    split
    · next c =>
      refine Or.inr (Or.inl ⟨rfl, xlb, xlb + step, c.2, ?_⟩)
      have hp : 0 < xlb + step - xlb := by linarith
      have h1 := (abs_lt.mp c.1).2
      rwa [div_lt_iff₀ hp, hy] at h1
    · split
      · next c =>
        have := ih (xlb + step) (f (xlb + step)) (xlb + step) (f (xlb + step)) (step * 2) (by linarith) rfl (fun _ => c)
        rwa [show xlb + step + step * 2 * (2 ^ n - 1) = xlb + step * (2 ^ (n + 1) - 1) by ring] at this
      · exact Or.inl rfl

/-- C35 (the status). For every function the status is 0, or -1 and the function really is flat (mean slope below
`1e-12`) on an interval longer than 10, or -2 and the target really is out of reach: not attained within `2^128-1` of the
starting point on the side searched. -/
theorem C35_status (f : ℝ → ℝ) (x0 xub yd : ℝ) :
    (findBracket f x0 xub yd).info = 0 ∨
    ((findBracket f x0 xub yd).info = -1 ∧ ∃ a b, 10 < b - a ∧ f b - f a < 1e-12 * (b - a)) ∨
    ((findBracket f x0 xub yd).info = -2 ∧ (yd < f (x0 - (2 ^ 128 - 1)) ∨ f (x0 + (2 ^ 128 - 1)) < yd)) := by
  rw [findBracket]
  split
  · next c =>
    rcases downLoop_status f yd 128 xub (f xub) x0 (f x0) 1 one_pos rfl c with h | h | ⟨h, h'⟩
    · exact Or.inl h
    · exact Or.inr (Or.inl h)
    · rw [one_mul] at h'; exact Or.inr (Or.inr ⟨h, Or.inl h'⟩)
  · next c =>
    rcases upLoop_status f yd 128 x0 (f x0) xub (f xub) 1 one_pos rfl (fun h => absurd h (by decide)) with h | h | ⟨h, h'⟩
    · exact Or.inl h
    · exact Or.inr (Or.inl h)
    · rw [one_mul] at h'; exact Or.inr (Or.inr ⟨h, Or.inr h'⟩)

/-- The hypotheses of `C35_succeeds` are met by `x ↦ 2*x + 1` started at 0 with target 1000. -/
example : (findBracket (fun x => 2 * x + 1) 0 0 1000).info = 0 :=
  C35_succeeds _ (fun a b h => by norm_num; linarith) 0 0 1000 (by norm_num) (by norm_num)

/-! ### C36 -/

/-- The trial point stays within the scheduled distance from the middle. -/
theorem findXItp_near (xlb xub yd ylb yub k1 k2 nhalf n0 : ℝ) (it : Nat) (xtol : ℝ)
    (h : 0.5 * (xub - xlb) ≤ xtol * (2 : ℝ) ^ (nhalf + n0 - it)) :
    |findXItp xlb xub yd ylb yub k1 k2 nhalf n0 it xtol - (xlb + xub) / 2| ≤
      xtol * (2 : ℝ) ^ (nhalf + n0 - it) - (xub - xlb) / 2 := by
  rw [findXItp]
  set sigma : ℝ := if _ > (0 : ℝ) then 1 else -1 with hs
  set X := |_ + _ * sigma - 0.5 * (xub + xlb)| with hX
  have hX0 : 0 ≤ X := abs_nonneg _
  have hsig : |sigma| = 1 := by rw [hs]; split <;> simp
  rw [show 0.5 * (xub + xlb) - sigma * min (xtol * (2 : ℝ) ^ (nhalf + n0 - it) - 0.5 * (xub - xlb)) X - (xlb + xub) / 2 =
    -(sigma * min (xtol * (2 : ℝ) ^ (nhalf + n0 - it) - 0.5 * (xub - xlb)) X) by ring, abs_neg, abs_mul, hsig, one_mul,
    abs_of_nonneg (le_min (by linarith) hX0)]
  exact (min_le_left _ _).trans (by linarith)

/-- The bracketed search: invariants of the bracket and of its width. -/
theorem search_spec (f : ℝ → ℝ) (hf : StrictMono f) (yd xtol ftol nhalf : ℝ) (hx : 0 < xtol) (n : Nat) :
    ∀ (xlb ylb xub yub : ℝ) (it : Nat), ylb = f xlb → yub = f xub → ylb ≤ yd → yd ≤ yub → xlb ≤ xub →
      0.5 * (xub - xlb) ≤ xtol * (2 : ℝ) ^ (nhalf + 1 - it) →
      match search f yd xtol ftol nhalf xlb ylb xub yub it n with
      | .early xc => |f xc - yd| < ftol
      | .done xl xu it' => f xl ≤ yd ∧ yd ≤ f xu ∧ xl ≤ xu ∧ it ≤ it' ∧ it' ≤ it + n ∧
          0.5 * (xu - xl) ≤ xtol * (2 : ℝ) ^ (nhalf + 1 - it') ∧
          (it' < it + n → xu - xl < xtol ∨ f xu - f xl < ftol) ∧
          (it < it' → (it' : ℝ) ≤ nhalf + 2) := by
  induction n with
  | zero =>
    intro xlb ylb xub yub it hl hu h1 h2 h3 h4
    rw [search]
    exact ⟨hl ▸ h1, hu ▸ h2, h3, le_rfl, le_rfl, h4, fun h => absurd h (by simp), fun h => absurd h (lt_irrefl _)⟩
  | succ n ih =>
    intro xlb ylb xub yub it hl hu h1 h2 h3 h4
    have hnear := findXItp_near xlb xub yd ylb yub 0.1 2 nhalf 1 it xtol h4
    rw [search]
    generalize findXItp xlb xub yd ylb yub 0.1 2 nhalf 1 it xtol = xc at hnear ⊢
    obtain ⟨n1, n2⟩ := abs_le.mp hnear
    set B : ℝ := xtol * (2 : ℝ) ^ (nhalf + 1 - it) with hB
    have hB0 : 0 < B := mul_pos hx (Real.rpow_pos_of_pos (by norm_num) _)
    have hhalf : xtol * (2 : ℝ) ^ (nhalf + 1 - ((it + 1 : Nat) : ℝ)) = B / 2 := by
      rw [hB, Nat.cast_add, Nat.cast_one, show nhalf + 1 - ((it : ℝ) + 1) = (nhalf + 1 - it) - 1 by ring,
        Real.rpow_sub_one (by norm_num)]
      ring
    have hcount : ∀ w, xtol ≤ w → w ≤ B → ((it + 1 : Nat) : ℝ) ≤ nhalf + 2 := by
      intro w hw hw'
      by_contra hlt
      push_cast at hlt
      have : (2 : ℝ) ^ (nhalf + 1 - it) < 1 := Real.rpow_lt_one_of_one_lt_of_neg (by norm_num) (by linarith)
      have : B < xtol := by rw [hB]; nlinarith
      linarith
    by_cases c1 : |f xc - yd| < ftol
    · rw [if_pos c1]; exact c1
    · rw [if_neg c1]
      by_cases c2 : f xc > yd
      · rw [if_pos c2]
        have hlt : xlb < xc := hf.lt_iff_lt.mp (by linarith)
        have hw : xc - xlb ≤ B := by linarith
        by_cases c3 : xc - xlb < xtol ∨ f xc - ylb < ftol
        · rw [if_pos c3]
          exact ⟨hl ▸ h1, c2.le, hlt.le, le_rfl, by omega, by linarith, fun _ => hl ▸ c3, fun h => absurd h (lt_irrefl _)⟩
        · rw [if_neg c3]
          have hI := ih xlb ylb xc (f xc) (it + 1) hl rfl h1 c2.le hlt.le (by rw [hhalf]; linarith)
          generalize search f yd xtol ftol nhalf xlb ylb xc (f xc) (it + 1) n = out at hI ⊢
          cases out with
          | early x => exact hI
          | done xl xu it' =>
            obtain ⟨a1, a2, a3, a4, a5, a6, a7, a8⟩ := hI
            refine ⟨a1, a2, a3, by omega, by omega, a6, fun h => a7 (by omega), fun _ => ?_⟩
            rcases Nat.eq_or_lt_of_le a4 with h | h
            · rw [← h]; exact hcount _ (not_lt.mp fun hh => c3 (Or.inl hh)) hw
            · exact a8 h
      · rw [if_neg c2]
        have hlt : xc ≤ xub := hf.le_iff_le.mp (by linarith)
        have hw : xub - xc ≤ B := by linarith
        by_cases c3 : xub - xc < xtol ∨ yub - f xc < ftol
        · rw [if_pos c3]
          exact ⟨not_lt.mp c2, hu ▸ h2, hlt, le_rfl, by omega, by linarith, fun _ => hu ▸ c3, fun h => absurd h (lt_irrefl _)⟩
        · rw [if_neg c3]
          have hI := ih xc (f xc) xub yub (it + 1) rfl hu (not_lt.mp c2) h2 hlt (by rw [hhalf]; linarith)
          generalize search f yd xtol ftol nhalf xc (f xc) xub yub (it + 1) n = out at hI ⊢
          cases out with
          | early x => exact hI
          | done xl xu it' =>
            obtain ⟨a1, a2, a3, a4, a5, a6, a7, a8⟩ := hI
            refine ⟨a1, a2, a3, by omega, by omega, a6, fun h => a7 (by omega), fun _ => ?_⟩
            rcases Nat.eq_or_lt_of_le a4 with h | h
            · rw [← h]; exact hcount _ (not_lt.mp fun hh => c3 (Or.inl hh)) hw
            · exact a8 h

theorem nhalf_spec (w xtol : ℝ) (hw : 0 < w) (hx : 0 < xtol) :
    0.5 * w ≤ xtol * (2 : ℝ) ^ ((⌈Real.logb 2 (0.5 * w / xtol)⌉ : ℝ) + 1 - ((0 : Nat) : ℝ)) := by
  have h0 : 0 < 0.5 * w / xtol := by positivity
  have h1 : 0.5 * w / xtol = (2 : ℝ) ^ (Real.logb 2 (0.5 * w / xtol)) := (Real.rpow_logb (by norm_num) (by norm_num) h0).symm
  have h2 : (2 : ℝ) ^ (Real.logb 2 (0.5 * w / xtol)) ≤ (2 : ℝ) ^ ((⌈Real.logb 2 (0.5 * w / xtol)⌉ : ℝ) + 1 - ((0 : Nat) : ℝ)) := by
    refine Real.rpow_le_rpow_of_exponent_le (by norm_num) ?_
    have := Int.le_ceil (Real.logb 2 (0.5 * w / xtol))
    push_cast
    linarith
  rw [← h1, div_le_iff₀ hx] at h2
  linarith

/-- C36 (the search). For every strictly increasing function, every bracket of the target and every positive `xtol`, whatever
the number `n` of iterations allowed (so at every moment of the search): the search has returned a point whose value is within
`ftol` of the target, or its bracket still encloses the target and after `it` iterations is no wider than
`2*xtol*2^(nhalf+1-it)`, where `nhalf = ceil(log2(width/(2*xtol)))`; if it stopped before using up its iterations the bracket
is shorter than `xtol` or its values differ by less than `ftol`; and it never enters iteration `nhalf+3`. -/
theorem C36_search (f : ℝ → ℝ) (hf : StrictMono f) (yd xtol ftol : ℝ) (hx : 0 < xtol) (xlb xub : ℝ) (h1 : f xlb ≤ yd)
    (h2 : yd ≤ f xub) (hlt : xlb < xub) (n : Nat) :
    match search f yd xtol ftol (nhalf xlb xub xtol) xlb (f xlb) xub (f xub) 0 n with
    | .early xc => |f xc - yd| < ftol
    | .done xl xu it => f xl ≤ yd ∧ yd ≤ f xu ∧ xl ≤ xu ∧ it ≤ n ∧
        xu - xl ≤ 2 * xtol * (2 : ℝ) ^ ((⌈Real.logb 2 ((xub - xlb) / (2 * xtol))⌉ : ℝ) + 1 - it) ∧
        (it < n → xu - xl < xtol ∨ f xu - f xl < ftol) ∧ (0 < it → (it : ℤ) ≤ ⌈Real.logb 2 ((xub - xlb) / (2 * xtol))⌉ + 2) := by
  have hn : nhalf xlb xub xtol = ⌈Real.logb 2 ((xub - xlb) / (2 * xtol))⌉ := by
    rw [nhalf, show 0.5 * (xub - xlb) / xtol = (xub - xlb) / (2 * xtol) by field_simp; ring]
  have h := search_spec f hf yd xtol ftol (nhalf xlb xub xtol) hx n xlb (f xlb) xub (f xub) 0 rfl rfl h1 h2 hlt.le
    (nhalf_spec _ _ (by linarith) hx)
  generalize search f yd xtol ftol (nhalf xlb xub xtol) xlb (f xlb) xub (f xub) 0 n = out at h ⊢
  rw [← hn]
  cases out with
  | early x => exact h
  | done xl xu it =>
    obtain ⟨a1, a2, a3, a4, a5, a6, a7, a8⟩ := h
    refine ⟨a1, a2, a3, by omega, by linarith, fun h => a7 (by omega), fun h => ?_⟩
    have := a8 h
    exact_mod_cast this

theorem nhalf_le (xlb xub xtol : ℝ) (K : Nat) (hlt : xlb < xub) (hw : xub - xlb ≤ 2 ^ 127) (hx : (2 : ℝ) ^ (-(K : ℤ)) ≤ xtol) :
    nhalf xlb xub xtol ≤ 127 + K := by
  have hx0 : 0 < xtol := lt_of_lt_of_le (by positivity) hx
  rw [nhalf, Int.ceil_le, Real.logb_le_iff_le_rpow (by norm_num) (by have := sub_pos.mpr hlt; positivity), div_le_iff₀ hx0]
  have e1 : (2 : ℝ) ^ (((127 + K : ℤ)) : ℝ) = 2 ^ (127 : ℕ) * 2 ^ K := by
    rw [← pow_add, Real.rpow_intCast]; norm_cast
  have e2 : (2 : ℝ) ^ K * (2 : ℝ) ^ (-(K : ℤ)) = 1 := by
    rw [zpow_neg, zpow_natCast]
    exact mul_inv_cancel₀ (by positivity)
  have e3 : (1 : ℝ) ≤ 2 ^ K * xtol := by
    rw [← e2]; exact mul_le_mul_of_nonneg_left hx (by positivity)
  rw [e1, mul_assoc]
  have e4 : (2 : ℝ) ^ (127 : ℕ) ≤ 2 ^ (127 : ℕ) * (2 ^ K * xtol) := le_mul_of_one_le_right (by positivity) e3
  refine le_trans ?_ e4
  have := sub_pos.mpr hlt
  linarith

/-- C36 (`InverseSingleBracket`). For every strictly increasing function, target, starting point and tolerances with
`xtol ≥ 2^(-1074)` (the least positive double): the call reports failure exactly when no bracket was found, and otherwise
returns a point whose value is within `ftol` of the target, or the middle of an interval shorter than `xtol` on which the
function passes the target. -/
theorem C36_inverse (f : ℝ → ℝ) (hf : StrictMono f) (yd x0 xtol ftol : ℝ) (hx : (2 : ℝ) ^ (-1074 : ℤ) ≤ xtol) :
    ((findBracket f x0 x0 yd).info ≠ 0 → inverseSingleBracket yd f x0 xtol ftol = (none, -2)) ∧
    ((findBracket f x0 x0 yd).info = 0 → ∃ x, inverseSingleBracket yd f x0 xtol ftol = (some x, 0) ∧
      (|f x - yd| < ftol ∨ ∃ xl xu, xl ≤ x ∧ x ≤ xu ∧ xu - xl < xtol ∧ x = (xl + xu) / 2 ∧ f xl ≤ yd ∧ yd ≤ f xu)) := by
  have hx0 : 0 < xtol := lt_of_lt_of_le (by positivity) hx
  have hst := C35_status f x0 x0 yd
  constructor
  · intro h
    rw [inverseSingleBracket]
    rw [if_pos (Or.inl (by rcases hst with h' | h' | h' <;> omega))]
  · intro h
    obtain ⟨b1, b2, b3, b4, b5, _, _, b8⟩ := C35_bracket f x0 x0 yd h
    rw [inverseSingleBracket]
    rw [if_neg (by
      rintro (h' | h' | h')
      · omega
      · linarith
      · linarith)]
    generalize findBracket f x0 x0 yd = b at *
    have hs := C36_search f hf yd xtol ftol hx0 b.xlb b.xub (b2 ▸ b4) (b3 ▸ b5) b1 10000
    rw [← b2, ← b3] at hs
    have hnh := nhalf_le b.xlb b.xub xtol 1074 b1 b8 hx
    have hn : nhalf b.xlb b.xub xtol = ⌈Real.logb 2 ((b.xub - b.xlb) / (2 * xtol))⌉ := by
      rw [nhalf, show 0.5 * (b.xub - b.xlb) / xtol = (b.xub - b.xlb) / (2 * xtol) by field_simp; ring]
    generalize search f yd xtol ftol _ b.xlb b.ylb b.xub b.yub 0 10000 = out at hs ⊢
    rw [← hn] at hs
    cases out with
    | early x => exact ⟨x, rfl, Or.inl hs⟩
    | done xl xu it =>
      obtain ⟨a1, a2, a3, a4, a5, a6, a7⟩ := hs
      have hit : it < 10000 := by
        rcases Nat.eq_zero_or_pos it with h | h
        · omega
        · have := a7 h
          omega
      refine ⟨0.5 * (xu + xl), by rw [finish, if_neg (by omega)], ?_⟩
      rcases a6 hit with h' | h'
      · exact Or.inr ⟨xl, xu, by linarith, by linarith, h', by ring, a1, a2⟩
      · refine Or.inl ?_
        have m1 : f xl ≤ f (0.5 * (xu + xl)) := hf.monotone (by linarith)
        have m2 : f (0.5 * (xu + xl)) ≤ f xu := hf.monotone (by linarith)
        rw [abs_lt]; constructor <;> linarith

/-- C36 (accuracy in terms of the root). If moreover the function is continuous and takes on the target within `2^128-1` of
the starting point, with mean slope at least `1e-12` over intervals longer than 10, there is exactly one root, and the call
succeeds and returns a point within `xtol/2` of it or with value within `ftol` of the target. -/
theorem C36_root (f : ℝ → ℝ) (hf : StrictMono f) (hc : Continuous f)
    (hsteep : ∀ a b, 10 < b - a → 1e-12 * (b - a) ≤ f b - f a) (yd x0 xtol ftol : ℝ) (hx : (2 : ℝ) ^ (-1074 : ℤ) ≤ xtol)
    (h1 : f (x0 - (2 ^ 128 - 1)) ≤ yd) (h2 : yd ≤ f (x0 + (2 ^ 128 - 1))) :
    ∃ r x, (∀ t, f t = yd ↔ t = r) ∧ inverseSingleBracket yd f x0 xtol ftol = (some x, 0) ∧
      (|f x - yd| < ftol ∨ |x - r| < xtol / 2) := by
  obtain ⟨r, _, hr⟩ := intermediate_value_Icc (f := f) (by linarith [show (0 : ℝ) ≤ 2 ^ 128 - 1 by norm_num] :
    x0 - (2 ^ 128 - 1) ≤ x0 + (2 ^ 128 - 1)) hc.continuousOn ⟨h1, h2⟩
  obtain ⟨x, e, h⟩ := (C36_inverse f hf yd x0 xtol ftol hx).2 (C35_succeeds f hsteep x0 x0 yd h1 h2)
  refine ⟨r, x, fun t => ⟨fun ht => hf.injective (ht.trans hr.symm), fun ht => ht ▸ hr⟩, e, h.imp id ?_⟩
  rintro ⟨xl, xu, l1, l2, l3, l4, l5, l6⟩
  have r1 : xl ≤ r := hf.le_iff_le.mp (by rw [hr]; exact l5)
  have r2 : r ≤ xu := hf.le_iff_le.mp (by rw [hr]; exact l6)
  rw [abs_lt, l4]
  constructor <;> linarith

/-- The hypotheses of `C36_root` are met by `x ↦ x + x^3` with target 10. -/
example : ∃ r x : ℝ, (∀ t, t + t ^ 3 = 10 ↔ t = r) ∧
    inverseSingleBracket 10 (fun x => x + x ^ 3) 0 1e-6 1e-6 = (some x, 0) ∧ (|x + x ^ 3 - 10| < 1e-6 ∨ |x - r| < 1e-6 / 2) := by
  have hm : StrictMono fun x : ℝ => x + x ^ 3 := fun a b h => by
    have : a ^ 3 < b ^ 3 := Odd.strictMono_pow (by decide) h
    dsimp; linarith
  refine C36_root _ hm (by fun_prop) (fun a b h => ?_) 10 0 1e-6 1e-6 ?_ (by norm_num) (by norm_num)
  · have : a ^ 3 ≤ b ^ 3 := (Odd.strictMono_pow (by decide)).monotone (by linarith)
    norm_num at *
    linarith
  · refine le_trans (zpow_le_zpow_right₀ (by norm_num) (by norm_num : (-1074 : ℤ) ≤ -20)) ?_
    norm_num

/-! ### C37 -/

/-- C37 fails: for every function and all arguments the status is 0 or -2, never the documented -1 for "the maximum number of
iterations was exceeded". -/
theorem C37_fails_status (f : ℝ → ℝ) (yd x0 xtol ftol : ℝ) :
    (inverseSingleBracket yd f x0 xtol ftol).2 = 0 ∨ (inverseSingleBracket yd f x0 xtol ftol).2 = -2 := by
  have key : ∀ (nhalf : ℝ) (n : Nat) (xlb ylb xub yub : ℝ) (it : Nat),
      match search f yd xtol ftol nhalf xlb ylb xub yub it n with
      | .early _ => True
      | .done _ _ it' => it' ≤ it + n := by
    intro nhalf n
    induction n with
    | zero => intro xlb ylb xub yub it; rw [search]; exact le_rfl
    | succ n ih =>
      intro xlb ylb xub yub it
      rw [search]
      generalize findXItp xlb xub yd ylb yub 0.1 2 nhalf 1 it xtol = xc
      have step : ∀ a b c d, match search f yd xtol ftol nhalf a b c d (it + 1) n with
          | .early _ => True
          | .done _ _ it' => it' ≤ it + (n + 1) := fun a b c d => by
        have := ih a b c d (it + 1)
        generalize search f yd xtol ftol nhalf a b c d (it + 1) n = out at this ⊢
        cases out with
        | early x => trivial
        | done xl xu it' => simp only at this ⊢; omega
      split_ifs
      · trivial
      · simp
      · exact step _ _ _ _
      · simp
      · exact step _ _ _ _
  rw [inverseSingleBracket]
  split_ifs with h
  · exact Or.inr rfl
  · left
    have := key (nhalf (findBracket f x0 x0 yd).xlb (findBracket f x0 x0 yd).xub xtol) 10000
      (findBracket f x0 x0 yd).xlb (findBracket f x0 x0 yd).ylb (findBracket f x0 x0 yd).xub (findBracket f x0 x0 yd).yub 0
    generalize search f yd xtol ftol _ _ _ _ _ _ _ = out at this ⊢
    cases out with
    | early x => rfl
    | done xl xu it' =>
      simp only at this
      rw [finish, if_neg (by omega)]

/-- A bisecting search on a step function. -/
theorem search_step (c xtol nhalf : ℝ) (n : Nat) : ∀ (xlb xub : ℝ) (it : Nat), xlb < c → c ≤ xub →
    0.5 * (xub - xlb) ≤ xtol * (2 : ℝ) ^ (nhalf + 1 - it) → xtol * 2 ^ n ≤ xub - xlb →
    ∃ xl xu, search (fun x => if x < c then -1 else 1) 0 xtol (1 / 2) nhalf xlb (-1) xub 1 it n = .done xl xu (it + n) ∧
      xu - xl = (xub - xlb) / 2 ^ n := by
  induction n with
  | zero => intro xlb xub it h1 h2 _ _; exact ⟨xlb, xub, rfl, by simp⟩
  | succ n ih =>
    intro xlb xub it h1 h2 h3 h4
    have hxc : findXItp xlb xub 0 (-1) 1 0.1 2 nhalf 1 it xtol = (xlb + xub) / 2 := by
      have e : (xub * (-1) - xlb * 1) / (-1 - 1) = 0.5 * (xub + xlb) := by ring
      rw [findXItp]
      simp only [e, sub_self, lt_irrefl, abs_zero, if_false, gt_iff_lt]
      have hp : 0 ≤ 0.1 * (xub - xlb) ^ (2 : ℝ) := mul_nonneg (by norm_num) (Real.rpow_nonneg (by linarith) _)
      rw [min_eq_right hp, zero_mul, add_zero, sub_self, abs_zero, min_eq_right (by linarith), mul_zero]
      ring
    have hhalf : xtol * (2 : ℝ) ^ (nhalf + 1 - ((it + 1 : Nat) : ℝ)) = xtol * (2 : ℝ) ^ (nhalf + 1 - it) / 2 := by
      rw [Nat.cast_add, Nat.cast_one, show nhalf + 1 - ((it : ℝ) + 1) = (nhalf + 1 - it) - 1 by ring,
        Real.rpow_sub_one (by norm_num)]
      ring
    rw [pow_succ] at h4
    have hp : (1 : ℝ) ≤ 2 ^ n := one_le_pow₀ (by norm_num)
    have hw : xtol ≤ (xub - xlb) / 2 := by
      rcases le_or_gt xtol 0 with h | h
      · linarith
      · nlinarith
    rw [search, hxc]
    by_cases hc : (xlb + xub) / 2 < c
    · rw [if_pos hc]
      rw [if_neg (by norm_num), if_neg (by norm_num), if_neg (by
        rintro (h | h)
        · linarith
        · norm_num at h)]
      obtain ⟨xl, xu, e, hw⟩ := ih ((xlb + xub) / 2) xub (it + 1) hc h2 (by rw [hhalf]; linarith) (by linarith)
      refine ⟨xl, xu, by rw [e]; congr 1; omega, by rw [hw, pow_succ]; field_simp; ring⟩
    · rw [if_neg hc]
      rw [if_neg (by norm_num), if_pos (by norm_num), if_neg (by
        rintro (h | h)
        · linarith
        · norm_num at h)]
      obtain ⟨xl, xu, e, hw⟩ := ih xlb ((xlb + xub) / 2) (it + 1) h1 (not_lt.mp hc) (by rw [hhalf]; linarith) (by linarith)
      refine ⟨xl, xu, by rw [e]; congr 1; omega, by rw [hw, pow_succ]; field_simp; ring⟩

/-- C37 fails (witness): for the step function from -1 to 1 at 1/3, target 0, start 0, `ftol = 1/2` and an `xtol` smaller than
`2^(-10000)`, all 10000 iterations are used up, neither tolerance is met (every value differs from the target by 1), and the
status is 0. (In floating point the same happens for much larger `xtol`, as soon as it is below the spacing of the doubles
around the jump.) -/
theorem C37_fails_limit (xtol : ℝ) (hx : 0 < xtol) (hx' : xtol * 2 ^ 10000 ≤ 1) :
    ∃ x, inverseSingleBracket 0 (fun x => if x < 1 / 3 then -1 else 1) 0 xtol (1 / 2) = (some x, 0) ∧
      (∀ t : ℝ, |(if t < 1 / 3 then (-1 : ℝ) else 1) - 0| = 1) ∧
      ∃ xl xu, search (fun x => if x < 1 / 3 then -1 else 1) 0 xtol (1 / 2) (nhalf 0 1 xtol) 0 (-1) 1 1 0 10000 =
        .done xl xu 10000 ∧ xtol ≤ xu - xl := by
  have hb : findBracket (fun x : ℝ => if x < 1 / 3 then -1 else 1) 0 0 0 = ⟨0, -1, 1, 1, 0⟩ := by
    have f0 : (if (0 : ℝ) < 1 / 3 then (-1 : ℝ) else 1) = -1 := if_pos (by norm_num)
    have f1 : (if (0 : ℝ) + 1 < 1 / 3 then (-1 : ℝ) else 1) = 1 := if_neg (by norm_num)
    rw [findBracket]
    rw [f0, if_neg (by norm_num), upLoop, f1, if_neg (by rintro ⟨_, h⟩; norm_num at h), if_neg (by norm_num), zero_add]
  obtain ⟨xl, xu, e, hw⟩ := search_step (1 / 3) xtol (nhalf 0 1 xtol) 10000 0 1 0 (by norm_num) (by norm_num)
    (nhalf_spec _ _ (by norm_num) hx) (by rw [sub_zero]; exact hx')
  rw [Nat.zero_add] at e
  refine ⟨0.5 * (xu + xl), ?_, fun t => by split <;> simp, xl, xu, e, ?_⟩
  · rw [inverseSingleBracket, hb]
    rw [if_neg (by norm_num)]
    dsimp only
    rw [e, finish, if_neg (lt_irrefl _)]
  · rw [hw, le_div_iff₀ (by positivity), sub_zero]; exact hx'

/-- C37 as far as it holds: a failed search for a bracket is reported, with a NaN. -/
theorem C37_partial (f : ℝ → ℝ) (yd x0 xtol ftol : ℝ) (h : (findBracket f x0 x0 yd).info < 0) :
    inverseSingleBracket yd f x0 xtol ftol = (none, -2) := by
  rw [inverseSingleBracket]
  rw [if_pos (Or.inl h)]

end MParT.RootFinding
