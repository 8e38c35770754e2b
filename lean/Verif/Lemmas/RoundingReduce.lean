import Verif.Lemmas.Rounding
import Mathlib.Algebra.BigOperators.Group.List.Basic
/-! Helper lemmas for rounding errors in reductions. -/
namespace MParT.Parallel
open Spec

section getD
variable {R : Type*} [Add R] [Mul R] [Zero R]

theorem op_getD (m : ReduceDimMap) (d : Bool) (A : Nat → Nat → R) (alpha : R) (j : Nat) (s : List R) :
    (reduceOp m d A alpha j s).length = s.length ∧ ∀ i < s.length,
      (reduceOp m d A alpha j s).getD i 0 = s.getD i 0 + m.kernel (if d then A i j else A j i) * alpha := by
  refine ⟨by simp [reduceOp], fun i hi => ?_⟩
  simp [reduceOp, List.getD_eq_getElem?_getD, List.getElem?_mapIdx, List.getElem?_eq_getElem hi]

end getD

variable {u : ℝ} {fl : ℝ → ℝ}

/-- The entry `i` of the accumulator while a part is worked on. -/
theorem fold_close (hfl : RelError u fl) (m : ReduceDimMap) (d : Bool) (A : Nat → Nat → Fl fl) (alpha : Fl fl) (i c : Nat) (t T : Nat → ℝ)
    (hk : ∀ j, Close u c (m.kernel (if d then A i j else A j i) * alpha).val (t j) (T j)) (l : List Nat) :
    ∀ (s : List (Fl fl)) (q : Nat) (a B : ℝ), i < s.length → c ≤ q → Close u q (s.getD i 0).val a B →
      (l.foldl (fun s j => reduceOp m d A alpha j s) s).length = s.length ∧
      Close u (q + l.length) ((l.foldl (fun s j => reduceOp m d A alpha j s) s).getD i 0).val (a + (l.map t).sum) (B + (l.map T).sum) := by
  induction l with
  | nil => intro s q a B _ _ h; exact ⟨rfl, by simpa using h⟩
  | cons j l ih =>
    intro s q a B hi hq h
    obtain ⟨h1, h2⟩ := op_getD m d A alpha j s
    have h3 := h.add hfl ((hk j).mono hfl.nonneg hq)
    obtain ⟨h4, h5⟩ := ih (reduceOp m d A alpha j s) (q + 1) (a + t j) (B + T j) (by rw [h1]; exact hi) (by omega) (by rw [h2 i hi]; exact h3)
    refine ⟨h4.trans h1, ?_⟩
    rw [List.foldl_cons, List.map_cons, List.map_cons, List.sum_cons, List.sum_cons, List.length_cons,
      show q + (l.length + 1) = q + 1 + l.length by omega, ← add_assoc a, ← add_assoc B]
    exact h5

/-- The entry `i` of the result. -/
theorem reduce_close (hfl : RelError u fl) (m : ReduceDimMap) (d : Bool) (n : Nat) (A : Nat → Nat → Fl fl) (alpha : Fl fl) {i : Nat} (hi : i < n)
    (c : Nat) (t T : Nat → ℝ) (hk : ∀ j, Close u c (m.kernel (if d then A i j else A j i) * alpha).val (t j) (T j)) (s : Split) :
    (reduce m d n A alpha s).length = n ∧
    Close u (c + additions s) ((reduce m d n A alpha s).getD i 0).val ((s.indices.map t).sum) ((s.indices.map T).sum) := by
  induction s with
  | chunk l =>
    have hl : (reduceInit n : List (Fl fl)).length = n := by simp [reduceInit]
    have h0 : (reduceInit n : List (Fl fl)).getD i 0 = 0 := by simp [reduceInit, List.getD_eq_getElem?_getD, List.getElem?_replicate, hi]
    obtain ⟨h1, h2⟩ := fold_close hfl m d A alpha i c t T hk l (reduceInit n) c 0 0 (by rw [hl]; exact hi) le_rfl
      (by rw [h0]; exact Close.zero hfl.nonneg c)
    refine ⟨h1.trans hl, ?_⟩
    rw [zero_add, zero_add] at h2
    exact h2
  | join a b iha ihb =>
    simp only [reduce, reduceJoin, Split.indices, List.map_append, List.sum_append, additions]
    refine ⟨by simp [iha.1, ihb.1], ?_⟩
    have e : (List.zipWith (· + ·) (reduce m d n A alpha a) (reduce m d n A alpha b)).getD i 0
        = (reduce m d n A alpha a).getD i 0 + (reduce m d n A alpha b).getD i 0 := by
      rw [List.getD_eq_getElem?_getD, List.getElem?_zipWith, List.getD_eq_getElem?_getD, List.getD_eq_getElem?_getD,
        List.getElem?_eq_getElem (by rw [iha.1]; exact hi), List.getElem?_eq_getElem (by rw [ihb.1]; exact hi)]
      rfl
    rw [e, ← add_assoc]
    exact (iha.2.mono hfl.nonneg (by omega)).add hfl (ihb.2.mono hfl.nonneg (by omega))
  | andThen a l iha =>
    obtain ⟨h1, h2⟩ := fold_close hfl m d A alpha i c t T hk l _ (c + additions a) _ _ (by rw [iha.1]; exact hi) (by omega) iha.2
    simp only [reduce, Split.indices, List.map_append, List.sum_append, additions, ← add_assoc]
    exact ⟨h1.trans iha.1, h2⟩

/-- The sum in the objective. -/
theorem negFold_close (hfl : RelError u fl) (x : Nat → Fl fl) (l : List Nat) : ∀ (s : Fl fl) (q : Nat) (a B : ℝ), Close u q s.val a B →
    Close u (q + l.length) (l.foldl (fun s i => s - x i) s).val (a - (l.map fun i => (x i).val).sum) (B + (l.map fun i => |(x i).val|).sum) := by
  induction l with
  | nil => intro s q a B h; simpa using h
  | cons j l ih =>
    intro s q a B h
    have := ih _ (q + 1) _ _ (h.sub hfl (Close.exact hfl.nonneg q (x j).val))
    rw [List.foldl_cons, List.map_cons, List.map_cons, List.sum_cons, List.sum_cons, List.length_cons,
      show q + (l.length + 1) = q + 1 + l.length by omega, ← sub_sub, ← add_assoc B]
    exact this

theorem negSum_close (hfl : RelError u fl) (x : Nat → Fl fl) (s : Split) :
    Close u (additions s) (negSum x s).val (-(s.indices.map fun i => (x i).val).sum) ((s.indices.map fun i => |(x i).val|).sum) := by
  induction s with
  | chunk l =>
    have := negFold_close hfl x l 0 0 0 0 (Close.zero hfl.nonneg 0)
    rwa [zero_add, zero_add, zero_sub] at this
  | join a b iha ihb =>
    simp only [negSum, Split.indices, List.map_append, List.sum_append, additions, neg_add]
    exact (iha.mono hfl.nonneg (by omega)).add hfl (ihb.mono hfl.nonneg (by omega))
  | andThen a l iha =>
    have := negFold_close hfl x l _ _ _ _ iha
    simp only [negSum, Split.indices, List.map_append, List.sum_append, additions, neg_add, ← sub_eq_add_neg]
    exact this

end MParT.Parallel
