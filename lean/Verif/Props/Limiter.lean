import Verif.Model.Limiter
import Verif.Lemmas.Neighborhood
import Verif.Props.MultiIndex
import Mathlib.Algebra.BigOperators.Fin
import Mathlib.Algebra.BigOperators.Intervals
import Mathlib.Algebra.Order.BigOperators.Group.Finset
import Mathlib.Algebra.Order.BigOperators.Ring.Finset
import Mathlib.Tactic.Linarith
/-!
# Property C06: the limiters

`v` is the dense vector of the multi-index; acceptance is compared with the documented region.
-/
namespace MParT
namespace Limiter
open MultiIndex Spec

/-- **C06.** `TotalOrder(p)`: the entries sum to at most `p`. -/
theorem C06_totalOrder {m : MultiIndex} {v : List Nat} (h : Built m v) (p : Nat) :
    totalOrder p m = .ok (decide (v.sum ≤ p)) := by
  obtain rfl := h.eq_ofVec
  simp [totalOrder, MultiIndex.sum]

theorem zeroLoop_true_iff (v : List Nat) (i n : Nat) :
    zeroLoop (ofVec v) i n = .ok true ↔ ∀ j, i ≤ j → j < i + n → j ≤ v.length ∧ v.getD j 0 = 0 := by
  induction n generalizing i with
  | zero => simp [zeroLoop]; omega
  | succ n ih =>
    simp only [zeroLoop, get_ofVec]
    split
    · rename_i h
      simp only [Res.bind_throw, reduceCtorEq, false_iff]
      intro hc
      have := (hc i (le_refl _) (by omega)).1; omega
    · rename_i h
      simp only [Res.bind_ok]
      split
      · rename_i hx
        simp only [Res.pure_eq, Res.ok.injEq, Bool.false_eq_true, false_iff]
        intro hc
        exact hx (hc i (le_refl _) (by omega)).2
      · rename_i hx
        rw [ih]
        constructor
        · intro hh j h1 h2
          rcases Nat.lt_or_ge i j with g | g
          · exact hh j (by omega) (by omega)
          · have : j = i := by omega
            subst this; exact ⟨by omega, by omega⟩
        · intro hh j h1 h2; exact hh j (by omega) (by omega)

theorem zeroLoop_ok (v : List Nat) (i n : Nat) (h : i + n ≤ v.length + 1) :
    ∃ r, zeroLoop (ofVec v) i n = .ok r := by
  induction n generalizing i with
  | zero => exact ⟨_, rfl⟩
  | succ n ih =>
    simp only [zeroLoop, get_ofVec]
    rw [if_neg (by omega)]
    simp only [Res.bind_ok]
    split
    · exact ⟨_, rfl⟩
    · exact ih _ (by omega)

theorem dimension_true_iff (v : List Nat) (l n : Nat) :
    dimension l n (ofVec v) = .ok true ↔
      l ≤ v.length + 1 ∧ ∀ i, i < l ∨ l + n ≤ i → v.getD i 0 = 0 := by
  unfold dimension
  rw [Res.bind_eq_ok]
  have out : ∀ i, v.length ≤ i → v.getD i 0 = 0 := fun i hi => by
    rw [List.getD_eq_getElem?_getD, List.getElem?_eq_none hi]; rfl
  constructor
  · rintro ⟨a, h1, h2⟩
    cases a with
    | false => simp at h2
    | true =>
      simp only [Bool.not_true, Bool.false_eq_true, if_false, ofVec_length] at h2
      rw [zeroLoop_true_iff] at h1 h2
      refine ⟨?_, ?_⟩
      · by_contra hc
        have := (h1 (v.length + 1) (by omega) (by omega)).1; omega
      · rintro i (hi | hi)
        · exact (h1 i (by omega) (by omega)).2
        · by_cases hv : i < v.length
          · exact (h2 i hi (by omega)).2
          · exact out i (by omega)
  · rintro ⟨h1, h2⟩
    refine ⟨true, ?_, ?_⟩
    · rw [zeroLoop_true_iff]
      intro j _ hj
      exact ⟨by omega, h2 j (Or.inl (by omega))⟩
    · simp only [Bool.not_true, Bool.false_eq_true, if_false, ofVec_length]
      rw [zeroLoop_true_iff]
      intro j hj1 hj2
      exact ⟨by omega, h2 j (Or.inr hj1)⟩

/-- **C06.** `Dimension(l,n)`: accepts iff every entry outside `[l,l+n)` is zero (no exception as
long as `l ≤ Length()+1`). -/
theorem C06_dimension_partial {m : MultiIndex} {v : List Nat} (h : Built m v) (l n : Nat)
    (hl : l ≤ v.length + 1) :
    ∃ r, dimension l n m = .ok r ∧
      (r = true ↔ ∀ i, i < l ∨ l + n ≤ i → v.getD i 0 = 0) := by
  obtain rfl := h.eq_ofVec
  have hok : ∃ r, dimension l n (ofVec v) = .ok r := by
    unfold dimension
    obtain ⟨a, ha⟩ := zeroLoop_ok v 0 l (by omega)
    rw [ha]
    cases a with
    | false => exact ⟨false, by simp⟩
    | true =>
      simp only [Res.bind_ok, Bool.not_true, Bool.false_eq_true, if_false, ofVec_length]
      by_cases hc : l + n ≤ v.length
      · exact zeroLoop_ok v _ _ (by omega)
      · have : v.length - (l + n) = 0 := by omega
        rw [this]; exact ⟨true, rfl⟩
  obtain ⟨r, hr⟩ := hok
  refine ⟨r, hr, ?_⟩
  have := dimension_true_iff v l n
  rw [hr] at this
  simp only [Res.ok.injEq] at this
  rw [this]
  simp [hl]

theorem maxDegreeLoop_eq (v p : List Nat) (hl : v.length = p.length) (i n : Nat)
    (hn : i + n = v.length) :
    ∃ r, maxDegreeLoop p (ofVec v) i n = .ok r ∧
      (r = true ↔ ∀ j, i ≤ j → v.getD j 0 ≤ p.getD j 0) := by
  induction n generalizing i with
  | zero =>
    refine ⟨true, rfl, ?_⟩
    simp only [true_iff]; intro j hj
    rw [List.getD_eq_getElem?_getD, List.getElem?_eq_none (by omega)]; simp
  | succ n ih =>
    have hv : i < v.length := by omega
    have hp : i < p.length := by omega
    simp only [maxDegreeLoop, get_ofVec_lt hv, Res.at'_lt hp, Res.bind_ok]
    split
    · rename_i h
      refine ⟨false, rfl, ?_⟩
      simp only [Bool.false_eq_true, false_iff]; intro hc
      have := hc i (le_refl _)
      rw [getD_lt hp] at this; omega
    · rename_i h
      obtain ⟨r, h1, h2⟩ := ih (i + 1) (by omega)
      refine ⟨r, h1, h2.trans ⟨fun hh j hj => ?_, fun hh j hj => hh j (by omega)⟩⟩
      rcases Nat.lt_or_ge i j with g | g
      · exact hh j (by omega)
      · have : j = i := by omega
        subst this; rw [getD_lt hp]; omega

/-- **C06.** `MaxDegree(p)`: lengths agree and every entry is at most its bound. -/
theorem C06_maxDegree {m : MultiIndex} {v : List Nat} (h : Built m v) (p : List Nat) :
    ∃ r, maxDegree p m = .ok r ∧
      (r = true ↔ v.length = p.length ∧ ∀ i, v.getD i 0 ≤ p.getD i 0) := by
  obtain rfl := h.eq_ofVec
  simp only [maxDegree, ofVec_length]
  split
  · rename_i hc
    exact ⟨false, rfl, by simp [hc]⟩
  · rename_i hc
    push Not at hc
    obtain ⟨r, h1, h2⟩ := maxDegreeLoop_eq v p hc 0 v.length (by omega)
    exact ⟨r, h1, by rw [h2]; simp [hc]⟩

theorem anisoLoop_eq (w : List Rat) (v : List Nat) (hl : v.length = w.length) (pr : Rat) (i n : Nat)
    (hn : i + n = v.length) :
    anisoLoop w (ofVec v) pr i n
      = .ok (pr * ∏ j ∈ Finset.Ico i (i + n), w.getD j 0 ^ v.getD j 0) := by
  induction n generalizing i pr with
  | zero => simp [anisoLoop]
  | succ n ih =>
    have hv : i < v.length := by omega
    have hw : i < w.length := by omega
    simp only [anisoLoop, Res.at'_lt hw, get_ofVec_lt hv, Res.bind_ok]
    rw [ih _ _ (by omega), show i + (n + 1) = (i + 1) + n by omega,
      Finset.prod_eq_prod_Ico_succ_bot (by omega : i < i + 1 + n),
      show w.getD i 0 = w[i] by simp [hw], mul_assoc]

/-- **C06.** `Anisotropic(w,ε)`: lengths agree and the weighted product `∏ w_i^{v_i}` is at least
`ε`.  (The documentation says `> ε`; the code accepts equality.) -/
theorem C06_anisotropic {m : MultiIndex} {v : List Nat} (h : Built m v) (w : List Rat) (eps : Rat) :
    anisotropic w eps m = .ok (decide (v.length = w.length ∧
      eps ≤ ∏ i ∈ Finset.range v.length, w.getD i 0 ^ v.getD i 0)) := by
  obtain rfl := h.eq_ofVec
  simp only [anisotropic, ofVec_length]
  split
  · rename_i hc; simp [hc]
  · rename_i hc
    push Not at hc
    rw [anisoLoop_eq w v hc 1 0 _ (by omega)]
    simp [hc]

/-- **C06.** `None` accepts everything; `And`, `Or`, `Xor` are the boolean combinations. -/
theorem C06_boolean {a b : Lim} {m : MultiIndex} {x y : Bool} (ha : a m = .ok x) (hb : b m = .ok y) :
    none m = .ok true ∧ and a b m = .ok (x && y) ∧ or a b m = .ok (x || y) ∧
    xor a b m = .ok (x ^^ y) := by
  cases x <;> simp [none, and, or, xor, ha, hb]

/-- A limiter is downward closed if lowering entries keeps a vector accepted. -/
def DownClosed (L : Lim) : Prop :=
  ∀ u v : List Nat, Le u v → L (ofVec v) = .ok true → L (ofVec u) = .ok true

/-- **C06.** The basic limiters (anisotropic with valid parameters) are downward closed, and
`And`/`Or` keep this when their parts never throw. -/
theorem C06_downClosed :
    (∀ p, DownClosed (totalOrder p)) ∧ (∀ l n, DownClosed (dimension l n)) ∧
    (∀ p, DownClosed (maxDegree p)) ∧ DownClosed none ∧
    (∀ w eps, anisotropicValid w eps = true → DownClosed (anisotropic w eps)) ∧
    (∀ a b : Lim, DownClosed a → DownClosed b → (∀ m, ∃ r, a m = .ok r) →
      DownClosed (and a b) ∧ ((∀ m, ∃ r, b m = .ok r) → DownClosed (or a b))) := by
  refine ⟨?_, ?_, ?_, ?_, ?_, ?_⟩
  · intro p u v hle h
    rw [C06_totalOrder (Built.ofVec _)] at *
    have := Neighborhood.sum_le_of_le u v hle.1 hle.2
    simp only [Res.ok.injEq, decide_eq_true_eq] at *
    omega
  · intro l n u v hle h
    rw [dimension_true_iff] at *
    refine ⟨by rw [hle.1]; exact h.1, fun i hi => ?_⟩
    have := h.2 i hi
    have := hle.2 i; omega
  · intro p u v hle h
    obtain ⟨r, h1, h2⟩ := C06_maxDegree (Built.ofVec v) p
    obtain ⟨r', h1', h2'⟩ := C06_maxDegree (Built.ofVec u) p
    rw [h1] at h; simp only [Res.ok.injEq] at h
    rw [h1']; congr 1
    rw [h2']
    have := h2.1 h
    exact ⟨by rw [hle.1]; exact this.1, fun i => (hle.2 i).trans (this.2 i)⟩
  · intro u v _ _; rfl
  · intro w eps hval u v hle h
    rw [C06_anisotropic (Built.ofVec _)] at *
    simp only [Res.ok.injEq, decide_eq_true_eq] at *
    refine ⟨by rw [hle.1]; exact h.1, h.2.trans ?_⟩
    simp only [anisotropicValid, Bool.and_eq_true, List.all_eq_true, Bool.not_eq_true',
      Bool.or_eq_false_iff, decide_eq_false_iff_not, not_lt] at hval
    rw [hle.1]
    apply Finset.prod_le_prod
    · intro i hi
      have hi' : i < w.length := by rw [← h.1]; simpa using hi
      apply pow_nonneg
      have := (hval.1 _ (List.getElem_mem hi')).2
      simpa [hi'] using this
    · intro i hi
      have hi' : i < w.length := by rw [← h.1]; simpa using hi
      have hh := hval.1 _ (List.getElem_mem hi')
      have e : w.getD i 0 = w[i] := by simp [hi']
      rw [e]
      exact pow_le_pow_of_le_one (by simpa using hh.2) (by simpa using hh.1) (hle.2 i)
  · intro a b ha hb hta
    constructor
    · intro u v hle h
      obtain ⟨x, hx⟩ := hta (ofVec v)
      unfold and at *
      rw [hx] at h
      cases x with
      | false => simp at h
      | true =>
        simp only [Res.bind_ok, if_true] at h
        rw [ha u v hle hx]
        simpa using hb u v hle h
    · intro htb u v hle h
      obtain ⟨x, hx⟩ := hta (ofVec v)
      obtain ⟨y, hy⟩ := hta (ofVec u)
      unfold or at *
      rw [hx] at h
      rw [hy]
      cases x with
      | false =>
        simp only [Res.bind_ok, Bool.false_eq_true, if_false] at h
        have := hb u v hle h
        cases y <;> simp [this]
      | true =>
        have := ha u v hle hx
        rw [this] at hy
        simp only [Res.ok.injEq] at hy
        subst hy; simp

/-- **C06.** The constructor of `Anisotropic` accepts exactly weights between 0 and 1 and thresholds strictly between 0 and 1. -/
theorem C06_anisotropicValid (w : List Rat) (eps : Rat) :
    anisotropicValid w eps = true ↔ (∀ x ∈ w, 0 ≤ x ∧ x ≤ 1) ∧ 0 < eps ∧ eps < 1 := by
  simp only [anisotropicValid, Bool.and_eq_true, List.all_eq_true, Bool.not_eq_true', Bool.or_eq_false_iff, decide_eq_false_iff_not, not_lt,
    not_le, ge_iff_le, gt_iff_lt]
  exact ⟨fun h => ⟨fun x hx => (h.1 x hx).symm, h.2.2, h.2.1⟩, fun h => ⟨fun x hx => (h.1 x hx).symm, h.2.2, h.2.1⟩⟩

/-- **C06.** `Xor` of downward-closed limiters need not be downward closed. -/
theorem C06_xor_not_downClosed : ¬ DownClosed (xor (totalOrder 1) (totalOrder 2)) := by
  intro h
  have := h [1] [2] ⟨rfl, fun i => by rcases i with _ | i <;> simp⟩ (by decide)
  revert this; decide

-- concrete cases
example : anisotropicValid [1/2, 1] (1/4) = true ∧
    anisotropic [1/2, 1] (1/4) (ofVec [2, 7]) = .ok true ∧
    anisotropic [1/2, 1] (1/4) (ofVec [3, 0]) = .ok false ∧
    dimension 1 1 (ofVec [0, 4, 0]) = .ok true ∧ dimension 1 1 (ofVec [0, 4, 1]) = .ok false ∧
    maxDegree [2, 3] (ofVec [2, 3]) = .ok true ∧ maxDegree [2, 3] (ofVec [2, 4]) = .ok false ∧
    totalOrder 3 (ofVec [1, 2]) = .ok true := by
  refine ⟨by decide +kernel, by decide +kernel, by decide +kernel, by decide, by decide, by decide,
    by decide, by decide⟩

/-- **C06, disagreement.** Against the documentation (`∏ w^ν > ε`), equality is accepted. -/
theorem C06_fails_anisotropic :
    anisotropic [1/2] (1/4) (ofVec [2]) = .ok true ∧ ¬ ((1/4 : Rat) < (1/2) ^ 2) := by
  constructor
  · decide +kernel
  · norm_num

/-- **C06, error branch.** `Dimension(l,n)` on an all-zero multi-index throws when `l` exceeds the
length by more than one. -/
theorem C06_fails_dimension (k l n : Nat) (h : k + 1 < l) :
    dimension l n (ofVec (List.replicate k 0)) = .throw := by
  have key : ∀ (n i : Nat), i ≤ k + 1 → k + 1 < i + n →
      zeroLoop (ofVec (List.replicate k 0)) i n = .throw := by
    intro n
    induction n with
    | zero => intro i h1 h2; omega
    | succ n ih =>
      intro i h1 h2
      simp only [zeroLoop, get_ofVec, List.length_replicate]
      split
      · rfl
      · rename_i h3
        have : (List.replicate k 0).getD i 0 = 0 := by
          rw [List.getD_eq_getElem?_getD, List.getElem?_replicate]; split <;> rfl
        simp only [Res.bind_ok, this, ne_eq, not_true, if_false]
        exact ih (i + 1) (by omega) (by omega)
  unfold dimension
  rw [key l 0 (by omega) (by omega)]
  rfl

end Limiter
end MParT
