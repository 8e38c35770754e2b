import Verif.Model.Parallel
import Mathlib.Tactic.Linarith
import Mathlib.Tactic.Positivity
import Mathlib.Tactic.FieldSimp
import Mathlib.Tactic.NormNum
import Mathlib.Algebra.BigOperators.Group.List.Lemmas
/-!
# C50, C51: parallel loops and reductions do not depend on the schedule
-/
namespace MParT.Spec

/-- Rounding of IEEE double precision, as far as it matters: integers below `2^53` are exact, other results have a relative
error of at most `2^-53`. -/
def IsRounding (fl : ℚ → ℚ) : Prop :=
  (∀ k : Nat, k < 2 ^ 53 → fl k = k) ∧ ∀ x : ℚ, 1 ≤ x → x < 2 ^ 53 → |fl x - x| ≤ x / 2 ^ 53

end MParT.Spec

namespace MParT.Parallel
open MParT.Spec

/-- The division and `ceil` in double precision give the exact number of teams. -/
theorem ceil_exact {fl : ℚ → ℚ} (hfl : IsRounding fl) {n t : Nat} (ht : 0 < t) (htn : t ≤ n) (hn : n < 2 ^ 32) :
    ⌈fl ((n : ℚ) / t)⌉₊ = (n + t - 1) / t := by
  have htq : (0 : ℚ) < t := by exact_mod_cast ht
  obtain ⟨q, r, hr, hqr⟩ : ∃ q r, r < t ∧ n = q * t + r :=
    ⟨n / t, n % t, Nat.mod_lt _ ht, by rw [Nat.mul_comm]; exact (Nat.div_add_mod n t).symm⟩
  have hq1 : 1 ≤ q := by
    by_contra hq
    have : q = 0 := by omega
    subst this; omega
  have hqn : q ≤ n := by
    calc q = q * 1 := (Nat.mul_one q).symm
      _ ≤ q * t := Nat.mul_le_mul_left q ht
      _ ≤ n := by omega
  by_cases hr0 : r = 0
  · subst hr0
    have e : (n : ℚ) / t = (q : Nat) := by
      rw [hqr]; push_cast; field_simp; ring
    rw [e, hfl.1 q (by omega), Nat.ceil_natCast, hqr]
    symm
    rw [Nat.add_zero, Nat.add_sub_assoc ht, Nat.add_comm, Nat.add_mul_div_right _ _ ht, Nat.div_eq_of_lt (by omega), Nat.zero_add]
  · have hrhs : (n + t - 1) / t = q + 1 := by
      rw [hqr, show q * t + r + t - 1 = (r - 1) + (q + 1) * t by rw [Nat.add_mul]; omega, Nat.add_mul_div_right _ _ ht,
        Nat.div_eq_of_lt (by omega), Nat.zero_add]
    rw [hrhs]
    have hqq : (1 : ℚ) ≤ q := by exact_mod_cast hq1
    have hx : (n : ℚ) / t = q + r / t := by
      rw [hqr]; push_cast; field_simp
    have hrt : (1 : ℚ) ≤ r := by exact_mod_cast Nat.one_le_iff_ne_zero.2 hr0
    have hrt' : (r : ℚ) + 1 ≤ t := by exact_mod_cast hr
    have hqt : (q : ℚ) * t + r < 2 ^ 32 := by
      have : ((q * t + r : Nat) : ℚ) < ((2 ^ 32 : Nat) : ℚ) := by rw [← hqr]; exact_mod_cast hn
      push_cast at this; exact this
    have hfrac1 : (r : ℚ) / t * t = r := by field_simp
    have hpos : (0 : ℚ) ≤ r / t := by positivity
    have hx1 : (1 : ℚ) ≤ (n : ℚ) / t := by rw [hx]; linarith
    have hxt : (n : ℚ) / t * t = n := by field_simp
    have hx2 : (n : ℚ) / t ≤ n := by
      have : (1 : ℚ) ≤ t := by exact_mod_cast ht
      nlinarith
    have hnq : (n : ℚ) < 2 ^ 32 := by exact_mod_cast hn
    have herr := hfl.2 _ hx1 (hx2.trans_lt (hnq.trans (by norm_num)))
    obtain ⟨h1, h2⟩ := abs_le.1 herr
    -- the error is smaller than `1 / t`
    have hsmall : (n : ℚ) / t / 2 ^ 53 < 1 / t := by
      rw [div_div, mul_comm, ← div_div]
      apply div_lt_div_of_pos_right _ htq
      rw [div_lt_one (by norm_num)]
      exact hnq.trans (by norm_num)
    have hlow : (q : ℚ) < fl ((n : ℚ) / t) := by
      have : (1 : ℚ) / t ≤ r / t := div_le_div_of_nonneg_right hrt htq.le
      rw [hx] at h1 hsmall ⊢
      linarith
    have hup : fl ((n : ℚ) / t) ≤ q + 1 := by
      have : (r : ℚ) / t + 1 / t ≤ 1 := by
        rw [← add_div, div_le_one htq]; exact hrt'
      rw [hx] at h2 hsmall ⊢
      linarith
    rw [Nat.ceil_eq_iff (by omega)]
    constructor
    · simpa using hlow
    · push_cast; exact hup

theorem policy_eq {fl : ℚ → ℚ} (hfl : IsRounding fl) {numPts rec : Nat} (hp : 0 < numPts) (hr : 0 < rec) (hn : numPts < 2 ^ 32) :
    cachedRangePolicy fl numPts rec = .ok ((numPts + min numPts rec - 1) / min numPts rec, min numPts rec) := by
  unfold cachedRangePolicy
  dsimp only
  rw [if_neg (by omega), ceil_exact hfl (by omega) (by omega) hn]

/-- The policy covers every point exactly once: every point belongs to exactly one of the threads that are started, for every
number of points, every recommended team size and every rounding of the division; the indices of the threads that are started
do not overflow. -/
theorem C50_coverage {fl : ℚ → ℚ} (hfl : IsRounding fl) {numPts rec : Nat} (hp : 0 < numPts) (hr : 0 < rec)
    (hn : numPts + min numPts rec ≤ 2 ^ 31) :
    ∃ teams size, cachedRangePolicy fl numPts rec = .ok (teams, size) ∧ size ≤ rec ∧
      (∀ p < numPts, ∃! t : Nat × Nat, t.1 < teams ∧ t.2 < size ∧ ptInd size t = .ok p) ∧
      ∀ t : Nat × Nat, t.1 < teams → t.2 < size → ∃ p, ptInd size t = .ok p := by
  refine ⟨_, _, policy_eq hfl hp hr (by omega), by omega, ?_, ?_⟩
  all_goals
    generalize hs : min numPts rec = size at *
    have hs0 : 0 < size := by omega
  · intro p hpn
    refine ⟨(p / size, p % size), ⟨?_, Nat.mod_lt _ hs0, ?_⟩, ?_⟩
    · show p / size < (numPts + size - 1) / size
      rw [Nat.div_lt_iff_lt_mul hs0]
      have := Nat.div_add_mod (numPts + size - 1) size
      have h2 := Nat.mod_lt (numPts + size - 1) hs0
      have h3 : size * ((numPts + size - 1) / size) = (numPts + size - 1) / size * size := Nat.mul_comm _ _
      omega
    · have : p / size * size + p % size = p := Nat.div_add_mod' p size
      unfold ptInd
      dsimp only
      rw [this, if_pos (by omega)]
    · rintro ⟨l, r⟩ ⟨_, h2, h3⟩
      unfold ptInd at h3
      simp only at h2 h3
      split at h3
      · simp only [Res.ok.injEq] at h3
        refine Prod.ext ?_ ?_
        · show l = p / size
          rw [← h3, Nat.add_comm, Nat.add_mul_div_right _ _ hs0, Nat.div_eq_of_lt h2, Nat.zero_add]
        · show r = p % size
          rw [← h3, Nat.add_comm, Nat.add_mul_mod_self_right, Nat.mod_eq_of_lt h2]
      · exact absurd h3 (by simp)
  · rintro ⟨l, r⟩ h1 h2
    refine ⟨l * size + r, ?_⟩
    unfold ptInd
    dsimp only at h1 h2 ⊢
    rw [if_pos]
    have h3 : (numPts + size - 1) / size * size ≤ numPts + size - 1 := Nat.div_mul_le_self _ _
    have h4 : (l + 1) * size ≤ (numPts + size - 1) / size * size := Nat.mul_le_mul_right _ h1
    rw [Nat.add_mul] at h4
    omega

/-- The hypotheses hold for exact division and, for instance, 1000 points with 7 threads per team. -/
theorem exact_rounding : IsRounding (fun x => x) := ⟨fun _ _ => rfl, fun x hx _ => by simp; positivity⟩

example : ∃ teams size, cachedRangePolicy (fun x => x) 1000 7 = .ok (teams, size) ∧ size ≤ 7 ∧
      (∀ p < 1000, ∃! t : Nat × Nat, t.1 < teams ∧ t.2 < size ∧ ptInd size t = .ok p) ∧
      ∀ t : Nat × Nat, t.1 < teams → t.2 < size → ∃ p, ptInd size t = .ok p :=
  C50_coverage exact_rounding (by norm_num) (by norm_num) (by norm_num)

/-- With no points the policy is undefined: the division is 0/0. -/
theorem C50_fails_no_points (fl : ℚ → ℚ) (rec : Nat) : cachedRangePolicy fl 0 rec = .ub := by
  simp [cachedRangePolicy]

/-- The bound on the number of points is needed: with three thousand million points (the count is an `unsigned int`) and teams
of one thread, a thread that is started computes its index with an `int` overflow. -/
theorem C50_fails_overflow : cachedRangePolicy (fun x => x) 3000000000 1 = .ok (3000000000, 1) ∧
    ptInd 1 (2147483648, 0) = .ub := by
  refine ⟨?_, by simp [ptInd]⟩
  rw [policy_eq exact_rounding (by norm_num) (by norm_num) (by norm_num)]
  norm_num

/-! ## Schedules -/

theorem ptInd_inj {size : Nat} (hs : 0 < size) {t t' : Nat × Nat} {p : Nat} (h : t.2 < size) (h' : t'.2 < size)
    (e : ptInd size t = .ok p) (e' : ptInd size t' = .ok p) : t = t' := by
  unfold ptInd at e e'
  split at e
  · split at e'
    · simp only [Res.ok.injEq] at e e'
      have h1 : t.1 = p / size := by
        rw [← e, Nat.add_comm, Nat.add_mul_div_right _ _ hs, Nat.div_eq_of_lt h, Nat.zero_add]
      have h2 : t'.1 = p / size := by
        rw [← e', Nat.add_comm, Nat.add_mul_div_right _ _ hs, Nat.div_eq_of_lt h', Nat.zero_add]
      refine Prod.ext (h1.trans h2.symm) ?_
      rw [h1] at e
      rw [h2] at e'
      omega
    · simp at e'
  · simp at e

/-- What a thread has done so far plus what it still has to do is always its whole work. -/
theorem run_inv {σ : Type*} {teams size numPts : Nat} (hs : 0 < size) (kernel : Nat → List (σ → σ)) (cols : Nat → σ)
    (schedule : List (Nat × Nat)) :
    (∀ t : Nat × Nat, t.1 < teams → t.2 < size → ∀ p, ptInd size t = .ok p →
      ((parallelFor teams size numPts kernel cols schedule).todo t).foldl (fun c s => s c)
          ((parallelFor teams size numPts kernel cols schedule).cols p)
        = (work numPts kernel size t).foldl (fun c s => s c) (cols p)) ∧
    ∀ p, (∀ t : Nat × Nat, t.1 < teams → t.2 < size → ptInd size t ≠ .ok p) →
      (parallelFor teams size numPts kernel cols schedule).cols p = cols p := by
  unfold parallelFor
  generalize hl : schedule.filter (fun t => decide (t.1 < teams) && decide (t.2 < size)) = l
  have hmem : ∀ t ∈ l, t.1 < teams ∧ t.2 < size := by
    intro t ht
    rw [← hl] at ht
    simpa using (List.mem_filter.1 ht).2
  clear hl
  suffices H : ∀ r : Run σ,
      (∀ t : Nat × Nat, t.1 < teams → t.2 < size → ∀ p, ptInd size t = .ok p →
        ((l.foldl (Run.step size) r).todo t).foldl (fun c s => s c) ((l.foldl (Run.step size) r).cols p)
          = (r.todo t).foldl (fun c s => s c) (r.cols p)) ∧
      ∀ p, (∀ t : Nat × Nat, t.1 < teams → t.2 < size → ptInd size t ≠ .ok p) → (l.foldl (Run.step size) r).cols p = r.cols p from
    H ⟨cols, work numPts kernel size⟩
  induction l with
  | nil => exact fun r => ⟨fun _ _ _ _ _ => rfl, fun _ _ => rfl⟩
  | cons u l ih =>
    intro r
    obtain ⟨hu1, hu2⟩ := hmem u (by simp)
    obtain ⟨h1, h2⟩ := ih (fun t ht => hmem t (by simp [ht])) (r.step size u)
    simp only [List.foldl_cons]
    refine ⟨fun t ht1 ht2 p hp => (h1 t ht1 ht2 p hp).trans ?_, fun p hp => (h2 p hp).trans ?_⟩
    · unfold Run.step
      split
      · rename_i q s rest hq htodo
        dsimp only
        by_cases htu : t = u
        · subst htu
          rw [hp] at hq
          simp only [Res.ok.injEq] at hq
          subst hq
          rw [Function.update_self, Function.update_self, htodo]
          rfl
        · rw [Function.update_of_ne htu]
          by_cases hpq : p = q
          · exact absurd (ptInd_inj hs ht2 hu2 hp (hpq ▸ hq)) htu
          · rw [Function.update_of_ne hpq]
      · rfl
    · unfold Run.step
      split
      · rename_i q s rest hq htodo
        dsimp only
        rw [Function.update_of_ne]
        rintro rfl
        exact hp u hu1 hu2 hq
      · rfl

/-- Every loop that uses the policy, whatever its kernel, the recommended team size and the interleaving of the steps of its
threads: when all threads have finished, every point has been processed by the steps of its kernel, exactly once and in their
order, and nothing else has changed. In particular the result is the same for all schedules. -/
theorem C50_schedule {σ : Type*} {fl : ℚ → ℚ} (hfl : IsRounding fl) {numPts rec : Nat} (hp : 0 < numPts) (hr : 0 < rec)
    (hn : numPts + min numPts rec ≤ 2 ^ 31) (kernel : Nat → List (σ → σ)) (cols : Nat → σ) :
    ∃ teams size, cachedRangePolicy fl numPts rec = .ok (teams, size) ∧ ∀ schedule : List (Nat × Nat),
      (∀ t : Nat × Nat, t.1 < teams → t.2 < size → (parallelFor teams size numPts kernel cols schedule).todo t = []) →
      ∀ p, (parallelFor teams size numPts kernel cols schedule).cols p
        = if p < numPts then (kernel p).foldl (fun c s => s c) (cols p) else cols p := by
  obtain ⟨teams, size, hpol, _, hcov, hok⟩ := C50_coverage hfl hp hr hn
  refine ⟨teams, size, hpol, fun schedule hdone p => ?_⟩
  have hs : 0 < size := by
    obtain ⟨t, ht, _⟩ := hcov 0 hp
    omega
  obtain ⟨h1, h2⟩ := run_inv (teams := teams) (numPts := numPts) hs kernel cols schedule
  by_cases hex : ∃ t : Nat × Nat, t.1 < teams ∧ t.2 < size ∧ ptInd size t = .ok p
  · obtain ⟨t, ht1, ht2, htp⟩ := hex
    have := h1 t ht1 ht2 p htp
    rw [hdone t ht1 ht2, work, htp] at this
    simp only [List.foldl_nil] at this
    rw [this]
    split <;> rfl
  · have hno : ∀ t : Nat × Nat, t.1 < teams → t.2 < size → ptInd size t ≠ .ok p :=
      fun t a b c => hex ⟨t, a, b, c⟩
    rw [h2 p hno, if_neg]
    intro hpn
    obtain ⟨t, ⟨a, b, c⟩, _⟩ := hcov p hpn
    exact hex ⟨t, a, b, c⟩

/-- A schedule in which threads alternate: 3 points, teams of 2, two steps per point; all threads finish. -/
def exampleRun : Run Nat := parallelFor 2 2 3 (fun p => [fun c => c + p, fun c => 10 * c]) (fun _ => 1)
  [(0, 0), (1, 0), (0, 1), (1, 1), (0, 0), (0, 1), (1, 0)]

example : (∀ a < 2, ∀ b < 2, (exampleRun.todo (a, b)).length = 0) ∧ exampleRun.cols 0 = 10 ∧ exampleRun.cols 1 = 20 ∧
    exampleRun.cols 2 = 30 ∧ exampleRun.cols 3 = 1 := by
  decide

/-! ## Reductions -/

theorem reduceOp_getD {R : Type*} [CommRing R] (m : ReduceDimMap) (d : Bool) (A : Nat → Nat → R) (alpha : R) (j : Nat) (s : List R) :
    (reduceOp m d A alpha j s).length = s.length ∧ ∀ i < s.length,
      (reduceOp m d A alpha j s).getD i 0 = s.getD i 0 + m.kernel (if d then A i j else A j i) * alpha := by
  refine ⟨by simp [reduceOp], fun i hi => ?_⟩
  simp [reduceOp, List.getD_eq_getElem?_getD, List.getElem?_mapIdx, List.getElem?_eq_getElem hi]

theorem chunk_getD {R : Type*} [CommRing R] (m : ReduceDimMap) (d : Bool) (A : Nat → Nat → R) (alpha : R) (l : List Nat) (s : List R) :
    (l.foldl (fun s j => reduceOp m d A alpha j s) s).length = s.length ∧ ∀ i < s.length,
      (l.foldl (fun s j => reduceOp m d A alpha j s) s).getD i 0
        = s.getD i 0 + (l.map (fun j => m.kernel (if d then A i j else A j i) * alpha)).sum := by
  induction l generalizing s with
  | nil => exact ⟨rfl, fun i _ => by simp⟩
  | cons j l ih =>
    obtain ⟨h1, h2⟩ := ih (reduceOp m d A alpha j s)
    obtain ⟨h3, h4⟩ := reduceOp_getD m d A alpha j s
    simp only [List.foldl_cons]
    refine ⟨h1.trans h3, fun i hi => ?_⟩
    rw [h2 i (by rw [h3]; exact hi), h4 i hi]
    simp only [List.map_cons, List.sum_cons]
    ring

theorem reduce_getD {R : Type*} [CommRing R] (m : ReduceDimMap) (d : Bool) (n : Nat) (A : Nat → Nat → R) (alpha : R) (s : Split) :
    (reduce m d n A alpha s).length = n ∧ ∀ i < n,
      (reduce m d n A alpha s).getD i 0 = (s.indices.map (fun j => m.kernel (if d then A i j else A j i) * alpha)).sum := by
  induction s with
  | chunk l =>
    obtain ⟨h1, h2⟩ := chunk_getD m d A alpha l (reduceInit n)
    have hl : (reduceInit n : List R).length = n := by simp [reduceInit]
    refine ⟨h1.trans hl, fun i hi => ?_⟩
    show (l.foldl _ (reduceInit n)).getD i 0 = _
    rw [h2 i (by rw [hl]; exact hi)]
    simp [reduceInit, List.getD_eq_getElem?_getD, List.getElem?_replicate, hi, Split.indices]
  | join a b iha ihb =>
    simp only [reduce, reduceJoin, Split.indices, List.map_append, List.sum_append]
    refine ⟨by simp [iha.1, ihb.1], fun i hi => ?_⟩
    rw [← iha.2 i hi, ← ihb.2 i hi]
    rw [List.getD_eq_getElem?_getD, List.getElem?_zipWith, List.getD_eq_getElem?_getD, List.getD_eq_getElem?_getD,
      List.getElem?_eq_getElem (by rw [iha.1]; exact hi), List.getElem?_eq_getElem (by rw [ihb.1]; exact hi)]
    rfl
  | andThen a l iha =>
    obtain ⟨h1, h2⟩ := chunk_getD m d A alpha l (reduce m d n A alpha a)
    simp only [reduce, Split.indices, List.map_append, List.sum_append]
    refine ⟨h1.trans iha.1, fun i hi => ?_⟩
    rw [h2 i (by rw [iha.1]; exact hi), iha.2 i hi]

/-- `ReduceDim` returns `alpha` times the sum over the reduced axis (of the entries, or of their squares), however the range is
split into parts, in whatever order the parts are worked on and joined. -/
theorem C51_reduce {R : Type*} [CommRing R] (m : ReduceDimMap) (dim1 : Bool) (valueCount n : Nat) (A : Nat → Nat → R) (alpha : R)
    (s : Split) (hs : s.indices.Perm (List.range n)) :
    reduce m dim1 valueCount A alpha s = (List.range valueCount).map (fun i =>
      alpha * ((List.range n).map (fun j => match m with
        | .sum => if dim1 then A i j else A j i
        | .norm => (if dim1 then A i j else A j i) ^ 2)).sum) := by
  obtain ⟨h1, h2⟩ := reduce_getD m dim1 valueCount A alpha s
  refine List.ext_getElem (by simp [h1]) (fun i hi hi' => ?_)
  rw [h1] at hi
  have := h2 i hi
  rw [List.getD_eq_getElem?_getD, List.getElem?_eq_getElem (by rw [h1]; exact hi), Option.getD_some] at this
  rw [this, (hs.map _).sum_eq, List.getElem_map, List.getElem_range]
  generalize List.range n = l
  induction l with
  | nil => simp
  | cons j l ih =>
    simp only [List.map_cons, List.sum_cons, ih, mul_add]
    congr 1
    cases m <;> simp only [ReduceDimMap.kernel] <;> ring

/-- Five columns in three parts, one of which continues another. -/
example : (Split.join (.andThen (.chunk [3, 1]) [4]) (.chunk [0, 2])).indices.Perm (List.range 5) := by decide

example : reduce .sum true 2 (fun i j => (i : ℤ) + 10 * j) 3 (.join (.andThen (.chunk [3, 1]) [4]) (.chunk [0, 2])) = [300, 315] := by
  decide

end MParT.Parallel
