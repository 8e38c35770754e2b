import Verif.Model.QuadControl
import Verif.Props.Adaptive
/-!
# Property C95: the adaptive rules do bounded work, whatever the comparisons of numbers say
-/
namespace MParT.Recursive
open Spec Finset

/-- Where the segment begins, as a fraction of the whole interval: bit `l` of the mask says that the right half was taken on level `l`. -/
noncomputable def Visit.left (L : Nat) (seg : BitVec 32) : ℝ := ∑ l ∈ range L, if seg.getLsbD (l + 1) then (2⁻¹ : ℝ) ^ (l + 1) else 0

/-- The segment, as a part of the unit interval. -/
noncomputable def Visit.part (v : Visit) : ℝ × ℝ := (Visit.left v.level v.seg, Visit.left v.level v.seg + 2⁻¹ ^ v.level)

/-- What the loop does after a segment has been accepted. -/
def after (maxSub minSub : Nat) (tiny : Bool) (fuel : Nat) (small : Nat → Bool) (level : Nat) (seg : BitVec 32) : Res (Option (List Visit)) := do
  let (seg', level') ← backtrack seg level
  if level' = 0 then return some []
  else if 32 ≤ level' then Res.ub
  else control maxSub minSub tiny fuel small level' (seg' ||| (1#32 <<< level'))

theorem control_accept {maxSub minSub : Nat} {tiny : Bool} {fuel : Nat} {small : Nat → Bool} {level : Nat} {seg : BitVec 32}
    (h : acceptAny maxSub minSub tiny (small 0) level = true) :
    control maxSub minSub tiny (fuel + 1) small level seg
      = (do let r ← after maxSub minSub tiny fuel (fun k => small (k + 1)) level seg; return r.map (⟨level, seg, true⟩ :: ·)) := by
  rw [control, if_pos h, after]
  cases backtrack seg level with
  | ok p =>
    simp only [Res.bind_ok]
    split
    · rfl
    · split
      · rfl
      · rfl
  | throw => rfl
  | ub => rfl

theorem control_descend {maxSub minSub : Nat} {tiny : Bool} {fuel : Nat} {small : Nat → Bool} {level : Nat} {seg : BitVec 32}
    (h : acceptAny maxSub minSub tiny (small 0) level = false) :
    control maxSub minSub tiny (fuel + 1) small level seg
      = (do let r ← control maxSub minSub tiny fuel (fun k => small (k + 1)) (level + 1) seg; return r.map (⟨level, seg, false⟩ :: ·)) := by
  rw [control, if_neg (by rw [h]; decide)]

theorem map_append (x : Res (Option (List Visit))) (a b : List Visit) :
    (do let r ← (do let r ← x; return r.map (b ++ ·)); return r.map (a ++ ·) : Res (Option (List Visit)))
      = (do let r ← x; return r.map ((a ++ b) ++ ·)) := by
  cases x with
  | ok o => cases o <;> simp [Res.pure_eq]
  | throw => rfl
  | ub => rfl

/-- How the loop works through the segments inside a segment. -/
theorem control_subtree (maxSub minSub : Nat) (hmin : minSub < maxSub) (hmax : maxSub ≤ 32) (d : Nat) : ∀ (L : Nat) (seg : BitVec 32) (small : Nat → Bool),
    d = maxSub - 1 - L → L < maxSub → (∀ l, L < l → seg.getLsbD l = false) →
    ∃ vs : List Visit, (∀ fuel, control maxSub minSub false (vs.length + fuel) small L seg
        = (do let r ← after maxSub minSub false fuel (fun k => small (vs.length + k)) L seg; return r.map (vs ++ ·))) ∧
      2 ^ (minSub + 1 - L) - 1 ≤ vs.length ∧ 1 ≤ vs.length ∧ vs.length ≤ 2 ^ (d + 1) - 1 ∧
      ((∀ k, small k = false) → vs.length = 2 ^ (d + 1) - 1) ∧
      ((∀ k, small k = true) → vs.length = max (2 ^ (minSub + 1 - L) - 1) 1) ∧
      (∀ v ∈ vs, L ≤ v.level ∧ v.level < maxSub) ∧
      Tiles (Visit.left L seg) (Visit.left L seg + 2⁻¹ ^ L) ((vs.filter (·.accepted)).map Visit.part) := by
  induction d with
  | zero =>
    intro L seg small hd hL hz
    have ha : acceptAny maxSub minSub false (small 0) L = true := by
      simp only [acceptAny, Bool.or_false, Bool.and_eq_true, Bool.or_eq_true, beq_iff_eq, decide_eq_true_eq]
      exact ⟨Or.inr (by omega), by omega⟩
    have hp : 2 ^ (minSub + 1 - L) ≤ 2 ^ 1 := Nat.pow_le_pow_right (by omega) (by omega)
    refine ⟨[⟨L, seg, true⟩], fun fuel => ?_, by simp; omega, by simp, by simp, by simp, fun _ => by simp; omega, by simpa using hL, ?_⟩
    · rw [List.length_singleton, Nat.add_comm 1 fuel, control_accept ha]
      simp only [Nat.add_comm 1, List.singleton_append]
    · simp [Tiles, Visit.part]
  | succ d ih =>
    intro L seg small hd hL hz
    cases ha : acceptAny maxSub minSub false (small 0) L with
    | true =>
      have hle : minSub ≤ L ∧ small 0 = true := by
        simp only [acceptAny, Bool.or_false, Bool.and_eq_true, Bool.or_eq_true, beq_iff_eq, decide_eq_true_eq] at ha
        exact ⟨ha.2, ha.1.resolve_right (by omega)⟩
      have hp : 2 ^ (minSub + 1 - L) ≤ 2 ^ 1 := Nat.pow_le_pow_right (by omega) (by omega)
      have hp2 : 2 ^ 1 ≤ 2 ^ (d + 1 + 1) := Nat.pow_le_pow_right (by omega) (by omega)
      refine ⟨[⟨L, seg, true⟩], fun fuel => ?_, by simp; omega, by simp, by simp; omega, fun h => ?_, fun _ => by simp; omega, by simpa using hL, ?_⟩
      · rw [List.length_singleton, Nat.add_comm 1 fuel, control_accept ha]
        simp only [Nat.add_comm 1, List.singleton_append]
      · rw [h] at hle; simp at hle
      · simp [Tiles, Visit.part]
    | false =>
      have hL1 : L + 1 < maxSub := by omega
      obtain ⟨v1, c1, l1, p1, u1, n1, t1, b1, T1⟩ := ih (L + 1) seg (fun k => small (k + 1)) (by omega) hL1 (fun l hl => hz l (by omega))
      obtain ⟨v2, c2, l2, p2, u2, n2, t2, b2, T2⟩ := ih (L + 1) (seg ||| 1#32 <<< (L + 1)) (fun k => small (v1.length + k + 1)) (by omega) hL1
        (fun l hl => by rw [set_bit _ _ _ (by omega), hz l (by omega)]; simp; omega)
      have hbit : seg.getLsbD (L + 1) = false := hz _ (by omega)
      have hpow : 2 ^ (d + 1 + 1) = 2 * 2 ^ (d + 1) := by rw [pow_succ]; omega
      have hpos : 0 < 2 ^ (d + 1) := by positivity
      refine ⟨⟨L, seg, false⟩ :: (v1 ++ v2), fun fuel => ?_, ?_, by simp, ?_, fun h => ?_, fun h => ?_, ?_, ?_⟩
      · have e1 : (⟨L, seg, false⟩ :: (v1 ++ v2) : List Visit).length + fuel = (v1.length + (v2.length + fuel)) + 1 := by
          simp only [List.length_cons, List.length_append]; omega
        rw [e1, control_descend ha, c1]
        have e2 : ∀ small', after maxSub minSub false (v2.length + fuel) small' (L + 1) seg
            = control maxSub minSub false (v2.length + fuel) small' (L + 1) (seg ||| 1#32 <<< (L + 1)) := by
          intro small'
          rw [after, backtrack, if_neg (by omega), hbit]
          simp only [Bool.false_eq_true, if_false, Res.bind_ok, Nat.add_one_ne_zero]
          rw [if_neg (by omega)]
        have e3 : ∀ small', after maxSub minSub false fuel small' (L + 1) (seg ||| 1#32 <<< (L + 1)) = after maxSub minSub false fuel small' L seg := by
          intro small'
          rw [after, backtrack, if_neg (by omega), set_bit _ _ _ (by omega), clear_set _ _ (by omega) hbit]
          simp only [decide_true, Bool.or_true, if_true]
          rfl
        rw [e2, c2, e3, map_append]
        have e4 : (fun k => small (v1.length + (v2.length + k) + 1)) = fun k => small ((⟨L, seg, false⟩ :: (v1 ++ v2) : List Visit).length + k) := by
          funext k; congr 1; simp only [List.length_cons, List.length_append]; omega
        rw [e4]
        exact map_append _ [⟨L, seg, false⟩] (v1 ++ v2)
      · simp only [List.length_cons, List.length_append]
        rcases Nat.lt_or_ge minSub L with h | h
        · rw [show minSub + 1 - L = 0 by omega]; simp
        · rw [show minSub + 1 - L = (minSub + 1 - (L + 1)) + 1 by omega, pow_succ]
          omega
      · simp only [List.length_cons, List.length_append]; omega
      · have h1 := n1 fun k => h _
        have h2 := n2 fun k => h _
        simp only [List.length_cons, List.length_append]; omega
      · have h1 := t1 fun k => h _
        have h2 := t2 fun k => h _
        have hlt : L < minSub := by
          simp only [acceptAny, h, Bool.true_or, Bool.true_and, Bool.or_false, decide_eq_false_iff_not] at ha
          omega
        have hp : 2 ^ 1 ≤ 2 ^ (minSub + 1 - (L + 1)) := Nat.pow_le_pow_right (by omega) (by omega)
        simp only [List.length_cons, List.length_append]
        rw [show minSub + 1 - L = (minSub + 1 - (L + 1)) + 1 by omega, pow_succ]
        omega
      · intro v hv
        rcases List.mem_cons.mp hv with rfl | hv
        · exact ⟨le_rfl, hL⟩
        · rcases List.mem_append.mp hv with hv | hv
          · have := b1 v hv; omega
          · have := b2 v hv; omega
      · have hl1 : Visit.left (L + 1) seg = Visit.left L seg := by
          rw [Visit.left, Visit.left, sum_range_succ, hbit]; simp
        have hl2 : Visit.left (L + 1) (seg ||| 1#32 <<< (L + 1)) = Visit.left L seg + 2⁻¹ ^ (L + 1) := by
          rw [Visit.left, Visit.left, sum_range_succ, set_bit _ _ _ (by omega)]
          simp only [decide_true, Bool.or_true, if_true]
          congr 1
          refine sum_congr rfl fun l hl => ?_
          have := mem_range.mp hl
          rw [set_bit _ _ _ (by omega), decide_eq_false (by omega), Bool.or_false]
        rw [hl1] at T1
        rw [hl2] at T2
        have := T1.append T2
        rw [List.filter_cons_of_neg (by simp), List.filter_append, List.map_append]
        rw [show Visit.left L seg + 2⁻¹ ^ (L + 1) + 2⁻¹ ^ (L + 1) = Visit.left L seg + (2⁻¹ : ℝ) ^ L by rw [pow_succ]; ring] at this
        exact this

/-- **C95.** For every outcome of the comparisons `error<errorTol`, so for every integrand, interval and tolerance, whatever the rounding, overflow and
NaN: if `minSub < maxSub ≤ 32` and the interval is not tiny, the loop ends, after at least `2^(minSub+1)-1` and at most `2^maxSub-1` segments (`fuel`
is any greater number of iterations); it never goes deeper than level `maxSub-1`; and the accepted segments, from left to right, tile the whole
interval. Both bounds are reached: the lower if the comparison always holds, the upper if it never does, as for an integrand that is NaN. -/
theorem C95_work (maxSub minSub : Nat) (hmin : minSub < maxSub) (hmax : maxSub ≤ 32) (small : Nat → Bool) (fuel : Nat) (hf : 2 ^ maxSub ≤ fuel) :
    ∃ vs, control maxSub minSub false fuel small 0 0 = .ok (some vs) ∧
      2 ^ (minSub + 1) - 1 ≤ vs.length ∧ vs.length ≤ 2 ^ maxSub - 1 ∧ (∀ v ∈ vs, v.level < maxSub) ∧
      Tiles 0 1 ((vs.filter (·.accepted)).map Visit.part) ∧
      ((∀ k, small k = true) → vs.length = 2 ^ (minSub + 1) - 1) ∧ ((∀ k, small k = false) → vs.length = 2 ^ maxSub - 1) := by
  obtain ⟨vs, c, l, p, u, n, t, b, T⟩ := control_subtree maxSub minSub hmin hmax (maxSub - 1) 0 0 small (by omega) (by omega) (fun l _ => by simp)
  rw [show maxSub - 1 + 1 = maxSub by omega] at u n
  refine ⟨vs, ?_, by simpa using l, u, fun v hv => (b v hv).2, ?_, fun h => ?_, n⟩
  · have := c (fuel - vs.length)
    rw [show vs.length + (fuel - vs.length) = fuel by omega] at this
    rw [this, after, backtrack]
    simp [Res.pure_eq]
  · simpa [Visit.left] using T
  · have h1 := t h
    have hp : 2 ^ 1 ≤ 2 ^ (minSub + 1) := Nat.pow_le_pow_right (by omega) (by omega)
    rw [Nat.sub_zero] at h1
    omega

/-- **C95.** If the test on the length of the interval succeeds, there is one segment. -/
theorem C95_tiny (maxSub minSub : Nat) (small : Nat → Bool) (fuel : Nat) :
    control maxSub minSub true (fuel + 1) small 0 0 = .ok (some [⟨0, 0, true⟩]) := by
  rw [control, if_pos (by simp [acceptAny]), backtrack]
  rfl

/-- **C95** in terms of calls of the integrand, for `AdaptiveSimpson`: at most `2^(maxSub+1)+1`; with the options of the factory as they are by default
(`maxSub = 30`, `minSub = 0`), five if the first estimate is accepted, and `2^31+1` for an integrand that is NaN. -/
theorem C95_calls (maxSub minSub : Nat) (hmin : minSub < maxSub) (hmax : maxSub ≤ 32) (small : Nat → Bool) (fuel : Nat) (hf : 2 ^ maxSub ≤ fuel)
    (vs : List Visit) (h : control maxSub minSub false fuel small 0 0 = .ok (some vs)) :
    simpsonCalls vs ≤ 2 ^ (maxSub + 1) + 1 ∧
    (maxSub = 30 → minSub = 0 → ((∀ k, small k = true) → simpsonCalls vs = 5) ∧ ((∀ k, small k = false) → simpsonCalls vs = 2 ^ 31 + 1)) := by
  obtain ⟨vs', e, h1, h2, -, -, h3, h4⟩ := C95_work maxSub minSub hmin hmax small fuel hf
  obtain rfl := Option.some.inj (Res.ok.inj (h.symm.trans e))
  have hpos : 0 < 2 ^ maxSub := by positivity
  refine ⟨by rw [simpsonCalls, pow_succ]; omega, ?_⟩
  rintro rfl rfl
  refine ⟨fun h => ?_, fun h => ?_⟩
  · rw [simpsonCalls, h3 h]; norm_num
  · rw [simpsonCalls, h4 h]; norm_num

/-- The loop over the real numbers takes the steps of `control` for some outcome of the comparisons: so C95 applies to it. -/
theorem C95_real (q : Recursive) (S : Scheme) (lb ub : ℝ) (fuel : Nat) : ∀ (st : State) (o : Option (Mem × Mem)),
    loop q S lb ub fuel st = .ok o →
    ∃ small vs, control q.maxSub q.minSub (@decide (|ub - lb| < 1e-14) (Classical.propDecidable _)) fuel small st.level st.seg = .ok vs ∧
      (vs = none ↔ o = none) := by
  classical
  induction fuel with
  | zero =>
    intro st o h
    rw [loop] at h
    exact ⟨fun _ => false, none, rfl, by simp [← Res.ok.inj h]⟩
  | succ fuel ih =>
    intro st o h
    rw [loop] at h
    obtain ⟨⟨ws, midPt⟩, -, h⟩ := Res.bind_eq_ok.mp h
    obtain ⟨⟨error, tol⟩, -, h⟩ := Res.bind_eq_ok.mp h
    have key : ∀ s : Nat → Bool, q.accept lb ub error tol st.level ↔
        acceptAny q.maxSub q.minSub (@decide (|ub - lb| < 1e-14) (Classical.propDecidable _))
          ((fun k => if k = 0 then decide (error < tol) else s (k - 1)) 0) st.level = true := by
      intro s
      simp [accept, acceptAny]
    by_cases ha : q.accept lb ub error tol st.level
    · simp only [ha, if_true] at h
      obtain ⟨res, -, h⟩ := Res.bind_eq_ok.mp h
      obtain ⟨⟨seg, level⟩, hb, h⟩ := Res.bind_eq_ok.mp h
      simp only at h
      by_cases h0 : level = 0
      · simp only [h0, if_true] at h
        refine ⟨fun k => if k = 0 then decide (error < tol) else false, some [⟨st.level, st.seg, true⟩], ?_, by simp [← Res.ok.inj h]⟩
        rw [control, if_pos ((key fun _ => false).mp ha), hb]
        simp [h0, Res.pure_eq]
      · simp only [h0, if_false] at h
        by_cases h32 : 32 ≤ level
        · simp [h32] at h
        · simp only [h32, if_false] at h
          obtain ⟨_, -, h⟩ := Res.bind_eq_ok.mp h
          obtain ⟨_, -, h⟩ := Res.bind_eq_ok.mp h
          obtain ⟨_, -, h⟩ := Res.bind_eq_ok.mp h
          obtain ⟨_, -, h⟩ := Res.bind_eq_ok.mp h
          obtain ⟨_, -, h⟩ := Res.bind_eq_ok.mp h
          obtain ⟨_, -, h⟩ := Res.bind_eq_ok.mp h
          obtain ⟨small, vs, e, hv⟩ := ih _ _ h
          refine ⟨fun k => if k = 0 then decide (error < tol) else small (k - 1), vs.map (⟨st.level, st.seg, true⟩ :: ·), ?_, by simp [hv]⟩
          rw [control, if_pos ((key small).mp ha), hb]
          simp only [Res.bind_ok, h0, h32, if_false, Nat.add_one_ne_zero, Nat.add_sub_cancel]
          rw [e]
          rfl
    · simp only [ha, if_false] at h
      obtain ⟨_, -, h⟩ := Res.bind_eq_ok.mp h
      obtain ⟨_, -, h⟩ := Res.bind_eq_ok.mp h
      obtain ⟨_, -, h⟩ := Res.bind_eq_ok.mp h
      obtain ⟨small, vs, e, hv⟩ := ih _ _ h
      refine ⟨fun k => if k = 0 then decide (error < tol) else small (k - 1), vs.map (⟨st.level, st.seg, false⟩ :: ·), ?_, by simp [hv]⟩
      rw [control, if_neg (by rw [← key small]; exact ha)]
      simp only [if_false, Nat.add_one_ne_zero, Nat.add_sub_cancel]
      rw [e]
      rfl

/-- The condition `minSub < maxSub` is needed: without it the loop goes on for ever if the comparison never holds. -/
theorem C95_needs_minSub (maxSub minSub : Nat) (h1 : 1 ≤ maxSub) (h2 : maxSub ≤ minSub) (h3 : maxSub < 2 ^ 32) (fuel : Nat) :
    control maxSub minSub false fuel (fun _ => false) 0 0 = .ok none := by
  have key : ∀ fuel L, control maxSub minSub false fuel (fun _ => false) L 0 = .ok none := by
    intro fuel
    induction fuel with
    | zero => intro L; rfl
    | succ fuel ih =>
      intro L
      rw [control_descend, ih]
      · rfl
      · simp only [acceptAny, Bool.false_or, Bool.or_false, Bool.and_eq_false_iff, beq_eq_false_iff_ne, decide_eq_false_iff_not]
        omega
  exact key fuel 0

/-- The condition `maxSub <= 32` is needed: with more levels, the first descent to the bottom shifts a 32-bit mask by 32 or more. -/
theorem C95_needs_maxSub (maxSub minSub : Nat) (hmin : minSub < maxSub) (h1 : 32 < maxSub) (h2 : maxSub < 2 ^ 32) (fuel : Nat) (hf : maxSub ≤ fuel) :
    control maxSub minSub false fuel (fun _ => false) 0 0 = .ub := by
  have key : ∀ d fuel, d < maxSub → d < fuel → control maxSub minSub false fuel (fun _ => false) (maxSub - 1 - d) 0 = .ub := by
    intro d
    induction d with
    | zero =>
      intro fuel _ hf
      obtain ⟨fuel, rfl⟩ : ∃ k, fuel = k + 1 := ⟨fuel - 1, by omega⟩
      obtain ⟨m, rfl⟩ : ∃ k, maxSub = k + 2 := ⟨maxSub - 2, by omega⟩
      rw [control_accept, after, show m + 2 - 1 - 0 = m + 1 by omega, backtrack, if_pos (by omega)]
      · rfl
      · simp only [acceptAny, Bool.false_or, Bool.or_false, Bool.and_eq_true, beq_iff_eq, decide_eq_true_eq]
        omega
    | succ d ih =>
      intro fuel hd hf
      obtain ⟨fuel, rfl⟩ : ∃ k, fuel = k + 1 := ⟨fuel - 1, by omega⟩
      rw [control_descend, show maxSub - 1 - (d + 1) + 1 = maxSub - 1 - d by omega, ih fuel (by omega) (by omega)]
      · rfl
      · simp only [acceptAny, Bool.false_or, Bool.or_false, Bool.and_eq_false_iff, beq_eq_false_iff_ne, decide_eq_false_iff_not]
        omega
  have := key (maxSub - 1) fuel (by omega) (by omega)
  rwa [Nat.sub_self] at this

/-- Non-vacuity of `C95_calls` and `C95_real`: the default options with an integrand that is NaN; and a run over the real numbers that ends. -/
example : (∃ vs, control 30 0 false (2 ^ 30) (fun _ => false) 0 0 = .ok (some vs) ∧ simpsonCalls vs = 2 ^ 31 + 1) ∧
    ∃ (q : Recursive) (f : Integrand) (ws res : Mem) (fuel : Nat) (o : Mem × Mem), AdaptiveSimpson.integrate q ws f 0 1 res fuel = .ok (some o) := by
  refine ⟨?_, ?_⟩
  · obtain ⟨vs, e, -⟩ := C95_work 30 0 (by decide) (by decide) (fun _ => false) _ le_rfl
    exact ⟨vs, e, ((C95_calls 30 0 (by decide) (by decide) _ _ le_rfl vs e).2 rfl rfl).2 fun _ => rfl⟩
  · obtain ⟨w, r, e, -⟩ := C33_value ⟨1, 3, 0, 1e-6, 1e-6, .first⟩ (by decide) (by decide) (by decide) (fun x _ => x) 0 1 ⟨100, fun _ => 0⟩ ⟨1, fun _ => 0⟩
      (by decide) (by decide) _ le_rfl
    exact ⟨_, _, _, _, _, _, e⟩

end MParT.Recursive
