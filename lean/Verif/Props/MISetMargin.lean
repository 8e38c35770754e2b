import Verif.Props.MultiIndexSet
/-!
# Properties C13–C18: margins, expansion, admissibility, forced activation, `SetLimiter`
-/
namespace MParT
namespace MISet
open MultiIndex Spec Neighborhood

/-! ### C13: Margin -/

/-- **C13.** `Margin()` lists, once each, exactly the accepted non-members with a backward neighbour
in the set. -/
theorem C13_margin {b : Bool} {s : MISet} (h : Reach b s) {ts : List (List Nat)}
    (ht : Terms s ts) :
    ∃ ms : List (List Nat), s.margin = .ok (ms.map ofVec) ∧ ms.Nodup ∧
      ∀ w, w ∈ ms ↔ w ∉ ts ∧ Accepts s w ∧ ∃ t ∈ ts, Fwd t w := by
  obtain ⟨vs, R, hi, _⟩ := h.inv ht
  exact hi.margin

example : (do let s ← createTotalOrder 2 1 (fun _ => true)
              let (s1, _) ← s.addActive (ofVec [0, 3]); s1.margin)
    = .ok ([[1, 1], [0, 2], [2, 0], [1, 3], [0, 4]].map ofVec) := by decide +kernel

/-! ### C14: ReducedMargin -/

theorem getD_ge {w : List Nat} {i : Nat} (h : w.length ≤ i) : w.getD i 0 = 0 := by
  simp [h]

theorem mem_le_sum {x : Nat} {l : List Nat} (h : x ∈ l) : x ≤ l.sum := by
  induction l with
  | nil => simp at h
  | cons y ys ih =>
    rcases List.mem_cons.1 h with e | e
    · simp [e]
    · have := ih e; simp; omega

theorem sum_zero {l : List Nat} (h : ∀ x ∈ l, x = 0) : l.sum = 0 := by
  induction l with
  | nil => rfl
  | cons y ys ih => simp [h y (by simp), ih (fun x hx => h x (by simp [hx]))]

theorem fwd_zero_or {w : List Nat} (h : ∃ i, 0 < w.getD i 0) : ∃ b, Fwd b w := by
  obtain ⟨i, hi⟩ := h
  have hlt : i < w.length := by
    by_contra hc
    rw [getD_ge (Nat.not_lt.1 hc)] at hi; omega
  refine ⟨dec w i, i, by simpa [dec] using hlt, ?_⟩
  apply List.ext_getElem?
  intro j
  by_cases hj : j = i
  · subst hj
    rw [getD_lt hlt] at hi
    simp [inc, dec, hlt]; omega
  · simp [inc, dec, Ne.symm hj]

/-- Two different backward neighbours of `w` have a common backward neighbour. -/
theorem fwd_diamond {b t w : List Nat} (hb : Fwd b w) (ht : Fwd t w) (hne : b ≠ t) :
    ∃ u, Fwd u b ∧ Fwd u t := by
  obtain ⟨i, hi, rfl⟩ := hb
  obtain ⟨j, hj, hw⟩ := ht
  have hlen : t.length = b.length := by
    have := congrArg List.length hw; simpa [inc] using this.symm
  have hij : i ≠ j := by
    rintro rfl
    apply hne
    have h1 := dec_inc (v := b) hi
    have h2 := dec_inc (v := t) hj
    rw [← hw, h1] at h2; exact h2
  have hbj : b.getD j 0 = t.getD j 0 + 1 := by
    have := congrArg (fun l => l.getD j 0) hw
    simp only [getD_inc _ _ _ hi, getD_inc _ _ _ hj] at this
    rw [if_neg hij] at this; simpa using this
  have hti : t.getD i 0 = b.getD i 0 + 1 := by
    have := congrArg (fun l => l.getD i 0) hw
    simp only [getD_inc _ _ _ hi, getD_inc _ _ _ hj] at this
    rw [if_neg (Ne.symm hij)] at this; simpa using this.symm
  have hjb : j < b.length := by omega
  have hit : i < t.length := by omega
  refine ⟨dec b j, ⟨j, by simpa [dec] using hjb, ?_⟩, ⟨i, by simpa [dec] using hi, ?_⟩⟩
  · apply List.ext_getElem?
    intro k
    by_cases hk : k = j
    · subst hk
      rw [getD_lt hjb] at hbj
      simp [inc, dec, hjb]; omega
    · simp [inc, dec, Ne.symm hk]
  · apply List.ext_getElem?
    intro k
    have hk' := congrArg (fun l => l[k]?) hw
    simp only [inc] at hk'
    by_cases hk : k = i
    · subst hk
      rw [getD_lt hit, getD_lt hi] at hti
      simp [inc, dec, Ne.symm hij, hi, hit, hti]
    · by_cases hkj : k = j
      · subst hkj
        rw [getD_lt hj, getD_lt hjb] at hbj
        simp [inc, dec, hij, hjb, hj, hbj]
      · simp [Ne.symm hk, Ne.symm hkj] at hk'
        simp [inc, dec, Ne.symm hk, Ne.symm hkj, hk']

/-- **C14.** When the limiter was never replaced and set and limiter are downward closed,
`ReducedMargin()` lists, once each, exactly the margin multi-indices all of whose backward
neighbours are members.  (For a nonempty set the margin condition is implied, see
`C14_reducedMargin_nonempty`.) -/
theorem C14_reducedMargin {s : MISet} (h : Reach true s) {ts : List (List Nat)} (ht : Terms s ts)
    (hd : DownClosed ts) (hl : DownClosedLimiter s) :
    ∃ ms : List (List Nat), s.reducedMargin = .ok (ms.map ofVec) ∧ ms.Nodup ∧
      ∀ w, w ∈ ms ↔ w ∉ ts ∧ Accepts s w ∧ (∃ t ∈ ts, Fwd t w) ∧ ∀ b, Fwd b w → b ∈ ts := by
  obtain ⟨vs, R, hi, hn⟩ := h.inv ht
  obtain ⟨ms, e, nd, m⟩ := hi.reducedMargin
  refine ⟨ms, e, nd, fun w => (m w).trans ?_⟩
  constructor
  · rintro ⟨hw, g, hg, hall⟩
    have hlw : Accepts s w := hi.sem.all_lim rfl w (List.mem_of_getElem? hg)
    obtain ⟨t, htm, hf⟩ := hn rfl g w hg (fun ha => hw ((hi.act_mem hg).1 ha))
    rcases hf with hf | hf
    · refine ⟨hw, hlw, ⟨t, htm, hf⟩, fun b hb => ?_⟩
      have hbv : b ∈ vs := by
        by_cases hbt : b = t
        · obtain ⟨k, hk, _⟩ := hi.mem_vs (hbt ▸ htm); exact List.mem_of_getElem? hk
        · obtain ⟨u, hu1, hu2⟩ := fwd_diamond hb hf hbt
          have hut := hd u t hu2 htm
          obtain ⟨k, hk, hka⟩ := hi.mem_vs hut
          exact hi.sem.closed k u b hka (fun x => x) hk hu1 (hl b w hb hlw)
      obtain ⟨k, hk⟩ := List.getElem?_of_mem hbv
      have := hall k (hi.sem.full rfl k g b w hk hg hb)
      simpa [hk] using this
    · exact absurd (hd w t hf htm) hw
  · rintro ⟨hw, hlw, ⟨t, htm, hf⟩, hall⟩
    obtain ⟨k, hk, hka⟩ := hi.mem_vs htm
    obtain ⟨g, hg⟩ := List.getElem?_of_mem (hi.sem.closed k t w hka (fun x => x) hk hf hlw)
    refine ⟨hw, g, hg, fun j hj => ?_⟩
    obtain ⟨u, w', h1, h2, h3⟩ := hi.sem.sound j g hj
    rw [hg] at h2; cases h2
    have := hall u h3
    simpa [h1] using this

/-- **C14.** For a nonempty downward-closed set the reduced margin is exactly the set of accepted
non-members all of whose backward neighbours are members. -/
theorem C14_reducedMargin_nonempty {s : MISet} (h : Reach true s) {ts : List (List Nat)}
    (ht : Terms s ts) (hd : DownClosed ts) (hl : DownClosedLimiter s) (hne : ts ≠ []) :
    ∃ ms : List (List Nat), s.reducedMargin = .ok (ms.map ofVec) ∧ ms.Nodup ∧
      ∀ w, w.length = s.length →
        (w ∈ ms ↔ w ∉ ts ∧ Accepts s w ∧ ∀ b, Fwd b w → b ∈ ts) := by
  obtain ⟨ms, e, nd, m⟩ := C14_reducedMargin h ht hd hl
  refine ⟨ms, e, nd, fun w hwl => (m w).trans ?_⟩
  refine and_congr_right fun hw => and_congr_right fun _ => ?_
  refine ⟨fun hh => hh.2, fun hall => ⟨?_, hall⟩⟩
  by_cases hz : ∃ i, 0 < w.getD i 0
  · obtain ⟨b, hb⟩ := fwd_zero_or hz
    exact ⟨b, hall b hb, hb⟩
  · exfalso
    -- a nonempty downward-closed set contains the zero vector
    have hzero : ∀ n (t : List Nat), t.sum = n → t ∈ ts → List.replicate t.length 0 ∈ ts := by
      intro n
      induction n with
      | zero =>
        intro t hs htm
        have : t = List.replicate t.length 0 := by
          rw [List.eq_replicate_iff]
          exact ⟨rfl, fun x hx => by
            have := mem_le_sum hx
            omega⟩
        rw [← this]; exact htm
      | succ n ih =>
        intro t hs htm
        have : ∃ i, 0 < t.getD i 0 := by
          by_contra hc
          have : t.sum = 0 := by
            apply sum_zero
            intro x hx
            obtain ⟨i, hi⟩ := List.getElem?_of_mem hx
            by_contra hx0
            exact hc ⟨i, by simp [hi]; omega⟩
          omega
        obtain ⟨b, hb⟩ := fwd_zero_or this
        have := ih b (by have := hb.sum; omega) (hd b t hb htm)
        rwa [← hb.length] at this
    obtain ⟨t, htm⟩ := List.exists_mem_of_ne_nil ts hne
    have h0 := hzero _ t rfl htm
    have hlen := (C09_bijection h ht).2.1 t htm
    have : w = List.replicate t.length 0 := by
      apply List.ext_getElem?
      intro j
      by_cases hj : j < w.length
      · have h1 : w.getD j 0 = 0 := by by_contra hc; exact hz ⟨j, by omega⟩
        rw [getD_lt hj] at h1
        have hj' : j < t.length := by omega
        simp [hj, h1, hj']
      · have hj' : ¬ j < t.length := by omega
        simp [hj, hj']
    exact hw (this ▸ h0)

example : (do let s ← createTotalOrder 2 2 (fun m => m.sum ≤ 3); s.reducedMargin)
    = .ok ([[1, 2], [0, 3], [2, 1], [3, 0]].map ofVec) := by decide +kernel

-- the hypotheses of C14 hold of that set
example : ∃ s ts, Reach true s ∧ Terms s ts ∧ DownClosed ts ∧ DownClosedLimiter s ∧ ts ≠ [] := by
  obtain ⟨s, ts, _, r, l, m, t, _, _, mem⟩ :=
    C07_createTotalOrder (n := 2) (by omega) 2 (fun m => decide (m.sum ≤ 3))
  refine ⟨s, ts, r, t, ?_, ?_, ?_⟩
  · intro v w hf hw
    have h1 := hf.sum
    have h2 := hf.length
    obtain ⟨a, c, d⟩ := (mem w).1 hw
    refine (mem v).2 ⟨by omega, by omega, ?_⟩
    simp [MultiIndex.sum]; omega
  · intro v w hf hw
    have h1 := hf.sum
    unfold Accepts at hw ⊢
    rw [m] at hw ⊢
    simp [MultiIndex.sum] at hw ⊢; omega
  · intro hc
    have := (mem [0, 0]).2 ⟨rfl, by simp, by decide⟩
    simp [hc] at this

/-- **C14, failure.** For a set that is not downward closed, `ReducedMargin()` reports a multi-index
with a backward neighbour outside the set: `{(0,0),(2,0)}` reports `(2,1)`, although `(1,1)` is not
a member. -/
theorem C14_fails_not_downclosed : ∃ s ms, Reach true s ∧ Terms s [[0, 0], [2, 0]] ∧
    s.reducedMargin = .ok ms ∧ ofVec [2, 1] ∈ ms ∧ Fwd [1, 1] [2, 1] ∧ [1, 1] ∉ [[0, 0], [2, 0]] := by
  have key : (do
      let p ← (init 2 fun _ => true).addActive (ofVec [0, 0])
      let q ← p.1.addActive (ofVec [2, 0])
      let ts ← readTerms q.1
      let ms ← q.1.reducedMargin
      pure (ts, ms)) = .ok ([ofVec [0, 0], ofVec [2, 0]],
        ([[1, 0], [0, 1], [3, 0], [2, 1]].map ofVec)) := by decide +kernel
  simp only [Res.bind_eq_ok, Res.pure_eq, Res.ok.injEq, Prod.mk.injEq] at key
  obtain ⟨⟨s1, o1⟩, e1, ⟨s2, o2⟩, e2, ts, e3, ms, e4, rfl, rfl⟩ := key
  have r1 := (Reach.init 2 fun _ => true).addActive rfl rfl e1
  obtain ⟨s1', i, e1', _, _, l1, m1⟩ :=
    C11_addActive_accepted (Reach.init 2 fun _ => true) (init_terms _ _) (v := [0, 0]) rfl rfl
  rw [e1] at e1'; cases e1'
  refine ⟨s2, _, r1.addActive (by rw [l1]; rfl) (by unfold Accepts; rw [m1]; rfl) e2,
    readTerms_terms e3, e4, by simp, ⟨0, by decide, by decide⟩, by decide⟩

/-! ### C15: expansion -/

/-- **C15.** `Expand(i)` appends exactly the accepted non-member forward neighbours of term `i` whose
backward neighbours are all members, and returns exactly their indices, once each, in order. -/
theorem C15_expand {b : Bool} {s : MISet} (h : Reach b s) {ts : List (List Nat)} (ht : Terms s ts)
    {i : Nat} {t : List Nat} (hi : ts[i]? = some t) :
    ∃ s' added, s.expand i = .ok (s', List.range' ts.length added.length) ∧
      Terms s' (ts ++ added) ∧ added.Nodup ∧ s'.length = s.length ∧ s'.limiter = s.limiter ∧
      (∀ w, w ∈ added ↔ Fwd t w ∧ w ∉ ts ∧ Accepts s w ∧ ∀ b, Fwd b w → b ∈ ts) ∧
      (DownClosed ts → DownClosed (ts ++ added)) := by
  obtain ⟨vs, R, hI, _⟩ := h.inv ht
  obtain ⟨s', vs', R', added, e, i', x, m, _⟩ := hI.expand hi
  refine ⟨s', added, e, i'.terms', (List.nodup_append.1 i'.nodup).2.1, x.length, x.limiter, m, ?_⟩
  intro hd v w hf hw
  rcases List.mem_append.1 hw with hw | hw
  · simp [hd v w hf hw]
  · simp [((m w).1 hw).2.2.2 v hf]

/-- **C15.** An index out of range throws. -/
theorem C15_expand_range {b : Bool} {s : MISet} (h : Reach b s) {ts : List (List Nat)}
    (ht : Terms s ts) {i : Nat} (hi : ts.length ≤ i) : s.expand i = .throw := by
  obtain ⟨vs, R, hI, _⟩ := h.inv ht
  rw [MISet.expand, if_pos (by rw [hI.size]; omega)]

/-- **C15.** `Expand()` appends exactly the accepted non-members that have a backward neighbour in
the set and all of whose backward neighbours are in the set; the set of returned indices is exactly
the set of the new indices (an index may be returned more than once). -/
theorem C15_expandAll {b : Bool} {s : MISet} (h : Reach b s) {ts : List (List Nat)}
    (ht : Terms s ts) :
    ∃ s' added new, s.expandAll = .ok (s', new) ∧ Terms s' (ts ++ added) ∧ added.Nodup ∧
      s'.length = s.length ∧ s'.limiter = s.limiter ∧
      (∀ w, w ∈ added ↔ w ∉ ts ∧ Accepts s w ∧ (∃ t ∈ ts, Fwd t w) ∧ ∀ b, Fwd b w → b ∈ ts) ∧
      (∀ i, i ∈ new ↔ ts.length ≤ i ∧ i < ts.length + added.length) ∧
      (DownClosed ts → DownClosed (ts ++ added)) := by
  obtain ⟨vs, R, hI, _⟩ := h.inv ht
  obtain ⟨s', vs', R', added, new, e, i', x, m, n, _⟩ := hI.expandAll
  have m' : ∀ w, w ∈ added ↔ w ∉ ts ∧ Accepts s w ∧ (∃ t ∈ ts, Fwd t w) ∧ ∀ b, Fwd b w → b ∈ ts := by
    intro w
    rw [m]
    simp only [Addable, Lim, Accepts]
    tauto
  refine ⟨s', added, new, e, i'.terms', (List.nodup_append.1 i'.nodup).2.1, x.length, x.limiter, m',
    n, ?_⟩
  intro hd v w hf hw
  rcases List.mem_append.1 hw with hw | hw
  · simp [hd v w hf hw]
  · simp [((m' w).1 hw).2.2.2 v hf]

/-- **C15, failure.** `Expand()` can report the same new index twice: from `{(0,0),(0,1),(1,0)}` the
index of `(1,1)` is reported twice. -/
theorem C15_expandAll_duplicates : ∃ (s s' : MISet) (new : List Nat), Reach true s ∧
    s.expandAll = .ok (s', new) ∧ ¬ new.Nodup := by
  have key : (do
      let s ← createTotalOrder 2 1 (fun _ => true)
      let p ← s.expandAll
      pure p.2) = .ok [3, 4, 3, 5] := by decide +kernel
  simp only [Res.bind_eq_ok, Res.pure_eq, Res.ok.injEq] at key
  obtain ⟨s, e1, ⟨s2, new⟩, e2, rfl⟩ := key
  obtain ⟨s1, e, r, _⟩ := createTotalOrder_ok (n := 2) (by omega) 1 (fun _ => true)
  rw [e1] at e; cases e
  exact ⟨s, s2, _, r, e2, by decide⟩

/-! ### C16: admissibility and frontiers -/

/-- **C16.** `IsAdmissible(m)` for a nonzero multi-index: the limiter accepts it and it is a member
or all its backward neighbours are members. -/
theorem C16_isAdmissible {b : Bool} {s : MISet} (h : Reach b s) {ts : List (List Nat)}
    (ht : Terms s ts) {v : List Nat} (hnz : ∃ i, 0 < v.getD i 0) :
    ∃ r, s.isAdmissible (ofVec v) = .ok r ∧
      (r = true ↔ Accepts s v ∧ (v ∈ ts ∨ ∀ b, Fwd b v → b ∈ ts)) := by
  obtain ⟨vs, R, hi, _⟩ := h.inv ht
  simp only [isAdmissible, hi.base.find, Res.bind_ok]
  cases hf : findPos v vs with
  | some g => exact hi.isAdmissibleG (findPos_some hf)
  | none =>
    refine ⟨false, rfl, ?_⟩
    have hv := findPos_none.1 hf
    simp only [Bool.false_eq_true, false_iff]
    rintro ⟨hl, hm | hall⟩
    · obtain ⟨g, hg, _⟩ := hi.mem_vs hm
      exact hv (List.mem_of_getElem? hg)
    · obtain ⟨b, hb⟩ := fwd_zero_or hnz
      obtain ⟨g, hg, ha⟩ := hi.mem_vs (hall b hb)
      exact hv (hi.sem.closed g b v ha (fun x => x) hg hb hl)

/-- **C16.** The zero multi-index (which has no backward neighbours) is reported admissible only if
it is a member or some accepted unit multi-index is: when the limiter was never replaced. -/
theorem C16_isAdmissible_zero {s : MISet} (h : Reach true s) {ts : List (List Nat)}
    (ht : Terms s ts) {v : List Nat} (hz : ∀ i, v.getD i 0 = 0) :
    ∃ r, s.isAdmissible (ofVec v) = .ok r ∧
      (r = true ↔ Accepts s v ∧ (v ∈ ts ∨ ∃ t ∈ ts, Fwd v t)) := by
  obtain ⟨vs, R, hi, hn⟩ := h.inv ht
  have hnb : ∀ b, ¬ Fwd b v := by
    rintro b ⟨i, hib, rfl⟩
    have := hz i
    rw [getD_inc _ _ _ hib, if_pos rfl] at this; omega
  simp only [isAdmissible, hi.base.find, Res.bind_ok]
  cases hf : findPos v vs with
  | some g =>
    have hg := findPos_some hf
    obtain ⟨r, h1, h2⟩ := hi.isAdmissibleG hg
    refine ⟨r, h1, h2.trans (and_congr_right fun hl => ?_)⟩
    constructor
    · rintro (hm | _)
      · exact Or.inl hm
      · by_cases hm : v ∈ ts
        · exact Or.inl hm
        · obtain ⟨t, htm, hft⟩ := hn rfl g v hg (fun ha => hm ((hi.act_mem hg).1 ha))
          rcases hft with hft | hft
          · exact absurd hft (hnb t)
          · exact Or.inr ⟨t, htm, hft⟩
    · rintro (hm | _)
      · exact Or.inl hm
      · exact Or.inr fun b hb => absurd hb (hnb b)
  | none =>
    refine ⟨false, rfl, ?_⟩
    have hv := findPos_none.1 hf
    simp only [Bool.false_eq_true, false_iff]
    rintro ⟨hl, hm | ⟨t, htm, hft⟩⟩
    · obtain ⟨g, hg, _⟩ := hi.mem_vs hm
      exact hv (List.mem_of_getElem? hg)
    · obtain ⟨g, hg, ha⟩ := hi.mem_vs htm
      exact hv (hi.sem.bclosed rfl g t v ha (fun x => x) hg hft hl)

/-- What makes a term part of the frontier: an accepted non-member forward neighbour all of whose
backward neighbours are members. -/
def OnFrontier (s : MISet) (ts : List (List Nat)) (t : List Nat) : Prop :=
  ∃ w, Fwd t w ∧ w ∉ ts ∧ Accepts s w ∧ ∀ b, Fwd b w → b ∈ ts

/-- **C16.** `IsExpandable`, `Frontier()` and `StrictFrontier()` are exactly the documented sets of
indices, in increasing order. -/
theorem C16_frontier {b : Bool} {s : MISet} (h : Reach b s) {ts : List (List Nat)}
    (ht : Terms s ts) :
    (∀ (i : Nat) (t : List Nat), ts[i]? = some t →
      ∃ r, s.isExpandable i = .ok r ∧ (r = true ↔ OnFrontier s ts t)) ∧
    (∃ f, s.frontier = .ok f ∧ f.Pairwise (· < ·) ∧
      ∀ j, j ∈ f ↔ ∃ t, ts[j]? = some t ∧ OnFrontier s ts t) ∧
    (∃ f, s.strictFrontier = .ok f ∧ f.Pairwise (· < ·) ∧
      ∀ j, j ∈ f ↔ ∃ t, ts[j]? = some t ∧ OnFrontier s ts t ∧
        ∀ w, Fwd t w → Accepts s w → w ∉ ts) := by
  obtain ⟨vs, R, hi, _⟩ := h.inv ht
  obtain ⟨f, f1, f2, f3⟩ := hi.frontier
  have hd : ∀ j ∈ f, j < ts.length := by
    intro j hj
    obtain ⟨t, ht, _⟩ := (f3 j).1 hj
    exact (List.getElem?_eq_some_iff.1 ht).1
  obtain ⟨r, r1, r2, r3⟩ := hi.strictLoop f hd
  refine ⟨fun i t hit => hi.isExpandable hit, ⟨f, f1, f2, f3⟩, ⟨r, by simp [strictFrontier, f1, r1],
    f2.sublist r2, fun j => (r3 j).trans ?_⟩⟩
  rw [f3]
  constructor
  · rintro ⟨⟨t, h1, h2⟩, t', h3, h4⟩
    rw [h1] at h3; cases h3
    exact ⟨t, h1, h2, h4⟩
  · rintro ⟨t, h1, h2, h3⟩
    exact ⟨⟨t, h1, h2⟩, t, h1, h3⟩

/-- **C16.** `NumActiveForward(i)` counts the accepted member forward neighbours of term `i`, and
`NumForward(i)` all accepted forward neighbours. -/
theorem C16_counts {b : Bool} {s : MISet} (h : Reach b s) {ts : List (List Nat)} (ht : Terms s ts)
    {i : Nat} {t : List Nat} (hit : ts[i]? = some t) :
    s.numActiveForward i = .ok
        ((List.range t.length).countP fun d => decide (inc t d ∈ ts)) ∧
    s.numForward i = .ok
        ((List.range t.length).countP fun d => s.limiter (ofVec (inc t d))) := by
  obtain ⟨vs, R, hi, _⟩ := h.inv ht
  obtain ⟨g, hg, hv⟩ := hi.a2g_at hit
  have htm : t ∈ ts := List.mem_of_getElem? hit
  obtain ⟨l, h1, h2, h3, h4⟩ := hi.outs hv htm
  -- the nodes listed are exactly the accepted forward neighbours
  have hperm : (l.map fun k => vs.getD k []).Perm
      ((fwdList t).filter fun w => s.limiter (ofVec w)) := by
    rw [List.perm_ext_iff_of_nodup]
    · intro w
      simp only [List.mem_map, List.mem_filter, mem_fwdList]
      rw [show (Fwd t w ∧ s.limiter (ofVec w) = true) ↔ (Fwd t w ∧ Lim s w) from Iff.rfl, ← h4]
      constructor
      · rintro ⟨k, hk, rfl⟩
        exact ⟨k, hk, by simp [h3 k hk]⟩
      · rintro ⟨k, hk, hw⟩
        exact ⟨k, hk, by simp [hw]⟩
    · apply List.Nodup.map_on
      · intro a ha c hc hac
        have e1 : vs[a]? = some (vs.getD a []) := by simp [h3 a ha]
        have e2 : vs[c]? = some (vs.getD c []) := by simp [h3 c hc]
        rw [← hac] at e2
        exact pos_inj hi.base.nodup e1 e2
      · exact h2.imp (fun {a b} hab => Nat.ne_of_lt hab)
    · exact (fwdList_nodup t).filter _
  constructor
  · simp only [numActiveForward, Res.at'_some hg, Res.idx_some h1, Res.bind_ok, hi.countActive l h3]
    congr 1
    have := hperm.countP_eq (fun w => decide (w ∈ ts))
    rw [List.countP_map] at this
    simp only [Function.comp_def] at this
    rw [this, List.countP_filter, fwdList, List.countP_map]
    apply List.countP_congr
    intro d hd
    simp only [Function.comp_apply, Bool.and_eq_true, decide_eq_true_eq]
    constructor
    · exact fun hh => hh.1
    · exact fun hh => ⟨hh, hi.lim hh⟩
  · simp only [numForward, Res.at'_some hg, Res.idx_some h1, Res.bind_ok, Res.pure_eq]
    congr 1
    have := hperm.length_eq
    rw [List.length_map] at this
    rw [this, ← List.countP_eq_length_filter, fwdList, List.countP_map]
    rfl

example : (do let s ← createTotalOrder 2 2 (fun m => m.sum ≤ 3 && m.maxValue ≤ 2)
              let f ← s.frontier; let g ← s.strictFrontier
              let n ← s.numActiveForward 1; let k ← s.numForward 2
              let a ← s.isAdmissible (ofVec [1, 2]); let c ← s.isAdmissible (ofVec [2, 2])
              pure (f, g, n, k, a, c)) = .ok ([2, 4, 5], [2, 4, 5], 2, 1, true, false) := by
  decide +kernel

/-! ### C17: ForciblyActivate, ForciblyExpand -/

theorem _root_.MParT.Spec.Le.exists_fwd {x v : List Nat} (h : Le x v) (hne : x ≠ v) : ∃ b, Fwd b v ∧ Le x b := by
  have : ∃ i, x.getD i 0 < v.getD i 0 := by
    by_contra hc
    apply hne
    apply List.ext_getElem?
    intro j
    have hj1 := h.2 j
    have hj2 : ¬ x.getD j 0 < v.getD j 0 := fun hh => hc ⟨j, hh⟩
    by_cases hj : j < x.length
    · have hj' : j < v.length := by have := h.1; omega
      rw [getD_lt hj, getD_lt hj'] at hj1 hj2
      simp [hj, hj']; omega
    · have hj' : ¬ j < v.length := by have := h.1; omega
      simp [hj, hj']
  obtain ⟨i, hi⟩ := this
  have hlt : i < v.length := by
    by_contra hc
    rw [getD_ge (Nat.not_lt.1 hc)] at hi; omega
  refine ⟨dec v i, ⟨i, by simpa [dec] using hlt, ?_⟩, by simpa [dec] using h.1, fun j => ?_⟩
  · apply List.ext_getElem?
    intro j
    by_cases hj : j = i
    · subst hj
      rw [getD_lt hlt] at hi
      simp [inc, dec, hlt]; omega
    · simp [inc, dec, Ne.symm hj]
  · by_cases hj : j = i
    · subst hj
      have : (dec v j).getD j 0 = v.getD j 0 - 1 := by
        simp [dec, hlt]
      rw [this]; omega
    · have : (dec v i).getD j 0 = v.getD j 0 := by
        simp [dec, Ne.symm hj]
      rw [this]; exact h.2 j

/-- Closure argument: everything below a new term that is accepted is in the final set. -/
theorem below_mem {s : MISet} {ts added : List (List Nat)} (hdl : DownClosedLimiter s)
    (hd : DownClosed ts) (hacc : ∀ x ∈ added, Accepts s x)
    (hc : ∀ x ∈ added, ∀ b, Fwd b x → Accepts s b → b ∈ ts ++ added) :
    ∀ (n : Nat) (v x : List Nat), v.sum = n → v ∈ ts ++ added → Le x v → x ∈ ts ++ added := by
  intro n
  induction n with
  | zero =>
    intro v x hv hm hx
    by_cases he : x = v
    · rw [he]; exact hm
    · obtain ⟨b, hb, _⟩ := hx.exists_fwd he
      have := hb.sum; omega
  | succ n ih =>
    intro v x hv hm hx
    by_cases he : x = v
    · rw [he]; exact hm
    · obtain ⟨b, hb, hxb⟩ := hx.exists_fwd he
      refine ih b x (by have := hb.sum; omega) ?_ hxb
      rcases List.mem_append.1 hm with hm | hm
      · simp [hd b v hb hm]
      · exact hc v hm b hb (hdl b v hb (hacc v hm))

/-- **C17.** `ForciblyActivate(v)` on a downward-closed set with a downward-closed limiter accepting
`v`: exactly the multi-indices below `v` are added, their indices are returned in order, and the set
stays downward closed.  Condition: the edge vectors have room (`cap`) for all nodes known in the end,
because the code iterates over a reference into a vector that grows (see `C17_dangling`). -/
theorem C17_forciblyActivate_partial {s : MISet} (h : Reach true s) {ts : List (List Nat)}
    (ht : Terms s ts) (hd : DownClosed ts) (hdl : DownClosedLimiter s) {v : List Nat}
    (hlen : v.length = s.length) (hl : Accepts s v) :
    ∃ s' added, (∀ cap, s'.allMultis.length ≤ cap →
        s.forciblyActivate cap (ofVec v) = .ok (s', List.range' ts.length added.length)) ∧
      Reach true s' ∧ Terms s' (ts ++ added) ∧ added.Nodup ∧
      (∀ x, x ∈ added ↔ x ∉ ts ∧ Le x v) ∧ DownClosed (ts ++ added) := by
  obtain ⟨vs, R, hi, hn⟩ := h.inv ht
  obtain ⟨s', vs', R', added, e, i', x, m, bel, cl, nr⟩ := hi.forciblyActivate rfl hlen hl
  have hlen' : s'.allMultis.length = vs'.length := by rw [i'.base.multis]; simp
  have nd := List.nodup_append.1 i'.nodup
  refine ⟨s', added, fun cap hc => e cap (by omega),
    h.forciblyActivate hlen (e _ (Nat.le_refl _)), i'.terms', nd.2.1, fun y => ⟨fun hy => ?_, ?_⟩, ?_⟩
  · exact ⟨fun hyt => nd.2.2 y hyt y hy rfl, (bel y hy).1⟩
  · rintro ⟨hy, hle⟩
    have := below_mem hdl hd (fun x hx => (bel x hx).2) cl _ v y rfl m hle
    simpa [hy] using this
  · intro a c hf hc
    rcases List.mem_append.1 hc with hc | hc
    · simp [hd a c hf hc]
    · exact cl c hc a hf (hdl a c hf (bel c hc).2)

/-- **C17.** A multi-index rejected by the limiter makes `ForciblyActivate` fail its assertion. -/
theorem C17_rejected {s : MISet} {v : List Nat} (hl : ¬ Accepts s v) (cap : Nat) :
    s.forciblyActivate cap (ofVec v) = .throw := by
  rw [forciblyActivate, if_neg (show ¬ s.limiter (ofVec v) = true from hl)]

/-- **C17.** `ForciblyExpand(i)`: all accepted forward neighbours of term `i` and everything below
them become members, nothing else; the new indices are returned in order. -/
theorem C17_forciblyExpand_partial {s : MISet} (h : Reach true s) {ts : List (List Nat)}
    (ht : Terms s ts) (hd : DownClosed ts) (hdl : DownClosedLimiter s) {i : Nat} {t : List Nat}
    (hit : ts[i]? = some t) :
    ∃ s' added, (∀ cap, s'.allMultis.length ≤ cap →
        s.forciblyExpand cap i = .ok (s', List.range' ts.length added.length)) ∧
      Reach true s' ∧ Terms s' (ts ++ added) ∧ added.Nodup ∧
      (∀ x, x ∈ added ↔ x ∉ ts ∧ ∃ w, Fwd t w ∧ Accepts s w ∧ Le x w) ∧
      DownClosed (ts ++ added) := by
  obtain ⟨vs, R, hi, hn⟩ := h.inv ht
  obtain ⟨s', vs', R', added, e, i', x, m, bel, cl, nr⟩ := hi.forciblyExpand rfl hit
  have hlen' : s'.allMultis.length = vs'.length := by rw [i'.base.multis]; simp
  have nd := List.nodup_append.1 i'.nodup
  refine ⟨s', added, fun cap hc => e cap (by omega),
    h.forciblyExpand (e _ (Nat.le_refl _)), i'.terms', nd.2.1, fun y => ⟨fun hy => ?_, ?_⟩, ?_⟩
  · exact ⟨fun hyt => nd.2.2 y hyt y hy rfl, (bel y hy).1⟩
  · rintro ⟨hy, w, hf, hw, hle⟩
    have := below_mem hdl hd (fun x hx => (bel x hx).2) cl _ w y rfl (m w hf hw) hle
    simpa [hy] using this
  · intro a c hf hc
    rcases List.mem_append.1 hc with hc | hc
    · simp [hd a c hf hc]
    · exact cl c hc a hf (hdl a c hf (bel c hc).2)

example : (do let s ← createTotalOrder 2 1 (fun _ => true)
              let p ← s.forciblyActivate 100 (ofVec [2, 1])
              let ts ← readTerms p.1
              pure (p.2, ts)) = .ok ([3, 4, 5], ([[0, 0], [0, 1], [1, 0], [2, 1], [1, 1], [2, 0]].map ofVec)) := by
  decide +kernel

/-- **C17, failure.** In an empty one-dimensional set `ForciblyActivate((3))` stores five nodes,
while only three are stored when the outermost loop takes its reference: with the capacity the
doubling growth policy gives at that time (4), the vector is reallocated under the reference. -/
theorem C17_dangling :
    (init 1 fun _ => true).forciblyActivate 4 (ofVec [3]) = .ub ∧
    ((init 1 fun _ => true).forciblyActivate 5 (ofVec [3]) >>= fun p => pure p.2)
      = .ok [0, 1, 2, 3] := by
  refine ⟨?_, by decide +kernel⟩
  have key : ((init 1 fun _ => true).forciblyActivate 4 (ofVec [3]) >>= fun p => pure p.2) = .ub := by
    decide +kernel
  cases hx : (init 1 fun _ => true).forciblyActivate 4 (ofVec [3]) with
  | ok a => rw [hx] at key; cases key
  | throw => rw [hx] at key; cases key
  | ub => rfl

/-! ### C18: SetLimiter -/

/-- **C18.** `SetLimiter(L)` throws iff some member violates `L`; members and their indices never
change.  After success the set is reachable with limiter `L`, so `C13_margin`, `C15_expand` and
`C15_expandAll` apply to it: margins and expansions only produce multi-indices accepted by `L`. -/
theorem C18_setLimiter {b : Bool} {s : MISet} (h : Reach b s) {ts : List (List Nat)}
    (ht : Terms s ts) (L : MultiIndex → Bool) :
    ∃ s' thrown, s.setLimiter L = .ok (s', thrown) ∧
      (thrown = true ↔ ∃ t ∈ ts, L (ofVec t) = false) ∧ Terms s' ts ∧ s'.length = s.length ∧
      (thrown = false → Reach false s' ∧ s'.limiter = L ∧ ∀ t ∈ ts, Accepts s' t) := by
  obtain ⟨vs, R, hi, _⟩ := h.inv ht
  obtain ⟨s', vs', R', thrown, e, h2, h3, h4, h5, h6, h7, h8⟩ := hi.setLimiter L
  obtain ⟨added, hT⟩ := C09_indices_stable h ht (.setLimiter e)
  have : added = [] := by
    have := hT.1
    rw [size, h4, hi.size, List.length_append] at this
    exact List.length_eq_zero_iff.1 (by omega)
  subst this
  rw [List.append_nil] at hT
  refine ⟨s', thrown, e, h7, hT, h3, ?_⟩
  rintro rfl
  refine ⟨h.setLimiter e, h2, fun t htm => ?_⟩
  unfold Accepts
  rw [h2]
  by_contra hc
  have := h7.2 ⟨t, htm, by simpa using hc⟩
  cases this

/-- **C18, failure.** When `SetLimiter` throws, the object nevertheless carries the new limiter
afterwards (no strong exception guarantee). -/
theorem C18_throw_replaces_limiter {b : Bool} {s : MISet} (h : Reach b s) {ts : List (List Nat)}
    (ht : Terms s ts) (L : MultiIndex → Bool) (hv : ∃ t ∈ ts, L (ofVec t) = false) :
    ∃ s', s.setLimiter L = .ok (s', true) ∧ s'.limiter = L := by
  obtain ⟨vs, R, hi, _⟩ := h.inv ht
  obtain ⟨s', vs', R', thrown, e, h2, h3, h4, h5, h6, h7, h8⟩ := hi.setLimiter L
  rw [h7.2 hv] at e
  exact ⟨s', e, h2⟩

/-- **C18, failure.** After a successful `SetLimiter` the reduced margin can contain a multi-index
the new limiter rejects. -/
theorem C18_reducedMargin_violates : ∃ s ms, Reach false s ∧ ¬ Accepts s [1] ∧
    s.reducedMargin = .ok ms ∧ ofVec [1] ∈ ms := by
  have key : (do
      let p ← (init 1 fun _ => true).addActive (ofVec [0])
      let q ← p.1.setLimiter (fun m => decide (m.sum = 0))
      let ms ← q.1.reducedMargin
      pure (q.2, q.1.limiter (ofVec [1]), ms)) = .ok (false, false, [ofVec [1]]) := by decide +kernel
  simp only [Res.bind_eq_ok, Res.pure_eq, Res.ok.injEq, Prod.mk.injEq] at key
  obtain ⟨⟨s1, o1⟩, e1, ⟨s2, o2⟩, e2, ms, e4, rfl, h2, rfl⟩ := key
  exact ⟨s2, _, ((Reach.init 1 fun _ => true).addActive rfl rfl e1).setLimiter e2,
    fun hh => by rw [Accepts] at hh; exact Bool.false_ne_true (h2.symm.trans hh), e4, by simp⟩

example : (do let s ← createTotalOrder 2 2 (fun _ => true)
              let q ← s.setLimiter (fun m => decide (m.sum ≤ 2))
              let r ← s.setLimiter (fun m => decide (m.sum ≤ 1))
              let ms ← q.1.margin
              pure (q.2, r.2, ms)) = .ok (false, true, []) := by decide +kernel

end MISet
end MParT
