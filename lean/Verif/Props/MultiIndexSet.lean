import Verif.Lemmas.MISetFill
import Verif.Props.MultiIndex
/-!
# Properties C04 (FilterBounded), C07–C12: `MultiIndexSet`

`Terms s ts`: `ts` is the list of terms read through `Size` and `IndexToMulti`.
`Reach fixed s`: `s` was obtained by a history of public mutations (`Verif/Spec/MISetHist.lean`).
`Spec.Fwd v w`: `w = v + e_i` for some `i`.
-/
namespace MParT
namespace MISet
open MultiIndex Spec Neighborhood

/-- Every reachable set has a term list, and it is unique. -/
theorem C09_terms_exist {b : Bool} {s : MISet} (h : Reach b s) : ∃! ts, Terms s ts := by
  obtain ⟨vs, R, ts, hi, _⟩ := h.ok
  exact ⟨ts, hi.terms', fun us hu => hu.unique hi.terms'⟩

/-- All terms, read through `Size` and `IndexToMulti` (used in concrete instances). -/
def readTerms (s : MISet) : Res (List MultiIndex) :=
  (List.range s.size).mapM s.indexToMulti

theorem mapM_get {α : Type} (f : Nat → Res α) (l : List Nat) : ∀ ms, l.mapM f = .ok ms →
    ms.length = l.length ∧ ∀ (i k : Nat) (m : α), l[i]? = some k → ms[i]? = some m → f k = .ok m := by
  induction l with
  | nil => intro ms h; simp at h; subst h; simp
  | cons a l ih =>
    intro ms h
    simp only [List.mapM_cons, Res.bind_eq_ok, Res.pure_eq, Res.ok.injEq] at h
    obtain ⟨m, h1, ms', h2, rfl⟩ := h
    obtain ⟨h3, h4⟩ := ih ms' h2
    refine ⟨by simp [h3], ?_⟩
    intro i k m' hi hm
    cases i with
    | zero => simp at hi hm; subst hi; subst hm; exact h1
    | succ i => simp at hi hm; exact h4 i k m' hi hm

theorem readTerms_terms {s : MISet} {ts : List (List Nat)}
    (h : readTerms s = .ok (ts.map ofVec)) : Terms s ts := by
  obtain ⟨h1, h2⟩ := mapM_get _ _ _ h
  simp only [List.length_map, List.length_range] at h1
  refine ⟨h1.symm, fun i t ht => h2 i i _ ?_ (by simp [ht])⟩
  have := (List.getElem?_eq_some_iff.1 ht).1
  simp [h1 ▸ this]

/-! ### C04: FilterBounded -/

/-- **C04.** `FilterBounded(bound)` has one flag per term, in index order, telling whether some
component of the term reaches the bound; it throws iff the set is nonempty and its terms are longer
than the bound. -/
theorem C04_filterBounded {b : Bool} {s : MISet} (h : Reach b s) {ts : List (List Nat)}
    (ht : Terms s ts) (bound : List Nat) :
    (s.length ≤ bound.length → ∃ fs, s.filterBounded (ofVec bound) = .ok fs ∧
      fs.length = ts.length ∧ ∀ (i : Nat) (t : List Nat) (f : Bool), ts[i]? = some t →
        fs[i]? = some f → (f = true ↔ ∃ j x y : Nat, t[j]? = some x ∧ bound[j]? = some y ∧ y ≤ x)) ∧
    (bound.length < s.length → ts ≠ [] → s.filterBounded (ofVec bound) = .throw) := by
  obtain ⟨vs, R, hi, _⟩ := h.inv ht
  constructor
  · intro hl
    have key : ∀ (gs : List Nat) (us : List (List Nat)), gs.map (fun g => vs[g]?) = us.map some →
        ∃ fs, s.filterLoop (ofVec bound) gs = .ok fs ∧ fs.length = us.length ∧
          ∀ (i : Nat) (t : List Nat) (f : Bool), us[i]? = some t → fs[i]? = some f →
          (f = true ↔ ∃ j x y : Nat, t[j]? = some x ∧ bound[j]? = some y ∧ y ≤ x) := by
      intro gs
      induction gs with
      | nil =>
        intro us hu
        cases us with
        | nil => exact ⟨[], rfl, rfl, by simp⟩
        | cons u us => simp at hu
      | cons g gs ih =>
        intro us hu
        cases us with
        | nil => simp at hu
        | cons u us =>
          simp only [List.map_cons, List.cons.injEq] at hu
          obtain ⟨fs, e, l, p⟩ := ih us hu.2
          have hg := hi.base.multis
          have hm : s.allMultis[g]? = some (ofVec u) := by simp [hg, hu.1]
          have hul : u.length = s.length := hi.base.len u (List.mem_of_getElem? hu.1)
          obtain ⟨r, hr, hr'⟩ := (C04_anyBounded (Built.ofVec u) (Built.ofVec bound)).2 (by omega)
          refine ⟨r :: fs, by simp [filterLoop, Res.idx_some hm, hr, e], by simp [l], ?_⟩
          intro i t f h1 h2
          cases i with
          | zero => simp at h1 h2; subst h1; subst h2; exact hr'
          | succ i => simp at h1 h2; exact p i t f h1 h2
    exact key s.active2global ts hi.terms
  · intro hl hne
    match ts, hne, hi with
    | t :: ts, _, hi =>
      have h1 := hi.terms
      cases hg : s.active2global with
      | nil => rw [hg] at h1; simp at h1
      | cons g gs =>
        rw [hg] at h1
        simp only [List.map_cons, List.cons.injEq] at h1
        have hm : s.allMultis[g]? = some (ofVec t) := by simp [hi.base.multis, h1.1]
        have htl : t.length = s.length := hi.len (by simp)
        have := (C04_anyBounded (Built.ofVec t) (Built.ofVec bound)).1 (by omega)
        simp [filterBounded, hg, filterLoop, Res.idx_some hm, this]

example : (do let s ← createTotalOrder 2 2 (fun _ => true); s.filterBounded (ofVec [3, 1]))
    = .ok [false, true, true, false, true, false] := by decide +kernel

/-! ### C07, C08: creation -/

/-- **C07.** `CreateTotalOrder(n,p,limiter)` succeeds for `n>0` and holds exactly the accepted
multi-indices of length `n` and sum at most `p`, once each, in lexicographic order. -/
theorem C07_createTotalOrder {n : Nat} (hn : 0 < n) (p : Nat) (lim : MultiIndex → Bool) :
    ∃ s ts, createTotalOrder n p lim = .ok s ∧ Reach true s ∧ s.length = n ∧ s.limiter = lim ∧
      Terms s ts ∧ ts.Nodup ∧ ts.Pairwise (· < ·) ∧
      ∀ v, v ∈ ts ↔ v.length = n ∧ v.sum ≤ p ∧ lim (ofVec v) = true := by
  obtain ⟨s, e, r, l, m, t⟩ := createTotalOrder_ok hn p lim
  refine ⟨s, _, e, r, l, m, t, (sorted_nodup (toEnum_sorted n p)).filter _,
    (toEnum_sorted n p).filter _, fun v => ?_⟩
  simp [mem_toEnum, and_assoc]

/-- **C07.** A zero length is rejected. -/
theorem C07_zero_length (p : Nat) (lim : MultiIndex → Bool) : createTotalOrder 0 p lim = .throw := rfl

example : (do let s ← createTotalOrder 2 2 (fun m => m.maxValue < 2)
              let a ← s.indexToMulti 0; let b ← s.indexToMulti 3; pure (s.size, a, b))
    = .ok (4, ofVec [0, 0], ofVec [1, 1]) := by decide +kernel

/-- **C08.** `CreateTensorProduct(n,p,limiter)` succeeds for `n>0` and holds exactly the accepted
multi-indices of length `n` with all entries at most `p`, once each, in lexicographic order. -/
theorem C08_createTensorProduct {n : Nat} (hn : 0 < n) (p : Nat) (lim : MultiIndex → Bool) :
    ∃ s ts, createTensorProduct n p lim = .ok s ∧ Reach true s ∧ s.length = n ∧ s.limiter = lim ∧
      Terms s ts ∧ ts.Nodup ∧ ts.Pairwise (· < ·) ∧
      ∀ v, v ∈ ts ↔ v.length = n ∧ (∀ x ∈ v, x ≤ p) ∧ lim (ofVec v) = true := by
  obtain ⟨s, e, r, l, m, t⟩ := createTensorProduct_ok hn p lim
  refine ⟨s, _, e, r, l, m, t, (sorted_nodup (tensorEnum_sorted p n)).filter _,
    (tensorEnum_sorted p n).filter _, fun v => ?_⟩
  simp [mem_tensorEnum, and_assoc]

theorem C08_zero_length (p : Nat) (lim : MultiIndex → Bool) :
    createTensorProduct 0 p lim = .throw := rfl

example : (do let s ← createTensorProduct 2 1 (fun _ => true)
              let a ← s.indexToMulti 1; let b ← s.indexToMulti 3; pure (s.size, a, b))
    = .ok (4, ofVec [0, 1], ofVec [1, 1]) := by decide +kernel

/-! ### C09: indices and multi-indices -/

/-- **C09.** In every reachable set `IndexToMulti` and `MultiToIndex` are inverse to each other, no
term occurs twice, `MultiToIndex` answers `-1` exactly for non-members and `IsActive` tells
membership. -/
theorem C09_bijection {b : Bool} {s : MISet} (h : Reach b s) {ts : List (List Nat)}
    (ht : Terms s ts) :
    ts.Nodup ∧ (∀ t ∈ ts, t.length = s.length) ∧
    (∀ (i : Nat) (v : List Nat), s.multiToIndex (ofVec v) = .ok (some i) ↔ ts[i]? = some v) ∧
    (∀ v, s.multiToIndex (ofVec v) = .ok none ↔ v ∉ ts) ∧
    (∀ v, ∃ r, s.isActive (ofVec v) = .ok r ∧ (r = true ↔ v ∈ ts)) := by
  obtain ⟨vs, R, hi, _⟩ := h.inv ht
  have hm : ∀ v, s.multiToIndex (ofVec v) =
      match findPos v vs with
      | some g => Res.idx s.global2active g
      | none => .ok none := by
    intro v
    simp only [multiToIndex, hi.base.find, Res.bind_ok]
    cases findPos v vs <;> rfl
  have key : ∀ (v : List Nat) (o : Option Nat), s.multiToIndex (ofVec v) = .ok o ↔
      (∃ i, o = some i ∧ ts[i]? = some v) ∨ (o = none ∧ v ∉ ts) := by
    intro v o
    rw [hm]
    cases hf : findPos v vs with
    | none =>
      have hv := findPos_none.1 hf
      have hvt : v ∉ ts := fun hh => by
        obtain ⟨g, hg, _⟩ := hi.mem_vs hh
        exact hv (List.mem_of_getElem? hg)
      simp only [Res.ok.injEq]
      constructor
      · rintro rfl; exact Or.inr ⟨rfl, hvt⟩
      · rintro (⟨i, _, hh⟩ | ⟨rfl, _⟩)
        · exact absurd (List.mem_of_getElem? hh) hvt
        · rfl
    | some g =>
      have hg := findPos_some hf
      have hlt : g < s.global2active.length := by
        rw [hi.base.g2a_len]; exact (List.getElem?_eq_some_iff.1 hg).1
      have hga : s.global2active[g]? = some s.global2active[g] := by simp [hlt]
      simp only [Res.idx_lt hlt, Res.ok.injEq]
      constructor
      · rintro rfl
        cases ho : s.global2active[g] with
        | none =>
          right
          refine ⟨rfl, fun hv => ?_⟩
          obtain ⟨i, hi'⟩ := (hi.act_mem hg).2 hv
          rw [hga, ho] at hi'; simp at hi'
        | some i =>
          left
          exact ⟨i, rfl, hi.idx_of hg (by rw [hga, ho])⟩
      · rintro (⟨i, rfl, hh⟩ | ⟨rfl, hv⟩)
        · obtain ⟨j, hj⟩ := (hi.act_mem hg).2 (List.mem_of_getElem? hh)
          have := pos_inj hi.nodup (hi.idx_of hg hj) hh
          subst this
          rw [hga] at hj; simpa using hj
        · cases ho : s.global2active[g] with
          | none => rfl
          | some i => exact absurd ((hi.act_mem hg).1 ⟨i, by rw [hga, ho]⟩) hv
  refine ⟨hi.nodup, fun t htm => hi.len htm, ?_, ?_, ?_⟩
  · intro i v
    rw [key]
    constructor
    · rintro (⟨j, h1, h2⟩ | ⟨h1, _⟩)
      · cases h1; exact h2
      · cases h1
    · exact fun hh => Or.inl ⟨i, rfl, hh⟩
  · intro v
    rw [key]
    constructor
    · rintro (⟨j, h1, h2⟩ | ⟨_, h1⟩)
      · cases h1
      · exact h1
    · exact fun hh => Or.inr ⟨rfl, hh⟩
  · intro v
    simp only [isActive, hi.base.find, Res.bind_ok]
    cases hf : findPos v vs with
    | none =>
      have hv := findPos_none.1 hf
      refine ⟨false, rfl, ?_⟩
      simp only [Bool.false_eq_true, false_iff]
      intro hh
      obtain ⟨g, hg, _⟩ := hi.mem_vs hh
      exact hv (List.mem_of_getElem? hg)
    | some g => exact ⟨_, hi.isActiveG (findPos_some hf), by simp⟩

/-- **C09.** Every public mutation keeps the existing terms at their indices. -/
theorem C09_indices_stable {b : Bool} {s s' : MISet} (h : Reach b s) {ts : List (List Nat)}
    (ht : Terms s ts) (hm : Mutation s s') : ∃ added, Terms s' (ts ++ added) := by
  obtain ⟨vs, R, hi, _⟩ := h.inv ht
  cases hm with
  | @addActive _ _ v o hlen hl e =>
    obtain ⟨s1, vs1, R1, i, e1, i1, _⟩ := hi.addActive hlen hl
    rw [e1] at e; cases e
    by_cases hv : v ∈ ts
    · exact ⟨[], by simpa [addT, hv] using i1.terms'⟩
    · exact ⟨[v], by simpa [addT, hv] using i1.terms'⟩
  | @activate _ _ v e =>
    simp only [MISet.activate, hi.base.find, Res.bind_ok] at e
    cases hf : findPos v vs with
    | none => rw [hf] at e; cases e
    | some g =>
      rw [hf] at e
      have hg := findPos_some hf
      obtain ⟨r, h1, h2⟩ := hi.isAdmissibleG hg
      simp only [h1, Res.bind_ok] at e
      split at e
      · rename_i hr
        obtain ⟨s1, vs1, R1, i, e1, i1, _⟩ := hi.activateG hg (h2.1 hr).1
        rw [e1] at e; cases e
        by_cases hv : v ∈ ts
        · exact ⟨[], by simpa [addT, hv] using i1.terms'⟩
        · exact ⟨[v], by simpa [addT, hv] using i1.terms'⟩
      · cases e
  | @expand _ _ i new e =>
    by_cases hlt : i < ts.length
    · obtain ⟨s1, vs1, R1, added, e1, i1, _⟩ := hi.expand (i := i) (t := ts[i]) (by simp [hlt])
      rw [e1] at e; cases e
      exact ⟨added, i1.terms'⟩
    · rw [MISet.expand, if_pos (by rw [hi.size]; omega)] at e
      cases e
  | expandAll e =>
    obtain ⟨s1, vs1, R1, added, nw, e1, i1, _⟩ := hi.expandAll
    rw [e1] at e; cases e
    exact ⟨added, i1.terms'⟩
  | union hr hlen e =>
    obtain ⟨us, Q, rs, hr', _⟩ := hr.ok
    obtain ⟨s1, vs1, R1, added, e1, i1, _⟩ := hi.union hr' hlen
    rw [e1] at e; cases e
    exact ⟨added, i1.terms'⟩
  | @setLimiter _ _ _ L e =>
    obtain ⟨s1, vs1, R1, thrown, e1, _, _, h4, h5, h6, _⟩ := hi.setLimiter L
    rw [e1] at e; cases e
    refine ⟨[], ?_⟩
    rw [List.append_nil]
    refine ⟨by rw [size, h4, hi.size], fun i t hti => ?_⟩
    have hh : (s'.active2global.map (fun g => vs1[g]?))[i]? = some (some t) := by
      rw [h6]; simp [hti]
    rw [List.getElem?_map] at hh
    cases hg : s'.active2global[i]? with
    | none => simp [hg] at hh
    | some g =>
      simp [hg] at hh
      simp [indexToMulti, Res.at'_some hg, h5.at_multis hh]

-- a concrete history: create, add, expand; indices of the first terms do not move
example : (do let s ← createTotalOrder 2 1 (fun _ => true)
              let (s1, o) ← s.addActive (ofVec [2, 0])
              let (s2, _) ← s1.expandAll
              let i ← s2.multiToIndex (ofVec [1, 0])
              let j ← s2.multiToIndex (ofVec [2, 0])
              let k ← s2.multiToIndex (ofVec [4, 0])
              pure (o, i, j, k)) = .ok (some 3, some 2, some 3, none) := by decide +kernel

/-! ### C10: MaxOrders -/

/-- **C10.** `MaxOrders()` has one entry per dimension, the largest degree of that dimension over
the terms (0 for the empty set). -/
theorem C10_maxOrders {b : Bool} {s : MISet} (h : Reach b s) {ts : List (List Nat)}
    (ht : Terms s ts) : s.maxOrders.length = s.length ∧
      ∀ (d m : Nat), s.maxOrders[d]? = some m →
        (∀ t ∈ ts, t.getD d 0 ≤ m) ∧ (m = 0 ∨ ∃ t ∈ ts, t.getD d 0 = m) := by
  obtain ⟨vs, R, hi, _⟩ := h.inv ht
  refine ⟨hi.mo_len, fun d m hd => ?_⟩
  have hlt : d < s.length := by rw [← hi.mo_len]; exact (List.getElem?_eq_some_iff.1 hd).1
  rw [hi.mo d hlt] at hd
  have hd' := Option.some.inj hd
  have key : ∀ l : List Nat, (∀ x ∈ l, x ≤ vmax l) ∧ (vmax l = 0 ∨ vmax l ∈ l) := by
    intro l
    induction l with
    | nil => simp [vmax]
    | cons x xs ih =>
      constructor
      · intro y hy
        rcases List.mem_cons.1 hy with e | e
        · subst e; exact Nat.le_max_left _ _
        · exact Nat.le_trans (ih.1 y e) (Nat.le_max_right _ _)
      · simp only [vmax]
        rcases Nat.le_total x (vmax xs) with hx | hx
        · rw [Nat.max_eq_right hx]
          exact ih.2.imp id (fun h => by simp [h])
        · rw [Nat.max_eq_left hx]; simp
  obtain ⟨k1, k2⟩ := key (ts.map fun t => t.getD d 0)
  rw [hd'] at k1 k2
  constructor
  · intro t htm; exact k1 _ (List.mem_map_of_mem htm)
  · rcases k2 with k | k
    · exact Or.inl k
    · obtain ⟨t, h1, h2⟩ := List.mem_map.1 k
      exact Or.inr ⟨t, h1, h2⟩

example : (do let s ← createTotalOrder 2 1 (fun _ => true)
              let (s1, _) ← s.addActive (ofVec [0, 3]); pure s1.maxOrders) = .ok [1, 3] := by
  decide +kernel

/-! ### C11: AddActive -/

/-- **C11.** Adding an accepted multi-index of the right length makes it a member, reports its
index, and adds nothing else. -/
theorem C11_addActive_accepted {b : Bool} {s : MISet} (h : Reach b s) {ts : List (List Nat)}
    (ht : Terms s ts) {v : List Nat} (hlen : v.length = s.length) (hl : Accepts s v) :
    ∃ s' i, s.addActive (ofVec v) = .ok (s', some i) ∧
      Terms s' (if v ∈ ts then ts else ts ++ [v]) ∧ s'.indexToMulti i = .ok (ofVec v) ∧
      s'.length = s.length ∧ s'.limiter = s.limiter := by
  obtain ⟨s', i, e, _, t, l, m, p⟩ := h.add ht hlen hl
  exact ⟨s', i, e, t, t.2 i v p, l, m⟩

/-- **C11.** While the limiter has never been replaced, adding a rejected multi-index changes
nothing and returns `-1`. -/
theorem C11_addActive_rejected {s : MISet} (h : Reach true s) {v : List Nat} (hl : ¬ Accepts s v) :
    s.addActive (ofVec v) = .ok (s, none) := by
  obtain ⟨vs, R, ts, hi, _⟩ := h.ok
  exact hi.addActive_viol rfl hl

/-- **C11, failure.** After `SetLimiter` a multi-index the limiter rejects can still be added, if an
earlier operation left it known to the set: the documented role of the limiter is violated. -/
theorem C11_fails_after_setLimiter : ∃ (s s' : MISet), Reach false s ∧
    ¬ Accepts s [1] ∧ s.addActive (ofVec [1]) = .ok (s', some 1) ∧ Terms s' [[0], [1]] := by
  have key : (do
      let p ← (init 1 fun _ => true).addActive (ofVec [0])
      let q ← p.1.setLimiter (fun m => decide (m.sum = 0))
      let r ← q.1.addActive (ofVec [1])
      let ms ← readTerms r.1
      pure (q.2, q.1.limiter (ofVec [1]), r.2, ms))
      = .ok (false, false, some 1, [ofVec [0], ofVec [1]]) := by decide +kernel
  simp only [Res.bind_eq_ok, Res.pure_eq, Res.ok.injEq, Prod.mk.injEq] at key
  obtain ⟨⟨s1, o1⟩, e1, ⟨s2, o2⟩, e2, ⟨s3, o3⟩, e3, ms, e4, rfl, h2, rfl, rfl⟩ := key
  exact ⟨s2, s3, ((Reach.init 1 fun _ => true).addActive rfl rfl e1).setLimiter e2,
    fun hh => by rw [Accepts] at hh; exact Bool.false_ne_true (h2.symm.trans hh), e3, readTerms_terms e4⟩

/-- **C11, failure.** The length of the new multi-index is not checked: a shorter one becomes a
member, a longer one throws (after the object was modified). -/
theorem C11_length_unchecked :
    (∃ s', (init 2 fun _ => true).addActive (ofVec [1]) = .ok (s', some 0) ∧
      s'.length = 2 ∧ s'.indexToMulti 0 = .ok (ofVec [1])) ∧
    (init 1 fun _ => true).addActive (ofVec [0, 1]) = .throw := by
  constructor
  · have key : (do
        let p ← (init 2 fun _ => true).addActive (ofVec [1])
        let m ← p.1.indexToMulti 0
        pure (p.2, p.1.length, m)) = .ok (some 0, 2, ofVec [1]) := by decide +kernel
    simp only [Res.bind_eq_ok, Res.pure_eq, Res.ok.injEq, Prod.mk.injEq] at key
    obtain ⟨⟨s1, o1⟩, e1, m, e2, rfl, h2, rfl⟩ := key
    exact ⟨s1, e1, h2, e2⟩
  · have key : ((init 1 fun _ => true).addActive (ofVec [0, 1]) >>= fun p => pure p.2) = .throw := by
      decide +kernel
    cases hx : (init 1 fun _ => true).addActive (ofVec [0, 1]) with
    | ok a => rw [hx] at key; cases key
    | throw => rfl
    | ub => rw [hx] at key; cases key

/-! ### C12: Union -/

/-- **C12.** `a.Union(b)`: the old terms keep their indices, exactly the terms of `b` accepted by
the limiter of `a` and not yet present are appended, and their number is returned. -/
theorem C12_union {b b' : Bool} {s r : MISet} (h : Reach b s) (h' : Reach b' r)
    {ts rs : List (List Nat)} (ht : Terms s ts) (hr : Terms r rs) (hlen : r.length = s.length) :
    ∃ s' added, s.union r = .ok (s', added.length) ∧ Terms s' (ts ++ added) ∧ added.Nodup ∧
      (∀ w, w ∈ added ↔ w ∉ ts ∧ w ∈ rs ∧ Accepts s w) ∧
      s'.length = s.length ∧ s'.limiter = s.limiter := by
  obtain ⟨vs, R, hi, _⟩ := h.inv ht
  obtain ⟨us, Q, hir, _⟩ := h'.inv hr
  obtain ⟨s', vs', R', added, e, i, x, m, _⟩ := hi.union hir hlen
  refine ⟨s', added, e, i.terms', (List.nodup_append.1 i.nodup).2.1, fun w => ?_, x.length, x.limiter⟩
  rw [m]
  exact and_congr_right fun _ => and_comm

example : (do let a ← createTotalOrder 2 1 (fun _ => true)
              let c ← createTensorProduct 2 1 (fun _ => true)
              let (s, n) ← a.union c
              let m ← s.indexToMulti 3
              pure (n, m)) = .ok (1, ofVec [1, 1]) := by decide +kernel

end MISet
end MParT
