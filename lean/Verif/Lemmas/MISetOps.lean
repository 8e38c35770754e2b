import Verif.Lemmas.MISetInv
/-!
Helper lemmas for `MultiIndexSet`, part 4: expansion, union, queries, replacing the limiter.
-/
namespace MParT
namespace MISet
open MultiIndex Spec Neighborhood

section queries
variable {F : Prop} {s : MISet} {vs : List (List Nat)} {R : Nat → Nat → Prop} {ts : List (List Nat)}

theorem pos_inj {vs : List (List Nat)} (hn : vs.Nodup) {a b : Nat} {v : List Nat}
    (ha : vs[a]? = some v) (hb : vs[b]? = some v) : a = b := by
  have := findPos_of_nodup hn ha
  rw [findPos_of_nodup hn hb] at this
  simpa using this.symm

/-- Inactive, accepted and all backward neighbours active: what `Expand` may add. -/
def Addable (lim : List Nat → Prop) (ts : List (List Nat)) (w : List Nat) : Prop :=
  w ∉ ts ∧ lim w ∧ ∀ b, Fwd b w → b ∈ ts

theorem Inv.addableTest (h : Inv F s vs R ts) {g : Nat} {w : List Nat} (hw : vs[g]? = some w) :
    ∃ adm, MISet.isAdmissibleG s g = .ok adm ∧ MISet.isActiveG s g = .ok (decide (w ∈ ts)) ∧
      ((adm && !decide (w ∈ ts)) = true ↔ Addable (Lim s) ts w) := by
  obtain ⟨r, h1, h2⟩ := h.isAdmissibleG hw
  refine ⟨r, h1, h.isActiveG hw, ?_⟩
  simp only [Bool.and_eq_true, Bool.not_eq_true', decide_eq_false_iff_not, h2, Addable]
  tauto

theorem Inv.expandableLoop (h : Inv F s vs R ts) (l : List Nat) (hd : ∀ k ∈ l, k < vs.length) :
    ∃ r, MISet.expandableLoop s l = .ok r ∧
      (r = true ↔ ∃ k ∈ l, ∃ w, vs[k]? = some w ∧ Addable (Lim s) ts w) := by
  induction l with
  | nil => exact ⟨false, rfl, by simp⟩
  | cons k ks ih =>
    have hk : k < vs.length := hd k (by simp)
    have hv : vs[k]? = some vs[k] := by simp [hk]
    obtain ⟨adm, h1, h2, h3⟩ := h.addableTest hv
    obtain ⟨r, h4, h5⟩ := ih (fun j hj => hd j (by simp [hj]))
    simp only [MISet.expandableLoop, h1, h2, Res.bind_ok]
    by_cases hc : Addable (Lim s) ts vs[k]
    · have := h3.2 hc
      rw [Bool.and_comm] at this
      rw [if_pos this]
      exact ⟨true, rfl, by simp only [true_iff]; exact ⟨k, by simp, _, hv, hc⟩⟩
    · have : ¬ (!decide (vs[k] ∈ ts) && adm) = true := by
        rw [Bool.and_comm]; exact fun hh => hc (h3.1 hh)
      rw [if_neg this, h4]
      refine ⟨r, rfl, h5.trans ?_⟩
      constructor
      · rintro ⟨j, hj, w, hw⟩; exact ⟨j, by simp [hj], w, hw⟩
      · rintro ⟨j, hj, w, hw, ha⟩
        rcases List.mem_cons.1 hj with e | e
        · subst e; rw [hv] at hw; cases hw; exact absurd ha hc
        · exact ⟨j, e, w, hw, ha⟩

/-- `t` has an addable forward neighbour. -/
def Expandable (lim : List Nat → Prop) (ts : List (List Nat)) (t : List Nat) : Prop :=
  ∃ w, Fwd t w ∧ Addable lim ts w

theorem Inv.a2g_at (h : Inv F s vs R ts) {i : Nat} {t : List Nat} (hi : ts[i]? = some t) :
    ∃ g, s.active2global[i]? = some g ∧ vs[g]? = some t := by
  have hlt : i < s.active2global.length := by
    rw [h.size]; exact (List.getElem?_eq_some_iff.1 hi).1
  obtain ⟨t', h1, h2⟩ := h.term_at (i := i) (g := s.active2global[i]) (by simp [hlt])
  rw [hi] at h2; cases h2
  exact ⟨_, by simp [hlt], h1⟩

theorem Inv.outs (h : Inv F s vs R ts) {g : Nat} {t : List Nat} (hg : vs[g]? = some t)
    (ht : t ∈ ts) : ∃ l, s.outEdges[g]? = some l ∧ l.Pairwise (· < ·) ∧
      (∀ k ∈ l, k < vs.length) ∧ ∀ w, (∃ k ∈ l, vs[k]? = some w) ↔ Fwd t w ∧ Lim s w := by
  obtain ⟨l, h1, h2, h3⟩ := h.base.out_at (List.getElem?_eq_some_iff.1 hg).1
  refine ⟨l, h1, h2, fun k hk => (h.base.edges.dom _ _ ((h3 k).1 hk)).2, fun w => ?_⟩
  constructor
  · rintro ⟨k, hk, hw⟩
    obtain ⟨w', hw', hf, hl⟩ := (h.out_active hg ht k).1 ((h3 k).1 hk)
    rw [hw] at hw'; cases hw'; exact ⟨hf, hl⟩
  · rintro ⟨hf, hl⟩
    have hmem := h.sem.closed g t w ((h.act_mem hg).2 ht) (fun x => x) hg hf hl
    obtain ⟨k, hk⟩ := List.getElem?_of_mem hmem
    exact ⟨k, (h3 k).2 ((h.out_active hg ht k).2 ⟨w, hk, hf, hl⟩), hk⟩

theorem Inv.isExpandable (h : Inv F s vs R ts) {i : Nat} {t : List Nat} (hi : ts[i]? = some t) :
    ∃ r, MISet.isExpandable s i = .ok r ∧ (r = true ↔ Expandable (Lim s) ts t) := by
  obtain ⟨g, hg, hv⟩ := h.a2g_at hi
  have ht : t ∈ ts := List.mem_of_getElem? hi
  obtain ⟨l, h1, h2, h3, h4⟩ := h.outs hv ht
  obtain ⟨r, h5, h6⟩ := h.expandableLoop l h3
  refine ⟨r, by simp [MISet.isExpandable, Res.at'_some hg, Res.idx_some h1, h5], h6.trans ?_⟩
  constructor
  · rintro ⟨k, hk, w, hw, ha⟩
    exact ⟨w, ((h4 w).1 ⟨k, hk, hw⟩).1, ha⟩
  · rintro ⟨w, hf, ha⟩
    obtain ⟨k, hk, hw⟩ := (h4 w).2 ⟨hf, ha.2.1⟩
    exact ⟨k, hk, w, hw, ha⟩

theorem Inv.frontierLoop (h : Inv F s vs R ts) (n : Nat) : ∀ i, i + n ≤ ts.length →
    ∃ f, MISet.frontierLoop s i n = .ok f ∧ f.Pairwise (· < ·) ∧
      ∀ j, j ∈ f ↔ i ≤ j ∧ j < i + n ∧ ∃ t, ts[j]? = some t ∧ Expandable (Lim s) ts t := by
  induction n with
  | zero => intro i _; exact ⟨[], rfl, List.Pairwise.nil, by intro j; simp; omega⟩
  | succ n ih =>
    intro i hi
    have hlt : i < ts.length := by omega
    have hv : ts[i]? = some ts[i] := by simp [hlt]
    obtain ⟨r, h1, h2⟩ := h.isExpandable hv
    obtain ⟨f, h3, h4, h5⟩ := ih (i + 1) (by omega)
    simp only [MISet.frontierLoop, h1, h3, Res.bind_ok, Res.pure_eq]
    by_cases hr : r = true
    · rw [if_pos hr]
      refine ⟨_, rfl, List.pairwise_cons.2 ⟨fun a ha => ?_, h4⟩, fun j => ?_⟩
      · have := ((h5 a).1 ha).1; omega
      · rw [List.mem_cons, h5]
        constructor
        · rintro (rfl | ⟨a, b, c⟩)
          · exact ⟨by omega, by omega, _, hv, h2.1 hr⟩
          · exact ⟨by omega, by omega, c⟩
        · rintro ⟨a, b, c⟩
          by_cases e : j = i
          · exact Or.inl e
          · exact Or.inr ⟨by omega, by omega, c⟩
    · rw [if_neg hr]
      refine ⟨_, rfl, h4, fun j => ?_⟩
      rw [h5]
      constructor
      · rintro ⟨a, b, c⟩; exact ⟨by omega, by omega, c⟩
      · rintro ⟨a, b, t, ht, c⟩
        refine ⟨?_, by omega, t, ht, c⟩
        by_contra hh
        have : j = i := by omega
        subst this
        rw [hv] at ht; cases ht
        exact hr (h2.2 c)

theorem Inv.frontier (h : Inv F s vs R ts) :
    ∃ f, MISet.frontier s = .ok f ∧ f.Pairwise (· < ·) ∧
      ∀ j, j ∈ f ↔ ∃ t, ts[j]? = some t ∧ Expandable (Lim s) ts t := by
  obtain ⟨f, h1, h2, h3⟩ := h.frontierLoop ts.length 0 (by omega)
  refine ⟨f, by rw [MISet.frontier, h.size]; exact h1, h2, fun j => (h3 j).trans ?_⟩
  constructor
  · rintro ⟨_, _, c⟩; exact c
  · rintro ⟨t, ht, c⟩
    have := (List.getElem?_eq_some_iff.1 ht).1
    exact ⟨by omega, by omega, t, ht, c⟩

theorem Inv.strictLoop (h : Inv F s vs R ts) (f : List Nat) (hf : ∀ j ∈ f, j < ts.length) :
    ∃ r, MISet.strictLoop s f = .ok r ∧ r.Sublist f ∧
      ∀ j, j ∈ r ↔ j ∈ f ∧ ∃ t, ts[j]? = some t ∧ ∀ w, Fwd t w → Lim s w → w ∉ ts := by
  induction f with
  | nil => exact ⟨[], rfl, List.Sublist.refl _, by simp⟩
  | cons i is ih =>
    have hlt : i < ts.length := hf i (by simp)
    have hv : ts[i]? = some ts[i] := by simp [hlt]
    obtain ⟨g, hg, hvg⟩ := h.a2g_at hv
    obtain ⟨l, h1, h2, h3, h4⟩ := h.outs hvg (List.mem_of_getElem? hv)
    obtain ⟨r, h5, h6, h7⟩ := ih (fun j hj => hf j (by simp [hj]))
    have key : (l.any fun k => decide (vs.getD k [] ∈ ts)) = true ↔
        ¬ ∀ w, Fwd ts[i] w → Lim s w → w ∉ ts := by
      simp only [List.any_eq_true, decide_eq_true_eq]
      constructor
      · rintro ⟨k, hk, hm⟩ hall
        have hkv : vs[k]? = some (vs.getD k []) := by simp [h3 k hk]
        obtain ⟨a, b⟩ := (h4 _).1 ⟨k, hk, hkv⟩
        exact hall _ a b hm
      · intro hn
        push Not at hn
        obtain ⟨w, a, b, c⟩ := hn
        obtain ⟨k, hk, hkv⟩ := (h4 w).2 ⟨a, b⟩
        exact ⟨k, hk, by simp [hkv, c]⟩
    simp only [MISet.strictLoop, Res.at'_some hg, Res.idx_some h1, Res.bind_ok, h.anyActive l h3, h5,
      Res.pure_eq]
    by_cases hc : ∀ w, Fwd ts[i] w → Lim s w → w ∉ ts
    · rw [if_neg (fun hh => (key.1 hh) hc)]
      refine ⟨_, rfl, h6.cons_cons i, fun j => ?_⟩
      rw [List.mem_cons, List.mem_cons, h7]
      constructor
      · rintro (rfl | ⟨a, b⟩)
        · exact ⟨Or.inl rfl, _, hv, hc⟩
        · exact ⟨Or.inr a, b⟩
      · rintro ⟨rfl | a, b⟩
        · exact Or.inl rfl
        · exact Or.inr ⟨a, b⟩
    · rw [if_pos (key.2 hc)]
      refine ⟨_, rfl, h6.cons i, fun j => ?_⟩
      rw [List.mem_cons, h7]
      constructor
      · rintro ⟨a, b⟩; exact ⟨Or.inr a, b⟩
      · rintro ⟨rfl | a, b⟩
        · obtain ⟨t, ht, hb⟩ := b
          rw [hv] at ht; cases ht
          exact absurd hb hc
        · exact ⟨a, b⟩

/-! margins -/

theorem marginLoop_eq (p : Nat → Bool) (n : Nat) : ∀ i,
    (∀ g, i ≤ g → g < i + n → MISet.inMargin s g = .ok (p g) ∧ Res.at' s.allMultis g
      = .ok (ofVec (vs.getD g []))) →
    MISet.marginLoop s i n
      = .ok (((List.range' i n).filter p).map fun g => ofVec (vs.getD g [])) := by
  induction n with
  | zero => intro i _; rfl
  | succ n ih =>
    intro i h
    obtain ⟨h1, h2⟩ := h i (by omega) (by omega)
    have h3 := ih (i + 1) (fun g a b => h g (by omega) (by omega))
    simp only [MISet.marginLoop, h1, Res.bind_ok, List.range'_succ]
    by_cases hp : p i = true
    · rw [if_pos hp]
      simp [h2, h3, hp]
    · rw [if_neg hp]
      simp [h3, hp]

theorem reducedMarginLoop_eq (p : Nat → Bool) (n : Nat) : ∀ i,
    (∀ g, i ≤ g → g < i + n → MISet.inReducedMargin s g = .ok (p g) ∧ Res.at' s.allMultis g
      = .ok (ofVec (vs.getD g []))) →
    MISet.reducedMarginLoop s i n
      = .ok (((List.range' i n).filter p).map fun g => ofVec (vs.getD g [])) := by
  induction n with
  | zero => intro i _; rfl
  | succ n ih =>
    intro i h
    obtain ⟨h1, h2⟩ := h i (by omega) (by omega)
    have h3 := ih (i + 1) (fun g a b => h g (by omega) (by omega))
    simp only [MISet.reducedMarginLoop, h1, Res.bind_ok, List.range'_succ]
    by_cases hp : p i = true
    · rw [if_pos hp]
      simp [h2, h3, hp]
    · rw [if_neg hp]
      simp [h3, hp]

theorem Inv.inMargin (h : Inv F s vs R ts) {g : Nat} (hg : g < vs.length) :
    ∃ r, MISet.inMargin s g = .ok r ∧
      (r = true ↔ vs.getD g [] ∉ ts ∧ ∃ k, R k g ∧ vs.getD k [] ∈ ts) := by
  have hv : vs[g]? = some (vs.getD g []) := by simp [hg]
  obtain ⟨l, h1, h2, h3⟩ := h.base.in_at hg
  have hd : ∀ k ∈ l, k < vs.length := fun k hk => (h.base.edges.dom _ _ ((h3 k).1 hk)).1
  simp only [MISet.inMargin, h.isActiveG hv, Res.bind_ok, Res.idx_some h1, h.anyActive l hd]
  by_cases hm : vs.getD g [] ∈ ts
  · rw [if_pos (decide_eq_true hm)]
    exact ⟨false, rfl, by simp only [Bool.false_eq_true, false_iff]; exact fun hh => hh.1 hm⟩
  · rw [if_neg (by simpa using hm)]
    refine ⟨_, rfl, ?_⟩
    simp only [List.any_eq_true, decide_eq_true_eq, h3]
    exact ⟨fun hh => ⟨hm, hh⟩, fun hh => hh.2⟩

theorem Inv.inReducedMargin (h : Inv F s vs R ts) {g : Nat} (hg : g < vs.length) :
    ∃ r, MISet.inReducedMargin s g = .ok r ∧
      (r = true ↔ vs.getD g [] ∉ ts ∧ ∀ k, R k g → vs.getD k [] ∈ ts) := by
  have hv : vs[g]? = some (vs.getD g []) := by simp [hg]
  obtain ⟨l, h1, h2, h3⟩ := h.base.in_at hg
  have hd : ∀ k ∈ l, k < vs.length := fun k hk => (h.base.edges.dom _ _ ((h3 k).1 hk)).1
  simp only [MISet.inReducedMargin, h.isActiveG hv, Res.bind_ok, Res.idx_some h1, h.allActive l hd]
  by_cases hm : vs.getD g [] ∈ ts
  · rw [if_pos (decide_eq_true hm)]
    exact ⟨false, rfl, by simp only [Bool.false_eq_true, false_iff]; exact fun hh => hh.1 hm⟩
  · rw [if_neg (by simpa using hm)]
    refine ⟨_, rfl, ?_⟩
    simp only [List.all_eq_true, decide_eq_true_eq, h3]
    exact ⟨fun hh => ⟨hm, hh⟩, fun hh => hh.2⟩

theorem nodup_selection (hn : vs.Nodup) (p : Nat → Bool) :
    (((List.range' 0 vs.length).filter p).map fun g => vs.getD g []).Nodup := by
  apply List.Nodup.map_on
  · intro a ha b hb hab
    have h1 := (List.mem_range'_1.1 (List.mem_filter.1 ha).1).2
    have h2 := (List.mem_range'_1.1 (List.mem_filter.1 hb).1).2
    have e1 : vs[a]? = some (vs.getD a []) := by simp [show a < vs.length by omega]
    have e2 : vs[b]? = some (vs.getD b []) := by simp [show b < vs.length by omega]
    rw [← hab] at e2
    exact pos_inj hn e1 e2
  · exact (List.nodup_range' (step := 1) (h := by omega)).filter _

/-- `Margin()`. -/
theorem Inv.margin (h : Inv F s vs R ts) :
    ∃ ms : List (List Nat), MISet.margin s = .ok (ms.map ofVec) ∧ ms.Nodup ∧
      ∀ w, w ∈ ms ↔ w ∉ ts ∧ Lim s w ∧ ∃ t ∈ ts, Fwd t w := by
  choose! p hp1 hp2 using fun g (hg : g < vs.length) => h.inMargin hg
  refine ⟨((List.range' 0 vs.length).filter p).map fun g => vs.getD g [], ?_,
    nodup_selection h.base.nodup p, fun w => ?_⟩
  · rw [MISet.margin, h.base.g2a_len, marginLoop_eq (vs := vs) p]
    · simp
    · intro g _ hg
      have hg' : g < vs.length := by omega
      exact ⟨hp1 g hg', h.base.at_multis (by simp [hg'])⟩
  · simp only [List.mem_map, List.mem_filter, List.mem_range'_1]
    constructor
    · rintro ⟨g, ⟨⟨_, hg⟩, hpg⟩, rfl⟩
      have hg' : g < vs.length := by omega
      obtain ⟨h1, k, hr, hk⟩ := (hp2 g hg').1 hpg
      have hkl := (h.base.edges.dom _ _ hr).1
      have hkv : vs[k]? = some (vs.getD k []) := by simp [hkl]
      obtain ⟨w, hw, hf, hl⟩ := (h.out_active hkv hk g).1 hr
      have : vs.getD g [] = w := by simp [hw]
      rw [this] at h1 ⊢
      exact ⟨h1, hl, _, hk, hf⟩
    · rintro ⟨h1, hl, t, ht, hf⟩
      obtain ⟨k, hk, ha⟩ := h.mem_vs ht
      have hmem := h.sem.closed k t w ha (fun x => x) hk hf hl
      obtain ⟨g, hg⟩ := List.getElem?_of_mem hmem
      have hlt := (List.getElem?_eq_some_iff.1 hg).1
      have hgd : vs.getD g [] = w := by simp [hg]
      refine ⟨g, ⟨⟨by omega, by omega⟩, (hp2 g hlt).2 ⟨by rw [hgd]; exact h1, k, ?_, ?_⟩⟩, hgd⟩
      · exact (h.out_active hk ht g).2 ⟨w, hg, hf, hl⟩
      · simp [hk, ht]

/-- `ReducedMargin()` in terms of the stored nodes. -/
theorem Inv.reducedMargin (h : Inv F s vs R ts) :
    ∃ ms : List (List Nat), MISet.reducedMargin s = .ok (ms.map ofVec) ∧ ms.Nodup ∧
      ∀ w, w ∈ ms ↔ w ∉ ts ∧ ∃ g, vs[g]? = some w ∧ ∀ k, R k g → vs.getD k [] ∈ ts := by
  choose! p hp1 hp2 using fun g (hg : g < vs.length) => h.inReducedMargin hg
  refine ⟨((List.range' 0 vs.length).filter p).map fun g => vs.getD g [], ?_,
    nodup_selection h.base.nodup p, fun w => ?_⟩
  · rw [MISet.reducedMargin, h.base.g2a_len, reducedMarginLoop_eq (vs := vs) p]
    · simp
    · intro g _ hg
      have hg' : g < vs.length := by omega
      exact ⟨hp1 g hg', h.base.at_multis (by simp [hg'])⟩
  · simp only [List.mem_map, List.mem_filter, List.mem_range'_1]
    constructor
    · rintro ⟨g, ⟨⟨_, hg⟩, hpg⟩, rfl⟩
      have hg' : g < vs.length := by omega
      obtain ⟨h1, h2⟩ := (hp2 g hg').1 hpg
      exact ⟨h1, g, by simp [hg'], h2⟩
    · rintro ⟨h1, g, hg, h2⟩
      have hlt := (List.getElem?_eq_some_iff.1 hg).1
      have hgd : vs.getD g [] = w := by simp [hg]
      exact ⟨g, ⟨⟨by omega, by omega⟩, (hp2 g hlt).2 ⟨by rw [hgd]; exact h1, h2⟩⟩, hgd⟩

end queries

/-! ### Expansion -/

theorem addT_of_not {ts : List (List Nat)} {w : List Nat} (h : w ∉ ts) : addT ts w = ts ++ [w] := by
  simp [addT, h]

/-- Loop of `Expand(i)`. -/
theorem expandLoop_spec {F : Prop} {t : List Nat} (hs : List Nat) :
    ∀ (s : MISet) (vs : List (List Nat)) (R : Nat → Nat → Prop) (ts : List (List Nat))
      (acc : List Nat), Inv F s vs R ts → hs.Nodup →
      (∀ k ∈ hs, ∃ w, vs[k]? = some w ∧ Fwd t w ∧ Lim s w) →
      ∃ s' vs' R' added, MISet.expandLoop s acc hs
          = .ok (s', acc ++ List.range' ts.length added.length) ∧
        Inv F s' vs' R' (ts ++ added) ∧ Ext s vs s' vs' ∧
        (∀ w, w ∈ added ↔ Addable (Lim s) ts w ∧ ∃ k ∈ hs, vs[k]? = some w) ∧
        (∀ T : List Nat → Prop, (∀ x ∈ added, T x) → NearTo T s vs → NearTo T s' vs') := by
  induction hs with
  | nil =>
    intro s vs R ts acc h _ _
    exact ⟨s, vs, R, [], by simp [MISet.expandLoop], by simpa using h, Ext.refl, by simp,
      fun T _ hn => hn⟩
  | cons k ks ih =>
    intro s vs R ts acc h hnd hks
    obtain ⟨w, hw, hf, hl⟩ := hks k (by simp)
    have hnd' := List.nodup_cons.1 hnd
    obtain ⟨adm, h1, h2, h3⟩ := h.addableTest hw
    simp only [MISet.expandLoop, h1, h2, Res.bind_ok]
    by_cases hc : Addable (Lim s) ts w
    · rw [if_pos (h3.2 hc)]
      obtain ⟨s1, vs1, R1, i, e1, i1, x1, a1, t1, n1⟩ := h.activateG hw hl
      rw [addT_of_not hc.1] at i1 t1
      obtain ⟨s2, vs2, R2, added, e2, i2, x2, m2, n2⟩ := ih s1 vs1 R1 (ts ++ [w]) (acc ++ [i]) i1 hnd'.2
        (fun j hj => by
          obtain ⟨w', a, b, c⟩ := hks j (by simp [hj])
          exact ⟨w', x1.get a, b, by rw [x1.lim]; exact c⟩)
      have hi : i = ts.length := by
        have hl : i < (ts ++ [w]).length := (List.getElem?_eq_some_iff.1 t1).1
        simp only [List.length_append, List.length_singleton] at hl
        by_contra hne
        have : i < ts.length := by omega
        rw [List.getElem?_append_left this] at t1
        exact hc.1 (List.mem_of_getElem? t1)
      refine ⟨s2, vs2, R2, w :: added, ?_, by simpa using i2, x1.trans x2, ?_, ?_⟩
      · simp only [e1, Res.bind_ok, Res.at'_some a1, e2]
        subst hi
        simp [List.range'_succ]
      · intro x
        rw [List.mem_cons, m2, x1.lim]
        constructor
        · rintro (rfl | ⟨⟨ha, hb, hcx⟩, j, hj, hx⟩)
          · exact ⟨hc, k, by simp, hw⟩
          · obtain ⟨w', a, b, c⟩ := hks j (by simp [hj])
            have : x = w' := by
              have := x1.get a; rw [hx] at this; simpa using this
            subst this
            refine ⟨⟨fun hh => ha (by simp [hh]), hb, fun b' hb' => ?_⟩, j, by simp [hj], a⟩
            rcases List.mem_append.1 (hcx b' hb') with e | e
            · exact e
            · simp only [List.mem_singleton] at e
              subst e
              have q1 := hb'.sum
              have q2 := b.sum
              have q3 := hf.sum
              omega
        · rintro ⟨⟨ha, hb, hcx⟩, j, hj, hx⟩
          rcases List.mem_cons.1 hj with e | e
          · subst e; rw [hw] at hx; cases hx; exact Or.inl rfl
          · right
            refine ⟨⟨?_, hb, fun b' hb' => List.mem_append.2 (Or.inl (hcx b' hb'))⟩, j, e, x1.get hx⟩
            intro hh
            rcases List.mem_append.1 hh with e' | e'
            · exact ha e'
            · simp only [List.mem_singleton] at e'
              subst e'
              have := pos_inj h.base.nodup hw hx
              subst this
              exact hnd'.1 e
      · intro T hT hn
        apply n2 T (fun x hx => hT x (by simp [hx]))
        exact n1 T (hT w (by simp)) (fun j w' _ a b => hn j w' a b)
    · rw [if_neg (fun hh => hc (h3.1 hh))]
      obtain ⟨s2, vs2, R2, added, e2, i2, x2, m2, n2⟩ := ih s vs R ts acc h hnd'.2
        (fun j hj => hks j (by simp [hj]))
      refine ⟨s2, vs2, R2, added, e2, i2, x2, fun x => (m2 x).trans ?_, n2⟩
      constructor
      · rintro ⟨a, j, hj, b⟩; exact ⟨a, j, by simp [hj], b⟩
      · rintro ⟨a, j, hj, b⟩
        rcases List.mem_cons.1 hj with e | e
        · subst e; rw [hw] at b; cases b; exact absurd a hc
        · exact ⟨a, j, e, b⟩

/-- `Expand(i)`. -/
theorem Inv.expand {F : Prop} {s : MISet} {vs : List (List Nat)} {R : Nat → Nat → Prop}
    {ts : List (List Nat)} (h : Inv F s vs R ts) {i : Nat} {t : List Nat} (hi : ts[i]? = some t) :
    ∃ s' vs' R' added, MISet.expand s i = .ok (s', List.range' ts.length added.length) ∧
      Inv F s' vs' R' (ts ++ added) ∧ Ext s vs s' vs' ∧
      (∀ w, w ∈ added ↔ Fwd t w ∧ Addable (Lim s) ts w) ∧
      (∀ T : List Nat → Prop, (∀ x ∈ added, T x) → NearTo T s vs → NearTo T s' vs') := by
  obtain ⟨g, hg, hv⟩ := h.a2g_at hi
  have ht : t ∈ ts := List.mem_of_getElem? hi
  obtain ⟨l, h1, h2, h3, h4⟩ := h.outs hv ht
  obtain ⟨s', vs', R', added, e, i', x, m, n⟩ := expandLoop_spec (t := t) l s vs R ts [] h
    (h2.imp (fun {a b} hab => Nat.ne_of_lt hab))
    (fun k hk => by
      have hkv : vs[k]? = some (vs.getD k []) := by simp [h3 k hk]
      obtain ⟨a, b⟩ := (h4 _).1 ⟨k, hk, hkv⟩
      exact ⟨_, hkv, a, b⟩)
  refine ⟨s', vs', R', added, ?_, i', x, fun w => (m w).trans ?_, n⟩
  · have hlt : ¬ i ≥ s.active2global.length := by
      have := (List.getElem?_eq_some_iff.1 hi).1
      rw [h.size]; omega
    simp only [MISet.expand, if_neg hlt, Res.at'_some hg, Res.bind_ok, Res.at'_some h1, e]
    simp
  · constructor
    · rintro ⟨a, k, hk, b⟩; exact ⟨((h4 w).1 ⟨k, hk, b⟩).1, a⟩
    · rintro ⟨a, b⟩
      obtain ⟨k, hk, c⟩ := (h4 w).2 ⟨a, b.2.1⟩
      exact ⟨b, k, hk, c⟩

/-- Activation loop of `Expand()`. -/
theorem activateLoop_spec {F : Prop} (hs : List Nat) :
    ∀ (s : MISet) (vs : List (List Nat)) (R : Nat → Nat → Prop) (ts : List (List Nat))
      (acc : List Nat), Inv F s vs R ts → (∀ k ∈ hs, ∃ w, vs[k]? = some w ∧ Lim s w) →
      ∃ s' vs' R' added new, MISet.activateLoop s acc hs = .ok (s', acc ++ new) ∧
        Inv F s' vs' R' (ts ++ added) ∧ Ext s vs s' vs' ∧
        (∀ w, w ∈ added ↔ w ∉ ts ∧ ∃ k ∈ hs, vs[k]? = some w) ∧
        (new.map fun i => (ts ++ added)[i]?) = (hs.map fun k => vs[k]?) ∧
        (∀ T : List Nat → Prop, (∀ x ∈ ts ++ added, T x) → NearTo T s vs → NearTo T s' vs') := by
  induction hs with
  | nil =>
    intro s vs R ts acc h _
    exact ⟨s, vs, R, [], [], by simp [MISet.activateLoop], by simpa using h, Ext.refl, by simp,
      rfl, fun T _ hn => hn⟩
  | cons k ks ih =>
    intro s vs R ts acc h hks
    obtain ⟨w, hw, hl⟩ := hks k (by simp)
    obtain ⟨s1, vs1, R1, i, e1, i1, x1, a1, t1, n1⟩ := h.activateG hw hl
    obtain ⟨s2, vs2, R2, added, new, e2, i2, x2, m2, c2, n2⟩ := ih s1 vs1 R1 (addT ts w) (acc ++ [i]) i1
      (fun j hj => by
        obtain ⟨w', a, c⟩ := hks j (by simp [hj])
        exact ⟨w', x1.get a, by rw [x1.lim]; exact c⟩)
    have hext : ∀ (j : Nat), j ∈ ks → vs1[j]? = vs[j]? := by
      intro j hj
      obtain ⟨w', a, _⟩ := hks j (by simp [hj])
      rw [a, x1.get a]
    obtain ⟨add0, h0⟩ : ∃ add0, addT ts w = ts ++ add0 ∧ (∀ x, x ∈ add0 ↔ x ∉ ts ∧ x = w) := by
      by_cases hm : w ∈ ts
      · exact ⟨[], by simp [addT, hm], by
          intro x; simp only [List.not_mem_nil, false_iff]; rintro ⟨a, rfl⟩; exact a hm⟩
      · refine ⟨[w], addT_of_not hm, fun x => ?_⟩
        simp only [List.mem_singleton]
        constructor
        · rintro rfl; exact ⟨hm, rfl⟩
        · exact fun hh => hh.2
    obtain ⟨h0, h0'⟩ := h0
    refine ⟨s2, vs2, R2, add0 ++ added, i :: new, ?_, ?_, x1.trans x2, ?_, ?_, ?_⟩
    · simp [MISet.activateLoop, e1, Res.at'_some a1, e2]
    · rw [h0, List.append_assoc] at i2; exact i2
    · intro x
      rw [List.mem_append, h0', m2, h0, List.mem_append, h0']
      constructor
      · rintro (⟨a, rfl⟩ | ⟨a, j, hj, b⟩)
        · exact ⟨a, k, by simp, hw⟩
        · refine ⟨fun hh => a (Or.inl hh), j, by simp [hj], ?_⟩
          rw [← hext j hj]; exact b
      · rintro ⟨a, j, hj, b⟩
        by_cases hx : x = w
        · exact Or.inl ⟨a, hx⟩
        · right
          rcases List.mem_cons.1 hj with e | e
          · subst e; rw [hw] at b; cases b; exact absurd rfl hx
          · refine ⟨?_, j, e, ?_⟩
            · rintro (hh | hh)
              · exact a hh
              · exact hx hh.2
            · rw [hext j e]; exact b
    · rw [h0] at t1 c2
      rw [List.append_assoc] at c2
      simp only [List.map_cons]
      rw [c2, hw]
      congr 1
      · rw [← List.append_assoc, List.getElem?_append_left (List.getElem?_eq_some_iff.1 t1).1]
        exact t1
      · exact List.map_congr_left hext
    · intro T hT hn
      have hTw : T w := by
        have : w ∈ addT ts w := mem_addT.2 (Or.inr rfl)
        rw [h0] at this
        apply hT w
        rcases List.mem_append.1 this with e | e
        · simp [e]
        · simp [e]
      apply n2 T
      · intro x hx
        rw [h0, List.append_assoc] at hx
        exact hT x hx
      · exact n1 T hTw (fun j w' _ a b => hn j w' a b)

theorem Inv.toExpandInner {F : Prop} {s : MISet} {vs : List (List Nat)} {R : Nat → Nat → Prop}
    {ts : List (List Nat)} (h : Inv F s vs R ts) (l : List Nat) (hd : ∀ k ∈ l, k < vs.length) :
    ∃ r, MISet.toExpandInner s l = .ok r ∧
      ∀ k, k ∈ r ↔ k ∈ l ∧ ∃ w, vs[k]? = some w ∧ Addable (Lim s) ts w := by
  induction l with
  | nil => exact ⟨[], rfl, by simp⟩
  | cons k ks ih =>
    have hk : k < vs.length := hd k (by simp)
    have hv : vs[k]? = some vs[k] := by simp [hk]
    obtain ⟨adm, h1, h2, h3⟩ := h.addableTest hv
    obtain ⟨r, h4, h5⟩ := ih (fun j hj => hd j (by simp [hj]))
    simp only [MISet.toExpandInner, h1, h2, h4, Res.bind_ok, Res.pure_eq]
    by_cases hc : Addable (Lim s) ts vs[k]
    · rw [if_pos (h3.2 hc)]
      refine ⟨_, rfl, fun j => ?_⟩
      rw [List.mem_cons, List.mem_cons, h5]
      constructor
      · rintro (rfl | ⟨a, b⟩)
        · exact ⟨Or.inl rfl, _, hv, hc⟩
        · exact ⟨Or.inr a, b⟩
      · rintro ⟨rfl | a, b⟩
        · exact Or.inl rfl
        · exact Or.inr ⟨a, b⟩
    · rw [if_neg (fun hh => hc (h3.1 hh))]
      refine ⟨_, rfl, fun j => ?_⟩
      rw [List.mem_cons, h5]
      constructor
      · rintro ⟨a, b⟩; exact ⟨Or.inr a, b⟩
      · rintro ⟨rfl | a, b⟩
        · obtain ⟨w, hw, hb⟩ := b
          rw [hv] at hw; cases hw; exact absurd hb hc
        · exact ⟨a, b⟩

theorem Inv.toExpandOuter {F : Prop} {s : MISet} {vs : List (List Nat)} {R : Nat → Nat → Prop}
    {ts : List (List Nat)} (h : Inv F s vs R ts) (f : List Nat) (hf : ∀ j ∈ f, j < ts.length) :
    ∃ r, MISet.toExpandOuter s f = .ok r ∧ (∀ k ∈ r, k < vs.length) ∧
      ∀ w, (∃ k ∈ r, vs[k]? = some w) ↔
        Addable (Lim s) ts w ∧ ∃ j ∈ f, ∃ t, ts[j]? = some t ∧ Fwd t w := by
  induction f with
  | nil => exact ⟨[], rfl, by simp, by simp⟩
  | cons i is ih =>
    have hlt : i < ts.length := hf i (by simp)
    have hv : ts[i]? = some ts[i] := by simp [hlt]
    obtain ⟨g, hg, hvg⟩ := h.a2g_at hv
    obtain ⟨l, h1, h2, h3, h4⟩ := h.outs hvg (List.mem_of_getElem? hv)
    obtain ⟨r1, h5, h6⟩ := h.toExpandInner l h3
    obtain ⟨r2, h7, h8, h9⟩ := ih (fun j hj => hf j (by simp [hj]))
    refine ⟨r1 ++ r2, by simp [MISet.toExpandOuter, Res.at'_some hg, Res.at'_some h1, h5, h7], ?_, ?_⟩
    · intro k hk
      rcases List.mem_append.1 hk with e | e
      · exact h3 k ((h6 k).1 e).1
      · exact h8 k e
    · intro w
      constructor
      · rintro ⟨k, hk, hw⟩
        rcases List.mem_append.1 hk with e | e
        · obtain ⟨a, w', b, c⟩ := (h6 k).1 e
          rw [hw] at b; cases b
          exact ⟨c, i, by simp, _, hv, ((h4 w).1 ⟨k, a, hw⟩).1⟩
        · obtain ⟨a, j, hj, b⟩ := (h9 w).1 ⟨k, e, hw⟩
          exact ⟨a, j, by simp [hj], b⟩
      · rintro ⟨a, j, hj, t, ht, hfw⟩
        rcases List.mem_cons.1 hj with e | e
        · subst e
          rw [hv] at ht; cases ht
          obtain ⟨k, hk, hw⟩ := (h4 w).2 ⟨hfw, a.2.1⟩
          exact ⟨k, List.mem_append.2 (Or.inl ((h6 k).2 ⟨hk, w, hw, a⟩)), hw⟩
        · obtain ⟨k, hk, hw⟩ := (h9 w).2 ⟨a, j, e, t, ht, hfw⟩
          exact ⟨k, List.mem_append.2 (Or.inr hk), hw⟩

/-- `Expand()`. -/
theorem Inv.expandAll {F : Prop} {s : MISet} {vs : List (List Nat)} {R : Nat → Nat → Prop}
    {ts : List (List Nat)} (h : Inv F s vs R ts) :
    ∃ s' vs' R' added new, MISet.expandAll s = .ok (s', new) ∧
      Inv F s' vs' R' (ts ++ added) ∧ Ext s vs s' vs' ∧
      (∀ w, w ∈ added ↔ Addable (Lim s) ts w ∧ ∃ t ∈ ts, Fwd t w) ∧
      (∀ i, i ∈ new ↔ ts.length ≤ i ∧ i < ts.length + added.length) ∧
      (∀ T : List Nat → Prop, (∀ x ∈ ts ++ added, T x) → NearTo T s vs → NearTo T s' vs') := by
  obtain ⟨f, f1, f2, f3⟩ := h.frontier
  have hf : ∀ j ∈ f, j < ts.length := by
    intro j hj
    obtain ⟨t, ht, _⟩ := (f3 j).1 hj
    exact (List.getElem?_eq_some_iff.1 ht).1
  obtain ⟨r, r1, r2, r3⟩ := h.toExpandOuter f hf
  obtain ⟨s', vs', R', added, new, e, i', x, m, c, n⟩ := activateLoop_spec r s vs R ts [] h
    (fun k hk => by
      have hkv : vs[k]? = some (vs.getD k []) := by simp [r2 k hk]
      exact ⟨_, hkv, ((r3 _).1 ⟨k, hk, hkv⟩).1.2.1⟩)
  have hm : ∀ w, w ∈ added ↔ Addable (Lim s) ts w ∧ ∃ t ∈ ts, Fwd t w := by
    intro w
    rw [m w]
    constructor
    · rintro ⟨a, b⟩
      obtain ⟨c, j, hj, t, ht, hfw⟩ := (r3 w).1 b
      exact ⟨c, t, List.mem_of_getElem? ht, hfw⟩
    · rintro ⟨a, t, ht, hfw⟩
      refine ⟨a.1, (r3 w).2 ⟨a, ?_⟩⟩
      obtain ⟨j, hj⟩ := List.getElem?_of_mem ht
      exact ⟨j, (f3 j).2 ⟨t, hj, w, hfw, a⟩, t, hj, hfw⟩
  refine ⟨s', vs', R', added, new, by simp [MISet.expandAll, f1, r1, e], i', x, hm, ?_, n⟩
  intro i
  constructor
  · intro hi
    have : (ts ++ added)[i]? ∈ new.map fun i => (ts ++ added)[i]? := List.mem_map.2 ⟨i, hi, rfl⟩
    rw [c] at this
    obtain ⟨k, hk, hk2⟩ := List.mem_map.1 this
    have hkv : vs[k]? = some (vs.getD k []) := by simp [r2 k hk]
    have hnot := ((r3 _).1 ⟨k, hk, hkv⟩).1.1
    rw [hkv] at hk2
    have hlt := (List.getElem?_eq_some_iff.1 hk2.symm).1
    simp only [List.length_append] at hlt
    refine ⟨?_, hlt⟩
    by_contra hh
    rw [List.getElem?_append_left (by omega)] at hk2
    exact hnot (List.mem_of_getElem? hk2.symm)
  · rintro ⟨a, b⟩
    have hlt : i < (ts ++ added).length := by simpa using b
    have hx : (ts ++ added)[i]? = some (ts ++ added)[i] := by simp [hlt]
    have hx' : (ts ++ added)[i] ∈ added := by
      rw [List.getElem_append_right a]; exact List.getElem_mem _
    obtain ⟨_, k, hk, hkv⟩ := (m _).1 hx'
    have : vs[k]? ∈ r.map fun k => vs[k]? := List.mem_map.2 ⟨k, hk, rfl⟩
    rw [← c] at this
    obtain ⟨j, hj, hj2⟩ := List.mem_map.1 this
    rw [hkv] at hj2
    have hjl := (List.getElem?_eq_some_iff.1 hj2).1
    have : j = i := by
      have e1 := (List.getElem?_eq_some_iff.1 hj2).2
      exact (List.Nodup.getElem_inj_iff i'.nodup).1 e1
    subst this; exact hj

/-! ### Union -/

theorem unionLoop_spec {F : Prop} (us : List (List Nat × Option Nat)) :
    ∀ (s : MISet) (vs : List (List Nat)) (R : Nat → Nat → Prop) (ts : List (List Nat)),
      Inv F s vs R ts → (∀ p ∈ us, p.1.length = s.length) →
      ∃ s' vs' R' added, MISet.unionLoop s (us.map fun p => (ofVec p.1, p.2)) = .ok s' ∧
        Inv F s' vs' R' (ts ++ added) ∧ Ext s vs s' vs' ∧
        (∀ w, w ∈ added ↔ w ∉ ts ∧ Lim s w ∧ ∃ a, (w, some a) ∈ us) ∧
        (∀ T : List Nat → Prop, (∀ x ∈ ts ++ added, T x) →
          (∀ u, (u, none) ∈ us → Lim s u → ∃ t, T t ∧ (Fwd t u ∨ Fwd u t)) →
          NearTo T s vs → NearTo T s' vs') := by
  induction us with
  | nil =>
    intro s vs R ts h _
    exact ⟨s, vs, R, [], rfl, by simpa using h, Ext.refl, by simp, fun T _ _ hn => hn⟩
  | cons p ps ih =>
    intro s vs R ts h hlen
    obtain ⟨u, a⟩ := p
    have hu : u.length = s.length := hlen (u, a) (by simp)
    have step : ∃ s1 vs1 R1 add0, MISet.unionStep s (ofVec u) a = .ok s1 ∧
        Inv F s1 vs1 R1 (ts ++ add0) ∧ Ext s vs s1 vs1 ∧
        (∀ w, w ∈ add0 ↔ w ∉ ts ∧ Lim s w ∧ ∃ k, (w, some k) = (u, a)) ∧
        (∀ T : List Nat → Prop, (∀ x ∈ ts ++ add0, T x) →
          (a = none → Lim s u → ∃ t, T t ∧ (Fwd t u ∨ Fwd u t)) →
          NearTo T s vs → NearTo T s1 vs1) := by
      by_cases hl : Lim s u
      · have hl' : s.limiter (ofVec u) = true := hl
        cases a with
        | none =>
          obtain ⟨s1, vs1, R1, g, e1, i1, x1, g1, n1⟩ := h.addInactive hu hl
          refine ⟨s1, vs1, R1, [], by simp [MISet.unionStep, hl', e1], by simpa using i1, x1,
            by simp, ?_⟩
          intro T hT hnone hn k w hk hna
          rcases n1 k w hk hna with e | ⟨e, e'⟩
          · subst e; exact hnone rfl hl
          · exact hn k w e e'
        | some i =>
          obtain ⟨s1, vs1, R1, j, e1, i1, x1, g1, n1⟩ := h.addActive hu hl
          by_cases hm : u ∈ ts
          · have : addT ts u = ts := by simp [addT, hm]
            rw [this] at i1
            refine ⟨s1, vs1, R1, [], by simp [MISet.unionStep, hl', e1], by simpa using i1, x1, ?_, ?_⟩
            · intro w
              simp only [List.not_mem_nil, false_iff]
              rintro ⟨q, _, k, hk⟩
              simp only [Prod.mk.injEq] at hk
              exact q (hk.1 ▸ hm)
            · intro T hT _ hn
              exact n1 T (hT u (by simp [hm])) hn
          · rw [addT_of_not hm] at i1
            refine ⟨s1, vs1, R1, [u], by simp [MISet.unionStep, hl', e1], i1, x1, ?_, ?_⟩
            · intro w
              simp only [List.mem_singleton]
              constructor
              · rintro rfl; exact ⟨hm, hl, i, rfl⟩
              · rintro ⟨_, _, k, hk⟩
                simp only [Prod.mk.injEq] at hk
                exact hk.1
            · intro T hT _ hn
              exact n1 T (hT u (by simp)) hn
      · have hl' : ¬ s.limiter (ofVec u) = true := hl
        refine ⟨s, vs, R, [], by simp [MISet.unionStep, hl'], by simpa using h, Ext.refl, ?_,
          fun T _ _ hn => hn⟩
        intro w
        simp only [List.not_mem_nil, false_iff]
        rintro ⟨_, q, k, hk⟩
        simp only [Prod.mk.injEq] at hk
        exact hl (hk.1 ▸ q)
    obtain ⟨s1, vs1, R1, add0, e1, i1, x1, m1, n1⟩ := step
    obtain ⟨s2, vs2, R2, added, e2, i2, x2, m2, n2⟩ := ih s1 vs1 R1 _ i1
      (fun q hq => by rw [x1.length]; exact hlen q (by simp [hq]))
    refine ⟨s2, vs2, R2, add0 ++ added, by simp [MISet.unionLoop, e1, e2], by simpa using i2,
      x1.trans x2, ?_, ?_⟩
    · intro w
      rw [List.mem_append, m1, m2, x1.lim, List.mem_append, m1]
      constructor
      · rintro (⟨q1, q2, k, hk⟩ | ⟨q1, q2, k, hk⟩)
        · exact ⟨q1, q2, k, by rw [hk]; simp⟩
        · exact ⟨fun hh => q1 (Or.inl hh), q2, k, by simp [hk]⟩
      · rintro ⟨q1, q2, k, hk⟩
        by_cases hd : ∃ k', (w, some k') = (u, a)
        · exact Or.inl ⟨q1, q2, hd⟩
        · right
          refine ⟨?_, q2, k, ?_⟩
          · rintro (hh | hh)
            · exact q1 hh
            · exact hd hh.2.2
          · rcases List.mem_cons.1 hk with e | e
            · exact absurd ⟨k, e⟩ hd
            · exact e
    · intro T hT hnone hn
      apply n2 T
      · intro x hx; exact hT x (by simpa using hx)
      · intro v hv hl
        rw [x1.lim] at hl
        exact hnone v (by simp [hv]) hl
      · apply n1 T
        · intro x hx
          apply hT x
          rcases List.mem_append.1 hx with e | e <;> simp [e]
        · intro ha hl
          exact hnone u (by simp [ha]) hl
        · exact hn

end MISet
end MParT
