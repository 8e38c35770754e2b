import Verif.Lemmas.MISetSem
/-!
Helper lemmas for `MultiIndexSet`, part 3: the full invariant `Inv` (with the list `ts` of active
terms in index order) and its preservation by the public mutators.
-/
namespace MParT
namespace MISet
open MultiIndex Spec Neighborhood

/-- Full invariant. -/
structure Inv (F : Prop) (s : MISet) (vs : List (List Nat)) (R : Nat → Nat → Prop)
    (ts : List (List Nat)) : Prop where
  good : Good F (fun _ => False) s vs R
  terms : s.active2global.map (fun g => vs[g]?) = ts.map some
  mo_len : s.maxOrders.length = s.length
  mo : ∀ i, i < s.length → s.maxOrders[i]? = some (vmax (ts.map fun t => t.getD i 0))

section
variable {F : Prop} {s : MISet} {vs : List (List Nat)} {R : Nat → Nat → Prop} {ts : List (List Nat)}

theorem Inv.base (h : Inv F s vs R ts) : Base s vs R := h.good.base
theorem Inv.sem (h : Inv F s vs R ts) : Sem F (fun _ => False) (Lim s) vs (Act s) R := h.good.sem

theorem Inv.size (h : Inv F s vs R ts) : s.active2global.length = ts.length := by
  have := congrArg List.length h.terms
  simpa using this

theorem Inv.term_at (h : Inv F s vs R ts) {i g : Nat} (hi : s.active2global[i]? = some g) :
    ∃ t, vs[g]? = some t ∧ ts[i]? = some t := by
  have h1 : (s.active2global.map (fun g => vs[g]?))[i]? = some (vs[g]?) := by simp [hi]
  rw [h.terms] at h1
  rw [List.getElem?_map] at h1
  cases ht : ts[i]? with
  | none => simp [ht] at h1
  | some t => simp [ht] at h1; exact ⟨t, h1.symm, rfl⟩

theorem Inv.act_mem (h : Inv F s vs R ts) {g : Nat} {v : List Nat} (hv : vs[g]? = some v) :
    Act s g ↔ v ∈ ts := by
  constructor
  · rintro ⟨i, hi⟩
    obtain ⟨t, h1, h2⟩ := h.term_at ((h.base.a2g i g).2 hi)
    rw [hv] at h1; cases h1
    exact List.mem_of_getElem? h2
  · intro hm
    obtain ⟨i, hi⟩ := List.getElem?_of_mem hm
    have hlt : i < s.active2global.length := by
      rw [h.size]; exact (List.getElem?_eq_some_iff.1 hi).1
    obtain ⟨t, h1, h2⟩ := h.term_at (i := i) (g := s.active2global[i]) (by simp [hlt])
    rw [hi] at h2; cases h2
    have e1 := findPos_of_nodup h.base.nodup h1
    rw [findPos_of_nodup h.base.nodup hv] at e1
    cases e1
    exact ⟨i, (h.base.a2g i _).1 (by simp [hlt])⟩

theorem Inv.mem_vs (h : Inv F s vs R ts) {v : List Nat} (hv : v ∈ ts) :
    ∃ g, vs[g]? = some v ∧ Act s g := by
  obtain ⟨i, hi⟩ := List.getElem?_of_mem hv
  have hlt : i < s.active2global.length := by
    rw [h.size]; exact (List.getElem?_eq_some_iff.1 hi).1
  obtain ⟨t, h1, h2⟩ := h.term_at (i := i) (g := s.active2global[i]) (by simp [hlt])
  rw [hi] at h2; cases h2
  exact ⟨_, h1, i, (h.base.a2g i _).1 (by simp [hlt])⟩

theorem Inv.idx_of (h : Inv F s vs R ts) {g i : Nat} {v : List Nat} (hv : vs[g]? = some v)
    (hi : s.global2active[g]? = some (some i)) : ts[i]? = some v := by
  obtain ⟨t, h1, h2⟩ := h.term_at ((h.base.a2g i g).2 hi)
  rw [hv] at h1; cases h1; exact h2

theorem Inv.nodup (h : Inv F s vs R ts) : ts.Nodup := by
  rw [List.nodup_iff_getElem?_ne_getElem?]
  intro i j hij hj heq
  have hj' : j < s.active2global.length := by rw [h.size]; exact hj
  have hi' : i < s.active2global.length := by omega
  obtain ⟨t, h1, h2⟩ := h.term_at (i := i) (g := s.active2global[i]) (by simp [hi'])
  obtain ⟨t', h3, h4⟩ := h.term_at (i := j) (g := s.active2global[j]) (by simp [hj'])
  rw [h2, h4] at heq; cases heq
  have e1 := findPos_of_nodup h.base.nodup h1
  rw [findPos_of_nodup h.base.nodup h3] at e1
  have e2 := Option.some.inj e1
  have a1 := (h.base.a2g i _).1 (by simp [hi'] : s.active2global[i]? = some s.active2global[i])
  have a2 := (h.base.a2g j _).1 (by simp [hj'] : s.active2global[j]? = some s.active2global[j])
  rw [e2, a1] at a2
  simp at a2
  omega

theorem Inv.len (h : Inv F s vs R ts) {v : List Nat} (hv : v ∈ ts) : v.length = s.length := by
  obtain ⟨g, hg, _⟩ := h.mem_vs hv
  exact h.base.len v (List.mem_of_getElem? hg)

theorem Inv.lim (h : Inv F s vs R ts) {v : List Nat} (hv : v ∈ ts) : Lim s v := by
  obtain ⟨g, hg, ha⟩ := h.mem_vs hv
  exact h.sem.act_lim g v ha (fun x => x) hg

theorem Inv.isActiveG (h : Inv F s vs R ts) {g : Nat} {v : List Nat} (hv : vs[g]? = some v) :
    isActiveG s g = .ok (decide (v ∈ ts)) := by
  have hg : g < s.global2active.length := by
    rw [h.base.g2a_len]; exact (List.getElem?_eq_some_iff.1 hv).1
  simp only [MISet.isActiveG, Res.idx_lt hg, Res.bind_ok, Res.pure_eq]
  congr 1
  rw [Bool.eq_iff_iff, decide_eq_true_iff, ← h.act_mem hv, Act]
  cases e : s.global2active[g] <;> simp [hg, e]

/-- Number of active nodes among `hs`. -/
theorem Inv.countActive (h : Inv F s vs R ts) (hs : List Nat)
    (hd : ∀ k ∈ hs, k < vs.length) :
    countActive s hs = .ok (hs.countP fun k => decide (vs.getD k [] ∈ ts)) := by
  induction hs with
  | nil => rfl
  | cons k ks ih =>
    have hk : k < vs.length := hd k (by simp)
    have hv : vs[k]? = some (vs.getD k []) := by simp [hk]
    simp only [MISet.countActive, h.isActiveG hv, Res.bind_ok, ih (fun j hj => hd j (by simp [hj])),
      Res.pure_eq, List.countP_cons]
    generalize decide (vs.getD k [] ∈ ts) = b
    cases b <;> rfl

theorem Inv.anyActive (h : Inv F s vs R ts) (hs : List Nat)
    (hd : ∀ k ∈ hs, k < vs.length) :
    anyActive s hs = .ok (hs.any fun k => decide (vs.getD k [] ∈ ts)) := by
  induction hs with
  | nil => rfl
  | cons k ks ih =>
    have hk : k < vs.length := hd k (by simp)
    have hv : vs[k]? = some (vs.getD k []) := by simp [hk]
    simp only [MISet.anyActive, h.isActiveG hv, Res.bind_ok, ih (fun j hj => hd j (by simp [hj])),
      Res.pure_eq, List.any_cons]
    generalize decide (vs.getD k [] ∈ ts) = b
    cases b <;> rfl

theorem Inv.allActive (h : Inv F s vs R ts) (hs : List Nat)
    (hd : ∀ k ∈ hs, k < vs.length) :
    allActive s hs = .ok (hs.all fun k => decide (vs.getD k [] ∈ ts)) := by
  induction hs with
  | nil => rfl
  | cons k ks ih =>
    have hk : k < vs.length := hd k (by simp)
    have hv : vs[k]? = some (vs.getD k []) := by simp [hk]
    simp only [MISet.allActive, h.isActiveG hv, Res.bind_ok, ih (fun j hj => hd j (by simp [hj])),
      Res.pure_eq, List.all_cons]
    generalize decide (vs.getD k [] ∈ ts) = b
    cases b <;> rfl

theorem Base.out_at (h : Base s vs R) {g : Nat} (hg : g < vs.length) :
    ∃ l, s.outEdges[g]? = some l ∧ l.Pairwise (· < ·) ∧ ∀ b, b ∈ l ↔ R g b := by
  have hlt : g < s.outEdges.length := by rw [h.edges.out_len]; exact hg
  exact ⟨_, by simp [hlt], h.edges.out_spec g s.outEdges[g] (by simp [hlt])⟩

theorem Base.in_at (h : Base s vs R) {g : Nat} (hg : g < vs.length) :
    ∃ l, s.inEdges[g]? = some l ∧ l.Pairwise (· < ·) ∧ ∀ a, a ∈ l ↔ R a g := by
  have hlt : g < s.inEdges.length := by rw [h.edges.in_len]; exact hg
  exact ⟨_, by simp [hlt], h.edges.in_spec g s.inEdges[g] (by simp [hlt])⟩

/-- Out-edges of an active node lead exactly to its accepted forward neighbours. -/
theorem Inv.out_active (h : Inv F s vs R ts) {g : Nat} {v : List Nat} (hv : vs[g]? = some v)
    (ha : v ∈ ts) (k : Nat) : R g k ↔ ∃ w, vs[k]? = some w ∧ Fwd v w ∧ Lim s w := by
  constructor
  · intro hr
    obtain ⟨u, w, h1, h2, h3⟩ := h.sem.sound g k hr
    rw [hv] at h1; cases h1
    refine ⟨w, h2, h3, ?_⟩
    by_contra hl
    exact h.sem.viol k w h2 hl (fun x => x) g hr
  · rintro ⟨w, h1, h2, h3⟩
    exact h.sem.link g v k w ((h.act_mem hv).2 ha) (fun x => x) hv h1 h2 h3

/-- Active in-edges of an accepted node come exactly from its backward neighbours in the set. -/
theorem Inv.in_active (h : Inv F s vs R ts) {g : Nat} {w : List Nat} (hw : vs[g]? = some w)
    (hl : Lim s w) (b : List Nat) :
    (∃ k, R k g ∧ vs[k]? = some b ∧ b ∈ ts) ↔ Fwd b w ∧ b ∈ ts := by
  constructor
  · rintro ⟨k, hr, hb, hm⟩
    obtain ⟨u, w', h1, h2, h3⟩ := h.sem.sound k g hr
    rw [hb] at h1; cases h1
    rw [hw] at h2; cases h2
    exact ⟨h3, hm⟩
  · rintro ⟨hf, hm⟩
    obtain ⟨k, hk, ha⟩ := h.mem_vs hm
    exact ⟨k, h.sem.link k b g w ha (fun x => x) hk hw hf hl, hk, hm⟩

/-- `IsAdmissible` decides: accepted by the limiter, and active or all backward neighbours
active. -/
theorem Inv.isAdmissibleG (h : Inv F s vs R ts) {g : Nat} {w : List Nat} (hw : vs[g]? = some w) :
    ∃ r, isAdmissibleG s g = .ok r ∧
      (r = true ↔ Lim s w ∧ (w ∈ ts ∨ ∀ b, Fwd b w → b ∈ ts)) := by
  have hg : g < vs.length := (List.getElem?_eq_some_iff.1 hw).1
  by_cases hl : Lim s w
  · have hl' : s.limiter (ofVec w) = true := hl
    by_cases hm : w ∈ ts
    · exact ⟨true, by simp [MISet.isAdmissibleG, h.base.at_multis hw, hl', h.isActiveG hw, hm],
        by simp [hl, hm]⟩
    · obtain ⟨l, hl1, hl2, hl3⟩ := h.base.in_at hg
      have hd : ∀ k ∈ l, k < vs.length := fun k hk => (h.base.edges.dom _ _ ((hl3 k).1 hk)).1
      refine ⟨l.countP (fun k => decide (vs.getD k [] ∈ ts)) == (ofVec w).numNz, by
        simp only [MISet.isAdmissibleG, h.base.at_multis hw, hl', h.isActiveG hw, hm,
        Res.bind_ok, if_true, decide_false, Bool.false_eq_true, if_false, Res.at'_some hl1,
        h.countActive l hd, Res.pure_eq], ?_⟩
      have hnn : (ofVec w).numNz = (bwdList w).length := by
        rw [bwdList_length]; simp [numNz, ofVec_eq, nzI_length]
      rw [hnn, beq_iff_eq, List.countP_eq_length_filter]
      have hperm : ((l.filter fun k => decide (vs.getD k [] ∈ ts)).map fun k => vs.getD k []).Perm
          ((bwdList w).filter fun b => decide (b ∈ ts)) := by
        rw [List.perm_ext_iff_of_nodup]
        · intro b
          simp only [List.mem_map, List.mem_filter, decide_eq_true_eq, mem_bwdList]
          rw [← h.in_active hw hl b]
          constructor
          · rintro ⟨k, ⟨hk, hm'⟩, rfl⟩
            exact ⟨k, (hl3 k).1 hk, by simp [hd k hk], hm'⟩
          · rintro ⟨k, hr, hb, hm'⟩
            refine ⟨k, ⟨(hl3 k).2 hr, ?_⟩, ?_⟩
            · simp [hb, hm']
            · simp [hb]
        · apply List.Nodup.map_on
          · intro a ha b hb hab
            have h1 := hd a (List.mem_filter.1 ha).1
            have h2 := hd b (List.mem_filter.1 hb).1
            have e1 : vs[a]? = some (vs.getD a []) := by simp [h1]
            have e2 : vs[b]? = some (vs.getD b []) := by simp [h2]
            rw [← hab] at e2
            have := findPos_of_nodup h.base.nodup e1
            rw [findPos_of_nodup h.base.nodup e2] at this
            simpa using this.symm
          · exact (hl2.imp (fun {a b} hab => Nat.ne_of_lt hab)).filter _
        · exact (bwdList_nodup w).filter _
      have hlen := hperm.length_eq
      rw [List.length_map] at hlen
      rw [hlen, List.length_filter_eq_length_iff]
      simp only [decide_eq_true_eq, mem_bwdList, hl, hm, true_and, false_or]
  · have hl' : ¬ s.limiter (ofVec w) = true := hl
    exact ⟨false, by simp [MISet.isAdmissibleG, h.base.at_multis hw, hl'], by simp [hl]⟩

end

/-! ### Preservation -/

/-- Every stored inactive node is a neighbour of a vector satisfying `T`. -/
def NearTo (T : List Nat → Prop) (s : MISet) (vs : List (List Nat)) : Prop :=
  ∀ h w, vs[h]? = some w → ¬ Act s h → ∃ t, T t ∧ (Fwd t w ∨ Fwd w t)

/-- Frame of the mutators. -/
structure Ext (s : MISet) (vs : List (List Nat)) (s' : MISet) (vs' : List (List Nat)) : Prop where
  length : s'.length = s.length
  limiter : s'.limiter = s.limiter
  nodes : vs <+: vs'

theorem Ext.refl {s : MISet} {vs : List (List Nat)} : Ext s vs s vs := ⟨rfl, rfl, List.prefix_refl _⟩

theorem Ext.trans {s s' s'' : MISet} {vs vs' vs'' : List (List Nat)} (h : Ext s vs s' vs')
    (h' : Ext s' vs' s'' vs'') : Ext s vs s'' vs'' :=
  ⟨h'.length.trans h.length, h'.limiter.trans h.limiter, h.nodes.trans h'.nodes⟩

theorem Ext.get {s s' : MISet} {vs vs' : List (List Nat)} (h : Ext s vs s' vs') {g : Nat}
    {v : List Nat} (hv : vs[g]? = some v) : vs'[g]? = some v := by
  obtain ⟨t, rfl⟩ := h.nodes
  rw [List.getElem?_append_left (List.getElem?_eq_some_iff.1 hv).1]; exact hv

theorem Ext.lim {s s' : MISet} {vs vs' : List (List Nat)} (h : Ext s vs s' vs') :
    Lim s' = Lim s := by funext v; simp [Lim, h.limiter]

/-- The term list after activating `w`. -/
def addT (ts : List (List Nat)) (w : List Nat) : List (List Nat) :=
  if w ∈ ts then ts else ts ++ [w]

theorem vmax_append (a b : List Nat) : vmax (a ++ b) = max (vmax a) (vmax b) := by
  induction a with
  | nil => simp [vmax]
  | cons x xs ih => simp [vmax, ih, Nat.max_assoc]

theorem mem_addT {ts : List (List Nat)} {w x : List Nat} : x ∈ addT ts w ↔ x ∈ ts ∨ x = w := by
  unfold addT
  split
  · constructor
    · exact Or.inl
    · rintro (e | rfl) <;> assumption
  · simp

/-- `Activate(h)` of a stored accepted node. -/
theorem Inv.activateG {F : Prop} {s : MISet} {vs : List (List Nat)} {R : Nat → Nat → Prop}
    {ts : List (List Nat)} (h : Inv F s vs R ts) {g : Nat} {v : List Nat} (hv : vs[g]? = some v)
    (hl : Lim s v) :
    ∃ s' vs' R' i, MISet.activateG s g = .ok s' ∧ Inv F s' vs' R' (addT ts v) ∧ Ext s vs s' vs' ∧
      s'.global2active[g]? = some (some i) ∧ (addT ts v)[i]? = some v ∧
      (∀ T : List Nat → Prop, T v → (∀ k w, k ≠ g → vs[k]? = some w → ¬ Act s k →
        ∃ t, T t ∧ (Fwd t w ∨ Fwd w t)) → NearTo T s' vs') := by
  by_cases hm : v ∈ ts
  · have ha := (h.act_mem hv).2 hm
    obtain ⟨i, hi⟩ := ha
    have hT : addT ts v = ts := by simp [addT, hm]
    refine ⟨s, vs, R, i, activateG_active ⟨i, hi⟩, by rw [hT]; exact h, Ext.refl, hi, ?_, ?_⟩
    · rw [hT]; exact h.idx_of hv hi
    · intro T _ hT k w hk hna
      refine hT k w ?_ hk hna
      rintro rfl; exact hna ⟨i, hi⟩
  · have hna : ¬ Act s g := fun ha => hm ((h.act_mem hv).1 ha)
    have hT : addT ts v = ts ++ [v] := by simp [addT, hm]
    obtain ⟨s', vs', R', e, hg, ha⟩ := activateG_spec h.good hv hl hna h.mo_len
    have hlen : v.length = s.length := h.base.len v (List.mem_of_getElem? hv)
    have hmo : s'.maxOrders.length = s'.length := by
      rw [ha.orders, ha.length, List.length_zipWith, h.mo_len, hlen, Nat.min_self]
    obtain ⟨new, en, qn⟩ := ha.nodes
    refine ⟨s', vs', R', s.active2global.length, e, ?_, ⟨ha.length, ha.limiter, ⟨new, en.symm⟩⟩,
      ha.newIdx, ?_, ?_⟩
    · refine ⟨hg, ?_, hmo, ?_⟩
      · rw [ha.a2g, hT, List.map_append, List.map_append]
        congr 1
        · rw [← h.terms]
          apply List.map_congr_left
          intro k hk
          obtain ⟨i, hi⟩ := List.getElem?_of_mem hk
          obtain ⟨t, h1, h2⟩ := h.term_at hi
          rw [h1, ha.get h1]
        · simp [ha.get hv]
      · intro i hi
        rw [ha.length] at hi
        have h1 := h.mo i hi
        have h2 : v[i]? = some (v.getD i 0) := by simp [hlen, hi]
        rw [ha.orders, hT, List.getElem?_zipWith, h1, h2, List.map_append, vmax_append]
        simp [vmax]
    · rw [hT, h.size]; simp
    · intro T hTv hT k w hk hnk
      by_cases e2 : k = g
      · exact absurd ((ha.act k).2 (Or.inr e2)) hnk
      · have hk' : vs[k]? = some w ∨ w ∈ new := by
          rw [en, List.getElem?_append] at hk
          split at hk
          · exact Or.inl hk
          · exact Or.inr (List.mem_of_getElem? hk)
        rcases hk' with e3 | e3
        · exact hT k w e2 e3 (fun hh => hnk ((ha.act k).2 (Or.inl hh)))
        · exact ⟨v, hTv, qn w e3⟩

/-- `AddInactive` of an accepted vector. -/
theorem Inv.addInactive {F : Prop} {s : MISet} {vs : List (List Nat)} {R : Nat → Nat → Prop}
    {ts : List (List Nat)} (h : Inv F s vs R ts) {v : List Nat} (hlen : v.length = s.length)
    (hl : Lim s v) :
    ∃ s' vs' R' g, MISet.addInactive s (ofVec v) = .ok (s', some g) ∧ Inv F s' vs' R' ts ∧
      Ext s vs s' vs' ∧ vs'[g]? = some v ∧
      (∀ k w, vs'[k]? = some w → ¬ Act s' k → w = v ∨ (vs[k]? = some w ∧ ¬ Act s k)) := by
  by_cases hm : v ∈ vs
  · obtain ⟨g, hg⟩ := List.getElem?_of_mem hm
    exact ⟨s, vs, R, g, by simp [MISet.addInactive, h.base.find, findPos_of_nodup h.base.nodup hg],
      h, Ext.refl, hg, fun k w hk hn => Or.inr ⟨hk, hn⟩⟩
  · obtain ⟨s', e1, _, h3, h4⟩ := storeMissing_new (Q := fun _ => True) h.good hm hlen hl trivial
    refine ⟨s', _, _, vs.length, e1, ⟨h3, ?_, ?_, ?_⟩, ⟨h4.core.length, h4.core.limiter, ⟨[v], rfl⟩⟩,
      by simp, ?_⟩
    · rw [h4.core.a2g, ← h.terms]
      apply List.map_congr_left
      intro k hk
      obtain ⟨i, hi⟩ := List.getElem?_of_mem hk
      obtain ⟨t, h1, h2⟩ := h.term_at hi
      rw [h1, h4.get h1]
    · rw [h4.core.maxOrders, h4.core.length]; exact h.mo_len
    · rw [h4.core.maxOrders, h4.core.length]; exact h.mo
    · intro k w hk hn
      rcases getElem?_snoc.1 hk with e | ⟨_, e⟩
      · exact Or.inr ⟨e, fun ha => hn ((h4.act k).2 ha)⟩
      · exact Or.inl e

/-- `AddActive` of an accepted vector. -/
theorem Inv.addActive {F : Prop} {s : MISet} {vs : List (List Nat)} {R : Nat → Nat → Prop}
    {ts : List (List Nat)} (h : Inv F s vs R ts) {v : List Nat} (hlen : v.length = s.length)
    (hl : Lim s v) :
    ∃ s' vs' R' i, MISet.addActive s (ofVec v) = .ok (s', some i) ∧ Inv F s' vs' R' (addT ts v) ∧
      Ext s vs s' vs' ∧ (addT ts v)[i]? = some v ∧
      (∀ T : List Nat → Prop, T v → NearTo T s vs → NearTo T s' vs') := by
  obtain ⟨s1, vs1, R1, g, e1, h1, x1, hg, n1⟩ := h.addInactive hlen hl
  obtain ⟨s2, vs2, R2, i, e2, h2, x2, hi, ht, n2⟩ := h1.activateG hg (by rw [x1.lim]; exact hl)
  refine ⟨s2, vs2, R2, i, ?_, h2, x1.trans x2, ht, ?_⟩
  · simp [MISet.addActive, e1, e2, Res.idx_some hi]
  · intro T hT hn
    apply n2 T hT
    intro k w hk hkw hna
    rcases n1 k w hkw hna with e | ⟨e, e'⟩
    · subst e
      exfalso
      apply hk
      have := findPos_of_nodup h1.base.nodup hg
      rw [findPos_of_nodup h1.base.nodup hkw] at this
      simpa using this
    · exact hn k w e e'

/-- `AddActive` of a vector that is not stored and rejected by the limiter. -/
theorem Inv.addActive_rejected {F : Prop} {s : MISet} {vs : List (List Nat)}
    {R : Nat → Nat → Prop} {ts : List (List Nat)} (h : Inv F s vs R ts) {v : List Nat}
    (hv : v ∉ vs) (hl : ¬ Lim s v) : MISet.addActive s (ofVec v) = .ok (s, none) := by
  have hl' : ¬ s.limiter (ofVec v) = true := hl
  simp [MISet.addActive, MISet.addInactive, h.base.find, findPos_none.2 hv, hl']

theorem init_inv (F : Prop) (n : Nat) (lim : MultiIndex → Bool) :
    Inv F (init n lim) [] (fun _ _ => False) [] := by
  refine ⟨init_good F n lim, rfl, by simp [init], ?_⟩
  intro i hi
  have : i < n := hi
  simp [init, this, vmax]

end MISet
end MParT
