import Verif.Props.MISetMargin
/-!
Helper lemmas for `Expand()`: how often each new index is reported.
-/
namespace MParT
namespace MISet
open MultiIndex Spec Neighborhood

/-- Activating different inactive multi-indices gives the next positions, in order. -/
theorem activateLoop_fresh {F : Prop} (hs : List Nat) :
    ∀ (s : MISet) (vs : List (List Nat)) (R : Nat → Nat → Prop) (ts : List (List Nat)) (acc : List Nat), Inv F s vs R ts → hs.Nodup →
      (∀ k ∈ hs, ∃ w, vs[k]? = some w ∧ Lim s w ∧ w ∉ ts) →
      ∃ s', MISet.activateLoop s acc hs = .ok (s', acc ++ List.range' ts.length hs.length) := by
  induction hs with
  | nil => intro s vs R ts acc _ _ _; exact ⟨s, by simp [MISet.activateLoop]⟩
  | cons k ks ih =>
    intro s vs R ts acc h hnd hks
    obtain ⟨w, hw, hl, hwt⟩ := hks k (by simp)
    have hnd' := List.nodup_cons.1 hnd
    obtain ⟨s1, vs1, R1, i, e1, i1, x1, a1, t1, _⟩ := h.activateG hw hl
    rw [addT_of_not hwt] at i1 t1
    have hi : i = ts.length := by
      have hl : i < (ts ++ [w]).length := (List.getElem?_eq_some_iff.1 t1).1
      simp only [List.length_append, List.length_singleton] at hl
      by_contra hne
      have : i < ts.length := by omega
      rw [List.getElem?_append_left this] at t1
      exact hwt (List.mem_of_getElem? t1)
    obtain ⟨s2, e2⟩ := ih s1 vs1 R1 (ts ++ [w]) (acc ++ [i]) i1 hnd'.2 (fun j hj => by
      obtain ⟨w', a, c, d⟩ := hks j (by simp [hj])
      refine ⟨w', x1.get a, by rw [x1.lim]; exact c, fun hm => ?_⟩
      rcases List.mem_append.1 hm with e | e
      · exact d e
      · rw [List.mem_singleton] at e
        subst e
        have := pos_inj h.base.nodup hw a
        subst this
        exact hnd'.1 hj)
    refine ⟨s2, ?_⟩
    simp only [MISet.activateLoop, e1, Res.bind_ok, Res.at'_some a1, e2]
    subst hi
    simp [List.range'_succ]

theorem toExpandInner_sublist {s : MISet} : ∀ {l r : List Nat}, MISet.toExpandInner s l = .ok r → r.Sublist l
  | [], r, h => by simp only [MISet.toExpandInner, Res.ok.injEq] at h; simp [← h]
  | k :: ks, r, h => by
    simp only [MISet.toExpandInner, Res.bind_eq_ok, Res.pure_eq] at h
    obtain ⟨a, _, b, _, rest, h1, h⟩ := h
    have := toExpandInner_sublist h1
    split at h
    · rw [← Res.ok.inj h]; exact this.cons_cons k
    · rw [← Res.ok.inj h]; exact this.cons k

/-- The list of the multi-indices to activate has every candidate once for each term it comes directly after. -/
theorem Inv.toExpandOuter_count {F : Prop} {s : MISet} {vs : List (List Nat)} {R : Nat → Nat → Prop} {ts : List (List Nat)} (h : Inv F s vs R ts)
    {w : List Nat} (hw : Addable (Lim s) ts w) {p : Nat → Bool} (hp : ∀ (j : Nat) (t : List Nat), ts[j]? = some t → (p j = true ↔ Fwd t w)) :
    ∀ {f r : List Nat}, (∀ j ∈ f, j < ts.length) → MISet.toExpandOuter s f = .ok r → (r.map fun k => vs[k]?).count (some w) = f.countP p
  | [], r, _, hr => by simp only [MISet.toExpandOuter, Res.ok.injEq] at hr; simp [← hr]
  | i :: is, r, hf, hr => by
    have hlt : i < ts.length := hf i (by simp)
    have hv : ts[i]? = some ts[i] := by simp [hlt]
    obtain ⟨g, hg, hvg⟩ := h.a2g_at hv
    obtain ⟨l, h1, h2, h3, h4⟩ := h.outs hvg (List.mem_of_getElem? hv)
    obtain ⟨r1, h5, h6⟩ := h.toExpandInner l h3
    obtain ⟨r2, h7, _⟩ := h.toExpandOuter is (fun j hj => hf j (by simp [hj]))
    have hr' : r = r1 ++ r2 := by
      simp [MISet.toExpandOuter, Res.at'_some hg, Res.at'_some h1, h5, h7] at hr
      exact hr.symm
    subst hr'
    have ih := toExpandOuter_count h hw hp (fun j hj => hf j (by simp [hj])) h7
    have hnd : (r1.map fun k => vs[k]?).Nodup := by
      have hl : l.Nodup := h2.imp (fun {a b} hab => Nat.ne_of_lt hab)
      refine List.Nodup.map_on (fun a ha b hb hab => ?_) ((toExpandInner_sublist h5).nodup hl)
      have h3a := h3 a ((h6 a).1 ha).1
      exact pos_inj h.base.nodup (List.getElem?_eq_getElem h3a) (by rw [← hab]; exact List.getElem?_eq_getElem h3a)
    rw [List.map_append, List.count_append, ih, List.countP_cons]
    have : (r1.map fun k => vs[k]?).count (some w) = if p i then 1 else 0 := by
      by_cases hpi : p i = true
      · rw [if_pos hpi]
        obtain ⟨k, hk, hkw⟩ := (h4 w).2 ⟨(hp i _ hv).1 hpi, hw.2.1⟩
        exact List.count_eq_one_of_mem hnd (List.mem_map.2 ⟨k, (h6 k).2 ⟨hk, w, hkw, hw⟩, hkw⟩)
      · rw [if_neg hpi]
        refine List.count_eq_zero.2 fun hm => hpi ?_
        obtain ⟨k, hk, hkw⟩ := List.mem_map.1 hm
        exact (hp i _ hv).2 ((h4 w).1 ⟨k, ((h6 k).1 hk).1, hkw⟩).1
    rw [this]
    omega

/-- The backward neighbours of a vector: one for each nonzero entry. -/
theorem backward_count {f : List (List Nat)} {w : List Nat} (hf : f.Nodup) (hb : ∀ b, b ∈ f ↔ Fwd b w) :
    f.length = w.countP (fun x => decide (x ≠ 0)) := by
  have key : f.Perm (((List.range w.length).filter fun i => decide (w.getD i 0 ≠ 0)).map fun i => dec w i) := by
    refine (List.perm_ext_iff_of_nodup hf ?_).2 fun b => ?_
    · refine List.Nodup.map_on (fun i hi j hj hij => ?_) (List.nodup_range.filter _)
      simp only [List.mem_filter, List.mem_range, decide_eq_true_eq] at hi hj
      by_contra hne
      have h1 : (dec w i).getD i 0 = (dec w j).getD i 0 := by rw [hij]
      simp only [dec, List.getD_eq_getElem?_getD] at h1 hi
      rw [List.getElem?_set_self hi.1, List.getElem?_set_ne (by omega)] at h1
      rw [List.getElem?_eq_getElem hi.1] at h1 hi
      simp at h1 hi
      omega
    · rw [hb]
      simp only [List.mem_map, List.mem_filter, List.mem_range, decide_eq_true_eq]
      constructor
      · rintro ⟨i, hi, rfl⟩
        refine ⟨i, ⟨by simpa [inc] using hi, by simp [inc, hi]⟩, ?_⟩
        simp only [dec, inc, List.set_set, List.getD_eq_getElem?_getD]
        rw [List.getElem?_set_self hi, List.getElem?_eq_getElem hi]
        simp
      · rintro ⟨i, ⟨hi, h0⟩, rfl⟩
        refine ⟨i, by simpa [dec] using hi, ?_⟩
        simp only [List.getD_eq_getElem?_getD, List.getElem?_eq_getElem hi, Option.getD_some] at h0
        simp only [dec, inc, List.set_set, List.getD_eq_getElem?_getD]
        rw [List.getElem?_set_self hi, List.getElem?_eq_getElem hi]
        simp only [Option.getD_some, Nat.sub_add_cancel (Nat.pos_of_ne_zero h0)]
        simp
  rw [key.length_eq, List.length_map, ← List.countP_eq_length_filter]
  clear * -
  induction w with
  | nil => rfl
  | cons x w ih =>
    rw [List.length_cons, List.range_succ_eq_map, List.countP_cons, List.countP_cons, List.countP_map, ← ih]
    simp [Function.comp_def]

/-- `Expand()` reports the position of a new term once for each of its nonzero entries. -/
theorem Inv.expandAll_count {F : Prop} {s s' : MISet} {vs : List (List Nat)} {R : Nat → Nat → Prop} {ts : List (List Nat)} (h : Inv F s vs R ts)
    {new : List Nat} (e : MISet.expandAll s = .ok (s', new)) {us : List (List Nat)} (ht : Terms s' us) {i : Nat} {w : List Nat} (hi : us[i]? = some w)
    (hw : w ∉ ts) : new.count i = w.countP (fun x => decide (x ≠ 0)) := by
  classical
  obtain ⟨f, f1, f2, f3⟩ := h.frontier
  have hf : ∀ j ∈ f, j < ts.length := by
    intro j hj
    obtain ⟨t, ht, _⟩ := (f3 j).1 hj
    exact (List.getElem?_eq_some_iff.1 ht).1
  obtain ⟨r, r1, r2, r3⟩ := h.toExpandOuter f hf
  obtain ⟨s2, vs', R', added, new', e', i', x, m, c, n⟩ := activateLoop_spec r s vs R ts [] h
    (fun k hk => by
      have hkv : vs[k]? = some (vs.getD k []) := by simp [r2 k hk]
      exact ⟨_, hkv, ((r3 _).1 ⟨k, hk, hkv⟩).1.2.1⟩)
  have : MISet.expandAll s = .ok (s2, new') := by simp [MISet.expandAll, f1, r1, e']
  rw [e] at this
  simp only [Res.ok.injEq, Prod.mk.injEq] at this
  obtain ⟨rfl, rfl⟩ := this
  have hus : us = ts ++ added := ht.unique i'.terms'
  subst hus
  have hwa : w ∈ added := by
    rcases List.mem_append.1 (List.mem_of_getElem? hi) with h | h
    · exact absurd h hw
    · exact h
  have hadd : Addable (Lim s) ts w := ((r3 w).1 ((m w).1 hwa).2).1
  have hc1 : new.count i = (new.map fun i => (ts ++ added)[i]?).count (some w) := by
    rw [List.count_eq_countP, List.count_eq_countP, List.countP_map]
    refine List.countP_congr fun j _ => ?_
    simp only [beq_iff_eq, Function.comp_apply]
    constructor
    · rintro rfl; exact hi
    · intro hj
      have hlt := (List.getElem?_eq_some_iff.1 hj).1
      have e1 := (List.getElem?_eq_some_iff.1 hj).2
      have e2 := (List.getElem?_eq_some_iff.1 hi).2
      exact (List.Nodup.getElem_inj_iff i'.nodup).1 (e1.trans e2.symm)
  have hp : ∀ (j : Nat) (t : List Nat), ts[j]? = some t → (decide (Fwd (ts.getD j []) w) = true ↔ Fwd t w) := by
    intro j t hj
    simp [hj]
  rw [hc1, c, h.toExpandOuter_count hadd (p := fun j => decide (Fwd (ts.getD j []) w)) hp hf r1, List.countP_eq_length_filter]
  have hnd : ((f.filter fun j => decide (Fwd (ts.getD j []) w)).map fun j => ts.getD j []).Nodup := by
    refine List.Nodup.map_on (fun a ha b hb hab => ?_) ((f2.imp (fun {a b} hab => Nat.ne_of_lt hab) : f.Nodup).filter _)
    have ha := hf a (List.mem_filter.1 ha).1
    have hb := hf b (List.mem_filter.1 hb).1
    simp only [List.getD_eq_getElem?_getD, List.getElem?_eq_getElem ha, List.getElem?_eq_getElem hb, Option.getD_some] at hab
    exact (List.Nodup.getElem_inj_iff h.nodup).1 hab
  rw [← backward_count (w := w) hnd, List.length_map]
  intro b
  simp only [List.mem_map, List.mem_filter, decide_eq_true_eq]
  constructor
  · rintro ⟨j, ⟨_, h1⟩, rfl⟩; exact h1
  · intro hb
    obtain ⟨j, hj⟩ := List.getElem?_of_mem (hadd.2.2 b hb)
    exact ⟨j, ⟨(f3 j).2 ⟨b, hj, w, hb, hadd⟩, by simpa [hj] using hb⟩, by simp [hj]⟩

/-- If no new term has two nonzero entries, `Expand()` reports the new positions once each, in order. -/
theorem Inv.expandAll_once {F : Prop} {s : MISet} {vs : List (List Nat)} {R : Nat → Nat → Prop} {ts : List (List Nat)} (h : Inv F s vs R ts)
    (hu : ∀ w, Addable (Lim s) ts w → w.countP (fun x => decide (x ≠ 0)) ≤ 1) : ∃ s' k, MISet.expandAll s = .ok (s', List.range' ts.length k) := by
  classical
  obtain ⟨f, f1, f2, f3⟩ := h.frontier
  have hf : ∀ j ∈ f, j < ts.length := by
    intro j hj
    obtain ⟨t, ht, _⟩ := (f3 j).1 hj
    exact (List.getElem?_eq_some_iff.1 ht).1
  obtain ⟨r, r1, r2, r3⟩ := h.toExpandOuter f hf
  have hkv : ∀ k ∈ r, vs[k]? = some (vs.getD k []) := fun k hk => by simp [r2 k hk]
  have hadd : ∀ k ∈ r, Addable (Lim s) ts (vs.getD k []) := fun k hk => ((r3 _).1 ⟨k, hk, hkv k hk⟩).1
  have hnd : r.Nodup := by
    refine List.nodup_iff_count_le_one.2 fun k => ?_
    by_cases hk : k ∈ r
    · have hp : ∀ (j : Nat) (t : List Nat), ts[j]? = some t → (decide (Fwd (ts.getD j []) (vs.getD k [])) = true ↔ Fwd t (vs.getD k [])) := by
        intro j t hj
        simp [hj]
      have hc := h.toExpandOuter_count (hadd k hk) (p := fun j => decide (Fwd (ts.getD j []) (vs.getD k []))) hp hf r1
      have hle : r.count k ≤ (r.map fun k => vs[k]?).count (some (vs.getD k [])) := by
        rw [List.count_eq_countP, List.count_eq_countP, List.countP_map]
        refine List.countP_mono_left fun j _ hj => ?_
        simp only [beq_iff_eq, Function.comp_apply] at hj ⊢
        subst hj
        exact hkv j hk
      refine hle.trans ?_
      rw [hc, List.countP_eq_length_filter]
      refine le_trans ?_ (hu _ (hadd k hk))
      obtain ⟨g, hg1, hg2⟩ : ∃ g : List (List Nat), g.Nodup ∧ g = (f.filter fun j => decide (Fwd (ts.getD j []) (vs.getD k []))).map fun j => ts.getD j [] := by
        refine ⟨_, List.Nodup.map_on (fun a ha b hb hab => ?_) ((f2.imp (fun {a b} hab => Nat.ne_of_lt hab) : f.Nodup).filter _), rfl⟩
        have ha := hf a (List.mem_filter.1 ha).1
        have hb := hf b (List.mem_filter.1 hb).1
        simp only [List.getD_eq_getElem?_getD, List.getElem?_eq_getElem ha, List.getElem?_eq_getElem hb, Option.getD_some] at hab
        exact (List.Nodup.getElem_inj_iff h.nodup).1 hab
      have : g.length = (f.filter fun j => decide (Fwd (ts.getD j []) (vs.getD k []))).length := by rw [hg2, List.length_map]
      rw [← this, backward_count (w := vs.getD k []) hg1]
      intro b
      rw [hg2]
      simp only [List.mem_map, List.mem_filter, decide_eq_true_eq]
      constructor
      · rintro ⟨j, ⟨_, h1⟩, rfl⟩; exact h1
      · intro hb
        obtain ⟨j, hj⟩ := List.getElem?_of_mem ((hadd k hk).2.2 b hb)
        exact ⟨j, ⟨(f3 j).2 ⟨b, hj, _, hb, hadd k hk⟩, by simpa [hj] using hb⟩, by simp [hj]⟩
    · rw [List.count_eq_zero.2 hk]; exact Nat.zero_le _
  obtain ⟨s', e'⟩ := activateLoop_fresh r s vs R ts [] h hnd fun k hk => ⟨_, hkv k hk, (hadd k hk).2.1, (hadd k hk).1⟩
  exact ⟨s', r.length, by simp [MISet.expandAll, f1, r1, e']⟩

end MISet
end MParT
