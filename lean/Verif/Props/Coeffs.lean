import Verif.Lemmas.CoeffsInv
/-!
# C44, C49: coefficients are shared with components, and wrong-size or missing coefficients are rejected
-/
namespace MParT.Coeffs
open MParT.Spec

/-! ## Helpers -/

theorem coeffs_some {st : State} {id : Nat} {v : View} (h : st.views[id]? = some (some v)) : coeffs st id = some (st.get v) := by
  simp [coeffs, h]

theorem get_length {st : State} {v : View} (h : st.inBounds v = true) : (st.get v).length = v.len := by
  rw [inBounds_iff] at h
  unfold State.get
  rw [List.length_take, List.length_drop]; omega

theorem get_sub (st : State) (v : View) {k n : Nat} (h : k + n ≤ v.len) :
    st.get ⟨v.buf, v.off + k, n⟩ = ((st.get v).drop k).take n := by
  unfold State.get
  dsimp only
  rw [List.drop_take, List.drop_drop, List.take_take, Nat.min_eq_left (by omega)]

theorem get_assignAll (st : State) (buf : Nat) (l : List (Nat × Nat)) (v : View) : (assignAll st buf l).get v = st.get v := by
  unfold State.get; rw [assignAll_bufs]

theorem blocks_shift (objs : List Obj) (a : List Nat) (off k : Nat) :
    blocks objs a (off + k) = (blocks objs a k).map (fun p => (p.1, off + p.2)) := by
  unfold blocks
  induction a generalizing k with
  | nil => rfl
  | cons c cs ih =>
    simp only [layoutList, List.map_append, ← ih, Nat.add_assoc, block, List.map_map]
    rfl

theorem blocks_zero (objs : List Obj) (a : List Nat) (off : Nat) :
    blocks objs a off = (blocks objs a 0).map (fun p => (p.1, off + p.2)) := blocks_shift objs a off 0

theorem layout_blocks {objs : List Obj} (h : Str objs) (id : Nat) :
    layout objs id = (id, 0) :: blocks objs (children objs id) 0 := layout_cons h id

theorem blocks_append (objs : List Obj) (a b : List Nat) (off : Nat) :
    blocks objs (a ++ b) off = blocks objs a off ++ blocks objs b (off + (a.map (nc objs)).sum) := layoutList_append _ _ _ _ _

theorem blocks_fst (objs : List Obj) (a : List Nat) (off off' : Nat) :
    (blocks objs a off).map Prod.fst = (blocks objs a off').map Prod.fst := by
  rw [blocks_zero, blocks_zero objs a off', List.map_map, List.map_map]; rfl

/-- Where something inside `id` looks after the base class has stored `v` and the components in `a` were wrapped. -/
theorem shares_upd {st st1 : State} (h : Frame st) {o : Nat} (ho : o < st.objs.length) {v : View} (hu : Upd st st1 o v)
    {a b : List Nat} (hab : children st.objs o = a ++ b) (ha : (a.map (nc st.objs)).sum ≤ v.len)
    (hb : v.len = nc st.objs o → b = []) {i : Nat} (hns : i ∈ members st.objs o → NoSharing st.objs o)
    (hi : (i = o ∧ v.len = nc st.objs o) ∨ Compatible st.objs o i ∧ Shares st i) :
    Shares (assignAll st1 v.buf (blocks st.objs a v.off)) i := by
  have hov : o < st.views.length := by rw [h.len]; exact ho
  have hlen : st1.views.length = st.views.length := by rw [hu.views]; simp
  have hobj : (assignAll st1 v.buf (blocks st.objs a v.off)).objs = st.objs := by rw [assignAll_objs, hu.objs]
  have hlay := layout_blocks h.str o
  rw [hab, blocks_append] at hlay
  have hment : ∀ {d k}, (d, k) ∈ blocks st.objs a v.off → d < st1.views.length := by
    intro d k hd
    obtain ⟨_, _, c, hc, hle⟩ := blocks_bounds h.str hd
    have := h.str.kids (id := o) (c := c) (by rw [hab]; simp [hc])
    rw [hlen, h.len]; simp only at hle; omega
  -- what happens to objects that are not mentioned
  have hkeep : Shares st i → (∀ d ∈ members st.objs i, d ≠ o ∧ d ∉ (blocks st.objs a v.off).map Prod.fst) →
      Shares (assignAll st1 v.buf (blocks st.objs a v.off)) i := by
    rintro ⟨w, hw, hwl, hwb, hall⟩ hnot
    have hview : ∀ d ∈ members st.objs i, (assignAll st1 v.buf (blocks st.objs a v.off)).views[d]? = st.views[d]? := by
      intro d hd
      obtain ⟨h1, h2⟩ := hnot d hd
      have hst1 : st1.views[d]? = st.views[d]? := by
        rcases set_view hu hov d with ⟨e, _⟩ | ⟨_, e⟩
        · exact absurd e h1
        · exact e
      obtain ⟨k, hk⟩ := mem_members.1 hd
      have hdl : d < st1.views.length := by
        rw [hlen]
        exact (List.getElem?_eq_some_iff.1 (hall _ hk)).1
      rcases assignAll_view st1 v.buf (blocks st.objs a v.off) d hdl with ⟨_, e⟩ | ⟨k, hk, _⟩
      · rw [e, hst1]
      · exact absurd (List.mem_map.2 ⟨_, hk, rfl⟩) h2
    refine ⟨w, ?_, by rw [hobj]; exact hwl, by rw [inBounds_assignAll]; exact hu.old w hwb, fun p hp => ?_⟩
    · rw [hview i (mem_members.2 ⟨0, self_mem h.str i⟩)]; exact hw
    · rw [hobj] at hp ⊢
      rw [hview p.1 (mem_members.2 ⟨p.2, hp⟩)]
      exact hall p hp
  -- what happens to `o` itself when everything is wrapped
  have hself : i = o → v.len = nc st.objs o → Shares (assignAll st1 v.buf (blocks st.objs a v.off)) i := by
    rintro rfl hvl
    have hnd := hns (mem_members.2 ⟨0, self_mem h.str i⟩)
    have hb' := hb hvl
    subst hb'
    rw [List.append_nil] at hab
    have hlay' := layout_blocks h.str i
    rw [hab] at hlay'
    have hnd' : i ∉ (blocks st.objs a v.off).map Prod.fst ∧ ((blocks st.objs a v.off).map Prod.fst).Nodup := by
      have := hnd
      unfold NoSharing members at this
      rw [hlay', List.map_cons, List.nodup_cons, blocks_fst _ _ 0 v.off] at this
      exact this
    have hvi : (assignAll st1 v.buf (blocks st.objs a v.off)).views[i]? = some (some v) := by
      rcases assignAll_view st1 v.buf (blocks st.objs a v.off) i (by rw [hlen]; exact hov) with ⟨_, e⟩ | ⟨k, hk, _⟩
      · rcases set_view hu hov i with ⟨_, e'⟩ | ⟨hne, _⟩
        · rw [e, e']
        · exact absurd rfl hne
      · exact absurd (List.mem_map.2 ⟨_, hk, rfl⟩) hnd'.1
    refine ⟨v, hvi, by rw [hobj]; exact hvl, by rw [inBounds_assignAll]; exact hu.new, fun p hp => ?_⟩
    rw [hobj, hlay'] at hp
    rw [hobj]
    rcases List.mem_cons.1 hp with rfl | hp
    · rw [hvi, Nat.add_zero, ← hvl]
    · have hp' : (p.1, v.off + p.2) ∈ blocks st.objs a v.off := by
        rw [blocks_zero]; exact List.mem_map.2 ⟨p, hp, rfl⟩
      rw [assignAll_view_nodup st1 v.buf hnd'.2 (hment hp') hp', hu.objs]
  rcases hi with ⟨hio, hvl⟩ | ⟨hcomp, hsh⟩
  · exact hself hio hvl
  by_cases hio : i = o
  · obtain ⟨w, hw, _⟩ := id hsh
    rw [hio] at hw
    exact hself hio (hu.fix w hw)
  have hin : ∀ {d}, d ∈ (blocks st.objs a v.off).map Prod.fst → d ∈ members st.objs o := by
    intro d hd
    rw [blocks_fst _ _ v.off 0] at hd
    unfold members
    rw [hlay]
    simp only [List.map_cons, List.map_append, List.mem_cons, List.mem_append]
    exact Or.inr (Or.inl hd)
  rcases hcomp with hdis | ⟨him, hnd⟩
  · refine hkeep hsh (fun d hd => ⟨?_, fun hd' => hdis (hin hd') hd⟩)
    rintro rfl
    exact hdis (mem_members.2 ⟨0, self_mem h.str d⟩) hd
  · have hnd' := hnd
    unfold NoSharing members at hnd'
    rw [hlay, List.map_cons, List.map_append, List.nodup_cons, List.nodup_append'] at hnd'
    obtain ⟨hno, hna, hnb, hdis⟩ := hnd'
    obtain ⟨k, hk⟩ := mem_members.1 him
    rw [hlay] at hk
    rcases List.mem_cons.1 hk with e | hk
    · exact absurd (Prod.ext_iff.1 e).1 hio
    rcases List.mem_append.1 hk with hk | hk
    · -- `i` is in a component that was wrapped
      have hk' : (i, v.off + k) ∈ blocks st.objs a v.off := by
        rw [blocks_zero]; exact List.mem_map.2 ⟨_, hk, rfl⟩
      have hna' : ((blocks st.objs a v.off).map Prod.fst).Nodup := by rw [blocks_fst _ _ v.off 0]; exact hna
      have hview : ∀ p ∈ layout st.objs i, (assignAll st1 v.buf (blocks st.objs a v.off)).views[p.1]?
          = some (some ⟨v.buf, v.off + k + p.2, nc st.objs p.1⟩) := by
        intro p hp
        have := blocks_trans h.str hk' hp
        rw [assignAll_view_nodup st1 v.buf hna' (hment this) this, hu.objs]
      refine ⟨⟨v.buf, v.off + k, nc st.objs i⟩, hview (i, 0) (self_mem h.str i), by rw [hobj], ?_, fun p hp => ?_⟩
      · rw [inBounds_assignAll]
        have hn := hu.new
        have hbd := blocks_bounds h.str hk'
        rw [inBounds_iff] at hn ⊢
        simp only at hbd ⊢
        exact ⟨hn.1, by omega⟩
      · rw [hobj] at hp ⊢
        exact hview p hp
    · -- `i` is in a component that was not wrapped
      refine hkeep hsh (fun d hd => ?_)
      obtain ⟨j, hj⟩ := mem_members.1 hd
      have hd' : d ∈ (blocks st.objs b (0 + (a.map (nc st.objs)).sum)).map Prod.fst :=
        List.mem_map.2 ⟨_, blocks_trans h.str hk hj, rfl⟩
      refine ⟨fun e => hno ?_, fun hd2 => hdis ?_ hd'⟩
      · rw [← e]; exact List.mem_append.2 (Or.inr hd')
      · rw [blocks_fst _ _ 0 v.off]; exact hd2

/-- The object itself looks at what the base class stored. -/
theorem view_self {st st1 : State} (h : Frame st) {o : Nat} (ho : o < st.objs.length) {v : View} (hu : Upd st st1 o v)
    {a b : List Nat} (hab : children st.objs o = a ++ b) :
    (assignAll st1 v.buf (blocks st.objs a v.off)).views[o]? = some (some v) := by
  have hov : o < st.views.length := by rw [h.len]; exact ho
  rcases assignAll_view st1 v.buf (blocks st.objs a v.off) o (by rw [hu.views]; simpa using hov) with ⟨_, e⟩ | ⟨k, hk, _⟩
  · rcases set_view hu hov o with ⟨_, e'⟩ | ⟨hne, _⟩
    · rw [e, e']
    · exact absurd rfl hne
  · obtain ⟨_, _, c, hc, hle⟩ := blocks_bounds h.str hk
    have := h.str.kids (id := o) (c := c) (by rw [hab]; simp [hc])
    simp only at hle; omega

theorem layout_lt {st : State} (h : Frame st) {id : Nat} (hid : id < st.objs.length) {p : Nat × Nat} (hp : p ∈ layout st.objs id) :
    p.1 < st.objs.length := by
  have := (layout_bounds h.str id p hp).1; omega

/-- Adding an object changes nothing for those that exist. -/
theorem shares_add {st : State} (h : Frame st) {o : Obj} (ho : WfObj st.objs st.objs.length o) {i : Nat} (hs : Shares st i) :
    Shares (st.add o) i := by
  obtain ⟨v, hv, hvl, hvb, hall⟩ := hs
  have hi : i < st.objs.length := by
    have := (List.getElem?_eq_some_iff.1 hv).1
    rwa [h.len] at this
  have hold : ∀ j, j < st.objs.length → (st.add o).views[j]? = st.views[j]? :=
    fun j hj => getElem?_snoc _ _ (by rw [h.len]; exact hj)
  have hob : (st.add o).objs = st.objs ++ [o] := rfl
  refine ⟨v, by rw [hold i hi]; exact hv, by rw [hob, nc_snoc _ _ hi]; exact hvl, hvb, fun p hp => ?_⟩
  rw [hob, layout_snoc h.str ho hi] at hp
  have hpl := layout_lt h hi hp
  rw [hold p.1 hpl, hob, nc_snoc _ _ hpl]
  exact hall p hp

theorem members_snoc {st : State} (h : Frame st) {o : Obj} (ho : WfObj st.objs st.objs.length o) {i : Nat} (hi : i < st.objs.length) :
    members (st.add o).objs i = members st.objs i := by
  unfold members
  rw [show (st.add o).objs = st.objs ++ [o] from rfl, layout_snoc h.str ho hi]

theorem shares_bufs {st st' : State} {i : Nat} (hs : Shares st i) (ho : st'.objs = st.objs) (hv : st'.views = st.views)
    (hb : ∀ u, st.inBounds u = true → st'.inBounds u = true) : Shares st' i := by
  obtain ⟨v, h1, h2, h3, h4⟩ := hs
  exact ⟨v, by rw [hv]; exact h1, by rw [ho]; exact h2, hb v h3, by rw [ho, hv]; exact h4⟩

theorem shares_lt {st : State} (h : Frame st) {i : Nat} (hs : Shares st i) : i < st.objs.length := by
  obtain ⟨v, hv, _⟩ := hs
  have := (List.getElem?_eq_some_iff.1 hv).1
  rwa [h.len] at this

theorem compatible_ns {objs : List Obj} (h : Str objs) {o i : Nat} (hc : Compatible objs o i) (hi : i ∈ members objs o) :
    NoSharing objs o := by
  rcases hc with hd | ⟨_, hn⟩
  · exact absurd (mem_members.2 ⟨0, self_mem h i⟩) (hd hi)
  · exact hn

/-- One step that is compatible with the use of `i`. -/
theorem shares_step {st : State} (h : Frame st) {i : Nat} (hs : Shares st i) (op : Op) (hk : Keeps st i op) :
    Shares (step st op).1 i := by
  cases op with
  | alloc vals => exact shares_bufs hs rfl rfl (fun u hu => snoc_inBounds vals hu)
  | write b j x =>
    unfold step
    dsimp only
    split
    · rename_i hb
      exact shares_bufs hs rfl rfl (fun u hu => (write_inBounds x hb.1 u).trans hu)
    · exact hs
  | newLeaf n => exact shares_add h (leaf_wf _ _ _) hs
  | newLeafWith n vals =>
    show Shares (setBase _ _ _ _).1 i
    have hwf := leaf_wf st.objs st.objs.length vals.length
    have h' := h.add hwf
    have hl : st.objs.length < (st.add ⟨.leaf, [], vals.length⟩).objs.length := by simp [State.add]
    have hn : nc (st.add ⟨.leaf, [], vals.length⟩).objs st.objs.length = vals.length := nc_new _ _
    have hch : children (st.add ⟨.leaf, [], vals.length⟩).objs st.objs.length = [] := children_new _ _
    have hi := shares_lt h hs
    have hm : members (st.add ⟨.leaf, [], vals.length⟩).objs st.objs.length = [st.objs.length] := by
      unfold members
      rw [layout_blocks h'.str, hch]; rfl
    have hdis : (members (st.add ⟨.leaf, [], vals.length⟩).objs st.objs.length).Disjoint
        (members (st.add ⟨.leaf, [], vals.length⟩).objs i) := by
      rw [hm, members_snoc h hwf hi]
      intro d hd hd'
      obtain ⟨k, hk⟩ := mem_members.1 hd'
      have := layout_lt h hi hk
      simp only [List.mem_singleton] at hd
      omega
    rcases setBase_spec h' hl vals with ⟨_, _, hne⟩ | ⟨st1, v, e, hupd, hv, _, _⟩
    · exact absurd hn.symm hne
    · rw [hn] at e
      rw [e]
      refine shares_upd h' hl hupd (a := []) (b := []) hch (by simp) (fun _ => rfl) (fun hm' => ?_)
        (Or.inr ⟨Or.inl hdis, shares_add h hwf hs⟩)
      rw [hm] at hm'
      simp only [List.mem_singleton] at hm'
      omega
  | newParent cs move =>
    unfold step
    dsimp only
    split
    · exact hs
    · rename_i hc
      rw [not_or] at hc
      have hwf := parent_wf hc.2
      split
      · rename_i hmove
        split
        · exact hs
        · rename_i vals hcol
          have hlen := collect_length hcol
          have h' := (h.add hwf).snocBuf vals
          have hl : st.objs.length < (st.add ⟨.parent, cs, (cs.map (nc st.objs)).sum⟩).objs.length := by simp [State.add]
          have hb := new_inBounds (st.add ⟨.parent, cs, (cs.map (nc st.objs)).sum⟩) vals rfl
          have hs' : Shares { st.add ⟨.parent, cs, (cs.map (nc st.objs)).sum⟩ with bufs := st.bufs ++ [vals] } i :=
            shares_bufs (shares_add h hwf hs) rfl rfl (fun u hu => snoc_inBounds (st := st.add _) vals hu)
          have hcomp := hk hmove
          rcases wrap_effect h' hl hb with ⟨e, _⟩ | ⟨st1, hupd, _, hv, e⟩
          · exact (congrArg (fun r => Shares r.1 i) e).mpr hs'
          · exact (congrArg (fun r => Shares r.1 i) e).mpr
              (shares_upd h' hl hupd (b := []) (by simp) (by rw [hv]; exact h'.str.sum_le _) (fun _ => rfl)
                (fun hm => compatible_ns h'.str hcomp hm) (Or.inr ⟨hcomp, hs'⟩))
      · exact shares_add h hwf hs
  | newSummarised c =>
    unfold step
    dsimp only
    split
    · rename_i hc; exact shares_add h (summarised_wf hc) hs
    · exact hs
  | set o vals =>
    show Shares (set st o vals).1 i
    rcases Nat.lt_or_ge o st.objs.length with ho | ho
    swap
    · unfold set
      rw [List.getElem?_eq_none ho]; exact hs
    rcases set_effect h ho vals with ⟨e, _⟩ | ⟨st1, v, a, b, hupd, hl, _, hsame, hab, ha, e, hok⟩
    · rw [e]; exact hs
    rw [e]
    rcases hk with hom | hcomp
    swap
    · exact shares_upd h ho hupd hab ha (fun hv => (hok hv).1) (fun hm => compatible_ns h.str hcomp hm) (Or.inr ⟨hcomp, hs⟩)
    -- `o` is inside `i`: nothing moves
    obtain ⟨w, hw, hwl, hwb, hall⟩ := hs
    obtain ⟨k, hk⟩ := mem_members.1 hom
    have hvo := hall _ hk
    have hve := hsame _ hvo rfl
    have hov : o < st.views.length := by rw [h.len]; exact ho
    have hviews : ∀ p ∈ layout st.objs i, (assignAll st1 v.buf (blocks st.objs a v.off)).views[p.1]? = st.views[p.1]? := by
      intro p hp
      have hpl : p.1 < st1.views.length := by
        rw [hupd.views]
        simpa using (List.getElem?_eq_some_iff.1 (hall p hp)).1
      have hst1 : st1.views[p.1]? = st.views[p.1]? := by
        rcases set_view hupd hov p.1 with ⟨e1, e2⟩ | ⟨_, e2⟩
        · rw [e2, e1, hvo, hve]
        · exact e2
      rcases assignAll_view st1 v.buf (blocks st.objs a v.off) p.1 hpl with ⟨_, e1⟩ | ⟨j, hj, e1⟩
      · rw [e1, hst1]
      · rw [e1]
        -- `p` occurs inside `o`, hence inside `i`, at the position it already looks at
        rw [blocks_zero] at hj
        obtain ⟨q, hq, hqe⟩ := List.mem_map.1 hj
        have hqo : q ∈ layout st.objs o := by
          rw [layout_blocks h.str, hab, blocks_append]
          exact List.mem_cons_of_mem _ (List.mem_append.2 (Or.inl hq))
        have hqi := hall _ (layout_trans h.str i _ hk q hqo)
        obtain ⟨h1, h2⟩ := Prod.ext_iff.1 hqe
        simp only at h1 h2 hqi
        rw [h1] at hqi
        rw [hqi, hupd.objs, ← h2, hve]
        simp only [Nat.add_assoc]
    have hobj : (assignAll st1 v.buf (blocks st.objs a v.off)).objs = st.objs := by rw [assignAll_objs, hupd.objs]
    refine ⟨w, ?_, by rw [hobj]; exact hwl, by rw [inBounds_assignAll]; exact hupd.old w hwb, fun p hp => ?_⟩
    · rw [hviews _ (self_mem h.str i)]; exact hw
    · rw [hobj] at hp ⊢
      rw [hviews p hp]; exact hall p hp
  | wrap o v =>
    unfold step
    dsimp only
    split
    · rename_i hb
      rcases Nat.lt_or_ge o st.objs.length with ho | ho
      · rcases wrap_effect h ho hb with ⟨e, _⟩ | ⟨st1, hupd, _, hv, e⟩
        · rw [e]; exact hs
        · rw [e]
          exact shares_upd h ho hupd (b := []) (by simp) (by rw [hv]; exact h.str.sum_le _) (fun _ => rfl)
            (fun hm => compatible_ns h.str hk hm) (Or.inr ⟨hk, hs⟩)
      · cases hn : st.objs.length with
        | zero => exact hs
        | succ n => unfold wrap; rw [List.getElem?_eq_none ho]; exact hs
    · exact hs
  | rebind o v =>
    unfold step
    dsimp only
    split
    · obtain ⟨u, hu, hul, hub, hall⟩ := hs
      have hne : ∀ p ∈ layout st.objs i, (st.assign o v).views[p.1]? = st.views[p.1]? := fun p hp =>
        List.getElem?_set_ne fun e => hk (mem_members.2 ⟨p.2, by rw [e]; exact hp⟩)
      refine ⟨u, (hne (i, 0) (self_mem h.str i)).trans hu, hul, hub, fun p hp => (hne p hp).trans (hall p hp)⟩
    · exact hs

/-! ## C44 -/

/-- After `SetCoeffs` with the right number of coefficients on any map in which no object occurs twice, everything inside the
map, at every depth, uses its own consecutive range of the map's coefficients, which are the values given. -/
theorem C44_set {st : State} (hst : Reached st) {id : Nat} (hid : id < st.objs.length) (hns : NoSharing st.objs id)
    {vals : List ℝ} (hv : vals.length = nc st.objs id) :
    (step st (.set id vals)).2 = .ok ∧ Shares (step st (.set id vals)).1 id ∧ coeffs (step st (.set id vals)).1 id = some vals := by
  have h := hst.frame
  show (set st id vals).2 = _ ∧ Shares (set st id vals).1 id ∧ coeffs (set st id vals).1 id = _
  rcases set_effect h hid vals with ⟨_, _, hne⟩ | ⟨st1, v, a, b, hupd, hl, hget, _, hab, ha, e, hok⟩
  · exact absurd hv hne
  · have hvl := hl.trans hv
    have hsh := shares_upd h hid hupd hab ha (fun hv => (hok hv).1) (i := id) (fun _ => hns) (Or.inl ⟨rfl, hvl⟩)
    refine ⟨(hok hvl).2, by rw [e]; exact hsh, ?_⟩
    rw [e, coeffs_some (view_self h hid hupd hab), get_assignAll, hget]

/-- The same for `WrapCoeffs` with any existing memory range: the map and everything inside it use that memory. -/
theorem C44_wrap {st : State} (hst : Reached st) {id : Nat} (hid : id < st.objs.length) (hns : NoSharing st.objs id)
    {v : View} (hb : st.inBounds v = true) (hv : v.len = nc st.objs id) :
    (step st (.wrap id v)).2 = .ok ∧ Shares (step st (.wrap id v)).1 id ∧
      (step st (.wrap id v)).1.views[id]? = some (some v) ∧ (step st (.wrap id v)).1.bufs = st.bufs := by
  have h := hst.frame
  have hstep : step st (.wrap id v) = wrap st.objs.length st id v := by simp [step, hb]
  rw [hstep]
  rcases wrap_effect h hid hb with ⟨_, hne⟩ | ⟨st1, hupd, hbufs, _, e⟩
  · exact absurd hv hne
  · rw [e]
    refine ⟨rfl, ?_, view_self h hid hupd (b := []) (by simp), by rw [assignAll_bufs, hbufs]⟩
    exact shares_upd h hid hupd (b := []) (by simp) (by rw [hv]; exact h.str.sum_le _) (fun _ => rfl) (i := id)
      (fun _ => hns) (Or.inl ⟨rfl, hv⟩)

/-- The same for the constructors that take over the coefficients of the components: the new map's coefficients are the
components' coefficients one after the other. -/
theorem C44_move {st : State} (hst : Reached st) {cs : List Nat} (hne : cs ≠ []) (hcs : ∀ c ∈ cs, c < st.objs.length)
    (hns : NoSharing (st.objs ++ [⟨.parent, cs, (cs.map (nc st.objs)).sum⟩]) st.objs.length)
    (hset : ∀ c ∈ cs, ∃ l, coeffs st c = some l ∧ l.length = nc st.objs c) :
    (step st (.newParent cs true)).2 = .ok ∧ Shares (step st (.newParent cs true)).1 st.objs.length ∧
      coeffs (step st (.newParent cs true)).1 st.objs.length = some (cs.flatMap (fun c => (coeffs st c).getD [])) := by
  have h := hst.frame
  have hwf := parent_wf (objs := st.objs) (cs := cs) (by simpa using hcs)
  have hown : ∀ c, st.own c = (coeffs st c).getD [] := by
    intro c
    unfold State.own coeffs
    cases hv : st.views[c]? with
    | none => rfl
    | some o => cases o <;> rfl
  have hcol : collect st cs = some (cs.flatMap (fun c => (coeffs st c).getD [])) := by
    clear hns hwf hcs hne
    induction cs with
    | nil => rfl
    | cons c cs ih =>
      obtain ⟨l, hl, hll⟩ := hset c (by simp)
      have hchk : checkCoefficients st c = true := by
        rw [check_iff]
        right
        unfold coeffs at hl
        split at hl
        · rename_i v hv
          simp only [Option.some.injEq] at hl
          refine ⟨v, hv, ?_⟩
          rw [← get_length (h.bnd c v hv), hl, hll]
        · simp at hl
      rw [collect, hown, hl, Option.getD_some, hchk, ih (fun c hc => hset c (by simp [hc]))]
      simp [hll, hl]
  have hcond : ¬ (cs = [] ∨ cs.any (fun c => decide (st.objs.length ≤ c)) = true) := by
    rw [not_or]; exact ⟨hne, by simpa using hcs⟩
  generalize hvals : cs.flatMap (fun c => (coeffs st c).getD []) = vals at hcol ⊢
  have hlen := collect_length hcol
  have h' := (h.add hwf).snocBuf vals
  have hl : st.objs.length < (st.add ⟨.parent, cs, (cs.map (nc st.objs)).sum⟩).objs.length := by simp [State.add]
  have hb := new_inBounds (st.add ⟨.parent, cs, (cs.map (nc st.objs)).sum⟩) vals rfl
  have hstep : step st (.newParent cs true)
      = wrap (st.add ⟨.parent, cs, (cs.map (nc st.objs)).sum⟩).objs.length
          { st.add ⟨.parent, cs, (cs.map (nc st.objs)).sum⟩ with bufs := st.bufs ++ [vals] } st.objs.length
          ⟨st.bufs.length, 0, vals.length⟩ := by
    unfold step
    dsimp only
    rw [if_neg hcond, hcol]
    rfl
  have hnn : nc (st.objs ++ [⟨.parent, cs, (cs.map (nc st.objs)).sum⟩]) st.objs.length = (cs.map (nc st.objs)).sum := nc_new _ _
  rw [hstep]
  rcases wrap_effect h' hl hb with ⟨_, hne'⟩ | ⟨st1, hupd, hbufs, hv, e⟩
  · exact absurd (hlen.trans hnn.symm) hne'
  · have hsh := shares_upd h' hl hupd (List.append_nil _).symm (by rw [hv]; exact h'.str.sum_le _) (fun _ => rfl)
      (i := st.objs.length) (fun _ => hns) (Or.inl ⟨rfl, hv⟩)
    have hself := view_self h' hl hupd (List.append_nil _).symm
    refine ⟨(congrArg Prod.snd e), (congrArg (fun r => Shares r.1 st.objs.length) e).mpr hsh, ?_⟩
    refine (congrArg (fun r => coeffs r.1 st.objs.length) e).trans ?_
    refine (coeffs_some hself).trans ?_
    rw [get_assignAll]
    unfold State.get
    rw [hbufs]
    simp [State.add]

/-- What sharing means for values: at every depth, the coefficients of an object are the slice of the map's coefficients at
its position. -/
theorem C44_slices {st : State} (hst : Reached st) {id : Nat} (hs : Shares st id) :
    ∃ all, coeffs st id = some all ∧ all.length = nc st.objs id ∧
      ∀ p ∈ layout st.objs id, coeffs st p.1 = some ((all.drop p.2).take (nc st.objs p.1)) := by
  have h := hst.frame
  obtain ⟨v, hv, hvl, hvb, hall⟩ := hs
  refine ⟨st.get v, coeffs_some hv, (get_length hvb).trans hvl, fun p hp => ?_⟩
  rw [coeffs_some (hall p hp), get_sub st v (by have := (layout_bounds h.str id p hp).2; omega)]

theorem flat_slices {st : State} {all : List ℝ} (cs : List Nat) (off : Nat)
    (hlen : off + (cs.map (nc st.objs)).sum ≤ all.length)
    (h : ∀ a c b, cs = a ++ c :: b →
      coeffs st c = some ((all.drop (off + (a.map (nc st.objs)).sum)).take (nc st.objs c))) :
    cs.flatMap (fun c => (coeffs st c).getD []) = (all.drop off).take (cs.map (nc st.objs)).sum := by
  induction cs generalizing off with
  | nil => simp
  | cons c cs ih =>
    simp only [List.map_cons, List.sum_cons] at hlen
    rw [List.flatMap_cons, h [] c cs rfl, ih (off + nc st.objs c) (by omega)]
    · simp only [List.map_nil, List.sum_nil, Nat.add_zero, Option.getD_some, List.map_cons, List.sum_cons]
      rw [List.take_add, List.drop_drop]
    · rintro a d b rfl
      have := h (c :: a) d b rfl
      simpa [Nat.add_assoc] using this

/-- The slices are disjoint and cover everything: the coefficients of every map with components inside `id` are those of its
components one after the other. -/
theorem C44_cover {st : State} (hst : Reached st) {id : Nat} (hs : Shares st id) {d : Nat} (hd : d ∈ members st.objs id)
    (hc : children st.objs d ≠ []) :
    coeffs st d = some ((children st.objs d).flatMap (fun c => (coeffs st c).getD [])) := by
  have h := hst.frame
  obtain ⟨all, hall, hlen, hsl⟩ := C44_slices hst hs
  obtain ⟨k, hk⟩ := mem_members.1 hd
  have hsum : nc st.objs d = ((children st.objs d).map (nc st.objs)).sum := by
    cases ho : st.objs[d]? with
    | none => simp [children, ho] at hc
    | some o =>
      rw [nc_eq ho, children_eq ho]
      rw [children_eq ho] at hc
      exact (h.str d o ho).2.2.1 (fun hl => hc ((h.str d o ho).2.1 hl))
  have hbd := (layout_bounds h.str id _ hk).2
  simp only at hbd
  rw [hsl _ hk, flat_slices (children st.objs d) k (by omega) (all := all), ← hsum]
  intro a c b hcs
  have hmem : (c, 0 + (a.map (nc st.objs)).sum + 0) ∈ layout st.objs d := by
    rw [layout_cons h.str, hcs]
    exact List.mem_cons_of_mem _ (mem_layoutList_of (mem_block.2 ⟨_, self_mem h.str c, rfl⟩))
  have := hsl _ (layout_trans h.str id _ hk _ hmem)
  simpa [Nat.add_assoc] using this

theorem get_write {st : State} {v : View} {j : Nat} (hb : st.inBounds v = true) (hj : j < v.len) (x : ℝ) :
    ({ st with bufs := st.bufs.set v.buf ((st.bufs.getD v.buf []).set (v.off + j) x) } : State).get v = (st.get v).set j x := by
  rw [inBounds_iff] at hb
  unfold State.get
  dsimp only
  rw [show (st.bufs.set v.buf ((st.bufs.getD v.buf []).set (v.off + j) x)).getD v.buf [] = (st.bufs.getD v.buf []).set (v.off + j) x by
    rw [List.getD_eq_getElem?_getD, List.getElem?_set_self hb.1]; rfl]
  refine List.ext_getElem? (fun i => ?_)
  simp only [List.getElem?_take, List.getElem?_drop, List.getElem?_set, List.length_take, List.length_drop]
  by_cases hi : i < v.len
  · by_cases hij : j = i
    · subst hij
      simp only [if_pos hi, if_pos]
      rw [if_pos (by omega), if_pos (by omega)]
    · rw [if_pos hi, if_neg (by omega), if_neg hij, if_pos hi]
  · rw [if_neg hi, if_neg (by omega), if_neg hi]

/-- Changing entry `j` of the coefficients of something inside the map changes exactly the corresponding entry of the map's
coefficients; with `d = id` this is a change through the map, which by `C44_slices` its components see. -/
theorem C44_write {st : State} (hst : Reached st) {id : Nat} (hs : Shares st id) {d k : Nat} (hd : (d, k) ∈ layout st.objs id)
    {j : Nat} (hj : j < nc st.objs d) {w : View} (hw : st.views[d]? = some (some w)) (x : ℝ) :
    (step st (.write w.buf (w.off + j) x)).2 = .ok ∧ Shares (step st (.write w.buf (w.off + j) x)).1 id ∧
    coeffs (step st (.write w.buf (w.off + j) x)).1 d = (coeffs st d).map (·.set j x) ∧
    coeffs (step st (.write w.buf (w.off + j) x)).1 id = (coeffs st id).map (·.set (k + j) x) := by
  have h := hst.frame
  have hs' := hs
  obtain ⟨v, hv, hvl, hvb, hall⟩ := hs'
  have hwv := hall _ hd
  rw [hw] at hwv
  simp only [Option.some.injEq] at hwv
  have hwb := h.bnd d w hw
  have hwb' := inBounds_iff.1 hwb
  have hbd := (layout_bounds h.str id _ hd).2
  simp only at hbd
  have hwl : w.len = nc st.objs d := by rw [hwv]
  have hstep : step st (.write w.buf (w.off + j) x)
      = ({ st with bufs := st.bufs.set w.buf ((st.bufs.getD w.buf []).set (w.off + j) x) }, .ok) := by
    unfold step
    dsimp only
    rw [if_pos ⟨hwb'.1, by omega⟩]
  refine ⟨by rw [hstep], shares_step h hs _ trivial, ?_, ?_⟩
  · rw [hstep, coeffs_some hw]
    refine (coeffs_some (by exact hw)).trans ?_
    rw [get_write hwb (by omega)]
    rfl
  · rw [hstep, coeffs_some hv]
    refine (coeffs_some (by exact hv)).trans ?_
    have := get_write hvb (j := k + j) (by omega) x
    rw [hwv]
    dsimp only
    rw [Nat.add_assoc, this]
    rfl

/-- Sharing survives every history in which nothing inside the map is pointed elsewhere: changes of entries, `SetCoeffs` on the
map, on anything inside it and on maps that contain it, `WrapCoeffs` on the map and on maps that contain it, work on
unrelated objects, failed calls, and the creation of further maps. -/
theorem C44_history {st : State} (hst : Reached st) {id : Nat} (hs : Shares st id) (ops : List Op)
    (hk : KeepsAll st id ops) : Shares (run st ops) id := by
  have h := hst.frame
  clear hst
  induction ops generalizing st with
  | nil => exact hs
  | cons op ops ih =>
    exact ih (shares_step h hs op hk.1) hk.2 (h.step op)

/-! Two leaves with 1 and 2 coefficients in a triangular map, which is in turn a layer of a composed map with a third leaf and
the component of a summarised map. -/

def exampleOps : List Op := [.newLeaf 1, .newLeaf 2, .newParent [0, 1] false, .newLeaf 1, .newSummarised 3, .newParent [2, 4] false]

theorem example_reachable : Reachable (run initial exampleOps) :=
  ⟨exampleOps, by simp [exampleOps], rfl⟩

example : layout (run initial exampleOps).objs 5 = [(5, 0), (2, 0), (0, 0), (1, 1), (4, 3), (3, 3)] := by decide

theorem example_shares : Shares (run initial (exampleOps ++ [.set 5 [7, 8, 9, 10]])) 5 := by
  have := (C44_set example_reachable.reached (id := 5) (by decide) (show List.Nodup _ by decide) (vals := [7, 8, 9, 10]) (by decide)).2.1
  rw [run, List.foldl_append]
  exact this

example : coeffs (run initial (exampleOps ++ [.set 5 [7, 8, 9, 10]])) 1 = some [8, 9] := rfl

example : coeffs (run initial (exampleOps ++ [.set 5 [7, 8, 9, 10]] ++ [.set 1 [3, 4], .write 0 3 5])) 5 = some [7, 3, 4, 5] := rfl

/-- After assignments to `Coeffs()` of a component and of the map, both with the wrong size, `SetCoeffs` puts everything right. -/
example : Shares (run (run initial (exampleOps ++ [.alloc [1, 2, 3], .rebind 1 ⟨0, 0, 3⟩, .rebind 5 ⟨0, 0, 2⟩])) [.set 5 [7, 8, 9, 10]]) 5 :=
  (C44_set ⟨_, rfl⟩ (id := 5) (by decide) (show List.Nodup _ by decide) (vals := [7, 8, 9, 10]) (by decide)).2.1

/-- The hypotheses of `C44_history` for a history of several calls, one of which fails. -/
example : Shares (run (run initial (exampleOps ++ [.set 5 [7, 8, 9, 10]])) [.set 1 [3, 4], .write 0 3 5, .set 0 [], .newLeaf 3]) 5 := by
  refine C44_history ⟨_, rfl⟩ example_shares _ ⟨Or.inl ?_, trivial, Or.inl ?_, trivial, trivial⟩ <;> decide

/-- The property is false when an object occurs twice: after `SetCoeffs([1, 2])` on `ComposedMap({m, m})` the first layer uses
2 instead of 1. -/
theorem C44_fails_twice : ∃ st : State, Reachable st ∧ coeffs st 1 = some [1, 2] ∧ children st.objs 1 = [0, 0] ∧
    coeffs st 0 = some [2] :=
  ⟨run initial [.newLeaf 1, .newParent [0, 0] false, .set 1 [1, 2]], ⟨_, by simp, rfl⟩, rfl, rfl, rfl⟩

/-- It is false after `WrapCoeffs` on a component: the map still reports its old coefficients but uses others. -/
theorem C44_fails_wrap_component : ∃ st : State, Reachable st ∧ coeffs st 2 = some [1, 2] ∧ children st.objs 2 = [0, 1] ∧
    coeffs st 0 = some [5] :=
  ⟨run initial [.newLeaf 1, .newLeaf 1, .newParent [0, 1] false, .set 2 [1, 2], .alloc [5], .wrap 0 ⟨1, 0, 1⟩],
    ⟨_, by simp, rfl⟩, rfl, rfl, rfl⟩

/-- It is false for a component that is placed in a second map. -/
theorem C44_fails_second_map : ∃ st : State, Reachable st ∧ coeffs st 2 = some [1, 2] ∧ children st.objs 2 = [0, 1] ∧
    coeffs st 0 = some [5] :=
  ⟨run initial [.newLeaf 1, .newLeaf 1, .newParent [0, 1] false, .set 2 [1, 2], .newParent [0] false, .set 3 [5]],
    ⟨_, by simp, rfl⟩, rfl, rfl, rfl⟩

/-- It is false after assigning a view to the map's `Coeffs()`, which the documentation of `Coeffs` offers: the components keep
using the old coefficients. -/
theorem C44_fails_rebind : ∃ st : State, Reachable st ∧ coeffs st 2 = some [1, 2] ∧
    coeffs (run st [.alloc [5, 6], .rebind 2 ⟨1, 0, 2⟩]) 2 = some [5, 6] ∧
    coeffs (run st [.alloc [5, 6], .rebind 2 ⟨1, 0, 2⟩]) 0 = some [1] :=
  ⟨run initial [.newLeaf 1, .newLeaf 1, .newParent [0, 1] false, .set 2 [1, 2]], ⟨_, by simp, rfl⟩, rfl, rfl, rfl⟩

/-! ## C49 -/

/-- `WrapCoeffs` with the wrong number of coefficients throws and changes nothing. -/
theorem C49_wrap_rejects {st : State} {id : Nat} (hid : id < st.objs.length) {v : View}
    (hb : st.inBounds v = true) (hv : v.len ≠ nc st.objs id) : step st (.wrap id v) = (st, .throw) := by
  simp only [step, hb, if_true]
  exact wrap_throw hid hid st v rfl hv

/-- `SetCoeffs` with the wrong number of coefficients throws and changes nothing, when the object has coefficients. -/
theorem C49_set_rejects {st : State} (hst : Reached st) {id : Nat} (hid : id < st.objs.length) {old : List ℝ}
    (hold : coeffs st id = some old) {vals : List ℝ} (hv : vals.length ≠ nc st.objs id) :
    step st (.set id vals) = (st, .throw) := by
  have h := hst.frame
  show set st id vals = _
  rcases set_effect h hid vals with ⟨e, _⟩ | ⟨st1, v, a, b, hupd, hl, _⟩
  · exact e
  · exfalso
    unfold coeffs at hold
    split at hold
    · rename_i u hu
      exact hv (hl.symm.trans (hupd.fix u hu))
    · simp at hold

/-- `SetCoeffs` with the right number of coefficients succeeds and `Coeffs()` returns them, whatever happened before. -/
theorem C49_set_returns {st : State} (hst : Reached st) {id : Nat} (hid : id < st.objs.length) {vals : List ℝ}
    (hv : vals.length = nc st.objs id) : (step st (.set id vals)).2 = .ok ∧ coeffs (step st (.set id vals)).1 id = some vals ∧
      call (step st (.set id vals)).1 id = .ok := by
  have h := hst.frame
  show (set st id vals).2 = _ ∧ coeffs (set st id vals).1 id = _ ∧ call (set st id vals).1 id = _
  rcases set_effect h hid vals with ⟨_, _, hne⟩ | ⟨st1, v, a, b, hupd, hl, hget, _, hab, ha, e, hok⟩
  · exact absurd hv hne
  · have hvi := view_self h hid hupd hab
    refine ⟨(hok (hl.trans hv)).2, by rw [e, coeffs_some hvi, get_assignAll, hget], ?_⟩
    rw [e, call, if_pos]
    rw [check_iff, assignAll_objs, hupd.objs]
    exact Or.inr ⟨v, hvi, hl.trans hv⟩

/-- Whatever was done before, when a public function does not throw, the object and everything inside it, at every depth, has
allocated coefficients, as many as it expects; nothing reads beyond its coefficients. -/
theorem C49_sizes {st : State} (hst : Reachable st) {id : Nat} (hcall : call st id = .ok) {d : Nat}
    (hd : d ∈ members st.objs id) (hn : nc st.objs d ≠ 0) : ∃ l, coeffs st d = some l ∧ l.length = nc st.objs d := by
  have h := hst.inv
  have hchk : checkCoefficients st id = true := by
    unfold call at hcall
    by_contra hne
    rw [if_neg hne] at hcall
    simp at hcall
  have hall : ∀ i, checkCoefficients st i = true → ∀ d ∈ members st.objs i, checkCoefficients st d = true := by
    intro i
    induction i using Nat.strong_induction_on with
    | _ i ih =>
      intro hi d hd
      obtain ⟨k, hk⟩ := mem_members.1 hd
      rw [layout_cons h.str] at hk
      rcases List.mem_cons.1 hk with e | hk
      · have e' : d = i := (Prod.ext_iff.1 e).1
        rw [e']; exact hi
      · obtain ⟨a, c, b, hcs, hp⟩ := mem_layoutList hk
        obtain ⟨q, hq, e⟩ := mem_block.1 hp
        have hc : c ∈ children st.objs i := by rw [hcs]; simp
        refine ih c (h.str.kids hc) (h.good i hi c hc) d (mem_members.2 ⟨q.2, ?_⟩)
        have : d = q.1 := (Prod.ext_iff.1 e).1
        rw [this]; exact hq
  rcases check_iff.1 (hall id hchk d hd) with h0 | ⟨v, hv, hvl⟩
  · exact absurd h0 hn
  · exact ⟨st.get v, coeffs_some hv, (get_length (h.bnd d v hv)).trans hvl⟩

theorem untouched_upd {st st1 : State} (h : Frame st) {o : Nat} (ho : o < st.objs.length) {v : View} (hu : Upd st st1 o v)
    {a b : List Nat} (hab : children st.objs o = a ++ b) {i : Nat} (hi : i < st.objs.length) (hm : i ∉ members st.objs o) :
    (assignAll st1 v.buf (blocks st.objs a v.off)).views[i]? = st.views[i]? := by
  have hov : o < st.views.length := by rw [h.len]; exact ho
  have hne : i ≠ o := by
    rintro rfl
    exact hm (mem_members.2 ⟨0, self_mem h.str i⟩)
  have hst1 : st1.views[i]? = st.views[i]? := by
    rcases set_view hu hov i with ⟨e, _⟩ | ⟨_, e⟩
    · exact absurd e hne
    · exact e
  rcases assignAll_view st1 v.buf (blocks st.objs a v.off) i (by rw [hu.views, List.length_set, h.len]; exact hi) with
    ⟨_, e⟩ | ⟨k, hk, _⟩
  · rw [e, hst1]
  · exfalso
    refine hm ?_
    unfold members
    rw [layout_blocks h.str, hab, blocks_append, List.map_cons, List.map_append, blocks_fst _ _ 0 v.off]
    exact List.mem_cons_of_mem _ (List.mem_append.2 (Or.inl (List.mem_map.2 ⟨_, hk, rfl⟩)))

theorem untouched_step {st : State} (h : Frame st) {i : Nat} (hi : i < st.objs.length) (op : Op) (hk : Untouched st i op) :
    (step st op).1.views[i]? = st.views[i]? ∧ nc (step st op).1.objs i = nc st.objs i ∧ i < (step st op).1.objs.length := by
  have hadd : ∀ o : Obj, (st.add o).views[i]? = st.views[i]? ∧ nc (st.add o).objs i = nc st.objs i ∧ i < (st.add o).objs.length := by
    intro o
    refine ⟨getElem?_snoc _ _ (by rw [h.len]; exact hi), nc_snoc _ _ hi, ?_⟩
    simp [State.add]; omega
  cases op with
  | alloc vals => exact ⟨rfl, rfl, hi⟩
  | write b j x =>
    unfold step
    dsimp only
    split <;> exact ⟨rfl, rfl, hi⟩
  | newLeaf n => exact hadd _
  | newLeafWith n vals =>
    show (setBase _ _ _ _).1.views[i]? = _ ∧ nc (setBase _ _ _ _).1.objs i = _ ∧ _ < (setBase _ _ _ _).1.objs.length
    have h' := h.add (leaf_wf st.objs st.objs.length vals.length)
    have hl : st.objs.length < (st.add ⟨.leaf, [], vals.length⟩).objs.length := by simp [State.add]
    have hn : nc (st.add ⟨.leaf, [], vals.length⟩).objs st.objs.length = vals.length := nc_new _ _
    rcases setBase_spec h' hl vals with ⟨_, _, hne⟩ | ⟨st1, v, e, hupd, hv, _, _⟩
    · exact absurd hn.symm hne
    · rw [hn] at e
      rw [e]
      dsimp only
      rw [hupd.objs, hupd.views, List.getElem?_set_ne (by omega)]
      exact hadd _
  | newParent cs move =>
    unfold step
    dsimp only
    split
    · exact ⟨rfl, rfl, hi⟩
    · rename_i hc
      rw [not_or] at hc
      have hwf := parent_wf hc.2
      split
      · rename_i hmove
        split
        · exact ⟨rfl, rfl, hi⟩
        · rename_i vals hcol
          have h' := (h.add hwf).snocBuf vals
          have hl : st.objs.length < (st.add ⟨.parent, cs, (cs.map (nc st.objs)).sum⟩).objs.length := by simp [State.add]
          have hb := new_inBounds (st.add ⟨.parent, cs, (cs.map (nc st.objs)).sum⟩) vals rfl
          have hm : i ∉ members (st.add ⟨.parent, cs, (cs.map (nc st.objs)).sum⟩).objs st.objs.length := by
            intro hm
            obtain ⟨k, hk'⟩ := mem_members.1 hm
            rw [layout_cons h'.str] at hk'
            rcases List.mem_cons.1 hk' with e | hk'
            · have := (Prod.ext_iff.1 e).1
              simp only at this; omega
            · obtain ⟨a, c, b, hcs, hp⟩ := mem_layoutList hk'
              obtain ⟨q, hq, e⟩ := mem_block.1 hp
              have hc' : c ∈ cs := by
                have : c ∈ children (st.add ⟨.parent, cs, (cs.map (nc st.objs)).sum⟩).objs st.objs.length := by rw [hcs]; simp
                rwa [show children (st.add ⟨.parent, cs, (cs.map (nc st.objs)).sum⟩).objs st.objs.length = cs from children_new _ _] at this
              have hq' : q ∈ layout st.objs c := by
                have := layout_snoc h.str hwf (hwf.1 c hc')
                rw [show (st.add ⟨.parent, cs, (cs.map (nc st.objs)).sum⟩).objs
                  = st.objs ++ [⟨.parent, cs, (cs.map (nc st.objs)).sum⟩] from rfl, this] at hq
                exact hq
              refine hk hmove c hc' (mem_members.2 ⟨q.2, ?_⟩)
              have : i = q.1 := (Prod.ext_iff.1 e).1
              rw [this]; exact hq'
          have ha := hadd ⟨.parent, cs, (cs.map (nc st.objs)).sum⟩
          rcases wrap_effect h' hl hb with ⟨e, _⟩ | ⟨st1, hupd, _, hv, e⟩
          · exact (congrArg (fun r => r.1.views[i]? = st.views[i]? ∧ nc r.1.objs i = nc st.objs i ∧ i < r.1.objs.length) e).mpr ha
          · refine (congrArg (fun r => r.1.views[i]? = st.views[i]? ∧ nc r.1.objs i = nc st.objs i ∧ i < r.1.objs.length) e).mpr ?_
            refine ⟨(untouched_upd h' hl hupd (List.append_nil _).symm (by have := ha.2.2; exact this) hm).trans ha.1, ?_, ?_⟩
            · rw [assignAll_objs, hupd.objs]; exact ha.2.1
            · rw [assignAll_objs, hupd.objs]; exact ha.2.2
      · exact hadd _
  | newSummarised c =>
    unfold step
    dsimp only
    split
    · exact hadd _
    · exact ⟨rfl, rfl, hi⟩
  | set o vals =>
    show (set st o vals).1.views[i]? = _ ∧ nc (set st o vals).1.objs i = _ ∧ _ < (set st o vals).1.objs.length
    rcases Nat.lt_or_ge o st.objs.length with ho | ho
    · rcases set_effect h ho vals with ⟨e, _⟩ | ⟨st1, v, a, b, hupd, _, _, _, hab, ha, e, hok⟩
      · rw [e]; exact ⟨rfl, rfl, hi⟩
      · rw [e, assignAll_objs, hupd.objs]; exact ⟨untouched_upd h ho hupd hab hi hk, rfl, hi⟩
    · unfold set
      rw [List.getElem?_eq_none ho]; exact ⟨rfl, rfl, hi⟩
  | wrap o v =>
    unfold step
    dsimp only
    split
    · rename_i hb
      rcases Nat.lt_or_ge o st.objs.length with ho | ho
      · rcases wrap_effect h ho hb with ⟨e, _⟩ | ⟨st1, hupd, _, hv, e⟩
        · rw [e]; exact ⟨rfl, rfl, hi⟩
        · rw [e, assignAll_objs, hupd.objs]
          exact ⟨untouched_upd h ho hupd (List.append_nil _).symm hi hk, rfl, hi⟩
      · have hn : wrap st.objs.length st o v = (st, .ub) := by
          cases st.objs.length with
          | zero => rfl
          | succ n => unfold wrap; rw [List.getElem?_eq_none ho]
        rw [hn]; exact ⟨rfl, rfl, hi⟩
    · exact ⟨rfl, rfl, hi⟩
  | rebind o v =>
    unfold step
    dsimp only
    split
    · exact ⟨List.getElem?_set_ne hk, rfl, hi⟩
    · exact ⟨rfl, rfl, hi⟩

/-- An object with coefficients that were never given throws in every public function, however long and whatever the history
of other calls, until it or a map that contains it is given coefficients. -/
theorem C49_missing {st : State} (hst : Reached st) {id : Nat} (hid : id < st.objs.length) (hnone : coeffs st id = none)
    (hn : nc st.objs id ≠ 0) (ops : List Op) (hk : UntouchedAll st id ops) : call (run st ops) id = .throw := by
  have h := hst.frame
  clear hst
  induction ops generalizing st with
  | nil =>
    show call st id = _
    unfold call
    rw [if_neg]
    rw [check_iff]
    rintro (h0 | ⟨v, hv, _⟩)
    · exact hn h0
    · simp [coeffs, hv] at hnone
  | cons op ops ih =>
    obtain ⟨h1, h2, h3⟩ := untouched_step h hid op hk.1
    refine ih (st := (step st op).1) h3 ?_ (by rw [h2]; exact hn) hk.2 (h.step op)
    unfold coeffs at hnone ⊢
    rw [h1]
    split
    · rename_i v hv; simp [hv] at hnone
    · rfl

/-- Non-vacuity: a leaf without coefficients beside a map that is given some. -/
example : call (run (run initial exampleOps) [.set 5 [1, 2, 3, 4], .newLeaf 2, .set 5 [4, 3, 2, 1]]) 6 = .throw := rfl

example : call (run (run initial [.newLeaf 1, .newLeaf 2]) [.set 0 [1], .newParent [0] true]) 1 = .throw :=
  C49_missing ⟨_, rfl⟩ (by decide) rfl (by decide) _
    ⟨show 1 ∉ members _ 0 by decide, fun _ => show ∀ c ∈ [0], 1 ∉ members _ c by decide, trivial⟩

example : step (run initial (exampleOps ++ [.set 5 [7, 8, 9, 10]])) (.set 1 [1]) =
    (run initial (exampleOps ++ [.set 5 [7, 8, 9, 10]]), .throw) :=
  C49_set_rejects ⟨_, rfl⟩ (by decide) (old := [8, 9]) rfl (by decide)

/-- `C49_sizes` fails after an assignment to `Coeffs()` of a map with components: the check of the public functions passes, but the components have no coefficients and would
read from nowhere. -/
theorem C49_fails_rebind (x y : ℝ) : ∃ st : State, Reached st ∧ call st 2 = .ok ∧ coeffs st 2 = some [x, y] ∧ children st.objs 2 = [0, 1] ∧ nc st.objs 0 = 1 ∧
    coeffs st 0 = none ∧ coeffs st 1 = none :=
  ⟨run initial [.newLeaf 1, .newLeaf 1, .newParent [0, 1] false, .alloc [x, y], .rebind 2 ⟨0, 0, 2⟩], ⟨_, rfl⟩, rfl, rfl, rfl, rfl, rfl, rfl⟩

/-- The first `SetCoeffs` of an object accepts any number of coefficients, on maps without and with components. By `C49_sizes`
every later use throws. -/
theorem C49_fails_first_set : ∃ st : State, Reachable st ∧ nc st.objs 0 = 2 ∧ nc st.objs 1 = 2 ∧
    (step st (.set 0 [1])).2 = .ok ∧ coeffs (step st (.set 0 [1])).1 0 = some [1] ∧ call (step st (.set 0 [1])).1 0 = .throw ∧
    (step st (.set 1 [1, 2, 3])).2 = .ok ∧ coeffs (step st (.set 1 [1, 2, 3])).1 1 = some [1, 2, 3] ∧
    call (step st (.set 1 [1, 2, 3])).1 1 = .throw :=
  ⟨run initial [.newLeaf 2, .newParent [0] false], ⟨_, by simp, rfl⟩, rfl, rfl, rfl, rfl, rfl, rfl, rfl, rfl⟩

/-- Construction with a coefficient vector of the wrong size is accepted and is not noticed later either: a component that
expects 2 coefficients and is constructed with 1 believes to have 1. -/
theorem C49_fails_constructor : (step initial (.newLeafWith 2 [1])).2 = .ok ∧
    nc (step initial (.newLeafWith 2 [1])).1.objs 0 = 1 ∧ call (step initial (.newLeafWith 2 [1])).1 0 = .ok :=
  ⟨rfl, rfl, rfl⟩

end MParT.Coeffs
