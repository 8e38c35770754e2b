import Verif.Lemmas.Coeffs
/-! Invariants of coefficient storage over histories. -/
namespace MParT.Coeffs
open MParT.Spec

/-- What holds whatever users do. -/
structure Frame (st : State) : Prop where
  str : Str st.objs
  len : st.views.length = st.objs.length
  bnd : ∀ (id : Nat) (v : View), st.views[id]? = some (some v) → st.inBounds v = true

/-- What holds if they do not assign to `Coeffs()`. -/
structure Inv (st : State) : Prop where
  str : Str st.objs
  len : st.views.length = st.objs.length
  bnd : ∀ (id : Nat) (v : View), st.views[id]? = some (some v) → st.inBounds v = true
  good : ∀ id : Nat, checkCoefficients st id = true → ∀ c ∈ children st.objs id, checkCoefficients st c = true

theorem Inv.frame {st : State} (h : Inv st) : Frame st := ⟨h.str, h.len, h.bnd⟩

theorem check_iff {st : State} {id : Nat} : checkCoefficients st id = true ↔
    nc st.objs id = 0 ∨ ∃ v, st.views[id]? = some (some v) ∧ v.len = nc st.objs id := by
  unfold checkCoefficients
  split
  · rename_i h; simp [h]
  · rename_i h
    split
    · rename_i v hv; simp [h, hv]
    · rename_i hv
      simp only [Bool.false_eq_true, h, false_or, false_iff, not_exists, not_and]
      exact fun v hv' => absurd hv' (hv v)

theorem inBounds_iff {st : State} {v : View} : st.inBounds v = true ↔
    v.buf < st.bufs.length ∧ v.off + v.len ≤ (st.bufs.getD v.buf []).length := by
  simp [State.inBounds]

theorem put_len {b vals : List ℝ} {off len : Nat} (h : off + len ≤ b.length) (hv : vals.length = len) :
    (b.take off ++ vals ++ b.drop (off + len)).length = b.length := by
  simp only [List.length_append, List.length_take, List.length_drop]; omega

theorem put_inBounds {st : State} {v : View} (hv : st.inBounds v = true) {vals : List ℝ} (hl : vals.length = v.len) (u : View) :
    (st.put v vals).inBounds u = st.inBounds u := by
  rw [inBounds_iff] at hv
  rw [Bool.eq_iff_iff, inBounds_iff, inBounds_iff]
  unfold State.put
  simp only [List.length_set]
  refine and_congr_right (fun hu => ?_)
  by_cases h : v.buf = u.buf
  · rw [← h]
    have : (st.bufs.set v.buf (List.take v.off (st.bufs.getD v.buf []) ++ vals ++ List.drop (v.off + v.len) (st.bufs.getD v.buf []))).getD v.buf []
        = List.take v.off (st.bufs.getD v.buf []) ++ vals ++ List.drop (v.off + v.len) (st.bufs.getD v.buf []) := by
      rw [List.getD_eq_getElem?_getD, List.getElem?_set_self hv.1]; rfl
    rw [this, put_len hv.2 hl]
  · simp [List.getD_eq_getElem?_getD, List.getElem?_set_ne h]

theorem put_get {st : State} {v : View} (hv : st.inBounds v = true) {vals : List ℝ} (hl : vals.length = v.len) :
    (st.put v vals).get v = vals := by
  rw [inBounds_iff] at hv
  unfold State.get State.put
  have : (st.bufs.set v.buf (List.take v.off (st.bufs.getD v.buf []) ++ vals ++ List.drop (v.off + v.len) (st.bufs.getD v.buf []))).getD v.buf []
      = List.take v.off (st.bufs.getD v.buf []) ++ vals ++ List.drop (v.off + v.len) (st.bufs.getD v.buf []) := by
    rw [List.getD_eq_getElem?_getD, List.getElem?_set_self hv.1]; rfl
  dsimp only
  rw [this, List.append_assoc, List.drop_left' (by rw [List.length_take]; omega), ← hl, List.take_left' rfl]

theorem snoc_inBounds {st : State} (l : List ℝ) {u : View} (h : st.inBounds u = true) :
    ({ st with bufs := st.bufs ++ [l] } : State).inBounds u = true := by
  rw [inBounds_iff] at h ⊢
  refine ⟨by simp; omega, ?_⟩
  dsimp only
  rw [List.getD_eq_getElem?_getD, List.getElem?_append_left h.1, ← List.getD_eq_getElem?_getD]; exact h.2

theorem new_inBounds (st : State) (l : List ℝ) {n : Nat} (h : l.length = n) :
    ({ st with bufs := st.bufs ++ [l] } : State).inBounds ⟨st.bufs.length, 0, n⟩ = true := by
  rw [inBounds_iff]; simp [h]

theorem le_sum_of_mem {l : List Nat} {x : Nat} (h : x ∈ l) : x ≤ l.sum := by
  obtain ⟨a, b, rfl⟩ := List.append_of_mem h
  simp only [List.sum_append, List.sum_cons]; omega

/-- The base class has stored the view `v` for `o`. -/
structure Upd (st st1 : State) (o : Nat) (v : View) : Prop where
  objs : st1.objs = st.objs
  views : st1.views = st.views.set o (some v)
  new : st1.inBounds v = true
  old : ∀ u, st.inBounds u = true → st1.inBounds u = true
  fix : ∀ u, st.views[o]? = some (some u) → v.len = nc st.objs o

theorem resized_length (l : List ℝ) (n : Nat) : (resized l n).length = n := by
  unfold resized; simp only [List.length_append, List.length_take, List.length_replicate]; omega

theorem setBase_spec {st : State} (h : Frame st) {o : Nat} (ho : o < st.objs.length) (vals : List ℝ) :
    (setBase st o (nc st.objs o) vals = (st, none) ∧ (∃ u, st.views[o]? = some (some u)) ∧ vals.length ≠ nc st.objs o) ∨
    ∃ st1 v, setBase st o (nc st.objs o) vals = (st1, some v) ∧ Upd st st1 o v ∧ v.len = vals.length ∧ st1.get v = vals ∧
      (∀ u, st.views[o]? = some (some u) → u.len = nc st.objs o → v = u) := by
  have hov : o < st.views.length := by rw [h.len]; exact ho
  unfold setBase
  split
  · rename_i v hv
    by_cases hl : vals.length ≠ nc st.objs o
    · left
      rw [if_pos hl]; exact ⟨rfl, ⟨v, hv⟩, hl⟩
    right
    rw [if_neg hl]
    rw [not_not] at hl
    by_cases hn : v.len ≠ nc st.objs o
    · rw [if_pos hn]
      have hb := new_inBounds (st.assign o ⟨st.bufs.length, 0, nc st.objs o⟩) (resized (st.get v) (nc st.objs o)) (resized_length _ _)
      refine ⟨_, _, rfl, ⟨rfl, rfl, ?_, fun u hu => ?_, fun _ _ => rfl⟩, hl.symm, ?_, fun u hu hlen => ?_⟩
      · exact (put_inBounds hb hl _).trans hb
      · exact (put_inBounds hb hl _).trans (snoc_inBounds (st := st.assign o _) _ hu)
      · exact put_get hb hl
      · rw [hv] at hu; simp only [Option.some.injEq] at hu; exact absurd (hu ▸ hlen) hn
    · rw [if_neg hn]
      rw [not_not] at hn
      have hb := h.bnd o v hv
      have hl' : vals.length = v.len := hl.trans hn.symm
      refine ⟨_, _, rfl, ⟨rfl, ?_, ?_, fun u hu => ?_, fun u hu => ?_⟩, hl'.symm, put_get hb hl', fun u hu _ => ?_⟩
      · show st.views = _
        refine List.ext_getElem? (fun i => ?_)
        by_cases hi : o = i
        · rw [← hi, List.getElem?_set_self hov, hv]
        · rw [List.getElem?_set_ne hi]
      · rw [put_inBounds hb hl']; exact hb
      · rw [put_inBounds hb hl']; exact hu
      · exact hn
      · rw [hv] at hu; simp only [Option.some.injEq] at hu; exact hu
  · rename_i hv
    right
    have hb := new_inBounds (st.assign o ⟨st.bufs.length, 0, vals.length⟩) (List.replicate vals.length 0) (List.length_replicate (n := vals.length))
    refine ⟨_, _, rfl, ⟨rfl, rfl, ?_, fun u hu => ?_, fun u hu => absurd hu (hv u)⟩, rfl, ?_, fun u hu => absurd hu (hv u)⟩
    · exact (put_inBounds hb rfl _).trans hb
    · exact (put_inBounds hb rfl _).trans (snoc_inBounds (st := st.assign o _) _ hu)
    · exact put_get hb rfl

/-- The list of what is pointed elsewhere when `a` is a prefix of the components. -/
def blocks (objs : List Obj) (a : List Nat) (off : Nat) : List (Nat × Nat) := layoutList (block objs) (nc objs) a off

theorem children_eq {objs : List Obj} {id : Nat} {o : Obj} (h : objs[id]? = some o) : children objs id = o.children := by
  simp [children, h]

theorem nc_eq {objs : List Obj} {id : Nat} {o : Obj} (h : objs[id]? = some o) : nc objs id = o.numCoeffs := by
  simp [nc, h]

theorem set_effect {st : State} (h : Frame st) {o : Nat} (ho : o < st.objs.length) (vals : List ℝ) :
    (set st o vals = (st, .throw) ∧ (∃ u, st.views[o]? = some (some u)) ∧ vals.length ≠ nc st.objs o) ∨
    ∃ st1 v a b, Upd st st1 o v ∧ v.len = vals.length ∧ st1.get v = vals ∧
      (∀ u, st.views[o]? = some (some u) → u.len = nc st.objs o → v = u) ∧ children st.objs o = a ++ b ∧
      (a.map (nc st.objs)).sum ≤ v.len ∧ (set st o vals).1 = assignAll st1 v.buf (blocks st.objs a v.off) ∧
      (v.len = nc st.objs o → b = [] ∧ (set st o vals).2 = .ok) := by
  have hg : st.objs[o]? = some st.objs[o] := List.getElem?_eq_getElem ho
  have hch := children_eq hg
  have hnc := nc_eq hg
  unfold set
  rw [hg]
  dsimp only
  rw [← hnc]
  rcases setBase_spec h ho vals with ⟨e, hu, hl⟩ | ⟨st1, v, e, hupd, hl, hget, hsame⟩
  · left
    rw [e]; exact ⟨rfl, hu, hl⟩
  · right
    rw [e]
    dsimp only
    have hk : ∀ c ∈ st.objs[o].children, c < st1.objs.length ∧ c < st.objs.length := by
      intro c hc
      have := h.str.kids (hch ▸ hc)
      rw [hupd.objs]
      omega
    obtain ⟨a, b, e1, e2, e3, e4⟩ := passOn_eq (w := wrap st1.objs.length) (objs := st.objs) v (h.str o _ hg)
      (by have := h.str.sum_le o; rw [hch, hnc] at this; exact this)
      (fun c hc st u hs hu => wrap_eq h.str (hk c hc).1 (hk c hc).2 st u hs hu)
      (fun c hc st u hs hu => wrap_throw (hk c hc).1 (hk c hc).2 st u hs hu) st1 hupd.objs
    exact ⟨st1, v, a, b, hupd, hl, hget, hsame, hch.trans e1, e3, e2, fun hv => e4 (hv.trans hnc)⟩

theorem wrap_effect {st : State} (h : Frame st) {o : Nat} (ho : o < st.objs.length) {v : View} (hv : st.inBounds v = true) :
    (wrap st.objs.length st o v = (st, .throw) ∧ v.len ≠ nc st.objs o) ∨
    ∃ st1, Upd st st1 o v ∧ st1.bufs = st.bufs ∧ v.len = nc st.objs o ∧
      wrap st.objs.length st o v = (assignAll st1 v.buf (blocks st.objs (children st.objs o) v.off), .ok) := by
  by_cases hl : v.len = nc st.objs o
  · right
    refine ⟨st.assign o v, ⟨rfl, rfl, hv, fun _ hu => hu, fun _ _ => hl⟩, rfl, hl, ?_⟩
    rw [wrap_eq h.str ho ho st v rfl hl, block_cons h.str, assignAll_cons]
    simp only [← hl]
    rfl
  · left
    exact ⟨wrap_throw ho ho st v rfl hl, hl⟩

theorem blocks_bounds {objs : List Obj} (h : Str objs) {a : List Nat} {off : Nat} {p : Nat × Nat} (hp : p ∈ blocks objs a off) :
    off ≤ p.2 ∧ p.2 + nc objs p.1 ≤ off + (a.map (nc objs)).sum ∧ ∃ c ∈ a, p.1 ≤ c := by
  obtain ⟨a', c, b, rfl, hp'⟩ := mem_layoutList hp
  have := block_bounds h hp'
  simp only [List.map_append, List.map_cons, List.sum_append, List.sum_cons]
  exact ⟨by omega, by omega, c, by simp, this.1⟩

theorem set_view {st st1 : State} {o : Nat} {v : View} (hu : Upd st st1 o v) (ho : o < st.views.length) (d : Nat) :
    (d = o ∧ st1.views[d]? = some (some v)) ∨ (d ≠ o ∧ st1.views[d]? = st.views[d]?) := by
  by_cases hd : d = o
  · subst hd; left; rw [hu.views, List.getElem?_set_self ho]; exact ⟨rfl, rfl⟩
  · right; rw [hu.views, List.getElem?_set_ne (Ne.symm hd)]; exact ⟨hd, rfl⟩

theorem inBounds_assignAll (st : State) (buf : Nat) (l : List (Nat × Nat)) (u : View) :
    (assignAll st buf l).inBounds u = st.inBounds u := by
  unfold State.inBounds; rw [assignAll_bufs]

theorem Frame.upd {st st1 : State} (h : Frame st) {o : Nat} (ho : o < st.objs.length) {v : View} (hu : Upd st st1 o v)
    {a b : List Nat} (hab : children st.objs o = a ++ b) (ha : (a.map (nc st.objs)).sum ≤ v.len) :
    Frame (assignAll st1 v.buf (blocks st.objs a v.off)) := by
  have hov : o < st.views.length := by rw [h.len]; exact ho
  have hlen : st1.views.length = st.views.length := by rw [hu.views]; simp
  have hobj : (assignAll st1 v.buf (blocks st.objs a v.off)).objs = st.objs := by rw [assignAll_objs, hu.objs]
  have hment : ∀ {d k}, (d, k) ∈ blocks st.objs a v.off → d < st.views.length := by
    intro d k hd
    obtain ⟨_, _, c, hc, hle⟩ := blocks_bounds h.str hd
    have := h.str.kids (id := o) (c := c) (by rw [hab]; simp [hc])
    rw [h.len]; simp only at hle; omega
  refine ⟨by rw [hobj]; exact h.str, by rw [assignAll_length, hobj, hlen, h.len], fun id w hw => ?_⟩
  rw [inBounds_assignAll]
  have hid : id < st1.views.length := by
    have := (List.getElem?_eq_some_iff.1 hw).1
    rwa [assignAll_length] at this
  rcases assignAll_view st1 v.buf (blocks st.objs a v.off) id hid with ⟨_, e⟩ | ⟨k, hk, e⟩
  · rw [e] at hw
    rcases set_view hu hov id with ⟨rfl, e'⟩ | ⟨_, e'⟩
    · rw [e'] at hw
      simp only [Option.some.injEq] at hw
      rw [← hw]; exact hu.new
    · rw [e'] at hw; exact hu.old w (h.bnd id w hw)
  · rw [e] at hw
    simp only [Option.some.injEq] at hw
    have hbd := blocks_bounds h.str hk
    have hn := hu.new
    rw [inBounds_iff] at hn ⊢
    rw [← hw, hu.objs]
    simp only at hbd ⊢
    exact ⟨hn.1, by omega⟩

theorem Inv.upd {st st1 : State} (h : Inv st) {o : Nat} (ho : o < st.objs.length) {v : View} (hu : Upd st st1 o v)
    {a b : List Nat} (hab : children st.objs o = a ++ b) (ha : (a.map (nc st.objs)).sum ≤ v.len)
    (hb : v.len = nc st.objs o → b = []) : Inv (assignAll st1 v.buf (blocks st.objs a v.off)) := by
  have hov : o < st.views.length := by rw [h.len]; exact ho
  have hlen : st1.views.length = st.views.length := by rw [hu.views]; simp
  have hobj : (assignAll st1 v.buf (blocks st.objs a v.off)).objs = st.objs := by rw [assignAll_objs, hu.objs]
  have hf := h.frame.upd ho hu hab ha
  refine ⟨hf.str, hf.len, hf.bnd, fun id hid c hc => ?_⟩
  rw [hobj] at hc
  have hcid := h.str.kids hc
  have hidlt : id < st.views.length := by rw [h.len]; exact Str.lt hc
  rw [check_iff, hobj] at hid ⊢
  by_cases hc0 : nc st.objs c = 0
  · exact Or.inl hc0
  right
  rcases assignAll_view st1 v.buf (blocks st.objs a v.off) c (by omega) with ⟨hcn, ec⟩ | ⟨k, hk, ec⟩
  swap
  · exact ⟨_, ec, by rw [hu.objs]⟩
  rcases assignAll_view st1 v.buf (blocks st.objs a v.off) id (by omega) with ⟨hidn, eid⟩ | ⟨k, hk, eid⟩
  swap
  · exfalso
    obtain ⟨j, hj⟩ := child_mem h.str hc
    exact hcn (List.mem_map.2 ⟨_, blocks_trans h.str hk hj, rfl⟩)
  rw [eid] at hid
  rw [ec]
  by_cases hido : id = o
  · subst hido
    exfalso
    rcases set_view hu hov id with ⟨_, e'⟩ | ⟨hne, _⟩
    swap
    · exact hne rfl
    have hvl : v.len = nc st.objs id := by
      rcases hid with h0 | ⟨w, hw, hwl⟩
      · have h1 := h.str.sum_le id
        have h2 : nc st.objs c ≤ ((children st.objs id).map (nc st.objs)).sum :=
          le_sum_of_mem (List.mem_map.2 ⟨c, hc, rfl⟩)
        omega
      · rw [e'] at hw
        simp only [Option.some.injEq] at hw
        rw [hw]; exact hwl
    have hb' := hb hvl
    rw [hb', List.append_nil] at hab
    rw [hab] at hc
    obtain ⟨a1, a2, rfl⟩ := List.append_of_mem hc
    refine hcn (List.mem_map.2 ⟨(c, v.off + (a1.map (nc st.objs)).sum + 0), ?_, rfl⟩)
    exact mem_layoutList_of (mem_block.2 ⟨_, self_mem h.str c, rfl⟩)
  · rcases set_view hu hov id with ⟨e', _⟩ | ⟨_, e'⟩
    · exact absurd e' hido
    rw [e'] at hid
    have hg := h.good id (check_iff.2 hid) c hc
    rw [check_iff] at hg
    rcases hg with h0 | ⟨w, hw, hwl⟩
    · exact absurd h0 hc0
    rcases set_view hu hov c with ⟨e'', ev⟩ | ⟨_, ev⟩
    · subst e''
      exact ⟨v, ev, hu.fix w hw⟩
    · exact ⟨w, ev.trans hw, hwl⟩

theorem Frame.snocBuf {st : State} (h : Frame st) (l : List ℝ) : Frame { st with bufs := st.bufs ++ [l] } :=
  ⟨h.str, h.len, fun id v hv => snoc_inBounds l (h.bnd id v hv)⟩

theorem Frame.add {st : State} (h : Frame st) {o : Obj} (ho : WfObj st.objs st.objs.length o) : Frame (st.add o) := by
  refine ⟨h.str.snoc ho, by simp [State.add, h.len], fun id v hv => ?_⟩
  rcases Nat.lt_trichotomy id st.objs.length with hi | hi | hi
  · rw [show (st.add o).views = st.views ++ [none] from rfl, getElem?_snoc _ _ (by rw [h.len]; exact hi)] at hv
    exact h.bnd id v hv
  · rw [show (st.add o).views = st.views ++ [none] from rfl, hi, ← h.len] at hv
    simp at hv
  · rw [List.getElem?_eq_none (by simp [State.add, h.len]; omega)] at hv
    simp at hv

theorem Inv.snocBuf {st : State} (h : Inv st) (l : List ℝ) : Inv { st with bufs := st.bufs ++ [l] } :=
  ⟨h.str, h.len, fun id v hv => snoc_inBounds l (h.bnd id v hv), h.good⟩

theorem Inv.add {st : State} (h : Inv st) {o : Obj} (ho : WfObj st.objs st.objs.length o) : Inv (st.add o) := by
  have hnew : (st.add o).views[st.objs.length]? = some none := by
    show (st.views ++ [none])[st.objs.length]? = _
    rw [← h.len]; simp
  have hold : ∀ i, i < st.objs.length → (st.add o).views[i]? = st.views[i]? := by
    intro i hi
    exact getElem?_snoc _ _ (by rw [h.len]; exact hi)
  have hchk : ∀ i, i < st.objs.length → (checkCoefficients (st.add o) i = true ↔ checkCoefficients st i = true) := by
    intro i hi
    rw [check_iff, check_iff, hold i hi]
    show nc (st.objs ++ [o]) i = 0 ∨ _ ↔ _
    rw [show (st.add o).objs = st.objs ++ [o] from rfl, nc_snoc _ _ hi]
  refine ⟨h.str.snoc ho, by simp [State.add, h.len], fun id v hv => ?_, fun id hid c hc => ?_⟩
  · rcases Nat.lt_trichotomy id st.objs.length with hi | hi | hi
    · rw [hold id hi] at hv; exact h.bnd id v hv
    · rw [hi, hnew] at hv; simp at hv
    · rw [List.getElem?_eq_none (by simp [State.add, h.len]; omega)] at hv; simp at hv
  · have hidl : id < st.objs.length + 1 := by
      have := Str.lt hc
      simpa [State.add] using this
    have hstr := h.str.snoc ho
    have hcl : c < id := hstr.kids hc
    rw [hchk c (by omega)]
    rcases Nat.lt_or_ge id st.objs.length with hi | hi
    · rw [hchk id hi] at hid
      rw [show (st.add o).objs = st.objs ++ [o] from rfl, children_snoc _ _ hi] at hc
      exact h.good id hid c hc
    · have : id = st.objs.length := by omega
      subst this
      rw [check_iff, hnew] at hid
      rcases hid with h0 | ⟨w, hw, _⟩
      · rw [check_iff]
        left
        have h1 := hstr.sum_le st.objs.length
        have h2 : nc (st.objs ++ [o]) c ≤ ((children (st.objs ++ [o]) st.objs.length).map (nc (st.objs ++ [o]))).sum :=
          le_sum_of_mem (List.mem_map.2 ⟨c, hc, rfl⟩)
        rw [nc_snoc _ _ hcl] at h2
        rw [show (st.add o).objs = st.objs ++ [o] from rfl] at h0
        omega
      · simp at hw

theorem collect_length {st : State} {cs : List Nat} {vals : List ℝ} (h : collect st cs = some vals) :
    vals.length = (cs.map (nc st.objs)).sum := by
  induction cs generalizing vals with
  | nil => simp [collect] at h; subst h; rfl
  | cons c cs ih =>
    rw [collect] at h
    split at h
    · rename_i hc
      simp only [Bool.and_eq_true, decide_eq_true_eq] at hc
      cases hr : collect st cs with
      | none => simp [hr] at h
      | some r =>
        simp only [hr, Option.map_some, Option.some.injEq] at h
        rw [← h, List.length_append, hc.2, ih hr]; simp
    · simp at h

theorem leaf_wf (objs : List Obj) (id n : Nat) : WfObj objs id ⟨.leaf, [], n⟩ :=
  ⟨by simp, fun _ => rfl, fun h => absurd rfl h, fun h => by simp at h⟩

theorem parent_wf {objs : List Obj} {cs : List Nat} (h : ¬ cs.any (fun c => decide (objs.length ≤ c)) = true) :
    WfObj objs objs.length ⟨.parent, cs, (cs.map (nc objs)).sum⟩ := by
  refine ⟨fun c hc => ?_, fun h => by simp at h, fun _ => rfl, fun h => by simp at h⟩
  simp only [List.any_eq_true, decide_eq_true_eq, not_exists, not_and, not_le] at h
  exact h c hc

theorem summarised_wf {objs : List Obj} {c : Nat} (h : c < objs.length) :
    WfObj objs objs.length ⟨.summarised, [c], nc objs c⟩ :=
  ⟨by simpa using h, fun h => by simp at h, fun _ => by simp, fun _ => ⟨c, rfl⟩⟩

theorem write_inBounds {st : State} {b i : Nat} (x : ℝ) (hb : b < st.bufs.length) (u : View) :
    ({ st with bufs := st.bufs.set b ((st.bufs.getD b []).set i x) } : State).inBounds u = st.inBounds u := by
  rw [Bool.eq_iff_iff, inBounds_iff, inBounds_iff]
  simp only [List.length_set]
  refine and_congr_right (fun hu => ?_)
  by_cases h : b = u.buf
  · subst h
    rw [show (st.bufs.set u.buf ((st.bufs.getD u.buf []).set i x)).getD u.buf [] = (st.bufs.getD u.buf []).set i x by
      rw [List.getD_eq_getElem?_getD, List.getElem?_set_self hb]; rfl, List.length_set]
  · simp [List.getD_eq_getElem?_getD, List.getElem?_set_ne h]

theorem Frame.step {st : State} (h : Frame st) (op : Op) : Frame (step st op).1 := by
  cases op with
  | alloc vals => exact h.snocBuf vals
  | write b i x =>
    unfold Coeffs.step
    dsimp only
    split
    · rename_i hb
      refine ⟨h.str, h.len, fun id v hv => ?_⟩
      exact (write_inBounds x hb.1 v).trans (h.bnd id v hv)
    · exact h
  | newLeaf n => exact h.add (leaf_wf _ _ _)
  | newLeafWith n vals =>
    show Frame (setBase _ _ _ _).1
    have h' := h.add (leaf_wf st.objs st.objs.length vals.length)
    have hl : st.objs.length < (st.add ⟨.leaf, [], vals.length⟩).objs.length := by simp [State.add]
    have hn : nc (st.add ⟨.leaf, [], vals.length⟩).objs st.objs.length = vals.length := nc_new _ _
    have hch : children (st.add ⟨.leaf, [], vals.length⟩).objs st.objs.length = [] := children_new _ _
    rcases setBase_spec h' hl vals with ⟨_, _, hne⟩ | ⟨st1, v, e, hupd, hv, _, _⟩
    · exact absurd hn.symm hne
    · rw [hn] at e
      rw [e]
      exact h'.upd hl hupd (a := []) (b := []) hch (by simp)
  | newParent cs move =>
    unfold Coeffs.step
    dsimp only
    split
    · exact h
    · rename_i hc
      rw [not_or] at hc
      have hwf := parent_wf hc.2
      split
      · split
        · exact h
        · rename_i vals hcol
          have hlen := collect_length hcol
          have h' := (h.add hwf).snocBuf vals
          have hl : st.objs.length < (st.add ⟨.parent, cs, (cs.map (nc st.objs)).sum⟩).objs.length := by simp [State.add]
          have hb := new_inBounds (st.add ⟨.parent, cs, (cs.map (nc st.objs)).sum⟩) vals rfl
          rcases wrap_effect h' hl hb with ⟨e, _⟩ | ⟨st1, hupd, _, hv, e⟩
          · exact (congrArg (fun r => Frame r.1) e).mpr h'
          · exact (congrArg (fun r => Frame r.1) e).mpr
              (h'.upd hl hupd (b := []) (by simp) (by rw [hv]; exact h'.str.sum_le _))
      · exact h.add hwf
  | newSummarised c =>
    unfold Coeffs.step
    dsimp only
    split
    · rename_i hc; exact h.add (summarised_wf hc)
    · exact h
  | set id vals =>
    show Frame (set st id vals).1
    rcases Nat.lt_or_ge id st.objs.length with hi | hi
    · rcases set_effect h hi vals with ⟨e, _⟩ | ⟨st1, v, a, b, hupd, _, _, _, hab, ha, e, hok⟩
      · rw [e]; exact h
      · rw [e]; exact h.upd hi hupd hab ha
    · unfold set
      rw [List.getElem?_eq_none hi]; exact h
  | wrap id v =>
    unfold Coeffs.step
    dsimp only
    split
    · rename_i hb
      rcases Nat.lt_or_ge id st.objs.length with hi | hi
      · rcases wrap_effect h hi hb with ⟨e, _⟩ | ⟨st1, hupd, _, hv, e⟩
        · rw [e]; exact h
        · rw [e]
          exact h.upd hi hupd (b := []) (by simp) (by rw [hv]; exact h.str.sum_le _)
      · cases hn : st.objs.length with
        | zero => exact h
        | succ n => unfold wrap; rw [List.getElem?_eq_none hi]; exact h
    · exact h
  | rebind id v =>
    unfold Coeffs.step
    dsimp only
    split
    · rename_i hb
      simp only [Bool.and_eq_true, decide_eq_true_eq] at hb
      have hl : id < st.views.length := by rw [h.len]; exact hb.2
      refine ⟨h.str, by simp [State.assign, h.len], fun i u hu => ?_⟩
      show st.inBounds u = true
      by_cases hi : id = i
      · subst hi
        have : u = v := by simpa [State.assign, List.getElem?_set_self hl, eq_comm] using hu
        exact this ▸ hb.1
      · exact h.bnd i u (by simpa [State.assign, List.getElem?_set_ne hi] using hu)
    · exact h

theorem Inv.step {st : State} (h : Inv st) (op : Op) (hop : ∀ id v, op ≠ .rebind id v) : Inv (step st op).1 := by
  cases op with
  | alloc vals => exact h.snocBuf vals
  | write b i x =>
    unfold Coeffs.step
    dsimp only
    split
    · rename_i hb
      refine ⟨h.str, h.len, fun id v hv => ?_, h.good⟩
      exact (write_inBounds x hb.1 v).trans (h.bnd id v hv)
    · exact h
  | newLeaf n => exact h.add (leaf_wf _ _ _)
  | newLeafWith n vals =>
    show Inv (setBase _ _ _ _).1
    have h' := h.add (leaf_wf st.objs st.objs.length vals.length)
    have hl : st.objs.length < (st.add ⟨.leaf, [], vals.length⟩).objs.length := by simp [State.add]
    have hn : nc (st.add ⟨.leaf, [], vals.length⟩).objs st.objs.length = vals.length := nc_new _ _
    have hch : children (st.add ⟨.leaf, [], vals.length⟩).objs st.objs.length = [] := children_new _ _
    rcases setBase_spec h'.frame hl vals with ⟨_, _, hne⟩ | ⟨st1, v, e, hupd, hv, _, _⟩
    · exact absurd hn.symm hne
    · rw [hn] at e
      rw [e]
      exact h'.upd hl hupd (a := []) (b := []) hch (by simp) (fun _ => rfl)
  | newParent cs move =>
    unfold Coeffs.step
    dsimp only
    split
    · exact h
    · rename_i hc
      rw [not_or] at hc
      have hwf := parent_wf hc.2
      split
      · split
        · exact h
        · rename_i vals hcol
          have hlen := collect_length hcol
          have h' := (h.add hwf).snocBuf vals
          have hl : st.objs.length < (st.add ⟨.parent, cs, (cs.map (nc st.objs)).sum⟩).objs.length := by simp [State.add]
          have hb := new_inBounds (st.add ⟨.parent, cs, (cs.map (nc st.objs)).sum⟩) vals rfl
          rcases wrap_effect h'.frame hl hb with ⟨e, _⟩ | ⟨st1, hupd, _, hv, e⟩
          · exact (congrArg (fun r => Inv r.1) e).mpr h'
          · exact (congrArg (fun r => Inv r.1) e).mpr
              (h'.upd hl hupd (b := []) (by simp) (by rw [hv]; exact h'.str.sum_le _) (fun _ => rfl))
      · exact h.add hwf
  | newSummarised c =>
    unfold Coeffs.step
    dsimp only
    split
    · rename_i hc; exact h.add (summarised_wf hc)
    · exact h
  | set id vals =>
    show Inv (set st id vals).1
    rcases Nat.lt_or_ge id st.objs.length with hi | hi
    · rcases set_effect h.frame hi vals with ⟨e, _⟩ | ⟨st1, v, a, b, hupd, _, _, _, hab, ha, e, hok⟩
      · rw [e]; exact h
      · rw [e]; exact h.upd hi hupd hab ha (fun hv => (hok hv).1)
    · unfold set
      rw [List.getElem?_eq_none hi]; exact h
  | wrap id v =>
    unfold Coeffs.step
    dsimp only
    split
    · rename_i hb
      rcases Nat.lt_or_ge id st.objs.length with hi | hi
      · rcases wrap_effect h.frame hi hb with ⟨e, _⟩ | ⟨st1, hupd, _, hv, e⟩
        · rw [e]; exact h
        · rw [e]
          exact h.upd hi hupd (b := []) (by simp) (by rw [hv]; exact h.str.sum_le _) (fun _ => rfl)
      · cases hn : st.objs.length with
        | zero => exact h
        | succ n => unfold wrap; rw [List.getElem?_eq_none hi]; exact h
    · exact h
  | rebind id v => exact absurd rfl (hop id v)

theorem Inv.initial : Inv initial :=
  ⟨fun id o h => by simp [Coeffs.initial] at h, rfl, fun id v h => by simp [Coeffs.initial] at h,
    fun id _ c hc => by simp [Coeffs.initial, children] at hc⟩

theorem Inv.run {st : State} (h : Inv st) (ops : List Op) (hops : ∀ op ∈ ops, ∀ id v, op ≠ .rebind id v) :
    Inv (run st ops) := by
  induction ops generalizing st with
  | nil => exact h
  | cons op ops ih => exact ih (h.step op (hops op (by simp))) (fun op ho => hops op (by simp [ho]))

theorem Frame.run {st : State} (h : Frame st) (ops : List Op) : Frame (run st ops) := by
  induction ops generalizing st with
  | nil => exact h
  | cons op ops ih => exact ih (h.step op)

theorem _root_.MParT.Spec.Reached.frame {st : State} (h : Reached st) : Frame st := by
  obtain ⟨ops, rfl⟩ := h
  exact Inv.initial.frame.run ops

theorem _root_.MParT.Spec.Reachable.reached {st : State} (h : Reachable st) : Reached st := ⟨h.choose, h.choose_spec.2⟩

theorem _root_.MParT.Spec.Reachable.inv {st : State} (h : Reachable st) : Inv st := by
  obtain ⟨ops, h1, rfl⟩ := h
  exact Inv.initial.run ops h1

end MParT.Coeffs
