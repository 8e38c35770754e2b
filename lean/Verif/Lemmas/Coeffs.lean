import Verif.Spec.Coeffs
import Mathlib.Data.List.Nodup
import Mathlib.Data.List.Induction
import Mathlib.Tactic.Ring
/-! Helper lemmas about coefficient storage. -/
namespace MParT.Coeffs
open MParT.Spec

/-- What constructors establish about one object. -/
def WfObj (objs : List Obj) (id : Nat) (o : Obj) : Prop :=
  (∀ c ∈ o.children, c < id) ∧ (o.kind = .leaf → o.children = []) ∧
  (o.kind ≠ .leaf → o.numCoeffs = (o.children.map (nc objs)).sum) ∧ (o.kind = .summarised → ∃ c, o.children = [c])

def Str (objs : List Obj) : Prop := ∀ id o, objs[id]? = some o → WfObj objs id o

theorem Str.kids {objs : List Obj} (h : Str objs) {id c : Nat} (hc : c ∈ children objs id) : c < id := by
  unfold children at hc
  cases ho : objs[id]? with
  | none => simp [ho] at hc
  | some o => simp only [ho, Option.map_some, Option.getD_some] at hc; exact (h id o ho).1 c hc

theorem Str.lt {objs : List Obj} {id c : Nat} (hc : c ∈ children objs id) : id < objs.length := by
  unfold children at hc
  cases ho : objs[id]? with
  | none => simp [ho] at hc
  | some o => exact (List.getElem?_eq_some_iff.1 ho).1

theorem Str.sum_le {objs : List Obj} (h : Str objs) (id : Nat) :
    ((children objs id).map (nc objs)).sum ≤ nc objs id := by
  unfold children
  cases ho : objs[id]? with
  | none => simp
  | some o =>
    have hn : nc objs id = o.numCoeffs := by simp [nc, ho]
    rw [hn]
    simp only [Option.map_some, Option.getD_some]
    by_cases hk : o.kind = .leaf
    · rw [(h id o ho).2.1 hk]; simp
    · exact ((h id o ho).2.2.1 hk).ge

/-! ## Layout -/

theorem layoutList_append (g : Nat → Nat → List (Nat × Nat)) (n : Nat → Nat) (a b : List Nat) (off : Nat) :
    layoutList g n (a ++ b) off = layoutList g n a off ++ layoutList g n b (off + (a.map n).sum) := by
  induction a generalizing off with
  | nil => simp [layoutList]
  | cons c cs ih => simp only [List.cons_append, layoutList, ih, List.append_assoc, List.map_cons, List.sum_cons, Nat.add_assoc]

theorem layoutList_congr {g g' : Nat → Nat → List (Nat × Nat)} {n n' : Nat → Nat} {cs : List Nat} {off : Nat}
    (h : ∀ c ∈ cs, ∀ o, g c o = g' c o) (hn : ∀ c ∈ cs, n c = n' c) : layoutList g n cs off = layoutList g' n' cs off := by
  induction cs generalizing off with
  | nil => rfl
  | cons c cs ih =>
    simp only [layoutList]
    rw [h c (by simp), hn c (by simp), ih (fun c hc => h c (by simp [hc])) (fun c hc => hn c (by simp [hc]))]

theorem mem_layoutList {g : Nat → Nat → List (Nat × Nat)} {n : Nat → Nat} {cs : List Nat} {off : Nat} {p : Nat × Nat}
    (h : p ∈ layoutList g n cs off) :
    ∃ a c b, cs = a ++ c :: b ∧ p ∈ g c (off + (a.map n).sum) := by
  induction cs generalizing off with
  | nil => simp [layoutList] at h
  | cons c cs ih =>
    simp only [layoutList, List.mem_append] at h
    rcases h with h | h
    · exact ⟨[], c, cs, rfl, by simpa using h⟩
    · obtain ⟨a, c', b, rfl, hp⟩ := ih h
      exact ⟨c :: a, c', b, rfl, by simpa [Nat.add_assoc] using hp⟩

theorem layoutFrom_fuel {objs : List Obj} (h : Str objs) {f f' id : Nat} (off : Nat) (hf : id < f) (hf' : id < f') :
    layoutFrom f objs id off = layoutFrom f' objs id off := by
  induction f generalizing f' id off with
  | zero => omega
  | succ f ih =>
    cases f' with
    | zero => omega
    | succ f' =>
      simp only [layoutFrom]
      congr 1
      refine layoutList_congr (fun c hc o => ?_) (fun _ _ => rfl)
      have := h.kids hc
      exact ih o (by omega) (by omega)

theorem layoutFrom_shift {objs : List Obj} (f id off k : Nat) :
    layoutFrom f objs id (off + k) = (layoutFrom f objs id k).map (fun p => (p.1, off + p.2)) := by
  induction f generalizing id k with
  | zero => rfl
  | succ f ih =>
    simp only [layoutFrom, List.map_cons]
    congr 1
    generalize children objs id = cs
    induction cs generalizing k with
    | nil => rfl
    | cons c cs ihc =>
      simp only [layoutList, List.map_append, ih, ← ihc, Nat.add_assoc]

theorem layoutFrom_eq {objs : List Obj} (h : Str objs) {f id : Nat} (off : Nat) (hf : id < f) :
    layoutFrom f objs id off = (layout objs id).map (fun p => (p.1, off + p.2)) := by
  rw [layout, ← layoutFrom_shift, layoutFrom_fuel h off hf (Nat.lt_succ_self id)]; rfl

theorem layout_eq {objs : List Obj} (h : Str objs) (id : Nat) :
    layout objs id = (id, 0) :: layoutList (fun c o => (layout objs c).map (fun p => (p.1, o + p.2))) (nc objs) (children objs id) 0 := by
  conv_lhs => rw [layout]
  simp only [layoutFrom]
  congr 1
  exact layoutList_congr (fun c hc o => layoutFrom_eq h o (h.kids hc)) (fun _ _ => rfl)

/-- The block of an object that starts at `o`. -/
def block (objs : List Obj) (c o : Nat) : List (Nat × Nat) := (layout objs c).map (fun p => (p.1, o + p.2))

theorem layout_cons {objs : List Obj} (h : Str objs) (id : Nat) :
    layout objs id = (id, 0) :: layoutList (block objs) (nc objs) (children objs id) 0 := layout_eq h id

theorem block_cons {objs : List Obj} (h : Str objs) (id off : Nat) :
    block objs id off = (id, off) :: layoutList (block objs) (nc objs) (children objs id) off := by
  have := layoutFrom_eq (f := id + 1) h off (Nat.lt_succ_self id)
  rw [block, ← this]
  simp only [layoutFrom]
  congr 1
  exact layoutList_congr (fun c hc o => layoutFrom_eq h o (h.kids hc)) (fun _ _ => rfl)

theorem block_zero (objs : List Obj) (id : Nat) : block objs id 0 = layout objs id := by
  unfold block; conv_rhs => rw [← List.map_id (layout objs id)]
  refine List.map_congr_left (fun p _ => ?_); simp

theorem mem_block {objs : List Obj} {c o : Nat} {p : Nat × Nat} :
    p ∈ block objs c o ↔ ∃ q ∈ layout objs c, p = (q.1, o + q.2) := by
  simp only [block, List.mem_map]; exact ⟨fun ⟨q, h, e⟩ => ⟨q, h, e.symm⟩, fun ⟨q, h, e⟩ => ⟨q, h, e.symm⟩⟩

theorem layout_bounds {objs : List Obj} (h : Str objs) (id : Nat) : ∀ p ∈ layout objs id,
    p.1 ≤ id ∧ p.2 + nc objs p.1 ≤ nc objs id := by
  induction id using Nat.strong_induction_on with
  | _ id ih =>
    intro p hp
    rw [layout_cons h] at hp
    rcases List.mem_cons.1 hp with rfl | hp
    · simp
    · obtain ⟨a, c, b, hcs, hq'⟩ := mem_layoutList hp
      obtain ⟨q, hq, rfl⟩ := mem_block.1 hq'
      have hc : c ∈ children objs id := by rw [hcs]; simp
      have hlt := h.kids hc
      have := ih c hlt q hq
      have hs := h.sum_le id
      rw [hcs] at hs
      simp only [List.map_append, List.map_cons, List.sum_append, List.sum_cons] at hs
      exact ⟨by simp only; omega, by simp only; omega⟩

theorem block_bounds {objs : List Obj} (h : Str objs) {id off : Nat} {p : Nat × Nat} (hp : p ∈ block objs id off) :
    p.1 ≤ id ∧ off ≤ p.2 ∧ p.2 + nc objs p.1 ≤ off + nc objs id := by
  obtain ⟨q, hq, rfl⟩ := mem_block.1 hp
  have := layout_bounds h id q hq
  simp only; omega

theorem mem_layoutList_of {g : Nat → Nat → List (Nat × Nat)} {n : Nat → Nat} {a b : List Nat} {c off : Nat} {p : Nat × Nat}
    (hp : p ∈ g c (off + (a.map n).sum)) : p ∈ layoutList g n (a ++ c :: b) off := by
  rw [layoutList_append]; simp [layoutList, hp]

/-- Everything inside something inside `id` is inside `id`. -/
theorem layout_trans {objs : List Obj} (h : Str objs) (id : Nat) : ∀ p ∈ layout objs id, ∀ q ∈ layout objs p.1,
    (q.1, p.2 + q.2) ∈ layout objs id := by
  induction id using Nat.strong_induction_on with
  | _ id ih =>
    intro p hp q hq
    rw [layout_cons h] at hp
    rcases List.mem_cons.1 hp with rfl | hp
    · simpa using hq
    · obtain ⟨a, c, b, hcs, hp2⟩ := mem_layoutList hp
      obtain ⟨p', hp', rfl⟩ := mem_block.1 hp2
      have hc : c ∈ children objs id := by rw [hcs]; simp
      have hlt := h.kids hc
      have := ih c hlt p' hp' q hq
      rw [layout_cons h]
      refine List.mem_cons_of_mem _ ?_
      rw [hcs]
      refine mem_layoutList_of (mem_block.2 ⟨_, this, ?_⟩)
      simp [Nat.add_assoc]

theorem block_trans {objs : List Obj} (h : Str objs) {id off : Nat} {p : Nat × Nat} (hp : p ∈ block objs id off)
    {q : Nat × Nat} (hq : q ∈ layout objs p.1) : (q.1, p.2 + q.2) ∈ block objs id off := by
  obtain ⟨p', hp', rfl⟩ := mem_block.1 hp
  exact mem_block.2 ⟨_, layout_trans h id p' hp' q hq, by simp [Nat.add_assoc]⟩

theorem blocks_trans {objs : List Obj} (h : Str objs) {cs : List Nat} {off : Nat} {p : Nat × Nat}
    (hp : p ∈ layoutList (block objs) (nc objs) cs off)
    {q : Nat × Nat} (hq : q ∈ layout objs p.1) : (q.1, p.2 + q.2) ∈ layoutList (block objs) (nc objs) cs off := by
  obtain ⟨a, c, b, rfl, hp'⟩ := mem_layoutList hp
  exact mem_layoutList_of (block_trans h hp' hq)

theorem self_mem {objs : List Obj} (h : Str objs) (id : Nat) : (id, 0) ∈ layout objs id := by rw [layout_cons h]; simp

theorem child_mem {objs : List Obj} (h : Str objs) {id c : Nat} (hc : c ∈ children objs id) :
    ∃ k, (c, k) ∈ layout objs id := by
  obtain ⟨a, b, hcs⟩ := List.append_of_mem hc
  refine ⟨0 + (a.map (nc objs)).sum, ?_⟩
  rw [layout_cons h, hcs]
  exact List.mem_cons_of_mem _ (mem_layoutList_of (mem_block.2 ⟨_, self_mem h c, by simp⟩))

theorem mem_members {objs : List Obj} {id d : Nat} : d ∈ members objs id ↔ ∃ k, (d, k) ∈ layout objs id := by
  simp [members]

/-! ## Adding an object -/

theorem getElem?_snoc {α : Type*} (l : List α) (a : α) {i : Nat} (h : i < l.length) : (l ++ [a])[i]? = l[i]? :=
  List.getElem?_append_left h

theorem nc_snoc (objs : List Obj) (o : Obj) {i : Nat} (h : i < objs.length) : nc (objs ++ [o]) i = nc objs i := by
  simp [nc, getElem?_snoc _ _ h]

theorem children_snoc (objs : List Obj) (o : Obj) {i : Nat} (h : i < objs.length) :
    children (objs ++ [o]) i = children objs i := by
  simp [children, getElem?_snoc _ _ h]

theorem nc_new (objs : List Obj) (o : Obj) : nc (objs ++ [o]) objs.length = o.numCoeffs := by simp [nc]

theorem children_new (objs : List Obj) (o : Obj) : children (objs ++ [o]) objs.length = o.children := by simp [children]

theorem Str.snoc {objs : List Obj} (h : Str objs) {o : Obj} (ho : WfObj objs objs.length o) : Str (objs ++ [o]) := by
  intro id o' h'
  have key : ∀ i o', i ≤ objs.length → WfObj objs i o' → WfObj (objs ++ [o]) i o' := by
    intro i o' hi hw
    refine ⟨hw.1, hw.2.1, fun hk => ?_, hw.2.2.2⟩
    rw [hw.2.2.1 hk]
    congr 1
    exact List.map_congr_left (fun c hc => (nc_snoc _ _ (by have := hw.1 c hc; omega)).symm)
  rcases Nat.lt_or_ge id objs.length with hi | hi
  · rw [getElem?_snoc _ _ hi] at h'
    exact key id o' hi.le (h id o' h')
  · have : id = objs.length := by
      have := (List.getElem?_eq_some_iff.1 h').1
      simp at this; omega
    subst this
    simp at h'
    subst h'
    exact key _ _ le_rfl ho

theorem layout_snoc {objs : List Obj} (h : Str objs) {o : Obj} (ho : WfObj objs objs.length o) {id : Nat}
    (hid : id < objs.length) : layout (objs ++ [o]) id = layout objs id := by
  induction id using Nat.strong_induction_on with
  | _ id ih =>
    rw [layout_cons h, layout_cons (h.snoc ho), children_snoc _ _ hid]
    congr 1
    refine layoutList_congr (fun c hc off => ?_) (fun c hc => ?_)
    · have := h.kids hc
      unfold block
      rw [ih c this (by omega)]
    · have := h.kids hc
      exact nc_snoc _ _ (by omega)

/-! ## Wrapping -/

/-- Points every entry of the list at its range of a buffer. -/
def assignAll (st : State) (buf : Nat) (l : List (Nat × Nat)) : State :=
  l.foldl (fun st p => st.assign p.1 ⟨buf, p.2, nc st.objs p.1⟩) st

theorem assignAll_objs (st : State) (buf : Nat) (l : List (Nat × Nat)) : (assignAll st buf l).objs = st.objs := by
  induction l generalizing st with
  | nil => rfl
  | cons p l ih => exact (ih _).trans rfl

theorem assignAll_bufs (st : State) (buf : Nat) (l : List (Nat × Nat)) : (assignAll st buf l).bufs = st.bufs := by
  induction l generalizing st with
  | nil => rfl
  | cons p l ih => exact (ih _).trans rfl

theorem assignAll_length (st : State) (buf : Nat) (l : List (Nat × Nat)) :
    (assignAll st buf l).views.length = st.views.length := by
  induction l generalizing st with
  | nil => rfl
  | cons p l ih => exact (ih _).trans (by simp [State.assign])

theorem assignAll_append (st : State) (buf : Nat) (a b : List (Nat × Nat)) :
    assignAll st buf (a ++ b) = assignAll (assignAll st buf a) buf b := by simp [assignAll]

theorem assignAll_cons (st : State) (buf : Nat) (p : Nat × Nat) (l : List (Nat × Nat)) :
    assignAll st buf (p :: l) = assignAll (st.assign p.1 ⟨buf, p.2, nc st.objs p.1⟩) buf l := rfl

/-- Objects that are not mentioned keep their view; the others have one of theirs. -/
theorem assignAll_view (st : State) (buf : Nat) (l : List (Nat × Nat)) (d : Nat) (hd : d < st.views.length) :
    (d ∉ l.map Prod.fst ∧ (assignAll st buf l).views[d]? = st.views[d]?) ∨
    ∃ k, (d, k) ∈ l ∧ (assignAll st buf l).views[d]? = some (some ⟨buf, k, nc st.objs d⟩) := by
  induction l using List.reverseRecOn with
  | nil => exact Or.inl ⟨by simp, rfl⟩
  | append_singleton l p ih =>
    rw [assignAll_append]
    have e : (assignAll (assignAll st buf l) buf [p]).views
        = (assignAll st buf l).views.set p.1 (some ⟨buf, p.2, nc (assignAll st buf l).objs p.1⟩) := rfl
    rw [e, assignAll_objs]
    by_cases hp : p.1 = d
    · right
      refine ⟨p.2, by rw [← hp]; simp, ?_⟩
      rw [← hp, List.getElem?_set_self (by rw [assignAll_length, hp]; exact hd)]
    · rw [List.getElem?_set_ne hp]
      rcases ih with ⟨h1, h2⟩ | ⟨k, h1, h2⟩
      · exact Or.inl ⟨by simp only [List.map_append, List.mem_append, not_or]; exact ⟨h1, by simp; exact fun h => hp h.symm⟩, h2⟩
      · exact Or.inr ⟨k, by simp [h1], h2⟩

theorem assignAll_view_nodup (st : State) (buf : Nat) {l : List (Nat × Nat)} (hl : (l.map Prod.fst).Nodup) {d k : Nat}
    (hd : d < st.views.length) (h : (d, k) ∈ l) :
    (assignAll st buf l).views[d]? = some (some ⟨buf, k, nc st.objs d⟩) := by
  rcases assignAll_view st buf l d hd with ⟨h1, _⟩ | ⟨k', h1, h2⟩
  · exact absurd (List.mem_map.2 ⟨_, h, rfl⟩) h1
  · have : (d, k) = (d, k') := by
      by_contra hne
      have := List.inj_on_of_nodup_map hl h h1 rfl
      exact hne this
    have hk : k = k' := (Prod.ext_iff.1 this).2
    rw [hk]; exact h2

/-- The loop over components: a prefix of them is wrapped completely, all of them if there are enough coefficients. -/
theorem wrapChildren_eq {w : State → Nat → View → State × Outcome} {objs : List Obj} (v : View) (cs : List Nat)
    (hw : ∀ c ∈ cs, ∀ (st : State) (u : View), st.objs = objs → u.len = nc objs c →
      w st c u = (assignAll st u.buf (block objs c u.off), .ok)) (cum : Nat) (st : State) (hst : st.objs = objs) (hc : cum ≤ v.len) :
    ∃ a b, cs = a ++ b ∧ (wrapChildren w v cs cum st).1 = assignAll st v.buf (layoutList (block objs) (nc objs) a (v.off + cum)) ∧
      cum + (a.map (nc objs)).sum ≤ v.len ∧
      (cum + (cs.map (nc objs)).sum ≤ v.len → b = [] ∧ (wrapChildren w v cs cum st).2 = .ok) := by
  induction cs generalizing cum st with
  | nil => exact ⟨[], [], rfl, rfl, by simpa using hc, fun _ => ⟨rfl, rfl⟩⟩
  | cons c cs ih =>
    unfold wrapChildren
    rw [hst]
    by_cases hlt : v.len < cum + nc objs c
    · rw [if_pos hlt]
      refine ⟨[], c :: cs, rfl, rfl, by simpa using hc, fun h => ?_⟩
      simp at h; omega
    · rw [if_neg hlt, hw c (by simp) st _ hst rfl]
      dsimp only
      obtain ⟨a, b, e1, e2, e3, e4⟩ := ih (fun c hc => hw c (by simp [hc])) (cum + nc objs c)
        (assignAll st v.buf (block objs c (v.off + cum))) (by rw [assignAll_objs]; exact hst) (by omega)
      rw [assignAll_objs, hst]
      refine ⟨c :: a, b, by rw [e1]; rfl, ?_, ?_, fun h => ?_⟩
      · rw [e2, layoutList, assignAll_append, Nat.add_assoc]
      · simp only [List.map_cons, List.sum_cons]; omega
      · exact e4 (by simp only [List.map_cons, List.sum_cons] at h; omega)

theorem passOn_eq {w : State → Nat → View → State × Outcome} {objs : List Obj} (v : View) {id : Nat} {o : Obj}
    (ho : WfObj objs id o) (hn : (o.children.map (nc objs)).sum ≤ o.numCoeffs)
    (hw : ∀ c ∈ o.children, ∀ (st : State) (u : View), st.objs = objs → u.len = nc objs c →
      w st c u = (assignAll st u.buf (block objs c u.off), .ok))
    (hw' : ∀ c ∈ o.children, ∀ (st : State) (u : View), st.objs = objs → u.len ≠ nc objs c → w st c u = (st, .throw))
    (st : State) (hst : st.objs = objs) :
    ∃ a b, o.children = a ++ b ∧
      (passOn w v o st).1 = assignAll st v.buf (layoutList (block objs) (nc objs) a v.off) ∧
      (a.map (nc objs)).sum ≤ v.len ∧ (v.len = o.numCoeffs → b = [] ∧ (passOn w v o st).2 = .ok) := by
  unfold passOn
  cases hk : o.kind with
  | leaf => exact ⟨[], o.children, rfl, rfl, by simp, fun _ => ⟨ho.2.1 hk, rfl⟩⟩
  | parent =>
    obtain ⟨a, b, e1, e2, e3, e4⟩ := wrapChildren_eq v o.children hw 0 st hst (Nat.zero_le _)
    exact ⟨a, b, e1, by simpa using e2, by simpa using e3, fun h => e4 (by omega)⟩
  | summarised =>
    obtain ⟨c, hc⟩ := ho.2.2.2 hk
    have hnum := ho.2.2.1 (by rw [hk]; simp)
    rw [hc] at hnum ⊢
    simp only [List.map_cons, List.map_nil, List.sum_cons, List.sum_nil, Nat.add_zero] at hnum
    dsimp only
    by_cases hv : v.len = nc objs c
    · rw [hw c (by simp [hc]) st v hst hv]
      exact ⟨[c], [], rfl, by simp [layoutList], by simp [hv], fun _ => ⟨rfl, rfl⟩⟩
    · rw [hw' c (by simp [hc]) st v hst hv]
      exact ⟨[], [c], rfl, rfl, by simp, fun h => absurd (h.trans hnum) hv⟩

theorem wrap_throw {objs : List Obj} {fuel id : Nat} (hf : id < fuel) (hid : id < objs.length) (st : State) (v : View)
    (hst : st.objs = objs) (hv : v.len ≠ nc objs id) : wrap fuel st id v = (st, .throw) := by
  cases fuel with
  | zero => omega
  | succ fuel =>
    unfold wrap
    rw [hst, List.getElem?_eq_getElem hid]
    dsimp only
    rw [if_pos (by simpa [nc, List.getElem?_eq_getElem hid] using hv)]

/-- `WrapCoeffs` with the right number of coefficients points everything inside the object at its range. -/
theorem wrap_eq {objs : List Obj} (h : Str objs) {fuel id : Nat} (hf : id < fuel) (hid : id < objs.length) (st : State) (v : View)
    (hst : st.objs = objs) (hv : v.len = nc objs id) :
    wrap fuel st id v = (assignAll st v.buf (block objs id v.off), .ok) := by
  induction fuel generalizing id st v with
  | zero => omega
  | succ fuel ih =>
    unfold wrap
    have ho : objs[id]? = some objs[id] := List.getElem?_eq_getElem hid
    have hnc : nc objs id = objs[id].numCoeffs := by simp [nc, ho]
    have hch : children objs id = objs[id].children := by simp [children, ho]
    rw [hst, ho]
    dsimp only
    rw [if_neg (by simpa [hnc] using hv)]
    have hk : ∀ c ∈ objs[id].children, c < fuel ∧ c < objs.length := by
      intro c hc
      have := h.kids (hch ▸ hc)
      omega
    obtain ⟨a, b, e1, e2, e3, e4⟩ := passOn_eq (w := wrap fuel) v (h id _ ho)
      (by have := h.sum_le id; rw [hch, hnc] at this; exact this)
      (fun c hc st u hs hu => ih (hk c hc).1 (hk c hc).2 st u hs hu)
      (fun c hc st u hs hu => wrap_throw (hk c hc).1 (hk c hc).2 st u hs hu) (st.assign id v) (by simp [State.assign, hst])
    obtain ⟨hb, hok⟩ := e4 (hv.trans hnc)
    rw [hb, List.append_nil] at e1
    rw [show passOn (wrap fuel) v objs[id] (st.assign id v) = (_, _) from Prod.ext e2 hok, block_cons h, assignAll_cons]
    rw [hch, ← e1]
    have : (⟨v.buf, v.off, nc st.objs id⟩ : View) = v := by rw [hst, ← hv]
    simp only [this]
    subst e1
    rfl

end MParT.Coeffs
