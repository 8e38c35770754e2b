import Verif.Props.MISetMargin
import Verif.Model.Visualize
/-!
# Properties C73 and C74: neighbour queries and the picture of a multi-index set
-/
namespace MParT
namespace MISet
open MultiIndex Spec Neighborhood

/-! ### C73 -/

/-- A vector in the margin of the set. -/
def InMargin (s : MISet) (ts : List (List Nat)) (v : List Nat) : Prop := v ∉ ts ∧ Accepts s v ∧ ∃ t ∈ ts, Fwd t v

/-- A vector in the reduced margin of the set. -/
def InReducedMargin (s : MISet) (ts : List (List Nat)) (v : List Nat) : Prop := InMargin s ts v ∧ ∀ b, Fwd b v → b ∈ ts

theorem Base.mapActive {s : MISet} {vs : List (List Nat)} {R : Nat → Nat → Prop} (h : Base s vs R) (l : List Nat)
    (hl : ∀ k ∈ l, k < vs.length) : s.mapActive l = .ok (l.map fun k => s.global2active.getD k none) := by
  induction l with
  | nil => rfl
  | cons k l ih =>
    have hk : k < s.global2active.length := by rw [h.g2a_len]; exact hl k (by simp)
    rw [MISet.mapActive, Res.at'_lt hk, Res.bind_ok, ih fun j hj => hl j (by simp [hj])]
    simp [hk]

theorem Inv.backward {F : Prop} {s : MISet} {vs ts : List (List Nat)} {R : Nat → Nat → Prop} (h : Inv F s vs R ts) {g : Nat}
    {v : List Nat} (hv : vs[g]? = some v) (hl : Lim s v) :
    ∃ l out, Res.idx s.inEdges g = .ok l ∧ s.mapActive l = .ok out ∧ (out.filterMap id).Nodup ∧
      (∀ j, some j ∈ out ↔ ∃ u, ts[j]? = some u ∧ Fwd u v) ∧ ((∀ b, Fwd b v → b ∈ ts) → none ∉ out) := by
  obtain ⟨l, h1, h2, h3⟩ := h.base.in_at (List.getElem?_eq_some_iff.1 hv).1
  have hd : ∀ k ∈ l, k < vs.length := fun k hk => (h.base.edges.dom _ _ ((h3 k).1 hk)).1
  have hget : ∀ k ∈ l, s.global2active[k]? = some (s.global2active.getD k none) := fun k hk => by
    have : k < s.global2active.length := by rw [h.base.g2a_len]; exact hd k hk
    simp [this]
  have hsome : ∀ {k j : Nat}, k ∈ l → s.global2active.getD k none = some j → s.active2global[j]? = some k := fun hk e =>
    (h.base.a2g _ _).2 (by rw [hget _ hk, e])
  refine ⟨l, _, Res.idx_some h1, h.base.mapActive l hd, ?_, fun j => ?_, fun hall hn => ?_⟩
  · rw [List.filterMap_map]
    have hnd : l.Nodup := h2.imp fun {a b} hab => Nat.ne_of_lt hab
    clear h1 h2 h3 hd
    induction l with
    | nil => simp
    | cons k l ih =>
      have ih' := ih (fun x hx => hget x (by simp [hx])) (fun hx e => hsome (by simp [hx]) e) (List.nodup_cons.1 hnd).2
      rw [List.filterMap_cons]
      split
      · exact ih'
      · next j hj =>
        refine List.nodup_cons.2 ⟨fun hc => ?_, ih'⟩
        obtain ⟨k', hk', e⟩ := List.mem_filterMap.1 hc
        have a := hsome (List.mem_cons_of_mem k hk') e
        rw [hsome (by simp) hj] at a
        cases a
        exact (List.nodup_cons.1 hnd).1 hk'
  · rw [List.mem_map]
    constructor
    · rintro ⟨k, hk, e⟩
      obtain ⟨u, hu, htu⟩ := h.term_at (hsome hk e)
      exact ⟨u, htu, ((h.in_active hv hl u).1 ⟨k, (h3 k).1 hk, hu, List.mem_of_getElem? htu⟩).1⟩
    · rintro ⟨u, hu, hf⟩
      obtain ⟨k, hr, hk, _⟩ := (h.in_active hv hl u).2 ⟨hf, List.mem_of_getElem? hu⟩
      obtain ⟨g', hg', hv'⟩ := h.a2g_at hu
      have : g' = k := pos_inj h.base.nodup hv' hk
      subst this
      refine ⟨g', (h3 g').2 hr, ?_⟩
      have := (h.base.a2g _ _).1 hg'
      rw [hget g' ((h3 g').2 hr)] at this
      exact Option.some.inj this
  · obtain ⟨k, hk, e⟩ := List.mem_map.1 hn
    obtain ⟨u, w, hu, hw, hf⟩ := h.sem.sound k g ((h3 k).1 hk)
    rw [hv] at hw; cases hw
    obtain ⟨i, hi⟩ := (h.act_mem hu).2 (hall u hf)
    rw [hget k hk, e] at hi
    cases hi

/-- **C73.** `BackwardNeighbors(m)` for a member or a multi-index of the margin: the indices it returns are, once each, those of the
members that are backward neighbours, and if all backward neighbours are members it returns nothing else. -/
theorem C73_backward_partial {b : Bool} {s : MISet} (h : Reach b s) {ts : List (List Nat)} (ht : Terms s ts) {v : List Nat}
    (hv : v ∈ ts ∨ InMargin s ts v) :
    ∃ out, s.backwardNeighbors (ofVec v) = .ok out ∧ (out.filterMap id).Nodup ∧
      (∀ j, some j ∈ out ↔ ∃ u, ts[j]? = some u ∧ Fwd u v) ∧ ((∀ b, Fwd b v → b ∈ ts) → none ∉ out) := by
  obtain ⟨vs, R, hi, _⟩ := h.inv ht
  have hst : v ∈ vs ∧ Lim s v := by
    rcases hv with hm | ⟨_, hl, t, htm, hf⟩
    · obtain ⟨g, hg, _⟩ := hi.mem_vs hm
      exact ⟨List.mem_of_getElem? hg, hi.lim hm⟩
    · obtain ⟨g, hg, ha⟩ := hi.mem_vs htm
      exact ⟨hi.sem.closed g t v ha (fun x => x) hg hf hl, hl⟩
  obtain ⟨g, hg⟩ := List.getElem?_of_mem hst.1
  obtain ⟨l, out, e1, e2, e3⟩ := hi.backward hg hst.2
  refine ⟨out, ?_, e3⟩
  simp only [backwardNeighbors, hi.base.find, findPos_of_nodup hi.base.nodup hg, Res.bind_ok, e1, e2]

/-- **C73.** `BackwardNeighbors(i)` is `BackwardNeighbors` of term `i`; outside the set it throws. -/
theorem C73_backward_index {b : Bool} {s : MISet} (h : Reach b s) {ts : List (List Nat)} (ht : Terms s ts) (i : Nat) :
    s.backwardNeighborsI i = match ts[i]? with
      | some t => s.backwardNeighbors (ofVec t)
      | none => .throw := by
  obtain ⟨vs, R, hi, _⟩ := h.inv ht
  cases e : ts[i]? with
  | some t =>
    obtain ⟨g, hg, hv⟩ := hi.a2g_at e
    simp only [backwardNeighborsI, backwardNeighbors, hi.base.find, findPos_of_nodup hi.base.nodup hv, Res.at'_some hg, Res.bind_ok]
  | none =>
    have : s.active2global[i]? = none := by
      rw [List.getElem?_eq_none_iff, hi.size]; exact List.getElem?_eq_none_iff.1 e
    simp [backwardNeighborsI, Res.at', this]

/-- **C73.** A multi-index that is neither a member nor a neighbour of a member fails the assertion (when the limiter was never
replaced). -/
theorem C73_backward_far {s : MISet} (h : Reach true s) {ts : List (List Nat)} (ht : Terms s ts) {v : List Nat}
    (hv : v ∉ ts) (hn : ∀ t ∈ ts, ¬ Fwd t v ∧ ¬ Fwd v t) : s.backwardNeighbors (ofVec v) = .throw := by
  obtain ⟨vs, R, hi, hne⟩ := h.inv ht
  have : v ∉ vs := fun hc => by
    obtain ⟨g, hg⟩ := List.getElem?_of_mem hc
    obtain ⟨t, htm, hf⟩ := hne rfl g v hg fun ha => hv ((hi.act_mem hg).1 ha)
    exact hf.elim (hn t htm).1 (hn t htm).2
  simp only [backwardNeighbors, hi.base.find, findPos_none.2 this, Res.bind_ok]

/-- **C73** fails when a backward neighbour is not a member: the result contains `-1`, converted to 4294967295, which is the index of
no term. -/
theorem C73_fails_inactive : ∃ s, Reach true s ∧ Terms s [[0, 0], [2, 0]] ∧ s.backwardNeighborsI 1 = .ok [none] := by
  have e1 : ∃ s, (init 2 fun _ => true).addActive (ofVec [0, 0]) = .ok (s, some 0) ∧ ∃ s', s.addActive (ofVec [2, 0]) = .ok (s', some 1) ∧
      s'.size = 2 ∧ s'.indexToMulti 0 = .ok (ofVec [0, 0]) ∧ s'.indexToMulti 1 = .ok (ofVec [2, 0]) ∧
      s'.backwardNeighborsI 1 = .ok [none] := ⟨_, rfl, _, rfl, by decide +kernel⟩
  obtain ⟨s, e, s', e', h2, h3, h4, h5⟩ := e1
  have hr : Reach true s := .addActive (.init 2 fun _ => true) rfl rfl e
  have hr' : Reach true s' := by
    refine .addActive (v := [2, 0]) hr ?_ ?_ e'
    · have : s.length = 2 := by cases e; rfl
      rw [this]; rfl
    · have : s.limiter = fun _ => true := by cases e; rfl
      rw [Accepts, this]
  refine ⟨s', hr', ⟨h2, fun i t hit => ?_⟩, h5⟩
  match i, hit with
  | 0, hit => cases hit; exact h3
  | 1, hit => cases hit; exact h4

theorem Inv.admFwdLoop {F : Prop} {s : MISet} {vs ts : List (List Nat)} {R : Nat → Nat → Prop} (h : Inv F s vs R ts) (l : List Nat)
    (hl : ∀ k ∈ l, k < vs.length) (hp : l.Pairwise (· < ·)) :
    ∃ ms : List (List Nat), s.admFwdLoop l = .ok (ms.map ofVec) ∧ ms.Nodup ∧
      ∀ w, w ∈ ms ↔ (∃ k ∈ l, vs[k]? = some w) ∧ Lim s w ∧ (w ∈ ts ∨ ∀ b, Fwd b w → b ∈ ts) := by
  induction l with
  | nil => exact ⟨[], rfl, List.nodup_nil, by simp⟩
  | cons k l ih =>
    obtain ⟨ms, e, hn, hm⟩ := ih (fun j hj => hl j (by simp [hj])) (List.pairwise_cons.1 hp).2
    have hk : vs[k]? = some (vs.getD k []) := by simp [hl k (by simp)]
    obtain ⟨r, hr, hr'⟩ := h.isAdmissibleG hk
    cases r with
    | true =>
      refine ⟨vs.getD k [] :: ms, ?_, List.nodup_cons.2 ⟨fun hc => ?_, hn⟩, fun w => ?_⟩
      · rw [MISet.admFwdLoop, hr, Res.bind_ok, if_pos rfl, h.base.at_multis hk, Res.bind_ok, e]; rfl
      · obtain ⟨⟨k', hk', e'⟩, _⟩ := (hm _).1 hc
        have := pos_inj h.base.nodup hk e'
        have := (List.pairwise_cons.1 hp).1 k' hk'
        omega
      · rw [List.mem_cons, hm]
        constructor
        · rintro (rfl | ⟨⟨k', hk', e'⟩, hw⟩)
          · exact ⟨⟨k, by simp, hk⟩, hr'.1 rfl⟩
          · exact ⟨⟨k', by simp [hk'], e'⟩, hw⟩
        · rintro ⟨⟨k', hk', e'⟩, hw⟩
          rcases List.mem_cons.1 hk' with rfl | hk'
          · rw [hk] at e'; cases e'; exact Or.inl rfl
          · exact Or.inr ⟨⟨k', hk', e'⟩, hw⟩
    | false =>
      refine ⟨ms, ?_, hn, fun w => ?_⟩
      · rw [MISet.admFwdLoop, hr, Res.bind_ok, if_neg (by simp), e]
      · rw [hm]
        constructor
        · rintro ⟨⟨k', hk', e'⟩, hw⟩
          exact ⟨⟨k', by simp [hk'], e'⟩, hw⟩
        · rintro ⟨⟨k', hk', e'⟩, hw⟩
          rcases List.mem_cons.1 hk' with rfl | hk'
          · rw [hk] at e'; cases e'; exact absurd (hr'.2 hw) (by simp)
          · exact ⟨⟨k', hk', e'⟩, hw⟩

/-- **C73.** `AdmissibleForwardNeighbors(i)` lists, once each, exactly the accepted forward neighbours of term `i` that are members or
whose backward neighbours are all members. -/
theorem C73_admissibleForward {b : Bool} {s : MISet} (h : Reach b s) {ts : List (List Nat)} (ht : Terms s ts) {i : Nat} {t : List Nat}
    (hit : ts[i]? = some t) :
    ∃ ms : List (List Nat), s.admissibleForwardNeighbors i = .ok (ms.map ofVec) ∧ ms.Nodup ∧
      ∀ w, w ∈ ms ↔ Fwd t w ∧ Accepts s w ∧ (w ∈ ts ∨ ∀ b, Fwd b w → b ∈ ts) := by
  obtain ⟨vs, R, hi, _⟩ := h.inv ht
  obtain ⟨g, hg, hv⟩ := hi.a2g_at hit
  obtain ⟨l, h1, h2, h3, h4⟩ := hi.outs hv (List.mem_of_getElem? hit)
  obtain ⟨ms, e, hn, hm⟩ := hi.admFwdLoop l h3 h2
  refine ⟨ms, ?_, hn, fun w => ?_⟩
  · rw [admissibleForwardNeighbors, Res.at'_some hg, Res.bind_ok, Res.idx_some h1, Res.bind_ok, e]
  · rw [hm, h4]
    exact ⟨fun ⟨⟨a, b⟩, _, c⟩ => ⟨a, b, c⟩, fun ⟨a, b, c⟩ => ⟨⟨a, b⟩, b, c⟩⟩

example : (do let s ← createTotalOrder 2 2 (fun m => m.sum ≤ 3)
              let a ← s.backwardNeighbors (ofVec [1, 1]); let b ← s.backwardNeighborsI 4; let c ← s.backwardNeighbors (ofVec [2, 1])
              let d ← s.admissibleForwardNeighbors 1
              pure (a, b, c, d)) =
    .ok ([some 3, some 1], [some 3, some 1], [some 4, some 5], [[1, 1], [0, 2]].map ofVec) := by decide +kernel

/-! ### C74 -/

/-- The texts `f 0`, `f 1`, …, `f (n-1)` one after the other. -/
def texts (n : Nat) (f : Nat → String) : String := (List.range n).foldl (fun a j => a ++ f j) ""

/-- The picture with columns `0..w` and rows `h..0` (from the top), with the cell `sym j i` in column `j` of row `i`, an axis and the
column numbers. -/
def picture (w h : Nat) (sym : Nat → Nat → String) : String :=
  texts (h + 1) (fun k => (if h - k < 10 then " " else "") ++ toString (h - k) ++ " | " ++ texts (w + 1) (fun j => sym j (h - k)) ++ "\n") ++
    "    -" ++ texts (w + 1) (fun _ => "---") ++ "\n     " ++
    texts (w + 1) (fun j => toString j ++ if j < 10 then "  " else " ") ++ "\n"

theorem texts_succ (n : Nat) (f : Nat → String) : texts (n + 1) f = texts n f ++ f n := by
  simp [texts, List.range_succ]

theorem printLoop_eq {f : Nat → Res String} {g : Nat → String} (n : Nat) (h : ∀ j < n, f j = .ok (g j)) :
    printLoop f n = .ok (texts n g) := by
  induction n with
  | zero => rfl
  | succ n ih => rw [printLoop, ih fun j hj => h j (by omega), Res.bind_ok, h n (by omega), texts_succ]; rfl

theorem atCell_ofVec {v : List Nat} (hv : v.length = 2) (j i : Nat) : atCell (ofVec v) j i = .ok (decide (v = [j, i])) := by
  match v, hv with
  | [x, y], _ =>
    rw [atCell, get_ofVec_lt (by simp), Res.bind_ok]
    by_cases hx : x = j
    · subst hx
      rw [get_ofVec_lt (by simp)]
      by_cases hy : y = i <;> simp [hy]
    · simp [hx]

theorem Inv.cellActive {F : Prop} {s : MISet} {vs ts : List (List Nat)} {R : Nat → Nat → Prop} (h : Inv F s vs R ts)
    (h2 : s.length = 2) (j i : Nat) : s.cellActive j i s.active2global = .ok (decide ([j, i] ∈ ts)) := by
  have key : ∀ (l : List Nat) (us : List (List Nat)), l.map (fun g => vs[g]?) = us.map some →
      s.cellActive j i l = .ok (decide ([j, i] ∈ us)) := by
    intro l
    induction l with
    | nil => intro us e; cases us with
      | nil => rfl
      | cons => simp at e
    | cons g l ih =>
      intro us e
      cases us with
      | nil => simp at e
      | cons u us =>
        rw [List.map_cons, List.map_cons, List.cons.injEq] at e
        rw [MISet.cellActive, h.base.at_multis e.1, Res.bind_ok,
          atCell_ofVec (by rw [h.base.len u (List.mem_of_getElem? e.1), h2]), Res.bind_ok]
        by_cases hu : u = [j, i]
        · simp [hu]
        · have : ¬ [j, i] = u := fun hc => hu hc.symm
          simp [hu, this, ih us e.2]
  exact key _ _ h.terms

theorem Inv.cellStored {F : Prop} {s : MISet} {vs ts : List (List Nat)} {R : Nat → Nat → Prop} (h : Inv F s vs R ts)
    (h2 : s.length = 2) (j i : Nat) {r : Bool} (hr : s.isAdmissible (ofVec [j, i]) = .ok r) :
    s.cellStored j i s.allMultis = .ok (if [j, i] ∈ vs then (if r then "r  " else "m  ") else "") := by
  rw [h.base.multis]
  have key : ∀ us : List (List Nat), us.Nodup → (∀ u ∈ us, u.length = 2) →
      s.cellStored j i (us.map ofVec) = .ok (if [j, i] ∈ us then (if r then "r  " else "m  ") else "") := by
    intro us hn hl
    induction us with
    | nil => rfl
    | cons u us ih =>
      have ih := ih (List.nodup_cons.1 hn).2 fun x hx => hl x (by simp [hx])
      rw [List.map_cons, MISet.cellStored, atCell_ofVec (hl u (by simp)), Res.bind_ok, ih]
      by_cases hu : u = [j, i]
      · subst hu
        rw [hr, if_neg (List.nodup_cons.1 hn).1]
        simp
      · have : ¬ [j, i] = u := fun hc => hu hc.symm
        simp [hu, this]
  exact key vs h.base.nodup fun u hu => by rw [h.base.len u hu, h2]

theorem Inv.isAdmissible_ok {F : Prop} {s : MISet} {vs ts : List (List Nat)} {R : Nat → Nat → Prop} (h : Inv F s vs R ts)
    (v : List Nat) : ∃ r, s.isAdmissible (ofVec v) = .ok r ∧
      (r = true ↔ v ∈ vs ∧ Lim s v ∧ (v ∈ ts ∨ ∀ b, Fwd b v → b ∈ ts)) := by
  simp only [isAdmissible, h.base.find, Res.bind_ok]
  cases hf : findPos v vs with
  | some g =>
    obtain ⟨r, hr, e⟩ := h.isAdmissibleG (findPos_some hf)
    exact ⟨r, hr, e.trans ⟨fun x => ⟨List.mem_of_getElem? (findPos_some hf), x⟩, fun x => x.2⟩⟩
  | none => exact ⟨false, rfl, by simp [findPos_none.1 hf]⟩

/-- **C74.** The picture of a set of length two, for every history: the rows and columns reach one beyond the largest degrees; `a` marks
exactly the members, `r` the other admissible multi-indices, in particular the reduced margin, `m` the rest of the margin.  If the
limiter was never replaced, `m` is shown only for neighbours of members, and if the set is also downward closed only for the margin:
the picture then is the documented one. -/
theorem C74_picture_partial {b : Bool} {s : MISet} (h : Reach b s) {ts : List (List Nat)} (ht : Terms s ts) (h2 : s.length = 2) :
    ∃ (w h : Nat) (sym : Nat → Nat → String), s.maxOrders = [w, h] ∧ s.visualize = .ok (picture (w + 1) (h + 1) sym) ∧
      ∀ j i, (sym j i = "a  " ∨ sym j i = "r  " ∨ sym j i = "m  " ∨ sym j i = "   ") ∧
        (sym j i = "a  " ↔ [j, i] ∈ ts) ∧
        (sym j i = "r  " ↔ [j, i] ∉ ts ∧ s.isAdmissible (ofVec [j, i]) = .ok true) ∧
        (InReducedMargin s ts [j, i] → sym j i = "r  ") ∧
        (InMargin s ts [j, i] → ¬ InReducedMargin s ts [j, i] → sym j i = "m  ") ∧
        (b = true → ∀ c, sym j i = c → c = "r  " ∨ c = "m  " → Accepts s [j, i] ∧ ∃ t ∈ ts, Fwd t [j, i] ∨ Fwd [j, i] t) ∧
        (b = true → DownClosed ts → (sym j i = "r  " ↔ InReducedMargin s ts [j, i]) ∧
          (sym j i = "m  " ↔ InMargin s ts [j, i] ∧ ¬ InReducedMargin s ts [j, i])) := by
  obtain ⟨vs, R, hi, hne⟩ := h.inv ht
  have hmo := hi.mo_len
  rw [h2] at hmo
  obtain ⟨w, h', hm⟩ : ∃ w h', s.maxOrders = [w, h'] := by
    match e : s.maxOrders, hmo with
    | [x, y], _ => exact ⟨x, y, rfl⟩
  choose adm ha1 ha2 using fun j i => hi.isAdmissible_ok [j, i]
  let sym : Nat → Nat → String := fun j i =>
    if [j, i] ∈ ts then "a  " else if [j, i] ∈ vs then (if adm j i then "r  " else "m  ") else "   "
  have hcell : ∀ i j, s.cell i j = .ok (sym j i) := fun i j => by
    rw [cell, hi.cellActive h2, Res.bind_ok, hi.cellStored h2 j i (ha1 j i)]
    by_cases hm : [j, i] ∈ ts
    · simp [sym, hm]
    · by_cases hv : [j, i] ∈ vs
      · cases hadm : adm j i <;> simp [sym, hm, hv, hadm]
      · simp [sym, hm, hv]
  refine ⟨w, h', sym, hm, ?_, fun j i => ?_⟩
  · rw [visualize, hm, if_neg (by simp)]
    have e0 : Res.at' [w, h'] 0 = .ok w := rfl
    have e1 : Res.at' [w, h'] 1 = .ok h' := rfl
    simp only [e0, e1, Res.bind_ok]
    have er : ∀ k < h' + 1 + 1, s.visualizeRow (w + 1) (h' + 1) k =
        .ok ((if h' + 1 - k < 10 then " " else "") ++ toString (h' + 1 - k) ++ " | " ++ texts (w + 1 + 1) (fun j => sym j (h' + 1 - k)) ++ "\n") :=
      fun k _ => by rw [visualizeRow, printLoop_eq _ fun j _ => hcell (h' + 1 - k) j]; rfl
    rw [printLoop_eq _ er, printLoop_eq (g := fun _ => "---") _ (fun _ _ => rfl),
      printLoop_eq (g := axisLabel) _ (fun _ _ => rfl)]
    rfl
  have hin : [j, i] ∉ ts → sym j i = if [j, i] ∈ vs then (if adm j i then "r  " else "m  ") else "   " := fun hm => if_neg hm
  have hmem : [j, i] ∈ ts → [j, i] ∈ vs := fun hm => by
    obtain ⟨g, hg, _⟩ := hi.mem_vs hm
    exact List.mem_of_getElem? hg
  have hmar : InMargin s ts [j, i] → [j, i] ∈ vs := fun ⟨_, hl, t, htm, hf⟩ => by
    obtain ⟨g, hg, ha⟩ := hi.mem_vs htm
    exact hi.sem.closed g t _ ha (fun x => x) hg hf hl
  have hr : InReducedMargin s ts [j, i] → adm j i = true := fun hR => (ha2 j i).2 ⟨hmar hR.1, hR.1.2.1, Or.inr hR.2⟩
  have hr' : adm j i = true → InMargin s ts [j, i] → InReducedMargin s ts [j, i] := fun hc hM =>
    ⟨hM, ((ha2 j i).1 hc).2.2.resolve_left hM.1⟩
  have hsr : sym j i = "r  " ↔ [j, i] ∉ ts ∧ [j, i] ∈ vs ∧ adm j i = true := by
    by_cases h1 : [j, i] ∈ ts
    · simp [sym, h1]
    · by_cases h3 : [j, i] ∈ vs
      · cases h4 : adm j i <;> simp [sym, h1, h3, h4]
      · simp [sym, h1, h3]
  have hsm : sym j i = "m  " ↔ [j, i] ∉ ts ∧ [j, i] ∈ vs ∧ adm j i = false := by
    by_cases h1 : [j, i] ∈ ts
    · simp [sym, h1]
    · by_cases h3 : [j, i] ∈ vs
      · cases h4 : adm j i <;> simp [sym, h1, h3, h4]
      · simp [sym, h1, h3]
  have hnear : b = true → [j, i] ∉ ts → [j, i] ∈ vs → Accepts s [j, i] ∧ ∃ t ∈ ts, Fwd t [j, i] ∨ Fwd [j, i] t := fun hb hm hv => by
    obtain ⟨g, hg⟩ := List.getElem?_of_mem hv
    exact ⟨hi.sem.all_lim hb _ hv, hne hb g _ hg fun ha => hm ((hi.act_mem hg).1 ha)⟩
  refine ⟨?_, ?_, ?_, fun hR => ?_, fun hM hR => ?_, fun hb c hc hc' => ?_, fun hb hd => ?_⟩
  · by_cases h1 : [j, i] ∈ ts
    · simp [sym, h1]
    · by_cases h3 : [j, i] ∈ vs
      · cases h4 : adm j i <;> simp [sym, h1, h3, h4]
      · simp [sym, h1, h3]
  · by_cases h1 : [j, i] ∈ ts
    · simp [sym, h1]
    · by_cases h3 : [j, i] ∈ vs
      · cases h4 : adm j i <;> simp [sym, h1, h3, h4]
      · simp [sym, h1, h3]
  · rw [hsr, ha1, Res.ok.injEq]
    exact ⟨fun x => ⟨x.1, x.2.2⟩, fun x => ⟨x.1, ((ha2 j i).1 x.2).1, x.2⟩⟩
  · exact hsr.2 ⟨hR.1.1, hmar hR.1, hr hR⟩
  · refine hsm.2 ⟨hM.1, hmar hM, ?_⟩
    cases hc : adm j i
    · rfl
    · exact absurd (hr' hc hM) hR
  · subst hc
    rcases hc' with hc | hc
    · exact hnear hb (hsr.1 hc).1 (hsr.1 hc).2.1
    · exact hnear hb (hsm.1 hc).1 (hsm.1 hc).2.1
  · have hM : [j, i] ∉ ts → [j, i] ∈ vs → InMargin s ts [j, i] := fun hm hv => by
      obtain ⟨hl, t, htm, hf⟩ := hnear hb hm hv
      exact ⟨hm, hl, t, htm, hf.resolve_right fun hc => hm (hd _ _ hc htm)⟩
    constructor
    · rw [hsr]
      exact ⟨fun x => hr' x.2.2 (hM x.1 x.2.1), fun x => ⟨x.1.1, hmar x.1, hr x⟩⟩
    · rw [hsm]
      exact ⟨fun x => ⟨hM x.1 x.2.1, fun hR => by simp [hr hR] at x⟩, fun x => ⟨x.1.1, hmar x.1, by
        cases hc : adm j i
        · rfl
        · exact absurd (hr' hc x.1) x.2⟩⟩

/-- **C74.** The picture of a set of length one depends only on the largest degree `p`: `p` letters `a`, for `0` to `p-1`. -/
theorem C74_one {b : Bool} {s : MISet} (h : Reach b s) {ts : List (List Nat)} (ht : Terms s ts) (h1 : s.length = 1) :
    ∃ p, s.maxOrders = [p] ∧ s.visualize = .ok (" 0 | " ++ texts p (fun _ => "a  ") ++ "\n    -" ++ texts p (fun _ => "--") ++ "\n     " ++
      texts p (fun j => toString j ++ if j < 10 then "  " else " ") ++ "\n") := by
  obtain ⟨vs, R, hi, _⟩ := h.inv ht
  have hmo := hi.mo_len
  rw [h1] at hmo
  obtain ⟨p, hm⟩ : ∃ p, s.maxOrders = [p] := by
    match e : s.maxOrders, hmo with
    | [x], _ => exact ⟨x, rfl⟩
  refine ⟨p, hm, ?_⟩
  rw [visualize, hm, if_pos (by simp)]
  have e0 : Res.at' [p] 0 = .ok p := rfl
  rw [e0, Res.bind_ok, visualizeOne, printLoop_eq (g := fun _ => "a  ") _ (fun _ _ => rfl),
    printLoop_eq (g := fun _ => "--") _ (fun _ _ => rfl), printLoop_eq (g := axisLabel) _ (fun _ _ => rfl)]
  rfl

/-- **C74.** A set of length zero is not drawn: an exception. -/
theorem C74_zero (lim : MultiIndex → Bool) : (init 0 lim).visualize = .throw := rfl

/-- The picture of the second test of the library. -/
example : (do let s ← (init 2 fun _ => true).addActive (ofVec [1, 3]); let s ← s.1.addActive (ofVec [3, 3]); s.1.visualize) = .ok
    (" 4 |    m     m     \n" ++ " 3 | m  a  m  a  m  \n" ++ " 2 |    m     m     \n" ++ " 1 |                \n" ++
     " 0 |                \n" ++ "    ----------------\n" ++ "     0  1  2  3  4  \n") := by decide +kernel

/-- The picture of the third test of the library. -/
example : (do let s ← createTotalOrder 2 3 (fun m => match m.get 0, m.get 1 with
                | .ok x, .ok y => x == 0 || y == 0 || (x < 2 && y < 2)
                | _, _ => false)
              let s ← s.setLimiter fun _ => true
              s.1.visualize) = .ok
    (" 4 | r              \n" ++ " 3 | a  m           \n" ++ " 2 | a  r           \n" ++ " 1 | a  a  r  m     \n" ++
     " 0 | a  a  a  a  r  \n" ++ "    ----------------\n" ++ "     0  1  2  3  4  \n") := by decide +kernel

/-- `+=` for each vector in turn. -/
def plusAll (s : MISet) : List (List Nat) → Res MISet
  | [] => .ok s
  | v :: vs => do
    let (s', _) ← s.addActive (ofVec v)
    plusAll s' vs

theorem reach_plusAll (vs : List (List Nat)) : ∀ {s s' : MISet}, Reach true s → (∀ v ∈ vs, v.length = s.length ∧ Accepts s v) →
    plusAll s vs = .ok s' → Reach true s' := by
  induction vs with
  | nil => intro s s' h _ e; cases e; exact h
  | cons v vs ih =>
    intro s s' h hv e
    obtain ⟨ts, ht, _⟩ := C09_terms_exist h
    obtain ⟨ws, R, hi, _⟩ := h.inv ht
    obtain ⟨s1, ws', R', i, e1, _, x, _⟩ := hi.addActive (hv v (by simp)).1 (hv v (by simp)).2
    rw [plusAll, e1, Res.bind_ok] at e
    refine ih (.addActive h (hv v (by simp)).1 (hv v (by simp)).2 e1) (fun u hu => ?_) e
    have := hv u (by simp [hu])
    exact ⟨by rw [x.length]; exact this.1, by rw [Accepts, x.limiter]; exact this.2⟩

theorem terms_of_list {s : MISet} {ts : List (List Nat)} (h : (List.range s.size).map s.indexToMulti = ts.map fun t => .ok (ofVec t)) :
    Terms s ts := by
  have hl : s.size = ts.length := by simpa using congrArg List.length h
  refine ⟨hl, fun i t hi => ?_⟩
  have hlt : i < s.size := by rw [hl]; exact (List.getElem?_eq_some_iff.1 hi).1
  have := congrArg (·[i]?) h
  simpa [hlt, hi] using this

/-- **C74** fails for sets of length one: 2 is a term but not drawn, 1 is drawn as a term but is not one. -/
theorem C74_fails_one : ∃ s, Reach true s ∧ Terms s [[0], [2]] ∧ s.visualize = .ok " 0 | a  a  \n    -----\n     0  1  \n" := by
  have e : ∃ s, plusAll (init 1 fun _ => true) [[0], [2]] = .ok s ∧
      (List.range s.size).map s.indexToMulti = [[0], [2]].map (fun t => .ok (ofVec t)) ∧
      s.visualize = .ok " 0 | a  a  \n    -----\n     0  1  \n" := ⟨_, rfl, by decide +kernel⟩
  obtain ⟨s, e, h1, h2⟩ := e
  exact ⟨s, reach_plusAll _ (.init 1 fun _ => true) (by simp [Accepts, init]) e, terms_of_list h1, h2⟩

/-- **C74** fails for sets that are not downward closed: `m` also marks the stored backward neighbours, here (0,1), although it is not
in the margin. -/
theorem C74_fails_not_downclosed : ∃ s, Reach true s ∧ Terms s [[1, 1]] ∧ ¬ InMargin s [[1, 1]] [0, 1] ∧
    s.visualize = .ok (" 2 |    m     \n" ++ " 1 | m  a  m  \n" ++ " 0 |    m     \n" ++ "    ----------\n" ++ "     0  1  2  \n") := by
  have e : ∃ s, plusAll (init 2 fun _ => true) [[1, 1]] = .ok s ∧
      (List.range s.size).map s.indexToMulti = [[1, 1]].map (fun t => .ok (ofVec t)) ∧
      s.visualize = .ok (" 2 |    m     \n" ++ " 1 | m  a  m  \n" ++ " 0 |    m     \n" ++ "    ----------\n" ++ "     0  1  2  \n") :=
    ⟨_, rfl, by decide +kernel⟩
  obtain ⟨s, e, h1, h2⟩ := e
  refine ⟨s, reach_plusAll _ (.init 2 fun _ => true) (by simp [Accepts, init]) e, terms_of_list h1, ?_, h2⟩
  rintro ⟨_, _, t, htm, i, hi, he⟩
  rw [List.mem_singleton.1 htm] at he hi
  have h0 := congrArg (·.getD 0 0) he
  rw [getD_inc _ _ _ hi] at h0
  simp at h0
  omega

/-- **C74** fails after `SetLimiter`: `m` marks (1,0), which the limiter rejects. -/
theorem C74_fails_after_setLimiter : ∃ s, Reach false s ∧ Terms s [[0, 0]] ∧ ¬ Accepts s [1, 0] ∧
    s.visualize = .ok (" 1 | m     \n" ++ " 0 | a  m  \n" ++ "    -------\n" ++ "     0  1  \n") := by
  have e : ∃ s, plusAll (init 2 fun _ => true) [[0, 0]] = .ok s ∧ ∃ s', s.setLimiter (fun m => m.sum == 0) = .ok (s', false) ∧
      (List.range s'.size).map s'.indexToMulti = [[0, 0]].map (fun t => .ok (ofVec t)) ∧ s'.limiter (ofVec [1, 0]) = false ∧
      s'.visualize = .ok (" 1 | m     \n" ++ " 0 | a  m  \n" ++ "    -------\n" ++ "     0  1  \n") := ⟨_, rfl, _, rfl, by decide +kernel⟩
  obtain ⟨s, e, s', e', h1, h2, h3⟩ := e
  exact ⟨s', .setLimiter (reach_plusAll _ (.init 2 fun _ => true) (by simp [Accepts, init]) e) e', terms_of_list h1, by simp [Accepts, h2], h3⟩

/-- **C74** is for two variables only: with three, a cell can get two symbols, which shifts the rest of its row. -/
theorem C74_fails_three : ∃ s, Reach true s ∧ Terms s [[0, 0, 0], [0, 0, 1], [0, 1, 0]] ∧
    s.visualize = .ok (" 2 | r     \n" ++ " 1 | a  m  \n" ++ " 0 | a  r  m  \n" ++ "    -------\n" ++ "     0  1  \n") := by
  have e : ∃ s, plusAll (init 3 fun _ => true) [[0, 0, 0], [0, 0, 1], [0, 1, 0]] = .ok s ∧
      (List.range s.size).map s.indexToMulti = [[0, 0, 0], [0, 0, 1], [0, 1, 0]].map (fun t => .ok (ofVec t)) ∧
      s.visualize = .ok (" 2 | r     \n" ++ " 1 | a  m  \n" ++ " 0 | a  r  m  \n" ++ "    -------\n" ++ "     0  1  \n") :=
    ⟨_, rfl, by decide +kernel⟩
  obtain ⟨s, e, h1, h2⟩ := e
  exact ⟨s, reach_plusAll _ (.init 3 fun _ => true) (by simp [Accepts, init]) e, terms_of_list h1, h2⟩

end MISet
end MParT
