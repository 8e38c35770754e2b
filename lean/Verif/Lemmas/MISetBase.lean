import Verif.Lemmas.Neighborhood
import Verif.Model.MultiIndexSet
import Mathlib.Data.List.Basic
import Mathlib.Data.List.Nodup
/-!
Helper lemmas for `MultiIndexSet`, part 1: the sets, the map, and the structural invariant
(`Base`) with ghost data: the dense vectors `vs` of all stored nodes and the edge relation `R`.
-/
namespace MParT
namespace MISet
open MultiIndex Spec Neighborhood

/-! ### `std::set` -/

theorem mem_setInsert {x y : Nat} {l : List Nat} : y ∈ setInsert x l ↔ y = x ∨ y ∈ l := by
  induction l with
  | nil => simp [setInsert]
  | cons z zs ih =>
    simp only [setInsert]
    split
    · simp
    · split
      · rename_i h; subst h; simp
      · simp only [List.mem_cons, ih]; tauto

theorem setInsert_sorted {x : Nat} {l : List Nat} (h : l.Pairwise (· < ·)) :
    (setInsert x l).Pairwise (· < ·) := by
  induction l with
  | nil => simp [setInsert]
  | cons z zs ih =>
    obtain ⟨h1, h2⟩ := List.pairwise_cons.1 h
    simp only [setInsert]
    split
    · rename_i hx
      refine List.pairwise_cons.2 ⟨fun a ha => ?_, h⟩
      rcases List.mem_cons.1 ha with e | e
      · subst e; exact hx
      · have := h1 a e; omega
    · split
      · exact h
      · refine List.pairwise_cons.2 ⟨fun a ha => ?_, ih h2⟩
        rcases mem_setInsert.1 ha with e | e
        · subst e; omega
        · exact h1 a e

theorem mem_setErase {x y : Nat} {l : List Nat} : y ∈ setErase x l ↔ y ∈ l ∧ y ≠ x := by
  simp [setErase]

theorem setErase_sorted {x : Nat} {l : List Nat} (h : l.Pairwise (· < ·)) :
    (setErase x l).Pairwise (· < ·) := h.filter _

/-! ### `std::map` -/

/-- Position of `v` in `vs`. -/
def findPos (v : List Nat) : List (List Nat) → Option Nat
  | [] => none
  | w :: ws => if w = v then some 0 else (findPos v ws).map (· + 1)

theorem findPos_some {v : List Nat} {vs : List (List Nat)} {g : Nat} (h : findPos v vs = some g) :
    vs[g]? = some v := by
  induction vs generalizing g with
  | nil => simp [findPos] at h
  | cons w ws ih =>
    simp only [findPos] at h
    split at h
    · rename_i e; simp only [Option.some.injEq] at h; subst h; simp [e]
    · rw [Option.map_eq_some_iff] at h
      obtain ⟨g', h1, rfl⟩ := h
      simpa using ih h1

theorem findPos_none {v : List Nat} {vs : List (List Nat)} : findPos v vs = none ↔ v ∉ vs := by
  induction vs with
  | nil => simp [findPos]
  | cons w ws ih =>
    simp only [findPos]
    split
    · rename_i e; simp [e]
    · rename_i e
      simp [ih, Ne.symm e]

theorem findPos_of_nodup {v : List Nat} {vs : List (List Nat)} {g : Nat} (hn : vs.Nodup)
    (h : vs[g]? = some v) : findPos v vs = some g := by
  cases hf : findPos v vs with
  | none => exact absurd (List.mem_of_getElem? h) (findPos_none.1 hf)
  | some g' =>
    have h' := findPos_some hf
    obtain ⟨h1, e1⟩ := List.getElem?_eq_some_iff.1 h
    obtain ⟨h2, e2⟩ := List.getElem?_eq_some_iff.1 h'
    congr 1
    exact (List.Nodup.getElem_inj_iff hn).1 (e2.trans e1.symm)

theorem lt_equiv (u v : List Nat) :
    ∃ a b, MultiIndex.lt (ofVec u) (ofVec v) = .ok a ∧ MultiIndex.lt (ofVec v) (ofVec u) = .ok b ∧
      ((!a && !b) = true ↔ u = v) := by
  refine ⟨_, _, lt_ofVec u v, lt_ofVec v u, ?_⟩
  simp only [Bool.and_eq_true, Bool.not_eq_true', decide_eq_false_iff_not]
  constructor
  · rintro ⟨h1, h2⟩
    rcases VLt.total u v with h | h | h
    · exact absurd h h1
    · exact h
    · exact absurd h h2
  · rintro rfl; exact ⟨VLt.irrefl _, VLt.irrefl _⟩

theorem mapFind_eq (v : List Nat) (vs : List (List Nat)) (k : Nat) :
    mapFind (ofVec v) ((vs.map ofVec).zipIdx k) = .ok ((findPos v vs).map (· + k)) := by
  induction vs generalizing k with
  | nil => simp [mapFind, findPos]
  | cons w ws ih =>
    obtain ⟨a, b, h1, h2, h3⟩ := lt_equiv w v
    simp only [List.map_cons, List.zipIdx_cons, mapFind, h1, h2, Res.bind_ok, findPos]
    by_cases e : w = v
    · rw [if_pos (h3.2 e), if_pos e]; simp
    · rw [if_neg (fun hh => e (h3.1 hh)), if_neg e, ih]
      simp [Function.comp_def, Nat.add_assoc, Nat.add_comm 1 k]

theorem mapInsert_eq (v : List Nat) (vs : List (List Nat)) (k val : Nat) (h : v ∉ vs) :
    mapInsert (ofVec v) val ((vs.map ofVec).zipIdx k)
      = .ok ((vs.map ofVec).zipIdx k ++ [(ofVec v, val)]) := by
  induction vs generalizing k with
  | nil => simp [mapInsert]
  | cons w ws ih =>
    obtain ⟨a, b, h1, h2, h3⟩ := lt_equiv w v
    have e : w ≠ v := by rintro rfl; simp at h
    have hw : v ∉ ws := fun hh => h (List.mem_cons_of_mem _ hh)
    simp only [List.map_cons, List.zipIdx_cons, mapInsert, h1, h2, Res.bind_ok]
    rw [if_neg (fun hh => e (h3.1 hh)), ih _ hw]
    simp

/-! ### Edge storage -/

/-- The adjacency lists store exactly the relation `R`. -/
structure Edges (outE inE : List (List Nat)) (n : Nat) (R : Nat → Nat → Prop) : Prop where
  out_len : outE.length = n
  in_len : inE.length = n
  out_spec : ∀ a l, outE[a]? = some l → l.Pairwise (· < ·) ∧ ∀ b, b ∈ l ↔ R a b
  in_spec : ∀ b l, inE[b]? = some l → l.Pairwise (· < ·) ∧ ∀ a, a ∈ l ↔ R a b
  dom : ∀ a b, R a b → a < n ∧ b < n

theorem Edges.congr {outE inE : List (List Nat)} {n : Nat} {R R' : Nat → Nat → Prop}
    (h : Edges outE inE n R) (hR : ∀ a b, R' a b ↔ R a b) : Edges outE inE n R' := by
  have : R' = R := by funext a b; exact propext (hR a b)
  rw [this]; exact h

theorem insertEdge_lt {es : List (List Nat)} {i x : Nat} (h : i < es.length) :
    insertEdge es i x = .ok (es.set i (setInsert x es[i])) := by
  simp [insertEdge, Res.at'_lt h, Res.setAt_lt h]

theorem Edges.insert {outE inE : List (List Nat)} {n : Nat} {R : Nat → Nat → Prop}
    (h : Edges outE inE n R) {g k : Nat} (hg : g < n) (hk : k < n) :
    ∃ outE' inE', insertEdge outE g k = .ok outE' ∧ insertEdge inE k g = .ok inE' ∧
      Edges outE' inE' n (fun a b => R a b ∨ (a = g ∧ b = k)) := by
  have hg' : g < outE.length := by rw [h.out_len]; exact hg
  have hk' : k < inE.length := by rw [h.in_len]; exact hk
  refine ⟨_, _, insertEdge_lt hg', insertEdge_lt hk', by simpa using h.out_len,
    by simpa using h.in_len, ?_, ?_, ?_⟩
  · intro a l hl
    rw [List.getElem?_set] at hl
    split at hl
    · rename_i e
      subst e
      simp only [Option.some.injEq] at hl
      subst hl
      have hs := h.out_spec g outE[g] (by simp [hg'])
      refine ⟨setInsert_sorted hs.1, fun b => ?_⟩
      rw [mem_setInsert, hs.2]
      constructor
      · rintro (e | e)
        · exact Or.inr ⟨rfl, e⟩
        · exact Or.inl e
      · rintro (e | ⟨_, e⟩)
        · exact Or.inr e
        · exact Or.inl e
    · rename_i e
      have hs := h.out_spec a l hl
      refine ⟨hs.1, fun b => ?_⟩
      rw [hs.2]
      constructor
      · exact Or.inl
      · rintro (e' | ⟨e', _⟩)
        · exact e'
        · exact absurd e'.symm e
  · intro b l hl
    rw [List.getElem?_set] at hl
    split at hl
    · rename_i e
      subst e
      simp only [Option.some.injEq] at hl
      subst hl
      have hs := h.in_spec k inE[k] (by simp [hk'])
      refine ⟨setInsert_sorted hs.1, fun a => ?_⟩
      rw [mem_setInsert, hs.2]
      constructor
      · rintro (e | e)
        · exact Or.inr ⟨e, rfl⟩
        · exact Or.inl e
      · rintro (e | ⟨e, _⟩)
        · exact Or.inr e
        · exact Or.inl e
    · rename_i e
      have hs := h.in_spec b l hl
      refine ⟨hs.1, fun a => ?_⟩
      rw [hs.2]
      constructor
      · exact Or.inl
      · rintro (e' | ⟨_, e'⟩)
        · exact e'
        · exact absurd e'.symm e
  · rintro a b (e | ⟨rfl, rfl⟩)
    · exact h.dom a b e
    · exact ⟨hg, hk⟩

theorem Edges.append {outE inE : List (List Nat)} {n : Nat} {R : Nat → Nat → Prop}
    (h : Edges outE inE n R) : Edges (outE ++ [[]]) (inE ++ [[]]) (n + 1) R := by
  refine ⟨by simp [h.out_len], by simp [h.in_len], ?_, ?_, ?_⟩
  · intro a l hl
    rw [List.getElem?_append] at hl
    split at hl
    · exact h.out_spec a l hl
    · rename_i hge
      have ha : ¬ a < n := by rw [← h.out_len]; exact hge
      rcases Nat.eq_zero_or_pos (a - outE.length) with e | e
      · rw [e] at hl
        simp only [List.getElem?_cons_zero, Option.some.injEq] at hl
        subst hl
        refine ⟨List.Pairwise.nil, fun b => ?_⟩
        simp only [List.not_mem_nil, false_iff]
        exact fun hr => ha (h.dom a b hr).1
      · rw [List.getElem?_eq_none (by simp only [List.length_singleton]; omega)] at hl; simp at hl
  · intro b l hl
    rw [List.getElem?_append] at hl
    split at hl
    · exact h.in_spec b l hl
    · rename_i hge
      have hb : ¬ b < n := by rw [← h.in_len]; exact hge
      rcases Nat.eq_zero_or_pos (b - inE.length) with e | e
      · rw [e] at hl
        simp only [List.getElem?_cons_zero, Option.some.injEq] at hl
        subst hl
        refine ⟨List.Pairwise.nil, fun a => ?_⟩
        simp only [List.not_mem_nil, false_iff]
        exact fun hr => hb (h.dom a b hr).2
      · rw [List.getElem?_eq_none (by simp only [List.length_singleton]; omega)] at hl; simp at hl
  · intro a b hr
    have := h.dom a b hr
    omega

/-! ### Structural invariant -/

/-- Node `g` is active. -/
def Act (s : MISet) (g : Nat) : Prop := ∃ i, s.global2active[g]? = some (some i)

/-- The limiter on dense vectors. -/
def Lim (s : MISet) (v : List Nat) : Prop := s.limiter (ofVec v) = true

/-- Structural invariant with ghost data `vs` (all stored nodes) and `R` (edges). -/
structure Base (s : MISet) (vs : List (List Nat)) (R : Nat → Nat → Prop) : Prop where
  multis : s.allMultis = vs.map ofVec
  nodup : vs.Nodup
  len : ∀ v ∈ vs, v.length = s.length
  map : s.multi2global = (vs.map ofVec).zipIdx
  edges : Edges s.outEdges s.inEdges vs.length R
  g2a_len : s.global2active.length = vs.length
  a2g : ∀ i g : Nat, s.active2global[i]? = some g ↔ s.global2active[g]? = some (some i)

theorem Base.find {s : MISet} {vs : List (List Nat)} {R : Nat → Nat → Prop} (h : Base s vs R)
    (v : List Nat) : mapFind (ofVec v) s.multi2global = .ok (findPos v vs) := by
  rw [h.map, mapFind_eq]; simp

theorem Base.at_multis {s : MISet} {vs : List (List Nat)} {R : Nat → Nat → Prop} (h : Base s vs R)
    {g : Nat} {v : List Nat} (hv : vs[g]? = some v) : Res.at' s.allMultis g = .ok (ofVec v) := by
  apply Res.at'_some; rw [h.multis]; simp [hv]

theorem Base.act_lt {s : MISet} {vs : List (List Nat)} {R : Nat → Nat → Prop} (h : Base s vs R)
    {g : Nat} (hg : Act s g) : g < vs.length := by
  obtain ⟨i, hi⟩ := hg
  obtain ⟨hlt, _⟩ := List.getElem?_eq_some_iff.1 hi
  rw [← h.g2a_len]; exact hlt

theorem Base.edges_update {s : MISet} {vs : List (List Nat)} {R R' : Nat → Nat → Prop}
    (h : Base s vs R) {outE inE : List (List Nat)} (he : Edges outE inE vs.length R') :
    Base { s with inEdges := inE, outEdges := outE } vs R' :=
  ⟨h.multis, h.nodup, h.len, h.map, he, h.g2a_len, h.a2g⟩

theorem Base.congr {s : MISet} {vs : List (List Nat)} {R R' : Nat → Nat → Prop} (h : Base s vs R)
    (hR : ∀ a b, R' a b ↔ R a b) : Base s vs R' :=
  ⟨h.multis, h.nodup, h.len, h.map, h.edges.congr hR, h.g2a_len, h.a2g⟩

/-- One linking step towards a stored forward neighbour. -/
theorem forwardStep_found {s : MISet} {vs : List (List Nat)} {R : Nat → Nat → Prop}
    (h : Base s vs R) (om : MISet → MultiIndex → Res MISet) {g k : Nat} {w : List Nat}
    (hg : g < vs.length) (hw : vs[k]? = some w) (hl : Lim s w) :
    ∃ outE inE, forwardStep om g (ofVec w) s = .ok { s with inEdges := inE, outEdges := outE } ∧
      Edges outE inE vs.length (fun a b => R a b ∨ (a = g ∧ b = k)) := by
  have hk : k < vs.length := (List.getElem?_eq_some_iff.1 hw).1
  obtain ⟨o, i, h1, h2, h3⟩ := h.edges.insert hg hk
  refine ⟨o, i, ?_, h3⟩
  have hl' : s.limiter (ofVec w) = true := hl
  simp [forwardStep, hl', h.find, findPos_of_nodup h.nodup hw, h1, h2]

theorem backwardStep_found {s : MISet} {vs : List (List Nat)} {R : Nat → Nat → Prop}
    (h : Base s vs R) (om : MISet → MultiIndex → Res MISet) {g k : Nat} {w : List Nat}
    (hg : g < vs.length) (hw : vs[k]? = some w) (hl : Lim s w) :
    ∃ outE inE, backwardStep om g (ofVec w) s = .ok { s with inEdges := inE, outEdges := outE } ∧
      Edges outE inE vs.length (fun a b => R a b ∨ (a = k ∧ b = g)) := by
  have hk : k < vs.length := (List.getElem?_eq_some_iff.1 hw).1
  obtain ⟨o, i, h1, h2, h3⟩ := h.edges.insert hk hg
  refine ⟨o, i, ?_, h3⟩
  have hl' : s.limiter (ofVec w) = true := hl
  simp [backwardStep, hl', h.find, findPos_of_nodup h.nodup hw, h1, h2]

theorem forwardStep_missing {s : MISet} {vs : List (List Nat)} {R : Nat → Nat → Prop}
    (h : Base s vs R) (om : MISet → MultiIndex → Res MISet) (g : Nat) {w : List Nat}
    (hw : w ∉ vs) (hl : Lim s w) : forwardStep om g (ofVec w) s = om s (ofVec w) := by
  have hl' : s.limiter (ofVec w) = true := hl
  simp [forwardStep, hl', h.find, findPos_none.2 hw]

theorem backwardStep_missing {s : MISet} {vs : List (List Nat)} {R : Nat → Nat → Prop}
    (h : Base s vs R) (om : MISet → MultiIndex → Res MISet) (g : Nat) {w : List Nat}
    (hw : w ∉ vs) (hl : Lim s w) : backwardStep om g (ofVec w) s = om s (ofVec w) := by
  have hl' : s.limiter (ofVec w) = true := hl
  simp [backwardStep, hl', h.find, findPos_none.2 hw]

theorem forwardStep_rejected {s : MISet} (om : MISet → MultiIndex → Res MISet) (g : Nat)
    {w : List Nat} (hl : ¬ Lim s w) : forwardStep om g (ofVec w) s = .ok s := by
  have hl' : ¬ s.limiter (ofVec w) = true := hl
  simp [forwardStep, hl']

theorem backwardStep_rejected {s : MISet} (om : MISet → MultiIndex → Res MISet) (g : Nat)
    {w : List Nat} (hl : ¬ Lim s w) : backwardStep om g (ofVec w) s = .ok s := by
  have hl' : ¬ s.limiter (ofVec w) = true := hl
  simp [backwardStep, hl']

/-- Linking to the stored forward neighbours (`addInactive == false`). -/
theorem forwardFold_skip {vs : List (List Nat)} {g : Nat} (hg : g < vs.length)
    (ws : List (List Nat)) : ∀ (s : MISet) (R : Nat → Nat → Prop), Base s vs R →
    ∃ outE inE, forwardFold skipMissing g (ws.map ofVec) s
        = .ok { s with inEdges := inE, outEdges := outE } ∧
      Edges outE inE vs.length
        (fun a b => R a b ∨ (a = g ∧ ∃ w ∈ ws, vs[b]? = some w ∧ Lim s w)) := by
  induction ws with
  | nil =>
    intro s R h
    exact ⟨s.outEdges, s.inEdges, rfl, h.edges.congr (by simp)⟩
  | cons w ws ih =>
    intro s R h
    simp only [List.map_cons, forwardFold]
    by_cases hl : Lim s w
    · by_cases hw : w ∈ vs
      · obtain ⟨k, hk⟩ := List.getElem?_of_mem hw
        obtain ⟨o, i, e1, e2⟩ := forwardStep_found h skipMissing hg hk hl
        rw [e1, Res.bind_ok]
        obtain ⟨o', i', e3, e4⟩ := ih _ _ (h.edges_update e2)
        refine ⟨o', i', e3, e4.congr ?_⟩
        intro a b
        constructor
        · rintro (hr | ⟨rfl, w', hw', hb, hl'⟩)
          · exact Or.inl (Or.inl hr)
          · rcases List.mem_cons.1 hw' with e | e
            · subst e
              left; right
              refine ⟨rfl, ?_⟩
              have := findPos_of_nodup h.nodup hb
              rw [findPos_of_nodup h.nodup hk] at this
              simpa using this.symm
            · exact Or.inr ⟨rfl, w', e, hb, hl'⟩
        · rintro ((hr | ⟨rfl, rfl⟩) | ⟨rfl, w', hw', hb, hl'⟩)
          · exact Or.inl hr
          · exact Or.inr ⟨rfl, w, by simp, hk, hl⟩
          · exact Or.inr ⟨rfl, w', by simp [hw'], hb, hl'⟩
      · rw [forwardStep_missing h _ _ hw hl, skipMissing, Res.bind_ok]
        obtain ⟨o', i', e3, e4⟩ := ih _ _ h
        refine ⟨o', i', e3, e4.congr ?_⟩
        intro a b
        constructor
        · rintro (hr | ⟨rfl, w', hw', hb, hl'⟩)
          · exact Or.inl hr
          · rcases List.mem_cons.1 hw' with e | e
            · subst e; exact absurd (List.mem_of_getElem? hb) hw
            · exact Or.inr ⟨rfl, w', e, hb, hl'⟩
        · rintro (hr | ⟨rfl, w', hw', hb, hl'⟩)
          · exact Or.inl hr
          · exact Or.inr ⟨rfl, w', by simp [hw'], hb, hl'⟩
    · rw [forwardStep_rejected _ _ hl, Res.bind_ok]
      obtain ⟨o', i', e3, e4⟩ := ih _ _ h
      refine ⟨o', i', e3, e4.congr ?_⟩
      intro a b
      constructor
      · rintro (hr | ⟨rfl, w', hw', hb, hl'⟩)
        · exact Or.inl hr
        · rcases List.mem_cons.1 hw' with e | e
          · subst e; exact absurd hl' hl
          · exact Or.inr ⟨rfl, w', e, hb, hl'⟩
      · rintro (hr | ⟨rfl, w', hw', hb, hl'⟩)
        · exact Or.inl hr
        · exact Or.inr ⟨rfl, w', by simp [hw'], hb, hl'⟩

/-- Linking to the stored backward neighbours (`addInactive == false`). -/
theorem backwardFold_skip {vs : List (List Nat)} {g : Nat} (hg : g < vs.length)
    (ws : List (List Nat)) : ∀ (s : MISet) (R : Nat → Nat → Prop), Base s vs R →
    ∃ outE inE, backwardFold skipMissing g (ws.map ofVec) s
        = .ok { s with inEdges := inE, outEdges := outE } ∧
      Edges outE inE vs.length
        (fun a b => R a b ∨ (b = g ∧ ∃ w ∈ ws, vs[a]? = some w ∧ Lim s w)) := by
  induction ws with
  | nil =>
    intro s R h
    exact ⟨s.outEdges, s.inEdges, rfl, h.edges.congr (by simp)⟩
  | cons w ws ih =>
    intro s R h
    simp only [List.map_cons, backwardFold]
    by_cases hl : Lim s w
    · by_cases hw : w ∈ vs
      · obtain ⟨k, hk⟩ := List.getElem?_of_mem hw
        obtain ⟨o, i, e1, e2⟩ := backwardStep_found h skipMissing hg hk hl
        rw [e1, Res.bind_ok]
        obtain ⟨o', i', e3, e4⟩ := ih _ _ (h.edges_update e2)
        refine ⟨o', i', e3, e4.congr ?_⟩
        intro a b
        constructor
        · rintro (hr | ⟨rfl, w', hw', hb, hl'⟩)
          · exact Or.inl (Or.inl hr)
          · rcases List.mem_cons.1 hw' with e | e
            · subst e
              left; right
              refine ⟨?_, rfl⟩
              have := findPos_of_nodup h.nodup hb
              rw [findPos_of_nodup h.nodup hk] at this
              simpa using this.symm
            · exact Or.inr ⟨rfl, w', e, hb, hl'⟩
        · rintro ((hr | ⟨rfl, rfl⟩) | ⟨rfl, w', hw', hb, hl'⟩)
          · exact Or.inl hr
          · exact Or.inr ⟨rfl, w, by simp, hk, hl⟩
          · exact Or.inr ⟨rfl, w', by simp [hw'], hb, hl'⟩
      · rw [backwardStep_missing h _ _ hw hl, skipMissing, Res.bind_ok]
        obtain ⟨o', i', e3, e4⟩ := ih _ _ h
        refine ⟨o', i', e3, e4.congr ?_⟩
        intro a b
        constructor
        · rintro (hr | ⟨rfl, w', hw', hb, hl'⟩)
          · exact Or.inl hr
          · rcases List.mem_cons.1 hw' with e | e
            · subst e; exact absurd (List.mem_of_getElem? hb) hw
            · exact Or.inr ⟨rfl, w', e, hb, hl'⟩
        · rintro (hr | ⟨rfl, w', hw', hb, hl'⟩)
          · exact Or.inl hr
          · exact Or.inr ⟨rfl, w', by simp [hw'], hb, hl'⟩
    · rw [backwardStep_rejected _ _ hl, Res.bind_ok]
      obtain ⟨o', i', e3, e4⟩ := ih _ _ h
      refine ⟨o', i', e3, e4.congr ?_⟩
      intro a b
      constructor
      · rintro (hr | ⟨rfl, w', hw', hb, hl'⟩)
        · exact Or.inl hr
        · rcases List.mem_cons.1 hw' with e | e
          · subst e; exact absurd hl' hl
          · exact Or.inr ⟨rfl, w', e, hb, hl'⟩
      · rintro (hr | ⟨rfl, w', hw', hb, hl'⟩)
        · exact Or.inl hr
        · exact Or.inr ⟨rfl, w', by simp [hw'], hb, hl'⟩

/-- The edges added when node `v` is appended to the stored nodes `vs`. -/
def addR (R : Nat → Nat → Prop) (vs : List (List Nat)) (lim : List Nat → Prop) (v : List Nat) :
    Nat → Nat → Prop := fun a b =>
  R a b ∨ (a = vs.length ∧ ∃ w, vs[b]? = some w ∧ Fwd v w ∧ lim w) ∨
    (b = vs.length ∧ ∃ u, vs[a]? = some u ∧ Fwd u v ∧ lim u)

/-- Everything but the stored inactive nodes and the edges is unchanged. -/
structure SameCore (s s' : MISet) : Prop where
  length : s'.length = s.length
  limiter : s'.limiter = s.limiter
  a2g : s'.active2global = s.active2global
  maxOrders : s'.maxOrders = s.maxOrders

theorem addMulti_spec {s : MISet} {vs : List (List Nat)} {R : Nat → Nat → Prop} (h : Base s vs R)
    {v : List Nat} (hv : v ∉ vs) (hlen : v.length = s.length) :
    ∃ s', addMulti s (ofVec v) = .ok (s', vs.length) ∧ Base s' (vs ++ [v]) (addR R vs (Lim s) v) ∧
      SameCore s s' ∧ s'.global2active = s.global2active ++ [none] := by
  have hn : s.allMultis.length = vs.length := by rw [h.multis]; simp
  let s1 : MISet := { s with
    allMultis := s.allMultis ++ [ofVec v]
    multi2global := s.multi2global ++ [(ofVec v, vs.length)]
    global2active := s.global2active ++ [none]
    inEdges := s.inEdges ++ [[]]
    outEdges := s.outEdges ++ [[]] }
  have hb1 : Base s1 (vs ++ [v]) R := by
    refine ⟨by simp [s1, h.multis], ?_, ?_, ?_, ?_, by simp [s1, h.g2a_len], ?_⟩
    · exact List.nodup_append.2 ⟨h.nodup, by simp, by
        intro a ha b hb
        simp only [List.mem_singleton] at hb
        subst hb
        rintro rfl; exact hv ha⟩
    · intro u hu
      rcases List.mem_append.1 hu with e | e
      · exact h.len u e
      · simp only [List.mem_singleton] at e; subst e; exact hlen
    · simp [s1, h.map, List.zipIdx_append]
    · have := h.edges.append
      simpa [s1] using this
    · intro i g
      simp only [s1]
      rw [h.a2g]
      constructor
      · intro hh
        have : g < s.global2active.length := (List.getElem?_eq_some_iff.1 hh).1
        rw [List.getElem?_append_left this]; exact hh
      · intro hh
        rw [List.getElem?_append] at hh
        split at hh
        · exact hh
        · rename_i hge
          rcases Nat.eq_zero_or_pos (g - s.global2active.length) with e | e
          · rw [e] at hh; simp at hh
          · rw [List.getElem?_eq_none (by simp only [List.length_singleton]; omega)] at hh; simp at hh
  have hlt : vs.length < (vs ++ [v]).length := by simp
  have hself : (vs ++ [v])[vs.length]? = some v := by simp
  have hm1 := hb1.at_multis hself
  obtain ⟨o, i, e1, e2⟩ := forwardFold_skip hlt (fwdList v) s1 R hb1
  have hb2 := hb1.edges_update e2
  obtain ⟨o', i', e3, e4⟩ := backwardFold_skip hlt (bwdList v) _ _ hb2
  have hb3 := hb2.edges_update e4
  refine ⟨{ s1 with inEdges := i', outEdges := o' }, ?_, hb3.congr ?_, ⟨rfl, rfl, rfl, rfl⟩, rfl⟩
  · have hi : mapInsert (ofVec v) vs.length s.multi2global
        = .ok (s.multi2global ++ [(ofVec v, vs.length)]) := by
      rw [h.map]; exact mapInsert_eq v vs 0 _ hv
    simp only [addMulti, hn, hi, Res.bind_ok]
    change ((addForwardNeighbors skipMissing s1 vs.length) >>= _) = _
    simp only [addForwardNeighbors, hm1, Res.bind_ok, forwardNeighbors_ofVec, e1,
      addBackwardNeighbors]
    have hm2 := hb2.at_multis hself
    simp only [hm2, Res.bind_ok, backwardNeighbors_ofVec, e3, Res.pure_eq]
  · intro a b
    have key : ∀ (x : Nat) (w : List Nat), (vs ++ [v])[x]? = some w → w ≠ v → vs[x]? = some w := by
      intro x w hx hne
      rw [List.getElem?_append] at hx
      split at hx
      · exact hx
      · rcases Nat.eq_zero_or_pos (x - vs.length) with e | e
        · rw [e] at hx; simp at hx; exact absurd hx.symm hne
        · rw [List.getElem?_eq_none (by simp only [List.length_singleton]; omega)] at hx; simp at hx
    have key' : ∀ (x : Nat) (w : List Nat), vs[x]? = some w → (vs ++ [v])[x]? = some w := by
      intro x w hx
      rw [List.getElem?_append_left (List.getElem?_eq_some_iff.1 hx).1]; exact hx
    simp only [addR]
    constructor
    · rintro (hr | ⟨rfl, w, hw, hf, hl⟩ | ⟨rfl, u, hu, hf, hl⟩)
      · exact Or.inl (Or.inl hr)
      · exact Or.inl (Or.inr ⟨rfl, w, mem_fwdList.2 hf, key' _ _ hw, hl⟩)
      · exact Or.inr ⟨rfl, u, mem_bwdList.2 hf, key' _ _ hu, hl⟩
    · rintro ((hr | ⟨rfl, w, hw, hb, hl⟩) | ⟨rfl, u, hu, ha, hl⟩)
      · exact Or.inl hr
      · right; left
        have hf := mem_fwdList.1 hw
        exact ⟨rfl, w, key _ _ hb (fun e => by subst e; exact hf.irrefl _), hf, hl⟩
      · right; right
        have hf := mem_bwdList.1 hu
        exact ⟨rfl, u, key _ _ ha (fun e => by subst e; exact hf.irrefl _), hf, hl⟩

end MISet
end MParT
