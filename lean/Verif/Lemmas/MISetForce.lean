import Verif.Lemmas.MISetOps
/-!
Helper lemmas for `MultiIndexSet`, part 6: `ForciblyActivate` and `ForciblyExpand`.
-/
namespace MParT
namespace MISet
open MultiIndex Spec Neighborhood

theorem sorted_ext {a b : List Nat} (ha : a.Pairwise (· < ·)) (hb : b.Pairwise (· < ·))
    (h : ∀ x, x ∈ a ↔ x ∈ b) : a = b := by
  have hp : a.Perm b := by
    rw [List.perm_ext_iff_of_nodup]
    · exact h
    · exact ha.imp (fun {a b} hab => Nat.ne_of_lt hab)
    · exact hb.imp (fun {a b} hab => Nat.ne_of_lt hab)
  exact hp.eq_of_pairwise (fun x y _ _ h1 h2 => absurd h1 (Nat.lt_asymm h2)) ha hb

/-- In-edges of an active node do not change any more. -/
theorem Inv.ins_stable {F : Prop} (hF : F) {s s' : MISet} {vs vs' : List (List Nat)}
    {R R' : Nat → Nat → Prop} {ts ts' : List (List Nat)} (h : Inv F s vs R ts)
    (h' : Inv F s' vs' R' ts') (x : Ext s vs s' vs') {g : Nat} {w : List Nat}
    (hw : vs[g]? = some w) (ha : w ∈ ts) : s'.inEdges[g]? = s.inEdges[g]? := by
  have hg : g < vs.length := (List.getElem?_eq_some_iff.1 hw).1
  have hw' := x.get hw
  have hg' : g < vs'.length := (List.getElem?_eq_some_iff.1 hw').1
  obtain ⟨l, h1, h2, h3⟩ := h.base.in_at hg
  obtain ⟨l', h1', h2', h3'⟩ := h'.base.in_at hg'
  rw [h1, h1']
  congr 1
  apply sorted_ext h2' h2
  intro k
  rw [h3, h3']
  constructor
  · intro hr
    obtain ⟨u, w', q1, q2, q3⟩ := h'.sem.sound k g hr
    rw [hw'] at q2; cases q2
    have hlu := h'.sem.all_lim hF u (List.mem_of_getElem? q1)
    rw [x.lim] at hlu
    have hu := h.sem.bclosed hF g w u ((h.act_mem hw).2 ha) (fun x => x) hw q3 hlu
    obtain ⟨j, hj⟩ := List.getElem?_of_mem hu
    have := pos_inj h'.base.nodup (x.get hj) q1
    subst this
    exact h.sem.full hF j g u w hj hw q3
  · intro hr
    obtain ⟨u, w', q1, q2, q3⟩ := h.sem.sound k g hr
    rw [hw] at q2; cases q2
    exact h'.sem.full hF k g u w (x.get q1) hw' q3

/-- Out-edges of an active node do not change any more. -/
theorem Inv.outs_stable {F : Prop} {s s' : MISet} {vs vs' : List (List Nat)}
    {R R' : Nat → Nat → Prop} {ts ts' : List (List Nat)} (h : Inv F s vs R ts)
    (h' : Inv F s' vs' R' ts') (x : Ext s vs s' vs') {g : Nat} {w : List Nat}
    (hw : vs[g]? = some w) (ha : w ∈ ts) (ha' : w ∈ ts') : s'.outEdges[g]? = s.outEdges[g]? := by
  have hg : g < vs.length := (List.getElem?_eq_some_iff.1 hw).1
  have hw' := x.get hw
  have hg' : g < vs'.length := (List.getElem?_eq_some_iff.1 hw').1
  obtain ⟨l, h1, h2, h3⟩ := h.base.out_at hg
  obtain ⟨l', h1', h2', h3'⟩ := h'.base.out_at hg'
  rw [h1, h1']
  congr 1
  apply sorted_ext h2' h2
  intro k
  rw [h3, h3', h.out_active hw ha, h'.out_active hw' ha', x.lim]
  constructor
  · rintro ⟨u, q1, q2, q3⟩
    have hu := h.sem.closed g w u ((h.act_mem hw).2 ha) (fun x => x) hw q2 q3
    obtain ⟨j, hj⟩ := List.getElem?_of_mem hu
    have := pos_inj h'.base.nodup (x.get hj) q1
    subst this
    exact ⟨u, hj, q2, q3⟩
  · rintro ⟨u, q1, q2, q3⟩
    exact ⟨u, x.get q1, q2, q3⟩

/-- What a forcible activation of nodes below `top` does: the new terms lie below `top` and have
all their accepted backward neighbours in the final set. -/
structure Forced (F : Prop) (top : List Nat → Prop) (s : MISet) (vs ts : List (List Nat))
    (s' : MISet) (vs' : List (List Nat)) (R' : Nat → Nat → Prop) (added : List (List Nat)) : Prop where
  inv : Inv F s' vs' R' (ts ++ added)
  ext : Ext s vs s' vs'
  below : ∀ x ∈ added, (∃ w, top w ∧ Le x w) ∧ Lim s x
  closed : ∀ x ∈ added, ∀ b, Fwd b x → Lim s b → b ∈ ts ++ added
  near : ∀ T : List Nat → Prop, (∀ x ∈ ts ++ added, T x) → NearTo T s vs → NearTo T s' vs'

theorem Le.refl' (v : List Nat) : Le v v := ⟨rfl, fun _ => Nat.le_refl _⟩

theorem Le.trans' {u v w : List Nat} (h : Le u v) (h' : Le v w) : Le u w :=
  ⟨h.1.trans h'.1, fun i => (h.2 i).trans (h'.2 i)⟩

/-- Loop over a stored set of edges. -/
theorem refLoop_spec {F : Prop} (edges : MISet → List (List Nat))
    (body : Nat → MISet → List Nat → Nat → Res (MISet × List Nat)) (g : Nat)
    (snap : List Nat) (top : List Nat → Prop)
    (hbody : ∀ k s vs R ts new w, Inv F s vs R ts → vs[k]? = some w → top w → Lim s w →
      ∃ s' vs' R' added, (∀ cap, vs'.length ≤ cap →
          body cap s new k = .ok (s', new ++ List.range' ts.length added.length)) ∧
        Forced F (· = w) s vs ts s' vs' R' added ∧ w ∈ ts ++ added) (ks : List Nat) :
    ∀ s vs R ts new, Inv F s vs R ts →
      (∀ s' vs' R' added, Inv F s' vs' R' (ts ++ added) → Ext s vs s' vs' →
        (edges s')[g]? = some snap) →
      (∀ k ∈ ks, ∃ w, vs[k]? = some w ∧ top w ∧ Lim s w) →
      ∃ s' vs' R' added, (∀ cap, vs'.length ≤ cap →
          refLoop edges (body cap) g snap ks s new
            = .ok (s', new ++ List.range' ts.length added.length)) ∧
        Forced F top s vs ts s' vs' R' added ∧
        ∀ k ∈ ks, ∀ w, vs[k]? = some w → w ∈ ts ++ added := by
  induction ks with
  | nil =>
    intro s vs R ts new h _ _
    exact ⟨s, vs, R, [], fun _ _ => by simp [refLoop],
      ⟨by simpa using h, Ext.refl, by simp, by simp, fun T _ hn => hn⟩, by simp⟩
  | cons k ks ih =>
    intro s vs R ts new h hst hks
    obtain ⟨w, hw, ht, hl⟩ := hks k (by simp)
    obtain ⟨s1, vs1, R1, add1, e1, f1, m1⟩ := hbody k s vs R ts new w h hw ht hl
    obtain ⟨s2, vs2, R2, add2, e2, f2, m2⟩ := ih s1 vs1 R1 (ts ++ add1)
      (new ++ List.range' ts.length add1.length) f1.inv
      (fun s' vs' R' added hi hx => hst s' vs' R' (add1 ++ added) (by simpa using hi) (f1.ext.trans hx))
      (fun j hj => by
        obtain ⟨w', a, b, c⟩ := hks j (by simp [hj])
        exact ⟨w', f1.ext.get a, b, by rw [f1.ext.lim]; exact c⟩)
    have hcur : (edges s)[g]? = some snap := hst s vs R [] (by simpa using h) Ext.refl
    have hLim : Lim s1 = Lim s := f1.ext.lim
    refine ⟨s2, vs2, R2, add1 ++ add2, ?_, ⟨by simpa using f2.inv, f1.ext.trans f2.ext, ?_, ?_, ?_⟩, ?_⟩
    · intro cap hcap
      have q1 := e1 cap (le_trans f2.ext.nodes.length_le hcap)
      have q2 := e2 cap hcap
      simp only [refLoop, Res.idx_some hcur, Res.bind_ok, if_true, q1, q2]
      congr 2
      rw [List.append_assoc, List.length_append, List.length_append]
      congr 1
      rw [List.range'_append_1]
    · intro x hx
      rcases List.mem_append.1 hx with e | e
      · obtain ⟨⟨y, rfl, hy⟩, hlx⟩ := f1.below x e
        exact ⟨⟨y, ht, hy⟩, hlx⟩
      · have := f2.below x e
        rw [hLim] at this; exact this
    · intro x hx b hb hlb
      rcases List.mem_append.1 hx with e | e
      · have := f1.closed x e b hb hlb
        rcases List.mem_append.1 this with q | q <;> simp [q]
      · have := f2.closed x e b hb (by rw [hLim]; exact hlb)
        simpa using this
    · intro T hT hn
      apply f2.near T (by intro x hx; exact hT x (by simpa using hx))
      apply f1.near T _ hn
      intro x hx
      apply hT x
      rcases List.mem_append.1 hx with q | q <;> simp [q]
    · intro j hj w' hw'
      rcases List.mem_cons.1 hj with e | e
      · subst e; rw [hw] at hw'; cases hw'
        rcases List.mem_append.1 m1 with q | q <;> simp [q]
      · have := m2 j e w' (f1.ext.get hw')
        simpa using this

/-- In-edges of an active node lead exactly to its accepted backward neighbours. -/
theorem Inv.ins {F : Prop} (hF : F) {s : MISet} {vs : List (List Nat)}
    {R : Nat → Nat → Prop} {ts : List (List Nat)} (h : Inv F s vs R ts) {g : Nat} {w : List Nat}
    (hw : vs[g]? = some w) (ha : w ∈ ts) :
    ∃ l, s.inEdges[g]? = some l ∧ (∀ k ∈ l, ∃ b, vs[k]? = some b ∧ Fwd b w ∧ Lim s b) ∧
      ∀ b, Fwd b w → Lim s b → ∃ k ∈ l, vs[k]? = some b := by
  have hg : g < vs.length := (List.getElem?_eq_some_iff.1 hw).1
  obtain ⟨l, h1, h2, h3⟩ := h.base.in_at hg
  refine ⟨l, h1, ?_, ?_⟩
  · intro k hk
    obtain ⟨u, w', q1, q2, q3⟩ := h.sem.sound k g ((h3 k).1 hk)
    rw [hw] at q2; cases q2
    exact ⟨u, q1, q3, h.sem.all_lim hF u (List.mem_of_getElem? q1)⟩
  · intro b hb hlb
    have hu := h.sem.bclosed hF g w b ((h.act_mem hw).2 ha) (fun x => x) hw hb hlb
    obtain ⟨j, hj⟩ := List.getElem?_of_mem hu
    exact ⟨j, (h3 j).2 (h.sem.full hF j g b w hj hw hb), hj⟩

theorem addT_last {ts : List (List Nat)} {w : List Nat} (hm : w ∉ ts) {i : Nat}
    (t1 : (ts ++ [w])[i]? = some w) : i = ts.length := by
  have hl : i < (ts ++ [w]).length := (List.getElem?_eq_some_iff.1 t1).1
  simp only [List.length_append, List.length_singleton] at hl
  by_contra hne
  have : i < ts.length := by omega
  rw [List.getElem?_append_left this] at t1
  exact hm (List.mem_of_getElem? t1)

/-- Every inactive node other than `g` near a term of `T` is enough. -/
def NearX (g : Nat) (s : MISet) (vs ts : List (List Nat)) (s' : MISet) (vs' : List (List Nat)) : Prop :=
  ∀ T : List Nat → Prop, (∀ x ∈ ts, T x) →
    (∀ k w, k ≠ g → vs[k]? = some w → ¬ Act s k → ∃ t, T t ∧ (Fwd t w ∨ Fwd w t)) → NearTo T s' vs'

/-- The part of `ForciblyActivate` after the activation of `g`. -/
theorem force_tail {F : Prop} (hF : F) (fuel : Nat)
    (ih : ∀ k s vs R ts new w, Inv F s vs R ts → vs[k]? = some w → w.sum < fuel → Lim s w →
      ∃ s' vs' R' added, (∀ cap, vs'.length ≤ cap →
          forceG cap fuel s new k = .ok (s', new ++ List.range' ts.length added.length)) ∧
        Forced F (· = w) s vs ts s' vs' R' added ∧ w ∈ ts ++ added)
    {g : Nat} {s : MISet} {vs : List (List Nat)} {R : Nat → Nat → Prop} {ts : List (List Nat)}
    (new : List Nat) {w : List Nat} (h : Inv F s vs R ts) (hw : vs[g]? = some w)
    (hsum : w.sum < fuel + 1) (hl : Lim s w) (hm : w ∉ ts) :
    ∃ s1 snap s' vs' R' added, MISet.activateG s g = .ok s1 ∧
      Res.at' s1.global2active g = .ok (some ts.length) ∧ Res.at' s1.inEdges g = .ok snap ∧
      (∀ cap, vs'.length ≤ cap → s1.inEdges.length ≤ cap ∧
        refLoop (·.inEdges) (forceG cap fuel) g snap snap s1 (new ++ [ts.length])
          = .ok (s', new ++ List.range' ts.length added.length)) ∧
      Forced F (· = w) s vs ts s' vs' R' added ∧ w ∈ ts ++ added ∧
      NearX g s vs (ts ++ added) s' vs' := by
  obtain ⟨s1, vs1, R1, i, e1, i1, x1, a1, t1, n1⟩ := h.activateG hw hl
  rw [addT_of_not hm] at i1 t1
  have hi := addT_last hm t1
  subst hi
  have hw1 := x1.get hw
  have hwm : w ∈ ts ++ [w] := by simp
  obtain ⟨snap, p1, p2, p3⟩ := i1.ins hF hw1 hwm
  obtain ⟨s2, vs2, R2, added, e2, f2, m2⟩ := refLoop_spec (F := F) (·.inEdges)
    (fun cap => forceG cap fuel) g snap (fun b => Fwd b w)
    (fun k s vs R ts new b hi hb hf hlb => ih k s vs R ts new b hi hb (by have := hf.sum; omega) hlb)
    snap s1 vs1 R1 (ts ++ [w]) (new ++ [ts.length]) i1
    (fun s' vs' R' added hi hx => by rw [i1.ins_stable hF hi hx hw1 hwm]; exact p1)
    p2
  have hL : Lim s1 = Lim s := x1.lim
  refine ⟨s1, snap, s2, vs2, R2, w :: added, e1, Res.at'_some a1,
    Res.at'_some p1, ?_, ⟨by simpa using f2.inv, x1.trans f2.ext, ?_, ?_, ?_⟩, by simp, ?_⟩
  · intro cap hcap
    refine ⟨by rw [i1.base.edges.in_len]; exact le_trans f2.ext.nodes.length_le hcap, ?_⟩
    rw [e2 cap hcap]
    simp [List.range'_succ]
  · intro x hx
    rcases List.mem_cons.1 hx with e | e
    · subst e; exact ⟨⟨x, rfl, Le.refl' x⟩, hl⟩
    · obtain ⟨⟨b, hb, hxb⟩, hlx⟩ := f2.below x e
      rw [hL] at hlx
      exact ⟨⟨w, rfl, Le.trans' hxb hb.le⟩, hlx⟩
  · intro x hx b hb hlb
    rcases List.mem_cons.1 hx with e | e
    · subst e
      obtain ⟨k, hk, hkb⟩ := p3 b hb (by rw [hL]; exact hlb)
      have := m2 k hk b hkb
      simpa using this
    · have := f2.closed x e b hb (by rw [hL]; exact hlb)
      simpa using this
  · intro T hT hn
    apply f2.near T (by intro x hx; exact hT x (by simpa using hx))
    exact n1 T (hT w (by simp)) (fun j w' _ a b => hn j w' a b)
  · intro T hT hn
    apply f2.near T (by intro x hx; exact hT x (by simpa using hx))
    exact n1 T (hT w (by simp)) hn

theorem forceG_spec {F : Prop} (hF : F) (fuel : Nat) : ∀ k s vs R ts new w, Inv F s vs R ts →
    vs[k]? = some w → w.sum < fuel → Lim s w →
      ∃ s' vs' R' added, (∀ cap, vs'.length ≤ cap →
          forceG cap fuel s new k = .ok (s', new ++ List.range' ts.length added.length)) ∧
        Forced F (· = w) s vs ts s' vs' R' added ∧ w ∈ ts ++ added := by
  induction fuel with
  | zero => intro k s vs R ts new w _ _ hs; omega
  | succ fuel ih =>
    intro g s vs R ts new w h hw hsum hl
    by_cases hm : w ∈ ts
    · exact ⟨s, vs, R, [], fun _ _ => by simp [forceG, h.isActiveG hw, hm],
        ⟨by simpa using h, Ext.refl, by simp, by simp, fun T _ hn => hn⟩, by simpa using hm⟩
    · obtain ⟨s1, snap, s', vs', R', added, e1, e2, e3, e4, f, m, _⟩ :=
        force_tail hF fuel ih new h hw hsum hl hm
      refine ⟨s', vs', R', added, ?_, f, m⟩
      intro cap hcap
      obtain ⟨q1, q2⟩ := e4 cap hcap
      simp only [forceG, h.isActiveG hw, hm, decide_false, Res.bind_ok, Bool.false_eq_true, if_false,
        e1, if_neg (Nat.not_lt.2 q1), e2, e3, q2]

theorem forceTop_spec {F : Prop} (hF : F) {g : Nat} {s : MISet} {vs : List (List Nat)}
    {R : Nat → Nat → Prop} {ts : List (List Nat)} {w : List Nat} (h : Inv F s vs R ts)
    (hw : vs[g]? = some w) (hl : Lim s w) :
    ∃ s' vs' R' added, (∀ cap, vs'.length ≤ cap →
        forceTop cap w.sum s g = .ok (s', List.range' ts.length added.length)) ∧
      Forced F (· = w) s vs ts s' vs' R' added ∧ w ∈ ts ++ added ∧
      NearX g s vs (ts ++ added) s' vs' := by
  by_cases hm : w ∈ ts
  · refine ⟨s, vs, R, [], fun _ _ => by simp [forceTop, h.isActiveG hw, hm],
      ⟨by simpa using h, Ext.refl, by simp, by simp, fun T _ hn => hn⟩, by simpa using hm, ?_⟩
    intro T _ hT k w' hk hna
    refine hT k w' ?_ hk hna
    rintro rfl
    rw [hw] at hk; cases hk
    exact hna ((h.act_mem hw).2 hm)
  · obtain ⟨s1, snap, s', vs', R', added, e1, e2, e3, e4, f, m, nx⟩ :=
      force_tail hF w.sum (forceG_spec hF w.sum) [] h hw (by omega) hl hm
    refine ⟨s', vs', R', added, ?_, f, m, nx⟩
    intro cap hcap
    obtain ⟨q1, q2⟩ := e4 cap hcap
    simp only [List.nil_append] at q2
    simp only [forceTop, h.isActiveG hw, hm, decide_false, Res.bind_ok, Bool.false_eq_true, if_false,
        e1, e2, e3, q2]

/-- `ForciblyActivate(multi)`. -/
theorem Inv.forciblyActivate {F : Prop} (hF : F) {s : MISet} {vs : List (List Nat)}
    {R : Nat → Nat → Prop} {ts : List (List Nat)} (h : Inv F s vs R ts) {v : List Nat}
    (hlen : v.length = s.length) (hl : Lim s v) :
    ∃ s' vs' R' added, (∀ cap, vs'.length ≤ cap →
        MISet.forciblyActivate cap s (ofVec v)
          = .ok (s', List.range' ts.length added.length)) ∧
      Inv F s' vs' R' (ts ++ added) ∧ Ext s vs s' vs' ∧ v ∈ ts ++ added ∧
      (∀ x ∈ added, Le x v ∧ Lim s x) ∧
      (∀ x ∈ added, ∀ b, Fwd b x → Lim s b → b ∈ ts ++ added) ∧
      (∀ T : List Nat → Prop, (∀ x ∈ ts ++ added, T x) → NearTo T s vs → NearTo T s' vs') := by
  have hl' : s.limiter (ofVec v) = true := hl
  have hsum : (ofVec v).sum = v.sum := by simp [ofVec_eq, MultiIndex.sum]
  by_cases hm : v ∈ vs
  · obtain ⟨g, hg⟩ := List.getElem?_of_mem hm
    obtain ⟨s', vs', R', added, e, f, m, _⟩ := forceTop_spec hF h hg hl
    refine ⟨s', vs', R', added, ?_, f.inv, f.ext, m, ?_, f.closed, f.near⟩
    · intro cap hcap
      simp only [MISet.forciblyActivate, hl', if_true, h.base.find,
        findPos_of_nodup h.base.nodup hg, Res.bind_ok, hsum]
      exact e cap hcap
    · intro x hx
      obtain ⟨⟨y, rfl, hy⟩, hlx⟩ := f.below x hx
      exact ⟨hy, hlx⟩
  · obtain ⟨s1, vs1, R1, g, e1, i1, x1, g1, n1⟩ := h.addInactive hlen hl
    have hL : Lim s1 = Lim s := x1.lim
    have hvt : v ∉ ts := fun hh => by
      obtain ⟨g, hg, _⟩ := h.mem_vs hh
      exact hm (List.mem_of_getElem? hg)
    obtain ⟨s', vs', R', added, e, f, m, nx⟩ := forceTop_spec hF i1 g1 (by rw [hL]; exact hl)
    refine ⟨s', vs', R', added, ?_, f.inv, x1.trans f.ext, m, ?_, ?_, ?_⟩
    · intro cap hcap
      simp only [MISet.forciblyActivate, hl', if_true, h.base.find,
        findPos_none.2 hm, Res.bind_ok, hsum, e1]
      exact e cap hcap
    · intro x hx
      obtain ⟨⟨y, rfl, hy⟩, hlx⟩ := f.below x hx
      rw [hL] at hlx
      exact ⟨hy, hlx⟩
    · intro x hx b hb hlb
      exact f.closed x hx b hb (by rw [hL]; exact hlb)
    · -- the node stored in between is active in the end
      intro T hT hn
      apply nx T hT
      intro k w hkg hk hna
      rcases n1 k w hk hna with e | ⟨e, e'⟩
      · exact absurd (pos_inj i1.base.nodup hk (by rw [e]; exact g1)) hkg
      · exact hn k w e e'

/-- `ForciblyExpand(i)`. -/
theorem Inv.forciblyExpand {F : Prop} (hF : F) {s : MISet} {vs : List (List Nat)}
    {R : Nat → Nat → Prop} {ts : List (List Nat)} (h : Inv F s vs R ts) {i : Nat} {t : List Nat}
    (hi : ts[i]? = some t) :
    ∃ s' vs' R' added, (∀ cap, vs'.length ≤ cap →
        MISet.forciblyExpand cap s i = .ok (s', List.range' ts.length added.length)) ∧
      Inv F s' vs' R' (ts ++ added) ∧ Ext s vs s' vs' ∧
      (∀ w, Fwd t w → Lim s w → w ∈ ts ++ added) ∧
      (∀ x ∈ added, (∃ w, Fwd t w ∧ Lim s w ∧ Le x w) ∧ Lim s x) ∧
      (∀ x ∈ added, ∀ b, Fwd b x → Lim s b → b ∈ ts ++ added) ∧
      (∀ T : List Nat → Prop, (∀ x ∈ ts ++ added, T x) → NearTo T s vs → NearTo T s' vs') := by
  obtain ⟨g, hg, hgv⟩ := h.a2g_at hi
  have htm : t ∈ ts := List.mem_of_getElem? hi
  obtain ⟨snap, p1, p2, p3⟩ := h.base.out_at (List.getElem?_eq_some_iff.1 hgv).1
  have hk : ∀ k ∈ snap, ∃ w, vs[k]? = some w ∧ (Fwd t w ∧ Lim s w) ∧ Lim s w := by
    intro k hk
    obtain ⟨w, a, b, c⟩ := (h.out_active hgv htm _).1 ((p3 k).1 hk)
    exact ⟨w, a, ⟨b, c⟩, c⟩
  obtain ⟨s2, vs2, R2, added, e2, f2, m2⟩ := refLoop_spec (F := F) (·.outEdges)
    (fun cap => forceG cap (t.sum + 2)) g snap (fun b => Fwd t b ∧ Lim s b)
    (fun k s vs R ts new b hi hb hf hlb => forceG_spec hF _ k s vs R ts new b hi hb
      (by have := hf.1.sum; omega) hlb)
    snap s vs R ts [] h
    (fun s' vs' R' added hi hx => by
      rw [h.outs_stable hi hx hgv htm (by simp [htm])]; exact p1) hk
  refine ⟨s2, vs2, R2, added, ?_, f2.inv, f2.ext, ?_, ?_, f2.closed, f2.near⟩
  · intro cap hcap
    have hlt : ¬ i ≥ s.active2global.length := by
      have := (List.getElem?_eq_some_iff.1 hg).1; omega
    have hsum : (ofVec t).sum = t.sum := by simp [ofVec_eq, MultiIndex.sum]
    simp only [MISet.forciblyExpand, if_neg hlt, Res.at'_some hg, Res.bind_ok,
      h.base.at_multis hgv, Res.at'_some p1, hsum]
    rw [e2 cap hcap]; simp
  · intro w hw hl
    have hu := h.sem.closed g t w ((h.act_mem hgv).2 htm) (fun x => x) hgv hw hl
    obtain ⟨j, hj⟩ := List.getElem?_of_mem hu
    exact m2 j ((p3 j).2 ((h.out_active hgv htm _).2 ⟨w, hj, hw, hl⟩)) w hj
  · intro x hx
    obtain ⟨⟨w, ⟨a, b⟩, c⟩, d⟩ := f2.below x hx
    exact ⟨⟨w, a, b, c⟩, d⟩

end MISet
end MParT
