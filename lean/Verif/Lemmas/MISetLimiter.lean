import Verif.Lemmas.MISetOps
/-!
Helper lemmas for `MultiIndexSet`, part 5: `SetLimiter`.
-/
namespace MParT
namespace MISet
open MultiIndex Spec Neighborhood

/-- Removing all edges into `g`. -/
theorem clear_fold (g : Nat) (l : List Nat) : ∀ (outE : List (List Nat)),
    (∀ k ∈ l, k < outE.length) →
    ∃ outE', l.foldlM (fun outE inNode => do
        let e ← Res.idx outE inNode
        Res.setIdx outE inNode (setErase g e)) outE = .ok outE' ∧ outE'.length = outE.length ∧
      ∀ a, outE'[a]? = if a ∈ l then (outE[a]?).map (setErase g) else outE[a]? := by
  induction l with
  | nil => intro outE _; exact ⟨outE, rfl, rfl, by simp⟩
  | cons k ks ih =>
    intro outE hd
    have hk : k < outE.length := hd k (by simp)
    obtain ⟨o, h1, h2, h3⟩ := ih (outE.set k (setErase g outE[k]))
      (fun j hj => by simpa using hd j (by simp [hj]))
    refine ⟨o, ?_, by simpa using h2, ?_⟩
    · rw [List.foldlM_cons, Res.idx_lt hk, Res.bind_ok, Res.setIdx_lt hk, Res.bind_ok]
      exact h1
    · intro a
      rw [h3, List.getElem?_set]
      by_cases e : k = a
      · subst e
        by_cases hks : k ∈ ks
        · simp [hks, hk, setErase, List.filter_filter]
        · simp [hks, hk]
      · have : (a ∈ k :: ks) ↔ a ∈ ks := by simp [Ne.symm e]
        simp [e, this]

theorem clearIn_spec {s : MISet} {vs : List (List Nat)} {R : Nat → Nat → Prop} (h : Base s vs R)
    {g : Nat} (hg : g < vs.length) :
    ∃ s', clearIn s g = .ok s' ∧ Base s' vs (fun a b => R a b ∧ b ≠ g) ∧ SameCore s s' ∧
      s'.global2active = s.global2active := by
  obtain ⟨l, h1, h2, h3⟩ := h.in_at hg
  have hd : ∀ k ∈ l, k < s.outEdges.length := by
    intro k hk; rw [h.edges.out_len]; exact (h.edges.dom _ _ ((h3 k).1 hk)).1
  obtain ⟨o, e1, e2, e3⟩ := clear_fold g l s.outEdges hd
  have hgi : g < s.inEdges.length := by rw [h.edges.in_len]; exact hg
  refine ⟨{ s with outEdges := o, inEdges := s.inEdges.set g [] }, ?_, ?_, ⟨rfl, rfl, rfl, rfl⟩, rfl⟩
  · simp only [clearIn, Res.idx_some h1, Res.bind_ok, e1, Res.setIdx_lt hgi, Res.pure_eq]
  · refine h.edges_update ⟨by rw [e2]; exact h.edges.out_len, by simpa using h.edges.in_len, ?_, ?_, ?_⟩
    · intro a m hm
      rw [e3] at hm
      split at hm
      · rename_i ha
        rw [Option.map_eq_some_iff] at hm
        obtain ⟨m', q1, rfl⟩ := hm
        obtain ⟨q2, q3⟩ := h.edges.out_spec a m' q1
        refine ⟨setErase_sorted q2, fun b => ?_⟩
        rw [mem_setErase, q3]
      · rename_i ha
        obtain ⟨q2, q3⟩ := h.edges.out_spec a m hm
        refine ⟨q2, fun b => ?_⟩
        rw [q3]
        constructor
        · intro hr
          refine ⟨hr, ?_⟩
          rintro rfl
          exact ha ((h3 a).2 hr)
        · exact fun hh => hh.1
    · intro b m hm
      rw [List.getElem?_set] at hm
      split at hm
      · rename_i e
        subst e
        simp only [Option.some.injEq] at hm
        subst hm
        exact ⟨List.Pairwise.nil, by simp⟩
      · rename_i e
        obtain ⟨q2, q3⟩ := h.edges.in_spec b m hm
        refine ⟨q2, fun a => ?_⟩
        rw [q3]
        exact ⟨fun hr => ⟨hr, fun hh => e hh.symm⟩, fun hh => hh.1⟩
    · intro a b hr; exact h.edges.dom a b hr.1

theorem fwdList_length (v : List Nat) : (fwdList v).length = v.length := by simp [fwdList]

/-- What `SetLimiter` keeps. -/
structure Kept (s : MISet) (vs : List (List Nat)) (s' : MISet) (vs' : List (List Nat)) : Prop where
  core : SameCore s s'
  nodes : vs <+: vs'
  act : ∀ g, Act s' g ↔ Act s g

theorem Kept.trans {s s' s'' : MISet} {vs vs' vs'' : List (List Nat)} (h : Kept s vs s' vs')
    (h' : Kept s' vs' s'' vs'') : Kept s vs s'' vs'' :=
  ⟨⟨h'.core.length.trans h.core.length, h'.core.limiter.trans h.core.limiter,
    h'.core.a2g.trans h.core.a2g, h'.core.maxOrders.trans h.core.maxOrders⟩,
    h.nodes.trans h'.nodes, fun g => (h'.act g).trans (h.act g)⟩

theorem prefix_get {vs vs' : List (List Nat)} (h : vs <+: vs') {g : Nat} {v : List Nat}
    (hv : vs[g]? = some v) : vs'[g]? = some v := by
  obtain ⟨t, rfl⟩ := h
  rw [List.getElem?_append_left (List.getElem?_eq_some_iff.1 hv).1]; exact hv

theorem filter_ge_lt {l : List Nat} {g : Nat} (hg : g ∈ l) :
    (l.filter (fun k => g + 1 ≤ k)).length + 1 ≤ (l.filter (fun k => g ≤ k)).length := by
  induction l with
  | nil => simp at hg
  | cons x xs ih =>
    simp only [List.filter_cons, decide_eq_true_eq]
    by_cases e : x = g
    · subst e
      have : (xs.filter (fun k => x + 1 ≤ k)).length ≤ (xs.filter (fun k => x ≤ k)).length := by
        apply List.Sublist.length_le
        apply List.monotone_filter_right
        intro a ha
        simp only [decide_eq_true_eq] at ha ⊢
        omega
      simp; omega
    · have hg' : g ∈ xs := by
        rcases List.mem_cons.1 hg with e' | e'
        · exact absurd e'.symm e
        · exact e'
      have := ih hg'
      split <;> split <;> (try simp only [List.length_cons]) <;> omega

theorem filter_ge_le (l : List Nat) (g : Nat) :
    (l.filter (fun k => g + 1 ≤ k)).length ≤ (l.filter (fun k => g ≤ k)).length := by
  apply List.Sublist.length_le
  apply List.monotone_filter_right
  intro a ha
  simp only [decide_eq_true_eq] at ha ⊢
  omega

/-- Loop of `SetLimiter` from node `g` on. -/
theorem setLimiterLoop_spec (fuel : Nat) : ∀ (g : Nat) (s : MISet) (vs : List (List Nat))
    (R : Nat → Nat → Prop), Good False (fun k => g ≤ k) s vs R →
    (vs.length - g) + (s.active2global.filter (fun k => g ≤ k)).length * s.length + 1 ≤ fuel →
    ∃ s' vs' R' thrown, setLimiterLoop s g fuel = .ok (s', thrown) ∧ Kept s vs s' vs' ∧
      Base s' vs' R' ∧ (thrown = false → Good False (fun _ => False) s' vs' R') ∧
      (thrown = true ↔ ∃ k v, g ≤ k ∧ vs[k]? = some v ∧ Act s k ∧ ¬ Lim s v) := by
  induction fuel with
  | zero => intro g s vs R _ hf; omega
  | succ fuel ih =>
    intro g s vs R h hf
    have hlen : s.allMultis.length = vs.length := by rw [h.base.multis]; simp
    unfold setLimiterLoop
    by_cases hg : g < vs.length
    · rw [if_pos (by rw [hlen]; exact hg)]
      have hv : vs[g]? = some vs[g] := by simp [hg]
      have hg2 : g < s.global2active.length := by rw [h.base.g2a_len]; exact hg
      have hact : isActiveG s g = .ok (s.global2active[g].isSome) := by
        simp [isActiveG, Res.idx_lt hg2]
      have hA : s.global2active[g].isSome = true ↔ Act s g := by
        simp only [Act]
        cases e : s.global2active[g] <;> simp [hg2, e]
      simp only [h.base.at_multis hv, Res.bind_ok, hact]
      by_cases ha : Act s g
      · rw [if_pos (hA.2 ha)]
        by_cases hl : Lim s vs[g]
        · rw [if_pos (show s.limiter (ofVec vs[g]) = true from hl)]
          have hvl : vs[g].length = s.length := h.base.len _ (List.mem_of_getElem? hv)
          obtain ⟨s1, vs1, R1, e1, h1, g1, l1, n1⟩ := forwardFold_store (g := g) (v := vs[g])
            (Q := fun _ => True) (fwdList vs[g]) s vs R h hv hl
            (fun w hw => by
              have hfw := mem_fwdList.1 hw
              exact ⟨hfw, by rw [hfw.length]; exact hvl, trivial⟩)
          have hcall : addForwardNeighbors storeMissing s g = .ok s1 := by
            simp [addForwardNeighbors, h.base.at_multis hv, forwardNeighbors_ofVec, e1]
          have hgood : Good False (fun k => g + 1 ≤ k) s1 vs1 R1 := by
            refine ⟨h1.base, ?_⟩
            refine Sem.unpend (P := fun k => g + 1 ≤ k) (g := g) (v := vs[g]) ?_ (g1.get hv)
              (by rw [g1.lim]; exact hl) ?_ h1.base.nodup (fun hF => hF.elim)
            · exact h1.sem.mono (fun k hk hh => hk (by omega))
            · intro w hfw hlw
              rw [g1.lim] at hlw
              exact l1 w (mem_fwdList.2 hfw) hlw
          obtain ⟨new, en, _, _⟩ := g1.nodes
          have hfuel : (vs1.length - (g + 1)) +
              (s1.active2global.filter (fun k => g + 1 ≤ k)).length * s1.length + 1 ≤ fuel := by
            rw [g1.core.a2g, g1.core.length]
            have hmem : g ∈ s.active2global := by
              obtain ⟨i, hi⟩ := ha
              exact List.mem_of_getElem? ((h.base.a2g i g).2 hi)
            have hlt := filter_ge_lt hmem
            rw [fwdList_length, hvl] at n1
            have : ((s.active2global.filter (fun k => g + 1 ≤ k)).length + 1) * s.length
                ≤ (s.active2global.filter (fun k => g ≤ k)).length * s.length :=
              Nat.mul_le_mul_right _ hlt
            rw [Nat.add_mul, Nat.one_mul] at this
            omega
          obtain ⟨s2, vs2, R2, th, e2, k2, b2, i2, t2⟩ := ih (g + 1) s1 vs1 R1 hgood hfuel
          have k1 : Kept s vs s1 vs1 := ⟨g1.core, ⟨new, en.symm⟩, g1.act⟩
          refine ⟨s2, vs2, R2, th, ?_, k1.trans k2, b2, i2, t2.trans ?_⟩
          · rw [hcall, Res.bind_ok]; exact e2
          · rw [g1.lim]
            constructor
            · rintro ⟨k, v, q1, q2, q3, q4⟩
              rw [g1.act] at q3
              have hk := h.base.act_lt q3
              refine ⟨k, v, by omega, ?_, q3, q4⟩
              rw [en, List.getElem?_append_left hk] at q2; exact q2
            · rintro ⟨k, v, q1, q2, q3, q4⟩
              refine ⟨k, v, ?_, g1.get q2, (g1.act k).2 q3, q4⟩
              by_contra hh
              have : k = g := by omega
              subst this
              rw [hv] at q2; cases q2; exact q4 hl
        · have hl' : ¬ s.limiter (ofVec vs[g]) = true := hl
          rw [if_neg hl']
          refine ⟨s, vs, R, true, rfl, ⟨⟨rfl, rfl, rfl, rfl⟩, List.prefix_refl _, fun _ => Iff.rfl⟩,
            h.base, by simp, ?_⟩
          simp only [true_iff]
          exact ⟨g, _, le_refl _, hv, ha, hl⟩
      · rw [if_neg (fun hh => ha (hA.1 hh))]
        have hfuel' : ∀ n, n = vs.length →
            (n - (g + 1)) + (s.active2global.filter (fun k => g + 1 ≤ k)).length * s.length + 1
              ≤ fuel := by
          rintro n rfl
          have : (s.active2global.filter (fun k => g + 1 ≤ k)).length * s.length
                ≤ (s.active2global.filter (fun k => g ≤ k)).length * s.length :=
              Nat.mul_le_mul_right _ (filter_ge_le _ _)
          omega
        have hthr : (∃ k v, g + 1 ≤ k ∧ vs[k]? = some v ∧ Act s k ∧ ¬ Lim s v) ↔
            ∃ k v, g ≤ k ∧ vs[k]? = some v ∧ Act s k ∧ ¬ Lim s v := by
          constructor
          · rintro ⟨k, v, q1, q⟩; exact ⟨k, v, by omega, q⟩
          · rintro ⟨k, v, q1, q2, q3, q4⟩
            refine ⟨k, v, ?_, q2, q3, q4⟩
            by_contra hh
            have : k = g := by omega
            subst this; exact ha q3
        by_cases hl : Lim s vs[g]
        · rw [if_pos (show s.limiter (ofVec vs[g]) = true from hl)]
          have hgood : Good False (fun k => g + 1 ≤ k) s vs R := by
            refine ⟨h.base, ?_⟩
            have key : ∀ k, ¬ g + 1 ≤ k → k ≠ g → ¬ g ≤ k := by intro k; omega
            refine ⟨h.sem.sound, ?_, ?_, ?_, ?_, fun hF => hF.elim, fun hF => hF.elim,
              fun hF => hF.elim⟩
            · intro k v hk hp
              exact h.sem.act_lim k v hk (key k hp (by rintro rfl; exact ha hk))
            · intro k w hk hnl hp
              refine h.sem.viol k w hk hnl (key k hp ?_)
              rintro rfl
              rw [hv] at hk; cases hk; exact hnl hl
            · intro k v j w hk hp
              exact h.sem.link k v j w hk (key k hp (by rintro rfl; exact ha hk))
            · intro k v w hk hp
              exact h.sem.closed k v w hk (key k hp (by rintro rfl; exact ha hk))
          obtain ⟨s2, vs2, R2, th, e2, k2, b2, i2, t2⟩ := ih (g + 1) s vs R hgood (hfuel' _ rfl)
          exact ⟨s2, vs2, R2, th, e2, k2, b2, i2, t2.trans hthr⟩
        · have hl' : ¬ s.limiter (ofVec vs[g]) = true := hl
          rw [if_neg hl']
          obtain ⟨s1, e1, b1, c1, g1⟩ := clearIn_spec h.base hg
          have hA1 : ∀ k, Act s1 k ↔ Act s k := by intro k; simp [Act, g1]
          have hL1 : Lim s1 = Lim s := by funext v; simp [Lim, c1.limiter]
          have hgood : Good False (fun k => g + 1 ≤ k) s1 vs (fun a b => R a b ∧ b ≠ g) := by
            refine ⟨b1, ?_⟩
            have key : ∀ k, ¬ g + 1 ≤ k → k ≠ g → ¬ g ≤ k := by intro k; omega
            rw [hL1]
            refine ⟨fun a b hr => h.sem.sound a b hr.1, ?_, ?_, ?_, ?_, fun hF => hF.elim,
              fun hF => hF.elim, fun hF => hF.elim⟩
            · intro k v hk hp
              rw [hA1] at hk
              exact h.sem.act_lim k v hk (key k hp (by rintro rfl; exact ha hk))
            · rintro k w hk hnl hp a ⟨hr, hne⟩
              exact h.sem.viol k w hk hnl (key k hp hne) a hr
            · intro k v j w hk hp hkv hjw hfw hlw
              rw [hA1] at hk
              refine ⟨h.sem.link k v j w hk (key k hp (by rintro rfl; exact ha hk)) hkv hjw hfw hlw, ?_⟩
              rintro rfl
              rw [hv] at hjw; cases hjw; exact hl hlw
            · intro k v w hk hp
              rw [hA1] at hk
              exact h.sem.closed k v w hk (key k hp (by rintro rfl; exact ha hk))
          obtain ⟨s2, vs2, R2, th, e2, k2, b2, i2, t2⟩ := ih (g + 1) s1 vs _ hgood (by
            rw [c1.a2g, c1.length]; exact hfuel' _ rfl)
          have k1 : Kept s vs s1 vs := ⟨c1, List.prefix_refl _, hA1⟩
          refine ⟨s2, vs2, R2, th, ?_, k1.trans k2, b2, i2, t2.trans ?_⟩
          · rw [e1, Res.bind_ok]; exact e2
          · rw [← hthr, hL1]; simp only [hA1]
    · rw [if_neg (by rw [hlen]; exact hg)]
      refine ⟨s, vs, R, false, rfl, ⟨⟨rfl, rfl, rfl, rfl⟩, List.prefix_refl _, fun _ => Iff.rfl⟩, h.base, ?_, ?_⟩
      · intro _
        refine ⟨h.base, ?_⟩
        have key : ∀ k (v : List Nat), vs[k]? = some v → ¬ g ≤ k := by
          intro k v hk
          have := (List.getElem?_eq_some_iff.1 hk).1; omega
        exact ⟨h.sem.sound, fun k v hk _ hkv => h.sem.act_lim k v hk (key k v hkv) hkv,
          fun k w hkw hnl _ => h.sem.viol k w hkw hnl (key k w hkw),
          fun k v j w hk _ hkv => h.sem.link k v j w hk (key k v hkv) hkv,
          fun k v w hk _ hkv => h.sem.closed k v w hk (key k v hkv) hkv,
          h.sem.all_lim, h.sem.full, fun hF => hF.elim⟩
      · simp only [Bool.false_eq_true, false_iff]
        rintro ⟨k, v, q1, q2, _⟩
        have := (List.getElem?_eq_some_iff.1 q2).1; omega

/-- `SetLimiter`. -/
theorem Inv.setLimiter {F : Prop} {s : MISet} {vs : List (List Nat)} {R : Nat → Nat → Prop}
    {ts : List (List Nat)} (h : Inv F s vs R ts) (L : MultiIndex → Bool) :
    ∃ s' vs' R' thrown, MISet.setLimiter s L = .ok (s', thrown) ∧ s'.limiter = L ∧
      s'.length = s.length ∧ s'.active2global = s.active2global ∧
      Base s' vs' R' ∧ s'.active2global.map (fun g => vs'[g]?) = ts.map some ∧
      (thrown = true ↔ ∃ t ∈ ts, L (ofVec t) = false) ∧
      (thrown = false → Inv False s' vs' R' ts) := by
  let s0 : MISet := { s with limiter := L }
  have hb0 : Base s0 vs R :=
    ⟨h.base.multis, h.base.nodup, h.base.len, h.base.map, h.base.edges, h.base.g2a_len, h.base.a2g⟩
  have hs0 : Good False (fun k => 0 ≤ k) s0 vs R := by
    refine ⟨hb0, ⟨h.sem.sound, ?_, ?_, ?_, ?_, fun hF => hF.elim, fun hF => hF.elim,
      fun hF => hF.elim⟩⟩
    · intro k v _ hp; exact absurd (Nat.zero_le k) hp
    · intro k v _ _ hp; exact absurd (Nat.zero_le k) hp
    · intro k v _ _ _ hp; exact absurd (Nat.zero_le k) hp
    · intro k v _ _ hp; exact absurd (Nat.zero_le k) hp
  have hlen : s.allMultis.length = vs.length := by rw [h.base.multis]; simp
  obtain ⟨s', vs', R', th, e, k, b, i, t⟩ := setLimiterLoop_spec
    (s.allMultis.length + s.active2global.length * s.length + 1) 0 s0 vs R hs0 (by
      have : (s0.active2global.filter (fun k => 0 ≤ k)).length = s.active2global.length := by
        simp [s0]
      rw [this, hlen]
      simp [s0])
  have hT : th = true ↔ ∃ t ∈ ts, L (ofVec t) = false := by
    rw [t]
    constructor
    · rintro ⟨k, v, _, hk, ha, hl⟩
      have ha' : Act s k := ha
      refine ⟨v, (h.act_mem hk).1 ha', ?_⟩
      have hl' : ¬ L (ofVec v) = true := hl
      simpa using hl'
    · rintro ⟨v, hv, hl⟩
      obtain ⟨k, hk, ha⟩ := h.mem_vs hv
      refine ⟨k, v, Nat.zero_le _, hk, ha, ?_⟩
      have : ¬ L (ofVec v) = true := by simp [hl]
      exact this
  have hterms : s'.active2global.map (fun g => vs'[g]?) = ts.map some := by
    rw [k.core.a2g, ← h.terms]
    apply List.map_congr_left
    intro j hj
    obtain ⟨i, hi⟩ := List.getElem?_of_mem hj
    obtain ⟨t, h1, h2⟩ := h.term_at hi
    rw [h1, prefix_get k.nodes h1]
  refine ⟨s', vs', R', th, e, k.core.limiter, k.core.length, k.core.a2g, b, hterms, hT, ?_⟩
  intro hth
  have hg := i hth
  refine ⟨hg, hterms, ?_, ?_⟩
  · rw [k.core.maxOrders, k.core.length]; exact h.mo_len
  · rw [k.core.maxOrders, k.core.length]; exact h.mo

end MISet
end MParT
