import Verif.Lemmas.MISetBase
/-!
Helper lemmas for `MultiIndexSet`, part 2: the semantic invariant (`Sem`) relating the stored
nodes, the edges, the active nodes and the limiter, and its preservation by every update.
-/
namespace MParT
namespace MISet
open MultiIndex Spec Neighborhood

theorem getElem?_snoc {α : Type} {vs : List α} {v w : α} {x : Nat} :
    (vs ++ [v])[x]? = some w ↔ vs[x]? = some w ∨ (x = vs.length ∧ w = v) := by
  rw [List.getElem?_append]
  split
  · rename_i h
    constructor
    · exact Or.inl
    · rintro (e | ⟨e, _⟩)
      · exact e
      · omega
  · rename_i h
    constructor
    · intro hh
      rcases Nat.eq_zero_or_pos (x - vs.length) with e | e
      · rw [e] at hh; simp at hh; exact Or.inr ⟨by omega, hh.symm⟩
      · rw [List.getElem?_eq_none (by simp only [List.length_singleton]; omega)] at hh; simp at hh
    · rintro (e | ⟨rfl, rfl⟩)
      · exact absurd (List.getElem?_eq_some_iff.1 e).1 h
      · simp

/-- Semantic invariant.  `P` marks nodes whose neighbourhood has not been processed yet, `F` says
that the limiter was never replaced. -/
structure Sem (F : Prop) (P : Nat → Prop) (lim : List Nat → Prop) (vs : List (List Nat))
    (act : Nat → Prop) (R : Nat → Nat → Prop) : Prop where
  sound : ∀ a b, R a b → ∃ u w, vs[a]? = some u ∧ vs[b]? = some w ∧ Fwd u w
  act_lim : ∀ g v, act g → ¬ P g → vs[g]? = some v → lim v
  viol : ∀ h w, vs[h]? = some w → ¬ lim w → ¬ P h → ∀ a, ¬ R a h
  link : ∀ g v h w, act g → ¬ P g → vs[g]? = some v → vs[h]? = some w → Fwd v w → lim w → R g h
  closed : ∀ g v w, act g → ¬ P g → vs[g]? = some v → Fwd v w → lim w → w ∈ vs
  all_lim : F → ∀ v ∈ vs, lim v
  full : F → ∀ a b u w, vs[a]? = some u → vs[b]? = some w → Fwd u w → R a b
  bclosed : F → ∀ g v w, act g → ¬ P g → vs[g]? = some v → Fwd w v → lim w → w ∈ vs

theorem Sem.mono {F : Prop} {P P' : Nat → Prop} {lim : List Nat → Prop} {vs : List (List Nat)}
    {act : Nat → Prop} {R : Nat → Nat → Prop} (h : Sem F P lim vs act R)
    (hP : ∀ g, ¬ P' g → ¬ P g) : Sem F P' lim vs act R :=
  ⟨h.sound, fun g v ha hp => h.act_lim g v ha (hP g hp),
    fun k w hv hl hp => h.viol k w hv hl (hP k hp),
    fun g v k w ha hp => h.link g v k w ha (hP g hp),
    fun g v w ha hp => h.closed g v w ha (hP g hp), h.all_lim, h.full,
    fun hF g v w ha hp => h.bclosed hF g v w ha (hP g hp)⟩

theorem Sem.addNode {F : Prop} {P : Nat → Prop} {lim : List Nat → Prop} {vs : List (List Nat)}
    {act : Nat → Prop} {R : Nat → Nat → Prop} (h : Sem F P lim vs act R)
    (hact : ∀ g, act g → g < vs.length)
    {v : List Nat} (hv : v ∉ vs) (hl : lim v) :
    Sem F P lim (vs ++ [v]) act (addR R vs lim v) := by
  constructor
  · rintro a b (hr | ⟨rfl, w, hw, hf, _⟩ | ⟨rfl, u, hu, hf, _⟩)
    · obtain ⟨u, w, h1, h2, h3⟩ := h.sound a b hr
      exact ⟨u, w, getElem?_snoc.2 (Or.inl h1), getElem?_snoc.2 (Or.inl h2), h3⟩
    · exact ⟨v, w, by simp, getElem?_snoc.2 (Or.inl hw), hf⟩
    · exact ⟨u, v, getElem?_snoc.2 (Or.inl hu), by simp, hf⟩
  · intro g u ha hp hu
    rcases getElem?_snoc.1 hu with e | ⟨rfl, rfl⟩
    · exact h.act_lim g u ha hp e
    · exact hl
  · intro k w hk hnl hp a
    rcases getElem?_snoc.1 hk with e | ⟨rfl, rfl⟩
    · rintro (hr | ⟨rfl, w', hw, hf, hl'⟩ | ⟨rfl, u, hu, hf, _⟩)
      · exact h.viol k w e hnl hp a hr
      · rw [e] at hw; cases hw; exact hnl hl'
      · exact absurd (List.getElem?_eq_some_iff.1 e).1 (by omega)
    · exact absurd hl hnl
  · intro g u k w ha hp hu hw hf hlw
    rcases getElem?_snoc.1 hu with e | ⟨rfl, rfl⟩
    · rcases getElem?_snoc.1 hw with e' | ⟨rfl, rfl⟩
      · exact Or.inl (h.link g u k w ha hp e e' hf hlw)
      · exact absurd (h.closed g u w ha hp e hf hlw) hv
    · exact absurd (hact _ ha) (by omega)
  · intro g u w ha hp hu hf hlw
    rcases getElem?_snoc.1 hu with e | ⟨rfl, rfl⟩
    · exact List.mem_append.2 (Or.inl (h.closed g u w ha hp e hf hlw))
    · exact absurd (hact _ ha) (by omega)
  · intro hF u hu
    rcases List.mem_append.1 hu with e | e
    · exact h.all_lim hF u e
    · simp only [List.mem_singleton] at e; subst e; exact hl
  · intro hF a b u w hu hw hf
    rcases getElem?_snoc.1 hu with e | ⟨rfl, rfl⟩
    · rcases getElem?_snoc.1 hw with e' | ⟨rfl, rfl⟩
      · exact Or.inl (h.full hF a b u w e e' hf)
      · exact Or.inr (Or.inr ⟨rfl, u, e, hf, h.all_lim hF u (List.mem_of_getElem? e)⟩)
    · rcases getElem?_snoc.1 hw with e' | ⟨rfl, rfl⟩
      · exact Or.inr (Or.inl ⟨rfl, w, e', hf, h.all_lim hF w (List.mem_of_getElem? e')⟩)
      · exact absurd hf (Fwd.irrefl _)
  · intro hF g u w ha hp hu hf hlw
    rcases getElem?_snoc.1 hu with e | ⟨rfl, rfl⟩
    · exact List.mem_append.2 (Or.inl (h.bclosed hF g u w ha hp e hf hlw))
    · exact absurd (hact _ ha) (by omega)

theorem Sem.addEdge {F : Prop} {P : Nat → Prop} {lim : List Nat → Prop} {vs : List (List Nat)}
    {act : Nat → Prop} {R : Nat → Nat → Prop} (h : Sem F P lim vs act R)
    {g k : Nat} {u w : List Nat} (hg : vs[g]? = some u) (hk : vs[k]? = some w) (hf : Fwd u w)
    (hl : lim w) : Sem F P lim vs act (fun a b => R a b ∨ (a = g ∧ b = k)) := by
  refine ⟨?_, h.act_lim, ?_, fun g v k w ha hp h1 h2 h3 h4 => Or.inl (h.link g v k w ha hp h1 h2 h3 h4),
    h.closed, h.all_lim, fun hF a b u w h1 h2 h3 => Or.inl (h.full hF a b u w h1 h2 h3), h.bclosed⟩
  · rintro a b (hr | ⟨rfl, rfl⟩)
    · exact h.sound a b hr
    · exact ⟨u, w, hg, hk, hf⟩
  · rintro x y hx hny hp a (hr | ⟨rfl, rfl⟩)
    · exact h.viol x y hx hny hp a hr
    · rw [hk] at hx; cases hx; exact hny hl

theorem Sem.activate {F : Prop} {P : Nat → Prop} {lim : List Nat → Prop} {vs : List (List Nat)}
    {act act' : Nat → Prop} {R : Nat → Nat → Prop} (h : Sem F P lim vs act R) {g : Nat}
    (hact : ∀ k, act' k ↔ act k ∨ k = g) :
    Sem F (fun k => P k ∨ k = g) lim vs act' R := by
  have key : ∀ k, act' k → ¬ (P k ∨ k = g) → act k ∧ ¬ P k := by
    intro k hk hp
    rcases (hact k).1 hk with e | e
    · exact ⟨e, fun hh => hp (Or.inl hh)⟩
    · exact absurd (Or.inr e) hp
  exact ⟨h.sound, fun k v ha hp => h.act_lim k v (key k ha hp).1 (key k ha hp).2,
    fun k w hv hl hp => h.viol k w hv hl (fun hh => hp (Or.inl hh)),
    fun k v j w ha hp => h.link k v j w (key k ha hp).1 (key k ha hp).2,
    fun k v w ha hp => h.closed k v w (key k ha hp).1 (key k ha hp).2, h.all_lim, h.full,
    fun hF k v w ha hp => h.bclosed hF k v w (key k ha hp).1 (key k ha hp).2⟩

/-- Discharging the pending node `g`. -/
theorem Sem.unpend {F : Prop} {P : Nat → Prop} {lim : List Nat → Prop} {vs : List (List Nat)}
    {act : Nat → Prop} {R : Nat → Nat → Prop} {g : Nat} {v : List Nat}
    (h : Sem F (fun k => P k ∨ k = g) lim vs act R) (hv : vs[g]? = some v) (hl : lim v)
    (hlink : ∀ w, Fwd v w → lim w → ∃ k, vs[k]? = some w ∧ R g k)
    (hnd : vs.Nodup)
    (hb : F → ∀ w, Fwd w v → lim w → w ∈ vs) : Sem F P lim vs act R := by
  have key : ∀ k, k ≠ g → ¬ P k → ¬ (P k ∨ k = g) := by
    rintro k hk hp (e | e)
    · exact hp e
    · exact hk e
  constructor
  · exact h.sound
  · intro k u ha hp hu
    by_cases e : k = g
    · subst e; rw [hv] at hu; cases hu; exact hl
    · exact h.act_lim k u ha (key k e hp) hu
  · intro k w hk hnl hp
    by_cases e : k = g
    · subst e; rw [hv] at hk; cases hk; exact absurd hl hnl
    · exact h.viol k w hk hnl (key k e hp)
  · intro k u j w ha hp hu hw hf hlw
    by_cases e : k = g
    · subst e; rw [hv] at hu; cases hu
      obtain ⟨j', hj, hr⟩ := hlink w hf hlw
      have h1 := findPos_of_nodup hnd hw
      rw [findPos_of_nodup hnd hj] at h1
      cases h1; exact hr
    · exact h.link k u j w ha (key k e hp) hu hw hf hlw
  · intro k u w ha hp hu hf hlw
    by_cases e : k = g
    · subst e; rw [hv] at hu; cases hu
      obtain ⟨j', hj, hr⟩ := hlink w hf hlw
      exact List.mem_of_getElem? hj
    · exact h.closed k u w ha (key k e hp) hu hf hlw
  · exact h.all_lim
  · exact h.full
  · intro hF k u w ha hp hu hf hlw
    by_cases e : k = g
    · subst e; rw [hv] at hu; cases hu
      exact hb hF w hf hlw
    · exact h.bclosed hF k u w ha (key k e hp) hu hf hlw

/-- `s'` arises from `s` by storing more inactive nodes (all satisfying `Q`) and more edges. -/
structure Grow (Q : List Nat → Prop) (s : MISet) (vs : List (List Nat)) (R : Nat → Nat → Prop)
    (s' : MISet) (vs' : List (List Nat)) (R' : Nat → Nat → Prop) : Prop where
  core : SameCore s s'
  nodes : ∃ new, vs' = vs ++ new ∧ (∀ x ∈ new, Q x) ∧
    s'.global2active = s.global2active ++ List.replicate new.length none
  sub : ∀ a b, R a b → R' a b

theorem Grow.refl {Q : List Nat → Prop} {s : MISet} {vs : List (List Nat)}
    {R : Nat → Nat → Prop} : Grow Q s vs R s vs R :=
  ⟨⟨rfl, rfl, rfl, rfl⟩, ⟨[], by simp, by simp, by simp⟩, fun _ _ h => h⟩

theorem Grow.trans {Q : List Nat → Prop} {s s' s'' : MISet} {vs vs' vs'' : List (List Nat)}
    {R R' R'' : Nat → Nat → Prop} (h : Grow Q s vs R s' vs' R') (h' : Grow Q s' vs' R' s'' vs'' R'') :
    Grow Q s vs R s'' vs'' R'' := by
  obtain ⟨n1, e1, q1, g1⟩ := h.nodes
  obtain ⟨n2, e2, q2, g2⟩ := h'.nodes
  refine ⟨⟨h'.core.length.trans h.core.length, h'.core.limiter.trans h.core.limiter,
    h'.core.a2g.trans h.core.a2g, h'.core.maxOrders.trans h.core.maxOrders⟩,
    ⟨n1 ++ n2, ?_, ?_, ?_⟩, fun a b hr => h'.sub a b (h.sub a b hr)⟩
  · rw [e2, e1]; simp
  · intro x hx
    rcases List.mem_append.1 hx with e | e
    · exact q1 x e
    · exact q2 x e
  · rw [g2, g1]; simp [List.replicate_append_replicate]

theorem Grow.get {Q : List Nat → Prop} {s s' : MISet} {vs vs' : List (List Nat)}
    {R R' : Nat → Nat → Prop} (h : Grow Q s vs R s' vs' R') {g : Nat} {v : List Nat}
    (hv : vs[g]? = some v) : vs'[g]? = some v := by
  obtain ⟨n1, e1, _, _⟩ := h.nodes
  rw [e1, List.getElem?_append_left (List.getElem?_eq_some_iff.1 hv).1]; exact hv

theorem Grow.act {Q : List Nat → Prop} {s s' : MISet} {vs vs' : List (List Nat)}
    {R R' : Nat → Nat → Prop} (h : Grow Q s vs R s' vs' R') (g : Nat) : Act s' g ↔ Act s g := by
  obtain ⟨n1, _, _, e⟩ := h.nodes
  unfold Act
  rw [e]
  constructor
  · rintro ⟨i, hi⟩
    rw [List.getElem?_append] at hi
    split at hi
    · exact ⟨i, hi⟩
    · rw [List.getElem?_replicate] at hi; split at hi <;> simp at hi
  · rintro ⟨i, hi⟩
    exact ⟨i, by rw [List.getElem?_append_left (List.getElem?_eq_some_iff.1 hi).1]; exact hi⟩

theorem Grow.lim {Q : List Nat → Prop} {s s' : MISet} {vs vs' : List (List Nat)}
    {R R' : Nat → Nat → Prop} (h : Grow Q s vs R s' vs' R') : Lim s' = Lim s := by
  funext v; simp [Lim, h.core.limiter]

theorem Grow.mono {Q Q' : List Nat → Prop} {s s' : MISet} {vs vs' : List (List Nat)}
    {R R' : Nat → Nat → Prop} (h : Grow Q s vs R s' vs' R') (hQ : ∀ x, Q x → Q' x) :
    Grow Q' s vs R s' vs' R' := by
  obtain ⟨n1, e1, q1, g1⟩ := h.nodes
  exact ⟨h.core, ⟨n1, e1, fun x hx => hQ x (q1 x hx), g1⟩, h.sub⟩

theorem Grow.mem {Q : List Nat → Prop} {s s' : MISet} {vs vs' : List (List Nat)}
    {R R' : Nat → Nat → Prop} (h : Grow Q s vs R s' vs' R') {v : List Nat} (hv : v ∈ vs) :
    v ∈ vs' := by
  obtain ⟨n1, e1, _, _⟩ := h.nodes
  rw [e1]; exact List.mem_append.2 (Or.inl hv)

/-- Both invariants together. -/
structure Good (F : Prop) (P : Nat → Prop) (s : MISet) (vs : List (List Nat))
    (R : Nat → Nat → Prop) : Prop where
  base : Base s vs R
  sem : Sem F P (Lim s) vs (Act s) R

theorem storeMissing_new {F : Prop} {P : Nat → Prop} {s : MISet} {vs : List (List Nat)}
    {R : Nat → Nat → Prop} (h : Good F P s vs R) {v : List Nat} (hv : v ∉ vs)
    (hlen : v.length = s.length) (hl : Lim s v) {Q : List Nat → Prop} (hQ : Q v) :
    ∃ s', addInactive s (ofVec v) = .ok (s', some vs.length) ∧
      storeMissing s (ofVec v) = .ok s' ∧ Good F P s' (vs ++ [v]) (addR R vs (Lim s) v) ∧
      Grow Q s vs R s' (vs ++ [v]) (addR R vs (Lim s) v) := by
  obtain ⟨s', e1, hb, hc, hg⟩ := addMulti_spec h.base hv hlen
  have e2 : addInactive s (ofVec v) = .ok (s', some vs.length) := by
    have hl' : s.limiter (ofVec v) = true := hl
    simp [addInactive, h.base.find, findPos_none.2 hv, hl', e1]
  have hgrow : Grow Q s vs R s' (vs ++ [v]) (addR R vs (Lim s) v) := by
    refine ⟨hc, ⟨[v], rfl, ?_, ?_⟩, fun a b hr => Or.inl hr⟩
    · intro x hx; simp only [List.mem_singleton] at hx; subst hx; exact hQ
    · simpa using hg
  refine ⟨s', e2, by simp [storeMissing, e2], ⟨hb, ?_⟩, hgrow⟩
  have := h.sem.addNode (fun g hg => h.base.act_lt hg) hv hl
  have hA : Act s' = Act s := by funext g; exact propext (hgrow.act g)
  rw [hgrow.lim, hA]; exact this

/-- Loop of `AddForwardNeighbors(g, true)`. -/
theorem forwardFold_store {F : Prop} {P : Nat → Prop} {g : Nat} {v : List Nat}
    {Q : List Nat → Prop} (ws : List (List Nat)) :
    ∀ (s : MISet) (vs : List (List Nat)) (R : Nat → Nat → Prop), Good F P s vs R →
    vs[g]? = some v → Lim s v → (∀ w ∈ ws, Fwd v w ∧ w.length = s.length ∧ Q w) →
    ∃ s' vs' R', forwardFold storeMissing g (ws.map ofVec) s = .ok s' ∧ Good F P s' vs' R' ∧
      Grow Q s vs R s' vs' R' ∧ (∀ w ∈ ws, Lim s w → ∃ k, vs'[k]? = some w ∧ R' g k) ∧
      vs'.length ≤ vs.length + ws.length := by
  induction ws with
  | nil =>
    intro s vs R h hv hl hws
    exact ⟨s, vs, R, rfl, h, Grow.refl, by simp, by simp⟩
  | cons w ws ih =>
    intro s vs R h hv hl hws
    obtain ⟨hf, hlen, hQ⟩ := hws w (by simp)
    have hg : g < vs.length := (List.getElem?_eq_some_iff.1 hv).1
    have step : ∃ s1 vs1 R1, forwardStep storeMissing g (ofVec w) s = .ok s1 ∧ Good F P s1 vs1 R1 ∧
        Grow Q s vs R s1 vs1 R1 ∧ (Lim s w → ∃ k, vs1[k]? = some w ∧ R1 g k) ∧
        vs1.length ≤ vs.length + 1 := by
      by_cases hlw : Lim s w
      · by_cases hw : w ∈ vs
        · obtain ⟨k, hk⟩ := List.getElem?_of_mem hw
          obtain ⟨o, i, e1, e2⟩ := forwardStep_found h.base storeMissing hg hk hlw
          refine ⟨_, vs, _, e1, ⟨h.base.edges_update e2, ?_⟩, ⟨⟨rfl, rfl, rfl, rfl⟩,
            ⟨[], by simp, by simp, by simp⟩, fun a b hr => Or.inl hr⟩,
            fun _ => ⟨k, hk, Or.inr ⟨rfl, rfl⟩⟩, by omega⟩
          exact h.sem.addEdge hv hk hf hlw
        · rw [forwardStep_missing h.base _ _ hw hlw]
          obtain ⟨s', _, e2, h3, h4⟩ := storeMissing_new h hw hlen hlw hQ
          refine ⟨s', _, _, e2, h3, h4, fun _ => ⟨vs.length, by simp, ?_⟩, by simp⟩
          exact Or.inr (Or.inr ⟨rfl, v, hv, hf, hl⟩)
      · exact ⟨s, vs, R, forwardStep_rejected _ _ hlw, h, Grow.refl, fun hh => absurd hh hlw, by omega⟩
    obtain ⟨s1, vs1, R1, e1, h1, g1, l1, n1⟩ := step
    obtain ⟨s2, vs2, R2, e2, h2, g2, l2, n2⟩ := ih s1 vs1 R1 h1 (g1.get hv) (by rw [g1.lim]; exact hl)
      (fun w' hw' => by
        obtain ⟨a, b, c⟩ := hws w' (by simp [hw'])
        exact ⟨a, by rw [g1.core.length]; exact b, c⟩)
    refine ⟨s2, vs2, R2, by simp [forwardFold, e1, e2], h2, g1.trans g2, ?_, by
      simp only [List.length_cons]; omega⟩
    intro w' hw' hlw'
    rcases List.mem_cons.1 hw' with e | e
    · subst e
      obtain ⟨k, hk, hr⟩ := l1 hlw'
      exact ⟨k, g2.get hk, g2.sub _ _ hr⟩
    · exact l2 w' e (by rw [g1.lim]; exact hlw')

/-- Loop of `AddBackwardNeighbors(g, true)`. -/
theorem backwardFold_store {F : Prop} {P : Nat → Prop} {g : Nat} {v : List Nat}
    {Q : List Nat → Prop} (ws : List (List Nat)) :
    ∀ (s : MISet) (vs : List (List Nat)) (R : Nat → Nat → Prop), Good F P s vs R →
    vs[g]? = some v → Lim s v → (∀ w ∈ ws, Fwd w v ∧ w.length = s.length ∧ Q w) →
    ∃ s' vs' R', backwardFold storeMissing g (ws.map ofVec) s = .ok s' ∧ Good F P s' vs' R' ∧
      Grow Q s vs R s' vs' R' ∧ (∀ w ∈ ws, Lim s w → w ∈ vs') := by
  induction ws with
  | nil =>
    intro s vs R h hv hl hws
    exact ⟨s, vs, R, rfl, h, Grow.refl, by simp⟩
  | cons w ws ih =>
    intro s vs R h hv hl hws
    obtain ⟨hf, hlen, hQ⟩ := hws w (by simp)
    have hg : g < vs.length := (List.getElem?_eq_some_iff.1 hv).1
    have step : ∃ s1 vs1 R1, backwardStep storeMissing g (ofVec w) s = .ok s1 ∧ Good F P s1 vs1 R1 ∧
        Grow Q s vs R s1 vs1 R1 ∧ (Lim s w → w ∈ vs1) := by
      by_cases hlw : Lim s w
      · by_cases hw : w ∈ vs
        · obtain ⟨k, hk⟩ := List.getElem?_of_mem hw
          obtain ⟨o, i, e1, e2⟩ := backwardStep_found h.base storeMissing hg hk hlw
          refine ⟨_, vs, _, e1, ⟨h.base.edges_update e2, ?_⟩, ⟨⟨rfl, rfl, rfl, rfl⟩,
            ⟨[], by simp, by simp, by simp⟩, fun a b hr => Or.inl hr⟩, fun _ => hw⟩
          exact h.sem.addEdge hk hv hf hl
        · rw [backwardStep_missing h.base _ _ hw hlw]
          obtain ⟨s', _, e2, h3, h4⟩ := storeMissing_new h hw hlen hlw hQ
          exact ⟨s', _, _, e2, h3, h4, fun _ => by simp⟩
      · exact ⟨s, vs, R, backwardStep_rejected _ _ hlw, h, Grow.refl, fun hh => absurd hh hlw⟩
    obtain ⟨s1, vs1, R1, e1, h1, g1, l1⟩ := step
    obtain ⟨s2, vs2, R2, e2, h2, g2, l2⟩ := ih s1 vs1 R1 h1 (g1.get hv) (by rw [g1.lim]; exact hl)
      (fun w' hw' => by
        obtain ⟨a, b, c⟩ := hws w' (by simp [hw'])
        exact ⟨a, by rw [g1.core.length]; exact b, c⟩)
    refine ⟨s2, vs2, R2, by simp [backwardFold, e1, e2], h2, g1.trans g2, ?_⟩
    intro w' hw' hlw'
    rcases List.mem_cons.1 hw' with e | e
    · subst e
      exact g2.mem (l1 hlw')
    · exact l2 w' e (by rw [g1.lim]; exact hlw')

/-! ### Largest degrees -/

theorem bumpOrders_eq (v : List Nat) : ∀ (pre mo : List Nat), mo.length = v.length →
    bumpOrders (pre ++ mo) (nzI pre.length v) (nzV v) = .ok (pre ++ List.zipWith max mo v) := by
  induction v with
  | nil => intro pre mo h; cases mo <;> simp_all [nzI, nzV, bumpOrders]
  | cons x xs ih =>
    intro pre mo h
    cases mo with
    | nil => simp at h
    | cons m ms =>
      have h' : ms.length = xs.length := by simpa using h
      by_cases hx : x = 0
      · subst hx
        have := ih (pre ++ [m]) ms h'
        simpa [nzI, nzV] using this
      · have h0 : 0 < x := Nat.pos_of_ne_zero hx
        have hlt : pre.length < (pre ++ m :: ms).length := by simp
        have h2 := ih (pre ++ [max m x]) ms h'
        simp only [nzI, nzV, h0, if_true, bumpOrders, Res.at'_lt hlt]
        simp only [List.length_append, List.length_cons, List.length_nil, Nat.zero_add,
          List.append_assoc, List.singleton_append] at h2
        have hset : Res.setAt (pre ++ m :: ms) pre.length (max m x)
            = .ok (pre ++ max m x :: ms) := by
          rw [Res.setAt_lt hlt]; simp
        simp [hset, Res.at'_lt, h2]

/-- State after an activation: the effect of `Activate(g)` on an inactive stored node. -/
structure Activated (s : MISet) (vs : List (List Nat)) (g : Nat) (v : List Nat)
    (s' : MISet) (vs' : List (List Nat)) : Prop where
  length : s'.length = s.length
  limiter : s'.limiter = s.limiter
  a2g : s'.active2global = s.active2global ++ [g]
  act : ∀ k, Act s' k ↔ Act s k ∨ k = g
  newIdx : s'.global2active[g]? = some (some s.active2global.length)
  orders : s'.maxOrders = List.zipWith max s.maxOrders v
  nodes : ∃ new, vs' = vs ++ new ∧ ∀ x ∈ new, Fwd v x ∨ Fwd x v

theorem Activated.get {s s' : MISet} {vs vs' : List (List Nat)} {g k : Nat} {v u : List Nat}
    (h : Activated s vs g v s' vs') (hv : vs[k]? = some u) : vs'[k]? = some u := by
  obtain ⟨n1, e1, _⟩ := h.nodes
  rw [e1, List.getElem?_append_left (List.getElem?_eq_some_iff.1 hv).1]; exact hv

theorem activateG_spec {F : Prop} {P : Nat → Prop} {s : MISet} {vs : List (List Nat)}
    {R : Nat → Nat → Prop} (h : Good F P s vs R) {g : Nat} {v : List Nat} (hv : vs[g]? = some v)
    (hl : Lim s v) (hna : ¬ Act s g) (hmo : s.maxOrders.length = s.length) :
    ∃ s' vs' R', activateG s g = .ok s' ∧ Good F P s' vs' R' ∧ Activated s vs g v s' vs' := by
  have hg : g < vs.length := (List.getElem?_eq_some_iff.1 hv).1
  have hlen : v.length = s.length := h.base.len v (List.mem_of_getElem? hv)
  have hg2 : g < s.global2active.length := by rw [h.base.g2a_len]; exact hg
  have hnone : s.global2active[g]? = some none := by
    cases e : s.global2active[g] with
    | none => simp [hg2, e]
    | some i => exact absurd ⟨i, by simp [hg2, e]⟩ hna
  let s0 : MISet := { s with
    active2global := s.active2global ++ [g]
    global2active := s.global2active.set g (some s.active2global.length)
    maxOrders := List.zipWith max s.maxOrders v }
  have hact : ∀ k, Act s0 k ↔ Act s k ∨ k = g := by
    intro k
    simp only [Act, s0, List.getElem?_set]
    by_cases e : g = k
    · subst e; simp [hg2]
    · simp [e, Ne.symm e]
  have hb0 : Base s0 vs R := by
    refine ⟨h.base.multis, h.base.nodup, h.base.len, h.base.map, h.base.edges,
      by simp [s0, h.base.g2a_len], ?_⟩
    intro i k
    simp only [s0]
    rw [getElem?_snoc, List.getElem?_set]
    by_cases e : g = k
    · subst e
      simp only [if_true, hg2]
      constructor
      · rintro (e | ⟨rfl, _⟩)
        · rw [h.base.a2g, hnone] at e; simp at e
        · rfl
      · intro e
        simp only [Option.some.injEq] at e
        exact Or.inr ⟨e.symm, trivial⟩
    · rw [if_neg e, ← h.base.a2g]
      constructor
      · rintro (e' | ⟨_, e'⟩)
        · exact e'
        · exact absurd e'.symm e
      · exact Or.inl
  have hs0 : Good F (fun k => P k ∨ k = g) s0 vs R :=
    ⟨hb0, Sem.activate (act := Act s) h.sem hact⟩
  have hl0 : Lim s0 v := hl
  obtain ⟨s1, vs1, R1, e1, h1, g1, l1, _⟩ := forwardFold_store (g := g) (v := v)
    (Q := fun x => Fwd v x ∨ Fwd x v) (fwdList v) s0 vs R hs0 hv hl0
    (fun w hw => by
      have hf := mem_fwdList.1 hw
      exact ⟨hf, by rw [hf.length]; exact hlen, Or.inl hf⟩)
  obtain ⟨s2, vs2, R2, e2, h2, g2, l2⟩ := backwardFold_store (g := g) (v := v)
    (Q := fun x => Fwd v x ∨ Fwd x v) (bwdList v) s1 vs1 R1 h1 (g1.get hv)
    (by rw [g1.lim]; exact hl0)
    (fun w hw => by
      have hf := mem_bwdList.1 hw
      refine ⟨hf, ?_, Or.inr hf⟩
      rw [g1.core.length, ← hf.length]; exact hlen)
  have g12 := g1.trans g2
  have hv2 := g12.get hv
  refine ⟨s2, vs2, R2, ?_, ⟨h2.base, ?_⟩, ?_⟩
  · have hmlen : (ofVec v).length = v.length := by simp
    have hbump : bumpOrders s.maxOrders (ofVec v).nzInds (ofVec v).nzVals
        = .ok (List.zipWith max s.maxOrders v) := by
      have := bumpOrders_eq v [] s.maxOrders (by rw [hmo, hlen])
      simpa [ofVec_eq] using this
    have ha : Res.at' s.global2active g = .ok none := Res.at'_some hnone
    have hset : Res.setAt s.global2active g (some ((s.active2global ++ [g]).length - 1))
        = .ok (s.global2active.set g (some s.active2global.length)) := by
      rw [Res.setAt_lt hg2]; simp
    unfold activateG
    simp only [ha, Res.bind_ok, Option.isSome_none, Bool.false_eq_true, if_false,
      h.base.at_multis hv, hset, hbump]
    change (addForwardNeighbors storeMissing s0 g >>= _) = _
    have hm0 := hb0.at_multis hv
    have hm1 := h1.base.at_multis (g1.get hv)
    simp only [addForwardNeighbors, hm0, Res.bind_ok, forwardNeighbors_ofVec, e1,
      addBackwardNeighbors, hm1, backwardNeighbors_ofVec, e2]
  · refine Sem.unpend h2.sem hv2 (by rw [g12.lim]; exact hl0) ?_ h2.base.nodup ?_
    · intro w hf hlw
      rw [g12.lim] at hlw
      obtain ⟨k, hk, hr⟩ := l1 w (mem_fwdList.2 hf) hlw
      exact ⟨k, g2.get hk, g2.sub _ _ hr⟩
    · intro _ w hf hlw
      rw [g12.lim] at hlw
      exact l2 w (mem_bwdList.2 hf) (by rw [g1.lim]; exact hlw)
  · obtain ⟨new, en, qn, gn⟩ := g12.nodes
    refine ⟨g12.core.length, g12.core.limiter, g12.core.a2g, fun k => (g12.act k).trans (hact k), ?_,
      g12.core.maxOrders, new, en, qn⟩
    rw [gn, List.getElem?_append_left (by simpa [s0] using hg2)]
    simp [s0, hg2]

theorem activateG_active {s : MISet} {g : Nat} (ha : Act s g) : activateG s g = .ok s := by
  obtain ⟨i, hi⟩ := ha
  simp [activateG, Res.at'_some hi]

/-! ### `AddActive` -/

theorem init_good (F : Prop) (n : Nat) (lim : MultiIndex → Bool) :
    Good F (fun _ => False) (init n lim) [] (fun _ _ => False) := by
  refine ⟨⟨rfl, by simp, by simp, rfl, ⟨rfl, rfl, by simp [init], by simp [init], by simp⟩, rfl,
    by simp [init]⟩, ⟨by simp, by simp, by simp, by simp, by simp, by simp, by simp, by simp⟩⟩

end MISet
end MParT
