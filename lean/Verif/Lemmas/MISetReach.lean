import Verif.Spec.MISetHist
import Verif.Lemmas.MISetOps
import Verif.Lemmas.MISetLimiter
import Verif.Lemmas.MISetForce
/-!
Helper lemmas for `MultiIndexSet`, part 7: every reachable set satisfies the invariant.
-/
namespace MParT
namespace MISet
open MultiIndex Spec Neighborhood

theorem refLoop_mono (edges : MISet → List (List Nat))
    (b1 b2 : MISet → List Nat → Nat → Res (MISet × List Nat))
    (hb : ∀ s new k r, b1 s new k = .ok r → b2 s new k = .ok r) (g : Nat) (snap : List Nat)
    (ks : List Nat) : ∀ s new r, refLoop edges b1 g snap ks s new = .ok r →
      refLoop edges b2 g snap ks s new = .ok r := by
  induction ks with
  | nil => intro s new r h; exact h
  | cons k ks ih =>
    intro s new r h
    simp only [refLoop, Res.bind_eq_ok] at h ⊢
    obtain ⟨cur, h1, h2⟩ := h
    refine ⟨cur, h1, ?_⟩
    split at h2
    · rename_i hc
      rw [if_pos hc]
      simp only [Res.bind_eq_ok] at h2 ⊢
      obtain ⟨r1, h3, h4⟩ := h2
      exact ⟨r1, hb _ _ _ _ h3, ih _ _ _ h4⟩
    · cases h2

theorem forceG_mono {cap cap' : Nat} (hc : cap ≤ cap') (fuel : Nat) : ∀ s new g r,
    forceG cap fuel s new g = .ok r → forceG cap' fuel s new g = .ok r := by
  induction fuel with
  | zero => intro s new g r h; cases h
  | succ fuel ih =>
    intro s new g r h
    simp only [forceG, Res.bind_eq_ok] at h ⊢
    obtain ⟨act, h1, h2⟩ := h
    refine ⟨act, h1, ?_⟩
    split at h2
    · rename_i ha; rw [if_pos ha]; exact h2
    · rename_i ha
      rw [if_neg ha]
      simp only [Res.bind_eq_ok] at h2 ⊢
      obtain ⟨s1, h3, h4⟩ := h2
      refine ⟨s1, h3, ?_⟩
      split at h4
      · cases h4
      · rename_i hl
        rw [if_neg (by omega)]
        simp only [Res.bind_eq_ok] at h4 ⊢
        obtain ⟨a, h5, h6⟩ := h4
        refine ⟨a, h5, ?_⟩
        cases a with
        | none => cases h6
        | some i =>
          simp only [Res.bind_eq_ok] at h6 ⊢
          obtain ⟨snap, h7, h8⟩ := h6
          exact ⟨snap, h7, refLoop_mono _ _ _ ih _ _ _ _ _ _ h8⟩

theorem forceTop_mono {cap cap' : Nat} (hc : cap ≤ cap') (fuel : Nat) (s : MISet) (g : Nat)
    (r : MISet × List Nat) (h : forceTop cap fuel s g = .ok r) : forceTop cap' fuel s g = .ok r := by
  simp only [forceTop, Res.bind_eq_ok] at h ⊢
  obtain ⟨act, h1, h2⟩ := h
  refine ⟨act, h1, ?_⟩
  split at h2
  · rename_i ha; rw [if_pos ha]; exact h2
  · rename_i ha
    rw [if_neg ha]
    simp only [Res.bind_eq_ok] at h2 ⊢
    obtain ⟨s1, h3, a, h5, h6⟩ := h2
    refine ⟨s1, h3, a, h5, ?_⟩
    cases a with
    | none => cases h6
    | some i =>
      simp only [Res.bind_eq_ok] at h6 ⊢
      obtain ⟨snap, h7, h8⟩ := h6
      exact ⟨snap, h7, refLoop_mono _ _ _ (forceG_mono hc fuel) _ _ _ _ _ _ h8⟩

theorem forciblyActivate_mono {cap cap' : Nat} (hc : cap ≤ cap') {s : MISet} {m : MultiIndex}
    {r : MISet × List Nat} (h : s.forciblyActivate cap m = .ok r) :
    s.forciblyActivate cap' m = .ok r := by
  simp only [forciblyActivate] at h ⊢
  split at h
  · rename_i hl
    rw [if_pos hl]
    simp only [Res.bind_eq_ok] at h ⊢
    obtain ⟨o, h1, h2⟩ := h
    refine ⟨o, h1, ?_⟩
    cases o with
    | some g => exact forceTop_mono hc _ _ _ _ h2
    | none =>
      simp only [Res.bind_eq_ok] at h2 ⊢
      obtain ⟨p, h3, h4⟩ := h2
      refine ⟨p, h3, ?_⟩
      cases hp : p.2 with
      | none => rw [hp] at h4; cases h4
      | some g => rw [hp] at h4; exact forceTop_mono hc _ _ _ _ h4
  · cases h

theorem forciblyExpand_mono {cap cap' : Nat} (hc : cap ≤ cap') {s : MISet} {i : Nat}
    {r : MISet × List Nat} (h : s.forciblyExpand cap i = .ok r) :
    s.forciblyExpand cap' i = .ok r := by
  simp only [forciblyExpand] at h ⊢
  split at h
  · cases h
  · rename_i hl
    rw [if_neg hl]
    simp only [Res.bind_eq_ok] at h ⊢
    obtain ⟨g, h1, m, h2, snap, h3, h4⟩ := h
    exact ⟨g, h1, m, h2, snap, h3, refLoop_mono _ _ _ (forceG_mono hc _) _ _ _ _ _ _ h4⟩

theorem Inv.terms' {F : Prop} {s : MISet} {vs : List (List Nat)} {R : Nat → Nat → Prop}
    {ts : List (List Nat)} (h : Inv F s vs R ts) : Terms s ts := by
  refine ⟨h.size, fun i t ht => ?_⟩
  obtain ⟨g, hg, hv⟩ := h.a2g_at ht
  simp [indexToMulti, Res.at'_some hg, h.base.at_multis hv]

theorem Terms.unique {s : MISet} {ts us : List (List Nat)} (h : Terms s ts) (h' : Terms s us) :
    ts = us := by
  apply List.ext_getElem?
  intro i
  by_cases hi : i < ts.length
  · have hi' : i < us.length := by rw [← h'.1, h.1]; exact hi
    have a := h.2 i ts[i] (by simp [hi])
    have b := h'.2 i us[i] (by simp [hi'])
    rw [a] at b
    have := ofVec_injective (Res.ok.inj b)
    simp [hi, hi', this]
  · have hi' : ¬ i < us.length := by rw [← h'.1, h.1]; exact hi
    simp [Nat.not_lt.1 hi, Nat.not_lt.1 hi']

theorem Inv.weaken {F G : Prop} (hFG : G → F) {s : MISet} {vs : List (List Nat)}
    {R : Nat → Nat → Prop} {ts : List (List Nat)} (h : Inv F s vs R ts) : Inv G s vs R ts :=
  ⟨⟨h.base, ⟨h.sem.sound, h.sem.act_lim, h.sem.viol, h.sem.link, h.sem.closed,
    fun g => h.sem.all_lim (hFG g), fun g => h.sem.full (hFG g), fun g => h.sem.bclosed (hFG g)⟩⟩,
    h.terms, h.mo_len, h.mo⟩

/-- `Union`. -/
theorem Inv.union {F G : Prop} {s r : MISet} {vs us : List (List Nat)} {R Q : Nat → Nat → Prop}
    {ts rs : List (List Nat)} (h : Inv F s vs R ts) (hr : Inv G r us Q rs)
    (hlen : r.length = s.length) :
    ∃ s' vs' R' added, MISet.union s r = .ok (s', added.length) ∧
      Inv F s' vs' R' (ts ++ added) ∧ Ext s vs s' vs' ∧
      (∀ w, w ∈ added ↔ w ∉ ts ∧ Lim s w ∧ w ∈ rs) ∧
      (∀ T : List Nat → Prop, (∀ x ∈ ts ++ added, T x) →
        (∀ g u, us[g]? = some u → ¬ Act r g → Lim s u → ∃ t, T t ∧ (Fwd t u ∨ Fwd u t)) →
        NearTo T s vs → NearTo T s' vs') := by
  have hz : r.allMultis.zip r.global2active
      = (us.zip r.global2active).map (fun p => (ofVec p.1, p.2)) := by
    rw [hr.base.multis, List.zip_map_left]; rfl
  have hmem : ∀ w o, (w, o) ∈ us.zip r.global2active ↔
      ∃ g : Nat, us[g]? = some w ∧ r.global2active[g]? = some o := by
    intro w o
    rw [List.mem_iff_getElem?]
    simp only [List.getElem?_zip_eq_some]
  obtain ⟨s', vs', R', added, e, i, x, m, n⟩ := unionLoop_spec (us.zip r.global2active) s vs R ts h (by
    intro p hp
    have := (List.of_mem_zip (show (p.1, p.2) ∈ _ from hp)).1
    rw [hr.base.len p.1 this, hlen])
  refine ⟨s', vs', R', added, ?_, i, x, ?_, ?_⟩
  · simp only [MISet.union, hz, e, Res.bind_ok, Res.pure_eq, MISet.size, i.size, h.size]
    simp
  · intro w
    rw [m]
    refine and_congr_right fun _ => and_congr_right fun _ => ?_
    constructor
    · rintro ⟨a, ha⟩
      obtain ⟨g, h1, h2⟩ := (hmem _ _).1 ha
      exact (hr.act_mem h1).1 ⟨a, h2⟩
    · intro hw
      obtain ⟨g, hg, a, ha⟩ := hr.mem_vs hw
      exact ⟨a, (hmem _ _).2 ⟨g, hg, ha⟩⟩
  · intro T hT hI hn
    apply n T hT _ hn
    intro u hu hl
    obtain ⟨g, h1, h2⟩ := (hmem _ _).1 hu
    exact hI g u h1 (by rintro ⟨a, ha⟩; rw [h2] at ha; simp at ha) hl

theorem Inv.addActive_viol {F : Prop} (hF : F) {s : MISet} {vs : List (List Nat)}
    {R : Nat → Nat → Prop} {ts : List (List Nat)} (h : Inv F s vs R ts) {v : List Nat}
    (hl : ¬ Lim s v) : s.addActive (ofVec v) = .ok (s, none) :=
  h.addActive_rejected (fun hm => hl (h.sem.all_lim hF v hm)) hl

/-- What every reachable set satisfies. -/
def Ok (b : Bool) (s : MISet) : Prop :=
  ∃ vs R ts, Inv (b = true) s vs R ts ∧ (b = true → NearTo (· ∈ ts) s vs)

theorem mem_addT_self (ts : List (List Nat)) (w : List Nat) : w ∈ addT ts w := by
  simp [mem_addT]

theorem NearTo.mono {T T' : List Nat → Prop} {s : MISet} {vs : List (List Nat)}
    (h : NearTo T s vs) (ht : ∀ x, T x → T' x) : NearTo T' s vs := by
  intro k w hk hn
  obtain ⟨t, h1, h2⟩ := h k w hk hn
  exact ⟨t, ht t h1, h2⟩

theorem Reach.ok {b : Bool} {s : MISet} (h : Reach b s) : Ok b s := by
  induction h with
  | init len lim =>
    exact ⟨[], _, [], init_inv _ len lim, fun _ k w hk => by simp at hk⟩
  | @addActive b s s' v o _ hlen hl e ih =>
    obtain ⟨vs, R, ts, hi, hn⟩ := ih
    obtain ⟨s1, vs1, R1, i, e1, i1, x1, t1, n1⟩ := hi.addActive hlen hl
    rw [e1] at e; cases e
    refine ⟨vs1, R1, _, i1, fun hb => n1 _ (mem_addT_self ts v) ((hn hb).mono fun x hx => ?_)⟩
    simp [mem_addT, hx]
  | @addRejected s s' v o _ hl e ih =>
    obtain ⟨vs, R, ts, hi, hn⟩ := ih
    rw [hi.addActive_viol rfl hl] at e; cases e
    exact ⟨vs, R, ts, hi, hn⟩
  | @activate b s s' v _ e ih =>
    obtain ⟨vs, R, ts, hi, hn⟩ := ih
    simp only [MISet.activate, hi.base.find, Res.bind_ok] at e
    cases hf : findPos v vs with
    | none => rw [hf] at e; cases e
    | some g =>
      rw [hf] at e
      have hg := findPos_some hf
      obtain ⟨r, h1, h2⟩ := hi.isAdmissibleG hg
      simp only [h1, Res.bind_ok] at e
      split at e
      · rename_i hr
        obtain ⟨s1, vs1, R1, i, e1, i1, x1, _, t1, n1⟩ := hi.activateG hg (h2.1 hr).1
        rw [e1] at e; cases e
        refine ⟨vs1, R1, _, i1, fun hb => n1 _ (mem_addT_self ts v) fun k w _ hk hna => ?_⟩
        obtain ⟨t, ht, hf⟩ := hn hb k w hk hna
        exact ⟨t, by simp [mem_addT, ht], hf⟩
      · cases e
  | @expand b s s' i new _ e ih =>
    obtain ⟨vs, R, ts, hi, hn⟩ := ih
    by_cases hlt : i < ts.length
    · obtain ⟨s1, vs1, R1, added, e1, i1, x1, m1, n1⟩ := hi.expand (i := i) (t := ts[i]) (by simp [hlt])
      rw [e1] at e; cases e
      refine ⟨vs1, R1, _, i1, fun hb => n1 _ (fun x hx => by simp [hx]) ((hn hb).mono fun x hx => ?_)⟩
      simp [hx]
    · rw [MISet.expand, if_pos (by rw [hi.size]; omega)] at e
      cases e
  | @expandAll b s s' new _ e ih =>
    obtain ⟨vs, R, ts, hi, hn⟩ := ih
    obtain ⟨s1, vs1, R1, added, nw, e1, i1, x1, m1, _, n1⟩ := hi.expandAll
    rw [e1] at e; cases e
    refine ⟨vs1, R1, _, i1, fun hb => n1 _ (fun x hx => hx) ((hn hb).mono fun x hx => ?_)⟩
    simp [hx]
  | @forciblyActivate s s' v cap new _ hlen e ih =>
    obtain ⟨vs, R, ts, hi, hn⟩ := ih
    by_cases hl : Lim s v
    · obtain ⟨s1, vs1, R1, added, e1, i1, x1, m1, _, _, n1⟩ := hi.forciblyActivate rfl hlen hl
      have e2 := forciblyActivate_mono (le_max_left cap vs1.length) e
      rw [e1 _ (le_max_right cap vs1.length)] at e2; cases e2
      refine ⟨vs1, R1, _, i1, fun hb => n1 _ (fun x hx => hx) ((hn hb).mono fun x hx => ?_)⟩
      simp [hx]
    · rw [MISet.forciblyActivate, if_neg (show ¬ s.limiter (ofVec v) = true from hl)] at e; cases e
  | @forciblyExpand s s' i cap new _ e ih =>
    obtain ⟨vs, R, ts, hi, hn⟩ := ih
    by_cases hlt : i < ts.length
    · obtain ⟨s1, vs1, R1, added, e1, i1, x1, m1, _, _, n1⟩ :=
        hi.forciblyExpand rfl (i := i) (t := ts[i]) (by simp [hlt])
      have e2 := forciblyExpand_mono (le_max_left cap vs1.length) e
      rw [e1 _ (le_max_right cap vs1.length)] at e2; cases e2
      refine ⟨vs1, R1, _, i1, fun hb => n1 _ (fun x hx => hx) ((hn hb).mono fun x hx => ?_)⟩
      simp [hx]
    · rw [MISet.forciblyExpand, if_pos (by rw [hi.size]; omega)] at e
      cases e
  | @unionSame b s r s' n _ _ hlen hlim e ih ih' =>
    obtain ⟨vs, R, ts, hi, hn⟩ := ih
    obtain ⟨us, Q, rs, hr, hnr⟩ := ih'
    obtain ⟨s1, vs1, R1, added, e1, i1, x1, m1, n1⟩ := hi.union hr hlen
    rw [e1] at e; cases e
    refine ⟨vs1, R1, _, i1, fun hb => n1 _ (fun x hx => hx) ?_ ((hn hb).mono fun x hx => ?_)⟩
    · intro g u hg hna _
      obtain ⟨t, ht, hf⟩ := hnr hb g u hg hna
      refine ⟨t, ?_, hf⟩
      by_cases hts : t ∈ ts
      · simp [hts]
      · have : Lim s t := by
          have := hr.lim ht
          unfold Lim at this ⊢; rw [← hlim]; exact this
        simp [(m1 t).2 ⟨hts, this, ht⟩]
    · simp [hx]
  | @union b b' s r s' n _ _ hlen e ih ih' =>
    obtain ⟨vs, R, ts, hi, hn⟩ := ih
    obtain ⟨us, Q, rs, hr, hnr⟩ := ih'
    obtain ⟨s1, vs1, R1, added, e1, i1, x1, m1, n1⟩ := hi.union hr hlen
    rw [e1] at e; cases e
    exact ⟨vs1, R1, _, i1.weaken (by simp), by simp⟩
  | @setLimiter b s s' L _ e ih =>
    obtain ⟨vs, R, ts, hi, hn⟩ := ih
    obtain ⟨s1, vs1, R1, thrown, e1, _, _, _, _, _, _, h8⟩ := hi.setLimiter L
    rw [e1] at e; cases e
    exact ⟨vs1, R1, ts, (h8 rfl).weaken (by simp), by simp⟩
  | @assign b b' s r s' _ _ e _ ih =>
    obtain ⟨vs, R, ts, hi, hn⟩ := ih
    unfold MISet.assign at e
    split at e
    · cases e
    · rename_i hl
      have hl' : s.length = r.length := by omega
      cases e
      rw [hl']
      exact ⟨vs, R, ts, hi, hn⟩

end MISet
end MParT
