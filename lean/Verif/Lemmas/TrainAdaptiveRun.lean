import Verif.Lemmas.TrainAdaptive
import Mathlib.Algebra.Order.BigOperators.Group.List
/-!
Helper lemmas for adaptive training: the invariant of the loop.
-/
namespace MParT
namespace ATM
open MultiIndex Spec MISet

/-- What holds at the top of the loop when the maps of the history `v :: h` have been trained. -/
structure RunInv (env : Env) (D : List Nat) (lims : List (MultiIndex → Bool)) (lens : List Nat)
    (S0 consts : List (List (List Nat))) (st : St) (v : Visit) (h : List Visit) : Prop where
  hist : History D lims env.testError S0 env.initError (v :: h)
  reach : ∀ s ∈ st.mset0, ∃ b, Reach b s
  terms : List.Forall₂ Terms st.mset0 v.sets
  hlims : st.mset0.map MISet.limiter = lims
  hlens : st.mset0.map MISet.length = lens
  tmpLens : st.tmp.map MISet.length = lens
  bestLens : st.best.map MISet.length = lens
  sizes : st.sizes = v.sets.map List.length
  cur : st.currSz = total v.sets
  pat : ∃ u ∈ (v :: h).drop st.patience, u.err = st.bestError
  min : ∀ u ∈ v :: h, st.bestError ≤ u.err
  best : (st.bestError = env.initError ∧ List.Forall₂ Terms st.best consts) ∨
    (st.bestError < env.initError ∧ ∃ u ∈ v :: h, u.err = st.bestError ∧ List.Forall₂ Terms st.best u.sets)
  bound : ∀ u ∈ v :: h, total u.sets ≤ max (total S0) env.maxSize

theorem idx_eq {α : Type} {l : List α} {i : Nat} {a : α} (h : Res.idx l i = .ok a) : l[i]? = some a := by
  unfold Res.idx at h
  split at h
  · rename_i b hb; cases h; exact hb
  · cases h

theorem forall2_get {α β : Type} {R : α → β → Prop} {l : List α} {m : List β} (h : List.Forall₂ R l m) {i : Nat} {a : α}
    (ha : l[i]? = some a) : ∃ b, m[i]? = some b ∧ R a b := by
  induction h generalizing i with
  | nil => simp at ha
  | cons h1 _ ih =>
    cases i with
    | zero => simp only [List.getElem?_cons_zero, Option.some.injEq] at ha ⊢; subst ha; exact ⟨_, rfl, h1⟩
    | succ i => simp only [List.getElem?_cons_succ] at ha ⊢; exact ih ha

theorem forall2_set {α β : Type} {R : α → β → Prop} {l : List α} {m : List β} (h : List.Forall₂ R l m) (i : Nat) {a : α}
    {b : β} (hr : R a b) : List.Forall₂ R (l.set i a) (m.set i b) := by
  induction h generalizing i with
  | nil => exact List.Forall₂.nil
  | cons h1 h2 ih =>
    cases i with
    | zero => exact List.Forall₂.cons hr h2
    | succ i => exact List.Forall₂.cons h1 (ih i)

theorem map_set_same {α β : Type} (f : α → β) {l : List α} {i : Nat} {a b : α} (ha : l[i]? = some a) (hf : f b = f a) :
    (l.set i b).map f = l.map f := by
  apply List.ext_getElem?
  intro j
  simp only [List.getElem?_map, List.getElem?_set]
  split
  · rename_i hij
    subst hij
    rw [ha]
    have := (List.getElem?_eq_some_iff.1 ha).1
    simp [this, hf]
  · rfl

theorem total_set {S : List (List (List Nat))} {b : Nat} {ts : List (List Nat)} (h : S[b]? = some ts) (w : List Nat) :
    total (S.set b (ts ++ [w])) = total S + 1 := by
  unfold total
  induction S generalizing b with
  | nil => simp at h
  | cons x S ih =>
    cases b with
    | zero =>
      simp only [List.getElem?_cons_zero, Option.some.injEq] at h
      subst h
      simp only [List.set_cons_zero, List.map_cons, List.length_append, List.length_cons, List.length_nil, List.sum_cons]
      omega
    | succ b =>
      simp only [List.getElem?_cons_succ] at h
      simp only [List.set_cons_succ, List.map_cons, List.sum_cons, ih h]
      omega

/-- What a successful step did. -/
theorem step_inv {env : Env} {D : List Nat} (hD : env.maxDegrees = ofVec D) {k : Nat} {st st' : St} {S : List (List (List Nat))}
    (hreach : ∀ s ∈ st.mset0, ∃ b, Reach b s) (hterms : List.Forall₂ Terms st.mset0 S)
    (htmp : st.tmp.length = st.mset0.length) (hsz : st.sizes = S.map List.length)
    (hDl : D ≠ [] → ∀ s ∈ st.mset0, s.length ≤ D.length) (h : step env k st = .ok st') :
    ∃ (b : Nat) (s s' : MISet) (ts : List (List Nat)) (w : List Nat) (bb : Bool) (tmp : List MISet),
      st.mset0[b]? = some s ∧ S[b]? = some ts ∧ Terms s' (ts ++ [w]) ∧ Reach bb s' ∧ s'.length = s.length ∧
      s'.limiter = s.limiter ∧ w ∉ ts ∧ Accepts s w ∧ (∃ t ∈ ts, Fwd t w) ∧ (∀ v, Fwd v w → v ∈ ts) ∧
      (D ≠ [] → ∀ (i x : Nat), w[i]? = some x → ∃ y : Nat, D[i]? = some y ∧ x < y) ∧
      tmp.map MISet.length = st.mset0.map MISet.length ∧
      st' = (if env.testError k (st.mset0.set b s') < st.bestError then
        (match assignAll st.best (st.mset0.set b s') with
          | .ok best => { mset0 := st.mset0.set b s', tmp := tmp, best := best, sizes := st.sizes.set b (ts.length + 1),
                          currSz := st.currSz + 1, patience := 0, bestError := env.testError k (st.mset0.set b s') }
          | _ => st')
        else { st with mset0 := st.mset0.set b s', tmp := tmp, sizes := st.sizes.set b (ts.length + 1),
                       currSz := st.currSz + 1, patience := st.patience + 1 }) := by
  simp only [step, Res.bind_eq_ok] at h
  obtain ⟨⟨tmp, rms⟩, hx, rms', hf, found, hg, h⟩ := h
  cases found with
  | none => cases h
  | some p =>
    obtain ⟨i, b⟩ := p
    simp only [Res.bind_eq_ok] at h
    obtain ⟨t, h1, m, h2, s, h3, ⟨s', o⟩, h4, sz, h5, h⟩ := h
    have h1 := idx_eq h1
    have h3 := idx_eq h3
    have h5 := idx_eq h5
    obtain ⟨ts, hts, ht⟩ := forall2_get hterms h3
    have hlen : st.sizes.length = st.mset0.length := by
      rw [hsz, List.length_map, ← hterms.length_eq]
    obtain ⟨l1, l2, l3⟩ := expandAll_ok htmp hlen hx
    have hmem : s ∈ st.mset0 := List.mem_of_getElem? h3
    obtain ⟨bb, hr⟩ := hreach s hmem
    obtain ⟨t1, added, new, e, tt, nd, el, em, ea, en, _⟩ := C15_expandAll hr ht
    obtain ⟨rm', _, hrm', hirm', _⟩ := findMaxGrad_some hg
    have hblt : b < st.mset0.length := (List.getElem?_eq_some_iff.1 h3).1
    obtain ⟨rm, hrm⟩ : ∃ rm, rms[b]? = some rm := ⟨_, List.getElem?_eq_getElem (by omega)⟩
    have hsx := l3 b s t rm h3 h1 hrm
    rw [e] at hsx
    injection hsx with hsx
    simp only [Prod.mk.injEq] at hsx
    obtain ⟨rfl, rfl⟩ := hsx
    -- the chosen index is one of the new indices and, with maximum degrees, is not bounded
    have hnew : i ∈ new ∧ (D ≠ [] → ∃ bounded, t1.filterBounded (ofVec D) = .ok bounded ∧ bounded[i]? = some false) := by
      by_cases hD0 : D = []
      · subst hD0
        rw [hD, filterStep] at hf
        have : (ofVec []).length = 0 := rfl
        rw [if_pos this] at hf
        injection hf with hf
        rw [← hf] at hrm'
        simp only [hrm] at hrm'
        injection hrm' with hrm'
        exact ⟨hrm' ▸ hirm', fun h => absurd rfl h⟩
      · have hDn : env.maxDegrees.length ≠ 0 := by
          rw [hD]
          intro h0
          exact hD0 (List.length_eq_zero_iff.1 (by simpa using h0))
        rw [filterStep, if_neg hDn, hD] at hf
        obtain ⟨_, f2⟩ := filter_ok (by simp only; omega) hf
        obtain ⟨bounded, g1, g2⟩ := f2 b t1 new rm' h1 hrm hrm'
        obtain ⟨g3, g4⟩ := (g2 i).1 hirm'
        exact ⟨g3, fun _ => ⟨bounded, g1, g4⟩⟩
    obtain ⟨hin, hDi⟩ := hnew
    obtain ⟨hi1, hi2⟩ := (en i).1 hin
    obtain ⟨w, hw⟩ : ∃ w, (ts ++ added)[i]? = some w := ⟨_, List.getElem?_eq_getElem (by simpa using hi2)⟩
    have hwa : w ∈ added := by
      rw [List.getElem?_append_right hi1] at hw
      exact List.mem_of_getElem? hw
    obtain ⟨w1, w2, w3, w4⟩ := (ea w).1 hwa
    have hm : m = ofVec w := by
      have := tt.2 i w hw
      rw [h2] at this
      injection this
    subst hm
    have hr1 : Reach bb t1 := hr.expandAll e
    have hwl : w.length = s.length := by
      rw [(C09_bijection hr1 tt).2.1 w (by simp [hwa]), el]
    obtain ⟨s1, j, ad, hR', ht', hl', hlim', _⟩ := hr.add ht hwl w2
    rw [ad] at h4
    injection h4 with h4
    simp only [Prod.mk.injEq] at h4
    obtain ⟨rfl, rfl⟩ := h4
    have hadd : addT ts w = ts ++ [w] := by simp [addT, w1]
    rw [hadd] at ht'
    have hszb : sz = ts.length := by
      rw [hsz, List.getElem?_map, hts] at h5
      simpa using h5.symm
    subst hszb
    have htmpl : tmp.map MISet.length = st.mset0.map MISet.length := by
      apply List.ext_getElem?
      intro j
      simp only [List.getElem?_map]
      by_cases hj : j < st.mset0.length
      · obtain ⟨a, ha⟩ : ∃ a, st.mset0[j]? = some a := ⟨_, List.getElem?_eq_getElem hj⟩
        obtain ⟨c, hc⟩ : ∃ c, tmp[j]? = some c := ⟨_, List.getElem?_eq_getElem (by omega)⟩
        obtain ⟨d, hd⟩ : ∃ d, rms[j]? = some d := ⟨_, List.getElem?_eq_getElem (by omega)⟩
        have := l3 j a c d ha hc hd
        obtain ⟨b2, hr2⟩ := hreach a (List.mem_of_getElem? ha)
        obtain ⟨ts2, _, ht2⟩ := forall2_get hterms ha
        obtain ⟨t2, _, _, e2, _, _, el2, _⟩ := C15_expandAll hr2 ht2
        rw [this] at e2
        injection e2 with e2
        simp only [Prod.mk.injEq] at e2
        rw [ha, hc, Option.map_some, Option.map_some, e2.1, el2]
      · rw [List.getElem?_eq_none (by omega), List.getElem?_eq_none (by omega)]
    refine ⟨b, s, s1, ts, w, bb, tmp, h3, hts, ht', hR', hl', hlim', w1, w2, w3, w4, ?_, htmpl, ?_⟩
    · intro hD0 x xv hx
      obtain ⟨bounded, g1, g2⟩ := hDi hD0
      have hle := hDl hD0 s hmem
      obtain ⟨fs, f1, f2, f3⟩ := (C04_filterBounded hr1 tt D).1 (by omega)
      rw [f1] at g1
      injection g1 with g1
      subst g1
      have hxl : x < w.length := (List.getElem?_eq_some_iff.1 hx).1
      have hDx : D[x]? = some D[x] := List.getElem?_eq_getElem (by omega)
      refine ⟨D[x], hDx, ?_⟩
      by_contra hlt
      have := (f3 i w false hw g2).2 ⟨x, xv, D[x], hx, hDx, by omega⟩
      cases this
    · split at h
      · cases h
      · simp only [Res.bind_eq_ok] at h
        obtain ⟨_, _, h⟩ := h
        split at h
        · rename_i hlt
          rw [if_pos hlt]
          simp only [Res.bind_eq_ok] at h
          obtain ⟨best, hb, h⟩ := h
          injection h with h
          rw [hb, ← h]
        · rename_i hlt
          rw [if_neg hlt]
          injection h with h
          rw [← h]

theorem RunInv.step {env : Env} {D : List Nat} (hD : env.maxDegrees = ofVec D) {lims : List (MultiIndex → Bool)} {lens : List Nat}
    {S0 consts : List (List (List Nat))} {st st' : St} {v : Visit} {h : List Visit}
    (hi : RunInv env D lims lens S0 consts st v h) (hDl : D ≠ [] → ∀ l ∈ lens, l ≤ D.length) (hlt : st.currSz < env.maxSize)
    (he : ATM.step env h.length st = .ok st') : ∃ v', RunInv env D lims lens S0 consts st' v' (v :: h) := by
  have htl : st.tmp.length = st.mset0.length := by
    have := congrArg List.length (hi.tmpLens.trans hi.hlens.symm)
    simpa using this
  have hDl' : D ≠ [] → ∀ s ∈ st.mset0, s.length ≤ D.length := by
    intro h0 s hs
    refine hDl h0 _ ?_
    rw [← hi.hlens]
    exact List.mem_map_of_mem hs
  obtain ⟨b, s, s', ts, w, bb, tmp, e1, e2, e3, e4, e5, e6, e7, e8, e9, e10, e11, e12, e13⟩ :=
    step_inv hD hi.reach hi.terms htl hi.sizes hDl' he
  have hS' : List.Forall₂ Terms (st.mset0.set b s') (v.sets.set b (ts ++ [w])) := forall2_set hi.terms b e3
  have hgrow : Grows D lims v.sets (v.sets.set b (ts ++ [w])) := by
    refine ⟨b, ts, s.limiter, w, e2, ?_, rfl, e7, e8, e9, e10, e11⟩
    rw [← hi.hlims, List.getElem?_map, e1, Option.map_some]
  have hhist : History D lims env.testError S0 env.initError
      (⟨v.sets.set b (ts ++ [w]), env.testError h.length (st.mset0.set b s')⟩ :: v :: h) :=
    .step hi.hist hgrow ⟨_, hS', rfl⟩
  have hreach : ∀ x ∈ st.mset0.set b s', ∃ b, Reach b x := by
    intro x hx
    rcases List.mem_or_eq_of_mem_set hx with hx | rfl
    · exact hi.reach x hx
    · exact ⟨bb, e4⟩
  have hlims : (st.mset0.set b s').map MISet.limiter = lims := (map_set_same _ e1 e6).trans hi.hlims
  have hlens : (st.mset0.set b s').map MISet.length = lens := (map_set_same _ e1 e5).trans hi.hlens
  have hsizes : st.sizes.set b (ts.length + 1) = (v.sets.set b (ts ++ [w])).map List.length := by
    rw [hi.sizes, List.map_set]; simp
  have htot := total_set e2 w
  have hbound : ∀ u ∈ (⟨v.sets.set b (ts ++ [w]), env.testError h.length (st.mset0.set b s')⟩ : Visit) :: v :: h,
      total u.sets ≤ max (total S0) env.maxSize := by
    intro u hu
    rcases List.mem_cons.1 hu with rfl | hu
    · have := hi.cur
      simp only
      rw [htot]
      exact le_max_of_le_right (by omega)
    · exact hi.bound u hu
  refine ⟨⟨v.sets.set b (ts ++ [w]), env.testError h.length (st.mset0.set b s')⟩, ?_⟩
  split at e13
  · rename_i hlt
    rw [assignAll_same (hi.bestLens.trans hlens.symm)] at e13
    simp only at e13
    subst e13
    refine ⟨hhist, hreach, hS', hlims, hlens, e12.trans hi.hlens, hlens, hsizes, by simp only; rw [htot, hi.cur],
      ⟨_, List.mem_cons_self, rfl⟩, ?_, Or.inr ⟨?_, _, List.mem_cons_self, rfl, hS'⟩, hbound⟩
    · intro u hu
      rcases List.mem_cons.1 hu with rfl | hu
      · exact le_rfl
      · exact hlt.le.trans (hi.min u hu)
    · rcases hi.best with ⟨hb, _⟩ | ⟨hb, _⟩
      · rw [← hb]; exact hlt
      · exact lt_trans hlt hb
  · rename_i hlt
    subst e13
    refine ⟨hhist, hreach, hS', hlims, hlens, e12.trans hi.hlens, hi.bestLens, hsizes, by simp only; rw [htot, hi.cur],
      ?_, ?_, ?_, hbound⟩
    · simpa using hi.pat
    · intro u hu
      rcases List.mem_cons.1 hu with rfl | hu
      · exact not_lt.1 hlt
      · exact hi.min u hu
    · rcases hi.best with hb | ⟨hb, u, hu, h1, h2⟩
      · exact Or.inl hb
      · exact Or.inr ⟨hb, u, List.mem_cons_of_mem _ hu, h1, h2⟩

theorem step_currSz {env : Env} {k : Nat} {st st' : St} (h : ATM.step env k st = .ok st') : st'.currSz = st.currSz + 1 := by
  simp only [ATM.step, Res.bind_eq_ok] at h
  obtain ⟨_, _, _, _, found, _, h⟩ := h
  cases found with
  | none => cases h
  | some p =>
    simp only [Res.bind_eq_ok] at h
    obtain ⟨_, _, _, _, _, _, _, _, _, _, h⟩ := h
    split at h
    · cases h
    · simp only [Res.bind_eq_ok] at h
      obtain ⟨_, _, h⟩ := h
      split at h
      · simp only [Res.bind_eq_ok] at h
        obtain ⟨_, _, h⟩ := h
        injection h with h
        rw [← h]
      · injection h with h
        rw [← h]

theorem RunInv.loop {env : Env} {D : List Nat} (hD : env.maxDegrees = ofVec D) {lims : List (MultiIndex → Bool)} {lens : List Nat}
    {S0 consts : List (List (List Nat))} (hDl : D ≠ [] → ∀ l ∈ lens, l ≤ D.length) (n : Nat) : ∀ {st st' : St} {v : Visit}
    {h : List Visit}, RunInv env D lims lens S0 consts st v h → env.maxSize - st.currSz = n →
    ATM.loop env h.length st n = .ok st' →
    ∃ v' h', RunInv env D lims lens S0 consts st' v' h' ∧ ¬ (st'.currSz < env.maxSize ∧ st'.patience < env.maxPatience) := by
  induction n with
  | zero =>
    intro st st' v h hi hn he
    simp only [ATM.loop, Res.ok.injEq] at he
    subst he
    exact ⟨v, h, hi, by omega⟩
  | succ n ih =>
    intro st st' v h hi hn he
    simp only [ATM.loop] at he
    split at he
    · rename_i hc
      simp only [Res.bind_eq_ok] at he
      obtain ⟨st1, h1, h2⟩ := he
      obtain ⟨v1, hi1⟩ := hi.step hD hDl hc.1 h1
      have := step_currSz h1
      exact ih hi1 (by omega) h2
    · rename_i hc
      injection he with he
      subst he
      exact ⟨v, h, hi, hc⟩

theorem createTotalOrder_zero {n : Nat} (hn : 0 < n) :
    ∃ c, createTotalOrder n 0 (fun _ => true) = .ok c ∧ c.length = n ∧ Terms c [List.replicate n 0] := by
  obtain ⟨c, ts, e, _, l, _, t, nd, _, m⟩ := C07_createTotalOrder hn 0 (fun _ => true)
  refine ⟨c, e, l, ?_⟩
  have hts : ts = [List.replicate n 0] := by
    have h0 : ∀ v, v ∈ ts ↔ v = List.replicate n 0 := by
      intro v
      rw [m]
      constructor
      · rintro ⟨h1, h2, _⟩
        refine List.eq_replicate_iff.2 ⟨h1, fun x hx => ?_⟩
        have := List.single_le_sum (l := v) (by simp) x hx
        omega
      · rintro rfl
        simp
    have hm := (h0 _).2 rfl
    obtain ⟨a, rfl⟩ : ∃ a, ts = [a] := by
      rcases ts with _ | ⟨a, _ | ⟨b, rest⟩⟩
      · simp at hm
      · exact ⟨a, rfl⟩
      · have ha := (h0 a).1 (by simp)
        have hb := (h0 b).1 (by simp)
        rw [ha, hb] at nd
        simp at nd
    rw [(h0 a).1 (by simp)]
  rwa [hts] at t

/-- The checks of the initial sets passed: what was computed. -/
theorem initLoop_ok {env : Env} : ∀ {ss : List MISet} {j dim : Nat} {cs : List MISet} {ns : List Nat},
    (∀ s ∈ ss, ∃ b, Reach b s) → env.inputDim + j + 1 - env.outputDim = dim →
    initLoop env j dim ss = .ok (cs, ns) →
    cs.map MISet.length = ss.map MISet.length ∧ ns = ss.map MISet.size ∧ ss.map MISet.length = List.range' dim ss.length ∧
      List.Forall₂ Terms cs (constants dim ss.length)
  | [], j, dim, cs, ns, _, _, h => by
    simp only [initLoop, Res.ok.injEq, Prod.mk.injEq] at h
    obtain ⟨rfl, rfl⟩ := h
    exact ⟨rfl, rfl, rfl, .nil⟩
  | s :: ss, j, dim, cs, ns, hr, hj, h => by
    unfold initLoop at h
    split at h
    · cases h
    · rename_i hd
      have hd : s.length = dim := by simpa using hd
      simp only [Res.bind_eq_ok] at h
      obtain ⟨_, _, c', h1, ⟨cs1, ns1⟩, h2, h⟩ := h
      have hpos : 0 < env.inputDim + j + 1 - env.outputDim := by
        rcases Nat.eq_zero_or_pos (env.inputDim + j + 1 - env.outputDim) with h0 | h0
        · rw [h0, C07_zero_length] at h1; cases h1
        · exact h0
      obtain ⟨c, e, l, t⟩ := createTotalOrder_zero hpos
      rw [e] at h1
      injection h1 with h1
      subst h1
      injection h with h
      simp only [Prod.mk.injEq] at h
      obtain ⟨rfl, rfl⟩ := h
      obtain ⟨i1, i2, i3, i4⟩ := initLoop_ok (fun s hs => hr s (by simp [hs])) (by omega) h2
      refine ⟨?_, ?_, ?_, ?_⟩
      · simp [i1, l, hd, hj]
      · simp [i2]
      · simp [i3, hd, List.range'_succ]
      · rw [hj] at t
        exact .cons t i4

end ATM
end MParT
