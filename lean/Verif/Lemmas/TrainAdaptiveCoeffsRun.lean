import Verif.Lemmas.TrainAdaptiveCoeffs
/-!
Helper lemmas for adaptive training with coefficients: the invariant of the loop.
-/
namespace MParT
namespace ATM
namespace Full
open MultiIndex Spec MISet

/-- The fixed sets of components with the given lengths and terms. -/
def csrs (lens : List Nat) (S : List (List (List Nat))) : List FixedSet := List.zipWith FixedSet.csr lens S

/-- What holds at the top of the loop when the maps of the history `v :: h` have been trained; `e0` is the error of the first one. -/
structure Inv (env : Env) (D : List Nat) (lims : List (MultiIndex → Bool)) (lens : List Nat) (S0 consts : List (List (List Nat))) (e0 : ℝ)
    (st : St) (v : Trained) (h : List Trained) : Prop where
  hist : Trainings beginAgain env D lims S0 (v :: h)
  reach : ∀ s ∈ st.mset0, ∃ b, Reach b s
  terms : List.Forall₂ Terms st.mset0 v.sets
  blocks : st.blocks = v.blocks
  lenBlocks : st.blocks.map (fun b => b.coeffs.length) = v.sets.map List.length
  csr : ∀ u ∈ v :: h, u.blocks.map Block.set = csrs lens u.sets
  hlims : st.mset0.map MISet.limiter = lims
  hlens : st.mset0.map MISet.length = lens
  tmpLens : st.tmp.map MISet.length = lens
  bestLens : st.best.map MISet.length = lens
  bestReach : ∀ s ∈ st.best, ∃ b, Reach b s
  sizes : st.sizes = v.sets.map List.length
  cur : st.currSz = total v.sets
  pat : ∃ u ∈ (v :: h).drop st.patience, u.err = st.bestError
  min : ∀ u ∈ v :: h, st.bestError ≤ u.err
  best : (st.bestError = e0 ∧ List.Forall₂ Terms st.best consts) ∨
    (st.bestError < e0 ∧ ∃ u ∈ v :: h, u.err = st.bestError ∧ List.Forall₂ Terms st.best u.sets)
  bound : ∀ u ∈ v :: h, total u.sets ≤ max (total S0) env.maxSize

theorem csrs_set {lens : List Nat} {S : List (List (List Nat))} {b n : Nat} {ts : List (List Nat)} (hl : lens[b]? = some n) :
    (csrs lens S).set b (FixedSet.csr n ts) = csrs lens (S.set b ts) := by
  unfold csrs
  induction lens generalizing b S with
  | nil => simp at hl
  | cons m lens ih =>
    cases S with
    | nil => simp
    | cons s S =>
      cases b with
      | zero =>
        simp only [List.getElem?_cons_zero, Option.some.injEq] at hl
        simp [hl]
      | succ b =>
        simp only [List.getElem?_cons_succ] at hl
        simp [ih hl]

theorem made_of {lens : List Nat} {ms : List MISet} {S : List (List (List Nat))} {bs : List Block} (hr : ∀ s ∈ ms, ∃ b, Reach b s)
    (ht : List.Forall₂ Terms ms S) (hl : ms.map MISet.length = lens) (h1 : bs.map Block.set = csrs lens S)
    (h2 : bs.map (fun b => b.coeffs.length) = S.map List.length) : Made bs S := by
  subst hl
  induction ht generalizing bs with
  | nil =>
    have : bs = [] := by simpa using h2
    subst this; exact .nil
  | @cons s ts ms S h3 h4 ih =>
    cases bs with
    | nil => simp at h2
    | cons b bs =>
      simp only [csrs, List.map_cons, List.zipWith_cons_cons, List.cons.injEq] at h1 h2
      obtain ⟨bb, hb⟩ := hr s (by simp)
      refine .cons ⟨by rw [h1.1]; exact holds_csr hb h3, h2.1⟩ (ih (fun s hs => hr s (by simp [hs])) h2.2 h1.2)

theorem Inv.step {env : Env} {D : List Nat} (hD : env.maxDegrees = ofVec D) {lims : List (MultiIndex → Bool)} {lens : List Nat}
    {S0 consts : List (List (List Nat))} {e0 : ℝ} {st st' : St} {v : Trained} {h : List Trained} (hi : Inv env D lims lens S0 consts e0 st v h)
    (hDl : D ≠ [] → ∀ l ∈ lens, l ≤ D.length) (hlt : st.currSz < env.maxSize) (he : Full.step env h.length st = .ok st') :
    ∃ v', Inv env D lims lens S0 consts e0 st' v' (v :: h) := by
  have hszb : st.sizes = st.blocks.map fun b => b.coeffs.length := hi.sizes.trans hi.lenBlocks.symm
  obtain ⟨env', _, _, _, block, s1, nb, hD', herr, _, _, hstep, hset, hblt, hnb, htr⟩ := step_sets hszb he
  have htl : st.sets.tmp.length = st.sets.mset0.length := by
    have := congrArg List.length (hi.tmpLens.trans hi.hlens.symm)
    simpa [St.sets] using this
  have hDl' : D ≠ [] → ∀ s ∈ st.sets.mset0, s.length ≤ D.length := by
    intro h0 s hs
    refine hDl h0 _ ?_
    rw [← hi.hlens]
    exact List.mem_map_of_mem hs
  obtain ⟨b, s, s', ts, w, bb, tmp, e1, e2, e3, e4, e5, e6, e7, e8, e9, e10, e11, e12, e13⟩ :=
    step_inv (hD'.trans hD) (st := st.sets) hi.reach hi.terms htl hi.sizes hDl' hstep
  have hm0 : st'.mset0 = st.mset0.set b s' := by
    have := congrArg ATM.St.mset0 e13
    split at this
    · simp only [St.sets] at this
      rw [assignAll_same (hi.bestLens.trans ((map_set_same _ (show st.mset0[b]? = some s from e1) e5).trans hi.hlens).symm)] at this
      exact this
    · exact this
  have e1' : st.mset0[b]? = some s := e1
  have hb0 : b < st.mset0.length := (List.getElem?_eq_some_iff.1 e1').1
  have hbb : block = b := by
    by_contra hne
    have h1 := hset.symm.trans hm0
    have h2 := congrArg (fun l => l[b]?) h1
    simp only [List.getElem?_set_ne hne, e1', List.getElem?_set_self hb0, Option.some.injEq] at h2
    obtain ⟨ts', h3, h4⟩ := forall2_get hi.terms e1'
    rw [e2] at h3
    injection h3 with h3
    subst h3 h2
    have := h4.unique e3
    have := congrArg List.length this
    simp at this
  subst hbb
  have hs1 : s1 = s' := by
    have h2 := congrArg (fun l => l[block]?) (hset.symm.trans hm0)
    simpa [List.getElem?_set_self hb0] using h2
  subst hs1
  rw [newBlock_eq e4 e3] at hnb
  obtain rfl := Res.ok.inj hnb
  obtain ⟨x, hx, has⟩ := trainBlocks_ok htr
  have hS' : List.Forall₂ Terms (st.mset0.set block s1) (v.sets.set block (ts ++ [w])) := forall2_set hi.terms block e3
  have hgrow : Grows D lims v.sets (v.sets.set block (ts ++ [w])) := by
    refine ⟨block, ts, s.limiter, w, e2, ?_, rfl, e7, e8, e9, e10, e11⟩
    rw [← hi.hlims, List.getElem?_map, e1', Option.map_some]
  have hreach : ∀ x ∈ st.mset0.set block s1, ∃ b, Reach b x := by
    intro x hx
    rcases List.mem_or_eq_of_mem_set hx with hx | rfl
    · exact hi.reach x hx
    · exact ⟨bb, e4⟩
  have hlims : (st.mset0.set block s1).map MISet.limiter = lims := (map_set_same _ e1' e6).trans hi.hlims
  have hlens : (st.mset0.set block s1).map MISet.length = lens := (map_set_same _ e1' e5).trans hi.hlens
  have hlb : lens[block]? = some s1.length := by
    rw [← hlens, List.getElem?_map, List.getElem?_set_self hb0]; rfl
  have hlenb : (st.blocks.set block ⟨FixedSet.csr s1.length (ts ++ [w]), List.replicate (ts ++ [w]).length 0⟩).map (fun b => b.coeffs.length)
      = (v.sets.set block (ts ++ [w])).map List.length := by
    rw [List.map_set, List.map_set, hi.lenBlocks]
    simp
  have hcsrb : (st.blocks.set block ⟨FixedSet.csr s1.length (ts ++ [w]), List.replicate (ts ++ [w]).length 0⟩).map Block.set
      = csrs lens (v.sets.set block (ts ++ [w])) := by
    rw [List.map_set, hi.blocks, hi.csr v (by simp), ← csrs_set hlb]
  have hmade := made_of hreach hS' hlens hcsrb hlenb
  have htake : TakesOver beginAgain v.sets (v.sets.set block (ts ++ [w])) v.blocks
      (st.blocks.set block ⟨FixedSet.csr s1.length (ts ++ [w]), List.replicate (ts ++ [w]).length 0⟩) := by
    intro i a c ha hc
    rw [← hi.blocks] at ha
    have hbs : block < v.sets.length := (List.getElem?_eq_some_iff.1 e2).1
    by_cases hib : block = i
    · subst hib
      rw [List.getElem?_set_self (List.getElem?_eq_some_iff.1 ha).1] at hc
      refine ⟨fun h => ?_, fun _ => ?_⟩
      · rw [List.getElem?_set_self hbs, show v.sets[block]? = some ts from e2, Option.some.injEq] at h
        have := congrArg List.length h
        simp at this
      · obtain rfl := Option.some.inj hc
        have hal : a.coeffs.length = ts.length := by
          have := congrArg (fun l => l[block]?) hi.lenBlocks
          simp only [List.getElem?_map, ha, show v.sets[block]? = some ts from e2, Option.map_some, Option.some.injEq] at this
          exact this
        simp [beginAgain, hal]
    · rw [List.getElem?_set_ne hib, ha] at hc
      obtain rfl := Option.some.inj hc
      refine ⟨fun _ => rfl, fun h => absurd (List.getElem?_set_ne hib) h⟩
  have hhist : Trainings beginAgain env D lims S0 (⟨v.sets.set block (ts ++ [w]), st'.blocks, env.testError st'.blocks⟩ :: v :: h) :=
    .step hi.hist hgrow hmade htake hx has
  have hcsr : ∀ u ∈ (⟨v.sets.set block (ts ++ [w]), st'.blocks, env.testError st'.blocks⟩ : Trained) :: v :: h,
      u.blocks.map Block.set = csrs lens u.sets := by
    intro u hu
    rcases List.mem_cons.1 hu with rfl | hu
    · exact has.1.trans hcsrb
    · exact hi.csr u hu
  have hsizes : st.sizes.set block (ts.length + 1) = (v.sets.set block (ts ++ [w])).map List.length := by
    rw [hi.sizes, List.map_set]; simp
  have htot := total_set e2 w
  have hbound : ∀ u ∈ (⟨v.sets.set block (ts ++ [w]), st'.blocks, env.testError st'.blocks⟩ : Trained) :: v :: h,
      total u.sets ≤ max (total S0) env.maxSize := by
    intro u hu
    rcases List.mem_cons.1 hu with rfl | hu
    · have := hi.cur
      simp only
      rw [htot]
      exact le_max_of_le_right (by omega)
    · exact hi.bound u hu
  refine ⟨⟨v.sets.set block (ts ++ [w]), st'.blocks, env.testError st'.blocks⟩, ?_⟩
  have herr' : env'.testError h.length (st.mset0.set block s1) = env.testError st'.blocks := hm0 ▸ herr
  simp only [St.sets, herr'] at e13
  split at e13
  · rename_i hlt
    rw [assignAll_same (hi.bestLens.trans hlens.symm)] at e13
    simp only [ATM.St.mk.injEq] at e13
    obtain ⟨f1, f2, f3, f4, f5, f6, f7⟩ := e13
    refine ⟨hhist, f1 ▸ hreach, f1 ▸ hS', rfl, has.2.1.trans hlenb, hcsr, f1 ▸ hlims, f1 ▸ hlens, f2 ▸ e12.trans hi.hlens,
      f3 ▸ hlens, f3 ▸ hreach, f4 ▸ hsizes, by rw [f5, htot, hi.cur], by rw [f6, f7]; exact ⟨_, List.mem_cons_self, rfl⟩, ?_, ?_, hbound⟩
    · intro u hu
      rw [f7]
      rcases List.mem_cons.1 hu with rfl | hu
      · exact le_rfl
      · exact hlt.le.trans (hi.min u hu)
    · refine Or.inr ⟨?_, _, List.mem_cons_self, f7.symm, f3 ▸ hS'⟩
      rw [f7]
      rcases hi.best with ⟨hb, _⟩ | ⟨hb, _⟩
      · rw [← hb]; exact hlt
      · exact lt_trans hlt hb
  · rename_i hlt
    simp only [ATM.St.mk.injEq] at e13
    obtain ⟨f1, f2, f3, f4, f5, f6, f7⟩ := e13
    refine ⟨hhist, f1 ▸ hreach, f1 ▸ hS', rfl, has.2.1.trans hlenb, hcsr, f1 ▸ hlims, f1 ▸ hlens, f2 ▸ e12.trans hi.hlens,
      f3 ▸ hi.bestLens, f3 ▸ hi.bestReach, f4 ▸ hsizes, by rw [f5, htot, hi.cur], ?_, ?_, ?_, hbound⟩
    · rw [f6, f7]; simpa using hi.pat
    · intro u hu
      rw [f7]
      rcases List.mem_cons.1 hu with rfl | hu
      · exact not_lt.1 hlt
      · exact hi.min u hu
    · rw [f7, f3]
      rcases hi.best with hb | ⟨hb, u, hu, h1, h2⟩
      · exact Or.inl hb
      · exact Or.inr ⟨hb, u, List.mem_cons_of_mem _ hu, h1, h2⟩

theorem step_currSz {env : Env} {k : Nat} {st st' : St} (hsz : st.sizes = st.blocks.map fun b => b.coeffs.length) (h : step env k st = .ok st') :
    st'.currSz = st.currSz + 1 := by
  obtain ⟨_, _, _, _, _, _, _, _, _, _, _, hstep, _⟩ := step_sets hsz h
  exact ATM.step_currSz hstep

theorem Inv.loop {env : Env} {D : List Nat} (hD : env.maxDegrees = ofVec D) {lims : List (MultiIndex → Bool)} {lens : List Nat}
    {S0 consts : List (List (List Nat))} {e0 : ℝ} (hDl : D ≠ [] → ∀ l ∈ lens, l ≤ D.length) {P : List Trained → Prop}
    (hP : ∀ (st st' : St) (v v' : Trained) (h : List Trained), Inv env D lims lens S0 consts e0 st v h → Full.step env h.length st = .ok st' →
      Inv env D lims lens S0 consts e0 st' v' (v :: h) → P (v :: h) → P (v' :: v :: h)) (n : Nat) : ∀ {st st' : St} {v : Trained}
    {h : List Trained} {k : Nat}, Inv env D lims lens S0 consts e0 st v h → P (v :: h) → env.maxSize - st.currSz = n →
    Full.loop env h.length st n = .ok (st', k) →
    ∃ v' h', Inv env D lims lens S0 consts e0 st' v' h' ∧ P (v' :: h') ∧ k = h'.length ∧ (∃ p, v' :: h' = p ++ v :: h) ∧
      (st.currSz < env.maxSize → st.patience < env.maxPatience → k ≠ h.length) ∧
      ¬ (st'.currSz < env.maxSize ∧ st'.patience < env.maxPatience) := by
  induction n with
  | zero =>
    intro st st' v h k hi hp hn he
    simp only [Full.loop, Res.ok.injEq, Prod.mk.injEq] at he
    obtain ⟨rfl, rfl⟩ := he
    exact ⟨v, h, hi, hp, rfl, ⟨[], rfl⟩, by omega, by omega⟩
  | succ n ih =>
    intro st st' v h k hi hp hn he
    simp only [Full.loop] at he
    split at he
    · rename_i hc
      simp only [Res.bind_eq_ok] at he
      obtain ⟨st1, h1, h2⟩ := he
      obtain ⟨v1, hi1⟩ := hi.step hD hDl hc.1 h1
      have := step_currSz (hi.sizes.trans hi.lenBlocks.symm) h1
      obtain ⟨v2, h2', hi2, hp2, hk, ⟨p, hpp⟩, _, hend⟩ := ih hi1 (hP _ _ _ _ _ hi h1 hi1 hp) (by omega) h2
      refine ⟨v2, h2', hi2, hp2, hk, ⟨p ++ [v1], by simp [hpp]⟩, fun _ _ => ?_, hend⟩
      have := congrArg List.length hpp
      simp at this
      omega
    · rename_i hc
      simp only [Res.ok.injEq, Prod.mk.injEq] at he
      obtain ⟨rfl, rfl⟩ := he
      exact ⟨v, h, hi, hp, rfl, ⟨[], rfl⟩, fun h1 h2 => absurd ⟨h1, h2⟩ hc, hc⟩

/-- The checks of the initial sets passed: what was computed. -/
theorem initLoop_ok {env : Env} : ∀ {ss : List MISet} {S : List (List (List Nat))} {j dim : Nat} {cs : List MISet} {ns : List Nat} {bs : List Block},
    (∀ s ∈ ss, ∃ b, Reach b s) → List.Forall₂ Terms ss S → env.inputDim + j + 1 - env.outputDim = dim →
    initLoop env j dim ss = .ok (cs, ns, bs) →
    cs.map MISet.length = ss.map MISet.length ∧ (∀ c ∈ cs, ∃ b, Reach b c) ∧ ns = ss.map MISet.size ∧
      ss.map MISet.length = List.range' dim ss.length ∧ List.Forall₂ Terms cs (constants dim ss.length) ∧
      bs.map Block.set = csrs (ss.map MISet.length) S ∧ bs.map (fun b => b.coeffs.length) = S.map List.length ∧ AllZero bs
  | [], S, j, dim, cs, ns, bs, _, ht, _, h => by
    simp only [initLoop, Res.ok.injEq, Prod.mk.injEq] at h
    obtain ⟨rfl, rfl, rfl⟩ := h
    cases ht
    exact ⟨rfl, by simp, rfl, rfl, .nil, rfl, rfl, by simp [AllZero]⟩
  | s :: ss, _, j, dim, cs, ns, bs, hr, .cons (b := ts) (l₂ := S) ht hts, hj, h => by
    unfold initLoop at h
    split at h
    · cases h
    · rename_i hd
      have hd : s.length = dim := by simpa using hd
      simp only [Res.bind_eq_ok] at h
      obtain ⟨nb, hnb, c', h1, ⟨cs1, ns1, bs1⟩, h2, h⟩ := h
      have hpos : 0 < env.inputDim + j + 1 - env.outputDim := by
        rcases Nat.eq_zero_or_pos (env.inputDim + j + 1 - env.outputDim) with h0 | h0
        · rw [h0, C07_zero_length] at h1; cases h1
        · exact h0
      obtain ⟨c, e, l, t⟩ := createTotalOrder_zero hpos
      obtain ⟨c2, _, e2, r2, _⟩ := C07_createTotalOrder hpos 0 (fun _ => true)
      rw [e] at h1 e2
      obtain rfl := Res.ok.inj h1
      obtain rfl := Res.ok.inj e2
      obtain ⟨bb, hb⟩ := hr s (by simp)
      rw [newBlock_eq hb ht] at hnb
      obtain rfl := Res.ok.inj hnb
      simp only [Res.ok.injEq, Prod.mk.injEq] at h
      obtain ⟨rfl, rfl, rfl⟩ := h
      obtain ⟨i1, i2, i3, i4, i5, i6, i7, i8⟩ := initLoop_ok (fun s hs => hr s (by simp [hs])) hts (by omega) h2
      refine ⟨by simp [i1, l, hd, hj], ?_, by simp [i3], by simp [i4, hd, List.range'_succ], ?_, by simp [i6, csrs], by simp [i7], ?_⟩
      · intro x hx
        rcases List.mem_cons.1 hx with rfl | hx
        · exact ⟨_, r2⟩
        · exact i2 x hx
      · rw [hj] at t
        exact .cons t i5
      · intro b hb x hx
        rcases List.mem_cons.1 hb with rfl | hb
        · exact List.eq_of_mem_replicate hx
        · exact i8 b hb x hx

theorem finalBlocks_ok : ∀ {ss : List MISet} {S : List (List (List Nat))} {bs : List Block}, (∀ s ∈ ss, ∃ b, Reach b s) →
    List.Forall₂ Terms ss S → finalBlocks ss = .ok bs →
    bs.map Block.set = csrs (ss.map MISet.length) S ∧ bs.map (fun b => b.coeffs.length) = S.map List.length ∧ AllZero bs
  | [], _, bs, _, .nil, h => by
    simp only [finalBlocks, Res.ok.injEq] at h
    subst h
    exact ⟨rfl, rfl, by simp [AllZero]⟩
  | s :: ss, _, bs, hr, .cons ht hts, h => by
    simp only [finalBlocks, Res.bind_eq_ok] at h
    obtain ⟨nb, hnb, bs1, h1, h⟩ := h
    obtain rfl := Res.ok.inj h
    obtain ⟨bb, hb⟩ := hr s (by simp)
    rw [newBlock_eq hb ht] at hnb
    obtain rfl := Res.ok.inj hnb
    obtain ⟨i6, i7, i8⟩ := finalBlocks_ok (fun s hs => hr s (by simp [hs])) hts h1
    refine ⟨by simp [i6, csrs], by simp [i7], ?_⟩
    intro b hb x hx
    rcases List.mem_cons.1 hb with rfl | hb
    · exact List.eq_of_mem_replicate hx
    · exact i8 b hb x hx

end Full
end ATM
end MParT
