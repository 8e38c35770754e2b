import Verif.Model.Failures
import Verif.Props.Coeffs
import Verif.Props.Train
import Verif.Props.TrainAdaptiveCoeffs
/-!
# C106: what failed calls leave behind

Coefficients, training and adaptive training; for loading see `Props/FailedLoad.lean`.
-/
namespace MParT

/-! ### Coefficients -/
section
open Spec Coeffs

/-- **C106.** A call of `SetCoeffs` or `WrapCoeffs`, or a constructor, that throws has changed nothing, after any history, also with assignments to `Coeffs()`. Missing: the
first `SetCoeffs` on an object with another number of values than it has coefficients, see `C106_fails_first_set`. -/
theorem C106_coeffs_partial {st : State} (h : Reached st) {op : Op}
    (hset : ∀ id vals, op = .set id vals → coeffs st id ≠ none ∨ vals.length = nc st.objs id) (ht : (step st op).2 = .throw) :
    (step st op).1 = st := by
  have hi := h.frame
  cases op with
  | alloc vals => cases ht
  | write b i x =>
    unfold Coeffs.step at ht ⊢
    dsimp only at ht ⊢
    split at ht <;> cases ht
  | newLeaf n => cases ht
  | newLeafWith n vals => cases ht
  | newParent cs move =>
    unfold Coeffs.step at ht ⊢
    dsimp only at ht ⊢
    split at ht
    · cases ht
    · rename_i hc
      rw [if_neg hc]
      rw [not_or] at hc
      have hwf := parent_wf hc.2
      split at ht
      · rename_i hm
        rw [if_pos hm]
        split at ht
        · rfl
        · rename_i vals hcol
          have hlen := collect_length hcol
          have h' := (hi.add hwf).snocBuf vals
          have hl : st.objs.length < (st.add ⟨.parent, cs, (cs.map (nc st.objs)).sum⟩).objs.length := by simp [State.add]
          have hb := new_inBounds (st.add ⟨.parent, cs, (cs.map (nc st.objs)).sum⟩) vals rfl
          rcases wrap_effect h' hl hb with ⟨-, e⟩ | ⟨st1, -, -, -, e⟩
          · exact absurd (hlen.trans (nc_new st.objs ⟨.parent, cs, (cs.map (nc st.objs)).sum⟩).symm) e
          · exact absurd ((congrArg Prod.snd e).symm.trans ht) (by simp)
      · cases ht
  | newSummarised c =>
    unfold Coeffs.step at ht
    dsimp only at ht
    split at ht <;> cases ht
  | set id vals =>
    show (set st id vals).1 = st
    change (set st id vals).2 = .throw at ht
    rcases Nat.lt_or_ge id st.objs.length with hl | hl
    · by_cases hv : vals.length = nc st.objs id
      · rcases set_effect hi hl vals with ⟨e, -⟩ | ⟨st1, v, a, b, -, h1, -, -, -, -, -, hok⟩
        · rw [e]
        · rw [(hok (h1.trans hv)).2] at ht
          cases ht
      · have h3 := (hset id vals rfl).resolve_right hv
        unfold Spec.coeffs at h3
        split at h3
        · rename_i u hu
          have hg : st.objs[id]? = some st.objs[id] := List.getElem?_eq_getElem hl
          have hn : nc st.objs id = st.objs[id].numCoeffs := nc_eq hg
          have : set st id vals = (st, .throw) := by
            unfold Coeffs.set
            rw [hg]
            dsimp only
            unfold setBase
            rw [hu]
            dsimp only
            rw [if_pos (by rw [← hn]; exact hv)]
          rw [this]
        · exact absurd rfl h3
    · unfold Coeffs.set at ht ⊢
      rw [List.getElem?_eq_none hl] at ht
      cases ht
  | wrap id v =>
    unfold Coeffs.step at ht ⊢
    dsimp only at ht ⊢
    split at ht
    · rename_i hb
      rw [if_pos hb]
      rcases Nat.lt_or_ge id st.objs.length with hl | hl
      · rcases wrap_effect hi hl hb with ⟨e, -⟩ | ⟨st1, -, -, -, e⟩
        · rw [e]
        · rw [e] at ht; cases ht
      · cases hn : st.objs.length with
        | zero => rfl
        | succ n =>
          rw [hn] at ht
          unfold wrap at ht
          rw [List.getElem?_eq_none hl] at ht
          cases ht
    · cases ht
  | rebind id v =>
    unfold Coeffs.step at ht
    dsimp only at ht
    split at ht <;> cases ht

/-- **Violation.** The first `SetCoeffs` on a map with components, with too few values: it throws, but the map and its first component now have
coefficients. -/
theorem C106_fails_first_set (x : ℝ) : ∃ st, Reachable st ∧ (step st (.set 2 [x])).2 = .throw ∧
    (∀ id, coeffs st id = none) ∧ coeffs (step st (.set 2 [x])).1 2 = some [x] ∧ coeffs (step st (.set 2 [x])).1 0 = some [x] ∧
    coeffs (step st (.set 2 [x])).1 1 = none := by
  refine ⟨run initial [.newLeaf 1, .newLeaf 1, .newParent [0, 1] false], ⟨_, by simp, rfl⟩, ?_⟩
  have e : run initial [.newLeaf 1, .newLeaf 1, .newParent [0, 1] false]
      = ⟨[], [⟨.leaf, [], 1⟩, ⟨.leaf, [], 1⟩, ⟨.parent, [0, 1], 2⟩], [none, none, none]⟩ := by
    simp [run, initial, step, State.add, nc]
  have e' : step (run initial [.newLeaf 1, .newLeaf 1, .newParent [0, 1] false]) (.set 2 [x])
      = (⟨[[x]], [⟨.leaf, [], 1⟩, ⟨.leaf, [], 1⟩, ⟨.parent, [0, 1], 2⟩], [some ⟨0, 0, 1⟩, none, some ⟨0, 0, 1⟩]⟩, .throw) := by
    rw [e]
    simp [step, Coeffs.set, setBase, passOn, wrapChildren, wrap, State.assign, State.put, nc]
  rw [e', e]
  refine ⟨rfl, fun id => ?_, by simp [coeffs, State.get], by simp [coeffs, State.get], by simp [coeffs]⟩
  match id with
  | 0 => rfl
  | 1 => rfl
  | 2 => rfl
  | n + 3 => simp [coeffs]

/-- Non-vacuity: `SetCoeffs` with the wrong number of values on a map that has coefficients throws. -/
example (x y z : ℝ) : (step (run initial [.newLeaf 1, .set 0 [x]]) (.set 0 [y, z])).1 = run initial [.newLeaf 1, .set 0 [x]] := by
  have e : run initial [.newLeaf 1, .set 0 [x]] = ⟨[[x]], [⟨.leaf, [], 1⟩], [some ⟨0, 0, 1⟩]⟩ := by
    simp [run, initial, step, State.add, Coeffs.set, setBase, passOn, State.assign, State.put]
  refine C106_coeffs_partial ⟨_, rfl⟩ ?_ ?_
  · intro id vals h
    cases h
    left
    rw [e]
    simp [coeffs]
  · rw [e]
    simp [step, Coeffs.set, setBase]

end

/-! ### Training -/
section
open Spec Train

/-- **C106.** If the optimiser fails, `TrainMap` throws and the map has the coefficients of the last point at which the objective was evaluated. -/
theorem C106_train_partial {env : Env} (hdim : env.map.outputDim = env.density.dim) (hE : Evaluates env.map) (hL : HasLogDet env.map)
    (hJ : LogDetIsJacobian env.map) (hDm : Differentiates env.map) (hDL : DifferentiatesLogDet env.map) (hD : HasDensity env.density)
    (hDd : DifferentiatesDensity env.density) (hx : ∀ x ∈ env.train, x.length = env.map.inputDim) (hne : env.train ≠ [])
    (hn : env.map.numCoeffs ≠ 0) (hsplit : ∀ k, (env.split k).indices.Perm (List.range env.train.length))
    (hgar : ∀ k, (env.garbage k).length = env.map.numCoeffs) {alg : List ℝ → Opt} (halg : env.alg = some alg) {cur start : List ℝ}
    (hstart : cur.length = env.map.numCoeffs ∧ start = cur ∨ cur = [] ∧ start = List.replicate env.map.numCoeffs 1)
    (ho : HasDim env.map.numCoeffs (alg start)) (hs : env.strict = false ∨ UsesGradient (alg start)) :
    ∃ G : List ℝ → List ℝ, (∀ c, c.length = env.map.numCoeffs →
        IsGradient env.map.numCoeffs 0 (fun c _ => klObjective env.map env.density env.train c) c [] (G c) []) ∧
      (play (klObjective env.map env.density env.train) G (alg start) = none →
        trainMap env cur = (lastAsked (klObjective env.map env.density env.train) G start (alg start), .throw)) := by
  obtain ⟨G, h1, h2⟩ := C68_train_partial hdim hE hL hJ hDm hDL hD hDd hx hne hn hsplit hgar halg hstart ho hs
  refine ⟨G, h1, fun h => ?_⟩
  rw [h] at h2
  exact h2.1

/-- **Violation.** An optimiser that fails after it asked for a point has changed the coefficients of the map to this point. -/
theorem C106_fails_train {env : Env} (hdim : env.map.outputDim = env.density.dim) (hE : Evaluates env.map) (hL : HasLogDet env.map)
    (hJ : LogDetIsJacobian env.map) (hDm : Differentiates env.map) (hDL : DifferentiatesLogDet env.map) (hD : HasDensity env.density)
    (hDd : DifferentiatesDensity env.density) (hx : ∀ x ∈ env.train, x.length = env.map.inputDim) (hne : env.train ≠ [])
    (hn : env.map.numCoeffs ≠ 0) (hsplit : ∀ k, (env.split k).indices.Perm (List.range env.train.length))
    (hgar : ∀ k, (env.garbage k).length = env.map.numCoeffs) {cur x : List ℝ} (hc : cur.length = env.map.numCoeffs)
    (hxl : x.length = env.map.numCoeffs) (halg : env.alg = some fun _ => .query x true fun _ _ => .fail) :
    trainMap env cur = (x, .throw) := by
  obtain ⟨G, -, h⟩ := C106_train_partial (cur := cur) hdim hE hL hJ hDm hDL hD hDd hx hne hn hsplit hgar halg (.inl ⟨hc, rfl⟩)
    ⟨hxl, fun _ _ _ => trivial⟩ (.inr ⟨rfl, fun _ _ => trivial⟩)
  exact h rfl

/-- **Violation.** Coefficients that were never set are set to ones by a training that is refused, as one with an unknown algorithm. -/
theorem C106_fails_train_unset (env : Env) (h : env.alg = none) :
    trainMap env [] = (List.replicate env.map.numCoeffs 1, .throw) := by
  rw [C68_rejects env [] (.inl h), if_pos rfl]

/-- **C106.** A training that is refused before the optimiser starts leaves coefficients that were set as they are. -/
theorem C106_train_refused (env : Env) {cur : List ℝ} (hc : cur ≠ []) (h : env.alg = none ∨ cur.length ≠ env.map.numCoeffs) :
    trainMap env cur = (cur, .throw) := by
  rw [C68_rejects env cur (h.imp id fun h => ⟨hc, h⟩), if_neg hc]

/-- Non-vacuity: the map `exp(a) sinh(x)` with the coefficient 5; the optimiser asks for 7 and fails. -/
example : trainMap { exampleEnv with alg := some fun _ => .query [7] true fun _ _ => .fail } [5] = ([7], .throw) := by
  have hd := C53_density (.dim 1)
  refine C106_fails_train (env := { exampleEnv with alg := some fun _ => .query [7] true fun _ _ => .fail }) rfl bend_evaluates bend_hasLogDet
    bend_jacobian bend_differentiates bend_differentiatesLogDet hd.2.1 hd.2.2.1 ?_ (by simp [exampleEnv]) (by decide) ?_ (fun k => rfl) rfl rfl rfl
  · intro x hx; simp [exampleEnv] at hx; rcases hx with rfl | rfl | rfl <;> rfl
  · intro k
    change ([2] ++ ([] ++ [0, 1]) : List Nat).Perm [0, 1, 2]; decide

end

/-! ### Adaptive training -/
namespace ATM
namespace Full
open MultiIndex Spec MISet

/-- The same objective and optimiser, except that call `k` of `TrainMap` throws. -/
def failAt (env : Env) (k : Nat) : Env := { env with train := fun j bs => if j = k then .throw else env.train j bs }

theorem fill_failAt (env : Env) (k : Nat) (old : List ℝ) (rm : List Nat) (n : Nat) : fill (failAt env k) old rm n = fill env old rm n := rfl

theorem expandBlocks_failAt (env : Env) (k : Nat) (ss ts : List MISet) (bs : List Block) :
    expandBlocks (failAt env k) ss ts bs = expandBlocks env ss ts bs := by
  induction ss generalizing ts bs with
  | nil => simp only [expandBlocks]
  | cons s ss ih =>
    cases ts with
    | nil => simp only [expandBlocks]
    | cons t ts =>
      cases bs with
      | nil => simp only [expandBlocks]
      | cons b bs => simp only [expandBlocks, ih, fill_failAt]

theorem grow_failAt (env : Env) (k : Nat) (st : St) : grow (failAt env k) st = grow env st := by
  unfold grow
  rw [expandBlocks_failAt]
  rfl

theorem initLoop_failAt (env : Env) (k : Nat) (ss : List MISet) (j dim : Nat) : initLoop (failAt env k) j dim ss = initLoop env j dim ss := by
  induction ss generalizing j dim with
  | nil => rfl
  | cons s ss ih =>
    simp only [initLoop, ih]
    rfl

theorem trainBlocks_failAt_same (env : Env) (k : Nat) (bs : List Block) : trainBlocks (failAt env k) k bs = .throw := by
  unfold trainBlocks failAt
  simp only [if_true]
  rfl

theorem trainBlocks_failAt {env : Env} {j k : Nat} (h : j ≠ k) (bs : List Block) : trainBlocks (failAt env k) j bs = trainBlocks env j bs := by
  unfold trainBlocks failAt
  simp only [if_neg h]

theorem step_eq (env : Env) (k : Nat) (st : St) :
    Full.step env k st = (grow env st >>= fun r => finish env k st r.1 r.2.1 r.2.2) := by
  unfold Full.step grow finish
  cases expandBlocks env st.mset0 st.tmp st.blocks with
  | throw => rfl
  | ub => rfl
  | ok x =>
    obtain ⟨tmp, rms, front⟩ := x
    simp only [Res.bind_ok]
    cases filterStep env.maxDegrees tmp rms with
    | throw => rfl
    | ub => rfl
    | ok rms =>
      simp only [Res.bind_ok]
      cases findMaxGrad (env.gradient front) rms tmp with
      | throw => rfl
      | ub => rfl
      | ok found =>
        simp only [Res.bind_ok]
        cases found with
        | none => rfl
        | some p =>
          obtain ⟨maxIdx, block⟩ := p
          dsimp only
          cases Res.idx tmp block with
          | throw => rfl
          | ub => rfl
          | ok t =>
            simp only [Res.bind_ok]
            cases t.indexToMulti maxIdx with
            | throw => rfl
            | ub => rfl
            | ok added =>
              simp only [Res.bind_ok]
              cases Res.idx st.mset0 block with
              | throw => rfl
              | ub => rfl
              | ok s =>
                simp only [Res.bind_ok]
                cases s.addActive added with
                | throw => rfl
                | ub => rfl
                | ok r => rfl

/-- The model with the sets of the caller agrees with the one that only describes successful calls, step by step. -/
theorem stepRef_result (env : Env) (k : Nat) (st : St) : (stepRef env k st).2 = Full.step env k st := by
  rw [step_eq, stepRef]
  cases grow env st with
  | throw => rfl
  | ub => rfl
  | ok x => rfl

theorem finish_mset0 {env : Env} {k : Nat} {st st' : St} {tmp : List MISet} {block : Nat} {s : MISet}
    (h : finish env k st tmp block s = .ok st') : st'.mset0 = st.mset0.set block s := by
  unfold finish at h
  obtain ⟨sz, -, h⟩ := Res.bind_eq_ok.1 h
  split at h
  · cases h
  obtain ⟨nc, -, h⟩ := Res.bind_eq_ok.1 h
  obtain ⟨old, -, h⟩ := Res.bind_eq_ok.1 h
  split at h
  · cases h
  obtain ⟨bl, -, h⟩ := Res.bind_eq_ok.1 h
  dsimp only at h
  split at h
  · obtain ⟨best, -, h⟩ := Res.bind_eq_ok.1 h
    rw [← Res.ok.inj h]
  · rw [← Res.ok.inj h]

theorem finish_failAt {env : Env} {j k : Nat} (hj : j + 1 ≠ k) (st : St) (tmp : List MISet) (block : Nat) (s : MISet) :
    finish (failAt env k) j st tmp block s = finish env j st tmp block s := by
  unfold finish
  simp only [trainBlocks_failAt hj]
  rfl

theorem finish_failAt_same {env : Env} {j : Nat} {st st' : St} {tmp : List MISet} {block : Nat} {s : MISet}
    (h : finish env j st tmp block s = .ok st') : finish (failAt env (j + 1)) j st tmp block s = .throw := by
  unfold finish at h ⊢
  obtain ⟨sz, h1, h⟩ := Res.bind_eq_ok.1 h
  rw [h1, Res.bind_ok]
  split at h
  · cases h
  rename_i h2
  rw [if_neg h2]
  obtain ⟨nc, h3, h⟩ := Res.bind_eq_ok.1 h
  obtain ⟨old, h4, h⟩ := Res.bind_eq_ok.1 h
  rw [h3, Res.bind_ok, h4, Res.bind_ok]
  split at h
  · cases h
  rename_i h5
  rw [if_neg h5, trainBlocks_failAt_same]
  rfl

theorem stepRef_failAt {env : Env} {j k : Nat} {st st' : St} (h : Full.step env j st = .ok st') :
    stepRef (failAt env k) j st = (st'.mset0, if j + 1 = k then .throw else .ok st') := by
  rw [step_eq] at h
  obtain ⟨⟨tmp, block, s⟩, h1, h2⟩ := Res.bind_eq_ok.1 h
  unfold stepRef
  rw [grow_failAt, h1]
  dsimp only at h2 ⊢
  rw [finish_mset0 h2]
  by_cases hj : j + 1 = k
  · subst hj
    rw [finish_failAt_same h2, if_pos rfl]
  · rw [finish_failAt hj, h2, if_neg hj]

theorem finalRef_ok : ∀ {ms best res : List MISet} {fb : List Block}, ms.length = best.length → finalBlocks best = .ok fb →
    assignAll ms best = .ok res → finalRef ms best = (res, .ok fb)
  | [], [], res, fb, _, h1, h2 => by
    simp only [finalBlocks, Res.ok.injEq] at h1
    simp only [assignAll, Res.ok.injEq] at h2
    subst h1 h2
    rfl
  | [], _ :: _, _, _, h, _, _ => by simp at h
  | _ :: _, [], _, _, h, _, _ => by simp at h
  | m :: ms, b :: bs, res, fb, hl, h1, h2 => by
    simp only [finalBlocks, Res.bind_eq_ok] at h1
    simp only [assignAll, Res.bind_eq_ok] at h2
    obtain ⟨nb, hnb, fb', h1, e1⟩ := h1
    obtain ⟨m', hm, res', h2, e2⟩ := h2
    obtain rfl := Res.ok.inj e1
    obtain rfl := Res.ok.inj e2
    rw [finalRef, hnb]
    dsimp only
    rw [hm]
    dsimp only
    rw [finalRef_ok (by simpa using hl) h1 h2]

/-- What the loop leaves in the sets of the caller, for every call of `TrainMap` that could be the one that fails. -/
theorem Inv.loopRef {env : Env} {D : List Nat} (hD : env.maxDegrees = ofVec D) {lims : List (MultiIndex → Bool)} {lens : List Nat}
    {S0 consts : List (List (List Nat))} {e0 : ℝ} (hDl : D ≠ [] → ∀ l ∈ lens, l ≤ D.length) (n : Nat) : ∀ {st st' : St} {v : Trained}
    {h : List Trained} {kF : Nat}, Inv env D lims lens S0 consts e0 st v h → env.maxSize - st.currSz = n →
    Full.loop env h.length st n = .ok (st', kF) →
    ∃ v' h', Inv env D lims lens S0 consts e0 st' v' h' ∧ kF = h'.length ∧ (∃ p, v' :: h' = p ++ v :: h) ∧
      ∀ k, (k ≤ h.length ∨ kF < k → (Full.loopRef (failAt env k) h.length st n).2 = .ok (st', kF)) ∧
        (h.length < k → k ≤ kF → ∃ sets u, Full.loopRef (failAt env k) h.length st n = (sets, .throw) ∧ (v' :: h').reverse[k]? = some u ∧
          List.Forall₂ Terms sets u.sets) := by
  induction n with
  | zero =>
    intro st st' v h kF hi hn he
    simp only [Full.loop, Res.ok.injEq, Prod.mk.injEq] at he
    obtain ⟨rfl, rfl⟩ := he
    exact ⟨v, h, hi, rfl, ⟨[], rfl⟩, fun k => ⟨fun _ => rfl, fun h1 h2 => by omega⟩⟩
  | succ n ih =>
    intro st st' v h kF hi hn he
    simp only [Full.loop] at he
    split at he
    · rename_i hc
      simp only [Res.bind_eq_ok] at he
      obtain ⟨st1, h1, h2⟩ := he
      obtain ⟨v1, hi1⟩ := hi.step hD hDl hc.1 h1
      have hcur := step_currSz (hi.sizes.trans hi.lenBlocks.symm) h1
      obtain ⟨v2, h2', hi2, hk, ⟨p, hpp⟩, hall⟩ := ih hi1 (by omega) h2
      have hlen := congrArg List.length hpp
      simp only [List.length_cons, List.length_append] at hlen
      refine ⟨v2, h2', hi2, hk, ⟨p ++ [v1], by simp [hpp]⟩, fun k => ?_⟩
      have e : Full.loopRef (failAt env k) h.length st (n + 1) =
          if h.length + 1 = k then (st1.mset0, .throw) else Full.loopRef (failAt env k) (h.length + 1) st1 n := by
        rw [Full.loopRef, if_pos (show st.currSz < (failAt env k).maxSize ∧ st.patience < (failAt env k).maxPatience from hc),
          stepRef_failAt h1]
        by_cases hj : h.length + 1 = k
        · rw [if_pos hj, if_pos hj]
        · rw [if_neg hj, if_neg hj]
      rw [e]
      obtain ⟨a1, a2⟩ := hall k
      rw [List.length_cons] at a1 a2
      constructor
      · intro hor
        rw [if_neg (by omega)]
        exact a1 (by omega)
      · intro g1 g2
        by_cases hj : h.length + 1 = k
        · rw [if_pos hj]
          refine ⟨_, v1, rfl, ?_, hi1.terms⟩
          rw [hpp, List.reverse_append, ← hj]
          simp
        · rw [if_neg hj]
          exact a2 (by omega) g2
    · rename_i hc
      simp only [Res.ok.injEq, Prod.mk.injEq] at he
      obtain ⟨rfl, rfl⟩ := he
      refine ⟨v, h, hi, rfl, ⟨[], rfl⟩, fun k => ⟨fun _ => ?_, fun h1 h2 => by omega⟩⟩
      rw [Full.loopRef, if_neg (show ¬ (st.currSz < (failAt env k).maxSize ∧ st.patience < (failAt env k).maxPatience) from hc)]

/-- **C106.** Adaptive training in which one call of `TrainMap` fails: it throws, and the sets of the caller are what they were if it was the first call,
those of the map that was about to be trained if it was a later one, and those of the result if it was the last one. -/
theorem C106_adaptive_partial {env : Env} {mset0 res : List MISet} {blocks : List Block} {S0 : List (List (List Nat))} {D : List Nat}
    (hr : ∀ s ∈ mset0, ∃ b, Reach b s) (ht : List.Forall₂ Terms mset0 S0) (hD : env.maxDegrees = ofVec D)
    (h : trainMapAdaptive env mset0 = .ok (res, blocks)) :
    ∃ hist : List Trained, Trainings beginAgain env D (mset0.map MISet.limiter) S0 hist ∧
      (total S0 < env.maxSize → 0 < env.maxPatience → 2 ≤ hist.length) ∧
      trainMapAdaptiveRef (failAt env 0) mset0 = (mset0, .throw) ∧
      (∀ k, 0 < k → k < hist.length → ∃ sets u, trainMapAdaptiveRef (failAt env k) mset0 = (sets, .throw) ∧ hist.reverse[k]? = some u ∧
        List.Forall₂ Terms sets u.sets) ∧
      trainMapAdaptiveRef (failAt env hist.length) mset0 = (res, .throw) ∧
      ∀ k, hist.length < k → trainMapAdaptiveRef (failAt env k) mset0 = (res, .ok blocks) := by
  unfold trainMapAdaptive at h
  split at h
  · cases h
  rename_i hlen
  have hlen : mset0.length = env.outputDim := by simpa using hlen
  simp only [Res.bind_eq_ok] at h
  obtain ⟨s0, h0, ⟨consts, sizes, bl⟩, h1, h⟩ := h
  have h0i := h0
  have h0 := idx_eq h0
  split at h
  · cases h
  rename_i hdim
  split at h
  · cases h
  rename_i hmax
  have hdim0 := hdim
  have hmax0 := hmax
  simp only [Res.bind_eq_ok] at h
  obtain ⟨bl', htr, ⟨st, kF⟩, h2, fb, h3, res', h4, fb', h5, h6⟩ := h
  simp only [Res.ok.injEq, Prod.mk.injEq] at h6
  obtain ⟨rfl, rfl⟩ := h6
  have hpos : 0 < mset0.length := (List.getElem?_eq_some_iff.1 h0).1
  have hdim : s0.length + env.outputDim - 1 = env.inputDim := by simpa using hdim
  obtain ⟨i1, i2, i3, i4, i5, i6, i7, i8⟩ := initLoop_ok (dim := s0.length) hr ht (by omega) h1
  have hsz : sizes = S0.map List.length := by
    rw [i3]
    clear * - ht
    induction ht with
    | nil => rfl
    | cons h1 _ ih => rw [List.map_cons, List.map_cons, ih, h1.1]
  have hDl : D ≠ [] → ∀ l ∈ mset0.map MISet.length, l ≤ D.length := by
    intro hne l hl
    have hne' : D.length ≠ 0 := fun h => hne (List.length_eq_zero_iff.1 h)
    have hDlen : env.maxDegrees.length = D.length := by rw [hD]; simp
    rw [hDlen] at hmax
    rw [i4] at hl
    have := List.mem_range'_1.1 hl
    omega
  obtain ⟨x, hx, has⟩ := trainBlocks_ok htr
  have hinit : Inv env D (mset0.map MISet.limiter) (mset0.map MISet.length) S0 (constants s0.length mset0.length) (env.testError bl')
      { mset0 := mset0, tmp := consts, best := consts, sizes := sizes, currSz := sizes.sum, patience := 0, bestError := env.testError bl', blocks := bl' }
      ⟨S0, bl', env.testError bl'⟩ [] :=
    ⟨.start (made_of hr ht rfl i6 i7) i8 hx has, hr, ht, rfl, has.2.1.trans i7,
      fun u hu => by rw [List.mem_singleton.1 hu]; exact has.1.trans i6, rfl, rfl, i1, i1, i2, hsz, by simp only [total, hsz],
      ⟨_, List.mem_cons_self, rfl⟩, fun u hu => by rw [List.mem_singleton.1 hu], Or.inl ⟨rfl, i5⟩,
      fun u hu => by rw [List.mem_singleton.1 hu]; exact le_max_left _ _⟩
  obtain ⟨v, hh, inv, hk, hp, hall⟩ := hinit.loopRef hD hDl _ rfl h2
  obtain ⟨_, hh2, -, -, hk2, -, hent, -⟩ := hinit.loop hD hDl (P := fun _ => True) (fun _ _ _ _ _ _ _ _ _ => trivial) _ trivial rfl h2
  have hfin : finalRef st.mset0 st.best = (res', .ok fb) := by
    refine finalRef_ok ?_ h3 h4
    have := congrArg List.length (inv.hlens.trans inv.bestLens.symm)
    simpa using this
  have hprep0 : prepare (failAt env 0) mset0 = .throw := by
    unfold prepare
    rw [if_neg (show ¬ mset0.length ≠ (failAt env 0).outputDim from by simpa [failAt] using hlen), h0i, Res.bind_ok, initLoop_failAt, h1, Res.bind_ok]
    dsimp only
    rw [if_neg (by exact hdim0), if_neg (by exact hmax0), trainBlocks_failAt_same]
    rfl
  have hprep : ∀ k, k ≠ 0 → prepare (failAt env k) mset0 = .ok ⟨mset0, consts, consts, sizes, sizes.sum, 0, env.testError bl', bl'⟩ := by
    intro k hk
    unfold prepare
    rw [if_neg (show ¬ mset0.length ≠ (failAt env k).outputDim from by simpa [failAt] using hlen), h0i, Res.bind_ok, initLoop_failAt, h1, Res.bind_ok]
    dsimp only
    rw [if_neg (by exact hdim0), if_neg (by exact hmax0), trainBlocks_failAt (Ne.symm hk), htr]
    rfl
  have hafter : ∀ k, kF < k → trainMapAdaptiveRef (failAt env k) mset0 = (res', trainBlocks (failAt env k) (kF + 1) fb) := by
    intro k hkk
    unfold trainMapAdaptiveRef
    rw [hprep k (by omega)]
    dsimp only
    have := (hall k).1 (Or.inr hkk)
    rw [show Full.loopRef (failAt env k) 0 _ ((failAt env k).maxSize - sizes.sum) = (_, .ok (st, kF)) from Prod.ext rfl this]
    dsimp only
    rw [hfin]
  refine ⟨v :: hh, inv.hist, ?_, ?_, ?_, ?_, ?_⟩
  · intro g1 g2
    have := hent (by rw [show sizes.sum = total S0 by simp only [total, hsz]]; exact g1) g2
    simp only [List.length_nil, List.length_cons] at this ⊢
    omega
  · unfold trainMapAdaptiveRef
    rw [hprep0]
  · intro k g1 g2
    obtain ⟨sets, u, e1, e2, e3⟩ := (hall k).2 g1 (by rw [hk]; simp only [List.length_cons] at g2; omega)
    refine ⟨sets, u, ?_, e2, e3⟩
    unfold trainMapAdaptiveRef
    rw [hprep k (by omega)]
    dsimp only
    rw [show Full.loopRef (failAt env k) 0 _ ((failAt env k).maxSize - sizes.sum) = _ from e1]
  · rw [hafter _ (by rw [hk]; simp), hk, List.length_cons, trainBlocks_failAt_same]
  · intro k g
    rw [List.length_cons] at g
    rw [hafter k (by omega), trainBlocks_failAt (by omega), h5]

theorem trainings_at {restart : List ℝ → List ℝ} {env : Env} {D : List Nat} {lims : List (MultiIndex → Bool)} {S0 : List (List (List Nat))}
    {hist : List Trained} (h : Trainings restart env D lims S0 hist) :
    ∀ {k : Nat} {u : Trained}, hist.reverse[k]? = some u → total u.sets = total S0 + k ∧ u.sets.length = S0.length := by
  induction h with
  | start h1 h2 h3 h4 =>
    intro k u hu
    cases k with
    | zero => simp at hu; rw [← hu]; exact ⟨rfl, rfl⟩
    | succ k => simp at hu
  | @step v h S' bs bs' x hv hg hm hto htr has ih =>
    intro k u hu
    rw [List.reverse_cons] at hu
    rcases Nat.lt_or_ge k (v :: h).reverse.length with hk | hk
    · rw [List.getElem?_append_left hk] at hu
      exact ih hu
    · rw [List.getElem?_append_right hk] at hu
      have hk0 : k - (v :: h).reverse.length = 0 := by
        have := (List.getElem?_eq_some_iff.1 hu).1
        simpa using this
      rw [hk0] at hu
      simp only [List.getElem?_cons_zero, Option.some.injEq] at hu
      subst hu
      have e1 := trainings_total hv
      have e2 := grows_total hg
      have hkl : k = h.length + 1 := by simp at hk hk0; omega
      have e3 := (ih (k := h.length) (u := v) (by simp)).2
      refine ⟨by dsimp only; omega, ?_⟩
      obtain ⟨b, ts, lim, w, -, -, rfl, -⟩ := hg
      simpa using e3

/-- **C106, failure.** A training that fails has changed the sets of the caller: with one variable or more, every initial total order and an optimiser that
fails in its second call, the set has one term more than before. -/
theorem C106_fails_adaptive (n p : Nat) (hn : 0 < n) : ∃ (env : Env) (s s' : MISet) (ts ts' : List (List Nat)),
    createTotalOrder n p (fun _ => true) = .ok s ∧ Terms s ts ∧ trainMapAdaptiveRef env [s] = ([s'], .throw) ∧ Terms s' ts' ∧
      ts'.length = ts.length + 1 := by
  obtain ⟨s, ts, e, r, l, m, t, d, ne, hv⟩ := totalOrder_start hn p
  have hr : ∀ x ∈ [s], ∃ b, Reach b x := by intro x hx; rw [List.mem_singleton.1 hx]; exact ⟨_, r⟩
  let env := linEnv n 1 (ts.length + 1) budget
  have hk : Kind env := linEnv_kind _ _ _ (by intro x; cases x <;> simp [budget])
  obtain ⟨res, blocks, h⟩ := C99_returns_partial (env := env) (mset0 := [s]) hk rfl rfl hr rfl (by simp [env, linEnv]) (by simp only [env, linEnv]; omega)
    (by
      intro j x hx
      cases j with
      | zero => simp only [List.getElem?_cons_zero, Option.some.injEq] at hx; subst hx; simp [env, linEnv, l]; omega
      | succ j => simp at hx)
    (s0 := s) rfl t ne d (fun w _ => by unfold Accepts; rw [m])
  obtain ⟨hist, h1, h2, -, h4, -⟩ := C106_adaptive_partial (D := []) hr (.cons t .nil) rfl h
  have hlen := h2 (by simp [total, env, linEnv]) (by simp [env, linEnv])
  obtain ⟨sets, u, e1, e2, e3⟩ := h4 1 (by omega) (by omega)
  obtain ⟨f1, f2⟩ := trainings_at h1 e2
  obtain ⟨s', rfl⟩ : ∃ s', sets = [s'] := List.length_eq_one_iff.1 (e3.length_eq.trans f2)
  obtain ⟨us, hus⟩ : ∃ us, u.sets = [us] := List.length_eq_one_iff.1 f2
  rw [hus] at e3 f1
  cases e3 with
  | cons t' _ => exact ⟨failAt env 1, s, s', ts, us, e, t, e1, t', by simpa [total] using f1⟩

end Full
end ATM
end MParT
