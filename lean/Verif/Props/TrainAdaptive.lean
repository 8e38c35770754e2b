import Verif.Lemmas.TrainAdaptiveTotal
/-!
# Properties of adaptive training (C55)
-/
namespace MParT
namespace ATM
open MultiIndex Spec MISet

/-- **C55 (part).** Whatever the gradients and test errors are: when `TrainMapAdaptive` returns, the maps it trained form a
history in which every map has one term more than the one before, taken from the reduced margin of one of its components and
below the maximum degrees; no map has more than `maxSize` terms unless the first one had; the search goes on until `maxSize`
is reached or none of the last `maxPatience` maps improved on the ones before; and if any map was better than the first one,
the sets returned are those of a map whose test error is the smallest of all.

Missing from the full claim: if no map is better than the first one the sets are not those of the first map (see
`C55_no_improvement`, `C55_fails_initial_lost`), and the call need not return (`C55_fails_out_of_range`,
`C55_fails_uninitialised`). -/
theorem C55_history_partial {env : Env} {mset0 res : List MISet} {S0 : List (List (List Nat))} {D : List Nat}
    (hr : ∀ s ∈ mset0, ∃ b, Reach b s) (ht : List.Forall₂ Terms mset0 S0) (hD : env.maxDegrees = ofVec D)
    (h : trainMapAdaptive env mset0 = .ok res) :
    ∃ hist : List Visit,
      History D (mset0.map MISet.limiter) env.testError S0 env.initError hist ∧
      (∀ v ∈ hist, total v.sets ≤ max (total S0) env.maxSize) ∧
      ((∃ v, hist.head? = some v ∧ env.maxSize ≤ total v.sets) ∨
        (env.maxPatience < hist.length ∧
          ∀ v ∈ hist.take env.maxPatience, ∃ u ∈ hist.drop env.maxPatience, u.err ≤ v.err)) ∧
      ((∃ v ∈ hist, v.err < env.initError) →
        ∃ best ∈ hist, List.Forall₂ Terms res best.sets ∧ ∀ v ∈ hist, best.err ≤ v.err) ∧
      ((∀ v ∈ hist, env.initError ≤ v.err) →
        List.Forall₂ Terms res (constants (env.inputDim + 1 - env.outputDim) env.outputDim)) := by
  unfold trainMapAdaptive at h
  split at h
  · cases h
  rename_i hlen
  have hlen : mset0.length = env.outputDim := by simpa using hlen
  simp only [Res.bind_eq_ok] at h
  obtain ⟨s0, h0, ⟨consts, sizes⟩, h1, h⟩ := h
  have h0 := idx_eq h0
  split at h
  · cases h
  rename_i hdim
  split at h
  · cases h
  rename_i hmax
  simp only [Res.bind_eq_ok] at h
  obtain ⟨st, h2, h3⟩ := h
  have hpos : 0 < mset0.length := (List.getElem?_eq_some_iff.1 h0).1
  have hdim : s0.length + env.outputDim - 1 = env.inputDim := by simpa using hdim
  obtain ⟨i1, i2, i3, i4⟩ := initLoop_ok (dim := s0.length) hr (by omega) h1
  have hsz : sizes = S0.map List.length := by
    rw [i2]
    clear * - ht
    induction ht with
    | nil => rfl
    | cons h1 _ ih => rw [List.map_cons, List.map_cons, ih, h1.1]
  have hDl : D ≠ [] → ∀ l ∈ mset0.map MISet.length, l ≤ D.length := by
    intro hne l hl
    have hne' : D.length ≠ 0 := fun h => hne (List.length_eq_zero_iff.1 h)
    have hDlen : env.maxDegrees.length = D.length := by rw [hD]; simp
    rw [hDlen] at hmax
    rw [i3] at hl
    have := List.mem_range'_1.1 hl
    omega
  have hinit : RunInv env D (mset0.map MISet.limiter) (mset0.map MISet.length) S0 (constants s0.length mset0.length)
      { mset0 := mset0, tmp := consts, best := consts, sizes := sizes, currSz := sizes.sum, patience := 0,
        bestError := env.initError } ⟨S0, env.initError⟩ [] :=
    ⟨.start, hr, ht, rfl, rfl, i1, i1, hsz, by simp only [total, hsz], ⟨_, List.mem_cons_self, rfl⟩,
      fun u hu => by rw [List.mem_singleton.1 hu], Or.inl ⟨rfl, i4⟩, fun u hu => by rw [List.mem_singleton.1 hu]; exact le_max_left _ _⟩
  obtain ⟨v, hh, inv, stop⟩ := hinit.loop hD hDl _ rfl h2
  have hres : res = st.best := by
    refine assignAll_ok ?_ h3
    have := congrArg List.length (inv.hlens.trans inv.bestLens.symm)
    simpa using this
  subst hres
  refine ⟨v :: hh, inv.hist, inv.bound, ?_, ?_, ?_⟩
  · by_cases hc : st.currSz < env.maxSize
    · right
      have hp : env.maxPatience ≤ st.patience := by
        by_contra hp
        exact stop ⟨hc, not_le.1 hp⟩
      obtain ⟨u, hu, hue⟩ := inv.pat
      have hu' : u ∈ (v :: hh).drop env.maxPatience := (List.drop_sublist_drop_left _ hp).subset hu
      refine ⟨?_, fun w hw => ⟨u, hu', ?_⟩⟩
      · by_contra hn
        rw [List.drop_eq_nil_of_le (not_lt.1 hn)] at hu'
        simp at hu'
      · rw [hue]
        exact inv.min w (List.mem_of_mem_take hw)
    · left
      refine ⟨v, rfl, ?_⟩
      rw [← inv.cur]
      exact not_lt.1 hc
  · rintro ⟨w, hw, hlt⟩
    rcases inv.best with ⟨hb, _⟩ | ⟨_, u, hu, e1, e2⟩
    · have := inv.min w hw
      rw [hb] at this
      exact absurd hlt (not_lt.2 this)
    · exact ⟨u, hu, e2, fun w hw => by rw [e1]; exact inv.min w hw⟩
  · intro hall
    rcases inv.best with ⟨_, hb⟩ | ⟨hb, u, hu, e1, _⟩
    · have e : env.inputDim + 1 - env.outputDim = s0.length := by omega
      rw [e, ← hlen]
      exact hb
    · have := hall u hu
      rw [e1] at this
      exact absurd hb (not_lt.2 this)

theorem loop_run {env : Env} (hD : env.maxDegrees = ofVec [])
    (hg : ∀ k ms, (env.gradient k ms).length = (ms.map MISet.size).sum ∧ (0 : ℝ) ∉ env.gradient k ms)
    {lims : List (MultiIndex → Bool)} {lens : List Nat} {S0 consts : List (List (List Nat))} (n : Nat) :
    ∀ {st : St} {v : Visit} {h : List Visit}, RunInv env [] lims lens S0 consts st v h →
      Ready env.strict lims lens v.sets → ∃ st', ATM.loop env h.length st n = .ok st' := by
  induction n with
  | zero => intro st v h _ _; exact ⟨st, rfl⟩
  | succ n ih =>
    intro st v h hi hR
    by_cases hc : st.currSz < env.maxSize ∧ st.patience < env.maxPatience
    · obtain ⟨hs, s0, ts0, h0, ht0, hcand⟩ := hR.run hi.reach hi.terms hi.hlens hi.hlims
      obtain ⟨st1, h1⟩ := step_run (k := h.length) hD hg hi.reach hi.terms (hi.tmpLens.trans hi.hlens.symm)
        (hi.bestLens.trans hi.hlens.symm) hi.sizes hs h0 ht0 hcand
      obtain ⟨v1, hi1⟩ := hi.step hD (fun h => absurd rfl h) hc.1 h1
      have hgrow : Grows [] lims v.sets v1.sets := by
        have hh := hi1.hist
        cases hh with
        | step _ hgr _ => exact hgr
      obtain ⟨st2, h2⟩ := ih hi1 (hR.grows hgrow)
      refine ⟨st2, ?_⟩
      rw [ATM.loop, if_pos hc, h1, Res.bind_ok]
      exact h2
    · exact ⟨st, by rw [ATM.loop, if_neg hc]⟩

theorem initLoop_run {env : Env} : ∀ {ss : List MISet} {j dim : Nat}, (∀ s ∈ ss, ∃ b, Reach b s) →
    env.inputDim + j + 1 - env.outputDim = dim → 0 < dim → ss.map MISet.length = List.range' dim ss.length →
    ∃ p, initLoop env j dim ss = .ok p
  | [], _, _, _, _, _, _ => ⟨_, rfl⟩
  | s :: ss, j, dim, hr, hj, hd, hl => by
    simp only [List.map_cons, List.length_cons, List.range'_succ, List.cons.injEq] at hl
    obtain ⟨b, hb⟩ := hr s (by simp)
    obtain ⟨us, hu, _⟩ := C09_terms_exist hb
    obtain ⟨f, hf, _⟩ := FixedSet.C19_fix hb hu true (Or.inl rfl)
    obtain ⟨c, e, _⟩ := createTotalOrder_zero (n := env.inputDim + j + 1 - env.outputDim) (by omega)
    obtain ⟨p, hp⟩ := initLoop_run (env := env) (ss := ss) (j := j + 1) (dim := dim + 1) (fun s hs => hr s (by simp [hs])) (by omega)
      (by omega) hl.2
    refine ⟨(c :: p.1, s.size :: p.2), ?_⟩
    rw [initLoop, if_neg (by simpa using hl.1), hf, Res.bind_ok, e, Res.bind_ok, hp, Res.bind_ok]

theorem returns_of {env : Env} {mset0 : List MISet} (hD : env.maxDegrees = ofVec [])
    (hg : ∀ k ms, (env.gradient k ms).length = (ms.map MISet.size).sum ∧ (0 : ℝ) ∉ env.gradient k ms)
    (hr : ∀ s ∈ mset0, ∃ b, Reach b s) (hlen : mset0.length = env.outputDim) (hm : 0 < env.outputDim)
    (hin : env.outputDim ≤ env.inputDim)
    (hlens : ∀ (j : Nat) (s : MISet), mset0[j]? = some s → s.length = env.inputDim - env.outputDim + 1 + j)
    (hR : ∀ S0, List.Forall₂ Terms mset0 S0 → Ready env.strict (mset0.map MISet.limiter) (mset0.map MISet.length) S0) :
    ∃ res, trainMapAdaptive env mset0 = .ok res := by
  obtain ⟨s0, h0⟩ : ∃ s0, mset0[0]? = some s0 := ⟨_, List.getElem?_eq_getElem (by omega)⟩
  have hl0 := hlens 0 s0 h0
  have hrange : mset0.map MISet.length = List.range' s0.length mset0.length := by
    apply List.ext_getElem?
    intro j
    by_cases hj : j < mset0.length
    · have := hlens j mset0[j] (List.getElem?_eq_getElem hj)
      simp [hj, this, hl0]
    · simp [hj]
  obtain ⟨⟨consts, sizes⟩, hi⟩ := initLoop_run (env := env) (ss := mset0) (j := 0) (dim := s0.length) hr (by omega) (by omega) hrange
  obtain ⟨i1, i2, i3, i4⟩ := initLoop_ok (dim := s0.length) hr (by omega) hi
  obtain ⟨S0, hS0⟩ : ∃ S0, List.Forall₂ Terms mset0 S0 := by
    clear * - hr
    induction mset0 with
    | nil => exact ⟨[], .nil⟩
    | cons s ss ih =>
      obtain ⟨S, hS⟩ := ih fun s hs => hr s (by simp [hs])
      obtain ⟨b, hb⟩ := hr s (by simp)
      obtain ⟨us, hu, _⟩ := C09_terms_exist hb
      exact ⟨us :: S, .cons hu hS⟩
  have hsz : sizes = S0.map List.length := by
    rw [i2]
    clear * - hS0
    induction hS0 with
    | nil => rfl
    | cons h1 _ ih => rw [List.map_cons, List.map_cons, ih, h1.1]
  have hinit : RunInv env [] (mset0.map MISet.limiter) (mset0.map MISet.length) S0 (constants s0.length mset0.length)
      { mset0 := mset0, tmp := consts, best := consts, sizes := sizes, currSz := sizes.sum, patience := 0,
        bestError := env.initError } ⟨S0, env.initError⟩ [] :=
    ⟨.start, hr, hS0, rfl, rfl, i1, i1, hsz, by simp only [total, hsz], ⟨_, List.mem_cons_self, rfl⟩,
      fun u hu => by rw [List.mem_singleton.1 hu], Or.inl ⟨rfl, i4⟩, fun u hu => by rw [List.mem_singleton.1 hu]; exact le_max_left _ _⟩
  obtain ⟨st, hst⟩ := loop_run hD hg (env.maxSize - sizes.sum) hinit (hR S0 hS0)
  obtain ⟨v, hh, inv, _⟩ := hinit.loop hD (fun h => absurd rfl h) _ rfl hst
  refine ⟨st.best, ?_⟩
  rw [List.length_nil] at hst
  rw [trainMapAdaptive, if_neg (by simpa using hlen), Res.idx_some h0, Res.bind_ok, hi, Res.bind_ok]
  dsimp only
  rw [if_neg (by simp; omega), if_neg (by rw [hD]; simp), hst, Res.bind_ok, assignAll_same (inv.hlens.trans inv.bestLens.symm)]

/-- **C55 (part).** If out-of-range reads of coefficients are harmless, no gradient entry is ever zero, no maximum degrees are
given and the first component starts from a nonempty downward closed set whose limiter accepts everything, then
`TrainMapAdaptive` returns, for every sequence of test errors. -/
theorem C55_returns_partial {env : Env} {mset0 : List MISet} (hs : env.strict = false) (hD : env.maxDegrees = ofVec [])
    (hg : ∀ k ms, (env.gradient k ms).length = (ms.map MISet.size).sum ∧ (0 : ℝ) ∉ env.gradient k ms)
    (hr : ∀ s ∈ mset0, ∃ b, Reach b s) (hlen : mset0.length = env.outputDim) (hm : 0 < env.outputDim)
    (hin : env.outputDim ≤ env.inputDim)
    (hlens : ∀ (j : Nat) (s : MISet), mset0[j]? = some s → s.length = env.inputDim - env.outputDim + 1 + j)
    {s0 : MISet} {ts0 : List (List Nat)} (h0 : mset0[0]? = some s0) (ht0 : Terms s0 ts0) (hne : ts0 ≠ [])
    (hdc : DownClosed ts0) (hacc : ∀ w, w.length = s0.length → Accepts s0 w) :
    ∃ res, trainMapAdaptive env mset0 = .ok res := by
  refine returns_of hD hg hr hlen hm hin hlens fun S0 hS0 => Or.inl ⟨hs, ts0, s0.length, s0.limiter, ?_⟩
  obtain ⟨ts, hts, htt⟩ := forall2_get hS0 h0
  have : ts = ts0 := htt.unique ht0
  subst this
  have hl0 := hlens 0 s0 h0
  exact ⟨hts, by rw [List.getElem?_map, h0]; rfl, by rw [List.getElem?_map, h0]; rfl, by omega, hne, hdc, hacc⟩

/-- **C55 (part).** The same if every component starts from a nonempty downward closed set whose limiter accepts exactly the terms that depend on one
variable at most. No coefficient is read out of range then: the call returns also if such a read would stop the program. -/
theorem C55_returns_single_partial {env : Env} {mset0 : List MISet} (hD : env.maxDegrees = ofVec [])
    (hg : ∀ k ms, (env.gradient k ms).length = (ms.map MISet.size).sum ∧ (0 : ℝ) ∉ env.gradient k ms)
    (hr : ∀ s ∈ mset0, ∃ b, Reach b s) (hlen : mset0.length = env.outputDim) (hm : 0 < env.outputDim)
    (hin : env.outputDim ≤ env.inputDim)
    (hlens : ∀ (j : Nat) (s : MISet), mset0[j]? = some s → s.length = env.inputDim - env.outputDim + 1 + j)
    (hsets : ∀ s ∈ mset0, ∃ ts, Terms s ts ∧ ts ≠ [] ∧ DownClosed ts ∧ ∀ w, w.length = s.length → (Accepts s w ↔ nonzeros w ≤ 1)) :
    ∃ res, trainMapAdaptive env mset0 = .ok res :=
  returns_of hD hg hr hlen hm hin hlens fun _ hS0 => ready_single hr hlen hm hlens hS0 hsets

/-- **C55.** The term that is added has the largest gradient entry, in absolute value, among all the candidates of all the
components, and that entry is not zero. (`start` is where the entries of each component begin.) -/
theorem C55_largest_gradient {grad : List ℝ} {candidates : List (List Nat)} {msets : List MISet} {start : Nat → Nat}
    (hstart : ∀ b, start b = ((msets.take b).map MISet.size).sum) {i b : Nat}
    (h : findMaxGrad grad candidates msets = .ok (some (i, b))) :
    ∃ rm g, candidates[b]? = some rm ∧ i ∈ rm ∧ grad[start b + i]? = some g ∧ g ≠ 0 ∧
      ∀ (b' : Nat) (rm' : List Nat) (i' : Nat), candidates[b']? = some rm' → i' ∈ rm' →
        ∃ g', grad[start b' + i']? = some g' ∧ |g'| ≤ |g| := by
  obtain ⟨rm, g, h1, h2, h3, h4, h5⟩ := findMaxGrad_some h
  have e : ∀ b, start b = offset msets b := hstart
  refine ⟨rm, g, h1, h2, by rw [e]; exact h3, abs_pos.1 h4, fun b' rm' i' hb hi => ?_⟩
  rw [e]
  exact h5 b' rm' i' hb hi

/-- **C55 (part).** The coefficients of the expanded component are the old ones followed by zeros, and nothing is read out of
range, if `Expand()` reported the new indices once each and in order, and there is at least one. -/
theorem C55_copy_partial (n m : Nat) (hm : 0 < m) :
    copyLoop (List.range' n m) n 0 0 0 (n + m) = .ok ((List.range n).map some ++ List.replicate m none) :=
  copy_range n m hm

/-- **C55 (part).** If no map that was trained was better than the first one — for instance if the first one already has
`maxSize` terms — what is returned has only the constant term in every component, whatever the initial sets were. -/
theorem C55_no_improvement {env : Env} {mset0 res : List MISet} {S0 : List (List (List Nat))} {D : List Nat}
    (hr : ∀ s ∈ mset0, ∃ b, Reach b s) (ht : List.Forall₂ Terms mset0 S0) (hD : env.maxDegrees = ofVec D)
    (hworse : ∀ k ms, env.initError ≤ env.testError k ms) (h : trainMapAdaptive env mset0 = .ok res) :
    List.Forall₂ Terms res (constants (env.inputDim + 1 - env.outputDim) env.outputDim) := by
  obtain ⟨hist, h1, h2, h3, h4, h5⟩ := C55_history_partial hr ht hD h
  refine h5 ?_
  clear h2 h3 h4 h5
  induction h1 with
  | start => intro v hv; rw [List.mem_singleton.1 hv]
  | step _ _ he ih =>
    intro v hv
    rcases List.mem_cons.1 hv with rfl | hv
    · obtain ⟨ms, _, e⟩ := he
      simp only [e]
      exact hworse _ _
    · exact ih v hv

/-! ### Instances and failures -/

/-- One output, gradients that are one everywhere, and given test errors. -/
noncomputable def exEnv (inputDim maxSize : Nat) (strict : Bool) (err : Nat → ℝ) : Env where
  inputDim := inputDim
  outputDim := 1
  maxSize := maxSize
  maxPatience := 3
  maxDegrees := ofVec []
  initError := 1
  gradient := fun _ ms => List.replicate (ms.map MISet.size).sum 1
  testError := fun k _ => err k
  strict := strict

theorem exEnv_grad (inputDim maxSize : Nat) (strict : Bool) (err : Nat → ℝ) (k : Nat) (ms : List MISet) :
    ((exEnv inputDim maxSize strict err).gradient k ms).length = (ms.map MISet.size).sum ∧
      (0 : ℝ) ∉ (exEnv inputDim maxSize strict err).gradient k ms := by
  simp [exEnv]

theorem totalOrder_start {n : Nat} (hn : 0 < n) (p : Nat) : ∃ s ts, createTotalOrder n p (fun _ => true) = .ok s ∧
    Reach true s ∧ s.length = n ∧ s.limiter = (fun _ => true) ∧ Terms s ts ∧ DownClosed ts ∧ ts ≠ [] ∧
      ∀ v, v ∈ ts ↔ v.length = n ∧ v.sum ≤ p := by
  obtain ⟨s, ts, e, r, l, m, t, _, _, hv⟩ := C07_createTotalOrder hn p (fun _ => true)
  refine ⟨s, ts, e, r, l, m, t, ?_, ?_, fun v => by simp [hv v]⟩
  · intro v w hvw hw
    rw [hv] at hw ⊢
    have := fwd_sum hvw
    exact ⟨by omega, by omega, rfl⟩
  · exact List.ne_nil_of_mem ((hv (List.replicate n 0)).2 ⟨by simp, by simp, rfl⟩)

/-- The hypotheses of `C55_returns_partial` and `C55_history_partial` are met by a component of three variables that starts
from all terms of order at most one; here the first step improves, the second does not. -/
example : ∃ s S0 res, Reach true s ∧ List.Forall₂ Terms [s] S0 ∧
    trainMapAdaptive (exEnv 3 7 false (fun k => if k = 0 then 0 else 2)) [s] = .ok res := by
  obtain ⟨s, ts, _, r, l, m, t, d, ne, _⟩ := totalOrder_start (n := 3) (by omega) 1
  have hr : ∀ x ∈ [s], ∃ b, Reach b x := by intro x hx; rw [List.mem_singleton.1 hx]; exact ⟨_, r⟩
  obtain ⟨res, h⟩ := C55_returns_partial (env := exEnv 3 7 false (fun k => if k = 0 then 0 else 2)) (mset0 := [s]) rfl rfl
    (exEnv_grad _ _ _ _) hr rfl (by simp [exEnv]) (by simp [exEnv])
    (by
      intro j x hx
      cases j with
      | zero => simp only [List.getElem?_cons_zero, Option.some.injEq] at hx; subst hx; simp [exEnv, l]
      | succ j => simp at hx)
    (s0 := s) rfl t ne d (fun w _ => by unfold Accepts; rw [m])
  exact ⟨s, [ts], res, r, .cons t .nil, h⟩

/-- The limiter that accepts the terms depending on one variable at most. -/
def oneVariable (m : MultiIndex) : Bool := decide (m.nzInds.length ≤ 1)

theorem oneVariable_iff (w : List Nat) : oneVariable (ofVec w) = true ↔ nonzeros w ≤ 1 := by
  have : ∀ (i : Nat) (w : List Nat), (nzI i w).length = nonzeros w := by
    intro i w
    induction w generalizing i with
    | nil => rfl
    | cons x w ih =>
      rw [nonzeros, List.countP_cons, nzI]
      have := ih (i + 1)
      unfold nonzeros at this
      by_cases hx : x = 0
      · simp [hx, this]
      · simp [hx, this, Nat.pos_of_ne_zero hx]
  simp [oneVariable, this]

theorem oneVariable_start {n : Nat} (hn : 0 < n) (p : Nat) : ∃ s ts, createTotalOrder n p oneVariable = .ok s ∧
    Reach true s ∧ s.length = n ∧ s.limiter = oneVariable ∧ Terms s ts ∧ DownClosed ts ∧ ts ≠ [] ∧
      ∀ w, w.length = s.length → (Accepts s w ↔ nonzeros w ≤ 1) := by
  obtain ⟨s, ts, e, r, l, m, t, _, _, hv⟩ := C07_createTotalOrder hn p oneVariable
  refine ⟨s, ts, e, r, l, m, t, ?_, ?_, fun w _ => by unfold Accepts; rw [m, oneVariable_iff]⟩
  · intro v w hvw hw
    rw [hv, oneVariable_iff] at hw ⊢
    have := fwd_sum hvw
    exact ⟨by omega, by omega, (nonzeros_le hvw).trans hw.2.2⟩
  · refine List.ne_nil_of_mem ((hv (List.replicate n 0)).2 ⟨by simp, by simp, ?_⟩)
    rw [oneVariable_iff, nonzeros, List.countP_eq_zero.2]
    · omega
    · intro x hx
      simp [List.eq_of_mem_replicate hx]

/-- The hypotheses of `C55_returns_single_partial` are met by the terms in one variable, for every number of variables and every order; a read out of
range would stop the program here. -/
example (n p : Nat) (hn : 0 < n) (maxSize : Nat) (err : Nat → ℝ) : ∃ s res, createTotalOrder n p oneVariable = .ok s ∧
    trainMapAdaptive (exEnv n maxSize true err) [s] = .ok res := by
  obtain ⟨s, ts, e, r, l, _, t, d, ne, ha⟩ := oneVariable_start hn p
  obtain ⟨res, h⟩ := C55_returns_single_partial (env := exEnv n maxSize true err) (mset0 := [s]) rfl (exEnv_grad _ _ _ _)
    (by intro x hx; rw [List.mem_singleton.1 hx]; exact ⟨_, r⟩) rfl (by simp [exEnv]) (by simp only [exEnv]; omega)
    (by
      intro j x hx
      cases j with
      | zero => simp only [List.getElem?_cons_zero, Option.some.injEq] at hx; subst hx; simp [exEnv, l]; omega
      | succ j => simp at hx)
    (by intro x hx; rw [List.mem_singleton.1 hx]; exact ⟨ts, t, ne, d, ha⟩)
  exact ⟨s, res, e, h⟩

/-- **C55, failure.** The initial map is lost: with the initial map best of all, what is returned has fewer terms than the map
that was passed in, and is a different map. (For every number of variables and every initial total order.) -/
theorem C55_fails_initial_lost (n p : Nat) (hn : 0 < n) (hp : 0 < p) : ∃ (env : Env) (s s' : MISet) (ts : List (List Nat)),
    createTotalOrder n p (fun _ => true) = .ok s ∧ Terms s ts ∧ (∀ k ms, env.initError < env.testError k ms) ∧
    trainMapAdaptive env [s] = .ok [s'] ∧ Terms s' [List.replicate n 0] ∧ ts ≠ [List.replicate n 0] := by
  obtain ⟨s, ts, e, r, l, m, t, d, ne, hv⟩ := totalOrder_start hn p
  have hr : ∀ x ∈ [s], ∃ b, Reach b x := by intro x hx; rw [List.mem_singleton.1 hx]; exact ⟨_, r⟩
  obtain ⟨res, h⟩ := C55_returns_partial (env := exEnv n (ts.length + 5) false (fun _ => 2)) (mset0 := [s]) rfl rfl
    (exEnv_grad _ _ _ _) hr rfl (by simp [exEnv]) (by simp only [exEnv]; omega)
    (by
      intro j x hx
      cases j with
      | zero => simp only [List.getElem?_cons_zero, Option.some.injEq] at hx; subst hx; simp [exEnv, l]; omega
      | succ j => simp at hx)
    (s0 := s) rfl t ne d (fun w _ => by unfold Accepts; rw [m])
  have hc := C55_no_improvement (D := []) hr (.cons t .nil) rfl (fun k ms => by simp [exEnv]) h
  have hc : List.Forall₂ Terms res [[List.replicate n 0]] := by
    simpa [exEnv, constants] using hc
  cases hc with
  | cons h1 h2 =>
    cases h2
    refine ⟨_, s, _, ts, e, t, fun k ms => by simp [exEnv], h, h1, fun hts => ?_⟩
    have : (1 :: List.replicate (n - 1) 0) ∈ ts := (hv _).2 ⟨by simp; omega, by simp; omega⟩
    rw [hts, List.mem_singleton] at this
    have := congrArg List.sum this
    simp at this

theorem expand_twice : ∃ s t, createTotalOrder 2 1 (fun _ => true) = .ok s ∧ s.expandAll = .ok (t, [3, 4, 3, 5]) ∧
    s.size = 3 ∧ t.size = 6 := by
  have key : (do
      let s ← createTotalOrder 2 1 (fun _ => true)
      let p ← s.expandAll
      pure (p.2, s.size, p.1.size)) = .ok ([3, 4, 3, 5], 3, 6) := by decide +kernel
  simp only [Res.bind_eq_ok, Res.pure_eq, Res.ok.injEq] at key
  obtain ⟨s, e1, ⟨t, new⟩, e2, e3⟩ := key
  simp only [Prod.mk.injEq] at e3
  obtain ⟨rfl, e3, e4⟩ := e3
  exact ⟨s, t, e1, e2, e3, e4⟩

/-- **C55, failure.** Coefficients are read out of range: starting from the terms of order at most one in two variables, the
first step reads the fourth of the three coefficients of the component, whatever the gradients and errors, as soon as the
loop is entered at all. The reason is that `Expand()` reports the index of the term `(1,1)` twice. -/
theorem C55_fails_out_of_range : ∃ s, createTotalOrder 2 1 (fun _ => true) = .ok s ∧
    ∀ env : Env, env.strict = true → env.inputDim = 2 → env.outputDim = 1 → env.maxDegrees = ofVec [] → 3 < env.maxSize →
      0 < env.maxPatience → trainMapAdaptive env [s] = .ub := by
  obtain ⟨s, t, e1, e2, e3, e4⟩ := expand_twice
  obtain ⟨s', ts, e, r, l, m, tt, _⟩ := totalOrder_start (n := 2) (by omega) 1
  rw [e1] at e
  injection e with e
  subst e
  refine ⟨s, e1, fun env h1 h2 h3 h4 h5 h6 => ?_⟩
  have hr : ∀ x ∈ [s], ∃ b, Reach b x := by intro x hx; rw [List.mem_singleton.1 hx]; exact ⟨_, r⟩
  obtain ⟨⟨consts, sizes⟩, hi⟩ := initLoop_run (env := env) (ss := [s]) (j := 0) (dim := 2) hr (by omega) (by omega)
    (by simp [l])
  obtain ⟨i1, i2, _, _⟩ := initLoop_ok (dim := 2) hr (by omega) hi
  simp only [List.map_cons, List.map_nil, e3] at i2
  subst i2
  obtain ⟨c, rfl, hc⟩ : ∃ c, consts = [c] ∧ c.length = 2 := by
    cases consts with
    | nil => simp at i1
    | cons c cs =>
      cases cs with
      | nil => exact ⟨c, rfl, by simpa [l] using i1⟩
      | cons d ds => simp at i1
  obtain ⟨k, hk⟩ : ∃ k, env.maxSize - 3 = k + 1 := ⟨env.maxSize - 4, by omega⟩
  have hx : expandAll true [s] [c] [3] = .ub := by
    rw [expandAll, assign_same (by rw [hc, l]), Res.bind_ok, e2, Res.bind_ok]
    dsimp only
    rw [if_pos rfl, e4]
    rfl
  have hidx : Res.idx [s] 0 = .ok s := rfl
  rw [trainMapAdaptive, if_neg (by simp [h3]), hidx, Res.bind_ok, l, hi, Res.bind_ok]
  dsimp only
  rw [if_neg (by omega), if_neg (by rw [h4]; simp)]
  simp only [List.sum_cons, List.sum_nil, Nat.add_zero]
  rw [hk, loop, if_pos (by simp only; omega), step, h1, hx]
  rfl

/-- **C55, failure.** An indeterminate value is used: if all the gradient entries are zero, or if the maximum degrees rule out
every candidate, `maxIdx` and `maxIdxBlock` are read although nothing was assigned to them. Here the component is the constant
in one variable. -/
theorem C55_fails_uninitialised : ∃ s, createTotalOrder 1 0 (fun _ => true) = .ok s ∧
    ∀ env : Env, env.inputDim = 1 → env.outputDim = 1 → 1 < env.maxSize → 0 < env.maxPatience →
      (∀ k ms, (env.gradient k ms).length = (ms.map MISet.size).sum) →
      (env.maxDegrees = ofVec [] ∧ (∀ k ms, ∀ x ∈ env.gradient k ms, x = 0) ∨ env.maxDegrees = ofVec [1]) →
      trainMapAdaptive env [s] = .ub := by
  have key : (do
      let s ← createTotalOrder 1 0 (fun _ => true)
      let p ← s.expandAll
      let f ← p.1.filterBounded (ofVec [1])
      pure (p.2, s.size, p.1.size, f)) = .ok ([1], 1, 2, [false, true]) := by decide +kernel
  simp only [Res.bind_eq_ok, Res.pure_eq, Res.ok.injEq] at key
  obtain ⟨s, e1, ⟨t, new⟩, e2, f, e0, e3⟩ := key
  simp only [Prod.mk.injEq] at e3
  obtain ⟨rfl, e3, e4, rfl⟩ := e3
  obtain ⟨s', ts, e, r, l, m, tt, _⟩ := totalOrder_start (n := 1) (by omega) 0
  rw [e1] at e
  injection e with e
  subst e
  refine ⟨s, e1, fun env h2 h3 h5 h6 hg hcase => ?_⟩
  have hr : ∀ x ∈ [s], ∃ b, Reach b x := by intro x hx; rw [List.mem_singleton.1 hx]; exact ⟨_, r⟩
  obtain ⟨⟨consts, sizes⟩, hi⟩ := initLoop_run (env := env) (ss := [s]) (j := 0) (dim := 1) hr (by omega) (by omega)
    (by simp [l])
  obtain ⟨i1, i2, _, _⟩ := initLoop_ok (dim := 1) hr (by omega) hi
  simp only [List.map_cons, List.map_nil, e3] at i2
  subst i2
  obtain ⟨c, rfl, hc⟩ : ∃ c, consts = [c] ∧ c.length = 1 := by
    cases consts with
    | nil => simp at i1
    | cons c cs =>
      cases cs with
      | nil => exact ⟨c, rfl, by simpa [l] using i1⟩
      | cons d ds => simp at i1
  obtain ⟨k, hk⟩ : ∃ k, env.maxSize - 1 = k + 1 := ⟨env.maxSize - 2, by omega⟩
  have hx : ∀ b, expandAll b [s] [c] [1] = .ok ([t], [[1]]) := by
    intro b
    rw [expandAll, assign_same (by rw [hc, l]), Res.bind_ok, e2, Res.bind_ok]
    dsimp only
    cases b
    · rfl
    · rw [if_pos rfl, e4]
      rfl
  have hfind : ∃ rms, filterStep env.maxDegrees [t] [[1]] = .ok rms ∧ findMaxGrad (env.gradient 0 [t]) rms [t] = .ok none := by
    rcases hcase with ⟨hD, hz⟩ | hD
    · refine ⟨[[1]], by rw [hD]; rfl, ?_⟩
      have hl : 0 + 1 < (env.gradient 0 [t]).length := by rw [hg]; simp [e4]
      have hx0 : (env.gradient 0 [t])[0 + 1] = 0 := hz 0 [t] _ (List.getElem_mem hl)
      rw [findMaxGrad, maxGradOuter, maxGradInner, Res.idx_lt hl, Res.bind_ok, hx0, maxGradInner, Res.bind_ok]
      simp [maxGradOuter, Res.idx]
    · refine ⟨[[]], ?_, ?_⟩
      · rw [hD, filterStep, if_neg (by simp), maxDegreeRMFilter, e0, Res.bind_ok]
        rfl
      · rw [findMaxGrad, maxGradOuter, maxGradInner, Res.bind_ok]
        rfl
  obtain ⟨rms, hf1, hf2⟩ := hfind
  have hidx : Res.idx [s] 0 = .ok s := rfl
  rw [trainMapAdaptive, if_neg (by simp [h3]), hidx, Res.bind_ok, l, hi, Res.bind_ok]
  dsimp only
  rw [if_neg (by omega), if_neg (by rcases hcase with ⟨hD, _⟩ | hD <;> rw [hD, h3] <;> simp)]
  simp only [List.sum_cons, List.sum_nil, Nat.add_zero]
  rw [hk, loop, if_pos (by simp only; omega), step, hx, Res.bind_ok]
  dsimp only
  rw [hf1, Res.bind_ok, hf2]
  rfl

end ATM
end MParT
