import Verif.Lemmas.TrainAdaptiveCoeffsTotal
import Verif.Lemmas.TrainAdaptiveCoeffsChoice
/-!
# What adaptive training computes with (C99)
-/
namespace MParT
namespace ATM
namespace Full
open MultiIndex Spec MISet

/-- **C99 (part).** Whatever the optimiser and the objective are: when `TrainMapAdaptive` returns, the maps it trained form a history that starts from
zero coefficients, and in which every map has one term more than the one before and takes over its components; but the component that got the new term
begins again from zeros. If no coefficient was read out of range, the term that is added is the candidate for which the derivative of the training error is
largest in absolute value, at the map before it (`BestChosen`). The search goes on until `maxSize` is reached or none of the last `maxPatience` maps improved on the ones before. If a map was
better than the first one, the map that is returned has the terms of a map whose test error is the smallest of all, otherwise only constants; it is trained
once more, from zero coefficients.

Missing from the full claim, because the code violates it: the coefficients of the component that got the new term are lost (`C99_fails_continue`), and
the map that is returned is not the one with the smallest test error (`C99_fails_returned`). -/
theorem C99_history_partial {env : Env} {mset0 res : List MISet} {blocks : List Block} {S0 : List (List (List Nat))} {D : List Nat}
    (hr : ∀ s ∈ mset0, ∃ b, Reach b s) (ht : List.Forall₂ Terms mset0 S0) (hD : env.maxDegrees = ofVec D)
    (h : trainMapAdaptive env mset0 = .ok (res, blocks)) :
    ∃ (hist : List Trained) (first : Trained),
      Trainings beginAgain env D (mset0.map MISet.limiter) S0 hist ∧ hist.getLast? = some first ∧
      (∀ v ∈ hist, total v.sets ≤ max (total S0) env.maxSize) ∧
      ((∃ v, hist.head? = some v ∧ env.maxSize ≤ total v.sets) ∨
        (env.maxPatience < hist.length ∧ ∀ v ∈ hist.take env.maxPatience, ∃ u ∈ hist.drop env.maxPatience, u.err ≤ v.err)) ∧
      (total S0 < env.maxSize → 0 < env.maxPatience → 2 ≤ hist.length) ∧
      (env.strict = true → BestChosen env D (mset0.map MISet.limiter) hist) ∧
      ((∃ v ∈ hist, v.err < first.err) → ∃ best ∈ hist, (∀ v ∈ hist, best.err ≤ v.err) ∧ List.Forall₂ Terms res best.sets ∧
        blocks.map Block.set = best.blocks.map Block.set) ∧
      ((∀ v ∈ hist, first.err ≤ v.err) → List.Forall₂ Terms res (constants (env.inputDim + 1 - env.outputDim) env.outputDim)) ∧
      ∃ (S : List (List (List Nat))) (bs : List Block) (x : List ℝ), List.Forall₂ Terms res S ∧ Made bs S ∧ AllZero bs ∧
        env.train hist.length bs = .ok x ∧ Assigned bs x blocks := by
  unfold trainMapAdaptive at h
  split at h
  · cases h
  rename_i hlen
  have hlen : mset0.length = env.outputDim := by simpa using hlen
  simp only [Res.bind_eq_ok] at h
  obtain ⟨s0, h0, ⟨consts, sizes, bl⟩, h1, h⟩ := h
  have h0 := idx_eq h0
  split at h
  · cases h
  rename_i hdim
  split at h
  · cases h
  rename_i hmax
  simp only [Res.bind_eq_ok] at h
  obtain ⟨bl', htr, ⟨st, k⟩, h2, fb, h3, res', h4, fb', h5, h6⟩ := h
  simp only [Res.ok.injEq, Prod.mk.injEq] at h6
  obtain ⟨rfl, rfl⟩ := h6
  have hpos : 0 < mset0.length := (List.getElem?_eq_some_iff.1 h0).1
  have hdim : s0.length + env.outputDim - 1 = env.inputDim := by simpa using hdim
  obtain ⟨i1, i2, i3, i4, i5, i6, i7, i8⟩ := initLoop_ok (dim := s0.length) hr ht (by omega) h1
  have hsz : sizes = S0.map List.length := by
    rw [i3]
    clear * - ht
    induction ht with
    | nil => rfl
    | cons h1 _ ih => rw [List.map_cons, List.map_cons, ih, h1.1]
  have hDl : D ≠ [] → ∀ l ∈ mset0.map MISet.length, l ≤ D.length := by
    intro hne l hl
    have hne' : D.length ≠ 0 := fun h => hne (List.length_eq_zero_iff.1 h)
    have hDlen : env.maxDegrees.length = D.length := by rw [hD]; simp
    rw [hDlen] at hmax
    rw [i4] at hl
    have := List.mem_range'_1.1 hl
    omega
  obtain ⟨x, hx, has⟩ := trainBlocks_ok htr
  have hinit : Inv env D (mset0.map MISet.limiter) (mset0.map MISet.length) S0 (constants s0.length mset0.length) (env.testError bl')
      { mset0 := mset0, tmp := consts, best := consts, sizes := sizes, currSz := sizes.sum, patience := 0, bestError := env.testError bl', blocks := bl' }
      ⟨S0, bl', env.testError bl'⟩ [] :=
    ⟨.start (made_of hr ht rfl i6 i7) i8 hx has, hr, ht, rfl, has.2.1.trans i7,
      fun u hu => by rw [List.mem_singleton.1 hu]; exact has.1.trans i6, rfl, rfl, i1, i1, i2, hsz, by simp only [total, hsz],
      ⟨_, List.mem_cons_self, rfl⟩, fun u hu => by rw [List.mem_singleton.1 hu], Or.inl ⟨rfl, i5⟩,
      fun u hu => by rw [List.mem_singleton.1 hu]; exact le_max_left _ _⟩
  obtain ⟨v, hh, inv, hch, hk, ⟨p, hp⟩, hent, stop⟩ := hinit.loop hD hDl
    (P := fun hist => env.strict = true → BestChosen env D (mset0.map MISet.limiter) hist)
    (fun st st' v v' h i1 he i2 hp hs j a c ha hc => by
      cases j with
      | zero =>
        simp only [List.getElem?_cons_zero, List.getElem?_cons_succ, Option.some.injEq] at ha hc
        subst ha hc
        exact step_chosen hs hD i1 hDl he i2.terms
      | succ j => exact hp hs j a c (by simpa using ha) (by simpa using hc))
    _ (fun _ j a c _ hc => by simp at hc) rfl h2
  have hres : res' = st.best := by
    refine assignAll_ok ?_ h4
    have := congrArg List.length (inv.hlens.trans inv.bestLens.symm)
    simpa using this
  subst hres
  obtain ⟨S, hS⟩ : ∃ S, List.Forall₂ Terms st.best S := by
    rcases inv.best with ⟨_, h⟩ | ⟨_, _, _, _, h⟩
    · exact ⟨_, h⟩
    · exact ⟨_, h⟩
  obtain ⟨j1, j2, j3⟩ := finalBlocks_ok inv.bestReach hS h3
  obtain ⟨y, hy, hasy⟩ := trainBlocks_ok h5
  refine ⟨v :: hh, ⟨S0, bl', env.testError bl'⟩, inv.hist, ?_, inv.bound, ?_, ?_, hch, ?_, ?_,
    S, fb, y, hS, made_of inv.bestReach hS rfl j1 j2, j3, ?_, hasy⟩
  · rw [hp]; simp
  · by_cases hc : st.currSz < env.maxSize
    · right
      have hp : env.maxPatience ≤ st.patience := by
        by_contra hp
        exact stop ⟨hc, not_le.1 hp⟩
      obtain ⟨u, hu, hue⟩ := inv.pat
      have hu' : u ∈ (v :: hh).drop env.maxPatience := (List.drop_sublist_drop_left _ hp).subset hu
      refine ⟨?_, fun w hw => ⟨u, hu', ?_⟩⟩
      · by_contra hn
        rw [List.drop_eq_nil_of_le (not_lt.1 hn)] at hu'
        simp at hu'
      · rw [hue]
        exact inv.min w (List.mem_of_mem_take hw)
    · left
      refine ⟨v, rfl, ?_⟩
      rw [← inv.cur]
      exact not_lt.1 hc
  · intro h1 h2
    have hcs : sizes.sum = total S0 := by simp only [total, hsz]
    have := hent (by simp only; omega) h2
    simp only [List.length_nil] at this
    simp only [List.length_cons]
    omega
  · rintro ⟨w, hw, hlt⟩
    rcases inv.best with ⟨hb, _⟩ | ⟨_, u, hu, e1, e2⟩
    · have := inv.min w hw
      rw [hb] at this
      exact absurd hlt (not_lt.2 this)
    · refine ⟨u, hu, fun w hw => by rw [e1]; exact inv.min w hw, e2, ?_⟩
      have hSu : S = u.sets := by
        clear * - hS e2
        generalize st.best = bs at hS e2
        generalize u.sets = U at e2
        induction hS generalizing U with
        | nil => cases e2; rfl
        | cons h1 _ ih => cases e2 with | cons h3 h4 => rw [h1.unique h3, ih _ h4]
      rw [hasy.1, j1, hSu, inv.csr u hu, inv.bestLens]
  · intro hall
    rcases inv.best with ⟨_, hb⟩ | ⟨hb, u, hu, e1, _⟩
    · have e : env.inputDim + 1 - env.outputDim = s0.length := by omega
      rw [e, ← hlen]
      exact hb
    · have := hall u hu
      rw [e1] at this
      exact absurd hb (not_lt.2 this)
  · rw [List.length_cons, ← hk]; exact hy

/-! ### When the map that is returned is the best one -/

theorem blocks_ext {a b : List Block} (h1 : a.map Block.set = b.map Block.set) (h2 : a.map Block.coeffs = b.map Block.coeffs) : a = b := by
  induction a generalizing b with
  | nil => cases b with
    | nil => rfl
    | cons => simp at h1
  | cons x a ih =>
    cases b with
    | nil => simp at h1
    | cons y b =>
      simp only [List.map_cons, List.cons.injEq] at h1 h2
      rw [ih h1.2 h2.2]
      congr 1
      cases x; cases y
      simp only at h1 h2
      rw [h1.1, h2.1]

theorem flatten_inj {a b : List (List ℝ)} (h1 : a.map List.length = b.map List.length) (h2 : a.flatten = b.flatten) : a = b := by
  induction a generalizing b with
  | nil => cases b with
    | nil => rfl
    | cons => simp at h1
  | cons x a ih =>
    cases b with
    | nil => simp at h1
    | cons y b =>
      simp only [List.map_cons, List.cons.injEq, List.flatten_cons] at h1 h2
      obtain ⟨e1, e2⟩ := List.append_inj h2 h1.1
      rw [e1, ih h1.2 e2]

theorem assigned_unique {bs bs' a b : List Block} {x : List ℝ} (hs : bs.map Block.set = bs'.map Block.set)
    (hl : bs.map (fun b => b.coeffs.length) = bs'.map (fun b => b.coeffs.length)) (ha : Assigned bs x a) (hb : Assigned bs' x b) : a = b := by
  refine blocks_ext (by rw [ha.1, hb.1, hs]) (flatten_inj ?_ (by rw [ha.2.2, hb.2.2]))
  have := ha.2.1.trans (hl.trans hb.2.1.symm)
  simpa [List.map_map, Function.comp_def] using this

theorem made_lengths {bs : List Block} {S : List (List (List Nat))} (h : Made bs S) : bs.map (fun b => b.coeffs.length) = S.map List.length := by
  induction h with
  | nil => rfl
  | cons h1 _ ih => simp [h1.2, ih]

theorem zero_unique {a b : List Block} {S : List (List (List Nat))} (ha : Made a S) (hb : Made b S) (h1 : AllZero a) (h2 : AllZero b)
    (hs : a.map Block.set = b.map Block.set) : a = b := by
  refine blocks_ext hs ?_
  have hl := (made_lengths ha).trans (made_lengths hb).symm
  clear ha hb hs
  induction a generalizing b with
  | nil => cases b with
    | nil => rfl
    | cons => simp at hl
  | cons x a ih =>
    cases b with
    | nil => simp at hl
    | cons y b =>
      simp only [List.map_cons, List.cons.injEq] at hl ⊢
      refine ⟨?_, ih (fun b hb => h1 b (by simp [hb])) (fun b hb => h2 b (by simp [hb])) hl.2⟩
      rw [List.eq_replicate_of_mem (h1 x (by simp)), List.eq_replicate_of_mem (h2 y (by simp)), hl.1]

/-- What was trained is what the optimiser made of components with the same sets. -/
theorem trainings_trained {restart : List ℝ → List ℝ} {env : Env} {D : List Nat} {lims : List (MultiIndex → Bool)} {S0 : List (List (List Nat))}
    {hist : List Trained} (h : Trainings restart env D lims S0 hist) : ∀ v ∈ hist, v.err = env.testError v.blocks ∧
      ∃ k bs x, Made bs v.sets ∧ env.train k bs = .ok x ∧ Assigned bs x v.blocks := by
  induction h with
  | start h1 h2 h3 h4 =>
    intro v hv
    rw [List.mem_singleton.1 hv]
    exact ⟨rfl, 0, _, _, h1, h3, h4⟩
  | step _ _ h1 _ h3 h4 ih =>
    intro v hv
    rcases List.mem_cons.1 hv with rfl | hv
    · exact ⟨rfl, _, _, _, h1, h3, h4⟩
    · exact ih v hv

/-- With one component, everything begins from zeros. -/
theorem trainings_single {env : Env} {D : List Nat} {lims : List (MultiIndex → Bool)} {S0 : List (List (List Nat))} (hS : S0.length = 1)
    {hist : List Trained} (h : Trainings beginAgain env D lims S0 hist) : ∀ v ∈ hist, v.sets.length = 1 ∧ v.err = env.testError v.blocks ∧
      ∃ k bs x, Made bs v.sets ∧ AllZero bs ∧ env.train k bs = .ok x ∧ Assigned bs x v.blocks := by
  induction h with
  | start h1 h2 h3 h4 =>
    intro v hv
    rw [List.mem_singleton.1 hv]
    exact ⟨hS, rfl, 0, _, _, h1, h2, h3, h4⟩
  | @step u h' S' bs bs' x _ hg h1 h2 h3 h4 ih =>
    intro v hv
    rcases List.mem_cons.1 hv with rfl | hv
    · obtain ⟨hl, -, k, bs0, x0, hm0, -, -, ha0⟩ := ih u (by simp)
      obtain ⟨b, ts, lim, w, g1, -, rfl, -⟩ := hg
      have hb : b = 0 := by
        have := (List.getElem?_eq_some_iff.1 g1).1
        omega
      subst hb
      refine ⟨by simp [hl], rfl, _, bs, x, h1, ?_, h3, h4⟩
      have hbl : bs.length = 1 := by
        have := congrArg List.length (made_lengths h1)
        simpa [hl] using this
      have hul : u.blocks.length = 1 := by
        have e1 := congrArg List.length ha0.1
        have e2 := congrArg List.length (made_lengths hm0)
        simp only [List.length_map] at e1 e2
        omega
      obtain ⟨c, rfl⟩ := List.length_eq_one_iff.1 hbl
      obtain ⟨a, ha⟩ := List.length_eq_one_iff.1 hul
      have := (h2 0 a c (by simp [ha]) (by simp)).2 (by
        rw [List.getElem?_set_self (by omega), g1]
        intro e
        have := congrArg List.length (Option.some.inj e)
        simp at this)
      intro d hd y hy
      rw [List.mem_singleton.1 hd, this] at hy
      exact List.eq_of_mem_replicate hy
    · exact ih v hv

/-- **C99 (part).** With one output and training that depends only on the map it is given, the map that is returned is the best one: if any map that was
trained is better than the first one, the one returned is, coefficients included, one of those trained, and none of them has a smaller test error. (With
one output the map that is trained at the end starts from zeros as did every map before it.) -/
theorem C99_single_partial {env : Env} {mset0 res : List MISet} {blocks : List Block} {S0 : List (List (List Nat))} {D : List Nat}
    (hr : ∀ s ∈ mset0, ∃ b, Reach b s) (ht : List.Forall₂ Terms mset0 S0) (hD : env.maxDegrees = ofVec D)
    (hone : env.outputDim = 1) (hdet : ∀ k k' bs, env.train k bs = env.train k' bs)
    (h : trainMapAdaptive env mset0 = .ok (res, blocks)) :
    ∃ (hist : List Trained) (first : Trained), Trainings beginAgain env D (mset0.map MISet.limiter) S0 hist ∧ hist.getLast? = some first ∧
      (total S0 < env.maxSize → 0 < env.maxPatience → 2 ≤ hist.length) ∧
      ((∃ v ∈ hist, v.err < first.err) → ∃ best ∈ hist, blocks = best.blocks ∧ env.testError blocks = best.err ∧
        List.Forall₂ Terms res best.sets ∧ ∀ v ∈ hist, best.err ≤ v.err) := by
  have hlen : mset0.length = env.outputDim := by
    by_contra hn
    rw [trainMapAdaptive, if_pos hn] at h
    cases h
  have hS : S0.length = 1 := by rw [← ht.length_eq]; omega
  obtain ⟨hist, first, h1, h2, -, -, hl, -, h6, -, S, bs, x, g1, g2, g3, g4, g5⟩ := C99_history_partial hr ht hD h
  refine ⟨hist, first, h1, h2, hl, fun hv => ?_⟩
  obtain ⟨best, hb, hmin, hT, hset⟩ := h6 hv
  obtain ⟨-, herr, k, bs', x', m1, m2, m3, m4⟩ := trainings_single hS h1 best hb
  have hSb : S = best.sets := by
    clear * - g1 hT
    generalize best.sets = U at hT
    induction g1 generalizing U with
    | nil => cases hT; rfl
    | cons h1 _ ih => cases hT with | cons h3 h4 => rw [h1.unique h3, ih _ h4]
  subst hSb
  have hbs : bs = bs' := zero_unique g2 m1 g3 m2 (by rw [← g5.1, hset, m4.1])
  subst hbs
  rw [hdet _ k, m3] at g4
  obtain rfl := Res.ok.inj g4
  have : blocks = best.blocks := assigned_unique rfl rfl g5 m4
  exact ⟨best, hb, this, by rw [this, herr], hT, hmin⟩

/-- **C99 (part).** The same for any number of outputs, if the result of training does not depend on the coefficients it starts from. -/
theorem C99_independent_partial {env : Env} {mset0 res : List MISet} {blocks : List Block} {S0 : List (List (List Nat))} {D : List Nat}
    (hr : ∀ s ∈ mset0, ∃ b, Reach b s) (ht : List.Forall₂ Terms mset0 S0) (hD : env.maxDegrees = ofVec D)
    (hdet : ∀ k k' bs bs', bs.map Block.set = bs'.map Block.set → env.train k bs = env.train k' bs')
    (h : trainMapAdaptive env mset0 = .ok (res, blocks)) :
    ∃ (hist : List Trained) (first : Trained), Trainings beginAgain env D (mset0.map MISet.limiter) S0 hist ∧ hist.getLast? = some first ∧
      (total S0 < env.maxSize → 0 < env.maxPatience → 2 ≤ hist.length) ∧
      ((∃ v ∈ hist, v.err < first.err) → ∃ best ∈ hist, blocks = best.blocks ∧ env.testError blocks = best.err ∧
        List.Forall₂ Terms res best.sets ∧ ∀ v ∈ hist, best.err ≤ v.err) := by
  obtain ⟨hist, first, h1, h2, -, -, hl, -, h6, -, S, bs, x, g1, g2, g3, g4, g5⟩ := C99_history_partial hr ht hD h
  refine ⟨hist, first, h1, h2, hl, fun hv => ?_⟩
  obtain ⟨best, hb, hmin, hT, hset⟩ := h6 hv
  obtain ⟨herr, k, bs', x', m1, m3, m4⟩ := trainings_trained h1 best hb
  have hSb : S = best.sets := by
    clear * - g1 hT
    generalize best.sets = U at hT
    induction g1 generalizing U with
    | nil => cases hT; rfl
    | cons h1 _ ih => cases hT with | cons h3 h4 => rw [h1.unique h3, ih _ h4]
  subst hSb
  have hbs : bs.map Block.set = bs'.map Block.set := by rw [← g5.1, hset, m4.1]
  rw [hdet _ k _ _ hbs, m3] at g4
  obtain rfl := Res.ok.inj g4
  have : blocks = best.blocks := assigned_unique hbs ((made_lengths g2).trans (made_lengths m1).symm) g5 m4
  exact ⟨best, hb, this, by rw [this, herr], hT, hmin⟩

/-! ### The call returns -/

theorem loop_run {env : Env} (he : Kind env) (hD : env.maxDegrees = ofVec [])
    {lims : List (MultiIndex → Bool)} {lens : List Nat} {S0 consts : List (List (List Nat))} {e0 : ℝ} (n : Nat) :
    ∀ {st : St} {v : Trained} {h : List Trained}, Inv env [] lims lens S0 consts e0 st v h →
      Ready env.strict lims lens v.sets → ∃ p, Full.loop env h.length st n = .ok p := by
  induction n with
  | zero => intro st v h _ _; exact ⟨_, rfl⟩
  | succ n ih =>
    intro st v h hi hR
    by_cases hc : st.currSz < env.maxSize ∧ st.patience < env.maxPatience
    · obtain ⟨hs, s0, ts0, h0, ht0, hcand⟩ := hR.run hi.reach hi.terms hi.hlens hi.hlims
      obtain ⟨st1, h1⟩ := Full.step_run he hD hi hs h0 ht0 hcand
      obtain ⟨v1, hi1⟩ := hi.step hD (fun h => absurd rfl h) hc.1 h1
      have hgrow : Grows [] lims v.sets v1.sets := by
        have hh := hi1.hist
        cases hh with
        | step _ hgr _ => exact hgr
      obtain ⟨st2, h2⟩ := ih hi1 (hR.grows hgrow)
      refine ⟨st2, ?_⟩
      rw [Full.loop, if_pos hc, h1, Res.bind_ok]
      exact h2
    · exact ⟨_, by rw [Full.loop, if_neg hc]⟩

theorem newBlock_run {s : MISet} {b : Bool} (hb : Reach b s) : ∃ c, newBlock s = .ok c := by
  obtain ⟨us, hu, _⟩ := C09_terms_exist hb
  obtain ⟨f, hf, _⟩ := FixedSet.C19_fix hb hu true (Or.inl rfl)
  exact ⟨_, by rw [newBlock, hf, Res.bind_ok]⟩

theorem initLoop_run {env : Env} : ∀ {ss : List MISet} {j dim : Nat}, (∀ s ∈ ss, ∃ b, Reach b s) →
    env.inputDim + j + 1 - env.outputDim = dim → 0 < dim → ss.map MISet.length = List.range' dim ss.length →
    ∃ p, Full.initLoop env j dim ss = .ok p
  | [], _, _, _, _, _, _ => ⟨_, rfl⟩
  | s :: ss, j, dim, hr, hj, hd, hl => by
    simp only [List.map_cons, List.length_cons, List.range'_succ, List.cons.injEq] at hl
    obtain ⟨b, hb⟩ := hr s (by simp)
    obtain ⟨nb, hf⟩ := newBlock_run hb
    obtain ⟨c, e, _⟩ := createTotalOrder_zero (n := env.inputDim + j + 1 - env.outputDim) (by omega)
    obtain ⟨p, hp⟩ := initLoop_run (env := env) (ss := ss) (j := j + 1) (dim := dim + 1) (fun s hs => hr s (by simp [hs])) (by omega)
      (by omega) hl.2
    refine ⟨(c :: p.1, s.size :: p.2.1, nb :: p.2.2), ?_⟩
    rw [Full.initLoop, if_neg (by simpa using hl.1), hf, Res.bind_ok, e, Res.bind_ok, hp, Res.bind_ok]

theorem finalBlocks_run : ∀ {ss : List MISet}, (∀ s ∈ ss, ∃ b, Reach b s) → ∃ bs, finalBlocks ss = .ok bs
  | [], _ => ⟨_, rfl⟩
  | s :: ss, hr => by
    obtain ⟨b, hb⟩ := hr s (by simp)
    obtain ⟨nb, hf⟩ := newBlock_run hb
    obtain ⟨p, hp⟩ := finalBlocks_run (ss := ss) fun s hs => hr s (by simp [hs])
    exact ⟨nb :: p, by rw [finalBlocks, hf, Res.bind_ok, hp, Res.bind_ok]⟩

theorem terms_exist {ms : List MISet} (hr : ∀ s ∈ ms, ∃ b, Reach b s) : ∃ S, List.Forall₂ Terms ms S := by
  induction ms with
  | nil => exact ⟨[], .nil⟩
  | cons s ss ih =>
    obtain ⟨S, hS⟩ := ih fun s hs => hr s (by simp [hs])
    obtain ⟨b, hb⟩ := hr s (by simp)
    obtain ⟨us, hu, _⟩ := C09_terms_exist hb
    exact ⟨us :: S, .cons hu hS⟩

theorem returns_of {env : Env} {mset0 : List MISet} (he : Kind env) (hD : env.maxDegrees = ofVec [])
    (hr : ∀ s ∈ mset0, ∃ b, Reach b s) (hlen : mset0.length = env.outputDim) (hm : 0 < env.outputDim)
    (hin : env.outputDim ≤ env.inputDim)
    (hlens : ∀ (j : Nat) (s : MISet), mset0[j]? = some s → s.length = env.inputDim - env.outputDim + 1 + j)
    (hR : ∀ S0, List.Forall₂ Terms mset0 S0 → Ready env.strict (mset0.map MISet.limiter) (mset0.map MISet.length) S0) :
    ∃ res blocks, Full.trainMapAdaptive env mset0 = .ok (res, blocks) := by
  obtain ⟨s0, h0⟩ : ∃ s0, mset0[0]? = some s0 := ⟨_, List.getElem?_eq_getElem (by omega)⟩
  have hl0 := hlens 0 s0 h0
  have hrange : mset0.map MISet.length = List.range' s0.length mset0.length := by
    apply List.ext_getElem?
    intro j
    by_cases hj : j < mset0.length
    · have := hlens j mset0[j] (List.getElem?_eq_getElem hj)
      simp [hj, this, hl0]
    · simp [hj]
  obtain ⟨⟨consts, sizes, bl⟩, hi⟩ := Full.initLoop_run (env := env) (ss := mset0) (j := 0) (dim := s0.length) hr (by omega) (by omega) hrange
  obtain ⟨S0, hS0⟩ := terms_exist hr
  obtain ⟨i1, i2, i3, i4, i5, i6, i7, i8⟩ := Full.initLoop_ok (dim := s0.length) hr hS0 (by omega) hi
  have hsz : sizes = S0.map List.length := by
    rw [i3]
    clear * - hS0
    induction hS0 with
    | nil => rfl
    | cons h1 _ ih => rw [List.map_cons, List.map_cons, ih, h1.1]
  obtain ⟨bl', htr⟩ := trainBlocks_run he 0 bl
  obtain ⟨x, hx, has⟩ := trainBlocks_ok htr
  have hinit : Inv env [] (mset0.map MISet.limiter) (mset0.map MISet.length) S0 (constants s0.length mset0.length) (env.testError bl')
      { mset0 := mset0, tmp := consts, best := consts, sizes := sizes, currSz := sizes.sum, patience := 0, bestError := env.testError bl', blocks := bl' }
      ⟨S0, bl', env.testError bl'⟩ [] :=
    ⟨.start (made_of hr hS0 rfl i6 i7) i8 hx has, hr, hS0, rfl, has.2.1.trans i7,
      fun u hu => by rw [List.mem_singleton.1 hu]; exact has.1.trans i6, rfl, rfl, i1, i1, i2, hsz, by simp only [total, hsz],
      ⟨_, List.mem_cons_self, rfl⟩, fun u hu => by rw [List.mem_singleton.1 hu], Or.inl ⟨rfl, i5⟩,
      fun u hu => by rw [List.mem_singleton.1 hu]; exact le_max_left _ _⟩
  obtain ⟨⟨st, k⟩, hst⟩ := Full.loop_run he hD (env.maxSize - sizes.sum) hinit (hR S0 hS0)
  obtain ⟨v, hh, inv, _⟩ := hinit.loop hD (fun h => absurd rfl h) (P := fun _ => True) (fun _ _ _ _ _ _ _ _ _ => trivial) _ trivial rfl hst
  obtain ⟨fb, hfb⟩ := finalBlocks_run inv.bestReach
  obtain ⟨fb', hfb'⟩ := trainBlocks_run he (k + 1) fb
  refine ⟨st.best, fb', ?_⟩
  rw [List.length_nil] at hst
  rw [Full.trainMapAdaptive, if_neg (by simpa using hlen), Res.idx_some h0, Res.bind_ok, hi, Res.bind_ok]
  dsimp only
  rw [if_neg (by simp; omega), if_neg (by rw [hD]; simp), htr, Res.bind_ok, hst, Res.bind_ok]
  dsimp only
  rw [hfb, Res.bind_ok, assignAll_same (inv.hlens.trans inv.bestLens.symm), Res.bind_ok, hfb', Res.bind_ok]

/-- **C99 (part).** If the optimiser always returns, out-of-range reads of coefficients are harmless, no gradient entry is ever zero, no maximum degrees are
given and the first component starts from a nonempty downward closed set whose limiter accepts everything, then `TrainMapAdaptive` returns. -/
theorem C99_returns_partial {env : Env} {mset0 : List MISet} (he : Kind env) (hs : env.strict = false) (hD : env.maxDegrees = ofVec [])
    (hr : ∀ s ∈ mset0, ∃ b, Reach b s) (hlen : mset0.length = env.outputDim) (hm : 0 < env.outputDim)
    (hin : env.outputDim ≤ env.inputDim)
    (hlens : ∀ (j : Nat) (s : MISet), mset0[j]? = some s → s.length = env.inputDim - env.outputDim + 1 + j)
    {s0 : MISet} {ts0 : List (List Nat)} (h0 : mset0[0]? = some s0) (ht0 : Terms s0 ts0) (hne : ts0 ≠ [])
    (hdc : DownClosed ts0) (hacc : ∀ w, w.length = s0.length → Accepts s0 w) :
    ∃ res blocks, Full.trainMapAdaptive env mset0 = .ok (res, blocks) := by
  refine Full.returns_of he hD hr hlen hm hin hlens fun S0 hS0 => Or.inl ⟨hs, ts0, s0.length, s0.limiter, ?_⟩
  obtain ⟨ts, hts, htt⟩ := forall2_get hS0 h0
  have : ts = ts0 := htt.unique ht0
  subst this
  have hl0 := hlens 0 s0 h0
  exact ⟨hts, by rw [List.getElem?_map, h0]; rfl, by rw [List.getElem?_map, h0]; rfl, by omega, hne, hdc, hacc⟩

/-- **C99 (part).** The same if every component starts from a nonempty downward closed set whose limiter accepts exactly the terms that depend on one
variable at most. No coefficient is read out of range then: the call returns also if such a read would stop the program. -/
theorem C99_returns_single_partial {env : Env} {mset0 : List MISet} (he : Kind env) (hD : env.maxDegrees = ofVec [])
    (hr : ∀ s ∈ mset0, ∃ b, Reach b s) (hlen : mset0.length = env.outputDim) (hm : 0 < env.outputDim)
    (hin : env.outputDim ≤ env.inputDim)
    (hlens : ∀ (j : Nat) (s : MISet), mset0[j]? = some s → s.length = env.inputDim - env.outputDim + 1 + j)
    (hsets : ∀ s ∈ mset0, ∃ ts, Terms s ts ∧ ts ≠ [] ∧ DownClosed ts ∧ ∀ w, w.length = s.length → (Accepts s w ↔ nonzeros w ≤ 1)) :
    ∃ res blocks, Full.trainMapAdaptive env mset0 = .ok (res, blocks) :=
  Full.returns_of he hD hr hlen hm hin hlens fun _ hS0 => ready_single hr hlen hm hlens hS0 hsets

/-! ### Failures -/

/-- All the coefficients of a map, one component after the other. -/
def allCoeffs (bs : List Block) : List ℝ := (bs.map Block.coeffs).flatten

theorem allCoeffs_length (bs : List Block) : (allCoeffs bs).length = count bs := by
  simp [allCoeffs, count, List.length_flatten, List.map_map, Function.comp_def]

/-- An objective that is linear in the coefficients (for training and for testing), whose gradient is therefore minus one everywhere. The optimiser is
given as a function of the coefficients. -/
noncomputable def linEnv (inputDim outputDim maxSize : Nat) (opt : List ℝ → List ℝ) : Env where
  inputDim := inputDim
  outputDim := outputDim
  maxSize := maxSize
  maxPatience := 1
  maxDegrees := ofVec []
  gradient := fun bs => List.replicate (count bs) (-1)
  train := fun _ bs => .ok (opt (allCoeffs bs))
  testError := fun bs => -(allCoeffs bs).sum
  strict := false
  junk := fun _ _ n => List.replicate n 0

theorem linEnv_kind (a b c : Nat) {opt : List ℝ → List ℝ} (h : ∀ x, (opt x).length = x.length) : Kind (linEnv a b c opt) :=
  ⟨fun _ _ _ => by simp [linEnv], fun bs => by simp [linEnv],
    fun _ bs => ⟨_, rfl, by rw [h, allCoeffs_length]⟩⟩

/-- An optimiser with a fixed budget: it improves the first coefficient, by less the more coefficients there are. -/
noncomputable def budget : List ℝ → List ℝ
  | [] => []
  | c :: cs => (c + 1 / (cs.length + 1)) :: cs

theorem budget_sum {x : List ℝ} (h : x ≠ []) : (budget x).sum = x.sum + 1 / x.length := by
  cases x with
  | nil => exact absurd rfl h
  | cons c cs => simp [budget]; ring

theorem sum_zero {l : List ℝ} (h : ∀ x ∈ l, x = 0) : l.sum = 0 := by
  rw [List.eq_replicate_of_mem h]; simp

theorem allZero_coeffs {bs : List Block} (h : AllZero bs) : ∀ x ∈ allCoeffs bs, x = 0 := by
  intro x hx
  simp only [allCoeffs, List.mem_flatten, List.mem_map] at hx
  obtain ⟨l, ⟨b, hb, rfl⟩, hx⟩ := hx
  exact h b hb x hx

theorem made_count {bs : List Block} {S : List (List (List Nat))} (h : Made bs S) : count bs = total S := by
  rw [count, made_lengths h, total]

theorem trainings_head {restart : List ℝ → List ℝ} {env : Env} {D : List Nat} {lims : List (MultiIndex → Bool)} {S0 : List (List (List Nat))}
    {v : Trained} {h : List Trained} (ht : Trainings restart env D lims S0 (v :: h)) : v.blocks.length = v.sets.length := by
  obtain ⟨-, k, bs, x, h1, -, h3⟩ := trainings_trained ht v (by simp)
  have e1 := congrArg List.length h3.1
  have e2 := congrArg List.length (made_lengths h1)
  simp only [List.length_map] at e1 e2
  omega

/-- What the claim would give: with an optimiser that never makes things worse, if training continued from the coefficients of the map before, the
training error would never grow. -/
theorem goOn_never_worse {env : Env} {D : List Nat} {lims : List (MultiIndex → Bool)} {S0 : List (List (List Nat))} {F : List Block → ℝ}
    (hn : NeverWorse env F) (hz : IgnoresZeros F) {v u : Trained} {h : List Trained} (ht : Trainings goOn env D lims S0 (v :: u :: h)) :
    F v.blocks ≤ F u.blocks := by
  cases ht with
  | @step _ _ S' bs bs' x hu hg hm hto htr has =>
    refine (hn _ _ _ _ htr has).trans (le_of_eq ?_)
    have hul := trainings_head hu
    obtain ⟨b, ts, lim, w, g1, -, rfl, -⟩ := hg
    have hb : b < u.blocks.length := by rw [hul]; exact (List.getElem?_eq_some_iff.1 g1).1
    have hbl : bs.length = u.blocks.length := by
      have e := congrArg List.length (made_lengths hm)
      simp only [List.length_map, List.length_set] at e
      omega
    have key := (hto b u.blocks[b] bs[b] (List.getElem?_eq_getElem hb) (List.getElem?_eq_getElem (by omega))).2 (by
      rw [List.getElem?_set_self (by omega), g1]
      intro e
      have := congrArg List.length (Option.some.inj e)
      simp at this)
    have hbs : bs = u.blocks.set b ⟨bs[b].set, goOn u.blocks[b].coeffs⟩ := by
      apply List.ext_getElem (by simp [hbl])
      intro i h1 h2
      by_cases hi : b = i
      · subst hi
        rw [List.getElem_set_self, ← key]
      · rw [List.getElem_set_ne hi]
        refine (hto i _ _ (List.getElem?_eq_getElem (by omega)) (List.getElem?_eq_getElem h1)).1 ?_
        rw [List.getElem?_set_ne hi]
    rw [hbs]
    exact hz _ _ _ _ (List.getElem?_eq_getElem hb)

theorem linEnv_ignores (a b c : Nat) (opt : List ℝ → List ℝ) : IgnoresZeros (linEnv a b c opt).testError := by
  intro bs i b f hi
  simp only [linEnv, neg_inj]
  induction bs generalizing i with
  | nil => simp at hi
  | cons d bs ih =>
    cases i with
    | zero =>
      simp only [List.getElem?_cons_zero, Option.some.injEq] at hi
      subst hi
      simp [allCoeffs, goOn]
    | succ i =>
      simp only [List.getElem?_cons_succ] at hi
      have := ih _ hi
      simp only [allCoeffs, List.set_cons_succ, List.map_cons, List.flatten_cons, List.sum_append] at this ⊢
      rw [this]

theorem budget_neverWorse (a b c : Nat) : NeverWorse (linEnv a b c budget) (linEnv a b c budget).testError := by
  intro k bs bs' x h has
  obtain rfl := Res.ok.inj h
  have e : allCoeffs bs' = budget (allCoeffs bs) := has.2.2
  simp only [linEnv, e, neg_le_neg_iff]
  by_cases hx : allCoeffs bs = []
  · simp [hx, budget]
  · rw [budget_sum hx]
    exact le_add_of_nonneg_right (div_nonneg zero_le_one (Nat.cast_nonneg _))

theorem grows_total {D : List Nat} {lims : List (MultiIndex → Bool)} {S S' : List (List (List Nat))} (h : Grows D lims S S') : total S' = total S + 1 := by
  obtain ⟨b, ts, lim, w, g1, -, rfl, -⟩ := h
  clear * - g1
  induction S generalizing b with
  | nil => simp at g1
  | cons s S ih =>
    cases b with
    | zero =>
      simp only [List.getElem?_cons_zero, Option.some.injEq] at g1
      subst g1
      simp [total]; omega
    | succ b =>
      have := ih b (by simpa using g1)
      simp only [total, List.set_cons_succ, List.map_cons, List.sum_cons] at this ⊢
      omega

theorem trainings_first {restart : List ℝ → List ℝ} {env : Env} {D : List Nat} {lims : List (MultiIndex → Bool)} {S0 : List (List (List Nat))}
    {h : List Trained} {first : Trained} (ht : Trainings restart env D lims S0 h) (hl : h.getLast? = some first) : total first.sets = total S0 := by
  induction ht with
  | start h1 h2 h3 h4 =>
    rw [List.getLast?_singleton, Option.some.injEq] at hl
    rw [← hl]
  | step h1 _ _ _ _ _ ih => exact ih (by rwa [List.getLast?_cons_cons] at hl)

theorem trainings_total {restart : List ℝ → List ℝ} {env : Env} {D : List Nat} {lims : List (MultiIndex → Bool)} {S0 : List (List (List Nat))} :
    ∀ {h : List Trained} {v : Trained}, Trainings restart env D lims S0 (v :: h) → total v.sets = total S0 + h.length
  | [], v, ht => by cases ht; rfl
  | u :: h, v, ht => by
    cases ht with
    | step hu hg =>
      have := trainings_total hu
      have := grows_total hg
      simp only [List.length_cons]
      omega

/-- **C99, failure.** The coefficients that were learnt are lost: although the optimiser never makes things worse, and a new term with coefficient zero
changes nothing, the training error of the second map is larger than that of the first one. (The objective is linear, its gradient is the true one. For
every number of variables and every initial total order.) -/
theorem C99_fails_continue (n p : Nat) (hn : 0 < n) : ∃ (env : Env) (s : MISet) (ts : List (List Nat)) (res : List MISet) (blocks : List Block)
    (v u : Trained), createTotalOrder n p (fun _ => true) = .ok s ∧ Terms s ts ∧ trainMapAdaptive env [s] = .ok (res, blocks) ∧
      NeverWorse env env.testError ∧ IgnoresZeros env.testError ∧
      Trainings beginAgain env [] [fun _ => true] [ts] [v, u] ∧ env.testError u.blocks < env.testError v.blocks := by
  obtain ⟨s, ts, e, r, l, m, t, d, ne, hv⟩ := totalOrder_start hn p
  have hr : ∀ x ∈ [s], ∃ b, Reach b x := by intro x hx; rw [List.mem_singleton.1 hx]; exact ⟨_, r⟩
  let env := linEnv n 1 (ts.length + 1) budget
  have hk : Kind env := linEnv_kind _ _ _ (by intro x; cases x <;> simp [budget])
  obtain ⟨res, blocks, h⟩ := C99_returns_partial (env := env) (mset0 := [s]) hk rfl rfl hr rfl (by simp [env, linEnv]) (by simp only [env, linEnv]; omega)
    (by
      intro j x hx
      cases j with
      | zero => simp only [List.getElem?_cons_zero, Option.some.injEq] at hx; subst hx; simp [env, linEnv, l]; omega
      | succ j => simp at hx)
    (s0 := s) rfl t ne d (fun w _ => by unfold Accepts; rw [m])
  obtain ⟨hist, first, h1, h2, h3, h4, h5, -⟩ := C99_history_partial (D := []) hr (.cons t .nil) rfl h
  have hlen := h5 (by simp [total, env, linEnv]) (by simp [env, linEnv])
  have hS1 : ([ts] : List (List (List Nat))).length = 1 := rfl
  have hz := trainings_single hS1 h1
  have val : ∀ w ∈ hist, 0 < total w.sets → env.testError w.blocks = -(1 / (total w.sets : ℝ)) := by
    intro w hw hpos
    obtain ⟨-, -, k, bs, x, m1, m2, m3, m4⟩ := hz w hw
    obtain rfl := Res.ok.inj m3
    have e : allCoeffs w.blocks = budget (allCoeffs bs) := m4.2.2
    have hc := (allCoeffs_length bs).trans (made_count m1)
    have hne : allCoeffs bs ≠ [] := by intro h0; rw [h0] at hc; simp at hc; omega
    simp only [env, linEnv, e]
    rw [budget_sum hne, sum_zero (allZero_coeffs m2), hc, zero_add]
  rw [List.map_singleton, m] at h1
  cases h1 with
  | start => simp at hlen
  | @step u h' S' bs bs' x hu hg hm hto htr has =>
    have g := grows_total hg
    have hpos : 0 < ts.length := List.length_pos_iff.2 ne
    have hu0 : h' = [] ∧ total u.sets = total [ts] := by
      have g0 := trainings_total hu
      have b3 : total S' ≤ max (total [ts]) (ts.length + 1) := h3 _ List.mem_cons_self
      clear h3 h4 h5 h2
      have e0 : total [ts] = ts.length := by simp [total]
      have : h'.length = 0 := by omega
      exact ⟨List.length_eq_zero_iff.1 this, by omega⟩
    obtain ⟨rfl, hu1⟩ := hu0
    refine ⟨env, s, ts, res, blocks, _, u, e, t, h, budget_neverWorse _ _ _, linEnv_ignores _ _ _ _, .step hu hg hm hto htr has, ?_⟩
    have hT : 0 < total u.sets := by rw [hu1]; change 0 < ts.length + 0; exact hpos
    have q1 := val u (by simp) hT
    have q2 := val ⟨S', bs', env.testError bs'⟩ (by simp) (by rw [g]; exact Nat.succ_pos _)
    rw [q1, q2]
    simp only [g]
    have hp : (0 : ℝ) < (total u.sets : ℝ) := Nat.cast_pos.2 hT
    rw [neg_lt_neg_iff]
    apply one_div_lt_one_div_of_lt hp
    rw [Nat.cast_add, Nat.cast_one]
    exact lt_add_one _

/-- One step along the negative gradient of the linear objective. -/
def descend (x : List ℝ) : List ℝ := x.map (· + 1)

theorem descend_sum (x : List ℝ) : (descend x).sum = x.sum + x.length := by
  induction x with
  | nil => simp [descend]
  | cons c x ih =>
    simp only [descend, List.map_cons, List.sum_cons, List.length_cons, Nat.cast_add, Nat.cast_one] at ih ⊢
    rw [ih]; ring

theorem descend_neverWorse (a b c : Nat) : NeverWorse (linEnv a b c descend) (linEnv a b c descend).testError := by
  intro k bs bs' x h has
  obtain rfl := Res.ok.inj h
  have e : allCoeffs bs' = descend (allCoeffs bs) := has.2.2
  simp only [linEnv, e, neg_le_neg_iff, descend_sum]
  exact le_add_of_nonneg_right (Nat.cast_nonneg _)

/-- **C99, failure.** The map that is returned is not the best one: with two outputs, a map that was trained on the way has a smaller test error than
the one that is returned, although the optimiser never makes things worse and its result depends only on the map it is given. (For every number of
variables and every initial total order; the objective is linear, its gradient is the true one.) -/
theorem C99_fails_returned (n p : Nat) (hn : 0 < n) : ∃ (env : Env) (s s' : MISet) (ts ts' : List (List Nat)) (res : List MISet) (blocks : List Block)
    (hist : List Trained), createTotalOrder n p (fun _ => true) = .ok s ∧ createTotalOrder (n + 1) p (fun _ => true) = .ok s' ∧ Terms s ts ∧ Terms s' ts' ∧
      trainMapAdaptive env [s, s'] = .ok (res, blocks) ∧ NeverWorse env env.testError ∧ (∀ k k' bs, env.train k bs = env.train k' bs) ∧
      Trainings beginAgain env [] [fun _ => true, fun _ => true] [ts, ts'] hist ∧ ∃ v ∈ hist, v.err < env.testError blocks := by
  obtain ⟨s, ts, e, r, l, m, t, d, ne, hv⟩ := totalOrder_start hn p
  obtain ⟨s', ts', e', r', l', m', t', d', ne', hv'⟩ := totalOrder_start (n := n + 1) (by omega) p
  have hr : ∀ x ∈ [s, s'], ∃ b, Reach b x := by
    intro x hx
    simp only [List.mem_cons, List.not_mem_nil, or_false] at hx
    rcases hx with rfl | rfl
    · exact ⟨_, r⟩
    · exact ⟨_, r'⟩
  let env := linEnv (n + 1) 2 (ts.length + ts'.length + 1) descend
  have hk : Kind env := linEnv_kind _ _ _ (by intro x; simp [descend])
  obtain ⟨res, blocks, h⟩ := C99_returns_partial (env := env) (mset0 := [s, s']) hk rfl rfl hr rfl (by simp [env, linEnv]) (by simp only [env, linEnv]; omega)
    (by
      intro j x hx
      cases j with
      | zero => simp only [List.getElem?_cons_zero, Option.some.injEq] at hx; subst hx; simp only [env, linEnv, l]; omega
      | succ j =>
        cases j with
        | zero => simp at hx; subst hx; simp only [env, linEnv, l']; omega
        | succ j => simp at hx)
    (s0 := s) rfl t ne d (fun w _ => by unfold Accepts; rw [m])
  obtain ⟨hist, first, h1, h2, h3, -, h5, -, h6, -, S, fb, y, f1, f2, f3, f4, f5⟩ := C99_history_partial (D := []) hr (.cons t (.cons t' .nil)) rfl h
  have hT : total [ts, ts'] = ts.length + ts'.length := by simp [total]
  have hlen := h5 (by simp [hT, env, linEnv]) (by simp [env, linEnv])
  rw [List.map_cons, List.map_singleton, m, m'] at h1
  refine ⟨env, s, s', ts, ts', res, blocks, hist, e, e', t, t', h, descend_neverWorse _ _ _, fun _ _ _ => rfl, h1, ?_⟩
  have hblocks : env.testError blocks = -(total S : ℝ) := by
    obtain rfl := Res.ok.inj f4
    have e : allCoeffs blocks = descend (allCoeffs fb) := f5.2.2
    simp only [env, linEnv, e]
    rw [descend_sum, sum_zero (allZero_coeffs f3), allCoeffs_length, made_count f2, zero_add]
  cases h1 with
  | start => simp at hlen
  | @step u h' S' bs bs' x hu hg hm hto htr has =>
    have g := grows_total hg
    have g0 := trainings_total hu
    have b3 : total S' ≤ max (total [ts, ts']) (ts.length + ts'.length + 1) := h3 _ List.mem_cons_self
    have hnil : h' = [] := List.length_eq_zero_iff.1 (by clear h3 h5 h2 h6; omega)
    subst hnil
    obtain rfl := Res.ok.inj htr
    have ev : env.testError bs' = -((allCoeffs bs).sum + count bs) := by
      have e : allCoeffs bs' = descend (allCoeffs bs) := has.2.2
      simp only [env, linEnv, e, descend_sum, allCoeffs_length]
    obtain ⟨hus, hul, hue, hall⟩ : u.sets = [ts, ts'] ∧ u.blocks.map (fun b => b.coeffs.length) = [ts.length, ts'.length] ∧
        u.err = -(total [ts, ts'] : ℝ) ∧ ∀ b ∈ u.blocks, ∀ z ∈ b.coeffs, z = 1 := by
      cases hu with
      | @start bs1 bs2 x1 q1 q2 q3 q4 =>
        obtain rfl := Res.ok.inj q3
        have e : allCoeffs bs2 = descend (allCoeffs bs1) := q4.2.2
        refine ⟨rfl, by simp only [q4.2.1, made_lengths q1, List.map_cons, List.map_nil], ?_, ?_⟩
        · simp only [env, linEnv, e]
          rw [descend_sum, sum_zero (allZero_coeffs q2), allCoeffs_length, made_count q1, zero_add]
        · intro b hb z hz
          have hz' : z ∈ allCoeffs bs2 := List.mem_flatten.2 ⟨_, List.mem_map_of_mem hb, hz⟩
          rw [e, descend, List.mem_map] at hz'
          obtain ⟨z', h1, rfl⟩ := hz'
          rw [allZero_coeffs q2 z' h1, zero_add]
    have hsum : 0 < (allCoeffs bs).sum := by
      obtain ⟨b, us, lim, w, g1, -, rfl, -⟩ := hg
      have hbl : bs.length = 2 := by
        have e := congrArg List.length (made_lengths hm)
        simpa [hus] using e
      have hal : u.blocks.length = 2 := by simpa using congrArg List.length hul
      obtain ⟨c0, c1, rfl⟩ := List.length_eq_two.1 hbl
      obtain ⟨a0, a1, ha⟩ := List.length_eq_two.1 hal
      rw [ha, List.map_cons, List.map_singleton, List.cons.injEq, List.cons.injEq] at hul
      rw [ha] at hall
      rw [hus] at g1 hto
      have ones : ∀ a ∈ [a0, a1], 0 < a.coeffs.length → 0 < a.coeffs.sum := by
        intro a h1 h2
        rw [List.eq_replicate_of_mem (hall a h1)]
        simpa using h2
      have diff : ∀ us : List (List Nat), some (us ++ [w]) ≠ some us := by
        intro us e
        have := congrArg List.length (Option.some.inj e)
        simp at this
      match b, g1 with
      | 0, g1 =>
        obtain rfl : ts = us := by simpa using g1
        have k0 := (hto 0 a0 c0 (by simp [ha]) rfl).2 (diff _)
        have k1 := (hto 1 a1 c1 (by simp [ha]) rfl).1 rfl
        have := ones a1 (by simp) (by rw [hul.2.1]; exact List.length_pos_iff.2 ne')
        simpa [allCoeffs, k0, k1, beginAgain] using this
      | 1, g1 =>
        obtain rfl : ts' = us := by simpa using g1
        have k0 := (hto 0 a0 c0 (by simp [ha]) rfl).1 rfl
        have k1 := (hto 1 a1 c1 (by simp [ha]) rfl).2 (diff _)
        have := ones a0 (by simp) (by rw [hul.1]; exact List.length_pos_iff.2 ne)
        simpa [allCoeffs, k0, k1, beginAgain] using this
      | b + 2, g1 => simp at g1
    have hcnt : (count bs : ℝ) = (total [ts, ts'] : ℝ) + 1 := by
      rw [made_count hm, g, hus, Nat.cast_add, Nat.cast_one]
    have hlt : env.testError bs' < u.err := by
      rw [ev, hue, neg_lt_neg_iff, hcnt]
      have : (total [ts, ts'] : ℝ) < total [ts, ts'] + 1 := lt_add_one _
      exact this.trans (lt_add_of_pos_left _ hsum)
    obtain ⟨best, hb, hmin, hbT, -⟩ := h6 ⟨_, List.mem_cons_self, by
      have : first = u := by simpa using h2.symm
      rw [this]; exact hlt⟩
    refine ⟨_, List.mem_cons_self, ?_⟩
    have hbest : best.sets = S' := by
      rcases List.mem_cons.1 hb with rfl | hb
      · rfl
      · rw [List.mem_singleton.1 hb] at hmin
        exact absurd hlt (not_lt.2 (hmin _ List.mem_cons_self))
    have hSb : S = S' := by
      rw [hbest] at hbT
      clear * - f1 hbT
      induction f1 generalizing S' with
      | nil => cases hbT; rfl
      | cons h1 _ ih => cases hbT with | cons h3 h4 => rw [h1.unique h3, ih h4]
    rw [hblocks, hSb, ← made_count hm, ev, neg_lt_neg_iff]
    exact lt_add_of_pos_left _ hsum

/-- A call to which `C99_single_partial` applies, with its premise: a later map is better than the first one, and so the map that is returned is the best
one. For every number of variables and every initial total order. -/
example (n p : Nat) (hn : 0 < n) : ∃ (env : Env) (s : MISet) (ts : List (List Nat)) (res : List MISet) (blocks : List Block)
    (hist : List Trained) (first best : Trained), createTotalOrder n p (fun _ => true) = .ok s ∧ Terms s ts ∧ trainMapAdaptive env [s] = .ok (res, blocks) ∧
      Trainings beginAgain env [] [fun _ => true] [ts] hist ∧ hist.getLast? = some first ∧ best ∈ hist ∧ best.err < first.err ∧ blocks = best.blocks := by
  obtain ⟨s, ts, e, r, l, m, t, d, ne, hv⟩ := totalOrder_start hn p
  have hr : ∀ x ∈ [s], ∃ b, Reach b x := by intro x hx; rw [List.mem_singleton.1 hx]; exact ⟨_, r⟩
  let env := linEnv n 1 (ts.length + 1) descend
  have hk : Kind env := linEnv_kind _ _ _ (by intro x; simp [descend])
  obtain ⟨res, blocks, h⟩ := C99_returns_partial (env := env) (mset0 := [s]) hk rfl rfl hr rfl (by simp [env, linEnv]) (by simp only [env, linEnv]; omega)
    (by
      intro j x hx
      cases j with
      | zero => simp only [List.getElem?_cons_zero, Option.some.injEq] at hx; subst hx; simp [env, linEnv, l]; omega
      | succ j => simp at hx)
    (s0 := s) rfl t ne d (fun w _ => by unfold Accepts; rw [m])
  obtain ⟨hist, first, h1, h2, h5, h6⟩ := C99_single_partial (D := []) hr (.cons t .nil) rfl rfl (fun _ _ _ => rfl) h
  have hlen := h5 (by simp [total, env, linEnv]) (by simp [env, linEnv])
  have hS1 : ([ts] : List (List (List Nat))).length = 1 := rfl
  have hz := trainings_single hS1 h1
  have val : ∀ w ∈ hist, w.err = -(total w.sets : ℝ) := by
    intro w hw
    obtain ⟨-, m0, k, bs, x, m1, m2, m3, m4⟩ := hz w hw
    obtain rfl := Res.ok.inj m3
    have e : allCoeffs w.blocks = descend (allCoeffs bs) := m4.2.2
    have hc := (allCoeffs_length bs).trans (made_count m1)
    rw [m0]
    simp only [env, linEnv, e]
    rw [descend_sum, sum_zero (allZero_coeffs m2), hc, zero_add]
  rw [List.map_singleton, m] at h1
  obtain ⟨v, w, rest, rfl⟩ : ∃ v w rest, hist = v :: w :: rest := by
    match hist, hlen with
    | v :: w :: rest, _ => exact ⟨v, w, rest, rfl⟩
  have hv1 := trainings_total h1
  have hf : total first.sets = total [ts] := trainings_first h1 h2
  have hlt : v.err < first.err := by
    rw [val v (by simp), val first (List.mem_of_getLast? h2), hv1, hf, neg_lt_neg_iff, Nat.cast_lt]
    simp
  obtain ⟨best, b1, b2, -, -, b5⟩ := h6 ⟨v, by simp, hlt⟩
  exact ⟨env, s, ts, res, blocks, v :: w :: rest, first, best, e, t, h, h1, h2, b1, lt_of_le_of_lt (b5 v (by simp)) hlt, b2⟩

/-- A call in which no coefficient is read out of range although such a read would stop the program (`strict`), in which the map grows, and to which
`C99_single_partial` applies: for every number of variables, initial order and size. -/
example (n p k : Nat) (hn : 0 < n) : ∃ (s : MISet) (ts : List (List Nat)) (res : List MISet) (blocks : List Block) (hist : List Trained),
    let env : Env := { linEnv n 1 (ts.length + k + 1) budget with strict := true }
    createTotalOrder n p oneVariable = .ok s ∧ Terms s ts ∧ trainMapAdaptive env [s] = .ok (res, blocks) ∧
      Trainings beginAgain env [] [oneVariable] [ts] hist ∧ 2 ≤ hist.length ∧ BestChosen env [] [oneVariable] hist := by
  obtain ⟨s, ts, e, r, l, m, t, d, ne, ha⟩ := oneVariable_start hn p
  have hr : ∀ x ∈ [s], ∃ b, Reach b x := by intro x hx; rw [List.mem_singleton.1 hx]; exact ⟨_, r⟩
  let env : Env := { linEnv n 1 (ts.length + k + 1) budget with strict := true }
  have hk0 : Kind (linEnv n 1 (ts.length + k + 1) budget) := linEnv_kind _ _ _ (by intro x; cases x <;> simp [budget])
  have hk : Kind env := ⟨hk0.junk, hk0.grad, hk0.train⟩
  obtain ⟨res, blocks, h⟩ := C99_returns_single_partial (env := env) (mset0 := [s]) hk rfl hr rfl (by simp [env, linEnv]) (by simp only [env, linEnv]; omega)
    (by
      intro j x hx
      cases j with
      | zero => simp only [List.getElem?_cons_zero, Option.some.injEq] at hx; subst hx; simp [env, linEnv, l]; omega
      | succ j => simp at hx)
    (by intro x hx; rw [List.mem_singleton.1 hx]; exact ⟨ts, t, ne, d, ha⟩)
  obtain ⟨hist, first, h1, h2, h3, h4, h5, h6, -⟩ := C99_history_partial (D := []) hr (.cons t .nil) rfl h
  have hl : [s].map MISet.limiter = [oneVariable] := by rw [List.map_singleton, m]
  rw [hl] at h1 h6
  exact ⟨s, ts, res, blocks, hist, e, t, h, h1, h5 (by simp [total, env, linEnv]; omega) (by simp [env, linEnv]), h6 rfl⟩

end Full
end ATM
end MParT
