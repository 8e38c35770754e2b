import Verif.Lemmas.TrainAdaptiveRun
import Verif.Props.ExpandOnce
/-!
Helper lemmas for adaptive training: conditions under which every step succeeds.
-/
namespace MParT
namespace ATM
open MultiIndex Spec MISet Neighborhood

theorem fwd_sum {u v : List Nat} (h : Fwd u v) : v.sum = u.sum + 1 ∧ u.length = v.length := by
  have hl : u.length = v.length := by
    obtain ⟨i, _, rfl⟩ := h
    simp [inc]
  exact ⟨by rw [((fwd_iff_le_sum hl).1 h).2]; omega, hl⟩

/-- A nonempty downward closed set of vectors of positive length has a nonempty reduced margin, also within a downward closed property
that has a vector outside the set. -/
theorem margin_exists_of {ts : List (List Nat)} {n : Nat} (hl : ∀ t ∈ ts, t.length = n) (hd : DownClosed ts)
    (hne : ts ≠ []) {Q : List Nat → Prop} (hQ : ∀ b w, Fwd b w → Q w → Q b) (hex : ∃ w : List Nat, w.length = n ∧ Q w ∧ w ∉ ts) :
    ∃ w, w.length = n ∧ Q w ∧ w ∉ ts ∧ (∃ t ∈ ts, Fwd t w) ∧ ∀ b, Fwd b w → b ∈ ts := by
  classical
  -- the zero vector is a term
  have hz : List.replicate n 0 ∈ ts := by
    have hex : ∃ m, ∃ t ∈ ts, t.sum = m := by
      obtain ⟨t, ht⟩ := List.exists_mem_of_ne_nil ts hne
      exact ⟨_, t, ht, rfl⟩
    obtain ⟨t, ht, hs⟩ := Nat.find_spec hex
    have hmin := fun m (h : m < Nat.find hex) => Nat.find_min hex h
    by_cases h0 : ∃ i, 0 < t.getD i 0
    · obtain ⟨b, hb⟩ := fwd_zero_or h0
      have hbm := hd b t hb ht
      exact absurd ⟨b, hbm, rfl⟩ (hmin b.sum (by rw [← hs, (fwd_sum hb).1]; omega))
    · have : t = List.replicate n 0 := by
        refine List.eq_replicate_iff.2 ⟨hl t ht, fun x hx => ?_⟩
        obtain ⟨i, hi⟩ := List.getElem?_of_mem hx
        by_contra hx0
        exact h0 ⟨i, by rw [List.getD_eq_getElem?_getD, hi]; simp; omega⟩
      rwa [← this]
  have hex : ∃ m, ∃ w : List Nat, w.length = n ∧ Q w ∧ w ∉ ts ∧ w.sum = m := by
    obtain ⟨w, h1, h2, h3⟩ := hex
    exact ⟨_, w, h1, h2, h3, rfl⟩
  obtain ⟨w, hw, hq, hwt, hs⟩ := Nat.find_spec hex
  have hmin := fun m (h : m < Nat.find hex) => Nat.find_min hex h
  have hb : ∀ b, Fwd b w → b ∈ ts := by
    intro b hb
    by_contra hbt
    exact hmin b.sum (by rw [← hs, (fwd_sum hb).1]; omega) ⟨b, by rw [(fwd_sum hb).2, hw], hQ b w hb hq, hbt, rfl⟩
  refine ⟨w, hw, hq, hwt, ?_, hb⟩
  have h0 : ∃ i, 0 < w.getD i 0 := by
    by_contra h0
    refine hwt ?_
    have : w = List.replicate n 0 := by
      refine List.eq_replicate_iff.2 ⟨hw, fun x hx => ?_⟩
      obtain ⟨i, hi⟩ := List.getElem?_of_mem hx
      by_contra hx0
      exact h0 ⟨i, by rw [List.getD_eq_getElem?_getD, hi]; simp; omega⟩
    rwa [this]
  obtain ⟨b, hbw⟩ := fwd_zero_or h0
  exact ⟨b, hb b hbw, hbw⟩

/-- A nonempty downward closed set of vectors of positive length has a nonempty reduced margin. -/
theorem margin_exists {ts : List (List Nat)} {n : Nat} (hn : 0 < n) (hl : ∀ t ∈ ts, t.length = n) (hd : DownClosed ts)
    (hne : ts ≠ []) : ∃ w, w.length = n ∧ w ∉ ts ∧ (∃ t ∈ ts, Fwd t w) ∧ ∀ b, Fwd b w → b ∈ ts := by
  obtain ⟨w, h1, _, h2⟩ := margin_exists_of (Q := fun _ => True) hl hd hne (fun _ _ _ _ => trivial) (by
    refine ⟨List.replicate n ((ts.map List.sum).sum + 1), by simp, trivial, fun hm => ?_⟩
    have h1 := List.single_le_sum (l := ts.map List.sum) (by simp) _ (List.mem_map_of_mem hm)
    rw [List.sum_replicate, smul_eq_mul] at h1
    have : (ts.map List.sum).sum + 1 ≤ n * ((ts.map List.sum).sum + 1) := Nat.le_mul_of_pos_left _ hn
    omega)
  exact ⟨w, h1, h2⟩

theorem nonzeros_le {b w : List Nat} (h : Fwd b w) : nonzeros b ≤ nonzeros w := by
  obtain ⟨i, hi, rfl⟩ := h
  unfold nonzeros inc
  clear * - hi
  induction b generalizing i with
  | nil => simp at hi
  | cons x b ih =>
    cases i with
    | zero =>
      rw [List.set_cons_zero, List.countP_cons, List.countP_cons]
      simp
      split <;> omega
    | succ i =>
      rw [List.set_cons_succ, List.countP_cons, List.countP_cons]
      have := ih i (by simpa using hi)
      simp only [List.getD_cons_succ] at this ⊢
      omega

/-- It also has candidates that depend on one variable only. -/
theorem margin_single {ts : List (List Nat)} {n : Nat} (hn : 0 < n) (hl : ∀ t ∈ ts, t.length = n) (hd : DownClosed ts)
    (hne : ts ≠ []) : ∃ w, w.length = n ∧ nonzeros w ≤ 1 ∧ w ∉ ts ∧ (∃ t ∈ ts, Fwd t w) ∧ ∀ b, Fwd b w → b ∈ ts := by
  refine margin_exists_of (Q := fun w => nonzeros w ≤ 1) hl hd hne (fun b w hb hw => (nonzeros_le hb).trans hw) ?_
  refine ⟨((ts.map List.sum).sum + 1) :: List.replicate (n - 1) 0, by simp; omega, ?_, fun hm => ?_⟩
  · rw [nonzeros, List.countP_cons, List.countP_eq_zero.2]
    · split <;> omega
    · intro x hx
      simp [List.eq_of_mem_replicate hx]
  · have h1 := List.single_le_sum (l := ts.map List.sum) (by simp) _ (List.mem_map_of_mem hm)
    simp only [List.sum_cons, List.sum_replicate, smul_zero] at h1
    omega

/-- `Expand()` reports the new indices once each, in order, and there is at least one. -/
def Clean (s : MISet) (ts : List (List Nat)) : Prop :=
  ∃ s' m, 0 < m ∧ s.expandAll = .ok (s', List.range' ts.length m) ∧ s'.size = ts.length + m

/-- This is so if only terms in one variable are accepted. -/
theorem clean_of {b : Bool} {s : MISet} (h : Reach b s) {ts : List (List Nat)} (ht : Terms s ts) (hn : 0 < s.length) (hne : ts ≠ [])
    (hd : DownClosed ts) (hacc : ∀ w, w.length = s.length → (Accepts s w ↔ nonzeros w ≤ 1)) : Clean s ts := by
  have hl := (C09_bijection h ht).2.1
  obtain ⟨s', added, e, tt, _, _, _, m⟩ := C15_expandAll_once h ht (fun w hw ha hb => by
    by_cases h0 : ∃ i, 0 < w.getD i 0
    · obtain ⟨t, hf⟩ := fwd_zero_or h0
      exact (hacc w (by rw [← (fwd_sum hf).2]; exact hl t (hb t hf))).1 ha
    · refine le_trans (le_of_eq (List.countP_eq_zero.2 fun x hx => ?_)) (Nat.zero_le 1)
      obtain ⟨i, hi⟩ := List.getElem?_of_mem hx
      have : ¬ 0 < x := fun hx0 => h0 ⟨i, by rw [List.getD_eq_getElem?_getD, hi]; exact hx0⟩
      simpa using Nat.eq_zero_of_not_pos this)
  obtain ⟨w, w1, w2, w3, w4, w5⟩ := margin_single hn hl hd hne
  have hwa : w ∈ added := (m w).2 ⟨w3, (hacc w w1).2 w2, w4, w5⟩
  exact ⟨s', added.length, List.length_pos_of_mem hwa, e, by rw [tt.1]; simp⟩

theorem copy_range (n m : Nat) (hm : 0 < m) :
    copyLoop (List.range' n m) n 0 0 0 (n + m) = .ok ((List.range n).map some ++ List.replicate m none) := by
  have tail : ∀ k r, r + k = m → copyLoop (List.range' n m) n (n + r) r n k = .ok (List.replicate k none) := by
    intro k
    induction k with
    | zero => intro r _; rfl
    | succ k ih =>
      intro r hr
      have hx : (List.range' n m)[r]? = some (n + r) :=
        List.getElem?_eq_some_iff.2 ⟨by simp; omega, by simp⟩
      rw [copyLoop, Res.idx_some hx, Res.bind_ok, if_pos rfl, show n + r + 1 = n + (r + 1) by omega, ih (r + 1) (by omega),
        Res.bind_ok, List.replicate_succ]
  have head : ∀ k j, j + k = n → copyLoop (List.range' n m) n j 0 j (k + m)
      = .ok ((List.range' j k).map some ++ List.replicate m none) := by
    intro k
    induction k with
    | zero =>
      intro j hj
      have := tail m 0 (by omega)
      have hjn : j = n := by omega
      subst hjn
      simpa using this
    | succ k ih =>
      intro j hj
      have hx : (List.range' n m)[0]? = some n :=
        List.getElem?_eq_some_iff.2 ⟨by simp; omega, by simp⟩
      rw [show k + 1 + m = (k + m) + 1 by omega, copyLoop, Res.idx_some hx, Res.bind_ok, if_neg (by omega), if_pos (by omega),
        ih (j + 1) (by omega), Res.bind_ok, List.range'_succ]
      rfl
  have := head n 0 (by omega)
  rwa [← List.range_eq_range'] at this

theorem expandAll_run {strict : Bool} : ∀ {ss ts : List MISet} {S : List (List (List Nat))}, ts.map MISet.length = ss.map MISet.length →
    List.Forall₂ Terms ss S → (∀ s ∈ ss, ∃ b, Reach b s) → (strict = false ∨ List.Forall₂ Clean ss S) →
    ∃ p, expandAll strict ss ts (S.map List.length) = .ok p
  | [], _, _, _, _, _, _ => ⟨_, rfl⟩
  | s :: ss, [], _, h, _, _, _ => by simp at h
  | s :: ss, _ :: _, [], _, h, _, _ => by cases h
  | s :: ss, t :: ts, us :: S, h1, .cons hu h2, hr, hcl => by
    simp only [List.map_cons, List.cons.injEq] at h1
    obtain ⟨b, hb⟩ := hr s (by simp)
    obtain ⟨s', _, new, e, _⟩ := C15_expandAll hb hu
    obtain ⟨p, hp⟩ := expandAll_run (strict := strict) h1.2 h2 (fun s hs => hr s (by simp [hs])) (hcl.imp id fun h => by cases h; assumption)
    refine ⟨(s' :: p.1, new :: p.2), ?_⟩
    rw [List.map_cons, expandAll, assign_same h1.1.symm, Res.bind_ok, e, Res.bind_ok]
    cases hst : strict
    · simp only [Bool.false_eq_true, if_false]
      rw [← hst, hp, Res.bind_ok]
    · rcases hcl with h | h
      · rw [hst] at h; cases h
      · obtain ⟨s2, m, hm, e2, hsz⟩ : Clean s us := by cases h; assumption
        rw [e] at e2
        simp only [Res.ok.injEq, Prod.mk.injEq] at e2
        obtain ⟨rfl, rfl⟩ := e2
        dsimp only
        rw [if_pos rfl, hsz, copy_range _ _ hm, Res.bind_ok, ← hst, hp, Res.bind_ok]

theorem inner_run {grad : List ℝ} {start out : Nat} : ∀ {rm : List Nat} {acc : ℝ × Option (Nat × Nat)},
    (∀ i ∈ rm, start + i < grad.length) → ∃ r, maxGradInner grad start out acc rm = .ok r
  | [], acc, _ => ⟨acc, rfl⟩
  | i :: rest, acc, h => by
    have h1 := h i (by simp)
    obtain ⟨r, hr⟩ := inner_run (rm := rest) (acc := if |grad[start + i]| > acc.1 then (|grad[start + i]|, some (i, out)) else acc)
      (fun j hj => h j (by simp [hj]))
    refine ⟨r, ?_⟩
    rw [maxGradInner, Res.idx_lt h1, Res.bind_ok]
    exact hr

theorem outer_run {grad : List ℝ} {msets : List MISet} : ∀ {rms : List (List Nat)} {out : Nat}
    {acc : ℝ × Option (Nat × Nat)}, out + rms.length ≤ msets.length →
    (∀ (b : Nat) (rm : List Nat) (i : Nat), rms[b]? = some rm → i ∈ rm → offset msets (out + b) + i < grad.length) →
    ∃ r, maxGradOuter grad msets (offset msets out) out acc rms = .ok r
  | [], out, acc, _, _ => ⟨acc, rfl⟩
  | rm :: rest, out, acc, hl, h => by
    simp only [List.length_cons] at hl
    obtain ⟨a, ha⟩ := inner_run (out := out) (acc := acc) (rm := rm) (start := offset msets out) (grad := grad)
      (fun i hi => by simpa using h 0 rm i (by simp) hi)
    have hs : msets[out]? = some msets[out] := List.getElem?_eq_getElem (by omega)
    have ho : offset msets out + msets[out].size = offset msets (out + 1) := by
      simp only [offset, List.take_add_one, hs, Option.toList_some, List.map_append, List.map_cons, List.map_nil,
        List.sum_append, List.sum_cons, List.sum_nil, Nat.add_zero]
    obtain ⟨r, hr⟩ := outer_run (rms := rest) (out := out + 1) (acc := a) (msets := msets) (grad := grad) (by omega)
      (fun b rm i hb hi => by
        have := h (b + 1) rm i (by simpa using hb) hi
        rwa [show out + (b + 1) = out + 1 + b by omega] at this)
    refine ⟨r, ?_⟩
    rw [maxGradOuter, ha, Res.bind_ok, Res.idx_lt (by omega), Res.bind_ok, ho]
    exact hr

theorem offset_lt {msets : List MISet} {b i : Nat} {t : MISet} (h : msets[b]? = some t) (hi : i < t.size) :
    offset msets b + i < (msets.map MISet.size).sum := by
  have hlt := (List.getElem?_eq_some_iff.1 h).1
  have : (msets.map MISet.size).sum = offset msets (b + 1) + ((msets.drop (b + 1)).map MISet.size).sum := by
    rw [offset, ← List.sum_append, ← List.map_append, List.take_append_drop]
  rw [this]
  have ho : offset msets b + t.size = offset msets (b + 1) := by
    simp only [offset, List.take_add_one, h, Option.toList_some, List.map_append, List.map_cons, List.map_nil,
      List.sum_append, List.sum_cons, List.sum_nil, Nat.add_zero]
  omega

/-- A step succeeds if nothing is read out of range or such reads are harmless, there are no maximum degrees, gradients have the right length and no
zero entry, and the first component has a candidate. -/
theorem step_run {env : Env} (hD : env.maxDegrees = ofVec [])
    (hg : ∀ k ms, (env.gradient k ms).length = (ms.map MISet.size).sum ∧ (0 : ℝ) ∉ env.gradient k ms)
    {k : Nat} {st : St} {S : List (List (List Nat))}
    (hreach : ∀ s ∈ st.mset0, ∃ b, Reach b s) (hterms : List.Forall₂ Terms st.mset0 S)
    (htmp : st.tmp.map MISet.length = st.mset0.map MISet.length) (hbest : st.best.map MISet.length = st.mset0.map MISet.length)
    (hsz : st.sizes = S.map List.length) (hs : env.strict = false ∨ List.Forall₂ Clean st.mset0 S)
    {s0 : MISet} {ts0 : List (List Nat)} (h0 : st.mset0[0]? = some s0) (ht0 : Terms s0 ts0)
    (hcand : ∃ w, w ∉ ts0 ∧ Accepts s0 w ∧ (∃ t ∈ ts0, Fwd t w) ∧ ∀ b, Fwd b w → b ∈ ts0) :
    ∃ st', step env k st = .ok st' := by
  have htl : st.tmp.length = st.mset0.length := by simpa using congrArg List.length htmp
  have hsl : st.sizes.length = st.mset0.length := by rw [hsz, List.length_map, ← hterms.length_eq]
  obtain ⟨⟨tmp, rms⟩, hx⟩ := expandAll_run htmp hterms hreach hs
  rw [← hsz] at hx
  obtain ⟨l1, l2, l3⟩ := expandAll_ok htl hsl hx
  have hfilter : filterStep env.maxDegrees tmp rms = .ok rms := by rw [hD, filterStep]; rfl
  -- every candidate is a position of its expanded set
  have hpos' : ∀ (b : Nat) (rm : List Nat) (i : Nat), rms[b]? = some rm → i ∈ rm →
      ∃ s t ts added, st.mset0[b]? = some s ∧ tmp[b]? = some t ∧ S[b]? = some ts ∧ Terms s ts ∧ Terms t (ts ++ added) ∧
        i < t.size := by
    intro b rm i hb hi
    have hblt : b < rms.length := (List.getElem?_eq_some_iff.1 hb).1
    obtain ⟨s, h1⟩ : ∃ s, st.mset0[b]? = some s := ⟨_, List.getElem?_eq_getElem (by omega)⟩
    obtain ⟨t, h2⟩ : ∃ t, tmp[b]? = some t := ⟨_, List.getElem?_eq_getElem (by omega)⟩
    obtain ⟨ts, h3, h4⟩ := forall2_get hterms h1
    obtain ⟨bb, hr⟩ := hreach s (List.mem_of_getElem? h1)
    obtain ⟨t1, added, new, e, tt, _, _, _, _, en, _⟩ := C15_expandAll hr h4
    have := l3 b s t rm h1 h2 hb
    rw [e] at this
    injection this with this
    simp only [Prod.mk.injEq] at this
    obtain ⟨rfl, rfl⟩ := this
    refine ⟨s, t1, ts, added, h1, h2, h3, h4, tt, ?_⟩
    rw [tt.1]
    simpa using ((en i).1 hi).2
  obtain ⟨r, hr⟩ := outer_run (grad := env.gradient k tmp) (msets := tmp) (rms := rms) (out := 0) (acc := (0, none))
    (by omega) (fun b rm i hb hi => by
      obtain ⟨_, t, _, _, _, h2, _, _, _, h5⟩ := hpos' b rm i hb hi
      rw [(hg k tmp).1, Nat.zero_add]
      exact offset_lt h2 h5)
  have hfind : findMaxGrad (env.gradient k tmp) rms tmp = .ok r.2 := by
    have hr' : maxGradOuter (env.gradient k tmp) tmp 0 0 (0, none) rms = .ok r := by simpa [offset] using hr
    rw [findMaxGrad, hr', Res.bind_ok]
  -- the first component has a candidate, so something is found
  have hsome : ∃ i b, r.2 = some (i, b) := by
    rcases hr2 : r.2 with _ | ⟨i, b⟩
    · exfalso
      rw [hr2] at hfind
      obtain ⟨bb, hre⟩ := hreach s0 (List.mem_of_getElem? h0)
      obtain ⟨t1, added, new, e, tt, _, _, _, ea, en, _⟩ := C15_expandAll hre ht0
      obtain ⟨w, hw⟩ := hcand
      have hwa : w ∈ added := (ea w).2 hw
      have hal : 0 < added.length := List.length_pos_of_mem hwa
      have hlt0 : 0 < st.mset0.length := (List.getElem?_eq_some_iff.1 h0).1
      obtain ⟨t, h2⟩ : ∃ t, tmp[0]? = some t := ⟨_, List.getElem?_eq_getElem (by omega)⟩
      obtain ⟨rm, h3⟩ : ∃ rm, rms[0]? = some rm := ⟨_, List.getElem?_eq_getElem (by omega)⟩
      have := l3 0 s0 t rm h0 h2 h3
      rw [e] at this
      injection this with this
      simp only [Prod.mk.injEq] at this
      obtain ⟨rfl, rfl⟩ := this
      have hz := findMaxGrad_none hfind 0 new ts0.length h3 ((en _).2 ⟨le_rfl, by omega⟩)
      exact (hg k tmp).2 (List.mem_of_getElem? hz)
    · exact ⟨i, b, rfl⟩
  obtain ⟨i, b, hib⟩ := hsome
  rw [hib] at hfind
  obtain ⟨rm, _, hrm, hirm, _⟩ := findMaxGrad_some hfind
  have hblt : b < rms.length := (List.getElem?_eq_some_iff.1 hrm).1
  obtain ⟨s, h1⟩ : ∃ s, st.mset0[b]? = some s := ⟨_, List.getElem?_eq_getElem (by omega)⟩
  obtain ⟨t, h2⟩ : ∃ t, tmp[b]? = some t := ⟨_, List.getElem?_eq_getElem (by omega)⟩
  obtain ⟨ts, h3, h4⟩ := forall2_get hterms h1
  obtain ⟨bb, hre⟩ := hreach s (List.mem_of_getElem? h1)
  obtain ⟨t1, added, new, e, tt, _, el, _, ea, en, _⟩ := C15_expandAll hre h4
  have := l3 b s t rm h1 h2 hrm
  rw [e] at this
  injection this with this
  simp only [Prod.mk.injEq] at this
  obtain ⟨rfl, rfl⟩ := this
  obtain ⟨hi1, hi2⟩ := (en i).1 hirm
  obtain ⟨w, hw⟩ : ∃ w, (ts ++ added)[i]? = some w := ⟨_, List.getElem?_eq_getElem (by simpa using hi2)⟩
  have hwa : w ∈ added := by
    rw [List.getElem?_append_right hi1] at hw
    exact List.mem_of_getElem? hw
  obtain ⟨w1, w2, _, _⟩ := (ea w).1 hwa
  have hwl : w.length = s.length := by
    rw [(C09_bijection (hre.expandAll e) tt).2.1 w (by simp [hwa]), el]
  obtain ⟨s1, j, ad, hR', ht', hl', _, _⟩ := hre.add h4 hwl w2
  have hadd : addT ts w = ts ++ [w] := by simp [addT, w1]
  rw [hadd] at ht'
  have h5 : st.sizes[b]? = some ts.length := by rw [hsz, List.getElem?_map, h3, Option.map_some]
  obtain ⟨f, hf, _⟩ := FixedSet.C19_fix hR' ht' true (Or.inl rfl)
  have hszs : ¬ (s1.size ≠ ts.length + 1) := by rw [ht'.1]; simp
  have hbl : assignAll st.best (st.mset0.set b s1) = .ok (st.mset0.set b s1) :=
    assignAll_same (hbest.trans (map_set_same _ h1 hl').symm)
  by_cases hlt : env.testError k (st.mset0.set b s1) < st.bestError
  · rw [step, hx, Res.bind_ok]
    dsimp only
    rw [hfilter, Res.bind_ok, hfind, Res.bind_ok]
    dsimp only
    rw [Res.idx_some h2, Res.bind_ok, tt.2 i w hw, Res.bind_ok, Res.idx_some h1, Res.bind_ok, ad, Res.bind_ok]
    dsimp only
    rw [Res.idx_some h5, Res.bind_ok, if_neg hszs, hf, Res.bind_ok, if_pos hlt, hbl, Res.bind_ok]
    exact ⟨_, rfl⟩
  · rw [step, hx, Res.bind_ok]
    dsimp only
    rw [hfilter, Res.bind_ok, hfind, Res.bind_ok]
    dsimp only
    rw [Res.idx_some h2, Res.bind_ok, tt.2 i w hw, Res.bind_ok, Res.idx_some h1, Res.bind_ok, ad, Res.bind_ok]
    dsimp only
    rw [Res.idx_some h5, Res.bind_ok, if_neg hszs, hf, Res.bind_ok, if_neg hlt]
    exact ⟨_, rfl⟩

/-- Adding an element all of whose backward neighbours are there keeps a set downward closed. -/
theorem downClosed_concat {ts : List (List Nat)} {w : List Nat} (hd : DownClosed ts) (h6 : ∀ b, Fwd b w → b ∈ ts) : DownClosed (ts ++ [w]) := by
  intro a c hac hc
  rcases List.mem_append.1 hc with hc | hc
  · exact List.mem_append_left _ (hd a c hac hc)
  · rw [List.mem_singleton] at hc
    subst hc
    exact List.mem_append_left _ (h6 a hac)

/-- The components from which the next step succeeds: either out-of-range reads are harmless, and the first component is downward closed with a limiter
that accepts everything; or all the components are downward closed and accept exactly the terms in one variable. -/
def Ready (strict : Bool) (lims : List (MultiIndex → Bool)) (lens : List Nat) (S : List (List (List Nat))) : Prop :=
  (strict = false ∧ ∃ ts d lim, S[0]? = some ts ∧ lens[0]? = some d ∧ lims[0]? = some lim ∧ 0 < d ∧ ts ≠ [] ∧ DownClosed ts ∧
    ∀ w : List Nat, w.length = d → lim (ofVec w) = true) ∨
  (S ≠ [] ∧ ∀ (b : Nat) ts d lim, S[b]? = some ts → lens[b]? = some d → lims[b]? = some lim → 0 < d ∧ ts ≠ [] ∧ DownClosed ts ∧
    ∀ w : List Nat, w.length = d → (lim (ofVec w) = true ↔ nonzeros w ≤ 1))

theorem Ready.grows {strict : Bool} {D : List Nat} {lims : List (MultiIndex → Bool)} {lens : List Nat} {S S' : List (List (List Nat))}
    (h : Ready strict lims lens S) (hg : Grows D lims S S') : Ready strict lims lens S' := by
  obtain ⟨b, us, l, w, h1, _, rfl, _, _, _, h6, _⟩ := hg
  have hlt : b < S.length := (List.getElem?_eq_some_iff.1 h1).1
  rcases h with ⟨hs, ts, d, lim, e1, e2, e3, e4, e5, e6, e7⟩ | ⟨hne, h⟩
  · left
    refine ⟨hs, ?_⟩
    by_cases hb : b = 0
    · subst hb
      rw [e1] at h1
      cases h1
      exact ⟨_ ++ [w], d, lim, List.getElem?_set_self hlt, e2, e3, e4, by simp, downClosed_concat e6 h6, e7⟩
    · exact ⟨ts, d, lim, by rw [List.getElem?_set_ne hb, e1], e2, e3, e4, e5, e6, e7⟩
  · right
    refine ⟨fun h => hne (List.length_eq_zero_iff.1 (by rw [← List.length_set (as := S), h]; rfl)), fun c ts d lim g1 g2 g3 => ?_⟩
    by_cases hb : b = c
    · subst hb
      rw [List.getElem?_set_self hlt] at g1
      cases g1
      obtain ⟨a1, a2, a3, a4⟩ := h b us d lim h1 g2 g3
      exact ⟨a1, by simp, downClosed_concat a3 h6, a4⟩
    · rw [List.getElem?_set_ne hb] at g1
      exact h c ts d lim g1 g2 g3

theorem Ready.run {strict : Bool} {lims : List (MultiIndex → Bool)} {lens : List Nat} {S : List (List (List Nat))} {ms : List MISet}
    (h : Ready strict lims lens S) (hr : ∀ s ∈ ms, ∃ b, Reach b s) (ht : List.Forall₂ Terms ms S) (hl : ms.map MISet.length = lens)
    (hm : ms.map MISet.limiter = lims) :
    (strict = false ∨ List.Forall₂ Clean ms S) ∧ ∃ s0 ts0, ms[0]? = some s0 ∧ Terms s0 ts0 ∧
      ∃ w, w ∉ ts0 ∧ Accepts s0 w ∧ (∃ t ∈ ts0, Fwd t w) ∧ ∀ b, Fwd b w → b ∈ ts0 := by
  subst hl hm
  rcases h with ⟨hs, ts, d, lim, e1, e2, e3, e4, e5, e6, e7⟩ | ⟨hne, h⟩
  · refine ⟨Or.inl hs, ?_⟩
    rw [List.getElem?_map] at e2 e3
    rcases h0 : ms[0]? with _ | s0
    · rw [h0] at e2; cases e2
    rw [h0] at e2 e3
    simp only [Option.map_some, Option.some.injEq] at e2 e3
    obtain ⟨ts', g1, g2⟩ := forall2_get ht h0
    rw [e1] at g1
    cases g1
    obtain ⟨b, hb⟩ := hr s0 (List.mem_of_getElem? h0)
    obtain ⟨w, w1, w2, w3, w4⟩ := margin_exists (n := s0.length) (by omega) (C09_bijection hb g2).2.1 e6 e5
    exact ⟨s0, ts, rfl, g2, w, w2, by unfold Accepts; rw [e3]; exact e7 w (by omega), w3, w4⟩
  · have hget : ∀ (b : Nat) s ts, ms[b]? = some s → S[b]? = some ts → 0 < s.length ∧ ts ≠ [] ∧ DownClosed ts ∧
        ∀ w : List Nat, w.length = s.length → (Accepts s w ↔ nonzeros w ≤ 1) := by
      intro b s ts h1 h2
      exact h b ts s.length s.limiter h2 (by rw [List.getElem?_map, h1]; rfl) (by rw [List.getElem?_map, h1]; rfl)
    constructor
    · right
      refine List.forall₂_iff_get.2 ⟨ht.length_eq, fun i h1 h2 => ?_⟩
      have h1' : ms[i]? = some (ms.get ⟨i, h1⟩) := List.getElem?_eq_getElem h1
      obtain ⟨ts, g1, g2⟩ := forall2_get ht h1'
      have hts : ts = S.get ⟨i, h2⟩ := by
        rw [List.getElem?_eq_getElem h2] at g1
        exact (Option.some.inj g1).symm
      subst hts
      obtain ⟨b, hb⟩ := hr _ (List.mem_of_getElem? h1')
      obtain ⟨a1, a2, a3, a4⟩ := hget i _ _ h1' g1
      exact clean_of hb g2 a1 a2 a3 a4
    · have hpos : 0 < ms.length := by rw [ht.length_eq]; exact List.length_pos_iff.2 hne
      have h0 : ms[0]? = some ms[0] := List.getElem?_eq_getElem hpos
      obtain ⟨ts, g1, g2⟩ := forall2_get ht h0
      obtain ⟨b, hb⟩ := hr _ (List.mem_of_getElem? h0)
      obtain ⟨a1, a2, a3, a4⟩ := hget 0 _ _ h0 g1
      obtain ⟨w, w1, w2, w3, w4, w5⟩ := margin_single a1 (C09_bijection hb g2).2.1 a3 a2
      exact ⟨ms[0], ts, h0, g2, w, w3, (a4 w w1).2 w2, w4, w5⟩

theorem ready_single {strict : Bool} {mset0 : List MISet} {inputDim outputDim : Nat} (hr : ∀ s ∈ mset0, ∃ b, Reach b s)
    (hlen : mset0.length = outputDim) (hm : 0 < outputDim)
    (hlens : ∀ (j : Nat) (s : MISet), mset0[j]? = some s → s.length = inputDim - outputDim + 1 + j)
    {S0 : List (List (List Nat))} (hS0 : List.Forall₂ Terms mset0 S0)
    (hsets : ∀ s ∈ mset0, ∃ ts, Terms s ts ∧ ts ≠ [] ∧ DownClosed ts ∧ ∀ w, w.length = s.length → (Accepts s w ↔ nonzeros w ≤ 1)) :
    Ready strict (mset0.map MISet.limiter) (mset0.map MISet.length) S0 := by
  refine Or.inr ⟨fun h => ?_, fun b ts d lim h1 h2 h3 => ?_⟩
  · have := hS0.length_eq
    rw [h, hlen] at this
    simp at this
    omega
  · rw [List.getElem?_map] at h2 h3
    rcases h0 : mset0[b]? with _ | s
    · rw [h0] at h2; cases h2
    rw [h0] at h2 h3
    simp only [Option.map_some, Option.some.injEq] at h2 h3
    subst h2 h3
    obtain ⟨ts', g1, g2⟩ := forall2_get hS0 h0
    rw [h1] at g1
    cases g1
    obtain ⟨us, u1, u2, u3, u4⟩ := hsets s (List.mem_of_getElem? h0)
    obtain rfl := g2.unique u1
    exact ⟨by rw [hlens b s h0]; omega, u2, u3, u4⟩

end ATM
end MParT
