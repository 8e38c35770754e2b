import Verif.Lemmas.TrainAdaptiveCoeffsRun
/-!
Helper lemmas for adaptive training with coefficients: the term that is added.
-/
namespace MParT
namespace ATM
namespace Full
open MultiIndex Spec MISet

/-- If all the new indices come after the old ones, and nothing is read out of range, the old coefficients are followed by zeros. -/
theorem copyLoop_zeros {rm : List Nat} {m : Nat} (hrm : ∀ x ∈ rm, m ≤ x) : ∀ (n : Nat) {j r : Nat} {ps : List (Option Nat)}, m ≤ j →
    copyLoop rm m j r m n = .ok ps → ps = List.replicate n none
  | 0, j, r, ps, _, h => by simp only [copyLoop, Res.ok.injEq] at h; simp [← h]
  | n + 1, j, r, ps, hj, h => by
    simp only [copyLoop, Res.bind_eq_ok] at h
    obtain ⟨x, _, h⟩ := h
    split at h
    · simp only [Res.bind_eq_ok] at h
      obtain ⟨rest, hr, h⟩ := h
      obtain rfl := Res.ok.inj h
      rw [copyLoop_zeros hrm n (by omega) hr, List.replicate_succ]
    · rw [if_neg (by omega)] at h
      cases h

theorem copyLoop_old {rm : List Nat} {m k : Nat} (hrm : ∀ x ∈ rm, m ≤ x) : ∀ (n : Nat) {j : Nat} {ps : List (Option Nat)}, j + n = m →
    copyLoop rm m j 0 j (n + k) = .ok ps → ps = (List.range' j n).map some ++ List.replicate k none
  | 0, j, ps, hj, h => by
    have : j = m := by omega
    subst this
    rw [Nat.zero_add] at h
    simpa using copyLoop_zeros hrm k (le_refl _) h
  | n + 1, j, ps, hj, h => by
    rw [show n + 1 + k = (n + k) + 1 by omega] at h
    simp only [copyLoop, Res.bind_eq_ok] at h
    obtain ⟨x, hx, h⟩ := h
    have hx := hrm x (List.mem_of_getElem? (idx_eq hx))
    rw [if_neg (by omega), if_pos (by omega)] at h
    simp only [Res.bind_eq_ok] at h
    obtain ⟨rest, hr, h⟩ := h
    obtain rfl := Res.ok.inj h
    rw [copyLoop_old hrm n (by omega) hr, List.range'_succ]
    rfl

theorem fill_strict {env : Env} (hs : env.strict = true) {old c : List ℝ} {rm : List Nat} {k : Nat} (hrm : ∀ x ∈ rm, old.length ≤ x)
    (h : fill env old rm (old.length + k) = .ok c) : c = old ++ List.replicate k 0 := by
  rw [fill] at h
  split at h
  · rename_i ps hp
    have := copyLoop_old hrm old.length (j := 0) (by omega) hp
    subst this
    obtain rfl := Res.ok.inj h
    rw [List.map_append, List.map_map, List.map_replicate]
    congr 1
    apply List.ext_getElem (by simp)
    intro i h1 h2
    simp [h2]
  · rw [hs] at h; cases h

/-- What the first part of the loop body makes of each component. -/
inductive Expanded : List MISet → List (List (List Nat)) → List Block → List MISet → List (List Nat) → List Block → List (List (List Nat)) → Prop
  | nil : Expanded [] [] [] [] [] [] []
  | cons {s : MISet} {ts : List (List Nat)} {a : Block} {t : MISet} {rm : List Nat} {f : Block} {cs : List (List Nat)} {ss : List MISet}
      {S : List (List (List Nat))} {bs : List Block} {tmp : List MISet} {rms : List (List Nat)} {fs : List Block} {cands : List (List (List Nat))} :
      (∃ b, Reach b t) → Terms t (ts ++ cs) → t.length = s.length → cs.Nodup →
      (∀ w, w ∈ cs ↔ w ∉ ts ∧ Accepts s w ∧ (∃ t ∈ ts, Fwd t w) ∧ ∀ v, Fwd v w → v ∈ ts) →
      (∀ x, x ∈ rm ↔ ts.length ≤ x ∧ x < ts.length + cs.length) →
      FixedSet.Holds f.set (ts ++ cs) → f.coeffs = a.coeffs ++ List.replicate cs.length 0 → a.coeffs.length = ts.length →
      Expanded ss S bs tmp rms fs cands → Expanded (s :: ss) (ts :: S) (a :: bs) (t :: tmp) (rm :: rms) (f :: fs) (cs :: cands)

theorem expanded_of {env : Env} (hs : env.strict = true) : ∀ {ss ts : List MISet} {S : List (List (List Nat))} {bs : List Block} {ts' : List MISet}
    {rms : List (List Nat)} {fs : List Block}, (∀ s ∈ ss, ∃ b, Reach b s) → List.Forall₂ Terms ss S → ts.length = ss.length →
    bs.map (fun b => b.coeffs.length) = S.map List.length → expandBlocks env ss ts bs = .ok (ts', rms, fs) → ∃ cands, Expanded ss S bs ts' rms fs cands
  | [], ts, S, bs, ts', rms, fs, _, ht, _, hb, h => by
    cases ht
    have : bs = [] := by simpa using hb
    subst this
    simp only [expandBlocks, Res.ok.injEq, Prod.mk.injEq] at h
    obtain ⟨rfl, rfl, rfl⟩ := h
    exact ⟨[], .nil⟩
  | s :: ss, [], S, bs, ts', rms, fs, _, _, hl, _, _ => by simp at hl
  | s :: ss, t :: ts, S, [], ts', rms, fs, _, ht, _, hb, _ => by cases ht; simp at hb
  | s :: ss, t :: ts, _, b :: bs, ts', rms, fs, hr, .cons (b := us) (l₂ := S) ht hts, hl, hb, h => by
    simp only [expandBlocks, Res.bind_eq_ok] at h
    obtain ⟨t1, h1, ⟨t2, rm⟩, h2, f, h3, c, h4, ⟨ts1, rms1, fs1⟩, h5, h⟩ := h
    simp only [Res.ok.injEq, Prod.mk.injEq] at h
    obtain ⟨rfl, rfl, rfl⟩ := h
    obtain ⟨rfl, _⟩ := assign_ok h1
    simp only [List.map_cons, List.cons.injEq] at hb
    obtain ⟨bb, hbb⟩ := hr t1 (by simp)
    obtain ⟨s', added, new, ex, et, nd, el, em, ea, en, _⟩ := C15_expandAll hbb ht
    rw [ex] at h2
    simp only [Res.ok.injEq, Prod.mk.injEq] at h2
    obtain ⟨rfl, rfl⟩ := h2
    have hr' := hbb.expandAll ex
    dsimp only at h3 h4
    rw [FixedSet.fix_csr hr' et] at h3
    obtain rfl := Res.ok.inj h3
    obtain ⟨cands, hc⟩ := expanded_of hs (fun s hs => hr s (by simp [hs])) hts (by simpa using hl) hb.2 h5
    refine ⟨added :: cands, .cons ⟨_, hr'⟩ et el nd ea en (holds_csr hr' et) ?_ hb.1 hc⟩
    refine fill_strict hs (rm := new) (fun x hx => by rw [hb.1]; exact ((en x).1 hx).1) ?_
    rw [hb.1]
    rw [et.1, List.length_append] at h4
    exact h4

theorem Expanded.get {ss : List MISet} {S : List (List (List Nat))} {bs : List Block} {tmp : List MISet} {rms : List (List Nat)} {fs : List Block}
    {cands : List (List (List Nat))} (h : Expanded ss S bs tmp rms fs cands) : ∀ (i : Nat), i < ss.length →
    ∃ s ts a t rm f cs, ss[i]? = some s ∧ S[i]? = some ts ∧ bs[i]? = some a ∧ tmp[i]? = some t ∧ rms[i]? = some rm ∧ fs[i]? = some f ∧
      cands[i]? = some cs ∧ (∃ b, Reach b t) ∧ Terms t (ts ++ cs) ∧ t.length = s.length ∧ cs.Nodup ∧
      (∀ w, w ∈ cs ↔ w ∉ ts ∧ Accepts s w ∧ (∃ t ∈ ts, Fwd t w) ∧ ∀ v, Fwd v w → v ∈ ts) ∧
      (∀ x, x ∈ rm ↔ ts.length ≤ x ∧ x < ts.length + cs.length) ∧ f.coeffs = a.coeffs ++ List.replicate cs.length 0 := by
  induction h with
  | nil => intro i hi; simp at hi
  | cons h1 h2 h3 h4 h5 h6 h7 h8 h9 _ ih =>
    intro i hi
    cases i with
    | zero => exact ⟨_, _, _, _, _, _, _, rfl, rfl, rfl, rfl, rfl, rfl, rfl, h1, h2, h3, h4, h5, h6, h8⟩
    | succ i => exact ih i (by simpa using hi)

theorem Expanded.all {ss : List MISet} {S : List (List (List Nat))} {bs : List Block} {tmp : List MISet} {rms : List (List Nat)} {fs : List Block}
    {cands : List (List (List Nat))} (h : Expanded ss S bs tmp rms fs cands) : ss.length = S.length ∧ cands.length = S.length ∧
      rms.length = tmp.length ∧ Made fs (List.zipWith (· ++ ·) S cands) ∧
      tmp.map MISet.size = (List.zipWith (· ++ ·) S cands).map List.length := by
  induction h with
  | nil => exact ⟨rfl, rfl, rfl, .nil, rfl⟩
  | cons h1 h2 h3 h4 h5 h6 h7 h8 h9 _ ih =>
    obtain ⟨i1, i2, i3, i4, i5⟩ := ih
    refine ⟨by simp [i1], by simp [i2], by simp [i3], .cons ⟨h7, by simp [h8, h9]⟩ i4, ?_⟩
    simp only [List.map_cons, List.zipWith_cons_cons, i5, h2.1]

theorem terms_unique {ms : List MISet} {S S' : List (List (List Nat))} (h : List.Forall₂ Terms ms S) (h' : List.Forall₂ Terms ms S') : S = S' := by
  induction h generalizing S' with
  | nil => cases h'; rfl
  | cons h1 _ ih => cases h' with | cons h3 h4 => rw [h1.unique h3, ih h4]

/-- A term that is added has the largest derivative. -/
theorem step_chosen {env : Env} (hs : env.strict = true) {D : List Nat} (hD : env.maxDegrees = ofVec D) {lims : List (MultiIndex → Bool)} {lens : List Nat}
    {S0 consts : List (List (List Nat))} {e0 : ℝ} {st st' : St} {v : Trained} {h : List Trained} (hi : Inv env D lims lens S0 consts e0 st v h)
    (hDl : D ≠ [] → ∀ l ∈ lens, l ≤ D.length) (he : Full.step env h.length st = .ok st') {S' : List (List (List Nat))}
    (hS' : List.Forall₂ Terms st'.mset0 S') : Chosen env D lims v S' := by
  have htl : st.tmp.length = st.mset0.length := by
    simpa using congrArg List.length (hi.tmpLens.trans hi.hlens.symm)
  simp only [step, Res.bind_eq_ok] at he
  obtain ⟨⟨tmp, rms, front⟩, hx, rms', hf, found, hg, he⟩ := he
  obtain ⟨cands, hex⟩ := expanded_of hs hi.reach hi.terms htl hi.lenBlocks hx
  dsimp only at hf hg
  obtain ⟨a1, a2, a3, a4, a5⟩ := hex.all
  have hml : st.mset0.length = v.sets.length := hi.terms.length_eq
  have htmpl : tmp.length = st.mset0.length := by
    have := congrArg List.length a5
    simp only [List.length_map, List.length_zipWith, a2] at this
    omega
  -- the filter keeps what is allowed
  have hfilter : ∀ (i : Nat) (ts cs : List (List Nat)) (rm' : List Nat), v.sets[i]? = some ts → cands[i]? = some cs → rms'[i]? = some rm' →
      ∀ (j : Nat) (w : List Nat), cs[j]? = some w → (ts.length + j ∈ rm' ↔ Allowed D w) := by
    intro i ts cs rm' g1 g2 g3 j w g4
    have hil : i < st.mset0.length := by rw [hml]; exact (List.getElem?_eq_some_iff.1 g1).1
    obtain ⟨s, ts1, a, t, rm, f, cs1, k1, k2, k3, k4, k5, k6, k7, ⟨bb, k8⟩, k9, k10, k11, k12, k13, k14⟩ := hex.get i hil
    rw [g1] at k2; obtain rfl := Option.some.inj k2
    rw [g2] at k7; obtain rfl := Option.some.inj k7
    have hj : j < cs.length := (List.getElem?_eq_some_iff.1 g4).1
    have hin : ts.length + j ∈ rm := (k13 _).2 ⟨by omega, by omega⟩
    by_cases hD0 : D = []
    · subst hD0
      rw [hD, filterStep, if_pos (show (ofVec []).length = 0 from rfl)] at hf
      obtain rfl := Res.ok.inj hf
      rw [k5] at g3; obtain rfl := Option.some.inj g3
      exact ⟨fun _ h0 => absurd rfl h0, fun _ => hin⟩
    · have hDn : env.maxDegrees.length ≠ 0 := by
        rw [hD]
        intro h0
        exact hD0 (List.length_eq_zero_iff.1 (by simpa using h0))
      rw [filterStep, if_neg hDn, hD] at hf
      obtain ⟨_, f2⟩ := filter_ok (by omega) hf
      obtain ⟨bounded, q1, q2⟩ := f2 i t rm rm' k4 k5 g3
      have hle : t.length ≤ D.length := by
        rw [k10]
        refine hDl hD0 _ ?_
        rw [← hi.hlens]
        exact List.mem_map_of_mem (List.mem_of_getElem? k1)
      obtain ⟨fs, f1, f3, f4⟩ := (C04_filterBounded k8 k9 D).1 hle
      rw [f1] at q1; obtain rfl := Res.ok.inj q1
      have hw : (ts ++ cs)[ts.length + j]? = some w := by
        rw [List.getElem?_append_right (by omega)]
        simpa using g4
      have hwl : w.length = t.length := (C09_bijection k8 k9).2.1 w (List.mem_of_getElem? hw)
      rw [q2]
      obtain ⟨fl, hfl⟩ : ∃ fl, fs[ts.length + j]? = some fl := ⟨_, List.getElem?_eq_getElem (by rw [f3, List.length_append]; omega)⟩
      have hiff := f4 _ w fl hw hfl
      rw [hfl]
      constructor
      · rintro ⟨-, e⟩ - x xv hxx
        have hxl : x < w.length := (List.getElem?_eq_some_iff.1 hxx).1
        have hDx : D[x]? = some D[x] := List.getElem?_eq_getElem (by omega)
        refine ⟨D[x], hDx, ?_⟩
        by_contra hlt
        have := hiff.2 ⟨x, xv, D[x], hxx, hDx, by omega⟩
        rw [this] at e
        cases e
      · intro hall
        refine ⟨hin, ?_⟩
        cases fl with
        | false => rfl
        | true =>
          exfalso
          obtain ⟨x, xv, y, e1, e2, e3⟩ := hiff.1 rfl
          obtain ⟨y', e4, e5⟩ := hall hD0 x xv e1
          rw [e2] at e4
          obtain rfl := Option.some.inj e4
          omega
  have hrl : rms'.length = st.mset0.length := by
    by_cases hD0 : D = []
    · subst hD0
      rw [hD, filterStep, if_pos (show (ofVec []).length = 0 from rfl)] at hf
      obtain rfl := Res.ok.inj hf
      omega
    · have hDn : env.maxDegrees.length ≠ 0 := by
        rw [hD]
        intro h0
        exact hD0 (List.length_eq_zero_iff.1 (by simpa using h0))
      rw [filterStep, if_neg hDn, hD] at hf
      obtain ⟨f1, _⟩ := filter_ok (by omega) hf
      omega
  have hsub : ∀ (i : Nat) (rm rm' : List Nat), rms[i]? = some rm → rms'[i]? = some rm' → ∀ x ∈ rm', x ∈ rm := by
    intro i rm rm' g1 g2 x hx
    by_cases hD0 : D = []
    · subst hD0
      rw [hD, filterStep, if_pos (show (ofVec []).length = 0 from rfl)] at hf
      obtain rfl := Res.ok.inj hf
      rw [g1] at g2; obtain rfl := Option.some.inj g2
      exact hx
    · have hDn : env.maxDegrees.length ≠ 0 := by
        rw [hD]
        intro h0
        exact hD0 (List.length_eq_zero_iff.1 (by simpa using h0))
      rw [filterStep, if_neg hDn, hD] at hf
      obtain ⟨_, f2⟩ := filter_ok (by omega) hf
      obtain ⟨t, ht⟩ : ∃ t, tmp[i]? = some t := ⟨_, List.getElem?_eq_getElem (by have := (List.getElem?_eq_some_iff.1 g1).1; omega)⟩
      obtain ⟨bounded, _, q2⟩ := f2 i t rm rm' ht g1 g2
      exact ((q2 x).1 hx).1
  have hplace : ∀ (b : Nat) (ts : List (List Nat)) (j : Nat), v.sets[b]? = some ts →
      offset tmp b + (ts.length + j) = place v.sets cands b + j := by
    intro b ts j hb
    rw [place, offset, List.map_take, a5, ← List.map_take, total, List.getD_eq_getElem?_getD, hb]
    simp only [Option.getD_some]
    omega
  cases found with
  | none => cases he
  | some p =>
    obtain ⟨i, b⟩ := p
    simp only [Res.bind_eq_ok] at he
    obtain ⟨t0, h1, m, h2, s0, h3, ⟨s', o⟩, h4, sz, h5, he⟩ := he
    have h1 := idx_eq h1
    have h3 := idx_eq h3
    have hm0 : st'.mset0 = st.mset0.set b s' := by
      split at he
      · cases he
      · simp only [Res.bind_eq_ok] at he
        obtain ⟨_, _, _, _, he⟩ := he
        split at he
        · cases he
        · simp only [Res.bind_eq_ok] at he
          obtain ⟨_, _, he⟩ := he
          split at he
          · simp only [Res.bind_eq_ok] at he
            obtain ⟨_, _, he⟩ := he
            obtain rfl := Res.ok.inj he
            rfl
          · obtain rfl := Res.ok.inj he
            rfl
    obtain ⟨rm', g, q1, q2, q3, q4, q5⟩ := findMaxGrad_some hg
    have hbl : b < st.mset0.length := (List.getElem?_eq_some_iff.1 h3).1
    obtain ⟨s, ts, a, t, rm, f, cs, k1, k2, k3, k4, k5, k6, k7, ⟨bb, k8⟩, k9, k10, k11, k12, k13, k14⟩ := hex.get b hbl
    rw [h1] at k4; obtain rfl := Option.some.inj k4
    rw [h3] at k1; obtain rfl := Option.some.inj k1
    obtain ⟨r1, r2⟩ := (k13 i).1 (hsub b rm rm' k5 q1 i q2)
    obtain ⟨j, rfl⟩ := Nat.exists_eq_add_of_le r1
    obtain ⟨w, hw⟩ : ∃ w, cs[j]? = some w := ⟨_, List.getElem?_eq_getElem (by omega)⟩
    have hw' : (ts ++ cs)[ts.length + j]? = some w := by
      rw [List.getElem?_append_right (by omega)]
      simpa using hw
    have hm : m = ofVec w := by
      have := k9.2 _ w hw'
      rw [h2] at this
      exact Res.ok.inj this
    subst hm
    have hwl : w.length = s0.length := by
      rw [(C09_bijection k8 k9).2.1 w (List.mem_of_getElem? hw'), k10]
    obtain ⟨w1, w2, -, -⟩ := (k12 w).1 (List.mem_of_getElem? hw)
    obtain ⟨b2, hr⟩ := hi.reach s0 (List.mem_of_getElem? h3)
    obtain ⟨ts', e1, e2⟩ := forall2_get hi.terms h3
    rw [k2] at e1; obtain rfl := Option.some.inj e1
    obtain ⟨s1, j1, ad, hR', ht', hl', hlim', _⟩ := hr.add e2 hwl w2
    rw [ad] at h4
    simp only [Res.ok.injEq, Prod.mk.injEq] at h4
    obtain ⟨rfl, rfl⟩ := h4
    have hadd : addT ts w = ts ++ [w] := by simp [addT, w1]
    rw [hadd] at ht'
    have hSS : S' = v.sets.set b (ts ++ [w]) := by
      rw [hm0] at hS'
      exact terms_unique hS' (forall2_set hi.terms b ht')
    refine ⟨cands, front, b, j, ts, cs, w, g, a2, ?_, a4, ?_, k2, k7, hw, hSS, (hfilter b ts cs rm' k2 k7 q1 j w hw).1 q2, ?_, abs_pos.1 q4, ?_⟩
    · intro i us ds lim u1 u2 u3
      have hil : i < st.mset0.length := by rw [hml]; exact (List.getElem?_eq_some_iff.1 u1).1
      obtain ⟨z, zs, za, zt, zr, zf, zc, l1, l2, l3, l4, l5, l6, l7, -, -, -, l11, l12, -⟩ := hex.get i hil
      rw [u1] at l2; obtain rfl := Option.some.inj l2
      rw [u2] at l7; obtain rfl := Option.some.inj l7
      rw [← hi.hlims, List.getElem?_map, l1] at u3
      obtain rfl := Option.some.inj u3
      exact ⟨l11, l12⟩
    · intro i c f' ds u1 u2 u3
      rw [← hi.blocks] at u1
      have hil : i < st.mset0.length := by
        have := congrArg List.length hi.lenBlocks
        simp only [List.length_map] at this
        have := (List.getElem?_eq_some_iff.1 u1).1
        omega
      obtain ⟨z, zs, za, zt, zr, zf, zc, l1, l2, l3, l4, l5, l6, l7, -, -, -, -, -, -, l14⟩ := hex.get i hil
      rw [u1] at l3; obtain rfl := Option.some.inj l3
      rw [u2] at l6; obtain rfl := Option.some.inj l6
      rw [u3] at l7; obtain rfl := Option.some.inj l7
      exact l14
    · rw [← hplace b ts j k2]; exact q3
    · intro b' j' cs' w' u1 u2 u3
      have hbl' : b' < st.mset0.length := by
        have := (List.getElem?_eq_some_iff.1 u1).1
        omega
      obtain ⟨us, hus⟩ : ∃ us, v.sets[b']? = some us := ⟨_, List.getElem?_eq_getElem (by omega)⟩
      obtain ⟨rm2, hrm2⟩ : ∃ r, rms'[b']? = some r := ⟨_, List.getElem?_eq_getElem (by omega)⟩
      rw [← hplace b' us j' hus]
      exact q5 b' rm2 _ hrm2 ((hfilter b' us cs' rm2 hus u1 hrm2 j' w' u2).2 u3)

end Full
end ATM
end MParT
