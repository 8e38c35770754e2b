import Verif.Spec.TrainAdaptive
import Verif.Props.MISetMargin
import Verif.Props.FixedSet
/-!
Helper lemmas for adaptive training.
-/
namespace MParT
namespace ATM
open MultiIndex Spec MISet

theorem assign_ok {a b c : MISet} (h : a.assign b = .ok c) : c = b ∧ b.length = a.length := by
  unfold MISet.assign at h
  split at h
  · cases h
  · rename_i hn
    have hl : b.length = a.length := by simpa using hn
    injection h with h
    refine ⟨?_, hl⟩
    rw [← h, ← hl]

theorem assign_same {a b : MISet} (h : b.length = a.length) : a.assign b = .ok b := by
  unfold MISet.assign
  rw [if_neg (by simpa using h), ← h]

theorem assignAll_ok : ∀ {as bs cs : List MISet}, as.length = bs.length → assignAll as bs = .ok cs → cs = bs
  | [], [], cs, _, h => by simpa [assignAll] using h.symm
  | [], _ :: _, _, hl, _ => by simp at hl
  | _ :: _, [], _, hl, _ => by simp at hl
  | a :: as, b :: bs, cs, hl, h => by
    simp only [assignAll, Res.bind_eq_ok] at h
    obtain ⟨x, hx, r, hr, e⟩ := h
    injection e with e
    rw [← e, (assign_ok hx).1, assignAll_ok (by simpa using hl) hr]

theorem assignAll_same : ∀ {as bs : List MISet}, as.map MISet.length = bs.map MISet.length → assignAll as bs = .ok bs
  | [], [], _ => rfl
  | [], _ :: _, h => by simp at h
  | _ :: _, [], h => by simp at h
  | a :: as, b :: bs, h => by
    simp only [List.map_cons, List.cons.injEq] at h
    rw [assignAll, assign_same h.1.symm, Res.bind_ok, assignAll_same h.2]
    rfl

/-- The expanded sets and the new indices, entry by entry. -/
theorem expandAll_ok {strict : Bool} : ∀ {ss ts : List MISet} {ns : List Nat} {ts' : List MISet} {rms : List (List Nat)},
    ts.length = ss.length → ns.length = ss.length → expandAll strict ss ts ns = .ok (ts', rms) →
    ts'.length = ss.length ∧ rms.length = ss.length ∧
      ∀ (i : Nat) (s t : MISet) (rm : List Nat), ss[i]? = some s → ts'[i]? = some t → rms[i]? = some rm → s.expandAll = .ok (t, rm)
  | [], ts, ns, ts', rms, h1, h2, h => by
    simp only [expandAll, Res.ok.injEq, Prod.mk.injEq] at h
    obtain ⟨rfl, rfl⟩ := h
    simp
  | s :: ss, [], _, _, _, h1, _, _ => by simp at h1
  | s :: ss, _ :: _, [], _, _, _, h2, _ => by simp at h2
  | s :: ss, t :: ts, n :: ns, ts', rms, h1, h2, h => by
    simp only [expandAll, Res.bind_eq_ok] at h
    obtain ⟨t1, ha, ⟨t2, rm⟩, he, h⟩ := h
    obtain ⟨rfl, _⟩ := assign_ok ha
    have key : ∃ p, expandAll strict ss ts ns = .ok p ∧ ts' = t2 :: p.1 ∧ rms = rm :: p.2 := by
      cases strict
      · simp only [Bool.false_eq_true, if_false, Res.bind_eq_ok] at h
        obtain ⟨p, hp, h⟩ := h
        injection h with h
        simp only [Prod.mk.injEq] at h
        exact ⟨p, hp, h.1.symm, h.2.symm⟩
      · simp only [if_true, Res.bind_eq_ok] at h
        obtain ⟨_, _, p, hp, h⟩ := h
        injection h with h
        simp only [Prod.mk.injEq] at h
        exact ⟨p, hp, h.1.symm, h.2.symm⟩
    obtain ⟨⟨p1, p2⟩, hp, rfl, rfl⟩ := key
    obtain ⟨l1, l2, l3⟩ := expandAll_ok (by simpa using h1) (by simpa using h2) hp
    refine ⟨by simp [l1], by simp [l2], fun i a b c h3 h4 h5 => ?_⟩
    cases i with
    | zero =>
      simp only [List.getElem?_cons_zero, Option.some.injEq] at h3 h4 h5
      rw [← h3, ← h4, ← h5]
      exact he
    | succ i =>
      simp only [List.getElem?_cons_succ] at h3 h4 h5
      exact l3 i a b c h3 h4 h5

theorem eraseBounded_ok {bounded : List Bool} : ∀ {rm r : List Nat}, eraseBounded bounded rm = .ok r →
    ∀ x, x ∈ r ↔ x ∈ rm ∧ bounded[x]? = some false
  | [], r, h => by
    simp only [eraseBounded, Res.ok.injEq] at h
    simp [← h]
  | i :: rest, r, h => by
    simp only [eraseBounded, Res.bind_eq_ok] at h
    obtain ⟨b, hb, r1, h1, h⟩ := h
    injection h with h
    have ih := eraseBounded_ok h1
    have hb' : bounded[i]? = some b := by
      unfold Res.idx at hb
      split at hb
      · rename_i a ha; cases hb; exact ha
      · cases hb
    intro x
    cases b
    · simp only [Bool.false_eq_true, if_false] at h
      rw [← h, List.mem_cons, List.mem_cons, ih]
      constructor
      · rintro (rfl | h2)
        · exact ⟨Or.inl rfl, hb'⟩
        · exact ⟨Or.inr h2.1, h2.2⟩
      · rintro ⟨rfl | h2, h3⟩
        · exact Or.inl rfl
        · exact Or.inr ⟨h2, h3⟩
    · simp only [if_true] at h
      rw [← h, List.mem_cons, ih]
      constructor
      · rintro h2; exact ⟨Or.inr h2.1, h2.2⟩
      · rintro ⟨rfl | h2, h3⟩
        · rw [hb'] at h3; cases h3
        · exact ⟨h2, h3⟩

theorem filter_ok {D : MultiIndex} : ∀ {ss : List MISet} {rms rms' : List (List Nat)}, rms.length = ss.length →
    maxDegreeRMFilter D ss rms = .ok rms' → rms'.length = ss.length ∧
    ∀ (i : Nat) (s : MISet) (rm rm' : List Nat), ss[i]? = some s → rms[i]? = some rm → rms'[i]? = some rm' →
      ∃ bounded, s.filterBounded D = .ok bounded ∧ ∀ x, x ∈ rm' ↔ x ∈ rm ∧ bounded[x]? = some false
  | [], rms, rms', _, h => by
    have : rms' = [] := by
      cases rms <;> simpa [maxDegreeRMFilter] using h.symm
    simp [this]
  | _ :: _, [], _, hl, _ => by simp at hl
  | s :: ss, rm :: rms, rms', hl, h => by
    simp only [maxDegreeRMFilter, Res.bind_eq_ok] at h
    obtain ⟨bounded, hb, rm1, h1, rest, h2, h⟩ := h
    injection h with h
    obtain ⟨l1, l2⟩ := filter_ok (by simpa using hl) h2
    rw [← h]
    refine ⟨by simp [l1], fun i a b c h3 h4 h5 => ?_⟩
    cases i with
    | zero =>
      simp only [List.getElem?_cons_zero, Option.some.injEq] at h3 h4 h5
      rw [← h3, ← h4, ← h5]
      exact ⟨bounded, hb, eraseBounded_ok h1⟩
    | succ i =>
      simp only [List.getElem?_cons_succ] at h3 h4 h5
      exact l2 i a b c h3 h4 h5

/-- The inner loop keeps the largest value and where it was found. -/
theorem inner_ok {grad : List ℝ} {start out : Nat} : ∀ {rm : List Nat} {acc r : ℝ × Option (Nat × Nat)},
    maxGradInner grad start out acc rm = .ok r →
    acc.1 ≤ r.1 ∧ (∀ i ∈ rm, ∃ g, grad[start + i]? = some g ∧ |g| ≤ r.1) ∧
    (r = acc ∨ ∃ i ∈ rm, r.2 = some (i, out) ∧ ∃ g, grad[start + i]? = some g ∧ r.1 = |g| ∧ acc.1 < |g|)
  | [], acc, r, h => by
    simp only [maxGradInner, Res.ok.injEq] at h
    simp [h]
  | i :: rest, acc, r, h => by
    simp only [maxGradInner, Res.bind_eq_ok] at h
    obtain ⟨g, hg, h⟩ := h
    have hg' : grad[start + i]? = some g := by
      unfold Res.idx at hg
      split at hg
      · rename_i a ha; cases hg; exact ha
      · cases hg
    obtain ⟨h1, h2, h3⟩ := inner_ok h
    by_cases hc : |g| > acc.1
    · rw [if_pos hc] at h1 h3
      refine ⟨hc.le.trans h1, ?_, Or.inr ?_⟩
      · intro j hj
        rcases List.mem_cons.1 hj with rfl | hj
        · exact ⟨g, hg', h1⟩
        · exact h2 j hj
      · rcases h3 with h3 | ⟨j, hj, e, g', e1, e2, e3⟩
        · exact ⟨i, by simp, by rw [h3], g, hg', by rw [h3], hc⟩
        · exact ⟨j, by simp [hj], e, g', e1, e2, lt_trans hc e3⟩
    · rw [if_neg hc] at h1 h3
      refine ⟨h1, ?_, ?_⟩
      · intro j hj
        rcases List.mem_cons.1 hj with rfl | hj
        · exact ⟨g, hg', (not_lt.1 hc).trans h1⟩
        · exact h2 j hj
      · rcases h3 with h3 | ⟨j, hj, e, g', e1, e2, e3⟩
        · exact Or.inl h3
        · exact Or.inr ⟨j, by simp [hj], e, g', e1, e2, e3⟩

/-- Where the gradient entries of component `b` begin. -/
def offset (msets : List MISet) (b : Nat) : Nat := ((msets.take b).map MISet.size).sum

theorem outer_ok {grad : List ℝ} {msets : List MISet} : ∀ {rms : List (List Nat)} {out : Nat}
    {acc r : ℝ × Option (Nat × Nat)},
    maxGradOuter grad msets (offset msets out) out acc rms = .ok r →
    acc.1 ≤ r.1 ∧
    (∀ (b : Nat) (rm : List Nat) (i : Nat), rms[b]? = some rm → i ∈ rm → ∃ g, grad[offset msets (out + b) + i]? = some g ∧ |g| ≤ r.1) ∧
    (r = acc ∨ ∃ (b : Nat) (rm : List Nat) (i : Nat), rms[b]? = some rm ∧ i ∈ rm ∧ r.2 = some (i, out + b) ∧
      ∃ g, grad[offset msets (out + b) + i]? = some g ∧ r.1 = |g| ∧ acc.1 < |g|)
  | [], out, acc, r, h => by
    simp only [maxGradOuter, Res.ok.injEq] at h
    simp [h]
  | rm :: rest, out, acc, r, h => by
    simp only [maxGradOuter, Res.bind_eq_ok] at h
    obtain ⟨acc1, h1, s, hs, h⟩ := h
    have hs' : msets[out]? = some s := by
      unfold Res.idx at hs
      split at hs
      · rename_i a ha; cases hs; exact ha
      · cases hs
    have ho : offset msets out + s.size = offset msets (out + 1) := by
      simp only [offset, List.take_add_one, hs', Option.toList_some, List.map_append, List.map_cons, List.map_nil,
        List.sum_append, List.sum_cons, List.sum_nil, Nat.add_zero]
    rw [ho] at h
    obtain ⟨a1, a2, a3⟩ := inner_ok h1
    obtain ⟨b1, b2, b3⟩ := outer_ok h
    refine ⟨a1.trans b1, ?_, ?_⟩
    · intro b rm' i hb hi
      cases b with
      | zero =>
        simp only [List.getElem?_cons_zero, Option.some.injEq] at hb
        subst hb
        obtain ⟨g, g1, g2⟩ := a2 i hi
        exact ⟨g, by simpa using g1, g2.trans b1⟩
      | succ b =>
        simp only [List.getElem?_cons_succ] at hb
        have := b2 b rm' i hb hi
        rwa [show out + (b + 1) = out + 1 + b by omega]
    · rcases b3 with b3 | ⟨b, rm', i, e1, e2, e3, g, e4, e5, e6⟩
      · rw [b3]
        rcases a3 with a3 | ⟨i, hi, e, g, g1, g2, g3⟩
        · exact Or.inl a3
        · exact Or.inr ⟨0, rm, i, by simp, hi, by simpa using e, g, by simpa using g1, g2, g3⟩
      · refine Or.inr ⟨b + 1, rm', i, by simpa using e1, e2, ?_, g, ?_, e5, lt_of_le_of_lt a1 e6⟩
        · rw [e3]; congr 2; omega
        · rwa [show out + (b + 1) = out + 1 + b by omega]

theorem findMaxGrad_some {grad : List ℝ} {rms : List (List Nat)} {msets : List MISet} {i b : Nat}
    (h : findMaxGrad grad rms msets = .ok (some (i, b))) :
    ∃ rm g, rms[b]? = some rm ∧ i ∈ rm ∧ grad[offset msets b + i]? = some g ∧ 0 < |g| ∧
      ∀ (b' : Nat) (rm' : List Nat) (i' : Nat), rms[b']? = some rm' → i' ∈ rm' → ∃ g', grad[offset msets b' + i']? = some g' ∧ |g'| ≤ |g| := by
  simp only [findMaxGrad, Res.bind_eq_ok] at h
  obtain ⟨r, h1, h⟩ := h
  injection h with h
  have h1' : maxGradOuter grad msets (offset msets 0) 0 (0, none) rms = .ok r := by simpa [offset] using h1
  obtain ⟨_, h2, h3⟩ := outer_ok h1'
  rcases h3 with h3 | ⟨b0, rm, i0, e1, e2, e3, g, e4, e5, e6⟩
  · rw [h3] at h; cases h
  · rw [h] at e3
    simp only [Nat.zero_add, Option.some.injEq, Prod.mk.injEq] at e3 e4
    obtain ⟨rfl, rfl⟩ := e3
    refine ⟨rm, g, e1, e2, e4, e6, fun b' rm' i' hb hi => ?_⟩
    have := h2 b' rm' i' hb hi
    rwa [e5, Nat.zero_add] at this

theorem findMaxGrad_none {grad : List ℝ} {rms : List (List Nat)} {msets : List MISet}
    (h : findMaxGrad grad rms msets = .ok none) :
    ∀ (b : Nat) (rm : List Nat) (i : Nat), rms[b]? = some rm → i ∈ rm → grad[offset msets b + i]? = some 0 := by
  simp only [findMaxGrad, Res.bind_eq_ok] at h
  obtain ⟨r, h1, h⟩ := h
  injection h with h
  have h1' : maxGradOuter grad msets (offset msets 0) 0 (0, none) rms = .ok r := by simpa [offset] using h1
  obtain ⟨_, h2, h3⟩ := outer_ok h1'
  intro b rm i hb hi
  obtain ⟨g, g1, g2⟩ := h2 b rm i hb hi
  rcases h3 with h3 | ⟨b0, rm0, i0, e1, e2, e3, _⟩
  · rw [h3] at g2
    have : g = 0 := by simpa using g2
    rw [Nat.zero_add] at g1
    rw [g1, this]
  · rw [h] at e3; cases e3

end ATM
end MParT
