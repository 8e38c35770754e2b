import Verif.Lemmas.ExpandOnce
import Verif.Spec.Nonzeros
/-!
# Property C15: how often `Expand()` reports a new index
-/
namespace MParT
namespace MISet
open MultiIndex Spec Neighborhood

/-- **C15.** `Expand()` reports the index of every new term once for each variable the term depends on: the list of indices it returns has
duplicates as soon as a new term depends on two variables. -/
theorem C15_expandAll_count {b : Bool} {s s' : MISet} (h : Reach b s) {ts us : List (List Nat)} (ht : Terms s ts) {new : List Nat}
    (e : s.expandAll = .ok (s', new)) (hu : Terms s' us) {i : Nat} {w : List Nat} (hi : us[i]? = some w) (hw : w ∉ ts) :
    new.count i = nonzeros w := by
  obtain ⟨vs, R, hI, _⟩ := h.inv ht
  exact hI.expandAll_count e hu hi hw

/-- **C15.** If no term that can be added depends on two variables, `Expand()` reports the new indices once each, in order. -/
theorem C15_expandAll_once {b : Bool} {s : MISet} (h : Reach b s) {ts : List (List Nat)} (ht : Terms s ts)
    (hs : ∀ w, w ∉ ts → Accepts s w → (∀ b, Fwd b w → b ∈ ts) → nonzeros w ≤ 1) :
    ∃ s' added, s.expandAll = .ok (s', List.range' ts.length added.length) ∧ Terms s' (ts ++ added) ∧ added.Nodup ∧
      s'.length = s.length ∧ s'.limiter = s.limiter ∧
      (∀ w, w ∈ added ↔ w ∉ ts ∧ Accepts s w ∧ (∃ t ∈ ts, Fwd t w) ∧ ∀ b, Fwd b w → b ∈ ts) := by
  obtain ⟨vs, R, hI, _⟩ := h.inv ht
  obtain ⟨s1, k, e⟩ := hI.expandAll_once (fun w hw => hs w hw.1 hw.2.1 hw.2.2)
  obtain ⟨s', added, new, e', h1, h2, h3, h4, h5, h6, _⟩ := C15_expandAll h ht
  rw [e] at e'
  simp only [Res.ok.injEq, Prod.mk.injEq] at e'
  obtain ⟨rfl, rfl⟩ := e'
  have hk : k = added.length := by
    by_contra hne
    rcases Nat.lt_or_gt_of_ne hne with hlt | hlt
    · have := (h6 (ts.length + k)).2 ⟨by omega, by omega⟩
      rw [List.mem_range'_1] at this
      omega
    · have := (h6 (ts.length + added.length)).1 (List.mem_range'_1.2 ⟨by omega, by omega⟩)
      omega
  subst hk
  exact ⟨s1, added, e, h1, h2, h3, h4, h5⟩

/-- The hypothesis of `C15_expandAll_once` is met, for instance, by every set in one variable. -/
example {b : Bool} {s : MISet} (h : Reach b s) (h1 : s.length = 1) {ts : List (List Nat)} (ht : Terms s ts) :
    ∃ s' added, s.expandAll = .ok (s', List.range' ts.length added.length) ∧ Terms s' (ts ++ added) := by
  obtain ⟨s', added, h2, h3, _⟩ := C15_expandAll_once h ht (fun w _ _ hb => by
    by_cases h0 : ∃ i, 0 < w.getD i 0
    · obtain ⟨t, hf⟩ := fwd_zero_or h0
      have hl : t.length = 1 := by rw [← h1]; exact (C09_bijection h ht).2.1 t (hb t hf)
      obtain ⟨i, _, rfl⟩ := hf
      refine (List.countP_le_length).trans ?_
      simp [inc, hl]
    · refine le_trans (le_of_eq (List.countP_eq_zero.2 fun x hx => ?_)) (Nat.zero_le 1)
      obtain ⟨i, hi⟩ := List.getElem?_of_mem hx
      have : ¬ 0 < x := fun hx0 => h0 ⟨i, by rw [List.getD_eq_getElem?_getD, hi]; exact hx0⟩
      simpa using Nat.eq_zero_of_not_pos this)
  exact ⟨s', added, h2, h3⟩

/-- From `{(0,0),(0,1),(1,0)}` the index of `(1,1)` is reported twice, the others once (`C15_expandAll_duplicates`). -/
example : (do
    let s ← createTotalOrder 2 1 (fun _ => true)
    let p ← s.expandAll
    pure p.2) = .ok [3, 4, 3, 5] ∧ nonzeros [1, 1] = 2 ∧ nonzeros [2, 0] = 1 := by decide +kernel

end MISet
end MParT
