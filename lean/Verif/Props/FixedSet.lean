import Verif.Lemmas.FixedSet
import Verif.Props.MultiIndexSet
/-!
# Properties of fixed multi-index sets (C19–C21)
-/
namespace MParT
namespace FixedSet
open MultiIndex Spec

/-- **C19.** For every reachable set, in either layout (dense: positive length), `Fix` succeeds
without an out-of-range access; the fixed set has the same length, size, terms in the same order,
and per-dimension maximal degrees. -/
theorem C19_fix {b : Bool} {s : MISet} (h : MISet.Reach b s) {ts : List (List Nat)}
    (ht : MISet.Terms s ts) (compress : Bool) (hn : compress = true ∨ 0 < s.length) :
    ∃ f, s.fix compress = .ok f ∧ f.isCompressed = compress ∧ f.dim = s.length ∧
      f.maxDegrees = s.maxOrders ∧ f.size = .ok s.size ∧ Holds f ts := by
  obtain ⟨vs, R, hi, _⟩ := h.inv ht
  have hd : degs s.length ts = s.maxOrders := by
    apply List.ext_getElem?
    intro i
    by_cases hlt : i < s.length
    · rw [hi.mo i hlt]
      simp [degs, hlt]
    · rw [List.getElem?_eq_none (by simp [degs]; omega),
        List.getElem?_eq_none (by rw [hi.mo_len]; omega)]
  have hl := terms_length h ht
  have hs : s.size = ts.length := ht.1
  cases compress with
  | true =>
    exact ⟨_, fix_csr h ht, rfl, rfl, hd, by rw [hs]; exact (csr_holds _ ts hl).1, csr_holds _ ts hl⟩
  | false =>
    have hn' : 0 < s.length := by simpa using hn
    exact ⟨_, fix_dens h hn' ht, rfl, rfl, hd, by rw [hs]; exact (dens_holds _ hn' ts hl).1,
      dens_holds _ hn' ts hl⟩

example : (do
    let s ← MISet.createTotalOrder 2 1 (fun _ => true)
    let f ← s.fix true
    let g ← s.fix false
    let a ← f.indexToMulti 2
    let b ← g.indexToMulti 2
    pure (a, b, f.maxDegrees, g.maxDegrees)) = .ok ([1, 0], [1, 0], [1, 1], [1, 1]) := by
  decide +kernel

/-- **C19**, remark: a set of length zero has no dense form (division by zero). -/
theorem C19_dense_length_zero {b : Bool} {s : MISet} (h : MISet.Reach b s) (hn : s.length = 0) :
    s.fix false = .ub := by
  obtain ⟨ts, ht, -⟩ := MISet.C09_terms_exist h
  have hs : s.size = ts.length := ht.1
  have e := fixDenseLoop_eq s ts [] (by simpa using terms_length h ht) (by simpa using ht.2)
  simp only [List.flatten_nil, List.nil_append, List.length_nil] at e
  simp only [MISet.fix, hs, e, Res.bind_ok, Bool.false_eq_true, if_false]
  simp [ofDense, hn]

/-- **C19**, remark: in the dense layout the last entry of the `nzStarts` array, which the compressed
layout uses as the end of the last term, is left at zero by the constructor. -/
theorem C19_dense_last_start_zero {b : Bool} {s : MISet} (h : MISet.Reach b s) (hn : 0 < s.length)
    {f : FixedSet} (hf : s.fix false = .ok f) : f.nzStarts[s.size]? = some 0 := by
  obtain ⟨ts, ht, -⟩ := MISet.C09_terms_exist h
  rw [fix_dens h hn ht] at hf
  cases hf
  have hs : s.size = ts.length := ht.1
  simp [dens, hs]

/-- A built set is one of the two closed forms. -/
theorem Built.form {f : FixedSet} (h : Built f) : ∃ n ts, (∀ t ∈ ts, t.length = n) ∧
    (f = csr n ts ∨ 0 < n ∧ f = dens n ts) ∧ Holds f ts := by
  cases h with
  | @fix b s c f hr e =>
    obtain ⟨ts, ht, -⟩ := MISet.C09_terms_exist hr
    have hl := terms_length hr ht
    cases c with
    | true =>
      rw [fix_csr hr ht] at e; cases e
      exact ⟨_, ts, hl, .inl rfl, csr_holds _ ts hl⟩
    | false =>
      by_cases hn : 0 < s.length
      · rw [fix_dens hr hn ht] at e; cases e
        exact ⟨_, ts, hl, .inr ⟨hn, rfl⟩, dens_holds _ hn ts hl⟩
      · rw [C19_dense_length_zero hr (by omega)] at e; cases e
  | @totalOrder n p f e =>
    by_cases hn : 0 < n
    · rw [totalOrder_csr n hn p] at e; cases e
      have hl : ∀ t ∈ MISet.toEnum n p, t.length = n := fun t ht => ((MISet.mem_toEnum _ _ _).1 ht).1
      exact ⟨_, _, hl, .inl rfl, csr_holds _ _ hl⟩
    · have : n = 0 := by omega
      subst this
      simp [FixedSet.totalOrder] at e
  | @dense n ts f hl e =>
    by_cases hn : 0 < n
    · rw [ofDense_dens n hn ts hl] at e; cases e
      exact ⟨_, ts, hl, .inr ⟨hn, rfl⟩, dens_holds _ hn ts hl⟩
    · have : n = 0 := by omega
      subst this
      simp [ofDense] at e

theorem Holds.unique {f : FixedSet} {ts us : List (List Nat)} (h : Holds f ts) (h' : Holds f us) :
    ts = us := by
  have hl : ts.length = us.length := by have := h.1; rw [h'.1] at this; simpa using this.symm
  apply List.ext_getElem hl
  intro i h1 h2
  have a := h.2 i ts[i] (by simp [h1])
  rw [h'.2 i us[i] (by simp [h2])] at a
  exact (Res.ok.inj a).symm

theorem findIdx_nodup {ts : List (List Nat)} (hn : ts.Nodup) {i : Nat} {t : List Nat}
    (h : ts[i]? = some t) : ts.findIdx? (· == t) = some i := by
  rw [List.findIdx?_eq_some_iff_getElem]
  obtain ⟨hlt, he⟩ := List.getElem?_eq_some_iff.1 h
  refine ⟨hlt, by simp [he], fun j hj => ?_⟩
  simp only [beq_iff_eq]
  intro hjt
  have := (List.Nodup.getElem_inj_iff hn (hi := by omega) (hj := hlt)).1 (hjt.trans he.symm)
  omega

/-- Full statement of C20 for a fixed set: `MultiToIndex` inverts `IndexToMulti`, and returns `-1` on
absent multi-indices of the right length. -/
def MultiToIndexCorrect (f : FixedSet) : Prop := ∀ ts, Holds f ts → ts.Nodup →
  (∀ (i : Nat) (t : List Nat), ts[i]? = some t → f.multiToIndex t = .ok (some i)) ∧
  (∀ t : List Nat, t.length = f.dim → t ∉ ts → f.multiToIndex t = .ok none)

/-- **C20**, dense layout: the full property. -/
theorem C20_dense {f : FixedSet} (h : Built f) (hc : f.isCompressed = false) :
    MultiToIndexCorrect f := by
  intro ts ht hnd
  obtain ⟨n, us, hl, hform, hu⟩ := h.form
  have := ht.unique hu
  subst this
  rcases hform with e | ⟨hn, e⟩
  · subst e; simp [csr] at hc
  · subst e
    refine ⟨fun i t hi => ?_, fun t hlen hm => ?_⟩
    · rw [dens_multiToIndex n hn ts hl t (hl t (List.mem_of_getElem? hi)), findIdx_nodup hnd hi]
    · rw [dens_multiToIndex n hn ts hl t hlen, List.findIdx?_eq_none_iff.2]
      intro x hx
      simp only [beq_eq_false_iff_ne]
      exact fun h => hm (h ▸ hx)

/-- **C20** (partial: both layouts, multi-indices present in the set).  Missing: absent
multi-indices in the compressed layout, for which the property fails, see
`C20_compressed_absent_out_of_bounds`. -/
theorem C20_multiToIndex_partial {f : FixedSet} (h : Built f) {ts : List (List Nat)} (ht : Holds f ts)
    (hnd : ts.Nodup) {i : Nat} {t : List Nat} (hi : ts[i]? = some t) :
    f.multiToIndex t = .ok (some i) := by
  obtain ⟨n, us, hl, hform, hu⟩ := h.form
  have := ht.unique hu
  subst this
  rcases hform with e | ⟨hn, e⟩
  · subst e
    rw [csr_multiToIndex n ts hl t (hl t (List.mem_of_getElem? hi)), findIdx_nodup hnd hi]
  · subst e
    rw [dens_multiToIndex n hn ts hl t (hl t (List.mem_of_getElem? hi)), findIdx_nodup hnd hi]

/-- **C20** fails: on every compressed set, looking up any absent multi-index of the right length
reads past the end of the start array (instead of returning `-1`). -/
theorem C20_compressed_absent_out_of_bounds {f : FixedSet} (h : Built f) (hc : f.isCompressed = true)
    {ts : List (List Nat)} (ht : Holds f ts) {t : List Nat} (hlen : t.length = f.dim) (hm : t ∉ ts) :
    f.multiToIndex t = .ub := by
  obtain ⟨n, us, hl, hform, hu⟩ := h.form
  have := ht.unique hu
  subst this
  rcases hform with e | ⟨hn, e⟩
  · subst e
    rw [csr_multiToIndex n ts hl t hlen, List.findIdx?_eq_none_iff.2]
    intro x hx
    simp only [beq_eq_false_iff_ne]
    exact fun h => hm (h ▸ hx)
  · subst e; simp [dens] at hc

/-- Hence the full property is false of, for example, the total-order set of dimension 2, order 1. -/
theorem C20_fails_compressed : ∃ f, Built f ∧ ¬ MultiToIndexCorrect f := by
  refine ⟨_, .totalOrder (totalOrder_csr 2 (by decide) 1), fun h => ?_⟩
  have hl : ∀ t ∈ MISet.toEnum 2 1, t.length = 2 := by decide
  have := (h _ (csr_holds 2 _ hl) (by decide)).2 [2, 0] rfl (by decide)
  revert this
  decide

example : (do let f ← totalOrder 2 2; f.multiToIndex [1, 1]) = .ok (some 4) := by decide +kernel
example : (do let f ← totalOrder 2 2; f.multiToIndex [3, 0]) = .ub := by decide +kernel
example : (do let f ← ofDense 2 [0, 0, 1, 2]; f.multiToIndex [1, 2]) = .ok (some 1) ∧
    (do let f ← ofDense 2 [0, 0, 1, 2]; f.multiToIndex [2, 1]) = .ok none := by decide +kernel

/-- **C21.** For `dim > 0` the total-order constructor never writes out of range, holds every
multi-index of sum at most `order` exactly once (lexicographically), has `binomial(dim+order,dim)`
terms, and every allocated slot is used: the value array has exactly one entry per nonzero component
of a term, all of them positive. -/
theorem C21_totalOrder {n : Nat} (hn : 0 < n) (p : Nat) : ∃ f ts, totalOrder n p = .ok f ∧
    f.dim = n ∧ Holds f ts ∧ ts.Nodup ∧ ts.Pairwise (· < ·) ∧
    (∀ v : List Nat, v ∈ ts ↔ v.length = n ∧ v.sum ≤ p) ∧
    f.size = .ok ((n + p).choose n) ∧
    f.nzOrders.length = (ts.map nnz).sum ∧ f.nzDims.length = f.nzOrders.length ∧
    (∀ o ∈ f.nzOrders, 0 < o) := by
  have hl : ∀ t ∈ MISet.toEnum n p, t.length = n := fun t ht => ((MISet.mem_toEnum _ _ _).1 ht).1
  have hh := csr_holds n _ hl
  refine ⟨_, _, totalOrder_csr n hn p, rfl, hh, MISet.sorted_nodup (MISet.toEnum_sorted n p),
    MISet.toEnum_sorted n p, MISet.mem_toEnum n p, ?_, ?_, ?_, ?_⟩
  · rw [← toEnum_length n p]; exact hh.1
  · exact flatMap_nzV_length _
  · show (List.flatMap _ _).length = (List.flatMap _ _).length
    rw [flatMap_nzI_length, flatMap_nzV_length]
  · intro o ho
    obtain ⟨t, _, hm⟩ := List.mem_flatMap.1 ho
    exact nzV_pos hm

/-- **C21.** The constructor gives the same arrays as `MultiIndexSet::CreateTotalOrder(n,p).Fix()`. -/
theorem C21_same_as_fix {n : Nat} (hn : 0 < n) (p : Nat) : ∃ s f,
    MISet.createTotalOrder n p (fun _ => true) = .ok s ∧ s.fix true = .ok f ∧ totalOrder n p = .ok f := by
  obtain ⟨s, e, r, l, m, t⟩ := MISet.createTotalOrder_ok hn p (fun _ => true)
  refine ⟨s, _, e, fix_csr r t, ?_⟩
  rw [totalOrder_csr n hn p, l]
  simp

example : totalOrder 2 1 = .ok
    { dim := 2, isCompressed := true, nzStarts := [0, 0, 1, 2], nzDims := [1, 0], nzOrders := [1, 1]
      maxDegrees := [1, 1] } := by decide +kernel

end FixedSet
end MParT
