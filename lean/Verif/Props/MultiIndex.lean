import Verif.Lemmas.MultiIndex
/-!
# Properties C01–C04: `MultiIndex`

The specification side is plain lists of natural numbers (`Verif/Spec/Vec.lean`).
-/
namespace MParT
namespace MultiIndex
open Spec

/-! ### C01: dense/sparse round trip -/

/-- **C01.** A multi-index built from an array gives the array back (`Vector`), its entries
(`Get`), its length, sum, maximum and number of nonzeros. -/
theorem C01_roundtrip (v : List Nat) :
    (ofVec v).vector = .ok v ∧
    (∀ i (h : i < v.length), (ofVec v).get i = .ok v[i]) ∧
    (ofVec v).length = v.length ∧
    (ofVec v).sum = v.sum ∧
    (∀ x ∈ v, x ≤ (ofVec v).max') ∧ (v ≠ [] → (ofVec v).max' ∈ v) ∧
    (ofVec v).numNz = nnz v := by
  refine ⟨vector_ofVec v, fun i h => ?_, by simp, by simp [sum], ?_, ?_, ?_⟩
  · rw [get_ofVec_lt h, getD_lt h]
  · simp only [max', ofVec_maxValue]
    induction v with
    | nil => simp
    | cons y ys ih =>
      intro x hx
      rcases List.mem_cons.1 hx with h | h
      · subst h; simp [vmax]
      · have := ih x h; simp [vmax]; right; exact this
  · simp only [max', ofVec_maxValue]
    induction v with
    | nil => simp
    | cons y ys ih =>
      intro _
      simp only [vmax]
      by_cases hys : ys = []
      · subst hys; simp [vmax]
      · rcases Nat.le_total y (vmax ys) with h | h
        · rw [Nat.max_eq_right h]; exact List.mem_cons_of_mem _ (ih hys)
        · rw [Nat.max_eq_left h]; simp
  · simp [numNz, nzI_length]

-- a concrete case: entries `[0,3,0,2]`
example : (ofVec [0, 3, 0, 2]).vector = .ok [0, 3, 0, 2] ∧ (ofVec [0, 3, 0, 2]).numNz = 2 ∧
    (ofVec [0, 3, 0, 2]).sum = 5 ∧ (ofVec [0, 3, 0, 2]).max' = 3 := by decide

/-! ### C02: histories of `Set` -/

/-- A multi-index obtained through the API, together with the array a user would expect it to
represent: constructors, then any number of in-range `Set` calls mirrored by array
assignments.  (`MultiIndex(0,val)` with `val>0` is excluded, see `C02_const_zero_length`.) -/
inductive Built : MultiIndex → List Nat → Prop
  | ofVec (v : List Nat) : Built (MultiIndex.ofVec v) v
  | const (n val : Nat) (h : 0 < n ∨ val = 0) :
      Built (MultiIndex.const n val) (List.replicate n val)
  | set {m m' : MultiIndex} {v : List Nat} {i val : Nat} {b : Bool}
      (hm : Built m v) (hi : i < v.length) (hs : m.set i val = .ok (m', b)) :
      Built m' (v.set i val)

theorem nzI_replicate (k n val : Nat) (h : 0 < val) :
    nzI k (List.replicate n val) = List.range' k n := by
  induction n generalizing k with
  | zero => simp [nzI]
  | succ n ih => simp [List.replicate_succ, nzI, h, ih, List.range'_succ]

theorem nzV_replicate (n val : Nat) (h : 0 < val) :
    nzV (List.replicate n val) = List.replicate n val := by
  induction n with
  | zero => simp [nzV]
  | succ n ih => simp [List.replicate_succ, nzV, h, ih]

theorem vmax_replicate (n val : Nat) (h : 0 < n) : vmax (List.replicate n val) = val := by
  induction n with
  | zero => omega
  | succ n ih =>
    rcases Nat.eq_zero_or_pos n with h0 | h0
    · subst h0; simp [List.replicate_succ, vmax]
    · simp [List.replicate_succ, vmax, ih h0]

theorem nz_replicate_zero (k n : Nat) :
    nzI k (List.replicate n 0) = [] ∧ nzV (List.replicate n 0) = [] ∧
    vmax (List.replicate n 0) = 0 := by
  induction n generalizing k with
  | zero => simp [nzI, nzV, vmax]
  | succ n ih =>
    have := ih (k + 1)
    simp [List.replicate_succ, nzI, nzV, vmax, this]

theorem const_eq_ofVec (n val : Nat) (h : 0 < n ∨ val = 0) :
    const n val = ofVec (List.replicate n val) := by
  rw [ofVec_eq]
  rcases Nat.eq_zero_or_pos val with hv | hv
  · subst hv
    have := nz_replicate_zero 0 n
    simp [const, this]
  · have hn : 0 < n := by omega
    simp [const, hv, nzI_replicate, nzV_replicate, vmax_replicate n val hn, List.range_eq_range']

theorem Built.eq_ofVec {m : MultiIndex} {v : List Nat} (h : Built m v) : m = MultiIndex.ofVec v := by
  induction h with
  | ofVec v => rfl
  | const n val h => exact const_eq_ofVec n val h
  | set hm hi hs ih =>
    subst ih
    rw [set_ofVec _ hi] at hs
    simp only [Res.ok.injEq, Prod.mk.injEq] at hs
    exact hs.1.symm

/-- **C02.** Whatever sequence of in-range `Set` calls produced `m`, it is observationally the
array `v` with the same assignments. -/
theorem C02_set_history {m : MultiIndex} {v : List Nat} (h : Built m v) :
    m.vector = .ok v ∧ (∀ i (hi : i < v.length), m.get i = .ok v[i]) ∧
    m.length = v.length ∧ m.sum = v.sum ∧ m.max' = vmax v ∧ m.numNz = nnz v ∧
    (∀ m' v', Built m' v' → MultiIndex.eq m m' = .ok (decide (v = v'))) := by
  obtain rfl := h.eq_ofVec
  obtain ⟨a, b, c, d, _, _, e⟩ := C01_roundtrip v
  refine ⟨a, b, c, d, by simp [max'], e, fun m' v' h' => ?_⟩
  obtain rfl := h'.eq_ofVec
  simp [MultiIndex.eq, ne_ofVec]

/-- **C02.** In-range `Set` never throws, and its return value says whether the component was
already nonzero. -/
theorem C02_set_total {m : MultiIndex} {v : List Nat} (h : Built m v) {i : Nat} (val : Nat)
    (hi : i < v.length) :
    ∃ m', m.set i val = .ok (m', decide (0 < v[i])) ∧ Built m' (v.set i val) := by
  obtain rfl := h.eq_ofVec
  refine ⟨_, ?_, Built.ofVec _⟩
  rw [set_ofVec _ hi, getD_lt hi]

-- three calls, one of which erases an entry
example : ∃ m, Built m [5, 0, 2] := by
  refine ⟨ofVec [5, 0, 2], ?_⟩
  have h1 : Built (ofVec [1, 0, 2]) ([0, 0, 2].set 0 1) :=
    .set (b := false) (.ofVec [0, 0, 2]) (by decide) (by decide)
  exact .set (i := 0) (val := 5) (b := true) h1 (by decide) (by decide)

/-- **C02.** Indices strictly beyond the length are rejected by `Set` and `Get`. -/
theorem C02_beyond_rejected {m : MultiIndex} {i : Nat} (val : Nat) (hi : m.length < i) :
    m.set i val = .throw ∧ m.get i = .throw := by
  simp [set, get, hi]

/-- **C59, disagreement.** `Set(Length(), val)` with `val > 0` is accepted for *every*
multi-index, and afterwards `Vector()` has undefined behaviour (it writes past its output). -/
theorem C59_set_at_length_corrupts {m : MultiIndex} {v : List Nat} (h : Built m v) (val : Nat)
    (hv : 0 < val) :
    ∃ m', m.set m.length val = .ok (m', false) ∧ m'.vector = .ub := by
  obtain rfl := h.eq_ofVec
  have hlb : lowerBound (nzI 0 v) v.length = (nzI 0 v).length := by
    unfold lowerBound
    apply List.findIdx_eq_length_of_false
    intro a ha
    have := nzI_lt ha
    simp; omega
  have hval : val ≠ 0 := by omega
  refine ⟨refresh { ofVec v with
      nzInds := (nzI 0 v).insertIdx (nzI 0 v).length v.length
      nzVals := (nzV v).insertIdx (nzI 0 v).length val }, ?_, ?_⟩
  · simp [set, hlb, hval]
  · simp only [refresh, vector, ofVec_length]
    have e1 : (nzI 0 v).insertIdx (nzI 0 v).length v.length = nzI 0 v ++ [v.length] := by simp
    have e2 : (nzV v).insertIdx (nzI 0 v).length val = nzV v ++ [val] := by
      rw [show (nzI 0 v).length = (nzV v).length by rw [nzI_length, nzV_length]]; simp
    rw [e1, e2]
    have gen : ∀ (pre xs : List Nat),
        vectorLoop (pre ++ List.replicate xs.length 0) (nzI pre.length xs ++ [pre.length + xs.length])
          (nzV xs ++ [val]) = .ub := by
      intro pre xs
      induction xs generalizing pre with
      | nil => simp [nzI, nzV, vectorLoop]
      | cons x xs ih =>
        have key := ih (pre ++ [x])
        have ee : (pre ++ [x]).length + xs.length = pre.length + (x :: xs).length := by
          simp; omega
        rw [ee] at key
        simp only [nzI, nzV]
        split
        · simp only [List.cons_append, vectorLoop]
          rw [if_pos (by simp)]
          have : (pre ++ List.replicate (x :: xs).length 0).set pre.length x
              = (pre ++ [x]) ++ List.replicate xs.length 0 := by
            simp [List.replicate_succ]
          rw [this]
          simpa using key
        · have hx : x = 0 := by omega
          subst hx
          have : pre ++ List.replicate (0 :: xs).length 0
              = (pre ++ [0]) ++ List.replicate xs.length 0 := by
            simp [List.replicate_succ]
          rw [this]
          simpa using key
    simpa using gen [] v

/-- **C59, disagreement.** `Get(Length())` does not throw either; it returns 0. -/
theorem C59_get_at_length_accepted {m : MultiIndex} {v : List Nat} (h : Built m v) :
    m.get m.length = .ok 0 := by
  obtain rfl := h.eq_ofVec
  rw [get_ofVec]; simp

-- the hypotheses of the two disagreement theorems are met
example : Built (ofVec [1, 0]) [1, 0] ∧ 0 < 3 := ⟨.ofVec _, by decide⟩

/-- **C59, disagreement.** A zero-length multi-index built with a positive value reports that
value as its maximum and differs from the other zero-length multi-indices. -/
theorem C59_const_zero_length (val : Nat) (hv : 0 < val) :
    (const 0 val).vector = .ok [] ∧ (const 0 val).max' = val ∧
    MultiIndex.eq (const 0 val) (ofVec []) = .ok false := by
  have : ¬ 0 = val := by omega
  refine ⟨by simp [const, vector, vectorLoop, hv], by simp [const, max'], ?_⟩
  simp [MultiIndex.eq, ne, const, hv, vmax, this]

/-! ### C03: the comparison operators -/

/-- **C03.** All six comparison operators return normally, `==` is equality of the arrays, the
others are derived, and `<` is a strict total order (so `std::map<MultiIndex,...>` is sound). -/
theorem C03_strict_total_order :
    (∀ {a b : MultiIndex} {u v : List Nat}, Built a u → Built b v →
      MultiIndex.eq a b = .ok (decide (u = v)) ∧ ne a b = .ok (!decide (u = v)) ∧
      ∃ l g : Bool, lt a b = .ok l ∧ lt b a = .ok g ∧
        gt a b = .ok g ∧ le a b = .ok (!g) ∧ ge a b = .ok (!l) ∧
        -- trichotomy: exactly one of a<b, a==b, b<a
        ((l = true ∧ u ≠ v ∧ g = false) ∨ (l = false ∧ u = v ∧ g = false) ∨
         (l = false ∧ u ≠ v ∧ g = true))) ∧
    (∀ {a b c : MultiIndex} {u v w : List Nat}, Built a u → Built b v → Built c w →
      lt a b = .ok true → lt b c = .ok true → lt a c = .ok true) := by
  constructor
  · intro a b u v ha hb
    obtain rfl := ha.eq_ofVec
    obtain rfl := hb.eq_ofVec
    refine ⟨by simp [MultiIndex.eq, ne_ofVec], ne_ofVec u v, decide (VLt u v), decide (VLt v u),
      lt_ofVec u v, lt_ofVec v u, by simp [gt, lt_ofVec], by simp [le, gt, lt_ofVec],
      by simp [ge, lt_ofVec], ?_⟩
    simp only [decide_eq_true_eq, decide_eq_false_iff_not]
    rcases VLt.total u v with h | h | h
    · left; refine ⟨h, ?_, fun h' => VLt.irrefl _ (h.trans h')⟩
      rintro rfl; exact VLt.irrefl _ h
    · right; left; subst h; exact ⟨VLt.irrefl _, rfl, VLt.irrefl _⟩
    · right; right; refine ⟨fun h' => VLt.irrefl _ (h.trans h'), ?_, h⟩
      rintro rfl; exact VLt.irrefl _ h
  · intro a b c u v w ha hb hc h1 h2
    obtain rfl := ha.eq_ofVec
    obtain rfl := hb.eq_ofVec
    obtain rfl := hc.eq_ofVec
    rw [lt_ofVec] at *
    simp only [Res.ok.injEq, decide_eq_true_eq] at *
    exact h1.trans h2

/-- **C03.** The order is graded: a multi-index of smaller total order (same length) precedes. -/
theorem C03_graded {a b : MultiIndex} {u v : List Nat} (ha : Built a u) (hb : Built b v)
    (hl : u.length = v.length) (hs : u.sum < v.sum) : lt a b = .ok true := by
  obtain rfl := ha.eq_ofVec
  obtain rfl := hb.eq_ofVec
  rw [lt_ofVec]; simp [VLt, hl, hs]

example : lt (ofVec [0, 3]) (ofVec [1, 2]) = .ok false ∧ lt (ofVec [1, 2]) (ofVec [0, 3]) = .ok true ∧
    lt (ofVec [1, 2]) (ofVec [2, 1]) = .ok true ∧ lt (ofVec [4]) (ofVec [0, 0]) = .ok true := by decide

/-! ### C04: AnyBounded -/

/-- **C04.** `AnyBounded(bound)` is true iff some component reaches the bound; it throws iff the
multi-index is longer than the bound. -/
theorem C04_anyBounded {a b : MultiIndex} {u v : List Nat} (ha : Built a u) (hb : Built b v) :
    (v.length < u.length → anyBounded a b = .throw) ∧
    (u.length ≤ v.length → ∃ r, anyBounded a b = .ok r ∧
      (r = true ↔ ∃ (i : Nat) (x y : Nat), u[i]? = some x ∧ v[i]? = some y ∧ y ≤ x)) := by
  obtain rfl := ha.eq_ofVec
  obtain rfl := hb.eq_ofVec
  constructor
  · intro h; simp [anyBounded, h]
  · intro h
    refine ⟨decide (∃ j, j < u.length ∧ 0 ≤ j ∧ v.getD j 0 ≤ u.getD j 0), ?_, ?_⟩
    · simp only [anyBounded, ofVec_length]
      rw [if_neg (by omega), anyBoundedLoop_eq u v h 0 _ (by omega)]
    · simp only [decide_eq_true_eq]
      constructor
      · rintro ⟨j, h1, _, h3⟩
        have h2 : j < v.length := by omega
        exact ⟨j, u[j], v[j], by simp [h1], by simp [h2], by rwa [getD_lt h1, getD_lt h2] at h3⟩
      · rintro ⟨i, x, y, h1, h2, h3⟩
        obtain ⟨hi, rfl⟩ := List.getElem?_eq_some_iff.1 h1
        obtain ⟨hj, rfl⟩ := List.getElem?_eq_some_iff.1 h2
        exact ⟨i, hi, Nat.zero_le _, by rwa [getD_lt hi, getD_lt hj]⟩

example : anyBounded (ofVec [1, 3]) (ofVec [2, 3, 1]) = .ok true ∧
    anyBounded (ofVec [1, 2]) (ofVec [2, 3, 1]) = .ok false ∧
    anyBounded (ofVec [1, 2]) (ofVec [5]) = .throw := by decide

/-- **C01.** `String()` prints the entries in order separated by single blanks. -/
theorem C01_string {m : MultiIndex} {v : List Nat} (h : Built m v) :
    m.string = .ok (String.join ((v.map toString).intersperse " ")) := by
  obtain rfl := h.eq_ofVec
  have gen : ∀ (n i : Nat) (out : String), i + n = v.length →
      stringLoop (ofVec v) out i n = .ok (out ++
        (if i > 0 ∧ n > 0 then " " else "") ++
        String.join (((v.drop i).map toString).intersperse " ")) := by
    intro n
    induction n with
    | zero =>
      intro i out hi
      have : v.drop i = [] := List.drop_eq_nil_of_le (by omega)
      simp [stringLoop, this, String.join]
    | succ n ih =>
      intro i out hi
      have hlt : i < v.length := by omega
      simp only [stringLoop, get_ofVec_lt hlt, Res.bind_ok]
      rw [ih (i + 1) _ (by omega)]
      congr 1
      have hd : (v.drop i).map toString = toString v[i] :: (v.drop (i + 1)).map toString := by
        rw [List.drop_eq_getElem_cons hlt, List.map_cons]
      rw [hd, getD_lt hlt]
      rcases Nat.eq_zero_or_pos n with hn | hn
      · subst hn
        have : v.drop (i + 1) = [] := List.drop_eq_nil_of_le (by omega)
        rw [this]
        by_cases h0 : i > 0 <;> simp [h0, String.join]
      · have hlt' : i + 1 < v.length := by omega
        have hd' : (v.drop (i + 1)).map toString = toString v[i + 1] :: (v.drop (i + 2)).map toString := by
          rw [List.drop_eq_getElem_cons hlt', List.map_cons]
        rw [hd']
        by_cases h0 : i > 0 <;> simp [h0, hn, List.intersperse, String.join_cons, String.append_assoc]
  have := gen v.length 0 "" (by omega)
  simpa [string] using this

example : (ofVec [1, 0, 12]).string = .ok "1 0 12" := by decide

end MultiIndex
end MParT
