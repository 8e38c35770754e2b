import Verif.Lemmas.FixedDevice
/-!
# C90: fixed multi-index sets in device memory, `Print`, and sizes beyond 32 bits
-/
namespace MParT.FixedSet
open MultiIndex Spec

/-- A `parallel_for` over `n` indices executes each of `0, …, n-1` exactly once, in any order. -/
def Fair (l : Launches) : Prop := ∀ k n, (l k n).Perm (List.range n)

theorem calcMaxDegreesDev_eq {l : Launches} (hl : Fair l) (dim : Nat) (nzDims nzOrders : List Nat) :
    calcMaxDegreesDev l dim nzDims nzOrders = calcMaxDegrees dim nzDims nzOrders := by
  have h0 : setAll (fun _ => 0) (List.replicate dim 0) (l 2 dim) = .ok (List.replicate dim 0) := by
    rw [setAll_perm _ _ (hl 2 dim), List.range_eq_range', ← setLoop_all]
    exact setLoop_zero _ dim 0 (by simp) (by simp)
  rw [calcMaxDegreesDev, h0, Res.bind_ok, maxDegreeAll_perm _ _ _ (hl 3 _), List.range_eq_range', ← maxDegreeLoop_all]
  rfl

/-- **C90.** Whatever the schedule of the parallel loops, a set constructed in device memory has the same arrays, the maximal
degrees included, as the set constructed from the same arguments in host memory: for all arguments. -/
theorem C90_schedule {l : Launches} (hl : Fair l) (dim : Nat) (starts dims orders : List Nat) :
    ofDenseDev l dim orders = ofDense dim orders ∧
    ofCompressedDev l dim starts dims orders = ofCompressed dim starts dims orders := by
  constructor
  · unfold ofDenseDev ofDense
    by_cases h : dim = 0
    · simp [h]
    · simp only [h, if_false]
      rw [setAll_perm _ _ (hl 0 _), List.range_eq_range', ← setLoop_all]
      rw [setAll_perm _ _ (hl 1 _), List.range_eq_range', ← setLoop_all]
      simp only [calcMaxDegreesDev_eq hl]
  · unfold ofCompressedDev ofCompressed
    rw [calcMaxDegreesDev_eq hl]

example : Fair fun _ n => (List.range n).reverse := fun _ _ => List.reverse_perm _

example : ofDenseDev (fun _ n => (List.range n).reverse) 2 [0, 3, 1, 2] = .ok
    { dim := 2, isCompressed := false, nzStarts := [0, 2, 0], nzDims := [0, 1, 0, 1], nzOrders := [0, 3, 1, 2]
      maxDegrees := [1, 3] } := by decide +kernel

theorem degs_dense (n : Nat) (hn : 0 < n) (ts : List (List Nat)) (hts : ∀ t ∈ ts, t.length = n) :
    calcMaxDegrees n ((List.range (n * ts.length)).map (· % n)) ts.flatten = .ok (degs n ts) := by
  have h := ofDense_dens n hn ts hts
  have hl := flatten_length n ts hts
  have hdiv : ts.flatten.length / n = ts.length := by rw [hl]; exact Nat.mul_div_cancel_left _ hn
  unfold ofDense at h
  rw [if_neg (by omega)] at h
  obtain ⟨s, -, h⟩ := Res.bind_eq_ok.1 h
  obtain ⟨d, -, h⟩ := Res.bind_eq_ok.1 h
  obtain ⟨m, e, h⟩ := Res.bind_eq_ok.1 h
  have h := Res.ok.inj h
  have h1 : d = (List.range (n * ts.length)).map (· % n) := congrArg FixedSet.nzDims h
  have h2 : m = degs n ts := congrArg FixedSet.maxDegrees h
  rw [h1, h2] at e
  exact e

/-- **C90** (partial: sets in compressed layout). A compressed set is copied to the device unchanged: same terms in the same
order, same maximal degrees. Missing: the dense layout, for which it is false, see `C90_fails_dense`. -/
theorem C90_toDevice_partial {l : Launches} (hl : Fair l) {f : FixedSet} (h : Built f) (hc : f.isCompressed = true) :
    f.toDevice l = .ok f := by
  obtain ⟨n, ts, hts, hform, -⟩ := h.form
  rcases hform with e | ⟨hn, e⟩
  · subst e
    rw [toDevice, (C90_schedule hl _ _ _ _).2]
    exact ofCompressed_csr n ts hts
  · subst e; simp [dens] at hc

/-- **C90 fails for the dense layout**, for every set with at least one term: the copy on the device has the same size and the
same maximal degrees, but its last term is zero. -/
theorem C90_fails_dense {l : Launches} (hl : Fair l) {f : FixedSet} (h : Built f) (hc : f.isCompressed = false)
    {ts : List (List Nat)} {t : List Nat} (ht : Holds f (ts ++ [t])) : ∃ g, f.toDevice l = .ok g ∧
      g.maxDegrees = f.maxDegrees ∧ Holds g (ts ++ [List.replicate f.dim 0]) := by
  obtain ⟨n, us, hts, hform, hu⟩ := h.form
  have := ht.unique hu
  subst this
  rcases hform with e | ⟨hn, e⟩
  · subst e; simp [csr] at hc
  subst e
  have hlen : (ts ++ [t]).length = ts.length + 1 := by simp
  have hfl := flatten_length n (ts ++ [t]) hts
  refine ⟨{ dens n (ts ++ [t]) with isCompressed := true }, ?_, rfl, ?_, ?_⟩
  · rw [toDevice, (C90_schedule hl _ _ _ _).2, ofCompressed]
    have : calcMaxDegrees (dens n (ts ++ [t])).dim (dens n (ts ++ [t])).nzDims (dens n (ts ++ [t])).nzOrders
        = .ok (degs n (ts ++ [t])) := degs_dense n hn _ hts
    rw [this]
    rfl
  · simp [size, dens]
  · intro i u hi
    have hstart : ∀ j, j < ts.length + 1 →
        Res.idx ((List.range (ts ++ [t]).length).map (· * n) ++ [0]) j = .ok (j * n) := by
      intro j hj
      apply Res.idx_some
      rw [List.getElem?_append_left (by simp; omega)]
      simp [hj]
    by_cases hlt : i < ts.length
    · have hi' : (ts ++ [t])[i]? = some u := by
        rw [List.getElem?_append_left hlt] at hi ⊢
        exact hi
      have hul : u.length = n := hts u (List.mem_of_getElem? hi')
      simp only [indexToMulti, dens, if_true]
      rw [hstart i (by omega), Res.bind_ok, hstart (i + 1) (by omega), Res.bind_ok]
      rw [show (i + 1) * n - i * n = u.length by rw [Nat.add_mul]; omega]
      have hin : n * i + n ≤ n * (ts ++ [t]).length := by
        rw [hlen, ← Nat.mul_succ]
        exact Nat.mul_le_mul_left n (by omega)
      have := readLoop_row { dens n (ts ++ [t]) with isCompressed := true } (i * n) u [] (by
        intro d hd
        have hd' : i * n + d < n * (ts ++ [t]).length := by
          rw [Nat.mul_comm i n]; omega
        simp only [dens, List.length_nil, Nat.add_zero, Nat.zero_add]
        rw [List.getElem?_map, List.getElem?_range hd']
        simp only [Option.map_some, Option.some.injEq]
        rw [Nat.mul_comm i n, Nat.mul_add_mod, Nat.mod_eq_of_lt (by omega)]) (by
        intro d hd
        have := flatten_get n (ts ++ [t]) hts hi' (d := d) (by omega)
        simp only [dens, List.length_nil, Nat.add_zero]
        rw [Nat.mul_comm i n, Nat.add_comm]
        exact this)
      simp only [List.nil_append, List.length_nil, Nat.add_zero, hul] at this
      rw [hul]
      exact this
    · have hi2 : i = ts.length := by
        obtain ⟨hh, -⟩ := List.getElem?_eq_some_iff.1 hi
        simp at hh
        omega
      subst hi2
      have hu' : u = List.replicate n 0 := by simpa [dens] using hi.symm
      subst hu'
      have hlast : Res.idx ((List.range (ts ++ [t]).length).map (· * n) ++ [0]) (ts.length + 1) = .ok 0 := by
        apply Res.idx_some
        rw [List.getElem?_append_right (by simp)]
        simp
      simp only [indexToMulti, dens, if_true]
      rw [hstart ts.length (by omega), Res.bind_ok, hlast, Res.bind_ok, Nat.zero_sub]
      rfl

/-- The dense set with the terms (0,0) and (1,2) becomes (0,0), (0,0). -/
example : ∃ f, ofDense 2 [0, 0, 1, 2] = .ok f ∧ Holds f [[0, 0], [1, 2]] ∧
    ∃ g, f.toDevice (fun _ n => List.range n) = .ok g ∧ Holds g [[0, 0], [0, 0]] := by
  have hl : ∀ t ∈ [[0, 0], [1, 2]], t.length = 2 := by decide
  have e := ofDense_dens 2 (by decide) [[0, 0], [1, 2]] hl
  refine ⟨_, e, dens_holds 2 (by decide) _ hl, ?_⟩
  obtain ⟨g, h1, -, h2⟩ := C90_fails_dense (l := fun _ n => List.range n) (fun _ _ => .refl _)
    (.dense hl e) rfl (ts := [[0, 0]]) (t := [1, 2]) (dens_holds 2 (by decide) _ hl)
  exact ⟨g, h1, h2⟩

/-- What a program cannot do with a set in device memory: copy it back, or copy it within the device (an assertion
fails), read a term (an assertion fails), look up a multi-index (device memory is read by host code), construct a total-order
set. -/
theorem device_only (f : FixedSet) (i dim p : Nat) (multi : List Nat) (hc : f.isCompressed = true)
    (hs : 0 < f.nzStarts.length) :
    toAnyOfDevice f = .throw ∧ indexToMultiDev f i = .throw ∧ multiToIndexDev f multi = .ub ∧ totalOrderDev dim p = .ub := by
  refine ⟨rfl, rfl, ?_, rfl⟩
  have : f.nzStarts.length ≠ 0 := by omega
  simp [multiToIndexDev, hc, this]

theorem printRows_eq (f : FixedSet) (rest : List (List Nat)) : ∀ i,
    (∀ (j : Nat) (t : List Nat), rest[j]? = some t → f.indexToMulti (i + j) = .ok t) →
    printRows f i rest.length = .ok rest := by
  induction rest with
  | nil => intro i _; rfl
  | cons t ts ih =>
    intro i h
    have h0 := h 0 t (by simp)
    rw [Nat.add_zero] at h0
    rw [List.length_cons, printRows, h0, Res.bind_ok, ih (i + 1) (by
      intro j u hj
      have := h (j + 1) u (by simpa using hj)
      rw [show i + 1 + j = i + (j + 1) by omega]
      exact this)]
    rfl

/-- **C90.** `Print` writes every term once, in index order, in both layouts. -/
theorem C90_print {f : FixedSet} (h : Built f) {ts : List (List Nat)} (ht : Holds f ts) :
    f.print = .ok (if f.isCompressed then some (f.nzStarts, f.nzDims, f.nzOrders) else none, ts) := by
  have hn : f.nzStarts.length = ts.length + 1 := by
    obtain ⟨n, us, hts, hform, hu⟩ := h.form
    have := ht.unique hu
    subst this
    rcases hform with e | ⟨hn, e⟩
    · subst e; simp [csr]
    · subst e; simp [dens]
  have hr := printRows_eq f ts 0 (by simpa using ht.2)
  have h0 : f.nzStarts.length ≠ 0 := by omega
  rw [print, if_neg h0, hn, Nat.add_sub_cancel, hr]
  rfl

example : (do let f ← totalOrder 2 1; f.print) = .ok (some ([0, 0, 1, 2], [1, 0], [1, 1]), [[0, 0], [0, 1], [1, 0]]) := by
  decide +kernel

/-- **C90.** A set that has only been default-constructed cannot be printed. -/
theorem C90_fails_print_empty (f : FixedSet) (h : f.nzStarts = []) : f.print = .ub := by simp [print, h]

/-! ## Sizes -/

/-- **C90.** Closed forms of the sizes of the total-order set: `binomial(n+p, n)` terms, `n·binomial(n+p-1, n)` nonzeros. -/
theorem C90_sizes {n : Nat} (hn : 0 < n) (p : Nat) {f : FixedSet} (h : totalOrder n p = .ok f) :
    f.nzStarts.length = (n + p).choose n + 1 ∧ f.nzOrders.length = n * (n + p - 1).choose n ∧
    f.nzDims.length = n * (n + p - 1).choose n := by
  rw [totalOrder_csr n hn p] at h
  cases h
  refine ⟨?_, ?_, ?_⟩
  · simp [csr, toEnum_length]
  · show (List.flatMap _ _).length = _
    rw [flatMap_nzV_length, totNz_toEnum]
  · show (List.flatMap _ _).length = _
    rw [flatMap_nzI_length, totNz_toEnum]

/-- **C90** (partial: sizes that fit). With sizes computed in 32 bits, the constructor is right as long as the sizes of the
arrays fit in 32 bits. Missing: larger sets, see `C90_fails_size`. -/
theorem C90_totalOrder32_partial {n : Nat} (hn : 0 < n) (p : Nat) (hp : p + 1 < 2 ^ 32)
    (h1 : (n + p).choose n + 1 < 2 ^ 32) (h2 : n * (n + p - 1).choose n < 2 ^ 32) :
    totalOrder32 n p = totalOrder n p := by
  obtain ⟨m, rfl⟩ : ∃ m, n = m + 1 := ⟨n - 1, by omega⟩
  have hs := totalOrderSize32_eq m p (by omega)
  rw [totalOrderSize_eq, toEnum_length, totNz_toEnum] at hs
  simp only [Nat.mod_eq_of_lt h2, Nat.mod_eq_of_lt (show (m + 1 + p).choose (m + 1) < 2 ^ 32 by omega)] at hs
  have hr := totalOrderSize_eq m p
  rw [toEnum_length, totNz_toEnum] at hr
  unfold totalOrder32 totalOrder
  simp only [Nat.add_sub_cancel, hs, hr, Nat.mod_eq_of_lt h1]

/-- **C90 fails for larger sets**: as soon as one of the sizes does not fit, the constructor writes outside its arrays. -/
theorem C90_fails_size {n : Nat} (hn : 0 < n) (p : Nat) (hp : p + 1 < 2 ^ 32)
    (h : 2 ^ 32 ≤ (n + p).choose n + 1 ∨ 2 ^ 32 ≤ n * (n + p - 1).choose n) : totalOrder32 n p = .ub := by
  obtain ⟨m, rfl⟩ : ∃ m, n = m + 1 := ⟨n - 1, by omega⟩
  have hs := totalOrderSize32_eq m p (by omega)
  rw [totalOrderSize_eq, toEnum_length, totNz_toEnum] at hs
  have hm : m + 1 ≠ 0 := by omega
  unfold totalOrder32
  simp only [hm, if_false, Nat.add_sub_cancel, hs]
  generalize hT : (m + 1 + p).choose (m + 1) = T at h ⊢
  generalize hN : (m + 1) * (m + 1 + p - 1).choose (m + 1) = N at h ⊢
  rcases fill_any m p ((T % 2 ^ 32 + 1) % 2 ^ 32) (N % 2 ^ 32) (N % 2 ^ 32) with e | ⟨st, e, e1, e2, w1, w2, w3, w4⟩
  · simp only [e]
    rfl
  · rw [toEnum_length, hT] at e1
    rw [totNz_toEnum, hN] at e2
    simp only [e, Res.bind_ok]
    have hge : ¬ st.currTerm < st.starts.length := by
      rcases h with h | h
      · rw [w1, e1]
        have : (T % 2 ^ 32 + 1) % 2 ^ 32 < 2 ^ 32 := Nat.mod_lt _ (by decide)
        omega
      · exfalso
        have : N % 2 ^ 32 < 2 ^ 32 := Nat.mod_lt _ (by decide)
        omega
    have : Res.setIdx st.starts st.currTerm st.currNz = .ub := by simp [Res.setIdx, hge]
    rw [this]
    rfl

/-- For two variables the constructor is right up to order 65535, and fails from there on. -/
theorem C90_size_two : (∀ p, p ≤ 65535 → totalOrder32 2 p = totalOrder 2 p) ∧
    ∀ p, 65535 < p → p + 1 < 2 ^ 32 → totalOrder32 2 p = .ub := by
  have hv1 : (65537).choose 2 = 2147516416 := by rw [Nat.choose_two_right]
  have hv2 : (65536).choose 2 = 2147450880 := by rw [Nat.choose_two_right]
  constructor
  · intro p hp
    have h1 : (2 + p).choose 2 ≤ (65537).choose 2 := Nat.choose_le_choose 2 (by omega)
    have h2 : (2 + p - 1).choose 2 ≤ (65536).choose 2 := Nat.choose_le_choose 2 (by omega)
    exact C90_totalOrder32_partial (by omega) p (by omega) (by omega) (by omega)
  · intro p hp hp'
    have h1 : (65537).choose 2 ≤ (2 + p - 1).choose 2 := Nat.choose_le_choose 2 (by omega)
    exact C90_fails_size (by omega) p hp' (.inr (by omega))

end MParT.FixedSet
