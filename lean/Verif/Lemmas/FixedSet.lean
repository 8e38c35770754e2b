import Verif.Spec.FixedHist
import Verif.Lemmas.MISetFill
import Mathlib.Data.Nat.Choose.Basic
/-! Helper lemmas for `FixedMultiIndexSet`: closed forms of both layouts. -/
namespace MParT
namespace FixedSet
open MultiIndex Spec

/-- Start offsets of consecutive terms. -/
def startsFrom (c : Nat) : List (List Nat) → List Nat
  | [] => []
  | t :: ts => c :: startsFrom (c + nnz t) ts

/-- Total number of nonzeros. -/
def totNz (ts : List (List Nat)) : Nat := (ts.map nnz).sum

/-- Largest entry in each of the `n` positions. -/
def degs (n : Nat) (ts : List (List Nat)) : List Nat :=
  (List.range n).map fun d => vmax (ts.map fun t => t.getD d 0)

/-- The compressed layout. -/
def csr (n : Nat) (ts : List (List Nat)) : FixedSet :=
  { dim := n, isCompressed := true, nzStarts := startsFrom 0 ts ++ [totNz ts]
    nzDims := ts.flatMap (nzI 0), nzOrders := ts.flatMap nzV, maxDegrees := degs n ts }

/-- The dense layout produced by the constructor: the last entry of `nzStarts` is left zero. -/
def dens (n : Nat) (ts : List (List Nat)) : FixedSet :=
  { dim := n, isCompressed := false, nzStarts := (List.range ts.length).map (· * n) ++ [0]
    nzDims := (List.range (n * ts.length)).map (· % n), nzOrders := ts.flatten
    maxDegrees := degs n ts }

@[simp] theorem startsFrom_length (c : Nat) (ts : List (List Nat)) :
    (startsFrom c ts).length = ts.length := by
  induction ts generalizing c with
  | nil => rfl
  | cons t ts ih => simp [startsFrom, ih]

theorem startsFrom_append (c : Nat) (ts us : List (List Nat)) :
    startsFrom c (ts ++ us) = startsFrom c ts ++ startsFrom (c + totNz ts) us := by
  induction ts generalizing c with
  | nil => simp [startsFrom, totNz]
  | cons t ts ih => simp [startsFrom, ih, totNz, Nat.add_assoc]

theorem totNz_append (ts us : List (List Nat)) : totNz (ts ++ us) = totNz ts + totNz us := by
  simp [totNz]

@[simp] theorem totNz_cons (t : List Nat) (ts : List (List Nat)) : totNz (t :: ts) = nnz t + totNz ts := by
  simp [totNz]
@[simp] theorem totNz_nil : totNz [] = 0 := rfl

@[simp] theorem flatMap_nzI_length (ts : List (List Nat)) : (ts.flatMap (nzI 0)).length = totNz ts := by
  induction ts with
  | nil => rfl
  | cons t ts ih => simp [ih, nzI_length]

@[simp] theorem flatMap_nzV_length (ts : List (List Nat)) : (ts.flatMap nzV).length = totNz ts := by
  induction ts with
  | nil => rfl
  | cons t ts ih => simp [ih, nzV_length]

theorem setIdx_append {pre post : List Nat} {y x i : Nat} (h : i = pre.length) :
    Res.setIdx (pre ++ y :: post) i x = .ok (pre ++ x :: post) := by
  subst h
  rw [Res.setIdx_lt (by simp)]
  simp

theorem setIdx_zeros {pre : List Nat} {k x i : Nat} (h : i = pre.length) :
    Res.setIdx (pre ++ List.replicate (k + 1) 0) i x = .ok (pre ++ [x] ++ List.replicate k 0) := by
  rw [List.replicate_succ, setIdx_append h]
  simp

theorem idx_append {pre post : List Nat} {x i : Nat} (h : i = pre.length) :
    Res.idx (pre ++ x :: post) i = .ok x := by
  subst h
  exact Res.idx_some (by simp)

/-! ### CalculateMaxDegrees -/

/-- One update of the running maxima. -/
def upd (md : List Nat) (p : Nat × Nat) : List Nat := md.set p.1 (max (md.getD p.1 0) p.2)

theorem upd_foldl_length (ps : List (Nat × Nat)) (md : List Nat) :
    (ps.foldl upd md).length = md.length := by
  induction ps generalizing md with
  | nil => rfl
  | cons p ps ih => simp [ih, upd]

theorem maxDegreeLoop_eq (A A' : List Nat) (is os : List Nat) (hl : is.length = os.length)
    (hA : A.length = A'.length) (md : List Nat) (hd : ∀ d ∈ is, d < md.length) :
    maxDegreeLoop (A ++ is) (A' ++ os) md A.length os.length = .ok ((is.zip os).foldl upd md) := by
  induction is generalizing A A' os md with
  | nil =>
    have : os = [] := by simpa using hl.symm
    subst this
    simp [maxDegreeLoop]
  | cons d is ih =>
    match os, hl with
    | o :: os, hl =>
      have hd0 : d < md.length := hd d (by simp)
      have e1 : Res.idx md d = .ok (md.getD d 0) := by rw [getD_lt hd0, Res.idx_lt hd0]
      simp only [List.length_cons, maxDegreeLoop, idx_append rfl, idx_append hA, Res.bind_ok, e1,
        Res.setIdx_lt hd0]
      have := ih (A ++ [d]) (A' ++ [o]) os (by simpa using hl) (by simp [hA])
        (md.set d (max (md.getD d 0) o)) (by intro x hx; simpa using hd x (by simp [hx]))
      simp only [List.append_assoc, List.singleton_append, List.length_append, List.length_singleton]
        at this
      rw [this]
      simp [upd]

theorem calcMaxDegrees_eq (n : Nat) (is os : List Nat) (hl : is.length = os.length)
    (hd : ∀ d ∈ is, d < n) :
    calcMaxDegrees n is os = .ok ((is.zip os).foldl upd (List.replicate n 0)) := by
  have := maxDegreeLoop_eq [] [] is os hl rfl (List.replicate n 0) (by simpa using hd)
  simpa [calcMaxDegrees] using this

theorem upd_foldl_getD (ps : List (Nat × Nat)) (md : List Nat) (d : Nat) (hd : d < md.length) :
    (ps.foldl upd md).getD d 0 =
      ps.foldl (fun acc p => if p.1 = d then max acc p.2 else acc) (md.getD d 0) := by
  induction ps generalizing md with
  | nil => rfl
  | cons p ps ih =>
    simp only [List.foldl_cons]
    rw [ih (upd md p) (by simpa [upd] using hd)]
    congr 1
    by_cases h : p.1 = d
    · subst h
      simp [upd, List.getElem?_set, hd]
    · simp [upd, List.getElem?_set, h]

/-- Running maximum at position `d` over the entries of one term given as an index/value list. -/
def EntriesOf (t : List Nat) (ps : List (Nat × Nat)) : Prop :=
  ∀ d acc, ps.foldl (fun acc p => if p.1 = d then max acc p.2 else acc) acc = max acc (t.getD d 0)

theorem degs_of_entries (n : Nat) (ts : List (List Nat)) (E : List Nat → List (Nat × Nat))
    (hE : ∀ t ∈ ts, EntriesOf t (E t)) :
    (ts.flatMap E).foldl upd (List.replicate n 0) = degs n ts := by
  apply List.ext_getElem
  · simp [upd_foldl_length, degs]
  · intro d h1 h2
    have hd : d < n := by simpa [degs] using h2
    have key : ∀ acc, (ts.flatMap E).foldl (fun acc p => if p.1 = d then max acc p.2 else acc) acc
        = max acc (vmax (ts.map fun t => t.getD d 0)) := by
      clear h1 h2
      induction ts with
      | nil => simp [vmax]
      | cons t ts ih =>
        intro acc
        rw [List.flatMap_cons, List.foldl_append, hE t (by simp) d acc,
          ih (fun t ht => hE t (by simp [ht]))]
        simp [vmax, Nat.max_assoc]
    have := upd_foldl_getD (ts.flatMap E) (List.replicate n 0) d (by simpa using hd)
    rw [key, getD_lt h1] at this
    rw [this]
    simp [degs, hd]

theorem entries_nz (t : List Nat) (k : Nat) : ∀ d acc,
    ((nzI k t).zip (nzV t)).foldl (fun acc p => if p.1 = d then max acc p.2 else acc) acc
      = if k ≤ d then max acc (t.getD (d - k) 0) else acc := by
  induction t generalizing k with
  | nil => intro d acc; simp [nzI, nzV]
  | cons x xs ih =>
    intro d acc
    have step : ∀ acc, (if k + 1 ≤ d then max acc (xs.getD (d - (k + 1)) 0) else acc)
        = if k ≤ d ∧ d ≠ k then max acc ((x :: xs).getD (d - k) 0) else acc := by
      intro acc
      by_cases h : k + 1 ≤ d
      · have e : d - k = (d - (k + 1)) + 1 := by omega
        rw [if_pos h, if_pos (by omega), e]
        simp
      · rw [if_neg h, if_neg (by omega)]
    by_cases hx : x > 0
    · simp only [nzI, nzV, hx, if_true, List.zip_cons_cons, List.foldl_cons]
      rw [ih (k + 1) d, step]
      by_cases hk : k = d
      · subst hk; simp
      · rw [if_neg hk]
        by_cases hkd : k ≤ d
        · rw [if_pos ⟨hkd, fun h => hk h.symm⟩, if_pos hkd]
        · rw [if_neg (fun h => hkd h.1), if_neg hkd]
    · have hx0 : x = 0 := by omega
      simp only [nzI, nzV, hx, if_false]
      rw [ih (k + 1) d, step]
      by_cases hk : d = k
      · subst hk; simp [hx0]
      · by_cases hkd : k ≤ d
        · rw [if_pos ⟨hkd, hk⟩, if_pos hkd]
        · rw [if_neg (fun h => hkd h.1), if_neg hkd]

theorem entries_dense (t : List Nat) (k : Nat) : ∀ d acc,
    ((List.range' k t.length).zip t).foldl (fun acc p => if p.1 = d then max acc p.2 else acc) acc
      = if k ≤ d then max acc (t.getD (d - k) 0) else acc := by
  induction t generalizing k with
  | nil => intro d acc; simp
  | cons x xs ih =>
    intro d acc
    simp only [List.length_cons, List.range'_succ, List.zip_cons_cons, List.foldl_cons]
    rw [ih (k + 1) d]
    by_cases hk : k = d
    · subst hk; simp
    · by_cases h : k + 1 ≤ d
      · have e : d - k = (d - (k + 1)) + 1 := by omega
        rw [if_pos h, if_neg hk, if_pos (by omega), e]
        simp
      · rw [if_neg h, if_neg hk, if_neg (by omega)]

theorem zip_flatMap_nz (ts : List (List Nat)) :
    (ts.flatMap (nzI 0)).zip (ts.flatMap nzV) = ts.flatMap fun t => (nzI 0 t).zip (nzV t) := by
  induction ts with
  | nil => rfl
  | cons t ts ih =>
    simp only [List.flatMap_cons]
    rw [List.zip_append (by simp [nzI_length, nzV_length]), ih]

theorem ofCompressed_csr (n : Nat) (ts : List (List Nat)) (hts : ∀ t ∈ ts, t.length = n) :
    ofCompressed n (startsFrom 0 ts ++ [totNz ts]) (ts.flatMap (nzI 0)) (ts.flatMap nzV)
      = .ok (csr n ts) := by
  have hd : ∀ d ∈ ts.flatMap (nzI 0), d < n := by
    intro d hd
    obtain ⟨t, ht, hm⟩ := List.mem_flatMap.1 hd
    have := nzI_lt hm
    rw [hts t ht] at this
    omega
  have := calcMaxDegrees_eq n _ (ts.flatMap nzV)
    (by rw [flatMap_nzI_length, flatMap_nzV_length]) hd
  simp only [ofCompressed, this, Res.bind_ok, Res.pure_eq, csr]
  rw [zip_flatMap_nz, degs_of_entries n ts _ (fun t _ d acc => by
    have := entries_nz t 0 d acc
    simpa using this)]

/-! ### Dense constructor -/

theorem setLoop_eq (g : Nat → Nat) (pre : List Nat) (n k : Nat) (hp : pre = (List.range pre.length).map g) :
    setLoop g (pre ++ List.replicate (n + k) 0) pre.length n
      = .ok ((List.range (pre.length + n)).map g ++ List.replicate k 0) := by
  induction n generalizing pre with
  | zero => simp [setLoop, ← hp]
  | succ n ih =>
    have e : n + 1 + k = (n + k) + 1 := by omega
    simp only [setLoop, e, setIdx_zeros rfl, Res.bind_ok]
    have := ih (pre ++ [g pre.length]) (by
      rw [List.length_append, List.length_singleton, List.range_succ, List.map_append, ← hp]
      simp)
    rw [List.length_append, List.length_singleton] at this
    rw [this]
    simp [Nat.add_assoc, Nat.add_comm 1 n]

theorem flatten_length (n : Nat) (ts : List (List Nat)) (hts : ∀ t ∈ ts, t.length = n) :
    ts.flatten.length = n * ts.length := by
  induction ts with
  | nil => simp
  | cons t ts ih =>
    simp [ih (fun t ht => hts t (by simp [ht])), hts t (by simp), Nat.mul_add, Nat.add_comm]

theorem zip_dense (n : Nat) (hn : 0 < n) (ts : List (List Nat)) (hts : ∀ t ∈ ts, t.length = n) :
    ((List.range (n * ts.length)).map (· % n)).zip ts.flatten
      = ts.flatMap fun t => (List.range' 0 t.length).zip t := by
  induction ts with
  | nil => simp
  | cons t ts ih =>
    have ht : t.length = n := hts t (by simp)
    have e : n * (t :: ts).length = n + n * ts.length := by simp [Nat.mul_add, Nat.add_comm]
    rw [e, List.range_add, List.map_append, List.flatten_cons, List.zip_append (by simp [ht]),
      List.flatMap_cons, List.map_map]
    congr 1
    · congr 1
      rw [← List.range_eq_range', ht]
      conv_rhs => rw [← List.map_id (List.range n)]
      apply List.map_congr_left
      intro a ha
      exact Nat.mod_eq_of_lt (List.mem_range.1 ha)
    · rw [← ih (fun t ht => hts t (by simp [ht]))]
      congr 1
      apply List.map_congr_left
      intro a _
      simp

theorem ofDense_dens (n : Nat) (hn : 0 < n) (ts : List (List Nat)) (hts : ∀ t ∈ ts, t.length = n) :
    ofDense n ts.flatten = .ok (dens n ts) := by
  have hl := flatten_length n ts hts
  have hdiv : ts.flatten.length / n = ts.length := by rw [hl]; exact Nat.mul_div_cancel_left _ hn
  have e1 := setLoop_eq (fun i => i * n) [] ts.length 1 rfl
  have e2 := setLoop_eq (fun i => i % n) [] (n * ts.length) 0 rfl
  simp only [List.nil_append, List.length_nil, Nat.zero_add, Nat.add_zero, List.replicate_zero,
    List.append_nil] at e1 e2
  have e3 := calcMaxDegrees_eq n ((List.range (n * ts.length)).map (· % n)) ts.flatten
    (by simp [hl]) (by
      intro d hd
      obtain ⟨a, _, rfl⟩ := List.mem_map.1 hd
      exact Nat.mod_lt _ hn)
  rw [zip_dense n hn ts hts, degs_of_entries n ts _ (fun t _ d acc => by
    have := entries_dense t 0 d acc
    simpa using this)] at e3
  have hn0 : n ≠ 0 := by omega
  simp only [ofDense, hn0, if_false, hdiv, e1, Res.bind_ok]
  rw [hl, e2]
  simp only [Res.bind_ok, e3, Res.pure_eq, dens]
  rfl

/-! ### IndexToMulti -/

theorem readLoop_nz (f : FixedSet) (t : List Nat) : ∀ (A B A' B' pre : List Nat) (k : Nat),
    k = pre.length → f.nzDims = A ++ nzI k t ++ B → f.nzOrders = A' ++ nzV t ++ B' →
    A'.length = A.length →
    readLoop f (pre ++ List.replicate t.length 0) A.length (nnz t) = .ok (pre ++ t) := by
  induction t with
  | nil => intros; simp [readLoop, nnz]
  | cons x xs ih =>
    intro A B A' B' pre k hk h1 h2 hA
    subst hk
    by_cases hx : x > 0
    · have hn : nnz (x :: xs) = nnz xs + 1 := by simp [nnz, List.countP_cons]; omega
      simp only [nzI, nzV, hx, if_true] at h1 h2
      have g1 : Res.idx f.nzDims A.length = .ok pre.length := by
        rw [h1]; simp only [List.append_assoc, List.cons_append]; exact idx_append rfl
      have g2 : Res.idx f.nzOrders A.length = .ok x := by
        rw [h2]; simp only [List.append_assoc, List.cons_append]; exact idx_append hA.symm
      have g3 : Res.setAt (pre ++ List.replicate (x :: xs).length 0) pre.length x
          = .ok ((pre ++ [x]) ++ List.replicate xs.length 0) := by
        rw [Res.setAt_lt (by simp)]
        simp [List.replicate_succ]
      simp only [hn, readLoop, g1, g2, g3, Res.bind_ok]
      have := ih (A ++ [pre.length]) B (A' ++ [x]) B' (pre ++ [x]) (pre.length + 1) (by simp)
        (by simp [h1]) (by simp [h2]) (by simp [hA])
      simpa using this
    · have hx0 : x = 0 := by omega
      subst hx0
      have hn : nnz (0 :: xs) = nnz xs := by simp [nnz]
      simp only [nzI, nzV, hx, if_false] at h1 h2
      have := ih A B A' B' (pre ++ [0]) (pre.length + 1) (by simp) h1 h2 hA
      rw [hn]
      simpa [List.replicate_succ] using this

theorem split_at {α : Type} {ts : List α} {i : Nat} {t : α} (h : ts[i]? = some t) :
    ∃ a b, ts = a ++ t :: b ∧ a.length = i := by
  obtain ⟨hlt, rfl⟩ := List.getElem?_eq_some_iff.1 h
  exact ⟨ts.take i, ts.drop (i + 1), by simp, by simp; omega⟩

theorem csr_starts (n : Nat) (a b : List (List Nat)) (t : List Nat) :
    Res.idx (csr n (a ++ t :: b)).nzStarts a.length = .ok (totNz a) ∧
    Res.idx (csr n (a ++ t :: b)).nzStarts (a.length + 1) = .ok (totNz a + nnz t) := by
  have e : (csr n (a ++ t :: b)).nzStarts
      = startsFrom 0 a ++ (totNz a :: (startsFrom (totNz a + nnz t) b ++ [totNz (a ++ t :: b)])) := by
    simp [csr, startsFrom_append, startsFrom]
  constructor
  · rw [e]; exact idx_append (by simp)
  · cases b with
    | nil =>
      have e' : (csr n (a ++ [t])).nzStarts = (startsFrom 0 a ++ [totNz a]) ++ [totNz a + nnz t] := by
        simp [csr, startsFrom_append, startsFrom, totNz_append]
      rw [e']
      exact idx_append (by simp)
    | cons u b =>
      have e' : (csr n (a ++ t :: u :: b)).nzStarts = (startsFrom 0 a ++ [totNz a]) ++
          (totNz a + nnz t) :: (startsFrom (totNz a + nnz t + nnz u) b ++ [totNz (a ++ t :: u :: b)]) := by
        simp [csr, startsFrom_append, startsFrom]
      rw [e']
      exact idx_append (by simp)

theorem csr_holds (n : Nat) (ts : List (List Nat)) (hts : ∀ t ∈ ts, t.length = n) :
    Holds (csr n ts) ts := by
  refine ⟨by simp [size, csr], fun i t h => ?_⟩
  obtain ⟨a, b, rfl, rfl⟩ := split_at h
  obtain ⟨h1, h2⟩ := csr_starts n a b t
  have hc : (csr n (a ++ t :: b)).isCompressed = true := rfl
  rw [indexToMulti, if_pos hc, h1, h2]
  simp only [Res.bind_ok, Nat.add_sub_cancel_left]
  have := readLoop_nz (csr n (a ++ t :: b)) t (a.flatMap (nzI 0)) (b.flatMap (nzI 0)) (a.flatMap nzV)
    (b.flatMap nzV) [] 0 rfl (by simp [csr]) (by simp [csr])
    (by rw [flatMap_nzI_length, flatMap_nzV_length])
  have hd : (csr n (a ++ t :: b)).dim = t.length := (hts t (by simp)).symm
  rw [hd]
  rw [flatMap_nzI_length] at this
  simpa using this

theorem flatten_get (n : Nat) (ts : List (List Nat)) (hts : ∀ t ∈ ts, t.length = n) {i d : Nat}
    {t : List Nat} (h : ts[i]? = some t) (hd : d < n) : ts.flatten[d + n * i]? = t[d]? := by
  obtain ⟨a, b, rfl, rfl⟩ := split_at h
  have hl := flatten_length n a (fun t ht => hts t (by simp [ht]))
  rw [List.flatten_append, List.getElem?_append_right (by omega), hl, List.flatten_cons]
  rw [List.getElem?_append_left (by rw [hts t (by simp)]; omega)]
  congr 1
  omega

theorem readDense_eq (f : FixedSet) (i : Nat) (rest : List Nat) : ∀ pre : List Nat,
    (∀ d, d < rest.length → f.nzOrders[(pre.length + d) + f.dim * i]? = rest[d]?) →
    readDense f i (pre ++ List.replicate rest.length 0) pre.length rest.length = .ok (pre ++ rest) := by
  induction rest with
  | nil => intro pre _; simp [readDense]
  | cons x xs ih =>
    intro pre h
    have g1 : Res.idx f.nzOrders (pre.length + f.dim * i) = .ok x :=
      Res.idx_some (by have := h 0 (by simp); simpa using this)
    have g3 : Res.setAt (pre ++ List.replicate (x :: xs).length 0) pre.length x
        = .ok ((pre ++ [x]) ++ List.replicate xs.length 0) := by
      rw [Res.setAt_lt (by simp)]
      simp [List.replicate_succ]
    rw [List.length_cons, readDense, g1, Res.bind_ok, ← List.length_cons (a := x), g3, Res.bind_ok]
    have := ih (pre ++ [x]) (by
      intro d hd
      have := h (d + 1) (by simpa using hd)
      simpa [Nat.add_assoc, Nat.add_comm 1 d] using this)
    simpa using this

theorem dens_holds (n : Nat) (hn : 0 < n) (ts : List (List Nat)) (hts : ∀ t ∈ ts, t.length = n) :
    Holds (dens n ts) ts := by
  have hl := flatten_length n ts hts
  have hn0 : n ≠ 0 := by omega
  refine ⟨by simp [size, dens, hn0, hl, Nat.mul_div_cancel_left _ hn], fun i t h => ?_⟩
  have ht : t.length = n := hts t (List.mem_of_getElem? h)
  have := readDense_eq (dens n ts) i t [] (by
    intro d hd
    have := flatten_get n ts hts h (d := d) (by omega)
    simpa [dens] using this)
  have hd : (dens n ts).dim = t.length := ht.symm
  simp only [indexToMulti, hd]
  simpa [dens] using this

/-! ### Fix -/

theorem fixNz_eq (is : List Nat) : ∀ (vs pd po : List Nat) (k : Nat), is.length = vs.length →
    po.length = pd.length →
    MISet.fixNz (pd ++ List.replicate (is.length + k) 0) (po ++ List.replicate (is.length + k) 0)
      pd.length is vs = .ok (pd ++ is ++ List.replicate k 0, po ++ vs ++ List.replicate k 0) := by
  induction is with
  | nil =>
    intro vs pd po k h hp
    have : vs = [] := by simpa using h.symm
    subst this
    simp [MISet.fixNz]
  | cons i is ih =>
    intro vs pd po k h hp
    match vs, h with
    | v :: vs, h =>
      have e : (i :: is).length + k = (is.length + k) + 1 := by simp; omega
      simp only [MISet.fixNz, e, setIdx_zeros rfl, setIdx_zeros hp.symm, Res.bind_ok,
        show Res.idx (v :: vs) 0 = .ok v from rfl, List.tail_cons]
      have := ih vs (pd ++ [i]) (po ++ [v]) k (by simpa using h) (by simp [hp])
      rw [List.length_append, List.length_singleton] at this
      rw [this]
      simp

theorem fixLoop_eq (s : MISet) (rs : List (List Nat)) : ∀ (gs : List Nat) (done : List (List Nat)),
    gs.map (fun g => s.allMultis[g]?) = rs.map (fun t => some (ofVec t)) →
    MISet.fixLoop s (startsFrom 0 done ++ List.replicate (rs.length + 1) 0)
      (done.flatMap (nzI 0) ++ List.replicate (totNz rs) 0)
      (done.flatMap nzV ++ List.replicate (totNz rs) 0) done.length (totNz done) gs
      = .ok (startsFrom 0 (done ++ rs) ++ [0], (done ++ rs).flatMap (nzI 0), (done ++ rs).flatMap nzV) := by
  induction rs with
  | nil =>
    intro gs done h
    have : gs = [] := by simpa using h
    subst this
    simp [MISet.fixLoop]
  | cons t rs ih =>
    intro gs done h
    match gs, h with
    | g :: gs, h =>
      simp only [List.map_cons, List.cons.injEq] at h
      have e1 : (t :: rs).length + 1 = (rs.length + 1) + 1 := by simp
      have e2 := fixNz_eq (nzI 0 t) (nzV t) (done.flatMap (nzI 0)) (done.flatMap nzV) (totNz rs)
        (by rw [nzI_length, nzV_length]) (by rw [flatMap_nzI_length, flatMap_nzV_length])
      rw [nzI_length, flatMap_nzI_length] at e2
      simp only [MISet.fixLoop, Res.at'_some h.1, Res.bind_ok, e1, totNz_cons,
        setIdx_zeros (startsFrom_length 0 done).symm, ofVec_nzInds, ofVec_nzVals, e2]
      have := ih gs (done ++ [t]) h.2
      have hn : (ofVec t).numNz = nnz t := by simp [numNz, nzI_length, nzV_length]
      simp only [startsFrom_append, startsFrom, totNz_append, totNz_cons, totNz_nil, List.flatMap_append,
        List.flatMap_cons, List.flatMap_nil, List.append_nil, Nat.zero_add, Nat.add_zero,
        List.length_append, List.length_singleton, List.append_assoc, List.singleton_append] at this
      rw [hn]
      simp only [List.append_assoc, List.singleton_append, List.cons_append, List.nil_append]
      rw [this]
      simp [startsFrom_append, startsFrom]

theorem totalNnz_eq (s : MISet) (rs : List (List Nat)) : ∀ gs : List Nat,
    gs.map (fun g => s.allMultis[g]?) = rs.map (fun t => some (ofVec t)) →
    MISet.totalNnz s gs = .ok (totNz rs) := by
  induction rs with
  | nil =>
    intro gs h
    have : gs = [] := by simpa using h
    subst this
    rfl
  | cons t rs ih =>
    intro gs h
    match gs, h with
    | g :: gs, h =>
      simp only [List.map_cons, List.cons.injEq] at h
      simp [MISet.totalNnz, Res.at'_some h.1, ih gs h.2, numNz, nzI_length, nzV_length]

theorem fixDenseRow_eq (len i : Nat) (rest : List Nat) : ∀ (m : List Nat) (pre A : List Nat) (k : Nat),
    m = pre ++ rest → A.length = pre.length + i * len →
    MISet.fixDenseRow (A ++ List.replicate (rest.length + k) 0) m len i pre.length rest.length
      = .ok (A ++ rest ++ List.replicate k 0) := by
  induction rest with
  | nil => intros; simp [MISet.fixDenseRow]
  | cons x xs ih =>
    intro m pre A k hm hA
    have e : (x :: xs).length + k = (xs.length + k) + 1 := by simp; omega
    have g : Res.at' m pre.length = .ok x := Res.at'_some (by simp [hm])
    rw [e, List.length_cons, MISet.fixDenseRow, g, Res.bind_ok, setIdx_zeros hA.symm, Res.bind_ok]
    have := ih m (pre ++ [x]) (A ++ [x]) k (by simp [hm]) (by simp [hA]; omega)
    rw [List.length_append, List.length_singleton] at this
    rw [this]
    simp

theorem fixDenseLoop_eq (s : MISet) (rs : List (List Nat)) : ∀ (done : List (List Nat)),
    (∀ t ∈ done ++ rs, t.length = s.length) →
    (∀ (i : Nat) (t : List Nat), (done ++ rs)[i]? = some t → s.indexToMulti i = .ok (ofVec t)) →
    MISet.fixDenseLoop s (done.flatten ++ List.replicate (s.length * rs.length) 0) done.length rs.length
      = .ok (done ++ rs).flatten := by
  induction rs with
  | nil => intros; simp [MISet.fixDenseLoop]
  | cons t rs ih =>
    intro done hl h
    have ht : t.length = s.length := hl t (by simp)
    have g := h done.length t (by simp)
    have e : s.length * (t :: rs).length = t.length + s.length * rs.length := by
      rw [ht]; simp [Nat.mul_add, Nat.add_comm]
    have r := fixDenseRow_eq s.length done.length t t [] done.flatten (s.length * rs.length) rfl
      (by rw [flatten_length s.length done (fun t ht => hl t (by simp [ht]))]; simp [Nat.mul_comm])
    rw [← e, List.length_nil, ht] at r
    rw [List.length_cons, MISet.fixDenseLoop, g, Res.bind_ok, vector_ofVec, Res.bind_ok,
      ← List.length_cons (a := t), r, Res.bind_ok]
    have := ih (done ++ [t]) (by simpa using hl) (by simpa using h)
    simpa using this

theorem Inv_multis {F : Prop} {s : MISet} {vs : List (List Nat)} {R : Nat → Nat → Prop}
    {ts : List (List Nat)} (h : MISet.Inv F s vs R ts) :
    s.active2global.map (fun g => s.allMultis[g]?) = ts.map (fun t => some (ofVec t)) := by
  apply List.ext_getElem
  · simpa using h.size
  · intro i h1 h2
    have hi : i < s.active2global.length := by simpa using h1
    obtain ⟨t, e1, e2⟩ := h.term_at (i := i) (g := s.active2global[i]) (by simp [hi])
    obtain ⟨hlt, e3⟩ := List.getElem?_eq_some_iff.1 e2
    have := h.base.at_multis e1
    simp only [Res.at'] at this
    split at this
    · rename_i a ha
      simp [ha, e3, Res.ok.inj this]
    · cases this

theorem terms_length {b : Bool} {s : MISet} (h : MISet.Reach b s) {ts : List (List Nat)}
    (ht : MISet.Terms s ts) : ∀ t ∈ ts, t.length = s.length := by
  obtain ⟨vs, R, hi, _⟩ := h.inv ht
  intro t hm
  obtain ⟨i, hi'⟩ := List.getElem?_of_mem hm
  obtain ⟨g, _, hv⟩ := hi.a2g_at hi'
  exact hi.base.len t (List.mem_of_getElem? hv)

theorem fix_csr {b : Bool} {s : MISet} (h : MISet.Reach b s) {ts : List (List Nat)}
    (ht : MISet.Terms s ts) : s.fix true = .ok (csr s.length ts) := by
  obtain ⟨vs, R, hi, _⟩ := h.inv ht
  have hm := Inv_multis hi
  have hs : s.size = ts.length := ht.1
  have e := fixLoop_eq s ts s.active2global [] hm
  simp only [startsFrom, List.nil_append, List.flatMap_nil, List.length_nil, totNz_nil] at e
  simp only [MISet.fix, if_true, totalNnz_eq s ts _ hm, Res.bind_ok, hs, e]
  rw [setIdx_append (by simp)]
  exact ofCompressed_csr s.length ts (terms_length h ht)

theorem fix_dens {b : Bool} {s : MISet} (h : MISet.Reach b s) (hn : 0 < s.length)
    {ts : List (List Nat)} (ht : MISet.Terms s ts) : s.fix false = .ok (dens s.length ts) := by
  have hs : s.size = ts.length := ht.1
  have e := fixDenseLoop_eq s ts [] (by simpa using terms_length h ht) (by simpa using ht.2)
  simp only [List.flatten_nil, List.nil_append, List.length_nil] at e
  simp only [MISet.fix, hs, e, Res.bind_ok, Bool.false_eq_true, if_false]
  exact ofDense_dens s.length hn ts (terms_length h ht)

/-! ### MultiToIndex -/

theorem nnz_cons (x : Nat) (xs : List Nat) : nnz (x :: xs) = nnz xs + if x = 0 then 0 else 1 := by
  by_cases h : x = 0 <;> simp [nnz, h]

/-- All entries of the support of `t` agree with `m`. -/
theorem matchLoop_eq (f : FixedSet) (t : List Nat) : ∀ (m pre A B A' B' : List Nat) (k : Nat),
    k = pre.length → f.nzDims = A ++ nzI k t ++ B → f.nzOrders = A' ++ nzV t ++ B' →
    A'.length = A.length → m.length = t.length → 
    ∃ r, matchLoop f (pre ++ m) A.length (nnz t) = .ok r ∧
      (r = true → nnz t ≤ nnz m ∧ (nnz t = nnz m → m = t)) ∧ (m = t → r = true) := by
  induction t with
  | nil =>
    intro m pre A B A' B' k _ _ _ _ hm
    have : m = [] := by simpa using hm
    subst this
    exact ⟨true, by simp [matchLoop, nnz], by simp, by simp⟩
  | cons x xs ih =>
    intro m pre A B A' B' k hk h1 h2 hA hm
    subst hk
    match m, hm with
    | y :: ys, hm =>
    have hm' : ys.length = xs.length := by simpa using hm
    by_cases hx : x > 0
    · have hn : nnz (x :: xs) = nnz xs + 1 := by rw [nnz_cons, if_neg (by omega)]
      simp only [nzI, nzV, hx, if_true] at h1 h2
      have g1 : Res.idx f.nzDims A.length = .ok pre.length := by
        rw [h1]; simp only [List.append_assoc, List.cons_append]; exact idx_append rfl
      have g2 : Res.idx f.nzOrders A.length = .ok x := by
        rw [h2]; simp only [List.append_assoc, List.cons_append]; exact idx_append hA.symm
      have g3 : Res.at' (pre ++ y :: ys) pre.length = .ok y := Res.at'_some (by simp)
      rw [hn]
      simp only [matchLoop, g1, g2, g3, Res.bind_ok]
      by_cases hxy : x = y
      · subst hxy
        obtain ⟨r, e, p1, p2⟩ := ih ys (pre ++ [x]) (A ++ [pre.length]) B (A' ++ [x]) B'
          (pre.length + 1) (by simp) (by simp [h1]) (by simp [h2]) (by simp [hA]) hm'
        refine ⟨r, ?_, ?_, ?_⟩
        · rw [if_neg (by simp)]; simpa using e
        · intro hr
          have := p1 hr
          rw [nnz_cons, if_neg (by omega)]
          refine ⟨by omega, fun hh => ?_⟩
          rw [this.2 (by omega)]
        · intro hh; exact p2 (by simpa using hh)
      · refine ⟨false, by rw [if_pos hxy]; rfl, by simp, ?_⟩
        intro hh; exact absurd (by simp at hh; exact hh.1.symm) hxy
    · have hx0 : x = 0 := by omega
      subst hx0
      have hn : nnz (0 :: xs) = nnz xs := by simp [nnz_cons]
      simp only [nzI, nzV, hx, if_false] at h1 h2
      obtain ⟨r, e, p1, p2⟩ := ih ys (pre ++ [y]) A B A' B' (pre.length + 1) (by simp) h1 h2 hA hm'
      refine ⟨r, ?_, ?_, ?_⟩
      · rw [hn]; simpa using e
      · intro hr
        have := p1 hr
        rw [hn, nnz_cons]
        by_cases hy : y = 0
        · subst hy
          exact ⟨by simpa using this.1, fun hh => by rw [this.2 (by simpa using hh)]⟩
        · rw [if_neg hy]
          exact ⟨by omega, fun hh => by omega⟩
      · intro hh; exact p2 (by simp at hh; exact hh.2)

theorem countP_pos_nnz (m : List Nat) : m.countP (fun x => decide (x > 0)) = nnz m := by
  unfold nnz
  congr 1
  funext x
  simp [Nat.pos_iff_ne_zero]

theorem searchLoop_eq (n : Nat) (m : List Nat) (hm : m.length = n) (rest : List (List Nat)) :
    ∀ (done : List (List Nat)), (∀ t ∈ rest, t.length = n) →
    searchLoop (csr n (done ++ rest)) m (nnz m) done.length (rest.length + 1) =
      match rest.findIdx? (· == m) with
      | some i => .ok (some (done.length + i))
      | none => .ub := by
  induction rest with
  | nil =>
    intro done _
    have : Res.idx (csr n (done ++ [])).nzStarts (done.length + 1) = .ub := by
      simp [Res.idx, csr, startsFrom]
    rw [List.length_nil, searchLoop, this]
    rfl
  | cons t rest ih =>
    intro done hl
    obtain ⟨h1, h2⟩ := csr_starts n done rest t
    rw [List.length_cons, searchLoop, h1, h2]
    simp only [Res.bind_ok, Nat.add_sub_cancel_left]
    have hne : m ≠ t → searchLoop (csr n (done ++ t :: rest)) m (nnz m) (done.length + 1)
        (rest.length + 1) = match (t :: rest).findIdx? (· == m) with
          | some i => .ok (some (done.length + i))
          | none => .ub := by
      intro hmt
      have := ih (done ++ [t]) (fun u hu => hl u (by simp [hu]))
      rw [List.length_append, List.length_singleton, List.append_assoc, List.singleton_append] at this
      rw [this, List.findIdx?_cons]
      have : (t == m) = false := by simpa using fun h => hmt h.symm
      rw [this]
      cases rest.findIdx? (· == m) with
      | none => rfl
      | some i => simp [Nat.add_assoc, Nat.add_comm 1 i]
    obtain ⟨r, e, p1, p2⟩ := matchLoop_eq (csr n (done ++ t :: rest)) t m [] (done.flatMap (nzI 0))
      (rest.flatMap (nzI 0)) (done.flatMap nzV) (rest.flatMap nzV) 0 rfl (by simp [csr]) (by simp [csr])
      (by rw [flatMap_nzI_length, flatMap_nzV_length]) (by rw [hm, hl t (by simp)])
    rw [flatMap_nzI_length, List.nil_append] at e
    by_cases hnz : nnz t = nnz m
    · rw [if_pos hnz, e]
      simp only [Res.bind_ok]
      cases r with
      | true =>
        have : m = t := (p1 rfl).2 hnz
        subst this
        simp [List.findIdx?_cons]
      | false =>
        rw [if_neg (by simp)]
        exact hne fun h => by simpa using p2 h
    · rw [if_neg hnz]
      exact hne fun h => hnz (by rw [h])

theorem csr_multiToIndex (n : Nat) (ts : List (List Nat)) (hts : ∀ t ∈ ts, t.length = n)
    (m : List Nat) (hm : m.length = n) : (csr n ts).multiToIndex m =
      match ts.findIdx? (· == m) with
      | some i => .ok (some i)
      | none => .ub := by
  have := searchLoop_eq n m hm ts [] hts
  simp only [List.nil_append, List.length_nil, Nat.zero_add] at this
  rw [multiToIndex, if_pos (show (csr n ts).isCompressed = true from rfl), countP_pos_nnz]
  have hl : (csr n ts).nzStarts.length = ts.length + 1 := by simp [csr]
  rw [hl]
  exact this

theorem denseMatch_eq (f : FixedSet) (i : Nat) (rest : List Nat) : ∀ (m pre : List Nat),
    m.length = rest.length →
    (∀ d, d < rest.length → f.nzOrders[(pre.length + d) + i * f.dim]? = rest[d]?) →
    denseMatch f (pre ++ m) i pre.length rest.length = .ok (decide (m = rest)) := by
  induction rest with
  | nil =>
    intro m pre hm _
    have : m = [] := by simpa using hm
    subst this
    simp [denseMatch]
  | cons x xs ih =>
    intro m pre hm h
    match m, hm with
    | y :: ys, hm =>
      have g1 : Res.idx f.nzOrders (pre.length + i * f.dim) = .ok x :=
        Res.idx_some (by have := h 0 (by simp); simpa using this)
      have g2 : Res.at' (pre ++ y :: ys) pre.length = .ok y := Res.at'_some (by simp)
      simp only [List.length_cons, denseMatch, g1, g2, Res.bind_ok]
      by_cases hxy : y = x
      · subst hxy
        rw [if_neg (by simp)]
        have := ih ys (pre ++ [y]) (by simpa using hm) (by
          intro d hd
          have := h (d + 1) (by simpa using hd)
          simpa [Nat.add_assoc, Nat.add_comm 1 d] using this)
        simpa using this
      · simp [hxy]

theorem denseSearch_eq (n : Nat) (m : List Nat) (hm : m.length = n) (rest : List (List Nat)) :
    ∀ (done : List (List Nat)), (∀ t ∈ done ++ rest, t.length = n) →
    denseSearch (dens n (done ++ rest)) m done.length rest.length
      = .ok ((rest.findIdx? (· == m)).map (done.length + ·)) := by
  induction rest with
  | nil => intro done _; simp [denseSearch]
  | cons t rest ih =>
    intro done hl
    have ht : t.length = n := hl t (by simp)
    have e := denseMatch_eq (dens n (done ++ t :: rest)) done.length t m [] (by omega) (by
      intro d hd
      have := flatten_get n (done ++ t :: rest) hl (i := done.length) (t := t) (by simp) (d := d) (by omega)
      simpa [dens, Nat.mul_comm] using this)
    have hd : (dens n (done ++ t :: rest)).dim = t.length := ht.symm
    rw [List.length_cons, denseSearch, hd]
    rw [List.nil_append, List.length_nil] at e
    rw [e]
    simp only [Res.bind_ok]
    by_cases h : m = t
    · subst h; simp [List.findIdx?_cons]
    · have := ih (done ++ [t]) (by simpa using hl)
      rw [List.length_append, List.length_singleton, List.append_assoc, List.singleton_append] at this
      rw [if_neg (by simpa using h), this, List.findIdx?_cons]
      have : (t == m) = false := by simpa using fun h' => h h'.symm
      rw [this]
      cases rest.findIdx? (· == m) with
      | none => rfl
      | some i => simp [Nat.add_assoc, Nat.add_comm 1 i]

theorem dens_multiToIndex (n : Nat) (hn : 0 < n) (ts : List (List Nat)) (hts : ∀ t ∈ ts, t.length = n)
    (m : List Nat) (hm : m.length = n) :
    (dens n ts).multiToIndex m = .ok (ts.findIdx? (· == m)) := by
  have := denseSearch_eq n m hm ts [] (by simpa using hts)
  have hs := (dens_holds n hn ts hts).1
  simp only [multiToIndex, hs, Res.bind_ok]
  simpa [dens] using this

/-! ### Total order constructor -/

open MISet in
theorem sizeLoop_eq (g : Nat → List (List Nat)) (b : Nat) (rec' : Nat → Nat × Nat)
    (vals : List Nat) (h : ∀ i ∈ vals, rec' (b - i) = ((g i).length, totNz (g i))) : ∀ acc,
    sizeLoop rec' b acc vals
      = (acc.1 + (vals.flatMap fun i => (g i).map (i :: ·)).length,
         acc.2 + totNz (vals.flatMap fun i => (g i).map (i :: ·))) := by
  induction vals with
  | nil => intro acc; simp [sizeLoop]
  | cons i is ih =>
    intro acc
    have hm : totNz ((g i).map (i :: ·)) = totNz (g i) + if i > 0 then (g i).length else 0 := by
      induction g i with
      | nil => simp
      | cons t ts ih =>
        rw [List.map_cons, totNz_cons, ih, nnz_cons, totNz_cons]
        by_cases hi : i = 0
        · subst hi; simp
        · have : i > 0 := by omega
          simp [hi, this]; omega
    rw [sizeLoop, h i (by simp), ih (fun j hj => h j (by simp [hj]))]
    rw [List.flatMap_cons, totNz_append, hm, List.length_append, List.length_map]
    simp only [Prod.mk.injEq]
    omega

open MISet in
theorem totalOrderSize_eq (rem : Nat) : ∀ b,
    totalOrderSize rem b = ((toEnum (rem + 1) b).length, totNz (toEnum (rem + 1) b)) := by
  induction rem with
  | zero =>
    intro b
    have h1 : toEnum 1 b = (List.range (b + 1)).map fun i => [i] := by
      simp [toEnum, List.map_eq_flatMap]
    rw [h1]
    have : ∀ k, totNz ((List.range (k + 1)).map fun i => [i]) = k := by
      intro k
      induction k with
      | zero => simp [nnz]
      | succ k ih =>
        rw [List.range_succ, List.map_append, totNz_append, ih]
        simp [nnz]
    simp [totalOrderSize, this]
  | succ rem ih =>
    intro b
    rw [totalOrderSize, sizeLoop_eq (fun i => toEnum (rem + 1) (b - i)) b _ _ (fun i _ => ih (b - i))]
    simp [toEnum]

/-- State of the fill after the vectors `done`, with `a` unused start slots and `c` unused value
slots; the workspace begins with `pre`. -/
def FS (dim : Nat) (pre : List Nat) (done : List (List Nat)) (a c : Nat) (st : Fill) : Prop :=
  st.starts = startsFrom 0 done ++ List.replicate a 0 ∧
  st.dims = done.flatMap (nzI 0) ++ List.replicate c 0 ∧
  st.orders = done.flatMap nzV ++ List.replicate c 0 ∧
  st.currTerm = done.length ∧ st.currNz = totNz done ∧
  ∃ tail, st.workspace = pre ++ tail ∧ (pre ++ tail).length = dim

theorem copyNz_eq (rest : List Nat) : ∀ (pre pd po : List Nat) (c : Nat) (st : Fill),
    st.workspace = pre ++ rest → st.dims = pd ++ List.replicate (nnz rest + c) 0 →
    st.orders = po ++ List.replicate (nnz rest + c) 0 → st.currNz = pd.length → po.length = pd.length →
    copyNz st pre.length rest.length = .ok { st with
      dims := pd ++ nzI pre.length rest ++ List.replicate c 0
      orders := po ++ nzV rest ++ List.replicate c 0
      currNz := st.currNz + nnz rest } := by
  induction rest with
  | nil =>
    intro pre pd po c st h1 h2 h3 h4 h5
    simp only [nnz, List.countP_nil, Nat.zero_add] at h2 h3
    simp [copyNz, nzI, nzV, nnz, ← h2, ← h3]
  | cons x xs ih =>
    intro pre pd po c st h1 h2 h3 h4 h5
    have g : Res.idx st.workspace pre.length = .ok x := by rw [h1]; exact idx_append rfl
    by_cases hx : x > 0
    · have hn : nnz (x :: xs) = nnz xs + 1 := by rw [nnz_cons, if_neg (by omega)]
      have e : nnz (x :: xs) + c = (nnz xs + c) + 1 := by omega
      rw [e] at h2 h3
      have g2 : Res.setIdx st.dims st.currNz pre.length
          = .ok (pd ++ [pre.length] ++ List.replicate (nnz xs + c) 0) := by
        rw [h2]; exact setIdx_zeros h4
      have g3 : Res.setIdx st.orders st.currNz x = .ok (po ++ [x] ++ List.replicate (nnz xs + c) 0) := by
        rw [h3]; exact setIdx_zeros (by rw [h4, h5])
      simp only [List.length_cons, copyNz, g, Res.bind_ok, hx, if_true, g2, g3]
      have := ih (pre ++ [x]) (pd ++ [pre.length]) (po ++ [x]) c
        { st with dims := pd ++ [pre.length] ++ List.replicate (nnz xs + c) 0
                  orders := po ++ [x] ++ List.replicate (nnz xs + c) 0, currNz := st.currNz + 1 }
        (by simp [h1]) rfl rfl (by simp [h4]) (by simp [h5])
      rw [List.length_append, List.length_singleton] at this
      rw [this]
      simp [nzI, nzV, hx, hn, Nat.add_assoc, Nat.add_comm 1]
    · have hx0 : x = 0 := by omega
      subst hx0
      have hn : nnz (0 :: xs) = nnz xs := by simp [nnz_cons]
      rw [hn] at h2 h3
      simp only [List.length_cons, copyNz, g, Res.bind_ok, hx, if_false]
      have := ih (pre ++ [0]) pd po c st (by simp [h1]) h2 h3 h4 h5
      rw [List.length_append, List.length_singleton] at this
      rw [this]
      simp [nzI, nzV, hn]

theorem fillLast_fs (dim : Nat) (pre : List Nat) (hpre : pre.length + 1 = dim) (vals : List Nat) :
    ∀ (done : List (List Nat)) (a c : Nat) (st : Fill),
    FS dim pre done (vals.length + a) (totNz (vals.map fun i => pre ++ [i]) + c) st →
    ∃ st', fillLast dim pre.length st vals = .ok st' ∧
      FS dim pre (done ++ vals.map fun i => pre ++ [i]) a c st' := by
  induction vals with
  | nil =>
    intro done a c st h
    exact ⟨st, rfl, by simpa using h⟩
  | cons i is ih =>
    intro done a c st h
    obtain ⟨h1, h2, h3, h4, h5, tail, h6, h7⟩ := h
    have htl : tail.length = 1 := by simp at h7; omega
    match tail, htl with
    | [x], _ =>
    have g1 : Res.setIdx st.workspace pre.length i = .ok (pre ++ [i]) := by
      rw [h6]; exact setIdx_append rfl
    have ea : (i :: is).length + a = (is.length + a) + 1 := by simp; omega
    have g2 : Res.setIdx st.starts st.currTerm st.currNz
        = .ok (startsFrom 0 done ++ [st.currNz] ++ List.replicate (is.length + a) 0) := by
      rw [h1, ea]; exact setIdx_zeros (by simp [h4])
    have g3 := copyNz_eq (pre ++ [i]) [] (done.flatMap (nzI 0)) (done.flatMap nzV)
      (totNz (is.map fun i => pre ++ [i]) + c)
      { st with workspace := pre ++ [i]
                starts := startsFrom 0 done ++ [st.currNz] ++ List.replicate (is.length + a) 0 }
      rfl (by rw [← Nat.add_assoc]; simpa using h2) (by rw [← Nat.add_assoc]; simpa using h3)
      (by rw [flatMap_nzI_length]; exact h5) (by rw [flatMap_nzI_length, flatMap_nzV_length])
    rw [show (pre ++ [i]).length = dim by simp [hpre], List.length_nil] at g3
    simp only [fillLast, g1, g2, g3, Res.bind_ok]
    have hdone : (done ++ (i :: is).map fun i => pre ++ [i])
        = (done ++ [pre ++ [i]]) ++ is.map fun i => pre ++ [i] := by simp
    rw [hdone]
    refine ih (done ++ [pre ++ [i]]) a c _ ⟨?_, ?_, ?_, ?_, ?_, [i], rfl, by simp [hpre]⟩
    · simp [startsFrom_append, startsFrom, h5]
    · simp
    · simp
    · simp [h4]
    · simp [h5, totNz_append]

theorem fillInner_fs (dim : Nat) (pre : List Nat) (hpre : pre.length < dim) (b : Nat)
    (rec' : Nat → Fill → Res Fill) (E : Nat → List (List Nat)) (vals : List Nat)
    (hrec : ∀ i ∈ vals, ∀ (done : List (List Nat)) (a c : Nat) (st : Fill),
      FS dim (pre ++ [i]) done ((E i).length + a) (totNz ((E i).map ((pre ++ [i]) ++ ·)) + c) st →
      ∃ st', rec' (b - i) st = .ok st' ∧ FS dim (pre ++ [i]) (done ++ (E i).map ((pre ++ [i]) ++ ·)) a c st') :
    ∀ (done : List (List Nat)) (a c : Nat) (st : Fill),
    FS dim pre done ((vals.flatMap fun i => (E i).map (i :: ·)).length + a)
      (totNz ((vals.flatMap fun i => (E i).map (i :: ·)).map (pre ++ ·)) + c) st →
    ∃ st', fillInner rec' pre.length b st vals = .ok st' ∧
      FS dim pre (done ++ (vals.flatMap fun i => (E i).map (i :: ·)).map (pre ++ ·)) a c st' := by
  induction vals with
  | nil =>
    intro done a c st h
    exact ⟨st, rfl, by simpa using h⟩
  | cons i is ih =>
    intro done a c st h
    have em : ((E i).map (i :: ·)).map (pre ++ ·) = (E i).map ((pre ++ [i]) ++ ·) := by
      simp [List.map_map, Function.comp_def]
    rw [List.flatMap_cons, List.map_append, em, totNz_append, List.length_append, List.length_map,
      Nat.add_assoc, Nat.add_assoc] at h
    obtain ⟨h1, h2, h3, h4, h5, tail, h6, h7⟩ := h
    match tail, h6, h7 with
    | [], h6, h7 => simp at h7; omega
    | x :: tail, h6, h7 =>
    have g1 : Res.setIdx st.workspace pre.length i = .ok (pre ++ i :: tail) := by
      rw [h6]; exact setIdx_append rfl
    simp only [fillInner, g1, Res.bind_ok]
    obtain ⟨st1, e1, f1⟩ := hrec i (by simp) done _ _ { st with workspace := pre ++ i :: tail }
      ⟨h1, h2, h3, h4, h5, tail, by simp, by simpa using h7⟩
    obtain ⟨q1, q2, q3, q4, q5, tail', q6, q7⟩ := f1
    obtain ⟨st2, e2, f2⟩ := ih (fun j hj => hrec j (by simp [hj])) _ a c st1
      ⟨q1, q2, q3, q4, q5, i :: tail', by simp [q6], by simpa using q7⟩
    refine ⟨st2, by rw [e1]; exact e2, ?_⟩
    rw [List.flatMap_cons, List.map_append, em]
    simpa using f2

open MISet in
theorem fillTotalOrder_fs (dim : Nat) (rem : Nat) : ∀ (pre : List Nat), pre.length + rem + 1 = dim →
    ∀ (b : Nat) (done : List (List Nat)) (a c : Nat) (st : Fill),
    FS dim pre done ((toEnum (rem + 1) b).length + a) (totNz ((toEnum (rem + 1) b).map (pre ++ ·)) + c) st →
    ∃ st', fillTotalOrder dim rem pre.length b st = .ok st' ∧
      FS dim pre (done ++ (toEnum (rem + 1) b).map (pre ++ ·)) a c st' := by
  induction rem with
  | zero =>
    intro pre hpre b done a c st h
    have h1 : toEnum 1 b = (List.range (b + 1)).map fun i => [i] := by
      simp [toEnum, List.map_eq_flatMap]
    rw [h1] at h ⊢
    have := fillLast_fs dim pre (by omega) (List.range (b + 1)) done a c st
      (by simpa [List.map_map, Function.comp_def] using h)
    simpa [List.map_map, Function.comp_def, fillTotalOrder] using this
  | succ rem ih =>
    intro pre hpre b done a c st h
    rw [fillTotalOrder]
    refine fillInner_fs dim pre (by omega) b _ (fun i => toEnum (rem + 1) (b - i)) _ ?_ done a c st h
    intro i _ done a c st h
    have := ih (pre ++ [i]) (by simp; omega) (b - i) done a c st h
    rw [List.length_append, List.length_singleton] at this
    exact this

open MISet in
theorem totalOrder_csr (n : Nat) (hn : 0 < n) (p : Nat) : totalOrder n p = .ok (csr n (toEnum n p)) := by
  obtain ⟨m, rfl⟩ : ∃ m, n = m + 1 := ⟨n - 1, by omega⟩
  have hn0 : m + 1 ≠ 0 := by omega
  simp only [totalOrder, hn0, if_false, Nat.add_sub_cancel, totalOrderSize_eq]
  obtain ⟨st, e, h1, h2, h3, h4, h5, -⟩ := fillTotalOrder_fs (m + 1) m [] (by simp) p [] 1 0
    { starts := List.replicate ((toEnum (m + 1) p).length + 1) 0
      dims := List.replicate (totNz (toEnum (m + 1) p)) 0
      orders := List.replicate (totNz (toEnum (m + 1) p)) 0
      workspace := List.replicate (m + 1) 0, currTerm := 0, currNz := 0 }
    ⟨by simp [startsFrom], by simp, by simp, rfl, rfl, List.replicate (m + 1) 0, by simp, by simp⟩
  simp only [List.length_nil, List.nil_append, List.map_id', List.replicate_zero, List.append_nil,
    List.replicate_one] at e h1 h2 h3 h4 h5
  rw [e]
  simp only [Res.bind_ok]
  rw [h1, setIdx_append (by simp [h4]), h5, h2, h3]
  simp only [Res.bind_ok]
  exact ofCompressed_csr (m + 1) _ fun t ht => ((mem_toEnum _ _ _).1 ht).1

open MISet in
theorem toEnum_length (n : Nat) : ∀ b, (toEnum n b).length = (n + b).choose n := by
  induction n with
  | zero => intro b; simp [toEnum]
  | succ n ih =>
    intro b
    have hs : ∀ b, (toEnum (n + 1) b).length = ((List.range (b + 1)).map fun i => (n + (b - i)).choose n).sum := by
      intro b
      simp [toEnum, ih, List.length_flatMap]
    rw [hs]
    induction b with
    | zero => simp
    | succ b ihb =>
      rw [List.range_succ_eq_map, List.map_cons, List.map_map, List.sum_cons]
      have e : ((List.range (b + 1)).map ((fun i => (n + (b + 1 - i)).choose n) ∘ Nat.succ))
          = (List.range (b + 1)).map fun i => (n + (b - i)).choose n := by
        apply List.map_congr_left
        intro i _
        simp only [Function.comp]
        congr 2
        omega
      rw [e, ihb]
      have := Nat.choose_succ_succ (n + 1 + b) n
      have e1 : n + (b + 1 - 0) = n + 1 + b := by omega
      have e2 : n + 1 + (b + 1) = (n + 1 + b).succ := by omega
      rw [e1, e2, this]

end FixedSet
end MParT
