import Verif.Model.Expansion
import Verif.Lemmas.FixedSet
import Verif.Spec.Expansion
import Mathlib.Algebra.BigOperators.Intervals
import Mathlib.Algebra.BigOperators.Ring.Finset
import Mathlib.Tactic.Ring
/-! Helper lemmas for the expansion worker. -/
namespace MParT
namespace Worker
open MultiIndex Spec FixedSet Finset

variable {K : Type}

/-! ### Layout -/

/-- Degree of cache block `p`. -/
def dg (D : Nat) (md : List Nat) (p : Nat) : Nat := md.getD (if p < 2 * D then p % D else D - 1) 0

/-- Start of cache block `p`. -/
def st (D : Nat) (md : List Nat) (p : Nat) : Nat := ∑ j ∈ range p, (dg D md j + 1)

theorem st_succ (D : Nat) (md : List Nat) (p : Nat) : st D md (p + 1) = st D md p + (dg D md p + 1) := by
  simp [st, sum_range_succ]

theorem st_mono (D : Nat) (md : List Nat) {p q : Nat} (h : p < q) :
    st D md p + dg D md p < st D md q := by
  induction q with
  | zero => omega
  | succ q ih =>
    rw [st_succ]
    by_cases hq : p = q
    · subst hq; omega
    · have := ih (by omega); omega

theorem blockIdx_lt {D : Nat} (hD : 0 < D) (p : Nat) : (if p < 2 * D then p % D else D - 1) < D := by
  split
  · exact Nat.mod_lt _ hD
  · omega

theorem idx_getD {l : List Nat} {i : Nat} (h : i < l.length) : Res.idx l i = .ok (l.getD i 0) := by
  rw [getD_lt h, Res.idx_lt h]

theorem scanLoop_eq (D : Nat) (hD : 0 < D) (md : List Nat) (hmd : md.length = D) (n : Nat) :
    ∀ (pre : List Nat), pre = (List.range pre.length).map (st D md) →
    scanLoop D md (pre ++ List.replicate n 0) (st D md pre.length) pre.length n
      = .ok ((List.range (pre.length + n)).map (st D md)) := by
  induction n with
  | zero => intro pre hp; simp [scanLoop, ← hp]
  | succ n ih =>
    intro pre hp
    rw [scanLoop, setIdx_zeros rfl, Res.bind_ok, idx_getD (by rw [hmd]; exact blockIdx_lt hD _), Res.bind_ok]
    have := ih (pre ++ [st D md pre.length]) (by
      rw [List.length_append, List.length_singleton, List.range_succ, List.map_append, ← hp]
      simp)
    rw [List.length_append, List.length_singleton, st_succ] at this
    simp only [dg] at this
    rw [this]
    simp [Nat.add_assoc, Nat.add_comm 1 n]

/-- The worker of a set of dimension `D` with degrees `md`. -/
def mk' (D : Nat) (f : FixedSet) (md : List Nat) : Worker :=
  { dim := D, multiSet := f, startPos := (List.range (2 * D + 2)).map (st D md), maxDegrees := md
    cacheSize := st D md (2 * D + 1) }

theorem ofFixed_eq (f : FixedSet) (hD : 0 < f.dim) (hmd : f.maxDegrees.length = f.dim) :
    ofFixed f = .ok (mk' f.dim f f.maxDegrees) := by
  have hne : f.dim ≠ 0 := by omega
  have := scanLoop_eq f.dim hD f.maxDegrees hmd (2 * f.dim + 2) [] rfl
  simp only [List.nil_append, List.length_nil, Nat.zero_add] at this
  have h0 : st f.dim f.maxDegrees 0 = 0 := rfl
  rw [h0] at this
  simp only [ofFixed, hne, if_false, this, Res.bind_ok]
  rw [idx_getD (by simp)]
  simp [mk']

theorem mk'_startPos (D : Nat) (f : FixedSet) (md : List Nat) {p : Nat} (hp : p < 2 * D + 2) :
    Res.idx (mk' D f md).startPos p = .ok (st D md p) :=
  Res.idx_some (by simp [mk', hp])

theorem mk'_maxDegrees (D : Nat) (f : FixedSet) (md : List Nat) (hmd : md.length = D) {p d : Nat}
    (hd : d < D) (h : (if p < 2 * D then p % D else D - 1) = d) :
    Res.idx (mk' D f md).maxDegrees d = .ok (dg D md p) := by
  rw [dg, h]
  exact idx_getD (by show d < md.length; rw [hmd]; exact hd)

/-! ### Cache contents -/

/-- `W p = some h`: block `p` holds `h 0, …, h (dg p)`. -/
def CacheIs (D : Nat) (md : List Nat) (W : Nat → Option (Nat → K)) (cache : Cache K) : Prop :=
  cache.length = st D md (2 * D + 1) ∧
  ∀ p h, p ≤ 2 * D → W p = some h → ∀ o, o ≤ dg D md p → cache[st D md p + o]? = some (some (h o))

theorem writeBlock_eq (vs : List K) : ∀ (cache : Cache K) (s : Nat), s + vs.length ≤ cache.length →
    ∃ c, writeBlock cache s vs = .ok c ∧ c.length = cache.length ∧
      ∀ i, c[i]? = if s ≤ i ∧ i < s + vs.length then some vs[i - s]? else cache[i]? := by
  induction vs with
  | nil =>
    intro cache s _
    refine ⟨cache, rfl, rfl, fun i => ?_⟩
    rw [if_neg (by simp)]
  | cons v vs ih =>
    intro cache s hs
    simp only [List.length_cons] at hs
    obtain ⟨c, e, l, h⟩ := ih (cache.set s (some v)) (s + 1) (by simp; omega)
    refine ⟨c, by rw [writeBlock, Res.setIdx_lt (by omega), Res.bind_ok, e], by simpa using l, fun i => ?_⟩
    rw [h i, List.getElem?_set]
    by_cases h1 : s = i
    · subst h1
      rw [if_neg (by omega), if_pos rfl, if_pos (by omega), if_pos (by simp)]
      simp
    · by_cases h2 : s + 1 ≤ i ∧ i < s + 1 + vs.length
      · rw [if_pos h2, if_pos (by simp; omega)]
        have : i - s = (i - (s + 1)) + 1 := by omega
        simp [this]
      · rw [if_neg h2, if_neg h1, if_neg (by simp; omega)]

theorem CacheIs.write {D : Nat} {md : List Nat} {W : Nat → Option (Nat → K)} {cache : Cache K}
    (h : CacheIs D md W cache) {p : Nat} (hp : p ≤ 2 * D) (g : Nat → K → K) (x : K) :
    ∃ c, writeBlock cache (st D md p) (block g (dg D md p) x) = .ok c ∧
      CacheIs D md (fun q => if q = p then some (g · x) else W q) c := by
  have hlen : (block g (dg D md p) x).length = dg D md p + 1 := by simp [block]
  have hfit : st D md p + (dg D md p + 1) ≤ cache.length := by
    rw [h.1]
    have := st_mono D md (p := p) (q := 2 * D + 1) (by omega)
    omega
  obtain ⟨c, e, l, hc⟩ := writeBlock_eq (block g (dg D md p) x) cache (st D md p) (by rw [hlen]; exact hfit)
  refine ⟨c, e, by rw [l]; exact h.1, ?_⟩
  intro q f hq hW o ho
  rw [hc, hlen]
  by_cases hqp : q = p
  · subst hqp
    simp only [if_true] at hW
    cases hW
    rw [if_pos (by omega)]
    simp [block, Nat.lt_succ_of_le ho]
  · simp only [hqp, if_false] at hW
    rw [if_neg, h.2 q f hq hW o ho]
    rintro ⟨h1, h2⟩
    rcases Nat.lt_or_gt_of_ne hqp with hlt | hgt
    · have := st_mono D md hlt; omega
    · have := st_mono D md hgt; omega

theorem CacheIs.congr {D : Nat} {md : List Nat} {W W' : Nat → Option (Nat → K)} {cache : Cache K}
    (h : CacheIs D md W cache) (hW : ∀ p, p ≤ 2 * D → W p = W' p) : CacheIs D md W' cache :=
  ⟨h.1, fun p f hp hf => h.2 p f hp (by rw [hW p hp]; exact hf)⟩

/-- Blocks available after `FillCache1` at `x` (first `m` dimensions done). -/
def W1 (D : Nat) (b : Basis K) (x : Nat → K) (derivs : Bool) (m : Nat) (p : Nat) : Option (Nat → K) :=
  if p < m then some (b.val · (x p))
  else if derivs ∧ D ≤ p ∧ p < D + m then some (b.d1 · (x (p - D)))
  else none

/-- Blocks available after `FillCache2` at `xd`. -/
def W2 (D : Nat) (b : Basis K) (xd : K) (flag : DFlag) (W : Nat → Option (Nat → K)) (p : Nat) :
    Option (Nat → K) :=
  if flag = .mixed then W p
  else if p = 2 * D ∧ (flag = .diagonal2 ∨ flag = .mixedInput) then some (b.d2 · xd)
  else if p = 2 * D - 1 ∧ flag ≠ .none ∧ flag ≠ .parameters then some (b.d1 · xd)
  else if p = D - 1 then some (b.val · xd)
  else W p

theorem fill1Loop_eq (D : Nat) (f : FixedSet) (md : List Nat) (hmd : md.length = D) (b : Basis K)
    (x : Nat → K) (pt : List K) (hpt : ∀ d, d < D - 1 → pt[d]? = some (x d)) (derivs : Bool) (n : Nat) :
    ∀ (m : Nat), m + n ≤ D - 1 → ∀ (cache : Cache K), CacheIs D md (W1 D b x derivs m) cache →
    ∃ c, fill1Loop (mk' D f md) b pt derivs cache m n = .ok c ∧
      CacheIs D md (W1 D b x derivs (m + n)) c := by
  induction n with
  | zero => intro m _ cache h; exact ⟨cache, rfl, h⟩
  | succ n ih =>
    intro m hm cache h
    have hm1 : m < D - 1 := by omega
    have hmD : m < D := by omega
    obtain ⟨c1, e1, h1⟩ := h.write (p := m) (by omega) b.val (x m)
    have i1 : (if m < 2 * D then m % D else D - 1) = m := by
      rw [if_pos (by omega), Nat.mod_eq_of_lt hmD]
    rw [fill1Loop, mk'_startPos D f md (by omega), Res.bind_ok,
      mk'_maxDegrees D f md hmd hmD i1, Res.bind_ok, Res.idx_some (hpt m hm1), Res.bind_ok, e1, Res.bind_ok]
    cases derivs with
    | true =>
      have i2 : (if D + m < 2 * D then (D + m) % D else D - 1) = m := by
        rw [if_pos (by omega), Nat.add_mod_left, Nat.mod_eq_of_lt hmD]
      have hdg : dg D md (D + m) = dg D md m := by rw [dg, dg, i1, i2]
      obtain ⟨c2, e2, h2⟩ := h1.write (p := D + m) (by omega) b.d1 (x m)
      rw [hdg] at e2
      have hdim : m + (mk' D f md).dim = D + m := by simp [mk', Nat.add_comm]
      rw [if_pos rfl, hdim, mk'_startPos D f md (by omega), Res.bind_ok, e2, Res.bind_ok]
      obtain ⟨c3, e3, h3⟩ := ih (m + 1) (by omega) c2 (h2.congr (by
        intro p hp
        simp only [W1]
        by_cases a1 : p = D + m
        · subst a1
          rw [if_pos rfl, if_neg (by omega), if_pos ⟨trivial, by omega, by omega⟩]
          simp
        · rw [if_neg a1]
          by_cases a2 : p = m
          · subst a2; rw [if_pos rfl, if_pos (by omega)]
          · rw [if_neg a2]
            by_cases a3 : p < m
            · rw [if_pos a3, if_pos (by omega)]
            · rw [if_neg a3, if_neg (show ¬ p < m + 1 by omega)]
              by_cases a4 : D ≤ p ∧ p < D + m
              · rw [if_pos ⟨trivial, a4⟩, if_pos ⟨trivial, by omega⟩]
              · rw [if_neg (fun hh => a4 hh.2), if_neg (fun hh => a4 (by omega))]))
      exact ⟨c3, e3, by rw [show m + (n + 1) = m + 1 + n by omega]; exact h3⟩
    | false =>
      rw [if_neg (by simp)]
      obtain ⟨c3, e3, h3⟩ := ih (m + 1) (by omega) c1 (h1.congr (by
        intro p hp
        simp only [W1]
        by_cases a2 : p = m
        · subst a2; rw [if_pos rfl, if_pos (by omega)]
        · rw [if_neg a2]
          by_cases a3 : p < m
          · rw [if_pos a3, if_pos (by omega)]
          · rw [if_neg a3, if_neg (show ¬ p < m + 1 by omega)]
            simp))
      exact ⟨c3, e3, by rw [show m + (n + 1) = m + 1 + n by omega]; exact h3⟩

theorem fillCache1_eq (D : Nat) (f : FixedSet) (md : List Nat) (hmd : md.length = D) (b : Basis K)
    (x : Nat → K) (pt : List K) (hpt : ∀ d, d < D - 1 → pt[d]? = some (x d)) (flag : DFlag)
    (cache : Cache K) (hc : cache.length = st D md (2 * D + 1)) :
    ∃ c, fillCache1 (mk' D f md) b cache pt flag = .ok c ∧
      CacheIs D md (W1 D b x (flag == .input || flag == .mixedInput) (D - 1)) c := by
  obtain ⟨c, e, h⟩ := fill1Loop_eq D f md hmd b x pt hpt (flag == .input || flag == .mixedInput) (D - 1) 0
    (by omega) cache ⟨hc, by
      intro p g hp hW
      simp only [W1] at hW
      rw [if_neg (by omega), if_neg (by omega)] at hW
      cases hW⟩
  exact ⟨c, e, by simpa using h⟩

theorem fillCache2_eq (D : Nat) (hD : 0 < D) (f : FixedSet) (md : List Nat) (hmd : md.length = D)
    (b : Basis K) (xd : K) (flag : DFlag) {W : Nat → Option (Nat → K)} (cache : Cache K)
    (h : CacheIs D md W cache) :
    ∃ c, fillCache2 (mk' D f md) b cache xd flag = .ok c ∧ CacheIs D md (W2 D b xd flag W) c := by
  have hdim : (mk' D f md).dim = D := rfl
  have j0 : (if D - 1 < 2 * D then (D - 1) % D else D - 1) = D - 1 := by
    rw [if_pos (by omega), Nat.mod_eq_of_lt (by omega)]
  have j1 : (if 2 * D - 1 < 2 * D then (2 * D - 1) % D else D - 1) = D - 1 := by
    rw [if_pos (by omega), show 2 * D - 1 = D + (D - 1) by omega, Nat.add_mod_left,
      Nat.mod_eq_of_lt (by omega)]
  have j2 : (if 2 * D < 2 * D then (2 * D) % D else D - 1) = D - 1 := by rw [if_neg (by omega)]
  have hd1 : dg D md (2 * D - 1) = dg D md (D - 1) := by rw [dg, dg, j0, j1]
  have hd2 : dg D md (2 * D) = dg D md (D - 1) := by rw [dg, dg, j0, j2]
  obtain ⟨c1, e1, h1⟩ := h.write (p := D - 1) (by omega) b.val xd
  obtain ⟨c2, e2, h2⟩ := h1.write (p := 2 * D - 1) (by omega) b.d1 xd
  obtain ⟨c3, e3, h3⟩ := h2.write (p := 2 * D) (by omega) b.d2 xd
  rw [hd1] at e2
  rw [hd2] at e3
  have s0 := mk'_startPos D f md (p := D - 1) (by omega)
  have s1 := mk'_startPos D f md (p := 2 * D - 1) (by omega)
  have s2 := mk'_startPos D f md (p := 2 * D) (by omega)
  have m0 := mk'_maxDegrees D f md hmd (p := D - 1) (d := D - 1) (by omega) j0
  have hDne : D - 1 ≠ 2 * D - 1 := by omega
  have hDne2 : D - 1 ≠ 2 * D := by omega
  have hDne3 : 2 * D - 1 ≠ 2 * D := by omega
  simp only [fillCache2, hdim]
  cases flag with
  | none =>
    refine ⟨c1, by simp [s0, m0, e1], h1.congr fun p _ => ?_⟩
    simp [W2]
  | parameters =>
    refine ⟨c1, by simp [s0, m0, e1], h1.congr fun p _ => ?_⟩
    simp [W2]
  | diagonal =>
    refine ⟨c2, by simp [s0, s1, m0, e1, e2], h2.congr fun p _ => ?_⟩
    simp [W2]
  | input =>
    refine ⟨c2, by simp [s0, s1, m0, e1, e2], h2.congr fun p _ => ?_⟩
    simp [W2]
  | diagonal2 =>
    refine ⟨c3, by simp [s0, s1, s2, m0, e1, e2, e3], h3.congr fun p _ => ?_⟩
    simp [W2]
  | mixedInput =>
    refine ⟨c3, by simp [s0, s1, s2, m0, e1, e2, e3], h3.congr fun p _ => ?_⟩
    simp [W2]
  | mixed => exact ⟨cache, by simp, h.congr fun p _ => by simp [W2]⟩

/-- All factors needed for the terms `ts` are present in the cache. -/
def Reads (w : Worker) (cache : Cache K) (D : Nat) (ts : List (List Nat)) (slot : Nat → Nat)
    (F : Nat → Nat → K) : Prop :=
  ∀ t ∈ ts, ∀ d, d < D → t.getD d 0 ≠ 0 →
    ∃ s, Res.idx w.startPos (slot d) = .ok s ∧ read cache (s + t.getD d 0) = .ok (F d (t.getD d 0))

theorem le_vmax {l : List Nat} {a : Nat} (h : a ∈ l) : a ≤ vmax l := by
  induction l with
  | nil => cases h
  | cons b l ih =>
    rw [vmax]
    rcases List.mem_cons.1 h with rfl | h
    · exact Nat.le_max_left _ _
    · exact Nat.le_trans (ih h) (Nat.le_max_right _ _)

/-- If block `p = slot d` of the cache holds `F d` for every dimension, the terms are readable. -/
theorem CacheIs.reads {D : Nat} {md : List Nat} {W : Nat → Option (Nat → K)} {cache : Cache K}
    (h : CacheIs D md W cache) (f : FixedSet) (ts : List (List Nat)) (hmd : md = degs D ts)
    (slot : Nat → Nat) (F : Nat → Nat → K) (hs : ∀ d, d < D → slot d ≤ 2 * D ∧ W (slot d) = some (F d) ∧
      (if slot d < 2 * D then slot d % D else D - 1) = d) :
    Reads (mk' D f md) cache D ts slot F := by
  intro t ht d hd hne
  obtain ⟨h1, h2, h3⟩ := hs d hd
  refine ⟨st D md (slot d), mk'_startPos D f md (by omega), ?_⟩
  have hle : t.getD d 0 ≤ dg D md (slot d) := by
    rw [dg, h3, hmd, degs]
    simp only [List.getD_eq_getElem?_getD, List.getElem?_map, List.getElem?_range hd, Option.map_some,
      Option.getD_some]
    rw [← List.getD_eq_getElem?_getD]
    exact le_vmax (List.mem_map.2 ⟨t, ht, by simp⟩)
  rw [read, h.2 _ _ h1 h2 _ hle]

/-! ### Terms -/

variable [CommRing K]

/-- Product over the nonzero components of a term. -/
def nzProd (D : Nat) (F : Nat → Nat → K) (t : List Nat) : K :=
  ∏ d ∈ range D, if t.getD d 0 = 0 then 1 else F d (t.getD d 0)

theorem termLoop_eq {σ : Type} (w : Worker) (cache : Cache K) (slot : Nat → Nat) (upd : Nat → σ → σ)
    (F : Nat → Nat → K) (t : List Nat) : ∀ (A B A' B' : List Nat) (k : Nat) (acc : K) (fl : σ),
    w.multiSet.nzDims = A ++ nzI k t ++ B → w.multiSet.nzOrders = A' ++ nzV t ++ B' →
    A'.length = A.length →
    (∀ d, d < t.length → t.getD d 0 ≠ 0 → ∃ s, Res.idx w.startPos (slot (k + d)) = .ok s ∧
      read cache (s + t.getD d 0) = .ok (F (k + d) (t.getD d 0))) →
    termLoop w cache slot upd acc fl A.length (nnz t)
      = .ok (acc * ∏ d ∈ range t.length, (if t.getD d 0 = 0 then 1 else F (k + d) (t.getD d 0)),
             (nzI k t).foldl (fun s d => upd d s) fl) := by
  induction t with
  | nil => intros; simp [termLoop, nnz, nzI]
  | cons x xs ih =>
    intro A B A' B' k acc fl h1 h2 hA hr
    have hprod : ∏ d ∈ range (x :: xs).length,
          (if (x :: xs).getD d 0 = 0 then (1 : K) else F (k + d) ((x :: xs).getD d 0))
        = (∏ d ∈ range xs.length, (if xs.getD d 0 = 0 then (1 : K) else F (k + 1 + d) (xs.getD d 0)))
          * (if x = 0 then 1 else F k x) := by
      rw [List.length_cons, prod_range_succ']
      simp only [List.getD_cons_zero, List.getD_cons_succ, Nat.add_zero, Nat.add_assoc, Nat.add_comm 1]
    have hr' : ∀ d, d < xs.length → xs.getD d 0 ≠ 0 → ∃ s, Res.idx w.startPos (slot (k + 1 + d)) = .ok s ∧
        read cache (s + xs.getD d 0) = .ok (F (k + 1 + d) (xs.getD d 0)) := by
      intro d hd hne
      have := hr (d + 1) (by simpa using hd) (by simpa using hne)
      simpa [Nat.add_assoc, Nat.add_comm 1 d] using this
    rw [hprod]
    by_cases hx : x > 0
    · have hx0 : x ≠ 0 := by omega
      have hn : nnz (x :: xs) = nnz xs + 1 := by rw [nnz_cons, if_neg hx0]
      simp only [nzI, nzV, hx, if_true] at h1 h2
      have g1 : Res.idx w.multiSet.nzDims A.length = .ok k := by
        rw [h1]; simp only [List.append_assoc, List.cons_append]; exact idx_append rfl
      have g2 : Res.idx w.multiSet.nzOrders A.length = .ok x := by
        rw [h2]; simp only [List.append_assoc, List.cons_append]; exact idx_append hA.symm
      obtain ⟨s, g3, g4⟩ := hr 0 (by simp) (by simpa using hx0)
      simp only [Nat.add_zero, List.getD_cons_zero] at g3 g4
      rw [hn, termLoop, g1, Res.bind_ok, g2, Res.bind_ok, g3, Res.bind_ok, g4, Res.bind_ok]
      have := ih (A ++ [k]) B (A' ++ [x]) B' (k + 1) (acc * F k x) (upd k fl) (by simp [h1]) (by simp [h2])
        (by simp [hA]) hr'
      rw [List.length_append, List.length_singleton] at this
      rw [this, if_neg hx0]
      simp only [nzI, hx, if_true, List.foldl_cons]
      congr 2
      ring
    · have hx0 : x = 0 := by omega
      subst hx0
      have hn : nnz (0 :: xs) = nnz xs := by simp [nnz_cons]
      simp only [nzI, nzV, hx, if_false] at h1 h2
      have := ih A B A' B' (k + 1) acc fl h1 h2 hA hr'
      rw [hn, this]
      simp [nzI]

theorem termVal_eq {σ : Type} (w : Worker) (D : Nat) (ts : List (List Nat)) (hw : w.multiSet = csr D ts)
    (hts : ∀ t ∈ ts, t.length = D) (cache : Cache K) (slot : Nat → Nat) (upd : Nat → σ → σ)
    (F : Nat → Nat → K) (hr : Reads w cache D ts slot F) (fl : σ) {i : Nat} (hi : i < ts.length) :
    termVal w cache slot upd fl i
      = .ok (nzProd D F (ts.getD i []), (nzI 0 (ts.getD i [])).foldl (fun s d => upd d s) fl) := by
  have hget : ts[i]? = some (ts.getD i []) := by simp [hi]
  generalize ts.getD i [] = t at hget
  have htm := List.mem_of_getElem? hget
  have hlen := hts t htm
  obtain ⟨a, b, rfl, rfl⟩ := split_at hget
  obtain ⟨h1, h2⟩ := csr_starts D a b t
  rw [← hw] at h1 h2
  rw [termVal, h1, Res.bind_ok, h2, Res.bind_ok, Nat.add_sub_cancel_left]
  have := termLoop_eq w cache slot upd F t (a.flatMap (nzI 0)) (b.flatMap (nzI 0)) (a.flatMap nzV)
    (b.flatMap nzV) 0 1 fl (by simp [hw, csr]) (by simp [hw, csr])
    (by rw [flatMap_nzI_length, flatMap_nzV_length]) (by
      intro d hd hne
      have := hr t htm d (by omega) hne
      simpa using this)
  rw [flatMap_nzI_length] at this
  rw [this, nzProd, hlen]
  simp

theorem idx_getD' {l : List K} {i : Nat} (h : i < l.length) : Res.idx l i = .ok (l.getD i 0) := by
  rw [Res.idx_lt h]; simp [h]

section functions
variable (w : Worker) (D : Nat) (ts : List (List Nat)) (hw : w.multiSet = csr D ts)
  (hts : ∀ t ∈ ts, t.length = D) (cache : Cache K) (coeffs : List K)
include hw hts

theorem size_csr : w.multiSet.size = .ok ts.length := by
  rw [hw]; exact (csr_holds D ts hts).1

theorem evalLoop_eq (F : Nat → Nat → K) (hr : Reads w cache D ts id F) (hc : ts.length ≤ coeffs.length)
    (n : Nat) : ∀ (i : Nat) (out : K), i + n = ts.length →
    evalLoop w cache coeffs out i n
      = .ok (out + ∑ k ∈ range n, coeffs.getD (i + k) 0 * nzProd D F (ts.getD (i + k) [])) := by
  induction n with
  | zero => intro i out _; simp [evalLoop]
  | succ n ih =>
    intro i out hi
    rw [evalLoop, termVal_eq w D ts hw hts cache id _ F hr () (by omega), Res.bind_ok,
      idx_getD' (by omega), Res.bind_ok, ih (i + 1) _ (by omega), sum_range_succ']
    simp only [Nat.add_zero, Nat.add_assoc, Nat.add_comm 1]
    congr 1
    ring

theorem evaluate_eq (F : Nat → Nat → K) (hr : Reads w cache D ts id F) (hc : ts.length ≤ coeffs.length) :
    evaluate w cache coeffs
      = .ok (∑ k ∈ range ts.length, coeffs.getD k 0 * nzProd D F (ts.getD k [])) := by
  rw [evaluate, size_csr w D ts hw hts, Res.bind_ok,
    evalLoop_eq w D ts hw hts cache coeffs F hr hc ts.length 0 0 (by omega)]
  simp

theorem coeffLoop_eq (F : Nat → Nat → K) (hr : Reads w cache D ts id F) (hc : ts.length ≤ coeffs.length)
    (n : Nat) : ∀ (i : Nat) (out : K) (grad : List K), i + n = ts.length → ts.length ≤ grad.length →
    ∃ g, coeffLoop w cache coeffs grad out i n
        = .ok (out + ∑ k ∈ range n, coeffs.getD (i + k) 0 * nzProd D F (ts.getD (i + k) []), g) ∧
      g.length = grad.length ∧
      ∀ k, g[k]? = if i ≤ k ∧ k < i + n then some (nzProd D F (ts.getD k [])) else grad[k]? := by
  induction n with
  | zero =>
    intro i out grad _ _
    exact ⟨grad, by simp [coeffLoop], rfl, fun k => by rw [if_neg (by omega)]⟩
  | succ n ih =>
    intro i out grad hi hg
    obtain ⟨g, e, l, h⟩ := ih (i + 1) (out + nzProd D F (ts.getD i []) * coeffs.getD i 0)
      (grad.set i (nzProd D F (ts.getD i []))) (by omega) (by simpa using hg)
    refine ⟨g, ?_, by simpa using l, fun k => ?_⟩
    · rw [coeffLoop, termVal_eq w D ts hw hts cache id _ F hr () (by omega), Res.bind_ok,
        idx_getD' (by omega), Res.bind_ok, Res.setIdx_lt (by omega), Res.bind_ok, e, sum_range_succ']
      simp only [Nat.add_zero, Nat.add_assoc, Nat.add_comm 1]
      congr 2
      ring
    · rw [h k, List.getElem?_set]
      by_cases h1 : i = k
      · subst h1; rw [if_neg (by omega), if_pos rfl, if_pos (by omega), if_pos (by omega)]
      · by_cases h2 : i + 1 ≤ k ∧ k < i + 1 + n
        · rw [if_pos h2, if_pos (by omega)]
        · rw [if_neg h2, if_neg h1, if_neg (by omega)]

end functions

theorem foldl_flag (e : Nat) (l : List Nat) : ∀ h : Bool,
    l.foldl (fun s d => s || d == e) h = (h || decide (e ∈ l)) := by
  induction l with
  | nil => simp
  | cons a l ih =>
    intro h
    rw [List.foldl_cons, ih]
    by_cases ha : a = e
    · subst ha; simp
    · have : e ≠ a := fun h => ha h.symm
      simp [this, beq_eq_false_iff_ne.2 ha]

theorem mem_nzI (t : List Nat) : ∀ (k e : Nat), e ∈ nzI k t ↔ k ≤ e ∧ t.getD (e - k) 0 ≠ 0 := by
  induction t with
  | nil => intro k e; simp [nzI]
  | cons x xs ih =>
    intro k e
    have step : e ∈ nzI (k + 1) xs ↔ k < e ∧ (x :: xs).getD (e - k) 0 ≠ 0 := by
      rw [ih]
      constructor
      · rintro ⟨h1, h2⟩
        refine ⟨h1, ?_⟩
        have : e - k = (e - (k + 1)) + 1 := by omega
        rw [this]; simpa using h2
      · rintro ⟨h1, h2⟩
        refine ⟨h1, ?_⟩
        have : e - k = (e - (k + 1)) + 1 := by omega
        rw [this] at h2; simpa using h2
    by_cases hx : x > 0
    · simp only [nzI, hx, if_true, List.mem_cons, step]
      constructor
      · rintro (rfl | h)
        · simp; omega
        · exact ⟨by omega, h.2⟩
      · rintro ⟨h1, h2⟩
        by_cases he : e = k
        · exact .inl he
        · exact .inr ⟨by omega, h2⟩
    · have hx0 : x = 0 := by omega
      subst hx0
      simp only [nzI, hx, if_false, step]
      constructor
      · rintro ⟨h1, h2⟩; exact ⟨by omega, h2⟩
      · rintro ⟨h1, h2⟩
        refine ⟨?_, h2⟩
        by_contra hk
        have : e = k := by omega
        subst this
        simp at h2

theorem mem_nzI0 (t : List Nat) (e : Nat) : e ∈ nzI 0 t ↔ t.getD e 0 ≠ 0 := by
  rw [mem_nzI]; simp

/-- Contribution of a term that must depend on dimension `e`. -/
def ctr (D : Nat) (e : Nat) (F : Nat → Nat → K) (t : List Nat) : K :=
  if t.getD e 0 ≠ 0 then nzProd D F t else 0

/-- Contribution of a term that must depend on dimensions `e` and `e'`. -/
def ctr2 (D : Nat) (e e' : Nat) (F : Nat → Nat → K) (t : List Nat) : K :=
  if t.getD e 0 ≠ 0 ∧ t.getD e' 0 ≠ 0 then nzProd D F t else 0

theorem nzProd_eq {D : Nat} {φ : Nat → Nat → K} (h : ∀ d, d < D → φ d 0 = 1) (t : List Nat) :
    nzProd D φ t = termProd D φ t := by
  refine prod_congr rfl fun d hd => ?_
  split
  · rename_i h0; rw [h0, h d (mem_range.1 hd)]
  · rfl

theorem termProd_zero {D : Nat} {φ : Nat → Nat → K} {e : Nat} (he : e < D) (h : φ e 0 = 0) {t : List Nat}
    (ht : t.getD e 0 = 0) : termProd D φ t = 0 :=
  prod_eq_zero (mem_range.2 he) (by rw [ht, h])

theorem nzProd_eq' {D : Nat} {φ : Nat → Nat → K} {t : List Nat}
    (h : ∀ d, d < D → t.getD d 0 = 0 → φ d 0 = 1) : nzProd D φ t = termProd D φ t := by
  refine prod_congr rfl fun d hd => ?_
  split
  · rename_i h0; rw [h0, h d (mem_range.1 hd) h0]
  · rfl

theorem ctr_eq {D e : Nat} (he : e < D) {φ : Nat → Nat → K} (h0 : φ e 0 = 0)
    (h : ∀ d, d < D → d ≠ e → φ d 0 = 1) (t : List Nat) : ctr D e φ t = termProd D φ t := by
  by_cases ht : t.getD e 0 = 0
  · rw [ctr, if_neg (by simpa using ht), termProd_zero he h0 ht]
  · rw [ctr, if_pos ht]
    exact nzProd_eq' fun d hd hz => h d hd (by rintro rfl; exact ht hz)

theorem ctr2_eq {D e e' : Nat} (he : e < D) (he' : e' < D) {φ : Nat → Nat → K} (h0 : φ e 0 = 0)
    (h0' : φ e' 0 = 0) (h : ∀ d, d < D → d ≠ e → d ≠ e' → φ d 0 = 1) (t : List Nat) :
    ctr2 D e e' φ t = termProd D φ t := by
  by_cases ht : t.getD e 0 = 0
  · rw [ctr2, if_neg (fun hh => hh.1 ht), termProd_zero he h0 ht]
  · by_cases ht' : t.getD e' 0 = 0
    · rw [ctr2, if_neg (fun hh => hh.2 ht'), termProd_zero he' h0' ht']
    · rw [ctr2, if_pos ⟨ht, ht'⟩]
      exact nzProd_eq' fun d hd hz => h d hd (by rintro rfl; exact ht hz) (by rintro rfl; exact ht' hz)

section functions2
variable (w : Worker) (D : Nat) (ts : List (List Nat)) (hdim : w.dim = D) (hw : w.multiSet = csr D ts)
  (hts : ∀ t ∈ ts, t.length = D) (cache : Cache K) (coeffs : List K)
include hdim hw hts

omit hw hts in
theorem diagFold (t : List Nat) :
    (nzI 0 t).foldl (fun s d => w.diagFlag d s) false = decide (t.getD (D - 1) 0 ≠ 0) := by
  have : (fun s d => w.diagFlag d s) = fun s d => s || d == D - 1 := by
    funext s d; simp [diagFlag, hdim]
  rw [this, foldl_flag, Bool.false_or]
  exact decide_eq_decide.2 (mem_nzI0 t _)

theorem diagLoop_eq (r : Nat) (F : Nat → Nat → K) (hr : Reads w cache D ts (w.diagSlot r) F)
    (hc : ts.length ≤ coeffs.length) (n : Nat) : ∀ (i : Nat) (out : K), i + n = ts.length →
    diagLoop w cache coeffs r out i n
      = .ok (out + ∑ k ∈ range n, coeffs.getD (i + k) 0 * ctr D (D - 1) F (ts.getD (i + k) [])) := by
  induction n with
  | zero => intro i out _; simp [diagLoop]
  | succ n ih =>
    intro i out hi
    rw [diagLoop, termVal_eq w D ts hw hts cache _ _ F hr false (by omega), Res.bind_ok,
      diagFold w D hdim, sum_range_succ']
    by_cases h : (ts.getD i []).getD (D - 1) 0 ≠ 0
    · rw [if_pos (decide_eq_true h), idx_getD' (by omega), Res.bind_ok, ih (i + 1) _ (by omega)]
      simp only [Nat.add_zero, Nat.add_assoc, Nat.add_comm 1]
      congr 1
      conv_rhs => rw [ctr, if_pos h]
      ring
    · rw [if_neg (by simpa using h), ih (i + 1) _ (by omega)]
      simp only [Nat.add_zero, Nat.add_assoc, Nat.add_comm 1]
      rw [show ctr D (D - 1) F (ts.getD i []) = 0 by rw [ctr, if_neg h]]
      simp

theorem diagonalDerivative_eq (r : Nat) (h0 : r = 1 ∨ r = 2) (F : Nat → Nat → K)
    (hr : Reads w cache D ts (w.diagSlot r) F) (hc : ts.length ≤ coeffs.length) :
    diagonalDerivative w cache coeffs r
      = .ok (∑ k ∈ range ts.length, coeffs.getD k 0 * ctr D (D - 1) F (ts.getD k [])) := by
  rw [diagonalDerivative, if_neg (by omega), size_csr w D ts hw hts, Res.bind_ok,
    diagLoop_eq w D ts hdim hw hts cache coeffs r F hr hc ts.length 0 0 (by omega)]
  simp

theorem mixedCoeffLoop_eq (r : Nat) (F : Nat → Nat → K) (hr : Reads w cache D ts (w.diagSlot r) F)
    (hc : ts.length ≤ coeffs.length) (n : Nat) : ∀ (i : Nat) (out : K) (grad : List K),
    i + n = ts.length → ts.length ≤ grad.length →
    ∃ g, mixedCoeffLoop w cache coeffs r out grad i n
        = .ok (out + ∑ k ∈ range n, coeffs.getD (i + k) 0 * ctr D (D - 1) F (ts.getD (i + k) []), g) ∧
      g.length = grad.length ∧
      ∀ k, g[k]? = if i ≤ k ∧ k < i + n then some (ctr D (D - 1) F (ts.getD k [])) else grad[k]? := by
  induction n with
  | zero =>
    intro i out grad _ _
    exact ⟨grad, by simp [mixedCoeffLoop], rfl, fun k => by rw [if_neg (by omega)]⟩
  | succ n ih =>
    intro i out grad hi hg
    obtain ⟨g, e, l, h⟩ := ih (i + 1) (out + ctr D (D - 1) F (ts.getD i []) * coeffs.getD i 0)
      (grad.set i (ctr D (D - 1) F (ts.getD i []))) (by omega) (by simpa using hg)
    refine ⟨g, ?_, by simpa using l, fun k => ?_⟩
    · rw [mixedCoeffLoop, termVal_eq w D ts hw hts cache _ _ F hr false (by omega), Res.bind_ok,
        diagFold w D hdim, sum_range_succ']
      by_cases h : (ts.getD i []).getD (D - 1) 0 ≠ 0
      · have hc1 : ctr D (D - 1) F (ts.getD i []) = nzProd D F (ts.getD i []) := by rw [ctr, if_pos h]
        rw [hc1] at e
        rw [if_pos (decide_eq_true h), idx_getD' (by omega), Res.bind_ok, Res.setIdx_lt (by omega),
          Res.bind_ok, e]
        simp only [Nat.add_zero, Nat.add_assoc, Nat.add_comm 1, hc1]
        congr 2
        ring
      · have hc0 : ctr D (D - 1) F (ts.getD i []) = 0 := by rw [ctr, if_neg h]
        rw [hc0, zero_mul, add_zero] at e
        rw [if_neg (by simpa using h), Res.setIdx_lt (by omega), Res.bind_ok, e]
        simp only [Nat.add_zero, Nat.add_assoc, Nat.add_comm 1, hc0]
        simp
    · rw [h k, List.getElem?_set]
      by_cases h1 : i = k
      · subst h1; rw [if_neg (by omega), if_pos rfl, if_pos (by omega), if_pos (by omega)]
      · by_cases h2 : i + 1 ≤ k ∧ k < i + 1 + n
        · rw [if_pos h2, if_pos (by omega)]
        · rw [if_neg h2, if_neg h1, if_neg (by omega)]

omit hdim hw hts in
theorem inputFold (e : Nat) (t : List Nat) :
    (nzI 0 t).foldl (fun s d => s || some e == some d) false = decide (t.getD e 0 ≠ 0) := by
  have : (fun (s : Bool) (d : Nat) => s || some e == some d) = fun s d => s || d == e := by
    funext s d
    congr 1
    rw [Bool.eq_iff_iff, beq_iff_eq, beq_iff_eq, Option.some.injEq]
    exact eq_comm
  rw [this, foldl_flag, Bool.false_or]
  exact decide_eq_decide.2 (mem_nzI0 t _)

omit hdim in
theorem inputTerms_none (F : Nat → Nat → K) (hr : Reads w cache D ts (w.inputSlot none) F)
    (hc : ts.length ≤ coeffs.length) (grad : List K) (n : Nat) : ∀ (i : Nat) (f : K), i + n = ts.length →
    inputTerms w cache coeffs none f grad i n
      = .ok (f + ∑ k ∈ range n, coeffs.getD (i + k) 0 * nzProd D F (ts.getD (i + k) []), grad) := by
  induction n with
  | zero => intro i f _; simp [inputTerms]
  | succ n ih =>
    intro i f hi
    rw [inputTerms, termVal_eq w D ts hw hts cache _ _ F hr false (by omega), Res.bind_ok]
    simp only
    rw [idx_getD' (by omega), Res.bind_ok, ih (i + 1) _ (by omega), sum_range_succ']
    simp only [Nat.add_zero, Nat.add_assoc, Nat.add_comm 1]
    congr 2
    ring

omit hdim in
theorem inputTerms_some (e : Nat) (F : Nat → Nat → K) (hr : Reads w cache D ts (w.inputSlot (some e)) F)
    (hc : ts.length ≤ coeffs.length) (f : K) (n : Nat) : ∀ (i : Nat) (grad : List K) (g : K),
    i + n = ts.length → e < grad.length →
    inputTerms w cache coeffs (some e) f (grad.set e g) i n
      = .ok (f, grad.set e (g + ∑ k ∈ range n, coeffs.getD (i + k) 0 * ctr D e F (ts.getD (i + k) []))) := by
  induction n with
  | zero => intro i grad g _ _; simp [inputTerms]
  | succ n ih =>
    intro i grad g hi hg
    rw [inputTerms, termVal_eq w D ts hw hts cache _ _ F hr false (by omega), Res.bind_ok, inputFold,
      sum_range_succ']
    simp only
    by_cases h : (ts.getD i []).getD e 0 ≠ 0
    · have hc1 : ctr D e F (ts.getD i []) = nzProd D F (ts.getD i []) := by rw [ctr, if_pos h]
      rw [if_pos (decide_eq_true h), idx_getD' (by omega), Res.bind_ok,
        Res.idx_some (a := g) (by simp [hg]), Res.bind_ok, Res.setIdx_lt (by simpa using hg), Res.bind_ok,
        List.set_set, ih (i + 1) _ _ (by omega) hg]
      simp only [Nat.add_zero, Nat.add_assoc, Nat.add_comm 1, hc1]
      congr 3
      ring
    · have hc0 : ctr D e F (ts.getD i []) = 0 := by rw [ctr, if_neg h]
      rw [if_neg (by simpa using h), ih (i + 1) _ _ (by omega) hg]
      simp only [Nat.add_zero, Nat.add_assoc, Nat.add_comm 1, hc0]
      simp

omit hdim in
theorem inputWrt_eq (F : Nat → Nat → Nat → K)
    (hr : ∀ e, e < D → Reads w cache D ts (w.inputSlot (some e)) (F e))
    (hc : ts.length ≤ coeffs.length) (f : K) (n : Nat) : ∀ (e : Nat) (grad : List K),
    e + n = D → D ≤ grad.length →
    ∃ g, inputWrt w cache coeffs ts.length f grad e n = .ok (f, g) ∧ g.length = grad.length ∧
      ∀ k, g[k]? = if e ≤ k ∧ k < e + n then
          some (∑ i ∈ range ts.length, coeffs.getD i 0 * ctr D k (F k) (ts.getD i [])) else grad[k]? := by
  induction n with
  | zero => intro e grad _ _; exact ⟨grad, rfl, rfl, fun k => by rw [if_neg (by omega)]⟩
  | succ n ih =>
    intro e grad he hg
    have h1 := inputTerms_some w D ts hw hts cache coeffs e (F e) (hr e (by omega)) hc f ts.length 0 grad 0
      (by omega) (by omega)
    simp only [Nat.zero_add, zero_add] at h1
    obtain ⟨g, e2, l, h⟩ := ih (e + 1) (grad.set e (∑ i ∈ range ts.length,
      coeffs.getD i 0 * ctr D e (F e) (ts.getD i []))) (by omega) (by simpa using hg)
    refine ⟨g, ?_, by simpa using l, fun k => ?_⟩
    · rw [inputWrt, Res.setIdx_lt (by omega), Res.bind_ok, h1, Res.bind_ok, e2]
    · rw [h k, List.getElem?_set]
      by_cases h1 : e = k
      · subst h1; rw [if_neg (by omega), if_pos rfl, if_pos (by omega), if_pos (by omega)]
      · by_cases h2 : e + 1 ≤ k ∧ k < e + 1 + n
        · rw [if_pos h2, if_pos (by omega)]
        · rw [if_neg h2, if_neg h1, if_neg (by omega)]

omit hw hts in
theorem mixedFold (wrt : Option Nat) (l : List Nat) : ∀ (h : Bool × Bool),
    l.foldl (fun s d => w.mixedFlag wrt d s) h
      = (h.1 || decide (∃ e, wrt = some e ∧ e ∈ l), h.2 || decide (D - 1 ∈ l)) := by
  induction l with
  | nil => intro h; simp
  | cons a l ih =>
    intro h
    rw [List.foldl_cons, ih]
    simp only [mixedFlag, hdim]
    by_cases h1 : a = D - 1
    · rw [if_pos h1, ← h1]
      cases wrt with
      | none => simp
      | some e =>
        by_cases h2 : e = a
        · subst h2; simp
        · simp [h2, beq_eq_false_iff_ne.2 h2]
    · rw [if_neg h1]
      have h1' : D - 1 ≠ a := fun h => h1 h.symm
      by_cases h2 : wrt = some a
      · subst h2; simp [h1']
      · rw [if_neg h2]
        cases wrt with
        | none => simp [h1']
        | some e =>
          have : e ≠ a := fun h => h2 (by rw [h])
          simp [h1', this]

omit hw hts in
theorem mixedFold_some (e : Nat) (t : List Nat) :
    (nzI 0 t).foldl (fun s d => w.mixedFlag (some e) d s) (false, false)
      = (decide (t.getD e 0 ≠ 0), decide (t.getD (D - 1) 0 ≠ 0)) := by
  rw [mixedFold w D hdim]
  simp only [Bool.false_or, mem_nzI0]
  congr 1
  exact decide_eq_decide.2 ⟨by rintro ⟨e', h, h'⟩; cases h; exact h', fun h => ⟨e, rfl, h⟩⟩

omit hw hts in
theorem mixedFold_none (t : List Nat) :
    (nzI 0 t).foldl (fun s d => w.mixedFlag none d s) (false, false)
      = (false, decide (t.getD (D - 1) 0 ≠ 0)) := by
  rw [mixedFold w D hdim]
  simp only [Bool.false_or, mem_nzI0]
  simp

theorem mixedTerms_none (F : Nat → Nat → K) (hr : Reads w cache D ts (w.mixedSlot none) F)
    (hc : ts.length ≤ coeffs.length) (grad : List K) (n : Nat) : ∀ (i : Nat) (f : K), i + n = ts.length →
    mixedTerms w cache coeffs none f grad i n
      = .ok (f + ∑ k ∈ range n, coeffs.getD (i + k) 0 * ctr D (D - 1) F (ts.getD (i + k) []), grad) := by
  induction n with
  | zero => intro i f _; simp [mixedTerms]
  | succ n ih =>
    intro i f hi
    rw [mixedTerms, termVal_eq w D ts hw hts cache _ _ F hr _ (by omega), Res.bind_ok,
      mixedFold_none w D hdim, sum_range_succ']
    simp only
    by_cases h : (ts.getD i []).getD (D - 1) 0 ≠ 0
    · have hc1 : ctr D (D - 1) F (ts.getD i []) = nzProd D F (ts.getD i []) := by rw [ctr, if_pos h]
      rw [if_pos (decide_eq_true h), idx_getD' (by omega), Res.bind_ok, ih (i + 1) _ (by omega)]
      simp only [Nat.add_zero, Nat.add_assoc, Nat.add_comm 1, hc1]
      congr 2
      ring
    · have hc0 : ctr D (D - 1) F (ts.getD i []) = 0 := by rw [ctr, if_neg h]
      rw [if_neg (by simpa using h), ih (i + 1) _ (by omega)]
      simp only [Nat.add_zero, Nat.add_assoc, Nat.add_comm 1, hc0]
      simp

theorem mixedTerms_some (e : Nat) (F : Nat → Nat → K) (hr : Reads w cache D ts (w.mixedSlot (some e)) F)
    (hc : ts.length ≤ coeffs.length) (f : K) (n : Nat) : ∀ (i : Nat) (grad : List K) (g : K),
    i + n = ts.length → e < grad.length →
    mixedTerms w cache coeffs (some e) f (grad.set e g) i n
      = .ok (f, grad.set e
          (g + ∑ k ∈ range n, coeffs.getD (i + k) 0 * ctr2 D e (D - 1) F (ts.getD (i + k) []))) := by
  induction n with
  | zero => intro i grad g _ _; simp [mixedTerms]
  | succ n ih =>
    intro i grad g hi hg
    rw [mixedTerms, termVal_eq w D ts hw hts cache _ _ F hr _ (by omega), Res.bind_ok,
      mixedFold_some w D hdim, sum_range_succ']
    simp only
    by_cases h : (ts.getD i []).getD e 0 ≠ 0 ∧ (ts.getD i []).getD (D - 1) 0 ≠ 0
    · have hc1 : ctr2 D e (D - 1) F (ts.getD i []) = nzProd D F (ts.getD i []) := by rw [ctr2, if_pos h]
      rw [if_pos (by rw [decide_eq_true h.1, decide_eq_true h.2]; rfl), idx_getD' (by omega), Res.bind_ok,
        Res.idx_some (a := g) (by simp [hg]), Res.bind_ok, Res.setIdx_lt (by simpa using hg), Res.bind_ok,
        List.set_set, ih (i + 1) _ _ (by omega) hg]
      simp only [Nat.add_zero, Nat.add_assoc, Nat.add_comm 1, hc1]
      congr 3
      ring
    · have hc0 : ctr2 D e (D - 1) F (ts.getD i []) = 0 := by rw [ctr2, if_neg h]
      rw [if_neg (by rw [← Bool.decide_and]; simpa using h), ih (i + 1) _ _ (by omega) hg]
      simp only [Nat.add_zero, Nat.add_assoc, Nat.add_comm 1, hc0]
      simp

theorem mixedWrt_eq (F : Nat → Nat → Nat → K)
    (hr : ∀ e, e < D → Reads w cache D ts (w.mixedSlot (some e)) (F e))
    (hc : ts.length ≤ coeffs.length) (f : K) (n : Nat) : ∀ (e : Nat) (grad : List K),
    e + n = D → D ≤ grad.length →
    ∃ g, mixedWrt w cache coeffs ts.length f grad e n = .ok (f, g) ∧ g.length = grad.length ∧
      ∀ k, g[k]? = if e ≤ k ∧ k < e + n then
          some (∑ i ∈ range ts.length, coeffs.getD i 0 * ctr2 D k (D - 1) (F k) (ts.getD i []))
        else grad[k]? := by
  induction n with
  | zero => intro e grad _ _; exact ⟨grad, rfl, rfl, fun k => by rw [if_neg (by omega)]⟩
  | succ n ih =>
    intro e grad he hg
    have h1 := mixedTerms_some w D ts hdim hw hts cache coeffs e (F e) (hr e (by omega)) hc f ts.length 0
      grad 0 (by omega) (by omega)
    simp only [Nat.zero_add, zero_add] at h1
    obtain ⟨g, e2, l, h⟩ := ih (e + 1) (grad.set e (∑ i ∈ range ts.length,
      coeffs.getD i 0 * ctr2 D e (D - 1) (F e) (ts.getD i []))) (by omega) (by simpa using hg)
    refine ⟨g, ?_, by simpa using l, fun k => ?_⟩
    · rw [mixedWrt, Res.setIdx_lt (by omega), Res.bind_ok, h1, Res.bind_ok, e2]
    · rw [h k, List.getElem?_set]
      by_cases h1 : e = k
      · subst h1; rw [if_neg (by omega), if_pos rfl, if_pos (by omega), if_pos (by omega)]
      · by_cases h2 : e + 1 ≤ k ∧ k < e + 1 + n
        · rw [if_pos h2, if_pos (by omega)]
        · rw [if_neg h2, if_neg h1, if_neg (by omega)]

end functions2

end Worker
end MParT
