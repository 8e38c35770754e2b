import Verif.Lemmas.MISetReach
/-!
Helper lemmas for `MultiIndexSet`, part 8: `CreateTotalOrder`, `CreateTensorProduct` and the matrix
constructor.
-/
namespace MParT
namespace MISet
open MultiIndex Spec Neighborhood

theorem Reach.inv {b : Bool} {s : MISet} (h : Reach b s) {ts : List (List Nat)} (ht : Terms s ts) :
    ∃ vs R, Inv (b = true) s vs R ts ∧ (b = true → NearTo (· ∈ ts) s vs) := by
  obtain ⟨vs, R, us, hi, hn⟩ := h.ok
  obtain rfl := hi.terms'.unique ht
  exact ⟨vs, R, hi, hn⟩

theorem Reach.add {b : Bool} {s : MISet} (h : Reach b s) {ts : List (List Nat)} (ht : Terms s ts)
    {v : List Nat} (hlen : v.length = s.length) (hl : Accepts s v) :
    ∃ s' i, s.addActive (ofVec v) = .ok (s', some i) ∧ Reach b s' ∧ Terms s' (addT ts v) ∧
      s'.length = s.length ∧ s'.limiter = s.limiter ∧ (addT ts v)[i]? = some v := by
  obtain ⟨vs, R, hi, _⟩ := h.inv ht
  obtain ⟨s1, vs1, R1, i, e1, i1, x1, t1, n1⟩ := hi.addActive hlen hl
  exact ⟨s1, i, e1, h.addActive hlen hl e1, i1.terms', x1.length, x1.limiter, t1⟩

/-- Terms after adding the accepted vectors of a list one after the other. -/
def addAll (ts : List (List Nat)) (l : List (List Nat)) : List (List Nat) := l.foldl addT ts

theorem addAll_append (ts l l' : List (List Nat)) : addAll ts (l ++ l') = addAll (addAll ts l) l' := by
  simp [addAll]

theorem addAll_nodup (l : List (List Nat)) : ∀ ts : List (List Nat), (ts ++ l).Nodup →
    addAll ts l = ts ++ l := by
  induction l with
  | nil => intro ts _; simp [addAll]
  | cons w ws ih =>
    intro ts h
    have hw : w ∉ ts := by
      intro hm
      have := List.nodup_append.1 h
      exact this.2.2 w hm w (by simp) rfl
    have : addAll ts (w :: ws) = addAll (ts ++ [w]) ws := by
      simp [addAll, addT_of_not hw]
    rw [this, ih _ (by simpa using h)]
    simp

/-- `f` adds, in order, the accepted vectors `pre ++ e`, `e ∈ E`. -/
def FillOk (lim : MultiIndex → Bool) (f : MISet × List Nat → Res (MISet × List Nat))
    (pre : List Nat) (n : Nat) (E : List (List Nat)) : Prop :=
  ∀ s ts tail, Reach true s → Terms s ts → s.length = pre.length + n → s.limiter = lim →
    tail.length = n →
    ∃ s' tail', f (s, pre ++ tail) = .ok (s', pre ++ tail') ∧ tail'.length = n ∧ Reach true s' ∧
      s'.length = s.length ∧ s'.limiter = lim ∧
      Terms s' (addAll ts ((E.map (pre ++ ·)).filter fun v => lim (ofVec v)))

theorem fillLast_ok (lim : MultiIndex → Bool) (pre : List Nat) (vals : List Nat) :
    FillOk lim (fun st => fillLast lim st vals) pre 1 (vals.map fun i => [i]) := by
  induction vals with
  | nil =>
    intro s ts tail h ht hlen hlim htail
    exact ⟨s, tail, rfl, htail, h, rfl, hlim, by simpa [addAll] using ht⟩
  | cons i is ih =>
    intro s ts tail h ht hlen hlim htail
    match tail, htail with
    | [x], _ =>
      have hset : Res.setAt (pre ++ [x]) ((pre ++ [x]).length - 1) i = .ok (pre ++ [i]) := by
        rw [Res.setAt_lt (by simp)]
        simp
      simp only [fillLast, hset, Res.bind_ok]
      by_cases hl : lim (ofVec (pre ++ [i])) = true
      · rw [if_pos hl]
        obtain ⟨s1, j, e1, r1, t1, l1, m1, _⟩ := h.add ht (v := pre ++ [i])
          (by simp [hlen]) (by unfold Accepts; rw [hlim]; exact hl)
        obtain ⟨s2, tail', e2, a2, r2, l2, m2, t2⟩ := ih s1 (addT ts (pre ++ [i])) [i] r1 t1
          (by rw [l1, hlen]) (by rw [m1, hlim]) rfl
        refine ⟨s2, tail', ?_, a2, r2, by rw [l2, l1], m2, ?_⟩
        · simp only [e1, Res.bind_ok]; exact e2
        · simpa [addAll, hl] using t2
      · rw [if_neg hl]
        obtain ⟨s2, tail', e2, a2, r2, l2, m2, t2⟩ := ih s ts [i] h ht hlen hlim rfl
        refine ⟨s2, tail', e2, a2, r2, l2, m2, ?_⟩
        simpa [hl] using t2

theorem zeroFrom_ok (pre : List Nat) (n : Nat) : ∀ (mid tail : List Nat), tail.length = n →
    zeroFrom (pre ++ mid ++ tail) (pre.length + mid.length) n
      = .ok (pre ++ mid ++ List.replicate n 0) := by
  induction n with
  | zero =>
    intro mid tail h
    have : tail = [] := List.length_eq_zero_iff.1 h
    simp [zeroFrom, this]
  | succ n ih =>
    intro mid tail h
    match tail, h with
    | x :: tail, h =>
      have hs : Res.setAt (pre ++ mid ++ x :: tail) (pre.length + mid.length) 0
          = .ok (pre ++ (mid ++ [0]) ++ tail) := by
        rw [Res.setAt_lt (by simp)]
        congr 1
        rw [List.append_assoc, List.set_append_right _ _ (by omega),
          List.set_append_right _ _ (by omega)]
        simp
      simp only [zeroFrom, hs, Res.bind_ok]
      have := ih (mid ++ [0]) tail (by simpa using h)
      rw [List.length_append, List.length_singleton, ← Nat.add_assoc] at this
      rw [this]
      simp [List.replicate_succ]

theorem fillInner_ok (lim : MultiIndex → Bool) (f : MISet × List Nat → Res (MISet × List Nat))
    (pre : List Nat) (n : Nat) (E : Nat → List (List Nat)) (vals : List Nat)
    (hf : ∀ i ∈ vals, FillOk lim f (pre ++ [i]) n (E i)) :
    FillOk lim (fun st => fillInner f pre.length st vals) pre (n + 1)
      (vals.flatMap fun i => (E i).map (i :: ·)) := by
  induction vals with
  | nil =>
    intro s ts tail h ht hlen hlim htail
    exact ⟨s, tail, rfl, htail, h, rfl, hlim, by simpa [addAll] using ht⟩
  | cons i is ih =>
    intro s ts tail h ht hlen hlim htail
    match tail, htail with
    | x :: tail, htail =>
      have htl : tail.length = n := by simpa using htail
      have hz : zeroFrom (pre ++ x :: tail) (pre.length + 1)
          ((pre ++ x :: tail).length - (pre.length + 1)) = .ok (pre ++ [x] ++ List.replicate n 0) := by
        have := zeroFrom_ok pre n [x] tail htl
        have e : (pre ++ x :: tail).length - (pre.length + 1) = n := by simp; omega
        rw [e]
        simpa using this
      have hset : Res.setAt (pre ++ [x] ++ List.replicate n 0) pre.length i
          = .ok (pre ++ [i] ++ List.replicate n 0) := by
        rw [Res.setAt_lt (by simp)]
        simp
      simp only [fillInner, hz, Res.bind_ok, hset]
      obtain ⟨s1, t1', e1, a1, r1, l1, m1, t1⟩ := hf i (by simp) s ts (List.replicate n 0) h ht
        (by rw [hlen]; simp; omega) hlim (by simp)
      obtain ⟨s2, t2', e2, a2, r2, l2, m2, t2⟩ := ih (fun j hj => hf j (by simp [hj])) s1 _ (i :: t1') r1 t1
        (by rw [l1, hlen]) m1 (by simp [a1])
      refine ⟨s2, t2', ?_, a2, r2, by rw [l2, l1], m2, ?_⟩
      · rw [e1]
        simp only [Res.bind_ok]
        simpa using e2
      · rw [← addAll_append] at t2
        simpa [List.map_map, Function.comp_def] using t2

/-- Vectors of length `n` with sum at most `b`, lexicographically. -/
def toEnum : Nat → Nat → List (List Nat)
  | 0, _ => [[]]
  | n + 1, b => (List.range (b + 1)).flatMap fun i => (toEnum n (b - i)).map (i :: ·)

/-- Vectors of length `n` with entries at most `d`, lexicographically. -/
def tensorEnum (d : Nat) : Nat → List (List Nat)
  | 0 => [[]]
  | n + 1 => (List.range (d + 1)).flatMap fun i => (tensorEnum d n).map (i :: ·)

theorem mem_toEnum (n : Nat) : ∀ b w, w ∈ toEnum n b ↔ w.length = n ∧ w.sum ≤ b := by
  induction n with
  | zero =>
    intro b w
    simp only [toEnum, List.mem_singleton, List.length_eq_zero_iff]
    constructor
    · rintro rfl; simp
    · exact fun h => h.1
  | succ n ih =>
    intro b w
    simp only [toEnum, List.mem_flatMap, List.mem_range, List.mem_map, ih]
    constructor
    · rintro ⟨i, hi, u, ⟨h1, h2⟩, rfl⟩
      simp [h1]; omega
    · rintro ⟨h1, h2⟩
      match w, h1 with
      | i :: u, h1 =>
        simp only [List.sum_cons] at h2
        exact ⟨i, by omega, u, ⟨by simpa using h1, by omega⟩, rfl⟩

theorem mem_tensorEnum (d n : Nat) : ∀ w, w ∈ tensorEnum d n ↔ w.length = n ∧ ∀ x ∈ w, x ≤ d := by
  induction n with
  | zero =>
    intro w
    simp only [tensorEnum, List.mem_singleton, List.length_eq_zero_iff]
    constructor
    · rintro rfl; simp
    · exact fun h => h.1
  | succ n ih =>
    intro w
    simp only [tensorEnum, List.mem_flatMap, List.mem_range, List.mem_map, ih]
    constructor
    · rintro ⟨i, hi, u, ⟨h1, h2⟩, rfl⟩
      refine ⟨by simp [h1], ?_⟩
      intro x hx
      rcases List.mem_cons.1 hx with e | e
      · omega
      · exact h2 x e
    · rintro ⟨h1, h2⟩
      match w, h1 with
      | i :: u, h1 =>
        exact ⟨i, by have := h2 i (by simp); omega, u, ⟨by simpa using h1, fun x hx => h2 x (by simp [hx])⟩, rfl⟩

theorem lex_flatMap (b : Nat) (E : Nat → List (List Nat)) (hE : ∀ i, (E i).Pairwise (· < ·)) :
    ((List.range b).flatMap fun i => (E i).map (i :: ·)).Pairwise (· < ·) := by
  rw [List.pairwise_flatMap]
  constructor
  · intro i _
    rw [List.pairwise_map]
    exact (hE i).imp (fun {a b} h => List.cons_lt_cons_iff.2 (Or.inr ⟨rfl, h⟩))
  · exact List.pairwise_lt_range.imp (fun {i j} hij x hx y hy => by
      obtain ⟨u, _, rfl⟩ := List.mem_map.1 hx
      obtain ⟨v, _, rfl⟩ := List.mem_map.1 hy
      exact List.cons_lt_cons_iff.2 (Or.inl hij))

theorem toEnum_sorted (n : Nat) : ∀ b, (toEnum n b).Pairwise (· < ·) := by
  induction n with
  | zero => intro b; simp [toEnum]
  | succ n ih => intro b; exact lex_flatMap _ _ (fun i => ih _)

theorem tensorEnum_sorted (d n : Nat) : (tensorEnum d n).Pairwise (· < ·) := by
  induction n with
  | zero => simp [tensorEnum]
  | succ n ih => exact lex_flatMap _ _ (fun i => ih)

theorem prefixSum_ok (pre tail : List Nat) : prefixSum (pre ++ tail) pre.length = .ok pre.sum := by
  have : ∀ n, n ≤ pre.length → prefixSum (pre ++ tail) n = .ok (pre.take n).sum := by
    intro n
    induction n with
    | zero => intro _; simp [prefixSum]
    | succ n ih =>
      intro hn
      have hlt : n < (pre ++ tail).length := by simp; omega
      simp only [prefixSum, ih (by omega), Res.bind_ok, Res.at'_lt hlt, Res.pure_eq]
      rw [List.getElem_append_left (by omega : n < pre.length), List.take_add_one,
        List.getElem?_eq_getElem (by omega : n < pre.length), List.sum_append]
      simp
  simpa using this pre.length (Nat.le_refl _)

theorem flatMap_singleton' (vals : List Nat) :
    (vals.flatMap fun i => ([[]] : List (List Nat)).map (i :: ·)) = vals.map fun i => [i] := by
  induction vals with
  | nil => rfl
  | cons i is ih => rw [List.flatMap_cons, ih]; rfl

theorem totalOrderFill_ok (lim : MultiIndex → Bool) (p : Nat) (rem : Nat) : ∀ pre : List Nat,
    pre.sum ≤ p → FillOk lim (totalOrderFill p lim rem pre.length) pre (rem + 1)
      (toEnum (rem + 1) (p - pre.sum)) := by
  induction rem with
  | zero =>
    intro pre hp s ts tail h ht hlen hlim htail
    simp only [totalOrderFill, prefixSum_ok, Res.bind_ok]
    have := fillLast_ok lim pre (List.range (p - pre.sum + 1)) s ts tail h ht hlen hlim htail
    rw [← flatMap_singleton'] at this
    exact this
  | succ rem ih =>
    intro pre hp s ts tail h ht hlen hlim htail
    simp only [totalOrderFill, prefixSum_ok, Res.bind_ok]
    refine fillInner_ok lim _ pre (rem + 1) (fun i => toEnum (rem + 1) (p - pre.sum - i)) _ ?_
      s ts tail h ht hlen hlim htail
    intro i hi
    have hi' : i < p - pre.sum + 1 := List.mem_range.1 hi
    have := ih (pre ++ [i]) (by simp; omega)
    rw [show (pre ++ [i]).length = pre.length + 1 by simp,
      show p - (pre ++ [i]).sum = p - pre.sum - i by simp; omega] at this
    exact this

theorem tensorFill_ok (lim : MultiIndex → Bool) (p : Nat) (rem : Nat) : ∀ pre : List Nat,
    FillOk lim (tensorFill p lim rem pre.length) pre (rem + 1) (tensorEnum p (rem + 1)) := by
  induction rem with
  | zero =>
    intro pre s ts tail h ht hlen hlim htail
    have := fillLast_ok lim pre (List.range (p + 1)) s ts tail h ht hlen hlim htail
    rw [← flatMap_singleton'] at this
    exact this
  | succ rem ih =>
    intro pre s ts tail h ht hlen hlim htail
    refine fillInner_ok lim _ pre (rem + 1) (fun i => tensorEnum p (rem + 1)) _ ?_
      s ts tail h ht hlen hlim htail
    intro i _
    have := ih (pre ++ [i])
    rw [show (pre ++ [i]).length = pre.length + 1 by simp] at this
    exact this

theorem init_terms (n : Nat) (lim : MultiIndex → Bool) : Terms (init n lim) [] :=
  ⟨rfl, fun i t h => by simp at h⟩

theorem sorted_nodup {l : List (List Nat)} (h : l.Pairwise (· < ·)) : l.Nodup :=
  h.imp (fun {a b} hab => by rintro rfl; exact List.lt_irrefl _ hab)

theorem createTotalOrder_ok {n : Nat} (hn : 0 < n) (p : Nat) (lim : MultiIndex → Bool) :
    ∃ s, createTotalOrder n p lim = .ok s ∧ Reach true s ∧ s.length = n ∧ s.limiter = lim ∧
      Terms s ((toEnum n p).filter fun v => lim (ofVec v)) := by
  obtain ⟨s, tail, e, _, r, l, m, t⟩ := totalOrderFill_ok lim p (n - 1) [] (by simp) (init n lim) []
    (List.replicate n 0) (Reach.init n lim) (init_terms n lim) (by simp [init]; omega) rfl
    (by simp; omega)
  refine ⟨s, ?_, r, l, m, ?_⟩
  · simp only [createTotalOrder, if_neg (show ¬ n = 0 by omega)]
    simp only [List.nil_append, List.length_nil] at e
    simp [e]
  · rw [show n - 1 + 1 = n by omega, List.map_id'' (by simp)] at t
    rw [addAll_nodup] at t
    · simpa using t
    · simpa using (sorted_nodup (toEnum_sorted n p)).filter _

theorem createTensorProduct_ok {n : Nat} (hn : 0 < n) (p : Nat) (lim : MultiIndex → Bool) :
    ∃ s, createTensorProduct n p lim = .ok s ∧ Reach true s ∧ s.length = n ∧ s.limiter = lim ∧
      Terms s ((tensorEnum p n).filter fun v => lim (ofVec v)) := by
  obtain ⟨s, tail, e, _, r, l, m, t⟩ := tensorFill_ok lim p (n - 1) [] (init n lim) []
    (List.replicate n 0) (Reach.init n lim) (init_terms n lim) (by simp [init]; omega) rfl
    (by simp; omega)
  refine ⟨s, ?_, r, l, m, ?_⟩
  · simp only [createTensorProduct, if_neg (show ¬ n = 0 by omega)]
    simp only [List.nil_append, List.length_nil] at e
    simp [e]
  · rw [show n - 1 + 1 = n by omega, List.map_id'' (by simp)] at t
    rw [addAll_nodup] at t
    · simpa using t
    · simpa using (sorted_nodup (tensorEnum_sorted p n)).filter _

theorem ofRows_ok (n : Nat) (rows : List (List Nat)) (hr : ∀ r ∈ rows, r.length = n) :
    ∃ s, ofRows n rows = .ok s ∧ Reach true s ∧ s.length = n ∧ Terms s (addAll [] rows) := by
  have key : ∀ (rows : List (List Nat)) (s : MISet) (ts : List (List Nat)),
      (∀ r ∈ rows, r.length = n) → Reach true s → Terms s ts → s.length = n →
      s.limiter = (fun _ => true) → ∃ s', rows.foldlM (fun s r => do
        let (s', _) ← addActive s (ofVec r)
        return s') s = .ok s' ∧ Reach true s' ∧ s'.length = n ∧ Terms s' (addAll ts rows) := by
    intro rows
    induction rows with
    | nil => intro s ts _ h ht hl _; exact ⟨s, rfl, h, hl, ht⟩
    | cons r rs ih =>
      intro s ts hrs h ht hl hlim
      obtain ⟨s1, i, e1, r1, t1, l1, m1, _⟩ := h.add ht (v := r) (by rw [hl]; exact hrs r (by simp))
        (by unfold Accepts; rw [hlim])
      obtain ⟨s2, e2, r2, l2, t2⟩ := ih s1 _ (fun q hq => hrs q (by simp [hq])) r1 t1
        (by rw [l1, hl]) (by rw [m1, hlim])
      refine ⟨s2, ?_, r2, l2, t2⟩
      simp only [List.foldlM_cons, e1, Res.bind_ok, Res.pure_eq]
      exact e2
  exact key rows (init n fun _ => true) [] hr (Reach.init _ _) (init_terms _ _) rfl rfl

end MISet
end MParT
