import Verif.Model.FixedDevice
import Verif.Props.FixedSet
import Mathlib.Data.List.Perm.Basic
/-! Helper lemmas for `FixedMultiIndexSet` in device memory and with 32-bit sizes. -/
namespace MParT.FixedSet
open MultiIndex Spec

/-! ### Launches -/

theorem setAll_eq (f : Nat → Nat) (is : List Nat) : ∀ a : List Nat,
    setAll f a is = if ∀ i ∈ is, i < a.length then .ok (is.foldl (fun a i => a.set i (f i)) a) else .ub := by
  induction is with
  | nil => intro a; simp [setAll]
  | cons i is ih =>
    intro a
    rw [setAll]
    by_cases h : i < a.length
    · rw [Res.setIdx_lt h, Res.bind_ok, ih]
      simp [h]
    · have e : Res.setIdx a i (f i) = .ub := by simp [Res.setIdx, h]
      rw [e, if_neg (by simp; intro hh; exact absurd hh h)]
      rfl

theorem setAll_perm (f : Nat → Nat) (a : List Nat) {is js : List Nat} (h : is.Perm js) :
    setAll f a is = setAll f a js := by
  rw [setAll_eq, setAll_eq]
  have hc : (∀ i ∈ is, i < a.length) ↔ (∀ i ∈ js, i < a.length) :=
    ⟨fun hh i hi => hh i (h.mem_iff.2 hi), fun hh i hi => hh i (h.mem_iff.1 hi)⟩
  haveI : RightCommutative fun (a : List Nat) i => a.set i (f i) := ⟨fun a i j => by
    by_cases e : i = j
    · subst e; rfl
    · exact List.set_comm _ _ e⟩
  by_cases hh : ∀ i ∈ is, i < a.length
  · rw [if_pos hh, if_pos (hc.1 hh), h.foldl_eq]
  · rw [if_neg hh, if_neg (fun h' => hh (hc.2 h'))]

theorem setLoop_all (f : Nat → Nat) (n : Nat) : ∀ (a : List Nat) (i : Nat),
    setLoop f a i n = setAll f a (List.range' i n) := by
  induction n with
  | zero => intro a i; rfl
  | succ n ih =>
    intro a i
    rw [List.range'_succ, setAll, setLoop]
    congr 1
    funext a'
    exact ih a' (i + 1)

theorem setLoop_zero (a : List Nat) : ∀ n i, i + n ≤ a.length → a = List.replicate a.length 0 →
    setLoop (fun _ => 0) a i n = .ok a := by
  intro n
  induction n with
  | zero => intro i _ _; rfl
  | succ n ih =>
    intro i h ha
    rw [setLoop, Res.setIdx_lt (by omega), Res.bind_ok]
    have : a.set i 0 = a := by
      conv_lhs => rw [ha]
      rw [List.set_replicate_self, ← ha]
    rw [this]
    exact ih (i + 1) (by omega) ha

/-- One update of the maximal degrees by position `i` of the arrays. -/
def updAt (nzDims nzOrders md : List Nat) (i : Nat) : List Nat :=
  md.set (nzDims.getD i 0) (max (md.getD (nzDims.getD i 0) 0) (nzOrders.getD i 0))

theorem idx_lt_getD {l : List Nat} {i : Nat} (h : i < l.length) : Res.idx l i = .ok (l.getD i 0) := by
  rw [Res.idx_lt h]; simp [h]

theorem idx_ge {l : List Nat} {i : Nat} (h : ¬ i < l.length) : Res.idx l i = .ub := by
  have e : l[i]? = none := List.getElem?_eq_none (by omega)
  simp [Res.idx, e]

theorem maxDegreeAll_eq (nzDims nzOrders : List Nat) (is : List Nat) : ∀ md : List Nat,
    maxDegreeAll nzDims nzOrders md is =
      if ∀ i ∈ is, i < nzDims.length ∧ i < nzOrders.length ∧ nzDims.getD i 0 < md.length
      then .ok (is.foldl (updAt nzDims nzOrders) md) else .ub := by
  induction is with
  | nil => intro md; simp [maxDegreeAll]
  | cons i is ih =>
    intro md
    rw [maxDegreeAll]
    by_cases h1 : i < nzDims.length
    swap
    · rw [idx_ge h1, if_neg (by simp; intro hh; exact absurd hh h1)]; rfl
    rw [idx_lt_getD h1, Res.bind_ok]
    by_cases h2 : i < nzOrders.length
    swap
    · rw [idx_ge h2, if_neg (by simp; intro _ hh; exact absurd hh h2)]; rfl
    rw [idx_lt_getD h2, Res.bind_ok]
    by_cases h3 : nzDims.getD i 0 < md.length
    swap
    · rw [idx_ge h3, if_neg (fun hh => h3 (hh i (by simp)).2.2)]; rfl
    rw [idx_lt_getD h3, Res.bind_ok, Res.setIdx_lt h3, Res.bind_ok, ih]
    have hl : (md.set (nzDims.getD i 0) (max (md.getD (nzDims.getD i 0) 0) (nzOrders.getD i 0))).length
        = md.length := by simp
    rw [hl]
    by_cases hh : ∀ i ∈ is, i < nzDims.length ∧ i < nzOrders.length ∧ nzDims.getD i 0 < md.length
    · rw [if_pos hh, if_pos]
      · rfl
      · intro j hj
        rcases List.mem_cons.1 hj with e | e
        · subst e; exact ⟨h1, h2, h3⟩
        · exact hh j e
    · rw [if_neg hh, if_neg]
      exact fun h' => hh fun j hj => h' j (by simp [hj])

theorem updAt_comm (nzDims nzOrders md : List Nat) (i j : Nat) :
    updAt nzDims nzOrders (updAt nzDims nzOrders md i) j = updAt nzDims nzOrders (updAt nzDims nzOrders md j) i := by
  unfold updAt
  generalize nzDims.getD i 0 = a
  generalize nzDims.getD j 0 = b
  generalize nzOrders.getD i 0 = x
  generalize nzOrders.getD j 0 = y
  by_cases e : a = b
  · subst e
    by_cases h : a < md.length
    · simp [h, List.set_set]
      congr 1
      omega
    · simp [List.set_eq_of_length_le (show md.length ≤ a by omega)]
  · rw [List.set_comm _ _ e]
    have e' : b ≠ a := fun h => e h.symm
    simp [List.getElem?_set, e, e']

theorem maxDegreeAll_perm (nzDims nzOrders md : List Nat) {is js : List Nat} (h : is.Perm js) :
    maxDegreeAll nzDims nzOrders md is = maxDegreeAll nzDims nzOrders md js := by
  rw [maxDegreeAll_eq, maxDegreeAll_eq]
  have hc : ∀ p : Nat → Prop, (∀ i ∈ is, p i) ↔ (∀ i ∈ js, p i) := fun p =>
    ⟨fun hh i hi => hh i (h.mem_iff.2 hi), fun hh i hi => hh i (h.mem_iff.1 hi)⟩
  haveI : RightCommutative (updAt nzDims nzOrders) := ⟨fun a i j => updAt_comm _ _ a i j⟩
  have hc' := hc fun i => i < nzDims.length ∧ i < nzOrders.length ∧ nzDims.getD i 0 < md.length
  by_cases hh : ∀ i ∈ is, i < nzDims.length ∧ i < nzOrders.length ∧ nzDims.getD i 0 < md.length
  · rw [if_pos hh, if_pos (hc'.1 hh), h.foldl_eq]
  · rw [if_neg hh, if_neg (fun h' => hh (hc'.2 h'))]

theorem maxDegreeLoop_all (nzDims nzOrders : List Nat) (n : Nat) : ∀ (md : List Nat) (i : Nat),
    maxDegreeLoop nzDims nzOrders md i n = maxDegreeAll nzDims nzOrders md (List.range' i n) := by
  induction n with
  | zero => intro md i; rfl
  | succ n ih =>
    intro md i
    rw [List.range'_succ, maxDegreeAll, maxDegreeLoop]
    simp only [ih]

/-! ### Reading a dense layout as a compressed one -/

/-- `readLoop` over the entries `k, k+1, …` of a row stored in full. -/
theorem readLoop_row (f : FixedSet) (lo : Nat) (rest : List Nat) : ∀ pre : List Nat,
    (∀ d, d < rest.length → f.nzDims[lo + pre.length + d]? = some (pre.length + d)) →
    (∀ d, d < rest.length → f.nzOrders[lo + pre.length + d]? = rest[d]?) →
    readLoop f (pre ++ List.replicate rest.length 0) (lo + pre.length) rest.length = .ok (pre ++ rest) := by
  induction rest with
  | nil => intro pre _ _; simp [readLoop]
  | cons x xs ih =>
    intro pre h1 h2
    have g1 : Res.idx f.nzDims (lo + pre.length) = .ok pre.length :=
      Res.idx_some (by have := h1 0 (by simp); simpa using this)
    have g2 : Res.idx f.nzOrders (lo + pre.length) = .ok x :=
      Res.idx_some (by have := h2 0 (by simp); simpa using this)
    have g3 : Res.setAt (pre ++ List.replicate (x :: xs).length 0) pre.length x
        = .ok ((pre ++ [x]) ++ List.replicate xs.length 0) := by
      rw [Res.setAt_lt (by simp)]
      simp [List.replicate_succ]
    rw [List.length_cons, readLoop, g1, g2, Res.bind_ok, Res.bind_ok, ← List.length_cons (a := x), g3, Res.bind_ok]
    have := ih (pre ++ [x]) (by
      intro d hd
      have := h1 (d + 1) (by simpa using hd)
      rw [List.length_append, List.length_singleton]
      rw [show lo + (pre.length + 1) + d = lo + pre.length + (d + 1) by omega, this]
      congr 1
      omega) (by
      intro d hd
      have := h2 (d + 1) (by simpa using hd)
      rw [List.length_append, List.length_singleton]
      rw [show lo + (pre.length + 1) + d = lo + pre.length + (d + 1) by omega, this]
      simp)
    rw [List.length_append, List.length_singleton, ← Nat.add_assoc] at this
    rw [this]
    simp

/-! ### Sizes -/

open MISet in
theorem totNz_rec (n b : Nat) : totNz (toEnum (n + 1) b)
    = ((List.range (b + 1)).map fun i => totNz (toEnum n (b - i))).sum
      + ((List.range b).map fun i => (toEnum n (b - 1 - i)).length).sum := by
  have key : ∀ (l : List Nat), totNz (l.flatMap fun i => (toEnum n (b - i)).map (i :: ·))
      = (l.map fun i => totNz (toEnum n (b - i))).sum
        + (l.map fun i => if i > 0 then (toEnum n (b - i)).length else 0).sum := by
    intro l
    induction l with
    | nil => simp
    | cons i l ih =>
      have hm : totNz ((toEnum n (b - i)).map (i :: ·))
          = totNz (toEnum n (b - i)) + if i > 0 then (toEnum n (b - i)).length else 0 := by
        induction toEnum n (b - i) with
        | nil => simp
        | cons t ts ih =>
          rw [List.map_cons, totNz_cons, ih, nnz_cons, totNz_cons]
          by_cases hi : i = 0
          · subst hi; simp
          · have : i > 0 := by omega
            simp [hi, this]; omega
      rw [List.flatMap_cons, totNz_append, hm, ih]
      simp only [List.map_cons, List.sum_cons]
      omega
  have e : toEnum (n + 1) b = (List.range (b + 1)).flatMap fun i => (toEnum n (b - i)).map (i :: ·) := by
    simp [toEnum]
  rw [e, key]
  congr 1
  rw [List.range_succ_eq_map, List.map_cons, List.sum_cons, List.map_map]
  simp only [gt_iff_lt, Nat.lt_irrefl, if_false, Nat.zero_add]
  congr 1
  apply List.map_congr_left
  intro i _
  simp only [Function.comp, Nat.succ_pos, if_true]
  congr 2
  omega

open MISet in
/-- Number of nonzero entries of all multi-indices of length `n` and sum at most `b`. -/
theorem totNz_toEnum (n : Nat) : ∀ b, totNz (toEnum n b) = n * (n + b - 1).choose n := by
  induction n with
  | zero => intro b; simp [toEnum, nnz]
  | succ n ih =>
    intro b
    rw [totNz_rec]
    simp only [ih, toEnum_length]
    have h1 : ((List.range (b + 1)).map fun i => n * (n + (b - i) - 1).choose n).sum = n * (n + b).choose (n + 1) := by
      induction b with
      | zero =>
        rcases n with _ | n <;> simp
      | succ b ihb =>
        rw [List.range_succ_eq_map, List.map_cons, List.sum_cons, List.map_map]
        have e : ((List.range (b + 1)).map ((fun i => n * (n + (b + 1 - i) - 1).choose n) ∘ Nat.succ))
            = (List.range (b + 1)).map fun i => n * (n + (b - i) - 1).choose n := by
          apply List.map_congr_left
          intro i _
          simp only [Function.comp]
          congr 3
          omega
        rw [e, ihb, ← Nat.mul_add]
        rw [show n + (b + 1 - 0) - 1 = n + b by omega, show n + (b + 1) = (n + b) + 1 by omega,
          Nat.choose_succ_succ]
    have h2 : ((List.range b).map fun i => (n + (b - 1 - i)).choose n).sum = (n + b).choose (n + 1) := by
      rcases b with _ | b
      · simp
      · have := toEnum_length (n + 1) b
        rw [show n + (b + 1) = n + 1 + b by omega, ← this]
        simp [toEnum, toEnum_length, List.length_flatMap]
    rw [h1, h2, show n + 1 + b - 1 = n + b by omega]
    ring

theorem sizeLoop32_eq (r32 r : Nat → Nat × Nat) (b : Nat) (vals : List Nat)
    (h : ∀ i ∈ vals, r32 (b - i) = ((r (b - i)).1 % 2 ^ 32, (r (b - i)).2 % 2 ^ 32)) : ∀ a c : Nat × Nat,
    a = (c.1 % 2 ^ 32, c.2 % 2 ^ 32) →
    sizeLoop32 r32 b a vals = ((sizeLoop r b c vals).1 % 2 ^ 32, (sizeLoop r b c vals).2 % 2 ^ 32) := by
  induction vals with
  | nil => intro a c e; simp [sizeLoop32, sizeLoop, e]
  | cons i is ih =>
    intro a c e
    rw [sizeLoop32, sizeLoop]
    apply ih (fun j hj => h j (by simp [hj]))
    rw [h i (by simp), e]
    simp only [Prod.mk.injEq]
    by_cases hi : i > 0
    · simp only [hi, if_true]; omega
    · simp only [hi, if_false]; omega

theorem totalOrderSize32_eq (rem : Nat) : ∀ b, b < 2 ^ 32 →
    totalOrderSize32 rem b = ((totalOrderSize rem b).1 % 2 ^ 32, (totalOrderSize rem b).2 % 2 ^ 32) := by
  induction rem with
  | zero =>
    intro b hb
    simp only [totalOrderSize32, totalOrderSize, Nat.mod_eq_of_lt hb]
  | succ rem ih =>
    intro b hb
    rw [totalOrderSize32, totalOrderSize]
    exact sizeLoop32_eq _ _ b _ (fun i _ => ih (b - i) (by omega)) _ _ rfl

/-! ### The fill with arrays of any extent -/

/-- The two states have the same counters and workspace. -/
def Same (a b : Fill) : Prop :=
  a.workspace = b.workspace ∧ a.currTerm = b.currTerm ∧ a.currNz = b.currNz

/-- The counters are at most the extents. -/
def Within (a : Fill) (ns nd : Nat) : Prop :=
  a.starts.length = ns ∧ a.dims.length = nd ∧ a.currTerm ≤ ns ∧ a.currNz ≤ nd

/-- A step keeps counters equal and within the extents, and does not throw. -/
def Good (F : Fill → Res Fill) : Prop :=
  (∀ a, F a ≠ .throw) ∧
  (∀ a b a' b', Same a b → F a = .ok a' → F b = .ok b' → Same a' b') ∧
  (∀ a a' ns nd, Within a ns nd → F a = .ok a' → Within a' ns nd)

theorem idx_ne_throw {α : Type} (l : List α) (i : Nat) : Res.idx l i ≠ .throw := by
  unfold Res.idx; split <;> simp

theorem setIdx_ne_throw (l : List Nat) (i x : Nat) : Res.setIdx l i x ≠ .throw := by
  unfold Res.setIdx; split <;> simp

theorem setIdx_ok {l l' : List Nat} {i x : Nat} (h : Res.setIdx l i x = .ok l') : i < l.length ∧ l' = l.set i x := by
  unfold Res.setIdx at h
  split at h
  · cases h; exact ⟨by assumption, rfl⟩
  · cases h

theorem bind_ne_throw {α β : Type} {x : Res α} {f : α → Res β} (h : x ≠ .throw) (hf : ∀ a, x = .ok a → f a ≠ .throw) :
    (x >>= f) ≠ .throw := by
  cases x with
  | ok a => exact hf a rfl
  | throw => exact absurd rfl h
  | ub => simp [bind, Res.bind]

theorem copyNz_good (n : Nat) : ∀ i, Good fun st => copyNz st i n := by
  induction n with
  | zero =>
    intro i
    refine ⟨fun a => by simp [copyNz], fun a b a' b' h ha hb => ?_, fun a a' ns nd h ha => ?_⟩
    · simp only [copyNz, Res.ok.injEq] at ha hb; subst ha hb; exact h
    · simp only [copyNz, Res.ok.injEq] at ha; subst ha; exact h
  | succ n ih =>
    intro i
    obtain ⟨i1, i2, i3⟩ := ih (i + 1)
    refine ⟨fun a => ?_, fun a b a' b' h ha hb => ?_, fun a a' ns nd h ha => ?_⟩
    · simp only [copyNz]
      refine bind_ne_throw (idx_ne_throw _ _) fun x _ => ?_
      split
      · refine bind_ne_throw (setIdx_ne_throw _ _ _) fun d _ => ?_
        refine bind_ne_throw (setIdx_ne_throw _ _ _) fun o _ => ?_
        exact i1 _
      · exact i1 _
    · simp only [copyNz] at ha hb
      obtain ⟨x, hx, ha⟩ := Res.bind_eq_ok.1 ha
      obtain ⟨y, hy, hb⟩ := Res.bind_eq_ok.1 hb
      rw [h.1, hy] at hx
      cases hx
      split at ha
      · rename_i hp
        rw [if_pos hp] at hb
        obtain ⟨d1, _, ha⟩ := Res.bind_eq_ok.1 ha
        obtain ⟨o1, _, ha⟩ := Res.bind_eq_ok.1 ha
        obtain ⟨d2, _, hb⟩ := Res.bind_eq_ok.1 hb
        obtain ⟨o2, _, hb⟩ := Res.bind_eq_ok.1 hb
        refine i2 _ _ _ _ ?_ ha hb
        exact ⟨h.1, h.2.1, by simp [h.2.2]⟩
      · rename_i hp
        rw [if_neg hp] at hb
        exact i2 _ _ _ _ h ha hb
    · simp only [copyNz] at ha
      obtain ⟨x, hx, ha⟩ := Res.bind_eq_ok.1 ha
      split at ha
      · obtain ⟨d1, e1, ha⟩ := Res.bind_eq_ok.1 ha
        obtain ⟨o1, e2, ha⟩ := Res.bind_eq_ok.1 ha
        obtain ⟨l1, e1⟩ := setIdx_ok e1
        obtain ⟨h1, h2, h3, h4⟩ := h
        refine i3 _ _ _ _ ?_ ha
        exact ⟨h1, by simp [e1, h2], h3, by show a.currNz + 1 ≤ nd; omega⟩
      · exact i3 _ _ _ _ h ha

theorem fillLast_good (dim currDim : Nat) (vals : List Nat) : Good fun st => fillLast dim currDim st vals := by
  obtain ⟨c1, c2, c3⟩ := copyNz_good dim 0
  induction vals with
  | nil =>
    refine ⟨fun a => by simp [fillLast], fun a b a' b' h ha hb => ?_, fun a a' ns nd h ha => ?_⟩
    · simp only [fillLast, Res.ok.injEq] at ha hb; subst ha hb; exact h
    · simp only [fillLast, Res.ok.injEq] at ha; subst ha; exact h
  | cons v vs ih =>
    obtain ⟨i1, i2, i3⟩ := ih
    refine ⟨fun a => ?_, fun a b a' b' h ha hb => ?_, fun a a' ns nd h ha => ?_⟩
    · simp only [fillLast]
      refine bind_ne_throw (setIdx_ne_throw _ _ _) fun w _ => ?_
      refine bind_ne_throw (setIdx_ne_throw _ _ _) fun s _ => ?_
      refine bind_ne_throw (c1 _) fun t _ => ?_
      exact i1 _
    · simp only [fillLast] at ha hb
      obtain ⟨w1, e1, ha⟩ := Res.bind_eq_ok.1 ha
      obtain ⟨s1, _, ha⟩ := Res.bind_eq_ok.1 ha
      obtain ⟨t1, f1, ha⟩ := Res.bind_eq_ok.1 ha
      obtain ⟨w2, e2, hb⟩ := Res.bind_eq_ok.1 hb
      obtain ⟨s2, _, hb⟩ := Res.bind_eq_ok.1 hb
      obtain ⟨t2, f2, hb⟩ := Res.bind_eq_ok.1 hb
      rw [h.1, e2] at e1
      have ew : w2 = w1 := Res.ok.inj e1
      have hs : Same t1 t2 := by
        refine c2 _ _ _ _ ?_ f1 f2
        exact ⟨ew.symm, h.2.1, h.2.2⟩
      refine i2 _ _ _ _ ?_ ha hb
      exact ⟨hs.1, by simp [hs.2.1], hs.2.2⟩
    · simp only [fillLast] at ha
      obtain ⟨w1, e1, ha⟩ := Res.bind_eq_ok.1 ha
      obtain ⟨s1, e2, ha⟩ := Res.bind_eq_ok.1 ha
      obtain ⟨t1, f1, ha⟩ := Res.bind_eq_ok.1 ha
      obtain ⟨l2, e2⟩ := setIdx_ok e2
      obtain ⟨h1, h2, h3, h4⟩ := h
      have hw : Within t1 ns nd := by
        refine c3 _ _ ns nd ?_ f1
        exact ⟨by simp [e2, h1], h2, h3, h4⟩
      have ht : t1.currTerm = a.currTerm := by
        have := copyNz_term dim 0 _ _ f1
        exact this
      refine i3 _ _ ns nd ?_ ha
      exact ⟨hw.1, hw.2.1, by show t1.currTerm + 1 ≤ ns; omega, hw.2.2.2⟩
where
  copyNz_term (n : Nat) : ∀ (i : Nat) (st st' : Fill), copyNz st i n = .ok st' → st'.currTerm = st.currTerm := by
    induction n with
    | zero => intro i st st' h; simp only [copyNz, Res.ok.injEq] at h; rw [h]
    | succ n ih =>
      intro i st st' h
      simp only [copyNz] at h
      obtain ⟨x, hx, h⟩ := Res.bind_eq_ok.1 h
      split at h
      · obtain ⟨d1, e1, h⟩ := Res.bind_eq_ok.1 h
        obtain ⟨o1, e2, h⟩ := Res.bind_eq_ok.1 h
        have := ih (i + 1) { st with dims := d1, orders := o1, currNz := st.currNz + 1 } st' h
        exact this
      · exact ih _ _ _ h

theorem fillInner_good (rec' : Nat → Fill → Res Fill) (hr : ∀ b, Good (rec' b)) (currDim b : Nat) (vals : List Nat) :
    Good fun st => fillInner rec' currDim b st vals := by
  induction vals with
  | nil =>
    refine ⟨fun a => by simp [fillInner], fun a b a' b' h ha hb => ?_, fun a a' ns nd h ha => ?_⟩
    · simp only [fillInner, Res.ok.injEq] at ha hb; subst ha hb; exact h
    · simp only [fillInner, Res.ok.injEq] at ha; subst ha; exact h
  | cons v vs ih =>
    obtain ⟨i1, i2, i3⟩ := ih
    obtain ⟨r1, r2, r3⟩ := hr (b - v)
    refine ⟨fun a => ?_, fun a b a' b' h ha hb => ?_, fun a a' ns nd h ha => ?_⟩
    · simp only [fillInner]
      refine bind_ne_throw (setIdx_ne_throw _ _ _) fun w _ => ?_
      refine bind_ne_throw (r1 _) fun t _ => ?_
      exact i1 _
    · simp only [fillInner] at ha hb
      obtain ⟨w1, e1, ha⟩ := Res.bind_eq_ok.1 ha
      obtain ⟨t1, f1, ha⟩ := Res.bind_eq_ok.1 ha
      obtain ⟨w2, e2, hb⟩ := Res.bind_eq_ok.1 hb
      obtain ⟨t2, f2, hb⟩ := Res.bind_eq_ok.1 hb
      rw [h.1, e2] at e1
      have ew : w2 = w1 := Res.ok.inj e1
      have hs : Same t1 t2 := by
        refine r2 _ _ _ _ ?_ f1 f2
        exact ⟨ew.symm, h.2.1, h.2.2⟩
      exact i2 _ _ _ _ hs ha hb
    · simp only [fillInner] at ha
      obtain ⟨w1, e1, ha⟩ := Res.bind_eq_ok.1 ha
      obtain ⟨t1, f1, ha⟩ := Res.bind_eq_ok.1 ha
      have hw : Within t1 ns nd := by
        refine r3 _ _ ns nd ?_ f1
        exact h
      exact i3 _ _ ns nd hw ha

theorem fillTotalOrder_good (dim rem : Nat) : ∀ currDim b, Good (fillTotalOrder dim rem currDim b) := by
  induction rem with
  | zero => intro c b; exact fillLast_good dim c _
  | succ rem ih => intro c b; exact fillInner_good _ (fun b => ih (c + 1) b) c b _

open MISet in
/-- The fill with arrays of any extents: either it leaves an array, or the counters end at the true sizes, which are then at
most the extents. -/
theorem fill_any (m p ns nd no : Nat) : let st0 : Fill :=
      { starts := List.replicate ns 0, dims := List.replicate nd 0, orders := List.replicate no 0
        workspace := List.replicate (m + 1) 0, currTerm := 0, currNz := 0 }
    fillTotalOrder (m + 1) m 0 p st0 = .ub ∨
    ∃ st, fillTotalOrder (m + 1) m 0 p st0 = .ok st ∧ st.currTerm = (toEnum (m + 1) p).length ∧
      st.currNz = totNz (toEnum (m + 1) p) ∧ Within st ns nd := by
  intro st0
  obtain ⟨g1, g2, g3⟩ := fillTotalOrder_good (m + 1) m 0 p
  obtain ⟨st, e, h1, h2, h3, h4, h5, -⟩ := fillTotalOrder_fs (m + 1) m [] (by simp) p [] 1 0
    { starts := List.replicate ((toEnum (m + 1) p).length + 1) 0
      dims := List.replicate (totNz (toEnum (m + 1) p)) 0
      orders := List.replicate (totNz (toEnum (m + 1) p)) 0
      workspace := List.replicate (m + 1) 0, currTerm := 0, currNz := 0 }
    ⟨by simp [startsFrom], by simp, by simp, rfl, rfl, List.replicate (m + 1) 0, by simp, by simp⟩
  simp only [List.length_nil, List.nil_append, List.map_id'] at e h4 h5
  cases hx : fillTotalOrder (m + 1) m 0 p st0 with
  | ub => exact .inl rfl
  | throw => exact absurd hx (g1 _)
  | ok s =>
    have hs : Same s st := by
      refine g2 _ _ _ _ ?_ hx e
      exact ⟨rfl, rfl, rfl⟩
    refine .inr ⟨s, rfl, hs.2.1.trans h4, hs.2.2.trans h5, g3 _ _ _ _ ⟨by simp [st0], by simp [st0], ?_, ?_⟩ hx⟩
    · exact Nat.zero_le _
    · exact Nat.zero_le _

end MParT.FixedSet
