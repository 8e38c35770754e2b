import Verif.Model.MultiIndex32
import Verif.Props.MultiIndex
import Verif.Props.Neighborhood
import Verif.Props.Limiter
/-!
# Property C107: entries of 32 bits

`Words v`: all entries of `v` are numbers of 32 bits, that is, `v` can be given to the API at all.
-/
namespace MParT
namespace MultiIndex
namespace W32
open Spec

/-- The entries are 32-bit numbers. -/
def Words (v : List Nat) : Prop := ∀ x ∈ v, x < 2 ^ 32

instance (v : List Nat) : Decidable (Words v) := by unfold Words; infer_instance

/-- What a program can build: constructors and in-range calls of `Set`, with the array the user
expects.  Initializer lists only with entries below 2³¹; `C107_fails_initializer` is about the
others. -/
inductive Built : MultiIndex → List Nat → Prop
  | ofVec (v : List Nat) (h : Words v) : Built (W32.ofVec v) v
  | ofInit (v : List Nat) (h : ∀ x ∈ v, x < 2 ^ 31) : Built (W32.ofInit v) v
  | const (n val : Nat) (hv : val < 2 ^ 32) (h : 0 < n ∨ val = 0) :
      Built (W32.const n val) (List.replicate n val)
  | set {m m' : MultiIndex} {v : List Nat} {i val : Nat} {b : Bool}
      (hm : Built m v) (hi : i < v.length) (hv : val < 2 ^ 32) (hs : W32.set m i val = .ok (m', b)) :
      Built m' (v.set i val)

/-- The object for the array `v`: the exact one, except for the sum of the entries. -/
def obj (v : List Nat) : MultiIndex := { MultiIndex.ofVec v with totalOrder := wrap v.sum }

theorem wrap_add_left (a b : Nat) : wrap (wrap a + b) = wrap (a + b) := by
  simp [wrap]

theorem wrap_wrap (a : Nat) : wrap (wrap a) = wrap a := by simp [wrap]

theorem fillLoop_eq (m : MultiIndex) (k : Nat) (v : List Nat) (hm : wrap m.totalOrder = m.totalOrder) :
    fillLoop m k v =
      { m with nzInds := m.nzInds ++ nzI k v
               nzVals := m.nzVals ++ nzV v
               maxValue := max m.maxValue (vmax v)
               totalOrder := wrap (m.totalOrder + v.sum) } := by
  induction v generalizing m k with
  | nil => simp [fillLoop, nzI, nzV, vmax, hm]
  | cons x xs ih =>
    simp only [fillLoop]
    rw [ih _ _ (by unfold pushEntry; split <;> simp [wrap_wrap, hm])]
    unfold pushEntry
    simp only [nzI, nzV, vmax, List.sum_cons]
    split
    · simp [wrap_add_left, Nat.max_assoc, Nat.add_assoc]
    · have : x = 0 := by omega
      subst this; simp

theorem ofVec_eq (v : List Nat) : ofVec v = obj v := by
  unfold ofVec
  rw [fillLoop_eq _ _ _ (by simp [const, wrap])]
  simp [const, MultiIndex.const, obj, MultiIndex.ofVec_eq, wrap]

theorem ofInt_toInt {n : Nat} (h : n < 2 ^ 32) : ofInt (toInt n) = n := by
  unfold ofInt toInt; split <;> omega

theorem max_int {a x : Nat} (ha : a < 2 ^ 31) (hx : x < 2 ^ 32) :
    ofInt (max (toInt a) (toInt x)) = if x < 2 ^ 31 then max a x else a := by
  unfold ofInt toInt
  rw [if_pos ha]
  split
  · omega
  · omega

/-- The largest of the entries below 2³¹. -/
def smallMax (v : List Nat) : Nat := vmax (v.filter fun x => decide (x < 2 ^ 31))

theorem smallMax_cons (x : Nat) (xs : List Nat) :
    smallMax (x :: xs) = if x < 2 ^ 31 then max x (smallMax xs) else smallMax xs := by
  unfold smallMax
  by_cases h : x < 2 ^ 31
  · rw [List.filter_cons_of_pos (by simpa using h), if_pos h]; rfl
  · rw [List.filter_cons_of_neg (by simpa using h), if_neg h]

theorem smallMax_lt (v : List Nat) : smallMax v < 2 ^ 31 := by
  induction v with
  | nil => simp [smallMax, vmax]
  | cons x xs ih => rw [smallMax_cons]; split <;> omega

theorem initLoop_eq (m : MultiIndex) (k : Nat) (v : List Nat) (hv : Words v)
    (hm : wrap m.totalOrder = m.totalOrder) (hx : m.maxValue < 2 ^ 31) :
    initLoop m k v =
      { m with nzInds := m.nzInds ++ nzI k v
               nzVals := m.nzVals ++ nzV v
               maxValue := max m.maxValue (smallMax v)
               totalOrder := wrap (m.totalOrder + v.sum) } := by
  induction v generalizing m k with
  | nil => simp [initLoop, nzI, nzV, vmax, hm, smallMax]
  | cons x xs ih =>
    simp only [initLoop]
    have h0 := hv x (by simp)
    rw [ih _ _ (fun y hy => hv y (by simp [hy])) (by unfold pushInit; split <;> simp [wrap_wrap, hm])
      (by unfold pushInit; split
          · simp only [max_int hx h0]; split <;> omega
          · exact hx)]
    unfold pushInit
    simp only [nzI, nzV, List.sum_cons, smallMax_cons]
    split
    · simp only [max_int hx h0, List.append_assoc, List.singleton_append, wrap_add_left,
        Nat.add_assoc]
      split <;> simp [Nat.max_assoc]
    · have : x = 0 := by omega
      subst this; simp

theorem ofInit_eq (v : List Nat) (hv : Words v) :
    ofInit v = { obj v with maxValue := smallMax v } := by
  unfold ofInit
  rw [initLoop_eq _ _ _ hv (by simp [const, wrap]) (by simp [const, MultiIndex.const])]
  simp [const, MultiIndex.const, obj, MultiIndex.ofVec_eq, wrap]

theorem smallMax_eq (v : List Nat) (hv : ∀ x ∈ v, x < 2 ^ 31) : smallMax v = vmax v := by
  unfold smallMax
  rw [List.filter_eq_self.2 (by simpa using hv)]

theorem refresh_wrap (l : List Nat) (s : Nat) :
    l.foldl (fun s x => wrap (s + x)) (wrap s) = wrap (l.foldl (fun s x => s + x) s) := by
  induction l generalizing s with
  | nil => rfl
  | cons x xs ih => simp only [List.foldl_cons, wrap_add_left]; exact ih (s + x)

theorem set_eq (m : MultiIndex) (i val : Nat) (hm : wrap m.totalOrder = m.totalOrder) :
    set m i val = (MultiIndex.set m i val) >>= fun r =>
      Res.ok ({ r.1 with totalOrder := wrap r.1.totalOrder }, r.2) := by
  have hr : ∀ k : MultiIndex, refresh k =
      { MultiIndex.refresh k with totalOrder := wrap (MultiIndex.refresh k).totalOrder } := by
    intro k
    have := refresh_wrap k.nzVals 0
    simp only [refresh, MultiIndex.refresh]
    rw [← this]; rfl
  unfold set MultiIndex.set
  split
  · rfl
  · dsimp only
    split
    · split
      · cases h : Res.setAt m.nzVals (lowerBound m.nzInds i) val <;>
          simp [hr]
      · simp [hr]
    · split
      · simp [hm]
      · simp [hr]

theorem set_obj {v : List Nat} {j : Nat} (val : Nat) (hj : j < v.length) :
    set (obj v) j val = .ok (obj (v.set j val), decide (0 < v.getD j 0)) := by
  rw [set_eq _ _ _ (by simp [obj, wrap_wrap])]
  have h := MultiIndex.set_ofVec val hj
  have key : ∀ t, MultiIndex.set { MultiIndex.ofVec v with totalOrder := t } j val =
      (MultiIndex.set (MultiIndex.ofVec v) j val) >>= fun r =>
        Res.ok ({ r.1 with totalOrder := if v.getD j 0 = 0 ∧ val = 0 then t else r.1.totalOrder }, r.2) := by
    intro t
    have h1 := lookup_nz 0 j v
    simp only [Nat.zero_add] at h1
    unfold MultiIndex.set
    dsimp only
    have hle : ¬ j > v.length := by omega
    simp only [ofVec_length, if_neg hle, ofVec_nzInds, ofVec_nzVals]
    split
    · rename_i he
      have hp : v.getD j 0 ≠ 0 := by
        have := h1.1.1 (by simpa using he); omega
      simp only [hp, false_and, if_false]
      split
      · cases Res.setAt (nzV v) (lowerBound (nzI 0 v) j) val <;> simp [MultiIndex.refresh]
      · simp [MultiIndex.refresh]
    · rename_i he
      have hz : v.getD j 0 = 0 := by
        by_contra hc
        exact he (by simpa using h1.1.2 (by omega))
      by_cases h0 : val = 0
      · simp [h0, List.getD_eq_getElem?_getD ▸ hz]
      · simp [h0, MultiIndex.refresh]
  unfold obj
  rw [key, h]
  simp only [Res.bind_ok, Res.ok.injEq, Prod.mk.injEq, and_true]
  split
  · rename_i hz
    have : v.set j val = v := by
      rw [hz.2]
      have := set_getD_self v j
      rw [hz.1] at this; exact this
    rw [this]; simp [wrap_wrap]
  · simp

theorem Built.eq_obj {m : MultiIndex} {v : List Nat} (h : Built m v) : m = obj v ∧ Words v := by
  induction h with
  | ofVec v h => exact ⟨ofVec_eq v, h⟩
  | ofInit v h =>
    have hw : Words v := fun x hx => by have := h x hx; omega
    refine ⟨?_, hw⟩
    rw [ofInit_eq v hw, smallMax_eq v h]
    simp [obj]
  | const n val hv h =>
    refine ⟨?_, fun x hx => by rw [(List.mem_replicate.1 hx).2]; exact hv⟩
    unfold W32.const obj
    rw [MultiIndex.const_eq_ofVec n val h]
    simp
  | set hm hi hv hs ih =>
    obtain ⟨rfl, hw⟩ := ih
    rw [set_obj _ hi] at hs
    simp only [Res.ok.injEq, Prod.mk.injEq] at hs
    refine ⟨hs.1.symm, fun x hx => ?_⟩
    rcases List.mem_or_eq_of_mem_set hx with h | h
    · exact hw x h
    · omega

theorem get_obj (v : List Nat) (i : Nat) : (obj v).get i = (MultiIndex.ofVec v).get i := rfl

/-- **C107.** Whatever 32-bit numbers the entries are, the entries, the length, the maximum and the
number of nonzeros are right; the sum is right modulo 2³². -/
theorem C107_entries {m : MultiIndex} {v : List Nat} (h : Built m v) :
    m.vector = .ok v ∧ (∀ i (hi : i < v.length), m.get i = .ok v[i]) ∧ m.length = v.length ∧
    m.max' = vmax v ∧ m.numNz = nnz v ∧ m.sum = v.sum % 2 ^ 32 := by
  obtain ⟨rfl, _⟩ := h.eq_obj
  obtain ⟨a, b, c, _, _, _, e⟩ := C01_roundtrip v
  exact ⟨a, b, c, by simp [max', obj], e, rfl⟩

/-- **C107.** In-range `Set` returns normally. -/
theorem C107_set {m : MultiIndex} {v : List Nat} (h : Built m v) {i val : Nat} (hv : val < 2 ^ 32)
    (hi : i < v.length) :
    ∃ m', W32.set m i val = .ok (m', decide (0 < v[i])) ∧ Built m' (v.set i val) := by
  obtain ⟨e, _⟩ := h.eq_obj
  have hs := set_obj val hi
  rw [← e, getD_lt hi] at hs
  exact ⟨_, hs, .set h hi hv hs⟩

/-- **C107.** As long as the sum of the entries is a 32-bit number, the object is the one computed
with exact numbers: C01 to C06 apply to it. -/
theorem C107_small {m : MultiIndex} {v : List Nat} (h : Built m v) (hs : v.sum < 2 ^ 32) :
    MultiIndex.Built m v := by
  obtain ⟨rfl, _⟩ := h.eq_obj
  have : obj v = MultiIndex.ofVec v := by
    unfold obj wrap
    rw [Nat.mod_eq_of_lt hs]
    simp [MultiIndex.ofVec_eq]
  rw [this]; exact .ofVec v

theorem ne_obj (u v : List Nat) : ne (obj u) (obj v) = .ok (!(decide (u = v))) := by
  by_cases h : u = v
  · subst h
    have := ne_ofVec u u
    simp only [ne] at this ⊢
    simp only [obj] at *
    simpa using this
  · simp only [ne, obj, ofVec_length, ofVec_maxValue, ofVec_nzInds, ofVec_nzVals]
    have h' := ne_ofVec u v
    simp only [ne, ofVec_length, ofVec_maxValue, ofVec_nzInds, ofVec_nzVals, ofVec_totalOrder] at h'
    split
    · simp [h]
    · rename_i hc
      push Not at hc
      by_cases hl : v.length = u.length ∧ nzI 0 v = nzI 0 u ∧ nzV v = nzV u
      · exact absurd (nz_inj hl.1 hl.2.1 hl.2.2).symm h
      · split
        · simp [h]
        · rename_i hn
          push Not at hn
          rw [nzI_length, nzI_length] at hn
          rw [neLoop_eq _ _ _ _ (by simp [nzI_length, hn]) (by simp [nzI_length, nzV_length])
            (by simp [nzI_length, nzV_length, hn])]
          congr 1
          have : ¬ (nzI 0 u = nzI 0 v ∧ nzV u = nzV v) := by
            rintro ⟨x, y⟩; exact hl ⟨hc.1, x.symm, y.symm⟩
          simp [this, h]

/-- The order on arrays that the 32-bit comparison computes. -/
def WLt (u v : List Nat) : Prop :=
  u.length < v.length ∨ (u.length = v.length ∧ (wrap u.sum < wrap v.sum ∨ (wrap u.sum = wrap v.sum ∧
    (vmax u < vmax v ∨ (vmax u = vmax v ∧ u < v)))))

instance (u v : List Nat) : Decidable (WLt u v) := by unfold WLt; infer_instance

theorem ltLoop_obj (u v : List Nat) (i n : Nat) :
    ltLoop (obj u) (obj v) i n = ltLoop (MultiIndex.ofVec u) (MultiIndex.ofVec v) i n := by
  induction n generalizing i with
  | zero => rfl
  | succ n ih => simp only [ltLoop, get_obj, ih]

theorem lt_obj (u v : List Nat) : lt (obj u) (obj v) = .ok (decide (WLt u v)) := by
  simp only [lt, ltLoop_obj]
  simp only [obj, ofVec_length, ofVec_maxValue]
  split
  · rename_i h; simp [WLt, h]
  split
  · rename_i h1 h2
    have : u.length ≠ v.length := by omega
    simp [WLt, h1, this]
  rename_i h1 h2
  have hl : u.length = v.length := by omega
  split
  · rename_i h; simp [WLt, hl, h]
  split
  · rename_i h3 h4
    have : wrap u.sum ≠ wrap v.sum := by omega
    simp [WLt, hl, h3, this]
  rename_i h3 h4
  have hs : wrap u.sum = wrap v.sum := by omega
  split
  · rename_i h; simp [WLt, hl, hs, h]
  split
  · rename_i h5 h6
    have : vmax u ≠ vmax v := by omega
    simp [WLt, hl, hs, h5, this]
  rename_i h5 h6
  have hm : vmax u = vmax v := by omega
  rw [ltLoop_eq u v hl 0 _ (by omega)]
  simp [WLt, hl, hs, hm]

theorem WLt.irrefl (u : List Nat) : ¬ WLt u u := by simp [WLt]

theorem WLt.trans {u v w : List Nat} (h1 : WLt u v) (h2 : WLt v w) : WLt u w := by
  unfold WLt at *
  rcases h1 with h1 | ⟨a, h1 | ⟨b, h1 | ⟨c, h1⟩⟩⟩ <;>
  rcases h2 with h2 | ⟨a', h2 | ⟨b', h2 | ⟨c', h2⟩⟩⟩ <;>
  first
    | (left; omega)
    | (right; refine ⟨by omega, ?_⟩
       first
         | (left; omega)
         | (right; refine ⟨by omega, ?_⟩
            first
              | (left; omega)
              | (right; exact ⟨by omega, lt_trans h1 h2⟩)))

theorem WLt.total (u v : List Nat) : WLt u v ∨ u = v ∨ WLt v u := by
  unfold WLt
  rcases lt_trichotomy u.length v.length with h | h | h
  · left; left; exact h
  · rcases lt_trichotomy (wrap u.sum) (wrap v.sum) with h' | h' | h'
    · left; right; exact ⟨h, Or.inl h'⟩
    · rcases lt_trichotomy (vmax u) (vmax v) with h'' | h'' | h''
      · left; right; exact ⟨h, Or.inr ⟨h', Or.inl h''⟩⟩
      · rcases lt_trichotomy u v with g | g | g
        · left; right; exact ⟨h, Or.inr ⟨h', Or.inr ⟨h'', g⟩⟩⟩
        · right; left; exact g
        · right; right; right; exact ⟨h.symm, Or.inr ⟨h'.symm, Or.inr ⟨h''.symm, g⟩⟩⟩
      · right; right; right; exact ⟨h.symm, Or.inr ⟨h'.symm, Or.inl h''⟩⟩
    · right; right; right; exact ⟨h.symm, Or.inl h'⟩
  · right; right; left; exact h

/-- **C107.** Whatever 32-bit numbers the entries are, `==` is equality of the arrays and `<` is a
strict total order, so that containers ordered by it are sound. -/
theorem C107_order :
    (∀ {a b : MultiIndex} {u v : List Nat}, Built a u → Built b v →
      MultiIndex.eq a b = .ok (decide (u = v)) ∧ ne a b = .ok (!decide (u = v)) ∧
      ∃ l g : Bool, lt a b = .ok l ∧ lt b a = .ok g ∧
        gt a b = .ok g ∧ le a b = .ok (!g) ∧ ge a b = .ok (!l) ∧
        ((l = true ∧ u ≠ v ∧ g = false) ∨ (l = false ∧ u = v ∧ g = false) ∨
         (l = false ∧ u ≠ v ∧ g = true))) ∧
    (∀ {a b c : MultiIndex} {u v w : List Nat}, Built a u → Built b v → Built c w →
      lt a b = .ok true → lt b c = .ok true → lt a c = .ok true) := by
  constructor
  · intro a b u v ha hb
    obtain ⟨rfl, _⟩ := ha.eq_obj
    obtain ⟨rfl, _⟩ := hb.eq_obj
    refine ⟨by simp [MultiIndex.eq, ne_obj], ne_obj u v, decide (WLt u v), decide (WLt v u),
      lt_obj u v, lt_obj v u, by simp [gt, lt_obj], by simp [le, gt, lt_obj],
      by simp [ge, lt_obj], ?_⟩
    simp only [decide_eq_true_eq, decide_eq_false_iff_not]
    rcases WLt.total u v with h | h | h
    · left; refine ⟨h, ?_, fun h' => WLt.irrefl _ (h.trans h')⟩
      rintro rfl; exact WLt.irrefl _ h
    · right; left; subst h; exact ⟨WLt.irrefl _, rfl, WLt.irrefl _⟩
    · right; right; refine ⟨fun h' => WLt.irrefl _ (h.trans h'), ?_, h⟩
      rintro rfl; exact WLt.irrefl _ h
  · intro a b c u v w ha hb hc h1 h2
    obtain ⟨rfl, _⟩ := ha.eq_obj
    obtain ⟨rfl, _⟩ := hb.eq_obj
    obtain ⟨rfl, _⟩ := hc.eq_obj
    rw [lt_obj] at *
    simp only [Res.ok.injEq, decide_eq_true_eq] at *
    exact h1.trans h2

-- entries whose sum is not a 32-bit number, reached through the constructors and `Set`
example : Built (W32.ofVec [4294967295, 1]) [4294967295, 1] ∧
    (W32.ofVec [4294967295, 1]).sum = 0 ∧
    lt (W32.ofVec [4294967295, 1]) (W32.ofVec [0, 1]) = .ok true ∧
    ∃ m, Built m [2147483648, 2147483648] := by
  refine ⟨.ofVec _ (by decide), by decide, by decide, ?_⟩
  obtain ⟨m, _, h⟩ := C107_set (.const 2 2147483648 (by decide) (by decide)) (i := 0)
    (val := 2147483648) (by decide) (by decide)
  exact ⟨m, h⟩

theorem vmax_ge {v : List Nat} {x : Nat} (hx : x ∈ v) : x ≤ vmax v := by
  induction v with
  | nil => simp at hx
  | cons y ys ih =>
    rcases List.mem_cons.1 hx with h | h
    · subst h; simp [vmax]
    · have := ih h; simp [vmax]; right; exact this

/-- **C107, disagreement.** An initializer list with an entry from 2³¹ on gives an object that holds the
right entries but is different from, and smaller than, the object built from the same array in any
other way; a `MultiIndexSet` that contains one does not find the other. -/
theorem C107_fails_initializer (v : List Nat) (hv : Words v) (hx : ∃ x ∈ v, 2 ^ 31 ≤ x) :
    (ofInit v).vector = .ok v ∧ (ofVec v).vector = .ok v ∧
    MultiIndex.eq (ofInit v) (ofVec v) = .ok false ∧ lt (ofInit v) (ofVec v) = .ok true ∧
    (ofInit v).max' ≠ vmax v ∧
    ∀ g, MISet.mapFind (ofInit v) [(ofVec v, g)] = .ok none := by
  obtain ⟨x, hx, hlt⟩ := hx
  have h1 := smallMax_lt v
  have h2 := vmax_ge hx
  have hne : vmax v ≠ smallMax v := by omega
  have hlt' : lt (ofInit v) (ofVec v) = .ok true := by
    rw [ofInit_eq v hv, ofVec_eq]
    simp only [lt, obj, ofVec_length, ofVec_maxValue]
    simp [show smallMax v < vmax v by omega]
  have hgt : lt (ofVec v) (ofInit v) = .ok false := by
    rw [ofInit_eq v hv, ofVec_eq]
    simp only [lt, obj, ofVec_length, ofVec_maxValue]
    have a : ¬ vmax v < smallMax v := by omega
    simp [a, show smallMax v < vmax v by omega]
  refine ⟨?_, ?_, ?_, hlt', ?_, fun g => ?_⟩
  · rw [ofInit_eq v hv]; exact vector_ofVec v
  · rw [ofVec_eq]; exact vector_ofVec v
  · rw [ofInit_eq v hv, ofVec_eq]
    simp [MultiIndex.eq, ne, obj, hne]
  · rw [ofInit_eq v hv]; simp [max']; omega
  · simp only [MISet.mapFind, hlt', hgt, Res.bind_ok]
    simp

example : Words [2147483648] ∧ ∃ x ∈ [2147483648], 2 ^ 31 ≤ x := by decide

/-- **C107, disagreement.** `TotalOrder(p)` looks at the sum modulo 2³², so that it accepts entries as
large as 2³¹ whatever `p` is. -/
theorem C107_fails_totalOrder (p : Nat) :
    Built (ofVec [2147483648, 2147483648]) [2147483648, 2147483648] ∧
    Limiter.totalOrder p (ofVec [2147483648, 2147483648]) = .ok true := by
  refine ⟨.ofVec _ (by decide), ?_⟩
  have : (ofVec [2147483648, 2147483648]).sum = 0 := by decide
  simp [Limiter.totalOrder, this]

/-- **C107.** `TotalOrder(p)` is right as long as the sum is a 32-bit number. -/
theorem C107_totalOrder {m : MultiIndex} {v : List Nat} (h : Built m v) (hs : v.sum < 2 ^ 32) (p : Nat) :
    Limiter.totalOrder p m = .ok (decide (v.sum ≤ p)) :=
  Limiter.C06_totalOrder (C107_small h hs) p

/-- **C107, disagreement.** `IsForward` adds up the differences modulo 2³², so that it takes a far away
multi-index for a neighbour. -/
theorem C107_fails_isForward :
    isForward (ofVec [1, 0, 1]) (ofVec [2, 4294967295, 2]) = .ok true ∧
    ¬ Spec.Fwd [1, 0, 1] [2, 4294967295, 2] := by
  refine ⟨by decide, ?_⟩
  rintro ⟨i, hi, h⟩
  rcases i with _ | _ | _ | i
  · simp [Spec.inc] at h
  · simp [Spec.inc] at h
  · simp [Spec.inc] at h
  · simp at hi; omega

/-- **C107, disagreement.** The forward neighbour of the largest entry is zero. -/
theorem C107_fails_forward : forwardNeighbors (ofVec [4294967295]) = .ok [ofVec [0]] := by decide

theorem forwardLoop_eq (n : Nat) : ∀ (vec : List Nat) (i : Nat) (out : List MultiIndex),
    (∀ x ∈ vec, x + 1 < 2 ^ 32) → vec.sum + 1 < 2 ^ 32 → i + n = vec.length →
    forwardLoop vec out i n = Neighborhood.forwardLoop vec out i n := by
  induction n with
  | zero => intros; rfl
  | succ n ih =>
    intro vec i out hv hs hn
    have hi : i < vec.length := by omega
    have hx := hv vec[i] (List.getElem_mem hi)
    have e1 : Res.at' vec i = .ok vec[i] := by simp [Res.at', hi]
    simp only [forwardLoop, Neighborhood.forwardLoop, e1, Res.bind_ok]
    have w1 : wrap (vec[i] + 1) = vec[i] + 1 := Nat.mod_eq_of_lt hx
    rw [w1]
    have e2 : Res.setAt vec i (vec[i] + 1) = .ok (vec.set i (vec[i] + 1)) := by
      simp [Res.setAt, hi]
    rw [e2]
    simp only [Res.bind_ok]
    have e3 : Res.at' (vec.set i (vec[i] + 1)) i = .ok (vec[i] + 1) := by
      simp [Res.at', hi]
    rw [e3]
    simp only [Res.bind_ok]
    have w2 : wrap (vec[i] + 1 + 2 ^ 32 - 1) = vec[i] + 1 - 1 := by unfold wrap; omega
    rw [w2]
    have e4 : Res.setAt (vec.set i (vec[i] + 1)) i (vec[i] + 1 - 1) = .ok vec := by
      simp [Res.setAt, hi]
    rw [e4]
    simp only [Res.bind_ok]
    have e5 : ofVec (vec.set i (vec[i] + 1)) = MultiIndex.ofVec (vec.set i (vec[i] + 1)) := by
      rw [ofVec_eq]
      have hsum : (vec.set i (vec[i] + 1)).sum = vec.sum + 1 := by
        clear ih e1 e2 e3 e4 w1 w2 hx hs hv hn
        induction vec generalizing i with
        | nil => simp at hi
        | cons y ys ihy =>
          cases i with
          | zero => simp; omega
          | succ i =>
            simp only [List.length_cons] at hi
            have := ihy i (by omega)
            simp only [List.set_cons_succ, List.sum_cons, List.getElem_cons_succ]
            omega
      unfold obj wrap
      rw [Nat.mod_eq_of_lt (by omega)]
      simp [MultiIndex.ofVec_eq]
    rw [e5]
    exact ih vec (i + 1) _ hv hs (by omega)

/-- **C107.** Below the limit, the forward neighbours are those of C05. -/
theorem C107_forward {m : MultiIndex} {v : List Nat} (h : Built m v) (hs : v.sum + 1 < 2 ^ 32) :
    forwardNeighbors m = Neighborhood.forwardNeighbors (MultiIndex.ofVec v) := by
  obtain ⟨rfl, _⟩ := h.eq_obj
  unfold forwardNeighbors Neighborhood.forwardNeighbors
  have : (obj v).vector = .ok v := vector_ofVec v
  rw [this, vector_ofVec]
  simp only [Res.bind_ok]
  refine forwardLoop_eq _ v 0 [] (fun x hx => ?_) hs (by omega)
  have := List.single_le_sum (by intros; omega) x hx
  omega

end W32
end MultiIndex
end MParT
