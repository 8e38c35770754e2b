import Verif.Model.MultiIndex
import Verif.Spec.Vec
import Mathlib.Data.List.Basic
import Mathlib.Data.List.Lex
import Mathlib.Data.List.InsertIdx
import Mathlib.Data.List.Infix
import Mathlib.Tactic.Ring
/-! Helper lemmas: closed forms of the sparse multi-index representation. -/
namespace MParT
namespace MultiIndex
open Spec

/-- Positions (offset by `k`) of the nonzero entries. -/
def nzI (k : Nat) : List Nat → List Nat
  | [] => []
  | x :: xs => if x > 0 then k :: nzI (k + 1) xs else nzI (k + 1) xs

/-- Values of the nonzero entries. -/
def nzV : List Nat → List Nat
  | [] => []
  | x :: xs => if x > 0 then x :: nzV xs else nzV xs

theorem fillLoop_eq (m : MultiIndex) (k : Nat) (v : List Nat) :
    fillLoop m k v =
      { m with nzInds := m.nzInds ++ nzI k v
               nzVals := m.nzVals ++ nzV v
               maxValue := max m.maxValue (vmax v)
               totalOrder := m.totalOrder + v.sum } := by
  induction v generalizing m k with
  | nil => simp [fillLoop, nzI, nzV, vmax]
  | cons x xs ih =>
    simp only [fillLoop, ih, pushEntry, nzI, nzV, vmax, List.sum_cons]
    split <;> simp_all [Nat.max_assoc, Nat.add_assoc]

theorem ofVec_eq (v : List Nat) :
    ofVec v = { length := v.length, nzInds := nzI 0 v, nzVals := nzV v,
                maxValue := vmax v, totalOrder := v.sum } := by
  simp [ofVec, fillLoop_eq, const]

@[simp] theorem ofVec_length (v : List Nat) : (ofVec v).length = v.length := by simp [ofVec_eq]
@[simp] theorem ofVec_totalOrder (v : List Nat) : (ofVec v).totalOrder = v.sum := by simp [ofVec_eq]
@[simp] theorem ofVec_maxValue (v : List Nat) : (ofVec v).maxValue = vmax v := by simp [ofVec_eq]
@[simp] theorem ofVec_nzInds (v : List Nat) : (ofVec v).nzInds = nzI 0 v := by simp [ofVec_eq]
@[simp] theorem ofVec_nzVals (v : List Nat) : (ofVec v).nzVals = nzV v := by simp [ofVec_eq]

theorem nzI_length (k : Nat) (v : List Nat) : (nzI k v).length = nnz v := by
  induction v generalizing k with
  | nil => simp [nzI, nnz]
  | cons x xs ih =>
    have := ih (k + 1)
    simp only [nzI, nnz, List.countP_cons] at *
    split <;> rename_i h
    · have : x ≠ 0 := by omega
      simp_all
    · have : x = 0 := by omega
      simp_all

theorem nzV_length (v : List Nat) : (nzV v).length = nnz v := by
  induction v with
  | nil => simp [nzV, nnz]
  | cons x xs ih =>
    simp only [nzV, nnz, List.countP_cons] at *
    split <;> rename_i h
    · have : x ≠ 0 := by omega
      simp_all
    · have : x = 0 := by omega
      simp_all

theorem nzI_ge {k : Nat} {v : List Nat} {a : Nat} (h : a ∈ nzI k v) : k ≤ a := by
  induction v generalizing k with
  | nil => simp [nzI] at h
  | cons x xs ih =>
    simp only [nzI] at h
    split at h
    · rcases List.mem_cons.1 h with h | h
      · omega
      · have := ih h; omega
    · have := ih h; omega

theorem nzI_lt {k : Nat} {v : List Nat} {a : Nat} (h : a ∈ nzI k v) : a < k + v.length := by
  induction v generalizing k with
  | nil => simp [nzI] at h
  | cons x xs ih =>
    simp only [nzI] at h
    simp only [List.length_cons]
    split at h
    · rcases List.mem_cons.1 h with h | h
      · omega
      · have := ih h; omega
    · have := ih h; omega

theorem nzI_sorted (k : Nat) (v : List Nat) : (nzI k v).Pairwise (· < ·) := by
  induction v generalizing k with
  | nil => simp [nzI]
  | cons x xs ih =>
    simp only [nzI]
    split
    · refine List.pairwise_cons.2 ⟨fun a ha => ?_, ih _⟩
      have := nzI_ge ha; omega
    · exact ih _

theorem nzV_pos {v : List Nat} {a : Nat} (h : a ∈ nzV v) : 0 < a := by
  induction v with
  | nil => simp [nzV] at h
  | cons x xs ih =>
    simp only [nzV] at h
    split at h
    · rcases List.mem_cons.1 h with h | h
      · omega
      · exact ih h
    · exact ih h

theorem nzV_foldl_sum (v : List Nat) (s : Nat) :
    (nzV v).foldl (fun s x => s + x) s = s + v.sum := by
  induction v generalizing s with
  | nil => simp [nzV]
  | cons x xs ih =>
    simp only [nzV, List.sum_cons]
    split
    · simp only [List.foldl_cons, ih]; omega
    · simp only [ih]; omega

theorem nzV_foldl_max (v : List Nat) (s : Nat) :
    (nzV v).foldl (fun s x => max s x) s = max s (vmax v) := by
  induction v generalizing s with
  | nil => simp [nzV, vmax]
  | cons x xs ih =>
    simp only [nzV, vmax]
    split
    · simp only [List.foldl_cons, ih]; omega
    · simp only [ih]; omega

/-! ### Dense round trip -/

theorem vectorLoop_eq (pre xs : List Nat) :
    vectorLoop (pre ++ List.replicate xs.length 0) (nzI pre.length xs) (nzV xs)
      = .ok (pre ++ xs) := by
  induction xs generalizing pre with
  | nil => simp [nzI, nzV, vectorLoop]
  | cons x xs ih =>
    have key := ih (pre ++ [x])
    simp only [nzI, nzV]
    split
    · rename_i h
      simp only [vectorLoop]
      rw [if_pos (by simp)]
      have : (pre ++ List.replicate (x :: xs).length 0).set pre.length x
          = (pre ++ [x]) ++ List.replicate xs.length 0 := by
        simp [List.replicate_succ]
      rw [this]
      simpa using key
    · rename_i h
      have hx : x = 0 := by omega
      subst hx
      have : pre ++ List.replicate (0 :: xs).length 0
          = (pre ++ [0]) ++ List.replicate xs.length 0 := by
        simp [List.replicate_succ]
      rw [this]
      simpa using key

theorem vector_ofVec (v : List Nat) : (ofVec v).vector = .ok v := by
  have := vectorLoop_eq [] v
  simpa [vector] using this

theorem ofVec_injective {u v : List Nat} (h : ofVec u = ofVec v) : u = v := by
  have h1 := vector_ofVec u
  rw [h, vector_ofVec v] at h1
  simpa using h1.symm

@[simp] theorem ofVec_inj {u v : List Nat} : ofVec u = ofVec v ↔ u = v :=
  ⟨ofVec_injective, fun h => by rw [h]⟩

/-! ### lower_bound on the sparse indices -/

theorem lowerBound_cons_lt {a ind : Nat} {l : List Nat} (h : a < ind) :
    lowerBound (a :: l) ind = lowerBound l ind + 1 := by
  simp [lowerBound, List.findIdx_cons, h]

theorem lowerBound_cons_ge {a ind : Nat} {l : List Nat} (h : ¬ a < ind) :
    lowerBound (a :: l) ind = 0 := by
  simp [lowerBound, List.findIdx_cons, h]

theorem lowerBound_of_all_gt {l : List Nat} {ind : Nat} (h : ∀ a ∈ l, ind < a) :
    lowerBound l ind = 0 := by
  cases l with
  | nil => simp [lowerBound]
  | cons a l =>
    apply lowerBound_cons_ge
    have := h a (by simp); omega

/-- Lookup of a position in the sparse form. -/
theorem lookup_nz (k j : Nat) (v : List Nat) :
    ((nzI k v)[lowerBound (nzI k v) (k + j)]? = some (k + j) ↔ 0 < v.getD j 0) ∧
    (0 < v.getD j 0 → (nzV v)[lowerBound (nzI k v) (k + j)]? = some (v.getD j 0)) := by
  induction v generalizing k j with
  | nil => simp [nzI]
  | cons x xs ih =>
    simp only [nzI, nzV]
    split
    · rename_i hx
      cases j with
      | zero =>
        rw [lowerBound_cons_ge (by omega)]
        simp; omega
      | succ j =>
        rw [lowerBound_cons_lt (by omega)]
        have := ih (k + 1) j
        have e : k + 1 + j = k + (j + 1) := by omega
        rw [e] at this
        simpa using this
    · rename_i hx
      cases j with
      | zero =>
        have h0 : lowerBound (nzI (k + 1) xs) (k + 0) = 0 :=
          lowerBound_of_all_gt (fun a ha => by have := nzI_ge ha; omega)
        rw [h0]
        have hx0 : x = 0 := by omega
        subst hx0
        simp only [List.getD_cons_zero, Nat.lt_irrefl, iff_false, false_imp_iff, and_true]
        intro hc
        have := List.mem_of_getElem? hc
        have := nzI_ge this
        omega
      | succ j =>
        have := ih (k + 1) j
        have e : k + 1 + j = k + (j + 1) := by omega
        rw [e] at this
        simpa using this

theorem get_ofVec (v : List Nat) (i : Nat) :
    (ofVec v).get i = if v.length < i then .throw else .ok (v.getD i 0) := by
  simp only [get, ofVec_length, ofVec_nzInds, ofVec_nzVals]
  split
  · rfl
  · have h := lookup_nz 0 i v
    simp only [Nat.zero_add] at h
    by_cases hp : 0 < v.getD i 0
    · simp [h.1.2 hp, Res.at', h.2 hp]
    · have : ¬ (nzI 0 v)[lowerBound (nzI 0 v) i]? = some i := fun hc => hp (h.1.1 hc)
      simp only [beq_iff_eq, this, if_false]
      congr 1; omega

theorem get_ofVec_lt {v : List Nat} {i : Nat} (h : i < v.length) :
    (ofVec v).get i = .ok (v.getD i 0) := by
  rw [get_ofVec, if_neg (by omega)]

/-! ### Set -/

theorem nz_set (k j val : Nat) (v : List Nat) (hj : j < v.length) :
    let p := lowerBound (nzI k v) (k + j)
    (0 < v.getD j 0 → 0 < val →
      p < (nzV v).length ∧ nzI k (v.set j val) = nzI k v ∧ nzV (v.set j val) = (nzV v).set p val) ∧
    (0 < v.getD j 0 → val = 0 →
      nzI k (v.set j val) = (nzI k v).eraseIdx p ∧ nzV (v.set j val) = (nzV v).eraseIdx p) ∧
    (v.getD j 0 = 0 → 0 < val →
      nzI k (v.set j val) = (nzI k v).insertIdx p (k + j) ∧
      nzV (v.set j val) = (nzV v).insertIdx p val) := by
  intro p
  induction v generalizing k j with
  | nil => simp at hj
  | cons x xs ih =>
    cases j with
    | zero =>
      by_cases hx : 0 < x
      · have hp : p = 0 := by
          simp only [p, nzI, hx, gt_iff_lt, if_true]
          exact lowerBound_cons_ge (by omega)
        rw [hp]
        refine ⟨fun _ hv => ?_, fun _ hv => ?_, fun h => ?_⟩
        · simp [nzI, nzV, hx, hv]
        · simp [nzI, nzV, hx, hv]
        · simp at h; omega
      · have hx0 : x = 0 := by omega
        have hp : p = 0 := by
          simp only [p, nzI, hx, gt_iff_lt, if_false]
          exact lowerBound_of_all_gt (fun a ha => by have := nzI_ge ha; omega)
        rw [hp]
        refine ⟨fun h => ?_, fun h => ?_, fun _ hv => ?_⟩
        · simp at h; omega
        · simp at h; omega
        · simp [nzI, nzV, hx, hv]
    | succ j =>
      have e : k + 1 + j = k + (j + 1) := by omega
      have ih' := ih (k + 1) j (by simpa using hj)
      simp only [e] at ih'
      by_cases hx : 0 < x
      · have hp : p = lowerBound (nzI (k + 1) xs) (k + (j + 1)) + 1 := by
          simp only [p, nzI, hx, gt_iff_lt, if_true]
          exact lowerBound_cons_lt (by omega)
        rw [hp]
        simp only [List.getD_cons_succ, List.set_cons_succ, nzI, nzV, hx, gt_iff_lt, if_true,
          List.length_cons, List.eraseIdx_cons_succ, List.insertIdx_succ_cons]
        refine ⟨fun h hv => ?_, fun h hv => ?_, fun h hv => ?_⟩
        · obtain ⟨h1, h2, h3⟩ := ih'.1 h hv
          exact ⟨by omega, by rw [h2], by rw [h3]⟩
        · obtain ⟨h2, h3⟩ := ih'.2.1 h hv
          exact ⟨by rw [h2], by rw [h3]⟩
        · obtain ⟨h2, h3⟩ := ih'.2.2 h hv
          exact ⟨by rw [h2], by rw [h3]⟩
      · have hp : p = lowerBound (nzI (k + 1) xs) (k + (j + 1)) := by
          simp only [p, nzI, hx, gt_iff_lt, if_false]
        rw [hp]
        simp only [List.getD_cons_succ, List.set_cons_succ, nzI, nzV, hx, gt_iff_lt, if_false]
        exact ih'

theorem getD_lt {v : List Nat} {i : Nat} (h : i < v.length) : v.getD i 0 = v[i] := by
  simp [h]

theorem set_getD_self (v : List Nat) (j : Nat) : v.set j (v.getD j 0) = v := by
  by_cases h : j < v.length
  · apply List.ext_getElem (by simp)
    intro i h1 h2
    by_cases hij : j = i
    · subst hij; simp [h]
    · simp [hij]
  · simp [List.set_eq_of_length_le (by omega : v.length ≤ j)]

theorem set_ofVec {v : List Nat} {j : Nat} (val : Nat) (hj : j < v.length) :
    (ofVec v).set j val = .ok (ofVec (v.set j val), decide (0 < v.getD j 0)) := by
  have h1 := lookup_nz 0 j v
  have h2 := nz_set 0 j val v hj
  simp only [Nat.zero_add] at h1 h2
  simp only [set, ofVec_length, ofVec_nzInds, ofVec_nzVals]
  rw [if_neg (by omega)]
  by_cases hp : 0 < v.getD j 0
  · have hl := h1.1.2 hp
    simp only [hl, beq_self_eq_true, if_true, hp, decide_true]
    by_cases hv : 0 < val
    · obtain ⟨a, b, c⟩ := h2.1 hp hv
      simp only [gt_iff_lt, hv, if_true, Res.setAt_lt a, Res.bind_ok, Res.pure_eq]
      congr 2
      rw [← c, ofVec_eq v, ofVec_eq (v.set j val)]
      simp only [refresh, nzV_foldl_sum, nzV_foldl_max, b]
      simp
    · obtain ⟨b, c⟩ := h2.2.1 hp (by omega)
      simp only [gt_iff_lt, hv, if_false, Res.pure_eq]
      congr 2
      rw [← b, ← c, ofVec_eq v, ofVec_eq (v.set j val)]
      simp only [refresh, nzV_foldl_sum, nzV_foldl_max]
      simp
  · have hl : ¬ (nzI 0 v)[lowerBound (nzI 0 v) j]? = some j := fun hc => hp (h1.1.1 hc)
    have hp0 : v.getD j 0 = 0 := by omega
    simp only [beq_iff_eq, hl, if_false, hp, decide_false]
    by_cases hv : val = 0
    · subst hv
      have := set_getD_self v j
      rw [hp0] at this
      simp only [if_true, Res.pure_eq, this]
    · obtain ⟨b, c⟩ := h2.2.2 hp0 (by omega)
      simp only [hv, if_false, Res.pure_eq]
      congr 2
      rw [← b, ← c, ofVec_eq v, ofVec_eq (v.set j val)]
      simp only [refresh, nzV_foldl_sum, nzV_foldl_max]
      simp

/-! ### Comparisons -/

theorem neLoop_eq (is js vs ws : List Nat) (h1 : js.length = is.length)
    (h2 : vs.length = is.length) (h3 : ws.length = is.length) :
    neLoop is js vs ws = .ok (!(decide (is = js ∧ vs = ws))) := by
  induction is generalizing js vs ws with
  | nil =>
    have := List.length_eq_zero_iff.1 h1
    have := List.length_eq_zero_iff.1 h2
    have := List.length_eq_zero_iff.1 h3
    subst_vars; simp [neLoop]
  | cons i is ih =>
    cases js with
    | nil => simp at h1
    | cons j js =>
    cases vs with
    | nil => simp at h2
    | cons v vs =>
    cases ws with
    | nil => simp at h3
    | cons w ws =>
      simp only [neLoop, Res.at', List.getElem?_cons_zero, Res.bind_ok, List.tail_cons]
      by_cases hj : j = i
      · subst hj
        by_cases hw : w = v
        · subst hw
          simp only [ne_eq, not_true, if_false]
          rw [ih js vs ws (by simpa using h1) (by simpa using h2) (by simpa using h3)]
          simp
        · simp [hw, Ne.symm hw, eq_comm]
      · have : ¬ i = j := fun h => hj h.symm
        simp [hj, this]

theorem nz_inj {k : Nat} {u v : List Nat} (hl : u.length = v.length)
    (h1 : nzI k u = nzI k v) (h2 : nzV u = nzV v) : u = v := by
  have a := vectorLoop_eq (List.replicate k 0) u
  have b := vectorLoop_eq (List.replicate k 0) v
  simp only [List.length_replicate] at a b
  rw [h1, h2, hl, b] at a
  simpa using a.symm

theorem ne_ofVec (u v : List Nat) : ne (ofVec u) (ofVec v) = .ok (!(decide (u = v))) := by
  simp only [ne, ofVec_length, ofVec_maxValue, ofVec_totalOrder, ofVec_nzInds, ofVec_nzVals]
  split
  · rename_i h
    have : u ≠ v := by rintro rfl; simp at h
    simp [this]
  · rename_i h
    push Not at h
    split
    · rename_i h'
      have : u ≠ v := by rintro rfl; simp at h'
      simp [this]
    · rename_i h'
      simp only [ne_eq, not_not] at h'
      have e := h'
      rw [nzI_length, nzI_length] at e
      rw [neLoop_eq _ _ _ _ h' (by rw [nzV_length, nzI_length]) (by rw [nzV_length, nzI_length, e])]
      congr 2
      rw [decide_eq_decide]
      constructor
      · rintro ⟨a, b⟩; exact nz_inj h.1.symm a b
      · rintro rfl; exact ⟨rfl, rfl⟩

theorem ltLoop_eq (u v : List Nat) (hl : u.length = v.length) (i n : Nat)
    (hn : i + n = u.length) :
    ltLoop (ofVec u) (ofVec v) i n = .ok (decide (u.drop i < v.drop i)) := by
  induction n generalizing i with
  | zero =>
    have h1 : u.drop i = [] := List.drop_eq_nil_of_le (by omega)
    have h2 : v.drop i = [] := List.drop_eq_nil_of_le (by omega)
    simp [ltLoop, h1, h2]
  | succ n ih =>
    have hu : i < u.length := by omega
    have hv : i < v.length := by omega
    simp only [ltLoop, get_ofVec_lt hu, get_ofVec_lt hv, Res.bind_ok]
    have key : (u.drop i < v.drop i) ↔
        (u[i] < v[i] ∨ u[i] = v[i] ∧ u.drop (i + 1) < v.drop (i + 1)) := by
      rw [List.drop_eq_getElem_cons hu, List.drop_eq_getElem_cons hv, List.cons_lt_cons_iff]
    simp only [key]
    rw [getD_lt hu, getD_lt hv]
    split
    · rename_i h; simp [h]
    · split
      · rename_i h1 h2
        have : ¬ u[i] = v[i] := by omega
        simp [h1, this]
      · rename_i h1 h2
        have e : u[i] = v[i] := by omega
        rw [ih (i + 1) (by omega)]
        simp [e]

/-- The order decided by `operator<`: by length, then sum, then maximum, then
lexicographically. -/
def VLt (u v : List Nat) : Prop :=
  u.length < v.length ∨ (u.length = v.length ∧ (u.sum < v.sum ∨ (u.sum = v.sum ∧
    (vmax u < vmax v ∨ (vmax u = vmax v ∧ u < v)))))

instance (u v : List Nat) : Decidable (VLt u v) := by unfold VLt; infer_instance

theorem lt_ofVec (u v : List Nat) : lt (ofVec u) (ofVec v) = .ok (decide (VLt u v)) := by
  simp only [lt, ofVec_length, ofVec_maxValue, ofVec_totalOrder]
  split
  · rename_i h; simp [VLt, h]
  split
  · rename_i h1 h2
    have : u.length ≠ v.length := by omega
    simp [VLt, h1, this]
  have hl : u.length = v.length := by omega
  split
  · rename_i h; simp [VLt, h, hl]
  split
  · rename_i h1 h2
    have : u.sum ≠ v.sum := by omega
    simp [VLt, h1, hl, this]
  have hs : u.sum = v.sum := by omega
  split
  · rename_i h; simp [VLt, h, hl, hs]
  split
  · rename_i h1 h2
    have : vmax u ≠ vmax v := by omega
    simp [VLt, h1, hl, hs, this]
  have hm : vmax u = vmax v := by omega
  rw [ltLoop_eq u v hl 0 _ (by omega)]
  simp [VLt, hl, hs, hm]

theorem VLt.irrefl (u : List Nat) : ¬ VLt u u := by
  simp [VLt]

theorem VLt.trans {u v w : List Nat} (h1 : VLt u v) (h2 : VLt v w) : VLt u w := by
  unfold VLt at *
  rcases h1 with h1 | ⟨a, h1 | ⟨b, h1 | ⟨c, h1⟩⟩⟩ <;>
  rcases h2 with h2 | ⟨a', h2 | ⟨b', h2 | ⟨c', h2⟩⟩⟩ <;>
  first
    | (left; omega)
    | (right; refine ⟨by omega, ?_⟩
       first
         | (left; omega)
         | (right; refine ⟨by omega, ?_⟩
            first
              | (left; omega)
              | (right; exact ⟨by omega, lt_trans h1 h2⟩)))

theorem VLt.total (u v : List Nat) : VLt u v ∨ u = v ∨ VLt v u := by
  unfold VLt
  rcases lt_trichotomy u.length v.length with h | h | h
  · left; left; exact h
  · rcases lt_trichotomy u.sum v.sum with h' | h' | h'
    · left; right; exact ⟨h, Or.inl h'⟩
    · rcases lt_trichotomy (vmax u) (vmax v) with h'' | h'' | h''
      · left; right; exact ⟨h, Or.inr ⟨h', Or.inl h''⟩⟩
      · rcases lt_trichotomy u v with g | g | g
        · left; right; exact ⟨h, Or.inr ⟨h', Or.inr ⟨h'', g⟩⟩⟩
        · right; left; exact g
        · right; right; right; exact ⟨h.symm, Or.inr ⟨h'.symm, Or.inr ⟨h''.symm, g⟩⟩⟩
      · right; right; right; exact ⟨h.symm, Or.inr ⟨h'.symm, Or.inl h''⟩⟩
    · right; right; right; exact ⟨h.symm, Or.inl h'⟩
  · right; right; left; exact h

/-! ### AnyBounded -/

theorem anyBoundedLoop_eq (u v : List Nat) (hl : u.length ≤ v.length) (i n : Nat)
    (hn : i + n = u.length) :
    anyBoundedLoop (ofVec u) (ofVec v) i n
      = .ok (decide (∃ j, j < u.length ∧ i ≤ j ∧ v.getD j 0 ≤ u.getD j 0)) := by
  induction n generalizing i with
  | zero =>
    simp only [anyBoundedLoop]
    congr 1; symm; rw [decide_eq_false_iff_not]
    rintro ⟨j, h1, h2, _⟩; omega
  | succ n ih =>
    have hu : i < u.length := by omega
    have hv : i < v.length := by omega
    simp only [anyBoundedLoop, get_ofVec_lt hu, get_ofVec_lt hv, Res.bind_ok]
    split
    · rename_i h
      simp only [Res.pure_eq]
      congr 1; symm; rw [decide_eq_true_iff]
      exact ⟨i, hu, le_refl _, h⟩
    · rename_i h
      rw [ih (i + 1) (by omega)]
      congr 1; rw [decide_eq_decide]
      constructor
      · rintro ⟨j, b, a, c⟩; exact ⟨j, b, by omega, c⟩
      · rintro ⟨j, b, a, c⟩
        refine ⟨j, b, ?_, c⟩
        rcases Nat.lt_or_ge i j with g | g
        · omega
        · have : j = i := by omega
          subst this; exact absurd c h

end MultiIndex
end MParT
