import Verif.Lemmas.MultiIndex
import Verif.Model.Neighborhood
import Mathlib.Data.List.Nodup
/-! Helper lemmas on neighbour generation. -/
namespace MParT
namespace Neighborhood
open MultiIndex Spec

theorem inc_length (v : List Nat) (i : Nat) : (inc v i).length = v.length := by simp [inc]
theorem dec_length (v : List Nat) (i : Nat) : (dec v i).length = v.length := by simp [dec]

theorem getD_set (v : List Nat) (i j x : Nat) (h : i < v.length) :
    (v.set i x).getD j 0 = if i = j then x else v.getD j 0 := by
  by_cases hij : i = j
  · subst hij; simp [h]
  · simp [hij]

theorem getD_inc (v : List Nat) (i j : Nat) (h : i < v.length) :
    (inc v i).getD j 0 = v.getD j 0 + if i = j then 1 else 0 := by
  rw [inc, getD_set _ _ _ _ h]; split
  · rename_i e; subst e; rfl
  · rfl

theorem getD_dec (v : List Nat) (i j : Nat) (h : i < v.length) :
    (dec v i).getD j 0 = v.getD j 0 - if i = j then 1 else 0 := by
  rw [dec, getD_set _ _ _ _ h]; split
  · rename_i e; subst e; rfl
  · rfl

theorem list_ext_getD {u v : List Nat} (hl : u.length = v.length)
    (h : ∀ i, u.getD i 0 = v.getD i 0) : u = v := by
  apply List.ext_getElem hl
  intro i h1 h2
  have := h i
  rwa [getD_lt h1, getD_lt h2] at this

theorem dec_inc {v : List Nat} {i : Nat} (h : i < v.length) : dec (inc v i) i = v := by
  apply list_ext_getD (by simp [dec_length, inc_length])
  intro j
  rw [getD_dec _ _ _ (by rwa [inc_length]), getD_inc _ _ _ h]
  split <;> omega

theorem inc_dec {v : List Nat} {i : Nat} (h : i < v.length) (hp : v.getD i 0 ≠ 0) :
    inc (dec v i) i = v := by
  apply list_ext_getD (by simp [dec_length, inc_length])
  intro j
  rw [getD_inc _ _ _ (by rwa [dec_length]), getD_dec _ _ _ h]
  split
  · rename_i e; subst e; omega
  · omega

theorem inc_injective {v : List Nat} {i j : Nat} (hi : i < v.length) (h : inc v i = inc v j) :
    i = j := by
  by_contra hne
  have h1 := getD_inc v i i hi
  rw [h] at h1
  by_cases hj : j < v.length
  · rw [getD_inc _ _ _ hj] at h1
    simp [Ne.symm hne] at h1
  · rw [inc, List.set_eq_of_length_le (by omega)] at h1
    simp at h1

theorem _root_.MParT.Spec.Fwd.length {v w : List Nat} (h : Fwd v w) : w.length = v.length := by
  obtain ⟨i, _, rfl⟩ := h; exact inc_length v i

theorem _root_.MParT.Spec.Fwd.sum {v w : List Nat} (h : Fwd v w) : w.sum = v.sum + 1 := by
  obtain ⟨i, hi, rfl⟩ := h
  induction v generalizing i with
  | nil => simp at hi
  | cons x xs ih =>
    cases i with
    | zero => simp [inc]; omega
    | succ i =>
      have := ih i (by simpa using hi)
      simp only [inc, List.set_cons_succ, List.sum_cons, List.getD_cons_succ] at *
      omega

theorem _root_.MParT.Spec.Fwd.le {v w : List Nat} (h : Fwd v w) : Le v w := by
  obtain ⟨i, hi, rfl⟩ := h
  refine ⟨(inc_length v i).symm, fun j => ?_⟩
  rw [getD_inc _ _ _ hi]; omega

theorem _root_.MParT.Spec.Fwd.irrefl (v : List Nat) : ¬ Fwd v v := fun h => by have := h.sum; omega

/-- The forward neighbours, in the order of the dimensions. -/
def fwdList (v : List Nat) : List (List Nat) := (List.range v.length).map (inc v)

/-- The backward neighbours, in the order of the dimensions. -/
def bwdList (v : List Nat) : List (List Nat) :=
  ((List.range v.length).filter (fun i => v.getD i 0 ≠ 0)).map (dec v)

theorem mem_fwdList {v w : List Nat} : w ∈ fwdList v ↔ Fwd v w := by
  simp only [fwdList, List.mem_map, List.mem_range, Fwd]
  constructor
  · rintro ⟨i, h, rfl⟩; exact ⟨i, h, rfl⟩
  · rintro ⟨i, h, rfl⟩; exact ⟨i, h, rfl⟩

theorem mem_bwdList {v w : List Nat} : w ∈ bwdList v ↔ Fwd w v := by
  simp only [bwdList, List.mem_map, List.mem_filter, List.mem_range, Fwd, decide_eq_true_eq, ne_eq]
  constructor
  · rintro ⟨i, ⟨h, hp⟩, rfl⟩
    exact ⟨i, by rwa [dec_length], (inc_dec h hp).symm⟩
  · rintro ⟨i, h, rfl⟩
    refine ⟨i, ⟨by rwa [inc_length], ?_⟩, dec_inc h⟩
    rw [getD_inc _ _ _ h]; simp

theorem fwdList_nodup (v : List Nat) : (fwdList v).Nodup := by
  refine List.Nodup.map_on ?_ List.nodup_range
  intro i hi j _ h
  exact inc_injective (by simpa using hi) h

theorem bwdList_nodup (v : List Nat) : (bwdList v).Nodup := by
  refine List.Nodup.map_on ?_ (List.nodup_range.filter _)
  intro i hi j hj h
  simp only [List.mem_filter, List.mem_range, decide_eq_true_eq] at hi hj
  have h1 := inc_dec hi.1 hi.2
  have h2 := inc_dec hj.1 hj.2
  rw [h] at h1
  exact inc_injective (by rw [dec_length]; exact hi.1) (h1.trans h2.symm)

theorem bwdList_length (v : List Nat) : (bwdList v).length = nnz v := by
  simp only [bwdList, List.length_map]
  induction v with
  | nil => simp [nnz]
  | cons x xs ih =>
    simp only [List.length_cons, List.range_succ_eq_map, List.filter_cons, List.filter_map,
      nnz, List.countP_cons] at *
    have e : (fun i => decide (¬ (x :: xs).getD i 0 = 0)) ∘ Nat.succ
        = fun i => decide (¬ xs.getD i 0 = 0) := by
      funext i; simp
    simp only [ne_eq] at *
    rw [e]
    by_cases hx : x = 0
    · subst hx; simpa using ih
    · simpa [hx] using ih

theorem set_set_getD (v : List Nat) (i x : Nat) : (v.set i x).set i (v.getD i 0) = v := by
  rw [List.set_set]; exact set_getD_self v i

theorem forwardLoop_eq (v : List Nat) (out : List MultiIndex) (i n : Nat) (h : i + n = v.length) :
    forwardLoop v out i n = .ok (out ++ (List.range' i n).map (fun j => ofVec (inc v j))) := by
  induction n generalizing i out with
  | zero => simp [forwardLoop]
  | succ n ih =>
    have hi : i < v.length := by omega
    have hi' : i < (v.set i (v[i] + 1)).length := by simpa using hi
    simp only [forwardLoop, Res.at'_lt hi, Res.bind_ok, Res.setAt_lt hi, Res.at'_lt hi',
      Res.setAt_lt hi', List.getElem_set_self, Nat.add_sub_cancel]
    have e : (v.set i (v[i] + 1)).set i v[i] = v := by simp
    rw [e, ih _ _ (by omega), List.range'_succ]
    simp [inc, getD_lt hi, hi]

theorem forwardNeighbors_ofVec (v : List Nat) :
    forwardNeighbors (ofVec v) = .ok ((fwdList v).map ofVec) := by
  simp only [forwardNeighbors, vector_ofVec, Res.bind_ok]
  rw [forwardLoop_eq v [] 0 v.length (by omega)]
  simp [fwdList, List.range_eq_range']

theorem backwardLoop_eq (v : List Nat) (out : List MultiIndex) (i n : Nat) (h : i + n = v.length) :
    backwardLoop v out i n = .ok (out ++
      ((List.range' i n).filter (fun j => v.getD j 0 ≠ 0)).map (fun j => ofVec (dec v j))) := by
  induction n generalizing i out with
  | zero => simp [backwardLoop]
  | succ n ih =>
    have hi : i < v.length := by omega
    simp only [backwardLoop, Res.at'_lt hi, Res.bind_ok]
    rw [List.range'_succ, List.filter_cons]
    by_cases hz : v[i] = 0
    · rw [if_neg (by simpa using hz), ih _ _ (by omega), if_neg (by simp [hi, hz])]
    · have hi' : i < (v.set i (v[i] - 1)).length := by simpa using hi
      rw [if_pos hz, if_pos (by simp [hi, hz])]
      simp only [Res.setAt_lt hi, Res.bind_ok, Res.at'_lt hi', Res.setAt_lt hi',
        List.getElem_set_self]
      have e : (v.set i (v[i] - 1)).set i (v[i] - 1 + 1) = v := by
        rw [show v[i] - 1 + 1 = v[i] by omega]; simp
      rw [e, ih _ _ (by omega)]
      simp [dec, hi]

theorem backwardNeighbors_ofVec (v : List Nat) :
    backwardNeighbors (ofVec v) = .ok ((bwdList v).map ofVec) := by
  simp only [backwardNeighbors, vector_ofVec, Res.bind_ok]
  rw [backwardLoop_eq v [] 0 v.length (by omega)]
  simp [bwdList, List.range_eq_range', Function.comp_def]

theorem sum_le_of_le : ∀ (a b : List Nat), a.length = b.length →
    (∀ j, a.getD j 0 ≤ b.getD j 0) → a.sum ≤ b.sum := by
  intro a
  induction a with
  | nil => intro b _ _; simp
  | cons x xs ihx =>
    intro b hb hle
    cases b with
    | nil => simp at hb
    | cons y ys =>
      have h0 := hle 0
      have := ihx ys (by simpa using hb) (fun j => by simpa using hle (j + 1))
      simp at h0 ⊢; omega

theorem eq_of_le_of_sum_le : ∀ (a b : List Nat), a.length = b.length →
    (∀ j, a.getD j 0 ≤ b.getD j 0) → b.sum ≤ a.sum → b = a := by
  intro a
  induction a with
  | nil => intro b hb _ _; exact List.length_eq_zero_iff.1 hb.symm
  | cons p ps ihp =>
    intro b hb hle hs
    cases b with
    | nil => simp at hb
    | cons q qs =>
      have h0' := hle 0
      have hle' : ∀ j, ps.getD j 0 ≤ qs.getD j 0 := fun j => by simpa using hle (j + 1)
      have hlen : ps.length = qs.length := by simpa using hb
      simp only [List.getD_cons_zero, List.sum_cons] at h0' hs
      have := sum_le_of_le ps qs hlen hle'
      have := ihp qs hlen hle' (by omega)
      subst this
      have : q = p := by omega
      rw [this]

open Classical in
/-- Sum of the differences from position `i`. -/
theorem isForwardLoop_eq (u v : List Nat) (hl : u.length = v.length) (d i n : Nat)
    (hn : i + n = v.length) :
    isForwardLoop (ofVec u) (ofVec v) d i n = .ok (decide
      ((∀ j, i ≤ j → u.getD j 0 ≤ v.getD j 0) ∧ d + (v.drop i).sum = 1 + (u.drop i).sum)) := by
  induction n generalizing i d with
  | zero =>
    have h1 : u.drop i = [] := List.drop_eq_nil_of_le (by omega)
    have h2 : v.drop i = [] := List.drop_eq_nil_of_le (by omega)
    simp only [isForwardLoop, h1, h2, List.sum_nil, Nat.add_zero]
    congr 1
    rw [Bool.eq_iff_iff]
    simp only [beq_iff_eq, decide_eq_true_eq]
    constructor
    · intro h
      refine ⟨fun j hj => ?_, h⟩
      have e1 : u.getD j 0 = 0 := by
        rw [List.getD_eq_getElem?_getD, List.getElem?_eq_none (by omega)]; rfl
      omega
    · exact fun h => h.2
  | succ n ih =>
    have hu : i < u.length := by omega
    have hv : i < v.length := by omega
    simp only [isForwardLoop, get_ofVec_lt hu, get_ofVec_lt hv, Res.bind_ok]
    have su : (u.drop i).sum = u.getD i 0 + (u.drop (i + 1)).sum := by
      rw [List.drop_eq_getElem_cons hu, List.sum_cons, getD_lt hu]
    have sv : (v.drop i).sum = v.getD i 0 + (v.drop (i + 1)).sum := by
      rw [List.drop_eq_getElem_cons hv, List.sum_cons, getD_lt hv]
    have sle : (∀ j, i + 1 ≤ j → u.getD j 0 ≤ v.getD j 0) →
        (u.drop (i + 1)).sum ≤ (v.drop (i + 1)).sum := by
      intro h
      apply sum_le_of_le _ _ (by simp; omega)
      intro j
      have := h (i + 1 + j) (by omega)
      simpa [List.getD_eq_getElem?_getD, List.getElem?_drop] using this
    split
    · rename_i h
      simp only [Res.pure_eq]
      congr 1; symm; rw [decide_eq_false_iff_not]
      rintro ⟨h1, _⟩
      have := h1 i (le_refl _); omega
    · split
      · rename_i h1 h2
        simp only [Res.pure_eq]
        congr 1; symm; rw [decide_eq_false_iff_not]
        rintro ⟨h3, h4⟩
        have := sle (fun j hj => h3 j (by omega))
        omega
      · rename_i h1 h2
        rw [ih _ _ (by omega)]
        congr 1
        rw [decide_eq_decide]
        constructor
        · rintro ⟨h3, h4⟩
          refine ⟨fun j hj => ?_, by omega⟩
          rcases Nat.lt_or_ge i j with g | g
          · exact h3 j (by omega)
          · have : j = i := by omega
            subst this; omega
        · rintro ⟨h3, h4⟩
          exact ⟨fun j hj => h3 j (by omega), by omega⟩

theorem fwd_iff_le_sum {u v : List Nat} (hl : u.length = v.length) :
    Fwd u v ↔ (∀ j, u.getD j 0 ≤ v.getD j 0) ∧ v.sum = 1 + u.sum := by
  constructor
  · intro h
    exact ⟨h.le.2, by have := h.sum; omega⟩
  · intro ⟨h1, h2⟩
    induction u generalizing v with
    | nil =>
      cases v with
      | nil => simp at h2
      | cons y ys => simp at hl
    | cons x xs ih =>
      cases v with
      | nil => simp at hl
      | cons y ys =>
        have h0 := h1 0
        have ht : ∀ j, xs.getD j 0 ≤ ys.getD j 0 := fun j => by simpa using h1 (j + 1)
        simp only [List.getD_cons_zero, List.sum_cons] at h0 h2
        rcases Nat.lt_or_ge x y with hxy | hxy
        · refine ⟨0, by simp, ?_⟩
          have hs := sum_le_of_le xs ys (by simpa using hl) ht
          have := eq_of_le_of_sum_le xs ys (by simpa using hl) ht (by omega)
          subst this
          have : y = x + 1 := by omega
          subst this
          simp [inc]
        · have : y = x := by omega
          subst this
          obtain ⟨i, hi, e⟩ := ih (v := ys) (by simpa using hl) ht (by omega)
          refine ⟨i + 1, by simpa using hi, ?_⟩
          simp only [inc, List.set_cons_succ, List.getD_cons_succ] at e ⊢
          rw [e]

theorem fwd_nnz {u v : List Nat} (h : Fwd u v) : nnz v ≤ nnz u + 1 ∧ nnz u ≤ nnz v := by
  obtain ⟨i, hi, rfl⟩ := h
  induction u generalizing i with
  | nil => simp at hi
  | cons x xs ih =>
    cases i with
    | zero =>
      simp only [inc, List.set_cons_zero, nnz, List.countP_cons, List.getD_cons_zero]
      by_cases hx : x = 0 <;> simp [hx]
    | succ i =>
      have := ih i (by simpa using hi)
      simp only [inc, List.set_cons_succ, nnz, List.countP_cons, List.getD_cons_succ] at *
      omega

instance decidableFwd (u v : List Nat) : Decidable (Fwd u v) :=
  decidable_of_iff (v ∈ fwdList u) mem_fwdList

theorem isForward_ofVec {u v : List Nat} (hl : u.length = v.length) :
    isForward (ofVec u) (ofVec v) = .ok (decide (Fwd u v)) := by
  simp only [isForward, numNz, ofVec_nzInds, nzI_length, ofVec_length]
  split
  · rename_i h
    congr 1; symm; rw [decide_eq_false_iff_not]
    intro hf
    have := fwd_nnz hf; omega
  · rw [isForwardLoop_eq u v hl 0 0 _ (by omega)]
    congr 1
    rw [decide_eq_decide, fwd_iff_le_sum hl]
    simp

end Neighborhood
end MParT
