import Verif.Spec.Maps
import Mathlib.Analysis.Calculus.Deriv.Add
import Mathlib.Analysis.Calculus.Deriv.Mul
/-! Lemmas about buffers, paths and the loops of `TriangularMap`. -/
namespace MParT
open Spec

theorem rows_ok {v : List ℝ} {a n : Nat} (h : a + n ≤ v.length) : rows v a n = .ok ((v.drop a).take n) := by
  simp [rows, h]

theorem rows_length {v : List ℝ} {a n : Nat} (h : a + n ≤ v.length) : ((v.drop a).take n).length = n := by
  simp; omega

theorem putRows_length {v s : List ℝ} {a n : Nat} (h : a + n ≤ v.length) (hs : s.length = n) :
    (putRows v a n s).length = v.length := by
  simp [putRows, hs]; omega

theorem putRows_take {v s : List ℝ} {a n : Nat} (h : a + n ≤ v.length) (hs : s.length = n) :
    (putRows v a n s).take (a + n) = v.take a ++ s := by
  have : (v.take a ++ s).length = a + n := by simp [hs]; omega
  rw [putRows, List.take_append_of_le_length (by omega), List.take_of_length_le (by omega)]

theorem putRows_drop {v s : List ℝ} {a n : Nat} (h : a + n ≤ v.length) (hs : s.length = n) :
    (putRows v a n s).drop (a + n) = v.drop (a + n) := by
  have : (v.take a ++ s).length = a + n := by simp [hs]; omega
  rw [putRows, List.drop_append_of_le_length (by omega), List.drop_eq_nil_of_le (by omega), List.nil_append]

theorem putRows_all {v s : List ℝ} (hs : s.length = v.length) : putRows v 0 v.length s = s := by simp [putRows]

theorem deepCopy_ok {d s : List ℝ} (h : d.length = s.length) : deepCopy d s = .ok s := by simp [deepCopy, h]

theorem addRows_eq (v : List ℝ) (n : Nat) : ∀ (i : Nat) (out : List ℝ), i + n ≤ out.length → i + n ≤ v.length →
    addRows out v i n = .ok (out.take i ++ List.zipWith (· + ·) ((out.drop i).take n) ((v.drop i).take n)
      ++ out.drop (i + n)) := by
  induction n with
  | zero => intro i out _ _; simp [addRows]
  | succ n ih =>
    intro i out ho hv
    have hi : i < out.length := by omega
    have hi' : i < v.length := by omega
    rw [addRows, Res.idx_lt hi, Res.bind_ok, Res.idx_lt hi', Res.bind_ok, Res.setIdx_lt hi, Res.bind_ok,
      ih _ _ (by simp; omega) (by omega)]
    congr 1
    rw [List.drop_eq_getElem_cons hi, List.drop_eq_getElem_cons hi', List.take_succ_cons, List.take_succ_cons,
      List.zipWith_cons_cons]
    have h1 : (out.set i (out[i] + v[i])).take (i + 1) = out.take i ++ [out[i] + v[i]] := by
      rw [List.take_add_one, List.take_set_of_le (le_refl i)]
      simp [hi]
    rw [h1, List.drop_set_of_lt (by omega), List.drop_set_of_lt (by omega)]
    simp [Nat.add_assoc, Nat.add_comm 1 n]

theorem addRows_all {out v : List ℝ} (h : v.length = out.length) :
    addRows out v 0 out.length = .ok (List.zipWith (· + ·) out v) := by
  rw [addRows_eq v _ 0 out (by omega) (by omega), List.drop_zero, List.drop_zero, List.take_length, ← h,
    List.take_length, List.drop_eq_nil_of_le (by omega)]
  simp

theorem addInPlace_ok {out v : List ℝ} (h : v.length = out.length) :
    addInPlace out v = .ok (List.zipWith (· + ·) out v) := by
  rw [addInPlace, if_pos h.symm, addRows_all h]

theorem zeroRows_eq (n : Nat) : ∀ (i : Nat) (out : List ℝ), i + n ≤ out.length →
    TriangularMap.zeroRows out i n = .ok (out.take i ++ zeros n ++ out.drop (i + n)) := by
  induction n with
  | zero => intro i out _; simp [TriangularMap.zeroRows, zeros]
  | succ n ih =>
    intro i out ho
    have hi : i < out.length := by omega
    rw [TriangularMap.zeroRows, Res.setIdx_lt hi, Res.bind_ok, ih _ _ (by simp; omega)]
    congr 1
    have h1 : (out.set i 0).take (i + 1) = out.take i ++ [0] := by
      rw [List.take_add_one, List.take_set_of_le (le_refl i)]
      simp [hi]
    rw [h1, List.drop_set_of_lt (by omega)]
    simp [zeros, List.replicate_succ, Nat.add_assoc, Nat.add_comm 1 n]

@[simp] theorem zeros_length (n : Nat) : (zeros n).length = n := by simp [zeros]

theorem zipWith_zeros (v : List ℝ) : List.zipWith (· + ·) (zeros v.length) v = v := by
  induction v with
  | nil => rfl
  | cons a v ih => simpa [zeros, List.replicate_succ] using ih

/-! ### Scalar products and paths -/

theorem dot_nil_left (b : List ℝ) : dot [] b = 0 := by simp [dot]
theorem dot_cons (a b : ℝ) (u v : List ℝ) : dot (a :: u) (b :: v) = a * b + dot u v := by simp [dot]

theorem dot_append {a b c d : List ℝ} (h : a.length = c.length) : dot (a ++ b) (c ++ d) = dot a c + dot b d := by
  simp [dot, List.zipWith_append h]

theorem dot_split {a v : List ℝ} (n : Nat) (h : n ≤ v.length) (ha : a.length = n) (b : List ℝ) :
    dot (a ++ b) v = dot a (v.take n) + dot b (v.drop n) := by
  conv_lhs => rw [← List.take_append_drop n v]
  exact dot_append (by simp; omega)

theorem dot_eq_sum {a b : List ℝ} {n : Nat} (ha : a.length = n) (hb : b.length = n) :
    dot a b = ∑ i ∈ Finset.range n, a.getD i 0 * b.getD i 0 := by
  induction n generalizing a b with
  | zero => simp [List.length_eq_zero_iff.mp ha, dot]
  | succ n ih =>
    obtain ⟨a0, a, rfl⟩ := List.exists_cons_of_length_eq_add_one ha
    obtain ⟨b0, b, rfl⟩ := List.exists_cons_of_length_eq_add_one hb
    rw [dot_cons, ih (by simpa using ha) (by simpa using hb), Finset.sum_range_succ']
    simp [add_comm]

theorem dot_zipWith_add {a b v : List ℝ} (h : a.length = b.length) :
    dot (List.zipWith (· + ·) a b) v = dot a v + dot b v := by
  induction a generalizing b v with
  | nil => simp at h; simp [List.length_eq_zero_iff.mp h.symm, dot]
  | cons x a ih =>
    cases b with
    | nil => simp at h
    | cons y b =>
      cases v with
      | nil => simp [dot]
      | cons z v =>
        simp only [List.zipWith_cons_cons, dot_cons, ih (by simpa using h)]
        ring

theorem dot_zeros (n : Nat) (v : List ℝ) : dot (zeros n) v = 0 := by
  induction n generalizing v with
  | zero => simp [zeros, dot]
  | succ n ih =>
    cases v with
    | nil => simp [dot]
    | cons z v => simpa [zeros, List.replicate_succ, dot_cons] using ih v

theorem getD_take {l : List ℝ} {n i : Nat} (h : i < n) : (l.take n).getD i 0 = l.getD i 0 := by
  simp [List.getD_eq_getElem?_getD, h]

theorem getD_drop' {l : List ℝ} {n i : Nat} : (l.drop n).getD i 0 = l.getD (n + i) 0 := by
  simp [List.getD_eq_getElem?_getD]

theorem _root_.MParT.Spec.Path.take {n k : Nat} {γ : ℝ → List ℝ} {v : List ℝ} {t₀ : ℝ} (h : Path n γ v t₀)
    (hk : k ≤ n) : Path k (fun t => (γ t).take k) (v.take k) t₀ := by
  refine ⟨fun t => by simp [h.1 t, hk], by simp [h.2.1, hk], fun i hi => ?_⟩
  simp only [getD_take hi]
  exact h.2.2 i (by omega)

theorem _root_.MParT.Spec.Path.drop {n k : Nat} {γ : ℝ → List ℝ} {v : List ℝ} {t₀ : ℝ} (h : Path (k + n) γ v t₀) :
    Path n (fun t => (γ t).drop k) (v.drop k) t₀ := by
  refine ⟨fun t => by simp [h.1 t], by simp [h.2.1], fun i hi => ?_⟩
  simp only [getD_drop']
  exact h.2.2 _ (by omega)

theorem path_const (x : List ℝ) (t₀ : ℝ) : Path x.length (fun _ => x) (zeros x.length) t₀ := by
  refine ⟨fun _ => rfl, by simp, fun i hi => ?_⟩
  have : (zeros x.length).getD i 0 = 0 := by simp [zeros, List.getD_eq_getElem?_getD, hi]
  rw [this]
  exact hasDerivAt_const _ _

theorem getD_append_left {a b : List ℝ} {i : Nat} (h : i < a.length) : (a ++ b).getD i 0 = a.getD i 0 := by
  simp [List.getD_eq_getElem?_getD, List.getElem?_append_left h]

theorem getD_append_right {a b : List ℝ} {i : Nat} : (a ++ b).getD (a.length + i) 0 = b.getD i 0 := by
  rw [List.getD_eq_getElem?_getD, List.getD_eq_getElem?_getD, List.getElem?_append_right (by omega)]
  simp

theorem _root_.MParT.Spec.Path.append {n k : Nat} {γ δ : ℝ → List ℝ} {v u : List ℝ} {t₀ : ℝ} (h : Path n γ v t₀)
    (h' : Path k δ u t₀) : Path (n + k) (fun t => γ t ++ δ t) (v ++ u) t₀ := by
  refine ⟨fun t => by simp [h.1 t, h'.1 t], by simp [h.2.1, h'.2.1], fun i hi => ?_⟩
  by_cases hin : i < n
  · have : ∀ t, (γ t ++ δ t).getD i 0 = (γ t).getD i 0 := fun t => getD_append_left (by rw [h.1 t]; exact hin)
    simp only [this, getD_append_left (h.2.1.symm ▸ hin : i < v.length)]
    exact h.2.2 i hin
  · obtain ⟨j, rfl⟩ : ∃ j, i = n + j := ⟨i - n, by omega⟩
    have : ∀ t, (γ t ++ δ t).getD (n + j) 0 = (δ t).getD j 0 := fun t => by
      rw [← h.1 t]; exact getD_append_right
    have h2 : (v ++ u).getD (n + j) 0 = u.getD j 0 := by rw [← h.2.1]; exact getD_append_right
    simp only [this, h2]
    exact h'.2.2 j (by omega)

/-! ### Sizes -/

/-- Consecutive components of a triangular map: the first takes `e` inputs more than it has outputs. -/
def Chain : Nat → List CMap → Prop
  | _, [] => True
  | e, m :: ms => m.inputDim = e + m.outputDim ∧ Chain m.inputDim ms

theorem Chain.last {e : Nat} {m : CMap} {ms : List CMap} (h : Chain e (m :: ms)) :
    (((m :: ms).getLast?.map CMap.inputDim).getD 0) = e + ((m :: ms).map CMap.outputDim).sum := by
  induction ms generalizing e m with
  | nil => simpa using h.1
  | cons m' ms ih =>
    have := ih (e := m.inputDim) (m := m') h.2
    rw [List.getLast?_cons_cons, this, h.1]
    simp [Nat.add_assoc]

theorem Chain.le {e : Nat} {ms : List CMap} (h : Chain e ms) {m : CMap} (hm : m ∈ ms) :
    m.inputDim ≤ e + (ms.map CMap.outputDim).sum := by
  induction ms generalizing e with
  | nil => simp at hm
  | cons m' ms ih =>
    simp only [List.map_cons, List.sum_cons]
    rcases List.mem_cons.mp hm with rfl | hm
    · rw [h.1]; omega
    · have := ih h.2 hm
      rw [h.1] at this
      omega

theorem Chain.ge {e : Nat} {ms : List CMap} (h : Chain e ms) {m : CMap} (hm : m ∈ ms) : e ≤ m.inputDim := by
  induction ms generalizing e with
  | nil => simp at hm
  | cons m' ms ih =>
    rcases List.mem_cons.mp hm with rfl | hm
    · rw [h.1]; omega
    · have := ih h.2 hm
      rw [h.1] at this
      omega

theorem checkNext_chain {m : CMap} {ms : List CMap} : TriangularMap.checkNext (m :: ms) = true ↔ Chain m.inputDim ms := by
  induction ms generalizing m with
  | nil => simp [TriangularMap.checkNext, Chain]
  | cons m' ms ih =>
    rw [TriangularMap.checkNext, Bool.and_eq_true, ih, Chain]
    simp

/-- The constructor accepts exactly the non-empty chains. -/
theorem new_triangular {comps : List CMap} {t : CMap} :
    TriangularMap.new comps = .ok t ↔ comps ≠ [] ∧ (∃ e, Chain e comps) ∧ t = TriangularMap.obj comps := by
  cases comps with
  | nil => simp [TriangularMap.new]
  | cons m ms =>
    rw [TriangularMap.new, if_neg (by simp)]
    by_cases hany : ((m :: ms).any fun m => decide (m.inputDim < m.outputDim)) = true
    · rw [if_pos hany]
      simp only [reduceCtorEq, false_iff]
      rintro ⟨-, ⟨e, hch⟩, -⟩
      obtain ⟨m', hm', hlt⟩ := List.any_eq_true.mp hany
      have aux : ∀ (l : List CMap) e, Chain e l → ∀ m ∈ l, m.outputDim ≤ m.inputDim := by
        intro l
        induction l with
        | nil => simp
        | cons a l ih =>
          intro e h m hm
          rcases List.mem_cons.mp hm with rfl | hm
          · rw [h.1]; omega
          · exact ih _ h.2 _ hm
      have := aux _ _ hch m' hm'
      simp at hlt
      omega
    · rw [if_neg hany]
      by_cases hc : TriangularMap.checkNext (m :: ms) = true
      · rw [if_neg (by simp [hc])]
        simp only [Res.ok.injEq, ne_eq, reduceCtorEq, not_false_eq_true, true_and]
        constructor
        · rintro rfl
          refine ⟨⟨m.inputDim - m.outputDim, ?_, checkNext_chain.mp hc⟩, rfl⟩
          have : ¬ m.inputDim < m.outputDim := fun hlt => hany (by simp [hlt])
          omega
        · rintro ⟨-, rfl⟩; rfl
      · rw [if_pos (by simp [hc])]
        simp only [reduceCtorEq, false_iff]
        rintro ⟨-, ⟨e, hch⟩, -⟩
        exact hc (checkNext_chain.mpr hch.2)

/-! ### Evaluate -/

theorem stacked_length {ms : List CMap} {c x : List ℝ} (h : ∀ m ∈ ms, Evaluates m) (hin : ∀ m ∈ ms, m.inputDim ≤ x.length)
    (hc : c.length = (ms.map CMap.numCoeffs).sum) : (stacked ms c x).length = (ms.map CMap.outputDim).sum := by
  induction ms generalizing c with
  | nil => rfl
  | cons m ms ih =>
    simp only [List.map_cons, List.sum_cons] at hc
    rw [stacked, List.length_append, ih (fun m' h' => h m' (by simp [h'])) (fun m' h' => hin m' (by simp [h']))
      (by simp [hc]), (h m (by simp) _ _ ⟨by simp [hc], by simp [hin m]⟩).1]
    simp

theorem evalLoop_eq {c pts : List ℝ} (ms : List CMap) (h : ∀ m ∈ ms, Evaluates m)
    (hin : ∀ m ∈ ms, m.inputDim ≤ pts.length) : ∀ (s k : Nat) (out : List ℝ),
    c.length = k + (ms.map CMap.numCoeffs).sum → out.length = s + (ms.map CMap.outputDim).sum →
    TriangularMap.evalLoop c pts ms s k out = .ok (out.take s ++ stacked ms (c.drop k) pts) := by
  induction ms with
  | nil =>
    intro s k out _ ho
    simp at ho
    simp [TriangularMap.evalLoop, stacked, ← ho]
  | cons m ms ih =>
    intro s k out hc ho
    simp only [List.map_cons, List.sum_cons] at hc ho
    have hfit : Fits m (slice c k m.numCoeffs) (pts.take m.inputDim) :=
      ⟨by simp [slice, hc], by simp [hin m]⟩
    have hE := h m (by simp) _ _ hfit
    rw [TriangularMap.evalLoop, rows_ok (by simpa using hin m (by simp)), Res.bind_ok, rows_ok (by omega), Res.bind_ok,
      List.drop_zero, hE.2 _ (rows_length (by omega)), Res.bind_ok,
      ih (fun m' h' => h m' (by simp [h'])) (fun m' h' => hin m' (by simp [h'])) _ _ _ (by omega)
        (by rw [putRows_length (by omega) hE.1]; omega), putRows_take (by omega) hE.1, stacked]
    simp [slice, List.drop_drop]

end MParT
