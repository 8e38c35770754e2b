import Verif.Lemmas.ChainRule
import Verif.Spec.Affine
import Mathlib.Algebra.BigOperators.Fin
/-! Lemmas about the model of affine maps. -/
namespace MParT.Aff
open Spec

theorem getD_map_range (f : Nat → ℝ) {n i : Nat} (h : i < n) : ((List.range n).map f).getD i 0 = f i := by
  simp [List.getD_eq_getElem?_getD, h]

theorem list_ext {a b : List ℝ} {n : Nat} (ha : a.length = n) (hb : b.length = n)
    (h : ∀ i, i < n → a.getD i 0 = b.getD i 0) : a = b := by
  apply List.ext_getElem (by omega)
  intro i h1 h2
  have := h i (by omega)
  simpa [List.getD_eq_getElem?_getD, h1, h2] using this

theorem map_range_getD {v : List ℝ} {n : Nat} (h : v.length = n) : (List.range n).map (fun i => v.getD i 0) = v :=
  list_ext (by simp) h fun i hi => getD_map_range _ hi

theorem fillRows_eq (f : Nat → ℝ) (n : Nat) : ∀ (i : Nat) (out : List ℝ), i + n ≤ out.length →
    AffineMap.fillRows f out i n = .ok (out.take i ++ (List.range n).map (fun k => f (i + k)) ++ out.drop (i + n)) := by
  induction n with
  | zero => intro i out _; simp [AffineMap.fillRows]
  | succ n ih =>
    intro i out h
    rw [AffineMap.fillRows, Res.setIdx_lt (by omega), Res.bind_ok, ih _ _ (by simp; omega)]
    congr 1
    rw [List.drop_set_of_lt (by omega), List.range_succ_eq_map, List.map_cons, List.map_map]
    have e : (out.set i (f i)).take (i + 1) = out.take i ++ [f i] := by
      have hl : (out.take i).length = i := by simp; omega
      rw [List.take_set, List.take_succ_eq_append_getElem (by omega), List.set_append_right _ _ (by omega), hl,
        Nat.sub_self]
      rfl
    rw [e, show i + 1 + n = i + (n + 1) by omega]
    simp only [List.append_assoc, List.singleton_append, Nat.add_zero]
    congr 3
    apply List.map_congr_left
    intro k _
    simp only [Function.comp_apply]
    congr 1; omega

theorem fillRows_all (f : Nat → ℝ) {out : List ℝ} {n : Nat} (h : out.length = n) :
    AffineMap.fillRows f out 0 n = .ok ((List.range n).map f) := by
  rw [fillRows_eq f n 0 out (by omega), List.drop_eq_nil_of_le (by omega)]
  simp

theorem sum_map_range (f : Nat → ℝ) (n : Nat) : ((List.range n).map f).sum = ∑ k ∈ Finset.range n, f k := by
  rw [Finset.sum_range, ← List.sum_ofFn, List.ofFn_eq_map, ← List.map_coe_finRange_eq_range, List.map_map]
  rfl

theorem gemv_ok {alpha beta : ℝ} {A : View2 ℝ} {B C : List ℝ} (h1 : A.n1 = B.length) (h2 : A.n0 = C.length) :
    gemv alpha A B beta C = .ok ((List.range A.n0).map fun i =>
      beta * C.getD i 0 + alpha * ∑ k ∈ Finset.range A.n1, A.get i k * B.getD k 0) := by
  rw [gemv, if_pos ⟨h1, h2⟩]
  simp only [sum_map_range]

/-- The shapes the three constructors accept. -/
def Shape (A : View2 ℝ) (b : List ℝ) (m n : Nat) : Prop :=
  0 < m ∧ m ≤ n ∧ ((A.n0 = 0 ∧ b.length = m ∧ m = n) ∨ (A.n0 = m ∧ A.n1 = n ∧ (b = [] ∨ b.length = m)))

theorem makes_iff {A : View2 ℝ} {b : List ℝ} {m n : Nat} {t : CMap} (h : MakesAffine A b m n t) :
    Shape A b m n ∧ ∃ st, t = AffineMap.obj A b n m st := by
  cases h with
  | @b _ _ st hb ht =>
    cases ht
    exact ⟨⟨List.length_pos_iff.mpr hb, le_refl _, Or.inl ⟨rfl, rfl, rfl⟩⟩, st, rfl⟩
  | @A _ _ st hA ht =>
    rw [AffineMap.newA] at ht
    split_ifs at ht with hle
    cases ht
    exact ⟨⟨Nat.pos_of_ne_zero hA, hle, Or.inr ⟨rfl, rfl, Or.inl rfl⟩⟩, st, rfl⟩
  | @Ab _ _ _ st hA ht =>
    rw [AffineMap.newAB] at ht
    split_ifs at ht with hle
    cases ht
    exact ⟨⟨Nat.pos_of_ne_zero hA, hle.1, Or.inr ⟨rfl, rfl, Or.inr hle.2.symm⟩⟩, st, rfl⟩

theorem affine_length {M : Nat → Nat → ℝ} {b : List ℝ} {m n : Nat} {x : List ℝ} : (affine M b m n x).length = m := by
  simp [affine]

theorem affine_getD {M : Nat → Nat → ℝ} {b : List ℝ} {m n i : Nat} (hi : i < m) (x : List ℝ) :
    (affine M b m n x).getD i 0 = (∑ j ∈ Finset.range n, M i j * x.getD j 0) + b.getD i 0 := getD_map_range _ hi

theorem sum_identity {n i : Nat} (hi : i < n) (f : Nat → ℝ) :
    ∑ j ∈ Finset.range n, (if i = j then (1 : ℝ) else 0) * f j = f i := by
  rw [Finset.sum_eq_single i]
  · simp
  · intro j _ hj; simp [Ne.symm hj]
  · intro h; exact absurd (Finset.mem_range.mpr hi) h

theorem zipWith_getD {a b : List ℝ} {n i : Nat} (ha : a.length = n) (hb : b.length = n) (hi : i < n) :
    (List.zipWith (· + ·) a b).getD i 0 = a.getD i 0 + b.getD i 0 := by
  subst ha
  simp [List.getD_eq_getElem?_getD, hi, show i < b.length by omega]

theorem evaluate_eq {A : View2 ℝ} {b : List ℝ} {m n : Nat} (h : Shape A b m n) {x out : List ℝ} (hx : x.length = n)
    (ho : out.length = m) : AffineMap.evaluate A b m x out = .ok (affine (matrix A) b m n x) := by
  obtain ⟨hm, hmn, h⟩ := h
  have key : ∀ w : List ℝ, w.length = m → (∀ i, i < m → w.getD i 0 = ∑ j ∈ Finset.range n, matrix A i j * x.getD j 0) →
      (b = [] ∨ b.length = m) →
      (if 0 < b.length then addRows w b 0 m else pure w : Res (List ℝ)) = .ok (affine (matrix A) b m n x) := by
    intro w hw hv hb
    rcases hb with rfl | hb
    · simp only [List.length_nil, lt_irrefl, if_false, Res.pure_eq]
      congr 1
      exact list_ext hw affine_length fun i hi => by rw [hv i hi, affine_getD hi]; simp
    · rw [if_pos (by omega), ← hw, addRows_all (by omega)]
      congr 1
      refine list_ext (n := m) (by simp [hw, hb]) (by rw [hw]; exact affine_length) fun i hi => ?_
      rw [zipWith_getD hw hb hi, hv i hi, hw, affine_getD hi]
  rw [AffineMap.evaluate]
  rcases h with ⟨h0, hb, rfl⟩ | ⟨rfl, rfl, hb⟩
  · simp only [h0, lt_irrefl, if_false]
    rw [deepCopy_ok (by omega), Res.bind_ok]
    exact key x hx (fun i hi => by simp only [matrix, h0, if_true]; rw [sum_identity hi]) (Or.inr hb)
  · simp only [if_pos hm]
    rw [fillRows_all _ ho, Res.bind_ok, gemv_ok hx.symm (by simp), Res.bind_ok]
    refine key _ (by simp) (fun i hi => ?_) hb
    rw [getD_map_range _ hi]
    simp [matrix, Nat.pos_iff_ne_zero.mp hm]

theorem transposed_length {M : Nat → Nat → ℝ} {m n : Nat} {s : List ℝ} : (transposed M m n s).length = n := by
  simp [transposed]

theorem gradient_eq {A : View2 ℝ} {b : List ℝ} {m n : Nat} (h : Shape A b m n) {s out : List ℝ} (hs : s.length = m)
    (ho : out.length = n) : AffineMap.gradient A s out = .ok (transposed (matrix A) m n s) := by
  obtain ⟨hm, hmn, h⟩ := h
  rw [AffineMap.gradient]
  rcases h with ⟨h0, hb, rfl⟩ | ⟨rfl, rfl, hb⟩
  · simp only [h0, lt_irrefl, if_false]
    rw [deepCopy_ok (by omega)]
    congr 1
    refine list_ext hs transposed_length fun i hi => ?_
    rw [transposed, getD_map_range _ hi]
    simp only [matrix, h0, if_true]
    rw [← sum_identity hi fun j => s.getD j 0]
    exact Finset.sum_congr rfl fun j _ => by simp [eq_comm]
  · simp only [if_pos hm]
    rw [gemv_ok (A := A.transpose) hs.symm ho.symm]
    congr 1
    refine List.map_congr_left fun i _ => ?_
    simp [matrix, Nat.pos_iff_ne_zero.mp hm, View2.transpose]

theorem affine_split {M : Nat → Nat → ℝ} {b : List ℝ} {m n : Nat} (hmn : m ≤ n) {lead y : List ℝ}
    (hl : lead.length = n - m) {i : Nat} (hi : i < m) :
    (affine M b m n (lead ++ y)).getD i 0 = (∑ j ∈ Finset.range (n - m), M i j * lead.getD j 0)
      + (lastColumns M m n).mulVec (fun j => y.getD j 0) ⟨i, hi⟩ + b.getD i 0 := by
  rw [affine_getD hi]
  congr 1
  have hn : n = (n - m) + m := by omega
  conv_lhs => rw [hn]
  rw [Finset.sum_range_add]
  congr 1
  · refine Finset.sum_congr rfl fun j hj => ?_
    rw [getD_append_left (by rw [hl]; exact Finset.mem_range.mp hj)]
  · rw [Finset.sum_range, Matrix.mulVec, dotProduct]
    refine Finset.sum_congr rfl fun j _ => ?_
    rw [← hl, getD_append_right, hl]
    rfl

theorem shiftBack_eq {A : View2 ℝ} {b : List ℝ} {m n : Nat} (h : Shape A b m n) {r out : List ℝ} (hr : r.length = m)
    (ho : out.length = m) :
    AffineMap.shiftBack b m r out = .ok ((List.range m).map fun i => r.getD i 0 - b.getD i 0) := by
  obtain ⟨hm, hmn, h⟩ := h
  have hb : b = [] ∨ b.length = m := by
    rcases h with ⟨_, hb, _⟩ | ⟨_, _, hb⟩
    · exact Or.inr hb
    · exact hb
  rw [AffineMap.shiftBack]
  rcases hb with rfl | hb
  · simp only [List.length_nil, lt_irrefl, if_false]
    rw [deepCopy_ok (by omega)]
    congr 1
    refine list_ext hr (by simp) fun i hi => ?_
    rw [getD_map_range _ hi]; simp
  · rw [if_pos (by omega), if_neg (by omega), fillRows_all _ ho]

theorem square_eq {A : View2 ℝ} (h : 0 < A.n0) : AffineMap.square A = lastColumns (matrix A) A.n0 A.n1 := by
  funext i j
  rw [AffineMap.square, lastColumns]
  have h0 : A.n0 ≠ 0 := by omega
  split_ifs with he
  · simp [View2.cols, matrix, h0]
  · have e : A.n1 - A.n0 = 0 := by omega
    simp [matrix, h0, e]

theorem lastColumns_identity {A : View2 ℝ} (h : A.n0 = 0) (m : Nat) : lastColumns (matrix A) m m = 1 := by
  funext i j
  by_cases hij : i = j
  · subst hij; simp [lastColumns, matrix, h]
  · have : (i : Nat) ≠ j := fun h => hij (Fin.ext h)
    simp [lastColumns, matrix, h, hij, this]

theorem solve_ok {m : Nat} {M : Matrix (Fin m) (Fin m) ℝ} (hM : M.det ≠ 0) {w : List ℝ} (hw : w.length = m) :
    ∃ y, AffineMap.solve M w = .ok y ∧ y.length = m ∧ M.mulVec (fun j => y.getD j 0) = fun i : Fin m => w.getD i 0 := by
  refine ⟨_, by rw [AffineMap.solve, if_neg hM, if_neg (by simpa using hw)], by simp, ?_⟩
  have : (fun j : Fin m => (List.ofFn (M⁻¹.mulVec fun i => w.getD i 0)).getD j 0) = M⁻¹.mulVec fun i => w.getD i 0 := by
    funext j
    simp [List.getD_eq_getElem?_getD]
  rw [this, Matrix.mulVec_mulVec, Matrix.mul_nonsing_inv _ (isUnit_iff_ne_zero.mpr hM), Matrix.one_mulVec]

theorem solveBack_ok {A : View2 ℝ} {m n k : Nat} (hA : A.n0 = m) (hn : A.n1 = n) (hm : 0 < m) (hmn : m ≤ n)
    (hd : (lastColumns (matrix A) m n).det ≠ 0) {x1 w : List ℝ} (hx : x1.length = k) (hk : n - m ≤ k) (hw : w.length = m) :
    ∃ y, AffineMap.solveBack A x1 w = .ok y ∧ y.length = m ∧
      (lastColumns (matrix A) m n).mulVec (fun j => y.getD j 0)
        = fun i : Fin m => w.getD i 0 - ∑ j ∈ Finset.range (n - m), matrix A i j * (x1.take (n - m)).getD j 0 := by
  subst hA hn
  rw [AffineMap.solveBack, square_eq hm]
  split_ifs with he
  · rw [rows_ok (by omega), Res.bind_ok, List.drop_zero, gemv_ok (A := A.cols 0 (A.n1 - A.n0))
      (by simp [View2.cols]; omega) (by simp [View2.cols, hw]), Res.bind_ok]
    obtain ⟨y, h1, h2, h3⟩ := solve_ok hd (w := ((List.range (A.cols 0 (A.n1 - A.n0)).n0).map fun i =>
      1 * w.getD i 0 + -1 * ∑ k ∈ Finset.range (A.cols 0 (A.n1 - A.n0)).n1, (A.cols 0 (A.n1 - A.n0)).get i k
        * (x1.take (A.n1 - A.n0)).getD k 0)) (by simp [View2.cols])
    refine ⟨y, h1, h2, h3.trans ?_⟩
    funext i
    rw [getD_map_range _ (by exact i.2)]
    simp [View2.cols, matrix, Nat.pos_iff_ne_zero.mp hm, sub_eq_add_neg]
  · push Not at he
    obtain ⟨y, h1, h2, h3⟩ := solve_ok hd hw
    refine ⟨y, h1, h2, h3.trans ?_⟩
    funext i
    simp [he]

theorem inverse_ok {A : View2 ℝ} {b : List ℝ} {m n k : Nat} {st : Bool} (h : Shape A b m n)
    (hd : (lastColumns (matrix A) m n).det ≠ 0) {x1 r out : List ℝ} (hx : x1.length = k) (hk : n - m ≤ k)
    (hr : r.length = m) (ho : out.length = m) :
    ∃ y, AffineMap.inverse A b m st x1 r out = .ok y ∧ y.length = m ∧
      (lastColumns (matrix A) m n).mulVec (fun j => y.getD j 0) = fun i : Fin m =>
        r.getD i 0 - b.getD i 0 - ∑ j ∈ Finset.range (n - m), matrix A i j * (x1.take (n - m)).getD j 0 := by
  have hs := h
  obtain ⟨hm, hmn, h⟩ := h
  rw [AffineMap.inverse]
  rcases h with ⟨h0, hb, rfl⟩ | ⟨hA, hn, hb⟩
  · rw [if_neg (by omega), shiftBack_eq hs hr ho]
    refine ⟨_, rfl, by simp, ?_⟩
    rw [lastColumns_identity h0, Matrix.one_mulVec]
    funext i
    rw [getD_map_range _ i.2]
    simp
  · rw [if_pos (by omega)]
    obtain ⟨y, h1, h2, h3⟩ := solveBack_ok hA hn hm hmn hd hx hk
      (w := (List.range m).map fun i => r.getD i 0 - b.getD i 0) (by simp)
    refine ⟨y, ?_, h2, h3.trans ?_⟩
    · cases st
      · rw [if_neg (by simp), shiftBack_eq hs hr ho, Res.bind_ok, h1]
      · rw [if_pos rfl, shiftBack_eq hs hr (by simpa using ho), Res.bind_ok, h1, Res.bind_ok, deepCopy_ok (by omega)]
    · funext i
      rw [getD_map_range _ i.2]

end MParT.Aff
