import Verif.Model.RoundingAffine
import Verif.Props.Rounding
import Verif.Props.Affine
/-! Property C103 for affine maps. -/
namespace MParT
open Spec Aff MParT.AffineMap

namespace AffineMap
variable {u : ℝ} {fl : ℝ → ℝ}

theorem foldl_close (hfl : RelError u fl) {f : Nat → Fl fl} {g : Nat → ℝ} {c : Nat} (hf : ∀ k, Close u c (f k).val (g k) |g k|) (l : List Nat) :
    ∀ (s : Fl fl) (q : Nat) (a B : ℝ), c ≤ q → Close u q s.val a B →
      Close u (q + l.length) (l.foldl (fun s k => s + f k) s).val (a + (l.map g).sum) (B + (l.map fun k => |g k|).sum) := by
  induction l with
  | nil => intro s q a B _ h; simpa using h
  | cons j l ih =>
    intro s q a B hq h
    have := ih _ (q + 1) _ _ (by omega) (h.add hfl ((hf j).mono hfl.nonneg hq))
    rw [List.foldl_cons, List.map_cons, List.map_cons, List.sum_cons, List.sum_cons, List.length_cons,
      show q + (l.length + 1) = q + 1 + l.length by omega, ← add_assoc, ← add_assoc B]
    exact this

theorem sumProducts_close (hfl : RelError u fl) {f : Nat → Fl fl} {g : Nat → ℝ} {c : Nat} (hf : ∀ k, Close u c (f k).val (g k) |g k|)
    (s : Parallel.Split) :
    Close u (c + additions s) (sumProducts f s).val ((s.indices.map g).sum) ((s.indices.map fun k => |g k|).sum) := by
  induction s with
  | chunk l =>
    have := foldl_close hfl hf l 0 c 0 0 le_rfl (Close.zero hfl.nonneg c)
    rwa [zero_add, zero_add] at this
  | join a b iha ihb =>
    simp only [sumProducts, Parallel.Split.indices, List.map_append, List.sum_append, additions, ← add_assoc]
    exact (iha.mono hfl.nonneg (by omega)).add hfl (ihb.mono hfl.nonneg (by omega))
  | andThen a l iha =>
    have := foldl_close hfl hf l _ _ _ _ (by omega) iha
    simp only [sumProducts, Parallel.Split.indices, List.map_append, List.sum_append, additions, ← add_assoc]
    exact this

theorem getD_of (l : List ℝ) (i : Nat) : ((l.map (Fl.of (fl := fl))).getD i 0).val = l.getD i 0 := by
  by_cases h : i < l.length
  · simp [List.getD_eq_getElem?_getD, h, Fl.of, Fl.val]
    rfl
  · simp [List.getD_eq_getElem?_getD, h]
    rfl

theorem getD_abs (l : List ℝ) (i : Nat) : (l.map fun v => |v|).getD i 0 = |l.getD i 0| := by
  by_cases h : i < l.length
  · simp [List.getD_eq_getElem?_getD, h]
  · simp [List.getD_eq_getElem?_getD, h]

theorem gemvEntry_close (hfl : RelError u fl) (A : View2 ℝ) (x : List ℝ) (c : Fl fl) {s : Parallel.Split} {n : Nat}
    (hs : s.indices.Perm (List.range n)) (i : Nat) :
    Close u (additions s + 3) (gemvEntry 1 (View2.rounded (fl := fl) A) (x.map Fl.of) 0 c s i).val
      (∑ k ∈ Finset.range n, A.get i k * x.getD k 0) (∑ k ∈ Finset.range n, |A.get i k| * |x.getD k 0|) := by
  have hp : ∀ k, Close u 1 ((View2.rounded (fl := fl) A).get i k * (x.map (Fl.of (fl := fl))).getD k 0).val (A.get i k * x.getD k 0)
      |A.get i k * x.getD k 0| := by
    intro k
    have h2 := Close.exact hfl.nonneg 0 (x.getD k 0)
    rw [← getD_of (fl := fl) x k] at h2
    have := (show Close u 0 ((View2.rounded (fl := fl) A).get i k).val (A.get i k) |A.get i k| from
      Close.exact hfl.nonneg 0 (A.get i k)).mul hfl h2
    rw [← abs_mul, getD_of] at this
    exact this
  have h := sumProducts_close hfl hp s
  rw [(hs.map _).sum_eq, (hs.map _).sum_eq] at h
  have h1 := (Close.one (fl := fl) hfl.nonneg 0).mul hfl h
  have h0 := (Close.zero (fl := fl) hfl.nonneg 0).mul hfl (Close.exact hfl.nonneg 0 c.val)
  have := (h0.mono hfl.nonneg (show 0 + 0 + 1 ≤ 0 + (1 + additions s) + 1 by omega)).add hfl h1
  rw [zero_mul, zero_mul, zero_add, zero_add, zero_add, one_mul, one_mul] at this
  have e : ∀ g : Nat → ℝ, ((List.range n).map g).sum = ∑ k ∈ Finset.range n, g k := fun g => by
    rw [← List.sum_toFinset _ List.nodup_range, List.toFinset_range]
  rw [e, e] at this
  simp only [abs_mul] at this
  have e3 : additions s + 3 = 1 + additions s + 1 + 1 := by omega
  rw [e3]
  exact this

end AffineMap

variable {u : ℝ} {fl : ℝ → ℝ} {A : View2 ℝ} {b : List ℝ} {m n : Nat} {t : CMap}

/-- **C103, affine maps.** In whatever order the products of a row with the point are added, each output differs from that of the map in exact
arithmetic by the error of as many roundings as there are additions, and four more, relative to `|A||x| + |b|`. -/
theorem C103_affine (hfl : RelError u fl) (h : MakesAffine A b m n t) {c x : List ℝ} (hf : Fits t c x) {s : Parallel.Split}
    (hs : s.indices.Perm (List.range n)) {i : Nat} (hi : i < m) :
    Within u (additions s + 4) (evaluateEntry (View2.rounded (fl := fl) A) (b.map Fl.of) (x.map Fl.of) s i).val
      ((fn t c x).getD i 0) ((affine (fun i j => |matrix A i j|) (b.map fun v => |v|) m n (x.map fun v => |v|)).getD i 0) := by
  rw [(C48_affine_evaluate h).2.2.2 c x hf, affine_getD hi, affine_getD hi]
  simp only [getD_abs]
  obtain ⟨⟨hm, hmn, hsh⟩, -⟩ := makes_iff h
  have ho : Close u (additions s + 3) (if 0 < A.n0 then gemvEntry 1 (View2.rounded (fl := fl) A) (x.map Fl.of) 0 0 s i
      else (x.map (Fl.of (fl := fl))).getD i 0).val (∑ k ∈ Finset.range n, matrix A i k * x.getD k 0)
      (∑ k ∈ Finset.range n, |matrix A i k| * |x.getD k 0|) := by
    by_cases h0 : A.n0 = 0
    · have hn : m = n := by
        rcases hsh with ⟨_, _, e⟩ | ⟨e, _⟩ <;> omega
      rw [if_neg (by omega)]
      have e2 : ∀ k, |matrix A i k| * |x.getD k 0| = (if i = k then (1 : ℝ) else 0) * |x.getD k 0| := fun k => by
        simp only [matrix, h0, if_true]
        split <;> simp
      simp only [e2]
      simp only [matrix, h0, if_true]
      rw [sum_identity (by omega) fun k => x.getD k 0, sum_identity (by omega) fun k => |x.getD k 0|, getD_of]
      exact Close.exact hfl.nonneg _ _
    · rw [if_pos (by omega)]
      simp only [matrix, h0, if_false]
      exact gemvEntry_close hfl A x 0 hs i
  have hb : Close u (additions s + 3) ((b.map (Fl.of (fl := fl))).getD i 0).val (b.getD i 0) |b.getD i 0| := by
    rw [getD_of]; exact Close.exact hfl.nonneg _ _
  unfold evaluateEntry
  by_cases hb0 : 0 < b.length
  · rw [if_pos (by simpa using hb0)]
    exact (ho.add hfl hb).within
  · have hb0 : b = [] := List.length_eq_zero_iff.mp (by omega)
    subst hb0
    simp only [List.map_nil, List.length_nil, lt_irrefl, if_false, List.getD_nil, abs_zero, add_zero]
    exact (ho.mono hfl.nonneg (by omega)).within

/-- The sensitivities of affine maps, whatever number the output contained. -/
theorem C103_affine_gradient (hfl : RelError u fl) (h : MakesAffine A b m n t) (c x : List ℝ) {v : List ℝ} (hv : v.length = m) (w : Fl fl) {s : Parallel.Split}
    (hs : s.indices.Perm (List.range m)) {j : Nat} (hj : j < n) :
    Within u (additions s + 3) (gradientEntry (View2.rounded (fl := fl) A) (v.map Fl.of) w s j).val
      ((grad t c x v).getD j 0) ((transposed (fun i j => |matrix A i j|) m n (v.map fun v => |v|)).getD j 0) := by
  rw [(C48_affine_gradient h).2.2 c x v hv]
  obtain ⟨⟨hm, hmn, hsh⟩, -⟩ := makes_iff h
  unfold transposed
  rw [getD_map_range _ hj, getD_map_range _ hj]
  simp only [getD_abs]
  unfold gradientEntry
  by_cases h0 : A.n0 = 0
  · have hn : m = n := by
      rcases hsh with ⟨_, _, e⟩ | ⟨e, _⟩ <;> omega
    rw [if_neg (by simp [View2.rounded, h0]), getD_of]
    have e1 : ∀ k, matrix A k j = if j = k then (1 : ℝ) else 0 := fun k => by simp [matrix, h0, eq_comm]
    simp only [e1]
    have e3 : ∀ k, |(if j = k then (1 : ℝ) else 0)| = if j = k then (1 : ℝ) else 0 := fun k => by split <;> simp
    simp only [e3]
    rw [sum_identity (by omega) fun k => v.getD k 0, sum_identity (by omega) fun k => |v.getD k 0|]
    exact (Close.exact hfl.nonneg _ _).within
  · rw [if_pos (by simp only [View2.rounded]; omega)]
    simp only [matrix, h0, if_false]
    exact (gemvEntry_close hfl A.transpose v w hs j).within

/-- Non-vacuous: three columns, added in two parts. -/
example : Within (2 ^ (-53 : ℤ)) 7
    (evaluateEntry (View2.rounded (fl := nearest 53) ⟨1, 3, fun _ j => 0.1 + j⟩) (([0.3] : List ℝ).map Fl.of) (([0.1, 0.2, 0.7] : List ℝ).map Fl.of)
      (.join (.chunk [2, 0]) (.chunk [1])) 0).val
    (0.1 * 0.1 + 1.1 * 0.2 + 2.1 * 0.7 + 0.3) (0.1 * 0.1 + 1.1 * 0.2 + 2.1 * 0.7 + 0.3) := by
  have h : MakesAffine ⟨1, 3, fun _ j => 0.1 + j⟩ [0.3] 1 3 (AffineMap.obj ⟨1, 3, fun _ j => 0.1 + j⟩ [0.3] 3 1 false) :=
    .Ab (st := false) (by simp) (by simp [AffineMap.newAB])
  have hf : Fits (AffineMap.obj ⟨1, 3, fun _ j => 0.1 + j⟩ [0.3] 3 1 false) [] [0.1, 0.2, 0.7] := ⟨rfl, rfl⟩
  have := C103_affine C103_double h hf (s := .join (.chunk [2, 0]) (.chunk [1])) (by decide) (i := 0) (by omega)
  rw [(C48_affine_evaluate h).2.2.2 _ _ hf, affine_getD (by omega), affine_getD (by omega)] at this
  norm_num [Finset.sum_range_succ, matrix, additions, abs_of_pos] at this ⊢
  exact this

end MParT
