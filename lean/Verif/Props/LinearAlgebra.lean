import Verif.Lemmas.LinearAlgebra
import Mathlib.Tactic.NormNum
import Mathlib.Tactic.FinCases
import Mathlib.Data.List.ProdSigma
import Mathlib.Data.Real.StarOrdered
/-!
# C70, C71: sums, products and linear solves with matrices
-/
namespace MParT

open Spec LinAlg

/-! ## Products -/

variable {R : Type}

theorem Spec.IsMat.transpose {m n : Nat} {V : View2 R} {M : Matrix (Fin m) (Fin n) R} (h : IsMat V M) :
    IsMat V.transpose M.transpose := ⟨h.2.1, h.1, fun i j => h.2.2 j i⟩

/-- C70: a view as it is stands for its matrix, a transposed view for the transposed matrix, and transposing twice gives the
matrix back. -/
theorem C70_transpose {m n : Nat} {M : Matrix (Fin m) (Fin n) R} :
    (∀ V : View2 R, IsMat V M → StandsFor (Trans.ofView V) M ∧ StandsFor (transposeView V) M.transpose) ∧
    (∀ A : Trans R, StandsFor A M → StandsFor (transposeTrans A) M.transpose ∧ A.rows = m ∧ A.cols = n) := by
  refine ⟨fun V h => ⟨.inl ⟨rfl, h⟩, .inr ⟨rfl, by rwa [Matrix.transpose_transpose]⟩⟩, ?_⟩
  rintro ⟨v, t⟩ (⟨h1, h2⟩ | ⟨h1, h2⟩)
  · simp only at h1
    subst h1
    exact ⟨.inr ⟨rfl, by rwa [Matrix.transpose_transpose]⟩, h2.1, h2.2.1⟩
  · simp only at h1
    subst h1
    exact ⟨.inl ⟨rfl, h2⟩, h2.2.1, h2.1⟩

variable [CommRing R]

theorem product_ok {m k n : Nat} {A B : View2 R} {MA : Matrix (Fin m) (Fin k) R} {MB : Matrix (Fin k) (Fin n) R}
    (hA : IsMat A MA) (hB : IsMat B MB) : ∃ P, product A B = .ok P ∧ IsMat P (MA * MB) := by
  obtain ⟨a0, a1, ha⟩ := hA
  obtain ⟨b0, b1, hb⟩ := hB
  refine ⟨⟨A.n0, B.n1, fun i j => ((List.range A.n1).map fun k => A.get i k * B.get k j).sum⟩,
    if_pos (by rw [a1, b0]), a0, b1, fun i j => ?_⟩
  simp only [a1]
  rw [sum_range, Matrix.mul_apply]
  exact Finset.sum_congr rfl fun l _ => by rw [ha, hb]

/-- C70: `dgemm` computes `α A B + β C` for every combination of transposed and plain arguments. -/
theorem C70_dgemm {m k n : Nat} {A B : Trans R} {C : View2 R} {MA : Matrix (Fin m) (Fin k) R} {MB : Matrix (Fin k) (Fin n) R}
    {MC : Matrix (Fin m) (Fin n) R} (hA : StandsFor A MA) (hB : StandsFor B MB) (hC : IsMat C MC) (α β : R) :
    ∃ D, dgemm α A B β C = .ok D ∧ IsMat D (β • MC + α • (MA * MB)) := by
  have fin : ∀ P : View2 R, IsMat P (MA * MB) → ∃ D, combine α β C P = .ok D ∧ IsMat D (β • MC + α • (MA * MB)) := by
    rintro P ⟨p0, p1, hp⟩
    obtain ⟨c0, c1, hc⟩ := hC
    refine ⟨⟨C.n0, C.n1, fun i j => β * C.get i j + α * P.get i j⟩, if_pos ⟨by rw [c0, p0], by rw [c1, p1]⟩, c0, c1,
      fun i j => ?_⟩
    simp [hc, hp]
  rcases hA with ⟨a1, a2⟩ | ⟨a1, a2⟩ <;> rcases hB with ⟨b1, b2⟩ | ⟨b1, b2⟩
  · obtain ⟨P, hP, hM⟩ := product_ok a2 b2
    obtain ⟨D, hD⟩ := fin P hM
    exact ⟨D, by simp only [dgemm, a1, b1, Bool.false_eq_true, if_false, hP, Res.bind_ok]; exact hD.1, hD.2⟩
  · have b3 := b2.transpose
    rw [Matrix.transpose_transpose] at b3
    obtain ⟨P, hP, hM⟩ := product_ok a2 b3
    obtain ⟨D, hD⟩ := fin P hM
    exact ⟨D, by simp only [dgemm, a1, b1, Bool.false_eq_true, if_false, if_true, hP, Res.bind_ok]; exact hD.1, hD.2⟩
  · have a3 := a2.transpose
    rw [Matrix.transpose_transpose] at a3
    obtain ⟨P, hP, hM⟩ := product_ok a3 b2
    obtain ⟨D, hD⟩ := fin P hM
    exact ⟨D, by simp only [dgemm, a1, b1, Bool.false_eq_true, if_false, if_true, hP, Res.bind_ok]; exact hD.1, hD.2⟩
  · have a3 := a2.transpose
    have b3 := b2.transpose
    rw [Matrix.transpose_transpose] at a3 b3
    obtain ⟨P, hP, hM⟩ := product_ok a3 b3
    obtain ⟨D, hD⟩ := fin P hM
    exact ⟨D, by simp only [dgemm, a1, b1, if_true, hP, Res.bind_ok]; exact hD.1, hD.2⟩

/-- C70: `A * B` is the matrix product, whatever is transposed. -/
theorem C70_product {m k n : Nat} {A B : Trans R} {MA : Matrix (Fin m) (Fin k) R} {MB : Matrix (Fin k) (Fin n) R}
    (hA : StandsFor A MA) (hB : StandsFor B MB) : ∃ C, mul A B = .ok C ∧ IsMat C (MA * MB) := by
  obtain ⟨_, ra, ca⟩ := C70_transpose.2 A hA
  obtain ⟨_, rb, cb⟩ := C70_transpose.2 B hB
  have h0 : IsMat (⟨A.rows, B.cols, fun _ _ => 0⟩ : View2 R) (0 : Matrix (Fin m) (Fin n) R) := ⟨ra, cb, fun _ _ => rfl⟩
  obtain ⟨D, hD, hM⟩ := C70_dgemm hA hB h0 1 0
  refine ⟨D, by rw [mul, if_pos (by rw [ca, rb])]; exact hD, ?_⟩
  simpa using hM

/-- C70: the same with views instead of transpose objects. -/
theorem C70_views {m k n : Nat} {A B : View2 R} {MA : Matrix (Fin m) (Fin k) R} {MB : Matrix (Fin k) (Fin n) R} :
    (IsMat A MA → IsMat B MB → ∃ C, mulViews A B = .ok C ∧ IsMat C (MA * MB)) ∧
    (IsMat A MA.transpose → IsMat B MB → ∃ C, mulTransView (transposeView A) B = .ok C ∧ IsMat C (MA * MB)) ∧
    (IsMat A MA → IsMat B MB.transpose → ∃ C, mulViewTrans A (transposeView B) = .ok C ∧ IsMat C (MA * MB)) ∧
    (∀ (C : View2 R) (MC : Matrix (Fin m) (Fin n) R) (α β : R), IsMat A MA → IsMat B MB → IsMat C MC →
      ∃ D, dgemmViews α A B β C = .ok D ∧ IsMat D (β • MC + α • (MA * MB))) :=
  ⟨fun hA hB => C70_product (.inl ⟨rfl, hA⟩) (.inl ⟨rfl, hB⟩), fun hA hB => C70_product (.inr ⟨rfl, hA⟩) (.inl ⟨rfl, hB⟩),
    fun hA hB => C70_product (.inl ⟨rfl, hA⟩) (.inr ⟨rfl, hB⟩),
    fun _ _ α β hA hB hC => C70_dgemm (.inl ⟨rfl, hA⟩) (.inl ⟨rfl, hB⟩) hC α β⟩

/-- C70: a product of matrices whose sizes do not fit is refused. -/
theorem C70_rejects {m k l n : Nat} {A B : Trans R} {MA : Matrix (Fin m) (Fin k) R} {MB : Matrix (Fin l) (Fin n) R}
    (hA : StandsFor A MA) (hB : StandsFor B MB) (h : k ≠ l) : mul A B = .throw := by
  obtain ⟨_, _, ca⟩ := C70_transpose.2 A hA
  obtain ⟨_, rb, _⟩ := C70_transpose.2 B hB
  rw [mul, if_neg (by rw [ca, rb]; exact h)]

/-! ## Sums -/

theorem addSteps_ok (y : List R) (order : List Nat) (x : List R) (hl : x.length = y.length) (hn : order.Nodup)
    (hb : ∀ i ∈ order, i < x.length) :
    ∃ z, addSteps y order x = .ok z ∧ z.length = x.length ∧
      ∀ i, i < x.length → z.getD i 0 = if i ∈ order then x.getD i 0 + y.getD i 0 else x.getD i 0 := by
  induction order generalizing x with
  | nil => exact ⟨x, rfl, rfl, fun i _ => by simp⟩
  | cons a as ih =>
    have ha := hb a (by simp)
    have hay : a < y.length := by rw [← hl]; exact ha
    have hstep : addAt y x a = .ok (x.set a (x[a] + y[a])) := by
      rw [addAt, Res.idx_lt ha, Res.bind_ok, Res.idx_lt hay, Res.bind_ok, Res.setIdx, if_pos ha]
    obtain ⟨z, h1, h2, h3⟩ := ih (x.set a (x[a] + y[a])) (by simpa using hl) hn.of_cons
      (fun i hi => by simpa using hb i (by simp [hi]))
    refine ⟨z, by rw [addSteps, hstep, Res.bind_ok, h1], by simpa using h2, fun i hi => ?_⟩
    rw [h3 i (by simpa using hi)]
    by_cases hia : i = a
    · subst hia
      have : i ∉ as := (List.nodup_cons.mp hn).1
      simp [this, List.getD_eq_getElem?_getD, ha, hay]
    · have : i ∈ a :: as ↔ i ∈ as := by simp [hia]
      simp only [this]
      have e : (x.set a (x[a] + y[a])).getD i 0 = x.getD i 0 := by
        simp [List.getD_eq_getElem?_getD, List.getElem?_set_ne (Ne.symm hia)]
      rw [e]

/-- C70: `x + y` and `x += y` on vectors, for every order in which the iterations of the parallel loop run. -/
theorem C70_sum {x y : List R} (hl : x.length = y.length) {order : List Nat} (ho : order.Perm (List.range x.length)) :
    addInPlaceVec order x y = .ok (List.zipWith (· + ·) x y) ∧ add order x y = .ok (List.zipWith (· + ·) x y) := by
  have key : addInPlaceVec order x y = .ok (List.zipWith (· + ·) x y) := by
    obtain ⟨z, h1, h2, h3⟩ := addSteps_ok y order x hl (ho.nodup_iff.mpr List.nodup_range)
      (fun i hi => List.mem_range.mp (ho.mem_iff.mp hi))
    rw [addInPlaceVec, if_pos hl, h1]
    congr 1
    apply List.ext_getElem
    · simp [h2, hl]
    · intro i hi hi'
      have hix : i < x.length := by rw [← h2]; exact hi
      have := h3 i hix
      rw [if_pos (ho.mem_iff.mpr (List.mem_range.mpr hix))] at this
      simpa [List.getD_eq_getElem?_getD, hi, hix, show i < y.length by omega] using this
  exact ⟨key, by simp [add, key]⟩

theorem addSteps2_ok (y : View2 R) (order : List (Nat × Nat)) (x : View2 R) (h0 : x.n0 = y.n0) (h1 : x.n1 = y.n1)
    (hn : order.Nodup) (hb : ∀ p ∈ order, p.1 < x.n0 ∧ p.2 < x.n1) :
    ∃ z, addSteps2 y order x = .ok z ∧ z.n0 = x.n0 ∧ z.n1 = x.n1 ∧
      ∀ i j, z.get i j = if (i, j) ∈ order then x.get i j + y.get i j else x.get i j := by
  induction order generalizing x with
  | nil => exact ⟨x, rfl, rfl, rfl, fun i j => by simp⟩
  | cons a as ih =>
    have ha := hb a (by simp)
    have hstep : addAt2 y x a = .ok ⟨x.n0, x.n1,
        fun i j => if i = a.1 ∧ j = a.2 then x.get i j + y.get i j else x.get i j⟩ := by
      rw [addAt2, if_pos ⟨ha.1, ha.2, by omega, by omega⟩]
    obtain ⟨z, z1, z2, z3, z4⟩ := ih ⟨x.n0, x.n1, fun i j => if i = a.1 ∧ j = a.2 then x.get i j + y.get i j else x.get i j⟩
      h0 h1 hn.of_cons (fun p hp => hb p (by simp [hp]))
    refine ⟨z, by rw [addSteps2, hstep, Res.bind_ok, z1], z2, z3, fun i j => ?_⟩
    rw [z4]
    have hna : a ∉ as := (List.nodup_cons.mp hn).1
    by_cases hij : (i, j) = a
    · subst hij
      simp [hna]
    · have hne : ¬ (i = a.1 ∧ j = a.2) := fun h => hij (Prod.ext h.1 h.2)
      have : (i, j) ∈ a :: as ↔ (i, j) ∈ as := by simp [hij]
      simp only [this, hne, if_false]

/-- C70: `X + Y` and `X += Y` on matrices, for every order of the iterations. -/
theorem C70_sum_matrix {m n : Nat} {x y : View2 R} {X Y : Matrix (Fin m) (Fin n) R} (hx : IsMat x X) (hy : IsMat y Y)
    {order : List (Nat × Nat)} (ho : order.Perm (List.range m ×ˢ List.range n)) :
    (∃ z, addInPlace2 order x y = .ok z ∧ IsMat z (X + Y)) ∧ (∃ z, add2 order x y = .ok z ∧ IsMat z (X + Y)) := by
  have key : ∀ x : View2 R, IsMat x X → ∃ z, addInPlace2 order x y = .ok z ∧ IsMat z (X + Y) := by
    intro x hx
    obtain ⟨x0, x1, hxg⟩ := hx
    obtain ⟨y0, y1, hyg⟩ := hy
    obtain ⟨z, z1, z2, z3, z4⟩ := addSteps2_ok y order x (by omega) (by omega)
      (ho.nodup_iff.mpr (List.nodup_range.product List.nodup_range))
      (fun p hp => by
        have := List.mem_product.mp (ho.mem_iff.mp hp)
        rw [x0, x1]
        exact ⟨List.mem_range.mp this.1, List.mem_range.mp this.2⟩)
    refine ⟨z, by rw [addInPlace2, if_pos ⟨by omega, by omega⟩, z1], by omega, by omega, fun i j => ?_⟩
    rw [z4, if_pos, hxg, hyg, Matrix.add_apply]
    exact ho.mem_iff.mpr (List.mem_product.mpr ⟨List.mem_range.mpr i.2, List.mem_range.mpr j.2⟩)
  refine ⟨key x hx, ?_⟩
  have h := key ⟨x.n0, y.n1, x.get⟩ ⟨hx.1, hy.2.1, hx.2.2⟩
  rw [add2, if_pos (by rw [hx.2.1, hy.2.1]), Res.bind_ok]
  exact h

/-- C70: sums of arrays of different sizes are refused. -/
theorem C70_sum_rejects (order : List Nat) (order2 : List (Nat × Nat)) {x y : List R} {u v : View2 R} :
    (x.length ≠ y.length → addInPlaceVec order x y = .throw ∧ add order x y = .throw) ∧
    (¬ (u.n0 = v.n0 ∧ u.n1 = v.n1) → addInPlace2 order2 u v = .throw ∧ add2 order2 u v = .throw) := by
  refine ⟨fun h => ⟨by rw [addInPlaceVec, if_neg h], by simp [add, addInPlaceVec, h]⟩, fun h => ⟨by rw [addInPlace2, if_neg h], ?_⟩⟩
  rw [add2]
  by_cases h1 : v.n1 = u.n1
  · rw [if_pos h1, Res.bind_ok, addInPlace2, if_neg]
    simp only
    tauto
  · rw [if_neg h1]; rfl

/-- A transposed product with numbers. -/
example : ∃ C, mulTransView (transposeView ⟨2, 1, fun i _ => (i : ℤ) + 3⟩) ⟨2, 2, fun i j => 2 * (i : ℤ) + j⟩ = .ok C ∧
    IsMat C !![8, 15] := by
  have h := (C70_views (A := ⟨2, 1, fun i _ => (i : ℤ) + 3⟩) (B := ⟨2, 2, fun i j => 2 * (i : ℤ) + j⟩)
    (MA := !![3, 4]) (MB := !![0, 1; 2, 3])).2.1
    ⟨rfl, rfl, fun i j => by fin_cases i <;> fin_cases j <;> rfl⟩ ⟨rfl, rfl, fun i j => by fin_cases i <;> fin_cases j <;> rfl⟩
  obtain ⟨C, h1, h2⟩ := h
  refine ⟨C, h1, ?_⟩
  have e : (!![3, 4] : Matrix (Fin 1) (Fin 2) ℤ) * (!![0, 1; 2, 3] : Matrix (Fin 2) (Fin 2) ℤ) = !![8, 15] := by decide
  rwa [e] at h2

/-! ## LU factorisation -/

theorem unitLower_mulVec {n : Nat} (M : Matrix (Fin n) (Fin n) ℝ) (b : Nat → ℝ) (i : Fin n) :
    ∑ j : Fin n, unitLower M i j * (forward (ext M) (fun _ => 1) b n).getD j 0 = b i :=
  forward_solves (unitLower M) (fun i j h => by
      simp only [unitLower, Matrix.of_apply]
      rw [if_neg (not_lt.mpr h.le), if_neg h.ne])
    (fun i => by simp [unitLower]) _ _ _
    (fun i j h => by rw [ext_fin]; simp [unitLower, h]) (fun i => by simp [unitLower]) i

theorem upper_mulVec {n : Nat} (M : Matrix (Fin n) (Fin n) ℝ) (hd : ∀ i, M i i ≠ 0) (b : Nat → ℝ) (i : Fin n) :
    ∑ j : Fin n, upper M i j * (backward (ext M) n b n).getD j 0 = b i :=
  backward_solves (upper M) (fun i j h => by
      simp only [upper, Matrix.of_apply]
      rw [if_neg (not_le.mpr h)])
    (fun i => by simpa [upper] using hd i) _ _
    (fun i j h => by rw [ext_fin]; simp [upper, h]) i

/-- C71: `determinant()` is the determinant of the factorised matrix. -/
theorem C71_determinant {n : Nat} {A : Matrix (Fin n) (Fin n) ℝ} {f : LU n} (h : Factorises A f) :
    luDeterminant (some f) = .ok A.det := by
  have h1 : A.submatrix f.perm id = unitLower f.lu * upper f.lu := by ext i j; exact h i j
  have h2 := congrArg Matrix.det h1
  rw [Matrix.det_permute, Matrix.det_mul] at h2
  have hl : (unitLower f.lu).det = 1 := by
    rw [Matrix.det_of_isLowerTriangular _ (fun i j (hij : i < j) => by
      simp only [unitLower, Matrix.of_apply]; rw [if_neg (not_lt.mpr hij.le), if_neg hij.ne])]
    simp [unitLower]
  have hu : (upper f.lu).det = ∏ i, f.lu i i := by
    rw [Matrix.det_of_isUpperTriangular (fun i j (hij : j < i) => by
      simp only [upper, Matrix.of_apply]; rw [if_neg (not_le.mpr hij)])]
    simp [upper]
  rw [hl, hu, one_mul] at h2
  rw [luDeterminant, ← h2, ← mul_assoc]
  have hs : ((Equiv.Perm.sign f.perm : ℤ) : ℝ) * ((Equiv.Perm.sign f.perm : ℤ) : ℝ) = 1 := by
    rw [← Int.cast_mul, ← Units.val_mul, Int.units_mul_self]; simp
  rw [hs, one_mul]

theorem lu_diag {n : Nat} {A : Matrix (Fin n) (Fin n) ℝ} {f : LU n} (h : Factorises A f) :
    A.det = 0 ↔ ∃ i, f.lu i i = 0 := by
  have := C71_determinant h
  simp only [luDeterminant, Res.ok.injEq] at this
  rw [← this, mul_eq_zero, Finset.prod_eq_zero_iff]
  constructor
  · rintro (h | ⟨i, _, h⟩)
    · exfalso
      rcases Int.units_eq_one_or (Equiv.Perm.sign f.perm) with e | e <;> simp [e] at h
    · exact ⟨i, h⟩
  · rintro ⟨i, h⟩; exact .inr ⟨i, Finset.mem_univ i, h⟩

theorem solveColumn_ok {n : Nat} {A : Matrix (Fin n) (Fin n) ℝ} {f : LU n} (h : Factorises A f) (hd : A.det ≠ 0)
    (b : Nat → ℝ) : ∃ x, f.solveColumn b = .ok x ∧ ∀ i : Fin n, ∑ j : Fin n, A i j * x.getD j 0 = b i := by
  have hdi : ∀ i, f.lu i i ≠ 0 := by
    intro i hi; exact hd ((lu_diag h).mpr ⟨i, hi⟩)
  set z := forward (ext f.lu) (fun _ => 1) (f.permute b) n with hz
  refine ⟨backward (ext f.lu) n (fun i => z.getD i 0) n, ?_, ?_⟩
  · rw [LU.solveColumn]
    rw [guardDiag_ok (fun _ _ => one_ne_zero), Res.bind_ok, guardDiag_ok]
    intro i hi
    have := hdi ⟨i, hi⟩
    rwa [← ext_fin f.lu] at this
  · have hp : ∀ i : Fin n, ∑ j : Fin n, A (f.perm i) j * (backward (ext f.lu) n (fun i => z.getD i 0) n).getD j 0
        = b (f.perm i) := by
      intro i
      have e1 : ∀ k : Fin n, ∑ j : Fin n, upper f.lu k j * (backward (ext f.lu) n (fun i => z.getD i 0) n).getD j 0
          = z.getD k 0 := upper_mulVec f.lu hdi _
      have e2 := unitLower_mulVec f.lu (f.permute b) i
      calc ∑ j : Fin n, A (f.perm i) j * (backward (ext f.lu) n (fun i => z.getD i 0) n).getD j 0
          = ∑ j : Fin n, ∑ k : Fin n, unitLower f.lu i k * (upper f.lu k j
              * (backward (ext f.lu) n (fun i => z.getD i 0) n).getD j 0) := by
            apply Finset.sum_congr rfl
            intro j _
            rw [h i j, Matrix.mul_apply, Finset.sum_mul]
            exact Finset.sum_congr rfl fun k _ => by ring
        _ = ∑ k : Fin n, unitLower f.lu i k * z.getD k 0 := by
            rw [Finset.sum_comm]
            apply Finset.sum_congr rfl
            intro k _
            rw [← Finset.mul_sum, e1 k]
        _ = b (f.perm i) := by
            rw [hz, e2]
            simp [LU.permute]
    intro i
    have := hp (f.perm.symm i)
    simpa using this

/-- C71: `solve` (and `solveInPlace`) returns the solution `X` of `A X = B`, for every non-singular matrix `A`, however its rows
were exchanged, and every number of right-hand sides. -/
theorem C71_solve_partial {n m : Nat} {A : Matrix (Fin n) (Fin n) ℝ} {f : LU n} (h : Factorises A f) (hd : A.det ≠ 0) {b : View2 ℝ}
    {B : Matrix (Fin n) (Fin m) ℝ} (hb : IsMat b B) :
    ∃ x X, luSolve (some f) b = .ok x ∧ luSolveInPlace (some f) b = .ok x ∧ IsMat x X ∧ A * X = B := by
  obtain ⟨b0, b1, hbg⟩ := hb
  choose g hg using fun j : Nat => solveColumn_ok h hd fun i => b.get i j
  have hcol := columnsOf_ok b f.solveColumn g b.n1 0 fun l _ _ => (hg l).1
  have e : luSolveInPlace (some f) b = .ok (ofColumns n ((List.range' 0 b.n1).map g)) := by
    simp only [luSolveInPlace]
    rw [if_pos b0, hcol, Res.bind_ok]
  refine ⟨_, Matrix.of fun i j => (g j).getD i 0, e, e, ⟨rfl, by simp [ofColumns, b1], fun i j => ?_⟩, ?_⟩
  · rw [ofColumns_get g (by rw [b1]; exact j.2)]; rfl
  · ext i j
    rw [Matrix.mul_apply, ← hbg]
    exact (hg j).2 i

/-- C71: with a singular matrix the solve divides by zero. -/
theorem C71_singular {n : Nat} {A : Matrix (Fin n) (Fin n) ℝ} {f : LU n} (h : Factorises A f) (hd : A.det = 0) {b : View2 ℝ}
    (h0 : b.n0 = n) (h1 : 0 < b.n1) : luSolve (some f) b = .ub := by
  obtain ⟨i, hi⟩ := (lu_diag h).mp hd
  have hc : f.solveColumn (fun i => b.get i 0) = .ub := by
    rw [LU.solveColumn]
    rw [guardDiag_ok (fun _ _ => one_ne_zero), Res.bind_ok, guardDiag_ub i.2 (by rw [ext_fin]; exact hi)]
  simp only [luSolve, luSolveInPlace]
  rw [if_pos h0, columnsOf_ub _ _ h1 hc]; rfl

/-- C71: there is a factorisation of every square matrix. -/
theorem C71_exists {n : Nat} (A : Matrix (Fin n) (Fin n) ℝ) : ∃ f, Factorises A f := exists_lu A

/-- C71: right-hand sides with another number of rows are refused. -/
theorem C71_rejects {n : Nat} (f : LU n) (L : Matrix (Fin n) (Fin n) ℝ) {b : View2 ℝ} (h : b.n0 ≠ n) :
    luSolve (some f) b = .throw ∧ cholSolve (some L) b = .throw ∧ cholSolveInPlaceL (some L) b = .throw ∧
      cholMultiplyL (some L) b = .throw := by
  refine ⟨?_, ?_, ?_, ?_⟩
  · simp [luSolve, luSolveInPlace, h]
  · simp [cholSolve, cholSolveInPlace, cholSolveInPlaceL, h]
  · simp [cholSolveInPlaceL, h]
  · simp [cholMultiplyL, product, Ne.symm h]

/-- **C71** fails for solvers that were not computed: `solve` and `multiplyL` use a null pointer, and `determinant` looks at a flag that has no value. -/
theorem C71_fails_not_computed {n : Nat} (b : View2 ℝ) :
    luSolve (n := n) none b = .ub ∧ cholSolve (n := n) none b = .ub ∧ cholSolveInPlaceL (n := n) none b = .ub ∧
    cholMultiplyL (n := n) none b = .ub ∧ luDeterminant (n := n) none = .ub ∧ cholDeterminant (n := n) none = .ub :=
  ⟨rfl, rfl, rfl, rfl, rfl, rfl⟩

/-! ## Cholesky factorisation -/

theorem chol_forward {n : Nat} {L S : Matrix (Fin n) (Fin n) ℝ} (h : IsCholesky L S) (b : Nat → ℝ) :
    ∃ x, cholForward L b = .ok x ∧ ∀ i : Fin n, ∑ j : Fin n, L i j * x.getD j 0 = b i := by
  refine ⟨_, guardDiag_ok (fun i hi => ?_) _, forward_solves L h.1 (fun i => (h.2.1 i).ne') _ _ _
    (fun i j _ => ext_fin L i j) fun i => ext_fin L i i⟩
  have := (h.2.1 ⟨i, hi⟩).ne'
  rwa [← ext_fin L] at this

theorem chol_backward {n : Nat} {L S : Matrix (Fin n) (Fin n) ℝ} (h : IsCholesky L S) (b : Nat → ℝ) :
    ∃ x, cholBackward L b = .ok x ∧ ∀ i : Fin n, ∑ j : Fin n, L j i * x.getD j 0 = b i := by
  refine ⟨_, guardDiag_ok (fun i hi => ?_) _, backward_solves L.transpose (fun i j hij => h.1 j i hij)
    (fun i => (h.2.1 i).ne') _ _ (fun i j _ => ext_fin L j i)⟩
  have := (h.2.1 ⟨i, hi⟩).ne'
  rwa [← ext_fin L] at this

/-- C71: `solveInPlaceL` returns the solution `Y` of `L Y = B`, and `multiplyL` of it gives `B` back. -/
theorem C71_cholesky_half {n m : Nat} {L S : Matrix (Fin n) (Fin n) ℝ} (h : IsCholesky L S) {b : View2 ℝ}
    {B : Matrix (Fin n) (Fin m) ℝ} (hb : IsMat b B) :
    (∃ y Y, cholSolveInPlaceL (some L) b = .ok y ∧ IsMat y Y ∧ L * Y = B) ∧
    (∃ z, cholMultiplyL (some L) b = .ok z ∧ IsMat z (L * B)) := by
  constructor
  · obtain ⟨b0, b1, hbg⟩ := hb
    choose g hg using fun j : Nat => chol_forward h fun i => b.get i j
    have hcol := columnsOf_ok b (cholForward L) g b.n1 0 fun l _ _ => (hg l).1
    refine ⟨_, Matrix.of fun i j => (g j).getD i 0, by simp only [cholSolveInPlaceL]; rw [if_pos b0, hcol, Res.bind_ok],
      ⟨rfl, by simp [ofColumns, b1], fun i j => ?_⟩, ?_⟩
    · rw [ofColumns_get g (by rw [b1]; exact j.2)]; rfl
    · ext i j
      rw [Matrix.mul_apply, ← hbg]
      exact (hg j).2 i
  · apply product_ok (MA := L) ?_ hb
    refine ⟨rfl, rfl, fun i j => ?_⟩
    by_cases hij : j ≤ i
    · simp [ext_fin, hij, Fin.le_def.mp hij]
    · rw [h.1 i j (not_le.mp hij)]
      simp [show ¬ j.1 ≤ i.1 from hij]

/-- C71: `solve` returns the solution `X` of `A X = B` for the symmetric matrix `A = L Lᵀ` with the lower triangle given. -/
theorem C71_cholesky_solve {n m : Nat} {A L : Matrix (Fin n) (Fin n) ℝ} (h : IsCholesky L (lowerSym A)) {b : View2 ℝ}
    {B : Matrix (Fin n) (Fin m) ℝ} (hb : IsMat b B) :
    ∃ x X, cholSolve (some L) b = .ok x ∧ cholSolveInPlace (some L) b = .ok x ∧ IsMat x X ∧ lowerSym A * X = B := by
  obtain ⟨y, Y, hy, ⟨y0, y1, hyg⟩, hLY⟩ := (C71_cholesky_half h hb).1
  choose g hg using fun j : Nat => chol_backward h fun i => y.get i j
  have hcol := columnsOf_ok y (cholBackward L) g y.n1 0 fun l _ _ => (hg l).1
  have e : cholSolveInPlace (some L) b = .ok (ofColumns n ((List.range' 0 y.n1).map g)) := by
    simp only [cholSolveInPlace]
    rw [hy, Res.bind_ok, hcol, Res.bind_ok]
  refine ⟨_, Matrix.of fun i j => (g j).getD i 0, e, e, ⟨rfl, by simp [ofColumns, y1], fun i j => ?_⟩, ?_⟩
  · rw [ofColumns_get g (by rw [y1]; exact j.2)]; rfl
  · rw [← h.2.2, Matrix.mul_assoc, ← hLY]
    congr 1
    ext i j
    rw [Matrix.mul_apply, ← hyg]
    exact (hg j).2 i

/-- C71: `determinant()` of the Cholesky factorisation. -/
theorem C71_cholesky_determinant {n : Nat} {S L : Matrix (Fin n) (Fin n) ℝ} (h : IsCholesky L S) :
    cholDeterminant (some L) = .ok S.det := by
  rw [← h.2.2, Matrix.det_mul, Matrix.det_transpose, Matrix.det_of_isLowerTriangular _ (fun i j hij => h.1 i j hij)]
  rfl

/-- C71: every symmetric positive definite matrix has exactly one Cholesky factor, and a matrix with a factor is positive
definite. -/
theorem C71_cholesky_exists {n : Nat} (S : Matrix (Fin n) (Fin n) ℝ) : S.PosDef ↔ ∃! L, IsCholesky L S := by
  constructor
  · intro h
    obtain ⟨L, hL⟩ := exists_cholesky h
    exact ⟨L, hL, fun M hM => cholesky_unique hM hL⟩
  · rintro ⟨L, h, _⟩
    have hu : IsUnit L := by
      rw [Matrix.isUnit_iff_isUnit_det, isUnit_iff_ne_zero, Matrix.det_of_isLowerTriangular _ (fun i j hij => h.1 i j hij)]
      exact Finset.prod_ne_zero_iff.mpr fun i _ => (h.2.1 i).ne'
    rw [← h.2.2]
    have := Matrix.PosDef.mul_mul_conjTranspose_same (A := (1 : Matrix (Fin n) (Fin n) ℝ)) (B := L) Matrix.PosDef.one
      (Matrix.vecMul_injective_iff_isUnit.mpr hu)
    simpa using this

end MParT
