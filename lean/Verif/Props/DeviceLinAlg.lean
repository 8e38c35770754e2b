import Verif.Spec.DeviceLinAlg
import Verif.Props.DeviceMaps
import Verif.Props.LinearAlgebra
/-!
# C89: products, solves and determinants in device memory
-/
namespace MParT
open Spec Arrays LinAlg

/-! ### Columns that depend on the old content -/

theorem onColumns_old {f : List ℝ → List ℝ → Res (List ℝ)} {mem : List ℝ} {pts output : Arrays.View2} {M O : Nat → Nat → ℝ}
    (hM : StoresView mem pts M) {g : Nat → List ℝ} {order : List Nat} : ∀ out : List ℝ, Separate out.length output → order.Nodup →
    (∀ j ∈ order, j < pts.ext1 ∧ j < output.ext1) →
    (∀ i j, i < output.ext0 → j ∈ order → out[output.addr i j]? = some (O i j)) →
    (∀ j ∈ order, (g j).length = output.ext0 ∧ f (col pts.ext0 M j) (col output.ext0 O j) = .ok (g j)) →
    ∃ out', onColumns f mem pts out output order = .ok out' ∧ out'.length = out.length ∧
      (∀ i j, i < output.ext0 → j ∈ order → out'[output.addr i j]? = some ((g j).getD i 0)) ∧
      (∀ a, (∀ i j, i < output.ext0 → j ∈ order → a ≠ output.addr i j) → out'[a]? = out[a]?) := by
  induction order with
  | nil => intro out _ _ _ _ _; exact ⟨out, rfl, rfl, by simp, fun _ _ => rfl⟩
  | cons j js ih =>
    intro out hsep hnd hord hO hf
    obtain ⟨hj, hj'⟩ := hord j (by simp)
    obtain ⟨hg, hf'⟩ := hf j (by simp)
    rw [List.nodup_cons] at hnd
    have hold : column out output j = .ok (col output.ext0 O j) := by
      rw [column, if_pos hj', readFrom_ok (g := fun i => O i j) output.ext0 0 (fun k _ hk => hO k j (by omega) (by simp)), col, List.range_eq_range']
    obtain ⟨o1, w1, w2, w3, w4⟩ := writeTo_ok (addr := fun i => output.addr i j) (g j) out 0
      (fun k _ b => hsep.inside k j (by omega) hj')
      (fun k l _ b _ d e => (hsep.inj k j l j (by omega) hj' (by omega) hj' e).1)
    obtain ⟨o2, r1, r2, r3, r4⟩ := ih o1 (by rw [w2]; exact hsep) hnd.2 (fun k hk => hord k (by simp [hk]))
      (fun i k hi hk => by
        rw [w4 _ (fun l hl he => hnd.1 (by
          have := (hsep.inj i k l j hi (hord k (by simp [hk])).2 (by omega) hj' (by simpa using he)).2
          rwa [this] at hk))]
        exact hO i k hi (by simp [hk]))
      (fun k hk => hf k (by simp [hk]))
    refine ⟨o2, ?_, by rw [r2, w2], ?_, ?_⟩
    · rw [onColumns, column_ok hM hj, Res.bind_ok, hold, Res.bind_ok, hf', Res.bind_ok, w1, Res.bind_ok, r1]
    · intro i k hi hk
      by_cases hkj : k ∈ js
      · exact r3 i k hi hkj
      · have : k = j := by simpa [hkj] using hk
        subst this
        rw [r4 _ (fun l q hl hq he => hkj (by
          have := (hsep.inj i k l q hi hj' hl (hord q (by simp [hq])).2 he).2
          rwa [← this] at hq))]
        simpa using w3 i (by omega)
    · intro a ha
      rw [r4 a (fun i k hi hk => ha i k hi (by simp [hk]))]
      exact w4 a (fun k hk => by simpa using ha k j (by omega) (by simp))

/-! ### Products -/

/-- A matrix as a function of natural numbers. -/
private def nat2 {m n : Nat} (M : Matrix (Fin m) (Fin n) ℝ) (i j : Nat) : ℝ := if h : i < m ∧ j < n then M ⟨i, h.1⟩ ⟨j, h.2⟩ else 0

private theorem nat2_fin {m n : Nat} (M : Matrix (Fin m) (Fin n) ℝ) (i : Fin m) (j : Fin n) : nat2 M i j = M i j := by
  simp [nat2]

private theorem nat2_T {m n : Nat} (M : Matrix (Fin m) (Fin n) ℝ) (i j : Nat) : nat2 M.transpose i j = nat2 M j i := by
  unfold nat2
  by_cases h : i < n ∧ j < m
  · rw [dif_pos h, dif_pos h.symm]; rfl
  · rw [dif_neg h, dif_neg (fun h' => h h'.symm)]

theorem isMatrix_holds {s : Space} {m n : Nat} {A : Mat s} {M : Matrix (Fin m) (Fin n) ℝ} : IsMatrix A M ↔ Holds A m n (nat2 M) := by
  constructor
  · rintro ⟨h0, h1, h⟩
    refine ⟨h0, h1, fun i j hi hj => ?_⟩
    rw [h ⟨i, hi⟩ ⟨j, hj⟩]
    simp [nat2, hi, hj]
  · rintro ⟨h0, h1, h⟩
    exact ⟨h0, h1, fun i j => by rw [h i j i.2 j.2, nat2_fin]⟩

theorem leftOf_ok {A : Mat .device} {m n : Nat} {M : Nat → Nat → ℝ} (h : Holds A m n M) (ha : ColumnsApart A) :
    ∃ B, leftOf A = .ok B ∧ B.view.str0 = 1 ∧ m ≤ B.view.str1 ∧ Holds B m n M := by
  rw [leftOf]
  by_cases h1 : A.view.str0 = 1
  · rw [if_pos h1]
    exact ⟨A, rfl, h1, by rw [← h.rows_eq]; exact ha h1, h⟩
  · rw [if_neg h1]
    obtain ⟨out, e1, e2, e3⟩ := copyMat_ok h (out := List.replicate (A.view.ext0 * A.view.ext1) 0) (v := layoutLeft 0 A.view.ext0 A.view.ext1)
      h.rows_eq h.cols_eq (by rw [List.length_replicate]; exact separate_layoutLeft _ _)
    refine ⟨⟨out, layoutLeft 0 A.view.ext0 A.view.ext1⟩, by simp only [e1, Res.bind_ok], rfl, h.rows_eq.ge, h.rows_eq, h.cols_eq, fun i j hi hj => ?_⟩
    exact e3 i j (by simpa [layoutLeft, h.rows_eq] using hi) (by simpa [layoutLeft, h.cols_eq] using hj)

private theorem zip_range (a b : Nat → ℝ) (l : List Nat) : List.zipWith (· * ·) (l.map a) (l.map b) = l.map fun i => a i * b i := by
  induction l with
  | nil => rfl
  | cons x xs ih => simp [ih]

private theorem dot_range (k : Nat) (x y : Nat → ℝ) : dotOf ((List.range k).map x) ((List.range k).map y) = ∑ l ∈ Finset.range k, x l * y l := by
  rw [dotOf, zip_range]
  induction k with
  | zero => rfl
  | succ k ih => rw [List.range_succ, List.map_append, List.sum_append, ih, Finset.sum_range_succ]; simp

theorem gemmColumn_ok {alpha beta : ℝ} {mem x old : List ℝ} {v : Arrays.View2} {r : Nat → List ℝ} {o : Nat → ℝ} (n : Nat) : ∀ i,
    (∀ k, i ≤ k → k < i + n → readFrom mem (fun l => v.addr k l) 0 v.ext1 = .ok (r k) ∧ old[k]? = some (o k)) →
    gemmColumn alpha mem v beta x old i n = .ok ((List.range' i n).map fun k => alpha * dotOf (r k) x + beta * o k) := by
  induction n with
  | zero => intro i _; rfl
  | succ n ih =>
    intro i h
    obtain ⟨h1, h2⟩ := h i le_rfl (by omega)
    rw [gemmColumn, h1, Res.bind_ok, Res.idx_some h2, Res.bind_ok, ih (i + 1) (fun k a b => h k (by omega) (by omega)), Res.bind_ok]
    rfl

private theorem opView_ext (t : Bool) (d m n ld : Nat) : (opView t d m n ld).ext0 = m ∧ (opView t d m n ld).ext1 = n := by
  cases t <;> exact ⟨rfl, rfl⟩

private theorem separate_ld {size d m n ld : Nat} (hld : m ≤ ld) (hin : ∀ i j, i < m → j < n → d + i + j * ld < size) :
    Separate size (opView false d m n ld) := by
  refine ⟨fun i j hi hj => ?_, fun i j i' j' hi hj hi' hj' h => ?_⟩
  · have := hin i j hi hj
    simpa [opView, View2.addr] using this
  · simp only [opView, View2.addr, Bool.false_eq_true, if_false, Nat.mul_one] at *
    have e : i + j * ld = i' + j' * ld := by omega
    have h1 : i = i' := by
      have := congrArg (· % ld) e
      simpa [Nat.mod_eq_of_lt (show i < ld by omega), Nat.mod_eq_of_lt (show i' < ld by omega)] using this
    subst h1
    refine ⟨rfl, Nat.eq_of_mul_eq_mul_right (show 0 < ld by omega) (by omega)⟩

theorem cublas_ok {ta tb : Bool} {m n k : Nat} {alpha beta : ℝ} {A B C : List ℝ} {a lda b ldb c ldc : Nat} {MA MB MC : Nat → Nat → ℝ}
    (hm : 0 < m) (hn : 0 < n) (hk : 0 < k) (ha : (if ta then k else m) ≤ lda) (hb : (if tb then n else k) ≤ ldb) (hc : m ≤ ldc)
    (hA : StoresView A (opView ta a m k lda) MA) (hB : StoresView B (opView tb b k n ldb) MB) (hC : StoresView C (opView false c m n ldc) MC) :
    ∃ out, cublasDgemm ta tb m n k alpha A a lda B b ldb beta C c ldc = .ok out ∧ out.length = C.length ∧
      StoresView out (opView false c m n ldc) (fun i j => alpha * (∑ l ∈ Finset.range k, MA i l * MB l j) + beta * MC i j) ∧
      ∀ q, (∀ i j, i < m → j < n → q ≠ (opView false c m n ldc).addr i j) → out[q]? = C[q]? := by
  have hsep : Separate C.length (opView false c m n ldc) := separate_ld hc fun i j hi hj => by
    have := hC i j hi hj
    have := (List.getElem?_eq_some_iff.1 this).1
    simpa [opView, View2.addr] using this
  have hfalse : ¬ (lda < max 1 (if ta then k else m) ∨ ldb < max 1 (if tb then n else k) ∨ ldc < max 1 m) := by
    cases ta <;> cases tb <;> simp only [Bool.false_eq_true, if_false, if_true] at * <;> omega
  obtain ⟨out, e1, e2, e3, e4⟩ := onColumns_old (f := fun x old => gemmColumn alpha A (opView ta a m k lda) beta x old 0 m) (output := opView false c m n ldc)
    (O := MC) hB (g := fun j => (List.range m).map fun i => alpha * (∑ l ∈ Finset.range k, MA i l * MB l j) + beta * MC i j) (order := List.range n) C hsep
    List.nodup_range (fun j hj => by rw [(opView_ext tb b k n ldb).2]; exact ⟨List.mem_range.1 hj, List.mem_range.1 hj⟩)
    (fun i j hi hj => hC i j hi (List.mem_range.1 hj))
    (fun j hj => by
      refine ⟨by simp [opView], ?_⟩
      rw [gemmColumn_ok (r := fun i => (List.range k).map fun l => MA i l) (o := fun i => MC i j) m 0, ← List.range_eq_range']
      · congr 1
        apply List.map_congr_left
        intro i _
        rw [(opView_ext tb b k n ldb).1, col, dot_range]
      · intro i _ hi
        constructor
        · rw [readFrom_ok (g := fun l => MA i l) _ 0 (fun l _ hl => hA i l (by rw [(opView_ext ta a m k lda).1]; omega) (by omega)), (opView_ext ta a m k lda).2,
            List.range_eq_range']
        · have : i < m := by omega
          simp [col, opView, this])
  refine ⟨out, by rw [cublasDgemm, if_neg hfalse, e1], e2, fun i j hi hj => ?_, fun q hq => e4 q (fun i j hi hj => hq i j hi (List.mem_range.1 hj))⟩
  rw [e3 i j hi (List.mem_range.2 hj)]
  have hi' : i < m := hi
  simp [List.getD_eq_getElem?_getD, hi']

private theorem op_stores {m n : Nat} {A : DevTrans} {M : Matrix (Fin m) (Fin n) ℝ} (h : StandsForDev A M) (ha : ColumnsApart A.mat) :
    A.rows = m ∧ A.cols = n ∧ ∃ B, leftOf A.mat = .ok B ∧ (if A.isTransposed then n else m) ≤ B.view.str1 ∧
      StoresView B.mem (opView A.isTransposed B.view.data m n B.view.str1) (nat2 M) := by
  rcases h with ⟨ht, h⟩ | ⟨ht, h⟩
  · rw [isMatrix_holds] at h
    obtain ⟨B, e1, e2, e3, e4⟩ := leftOf_ok h ha
    refine ⟨by simp [DevTrans.rows, ht, h.rows_eq], by simp [DevTrans.cols, ht, h.cols_eq], B, e1, by simpa [ht] using e3, fun i j hi hj => ?_⟩
    have := e4.entry i j (by simpa [opView, ht] using hi) (by simpa [opView, ht] using hj)
    simpa [opView, ht, View2.addr, e2] using this
  · rw [isMatrix_holds] at h
    obtain ⟨B, e1, e2, e3, e4⟩ := leftOf_ok h ha
    refine ⟨by simp [DevTrans.rows, ht, h.cols_eq], by simp [DevTrans.cols, ht, h.rows_eq], B, e1, by simpa [ht] using e3, fun i j hi hj => ?_⟩
    have := e4.entry j i (by simpa [opView, ht] using hj) (by simpa [opView, ht] using hi)
    rw [nat2_T] at this
    rw [← this]
    simp [opView, ht, View2.addr, e2]
    congr 1; omega

private theorem nat2_mul {m k n : Nat} (A : Matrix (Fin m) (Fin k) ℝ) (B : Matrix (Fin k) (Fin n) ℝ) (i : Fin m) (j : Fin n) :
    ∑ l ∈ Finset.range k, nat2 A i l * nat2 B l j = (A * B) i j := by
  rw [Finset.sum_range, Matrix.mul_apply]
  exact Finset.sum_congr rfl fun l _ => by rw [nat2_fin, nat2_fin]

private theorem entry_eq {m k n : Nat} (alpha beta : ℝ) (A : Matrix (Fin m) (Fin k) ℝ) (B : Matrix (Fin k) (Fin n) ℝ) (C : Matrix (Fin m) (Fin n) ℝ)
    (i : Fin m) (j : Fin n) : alpha * (∑ l ∈ Finset.range k, nat2 A i l * nat2 B l j) + beta * nat2 C i j = (alpha • (A * B) + beta • C) i j := by
  rw [nat2_mul, nat2_fin]; rfl

theorem copy_frame {A : Mat .device} {rows cols : Nat} {M O : Nat → Nat → ℝ} (h : Holds A rows cols M) {C : Mat .device} (hC : Holds C rows cols O)
    (hno : NoOverlap C) : ∃ out, copyTo A C.mem C.view = .ok out ∧ out.length = C.mem.length ∧ StoresView out C.view M ∧
      ∀ q, (∀ i j, i < rows → j < cols → q ≠ C.view.addr i j) → out[q]? = C.mem[q]? := by
  have hsep : Separate C.mem.length C.view := ⟨fun i j hi hj => (List.getElem?_eq_some_iff.1 (hC.stores i j hi hj)).1, hno⟩
  obtain ⟨out, e1, e2, e3, e4⟩ := onColumns_old (f := fun pt _ => .ok pt) (O := O) h.stores (g := fun j => col A.view.ext0 M j)
    (order := List.range A.view.ext1) C.mem hsep List.nodup_range
    (fun j hj => ⟨List.mem_range.1 hj, by have := List.mem_range.1 hj; rwa [h.cols_eq, ← hC.cols_eq] at this⟩)
    (fun i j hi hj => hC.stores i j hi (by have := List.mem_range.1 hj; rwa [h.cols_eq, ← hC.cols_eq] at this))
    (fun j _ => ⟨by rw [col_length, h.rows_eq, hC.rows_eq], rfl⟩)
  refine ⟨out, by rw [copyTo, if_pos ⟨by rw [h.rows_eq, hC.rows_eq], by rw [h.cols_eq, hC.cols_eq]⟩, e1], e2, fun i j hi hj => ?_, fun q hq => e4 q fun i j hi hj =>
    hq i j (by rwa [hC.rows_eq] at hi) (by have := List.mem_range.1 hj; rwa [h.cols_eq] at this)⟩
  rw [e3 i j hi (List.mem_range.2 (by rw [h.cols_eq, ← hC.cols_eq]; exact hj)), getD_col _ _ _ _ (by rw [h.rows_eq, ← hC.rows_eq]; exact hi)]

/-- **C89.** `dgemm` on the device sets `C` to `alpha op(A) op(B) + beta C`, for all layouts in which a column does not start before the end of the last one,
and changes no other memory. The full claim has no hypothesis about layouts: see `C89_fails_product`. -/
theorem C89_dgemm_partial {m k n : Nat} {A B : DevTrans} {C : Mat .device} {MA : Matrix (Fin m) (Fin k) ℝ} {MB : Matrix (Fin k) (Fin n) ℝ}
    {MC : Matrix (Fin m) (Fin n) ℝ} (alpha beta : ℝ) (hm : 0 < m) (hk : 0 < k) (hn : 0 < n) (hA : StandsForDev A MA) (hB : StandsForDev B MB)
    (hC : IsMatrix C MC) (hno : NoOverlap C) (aA : ColumnsApart A.mat) (aB : ColumnsApart B.mat) (aC : ColumnsApart C) :
    ∃ out, devDgemm alpha A B beta C = .ok out ∧ out.length = C.mem.length ∧
      IsMatrix (⟨out, C.view⟩ : Mat .device) (alpha • (MA * MB) + beta • MC) ∧
      ∀ q, (∀ i j, i < m → j < n → q ≠ C.view.addr i j) → out[q]? = C.mem[q]? := by
  obtain ⟨ra, ca, LA, a1, a2, a3⟩ := op_stores hA aA
  obtain ⟨rb, cb, LB, b1, b2, b3⟩ := op_stores hB aB
  rw [isMatrix_holds] at hC
  rw [devDgemm, a1, Res.bind_ok, b1, Res.bind_ok]
  by_cases h1 : C.view.str0 = 1
  · rw [if_pos h1]
    have hv : opView false C.view.data m n C.view.str1 = C.view := by
      obtain ⟨c0, c1, -⟩ := hC
      rcases C with ⟨mem, ⟨d, e0, e1, s0, s1⟩⟩
      simp only [opView, Bool.false_eq_true, if_false] at *
      simp [c0, c1, h1]
    obtain ⟨out, e1, e2, e3, e4⟩ := cublas_ok (alpha := alpha) (beta := beta) (C := C.mem) (c := C.view.data) (ldc := C.view.str1) (MC := nat2 MC) hm hn hk a2 b2
      (by rw [← hC.rows_eq]; exact aC h1) a3 b3 (by rw [hv]; exact hC.stores)
    refine ⟨out, by rw [ra, ca, cb, e1], e2, ⟨hC.rows_eq, hC.cols_eq, fun i j => ?_⟩, fun q hq => e4 q (by rw [hv]; exact hq)⟩
    rw [hv] at e3
    rw [e3 i j (by rw [hC.rows_eq]; exact i.2) (by rw [hC.cols_eq]; exact j.2)]
    exact congrArg some (entry_eq alpha beta MA MB MC i j)
  · rw [if_neg h1]
    obtain ⟨o1, f1, f2, f3⟩ := copyMat_ok hC (out := List.replicate (C.view.ext0 * C.view.ext1) 0) (v := layoutLeft 0 C.view.ext0 C.view.ext1)
      hC.rows_eq hC.cols_eq (by rw [List.length_replicate]; exact separate_layoutLeft _ _)
    have hv : opView false 0 m n m = layoutLeft 0 C.view.ext0 C.view.ext1 := by rw [hC.rows_eq, hC.cols_eq]; rfl
    obtain ⟨out, e1, e2, e3, -⟩ := cublas_ok (alpha := alpha) (beta := beta) (C := o1) (c := 0) (ldc := m) (MC := nat2 MC) hm hn hk a2 b2
      le_rfl a3 b3 (by rw [hv]; exact f3)
    rw [hv] at e3
    have hh : Holds (⟨out, layoutLeft 0 C.view.ext0 C.view.ext1⟩ : Mat .device) m n
        (fun i j => alpha * (∑ l ∈ Finset.range k, nat2 MA i l * nat2 MB l j) + beta * nat2 MC i j) :=
      ⟨hC.rows_eq, hC.cols_eq, fun i j hi hj => e3 i j (by simpa [layoutLeft, hC.rows_eq] using hi) (by simpa [layoutLeft, hC.cols_eq] using hj)⟩
    obtain ⟨o2, g1, g2, g3, g4⟩ := copy_frame hh hC hno
    refine ⟨o2, ?_, g2, ⟨hC.rows_eq, hC.cols_eq, fun i j => ?_⟩, g4⟩
    · simp only
      rw [f1, Res.bind_ok, ra, ca, cb]
      simp only [layoutLeft] at e1 ⊢
      rw [hC.rows_eq, e1, Res.bind_ok]
      rw [← hC.rows_eq]
      exact g1
    · rw [g3 i j (by rw [hC.rows_eq]; exact i.2) (by rw [hC.cols_eq]; exact j.2)]
      exact congrArg some (entry_eq alpha beta MA MB MC i j)

/-- **C89.** `A * B` on the device is the product, for transposed and other operands in the same layouts. -/
theorem C89_product_partial {m k n : Nat} {A B : DevTrans} {MA : Matrix (Fin m) (Fin k) ℝ} {MB : Matrix (Fin k) (Fin n) ℝ} (hm : 0 < m) (hk : 0 < k) (hn : 0 < n)
    (hA : StandsForDev A MA) (hB : StandsForDev B MB) (aA : ColumnsApart A.mat) (aB : ColumnsApart B.mat) :
    ∃ C, devMul A B = .ok C ∧ IsMatrix C (MA * MB) := by
  obtain ⟨ra, ca, -⟩ := op_stores hA aA
  obtain ⟨rb, cb, -⟩ := op_stores hB aB
  obtain ⟨out, e1, -, e3, -⟩ := C89_dgemm_partial (C := ⟨(newDevice m n).1, (newDevice m n).2⟩) (MC := 0) 1 0 hm hk hn hA hB
    ⟨rfl, rfl, fun i j => by
      have := (separate_layoutLeft m n).inside i j i.2 j.2
      simp only [newDevice]
      rw [List.getElem?_replicate, if_pos this]; rfl⟩
    (separate_layoutLeft m n).inj aA aB (fun _ => le_rfl)
  refine ⟨⟨out, (newDevice m n).2⟩, ?_, by simpa using e3⟩
  rw [devMul, if_pos (by rw [ca, rb]), ra, cb]
  simp only
  rw [e1, Res.bind_ok]

/-- **C89.** Operands whose sizes do not match are refused by `A * B`. -/
theorem C89_product_rejects {A B : DevTrans} (h : A.cols ≠ B.rows) : devMul A B = .throw := by
  rw [devMul, if_neg h]

/-- **C89** fails for products: a matrix with one column in row-major memory has strides 1 and 1, cuBLAS refuses the leading dimension 1, the code does not look
at the status, and the result is a matrix of zeros. -/
theorem C89_fails_product (x y z : ℝ) (hx : x ≠ 0) (hz : z ≠ 0) :
    ∃ A B : DevTrans, A.mat.view = layoutRight 0 2 1 ∧ StandsForDev A !![x; y] ∧ StandsForDev B !![z] ∧
      ∃ C, devMul A B = .ok C ∧ IsMatrix C (0 : Matrix (Fin 2) (Fin 1) ℝ) ∧ ¬ IsMatrix C (!![x; y] * !![z] : Matrix (Fin 2) (Fin 1) ℝ) := by
  refine ⟨⟨⟨[x, y], layoutRight 0 2 1⟩, false⟩, ⟨⟨[z], layoutRight 0 1 1⟩, false⟩, rfl, .inl ⟨rfl, rfl, rfl, ?_⟩, .inl ⟨rfl, rfl, rfl, ?_⟩,
    ⟨[0, 0], layoutLeft 0 2 1⟩, ?_, ⟨rfl, rfl, ?_⟩, ?_⟩
  · intro i j; fin_cases i <;> fin_cases j <;> rfl
  · intro i j; fin_cases i; fin_cases j; rfl
  · simp [devMul, DevTrans.cols, DevTrans.rows, layoutRight, newDevice, devDgemm, leftOf, Res.bind_ok, layoutLeft, cublasDgemm]
  · intro i j; fin_cases i <;> fin_cases j <;> rfl
  · rintro ⟨-, -, h⟩
    have := h 0 0
    simp [layoutLeft, View2.addr, Matrix.mul_apply] at this
    exact this.elim hx hz


/-- **C89** fails for products: whenever the first operand is not transposed and has contiguous columns that overlap, `dgemm` leaves `C` as it was and reports
nothing. -/
theorem C89_fails_dgemm {A B : DevTrans} {C : Mat .device} (alpha beta : ℝ) (ht : A.isTransposed = false) (h0 : A.mat.view.str0 = 1)
    (h1 : A.mat.view.str1 < A.mat.view.ext0) (hB : B.mat.view.str0 = 1) (hC : C.view.str0 = 1) : devDgemm alpha A B beta C = .ok C.mem := by
  rw [devDgemm, leftOf, if_pos h0, Res.bind_ok, leftOf, if_pos hB, Res.bind_ok, if_pos hC, cublasDgemm, if_pos]
  left
  simp only [ht, Bool.false_eq_true, if_false, DevTrans.rows]
  omega

/-! ### LU -/

private theorem matOf_copy {n : Nat} {M : Matrix (Fin n) (Fin n) ℝ} {mem : List ℝ} (h : StoresView mem (layoutLeft 0 n n) (nat2 M)) : matOf n mem n = M := by
  ext i j
  have := h i j i.2 j.2
  simp only [View2.addr, layoutLeft, Nat.zero_add, Nat.mul_one, nat2_fin] at this
  simp [matOf, List.getD_eq_getElem?_getD, this]

private theorem load_ok {n : Nat} {mem : List ℝ} (h : mem.length = n * n) : loadSquare n mem n = .ok (matOf n mem n) := by
  rw [loadSquare, if_pos]
  rcases Nat.eq_zero_or_pos n with h0 | h0
  · exact .inl h0
  · right
    obtain ⟨k, rfl⟩ : ∃ k, n = k + 1 := ⟨n - 1, by omega⟩
    rw [h]
    simp only [Nat.add_sub_cancel]
    ring_nf; omega

private theorem copy_square {n : Nat} {A : Mat .device} {M : Matrix (Fin n) (Fin n) ℝ} (hA : IsMatrix A M) :
    ∃ mem, copyTo A (List.replicate (n * n) 0) (layoutLeft 0 n n) = .ok mem ∧ mem.length = n * n ∧ matOf n mem n = M := by
  rw [isMatrix_holds] at hA
  obtain ⟨out, e1, e2, e3⟩ := copyMat_ok hA (out := List.replicate (n * n) 0) (v := layoutLeft 0 n n) rfl rfl
    (by rw [List.length_replicate]; exact separate_layoutLeft _ _)
  exact ⟨out, e1, by rw [e2, List.length_replicate], matOf_copy e3⟩

/-- What a computed solver knows about the matrix. -/
theorem luCompute_ok {getrf : Getrf} (hg : IsGetrf getrf) {n : Nat} {A : Mat .device} {M : Matrix (Fin n) (Fin n) ℝ} (hA : IsMatrix A M) :
    (M.det = 0 → luCompute getrf A = .throw) ∧
    (M.det ≠ 0 → ∃ (mem : List ℝ) (p : Equiv.Perm (Fin n)), luCompute getrf A = .ok ⟨n, mem, p⟩ ∧ mem.length = n * n ∧ Factorises M ⟨p, matOf n mem n⟩) := by
  obtain ⟨mem, e1, e2, e3⟩ := copy_square hA
  obtain ⟨g1, g2, g3, g4⟩ := hg n mem e2
  rw [e3] at g2
  have hd := lu_diag g2
  have hsq : A.view.ext0 = A.view.ext1 := by rw [hA.1, hA.2.1]
  have hcomp : luCompute getrf A = if (getrf n mem).2.2 < 0 then .throw else if (getrf n mem).2.2 > 0 then .throw else .ok ⟨n, (getrf n mem).1, (getrf n mem).2.1⟩ := by
    rw [luCompute, if_pos hsq, hA.1]
    simp only
    rw [e1, Res.bind_ok]
  rw [hcomp, if_neg (not_lt.2 g3)]
  constructor
  · intro h
    rw [if_pos (g4.2 (hd.1 h))]
  · intro h
    rw [if_neg (fun h' => h (hd.2 (g4.1 h')))]
    exact ⟨_, _, rfl, g1, g2⟩

/-- **C89.** A matrix that is not square, or that is singular, is refused by `compute`. -/
theorem C89_lu_rejects {getrf : Getrf} {A : Mat .device} :
    (A.view.ext0 ≠ A.view.ext1 → luCompute getrf A = .throw) ∧
    (∀ (n : Nat) (M : Matrix (Fin n) (Fin n) ℝ), IsGetrf getrf → IsMatrix A M → M.det = 0 → luCompute getrf A = .throw) :=
  ⟨fun h => by rw [luCompute, if_neg h], fun _ _ hg hA hd => (luCompute_ok hg hA).1 hd⟩

private theorem inPlace_ok {n k : Nat} {x : Mat .device} {B : Matrix (Fin n) (Fin k) ℝ} (hx0 : x.view.str0 = 1) (hld : n ≤ x.view.str1) (hr : n ≤ x.view.ext0)
    (hk : x.view.ext1 = k) (hB : ∀ (i : Fin n) (j : Fin k), x.mem[x.view.addr i j]? = some (B i j))
    {f : List ℝ → Res (List ℝ)} {P : Matrix (Fin n) (Fin k) ℝ → Prop}
    (hf : ∀ b : Nat → ℝ, ∃ y, f ((List.range n).map b) = .ok y ∧ y.length = n)
    (hP : ∀ Y : Matrix (Fin n) (Fin k) ℝ, (∀ j : Fin k, ∃ y, f ((List.range n).map fun i => nat2 B i j) = .ok y ∧ ∀ i : Fin n, Y i j = y.getD i 0) → P Y) :
    ∃ out Y, onColumns (fun _ old => f old) x.mem (opView false x.view.data n x.view.ext1 x.view.str1) x.mem
        (opView false x.view.data n x.view.ext1 x.view.str1) (List.range x.view.ext1) = .ok out ∧ out.length = x.mem.length ∧ P Y ∧
      (∀ (i : Fin n) (j : Fin k), out[x.view.addr i j]? = some (Y i j)) ∧
      ∀ q, (∀ i j, i < n → j < k → q ≠ x.view.addr i j) → out[q]? = x.mem[q]? := by
  subst hk
  have haddr : ∀ i j, (opView false x.view.data n x.view.ext1 x.view.str1).addr i j = x.view.addr i j := fun i j => by simp [opView, View2.addr, hx0]
  have hst : StoresView x.mem (opView false x.view.data n x.view.ext1 x.view.str1) (nat2 B) := fun i j hi hj => by
    have hi' : i < n := hi
    have hj' : j < x.view.ext1 := hj
    rw [haddr, hB ⟨i, hi'⟩ ⟨j, hj'⟩]
    simp [nat2, hi', hj']
  have hsep : Separate x.mem.length (opView false x.view.data n x.view.ext1 x.view.str1) := separate_ld hld fun i j hi hj => by
    have := (List.getElem?_eq_some_iff.1 (hst i j hi hj)).1
    simpa [opView, View2.addr] using this
  choose g hg using hf
  obtain ⟨out, e1, e2, e3, e4⟩ := onColumns_old (f := fun _ old => f old) (O := nat2 B) hst (g := fun j => g fun i => nat2 B i j) (order := List.range x.view.ext1)
    x.mem hsep List.nodup_range (fun j hj => ⟨List.mem_range.1 hj, List.mem_range.1 hj⟩) (fun i j hi hj => hst i j hi (List.mem_range.1 hj))
    (fun j _ => ⟨(hg _).2, (hg _).1⟩)
  refine ⟨out, Matrix.of fun i j => (g fun i => nat2 B i j).getD i 0, e1, e2, hP _ fun j => ⟨_, (hg _).1, fun i => rfl⟩, fun i j => ?_, fun q hq => e4 q fun i j hi hj => ?_⟩
  · rw [← haddr, e3 i j i.2 (List.mem_range.2 j.2)]; rfl
  · rw [haddr]; exact hq i j hi (List.mem_range.1 hj)

private theorem forward_len (L : Nat → Nat → ℝ) (d b : Nat → ℝ) (k : Nat) : (forward L d b k).length = k := by
  induction k with
  | zero => rfl
  | succ k ih => simp [forward, ih]

private theorem backward_len (U : Nat → Nat → ℝ) (n : Nat) (b : Nat → ℝ) (k : Nat) : (backward U n b k).length = k := by
  induction k with
  | zero => rfl
  | succ k ih => simp [backward, ih]

private theorem guard_eq {n : Nat} {d : Nat → ℝ} {x y : List ℝ} (h : guardDiag n d x = .ok y) : y = x := by
  unfold guardDiag at h
  split at h
  · cases h
  · exact (Res.ok.inj h).symm

private theorem solveColumn_len {n : Nat} {f : LU n} {b : Nat → ℝ} {y : List ℝ} (h : f.solveColumn b = .ok y) : y.length = n := by
  rw [LU.solveColumn] at h
  obtain ⟨z, -, h⟩ := Res.bind_eq_ok.1 h
  rw [guard_eq h, backward_len]

private theorem chol_forward_len {n : Nat} {L : Matrix (Fin n) (Fin n) ℝ} {b : Nat → ℝ} {y : List ℝ} (h : cholForward L b = .ok y) : y.length = n := by
  rw [cholForward] at h
  rw [guard_eq h, forward_len]

private theorem chol_backward_len {n : Nat} {L : Matrix (Fin n) (Fin n) ℝ} {b : Nat → ℝ} {y : List ℝ} (h : cholBackward L b = .ok y) : y.length = n := by
  rw [cholBackward] at h
  rw [guard_eq h, backward_len]

private theorem getD_map_range {n : Nat} (b : Nat → ℝ) (i : Fin n) : ((List.range n).map b).getD i 0 = b i := by
  simp [List.getD_eq_getElem?_getD]

/-- Solving in place with a computed solver: the first `n` rows of `x` become the solution, nothing else changes. -/
theorem luSolve_rows {n k : Nat} {M : Matrix (Fin n) (Fin n) ℝ} {mem : List ℝ} {p : Equiv.Perm (Fin n)} (hl : mem.length = n * n)
    (hF : Factorises M ⟨p, matOf n mem n⟩) (hd : M.det ≠ 0) (hn : 0 < n) (bad : Int) {x : Mat .device} {B : Matrix (Fin n) (Fin k) ℝ} (hx0 : x.view.str0 = 1)
    (hld : x.view.ext0 ≤ x.view.str1) (hr : n ≤ x.view.ext0) (hk : x.view.ext1 = k) (hB : ∀ (i : Fin n) (j : Fin k), x.mem[x.view.addr i j]? = some (B i j)) :
    ∃ out Y, luSolveDev (some ⟨n, mem, p⟩) bad x = .ok out ∧ out.length = x.mem.length ∧ M * Y = B ∧
      (∀ (i : Fin n) (j : Fin k), out[x.view.addr i j]? = some (Y i j)) ∧ ∀ q, (∀ i j, i < n → j < k → q ≠ x.view.addr i j) → out[q]? = x.mem[q]? := by
  have := inPlace_ok hx0 (by omega) hr hk hB (f := fun old => (LU.mk p (matOf n mem n)).solveColumn fun i => old.getD i 0) (P := fun Y => M * Y = B)
    (fun b => by
      obtain ⟨y, e, -⟩ := solveColumn_ok hF hd fun i => ((List.range n).map b).getD i 0
      exact ⟨y, e, solveColumn_len e⟩)
    (fun Y hY => by
      ext i j
      obtain ⟨y, e, hy⟩ := hY j
      obtain ⟨y', e', hs⟩ := solveColumn_ok hF hd fun i => ((List.range n).map fun i => nat2 B i j).getD i 0
      have : y = y' := by rw [e] at e'; exact Res.ok.inj e'
      subst this
      have := hs i
      rw [getD_map_range, nat2_fin] at this
      rw [← this, Matrix.mul_apply]
      exact Finset.sum_congr rfl fun l _ => by rw [hy l])
  obtain ⟨out, Y, e1, e2⟩ := this
  refine ⟨out, Y, ?_, e2⟩
  rw [luSolveDev, if_neg (by simp only; omega), load_ok hl, Res.bind_ok]
  exact e1

/-- **C89.** After `compute` of an invertible matrix, `solveInPlace` replaces `B` by the solution `X` of `A X = B`, and `solve` returns it: for every layout of
`A` and every distance of the columns of `B`. -/
theorem C89_lu_solve {getrf : Getrf} (hg : IsGetrf getrf) {n k : Nat} (hn : 0 < n) {A : Mat .device} {M : Matrix (Fin n) (Fin n) ℝ} (hA : IsMatrix A M) (hd : M.det ≠ 0)
    (bad : Int) {x : Mat .device} {B : Matrix (Fin n) (Fin k) ℝ} (hx : IsMatrix x B) :
    ∃ f, luCompute getrf A = .ok f ∧
      (x.view.str0 = 1 → ColumnsApart x → ∃ out X, luSolveDev (some f) bad x = .ok out ∧ IsMatrix (⟨out, x.view⟩ : Mat .device) X ∧ M * X = B) ∧
      ∃ y X, luSolveCopy (some f) bad x = .ok y ∧ IsMatrix y X ∧ M * X = B := by
  obtain ⟨mem, p, e1, e2, e3⟩ := (luCompute_ok hg hA).2 hd
  refine ⟨_, e1, fun h0 ha => ?_, ?_⟩
  · obtain ⟨out, Y, h1, -, h3, h4, -⟩ := luSolve_rows e2 e3 hd hn bad h0 (ha h0) hx.1.ge hx.2.1 hx.2.2
    exact ⟨out, Y, h1, ⟨hx.1, hx.2.1, h4⟩, h3⟩
  · obtain ⟨o1, f1, f2, f3⟩ := copyMat_ok (isMatrix_holds.1 hx) (out := List.replicate (x.view.ext0 * x.view.ext1) 0)
      (v := layoutLeft 0 x.view.ext0 x.view.ext1) hx.1 hx.2.1 (by rw [List.length_replicate]; exact separate_layoutLeft _ _)
    obtain ⟨out, Y, h1, -, h3, h4, -⟩ := luSolve_rows (x := ⟨o1, layoutLeft 0 x.view.ext0 x.view.ext1⟩) e2 e3 hd hn bad rfl le_rfl hx.1.ge hx.2.1
      (fun i j => by rw [f3 i j (by simp [layoutLeft, hx.1]) (by simp [layoutLeft, hx.2.1]), nat2_fin])
    refine ⟨⟨out, layoutLeft 0 x.view.ext0 x.view.ext1⟩, Y, ?_, ⟨hx.1, hx.2.1, h4⟩, h3⟩
    rw [luSolveCopy, f1, Res.bind_ok, h1, Res.bind_ok]

/-- **C89** fails for right-hand sides with more rows than the matrix: they are not refused; the first rows are solved for and the others are left. -/
theorem C89_fails_height {getrf : Getrf} (hg : IsGetrf getrf) {n k r : Nat} (hn : 0 < n) (hr : n < r) {A : Mat .device} {M : Matrix (Fin n) (Fin n) ℝ} (hA : IsMatrix A M)
    (hd : M.det ≠ 0) (bad : Int) {x : Mat .device} {B : Matrix (Fin r) (Fin k) ℝ} (hx : IsMatrix x B) (h0 : x.view.str0 = 1) (ha : ColumnsApart x) :
    ∃ f, luCompute getrf A = .ok f ∧ ∃ out, luSolveDev (some f) bad x = .ok out ∧
      ∃ X : Matrix (Fin n) (Fin k) ℝ, (M * X = Matrix.of fun (i : Fin n) (j : Fin k) => B ⟨i, by omega⟩ j) ∧
        IsMatrix (⟨out, x.view⟩ : Mat .device) (Matrix.of fun (i : Fin r) j => if h : i.1 < n then X ⟨i, h⟩ j else B i j) := by
  obtain ⟨mem, p, e1, e2, e3⟩ := (luCompute_ok hg hA).2 hd
  have hld : x.view.ext0 ≤ x.view.str1 := ha h0
  obtain ⟨out, Y, h1, h2, h3, h4, h5⟩ := luSolve_rows (B := Matrix.of fun (i : Fin n) (j : Fin k) => B ⟨i, by omega⟩ j) e2 e3 hd hn bad h0 hld
    (by rw [hx.1]; exact hr.le) hx.2.1 (fun i j => hx.2.2 ⟨i, by omega⟩ j)
  refine ⟨_, e1, out, h1, Y, h3, hx.1, hx.2.1, fun i j => ?_⟩
  by_cases hi : i.1 < n
  · have := h4 ⟨i, hi⟩ j
    simpa [hi] using this
  · have : out[x.view.addr i j]? = x.mem[x.view.addr i j]? := h5 _ fun i' j' hi' hj' he => by
      have hi2 : i.1 < x.view.ext0 := by rw [hx.1]; exact i.2
      have e : i.1 + j.1 * x.view.str1 = i' + j' * x.view.str1 := by simp only [View2.addr, h0, Nat.mul_one] at he; omega
      have := congrArg (· % x.view.str1) e
      have hh : i.1 = i' := by
        simpa [Nat.mod_eq_of_lt (show i.1 < x.view.str1 by omega), Nat.mod_eq_of_lt (show i' < x.view.str1 by omega)] using this
      omega
    simp only
    rw [this, hx.2.2]
    simp [hi]

/-- **C89.** Right-hand sides with fewer rows are refused, or left as they are if the library reports no error. -/
theorem C89_height_small {n : Nat} (f : DevLU) (g : DevChol) (hf : f.n = n) (hg : g.n = n) (bad : Int) {x : Mat .device} (h : x.view.str1 < n) :
    luSolveDev (some f) bad x = (if bad ≠ 0 then .throw else .ok x.mem) ∧ cholSolveDev (some g) bad x = (if bad ≠ 0 then .throw else .ok x.mem) ∧
    cholSolveLDev (some g) x = .throw ∧ cholMultiplyLDev (some g) x = .throw := by
  refine ⟨by rw [luSolveDev, if_pos (by omega)], by rw [cholSolveDev, if_pos (by omega)], by rw [cholSolveLDev, if_pos (by omega)], ?_⟩
  rw [cholMultiplyLDev, if_pos (by omega)]

private theorem diag_ok {n : Nat} {mem : List ℝ} (hl : mem.length = n * n) (order : List Nat) : (∀ i ∈ order, i < n) →
    diagProduct n mem order = .ok ((order.map fun i => mem.getD (i + i * n) 0).prod) := by
  induction order with
  | nil => intro _; rfl
  | cons i is ih =>
    intro h
    have hi : i < n := h i (by simp)
    have hlt : i + i * n < mem.length := by rw [hl]; nlinarith
    rw [diagProduct, Res.idx_some (List.getElem?_eq_getElem hlt), Res.bind_ok, ih (fun k hk => h k (by simp [hk])), Res.bind_ok]
    rw [List.map_cons, List.prod_cons, mul_comm, List.getD_eq_getElem _ _ hlt]

private theorem diag_prod {n : Nat} {mem : List ℝ} (hl : mem.length = n * n) {order : List Nat} (ho : order.Perm (List.range n)) :
    diagProduct n mem order = .ok (∏ i, matOf n mem n i i) := by
  rw [diag_ok hl order (fun i hi => List.mem_range.1 (ho.subset hi)), (ho.map _).prod_eq]
  have : ∀ k (g : Nat → ℝ), ((List.range k).map g).prod = ∏ i ∈ Finset.range k, g i := by
    intro k g
    induction k with
    | zero => rfl
    | succ k ih => rw [List.range_succ, List.map_append, List.prod_append, ih, Finset.prod_range_succ]; simp
  rw [this, Finset.prod_range]
  rfl

/-- **C89.** `determinant()` of the LU solver on the device has the right absolute value, and is right exactly if the row exchanges are an even permutation. The full
claim has no condition on the row exchanges: see `C89_fails_determinant`. -/
theorem C89_determinant_partial {getrf : Getrf} (hg : IsGetrf getrf) {n : Nat} {A : Mat .device} {M : Matrix (Fin n) (Fin n) ℝ} (hA : IsMatrix A M) (hd : M.det ≠ 0)
    {order : List Nat} (ho : order.Perm (List.range n)) :
    ∃ (mem : List ℝ) (p : Equiv.Perm (Fin n)) (d : ℝ), luCompute getrf A = .ok ⟨n, mem, p⟩ ∧ luDetDev (some ⟨n, mem, p⟩) order = .ok d ∧ |d| = |M.det| ∧
      (d = M.det ↔ Equiv.Perm.sign p = 1) := by
  obtain ⟨mem, p, e1, e2, e3⟩ := (luCompute_ok hg hA).2 hd
  have hdet := C71_determinant e3
  simp only [luDeterminant, Res.ok.injEq] at hdet
  refine ⟨mem, p, _, e1, by rw [luDetDev]; exact diag_prod e2 ho, ?_, ?_⟩
  · rw [← hdet]
    rcases Int.units_eq_one_or (Equiv.Perm.sign p) with e | e <;> simp [e]
  · rcases Int.units_eq_one_or (Equiv.Perm.sign p) with e | e
    · rw [← hdet]; simp [e]
    · rw [← hdet] at hd ⊢
      simp only [e, Units.val_neg, Units.val_one, Int.cast_neg, Int.cast_one, neg_mul, one_mul, ne_eq, neg_eq_zero] at hd ⊢
      constructor
      · intro h
        exact absurd (by linarith) hd
      · intro h; exact absurd h (by decide)

/-- **C89** fails for determinants: the sign of the row exchanges is dropped, so that the determinant of the matrix that exchanges two coordinates is 1 and not -1,
whatever valid factorisation the library finds. -/
theorem C89_fails_determinant {getrf : Getrf} (hg : IsGetrf getrf) {A : Mat .device} (hA : IsMatrix A !![0, 1; 1, 0]) {order : List Nat}
    (ho : order.Perm (List.range 2)) :
    (!![0, 1; 1, 0] : Matrix (Fin 2) (Fin 2) ℝ).det = -1 ∧ ∃ f, luCompute getrf A = .ok f ∧ luDetDev (some f) order = .ok 1 := by
  have hdet : (!![0, 1; 1, 0] : Matrix (Fin 2) (Fin 2) ℝ).det = -1 := by simp [Matrix.det_fin_two]
  refine ⟨hdet, ?_⟩
  obtain ⟨mem, p, e1, e2, e3⟩ := (luCompute_ok hg hA).2 (by rw [hdet]; norm_num)
  refine ⟨_, e1, ?_⟩
  have hd := C71_determinant e3
  simp only [luDeterminant, Res.ok.injEq, hdet] at hd
  rw [luDetDev]
  simp only
  rw [diag_prod e2 ho]
  congr 1
  rcases Int.units_eq_one_or (Equiv.Perm.sign p) with e | e
  · exfalso
    have hp : p = 1 := (by decide : ∀ p : Equiv.Perm (Fin 2), Equiv.Perm.sign p = 1 → p = 1) p e
    subst hp
    have h0 := e3 0 0
    have h1 := e3 1 0
    simp [Matrix.mul_apply, Fin.sum_univ_two, unitLower, upper] at h0 h1
    rw [← h0] at h1
    simp at h1
  · simp only [e, Units.val_neg, Units.val_one, Int.cast_neg, Int.cast_one, neg_mul, one_mul] at hd
    linarith

/-! ### Cholesky -/

/-- What a computed solver knows about the matrix. -/
theorem cholCompute_ok {potrf : Potrf} (hg : IsPotrf potrf) {n : Nat} {A : Mat .device} {M : Matrix (Fin n) (Fin n) ℝ} (hA : IsMatrix A M) :
    (¬ (lowerSym M).PosDef → cholCompute potrf A = .throw) ∧
    ((lowerSym M).PosDef → ∃ mem : List ℝ, cholCompute potrf A = .ok ⟨n, mem, A.view.str1⟩ ∧ mem.length = n * n ∧
      IsCholesky (lowerPart (matOf n mem n)) (lowerSym M)) := by
  obtain ⟨mem, e1, e2, e3⟩ := copy_square hA
  obtain ⟨g1, g2, g3, g4⟩ := hg n mem e2
  rw [e3] at g3 g4
  have hsq : A.view.ext0 = A.view.ext1 := by rw [hA.1, hA.2.1]
  have hcomp : cholCompute potrf A = if (potrf n mem).2 < 0 then .throw else if (potrf n mem).2 > 0 then .throw else .ok ⟨n, (potrf n mem).1, A.view.str1⟩ := by
    rw [cholCompute, if_pos hsq, hA.1]
    simp only
    rw [e1, Res.bind_ok]
  rw [hcomp, if_neg (not_lt.2 g2)]
  constructor
  · intro h
    rw [if_pos (lt_of_le_of_ne g2 fun h' => h (g3.1 h'.symm))]
  · intro h
    have := g3.2 h
    rw [if_neg (by rw [this]; simp)]
    exact ⟨_, rfl, g1, g4 this⟩

/-- **C89.** A matrix that is not square, or that is not positive definite, is refused by `compute`. -/
theorem C89_cholesky_rejects {potrf : Potrf} {A : Mat .device} :
    (A.view.ext0 ≠ A.view.ext1 → cholCompute potrf A = .throw) ∧
    (∀ (n : Nat) (M : Matrix (Fin n) (Fin n) ℝ), IsPotrf potrf → IsMatrix A M → ¬ (lowerSym M).PosDef → cholCompute potrf A = .throw) :=
  ⟨fun h => by rw [cholCompute, if_neg h], fun _ _ hg hA hd => (cholCompute_ok hg hA).1 hd⟩

theorem cholSolve_rows {n k : Nat} {S : Matrix (Fin n) (Fin n) ℝ} {mem : List ℝ} (ld : Nat) (hl : mem.length = n * n)
    (hF : IsCholesky (lowerPart (matOf n mem n)) S) (hn : 0 < n) (bad : Int) {x : Mat .device} {B : Matrix (Fin n) (Fin k) ℝ} (hx0 : x.view.str0 = 1)
    (hld : x.view.ext0 ≤ x.view.str1) (hr : n ≤ x.view.ext0) (hk : x.view.ext1 = k) (hB : ∀ (i : Fin n) (j : Fin k), x.mem[x.view.addr i j]? = some (B i j)) :
    (∃ out Y, cholSolveLDev (some ⟨n, mem, ld⟩) x = .ok out ∧ out.length = x.mem.length ∧ lowerPart (matOf n mem n) * Y = B ∧
      (∀ (i : Fin n) (j : Fin k), out[x.view.addr i j]? = some (Y i j)) ∧ ∀ q, (∀ i j, i < n → j < k → q ≠ x.view.addr i j) → out[q]? = x.mem[q]?) ∧
    (∃ out Y, cholSolveDev (some ⟨n, mem, ld⟩) bad x = .ok out ∧ out.length = x.mem.length ∧ S * Y = B ∧
      (∀ (i : Fin n) (j : Fin k), out[x.view.addr i j]? = some (Y i j)) ∧ ∀ q, (∀ i j, i < n → j < k → q ≠ x.view.addr i j) → out[q]? = x.mem[q]?) := by
  set L := lowerPart (matOf n mem n) with hL
  have key : ∀ b : Nat → ℝ, ∃ y z, cholForward L b = .ok y ∧ (∀ i : Fin n, ∑ j : Fin n, L i j * y.getD j 0 = b i) ∧
      cholBackward L (fun i => y.getD i 0) = .ok z ∧ ∀ i : Fin n, ∑ j : Fin n, L j i * z.getD j 0 = y.getD i 0 := by
    intro b
    obtain ⟨y, hy1, hy2⟩ := chol_forward hF b
    obtain ⟨z, hz1, hz2⟩ := chol_backward hF fun i => y.getD i 0
    exact ⟨y, z, hy1, hy2, hz1, hz2⟩
  constructor
  · obtain ⟨out, Y, e1, e2⟩ := inPlace_ok hx0 (by omega) hr hk hB (f := fun old => cholForward L fun i => old.getD i 0) (P := fun Y => L * Y = B)
      (fun b => by
        obtain ⟨y, z, h1, -⟩ := key fun i => ((List.range n).map b).getD i 0
        exact ⟨y, h1, chol_forward_len h1⟩)
      (fun Y hY => by
        ext i j
        obtain ⟨y, e, hy⟩ := hY j
        obtain ⟨y', z, h1, h2, -⟩ := key fun i => ((List.range n).map fun i => nat2 B i j).getD i 0
        have : y = y' := by rw [e] at h1; exact Res.ok.inj h1
        subst this
        have := h2 i
        rw [getD_map_range, nat2_fin] at this
        rw [← this, Matrix.mul_apply]
        exact Finset.sum_congr rfl fun l _ => by rw [hy l])
    refine ⟨out, Y, ?_, e2⟩
    rw [cholSolveLDev, if_neg (by simp only; omega), load_ok hl, Res.bind_ok]
    exact e1
  · obtain ⟨out, Y, e1, e2⟩ := inPlace_ok hx0 (by omega) hr hk hB
      (f := fun old => do
        let y ← cholForward L fun i => old.getD i 0
        cholBackward L fun i => y.getD i 0) (P := fun Y => S * Y = B)
      (fun b => by
        obtain ⟨y, z, h1, -, h3, -⟩ := key fun i => ((List.range n).map b).getD i 0
        exact ⟨z, by rw [h1, Res.bind_ok, h3], chol_backward_len h3⟩)
      (fun Y hY => by
        ext i j
        obtain ⟨z', e, hy⟩ := hY j
        obtain ⟨y, z, h1, h2, h3, h4⟩ := key fun i => ((List.range n).map fun i => nat2 B i j).getD i 0
        have : z' = z := by rw [h1, Res.bind_ok, h3] at e; exact (Res.ok.inj e).symm
        subst this
        have := h2 i
        rw [getD_map_range, nat2_fin] at this
        rw [← this, ← hF.2.2, Matrix.mul_assoc, Matrix.mul_apply]
        refine Finset.sum_congr rfl fun l _ => ?_
        rw [← h4 l, Matrix.mul_apply]
        congr 1
        exact Finset.sum_congr rfl fun q _ => by rw [hy q]; rfl)
    refine ⟨out, Y, ?_, e2⟩
    rw [cholSolveDev, if_neg (by simp only; omega), load_ok hl, Res.bind_ok]
    exact e1

/-- **C89.** After `compute` of a positive definite matrix `S` (only the lower triangle is read), with `S = L Lᵀ`: `solveInPlace` and `solve` give the solution `X` of
`S X = B`, `solveInPlaceL` the solution of `L X = B`, and `determinant()` is the determinant. -/
theorem C89_cholesky {potrf : Potrf} (hg : IsPotrf potrf) {n k : Nat} (hn : 0 < n) {A : Mat .device} {M : Matrix (Fin n) (Fin n) ℝ} (hA : IsMatrix A M)
    (hd : (lowerSym M).PosDef) (bad : Int) {x : Mat .device} {B : Matrix (Fin n) (Fin k) ℝ} (hx : IsMatrix x B) {order : List Nat} (ho : order.Perm (List.range n)) :
    ∃ f L, cholCompute potrf A = .ok f ∧ IsCholesky L (lowerSym M) ∧
      (x.view.str0 = 1 → ColumnsApart x →
        (∃ out X, cholSolveDev (some f) bad x = .ok out ∧ IsMatrix (⟨out, x.view⟩ : Mat .device) X ∧ lowerSym M * X = B) ∧
        (∃ out X, cholSolveLDev (some f) x = .ok out ∧ IsMatrix (⟨out, x.view⟩ : Mat .device) X ∧ L * X = B)) ∧
      (∃ y X, cholSolveCopy (some f) bad x = .ok y ∧ IsMatrix y X ∧ lowerSym M * X = B) ∧
      cholDetDev (some f) order = .ok (lowerSym M).det := by
  obtain ⟨mem, e1, e2, e3⟩ := (cholCompute_ok hg hA).2 hd
  refine ⟨_, _, e1, e3, fun h0 ha => ?_, ?_, ?_⟩
  · obtain ⟨⟨o1, Y1, a1, -, a3, a4, -⟩, ⟨o2, Y2, b1, -, b3, b4, -⟩⟩ :=
      cholSolve_rows A.view.str1 e2 e3 hn bad h0 (ha h0) hx.1.ge hx.2.1 hx.2.2
    exact ⟨⟨o2, Y2, b1, ⟨hx.1, hx.2.1, b4⟩, b3⟩, ⟨o1, Y1, a1, ⟨hx.1, hx.2.1, a4⟩, a3⟩⟩
  · obtain ⟨o1, f1, f2, f3⟩ := copyMat_ok (isMatrix_holds.1 hx) (out := List.replicate (x.view.ext0 * x.view.ext1) 0)
      (v := layoutLeft 0 x.view.ext0 x.view.ext1) hx.1 hx.2.1 (by rw [List.length_replicate]; exact separate_layoutLeft _ _)
    obtain ⟨-, ⟨out, Y, h1, -, h3, h4, -⟩⟩ := cholSolve_rows (x := ⟨o1, layoutLeft 0 x.view.ext0 x.view.ext1⟩) A.view.str1 e2 e3 hn bad rfl le_rfl hx.1.ge hx.2.1
      (fun i j => by rw [f3 i j (by simp [layoutLeft, hx.1]) (by simp [layoutLeft, hx.2.1]), nat2_fin])
    refine ⟨⟨out, layoutLeft 0 x.view.ext0 x.view.ext1⟩, Y, ?_, ⟨hx.1, hx.2.1, h4⟩, h3⟩
    rw [cholSolveCopy, f1, Res.bind_ok, h1, Res.bind_ok]
  · rw [cholDetDev]
    simp only
    rw [diag_prod e2 ho, Res.bind_ok]
    have := C71_cholesky_determinant e3
    rw [cholDeterminant] at this
    rw [← this]
    congr 1
    simp [lowerPart]

/-- **C89.** `multiplyL` on the device is the product with the Cholesky factor if the matrix given to `compute` was stored without gaps between its columns. The full
claim has no condition on the layout of that matrix: see `C89_fails_multiplyL`. -/
theorem C89_multiplyL_partial {potrf : Potrf} (hg : IsPotrf potrf) {n k : Nat} (hn : 0 < n) {A : Mat .device} {M : Matrix (Fin n) (Fin n) ℝ} (hA : IsMatrix A M)
    (hgap : A.view.str1 = n) (hd : (lowerSym M).PosDef) {x : Mat .device} {B : Matrix (Fin n) (Fin k) ℝ} (hx : IsMatrix x B) (h0 : x.view.str0 = 1)
    (ha : ColumnsApart x) :
    ∃ f L y, cholCompute potrf A = .ok f ∧ IsCholesky L (lowerSym M) ∧ cholMultiplyLDev (some f) x = .ok y ∧ IsMatrix y (L * B) := by
  obtain ⟨mem, e1, e2, e3⟩ := (cholCompute_ok hg hA).2 hd
  have hld := ha h0
  have hr := hx.1
  have hv : opView false x.view.data n x.view.ext1 x.view.str1 = x.view := by
    rcases x with ⟨m, ⟨d, a, b, s0, s1⟩⟩
    simp only [opView, Bool.false_eq_true, if_false] at *
    rw [h0, hr]
  set L := lowerPart (matOf n mem n) with hL
  have hxs := (isMatrix_holds.1 hx).stores
  obtain ⟨out, g1, g2, g3, -⟩ := onColumns2_ok
    (f := fun pt _ _ => do
      let L ← loadSquare n mem A.view.str1
      .ok ((List.range n).map fun i => ((List.range n).map fun l => ext (lowerPart L) i l * pt.getD l 0).sum))
    (output := layoutLeft 0 n k) hxs hxs le_rfl hx.2.1.symm
    (g := fun j => (List.range n).map fun i => ((List.range n).map fun l => ext L i l * (col n (nat2 B) j).getD l 0).sum)
    (fun j _ => ⟨by simp [layoutLeft], fun old _ => by rw [hgap, load_ok e2, Res.bind_ok, hr]⟩)
    (order := List.range x.view.ext1) (List.replicate (n * k) 0) (by rw [List.length_replicate]; exact separate_layoutLeft _ _)
    (fun j hj => List.mem_range.1 hj)
  refine ⟨_, L, ⟨out, layoutLeft 0 n k⟩, e1, e3, ?_, rfl, rfl, fun i j => ?_⟩
  · have hc : ¬ (A.view.str1 < max 1 n ∨ x.view.str1 < max 1 n ∨ x.view.ext0 < max 1 n) := by omega
    rw [cholMultiplyLDev]
    simp only [newDevice, layoutLeft, hc, if_false]
    rw [hv, onColumns_eq, hr, hx.2.1]
    rw [hx.2.1] at g1
    simp only [layoutLeft] at g1
    have e : opView false 0 n k n = ⟨0, n, k, 1, n⟩ := rfl
    rw [e, g1, Res.bind_ok]
  · rw [g3 i j i.2 (List.mem_range.2 (by rw [hx.2.1]; exact j.2)), getD_map_range, Matrix.mul_apply]
    congr 1
    have hsum : ∀ m (w : Nat → ℝ), ((List.range m).map w).sum = ∑ l ∈ Finset.range m, w l := by
      intro m w
      induction m with
      | zero => rfl
      | succ m ih => rw [List.range_succ, List.map_append, List.sum_append, ih, Finset.sum_range_succ]; simp
    rw [hsum, Finset.sum_range]
    refine Finset.sum_congr rfl fun l _ => ?_
    rw [ext_fin, getD_col _ _ _ _ l.2, nat2_fin]

/-- **C89** fails for `multiplyL`: if there are gaps between the columns of the matrix that was given to `compute`, the leading dimension of that matrix is used for the
factor, and memory behind the factor is read. -/
theorem C89_fails_multiplyL {potrf : Potrf} (hg : IsPotrf potrf) {n k : Nat} (hn : 2 ≤ n) (hk : 0 < k) {A : Mat .device} {M : Matrix (Fin n) (Fin n) ℝ} (hA : IsMatrix A M)
    (hgap : n < A.view.str1) (hd : (lowerSym M).PosDef) {x : Mat .device} {B : Matrix (Fin n) (Fin k) ℝ} (hx : IsMatrix x B) (h0 : x.view.str0 = 1)
    (ha : ColumnsApart x) :
    ∃ f, cholCompute potrf A = .ok f ∧ cholMultiplyLDev (some f) x = .ub := by
  obtain ⟨mem, e1, e2, e3⟩ := (cholCompute_ok hg hA).2 hd
  have hld := ha h0
  have hr := hx.1
  have hv : opView false x.view.data n x.view.ext1 x.view.str1 = x.view := by
    rcases x with ⟨m, ⟨d, a, b, s0, s1⟩⟩
    simp only [opView, Bool.false_eq_true, if_false] at *
    rw [h0, hr]
  have hub : loadSquare n mem A.view.str1 = .ub := by
    rw [loadSquare, if_neg]
    push Not
    refine ⟨by omega, ?_⟩
    obtain ⟨q, rfl⟩ : ∃ q, n = q + 2 := ⟨n - 2, by omega⟩
    rw [e2]
    have : q + 2 - 1 = q + 1 := by omega
    rw [this]
    nlinarith
  refine ⟨_, e1, ?_⟩
  have hc : ¬ (A.view.str1 < max 1 n ∨ x.view.str1 < max 1 n ∨ x.view.ext0 < max 1 n) := by omega
  rw [cholMultiplyLDev]
  simp only [newDevice, layoutLeft, hc, if_false]
  rw [hv, hr, hx.2.1]
  obtain ⟨q, rfl⟩ : ∃ q, k = q + 1 := ⟨k - 1, by omega⟩
  have e : opView false 0 n (q + 1) n = layoutLeft 0 n (q + 1) := rfl
  have hz : StoresView (List.replicate (n * (q + 1)) (0 : ℝ)) (layoutLeft 0 n (q + 1)) (fun _ _ => 0) := fun i j hi hj => by
    have := (separate_layoutLeft n (q + 1)).inside i j hi hj
    rw [List.getElem?_replicate, if_pos this]
  rw [e, List.range_succ_eq_map, onColumns, column_ok (isMatrix_holds.1 hx).stores (by rw [hx.2.1]; omega), Res.bind_ok, column_ok hz (by simp [layoutLeft]), Res.bind_ok,
    hub]
  rfl

/-- **C89** fails for solvers that were not computed: the assertions look at a flag that has no value. -/
theorem C89_fails_not_computed (bad : Int) (x : Mat .device) (order : List Nat) :
    luSolveDev none bad x = .ub ∧ luDetDev none order = .ub ∧ cholSolveDev none bad x = .ub ∧ cholSolveLDev none x = .ub ∧ cholMultiplyLDev none x = .ub ∧
      cholDetDev none order = .ub :=
  ⟨rfl, rfl, rfl, rfl, rfl, rfl⟩

/-! ### Examples: the contracts of the library functions can be met, and the hypotheses hold for concrete matrices -/

private noncomputable def colMajor {n : Nat} (M : Matrix (Fin n) (Fin n) ℝ) : List ℝ := (List.range (n * n)).map fun q => ext M (q % n) (q / n)

private theorem matOf_colMajor {n : Nat} (M : Matrix (Fin n) (Fin n) ℝ) : matOf n (colMajor M) n = M := by
  ext i j
  have hlt : i.1 + j.1 * n < n * n := by have := i.2; have := j.2; nlinarith
  have h1 : (i.1 + j.1 * n) % n = i := by rw [Nat.add_mul_mod_self_right, Nat.mod_eq_of_lt i.2]
  have h2 : (i.1 + j.1 * n) / n = j := by
    rw [Nat.add_mul_div_right _ _ (by have := i.2; omega), Nat.div_eq_of_lt i.2, Nat.zero_add]
  simp [matOf, colMajor, List.getD_eq_getElem?_getD, hlt, h1, h2, ext_fin]

/-- There are functions with the contract of `getrf`. -/
example : ∃ getrf, IsGetrf getrf := by
  classical
  choose f hf using fun n (mem : List ℝ) => exists_lu (matOf n mem n)
  refine ⟨fun n mem => (colMajor (f n mem).lu, (f n mem).perm, if ∃ i, (f n mem).lu i i = 0 then 1 else 0), fun n mem _ => ?_⟩
  simp only [matOf_colMajor]
  refine ⟨by simp [colMajor], hf n mem, by split <;> simp, ?_⟩
  split <;> simp_all

/-- There are functions with the contract of `potrf`. -/
example : ∃ potrf, IsPotrf potrf := by
  classical
  have : ∀ n (mem : List ℝ), ∃ r : List ℝ × Int, r.1.length = n * n ∧ 0 ≤ r.2 ∧ (r.2 = 0 ↔ (lowerSym (matOf n mem n)).PosDef) ∧
      (r.2 = 0 → IsCholesky (lowerPart (matOf n r.1 n)) (lowerSym (matOf n mem n))) := by
    intro n mem
    by_cases h : (lowerSym (matOf n mem n)).PosDef
    · obtain ⟨L, hL, -⟩ := (C71_cholesky_exists _).1 h
      refine ⟨(colMajor L, 0), by simp [colMajor], le_rfl, by simp [h], fun _ => ?_⟩
      rw [matOf_colMajor]
      have : lowerPart L = L := by
        ext i j
        by_cases hij : j ≤ i
        · simp [lowerPart, hij]
        · simp [lowerPart, hij, hL.1 i j (not_le.1 hij)]
      rwa [this]
    · exact ⟨(List.replicate (n * n) 0, 1), by simp, by simp, by simp [h], by simp⟩
  choose r hr using this
  exact ⟨r, fun n mem _ => hr n mem⟩

private def devA : Mat .device := ⟨[0, 1, 7, 1, 0, 7], ⟨0, 2, 2, 1, 3⟩⟩

private theorem devA_is : IsMatrix devA !![0, 1; 1, 0] := ⟨rfl, rfl, fun i j => by fin_cases i <;> fin_cases j <;> rfl⟩

/-- The matrix of `C89_fails_determinant`, with a gap between its columns. -/
example {getrf : Getrf} (hg : IsGetrf getrf) : ∃ f, luCompute getrf devA = .ok f ∧ luDetDev (some f) [1, 0] = .ok 1 :=
  (C89_fails_determinant hg devA_is (by decide)).2

/-- A solve with two right-hand sides in row-major memory. -/
example {getrf : Getrf} (hg : IsGetrf getrf) : ∃ f y X, luCompute getrf devA = .ok f ∧
    luSolveCopy (some f) 0 ⟨[1, 2, 3, 4], layoutRight 0 2 2⟩ = .ok y ∧ IsMatrix y X ∧ !![0, 1; 1, 0] * X = (!![1, 2; 3, 4] : Matrix (Fin 2) (Fin 2) ℝ) := by
  obtain ⟨f, h1, -, y, X, h2, h3, h4⟩ := C89_lu_solve hg (by norm_num) devA_is (by simp [Matrix.det_fin_two]) 0
    (x := ⟨[1, 2, 3, 4], layoutRight 0 2 2⟩) (B := !![1, 2; 3, 4]) ⟨rfl, rfl, fun i j => by fin_cases i <;> fin_cases j <;> rfl⟩
  exact ⟨f, y, X, h1, h2, h3, h4⟩

private theorem lowerSym_one : lowerSym (1 : Matrix (Fin 2) (Fin 2) ℝ) = 1 := by
  ext i j; fin_cases i <;> fin_cases j <;> simp [lowerSym]

/-- The identity, stored with a gap: `multiplyL` reads behind the end. -/
example {potrf : Potrf} (hg : IsPotrf potrf) : ∃ f, cholCompute potrf ⟨[1, 0, 7, 0, 1, 7], ⟨0, 2, 2, 1, 3⟩⟩ = .ok f ∧
    cholMultiplyLDev (some f) ⟨[5, 6], layoutLeft 0 2 1⟩ = .ub :=
  C89_fails_multiplyL hg (M := 1) (B := !![5; 6]) le_rfl (by norm_num) ⟨rfl, rfl, fun i j => by fin_cases i <;> fin_cases j <;> rfl⟩ (by decide)
    (by rw [lowerSym_one]; exact Matrix.PosDef.one) ⟨rfl, rfl, fun i j => by fin_cases i <;> fin_cases j <;> rfl⟩ rfl (fun _ => le_rfl)

/-- A transposed row-major matrix times a column-major one, added to a row-major result. -/
example : ∃ out, devDgemm 2 ⟨⟨[1, 2, 3, 4], layoutRight 0 2 2⟩, true⟩ ⟨⟨[1, 0, 0, 1], layoutLeft 0 2 2⟩, false⟩ 3 ⟨[1, 1, 1, 1], layoutRight 0 2 2⟩ = .ok out ∧
    IsMatrix (⟨out, layoutRight 0 2 2⟩ : Mat .device) ((2 : ℝ) • (!![1, 3; 2, 4] * !![1, 0; 0, 1]) + (3 : ℝ) • (!![1, 1; 1, 1] : Matrix (Fin 2) (Fin 2) ℝ)) := by
  obtain ⟨out, h1, -, h2, -⟩ := C89_dgemm_partial (A := ⟨⟨[1, 2, 3, 4], layoutRight 0 2 2⟩, true⟩) (B := ⟨⟨[1, 0, 0, 1], layoutLeft 0 2 2⟩, false⟩)
    (C := ⟨[1, 1, 1, 1], layoutRight 0 2 2⟩) (MA := !![1, 3; 2, 4]) (MB := !![1, 0; 0, 1]) (MC := !![1, 1; 1, 1]) 2 3 (by norm_num) (by norm_num) (by norm_num)
    (.inr ⟨rfl, rfl, rfl, fun i j => by fin_cases i <;> fin_cases j <;> rfl⟩) (.inl ⟨rfl, rfl, rfl, fun i j => by fin_cases i <;> fin_cases j <;> rfl⟩)
    ⟨rfl, rfl, fun i j => by fin_cases i <;> fin_cases j <;> rfl⟩ (separate_layoutRight 2 2).inj (fun h => by simp [layoutRight] at h) (fun _ => le_rfl)
    (fun h => by simp [layoutRight] at h)
  exact ⟨out, h1, h2⟩

end MParT
