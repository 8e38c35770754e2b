import Verif.Spec.Arrays
import Verif.Props.Identity
import Mathlib.Data.List.GetD
import Mathlib.Tactic.Ring
import Mathlib.Tactic.Linarith
import Mathlib.Tactic.IntervalCases
/-!
# C65, C66: array conversions and the overloads that take matrices
-/
namespace MParT
open Spec Arrays

/-! ### Conversions -/

/-- **C65.** `MatToKokkos` and `VecToKokkos`: every entry of the view is the entry of the Eigen object, for every shape, storage order and strides;
`KokkosToMat` and `KokkosToVec` of strided views likewise. -/
theorem C65_strided :
    (∀ r : EigenMat, SameCells (matToKokkos r) r) ∧
    (∀ r : EigenVec, SameCells1 (vecToKokkos r) r) ∧
    (∀ v : View2, ∃ r, kokkosToMat .stride v = .ok r ∧ SameCells v r) ∧
    (∀ v : View1, SameCells1 v (kokkosToVec true v)) := by
  refine ⟨fun r => ?_, fun r => ⟨rfl, fun i _ => rfl⟩, fun v => ⟨_, rfl, rfl, rfl, fun i j _ _ => rfl⟩, fun v => ⟨rfl, fun i _ => rfl⟩⟩
  cases h : r.rowMajor <;> simp [SameCells, matToKokkos, View2.addr, EigenMat.addr, h]
  intros; omega

/-- **C65.** Views around a block of memory: entry `(i,j)` is entry `i cols + j` with `LayoutRight` and `i + j rows` with `LayoutLeft`; with a shape
and strides it is where these say. -/
theorem C65_pointer (ptr rows cols i j : Nat) :
    (toKokkos2 true ptr rows cols).addr i j = ptr + i * cols + j ∧ (toKokkos2 false ptr rows cols).addr i j = ptr + i + j * rows ∧
    (∀ s t, (toKokkosInfo ptr rows cols s t).addr i j = ptr + i * s + j * t) ∧ (toKokkos1 ptr rows).addr i = ptr + i := by
  simp [toKokkos2, layoutRight, layoutLeft, View2.addr, View1.addr, toKokkosInfo, toKokkos1]

/-- **C65.** A `std::vector` with `rows * cols` entries as a matrix: entry `(i,j)` is entry `i cols + j`. -/
theorem C65_stdMat (ptr : Nat) {rows cols : Nat} (h : 0 < cols) : ∃ v, stdMatToKokkos ptr (rows * cols) cols = .ok v ∧ v.ext0 = rows ∧ v.ext1 = cols ∧
    ∀ i j, v.addr i j = ptr + i * cols + j := by
  refine ⟨layoutRight ptr rows cols, ?_, rfl, rfl, fun i j => by simp [View2.addr, layoutRight]⟩
  rw [stdMatToKokkos, if_neg h.ne', Nat.mul_div_cancel _ h]

/-- **C65.** `KokkosToMat` of views with a contiguous layout (also with padding between the rows or columns). -/
theorem C65_contiguous (v : View2) :
    (v.str1 = 1 → 1 ≤ v.str0 → ∃ r, kokkosToMat .right v = .ok r ∧ SameCells v r) ∧
    (v.str0 = 1 → 1 ≤ v.str1 → ∃ r, kokkosToMat .left v = .ok r ∧ SameCells v r) := by
  constructor
  · intro h1 h0
    refine ⟨_, by simp only [kokkosToMat, h1, or_true, if_true]; rfl, rfl, rfl, fun i j _ _ => ?_⟩
    simp [View2.addr, EigenMat.addr, layoutToEigen, h1, max_eq_left h0]
  · intro h0 h1
    refine ⟨_, by simp only [kokkosToMat, h0, true_or, if_true]; rfl, rfl, rfl, fun i j _ _ => ?_⟩
    simp only [View2.addr, EigenMat.addr, layoutToEigen, h0, max_eq_right h1]
    simp; omega

/-- **C65.** `KokkosToVec` of a view that is not declared strided is right exactly for unit stride. -/
theorem C65_vec (v : View1) : SameCells1 v (kokkosToVec false v) ↔ v.ext ≤ 1 ∨ v.str = 1 := by
  simp only [SameCells1, kokkosToVec, View1.addr, EigenVec.addr]
  constructor
  · rintro ⟨-, h⟩
    by_contra hc
    have := h 1 (by simp; omega)
    simp at this; omega
  · rintro h
    refine ⟨rfl, fun i hi => ?_⟩
    simp at hi ⊢
    rcases h with h | h
    · have : i = 0 := by omega
      simp [this]
    · simp [h]

/-- **C65.** `ConstRowMatToKokkos` and `ConstColMatToKokkos` refer to the entries of the matrix exactly if its rows (columns) are contiguous: the outer
stride is ignored. -/
theorem C65_const (r : EigenMat) (hi : r.inner = 1) :
    (r.rowMajor = true → (SameCells (constRowMatToKokkos r) r ↔ r.rows ≤ 1 ∨ r.cols = 0 ∨ r.outer = r.cols)) ∧
    (r.rowMajor = false → (SameCells (constColMatToKokkos r) r ↔ r.cols ≤ 1 ∨ r.rows = 0 ∨ r.outer = r.rows)) := by
  constructor
  · intro hr
    simp only [SameCells, constRowMatToKokkos, layoutRight, View2.addr, EigenMat.addr, hr, hi, if_true, true_and]
    constructor
    · intro h
      by_contra hc
      have := h 1 0 (by omega) (by omega)
      simp at this; omega
    · rintro (h | h | h) i j h1 h2
      · have : i = 0 := by omega
        simp [this]
      · omega
      · rw [h]
  · intro hr
    simp only [SameCells, constColMatToKokkos, layoutLeft, View2.addr, EigenMat.addr, hr, hi, true_and]
    constructor
    · intro h
      by_contra hc
      have := h 0 1 (by omega) (by omega)
      simp at this; omega
    · rintro (h | h | h) i j h1 h2
      · have : j = 0 := by omega
        simp [this]
      · omega
      · simp [h]; omega

theorem readFrom_ok {mem : List ℝ} {addr : Nat → Nat} {g : Nat → ℝ} (n : Nat) : ∀ i, (∀ k, i ≤ k → k < i + n → mem[addr k]? = some (g k)) →
    readFrom mem addr i n = .ok ((List.range' i n).map g) := by
  induction n with
  | zero => intro i _; rfl
  | succ n ih =>
    intro i h
    rw [readFrom, Res.idx_some (h i le_rfl (by omega)), Res.bind_ok, ih (i + 1) (fun k h1 h2 => h k (by omega) (by omega)), Res.bind_ok]
    rfl

/-- **C65.** `KokkosToStd` copies the entries in their order. -/
theorem C65_kokkosToStd {mem : List ℝ} {v : View1} {g : Nat → ℝ} (h : ∀ i, i < v.ext → mem[v.addr i]? = some (g i)) :
    kokkosToStd mem v = .ok ((List.range v.ext).map g) := by
  rw [kokkosToStd, readFrom_ok v.ext 0 (fun k _ hk => h k (by omega)), List.range_eq_range']

/-! ### Kernels over the columns -/

theorem column_ok {mem : List ℝ} {v : View2} {M : Nat → Nat → ℝ} (h : StoresView mem v M) {j : Nat} (hj : j < v.ext1) :
    column mem v j = .ok (col v.ext0 M j) := by
  rw [column, if_pos hj, readFrom_ok (g := fun i => M i j) v.ext0 0 (fun k _ hk => h k j (by omega) hj), col, List.range_eq_range']

theorem writeTo_ok {addr : Nat → Nat} (xs : List ℝ) : ∀ (mem : List ℝ) (i : Nat), (∀ k, i ≤ k → k < i + xs.length → addr k < mem.length) →
    (∀ k l, i ≤ k → k < i + xs.length → i ≤ l → l < i + xs.length → addr k = addr l → k = l) →
    ∃ mem', writeTo mem addr i xs = .ok mem' ∧ mem'.length = mem.length ∧
      (∀ k, k < xs.length → mem'[addr (i + k)]? = some (xs.getD k 0)) ∧
      ∀ a, (∀ k, k < xs.length → a ≠ addr (i + k)) → mem'[a]? = mem[a]? := by
  induction xs with
  | nil => intro mem i _ _; exact ⟨mem, rfl, rfl, by simp, fun _ _ => rfl⟩
  | cons x xs ih =>
    intro mem i hb hinj
    have hi : addr i < mem.length := hb i le_rfl (by simp)
    obtain ⟨mem', h1, h2, h3, h4⟩ := ih (mem.set (addr i) x) (i + 1)
      (fun k a b => by rw [List.length_set]; exact hb k (by omega) (by simp; omega))
      (fun k l a b c d e => hinj k l (by omega) (by simp; omega) (by omega) (by simp; omega) e)
    refine ⟨mem', by rw [writeTo, Res.setIdx_lt hi, Res.bind_ok, h1], by rw [h2, List.length_set], ?_, ?_⟩
    · intro k hk
      cases k with
      | zero =>
        have := h4 (addr i) (fun k hk he => by
          have := hinj i (i + 1 + k) le_rfl (by simp) (by omega) (by simp; omega) he
          omega)
        simp only [Nat.add_zero]
        rw [this]
        simp [hi]
      | succ k =>
        have := h3 k (by simpa using hk)
        rw [show i + (k + 1) = i + 1 + k by omega, this]
        simp
    · intro a ha
      rw [h4 a (fun k hk => by rw [show i + 1 + k = i + (k + 1) by omega]; exact ha (k + 1) (by simpa using hk))]
      have : a ≠ addr i := by simpa using ha 0 (by simp)
      rw [List.getElem?_set_ne (Ne.symm this)]

/-- Different entries of the view are different memory, inside the block. -/
structure Separate (size : Nat) (v : View2) : Prop where
  inside : ∀ i j, i < v.ext0 → j < v.ext1 → v.addr i j < size
  inj : ∀ i j i' j', i < v.ext0 → j < v.ext1 → i' < v.ext0 → j' < v.ext1 → v.addr i j = v.addr i' j' → i = i' ∧ j = j'

theorem separate_layoutRight (rows cols : Nat) : Separate (rows * cols) (layoutRight 0 rows cols) := by
  constructor
  · intro i j hi hj
    simp only [View2.addr, layoutRight] at *
    nlinarith
  · intro i j i' j' hi hj hi' hj' h
    simp only [View2.addr, layoutRight, Nat.zero_add, Nat.mul_one] at *
    have h1 : j = j' := by
      have := congrArg (· % cols) h
      simpa [Nat.mod_eq_of_lt hj, Nat.mod_eq_of_lt hj'] using this
    subst h1
    refine ⟨?_, rfl⟩
    have : i * cols = i' * cols := by omega
    exact Nat.eq_of_mul_eq_mul_right (by omega) this

theorem onColumns2_ok {f : List ℝ → List ℝ → List ℝ → Res (List ℝ)} {mem mem2 : List ℝ} {pts sens output : View2} {M S : Nat → Nat → ℝ}
    (hM : StoresView mem pts M) (hS : StoresView mem2 sens S) (hs : pts.ext1 ≤ sens.ext1) (ho : output.ext1 = pts.ext1) {g : Nat → List ℝ}
    (hf : ∀ j, j < pts.ext1 → (g j).length = output.ext0 ∧
      ∀ old : List ℝ, old.length = output.ext0 → f (col pts.ext0 M j) (col sens.ext0 S j) old = .ok (g j))
    {order : List Nat} : ∀ out : List ℝ, Separate out.length output → (∀ j ∈ order, j < pts.ext1) →
    ∃ out', onColumns2 f mem pts mem2 sens out output order = .ok out' ∧ out'.length = out.length ∧
      (∀ i j, i < output.ext0 → j ∈ order → out'[output.addr i j]? = some ((g j).getD i 0)) ∧
      (∀ i j, i < output.ext0 → j < output.ext1 → j ∉ order → out'[output.addr i j]? = out[output.addr i j]?) := by
  induction order with
  | nil => intro out _ _; exact ⟨out, rfl, rfl, by simp, fun _ _ _ _ _ => rfl⟩
  | cons j js ih =>
    intro out hsep hord
    have hj := hord j (by simp)
    have hj' : j < output.ext1 := by omega
    obtain ⟨hg, hf'⟩ := hf j hj
    have hold : column out output j = .ok (col output.ext0 (fun i j => out.getD (output.addr i j) 0) j) :=
      column_ok (fun i j a b => by
        have := hsep.inside i j a b
        simp [List.getElem?_eq_getElem this]) hj'
    obtain ⟨o1, w1, w2, w3, w4⟩ := writeTo_ok (addr := fun i => output.addr i j) (g j) out 0
      (fun k _ b => hsep.inside k j (by omega) hj')
      (fun k l _ b _ d e => (hsep.inj k j l j (by omega) hj' (by omega) hj' e).1)
    obtain ⟨o2, r1, r2, r3, r4⟩ := ih o1 (by rw [w2]; exact hsep) (fun k hk => hord k (by simp [hk]))
    refine ⟨o2, ?_, by rw [r2, w2], ?_, ?_⟩
    · rw [onColumns2, column_ok hM hj, Res.bind_ok, column_ok hS (by omega), Res.bind_ok, hold, Res.bind_ok, hf' _ (by simp [col]),
        Res.bind_ok, w1, Res.bind_ok, r1]
    · intro i k hi hk
      by_cases hkj : k ∈ js
      · exact r3 i k hi hkj
      · have : k = j := by simpa [hkj] using hk
        subst this
        rw [r4 i k hi hj' hkj]
        simpa using w3 i (by omega)
    · intro i k hi hk hnot
      simp only [List.mem_cons, not_or] at hnot
      rw [r4 i k hi hk hnot.2]
      exact w4 _ (fun l hl he => hnot.1 (hsep.inj i k l j hi hk (by omega) hj' (by simpa using he)).2)

theorem onColumns_eq (f : List ℝ → List ℝ → Res (List ℝ)) (mem : List ℝ) (pts : View2) (output : View2) (order : List Nat) :
    ∀ out, onColumns f mem pts out output order = onColumns2 (fun pt _ old => f pt old) mem pts mem pts out output order := by
  induction order with
  | nil => intro out; rfl
  | cons j js ih =>
    intro out
    rw [onColumns, onColumns2]
    cases column mem pts j with
    | ok a =>
      simp only [Res.bind_ok]
      cases column out output j with
      | ok b =>
        simp only [Res.bind_ok]
        cases f a b with
        | ok d =>
          simp only [Res.bind_ok]
          cases writeTo out (fun i => output.addr i j) 0 d with
          | ok e => simp only [Res.bind_ok]; exact ih e
          | throw => rfl
          | ub => rfl
        | throw => rfl
        | ub => rfl
      | throw => rfl
      | ub => rfl
    | throw => rfl
    | ub => rfl

/-! ### Overloads -/

theorem onNew {f : List ℝ → List ℝ → List ℝ → Res (List ℝ)} {mem mem2 : List ℝ} {pts sens : View2} {M S : Nat → Nat → ℝ}
    (hM : StoresView mem pts M) (hS : StoresView mem2 sens S) (hs : pts.ext1 ≤ sens.ext1) {rows : Nat} {g : Nat → List ℝ}
    (hf : ∀ j, j < pts.ext1 → (g j).length = rows ∧
      ∀ old : List ℝ, old.length = rows → f (col pts.ext0 M j) (col sens.ext0 S j) old = .ok (g j))
    {order : List Nat} (ho : order.Perm (List.range pts.ext1)) {out : List ℝ} (hl : out.length = rows * pts.ext1) :
    ∃ out', onColumns2 f mem pts mem2 sens out (layoutRight 0 rows pts.ext1) order = .ok out' ∧
      Gives (out', layoutRight 0 rows pts.ext1) rows pts.ext1 g := by
  obtain ⟨out', h1, h2, h3, -⟩ := onColumns2_ok (output := layoutRight 0 rows pts.ext1) hM hS hs rfl (g := g) hf (order := order) out
    (by rw [hl]; exact separate_layoutRight rows pts.ext1) (fun j hj => List.mem_range.1 (ho.mem_iff.1 hj))
  exact ⟨out', h1, rfl, by rw [h2, hl], fun i j hi hj => h3 i j hi (ho.mem_iff.2 (List.mem_range.2 hj))⟩

theorem copyRows_ok {mem : List ℝ} {r : EigenMat} {M : Nat → Nat → ℝ} (n : Nat) : ∀ i, (∀ k j, i ≤ k → k < i + n → j < r.cols → mem[r.addr k j]? = some (M k j)) →
    copyRows mem r i n = .ok ((List.range' i n).flatMap fun k => (List.range r.cols).map (M k)) := by
  induction n with
  | zero => intro i _; rfl
  | succ n ih =>
    intro i h
    rw [copyRows, readFrom_ok (g := M i) r.cols 0 (fun k _ hk => h i k le_rfl (by omega) (by omega)), Res.bind_ok,
      ih (i + 1) (fun k j h1 h2 h3 => h k j (by omega) (by omega) h3), Res.bind_ok]
    simp [List.range'_succ, List.range_eq_range']

theorem flatRows (n cols : Nat) (M : Nat → Nat → ℝ) : ∀ a, ((List.range' a n).flatMap fun k => (List.range cols).map (M k)).length = n * cols ∧
    ∀ i j, i < n → j < cols → ((List.range' a n).flatMap fun k => (List.range cols).map (M k)).getD (i * cols + j) 0 = M (a + i) j := by
  induction n with
  | zero => intro a; simp
  | succ n ih =>
    intro a
    obtain ⟨h1, h2⟩ := ih (a + 1)
    rw [List.range'_succ, List.flatMap_cons]
    refine ⟨by rw [List.length_append, h1]; simp; ring, fun i j hi hj => ?_⟩
    cases i with
    | zero => rw [List.getD_append _ _ _ _ (by simpa using hj)]; simp [hj]
    | succ i =>
      have e : (i + 1) * cols + j = ((List.range cols).map (M a)).length + (i * cols + j) := by simp; ring
      rw [e, List.getD_append_right _ _ _ _ (by omega), Nat.add_sub_cancel_left, h2 i j (by omega) hj]
      congr 1; omega

theorem returned_ok {R : List ℝ × View2} {rows cols : Nat} {F : Nat → List ℝ} (h : Gives R rows cols F) :
    ∃ A, returned R.1 R.2 = .ok A ∧ HasColumns A rows cols F := by
  obtain ⟨out, v⟩ := R
  obtain ⟨hv, hs, he⟩ := h
  simp only at hv hs he
  subst hv
  obtain ⟨f1, f2⟩ := flatRows rows cols (fun i j => (F j).getD i 0) 0
  refine ⟨⟨rows, cols, (List.range' 0 rows).flatMap fun k => (List.range cols).map fun j => (F j).getD k 0⟩, ?_, rfl, rfl, f1, fun i j hi hj => by simpa using f2 i j hi hj⟩
  have hm : kokkosToMat .right (layoutRight 0 rows cols) = .ok ⟨true, 0, rows, cols, max cols 1, 1⟩ := by simp [kokkosToMat, layoutRight, layoutToEigen]
  have ha : asLayoutRight (layoutRight 0 rows cols) = .ok (layoutRight 0 rows cols) := by simp [asLayoutRight, layoutRight]
  rw [returned, ha, Res.bind_ok, hm, Res.bind_ok, copyRows_ok (M := fun i j => (F j).getD i 0) rows 0 (fun k j _ h2 h3 => ?_), Res.bind_ok]
  have := he k j (by omega) h3
  simp only [layoutRight, View2.addr, EigenMat.addr] at this h3 ⊢
  rw [max_eq_left (by omega)]
  simpa using this

theorem entries_ok {R : List ℝ × View2} {rows cols : Nat} {F : Nat → List ℝ} (h : Gives R rows cols F) : HasColumns ⟨rows, cols, R.1⟩ rows cols F := by
  obtain ⟨out, v⟩ := R
  obtain ⟨hv, hs, he⟩ := h
  simp only at hv hs he
  subst hv
  refine ⟨rfl, rfl, hs, fun i j hi hj => ?_⟩
  have := he i j hi hj
  simp only [View2.addr, layoutRight, Nat.zero_add, Nat.mul_one] at this
  simp [List.getD_eq_getElem?_getD, this]

theorem Spec.Contiguous.stores {r : EigenMat} (h : Contiguous r) {mem : List ℝ} {M : Nat → Nat → ℝ} (hM : Stores mem r M) :
    StoresView mem (constRowMatToKokkos r) M := by
  intro i j hi hj
  have := ((C65_const r h.inner).1 h.rowMajor).2 (by rcases h.outer with h | h <;> simp [h])
  rw [this.2.2 i j hi hj]
  exact hM i j hi hj

@[simp] theorem col_length (rows : Nat) (M : Nat → Nat → ℝ) (j : Nat) : (col rows M j).length = rows := by simp [col]

theorem outputView (rows cols : Nat) : matToKokkos ⟨true, 0, rows, cols, cols, 1⟩ = layoutRight 0 rows cols := rfl

section
variable {m : CMap} {c mem mem2 : List ℝ} {M S : Nat → Nat → ℝ} {order : List Nat}

/-- **C66.** `Evaluate` of a matrix of points, given as any view: the columns of the new matrix are the values of the map, in whatever order the
columns are processed. -/
theorem C66_evaluateView (h : Evaluates m) (hc : c.length = m.numCoeffs) {pts : View2} (hr : pts.ext0 = m.inputDim) (hM : StoresView mem pts M)
    (ho : order.Perm (List.range pts.ext1)) :
    ∃ R, evaluateView m c mem pts order = .ok R ∧ Gives R m.outputDim pts.ext1 fun j => fn m c (col pts.ext0 M j) := by
  obtain ⟨out, h1, h2⟩ := onNew (f := fun pt _ old => m.eval c pt old) hM hM le_rfl (rows := m.outputDim) (g := fun j => fn m c (col pts.ext0 M j))
    (fun j _ => h c _ ⟨hc, by simp [hr]⟩) ho (out := (newView m.outputDim pts.ext1).1) (by simp [newView])
  exact ⟨_, by rw [evaluateView, onColumns_eq]; simp only [newView] at h1 ⊢; rw [h1, Res.bind_ok], h2⟩

/-- **C66.** `Evaluate` of an Eigen matrix with contiguous memory, whatever the new matrix contained. -/
theorem C66_evaluate_partial (h : Evaluates m) (hc : c.length = m.numCoeffs) {pts : EigenMat} (hr : pts.rows = m.inputDim) (hp : Contiguous pts)
    (hM : Stores mem pts M) (ho : order.Perm (List.range pts.cols)) (junk : Nat → ℝ) :
    ∃ R, evaluateEigen m c mem pts junk order = .ok R ∧ HasColumns R m.outputDim pts.cols fun j => fn m c (col pts.rows M j) := by
  obtain ⟨out, h1, h2⟩ := onNew (f := fun pt _ old => m.eval c pt old) (hp.stores hM) (hp.stores hM) le_rfl (rows := m.outputDim)
    (g := fun j => fn m c (col pts.rows M j)) (fun j _ => h c _ ⟨hc, by simp [constRowMatToKokkos, layoutRight, hr]⟩) ho
    (out := (List.range (m.outputDim * pts.cols)).map junk) (by simp [constRowMatToKokkos, layoutRight])
  refine ⟨_, ?_, entries_ok h2⟩
  rw [evaluateEigen]
  simp only [outputView, onColumns_eq]
  rw [show (constRowMatToKokkos pts).ext1 = pts.cols from rfl] at h1
  rw [h1, Res.bind_ok]

theorem gradient_kernel (h : Differentiates m) (hc : c.length = m.numCoeffs) {pts sens : View2} (hr : pts.ext0 = m.inputDim)
    (hs : sens.ext0 = m.outputDim) (j : Nat) : (grad m c (col pts.ext0 M j) (col sens.ext0 S j)).length = m.inputDim ∧
      ∀ old : List ℝ, old.length = m.inputDim → m.grad c (col pts.ext0 M j) (col sens.ext0 S j) old = .ok (grad m c (col pts.ext0 M j) (col sens.ext0 S j)) := by
  obtain ⟨h1, -, h3⟩ := h c (col pts.ext0 M j) (col sens.ext0 S j) ⟨hc, by simp [hr]⟩ (by simp [hs])
  exact ⟨h3.2.1, h1⟩

/-- **C66.** `Gradient(pts, sens)` with any views. -/
theorem C66_gradientView (h : Differentiates m) (hc : c.length = m.numCoeffs) {pts sens : View2} (hr : pts.ext0 = m.inputDim)
    (hs : sens.ext0 = m.outputDim) (hcols : sens.ext1 = pts.ext1) (hM : StoresView mem pts M) (hS : StoresView mem2 sens S)
    (ho : order.Perm (List.range pts.ext1)) :
    ∃ R, gradientView m c mem pts mem2 sens order = .ok R ∧
      Gives R m.inputDim pts.ext1 fun j => grad m c (col pts.ext0 M j) (col sens.ext0 S j) := by
  obtain ⟨out, h1, h2⟩ := onNew (f := m.grad c) hM hS hcols.ge (rows := m.inputDim) (g := fun j => grad m c (col pts.ext0 M j) (col sens.ext0 S j))
    (fun j _ => gradient_kernel h hc hr hs j) ho (out := (newView m.inputDim pts.ext1).1) (by simp [newView])
  exact ⟨_, by rw [gradientView]; simp only [newView] at h1 ⊢; rw [h1, Res.bind_ok], h2⟩

/-- **C66.** `Gradient(pts, sens)` with Eigen matrices that have contiguous memory. -/
theorem C66_gradient_partial (h : Differentiates m) (hc : c.length = m.numCoeffs) {pts sens : EigenMat} (hr : pts.rows = m.inputDim)
    (hs : sens.rows = m.outputDim) (hcols : sens.cols = pts.cols) (hp : Contiguous pts) (hq : Contiguous sens) (hM : Stores mem pts M)
    (hS : Stores mem2 sens S) (ho : order.Perm (List.range pts.cols)) (junk : Nat → ℝ) :
    ∃ R, gradientEigen m c mem pts mem2 sens junk order = .ok R ∧
      HasColumns R m.inputDim pts.cols fun j => grad m c (col pts.rows M j) (col sens.rows S j) := by
  obtain ⟨out, h1, h2⟩ := onNew (f := m.grad c) (hp.stores hM) (hq.stores hS) hcols.ge (rows := m.inputDim)
    (g := fun j => grad m c (col pts.rows M j) (col sens.rows S j))
    (fun j _ => gradient_kernel (pts := constRowMatToKokkos pts) (sens := constRowMatToKokkos sens) h hc hr hs j) ho
    (out := (List.range (m.inputDim * pts.cols)).map junk) (by simp [constRowMatToKokkos, layoutRight])
  refine ⟨_, ?_, entries_ok h2⟩
  rw [gradientEigen]
  simp only [outputView]
  rw [show (constRowMatToKokkos pts).ext1 = pts.cols from rfl] at h1
  rw [h1, Res.bind_ok]

/-- **C66.** `CoeffGrad(pts, sens)` with any views, for a map with coefficients. -/
theorem C66_coeffGradView (h : Differentiates m) (hn : m.numCoeffs ≠ 0) (hc : c.length = m.numCoeffs) {pts sens : View2}
    (hr : pts.ext0 = m.inputDim) (hs : sens.ext0 = m.outputDim) (hcols : sens.ext1 = pts.ext1) (hM : StoresView mem pts M)
    (hS : StoresView mem2 sens S) (ho : order.Perm (List.range pts.ext1)) :
    ∃ R, coeffGradView m c mem pts mem2 sens order = .ok R ∧
      Gives R m.numCoeffs pts.ext1 fun j => coeffGrad m c (col pts.ext0 M j) (col sens.ext0 S j) := by
  obtain ⟨out, h1, h2⟩ := onNew (f := m.coeffGrad c) hM hS hcols.ge (rows := m.numCoeffs)
    (g := fun j => coeffGrad m c (col pts.ext0 M j) (col sens.ext0 S j))
    (fun j _ => by
      obtain ⟨-, k2, k3⟩ := h c (col pts.ext0 M j) (col sens.ext0 S j) ⟨hc, by simp [hr]⟩ (by simp [hs])
      exact ⟨k3.1, k2 hn⟩) ho (out := (newView m.numCoeffs pts.ext1).1) (by simp [newView])
  exact ⟨_, by rw [coeffGradView]; simp only [newView] at h1 ⊢; rw [h1, Res.bind_ok], h2⟩

/-- **C66.** `CoeffGrad(pts, sens)` with Eigen matrices that have contiguous memory. -/
theorem C66_coeffGrad_partial (h : Differentiates m) (hn : m.numCoeffs ≠ 0) (hc : c.length = m.numCoeffs) {pts sens : EigenMat}
    (hr : pts.rows = m.inputDim) (hs : sens.rows = m.outputDim) (hcols : sens.cols = pts.cols) (hp : Contiguous pts) (hq : Contiguous sens)
    (hM : Stores mem pts M) (hS : Stores mem2 sens S) (ho : order.Perm (List.range pts.cols)) :
    ∃ R, coeffGradEigen m c mem pts mem2 sens order = .ok R ∧
      HasColumns R m.numCoeffs pts.cols fun j => coeffGrad m c (col pts.rows M j) (col sens.rows S j) := by
  obtain ⟨R, h1, h2⟩ := C66_coeffGradView (pts := constRowMatToKokkos pts) (sens := constRowMatToKokkos sens) h hn hc hr hs hcols
    (hp.stores hM) (hq.stores hS) ho
  obtain ⟨A, h3, h4⟩ := returned_ok h2
  exact ⟨A, by rw [coeffGradEigen, h1, Res.bind_ok, h3], h4⟩

/-- **C66.** `LogDeterminantInputGrad(pts)` with any view. -/
theorem C66_ldInputGradView (h : DifferentiatesLogDet m) (hc : c.length = m.numCoeffs) {pts : View2} (hr : pts.ext0 = m.inputDim)
    (hM : StoresView mem pts M) (ho : order.Perm (List.range pts.ext1)) :
    ∃ R, ldInputGradView m c mem pts order = .ok R ∧ Gives R m.inputDim pts.ext1 fun j => ldInputGrad m c (col pts.ext0 M j) := by
  obtain ⟨out, h1, h2⟩ := onNew (f := fun pt _ old => m.ldInputGrad c pt old) hM hM le_rfl (rows := m.inputDim)
    (g := fun j => ldInputGrad m c (col pts.ext0 M j))
    (fun j _ => by
      obtain ⟨k1, -, k3⟩ := h c (col pts.ext0 M j) ⟨hc, by simp [hr]⟩
      exact ⟨k3.2.1, k1⟩) ho (out := (newView m.inputDim pts.ext1).1) (by simp [newView])
  exact ⟨_, by rw [ldInputGradView, onColumns_eq]; simp only [newView, hr] at h1 ⊢; rw [h1, Res.bind_ok], h2⟩

/-- **C66.** `LogDeterminantInputGrad(pts)` with an Eigen matrix that has contiguous memory. -/
theorem C66_ldInputGrad_partial (h : DifferentiatesLogDet m) (hc : c.length = m.numCoeffs) {pts : EigenMat} (hr : pts.rows = m.inputDim)
    (hp : Contiguous pts) (hM : Stores mem pts M) (ho : order.Perm (List.range pts.cols)) :
    ∃ R, ldInputGradEigen m c mem pts order = .ok R ∧ HasColumns R m.inputDim pts.cols fun j => ldInputGrad m c (col pts.rows M j) := by
  obtain ⟨R, h1, h2⟩ := C66_ldInputGradView (pts := constRowMatToKokkos pts) h hc hr (hp.stores hM) ho
  obtain ⟨A, h3, h4⟩ := returned_ok h2
  exact ⟨A, by rw [ldInputGradEigen, h1, Res.bind_ok, h3], h4⟩

/-- **C66.** `LogDeterminantCoeffGrad(pts)` with any view, for a map with coefficients. -/
theorem C66_ldCoeffGradView (h : DifferentiatesLogDet m) (hn : m.numCoeffs ≠ 0) (hc : c.length = m.numCoeffs) {pts : View2}
    (hr : pts.ext0 = m.inputDim) (hM : StoresView mem pts M) (ho : order.Perm (List.range pts.ext1)) :
    ∃ R, ldCoeffGradView m c mem pts order = .ok R ∧ Gives R m.numCoeffs pts.ext1 fun j => ldCoeffGrad m c (col pts.ext0 M j) := by
  obtain ⟨out, h1, h2⟩ := onNew (f := fun pt _ old => m.ldCoeffGrad c pt old) hM hM le_rfl (rows := m.numCoeffs)
    (g := fun j => ldCoeffGrad m c (col pts.ext0 M j))
    (fun j _ => by
      obtain ⟨-, k2, k3⟩ := h c (col pts.ext0 M j) ⟨hc, by simp [hr]⟩
      exact ⟨k3.1, k2 hn⟩) ho (out := (newView m.numCoeffs pts.ext1).1) (by simp [newView])
  exact ⟨_, by rw [ldCoeffGradView, onColumns_eq]; simp only [newView] at h1 ⊢; rw [h1, Res.bind_ok], h2⟩

/-- **C66.** `LogDeterminantCoeffGrad(pts)` with an Eigen matrix that has contiguous memory. -/
theorem C66_ldCoeffGrad_partial (h : DifferentiatesLogDet m) (hn : m.numCoeffs ≠ 0) (hc : c.length = m.numCoeffs) {pts : EigenMat}
    (hr : pts.rows = m.inputDim) (hp : Contiguous pts) (hM : Stores mem pts M) (ho : order.Perm (List.range pts.cols)) :
    ∃ R, ldCoeffGradEigen m c mem pts order = .ok R ∧ HasColumns R m.numCoeffs pts.cols fun j => ldCoeffGrad m c (col pts.rows M j) := by
  obtain ⟨R, h1, h2⟩ := C66_ldCoeffGradView (pts := constRowMatToKokkos pts) h hn hc hr (hp.stores hM) ho
  obtain ⟨A, h3, h4⟩ := returned_ok h2
  exact ⟨A, by rw [ldCoeffGradEigen, h1, Res.bind_ok, h3], h4⟩

/-- **C66.** `LogDeterminant(pts)` with any view: one number per column. -/
theorem C66_logDetView (h : HasLogDet m) (hc : c.length = m.numCoeffs) {pts : View2} (hr : pts.ext0 = m.inputDim) (hM : StoresView mem pts M)
    (ho : order.Perm (List.range pts.ext1)) :
    ∃ R, logDetView m c mem pts order = .ok R ∧ Gives R 1 pts.ext1 fun j => [logdet m c (col pts.ext0 M j)] := by
  obtain ⟨out, h1, h2⟩ := onNew (f := fun pt _ old => logDetColumn m c pt old) hM hM le_rfl (rows := 1)
    (g := fun j => [logdet m c (col pts.ext0 M j)])
    (fun j _ => by
      refine ⟨rfl, fun old hold => ?_⟩
      obtain ⟨o, rfl⟩ := List.length_eq_one_iff.1 hold
      rw [logDetColumn, h c (col pts.ext0 M j) ⟨hc, by simp [hr]⟩ (some o), Res.bind_ok]) ho
    (out := (newView 1 pts.ext1).1) (by simp [newView])
  exact ⟨_, by rw [logDetView, onColumns_eq]; simp only [newView] at h1 ⊢; rw [h1, Res.bind_ok], h2⟩

/-- **C66.** `LogDeterminant(pts)` with an Eigen matrix that has contiguous memory. -/
theorem C66_logDet_partial (h : HasLogDet m) (hc : c.length = m.numCoeffs) {pts : EigenMat} (hr : pts.rows = m.inputDim)
    (hp : Contiguous pts) (hM : Stores mem pts M) (ho : order.Perm (List.range pts.cols)) :
    logDetEigen m c mem pts order = .ok ((List.range pts.cols).map fun j => logdet m c (col pts.rows M j)) := by
  obtain ⟨R, h1, h2⟩ := C66_logDetView (pts := constRowMatToKokkos pts) h hc hr (hp.stores hM) ho
  obtain ⟨out, v⟩ := R
  obtain ⟨hv, -, he⟩ := h2
  simp only at hv he
  subst hv
  rw [logDetEigen, h1, Res.bind_ok]
  simp only [layoutRight, kokkosToVec, constRowMatToKokkos] at he ⊢
  rw [readFrom_ok (g := fun j => logdet m c (col pts.rows M j)) _ 0 (fun k _ hk => ?_), List.range_eq_range']
  · rfl
  have := he 0 k (by omega) (by simpa using hk)
  simpa [View2.addr, EigenVec.addr] using this

/-- **C66.** `Inverse(x1, r)` with any views: column `j` of the result solves the equation with column `j` of the arguments. -/
theorem C66_inverseView {k : Nat} (h : InvertsFrom m k) (hc : c.length = m.numCoeffs) {x1 r : View2} (hr : x1.ext0 = k)
    (hs : r.ext0 = m.outputDim) (hcols : r.ext1 = x1.ext1) (hM : StoresView mem x1 M) (hS : StoresView mem2 r S)
    (ho : order.Perm (List.range x1.ext1)) :
    ∃ R Y, inverseView m c mem x1 mem2 r order = .ok R ∧ Gives R m.outputDim x1.ext1 Y ∧
      ∀ j, j < x1.ext1 → Solves m c ((col x1.ext0 M j).take (m.inputDim - m.outputDim)) (col r.ext0 S j) (Y j) := by
  have hy : ∀ j, ∃ y, Solves m c ((col x1.ext0 M j).take (m.inputDim - m.outputDim)) (col r.ext0 S j) y ∧
      ∀ old : List ℝ, old.length = m.outputDim → m.inv c (col x1.ext0 M j) (col r.ext0 S j) old = .ok y := by
    intro j
    have key := h c (col x1.ext0 M j) (col r.ext0 S j) hc (by simp [hr]) (by simp [hs])
    obtain ⟨y, -, k2, k3, k4⟩ := key (zeros m.outputDim) (by simp [zeros])
    refine ⟨y, ⟨k2, k3, k4⟩, fun old hold => ?_⟩
    obtain ⟨y', l1, l2, l3, -⟩ := key old hold
    rw [l1, k4 y' l2 l3]
  choose Y hY using hy
  obtain ⟨out, h1, h2⟩ := onNew (f := m.inv c) hM hS hcols.ge (rows := m.outputDim) (g := Y)
    (fun j _ => ⟨(hY j).1.1, (hY j).2⟩) ho (out := (newView m.outputDim x1.ext1).1) (by simp [newView])
  refine ⟨_, Y, ?_, h2, fun j _ => (hY j).1⟩
  rw [inverseView, if_neg (by simp [hcols])]
  simp only [newView, hcols] at h1 ⊢
  rw [h1, Res.bind_ok]

/-- **C66.** `Inverse(x1, r)` with Eigen matrices that have contiguous memory. -/
theorem C66_inverse_partial {k : Nat} (h : InvertsFrom m k) (hc : c.length = m.numCoeffs) {x1 r : EigenMat} (hr : x1.rows = k)
    (hs : r.rows = m.outputDim) (hcols : r.cols = x1.cols) (hp : Contiguous x1) (hq : Contiguous r) (hM : Stores mem x1 M) (hS : Stores mem2 r S)
    (ho : order.Perm (List.range x1.cols)) :
    ∃ R Y, inverseEigen m c mem x1 mem2 r order = .ok R ∧ HasColumns R m.outputDim x1.cols Y ∧
      ∀ j, j < x1.cols → Solves m c ((col x1.rows M j).take (m.inputDim - m.outputDim)) (col r.rows S j) (Y j) := by
  obtain ⟨R, Y, h1, h2, h3⟩ := C66_inverseView (x1 := constRowMatToKokkos x1) (r := constRowMatToKokkos r) h hc hr hs hcols
    (hp.stores hM) (hq.stores hS) ho
  obtain ⟨A, h4, h5⟩ := returned_ok h2
  exact ⟨A, Y, by rw [inverseEigen, h1, Res.bind_ok, h4], h5, h3⟩

/-- **C66.** `Inverse` throws when its arguments have different numbers of columns. -/
theorem C66_inverse_columns (m : CMap) (c mem mem2 : List ℝ) (order : List Nat) :
    (∀ x1 r : View2, x1.ext1 ≠ r.ext1 → inverseView m c mem x1 mem2 r order = .throw) ∧
    ∀ x1 r : EigenMat, x1.cols ≠ r.cols → inverseEigen m c mem x1 mem2 r order = .throw := by
  refine ⟨fun x1 r h => by rw [inverseView, if_pos h], fun x1 r h => ?_⟩
  rw [inverseEigen, inverseView, if_pos (by simpa [constRowMatToKokkos, layoutRight] using h)]
  rfl

end

/-! ### Cases -/

/-- The entries of the two-row matrix `1 2 3; 4 5 6`, and its first two columns as a block. -/
private def mat23 : List ℝ := [1, 2, 3, 4, 5, 6]
private def full : EigenMat := ⟨true, 0, 2, 3, 3, 1⟩
private def block : EigenMat := ⟨true, 0, 2, 2, 3, 1⟩
private def entries (i j : Nat) : ℝ := mat23.getD (3 * i + j) 0

private theorem full_stores : Stores mat23 full entries := by
  intro i j hi hj
  simp only [full] at hi hj
  interval_cases i <;> interval_cases j <;> rfl

private theorem block_stores : Stores mat23 block entries := by
  intro i j hi hj
  simp only [block] at hi hj
  interval_cases i <;> interval_cases j <;> rfl

/-- Non-vacuity: a contiguous matrix, its columns processed in reverse, through the identity on the last of two inputs. -/
example (junk : Nat → ℝ) : ∃ R, evaluateEigen (IdentityMap.obj 2 1) [] mat23 full junk [2, 1, 0] = .ok R ∧ R.rows = 1 ∧ R.cols = 3 ∧ R.entries = [4, 5, 6] := by
  obtain ⟨R, h1, h2⟩ := C66_evaluate_partial (C48_identity_evaluate (n := 2) (k := 1) (by omega)).1 (c := []) rfl (pts := full) rfl
    ⟨rfl, rfl, Or.inr rfl⟩ full_stores (order := [2, 1, 0]) (by decide) junk
  refine ⟨R, h1, h2.rows_eq, h2.cols_eq, ?_⟩
  have hl : R.entries.length = 3 := h2.size
  obtain ⟨a, b, d, e⟩ := List.length_eq_three.1 hl
  have h0 := h2.entry 0 0 (by decide) (by decide)
  have h1 := h2.entry 0 1 (by decide) (by decide)
  have h2 := h2.entry 0 2 (by decide) (by decide)
  simp only [full] at h0 h1 h2
  rw [identity_fn (k := 1) (by omega) (col_length 2 _ _)] at h0 h1 h2
  rw [e] at h0 h1 h2 ⊢
  simp [col, full, entries, mat23] at h0 h1 h2
  rw [h0, h1, h2]

example : InvertsFrom (IdentityMap.obj 2 1) 1 ∧ HasLogDet (IdentityMap.obj 2 1) ∧ Differentiates (IdentityMap.obj 2 1) ∧
    DifferentiatesLogDet (IdentityMap.obj 2 1) :=
  ⟨C48_identity_inverse (by omega) (by omega), (C48_identity_logDet (by omega)).1, (C48_identity_gradient (by omega)).1, C48_identity_logDetGradient⟩

/-- **C66 fails for blocks.** `Evaluate(A.block(0,0,2,2))` for the identity and the matrix `1 2 3; 4 5 6` returns `1 2; 3 4`. -/
theorem C66_fails_block : ∃ (m : CMap) (mem : List ℝ) (pts : EigenMat) (M : Nat → Nat → ℝ), Evaluates m ∧ pts.rowMajor = true ∧ pts.inner = 1 ∧
    pts.cols ≤ pts.outer ∧ pts.rows = m.inputDim ∧ Stores mem pts M ∧ ∀ junk order, order.Perm (List.range pts.cols) →
    ∃ R, evaluateEigen m [] mem pts junk order = .ok R ∧ R.entries = [1, 2, 3, 4] ∧
      ¬ HasColumns R m.outputDim pts.cols fun j => fn m [] (col pts.rows M j) := by
  refine ⟨IdentityMap.obj 2 2, mat23, block, entries, (C48_identity_evaluate (by omega)).1, rfl, rfl, by decide, rfl, block_stores,
    fun junk order ho => ?_⟩
  have hread : evaluateEigen (IdentityMap.obj 2 2) [] mat23 block junk order = evaluateEigen (IdentityMap.obj 2 2) [] mat23 ⟨true, 0, 2, 2, 2, 1⟩ junk order := rfl
  obtain ⟨R, h1, h2⟩ := C66_evaluate_partial (C48_identity_evaluate (n := 2) (k := 2) (by omega)).1 (c := []) rfl (pts := ⟨true, 0, 2, 2, 2, 1⟩) rfl
    ⟨rfl, rfl, Or.inr rfl⟩ (mem := mat23) (M := fun i j => mat23.getD (2 * i + j) 0)
    (fun i j hi hj => by simp only at hi hj; interval_cases i <;> interval_cases j <;> rfl) ho junk
  have hl : R.entries.length = 4 := h2.size
  have e00 := h2.entry 0 0 (by decide) (by decide)
  have e01 := h2.entry 0 1 (by decide) (by decide)
  have e10 := h2.entry 1 0 (by decide) (by decide)
  have e11 := h2.entry 1 1 (by decide) (by decide)
  rw [identity_fn (by omega) (col_length 2 _ _)] at e00 e01 e10 e11
  match hR : R.entries, hl with
  | [a, b, d, e], _ =>
    rw [hR] at e00 e01 e10 e11
    simp [col, mat23] at e00 e01 e10 e11
    refine ⟨R, by rw [hread, h1], by rw [hR, e00, e01, e10, e11], fun hcon => ?_⟩
    have := hcon.entry 1 0 (by decide) (by decide)
    simp only [block] at this
    rw [identity_fn (k := 2) (by omega) (col_length 2 _ _), hR] at this
    simp [col, block, entries, mat23, e10] at this

end MParT
