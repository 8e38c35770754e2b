import Verif.Spec.DeviceMaps
import Verif.Props.Arrays
/-!
# C88: maps and points in different memory spaces

A map on the host applied to arrays in device memory, and a map on the device applied to arrays in host memory or to Eigen matrices, return what the map
returns for arrays in its own memory: the matrix of the values at the columns.
-/
namespace MParT
open Arrays Spec

/-! ### Copies -/

theorem separate_layoutLeft (rows cols : Nat) : Separate (rows * cols) (layoutLeft 0 rows cols) := by
  constructor
  · intro i j hi hj
    simp only [View2.addr, layoutLeft] at *
    nlinarith
  · intro i j i' j' hi hj hi' hj' h
    simp only [View2.addr, layoutLeft, Nat.zero_add, Nat.mul_one] at *
    have h1 : i = i' := by
      have := congrArg (· % rows) h
      simpa [Nat.mod_eq_of_lt hi, Nat.mod_eq_of_lt hi'] using this
    subst h1
    refine ⟨rfl, ?_⟩
    have : j * rows = j' * rows := by omega
    exact Nat.eq_of_mul_eq_mul_right (by omega) this

theorem Spec.Holds.stores {s : Space} {A : Mat s} {rows cols : Nat} {M : Nat → Nat → ℝ} (h : Holds A rows cols M) : StoresView A.mem A.view M := by
  intro i j hi hj
  exact h.entry i j (by rw [← h.rows_eq]; exact hi) (by rw [← h.cols_eq]; exact hj)

theorem getD_col (rows : Nat) (M : Nat → Nat → ℝ) (i j : Nat) (h : i < rows) : (col rows M j).getD i 0 = M i j := by
  simp [col, List.getD_eq_getElem?_getD, h]

theorem copyMat_ok {s : Space} {A : Mat s} {rows cols : Nat} {M : Nat → Nat → ℝ} (h : Holds A rows cols M) {out : List ℝ} {v : View2}
    (h0 : v.ext0 = rows) (h1 : v.ext1 = cols) (hs : Separate out.length v) :
    ∃ out', copyTo A out v = .ok out' ∧ out'.length = out.length ∧ StoresView out' v M := by
  obtain ⟨out', e1, e2, e3, -⟩ := onColumns2_ok (f := fun pt _ _ => .ok pt) (output := v) h.stores h.stores le_rfl (by rw [h1, h.cols_eq])
    (g := fun j => col A.view.ext0 M j) (fun j _ => ⟨by rw [col_length, h.rows_eq, h0], fun _ _ => rfl⟩)
    (order := List.range A.view.ext1) out hs (fun j hj => List.mem_range.1 hj)
  refine ⟨out', ?_, e2, fun i j hi hj => ?_⟩
  · rw [copyTo, if_pos ⟨by rw [h.rows_eq, h0], by rw [h.cols_eq, h1]⟩, onColumns_eq, e1]
  · rw [e3 i j hi (List.mem_range.2 (by rw [h.cols_eq, ← h1]; exact hj)), getD_col _ _ _ _ (by rw [h.rows_eq, ← h0]; exact hi)]

/-- **C88.** `ToHost` copies the matrix: same shape, same entries, with the strides of the argument. -/
theorem C88_toHost {A : Mat .device} {rows cols : Nat} {M : Nat → Nat → ℝ} (h : Holds A rows cols M) (hn : NoOverlap A) :
    ∃ B, toHost A = .ok B ∧ Holds B rows cols M ∧ B.view.str0 = A.view.str0 ∧ B.view.str1 = A.view.str1 := by
  have hs : Separate (List.replicate (span { A.view with data := 0 }) (0 : ℝ)).length { A.view with data := 0 } := by
    rw [List.length_replicate]
    refine ⟨fun i j hi hj => ?_, fun i j i' j' hi hj hi' hj' he => hn i j i' j' hi hj hi' hj' ?_⟩
    · simp only at hi hj
      rw [span, if_neg (by simp only; omega)]
      simp only [View2.addr, Nat.zero_add]
      have a1 : i * A.view.str0 ≤ (A.view.ext0 - 1) * A.view.str0 := Nat.mul_le_mul_right _ (by omega)
      have a2 : j * A.view.str1 ≤ (A.view.ext1 - 1) * A.view.str1 := Nat.mul_le_mul_right _ (by omega)
      omega
    · simp only [View2.addr, Nat.zero_add] at he ⊢
      omega
  obtain ⟨out, e1, -, e3⟩ := copyMat_ok h (v := { A.view with data := 0 }) h.rows_eq h.cols_eq hs
  exact ⟨⟨out, { A.view with data := 0 }⟩, by rw [toHost]; simp only; rw [e1, Res.bind_ok],
    ⟨h.rows_eq, h.cols_eq, fun i j hi hj => e3 i j (by simp only [h.rows_eq]; exact hi) (by simp only [h.cols_eq]; exact hj)⟩, rfl, rfl⟩

/-- **C88.** `ToDevice` copies the matrix if its rows or its columns are contiguous, and throws otherwise. The copy has no overlapping entries. -/
theorem C88_toDevice {A : Mat .host} {rows cols : Nat} {M : Nat → Nat → ℝ} (h : Holds A rows cols M) :
    (UnitStride A → ∃ B, toDevice A = .ok B ∧ Holds B rows cols M ∧ NoOverlap B) ∧ (¬ UnitStride A → toDevice A = .throw) := by
  refine ⟨fun hu => ?_, fun hu => ?_⟩
  · have hr := h.rows_eq
    have hc := h.cols_eq
    by_cases h0 : A.view.str0 = 1
    · have hs : Separate (List.replicate (A.view.ext0 * A.view.ext1) (0 : ℝ)).length (layoutLeft 0 A.view.ext0 A.view.ext1) := by
        rw [List.length_replicate]; exact separate_layoutLeft _ _
      obtain ⟨out, e1, e2, e3⟩ := copyMat_ok h (v := layoutLeft 0 A.view.ext0 A.view.ext1) hr hc hs
      exact ⟨⟨out, layoutLeft 0 A.view.ext0 A.view.ext1⟩, by rw [toDevice, if_pos h0]; simp only; rw [e1, Res.bind_ok],
        ⟨hr, hc, fun i j hi hj => e3 i j (by simp only [layoutLeft, hr]; exact hi) (by simp only [layoutLeft, hc]; exact hj)⟩, hs.inj⟩
    · have h1 : A.view.str1 = 1 := hu.resolve_left h0
      have hs : Separate (List.replicate (A.view.ext0 * A.view.ext1) (0 : ℝ)).length (layoutRight 0 A.view.ext0 A.view.ext1) := by
        rw [List.length_replicate]; exact separate_layoutRight _ _
      obtain ⟨out, e1, e2, e3⟩ := copyMat_ok h (v := layoutRight 0 A.view.ext0 A.view.ext1) hr hc hs
      exact ⟨⟨out, layoutRight 0 A.view.ext0 A.view.ext1⟩, by rw [toDevice, if_neg h0, if_pos h1]; simp only; rw [e1, Res.bind_ok],
        ⟨hr, hc, fun i j hi hj => e3 i j (by simp only [layoutRight, hr]; exact hi) (by simp only [layoutRight, hc]; exact hj)⟩, hs.inj⟩
  · simp only [UnitStride, not_or] at hu
    rw [toDevice, if_neg hu.1, if_neg hu.2]

theorem gives_holds {R : List ℝ × View2} {rows cols : Nat} {F : Nat → List ℝ} (h : Gives R rows cols F) :
    Holds (hostMat R) rows cols (ofCols F) ∧ UnitStride (hostMat R) := by
  obtain ⟨out, v⟩ := R
  obtain ⟨hv, -, he⟩ := h
  simp only at hv he
  subst hv
  exact ⟨⟨rfl, rfl, he⟩, Or.inr rfl⟩

theorem toDevice_gives {R : List ℝ × View2} {rows cols : Nat} {F : Nat → List ℝ} (h : Gives R rows cols F) :
    ∃ B, toDevice (hostMat R) = .ok B ∧ Holds B rows cols (ofCols F) := by
  obtain ⟨h1, h2⟩ := gives_holds h
  obtain ⟨B, e, hB, -⟩ := (C88_toDevice h1).1 h2
  exact ⟨B, e, hB⟩

theorem row_ok {s : Space} {A : Mat s} {cols : Nat} {M : Nat → Nat → ℝ} (h : Holds A 1 cols M) :
    readFrom A.mem (A.view.addr 0) 0 A.view.ext1 = .ok ((List.range cols).map fun j => M 0 j) := by
  rw [readFrom_ok (g := fun j => M 0 j) _ 0 (fun k _ hk => h.entry 0 k (by omega) (by rw [h.cols_eq] at hk; omega)), h.cols_eq, List.range_eq_range']

theorem row_holds (s : Space) (cols : Nat) (M : Nat → Nat → ℝ) :
    Holds (⟨(List.range cols).map fun j => M 0 j, layoutRight 0 1 cols⟩ : Mat s) 1 cols M := by
  refine ⟨rfl, rfl, fun i j hi hj => ?_⟩
  have : i = 0 := by omega
  subst this
  simp [View2.addr, layoutRight, hj]

theorem toHost1_ok {A : Mat .device} {cols : Nat} {M : Nat → Nat → ℝ} (h : Holds A 1 cols M) : ∃ B, toHost1 A = .ok B ∧ Holds B 1 cols M ∧
    B = ⟨(List.range cols).map fun j => M 0 j, layoutRight 0 1 cols⟩ :=
  ⟨_, by rw [toHost1, row_ok h, Res.bind_ok, h.cols_eq], row_holds _ cols M, rfl⟩

theorem toDevice1_ok {A : Mat .host} {cols : Nat} {M : Nat → Nat → ℝ} (h : Holds A 1 cols M) : ∃ B, toDevice1 A = .ok B ∧ Holds B 1 cols M :=
  ⟨_, by rw [toDevice1, row_ok h, Res.bind_ok, h.cols_eq], row_holds _ cols M⟩

/-! ### Maps on the device, points on the device -/

theorem onNewDevice {f : List ℝ → List ℝ → List ℝ → Res (List ℝ)} {P Q : Mat .device} {rows prows qrows cols : Nat} {M S : Nat → Nat → ℝ}
    (hM : Holds P prows cols M) (hS : Holds Q qrows cols S) {g : Nat → List ℝ}
    (hf : ∀ j, j < cols → (g j).length = rows ∧ ∀ old : List ℝ, old.length = rows → f (col prows M j) (col qrows S j) old = .ok (g j))
    {order : List Nat} (ho : order.Perm (List.range cols)) :
    ∃ out, onColumns2 f P.mem P.view Q.mem Q.view (newDevice rows cols).1 (newDevice rows cols).2 order = .ok out ∧
      Holds (⟨out, (newDevice rows cols).2⟩ : Mat .device) rows cols (ofCols g) ∧ NoOverlap (⟨out, (newDevice rows cols).2⟩ : Mat .device) := by
  obtain ⟨out, h1, -, h3, -⟩ := onColumns2_ok (output := layoutLeft 0 rows cols) hM.stores hS.stores (by rw [hM.cols_eq, hS.cols_eq]) hM.cols_eq.symm (g := g)
    (fun j hj => by rw [hM.rows_eq, hS.rows_eq]; exact hf j (by rw [hM.cols_eq] at hj; exact hj)) (order := order) (List.replicate (rows * cols) 0)
    (by rw [List.length_replicate]; exact separate_layoutLeft rows cols)
    (fun j hj => by rw [hM.cols_eq]; exact List.mem_range.1 (ho.mem_iff.1 hj))
  exact ⟨out, h1, ⟨rfl, rfl, fun i j hi hj => h3 i j hi (ho.mem_iff.2 (List.mem_range.2 hj))⟩, (separate_layoutLeft rows cols).inj⟩

section
variable {m : CMap} {c : List ℝ} {M S : Nat → Nat → ℝ} {order : List Nat} {n : Nat}

/-- **C88.** `Evaluate` of a map on the device for points on the device. -/
theorem C88_evaluate {pts : Mat .device} (h : Evaluates m) (hc : c.length = m.numCoeffs) (hM : Holds pts m.inputDim n M) (ho : order.Perm (List.range n)) :
    ∃ R, OnDevice.evaluate m c pts order = .ok R ∧ Holds R m.outputDim n (ofCols fun j => fn m c (col m.inputDim M j)) ∧ NoOverlap R := by
  obtain ⟨out, h1, h2, h3⟩ := onNewDevice (f := fun pt _ old => m.eval c pt old) hM hM (rows := m.outputDim) (g := fun j => fn m c (col m.inputDim M j))
    (fun j _ => h c _ ⟨hc, by simp⟩) ho
  exact ⟨_, by rw [OnDevice.evaluate, onColumns_eq, hM.cols_eq, h1, Res.bind_ok], h2, h3⟩

/-- **C88, for maps with as many outputs as inputs.** `Gradient` of a map on the device for points on the device. -/
theorem C88_gradient_partial {pts sens : Mat .device} (h : Differentiates m) (hio : m.inputDim = m.outputDim) (hc : c.length = m.numCoeffs)
    (hM : Holds pts m.inputDim n M) (hS : Holds sens m.outputDim n S) (ho : order.Perm (List.range n)) :
    ∃ R, OnDevice.gradient m c pts sens order = .ok R ∧
      Holds R m.inputDim n (ofCols fun j => grad m c (col m.inputDim M j) (col m.outputDim S j)) ∧ NoOverlap R := by
  obtain ⟨out, h1, h2, h3⟩ := onNewDevice (f := m.grad c) hM hS (rows := m.inputDim) (g := fun j => grad m c (col m.inputDim M j) (col m.outputDim S j))
    (fun j _ => by
      obtain ⟨k1, -, k3⟩ := h c (col m.inputDim M j) (col m.outputDim S j) ⟨hc, by simp⟩ (by simp)
      exact ⟨k3.2.1, k1⟩) ho
  exact ⟨_, by rw [OnDevice.gradient, hM.cols_eq, ← hio, h1, Res.bind_ok], h2, h3⟩

/-- **C88 fails for `Gradient`.** For every map on the device with different numbers of inputs and outputs, `Gradient` never returns a matrix with as many
rows as there are inputs, whatever the points and sensitivities. -/
theorem C88_fails_gradient (m : CMap) (c : List ℝ) (hio : m.inputDim ≠ m.outputDim) (pts sens : Mat .device) (order : List Nat) (R : Mat .device) :
    OnDevice.gradient m c pts sens order = .ok R → R.view.ext0 = m.outputDim ∧ R.view.ext0 ≠ m.inputDim := by
  intro h
  rw [OnDevice.gradient] at h
  simp only [Res.bind_eq_ok] at h
  obtain ⟨out, -, h2⟩ := h
  obtain rfl : _ = R := by simpa using h2
  exact ⟨rfl, fun h => hio (by rw [← h]; rfl)⟩

/-- **C88.** `CoeffGrad` of a map on the device for points on the device. -/
theorem C88_coeffGrad {pts sens : Mat .device} (h : Differentiates m) (hn : m.numCoeffs ≠ 0) (hc : c.length = m.numCoeffs)
    (hM : Holds pts m.inputDim n M) (hS : Holds sens m.outputDim n S) (ho : order.Perm (List.range n)) :
    ∃ R, OnDevice.coeffGrad m c pts sens order = .ok R ∧
      Holds R m.numCoeffs n (ofCols fun j => coeffGrad m c (col m.inputDim M j) (col m.outputDim S j)) ∧ NoOverlap R := by
  obtain ⟨out, h1, h2, h3⟩ := onNewDevice (f := m.coeffGrad c) hM hS (rows := m.numCoeffs)
    (g := fun j => coeffGrad m c (col m.inputDim M j) (col m.outputDim S j))
    (fun j _ => by
      obtain ⟨-, k2, k3⟩ := h c (col m.inputDim M j) (col m.outputDim S j) ⟨hc, by simp⟩ (by simp)
      exact ⟨k3.1, k2 hn⟩) ho
  exact ⟨_, by rw [OnDevice.coeffGrad, hM.cols_eq, h1, Res.bind_ok], h2, h3⟩

/-- **C88.** `LogDeterminant` of a map on the device for points on the device. -/
theorem C88_logDet {pts : Mat .device} (h : HasLogDet m) (hc : c.length = m.numCoeffs) (hM : Holds pts m.inputDim n M) (ho : order.Perm (List.range n)) :
    ∃ R, OnDevice.logDet m c pts order = .ok R ∧ Holds R 1 n (ofCols fun j => [logdet m c (col m.inputDim M j)]) := by
  obtain ⟨out, h1, h2, h3⟩ := onNewDevice (f := fun pt _ old => logDetColumn m c pt old) hM hM (rows := 1) (g := fun j => [logdet m c (col m.inputDim M j)])
    (fun j _ => by
      refine ⟨rfl, fun old hold => ?_⟩
      obtain ⟨o, rfl⟩ := List.length_eq_one_iff.1 hold
      rw [logDetColumn, h c (col m.inputDim M j) ⟨hc, by simp⟩ (some o), Res.bind_ok]) ho
  exact ⟨_, by rw [OnDevice.logDet, onColumns_eq, hM.cols_eq, h1, Res.bind_ok], h2⟩

/-- **C88.** `Inverse` of a map on the device for arrays on the device. -/
theorem C88_inverse {k : Nat} {x1 r : Mat .device} (h : InvertsFrom m k) (hc : c.length = m.numCoeffs) (hM : Holds x1 k n M)
    (hS : Holds r m.outputDim n S) (ho : order.Perm (List.range n)) :
    ∃ R Y, OnDevice.inverse m c x1 r order = .ok R ∧ Holds R m.outputDim n (ofCols Y) ∧ NoOverlap R ∧
      ∀ j, j < n → Solves m c ((col k M j).take (m.inputDim - m.outputDim)) (col m.outputDim S j) (Y j) := by
  have hy : ∀ j, ∃ y, Solves m c ((col k M j).take (m.inputDim - m.outputDim)) (col m.outputDim S j) y ∧
      ∀ old : List ℝ, old.length = m.outputDim → m.inv c (col k M j) (col m.outputDim S j) old = .ok y := by
    intro j
    have key := h c (col k M j) (col m.outputDim S j) hc (by simp) (by simp)
    obtain ⟨y, -, k2, k3, k4⟩ := key (zeros m.outputDim) (by simp [zeros])
    refine ⟨y, ⟨k2, k3, k4⟩, fun old hold => ?_⟩
    obtain ⟨y', l1, l2, l3, -⟩ := key old hold
    rw [l1, k4 y' l2 l3]
  choose Y hY using hy
  obtain ⟨out, h1, h2, h3⟩ := onNewDevice (f := m.inv c) hM hS (rows := m.outputDim) (g := Y) (fun j _ => ⟨(hY j).1.1, (hY j).2⟩) ho
  refine ⟨_, Y, ?_, h2, h3, fun j _ => (hY j).1⟩
  rw [OnDevice.inverse, if_neg (by simp [hM.cols_eq, hS.cols_eq]), hS.cols_eq]
  simp only
  rw [h1, Res.bind_ok]

/-- **C88.** `LogDeterminantCoeffGrad` of a map on the device for points on the device. -/
theorem C88_ldCoeffGrad {pts : Mat .device} (h : DifferentiatesLogDet m) (hn : m.numCoeffs ≠ 0) (hc : c.length = m.numCoeffs)
    (hM : Holds pts m.inputDim n M) (ho : order.Perm (List.range n)) :
    ∃ R, OnDevice.ldCoeffGrad m c pts order = .ok R ∧ Holds R m.numCoeffs n (ofCols fun j => ldCoeffGrad m c (col m.inputDim M j)) ∧ NoOverlap R := by
  obtain ⟨out, h1, h2, h3⟩ := onNewDevice (f := fun pt _ old => m.ldCoeffGrad c pt old) hM hM (rows := m.numCoeffs)
    (g := fun j => ldCoeffGrad m c (col m.inputDim M j))
    (fun j _ => by
      obtain ⟨-, k2, k3⟩ := h c (col m.inputDim M j) ⟨hc, by simp⟩
      exact ⟨k3.1, k2 hn⟩) ho
  exact ⟨_, by rw [OnDevice.ldCoeffGrad, onColumns_eq, hM.cols_eq, h1, Res.bind_ok], h2, h3⟩

/-- **C88.** `LogDeterminantInputGrad` of a map on the device for points on the device. -/
theorem C88_ldInputGrad {pts : Mat .device} (h : DifferentiatesLogDet m) (hc : c.length = m.numCoeffs)
    (hM : Holds pts m.inputDim n M) (ho : order.Perm (List.range n)) :
    ∃ R, OnDevice.ldInputGrad m c pts order = .ok R ∧ Holds R m.inputDim n (ofCols fun j => ldInputGrad m c (col m.inputDim M j)) ∧ NoOverlap R := by
  obtain ⟨out, h1, h2, h3⟩ := onNewDevice (f := fun pt _ old => m.ldInputGrad c pt old) hM hM (rows := m.inputDim)
    (g := fun j => ldInputGrad m c (col m.inputDim M j))
    (fun j _ => by
      obtain ⟨k1, -, k3⟩ := h c (col m.inputDim M j) ⟨hc, by simp⟩
      exact ⟨k3.2.1, k1⟩) ho
  exact ⟨_, by rw [OnDevice.ldInputGrad, onColumns_eq, hM.cols_eq, hM.rows_eq, h1, Res.bind_ok], h2, h3⟩

/-! ### Maps on the device, points on the host -/

/-- **C88.** The overloads of a map on the device for one array on the host: the values are those at the columns of the array. -/
theorem C88_hostPoints {pts : Mat .host} (hc : c.length = m.numCoeffs) (hM : Holds pts m.inputDim n M) (hu : UnitStride pts)
    (ho : order.Perm (List.range n)) :
    (Evaluates m → ∃ R, OnDevice.evaluateHost m c pts order = .ok R ∧ Holds R m.outputDim n (ofCols fun j => fn m c (col m.inputDim M j))) ∧
    (HasLogDet m → ∃ R, OnDevice.logDetHost m c pts order = .ok R ∧ Holds R 1 n (ofCols fun j => [logdet m c (col m.inputDim M j)])) ∧
    (DifferentiatesLogDet m → (m.numCoeffs ≠ 0 →
      ∃ R, OnDevice.ldCoeffGradHost m c pts order = .ok R ∧ Holds R m.numCoeffs n (ofCols fun j => ldCoeffGrad m c (col m.inputDim M j))) ∧
      ∃ R, OnDevice.ldInputGradHost m c pts order = .ok R ∧ Holds R m.inputDim n (ofCols fun j => ldInputGrad m c (col m.inputDim M j))) := by
  obtain ⟨P, e, hP, -⟩ := (C88_toDevice hM).1 hu
  refine ⟨fun h => ?_, fun h => ?_, fun h => ⟨fun hn => ?_, ?_⟩⟩
  · obtain ⟨R, e1, h1, h2⟩ := C88_evaluate h hc hP ho
    obtain ⟨B, e2, h3, -⟩ := C88_toHost h1 h2
    exact ⟨B, by rw [OnDevice.evaluateHost, e, Res.bind_ok, e1, Res.bind_ok, e2], h3⟩
  · obtain ⟨R, e1, h1⟩ := C88_logDet h hc hP ho
    obtain ⟨B, e2, h3, -⟩ := toHost1_ok h1
    exact ⟨B, by rw [OnDevice.logDetHost, e, Res.bind_ok, e1, Res.bind_ok, e2], h3⟩
  · obtain ⟨R, e1, h1, h2⟩ := C88_ldCoeffGrad h hn hc hP ho
    obtain ⟨B, e2, h3, -⟩ := C88_toHost h1 h2
    exact ⟨B, by rw [OnDevice.ldCoeffGradHost, e, Res.bind_ok, e1, Res.bind_ok, e2], h3⟩
  · obtain ⟨R, e1, h1, h2⟩ := C88_ldInputGrad h hc hP ho
    obtain ⟨B, e2, h3, -⟩ := C88_toHost h1 h2
    exact ⟨B, by rw [OnDevice.ldInputGradHost, e, Res.bind_ok, e1, Res.bind_ok, e2], h3⟩

/-- **C88.** The overloads with sensitivities of a map on the device for arrays on the host; `Gradient` for maps with as many outputs as inputs. -/
theorem C88_hostSens_partial {pts sens : Mat .host} (h : Differentiates m) (hc : c.length = m.numCoeffs) (hM : Holds pts m.inputDim n M)
    (hS : Holds sens m.outputDim n S) (hu : UnitStride pts) (hv : UnitStride sens) (ho : order.Perm (List.range n)) :
    (m.inputDim = m.outputDim → ∃ R, OnDevice.gradientHost m c pts sens order = .ok R ∧
      Holds R m.inputDim n (ofCols fun j => grad m c (col m.inputDim M j) (col m.outputDim S j))) ∧
    (m.numCoeffs ≠ 0 → ∃ R, OnDevice.coeffGradHost m c pts sens order = .ok R ∧
      Holds R m.numCoeffs n (ofCols fun j => coeffGrad m c (col m.inputDim M j) (col m.outputDim S j))) := by
  obtain ⟨P, e, hP, -⟩ := (C88_toDevice hM).1 hu
  obtain ⟨Q, e', hQ, -⟩ := (C88_toDevice hS).1 hv
  refine ⟨fun hio => ?_, fun hn => ?_⟩
  · obtain ⟨R, e1, h1, h2⟩ := C88_gradient_partial h hio hc hP hQ ho
    obtain ⟨B, e2, h3, -⟩ := C88_toHost h1 h2
    exact ⟨B, by rw [OnDevice.gradientHost, e, Res.bind_ok, e', Res.bind_ok, e1, Res.bind_ok, e2], h3⟩
  · obtain ⟨R, e1, h1, h2⟩ := C88_coeffGrad h hn hc hP hQ ho
    obtain ⟨B, e2, h3, -⟩ := C88_toHost h1 h2
    exact ⟨B, by rw [OnDevice.coeffGradHost, e, Res.bind_ok, e', Res.bind_ok, e1, Res.bind_ok, e2], h3⟩

/-- **C88.** `Inverse` of a map on the device for arrays on the host. -/
theorem C88_hostInverse {k : Nat} {x1 r : Mat .host} (h : InvertsFrom m k) (hc : c.length = m.numCoeffs) (hM : Holds x1 k n M)
    (hS : Holds r m.outputDim n S) (hu : UnitStride x1) (hv : UnitStride r) (ho : order.Perm (List.range n)) :
    ∃ R Y, OnDevice.inverseHost m c x1 r order = .ok R ∧ Holds R m.outputDim n (ofCols Y) ∧
      ∀ j, j < n → Solves m c ((col k M j).take (m.inputDim - m.outputDim)) (col m.outputDim S j) (Y j) := by
  obtain ⟨P, e, hP, -⟩ := (C88_toDevice hM).1 hu
  obtain ⟨Q, e', hQ, -⟩ := (C88_toDevice hS).1 hv
  obtain ⟨R, Y, e1, h1, h2, h3⟩ := C88_inverse h hc hP hQ ho
  obtain ⟨B, e2, h4, -⟩ := C88_toHost h1 h2
  exact ⟨B, Y, by rw [OnDevice.inverseHost, e, Res.bind_ok, e', Res.bind_ok, e1, Res.bind_ok, e2], h4, h3⟩

/-! ### Maps on the device, Eigen matrices -/

theorem eigenToDevice_ok {mem : List ℝ} {pts : EigenMat} (hp : Contiguous pts) (hM : Stores mem pts M) :
    ∃ B, OnDevice.eigenToDevice mem pts = .ok B ∧ Holds B pts.rows pts.cols M := by
  obtain ⟨B, e, hB, -⟩ := (C88_toDevice (A := ⟨mem, constRowMatToKokkos pts⟩) (rows := pts.rows) (cols := pts.cols) (M := M)
    ⟨rfl, rfl, fun i j hi hj => hp.stores hM i j hi hj⟩).1 (Or.inr rfl)
  exact ⟨B, e, hB⟩

theorem returnedHost_ok {A : Mat .device} {rows cols : Nat} {F : Nat → List ℝ} (h : Holds A rows cols (ofCols F)) (hn : NoOverlap A) :
    ∃ R, OnDevice.returnedHost A = .ok R ∧ HasColumns R rows cols F := by
  obtain ⟨B, e, hB, -⟩ := C88_toHost h hn
  obtain ⟨f1, f2⟩ := flatRows rows cols (ofCols F) 0
  refine ⟨⟨rows, cols, (List.range' 0 rows).flatMap fun k => (List.range cols).map (ofCols F k)⟩, ?_, rfl, rfl, f1,
    fun i j hi hj => by have := f2 i j hi hj; rwa [Nat.zero_add] at this⟩
  have hr := hB.rows_eq
  have hc := hB.cols_eq
  have hm : kokkosToMat .stride B.view = .ok ⟨true, B.view.data, B.view.ext0, B.view.ext1, B.view.str0, B.view.str1⟩ := rfl
  rw [OnDevice.returnedHost, e, Res.bind_ok, hm, Res.bind_ok]
  simp only [hr, hc]
  rw [copyRows_ok (M := ofCols F) rows 0 (fun k j _ h2 h3 => ?_), Res.bind_ok]
  simpa [EigenMat.addr, View2.addr] using hB.entry k j (by omega) h3

/-- **C88.** The overloads of a map on the device for one Eigen matrix with contiguous memory. -/
theorem C88_eigenPoints_partial {mem : List ℝ} {pts : EigenMat} (hc : c.length = m.numCoeffs) (hr : pts.rows = m.inputDim) (hp : Contiguous pts)
    (hM : Stores mem pts M) (ho : order.Perm (List.range pts.cols)) :
    (Evaluates m → ∃ R, OnDevice.evaluateEigen m c mem pts order = .ok R ∧ HasColumns R m.outputDim pts.cols fun j => fn m c (col m.inputDim M j)) ∧
    (HasLogDet m → OnDevice.logDetEigen m c mem pts order = .ok ((List.range pts.cols).map fun j => logdet m c (col m.inputDim M j))) ∧
    (DifferentiatesLogDet m → (m.numCoeffs ≠ 0 →
      ∃ R, OnDevice.ldCoeffGradEigen m c mem pts order = .ok R ∧ HasColumns R m.numCoeffs pts.cols fun j => ldCoeffGrad m c (col m.inputDim M j)) ∧
      ∃ R, OnDevice.ldInputGradEigen m c mem pts order = .ok R ∧ HasColumns R m.inputDim pts.cols fun j => ldInputGrad m c (col m.inputDim M j)) := by
  obtain ⟨P, e, hP⟩ := eigenToDevice_ok hp hM
  rw [hr] at hP
  refine ⟨fun h => ?_, fun h => ?_, fun h => ⟨fun hn => ?_, ?_⟩⟩
  · obtain ⟨R, e1, h1, h2⟩ := C88_evaluate h hc hP ho
    obtain ⟨B, e2, h3⟩ := returnedHost_ok h1 h2
    exact ⟨B, by rw [OnDevice.evaluateEigen, e, Res.bind_ok, e1, Res.bind_ok, e2], h3⟩
  · obtain ⟨R, e1, h1⟩ := C88_logDet h hc hP ho
    obtain ⟨B, e2, h3, rfl⟩ := toHost1_ok h1
    rw [OnDevice.logDetEigen, e, Res.bind_ok, e1, Res.bind_ok, e2, Res.bind_ok]
    simp only [layoutRight, kokkosToVec]
    rw [readFrom_ok (g := fun j => logdet m c (col m.inputDim M j)) _ 0 (fun k _ hk => ?_), List.range_eq_range']
    · simp
    have hk' : k < pts.cols := by simpa using hk
    simp [EigenVec.addr, hk', ofCols]
  · obtain ⟨R, e1, h1, h2⟩ := C88_ldCoeffGrad h hn hc hP ho
    obtain ⟨B, e2, h3⟩ := returnedHost_ok h1 h2
    exact ⟨B, by rw [OnDevice.ldCoeffGradEigen, e, Res.bind_ok, e1, Res.bind_ok, e2], h3⟩
  · obtain ⟨R, e1, h1, h2⟩ := C88_ldInputGrad h hc hP ho
    obtain ⟨B, e2, h3⟩ := returnedHost_ok h1 h2
    exact ⟨B, by rw [OnDevice.ldInputGradEigen, e, Res.bind_ok, e1, Res.bind_ok, e2], h3⟩

/-- **C88.** The overloads of a map on the device for two Eigen matrices with contiguous memory; `Gradient` for maps with as many outputs as inputs. -/
theorem C88_eigenSens_partial {mem mem2 : List ℝ} {pts sens : EigenMat} (hc : c.length = m.numCoeffs) (hcols : sens.cols = pts.cols)
    (hs : sens.rows = m.outputDim) (hp : Contiguous pts) (hq : Contiguous sens) (hM : Stores mem pts M) (hS : Stores mem2 sens S)
    (ho : order.Perm (List.range pts.cols)) :
    (pts.rows = m.inputDim → Differentiates m → (m.inputDim = m.outputDim → ∃ R, OnDevice.gradientEigen m c mem pts mem2 sens order = .ok R ∧
        HasColumns R m.inputDim pts.cols fun j => grad m c (col m.inputDim M j) (col m.outputDim S j)) ∧
      (m.numCoeffs ≠ 0 → ∃ R, OnDevice.coeffGradEigen m c mem pts mem2 sens order = .ok R ∧
        HasColumns R m.numCoeffs pts.cols fun j => coeffGrad m c (col m.inputDim M j) (col m.outputDim S j))) ∧
    (InvertsFrom m pts.rows → ∃ R Y, OnDevice.inverseEigen m c mem pts mem2 sens order = .ok R ∧ HasColumns R m.outputDim pts.cols Y ∧
      ∀ j, j < pts.cols → Solves m c ((col pts.rows M j).take (m.inputDim - m.outputDim)) (col m.outputDim S j) (Y j)) := by
  obtain ⟨P, e, hP⟩ := eigenToDevice_ok hp hM
  obtain ⟨Q, e', hQ⟩ := eigenToDevice_ok hq hS
  rw [hs, hcols] at hQ
  refine ⟨fun hr h => ⟨fun hio => ?_, fun hn => ?_⟩, fun h => ?_⟩
  · rw [hr] at hP
    obtain ⟨R, e1, h1, h2⟩ := C88_gradient_partial h hio hc hP hQ ho
    obtain ⟨B, e2, h3⟩ := returnedHost_ok h1 h2
    exact ⟨B, by rw [OnDevice.gradientEigen, e, Res.bind_ok, e', Res.bind_ok, e1, Res.bind_ok, e2], h3⟩
  · rw [hr] at hP
    obtain ⟨R, e1, h1, h2⟩ := C88_coeffGrad h hn hc hP hQ ho
    obtain ⟨B, e2, h3⟩ := returnedHost_ok h1 h2
    exact ⟨B, by rw [OnDevice.coeffGradEigen, e, Res.bind_ok, e', Res.bind_ok, e1, Res.bind_ok, e2], h3⟩
  · obtain ⟨R, Y, e1, h1, h2, h3⟩ := C88_inverse h hc hP hQ ho
    obtain ⟨B, e2, h4⟩ := returnedHost_ok h1 h2
    exact ⟨B, Y, by rw [OnDevice.inverseEigen, e, Res.bind_ok, e', Res.bind_ok, e1, Res.bind_ok, e2], h4, h3⟩

/-! ### Maps on the host, points on the device -/

/-- **C88.** The overloads of a map on the host for one array on the device. -/
theorem C88_devicePoints {pts : Mat .device} (hc : c.length = m.numCoeffs) (hM : Holds pts m.inputDim n M) (hno : NoOverlap pts)
    (ho : order.Perm (List.range n)) :
    (Evaluates m → ∃ R, OnHost.evaluate m c pts order = .ok R ∧ Holds R m.outputDim n (ofCols fun j => fn m c (col m.inputDim M j))) ∧
    (HasLogDet m → ∃ R, OnHost.logDet m c pts order = .ok R ∧ Holds R 1 n (ofCols fun j => [logdet m c (col m.inputDim M j)])) ∧
    (DifferentiatesLogDet m → (m.numCoeffs ≠ 0 →
      ∃ R, OnHost.ldCoeffGrad m c pts order = .ok R ∧ Holds R m.numCoeffs n (ofCols fun j => ldCoeffGrad m c (col m.inputDim M j))) ∧
      ∃ R, OnHost.ldInputGrad m c pts order = .ok R ∧ Holds R m.inputDim n (ofCols fun j => ldInputGrad m c (col m.inputDim M j))) := by
  obtain ⟨P, e, hP, -⟩ := C88_toHost hM hno
  have ho' : order.Perm (List.range P.view.ext1) := by rw [hP.cols_eq]; exact ho
  have hr := hP.rows_eq
  refine ⟨fun h => ?_, fun h => ?_, fun h => ⟨fun hn => ?_, ?_⟩⟩
  · obtain ⟨R, e1, h1⟩ := C66_evaluateView h hc hr hP.stores ho'
    rw [hr, hP.cols_eq] at h1
    obtain ⟨B, e2, h3⟩ := toDevice_gives h1
    exact ⟨B, by rw [OnHost.evaluate, e, Res.bind_ok, e1, Res.bind_ok, e2], h3⟩
  · obtain ⟨R, e1, h1⟩ := C66_logDetView h hc hr hP.stores ho'
    rw [hr, hP.cols_eq] at h1
    obtain ⟨B, e2, h3⟩ := toDevice1_ok (gives_holds h1).1
    exact ⟨B, by rw [OnHost.logDet, e, Res.bind_ok, e1, Res.bind_ok, e2], h3⟩
  · obtain ⟨R, e1, h1⟩ := C66_ldCoeffGradView h hn hc hr hP.stores ho'
    rw [hr, hP.cols_eq] at h1
    obtain ⟨B, e2, h3⟩ := toDevice_gives h1
    exact ⟨B, by rw [OnHost.ldCoeffGrad, e, Res.bind_ok, e1, Res.bind_ok, e2], h3⟩
  · obtain ⟨R, e1, h1⟩ := C66_ldInputGradView h hc hr hP.stores ho'
    rw [hr, hP.cols_eq] at h1
    obtain ⟨B, e2, h3⟩ := toDevice_gives h1
    exact ⟨B, by rw [OnHost.ldInputGrad, e, Res.bind_ok, e1, Res.bind_ok, e2], h3⟩

/-- **C88.** The overloads with sensitivities of a map on the host for arrays on the device. -/
theorem C88_deviceSens {pts sens : Mat .device} (h : Differentiates m) (hc : c.length = m.numCoeffs) (hM : Holds pts m.inputDim n M)
    (hS : Holds sens m.outputDim n S) (hno : NoOverlap pts) (hno' : NoOverlap sens) (ho : order.Perm (List.range n)) :
    (∃ R, OnHost.gradient m c pts sens order = .ok R ∧
      Holds R m.inputDim n (ofCols fun j => grad m c (col m.inputDim M j) (col m.outputDim S j))) ∧
    (m.numCoeffs ≠ 0 → ∃ R, OnHost.coeffGrad m c pts sens order = .ok R ∧
      Holds R m.numCoeffs n (ofCols fun j => coeffGrad m c (col m.inputDim M j) (col m.outputDim S j))) := by
  obtain ⟨P, e, hP, -⟩ := C88_toHost hM hno
  obtain ⟨Q, e', hQ, -⟩ := C88_toHost hS hno'
  have ho' : order.Perm (List.range P.view.ext1) := by rw [hP.cols_eq]; exact ho
  refine ⟨?_, fun hn => ?_⟩
  · obtain ⟨R, e1, h1⟩ := C66_gradientView h hc hP.rows_eq hQ.rows_eq (by rw [hP.cols_eq, hQ.cols_eq]) hP.stores hQ.stores ho'
    rw [hP.rows_eq, hQ.rows_eq, hP.cols_eq] at h1
    obtain ⟨B, e2, h3⟩ := toDevice_gives h1
    exact ⟨B, by rw [OnHost.gradient, e, Res.bind_ok, e', Res.bind_ok, e1, Res.bind_ok, e2], h3⟩
  · obtain ⟨R, e1, h1⟩ := C66_coeffGradView h hn hc hP.rows_eq hQ.rows_eq (by rw [hP.cols_eq, hQ.cols_eq]) hP.stores hQ.stores ho'
    rw [hP.rows_eq, hQ.rows_eq, hP.cols_eq] at h1
    obtain ⟨B, e2, h3⟩ := toDevice_gives h1
    exact ⟨B, by rw [OnHost.coeffGrad, e, Res.bind_ok, e', Res.bind_ok, e1, Res.bind_ok, e2], h3⟩

end

/-- **C88.** `Inverse` rejects matrices with different numbers of points: a map on the device throws for arrays on the device, and for arrays on the host
that can be copied to it. -/
theorem C88_inverse_rejects (m : CMap) (c : List ℝ) (order : List Nat) :
    (∀ x1 r : Mat .device, x1.view.ext1 ≠ r.view.ext1 → OnDevice.inverse m c x1 r order = .throw) ∧
    (∀ (x1 r : Mat .host) (k l n n' : Nat) (M N : Nat → Nat → ℝ), Holds x1 k n M → Holds r l n' N → UnitStride x1 → UnitStride r → n ≠ n' →
      OnDevice.inverseHost m c x1 r order = .throw) := by
  have key : ∀ x1 r : Mat .device, x1.view.ext1 ≠ r.view.ext1 → OnDevice.inverse m c x1 r order = .throw := fun x1 r h => by
    rw [OnDevice.inverse, if_pos h]
  refine ⟨key, fun x1 r k l n n' M N h1 h2 u1 u2 hn => ?_⟩
  obtain ⟨A, e1, g1, -⟩ := (C88_toDevice h1).1 u1
  obtain ⟨B, e2, g2, -⟩ := (C88_toDevice h2).1 u2
  rw [OnDevice.inverseHost, e1, Res.bind_ok, e2, Res.bind_ok, key A B (by rw [g1.cols_eq, g2.cols_eq]; exact hn)]
  rfl

/-- Non-vacuity: three points against two. -/
example : OnDevice.inverse (IdentityMap.obj 2 1) [] ⟨[1, 2, 3], layoutLeft 0 1 3⟩ ⟨[1, 2], layoutLeft 0 1 2⟩ [0, 1] = .throw :=
  (C88_inverse_rejects _ _ _).1 _ _ (by decide)

/-- **C88 fails for `Inverse`.** Whatever a map on the host returns for `Inverse` of arrays on the device has one row for each coefficient, not one for each
output: it is the result of `CoeffGrad`. -/
theorem C88_fails_inverse (m : CMap) (c : List ℝ) (x1 r : Mat .device) (order : List Nat) (R : Mat .device) :
    OnHost.inverse m c x1 r order = .ok R → OnHost.coeffGrad m c x1 r order = .ok R ∧ R.view.ext0 = m.numCoeffs := by
  intro h
  refine ⟨h, ?_⟩
  rw [OnHost.inverse] at h
  simp only [Res.bind_eq_ok] at h
  obtain ⟨a, -, b, -, e, h1, h2⟩ := h
  rw [coeffGradView] at h1
  simp only [Res.bind_eq_ok] at h1
  obtain ⟨out, -, h3⟩ := h1
  obtain rfl : _ = e := by simpa using h3
  rw [toDevice] at h2
  split at h2
  · simp only [Res.bind_eq_ok] at h2
    obtain ⟨o, -, h4⟩ := h2
    obtain rfl : _ = R := by simpa using h4
    rfl
  · split at h2
    · simp only [Res.bind_eq_ok] at h2
      obtain ⟨o, -, h4⟩ := h2
      obtain rfl : _ = R := by simpa using h4
      rfl
    · simp at h2

/-! ### Cases -/

/-- The matrix `1 2 3; 4 5 6` in device memory, column after column. -/
private def dev23 : Mat .device := ⟨[1, 4, 2, 5, 3, 6], layoutLeft 0 2 3⟩
private def ent23 (i j : Nat) : ℝ := (([1, 2, 3, 4, 5, 6] : List ℝ)).getD (3 * i + j) 0

private theorem dev23_holds : Holds dev23 2 3 ent23 :=
  ⟨rfl, rfl, fun i j hi hj => by interval_cases i <;> interval_cases j <;> rfl⟩

private theorem dev23_noOverlap : NoOverlap dev23 := (separate_layoutLeft 2 3).inj

/-- The first row only, with the stride of the whole matrix. -/
private def dev13 : Mat .device := ⟨[1, 4, 2, 5, 3, 6], ⟨0, 1, 3, 1, 2⟩⟩

private theorem dev13_holds : Holds dev13 1 3 ent23 :=
  ⟨rfl, rfl, fun i j hi hj => by interval_cases i; interval_cases j <;> rfl⟩

private theorem dev13_noOverlap : NoOverlap dev13 := by
  intro i j i' j' hi hj hi' hj' h
  simp only [dev13, View2.addr] at *
  omega

/-- Non-vacuity: the identity on the last of two inputs, on the host, for points on the device. -/
example : ∃ R, OnHost.evaluate (IdentityMap.obj 2 1) [] dev23 [2, 0, 1] = .ok R ∧ Holds R 1 3 (ofCols fun j => [ent23 1 j]) := by
  obtain ⟨R, h1, h2⟩ := (C88_devicePoints (m := IdentityMap.obj 2 1) (c := []) rfl dev23_holds dev23_noOverlap (order := [2, 0, 1]) (by decide)).1
    (C48_identity_evaluate (by omega)).1
  refine ⟨R, h1, h2.rows_eq, h2.cols_eq, fun i j hi hj => ?_⟩
  rw [h2.entry i j hi hj]
  have : fn (IdentityMap.obj 2 1) [] (col 2 ent23 j) = [ent23 1 j] := by
    rw [identity_fn (k := 1) (by omega) (col_length 2 _ _)]
    rfl
  exact congrArg some (congrArg (fun l : List ℝ => l.getD i 0) this)

/-- Non-vacuity: the same map on the device. -/
example : ∃ R, OnDevice.evaluate (IdentityMap.obj 2 1) [] dev23 [2, 0, 1] = .ok R ∧ R.view.ext0 = 1 ∧ R.view.ext1 = 3 := by
  obtain ⟨R, h1, h2, -⟩ := C88_evaluate (m := IdentityMap.obj 2 1) (c := []) (C48_identity_evaluate (by omega)).1 rfl dev23_holds
    (order := [2, 0, 1]) (by decide)
  exact ⟨R, h1, h2.rows_eq, h2.cols_eq⟩

/-- An instance of the failure of `Inverse`: the map is invertible, its arguments are valid, and no call returns a matrix with the right number of rows. -/
example : InvertsFrom (IdentityMap.obj 2 1) 1 ∧ Holds dev13 1 3 ent23 ∧ NoOverlap dev13 ∧
    ∀ order R, OnHost.inverse (IdentityMap.obj 2 1) [] dev13 dev13 order = .ok R → R.view.ext0 ≠ (IdentityMap.obj 2 1).outputDim :=
  ⟨C48_identity_inverse (by omega) (by omega), dev13_holds, dev13_noOverlap, fun order R h => by
    rw [(C88_fails_inverse _ _ _ _ _ _ h).2]; decide⟩

/-- An instance of the failure of `Gradient`. -/
example : Differentiates (IdentityMap.obj 2 1) ∧ (IdentityMap.obj 2 1).inputDim ≠ (IdentityMap.obj 2 1).outputDim :=
  ⟨(C48_identity_gradient (by omega)).1, by decide⟩

end MParT
