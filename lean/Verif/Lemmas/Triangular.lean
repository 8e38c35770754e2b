import Verif.Lemmas.Maps
/-! The loops of `TriangularMap` for gradients, log-determinants and inverses. -/
namespace MParT
open Spec

theorem zipWith_add_assoc {a b d : List ℝ} :
    List.zipWith (· + ·) (List.zipWith (· + ·) a b) d = List.zipWith (· + ·) a (List.zipWith (· + ·) b d) := by
  induction a generalizing b d with
  | nil => simp
  | cons x a ih =>
    cases b with
    | nil => simp
    | cons y b =>
      cases d with
      | nil => simp
      | cons z d => simp [ih, add_assoc]

theorem zipWith_zeros_right {a : List ℝ} {n : Nat} (h : n = a.length) : List.zipWith (· + ·) a (zeros n) = a := by
  subst h
  induction a with
  | nil => simp
  | cons x a ih => simpa [zeros, List.replicate_succ] using ih

/-- Adding the first `n` rows is adding the vector extended by zeros. -/
theorem addRows_pad {out v : List ℝ} (h : v.length ≤ out.length) :
    addRows out v 0 v.length = .ok (List.zipWith (· + ·) out (v ++ zeros (out.length - v.length))) := by
  rw [addRows_eq v _ 0 out (by omega) (by omega)]
  congr 1
  conv_rhs => rw [← List.take_append_drop v.length out]
  rw [List.zipWith_append (by simp [h]), zipWith_zeros_right (by simp)]
  simp

/-- Sum over the components of their gradients, extended by zeros to all inputs. -/
def gradSum (G : CMap → List ℝ → List ℝ → List ℝ → List ℝ) : List CMap → (c x s : List ℝ) → List ℝ
  | [], _, x, _ => zeros x.length
  | m :: ms, c, x, s => List.zipWith (· + ·)
      (G m (c.take m.numCoeffs) (x.take m.inputDim) (s.take m.outputDim) ++ zeros (x.length - m.inputDim))
      (gradSum G ms (c.drop m.numCoeffs) x (s.drop m.outputDim))

/-- The coefficient gradients of the components one below the other. -/
def gradStack (G : CMap → List ℝ → List ℝ → List ℝ → List ℝ) : List CMap → (c x s : List ℝ) → List ℝ
  | [], _, _, _ => []
  | m :: ms, c, x, s => G m (c.take m.numCoeffs) (x.take m.inputDim) (s.take m.outputDim)
      ++ gradStack G ms (c.drop m.numCoeffs) x (s.drop m.outputDim)

/-- `G m` gives, for every argument of the right size, the gradient (coefficients, inputs) of `f m s`. -/
def Grads (G : CMap → List ℝ → List ℝ → List ℝ → List ℝ) (H : CMap → List ℝ → List ℝ → List ℝ → List ℝ)
    (f : CMap → List ℝ → List ℝ → List ℝ → ℝ) (m : CMap) : Prop :=
  ∀ c x s, Fits m c x → s.length = m.outputDim →
    IsGradient m.numCoeffs m.inputDim (fun c x => f m s c x) c x (G m c x s) (H m c x s)

/-- Sum over the components. -/
def scalarSum (f : CMap → List ℝ → List ℝ → List ℝ → ℝ) : List CMap → (s c x : List ℝ) → ℝ
  | [], _, _, _ => 0
  | m :: ms, s, c, x => f m (s.take m.outputDim) (c.take m.numCoeffs) (x.take m.inputDim)
      + scalarSum f ms (s.drop m.outputDim) (c.drop m.numCoeffs) x

theorem gradSum_length {G H : CMap → List ℝ → List ℝ → List ℝ → List ℝ} {f} {ms : List CMap} {c x s : List ℝ}
    (h : ∀ m ∈ ms, Grads G H f m) (hin : ∀ m ∈ ms, m.inputDim ≤ x.length)
    (hc : c.length = (ms.map CMap.numCoeffs).sum) (hs : s.length = (ms.map CMap.outputDim).sum) :
    (gradSum H ms c x s).length = x.length := by
  induction ms generalizing c s with
  | nil => simp [gradSum]
  | cons m ms ih =>
    simp only [List.map_cons, List.sum_cons] at hc hs
    have h1 := (h m (by simp) (c.take m.numCoeffs) (x.take m.inputDim) (s.take m.outputDim)
      ⟨by simp [hc], by simp [hin m]⟩ (by simp [hs])).2.1
    have := hin m (by simp)
    rw [gradSum, List.length_zipWith, List.length_append, h1, zeros_length,
      ih (fun m' h' => h m' (by simp [h'])) (fun m' h' => hin m' (by simp [h'])) (by simp [hc]) (by simp [hs])]
    omega

theorem gradStack_length {G H : CMap → List ℝ → List ℝ → List ℝ → List ℝ} {f} {ms : List CMap} {c x s : List ℝ}
    (h : ∀ m ∈ ms, Grads G H f m) (hin : ∀ m ∈ ms, m.inputDim ≤ x.length)
    (hc : c.length = (ms.map CMap.numCoeffs).sum) (hs : s.length = (ms.map CMap.outputDim).sum) :
    (gradStack G ms c x s).length = (ms.map CMap.numCoeffs).sum := by
  induction ms generalizing c s with
  | nil => simp [gradStack]
  | cons m ms ih =>
    simp only [List.map_cons, List.sum_cons] at hc hs
    have h1 := (h m (by simp) (c.take m.numCoeffs) (x.take m.inputDim) (s.take m.outputDim)
      ⟨by simp [hc], by simp [hin m]⟩ (by simp [hs])).1
    rw [gradStack, List.length_append, h1,
      ih (fun m' h' => h m' (by simp [h'])) (fun m' h' => hin m' (by simp [h'])) (by simp [hc]) (by simp [hs])]
    simp

/-- The sums and stacks of the gradients of the components are the gradient of the sum. -/
theorem grads_sum {G H : CMap → List ℝ → List ℝ → List ℝ → List ℝ} {f} (ms : List CMap) :
    ∀ {c x s : List ℝ}, (∀ m ∈ ms, Grads G H f m) → (∀ m ∈ ms, m.inputDim ≤ x.length) →
    c.length = (ms.map CMap.numCoeffs).sum → s.length = (ms.map CMap.outputDim).sum →
    IsGradient (ms.map CMap.numCoeffs).sum x.length (fun c x => scalarSum f ms s c x) c x
      (gradStack G ms c x s) (gradSum H ms c x s) := by
  intro c x s h hin hc hs
  refine ⟨gradStack_length h hin hc hs, gradSum_length h hin hc hs, ?_⟩
  induction ms generalizing c s with
  | nil =>
    intro γ δ vc vx t₀ _ _ _ _
    simp only [scalarSum, gradStack, gradSum, dot_nil_left, dot_zeros, add_zero]
    exact hasDerivAt_const _ _
  | cons m ms ih =>
    intro γ δ vc vx t₀ hγ hδ hγc hδx
    simp only [List.map_cons, List.sum_cons] at hc hs hγ
    have hle := hin m (by simp)
    have hfit : Fits m (c.take m.numCoeffs) (x.take m.inputDim) := ⟨by simp [hc], by simp [hle]⟩
    have hm := h m (by simp) (c.take m.numCoeffs) (x.take m.inputDim) (s.take m.outputDim) hfit (by simp [hs])
    have h1 := hm.2.2 (fun t => (γ t).take m.numCoeffs) (fun t => (δ t).take m.inputDim) (vc.take m.numCoeffs)
      (vx.take m.inputDim) t₀ (hγ.take (by omega)) (hδ.take hle) (by simp only [hγc]) (by simp only [hδx])
    have h2 := ih (c := c.drop m.numCoeffs) (s := s.drop m.outputDim) (fun m' h' => h m' (by simp [h']))
      (fun m' h' => hin m' (by simp [h'])) (by simp [hc]) (by simp [hs]) (fun t => (γ t).drop m.numCoeffs) δ
      (vc.drop m.numCoeffs) vx t₀ hγ.drop hδ (by simp only [hγc]) hδx
    refine (h1.add h2).congr_deriv ?_
    have hl := gradSum_length (fun m' h' => h m' (List.mem_cons_of_mem m h'))
      (fun m' h' => hin m' (List.mem_cons_of_mem m h')) (c := c.drop m.numCoeffs) (s := s.drop m.outputDim)
      (by simp [hc]) (by simp [hs])
    rw [gradStack, gradSum, dot_split m.numCoeffs (by rw [hγ.2.1]; omega) hm.1,
      dot_zipWith_add (by rw [hl, List.length_append, hm.2.1, zeros_length]; omega),
      dot_split m.inputDim (by rw [hδ.2.1]; omega) hm.2.1, dot_zeros]
    ring

/-! ### `GradientImpl` and `CoeffGradImpl` -/

theorem grads_of_differentiates {m : CMap} (h : Differentiates m) :
    Grads coeffGrad grad (fun m s c x => dot s (fn m c x)) m := fun c x s hf hs => (h c x s hf hs).2.2

theorem scalarSum_stacked {ms : List CMap} {c x s : List ℝ} (h : ∀ m ∈ ms, Evaluates m)
    (hin : ∀ m ∈ ms, m.inputDim ≤ x.length) (hc : c.length = (ms.map CMap.numCoeffs).sum)
    (hs : s.length = (ms.map CMap.outputDim).sum) :
    scalarSum (fun m s c x => dot s (fn m c x)) ms s c x = dot s (stacked ms c x) := by
  induction ms generalizing c s with
  | nil => simp at hs; simp [scalarSum, stacked, dot]
  | cons m ms ih =>
    simp only [List.map_cons, List.sum_cons] at hc hs
    have hE := (h m (by simp) (c.take m.numCoeffs) (x.take m.inputDim) ⟨by simp [hc], by simp [hin m]⟩).1
    rw [scalarSum, ih (fun m' h' => h m' (by simp [h'])) (fun m' h' => hin m' (by simp [h'])) (by simp [hc])
      (by simp [hs]), stacked]
    conv_rhs => rw [← List.take_append_drop m.outputDim s]
    rw [dot_append (by rw [hE]; simp [hs])]

theorem gradLoop_eq {c pts sens : List ℝ} (ms : List CMap) (h : ∀ m ∈ ms, Differentiates m)
    (hin : ∀ m ∈ ms, m.inputDim ≤ pts.length) : ∀ (s k : Nat) (out : List ℝ),
    c.length = k + (ms.map CMap.numCoeffs).sum → sens.length = s + (ms.map CMap.outputDim).sum →
    out.length = pts.length →
    TriangularMap.gradLoop c pts sens ms s k out
      = .ok (List.zipWith (· + ·) out (gradSum grad ms (c.drop k) pts (sens.drop s))) := by
  induction ms with
  | nil => intro s k out _ _ ho; simp [TriangularMap.gradLoop, gradSum, zipWith_zeros_right ho.symm]
  | cons m ms ih =>
    intro s k out hc hs ho
    simp only [List.map_cons, List.sum_cons] at hc hs
    have hle := hin m (by simp)
    have hfit : Fits m (slice c k m.numCoeffs) (pts.take m.inputDim) := ⟨by simp [slice, hc], by simp [hle]⟩
    have hm := h m (by simp) _ _ ((sens.drop s).take m.outputDim) hfit (by simp [hs])
    have hl := hm.2.2.2.1
    have hz : m.grad (slice c k m.numCoeffs) (pts.take m.inputDim) ((sens.drop s).take m.outputDim)
      (List.replicate m.inputDim 0) = _ := hm.1 _ (by simp)
    have hp := addRows_pad (out := out) (v := grad m (slice c k m.numCoeffs) (pts.take m.inputDim)
      ((sens.drop s).take m.outputDim)) (by omega)
    rw [hl] at hp
    rw [TriangularMap.gradLoop, rows_ok (by simpa using hle), Res.bind_ok, rows_ok (by omega), Res.bind_ok,
      List.drop_zero, hz, Res.bind_ok, hp, Res.bind_ok,
      ih (fun m' h' => h m' (by simp [h'])) (fun m' h' => hin m' (by simp [h'])) _ _ _ (by omega) (by omega)
        (by simp [hl, ho]; omega), zipWith_add_assoc, gradSum, ho]
    simp [slice, List.drop_drop]

theorem coeffGradLoop_eq {c pts sens : List ℝ} (ms : List CMap) (h : ∀ m ∈ ms, Differentiates m)
    (hin : ∀ m ∈ ms, m.inputDim ≤ pts.length) : ∀ (s k : Nat) (out : List ℝ),
    c.length = k + (ms.map CMap.numCoeffs).sum → sens.length = s + (ms.map CMap.outputDim).sum →
    out.length = k + (ms.map CMap.numCoeffs).sum →
    TriangularMap.coeffGradLoop c pts sens ms s k out
      = .ok (out.take k ++ gradStack coeffGrad ms (c.drop k) pts (sens.drop s)) := by
  induction ms with
  | nil => intro s k out _ _ ho; simp at ho; simp [TriangularMap.coeffGradLoop, gradStack, ← ho]
  | cons m ms ih =>
    intro s k out hc hs ho
    simp only [List.map_cons, List.sum_cons] at hc hs ho
    have hle := hin m (by simp)
    have hfit : Fits m (slice c k m.numCoeffs) (pts.take m.inputDim) := ⟨by simp [slice, hc], by simp [hle]⟩
    have hm := h m (by simp) _ _ ((sens.drop s).take m.outputDim) hfit (by simp [hs])
    have hl := hm.2.2.1
    rw [TriangularMap.coeffGradLoop]
    by_cases h0 : m.numCoeffs = 0
    · rw [if_neg (by simp [h0]), ih (fun m' h' => h m' (by simp [h'])) (fun m' h' => hin m' (by simp [h'])) _ _ _
        (by omega) (by omega) (by omega), gradStack]
      have : coeffGrad m ((c.drop k).take m.numCoeffs) (pts.take m.inputDim) ((sens.drop s).take m.outputDim) = [] :=
        List.length_eq_zero_iff.mp (by rw [← h0]; exact hl)
      rw [this, h0]
      simp [List.drop_drop]
    · rw [if_pos h0, rows_ok (by simpa using hle), Res.bind_ok, rows_ok (by omega), Res.bind_ok, List.drop_zero,
        rows_ok (by omega), Res.bind_ok, hm.2.1 h0 _ (rows_length (by omega)), Res.bind_ok,
        ih (fun m' h' => h m' (by simp [h'])) (fun m' h' => hin m' (by simp [h'])) _ _ _ (by omega) (by omega)
          (by rw [putRows_length (by omega) hl]; omega), putRows_take (by omega) hl, gradStack]
      simp [slice, List.drop_drop]

/-! ### Log-determinants -/

theorem logDetLoop_eq {c pts : List ℝ} (ms : List CMap) (h : ∀ m ∈ ms, HasLogDet m)
    (hin : ∀ m ∈ ms, m.inputDim ≤ pts.length) : ∀ (k : Nat) (o : Option ℝ) (v : ℝ),
    c.length = k + (ms.map CMap.numCoeffs).sum →
    TriangularMap.logDetLoop c pts ms k o (some v) = .ok (some (v + stackedLogDet ms (c.drop k) pts)) := by
  induction ms with
  | nil => intro k o v _; simp [TriangularMap.logDetLoop, stackedLogDet]
  | cons m ms ih =>
    intro k o v hc
    simp only [List.map_cons, List.sum_cons] at hc
    have hfit : Fits m (slice c k m.numCoeffs) (pts.take m.inputDim) := ⟨by simp [slice, hc], by simp [hin m]⟩
    rw [TriangularMap.logDetLoop, rows_ok (by simpa using hin m (by simp)), Res.bind_ok, List.drop_zero,
      h m (by simp) _ _ hfit, Res.bind_ok, addLD,
      ih (fun m' h' => h m' (by simp [h'])) (fun m' h' => hin m' (by simp [h'])) _ _ _ (by omega), stackedLogDet]
    simp [slice, List.drop_drop, add_assoc]

theorem logDet_eq {c pts : List ℝ} {ms : List CMap} (hne : ms ≠ []) (h : ∀ m ∈ ms, HasLogDet m)
    (hin : ∀ m ∈ ms, m.inputDim ≤ pts.length) (hc : c.length = (ms.map CMap.numCoeffs).sum) (o : Option ℝ) :
    TriangularMap.logDet ms c pts o = .ok (some (stackedLogDet ms c pts)) := by
  cases ms with
  | nil => simp at hne
  | cons m ms =>
    simp only [List.map_cons, List.sum_cons] at hc
    have hfit : Fits m (slice c 0 m.numCoeffs) (pts.take m.inputDim) := ⟨by simp [slice, hc], by simp [hin m]⟩
    rw [TriangularMap.logDet, rows_ok (by simpa using hin m (by simp)), Res.bind_ok, List.drop_zero,
      h m (by simp) _ _ hfit, Res.bind_ok,
      logDetLoop_eq ms (fun m' h' => h m' (by simp [h'])) (fun m' h' => hin m' (by simp [h'])) _ _ _ hc, stackedLogDet]
    simp [slice]

theorem grads_of_ld {m : CMap} (h : DifferentiatesLogDet m) :
    Grads (fun m c x _ => ldCoeffGrad m c x) (fun m c x _ => ldInputGrad m c x) (fun m _ c x => logdet m c x) m :=
  fun c x _ hf _ => (h c x hf).2.2

theorem scalarSum_logdet (ms : List CMap) (s c x : List ℝ) :
    scalarSum (fun m _ c x => logdet m c x) ms s c x = stackedLogDet ms c x := by
  induction ms generalizing s c with
  | nil => rfl
  | cons m ms ih => rw [scalarSum, ih, stackedLogDet]

theorem ldCoeffGradLoop_eq {c pts : List ℝ} (sens : List ℝ) (ms : List CMap) (h : ∀ m ∈ ms, DifferentiatesLogDet m)
    (hin : ∀ m ∈ ms, m.inputDim ≤ pts.length) : ∀ (k : Nat) (out : List ℝ),
    c.length = k + (ms.map CMap.numCoeffs).sum → out.length = k + (ms.map CMap.numCoeffs).sum →
    TriangularMap.ldCoeffGradLoop c pts ms k out
      = .ok (out.take k ++ gradStack (fun m c x _ => ldCoeffGrad m c x) ms (c.drop k) pts sens) := by
  induction ms generalizing sens with
  | nil => intro k out _ ho; simp at ho; simp [TriangularMap.ldCoeffGradLoop, gradStack, ← ho]
  | cons m ms ih =>
    intro k out hc ho
    simp only [List.map_cons, List.sum_cons] at hc ho
    have hle := hin m (by simp)
    have hfit : Fits m (slice c k m.numCoeffs) (pts.take m.inputDim) := ⟨by simp [slice, hc], by simp [hle]⟩
    have hm := h m (by simp) _ _ hfit
    have hl := hm.2.2.1
    rw [TriangularMap.ldCoeffGradLoop]
    by_cases h0 : m.numCoeffs = 0
    · rw [if_neg (by simp [h0]), ih (sens.drop m.outputDim) (fun m' h' => h m' (by simp [h']))
        (fun m' h' => hin m' (by simp [h'])) _ _ (by omega) (by omega), gradStack]
      have : ldCoeffGrad m ((c.drop k).take m.numCoeffs) (pts.take m.inputDim) = [] :=
        List.length_eq_zero_iff.mp (by rw [← h0]; exact hl)
      rw [this, h0]
      simp
    · rw [if_pos h0, rows_ok (by simpa using hle), Res.bind_ok, List.drop_zero,
        rows_ok (by omega), Res.bind_ok, hm.2.1 h0 _ (rows_length (by omega)), Res.bind_ok,
        ih (sens.drop m.outputDim) (fun m' h' => h m' (by simp [h'])) (fun m' h' => hin m' (by simp [h'])) _ _ (by omega)
          (by rw [putRows_length (by omega) hl]; omega), putRows_take (by omega) hl, gradStack]
      simp [slice, List.drop_drop]

theorem ldInputGradLoop_eq {c pts : List ℝ} (sens : List ℝ) (ms : List CMap) (h : ∀ m ∈ ms, DifferentiatesLogDet m)
    (hin : ∀ m ∈ ms, m.inputDim ≤ pts.length) : ∀ (k : Nat) (buf out : List ℝ),
    c.length = k + (ms.map CMap.numCoeffs).sum → buf.length = pts.length → out.length = pts.length →
    TriangularMap.ldInputGradLoop c pts ms k buf out = .ok (List.zipWith (· + ·) out
      (gradSum (fun m c x _ => ldInputGrad m c x) ms (c.drop k) pts sens)) := by
  induction ms generalizing sens with
  | nil => intro k buf out _ _ ho; simp [TriangularMap.ldInputGradLoop, gradSum, zipWith_zeros_right ho.symm]
  | cons m ms ih =>
    intro k buf out hc hb ho
    simp only [List.map_cons, List.sum_cons] at hc
    have hle := hin m (by simp)
    have hfit : Fits m (slice c k m.numCoeffs) (pts.take m.inputDim) := ⟨by simp [slice, hc], by simp [hle]⟩
    have hm := h m (by simp) _ _ hfit
    have hl := hm.2.2.2.1
    have hp := addRows_pad (out := out) (v := ldInputGrad m (slice c k m.numCoeffs) (pts.take m.inputDim)) (by omega)
    rw [hl] at hp
    rw [TriangularMap.ldInputGradLoop, rows_ok (by simpa using hle), Res.bind_ok, rows_ok (by omega), Res.bind_ok,
      List.drop_zero, hm.1 _ (by simp; omega), Res.bind_ok, hp, Res.bind_ok,
      ih (sens.drop m.outputDim) (fun m' h' => h m' (by simp [h'])) (fun m' h' => hin m' (by simp [h'])) _ _ _ (by omega)
        (by rw [putRows_length (by omega) hl]; exact hb)
        (by simp [hl, ho]; omega), zipWith_add_assoc, gradSum, ho]
    simp [slice, List.drop_drop]

/-! ### Inverse -/

/-- `InverseInplace` started with leading inputs `x1` leaves `x1` followed by the one solution. -/
theorem inverseInplace_eq {c r : List ℝ} {e : Nat} (ms : List CMap) (hE : ∀ m ∈ ms, Evaluates m)
    (h : ∀ m ∈ ms, InvertsFrom m m.inputDim) : ∀ (s k : Nat) (x : List ℝ), Chain (e + s) ms →
    c.length = k + (ms.map CMap.numCoeffs).sum → r.length = s + (ms.map CMap.outputDim).sum →
    x.length = e + s + (ms.map CMap.outputDim).sum →
    ∃ y : List ℝ, TriangularMap.inverseInplace c r e ms s k x = .ok (x.take (e + s) ++ y) ∧
      y.length = (ms.map CMap.outputDim).sum ∧ stacked ms (c.drop k) (x.take (e + s) ++ y) = r.drop s ∧
      ∀ y' : List ℝ, y'.length = (ms.map CMap.outputDim).sum →
        stacked ms (c.drop k) (x.take (e + s) ++ y') = r.drop s → y' = y := by
  induction ms with
  | nil =>
    intro s k x _ _ hr hx
    simp at hr hx
    refine ⟨[], by simp [TriangularMap.inverseInplace, ← hx], rfl, by simp [stacked, hr], ?_⟩
    intro y' hy' _
    exact List.length_eq_zero_iff.mp hy'
  | cons m ms ih =>
    intro s k x hch hc hr hx
    simp only [List.map_cons, List.sum_cons] at hc hr hx
    have hin := hch.1
    have hE' := hE m (by simp)
    obtain ⟨y0, hy0, hl0, hr0, hu0⟩ := h m (by simp) (slice c k m.numCoeffs) (x.take m.inputDim)
      ((r.drop s).take m.outputDim) (by simp [slice, hc]) (by simp; omega) (by simp [hr])
      ((x.drop (e + s)).take m.outputDim) (by simp; omega)
    have htt : (x.take m.inputDim).take (m.inputDim - m.outputDim) = x.take (e + s) := by
      rw [List.take_take]; congr 1; omega
    rw [htt] at hr0 hu0
    have htk := putRows_take (v := x) (s := y0) (a := e + s) (n := m.outputDim) (by omega) hl0
    obtain ⟨y1, hy1, hl1, hr1, hu1⟩ := ih (fun m' h' => hE m' (by simp [h'])) (fun m' h' => h m' (by simp [h']))
      (s + m.outputDim) (k + m.numCoeffs) (putRows x (e + s) m.outputDim y0)
      (by rw [← Nat.add_assoc, ← hin]; exact hch.2) (by omega) (by omega)
      (by rw [putRows_length (by omega) hl0]; omega)
    rw [← Nat.add_assoc, htk] at hy1 hr1 hu1
    have hpre : ∀ z w : List ℝ, z.length = m.outputDim →
        (x.take (e + s) ++ (z ++ w)).take m.inputDim = x.take (e + s) ++ z := by
      intro z w hz
      rw [← List.append_assoc, List.take_append_of_le_length (by simp; omega), List.take_of_length_le (by simp; omega)]
    refine ⟨y0 ++ y1, ?_, by simp [hl0, hl1], ?_, ?_⟩
    · rw [TriangularMap.inverseInplace, rows_ok (by omega), Res.bind_ok, rows_ok (by omega), Res.bind_ok,
        rows_ok (by omega), Res.bind_ok, List.drop_zero, hy0, Res.bind_ok, hy1]
      simp
    · rw [stacked, hpre _ _ hl0]
      rw [List.drop_drop]
      have hs' : (c.drop k).take m.numCoeffs = slice c k m.numCoeffs := rfl
      rw [hs', hr0, ← List.append_assoc, hr1, ← List.drop_drop, List.take_append_drop]
    · intro y' hy' heq
      simp only [List.map_cons, List.sum_cons] at hy'
      have hsplit : y' = y'.take m.outputDim ++ y'.drop m.outputDim := (List.take_append_drop _ _).symm
      have hlt : (y'.take m.outputDim).length = m.outputDim := by simp [hy']
      rw [stacked, hsplit, hpre _ _ hlt, List.drop_drop] at heq
      have hs' : (c.drop k).take m.numCoeffs = slice c k m.numCoeffs := rfl
      rw [hs'] at heq
      have hfl := (hE' (slice c k m.numCoeffs) (x.take (e + s) ++ y'.take m.outputDim)
        ⟨by simp [slice, hc], by rw [List.length_append, hlt]; simp; omega⟩).1
      have hrs : r.drop s = (r.drop s).take m.outputDim ++ r.drop (s + m.outputDim) := by
        rw [← List.drop_drop, List.take_append_drop]
      rw [hrs] at heq
      obtain ⟨hA, hB⟩ := List.append_inj heq (by rw [hfl]; simp [hr])
      have h0 := hu0 _ hlt hA
      rw [h0, ← List.append_assoc] at hB
      have h1 := hu1 (y'.drop m.outputDim) (by simp [hy']) hB
      rw [hsplit, h0, h1]

theorem inverseInplace_blockwise {c r : List ℝ} {e : Nat} (P : CMap → (c lead y r : List ℝ) → Prop) (ms : List CMap)
    (h : ∀ m ∈ ms, InvertsUpTo P m m.inputDim) : ∀ (s k : Nat) (x : List ℝ), Chain (e + s) ms →
    c.length = k + (ms.map CMap.numCoeffs).sum → r.length = s + (ms.map CMap.outputDim).sum →
    x.length = e + s + (ms.map CMap.outputDim).sum →
    ∃ y : List ℝ, TriangularMap.inverseInplace c r e ms s k x = .ok (x.take (e + s) ++ y) ∧
      y.length = (ms.map CMap.outputDim).sum ∧ blockwise P ms (c.drop k) (x.take (e + s)) y (r.drop s) := by
  induction ms with
  | nil =>
    intro s k x _ _ hr hx
    simp at hr hx
    exact ⟨[], by simp [TriangularMap.inverseInplace, ← hx], rfl, trivial⟩
  | cons m ms ih =>
    intro s k x hch hc hr hx
    simp only [List.map_cons, List.sum_cons] at hc hr hx
    have hin := hch.1
    obtain ⟨y0, hy0, hl0, hr0⟩ := h m (by simp) (slice c k m.numCoeffs) (x.take m.inputDim)
      ((r.drop s).take m.outputDim) (by simp [slice, hc]) (by simp; omega) (by simp [hr])
      ((x.drop (e + s)).take m.outputDim) (by simp; omega)
    have htt : (x.take m.inputDim).take (m.inputDim - m.outputDim) = x.take (e + s) := by
      rw [List.take_take]; congr 1; omega
    rw [htt] at hr0
    have htk := putRows_take (v := x) (s := y0) (a := e + s) (n := m.outputDim) (by omega) hl0
    obtain ⟨y1, hy1, hl1, hr1⟩ := ih (fun m' h' => h m' (by simp [h']))
      (s + m.outputDim) (k + m.numCoeffs) (putRows x (e + s) m.outputDim y0)
      (by rw [← Nat.add_assoc, ← hin]; exact hch.2) (by omega) (by omega)
      (by rw [putRows_length (by omega) hl0]; omega)
    rw [← Nat.add_assoc, htk] at hy1 hr1
    refine ⟨y0 ++ y1, ?_, by simp [hl0, hl1], ?_⟩
    · rw [TriangularMap.inverseInplace, rows_ok (by omega), Res.bind_ok, rows_ok (by omega), Res.bind_ok,
        rows_ok (by omega), Res.bind_ok, List.drop_zero, hy0, Res.bind_ok, hy1]
      simp
    · rw [blockwise, List.drop_drop, List.drop_drop]
      simp only [← hl0, List.take_left, List.drop_left]
      rw [hl0]
      exact ⟨hr0, hr1⟩

end MParT
