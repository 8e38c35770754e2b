import Verif.Spec.TensorProduct
import Verif.Lemmas.Maps
import Verif.Lemmas.ChainRule
import Verif.Props.Expansion
import Verif.Props.OrthoPoly
import Mathlib.Analysis.Calculus.Deriv.Mul
/-! # C57: products of functions of separate inputs -/
namespace MParT
open Spec
open Worker (Cache)
namespace TensorProduct

variable {f1 f2 : PFun} {F1 F2 : List ℝ → List ℝ → ℝ}

theorem subCoeffs_ok {L : List ℝ} {a b : Nat} (h : a ≤ b) (h' : b ≤ L.length) : subCoeffs L a b = .ok (L.drop a) := by
  rw [subCoeffs, if_pos ⟨h, h'⟩]

theorem dot_smul (g v : List ℝ) (a : ℝ) : dot (g.map (· * a)) v = dot g v * a := by
  unfold dot
  rw [List.zipWith_map_left]
  have : (List.zipWith (fun x y => x * a * y) g v) = (List.zipWith (· * ·) g v).map (· * a) := by
    rw [List.map_zipWith]; congr 1; funext x y; ring
  rw [this, List.sum_map_mul_right, List.map_id']

/-- The gradient code shared by `CoeffDerivative` and `MixedDerivative`. -/
theorem grad_parts {n₁ n₂ : Nat} {grad gh gt : List ℝ} (hg : grad.length = n₁ + n₂) (h1 : gh.length = n₁) (h2 : gt.length = n₂)
    (a b : ℝ) {α : Type} (r : α) :
    head grad n₁ = .ok (grad.take n₁) ∧ tail (putRows grad 0 n₁ gh) n₂ = .ok (grad.drop n₁) ∧
    (let g := putRows (putRows grad 0 n₁ gh) ((putRows grad 0 n₁ gh).length - n₂) n₂ gt
     (do let gradHead ← head g n₁
         let g := putRows g 0 n₁ (gradHead.map (· * b))
         let gradTail ← tail g n₂
         let g := putRows g (g.length - n₂) n₂ (gradTail.map (· * a))
         Res.ok (r, g))) = .ok (r, gh.map (· * b) ++ gt.map (· * a)) := by
  have e1 : putRows grad 0 n₁ gh = gh ++ grad.drop n₁ := by simp [putRows]
  have e2 : putRows (gh ++ grad.drop n₁) ((gh ++ grad.drop n₁).length - n₂) n₂ gt = gh ++ gt := by
    have : (gh ++ grad.drop n₁).length - n₂ = n₁ := by simp; omega
    rw [this, putRows, List.take_left' h1, List.drop_of_length_le (by simp; omega), List.append_nil]
  refine ⟨by rw [head, if_pos (by omega)], ?_, ?_⟩
  · rw [e1, tail, if_pos (by simp; omega), show (gh ++ grad.drop n₁).length - n₂ = n₁ by simp; omega, List.drop_left' h1]
  · simp only [e1, e2]
    rw [head, if_pos (by simp; omega), Res.bind_ok, List.take_left' h1]
    have e3 : putRows (gh ++ gt) 0 n₁ (gh.map (· * b)) = gh.map (· * b) ++ gt := by
      simp [putRows, List.drop_left' h1]
    rw [e3, tail, if_pos (by simp; omega), Res.bind_ok,
      show (gh.map (· * b) ++ gt).length - n₂ = n₁ by simp; omega, List.drop_left' (by simp [h1]), putRows,
      List.take_left' (by simp [h1]), List.drop_of_length_le (by simp; omega), List.append_nil]

theorem isGradientAt_mul {n₁ n₂ : Nat} {P Q : List ℝ → ℝ} {c g₁ g₂ : List ℝ} {a b : ℝ} (h1 : IsGradientAt n₁ P (c.take n₁) g₁)
    (h2 : IsGradientAt n₂ Q (c.drop n₁) g₂) (ha : P (c.take n₁) = a) (hb : Q (c.drop n₁) = b) :
    IsGradientAt (n₁ + n₂) (fun c => P (c.take n₁) * Q (c.drop n₁)) c (g₁.map (· * b) ++ g₂.map (· * a)) := by
  refine ⟨by simp [h1.1, h2.1], fun γ v t₀ hγ hc => ?_⟩
  have k1 := h1.2 _ _ t₀ (hγ.take (by omega)) (by rw [hc])
  have k2 := h2.2 _ _ t₀ hγ.drop (by rw [hc])
  have := k1.mul k2
  simp only [hc, ha, hb] at this
  refine this.congr_deriv ?_
  rw [dot_split n₁ (by rw [hγ.2.1]; omega) (by simp [h1.1]), dot_smul, dot_smul]
  ring

end TensorProduct
open TensorProduct

variable {f1 f2 : PFun} {F1 F2 : List ℝ → List ℝ → ℝ}

/-- The caches of the two factors inside the cache of the product. -/
theorem product_caches (h1 : Represents f1 F1) (h2 : Represents f2 F2) {cache : Cache ℝ} {pt : List ℝ} {flag1 : DFlag}
    (hcache : cache.length = f1.cacheSize + f2.cacheSize) (hpt : f1.inputSize + f2.inputSize ≤ pt.length)
    (hfl : flag1 ≠ .mixed) : ∃ c₁, (obj f1 f2).fillCache1 cache pt flag1 = .ok c₁ ∧
    ∀ pt' : List ℝ, f1.inputSize + f2.inputSize ≤ pt'.length →
      pt'.take (f1.inputSize + f2.inputSize - 1) = pt.take (f1.inputSize + f2.inputSize - 1) →
    ∀ calls : List (ℝ × DFlag), (∀ h ∈ calls, h.2 ≠ .mixed) → ∃ c₂,
      calls.foldlM (fun c h => (obj f1 f2).fillCache2 c pt' h.1 h.2) c₁ = Res.ok c₂ ∧
      ∀ xd flag2, flag2 ≠ .mixed → ∃ a b, (obj f1 f2).fillCache2 c₂ pt' xd flag2 = .ok (a ++ b) ∧
        a.length = f1.cacheSize ∧ b.length = f2.cacheSize ∧ EvaluatesAt f1 F1 a (pt.take f1.inputSize) (Spec.orderOf flag1) ∧
        EvaluatesAt f2 F2 b (((pt.drop f1.inputSize).take (f2.inputSize - 1)) ++ [xd]) (Spec.orderOf flag2) := by
  obtain ⟨hd1, h1⟩ := h1
  obtain ⟨hd2, h2⟩ := h2
  obtain ⟨p1, e1, q1⟩ := h1 (cache.take f1.cacheSize) pt flag1 (by simp; omega) (by omega) hfl
  obtain ⟨p2, e2, q2⟩ := q1 pt (by omega) rfl [] (by simp)
  cases e2
  obtain ⟨p3, e3, l3, q3⟩ := q2 (pt.getD (f1.inputSize - 1) 0) flag1 hfl
  obtain ⟨s1, e4, q4⟩ := h2 (cache.drop f1.cacheSize) ((pt.drop f1.inputSize).take f2.inputSize) flag1 (by simp; omega)
    (by simp; omega) hfl
  have hx1 : pt.take (f1.inputSize - 1) ++ [pt.getD (f1.inputSize - 1) 0] = pt.take f1.inputSize := by
    have : f1.inputSize - 1 < pt.length := by omega
    conv_rhs => rw [show f1.inputSize = (f1.inputSize - 1) + 1 by omega, List.take_succ]
    simp [this]
  rw [hx1] at q3
  refine ⟨p3 ++ s1, ?_, fun pt' hpt' htk calls hcalls => ?_⟩
  · simp only [obj, fillCache1]
    rw [rows_ok (by omega), Res.bind_ok, e1, Res.bind_ok, if_neg (by omega),
      Res.idx_some (a := pt.getD (f1.inputSize - 1) 0) (by
        have : f1.inputSize - 1 < pt.length := by omega
        simp [this]), Res.bind_ok, e3, Res.bind_ok, e4, Res.bind_ok]
  have htk2 : (pt'.drop f1.inputSize).take (f2.inputSize - 1)
      = ((pt.drop f1.inputSize).take f2.inputSize).take (f2.inputSize - 1) := by
    have := congrArg (List.drop f1.inputSize) htk
    rw [List.drop_take, List.drop_take, show f1.inputSize + f2.inputSize - 1 - f1.inputSize = f2.inputSize - 1 by omega] at this
    rw [this, List.take_take, Nat.min_eq_left (by omega)]
  obtain ⟨s2, e5, q5⟩ := q4 (pt'.drop f1.inputSize) (by simp; omega) htk2 calls hcalls
  have hstep : ∀ (c : Cache ℝ) (xd : ℝ) (fl : DFlag), fillCache2 f1 f2 (p3 ++ c) pt' xd fl
      = (f2.fillCache2 c (pt'.drop f1.inputSize) xd fl >>= fun c2 => .ok (p3 ++ c2)) := by
    intro c xd fl
    rw [fillCache2, rows_ok (by omega), Res.bind_ok, List.take_of_length_le (by simp), List.drop_left' l3, List.take_left' l3]
  have hfold : ∀ (calls : List (ℝ × DFlag)) (c s : Cache ℝ),
      calls.foldlM (fun c h => f2.fillCache2 c (pt'.drop f1.inputSize) h.1 h.2) c = Res.ok s →
      calls.foldlM (fun c h => fillCache2 f1 f2 c pt' h.1 h.2) (p3 ++ c) = Res.ok (p3 ++ s) := by
    intro calls
    induction calls with
    | nil => intro c s h; cases h; rfl
    | cons a l ih =>
      intro c s h
      rw [List.foldlM_cons] at h ⊢
      obtain ⟨c', e, h⟩ := Res.bind_eq_ok.mp h
      rw [hstep, e, Res.bind_ok, Res.bind_ok]
      exact ih _ _ h
  refine ⟨p3 ++ s2, hfold _ _ _ e5, fun xd flag2 hfl2 => ?_⟩
  obtain ⟨s3, e6, l6, q6⟩ := q5 xd flag2 hfl2
  rw [List.take_take, Nat.min_eq_left (by omega)] at q6
  exact ⟨p3, s3, by simp only [obj]; rw [hstep, e6, Res.bind_ok], l3, l6, q3, q6⟩

/-- **C57, where it holds.** If the two factors compute `F1` and `F2`, the first has as many coefficients as inputs and the
second at least as many, then `TensorProductFunction` computes `F1(x1; c1) F2(x2; c2)`: values, derivatives in the last input
and gradients with respect to the coefficients. Missing for the full property: factors with other numbers of coefficients,
see `C57_fails_value`. -/
theorem C57_product_partial (h1 : Represents f1 F1) (h2 : Represents f2 F2) (hn1 : f1.numCoeffs = f1.inputSize)
    (hn2 : f2.inputSize ≤ f2.numCoeffs) :
    Represents (obj f1 f2) (productOf f1.numCoeffs f1.inputSize F1 F2) := by
  have hd1 := h1.1
  have hd2 := h2.1
  refine ⟨by simp only [obj]; omega, fun cache pt flag1 hcache hpt hfl => ?_⟩
  simp only [obj] at hcache hpt
  obtain ⟨c₁, e1, q⟩ := product_caches h1 h2 hcache hpt hfl
  refine ⟨c₁, e1, fun pt' hpt' htk calls hcalls => ?_⟩
  obtain ⟨c₂, e2, q⟩ := q pt' hpt' htk calls hcalls
  refine ⟨c₂, e2, fun xd flag2 hfl2 => ?_⟩
  obtain ⟨p3, s3, e3, l3, l6, q3, q6⟩ := q xd flag2 hfl2
  refine ⟨_, e3, by simp [obj, l3, l6], ?_⟩
  -- the point at which the product is evaluated
  set y := (pt.drop f1.inputSize).take (f2.inputSize - 1) with hy
  have hly : y.length = f2.inputSize - 1 := by simp [hy]; omega
  have hx : pt.take (f1.inputSize + f2.inputSize - 1) ++ [xd] = pt.take f1.inputSize ++ (y ++ [xd]) := by
    rw [← List.append_assoc]
    congr 1
    rw [hy, show f1.inputSize + f2.inputSize - 1 = f1.inputSize + (f2.inputSize - 1) by omega, List.take_add]
  have hl1 : (pt.take f1.inputSize).length = f1.inputSize := by simp; omega
  intro L hL
  simp only [obj] at hL ⊢
  rw [hx]
  have hc1 : (L.take (f1.numCoeffs + f2.numCoeffs)).take f1.numCoeffs = L.take f1.numCoeffs := by
    rw [List.take_take, Nat.min_eq_left (by omega)]
  have hc2 : (L.take (f1.numCoeffs + f2.numCoeffs)).drop f1.numCoeffs = (L.drop f1.numCoeffs).take f2.numCoeffs := by
    rw [List.drop_take, Nat.add_sub_cancel_left]
  obtain ⟨v1, d1, g1, m1⟩ := q3 L (by omega)
  obtain ⟨v2, d2, g2, m2⟩ := q6 (L.drop f1.numCoeffs) (by simp; omega)
  have hsub1 : subCoeffs L 0 f1.inputSize = .ok L := by rw [subCoeffs_ok (by omega) (by omega), List.drop_zero]
  have hsub2 : subCoeffs L f1.inputSize (f1.inputSize + f2.inputSize) = .ok (L.drop f1.numCoeffs) := by
    rw [subCoeffs_ok (by omega) (by omega), hn1]
  have hval : ∀ c, productOf f1.numCoeffs f1.inputSize F1 F2 c (pt.take f1.inputSize ++ (y ++ [xd]))
      = F1 (c.take f1.numCoeffs) (pt.take f1.inputSize) * F2 (c.drop f1.numCoeffs) (y ++ [xd]) := by
    intro c
    rw [productOf, List.take_left' hl1, List.drop_left' hl1]
  have hder : ∀ k c, lastDeriv (f1.inputSize + f2.inputSize) (productOf f1.numCoeffs f1.inputSize F1 F2) k c
        (pt.take f1.inputSize ++ (y ++ [xd]))
      = F1 (c.take f1.numCoeffs) (pt.take f1.inputSize) * lastDeriv f2.inputSize F2 k (c.drop f1.numCoeffs) (y ++ [xd]) := by
    intro k c
    have a1 : (pt.take f1.inputSize ++ (y ++ [xd])).take (f1.inputSize + f2.inputSize - 1) = pt.take f1.inputSize ++ y := by
      rw [← List.append_assoc, List.take_left' (by simp [hly, hl1]; omega)]
    have a2 : (pt.take f1.inputSize ++ (y ++ [xd])).getD (f1.inputSize + f2.inputSize - 1) 0 = xd := by
      rw [show f1.inputSize + f2.inputSize - 1 = (pt.take f1.inputSize).length + (y.length + 0) by rw [hl1, hly]; omega,
        getD_append_right, getD_append_right]
      rfl
    have a3 : (y ++ [xd]).take (f2.inputSize - 1) = y := List.take_left' hly
    have a4 : (y ++ [xd]).getD (f2.inputSize - 1) 0 = xd := by
      rw [show f2.inputSize - 1 = y.length + 0 by omega, getD_append_right]; rfl
    rw [lastDeriv, a1, a2, lastDeriv, a3, a4]
    have : (fun t => productOf f1.numCoeffs f1.inputSize F1 F2 c (pt.take f1.inputSize ++ y ++ [t]))
        = fun t => F1 (c.take f1.numCoeffs) (pt.take f1.inputSize) * F2 (c.drop f1.numCoeffs) (y ++ [t]) := by
      funext t
      rw [productOf, List.append_assoc, List.take_left' hl1, List.drop_left' hl1]
    rw [this, iteratedDeriv_const_mul_field]
  refine ⟨?_, fun k hk hkr => ?_, fun grad hg => ?_, fun k hk hkr grad hg => ?_⟩
  · rw [evaluate, hsub1, Res.bind_ok, List.take_left' l3, v1, Res.bind_ok, hsub2, Res.bind_ok, List.drop_left' l3, v2,
      Res.bind_ok, hval, hc1, hc2]
  · rw [diagonalDerivative, hsub1, Res.bind_ok, List.take_left' l3, v1, Res.bind_ok, hsub2, Res.bind_ok,
      List.drop_left' l3, d2 k hk hkr, Res.bind_ok, hder, hc1, hc2]
  · obtain ⟨gh, eh, ih⟩ := g1 (grad.take f1.numCoeffs) (by simp; omega)
    obtain ⟨gt, et, it⟩ := g2 (grad.drop f1.numCoeffs) (by simp; omega)
    have := grad_parts hg ih.1 it.1
    refine ⟨gh.map (· * F2 ((L.drop f1.numCoeffs).take f2.numCoeffs) (y ++ [xd]))
      ++ gt.map (· * F1 (L.take f1.numCoeffs) (pt.take f1.inputSize)), ?_, ?_⟩
    · rw [coeffDerivative, hsub1, Res.bind_ok, (this 0 0 ()).1, Res.bind_ok, List.take_left' l3, eh, Res.bind_ok, hsub2]
      dsimp only
      rw [Res.bind_ok, (this 0 0 ()).2.1, Res.bind_ok, List.drop_left' l3, et, Res.bind_ok]
      dsimp only
      rw [(this _ _ _).2.2, hval, hc1, hc2]
    · simp only [hval]
      exact isGradientAt_mul (by rw [hc1]; exact ih) (by rw [hc2]; exact it) (by rw [hc1]) (by rw [hc2])
  · obtain ⟨gh, eh, ih⟩ := g1 (grad.take f1.numCoeffs) (by simp; omega)
    obtain ⟨gt, et, it⟩ := m2 k hk hkr (grad.drop f1.numCoeffs) (by simp; omega)
    have := grad_parts hg ih.1 it.1
    refine ⟨gh.map (· * lastDeriv f2.inputSize F2 k ((L.drop f1.numCoeffs).take f2.numCoeffs) (y ++ [xd]))
      ++ gt.map (· * F1 (L.take f1.numCoeffs) (pt.take f1.inputSize)), ?_, ?_⟩
    · rw [mixedDerivative, hsub1, Res.bind_ok, (this 0 0 ()).1, Res.bind_ok, List.take_left' l3, eh, Res.bind_ok, hsub2]
      dsimp only
      rw [Res.bind_ok, (this 0 0 ()).2.1, Res.bind_ok, List.drop_left' l3, et, Res.bind_ok]
      dsimp only
      rw [(this _ _ _).2.2, hder, hc1, hc2]
    · simp only [hder]
      exact isGradientAt_mul (by rw [hc1]; exact ih) (by rw [hc2]; exact it) (by rw [hc1]) (by rw [hc2])

/-- What `Evaluate` computes when the first factor has at least as many coefficients as inputs: the coefficients of the second
factor are read from position `InputSize()` of the first, not from position `NumCoeffs()`. -/
theorem evaluate_actual (h1 : Represents f1 F1) (h2 : Represents f2 F2) (hn1 : f1.inputSize ≤ f1.numCoeffs)
    (hn2 : f1.inputSize + f2.inputSize ≤ f1.numCoeffs + f2.numCoeffs) {x1 x2 L : List ℝ} {xd : ℝ}
    (hx1 : x1.length = f1.inputSize) (hx2 : x2.length + 1 = f2.inputSize) (hL : L.length = f1.numCoeffs + f2.numCoeffs)
    (cache : Cache ℝ) (hcache : cache.length = (obj f1 f2).cacheSize) :
    (do let c ← (obj f1 f2).fillCache1 cache (x1 ++ x2 ++ [xd]) .none
        let c ← (obj f1 f2).fillCache2 c (x1 ++ x2 ++ [xd]) xd .none
        (obj f1 f2).evaluate c L)
      = .ok (F1 (L.take f1.numCoeffs) x1 * F2 ((L.drop f1.inputSize).take f2.numCoeffs) (x2 ++ [xd])) := by
  obtain ⟨c₁, e1, q⟩ := product_caches h1 h2 (pt := x1 ++ x2 ++ [xd]) (flag1 := .none) hcache (by simp; omega) (by simp)
  obtain ⟨c₂, e2, q⟩ := q _ (by simp; omega) rfl [] (by simp)
  cases e2
  obtain ⟨a, b, e3, l3, l4, q3, q4⟩ := q xd .none (by simp)
  rw [e1, Res.bind_ok, e3, Res.bind_ok]
  simp only [obj, evaluate]
  rw [subCoeffs_ok (by omega) (by omega), Res.bind_ok, List.take_left' l3, List.drop_zero, (q3 L (by omega)).1, Res.bind_ok,
    subCoeffs_ok (by omega) (by omega), Res.bind_ok, List.drop_left' l3, (q4 _ (by simp; omega)).1, Res.bind_ok,
    List.append_assoc, List.take_left' hx1, List.drop_left' hx1, List.take_left' (by omega)]

/-! ### Expansions as factors -/

namespace Worker
open FixedSet Finset

theorem expansion_path {D : Nat} {ts : List (List Nat)} {φ : Nat → Nat → ℝ} {γ : ℝ → List ℝ} {v : List ℝ} {t₀ : ℝ}
    (h : Spec.Path ts.length γ v t₀) : HasDerivAt (fun t => expansion D ts (γ t) φ)
      (dot ((List.range ts.length).map fun k => termProd D φ (ts.getD k [])) v) t₀ := by
  rw [dot_eq_sum (n := ts.length) (by simp) h.2.1]
  simp only [expansion]
  have := HasDerivAt.fun_sum (u := range ts.length) (A := fun k t => (γ t).getD k 0 * termProd D φ (ts.getD k []))
    (A' := fun k => v.getD k 0 * termProd D φ (ts.getD k [])) (x := t₀)
    fun k hk => (h.2.2 k (mem_range.1 hk)).mul_const _
  refine this.congr_deriv (sum_congr rfl fun k hk => ?_)
  have := mem_range.1 hk
  simp [this, mul_comm]

theorem expansion_take {D : Nat} {ts : List (List Nat)} {φ : Nat → Nat → ℝ} (L : List ℝ) :
    expansion D ts (L.take ts.length) φ = expansion D ts L φ :=
  sum_congr rfl fun k hk => by rw [getD_take (mem_range.1 hk)]

theorem expandAt_congr {b : Basis ℝ} {D : Nat} {ts : List (List Nat)} {c : List ℝ} {x y : Nat → ℝ}
    (h : ∀ d, d < D → x d = y d) : expandAt b D ts c x = expandAt b D ts c y := by
  unfold expandAt expansion termProd
  exact sum_congr rfl fun k _ => congrArg _ (prod_congr rfl fun d hd => by dsimp only; rw [h d (mem_range.1 hd)])

theorem point_append {D : Nat} (hD : 0 < D) {pt : List ℝ} (hpt : D ≤ pt.length) (t : ℝ) :
    ∀ d, d < D → (pt.take (D - 1) ++ [t]).getD d 0 = pointOf D pt t d := by
  intro d hd
  have hl : (pt.take (D - 1)).length = D - 1 := by simp; omega
  by_cases h : d = D - 1
  · have := getD_append_right (a := pt.take (D - 1)) (b := [t]) (i := 0)
    rw [hl, Nat.add_zero] at this
    rw [h, pointOf_last, this]; rfl
  · rw [pointOf_lt _ _ h, getD_append_left (by omega), getD_take (by omega)]

/-- The factors read for the derivative of order `r` in the last input. -/
theorem diag_factors {D : Nat} (hD : 0 < D) {b : Basis ℝ} (hbasis : SmoothBasis b) {ts : List (List Nat)} {pt : List ℝ} {xd : ℝ}
    {f1 f2 : DFlag} {W : Nat → Option (Nat → ℝ)} {c : Cache ℝ} (f : FixedSet) (hW : CacheIs D (degs D ts) W c)
    (hB : Fill1Blocks D b pt (f1 == .input || f1 == .mixedInput) W) (hf2 : f2 ≠ .mixed)
    (h1 : f2 ≠ .none → f2 ≠ .parameters → W (2 * D - 1) = some (b.d1 · xd))
    (h2 : f2 = .diagonal2 ∨ f2 = .mixedInput → W (2 * D) = some (b.d2 · xd))
    (r : Nat) (hr : 1 ≤ r) (hr' : r ≤ Spec.orderOf f2) : ∃ F : Nat → Nat → ℝ, F (D - 1) 0 = 0 ∧
      (∀ d, d < D → d ≠ D - 1 → F d 0 = 1) ∧
      (∀ cs : List ℝ, deriv^[r] (fun y => expandAt b D ts cs (pointOf D pt y)) xd = expansion D ts cs F) ∧
      Reads (mk' D f (degs D ts)) c D ts ((mk' D f (degs D ts)).diagSlot r) F ∧ (r = 1 ∨ r = 2) := by
  have hcase : r = 1 ∨ r = 2 ∧ (f2 = .diagonal2 ∨ f2 = .mixedInput) := by
    cases f2 <;> simp [Spec.orderOf] at hr' hf2 ⊢ <;> omega
  rcases hcase with rfl | ⟨rfl, hf⟩
  · refine ⟨facD1 b (pointOf D pt xd) (D - 1), by simp [facD1, hbasis.d1_zero],
      fun d _ hd => by simp [facD1, hd, hbasis.one], fun cs => ?_, ?_, .inl rfl⟩
    · rw [Function.iterate_one, deriv_last b cs pt hbasis.c1 D hD]
    · exact reads_diag1 b pt xd f1 hD hW rfl hB f
        (h1 (by rintro rfl; simp [Spec.orderOf] at hr') (by rintro rfl; simp [Spec.orderOf] at hr'))
  · refine ⟨facD2 b (pointOf D pt xd) (D - 1), by simp [facD2, hbasis.d2_zero],
      fun d _ hd => by simp [facD2, hd, hbasis.one], fun cs => ?_, ?_, .inr rfl⟩
    · rw [show (2 : Nat) = 1 + 1 from rfl, Function.iterate_succ, Function.comp, Function.iterate_one,
        deriv_last b cs pt hbasis.c1 D hD]
      exact (deriv2_last b cs pt hbasis.c1 D hD xd (hbasis.twice xd)).deriv
    · exact reads_diag2 b pt xd f1 hD hW rfl hB f (h2 hf)

end Worker
open Worker FixedSet

/-- **C57, the factors.** Every expansion over a set in compressed form, with a basis that has the derivatives it reports, is
such a factor: it computes `Σ_k c_k Π_d φ_{a_{k,d}}(x_d)`. -/
theorem C57_expansion {f : FixedSet} (hb : Built f) (hcomp : f.isCompressed = true) (hD : 0 < f.dim)
    {ts : List (List Nat)} (hts : Holds f ts) (b : Basis ℝ) (hbasis : SmoothBasis b) :
    ∃ w, ofFixed f = .ok w ∧ (w.pfun b ts.length).inputSize = f.dim ∧
      Represents (w.pfun b ts.length) fun c x => expandAt b f.dim ts c fun d => x.getD d 0 := by
  obtain ⟨hf, hl⟩ := built_csr hb hcomp hts
  refine ⟨_, built_ofFixed hb hD hts, rfl, hD, fun cache pt flag1 hcache hpt hfl => ?_⟩
  have hpt0 : f.dim ≤ pt.length := hpt
  have key := fun calls xd f2 hf2 => fillSeq_eq f.dim hD f (degs f.dim ts) (by simp [degs]) b pt (by omega) flag1
    cache hcache calls xd f2 hf2
  have hsplit : ∀ calls xd f2, fillSeq (mk' f.dim f (degs f.dim ts)) b cache pt flag1 (calls ++ [(xd, f2)])
      = (Worker.fillCache1 (mk' f.dim f (degs f.dim ts)) b cache pt flag1 >>= fun c₁ =>
          calls.foldlM (fun c h => Worker.fillCache2 (mk' f.dim f (degs f.dim ts)) b c h.1 h.2) c₁ >>= fun c₂ =>
            Worker.fillCache2 (mk' f.dim f (degs f.dim ts)) b c₂ xd f2) := by
    intro calls xd f2
    rw [fillSeq]
    congr 1
    funext c₁
    rw [List.foldlM_append]
    congr 1
    funext c₂
    rw [List.foldlM_cons]
    exact bind_pure _
  obtain ⟨c₃, -, e, -⟩ := key [] 0 .none (by simp)
  rw [hsplit] at e
  obtain ⟨c₁, e1, -⟩ := Res.bind_eq_ok.mp e
  refine ⟨c₁, e1, fun pt' hpt' htk calls hcalls => ?_⟩
  obtain ⟨c₃', -, e', -⟩ := key calls 0 .none (by simp)
  rw [hsplit, e1, Res.bind_ok] at e'
  obtain ⟨c₂, e2, -⟩ := Res.bind_eq_ok.mp e'
  refine ⟨c₂, e2, fun xd f2 hf2 => ?_⟩
  obtain ⟨c, W, e3, hW, hB, hlast, h1, h2⟩ := key calls xd f2 hf2
  rw [hsplit, e1, Res.bind_ok, e2, Res.bind_ok] at e3
  refine ⟨c, e3, hW.1, ?_⟩
  intro L hL
  have hL' : ts.length ≤ L.length := hL
  dsimp only [Worker.pfun]
  have hdim : (mk' f.dim f (degs f.dim ts)).dim = f.dim := rfl
  rw [hdim]
  have hval : ∀ cs : List ℝ, expandAt b f.dim ts cs (fun d => (pt.take (f.dim - 1) ++ [xd]).getD d 0)
      = expandAt b f.dim ts cs (pointOf f.dim pt xd) := fun cs => expandAt_congr (point_append hD hpt0 xd)
  have hder : ∀ k (cs : List ℝ), lastDeriv f.dim (fun c x => expandAt b f.dim ts c fun d => x.getD d 0) k cs
      (pt.take (f.dim - 1) ++ [xd]) = deriv^[k] (fun y => expandAt b f.dim ts cs (pointOf f.dim pt y)) xd := by
    intro k cs
    have hl1 : (pt.take (f.dim - 1)).length = f.dim - 1 := by simp; omega
    rw [lastDeriv, List.take_left' hl1, iteratedDeriv_eq_iterate]
    rw [point_append hD hpt0 xd _ (by omega), pointOf_last]
    have : (fun t => expandAt b f.dim ts cs fun d => (pt.take (f.dim - 1) ++ [t]).getD d 0)
        = fun t => expandAt b f.dim ts cs (pointOf f.dim pt t) := by
      funext t
      exact expandAt_congr (point_append hD hpt0 t)
    rw [this]
  have hr := reads_id b pt xd flag1 hD hW rfl hB hlast f
  have hgrad : ∀ (g grad : List ℝ) (φ : Nat → Nat → ℝ) (v : Nat → ℝ), grad.length = ts.length → g.length = grad.length →
      (∀ k, g[k]? = if 0 ≤ k ∧ k < 0 + ts.length then some (v k) else grad[k]?) →
      (∀ k, k < ts.length → v k = termProd f.dim φ (ts.getD k [])) →
      g = (List.range ts.length).map fun k => termProd f.dim φ (ts.getD k []) := by
    intro g grad φ v h1 h2 h3 h4
    apply List.ext_getElem?
    intro k
    rw [h3]
    by_cases hk : k < ts.length
    · rw [if_pos (by omega), h4 k hk]; simp [hk]
    · rw [if_neg (by omega), List.getElem?_eq_none (by omega), List.getElem?_eq_none (by simp; omega)]
  refine ⟨?_, fun k hk hkr => ?_, fun grad hg => ?_, fun k hk hkr grad hg => ?_⟩
  · rw [evaluate_eq _ f.dim ts hf hl c L _ hr hL', hval, expandAt, expansion_take]
    congr 1
    exact Finset.sum_congr rfl fun k _ => by rw [nzProd_eq fun d _ => hbasis.one _]
  · obtain ⟨F, hF0, hF1, hd, hreads, h12⟩ := diag_factors hD hbasis f hW hB hf2 h1 h2 k hk hkr
    rw [diagonalDerivative_eq (mk' f.dim f (degs f.dim ts)) f.dim ts rfl hf hl c L k h12 F hreads hL', hder, hd, expansion_take]
    congr 1
    exact Finset.sum_congr rfl fun j _ => by rw [ctr_eq (by omega) hF0 hF1]
  · obtain ⟨g, e4, l4, h4⟩ := coeffLoop_eq (mk' f.dim f (degs f.dim ts)) f.dim ts hf hl c L _ hr hL' ts.length 0 0 grad
      (by omega) (le_of_eq hg.symm)
    have hgeq := hgrad g grad _ _ hg l4 h4 fun k _ => nzProd_eq (fun d _ => hbasis.one _) _
    refine ⟨g, ?_, by rw [l4, hg], fun γ v t₀ hγ hc => ?_⟩
    · rw [Worker.coeffDerivative, size_csr _ f.dim ts hf hl, Res.bind_ok, e4, zero_add, hval, expandAt, expansion_take]
      congr 2
      exact Finset.sum_congr rfl fun k _ => by rw [nzProd_eq fun d _ => hbasis.one _, Nat.zero_add]
    · simp only [hval]
      rw [hgeq]
      exact expansion_path hγ
  · obtain ⟨F, hF0, hF1, hd, hreads, h12⟩ := diag_factors hD hbasis f hW hB hf2 h1 h2 k hk hkr
    obtain ⟨g, e4, l4, h4⟩ := mixedCoeffLoop_eq (mk' f.dim f (degs f.dim ts)) f.dim ts rfl hf hl c L k F
      hreads hL' ts.length 0 0 grad (by omega) (le_of_eq hg.symm)
    have hgeq := hgrad g grad _ _ hg l4 h4 fun j _ => ctr_eq (by omega) hF0 hF1 _
    refine ⟨g, ?_, by rw [l4, hg], fun γ v t₀ hγ hc => ?_⟩
    · rw [mixedCoeffDerivative, if_neg (by rcases h12 with rfl | rfl <;> omega),
        size_csr _ f.dim ts hf hl, Res.bind_ok, e4, zero_add, hder, hd, expansion_take, expansion]
      congr 2
      exact Finset.sum_congr rfl fun j _ => by rw [ctr_eq (by omega) hF0 hF1, Nat.zero_add]
    · simp only [hder, hd]
      rw [hgeq]
      exact expansion_path hγ

/-- The monomials as a basis. -/
noncomputable def monomials : Basis ℝ :=
  ⟨fun n x => x ^ n, fun n x => n * x ^ (n - 1), fun n x => n * (((n - 1 : ℕ) : ℝ) * x ^ (n - 1 - 1))⟩

theorem monomials_smooth : SmoothBasis monomials where
  one y := by simp [monomials]
  d1 n y := by simpa [monomials] using hasDerivAt_pow n y
  d2 n y := (hasDerivAt_pow (n - 1) y).const_mul _

/-- A set with the single term `(1)` in one dimension, as a program builds it. -/
theorem built_one : ∃ f, Built f ∧ f.isCompressed = true ∧ f.dim = 1 ∧ Holds f [[1]] := by
  refine ⟨csr 1 [[1]], .fix (c := true) (.addActive (.init 1 fun _ => true) (v := [1]) rfl rfl rfl) rfl, rfl, rfl,
    csr_holds 1 _ (by simp)⟩

/-- The hypotheses of `C57_product_partial` are met: two linear functions `c x`, and the product is `c₁ c₂ x₁ x₂`. -/
example : ∃ f1 F1, Represents f1 F1 ∧ f1.numCoeffs = f1.inputSize ∧ f1.inputSize ≤ f1.numCoeffs ∧ F1 [3] [5] = 15 ∧
    productOf f1.numCoeffs f1.inputSize F1 F1 [3, 2] [5, 7] = 210 := by
  obtain ⟨f, hb, hc, hd, hh⟩ := built_one
  obtain ⟨w, -, hi, hr⟩ := C57_expansion hb hc (by omega) hh monomials monomials_smooth
  refine ⟨_, _, hr, by rw [hi, hd]; rfl, by rw [hi, hd]; exact Nat.le_refl _, ?_, ?_⟩
  · simp [hd, expandAt, expansion, termProd, monomials]; norm_num
  · rw [hi, hd]
    simp [Worker.pfun, productOf, hd, expandAt, expansion, termProd, monomials]; norm_num

/-- **C57 fails when the first factor has more coefficients than inputs.** `F1(x; c) = c_0 + c_1 x` and `F2(x; c) = c_0 x`,
both expansions of the library: the product with coefficients `(1, 2, 3)` is `(1 + 2 x_1) 3 x_2`, but `Evaluate` returns
`(1 + 2 x_1) 2 x_2`, because the coefficients of the second factor are taken from position `InputSize()`. -/
theorem C57_fails_value : ∃ f1 f2 F1 F2, Represents f1 F1 ∧ Represents f2 F2 ∧ f1.inputSize = 1 ∧ f2.inputSize = 1 ∧
    f1.numCoeffs = 2 ∧ f2.numCoeffs = 1 ∧
    ∀ x1 x2 : ℝ, productOf 2 1 F1 F2 [1, 2, 3] [x1, x2] = (1 + 2 * x1) * (3 * x2) ∧
      ∀ cache : Cache ℝ, cache.length = (obj f1 f2).cacheSize →
      (do let c ← (obj f1 f2).fillCache1 cache [x1, x2] .none
          let c ← (obj f1 f2).fillCache2 c [x1, x2] x2 .none
          (obj f1 f2).evaluate c [1, 2, 3]) = .ok ((1 + 2 * x1) * (2 * x2)) := by
  obtain ⟨f, hb, hc, hd, hh⟩ := built_one
  obtain ⟨w, -, hi, hr⟩ := C57_expansion hb hc (by omega) hh monomials monomials_smooth
  obtain ⟨w', -, hi', hr'⟩ := C57_expansion (.totalOrder (totalOrder_csr 1 (by omega) 1)) rfl
    (show 0 < (csr 1 _).dim by simp [csr]) (csr_holds 1 [[0], [1]] (by simp)) monomials monomials_smooth
  have hd' : (csr 1 (MISet.toEnum 1 1)).dim = 1 := rfl
  rw [hd'] at hi' hr'
  rw [hd] at hi hr
  change (w'.pfun monomials 2).inputSize = 1 at hi'
  change (w.pfun monomials 1).inputSize = 1 at hi
  refine ⟨_, _, _, _, hr', hr, hi', hi, rfl, rfl, fun x1 x2 => ⟨?_, fun cache hcache => ?_⟩⟩
  · simp [productOf, expandAt, expansion, termProd, monomials, Finset.sum_range_succ]
  · have := evaluate_actual (f1 := w'.pfun monomials 2) (f2 := w.pfun monomials 1) hr' hr (x1 := [x1]) (x2 := [])
      (L := [1, 2, 3]) (xd := x2)
      (by rw [hi']; exact one_le_two) (by rw [hi', hi]; exact Nat.le_succ 2) (by rw [hi']; rfl) (by rw [hi]; rfl) rfl cache hcache
    rw [hi'] at this
    refine this.trans ?_
    simp [Worker.pfun, expandAt, expansion, termProd, monomials, Finset.sum_range_succ]

end MParT
