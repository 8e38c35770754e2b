import Verif.Props.Expansion
import Mathlib.Analysis.Calculus.Deriv.Pow
/-!
# C60: multi-output expansions

`MultivariateExpansion` with `m` outputs over a set of `N` terms: output `o` is the expansion whose
coefficients are entries `oN, …, oN+N-1` of the coefficient vector.
-/
namespace MParT
namespace Spec
/-- Coefficient block of output `o`. -/
def coeffBlock {K : Type} (saved : List K) (N o : Nat) : List K := (saved.drop (o * N)).take N
end Spec
namespace Worker
open Spec FixedSet Finset

section
variable {K : Type} [CommRing K]

theorem subview_block (saved : List K) (N o : Nat) (h : (o + 1) * N ≤ saved.length) :
    subview saved (o * N) (o * N + N) = .ok (coeffBlock saved N o) := by
  rw [subview, if_pos (by rw [Nat.add_mul, Nat.one_mul] at h; exact h), Nat.add_sub_cancel_left]; rfl

theorem coeffBlock_length (saved : List K) (N o : Nat) (h : (o + 1) * N ≤ saved.length) :
    (coeffBlock saved N o).length = N := by
  rw [Nat.add_mul, Nat.one_mul] at h
  simp [coeffBlock]; omega

theorem coeffBlock_get (saved : List K) (N o k : Nat) (hk : k < N) :
    (coeffBlock saved N o)[k]? = saved[o * N + k]? := by
  simp [coeffBlock, hk]

theorem block_bound {o m N L : Nat} (ho : o < m) (h : m * N ≤ L) : (o + 1) * N ≤ L :=
  Nat.le_trans (Nat.mul_le_mul_right _ ho) h

theorem axpy_eq (s : K) (grad : List K) (n : Nat) : ∀ (i : Nat) (out : List K), i + n ≤ grad.length →
    i + n ≤ out.length →
    ∃ o, axpyLoop s grad out i n = .ok o ∧ o.length = out.length ∧
      ∀ k, o.getD k 0 = if i ≤ k ∧ k < i + n then out.getD k 0 + s * grad.getD k 0 else out.getD k 0 := by
  induction n with
  | zero => intro i out _ _; exact ⟨out, rfl, rfl, fun k => by rw [if_neg (by omega)]⟩
  | succ n ih =>
    intro i out h1 h2
    obtain ⟨o, e, l, h⟩ := ih (i + 1) (out.set i (out.getD i 0 + s * grad.getD i 0)) (by omega) (by simp; omega)
    refine ⟨o, ?_, by simpa using l, fun k => ?_⟩
    · rw [axpyLoop, idx_getD' (by omega), Res.bind_ok, idx_getD' (by omega), Res.bind_ok,
        Res.setIdx_lt (by omega), Res.bind_ok, e]
    · rw [h k]
      have hset : ∀ v : K, (out.set i v).getD k 0 = if i = k then v else out.getD k 0 := by
        intro v
        by_cases hik : i = k
        · subst hik
          have : i < out.length := by omega
          simp [this]
        · simp [List.getElem?_set, hik]
      rw [hset]
      by_cases hik : i = k
      · subst hik
        rw [if_neg (by omega), if_pos rfl, if_pos (by omega)]
      · rw [if_neg hik]
        by_cases h3 : i + 1 ≤ k ∧ k < i + 1 + n
        · rw [if_pos h3, if_pos (by omega)]
        · rw [if_neg h3, if_neg (by omega)]

theorem scale_eq (s : K) (grad : List K) (start n : Nat) : ∀ (i : Nat) (out : List K), i + n ≤ grad.length →
    start + i + n ≤ out.length →
    ∃ o, scaleLoop s grad out start i n = .ok o ∧ o.length = out.length ∧
      ∀ k, o[k]? = if start + i ≤ k ∧ k < start + i + n then some (s * grad.getD (k - start) 0) else out[k]? := by
  induction n with
  | zero => intro i out _ _; exact ⟨out, rfl, rfl, fun k => by rw [if_neg (by omega)]⟩
  | succ n ih =>
    intro i out h1 h2
    obtain ⟨o, e, l, h⟩ := ih (i + 1) (out.set (start + i) (s * grad.getD i 0)) (by omega) (by simp; omega)
    refine ⟨o, ?_, by simpa using l, fun k => ?_⟩
    · rw [scaleLoop, idx_getD' (by omega), Res.bind_ok, Res.setIdx_lt (by omega), Res.bind_ok, e]
    · rw [h k, List.getElem?_set]
      by_cases hik : start + i = k
      · subst hik
        rw [if_neg (by omega), if_pos rfl, if_pos (by omega), if_pos (by omega), Nat.add_sub_cancel_left]
      · rw [if_neg hik]
        by_cases h3 : start + (i + 1) ≤ k ∧ k < start + (i + 1) + n
        · rw [if_pos h3, if_pos (by omega)]
        · rw [if_neg h3, if_neg (by omega)]

theorem pointOf_full {D : Nat} {pt : List K} (h : pt.length = D) :
    pointOf D pt (pt.getD (pt.length - 1) 0) = fun d => pt.getD d 0 := by
  funext d
  by_cases hd : d = D - 1
  · subst hd; simp [pointOf, h]
  · simp [pointOf, hd]

/-- **C60, evaluation.** Entry `o` of the output column is the expansion with the `o`-th block of
coefficients, for every number of outputs, set, coefficient vector and point. -/
theorem C60_evaluate {f : FixedSet} (hb : Built f) (hcomp : f.isCompressed = true) (hD : 0 < f.dim)
    {ts : List (List Nat)} (hts : Holds f ts) (b : Basis K) (m : Nat)
    (saved : List K) (hs : m * ts.length ≤ saved.length) (pt : List K) (hpt : pt.length = f.dim) :
    ∃ w, ofFixed f = .ok w ∧ mvEvaluate w b saved m pt
      = .ok ((List.range m).map fun o => expandAt b.eff f.dim ts (coeffBlock saved ts.length o) fun d => pt.getD d 0) := by
  have hw := built_ofFixed hb hD hts
  refine ⟨_, hw, ?_⟩
  generalize hwdef : mk' f.dim f (degs f.dim ts) = w at hw ⊢
  have hsz : w.multiSet.size = .ok ts.length := by rw [← hwdef]; exact hts.1
  obtain ⟨c, W, e, -⟩ := fillSeq_eq f.dim hD f (degs f.dim ts) (by simp [degs]) b pt (by omega) .none
    (List.replicate w.cacheSize none) (by rw [← hwdef]; simp [mk']) [] (pt.getD (pt.length - 1) 0) .none (by simp)
  rw [hwdef] at e
  have hev : ∀ o, o < m → evaluate w c (coeffBlock saved ts.length o)
      = .ok (expandAt b.eff f.dim ts (coeffBlock saved ts.length o) fun d => pt.getD d 0) := by
    intro o ho
    obtain ⟨w', hw', h⟩ := C23_degree_zero_ignored hb hcomp hD hts b (coeffBlock saved ts.length o)
      (by rw [coeffBlock_length _ _ _ (block_bound ho hs)]) pt (by omega) [] (pt.getD (pt.length - 1) 0)
      .none .none (by simp)
    rw [hw] at hw'; cases hw'
    have := h (List.replicate w.cacheSize none) (by simp)
    rw [e, Res.bind_ok, pointOf_full hpt] at this
    exact this
  have hloop : ∀ n o, o + n = m → mvEvalLoop w c saved ts.length (o * ts.length) n
      = .ok ((List.range n).map fun i =>
          expandAt b.eff f.dim ts (coeffBlock saved ts.length (o + i)) fun d => pt.getD d 0) := by
    intro n
    induction n with
    | zero => intro o _; rfl
    | succ n ih =>
      intro o ho
      rw [mvEvalLoop, subview_block _ _ _ (block_bound (by omega) hs), Res.bind_ok, hev o (by omega), Res.bind_ok]
      have := ih (o + 1) (by omega)
      rw [Nat.add_mul, Nat.one_mul] at this
      rw [this, Res.bind_ok, List.range_succ_eq_map]
      simp [Function.comp_def, Nat.add_assoc, Nat.add_comm 1]
  have h0 := hloop m 0 (by omega)
  rw [Nat.zero_mul] at h0
  obtain ⟨c1, e1, e2⟩ := Res.bind_eq_ok.1 e
  simp only [List.nil_append, List.foldlM_cons, List.foldlM_nil] at e2
  obtain ⟨c2, e2, e3⟩ := Res.bind_eq_ok.1 e2
  rw [Res.pure_eq] at e3
  cases e3
  rw [mvEvaluate, hsz, Res.bind_ok, e1, Res.bind_ok, idx_getD' (by omega), Res.bind_ok, e2, Res.bind_ok, h0]
  simp

end

section
variable {f : FixedSet} (hb : Built f) (hcomp : f.isCompressed = true) (hD : 0 < f.dim)
  {ts : List (List Nat)} (hts : Holds f ts) (b : Basis ℝ) (hbasis : C1Basis b.eff) (m : Nat)
  (saved : List ℝ) (hs : m * ts.length ≤ saved.length) (pt : List ℝ) (hpt : pt.length = f.dim)
  (sens : List ℝ) (hsens : m ≤ sens.length)

/-- The scalar `Σ_o sens_o f_o(x)` whose gradients the library returns. -/
noncomputable def weighted (b : Basis ℝ) (D : Nat) (ts : List (List Nat)) (m : Nat) (saved sens : List ℝ)
    (x : Nat → ℝ) : ℝ :=
  ∑ o ∈ range m, sens.getD o 0 * expandAt b D ts (coeffBlock saved ts.length o) x

include hb hcomp hD hts hbasis hs hpt hsens in
/-- **C60, input gradient.** `Gradient` writes `∂/∂x_e Σ_o sens_o f_o(x)` in entry `e`. -/
theorem C60_gradient (grad0 : List ℝ) (hg0 : grad0.length = pt.length) :
    ∃ w out, ofFixed f = .ok w ∧ mvGradient w b saved m pt sens grad0 = .ok out ∧ out.length = f.dim ∧
      ∀ e, e < f.dim → HasDerivAt
        (fun y => weighted b.eff f.dim ts m saved sens (Function.update (fun d => pt.getD d 0) e y))
        (out.getD e 0) (pt.getD e 0) := by
  have hw := built_ofFixed hb hD hts
  generalize hwdef : mk' f.dim f (degs f.dim ts) = w at hw
  have hsz : w.multiSet.size = .ok ts.length := by rw [← hwdef]; exact hts.1
  obtain ⟨c, W, e, -⟩ := fillSeq_eq f.dim hD f (degs f.dim ts) (by simp [degs]) b pt (by omega) .input
    (List.replicate w.cacheSize none) (by rw [← hwdef]; simp [mk']) [] (pt.getD (pt.length - 1) 0) .input (by simp)
  rw [hwdef] at e
  have hev : ∀ o, o < m → ∀ grad : List ℝ, grad.length = f.dim →
      ∃ v g, inputDerivative w c (coeffBlock saved ts.length o) grad = .ok (v, g) ∧ g.length = f.dim ∧
        ∀ e, e < f.dim → HasDerivAt (fun y => expandAt b.eff f.dim ts (coeffBlock saved ts.length o)
          (Function.update (fun d => pt.getD d 0) e y)) (g.getD e 0) (pt.getD e 0) := by
    intro o ho grad hg
    obtain ⟨w', g, hw', hl, hd, -, h⟩ := C24_input hb hcomp hD hts b hbasis (coeffBlock saved ts.length o)
      (by rw [coeffBlock_length _ _ _ (block_bound ho hs)]) pt (by omega) [] (pt.getD (pt.length - 1) 0)
      .input .input (.inl rfl) (.inr (.inl rfl)) grad (by omega)
    rw [hw] at hw'; cases hw'
    have := h (List.replicate w.cacheSize none) (by simp)
    rw [e, Res.bind_ok, pointOf_full hpt] at this
    refine ⟨_, g, this, by omega, fun e he => ?_⟩
    obtain ⟨v, hv, hder⟩ := hd e he
    rw [pointOf_full hpt] at hder
    rw [List.getD_eq_getElem?_getD, hv, Option.getD_some]
    exact hder
  have hloop : ∀ n o, o + n = m → ∀ out grad : List ℝ, out.length = f.dim → grad.length = f.dim →
      (∀ e, e < f.dim → HasDerivAt (fun y => ∑ i ∈ range o, sens.getD i 0 *
        expandAt b.eff f.dim ts (coeffBlock saved ts.length i) (Function.update (fun d => pt.getD d 0) e y))
          (out.getD e 0) (pt.getD e 0)) →
      ∃ out', mvGradLoop w c saved sens ts.length f.dim out grad (o * ts.length) o n = .ok out' ∧
        out'.length = f.dim ∧ ∀ e, e < f.dim → HasDerivAt
        (fun y => weighted b.eff f.dim ts m saved sens (Function.update (fun d => pt.getD d 0) e y))
        (out'.getD e 0) (pt.getD e 0) := by
    intro n
    induction n with
    | zero =>
      intro o ho out grad h1 h2 h3
      have : o = m := by omega
      subst this
      exact ⟨out, rfl, h1, h3⟩
    | succ n ih =>
      intro o ho out grad h1 h2 h3
      obtain ⟨v, g, k1, k2, k3⟩ := hev o (by omega) grad h2
      obtain ⟨o', l1, l2, l3⟩ := axpy_eq (sens.getD o 0) g f.dim 0 out (by omega) (by omega)
      obtain ⟨out', r1, r2⟩ := ih (o + 1) (by omega) o' g (by omega) k2 (by
        intro e he
        simp only [sum_range_succ]
        rw [l3 e, if_pos (by omega)]
        exact (h3 e he).add ((k3 e he).const_mul _))
      rw [Nat.add_mul, Nat.one_mul] at r1
      refine ⟨out', ?_, r2⟩
      rw [mvGradLoop, subview_block _ _ _ (block_bound (by omega) hs), Res.bind_ok, k1, Res.bind_ok,
        idx_getD' (by omega), Res.bind_ok, l1, Res.bind_ok, r1]
  obtain ⟨out, r1, r2, r3⟩ := hloop m 0 (by omega) (List.replicate f.dim 0) grad0 (by simp) (by omega) (by
    intro e he
    simpa [he] using hasDerivAt_const (pt.getD e 0) (0 : ℝ))
  obtain ⟨c1, e1, e2⟩ := Res.bind_eq_ok.1 e
  simp only [List.nil_append, List.foldlM_cons, List.foldlM_nil] at e2
  obtain ⟨c2, e2, e3⟩ := Res.bind_eq_ok.1 e2
  rw [Res.pure_eq] at e3
  cases e3
  refine ⟨w, out, rfl.trans (by rw [← hw]), ?_, r2, r3⟩
  rw [Nat.zero_mul] at r1
  rw [mvGradient, hsz, Res.bind_ok, e1, Res.bind_ok, idx_getD' (by omega), Res.bind_ok, e2, Res.bind_ok, hpt, r1]

theorem coeffBlock_set_same (saved : List ℝ) (N o k : Nat) (hk : k < N) (z : ℝ) :
    coeffBlock (saved.set (o * N + k) z) N o = (coeffBlock saved N o).set k z := by
  apply List.ext_getElem?
  intro i
  by_cases hi : i < N
  · rw [coeffBlock_get _ _ _ _ hi, List.getElem?_set, List.getElem?_set, coeffBlock_get _ _ _ _ hi]
    by_cases h : k = i
    · subst h
      simp [coeffBlock, hk]
      by_cases h2 : o * N + k < saved.length
      · rw [if_pos h2, if_pos (by omega)]
      · rw [if_neg h2, if_neg (by omega)]
    · simp [h]
  · have h1 : N ≤ i := by omega
    simp [coeffBlock, List.getElem?_take, List.getElem?_set, hi]

theorem coeffBlock_set_other (saved : List ℝ) (N o o' k : Nat) (hk : k < N) (ho : o' ≠ o) (z : ℝ) :
    coeffBlock (saved.set (o * N + k) z) N o' = coeffBlock saved N o' := by
  apply List.ext_getElem?
  intro i
  by_cases hi : i < N
  · rw [coeffBlock_get _ _ _ _ hi, coeffBlock_get _ _ _ _ hi, List.getElem?_set, if_neg]
    intro h
    have e1 : (o * N + k) / N = o := by
      rw [Nat.mul_comm, Nat.mul_add_div (by omega), Nat.div_eq_of_lt hk, Nat.add_zero]
    have e2 : (o' * N + i) / N = o' := by
      rw [Nat.mul_comm, Nat.mul_add_div (by omega), Nat.div_eq_of_lt hi, Nat.add_zero]
    rw [h, e2] at e1
    exact ho e1
  · simp [coeffBlock, List.getElem?_take, hi]

include hb hcomp hD hts hbasis hs hpt hsens in
/-- **C60, coefficient gradient.** `CoeffGrad` writes `∂/∂c_j Σ_o sens_o f_o(x)` in entry `j` for every one of
the `m·N` coefficients, whatever the output buffer held before. -/
theorem C60_coeffGrad (grad0 out0 : List ℝ) (hg0 : grad0.length = ts.length) (ho0 : out0.length = m * ts.length) :
    ∃ w out, ofFixed f = .ok w ∧ mvCoeffGrad w b saved m pt sens grad0 out0 = .ok out ∧
      out.length = m * ts.length ∧
      ∀ o k, o < m → k < ts.length → ∀ z, HasDerivAt
        (fun z => weighted b.eff f.dim ts m (saved.set (o * ts.length + k) z) sens fun d => pt.getD d 0)
        (out.getD (o * ts.length + k) 0) z := by
  have hw := built_ofFixed hb hD hts
  generalize hwdef : mk' f.dim f (degs f.dim ts) = w at hw
  have hsz : w.multiSet.size = .ok ts.length := by rw [← hwdef]; exact hts.1
  obtain ⟨c, W, e, -⟩ := fillSeq_eq f.dim hD f (degs f.dim ts) (by simp [degs]) b pt (by omega) .parameters
    (List.replicate w.cacheSize none) (by rw [← hwdef]; simp [mk']) [] (pt.getD (pt.length - 1) 0) .parameters
    (by simp)
  rw [hwdef] at e
  have hev : ∀ o, o < m → ∀ grad : List ℝ, grad.length = ts.length →
      ∃ v g, coeffDerivative w c (coeffBlock saved ts.length o) grad = .ok (v, g) ∧ g.length = ts.length ∧
        ∀ k, k < ts.length → ∀ z, HasDerivAt (fun z => expandAt b.eff f.dim ts ((coeffBlock saved ts.length o).set k z)
          fun d => pt.getD d 0) (g.getD k 0) z := by
    intro o ho grad hg
    obtain ⟨w', hw', h⟩ := C24_coeff hb hcomp hD hts b hbasis (coeffBlock saved ts.length o)
      (by rw [coeffBlock_length _ _ _ (block_bound ho hs)]) pt (by omega) [] (pt.getD (pt.length - 1) 0)
      .parameters .parameters (by simp) grad (by omega)
    rw [hw] at hw'; cases hw'
    obtain ⟨g, hl, hd, -, h⟩ := h (List.replicate w.cacheSize none) (by simp)
    rw [e, Res.bind_ok, pointOf_full hpt] at h
    refine ⟨_, g, h, by omega, fun k hk z => ?_⟩
    obtain ⟨v, hv, hder⟩ := hd k hk
    rw [pointOf_full hpt] at hder
    rw [List.getD_eq_getElem?_getD, hv, Option.getD_some]
    exact hder z
  have hloop : ∀ n o, o + n = m → ∀ out grad : List ℝ, out.length = m * ts.length → grad.length = ts.length →
      (∀ o' k, o' < o → k < ts.length → ∀ z, HasDerivAt (fun z => sens.getD o' 0 *
        expandAt b.eff f.dim ts ((coeffBlock saved ts.length o').set k z) fun d => pt.getD d 0)
          (out.getD (o' * ts.length + k) 0) z) →
      ∃ out', mvCoeffLoop w c saved sens ts.length out grad (o * ts.length) o n = .ok out' ∧
        out'.length = m * ts.length ∧
        ∀ o' k, o' < m → k < ts.length → ∀ z, HasDerivAt (fun z => sens.getD o' 0 *
          expandAt b.eff f.dim ts ((coeffBlock saved ts.length o').set k z) fun d => pt.getD d 0)
          (out'.getD (o' * ts.length + k) 0) z := by
    intro n
    induction n with
    | zero =>
      intro o ho out grad h1 h2 h3
      have : o = m := by omega
      subst this
      exact ⟨out, rfl, h1, h3⟩
    | succ n ih =>
      intro o ho out grad h1 h2 h3
      obtain ⟨v, g, k1, k2, k3⟩ := hev o (by omega) grad h2
      have hbound := block_bound (o := o) (by omega) (Nat.le_refl (m * ts.length))
      rw [Nat.add_mul, Nat.one_mul] at hbound
      obtain ⟨o1, l1, l2, l3⟩ := scale_eq (sens.getD o 0) g (o * ts.length) ts.length 0 out (by omega) (by omega)
      obtain ⟨out', r1, r2⟩ := ih (o + 1) (by omega) o1 g (by omega) k2 (by
        intro o' k ho' hk z
        rw [List.getD_eq_getElem?_getD (l := o1), l3]
        by_cases hoo : o' = o
        · subst hoo
          rw [if_pos (by omega), Option.getD_some, Nat.add_sub_cancel_left]
          exact (k3 k hk z).const_mul _
        · have hlt : o' < o := by omega
          have : o' * ts.length + k < o * ts.length := by
            have := block_bound (o := o') hlt (Nat.le_refl (o * ts.length))
            rw [Nat.add_mul, Nat.one_mul] at this
            omega
          rw [if_neg (by omega), ← List.getD_eq_getElem?_getD (l := out)]
          exact h3 o' k hlt hk z)
      rw [Nat.add_mul, Nat.one_mul] at r1
      refine ⟨out', ?_, r2⟩
      rw [mvCoeffLoop, subview_block _ _ _ (block_bound (by omega) hs), Res.bind_ok, k1, Res.bind_ok,
        idx_getD' (by omega), Res.bind_ok, l1, Res.bind_ok, r1]
  obtain ⟨out, r1, r2, r3⟩ := hloop m 0 (by omega) out0 grad0 ho0 hg0 (by intro o' k ho'; omega)
  obtain ⟨c1, e1, e2⟩ := Res.bind_eq_ok.1 e
  simp only [List.nil_append, List.foldlM_cons, List.foldlM_nil] at e2
  obtain ⟨c2, e2, e3⟩ := Res.bind_eq_ok.1 e2
  rw [Res.pure_eq] at e3
  cases e3
  refine ⟨w, out, rfl.trans (by rw [← hw]), ?_, r2, ?_⟩
  · rw [Nat.zero_mul] at r1
    rw [mvCoeffGrad, hsz, Res.bind_ok, e1, Res.bind_ok, idx_getD' (by omega), Res.bind_ok, e2, Res.bind_ok, r1]
  · intro o k ho hk z
    have hm : o ∈ range m := mem_range.2 ho
    have hsum : ∀ z, weighted b.eff f.dim ts m (saved.set (o * ts.length + k) z) sens (fun d => pt.getD d 0)
        = sens.getD o 0 * expandAt b.eff f.dim ts ((coeffBlock saved ts.length o).set k z) (fun d => pt.getD d 0)
          + ∑ i ∈ (range m).erase o, sens.getD i 0 *
              expandAt b.eff f.dim ts (coeffBlock saved ts.length i) (fun d => pt.getD d 0) := by
      intro z
      rw [weighted, ← add_sum_erase _ _ hm, coeffBlock_set_same _ _ _ _ hk]
      congr 1
      exact sum_congr rfl fun i hi => by rw [coeffBlock_set_other _ _ _ _ _ hk (mem_erase.1 hi).1]
    rw [funext hsum]
    exact (r3 o k ho hk z).add_const _

end

/-! ### Non-vacuity -/

/-- The monomial basis satisfies the assumptions on the basis. -/
example : SmoothBasis ⟨fun n x => x ^ n, fun n x => n * x ^ (n - 1), fun n x => n * (((n - 1 : ℕ) : ℝ) * x ^ (n - 1 - 1))⟩ where
  one y := by simp
  d1 n y := by simpa using hasDerivAt_pow n y
  d2 n y := (hasDerivAt_pow (n - 1) y).const_mul _

/-- A compressed set of dimension 2 and six terms is built, and its expansion with two outputs evaluates:
`1 + 2y + 3y² + 4x + 5xy + 6x²` and `x²` at `(2, 3)`. -/
example : ∃ f ts w, Built f ∧ f.isCompressed = true ∧ 0 < f.dim ∧ Holds f ts ∧ ts.length = 6 ∧
    ofFixed f = .ok w ∧
    mvEvaluate (K := ℤ) w ⟨fun n x => x ^ n, fun n x => n * x ^ (n - 1), fun _ _ => 0⟩
      [1, 2, 3, 4, 5, 6, 0, 0, 0, 0, 0, 1] 2 [2, 3] = .ok [96, 4] := by
  refine ⟨_, _, _, .totalOrder (totalOrder_csr 2 (by omega) 2), rfl, by simp [csr], csr_holds 2 _ ?_, by decide +kernel,
    built_ofFixed (.totalOrder (totalOrder_csr 2 (by omega) 2)) (by simp [csr]) (csr_holds 2 _ ?_), ?_⟩
  · exact fun t ht => ((MISet.mem_toEnum _ _ _).1 ht).1
  · exact fun t ht => ((MISet.mem_toEnum _ _ _).1 ht).1
  · decide +kernel

end Worker
end MParT
