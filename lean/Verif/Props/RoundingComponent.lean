import Verif.Props.Rounding
import Verif.Props.ComponentFp
/-!
# C103 for a whole component: rounding errors of `Evaluate` with a fixed rule
-/
namespace MParT
open Spec Spec.Fp Worker FixedSet Fp Finset

variable {u : ℝ} {fl : ℝ → ℝ} (hfl : RelError u fl) {c : Component (Fl fl)} {D : Nat} {ts : List (List Nat)}
  (hv : Valid c D ts) {cs : List (Fl fl)} (hc : cs.length = ts.length) {pt : List (Fl fl)} (hpt : pt.length = D)

/-! ### The expansions inside the component -/

section
include hfl hv hc hpt

theorem slope_within (y : Fl fl) : SumWithin u (D + 1 + ts.length) (Spec.Fp.slope c.b D ts cs pt y).val D ts cs
    (factorD1 c.b (coordinate D pt y) (D - 1)) := by
  obtain ⟨f, hb, hcomp, rfl, hts, hw⟩ := hv.fixed
  obtain ⟨w, e, h⟩ := C103_diagonal hfl hb hcomp hv.pos hts c.b cs hc.ge pt (by omega) [] y .none .diagonal (.inl rfl)
  cases e.symm.trans hw
  obtain ⟨v, ev, hv'⟩ := h (List.replicate c.w.cacheSize none) (by simp)
  obtain ⟨c1, e1, h1⟩ := cached_start hv (pt := pt) (by omega) (List.replicate c.w.cacheSize none) (by simp) .none
  obtain ⟨c2, e2, h2⟩ := h1.fill hv y .diagonal (by decide)
  simp only [fillSeq, e1, Res.bind_ok, List.nil_append, List.foldlM_cons, e2, List.foldlM_nil, Res.pure_eq, h2.diag1 hv hc (by decide) (by decide)] at ev
  cases ev
  exact hv'

theorem value_within (y : Fl fl) : SumWithin u (D + 1 + ts.length) (Spec.Fp.value c.b D ts cs pt y).val D ts cs
    (factor c.b (coordinate D pt y)) := by
  obtain ⟨f, hb, hcomp, rfl, hts, hw⟩ := hv.fixed
  obtain ⟨w, e, h⟩ := C103_evaluate hfl hb hcomp hv.pos hts c.b cs hc.ge pt (by omega) [] y .none .none (by decide)
  cases e.symm.trans hw
  obtain ⟨v, ev, hv'⟩ := h (List.replicate c.w.cacheSize none) (by simp)
  obtain ⟨c1, e1, h1⟩ := cached_start hv (pt := pt) (by omega) (List.replicate c.w.cacheSize none) (by simp) .none
  obtain ⟨c2, e2, h2⟩ := h1.fill hv y .none (by decide)
  simp only [fillSeq, e1, Res.bind_ok, List.nil_append, List.foldlM_cons, e2, List.foldlM_nil, Res.pure_eq, h2.evaluate hv hc] at ev
  cases ev
  exact hv'

end

theorem abs_expansion_le (D : Nat) (ts : List (List Nat)) (cs : List (Fl fl)) (φ : Nat → Nat → ℝ) :
    |expansion D ts (cs.map Fl.val) φ| ≤ expansion D ts (cs.map fun v => |v.val|) fun d n => |φ d n| := by
  unfold expansion termProd
  refine (abs_sum_le_sum_abs _ _).trans (sum_le_sum fun k _ => ?_)
  rw [abs_mul, abs_prod]
  refine mul_le_mul_of_nonneg_right ?_ (prod_nonneg fun _ _ => abs_nonneg _)
  simp only [List.getD_eq_getElem?_getD, List.getElem?_map]
  cases cs[k]? <;> simp

/-! ### The rule -/

theorem integral_rule {F : Fl fl → List (Fl fl)} (v : Fl fl → Fl fl) (hF : ∀ t, F t = [v t]) :
    ∀ (rule : List (Fl fl × Fl fl)) (a : Fl fl), integral F (Prog.ofRule 1 rule [a]) = .ok [rule.foldl (fun a p => a + p.2 * v p.1) a]
  | [], a => rfl
  | (t, w) :: rule, a => by
    simp only [Prog.ofRule, integral, hF, List.zipWith_cons_cons, List.zipWith_nil_left, List.foldl_cons]
    exact integral_rule v hF rule _

theorem rule_close (hfl : RelError u fl) (v : Fl fl → Fl fl) (m M : Fl fl → ℝ) {k : Nat} (hv : ∀ t, Close u k (v t).val (m t) (M t)) :
    ∀ (rule : List (Fl fl × Fl fl)) (a : Fl fl) (j : Nat) (s S : ℝ), Close u (k + 1 + j) a.val s S →
      Close u (k + 1 + j + rule.length) (rule.foldl (fun a p => a + p.2 * v p.1) a).val (s + (rule.map fun p => p.2.val * m p.1).sum)
        (S + (rule.map fun p => |p.2.val| * M p.1).sum)
  | [], a, j, s, S, h => by simpa using h
  | (t, w) :: rule, a, j, s, S, h => by
    have h1 := (Close.exact hfl.nonneg 0 w.val).mul hfl (hv t)
    have h2 := h.add hfl (h1.mono hfl.nonneg (show 0 + k + 1 ≤ k + 1 + j by omega))
    have h3 := rule_close hfl v m M hv rule _ (j + 1) _ _ h2
    rw [List.foldl_cons, List.map_cons, List.map_cons, List.sum_cons, List.sum_cons, List.length_cons, ← add_assoc s, ← add_assoc S]
    rw [show k + 1 + j + (rule.length + 1) = k + 1 + (j + 1) + rule.length by omega]
    exact h3

/-! ### The component -/

/-- The number the quadrature rule adds up to: `Σ_i w_i x_D g_i`. -/
noncomputable def ruleSum (rule : List (Fl fl × Fl fl)) (xd : ℝ) (g : Fl fl → ℝ) : ℝ := (rule.map fun p => p.2.val * (xd * g p.1)).sum

/-- The same with absolute values. -/
noncomputable def ruleAbs (rule : List (Fl fl × Fl fl)) (xd : ℝ) (g : Fl fl → ℝ) : ℝ := (rule.map fun p => |p.2.val| * (|xd| * |g p.1|)).sum

include hfl hv hc hpt in
/-- **C103, a monotone component.** With a fixed rule with nodes `t_i` and weights `w_i`, `Evaluate` returns
`Σ_i w_i x_D g(s_i) + f(x_{1:D-1}, 0)` for the numbers `g` returns, up to the error of as many roundings as the longest chain of operations
has, relative to the sum of the absolute values of the summands; and each `s_i` is `∂_D f(x_{1:D-1}, t_i x_D)`, for the numbers the basis returns,
up to the error of (dimension + 1 + number of terms) roundings. -/
theorem C103_component (hinf : ∀ x, c.isInf x = false) (rule : List (Fl fl × Fl fl)) (hq : c.quad 1 = Prog.ofRule 1 rule [0])
    (scratch : Cache (Fl fl)) (hs : scratch.length = c.w.cacheSize) (xd : Fl fl) (hxd : pt[D - 1]? = some xd) :
    ∃ (y : Fl fl) (s : Fl fl → Fl fl), c.evaluatePt scratch cs pt = .ok y ∧
      Within u (max (rule.length + 3) (D + 1 + ts.length) + 1) y.val
        (ruleSum rule xd.val (fun t => (c.g.eval (s t)).val) + expansion D ts (cs.map Fl.val) (factor c.b (coordinate D pt 0)))
        (ruleAbs rule xd.val (fun t => (c.g.eval (s t)).val)
          + expansion D ts (cs.map fun v => |v.val|) fun d n => |factor c.b (coordinate D pt 0) d n|) ∧
      ∀ t, SumWithin u (D + 1 + ts.length) (s t).val D ts cs (factorD1 c.b (coordinate D pt (t * xd)) (D - 1)) := by
  have e := (C108_evaluate hv hc hpt scratch hs xd hxd).2 fun t _ => by simp [Overflows, hinf]
  set s : Fl fl → Fl fl := fun t => Spec.Fp.slope c.b D ts cs pt (t * xd) with hsd
  rw [hq, integral_rule (F := integrandAt c D ts cs pt xd 0) (fun t => xd * (c.g.eval (s t) + 0)) (fun t => rfl)] at e
  refine ⟨_, s, e, ?_, fun t => slope_within hfl hv hc hpt _⟩
  have h1 : ∀ t, Close u 2 (xd * (c.g.eval (s t) + 0)).val (xd.val * (c.g.eval (s t)).val) (|xd.val| * |(c.g.eval (s t)).val|) := by
    intro t
    have h := (Close.exact hfl.nonneg 0 (c.g.eval (s t)).val).add hfl (Close.zero hfl.nonneg 0)
    rw [add_zero, add_zero] at h
    exact (Close.exact hfl.nonneg 0 xd.val).mul hfl h
  have h2 := rule_close hfl _ _ _ h1 rule 0 0 0 0 (Close.zero hfl.nonneg _)
  rw [zero_add, zero_add] at h2
  have h3 : Close u (D + 1 + ts.length) (Spec.Fp.value c.b D ts cs pt 0).val _ _ := ⟨value_within hfl hv hc hpt 0, abs_expansion_le D ts cs _⟩
  have h4 := (h2.mono hfl.nonneg (show 2 + 1 + 0 + rule.length ≤ max (rule.length + 3) (D + 1 + ts.length) by omega)).add hfl
    (h3.mono hfl.nonneg (le_max_right (rule.length + 3) _))
  exact h4.within

include hfl hv hc hpt in
/-- **C103, a monotone component with a Lipschitz positive function** such as the soft plus. If `g` is computed with an absolute error of at most
`ε` and has the Lipschitz constant `L`, the result differs from the exact value of the discretised component, for the numbers the basis returns,
by at most the rounding errors of the sum plus `Σ_i |w_i x_D|` times (`ε` plus `L` times the rounding error of the slope). -/
theorem C103_component_lipschitz (hinf : ∀ x, c.isInf x = false) (rule : List (Fl fl × Fl fl)) (hq : c.quad 1 = Prog.ofRule 1 rule [0])
    (scratch : Cache (Fl fl)) (hs : scratch.length = c.w.cacheSize) (xd : Fl fl) (hxd : pt[D - 1]? = some xd)
    {γ : ℝ → ℝ} {ε L : ℝ} (hL : 0 ≤ L) (hg : ∀ s, |(c.g.eval s).val - γ s.val| ≤ ε) (hγ : ∀ a b, |γ a - γ b| ≤ L * |a - b|) :
    ∃ (y : Fl fl) (g : Fl fl → ℝ), c.evaluatePt scratch cs pt = .ok y ∧
      |y.val - ((rule.map fun p => p.2.val * (xd.val * γ (expansion D ts (cs.map Fl.val) (factorD1 c.b (coordinate D pt (p.1 * xd)) (D - 1))))).sum
          + expansion D ts (cs.map Fl.val) (factor c.b (coordinate D pt 0)))|
        ≤ ((1 + u) ^ (max (rule.length + 3) (D + 1 + ts.length) + 1) - 1)
            * (ruleAbs rule xd.val g + expansion D ts (cs.map fun v => |v.val|) fun d n => |factor c.b (coordinate D pt 0) d n|)
          + (rule.map fun p => |p.2.val| * (|xd.val| * (ε + L * (((1 + u) ^ (D + 1 + ts.length) - 1)
            * expansion D ts (cs.map fun v => |v.val|) fun d n => |factorD1 c.b (coordinate D pt (p.1 * xd)) (D - 1) d n|)))).sum ∧
      ∀ t, |g t - γ (expansion D ts (cs.map Fl.val) (factorD1 c.b (coordinate D pt (t * xd)) (D - 1)))| ≤ ε + L * (((1 + u) ^ (D + 1 + ts.length) - 1)
            * expansion D ts (cs.map fun v => |v.val|) fun d n => |factorD1 c.b (coordinate D pt (t * xd)) (D - 1) d n|) := by
  obtain ⟨y, s, e, h1, h2⟩ := C103_component hfl hv hc hpt hinf rule hq scratch hs xd hxd
  have h3 : ∀ t, |(c.g.eval (s t)).val - γ (expansion D ts (cs.map Fl.val) (factorD1 c.b (coordinate D pt (t * xd)) (D - 1)))| ≤
      ε + L * (((1 + u) ^ (D + 1 + ts.length) - 1)
        * expansion D ts (cs.map fun v => |v.val|) fun d n => |factorD1 c.b (coordinate D pt (t * xd)) (D - 1) d n|) := by
    intro t
    refine (abs_sub_le _ (γ (s t).val) _).trans (add_le_add (hg _) ((hγ _ _).trans (mul_le_mul_of_nonneg_left (h2 t) hL)))
  refine ⟨y, fun t => (c.g.eval (s t)).val, e, ?_, h3⟩
  have h4 : ∀ l : List (Fl fl × Fl fl), |ruleSum l xd.val (fun t => (c.g.eval (s t)).val)
      - (l.map fun p => p.2.val * (xd.val * γ (expansion D ts (cs.map Fl.val) (factorD1 c.b (coordinate D pt (p.1 * xd)) (D - 1))))).sum|
      ≤ (l.map fun p => |p.2.val| * (|xd.val| * (ε + L * (((1 + u) ^ (D + 1 + ts.length) - 1)
            * expansion D ts (cs.map fun v => |v.val|) fun d n => |factorD1 c.b (coordinate D pt (p.1 * xd)) (D - 1) d n|)))).sum := by
    intro l
    induction l with
    | nil => simp [ruleSum]
    | cons p l ih =>
      unfold ruleSum at ih ⊢
      rw [List.map_cons, List.map_cons, List.map_cons, List.sum_cons, List.sum_cons, List.sum_cons, add_sub_add_comm]
      refine (abs_add_le _ _).trans (add_le_add ?_ ih)
      rw [← mul_sub, ← mul_sub, abs_mul, abs_mul]
      exact mul_le_mul_of_nonneg_left (mul_le_mul_of_nonneg_left (h3 _) (abs_nonneg _)) (abs_nonneg _)
  unfold Within at h1
  have h5 := abs_add_le (y.val - (ruleSum rule xd.val (fun t => (c.g.eval (s t)).val)
      + expansion D ts (cs.map Fl.val) (factor c.b (coordinate D pt 0))))
    (ruleSum rule xd.val (fun t => (c.g.eval (s t)).val)
      - (rule.map fun p => p.2.val * (xd.val * γ (expansion D ts (cs.map Fl.val) (factorD1 c.b (coordinate D pt (p.1 * xd)) (D - 1))))).sum)
  have h6 := h4 rule
  refine le_trans (le_of_eq ?_) (h5.trans (add_le_add h1 h6))
  congr 1
  ring

/-! ### A concrete component -/

/-- The component `c0 + c1 x` of one variable in double precision, with a two-point rule. -/
noncomputable def lineFl : Component (Fl (nearest 53)) where
  w := ⟨1, ⟨1, true, [0, 0, 1], [0], [1], [1]⟩, [0, 2, 4, 6], [1], 6⟩
  b := ⟨fun n x => Nat.rec 1 (fun _ a => a * x) n, fun n _ => if n = 0 then 0 else 1, fun _ _ => 0⟩
  g := ⟨fun x => Fl.of (nearest 53 (min |x.val| 1)), fun _ => 1, fun _ => 0⟩
  quad n := Prog.ofRule n [(Fl.of 0.25, Fl.of 0.5), (Fl.of 0.75, Fl.of 0.5)] (List.replicate n 0)
  useContDeriv := true
  nugget := 0
  isInf _ := false
  nonpos _ := false
  log x := x
  negInf := 0

theorem lineFl_valid : Valid lineFl 1 [[0], [1]] := by
  refine ⟨⟨⟨1, true, [0, 0, 1], [0], [1], [1]⟩, .totalOrder (dim := 1) (p := 1) (by decide), rfl, rfl, ⟨by decide, ?_⟩, by
    have h : ofFixed ⟨1, true, [0, 0, 1], [0], [1], [1]⟩ = Res.ok (⟨1, ⟨1, true, [0, 0, 1], [0], [1], [1]⟩, [0, 2, 4, 6], [1], 6⟩ : Worker) := by
      decide
    exact h⟩, by norm_num, fun n => ?_⟩
  · intro i t h
    match i with
    | 0 => cases h; decide
    | 1 => cases h; decide
    | i + 2 => cases h
  · refine ⟨by simp, fun o ho => ⟨by simp, fun o' ho' => ?_⟩⟩
    show (List.zipWith _ _ o').length = n
    simp [ho, ho']

/-- Non-vacuous: double precision, a rule with two nodes, coefficients and a point that are not exact. -/
example : ∃ (y : Fl (nearest 53)) (s : Fl (nearest 53) → Fl (nearest 53)),
    lineFl.evaluatePt (List.replicate 6 none) [Fl.of 0.1, Fl.of 0.3] [Fl.of 0.7] = .ok y ∧
    Within (2 ^ (-53 : ℤ)) 6 y.val
      (ruleSum [(Fl.of 0.25, Fl.of 0.5), (Fl.of 0.75, Fl.of 0.5)] 0.7 (fun t => (lineFl.g.eval (s t)).val)
        + expansion 1 [[0], [1]] (([Fl.of 0.1, Fl.of 0.3] : List (Fl (nearest 53))).map Fl.val) (factor lineFl.b (coordinate 1 [Fl.of 0.7] 0)))
      (ruleAbs [(Fl.of 0.25, Fl.of 0.5), (Fl.of 0.75, Fl.of 0.5)] 0.7 (fun t => (lineFl.g.eval (s t)).val)
        + expansion 1 [[0], [1]] (([Fl.of 0.1, Fl.of 0.3] : List (Fl (nearest 53))).map fun v => |v.val|)
          fun d n => |factor lineFl.b (coordinate 1 [Fl.of 0.7] 0) d n|) := by
  obtain ⟨y, s, e, h, -⟩ := C103_component C103_double lineFl_valid (cs := [Fl.of 0.1, Fl.of 0.3]) rfl (pt := [Fl.of 0.7]) rfl (fun _ => rfl)
    [(Fl.of 0.25, Fl.of 0.5), (Fl.of 0.75, Fl.of 0.5)] rfl (List.replicate 6 none) rfl (Fl.of 0.7) rfl
  exact ⟨y, s, e, h⟩

/-- Non-vacuous: the hypotheses on the positive function of `C103_component_lipschitz`. -/
example : (∀ s, |(lineFl.g.eval s).val - (fun x => min |x| 1) s.val| ≤ 2 ^ (-53 : ℤ)) ∧
    ∀ a b : ℝ, |(fun x => min |x| 1) a - (fun x => min |x| 1) b| ≤ 1 * |a - b| := by
  refine ⟨fun s => ?_, fun a b => ?_⟩
  · refine (C103_double.bound _).trans (mul_le_of_le_one_right C103_double.nonneg ?_)
    rw [abs_of_nonneg (le_min (abs_nonneg _) zero_le_one)]
    exact min_le_right _ _
  · refine (abs_min_sub_min_le_max _ _ _ _).trans ?_
    rw [sub_self, abs_zero, one_mul]
    exact max_le (abs_abs_sub_abs_le a b) (abs_nonneg _)

end MParT
