import Verif.Props.MonotoneQuad
import Mathlib.Analysis.SpecialFunctions.Bernstein
import Mathlib.Analysis.Complex.ExponentialBounds
/-!
# C109: more quadrature points bring a component closer to the exact integral
-/
namespace MParT
open Spec Finset Polynomial Worker

/-! ### Rules with non-negative weights -/

/-- The list of nodes and weights is a rule on `[a,b]`: nodes in the interval, non-negative weights that sum to its length. -/
structure Spec.PosRule (R : List (ℝ × ℝ)) (a b : ℝ) : Prop where
  node : ∀ p ∈ R, a ≤ p.1 ∧ p.1 ≤ b
  weight : ∀ p ∈ R, 0 ≤ p.2
  total : (R.map (·.2)).sum = b - a

theorem rule_dist (R : List (ℝ × ℝ)) {a b : ℝ} (hn : ∀ p ∈ R, a ≤ p.1 ∧ p.1 ≤ b) (hw : ∀ p ∈ R, 0 ≤ p.2) (h k : ℝ → ℝ) (ε : ℝ)
    (he : ∀ t, a ≤ t → t ≤ b → |h t - k t| ≤ ε) :
    |(R.map fun p => p.2 * h p.1).sum - (R.map fun p => p.2 * k p.1).sum| ≤ (R.map (·.2)).sum * ε := by
  induction R with
  | nil => simp
  | cons p R ih =>
    simp only [List.map_cons, List.sum_cons]
    have h1 := ih (fun q hq => hn q (by simp [hq])) (fun q hq => hw q (by simp [hq]))
    have h2 : |p.2 * (h p.1 - k p.1)| ≤ p.2 * ε := by
      rw [abs_mul, abs_of_nonneg (hw p (by simp))]
      exact mul_le_mul_of_nonneg_left (he _ (hn p (by simp)).1 (hn p (by simp)).2) (hw p (by simp))
    calc _ = |p.2 * (h p.1 - k p.1) + ((R.map fun p => p.2 * h p.1).sum - (R.map fun p => p.2 * k p.1).sum)| := by
          congr 1; ring
      _ ≤ _ := (abs_add_le _ _).trans (by linarith)

/-- The error of a rule with non-negative weights is at most twice the length of the interval times the distance of the
integrand to any function the rule integrates exactly. -/
theorem rule_error {R : List (ℝ × ℝ)} {a b : ℝ} (hR : PosRule R a b) (hab : a ≤ b) {h k : ℝ → ℝ} (hh : Continuous h)
    (hk : Continuous k) {ε : ℝ} (hex : (R.map fun p => p.2 * k p.1).sum = ∫ t in a..b, k t)
    (he : ∀ t, a ≤ t → t ≤ b → |h t - k t| ≤ ε) :
    |(R.map fun p => p.2 * h p.1).sum - ∫ t in a..b, h t| ≤ (b - a) * (2 * ε) := by
  have h1 := rule_dist R hR.node hR.weight h k ε he
  rw [hR.total, hex] at h1
  have h2 : |(∫ t in a..b, k t) - ∫ t in a..b, h t| ≤ ε * |b - a| := by
    rw [← intervalIntegral.integral_sub (hk.intervalIntegrable _ _) (hh.intervalIntegrable _ _)]
    have := intervalIntegral.norm_integral_le_of_norm_le_const (a := a) (b := b) (f := fun t => k t - h t) (C := ε)
      (fun t ht => by
        rw [Set.uIoc_of_le hab] at ht
        rw [Real.norm_eq_abs, abs_sub_comm]
        exact he t ht.1.le ht.2)
    simpa using this
  rw [abs_of_nonneg (by linarith : 0 ≤ b - a)] at h2
  calc _ ≤ _ := abs_sub_le _ (∫ t in a..b, k t) _
    _ ≤ _ := by linarith

theorem posRule_moved {n : Nat} {p w : Nat → ℝ} (hp : ∀ i < n, -1 ≤ p i ∧ p i ≤ 1) (hw : ∀ i < n, 0 ≤ w i)
    (ht : ∑ i ∈ range n, w i = 2) {a b : ℝ} (hab : a ≤ b) : PosRule (QProg.moved n p w a b) a b := by
  refine ⟨fun q hq => ?_, fun q hq => ?_, ?_⟩
  · simp only [QProg.moved, List.mem_map, List.mem_range] at hq
    obtain ⟨i, hi, rfl⟩ := hq
    have := hp i hi
    constructor <;> simp only <;> nlinarith
  · simp only [QProg.moved, List.mem_map, List.mem_range] at hq
    obtain ⟨i, hi, rfl⟩ := hq
    exact mul_nonneg (by linarith) (hw i hi)
  · have := moved_sum n p w (fun _ => 1) a b
    simp only [mul_one] at this
    rw [this, applyRule]
    simp only [mul_one]
    rw [← mul_sum, ht]; ring

/-- The rules of `GetRule` are positive and exact. -/
theorem getRule_use {n : Nat} (hn : 1 ≤ n) (hb : n ≤ 65537) {wts pts w p : Mem} (hw : n ≤ wts.size) (hp : n ≤ pts.size)
    (hr : ClenshawCurtis.getRule n wts pts = .ok (w, p)) {a b : ℝ} (hab : a ≤ b) :
    PosRule (QProg.moved n p.val w.val a b) a b ∧ w.size = wts.size ∧ p.size = pts.size ∧
    ∀ P : ℝ[X], P.natDegree < n → ((QProg.moved n p.val w.val a b).map fun q => q.2 * P.eval q.1).sum = ∫ t in a..b, P.eval t := by
  obtain ⟨w', p', e, h1, -, h3, h4, sw, sp, -⟩ := C32_rule n hn hb wts pts hw hp
  rw [e] at hr
  obtain ⟨rfl, rfl⟩ := Prod.mk.inj (Res.ok.inj hr)
  refine ⟨posRule_moved (fun i hi => ⟨(h1 i hi).1, (h1 i hi).2.1⟩) (fun i hi => (h1 i hi).2.2.2.1.le) h3 hab, sw, sp, fun P hP => ?_⟩
  rw [moved_sum _ _ _ (fun x => P.eval x)]
  exact applyRule_exact n (n - 1) _ _ (fun Q hQ => h4 Q (by omega)) P (by omega) a b

/-! ### Adaptive rules -/

/-- On every interval inside `[0,1]` that is at most `δ` long, the function is within `ε` of a polynomial of degree at most `d`. -/
def Spec.PiecewiseNear (h : ℝ → ℝ) (d : Nat) (δ ε : ℝ) : Prop :=
  ∀ a b, 0 ≤ a → a ≤ b → b ≤ 1 → b - a ≤ δ → ∃ P : ℝ[X], P.natDegree ≤ d ∧ ∀ t, a ≤ t → t ≤ b → |h t - P.eval t| ≤ ε

theorem leaves_error {h : ℝ → ℝ} (hh : Continuous h) {deg : Nat} {ε : ℝ} (rule : ℝ → ℝ → List (ℝ × ℝ))
    (hR : ∀ a b, a ≤ b → PosRule (rule a b) a b)
    (hex : ∀ a b, a ≤ b → ∀ P : ℝ[X], P.natDegree ≤ deg → ((rule a b).map fun q => q.2 * P.eval q.1).sum = ∫ t in a..b, P.eval t)
    (stop : Nat → ℝ → ℝ → Prop) (minSub : Nat) (hstop : ∀ l a b, stop l a b → minSub ≤ l) (d : Nat) :
    ∀ (level : Nat) (a b : ℝ), 0 ≤ a → a ≤ b → b ≤ 1 → minSub ≤ level + d →
      PiecewiseNear h deg ((b - a) / 2 ^ (minSub - level)) ε →
      |((leaves stop d level a b).map fun p => ((rule p.1 p.2).map fun q => q.2 * h q.1).sum).sum - ∫ t in a..b, h t|
        ≤ (b - a) * (2 * ε) := by
  have leaf : ∀ (level : Nat) (a b : ℝ), 0 ≤ a → a ≤ b → b ≤ 1 → minSub ≤ level →
      PiecewiseNear h deg ((b - a) / 2 ^ (minSub - level)) ε →
      |((rule a b).map fun q => q.2 * h q.1).sum - ∫ t in a..b, h t| ≤ (b - a) * (2 * ε) := by
    intro level a b h0 hab h1 hl hn
    rw [Nat.sub_eq_zero_of_le hl, pow_zero, div_one] at hn
    obtain ⟨P, hP, hd⟩ := hn a b h0 hab h1 le_rfl
    exact rule_error (hR a b hab) hab hh P.continuous (hex a b hab P hP) hd
  induction d with
  | zero =>
    intro level a b h0 hab h1 hl hn
    simpa [leaves] using leaf level a b h0 hab h1 (by omega) hn
  | succ d ih =>
    intro level a b h0 hab h1 hl hn
    rw [leaves]
    split
    · rename_i hs
      simpa using leaf level a b h0 hab h1 (hstop _ _ _ hs) hn
    · have hn' : PiecewiseNear h deg ((b - a) / 2 / 2 ^ (minSub - (level + 1))) ε := by
        intro a' b' x1 x2 x3 x4
        refine hn a' b' x1 x2 x3 (x4.trans ?_)
        have hba : 0 ≤ b - a := by linarith
        rcases Nat.lt_or_ge level minSub with hlt | hge
        · rw [show minSub - level = minSub - (level + 1) + 1 by omega, pow_succ, div_div, mul_comm (2 : ℝ)]
        · rw [Nat.sub_eq_zero_of_le hge, Nat.sub_eq_zero_of_le (by omega)]
          simp only [pow_zero, div_one]
          linarith
      have i1 := ih (level + 1) a ((a + b) / 2) h0 (by linarith) (by linarith) (by omega)
        (by rw [show (a + b) / 2 - a = (b - a) / 2 by ring]; exact hn')
      have i2 := ih (level + 1) ((a + b) / 2) b (by linarith) (by linarith) h1 (by omega)
        (by rw [show b - (a + b) / 2 = (b - a) / 2 by ring]; exact hn')
      rw [List.map_append, List.sum_append,
        ← intervalIntegral.integral_add_adjacent_intervals (hh.intervalIntegrable a ((a + b) / 2)) (hh.intervalIntegrable _ b)]
      refine le_trans (le_trans (le_of_eq ?_) (abs_add_le _ _)) ((add_le_add i1 i2).trans (le_of_eq ?_))
      · congr 1; ring
      · ring

theorem posRule_simpson {a b : ℝ} (hab : a ≤ b) : PosRule ((QProg.simpsonRule a b).map fun r => (r.1, r.2.2)) a b := by
  refine ⟨fun q hq => ?_, fun q hq => ?_, ?_⟩
  · simp only [QProg.simpsonRule, List.map_cons, List.map_nil, List.mem_cons, List.not_mem_nil, or_false] at hq
    rcases hq with rfl | rfl | rfl | rfl | rfl <;> constructor <;> simp only <;> linarith
  · simp only [QProg.simpsonRule, List.map_cons, List.map_nil, List.mem_cons, List.not_mem_nil, or_false] at hq
    rcases hq with rfl | rfl | rfl | rfl | rfl <;> simp only <;> linarith
  · simp [QProg.simpsonRule]; ring

theorem exact_simpson (a b : ℝ) (P : ℝ[X]) (hP : P.natDegree ≤ 3) :
    (((QProg.simpsonRule a b).map fun r => (r.1, r.2.2)).map fun q => q.2 * P.eval q.1).sum = ∫ t in a..b, P.eval t := by
  rw [← simpson2_exact P hP]
  simp [QProg.simpsonRule, simpson2, Spec.simpson]; ring


theorem posRule_nested {l : Nat} (hl : 1 ≤ l) (hl' : l ≤ 15) {r : NestedRule} (hr : AdaptiveClenshawCurtis.new l = .ok r) {a b : ℝ}
    (hab : a ≤ b) : PosRule ((QProg.nestedRule r a b).map fun r => (r.1, r.2.2)) a b ∧
    ∀ P : ℝ[X], P.natDegree ≤ 2 ^ (l + 1) →
      (((QProg.nestedRule r a b).map fun r => (r.1, r.2.2)).map fun q => q.2 * P.eval q.1).sum = ∫ t in a..b, P.eval t := by
  obtain ⟨r', e, s1, -, s3, -⟩ := (C34_rules l).1 hl
  obtain ⟨r'', e', -, hc, hw⟩ := AdaptiveClenshawCurtis.new_ok l hl
  rw [hr] at e e'
  obtain rfl := Res.ok.inj e
  obtain rfl := Res.ok.inj e'
  have hN : 1 ≤ 2 ^ (l + 1) := Nat.one_le_two_pow
  have hb : 2 ^ (l + 1) ≤ 65536 := (Nat.pow_le_pow_right (by omega) (by omega : l + 1 ≤ 16)).trans_eq (by norm_num)
  have hpt : ∀ N i : Nat, -1 ≤ ClenshawCurtis.pt N i ∧ ClenshawCurtis.pt N i ≤ 1 := fun N i => by
    rw [ClenshawCurtis.pt]
    constructor <;> linarith [Real.cos_le_one (i * Real.pi / N), Real.neg_one_le_cos (i * Real.pi / N)]
  have hsum : ∀ g : ℝ → ℝ, ∑ i ∈ range (2 ^ (l + 1) + 1), r.fineWts.val i * g (r.finePts.val i)
      = ∑ i ∈ range (2 ^ (l + 1) + 1), ClenshawCurtis.wt (2 ^ (l + 1)) i * g (ClenshawCurtis.pt (2 ^ (l + 1)) i) := fun g =>
    sum_congr rfl fun i hi => by
      have := mem_range.mp hi
      rw [(hw i (by omega)).1, (hw i (by omega)).2]
  have hfine := posRule_moved (n := 2 ^ (l + 1) + 1) (p := r.finePts.val) (w := r.fineWts.val)
    (fun i hi => by rw [(hw i (by omega)).1]; exact hpt _ _)
    (fun i hi => by rw [(hw i (by omega)).2]; exact (ClenshawCurtis.wt_pos _ i hN (by omega)).le)
    (by have := hsum fun _ => 1; simp only [mul_one] at this; rw [this, ClenshawCurtis.wt_total _ hN]) hab
  have hz : ∀ (L : List (ℝ × ℝ)) (g : ℝ → ℝ), (L.map fun p => (0 : ℝ) * g p.1).sum = 0 := by intro L g; simp
  have hall : ∀ g : ℝ → ℝ, (((QProg.nestedRule r a b).map fun r => (r.1, r.2.2)).map fun q => q.2 * g q.1).sum
      = ((QProg.moved (2 ^ (l + 1) + 1) r.finePts.val r.fineWts.val a b).map fun q => q.2 * g q.1).sum := by
    intro g
    rw [QProg.nestedRule, s3]
    simp [List.map_append, Function.comp_def]
  refine ⟨⟨fun q hq => ?_, fun q hq => ?_, ?_⟩, fun P hP => ?_⟩
  · simp only [QProg.nestedRule, List.map_append, List.map_map, List.mem_append, List.mem_map] at hq
    rcases hq with ⟨q, hq, rfl⟩ | ⟨q, hq, rfl⟩
    · simp only [QProg.moved, List.mem_map, List.mem_range, s1] at hq
      obtain ⟨i, hi, rfl⟩ := hq
      simp only [Function.comp, (hc i (by omega)).1]
      have := hpt (2 ^ l) i
      constructor <;> nlinarith
    · rw [s3] at hq
      exact hfine.node q hq
  · simp only [QProg.nestedRule, List.map_append, List.map_map, List.mem_append, List.mem_map] at hq
    rcases hq with ⟨q, hq, rfl⟩ | ⟨q, hq, rfl⟩
    · exact le_rfl
    · rw [s3] at hq
      exact hfine.weight q hq
  · have := hall fun _ => 1
    simp only [mul_one] at this
    rw [← hfine.total, this]
  · rw [hall fun x => P.eval x, moved_sum _ _ _ (fun x => P.eval x)]
    exact applyRule_exact _ _ _ _ (fun Q hQ => by
      rw [hsum fun x => Q.eval x]; exact ClenshawCurtis.exact _ hN hb Q hQ) P hP a b

/-! ### Components -/

variable {c : MonotoneComponent} {D : Nat} {ts : List (List Nat)}

/-- The error of `Evaluate` is the error of the quadrature. -/
theorem component_error (hv : ValidComponent c D ts) {mesh : (ℝ → ℝ) → List (ℝ × ℝ)} (hm : UsesMesh c.quad mesh) {cs pt : List ℝ}
    (hc : cs.length = ts.length) (hpt : pt.length = D) (scr : Cache ℝ) (hs : scr.length = c.w.cacheSize) {ε : ℝ}
    (he : |((mesh (unitDensity c.b.eff c.g.eval 0 D ts cs (coords pt))).map fun p =>
        p.2 * unitDensity c.b.eff c.g.eval 0 D ts cs (coords pt) p.1).sum
      - ∫ t in (0 : ℝ)..1, unitDensity c.b.eff c.g.eval 0 D ts cs (coords pt) t| ≤ ε) :
    ∃ v, c.evaluatePt scr cs pt = .ok v ∧ |v - monotone c.b.eff c.g.eval 0 D ts cs (coords pt)| ≤ ε := by
  refine ⟨_, C38_evaluate_partial hv hm hc hpt scr hs, ?_⟩
  rw [(C38_exact hv cs (coords pt) le_rfl).2.2.2, discretised, add_sub_add_left_eq_sub]
  exact he

theorem unitDensity_continuous (hv : ValidComponent c D ts) (cs : List ℝ) (x : Nat → ℝ) :
    Continuous (unitDensity c.b.eff c.g.eval 0 D ts cs x) :=
  continuous_const.mul ((density_continuous hv 0 cs x).comp (continuous_id.mul continuous_const))

/-- **C109** (fixed rule). With the Clenshaw-Curtis rule with `n` points, `Evaluate` differs from the exact component by at
most twice the distance, on `[0,1]`, of the integrand to any polynomial of degree less than `n`. -/
theorem C109_rule {n : Nat} (hn : 1 ≤ n) (hb : n ≤ 65537) {wts pts w p : Mem} (hw : wts.size = n) (hp : pts.size = n)
    (hr : ClenshawCurtis.getRule n wts pts = .ok (w, p)) (hv : ValidComponent c D ts) (hq : c.quad = QProg.clenshawCurtis p w)
    {cs pt : List ℝ} (hc : cs.length = ts.length) (hpt : pt.length = D) (scr : Cache ℝ) (hs : scr.length = c.w.cacheSize)
    (P : ℝ[X]) (hP : P.natDegree < n) (ε : ℝ)
    (he : ∀ t, 0 ≤ t → t ≤ 1 → |unitDensity c.b.eff c.g.eval 0 D ts cs (coords pt) t - P.eval t| ≤ ε) :
    ∃ v, c.evaluatePt scr cs pt = .ok v ∧ |v - monotone c.b.eff c.g.eval 0 D ts cs (coords pt)| ≤ 2 * ε := by
  obtain ⟨h1, sw, sp, h2⟩ := getRule_use hn hb hw.ge hp.ge hr (zero_le_one (α := ℝ))
  have hm := (C39_clenshawCurtis p w (by omega)).1
  rw [← hq, sp, hp] at hm
  refine component_error hv hm hc hpt scr hs ?_
  have := rule_error h1 zero_le_one (unitDensity_continuous hv cs (coords pt)) P.continuous (h2 P hP) he
  simpa using this

theorem adaptive_error (q : Recursive) (hmin : q.minSub < q.maxSub) {h : ℝ → ℝ} (hh : Continuous h) {deg : Nat}
    {ε : ℝ} (rule : ℝ → ℝ → List (ℝ × ℝ × ℝ)) (hR : ∀ a b, a ≤ b → PosRule ((rule a b).map fun r => (r.1, r.2.2)) a b)
    (hex : ∀ a b, a ≤ b → ∀ P : ℝ[X], P.natDegree ≤ deg →
      (((rule a b).map fun r => (r.1, r.2.2)).map fun q => q.2 * P.eval q.1).sum = ∫ t in a..b, P.eval t)
    (hn : PiecewiseNear h deg (1 / 2 ^ q.minSub) ε) :
    |((adaptiveMesh q rule h).map fun p => p.2 * h p.1).sum - ∫ t in (0 : ℝ)..1, h t| ≤ 2 * ε := by
  have := leaves_error hh (fun a b => (rule a b).map fun r => (r.1, r.2.2)) hR hex
    (fun level a b => QProg.stopFirst q level (est rule (·.2.1) a b h) (est rule (·.2.2) a b h)) q.minSub
    (fun l a b hs => hs.2) (q.maxSub - 1) 0 0 1 le_rfl zero_le_one le_rfl (by omega) (by simpa using hn)
  rw [adaptiveMesh, sum_flatMap_est]
  simpa [est, Function.comp_def] using this

/-- **C109** (adaptive Simpson). Whatever the tolerances, the error is at most twice `ε` if on every part of `[0,1]` no longer
than `2^-minSub` the integrand is within `ε` of a cubic. -/
theorem C109_simpson (q : Recursive) (hq : q.errorMetric = .first) (hmin : q.minSub < q.maxSub) (hmax : q.maxSub ≤ 32)
    (hv : ValidComponent c D ts) (hquad : c.quad = QProg.simpson q)
    {cs pt : List ℝ} (hc : cs.length = ts.length) (hpt : pt.length = D) (scr : Cache ℝ) (hs : scr.length = c.w.cacheSize) (ε : ℝ)
    (hn : PiecewiseNear (unitDensity c.b.eff c.g.eval 0 D ts cs (coords pt)) 3 (1 / 2 ^ q.minSub) ε) :
    ∃ v, c.evaluatePt scr cs pt = .ok v ∧ |v - monotone c.b.eff c.g.eval 0 D ts cs (coords pt)| ≤ 2 * ε := by
  refine component_error hv (hquad ▸ (C39_simpson q hq hmin hmax).1) hc hpt scr hs ?_
  exact adaptive_error q hmin (unitDensity_continuous hv cs (coords pt)) _ (fun a b hab => posRule_simpson hab)
    (fun a b _ P hP => exact_simpson a b P hP) hn

/-- **C109** (adaptive Clenshaw-Curtis, the default). The same with polynomials of degree `2^(l+1)`. -/
theorem C109_adaptiveCC (q : Recursive) (hq : q.errorMetric = .first) (hmin : q.minSub < q.maxSub) (hmax : q.maxSub ≤ 32)
    {l : Nat} (hl : 1 ≤ l) (hl' : l ≤ 15) {r : NestedRule} (hr : AdaptiveClenshawCurtis.new l = .ok r)
    (hv : ValidComponent c D ts) (hquad : c.quad = QProg.adaptiveCC q r)
    {cs pt : List ℝ} (hc : cs.length = ts.length) (hpt : pt.length = D) (scr : Cache ℝ) (hs : scr.length = c.w.cacheSize) (ε : ℝ)
    (hn : PiecewiseNear (unitDensity c.b.eff c.g.eval 0 D ts cs (coords pt)) (2 ^ (l + 1)) (1 / 2 ^ q.minSub) ε) :
    ∃ v, c.evaluatePt scr cs pt = .ok v ∧ |v - monotone c.b.eff c.g.eval 0 D ts cs (coords pt)| ≤ 2 * ε := by
  refine component_error hv (hquad ▸ (C39_adaptiveCC q hq hmin hmax l hl r hr).1) hc hpt scr hs ?_
  exact adaptive_error q hmin (unitDensity_continuous hv cs (coords pt)) _ (fun a b hab => (posRule_nested hl hl' hr hab).1)
    (fun a b hab P hP => (posRule_nested hl hl' hr hab).2 P hP) hn

/-! ### Rates for Lipschitz integrands -/

/-- `L` is a Lipschitz constant of `h` on `[0,1]`. -/
def Spec.LipUnit (h : ℝ → ℝ) (L : ℝ) : Prop :=
  ∀ s t, 0 ≤ s → s ≤ 1 → 0 ≤ t → t ≤ 1 → |h s - h t| ≤ L * |s - t|

theorem Spec.LipUnit.nonneg {h : ℝ → ℝ} {L : ℝ} (hL : LipUnit h L) : 0 ≤ L := by
  have := (abs_nonneg _).trans (hL 0 1 le_rfl zero_le_one zero_le_one le_rfl)
  simpa using this

/-- The Bernstein polynomial of a Lipschitz function. -/
theorem bernstein_lip {h : ℝ → ℝ} {L : ℝ} (hL : LipUnit h L) {n : Nat} (hn : n ≠ 0) :
    ∃ P : ℝ[X], P.natDegree ≤ n ∧ ∀ t, 0 ≤ t → t ≤ 1 → |h t - P.eval t| ≤ L / (2 * Real.sqrt n) := by
  have hn' : (0 : ℝ) < n := by exact_mod_cast Nat.pos_of_ne_zero hn
  have h0 := hL.nonneg
  set s := Real.sqrt n with hs
  have hspos : 0 < s := Real.sqrt_pos.2 hn'
  have hss : s * s = n := Real.mul_self_sqrt hn'.le
  refine ⟨∑ k : Fin (n + 1), Polynomial.C (h (k / n)) * bernsteinPolynomial ℝ n k, ?_, fun t t0 t1 => ?_⟩
  · refine natDegree_sum_le_of_forall_le _ _ fun k _ => (natDegree_C_mul_le _ _).trans ?_
    have hk := k.2
    rw [bernsteinPolynomial]
    have e1 : ((1 : ℝ[X]) - X).natDegree ≤ 1 := by
      have := natDegree_sub_le (1 : ℝ[X]) X
      simpa using this
    have e2 : (((1 : ℝ[X]) - X) ^ (n - k.1)).natDegree ≤ n - k.1 := by
      refine natDegree_pow_le.trans ?_
      simpa using Nat.mul_le_mul_left (n - k.1) e1
    have e3 : ((n.choose k.1 : ℝ[X]) * X ^ k.1).natDegree ≤ k.1 := by
      rw [← map_natCast (Polynomial.C : ℝ →+* ℝ[X])]
      exact natDegree_C_mul_X_pow_le _ _
    exact natDegree_mul_le.trans (by omega)
  · set x : unitInterval := ⟨t, t0, t1⟩ with hx
    have ev : ∀ k : Fin (n + 1), (bernsteinPolynomial ℝ n k).eval t = bernstein n k x := fun k => by
      rw [bernstein_apply, bernsteinPolynomial]
      simp [hx]
    have hp := bernstein.probability n x
    have hv := bernstein.variance hn x
    simp only [eval_finsetSum, eval_mul, eval_C, ev]
    have key : ∀ k : Fin (n + 1), |h t - h (k / n)| * bernstein n k x
        ≤ L * (s * ((x - bernstein.z k : ℝ) ^ 2 * bernstein n k x) + 1 / (4 * s) * bernstein n k x) := by
      intro k
      have hb : 0 ≤ bernstein n k x := bernstein_nonneg
      have hz : ((bernstein.z k : unitInterval) : ℝ) = k / n := rfl
      have hk1 : (k : ℝ) / n ≤ 1 := (div_le_one hn').2 (by exact_mod_cast Nat.lt_succ_iff.1 k.2)
      have e1 := hL t (k / n) t0 t1 (by positivity) hk1
      have e2 : |t - k / n| ≤ s * (t - k / n) ^ 2 + 1 / (4 * s) := by
        rw [← sq_abs, ← sub_nonneg]
        have : s * |t - k / n| ^ 2 + 1 / (4 * s) - |t - k / n| = s * (|t - k / n| - 1 / (2 * s)) ^ 2 := by
          field_simp
          ring
        rw [this]
        positivity
      have e3 : |h t - h (k / n)| ≤ L * (s * (t - k / n) ^ 2 + 1 / (4 * s)) := e1.trans (mul_le_mul_of_nonneg_left e2 h0)
      have := mul_le_mul_of_nonneg_right e3 hb
      rw [hz]
      refine this.trans (le_of_eq ?_)
      simp only [hx]
      ring
    calc |h t - ∑ k : Fin (n + 1), h (k / n) * bernstein n k x|
        = |∑ k : Fin (n + 1), (h t - h (k / n)) * bernstein n k x| := by
          simp only [sub_mul, Finset.sum_sub_distrib]
          rw [← Finset.mul_sum, hp, mul_one]
      _ ≤ ∑ k : Fin (n + 1), |h t - h (k / n)| * bernstein n k x := by
          refine (Finset.abs_sum_le_sum_abs _ _).trans (le_of_eq (sum_congr rfl fun k _ => ?_))
          rw [abs_mul, abs_of_nonneg (bernstein_nonneg : 0 ≤ bernstein n k x)]
      _ ≤ _ := Finset.sum_le_sum fun k _ => key k
      _ = L * (s * ((x : ℝ) * (1 - x) / n) + 1 / (4 * s)) := by
          rw [← Finset.mul_sum, Finset.sum_add_distrib, ← Finset.mul_sum, ← Finset.mul_sum, hv, hp, mul_one]
      _ ≤ L / (2 * s) := by
          rw [← hss, show L / (2 * s) = L * (s * (1 / 4 / (s * s)) + 1 / (4 * s)) by field_simp; ring]
          refine mul_le_mul_of_nonneg_left ?_ h0
          have : (x : ℝ) * (1 - x) ≤ 1 / 4 := by nlinarith [sq_nonneg ((x : ℝ) - 1 / 2)]
          gcongr

theorem piecewise_lip {h : ℝ → ℝ} {L : ℝ} (hL : LipUnit h L) (d : Nat) (δ : ℝ) : PiecewiseNear h d δ (L * δ / 2) := by
  intro a b a0 ab b1 hd
  refine ⟨Polynomial.C (h ((a + b) / 2)), by simp, fun t ta tb => ?_⟩
  rw [eval_C]
  refine (hL t ((a + b) / 2) (by linarith) (by linarith) (by linarith) (by linarith)).trans ?_
  rw [mul_div_assoc]
  refine mul_le_mul_of_nonneg_left ?_ hL.nonneg
  rw [abs_le]
  constructor <;> linarith

/-- The quadratures of the library and how fine they are: `1/√(n-1)` for the fixed rule with `n` points, `2^-minSub`, the
length of the coarsest subinterval, for the adaptive ones. -/
inductive Spec.Fine : (Nat → QProg) → ℝ → Prop where
  | rule {n : Nat} {wts pts w p : Mem} (hn : 2 ≤ n) (hb : n ≤ 65537) (hw : wts.size = n) (hp : pts.size = n)
      (hr : ClenshawCurtis.getRule n wts pts = .ok (w, p)) : Fine (QProg.clenshawCurtis p w) (1 / Real.sqrt ((n - 1 : Nat) : ℝ))
  | simpson {q : Recursive} (hq : q.errorMetric = .first) (hmin : q.minSub < q.maxSub) (hmax : q.maxSub ≤ 32) :
      Fine (QProg.simpson q) (1 / 2 ^ q.minSub)
  | adaptiveCC {q : Recursive} (hq : q.errorMetric = .first) (hmin : q.minSub < q.maxSub) (hmax : q.maxSub ≤ 32)
      {l : Nat} (hl : 1 ≤ l) (hl' : l ≤ 15) {r : NestedRule} (hr : AdaptiveClenshawCurtis.new l = .ok r) :
      Fine (QProg.adaptiveCC q r) (1 / 2 ^ q.minSub)

theorem rule_lip {n : Nat} (hn : 2 ≤ n) (hb : n ≤ 65537) {wts pts w p : Mem} (hw : wts.size = n) (hp : pts.size = n)
    (hr : ClenshawCurtis.getRule n wts pts = .ok (w, p)) {k : ℝ → ℝ} {L : ℝ} (hk : Continuous k) (hL : LipUnit k L) :
    |((QProg.moved n (fun i => p.val i) (fun i => w.val i) 0 1).map fun q => q.2 * k q.1).sum - ∫ t in (0 : ℝ)..1, k t|
      ≤ L * (1 / Real.sqrt ((n - 1 : Nat) : ℝ)) := by
  obtain ⟨h1, sw, sp, h2⟩ := getRule_use (by omega) hb hw.ge hp.ge hr (zero_le_one (α := ℝ))
  obtain ⟨P, hP, he⟩ := bernstein_lip hL (n := n - 1) (by omega)
  have := rule_error h1 zero_le_one hk P.continuous (h2 P (by omega)) he
  refine this.trans (le_of_eq ?_)
  ring

theorem adaptive_lip (q : Recursive) (hmin : q.minSub < q.maxSub) (h : ℝ → ℝ) {k : ℝ → ℝ} {L : ℝ} (hk : Continuous k)
    (hL : LipUnit k L) {deg : Nat} (rule : ℝ → ℝ → List (ℝ × ℝ × ℝ)) (hR : ∀ a b, a ≤ b → PosRule ((rule a b).map fun r => (r.1, r.2.2)) a b)
    (hex : ∀ a b, a ≤ b → ∀ P : ℝ[X], P.natDegree ≤ deg →
      (((rule a b).map fun r => (r.1, r.2.2)).map fun q => q.2 * P.eval q.1).sum = ∫ t in a..b, P.eval t) :
    |((adaptiveMesh q rule h).map fun p => p.2 * k p.1).sum - ∫ t in (0 : ℝ)..1, k t| ≤ L * (1 / 2 ^ q.minSub) := by
  have := leaves_error hk (fun a b => (rule a b).map fun r => (r.1, r.2.2)) hR hex
    (fun level a b => QProg.stopFirst q level (est rule (·.2.1) a b h) (est rule (·.2.2) a b h)) q.minSub
    (fun l a b hs => hs.2) (q.maxSub - 1) 0 0 1 le_rfl zero_le_one le_rfl (by omega)
    (piecewise_lip hL deg _)
  rw [adaptiveMesh, sum_flatMap_est]
  refine le_trans ?_ (this.trans (le_of_eq ?_))
  · simp [est, Function.comp_def]
  · simp
    ring

/-- Each of these quadratures is a weighted sum over a mesh that may depend on the integrand; whatever it depended on, the sum of
a function with Lipschitz constant `L` is within `L * ρ` of its integral. -/
theorem fine_mesh {quad : Nat → QProg} {ρ : ℝ} (hq : Fine quad ρ) : 0 < ρ ∧ (∀ n, QuadShape n (quad n)) ∧ ∃ mesh, UsesMesh quad mesh ∧
    ∀ (h k : ℝ → ℝ) (L : ℝ), Continuous k → LipUnit k L →
      |((mesh h).map fun p => p.2 * k p.1).sum - ∫ t in (0 : ℝ)..1, k t| ≤ L * ρ := by
  cases hq with
  | @rule n wts pts w p hn hb hw hp hr =>
    obtain ⟨-, sw, sp, -⟩ := getRule_use (by omega) hb hw.ge hp.ge hr (zero_le_one (α := ℝ))
    have hm := C39_clenshawCurtis p w (by omega)
    rw [sp, hp] at hm
    have : 0 < n - 1 := by omega
    exact ⟨by positivity, hm.2.1, _, hm.1, fun h k L hk hL => rule_lip hn hb hw hp hr hk hL⟩
  | @simpson q hq hmin hmax =>
    have hm := C39_simpson q hq hmin hmax
    exact ⟨by positivity, hm.2.1, _, hm.1, fun h k L hk hL => adaptive_lip q hmin h hk hL _ (fun a b hab => posRule_simpson hab)
      fun a b _ P hP => exact_simpson a b P hP⟩
  | @adaptiveCC q hq hmin hmax l hl hl' r hr =>
    have hm := C39_adaptiveCC q hq hmin hmax l hl r hr
    exact ⟨by positivity, hm.2.1, _, hm.1, fun h k L hk hL => adaptive_lip q hmin h hk hL _
      (fun a b hab => (posRule_nested hl hl' hr hab).1) fun a b hab P hP => (posRule_nested hl hl' hr hab).2 P hP⟩

/-- **C109** (rate). If the integrand on `[0,1]` has the Lipschitz constant `L`, `Evaluate` is within `L/√(n-1)` of the exact
component with `n` fixed points, and within `L/2^minSub` with an adaptive rule. -/
theorem C109_rate {ρ : ℝ} (hq : Fine c.quad ρ) (hv : ValidComponent c D ts) {cs pt : List ℝ} (hc : cs.length = ts.length)
    (hpt : pt.length = D) (scr : Cache ℝ) (hs : scr.length = c.w.cacheSize) (L : ℝ)
    (hL : LipUnit (unitDensity c.b.eff c.g.eval 0 D ts cs (coords pt)) L) :
    ∃ v, c.evaluatePt scr cs pt = .ok v ∧ |v - monotone c.b.eff c.g.eval 0 D ts cs (coords pt)| ≤ L * ρ := by
  obtain ⟨-, -, mesh, hm, he⟩ := fine_mesh hq
  exact component_error hv hm hc hpt scr hs (he _ _ L (unitDensity_continuous hv cs (coords pt)) hL)

theorem Spec.ValidComponent.withQuad (hv : ValidComponent c D ts) {quad : Nat → QProg} (hq : ∀ n, QuadShape n (quad n)) :
    ValidComponent { c with quad := quad } D ts := ⟨hv.fixed, hv.pos, hv.basis, hv.bij, hq⟩

theorem coords_append {pre : List ℝ} (hpre : pre.length = D - 1) (y : ℝ) :
    coords (pre ++ [y]) = Function.update (coords pre) (D - 1) y := by
  funext d
  by_cases h : d = D - 1
  · subst h; simp [coords, hpre]
  · rw [Function.update_of_ne h]
    by_cases h2 : d < D - 1
    · simp [coords, List.getElem?_append_left (show d < pre.length by omega)]
    · simp [coords, List.getElem?_eq_none (show (pre ++ [y]).length ≤ d by simp; omega),
        List.getElem?_eq_none (show pre.length ≤ d by omega)]

/-- The exact component grows at least as fast as the least slope between two last inputs. -/
theorem exact_growth (hv : ValidComponent c D ts) (cs : List ℝ) {pre : List ℝ} (hpre : pre.length = D - 1) {y z m : ℝ} (hyz : y < z)
    (hm : ∀ t, y ≤ t → t ≤ z → m ≤ c.g.eval (diagD c.b.eff D ts cs (coords (pre ++ [t])))) :
    m * (z - y) ≤ monotone c.b.eff c.g.eval 0 D ts cs (coords (pre ++ [z])) - monotone c.b.eff c.g.eval 0 D ts cs (coords (pre ++ [y])) := by
  have hd : ∀ t, HasDerivAt (fun y => monotone c.b.eff c.g.eval 0 D ts cs (Function.update (coords pre) (D - 1) y))
      (c.g.eval (diagD c.b.eff D ts cs (Function.update (coords pre) (D - 1) t))) t := by
    intro t
    have := (C38_exact hv cs (Function.update (coords pre) (D - 1) t) le_rfl).1
    simpa only [Function.update_idem, Function.update_self, add_zero] using this
  obtain ⟨t, ht, e⟩ := exists_hasDerivAt_eq_slope _ _ hyz (fun t _ => (hd t).continuousAt.continuousWithinAt) fun t _ => hd t
  have hle := hm t ht.1.le ht.2.le
  simp only [coords_append hpre] at hle ⊢
  rw [e, le_div_iff₀ (by linarith)] at hle
  exact hle

/-- **C109** (monotonicity). If between two last inputs `y < z` the exact component has slope at least `m`, and the integrands at both points
have the Lipschitz constant `L`, the points are mapped in order as soon as `2 L ρ < m (z - y)`: the discretised component is
increasing except on a scale proportional to `ρ`. -/
theorem C109_increasing {ρ : ℝ} (hq : Fine c.quad ρ) (hv : ValidComponent c D ts) {cs pre : List ℝ} (hc : cs.length = ts.length)
    (hpre : pre.length = D - 1) (scr : Cache ℝ) (hs : scr.length = c.w.cacheSize) {y z m L : ℝ} (hyz : y < z)
    (hm : ∀ t, y ≤ t → t ≤ z → m ≤ c.g.eval (diagD c.b.eff D ts cs (coords (pre ++ [t]))))
    (hL : LipUnit (unitDensity c.b.eff c.g.eval 0 D ts cs (coords (pre ++ [y]))) L)
    (hL' : LipUnit (unitDensity c.b.eff c.g.eval 0 D ts cs (coords (pre ++ [z]))) L) (hlt : 2 * L * ρ < m * (z - y)) :
    ∃ v v', c.evaluatePt scr cs (pre ++ [y]) = .ok v ∧ c.evaluatePt scr cs (pre ++ [z]) = .ok v' ∧ v < v' := by
  have hD := hv.pos
  obtain ⟨v, e, a⟩ := C109_rate hq hv hc (pt := pre ++ [y]) (by simp; omega) scr hs L hL
  obtain ⟨v', e', a'⟩ := C109_rate hq hv hc (pt := pre ++ [z]) (by simp; omega) scr hs L hL'
  refine ⟨v, v', e, e', ?_⟩
  have h := exact_growth hv cs hpre hyz hm
  have := abs_le.1 a
  have := abs_le.1 a'
  linarith

/-! ### The tolerance is not a guarantee -/

open Hermite in
/-- Every polynomial is a combination of Hermite polynomials. -/
theorem he_span (p : Nat) : ∀ P : ℝ[X], P.natDegree ≤ p → ∃ a : Nat → ℝ, ∀ y, P.eval y = ∑ k ∈ range (p + 1), a k * He k y := by
  induction p with
  | zero =>
    intro P hP
    refine ⟨fun _ => P.coeff 0, fun y => ?_⟩
    rw [eq_C_of_natDegree_le_zero hP]
    simp [He_zero]
  | succ p ih =>
    intro P hP
    have hm : (hR (p + 1)).Monic := (hermite_monic _).map _
    have hd : (hR (p + 1)).natDegree = p + 1 := by
      rw [hR, (hermite_monic _).natDegree_map, natDegree_hermite]
    obtain ⟨a, ha⟩ := ih (P - Polynomial.C (P.coeff (p + 1)) * hR (p + 1)) (by
      rw [natDegree_le_iff_coeff_eq_zero]
      intro N hN
      rw [coeff_sub, coeff_C_mul]
      rcases Nat.eq_or_lt_of_le (Nat.succ_le_of_lt hN) with h | h
      · have h1 : (hR (p + 1)).coeff (p + 1) = 1 := by
          have := hm.coeff_natDegree
          rwa [hd] at this
        rw [← h, Nat.succ_eq_add_one, h1, mul_one, sub_self]
      · rw [coeff_eq_zero_of_natDegree_lt (by omega), coeff_eq_zero_of_natDegree_lt (p := hR (p + 1)) (by omega), mul_zero, sub_zero])
    refine ⟨fun k => if k = p + 1 then P.coeff (p + 1) else a k, fun y => ?_⟩
    beta_reduce
    rw [sum_range_succ, if_pos rfl, sum_congr rfl fun k hk => show (if k = p + 1 then P.coeff (p + 1) else a k) * He k y = a k * He k y by
      rw [if_neg (by have := mem_range.1 hk; omega)], ← ha y, He_eq]
    simp

theorem toEnum_one (p : Nat) : MISet.toEnum 1 p = (List.range (p + 1)).map fun i => [i] := by
  simp only [MISet.toEnum, List.map_cons, List.map_nil]
  exact List.flatMap_pure_eq_map _ _

open Hermite in
/-- For every polynomial there are coefficients for which it is the derivative of the expansion in Hermite polynomials. -/
theorem exists_diag (P : ℝ[X]) : ∃ cs : List ℝ, cs.length = (MISet.toEnum 1 (P.natDegree + 1)).length ∧
    ∀ x : Nat → ℝ, expansion 1 (MISet.toEnum 1 (P.natDegree + 1)) cs (facD1 (Spec.basisOf He).eff x 0) = P.eval (x 0) := by
  obtain ⟨a, ha⟩ := he_span P.natDegree P le_rfl
  refine ⟨(List.range (P.natDegree + 2)).map fun k => a (k - 1) / (k : ℝ), by simp [toEnum_one], fun x => ?_⟩
  rw [expansion, toEnum_one, List.length_map, List.length_range, sum_range_succ', ha]
  simp only [termProd, range_one, prod_singleton, facD1, if_true]
  have hz : (Spec.basisOf He).eff.d1 0 (x 0) = 0 := by simp [Basis.eff]
  have e0 : (((List.range (P.natDegree + 1 + 1)).map fun i => [i]).getD 0 []).getD 0 0 = 0 := by
    rw [List.range_succ_eq_map]; rfl
  rw [e0, hz, mul_zero, add_zero]
  refine sum_congr rfl fun k hk => ?_
  have hk := mem_range.1 hk
  have e1 : (((List.range (P.natDegree + 1 + 1)).map fun i => [i]).getD (k + 1) []).getD 0 0 = k + 1 := by
    rw [List.getD_eq_getElem?_getD (l := List.map _ _), List.getElem?_map, List.getElem?_range (by omega)]; rfl
  rw [e1, getD_map_range _ _ _ (by omega)]
  have hd : (Spec.basisOf He).eff.d1 (k + 1) (x 0) = ((k : ℝ) + 1) * He k (x 0) := by
    have : (Spec.basisOf He).eff.d1 (k + 1) (x 0) = deriv (He (k + 1)) (x 0) := by simp [Basis.eff, Spec.basisOf]
    rw [this, (He_hasDerivAt k (x 0)).deriv]
  rw [hd, Nat.add_sub_cancel]
  push_cast
  field_simp

open Hermite in
/-- For every finite set of nodes and every bound there is a component in one input whose integrand is 1 at the nodes while
its integral exceeds the bound. -/
theorem exists_hidden (nodes : List ℝ) (M : ℝ) : ∃ (p : Nat) (cs : List ℝ), cs.length = (MISet.toEnum 1 p).length ∧
    (∀ t ∈ nodes, unitDensity (Spec.basisOf He).eff expBij.eval 0 1 (MISet.toEnum 1 p) cs (coords [1]) t = 1) ∧
    M < ∫ t in (0 : ℝ)..1, unitDensity (Spec.basisOf He).eff expBij.eval 0 1 (MISet.toEnum 1 p) cs (coords [1]) t := by
  obtain ⟨W, hWc, hW0, hWn, u, hu, hWu⟩ : ∃ W : ℝ[X], Continuous (fun t => W.eval t) ∧ (∀ t ∈ nodes, W.eval t = 0) ∧
      (∀ t, 0 ≤ W.eval t) ∧ ∃ u ∈ Set.Icc (0 : ℝ) 1, 0 < W.eval u := by
    refine ⟨(nodes.map fun t => (X - Polynomial.C t) ^ 2).prod, Polynomial.continuous _, fun t ht => ?_, fun t => ?_, ?_⟩
    · rw [eval_list_prod, List.prod_eq_zero_iff]
      simp only [List.map_map, List.mem_map]
      exact ⟨t, ht, by simp⟩
    · rw [eval_list_prod, List.map_map]
      refine List.prod_nonneg fun a ha => ?_
      obtain ⟨s, -, rfl⟩ := List.mem_map.1 ha
      simp only [Function.comp, eval_pow]
      positivity
    · obtain ⟨u, hu, hn⟩ := (Set.Icc_infinite (zero_lt_one (α := ℝ))).exists_notMem_finset nodes.toFinset
      refine ⟨u, hu, ?_⟩
      rw [eval_list_prod, List.map_map]
      refine List.prod_pos fun a ha => ?_
      obtain ⟨s, hs, rfl⟩ := List.mem_map.1 ha
      simp only [Function.comp, eval_pow, eval_sub, eval_X, eval_C]
      have : u - s ≠ 0 := fun h => hn (by rw [sub_eq_zero.1 h]; simpa using hs)
      positivity
  have hI : 0 < ∫ t in (0 : ℝ)..1, W.eval t :=
    intervalIntegral.integral_pos zero_lt_one hWc.continuousOn (fun t _ => hWn t) ⟨u, hu, hWu⟩
  set I := ∫ t in (0 : ℝ)..1, W.eval t with hIdef
  obtain ⟨cs, hlen, hcs⟩ := exists_diag (Polynomial.C (|M| / I) * W)
  refine ⟨_, cs, hlen, ?_⟩
  have hv := valid_total 1 ((Polynomial.C (|M| / I) * W).natDegree + 1) (by decide) C24_bases.1.eff.c1 C30_exp
    (fun n => QProg.ofRule n [] (List.replicate n 0)) (C39_rule []).2 true 0
  have hun : ∀ t, unitDensity (Spec.basisOf He).eff expBij.eval 0 1 (MISet.toEnum 1 ((Polynomial.C (|M| / I) * W).natDegree + 1)) cs
      (coords [1]) t = Real.exp (|M| / I * W.eval t) := by
    intro t
    have := unitDensity_eq (ν := 0) (cs := cs) hv (coords [1]) t
    simp only [Nat.sub_self] at this
    rw [this, hcs]
    simp [coords, expBij]
  refine ⟨fun t ht => by rw [hun, hW0 t ht]; simp, ?_⟩
  have h1 : ∫ t in (0 : ℝ)..1, (1 + |M| / I * W.eval t) = 1 + |M| := by
    have hc1 : Continuous fun t => |M| / I * W.eval t := continuous_const.mul hWc
    rw [intervalIntegral.integral_add (continuous_const.intervalIntegrable _ _) (hc1.intervalIntegrable _ _),
      intervalIntegral.integral_const_mul, ← hIdef, div_mul_cancel₀ _ hI.ne']
    simp
  calc M < 1 + |M| := by linarith [le_abs_self M]
    _ = _ := h1.symm
    _ ≤ _ := intervalIntegral.integral_mono_on zero_le_one ((continuous_const.add (continuous_const.mul hWc)).intervalIntegrable _ _)
        ((unitDensity_continuous hv cs (coords [1])).intervalIntegrable _ _) fun t _ => by
          rw [hun t]
          linarith [Real.add_one_le_exp (|M| / I * W.eval t)]

theorem adaptiveMesh_hidden (q : Recursive) (hmin : q.minSub = 0) (htol : 0 < q.absTol) (rule : ℝ → ℝ → List (ℝ × ℝ × ℝ))
    (h : ℝ → ℝ) (h1 : ∀ t ∈ (rule 0 1).map (·.1), h t = 1) (hc : ((rule 0 1).map (·.2.1)).sum = 1) (hf : ((rule 0 1).map (·.2.2)).sum = 1) :
    ((adaptiveMesh q rule h).map fun p => p.2 * h p.1).sum = 1 := by
  have hest : ∀ wt : ℝ × ℝ × ℝ → ℝ, est rule wt 0 1 h = ((rule 0 1).map wt).sum := by
    intro wt
    rw [est]
    congr 1
    exact List.map_congr_left fun p hp => by rw [h1 p.1 (List.mem_map_of_mem hp), mul_one]
  rw [adaptiveMesh, sum_flatMap_est]
  have hstop : QProg.stopFirst q 0 (est rule (·.2.1) 0 1 h) (est rule (·.2.2) 0 1 h) := by
    rw [QProg.stopFirst, hest, hest, hc, hf, sub_self, abs_zero]
    exact ⟨lt_max_of_lt_right htol, hmin.le⟩
  rcases q.maxSub - 1 with _ | d
  · simp [leaves, hest, hf]
  · rw [leaves, if_pos hstop]
    simp [hest, hf]

theorem nested_coarse {l : Nat} (hl : 1 ≤ l) {r : NestedRule} (hr : AdaptiveClenshawCurtis.new l = .ok r) :
    ((QProg.nestedRule r 0 1).map (·.2.1)).sum = 1 := by
  obtain ⟨r', e, s1, -⟩ := (C34_rules l).1 hl
  obtain ⟨r'', e', -, hc, -⟩ := AdaptiveClenshawCurtis.new_ok l hl
  rw [hr] at e e'
  obtain rfl := Res.ok.inj e
  obtain rfl := Res.ok.inj e'
  have h1 := moved_sum (2 ^ l + 1) r.coarsePts.val r.coarseWts.val (fun _ => 1) 0 1
  rw [QProg.nestedRule, s1]
  simp only [mul_one] at h1
  simp only [List.map_append, List.map_map, List.sum_append, Function.comp_def, List.map_const', List.sum_replicate, smul_zero,
    add_zero, h1, applyRule, mul_one]
  rw [← mul_sum, sum_congr rfl fun i hi => (hc i (by have := mem_range.1 hi; omega)).2,
    ClenshawCurtis.wt_total _ Nat.one_le_two_pow]
  norm_num

open Hermite in
/-- **C109 fails for the tolerances.** Whatever the tolerances, and with the default least depth 0, there are Hermite
expansions and coefficients for which the adaptive rules accept the first estimate and `Evaluate` is wrong by more than any
given number. -/
theorem C109_fails_tolerance (q : Recursive) (hq : q.errorMetric = .first) (hmin : q.minSub = 0) (h1 : 1 ≤ q.maxSub)
    (hmax : q.maxSub ≤ 32) (htol : 0 < q.absTol) (M : ℝ) :
    (∃ (p : Nat) (c : MonotoneComponent) (cs : List ℝ) (v : ℝ), ValidComponent c 1 (MISet.toEnum 1 p) ∧ c.quad = QProg.simpson q ∧
      cs.length = (MISet.toEnum 1 p).length ∧ (∀ scr : Cache ℝ, scr.length = c.w.cacheSize → c.evaluatePt scr cs [1] = .ok v) ∧
      M < |v - monotone c.b.eff c.g.eval 0 1 (MISet.toEnum 1 p) cs (coords [1])|) ∧
    ∀ l r, 1 ≤ l → l ≤ 15 → AdaptiveClenshawCurtis.new l = .ok r →
      ∃ (p : Nat) (c : MonotoneComponent) (cs : List ℝ) (v : ℝ), ValidComponent c 1 (MISet.toEnum 1 p) ∧ c.quad = QProg.adaptiveCC q r ∧
        cs.length = (MISet.toEnum 1 p).length ∧ (∀ scr : Cache ℝ, scr.length = c.w.cacheSize → c.evaluatePt scr cs [1] = .ok v) ∧
        M < |v - monotone c.b.eff c.g.eval 0 1 (MISet.toEnum 1 p) cs (coords [1])| := by
  have key : ∀ (quad : Nat → QProg) (rule : ℝ → ℝ → List (ℝ × ℝ × ℝ)), UsesMesh quad (adaptiveMesh q rule) → (∀ n, QuadShape n (quad n)) →
      ((rule 0 1).map (·.2.1)).sum = 1 → ((rule 0 1).map (·.2.2)).sum = 1 →
      ∃ (p : Nat) (c : MonotoneComponent) (cs : List ℝ) (v : ℝ), ValidComponent c 1 (MISet.toEnum 1 p) ∧ c.quad = quad ∧
        cs.length = (MISet.toEnum 1 p).length ∧ (∀ scr : Cache ℝ, scr.length = c.w.cacheSize → c.evaluatePt scr cs [1] = .ok v) ∧
        M < |v - monotone c.b.eff c.g.eval 0 1 (MISet.toEnum 1 p) cs (coords [1])| := by
    intro quad rule hm hsh hc hf
    obtain ⟨p, cs, hlen, hnode, hint⟩ := exists_hidden ((rule 0 1).map (·.1)) (M + 1)
    have hv := valid_total 1 p (by decide) C24_bases.1.eff.c1 C30_exp quad hsh true 0
    refine ⟨p, _, cs, _, hv, rfl, hlen, fun scr hs => C38_evaluate_partial hv hm hlen rfl scr hs, ?_⟩
    rw [(C38_exact hv cs (coords [1]) le_rfl).2.2.2, discretised, add_sub_add_left_eq_sub, adaptiveMesh_hidden q hmin htol rule _ hnode hc hf,
      abs_sub_comm]
    exact lt_of_lt_of_le (by linarith) (le_abs_self _)
  refine ⟨key _ _ (C39_simpson q hq (by omega) hmax).1 (C39_simpson q hq (by omega) hmax).2.1 ?_ ?_, fun l r hl hl' hr =>
    key _ _ (C39_adaptiveCC q hq (by omega) hmax l hl r hr).1 (C39_adaptiveCC q hq (by omega) hmax l hl r hr).2.1 (nested_coarse hl hr) ?_⟩
  · simp [QProg.simpsonRule]; norm_num
  · simp [QProg.simpsonRule]; norm_num
  · have := (posRule_nested hl hl' hr zero_le_one).1.total
    simpa [Function.comp_def] using this

/-! ### Non-vacuity -/

section
open Hermite
variable (quad : Nat → QProg)

/-- The component of one input with total order 2, Hermite basis and the exponential as positive function. -/
noncomputable def expComponent : MonotoneComponent := ⟨totalWorker 1 2, Spec.basisOf He, expBij, quad, true, 0⟩

theorem exp_diagD (x : Nat → ℝ) : diagD (Spec.basisOf He).eff 1 (MISet.toEnum 1 2) [0, 0, 1 / 2] x = x 0 := by
  have hv := valid_total 1 2 (by decide) C24_bases.1.eff.c1 C30_exp (fun n => QProg.ofRule n [] (List.replicate n 0))
    (C39_rule []).2 true 0
  have hts : MISet.toEnum 1 2 = [[0], [1], [2]] := by decide
  have hd2 : ∀ y, deriv (He 2) y = 2 * y := fun y => by
    rw [(He_hasDerivAt 1 y).deriv, He_one]; norm_num
  have := diagD_eq hv [0, 0, 1 / 2] x
  simp only at this
  rw [this, hts, expansion]
  simp [Finset.sum_range_succ, termProd, facD1, Basis.eff, Spec.basisOf, hd2]

theorem exp_offset (x : Nat → ℝ) : offset (Spec.basisOf He).eff 1 (MISet.toEnum 1 2) [0, 0, 1 / 2] x = -(1 / 2) := by
  have hts : MISet.toEnum 1 2 = [[0], [1], [2]] := by decide
  have h2 : ∀ y, He 2 y = y ^ 2 - 1 := fun y => by
    rw [He_rec 0 y, He_one, He_zero]; push_cast; ring
  rw [offset, expandAt, hts, expansion]
  simp [Finset.sum_range_succ, termProd, Basis.eff, Spec.basisOf, h2]

theorem exp_unitDensity (y t : ℝ) :
    unitDensity (Spec.basisOf He).eff expBij.eval 0 1 (MISet.toEnum 1 2) [0, 0, 1 / 2] (coords [y]) t = y * Real.exp (t * y) := by
  rw [unitDensity, density, exp_diagD]
  simp [coords, expBij]

theorem exp_lip {y : ℝ} (hy : 0 ≤ y) :
    LipUnit (unitDensity (Spec.basisOf He).eff expBij.eval 0 1 (MISet.toEnum 1 2) [0, 0, 1 / 2] (coords [y])) (y ^ 2 * Real.exp y) := by
  intro s t s0 s1 t0 t1
  simp only [exp_unitDensity]
  have hd : ∀ u ∈ Set.Icc (0 : ℝ) 1, HasDerivWithinAt (fun u => y * Real.exp (u * y)) (y * (Real.exp (u * y) * y)) (Set.Icc 0 1) u :=
    fun u _ => (((Real.hasDerivAt_exp _).comp u (by simpa using (hasDerivAt_id u).mul_const y)).const_mul y).hasDerivWithinAt
  have := (convex_Icc (0 : ℝ) 1).norm_image_sub_le_of_norm_hasDerivWithin_le hd (C := y ^ 2 * Real.exp y) (fun u hu => ?_) ⟨t0, t1⟩ ⟨s0, s1⟩
  · simpa using this
  · rw [Real.norm_eq_abs, abs_of_nonneg (by positivity)]
    have : Real.exp (u * y) ≤ Real.exp y := Real.exp_le_exp.2 (by nlinarith [hu.2])
    nlinarith [mul_le_mul_of_nonneg_left this (sq_nonneg y)]

end

/-- The five-point rule for the component with integrand `exp`: the Taylor polynomial of degree 4 shows that the value at 1
is `e - 3/2` up to `1/50`. -/
example : ∃ (w p : Mem) (v : ℝ), ValidComponent (expComponent (QProg.clenshawCurtis p w)) 1 (MISet.toEnum 1 2) ∧
    ClenshawCurtis.getRule 5 ⟨5, fun _ => 0⟩ ⟨5, fun _ => 0⟩ = .ok (w, p) ∧
    (expComponent (QProg.clenshawCurtis p w)).evaluatePt (List.replicate (totalWorker 1 2).cacheSize none) [0, 0, 1 / 2] [1] = .ok v ∧
    |v - (Real.exp 1 - 3 / 2)| ≤ 1 / 50 := by
  obtain ⟨w, p, e, -, -, -, -, sw, sp, -⟩ := C32_rule 5 (by decide) (by decide) ⟨5, fun _ => 0⟩ ⟨5, fun _ => 0⟩ le_rfl le_rfl
  have hv := valid_total 1 2 (by decide) C24_bases.1.eff.c1 C30_exp _ (C39_clenshawCurtis p w (by rw [sw, sp])).2.1 true 0
  have hu : ∀ t, unitDensity (Spec.basisOf Spec.He).eff expBij.eval 0 1 (MISet.toEnum 1 2) [0, 0, 1 / 2] (coords [1]) t = Real.exp t :=
    fun t => by simpa using exp_unitDensity 1 t
  have hmono : monotone (Spec.basisOf Spec.He).eff expBij.eval 0 1 (MISet.toEnum 1 2) [0, 0, 1 / 2] (coords [1]) = Real.exp 1 - 3 / 2 := by
    have := (C38_exact hv [0, 0, 1 / 2] (coords [1]) le_rfl).2.2.2
    simp only [hu, exp_offset] at this
    rw [this, integral_exp, Real.exp_zero]
    ring
  obtain ⟨v, ev, hev⟩ := C109_rule (n := 5) (by decide) (by decide) rfl rfl e hv rfl (cs := [0, 0, 1 / 2]) (pt := [1]) rfl rfl
    (List.replicate (totalWorker 1 2).cacheSize none) (by simp) (∑ m ∈ range 5, Polynomial.C ((m.factorial : ℝ)⁻¹) * X ^ m)
    (by
      refine Nat.lt_of_le_of_lt (natDegree_sum_le_of_forall_le (n := 4) _ _ fun m hm => ?_) (by decide)
      exact (natDegree_C_mul_X_pow_le _ _).trans (by have := mem_range.1 hm; omega)) (1 / 100)
    (fun t t0 t1 => by
      simp only [hu, eval_finsetSum, eval_mul, eval_C, eval_pow, eval_X]
      have := Real.exp_bound (x := t) (by rw [abs_of_nonneg t0]; exact t1) (n := 5) (by decide)
      rw [sum_congr rfl fun m _ => show ((m.factorial : ℝ)⁻¹) * t ^ m = t ^ m / m.factorial by rw [div_eq_mul_inv, mul_comm]]
      refine this.trans ?_
      have h5 : |t| ^ 5 ≤ 1 := pow_le_one₀ (abs_nonneg _) (by rw [abs_of_nonneg t0]; exact t1)
      have : ((Nat.succ 5 : ℕ) : ℝ) / ((Nat.factorial 5 : ℕ) * (5 : ℕ)) = 1 / 100 := by norm_num [Nat.factorial]
      rw [this]
      linarith)
  refine ⟨w, p, v, hv, e, ev, ?_⟩
  rw [hmono] at hev
  linarith

/-- Adaptive Simpson with `minSub = 6` maps the last inputs 1 and 2 in order, whatever the tolerances: slope at least `e`,
Lipschitz constants at most `4 e^2 < 30`. -/
example (maxSub : Nat) (h1 : 6 < maxSub) (h2 : maxSub ≤ 32) (absTol relTol : ℝ) : ∃ v v' : ℝ,
    (expComponent (QProg.simpson ⟨1, maxSub, 6, absTol, relTol, .first⟩)).evaluatePt
      (List.replicate (totalWorker 1 2).cacheSize none) [0, 0, 1 / 2] [1] = .ok v ∧
    (expComponent (QProg.simpson ⟨1, maxSub, 6, absTol, relTol, .first⟩)).evaluatePt
      (List.replicate (totalWorker 1 2).cacheSize none) [0, 0, 1 / 2] [2] = .ok v' ∧ v < v' := by
  have hf : Fine (QProg.simpson ⟨1, maxSub, 6, absTol, relTol, .first⟩) (1 / 2 ^ 6) := .simpson rfl h1 h2
  have hv := valid_total 1 2 (by decide) C24_bases.1.eff.c1 C30_exp _ (fine_mesh hf).2.1 true 0
  have he : Real.exp 2 < 7.5 := by
    rw [show (2 : ℝ) = 1 + 1 by norm_num, Real.exp_add]
    nlinarith [Real.exp_one_lt_d9, Real.exp_one_gt_d9]
  have hl2 := exp_lip (y := 2) (by norm_num)
  have hl1 : LipUnit (unitDensity (Spec.basisOf Spec.He).eff expBij.eval 0 1 (MISet.toEnum 1 2) [0, 0, 1 / 2] (coords [1]))
      (2 ^ 2 * Real.exp 2) := fun s t a b a' b' => (exp_lip (y := 1) (by norm_num) s t a b a' b').trans
    (mul_le_mul_of_nonneg_right (by
      have : Real.exp 1 ≤ Real.exp 2 := Real.exp_le_exp.2 (by norm_num)
      nlinarith [Real.exp_pos 1]) (abs_nonneg _))
  refine C109_increasing (pre := []) hf hv rfl rfl (List.replicate _ none) (by simp) (m := Real.exp 1)
    (by norm_num : (1 : ℝ) < 2) (fun t ht _ => ?_) hl1 hl2 ?_
  · rw [exp_diagD]
    exact Real.exp_le_exp.2 (by simpa [coords] using ht)
  · have := Real.exp_one_gt_d9
    norm_num at he ⊢
    linarith

end MParT
