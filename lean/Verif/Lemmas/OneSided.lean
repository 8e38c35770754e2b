import Verif.Lemmas.Independent
import Mathlib.Analysis.Analytic.IsolatedZeros
import Mathlib.Analysis.Analytic.Constructions
import Mathlib.Analysis.Analytic.Polynomial
import Mathlib.Analysis.Calculus.FDeriv.Analytic
import Mathlib.Analysis.SpecialFunctions.Complex.Analytic
import Mathlib.Analysis.SpecialFunctions.ExpDeriv
import Mathlib.Analysis.SpecificLimits.Basic
/-!
# Functions which are analytic on both sides of 0

A function extended beyond bounds is not analytic at the bounds, but on either side of 0 it agrees with an analytic function as far as some
point. If a rule with positive weights sums such a function to 0 over all intervals starting at 0, the function is 0.
-/
namespace MParT
open Finset Spec Filter Topology

/-- For small `s ≥ 0` the values `F(σ s)` are those of a function analytic at 0. -/
def OneSided (σ : ℝ) (F : ℝ → ℝ) : Prop := ∃ A : ℝ → ℝ, AnalyticAt ℝ A 0 ∧ ∀ᶠ s in 𝓝[≥] 0, F (σ * s) = A s

namespace OneSided
variable {σ : ℝ} {F G : ℝ → ℝ}

theorem const (c : ℝ) : OneSided σ fun _ => c := ⟨fun _ => c, analyticAt_const, by simp⟩

theorem add (hF : OneSided σ F) (hG : OneSided σ G) : OneSided σ fun s => F s + G s := by
  obtain ⟨A, hA, eA⟩ := hF
  obtain ⟨B, hB, eB⟩ := hG
  exact ⟨fun s => A s + B s, hA.add hB, by filter_upwards [eA, eB] with s h1 h2; rw [h1, h2]⟩

theorem mul (hF : OneSided σ F) (hG : OneSided σ G) : OneSided σ fun s => F s * G s := by
  obtain ⟨A, hA, eA⟩ := hF
  obtain ⟨B, hB, eB⟩ := hG
  exact ⟨fun s => A s * B s, hA.mul hB, by filter_upwards [eA, eB] with s h1 h2; rw [h1, h2]⟩

theorem sub (hF : OneSided σ F) (hG : OneSided σ G) : OneSided σ fun s => F s - G s := by
  obtain ⟨A, hA, eA⟩ := hF
  obtain ⟨B, hB, eB⟩ := hG
  exact ⟨fun s => A s - B s, hA.sub hB, by filter_upwards [eA, eB] with s h1 h2; rw [h1, h2]⟩

theorem sum {ι : Type} (S : Finset ι) {F : ι → ℝ → ℝ} (h : ∀ i ∈ S, OneSided σ (F i)) : OneSided σ fun s => ∑ i ∈ S, F i s := by
  classical
  induction S using Finset.induction_on with
  | empty => simpa using const 0
  | insert i S hi ih =>
    simp only [sum_insert hi]
    exact (h i (by simp)).add (ih fun j hj => h j (by simp [hj]))

theorem prod {ι : Type} (S : Finset ι) {F : ι → ℝ → ℝ} (h : ∀ i ∈ S, OneSided σ (F i)) : OneSided σ fun s => ∏ i ∈ S, F i s := by
  classical
  induction S using Finset.induction_on with
  | empty => simpa using const 1
  | insert i S hi ih =>
    simp only [prod_insert hi]
    exact (h i (by simp)).mul (ih fun j hj => h j (by simp [hj]))

theorem comp {g : ℝ → ℝ} (hg : ∀ x, AnalyticAt ℝ g x) (hF : OneSided σ F) : OneSided σ fun s => g (F s) := by
  obtain ⟨A, hA, eA⟩ := hF
  exact ⟨fun s => g (A s), (hg _).comp hA, by filter_upwards [eA] with s h1; rw [h1]⟩

/-- A property which holds for small `s ≥ 0` holds up to some `ε`. -/
theorem bound {P : ℝ → Prop} (h : ∀ᶠ s in 𝓝[≥] 0, P s) : ∃ ε > 0, ∀ s, 0 ≤ s → s < ε → P s := by
  obtain ⟨u, hu, h⟩ := (mem_nhdsGE_iff_exists_Ico_subset (α := ℝ)).1 h
  exact ⟨u, hu, fun s h1 h2 => h ⟨h1, h2⟩⟩

theorem deriv (hσ : σ ≠ 0) (hd : Differentiable ℝ F) (hF : OneSided σ F) : OneSided σ (deriv F) := by
  obtain ⟨A, hA, eA⟩ := hF
  refine ⟨fun s => σ⁻¹ * _root_.deriv A s, analyticAt_const.mul hA.deriv, ?_⟩
  obtain ⟨ε, hε, h⟩ := bound (eA.and (mem_nhdsWithin_of_mem_nhds hA.eventually_analyticAt))
  filter_upwards [Ico_mem_nhdsGE hε] with s hs
  have h1 : HasDerivAt (fun s => F (σ * s)) (_root_.deriv F (σ * s) * σ) s := by
    have h := ((hasDerivAt_id s).const_mul σ)
    rw [mul_one] at h
    exact HasDerivAt.comp s (h₂ := F) (hd (σ * s)).hasDerivAt h
  have h2 := (h s hs.1 hs.2).2.differentiableAt.hasDerivAt
  have h3 : HasDerivWithinAt (fun s => F (σ * s)) (_root_.deriv A s) (Set.Ici s) s := by
    refine h2.hasDerivWithinAt.congr_of_eventuallyEq ?_ (h s hs.1 hs.2).1
    filter_upwards [Ico_mem_nhdsGE hs.2] with r hr
    exact (h r (hs.1.trans hr.1) hr.2).1
  have := (uniqueDiffWithinAt_Ici s).eq_deriv _ h1.hasDerivWithinAt h3
  rw [← this]
  field_simp

/-- Either zero, or positive, or negative, as far as some point. -/
theorem sign (h : OneSided σ F) : (∀ᶠ s in 𝓝[≥] 0, F (σ * s) = 0) ∨ (∀ᶠ s in 𝓝[≥] 0, 0 ≤ F (σ * s) ∧ (0 < s → 0 < F (σ * s))) ∨
    ∀ᶠ s in 𝓝[≥] 0, 0 ≤ -F (σ * s) ∧ (0 < s → 0 < -F (σ * s)) := by
  obtain ⟨A, hA, eA⟩ := h
  by_cases h0 : ∀ᶠ z in 𝓝 0, A z = 0
  · left
    filter_upwards [eA, mem_nhdsWithin_of_mem_nhds h0] with s h1 h2
    rw [h1]; exact h2
  · right
    obtain ⟨n, q, hq, hq0, e⟩ := hA.exists_eventuallyEq_pow_smul_nonzero_iff.2 h0
    rcases lt_or_gt_of_ne hq0 with hneg | hpos
    · right
      filter_upwards [eA, mem_nhdsWithin_of_mem_nhds e, mem_nhdsWithin_of_mem_nhds (hq.continuousAt.eventually_lt_const hneg),
        self_mem_nhdsWithin] with s h1 h2 h3 h4
      rw [h1, h2, sub_zero, smul_eq_mul, ← mul_neg]
      have h5 : 0 < -q s := by linarith
      exact ⟨mul_nonneg (pow_nonneg h4 n) h5.le, fun h => mul_pos (pow_pos h n) h5⟩
    · left
      filter_upwards [eA, mem_nhdsWithin_of_mem_nhds e, mem_nhdsWithin_of_mem_nhds (hq.continuousAt.eventually_const_lt hpos),
        self_mem_nhdsWithin] with s h1 h2 h3 h4
      rw [h1, h2, sub_zero, smul_eq_mul]
      exact ⟨mul_nonneg (pow_nonneg h4 n) (le_of_lt h3), fun h => mul_pos (pow_pos h n) h3⟩

end OneSided

theorem list_sum_pos {α : Type} {l : List α} {f : α → ℝ} (h : ∀ p ∈ l, 0 ≤ f p) {p : α} (hp : p ∈ l) (h0 : 0 < f p) : 0 < (l.map f).sum := by
  induction l with
  | nil => simp at hp
  | cons a l ih =>
    rw [List.map_cons, List.sum_cons]
    have hl : 0 ≤ (l.map f).sum := List.sum_nonneg fun v hv => by
      obtain ⟨q, hq, rfl⟩ := List.mem_map.1 hv
      exact h q (by simp [hq])
    rcases List.mem_cons.1 hp with rfl | hp
    · linarith
    · have := ih (fun q hq => h q (by simp [hq])) hp
      have := h a (by simp)
      linarith

/-- A rule with nodes in `[0,1]` and weights which are not negative, not all of which are at the node 0. -/
def GoodRule (R : List (ℝ × ℝ)) : Prop := (∀ p ∈ R, 0 ≤ p.1 ∧ p.1 ≤ 1 ∧ 0 ≤ p.2) ∧ ∃ p ∈ R, 0 < p.1 ∧ 0 < p.2

/-- Over short intervals the rule does not sum a function to 0 which is positive near 0. -/
theorem rule_pos_near {R : List (ℝ × ℝ)} (hR : GoodRule R) {v : ℝ → ℝ} (h : ∀ᶠ s in 𝓝[≥] 0, 0 ≤ v s ∧ (0 < s → 0 < v s)) {δ : ℝ} (hδ : 0 < δ) :
    ∃ y > 0, y < δ ∧ 0 < (R.map fun p => p.2 * v (p.1 * y)).sum := by
  obtain ⟨ε', hε', h⟩ := OneSided.bound h
  obtain ⟨p, hp, hp1, hp2⟩ := hR.2
  set ε := min ε' δ with hεdef
  have hε : 0 < ε := lt_min hε' hδ
  have hlt : ∀ q ∈ R, 0 ≤ q.1 * (ε / 2) ∧ q.1 * (ε / 2) < ε' := fun q hq => by
    obtain ⟨h1, h2, -⟩ := hR.1 q hq
    exact ⟨by positivity, (show q.1 * (ε / 2) < ε by nlinarith).trans_le (min_le_left _ _)⟩
  refine ⟨ε / 2, by linarith, by linarith [min_le_right ε' δ], list_sum_pos (f := fun p => p.2 * v (p.1 * (ε / 2))) (fun q hq => ?_) hp ?_⟩
  · exact mul_nonneg (hR.1 q hq).2.2 (h _ (hlt q hq).1 (hlt q hq).2).1
  · exact mul_pos hp2 ((h _ (hlt p hp).1 (hlt p hp).2).2 (by positivity))

/-- The rule does not sum a function to 0 which is positive near 0. -/
theorem rule_pos {R : List (ℝ × ℝ)} (hR : GoodRule R) {v : ℝ → ℝ} (h : ∀ᶠ s in 𝓝[≥] 0, 0 ≤ v s ∧ (0 < s → 0 < v s)) :
    ∃ y > 0, 0 < (R.map fun p => p.2 * v (p.1 * y)).sum := by
  obtain ⟨y, h1, -, h2⟩ := rule_pos_near hR h one_pos
  exact ⟨y, h1, h2⟩

/-- A function which is 0 near 0 and which the rule sums to 0 everywhere is 0. -/
theorem rule_zero {R : List (ℝ × ℝ)} (hR : GoodRule R) {v : ℝ → ℝ} (h : ∀ᶠ s in 𝓝[≥] 0, v s = 0)
    (h0 : ∀ y, 0 < y → (R.map fun p => p.2 * v (p.1 * y)).sum = 0) : ∀ s, 0 ≤ s → v s = 0 := by
  classical
  obtain ⟨ε, hε, h⟩ := OneSided.bound h
  obtain ⟨p₀, hp₀, hp1, hp2⟩ := hR.2
  -- the largest node that counts
  obtain ⟨m, hm, hmax⟩ := (R.toFinset.filter fun p => 0 < p.2).exists_max_image (fun p => p.1)
    ⟨p₀, mem_filter.2 ⟨List.mem_toFinset.2 hp₀, hp2⟩⟩
  obtain ⟨hmR, hm2⟩ := mem_filter.1 hm
  rw [List.mem_toFinset] at hmR
  have hτ : 0 < m.1 := hp1.trans_le (hmax p₀ (mem_filter.2 ⟨List.mem_toFinset.2 hp₀, hp2⟩))
  have hmax' : ∀ p ∈ R, p.2 ≠ 0 → p.1 ≤ m.1 := fun p hp h2 =>
    hmax p (mem_filter.2 ⟨List.mem_toFinset.2 hp, lt_of_le_of_ne (hR.1 p hp).2.2 (Ne.symm h2)⟩)
  obtain ⟨θ, hθ0, hθ1, hθ⟩ : ∃ θ : ℝ, 0 < θ ∧ θ < 1 ∧ ∀ p ∈ R, p.1 < m.1 → p.1 ≤ θ * m.1 := by
    clear hmax hmax' hm hmR hp₀ h0 hR
    induction R with
    | nil => exact ⟨1 / 2, by norm_num, by norm_num, by simp⟩
    | cons a R ih =>
      obtain ⟨θ, h1, h2, h3⟩ := ih
      by_cases ha : a.1 < m.1
      · refine ⟨max θ (a.1 / m.1), lt_max_of_lt_left h1, max_lt h2 ((div_lt_one hτ).2 ha), fun p hp hlt => ?_⟩
        rcases List.mem_cons.1 hp with rfl | hp
        · calc p.1 = p.1 / m.1 * m.1 := by field_simp
            _ ≤ _ := by gcongr; exact le_max_right _ _
        · exact (h3 p hp hlt).trans (by gcongr; exact le_max_left _ _)
      · refine ⟨θ, h1, h2, fun p hp hlt => ?_⟩
        rcases List.mem_cons.1 hp with rfl | hp
        · exact absurd hlt ha
        · exact h3 p hp hlt
  have step : ∀ r, (∀ s, 0 ≤ s → s < r → v s = 0) → ∀ s, 0 ≤ s → s * θ < r → v s = 0 := by
    intro r hr s hs hsr
    by_contra hv
    have hs0 : 0 < s := hs.lt_of_ne (by rintro rfl; exact hv (h 0 le_rfl hε))
    have hz := h0 (s / m.1) (by positivity)
    have heq : ∀ p ∈ R, p.2 * v (p.1 * (s / m.1)) = (if p.1 = m.1 then p.2 else 0) * v s := by
      intro p hp
      by_cases e : p.1 = m.1
      · rw [if_pos e, e]; congr 2; field_simp
      · rw [if_neg e, zero_mul]
        by_cases e2 : p.2 = 0
        · rw [e2, zero_mul]
        · have hlt : p.1 < m.1 := (hmax' p hp e2).lt_of_ne e
          rw [hr _ (mul_nonneg (hR.1 p hp).1 (by positivity)) ?_, mul_zero]
          calc p.1 * (s / m.1) ≤ θ * m.1 * (s / m.1) := by gcongr; exact hθ p hp hlt
            _ = s * θ := by field_simp
            _ < r := hsr
    rw [List.map_congr_left heq, List.sum_map_mul_right] at hz
    have hpos : 0 < (R.map fun p => if p.1 = m.1 then p.2 else 0).sum :=
      list_sum_pos (f := fun p : ℝ × ℝ => if p.1 = m.1 then p.2 else 0) (fun q hq => by
        split
        · exact (hR.1 q hq).2.2
        · exact le_rfl) hmR (by simpa using hm2)
    exact hv ((mul_eq_zero.1 hz).resolve_left hpos.ne')
  have all : ∀ n : ℕ, ∀ s, 0 ≤ s → s * θ ^ n < ε → v s = 0 := by
    intro n
    induction n with
    | zero => intro s h1 h2; exact h s h1 (by simpa using h2)
    | succ n ih =>
      intro s h1 h2
      refine step (ε / θ ^ n) (fun r hr hlt => ih r hr ?_) s h1 ?_
      · rwa [lt_div_iff₀ (by positivity)] at hlt
      · rw [lt_div_iff₀ (by positivity)]
        calc s * θ * θ ^ n = s * θ ^ (n + 1) := by ring
          _ < ε := h2
  intro s hs
  obtain ⟨n, hn⟩ := exists_pow_lt_of_lt_one (show 0 < ε / (s + 1) by positivity) hθ1
  refine all n s hs ?_
  rw [lt_div_iff₀ (by positivity)] at hn
  have : 0 < θ ^ n := by positivity
  nlinarith

/-- A function analytic on one side of 0 which the rule sums to 0 there is 0 there. -/
theorem OneSided.rule {R : List (ℝ × ℝ)} (hR : GoodRule R) {σ : ℝ} {v : ℝ → ℝ} (hv : OneSided σ v)
    (h0 : ∀ y, 0 < y → (R.map fun p => p.2 * v (σ * (p.1 * y))).sum = 0) : ∀ s, 0 ≤ s → v (σ * s) = 0 := by
  rcases hv.sign with h | h | h
  · exact rule_zero hR h h0
  · obtain ⟨y, hy, hlt⟩ := rule_pos hR (v := fun s => v (σ * s)) h
    rw [h0 y hy] at hlt
    exact absurd hlt (lt_irrefl 0)
  · obtain ⟨y, hy, hlt⟩ := rule_pos hR (v := fun s => -v (σ * s)) h
    have : (R.map fun p => p.2 * -v (σ * (p.1 * y))).sum = -(R.map fun p => p.2 * v (σ * (p.1 * y))).sum := by
      rw [← neg_one_mul, ← List.sum_map_mul_left]
      congr 2
      funext p; ring
    rw [this, h0 y hy] at hlt
    simp at hlt

/-- A function analytic on one side of 0 which the rule sums to 0 over all short intervals is 0 near 0. -/
theorem OneSided.rule_near {R : List (ℝ × ℝ)} (hR : GoodRule R) {σ : ℝ} {v : ℝ → ℝ} (hv : OneSided σ v) {δ : ℝ} (hδ : 0 < δ)
    (h0 : ∀ y, 0 < y → y < δ → (R.map fun p => p.2 * v (σ * (p.1 * y))).sum = 0) : ∀ᶠ s in 𝓝[≥] 0, v (σ * s) = 0 := by
  rcases hv.sign with h | h | h
  · exact h
  · obtain ⟨y, hy, hyδ, hlt⟩ := rule_pos_near hR (v := fun s => v (σ * s)) h hδ
    rw [h0 y hy hyδ] at hlt
    exact absurd hlt (lt_irrefl 0)
  · obtain ⟨y, hy, hyδ, hlt⟩ := rule_pos_near hR (v := fun s => -v (σ * s)) h hδ
    have : (R.map fun p => p.2 * -v (σ * (p.1 * y))).sum = -(R.map fun p => p.2 * v (σ * (p.1 * y))).sum := by
      rw [← neg_one_mul, ← List.sum_map_mul_left]
      congr 2
      funext p; ring
    rw [this, h0 y hy hyδ] at hlt
    simp at hlt

/-- A function analytic on both sides of 0 is continuous there. -/
theorem OneSided.continuousAt {F : ℝ → ℝ} (h1 : OneSided 1 F) (h2 : OneSided (-1) F) : ContinuousAt F 0 := by
  have lim : ∀ σ : ℝ, OneSided σ F → Tendsto (fun s => F (σ * s)) (𝓝[≥] 0) (𝓝 (F 0)) := fun σ h => by
    obtain ⟨A, hA, e⟩ := h
    have h0 : F (σ * 0) = A 0 := e.self_of_nhdsWithin Set.self_mem_Ici
    rw [mul_zero] at h0
    rw [h0]
    exact (hA.continuousAt.tendsto.mono_left nhdsWithin_le_nhds).congr' (e.mono fun s hs => hs.symm)
  refine continuousAt_iff_continuous_left_right.2 ⟨?_, by simpa [ContinuousWithinAt] using lim 1 h1⟩
  have hneg : Tendsto (fun s : ℝ => -s) (𝓝[≤] 0) (𝓝[≥] 0) := by
    refine tendsto_nhdsWithin_iff.2 ⟨?_, ?_⟩
    · have := (continuous_neg : Continuous fun s : ℝ => -s).tendsto 0
      rw [neg_zero] at this
      exact this.mono_left nhdsWithin_le_nhds
    · filter_upwards [self_mem_nhdsWithin] with s hs
      simpa using hs
  have := (lim (-1) h2).comp hneg
  refine this.congr fun s => ?_
  simp

/-! ### Functions extended beyond bounds -/

/-- An analytic function, extended beyond the bounds. -/
def Extended (lb ub : Option ℝ) (F : ℝ → ℝ) : Prop := ∃ L : ℝ → ℝ, (∀ x, AnalyticAt ℝ L x) ∧ F = extend lb ub L

namespace Extended
variable {lb ub : Option ℝ} {F G : ℝ → ℝ}

theorem const (c : ℝ) : Extended lb ub fun _ => c := by
  refine ⟨fun _ => c, fun _ => analyticAt_const, funext fun x => ?_⟩
  simp [extend, linearize]

theorem add (hF : Extended lb ub F) (hG : Extended lb ub G) : Extended lb ub fun x => F x + G x := by
  obtain ⟨L, hL, rfl⟩ := hF
  obtain ⟨M, hM, rfl⟩ := hG
  refine ⟨fun x => L x + M x, fun x => (hL x).add (hM x), funext fun x => ?_⟩
  have hd : ∀ a, _root_.deriv (fun x => L x + M x) a = _root_.deriv L a + _root_.deriv M a := fun a =>
    deriv_fun_add (hL a).differentiableAt (hM a).differentiableAt
  simp only [extend, linearize, hd]
  split_ifs <;> ring

theorem const_mul (c : ℝ) (hF : Extended lb ub F) : Extended lb ub fun x => c * F x := by
  obtain ⟨L, hL, rfl⟩ := hF
  refine ⟨fun x => c * L x, fun x => analyticAt_const.mul (hL x), funext fun x => ?_⟩
  have hd : ∀ a, _root_.deriv (fun x => c * L x) a = c * _root_.deriv L a := fun a => deriv_const_mul c (hL a).differentiableAt
  simp only [extend, linearize, hd]
  split_ifs <;> ring

theorem sub (hF : Extended lb ub F) (hG : Extended lb ub G) : Extended lb ub fun x => F x - G x := by
  have := hF.add (hG.const_mul (-1))
  simpa only [neg_one_mul, ← sub_eq_add_neg] using this

theorem sum {ι : Type} (S : Finset ι) {F : ι → ℝ → ℝ} (h : ∀ i ∈ S, Extended lb ub (F i)) : Extended lb ub fun s => ∑ i ∈ S, F i s := by
  classical
  induction S using Finset.induction_on with
  | empty => simpa using const 0
  | insert i S hi ih =>
    simp only [sum_insert hi]
    exact (h i (by simp)).add (ih fun j hj => h j (by simp [hj]))

/-- If 0 lies within the bounds and the function is 0 near 0 it is 0 everywhere. -/
theorem zero (hO : Ordered lb ub) (hl : ∀ l ∈ lb, l ≤ 0) (hu : ∀ u ∈ ub, 0 ≤ u) (hF : Extended lb ub F) (h0 : ∀ᶠ s in 𝓝 0, F s = 0) :
    ∀ s, F s = 0 := by
  obtain ⟨L, hL, rfl⟩ := hF
  have hside : (∀ᶠ s in 𝓝[>] (0 : ℝ), extend lb ub L s = L s) ∨ ∀ᶠ s in 𝓝[<] (0 : ℝ), extend lb ub L s = L s := by
    by_cases hz : ∃ u ∈ ub, u = 0
    · right
      obtain ⟨u, hu', rfl⟩ := hz
      obtain rfl : ub = some 0 := hu'
      have : ∀ᶠ s in 𝓝[<] (0 : ℝ), ∀ l ∈ lb, l < s := by
        cases lb with
        | none => simp
        | some l =>
          have hlt : l < 0 := hO l rfl 0 rfl
          filter_upwards [Ioo_mem_nhdsLT hlt] with s hs
          intro l' h'; cases h'; exact hs.1
      filter_upwards [this, self_mem_nhdsWithin] with s hs hs0
      have h1 : ¬ s < lb.getD s := by
        cases lb with
        | none => simp
        | some l => simpa using (hs l rfl).le
      have h2 : ¬ 0 < s := not_lt.2 (le_of_lt hs0)
      simp [extend, linearize, h1, h2]
    · left
      push Not at hz
      have : ∀ᶠ s in 𝓝[>] (0 : ℝ), ∀ u ∈ ub, s < u := by
        cases ub with
        | none => simp
        | some u =>
          have hlt : 0 < u := lt_of_le_of_ne (hu u rfl) (Ne.symm (hz u rfl))
          filter_upwards [Ioo_mem_nhdsGT hlt] with s hs
          intro u' h'; cases h'; exact hs.2
      filter_upwards [this, self_mem_nhdsWithin] with s hs hs0
      have h1 : ¬ s < lb.getD s := by
        cases lb with
        | none => simp
        | some l => simpa using (hl l rfl).trans (le_of_lt hs0)
      have h2 : ¬ ub.getD s < s := by
        cases ub with
        | none => simp
        | some u => simpa using (hs u rfl).le
      simp [extend, linearize, h1, h2]
  have hfreq : ∃ᶠ s in 𝓝[≠] (0 : ℝ), L s = 0 := by
    rcases hside with h | h
    · have : ∀ᶠ s in 𝓝[>] (0 : ℝ), L s = 0 := by
        filter_upwards [h, mem_nhdsWithin_of_mem_nhds h0] with s h1 h2
        rw [← h1]; exact h2
      exact this.frequently.filter_mono (nhdsWithin_mono _ fun s hs => ne_of_gt hs)
    · have : ∀ᶠ s in 𝓝[<] (0 : ℝ), L s = 0 := by
        filter_upwards [h, mem_nhdsWithin_of_mem_nhds h0] with s h1 h2
        rw [← h1]; exact h2
      exact this.frequently.filter_mono (nhdsWithin_mono _ fun s hs => ne_of_lt hs)
  have hz : L = fun _ => 0 := by
    funext s
    exact AnalyticOnNhd.eqOn_zero_of_preconnected_of_frequently_eq_zero (fun x _ => hL x) isPreconnected_univ (Set.mem_univ (0 : ℝ)) hfreq
      (Set.mem_univ s)
  intro s
  subst hz
  simp [extend, linearize]

end Extended

/-! ### The bases -/

/-- Functions extended beyond bounds are analytic on both sides of 0. -/
theorem oneSided_extend {lb ub : Option ℝ} (hO : Ordered lb ub) {f : ℝ → ℝ} (hf : ∀ x, AnalyticAt ℝ f x) {σ : ℝ} (hσ : σ = 1 ∨ σ = -1) :
    OneSided σ (extend lb ub f) := by
  have side : ∀ l : ℝ, (∀ᶠ s in 𝓝[≥] (0 : ℝ), σ * s ≤ l) ∨ ∀ᶠ s in 𝓝[≥] (0 : ℝ), l ≤ σ * s := by
    intro l
    have hc : Tendsto (fun s : ℝ => σ * s) (𝓝 0) (𝓝 0) := by
      have h : Continuous fun s : ℝ => σ * s := continuous_const.mul continuous_id
      have := h.tendsto 0
      rwa [mul_zero] at this
    rcases lt_trichotomy l 0 with h | h | h
    · right
      filter_upwards [mem_nhdsWithin_of_mem_nhds (hc.eventually_const_lt h)] with s hs using le_of_lt hs
    · subst h
      rcases hσ with rfl | rfl
      · right; filter_upwards [self_mem_nhdsWithin] with s hs; simpa using hs
      · left; filter_upwards [self_mem_nhdsWithin] with s hs; simpa using hs
    · left
      filter_upwards [mem_nhdsWithin_of_mem_nhds (hc.eventually_lt_const h)] with s hs using le_of_lt hs
  have hlin : ∀ a : ℝ, AnalyticAt ℝ (fun s => f a + _root_.deriv f a * (σ * s - a)) 0 := fun a => by fun_prop
  have hraw : AnalyticAt ℝ (fun s => f (σ * s)) 0 := (hf _).comp' (by fun_prop)
  have low : ∀ l ∈ lb, (∀ᶠ s in 𝓝[≥] (0 : ℝ), σ * s ≤ l) → OneSided σ (extend lb ub f) := by
    intro l hl h
    obtain rfl : lb = some l := hl
    refine ⟨_, hlin l, ?_⟩
    filter_upwards [h] with s hs
    have hu : ¬ ub.getD (σ * s) < σ * s := by
      cases ub with
      | none => simp
      | some u => have := hO l rfl u rfl; simp only [Option.getD_some, not_lt]; linarith
    simp only [extend, linearize, Option.getD_some]
    rcases hs.lt_or_eq with h | h
    · rw [if_pos h]
    · rw [if_neg (by linarith), if_neg hu, h]; ring
  have high : ∀ u ∈ ub, (∀ᶠ s in 𝓝[≥] (0 : ℝ), u ≤ σ * s) → OneSided σ (extend lb ub f) := by
    intro u hu h
    obtain rfl : ub = some u := hu
    refine ⟨_, hlin u, ?_⟩
    filter_upwards [h] with s hs
    have hl : ¬ σ * s < lb.getD (σ * s) := by
      cases lb with
      | none => simp
      | some l => have := hO l rfl u rfl; simp only [Option.getD_some, not_lt]; linarith
    simp only [extend, linearize, Option.getD_some]
    rw [if_neg hl]
    rcases hs.lt_or_eq with h | h
    · rw [if_pos h]
    · rw [if_neg (by linarith), ← h]; ring
  by_cases h1 : ∃ l ∈ lb, ∀ᶠ s in 𝓝[≥] (0 : ℝ), σ * s ≤ l
  · obtain ⟨l, hl, h⟩ := h1; exact low l hl h
  by_cases h2 : ∃ u ∈ ub, ∀ᶠ s in 𝓝[≥] (0 : ℝ), u ≤ σ * s
  · obtain ⟨u, hu, h⟩ := h2; exact high u hu h
  refine ⟨_, hraw, ?_⟩
  have e1 : ∀ᶠ s in 𝓝[≥] (0 : ℝ), ¬ σ * s < lb.getD (σ * s) := by
    cases lb with
    | none => simp
    | some l => filter_upwards [(side l).resolve_left (fun h => h1 ⟨l, rfl, h⟩)] with s hs; simpa using hs
  have e2 : ∀ᶠ s in 𝓝[≥] (0 : ℝ), ¬ ub.getD (σ * s) < σ * s := by
    cases ub with
    | none => simp
    | some u => filter_upwards [(side u).resolve_right (fun h => h2 ⟨u, rfl, h⟩)] with s hs; simpa using hs
  filter_upwards [e1, e2] with s h1 h2
  simp only [extend, linearize]
  rw [if_neg h1, if_neg h2]

theorem analyticAt_He (n : ℕ) (x : ℝ) : AnalyticAt ℝ (He n) x := by
  rw [show He n = fun x => (polyHe n).eval x from funext fun x => (polyHe_eval n x).symm]
  exact AnalyticOnNhd.eval_polynomial _ x trivial

theorem analyticAt_Hp (n : ℕ) (x : ℝ) : AnalyticAt ℝ (Hp n) x := by
  rw [show Hp n = fun x => (polyHp n).eval x from funext fun x => (polyHp_eval n x).symm]
  exact AnalyticOnNhd.eval_polynomial _ x trivial

theorem analyticAt_raw (t : BasisType) (n : ℕ) (x : ℝ) : AnalyticAt ℝ (rawFamily t n) x := by
  cases t with
  | probabilistHermite => exact analyticAt_He n x
  | physicistHermite => exact analyticAt_Hp n x
  | hermiteFunctions =>
    match n with
    | 0 => exact analyticAt_const
    | 1 => exact analyticAt_id
    | n + 2 =>
      show AnalyticAt ℝ (fun x => Real.exp (-x ^ 2 / 2) * Hp n x / √(2 ^ n * n.factorial * √Real.pi)) x
      have h1 : AnalyticAt ℝ (fun x : ℝ => Real.exp (-x ^ 2 / 2)) x := by
        refine AnalyticAt.rexp' ?_
        simp only [div_eq_mul_inv]
        exact ((analyticAt_id.pow 2).neg).mul analyticAt_const
      simp only [div_eq_mul_inv _ (√(2 ^ n * n.factorial * √Real.pi))]
      exact (h1.mul (analyticAt_Hp n x)).mul analyticAt_const

theorem analyticAt_positive (t : PosFuncType) (x : ℝ) : AnalyticAt ℝ (positive t) x := by
  cases t with
  | exp => exact analyticAt_rexp
  | softPlus =>
    have h : AnalyticAt ℝ (fun x => 1 + Real.exp x) x := analyticAt_const.add analyticAt_rexp
    exact h.log (by positivity)

end MParT
