import Verif.Props.QuadError
import Verif.Lemmas.RootLocal
import Mathlib.Analysis.Calculus.ParametricIntervalIntegral
/-!
# C110: gradients and inverse of a component approach those of the exact component
-/
namespace MParT
open Spec Finset Worker Polynomial

variable {c : MonotoneComponent} {D : Nat} {ts : List (List Nat)}

/-! ### Differentiation under the integral -/

theorem unit_integral_deriv {F F' : ℝ → ℝ → ℝ} (hF : ∀ z t, HasDerivAt (fun z => F z t) (F' z t) z)
    (hc : Continuous fun p : ℝ × ℝ => F' p.1 p.2) (hFc : ∀ z, Continuous (F z)) (z0 : ℝ) :
    HasDerivAt (fun z => ∫ t in (0 : ℝ)..1, F z t) (∫ t in (0 : ℝ)..1, F' z0 t) z0 := by
  obtain ⟨M, hM⟩ := ((isCompact_Icc (a := z0 - 1) (b := z0 + 1)).prod (isCompact_Icc (a := (0 : ℝ)) (b := 1))).exists_bound_of_continuousOn
    hc.continuousOn
  refine (intervalIntegral.hasDerivAt_integral_of_dominated_loc_of_deriv_le (s := Set.Ioo (z0 - 1) (z0 + 1)) (bound := fun _ => M)
    (Ioo_mem_nhds (by linarith) (by linarith)) (Filter.Eventually.of_forall fun z => (hFc z).aestronglyMeasurable)
    ((hFc z0).intervalIntegrable _ _) (hc.comp (continuous_const.prodMk continuous_id)).aestronglyMeasurable
    (Filter.Eventually.of_forall fun t ht z hz => ?_) (by simp) (Filter.Eventually.of_forall fun t _ z _ => hF z t)).2
  rw [Set.uIoc_of_le zero_le_one] at ht
  exact hM (z, t) ⟨⟨hz.1.le, hz.2.le⟩, ht.1.le, ht.2⟩

/-- The derivative of a sum over a mesh and the derivative of the integral it stands for. -/
theorem deriv_close {off : ℝ → ℝ} {off' z0 : ℝ} (ho : HasDerivAt off off' z0) {F F' : ℝ → ℝ → ℝ}
    (hF : ∀ z t, HasDerivAt (fun z => F z t) (F' z t) z) (hc : Continuous fun p : ℝ × ℝ => F' p.1 p.2) (hFc : ∀ z, Continuous (F z))
    {R : List (ℝ × ℝ)} {ε : ℝ} (hR : |(R.map fun p => p.2 * F' z0 p.1).sum - ∫ t in (0 : ℝ)..1, F' z0 t| ≤ ε) {s j : ℝ}
    (hj : HasDerivAt (fun z => s * (off z + (R.map fun p => p.2 * F z p.1).sum)) j z0) :
    ∃ d, HasDerivAt (fun z => off z + ∫ t in (0 : ℝ)..1, F z t) d z0 ∧ |j - s * d| ≤ |s| * ε := by
  refine ⟨_, ho.add (unit_integral_deriv hF hc hFc z0), ?_⟩
  have h1 := (ho.add (hasDerivAt_meshSum R (fun t z => F z t) (fun t => F' z0 t) z0 fun p _ => hF z0 p.1)).const_mul s
  rw [hj.unique h1, ← mul_sub, add_sub_add_left_eq_sub, abs_mul]
  exact mul_le_mul_of_nonneg_left hR (abs_nonneg s)

/-! ### Continuity of the integrands -/

theorem continuous_expansion {X : Type} [TopologicalSpace X] {cs : X → List ℝ} {φ : X → Nat → Nat → ℝ}
    (hc : ∀ i, Continuous fun p => (cs p).getD i 0) (hφ : ∀ d n, Continuous fun p => φ p d n) :
    Continuous fun p => expansion D ts (cs p) (φ p) :=
  continuous_finsetSum _ fun i _ => (hc i).mul (continuous_finsetProd _ fun d _ => hφ d _)

theorem continuous_facD1 {X : Type} [TopologicalSpace X] {x : X → Nat → ℝ} {b : Basis ℝ} (hb : C1Basis b) (hx : ∀ d, Continuous fun p => x p d)
    (e d n : Nat) : Continuous fun p => facD1 b (x p) e d n := by
  by_cases h : d = e
  · simp only [facD1, if_pos h]
    exact (hb.cont n).comp (hx d)
  · simp only [facD1, if_neg h]
    exact (continuous_iff_continuousAt.2 fun y => (hb.d1 n y).continuousAt).comp (hx d)

theorem continuous_facD2 {X : Type} [TopologicalSpace X] {x : X → Nat → ℝ} {b : Basis ℝ} (hb : C1Basis b) (h2 : ∀ n, Continuous (b.d2 n))
    (hx : ∀ d, Continuous fun p => x p d) (e d n : Nat) : Continuous fun p => facD2 b (x p) e d n := by
  by_cases h : d = e
  · simp only [facD2, if_pos h]
    exact (h2 n).comp (hx d)
  · simp only [facD2, if_neg h]
    exact (continuous_iff_continuousAt.2 fun y => (hb.d1 n y).continuousAt).comp (hx d)

theorem continuous_gderiv (hv : ValidComponent c D ts) : Continuous c.g.deriv :=
  continuous_iff_continuousAt.2 fun y => (hv.bij.deriv2 y).continuousAt

theorem continuous_geval (hv : ValidComponent c D ts) : Continuous c.g.eval :=
  continuous_iff_continuousAt.2 fun y => (hv.bij.deriv y).continuousAt

theorem continuous_pointOf {X : Type} [TopologicalSpace X] {pt : X → List ℝ} {xd : X → ℝ} (hp : ∀ d, Continuous fun p => (pt p).getD d 0)
    (hx : Continuous xd) (d : Nat) : Continuous fun p => pointOf D (pt p) (xd p) d := by
  by_cases h : d = D - 1
  · simpa only [pointOf, if_pos h] using hx
  · simpa only [pointOf, if_neg h] using hp d

theorem continuous_dfAt (hv : ValidComponent c D ts) {X : Type} [TopologicalSpace X] {cs pt : X → List ℝ} {xd t : X → ℝ}
    (hc : ∀ d, Continuous fun p => (cs p).getD d 0) (hp : ∀ d, Continuous fun p => (pt p).getD d 0)
    (hx : Continuous xd) (ht : Continuous t) : Continuous fun p => dfAt c D ts (cs p) (pt p) (xd p) (t p) := by
  simp only [dfAt, diagD_eq hv]
  exact continuous_expansion hc fun d n => continuous_facD1 hv.basis (continuous_pointOf hp (ht.mul hx)) _ d n

theorem continuous_set (l : List ℝ) (k d : Nat) : Continuous fun z : ℝ => (l.set k z).getD d 0 := by
  simp only [List.getD_eq_getElem?_getD, List.getElem?_set]
  split_ifs
  · exact continuous_id
  · exact continuous_const
  · exact continuous_const

theorem continuous_outP (hv : ValidComponent c D ts) (cs pt : List ℝ) (xd : ℝ) (k : Nat) :
    Continuous fun p : ℝ × ℝ => outP c D ts (cs.set k p.1) pt xd p.2 k := by
  have h1 : Continuous fun p : ℝ × ℝ => p.2 * xd := continuous_snd.mul continuous_const
  exact (continuous_finsetProd _ fun d _ => continuous_facD1 hv.basis (continuous_pointOf (fun _ => continuous_const) h1) _ d _).mul
    (continuous_const.mul ((continuous_gderiv hv).comp (continuous_dfAt hv (fun d => (continuous_set cs k d).comp continuous_fst)
      (fun _ => continuous_const) continuous_const continuous_snd)))

theorem continuous_outI (hv : ValidComponent c D ts) (cs pt : List ℝ) (xd : ℝ) {e : Nat} (he : e < D - 1) :
    Continuous fun p : ℝ × ℝ => outI c D ts cs (pt.set e p.1) xd p.2 e := by
  have h1 : Continuous fun p : ℝ × ℝ => p.2 * xd := continuous_snd.mul continuous_const
  have h2 := continuous_pointOf (D := D) (fun d => (continuous_set pt e d).comp (continuous_fst (X := ℝ) (Y := ℝ))) h1
  refine (continuous_expansion (fun _ => continuous_const) fun d n => ?_).mul
    (continuous_const.mul ((continuous_gderiv hv).comp (continuous_dfAt hv (fun _ => continuous_const)
      (fun d => (continuous_set pt e d).comp continuous_fst) continuous_const continuous_snd)))
  have hd1 := (hv.basis.cont n).comp (h2 d)
  have hval := (continuous_iff_continuousAt.2 fun y => (hv.basis.d1 n y).continuousAt).comp (h2 d)
  simp only [facMixed, if_neg he.ne]
  split_ifs
  · exact hd1
  · exact hd1
  · exact hval

theorem continuous_outD (hv : ValidComponent c D ts) (h2 : ∀ n, Continuous (c.b.eff.d2 n)) (cs pt : List ℝ) (ν : ℝ) :
    Continuous fun p : ℝ × ℝ => outD c D ts cs pt p.1 ν p.2 := by
  have h1 : Continuous fun p : ℝ × ℝ => p.2 * p.1 := continuous_snd.mul continuous_fst
  have hd : Continuous fun p : ℝ × ℝ => dfAt c D ts cs pt p.1 p.2 := continuous_dfAt hv (fun _ => continuous_const)
      (fun _ => continuous_const) continuous_fst continuous_snd
  exact ((continuous_expansion (fun _ => continuous_const) fun d n => continuous_facD2 hv.basis h2
    (continuous_pointOf (fun _ => continuous_const) h1) _ d n).mul ((continuous_fst.mul continuous_snd).mul
      ((continuous_gderiv hv).comp hd))).add (((continuous_geval hv).comp hd).add continuous_const)

theorem unitDensity_cont (hv : ValidComponent c D ts) (ν : ℝ) (cs : List ℝ) (x : Nat → ℝ) :
    Continuous (unitDensity c.b.eff c.g.eval ν D ts cs x) := by
  unfold unitDensity
  exact continuous_const.mul ((density_continuous hv ν cs x).comp (continuous_id.mul continuous_const))

theorem monotone_unit (ν : ℝ) (cs : List ℝ) (x : Nat → ℝ) : monotone c.b.eff c.g.eval ν D ts cs x
    = offset c.b.eff D ts cs x + ∫ t in (0 : ℝ)..1, unitDensity c.b.eff c.g.eval ν D ts cs x t := by
  rw [monotone]
  congr 1
  simp only [unitDensity]
  rw [intervalIntegral.integral_const_mul, intervalIntegral.mul_integral_comp_mul_right, zero_mul, one_mul]

theorem monotone_last_deriv (hv : ValidComponent c D ts) (ν : ℝ) (cs : List ℝ) (x : Nat → ℝ) (y : ℝ) :
    HasDerivAt (fun y => monotone c.b.eff c.g.eval ν D ts cs (Function.update x (D - 1) y))
      (c.g.eval (diagD c.b.eff D ts cs (Function.update x (D - 1) y)) + ν) y := by
  have h := ((density_continuous hv ν cs x).integral_hasStrictDerivAt 0 y).hasDerivAt
  have e : (fun y => monotone c.b.eff c.g.eval ν D ts cs (Function.update x (D - 1) y))
      = fun y => offset c.b.eff D ts cs x + ∫ s in (0 : ℝ)..y, density c.b.eff c.g.eval ν D ts cs x s := by
    funext y
    rw [monotone, offset, offset]
    simp only [Function.update_idem, Function.update_self, density]
  rw [e]
  exact h.const_add _

theorem coords_set {pt : List ℝ} {e : Nat} (he : e < pt.length) (z : ℝ) : coords (pt.set e z) = Function.update (coords pt) e z := by
  funext d
  by_cases h : d = e
  · subst h; simp [coords, List.getD_eq_getElem?_getD, he]
  · rw [Function.update_of_ne h]
    simp [coords, List.getD_eq_getElem?_getD, Ne.symm h]

/-! ### What a rule resolves -/

/-- On `[0,1]` the function is within `ε/2` of a polynomial of degree less than `n`. -/
def Spec.PolyNear (n : Nat) (h : ℝ → ℝ) (ε : ℝ) : Prop :=
  ∃ P : ℝ[X], P.natDegree < n ∧ ∀ t, 0 ≤ t → t ≤ 1 → |h t - P.eval t| ≤ ε / 2

/-- The quadratures of the library, each with the functions it integrates up to `ε`: the fixed rule with `n` points those within `ε/2` of a
polynomial of degree less than `n` on `[0,1]`; the adaptive rules those within `ε/2` of a polynomial of their degree on every
piece no longer than `2^-minSub`. -/
inductive Spec.Resolves : (Nat → QProg) → ((ℝ → ℝ) → ℝ → Prop) → Prop where
  | rule {n : Nat} {wts pts w p : Mem} (hn : 1 ≤ n) (hb : n ≤ 65537) (hw : wts.size = n) (hp : pts.size = n)
      (hr : ClenshawCurtis.getRule n wts pts = .ok (w, p)) : Resolves (QProg.clenshawCurtis p w) (PolyNear n)
  | simpson {q : Recursive} (hq : q.errorMetric = .first) (hmin : q.minSub < q.maxSub) (hmax : q.maxSub ≤ 32) :
      Resolves (QProg.simpson q) (fun h ε => PiecewiseNear h 3 (1 / 2 ^ q.minSub) (ε / 2))
  | adaptiveCC {q : Recursive} (hq : q.errorMetric = .first) (hmin : q.minSub < q.maxSub) (hmax : q.maxSub ≤ 32)
      {l : Nat} (hl : 1 ≤ l) (hl' : l ≤ 15) {r : NestedRule} (hr : AdaptiveClenshawCurtis.new l = .ok r) :
      Resolves (QProg.adaptiveCC q r) (fun h ε => PiecewiseNear h (2 ^ (l + 1)) (1 / 2 ^ q.minSub) (ε / 2))

theorem adaptive_near (q : Recursive) (hmin : q.minSub < q.maxSub) (h : ℝ → ℝ) {k : ℝ → ℝ} {ε : ℝ} (hk : Continuous k)
    {deg : Nat} (hL : PiecewiseNear k deg (1 / 2 ^ q.minSub) (ε / 2))
    (rule : ℝ → ℝ → List (ℝ × ℝ × ℝ)) (hR : ∀ a b, a ≤ b → PosRule ((rule a b).map fun r => (r.1, r.2.2)) a b)
    (hex : ∀ a b, a ≤ b → ∀ P : ℝ[X], P.natDegree ≤ deg →
      (((rule a b).map fun r => (r.1, r.2.2)).map fun q => q.2 * P.eval q.1).sum = ∫ t in a..b, P.eval t) :
    |((adaptiveMesh q rule h).map fun p => p.2 * k p.1).sum - ∫ t in (0 : ℝ)..1, k t| ≤ ε := by
  have := leaves_error hk (fun a b => (rule a b).map fun r => (r.1, r.2.2)) hR hex
    (fun level a b => QProg.stopFirst q level (est rule (·.2.1) a b h) (est rule (·.2.2) a b h)) q.minSub
    (fun l a b hs => hs.2) (q.maxSub - 1) 0 0 1 le_rfl zero_le_one le_rfl (by omega) (by simpa using hL)
  rw [adaptiveMesh, sum_flatMap_est]
  refine le_trans ?_ (this.trans (le_of_eq ?_))
  · simp [est, Function.comp_def]
  · ring

theorem rule_near {n : Nat} (hn : 1 ≤ n) (hb : n ≤ 65537) {wts pts w p : Mem} (hw : wts.size = n) (hp : pts.size = n)
    (hr : ClenshawCurtis.getRule n wts pts = .ok (w, p)) {k : ℝ → ℝ} {ε : ℝ} (hk : Continuous k) (hL : PolyNear n k ε) :
    |((QProg.moved n (fun i => p.val i) (fun i => w.val i) 0 1).map fun q => q.2 * k q.1).sum - ∫ t in (0 : ℝ)..1, k t| ≤ ε := by
  obtain ⟨h1, sw, sp, h2⟩ := getRule_use hn hb hw.ge hp.ge hr (zero_le_one (α := ℝ))
  obtain ⟨P, hP, he⟩ := hL
  have := rule_error h1 zero_le_one hk P.continuous (h2 P hP) he
  linarith

theorem rule_uses {n : Nat} (hn : 1 ≤ n) (hb : n ≤ 65537) {wts pts w p : Mem} (hw : wts.size = n) (hp : pts.size = n)
    (hr : ClenshawCurtis.getRule n wts pts = .ok (w, p)) :
    UsesMesh (QProg.clenshawCurtis p w) fun _ => QProg.moved n (fun i => p.val i) (fun i => w.val i) 0 1 := by
  obtain ⟨-, sw, sp, -⟩ := getRule_use hn hb hw.ge hp.ge hr (zero_le_one (α := ℝ))
  have hm := C39_clenshawCurtis p w (by omega)
  rw [sp, hp] at hm
  exact hm.1

theorem resolves_mesh {quad : Nat → QProg} {A : (ℝ → ℝ) → ℝ → Prop} (hq : Resolves quad A) : ∃ mesh, UsesMesh quad mesh ∧
    ∀ (h k : ℝ → ℝ) (ε : ℝ), Continuous k → A k ε → |((mesh h).map fun p => p.2 * k p.1).sum - ∫ t in (0 : ℝ)..1, k t| ≤ ε := by
  cases hq with
  | @rule n wts pts w p hn hb hw hp hr =>
    exact ⟨_, rule_uses hn hb hw hp hr, fun h k ε hk hL => rule_near hn hb hw hp hr hk hL⟩
  | @simpson q hq hmin hmax =>
    have hm := C39_simpson q hq hmin hmax
    exact ⟨_, hm.1, fun h k ε hk hL => adaptive_near q hmin h hk hL _ (fun a b hab => posRule_simpson hab)
      fun a b _ P hP => exact_simpson a b P hP⟩
  | @adaptiveCC q hq hmin hmax l hl hl' r hr =>
    have hm := C39_adaptiveCC q hq hmin hmax l hl r hr
    exact ⟨_, hm.1, fun h k ε hk hL => adaptive_near q hmin h hk hL _
      (fun a b hab => (posRule_nested hl hl' hr hab).1) fun a b hab P hP => (posRule_nested hl hl' hr hab).2 P hP⟩

/-- Functions with Lipschitz constant `L` on `[0,1]` are resolved up to `L/√(n-1)` by the fixed rule with `n` points and up to `L/2^minSub` by
the adaptive rules. -/
theorem resolves_lip {quad : Nat → QProg} {ρ : ℝ} (hq : Fine quad ρ) :
    ∃ A, Resolves quad A ∧ ∀ h L, LipUnit h L → A h (L * ρ) := by
  cases hq with
  | @rule n wts pts w p hn hb hw hp hr =>
    refine ⟨_, .rule (by omega) hb hw hp hr, fun h L hL => ?_⟩
    obtain ⟨P, hP, he⟩ := bernstein_lip hL (n := n - 1) (by omega)
    refine ⟨P, by omega, fun t t0 t1 => (he t t0 t1).trans (le_of_eq ?_)⟩
    ring
  | @simpson q hq hmin hmax => exact ⟨_, .simpson hq hmin hmax, fun h L hL => piecewise_lip hL 3 _⟩
  | @adaptiveCC q hq hmin hmax l hl hl' r hr => exact ⟨_, .adaptiveCC hq hmin hmax hl hl' hr, fun h L hL => piecewise_lip hL _ _⟩

/-! ### C110 -/

section
variable (hv : ValidComponent c D ts) {cs pt : List ℝ} (hc : cs.length = ts.length) (hpt : pt.length = D)
include hv hc hpt

/-- **C110** (coefficients). Every entry of `CoeffGrad` is within `|s| ε` of `s` times the derivative of the exact component (nugget
included) whenever the quadrature resolves the derivative of the integrand in that coefficient up to `ε`. -/
theorem C110_coeff {A : (ℝ → ℝ) → ℝ → Prop} (hq : Resolves c.quad A) (scr : Cache ℝ) (hs : scr.length = c.w.cacheSize) (s : ℝ) (out : List ℝ)
    (ho : out.length = ts.length) :
    ∃ j, c.coeffGradPt scr cs pt s out = .ok j ∧ j.length = ts.length ∧ ∀ k, k < ts.length → ∀ ε,
      A (fun t => deriv (fun z => unitDensity c.b.eff c.g.eval c.nugget D ts (cs.set k z) (coords pt) t) (cs.getD k 0)) ε →
      ∃ d, HasDerivAt (fun z => monotone c.b.eff c.g.eval c.nugget D ts (cs.set k z) (coords pt)) d (cs.getD k 0) ∧
        |j.getD k 0 - s * d| ≤ |s| * ε := by
  obtain ⟨mesh, hm, he⟩ := resolves_mesh hq
  obtain ⟨j, e, hl, hj⟩ := (C39_gradients hv hm hc hpt scr hs s (List.replicate D 0) out (by simp) ho).2
  refine ⟨j, e, hl, fun k hk ε hL => ?_⟩
  have hF : ∀ z t, HasDerivAt (fun z => unitDensity c.b.eff c.g.eval c.nugget D ts (cs.set k z) (coords pt) t)
      (outP c D ts (cs.set k z) pt (coords pt (D - 1)) t k) z := by
    intro z t
    have h := outP_deriv hv (cs.set k z) pt c.nugget (by simpa using hc) (coords pt (D - 1)) t k hk
    simpa [Function.update_eq_self, List.getD_eq_getElem?_getD, show k < cs.length by omega] using h
  have hcs : cs.set k (cs.getD k 0) = cs := set_getD _ _ (by omega)
  have hR := he (unitDensity c.b.eff c.g.eval c.nugget D ts cs (coords pt)) _ ε (by
    simp only [(hF _ _).deriv]
    exact (continuous_outP hv cs pt (coords pt (D - 1)) k).comp (continuous_const.prodMk continuous_id)) hL
  simp only [(hF _ _).deriv] at hR
  obtain ⟨d, h1, h2⟩ := deriv_close (offset_coeff hc c.b.eff (coords pt) k hk) hF (continuous_outP hv cs pt _ k)
    (fun z => unitDensity_cont hv _ _ _) hR (hj k hk)
  exact ⟨d, by simpa only [← monotone_unit] using h1, h2⟩

/-- **C110** (inputs). Every entry of `Gradient` is within `|s| ε` of `s` times the derivative of the exact component (nugget included)
whenever the quadrature resolves the derivative of the integrand in that input up to `ε`. For the last entry the exact
derivative is `g(∂_D f(x)) + nugget`, and the basis must have continuous second derivatives. -/
theorem C110_input {A : (ℝ → ℝ) → ℝ → Prop} (hq : Resolves c.quad A) (scr : Cache ℝ) (hs : scr.length = c.w.cacheSize) (s : ℝ) (out : List ℝ)
    (ho : out.length = D) :
    ∃ j, c.gradientPt scr cs pt s out = .ok j ∧ j.length = D ∧ (∀ e, e < D - 1 → ∀ ε,
      A (fun t => deriv (fun y => unitDensity c.b.eff c.g.eval c.nugget D ts cs (Function.update (coords pt) e y) t) (coords pt e)) ε →
      ∃ d, HasDerivAt (fun y => monotone c.b.eff c.g.eval c.nugget D ts cs (Function.update (coords pt) e y)) d (coords pt e) ∧
        |j.getD e 0 - s * d| ≤ |s| * ε) ∧
      ((∀ y, TwiceAt c.b.eff y) → (∀ n, Continuous (c.b.eff.d2 n)) → ∀ ε,
      A (fun t => deriv (fun y => unitDensity c.b.eff c.g.eval c.nugget D ts cs (Function.update (coords pt) (D - 1) y) t)
        (coords pt (D - 1))) ε →
      |j.getD (D - 1) 0 - s * (c.g.eval (diagD c.b.eff D ts cs (coords pt)) + c.nugget)| ≤ |s| * ε) := by
  have hD := hv.pos
  obtain ⟨mesh, hm, he⟩ := resolves_mesh hq
  obtain ⟨j, e, hl, hj⟩ := (C39_gradients hv hm hc hpt scr hs s out (List.replicate ts.length 0) ho (by simp)).1
  refine ⟨j, e, hl, fun a ha ε hL => ?_, fun h2 h2c ε hL => ?_⟩
  · have hne : D - 1 ≠ a := by omega
    have hF : ∀ z t, HasDerivAt (fun y => unitDensity c.b.eff c.g.eval c.nugget D ts cs (Function.update (coords pt) a y) t)
        (outI c D ts cs (pt.set a z) (coords pt (D - 1)) t a) z := by
      intro z t
      have h := outI_deriv hv cs (pt.set a z) c.nugget (coords pt (D - 1)) t a ha
      rw [coords_set (by omega), Function.update_self, Function.update_comm hne.symm, Function.update_eq_self] at h
      simpa only [Function.update_idem] using h
    have hR := he (unitDensity c.b.eff c.g.eval c.nugget D ts cs (coords pt)) _ ε (by
      simp only [(hF _ _).deriv]
      exact (continuous_outI hv cs pt (coords pt (D - 1)) ha).comp (f := fun t => (coords pt a, t)) (continuous_const.prodMk continuous_id)) hL
    simp only [(hF _ _).deriv] at hR
    have hoff : HasDerivAt (fun y => offset c.b.eff D ts cs (Function.update (coords pt) a y))
        (expansion D ts cs (facD1 c.b.eff (Function.update (coords pt) (D - 1) 0) a)) (coords pt a) := by
      have := expandAt_partial (ts := ts) c.b.eff cs hv.basis D (Function.update (coords pt) (D - 1) 0) a (by omega)
      rw [Function.update_of_ne hne.symm] at this
      refine this.congr_of_eventuallyEq (Filter.Eventually.of_forall fun y => ?_)
      show offset _ _ _ _ _ = _
      rw [offset, Function.update_comm hne.symm]
    have hj' := hj a (by omega) (fun h => absurd h hne.symm)
    simp only [discretised] at hj'
    obtain ⟨d, h1, h2⟩ := deriv_close hoff hF (continuous_outI hv cs pt _ ha) (fun z => unitDensity_cont hv _ _ _) hR hj'
    exact ⟨d, by simpa only [← monotone_unit] using h1, h2⟩
  · have hF : ∀ z t, HasDerivAt (fun y => unitDensity c.b.eff c.g.eval c.nugget D ts cs (Function.update (coords pt) (D - 1) y) t)
        (outD c D ts cs pt z c.nugget t) z := fun z t => outD_deriv hv cs pt c.nugget t z (h2 _)
    have hR := he (unitDensity c.b.eff c.g.eval c.nugget D ts cs (coords pt)) _ ε (by
      simp only [(hF _ _).deriv]
      exact (continuous_outD hv h2c cs pt c.nugget).comp (f := fun t => (coords pt (D - 1), t)) (continuous_const.prodMk continuous_id)) hL
    simp only [(hF _ _).deriv] at hR
    have hoff : HasDerivAt (fun y => offset c.b.eff D ts cs (Function.update (coords pt) (D - 1) y)) 0 (coords pt (D - 1)) := by
      simp only [offset, Function.update_idem]
      exact hasDerivAt_const _ _
    have hj' := hj (D - 1) (by omega) (fun _ _ _ => h2 _)
    simp only [discretised] at hj'
    obtain ⟨d, h1, h3⟩ := deriv_close hoff hF (continuous_outD hv h2c cs pt _) (fun z => unitDensity_cont hv _ _ _) hR hj'
    simp only [← monotone_unit] at h1
    have h4 := monotone_last_deriv hv c.nugget cs (coords pt) (coords pt (D - 1))
    rw [Function.update_eq_self] at h4
    rwa [h1.unique h4] at h3

end

/-! ### The inverse -/

section
variable {n : Nat} (hn : 1 ≤ n) (hb : n ≤ 65537) {wts pts w p : Mem} (hw : wts.size = n) (hp : pts.size = n)
  (hr : ClenshawCurtis.getRule n wts pts = .ok (w, p)) (hv : ValidComponent c D ts) (hq : c.quad = QProg.clenshawCurtis p w)
  (h2 : ∀ y, TwiceAt c.b.eff y) (h2c : ∀ n, Continuous (c.b.eff.d2 n)) (cs pt : List ℝ)
include hn hb hw hp hr hv h2 h2c

/-- The slope of the discretised component against the slope of the exact one. -/
theorem discretised_slope (ν t ε : ℝ)
    (hA : PolyNear n (fun s => deriv (fun y => unitDensity c.b.eff c.g.eval ν D ts cs (Function.update (coords pt) (D - 1) y) s) t) ε) :
    ∃ j, HasDerivAt (fun y => discretised c.b.eff c.g.eval ν D ts cs (Function.update (coords pt) (D - 1) y)
        (QProg.moved n (fun i => p.val i) (fun i => w.val i) 0 1)) j t ∧
      |j - (c.g.eval (diagD c.b.eff D ts cs (Function.update (coords pt) (D - 1) t)) + ν)| ≤ ε := by
  have hF : ∀ z t, HasDerivAt (fun y => unitDensity c.b.eff c.g.eval ν D ts cs (Function.update (coords pt) (D - 1) y) t)
      (outD c D ts cs pt z ν t) z := fun z t => outD_deriv hv cs pt ν t z (h2 _)
  have hR := rule_near hn hb hw hp hr (by
    simp only [(hF _ _).deriv]
    exact (continuous_outD hv h2c cs pt ν).comp (f := fun s => (t, s)) (continuous_const.prodMk continuous_id)) hA
  simp only [(hF _ _).deriv] at hR
  have hoff : HasDerivAt (fun y => offset c.b.eff D ts cs (Function.update (coords pt) (D - 1) y)) 0 t := by
    simp only [offset, Function.update_idem]
    exact hasDerivAt_const _ _
  have hj := (hoff.add (hasDerivAt_meshSum (QProg.moved n (fun i => p.val i) (fun i => w.val i) 0 1)
    (fun s y => unitDensity c.b.eff c.g.eval ν D ts cs (Function.update (coords pt) (D - 1) y) s)
    (fun s => outD c D ts cs pt t ν s) t fun q _ => hF t q.1))
  have hj1 := hj.const_mul 1
  simp only [Pi.add_apply] at hj1
  obtain ⟨d, h1, h3⟩ := deriv_close hoff hF (continuous_outD hv h2c cs pt _) (fun z => unitDensity_cont hv _ _ _) hR hj1
  simp only [← monotone_unit] at h1
  rw [h1.unique (monotone_last_deriv hv ν cs (coords pt) t), one_mul, one_mul, abs_one, one_mul] at h3
  exact ⟨_, hj, h3⟩

include hq in
/-- **C110** (monotonicity). With a fixed rule the map computed by `Evaluate` is strictly increasing in the last input on every
interval where the exact slope exceeds what the rule fails to resolve of the derivative of the integrand. -/
theorem C110_strict (hc : cs.length = ts.length) {pre : List ℝ} (hpre : pre.length = D - 1) (scr : Cache ℝ)
    (hs : scr.length = c.w.cacheSize) {a b : ℝ} (hab : a < b)
    (hm : ∀ t, a ≤ t → t ≤ b → ∃ ε, ε < c.g.eval (diagD c.b.eff D ts cs (coords (pre ++ [t]))) ∧
      PolyNear n (fun s => deriv (fun y => unitDensity c.b.eff c.g.eval 0 D ts cs (coords (pre ++ [y])) s) t) ε) :
    ∃ v v', c.evaluatePt scr cs (pre ++ [a]) = .ok v ∧ c.evaluatePt scr cs (pre ++ [b]) = .ok v' ∧ v < v' := by
  have hD := hv.pos
  have hm' : UsesMesh c.quad _ := hq ▸ rule_uses hn hb hw hp hr
  refine ⟨_, _, C38_evaluate_partial hv hm' hc (pt := pre ++ [a]) (by simp; omega) scr hs, C38_evaluate_partial hv hm' hc (pt := pre ++ [b]) (by simp; omega) scr hs, ?_⟩
  simp only [coords_append hpre] at hm ⊢
  have key : ∀ t ∈ Set.Icc a b, ∃ j, HasDerivAt (fun y => discretised c.b.eff c.g.eval 0 D ts cs (Function.update (coords pre) (D - 1) y)
        (QProg.moved n (fun i => p.val i) (fun i => w.val i) 0 1)) j t ∧ 0 < j := by
    intro t ht
    obtain ⟨ε, e1, e2⟩ := hm t ht.1 ht.2
    obtain ⟨j, hj, hje⟩ := discretised_slope hn hb hw hp hr hv h2 h2c cs pre 0 t ε e2
    have := abs_le.1 hje
    exact ⟨j, hj, by linarith⟩
  refine strictMonoOn_of_deriv_pos (f := fun y => discretised c.b.eff c.g.eval 0 D ts cs (Function.update (coords pre) (D - 1) y)
    (QProg.moved n (fun i => p.val i) (fun i => w.val i) 0 1)) (convex_Icc a b) (fun t ht => ?_) (fun t ht => ?_) ⟨le_rfl, hab.le⟩ ⟨hab.le, le_rfl⟩ hab
  · obtain ⟨j, hj, -⟩ := key t ht
    exact hj.continuousAt.continuousWithinAt
  · rw [interior_Icc] at ht
    obtain ⟨j, hj, h0⟩ := key t (Set.Ioo_subset_Icc_self ht)
    rwa [hj.deriv]

include hq in
/-- **C110** (inverse). Let the exact component (nugget included) take the value `y` at `r`. If around `r`, as far as twice the distance to the
initial guess plus 5, the exact slope is at least `m`, and the rule resolves the integrand up to `ε` and its derivative in the last
input up to `ε'`, with `ε ≤ m` and `1e-12 ≤ m - ε'`, then `Inverse` reports success and returns a point within
`max (xtol/2) (ytol/m) + ε/m` of `r`. -/
theorem C110_inverse (hc : cs.length = ts.length) (hpt : D - 1 ≤ pt.length) (hne : 0 < pt.length) (scr : Cache ℝ)
    (hs : scr.length = c.w.cacheSize) {y r m ε ε' xtol ytol : ℝ}
    (hroot : monotone c.b.eff c.g.eval c.nugget D ts cs (Function.update (coords pt) (D - 1) r) = y)
    (hnear : ∀ t, |t - r| ≤ 2 * |r - coords pt (pt.length - 1)| + 5 →
      m ≤ c.g.eval (diagD c.b.eff D ts cs (Function.update (coords pt) (D - 1) t)) + c.nugget ∧
      PolyNear n (unitDensity c.b.eff c.g.eval c.nugget D ts cs (Function.update (coords pt) (D - 1) t)) ε ∧
      PolyNear n (fun s => deriv (fun y => unitDensity c.b.eff c.g.eval c.nugget D ts cs (Function.update (coords pt) (D - 1) y) s) t) ε')
    (hm : 1e-12 ≤ m - ε') (hε : ε ≤ m) (hfar : |r - coords pt (pt.length - 1)| ≤ 2 ^ 128 - 2) (hx : 2 ^ (-1074 : ℤ) ≤ xtol) :
    ∃ x, c.inversePt scr cs pt y xtol ytol = .ok (some x, 0) ∧ |x - r| ≤ max (xtol / 2) (ytol / m) + ε / m := by
  have hm' : UsesMesh c.quad _ := hq ▸ rule_uses hn hb hw hp hr
  rw [C38_inverse hv hm' hc hpt hne scr hs]
  generalize hx0 : coords pt (pt.length - 1) = x0 at *
  generalize hR : QProg.moved n (fun i => p.val i) (fun i => w.val i) 0 1 = R at *
  set f := fun t => discretised c.b.eff c.g.eval c.nugget D ts cs (Function.update (coords pt) (D - 1) t) R with hf
  set E := fun t => monotone c.b.eff c.g.eval c.nugget D ts cs (Function.update (coords pt) (D - 1) t) with hE
  set W := 2 * |r - x0| + 5 with hW
  have hW0 : 5 ≤ W := by have := abs_nonneg (r - x0); linarith
  have hslope : ∀ t, |t - r| ≤ W → ∃ j, HasDerivAt f j t ∧ m - ε' ≤ j := by
    intro t ht
    obtain ⟨a1, -, a3⟩ := hnear t ht
    obtain ⟨j, hj, hje⟩ := discretised_slope hn hb hw hp hr hv h2 h2c cs pt c.nugget t ε' a3
    rw [hR] at hj
    have := abs_le.1 hje
    exact ⟨j, hj, by linarith⟩
  have hclose : ∀ t, |t - r| ≤ W → |f t - E t| ≤ ε := by
    intro t ht
    have := rule_near hn hb hw hp hr (unitDensity_cont hv _ _ _) (hnear t ht).2.1
    rw [hR] at this
    simp only [hf, hE, discretised, monotone_unit, add_sub_add_left_eq_sub]
    exact this
  have hε0 : 0 ≤ ε := (abs_nonneg _).trans (hclose r (by simp; linarith))
  have hε'0 : 0 ≤ ε' := by
    obtain ⟨P, -, hP⟩ := (hnear r (by simp; linarith)).2.2
    have := (abs_nonneg _).trans (hP 0 le_rfl zero_le_one)
    linarith
  have hmpos : 0 < m := by
    have : (0 : ℝ) < 1e-12 := by norm_num
    linarith
  -- the exact component grows at least at the rate `m`
  have hgrow : ∀ x z, r - W ≤ x → x ≤ z → z ≤ r + W → m * (z - x) ≤ E z - E x := by
    intro x z hx hxz hz
    rcases hxz.eq_or_lt with rfl | hlt
    · simp
    obtain ⟨t, ht, e⟩ := exists_hasDerivAt_eq_slope E _ hlt
      (fun t _ => (monotone_last_deriv hv c.nugget cs (coords pt) t).continuousAt.continuousWithinAt)
      fun t _ => monotone_last_deriv hv c.nugget cs (coords pt) t
    have := (hnear t (abs_le.2 ⟨by linarith [ht.1], by linarith [ht.2]⟩)).1
    rw [e, le_div_iff₀ (by linarith)] at this
    exact this
  have hfgrow : ∀ x z, r - W ≤ x → x ≤ z → z ≤ r + W → (m - ε') * (z - x) ≤ f z - f x := by
    intro x z hx hxz hz
    rcases hxz.eq_or_lt with rfl | hlt
    · simp
    have hin : ∀ t ∈ Set.Icc x z, |t - r| ≤ W := fun t ht => abs_le.2 ⟨by linarith [ht.1], by linarith [ht.2]⟩
    obtain ⟨t, ht, e⟩ := exists_deriv_eq_slope f hlt
      (fun t ht => by obtain ⟨j, hj, -⟩ := hslope t (hin t ht); exact hj.continuousAt.continuousWithinAt)
      (fun t ht => by
        obtain ⟨j, hj, -⟩ := hslope t (hin t (Set.Ioo_subset_Icc_self ht)); exact hj.differentiableAt.differentiableWithinAt)
    obtain ⟨j, hj, hle⟩ := hslope t (hin t (Set.Ioo_subset_Icc_self ht))
    rw [hj.deriv] at e
    rw [e, le_div_iff₀ (by linarith)] at hle
    exact hle
  -- a root of the discretised component
  set δ := ε / m with hδ
  have hδ0 : 0 ≤ δ := by positivity
  have hδ1 : δ ≤ 1 := (div_le_one hmpos).2 hε
  have hmδ : m * δ = ε := by rw [hδ]; field_simp
  have hup : y ≤ f (r + δ) := by
    have a := hgrow r (r + δ) (by linarith) (by linarith) (by linarith)
    have b := abs_le.1 (hclose (r + δ) (abs_le.2 ⟨by linarith, by linarith⟩))
    have : E r = y := hroot
    nlinarith
  have hlo : f (r - δ) ≤ y := by
    have a := hgrow (r - δ) r (by linarith) (by linarith) (by linarith)
    have b := abs_le.1 (hclose (r - δ) (abs_le.2 ⟨by linarith, by linarith⟩))
    have : E r = y := hroot
    nlinarith
  obtain ⟨r', hr', hfr⟩ := intermediate_value_Icc (f := f) (show r - δ ≤ r + δ by linarith)
    (fun t ht => by
      obtain ⟨j, hj, -⟩ := hslope t (abs_le.2 ⟨by linarith [ht.1], by linarith [ht.2]⟩)
      exact hj.continuousAt.continuousWithinAt) ⟨hlo, hup⟩
  have hrr : |r' - r| ≤ δ := abs_le.2 ⟨by linarith [hr'.1], by linarith [hr'.2]⟩
  have hdist : |r' - x0| ≤ |r - x0| + δ := by
    have := abs_add_le (r' - r) (r - x0)
    rw [sub_add_sub_cancel] at this
    linarith
  obtain ⟨x, ex, hres⟩ := inverse_local (f := f) hfr hm (by linarith)
    (fun x z h1 h2 h3 => hfgrow x z (by linarith [hr'.1]) h2 (by linarith [hr'.2])) xtol ytol hx
  refine ⟨x, by rw [ex], ?_⟩
  rcases hres with ⟨h1, h3⟩ | h1
  · have hxr : |x - r| ≤ W := by
      have := abs_add_le (x - r') (r' - r)
      rw [sub_add_sub_cancel] at this
      linarith
    have h4 := hclose x hxr
    have h5 : |E x - y| ≤ ytol + ε := by
      have := abs_sub_le (E x) (f x) y
      rw [abs_sub_comm (E x) (f x)] at this
      linarith
    have h6 : m * |x - r| ≤ |E x - y| := by
      have hb' := abs_le.1 hxr
      have : E r = y := hroot
      rcases le_total r x with h | h
      · rw [abs_of_nonneg (by linarith : (0 : ℝ) ≤ x - r)]
        exact (hgrow r x (by linarith) h (by linarith)).trans (by rw [this]; exact le_abs_self _)
      · rw [abs_of_nonpos (by linarith : x - r ≤ 0), neg_sub]
        refine (hgrow x r (by linarith) h (by linarith)).trans ?_
        rw [this, abs_sub_comm]; exact le_abs_self _
    have h7 : |x - r| ≤ ytol / m + ε / m := by
      rw [← add_div, le_div_iff₀ hmpos]
      linarith
    exact h7.trans (by gcongr; exact le_max_right _ _)
  · have := abs_add_le (x - r') (r' - r)
    rw [sub_add_sub_cancel] at this
    have h8 := le_max_left (xtol / 2) (ytol / m)
    linarith

end
/-! ### Concrete cases -/

open Hermite in
theorem he_d2_cont (n : Nat) : Continuous ((Spec.basisOf He).eff.d2 n) := by
  have hc : ∀ k, Continuous (He k) := fun k => by
    cases k with
    | zero => rw [funext He_zero]; exact continuous_const
    | succ k => exact continuous_iff_continuousAt.2 fun y => (He_hasDerivAt k y).continuousAt
  have hd : ∀ k, deriv (He (k + 1)) = fun y => ((k : ℝ) + 1) * He k y := fun k => funext fun y => (He_hasDerivAt k y).deriv
  match n with
  | 0 => simp only [Basis.eff, if_true]; exact continuous_const
  | 1 =>
    simp only [Basis.eff, Spec.basisOf, one_ne_zero, if_false]
    rw [hd 0, funext fun y => show ((0 : ℕ) + 1 : ℝ) * He 0 y = 1 by rw [He_zero]; norm_num]
    simpa using continuous_const
  | n + 2 =>
    simp only [Basis.eff, Spec.basisOf, Nat.add_eq_zero_iff, OfNat.ofNat_ne_zero, and_false, if_false]
    rw [hd (n + 1), funext fun y => ((He_hasDerivAt n y).const_mul _).deriv]
    exact continuous_const.mul (continuous_const.mul (hc n))

/-- Taylor polynomial of `s ↦ exp (s y)` with 40 terms. -/
noncomputable def taylor40 (y : ℝ) : ℝ[X] := ∑ m ∈ range 40, Polynomial.C (y ^ m / m.factorial) * X ^ m

theorem taylor40_degree (y : ℝ) : (taylor40 y).natDegree ≤ 39 :=
  natDegree_sum_le_of_forall_le _ _ fun m hm => (natDegree_C_mul_X_pow_le _ _).trans (by have := mem_range.1 hm; omega)

theorem taylor40_near {y s : ℝ} (hy : |y| ≤ 7) (s0 : 0 ≤ s) (s1 : s ≤ 1) : |Real.exp (s * y) - (taylor40 y).eval s| ≤ 1e-12 := by
  have hx : |s * y| ≤ 7 := by
    rw [abs_mul, abs_of_nonneg s0]
    nlinarith [abs_nonneg y]
  have h := Complex.exp_bound' (x := ((s * y : ℝ) : ℂ)) (n := 40) (by
    rw [Complex.norm_real, Real.norm_eq_abs]
    rw [show ((Nat.succ 40 : ℕ) : ℝ) = 41 by norm_num]
    linarith)
  have e : (taylor40 y).eval s = ∑ m ∈ range 40, (s * y) ^ m / m.factorial := by
    rw [taylor40, eval_finsetSum]
    refine sum_congr rfl fun m _ => ?_
    rw [eval_mul, eval_C, eval_pow, eval_X, mul_pow]
    ring
  rw [e]
  have e2 : Complex.exp ((s * y : ℝ) : ℂ) - ∑ m ∈ range 40, ((s * y : ℝ) : ℂ) ^ m / m.factorial
      = ((Real.exp (s * y) - ∑ m ∈ range 40, (s * y) ^ m / m.factorial : ℝ) : ℂ) := by push_cast; rfl
  rw [e2, Complex.norm_real, Complex.norm_real, Real.norm_eq_abs, Real.norm_eq_abs] at h
  refine h.trans ?_
  have h7 : |s * y| ^ 40 ≤ 7 ^ 40 := pow_le_pow_left₀ (abs_nonneg _) hx 40
  have : (7 : ℝ) ^ 40 / (Nat.factorial 40 : ℕ) * 2 ≤ 1e-12 := by norm_num [Nat.factorial]
  refine le_trans ?_ this
  gcongr

theorem exp_unit_update (y t : ℝ) : unitDensity (Spec.basisOf Spec.He).eff expBij.eval 0 1 (MISet.toEnum 1 2) [0, 0, 1 / 2]
    (Function.update (coords [1]) (1 - 1) y) t = y * Real.exp (t * y) := by
  have := exp_unitDensity y t
  rwa [show coords [y] = Function.update (coords [1]) (1 - 1) y from coords_append (D := 1) (pre := []) rfl y ▸ by
    funext d; cases d <;> simp [coords, Function.update]] at this

theorem exp_unit_deriv (y t : ℝ) : HasDerivAt (fun y => y * Real.exp (t * y)) ((1 + t * y) * Real.exp (t * y)) y := by
  refine ((hasDerivAt_id y).mul ((Real.hasDerivAt_exp (t * y)).comp y (by simpa using (hasDerivAt_id y).const_mul t))).congr_deriv ?_
  simp only [id, Function.comp]
  ring

theorem exp_near {t : ℝ} (h7 : |t| ≤ 7) : PolyNear 41 (fun s => t * Real.exp (s * t)) 1e-10 := by
  refine ⟨Polynomial.C t * taylor40 t, ?_, fun s s0 s1 => ?_⟩
  · have h1 := natDegree_mul_le (p := Polynomial.C t) (q := taylor40 t)
    rw [natDegree_C] at h1
    have := taylor40_degree t
    omega
  · simp only [eval_mul, eval_C]
    rw [← mul_sub, abs_mul]
    have := taylor40_near h7 s0 s1
    calc |t| * _ ≤ 7 * 1e-12 := mul_le_mul h7 this (abs_nonneg _) (by norm_num)
      _ ≤ _ := by norm_num

theorem exp_near_deriv {t : ℝ} (h7 : |t| ≤ 7) : PolyNear 41 (fun s => (1 + s * t) * Real.exp (s * t)) 1e-10 := by
  refine ⟨(1 + Polynomial.C t * X) * taylor40 t, ?_, fun s s0 s1 => ?_⟩
  · have h1 := natDegree_mul_le (p := 1 + Polynomial.C t * X) (q := taylor40 t)
    have h2 : (1 + Polynomial.C t * X : ℝ[X]).natDegree ≤ 1 := by
      refine natDegree_add_le_of_degree_le (by simp) ?_
      simpa using natDegree_C_mul_X_pow_le t 1
    have := taylor40_degree t
    omega
  · simp only [eval_mul, eval_add, eval_one, eval_C, eval_X]
    rw [mul_comm t s, ← mul_sub, abs_mul]
    have := taylor40_near h7 s0 s1
    have h8 : |1 + s * t| ≤ 8 := by
      have := abs_le.1 h7
      rw [abs_le]
      constructor <;> nlinarith
    calc |1 + s * t| * _ ≤ 8 * 1e-12 := mul_le_mul h8 this (abs_nonneg _) (by norm_num)
      _ ≤ _ := by norm_num

theorem exp_neg_seven : (1 : ℝ) / 1100 ≤ Real.exp (-7) := by
  have he7 : Real.exp 7 < 1100 := by
    have : Real.exp 7 = Real.exp 1 ^ 7 := by rw [← Real.exp_nat_mul]; norm_num
    rw [this]
    calc Real.exp 1 ^ 7 ≤ 2.7182818286 ^ 7 := pow_le_pow_left₀ (Real.exp_pos 1).le Real.exp_one_lt_d9.le 7
      _ < 1100 := by norm_num
  rw [Real.exp_neg, ← one_div]
  exact one_div_le_one_div_of_le (Real.exp_pos 7) he7.le

/-- With 41 points the component with integrand `exp` is strictly increasing on `[-7,7]` as computed. -/
example {a b : ℝ} (ha : -7 ≤ a) (hab : a < b) (hb : b ≤ 7) : ∃ (w p : Mem) (v v' : ℝ),
    ClenshawCurtis.getRule 41 ⟨41, fun _ => 0⟩ ⟨41, fun _ => 0⟩ = .ok (w, p) ∧
    (expComponent (QProg.clenshawCurtis p w)).evaluatePt (List.replicate (totalWorker 1 2).cacheSize none) [0, 0, 1 / 2] [a] = .ok v ∧
    (expComponent (QProg.clenshawCurtis p w)).evaluatePt (List.replicate (totalWorker 1 2).cacheSize none) [0, 0, 1 / 2] [b] = .ok v' ∧
    v < v' := by
  obtain ⟨w, p, e, -, -, -, -, sw, sp, -⟩ := C32_rule 41 (by decide) (by decide) ⟨41, fun _ => 0⟩ ⟨41, fun _ => 0⟩ le_rfl le_rfl
  have hv := valid_total 1 2 (by decide) C24_bases.1.eff.c1 C30_exp _ (C39_clenshawCurtis p w (by rw [sw, sp])).2.1 true 0
  obtain ⟨v, v', h1, h2, h3⟩ := C110_strict (c := expComponent (QProg.clenshawCurtis p w)) (n := 41) (by decide) (by decide) rfl rfl e hv rfl
    (fun y => C24_bases.1.eff.twice y) he_d2_cont [0, 0, 1 / 2] rfl (pre := []) rfl
    (List.replicate (totalWorker 1 2).cacheSize none) (by simp [expComponent]) hab (fun t ht ht' => by
      refine ⟨1e-10, ?_, ?_⟩
      · simp only [expComponent, exp_diagD]
        refine lt_of_lt_of_le (by norm_num) (exp_neg_seven.trans (Real.exp_le_exp.2 ?_))
        simpa [coords] using ha.trans ht
      · simp only [expComponent, List.nil_append, exp_unitDensity, (exp_unit_deriv _ _).deriv]
        exact exp_near_deriv (abs_le.2 ⟨by linarith, by linarith⟩))
  exact ⟨w, p, v, v', e, h1, h2, h3⟩

/-- `Gradient` with 41 points at the point 1: within `1e-10` of the exact slope `exp 1`. -/
example : ∃ (w p : Mem) (j : List ℝ), ClenshawCurtis.getRule 41 ⟨41, fun _ => 0⟩ ⟨41, fun _ => 0⟩ = .ok (w, p) ∧
    (expComponent (QProg.clenshawCurtis p w)).gradientPt (List.replicate (totalWorker 1 2).cacheSize none) [0, 0, 1 / 2] [1] 1 [0] = .ok j ∧
    |j.getD 0 0 - Real.exp 1| ≤ 1e-10 := by
  obtain ⟨w, p, e, -, -, -, -, sw, sp, -⟩ := C32_rule 41 (by decide) (by decide) ⟨41, fun _ => 0⟩ ⟨41, fun _ => 0⟩ le_rfl le_rfl
  have hv := valid_total 1 2 (by decide) C24_bases.1.eff.c1 C30_exp _ (C39_clenshawCurtis p w (by rw [sw, sp])).2.1 true 0
  obtain ⟨j, ej, -, -, hj⟩ := C110_input (c := expComponent (QProg.clenshawCurtis p w)) hv (cs := [0, 0, 1 / 2]) (pt := [1]) rfl rfl
    (.rule (n := 41) (by decide) (by decide) rfl rfl e) (List.replicate (totalWorker 1 2).cacheSize none) (by simp [expComponent]) 1 [0] rfl
  have := hj (fun y => C24_bases.1.eff.twice y) he_d2_cont 1e-10 (by
    simp only [expComponent, exp_unit_update, (exp_unit_deriv _ _).deriv]
    exact exp_near_deriv (by simp [coords]))
  refine ⟨w, p, j, e, ej, ?_⟩
  simp only [expComponent, exp_diagD] at this
  simpa [coords, expBij] using this

/-- `Inverse` with 41 points for the component with integrand `exp`, which takes the value `-1/2` at 0, from the guess 1. -/
example : ∃ (w p : Mem) (x : ℝ), ClenshawCurtis.getRule 41 ⟨41, fun _ => 0⟩ ⟨41, fun _ => 0⟩ = .ok (w, p) ∧
    (expComponent (QProg.clenshawCurtis p w)).inversePt (List.replicate (totalWorker 1 2).cacheSize none) [0, 0, 1 / 2] [1] (-(1 / 2))
      1e-6 1e-6 = .ok (some x, 0) ∧ |x| ≤ 1 / 400 := by
  obtain ⟨w, p, e, -, -, -, -, sw, sp, -⟩ := C32_rule 41 (by decide) (by decide) ⟨41, fun _ => 0⟩ ⟨41, fun _ => 0⟩ le_rfl le_rfl
  have hv := valid_total 1 2 (by decide) C24_bases.1.eff.c1 C30_exp _ (C39_clenshawCurtis p w (by rw [sw, sp])).2.1 true 0
  obtain ⟨x, ex, hx⟩ := C110_inverse (c := expComponent (QProg.clenshawCurtis p w)) (n := 41) (by decide) (by decide) rfl rfl e hv rfl
    (fun y => C24_bases.1.eff.twice y) he_d2_cont [0, 0, 1 / 2] [1] rfl (by decide) (by decide)
    (List.replicate (totalWorker 1 2).cacheSize none) (by simp [expComponent]) (y := -(1 / 2)) (r := 0) (m := 1 / 1100) (ε := 1e-10) (ε' := 1e-10)
    (xtol := 1e-6) (ytol := 1e-6)
    (by
      have := monotone_unit (c := expComponent (QProg.clenshawCurtis p w)) (D := 1) (ts := MISet.toEnum 1 2) 0 [0, 0, 1 / 2]
        (Function.update (coords [1]) (1 - 1) 0)
      refine this.trans ?_
      simp only [expComponent, exp_unit_update, exp_offset]
      simp)
    (fun t ht => by
      have h7 : |t| ≤ 7 := by
        simpa [coords] using ht.trans (by simp [coords]; norm_num : _ ≤ (7 : ℝ))
      refine ⟨?_, ?_, ?_⟩
      · simp only [expComponent, exp_diagD]
        simp only [Nat.sub_self, Function.update_self, add_zero]
        refine exp_neg_seven.trans (Real.exp_le_exp.2 ?_)
        linarith [(abs_le.1 h7).1]
      · simp only [expComponent]
        rw [show unitDensity _ _ _ _ _ _ _ = _ from funext (exp_unit_update t)]
        exact exp_near h7
      · simp only [expComponent, exp_unit_update, (exp_unit_deriv _ _).deriv]
        exact exp_near_deriv h7)
    (by norm_num) (by norm_num) (by simp [coords]; norm_num)
    ((zpow_le_zpow_right₀ (by norm_num : (1 : ℝ) ≤ 2) (by norm_num : (-1074 : ℤ) ≤ -20)).trans (by norm_num))
  refine ⟨w, p, x, e, ex, ?_⟩
  rw [sub_zero] at hx
  refine hx.trans ?_
  have : max ((1e-6 : ℝ) / 2) (1e-6 / (1 / 1100)) ≤ 0.0011 := max_le (by norm_num) (by norm_num)
  calc _ ≤ (0.0011 : ℝ) + 1e-10 / (1 / 1100) := by gcongr
    _ ≤ _ := by norm_num

theorem quad_diagD (z : ℝ) (x : Nat → ℝ) : diagD (Spec.basisOf He).eff 1 (MISet.toEnum 1 2) [0, 0, z] x = 2 * z * x 0 := by
  have hv := valid_total 1 2 (by decide) C24_bases.1.eff.c1 C30_exp (fun n => QProg.ofRule n [] (List.replicate n 0))
    (C39_rule []).2 true 0
  have hts : MISet.toEnum 1 2 = [[0], [1], [2]] := by decide
  have hd2 : ∀ y, deriv (He 2) y = 2 * y := fun y => by
    rw [(Hermite.He_hasDerivAt 1 y).deriv, Hermite.He_one]; norm_num
  have := diagD_eq hv [0, 0, z] x
  simp only at this
  rw [this, hts, expansion]
  simp [Finset.sum_range_succ, termProd, facD1, Basis.eff, Spec.basisOf, hd2]
  ring

theorem quad_offset (z : ℝ) (x : Nat → ℝ) : offset (Spec.basisOf He).eff 1 (MISet.toEnum 1 2) [0, 0, z] x = -z := by
  have hts : MISet.toEnum 1 2 = [[0], [1], [2]] := by decide
  have h2 : ∀ y, He 2 y = y ^ 2 - 1 := fun y => by
    rw [Hermite.He_rec 0 y, Hermite.He_one, Hermite.He_zero]; push_cast; ring
  rw [offset, expandAt, hts, expansion]
  simp [Finset.sum_range_succ, termProd, Basis.eff, Spec.basisOf, h2]

/-- `CoeffGrad` with adaptive Simpson and `minSub = 8`, whatever the tolerances: at the point 1 the exact component with last coefficient `z` is
`-z + ∫ exp (2 z t) dt`; its derivative at `z = 1/2` is 1, and the entry returned is within `11/256` of it. -/
example (maxSub : Nat) (h1 : 8 < maxSub) (h2 : maxSub ≤ 32) (absTol relTol : ℝ) : ∃ j : List ℝ,
    (expComponent (QProg.simpson ⟨1, maxSub, 8, absTol, relTol, .first⟩)).coeffGradPt
      (List.replicate (totalWorker 1 2).cacheSize none) [0, 0, 1 / 2] [1] 1 [0, 0, 0] = .ok j ∧ |j.getD 2 0 - 1| ≤ 11 / 256 := by
  have hf : Fine (QProg.simpson ⟨1, maxSub, 8, absTol, relTol, .first⟩) (1 / 2 ^ 8) := .simpson rfl h1 h2
  have hv := valid_total 1 2 (by decide) C24_bases.1.eff.c1 C30_exp _ (fine_mesh hf).2.1 true 0
  obtain ⟨A, hA, hlip⟩ := resolves_lip hf
  have hu : ∀ z t : ℝ, unitDensity (Spec.basisOf He).eff expBij.eval 0 1 (MISet.toEnum 1 2) ([0, 0, 1 / 2].set 2 z) (coords [1]) t
      = Real.exp (2 * z * t) := fun z t => by
    rw [show ([0, 0, 1 / 2] : List ℝ).set 2 z = [0, 0, z] from rfl, unitDensity, density, quad_diagD]
    simp [coords, expBij]
  have hd : ∀ z t : ℝ, HasDerivAt (fun z => Real.exp (2 * z * t)) (2 * t * Real.exp (2 * z * t)) z := fun z t => by
    refine ((Real.hasDerivAt_exp _).comp z (((hasDerivAt_id z).const_mul 2).mul_const t)).congr_deriv ?_
    simp only [id]; ring
  have hL : LipUnit (fun t => deriv (fun z => unitDensity (Spec.basisOf He).eff expBij.eval 0 1 (MISet.toEnum 1 2)
      ([0, 0, 1 / 2].set 2 z) (coords [1]) t) (([0, 0, 1 / 2] : List ℝ).getD 2 0)) 11 := by
    simp only [hu, (hd _ _).deriv]
    intro s t s0 s1 t0 t1
    have hd' : ∀ u ∈ Set.Icc (0 : ℝ) 1, HasDerivWithinAt (fun u : ℝ => 2 * u * Real.exp (2 * (1 / 2) * u))
        (2 * (1 + u) * Real.exp u) (Set.Icc 0 1) u := fun u _ => by
      have := (((hasDerivAt_id u).const_mul 2).mul (Real.hasDerivAt_exp u)).congr_deriv
        (show 2 * 1 * Real.exp u + 2 * id u * Real.exp u = 2 * (1 + u) * Real.exp u by simp only [id]; ring)
      exact (this.congr_of_eventuallyEq (Filter.Eventually.of_forall fun v => by simp)).hasDerivWithinAt
    have := (convex_Icc (0 : ℝ) 1).norm_image_sub_le_of_norm_hasDerivWithin_le hd' (C := 11) (fun u hu => ?_) ⟨t0, t1⟩ ⟨s0, s1⟩
    · simpa using this
    · have he : Real.exp u ≤ 2.72 := (Real.exp_le_exp.2 hu.2).trans (by linarith [Real.exp_one_lt_d9])
      rw [Real.norm_eq_abs, abs_of_nonneg (by have := hu.1; positivity)]
      nlinarith [hu.1, hu.2, Real.exp_pos u]
  obtain ⟨j, e, -, hj⟩ := C110_coeff (c := expComponent _) hv (cs := [0, 0, 1 / 2]) (pt := [1]) rfl rfl hA
    (List.replicate (totalWorker 1 2).cacheSize none) (by simp [expComponent]) 1 [0, 0, 0] rfl
  obtain ⟨d, hd1, hd2⟩ := hj 2 (by decide) (11 * (1 / 2 ^ 8)) (hlip _ _ hL)
  refine ⟨j, e, ?_⟩
  have hmono : ∀ z, monotone (Spec.basisOf He).eff expBij.eval 0 1 (MISet.toEnum 1 2) ([0, 0, 1 / 2].set 2 z) (coords [1])
      = -z + ∫ t in (0 : ℝ)..1, Real.exp (2 * z * t) := fun z => by
    refine (monotone_unit (c := expComponent (QProg.simpson ⟨1, maxSub, 8, absTol, relTol, .first⟩)) 0 _ _).trans ?_
    simp only [expComponent, hu]
    rw [show ([0, 0, 1 / 2] : List ℝ).set 2 z = [0, 0, z] from rfl, quad_offset]
  have hex := ((hasDerivAt_id (1 / 2 : ℝ)).neg).add (unit_integral_deriv hd (by fun_prop) (fun z => by fun_prop) (1 / 2))
  have hint : ∫ t in (0 : ℝ)..1, 2 * t * Real.exp (2 * (1 / 2) * t) = 2 := by
    have : ∀ t ∈ Set.uIcc (0 : ℝ) 1, HasDerivAt (fun t : ℝ => 2 * (t - 1) * Real.exp t) (2 * t * Real.exp (2 * (1 / 2) * t)) t := fun t _ => by
      refine ((((hasDerivAt_id t).sub_const 1).const_mul 2).mul (Real.hasDerivAt_exp t)).congr_deriv ?_
      simp only [id]
      rw [show 2 * (1 / 2) * t = t by ring]
      ring
    rw [intervalIntegral.integral_eq_sub_of_hasDerivAt this (Continuous.intervalIntegrable (by fun_prop) _ _)]
    simp
  rw [hint] at hex
  have hd1' : HasDerivAt (fun z : ℝ => -z + ∫ t in (0 : ℝ)..1, Real.exp (2 * z * t)) d (1 / 2) :=
    hd1.congr_of_eventuallyEq (Filter.Eventually.of_forall fun z => (hmono z).symm)
  have := hd1'.unique hex
  rw [this] at hd2
  refine (le_of_eq ?_).trans (hd2.trans (by norm_num))
  norm_num

end MParT
