import Verif.Props.Monotone
import Verif.Props.Adaptive
import Verif.Model.QuadPrograms
/-!
# C38, C39: the concrete quadratures satisfy the hypotheses; components exist; failures
-/
namespace MParT
open Spec Finset Worker Hermite

/-! ### Fixed rules -/

theorem list_sum_range (n : Nat) (f : Nat → ℝ) : ((List.range n).map f).sum = ∑ i ∈ range n, f i := by
  induction n with
  | zero => rfl
  | succ n ih => rw [List.range_succ, List.map_append, List.sum_append, ih, sum_range_succ]; simp

theorem moved_sum (n : Nat) (p w : Nat → ℝ) (f : ℝ → ℝ) (a b : ℝ) :
    ((QProg.moved n p w a b).map fun q => q.2 * f q.1).sum = applyRule n p w f a b := by
  rw [QProg.moved, List.map_map, list_sum_range, applyRule]
  rfl

theorem pureRun_ofRule (n : Nat) (F : ℝ → Nat → ℝ) (R : List (ℝ × ℝ)) : ∀ A : Nat → ℝ,
    (QProg.ofRule n R ((List.range n).map A)).pureRun (fun t => (List.range n).map (F t))
      = .ok ((List.range n).map fun j => A j + (R.map fun p => p.2 * F p.1 j).sum) := by
  induction R with
  | nil => intro A; simp [QProg.ofRule, QProg.pureRun]
  | cons p R ih =>
    intro A
    rw [QProg.ofRule, QProg.pureRun, zipWith_range, ih]
    simp [add_assoc]

theorem replicate_eq_map (n : Nat) : List.replicate n (0 : ℝ) = (List.range n).map fun _ => 0 := by
  simp

theorem shape_ofRule (n : Nat) (R : List (ℝ × ℝ)) : ∀ acc : List ℝ, acc.length = n → QuadShape n (QProg.ofRule n R acc) := by
  induction R with
  | nil => intro acc h; exact h
  | cons p R ih => intro acc h; exact ⟨by simp, fun o ho => ih _ (by simp [h, ho])⟩

/-- **C38, C39.** Every fixed rule is a weighted sum over its own nodes, with results of the right shape. -/
theorem C39_rule (R : List (ℝ × ℝ)) :
    UsesMesh (fun n => QProg.ofRule n R (List.replicate n 0)) (fun _ => R) ∧
      ∀ n, QuadShape n (QProg.ofRule n R (List.replicate n 0)) := by
  refine ⟨fun n F _ => ?_, fun n => shape_ofRule n R _ (by simp)⟩
  simp only [replicate_eq_map, pureRun_ofRule, zero_add]

/-- **C38, C39.** The program used for `ClenshawCurtisQuadrature` computes what the quadrature does with the memory of the
workspace and of the result, for every integrand and every rule. -/
theorem C39_clenshawCurtis (pts wts : Mem) (hs : wts.size = pts.size) :
    UsesMesh (QProg.clenshawCurtis pts wts) (fun _ => QProg.moved pts.size pts.val wts.val 0 1) ∧
    (∀ n, QuadShape n (QProg.clenshawCurtis pts wts n)) ∧
    ∀ (n : Nat) (F : Integrand) (ws res : Mem), n ≤ ws.size → n ≤ res.size →
      ∃ ws' res', ClenshawCurtis.integrate pts wts n ws F 0 1 res = .ok (ws', res') ∧
        (QProg.clenshawCurtis pts wts n).pureRun (fun t => (List.range n).map (F t)) = .ok ((List.range n).map res'.val) := by
  refine ⟨(C39_rule _).1, (C39_rule _).2, fun n F ws res hw hr => ?_⟩
  obtain ⟨ws', res', e, -, -, v, -⟩ := C32_integrate pts wts hs n ws res hw hr F 0 1
  refine ⟨ws', res', e, ?_⟩
  rw [QProg.clenshawCurtis, replicate_eq_map, pureRun_ofRule]
  congr 1
  refine List.map_congr_left fun j hj => ?_
  rw [v j (by simpa using hj), if_pos (by rw [zpow_neg]; norm_num), zero_add, moved_sum _ _ _ (F · j)]

/-! ### Adaptive rules -/

section
variable (n : Nat) (rule : ℝ → ℝ → List (ℝ × ℝ × ℝ)) (F : ℝ → Nat → ℝ)

/-- The estimate on `[a,b]` with weights `wt`. -/
noncomputable def est (wt : ℝ × ℝ × ℝ → ℝ) (a b : ℝ) (h : ℝ → ℝ) : ℝ := ((rule a b).map fun p => wt p * h p.1).sum

theorem pureRun_evalAll (ts : List ℝ) : ∀ k : List (List ℝ) → QProg,
    (QProg.evalAll n ts k).pureRun (fun t => (List.range n).map (F t))
      = (k (ts.map fun t => (List.range n).map (F t))).pureRun (fun t => (List.range n).map (F t)) := by
  induction ts with
  | nil => intro k; rfl
  | cons t ts ih => intro k; rw [QProg.evalAll, QProg.pureRun, ih]; rfl

theorem comb_map {α : Type} (l : List α) (t w : α → ℝ) :
    QProg.comb n (l.map w) ((l.map t).map fun t => (List.range n).map (F t))
      = (List.range n).map fun j => (l.map fun p => w p * F (t p) j).sum := by
  rw [QProg.comb]
  refine List.map_congr_left fun j hj => ?_
  rw [List.map_map, List.zipWith_map, List.zipWith_self]
  congr 1
  refine List.map_congr_left fun p _ => ?_
  simp [List.mem_range.1 hj]

theorem pureRun_adaptive (hn : 0 < n) (stop : Nat → ℝ → ℝ → Prop) (d : Nat) : ∀ (level : Nat) (a b : ℝ) (A : Nat → ℝ)
    (k : List ℝ → QProg),
    (QProg.adaptive n rule stop d level a b ((List.range n).map A) k).pureRun (fun t => (List.range n).map (F t))
      = (k ((List.range n).map fun j => A j + ((leaves (fun level a b => stop level (est rule (·.2.1) a b (F · 0))
          (est rule (·.2.2) a b (F · 0))) d level a b).map fun p => est rule (·.2.2) p.1 p.2 (F · j)).sum)).pureRun
            (fun t => (List.range n).map (F t)) := by
  induction d with
  | zero =>
    intro level a b A k
    rw [QProg.adaptive, pureRun_evalAll, comb_map, zipWith_range]
    simp [leaves, est]
  | succ d ih =>
    intro level a b A k
    rw [QProg.adaptive, pureRun_evalAll, comb_map, comb_map, getD_map_range _ _ _ hn, getD_map_range _ _ _ hn, leaves]
    by_cases h : stop level (est rule (·.2.1) a b (F · 0)) (est rule (·.2.2) a b (F · 0))
    · rw [if_pos h]
      simp only [est] at h ⊢
      rw [if_pos h, zipWith_range]
      simp
    · rw [if_neg h]
      simp only [est] at h
      rw [if_neg h, ih, ih]
      simp only [List.map_append, List.sum_append, add_assoc]

theorem shape_evalAll (ts : List ℝ) : ∀ k : List (List ℝ) → QProg, (∀ os : List (List ℝ), QuadShape n (k os)) →
    QuadShape n (QProg.evalAll n ts k) := by
  induction ts with
  | nil => intro k h; exact h []
  | cons t ts ih => intro k h; exact ⟨by simp, fun o _ => ih _ fun os => h _⟩

theorem shape_adaptive (stop : Nat → ℝ → ℝ → Prop) (d : Nat) : ∀ (level : Nat) (a b : ℝ) (acc : List ℝ)
    (k : List ℝ → QProg), acc.length = n → (∀ r : List ℝ, r.length = n → QuadShape n (k r)) →
    QuadShape n (QProg.adaptive n rule stop d level a b acc k) := by
  induction d with
  | zero =>
    intro level a b acc k h hk
    rw [QProg.adaptive]
    exact shape_evalAll n _ _ fun os => hk _ (by simp [QProg.comb, h])
  | succ d ih =>
    intro level a b acc k h hk
    rw [QProg.adaptive]
    refine shape_evalAll n _ _ fun os => ?_
    split
    · exact hk _ (by simp [QProg.comb, h])
    · exact ih _ _ _ _ _ h fun r hr => ih _ _ _ _ _ hr hk

end

/-- Nodes and weights of the adaptive rule for an integrand whose first output is `h`. -/
noncomputable def adaptiveMesh (q : Recursive) (rule : ℝ → ℝ → List (ℝ × ℝ × ℝ)) (h : ℝ → ℝ) : List (ℝ × ℝ) :=
  (leaves (fun level a b => QProg.stopFirst q level (est rule (·.2.1) a b h) (est rule (·.2.2) a b h)) (q.maxSub - 1) 0 0 1).flatMap
    fun p => (rule p.1 p.2).map fun r => (r.1, r.2.2)

theorem sum_flatMap_est (rule : ℝ → ℝ → List (ℝ × ℝ × ℝ)) (l : List (ℝ × ℝ)) (h : ℝ → ℝ) :
    ((l.flatMap fun p => (rule p.1 p.2).map fun r => (r.1, r.2.2)).map fun p => p.2 * h p.1).sum
      = (l.map fun p => est rule (·.2.2) p.1 p.2 h).sum := by
  induction l with
  | nil => rfl
  | cons p l ih => rw [List.flatMap_cons, List.map_append, List.sum_append, ih, List.map_map]; rfl

theorem usesMesh_adaptive (q : Recursive) (rule : ℝ → ℝ → List (ℝ × ℝ × ℝ)) :
    UsesMesh (fun n => QProg.adaptive n rule (QProg.stopFirst q) (q.maxSub - 1) 0 0 1 (List.replicate n 0) QProg.done)
      (adaptiveMesh q rule) := by
  intro n F hn
  simp only [replicate_eq_map, pureRun_adaptive n rule F hn, QProg.pureRun, zero_add, adaptiveMesh]
  congr 1
  exact List.map_congr_left fun j _ => (sum_flatMap_est rule _ (F · j)).symm

/-- **C38, C39.** `AdaptiveSimpson` with the error measured in the first output is a weighted sum over nodes that depend on
the first output only; its program computes what the code does with its memory, for every integrand. -/
theorem C39_simpson (q : Recursive) (hq : q.errorMetric = .first) (hmin : q.minSub < q.maxSub) (hmax : q.maxSub ≤ 32) :
    UsesMesh (QProg.simpson q) (adaptiveMesh q QProg.simpsonRule) ∧ (∀ n, QuadShape n (QProg.simpson q n)) ∧
    ∀ (n : Nat) (F : Integrand) (ws res : Mem) (fuel : Nat), 0 < n → AdaptiveSimpson.workspaceSize q.maxSub n ≤ ws.size →
      n ≤ res.size → 2 ^ q.maxSub ≤ fuel →
      ∃ ws' res', AdaptiveSimpson.integrate { q with fdim := n } ws F 0 1 res fuel = .ok (some (ws', res')) ∧
        (QProg.simpson q n).pureRun (fun t => (List.range n).map (F t)) = .ok ((List.range n).map res'.val) := by
  refine ⟨usesMesh_adaptive q _, fun n => shape_adaptive n _ _ _ _ _ _ _ _ (by simp) fun r hr => hr, ?_⟩
  intro n F ws res fuel hn hw hr hfuel
  obtain ⟨ws', res', e, -, -, v, -⟩ := C33_value { q with fdim := n } hn hmin hmax F 0 1 ws res hw hr fuel hfuel
  refine ⟨ws', res', e, ?_⟩
  have e1 : ∀ a b (h : ℝ → ℝ), est QProg.simpsonRule (·.2.1) a b h = Spec.simpson h a b := by
    intro a b h; simp [est, QProg.simpsonRule, Spec.simpson]; ring
  have e2 : ∀ a b (h : ℝ → ℝ), est QProg.simpsonRule (·.2.2) a b h = simpson2 h a b := by
    intro a b h; simp [est, QProg.simpsonRule, simpson2, Spec.simpson]; ring
  rw [QProg.simpson, replicate_eq_map, pureRun_adaptive n _ F hn, QProg.pureRun]
  congr 1
  refine List.map_congr_left fun j hj => ?_
  rw [v j (by simpa using hj), zero_add]
  simp only [e2, e1, accepted]
  congr 2
  refine leaves_congr _ _ _ _ (fun k a b => ?_) _ _ _
  simp only [QProg.stopFirst, converged, hq]
  rw [or_iff_left (by norm_num)]
  rfl

/-- **C38, C39.** The same for `AdaptiveClenshawCurtis`, the quadrature the map factory uses by default. -/
theorem C39_adaptiveCC (q : Recursive) (hq : q.errorMetric = .first) (hmin : q.minSub < q.maxSub) (hmax : q.maxSub ≤ 32)
    (l : Nat) (hl : 1 ≤ l) (r : NestedRule) (hnew : AdaptiveClenshawCurtis.new l = .ok r) :
    UsesMesh (QProg.adaptiveCC q r) (adaptiveMesh q (QProg.nestedRule r)) ∧ (∀ n, QuadShape n (QProg.adaptiveCC q r n)) ∧
    ∀ (n : Nat) (F : Integrand) (ws res : Mem) (fuel : Nat), 0 < n →
      AdaptiveClenshawCurtis.workspaceSize q.maxSub n ≤ ws.size → n ≤ res.size → 2 ^ q.maxSub ≤ fuel →
      ∃ ws' res', AdaptiveClenshawCurtis.integrate { q with fdim := n } r ws F 0 1 res fuel = .ok (some (ws', res')) ∧
        (QProg.adaptiveCC q r n).pureRun (fun t => (List.range n).map (F t)) = .ok ((List.range n).map res'.val) := by
  refine ⟨usesMesh_adaptive q _, fun n => shape_adaptive n _ _ _ _ _ _ _ _ (by simp) fun r hr => hr, ?_⟩
  intro n F ws res fuel hn hw hr hfuel
  obtain ⟨ws', res', e, -, -, v, -⟩ := C34_value l hl r hnew { q with fdim := n } hn hmin hmax F 0 1 ws res hw hr fuel hfuel
  obtain ⟨r', hnew', s1, -, s3, -⟩ := (C34_rules l).1 hl
  rw [hnew] at hnew'
  obtain rfl := Res.ok.inj hnew'
  refine ⟨ws', res', e, ?_⟩
  have z : ∀ (l : List (ℝ × ℝ)) (h : ℝ → ℝ), (l.map fun p => (0 : ℝ) * h p.1).sum = 0 := by
    intro l h; simp
  have e1 : ∀ a b (h : ℝ → ℝ), est (QProg.nestedRule r) (·.2.1) a b h
      = applyRule (2 ^ l + 1) r.coarsePts.val r.coarseWts.val h a b := by
    intro a b h
    rw [est, QProg.nestedRule, List.map_append, List.map_map, List.map_map, List.sum_append, ← moved_sum, s1]
    simp [Function.comp_def]
  have e2 : ∀ a b (h : ℝ → ℝ), est (QProg.nestedRule r) (·.2.2) a b h
      = applyRule (2 ^ (l + 1) + 1) r.finePts.val r.fineWts.val h a b := by
    intro a b h
    rw [est, QProg.nestedRule, List.map_append, List.map_map, List.map_map, List.sum_append, ← moved_sum, s3]
    simp [Function.comp_def]
  rw [QProg.adaptiveCC, replicate_eq_map, pureRun_adaptive n _ F hn, QProg.pureRun]
  congr 1
  refine List.map_congr_left fun j hj => ?_
  rw [v j (by simpa using hj), zero_add]
  simp only [e2, e1, accepted]
  congr 2
  refine leaves_congr _ _ _ _ (fun k a b => ?_) _ _ _
  simp only [QProg.stopFirst, converged, hq]
  rw [or_iff_left (by norm_num)]
  rfl

/-! ### Components exist -/

/-- The worker built from the total-order set of `D` inputs and order `p`. -/
def totalWorker (D p : Nat) : Worker := Worker.mk' D (FixedSet.csr D (MISet.toEnum D p)) (FixedSet.degs D (MISet.toEnum D p))

/-- A component built from a total-order set, a smooth basis, a positive bijection and any quadrature of the right shape
meets the hypotheses of the theorems. -/
theorem valid_total (D p : Nat) (hD : 0 < D) {b : Basis ℝ} (hb : C1Basis b.eff) {g : PosBijector} (hg : IsPosBijector g)
    (quad : Nat → QProg) (hq : ∀ n, QuadShape n (quad n)) (cont : Bool) (ν : ℝ) :
    ValidComponent ⟨totalWorker D p, b, g, quad, cont, ν⟩ D (MISet.toEnum D p) := by
  have h1 := FixedSet.totalOrder_csr D hD p
  have hh := FixedSet.csr_holds D (MISet.toEnum D p) fun t ht => ((MISet.mem_toEnum D p t).1 ht).1
  exact ⟨⟨_, .totalOrder h1, rfl, rfl, hh, built_ofFixed (.totalOrder h1) hD hh⟩, hD, hb, hg, hq⟩


/-- Non-vacuity of C38 and C39: a component with two inputs, total order 2, Hermite polynomials, `exp`, and the default
adaptive quadrature; the theorems give the value of `Evaluate` and the coefficient derivatives at `(1,2)`. -/
example : ∃ (r : NestedRule) (c : MonotoneComponent) (mesh : (ℝ → ℝ) → List (ℝ × ℝ)),
    AdaptiveClenshawCurtis.new 1 = .ok r ∧ c.quad = QProg.adaptiveCC ⟨1, 30, 0, 1e-6, 1e-6, .first⟩ r ∧
    (∃ v, c.evaluatePt (List.replicate c.w.cacheSize (some 3)) [1, 2, 3, 4, 5, 6] [1, 2] = .ok v) ∧
    ∃ v j, c.coeffJacobianPt (List.replicate c.w.cacheSize none) [1, 2, 3, 4, 5, 6] [1, 2] (List.replicate 6 7) = .ok (v, j) ∧
      HasDerivAt (fun z => discretised c.b.eff c.g.eval 0 2 (MISet.toEnum 2 2) [1, 2, z, 4, 5, 6] (coords [1, 2])
        (mesh (unitDensity c.b.eff c.g.eval 0 2 (MISet.toEnum 2 2) [1, 2, 3, 4, 5, 6] (coords [1, 2])))) (j.getD 2 0) 3 := by
  obtain ⟨r, hr, -⟩ := (C34_rules 1).1 le_rfl
  obtain ⟨h1, h2, -⟩ := C39_adaptiveCC ⟨1, 30, 0, 1e-6, 1e-6, .first⟩ rfl (by decide) (by decide) 1 le_rfl r hr
  have hv := valid_total 2 2 (by decide) C24_bases.1.eff.c1 C30_exp _ h2 true 0
  refine ⟨r, _, adaptiveMesh ⟨1, 30, 0, 1e-6, 1e-6, .first⟩ (QProg.nestedRule r), hr, rfl, ⟨_, C38_evaluate_partial hv h1 rfl rfl _ (by simp)⟩, ?_⟩
  obtain ⟨j, e, -, h⟩ := C39_coeff hv h1 (cs := [1, 2, 3, 4, 5, 6]) (pt := [1, 2]) rfl rfl
    (List.replicate _ none) (by simp; rfl) (List.replicate 6 7) (by simp; rfl)
  exact ⟨_, j, e, h 2 (by decide)⟩

/-! ### Failures -/

variable {c : MonotoneComponent} {D : Nat} {ts : List (List Nat)}

theorem discretised_nugget (b : Basis ℝ) (g : ℝ → ℝ) (ν : ℝ) (cs : List ℝ) (x : Nat → ℝ) (R : List (ℝ × ℝ)) :
    discretised b g ν D ts cs x R = discretised b g 0 D ts cs x R + ν * x (D - 1) * (R.map (·.2)).sum := by
  rw [discretised, discretised, add_assoc]
  congr 1
  induction R with
  | nil => simp
  | cons p R ih =>
    simp only [List.map_cons, List.sum_cons]
    rw [ih, unitDensity, unitDensity, density, density]
    ring

/-- **C38 fails with a nugget.** `Evaluate` ignores the nugget: for every component with a non-zero nugget and a fixed rule
whose weights sum to 1, at every point whose last input is not 0, its value is not the discretised component, while
`DiscreteDerivative` at the same point reports the discretised component as its value. -/
theorem C38_fails_nugget (hv : ValidComponent c D ts) {R : List (ℝ × ℝ)} (hm : UsesMesh c.quad fun _ => R)
    (hR : (R.map (·.2)).sum = 1) (hν : c.nugget ≠ 0) {cs pt : List ℝ} (hc : cs.length = ts.length) (hpt : pt.length = D)
    (scr : Cache ℝ) (hs : scr.length = c.w.cacheSize) (hx : coords pt (D - 1) ≠ 0) :
    ∃ v v' d, c.evaluatePt scr cs pt = .ok v ∧ c.discreteDerivativePt scr cs pt = .ok (v', d) ∧ v ≠ v' ∧
      v ≠ discretised c.b.eff c.g.eval c.nugget D ts cs (coords pt) R := by
  obtain ⟨d, e, -⟩ := C39_discrete hv hm hc hpt scr hs
  refine ⟨_, _, d, C38_evaluate_partial hv hm hc hpt scr hs, e, ?_, ?_⟩ <;>
  · rw [discretised_nugget _ _ c.nugget, hR]
    intro h
    have : c.nugget * coords pt (D - 1) = 0 := by linarith
    exact mul_ne_zero hν hx this

/-- **C41 fails for a component with a nugget.** If `t` solves the equation solved by `Inverse` for the right-hand side
`y`, then `Evaluate` at `t` returns `y - ν t`, not `y`. -/
theorem C38_fails_inverse (hv : ValidComponent c D ts) {R : List (ℝ × ℝ)} (hm : UsesMesh c.quad fun _ => R)
    (hR : (R.map (·.2)).sum = 1) {cs pre : List ℝ} (hc : cs.length = ts.length) (hpre : pre.length = D - 1)
    (scr : Cache ℝ) (hs : scr.length = c.w.cacheSize) (t y : ℝ)
    (ht : discretised c.b.eff c.g.eval c.nugget D ts cs (Function.update (coords pre) (D - 1) t) R = y) :
    c.evaluatePt scr cs (pre ++ [t]) = .ok (y - c.nugget * t) := by
  have hD := hv.pos
  have hx : coords (pre ++ [t]) = Function.update (coords pre) (D - 1) t := by
    funext d
    by_cases h : d = D - 1
    · subst h; simp [coords, hpre]
    · rw [Function.update_of_ne h]
      by_cases h2 : d < D - 1
      · simp [coords, List.getElem?_append_left (show d < pre.length by omega)]
      · simp [coords, List.getElem?_eq_none (show (pre ++ [t]).length ≤ d by simp; omega),
          List.getElem?_eq_none (show pre.length ≤ d by omega)]
  rw [C38_evaluate_partial hv hm hc (by simp; omega) scr hs, hx, ← ht, discretised_nugget _ _ c.nugget, hR,
    Function.update_self]
  congr 1
  ring

/-- **C38 fails for the discretised component.** With the one-point Clenshaw–Curtis rule, Hermite polynomials of order 2
in one variable and `exp`, there are coefficients for which the value returned by `Evaluate` at 4 is smaller than at 2. -/
theorem C38_fails_monotone : ∃ (c : MonotoneComponent) (w p : Mem) (v2 v4 : ℝ), ValidComponent c 1 (MISet.toEnum 1 2) ∧
    ClenshawCurtis.getRule 1 ⟨1, fun _ => 0⟩ ⟨1, fun _ => 0⟩ = .ok (w, p) ∧ c.quad = QProg.clenshawCurtis p w ∧ c.nugget = 0 ∧
    (∀ scr : Cache ℝ, scr.length = c.w.cacheSize → c.evaluatePt scr [0, 0, -1 / 2] [2] = .ok v2 ∧
      c.evaluatePt scr [0, 0, -1 / 2] [4] = .ok v4) ∧ v4 < v2 := by
  have hrule : ClenshawCurtis.getRule 1 ⟨1, fun _ => 0⟩ ⟨1, fun _ => 0⟩
      = .ok (⟨1, Function.update (fun _ => 0) 0 2⟩, ⟨1, Function.update (fun _ => 0) 0 0⟩) := by
    simp only [ClenshawCurtis.getRule]
    rw [if_neg one_ne_zero, if_pos trivial, Mem.write_ok (by decide), Res.bind_ok, Mem.write_ok (by decide), Res.bind_ok,
      Res.pure_eq]
  obtain ⟨h1, h2, -⟩ := C39_clenshawCurtis ⟨1, Function.update (fun _ => 0) 0 0⟩ ⟨1, Function.update (fun _ => 0) 0 2⟩ rfl
  have hv := valid_total 1 2 (by decide) C24_bases.1.eff.c1 C30_exp _ h2 true 0
  refine ⟨_, _, _, _, _, hv, hrule, rfl, rfl, fun scr hs => ⟨C38_evaluate_partial hv h1 (cs := [0, 0, -1 / 2]) rfl
    (pt := [2]) rfl scr hs, C38_evaluate_partial hv h1 (cs := [0, 0, -1 / 2]) rfl (pt := [4]) rfl scr hs⟩, ?_⟩
  have hts : MISet.toEnum 1 2 = [[0], [1], [2]] := by decide
  have hd2 : ∀ y, deriv (He 2) y = 2 * y := fun y => by
    rw [(He_hasDerivAt 1 y).deriv, He_one]; norm_num
  have h2 : ∀ y, He 2 y = y ^ 2 - 1 := fun y => by
    rw [He_rec 0 y, He_one, He_zero]; push_cast; ring
  have hf : ∀ x : Nat → ℝ, diagD (Spec.basisOf He).eff 1 (MISet.toEnum 1 2) [0, 0, -1 / 2] x = - x 0 := by
    intro x
    have := diagD_eq hv [0, 0, -1 / 2] x
    simp only at this
    rw [this, hts, expansion]
    simp [Finset.sum_range_succ, termProd, facD1, Basis.eff, Spec.basisOf, hd2]
    ring
  have ho : ∀ x : Nat → ℝ, offset (Spec.basisOf He).eff 1 (MISet.toEnum 1 2) [0, 0, -1 / 2] x = 1 / 2 := by
    intro x
    rw [offset, expandAt, hts, expansion]
    simp [Finset.sum_range_succ, termProd, Basis.eff, Spec.basisOf, h2]
    norm_num
  simp only [discretised, QProg.moved, unitDensity, density, hf, ho]
  simp [coords, expBij]
  have e1 : Real.exp (-2 : ℝ) = Real.exp (-1) * Real.exp (-1) := by rw [← Real.exp_add]; norm_num
  have e2 : Real.exp (-1 : ℝ) < 1 / 2 := by
    rw [Real.exp_neg, inv_lt_comm₀ (Real.exp_pos _) (by norm_num)]
    have := Real.add_one_lt_exp (x := 1) (by norm_num)
    norm_num at this ⊢; linarith
  have e3 := Real.exp_pos (-1 : ℝ)
  norm_num
  nlinarith

end MParT
