import Verif.Lemmas.ExpansionFill
import Verif.Props.FixedSet
/-!
# C22–C24: the expansion worker

`fillSeq w b cache pt flag1 (calls ++ [(xd, flag2)])` is one call of `FillCache1` followed by any
number of calls of `FillCache2`, the last one at `xd`; `cache` is any initial buffer of the size
reported by the worker, with arbitrary (or uninitialised) contents.
-/
namespace MParT
namespace Worker
open Spec FixedSet Finset

section
variable {K : Type} [CommRing K]

theorem built_csr {f : FixedSet} (hb : Built f) (hc : f.isCompressed = true) {ts : List (List Nat)}
    (hts : Holds f ts) : f = csr f.dim ts ∧ ∀ t ∈ ts, t.length = f.dim := by
  obtain ⟨n, us, hl, hf, hu⟩ := hb.form
  cases hu.unique hts
  rcases hf with rfl | ⟨-, rfl⟩
  · exact ⟨rfl, hl⟩
  · cases hc

theorem built_dens {f : FixedSet} (hb : Built f) (hc : f.isCompressed = false) {ts : List (List Nat)}
    (hts : Holds f ts) : f = dens f.dim ts ∧ ∀ t ∈ ts, t.length = f.dim := by
  obtain ⟨n, us, hl, hf, hu⟩ := hb.form
  cases hu.unique hts
  rcases hf with rfl | ⟨-, rfl⟩
  · cases hc
  · exact ⟨rfl, hl⟩

theorem built_degs {f : FixedSet} (hb : Built f) {ts : List (List Nat)} (hts : Holds f ts) :
    f.maxDegrees = degs f.dim ts := by
  obtain ⟨n, us, hl, hf, hu⟩ := hb.form
  cases hu.unique hts
  rcases hf with rfl | ⟨-, rfl⟩ <;> rfl

theorem built_ofFixed {f : FixedSet} (hb : Built f) (hD : 0 < f.dim) {ts : List (List Nat)} (hts : Holds f ts) :
    ofFixed f = .ok (mk' f.dim f (degs f.dim ts)) := by
  have := built_degs hb hts
  rw [ofFixed_eq f hD (by rw [this]; simp [degs]), this]

/-! ### C22 -/

/-- The dimension served by cache block `p`: blocks `0..D-1` hold values, `D..2D-1` first derivatives,
`2D` the second derivatives of the last dimension. -/
def blockDim (D p : Nat) : Nat := if p < 2 * D then p % D else D - 1

/-- **C22 (layout).** The blocks of the cache are pairwise disjoint, each has room for every degree that
occurs in its dimension, and all lie inside `CacheSize()`. -/
theorem C22_layout {f : FixedSet} (hb : Built f) (hD : 0 < f.dim) {ts : List (List Nat)} (hts : Holds f ts) :
    ∃ w, ofFixed f = .ok w ∧ ∃ start : Nat → Nat,
      (∀ p, p ≤ 2 * f.dim → w.startPos[p]? = some (start p)) ∧
      ∀ p, p ≤ 2 * f.dim → ∀ t ∈ ts,
        start p + t.getD (blockDim f.dim p) 0 < w.cacheSize ∧
        ∀ q, p < q → q ≤ 2 * f.dim → start p + t.getD (blockDim f.dim p) 0 < start q := by
  refine ⟨_, built_ofFixed hb hD hts, st f.dim (degs f.dim ts), ?_, ?_⟩
  · intro p hp
    simp only [mk', List.getElem?_map, List.getElem?_range (show p < 2 * f.dim + 2 by omega), Option.map_some]
  · intro p hp t ht
    have hle : t.getD (blockDim f.dim p) 0 ≤ dg f.dim (degs f.dim ts) p := by
      rw [dg, degs]
      have hlt : blockDim f.dim p < f.dim := blockIdx_lt hD p
      change _ ≤ List.getD _ (blockDim f.dim p) 0
      simp only [List.getD_eq_getElem?_getD, List.getElem?_map, List.getElem?_range hlt, Option.map_some,
        Option.getD_some]
      exact le_vmax (List.mem_map.2 ⟨t, ht, by simp⟩)
    refine ⟨?_, fun q hq hq' => ?_⟩
    · have := st_mono f.dim (degs f.dim ts) (p := p) (q := 2 * f.dim + 1) (by omega)
      show _ < st _ _ _
      omega
    · have := st_mono f.dim (degs f.dim ts) hq
      omega

variable {f : FixedSet} (hb : Built f) (hcomp : f.isCompressed = true) (hD : 0 < f.dim)
  {ts : List (List Nat)} (hts : Holds f ts) (b : Basis K) (coeffs : List K)
  (hc : ts.length ≤ coeffs.length) (pt : List K) (hpt : f.dim - 1 ≤ pt.length)
  (calls : List (K × DFlag)) (xd : K) (f1 f2 : DFlag)

/-! ### C23 -/

include hb hcomp hD hts hc hpt in
/-- **C23.** For every compressed multi-index set, coefficients and point, after any history of fills
of the cache, `Evaluate` returns `Σ_k c_k Π_d φ_{a_{k,d}}(x_d)`. -/
theorem C23_evaluate_partial (hone : ∀ y, b.val 0 y = 1) (hf2 : f2 ≠ .mixed) :
    ∃ w, ofFixed f = .ok w ∧ ∀ cache : Cache K, cache.length = w.cacheSize →
      (do let c ← fillSeq w b cache pt f1 (calls ++ [(xd, f2)])
          evaluate w c coeffs)
        = .ok (expandAt b f.dim ts coeffs (pointOf f.dim pt xd)) := by
  obtain ⟨hf, hl⟩ := built_csr hb hcomp hts
  refine ⟨_, built_ofFixed hb hD hts, fun cache hcache => ?_⟩
  obtain ⟨c, W, e, hW, hB, hlast, -, -⟩ := fillSeq_eq f.dim hD f (degs f.dim ts) (by simp [degs]) b pt hpt f1
    cache hcache calls xd f2 hf2
  rw [e, Res.bind_ok, evaluate_eq (mk' f.dim f (degs f.dim ts)) f.dim ts hf hl c coeffs _
    (reads_id b pt xd f1 hD hW rfl hB hlast f) hc, expandAt, expansion]
  congr 1
  exact sum_congr rfl fun k _ => by rw [nzProd_eq fun d _ => hone _]

include hb hcomp hD hts hc hpt in
/-- Without the assumption that the function of degree 0 is 1: a component of degree 0 always
contributes the factor 1, whatever the basis function of degree 0 is. -/
theorem C23_degree_zero_ignored (hf2 : f2 ≠ .mixed) :
    ∃ w, ofFixed f = .ok w ∧ ∀ cache : Cache K, cache.length = w.cacheSize →
      (do let c ← fillSeq w b cache pt f1 (calls ++ [(xd, f2)])
          evaluate w c coeffs)
        = .ok (expansion f.dim ts coeffs fun d n => if n = 0 then 1 else b.val n (pointOf f.dim pt xd d)) := by
  obtain ⟨hf, hl⟩ := built_csr hb hcomp hts
  refine ⟨_, built_ofFixed hb hD hts, fun cache hcache => ?_⟩
  obtain ⟨c, W, e, hW, hB, hlast, -, -⟩ := fillSeq_eq f.dim hD f (degs f.dim ts) (by simp [degs]) b pt hpt f1
    cache hcache calls xd f2 hf2
  rw [e, Res.bind_ok, evaluate_eq (mk' f.dim f (degs f.dim ts)) f.dim ts hf hl c coeffs _
    (reads_id b pt xd f1 hD hW rfl hB hlast f) hc]
  rfl

include hb hD hts hc hpt in
/-- **C23 fails for the dense layout.** The closing entry of `nzStarts` is 0 in that layout, so the loop
over the components of the last term is empty: the last term always contributes its bare coefficient,
at every point. -/
theorem C23_dense_last_term_constant (hdense : f.isCompressed = false) (hf2 : f2 ≠ .mixed) {n : Nat}
    (hn : ts.length = n + 1) :
    ∃ w, ofFixed f = .ok w ∧ ∀ cache : Cache K, cache.length = w.cacheSize →
      (do let c ← fillSeq w b cache pt f1 (calls ++ [(xd, f2)])
          evaluate w c coeffs)
        = .ok (expandAt b f.dim (ts.take n) coeffs (pointOf f.dim pt xd) + coeffs.getD n 0) := by
  obtain ⟨hf, hl⟩ := built_dens hb hdense hts
  refine ⟨_, built_ofFixed hb hD hts, fun cache hcache => ?_⟩
  obtain ⟨c, W, e, hW, hB, hlast, -, -⟩ := fillSeq_eq f.dim hD f (degs f.dim ts) (by simp [degs]) b pt hpt f1
    cache hcache calls xd f2 hf2
  rw [e, Res.bind_ok, evaluate_dense (mk' f.dim f (degs f.dim ts)) f.dim ts hf hl hD c coeffs
    (fun d n => b.val n (pointOf f.dim pt xd d)) (hW.readsAll f ts rfl _ fun d hd => ?_) hn hc]
  · rfl
  · by_cases hlst : d = f.dim - 1
    · subst hlst; simpa [pointOf] using hlast
    · rw [(hB d (by omega)).1]; simp [pointOf, hlst]

/-- A set with the single term `(1)` in dense layout: `Evaluate` returns `c`, the expansion is `c·x`. -/
theorem C23_fails_dense : ∃ (f : FixedSet) (w : Worker) (ts : List (List Nat)),
    Built f ∧ Holds f ts ∧ ofFixed f = .ok w ∧
    (do let c ← fillSeq w (K := ℤ) ⟨fun n x => x ^ n, fun n x => n * x ^ (n - 1), fun _ _ => 0⟩
            (List.replicate w.cacheSize none) [5] .none [(5, .none)]
        evaluate w c [3]) = .ok 3 ∧
    expandAt (K := ℤ) ⟨fun n x => x ^ n, fun n x => n * x ^ (n - 1), fun _ _ => 0⟩ 1 ts [3] (fun _ => 5) = 15 := by
  refine ⟨_, _, [[1]], .dense (dim := 1) (ts := [[1]]) (by simp) (ofDense_dens 1 (by omega) _ (by simp)),
    dens_holds 1 (by omega) _ (by simp),
    built_ofFixed (.dense (dim := 1) (ts := [[1]]) (by simp) (ofDense_dens 1 (by omega) _ (by simp))) (by simp [FixedSet.dens])
      (dens_holds 1 (by omega) _ (by simp)), ?_, ?_⟩
  · decide +kernel
  · decide +kernel

end

/-! ### C24 -/

section
variable {f : FixedSet} (hb : Built f) (hcomp : f.isCompressed = true) (hD : 0 < f.dim)
  {ts : List (List Nat)} (hts : Holds f ts) (b : Basis ℝ) (hbasis : C1Basis b.eff) (coeffs : List ℝ)
  (hc : ts.length ≤ coeffs.length) (pt : List ℝ) (hpt : f.dim - 1 ≤ pt.length)
  (calls : List (ℝ × DFlag)) (xd : ℝ) (f1 f2 : DFlag)

theorem expandAt_partial (hbasis : C1Basis b) (D : Nat) (x : Nat → ℝ) (e : Nat) (he : e < D) :
    HasDerivAt (fun y => expandAt b D ts coeffs (Function.update x e y))
      (expansion D ts coeffs (facD1 b x e)) (x e) := by
  have := expansion_hasDerivAt D e he ts coeffs (fun y d n => b.val n (Function.update x e y d))
    (fun n => b.d1 n (x e)) (x e) (fun d hd n y => by simp [Function.update_of_ne hd])
    (fun n => by simpa using hbasis.d1 n (x e))
  convert this using 2
  · rfl
  funext d n
  unfold facD1
  split
  · subst_vars; rfl
  · rename_i h; rw [Function.update_of_ne h]

theorem partialDeriv_expandAt (hbasis : C1Basis b) (D : Nat) (e : Nat) (he : e < D) :
    partialDeriv (expandAt b D ts coeffs) e = fun x => expansion D ts coeffs (facD1 b x e) := by
  funext x
  exact (expandAt_partial b coeffs hbasis D x e he).deriv

theorem facD1_partial (hbasis : C1Basis b) (D : Nat) (x : Nat → ℝ) (e : Nat) (he : e < D)
    (h2 : e = D - 1 → TwiceAt b (x (D - 1))) :
    HasDerivAt (fun y => expansion D ts coeffs (facD1 b (Function.update x e y) (D - 1)))
      (expansion D ts coeffs (facMixed b D x e)) (x e) := by
  have := expansion_hasDerivAt D e he ts coeffs (fun y d n => facD1 b (Function.update x e y) (D - 1) d n)
    (fun n => if e = D - 1 then b.d2 n (x e) else b.d1 n (x e)) (x e)
    (fun d hd n y => by simp [facD1, Function.update_of_ne hd])
    (fun n => by
      unfold facD1
      by_cases h : e = D - 1
      · simpa [h] using h2 h n
      · simpa [h] using hbasis.d1 n (x e))
  convert this using 2
  funext d n
  unfold facMixed facD1
  by_cases h1 : d = D - 1
  · by_cases h2 : e = D - 1
    · simp [h1, h2]
    · have : d ≠ e := by omega
      simp [h1, h2, this, Function.update_of_ne (show D - 1 ≠ e from fun h => h2 h.symm)]
      intro h3; exact absurd h3.symm h2
  · by_cases h3 : d = e
    · subst h3; simp [h1]
    · simp [h1, h3, Function.update_of_ne h3]

include hb hcomp hD hts hc hpt in
theorem run_diagonal (hf2 : f2 = .diagonal ∨ f2 = .input ∨ f2 = .diagonal2 ∨ f2 = .mixedInput) :
    ∃ w, ofFixed f = .ok w ∧ ∀ cache : Cache ℝ, cache.length = w.cacheSize →
      (do let c ← fillSeq w b cache pt f1 (calls ++ [(xd, f2)])
          diagonalDerivative w c coeffs 1)
        = .ok (expansion f.dim ts coeffs (facD1 b.eff (pointOf f.dim pt xd) (f.dim - 1))) := by
  obtain ⟨hf, hl⟩ := built_csr hb hcomp hts
  refine ⟨_, built_ofFixed hb hD hts, fun cache hcache => ?_⟩
  obtain ⟨c, W, e, hW, hB, hlast, h1, -⟩ := fillSeq_eq f.dim hD f (degs f.dim ts) (by simp [degs]) b pt hpt f1
    cache hcache calls xd f2 (by rintro rfl; simp at hf2)
  have h1' := h1 (by rintro rfl; simp at hf2) (by rintro rfl; simp at hf2)
  rw [e, Res.bind_ok, diagonalDerivative_eq (mk' f.dim f (degs f.dim ts)) f.dim ts rfl hf hl c coeffs 1
    (.inl rfl) _ (reads_diag1_eff b pt xd f1 hD hW rfl hB f h1') hc, expansion]
  congr 1
  refine sum_congr rfl fun k _ => ?_
  rw [ctr_eq (by omega) (by simp [facD1, eff_d1_zero b])
    (fun d _ hd => by simp [facD1, hd, eff_one b])]

include hb hcomp hD hts hc hpt in
theorem run_diagonal2 (hf2 : f2 = .diagonal2 ∨ f2 = .mixedInput) :
    ∃ w, ofFixed f = .ok w ∧ ∀ cache : Cache ℝ, cache.length = w.cacheSize →
      (do let c ← fillSeq w b cache pt f1 (calls ++ [(xd, f2)])
          diagonalDerivative w c coeffs 2)
        = .ok (expansion f.dim ts coeffs (facD2 b.eff (pointOf f.dim pt xd) (f.dim - 1))) := by
  obtain ⟨hf, hl⟩ := built_csr hb hcomp hts
  refine ⟨_, built_ofFixed hb hD hts, fun cache hcache => ?_⟩
  obtain ⟨c, W, e, hW, hB, hlast, -, h2⟩ := fillSeq_eq f.dim hD f (degs f.dim ts) (by simp [degs]) b pt hpt f1
    cache hcache calls xd f2 (by rintro rfl; simp at hf2)
  rw [e, Res.bind_ok, diagonalDerivative_eq (mk' f.dim f (degs f.dim ts)) f.dim ts rfl hf hl c coeffs 2
    (.inr rfl) _ (reads_diag2_eff b pt xd f1 hD hW rfl hB f (h2 hf2)) hc, expansion]
  congr 1
  refine sum_congr rfl fun k _ => ?_
  rw [ctr_eq (by omega) (by simp [facD2, eff_d2_zero b])
    (fun d _ hd => by simp [facD2, hd, eff_one b])]

include hb hcomp hD hts hc hpt hbasis in
/-- **C24, first diagonal derivative**: `DiagonalDerivative(.., 1)` returns `∂f/∂x_D`. -/
theorem C24_diagonal (hf2 : f2 = .diagonal ∨ f2 = .input ∨ f2 = .diagonal2 ∨ f2 = .mixedInput) :
    ∃ w v, ofFixed f = .ok w ∧
      HasDerivAt (fun y => expandAt b.eff f.dim ts coeffs (pointOf f.dim pt y)) v xd ∧
      ∀ cache : Cache ℝ, cache.length = w.cacheSize →
      (do let c ← fillSeq w b cache pt f1 (calls ++ [(xd, f2)])
          diagonalDerivative w c coeffs 1) = .ok v := by
  obtain ⟨w, hw, h⟩ := run_diagonal hb hcomp hD hts b coeffs hc pt hpt calls xd f1 f2 hf2
  refine ⟨w, _, hw, ?_, h⟩
  have := expandAt_partial (ts := ts) b.eff coeffs hbasis f.dim (pointOf f.dim pt xd) (f.dim - 1) (by omega)
  rw [pointOf_last] at this
  convert this using 3
  funext d
  by_cases h : d = f.dim - 1 <;> simp [pointOf, h, Function.update_of_ne]

theorem deriv_last (hbasis : C1Basis b) (D : Nat) (hD : 0 < D) :
    deriv (fun y => expandAt b D ts coeffs (pointOf D pt y))
      = fun y => expansion D ts coeffs (facD1 b (pointOf D pt y) (D - 1)) := by
  funext y
  have := expandAt_partial (ts := ts) b coeffs hbasis D (pointOf D pt y) (D - 1) (by omega)
  rw [pointOf_last] at this
  rw [← this.deriv]
  congr 1
  funext z
  congr 1
  funext d
  by_cases h : d = D - 1 <;> simp [pointOf, h, Function.update_of_ne]

theorem deriv2_last (hbasis : C1Basis b) (D : Nat) (hD : 0 < D) (y : ℝ) (h2 : TwiceAt b y) :
    HasDerivAt (fun y => expansion D ts coeffs (facD1 b (pointOf D pt y) (D - 1)))
      (expansion D ts coeffs (facD2 b (pointOf D pt y) (D - 1))) y := by
  have := facD1_partial (ts := ts) b coeffs hbasis D (pointOf D pt y) (D - 1) (by omega)
    (fun _ => by rwa [pointOf_last])
  rw [pointOf_last] at this
  convert this using 2
  · rename_i z
    congr 2
    funext d
    by_cases h : d = D - 1 <;> simp [pointOf, h, Function.update_of_ne]
  · funext d n
    by_cases h : d = D - 1 <;> simp [facD2, facMixed, h]

include hb hcomp hD hts hc hpt hbasis in
/-- **C24, second diagonal derivative**: `DiagonalDerivative(.., 2)` returns `∂²f/∂x_D²`. -/
theorem C24_diagonal2 (h2 : TwiceAt b.eff xd) (hf2 : f2 = .diagonal2 ∨ f2 = .mixedInput) :
    ∃ w v, ofFixed f = .ok w ∧
      HasDerivAt (deriv fun y => expandAt b.eff f.dim ts coeffs (pointOf f.dim pt y)) v xd ∧
      ∀ cache : Cache ℝ, cache.length = w.cacheSize →
      (do let c ← fillSeq w b cache pt f1 (calls ++ [(xd, f2)])
          diagonalDerivative w c coeffs 2) = .ok v := by
  obtain ⟨w, hw, h⟩ := run_diagonal2 hb hcomp hD hts b coeffs hc pt hpt calls xd f1 f2 hf2
  refine ⟨w, _, hw, ?_, h⟩
  rw [deriv_last b.eff coeffs pt hbasis f.dim hD]
  exact deriv2_last b.eff coeffs pt hbasis f.dim hD xd h2

include hb hcomp hD hts hc hpt hbasis in
/-- **C24, input gradient**: `InputDerivative` returns the value and writes `∂f/∂x_e` in entry `e` of the
buffer, for every `e`, whatever the buffer held; entries beyond the dimension are untouched. -/
theorem C24_input (hf1 : f1 = .input ∨ f1 = .mixedInput)
    (hf2 : f2 = .diagonal ∨ f2 = .input ∨ f2 = .diagonal2 ∨ f2 = .mixedInput)
    (grad : List ℝ) (hg : f.dim ≤ grad.length) :
    ∃ w g, ofFixed f = .ok w ∧ g.length = grad.length ∧
      (∀ e, e < f.dim → ∃ v, g[e]? = some v ∧
        HasDerivAt (fun y => expandAt b.eff f.dim ts coeffs (Function.update (pointOf f.dim pt xd) e y)) v
          (pointOf f.dim pt xd e)) ∧
      (∀ e, f.dim ≤ e → g[e]? = grad[e]?) ∧
      ∀ cache : Cache ℝ, cache.length = w.cacheSize →
      (do let c ← fillSeq w b cache pt f1 (calls ++ [(xd, f2)])
          inputDerivative w c coeffs grad)
        = .ok (expandAt b.eff f.dim ts coeffs (pointOf f.dim pt xd), g) := by
  obtain ⟨hf, hl⟩ := built_csr hb hcomp hts
  let G : List ℝ := (List.range grad.length).map fun e =>
    if e < f.dim then expansion f.dim ts coeffs (facD1 b.eff (pointOf f.dim pt xd) e) else grad.getD e 0
  have hG : ∀ e, e < f.dim → G[e]? = some (expansion f.dim ts coeffs (facD1 b.eff (pointOf f.dim pt xd) e)) := by
    intro e he
    have : e < grad.length := by omega
    simp [G, this, he]
  have hG' : ∀ e, f.dim ≤ e → G[e]? = grad[e]? := by
    intro e he
    by_cases h : e < grad.length
    · simp [G, h, Nat.not_lt.2 he]
    · simp [G, h]
  refine ⟨_, G, built_ofFixed hb hD hts, by simp [G], fun e he => ⟨_, hG e he,
    expandAt_partial b.eff coeffs hbasis f.dim _ e he⟩, hG', fun cache hcache => ?_⟩
  obtain ⟨c, W, e, hW, hB, hlast, h1, -⟩ := fillSeq_eq f.dim hD f (degs f.dim ts) (by simp [degs]) b pt hpt f1
    cache hcache calls xd f2 (by rintro rfl; simp at hf2)
  have h1' := h1 (by rintro rfl; simp at hf2) (by rintro rfl; simp at hf2)
  obtain ⟨g, e2, l2, h2⟩ := inputWrt_eq (mk' f.dim f (degs f.dim ts)) f.dim ts hf hl c coeffs
    (fun e => facD1 b.eff (pointOf f.dim pt xd) e)
    (fun e he => reads_input_eff b pt xd f1 hD hW rfl hB hlast f hf1 h1' e he) hc
    (expandAt b.eff f.dim ts coeffs (pointOf f.dim pt xd)) f.dim 0 grad (by omega) hg
  have hgG : g = G := by
    apply List.ext_getElem?
    intro k
    rw [h2 k]
    by_cases hk : k < f.dim
    · rw [if_pos (by omega), hG k hk, expansion]
      congr 1
      refine sum_congr rfl fun i _ => ?_
      rw [ctr_eq hk (by simp [facD1, eff_d1_zero b]) (fun d _ hd => by simp [facD1, hd, eff_one b])]
    · rw [if_neg (by omega), hG' k (by omega)]
  have e1 := inputTerms_none (mk' f.dim f (degs f.dim ts)) f.dim ts hf hl c coeffs _
    (reads_input_none_eff b pt xd f1 hD hW rfl hB hlast f) hc grad ts.length 0 0 (by omega)
  have e1' : (0 : ℝ) + ∑ k ∈ range ts.length, coeffs.getD (0 + k) 0 *
      nzProd f.dim (fun d n => b.eff.val n (pointOf f.dim pt xd d)) (ts.getD (0 + k) [])
      = expandAt b.eff f.dim ts coeffs (pointOf f.dim pt xd) := by
    rw [zero_add, expandAt, expansion]
    refine sum_congr rfl fun k _ => ?_
    rw [nzProd_eq fun d _ => eff_one b _, Nat.zero_add]
  rw [e1'] at e1
  rw [e, Res.bind_ok, inputDerivative, size_csr _ f.dim ts hf hl, Res.bind_ok, e1, Res.bind_ok]
  rw [show (mk' f.dim f (degs f.dim ts)).dim = f.dim from rfl, e2, hgG]

include hb hcomp hD hts hc hpt in
theorem run_mixedInput (hf1 : f1 = .input ∨ f1 = .mixedInput) (hf2 : f2 = .diagonal2 ∨ f2 = .mixedInput)
    (grad : List ℝ) (hg : f.dim ≤ grad.length) :
    ∃ w g, ofFixed f = .ok w ∧ g.length = grad.length ∧
      (∀ e, e < f.dim → g[e]? = some (expansion f.dim ts coeffs (facMixed b.eff f.dim (pointOf f.dim pt xd) e))) ∧
      (∀ e, f.dim ≤ e → g[e]? = grad[e]?) ∧
      ∀ cache : Cache ℝ, cache.length = w.cacheSize →
      (do let c ← fillSeq w b cache pt f1 (calls ++ [(xd, f2)])
          mixedInputDerivative w c coeffs grad)
        = .ok (expansion f.dim ts coeffs (facD1 b.eff (pointOf f.dim pt xd) (f.dim - 1)), g) := by
  obtain ⟨hf, hl⟩ := built_csr hb hcomp hts
  let G : List ℝ := (List.range grad.length).map fun e =>
    if e < f.dim then expansion f.dim ts coeffs (facMixed b.eff f.dim (pointOf f.dim pt xd) e) else grad.getD e 0
  have hG : ∀ e, e < f.dim →
      G[e]? = some (expansion f.dim ts coeffs (facMixed b.eff f.dim (pointOf f.dim pt xd) e)) := by
    intro e he
    have : e < grad.length := by omega
    simp [G, this, he]
  have hG' : ∀ e, f.dim ≤ e → G[e]? = grad[e]? := by
    intro e he
    by_cases h : e < grad.length
    · simp [G, h, Nat.not_lt.2 he]
    · simp [G, h]
  refine ⟨_, G, built_ofFixed hb hD hts, by simp [G], hG, hG', fun cache hcache => ?_⟩
  obtain ⟨c, W, e, hW, hB, hlast, h1, h2'⟩ := fillSeq_eq f.dim hD f (degs f.dim ts) (by simp [degs]) b pt hpt f1
    cache hcache calls xd f2 (by rintro rfl; simp at hf2)
  have h1' := h1 (by rintro rfl; simp at hf2) (by rintro rfl; simp at hf2)
  obtain ⟨g, e2, l2, h2⟩ := mixedWrt_eq (mk' f.dim f (degs f.dim ts)) f.dim ts rfl hf hl c coeffs
    (fun e => facMixed b.eff f.dim (pointOf f.dim pt xd) e)
    (fun e he => reads_mixed_eff b pt xd f1 hD hW rfl hB f hf1 h1' (h2' hf2) e he) hc
    (expansion f.dim ts coeffs (facD1 b.eff (pointOf f.dim pt xd) (f.dim - 1))) f.dim 0 grad (by omega) hg
  have hgG : g = G := by
    apply List.ext_getElem?
    intro k
    rw [h2 k]
    by_cases hk : k < f.dim
    · rw [if_pos (by omega), hG k hk, expansion]
      congr 1
      refine sum_congr rfl fun i _ => ?_
      rw [ctr2_eq hk (by omega)
        (by by_cases hkl : k = f.dim - 1 <;> simp [facMixed, hkl, eff_d1_zero b, eff_d2_zero b])
        (by by_cases hkl : k = f.dim - 1 <;> simp [facMixed, hkl, eff_d1_zero b, eff_d2_zero b])
        (fun d _ hd hd' => by simp [facMixed, hd, hd', eff_one b])]
    · rw [if_neg (by omega), hG' k (by omega)]
  have e1 := mixedTerms_none (mk' f.dim f (degs f.dim ts)) f.dim ts rfl hf hl c coeffs _
    (reads_mixed_none_eff b pt xd f1 hD hW rfl hB f h1') hc grad ts.length 0 0 (by omega)
  have e1' : (0 : ℝ) + ∑ k ∈ range ts.length, coeffs.getD (0 + k) 0 *
      ctr f.dim (f.dim - 1) (facD1 b.eff (pointOf f.dim pt xd) (f.dim - 1)) (ts.getD (0 + k) [])
      = expansion f.dim ts coeffs (facD1 b.eff (pointOf f.dim pt xd) (f.dim - 1)) := by
    rw [zero_add, expansion]
    refine sum_congr rfl fun k _ => ?_
    rw [ctr_eq (by omega) (by simp [facD1, eff_d1_zero b])
      (fun d _ hd => by simp [facD1, hd, eff_one b]), Nat.zero_add]
  rw [e1'] at e1
  rw [e, Res.bind_ok, mixedInputDerivative, size_csr _ f.dim ts hf hl, Res.bind_ok, e1, Res.bind_ok]
  rw [show (mk' f.dim f (degs f.dim ts)).dim = f.dim from rfl, e2, hgG]

include hb hcomp hD hts hc hpt hbasis in
/-- **C24, mixed input gradient**: `MixedInputDerivative` returns `∂f/∂x_D` and writes `∂²f/∂x_e∂x_D` in
entry `e` of the buffer. -/
theorem C24_mixedInput (h2 : TwiceAt b.eff xd) (hf1 : f1 = .input ∨ f1 = .mixedInput) (hf2 : f2 = .diagonal2 ∨ f2 = .mixedInput)
    (grad : List ℝ) (hg : f.dim ≤ grad.length) :
    ∃ w g, ofFixed f = .ok w ∧ g.length = grad.length ∧
      (∀ e, e < f.dim → ∃ v, g[e]? = some v ∧
        HasDerivAt (fun y => partialDeriv (expandAt b.eff f.dim ts coeffs) (f.dim - 1)
          (Function.update (pointOf f.dim pt xd) e y)) v (pointOf f.dim pt xd e)) ∧
      (∀ e, f.dim ≤ e → g[e]? = grad[e]?) ∧
      ∀ cache : Cache ℝ, cache.length = w.cacheSize →
      (do let c ← fillSeq w b cache pt f1 (calls ++ [(xd, f2)])
          mixedInputDerivative w c coeffs grad)
        = .ok (partialDeriv (expandAt b.eff f.dim ts coeffs) (f.dim - 1) (pointOf f.dim pt xd), g) := by
  obtain ⟨w, g, hw, hl, hG, hG', h⟩ := run_mixedInput hb hcomp hD hts b coeffs hc pt hpt calls xd f1 f2 hf1 hf2 grad hg
  rw [partialDeriv_expandAt b.eff coeffs hbasis f.dim (f.dim - 1) (by omega)]
  exact ⟨w, g, hw, hl, fun e he => ⟨_, hG e he, facD1_partial b.eff coeffs hbasis f.dim _ e he
    fun _ => by rwa [pointOf_last]⟩, hG', h⟩

/-- Writing `c_k`-derivatives over a buffer. -/
theorem buffer_ext {grad g : List ℝ} {N : Nat} {v : Nat → ℝ}
    (h : ∀ k, g[k]? = if 0 ≤ k ∧ k < 0 + N then some (v k) else grad[k]?) :
    (∀ k, k < N → g[k]? = some (v k)) ∧ ∀ k, N ≤ k → g[k]? = grad[k]? :=
  ⟨fun k hk => by rw [h k, if_pos (by omega)], fun k hk => by rw [h k, if_neg (by omega)]⟩

include hb hcomp hD hts hc hpt hbasis in
/-- **C24, coefficient gradient**: `CoeffDerivative` returns the value and writes `∂f/∂c_k` in entry `k`
of the buffer. -/
theorem C24_coeff (hf2 : f2 ≠ .mixed) (grad : List ℝ) (hg : ts.length ≤ grad.length) :
    ∃ w, ofFixed f = .ok w ∧
      ∀ cache : Cache ℝ, cache.length = w.cacheSize → ∃ g, g.length = grad.length ∧
      (∀ k, k < ts.length → ∃ v, g[k]? = some v ∧ ∀ z,
        HasDerivAt (fun z => expandAt b.eff f.dim ts (coeffs.set k z) (pointOf f.dim pt xd)) v z) ∧
      (∀ k, ts.length ≤ k → g[k]? = grad[k]?) ∧
      (do let c ← fillSeq w b cache pt f1 (calls ++ [(xd, f2)])
          coeffDerivative w c coeffs grad)
        = .ok (expandAt b.eff f.dim ts coeffs (pointOf f.dim pt xd), g) := by
  obtain ⟨hf, hl⟩ := built_csr hb hcomp hts
  refine ⟨_, built_ofFixed hb hD hts, fun cache hcache => ?_⟩
  obtain ⟨c, W, e, hW, hB, hlast, -, -⟩ := fillSeq_eq f.dim hD f (degs f.dim ts) (by simp [degs]) b pt hpt f1
    cache hcache calls xd f2 hf2
  obtain ⟨g, e2, l2, h2⟩ := coeffLoop_eq (mk' f.dim f (degs f.dim ts)) f.dim ts hf hl c coeffs _
    (reads_id_eff b pt xd f1 hD hW rfl hB hlast f) hc ts.length 0 0 grad (by omega) hg
  obtain ⟨h3, h4⟩ := buffer_ext h2
  refine ⟨g, l2, fun k hk => ⟨_, h3 k hk, fun z => ?_⟩, h4, ?_⟩
  · rw [nzProd_eq fun d _ => eff_one b _]
    exact expansion_coeff_hasDerivAt f.dim ts coeffs _ k hk hc z
  · rw [e, Res.bind_ok, coeffDerivative, size_csr _ f.dim ts hf hl, Res.bind_ok, e2, zero_add, expandAt,
      expansion]
    congr 2
    refine sum_congr rfl fun k _ => ?_
    rw [nzProd_eq fun d _ => eff_one b _, Nat.zero_add]

/-- The factors of the derivative of order `r` in the last coordinate. -/
noncomputable def facDiag (b : Basis ℝ) (D : Nat) (x : Nat → ℝ) (r : Nat) : Nat → Nat → ℝ :=
  if r = 1 then facD1 b x (D - 1) else facD2 b x (D - 1)

include hb hcomp hD hts hc hpt in
theorem run_mixedCoeff (r : Nat) (hr : r = 1 ∧ (f2 = .diagonal ∨ f2 = .input ∨ f2 = .diagonal2 ∨ f2 = .mixedInput)
      ∨ r = 2 ∧ (f2 = .diagonal2 ∨ f2 = .mixedInput)) (grad : List ℝ) (hg : ts.length ≤ grad.length) :
    ∃ w, ofFixed f = .ok w ∧
      ∀ cache : Cache ℝ, cache.length = w.cacheSize → ∃ g, g.length = grad.length ∧
      (∀ k, k < ts.length → g[k]? = some (termProd f.dim (facDiag b.eff f.dim (pointOf f.dim pt xd) r) (ts.getD k []))) ∧
      (∀ k, ts.length ≤ k → g[k]? = grad[k]?) ∧
      (do let c ← fillSeq w b cache pt f1 (calls ++ [(xd, f2)])
          mixedCoeffDerivative w c coeffs r grad)
        = .ok (expansion f.dim ts coeffs (facDiag b.eff f.dim (pointOf f.dim pt xd) r), g) := by
  obtain ⟨hf, hl⟩ := built_csr hb hcomp hts
  refine ⟨_, built_ofFixed hb hD hts, fun cache hcache => ?_⟩
  have hne : f2 ≠ .mixed := by rintro rfl; simp at hr
  obtain ⟨c, W, e, hW, hB, hlast, h1, h2⟩ := fillSeq_eq f.dim hD f (degs f.dim ts) (by simp [degs]) b pt hpt f1
    cache hcache calls xd f2 hne
  have hreads : Reads (mk' f.dim f (degs f.dim ts)) c f.dim ts ((mk' f.dim f (degs f.dim ts)).diagSlot r)
      (facDiag b.eff f.dim (pointOf f.dim pt xd) r) := by
    rcases hr with ⟨rfl, hf2⟩ | ⟨rfl, hf2⟩
    · exact reads_diag1_eff b pt xd f1 hD hW rfl hB f
        (h1 (by rintro rfl; simp at hf2) (by rintro rfl; simp at hf2))
    · exact reads_diag2_eff b pt xd f1 hD hW rfl hB f (h2 hf2)
  have hF0 : facDiag b.eff f.dim (pointOf f.dim pt xd) r (f.dim - 1) 0 = 0 := by
    unfold facDiag
    split <;> simp [facD1, facD2, eff_d1_zero b, eff_d2_zero b]
  have hF1 : ∀ d, d < f.dim → d ≠ f.dim - 1 → facDiag b.eff f.dim (pointOf f.dim pt xd) r d 0 = 1 := by
    intro d _ hd
    unfold facDiag
    split <;> simp [facD1, facD2, hd, eff_one b]
  obtain ⟨g, e2, l2, h3⟩ := mixedCoeffLoop_eq (mk' f.dim f (degs f.dim ts)) f.dim ts rfl hf hl c coeffs r _
    hreads hc ts.length 0 0 grad (by omega) hg
  obtain ⟨h4, h5⟩ := buffer_ext h3
  refine ⟨g, l2, fun k hk => ?_, h5, ?_⟩
  · rw [h4 k hk, ctr_eq (by omega) hF0 hF1]
  · rw [e, Res.bind_ok, mixedCoeffDerivative, if_neg (by rcases hr with ⟨rfl, _⟩ | ⟨rfl, _⟩ <;> omega),
      size_csr _ f.dim ts hf hl, Res.bind_ok, e2, zero_add, expansion]
    congr 2
    refine sum_congr rfl fun k _ => ?_
    rw [ctr_eq (by omega) hF0 hF1, Nat.zero_add]

theorem deriv_facDiag (hbasis : C1Basis b) (D : Nat) (hD : 0 < D) (xd : ℝ) (r : Nat) (hr : r = 1 ∨ r = 2 ∧ TwiceAt b xd) :
    deriv^[r] (fun y => expandAt b D ts coeffs (pointOf D pt y)) xd
      = expansion D ts coeffs (facDiag b D (pointOf D pt xd) r) := by
  rcases hr with rfl | ⟨rfl, h2⟩
  · rw [Function.iterate_one, deriv_last b coeffs pt hbasis D hD]
    rfl
  · rw [show (2 : Nat) = 1 + 1 from rfl, Function.iterate_succ, Function.comp, Function.iterate_one,
      deriv_last b coeffs pt hbasis D hD]
    exact (deriv2_last b coeffs pt hbasis D hD xd h2).deriv

include hb hcomp hD hts hc hpt hbasis in
/-- **C24, mixed coefficient gradient**: `MixedCoeffDerivative(.., r)` for `r = 1, 2` returns
`∂^r f/∂x_D^r` and writes `∂/∂c_k ∂^r f/∂x_D^r` in entry `k` of the buffer. -/
theorem C24_mixedCoeff (r : Nat) (h2 : r = 2 → TwiceAt b.eff xd)
    (hr : r = 1 ∧ (f2 = .diagonal ∨ f2 = .input ∨ f2 = .diagonal2 ∨ f2 = .mixedInput)
      ∨ r = 2 ∧ (f2 = .diagonal2 ∨ f2 = .mixedInput)) (grad : List ℝ) (hg : ts.length ≤ grad.length) :
    ∃ w, ofFixed f = .ok w ∧
      ∀ cache : Cache ℝ, cache.length = w.cacheSize → ∃ g, g.length = grad.length ∧
      (∀ k, k < ts.length → ∃ v, g[k]? = some v ∧ ∀ z,
        HasDerivAt (fun z => deriv^[r] (fun y => expandAt b.eff f.dim ts (coeffs.set k z) (pointOf f.dim pt y)) xd)
          v z) ∧
      (∀ k, ts.length ≤ k → g[k]? = grad[k]?) ∧
      (do let c ← fillSeq w b cache pt f1 (calls ++ [(xd, f2)])
          mixedCoeffDerivative w c coeffs r grad)
        = .ok (deriv^[r] (fun y => expandAt b.eff f.dim ts coeffs (pointOf f.dim pt y)) xd, g) := by
  obtain ⟨w, hw, h⟩ := run_mixedCoeff hb hcomp hD hts b coeffs hc pt hpt calls xd f1 f2 r hr grad hg
  have hr' : r = 1 ∨ r = 2 ∧ TwiceAt b.eff xd := hr.imp (·.1) fun h => ⟨h.1, h2 h.1⟩
  refine ⟨w, hw, fun cache hcache => ?_⟩
  obtain ⟨g, hl, hG, hG', h⟩ := h cache hcache
  simp only [deriv_facDiag b.eff _ pt hbasis f.dim hD xd r hr']
  exact ⟨g, hl, fun k hk => ⟨_, hG k hk, expansion_coeff_hasDerivAt f.dim ts coeffs _ k hk hc⟩, hG', h⟩

end
end Worker
end MParT
