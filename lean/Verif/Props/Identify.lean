import Verif.Spec.Identify
import Verif.Lemmas.OneSided
import Verif.Props.Factory
import Verif.Props.FactoryExpansion
/-!
# C105: different coefficients are different functions
-/
namespace MParT
open Finset Spec Filter Topology MapFactory

theorem fn_of_same {T : CMap} {c c' : List ℝ} (h : SameValues T c c') {x : List ℝ} (hx : x.length = T.inputDim) : fn T c x = fn T c' x := by
  rw [fn, fn, h x _ hx (by simp [zeros])]

theorem logdet_of_same {T : CMap} {c c' : List ℝ} (h : SameLogDets T c c') {x : List ℝ} (hx : x.length = T.inputDim) :
    logdet T c x = logdet T c' x := by rw [logdet, logdet, h x _ hx]

theorem same_of_fn {T : CMap} (hE : Evaluates T) {c c' : List ℝ} (hc : c.length = T.numCoeffs) (hc' : c'.length = T.numCoeffs)
    (h : ∀ x : List ℝ, x.length = T.inputDim → fn T c x = fn T c' x) : SameValues T c c' := fun x out hx ho => by
  rw [(hE c x ⟨hc, hx⟩).2 out ho, (hE c' x ⟨hc', hx⟩).2 out ho, h x hx]

/-- A list with given coordinates. -/
theorem coords_ofFn (D : ℕ) (X : ℕ → ℝ) : ∀ d < D, coords ((List.range D).map X) d = X d := fun d hd => by
  simp [coords, hd]

theorem expandAt_congr {b : Basis ℝ} {D : ℕ} {ts : List (List ℕ)} {c : List ℝ} {X Y : ℕ → ℝ} (h : ∀ d < D, X d = Y d) :
    expandAt b D ts c X = expandAt b D ts c Y := by
  simp only [expandAt, expansion, termProd]
  refine sum_congr rfl fun k _ => ?_
  rw [prod_congr rfl fun d hd => by rw [h d (mem_range.1 hd)]]

/-- It is enough to compare expansions at lists. -/
theorem expandAt_lists {b : Basis ℝ} {orders : ℕ → Prop} (hφ : Independent b.val orders) {D : ℕ} {ts : List (List ℕ)} (hn : ts.Nodup)
    (hD : ∀ t ∈ ts, t.length = D) (ho : ∀ t ∈ ts, ∀ n ∈ t, orders n) {c c' : List ℝ} (hc : c.length = ts.length)
    (hc' : c'.length = ts.length) (h : ∀ x : List ℝ, x.length = D → expandAt b D ts c (coords x) = expandAt b D ts c' (coords x)) : c = c' :=
  expandAt_injective hφ hn hD ho hc hc' fun X => by
    rw [← expandAt_congr (coords_ofFn D X), ← expandAt_congr (coords_ofFn D X)]
    exact h _ (by simp)

/-! ### Expansions -/

/-- Lists of equally long blocks are equal if the blocks are. -/
theorem blocks_ext {n : ℕ} : ∀ (m : ℕ) (c c' : List ℝ), c.length = n * m → c'.length = n * m →
    (∀ o < m, (c.drop (o * n)).take n = (c'.drop (o * n)).take n) → c = c' := by
  intro m
  induction m with
  | zero => 
    intro c c' h1 h2 _
    have e1 : c = [] := List.length_eq_zero_iff.1 (by simpa using h1)
    have e2 : c' = [] := List.length_eq_zero_iff.1 (by simpa using h2)
    rw [e1, e2]
  | succ m ih =>
    intro c c' h1 h2 h
    rw [Nat.mul_succ] at h1 h2
    rw [← List.take_append_drop n c, ← List.take_append_drop n c']
    congr 1
    · simpa using h 0 (by omega)
    · refine ih _ _ (by simp; omega) (by simp; omega) fun o ho => ?_
      have := h (o + 1) (by omega)
      rwa [List.drop_drop, List.drop_drop, ← show (o + 1) * n = n + o * n by ring]

theorem expansion_identifiable {o : MapOptions} {orders : ℕ → Prop} {b : Basis ℝ} (hO : Ordered o.basisLB o.basisUB) (hb : IsBasisOf o orders b)
    {m D : ℕ} {ts : List (List ℕ)} (hn : ts.Nodup) (hD : ∀ t ∈ ts, t.length = D) (ho : ∀ t ∈ ts, ∀ n ∈ t, orders n) {T : CMap}
    (hT : IsExpansion b m D ts T) : Identifiable T := by
  intro c c' hc hc' h
  rw [hT.coeffs] at hc hc'
  refine blocks_ext m c c' hc hc' fun i hi => ?_
  have hlen : ∀ c : List ℝ, c.length = ts.length * m → ((c.drop (i * ts.length)).take ts.length).length = ts.length := fun c hc => by
    have : i * ts.length + ts.length ≤ ts.length * m := by
      calc i * ts.length + ts.length = ts.length * (i + 1) := by ring
        _ ≤ _ := Nat.mul_le_mul_left _ hi
    simp; omega
  refine expandAt_lists (basis_independent hO hb) hn hD ho (hlen c hc) (hlen c' hc') fun x hx => ?_
  have hx' : x.length = T.inputDim := hx.trans hT.inputs.symm
  have := fn_of_same h hx'
  rw [hT.value c x ⟨hc.trans hT.coeffs.symm, hx'⟩, hT.value c' x ⟨hc'.trans hT.coeffs.symm, hx'⟩] at this
  simpa [hi] using congrArg (fun l : List ℝ => l[i]?) this

/-- Compressed sets, which are made from multi-index sets or of a total order, hold no multi-index twice. -/
theorem built_nodup {f : FixedSet} (hb : FixedSet.Built f) (hcomp : f.isCompressed = true) {ts : List (List Nat)} (hts : FixedSet.Holds f ts) :
    ts.Nodup := by
  cases hb with
  | @fix b s c f hr e =>
    obtain ⟨us, hu, -⟩ := MISet.C09_terms_exist hr
    have hl := FixedSet.terms_length hr hu
    obtain ⟨vs, R, hi, -⟩ := hr.inv hu
    cases c with
    | true =>
      rw [FixedSet.fix_csr hr hu] at e; cases e
      cases (FixedSet.csr_holds _ us hl).unique hts
      exact hi.nodup
    | false =>
      by_cases hn : 0 < s.length
      · rw [FixedSet.fix_dens hr hn hu] at e; cases e; cases hcomp
      · rw [FixedSet.C19_dense_length_zero hr (by omega)] at e; cases e
  | @totalOrder n p f e =>
    by_cases hn : 0 < n
    · rw [FixedSet.totalOrder_csr n hn p] at e; cases e
      cases (FixedSet.csr_holds n (MISet.toEnum n p) fun t ht => ((MISet.mem_toEnum _ _ _).1 ht).1).unique hts
      exact MISet.sorted_nodup (MISet.toEnum_sorted n p)
    · have : n = 0 := by omega
      subst this
      simp [FixedSet.totalOrder] at e
  | @dense n us f hl e =>
    by_cases hn : 0 < n
    · rw [FixedSet.ofDense_dens n hn us hl] at e; cases e; cases hcomp
    · have : n = 0 := by omega
      subst this
      simp [FixedSet.ofDense] at e

/-- **C105, expansions.** For good options and every compressed set, different coefficients of the expansion
`CreateExpansion` returns give different functions. -/
theorem C105_expansion_partial {f : FixedSet} (hb : FixedSet.Built f) (hcomp : f.isCompressed = true) (hD : 0 < f.dim)
    {ts : List (List Nat)} (hts : FixedSet.Holds f ts) {o : MapOptions} {N : Nat} (hN : ∀ t ∈ ts, ∀ n ∈ t, n ≤ N)
    (hB : GoodBasis o N) (m : Nat) (work : Nat → ℝ) :
    ∃ T, createExpansion m f o work = .ok (T, zeros (ts.length * m)) ∧ T.numCoeffs = ts.length * m ∧ Identifiable T := by
  obtain ⟨b, h1, h2⟩ := C64_createExpansion_partial hb hcomp hD hts hN hB m
  obtain ⟨T, h3, h4⟩ := h2 work
  exact ⟨T, h3, h4.coeffs, expansion_identifiable hB.bounds h1 (built_nodup hb hcomp hts) (Worker.built_csr hb hcomp hts).2 (fun t ht n hn => ⟨t, ht, hn⟩) h4⟩

/-! ### Components -/

theorem list_sum_sub {α : Type} (l : List α) (f g : α → ℝ) : (l.map fun p => f p - g p).sum = (l.map f).sum - (l.map g).sum := by
  induction l with
  | nil => simp
  | cons a l ih => simp only [List.map_cons, List.sum_cons, ih]; ring

section
variable {o : MapOptions} {orders : ℕ → Prop} {b : Basis ℝ} (hO : Ordered o.basisLB o.basisUB) (hb : IsBasisOf o orders b)

/-- The expansion along the last coordinate. -/
noncomputable def line (b : Basis ℝ) (D : ℕ) (ts : List (List ℕ)) (c : List ℝ) (X : ℕ → ℝ) (s : ℝ) : ℝ :=
  expandAt b.eff D ts c (Function.update X (D - 1) s)

include hO hb

theorem eff_differentiable {n : ℕ} (hn : orders n) : Differentiable ℝ (b.eff.val n) := by
  obtain ⟨a, -, -, -, hv⟩ := hb
  have hd : ∀ n, Differentiable ℝ fun x => rawFamily o.basisType n x / a n := fun n x =>
    ((analyticAt_raw o.basisType n x).differentiableAt).div_const _
  have hd2 : ∀ n, Differentiable ℝ (deriv fun x => rawFamily o.basisType n x / a n) := fun n x => by
    refine AnalyticAt.differentiableAt (AnalyticAt.deriv ?_)
    simp only [div_eq_mul_inv]
    exact (analyticAt_raw o.basisType n x).mul analyticAt_const
  have := (C24_linearized_smooth hd hd2 hO).1.d1 n
  intro x
  have h := (this x).differentiableAt
  by_cases h0 : n = 0
  · subst h0; simp [Basis.eff]
  · simpa only [Basis.eff, h0, if_false, hv n hn, Spec.extensions] using h

theorem eff_oneSided {n : ℕ} (hn : orders n) {σ : ℝ} (hσ : σ = 1 ∨ σ = -1) : OneSided σ (b.eff.val n) := by
  obtain ⟨a, -, -, -, hv⟩ := hb
  by_cases h0 : n = 0
  · subst h0; simpa [Basis.eff] using OneSided.const 1
  · simp only [Basis.eff, h0, if_false, hv n hn]
    refine oneSided_extend hO (fun x => ?_) hσ
    simp only [div_eq_mul_inv]
    exact (analyticAt_raw o.basisType n x).mul analyticAt_const

variable {D : ℕ} {ts : List (List ℕ)} (hD : ∀ t ∈ ts, t.length = D) (ho : ∀ t ∈ ts, ∀ n ∈ t, orders n)
include hD ho

omit hO hb in
theorem order_mem {k d : ℕ} (hk : k < ts.length) (hd : d < D) : orders ((ts.getD k []).getD d 0) := by
  have hmem : ts[k] ∈ ts := List.getElem_mem hk
  rw [getD_lt hk, getD_lt (by rw [hD _ hmem]; exact hd)]
  exact ho _ hmem _ (List.getElem_mem _)

theorem line_differentiable (c : List ℝ) (X : ℕ → ℝ) : Differentiable ℝ (line b D ts c X) := by
  rw [show line b D ts c X = fun s => ∑ k ∈ range ts.length, c.getD k 0 * ∏ d ∈ range D,
    b.eff.val ((ts.getD k []).getD d 0) (Function.update X (D - 1) s d) from rfl]
  refine Differentiable.fun_sum fun k hk => Differentiable.const_mul (Differentiable.fun_finset_prod fun d hd => ?_) _
  have := eff_differentiable hO hb (order_mem hD ho (mem_range.1 hk) (mem_range.1 hd))
  by_cases e : d = D - 1
  · subst e; simpa using this
  · simp [Function.update_of_ne e]

theorem line_oneSided (c : List ℝ) (X : ℕ → ℝ) {σ : ℝ} (hσ : σ = 1 ∨ σ = -1) : OneSided σ (line b D ts c X) := by
  rw [show line b D ts c X = fun s => ∑ k ∈ range ts.length, c.getD k 0 * ∏ d ∈ range D,
    b.eff.val ((ts.getD k []).getD d 0) (Function.update X (D - 1) s d) from rfl]
  refine OneSided.sum _ fun k hk => (OneSided.const _).mul (OneSided.prod _ fun d hd => ?_)
  have := eff_oneSided hO hb (order_mem hD ho (mem_range.1 hk) (mem_range.1 hd)) hσ
  by_cases e : d = D - 1
  · subst e; simpa using this
  · simpa [Function.update_of_ne e] using OneSided.const _

omit hO hb hD ho in
theorem diagD_line (c : List ℝ) (X : ℕ → ℝ) (s : ℝ) : diagD b.eff D ts c (Function.update X (D - 1) s) = deriv (line b D ts c X) s := by
  simp only [diagD, partialDeriv, Function.update_idem, Function.update_self]; rfl

omit hO hb hD ho in
theorem disc_line (g : ℝ → ℝ) (c : List ℝ) (X : ℕ → ℝ) (y : ℝ) (R : List (ℝ × ℝ)) :
    discretised b.eff g 0 D ts c (Function.update X (D - 1) y) R
      = line b D ts c X 0 + y * (R.map fun p => p.2 * g (deriv (line b D ts c X) (p.1 * y))).sum := by
  simp only [discretised, offset, unitDensity, density, Function.update_idem, Function.update_self, diagD_line, add_zero]
  rw [← List.sum_map_mul_left]
  congr 3
  funext p; ring

/-- Two components with the same offsets and the same diagonal derivatives have the same coefficients. -/
theorem component_coeffs (hn : ts.Nodup) {c c' : List ℝ} (hc : c.length = ts.length) (hc' : c'.length = ts.length)
    (h0 : ∀ x : List ℝ, x.length = D → line b D ts c (coords x) 0 = line b D ts c' (coords x) 0)
    (h1 : ∀ x : List ℝ, x.length = D → ∀ s, deriv (line b D ts c (coords x)) s = deriv (line b D ts c' (coords x)) s) : c = c' := by
  refine expandAt_lists (basis_independent hO hb) hn hD ho hc hc' fun x hx => ?_
  have hd := line_differentiable hO hb hD ho c (coords x)
  have hd' := line_differentiable hO hb hD ho c' (coords x)
  have hconst : ∀ s, line b D ts c (coords x) s - line b D ts c' (coords x) s = line b D ts c (coords x) 0 - line b D ts c' (coords x) 0 :=
    fun s => is_const_of_deriv_eq_zero (f := fun s => line b D ts c (coords x) s - line b D ts c' (coords x) s) (hd.sub hd')
      (fun s => by rw [deriv_fun_sub (hd s) (hd' s), h1 x hx s, sub_self]) s 0
  have := hconst (coords x (D - 1))
  rw [h0 x hx, sub_self, sub_eq_zero] at this
  simpa only [line, Function.update_eq_self] using this

omit hO hb hD ho in
theorem positive_injective (t : PosFuncType) : (∀ x, 0 < positive t x) ∧ Function.Injective (positive t) := by
  cases t with
  | exp => exact ⟨Real.exp_pos, Real.exp_injective⟩
  | softPlus =>
    have h : positive .softPlus = softPlus.eval := funext fun x => (C30_softPlus_formula x).symm
    rw [h]
    exact ⟨C30_softPlus.pos, C30_softPlus.increasing.injective⟩

variable {mesh : (ℝ → ℝ) → List (ℝ × ℝ)} (hpos : 0 < D) {T : CMap} (hT : IsComponent o b mesh D ts T)

omit hO hb hD ho in
/-- The values of a component along the last coordinate. -/
theorem component_line (hT : IsComponent o b mesh D ts T) {c x : List ℝ} (hc : c.length = ts.length) (hx : x.length = D) (hpos : 0 < D)
    (y : ℝ) : ∃ g, fn T c (x.set (D - 1) y) = [line b D ts c (coords x) 0 +
      y * ((mesh g).map fun p => p.2 * positive o.posFuncType (deriv (line b D ts c (coords x)) (p.1 * y))).sum] := by
  refine ⟨unitDensity b.eff (positive o.posFuncType) 0 D ts c (Function.update (coords x) (D - 1) y), ?_⟩
  rw [hT.value c _ ⟨hc.trans hT.coeffs.symm, by simp [hx, hT.inputs]⟩, coords_set (by omega), disc_line]

omit hO hb hD ho in
theorem component_offset (hT : IsComponent o b mesh D ts T) (hpos : 0 < D) {c c' : List ℝ} (hc : c.length = ts.length) (hc' : c'.length = ts.length)
    (h : ∀ x : List ℝ, x.length = D → fn T c x = fn T c' x) {x : List ℝ} (hx : x.length = D) :
    line b D ts c (coords x) 0 = line b D ts c' (coords x) 0 := by
  obtain ⟨g, e⟩ := component_line hT hc hx hpos 0
  obtain ⟨g', e'⟩ := component_line hT hc' hx hpos 0
  have := h (x.set (D - 1) 0) (by simp [hx])
  rw [e, e'] at this
  simpa using this

/-- With a fixed rule the values determine the coefficients. -/
theorem component_fixed (hn : ts.Nodup) (hpos : 0 < D) (hT : IsComponent o b mesh D ts T) {R : List (ℝ × ℝ)} (hR : mesh = fun _ => R)
    (hG : GoodRule R) {c c' : List ℝ} (hc : c.length = ts.length) (hc' : c'.length = ts.length)
    (h : ∀ x : List ℝ, x.length = D → fn T c x = fn T c' x) : c = c' := by
  refine component_coeffs hO hb hD ho hn hc hc' (fun x hx => component_offset hT hpos hc hc' h hx) fun x hx s => ?_
  set u : List ℝ → ℝ → ℝ := fun c s => positive o.posFuncType (deriv (line b D ts c (coords x)) s) with hu
  have hsum : ∀ y, y ≠ 0 → (R.map fun p => p.2 * (u c (p.1 * y) - u c' (p.1 * y))).sum = 0 := by
    intro y hy
    obtain ⟨g, e⟩ := component_line hT hc hx hpos y
    obtain ⟨g', e'⟩ := component_line hT hc' hx hpos y
    have := h (x.set (D - 1) y) (by simp [hx])
    rw [e, e', hR, component_offset hT hpos hc hc' h hx] at this
    simp only [List.cons.injEq, and_true, add_right_inj, mul_eq_mul_left_iff, hy, or_false] at this
    simp only [mul_sub, list_sum_sub, this, hu, sub_self]
  have hone : ∀ σ : ℝ, σ = 1 ∨ σ = -1 → OneSided σ fun s => u c s - u c' s := fun σ hσ => by
    have hσ0 : σ ≠ 0 := by rcases hσ with rfl | rfl <;> norm_num
    exact (((line_oneSided hO hb hD ho c (coords x) hσ).deriv hσ0 (line_differentiable hO hb hD ho c _)).comp (analyticAt_positive _)).sub
      (((line_oneSided hO hb hD ho c' (coords x) hσ).deriv hσ0 (line_differentiable hO hb hD ho c' _)).comp (analyticAt_positive _))
  have hz : u c s - u c' s = 0 := by
    rcases le_total 0 s with h0 | h0
    · have := (hone 1 (.inl rfl)).rule hG (fun y hy => by simpa using hsum y hy.ne') s h0
      simpa using this
    · have := (hone (-1) (.inr rfl)).rule hG (fun y hy => by simpa using hsum (-y) (by simpa using hy.ne')) (-s) (by linarith)
      simpa using this
  exact (positive_injective _).2 (sub_eq_zero.1 hz)

/-- With any quadrature the values determine the derivatives where the last coordinate is 0. -/
theorem component_slope (hpos : 0 < D) (hT : IsComponent o b mesh D ts T) (hI : Interior mesh) (hW : WeightsOne mesh)
    {c c' : List ℝ} (hc : c.length = ts.length) (hc' : c'.length = ts.length)
    (h : ∀ x : List ℝ, x.length = D → fn T c x = fn T c' x) {x : List ℝ} (hx : x.length = D) :
    deriv (line b D ts c (coords x)) 0 = deriv (line b D ts c' (coords x)) 0 := by
  set u : List ℝ → ℝ → ℝ := fun c s => positive o.posFuncType (deriv (line b D ts c (coords x)) s) with hu
  have hlim : ∀ c, Tendsto (u c) (𝓝[≥] 0) (𝓝 (u c 0)) := fun c => by
    obtain ⟨A, hA, e⟩ := ((line_oneSided hO hb hD ho c (coords x) (.inl rfl)).deriv one_ne_zero (line_differentiable hO hb hD ho c _)).comp
      (analyticAt_positive o.posFuncType)
    simp only [one_mul] at e
    have h0 : u c 0 = A 0 := e.self_of_nhdsWithin Set.self_mem_Ici
    rw [h0]
    exact (hA.continuousAt.tendsto.mono_left nhdsWithin_le_nhds).congr' (e.mono fun s hs => hs.symm)
  have key : ∀ c c' : List ℝ, c.length = ts.length → c'.length = ts.length → (∀ x : List ℝ, x.length = D → fn T c x = fn T c' x) →
      ¬ u c 0 < u c' 0 := by
    intro c c' hc hc' h hlt
    obtain ⟨m, h1, h2⟩ := exists_between hlt
    obtain ⟨m', h3, h4⟩ := exists_between h2
    obtain ⟨ε, hε, hb⟩ := OneSided.bound (((hlim c).eventually_lt_const h1).and ((hlim c').eventually_const_lt h4))
    obtain ⟨g, e⟩ := component_line hT hc hx hpos (ε / 2)
    obtain ⟨g', e'⟩ := component_line hT hc' hx hpos (ε / 2)
    have := h (x.set (D - 1) (ε / 2)) (by simp [hx])
    rw [e, e', component_offset hT hpos hc hc' h hx] at this
    have hne : ε / 2 ≠ 0 := by positivity
    simp only [List.cons.injEq, and_true, add_right_inj, mul_eq_mul_left_iff, hne, or_false] at this
    have hin : ∀ g, ∀ p ∈ mesh g, 0 ≤ p.1 * (ε / 2) ∧ p.1 * (ε / 2) < ε := fun g p hp => by
      obtain ⟨a1, a2, -⟩ := (hI g).1 p hp
      exact ⟨by positivity, by nlinarith⟩
    have l1 : ((mesh g).map fun p => p.2 * u c (p.1 * (ε / 2))).sum ≤ m := by
      calc _ ≤ ((mesh g).map fun p => p.2 * m).sum := List.sum_le_sum fun p hp =>
            mul_le_mul_of_nonneg_left (hb _ (hin g p hp).1 (hin g p hp).2).1.le ((hI g).1 p hp).2.2
        _ = m := by rw [List.sum_map_mul_right, hW, one_mul]
    have l2 : m' ≤ ((mesh g').map fun p => p.2 * u c' (p.1 * (ε / 2))).sum := by
      calc m' = ((mesh g').map fun p => p.2 * m').sum := by rw [List.sum_map_mul_right, hW, one_mul]
        _ ≤ _ := List.sum_le_sum fun p hp =>
            mul_le_mul_of_nonneg_left (hb _ (hin g' p hp).1 (hin g' p hp).2).2.le ((hI g').1 p hp).2.2
    simp only [hu] at l1 l2
    linarith
  have : u c 0 = u c' 0 := le_antisymm (not_lt.1 (key c' c hc' hc fun x hx => (h x hx).symm)) (not_lt.1 (key c c' hc hc' h))
  exact (positive_injective _).2 this

theorem eff_extended {n : ℕ} (hn : orders n) : Extended o.basisLB o.basisUB (b.eff.val n) := by
  obtain ⟨a, -, -, -, hv⟩ := hb
  by_cases h0 : n = 0
  · subst h0; simpa [Basis.eff] using Extended.const 1
  · simp only [Basis.eff, h0, if_false, hv n hn]
    refine ⟨_, fun x => ?_, rfl⟩
    simp only [div_eq_mul_inv]
    exact (analyticAt_raw o.basisType n x).mul analyticAt_const

theorem line_extended (hpos : 0 < D) (c : List ℝ) (X : ℕ → ℝ) : Extended o.basisLB o.basisUB (line b D ts c X) := by
  rw [show line b D ts c X = fun s => ∑ k ∈ range ts.length, c.getD k 0 * ∏ d ∈ range D,
    b.eff.val ((ts.getD k []).getD d 0) (Function.update X (D - 1) s d) from rfl]
  refine Extended.sum _ fun k hk => Extended.const_mul _ ?_
  obtain ⟨E, rfl⟩ : ∃ E, D = E + 1 := ⟨D - 1, by omega⟩
  have hprod : ∀ s, ∏ d ∈ range (E + 1), b.eff.val ((ts.getD k []).getD d 0) (Function.update X (E + 1 - 1) s d)
      = (∏ d ∈ range E, b.eff.val ((ts.getD k []).getD d 0) (X d)) * b.eff.val ((ts.getD k []).getD E 0) s := fun s => by
    rw [prod_range_succ, Nat.add_sub_cancel, Function.update_self]
    congr 1
    exact prod_congr rfl fun d hd => by rw [Function.update_of_ne (by have := mem_range.1 hd; omega)]
  simp only [hprod]
  exact (eff_extended hO hb hD ho (order_mem hD ho (mem_range.1 hk) (by omega))).const_mul _

/-- With any quadrature the values determine the coefficients, if 0 is within the bounds. -/
theorem component_values (hn : ts.Nodup) (hpos : 0 < D) (hz : ZeroWithin o) (hI : Interior mesh) (hS : Settles mesh)
    (hT : IsComponent o b mesh D ts T) {c c' : List ℝ} (hc : c.length = ts.length) (hc' : c'.length = ts.length)
    (h : ∀ x : List ℝ, x.length = D → fn T c x = fn T c' x) : c = c' := by
  obtain ⟨R, hR⟩ := hS
  have hG : GoodRule R := by
    obtain ⟨y, hy⟩ := (hR (fun _ => 1) continuousAt_const one_pos).exists
    have := hI fun t => y * (fun _ => 1) (t * y)
    rwa [hy] at this
  refine expandAt_lists (basis_independent hO hb) hn hD ho hc hc' fun x hx => ?_
  set u : List ℝ → ℝ → ℝ := fun c s => positive o.posFuncType (deriv (line b D ts c (coords x)) s) with hu
  have hu1 : ∀ (c : List ℝ) (σ : ℝ), σ = 1 ∨ σ = -1 → OneSided σ (u c) := fun c σ hσ =>
    ((line_oneSided hO hb hD ho c (coords x) hσ).deriv (by rcases hσ with rfl | rfl <;> norm_num)
      (line_differentiable hO hb hD ho c _)).comp (analyticAt_positive _)
  have hmesh : ∀ c : List ℝ, c.length = ts.length → ∀ᶠ y in 𝓝[≠] (0 : ℝ), fn T c (x.set (D - 1) y)
      = [line b D ts c (coords x) 0 + y * (R.map fun p => p.2 * u c (p.1 * y)).sum] := fun c hc => by
    filter_upwards [hR (u c) (OneSided.continuousAt (hu1 c 1 (.inl rfl)) (hu1 c (-1) (.inr rfl))) ((positive_injective _).1 _)] with y hy
    rw [hT.value c _ ⟨hc.trans hT.coeffs.symm, by simp [hx, hT.inputs]⟩, coords_set (by omega), disc_line]
    have : unitDensity b.eff (positive o.posFuncType) 0 D ts c (Function.update (coords x) (D - 1) y) = fun t => y * u c (t * y) := by
      funext t
      simp only [unitDensity, density, Function.update_idem, Function.update_self, diagD_line, add_zero, hu]
    rw [this, hy]
  have hoff := component_offset hT hpos hc hc' h hx
  have hsum : ∀ᶠ y in 𝓝[≠] (0 : ℝ), (R.map fun p => p.2 * (u c (p.1 * y) - u c' (p.1 * y))).sum = 0 := by
    filter_upwards [hmesh c hc, hmesh c' hc', self_mem_nhdsWithin] with y h1 h2 hy
    have hy : y ≠ 0 := hy
    have := h (x.set (D - 1) y) (by simp [hx])
    rw [h1, h2, hoff] at this
    simp only [List.cons.injEq, and_true, add_right_inj, mul_eq_mul_left_iff, hy, or_false] at this
    simp only [mul_sub, list_sum_sub, this, sub_self]
  obtain ⟨δ, hδ, hball⟩ := Metric.eventually_nhds_iff.1 (eventually_nhdsWithin_iff.1 hsum)
  have hone : ∀ σ : ℝ, σ = 1 ∨ σ = -1 → ∀ᶠ s in 𝓝[≥] (0 : ℝ), u c (σ * s) - u c' (σ * s) = 0 := fun σ hσ => by
    refine ((hu1 c σ hσ).sub (hu1 c' σ hσ)).rule_near hG hδ fun y h1 h2 => ?_
    have habs : |σ * y| < δ := by
      rcases hσ with rfl | rfl <;> simpa [abs_of_pos h1] using h2
    have := hball (y := σ * y) (by simpa [Real.dist_eq] using habs) (by rcases hσ with rfl | rfl <;> simpa using h1.ne')
    simpa only [mul_left_comm] using this
  obtain ⟨e1, he1, k1⟩ := OneSided.bound (hone 1 (.inl rfl))
  obtain ⟨e2, he2, k2⟩ := OneSided.bound (hone (-1) (.inr rfl))
  set w : ℝ → ℝ := fun s => line b D ts c (coords x) s - line b D ts c' (coords x) s with hw
  have hd := line_differentiable hO hb hD ho c (coords x)
  have hd' := line_differentiable hO hb hD ho c' (coords x)
  have hw0 : ∀ s ∈ Set.Ioo (-e2) e1, deriv w s = 0 := fun s hs => by
    have : u c s = u c' s := by
      rcases le_total 0 s with hs0 | hs0
      · have := k1 s hs0 hs.2
        rwa [one_mul, sub_eq_zero] at this
      · have := k2 (-s) (by linarith) (by linarith [hs.1])
        rwa [neg_mul_neg, one_mul, sub_eq_zero] at this
    rw [hw, deriv_fun_sub (hd s) (hd' s), (positive_injective _).2 this, sub_self]
  have hnear : ∀ᶠ s in 𝓝 (0 : ℝ), w s = 0 := by
    filter_upwards [Ioo_mem_nhds (show -e2 < 0 by linarith) he1] with s hs
    have := isOpen_Ioo.is_const_of_deriv_eq_zero isPreconnected_Ioo ((hd.sub hd').differentiableOn (s := Set.Ioo (-e2) e1)) hw0 hs
      (show (0 : ℝ) ∈ Set.Ioo (-e2) e1 from ⟨by linarith, he1⟩)
    refine this.trans ?_
    exact sub_eq_zero.2 hoff
  have := ((line_extended hO hb hD ho hpos c (coords x)).sub (line_extended hO hb hD ho hpos c' (coords x))).zero hO hz.1 hz.2 hnear
    (coords x (D - 1))
  have := sub_eq_zero.1 this
  simpa only [line, Function.update_eq_self] using this

/-- What the values, and the values and log-determinants, of a component determine. -/
theorem component_identifiable (hn : ts.Nodup) (hpos : 0 < D) (hm : IsMeshOf o mesh) (hT : IsComponent o b mesh D ts T) :
    (o.quadType = .clenshawCurtis ∨ ZeroWithin o → ∀ c c' : List ℝ, c.length = ts.length → c'.length = ts.length →
      (∀ x : List ℝ, x.length = D → fn T c x = fn T c' x) → c = c') ∧
    (o.contDeriv = true → ∀ c c' : List ℝ, c.length = ts.length → c'.length = ts.length →
      (∀ x : List ℝ, x.length = D → fn T c x = fn T c' x) →
      (∀ x : List ℝ, x.length = D → coords x (D - 1) = 0 → logdet T c x = logdet T c' x) ∧
      ((∀ x : List ℝ, x.length = D → logdet T c x = logdet T c' x) → c = c')) := by
  refine ⟨?_, fun hcd c c' hc hc' h => ⟨fun x hx h0 => ?_, fun hl => ?_⟩⟩
  · rintro (hq | hz) c c' hc hc' h
    swap
    · exact component_values hO hb hD ho hn hpos hz hm.1.1 hm.1.2 hT hc hc' h
    obtain ⟨⟨hI, -⟩, hm⟩ := hm
    rw [hq] at hm
    obtain ⟨⟨R, hR, -⟩, -⟩ := hm
    have := hI fun _ => 0
    rw [hR] at this
    exact component_fixed hO hb hD ho hn hpos hT hR this hc hc' h
  · have hs := component_slope hO hb hD ho hpos hT hm.1.1 hm.weights hc hc' h hx
    rw [← diagD_line, ← diagD_line, ← h0, Function.update_eq_self] at hs
    rw [hT.logDet hcd c x ⟨hc.trans hT.coeffs.symm, hx.trans hT.inputs.symm⟩,
      hT.logDet hcd c' x ⟨hc'.trans hT.coeffs.symm, hx.trans hT.inputs.symm⟩, hs]
  · refine component_coeffs hO hb hD ho hn hc hc' (fun x hx => component_offset hT hpos hc hc' h hx) fun x hx s => ?_
    have hx' : (x.set (D - 1) s).length = D := by simp [hx]
    have := hl _ hx'
    rw [hT.logDet hcd c _ ⟨hc.trans hT.coeffs.symm, hx'.trans hT.inputs.symm⟩,
      hT.logDet hcd c' _ ⟨hc'.trans hT.coeffs.symm, hx'.trans hT.inputs.symm⟩, coords_set (by omega), diagD_line, diagD_line] at this
    obtain ⟨p1, p2⟩ := positive_injective o.posFuncType
    exact p2 (Real.log_injOn_pos (p1 _) (p1 _) this)

end

/-- **C105, components.** For good options and every compressed set, different coefficients of the component
`CreateComponent` returns give different values, if the quadrature is the fixed one or 0 is within the bounds of the basis, and, with the continuous derivative, different
values or log-determinants, whatever the quadrature. -/
theorem C105_component_partial {f : FixedSet} (hb : FixedSet.Built f) (hcomp : f.isCompressed = true) (hD : 0 < f.dim) {ts : List (List Nat)}
    (hts : FixedSet.Holds f ts) {o : MapOptions} {N : Nat} (hN : ∀ t ∈ ts, ∀ n ∈ t, n ≤ N) (hB : GoodBasis o N) (hQ : GoodQuad o)
    (mem : Nat → Option ℝ) (work : List ℝ) :
    ∃ T, createComponent f o mem work = .ok (T, zeros ts.length) ∧ T.numCoeffs = ts.length ∧
      (o.quadType = .clenshawCurtis ∨ ZeroWithin o → Identifiable T) ∧ (o.contDeriv = true → IdentifiableWithLogDet T) := by
  obtain ⟨b, mesh, h1, h2, h3⟩ := C62_component_partial hb hcomp hD hts hN hB hQ
  obtain ⟨T, h4, h5, -⟩ := h3 mem work
  obtain ⟨k1, k2⟩ := component_identifiable hB.bounds h1 (Worker.built_csr hb hcomp hts).2 (fun t ht n hn => ⟨t, ht, hn⟩) (built_nodup hb hcomp hts) hD h2 h5
  refine ⟨T, h4, h5.coeffs, fun hq c c' hc hc' h => ?_, fun hd c c' hc hc' h hl => ?_⟩ <;> rw [h5.coeffs] at hc hc'
  · exact k1 hq c c' hc hc' fun x hx => fn_of_same h (hx.trans h5.inputs.symm)
  · exact (k2 hd c c' hc hc' fun x hx => fn_of_same h (hx.trans h5.inputs.symm)).2 fun x hx => logdet_of_same hl (hx.trans h5.inputs.symm)

/-! ### Maps one below the other -/

theorem take_extend {n N : ℕ} {x : List ℝ} (hx : x.length = n) : (x ++ zeros (N - n)).take n = x := by
  rw [List.take_append_of_le_length hx.ge, List.take_of_length_le hx.le]

theorem length_extend {n N : ℕ} (h : n ≤ N) {x : List ℝ} (hx : x.length = n) : (x ++ zeros (N - n)).length = N := by
  simp [zeros, hx]; omega

/-- The coefficients of each map and those of the others. -/
theorem split_lengths {m : CMap} {ms : List CMap} {c : List ℝ} (hc : c.length = ((m :: ms).map CMap.numCoeffs).sum) :
    (c.take m.numCoeffs).length = m.numCoeffs ∧ (c.drop m.numCoeffs).length = (ms.map CMap.numCoeffs).sum := by
  rw [List.map_cons, List.sum_cons] at hc
  simp [hc]

theorem stacked_split {N : ℕ} {m : CMap} {ms : List CMap} (hE : Evaluates m) (hin : m.inputDim ≤ N) {c c' : List ℝ}
    (hc : c.length = ((m :: ms).map CMap.numCoeffs).sum) (hc' : c'.length = ((m :: ms).map CMap.numCoeffs).sum)
    (h : ∀ x : List ℝ, x.length = N → stacked (m :: ms) c x = stacked (m :: ms) c' x) :
    (∀ x : List ℝ, x.length = m.inputDim → fn m (c.take m.numCoeffs) x = fn m (c'.take m.numCoeffs) x) ∧
    ∀ x : List ℝ, x.length = N → stacked ms (c.drop m.numCoeffs) x = stacked ms (c'.drop m.numCoeffs) x := by
  have key : ∀ x : List ℝ, x.length = N → _ := fun x hx => List.append_inj (h x hx) (by
    have hx' : (x.take m.inputDim).length = m.inputDim := by simp; omega
    rw [(hE _ _ ⟨(split_lengths hc).1, hx'⟩).1, (hE _ _ ⟨(split_lengths hc').1, hx'⟩).1])
  refine ⟨fun x hx => ?_, fun x hx => (key x hx).2⟩
  have := (key _ (length_extend hin hx)).1
  rwa [take_extend hx] at this

/-- Maps one below the other determine their coefficients if each of them does. -/
theorem stacked_identifiable {N : ℕ} : ∀ (ms : List CMap), (∀ m ∈ ms, Evaluates m ∧ m.inputDim ≤ N ∧
      ∀ c c' : List ℝ, c.length = m.numCoeffs → c'.length = m.numCoeffs →
        (∀ x : List ℝ, x.length = m.inputDim → fn m c x = fn m c' x) → c = c') →
    ∀ c c' : List ℝ, c.length = (ms.map CMap.numCoeffs).sum → c'.length = (ms.map CMap.numCoeffs).sum →
      (∀ x : List ℝ, x.length = N → stacked ms c x = stacked ms c' x) → c = c' := by
  intro ms
  induction ms with
  | nil =>
    intro _ c c' hc hc' _
    have e1 : c = [] := List.length_eq_zero_iff.1 (by simpa using hc)
    have e2 : c' = [] := List.length_eq_zero_iff.1 (by simpa using hc')
    rw [e1, e2]
  | cons m ms ih =>
    intro hm c c' hc hc' h
    obtain ⟨hE, hin, hid⟩ := hm m (by simp)
    obtain ⟨h1, h2⟩ := stacked_split hE hin hc hc' h
    rw [← List.take_append_drop m.numCoeffs c, ← List.take_append_drop m.numCoeffs c',
      hid _ _ (split_lengths hc).1 (split_lengths hc').1 h1,
      ih (fun m hm' => hm m (by simp [hm'])) _ _ (split_lengths hc).2 (split_lengths hc').2 h2]

/-- What `component_identifiable` says of a component of `D` inputs with the continuous derivative. -/
def LogDetKnown (D : ℕ) (m : CMap) : Prop := Evaluates m ∧ m.inputDim = D ∧
  ∀ c c' : List ℝ, c.length = m.numCoeffs → c'.length = m.numCoeffs → (∀ x : List ℝ, x.length = D → fn m c x = fn m c' x) →
    (∀ x : List ℝ, x.length = D → coords x (D - 1) = 0 → logdet m c x = logdet m c' x) ∧
    ((∀ x : List ℝ, x.length = D → logdet m c x = logdet m c' x) → c = c')

/-- At points which are 0 from coordinate `e` on, the log-determinants of components with more than `e` inputs agree. -/
theorem stackedLogDet_zero {N e : ℕ} {x : List ℝ} (hx : x.length = N) (hz : ∀ d, e ≤ d → coords x d = 0) : ∀ (ms : List CMap) (k : ℕ), e ≤ k →
    (∀ i m, ms[i]? = some m → LogDetKnown (k + i + 1) m) → k + ms.length ≤ N →
    ∀ c c' : List ℝ, c.length = (ms.map CMap.numCoeffs).sum → c'.length = (ms.map CMap.numCoeffs).sum →
      (∀ x : List ℝ, x.length = N → stacked ms c x = stacked ms c' x) → stackedLogDet ms c x = stackedLogDet ms c' x := by
  intro ms
  induction ms with
  | nil => intros; rfl
  | cons m ms ih =>
    intro k hk hm hN c c' hc hc' h
    rw [List.length_cons] at hN
    obtain ⟨hE, hin, hld⟩ := hm 0 m rfl
    obtain ⟨h1, h2⟩ := stacked_split hE (by omega) hc hc' h
    rw [hin] at h1
    rw [stackedLogDet, stackedLogDet, ih (k + 1) (by omega) (fun i m' hi => by
        have := hm (i + 1) m' hi
        rwa [show k + (i + 1) + 1 = k + 1 + i + 1 by omega] at this) (by omega) _ _ (split_lengths hc).2 (split_lengths hc').2 h2,
      (hld _ _ (split_lengths hc).1 (split_lengths hc').1 h1).1 _ (by simp; omega) ?_]
    have : coords (x.take m.inputDim) (k + 0 + 1 - 1) = coords x k := by
      simp [coords, List.getD_eq_getElem?_getD, List.getElem?_take, hin]
    rw [this, hz k hk]

theorem stackedLogDet_identifiable {N : ℕ} : ∀ (ms : List CMap) (k : ℕ),
    (∀ i m, ms[i]? = some m → LogDetKnown (k + i + 1) m) → k + ms.length ≤ N →
    ∀ c c' : List ℝ, c.length = (ms.map CMap.numCoeffs).sum → c'.length = (ms.map CMap.numCoeffs).sum →
      (∀ x : List ℝ, x.length = N → stacked ms c x = stacked ms c' x) →
      (∀ x : List ℝ, x.length = N → stackedLogDet ms c x = stackedLogDet ms c' x) → c = c' := by
  intro ms
  induction ms with
  | nil =>
    intro _ _ _ c c' hc hc' _ _
    have e1 : c = [] := List.length_eq_zero_iff.1 (by simpa using hc)
    have e2 : c' = [] := List.length_eq_zero_iff.1 (by simpa using hc')
    rw [e1, e2]
  | cons m ms ih =>
    intro k hm hN c c' hc hc' h hl
    rw [List.length_cons] at hN
    obtain ⟨hE, hin, hld⟩ := hm 0 m rfl
    obtain ⟨h1, h2⟩ := stacked_split hE (by omega) hc hc' h
    rw [hin] at h1
    have hm' : ∀ i m', ms[i]? = some m' → LogDetKnown (k + 1 + i + 1) m' := fun i m' hi => by
      have := hm (i + 1) m' hi
      rwa [show k + (i + 1) + 1 = k + 1 + i + 1 by omega] at this
    have e1 : c.take m.numCoeffs = c'.take m.numCoeffs := by
      refine (hld _ _ (split_lengths hc).1 (split_lengths hc').1 h1).2 fun x hx => ?_
      have hx' : (x ++ zeros (N - (k + 0 + 1))).length = N := length_extend (by omega) hx
      have := hl _ hx'
      rw [stackedLogDet, stackedLogDet, hin, take_extend hx, stackedLogDet_zero hx' (e := k + 1) (fun d hd => ?_) ms (k + 1) le_rfl hm' (by omega)
        _ _ (split_lengths hc).2 (split_lengths hc').2 h2] at this
      · exact add_right_cancel this
      · simp only [coords, List.getD_eq_getElem?_getD, zeros]
        rw [List.getElem?_append_right (by omega), List.getElem?_replicate]
        split <;> rfl
    have e2 := ih (k + 1) hm' (by omega) _ _ (split_lengths hc).2 (split_lengths hc').2 h2 fun x hx => by
      have := hl x hx
      rw [stackedLogDet, stackedLogDet, e1] at this
      exact add_left_cancel this
    rw [← List.take_append_drop m.numCoeffs c, ← List.take_append_drop m.numCoeffs c', e1, e2]

/-- **C105, triangular maps.** For good options different coefficients of the map `CreateTriangular` returns give different values, if the
quadrature is the fixed one or 0 is within the bounds of the basis, and, with the continuous derivative, different values or log-determinants, whatever the quadrature. -/
theorem C105_triangular_partial {o : MapOptions} {inputDim outputDim p : Nat} (h0 : 0 < outputDim) (h1 : outputDim ≤ inputDim)
    (h2 : inputDim < 2 ^ 32) (hB : GoodBasis o p) (hQ : GoodQuad o) (mem : Nat → Option ℝ) (work : List ℝ) :
    ∃ T, createTriangular inputDim outputDim p o mem work = .ok (T, zeros T.numCoeffs) ∧
      T.numCoeffs = ∑ i ∈ range outputDim, (inputDim - outputDim + i + 1 + p).choose p ∧
      (o.quadType = .clenshawCurtis ∨ ZeroWithin o → Identifiable T) ∧ (o.contDeriv = true → IdentifiableWithLogDet T) := by
  obtain ⟨b, mesh, hb, hm, h⟩ := C63_triangular_partial h0 h1 h2 hB hQ
  obtain ⟨T, comps, t1, t2, t3, t4, hn, t5, t6, t7, t8, t9, -⟩ := h mem work
  have key : ∀ i m, comps[i]? = some m → ∃ ts, IsComponent o b mesh (inputDim - outputDim + i + 1) ts m ∧ _ := fun i m hi => by
    obtain ⟨ts, ⟨a1, a2⟩, a3⟩ := t6 i m hi
    exact ⟨ts, a3, component_identifiable hB.bounds hb (fun t ht => ((a2 t).1 ht).1) (fun t ht n hn => (List.single_le_sum (by simp) n hn).trans
      ((a2 t).1 ht).2) (a1.imp fun h => ne_of_lt h) (by omega) hm a3⟩
  refine ⟨T, t1, t4, fun hq c c' hc hc' hs => ?_, fun hd c c' hc hc' hs hl => ?_⟩
  · refine stacked_identifiable (N := inputDim) comps (fun m hm => ?_) c c' (hc.trans hn) (hc'.trans hn) fun x hx => ?_
    · obtain ⟨i, hi⟩ := List.mem_iff_getElem?.1 hm
      obtain ⟨hlt, -⟩ := List.getElem?_eq_some_iff.1 hi
      obtain ⟨ts, k1, k2, -⟩ := key i m hi
      refine ⟨k1.evaluates, by rw [k1.inputs]; omega, ?_⟩
      rw [k1.coeffs, k1.inputs]
      exact k2 hq
    · have hx' := hx.trans t2.symm
      rw [← t8 c x ⟨hc, hx'⟩, ← t8 c' x ⟨hc', hx'⟩, fn_of_same hs hx']
  · refine stackedLogDet_identifiable (N := inputDim) comps (inputDim - outputDim) (fun i m hi => ?_) (by omega) c c' (hc.trans hn) (hc'.trans hn)
      (fun x hx => ?_) fun x hx => ?_
    · obtain ⟨ts, k1, -, k2⟩ := key i m hi
      refine ⟨k1.evaluates, k1.inputs, ?_⟩
      rw [k1.coeffs]
      exact k2 hd
    · have hx' := hx.trans t2.symm
      rw [← t8 c x ⟨hc, hx'⟩, ← t8 c' x ⟨hc', hx'⟩, fn_of_same hs hx']
    · have hx' := hx.trans t2.symm
      rw [← (t9 hd).2 c x ⟨hc, hx'⟩, ← (t9 hd).2 c' x ⟨hc', hx'⟩, logdet_of_same hl hx']

/-- Non-vacuity: a map of three inputs and two outputs of order four with the Clenshaw-Curtis rule of five points, bounded Hermite functions
and exponentials. Some point tells the initial coefficients from all ones. -/
example (mem : Nat → Option ℝ) (work : List ℝ) : ∃ T x out, createTriangular 3 2 4
      { quadType := .clenshawCurtis, quadPts := 5, basisType := .hermiteFunctions, basisLB := some (-3), basisUB := some 3, posFuncType := .exp }
      mem work = .ok (T, zeros T.numCoeffs) ∧ T.numCoeffs = 50 ∧ T.eval (zeros 50) x out ≠ T.eval (List.replicate 50 1) x out := by
  obtain ⟨T, h1, h2, h3, -⟩ := C105_triangular_partial (inputDim := 3) (outputDim := 2) (p := 4)
    (o := { quadType := .clenshawCurtis, quadPts := 5, basisType := .hermiteFunctions, basisLB := some (-3), basisUB := some 3, posFuncType := .exp })
    (by decide) (by decide) (by decide)
    ⟨fun l hl u hu => by cases hl; cases hu; norm_num, fun _ h => absurd rfl h, fun _ _ => by decide, fun h => absurd rfl h⟩
    ⟨fun _ => by decide, by simp, by simp⟩ mem work
  have hn : T.numCoeffs = 50 := by rw [h2]; decide
  by_contra hne
  push Not at hne
  have := h3 (.inl rfl) (zeros 50) (List.replicate 50 1) (by simp [zeros, hn]) (by simp [hn]) fun x out _ _ => hne T x out h1 hn
  simp [zeros] at this

/-- Non-vacuity: with the default options, of which the quadrature is adaptive, the values are enough. -/
example (mem : Nat → Option ℝ) (work : List ℝ) : ∃ T, createTriangular 4 4 3 {} mem work = .ok (T, zeros T.numCoeffs) ∧
    T.numCoeffs = 69 ∧ Identifiable T ∧ IdentifiableWithLogDet T := by
  obtain ⟨T, h1, h2, h3, h4⟩ := C105_triangular_partial (inputDim := 4) (outputDim := 4) (p := 3) (o := {}) (by decide) (by decide) (by decide)
    (good_default 3 (by decide)).1 (good_default 3 (by decide)).2 mem work
  exact ⟨T, h1, by rw [h2]; decide, h3 (.inr ⟨by simp, by simp⟩), h4 rfl⟩

end MParT
