import Verif.Props.Units
import Mathlib.Analysis.SpecialFunctions.Sigmoid
/-!
# C126: with softplus training depends on the units of the data
-/
namespace MParT
open Filter Topology Spec MapFactory

/-- The slope of a quadratic with the given coefficients. -/
theorem slope_quadratic {b : Basis ℝ} {o : MapOptions} (hl : o.basisLB = none) (hu : o.basisUB = none) (ht : o.basisType = .probabilistHermite)
    (hN : o.basisNorm = false) (hb : IsBasisOf o (fun n => n ≤ 2) b) (p q r : ℝ) (y : Nat → ℝ) :
    diagD b.eff 1 [[0], [1], [2]] [p, q, r] y = q + 2 * r * y 0 := by
  obtain ⟨a, -, -, h1, h2⟩ := hb
  have hv : ∀ y, b.eff.val 2 y = y ^ 2 - 1 := fun y => by
    simp only [Basis.eff, h2 2 le_rfl, hl, hu, extend_none, ht, rawFamily, h1 (.inl hN)]
    rw [Hermite.He_rec, Hermite.He_one, Hermite.He_zero]
    norm_num
    ring
  have hv1 : ∀ y, b.eff.val 1 y = y := fun y => by
    simp only [Basis.eff, h2 1 (by norm_num), hl, hu, extend_none, ht, rawFamily, h1 (.inl hN)]
    rw [Hermite.He_one]
    norm_num
  have hv0 : ∀ y, b.eff.val 0 y = 1 := fun y => by
    simp only [Basis.eff, h2 0 (by norm_num), hl, hu, extend_none, ht, rawFamily, h1 (.inl hN)]
    rw [Hermite.He_zero]
    norm_num
  have he : ∀ y, expandAt b.eff 1 [[0], [1], [2]] [p, q, r] y = p + q * y 0 + r * (y 0 ^ 2 - 1) := fun y => by
    simp [expandAt, expansion, termProd, Finset.sum_range_succ, hv, hv1, hv0]
  have hfun : (fun s => expandAt b.eff 1 [[0], [1], [2]] [p, q, r] (Function.update y (1 - 1) s)) = fun s => p + q * s + r * (s ^ 2 - 1) := by
    funext s; rw [he]; simp
  have hD : HasDerivAt (fun s : ℝ => p + q * s + r * (s ^ 2 - 1)) (q + 2 * r * y 0) (y 0) :=
    ((((hasDerivAt_id (y 0)).const_mul q).const_add p).add (((hasDerivAt_pow 2 (y 0)).sub_const 1).const_mul r)).congr_deriv (by norm_num; ring)
  rw [diagD, partialDeriv, hfun]
  exact hD.deriv

/-- No softplus of an affine function is half the softplus of another one that is not constant. -/
theorem softplus_not_scaled {α β : ℝ} (h : ∀ x : ℝ, Real.log (1 + Real.exp (α + β * x)) = 1 / 2 * Real.log (1 + Real.exp x)) : False := by
  have hd : ∀ a c x : ℝ, HasDerivAt (fun x : ℝ => Real.log (1 + Real.exp (a + c * x))) (c * Real.sigmoid (a + c * x)) x := fun a c x => by
    have h1 : HasDerivAt (fun x : ℝ => a + c * x) c x := by simpa using ((hasDerivAt_id x).const_mul c).const_add a
    refine ((h1.exp.const_add 1).log (by positivity)).congr_deriv ?_
    rw [Real.sigmoid_def, Real.exp_neg]
    have := Real.exp_pos (a + c * x)
    field_simp
    ring
  have e : ∀ x, β * Real.sigmoid (α + β * x) = 1 / 2 * Real.sigmoid x := fun x => by
    have h1 := hd α β x
    have h2 := (hd 0 1 x).const_mul (1 / 2)
    simp only [one_mul, zero_add] at h2
    rw [funext h] at h1
    exact h1.unique h2
  have hβ : 0 < β := by
    have := e 0
    have h1 := Real.sigmoid_pos 0
    have h2 := Real.sigmoid_pos (α + β * 0)
    by_contra hn
    nlinarith
  have t1 : Tendsto (fun x => β * Real.sigmoid (α + β * x)) atTop (𝓝 (β * 1)) :=
    (Real.tendsto_sigmoid_atTop.comp (tendsto_atTop_add_const_left _ _ (tendsto_id.const_mul_atTop hβ))).const_mul β
  have t2 : Tendsto (fun x => 1 / 2 * Real.sigmoid x) atTop (𝓝 (1 / 2 * 1)) := Real.tendsto_sigmoid_atTop.const_mul _
  rw [funext e] at t1
  have hb : β = 1 / 2 := by simpa using tendsto_nhds_unique t1 t2
  subst hb
  have e' : ∀ x, α + 1 / 2 * x = x := fun x => Real.sigmoid_injective (by have := e x; linarith)
  have := e' 0
  have := e' 1
  linarith

/-- Second-order one-dimensional maps whose slopes are made positive by softplus, unnormalised Hermite polynomials and five Clenshaw–Curtis points. -/
def softOptions : MapOptions := { basisNorm := false, quadType := .clenshawCurtis, quadPts := 5, posFuncType := .softPlus }

/-- **C126** fails with softplus, the default: for some coefficients, after doubling the numbers the inputs are expressed in, no coefficients give the map the same outputs and
the log-determinant that goes with them. -/
theorem C126_fails_softplus (mem : ℕ → Option ℝ) (work : List ℝ) : ∃ T w c, createTriangular 1 1 2 softOptions mem work = .ok (T, w) ∧ c.length = T.numCoeffs ∧
    ∀ c' : List ℝ, c'.length = T.numCoeffs → ∃ x : ℝ, logdet T c' [2 * x] ≠ logdet T c [x] - Real.log 2 := by
  have hB : GoodBasis softOptions 2 := ⟨fun l hl => by simp [softOptions] at hl, fun h => by simp [Bounded, softOptions] at h, fun h => by simp [Bounded, softOptions] at h,
    fun _ h => by simp [softOptions] at h⟩
  obtain ⟨b, mesh, ts, hb, -, hts, h⟩ := triangular_splits (k := 0) (n := 1) (p := 2) (o := softOptions) one_pos (by norm_num) hB
    ⟨by simp [softOptions], by simp [softOptions], by simp [softOptions]⟩ rfl
  obtain ⟨T, split, t1, hS⟩ := h mem work
  have hts0 : ∀ i, ts i = [[0], [1], [2]] := fun i => by
    obtain rfl : i = 0 := Subsingleton.elim _ _
    refine totalOrder_unique (hts 0) ⟨by decide, fun v => ?_⟩
    constructor
    · intro hv
      fin_cases hv <;> simp
    · rintro ⟨h1, h2⟩
      obtain ⟨a, rfl⟩ := List.length_eq_one_iff.1 h1
      simp at h2
      interval_cases a <;> simp
  have hnc : T.numCoeffs = 3 := by
    have := slices_length (hS.slices (zeros T.numCoeffs) (by simp [zeros]))
    simpa [zeros, hts0] using this
  have hld : ∀ p q r x : ℝ, logdet T [p, q, r] [x] = Real.log (Real.log (1 + Real.exp (q + 2 * r * x))) := fun p q r x => by
    have hsp : split [p, q, r] 0 = [p, q, r] := by simpa using (hS.slices [p, q, r] (by rw [hnc]; rfl)).1
    rw [hS.logDet _ _ (by rw [hnc]; rfl) rfl]
    simp only [Finset.univ_unique, Finset.sum_singleton, Fin.default_eq_zero, compSlope, hts0, hsp]
    have := slope_quadratic (o := softOptions) rfl rfl rfl rfl hb p q r (coords [x])
    simp only [Fin.val_zero, Nat.zero_add]
    rw [this]
    rfl
  refine ⟨T, _, [0, 0, 1 / 2], t1, by rw [hnc]; rfl, fun c' hc' => ?_⟩
  rw [hnc] at hc'
  obtain ⟨p, q, r, rfl⟩ := List.length_eq_three.1 hc'
  by_contra hn
  push Not at hn
  refine softplus_not_scaled (α := q) (β := 4 * r) fun x => ?_
  have e := hn x
  have hpos : ∀ y : ℝ, 0 < Real.log (1 + Real.exp y) := fun y => Real.log_pos (by have := Real.exp_pos y; linarith)
  rw [hld, hld, ← Real.log_div (hpos _).ne' two_ne_zero] at e
  have e2 := Real.log_injOn_pos (Set.mem_Ioi.2 (hpos _)) (Set.mem_Ioi.2 (div_pos (hpos _) two_pos)) e
  rw [show q + 4 * r * x = q + 2 * r * (2 * x) by ring, e2, show (0 : ℝ) + 2 * (1 / 2) * x = x by ring]
  ring

end MParT
