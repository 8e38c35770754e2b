import Verif.Props.Densities
/-!
# C54: the training objective
-/
namespace MParT
open Spec

variable {m : CMap} {d : Density}

namespace KL

theorem columns_ok {α : Type} {f : List ℝ → Res α} {g : List ℝ → α} {data : List (List ℝ)} (h : ∀ x ∈ data, f x = .ok (g x)) :
    columns f data = .ok (data.map g) := by
  induction data with
  | nil => rfl
  | cons x xs ih =>
    rw [columns, h x (by simp), Res.bind_ok, ih fun y hy => h y (by simp [hy]), Res.bind_ok]
    rfl

theorem sumNegative_eq (l : List ℝ) : sumNegative (l.map some) = some (-l.sum) := by
  have : ∀ (l : List ℝ) (a : ℝ), (l.map some).foldl subLD (some a) = some (a - l.sum) := by
    intro l
    induction l with
    | nil => intro a; simp
    | cons x xs ih =>
      intro a
      simp only [List.map_cons, List.foldl_cons, List.sum_cons]
      rw [show subLD (some a) (some x) = some (a - x) from rfl, ih]
      congr 1; ring
  rw [sumNegative, this, zero_sub]

theorem average_eq {s : ℝ} {n : Nat} (hn : n ≠ 0) : average (some s) n = some (s / n) := by
  rw [average, if_neg hn]; rfl

end KL

/-- The gradient of one sample. -/
theorem sample_gradient {c x : List ℝ} (hdim : m.outputDim = d.dim) (hE : Evaluates m) (hL : HasLogDet m)
    (hJ : LogDetIsJacobian m) (hDm : Differentiates m) (hDL : DifferentiatesLogDet m) (hD : DifferentiatesDensity d)
    (hf : Fits m c x) (hn : m.numCoeffs ≠ 0) :
    Pullback.logDensityCoeffGrad m d c x = .ok (value [] (Pullback.logDensityCoeffGrad m d c x)) ∧
      (value [] (Pullback.logDensityCoeffGrad m d c x)).length = m.numCoeffs ∧
      ∀ γ vc t₀, Path m.numCoeffs γ vc t₀ → γ t₀ = c →
        HasDerivAt (fun t => pulledBack m d (γ t) x) (dot (value [] (Pullback.logDensityCoeffGrad m d c x)) vc) t₀ := by
  obtain ⟨gc, gx, -, h2, h3⟩ := C52_pullback_gradient hdim hE hL hJ hDm hDL hD hf
  have h := (h2 hn).1
  rw [h]
  refine ⟨rfl, h3.1, fun γ vc t₀ hγ hc => ?_⟩
  have hpx := path_const x t₀
  rw [hf.2] at hpx
  refine (h3.2.2 γ (fun _ => x) vc _ t₀ hγ hpx hc rfl).congr_deriv ?_
  change dot gc vc + dot gx (zeros m.inputDim) = dot gc vc
  rw [dot_comm' h3.2.1 (by simp), dot_zeros, add_zero]

theorem list_sum_deriv {F : List ℝ → ℝ → ℝ} {F' : List ℝ → ℝ} {t₀ : ℝ} {data : List (List ℝ)}
    (h : ∀ x ∈ data, HasDerivAt (F x) (F' x) t₀) :
    HasDerivAt (fun t => (data.map fun x => F x t).sum) (data.map F').sum t₀ := by
  induction data with
  | nil => simpa using hasDerivAt_const t₀ (0 : ℝ)
  | cons x xs ih =>
    simp only [List.map_cons, List.sum_cons]
    exact (h x (by simp)).fun_add (ih fun y hy => h y (by simp [hy]))

/-- The vector the reduction returns, paired with a direction. -/
theorem reduced_dot {n : Nat} {data : List (List ℝ)} {G : List ℝ → List ℝ} (hG : ∀ x ∈ data, (G x).length = n) (a : ℝ)
    {v : List ℝ} (hv : v.length = n) :
    dot ((List.range n).map fun i => a * ((List.range data.length).map fun j => ((data.map G).getD j []).getD i 0).sum) v
      = a * (data.map fun x => dot (G x) v).sum := by
  have e : ∀ i, ((List.range data.length).map fun j => ((data.map G).getD j []).getD i 0).sum
      = (data.map fun x => (G x).getD i 0).sum := by
    intro i
    congr 1
    refine List.ext_getElem (by simp) fun j h1 h2 => ?_
    have hj : j < data.length := by simpa using h2
    simp [List.getD_eq_getElem?_getD, hj]
  simp only [e]
  rw [dot_eq_sum (by simp) hv]
  have e2 : ∀ i ∈ Finset.range n, ((List.range n).map fun i => a * (data.map fun x => (G x).getD i 0).sum).getD i 0 * v.getD i 0
      = a * ((data.map fun x => (G x).getD i 0).sum * v.getD i 0) := by
    intro i hi
    have hi := Finset.mem_range.mp hi
    have : ((List.range n).map fun i => a * (data.map fun x => (G x).getD i 0).sum).getD i 0
        = a * (data.map fun x => (G x).getD i 0).sum := by
      simp [List.getD_eq_getElem?_getD, hi]
    rw [this]; ring
  rw [Finset.sum_congr rfl e2, ← Finset.mul_sum]
  congr 1
  clear e e2
  induction data with
  | nil => simp
  | cons x xs ih =>
    simp only [List.map_cons, List.sum_cons, add_mul, Finset.sum_add_distrib]
    rw [ih fun y hy => hG y (by simp [hy]), dot_eq_sum (hG x (by simp)) hv]

/-- C54: for every non-empty data set the objective is minus the average of the pulled back log-density over the samples. -/
theorem C54_value {c : List ℝ} {data : List (List ℝ)} (hdim : m.outputDim = d.dim) (hE : Evaluates m) (hL : HasLogDet m)
    (hJ : LogDetIsJacobian m) (hD : HasDensity d) (hc : c.length = m.numCoeffs) (hx : ∀ x ∈ data, x.length = m.inputDim)
    (hne : data ≠ []) :
    KL.objective m d c data = .ok (some (klObjective m d data c)) := by
  obtain ⟨p, hp⟩ := ((C52_dimensions (m := m) (d := d) c).1).2 hdim
  have hcol : KL.columns (fun x => p.logDensity x (some 0)) data = .ok (data.map fun x => some (pulledBack m d c x)) :=
    KL.columns_ok fun x h => C52_pullback hp hE hL hJ hD ⟨hc, hx x h⟩ _
  rw [KL.objective, hp, Res.bind_ok, hcol, Res.bind_ok]
  have : (data.map fun x => some (pulledBack m d c x)) = (data.map (pulledBack m d c)).map some := by simp
  rw [this, KL.sumNegative_eq, KL.average_eq (by simpa using hne), klObjective, neg_div]

theorem coeffGrad_core {c : List ℝ} {data : List (List ℝ)} (hdim : m.outputDim = d.dim) (hE : Evaluates m) (hL : HasLogDet m)
    (hJ : LogDetIsJacobian m) (hDm : Differentiates m) (hDL : DifferentiatesLogDet m) (hDd : DifferentiatesDensity d)
    (hc : c.length = m.numCoeffs) (hx : ∀ x ∈ data, x.length = m.inputDim) (hn : m.numCoeffs ≠ 0) :
    ∃ g : List ℝ, IsGradient m.numCoeffs 0 (fun c _ => klObjective m d data c) c [] g [] ∧
      KL.columns (Pullback.logDensityCoeffGrad m d c) data
        = .ok (data.map fun x => value [] (Pullback.logDensityCoeffGrad m d c x)) ∧
      ∀ split : Parallel.Split, split.indices.Perm (List.range data.length) →
      Parallel.reduce .sum true m.numCoeffs (fun i j => ((data.map fun x =>
        value [] (Pullback.logDensityCoeffGrad m d c x)).getD j []).getD i 0) (-1 / data.length) split = g := by
  have hs := fun x (h : x ∈ data) => sample_gradient hdim hE hL hJ hDm hDL hDd ⟨hc, hx x h⟩ hn
  refine ⟨_, ?_, KL.columns_ok fun x h => (hs x h).1, fun split hsp => Parallel.C51_reduce _ _ _ _ _ _ _ hsp⟩
  simp only [if_true]
  refine ⟨by simp, rfl, fun γ δ vc vx t₀ hγ hδ hγc _ => ?_⟩
  rw [reduced_dot (fun x h => (hs x h).2.1) _ hγ.2.1]
  have := (list_sum_deriv fun x h => (hs x h).2.2 γ vc t₀ hγ hγc).div_const (data.length : ℝ)
  refine this.neg.congr_deriv ?_
  change _ = _ + 0
  rw [add_zero, neg_div, neg_mul, one_div, div_eq_inv_mul]

/-- C54: `ObjectivePlusCoeffGrad`, `CoeffGrad` and `TrainCoeffGrad` agree with each other and with `Objective`: the value is that
of `Objective` and the gradient is the exact gradient of that value with respect to the coefficients of the map, for every way
the reductions are scheduled; `mem` is the memory of a contiguous gradient that starts at `off`. -/
theorem C54_gradient_partial {c : List ℝ} {data : List (List ℝ)} (hdim : m.outputDim = d.dim) (hE : Evaluates m)
    (hL : HasLogDet m) (hJ : LogDetIsJacobian m) (hDm : Differentiates m) (hDL : DifferentiatesLogDet m) (hD : HasDensity d)
    (hDd : DifferentiatesDensity d) (hc : c.length = m.numCoeffs) (hx : ∀ x ∈ data, x.length = m.inputDim) (hne : data ≠ [])
    (hn : m.numCoeffs ≠ 0) :
    ∃ g : List ℝ, IsGradient m.numCoeffs 0 (fun c _ => klObjective m d data c) c [] g [] ∧
      ∀ split : Parallel.Split, split.indices.Perm (List.range data.length) →
        (∀ (mem : List ℝ) (off : Nat), off + m.numCoeffs ≤ mem.length →
          KL.coeffGrad m d c data split mem off = .ok (mem.take off ++ g ++ mem.drop (off + m.numCoeffs)) ∧
          KL.objectivePlusCoeffGrad m d c data split mem off
            = .ok (some (klObjective m d data c), mem.take off ++ g ++ mem.drop (off + m.numCoeffs))) ∧
        KL.trainCoeffGrad m d c data split = .ok g ∧
        ∀ grad : List ℝ, grad.length = m.numCoeffs →
          KL.call m d c grad data split = .ok (some (klObjective m d data c), g) := by
  obtain ⟨g, hg, hcol, hred⟩ := coeffGrad_core (data := data) hdim hE hL hJ hDm hDL hDd hc hx hn
  have hgl : g.length = m.numCoeffs := hg.1
  refine ⟨g, hg, fun split hsp => ?_⟩
  have hr := hred split hsp
  obtain ⟨p, hp⟩ := ((C52_dimensions (m := m) (d := d) c).1).2 hdim
  have hval := C54_value hdim hE hL hJ hD hc hx hne
  rw [KL.objective, hp, Res.bind_ok] at hval
  have h1 : ∀ (mem : List ℝ) (off : Nat), off + m.numCoeffs ≤ mem.length →
      KL.coeffGrad m d c data split mem off = .ok (mem.take off ++ g ++ mem.drop (off + m.numCoeffs)) ∧
      KL.objectivePlusCoeffGrad m d c data split mem off
        = .ok (some (klObjective m d data c), mem.take off ++ g ++ mem.drop (off + m.numCoeffs)) := by
    intro mem off hm
    have hw := KL.writeFrom_ok g mem off (by omega)
    rw [hgl] at hw
    constructor
    · rw [KL.coeffGrad, hp, Res.bind_ok, hcol, Res.bind_ok]
      simp only [hr]
      exact hw
    · rw [KL.objectivePlusCoeffGrad, hp, Res.bind_ok]
      obtain ⟨dx, hdx, hav⟩ := Res.bind_eq_ok.mp hval
      rw [hdx, Res.bind_ok, hcol, Res.bind_ok]
      simp only [hr]
      rw [hw, Res.bind_ok, Res.ok.inj hav]
  refine ⟨h1, ?_, fun grad hgr => ?_⟩
  · have := (h1 (List.replicate m.numCoeffs 0) 0 (by simp)).1
    rw [KL.trainCoeffGrad, this]
    simp
  · rw [KL.call, if_pos hc, (h1 grad 0 (by omega)).2]
    simp [← hgr]

/-- C54: evaluating on a test set that was not given throws. -/
theorem C54_no_test_set (c : List ℝ) : KL.testError m d c none = .throw := rfl

/-- C54: on the test set, `TestError` is the same functional. -/
theorem C54_test_error {c : List ℝ} {test : List (List ℝ)} (hdim : m.outputDim = d.dim) (hE : Evaluates m) (hL : HasLogDet m)
    (hJ : LogDetIsJacobian m) (hD : HasDensity d) (hc : c.length = m.numCoeffs) (hx : ∀ x ∈ test, x.length = m.inputDim)
    (hne : test ≠ []) : KL.testError m d c (some test) = .ok (some (klObjective m d test c)) :=
  C54_value hdim hE hL hJ hD hc hx hne

/-- Non-vacuity: the map `exp(a) sinh(x)`, the standard normal distribution and three samples. -/
example : ∃ g : List ℝ, IsGradient 1 0 (fun c _ => klObjective bend std1 [[1], [2], [-3]] c) [2] [] g [] ∧
    KL.call bend std1 [2] [77] [[1], [2], [-3]] (.join (.chunk [2]) (.andThen (.chunk []) [0, 1]))
      = .ok (some (klObjective bend std1 [[1], [2], [-3]] [2]), g) := by
  have hd := C53_density (.dim 1)
  obtain ⟨g, h1, h2⟩ := C54_gradient_partial (m := bend) (d := std1) (c := [2]) (data := [[1], [2], [-3]]) rfl bend_evaluates
    bend_hasLogDet bend_jacobian bend_differentiates bend_differentiatesLogDet hd.2.1 hd.2.2.1 rfl
    (by intro x hx; simp at hx; rcases hx with rfl | rfl | rfl <;> rfl) (by simp) (by decide)
  exact ⟨g, h1, (h2 (.join (.chunk [2]) (.andThen (.chunk []) [0, 1])) (by decide)).2.2 [77] rfl⟩

/-- C54 fails without samples: the objective is not a number. -/
theorem C54_fails_no_samples (hdim : m.outputDim = d.dim) (c : List ℝ) : KL.objective m d c [] = .ok none := by
  obtain ⟨p, hp⟩ := ((C52_dimensions (m := m) (d := d) c).1).2 hdim
  rw [KL.objective, hp, Res.bind_ok]
  rfl

/-- C54 fails for `CoeffGradImpl` with a gradient view that has a stride: with a map of two coefficients, a gradient that
consists of the entries 0 and 2 of an array of three gets its second number at entry 1. -/
theorem C54_fails_strided_gradient {c : List ℝ} {data : List (List ℝ)} (hdim : m.outputDim = d.dim) (hE : Evaluates m)
    (hL : HasLogDet m) (hJ : LogDetIsJacobian m) (hDm : Differentiates m) (hDL : DifferentiatesLogDet m)
    (hDd : DifferentiatesDensity d) (hc : c.length = m.numCoeffs) (hx : ∀ x ∈ data, x.length = m.inputDim)
    (hn : m.numCoeffs = 2) {split : Parallel.Split} (hsp : split.indices.Perm (List.range data.length)) :
    ∃ g0 g1 : ℝ, IsGradient 2 0 (fun c _ => klObjective m d data c) c [] [g0, g1] [] ∧
      ∀ a b e : ℝ, KL.coeffGrad m d c data split [a, b, e] 0 = .ok [g0, g1, e] := by
  obtain ⟨g, hg, hcol, hred⟩ := coeffGrad_core (data := data) hdim hE hL hJ hDm hDL hDd hc hx (by omega)
  have hgl : g.length = 2 := hg.1.trans hn
  obtain ⟨p, hp⟩ := ((C52_dimensions (m := m) (d := d) c).1).2 hdim
  match g, hgl with
  | [g0, g1], _ =>
    refine ⟨g0, g1, by rw [← hn]; exact hg, fun a b e => ?_⟩
    rw [KL.coeffGrad, hp, Res.bind_ok, hcol, Res.bind_ok]
    simp only [hred split hsp]
    rw [KL.writeFrom_ok _ _ _ (by simp)]
    rfl

end MParT
