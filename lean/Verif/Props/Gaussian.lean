import Verif.Lemmas.Gaussian
import Verif.Lemmas.ChainRule
import Mathlib.Probability.Distributions.Gaussian.Real
import Mathlib.MeasureTheory.Function.Jacobian
import Mathlib.MeasureTheory.Integral.Pi
import Mathlib.Analysis.Calculus.FDeriv.Add
import Mathlib.Topology.Algebra.Module.FiniteDimension
import Mathlib.LinearAlgebra.Determinant
/-!
# C53: the Gaussian distribution
-/
namespace MParT
namespace Spec

/-- `g` is the object one of the four constructors returns for mean `μ` and covariance `Σ`. -/
inductive Constructed : {n : Nat} → (Fin n → ℝ) → Matrix (Fin n) (Fin n) ℝ → Gaussian → Prop
  | meanCov {n : Nat} {μ : Fin n → ℝ} {L Sig : Matrix (Fin n) (Fin n) ℝ} {lay : Layout} {g : Gaussian} :
      IsCholesky L Sig → Gaussian.ofMeanCov μ L lay = .ok g → Constructed μ Sig g
  | cov {n : Nat} {L Sig : Matrix (Fin n) (Fin n) ℝ} {lay : Layout} {g : Gaussian} :
      IsCholesky L Sig → Gaussian.ofCov L lay = .ok g → Constructed (fun _ => 0) Sig g
  | mean {n : Nat} (μ : Fin n → ℝ) : Constructed μ 1 (Gaussian.ofMean μ)
  | dim (n : Nat) : Constructed (fun _ : Fin n => 0) 1 (Gaussian.ofDim n)

end Spec
open Spec

namespace Gaussian

theorem ofMeanCov_ok {n : Nat} {μ : Fin n → ℝ} {L : Matrix (Fin n) (Fin n) ℝ} {lay : Layout} {g : Gaussian}
    (h : ofMeanCov μ L lay = .ok g) : g = ⟨n, some μ, some L, logDet L⟩ := by
  rw [ofMeanCov, Layout.toLeft] at h
  split at h
  · exact (Res.ok.inj h).symm
  · exact absurd h (by simp)

theorem ofCov_ok {n : Nat} {L : Matrix (Fin n) (Fin n) ℝ} {lay : Layout} {g : Gaussian}
    (h : ofCov L lay = .ok g) : g = ⟨n, none, some L, logDet L⟩ := by
  rw [ofCov, Layout.toLeft] at h
  split at h
  · exact (Res.ok.inj h).symm
  · exact absurd h (by simp)

end Gaussian

theorem _root_.MParT.Spec.Constructed.dim_eq {n : Nat} {μ : Fin n → ℝ} {Sig : Matrix (Fin n) (Fin n) ℝ} {g : Gaussian}
    (h : Constructed μ Sig g) : g.dim = n := by
  cases h with
  | meanCov hL h => rw [Gaussian.ofMeanCov_ok h]
  | cov hL h => rw [Gaussian.ofCov_ok h]
  | mean => rfl
  | dim => rfl

theorem normal_core {n : Nat} {L Sig : Matrix (Fin n) (Fin n) ℝ} (hL : IsCholesky L Sig) (μ x : Fin n → ℝ) :
    -0.5 * (∑ i, (L⁻¹.mulVec fun i => x i - μ i) i ^ 2) - 0.5 * (n * Real.log (2 * Real.pi) + Gaussian.logDet L)
      = normalLogDensity μ Sig x := by
  rw [hL.quad, Gaussian.logDet, ← hL.det_eq, normalLogDensity]
  norm_num

theorem col_eq {n : Nat} {μ : Fin n → ℝ} {Sig : Matrix (Fin n) (Fin n) ℝ} {g : Gaussian} (h : Constructed μ Sig g)
    (x : List ℝ) : g.colLogDensity x = normalLogDensity μ Sig (colVec n x) := by
  cases h with
  | meanCov hL h =>
    rw [Gaussian.ofMeanCov_ok h]
    exact normal_core hL μ _
  | cov hL h =>
    rw [Gaussian.ofCov_ok h]
    refine Eq.trans ?_ (normal_core hL _ _)
    simp only [sub_zero]
    rfl
  | mean =>
    refine Eq.trans ?_ (normal_core (isCholesky_one n) μ _)
    simp only [inv_one, Matrix.one_mulVec, Gaussian.logDet, Matrix.det_one, mul_one, Real.log_one]
    rfl
  | dim =>
    refine Eq.trans ?_ (normal_core (isCholesky_one n) _ _)
    simp only [inv_one, Matrix.one_mulVec, Gaussian.logDet, Matrix.det_one, mul_one, Real.log_one, sub_zero]
    rfl

/-- C53: for every constructor, every set of points and every schedule of the reduction, `LogDensity` writes to a contiguous
output the logarithm of the multivariate normal density at every point, and nothing else. -/
theorem C53_logDensity {n : Nat} {μ : Fin n → ℝ} {Sig : Matrix (Fin n) (Fin n) ℝ} {g : Gaussian} (hg : Constructed μ Sig g)
    {pts : List (List ℝ)} (hpts : ∀ x ∈ pts, x.length = n) {split : Parallel.Split}
    (hs : split.indices.Perm (List.range n)) {mem : List ℝ} {off : Nat} (hm : off + pts.length ≤ mem.length) :
    g.logDensityImpl pts split mem off 1 = .ok (mem.take off
      ++ pts.map (fun x => normalLogDensity μ Sig (colVec n x)) ++ mem.drop (off + pts.length)) := by
  have hd := hg.dim_eq
  rw [g.logDensityImpl_ok (by rwa [hd]) (by rwa [hd]) hm]
  congr 3
  exact List.map_congr_left fun x _ => col_eq hg x

/-- C53: points with another number of rows are rejected. -/
theorem C53_rejects {n : Nat} {μ : Fin n → ℝ} {Sig : Matrix (Fin n) (Fin n) ℝ} {g : Gaussian} (hg : Constructed μ Sig g)
    {pts : List (List ℝ)} {x : List ℝ} (hx : x ∈ pts) (hl : x.length ≠ n) (split : Parallel.Split) (mem : List ℝ)
    (off stride : Nat) (lay : Layout) :
    g.logDensityImpl pts split mem off stride = .throw ∧ g.inputGradImpl pts lay = .throw ∧ g.sampleImpl pts lay = .throw := by
  have h : pts.any (fun x => x.length ≠ g.dim) = true := by
    rw [List.any_eq_true]; exact ⟨x, hx, by simpa [hg.dim_eq] using hl⟩
  refine ⟨?_, ?_, ?_⟩
  · rw [Gaussian.logDensityImpl, h]; rfl
  · rw [Gaussian.inputGradImpl, h]; rfl
  · rw [Gaussian.sampleImpl, h]; rfl

/-- The gradient of the log-density, `-Σ⁻¹ (x - μ)`. -/
noncomputable def normalGrad {n : Nat} (μ : Fin n → ℝ) (Sig : Matrix (Fin n) (Fin n) ℝ) (x : Fin n → ℝ) : Fin n → ℝ :=
  Sig⁻¹.mulVec fun i => -x i + μ i

theorem vec_ofFn {n : Nat} (v : Fin n → ℝ) : colVec n (List.ofFn v) = v := by
  funext i; simp [colVec]

theorem getD_ofFn {n : Nat} (v : Fin n → ℝ) (i : Fin n) : (List.ofFn v).getD i 0 = v i := by simp

theorem chol_symm {n : Nat} {L Sig : Matrix (Fin n) (Fin n) ℝ} (h : IsCholesky L Sig) (i j : Fin n) :
    Sig⁻¹ i j = Sig⁻¹ j i := by
  have : Sig.transpose = Sig := by rw [← h.2.2, Matrix.transpose_mul, Matrix.transpose_transpose]
  have h2 : (Sig⁻¹).transpose = Sig⁻¹ := by rw [Matrix.transpose_nonsing_inv, this]
  exact congrFun (congrFun h2.symm i) j

/-- `-Σ⁻¹ (x - μ)` is the gradient of the log-density. -/
theorem normal_gradient {n : Nat} {L Sig : Matrix (Fin n) (Fin n) ℝ} (hL : IsCholesky L Sig) (μ : Fin n → ℝ) {x : List ℝ} :
    IsGradient 0 n (fun _ x => normalLogDensity μ Sig (colVec n x)) [] x [] (List.ofFn (normalGrad μ Sig (colVec n x))) := by
  refine ⟨rfl, by simp, fun γ δ vc vx t₀ hγ hδ hc hx => ?_⟩
  have hd : ∀ i : Fin n, HasDerivAt (fun t => colVec n (δ t) i - μ i) (colVec n vx i) t₀ := fun i =>
    (hδ.2.2 i i.2).sub_const (μ i)
  have key : HasDerivAt (fun t => ∑ i, ∑ j, (colVec n (δ t) i - μ i) * Sig⁻¹ i j * (colVec n (δ t) j - μ j))
      (∑ i, ∑ j, (colVec n vx i * Sig⁻¹ i j * (colVec n x j - μ j) + (colVec n x i - μ i) * Sig⁻¹ i j * colVec n vx j)) t₀ := by
    refine HasDerivAt.fun_sum fun i _ => HasDerivAt.fun_sum fun j _ => ?_
    refine (((hd i).mul_const (Sig⁻¹ i j)).fun_mul (hd j)).congr_deriv ?_
    rw [hx]
  refine ((key.const_mul (-(1 / 2))).sub_const _).congr_deriv ?_
  have e1 : ∑ i, ∑ j, (colVec n vx i * Sig⁻¹ i j * (colVec n x j - μ j) + (colVec n x i - μ i) * Sig⁻¹ i j * colVec n vx j)
      = 2 * ∑ i, ∑ j, colVec n vx i * Sig⁻¹ i j * (colVec n x j - μ j) := by
    have : ∑ i, ∑ j, (colVec n x i - μ i) * Sig⁻¹ i j * colVec n vx j = ∑ i, ∑ j, colVec n vx i * Sig⁻¹ i j * (colVec n x j - μ j) := by
      rw [Finset.sum_comm]
      refine Finset.sum_congr rfl fun i _ => Finset.sum_congr rfl fun j _ => ?_
      rw [chol_symm hL j i]; ring
    simp only [Finset.sum_add_distrib]
    rw [this]; ring
  have e2 : dot (List.ofFn (normalGrad μ Sig (colVec n x))) vx = ∑ i : Fin n, normalGrad μ Sig (colVec n x) i * colVec n vx i := by
    rw [dot_eq_sum (by simp) hδ.2.1, Finset.sum_range]
    exact Finset.sum_congr rfl fun i _ => by rw [getD_ofFn]; rfl
  have e3 : dot ([] : List ℝ) vc = 0 := rfl
  rw [e1, e2, e3]
  have : ∑ i : Fin n, normalGrad μ Sig (colVec n x) i * colVec n vx i = -∑ i, ∑ j, colVec n vx i * Sig⁻¹ i j * (colVec n x j - μ j) := by
    rw [← Finset.sum_neg_distrib]
    refine Finset.sum_congr rfl fun i _ => ?_
    rw [normalGrad, Matrix.mulVec, dotProduct, Finset.sum_mul, ← Finset.sum_neg_distrib]
    exact Finset.sum_congr rfl fun j _ => by ring
  rw [this]; ring

theorem solve_eq {n : Nat} {μ : Fin n → ℝ} {Sig : Matrix (Fin n) (Fin n) ℝ} {g : Gaussian} (h : Constructed μ Sig g)
    (x : List ℝ) : List.ofFn (g.solve (g.negDiff (colVec g.dim x))) = List.ofFn (normalGrad μ Sig (colVec n x)) := by
  cases h with
  | meanCov hL h =>
    rw [Gaussian.ofMeanCov_ok h, normalGrad, hL.inv_eq, ← Matrix.mulVec_mulVec]
    rfl
  | cov hL h =>
    rw [Gaussian.ofCov_ok h, normalGrad, hL.inv_eq, ← Matrix.mulVec_mulVec]
    simp only [add_zero]
    rfl
  | mean =>
    rw [normalGrad, inv_one, Matrix.one_mulVec]
    rfl
  | dim =>
    rw [normalGrad, inv_one, Matrix.one_mulVec]
    simp only [add_zero]
    rfl

/-- The factor that a constructor used. -/
theorem _root_.MParT.Spec.Constructed.factor {n : Nat} {μ : Fin n → ℝ} {Sig : Matrix (Fin n) (Fin n) ℝ} {g : Gaussian}
    (h : Constructed μ Sig g) : ∃ L, IsCholesky L Sig := by
  cases h with
  | meanCov hL _ => exact ⟨_, hL⟩
  | cov hL _ => exact ⟨_, hL⟩
  | mean => exact ⟨_, isCholesky_one n⟩
  | dim => exact ⟨_, isCholesky_one n⟩

/-- C53: `LogDensityInputGrad` gives at every point the gradient of the log-density, when the output is column-major or the
covariance is the identity. -/
theorem C53_gradient_partial {n : Nat} {μ : Fin n → ℝ} {Sig : Matrix (Fin n) (Fin n) ℝ} {g : Gaussian}
    (hg : Constructed μ Sig g) {pts : List (List ℝ)} (hpts : ∀ x ∈ pts, x.length = n) {lay : Layout}
    (hlay : lay = Layout.left n pts.length ∨ g.chol = none) :
    ∃ G : List ℝ → List ℝ, g.inputGradImpl pts lay = .ok (pts.map G) ∧
      ∀ x ∈ pts, IsGradient 0 n (fun _ x => normalLogDensity μ Sig (colVec n x)) [] x [] (G x) := by
  obtain ⟨L, hL⟩ := hg.factor
  refine ⟨fun x => List.ofFn (normalGrad μ Sig (colVec n x)), ?_, fun x _ => normal_gradient hL μ⟩
  have h0 : pts.any (fun x => x.length ≠ g.dim) = false := by
    rw [List.any_eq_false]; intro x hx; simp [hpts x hx, hg.dim_eq]
  have hmap : (pts.map fun x => List.ofFn (g.solve (g.negDiff (colVec g.dim x))))
      = pts.map fun x => List.ofFn (normalGrad μ Sig (colVec n x)) := List.map_congr_left fun x _ => solve_eq hg x
  rw [Gaussian.inputGradImpl, h0]
  simp only [Bool.false_eq_true, if_false]
  rw [hmap]
  rcases hlay with rfl | h
  · have : (Layout.left n pts.length).toLeft = .ok () := by rw [Layout.toLeft, if_pos ⟨rfl, rfl⟩]
    rw [this]
    split <;> rfl
  · rw [h]; rfl

/-- C53: `Sample` turns the normal draws `z` of every column into `μ + L z`, where `L L^T` is the covariance, when the output is
column-major or the covariance is the identity. -/
theorem C53_sample_partial {n : Nat} {μ : Fin n → ℝ} {Sig : Matrix (Fin n) (Fin n) ℝ} {g : Gaussian}
    (hg : Constructed μ Sig g) : ∃ L, IsCholesky L Sig ∧ ∀ (z : List (List ℝ)) (lay : Layout), (∀ x ∈ z, x.length = n) →
      (lay = Layout.left n z.length ∨ g.chol = none) →
      g.sampleImpl z lay = .ok (z.map fun x => List.ofFn fun i => μ i + L.mulVec (colVec n x) i) := by
  have h0 : ∀ z : List (List ℝ), (∀ x ∈ z, x.length = n) → z.any (fun x => x.length ≠ g.dim) = false := by
    intro z hz
    rw [List.any_eq_false]; intro x hx; simp [hz x hx, hg.dim_eq]
  cases hg with
  | meanCov hL h =>
    refine ⟨_, hL, fun z lay hz hlay => ?_⟩
    have h0 := h0 z hz
    have e := Gaussian.ofMeanCov_ok h
    subst e
    rw [Gaussian.sampleImpl, h0]
    simp only [Bool.false_eq_true, if_false]
    obtain rfl : lay = Layout.left n z.length := hlay.resolve_right (by simp)
    have : (Layout.left n z.length).toLeft = .ok () := by rw [Layout.toLeft, if_pos ⟨rfl, rfl⟩]
    rw [this, Res.bind_ok]
    simp only [add_comm]
  | cov hL h =>
    refine ⟨_, hL, fun z lay hz hlay => ?_⟩
    have h0 := h0 z hz
    have e := Gaussian.ofCov_ok h
    subst e
    rw [Gaussian.sampleImpl, h0]
    simp only [Bool.false_eq_true, if_false]
    obtain rfl : lay = Layout.left n z.length := hlay.resolve_right (by simp)
    have : (Layout.left n z.length).toLeft = .ok () := by rw [Layout.toLeft, if_pos ⟨rfl, rfl⟩]
    rw [this, Res.bind_ok]
    simp only [zero_add]
  | mean =>
    refine ⟨1, isCholesky_one n, fun z lay hz hlay => ?_⟩
    rw [Gaussian.sampleImpl, h0 z hz]
    simp only [Bool.false_eq_true, if_false, Matrix.one_mulVec]
    simp only [Gaussian.ofMean, add_comm]
  | dim =>
    refine ⟨1, isCholesky_one n, fun z lay hz hlay => ?_⟩
    rw [Gaussian.sampleImpl, h0 z hz]
    simp only [Bool.false_eq_true, if_false, Matrix.one_mulVec]
    simp only [Gaussian.ofDim, zero_add]

/-! ## What the samples have to do with the density -/

/-- Density of `n` independent standard normal numbers. -/
noncomputable def stdNormal {n : Nat} (z : Fin n → ℝ) : ℝ := ∏ i, ProbabilityTheory.gaussianPDFReal 0 1 (z i)

theorem std_eq {n : Nat} (z : Fin n → ℝ) :
    stdNormal z = Real.exp (-(1 / 2) * ∑ i, z i ^ 2 - (1 / 2) * (n * Real.log (2 * Real.pi))) := by
  have h2 : (0 : ℝ) < 2 * Real.pi := by positivity
  have e : ∀ i, ProbabilityTheory.gaussianPDFReal 0 1 (z i)
      = Real.exp (-(1 / 2) * z i ^ 2 - (1 / 2) * Real.log (2 * Real.pi)) := by
    intro i
    rw [ProbabilityTheory.gaussianPDFReal, sub_eq_add_neg (-(1 / 2) * z i ^ 2), Real.exp_add, mul_comm]
    congr 1
    · congr 1; simp; ring
    · rw [NNReal.coe_one, mul_one, Real.sqrt_eq_rpow, ← Real.rpow_neg h2.le, Real.rpow_def_of_pos h2]
      congr 1; ring
  rw [stdNormal, Finset.prod_congr rfl fun i _ => e i, ← Real.exp_sum]
  congr 1
  rw [Finset.sum_sub_distrib, ← Finset.mul_sum]
  simp
  ring

/-- The density at `μ + L z`. -/
theorem normal_at {n : Nat} {L Sig : Matrix (Fin n) (Fin n) ℝ} (hL : IsCholesky L Sig) (μ z : Fin n → ℝ) :
    |L.det| * Real.exp (normalLogDensity μ Sig fun i => μ i + L.mulVec z i) = stdNormal z := by
  have hd := hL.det_pos
  rw [← normal_core hL]
  have e : (fun i => μ i + L.mulVec z i - μ i) = L.mulVec z := by funext i; ring
  rw [e, Matrix.mulVec_mulVec, Matrix.nonsing_inv_mul _ (by rw [isUnit_iff_ne_zero]; exact hd.ne'), Matrix.one_mulVec, std_eq,
    Gaussian.logDet, Real.log_mul hd.ne' hd.ne', abs_of_pos hd]
  conv_lhs => rw [← Real.exp_log hd]
  rw [← Real.exp_add, Real.exp_log hd]
  congr 1
  ring

/-- C53: samples and density belong together. When the draws `z` are independent standard normal numbers, the expectation of
any function of the sample `μ + L z` is its integral against the density that `LogDensity` gives. -/
theorem C53_law {n : Nat} {L Sig : Matrix (Fin n) (Fin n) ℝ} (hL : IsCholesky L Sig) (μ : Fin n → ℝ) (f : (Fin n → ℝ) → ℝ) :
    ∫ z : Fin n → ℝ, stdNormal z * f (fun i => μ i + L.mulVec z i)
      = ∫ x : Fin n → ℝ, Real.exp (normalLogDensity μ Sig x) * f x := by
  have hu : IsUnit L.det := by rw [isUnit_iff_ne_zero]; exact hL.det_pos.ne'
  let F : (Fin n → ℝ) → (Fin n → ℝ) := fun z i => μ i + L.mulVec z i
  let F' : (Fin n → ℝ) →L[ℝ] (Fin n → ℝ) := LinearMap.toContinuousLinearMap (Matrix.toLin' L)
  have hF : ∀ z, HasFDerivAt F F' z := fun z => (F'.hasFDerivAt (x := z)).const_add μ
  have hinj : Function.Injective F := by
    intro a b hab
    have h1 : L.mulVec a = L.mulVec b := by
      funext i
      have := congrFun hab i
      simpa [F] using this
    have h2 := congrArg (L⁻¹.mulVec) h1
    rwa [Matrix.mulVec_mulVec, Matrix.mulVec_mulVec, Matrix.nonsing_inv_mul _ hu, Matrix.one_mulVec, Matrix.one_mulVec] at h2
  have himg : F '' Set.univ = Set.univ := by
    refine Set.eq_univ_of_forall fun x => ⟨L⁻¹.mulVec fun i => x i - μ i, trivial, ?_⟩
    funext i
    change μ i + L.mulVec (L⁻¹.mulVec fun i => x i - μ i) i = x i
    rw [Matrix.mulVec_mulVec, Matrix.mul_nonsing_inv _ hu, Matrix.one_mulVec]
    ring
  have hdet : F'.det = L.det := by
    change LinearMap.det (Matrix.toLin' L) = _
    exact LinearMap.det_toLin' L
  have := MeasureTheory.integral_image_eq_integral_abs_det_fderiv_smul (μ := MeasureTheory.volume)
    (s := Set.univ) MeasurableSet.univ
    (fun z _ => (hF z).hasFDerivWithinAt) hinj.injOn (fun x => Real.exp (normalLogDensity μ Sig x) * f x)
  rw [himg, MeasureTheory.setIntegral_univ, MeasureTheory.setIntegral_univ] at this
  rw [this]
  refine MeasureTheory.integral_congr_ae (Filter.Eventually.of_forall fun z => ?_)
  simp only [hdet, smul_eq_mul]
  rw [← mul_assoc, normal_at hL]

/-- C53: the density integrates to 1. -/
theorem C53_normalised {n : Nat} {L Sig : Matrix (Fin n) (Fin n) ℝ} (hL : IsCholesky L Sig) (μ : Fin n → ℝ) :
    ∫ x : Fin n → ℝ, Real.exp (normalLogDensity μ Sig x) = 1 := by
  have h := C53_law hL μ fun _ => 1
  simp only [mul_one] at h
  rw [← h]
  have := MeasureTheory.integral_fintype_prod_volume_eq_prod (𝕜 := ℝ) (ι := Fin n) (E := fun _ => ℝ)
    (fun _ z => ProbabilityTheory.gaussianPDFReal 0 1 z)
  refine this.trans ?_
  rw [Finset.prod_eq_one]
  intro i _
  exact ProbabilityTheory.integral_gaussianPDFReal_eq_one 0 one_ne_zero

/-! ## Non-vacuity and failures -/

/-- The factor of a covariance matrix with correlation. -/
def exL : Matrix (Fin 2) (Fin 2) ℝ := !![2, 0; 1, 3]
def exSig : Matrix (Fin 2) (Fin 2) ℝ := !![4, 2; 2, 10]

theorem exL_chol : IsCholesky exL exSig := by
  refine ⟨fun i j h => ?_, fun i => ?_, ?_⟩
  · fin_cases i <;> fin_cases j <;> simp_all [exL]
  · fin_cases i <;> simp [exL]
  · ext i j
    fin_cases i <;> fin_cases j <;> norm_num [exL, exSig, Matrix.mul_apply, Fin.sum_univ_two]

/-- Non-vacuity: a Gaussian with mean `(1, -1)` and a correlated covariance, evaluated at two points. -/
example : ∃ g, Constructed (![1, -1] : Fin 2 → ℝ) exSig g ∧
    g.logDensityImpl [[1, 2], [3, 4]] (.join (.chunk [1]) (.chunk [0])) [7, 8, 9, 10] 1 1
      = .ok [7, normalLogDensity ![1, -1] exSig (colVec 2 [1, 2]), normalLogDensity ![1, -1] exSig (colVec 2 [3, 4]), 10] := by
  refine ⟨⟨2, some ![1, -1], some exL, Gaussian.logDet exL⟩,
    .meanCov (lay := Layout.left 2 2) exL_chol (by rw [Gaussian.ofMeanCov, Layout.toLeft, if_pos ⟨rfl, rfl⟩]; rfl), ?_⟩
  exact C53_logDensity (.meanCov (lay := Layout.left 2 2) exL_chol
    (by rw [Gaussian.ofMeanCov, Layout.toLeft, if_pos ⟨rfl, rfl⟩]; rfl)) (by simp) (by decide) (by simp)

/-- C53 fails for an output with a stride: the results of the reduction are written to consecutive entries. With the standard
normal distribution of dimension 1, two points and an output that is every second entry of an array, `output(1)` does not
become the log-density of the second point, and an entry that does not belong to the output is overwritten. -/
theorem C53_fails_strided_output :
    ∃ mem : List ℝ, (Gaussian.ofDim 1).logDensityImpl [[0], [2]] (.chunk [0]) [5, 5, 5] 0 2 = .ok mem ∧
      mem.getD 2 0 ≠ normalLogDensity (fun _ : Fin 1 => 0) 1 (colVec 1 [2]) ∧ mem.getD 1 0 ≠ 5 := by
  have hw : (Gaussian.ofDim 1).logDensityImpl [[0], [2]] (.chunk [0]) [5, 5, 5] 0 2
      = .ok [0 - 0.5 * (1 * Real.log (2 * Real.pi) + 0), -2, 5 - 0.5 * (1 * Real.log (2 * Real.pi) + 0)] := by
    simp [Gaussian.logDensityImpl, Gaussian.ofDim, Gaussian.diff, Gaussian.whiten, colVec, Parallel.reduce, Parallel.reduceOp,
      Parallel.reduceInit, Parallel.ReduceDimMap.kernel, KL.writeFrom, Gaussian.subtractAll, Res.setIdx, Res.idx]
    norm_num
    refine ⟨rfl, ?_⟩
    change (2 : ℝ) * 2 * (1 / 2) = 2
    norm_num
  refine ⟨_, hw, ?_, ?_⟩
  · have : normalLogDensity (fun _ : Fin 1 => 0) 1 (colVec 1 [2]) = -2 - 0.5 * (1 * Real.log (2 * Real.pi) + 0) := by
      simp [normalLogDensity, colVec]
      norm_num
    rw [this]
    simp
    norm_num
  · norm_num

/-- C53 fails for `Sample(N)` with a covariance matrix: the public function allocates a row-major matrix, which cannot be
viewed as column-major, unless it has a single entry. -/
theorem C53_fails_sample {n : Nat} {μ : Fin n → ℝ} {L : Matrix (Fin n) (Fin n) ℝ} {lay : Layout} {g : Gaussian}
    (hg : Gaussian.ofMeanCov μ L lay = .ok g) {z : List (List ℝ)} (hz : ¬ (n = 1 ∧ z.length = 1)) :
    g.sample z = .throw := by
  have e := Gaussian.ofMeanCov_ok hg
  subst e
  rw [Gaussian.sample, Gaussian.sampleImpl]
  split
  · rfl
  · change (Layout.right n z.length).toLeft.bind _ = _
    rw [Layout.toLeft, if_neg]
    · rfl
    · rintro ⟨h1, h2⟩
      exact hz ⟨h2.symm, h1⟩

/-- C53 fails for the public `LogDensityInputGrad` with a covariance matrix, for the same reason. -/
theorem C53_fails_gradient {n : Nat} {μ : Fin n → ℝ} {L : Matrix (Fin n) (Fin n) ℝ} {lay : Layout} {g : Gaussian}
    (hg : Gaussian.ofMeanCov μ L lay = .ok g) {pts : List (List ℝ)} (hz : ¬ (n = 1 ∧ pts.length = 1)) :
    g.logDensityInputGrad pts = .throw := by
  have e := Gaussian.ofMeanCov_ok hg
  subst e
  rw [Gaussian.logDensityInputGrad, Gaussian.inputGradImpl]
  split
  · rfl
  · change (Layout.right n pts.length).toLeft.bind _ = _
    rw [Layout.toLeft, if_neg]
    · rfl
    · rintro ⟨h1, h2⟩
      exact hz ⟨h2.symm, h1⟩

/-- C53: with identity covariance the public functions have no such restriction. -/
theorem C53_identity_covariance {n : Nat} (μ : Fin n → ℝ) {pts : List (List ℝ)} (hpts : ∀ x ∈ pts, x.length = n) :
    (Gaussian.ofMean μ).sample pts = .ok (pts.map fun z => List.ofFn fun i => μ i + colVec n z i) ∧
    (Gaussian.ofDim n).sample pts = .ok (pts.map fun z => List.ofFn (colVec n z)) ∧
    (Gaussian.ofMean μ).logDensityInputGrad pts = .ok (pts.map fun x => List.ofFn fun i => -colVec n x i + μ i) ∧
    (Gaussian.ofDim n).logDensityInputGrad pts = .ok (pts.map fun x => List.ofFn fun i => -colVec n x i) := by
  have h0 : pts.any (fun x => x.length ≠ n) = false := by
    rw [List.any_eq_false]; intro x hx; simp [hpts x hx]
  refine ⟨?_, ?_, ?_, ?_⟩
  · rw [Gaussian.sample, Gaussian.sampleImpl, Gaussian.ofMean]
    simp only [h0, Bool.false_eq_true, if_false, add_comm]
  · rw [Gaussian.sample, Gaussian.sampleImpl, Gaussian.ofDim]
    simp only [h0, Bool.false_eq_true, if_false]
  · rw [Gaussian.logDensityInputGrad, Gaussian.inputGradImpl, Gaussian.ofMean]
    simp only [h0, Bool.false_eq_true, if_false]
    rfl
  · rw [Gaussian.logDensityInputGrad, Gaussian.inputGradImpl, Gaussian.ofDim]
    simp only [h0, Bool.false_eq_true, if_false]
    rfl

/-- C53: as a density object the Gaussian has a finite log-density and its exact gradient everywhere (this is what the theorems
about pullback densities ask for). -/
theorem C53_density {n : Nat} {μ : Fin n → ℝ} {Sig : Matrix (Fin n) (Fin n) ℝ} {g : Gaussian} (hg : Constructed μ Sig g) :
    g.density.dim = n ∧ HasDensity g.density ∧ DifferentiatesDensity g.density ∧
      ∀ x : List ℝ, x.length = n → logp g.density x = normalLogDensity μ Sig (colVec n x) := by
  have hd := hg.dim_eq
  have h1 : ∀ x : List ℝ, x.length = n → ∀ o, g.density.logDensity x o = .ok (some (normalLogDensity μ Sig (colVec n x))) := by
    intro x hx o
    change (g.logDensityImpl [x] (.chunk (List.range g.dim)) [0] 0 1).bind _ = _
    rw [C53_logDensity hg (by simpa using hx) (by rw [hd]; exact List.Perm.refl _) (by simp)]
    rfl
  have h2 : ∀ x : List ℝ, x.length = n → logp g.density x = normalLogDensity μ Sig (colVec n x) := by
    intro x hx; rw [logp, h1 x hx]; rfl
  refine ⟨hd, fun x hx o => ?_, fun x hx => ?_, h2⟩
  · have hx : x.length = n := hx.trans hd
    rw [h1 x hx, h2 x hx]
  · have hx : x.length = n := hx.trans hd
    obtain ⟨G, hG, hgr⟩ := C53_gradient_partial hg (pts := [x]) (by simpa using hx) (.inl rfl)
    have hi : ∀ out, g.density.inputGrad x out = .ok (G x) := by
      intro out
      change (g.inputGradImpl [x] (Layout.left g.dim 1)).bind _ = _
      rw [hd, show Layout.left n 1 = Layout.left n [x].length from rfl, hG]
      rfl
    have hp : gradp g.density x = G x := by rw [gradp, Density.logDensityInputGrad, hi]; rfl
    refine ⟨fun out _ => by rw [hi, hp], ?_⟩
    rw [hp]
    have hg' := hgr x (by simp)
    change IsGradient 0 g.dim _ _ _ _ _
    rw [hd]
    refine ⟨hg'.1, hg'.2.1, fun γ δ vc vx t₀ hγ hδ hc hx' => ?_⟩
    have := hg'.2.2 γ δ vc vx t₀ hγ hδ hc hx'
    have e : (fun t => logp g.density (δ t)) = fun t => normalLogDensity μ Sig (colVec n (δ t)) := by
      funext t; exact h2 _ (hδ.1 t)
    rw [e]; exact this

end MParT
