import Verif.Props.Nesting
import Verif.Lemmas.LinearAlgebra
/-!
# C125: maps of positive order hold every normal distribution, and fit at least as well
-/
namespace MParT
open Finset Spec MapFactory

/-- A positive definite matrix is whitened by a lower triangular one with positive diagonal. -/
theorem exists_whitening {n : ℕ} {S : Matrix (Fin n) (Fin n) ℝ} (hS : S.PosDef) :
    ∃ A : Matrix (Fin n) (Fin n) ℝ, (∀ i j, i < j → A i j = 0) ∧ (∀ i, 0 < A i i) ∧ A * S * A.transpose = 1 := by
  obtain ⟨L, hL⟩ := LinAlg.exists_cholesky hS
  obtain ⟨hlow, hpos, hmul⟩ := hL
  have hu : IsUnit L.det := (IsCholesky.det_pos ⟨hlow, hpos, hmul⟩).ne'.isUnit
  have hinv : Invertible L := Matrix.invertibleOfIsUnitDet L hu
  have hLt : L.BlockTriangular OrderDual.toDual := fun i j hij => hlow i j hij
  have hAt : L⁻¹.BlockTriangular OrderDual.toDual := Matrix.blockTriangular_inv_of_blockTriangular hLt
  have hA : ∀ i j, i < j → L⁻¹ i j = 0 := fun i j hij => hAt hij
  refine ⟨L⁻¹, hA, fun i => ?_, ?_⟩
  · have h1 := congrFun (congrFun (Matrix.nonsing_inv_mul L hu) i) i
    rw [Matrix.mul_apply, Matrix.one_apply_eq, sum_eq_single i] at h1
    · exact pos_of_mul_pos_left (by rw [h1]; exact one_pos) (hpos i).le
    · intro j _ hj
      rcases lt_or_gt_of_ne hj with h | h
      · rw [hlow j i h, mul_zero]
      · rw [hA i j h, zero_mul]
    · simp
  · rw [← hmul, Matrix.transpose_nonsing_inv, ← Matrix.mul_assoc, Matrix.nonsing_inv_mul L hu, Matrix.one_mul]
    exact Matrix.mul_nonsing_inv _ (by rwa [Matrix.det_transpose])

/-- The density that a whitening matrix gives is normal. -/
theorem whitened_normal {n : ℕ} {A S : Matrix (Fin n) (Fin n) ℝ} (htri : ∀ i j, i < j → A i j = 0) (hpos : ∀ i, 0 < A i i) (hone : A * S * A.transpose = 1) (m x : Fin n → ℝ) :
    -(1 / 2) * ∑ i, (∑ j, A i j * (x j - m j)) ^ 2 - 1 / 2 * (n * Real.log (2 * Real.pi)) + ∑ i, Real.log (A i i) = normalLogDensity m S x := by
  have hinv : S⁻¹ = A.transpose * A := by
    refine Matrix.inv_eq_right_inv ?_
    rw [Matrix.mul_assoc] at hone
    rw [← Matrix.mul_assoc]
    exact mul_eq_one_comm.1 hone
  have hdetA : A.det = ∏ i, A i i := Matrix.det_of_isLowerTriangular A fun i j hij => htri i j hij
  have hdet : Real.log S.det = -2 * ∑ i, Real.log (A i i) := by
    have h1 := congrArg Matrix.det hone
    rw [Matrix.det_mul, Matrix.det_mul, Matrix.det_transpose, Matrix.det_one, hdetA] at h1
    have h3 : S.det = ((∏ i, A i i) ^ 2)⁻¹ := eq_inv_of_mul_eq_one_left (by rw [← h1]; ring)
    rw [h3, Real.log_inv, Real.log_pow, Real.log_prod fun i _ => (hpos i).ne']
    push_cast
    ring
  rw [normalLogDensity, hinv, hdet, quad_form A fun j => x j - m j]
  ring

/-- The covariance of the first `k` of `k + n` variables. -/
def Spec.leadingCov {k n : ℕ} (S : Matrix (Fin (k + n)) (Fin (k + n)) ℝ) : Matrix (Fin k) (Fin k) ℝ := fun i j => S (Fin.castAdd n i) (Fin.castAdd n j)

/-- The logarithm of the density of the last `n` variables given the first `k`, when all of them are normal with mean `m` and covariance `S`: joint over marginal density. -/
noncomputable def Spec.conditionalNormal {k n : ℕ} (m : Fin (k + n) → ℝ) (S : Matrix (Fin (k + n)) (Fin (k + n)) ℝ) (x : List ℝ) : ℝ :=
  normalLogDensity m S (colVec (k + n) x) - normalLogDensity (fun i => m (Fin.castAdd n i)) (leadingCov S) (colVec k x)

theorem leading_whitening {k n : ℕ} {A S : Matrix (Fin (k + n)) (Fin (k + n)) ℝ} (htri : ∀ i j, i < j → A i j = 0) (hone : A * S * A.transpose = 1) :
    leadingCov (n := n) A * leadingCov S * (leadingCov A).transpose = 1 := by
  have hz : ∀ (i : Fin k) (j : Fin n), A (Fin.castAdd n i) (Fin.natAdd k j) = 0 := fun i j => htri _ _ (Fin.lt_def.2 (by simp; have := i.2; omega))
  ext i j
  have := congrFun (congrFun hone (Fin.castAdd n i)) (Fin.castAdd n j)
  simp only [Matrix.mul_apply, Matrix.transpose_apply, Fin.sum_univ_add, hz, zero_mul, mul_zero, sum_const_zero, add_zero, Matrix.one_apply,
    (Fin.castAdd_injective k n).eq_iff] at this
  simp only [Matrix.mul_apply, Matrix.transpose_apply, Matrix.one_apply, leadingCov]
  exact this

theorem Spec.GoodBasis.mono {o : MapOptions} {N M : ℕ} (h : GoodBasis o N) (hM : M ≤ N) : GoodBasis o M :=
  ⟨h.bounds, h.linearized, fun h1 h2 => hM.trans (h.functions h1 h2), fun h1 h2 => hM.trans (h.normalized h1 h2)⟩

/-- Affine outputs that give the conditional normal density. -/
theorem exists_conditional {k n : ℕ} (m : Fin (k + n) → ℝ) {S : Matrix (Fin (k + n)) (Fin (k + n)) ℝ} (hS : S.PosDef) : ∃ (s a : Fin n → ℝ) (β : Fin n → ℕ → ℝ), (∀ i, 0 < s i) ∧
    ∀ x : List ℝ, -(1 / 2) * ∑ i, affineOutput k s a β x i ^ 2 - 1 / 2 * (n * Real.log (2 * Real.pi)) + ∑ i, Real.log (s i) = conditionalNormal m S x := by
  obtain ⟨A, htri, hpos, hone⟩ := exists_whitening hS
  refine ⟨fun i => A (Fin.natAdd k i) (Fin.natAdd k i), fun i => -∑ j, A (Fin.natAdd k i) j * m j, fun i j => if h : j < k + n then A (Fin.natAdd k i) ⟨j, h⟩ else 0,
    fun i => hpos _, fun x => ?_⟩
  have hy : ∀ i : Fin n, affineOutput k (fun i => A (Fin.natAdd k i) (Fin.natAdd k i)) (fun i => -∑ j, A (Fin.natAdd k i) j * m j)
      (fun i j => if h : j < k + n then A (Fin.natAdd k i) ⟨j, h⟩ else 0) x i = ∑ j, A (Fin.natAdd k i) j * (colVec (k + n) x j - m j) := by
    intro i
    have e1 : ∑ j : Fin (k + n), A (Fin.natAdd k i) j * coords x j = ∑ j ∈ range (k + n), (if h : j < k + n then A (Fin.natAdd k i) ⟨j, h⟩ else 0) * coords x j := by
      rw [← Fin.sum_univ_eq_sum_range fun j => (if h : j < k + n then A (Fin.natAdd k i) ⟨j, h⟩ else 0) * coords x j]
      exact sum_congr rfl fun j _ => by simp
    have e2 : ∑ j ∈ range (k + n), (if h : j < k + n then A (Fin.natAdd k i) ⟨j, h⟩ else 0) * coords x j
        = ∑ j ∈ range (k + i + 1), (if h : j < k + n then A (Fin.natAdd k i) ⟨j, h⟩ else 0) * coords x j := by
      symm
      refine sum_subset (range_subset_range.2 (by have := i.2; omega)) fun j hj hj' => ?_
      have h1 := mem_range.1 hj
      rw [mem_range] at hj'
      rw [dif_pos h1, htri, zero_mul]
      exact Fin.lt_def.2 (by simp; omega)
    have e3 : ∀ j, colVec (k + n) x j = coords x j := fun _ => rfl
    simp only [mul_sub, sum_sub_distrib, e3]
    rw [e1, e2, sum_range_succ, dif_pos (by have := i.2; omega), affineOutput]
    have : (⟨k + i, by have := i.2; omega⟩ : Fin (k + n)) = Fin.natAdd k i := rfl
    rw [this]
    ring
  have hz : ∀ (i : Fin k) (j : Fin n), A (Fin.castAdd n i) (Fin.natAdd k j) = 0 := fun i j => htri _ _ (Fin.lt_def.2 (by simp; have := i.2; omega))
  rw [conditionalNormal, ← whitened_normal htri hpos hone,
    ← whitened_normal (A := leadingCov A) (fun i j h => htri _ _ h) (fun i => hpos _) (leading_whitening htri hone)]
  simp only [hy, Fin.sum_univ_add (fun i : Fin (k + n) => Real.log (A i i)), Fin.sum_univ_add (fun i : Fin (k + n) => (∑ j, A i j * (colVec (k + n) x j - m j)) ^ 2)]
  have e : ∀ i : Fin k, ∑ j, A (Fin.castAdd n i) j * (colVec (k + n) x j - m j) = ∑ j, leadingCov A i j * (colVec k x j - m (Fin.castAdd n j)) := fun i => by
    simp only [Fin.sum_univ_add, hz, zero_mul, sum_const_zero, add_zero]
    rfl
  simp only [e]
  simp only [leadingCov]
  push_cast
  ring

/-- Coefficients of a map of positive order that act as given affine functions. -/
theorem acts_above {o : MapOptions} {k n p : ℕ} (h0 : 0 < n) (h2 : k + n < 2 ^ 32) (hp : 1 ≤ p) (hB : GoodBasis o p) (hQ : GoodQuad o) (hcd : o.contDeriv = true)
    {mem : ℕ → Option ℝ} {work : List ℝ} {T : CMap} {w : List ℝ} (hT : createTriangular (k + n) n p o mem work = .ok (T, w)) {s a : Fin n → ℝ} {β : Fin n → ℕ → ℝ}
    (hs : ∀ i, 0 < s i) : T.outputDim = n ∧ ∃ c : List ℝ, c.length = T.numCoeffs ∧ ActsAs T c k s a β := by
  obtain ⟨T₁, t1, i1, o1, -, h⟩ := C120_affine (k := k) h0 h2 (hB.mono hp) hQ hcd mem work
  obtain ⟨c₁, l1, hact⟩ := h s a β hs
  obtain ⟨c, hd⟩ := C123_triangular h0 h2 hp hB hQ hcd t1 hT l1
  obtain ⟨b, quad, mesh, hsel⟩ := selected_family hB hQ
  obtain ⟨T', -, -, -, q1, q2, q3, -⟩ := triangular_of_selected (inputDim := k + n) (outputDim := n) (hsel p le_rfl) h0 (by omega) h2 mem work
  obtain ⟨rfl, -⟩ := Prod.mk.inj (Res.ok.inj (hT.symm.trans q1))
  refine ⟨q3, c, hd.coeffs, fun x hx => ?_, fun x out hx => ?_, fun data hne hdata => ?_⟩
  · rw [hd.value x (by rw [hx, i1]), hact.value x hx]
  · rw [hd.logDet x out (by rw [hx, i1]), hact.logDet x out hx]
  · rw [hd.objective _ data (C53_density (.dim n)).2.1 (by rw [o1]; rfl) fun x hx => by rw [hdata x hx, i1], hact.objective data hne hdata]

/-- **C125.** For every normal distribution, a map of positive order has coefficients with which the pullback of the standard normal density is the conditional density of that
distribution, exactly. -/
theorem C125_normal {o : MapOptions} {k n p : ℕ} (h0 : 0 < n) (h2 : k + n < 2 ^ 32) (hp : 1 ≤ p) (hB : GoodBasis o p) (hQ : GoodQuad o) (hcd : o.contDeriv = true)
    {mem : ℕ → Option ℝ} {work : List ℝ} {T : CMap} {w : List ℝ} (hT : createTriangular (k + n) n p o mem work = .ok (T, w)) (m : Fin (k + n) → ℝ)
    {S : Matrix (Fin (k + n)) (Fin (k + n)) ℝ} (hS : S.PosDef) :
    ∃ c P, c.length = T.numCoeffs ∧ Pullback.new T (Gaussian.ofDim n).density c = .ok P ∧ ∀ (x : List ℝ) (out : Option ℝ), x.length = k + n →
      P.logDensity x out = .ok (some (conditionalNormal m S x)) := by
  obtain ⟨s, a, β, hs, hy⟩ := exists_conditional m hS
  obtain ⟨-, c, hc, hact⟩ := acts_above h0 h2 hp hB hQ hcd hT (a := a) (β := β) hs
  obtain ⟨P, hP, hl⟩ := acts_logDensity h0 h2 hB hQ hcd hT hc hact
  exact ⟨c, P, hc, hP, fun x out hx => by rw [hl x out hx, hy]⟩

/-- **C125.** Where the training objective of a map of positive order is minimal, it is at most minus the mean log-density of the data under every normal distribution. -/
theorem C125_training {o : MapOptions} {k n p : ℕ} (h0 : 0 < n) (h2 : k + n < 2 ^ 32) (hp : 1 ≤ p) (hB : GoodBasis o p) (hQ : GoodQuad o) (hcd : o.contDeriv = true)
    {mem : ℕ → Option ℝ} {work : List ℝ} {T : CMap} {w : List ℝ} (hT : createTriangular (k + n) n p o mem work = .ok (T, w)) {data : List (List ℝ)} (hne : data ≠ [])
    (hdata : ∀ x ∈ data, x.length = k + n) {c : List ℝ} (hc : MinimisesKL T data c) {v : ℝ} (hv : KL.objective T (Gaussian.ofDim n).density c data = .ok (some v))
    (m : Fin (k + n) → ℝ) {S : Matrix (Fin (k + n)) (Fin (k + n)) ℝ} (hS : S.PosDef) : v ≤ -average data fun x => conditionalNormal m S x := by
  obtain ⟨s, a, β, hs, hy⟩ := exists_conditional m hS
  obtain ⟨ho, e, he, hact⟩ := acts_above h0 h2 hp hB hQ hcd hT (a := a) (β := β) hs
  obtain ⟨-, u, u1, u2⟩ := hc
  rw [ho] at u1 u2
  rw [hv] at u1
  cases u1
  have h := u2 e _ he (hact.objective data hne hdata)
  refine h.trans (le_of_eq ?_)
  rw [average_congr fun x _ => show conditionalNormal m S x
      = -(1 / 2) * ∑ i, affineOutput k s a β x i ^ 2 + (-(1 / 2 * (n * Real.log (2 * Real.pi))) + ∑ i, Real.log (s i)) by rw [← hy]; ring]
  rw [average_add, average_const hne, average_mul, average_sum, sum_sub_distrib, ← mul_sum]
  ring

/-- A map of order three with the default options, one output and one leading input, and two correlated variables. -/
example : ∃ T w c P, createTriangular 2 1 3 {} (fun _ => none) [] = .ok (T, w) ∧ c.length = T.numCoeffs ∧ Pullback.new T (Gaussian.ofDim 1).density c = .ok P ∧
    ∀ (x : List ℝ) (out : Option ℝ), x.length = 1 + 1 → P.logDensity x out = .ok (some (conditionalNormal (k := 1) (n := 1) ![5, -1] !![2, 1; 1, 1] x)) := by
  obtain ⟨hB, hQ⟩ := good_default 3 (by norm_num)
  obtain ⟨b, mesh, -, -, h63⟩ := C63_triangular_partial (inputDim := 2) (outputDim := 1) (by norm_num) (by norm_num) (by norm_num) hB hQ
  obtain ⟨T, -, s1, -⟩ := h63 (fun _ => none) []
  obtain ⟨c, P, h1, h2, h3⟩ := C125_normal (k := 1) (n := 1) (by norm_num) (by norm_num) (by norm_num) hB hQ rfl s1 ![5, -1] (S := !![2, 1; 1, 1]) (by
    refine Matrix.PosDef.of_dotProduct_mulVec_pos ?_ fun x hx => ?_
    · ext i j
      fin_cases i <;> fin_cases j <;> simp
    · have e : star x ⬝ᵥ (!![2, 1; 1, 1] : Matrix (Fin 2) (Fin 2) ℝ).mulVec x = x 0 ^ 2 + (x 0 + x 1) ^ 2 := by
        simp [dotProduct, Matrix.mulVec, Fin.sum_univ_two]
        ring
      refine lt_of_lt_of_eq ?_ e.symm
      by_contra hn
      have h0 : x 0 = 0 := by nlinarith [sq_nonneg (x 0), sq_nonneg (x 0 + x 1)]
      have h1 : x 1 = 0 := by rw [h0] at hn; nlinarith [sq_nonneg (x 1)]
      exact hx (funext fun i => by fin_cases i <;> assumption))
  exact ⟨T, _, c, P, s1, h1, h2, h3⟩

/-- A map of order two trained on two samples fits them at least as well as every normal distribution. -/
example : ∃ T w c v, createTriangular 1 1 2 pairOptions (fun _ => none) [] = .ok (T, w) ∧ MinimisesKL T [[-1], [1]] c ∧
    KL.objective T (Gaussian.ofDim 1).density c [[-1], [1]] = .ok (some v) ∧
    ∀ (m : Fin (0 + 1) → ℝ) (S : Matrix (Fin (0 + 1)) (Fin (0 + 1)) ℝ), S.PosDef → v ≤ -average [[-1], [1]] fun x => conditionalNormal m S x := by
  obtain ⟨T, w, c, t, hc, hB, hQ⟩ := pair_trained
  have hT : createTriangular (0 + 1) 1 2 pairOptions (fun _ => none) [] = .ok (T, w) := t
  have ho := (acts_above one_pos (by norm_num) one_le_two hB hQ rfl hT (s := fun _ => 1) (a := fun _ => 0) (β := fun _ _ => 0) fun _ => one_pos).1
  obtain ⟨v, hv, -⟩ := hc.2
  rw [ho] at hv
  exact ⟨T, w, c, v, t, hc, hv, fun m S hS => C125_training (k := 0) (n := 1) one_pos (by norm_num) one_le_two hB hQ rfl hT (by simp) (by simp) hc hv m hS⟩

end MParT
