import Verif.Props.LinearAlgebra
import Verif.Props.Gaussian
/-!
# C71, C53: the linear solves that the maps and the Gaussian distribution use
-/
namespace MParT

open Spec LinAlg

/-- One column as a view. -/
def columnView (n : Nat) (x : Fin n → ℝ) : View2 ℝ := ⟨n, 1, fun i _ => if h : i < n then x ⟨i, h⟩ else 0⟩

theorem columnView_isMat {n : Nat} (x : Fin n → ℝ) :
    IsMat (columnView n x) (Matrix.of fun (i : Fin n) (_ : Fin 1) => x i) := ⟨rfl, rfl, fun i j => by simp [columnView]⟩

theorem solution_eq {n : Nat} {A : Matrix (Fin n) (Fin n) ℝ} (hd : IsUnit A.det) {X : Matrix (Fin n) (Fin 1) ℝ} {x : Fin n → ℝ}
    (h : A * X = Matrix.of fun i _ => x i) (i : Fin n) : X i 0 = A⁻¹.mulVec x i := by
  have h1 : A.mulVec (fun j => X j 0) = x := by
    funext k
    have := congrFun (congrFun h k) 0
    rw [Matrix.mul_apply] at this
    exact this
  rw [← h1, Matrix.mulVec_mulVec, Matrix.nonsing_inv_mul _ hd, Matrix.one_mulVec]

/-- C71: the solve that `AffineMap` uses for its inverse is the one with the LU factors. -/
theorem C71_affine {n : Nat} {A : Matrix (Fin n) (Fin n) ℝ} {f : LU n} (h : Factorises A f) (hd : A.det ≠ 0) {x : List ℝ}
    (hx : x.length = n) :
    ∃ y z, AffineMap.solve A x = .ok y ∧ luSolve (some f) (columnView n fun i => x.getD i 0) = .ok z ∧ y.length = n ∧
      z.n0 = n ∧ z.n1 = 1 ∧ ∀ i : Fin n, y.getD i 0 = z.get i 0 := by
  obtain ⟨z, X, h1, _, ⟨z0, z1, hz⟩, h3⟩ := C71_solve_partial h hd (columnView_isMat fun i => x.getD i 0)
  refine ⟨_, z, by rw [AffineMap.solve, if_neg hd, if_neg (by omega)], h1, by simp, z0, z1, fun i => ?_⟩
  rw [← Fin.val_zero 1, hz i 0, solution_eq (isUnit_iff_ne_zero.mpr hd) h3 i]
  simp [List.getD_eq_getElem?_getD]

/-- C71: the solves and the determinant that the Gaussian distribution uses are those with the Cholesky factor. -/
theorem C71_gaussian {n : Nat} {L S : Matrix (Fin n) (Fin n) ℝ} (h : IsCholesky L S) {μ : Fin n → ℝ} {lay : Layout} {g : Gaussian}
    (hg : Gaussian.ofMeanCov μ L lay = .ok g) :
    (∀ x : Fin n → ℝ, ∃ z, cholSolveInPlaceL (some L) (columnView n x) = .ok z ∧
      ∀ i : Fin n, z.get i 0 = L⁻¹.mulVec x i) ∧
    (∀ x : Fin n → ℝ, ∃ z, cholSolve (some L) (columnView n x) = .ok z ∧
      ∀ i : Fin n, z.get i 0 = L.transpose⁻¹.mulVec (L⁻¹.mulVec x) i) ∧
    (∀ x : Fin n → ℝ, ∃ z, cholMultiplyL (some L) (columnView n x) = .ok z ∧ ∀ i : Fin n, z.get i 0 = L.mulVec x i) ∧
    (∃ d, cholDeterminant (some L) = .ok d ∧ g.logDetCov = Real.log d) := by
  have hLu : IsUnit L.det := by
    rw [isUnit_iff_ne_zero, Matrix.det_of_isLowerTriangular _ (fun i j hij => h.1 i j hij)]
    exact Finset.prod_ne_zero_iff.mpr fun i _ => (h.2.1 i).ne'
  have hsym : lowerSym S = S := by
    ext i j
    simp only [lowerSym, Matrix.of_apply]
    split
    · rfl
    · rw [← h.2.2, Matrix.mul_apply, Matrix.mul_apply]
      exact Finset.sum_congr rfl fun k _ => by simp [mul_comm]
  have hSu : IsUnit S.det := by
    rw [← h.2.2, Matrix.det_mul, Matrix.det_transpose]; exact hLu.mul hLu
  refine ⟨fun x => ?_, fun x => ?_, fun x => ?_, ?_⟩
  · obtain ⟨y, Y, h1, ⟨_, _, h2⟩, h3⟩ := (C71_cholesky_half h (columnView_isMat x)).1
    refine ⟨y, h1, fun i => ?_⟩
    rw [← Fin.val_zero 1, h2 i 0, solution_eq hLu h3 i]
  · obtain ⟨y, Y, h1, _, ⟨_, _, h2⟩, h3⟩ := C71_cholesky_solve (A := S) (by rwa [hsym]) (columnView_isMat x)
    rw [hsym] at h3
    refine ⟨y, h1, fun i => ?_⟩
    rw [← Fin.val_zero 1, h2 i 0, solution_eq hSu h3 i, Matrix.mulVec_mulVec, ← Matrix.mul_inv_rev, h.2.2]
  · obtain ⟨z, h1, ⟨_, _, h2⟩⟩ := (C71_cholesky_half h (columnView_isMat x)).2
    refine ⟨z, h1, fun i => ?_⟩
    rw [← Fin.val_zero 1, h2 i 0, Matrix.mul_apply]
    rfl
  · refine ⟨S.det, C71_cholesky_determinant h, ?_⟩
    rw [Gaussian.ofMeanCov_ok hg, ← h.2.2, Matrix.det_mul, Matrix.det_transpose]
    rfl

/-- C53: for every mean and every symmetric positive definite covariance matrix (stored by columns) there is exactly one object
that the constructor can return, and it is constructed with that mean and covariance. -/
theorem C53_covariance {n : Nat} (μ : Fin n → ℝ) {Sig : Matrix (Fin n) (Fin n) ℝ} (h : Sig.PosDef) :
    ∃! g, ∃ L, IsCholesky L Sig ∧ Gaussian.ofMeanCov μ L (Layout.left n n) = .ok g ∧ Constructed μ Sig g := by
  obtain ⟨L, hL, huniq⟩ := (C71_cholesky_exists Sig).mp h
  have e : Gaussian.ofMeanCov μ L (Layout.left n n) = .ok ⟨n, some μ, some L, Gaussian.logDet L⟩ := by
    rw [Gaussian.ofMeanCov, Layout.toLeft, if_pos ⟨rfl, rfl⟩]; rfl
  refine ⟨_, ⟨L, hL, e, .meanCov hL e⟩, ?_⟩
  rintro g ⟨M, hM, hg, _⟩
  rw [huniq M hM] at hg
  exact (Gaussian.ofMeanCov_ok hg)

/-- C53: only positive definite covariances have an object. -/
theorem C53_covariance_posDef {n : Nat} {μ : Fin n → ℝ} {Sig : Matrix (Fin n) (Fin n) ℝ} {g : Gaussian} (h : Constructed μ Sig g) :
    Sig.PosDef := by
  cases h with
  | meanCov hL _ => exact (C71_cholesky_exists Sig).mpr ⟨_, hL, fun M hM => cholesky_unique hM hL⟩
  | cov hL _ => exact (C71_cholesky_exists Sig).mpr ⟨_, hL, fun M hM => cholesky_unique hM hL⟩
  | mean => exact Matrix.PosDef.one
  | dim => exact Matrix.PosDef.one

end MParT
