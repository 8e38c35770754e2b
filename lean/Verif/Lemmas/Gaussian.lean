import Verif.Spec.Distributions
import Verif.Lemmas.Maps
import Verif.Props.Parallel
import Mathlib.LinearAlgebra.Matrix.DotProduct
import Mathlib.LinearAlgebra.Matrix.Block
/-! Lemmas about the Gaussian. -/
namespace MParT
open Spec

theorem KL.writeFrom_ok {R : Type} (rs : List R) : ∀ (mem : List R) (off : Nat), off + rs.length ≤ mem.length →
    KL.writeFrom mem off rs = .ok (mem.take off ++ rs ++ mem.drop (off + rs.length)) := by
  induction rs with
  | nil => intro mem off _; simp [KL.writeFrom]
  | cons r rs ih =>
    intro mem off h
    simp only [List.length_cons] at h
    have hlt : off < mem.length := by omega
    rw [KL.writeFrom, Res.setIdx_lt hlt, Res.bind_ok, ih _ _ (by simp; omega)]
    congr 1
    rw [List.take_set, List.drop_set_of_lt (by omega), List.take_add_one, List.getElem?_eq_getElem hlt]
    rw [List.set_append_right _ _ (by simp)]
    simp only [List.length_take, Option.toList_some]
    rw [Nat.min_eq_left hlt.le, Nat.sub_self]
    simp [Nat.add_assoc, Nat.add_comm 1]

namespace Gaussian

theorem subtractAll_ok (off : Nat) (v : ℝ) (n : Nat) : ∀ (mem : List ℝ) (j : Nat), off + j + n ≤ mem.length →
    subtractAll mem off 1 v j n
      = .ok (mem.take (off + j) ++ ((mem.drop (off + j)).take n).map (· - v) ++ mem.drop (off + j + n)) := by
  induction n with
  | zero => intro mem j _; simp [subtractAll]
  | succ n ih =>
    intro mem j h
    have hlt : off + j < mem.length := by omega
    rw [subtractAll, Nat.mul_one, Res.idx_lt hlt, Res.bind_ok, Res.setIdx_lt hlt, Res.bind_ok, ih _ _ (by simp; omega)]
    congr 1
    have e1 : off + (j + 1) = off + j + 1 := by omega
    rw [e1]
    rw [List.take_set, List.drop_set_of_lt (by omega), List.drop_set_of_lt (by omega), List.take_add_one,
      List.getElem?_eq_getElem hlt, List.drop_eq_getElem_cons hlt, List.set_append_right _ _ (by simp)]
    simp only [List.length_take, Option.toList_some, List.take_succ_cons, List.map_cons]
    rw [Nat.min_eq_left hlt.le, Nat.sub_self]
    simp [Nat.add_assoc, Nat.add_comm 1]

/-- The number that is computed for a column. -/
noncomputable def colLogDensity (g : Gaussian) (x : List ℝ) : ℝ :=
  -0.5 * (∑ i, g.whiten (g.diff (colVec g.dim x)) i ^ 2) - 0.5 * (g.dim * Real.log (2 * Real.pi) + g.logDetCov)

theorem sum_range_fin {n : Nat} (f : Fin n → ℝ) :
    ((List.range n).map fun i => (if h : i < n then f ⟨i, h⟩ else 0) ^ 2).sum = ∑ i, f i ^ 2 := by
  have := (Finset.sum_range fun i => (if h : i < n then f ⟨i, h⟩ else 0) ^ 2).trans
    (Finset.sum_congr rfl fun i _ => by simp : _ = ∑ i, f i ^ 2)
  rw [← this]
  rfl

theorem logDensityImpl_ok (g : Gaussian) {pts : List (List ℝ)} (hpts : ∀ x ∈ pts, x.length = g.dim)
    {split : Parallel.Split} (hs : split.indices.Perm (List.range g.dim)) {mem : List ℝ} {off : Nat}
    (hm : off + pts.length ≤ mem.length) :
    g.logDensityImpl pts split mem off 1
      = .ok (mem.take off ++ pts.map g.colLogDensity ++ mem.drop (off + pts.length)) := by
  have h0 : pts.any (fun x => x.length ≠ g.dim) = false := by
    rw [List.any_eq_false]; intro x hx; simp [hpts x hx]
  rw [logDensityImpl, h0]
  simp only [Bool.false_eq_true, if_false]
  rw [Parallel.C51_reduce _ _ _ _ _ _ _ hs]
  rw [KL.writeFrom_ok _ _ _ (by simpa using hm), Res.bind_ok, subtractAll_ok _ _ _ _ _ (by simp; omega)]
  congr 1
  have hl : (mem.take off).length = off := by simp; omega
  simp only [List.length_map, List.length_range, Nat.add_zero, Bool.false_eq_true, if_false]
  set rr := (List.range pts.length).map _ with hrr
  have hrl : rr.length = pts.length := by simp [hrr]
  rw [List.append_assoc, List.append_assoc, List.append_assoc]
  rw [List.take_append_of_le_length (by omega), List.take_of_length_le (by omega)]
  congr 1
  have e1 : List.drop off (mem.take off ++ (rr ++ mem.drop (off + pts.length))) = rr ++ mem.drop (off + pts.length) := by
    rw [List.drop_append_of_le_length (by omega), List.drop_of_length_le (by omega), List.nil_append]
  have e2 : List.drop (off + pts.length) (mem.take off ++ (rr ++ mem.drop (off + pts.length)))
      = mem.drop (off + pts.length) := by
    rw [← List.drop_drop, e1, List.drop_append_of_le_length (by omega), List.drop_of_length_le (by omega), List.nil_append]
  rw [e1, e2, List.take_append_of_le_length (by omega), List.take_of_length_le (by omega)]
  congr 1
  refine List.ext_getElem (by simp [hrl]) fun j h1 h2 => ?_
  simp only [hrr, List.getElem_map, List.getElem_range, colLogDensity]
  have hj : j < pts.length := by simpa using h2
  congr 2
  have e : ((pts.map fun x => g.whiten (g.diff (colVec g.dim x))).getD j 0) = g.whiten (g.diff (colVec g.dim pts[j])) := by
    rw [List.getD_eq_getElem?_getD]; simp [hj]
  rw [e]
  exact sum_range_fin _

end Gaussian

/-! ## The covariance and its factor -/

theorem _root_.MParT.Spec.IsCholesky.det_pos {n : Nat} {L Sig : Matrix (Fin n) (Fin n) ℝ} (h : IsCholesky L Sig) : 0 < L.det := by
  have : L.BlockTriangular OrderDual.toDual := fun i j hij => h.1 i j hij
  rw [Matrix.det_of_lowerTriangular L this]
  exact Finset.prod_pos fun i _ => h.2.1 i

theorem _root_.MParT.Spec.IsCholesky.det_eq {n : Nat} {L Sig : Matrix (Fin n) (Fin n) ℝ} (h : IsCholesky L Sig) :
    Sig.det = L.det * L.det := by
  rw [← h.2.2, Matrix.det_mul, Matrix.det_transpose]

theorem _root_.MParT.Spec.IsCholesky.inv_eq {n : Nat} {L Sig : Matrix (Fin n) (Fin n) ℝ} (h : IsCholesky L Sig) :
    Sig⁻¹ = L.transpose⁻¹ * L⁻¹ := by
  rw [← h.2.2, Matrix.mul_inv_rev]

theorem isCholesky_one (n : Nat) : IsCholesky (1 : Matrix (Fin n) (Fin n) ℝ) 1 :=
  ⟨fun i j h => Matrix.one_apply_ne h.ne, fun i => by simp, by simp⟩

/-- The squared norm of the solution with the factor is the quadratic form of the inverse covariance. -/
theorem _root_.MParT.Spec.IsCholesky.quad {n : Nat} {L Sig : Matrix (Fin n) (Fin n) ℝ} (h : IsCholesky L Sig) (d : Fin n → ℝ) :
    ∑ i, (L⁻¹.mulVec d) i ^ 2 = ∑ i, ∑ j, d i * Sig⁻¹ i j * d j := by
  have e1 : ∑ i, (L⁻¹.mulVec d) i ^ 2 = (L⁻¹.mulVec d) ⬝ᵥ (L⁻¹.mulVec d) :=
    Finset.sum_congr rfl fun i _ => pow_two _
  have e2 : ∑ i, ∑ j, d i * Sig⁻¹ i j * d j = d ⬝ᵥ (Sig⁻¹.mulVec d) := by
    refine Finset.sum_congr rfl fun i _ => ?_
    rw [Matrix.mulVec, dotProduct, Finset.mul_sum]
    exact Finset.sum_congr rfl fun j _ => mul_assoc _ _ _
  rw [e1, e2, h.inv_eq, ← Matrix.mulVec_mulVec, Matrix.dotProduct_mulVec d, ← Matrix.mulVec_transpose,
    Matrix.transpose_nonsing_inv, Matrix.transpose_transpose]

end MParT
