import Verif.Spec.Expansion
import Mathlib.Topology.ContinuousMap.StoneWeierstrass
import Mathlib.Topology.Algebra.MvPolynomial
import Mathlib.RingTheory.Adjoin.Polynomial.Basic
import Mathlib.Algebra.MvPolynomial.Equiv
import Mathlib.Algebra.Polynomial.Degree.Lemmas
import Mathlib.Algebra.Polynomial.Eval.Degree
/-!
# Polynomials approximate, and expansions are all the polynomials
-/
namespace MParT
open Finset Spec

/-! ### One variable -/

open Polynomial in
/-- Polynomials of degrees 0, 1, …, p span the polynomials of degree up to p. -/
theorem spans_degree {Q : ℕ → ℝ[X]} : ∀ (n : ℕ), (∀ k ≤ n, (Q k).natDegree = k ∧ Q k ≠ 0) → ∀ P : ℝ[X], P.natDegree ≤ n →
    ∃ a : ℕ → ℝ, P = ∑ k ∈ range (n + 1), C (a k) * Q k := by
  intro n
  induction n with
  | zero =>
    intro hQ P hP
    obtain ⟨h1, h2⟩ := hQ 0 le_rfl
    obtain ⟨q, hq⟩ := natDegree_eq_zero.1 h1
    obtain ⟨c, hc⟩ := natDegree_eq_zero.1 (Nat.le_zero.1 hP)
    have hq0 : q ≠ 0 := by rintro rfl; exact h2 (by rw [← hq, C_0])
    refine ⟨fun _ => c / q, ?_⟩
    rw [sum_range_one, ← hq, ← hc, ← C_mul, div_mul_cancel₀ _ hq0]
  | succ n ih =>
    intro hQ P hP
    obtain ⟨h1, h2⟩ := hQ (n + 1) le_rfl
    have hl : (Q (n + 1)).coeff (n + 1) ≠ 0 := by
      have := leadingCoeff_ne_zero.2 h2
      rwa [leadingCoeff, h1] at this
    obtain ⟨a, ha⟩ := ih (fun k hk => hQ k (by omega)) (P - C (P.coeff (n + 1) / (Q (n + 1)).coeff (n + 1)) * Q (n + 1)) (by
      refine natDegree_le_iff_coeff_eq_zero.2 fun m hm => ?_
      rcases Nat.lt_or_eq_of_le (show n + 1 ≤ m from hm) with h | h
      · rw [coeff_sub, coeff_C_mul, coeff_eq_zero_of_natDegree_lt (p := P) (by omega), coeff_eq_zero_of_natDegree_lt (p := Q (n + 1)) (n := m) (by omega),
          mul_zero, sub_zero]
      · subst h
        rw [coeff_sub, coeff_C_mul, div_mul_cancel₀ _ hl, sub_self])
    refine ⟨Function.update a (n + 1) (P.coeff (n + 1) / (Q (n + 1)).coeff (n + 1)), ?_⟩
    rw [sum_range_succ, Function.update_self, sum_congr rfl fun k hk => by
      rw [Function.update_of_ne (by have := mem_range.1 hk; omega)], ← ha]
    ring

/-! ### Expansions -/

/-- The function is an expansion over the multi-indices `ts`. -/
def Reps (b : Basis ℝ) (D : ℕ) (ts : List (List ℕ)) (F : (ℕ → ℝ) → ℝ) : Prop :=
  ∃ a : ℕ → ℝ, ∀ X, F X = ∑ k ∈ range ts.length, a k * ∏ d ∈ range D, b.val ((ts.getD k []).getD d 0) (X d)

namespace Reps
variable {b : Basis ℝ} {D : ℕ} {ts : List (List ℕ)} {F G : (ℕ → ℝ) → ℝ}

theorem expand (h : Reps b D ts F) : ∃ c : List ℝ, c.length = ts.length ∧ ∀ X, expandAt b D ts c X = F X := by
  obtain ⟨a, ha⟩ := h
  refine ⟨(List.range ts.length).map a, by simp, fun X => ?_⟩
  rw [ha, expandAt, expansion]
  refine sum_congr rfl fun k hk => ?_
  congr 1
  simp [mem_range.1 hk]

theorem zero : Reps b D ts fun _ => 0 := ⟨fun _ => 0, fun X => by simp⟩

theorem add (hF : Reps b D ts F) (hG : Reps b D ts G) : Reps b D ts fun X => F X + G X := by
  obtain ⟨a, ha⟩ := hF
  obtain ⟨a', ha'⟩ := hG
  exact ⟨fun k => a k + a' k, fun X => by simp only [ha, ha', ← sum_add_distrib]; exact sum_congr rfl fun k _ => by ring⟩

theorem mul (v : ℝ) (hF : Reps b D ts F) : Reps b D ts fun X => v * F X := by
  obtain ⟨a, ha⟩ := hF
  exact ⟨fun k => v * a k, fun X => by simp only [ha, mul_sum]; exact sum_congr rfl fun k _ => by ring⟩

theorem sum {ι : Type} (S : Finset ι) {F : ι → (ℕ → ℝ) → ℝ} (h : ∀ i ∈ S, Reps b D ts (F i)) : Reps b D ts fun X => ∑ i ∈ S, F i X := by
  classical
  induction S using Finset.induction_on with
  | empty => simpa using zero
  | insert i S hi ih =>
    simp only [sum_insert hi]
    exact (h i (by simp)).add (ih fun j hj => h j (by simp [hj]))

theorem term (α : Fin D → ℕ) (h : List.ofFn α ∈ ts) : Reps b D ts fun X => ∏ i : Fin D, b.val (α i) (X i) := by
  obtain ⟨k, hk, e⟩ := List.mem_iff_getElem.1 h
  refine ⟨fun j => if j = k then 1 else 0, fun X => ?_⟩
  simp only [ite_mul, one_mul, zero_mul]
  rw [sum_ite_eq' (range ts.length) k, if_pos (mem_range.2 hk), List.getD_eq_getElem?_getD, List.getElem?_eq_getElem hk, Option.getD_some, e,
    ← Fin.prod_univ_eq_prod_range (fun d => b.val ((List.ofFn α).getD d 0) (X d))]
  refine prod_congr rfl fun i _ => ?_
  simp

open Polynomial in
/-- Products of polynomials in the single variables, times the weight in each of them, are expansions, if the basis consists of weighted
polynomials from order `q` on and the multi-indices up to the sum of the degrees are there. -/
theorem prod {p q : ℕ} {w : ℝ → ℝ} {Q : ℕ → ℝ[X]} (hQ : ∀ k, k + q ≤ p → (Q k).natDegree = k ∧ Q k ≠ 0)
    (hb : ∀ k, k + q ≤ p → ∀ x, b.val (k + q) x = (Q k).eval x * w x)
    (hts : ∀ v : List ℕ, v.length = D → v.sum ≤ p → v ∈ ts) (P : Fin D → ℝ[X]) (hP : ∑ i, ((P i).natDegree + q) ≤ p) :
    Reps b D ts fun X => ∏ i : Fin D, ((P i).eval (X i) * w (X i)) := by
  have hle : ∀ i, (P i).natDegree + q ≤ p := fun i => (single_le_sum (f := fun i => (P i).natDegree + q) (fun _ _ => Nat.zero_le _) (mem_univ i)).trans hP
  choose a ha using fun i => spans_degree (Q := Q) (P i).natDegree (fun k hk => hQ k (by have := hle i; omega)) (P i) le_rfl
  have he : ∀ (i : Fin D) (x : ℝ), (P i).eval x * w x = ∑ k ∈ range ((P i).natDegree + 1), a i k * b.val (k + q) x := fun i x => by
    conv_lhs => rw [ha i]
    rw [eval_finsetSum, sum_mul]
    refine sum_congr rfl fun k hk => ?_
    rw [eval_mul, eval_C, hb k (by have := mem_range.1 hk; have := hle i; omega), mul_assoc]
  simp only [he, prod_univ_sum, prod_mul_distrib]
  refine Reps.sum _ fun α hα => Reps.mul _ (term (fun i => α i + q) (hts _ (by simp) ?_))
  rw [List.sum_ofFn]
  refine (sum_le_sum fun i _ => ?_).trans hP
  have := mem_range.1 (Fintype.mem_piFinset.1 hα i)
  omega

end Reps

/-! ### Several variables -/

open MvPolynomial in
/-- A continuous function is within any `δ > 0` of a polynomial on a box. -/
theorem polynomial_near {n : ℕ} {G : (Fin n → ℝ) → ℝ} (hG : Continuous G) (r : ℝ) {δ : ℝ} (hδ : 0 < δ) :
    ∃ Q : MvPolynomial (Fin n) ℝ, ∀ x : Fin n → ℝ, (∀ i, |x i| ≤ r) → |eval x Q - G x| ≤ δ := by
  set φ : MvPolynomial (Fin n) ℝ →ₐ[ℝ] C(Fin n → ℝ, ℝ) := aeval fun i => ⟨fun x => x i, continuous_apply i⟩ with hφ
  have hev : ∀ Q x, φ Q x = eval x Q := by
    intro Q x
    induction Q using MvPolynomial.induction_on with
    | C a => simp [hφ]
    | add p q hp hq => rw [map_add, ContinuousMap.add_apply, hp, hq, map_add]
    | mul_X p i hp => rw [map_mul, ContinuousMap.mul_apply, hp, map_mul, eval_X]; simp [hφ]
  have hsep : φ.range.SeparatesPoints := by
    intro x y hxy
    obtain ⟨i, hi⟩ := Function.ne_iff.1 hxy
    refine ⟨_, ⟨φ (X i), ⟨X i, rfl⟩, rfl⟩, ?_⟩
    simpa only [hev, eval_X] using hi
  have hK : IsCompact (Set.pi Set.univ fun _ : Fin n => Set.Icc (-r) r) := isCompact_univ_pi fun _ => isCompact_Icc
  obtain ⟨g, ⟨Q, rfl⟩, h⟩ := ContinuousMap.exists_mem_subalgebra_near_continuous_of_isCompact_of_separatesPoints hsep ⟨G, hG⟩ hK hδ
  refine ⟨Q, fun x hx => ?_⟩
  have := h x fun i _ => abs_le.1 (hx i)
  rw [← hev]
  exact le_of_lt this

end MParT
