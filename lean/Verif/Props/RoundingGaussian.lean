import Verif.Model.RoundingGaussian
import Verif.Props.Rounding
import Verif.Spec.Distributions
/-! Property C103 for the log-density of a Gaussian. -/
namespace MParT
open Spec Parallel

namespace Gaussian
variable {u : ℝ} {fl : ℝ → ℝ}

/-- Two errors after one another. -/
theorem within_trans {u : ℝ} (hu : 0 ≤ u) {k l : Nat} {x a b A B : ℝ} (h : Within u k x a A) (hA : A ≤ (1 + u) ^ l * B) (h2 : Within u l a b B) :
    Within u (k + l) x b B := by
  unfold Within at *
  have hk : 0 ≤ (1 + u) ^ k - 1 := by
    have := one_le_pow₀ (show 1 ≤ 1 + u by linarith) (n := k)
    linarith
  calc |x - b| ≤ |x - a| + |a - b| := abs_sub_le x a b
    _ ≤ ((1 + u) ^ k - 1) * ((1 + u) ^ l * B) + ((1 + u) ^ l - 1) * B :=
      add_le_add (h.trans (mul_le_mul_of_nonneg_left hA hk)) h2
    _ = _ := by rw [pow_add]; ring

/-- The squares of numbers that are each rounded once. -/
theorem sum_sq (hu : 0 ≤ u) (d e : Nat → ℝ) (h : ∀ i, |e i - d i| ≤ u * |d i|) (l : List Nat) :
    |(l.map fun i => e i ^ 2).sum - (l.map fun i => d i ^ 2).sum| ≤ ((1 + u) ^ 2 - 1) * (l.map fun i => d i ^ 2).sum := by
  induction l with
  | nil => simp
  | cons i l ih =>
    simp only [List.map_cons, List.sum_cons]
    have h1 : |e i ^ 2 - d i ^ 2| ≤ ((1 + u) ^ 2 - 1) * d i ^ 2 := by
      have h2 : |e i + d i| ≤ (2 + u) * |d i| := by
        calc |e i + d i| = |(e i - d i) + 2 * d i| := by ring_nf
          _ ≤ |e i - d i| + |2 * d i| := abs_add_le _ _
          _ ≤ _ := by rw [abs_mul, abs_two]; linarith [h i]
      rw [show e i ^ 2 - d i ^ 2 = (e i - d i) * (e i + d i) by ring, abs_mul, ← sq_abs (d i)]
      calc _ ≤ u * |d i| * ((2 + u) * |d i|) := mul_le_mul (h i) h2 (abs_nonneg _) (by positivity)
        _ = _ := by ring
    calc _ = |(e i ^ 2 - d i ^ 2) + ((l.map fun i => e i ^ 2).sum - (l.map fun i => d i ^ 2).sum)| := by ring_nf
      _ ≤ _ := (abs_add_le _ _).trans (by linarith)

theorem logDensity_identity {n : Nat} (μ x : Fin n → ℝ) :
    normalLogDensity μ 1 x = -(1 / 2) * (∑ i, (x i - μ i) ^ 2) - 1 / 2 * (n * Real.log (2 * Real.pi)) := by
  simp only [normalLogDensity, inv_one, Matrix.det_one, Real.log_one, add_zero]
  congr 2
  refine Finset.sum_congr rfl fun i _ => ?_
  rw [Finset.sum_eq_single i]
  · simp; ring
  · intro j _ hj; simp [Matrix.one_apply_ne (Ne.symm hj)]
  · simp

end Gaussian
open Gaussian

variable {u : ℝ} {fl : ℝ → ℝ}

/-- **C103, log-density of a Gaussian.** With unit covariance, any mean (or none) and any number of points, for every order in which the squares of a
point are added: each number differs from the log-density by the error of as many roundings as there are additions, five, and those in the constant
`log 2π`, relative to the sum of the absolute values of the terms. -/
theorem C103_gaussian (hfl : RelError u fl) {n N : Nat} (μ : List ℝ) (x : Nat → Nat → ℝ) {q : Nat} {logtau : Fl fl}
    (ht : Within u q logtau.val (Real.log (2 * Real.pi)) (Real.log (2 * Real.pi))) {s : Split} (hs : s.indices.Perm (List.range n)) :
    ∀ j < N, ∃ y, (logDensity (Fl.of (-0.5)) (Fl.of 0.5) (Fl.of (n : ℝ)) logtau 0 N (μ.map (Fl.of (fl := fl)))
        (fun i j => Fl.of (x i j)) s)[j]? = some y ∧
      Within u (additions s + q + 5) y.val (normalLogDensity (fun i : Fin n => μ.getD i 0) 1 fun i => x i j)
        (1 / 2 * (∑ i : Fin n, (x i j - μ.getD i 0) ^ 2) + 1 / 2 * (n * Real.log (2 * Real.pi))) := by
  intro j hj
  have hu := hfl.nonneg
  set D : Nat → Nat → Fl fl := diffEntry (μ.map (Fl.of (fl := fl))) fun i j => Fl.of (x i j) with hD
  obtain ⟨y, hy, hw⟩ := (C103_reduce hfl .norm false N n D (Fl.of (-0.5)) s hs).2 j hj
  refine ⟨_, by rw [logDensity, List.getElem?_map, hy, Option.map_some], ?_⟩
  have hd : ∀ i, |(D i j).val - (x i j - μ.getD i 0)| ≤ u * |x i j - μ.getD i 0| := by
    intro i
    simp only [hD, diffEntry, List.length_map]
    split
    · rename_i h
      rw [List.length_eq_zero_iff.mp h]
      simp only [List.getD_nil, sub_zero]
      rw [show (Fl.of (x i j) : Fl fl).val = x i j from rfl, sub_self, abs_zero]
      positivity
    · have e : ((μ.map (Fl.of (fl := fl))).getD i 0).val = μ.getD i 0 := by
        by_cases h : i < μ.length
        · simp [List.getD_eq_getElem?_getD, h, Fl.of, Fl.val]
          rfl
        · simp [List.getD_eq_getElem?_getD, h]
          rfl
      have := hfl.bound (x i j - μ.getD i 0)
      rw [← e] at this ⊢
      exact this
  have hsq := sum_sq hu (fun i => x i j - μ.getD i 0) (fun i => (D i j).val) hd (List.range n)
  have hr : ∀ f : Nat → ℝ, ((List.range n).map f).sum = ∑ i : Fin n, f i := fun f => by
    rw [← List.sum_toFinset _ List.nodup_range, List.toFinset_range, Finset.sum_range]
  have ha : ∀ i, |summand .norm false D j i| = summand .norm false D j i := fun i => abs_of_nonneg (by simp only [summand]; positivity)
  simp only [ha] at hw
  have hsm : summand .norm false D j = fun i => (D i j).val ^ 2 := by
    funext i
    simp only [summand, Bool.false_eq_true, if_false]
  simp only [hsm] at hw
  rw [show (Fl.of (-0.5) : Fl fl).val = -0.5 from rfl] at hw
  rw [hr, hr] at hsq
  rw [hr] at hw
  set S' := ∑ i : Fin n, (D i j).val ^ 2
  set S := ∑ i : Fin n, (x i j - μ.getD i 0) ^ 2 with hS
  have hS0 : 0 ≤ S := Finset.sum_nonneg fun i _ => sq_nonneg _
  have hc : Close u (additions s + 2 + 2) y.val (-(1 / 2) * S) (1 / 2 * S) := by
    refine ⟨within_trans hu hw ?_ ?_, ?_⟩
    · have := (abs_le.mp hsq).2
      rw [abs_of_neg (by norm_num)]
      nlinarith
    · unfold Within
      rw [show -0.5 * S' - -(1 / 2) * S = -(1 / 2) * (S' - S) by ring, abs_mul, abs_neg, abs_of_pos (by norm_num)]
      linarith
    · rw [abs_mul, abs_neg, abs_of_pos (by norm_num), abs_of_nonneg hS0]
  have hl : 0 ≤ Real.log (2 * Real.pi) := Real.log_nonneg (by have := Real.two_le_pi; linarith)
  have hk : Close u (q + 3) ((Fl.of 0.5 : Fl fl) * ((Fl.of (n : ℝ)) * logtau + 0)).val (1 / 2 * (n * Real.log (2 * Real.pi)))
      (1 / 2 * (n * Real.log (2 * Real.pi))) := by
    have h1 := (Close.exact hu 0 ((n : ℝ))).mul (x' := Fl.of (n : ℝ)) hfl (⟨ht, (abs_of_nonneg hl).le⟩ : Close u q logtau.val _ _)
    have h2 := h1.add hfl (Close.zero hu _)
    have h3 := (Close.exact hu 0 (0.5 : ℝ)).mul (x' := Fl.of (0.5 : ℝ)) hfl h2
    rw [Nat.abs_cast, abs_of_pos (by norm_num), add_zero, show (0.5 : ℝ) = 1 / 2 by norm_num] at h3
    rw [show q + 3 = 0 + (0 + q + 1 + 1) + 1 by omega, show (0.5 : ℝ) = 1 / 2 by norm_num]
    exact h3
  rw [logDensity_identity]
  have := (hc.mono hu (show _ ≤ additions s + q + 4 by omega)).sub hfl (hk.mono hu (by omega))
  exact this.within

/-- Non-vacuous: two variables, one point and a mean; `log 2π` rounded once. -/
example : ∃ y, (logDensity (Fl.of (-0.5)) (Fl.of 0.5) (Fl.of ((2 : ℕ) : ℝ)) (Fl.of (nearest 53 (Real.log (2 * Real.pi)))) 0 1
      (([0.1, 0.2] : List ℝ).map (Fl.of (fl := nearest 53))) (fun i _ => Fl.of (0.3 * (i : ℝ))) (.chunk [1, 0]))[0]? = some y ∧
    Within (2 ^ (-53 : ℤ)) 8 y.val (normalLogDensity (fun i : Fin 2 => [0.1, 0.2].getD i 0) 1 fun i => 0.3 * ((i : ℕ) : ℝ))
      (1 / 2 * (∑ i : Fin 2, (0.3 * ((i : ℕ) : ℝ) - [0.1, 0.2].getD i 0) ^ 2) + 1 / 2 * ((2 : ℕ) * Real.log (2 * Real.pi))) := by
  refine C103_gaussian C103_double [0.1, 0.2] (fun i _ => 0.3 * (i : ℝ)) (q := 1) ?_ (s := .chunk [1, 0]) (by decide) 0 (by omega)
  have := C103_double.bound (Real.log (2 * Real.pi))
  rw [abs_of_nonneg (Real.log_nonneg (by have := Real.two_le_pi; linarith) : 0 ≤ Real.log (2 * Real.pi))] at this
  unfold Within
  rw [pow_one, add_sub_cancel_left]
  exact this

end MParT
