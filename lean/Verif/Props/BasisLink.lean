import Verif.Props.Hermite
import Verif.Props.Expansion
/-!
# The library's bases meet the hypotheses of the expansion theorems C23, C24, C60
-/
namespace MParT
open Spec OrthoPoly Hermite

/-- The abstract basis of the expansion model whose members are `F` and its derivatives. -/
noncomputable def Spec.basisOf (F : Nat → ℝ → ℝ) : Basis ℝ :=
  ⟨F, fun n => deriv (F n), fun n => deriv (deriv (F n))⟩

theorem smooth_basisOf {F : Nat → ℝ → ℝ} (h0 : ∀ y, F 0 y = 1) (h1 : ∀ n, Differentiable ℝ (F n))
    (h2 : ∀ n, Differentiable ℝ (deriv (F n))) : SmoothBasis (Spec.basisOf F) :=
  ⟨h0, fun n y => (h1 n y).hasDerivAt, fun n y => (h2 n y).hasDerivAt⟩

/-- **C24.** The three unnormalised bases offered by the map factory satisfy the hypotheses of the derivative
theorems: constant first member, true first and second derivatives. -/
theorem C24_bases : SmoothBasis (Spec.basisOf He) ∧ SmoothBasis (Spec.basisOf Hp) ∧
    SmoothBasis (Spec.basisOf hermiteFn) := by
  have e1 : ∀ k, polyVal (probabilistHermite false) k = He k := fun k => funext fun x => by
    rw [← C25_evaluate, C27_probabilist]; rfl
  have e2 : ∀ k, polyVal (physicistHermite false) k = Hp k := fun k => funext fun x => by
    rw [← C25_evaluate, C27_physicist]; rfl
  refine ⟨smooth_basisOf He_zero (fun n => ?_) (fun n => ?_), smooth_basisOf Hp_zero (fun n => ?_) (fun n => ?_),
    smooth_basisOf (fun _ => rfl) (fun n => (C28_differentiable n).1) (fun n => (C28_differentiable n).2)⟩
  · rw [← e1]; exact (C26_differentiable (probabilist_smooth false) n).1
  · rw [← e1]; exact (C26_differentiable (probabilist_smooth false) n).2
  · rw [← e2]; exact (C26_differentiable (physicist_smooth false) n).1
  · rw [← e2]; exact (C26_differentiable (physicist_smooth false) n).2

theorem smooth_basisOf_eff {F : Nat → ℝ → ℝ} (h1 : ∀ n, n ≠ 0 → Differentiable ℝ (F n))
    (h2 : ∀ n, n ≠ 0 → Differentiable ℝ (deriv (F n))) : SmoothBasis (Spec.basisOf F).eff := by
  refine ⟨fun y => by simp [Basis.eff], fun n y => ?_, fun n y => ?_⟩ <;> by_cases hn : n = 0
  · subst hn; simpa [Basis.eff] using hasDerivAt_const y (1 : ℝ)
  · simpa [Basis.eff, hn, Spec.basisOf] using (h1 n hn y).hasDerivAt
  · subst hn; simpa [Basis.eff] using hasDerivAt_const y (0 : ℝ)
  · simpa [Basis.eff, hn, Spec.basisOf] using (h2 n hn y).hasDerivAt

/-- **C24.** The normalised polynomial families (the default of the map factory) satisfy the hypotheses as well, because
the expansion never reads their member of order zero. (From order 34 on the code's normalisation constant is zero, see
`C27_fails_from_34`; the statement is about the code for smaller orders only.) -/
theorem C24_bases_normalized : SmoothBasis (Spec.basisOf (polyVal (probabilistHermite true))).eff ∧
    SmoothBasis (Spec.basisOf (polyVal (physicistHermite true))).eff :=
  ⟨smooth_basisOf_eff (fun n _ => (C26_differentiable (probabilist_smooth true) n).1)
      fun n _ => (C26_differentiable (probabilist_smooth true) n).2,
    smooth_basisOf_eff (fun n _ => (C26_differentiable (physicist_smooth true) n).1)
      fun n _ => (C26_differentiable (physicist_smooth true) n).2⟩

/-- **C24 fails to apply** to a normalised family: its member of order zero is not the constant one, although the
compressed expansion skips factors of order zero (see `C23_degree_zero_ignored`). -/
theorem C24_fails_normalized : ¬ SmoothBasis (Spec.basisOf (polyVal (probabilistHermite true))) := by
  intro h
  have h0 := h.one 0
  have e : polyVal (probabilistHermite true) 0 0 = 1 / √(√(2 * Real.pi) * (factorial32 0 : ℝ)) := rfl
  have h1 : 1 / √(√(2 * Real.pi) * (factorial32 0 : ℝ)) = 1 := e ▸ h0
  rw [show factorial32 0 = 1 from rfl, Nat.cast_one, mul_one] at h1
  have h2 : √(√(2 * Real.pi)) = 1 := by
    rw [one_div] at h1; exact inv_eq_one.mp h1
  rw [Real.sqrt_eq_one, Real.sqrt_eq_one] at h2
  have := Real.pi_gt_three
  linarith

end MParT
