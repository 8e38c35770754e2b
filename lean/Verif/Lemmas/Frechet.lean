import Mathlib.Analysis.Calculus.FDeriv.Basic
import Mathlib.Analysis.Calculus.Deriv.Basic
import Mathlib.Analysis.Normed.Module.FiniteDimension
/-!
# Derivatives along paths and Fréchet derivatives

In finite dimension, a function whose derivative along every differentiable path is a fixed linear function of the direction
is Fréchet differentiable.
-/
namespace MParT
open Filter Topology

variable {E : Type*} [NormedAddCommGroup E] [NormedSpace ℝ E] [FiniteDimensional ℝ E]

theorem hasFDerivAt_of_paths {f : E → ℝ} {x : E} {L : E →L[ℝ] ℝ}
    (H : ∀ (δ : ℝ → E) (v : E), δ 0 = x → HasDerivAt δ v 0 → HasDerivAt (fun t => f (δ t)) (L v) 0) : HasFDerivAt f L x := by
  classical
  rw [hasFDerivAt_iff_isLittleO_nhds_zero, Asymptotics.isLittleO_iff]
  by_contra hcon
  simp only [not_forall] at hcon
  obtain ⟨c, hc, hfr⟩ := hcon
  rw [Filter.not_eventually] at hfr
  obtain ⟨h, hh0, hh⟩ := Filter.exists_seq_forall_of_frequently hfr
  have hne : ∀ k, h k ≠ 0 := by
    intro k e
    have := hh k
    rw [e] at this
    simp at this
  have hpos : ∀ k, 0 < ‖h k‖ := fun k => norm_pos_iff.mpr (hne k)
  have : ProperSpace E := FiniteDimensional.proper ℝ E
  obtain ⟨u, -, φ, hφ, hu⟩ := (isCompact_sphere (0 : E) 1).tendsto_subseq (x := fun k => (‖h k‖)⁻¹ • h k) (fun k => by
    rw [mem_sphere_zero_iff_norm, norm_smul, norm_inv, norm_norm, inv_mul_cancel₀ (hpos k).ne'])
  let a : ℕ → E := fun k => h (φ k)
  have ha0 : Tendsto (fun k => ‖a k‖) atTop (𝓝 0) := by
    have := (hh0.comp hφ.tendsto_atTop).norm
    simpa [a, Function.comp_def] using this
  have hapos : ∀ k, 0 < ‖a k‖ := fun k => hpos _
  -- the direction of `a k` tends to `u`
  have hdir : ∀ ε > 0, ∃ K, ∀ k ≥ K, ‖a k - ‖a k‖ • u‖ ≤ ε * ‖a k‖ := by
    intro ε hε
    obtain ⟨K, hK⟩ := (Metric.tendsto_atTop.mp hu) ε hε
    refine ⟨K, fun k hk => ?_⟩
    have h1 := (hK k hk).le
    rw [dist_eq_norm] at h1
    have e : a k - ‖a k‖ • u = ‖a k‖ • ((‖a k‖)⁻¹ • a k - u) := by
      rw [smul_sub, smul_smul, mul_inv_cancel₀ (hapos k).ne', one_smul]
    rw [e, norm_smul, norm_norm, mul_comm]
    exact mul_le_mul_of_nonneg_right h1 (norm_nonneg _)
  -- the path: through `x + a k` at time `‖a k‖`, straight in direction `u` otherwise
  let δ : ℝ → E := fun t => if hk : ∃ k, t = ‖a k‖ then x + a hk.choose else x + t • u
  have hδ0 : δ 0 = x := by
    have : ¬ ∃ k, (0 : ℝ) = ‖a k‖ := fun ⟨k, hk⟩ => (hapos k).ne hk
    simp only [δ, dif_neg this, zero_smul, add_zero]
  -- a time `‖a k‖` that is small comes from a large `k`
  have hlate : ∀ K : ℕ, ∀ᶠ t in 𝓝 (0 : ℝ), ∀ k, t = ‖a k‖ → K ≤ k := by
    intro K
    have : ∀ᶠ t in 𝓝 (0 : ℝ), ∀ k ∈ Finset.range K, t ≠ ‖a k‖ :=
      (Finset.eventually_all _).mpr fun k _ => (eventually_ne_nhds (hapos k).ne)
    filter_upwards [this] with t ht k hk
    by_contra hlt
    exact ht k (Finset.mem_range.mpr (by omega)) hk
  have hδ : HasDerivAt δ u 0 := by
    rw [hasDerivAt_iff_isLittleO_nhds_zero, Asymptotics.isLittleO_iff]
    intro ε hε
    obtain ⟨K, hK⟩ := hdir ε hε
    filter_upwards [hlate K] with t ht
    rw [hδ0, zero_add]
    by_cases hk : ∃ k, t = ‖a k‖
    · have e : δ t = x + a hk.choose := dif_pos hk
      have h2 := hK hk.choose (ht _ hk.choose_spec)
      rw [e, add_sub_cancel_left]
      have h3 := hk.choose_spec
      rw [← h3] at h2
      rw [Real.norm_eq_abs]
      exact h2.trans (mul_le_mul_of_nonneg_left (le_abs_self t) hε.le)
    · have e : δ t = x + t • u := dif_neg hk
      rw [e, add_sub_cancel_left, sub_self, norm_zero]
      exact mul_nonneg hε.le (norm_nonneg _)
  have hd := H δ u hδ0 hδ
  rw [hasDerivAt_iff_isLittleO_nhds_zero, Asymptotics.isLittleO_iff] at hd
  have hd1 := hd (show (0 : ℝ) < c / 4 from div_pos hc (by norm_num))
  obtain ⟨K, hK⟩ := hdir (c / (4 * (‖L‖ + 1))) (div_pos hc (mul_pos (by norm_num) (add_pos_of_nonneg_of_pos (norm_nonneg _) one_pos)))
  obtain ⟨k, hk1, hk2⟩ := ((ha0.eventually hd1).and (ha0.eventually (hlate K))).exists
  have hk : ∃ k', ‖a k‖ = ‖a k'‖ := ⟨k, rfl⟩
  have hbig := hk2 _ hk.choose_spec
  have e : δ ‖a k‖ = x + a hk.choose := dif_pos hk
  rw [zero_add, hδ0, e] at hk1
  have e2 : ‖a k‖ = ‖a hk.choose‖ := hk.choose_spec
  have h3 : c * ‖a hk.choose‖ < ‖f (x + a hk.choose) - f x - L (a hk.choose)‖ := not_le.mp (hh (φ hk.choose))
  have h4 := hK _ hbig
  have h5 := hapos hk.choose
  generalize a hk.choose = b at h3 h4 h5 hk1 e2
  rw [e2, norm_norm] at hk1
  have hL : 0 < ‖L‖ + 1 := add_pos_of_nonneg_of_pos (norm_nonneg _) one_pos
  have h6 : ‖L (b - ‖b‖ • u)‖ ≤ c / 4 * ‖b‖ := by
    refine (L.le_opNorm _).trans ((mul_le_mul_of_nonneg_left h4 (norm_nonneg _)).trans ?_)
    have e3 : c / (4 * (‖L‖ + 1)) = c / 4 / (‖L‖ + 1) := by rw [div_div]
    rw [e3, ← mul_assoc]
    refine mul_le_mul_of_nonneg_right ?_ h5.le
    rw [mul_div_assoc', div_le_iff₀ hL, mul_comm]
    exact mul_le_mul_of_nonneg_left (le_add_of_nonneg_right zero_le_one) (div_pos hc (by norm_num)).le
  have h7 : f (x + b) - f x - L b = (f (x + b) - f x - ‖b‖ • L u) - L (b - ‖b‖ • u) := by
    rw [map_sub, map_smul]; abel
  rw [h7] at h3
  have h8 := h3.trans_le ((norm_sub_le _ _).trans (add_le_add hk1 h6))
  have h9 : c / 4 * ‖b‖ + c / 4 * ‖b‖ = c * ‖b‖ / 2 := by ring
  rw [h9] at h8
  exact absurd h8 (not_lt.mpr (half_le_self (mul_pos hc h5).le))

end MParT
