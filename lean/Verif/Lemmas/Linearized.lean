import Verif.Lemmas.HermiteFunction
import Mathlib.Analysis.Calculus.Deriv.Slope
/-! Helper lemmas for `LinearizedBasis`. -/
namespace MParT.Linearized
open Spec OrthoPoly

/-- Nearest point of `[lb, ub]`. -/
noncomputable def clamp (lb ub x : ℝ) : ℝ := if x < lb then lb else if ub < x then ub else x

theorem linearize_eq (lb ub : ℝ) (f : ℝ → ℝ) (x : ℝ) :
    linearize lb ub f x = f (clamp lb ub x) + deriv f (clamp lb ub x) * (x - clamp lb ub x) := by
  rw [linearize, clamp]
  split
  · rfl
  · split
    · rfl
    · simp

theorem tangent_hasDerivAt (f : ℝ → ℝ) (c x : ℝ) :
    HasDerivAt (fun y => f c + deriv f c * (y - c)) (deriv f c) x := by
  simpa using (((hasDerivAt_id x).sub_const c).const_mul (deriv f c)).const_add (f c)

open Filter Topology in
theorem linearize_hasDerivAt {lb ub : ℝ} (h : lb < ub) {f : ℝ → ℝ} (hf : Differentiable ℝ f) (x : ℝ) :
    HasDerivAt (linearize lb ub f) (deriv f (clamp lb ub x)) x := by
  have inner : ∀ z, lb ≤ z → z ≤ ub → linearize lb ub f z = f z := by
    intro z h1 h2; rw [linearize, if_neg (not_lt.mpr h1), if_neg (not_lt.mpr h2)]
  have left : ∀ z, z ≤ lb → linearize lb ub f z = f lb + deriv f lb * (z - lb) := by
    intro z h1
    rcases h1.lt_or_eq with h1 | rfl
    · rw [linearize, if_pos h1]
    · rw [inner z le_rfl h.le]; ring
  have right : ∀ z, ub ≤ z → linearize lb ub f z = f ub + deriv f ub * (z - ub) := by
    intro z h1
    rcases h1.lt_or_eq with h1 | rfl
    · rw [linearize, if_neg (not_lt.mpr (h.trans h1).le), if_pos h1]
    · rw [inner _ h.le le_rfl]; ring
  rcases lt_trichotomy x lb with hx | rfl | hx
  · rw [clamp, if_pos hx]
    refine (tangent_hasDerivAt f lb x).congr_of_eventuallyEq ?_
    filter_upwards [Iio_mem_nhds hx] with z hz
    exact left z (le_of_lt hz)
  · rw [clamp, if_neg (lt_irrefl _), if_neg (not_lt.mpr h.le)]
    have h1 : HasDerivWithinAt (linearize x ub f) (deriv f x) (Set.Iic x) x :=
      (tangent_hasDerivAt f x x).hasDerivWithinAt.congr (fun z hz => left z hz) (left x le_rfl)
    have h2 : HasDerivWithinAt (linearize x ub f) (deriv f x) (Set.Ici x) x := by
      refine ((hf x).hasDerivAt.hasDerivWithinAt (s := Set.Ici x)).congr_of_eventuallyEq ?_ (inner x le_rfl h.le)
      filter_upwards [self_mem_nhdsWithin, mem_nhdsWithin_of_mem_nhds (Iio_mem_nhds h)] with z hz hz'
      exact inner z hz (le_of_lt hz')
    have := h1.union h2
    rwa [Set.Iic_union_Ici, hasDerivWithinAt_univ] at this
  · rcases lt_trichotomy x ub with hx' | rfl | hx'
    · rw [clamp, if_neg (not_lt.mpr hx.le), if_neg (not_lt.mpr hx'.le)]
      refine (hf x).hasDerivAt.congr_of_eventuallyEq ?_
      filter_upwards [Ioo_mem_nhds hx hx'] with z hz
      exact inner z hz.1.le hz.2.le
    · rw [clamp, if_neg (not_lt.mpr hx.le), if_neg (lt_irrefl _)]
      have h1 : HasDerivWithinAt (linearize lb x f) (deriv f x) (Set.Ici x) x :=
        (tangent_hasDerivAt f x x).hasDerivWithinAt.congr (fun z hz => right z hz) (right x le_rfl)
      have h2 : HasDerivWithinAt (linearize lb x f) (deriv f x) (Set.Iic x) x := by
        refine ((hf x).hasDerivAt.hasDerivWithinAt (s := Set.Iic x)).congr_of_eventuallyEq ?_ (inner x h.le le_rfl)
        filter_upwards [self_mem_nhdsWithin, mem_nhdsWithin_of_mem_nhds (Ioi_mem_nhds h)] with z hz hz'
        exact inner z (le_of_lt hz') hz
      have := h2.union h1
      rwa [Set.Iic_union_Ici, hasDerivWithinAt_univ] at this
    · rw [clamp, if_neg (not_lt.mpr hx.le), if_pos hx']
      refine (tangent_hasDerivAt f ub x).congr_of_eventuallyEq ?_
      filter_upwards [Ioi_mem_nhds hx'] with z hz
      exact right z (le_of_lt hz)

theorem linearize_deriv {lb ub : ℝ} (h : lb < ub) {f : ℝ → ℝ} (hf : Differentiable ℝ f) :
    deriv (linearize lb ub f) = fun x => deriv f (clamp lb ub x) :=
  funext fun x => (linearize_hasDerivAt h hf x).deriv

theorem clamp_eq {lb ub : ℝ} (h : lb < ub) (x : ℝ) : clamp lb ub x = max lb (min ub x) := by
  rw [clamp]
  split
  · rename_i hx; rw [max_eq_left ((min_le_right _ _).trans hx.le)]
  · rename_i hx
    split
    · rename_i hx'; rw [min_eq_left hx'.le, max_eq_right h.le]
    · rename_i hx'; rw [min_eq_right (not_lt.mp hx'), max_eq_right (not_lt.mp hx)]

theorem allLoop_eq (b : Basis1d) (F : Nat → ℝ → ℝ) (c x : ℝ) (old : List ℝ) (N : Nat) (hN : N ≤ old.length)
    (hb : ∀ k, k < N → b.derivative k c = deriv (F k) c) (n : Nat) : ∀ (i : Nat) (out : List ℝ), i + n = N →
    Two out old i N (fun k => F k c + deriv (F k) c * (x - c)) (F · c) →
    ∃ l, LinearizedBasis.allLoop b c x out i n = .ok l ∧
      Two l old N N (fun k => F k c + deriv (F k) c * (x - c)) (F · c) := by
  induction n with
  | zero => intro i out hi h; obtain rfl : i = N := by omega
            exact ⟨out, rfl, h⟩
  | succ n ih =>
    intro i out hi h
    obtain ⟨l, e, h'⟩ := h.setIdx (v := F i c + b.derivative i c * (x - c)) (by omega) hN
      (by rw [hb i (by omega)])
    obtain ⟨l', e', h''⟩ := ih (i + 1) l (by omega) h'
    refine ⟨l', ?_, h''⟩
    rw [LinearizedBasis.allLoop, h.idx (by omega), Res.bind_ok, e, Res.bind_ok, e']

theorem valLoop_eq (F : Nat → ℝ → ℝ) (c x : ℝ) (old derivs : List ℝ) (N : Nat) (hN : N ≤ old.length)
    (hd : ∀ k, k < N → derivs[k]? = some (deriv (F k) c)) (n : Nat) : ∀ (i : Nat) (out : List ℝ), i + n = N →
    Two out old i N (fun k => F k c + deriv (F k) c * (x - c)) (F · c) →
    ∃ l, LinearizedBasis.valLoop c x out derivs i n = .ok l ∧
      Two l old N N (fun k => F k c + deriv (F k) c * (x - c)) (F · c) := by
  induction n with
  | zero => intro i out hi h; obtain rfl : i = N := by omega
            exact ⟨out, rfl, h⟩
  | succ n ih =>
    intro i out hi h
    obtain ⟨l, e, h'⟩ := h.setIdx (v := F i c + deriv (F i) c * (x - c)) (by omega) hN rfl
    obtain ⟨l', e', h''⟩ := ih (i + 1) l (by omega) h'
    refine ⟨l', ?_, h''⟩
    rw [LinearizedBasis.valLoop, h.idx (by omega), Res.bind_ok, Res.idx_some (hd i (by omega)), Res.bind_ok, e,
      Res.bind_ok, e']

theorem zeroLoop_eq (old : List ℝ) (n : Nat) : ∀ (i : Nat) (a : List ℝ), i + n ≤ old.length →
    Fil a old i (fun _ => 0) →
    ∃ l, LinearizedBasis.zeroLoop a i n = .ok l ∧ Fil l old (i + n) (fun _ => 0) := by
  induction n with
  | zero => intro i a _ h; exact ⟨a, rfl, h⟩
  | succ n ih =>
    intro i a hi h
    obtain ⟨l, e, h'⟩ := h.setIdx (v := 0) (by omega) rfl
    obtain ⟨l', e', h''⟩ := ih (i + 1) l (by omega) h'
    refine ⟨l', by rw [LinearizedBasis.zeroLoop, e, Res.bind_ok, e'], ?_⟩
    rwa [show i + (n + 1) = i + 1 + n by omega]

theorem evaluateAll_lin {b : Basis1d} {F : Nat → ℝ → ℝ} (hF : FillsVal b F) {lb ub : ℝ}
    (out : List ℝ) (n : Nat) (x : ℝ) (hl : n < out.length)
    (hb : ∀ k, k ≤ n → ∀ c, b.derivative k c = deriv (F k) c) :
    ∃ o, (LinearizedBasis.toBasis b lb ub).evaluateAll out n x = .ok o ∧
      Filled o out n (fun k => linearize lb ub (F k) x) := by
  simp only [LinearizedBasis.toBasis, LinearizedBasis.evaluateAll, linearize]
  split
  · obtain ⟨o, e, h⟩ := hF out n lb hl
    obtain ⟨o', e', h'⟩ := allLoop_eq b F lb x out (n + 1) (by omega) (fun k hk => hb k (by omega) lb) (n + 1) 0 o
      (by omega) (Filled.two h)
    exact ⟨o', by rw [e, Res.bind_ok, e'], h'.filled⟩
  · split
    · rename_i h1 h2
      obtain ⟨o, e, h⟩ := hF out n ub hl
      obtain ⟨o', e', h'⟩ := allLoop_eq b F ub x out (n + 1) (by omega) (fun k hk => hb k (by omega) ub) (n + 1) 0 o
        (by omega) (Filled.two h)
      exact ⟨o', by rw [e, Res.bind_ok, e'], by simpa only [if_pos (show ub < x from h2)] using h'.filled⟩
    · rename_i h1 h2
      obtain ⟨o, e, h⟩ := hF out n x hl
      exact ⟨o, e, by simpa only [if_neg (show ¬ ub < x from h2)] using h⟩

theorem evaluateDerivatives_lin {b : Basis1d} {F : Nat → ℝ → ℝ} (hF : FillsDeriv b F (fun k => deriv (F k)))
    {lb ub : ℝ} (vals derivs : List ℝ) (n : Nat) (x : ℝ) (lV : n < vals.length) (lD : n < derivs.length) :
    ∃ v d, LinearizedBasis.evaluateDerivatives b lb ub vals derivs n x = .ok (v, d) ∧
      Filled v vals n (fun k => linearize lb ub (F k) x) ∧
      Filled d derivs n (fun k => deriv (F k) (clamp lb ub x)) := by
  simp only [LinearizedBasis.evaluateDerivatives, linearize, clamp]
  split
  · obtain ⟨v, d, e, h, hd⟩ := hF vals derivs n lb lV lD
    obtain ⟨v', e', h'⟩ := valLoop_eq F lb x vals d (n + 1) (by omega) (fun k hk => hd.2.1 k (by omega)) (n + 1) 0 v
      (by omega) (Filled.two h)
    exact ⟨v', d, by rw [e, Res.bind_ok]; simp only []; rw [e', Res.bind_ok]; rfl, h'.filled, hd⟩
  · split
    · rename_i h1 h2
      obtain ⟨v, d, e, h, hd⟩ := hF vals derivs n ub lV lD
      obtain ⟨v', e', h'⟩ := valLoop_eq F ub x vals d (n + 1) (by omega) (fun k hk => hd.2.1 k (by omega)) (n + 1) 0 v
        (by omega) (Filled.two h)
      exact ⟨v', d, by rw [e, Res.bind_ok]; simp only []; rw [e', Res.bind_ok]; rfl,
        by simpa only [if_pos (show ub < x from h2)] using h'.filled,
        by simpa only [if_pos (show ub < x from h2)] using hd⟩
    · rename_i h1 h2
      obtain ⟨v, d, e, h, hd⟩ := hF vals derivs n x lV lD
      exact ⟨v, d, e, by simpa only [if_neg (show ¬ ub < x from h2)] using h,
        by simpa only [if_neg (show ¬ ub < x from h2)] using hd⟩

/-- Second derivative returned. -/
noncomputable def lin2 (lb ub : ℝ) (f : ℝ → ℝ) (x : ℝ) : ℝ :=
  if x < lb then 0 else if ub < x then 0 else deriv (deriv f) x

theorem evaluateSecond_lin {b : Basis1d} {F : Nat → ℝ → ℝ} (hF : FillsDeriv b F (fun k => deriv (F k)))
    (hS : FillsSecond b F (fun k => deriv (F k)) (fun k => deriv (deriv (F k))))
    {lb ub : ℝ} (vals derivs second : List ℝ) (n : Nat) (x : ℝ) (lV : n < vals.length) (lD : n < derivs.length)
    (lS : n < second.length) :
    ∃ v d s, LinearizedBasis.evaluateSecondDerivatives b lb ub vals derivs second n x = .ok (v, d, s) ∧
      Filled v vals n (fun k => linearize lb ub (F k) x) ∧
      Filled d derivs n (fun k => deriv (F k) (clamp lb ub x)) ∧
      Filled s second n (fun k => lin2 lb ub (F k) x) := by
  obtain ⟨v, d, e, hv, hd⟩ := evaluateDerivatives_lin hF (lb := lb) (ub := ub) vals derivs n x lV lD
  obtain ⟨z, ez, hz⟩ := zeroLoop_eq second (n + 1) 0 second (by omega) (fil_zero _ _)
  rw [show 0 + (n + 1) = n + 1 by omega] at hz
  simp only [LinearizedBasis.evaluateSecondDerivatives]
  by_cases h1 : x < lb
  · rw [if_pos h1, e, Res.bind_ok, ez, Res.bind_ok]
    refine ⟨v, d, z, rfl, hv, hd, ?_⟩
    simp only [lin2, if_pos h1]; exact hz.filled
  · by_cases h2 : x > ub
    · rw [if_neg h1, if_pos h2, e, Res.bind_ok, ez, Res.bind_ok]
      refine ⟨v, d, z, rfl, hv, hd, ?_⟩
      simp only [lin2, if_neg h1, if_pos (show ub < x from h2)]; exact hz.filled
    · rw [if_neg h1, if_neg h2]
      obtain ⟨v, d, s, e, hv, hd, hs⟩ := hS vals derivs second n x lV lD lS
      refine ⟨v, d, s, e, ?_, ?_, ?_⟩
      · simpa only [linearize, if_neg h1, if_neg (show ¬ ub < x from h2)] using hv
      · simpa only [clamp, if_neg h1, if_neg (show ¬ ub < x from h2)] using hd
      · simpa only [lin2, if_neg h1, if_neg (show ¬ ub < x from h2)] using hs

open Filter Topology in
theorem lin2_hasDerivAt {lb ub : ℝ} (h : lb < ub) {f : ℝ → ℝ} (hf : Differentiable ℝ f)
    (hf' : Differentiable ℝ (deriv f)) {x : ℝ} (h1 : x ≠ lb) (h2 : x ≠ ub) :
    HasDerivAt (deriv (linearize lb ub f)) (lin2 lb ub f x) x := by
  rw [linearize_deriv h hf, lin2]
  rcases lt_or_gt_of_ne h1 with hx | hx
  · rw [if_pos hx]
    refine (hasDerivAt_const x (deriv f lb)).congr_of_eventuallyEq ?_
    filter_upwards [Iio_mem_nhds hx] with z hz
    rw [clamp, if_pos (show z < lb from hz)]
  · rw [if_neg (not_lt.mpr hx.le)]
    rcases lt_or_gt_of_ne h2 with hx' | hx'
    · rw [if_neg (not_lt.mpr hx'.le)]
      refine (hf' x).hasDerivAt.congr_of_eventuallyEq ?_
      filter_upwards [Ioo_mem_nhds hx hx'] with z hz
      rw [clamp, if_neg (not_lt.mpr hz.1.le), if_neg (not_lt.mpr hz.2.le)]
    · rw [if_pos hx']
      refine (hasDerivAt_const x (deriv f ub)).congr_of_eventuallyEq ?_
      filter_upwards [Ioi_mem_nhds hx'] with z hz
      have hz' : ub < z := hz
      rw [clamp, if_neg (not_lt.mpr (h.trans hz').le), if_pos hz']

end MParT.Linearized
