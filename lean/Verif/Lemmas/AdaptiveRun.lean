import Verif.Lemmas.AdaptiveCC
import Mathlib.MeasureTheory.Integral.IntervalIntegral.Basic
/-!
# From the shared proof to the two rules; properties of recursive bisection
-/
namespace MParT

/-- The two recursions stop at the same places when the tests agree. -/
theorem _root_.MParT.Spec.leaves_congr (s t : Nat → ℝ → ℝ → Prop) (L M : Nat) (h : ∀ k a b, s (L + k) a b ↔ t (M + k) a b) (d : Nat) :
    ∀ a b, Spec.leaves s d L a b = Spec.leaves t d M a b := by
  induction d generalizing L M with
  | zero => intro a b; rfl
  | succ d ih =>
    intro a b
    have h0 := h 0 a b
    rw [Nat.add_zero, Nat.add_zero] at h0
    have ih' := ih (L + 1) (M + 1) fun k a b => by
      rw [show L + 1 + k = L + (k + 1) by omega, show M + 1 + k = M + (k + 1) by omega]; exact h (k + 1) a b
    rw [Spec.leaves, Spec.leaves, ih', ih']
    by_cases hs : s L a b
    · rw [if_pos hs, if_pos (h0.mp hs)]
    · rw [if_neg hs, if_neg (mt h0.mpr hs)]

namespace Recursive

/-- Minimum depth at or above the maximum depth: the workspace is overrun. -/
theorem overrun {q : Recursive} {S : Scheme} {f : Integrand} {lo size : Nat} {coarse fine : (ℝ → ℝ) → ℝ → ℝ → ℝ}
    (O : Ok q S f lo size coarse fine) (hf : 1 ≤ q.fdim) (h1 : 1 ≤ q.maxSub) (hmin : q.maxSub ≤ q.minSub)
    (hend : S.start q.maxSub = size) (lb ub : ℝ) (hlen : 1e-14 ≤ |ub - lb|) (ws res : Mem) (p : Ptrs) (hws : ws.size = size)
    (hctx : O.Ctx 0 ws p) (fuel : Nat) (hfuel : q.maxSub ≤ fuel) :
    loop q S lb ub fuel ⟨ws, res, 0, 0, p, S.start 0⟩ = .ub := by
  obtain ⟨w, p', s1, c1, e⟩ := descend_forever O hf h1 lb ub hlen (q.maxSub - 1) (by omega) (q.maxSub - 1) 0 ws res 0 p
    (by omega) (by omega) hws hctx
  obtain ⟨r, rfl⟩ : ∃ r, fuel = (r + 1) + (q.maxSub - 1) := ⟨fuel - q.maxSub, by omega⟩
  have hsz := O.size_ge
  have h0 := O.start_lo (q.maxSub - 1)
  have h2 := O.start_size (q.maxSub - 1) (by omega)
  obtain ⟨w1, e1, s2, _, v1, _⟩ := O.node_ok (q.maxSub - 1) w p' (by omega) s1 c1
  have e2 := estimateError_eq q w1 (3 * q.fdim) (4 * q.fdim) _ _ hf (by omega) (by omega)
    (fun k hk => (v1 k hk).1) (fun k hk => (v1 k hk).2)
  rw [e, (loop_succ q S lb ub r ⟨w, res, q.maxSub - 1, 0, p', S.start (q.maxSub - 1)⟩ w1 _ _ _ e1 e2).2 (by
    rintro (⟨_, h'⟩ | h)
    · simp only at h'; omega
    · linarith), descend]
  simp only
  rw [Mem.read_ok (by omega), Res.bind_ok, Mem.write_ub (by rw [Nat.sub_add_cancel h1, hend]; omega)]
  rfl

/-- More than 32 levels forced: the mask is shifted too far. -/
theorem shift {q : Recursive} {S : Scheme} {f : Integrand} {lo size : Nat} {coarse fine : (ℝ → ℝ) → ℝ → ℝ → ℝ}
    (O : Ok q S f lo size coarse fine) (hf : 1 ≤ q.fdim) (hmin : q.minSub + 1 = q.maxSub) (h32 : 32 ≤ q.minSub)
    (hmax : q.maxSub < 2 ^ 32) (lb ub : ℝ) (hlen : 1e-14 ≤ |ub - lb|) (ws res : Mem) (p : Ptrs) (hws : ws.size = size)
    (hres : q.fdim ≤ res.size) (hctx : O.Ctx 0 ws p) (fuel : Nat) (hfuel : q.maxSub ≤ fuel) :
    loop q S lb ub fuel ⟨ws, res, 0, 0, p, S.start 0⟩ = .ub := by
  obtain ⟨w, p', s1, c1, e⟩ := descend_forever O hf (by omega) lb ub hlen q.minSub le_rfl q.minSub 0 ws res 0 p
    (by omega) (by omega) hws hctx
  obtain ⟨r, rfl⟩ : ∃ r, fuel = (r + 1) + q.minSub := ⟨fuel - q.maxSub, by omega⟩
  have hsz := O.size_ge
  obtain ⟨w1, e1, s2, _, v1, _⟩ := O.node_ok q.minSub w p' (by omega) s1 c1
  have e2 := estimateError_eq q w1 (3 * q.fdim) (4 * q.fdim) _ _ hf (by omega) (by omega)
    (fun k hk => (v1 k hk).1) (fun k hk => (v1 k hk).2)
  obtain ⟨r', er, _⟩ := addFine_ok q.fdim (4 * q.fdim) w1 res (by omega) hres
  rw [e, (loop_succ q S lb ub r ⟨w, res, q.minSub, 0, p', S.start q.minSub⟩ w1 _ _ _ e1 e2).1
    (Or.inl ⟨Or.inr (by simp only; omega), le_rfl⟩) r' er, resume]
  obtain ⟨l, hl⟩ : ∃ l, q.minSub = l + 1 := ⟨q.minSub - 1, by omega⟩
  simp only
  rw [hl, backtrack, if_pos (by omega)]
  rfl

end Recursive

namespace AdaptiveSimpson

/-- What happens before the loop. -/
theorem setup (q : Recursive) (h1 : 1 ≤ q.maxSub) (f : Integrand) (lb ub : ℝ) (ws res : Mem)
    (hws : workspaceSize q.maxSub q.fdim ≤ ws.size) (hres : q.fdim ≤ res.size) :
    ∃ w r : Mem, w.size = ws.size ∧ r.size = res.size ∧ (∀ k < q.fdim, r.val k = 0) ∧
      (∀ k, q.fdim ≤ k → r.val k = res.val k) ∧ w.val (5 * q.fdim) = lb ∧ w.val (5 * q.fdim + 1) = ub ∧
      Ctx q.fdim f 0 w ⟨0, 2 * q.fdim, q.fdim⟩ ∧
      ∀ fuel, integrate q ws f lb ub res fuel =
        q.loop (scheme q.fdim f) lb ub fuel ⟨w, r, 0, 0, ⟨0, 2 * q.fdim, q.fdim⟩, 5 * q.fdim⟩ := by
  have hsz := (start_size q.fdim q.maxSub 0 (by omega)).trans hws
  rw [start_zero] at hsz
  obtain ⟨r, e0, z1, z2, z3⟩ := zeroFill_ok q.fdim res hres
  obtain ⟨w1, c1, c2, c3, c4⟩ := f.call_ok q.fdim lb ws 0 (by omega)
  obtain ⟨w2, d1, d2, d3, d4⟩ := f.call_ok q.fdim ub w1 q.fdim (by omega)
  obtain ⟨w3, g1, g2, g3, g4⟩ := f.call_ok q.fdim (0.5 * (lb + ub)) w2 (2 * q.fdim) (by omega)
  set w : Mem := ⟨w3.size, Function.update (Function.update w3.val (5 * q.fdim) lb) (5 * q.fdim + 1) ub⟩ with hw
  have wlow : ∀ j, j < 5 * q.fdim → w.val j = w3.val j := fun j hj => by
    simp only [hw, Function.update_apply]; rw [if_neg (by omega), if_neg (by omega)]
  have wa : w.val (5 * q.fdim) = lb := by
    simp only [hw, Function.update_apply]; rw [if_neg (by omega), if_pos trivial]
  have wb : w.val (5 * q.fdim + 1) = ub := by simp only [hw, Function.update_self]
  refine ⟨w, r, by simp only [hw]; omega, z1, z2, z3, wa, wb, ⟨Or.inl (by simp only; omega), Or.inl (by simp only; omega),
    Or.inl (by simp only; omega), fun k hk => ?_, fun k hk => ?_, fun k hk => ?_⟩, fun fuel => ?_⟩
  · simp only
    rw [start_zero, wa, wlow _ (by omega), g4 _ (by omega), d4 _ (by omega), c3 k hk]
  · simp only
    rw [start_zero, wa, wb, wlow _ (by omega), g3 k hk, show (0.5 : ℝ) * (lb + ub) = (lb + ub) / 2 by ring]
  · simp only
    rw [start_zero, wb, wlow _ (by omega), g4 _ (by omega), d3 k hk]
  · rw [integrate, e0, Res.bind_ok]
    simp only
    rw [c1, Res.bind_ok, d1, Res.bind_ok, g1, Res.bind_ok, Mem.write_ok (by omega), Res.bind_ok,
      Mem.write_ok (by simp only; omega), Res.bind_ok]

end AdaptiveSimpson

namespace AdaptiveClenshawCurtis

/-- What happens before the loop. -/
theorem setup (q : Recursive) (R : NestedRule) (h1 : 1 ≤ q.maxSub) (f : Integrand) (lb ub : ℝ) (ws res : Mem)
    (hws : workspaceSize q.maxSub q.fdim ≤ ws.size) (hres : q.fdim ≤ res.size) :
    ∃ w r : Mem, w.size = ws.size ∧ r.size = res.size ∧ (∀ k < q.fdim, r.val k = 0) ∧
      (∀ k, q.fdim ≤ k → r.val k = res.val k) ∧ w.val (5 * q.fdim) = lb ∧ w.val (5 * q.fdim + 1) = ub ∧
      Ctx q.fdim f 0 w ⟨0, 2 * q.fdim, q.fdim⟩ ∧
      ∀ fuel, integrate q R ws f lb ub res fuel =
        q.loop (scheme R q.fdim f) lb ub fuel ⟨w, r, 0, 0, ⟨0, 2 * q.fdim, q.fdim⟩, 5 * q.fdim⟩ := by
  have hsz := (start_size q.fdim q.maxSub 0 (by omega)).trans hws
  rw [start_zero] at hsz
  obtain ⟨r, e0, z1, z2, z3⟩ := zeroFill_ok q.fdim res hres
  obtain ⟨w1, c1, c2, c3, c4⟩ := f.call_ok q.fdim lb ws 0 (by omega)
  obtain ⟨w3, d1, d2, d3, d4⟩ := f.call_ok q.fdim ub w1 q.fdim (by omega)
  set w : Mem := ⟨w3.size, Function.update (Function.update w3.val (5 * q.fdim) lb) (5 * q.fdim + 1) ub⟩ with hw
  have wlow : ∀ j, j < 5 * q.fdim → w.val j = w3.val j := fun j hj => by
    simp only [hw, Function.update_apply]; rw [if_neg (by omega), if_neg (by omega)]
  have wa : w.val (5 * q.fdim) = lb := by
    simp only [hw, Function.update_apply]; rw [if_neg (by omega), if_pos trivial]
  have wb : w.val (5 * q.fdim + 1) = ub := by simp only [hw, Function.update_self]
  refine ⟨w, r, by simp only [hw]; omega, z1, z2, z3, wa, wb, ⟨Or.inl (by simp only; omega), Or.inl (by simp only; omega),
    fun k hk => ?_, fun k hk => ?_⟩, fun fuel => ?_⟩
  · simp only
    rw [start_zero, wa, wlow _ (by omega), d4 _ (by omega), c3 k hk]
  · simp only
    rw [start_zero, wb, wlow _ (by omega), d3 k hk]
  · rw [integrate, e0, Res.bind_ok, c1, Res.bind_ok, d1, Res.bind_ok, Mem.write_ok (by omega), Res.bind_ok,
      Mem.write_ok (by simp only; omega), Res.bind_ok]

end AdaptiveClenshawCurtis

end MParT
