import Verif.Lemmas.ClenshawCurtis
import Verif.Spec.Quadrature
/-!
# C32: Clenshaw–Curtis rules
-/
namespace MParT
open Finset Polynomial ClenshawCurtis

/-- C32 (rule). For every number of points `n` from 1 to 65537 (`4*(j+1)*(j+1)-1` does not wrap around), `GetRule` writes a
rule on `[-1,1]` into the two arrays, and nothing else: the points are increasing and symmetric, the weights are positive and
symmetric and sum to 2, and every polynomial of degree less than `n` is integrated exactly. -/
theorem C32_rule (n : Nat) (hn : 1 ≤ n) (hb : n ≤ 65537) (wts pts : Mem) (hw : n ≤ wts.size) (hp : n ≤ pts.size) :
    ∃ w p : Mem, getRule n wts pts = .ok (w, p) ∧
      (∀ i < n, -1 ≤ p.val i ∧ p.val i ≤ 1 ∧ p.val (n - 1 - i) = -p.val i ∧ 0 < w.val i ∧ w.val (n - 1 - i) = w.val i) ∧
      (∀ i j, i < j → j < n → p.val i < p.val j) ∧
      ∑ i ∈ range n, w.val i = 2 ∧
      (∀ P : ℝ[X], P.natDegree < n → ∑ i ∈ range n, w.val i * P.eval (p.val i) = ∫ x in (-1 : ℝ)..1, P.eval x) ∧
      w.size = wts.size ∧ p.size = pts.size ∧ ∀ i, n ≤ i → w.val i = wts.val i ∧ p.val i = pts.val i := by
  rcases Nat.eq_or_lt_of_le hn with rfl | hn
  · refine ⟨⟨wts.size, Function.update wts.val 0 2⟩, ⟨pts.size, Function.update pts.val 0 0⟩, ?_, ?_, ?_, ?_, ?_, rfl, rfl, ?_⟩
    · simp only [getRule]
      rw [if_neg one_ne_zero, if_pos trivial, Mem.write_ok (by omega), Res.bind_ok, Mem.write_ok (by omega), Res.bind_ok,
        Res.pure_eq]
    · intro i hi
      obtain rfl : i = 0 := by omega
      simp
    · intro i j h1 h2; omega
    · simp
    · intro P hP
      obtain ⟨c, rfl⟩ := natDegree_eq_zero.mp (Nat.lt_one_iff.mp hP)
      simp; norm_num
    · intro i hi
      simp only [Function.update_apply]
      rw [if_neg (by omega), if_neg (by omega)]; exact ⟨rfl, rfl⟩
  · obtain ⟨N, rfl⟩ : ∃ N, n = N + 1 := ⟨n - 1, by omega⟩
    have hN : 1 ≤ N := by omega
    obtain ⟨p, ep, p1, p2, p3⟩ := points_eq N hN pts hp
    obtain ⟨w, ew, w1, w2, w3⟩ := weights_eq N hN wts hw
    have hs : ∀ g : ℝ → ℝ, ∑ i ∈ range (N + 1), w.val i * g (p.val i) = ∑ i ∈ range (N + 1), wt N i * g (pt N i) :=
      fun g => sum_congr rfl fun i hi => by
        rw [w2 i (by have := mem_range.mp hi; omega), p2 i (by have := mem_range.mp hi; omega)]
    refine ⟨w, p, ?_, ?_, ?_, ?_, ?_, w1, p1, ?_⟩
    · simp only [getRule]
      rw [if_neg (by omega), if_neg (by omega), ep, Res.bind_ok, ew, Res.bind_ok, Res.pure_eq]
    · intro i hi
      rw [Nat.add_sub_cancel, p2 i (by omega), p2 (N - i) (by omega), w2 i (by omega), w2 (N - i) (by omega)]
      refine ⟨?_, ?_, pt_symm N i hN (by omega), wt_pos N i hN (by omega), wt_symm N i hN (by omega)⟩
      · rw [pt]; linarith [Real.cos_le_one (i * Real.pi / N)]
      · rw [pt]; linarith [Real.neg_one_le_cos (i * Real.pi / N)]
    · intro i j hij hj
      rw [p2 i (by omega), p2 j (by omega)]
      exact pt_strictMono N i j hij (by omega)
    · have := hs fun _ => 1
      simp only [mul_one] at this
      rw [this, wt_total N hN]
    · intro P hP
      rw [hs fun x => P.eval x, exact N hN (by omega) P (by omega)]
    · intro i hi
      exact ⟨w3 i (by omega), p3 i (by omega)⟩

/-- C32 (sum of the weights and symmetry, no upper bound on `n`). -/
theorem C32_total (n : Nat) (hn : 1 ≤ n) (wts pts : Mem) (hw : n ≤ wts.size) (hp : n ≤ pts.size) :
    ∃ w p : Mem, getRule n wts pts = .ok (w, p) ∧ ∑ i ∈ range n, w.val i = 2 ∧
      ∀ i < n, p.val (n - 1 - i) = -p.val i ∧ w.val (n - 1 - i) = w.val i := by
  rcases Nat.eq_or_lt_of_le hn with rfl | hn
  · obtain ⟨w, p, e, h, _, hs, _⟩ := C32_rule 1 le_rfl (by omega) wts pts hw hp
    exact ⟨w, p, e, hs, fun i hi => ⟨(h i hi).2.2.1, (h i hi).2.2.2.2⟩⟩
  · obtain ⟨N, rfl⟩ : ∃ N, n = N + 1 := ⟨n - 1, by omega⟩
    have hN : 1 ≤ N := by omega
    obtain ⟨p, ep, p1, p2, p3⟩ := points_eq N hN pts hp
    obtain ⟨w, ew, w1, w2, w3⟩ := weights_eq N hN wts hw
    refine ⟨w, p, ?_, ?_, ?_⟩
    · simp only [getRule]
      rw [if_neg (by omega), if_neg (by omega), ep, Res.bind_ok, ew, Res.bind_ok, Res.pure_eq]
    · rw [sum_congr rfl fun i hi => w2 i (by have := mem_range.mp hi; omega), wt_total N hN]
    · intro i hi
      rw [Nat.add_sub_cancel, p2 i (by omega), p2 (N - i) (by omega), w2 i (by omega), w2 (N - i) (by omega)]
      exact ⟨pt_symm N i hN (by omega), wt_symm N i hN (by omega)⟩

/-- C32 (nesting). The points of the rule with `2^l+1` points are every other point of the one with `2^(l+1)+1` points. -/
theorem C32_nested (l : Nat) (wts pts wts' pts' : Mem) (hw : 2 ^ l + 1 ≤ wts.size) (hp : 2 ^ l + 1 ≤ pts.size)
    (hw' : 2 ^ (l + 1) + 1 ≤ wts'.size) (hp' : 2 ^ (l + 1) + 1 ≤ pts'.size) :
    ∃ w p w' p' : Mem, getRule (2 ^ l + 1) wts pts = .ok (w, p) ∧ getRule (2 ^ (l + 1) + 1) wts' pts' = .ok (w', p') ∧
      ∀ i ≤ 2 ^ l, p'.val (2 * i) = p.val i := by
  have h1 : 1 ≤ 2 ^ l := Nat.one_le_two_pow
  have h2 : 1 ≤ 2 ^ (l + 1) := Nat.one_le_two_pow
  obtain ⟨p, ep, p1, p2, p3⟩ := points_eq _ h1 pts hp
  obtain ⟨w, ew, w1, w2, w3⟩ := weights_eq _ h1 wts hw
  obtain ⟨p', ep', p1', p2', p3'⟩ := points_eq _ h2 pts' hp'
  obtain ⟨w', ew', w1', w2', w3'⟩ := weights_eq _ h2 wts' hw'
  refine ⟨w, p, w', p', ?_, ?_, fun i hi => ?_⟩
  · simp only [getRule]
    rw [if_neg (by omega), if_neg (by omega), ep, Res.bind_ok, ew, Res.bind_ok, Res.pure_eq]
  · simp only [getRule]
    rw [if_neg (by omega), if_neg (by omega), ep', Res.bind_ok, ew', Res.bind_ok, Res.pure_eq]
  · rw [p2 i hi, p2' (2 * i) (by rw [pow_succ]; omega), pow_succ, mul_comm (2 ^ l) 2, pt_nested _ _ h1]

/-- The three-point rule is Simpson's. -/
example : ∃ w p : Mem, getRule 3 (AdaptiveClenshawCurtis.view 3) (AdaptiveClenshawCurtis.view 3) = .ok (w, p) ∧
    p.val 0 = -1 ∧ p.val 1 = 0 ∧ p.val 2 = 1 ∧ w.val 0 = 1 / 3 ∧ w.val 1 = 4 / 3 ∧ w.val 2 = 1 / 3 := by
  obtain ⟨p, ep, p1, p2, p3⟩ := points_eq 2 (by omega) (AdaptiveClenshawCurtis.view 3) le_rfl
  obtain ⟨w, ew, w1, w2, w3⟩ := weights_eq 2 (by omega) (AdaptiveClenshawCurtis.view 3) le_rfl
  have hd : (denom 0 : ℝ) = 3 := by rw [denom_eq (by omega)]; norm_num
  refine ⟨w, p, ?_, ?_, ?_, ?_, ?_, ?_, ?_⟩
  · simp only [getRule]
    rw [if_neg (by omega), if_neg (by omega), ep, Res.bind_ok, ew, Res.bind_ok, Res.pure_eq]
  · rw [p2 0 (by omega)]; simp [pt]
  · rw [p2 1 (by omega), pt, Nat.cast_one, one_mul, Nat.cast_ofNat, Real.cos_pi_div_two, neg_zero]
  · rw [p2 2 (by omega), pt, Nat.cast_ofNat, mul_div_cancel_left₀ _ two_ne_zero, Real.cos_pi, neg_neg]
  · rw [w2 0 (by omega), wt, rawW]
    simp only [Nat.reduceDiv, sum_range_one, hd]; norm_num
  · rw [w2 1 (by omega), wt, rawW]
    simp only [Nat.reduceDiv, sum_range_one, hd]
    rw [show 2 * (((0 : Nat) : ℝ) + 1) * (((1 : Nat) : ℝ) * Real.pi / ((2 : Nat) : ℝ)) = Real.pi by push_cast; ring, Real.cos_pi]
    norm_num
  · rw [w2 2 (by omega), wt, rawW]
    simp only [Nat.reduceDiv, sum_range_one, hd]
    rw [show 2 * (((0 : Nat) : ℝ) + 1) * (((2 : Nat) : ℝ) * Real.pi / ((2 : Nat) : ℝ)) = 2 * Real.pi by push_cast; ring,
      Real.cos_two_pi]
    norm_num

/-- C32 (`Integrate`). On an interval at least `15*epsilon` long, each component of the result is the rule, moved to
`[lb,ub]`, applied to that component of the integrand; on a shorter one (or `ub < lb`) it is the midpoint rule. Entries of `res`
past `fdim` keep their content. -/
theorem C32_integrate (pts wts : Mem) (hs : wts.size = pts.size) (fdim : Nat) (ws res : Mem) (hws : fdim ≤ ws.size)
    (hres : fdim ≤ res.size) (f : Integrand) (lb ub : ℝ) :
    ∃ ws' res' : Mem, integrate pts wts fdim ws f lb ub res = .ok (ws', res') ∧ ws'.size = ws.size ∧ res'.size = res.size ∧
      (∀ j < fdim, res'.val j = if 15 * (2 : ℝ) ^ (-52 : ℤ) ≤ ub - lb
        then Spec.applyRule pts.size pts.val wts.val (fun x => f x j) lb ub
        else (ub - lb) * f ((lb + ub) / 2) j) ∧
      ∀ j, fdim ≤ j → res'.val j = res.val j := by
  have htol : midpointTol = 15 * (2 : ℝ) ^ (-52 : ℤ) := by
    rw [midpointTol, zpow_neg]; norm_num
  rw [integrate]
  by_cases hlt : ub - lb < midpointTol
  · rw [if_pos hlt]
    obtain ⟨r1, e1, s1, v1, k1⟩ := f.call_ok fdim (0.5 * (ub + lb)) res 0 (by omega)
    obtain ⟨r2, e2, s2, v2, k2⟩ := forLoop_pointwise (body := fun i (res : Mem) => do
      let r ← res.read i
      res.write i (r * (ub - lb))) (fun _ v => v * (ub - lb)) 0 0 fdim r1 (by omega) (fun k m' _ hk hm hv => by
        rw [Nat.zero_add] at hv ⊢
        rw [Mem.read_ok (by omega), Res.bind_ok, Mem.write_ok (by omega), hv])
    rw [e1, Res.bind_ok, e2, Res.bind_ok]
    refine ⟨ws, r2, rfl, rfl, s2.trans s1, fun j hj => ?_, fun j hj => ?_⟩
    · rw [if_neg (by rw [← htol]; linarith)]
      have := v2 j (by omega) (by omega)
      rw [v1 j hj, Nat.zero_add] at this
      rw [this, show (0.5 : ℝ) * (ub + lb) = (lb + ub) / 2 by ring]; ring
    · rw [k2 j (by omega), k1 j (by omega)]
  · rw [if_neg hlt]
    obtain ⟨r1, e1, s1, v1, k1⟩ := zeroFill_ok fdim res hres
    rw [e1, Res.bind_ok]
    obtain ⟨st, e2, h1, h2, h3, h4⟩ := forLoop_inv (body := fun i (st : Mem × Mem) => do
      let p ← pts.read i
      let ws ← f.call fdim (0.5 * (ub + lb + (ub - lb) * p)) st.1 0
      let res ← forLoop (fun j res => do
        let r ← res.read j
        let w ← wts.read i
        let v ← ws.read j
        res.write j (r + 0.5 * (ub - lb) * w * v)) 0 fdim st.2
      return (ws, res)) (fun k st => st.1.size = ws.size ∧ st.2.size = res.size ∧
        (∀ j < fdim, st.2.val j = Spec.applyRule k pts.val wts.val (fun x => f x j) lb ub) ∧
        ∀ j, fdim ≤ j → st.2.val j = res.val j) 0 pts.size (ws, r1)
      ⟨rfl, s1, fun j hj => by rw [v1 j hj]; simp [Spec.applyRule], k1⟩
      (fun k st _ hk ⟨a1, a2, a3, a4⟩ => by
        rw [Nat.zero_add] at hk
        obtain ⟨w1, b1, b2, b3, b4⟩ := f.call_ok fdim (0.5 * (ub + lb + (ub - lb) * pts.val k)) st.1 0 (by omega)
        obtain ⟨r2, c1, c2, c3, c4⟩ := forLoop_pointwise (body := fun j (res : Mem) => do
          let r ← res.read j
          let w ← wts.read k
          let v ← w1.read j
          res.write j (r + 0.5 * (ub - lb) * w * v))
          (fun j r => r + 0.5 * (ub - lb) * wts.val k * w1.val j) 0 0 fdim st.2 (by omega) (fun l m' _ hl hm hv => by
            rw [Nat.zero_add] at hv ⊢
            rw [Mem.read_ok (by omega), Res.bind_ok, Mem.read_ok (by omega), Res.bind_ok, Mem.read_ok (by omega),
              Res.bind_ok, Mem.write_ok (by omega), hv])
        refine ⟨(w1, r2), ?_, b2.trans a1, c2.trans a2, fun j hj => ?_, fun j hj => ?_⟩
        · rw [Mem.read_ok hk, Res.bind_ok, b1, Res.bind_ok, c1, Res.bind_ok, Res.pure_eq]
        · have := c3 j (by omega) (by omega)
          rw [Nat.zero_add, a3 j hj] at this
          have hb := b3 j hj
          rw [Nat.zero_add] at hb
          simp only
          rw [this, hb, Spec.applyRule, Spec.applyRule, sum_range_succ]
          rw [show (lb + ub) / 2 + (ub - lb) / 2 * pts.val k = 0.5 * (ub + lb + (ub - lb) * pts.val k) by ring]
          ring
        · simp only; rw [c4 j (by omega), a4 j hj])
    rw [Nat.zero_add] at h3
    refine ⟨st.1, st.2, e2, h1, h2, fun j hj => ?_, h4⟩
    rw [if_pos (by rw [← htol]; linarith), h3 j hj]

/-- A rule moved to `[lb,ub]` is exact for the polynomials it is exact for on `[-1,1]`. -/
theorem applyRule_exact (n d : Nat) (p w : Nat → ℝ) (h : ∀ P : ℝ[X], P.natDegree ≤ d →
    ∑ i ∈ range n, w i * P.eval (p i) = ∫ x in (-1 : ℝ)..1, P.eval x) (P : ℝ[X]) (hP : P.natDegree ≤ d) (lb ub : ℝ) :
    Spec.applyRule n p w (fun x => P.eval x) lb ub = ∫ x in lb..ub, P.eval x := by
  set Q : ℝ[X] := P.comp (Polynomial.C ((ub - lb) / 2) * X + Polynomial.C ((lb + ub) / 2)) with hQ
  have hdeg : Q.natDegree ≤ d := by
    refine le_trans (natDegree_comp_le) (le_trans ?_ hP)
    refine (Nat.mul_le_mul_left _ (natDegree_linear_le)).trans_eq (mul_one _)
  have e := h Q hdeg
  have hev : ∀ x, Q.eval x = P.eval ((ub - lb) / 2 * x + (lb + ub) / 2) := fun x => by simp [hQ]
  simp only [hev] at e
  rw [Spec.applyRule, sum_congr rfl fun i _ => show (ub - lb) / 2 * w i * P.eval ((lb + ub) / 2 + (ub - lb) / 2 * p i) =
    (ub - lb) / 2 * (w i * P.eval ((ub - lb) / 2 * p i + (lb + ub) / 2)) by rw [add_comm]; ring, ← mul_sum, e]
  have := intervalIntegral.smul_integral_comp_mul_add (a := (-1 : ℝ)) (b := 1) (fun x => P.eval x) ((ub - lb) / 2) ((lb + ub) / 2)
  rw [smul_eq_mul] at this
  rw [this]
  congr 1 <;> ring

/-- C32 (use). Build the rule with `n` points, then integrate: on an interval of length at least `15*epsilon` every
polynomial of degree less than `n` is integrated exactly; on every interval constants and affine functions are integrated
exactly by every rule; and for `lb ≤ ub` a nonnegative component gives a nonnegative result. -/
theorem C32_exact (n : Nat) (hn : 1 ≤ n) (hb : n ≤ 65537) (wts pts : Mem) (hw : wts.size = n) (hp : pts.size = n)
    (fdim : Nat) (ws res : Mem) (hws : fdim ≤ ws.size) (hres : fdim ≤ res.size) (f : Integrand) (lb ub : ℝ) :
    ∃ w p ws' res' : Mem, getRule n wts pts = .ok (w, p) ∧ integrate p w fdim ws f lb ub res = .ok (ws', res') ∧
      ∀ j < fdim,
        (∀ P : ℝ[X], (∀ x, f x j = P.eval x) → P.natDegree < n → 15 * (2 : ℝ) ^ (-52 : ℤ) ≤ ub - lb →
          res'.val j = ∫ x in lb..ub, P.eval x) ∧
        (∀ a b : ℝ, (∀ x, f x j = a * x + b) → res'.val j = ∫ x in lb..ub, (a * x + b)) ∧
        ((∀ x, 0 ≤ f x j) → lb ≤ ub → 0 ≤ res'.val j) := by
  obtain ⟨w, p, e, h1, h2, h3, h4, sw, sp, _⟩ := C32_rule n hn hb wts pts hw.ge hp.ge
  obtain ⟨ws', res', e', _, _, v, _⟩ := C32_integrate p w (by omega) fdim ws res hws hres f lb ub
  refine ⟨w, p, ws', res', e, e', fun j hj => ⟨fun P hP hd hl => ?_, fun a b hab => ?_, fun h0 hle => ?_⟩⟩
  · rw [v j hj, if_pos hl, sp, hp]
    simp only [hP]
    exact applyRule_exact n (n - 1) _ _ (fun Q hQ => h4 Q (by omega)) P (by omega) lb ub
  · have hint : ∫ x in lb..ub, (a * x + b) = (ub - lb) * (a * ((lb + ub) / 2) + b) := by
      rw [intervalIntegral.integral_add (Continuous.intervalIntegrable (by fun_prop) _ _)
        (Continuous.intervalIntegrable (by fun_prop) _ _), intervalIntegral.integral_const_mul]
      simp; ring
    rw [hint, v j hj]
    split
    · rw [Spec.applyRule, sp, hp]
      simp only [hab]
      have hodd : ∑ i ∈ range n, w.val i * p.val i = 0 := by
        have : ∑ i ∈ range n, w.val i * p.val i = -∑ i ∈ range n, w.val i * p.val i := by
          conv_lhs => rw [← sum_range_reflect]
          rw [← sum_neg_distrib]
          refine sum_congr rfl fun i hi => ?_
          obtain ⟨_, _, a1, _, a2⟩ := h1 i (mem_range.mp hi)
          rw [a1, a2]; ring
        linarith
      calc _ = ∑ i ∈ range n, ((ub - lb) / 2 * (a * ((lb + ub) / 2) + b) * w.val i
            + (ub - lb) / 2 * a * ((ub - lb) / 2) * (w.val i * p.val i)) := sum_congr rfl fun i _ => by ring
        _ = _ := by rw [sum_add_distrib, ← mul_sum, ← mul_sum, h3, hodd]; ring
    · rw [hab]
  · rw [v j hj]
    split
    · rw [Spec.applyRule, sp, hp]
      refine sum_nonneg fun i hi => mul_nonneg (mul_nonneg (by linarith) ?_) (h0 _)
      exact (h1 i (mem_range.mp hi)).2.2.2.1.le
    · exact mul_nonneg (by linarith) (h0 _)

/-- The hypotheses of `C32_exact` are met by the five-point rule and `x ↦ x^4` on `[0,1]`. -/
example : ∃ w p ws' res' : Mem, getRule 5 ⟨5, fun _ => 0⟩ ⟨5, fun _ => 0⟩ = .ok (w, p) ∧
    integrate p w 1 ⟨1, fun _ => 0⟩ (fun x _ => x ^ 4) 0 1 ⟨1, fun _ => 0⟩ = .ok (ws', res') ∧ res'.val 0 = 1 / 5 := by
  obtain ⟨w, p, ws', res', e, e', h⟩ := C32_exact 5 (by omega) (by omega) ⟨5, fun _ => 0⟩ ⟨5, fun _ => 0⟩ rfl rfl 1
    ⟨1, fun _ => 0⟩ ⟨1, fun _ => 0⟩ le_rfl le_rfl (fun x _ => x ^ 4) 0 1
  refine ⟨w, p, ws', res', e, e', ?_⟩
  rw [(h 0 (by omega)).1 (X ^ 4) (fun x => by simp) (by simp) (by norm_num)]
  simp; norm_num

/-- Disagreement with the documented meaning `∫_{lb}^{ub}` for `ub < lb`: whatever the rule, reversed bounds fall into the
"sufficiently small interval" branch, and `x ↦ x^2` from 1 to 0 gives `-1/4` instead of `-1/3`. -/
theorem C32_fails_reversed (pts wts : Mem) (hs : wts.size = pts.size) :
    ∃ ws' res' : Mem, integrate pts wts 1 ⟨1, fun _ => 0⟩ (fun x _ => x ^ 2) 1 0 ⟨1, fun _ => 0⟩ = .ok (ws', res') ∧
      res'.val 0 = -1 / 4 ∧ ∫ x in (1 : ℝ)..0, x ^ 2 = -1 / 3 := by
  obtain ⟨ws', res', e, _, _, v, _⟩ := C32_integrate pts wts hs 1 ⟨1, fun _ => 0⟩ ⟨1, fun _ => 0⟩ le_rfl le_rfl
    (fun x _ => x ^ 2) 1 0
  refine ⟨ws', res', e, ?_, by simp; norm_num⟩
  rw [v 0 (by omega), if_neg (by norm_num)]; norm_num

end MParT
