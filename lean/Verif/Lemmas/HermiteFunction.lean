import Verif.Lemmas.Hermite
/-! Helper lemmas for Hermite functions. -/
namespace MParT.Hermite
open Spec Real OrthoPoly

/-- Normalisation of the Hermite functions. -/
noncomputable def Nn (n : Nat) : ℝ := √(2 ^ n * n.factorial * √π)

theorem Nn_pos (n : Nat) : 0 < Nn n := by
  apply Real.sqrt_pos.mpr
  have : (0 : ℝ) < n.factorial := by exact_mod_cast n.factorial_pos
  have := Real.sqrt_pos.mpr Real.pi_pos
  positivity

theorem Nn_succ (n : Nat) : Nn (n + 1) = √(2 * ((n : ℝ) + 1)) * Nn n := by
  rw [Nn, Nn, ← Real.sqrt_mul (by positivity)]
  congr 1
  rw [Nat.factorial_succ]
  push_cast
  ring

/-- Orthonormal Hermite function. -/
noncomputable def psi (n : Nat) (x : ℝ) : ℝ := exp (-x ^ 2 / 2) * Hp n x / Nn n

theorem hermiteFn_add_two (n : Nat) (x : ℝ) : hermiteFn (n + 2) x = psi n x := rfl

theorem exp_eq (x : ℝ) : exp (-0.5 * x * x) = exp (-x ^ 2 / 2) := by
  congr 1; ring

theorem base_eq (x : ℝ) : π ^ (-0.25 : ℝ) * exp (-0.5 * x * x) = exp (-x ^ 2 / 2) / Nn 0 := by
  have h : Nn 0 = π ^ (0.25 : ℝ) := by
    rw [Nn]
    simp only [pow_zero, Nat.factorial_zero, Nat.cast_one, mul_one, one_mul]
    rw [Real.sqrt_eq_rpow, Real.sqrt_eq_rpow, ← Real.rpow_mul Real.pi_pos.le]
    norm_num
  rw [exp_eq, h, Real.rpow_neg Real.pi_pos.le]
  field_simp

theorem Hp_zero (x : ℝ) : Hp 0 x = 1 := by simp [Hp, He_zero]

theorem Hp_one (x : ℝ) : Hp 1 x = 2 * x := by
  rw [← physicist_rec]; rfl

theorem Hp_rec (n : Nat) (x : ℝ) : Hp (n + 2) x = 2 * x * Hp (n + 1) x - 2 * ((n : ℝ) + 1) * Hp n x := by
  rw [← physicist_rec, ← physicist_rec, ← physicist_rec, recurrence]
  simp only [physicistMixer]
  push_cast
  ring

/-- Derivative of the physicists' polynomial as computed by the recurrence. -/
noncomputable def H1 (n : Nat) (x : ℝ) : ℝ := rec1 physicistMixer x n

theorem H1_zero (x : ℝ) : H1 0 x = 0 := rfl

theorem H1_rec (n : Nat) (x : ℝ) :
    H1 (n + 2) x = 2 * Hp (n + 1) x + 2 * x * H1 (n + 1) x - 2 * ((n : ℝ) + 1) * H1 n x := by
  rw [H1, rec1, physicist_rec, H1, H1]
  simp only [physicistMixer]
  push_cast
  ring

theorem H1_succ (x : ℝ) : ∀ n, H1 (n + 1) x = 2 * ((n : ℝ) + 1) * Hp n x
  | 0 => by rw [Hp_zero]; simp [H1, rec1, physicistMixer]
  | 1 => by
    rw [H1_rec, H1_succ x 0, H1_zero, Hp_zero, Hp_one]; push_cast; ring
  | n + 2 => by
    rw [H1_rec, H1_succ x n, H1_succ x (n + 1), Hp_rec]; push_cast; ring

theorem Hp_succ (x : ℝ) : ∀ n, Hp (n + 1) x = 2 * x * Hp n x - H1 n x
  | 0 => by rw [Hp_one, Hp_zero, H1_zero]; ring
  | n + 1 => by rw [Hp_rec, H1_succ]

theorem Hp_hasDerivAt (n : Nat) (x : ℝ) : HasDerivAt (Hp n) (H1 n x) x := by
  have hs : SmoothMixer physicistMixer :=
    ⟨fun x => hasDerivAt_const x _,
     fun x => by simpa [physicistMixer] using (hasDerivAt_id x).const_mul 2,
     fun x => hasDerivAt_const x _⟩
  have := recurrence_hasDerivAt hs x n
  have e : Hp n = fun y => recurrence physicistMixer y n := funext fun y => (physicist_rec y n).symm
  rw [e]; exact this

/-- First derivative of a Hermite function. -/
noncomputable def psi1 (n : Nat) (x : ℝ) : ℝ := (H1 n x - x * Hp n x) * (exp (-x ^ 2 / 2) / Nn n)

theorem psi_hasDerivAt (n : Nat) (x : ℝ) : HasDerivAt (psi n) (psi1 n x) x := by
  have := ((wt_hasDerivAt x).fun_mul (Hp_hasDerivAt n x)).div_const (Nn n)
  refine this.congr_deriv ?_
  simp only [psi1, wt]; ring

theorem psi1_hasDerivAt (n : Nat) (x : ℝ) : HasDerivAt (psi1 n) (-(2 * (n : ℝ) + 1 - x * x) * psi n x) x := by
  have e : psi1 n = fun y => (y * Hp n y - Hp (n + 1) y) * (wt y / Nn n) := by
    funext y; rw [psi1, Hp_succ, wt]; ring
  rw [e]
  have h1 : HasDerivAt (fun y => y * Hp n y - Hp (n + 1) y) (1 * Hp n x + x * H1 n x - H1 (n + 1) x) x :=
    ((hasDerivAt_id x).fun_mul (Hp_hasDerivAt n x)).fun_sub (Hp_hasDerivAt (n + 1) x)
  refine (h1.fun_mul ((wt_hasDerivAt x).div_const (Nn n))).congr_deriv ?_
  rw [H1_succ, Hp_succ]
  simp only [psi, wt]; ring

theorem half_sqrt (y : ℝ) (hy : 0 ≤ y) : √(0.5 * y) = √(2 * y) / 2 := by
  rw [eq_div_iff (by norm_num), show (2 : ℝ) * y = (0.5 * y) * (2 * 2) by ring,
    Real.sqrt_mul (show (0 : ℝ) ≤ 0.5 * y by positivity) (2 * 2), Real.sqrt_mul_self (by norm_num)]

theorem psi_rec (n : Nat) (x : ℝ) :
    psi (n + 2) x = (x * psi (n + 1) x - √(0.5 * ((n : ℝ) + 1)) * psi n x) / √(0.5 * ((n : ℝ) + 2)) := by
  rw [half_sqrt _ (by positivity), half_sqrt _ (by positivity)]
  have a0 : (0 : ℝ) < 2 * ((n : ℝ) + 1) := by positivity
  have b0 : (0 : ℝ) < 2 * ((n : ℝ) + 2) := by positivity
  have a1 := Real.sqrt_pos.mpr a0
  have b1 := Real.sqrt_pos.mpr b0
  have ha := Real.mul_self_sqrt a0.le
  have n0 := Nn_pos n
  have e2 : Nn (n + 2) = √(2 * ((n : ℝ) + 2)) * (√(2 * ((n : ℝ) + 1)) * Nn n) := by
    rw [Nn_succ (n + 1), Nn_succ n]
    push_cast
    rw [show (n : ℝ) + 1 + 1 = n + 2 by ring]
  simp only [psi]
  rw [e2, Nn_succ n, Hp_rec]
  generalize √(2 * ((n : ℝ) + 1)) = a at *
  generalize √(2 * ((n : ℝ) + 2)) = b at *
  field_simp
  linear_combination (Hp n x) * ha

theorem psi_one (x : ℝ) : psi 1 x = √2 * x * psi 0 x := by
  simp only [psi]
  rw [Nn_succ 0, Hp_one, Hp_zero]
  have n0 := Nn_pos 0
  have h2 : √(2 : ℝ) * √2 = 2 := Real.mul_self_sqrt (by norm_num)
  have h3 : (0 : ℝ) < √2 := Real.sqrt_pos.mpr (by norm_num)
  simp only [Nat.cast_zero, zero_add, mul_one]
  field_simp
  linear_combination (-x) * h2

/-! ### `EvaluateAll` -/

theorem allLoop_eq (x : ℝ) (old : List ℝ) (n : Nat) : ∀ (i : Nat) (out : List ℝ), i + 4 + n ≤ old.length →
    Fil out old (i + 4) (hermiteFn · x) →
    ∃ l, HermiteFunction.allLoop x out (i + 2) n = .ok l ∧ Fil l old (i + 4 + n) (hermiteFn · x) := by
  induction n with
  | zero => intro i out _ h; exact ⟨out, rfl, h⟩
  | succ n ih =>
    intro i out hl h
    obtain ⟨l, e, h'⟩ := h.setIdx (v := (x * hermiteFn (i + 3) x
      - √(0.5 * ((i + 2 - 1 : Nat) : ℝ)) * hermiteFn (i + 2) x) / √(0.5 * ((i + 2 : Nat) : ℝ))) (by omega) (by
        show _ = psi (i + 2) x
        rw [psi_rec, show hermiteFn (i + 3) x = psi (i + 1) x from rfl, hermiteFn_add_two]
        rw [show i + 2 - 1 = i + 1 by omega]
        push_cast
        rfl)
    obtain ⟨l', e', h''⟩ := ih (i + 1) l (by omega) h'
    refine ⟨l', ?_, by rw [show i + 4 + (n + 1) = i + 1 + 4 + n by omega]; exact h''⟩
    rw [HermiteFunction.allLoop, h.idx (by omega), Res.bind_ok, h.idx (by omega), Res.bind_ok, e, Res.bind_ok]
    exact e'

theorem evaluateAll_fn (out : List ℝ) (n : Nat) (x : ℝ) (hl : n < out.length) :
    ∃ o, HermiteFunction.evaluateAll out n x = .ok o ∧ Filled o out n (hermiteFn · x) := by
  rw [HermiteFunction.evaluateAll]
  obtain ⟨l0, e0, h0⟩ := (fil_zero out (hermiteFn · x)).setIdx (v := 1) (by omega) rfl
  rw [e0, Res.bind_ok]
  by_cases n1 : n > 0
  swap
  · rw [if_neg n1]
    refine ⟨l0, rfl, ?_⟩
    obtain rfl : n = 0 := by omega
    exact h0.filled
  rw [if_pos n1]
  obtain ⟨l1, e1, h1⟩ := h0.setIdx (v := x) (by omega) rfl
  rw [e1, Res.bind_ok]
  by_cases n2 : n > 1
  swap
  · rw [if_neg n2]
    refine ⟨l1, rfl, ?_⟩
    obtain rfl : n = 1 := by omega
    exact h1.filled
  rw [if_pos n2]
  obtain ⟨l2, e2, h2⟩ := h1.setIdx (v := π ^ (-0.25 : ℝ) * exp (-0.5 * x * x)) (by omega) (by
    show _ = psi 0 x
    rw [base_eq, psi, Hp_zero, mul_one])
  simp only [Nat.zero_add, Nat.reduceAdd] at e2 h2
  rw [e2, Res.bind_ok]
  by_cases n3 : n > 2
  swap
  · rw [if_neg n3]
    refine ⟨l2, rfl, ?_⟩
    obtain rfl : n = 2 := by omega
    exact h2.filled
  rw [if_pos n3, h2.idx (by omega), Res.bind_ok]
  obtain ⟨l3, e3, h3⟩ := h2.setIdx (v := √2 * x * hermiteFn 2 x) (by omega) (psi_one x).symm
  rw [e3, Res.bind_ok]
  obtain ⟨l4, e4, h4⟩ := allLoop_eq x out (n - 3) 0 l3 (by omega) h3
  refine ⟨l4, e4, ?_⟩
  rw [show 0 + 4 + (n - 3) = n + 1 by omega] at h4
  exact h4.filled

/-! ### `EvaluateDerivatives` -/

/-- Derivatives of the basis. -/
noncomputable def fn1 : Nat → ℝ → ℝ
  | 0, _ => 0
  | 1, _ => 1
  | n + 2, x => psi1 n x

/-- Second derivatives of the basis. -/
noncomputable def fn2 : Nat → ℝ → ℝ
  | 0, _ => 0
  | 1, _ => 0
  | n + 2, x => -(2 * (n : ℝ) + 1 - x * x) * psi n x

theorem hermiteFn_hasDerivAt (n : Nat) (x : ℝ) : HasDerivAt (hermiteFn n) (fn1 n x) x :=
  match n with
  | 0 => hasDerivAt_const x _
  | 1 => hasDerivAt_id x
  | n + 2 => psi_hasDerivAt n x

theorem fn1_hasDerivAt (n : Nat) (x : ℝ) : HasDerivAt (fn1 n) (fn2 n x) x :=
  match n with
  | 0 => hasDerivAt_const x _
  | 1 => hasDerivAt_const x _
  | n + 2 => psi1_hasDerivAt n x

/-- Unscaled entries. -/
noncomputable def hv (x : ℝ) (k : Nat) : ℝ := Hp (k - 2) x
/-- Unscaled derivative entries. -/
noncomputable def hd (x : ℝ) (k : Nat) : ℝ := H1 (k - 2) x

theorem rescale_eq {vals derivs oldV oldD : List ℝ} {x scale : ℝ} {j N : Nat}
    (hV : Two vals oldV (j + 2) N (hermiteFn · x) (hv x)) (hD : Two derivs oldD (j + 2) N (fn1 · x) (hd x))
    (hj : j + 2 < N) (hN : N ≤ oldV.length) (hN' : N ≤ oldD.length)
    (hs : scale = exp (-x ^ 2 / 2) / Nn j) :
    ∃ v d, HermiteFunction.rescale x scale vals derivs (j + 2) = .ok (v, d) ∧
      Two v oldV (j + 3) N (hermiteFn · x) (hv x) ∧ Two d oldD (j + 3) N (fn1 · x) (hd x) := by
  have lD : j + 2 < derivs.length := by rw [hD.len]; omega
  have lV : j + 2 < vals.length := by rw [hV.len]; omega
  obtain ⟨v, ev, hv'⟩ := hV.setIdx hj hN (v := hv x (j + 2) * scale) (by
    show _ = psi j x
    rw [hs, psi, hv, show j + 2 - 2 = j by omega]; ring)
  refine ⟨v, derivs.set (j + 2) (fn1 (j + 2) x), ?_, hv', hD.step hj hN'⟩
  have e1 : Res.idx (derivs.set (j + 2) (hd x (j + 2) - x * hv x (j + 2))) (j + 2)
      = .ok (hd x (j + 2) - x * hv x (j + 2)) := by
    apply Res.idx_some
    rw [List.getElem?_set, if_pos rfl, if_pos lD]
  have e2 : fn1 (j + 2) x = (hd x (j + 2) - x * hv x (j + 2)) * scale := by
    rw [hs, hd, hv, show j + 2 - 2 = j by omega]; rfl
  rw [HermiteFunction.rescale, hD.idx hj, Res.bind_ok, hV.idx hj, Res.bind_ok, Res.setIdx_lt lD, Res.bind_ok, e1,
    Res.bind_ok, Res.setIdx_lt (by simpa using lD), Res.bind_ok]
  rw [Res.bind_ok, ev, Res.bind_ok, e2, List.set_set]
  rfl

theorem scale_eq (x : ℝ) (n : Nat) (c : ℝ) (hc : c = n.factorial) :
    π ^ (-0.25 : ℝ) * exp (-0.5 * x * x) * (((2 : ℝ) ^ (n : ℝ) * c) ^ (-0.5 : ℝ))
      = exp (-x ^ 2 / 2) / Nn n := by
  have hp : (0 : ℝ) < 2 ^ n * n.factorial := by
    have : (0 : ℝ) < n.factorial := by exact_mod_cast n.factorial_pos
    positivity
  have hN : Nn n = √(2 ^ n * n.factorial) * Nn 0 := by
    rw [Nn, Nn, ← Real.sqrt_mul hp.le]
    congr 1
    simp
  have h0 := Nn_pos 0
  rw [base_eq, hN, hc, Real.rpow_natCast, show (-0.5 : ℝ) = -(1 / 2) by norm_num, Real.rpow_neg hp.le,
    ← Real.sqrt_eq_rpow]
  have := Real.sqrt_pos.mpr hp
  field_simp

theorem scaleLoop_eq (x : ℝ) (oldV oldD : List ℝ) (N n : Nat) : ∀ (i : Nat) (c : ℝ) (vals derivs : List ℝ),
    i + 3 + n = N → c = i.factorial → N ≤ oldV.length → N ≤ oldD.length →
    Two vals oldV (i + 3) N (hermiteFn · x) (hv x) → Two derivs oldD (i + 3) N (fn1 · x) (hd x) →
    ∃ v d, HermiteFunction.scaleLoop x (π ^ (-0.25 : ℝ) * exp (-0.5 * x * x)) c vals derivs (i + 1) n = .ok (v, d) ∧
      Two v oldV N N (hermiteFn · x) (hv x) ∧ Two d oldD N N (fn1 · x) (hd x) := by
  induction n with
  | zero =>
    intro i c vals derivs hN _ _ _ hV hD
    obtain rfl : i + 3 = N := by omega
    exact ⟨vals, derivs, rfl, hV, hD⟩
  | succ n ih =>
    intro i c vals derivs hN hc lV lD hV hD
    have hc' : c * ((i + 1 : Nat) : ℝ) = (i + 1).factorial := by
      rw [hc, Nat.factorial_succ]; push_cast; ring
    obtain ⟨v, d, e, hv', hd'⟩ := rescale_eq (j := i + 1) hV hD (by omega) lV lD
      (scale_eq x (i + 1) _ hc')
    obtain ⟨v', d', e', h1, h2⟩ := ih (i + 1) _ v d (by omega) hc' lV lD hv' hd'
    refine ⟨v', d', ?_, h1, h2⟩
    simp only [HermiteFunction.scaleLoop]
    rw [e, Res.bind_ok]
    exact e'

theorem evaluateDerivatives_fn (vals derivs : List ℝ) (n : Nat) (x : ℝ) (lV : n < vals.length)
    (lD : n < derivs.length) :
    ∃ v d, HermiteFunction.evaluateDerivatives vals derivs n x = .ok (v, d) ∧
      Filled v vals n (hermiteFn · x) ∧ Filled d derivs n (fn1 · x) := by
  rw [HermiteFunction.evaluateDerivatives]
  obtain ⟨v0, e0, h0⟩ := (fil_zero vals (hermiteFn · x)).setIdx (v := 1) (by omega) rfl
  obtain ⟨d0, f0, g0⟩ := (fil_zero derivs (fn1 · x)).setIdx (v := 0) (by omega) rfl
  rw [e0, Res.bind_ok, f0, Res.bind_ok]
  by_cases n1 : n > 0
  swap
  · rw [if_neg n1]
    obtain rfl : n = 0 := by omega
    exact ⟨v0, d0, rfl, h0.filled, g0.filled⟩
  rw [if_pos n1]
  obtain ⟨v1, e1, h1⟩ := h0.setIdx (v := x) (by omega) rfl
  obtain ⟨d1, f1, g1⟩ := g0.setIdx (v := 1) (by omega) rfl
  simp only [Nat.zero_add] at e1 f1
  rw [e1, Res.bind_ok, f1, Res.bind_ok]
  by_cases n2 : n > 1
  swap
  · rw [if_neg n2]
    obtain rfl : n = 1 := by omega
    exact ⟨v1, d1, rfl, h1.filled, g1.filled⟩
  rw [if_pos n2]
  have lv1 := h1.1
  have ld1 := g1.1
  obtain ⟨rv, rd, er, hr, hs⟩ := evaluateDerivatives_eq (physicistHermite false) (v1.drop 2) (d1.drop 2) (n - 2) x
    (by rw [List.length_drop]; omega) (by rw [List.length_drop]; omega)
  rw [er, Res.bind_ok]
  have tk : ∀ {l r old : List ℝ} {F G : Nat → ℝ} {g : Nat → ℝ}, Fil l old (0 + 1 + 1) F → n < old.length →
      Filled r (l.drop 2) (n - 2) G → (∀ k, G k = g (k + 2)) →
      Two (l.take 2 ++ r) old (0 + 2) (n + 1) F g := by
    intro l r old F G g hl hn hr hG
    have l2 : (l.take 2).length = 2 := by rw [List.length_take, hl.1]; omega
    have lr : r.length = old.length - 2 := by rw [hr.1, List.length_drop, hl.1]
    refine ⟨by rw [List.length_append, l2, lr]; omega, fun k hk => ?_, fun k hk hk' => ?_, fun k hk => ?_⟩
    · rw [List.getElem?_append_left (by omega), List.getElem?_take, if_pos hk]
      exact hl.2.1 k hk
    · rw [List.getElem?_append_right (by omega), l2, hr.2.1 (k - 2) (by omega), hG,
        show k - 2 + 2 = k by omega]
    · rw [List.getElem?_append_right (by omega), l2, hr.2.2 (k - 2) (by omega), List.getElem?_drop,
        show 2 + (k - 2) = k by omega]
      exact hl.2.2 k (by omega)
  have tv := tk (g := hv x) h1 lV hr (fun k => by
    rw [hv, show k + 2 - 2 = k by omega, ← physicist_rec]; simp [polyVal, physicistHermite])
  have td := tk (g := hd x) g1 lD hs (fun k => by
    rw [hd, show k + 2 - 2 = k by omega, H1]; simp [d1Val, physicistHermite])
  obtain ⟨v2, d2, e2, h2, g2⟩ := rescale_eq tv td (by omega) (by omega) (by omega) (base_eq x)
  obtain ⟨v3, d3, e3, h3, g3⟩ := scaleLoop_eq x vals derivs (n + 1) (n - 2) 0 1 v2 d2 (by omega) (by simp)
    (by omega) (by omega) h2 g2
  refine ⟨v3, d3, ?_, h3.filled, g3.filled⟩
  simp only []
  rw [show (2 : Nat) = 0 + 2 from rfl] 
  rw [e2, Res.bind_ok]
  exact e3

theorem secondLoop_fn (x : ℝ) (vals old : List ℝ) (N n : Nat) (hV : ∀ k, k < N → vals[k]? = some (hermiteFn k x))
    (hN : N ≤ old.length) : ∀ (i : Nat) (s : List ℝ),
    i + 2 + n = N → Fil s old (i + 2) (fn2 · x) →
    ∃ s', HermiteFunction.secondLoop x vals s i n = .ok s' ∧ Fil s' old N (fn2 · x) := by
  induction n with
  | zero =>
    intro i s hi h
    obtain rfl : i + 2 = N := by omega
    exact ⟨s, rfl, h⟩
  | succ n ih =>
    intro i s hi h
    obtain ⟨s', e, h'⟩ := h.setIdx (v := -(2 * (i : ℝ) + 1 - x * x) * hermiteFn (i + 2) x) (by omega) rfl
    obtain ⟨s'', e', h''⟩ := ih (i + 1) s' (by omega) h'
    refine ⟨s'', ?_, h''⟩
    rw [HermiteFunction.secondLoop, Res.idx_some (hV (i + 2) (by omega)), Res.bind_ok, e, Res.bind_ok]
    exact e'

theorem evaluateSecondDerivatives_fn (vals derivs second : List ℝ) (n : Nat) (x : ℝ) (lV : n < vals.length)
    (lD : n < derivs.length) (lS : n < second.length) :
    ∃ v d s, HermiteFunction.evaluateSecondDerivatives vals derivs second n x = .ok (v, d, s) ∧
      Filled v vals n (hermiteFn · x) ∧ Filled d derivs n (fn1 · x) ∧ Filled s second n (fn2 · x) := by
  obtain ⟨v, d, e, hV, hD⟩ := evaluateDerivatives_fn vals derivs n x lV lD
  rw [HermiteFunction.evaluateSecondDerivatives, e, Res.bind_ok]
  obtain ⟨s0, e0, h0⟩ := (fil_zero second (fn2 · x)).setIdx (v := 0) (by omega) rfl
  rw [e0, Res.bind_ok]
  by_cases n1 : n > 0
  swap
  · rw [if_neg n1]
    obtain rfl : n = 0 := by omega
    exact ⟨v, d, s0, rfl, hV, hD, h0.filled⟩
  rw [if_pos n1]
  obtain ⟨s1, e1, h1⟩ := h0.setIdx (v := 0) (by omega) rfl
  simp only [Nat.zero_add] at e1
  rw [e1, Res.bind_ok]
  by_cases n2 : n > 1
  swap
  · rw [if_neg n2]
    obtain rfl : n = 1 := by omega
    exact ⟨v, d, s1, rfl, hV, hD, h1.filled⟩
  rw [if_pos n2]
  obtain ⟨s2, e2, h2⟩ := secondLoop_fn x v second (n + 1) (n - 1) (fun k hk => hV.2.1 k (by omega)) (by omega) 0 s1
    (by omega) h1
  rw [e2, Res.bind_ok]
  exact ⟨v, d, s2, rfl, hV, hD, h2.filled⟩

/-! ### Scalar paths -/

theorem scaling_eq (n : Nat) (h : n ≤ 12) : HermiteFunction.scaling n = 1 / Nn n := by
  have hf : factorial32 n = n.factorial := by
    rw [factorial32_eq]
    apply Nat.mod_eq_of_lt
    calc n.factorial ≤ (12).factorial := Nat.factorial_le h
      _ < 2 ^ 32 := by decide
  have hp : (0 : ℝ) ≤ 2 ^ n * n.factorial * √π := by positivity
  rw [HermiteFunction.scaling, hf, Real.rpow_natCast, show (-0.5 : ℝ) = -(1 / 2) by norm_num,
    Real.rpow_neg hp, ← Real.sqrt_eq_rpow, Nn, one_div]

theorem evaluate_fn (n : Nat) (x : ℝ) (h : n ≤ 14) : HermiteFunction.evaluate n x = hermiteFn n x := by
  match n with
  | 0 => rfl
  | 1 => rfl
  | n + 2 =>
    rw [HermiteFunction.evaluate, if_neg (by omega), if_neg (by omega), show n + 2 - 2 = n by omega,
      scaling_eq n (by omega), exp_eq, evaluate_polyVal, hermiteFn_add_two, psi, ← physicist_rec]
    simp only [polyVal, physicistHermite, Bool.false_eq_true, if_false, div_one]
    ring

theorem derivative_fn (n : Nat) (x : ℝ) (h : n ≤ 14) : HermiteFunction.derivative n x = fn1 n x := by
  match n with
  | 0 => rfl
  | 1 => rfl
  | n + 2 =>
    rw [HermiteFunction.derivative, if_neg (by omega), if_neg (by omega), show n + 2 - 2 = n by omega,
      scaling_eq n (by omega)]
    simp only []
    rw [exp_eq, evaluate_polyVal, derivative_eq _ _ _ (by simp [physicistHermite]), fn1, psi1, H1, ← physicist_rec]
    simp only [polyVal, d1Val, physicistHermite, Bool.false_eq_true, if_false, div_one]
    ring

end MParT.Hermite
