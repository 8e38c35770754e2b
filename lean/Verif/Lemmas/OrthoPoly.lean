import Verif.Spec.OrthoPoly
import Mathlib.Tactic.Ring
import Mathlib.Tactic.FieldSimp
/-! Helper lemmas for orthogonal polynomials. -/
namespace MParT
namespace OrthoPoly
open Spec

section
variable {K : Type} [Field K]

/-- First `n` entries are `f`. -/
def Pre (l : List K) (n : Nat) (f : Nat → K) : Prop := ∀ k, k < n → l[k]? = some (f k)

/-- Like `Filled`, with an exclusive bound. -/
def Fil (new old : List K) (n : Nat) (f : Nat → K) : Prop :=
  new.length = old.length ∧ Pre new n f ∧ ∀ k, n ≤ k → new[k]? = old[k]?

theorem Fil.filled {new old : List K} {n : Nat} {f : Nat → K} (h : Fil new old (n + 1) f) :
    Filled new old n f := ⟨h.1, fun k hk => h.2.1 k (by omega), fun k hk => h.2.2 k (by omega)⟩

theorem Fil.set {new old : List K} {n : Nat} {f : Nat → K} (h : Fil new old n f) (hn : n < old.length)
    {v : K} (hv : v = f n) : Fil (new.set n v) old (n + 1) f := by
  refine ⟨by simpa using h.1, fun k hk => ?_, fun k hk => ?_⟩
  · rw [List.getElem?_set]
    by_cases e : n = k
    · subst e; rw [if_pos rfl, if_pos (by rw [h.1]; exact hn), hv]
    · rw [if_neg e]; exact h.2.1 k (by omega)
  · rw [List.getElem?_set, if_neg (by omega)]; exact h.2.2 k (by omega)

theorem Fil.setIdx {new old : List K} {n : Nat} {f : Nat → K} (h : Fil new old n f) (hn : n < old.length)
    {v : K} (hv : v = f n) : ∃ l, Res.setIdx new n v = .ok l ∧ Fil l old (n + 1) f :=
  ⟨_, Res.setIdx_lt (by rw [h.1]; exact hn), h.set hn hv⟩

theorem Fil.idx {new old : List K} {n k : Nat} {f : Nat → K} (h : Fil new old n f) (hk : k < n) :
    Res.idx new k = .ok (f k) := Res.idx_some (h.2.1 k hk)

theorem fil_zero (l : List K) (f : Nat → K) : Fil l l 0 f := ⟨rfl, fun k hk => by omega, fun _ _ => rfl⟩

/-- Entries up to order 1. -/
theorem init_eq (a : List K) (maxOrder : Nat) (f : Nat → K) (ha : maxOrder < a.length) :
    ∃ l, init a maxOrder (f 0) (f 1) = .ok l ∧ Fil l a (min 2 (maxOrder + 1)) f := by
  obtain ⟨l, e, h⟩ := (fil_zero a f).setIdx (v := f 0) (by omega) rfl
  rw [init, e, Res.bind_ok]
  by_cases hm : maxOrder > 0
  · obtain ⟨l', e', h'⟩ := h.setIdx (v := f 1) (by omega) rfl
    refine ⟨l', by rw [if_pos hm, e'], ?_⟩
    rwa [show min 2 (maxOrder + 1) = 2 by omega]
  · refine ⟨l, by rw [if_neg hm], ?_⟩
    rwa [show min 2 (maxOrder + 1) = 1 by omega]

variable (p : OrthoPoly K) (x : K)

/-- Recurrence of the first derivatives. -/
def rec1 (m : Mixer K) (x : K) : Nat → K
  | 0 => 0
  | 1 => m.phi1Deriv x
  | n + 2 => m.ak (n + 2) * recurrence m x (n + 1) + (m.ak (n + 2) * x + m.bk (n + 2)) * rec1 m x (n + 1)
      - m.ck (n + 2) * rec1 m x n

/-- Recurrence of the second derivatives. -/
def rec2 (m : Mixer K) (x : K) : Nat → K
  | 0 => 0
  | 1 => 0
  | n + 2 => m.ak (n + 2) * rec1 m x (n + 1) + m.ak (n + 2) * rec1 m x (n + 1)
      + (m.ak (n + 2) * x + m.bk (n + 2)) * rec2 m x (n + 1) - m.ck (n + 2) * rec2 m x n

theorem valLoop_eq (old : List K) (n : Nat) : ∀ (j : Nat) (out : List K), j + 2 + n ≤ old.length →
    Fil out old (j + 2) (recurrence p.toMixer x) →
    ∃ l, valLoop p x out (j + 2) n = .ok l ∧ Fil l old (j + 2 + n) (recurrence p.toMixer x) := by
  induction n with
  | zero => intro j out _ h; exact ⟨out, rfl, h⟩
  | succ n ih =>
    intro j out hl h
    obtain ⟨l, e, h'⟩ := h.setIdx (v := (p.ak (j + 2) * x + p.bk (j + 2)) * recurrence p.toMixer x (j + 1)
      - p.ck (j + 2) * recurrence p.toMixer x j) (by omega) rfl
    obtain ⟨l', e', h''⟩ := ih (j + 1) l (by omega) h'
    refine ⟨l', ?_, by rw [show j + 2 + (n + 1) = j + 1 + 2 + n by omega]; exact h''⟩
    rw [valLoop, show j + 2 - 1 = j + 1 by omega, h.idx (by omega), Res.bind_ok,
      show j + 2 - 2 = j by omega, h.idx (by omega), Res.bind_ok, e, Res.bind_ok]
    exact e'

theorem derivLoop_eq (old : List K) (n : Nat) : ∀ (j : Nat) (out : List K), j + 2 + n ≤ old.length →
    Fil out old (j + 2) (rec1 p.toMixer x) →
    ∃ l, derivLoop p x (recurrence p.toMixer x j) (recurrence p.toMixer x (j + 1)) out (j + 2) n = .ok l ∧
      Fil l old (j + 2 + n) (rec1 p.toMixer x) := by
  induction n with
  | zero => intro j out _ h; exact ⟨out, rfl, h⟩
  | succ n ih =>
    intro j out hl h
    obtain ⟨l, e, h'⟩ := h.setIdx (v := p.ak (j + 2) * recurrence p.toMixer x (j + 1)
      + (p.ak (j + 2) * x + p.bk (j + 2)) * rec1 p.toMixer x (j + 1)
      - p.ck (j + 2) * rec1 p.toMixer x j) (by omega) rfl
    obtain ⟨l', e', h''⟩ := ih (j + 1) l (by omega) h'
    refine ⟨l', ?_, by rw [show j + 2 + (n + 1) = j + 1 + 2 + n by omega]; exact h''⟩
    simp only [derivLoop]
    rw [show j + 2 - 1 = j + 1 by omega, h.idx (by omega), Res.bind_ok,
      show j + 2 - 2 = j by omega, h.idx (by omega), Res.bind_ok, e, Res.bind_ok]
    exact e'

theorem valDerivLoop_eq (oldV oldD : List K) (n : Nat) : ∀ (j : Nat) (vals derivs : List K),
    j + 2 + n ≤ oldV.length → j + 2 + n ≤ oldD.length →
    Fil vals oldV (j + 2) (recurrence p.toMixer x) → Fil derivs oldD (j + 2) (rec1 p.toMixer x) →
    ∃ v d, valDerivLoop p x vals derivs (j + 2) n = .ok (v, d) ∧
      Fil v oldV (j + 2 + n) (recurrence p.toMixer x) ∧ Fil d oldD (j + 2 + n) (rec1 p.toMixer x) := by
  induction n with
  | zero => intro j v d _ _ h h'; exact ⟨v, d, rfl, h, h'⟩
  | succ n ih =>
    intro j vals derivs hl hl' h hd
    obtain ⟨l, e, h'⟩ := h.setIdx (v := (p.ak (j + 2) * x + p.bk (j + 2)) * recurrence p.toMixer x (j + 1)
      - p.ck (j + 2) * recurrence p.toMixer x j) (by omega) rfl
    obtain ⟨d, ed, hd'⟩ := hd.setIdx (v := p.ak (j + 2) * recurrence p.toMixer x (j + 1)
      + (p.ak (j + 2) * x + p.bk (j + 2)) * rec1 p.toMixer x (j + 1)
      - p.ck (j + 2) * rec1 p.toMixer x j) (by omega) rfl
    obtain ⟨l', d', e', h1, h2⟩ := ih (j + 1) l d (by omega) (by omega) h' hd'
    rw [show j + 2 + (n + 1) = j + 1 + 2 + n by omega]
    refine ⟨l', d', ?_, h1, h2⟩
    simp only [valDerivLoop]
    rw [show j + 2 - 1 = j + 1 by omega, show j + 2 - 2 = j by omega, h.idx (by omega), Res.bind_ok,
      h.idx (by omega), Res.bind_ok, e, Res.bind_ok, h'.idx (by omega), Res.bind_ok,
      hd.idx (by omega), Res.bind_ok, hd.idx (by omega), Res.bind_ok, ed, Res.bind_ok]
    exact e'

theorem secondLoop_eq (oldV oldD oldS : List K) (n : Nat) : ∀ (j : Nat) (vals derivs second : List K),
    j + 2 + n ≤ oldV.length → j + 2 + n ≤ oldD.length → j + 2 + n ≤ oldS.length →
    Fil vals oldV (j + 2) (recurrence p.toMixer x) → Fil derivs oldD (j + 2) (rec1 p.toMixer x) →
    Fil second oldS (j + 2) (rec2 p.toMixer x) →
    ∃ v d s, secondLoop p x vals derivs second (j + 2) n = .ok (v, d, s) ∧
      Fil v oldV (j + 2 + n) (recurrence p.toMixer x) ∧ Fil d oldD (j + 2 + n) (rec1 p.toMixer x) ∧
      Fil s oldS (j + 2 + n) (rec2 p.toMixer x) := by
  induction n with
  | zero => intro j v d s _ _ _ h h' h''; exact ⟨v, d, s, rfl, h, h', h''⟩
  | succ n ih =>
    intro j vals derivs second hl hl' hl'' h hd hs
    obtain ⟨l, e, h'⟩ := h.setIdx (v := (p.ak (j + 2) * x + p.bk (j + 2)) * recurrence p.toMixer x (j + 1)
      - p.ck (j + 2) * recurrence p.toMixer x j) (by omega) rfl
    obtain ⟨d, ed, hd'⟩ := hd.setIdx (v := p.ak (j + 2) * recurrence p.toMixer x (j + 1)
      + (p.ak (j + 2) * x + p.bk (j + 2)) * rec1 p.toMixer x (j + 1)
      - p.ck (j + 2) * rec1 p.toMixer x j) (by omega) rfl
    obtain ⟨s, es, hs'⟩ := hs.setIdx (v := p.ak (j + 2) * rec1 p.toMixer x (j + 1)
      + p.ak (j + 2) * rec1 p.toMixer x (j + 1)
      + (p.ak (j + 2) * x + p.bk (j + 2)) * rec2 p.toMixer x (j + 1)
      - p.ck (j + 2) * rec2 p.toMixer x j) (by omega) rfl
    obtain ⟨l', d', s', e', h1, h2, h3⟩ := ih (j + 1) l d s (by omega) (by omega) (by omega) h' hd' hs'
    rw [show j + 2 + (n + 1) = j + 1 + 2 + n by omega]
    refine ⟨l', d', s', ?_, h1, h2, h3⟩
    simp only [secondLoop]
    rw [show j + 2 - 1 = j + 1 by omega, show j + 2 - 2 = j by omega, h.idx (by omega), Res.bind_ok,
      h.idx (by omega), Res.bind_ok, e, Res.bind_ok, h'.idx (by omega), Res.bind_ok,
      hd.idx (by omega), Res.bind_ok, hd.idx (by omega), Res.bind_ok, ed, Res.bind_ok,
      hd'.idx (by omega), Res.bind_ok, hs.idx (by omega), Res.bind_ok, hs.idx (by omega), Res.bind_ok, es,
      Res.bind_ok]
    exact e'

theorem normLoop_eq (f : Nat → K) (N : Nat) (old : List K) (n : Nat) : ∀ (j : Nat) (a : List K), j + n = N →
    N ≤ old.length → a.length = old.length →
    Pre a j (fun k => f k / p.normalization k) → (∀ k, j ≤ k → k < N → a[k]? = some (f k)) →
    (∀ k, N ≤ k → a[k]? = old[k]?) →
    ∃ l, normLoop p a j n = .ok l ∧ Fil l old N (fun k => f k / p.normalization k) := by
  induction n with
  | zero =>
    intro j a hj hN hl h1 h2 h3
    have : j = N := by omega
    subst this
    exact ⟨a, rfl, hl, h1, h3⟩
  | succ n ih =>
    intro j a hj hN hl h1 h2 h3
    obtain ⟨l, e, h⟩ := ih (j + 1) (a.set j (f j / p.normalization j)) (by omega) hN (by simpa using hl)
      (by
        intro k hk
        rw [List.getElem?_set]
        by_cases e : j = k
        · subst e; rw [if_pos rfl, if_pos (by omega)]
        · rw [if_neg e]; exact h1 k (by omega))
      (by
        intro k hk hk'
        rw [List.getElem?_set, if_neg (by omega)]
        exact h2 k (by omega) hk')
      (by
        intro k hk
        rw [List.getElem?_set, if_neg (by omega)]
        exact h3 k hk)
    refine ⟨l, ?_, h⟩
    rw [normLoop, Res.idx_some (h2 j (by omega) (by omega)), Res.bind_ok, Res.setIdx_lt (by omega),
      Res.bind_ok, e]

theorem finish_eq {a old : List K} {f : Nat → K} {maxOrder : Nat} (h : Fil a old (maxOrder + 1) f)
    (hl : maxOrder < old.length) :
    ∃ l, finish p a maxOrder = .ok l ∧
      Filled l old maxOrder (fun k => f k / (if p.normalize then p.normalization k else 1)) := by
  rw [finish]
  cases hn : p.normalize with
  | true =>
    obtain ⟨l, e, h'⟩ := normLoop_eq p f (maxOrder + 1) old (maxOrder + 1) 0 a (by omega) (by omega) h.1
      (fun k hk => by omega) (fun k _ hk => h.2.1 k hk) h.2.2
    refine ⟨l, by simpa using e, ?_⟩
    simpa using h'.filled
  | false =>
    refine ⟨a, by simp, ?_⟩
    simpa using h.filled

theorem min_two {n : Nat} (h : 0 < n) : min 2 (n + 1) + (n - 1) = n + 1 := by omega

theorem min_two' : min 2 (0 + 1) = 1 := rfl

/-- Bring the `min 2` form of `init_eq` in the form used by the loops. -/
theorem Fil.two {l old : List K} {f : Nat → K} {n : Nat} (hn : 0 < n) (h : Fil l old (min 2 (n + 1)) f) :
    Fil l old (0 + 2) f := by
  rwa [show min 2 (n + 1) = 0 + 2 by omega] at h

/-! ### Scalar paths -/

theorem clenshaw_inv (n : Nat) : ∀ (y2 y1 y : K),
    recurrence p.toMixer x (n + 1) * y - p.ck (n + 2) * y1 * recurrence p.toMixer x n
      = (clenshaw p x y2 y1 y (n + 1)).2.1 * p.phi1 x
        - p.ck 2 * p.phi0 x * (clenshaw p x y2 y1 y (n + 1)).1 := by
  induction n with
  | zero =>
    intro y2 y1 y
    simp only [clenshaw, recurrence]
    ring
  | succ n ih =>
    intro y2 y1 y
    rw [clenshaw]
    have := ih y1 y ((p.ak (n + 2) * x + p.bk (n + 2)) * y + -p.ck (n + 3) * y1)
    rw [show n + 1 + 1 = n + 2 from rfl, show n + 1 + 2 = n + 3 from rfl, ← this, recurrence]
    ring

theorem evaluate_polyVal (n : Nat) : evaluate p n x = polyVal p n x := by
  rw [evaluate, polyVal]
  match n with
  | 0 => simp [recurrence]
  | 1 => simp [recurrence]
  | n + 2 =>
    simp only [Nat.add_eq_zero_iff, OfNat.ofNat_ne_zero, and_false, if_false,
      show ¬ (n + 2 = 1) by omega]
    congr 1
    have := clenshaw_inv p x (n + 1) 0 0 1
    rw [mul_one, mul_zero, zero_mul, sub_zero] at this
    rw [this]
    ring

theorem derivativeLoop_eq (n : Nat) : ∀ j, derivativeLoop p x (recurrence p.toMixer x j)
    (recurrence p.toMixer x (j + 1)) (rec1 p.toMixer x j) (rec1 p.toMixer x (j + 1)) (j + 2) n
      = rec1 p.toMixer x (j + 1 + n) := by
  induction n with
  | zero => intro j; rfl
  | succ n ih =>
    intro j
    have := ih (j + 1)
    rw [show j + 1 + (n + 1) = j + 1 + 1 + n by omega, ← this]
    rfl

theorem secondDerivativeLoop_eq (n : Nat) : ∀ j, secondDerivativeLoop p x (recurrence p.toMixer x j)
    (recurrence p.toMixer x (j + 1)) (rec1 p.toMixer x j) (rec1 p.toMixer x (j + 1))
    (rec2 p.toMixer x j) (rec2 p.toMixer x (j + 1)) (j + 2) n
      = rec2 p.toMixer x (j + 1 + n) := by
  induction n with
  | zero => intro j; rfl
  | succ n ih =>
    intro j
    have := ih (j + 1)
    rw [show j + 1 + (n + 1) = j + 1 + 1 + n by omega, ← this]
    rfl

end
end OrthoPoly
end MParT

namespace MParT.OrthoPoly
open Spec
variable {K : Type} [Field K] (p : OrthoPoly K)

theorem evaluateAll_eq (output : List K) (maxOrder : Nat) (x : K) (hl : maxOrder < output.length) :
    ∃ o, evaluateAll p output maxOrder x = .ok o ∧ Filled o output maxOrder (fun k => polyVal p k x) := by
  obtain ⟨l, e, h⟩ := init_eq output maxOrder (recurrence p.toMixer x) hl
  have e' : init output maxOrder (p.phi0 x) (p.phi1 x) = .ok l := e
  rw [evaluateAll, e', Res.bind_ok]
  rcases Nat.eq_zero_or_pos maxOrder with rfl | hm
  · obtain ⟨l', f, g⟩ := finish_eq p (maxOrder := 0) h hl
    exact ⟨l', f, g⟩
  · obtain ⟨l', f, g⟩ := valLoop_eq p x output (maxOrder - 1) 0 l (by omega) (h.two hm)
    rw [show (0 + 2 + (maxOrder - 1)) = maxOrder + 1 by omega] at g
    obtain ⟨l'', f', g'⟩ := finish_eq p g hl
    exact ⟨l'', by rw [show (2 : Nat) = 0 + 2 from rfl, f, Res.bind_ok, f'], g'⟩

/-- Normalised first derivative. -/
def d1Val (p : OrthoPoly K) (n : Nat) (x : K) : K :=
  rec1 p.toMixer x n / (if p.normalize then p.normalization n else 1)

/-- Normalised second derivative. -/
def d2Val (p : OrthoPoly K) (n : Nat) (x : K) : K :=
  rec2 p.toMixer x n / (if p.normalize then p.normalization n else 1)

theorem evaluateDerivs_eq (derivs : List K) (maxOrder : Nat) (x : K) (hl : maxOrder < derivs.length) :
    ∃ o, evaluateDerivs p derivs maxOrder x = .ok o ∧ Filled o derivs maxOrder (fun k => d1Val p k x) := by
  obtain ⟨l, e, h⟩ := init_eq derivs maxOrder (rec1 p.toMixer x) hl
  have e' : init derivs maxOrder 0 (p.phi1Deriv x) = .ok l := e
  rw [evaluateDerivs, e', Res.bind_ok]
  rcases Nat.eq_zero_or_pos maxOrder with rfl | hm
  · obtain ⟨l', f, g⟩ := finish_eq p (maxOrder := 0) h hl
    exact ⟨l', f, g⟩
  · obtain ⟨l', f, g⟩ := derivLoop_eq p x derivs (maxOrder - 1) 0 l (by omega) (h.two hm)
    rw [show (0 + 2 + (maxOrder - 1)) = maxOrder + 1 by omega] at g
    obtain ⟨l'', f', g'⟩ := finish_eq p g hl
    refine ⟨l'', ?_, g'⟩
    have f2 : derivLoop p x (p.phi0 x) (p.phi1 x) l 2 (maxOrder - 1) = .ok l' := f
    rw [f2, Res.bind_ok, f']

theorem evaluateDerivatives_eq (vals derivs : List K) (maxOrder : Nat) (x : K)
    (hl : maxOrder < vals.length) (hd : maxOrder < derivs.length) :
    ∃ v d, evaluateDerivatives p vals derivs maxOrder x = .ok (v, d) ∧
      Filled v vals maxOrder (fun k => polyVal p k x) ∧ Filled d derivs maxOrder (fun k => d1Val p k x) := by
  obtain ⟨l, e, h⟩ := init_eq vals maxOrder (recurrence p.toMixer x) hl
  obtain ⟨m, e2, h2⟩ := init_eq derivs maxOrder (rec1 p.toMixer x) hd
  have e' : init vals maxOrder (p.phi0 x) (p.phi1 x) = .ok l := e
  have e2' : init derivs maxOrder 0 (p.phi1Deriv x) = .ok m := e2
  rw [evaluateDerivatives, e', Res.bind_ok, e2', Res.bind_ok]
  rcases Nat.eq_zero_or_pos maxOrder with rfl | hm
  · obtain ⟨l', f, g⟩ := finish_eq p (maxOrder := 0) h hl
    obtain ⟨m', f2, g2⟩ := finish_eq p (maxOrder := 0) h2 hd
    refine ⟨l', m', ?_, g, g2⟩
    have : valDerivLoop p x l m 2 (0 - 1) = .ok (l, m) := rfl
    rw [this, Res.bind_ok, f, Res.bind_ok, f2, Res.bind_ok]; rfl
  · obtain ⟨l', m', f, g, g2⟩ := valDerivLoop_eq p x vals derivs (maxOrder - 1) 0 l m (by omega) (by omega)
      (h.two hm) (h2.two hm)
    rw [show (0 + 2 + (maxOrder - 1)) = maxOrder + 1 by omega] at g g2
    obtain ⟨l'', f', g'⟩ := finish_eq p g hl
    obtain ⟨m'', f2', g2'⟩ := finish_eq p g2 hd
    refine ⟨l'', m'', ?_, g', g2'⟩
    rw [show (2 : Nat) = 0 + 2 from rfl, f, Res.bind_ok, f', Res.bind_ok, f2', Res.bind_ok]; rfl

theorem evaluateSecondDerivatives_eq (vals derivs second : List K) (maxOrder : Nat) (x : K)
    (hl : maxOrder < vals.length) (hd : maxOrder < derivs.length) (hs : maxOrder < second.length) :
    ∃ v d s, evaluateSecondDerivatives p vals derivs second maxOrder x = .ok (v, d, s) ∧
      Filled v vals maxOrder (fun k => polyVal p k x) ∧ Filled d derivs maxOrder (fun k => d1Val p k x) ∧
      Filled s second maxOrder (fun k => d2Val p k x) := by
  obtain ⟨l, e, h⟩ := init_eq vals maxOrder (recurrence p.toMixer x) hl
  obtain ⟨m, e2, h2⟩ := init_eq derivs maxOrder (rec1 p.toMixer x) hd
  obtain ⟨q, e3, h3⟩ := init_eq second maxOrder (rec2 p.toMixer x) hs
  have e' : init vals maxOrder (p.phi0 x) (p.phi1 x) = .ok l := e
  have e2' : init derivs maxOrder 0 (p.phi1Deriv x) = .ok m := e2
  have e3' : init second maxOrder (0 : K) 0 = .ok q := e3
  rw [evaluateSecondDerivatives, e', Res.bind_ok, e2', Res.bind_ok, e3', Res.bind_ok]
  rcases Nat.eq_zero_or_pos maxOrder with rfl | hm
  · obtain ⟨l', f, g⟩ := finish_eq p (maxOrder := 0) h hl
    obtain ⟨m', f2, g2⟩ := finish_eq p (maxOrder := 0) h2 hd
    obtain ⟨q', f3, g3⟩ := finish_eq p (maxOrder := 0) h3 hs
    refine ⟨l', m', q', ?_, g, g2, g3⟩
    have : secondLoop p x l m q 2 (0 - 1) = .ok (l, m, q) := rfl
    rw [this, Res.bind_ok, f, Res.bind_ok, f2, Res.bind_ok, f3, Res.bind_ok]; rfl
  · obtain ⟨l', m', q', f, g, g2, g3⟩ := secondLoop_eq p x vals derivs second (maxOrder - 1) 0 l m q
      (by omega) (by omega) (by omega) (h.two hm) (h2.two hm) (h3.two hm)
    rw [show (0 + 2 + (maxOrder - 1)) = maxOrder + 1 by omega] at g g2 g3
    obtain ⟨l'', f', g'⟩ := finish_eq p g hl
    obtain ⟨m'', f2', g2'⟩ := finish_eq p g2 hd
    obtain ⟨q'', f3', g3'⟩ := finish_eq p g3 hs
    refine ⟨l'', m'', q'', ?_, g', g2', g3'⟩
    rw [show (2 : Nat) = 0 + 2 from rfl, f, Res.bind_ok, f', Res.bind_ok, f2', Res.bind_ok, f3', Res.bind_ok]
    rfl

theorem derivative_eq (n : Nat) (x : K) (h : p.normalize = true → n = 1 → p.normalization 1 = 1) :
    derivative p n x = d1Val p n x := by
  rw [derivative, d1Val]
  match n with
  | 0 => simp [rec1]
  | 1 =>
    cases hn : p.normalize with
    | false => simp [rec1]
    | true => simp [rec1, h hn rfl]
  | n + 2 =>
    have := derivativeLoop_eq p x (n + 1) 0
    have e : derivativeLoop p x (p.phi0 x) (p.phi1 x) 0 (p.phi1Deriv x) 2 (n + 1)
        = rec1 p.toMixer x (n + 2) := by
      rw [show n + 2 = 0 + 1 + (n + 1) by omega]; exact this
    simp only [Nat.add_eq_zero_iff, OfNat.ofNat_ne_zero, and_false, if_false,
      show ¬ (n + 2 = 1) by omega, show n + 2 - 1 = n + 1 by omega, e]
    cases p.normalize <;> simp

theorem secondDerivative_eq (n : Nat) (x : K) : secondDerivative p n x = d2Val p n x := by
  rw [secondDerivative, d2Val]
  match n with
  | 0 => simp [rec2]
  | 1 => simp [rec2]
  | n + 2 =>
    have := secondDerivativeLoop_eq p x (n + 1) 0
    have e : secondDerivativeLoop p x (p.phi0 x) (p.phi1 x) 0 (p.phi1Deriv x) 0 0 2 (n + 1)
        = rec2 p.toMixer x (n + 2) := by
      rw [show n + 2 = 0 + 1 + (n + 1) by omega]; exact this
    simp only [show ¬ (n + 2 ≤ 1) by omega, if_false, show n + 2 - 1 = n + 1 by omega, e]
    cases p.normalize <;> simp

end MParT.OrthoPoly

namespace MParT.OrthoPoly
open Spec

theorem recurrence_hasDerivAt {m : Mixer ℝ} (hm : SmoothMixer m) (x : ℝ) : ∀ n,
    HasDerivAt (fun y => recurrence m y n) (rec1 m x n) x
  | 0 => by simpa [recurrence, rec1] using hm.phi0 x
  | 1 => by simpa [recurrence, rec1] using hm.phi1 x
  | n + 2 => by
    have h1 := recurrence_hasDerivAt hm x (n + 1)
    have h0 := recurrence_hasDerivAt hm x n
    have ha : HasDerivAt (fun y => m.ak (n + 2) * y + m.bk (n + 2)) (m.ak (n + 2)) x := by
      simpa using ((hasDerivAt_id x).const_mul (m.ak (n + 2))).add_const (m.bk (n + 2))
    simp only [recurrence, rec1]
    exact ((ha.fun_mul h1).fun_sub (h0.const_mul (m.ck (n + 2)))).congr_deriv (by ring)

theorem rec1_hasDerivAt {m : Mixer ℝ} (hm : SmoothMixer m) (x : ℝ) : ∀ n,
    HasDerivAt (fun y => rec1 m y n) (rec2 m x n) x
  | 0 => by simpa [rec1, rec2] using hasDerivAt_const x (0 : ℝ)
  | 1 => by simpa [rec1, rec2] using hm.phi1Deriv x
  | n + 2 => by
    have h1 := rec1_hasDerivAt hm x (n + 1)
    have h0 := rec1_hasDerivAt hm x n
    have hv := recurrence_hasDerivAt hm x (n + 1)
    have ha : HasDerivAt (fun y => m.ak (n + 2) * y + m.bk (n + 2)) (m.ak (n + 2)) x := by
      simpa using ((hasDerivAt_id x).const_mul (m.ak (n + 2))).add_const (m.bk (n + 2))
    simp only [rec1, rec2]
    exact (((hv.const_mul (m.ak (n + 2))).fun_add (ha.fun_mul h1)).fun_sub
      (h0.const_mul (m.ck (n + 2)))).congr_deriv (by ring)

theorem polyVal_hasDerivAt {p : OrthoPoly ℝ} (hm : SmoothMixer p.toMixer) (n : Nat) (x : ℝ) :
    HasDerivAt (polyVal p n) (d1Val p n x) x := (recurrence_hasDerivAt hm x n).div_const _

theorem d1Val_hasDerivAt {p : OrthoPoly ℝ} (hm : SmoothMixer p.toMixer) (n : Nat) (x : ℝ) :
    HasDerivAt (d1Val p n) (d2Val p n x) x := (rec1_hasDerivAt hm x n).div_const _

end MParT.OrthoPoly

namespace MParT.OrthoPoly
open Spec
/-- Entries below `j` have been updated to `f`, entries in `[j, N)` still hold `g`. -/
structure Two (l old : List ℝ) (j N : Nat) (f g : Nat → ℝ) : Prop where
  len : l.length = old.length
  done : ∀ k, k < j → l[k]? = some (f k)
  todo : ∀ k, j ≤ k → k < N → l[k]? = some (g k)
  rest : ∀ k, N ≤ k → l[k]? = old[k]?

theorem Two.step {l old : List ℝ} {j N : Nat} {f g : Nat → ℝ} (h : Two l old j N f g) (hj : j < N)
    (hN : N ≤ old.length) : Two (l.set j (f j)) old (j + 1) N f g := by
  refine ⟨by simpa using h.len, fun k hk => ?_, fun k hk hk' => ?_, fun k hk => ?_⟩
  · rw [List.getElem?_set]
    by_cases e : j = k
    · subst e; rw [if_pos rfl, if_pos (by rw [h.len]; omega)]
    · rw [if_neg e]; exact h.done k (by omega)
  · rw [List.getElem?_set, if_neg (by omega)]; exact h.todo k (by omega) hk'
  · rw [List.getElem?_set, if_neg (by omega)]; exact h.rest k hk

theorem Two.setIdx {l old : List ℝ} {j N : Nat} {f g : Nat → ℝ} (h : Two l old j N f g) (hj : j < N)
    (hN : N ≤ old.length) {v : ℝ} (hv : v = f j) :
    ∃ l', Res.setIdx l j v = .ok l' ∧ Two l' old (j + 1) N f g :=
  ⟨_, by rw [hv]; exact Res.setIdx_lt (by rw [h.len]; omega), h.step hj hN⟩

theorem Two.idx {l old : List ℝ} {j N : Nat} {f g : Nat → ℝ} (h : Two l old j N f g) (hj : j < N) :
    Res.idx l j = .ok (g j) := Res.idx_some (h.todo j (Nat.le_refl j) hj)

theorem Two.filled {l old : List ℝ} {N : Nat} {f g : Nat → ℝ} (h : Two l old (N + 1) (N + 1) f g) :
    Filled l old N f := ⟨h.len, fun k hk => h.done k (by omega), fun k hk => h.rest k (by omega)⟩

theorem Filled.two {l old : List ℝ} {N : Nat} {f g : Nat → ℝ} (h : Filled l old N g) :
    Two l old 0 (N + 1) f g :=
  ⟨h.1, fun k hk => by omega, fun k _ hk => h.2.1 k (by omega), fun k hk => h.2.2 k (by omega)⟩
end MParT.OrthoPoly
