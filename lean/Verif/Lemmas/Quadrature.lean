import Verif.Model.Quadrature
import Mathlib.Tactic.Ring
import Mathlib.Tactic.Linarith
import Mathlib.Tactic.FieldSimp
/-!
# Memory and loop lemmas for the quadrature model
-/
namespace MParT
open Real

namespace Mem

theorem read_ok {m : Mem} {i : Nat} (h : i < m.size) : m.read i = .ok (m.val i) := by simp [read, h]

theorem write_ok {m : Mem} {i : Nat} {v : ℝ} (h : i < m.size) :
    m.write i v = .ok ⟨m.size, Function.update m.val i v⟩ := by simp [write, h]

theorem read_ub {m : Mem} {i : Nat} (h : m.size ≤ i) : m.read i = .ub := by simp [read, Nat.not_lt.mpr h]

theorem write_ub {m : Mem} {i : Nat} {v : ℝ} (h : m.size ≤ i) : m.write i v = .ub := by
  simp [write, Nat.not_lt.mpr h]

end Mem

/-- Loop invariant rule. -/
theorem forLoop_inv {σ : Type} {body : Nat → σ → Res σ} (P : Nat → σ → Prop) (i n : Nat) (s : σ) (h0 : P i s)
    (step : ∀ k s, i ≤ k → k < i + n → P k s → ∃ s', body k s = .ok s' ∧ P (k + 1) s') :
    ∃ s', forLoop body i n s = .ok s' ∧ P (i + n) s' := by
  induction n generalizing i s with
  | zero => exact ⟨s, rfl, h0⟩
  | succ n ih =>
    obtain ⟨s1, e1, h1⟩ := step i s le_rfl (by omega) h0
    obtain ⟨s2, e2, h2⟩ := ih (i + 1) s1 h1 (fun k s hk hk' => step k s (by omega) (by omega))
    refine ⟨s2, ?_, ?_⟩
    · rw [forLoop, e1, Res.bind_ok, e2]
    · rwa [show i + (n + 1) = i + 1 + n by omega]

/-- A loop whose body always succeeds. -/
theorem forLoop_pure {σ : Type} {body : Nat → σ → Res σ} (g : Nat → σ → σ) (i n : Nat) (s : σ)
    (step : ∀ k s, i ≤ k → k < i + n → body k s = .ok (g k s)) :
    ∃ s', forLoop body i n s = .ok s' := by
  obtain ⟨s', e, _⟩ := forLoop_inv (body := body) (fun _ _ => True) i n s trivial
    (fun k s h h' _ => ⟨_, step k s h h', trivial⟩)
  exact ⟨s', e⟩

/-- A loop that writes entry `off+k` at step `k`, to a value that depends only on the old content of that entry. -/
theorem forLoop_pointwise {body : Nat → Mem → Res Mem} (g : Nat → ℝ → ℝ) (off i n : Nat) (m : Mem)
    (hs : off + i + n ≤ m.size)
    (step : ∀ k (m' : Mem), i ≤ k → k < i + n → m'.size = m.size → m'.val (off + k) = m.val (off + k) →
      body k m' = .ok ⟨m'.size, Function.update m'.val (off + k) (g k (m.val (off + k)))⟩) :
    ∃ m', forLoop body i n m = .ok m' ∧ m'.size = m.size ∧
      (∀ k, i ≤ k → k < i + n → m'.val (off + k) = g k (m.val (off + k))) ∧
      ∀ j, (j < off + i ∨ off + i + n ≤ j) → m'.val j = m.val j := by
  obtain ⟨m', e, h1, h2, h3⟩ := forLoop_inv (body := body)
    (fun k m' => m'.size = m.size ∧ (∀ l, i ≤ l → l < k → m'.val (off + l) = g l (m.val (off + l))) ∧
      ∀ j, (j < off + i ∨ off + k ≤ j) → m'.val j = m.val j) i n m
    ⟨rfl, fun l h h' => absurd h' (by omega), fun _ _ => rfl⟩
    (fun k m' hk hk' ⟨a, b, c⟩ => by
      refine ⟨_, step k m' hk hk' a (c _ (by omega)), a, fun l hl hl' => ?_, fun j hj => ?_⟩
      · by_cases hlk : l = k
        · subst hlk; simp
        · simp only [Function.update_apply]
          rw [if_neg (by omega)]; exact b l hl (by omega)
      · simp only [Function.update_apply]
        rw [if_neg (by omega)]; exact c j (by omega))
  exact ⟨m', e, h1, h2, fun j hj => h3 j (by omega)⟩

/-- An integrand call writes its block and nothing else. -/
theorem Integrand.call_ok (f : Integrand) (fdim : Nat) (x : ℝ) (ws : Mem) (off : Nat) (h : off + fdim ≤ ws.size) :
    ∃ ws', f.call fdim x ws off = .ok ws' ∧ ws'.size = ws.size ∧ (∀ k < fdim, ws'.val (off + k) = f x k) ∧
      ∀ j, (j < off ∨ off + fdim ≤ j) → ws'.val j = ws.val j := by
  obtain ⟨m', e, h1, h2, h3⟩ := forLoop_pointwise (body := fun i ws => ws.write (off + i) (f x i))
    (fun k _ => f x k) off 0 fdim ws (by omega)
    (fun k m' _ hk hm _ => Mem.write_ok (by omega))
  exact ⟨m', e, h1, fun k hk => h2 k (by omega) (by omega), fun j hj => h3 j (by omega)⟩

theorem zeroFill_ok (n : Nat) (res : Mem) (h : n ≤ res.size) :
    ∃ res', zeroFill n res = .ok res' ∧ res'.size = res.size ∧ (∀ k < n, res'.val k = 0) ∧
      ∀ j, n ≤ j → res'.val j = res.val j := by
  obtain ⟨m', e, h1, h2, h3⟩ := forLoop_pointwise (body := fun j res => res.write j 0)
    (fun _ _ => 0) 0 0 n res (by omega)
    (fun k m' _ hk hm _ => by rw [Nat.zero_add]; exact Mem.write_ok (by omega))
  exact ⟨m', e, h1, fun k hk => by simpa using h2 k (by omega) (by omega), fun j hj => h3 j (by omega)⟩

namespace ClenshawCurtis

/-- Points of the rule with `N + 1 ≥ 2` points. -/
noncomputable def pt (N i : Nat) : ℝ := -cos (i * π / N)

/-- Unscaled weight. -/
noncomputable def rawW (N i : Nat) : ℝ :=
  1 - ∑ j ∈ Finset.range (N / 2), (if 2 * (j + 1) = N then (1 : ℝ) else 2) *
    cos (2 * ((j : ℝ) + 1) * (i * π / N)) / (denom j : ℝ)

/-- Weight. -/
noncomputable def wt (N i : Nat) : ℝ := (if i = 0 ∨ i = N then 1 else 2) * rawW N i / N

theorem points_eq (N : Nat) (hN : 1 ≤ N) (pts : Mem) (h : N + 1 ≤ pts.size) :
    ∃ p, points (N + 1) pts = .ok p ∧ p.size = pts.size ∧ (∀ i ≤ N, p.val i = pt N i) ∧
      ∀ j, N < j → p.val j = pts.val j := by
  have hN0 : (N : ℝ) ≠ 0 := by positivity
  obtain ⟨p, e, h1, h2, h3⟩ := forLoop_pointwise (body := fun i (pts : Mem) =>
    pts.write i (cos (((N + 1 - (i + 1) : Nat) : ℝ) * π / ((N + 1 - 1 : Nat) : ℝ)))) (fun i _ => pt N i) 0 0 (N + 1) pts
    (by omega) (fun k m' _ hk hm _ => by
      rw [Mem.write_ok (by omega), Nat.zero_add]
      congr 3
      have : ((N + 1 - (k + 1) : Nat) : ℝ) = N - k := by
        rw [Nat.add_sub_add_right, Nat.cast_sub (by omega)]
      rw [this, Nat.add_sub_cancel, pt, ← cos_pi_sub]
      congr 1; field_simp)
  have h2' : ∀ i ≤ N, p.val i = pt N i := fun i hi => by simpa using h2 i (by omega) (by omega)
  have p0 : pt N 0 = -1 := by simp [pt]
  have pN : pt N N = 1 := by simp [pt, hN0]
  have pm : N % 2 = 0 → pt N (N / 2) = 0 := fun hm => by
    have e : N = 2 * (N / 2) := by omega
    have e' : (N : ℝ) = 2 * ((N / 2 : Nat) : ℝ) := by exact_mod_cast e
    have hne : ((N / 2 : Nat) : ℝ) ≠ 0 := by
      intro h; rw [h] at e'; exact hN0 (by linarith)
    rw [pt, e', show ((N / 2 : Nat) : ℝ) * π / (2 * ((N / 2 : Nat) : ℝ)) = π / 2 by field_simp, cos_pi_div_two,
      neg_zero]
  have upd : ∀ (v : Nat → ℝ) (i : Nat) (a : ℝ), (∀ j ≤ N, v j = pt N j) → a = pt N i →
      ∀ j ≤ N, Function.update v i a j = pt N j := by
    intro v i a hv ha j hj
    rw [Function.update_apply]; split
    · next h => rw [h, ha]
    · exact hv j hj
  have upd' : ∀ (v : Nat → ℝ) (i : Nat) (a : ℝ), i ≤ N → (∀ j, N < j → v j = pts.val j) →
      ∀ j, N < j → Function.update v i a j = pts.val j := by
    intro v i a hi hv j hj
    rw [Function.update_apply, if_neg (by omega)]; exact hv j hj
  rw [points, e, Res.bind_ok, Mem.write_ok (by omega), Res.bind_ok]
  by_cases hm : (N + 1) % 2 = 1
  · rw [if_pos hm, Nat.add_sub_cancel, Mem.write_ok (by simp only [h1]; omega)]
    simp only [Res.bind_ok]
    rw [Mem.write_ok (by simp only [h1]; omega)]
    exact ⟨_, rfl, h1, upd _ _ _ (upd _ _ _ (upd _ _ _ h2' p0.symm) (pm (by omega)).symm) pN.symm,
      upd' _ _ _ le_rfl (upd' _ _ _ (by omega) (upd' _ _ _ (by omega) (fun j hj => h3 j (by omega))))⟩
  · rw [if_neg hm, Nat.add_sub_cancel]
    simp only [Res.bind_ok]
    rw [Mem.write_ok (by simp only [h1]; omega)]
    exact ⟨_, rfl, h1, upd _ _ _ (upd _ _ _ h2' p0.symm) pN.symm,
      upd' _ _ _ le_rfl (upd' _ _ _ (by omega) (fun j hj => h3 j (by omega)))⟩

theorem weightRow_eq (N i : Nat) (wts : Mem) (h : i < wts.size) :
    weightRow (N + 1) i wts = .ok ⟨wts.size, Function.update wts.val i (rawW N i)⟩ := by
  rw [weightRow, Mem.write_ok h, Res.bind_ok, Nat.add_sub_cancel]
  obtain ⟨m, e, h1⟩ := forLoop_inv (body := weightStep (N + 1) i ((i : ℝ) * π / (N : ℝ)))
    (fun k m => m = ⟨wts.size, Function.update wts.val i (1 - ∑ j ∈ Finset.range k,
      (if 2 * (j + 1) = N then (1 : ℝ) else 2) * cos (2 * ((j : ℝ) + 1) * (i * π / N)) / (denom j : ℝ))⟩)
    0 (N / 2) ⟨wts.size, Function.update wts.val i 1⟩ (by rw [Finset.sum_range_zero, sub_zero])
    (fun k m _ _ hm => by
      subst hm
      rw [weightStep, Mem.read_ok (by exact h)]
      simp only [Nat.add_sub_cancel, Res.bind_ok]
      rw [Mem.write_ok (by exact h)]
      refine ⟨_, rfl, ?_⟩
      simp only [Function.update_idem, Function.update_self, Finset.sum_range_succ]
      congr 2; ring)
  rw [e, h1, Nat.zero_add, rawW]

theorem weights_eq (N : Nat) (hN : 1 ≤ N) (wts : Mem) (h : N + 1 ≤ wts.size) :
    ∃ w, weights (N + 1) wts = .ok w ∧ w.size = wts.size ∧ (∀ i ≤ N, w.val i = wt N i) ∧
      ∀ j, N < j → w.val j = wts.val j := by
  obtain ⟨a, ea, a1, a2, a3⟩ := forLoop_pointwise (body := weightRow (N + 1)) (fun i _ => rawW N i) 0 0 (N + 1) wts
    (by omega) (fun k m' _ hk hm _ => by rw [weightRow_eq N k m' (by omega), Nat.zero_add])
  have a2' : ∀ i ≤ N, a.val i = rawW N i := fun i hi => by simpa using a2 i (by omega) (by omega)
  have hc : ((N + 1 : Nat) : ℝ) - 1 = N := by push_cast; ring
  rw [weights, ea, Res.bind_ok, Mem.read_ok (by omega), Res.bind_ok, Mem.write_ok (by omega), Res.bind_ok]
  simp only [hc]
  obtain ⟨b, eb, b1, b2, b3⟩ := forLoop_pointwise (body := fun i (wts : Mem) => do
      let w ← wts.read i
      wts.write i (2 * w / (N : ℝ))) (fun i v => 2 * v / N) 0 1 (N + 1 - 2)
      ⟨a.size, Function.update a.val 0 (a.val 0 / N)⟩ (by simp only; omega)
    (fun k m' _ hk hm hv => by
      rw [Nat.zero_add] at hv ⊢
      simp only at hm
      rw [Mem.read_ok (by omega), Res.bind_ok, Mem.write_ok (by omega), hv])
  simp only at b1 b2 b3
  rw [eb, Res.bind_ok, Mem.read_ok (by omega), Res.bind_ok, Mem.write_ok (by omega)]
  refine ⟨_, rfl, by simp only; omega, fun i hi => ?_, fun j hj => ?_⟩
  · simp only [Nat.add_sub_cancel, Function.update_apply]
    by_cases hiN : i = N
    · subst hiN
      rw [if_pos rfl, b3 i (by omega), Function.update_apply, if_neg (by omega), a2' i le_rfl, wt, if_pos (Or.inr rfl),
        one_mul]
    · rw [if_neg hiN]
      by_cases hi0 : i = 0
      · subst hi0
        rw [b3 0 (by omega), Function.update_self, a2' 0 (by omega), wt, if_pos (Or.inl rfl), one_mul]
      · have := b2 i (by omega) (by omega)
        rw [Nat.zero_add, Function.update_apply, if_neg hi0, a2' i hi] at this
        rw [this, wt, if_neg (by omega)]
  · simp only [Nat.add_sub_cancel, Function.update_apply]
    rw [if_neg (by omega), b3 j (by omega), Function.update_apply, if_neg (by omega), a3 j (by omega)]

end ClenshawCurtis
end MParT
