import Verif.Lemmas.AdaptiveSimpson
import Verif.Lemmas.ClenshawCurtis
/-!
# `AdaptiveClenshawCurtis` satisfies the requirements of the shared proof
-/
namespace MParT
namespace AdaptiveClenshawCurtis
open Recursive Finset

theorem start_succ (fdim L : Nat) : start fdim (L + 1) = start fdim L + 2 + fdim := by
  simp only [start]; ring

theorem start_zero (fdim : Nat) : start fdim 0 = 5 * fdim := by simp [start]

theorem start_mono (fdim : Nat) {L M : Nat} (h : L ≤ M) : start fdim L ≤ start fdim M := by
  induction M, h using Nat.le_induction with
  | base => exact le_rfl
  | succ M _ ih => rw [start_succ]; omega

theorem start_size (fdim maxSub L : Nat) (h : L < maxSub) : start fdim L + 2 + fdim ≤ workspaceSize maxSub fdim := by
  have := start_mono fdim (show L + 1 ≤ maxSub by omega)
  rw [start_succ] at this
  exact this

/-- What the incremental evaluation needs of the two rules: sizes, end and mid points, nesting. -/
structure Nested (r : NestedRule) (M : Nat) : Prop where
  pos : 1 ≤ M
  cp : r.coarsePts.size = 2 * M + 1
  cw : r.coarseWts.size = 2 * M + 1
  fp : r.finePts.size = 4 * M + 1
  fw : r.fineWts.size = 4 * M + 1
  left : r.coarsePts.val 0 = -1
  mid : r.coarsePts.val M = 0
  right : r.coarsePts.val (2 * M) = 1
  nested : ∀ i ≤ 2 * M, r.finePts.val (2 * i) = r.coarsePts.val i

/-- A block that no deeper level overwrites. -/
def Safe (fdim L off : Nat) : Prop := off + fdim ≤ 2 * fdim ∨ (5 * fdim ≤ off ∧ off + fdim ≤ start fdim L)

/-- The pointers hold the integrand at the end points of the current segment. -/
structure Ctx (fdim : Nat) (f : Integrand) (L : Nat) (ws : Mem) (p : Ptrs) : Prop where
  safe_left : Safe fdim L p.left
  safe_right : Safe fdim L p.right
  left : ∀ k < fdim, ws.val (p.left + k) = f (ws.val (start fdim L)) k
  right : ∀ k < fdim, ws.val (p.right + k) = f (ws.val (start fdim L + 1)) k

/-- Moreover the mid point has been evaluated. -/
structure Mid (fdim : Nat) (f : Integrand) (L : Nat) (ws : Mem) (p : Ptrs) : Prop extends Ctx fdim f L ws p where
  mid : ∀ k < fdim, ws.val (start fdim L + 2 + k) = f ((ws.val (start fdim L) + ws.val (start fdim L + 1)) / 2) k

theorem Ctx.congr {fdim : Nat} {f : Integrand} {L : Nat} {ws ws' : Mem} {p : Ptrs} (h : Ctx fdim f L ws p)
    (e : ∀ j, (j < 2 * fdim ∨ (5 * fdim ≤ j ∧ j < start fdim L + 2)) → ws'.val j = ws.val j) : Ctx fdim f L ws' p := by
  have h5 : 5 * fdim ≤ start fdim L := by rw [← start_zero]; exact start_mono fdim (Nat.zero_le L)
  have ea := e (start fdim L) (Or.inr ⟨h5, by omega⟩)
  have eb := e (start fdim L + 1) (Or.inr ⟨by omega, by omega⟩)
  have key : ∀ off, Safe fdim L off → ∀ k < fdim, ws'.val (off + k) = ws.val (off + k) := fun off ho k hk =>
    e _ (by rcases ho with h | h <;> omega)
  refine ⟨h.safe_left, h.safe_right, fun k hk => ?_, fun k hk => ?_⟩
  · rw [key _ h.safe_left k hk, ea, h.left k hk]
  · rw [key _ h.safe_right k hk, eb, h.right k hk]

theorem Mid.congr {fdim : Nat} {f : Integrand} {L : Nat} {ws ws' : Mem} {p : Ptrs} (h : Mid fdim f L ws p)
    (e : ∀ j, (j < 2 * fdim ∨ (5 * fdim ≤ j ∧ j < start fdim (L + 1))) → ws'.val j = ws.val j) : Mid fdim f L ws' p := by
  rw [start_succ] at e
  have h5 : 5 * fdim ≤ start fdim L := by rw [← start_zero]; exact start_mono fdim (Nat.zero_le L)
  have ea := e (start fdim L) (Or.inr ⟨h5, by omega⟩)
  have eb := e (start fdim L + 1) (Or.inr ⟨by omega, by omega⟩)
  refine ⟨h.toCtx.congr fun j hj => e j (by omega), fun k hk => ?_⟩
  rw [e _ (by omega), ea, eb, h.mid k hk]

/-- The workspace relative to `w0` while the two integrals are accumulated in the blocks 3 and 4. -/
structure Acc (fdim : Nat) (w0 : Mem) (A B : Nat → ℝ) (w : Mem) : Prop where
  size : w.size = w0.size
  keep : ∀ j, (j < 2 * fdim ∨ 5 * fdim ≤ j) → w.val j = w0.val j
  coarse : ∀ k < fdim, w.val (3 * fdim + k) = A k
  fine : ∀ k < fdim, w.val (4 * fdim + k) = B k

/-- A summand of a rule. -/
def term (m s : ℝ) (pts wts : Mem) (f : Integrand) (i j : Nat) : ℝ := s * wts.val i * f (m + s * pts.val i) j

theorem coarseStep_ok {r : NestedRule} {M : Nat} (hr : Nested r M) {fdim : Nat} {f : Integrand} {m s : ℝ} {i : Nat}
    (hi : i ≤ 2 * M) {w0 w : Mem} (hw0 : 5 * fdim ≤ w0.size) {A B : Nat → ℝ} (h : Acc fdim w0 A B w) :
    ∃ w', coarseStep r fdim f m s i w = .ok w' ∧
      Acc fdim w0 (fun k => A k + term m s r.coarsePts r.coarseWts f i k)
        (fun k => B k + term m s r.finePts r.fineWts f (2 * i) k) w' := by
  have hcp := hr.cp
  have hcw := hr.cw
  have hfp := hr.fp
  have hfw := hr.fw
  have hsz := h.size
  obtain ⟨w1, c1, c2, c3, c4⟩ := f.call_ok fdim (m + s * r.coarsePts.val i) w (2 * fdim) (by omega)
  obtain ⟨w2, l1, l2, l3, l4⟩ := forLoop_inv (body := fun j (ws : Mem) => do
    let c ← ws.read (3 * fdim + j)
    let w ← r.coarseWts.read i
    let v ← ws.read (2 * fdim + j)
    let ws ← ws.write (3 * fdim + j) (c + s * w * v)
    let s' ← ws.read (4 * fdim + j)
    let w ← r.fineWts.read (2 * i)
    let v ← ws.read (2 * fdim + j)
    ws.write (4 * fdim + j) (s' + s * w * v))
    (fun k w => w.size = w0.size ∧ (∀ j, (j < 3 * fdim ∨ 5 * fdim ≤ j ∨ (3 * fdim + k ≤ j ∧ j < 4 * fdim) ∨
      4 * fdim + k ≤ j) → w.val j = w1.val j) ∧
      ∀ l < k, w.val (3 * fdim + l) = A l + term m s r.coarsePts r.coarseWts f i l ∧
        w.val (4 * fdim + l) = B l + term m s r.finePts r.fineWts f (2 * i) l)
    0 fdim w1 ⟨c2.trans h.size, fun _ _ => rfl, fun l hl => absurd hl (by omega)⟩
    (fun k v _ hk ⟨a1, a2, a3⟩ => by
      rw [Nat.zero_add] at hk
      rw [Mem.read_ok (by omega), Res.bind_ok, Mem.read_ok (by omega), Res.bind_ok, Mem.read_ok (by omega), Res.bind_ok,
        Mem.write_ok (by omega), Res.bind_ok, Mem.read_ok (by simp only; omega), Res.bind_ok, Mem.read_ok (by omega),
        Res.bind_ok, Mem.read_ok (by simp only; omega), Res.bind_ok, Mem.write_ok (by simp only; omega)]
      refine ⟨_, rfl, a1, fun j hj => ?_, fun l hl => ?_⟩
      · simp only [Function.update_apply]
        rw [if_neg (by omega), if_neg (by omega), a2 j (by omega)]
      · by_cases hlk : l = k
        · subst hlk
          have n1 : ¬ 3 * fdim + l = 4 * fdim + l := by omega
          have n2 : ¬ 4 * fdim + l = 3 * fdim + l := by omega
          have n3 : ¬ 2 * fdim + l = 3 * fdim + l := by omega
          simp only [Function.update_apply, if_neg n1, if_neg n2, if_neg n3, if_true]
          rw [a2 (2 * fdim + l) (by omega), c3 l hk, a2 (3 * fdim + l) (by omega), c4 (3 * fdim + l) (by omega),
            h.coarse l hk, a2 (4 * fdim + l) (by omega), c4 (4 * fdim + l) (by omega), h.fine l hk, term, term,
            hr.nested i hi]
          exact ⟨rfl, rfl⟩
        · simp only [Function.update_apply]
          rw [if_neg (by omega), if_neg (by omega), if_neg (by omega), if_neg (by omega)]
          exact a3 l (by omega))
  rw [Nat.zero_add] at l3 l4
  refine ⟨w2, ?_, l2, fun j hj => ?_, fun k hk => (l4 k hk).1, fun k hk => (l4 k hk).2⟩
  · rw [coarseStep, Mem.read_ok (by omega), Res.bind_ok, c1, Res.bind_ok, l1]
  · rw [l3 j (by omega), c4 j (by omega), h.keep j (by omega)]

theorem fineStep_ok {r : NestedRule} {M : Nat} (hr : Nested r M) {fdim : Nat} {f : Integrand} {m s : ℝ} {i : Nat}
    (hi : i < 2 * M) {w0 w : Mem} (hw0 : 5 * fdim ≤ w0.size) {A B : Nat → ℝ} (h : Acc fdim w0 A B w) :
    ∃ w', fineStep r fdim f m s i w = .ok w' ∧
      Acc fdim w0 A (fun k => B k + term m s r.finePts r.fineWts f (2 * i + 1) k) w' := by
  have hfp := hr.fp
  have hfw := hr.fw
  have hsz := h.size
  obtain ⟨w1, c1, c2, c3, c4⟩ := f.call_ok fdim (m + s * r.finePts.val (2 * i + 1)) w (2 * fdim) (by omega)
  obtain ⟨w2, l1, l2, l3, l4⟩ := forLoop_inv (body := fun j (ws : Mem) => do
    let s' ← ws.read (4 * fdim + j)
    let w ← r.fineWts.read (2 * i + 1)
    let v ← ws.read (2 * fdim + j)
    ws.write (4 * fdim + j) (s' + s * w * v))
    (fun k w => w.size = w0.size ∧ (∀ j, (j < 4 * fdim ∨ 5 * fdim ≤ j ∨ 4 * fdim + k ≤ j) → w.val j = w1.val j) ∧
      ∀ l < k, w.val (4 * fdim + l) = B l + term m s r.finePts r.fineWts f (2 * i + 1) l)
    0 fdim w1 ⟨c2.trans h.size, fun _ _ => rfl, fun l hl => absurd hl (by omega)⟩
    (fun k v _ hk ⟨a1, a2, a3⟩ => by
      rw [Nat.zero_add] at hk
      rw [Mem.read_ok (by omega), Res.bind_ok, Mem.read_ok (by omega), Res.bind_ok, Mem.read_ok (by omega), Res.bind_ok,
        Mem.write_ok (by omega)]
      refine ⟨_, rfl, a1, fun j hj => ?_, fun l hl => ?_⟩
      · simp only [Function.update_apply]
        rw [if_neg (by omega), a2 j (by omega)]
      · by_cases hlk : l = k
        · subst hlk
          simp only [Function.update_apply, if_true]
          rw [a2 (2 * fdim + l) (by omega), c3 l hk, a2 (4 * fdim + l) (by omega), c4 (4 * fdim + l) (by omega),
            h.fine l hk, term]
        · simp only [Function.update_apply]
          rw [if_neg (by omega)]
          exact a3 l (by omega))
  rw [Nat.zero_add] at l3 l4
  refine ⟨w2, ?_, l2, fun j hj => ?_, fun k hk => ?_, fun k hk => l4 k hk⟩
  · rw [fineStep, Mem.read_ok (by omega), Res.bind_ok, c1, Res.bind_ok, l1]
  · rw [l3 j (by omega), c4 j (by omega), h.keep j (by omega)]
  · rw [l3 _ (by omega), c4 _ (by omega), h.coarse k hk]

theorem coarseLoop_ok {r : NestedRule} {M : Nat} (hr : Nested r M) {fdim : Nat} {f : Integrand} {m s : ℝ} (i n : Nat)
    (hi : i + n ≤ 2 * M) {w0 w : Mem} (hw0 : 5 * fdim ≤ w0.size) {A B : Nat → ℝ} (h : Acc fdim w0 A B w) :
    ∃ w', forLoop (coarseStep r fdim f m s) i n w = .ok w' ∧
      Acc fdim w0 (fun k => A k + ∑ l ∈ Ico i (i + n), term m s r.coarsePts r.coarseWts f l k)
        (fun k => B k + ∑ l ∈ Ico i (i + n), term m s r.finePts r.fineWts f (2 * l) k) w' := by
  refine forLoop_inv (fun e w' => Acc fdim w0 (fun k => A k + ∑ l ∈ Ico i e, term m s r.coarsePts r.coarseWts f l k)
        (fun k => B k + ∑ l ∈ Ico i e, term m s r.finePts r.fineWts f (2 * l) k) w') i n w (by simpa using h)
    (fun k w' hk hk' hw' => ?_)
  obtain ⟨w2, e2, h2⟩ := coarseStep_ok hr (f := f) (m := m) (s := s) (i := k) (by omega) hw0 hw'
  refine ⟨w2, e2, ?_⟩
  simp only [sum_Ico_succ_top hk, ← add_assoc]
  exact h2

theorem fineLoop_ok {r : NestedRule} {M : Nat} (hr : Nested r M) {fdim : Nat} {f : Integrand} {m s : ℝ}
    {w0 w : Mem} (hw0 : 5 * fdim ≤ w0.size) {A B : Nat → ℝ} (h : Acc fdim w0 A B w) :
    ∃ w', forLoop (fineStep r fdim f m s) 0 (2 * M) w = .ok w' ∧
      Acc fdim w0 A (fun k => B k + ∑ l ∈ range (2 * M), term m s r.finePts r.fineWts f (2 * l + 1) k) w' := by
  obtain ⟨w', e, h'⟩ := forLoop_inv (body := fineStep r fdim f m s)
    (fun e w' => Acc fdim w0 A (fun k => B k + ∑ l ∈ range e, term m s r.finePts r.fineWts f (2 * l + 1) k) w')
    0 (2 * M) w (by simpa using h) (fun k w' hk hk' hw' => by
      obtain ⟨w2, e2, h2⟩ := fineStep_ok hr (f := f) (m := m) (s := s) (i := k) (by omega) hw0 hw'
      refine ⟨w2, e2, ?_⟩
      simp only [sum_range_succ, ← add_assoc]
      exact h2)
  rw [Nat.zero_add] at h'
  exact ⟨w', e, h'⟩

theorem sum_split (M : Nat) (hM : 1 ≤ M) (t : Nat → ℝ) : ∑ i ∈ range (2 * M + 1), t i =
    t 0 + t M + t (2 * M) + ∑ i ∈ Ico 1 M, t i + ∑ i ∈ Ico (M + 1) (2 * M), t i := by
  rw [sum_range_succ, range_eq_Ico, ← sum_Ico_consecutive t (Nat.zero_le M) (by omega : M ≤ 2 * M),
    sum_eq_sum_Ico_succ_bot (by omega : 0 < M), sum_eq_sum_Ico_succ_bot (by omega : M < 2 * M)]
  ring

theorem sum_even_odd (n : Nat) (t : Nat → ℝ) : ∑ i ∈ range (2 * n + 1), t i =
    ∑ i ∈ range (n + 1), t (2 * i) + ∑ i ∈ range n, t (2 * i + 1) := by
  induction n with
  | zero => simp
  | succ n ih =>
    rw [show 2 * (n + 1) + 1 = 2 * n + 1 + 1 + 1 by ring, sum_range_succ, sum_range_succ, ih,
      sum_range_succ (fun i => t (2 * i)) (n + 1), sum_range_succ (fun i => t (2 * i + 1)) n, show 2 * (n + 1) = 2 * n + 1 + 1 by ring]
    ring

/-- One iteration up to the error estimate. -/
theorem node_ok {r : NestedRule} {M : Nat} (hr : Nested r M) (fdim maxSub : Nat) (f : Integrand) (L : Nat) (ws : Mem)
    (p : Ptrs) (hL : L < maxSub) (hs : workspaceSize maxSub fdim ≤ ws.size) (hc : Ctx fdim f L ws p) :
    ∃ ws' : Mem, node r fdim f p (start fdim L) ws = .ok (ws', (ws.val (start fdim L) + ws.val (start fdim L + 1)) / 2) ∧
      ws'.size = ws.size ∧
      (∀ j, (j < 2 * fdim ∨ (5 * fdim ≤ j ∧ j < start fdim L + 2)) → ws'.val j = ws.val j) ∧
      (∀ k < fdim, ws'.val (3 * fdim + k) = Spec.applyRule (2 * M + 1) r.coarsePts.val r.coarseWts.val (f · k)
          (ws.val (start fdim L)) (ws.val (start fdim L + 1)) ∧
        ws'.val (4 * fdim + k) = Spec.applyRule (4 * M + 1) r.finePts.val r.fineWts.val (f · k)
          (ws.val (start fdim L)) (ws.val (start fdim L + 1))) ∧
      Mid fdim f L ws' p := by
  have hM := hr.pos
  have hcp := hr.cp
  have hcw := hr.cw
  have hfp := hr.fp
  have hfw := hr.fw
  have h5 : 5 * fdim ≤ start fdim L := by rw [← start_zero]; exact start_mono fdim (Nat.zero_le L)
  have hsz := (start_size fdim maxSub L hL).trans hs
  generalize hst : start fdim L = st at *
  set a := ws.val st with ha
  set b := ws.val (st + 1) with hb
  have e1 : (0.5 : ℝ) * (a + b) = (a + b) / 2 := by ring
  have e2 : (0.5 : ℝ) * (b - a) = (b - a) / 2 := by ring
  generalize hm : (a + b) / 2 = m at *
  generalize hsc : (b - a) / 2 = s at *
  obtain ⟨w1, c1, c2, c3, c4⟩ := f.call_ok fdim m ws (st + 2) (by omega)
  have k1 : ∀ j, j < st + 2 → w1.val j = ws.val j := fun j hj => c4 j (by omega)
  have ctx1 : Ctx fdim f L w1 p := hc.congr fun j hj => k1 j (by rw [hst] at hj; omega)
  have w1a : w1.val st = a := k1 st (by omega)
  have w1b : w1.val (st + 1) = b := k1 (st + 1) (by omega)
  have away : ∀ off, Safe fdim L off → ∀ k < fdim, (off + k < 2 * fdim ∨ 5 * fdim ≤ off + k) ∧ off + k < ws.size :=
    fun off ho k hk => by
      rw [Safe, hst] at ho
      rcases ho with h | h <;> omega
  have hmid2 : 2 * M / 2 = M := by omega
  have hmid4 : 4 * M / 2 = 2 * M := by omega
  set A0 : Nat → ℝ := fun k => term m s r.coarsePts r.coarseWts f 0 k + term m s r.coarsePts r.coarseWts f M k
    + term m s r.coarsePts r.coarseWts f (2 * M) k with hA0
  set B0 : Nat → ℝ := fun k => term m s r.finePts r.fineWts f (2 * 0) k + term m s r.finePts r.fineWts f (2 * M) k
    + term m s r.finePts r.fineWts f (2 * (2 * M)) k with hB0
  have pl : m + s * r.coarsePts.val 0 = a := by rw [hr.left, ← hm, ← hsc]; ring
  have pm : m + s * r.coarsePts.val M = m := by rw [hr.mid]; ring
  have pr : m + s * r.coarsePts.val (2 * M) = b := by rw [hr.right, ← hm, ← hsc]; ring
  obtain ⟨w2, d1, d2⟩ : ∃ w2, forLoop (endStep r fdim p (st + 2) s) 0 fdim w1 = .ok w2 ∧ Acc fdim w1 A0 B0 w2 := by
    obtain ⟨w2, l1, l2, l3, l4⟩ := forLoop_inv (body := endStep r fdim p (st + 2) s)
      (fun k w => w.size = ws.size ∧ (∀ j, (j < 3 * fdim ∨ 5 * fdim ≤ j) → w.val j = w1.val j) ∧
        ∀ l < k, w.val (3 * fdim + l) = A0 l ∧ w.val (4 * fdim + l) = B0 l)
      0 fdim w1 ⟨c2, fun _ _ => rfl, fun l hl => absurd hl (by omega)⟩
      (fun k w _ hk ⟨a1, a2, a3⟩ => by
        rw [Nat.zero_add] at hk
        obtain ⟨al, al'⟩ := away _ hc.safe_left k hk
        obtain ⟨ar, ar'⟩ := away _ hc.safe_right k hk
        have rl : w.val (p.left + k) = f a k := by
          rw [a2 _ (by omega), ctx1.left k hk, hst, w1a]
        have rr : w.val (p.right + k) = f b k := by
          rw [a2 _ (by omega), ctx1.right k hk, hst, w1b]
        have rm : w.val (st + 2 + k) = f m k := by
          rw [a2 _ (by omega), c3 k hk]
        rw [endStep]
        simp only [hcw, hfw, Nat.add_sub_cancel, hmid2, hmid4]
        rw [Mem.read_ok (by omega), Res.bind_ok, Mem.read_ok (by omega), Res.bind_ok, Mem.read_ok (by omega), Res.bind_ok,
          Mem.read_ok (by omega), Res.bind_ok, Mem.write_ok (by omega), Res.bind_ok, Mem.read_ok (by simp only; omega),
          Res.bind_ok, Mem.read_ok (by omega), Res.bind_ok, Mem.write_ok (by simp only; omega), Res.bind_ok,
          Mem.read_ok (by simp only; omega), Res.bind_ok, Mem.read_ok (by omega), Res.bind_ok,
          Mem.write_ok (by simp only; omega), Res.bind_ok,
          Mem.read_ok (by omega), Res.bind_ok, Mem.write_ok (by simp only; omega), Res.bind_ok, Mem.read_ok (by simp only; omega),
          Res.bind_ok, Mem.read_ok (by omega), Res.bind_ok, Mem.write_ok (by simp only; omega), Res.bind_ok,
          Mem.read_ok (by simp only; omega), Res.bind_ok, Mem.read_ok (by omega), Res.bind_ok,
          Mem.write_ok (by simp only; omega)]
        refine ⟨_, rfl, a1, fun j hj => ?_, fun l hl => ?_⟩
        · have n1 : ¬ j = 3 * fdim + k := by omega
          have n2 : ¬ j = 4 * fdim + k := by omega
          simp only [Function.update_apply, if_neg n1, if_neg n2]
          exact a2 j hj
        · by_cases hlk : l = k
          · subst hlk
            have n1 : ¬ 3 * fdim + l = 4 * fdim + l := by omega
            have n2 : ¬ 4 * fdim + l = 3 * fdim + l := by omega
            simp only [Function.update_apply, if_neg n1, if_true]
            rw [rl, rm, rr, hA0, hB0]
            simp only [term]
            rw [hr.nested 0 (by omega), hr.nested M (by omega), hr.nested (2 * M) (by omega), pl, pm, pr,
              show 2 * (2 * M) = 4 * M by ring]
            exact ⟨rfl, rfl⟩
          · have n1 : ¬ 3 * fdim + l = 3 * fdim + k := by omega
            have n2 : ¬ 3 * fdim + l = 4 * fdim + k := by omega
            have n3 : ¬ 4 * fdim + l = 3 * fdim + k := by omega
            have n4 : ¬ 4 * fdim + l = 4 * fdim + k := by omega
            simp only [Function.update_apply, if_neg n1, if_neg n2, if_neg n3, if_neg n4]
            exact a3 l (by omega))
    rw [Nat.zero_add] at l4
    exact ⟨w2, l1, l2.trans c2.symm, fun j hj => l3 j (by omega), fun k hk => (l4 k hk).1, fun k hk => (l4 k hk).2⟩
  have hw1 : 5 * fdim ≤ w1.size := by omega
  obtain ⟨w3, g1, g2⟩ := coarseLoop_ok hr (f := f) (m := m) (s := s) 1 (M - 1) (by omega) hw1 d2
  obtain ⟨w4, i1, i2⟩ := coarseLoop_ok hr (f := f) (m := m) (s := s) (M + 1) (2 * M - (M + 1)) (by omega) hw1 g2
  obtain ⟨w5, j1, j2⟩ := fineLoop_ok hr (f := f) (m := m) (s := s) hw1 i2
  refine ⟨w5, ?_, by rw [j2.size, c2], fun j hj => by rw [j2.keep j (by omega), k1 j (by omega)], fun k hk => ⟨?_, ?_⟩, ?_⟩
  · rw [node, Mem.read_ok (by omega), Res.bind_ok, Mem.read_ok (by omega), Res.bind_ok]
    simp only [← ha, ← hb, e1, e2, hcw, hfp, Nat.add_sub_cancel, hmid2]
    rw [c1, Res.bind_ok, d1, Res.bind_ok, g1, Res.bind_ok, i1, Res.bind_ok, show (4 * M + 1) / 2 = 2 * M by omega, j1,
      Res.bind_ok]
    rfl
  · rw [j2.coarse k hk, Spec.applyRule, sum_split M hM, show 1 + (M - 1) = M by omega,
      show M + 1 + (2 * M - (M + 1)) = max (M + 1) (2 * M) by omega, hm, hsc]
    simp only [hA0, term]
    rcases Nat.lt_or_ge M 2 with h | h
    · obtain rfl : M = 1 := by omega
      simp
    · rw [max_eq_right (by omega)]
  · rw [j2.fine k hk, Spec.applyRule, show 4 * M + 1 = 2 * (2 * M) + 1 by ring, sum_even_odd, sum_split M hM,
      show 1 + (M - 1) = M by omega, show M + 1 + (2 * M - (M + 1)) = max (M + 1) (2 * M) by omega, hm, hsc]
    simp only [hB0, term]
    rcases Nat.lt_or_ge M 2 with h | h
    · obtain rfl : M = 1 := by omega
      simp
    · rw [max_eq_right (by omega)]
  · refine ⟨ctx1.congr fun j hj => j2.keep j (by omega), fun k hk => ?_⟩
    rw [hst, j2.keep _ (by omega), j2.keep st (by omega), j2.keep (st + 1) (by omega), w1a, w1b, c3 k hk, hm]

/-- `AdaptiveClenshawCurtis` meets the requirements. -/
noncomputable def ok {r : NestedRule} {M : Nat} (hr : Nested r M) (q : Recursive) (f : Integrand) (size : Nat)
    (hsize : workspaceSize q.maxSub q.fdim ≤ size) : Recursive.Ok q (scheme r q.fdim f) f (2 * q.fdim) size
      (Spec.applyRule (2 * M + 1) r.coarsePts.val r.coarseWts.val) (Spec.applyRule (4 * M + 1) r.finePts.val r.fineWts.val) where
  right := fun p s => { p with left := s + 2 }
  Ctx := Ctx q.fdim f
  Mid := Mid q.fdim f
  start_lo := fun L => by
    change 5 * q.fdim ≤ start q.fdim L
    rw [← start_zero]; exact start_mono _ (Nat.zero_le L)
  start_succ := fun L => by
    change start q.fdim L + 2 ≤ start q.fdim (L + 1)
    rw [start_succ]; omega
  start_size := fun L hL => le_trans (Nat.le_add_right _ _) ((start_size q.fdim q.maxSub L hL).trans hsize)
  lo_le := by omega
  size_ge := by
    rw [← start_zero]; exact (start_mono _ (Nat.zero_le q.maxSub)).trans hsize
  node_ok := fun L ws p hL hs hc => hs ▸ node_ok hr q.fdim q.maxSub f L ws p hL (hsize.trans_eq hs.symm) hc
  mid_congr := fun L ws ws' p h e => h.congr e
  left_ctx := fun L ws p h ea eb => by
    change ws.val (start q.fdim (L + 1)) = ws.val (start q.fdim L) at ea
    change ws.val (start q.fdim (L + 1) + 1) = (ws.val (start q.fdim L) + ws.val (start q.fdim L + 1)) / 2 at eb
    have h5 : 5 * q.fdim ≤ start q.fdim L := by rw [← start_zero]; exact start_mono q.fdim (Nat.zero_le L)
    have mono : ∀ off, Safe q.fdim L off → Safe q.fdim (L + 1) off := fun off ho => by
      rw [Safe, start_succ]
      rcases ho with h | h
      · exact Or.inl h
      · exact Or.inr (by omega)
    refine ⟨mono _ h.safe_left, ?_, fun k hk => ?_, fun k hk => ?_⟩
    · change Safe q.fdim (L + 1) (start q.fdim L + 2)
      rw [Safe, start_succ]; exact Or.inr ⟨by omega, by omega⟩
    · rw [ea]; exact h.left k hk
    · rw [eb]; exact h.mid k hk
  right_ctx := fun L ws p h ea eb => by
    change ws.val (start q.fdim (L + 1)) = (ws.val (start q.fdim L) + ws.val (start q.fdim L + 1)) / 2 at ea
    change ws.val (start q.fdim (L + 1) + 1) = ws.val (start q.fdim L + 1) at eb
    have h5 : 5 * q.fdim ≤ start q.fdim L := by rw [← start_zero]; exact start_mono q.fdim (Nat.zero_le L)
    have mono : ∀ off, Safe q.fdim L off → Safe q.fdim (L + 1) off := fun off ho => by
      rw [Safe, start_succ]
      rcases ho with h | h
      · exact Or.inl h
      · exact Or.inr (by omega)
    refine ⟨?_, mono _ h.safe_right, fun k hk => ?_, fun k hk => ?_⟩
    · change Safe q.fdim (L + 1) (start q.fdim L + 2)
      rw [Safe, start_succ]; exact Or.inr ⟨by omega, by omega⟩
    · rw [ea]; exact h.mid k hk
    · rw [eb]; exact h.right k hk
  update := fun L seg p hL hp => by
    change updateValues q.fdim L seg = _ at hp
    change updateValues q.fdim (L + 1) seg = _
    rw [updateValues, forLoop_last, ← updateValues, hp, Res.bind_ok, Nat.zero_add, if_neg (by omega)]
    have s1 : (L + 5) * q.fdim + 2 * (L + 1) = start q.fdim L + 2 := by rw [start]; ring
    by_cases hb : seg.getLsbD (L + 1)
    · rw [if_pos hb, if_pos hb, s1]; rfl
    · rw [if_neg hb, if_neg hb, s1]; rfl
  update_congr := fun L seg seg' h => by
    refine forLoop_congr 0 L _ fun k s _ hk => ?_
    rw [h (k + 1) (by omega)]

/-- The constructor taking a level builds nested Clenshaw–Curtis rules. -/
theorem new_ok (l : Nat) (hl : 1 ≤ l) : ∃ r, new l = .ok r ∧ Nested r (2 ^ (l - 1)) ∧
    (∀ i ≤ 2 ^ l, r.coarsePts.val i = ClenshawCurtis.pt (2 ^ l) i ∧ r.coarseWts.val i = ClenshawCurtis.wt (2 ^ l) i) ∧
    ∀ i ≤ 2 ^ (l + 1), r.finePts.val i = ClenshawCurtis.pt (2 ^ (l + 1)) i ∧
      r.fineWts.val i = ClenshawCurtis.wt (2 ^ (l + 1)) i := by
  have h1 : 1 ≤ 2 ^ l := Nat.one_le_two_pow
  have h2 : 1 ≤ 2 ^ (l + 1) := Nat.one_le_two_pow
  have h0 : 1 ≤ 2 ^ (l - 1) := Nat.one_le_two_pow
  have hl2 : 2 ^ l = 2 * 2 ^ (l - 1) := by
    obtain ⟨k, rfl⟩ : ∃ k, l = k + 1 := ⟨l - 1, by omega⟩
    rw [Nat.add_sub_cancel, pow_succ]; ring
  have hl3 : 2 ^ (l + 1) = 2 * 2 ^ l := by rw [pow_succ]; ring
  obtain ⟨p, ep, p1, p2, p3⟩ := ClenshawCurtis.points_eq _ h1 (view (2 ^ l + 1)) le_rfl
  obtain ⟨w, ew, w1, w2, w3⟩ := ClenshawCurtis.weights_eq _ h1 (view (2 ^ l + 1)) le_rfl
  obtain ⟨p', ep', p1', p2', p3'⟩ := ClenshawCurtis.points_eq _ h2 (view (2 ^ (l + 1) + 1)) le_rfl
  obtain ⟨w', ew', w1', w2', w3'⟩ := ClenshawCurtis.weights_eq _ h2 (view (2 ^ (l + 1) + 1)) le_rfl
  have s1 : p.size = 2 ^ l + 1 := p1
  have s2 : w.size = 2 ^ l + 1 := w1
  have s3 : p'.size = 2 ^ (l + 1) + 1 := p1'
  have s4 : w'.size = 2 ^ (l + 1) + 1 := w1'
  refine ⟨⟨p, w, p', w'⟩, ?_, ⟨h0, by simp only; omega, by simp only; omega, by simp only; omega, by simp only; omega,
    ?_, ?_, ?_, fun i hi => ?_⟩, fun i hi => ⟨p2 i hi, w2 i hi⟩, fun i hi => ⟨p2' i hi, w2' i hi⟩⟩
  · rw [new, if_pos (by omega)]
    simp only [ClenshawCurtis.getRule]
    rw [if_neg (by omega), if_neg (by omega), if_neg (by omega), if_neg (by omega), ep, Res.bind_ok, ew, Res.bind_ok,
      Res.pure_eq, Res.bind_ok, ep', Res.bind_ok, ew', Res.bind_ok, Res.pure_eq, Res.bind_ok, Res.pure_eq]
  · rw [p2 0 (by omega)]; simp [ClenshawCurtis.pt]
  · simp only
    rw [p2 _ (by omega), ClenshawCurtis.pt, hl2]
    have : (2 : ℝ) ^ (l - 1) ≠ 0 := by positivity
    push_cast
    rw [show (2 : ℝ) ^ (l - 1) * Real.pi / (2 * 2 ^ (l - 1)) = Real.pi / 2 by field_simp, Real.cos_pi_div_two, neg_zero]
  · simp only
    rw [← hl2, p2 _ le_rfl, ClenshawCurtis.pt, mul_div_cancel_left₀ _ (by positivity), Real.cos_pi, neg_neg]
  · simp only
    rw [p2 i (by omega), p2' _ (by omega), hl3, ClenshawCurtis.pt_nested _ _ h1]

end AdaptiveClenshawCurtis
end MParT
