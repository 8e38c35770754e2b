import Verif.Lemmas.Quadrature
import Verif.Spec.Quadrature
/-!
# The control flow shared by the two adaptive rules
-/
namespace MParT

/-- The measure selected by an error metric. -/
def QuadError.norm : QuadError → Spec.Norm
  | .first => .firstEntry
  | .normInf => .sup
  | .norm2 => .euclid
  | .norm1 => .sum

namespace Recursive
open Finset

/-- Error estimation reads the two integrals. -/
theorem estimateError_eq (q : Recursive) (ws : Mem) (c s : Nat) (cv sv : Nat → ℝ) (hf : 1 ≤ q.fdim)
    (hc : c + q.fdim ≤ ws.size) (hs : s + q.fdim ≤ ws.size) (vc : ∀ k < q.fdim, ws.val (c + k) = cv k)
    (vs : ∀ k < q.fdim, ws.val (s + k) = sv k) :
    q.estimateError ws c s = .ok (q.errorMetric.norm.of q.fdim (fun k => sv k - cv k),
      max (q.relTol * q.errorMetric.norm.of q.fdim cv) q.absTol) := by
  rw [estimateError]
  cases hm : q.errorMetric with
  | first =>
    have h1 := vc 0 (by omega)
    have h2 := vs 0 (by omega)
    rw [Nat.add_zero] at h1 h2
    simp only
    rw [Mem.read_ok (by omega), Res.bind_ok, Mem.read_ok (by omega), Res.bind_ok, h1, h2]
    rfl
  | normInf =>
    obtain ⟨r, e, h⟩ := forLoop_inv (body := fun i (s' : ℝ × ℝ) => do
        let fv ← ws.read (s + i)
        let cv ← ws.read (c + i)
        pure (max s'.1 |fv - cv|, max s'.2 |cv|))
      (fun k s' => s' = ((range k).fold max 0 fun i => |sv i - cv i|, (range k).fold max 0 fun i => |cv i|))
      0 q.fdim (0, 0) (by simp) (fun k s' _ hk h => by
        rw [Mem.read_ok (by omega), Res.bind_ok, Mem.read_ok (by omega), Res.bind_ok, Res.pure_eq]
        refine ⟨_, rfl, ?_⟩
        · rw [h, vc k (by omega), vs k (by omega), range_add_one, fold_insert notMem_range_self,
            fold_insert notMem_range_self, max_comm, max_comm |cv k|])
    rw [Nat.zero_add] at h
    simp only
    rw [e, Res.bind_ok, h]
    rfl
  | norm2 =>
    obtain ⟨r, e, h⟩ := forLoop_inv (body := fun i (s' : ℝ × ℝ) => do
        let fv ← ws.read (s + i)
        let cv ← ws.read (c + i)
        pure (s'.1 + (fv - cv) * (fv - cv), s'.2 + cv * cv))
      (fun k s' => s' = (∑ i ∈ range k, (sv i - cv i) ^ 2, ∑ i ∈ range k, cv i ^ 2))
      0 q.fdim (0, 0) (by simp) (fun k s' _ hk h => by
        rw [Mem.read_ok (by omega), Res.bind_ok, Mem.read_ok (by omega), Res.bind_ok, Res.pure_eq]
        refine ⟨_, rfl, ?_⟩
        · rw [h, vc k (by omega), vs k (by omega), sum_range_succ, sum_range_succ]
          simp only [pow_two])
    rw [Nat.zero_add] at h
    simp only
    rw [e, Res.bind_ok, h]
    rfl
  | norm1 =>
    obtain ⟨r, e, h⟩ := forLoop_inv (body := fun i (s' : ℝ × ℝ) => do
        let fv ← ws.read (s + i)
        let cv ← ws.read (c + i)
        pure (s'.1 + |fv - cv|, s'.2 + |cv|))
      (fun k s' => s' = (∑ i ∈ range k, |sv i - cv i|, ∑ i ∈ range k, |cv i|))
      0 q.fdim (0, 0) (by simp) (fun k s' _ hk h => by
        rw [Mem.read_ok (by omega), Res.bind_ok, Mem.read_ok (by omega), Res.bind_ok, Res.pure_eq]
        refine ⟨_, rfl, ?_⟩
        · rw [h, vc k (by omega), vs k (by omega), sum_range_succ, sum_range_succ])
    rw [Nat.zero_add] at h
    simp only
    rw [e, Res.bind_ok, h]
    rfl

/-- `res[i] += ws[off+i]`. -/
theorem addFine_ok (n off : Nat) (ws res : Mem) (h1 : off + n ≤ ws.size) (h2 : n ≤ res.size) :
    ∃ res', forLoop (fun i (res : Mem) => do
        let r ← res.read i
        let v ← ws.read (off + i)
        res.write i (r + v)) 0 n res = .ok res' ∧ res'.size = res.size ∧
      (∀ k < n, res'.val k = res.val k + ws.val (off + k)) ∧ ∀ k, n ≤ k → res'.val k = res.val k := by
  obtain ⟨r, e, a, b, c⟩ := forLoop_pointwise (body := fun i (res : Mem) => do
        let r ← res.read i
        let v ← ws.read (off + i)
        res.write i (r + v)) (fun k v => v + ws.val (off + k)) 0 0 n res (by omega) (fun k m' _ hk hm hv => by
      rw [Nat.zero_add] at hv ⊢
      rw [Mem.read_ok (by omega), Res.bind_ok, Mem.read_ok (by omega), Res.bind_ok, Mem.write_ok (by omega), hv])
  exact ⟨r, e, a, fun k hk => by simpa using b k (by omega) (by omega), fun k hk => c k (by omega)⟩

/-- What the loop does after a segment has been accepted. -/
noncomputable def resume (q : Recursive) (S : Scheme) (lb ub : ℝ) (fuel : Nat) (ws res : Mem) (seg : BitVec 32)
    (level : Nat) : Res (Option (Mem × Mem)) := do
  let (seg, level) ← backtrack seg level
  if level = 0 then return some (ws, res)
  else
    if 32 ≤ level then Res.ub else
    let seg := seg ||| (1#32 <<< level)
    let workStart := S.start level
    let prevStart := S.start (level - 1)
    let a ← ws.read prevStart
    let b ← ws.read (prevStart + 1)
    let ws ← ws.write workStart (0.5 * (a + b))
    let b ← ws.read (prevStart + 1)
    let ws ← ws.write (workStart + 1) b
    let ptrs ← S.updateValues level seg
    loop q S lb ub fuel ⟨ws, res, level, seg, ptrs, workStart⟩

/-- What the loop does with a segment that has not been accepted. -/
noncomputable def descend (q : Recursive) (S : Scheme) (lb ub : ℝ) (fuel : Nat) (ws : Mem) (midPt : ℝ) (st : State) :
    Res (Option (Mem × Mem)) := do
  let a ← ws.read st.workStart
  let ws ← ws.write (S.start (st.level + 1)) a
  let ws ← ws.write (S.start (st.level + 1) + 1) midPt
  loop q S lb ub fuel ⟨ws, st.res, st.level + 1, st.seg, S.down st.ptrs st.workStart, S.start (st.level + 1)⟩

theorem loop_succ (q : Recursive) (S : Scheme) (lb ub : ℝ) (fuel : Nat) (st : State) (ws : Mem) (midPt error tol : ℝ)
    (h1 : S.node st.ptrs st.workStart st.ws = .ok (ws, midPt))
    (h2 : q.estimateError ws (3 * q.fdim) (4 * q.fdim) = .ok (error, tol)) :
    (q.accept lb ub error tol st.level → ∀ res, forLoop (fun i (res : Mem) => do
        let r ← res.read i
        let v ← ws.read (4 * q.fdim + i)
        res.write i (r + v)) 0 q.fdim st.res = .ok res →
      loop q S lb ub (fuel + 1) st = resume q S lb ub fuel ws res st.seg st.level) ∧
    (¬ q.accept lb ub error tol st.level → loop q S lb ub (fuel + 1) st = descend q S lb ub fuel ws midPt st) := by
  constructor
  · intro ha res hr
    rw [loop, h1]
    simp only [Res.bind_ok]
    rw [h2]
    simp only [Res.bind_ok]
    rw [if_pos ha, hr, Res.bind_ok]
    rfl
  · intro ha
    rw [loop, h1]
    simp only [Res.bind_ok]
    rw [h2]
    simp only [Res.bind_ok]
    rw [if_neg ha]
    rfl

/-- Positions whose content matters to the ancestors of a node at level `L`, and its end points. -/
def Prot (fdim lo : Nat) (S : Scheme) (L j : Nat) : Prop := j < lo ∨ (5 * fdim ≤ j ∧ j < S.start L + 2)

/-- Positions that the children of a node at level `L` rely on. -/
def Prot' (fdim lo : Nat) (S : Scheme) (L j : Nat) : Prop := j < lo ∨ (5 * fdim ≤ j ∧ j < S.start (L + 1))

/-- What the shared proof needs from a rule. `Ctx L ws p`: the end points of the current segment are stored at level `L`
and the blocks `p` points to hold the integrand there. `Mid L ws p`: moreover the node has been evaluated. -/
structure Ok (q : Recursive) (S : Scheme) (f : Integrand) (lo size : Nat) (coarse fine : (ℝ → ℝ) → ℝ → ℝ → ℝ) where
  right : Ptrs → Nat → Ptrs
  Ctx : Nat → Mem → Ptrs → Prop
  Mid : Nat → Mem → Ptrs → Prop
  start_lo : ∀ L, 5 * q.fdim ≤ S.start L
  start_succ : ∀ L, S.start L + 2 ≤ S.start (L + 1)
  start_size : ∀ L, L < q.maxSub → S.start L + 2 ≤ size
  lo_le : lo ≤ 3 * q.fdim
  size_ge : 5 * q.fdim ≤ size
  node_ok : ∀ L ws p, L < q.maxSub → ws.size = size → Ctx L ws p →
    ∃ ws' : Mem, S.node p (S.start L) ws = .ok (ws', (ws.val (S.start L) + ws.val (S.start L + 1)) / 2) ∧ ws'.size = size ∧
      (∀ j, Prot q.fdim lo S L j → ws'.val j = ws.val j) ∧
      (∀ k < q.fdim, ws'.val (3 * q.fdim + k) = coarse (f · k) (ws.val (S.start L)) (ws.val (S.start L + 1)) ∧
        ws'.val (4 * q.fdim + k) = fine (f · k) (ws.val (S.start L)) (ws.val (S.start L + 1))) ∧
      Mid L ws' p
  mid_congr : ∀ L ws ws' p, Mid L ws p → (∀ j, Prot' q.fdim lo S L j → ws'.val j = ws.val j) → Mid L ws' p
  left_ctx : ∀ L ws p, Mid L ws p → ws.val (S.start (L + 1)) = ws.val (S.start L) →
    ws.val (S.start (L + 1) + 1) = (ws.val (S.start L) + ws.val (S.start L + 1)) / 2 →
    Ctx (L + 1) ws (S.down p (S.start L))
  right_ctx : ∀ L ws p, Mid L ws p →
    ws.val (S.start (L + 1)) = (ws.val (S.start L) + ws.val (S.start L + 1)) / 2 →
    ws.val (S.start (L + 1) + 1) = ws.val (S.start L + 1) → Ctx (L + 1) ws (right p (S.start L))
  update : ∀ L seg p, L + 1 < 32 → S.updateValues L seg = .ok p →
    S.updateValues (L + 1) seg = .ok (if seg.getLsbD (L + 1) then right p (S.start L) else S.down p (S.start L))
  update_congr : ∀ L (seg seg' : BitVec 32), (∀ l, l ≤ L → seg.getLsbD l = seg'.getLsbD l) →
    S.updateValues L seg = S.updateValues L seg'

theorem getLsbD_one_shift (L l : Nat) (hL : L < 32) : (1#32 <<< L).getLsbD l = decide (l = L) := by
  rw [BitVec.getLsbD_shiftLeft, BitVec.getLsbD_one]
  by_cases h : l = L
  · subst h; simp [hL]
  · rcases Nat.lt_or_gt_of_ne h with h' | h'
    · simp [h, h']
    · have : l - L ≠ 0 := by omega
      simp [h, this]

theorem set_bit (seg : BitVec 32) (L l : Nat) (hL : L < 32) :
    (seg ||| 1#32 <<< L).getLsbD l = (seg.getLsbD l || decide (l = L)) := by
  rw [BitVec.getLsbD_or, getLsbD_one_shift L l hL]

theorem clear_set (seg : BitVec 32) (L : Nat) (hL : L < 32) (h : seg.getLsbD L = false) :
    (seg ||| 1#32 <<< L) &&& ~~~(1#32 <<< L) = seg := by
  refine BitVec.eq_of_getLsbD_eq fun l hl => ?_
  rw [BitVec.getLsbD_and, set_bit seg L l hL, BitVec.getLsbD_not, getLsbD_one_shift L l hL]
  by_cases h' : l = L
  · subst h'; simp [h]
  · simp [h', hl]

theorem accept_iff (q : Recursive) (lb ub e t : ℝ) (L : Nat) (h1 : 1 ≤ q.maxSub) (h2 : q.maxSub ≤ 32) :
    q.accept lb ub e t L ↔ ((e < t ∨ L = q.maxSub - 1) ∧ q.minSub ≤ L) ∨ |ub - lb| < 1e-14 := by
  rw [accept, show (q.maxSub + (2 ^ 32 - 1)) % 2 ^ 32 = q.maxSub - 1 by omega]

/-- The leaves below a node, and how the loop visits them. -/
theorem subtree {q : Recursive} {S : Scheme} {f : Integrand} {lo size : Nat} {coarse fine : (ℝ → ℝ) → ℝ → ℝ → ℝ}
    (O : Ok q S f lo size coarse fine) (hf : 1 ≤ q.fdim) (hmin : q.minSub < q.maxSub) (hmax : q.maxSub ≤ 32) (lb ub : ℝ)
    (d : Nat) : ∀ (L : Nat) (ws res : Mem) (seg : BitVec 32) (p : Ptrs), L + d = q.maxSub - 1 → ws.size = size →
      q.fdim ≤ res.size → O.Ctx L ws p → S.updateValues L seg = .ok p → (∀ l, L < l → seg.getLsbD l = false) →
      ∃ (k : Nat) (ws' res' : Mem), 1 ≤ k ∧ k + 1 ≤ 2 ^ (d + 1) ∧ ws'.size = size ∧ res'.size = res.size ∧
        (∀ j, Prot q.fdim lo S L j → ws'.val j = ws.val j) ∧
        (∀ j < q.fdim, res'.val j = res.val j +
          ((Spec.leaves (Spec.converged coarse fine q.errorMetric.norm q.fdim q.absTol q.relTol q.minSub lb ub f) d L
            (ws.val (S.start L)) (ws.val (S.start L + 1))).map fun ab => fine (f · j) ab.1 ab.2).sum) ∧
        (∀ j, q.fdim ≤ j → res'.val j = res.val j) ∧
        ∀ fuel, loop q S lb ub (k + fuel) ⟨ws, res, L, seg, p, S.start L⟩ = resume q S lb ub fuel ws' res' seg L := by
  have hsz := O.size_ge
  have hlo := O.lo_le
  have leaf : ∀ (d L : Nat) (ws res : Mem) (seg : BitVec 32) (p : Ptrs), L + d = q.maxSub - 1 → ws.size = size →
      q.fdim ≤ res.size → O.Ctx L ws p →
      (d = 0 ∨ Spec.converged coarse fine q.errorMetric.norm q.fdim q.absTol q.relTol q.minSub lb ub f L (ws.val (S.start L))
          (ws.val (S.start L + 1))) →
      ∃ (ws' res' : Mem), ws'.size = size ∧ res'.size = res.size ∧
        (∀ j, Prot q.fdim lo S L j → ws'.val j = ws.val j) ∧
        (∀ j < q.fdim, res'.val j = res.val j + fine (f · j) (ws.val (S.start L)) (ws.val (S.start L + 1))) ∧
        (∀ j, q.fdim ≤ j → res'.val j = res.val j) ∧
        ∀ fuel, loop q S lb ub (fuel + 1) ⟨ws, res, L, seg, p, S.start L⟩ = resume q S lb ub fuel ws' res' seg L := by
    intro d L ws res seg p hL hws hres hctx hconv
    obtain ⟨w1, e1, s1, k1, v1, m1⟩ := O.node_ok L ws p (by omega) hws hctx
    have e2 := estimateError_eq q w1 (3 * q.fdim) (4 * q.fdim) _ _ hf (by omega) (by omega)
      (fun k hk => (v1 k hk).1) (fun k hk => (v1 k hk).2)
    obtain ⟨r, er, r1, r2, r3⟩ := addFine_ok q.fdim (4 * q.fdim) w1 res (by omega) hres
    refine ⟨w1, r, s1, r1, k1, fun j hj => by rw [r2 j hj, (v1 j hj).2], r3, fun fuel => ?_⟩
    refine (loop_succ q S lb ub fuel ⟨ws, res, L, seg, p, S.start L⟩ w1 _ _ _ e1 e2).1 ?_ r er
    rw [accept_iff _ _ _ _ _ _ (by omega) hmax]
    rcases hconv with rfl | ⟨h, h'⟩ | h
    · exact Or.inl ⟨Or.inr (by simp only; omega), by simp only; omega⟩
    · exact Or.inl ⟨Or.inl h, h'⟩
    · exact Or.inr h
  induction d with
  | zero =>
    intro L ws res seg p hL hws hres hctx _ _
    obtain ⟨ws', res', a1, a2, a3, a4, a5, a6⟩ := leaf 0 L ws res seg p hL hws hres hctx (Or.inl rfl)
    refine ⟨1, ws', res', le_rfl, by norm_num, a1, a2, a3, fun j hj => by rw [a4 j hj]; simp [Spec.leaves], a5, fun fuel => ?_⟩
    rw [Nat.add_comm 1 fuel, a6]
  | succ d ih =>
    intro L ws res seg p hL hws hres hctx hup hbits
    by_cases hc : Spec.converged coarse fine q.errorMetric.norm q.fdim q.absTol q.relTol q.minSub lb ub f L
        (ws.val (S.start L)) (ws.val (S.start L + 1))
    · obtain ⟨ws', res', a1, a2, a3, a4, a5, a6⟩ := leaf (d + 1) L ws res seg p hL hws hres hctx (Or.inr hc)
      refine ⟨1, ws', res', le_rfl, ?_, a1, a2, a3, fun j hj => ?_, a5, fun fuel => ?_⟩
      · have := Nat.one_le_two_pow (n := d + 1)
        rw [pow_succ]; omega
      · rw [a4 j hj, Spec.leaves, if_pos hc]; simp
      · rw [Nat.add_comm 1 fuel, a6]
    · -- evaluate the node and move to the left half
      have h0 := O.start_lo L
      have h1 := O.start_succ L
      have h2 := O.start_size (L + 1) (by omega)
      obtain ⟨w1, e1, s1, k1, v1, m1⟩ := O.node_ok L ws p (by omega) hws hctx
      have e2 := estimateError_eq q w1 (3 * q.fdim) (4 * q.fdim) _ _ hf (by omega) (by omega)
        (fun k hk => (v1 k hk).1) (fun k hk => (v1 k hk).2)
      set a := ws.val (S.start L) with ha
      set b := ws.val (S.start L + 1) with hb
      have w1a : w1.val (S.start L) = a := k1 _ (Or.inr ⟨h0, by omega⟩)
      have w1b : w1.val (S.start L + 1) = b := k1 _ (Or.inr ⟨by omega, by omega⟩)
      have hnacc : ¬ q.accept lb ub (q.errorMetric.norm.of q.fdim (fun k => fine (f · k) a b - coarse (f · k) a b))
          (max (q.relTol * q.errorMetric.norm.of q.fdim fun k => coarse (f · k) a b) q.absTol) L := by
        rw [accept_iff _ _ _ _ _ _ (by omega) hmax]
        rintro (⟨h | h, h'⟩ | h)
        · exact hc (Or.inl ⟨h, h'⟩)
        · omega
        · exact hc (Or.inr h)
      have hstep : ∀ fuel, loop q S lb ub (fuel + 1) ⟨ws, res, L, seg, p, S.start L⟩ = descend q S lb ub fuel w1 ((a + b) / 2)
          ⟨ws, res, L, seg, p, S.start L⟩ := fun fuel =>
        (loop_succ q S lb ub fuel ⟨ws, res, L, seg, p, S.start L⟩ w1 _ _ _ e1 e2).2 hnacc
      -- memory on entry to the left half
      set w2 : Mem := ⟨w1.size, Function.update (Function.update w1.val (S.start (L + 1)) a) (S.start (L + 1) + 1)
        ((a + b) / 2)⟩ with hw2
      have k2 : ∀ j, j < S.start (L + 1) → w2.val j = w1.val j := fun j hj => by
        simp only [hw2, Function.update_apply]; rw [if_neg (by omega), if_neg (by omega)]
      have w2a : w2.val (S.start (L + 1)) = a := by
        simp only [hw2, Function.update_apply]; rw [if_neg (by omega), if_pos trivial]
      have w2b : w2.val (S.start (L + 1) + 1) = (a + b) / 2 := by simp only [hw2, Function.update_self]
      have hprot : ∀ j, Prot' q.fdim lo S L j → j < S.start (L + 1) := fun j hj => by
        rcases hj with h | h <;> omega
      have m2 : O.Mid L w2 p := O.mid_congr L w1 w2 p m1 fun j hj => k2 j (hprot j hj)
      have c2 : O.Ctx (L + 1) w2 (S.down p (S.start L)) := by
        refine O.left_ctx L w2 p m2 ?_ ?_
        · rw [w2a, k2 _ (by omega), w1a]
        · rw [w2b, k2 _ (by omega), k2 _ (by omega), w1a, w1b]
      have hbit : seg.getLsbD (L + 1) = false := hbits _ (by omega)
      have u2 : S.updateValues (L + 1) seg = .ok (S.down p (S.start L)) := by
        rw [O.update L seg p (by omega) hup, hbit]; rfl
      obtain ⟨n1, w3, r3, p1, p2, p3, p4, p5, p6, p7, p8⟩ := ih (L + 1) w2 res seg _ (by omega) s1 hres c2 u2
        (fun l hl => hbits l (by omega))
      have hdesc : ∀ fuel, descend q S lb ub fuel w1 ((a + b) / 2) ⟨ws, res, L, seg, p, S.start L⟩ =
          loop q S lb ub fuel ⟨w2, res, L + 1, seg, S.down p (S.start L), S.start (L + 1)⟩ := fun fuel => by
        rw [descend]
        simp only
        rw [Mem.read_ok (by omega), Res.bind_ok, Mem.write_ok (by omega), Res.bind_ok,
          Mem.write_ok (by simp only; omega), Res.bind_ok, w1a]
      -- back up from the left half and move to the right half
      have k3 : ∀ j, Prot' q.fdim lo S L j → w3.val j = w2.val j := fun j hj => p5 j (by
        rcases hj with h | h
        · exact Or.inl h
        · exact Or.inr ⟨h.1, by omega⟩)
      have w3a : w3.val (S.start L) = a := by
        rw [k3 _ (Or.inr ⟨h0, by omega⟩), k2 _ (by omega), w1a]
      have w3b : w3.val (S.start L + 1) = b := by
        rw [k3 _ (Or.inr ⟨by omega, by omega⟩), k2 _ (by omega), w1b]
      set w4 : Mem := ⟨w3.size, Function.update (Function.update w3.val (S.start (L + 1)) ((a + b) / 2))
        (S.start (L + 1) + 1) b⟩ with hw4
      have k4 : ∀ j, j < S.start (L + 1) → w4.val j = w3.val j := fun j hj => by
        simp only [hw4, Function.update_apply]; rw [if_neg (by omega), if_neg (by omega)]
      have w4a : w4.val (S.start (L + 1)) = (a + b) / 2 := by
        simp only [hw4, Function.update_apply]; rw [if_neg (by omega), if_pos trivial]
      have w4b : w4.val (S.start (L + 1) + 1) = b := by simp only [hw4, Function.update_self]
      have m4 : O.Mid L w4 p := O.mid_congr L w2 w4 p m2 fun j hj => by
        rw [k4 j (hprot j hj), k3 j hj]
      have c4 : O.Ctx (L + 1) w4 (O.right p (S.start L)) := by
        refine O.right_ctx L w4 p m4 ?_ ?_
        · rw [w4a, k4 _ (by omega), k4 _ (by omega), w3a, w3b]
        · rw [w4b, k4 _ (by omega), w3b]
      set seg' := seg ||| 1#32 <<< (L + 1) with hseg'
      have u4 : S.updateValues (L + 1) seg' = .ok (O.right p (S.start L)) := by
        rw [O.update L seg' p (by omega) (by
          rw [← hup]
          refine O.update_congr L seg' seg fun l hl => ?_
          rw [hseg', set_bit _ _ _ (by omega)]
          simp [show l ≠ L + 1 by omega]), hseg', set_bit _ _ _ (by omega)]
        simp
      obtain ⟨n2, w5, r5, q1, q2, q3, q4, q5, q6, q7, q8⟩ := ih (L + 1) w4 r3 seg' _ (by omega) p3
        (by omega) c4 u4 (fun l hl => by
          rw [hseg', set_bit _ _ _ (by omega), hbits l (by omega)]
          simp [show l ≠ L + 1 by omega])
      have hres1 : ∀ fuel, resume q S lb ub fuel w3 r3 seg (L + 1) =
          loop q S lb ub fuel ⟨w4, r3, L + 1, seg', O.right p (S.start L), S.start (L + 1)⟩ := fun fuel => by
        rw [resume, backtrack, if_neg (by omega), hbit]
        simp only [Bool.false_eq_true, if_false, Res.bind_ok]
        rw [if_neg (by omega), if_neg (by omega), Nat.add_sub_cancel, Mem.read_ok (by omega), Res.bind_ok,
          Mem.read_ok (by omega), Res.bind_ok, Mem.write_ok (by omega), Res.bind_ok, Mem.read_ok (by simp only; omega),
          Res.bind_ok, Mem.write_ok (by simp only; omega), Res.bind_ok, u4, Res.bind_ok, w3a, w3b]
        simp only [Function.update_apply]
        rw [if_neg (by omega), w3b, show (0.5 : ℝ) * (a + b) = (a + b) / 2 by ring]
      have hres2 : ∀ fuel, resume q S lb ub fuel w5 r5 seg' (L + 1) = resume q S lb ub fuel w5 r5 seg L := fun fuel => by
        rw [resume, backtrack, if_neg (by omega), hseg', set_bit _ _ _ (by omega), hbit]
        simp only [Bool.false_or, decide_true, if_true]
        rw [clear_set _ _ (by omega) hbit, ← resume]
      refine ⟨n1 + n2 + 1, w5, r5, by omega, ?_, q3, by omega, fun j hj => ?_, fun j hj => ?_, fun j hj => ?_, fun fuel => ?_⟩
      · rw [pow_succ]; omega
      · have hj' : Prot q.fdim lo S (L + 1) j := by
          rcases hj with h | h
          · exact Or.inl h
          · exact Or.inr ⟨h.1, by omega⟩
        have hj'' : Prot' q.fdim lo S L j := by
          rcases hj with h | h
          · exact Or.inl h
          · exact Or.inr ⟨h.1, by omega⟩
        rw [q5 j hj', k4 j (hprot j hj''), k3 j hj'', k2 j (hprot j hj''), k1 j hj]
      · rw [q6 j hj, p6 j hj, w2a, w2b, w4a, w4b, Spec.leaves, if_neg hc, List.map_append, List.sum_append]
        ring
      · rw [q7 j hj, p7 j hj]
      · rw [show n1 + n2 + 1 + fuel = (n1 + (n2 + fuel)) + 1 by ring, hstep, hdesc, p8, hres1, q8, hres2]

/-- From the initial state. -/
theorem run {q : Recursive} {S : Scheme} {f : Integrand} {lo size : Nat} {coarse fine : (ℝ → ℝ) → ℝ → ℝ → ℝ}
    (O : Ok q S f lo size coarse fine) (hf : 1 ≤ q.fdim) (hmin : q.minSub < q.maxSub) (hmax : q.maxSub ≤ 32) (lb ub : ℝ)
    (ws res : Mem) (p : Ptrs) (hws : ws.size = size) (hres : q.fdim ≤ res.size) (hctx : O.Ctx 0 ws p)
    (hup : S.updateValues 0 0 = .ok p) (fuel : Nat) (hfuel : 2 ^ q.maxSub ≤ fuel) :
    ∃ ws' res' : Mem, loop q S lb ub fuel ⟨ws, res, 0, 0, p, S.start 0⟩ = .ok (some (ws', res')) ∧ ws'.size = size ∧
      res'.size = res.size ∧
      (∀ j < q.fdim, res'.val j = res.val j +
          ((Spec.leaves (Spec.converged coarse fine q.errorMetric.norm q.fdim q.absTol q.relTol q.minSub lb ub f)
            (q.maxSub - 1) 0 (ws.val (S.start 0)) (ws.val (S.start 0 + 1))).map fun ab => fine (f · j) ab.1 ab.2).sum) ∧
      ∀ j, q.fdim ≤ j → res'.val j = res.val j := by
  obtain ⟨k, ws', res', a1, a2, a3, a4, a5, a6, a7, a8⟩ := subtree O hf hmin hmax lb ub (q.maxSub - 1) 0 ws res 0 p (by omega) hws
    hres hctx hup (fun l _ => by simp)
  refine ⟨ws', res', ?_, a3, a4, a6, a7⟩
  rw [show q.maxSub - 1 + 1 = q.maxSub by omega] at a2
  obtain ⟨r, rfl⟩ : ∃ r, fuel = k + r := ⟨fuel - k, by omega⟩
  rw [a8, resume, backtrack]
  rfl

/-- When the minimum depth is not below the maximum depth, the loop runs off the end of its workspace. -/
theorem descend_forever {q : Recursive} {S : Scheme} {f : Integrand} {lo size : Nat} {coarse fine : (ℝ → ℝ) → ℝ → ℝ → ℝ}
    (O : Ok q S f lo size coarse fine) (hf : 1 ≤ q.fdim) (h1 : 1 ≤ q.maxSub) (lb ub : ℝ)
    (hlen : 1e-14 ≤ |ub - lb|) (M : Nat) (hM : M ≤ q.minSub) (d : Nat) :
    ∀ (L : Nat) (ws res : Mem) (seg : BitVec 32) (p : Ptrs), L + d = M → M < q.maxSub → ws.size = size → O.Ctx L ws p →
      ∃ (ws' : Mem) (p' : Ptrs), ws'.size = size ∧ O.Ctx M ws' p' ∧ ∀ fuel,
        loop q S lb ub (fuel + d) ⟨ws, res, L, seg, p, S.start L⟩ = loop q S lb ub fuel ⟨ws', res, M, seg, p', S.start M⟩ := by
  have hsz := O.size_ge
  have hlo := O.lo_le
  induction d with
  | zero =>
    intro L ws res seg p hL _ hws hctx
    obtain rfl : L = M := by omega
    exact ⟨ws, p, hws, hctx, fun _ => rfl⟩
  | succ d ih =>
    intro L ws res seg p hL hMx hws hctx
    have h0 := O.start_lo L
    have h1' := O.start_succ L
    have h2 := O.start_size (L + 1) (by omega)
    obtain ⟨w1, e1, s1, k1, v1, m1⟩ := O.node_ok L ws p (by omega) hws hctx
    have e2 := estimateError_eq q w1 (3 * q.fdim) (4 * q.fdim) _ _ hf (by omega) (by omega)
      (fun k hk => (v1 k hk).1) (fun k hk => (v1 k hk).2)
    have hstep := fun fuel => (loop_succ q S lb ub fuel ⟨ws, res, L, seg, p, S.start L⟩ w1 _ _ _ e1 e2).2 (by
      rintro (⟨_, h'⟩ | h)
      · simp only at h'; omega
      · linarith)
    set a := ws.val (S.start L) with ha
    set b := ws.val (S.start L + 1) with hb
    have w1a : w1.val (S.start L) = a := k1 _ (Or.inr ⟨h0, by omega⟩)
    have w1b : w1.val (S.start L + 1) = b := k1 _ (Or.inr ⟨by omega, by omega⟩)
    set w2 : Mem := ⟨w1.size, Function.update (Function.update w1.val (S.start (L + 1)) a) (S.start (L + 1) + 1)
        ((a + b) / 2)⟩ with hw2
    have k2 : ∀ j, j < S.start (L + 1) → w2.val j = w1.val j := fun j hj => by
      simp only [hw2, Function.update_apply]; rw [if_neg (by omega), if_neg (by omega)]
    have w2a : w2.val (S.start (L + 1)) = a := by
      simp only [hw2, Function.update_apply]; rw [if_neg (by omega), if_pos trivial]
    have w2b : w2.val (S.start (L + 1) + 1) = (a + b) / 2 := by simp only [hw2, Function.update_self]
    have m2 : O.Mid L w2 p := O.mid_congr L w1 w2 p m1 fun j hj => k2 j (by rcases hj with h | h <;> omega)
    have c2 : O.Ctx (L + 1) w2 (S.down p (S.start L)) := by
      refine O.left_ctx L w2 p m2 ?_ ?_
      · rw [w2a, k2 _ (by omega), w1a]
      · rw [w2b, k2 _ (by omega), k2 _ (by omega), w1a, w1b]
    obtain ⟨w3, p3, i1, i2, i3⟩ := ih (L + 1) w2 res seg _ (by omega) hMx s1 c2
    refine ⟨w3, p3, i1, i2, fun fuel => ?_⟩
    rw [← i3, ← Nat.add_assoc, hstep, descend]
    simp only
    rw [Mem.read_ok (by omega), Res.bind_ok, Mem.write_ok (by omega), Res.bind_ok,
      Mem.write_ok (by simp only; omega), Res.bind_ok, w1a]

end Recursive
end MParT
