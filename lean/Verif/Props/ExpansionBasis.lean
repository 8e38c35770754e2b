import Verif.Model.ExpansionBasis
import Verif.Props.BasisLink
/-!
# C24: the basis classes of the library in the expansion

`Implements b1 b` says that the three array routines of the class `b1` return the families `b`. Filling the cache through the
routines is then the same as writing the families into it, so that everything proved about expansions and monotone components
over `b` holds for the class.
-/
namespace MParT
open Spec OrthoPoly Hermite

/-- Called with an order of at most `N` and sufficiently long arrays, the three array routines of the basis class return these
values, first derivatives and second derivatives; in particular all three agree. -/
def Spec.Implements (b1 : Basis1d) (b : Basis ℝ) (N : Nat) : Prop :=
  ∀ n, n ≤ N → ∀ (vals derivs second : List ℝ) (x : ℝ), n < vals.length → n < derivs.length → n < second.length →
    (∃ v, b1.evaluateAll vals n x = .ok v ∧ Filled v vals n (b.val · x)) ∧
    (∃ v d, b1.evaluateDerivatives vals derivs n x = .ok (v, d) ∧ Filled v vals n (b.val · x) ∧ Filled d derivs n (b.d1 · x)) ∧
    ∃ v d s, b1.evaluateSecondDerivatives vals derivs second n x = .ok (v, d, s) ∧ Filled v vals n (b.val · x) ∧
      Filled d derivs n (b.d1 · x) ∧ Filled s second n (b.d2 · x)

theorem represents_of {b1 : Basis1d} {b : Basis ℝ} (h : FillsVal b1 b.val) (h1 : FillsDeriv b1 b.val b.d1)
    (h2 : FillsSecond b1 b.val b.d1 b.d2) (N : Nat) : Implements b1 b N :=
  fun n _ vals derivs second x l l1 l2 => ⟨h vals n x l, h1 vals derivs n x l l1, h2 vals derivs second n x l l1 l2⟩

namespace Worker

theorem filled_block {F : Nat → ℝ → ℝ} {o old : List ℝ} {n : Nat} {x : ℝ} (hl : old.length = n + 1)
    (h : Filled o old n (F · x)) : o = block F n x := by
  apply List.ext_getElem?
  intro k
  by_cases hk : k ≤ n
  · rw [h.2.1 k hk]; simp [block, show k < n + 1 by omega]
  · rw [List.getElem?_eq_none (by rw [h.1]; omega), List.getElem?_eq_none (by simp [block]; omega)]

theorem segment_length {m : List ℝ} {s n : Nat} (h : s + (n + 1) ≤ m.length) : (segment m s n).length = n + 1 := by
  simp [segment]; omega

theorem putBack_eq (vs : List ℝ) : ∀ (m : List ℝ) (s : Nat), (∀ c, writeBlock (m.map some) s vs = .ok c →
    ∃ m', putBack m s vs = .ok m' ∧ m'.map some = c ∧ m'.length = m.length ∧ (vs ≠ [] → s + vs.length ≤ m.length)) := by
  induction vs with
  | nil =>
    intro m s c h
    simp only [writeBlock, Res.ok.injEq] at h
    exact ⟨m, rfl, h, rfl, by simp⟩
  | cons v vs ih =>
    intro m s c h
    rw [writeBlock] at h
    by_cases hs : s < m.length
    · rw [Res.setIdx_lt (by simpa using hs), Res.bind_ok, ← List.map_set] at h
      obtain ⟨m', e, hm, hl, hfit⟩ := ih _ _ _ h
      refine ⟨m', by rw [putBack, Res.setIdx_lt hs, Res.bind_ok, e], hm, by simpa using hl, fun _ => ?_⟩
      by_cases hv : vs = []
      · subst hv; simp; omega
      · have := hfit hv
        simp at this ⊢
        omega
    · rw [Res.setIdx, if_neg (by simpa using hs)] at h
      cases h

theorem vmax_le {l : List Nat} {N : Nat} (h : ∀ v ∈ l, v ≤ N) : vmax l ≤ N := by
  induction l with
  | nil => simp [vmax]
  | cons a l ih =>
    have h1 := h a (by simp)
    have h2 := ih fun v hv => h v (by simp [hv])
    simp only [vmax]
    omega

theorem idx_mem {l : List Nat} {i v : Nat} (h : Res.idx l i = .ok v) : v ∈ l := by
  rw [Res.idx] at h
  split at h
  · rename_i e; simp only [Res.ok.injEq] at h; subst h; exact List.mem_of_getElem? e
  · cases h

theorem block_ne (F : Nat → ℝ → ℝ) (n : Nat) (x : ℝ) : block F n x ≠ [] := by simp [block]

theorem block_length (F : Nat → ℝ → ℝ) (n : Nat) (x : ℝ) : (block F n x).length = n + 1 := by simp [block]

variable {b1 : Basis1d} {b : Basis ℝ} {N : Nat} (hr : Implements b1 b N)
include hr

theorem callAll_eq {m : List ℝ} {s n : Nat} {x : ℝ} {c : Cache ℝ} (hn : n ≤ N)
    (h : writeBlock (m.map some) s (block b.val n x) = .ok c) :
    ∃ m', callAll b1 m s n x = .ok m' ∧ m'.map some = c ∧ m'.length = m.length := by
  obtain ⟨m', e, hm, hl, hfit⟩ := putBack_eq _ _ _ _ h
  have hs := segment_length (by simpa [block_length] using hfit (block_ne _ _ _))
  obtain ⟨o, eo, ho⟩ := (hr n hn (segment m s n) (segment m s n) (segment m s n) x (by omega) (by omega) (by omega)).1
  exact ⟨m', by rw [callAll, eo, Res.bind_ok, filled_block hs ho, e], hm, hl⟩

theorem callDerivatives_eq {m : List ℝ} {s s1 n : Nat} {x : ℝ} {c c1 : Cache ℝ} (hn : n ≤ N)
    (h : writeBlock (m.map some) s (block b.val n x) = .ok c) (h1 : writeBlock c s1 (block b.d1 n x) = .ok c1) :
    ∃ m', callDerivatives b1 m s s1 n x = .ok m' ∧ m'.map some = c1 ∧ m'.length = m.length := by
  obtain ⟨m', e, rfl, hl, hfit⟩ := putBack_eq _ _ _ _ h
  obtain ⟨m1, e1, rfl, hl1, hfit1⟩ := putBack_eq _ _ _ _ h1
  have hs := segment_length (by simpa [block_length] using hfit (block_ne _ _ _))
  have hs1 := segment_length (m := m) (by simpa [block_length, hl] using hfit1 (block_ne _ _ _))
  obtain ⟨v, d, eo, ho, ho1⟩ := (hr n hn (segment m s n) (segment m s1 n) (segment m s n) x (by omega) (by omega)
    (by omega)).2.1
  refine ⟨m1, ?_, rfl, by omega⟩
  rw [callDerivatives, eo, Res.bind_ok, filled_block hs ho, filled_block hs1 ho1]
  simp only [e, Res.bind_ok, e1]

theorem callSecond_eq {m : List ℝ} {s s1 s2 n : Nat} {x : ℝ} {c c1 c2 : Cache ℝ} (hn : n ≤ N)
    (h : writeBlock (m.map some) s (block b.val n x) = .ok c) (h1 : writeBlock c s1 (block b.d1 n x) = .ok c1)
    (h2 : writeBlock c1 s2 (block b.d2 n x) = .ok c2) :
    ∃ m', callSecond b1 m s s1 s2 n x = .ok m' ∧ m'.map some = c2 ∧ m'.length = m.length := by
  obtain ⟨m', e, rfl, hl, hfit⟩ := putBack_eq _ _ _ _ h
  obtain ⟨m1, e1, rfl, hl1, hfit1⟩ := putBack_eq _ _ _ _ h1
  obtain ⟨m2, e2, rfl, hl2, hfit2⟩ := putBack_eq _ _ _ _ h2
  have hs := segment_length (by simpa [block_length] using hfit (block_ne _ _ _))
  have hs1 := segment_length (m := m) (by simpa [block_length, hl] using hfit1 (block_ne _ _ _))
  have hs2 := segment_length (m := m) (by simpa [block_length, hl, hl1] using hfit2 (block_ne _ _ _))
  obtain ⟨v, d, s', eo, ho, ho1, ho2⟩ := (hr n hn (segment m s n) (segment m s1 n) (segment m s2 n) x (by omega) (by omega)
    (by omega)).2.2
  refine ⟨m2, ?_, rfl, by omega⟩
  rw [callSecond, eo, Res.bind_ok, filled_block hs ho, filled_block hs1 ho1, filled_block hs2 ho2]
  simp only [e, Res.bind_ok, e1, e2]

theorem fill1LoopOf_eq (w : Worker) (hN : ∀ n ∈ w.maxDegrees, n ≤ N) (pt : List ℝ) (derivs : Bool) (n : Nat) : ∀ (d : Nat) (m : List ℝ) (c : Cache ℝ),
    fill1Loop w b pt derivs (m.map some) d n = .ok c →
    ∃ m', fill1LoopOf w b1 pt derivs m d n = .ok m' ∧ m'.map some = c ∧ m'.length = m.length := by
  induction n with
  | zero =>
    intro d m c h
    simp only [fill1Loop, Res.ok.injEq] at h
    exact ⟨m, rfl, h, rfl⟩
  | succ n ih =>
    intro d m c h
    rw [fill1Loop] at h
    obtain ⟨s, es, h⟩ := Res.bind_eq_ok.1 h
    obtain ⟨deg, ed, h⟩ := Res.bind_eq_ok.1 h
    obtain ⟨x, ex, h⟩ := Res.bind_eq_ok.1 h
    obtain ⟨c1, e1, h⟩ := Res.bind_eq_ok.1 h
    rw [fill1LoopOf, es, Res.bind_ok, ed, Res.bind_ok, ex, Res.bind_ok]
    cases derivs with
    | false =>
      simp only [Bool.false_eq_true, if_false] at h ⊢
      obtain ⟨m1, ec, rfl, hl⟩ := callAll_eq hr (hN _ (idx_mem ed)) e1
      obtain ⟨m', e', hm, hl'⟩ := ih _ _ _ h
      exact ⟨m', by rw [ec, Res.bind_ok, e'], hm, by omega⟩
    | true =>
      simp only [if_true] at h ⊢
      obtain ⟨s1, es1, h⟩ := Res.bind_eq_ok.1 h
      obtain ⟨c2, e2, h⟩ := Res.bind_eq_ok.1 h
      obtain ⟨m1, ec, rfl, hl⟩ := callDerivatives_eq hr (hN _ (idx_mem ed)) e1 e2
      obtain ⟨m', e', hm, hl'⟩ := ih _ _ _ h
      exact ⟨m', by rw [es1, Res.bind_ok, ec, Res.bind_ok, e'], hm, by omega⟩

theorem fillCache2Of_eq (w : Worker) (hN : ∀ n ∈ w.maxDegrees, n ≤ N) (xd : ℝ) (flag : DFlag) (m : List ℝ) (c : Cache ℝ)
    (h : fillCache2 w b (m.map some) xd flag = .ok c) :
    ∃ m', fillCache2Of w b1 m xd flag = .ok m' ∧ m'.map some = c ∧ m'.length = m.length := by
  rw [fillCache2] at h
  rw [fillCache2Of]
  split at h
  · rename_i hf
    obtain ⟨s, es, h⟩ := Res.bind_eq_ok.1 h
    obtain ⟨deg, ed, h⟩ := Res.bind_eq_ok.1 h
    rw [if_pos hf, es, Res.bind_ok, ed, Res.bind_ok]
    exact callAll_eq hr (hN _ (idx_mem ed)) h
  · rename_i hf
    rw [if_neg hf]
    split at h
    · rename_i hf
      obtain ⟨s, es, h⟩ := Res.bind_eq_ok.1 h
      obtain ⟨s1, es1, h⟩ := Res.bind_eq_ok.1 h
      obtain ⟨deg, ed, h⟩ := Res.bind_eq_ok.1 h
      obtain ⟨c1, e1, h⟩ := Res.bind_eq_ok.1 h
      rw [if_pos hf, es, Res.bind_ok, es1, Res.bind_ok, ed, Res.bind_ok]
      exact callDerivatives_eq hr (hN _ (idx_mem ed)) e1 h
    · rename_i hf
      rw [if_neg hf]
      split at h
      · rename_i hf
        obtain ⟨s, es, h⟩ := Res.bind_eq_ok.1 h
        obtain ⟨s1, es1, h⟩ := Res.bind_eq_ok.1 h
        obtain ⟨s2, es2, h⟩ := Res.bind_eq_ok.1 h
        obtain ⟨deg, ed, h⟩ := Res.bind_eq_ok.1 h
        obtain ⟨c1, e1, h⟩ := Res.bind_eq_ok.1 h
        obtain ⟨c2, e2, h⟩ := Res.bind_eq_ok.1 h
        rw [if_pos hf, es, Res.bind_ok, es1, Res.bind_ok, es2, Res.bind_ok, ed, Res.bind_ok]
        exact callSecond_eq hr (hN _ (idx_mem ed)) e1 e2 h
      · rename_i hf
        rw [if_neg hf]
        simp only [Res.ok.injEq] at h
        exact ⟨m, rfl, h, rfl⟩

/-- **C24.** `FillCache1` and `FillCache2` called with a class whose routines return the families `b` up to the orders in use do exactly what the
model with the abstract basis does: whenever the latter succeeds, they succeed with the same cache, whatever the cache
contained. -/
theorem C24_class (w : Worker) (hN : ∀ n ∈ w.maxDegrees, n ≤ N) (m pt : List ℝ) (f1 : DFlag) (calls : List (ℝ × DFlag)) (c : Cache ℝ)
    (h : fillSeq w b (m.map some) pt f1 calls = .ok c) :
    ∃ m', fillSeqOf w b1 m pt f1 calls = .ok m' ∧ m'.map some = c := by
  rw [fillSeq] at h
  obtain ⟨c0, e0, h⟩ := Res.bind_eq_ok.1 h
  obtain ⟨m0, e1, rfl, -⟩ := fill1LoopOf_eq hr w hN pt _ _ _ _ _ e0
  rw [fillSeqOf, show fillCache1Of w b1 m pt f1 = .ok m0 from e1, Res.bind_ok]
  have key : ∀ (l : List (ℝ × DFlag)) (m0 : List ℝ), l.foldlM (fun c h => fillCache2 w b c h.1 h.2) (m0.map some) = .ok c →
      ∃ m', l.foldlM (fun m h => fillCache2Of w b1 m h.1 h.2) m0 = .ok m' ∧ m'.map some = c := by
    intro l
    induction l with
    | nil =>
      intro m0 h
      simp only [List.foldlM_nil, Res.pure_eq, Res.ok.injEq] at h ⊢
      exact ⟨m0, rfl, h⟩
    | cons p l ih =>
      intro m0 h
      rw [List.foldlM_cons] at h
      obtain ⟨c1, e, h⟩ := Res.bind_eq_ok.1 h
      obtain ⟨m1, e1, rfl, -⟩ := fillCache2Of_eq hr w hN _ _ _ _ e
      obtain ⟨m', e', hm⟩ := ih m1 h
      exact ⟨m', by rw [List.foldlM_cons, e1, Res.bind_ok, e'], hm⟩
  exact key calls m0 h

/-- **C24.** Hence whatever a later routine computes from the cache is the same as well. -/
theorem C24_class_read (w : Worker) (hN : ∀ n ∈ w.maxDegrees, n ≤ N) (m pt : List ℝ) (f1 : DFlag) (calls : List (ℝ × DFlag))
    {α : Type} (read : Cache ℝ → Res α) (r : α) (h : (do let c ← fillSeq w b (m.map some) pt f1 calls; read c) = .ok r) :
    (do let m' ← fillSeqOf w b1 m pt f1 calls; read (m'.map some)) = .ok r := by
  obtain ⟨c, e, h⟩ := Res.bind_eq_ok.1 h
  obtain ⟨m', e', rfl⟩ := C24_class hr w hN m pt f1 calls c e
  rw [e', Res.bind_ok, h]

/-- **C23 for the classes.** For every compressed set whose orders do not exceed `N`, coefficients and point, whatever the cache
held, `Evaluate` after fills through the class returns `Σ_k c_k Π_d φ_{a_{k,d}}(x_d)`, the member of order zero counting as one. -/
theorem C23_class {f : FixedSet} (hb : FixedSet.Built f) (hcomp : f.isCompressed = true) (hD : 0 < f.dim) {ts : List (List Nat)}
    (hts : FixedSet.Holds f ts) (hN : ∀ t ∈ ts, ∀ n ∈ t, n ≤ N) (coeffs : List ℝ) (hc : ts.length ≤ coeffs.length) (pt : List ℝ)
    (hpt : f.dim - 1 ≤ pt.length) (calls : List (ℝ × DFlag)) (xd : ℝ) (f1 f2 : DFlag) (hf2 : f2 ≠ .mixed) :
    ∃ w, ofFixed f = .ok w ∧ ∀ m : List ℝ, m.length = w.cacheSize →
      (do let m' ← fillSeqOf w b1 m pt f1 (calls ++ [(xd, f2)])
          evaluate w (m'.map some) coeffs) = .ok (expandAt b.eff f.dim ts coeffs (pointOf f.dim pt xd)) := by
  obtain ⟨w, hw, h⟩ := C23_degree_zero_ignored hb hcomp hD hts b coeffs hc pt hpt calls xd f1 f2 hf2
  refine ⟨w, hw, fun m hm => C24_class_read hr w ?_ m pt f1 _ _ _ (h _ (by simpa using hm))⟩
  rw [built_ofFixed hb hD hts] at hw
  rw [← Res.ok.inj hw]
  intro n hn
  simp only [mk', FixedSet.degs, List.mem_map] at hn
  obtain ⟨d, -, rfl⟩ := hn
  refine vmax_le fun v hv => ?_
  obtain ⟨t, ht, rfl⟩ := List.mem_map.1 hv
  rw [List.getD_eq_getElem?_getD]
  cases e : t[d]? with
  | none => simp
  | some v => exact hN t ht v (List.mem_of_getElem? e)

end Worker

/-! ## The classes -/

theorem represents_poly {p : OrthoPoly ℝ} (hp : SmoothMixer p.toMixer) (N : Nat) :
    Implements p.toBasis (Spec.basisOf (polyVal p)) N := by
  intro n _ vals derivs second x l l1 l2
  obtain ⟨v, d, s, e, e1, -, hd, hs⟩ := C26_arrays hp vals derivs second n x l l1 l2
  obtain ⟨v', d', e', hv⟩ := C25_evaluateDerivatives p vals derivs n x l l1
  rw [e1] at e'
  simp only [Res.ok.injEq, Prod.mk.injEq] at e'
  obtain ⟨rfl, rfl⟩ := e'
  exact ⟨C25_evaluateAll p vals n x l, ⟨v, d, e1, hv, hd⟩, v, d, s, e, hv, hd, hs⟩

/-- **C24.** The bases without linearisation. For the normalised families the orders are those at which the code's
normalisation is not zero (`C27_fails_from_34`). -/
theorem C24_represents :
    (∀ N, Implements (probabilistHermite false).toBasis (Spec.basisOf He) N ∧
      Implements (physicistHermite false).toBasis (Spec.basisOf Hp) N ∧
      Implements HermiteFunction.toBasis (Spec.basisOf hermiteFn) N) ∧
    Implements (probabilistHermite true).toBasis (Spec.basisOf (polyVal (probabilistHermite true))) 33 ∧
    Implements (physicistHermite true).toBasis (Spec.basisOf (polyVal (physicistHermite true))) 33 := by
  have e1 : polyVal (probabilistHermite false) = He := funext fun k => funext fun x => by
    rw [← C25_evaluate, C27_probabilist]; rfl
  have e2 : polyVal (physicistHermite false) = Hp := funext fun k => funext fun x => by
    rw [← C25_evaluate, C27_physicist]; rfl
  refine ⟨fun N => ⟨?_, ?_, represents_of C28_evaluateAll C28_evaluateDerivatives C28_evaluateSecondDerivatives N⟩,
    represents_poly (probabilist_smooth true) 33, represents_poly (physicist_smooth true) 33⟩
  · rw [← e1]; exact represents_poly (probabilist_smooth false) N
  · rw [← e2]; exact represents_poly (physicist_smooth false) N

/-- The family of linear extensions of `F`, with zero second derivatives beyond the bounds. -/
noncomputable def Spec.extensions (lb ub : Option ℝ) (F : Nat → ℝ → ℝ) : Basis ℝ :=
  ⟨fun n => extend lb ub (F n), fun n => deriv (extend lb ub (F n)),
    fun n y => if lb.getD y ≤ y ∧ y ≤ ub.getD y then deriv (deriv (F n)) y else 0⟩

theorem lin2_eq (lb ub : ℝ) (f : ℝ → ℝ) (y : ℝ) :
    (if lb ≤ y ∧ y ≤ ub then deriv (deriv f) y else 0) = Linearized.lin2 lb ub f y := by
  rw [Linearized.lin2]
  by_cases h1 : y < lb
  · rw [if_neg (fun h => absurd h.1 (not_le.2 h1)), if_pos h1]
  · rw [if_neg h1]
    by_cases h2 : ub < y
    · rw [if_neg (fun h => absurd h.2 (not_le.2 h2)), if_pos h2]
    · rw [if_neg h2, if_pos ⟨not_lt.1 h1, not_lt.1 h2⟩]

/-- Near every point the bounds may be taken finite. -/
theorem finite_bounds {lb ub : Option ℝ} (h : Ordered lb ub) (y : ℝ) : ∃ l u : ℝ, l < u ∧
    (∀ x, |x - y| < 1 → ((x < lb.getD x ↔ x < l) ∧ (x < l → lb.getD x = l) ∧ (ub.getD x < x ↔ u < x) ∧ (u < x → ub.getD x = u))) ∧
    (∀ v ∈ lb, l = v) ∧ (∀ v ∈ ub, u = v) ∧ (lb = none → l < y) ∧ (ub = none → y < u) := by
  cases lb with
  | some l =>
    cases ub with
    | some u => exact ⟨l, u, h l rfl u rfl, by simp, by simp, by simp, by simp, by simp⟩
    | none =>
      refine ⟨l, max l y + 1, by linarith [le_max_left l y], fun x hx => ?_, by simp, by simp, by simp, fun _ => by
        linarith [le_max_right l y]⟩
      rw [abs_lt] at hx
      have : ¬ max l y + 1 < x := by linarith [le_max_right l y]
      simp [this]
  | none =>
    cases ub with
    | some u =>
      refine ⟨min u y - 1, u, by linarith [min_le_left u y], fun x hx => ?_, by simp, by simp, fun _ => by
        linarith [min_le_right u y], by simp⟩
      rw [abs_lt] at hx
      have : ¬ x < min u y - 1 := by linarith [min_le_right u y]
      simp [this]
    | none =>
      refine ⟨y - 1, y + 1, by linarith, fun x hx => ?_, by simp, by simp, fun _ => by linarith, fun _ => by linarith⟩
      rw [abs_lt] at hx
      have h1 : ¬ x < y - 1 := by linarith
      have h2 : ¬ y + 1 < x := by linarith
      simp [h1, h2]

section
variable {lb ub : Option ℝ} {l u x : ℝ} (h : (x < lb.getD x ↔ x < l) ∧ (x < l → lb.getD x = l) ∧ (ub.getD x < x ↔ u < x) ∧ (u < x → ub.getD x = u))
include h

theorem extend_near (f : ℝ → ℝ) : extend lb ub f x = linearize l u f x := by
  obtain ⟨h1, h2, h3, h4⟩ := h
  simp only [extend, linearize]
  by_cases a : x < l
  · rw [if_pos (h1.2 a), if_pos a, h2 a]
  · rw [if_neg (fun c => a (h1.1 c)), if_neg a]
    by_cases b : u < x
    · rw [if_pos (h3.2 b), if_pos b, h4 b]
    · rw [if_neg (fun c => b (h3.1 c)), if_neg b]

theorem second_near (f : ℝ → ℝ) : (if lb.getD x ≤ x ∧ x ≤ ub.getD x then deriv (deriv f) x else 0) = Linearized.lin2 l u f x := by
  obtain ⟨h1, h2, h3, h4⟩ := h
  rw [← lin2_eq]
  congr 1
  simp only [← not_lt, h1, h3]

theorem ofBounds_near (b : Basis1d) (vals derivs second : List ℝ) (n : Nat) :
    (LinearizedBasis.ofBounds b lb ub).evaluateAll vals n x = (LinearizedBasis.toBasis b l u).evaluateAll vals n x ∧
    (LinearizedBasis.ofBounds b lb ub).evaluateDerivatives vals derivs n x
      = (LinearizedBasis.toBasis b l u).evaluateDerivatives vals derivs n x ∧
    (LinearizedBasis.ofBounds b lb ub).evaluateSecondDerivatives vals derivs second n x
      = (LinearizedBasis.toBasis b l u).evaluateSecondDerivatives vals derivs second n x := by
  obtain ⟨h1, h2, h3, h4⟩ := h
  simp only [LinearizedBasis.ofBounds, LinearizedBasis.toBasis, LinearizedBasis.evaluateAll, LinearizedBasis.evaluateDerivatives,
    LinearizedBasis.evaluateSecondDerivatives, gt_iff_lt]
  by_cases a : x < l
  · simp only [if_pos (h1.2 a), if_pos a, h2 a, and_self]
  · simp only [if_neg (fun c => a (h1.1 c)), if_neg a]
    by_cases b : u < x
    · simp only [if_pos (h3.2 b), if_pos b, h4 b, and_self]
    · simp only [if_neg (fun c => b (h3.1 c)), if_neg b, and_self]

end

theorem extend_eventually {lb ub : Option ℝ} {l u y : ℝ} (h : ∀ x, |x - y| < 1 → ((x < lb.getD x ↔ x < l) ∧ (x < l → lb.getD x = l) ∧
    (ub.getD x < x ↔ u < x) ∧ (u < x → ub.getD x = u))) (f : ℝ → ℝ) : extend lb ub f =ᶠ[nhds y] linearize l u f := by
  filter_upwards [Metric.ball_mem_nhds y one_pos] with x hx
  exact extend_near (h x (by rwa [Metric.mem_ball, Real.dist_eq] at hx)) f

/-- **C24.** A linearised class over a class whose routines agree and whose scalar `Derivative` is right up to order `N`. -/
theorem C24_linearized {b1 : Basis1d} {F : Nat → ℝ → ℝ} (hd : ∀ n, Differentiable ℝ (F n)) (hv : FillsVal b1 F)
    (h1 : FillsDeriv b1 F (fun k => deriv (F k)))
    (h2 : FillsSecond b1 F (fun k => deriv (F k)) (fun k => deriv (deriv (F k)))) {N : Nat}
    (hs : ∀ k, k ≤ N → ∀ c, b1.derivative k c = deriv (F k) c) {lb ub : Option ℝ} (h : Ordered lb ub) :
    Implements (LinearizedBasis.ofBounds b1 lb ub) (Spec.extensions lb ub F) N := by
  intro n hn vals derivs second x l l1 l2
  obtain ⟨lo, hi, hlt, hnear, -⟩ := finite_bounds h x
  have hx := hnear x (by simp)
  obtain ⟨e1, e2, e3⟩ := ofBounds_near hx b1 vals derivs second n
  have hval : (fun k => (Spec.extensions lb ub F).val k x) = fun k => linearize lo hi (F k) x :=
    funext fun k => extend_near hx (F k)
  have hder : (fun k => (Spec.extensions lb ub F).d1 k x) = fun k => deriv (linearize lo hi (F k)) x :=
    funext fun k => (extend_eventually hnear (F k)).deriv_eq
  have hsec : (fun k => (Spec.extensions lb ub F).d2 k x) = fun k => Linearized.lin2 lo hi (F k) x :=
    funext fun k => second_near hx (F k)
  rw [e1, e2, e3, hval, hder, hsec]
  refine ⟨C29_evaluateAll_partial hv vals n x l fun k hk => hs k (hk.trans hn), C29_evaluateDerivatives hd h1 hlt vals derivs n x l l1, ?_⟩
  obtain ⟨v, d, s, e, hv', hd', hs'⟩ := Linearized.evaluateSecond_lin h1 h2 (lb := lo) (ub := hi) vals derivs second n x l l1 l2
  refine ⟨v, d, s, e, hv', ?_, hs'⟩
  simp only [fun k => Linearized.linearize_deriv hlt (hd k)]; exact hd'

/-- **C24.** Linearised families are right for everything but second derivatives at the bounds: continuous first derivatives
everywhere, true second derivatives elsewhere. -/
theorem C24_linearized_smooth {F : Nat → ℝ → ℝ} (hd : ∀ n, Differentiable ℝ (F n)) (hd2 : ∀ n, Differentiable ℝ (deriv (F n)))
    {lb ub : Option ℝ} (h : Ordered lb ub) :
    C1Basis (Spec.extensions lb ub F).eff ∧ ∀ y, (∀ l ∈ lb, y ≠ l) → (∀ u ∈ ub, y ≠ u) → TwiceAt (Spec.extensions lb ub F).eff y := by
  refine ⟨⟨fun y => by simp [Basis.eff], fun n y => ?_, fun n => ?_⟩, fun y h1 h2 n => ?_⟩ <;> by_cases hn : n = 0
  · subst hn; simpa [Basis.eff] using hasDerivAt_const y (1 : ℝ)
  · obtain ⟨lo, hi, hlt, hnear, -⟩ := finite_bounds h y
    have := (((C29_linearize_C1 hlt (hd n)).2.1 y).hasDerivAt).congr_of_eventuallyEq (extend_eventually hnear (F n))
    have h' := this.differentiableAt.hasDerivAt
    simpa [Basis.eff, hn, Spec.extensions] using h'
  · subst hn; simpa [Basis.eff] using continuous_const
  · have : Continuous (deriv (extend lb ub (F n))) := by
      rw [continuous_iff_continuousAt]
      intro y
      obtain ⟨lo, hi, hlt, hnear, -⟩ := finite_bounds h y
      exact ((C29_linearize_C1 hlt (hd n)).2.2.2 (hd2 n).continuous).continuousAt.congr
        (extend_eventually hnear (F n)).deriv.symm
    simpa [Basis.eff, hn, Spec.extensions] using this
  · subst hn; simpa [Basis.eff] using hasDerivAt_const y (0 : ℝ)
  · obtain ⟨lo, hi, hlt, hnear, hl, hu, hl', hu'⟩ := finite_bounds h y
    have a1 : y ≠ lo := by
      cases lb with
      | some l => rw [hl l rfl]; exact h1 l rfl
      | none => exact (hl' rfl).ne'
    have a2 : y ≠ hi := by
      cases ub with
      | some u => rw [hu u rfl]; exact h2 u rfl
      | none => exact (hu' rfl).ne
    have := (Linearized.lin2_hasDerivAt hlt (hd n) (hd2 n) a1 a2).congr_of_eventuallyEq (extend_eventually hnear (F n)).deriv
    rw [← second_near (hnear y (by simp))] at this
    simpa [Basis.eff, hn, Spec.extensions] using this

/-- **C24.** The linearised classes: the unnormalised polynomials at every order, the Hermite functions up to order 14 (beyond which
the scalar derivative used by `EvaluateAll` is wrong, `C28_fails_evaluate_from_15`). -/
theorem C24_represents_linearized {lb ub : Option ℝ} (h : Ordered lb ub) :
    (∀ N, Implements (LinearizedBasis.ofBounds (probabilistHermite false).toBasis lb ub) (Spec.extensions lb ub He) N ∧
      Implements (LinearizedBasis.ofBounds (physicistHermite false).toBasis lb ub) (Spec.extensions lb ub Hp) N) ∧
    Implements (LinearizedBasis.ofBounds HermiteFunction.toBasis lb ub) (Spec.extensions lb ub hermiteFn) 14 := by
  have e1 : polyVal (probabilistHermite false) = He := funext fun k => funext fun x => by
    rw [← C25_evaluate, C27_probabilist]; rfl
  have e2 : polyVal (physicistHermite false) = Hp := funext fun k => funext fun x => by
    rw [← C25_evaluate, C27_physicist]; rfl
  have poly : ∀ {p : OrthoPoly ℝ}, SmoothMixer p.toMixer → p.normalize = false → ∀ N,
      Implements (LinearizedBasis.ofBounds p.toBasis lb ub) (Spec.extensions lb ub (polyVal p)) N := by
    intro p hp hn N
    refine C24_linearized (fun n => (C26_differentiable hp n).1) (fun o n x hl => C25_evaluateAll p o n x hl) ?_ ?_
      (fun k _ c => (C26_derivative_partial hp k c (Or.inl hn)).deriv.symm) h
    · intro vals derivs n x l l1
      exact (represents_poly hp n n le_rfl vals derivs vals x l l1 l).2.1
    · intro vals derivs second n x l l1 l2
      exact (represents_poly hp n n le_rfl vals derivs second x l l1 l2).2.2
  refine ⟨fun N => ⟨?_, ?_⟩, C24_linearized (fun n => (C28_differentiable n).1) C28_evaluateAll C28_evaluateDerivatives
    C28_evaluateSecondDerivatives (fun k hk c => ?_) h⟩
  · rw [← e1]; exact poly (probabilist_smooth false) rfl N
  · rw [← e2]; exact poly (physicist_smooth false) rfl N
  · exact (C28_scalar_partial k hk c).2.deriv.symm

/-- **C24 fails** for a linearised normalised class, whatever families one has in mind: two of its routines disagree on the values of
order one. -/
theorem C24_fails_linearized_normalized {lb ub : ℝ} (h : lb < ub) (N : Nat) (hN : 1 ≤ N) (b : Basis ℝ) :
    ¬ Implements (LinearizedBasis.ofBounds (probabilistHermite true).toBasis (some lb) (some ub)) b N := by
  intro hr
  obtain ⟨o, v, d, e, e', hne⟩ := C29_fails_normalized lb ub (ub + 1) h (by linarith)
  obtain ⟨⟨v1, f1, g1⟩, ⟨v2, d2, f2, g2, -⟩, -⟩ := hr 1 hN [0, 0] [0, 0] [0, 0] (ub + 1) (by simp) (by simp) (by simp)
  rw [show (LinearizedBasis.ofBounds (probabilistHermite true).toBasis (some lb) (some ub)).evaluateAll [0, 0] 1 (ub + 1) = .ok o from e] at f1
  rw [show (LinearizedBasis.ofBounds (probabilistHermite true).toBasis (some lb) (some ub)).evaluateDerivatives [0, 0] [0, 0] 1 (ub + 1)
    = .ok (v, d) from e'] at f2
  simp only [Res.ok.injEq, Prod.mk.injEq] at f1 f2
  obtain ⟨rfl, rfl⟩ := f2
  subst f1
  exact hne ((g1.2.1 1 le_rfl).trans (g2.2.1 1 le_rfl).symm)

/-- Non-vacuity: the total-order set of two variables and order three, through `LinearizedBasis<ProbabilistHermite>`, from an arbitrary
cache. -/
example (x y : ℝ) : ∃ f w, FixedSet.totalOrder 2 3 = .ok f ∧ Worker.ofFixed f = .ok w ∧ ∀ m : List ℝ, m.length = w.cacheSize →
    (do let m' ← Worker.fillSeqOf w (LinearizedBasis.ofBounds (probabilistHermite false).toBasis (some (-3)) none) m [x, y] .none
          [(y, .diagonal)]
        w.evaluate (m'.map some) [1, 2, 3, 4, 5, 6, 7, 8, 9, 10])
      = .ok (Spec.expandAt (Spec.extensions (some (-3)) none He).eff 2 (MISet.toEnum 2 3) [1, 2, 3, 4, 5, 6, 7, 8, 9, 10]
          (Spec.pointOf 2 [x, y] y)) := by
  have h1 := FixedSet.totalOrder_csr 2 (by decide) 3
  have hh := FixedSet.csr_holds 2 (MISet.toEnum 2 3) fun t ht => ((MISet.mem_toEnum 2 3 t).1 ht).1
  obtain ⟨w, hw, h⟩ := Worker.C23_class ((C24_represents_linearized (lb := some (-3)) (ub := none) (by simp [Ordered])).1 3).1 (.totalOrder h1) rfl
    (by decide) hh (by decide) [1, 2, 3, 4, 5, 6, 7, 8, 9, 10] (by decide) [x, y]
    (show 2 - 1 ≤ 2 by decide) [] y .none .diagonal (by decide)
  exact ⟨_, w, h1, hw, h⟩

end MParT
