import Verif.Lemmas.ExpansionOrder
import Verif.Props.Expansion
/-!
# Lemmas: components over an arbitrary arithmetic
-/
namespace MParT.Fp
open Spec Spec.Fp Worker FixedSet
open MonotoneIntegrand (fillFlag)

/-! ### Programs -/

section
variable {K σ : Type}

theorem run_out {f : σ → K → List K → Res (σ × List K)} {n : Nat} (Inv : σ → Prop) (P : K → Prop)
    (hbad : ∀ s t buf, Inv s → buf.length = n → P t → f s t buf = .throw)
    (hok : ∀ s t buf, Inv s → buf.length = n → ¬ P t → ∃ s' o, f s t buf = .ok (s', o) ∧ Inv s' ∧ o.length = n) :
    ∀ (q : Prog K) (s : σ), Shape n q → Inv s →
      (q.run f s = .throw ↔ ∃ t ∈ visited f q s, P t) ∧ (∀ r, q.run f s = .ok r → Inv r.1 ∧ r.2.length = n)
  | .done r, s, hq, hs => by
    refine ⟨by simp [Prog.run, visited], fun r' h => ?_⟩
    cases h
    exact ⟨hs, hq⟩
  | .call t buf k, s, hq, hs => by
    by_cases hP : P t
    · have e := hbad s t buf hs hq.1 hP
      have e' : (Prog.call t buf k).run f s = .throw := by rw [Prog.run, e]; rfl
      rw [e']
      refine ⟨⟨fun _ => ⟨t, by simp [visited], hP⟩, fun _ => rfl⟩, fun r h => by cases h⟩
    · obtain ⟨s', o, e, hs', ho⟩ := hok s t buf hs hq.1 hP
      have ih := run_out Inv P hbad hok (k o) s' (hq.2 _ ho) hs'
      have e' : (Prog.call t buf k).run f s = (k o).run f s' := by rw [Prog.run, e]; rfl
      have e2 : visited f (.call t buf k) s = t :: visited f (k o) s' := by rw [visited, e]
      rw [e', e2]
      refine ⟨ih.1.trans ?_, ih.2⟩
      constructor
      · rintro ⟨u, hu, hp⟩; exact ⟨u, List.mem_cons_of_mem _ hu, hp⟩
      · rintro ⟨u, hu, hp⟩
        rcases List.mem_cons.1 hu with rfl | hu
        · exact absurd hp hP
        · exact ⟨u, hu, hp⟩
  | .bad, s, hq, hs => ⟨by simp [Prog.run, visited], fun r h => by cases h⟩

/-- An integrand that is a function where it does not throw. -/
theorem run_pure {f : σ → K → List K → Res (σ × List K)} {F : K → List K} {n : Nat} (Inv : σ → Prop) (P : K → Prop)
    (hF : ∀ t, (F t).length = n)
    (hbad : ∀ s t buf, Inv s → buf.length = n → P t → f s t buf = .throw)
    (hok : ∀ s t buf, Inv s → buf.length = n → ¬ P t → ∃ s', f s t buf = .ok (s', F t) ∧ Inv s') :
    ∀ (q : Prog K) (s : σ), Shape n q → Inv s →
      ((∃ t ∈ nodes F q, P t) → q.run f s = .throw) ∧
      ((∀ t ∈ nodes F q, ¬ P t) →
        (∀ r, integral F q = .ok r → r.length = n ∧ ∃ s', q.run f s = .ok (s', r) ∧ Inv s') ∧
        (integral F q = .ub → q.run f s = .ub)) ∧ integral F q ≠ .throw
  | .done r, s, hq, hs => by
    refine ⟨by simp [nodes], fun _ => ⟨fun r' h => ?_, fun h => by simp [integral] at h⟩, by simp [integral]⟩
    cases h
    exact ⟨hq, s, rfl, hs⟩
  | .call t buf k, s, hq, hs => by
    by_cases hP : P t
    · have e' : (Prog.call t buf k).run f s = .throw := by rw [Prog.run, hbad s t buf hs hq.1 hP]; rfl
      have ih := run_pure Inv P hF hbad hok (k (F t)) s (hq.2 _ (hF t)) hs
      refine ⟨fun _ => e', fun h => absurd hP (h t (by simp [nodes])), ih.2.2⟩
    · obtain ⟨s', e, hs'⟩ := hok s t buf hs hq.1 hP
      have ih := run_pure Inv P hF hbad hok (k (F t)) s' (hq.2 _ (hF t)) hs'
      have e' : (Prog.call t buf k).run f s = (k (F t)).run f s' := by rw [Prog.run, e]; rfl
      rw [e']
      refine ⟨?_, fun h => ?_, ih.2.2⟩
      · rintro ⟨u, hu, hp⟩
        rcases List.mem_cons.1 hu with rfl | hu
        · exact absurd hp hP
        · exact ih.1 ⟨u, hu, hp⟩
      · exact ih.2.1 fun u hu => h u (List.mem_cons_of_mem _ hu)
  | .bad, s, hq, hs => by simp [integral, Prog.run, nodes]

end

/-! ### The cache -/

variable {K : Type} [Add K] [Mul K] [Zero K] [One K] {c : Component K} {D : Nat} {ts : List (List Nat)}

omit [Add K] [Mul K] [Zero K] [One K] in
theorem _root_.MParT.Spec.Fp.Valid.layout (hv : Valid c D ts) :
    ∃ f, c.w = mk' D f (degs D ts) ∧ f = csr D ts ∧ ∀ t ∈ ts, t.length = D := by
  obtain ⟨f, hb, hcomp, rfl, hts, hw⟩ := hv.fixed
  have e := built_ofFixed hb hv.pos hts
  rw [hw] at e
  obtain ⟨h1, h2⟩ := built_csr hb hcomp hts
  exact ⟨f, Res.ok.inj e, h1, h2⟩

/-- The cache after `FillCache1` and any calls of `FillCache2`. -/
def Cached (c : Component K) (D : Nat) (ts : List (List Nat)) (pt : List K) (derivs : Bool) (cache : Cache K) : Prop :=
  ∃ W, CacheIs D (degs D ts) W cache ∧ Fill1Blocks D c.b pt derivs W

/-- The cache after the last `FillCache2` was at `y` with flag `f2`. -/
def FilledAt (c : Component K) (D : Nat) (ts : List (List Nat)) (pt : List K) (derivs : Bool) (y : K) (f2 : DFlag) (cache : Cache K) : Prop :=
  ∃ W, CacheIs D (degs D ts) W cache ∧ Fill1Blocks D c.b pt derivs W ∧ W (D - 1) = some (c.b.val · y) ∧
    (f2 ≠ .none → f2 ≠ .parameters → W (2 * D - 1) = some (c.b.d1 · y)) ∧
    (f2 = .diagonal2 ∨ f2 = .mixedInput → W (2 * D) = some (c.b.d2 · y))

section
variable {pt : List K} {derivs : Bool} {y : K} {f2 : DFlag} {cache : Cache K}

omit [Add K] [Mul K] [One K] in
theorem FilledAt.cached (h : FilledAt c D ts pt derivs y f2 cache) : Cached c D ts pt derivs cache := by
  obtain ⟨W, h1, h2, -⟩ := h
  exact ⟨W, h1, h2⟩

omit [Add K] [Mul K] [One K] in
theorem cached_start (hv : Valid c D ts) (hpt : D - 1 ≤ pt.length) (scr : Cache K) (hs : scr.length = c.w.cacheSize) (f1 : DFlag) :
    ∃ cache, fillCache1 c.w c.b scr pt f1 = .ok cache ∧ Cached c D ts pt (f1 == .input || f1 == .mixedInput) cache := by
  obtain ⟨f, hw, -, -⟩ := hv.layout
  rw [hw] at hs ⊢
  obtain ⟨c1, e1, h1⟩ := fillCache1_eq D f (degs D ts) (by simp [degs]) c.b (fun d => pt.getD d 0) pt (by
    intro d hd
    have : d < pt.length := by omega
    simp [this]) f1 scr hs
  refine ⟨c1, e1, _, h1, ?_⟩
  intro d hd
  simp only [W1]
  rw [if_pos hd]
  refine ⟨rfl, fun hder => ?_⟩
  rw [if_neg (by omega), if_pos ⟨hder, by omega, by omega⟩]
  simp

omit [Add K] [Mul K] [One K] in
theorem Cached.fill (hv : Valid c D ts) (h : Cached c D ts pt derivs cache) (y : K) (f2 : DFlag) (hf2 : f2 ≠ .mixed) :
    ∃ cache', fillCache2 c.w c.b cache y f2 = .ok cache' ∧ FilledAt c D ts pt derivs y f2 cache' := by
  obtain ⟨f, hw, -, -⟩ := hv.layout
  have hD := hv.pos
  obtain ⟨W, h1, h3⟩ := h
  rw [hw]
  obtain ⟨c3, e3, h4⟩ := fillCache2_eq D hD f (degs D ts) (by simp [degs]) c.b y f2 cache h1
  refine ⟨c3, e3, _, h4, ?_, ?_, ?_, ?_⟩
  · intro d hd
    obtain ⟨k1, k2⟩ := h3 d hd
    simp only [W2, hf2, if_false]
    rw [if_neg (by omega), if_neg (by omega), if_neg (by omega), if_neg (by omega),
      if_neg (by omega), if_neg (by omega)]
    exact ⟨k1, k2⟩
  · simp only [W2, hf2, if_false]
    rw [if_neg (by omega), if_neg (by omega), if_pos trivial]
  · intro n1 n2
    simp only [W2, hf2, if_false]
    rw [if_neg (by omega), if_pos ⟨trivial, n1, n2⟩]
  · intro h
    simp only [W2, hf2, if_false]
    rw [if_pos ⟨trivial, h⟩]

/-! ### What is read -/

/-- The factors of the value. -/
def facV (c : Component K) (D : Nat) (pt : List K) (y : K) (d n : Nat) : K := c.b.val n (if d = D - 1 then y else pt.getD d 0)

/-- The factors of the slope. -/
def facS (c : Component K) (D : Nat) (pt : List K) (y : K) (d n : Nat) : K := if d = D - 1 then c.b.d1 n y else c.b.val n (pt.getD d 0)

/-- The factors of the second derivative. -/
def facSS (c : Component K) (D : Nat) (pt : List K) (y : K) (d n : Nat) : K := if d = D - 1 then c.b.d2 n y else c.b.val n (pt.getD d 0)

/-- The factors of the derivative in direction `e`. -/
def facI (c : Component K) (D : Nat) (pt : List K) (y : K) (e d n : Nat) : K :=
  if d = e then c.b.d1 n (if d = D - 1 then y else pt.getD d 0) else c.b.val n (if d = D - 1 then y else pt.getD d 0)

/-- The factors of the derivative of the slope in direction `e`. -/
def facM (c : Component K) (D : Nat) (pt : List K) (y : K) (e d n : Nat) : K :=
  if d = D - 1 then (if e = D - 1 then c.b.d2 n y else c.b.d1 n y)
  else if d = e then c.b.d1 n (pt.getD d 0) else c.b.val n (pt.getD d 0)

omit [Add K] [Mul K] [One K] in
theorem FilledAt.readsV (hv : Valid c D ts) (h : FilledAt c D ts pt derivs y f2 cache) : Reads c.w cache D ts id (facV c D pt y) := by
  obtain ⟨f, hw, -, -⟩ := hv.layout
  have hD := hv.pos
  obtain ⟨W, h1, hB, hl, -⟩ := h
  rw [hw]
  refine h1.reads f ts rfl id _ fun d hd => ⟨by simp; omega, ?_, ?_⟩
  · by_cases e : d = D - 1
    · subst e; simp only [id, hl]; congr 1; funext n; simp [facV]
    · rw [id, (hB d (by omega)).1]; congr 1; funext n; simp [facV, e]
  · rw [id, if_pos (by omega), Nat.mod_eq_of_lt hd]

omit [Add K] [Mul K] [One K] in
theorem FilledAt.readsS (hv : Valid c D ts) (h : FilledAt c D ts pt derivs y f2 cache) (n1 : f2 ≠ .none) (n2 : f2 ≠ .parameters) :
    Reads c.w cache D ts (c.w.diagSlot 1) (facS c D pt y) := by
  obtain ⟨f, hw, -, -⟩ := hv.layout
  have hD := hv.pos
  obtain ⟨W, h1, hB, hl, h2, -⟩ := h
  have h2 := h2 n1 n2
  rw [hw]
  refine h1.reads f ts rfl _ _ fun d hd => ?_
  have hdim : (mk' D f (degs D ts)).dim = D := rfl
  simp only [diagSlot, hdim]
  by_cases e : d = D - 1
  · subst e
    rw [if_pos rfl, show 2 * D + 1 - 2 = 2 * D - 1 by omega]
    refine ⟨by omega, by rw [h2]; congr 1; funext n; simp [facS], ?_⟩
    rw [if_pos (by omega), show 2 * D - 1 = D + (D - 1) by omega, Nat.add_mod_left, Nat.mod_eq_of_lt (by omega)]
  · rw [if_neg e]
    refine ⟨by omega, by rw [(hB d (by omega)).1]; congr 1; funext n; simp [facS, e], ?_⟩
    rw [if_pos (by omega), Nat.mod_eq_of_lt hd]

omit [Add K] [Mul K] [One K] in
theorem FilledAt.readsSS (hv : Valid c D ts) (h : FilledAt c D ts pt derivs y f2 cache) (n1 : f2 = .diagonal2 ∨ f2 = .mixedInput) :
    Reads c.w cache D ts (c.w.diagSlot 2) (facSS c D pt y) := by
  obtain ⟨f, hw, -, -⟩ := hv.layout
  have hD := hv.pos
  obtain ⟨W, h1, hB, hl, -, h2⟩ := h
  have h2 := h2 n1
  rw [hw]
  refine h1.reads f ts rfl _ _ fun d hd => ?_
  have hdim : (mk' D f (degs D ts)).dim = D := rfl
  simp only [diagSlot, hdim]
  by_cases e : d = D - 1
  · subst e
    rw [if_pos rfl, show 2 * D + 2 - 2 = 2 * D by omega]
    refine ⟨by omega, by rw [h2]; congr 1; funext n; simp [facSS], ?_⟩
    rw [if_neg (by omega)]
  · rw [if_neg e]
    refine ⟨by omega, by rw [(hB d (by omega)).1]; congr 1; funext n; simp [facSS, e], ?_⟩
    rw [if_pos (by omega), Nat.mod_eq_of_lt hd]

omit [Add K] [Mul K] [One K] in
theorem FilledAt.readsIn (hv : Valid c D ts) (h : FilledAt c D ts pt derivs y f2 cache) :
    Reads c.w cache D ts (c.w.inputSlot none) (facV c D pt y) := by
  have := h.readsV hv
  rwa [show c.w.inputSlot none = id by funext d; simp [inputSlot]]

omit [Add K] [Mul K] [One K] in
theorem FilledAt.readsI (hv : Valid c D ts) (h : FilledAt c D ts pt true y f2 cache) (n1 : f2 ≠ .none) (n2 : f2 ≠ .parameters) (e : Nat)
    (he : e < D) : Reads c.w cache D ts (c.w.inputSlot (some e)) (facI c D pt y e) := by
  obtain ⟨f, hw, -, -⟩ := hv.layout
  have hD := hv.pos
  obtain ⟨W, h1, hB, hl, h2, -⟩ := h
  have h2 := h2 n1 n2
  rw [hw]
  refine h1.reads f ts rfl _ _ fun d hd => ?_
  have hdim : (mk' D f (degs D ts)).dim = D := rfl
  simp only [inputSlot, hdim, Option.some.injEq]
  by_cases hed : e = d
  · subst hed
    rw [if_pos rfl]
    refine ⟨by omega, ?_, ?_⟩
    · by_cases e1 : e = D - 1
      · rw [show D + e = 2 * D - 1 by omega, h2]; congr 1; funext n; simp [facI, ← e1]
      · rw [(hB e (by omega)).2 rfl]; congr 1; funext n; simp [facI, e1]
    · rw [if_pos (by omega), Nat.add_mod_left, Nat.mod_eq_of_lt hd]
  · rw [if_neg hed]
    have hde : d ≠ e := fun h => hed h.symm
    refine ⟨by omega, ?_, ?_⟩
    · by_cases e1 : d = D - 1
      · rw [e1, hl]; congr 1; funext n; simp [facI, ← e1, hde]
      · rw [(hB d (by omega)).1]; congr 1; funext n; simp [facI, e1, hde]
    · rw [if_pos (by omega), Nat.mod_eq_of_lt hd]

omit [Add K] [Mul K] [One K] in
theorem FilledAt.readsMn (hv : Valid c D ts) (h : FilledAt c D ts pt derivs y f2 cache) (n1 : f2 ≠ .none) (n2 : f2 ≠ .parameters) :
    Reads c.w cache D ts (c.w.mixedSlot none) (facS c D pt y) := by
  have := h.readsS hv n1 n2
  rwa [show c.w.mixedSlot none = c.w.diagSlot 1 by
    funext d
    simp only [mixedSlot, diagSlot]
    by_cases e : d = c.w.dim - 1 <;> simp [e]]

omit [Add K] [Mul K] [One K] in
theorem FilledAt.readsM (hv : Valid c D ts) (h : FilledAt c D ts pt true y f2 cache) (n1 : f2 = .diagonal2 ∨ f2 = .mixedInput) (e : Nat)
    (he : e < D) : Reads c.w cache D ts (c.w.mixedSlot (some e)) (facM c D pt y e) := by
  obtain ⟨f, hw, -, -⟩ := hv.layout
  have hD := hv.pos
  obtain ⟨W, h1, hB, hl, h2, h3⟩ := h
  have h2 := h2 (by rintro rfl; simp at n1) (by rintro rfl; simp at n1)
  have h3 := h3 n1
  rw [hw]
  refine h1.reads f ts rfl _ _ fun d hd => ?_
  have hdim : (mk' D f (degs D ts)).dim = D := rfl
  simp only [mixedSlot, hdim, Option.some.injEq]
  by_cases hdD : d = D - 1
  · rw [if_pos hdD]
    by_cases hed : e = D - 1
    · rw [if_pos hed]
      refine ⟨by omega, ?_, ?_⟩
      · rw [h3]; congr 1; funext n; simp [facM, hdD, hed]
      · rw [if_neg (by omega)]; omega
    · rw [if_neg hed]
      refine ⟨by omega, ?_, ?_⟩
      · rw [h2]; congr 1; funext n; simp [facM, hdD, hed]
      · rw [if_pos (by omega), show 2 * D - 1 = D + (D - 1) by omega, Nat.add_mod_left, Nat.mod_eq_of_lt (by omega)]; omega
  · rw [if_neg hdD]
    by_cases hed : e = d
    · subst hed
      rw [if_pos rfl]
      refine ⟨by omega, ?_, ?_⟩
      · rw [(hB e (by omega)).2 rfl]; congr 1; funext n; simp [facM, hdD]
      · rw [if_pos (by omega), Nat.add_mod_left, Nat.mod_eq_of_lt hd]
    · have hde : d ≠ e := fun h => hed h.symm
      rw [if_neg hed]
      refine ⟨by omega, ?_, ?_⟩
      · rw [(hB d (by omega)).1]; congr 1; funext n; simp [facM, hdD, hde]
      · rw [if_pos (by omega), Nat.mod_eq_of_lt hd]

/-! ### The worker's functions -/

section
variable (hv : Valid c D ts) {cs : List K} (hc : cs.length = ts.length)
include hv

omit [Add K] [Mul K] [Zero K] [One K] in
theorem size_eq : c.w.multiSet.size = .ok ts.length := by
  obtain ⟨f, hw, hf, hl⟩ := hv.layout
  exact size_csr c.w D ts (by rw [hw]; exact hf) hl

omit [Add K] [Mul K] [Zero K] [One K] in
theorem dim_eq : c.w.dim = D := by
  obtain ⟨f, hw, -⟩ := hv.layout
  rw [hw]; rfl

include hc

theorem FilledAt.evaluate (h : FilledAt c D ts pt derivs y f2 cache) : evaluate c.w cache cs = .ok (value c.b D ts cs pt y) := by
  obtain ⟨f, hw, hf, hl⟩ := hv.layout
  exact evaluate_ord c.w D ts (by rw [hw]; exact hf) hl cache cs hc _ (h.readsV hv)

theorem FilledAt.diag1 (h : FilledAt c D ts pt derivs y f2 cache) (n1 : f2 ≠ .none) (n2 : f2 ≠ .parameters) :
    diagonalDerivative c.w cache cs 1 = .ok (slope c.b D ts cs pt y) := by
  obtain ⟨f, hw, hf, hl⟩ := hv.layout
  exact diagonalDerivative_ord c.w D ts (dim_eq hv) (by rw [hw]; exact hf) hl cache cs hc 1 (.inl rfl) _ (h.readsS hv n1 n2)

theorem FilledAt.diag2 (h : FilledAt c D ts pt derivs y f2 cache) (n1 : f2 = .diagonal2 ∨ f2 = .mixedInput) :
    ∃ v, diagonalDerivative c.w cache cs 2 = .ok v := by
  obtain ⟨f, hw, hf, hl⟩ := hv.layout
  exact ⟨_, diagonalDerivative_ord c.w D ts (dim_eq hv) (by rw [hw]; exact hf) hl cache cs hc 2 (.inr rfl) _ (h.readsSS hv n1)⟩

theorem FilledAt.coeff (h : FilledAt c D ts pt derivs y f2 cache) (grad : List K) (hg : ts.length ≤ grad.length) :
    ∃ g, coeffDerivative c.w cache cs grad = .ok (value c.b D ts cs pt y, g) ∧ g.length = grad.length := by
  obtain ⟨f, hw, hf, hl⟩ := hv.layout
  exact coeffDerivative_ord c.w D ts (by rw [hw]; exact hf) hl cache cs hc _ (h.readsV hv) grad hg

theorem FilledAt.mixedCoeff1 (h : FilledAt c D ts pt derivs y f2 cache) (n1 : f2 ≠ .none) (n2 : f2 ≠ .parameters)
    (grad : List K) (hg : ts.length ≤ grad.length) :
    ∃ g, mixedCoeffDerivative c.w cache cs 1 grad = .ok (slope c.b D ts cs pt y, g) ∧ g.length = grad.length := by
  obtain ⟨f, hw, hf, hl⟩ := hv.layout
  exact mixedCoeffDerivative_ord c.w D ts (dim_eq hv) (by rw [hw]; exact hf) hl cache cs hc 1 (.inl rfl) _ (h.readsS hv n1 n2) grad hg

theorem FilledAt.mixedCoeff2 (h : FilledAt c D ts pt derivs y f2 cache) (n1 : f2 = .diagonal2 ∨ f2 = .mixedInput)
    (grad : List K) (hg : ts.length ≤ grad.length) :
    ∃ v g, mixedCoeffDerivative c.w cache cs 2 grad = .ok (v, g) ∧ g.length = grad.length := by
  obtain ⟨f, hw, hf, hl⟩ := hv.layout
  exact ⟨_, mixedCoeffDerivative_ord c.w D ts (dim_eq hv) (by rw [hw]; exact hf) hl cache cs hc 2 (.inr rfl) _ (h.readsSS hv n1) grad hg⟩

theorem FilledAt.inputD (h : FilledAt c D ts pt true y f2 cache) (n1 : f2 ≠ .none) (n2 : f2 ≠ .parameters)
    (grad : List K) (hg : D ≤ grad.length) :
    ∃ g, inputDerivative c.w cache cs grad = .ok (value c.b D ts cs pt y, g) ∧ g.length = grad.length := by
  obtain ⟨f, hw, hf, hl⟩ := hv.layout
  exact inputDerivative_ord c.w D ts (dim_eq hv) (by rw [hw]; exact hf) hl cache cs hc _ (h.readsIn hv) _
    (fun e he => h.readsI hv n1 n2 e he) grad hg

theorem FilledAt.mixedInputD (h : FilledAt c D ts pt true y f2 cache) (n1 : f2 = .diagonal2 ∨ f2 = .mixedInput)
    (grad : List K) (hg : D ≤ grad.length) :
    ∃ g, mixedInputDerivative c.w cache cs grad = .ok (slope c.b D ts cs pt y, g) ∧ g.length = grad.length := by
  obtain ⟨f, hw, hf, hl⟩ := hv.layout
  exact mixedInputDerivative_ord c.w D ts (dim_eq hv) (by rw [hw]; exact hf) hl cache cs hc _
    (h.readsMn hv (by rintro rfl; simp at n1) (by rintro rfl; simp at n1)) _
    (fun e he => h.readsM hv n1 e he) grad hg

end
end

/-! ### The integrand -/

omit [Add K] [Mul K] [Zero K] [One K] in
theorem seg_ok {out : List K} {n : Nat} (h : out.length = n + 1) : ∃ g, Integrand.seg out n = .ok g ∧ g.length = n := by
  rw [Integrand.seg, if_pos (by omega)]
  exact ⟨_, rfl, by simp; omega⟩

omit [Add K] [Mul K] [Zero K] [One K] in
theorem putSeg_length {out s : List K} {n : Nat} (h : out.length = n + 1) (hs : s.length = n) :
    (Integrand.putSeg out s n).length = n + 1 := by
  simp only [Integrand.putSeg, List.length_append, List.length_take, List.length_drop, h, hs]
  omega

omit [Zero K] [One K] in
theorem putValue_ok {m : Integrand K} {df : K} (h : m.isInf (m.g.eval df) = false) {out : List K} (ho : 0 < out.length) :
    m.putValue df out = .ok (out.set 0 (m.xd * (m.g.eval df + m.nugget))) := by
  rw [Integrand.putValue, Res.setIdx_lt ho, Res.bind_ok, h]
  rfl

omit [Zero K] [One K] in
theorem putValue_throw {m : Integrand K} {df : K} (h : m.isInf (m.g.eval df) = true) (hf : m.failOnNaN = true) {out : List K}
    (ho : 0 < out.length) : m.putValue df out = .throw := by
  rw [Integrand.putValue, Res.setIdx_lt ho, Res.bind_ok, h, hf]
  rfl

/-- Number of outputs. -/
def vecLen (D : Nat) (ts : List (List Nat)) (flag : DFlag) : Nat := match flag with
  | .parameters => ts.length + 1
  | .mixed => ts.length + 1
  | .input => D + 1
  | .diagonal => 2
  | _ => 1

/-- The flags the kernels pass. -/
def kernelFlag (flag : DFlag) : Prop := flag ≠ .diagonal2 ∧ flag ≠ .mixedInput

/-- What the integrand keeps. -/
def Keeps (c : Component K) (D : Nat) (ts : List (List Nat)) (pt : List K) (flag : DFlag) (s : Cache K × List K) : Prop :=
  Cached c D ts pt (flag == .input) s.1 ∧ (flag = .mixed → s.2.length = ts.length)

section
variable (hv : Valid c D ts) {cs : List K} (hc : cs.length = ts.length)
include hv hc

theorem call_out {pt : List K} {flag : DFlag} (hk : kernelFlag flag) (xd ν : K) (hin : flag = .input → pt.length = D)
    (s : Cache K × List K) (t : K) (out : List K) (hs : Keeps c D ts pt flag s) (ho : out.length = vecLen D ts flag) :
    (c.isInf (c.g.eval (slope c.b D ts cs pt (t * xd))) = true → (c.integrand pt xd cs flag ν).call s t out = .throw) ∧
    (c.isInf (c.g.eval (slope c.b D ts cs pt (t * xd))) = false → ∃ s' o, (c.integrand pt xd cs flag ν).call s t out = .ok (s', o) ∧
      Keeps c D ts pt flag s' ∧ o.length = vecLen D ts flag ∧
      (flag = .none → o = [xd * (c.g.eval (slope c.b D ts cs pt (t * xd)) + ν)])) := by
  have hD := hv.pos
  obtain ⟨hs1, hs2⟩ := hs
  obtain ⟨cache, e, hf⟩ := hs1.fill hv (t * xd) (fillFlag flag) (by cases flag <;> decide)
  have h1 := hf.diag1 hv hc (by cases flag <;> decide) (by cases flag <;> decide)
  simp only [Integrand.call, Component.integrand, size_eq hv, Res.bind_ok, e]
  cases flag with
  | diagonal2 => exact absurd rfl hk.1
  | mixedInput => exact absurd rfl hk.2
  | none =>
    have hl : out.length = 1 := ho
    obtain ⟨b, rfl⟩ := List.length_eq_one_iff.1 hl
    simp only [h1, Res.bind_ok]
    refine ⟨fun hi => ?_, fun hi => ?_⟩
    · rw [putValue_throw (by exact hi) rfl (by simp)]; rfl
    · rw [putValue_ok (by exact hi) (by simp), Res.bind_ok]
      exact ⟨_, _, rfl, ⟨hf.cached, by simp⟩, rfl, fun _ => rfl⟩
  | diagonal =>
    have hl : out.length = 2 := ho
    obtain ⟨v, h2⟩ := hf.diag2 hv hc (.inl rfl)
    simp only [h1, Res.bind_ok]
    refine ⟨fun hi => ?_, fun hi => ?_⟩
    · rw [putValue_throw (by exact hi) rfl (by omega)]; rfl
    · rw [putValue_ok (by exact hi) (by omega), Res.bind_ok]
      simp only [Integrand.putDiag, h2, Res.bind_ok]
      rw [Res.setIdx_lt (by simp; omega), Res.bind_ok]
      exact ⟨_, _, rfl, ⟨hf.cached, by simp⟩, by rw [List.length_set, List.length_set]; exact hl, by simp⟩
  | parameters =>
    have hl : out.length = ts.length + 1 := ho
    obtain ⟨gs, e2, l2⟩ := seg_ok hl
    obtain ⟨g, h3, l3⟩ := hf.mixedCoeff1 hv hc (by decide) (by decide) gs l2.ge
    have hp : (Integrand.putSeg out (g.map (· * (xd * c.g.deriv (slope c.b D ts cs pt (t * xd))))) ts.length).length = ts.length + 1 :=
      putSeg_length hl (by simp [l3, l2])
    simp only [e2, h3, Res.bind_ok]
    refine ⟨fun hi => ?_, fun hi => ?_⟩
    · rw [putValue_throw (by exact hi) rfl (by omega)]; rfl
    · rw [putValue_ok (by exact hi) (by omega), Res.bind_ok]
      exact ⟨_, _, rfl, ⟨hf.cached, by simp⟩, by rw [List.length_set]; exact hp, by simp⟩
  | mixed =>
    have hl : out.length = ts.length + 1 := ho
    obtain ⟨gs, e2, l2⟩ := seg_ok hl
    obtain ⟨v, w, h4, l4⟩ := hf.mixedCoeff2 hv hc (.inl rfl) s.2 (hs2 rfl).ge
    obtain ⟨g, h3, l3⟩ := hf.mixedCoeff1 hv hc (by decide) (by decide) gs l2.ge
    have hw := hs2 rfl
    simp only [h1, h4, e2, h3, Res.bind_ok]
    have hp : ∀ z : List K, z.length = ts.length → (Integrand.putSeg out z ts.length).length = ts.length + 1 :=
      fun z hz => putSeg_length hl hz
    refine ⟨fun hi => ?_, fun hi => ?_⟩
    · rw [putValue_throw (by exact hi) rfl (by rw [hp _ (by simp [l3, l2, l4, hw])]; omega)]; rfl
    · rw [putValue_ok (by exact hi) (by rw [hp _ (by simp [l3, l2, l4, hw])]; omega), Res.bind_ok]
      exact ⟨_, _, rfl, ⟨hf.cached, fun _ => by simp [l4, hw]⟩, by
        rw [List.length_set]; exact hp _ (by simp [l3, l2, l4, hw]), by simp⟩
  | input =>
    have hl : out.length = D + 1 := ho
    have hpt := hin rfl
    obtain ⟨gs, e2, l2⟩ := seg_ok hl
    obtain ⟨v, h2⟩ := hf.diag2 hv hc (.inl rfl)
    obtain ⟨g, h3, l3⟩ := hf.mixedInputD hv hc (.inl rfl) gs l2.ge
    simp only [hpt, show D ≠ 0 by omega, if_false, e2, h3, Res.bind_ok]
    have hp : ∀ z : List K, z.length = D → (Integrand.putSeg out z D).length = D + 1 := fun z hz => putSeg_length hl hz
    refine ⟨fun hi => ?_, fun hi => ?_⟩
    · rw [putValue_throw (by exact hi) rfl (by rw [hp _ (by simp [l3, l2])]; omega)]; rfl
    · rw [putValue_ok (by exact hi) (by rw [hp _ (by simp [l3, l2])]; omega), Res.bind_ok]
      simp only [Integrand.putDiag, h2, Res.bind_ok]
      rw [Res.setIdx_lt (by rw [List.length_set, hp _ (by simp [l3, l2])]; omega), Res.bind_ok]
      exact ⟨_, _, rfl, ⟨hf.cached, by simp⟩, by
        rw [List.length_set, List.length_set]; exact hp _ (by simp [l3, l2]), by simp⟩

/-- The runs of the kernels. -/
theorem run_kernel {pt : List K} {flag : DFlag} (hk : kernelFlag flag) (xd ν : K) (hin : flag = .input → pt.length = D)
    (s : Cache K × List K) (hs : Keeps c D ts pt flag s) {n : Nat} (hn : n = vecLen D ts flag) :
    ((c.quad n).run (c.integrand pt xd cs flag ν).call s = .throw ↔
      ∃ t ∈ visited (c.integrand pt xd cs flag ν).call (c.quad n) s, c.isInf (c.g.eval (slope c.b D ts cs pt (t * xd))) = true) ∧
    ∀ r, (c.quad n).run (c.integrand pt xd cs flag ν).call s = .ok r → Keeps c D ts pt flag r.1 ∧ r.2.length = n := by
  subst hn
  refine run_out (Keeps c D ts pt flag) _ (fun s t buf hs hb hp => (call_out hv hc hk xd ν hin s t buf hs hb).1 hp)
    (fun s t buf hs hb hp => ?_) _ s (hv.quad _) hs
  obtain ⟨s', o, e, h1, h2, -⟩ := (call_out hv hc hk xd ν hin s t buf hs hb).2 (by simpa using hp)
  exact ⟨s', o, e, h1, h2⟩

/-- Evaluation with the cache left by `FillCache1`. -/
theorem evaluateSingle_out {pt : List K} {cache : Cache K} (hcache : Cached c D ts pt false cache) (xd ν : K) :
    ((∃ t ∈ nodes (fun t => [xd * (c.g.eval (slope c.b D ts cs pt (t * xd)) + ν)]) (c.quad 1),
        c.isInf (c.g.eval (slope c.b D ts cs pt (t * xd))) = true) → c.evaluateSingle cache pt xd cs ν = .throw) ∧
    ((∀ t ∈ nodes (fun t => [xd * (c.g.eval (slope c.b D ts cs pt (t * xd)) + ν)]) (c.quad 1),
        c.isInf (c.g.eval (slope c.b D ts cs pt (t * xd))) = false) →
      (∀ r, integral (fun t => [xd * (c.g.eval (slope c.b D ts cs pt (t * xd)) + ν)]) (c.quad 1) = .ok r →
        ∃ v cache', r = [v] ∧ c.evaluateSingle cache pt xd cs ν = .ok (cache', v + value c.b D ts cs pt 0) ∧
          Cached c D ts pt false cache') ∧
      (integral (fun t => [xd * (c.g.eval (slope c.b D ts cs pt (t * xd)) + ν)]) (c.quad 1) = .ub →
        c.evaluateSingle cache pt xd cs ν = .ub)) ∧
    integral (fun t => [xd * (c.g.eval (slope c.b D ts cs pt (t * xd)) + ν)]) (c.quad 1) ≠ .throw := by
  have hk : kernelFlag .none := ⟨by decide, by decide⟩
  obtain ⟨h1, h2, h3⟩ := run_pure (f := (c.integrand pt xd cs .none ν).call)
    (F := fun t => [xd * (c.g.eval (slope c.b D ts cs pt (t * xd)) + ν)]) (n := 1) (Keeps c D ts pt .none)
    (fun t => c.isInf (c.g.eval (slope c.b D ts cs pt (t * xd))) = true) (fun _ => rfl)
    (fun s t buf hs hb hp => (call_out hv hc hk xd ν (by simp) s t buf hs hb).1 hp)
    (fun s t buf hs hb hp => by
      obtain ⟨s', o, e, k1, -, k2⟩ := (call_out hv hc hk xd ν (by simp) s t buf hs hb).2 (by simpa using hp)
      rw [k2 rfl] at e
      exact ⟨s', e, k1⟩) (c.quad 1) (cache, []) (hv.quad 1) ⟨hcache, by simp⟩
  refine ⟨fun h => ?_, fun h => ⟨fun r hr => ?_, fun hu => ?_⟩, h3⟩
  · rw [Component.evaluateSingle, h1 h]; rfl
  · obtain ⟨hl, s', e, hs'⟩ := (h2 (fun t ht => by simpa using h t ht)).1 r hr
    obtain ⟨v, rfl⟩ := List.length_eq_one_iff.1 hl
    obtain ⟨cache', e1, hf⟩ := hs'.1.fill hv 0 .none (by decide)
    refine ⟨v, cache', rfl, ?_, hf.cached⟩
    rw [Component.evaluateSingle, e, Res.bind_ok, Res.idx_lt (by simp), Res.bind_ok, e1, Res.bind_ok, hf.evaluate hv hc, Res.bind_ok]
    rfl
  · rw [Component.evaluateSingle, (h2 (fun t ht => by simpa using h t ht)).2 hu]; rfl

omit hv hc [Mul K] [Zero K] [One K] in
theorem addIntegral_ok (integral : List K) (n : Nat) : ∀ (i : Nat) (jac : List K), i + n ≤ jac.length → i + n + 1 ≤ integral.length →
    ∃ j, Component.addIntegral integral jac i n = .ok j ∧ j.length = jac.length := by
  induction n with
  | zero => intro i jac _ _; exact ⟨jac, rfl, rfl⟩
  | succ n ih =>
    intro i jac h1 h2
    obtain ⟨j, e, l⟩ := ih (i + 1) (jac.set i (jac[i] + integral[i + 1])) (by simp; omega) (by omega)
    refine ⟨j, ?_, by simpa using l⟩
    rw [Component.addIntegral, Res.idx_lt (by omega), Res.bind_ok, Res.idx_lt (by omega), Res.bind_ok, Res.setIdx_lt (by omega),
      Res.bind_ok, e]

end
end MParT.Fp
