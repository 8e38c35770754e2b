import Verif.Lemmas.Expansion
import Mathlib.Analysis.Calculus.Deriv.Mul
import Mathlib.Analysis.Calculus.Deriv.Add
/-! Helper lemmas: cache contents after a sequence of fills, and derivatives of expansions. -/
namespace MParT
namespace Worker
open MultiIndex Spec FixedSet Finset

section
variable {K : Type}

section
variable [Zero K]

/-- Blocks of the first `D-1` dimensions are those of `FillCache1`. -/
def Fill1Blocks (D : Nat) (b : Basis K) (pt : List K) (derivs : Bool) (W : Nat → Option (Nat → K)) : Prop :=
  ∀ d, d < D - 1 → W d = some (b.val · (pt.getD d 0)) ∧
    (derivs = true → W (D + d) = some (b.d1 · (pt.getD d 0)))

theorem fillSeq_eq (D : Nat) (hD : 0 < D) (f : FixedSet) (md : List Nat) (hmd : md.length = D) (b : Basis K)
    (pt : List K) (hpt : D - 1 ≤ pt.length) (f1 : DFlag) (cache : Cache K)
    (hc : cache.length = st D md (2 * D + 1)) (calls : List (K × DFlag)) (xd : K) (f2 : DFlag)
    (hf2 : f2 ≠ .mixed) :
    ∃ c W, fillSeq (mk' D f md) b cache pt f1 (calls ++ [(xd, f2)]) = .ok c ∧ CacheIs D md W c ∧
      Fill1Blocks D b pt (f1 == .input || f1 == .mixedInput) W ∧
      W (D - 1) = some (b.val · xd) ∧
      (f2 ≠ .none → f2 ≠ .parameters → W (2 * D - 1) = some (b.d1 · xd)) ∧
      (f2 = .diagonal2 ∨ f2 = .mixedInput → W (2 * D) = some (b.d2 · xd)) := by
  obtain ⟨c1, e1, h1⟩ := fillCache1_eq D f md hmd b (fun d => pt.getD d 0) pt (by
    intro d hd
    have : d < pt.length := by omega
    simp [this]) f1 cache hc
  have hmono : ∀ (calls : List (K × DFlag)) (c : Cache K) (W : Nat → Option (Nat → K)),
      CacheIs D md W c → Fill1Blocks D b pt (f1 == .input || f1 == .mixedInput) W →
      ∃ c' W', calls.foldlM (fun c h => fillCache2 (mk' D f md) b c h.1 h.2) c = Res.ok c' ∧
        CacheIs D md W' c' ∧ Fill1Blocks D b pt (f1 == .input || f1 == .mixedInput) W' := by
    intro calls
    induction calls with
    | nil => intro c W h h'; exact ⟨c, W, rfl, h, h'⟩
    | cons a l ih =>
      intro c W h h'
      obtain ⟨c2, e2, h2⟩ := fillCache2_eq D hD f md hmd b a.1 a.2 c h
      obtain ⟨c3, W3, e3, h3⟩ := ih c2 _ h2 (by
        intro d hd
        obtain ⟨k1, k2⟩ := h' d hd
        simp only [W2]
        by_cases hm : a.2 = .mixed
        · simp only [hm, if_true]; exact ⟨k1, k2⟩
        · simp only [hm, if_false]
          rw [if_neg (by omega), if_neg (by omega), if_neg (by omega), if_neg (by omega),
            if_neg (by omega), if_neg (by omega)]
          exact ⟨k1, k2⟩)
      exact ⟨c3, W3, by rw [List.foldlM_cons, e2, Res.bind_ok, e3], h3⟩
  obtain ⟨c2, W, e2, h2, h3⟩ := hmono calls c1 _ h1 (by
    intro d hd
    simp only [W1]
    rw [if_pos hd]
    refine ⟨rfl, fun hder => ?_⟩
    rw [if_neg (by omega), if_pos ⟨hder, by omega, by omega⟩]
    simp)
  obtain ⟨c3, e3, h4⟩ := fillCache2_eq D hD f md hmd b xd f2 c2 h2
  refine ⟨c3, _, ?_, h4, ?_, ?_, ?_, ?_⟩
  · rw [fillSeq, e1, Res.bind_ok, List.foldlM_append, e2, Res.bind_ok, List.foldlM_cons, e3, Res.bind_ok]
    rfl
  · intro d hd
    obtain ⟨k1, k2⟩ := h3 d hd
    simp only [W2, hf2, if_false]
    rw [if_neg (by omega), if_neg (by omega), if_neg (by omega), if_neg (by omega),
      if_neg (by omega), if_neg (by omega)]
    exact ⟨k1, k2⟩
  · simp only [W2, hf2, if_false]
    rw [if_neg (by omega), if_neg (by omega), if_pos trivial]
  · intro n1 n2
    simp only [W2, hf2, if_false]
    rw [if_neg (by omega), if_pos ⟨trivial, n1, n2⟩]
  · intro h
    simp only [W2, hf2, if_false]
    rw [if_pos ⟨trivial, h⟩]

end

variable [CommRing K]

/-- A point's last coordinate. -/
theorem pointOf_last (D : Nat) (pt : List K) (xd : K) : pointOf D pt xd (D - 1) = xd := by simp [pointOf]

theorem pointOf_lt {D : Nat} (pt : List K) (xd : K) {d : Nat} (h : d ≠ D - 1) :
    pointOf D pt xd d = pt.getD d 0 := by simp [pointOf, h]

/-! ### Dense layout -/

/-- All factors (also of degree 0) needed for the terms `ts` are present in the cache. -/
def ReadsAll (w : Worker) (cache : Cache K) (D : Nat) (ts : List (List Nat)) (F : Nat → Nat → K) : Prop :=
  ∀ t ∈ ts, ∀ d, d < D →
    ∃ s, Res.idx w.startPos d = .ok s ∧ read cache (s + t.getD d 0) = .ok (F d (t.getD d 0))

theorem termLoop_dense (w : Worker) (cache : Cache K) (F : Nat → Nat → K) (t : List Nat) (D : Nat) (k : Nat)
    (hdims : ∀ d, d < D → Res.idx w.multiSet.nzDims (k + d) = .ok d)
    (hords : ∀ d, d < D → Res.idx w.multiSet.nzOrders (k + d) = .ok (t.getD d 0))
    (hr : ∀ d, d < D → ∃ s, Res.idx w.startPos d = .ok s ∧ read cache (s + t.getD d 0) = .ok (F d (t.getD d 0)))
    (n : Nat) : ∀ (m : Nat) (acc : K), m + n = D →
    termLoop w cache id (fun _ (u : Unit) => u) acc () (k + m) n
      = .ok (acc * ∏ d ∈ range n, F (m + d) (t.getD (m + d) 0), ()) := by
  induction n with
  | zero => intro m acc _; simp [termLoop]
  | succ n ih =>
    intro m acc hm
    obtain ⟨s, h1, h2⟩ := hr m (by omega)
    rw [termLoop, hdims m (by omega), Res.bind_ok, hords m (by omega), Res.bind_ok, id, h1, Res.bind_ok, h2,
      Res.bind_ok, Nat.add_assoc, ih (m + 1) _ (by omega), prod_range_succ']
    simp only [Nat.add_zero, Nat.add_assoc, Nat.add_comm 1]
    congr 2
    ring

theorem evaluate_dense (w : Worker) (D : Nat) (ts : List (List Nat)) (hw : w.multiSet = dens D ts)
    (hts : ∀ t ∈ ts, t.length = D) (hD : 0 < D) (cache : Cache K) (coeffs : List K) (F : Nat → Nat → K)
    (hr : ReadsAll w cache D ts F) {n : Nat} (hn : ts.length = n + 1) (hc : ts.length ≤ coeffs.length) :
    evaluate w cache coeffs = .ok (expansion D (ts.take n) coeffs F + coeffs.getD n 0) := by
  have hsz : w.multiSet.size = .ok ts.length := by rw [hw]; exact (dens_holds D hD ts hts).1
  have hstart : ∀ i, i < ts.length → Res.idx w.multiSet.nzStarts i = .ok (i * D) := by
    intro i hi
    apply Res.idx_some
    rw [hw]
    simp only [FixedSet.dens]
    rw [List.getElem?_append_left (by simpa using hi)]
    simp [hi]
  have hend : Res.idx w.multiSet.nzStarts ts.length = .ok 0 := by
    apply Res.idx_some
    rw [hw]
    simp only [FixedSet.dens]
    rw [List.getElem?_append_right (by simp)]
    simp
  have hterm : ∀ i, i < n → termVal w cache id (fun _ (u : Unit) => u) () i
      = .ok (termProd D F (ts.getD i []), ()) := by
    intro i hi
    have hget : ts[i]? = some (ts.getD i []) := by
      have : i < ts.length := by omega
      simp [this]
    generalize ts.getD i [] = t at hget
    have htm := List.mem_of_getElem? hget
    rw [termVal, hstart i (by omega), Res.bind_ok, hstart (i + 1) (by omega), Res.bind_ok,
      show (i + 1) * D - i * D = D by rw [Nat.add_mul, Nat.one_mul, Nat.add_sub_cancel_left]]
    have := termLoop_dense w cache F t D (i * D) (by
      intro d hd
      apply Res.idx_some
      rw [hw]
      have hlt : i * D + d < D * ts.length := by
        calc i * D + d < i * D + D := by omega
          _ = D * (i + 1) := by rw [Nat.mul_comm i D, Nat.mul_add, Nat.mul_one]
          _ ≤ D * ts.length := Nat.mul_le_mul_left _ (by omega)
      simp only [FixedSet.dens, List.getElem?_map, List.getElem?_range hlt, Option.map_some]
      rw [Nat.add_comm, Nat.add_mul_mod_self_right, Nat.mod_eq_of_lt hd]) (by
      intro d hd
      apply Res.idx_some
      rw [hw]
      have h1 := flatten_get D ts hts hget hd
      have h2 : d < t.length := by rw [hts t htm]; exact hd
      rw [Nat.add_comm, Nat.mul_comm]
      simpa [FixedSet.dens, h2] using h1) (fun d hd => hr t htm d hd) D 0 1 (by omega)
    rw [Nat.add_zero] at this
    rw [this]
    simp [termProd]
  have hlast : termVal w cache id (fun _ (u : Unit) => u) () n = Res.ok ((1 : K), ()) := by
    rw [termVal, hstart n (by omega), Res.bind_ok, ← hn, hend, Res.bind_ok, Nat.zero_sub]
    rfl
  have hloop : ∀ (m i : Nat) (out : K), i + m = n →
      evalLoop w cache coeffs out i (m + 1)
        = .ok (out + (∑ k ∈ range m, coeffs.getD (i + k) 0 * termProd D F (ts.getD (i + k) [])) + coeffs.getD n 0) := by
    intro m
    induction m with
    | zero =>
      intro i out hi
      have : i = n := by omega
      subst this
      rw [evalLoop, hlast, Res.bind_ok, idx_getD' (by omega), Res.bind_ok, evalLoop]
      simp
    | succ m ih =>
      intro i out hi
      rw [evalLoop, hterm i (by omega), Res.bind_ok, idx_getD' (by omega), Res.bind_ok, ih (i + 1) _ (by omega),
        sum_range_succ']
      simp only [Nat.add_zero, Nat.add_assoc, Nat.add_comm 1]
      congr 1
      ring
  rw [evaluate, hsz, Res.bind_ok, hn, hloop n 0 0 (by omega), expansion]
  have hlen : (ts.take n).length = n := by simp; omega
  rw [hlen]
  congr 2
  rw [zero_add]
  refine sum_congr rfl fun k hk => ?_
  have hk' := mem_range.1 hk
  rw [Nat.zero_add]
  congr 2
  simp [hk']

theorem CacheIs.readsAll {D : Nat} {md : List Nat} {W : Nat → Option (Nat → K)} {cache : Cache K}
    (h : CacheIs D md W cache) (f : FixedSet) (ts : List (List Nat)) (hmd : md = degs D ts)
    (F : Nat → Nat → K) (hs : ∀ d, d < D → W d = some (F d)) :
    ReadsAll (mk' D f md) cache D ts F := by
  intro t ht d hd
  refine ⟨st D md d, mk'_startPos D f md (by omega), ?_⟩
  have hle : t.getD d 0 ≤ dg D md d := by
    rw [dg, if_pos (by omega), Nat.mod_eq_of_lt hd, hmd, degs]
    simp only [List.getD_eq_getElem?_getD, List.getElem?_map, List.getElem?_range hd, Option.map_some,
      Option.getD_some]
    exact le_vmax (List.mem_map.2 ⟨t, ht, by simp⟩)
  rw [read, h.2 _ _ (by omega) (hs d hd) _ hle]

end

/-! ### Derivatives -/

theorem eff_one (b : Basis ℝ) (y : ℝ) : b.eff.val 0 y = 1 := by simp [Basis.eff]

theorem eff_d1_zero (b : Basis ℝ) (y : ℝ) : b.eff.d1 0 y = 0 := by simp [Basis.eff]

theorem eff_d2_zero (b : Basis ℝ) (y : ℝ) : b.eff.d2 0 y = 0 := by simp [Basis.eff]

theorem _root_.MParT.Spec.SmoothBasis.d1_zero {b : Basis ℝ} (h : SmoothBasis b) (y : ℝ) : b.d1 0 y = 0 := by
  have h1 := h.d1 0 y
  have : b.val 0 = fun _ => 1 := funext h.one
  rw [this] at h1
  exact h1.unique (hasDerivAt_const y 1)

theorem _root_.MParT.Spec.SmoothBasis.d2_zero {b : Basis ℝ} (h : SmoothBasis b) (y : ℝ) : b.d2 0 y = 0 := by
  have h1 := h.d2 0 y
  have : b.d1 0 = fun _ => 0 := funext h.d1_zero
  rw [this] at h1
  exact h1.unique (hasDerivAt_const y 0)

theorem _root_.MParT.Spec.SmoothBasis.eff_eq {b : Basis ℝ} (h : SmoothBasis b) : b.eff = b := by
  obtain ⟨v, d, e⟩ := b
  simp only [Basis.eff, Basis.mk.injEq]
  refine ⟨?_, ?_, ?_⟩ <;> funext n x <;> split
  · rename_i hn; subst hn; exact (h.one x).symm
  · rfl
  · rename_i hn; subst hn; exact (h.d1_zero x).symm
  · rfl
  · rename_i hn; subst hn; exact (h.d2_zero x).symm
  · rfl

theorem _root_.MParT.Spec.SmoothBasis.eff {b : Basis ℝ} (h : SmoothBasis b) : SmoothBasis b.eff := by rwa [h.eff_eq]

/-- Derivative of a product of factors in one coordinate, when only factor `e` depends on it. -/
theorem termProd_hasDerivAt (D e : Nat) (he : e < D) (φ : ℝ → Nat → Nat → ℝ) (φ' : Nat → ℝ)
    (y0 : ℝ) (t : List Nat) (hφ : ∀ d, d ≠ e → ∀ n y, φ y d n = φ y0 d n)
    (hd : ∀ n, HasDerivAt (fun y => φ y e n) (φ' n) y0) :
    HasDerivAt (fun y => termProd D (φ y) t)
      (termProd D (fun d n => if d = e then φ' n else φ y0 d n) t) y0 := by
  have hm : e ∈ range D := mem_range.2 he
  have h1 : ∀ y, termProd D (φ y) t = φ y e (t.getD e 0) * ∏ d ∈ (range D).erase e, φ y0 d (t.getD d 0) := by
    intro y
    rw [termProd, ← mul_prod_erase _ _ hm]
    congr 1
    exact prod_congr rfl fun d hd => hφ d (mem_erase.1 hd).1 _ _
  have h2 : termProd D (fun d n => if d = e then φ' n else φ y0 d n) t
      = φ' (t.getD e 0) * ∏ d ∈ (range D).erase e, φ y0 d (t.getD d 0) := by
    rw [termProd, ← mul_prod_erase _ _ hm, if_pos rfl]
    congr 1
    exact prod_congr rfl fun d hd => by rw [if_neg (mem_erase.1 hd).1]
  rw [funext h1, h2]
  exact (hd _).mul_const _

theorem expansion_hasDerivAt (D e : Nat) (he : e < D) (ts : List (List Nat)) (c : List ℝ)
    (φ : ℝ → Nat → Nat → ℝ) (φ' : Nat → ℝ)
    (y0 : ℝ) (hφ : ∀ d, d ≠ e → ∀ n y, φ y d n = φ y0 d n)
    (hd : ∀ n, HasDerivAt (fun y => φ y e n) (φ' n) y0) :
    HasDerivAt (fun y => expansion D ts c (φ y))
      (expansion D ts c (fun d n => if d = e then φ' n else φ y0 d n)) y0 := by
  simp only [expansion]
  refine HasDerivAt.fun_sum fun k _ => ?_
  exact (termProd_hasDerivAt D e he φ φ' y0 _ hφ hd).const_mul _

theorem expansion_coeff_hasDerivAt (D : Nat) (ts : List (List Nat)) (c : List ℝ) (φ : Nat → Nat → ℝ)
    (k : Nat) (hk : k < ts.length) (hc : ts.length ≤ c.length) (z0 : ℝ) :
    HasDerivAt (fun z => expansion D ts (c.set k z) φ) (termProd D φ (ts.getD k [])) z0 := by
  have hm : k ∈ range ts.length := mem_range.2 hk
  have h1 : ∀ z, expansion D ts (c.set k z) φ = z * termProd D φ (ts.getD k [])
      + ∑ j ∈ (range ts.length).erase k, c.getD j 0 * termProd D φ (ts.getD j []) := by
    intro z
    rw [expansion, ← add_sum_erase _ _ hm]
    congr 1
    · have : k < c.length := by omega
      congr 1
      simp [this]
    · refine sum_congr rfl fun j hj => ?_
      have hne : k ≠ j := fun h => (mem_erase.1 hj).1 h.symm
      congr 1
      simp [List.getElem?_set, hne]
  rw [funext h1]
  have := ((hasDerivAt_id z0).mul_const (termProd D φ (ts.getD k []))).add_const
    (∑ j ∈ (range ts.length).erase k, c.getD j 0 * termProd D φ (ts.getD j []))
  simpa using this

section
variable {K : Type} [CommRing K] {ts : List (List Nat)} (b : Basis K) (pt : List K) (xd : K) (f1 : DFlag)

/-- Factors used when dimension `e` carries a first derivative. -/
def facD1 (b : Basis K) (x : Nat → K) (e d n : Nat) : K := if d = e then b.d1 n (x d) else b.val n (x d)

/-- Factors used by the mixed derivatives: a first derivative in `e` and in `D-1`
(a second derivative if they coincide). -/
def facMixed (b : Basis K) (D : Nat) (x : Nat → K) (e d n : Nat) : K :=
  if d = D - 1 then (if e = D - 1 then b.d2 n (x d) else b.d1 n (x d))
  else if d = e then b.d1 n (x d) else b.val n (x d)

/-- Factors used by the second diagonal derivative. -/
def facD2 (b : Basis K) (x : Nat → K) (e d n : Nat) : K := if d = e then b.d2 n (x d) else b.val n (x d)

theorem Reads.congr {w : Worker} {cache : Cache K} {D : Nat} {ts : List (List Nat)} {slot : Nat → Nat}
    {F G : Nat → Nat → K}
    (hr : Reads w cache D ts slot F) (hFG : ∀ d n, n ≠ 0 → F d n = G d n) : Reads w cache D ts slot G := by
  intro t ht d hd hn
  obtain ⟨s, h1, h2⟩ := hr t ht d hd hn
  exact ⟨s, h1, by rw [h2, hFG _ _ hn]⟩

section reads
variable {D : Nat} {md : List Nat} {W : Nat → Option (Nat → K)} {cache : Cache K} (hD' : 0 < D)
  (h : CacheIs D md W cache) (hmd : md = degs D ts) (hB : Fill1Blocks D b pt (f1 == .input || f1 == .mixedInput) W)
  (hlast : W (D - 1) = some (b.val · xd)) (g : FixedSet)
include hD' h hmd hB

include hlast in
theorem reads_id : Reads (mk' D g md) cache D ts id fun d n => b.val n (pointOf D pt xd d) := by
  refine h.reads g ts hmd id _ fun d hd => ⟨by simp; omega, ?_, ?_⟩
  · by_cases hl : d = D - 1
    · subst hl; simpa [pointOf] using hlast
    · rw [id, (hB d (by omega)).1]; simp [pointOf, hl]
  · rw [id, if_pos (by omega), Nat.mod_eq_of_lt hd]

omit hlast in
theorem reads_diag1 (hd1 : W (2 * D - 1) = some (b.d1 · xd)) :
    Reads (mk' D g md) cache D ts ((mk' D g md).diagSlot 1) (facD1 b (pointOf D pt xd) (D - 1)) := by
  refine h.reads g ts hmd _ _ fun d hd => ?_
  have hdim : (mk' D g md).dim = D := rfl
  simp only [diagSlot, hdim]
  by_cases hl : d = D - 1
  · subst hl
    rw [if_pos rfl, show 2 * D + 1 - 2 = 2 * D - 1 by omega]
    refine ⟨by omega, ?_, ?_⟩
    · rw [hd1]; congr 1; funext n; simp [facD1, pointOf]
    · rw [if_pos (by omega), show 2 * D - 1 = D + (D - 1) by omega, Nat.add_mod_left,
        Nat.mod_eq_of_lt (by omega)]
  · rw [if_neg hl]
    refine ⟨by omega, ?_, ?_⟩
    · rw [(hB d (by omega)).1]; congr 1; funext n; simp [facD1, pointOf, hl]
    · rw [if_pos (by omega), Nat.mod_eq_of_lt hd]

omit hlast in
theorem reads_diag2 (hd2 : W (2 * D) = some (b.d2 · xd)) :
    Reads (mk' D g md) cache D ts ((mk' D g md).diagSlot 2) (facD2 b (pointOf D pt xd) (D - 1)) := by
  refine h.reads g ts hmd _ _ fun d hd => ?_
  have hdim : (mk' D g md).dim = D := rfl
  simp only [diagSlot, hdim]
  by_cases hl : d = D - 1
  · subst hl
    rw [if_pos rfl, show 2 * D + 2 - 2 = 2 * D by omega]
    refine ⟨by omega, ?_, ?_⟩
    · rw [hd2]; congr 1; funext n; simp [facD2, pointOf]
    · rw [if_neg (by omega)]
  · rw [if_neg hl]
    refine ⟨by omega, ?_, ?_⟩
    · rw [(hB d (by omega)).1]; congr 1; funext n; simp [facD2, pointOf, hl]
    · rw [if_pos (by omega), Nat.mod_eq_of_lt hd]

include hlast in
theorem reads_input (hin : f1 = .input ∨ f1 = .mixedInput) (hd1 : W (2 * D - 1) = some (b.d1 · xd)) (e : Nat)
    (_ : e < D) :
    Reads (mk' D g md) cache D ts ((mk' D g md).inputSlot (some e)) (facD1 b (pointOf D pt xd) e) := by
  refine h.reads g ts hmd _ _ fun d hd => ?_
  have hdim : (mk' D g md).dim = D := rfl
  have hder : (f1 == DFlag.input || f1 == DFlag.mixedInput) = true := by
    rcases hin with rfl | rfl <;> rfl
  simp only [inputSlot, hdim, Option.some.injEq]
  by_cases hed : e = d
  · subst hed
    rw [if_pos rfl]
    refine ⟨by omega, ?_, ?_⟩
    · by_cases hl : e = D - 1
      · subst hl
        rw [show D + (D - 1) = 2 * D - 1 by omega, hd1]; congr 1; funext n; simp [facD1, pointOf]
      · rw [(hB e (by omega)).2 hder]; congr 1; funext n; simp [facD1, pointOf, hl]
    · rw [if_pos (by omega), Nat.add_mod_left, Nat.mod_eq_of_lt hd]
  · rw [if_neg hed]
    have hne : d ≠ e := fun h => hed h.symm
    refine ⟨by omega, ?_, ?_⟩
    · by_cases hl : d = D - 1
      · subst hl
        rw [hlast]; congr 1; funext n; simp [facD1, pointOf, hne]
      · rw [(hB d (by omega)).1]; congr 1; funext n; simp [facD1, pointOf, hl, hne]
    · rw [if_pos (by omega), Nat.mod_eq_of_lt hd]

include hlast in
theorem reads_input_none :
    Reads (mk' D g md) cache D ts ((mk' D g md).inputSlot none) fun d n => b.val n (pointOf D pt xd d) := by
  have : (mk' D g md).inputSlot none = id := by funext d; simp [inputSlot]
  rw [this]
  exact reads_id b pt xd f1 hD' h hmd hB hlast g

omit hlast in
theorem reads_mixed_none (hd1 : W (2 * D - 1) = some (b.d1 · xd)) :
    Reads (mk' D g md) cache D ts ((mk' D g md).mixedSlot none) (facD1 b (pointOf D pt xd) (D - 1)) := by
  have : (mk' D g md).mixedSlot none = (mk' D g md).diagSlot 1 := by
    funext d
    have hdim : (mk' D g md).dim = D := rfl
    simp only [mixedSlot, diagSlot, hdim]
    simp
  rw [this]
  exact reads_diag1 b pt xd f1 hD' h hmd hB g hd1

omit hlast in
theorem reads_mixed (hin : f1 = .input ∨ f1 = .mixedInput) (hd1 : W (2 * D - 1) = some (b.d1 · xd))
    (hd2 : W (2 * D) = some (b.d2 · xd)) (e : Nat) (_ : e < D) :
    Reads (mk' D g md) cache D ts ((mk' D g md).mixedSlot (some e)) (facMixed b D (pointOf D pt xd) e) := by
  refine h.reads g ts hmd _ _ fun d hd => ?_
  have hdim : (mk' D g md).dim = D := rfl
  have hder : (f1 == DFlag.input || f1 == DFlag.mixedInput) = true := by
    rcases hin with rfl | rfl <;> rfl
  simp only [mixedSlot, hdim, Option.some.injEq]
  by_cases hl : d = D - 1
  · subst hl
    rw [if_pos rfl]
    by_cases he : e = D - 1
    · rw [if_pos he]
      refine ⟨by omega, ?_, ?_⟩
      · rw [hd2]; congr 1; funext n; simp [facMixed, pointOf, he]
      · rw [if_neg (by omega)]
    · rw [if_neg he]
      refine ⟨by omega, ?_, ?_⟩
      · rw [hd1]; congr 1; funext n; simp [facMixed, pointOf, he]
      · rw [if_pos (by omega), show 2 * D - 1 = D + (D - 1) by omega, Nat.add_mod_left,
          Nat.mod_eq_of_lt (by omega)]
  · rw [if_neg hl]
    by_cases hed : e = d
    · subst hed
      rw [if_pos rfl]
      refine ⟨by omega, ?_, ?_⟩
      · rw [(hB e (by omega)).2 hder]; congr 1; funext n; simp [facMixed, pointOf, hl]
      · rw [if_pos (by omega), Nat.add_mod_left, Nat.mod_eq_of_lt hd]
    · rw [if_neg hed]
      have hne : d ≠ e := fun h => hed h.symm
      refine ⟨by omega, ?_, ?_⟩
      · rw [(hB d (by omega)).1]; congr 1; funext n; simp [facMixed, pointOf, hl, hne]
      · rw [if_pos (by omega), Nat.mod_eq_of_lt hd]

/-! ### The same with the effective basis -/

include hlast in
theorem reads_id_eff : Reads (mk' D g md) cache D ts id fun d n => b.eff.val n (pointOf D pt xd d) :=
  (reads_id b pt xd f1 hD' h hmd hB hlast g).congr fun d n hn => by simp [Basis.eff, hn]

omit hlast in
theorem reads_diag1_eff (hd1 : W (2 * D - 1) = some (b.d1 · xd)) :
    Reads (mk' D g md) cache D ts ((mk' D g md).diagSlot 1) (facD1 b.eff (pointOf D pt xd) (D - 1)) :=
  (reads_diag1 b pt xd f1 hD' h hmd hB g hd1).congr fun d n hn => by simp [Basis.eff, facD1, hn]

omit hlast in
theorem reads_diag2_eff (hd2 : W (2 * D) = some (b.d2 · xd)) :
    Reads (mk' D g md) cache D ts ((mk' D g md).diagSlot 2) (facD2 b.eff (pointOf D pt xd) (D - 1)) :=
  (reads_diag2 b pt xd f1 hD' h hmd hB g hd2).congr fun d n hn => by simp [Basis.eff, facD2, hn]

include hlast in
theorem reads_input_eff (hin : f1 = .input ∨ f1 = .mixedInput) (hd1 : W (2 * D - 1) = some (b.d1 · xd)) (e : Nat)
    (he : e < D) :
    Reads (mk' D g md) cache D ts ((mk' D g md).inputSlot (some e)) (facD1 b.eff (pointOf D pt xd) e) :=
  (reads_input b pt xd f1 hD' h hmd hB hlast g hin hd1 e he).congr fun d n hn => by simp [Basis.eff, facD1, hn]

include hlast in
theorem reads_input_none_eff :
    Reads (mk' D g md) cache D ts ((mk' D g md).inputSlot none) fun d n => b.eff.val n (pointOf D pt xd d) :=
  (reads_input_none b pt xd f1 hD' h hmd hB hlast g).congr fun d n hn => by simp [Basis.eff, hn]

omit hlast in
theorem reads_mixed_none_eff (hd1 : W (2 * D - 1) = some (b.d1 · xd)) :
    Reads (mk' D g md) cache D ts ((mk' D g md).mixedSlot none) (facD1 b.eff (pointOf D pt xd) (D - 1)) :=
  (reads_mixed_none b pt xd f1 hD' h hmd hB g hd1).congr fun d n hn => by simp [Basis.eff, facD1, hn]

omit hlast in
theorem reads_mixed_eff (hin : f1 = .input ∨ f1 = .mixedInput) (hd1 : W (2 * D - 1) = some (b.d1 · xd))
    (hd2 : W (2 * D) = some (b.d2 · xd)) (e : Nat) (he : e < D) :
    Reads (mk' D g md) cache D ts ((mk' D g md).mixedSlot (some e)) (facMixed b.eff D (pointOf D pt xd) e) :=
  (reads_mixed b pt xd f1 hD' h hmd hB g hin hd1 hd2 e he).congr fun d n hn => by simp [Basis.eff, facMixed, hn]

end reads

end

end Worker
end MParT
