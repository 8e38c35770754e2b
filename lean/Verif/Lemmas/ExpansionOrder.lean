import Verif.Lemmas.ExpansionFill
import Verif.Spec.ComponentFp
/-! Helper lemmas for the expansion worker over any numbers: products and sums in the order in which they are computed. -/
namespace MParT
namespace Worker
open MultiIndex FixedSet Spec Spec.Fp

variable {K : Type}

section
variable [Mul K]

/-- The product over the nonzero entries of a term whose first entry has number `k`. -/
def prodFrom (F : Nat → Nat → K) : Nat → List Nat → K → K
  | _, [], acc => acc
  | k, x :: xs, acc => prodFrom F (k + 1) xs (if x = 0 then acc else acc * F k x)

theorem prodFrom_eq (F : Nat → Nat → K) (t : List Nat) : ∀ (k : Nat) (acc : K),
    ((List.range t.length).filter fun d => t.getD d 0 != 0).foldl (fun a d => a * F (k + d) (t.getD d 0)) acc = prodFrom F k t acc := by
  induction t with
  | nil => intros; rfl
  | cons x xs ih =>
    intro k acc
    rw [List.length_cons, List.range_succ_eq_map, prodFrom, ← ih]
    have h : ∀ a : K, ((List.map Nat.succ (List.range xs.length)).filter fun d => (x :: xs).getD d 0 != 0).foldl
        (fun a d => a * F (k + d) ((x :: xs).getD d 0)) a
        = ((List.range xs.length).filter fun d => xs.getD d 0 != 0).foldl (fun a d => a * F (k + 1 + d) (xs.getD d 0)) a := by
      intro a
      rw [List.filter_map, List.foldl_map]
      have e1 : ((fun d => (x :: xs).getD d 0 != 0) ∘ Nat.succ) = fun d => xs.getD d 0 != 0 := by funext d; simp
      have e2 : (fun (a : K) (d : Nat) => a * F (k + Nat.succ d) ((x :: xs).getD (Nat.succ d) 0))
          = fun a d => a * F (k + 1 + d) (xs.getD d 0) := by
        funext a d
        rw [show k + Nat.succ d = k + 1 + d by omega]
        simp
      rw [e1, e2]
    by_cases hx : x = 0
    · subst hx
      rw [List.filter_cons_of_neg (by simp), h, if_pos rfl]
    · rw [List.filter_cons_of_pos (by simpa using hx), List.foldl_cons, h, if_neg hx]
      simp

theorem product_eq [One K] (F : Nat → Nat → K) (t : List Nat) : product F t = prodFrom F 0 t 1 := by
  rw [← prodFrom_eq, product]
  simp only [Nat.zero_add]

end

variable [Add K] [Mul K] [Zero K] [One K]

theorem termLoop_ord {σ : Type} (w : Worker) (cache : Cache K) (slot : Nat → Nat) (upd : Nat → σ → σ)
    (F : Nat → Nat → K) (t : List Nat) : ∀ (A B A' B' : List Nat) (k : Nat) (acc : K) (fl : σ),
    w.multiSet.nzDims = A ++ nzI k t ++ B → w.multiSet.nzOrders = A' ++ nzV t ++ B' →
    A'.length = A.length →
    (∀ d, d < t.length → t.getD d 0 ≠ 0 → ∃ s, Res.idx w.startPos (slot (k + d)) = .ok s ∧
      read cache (s + t.getD d 0) = .ok (F (k + d) (t.getD d 0))) →
    termLoop w cache slot upd acc fl A.length (nnz t)
      = .ok (prodFrom F k t acc, (nzI k t).foldl (fun s d => upd d s) fl) := by
  induction t with
  | nil => intros; simp [termLoop, nnz, nzI, prodFrom]
  | cons x xs ih =>
    intro A B A' B' k acc fl h1 h2 hA hr
    have hr' : ∀ d, d < xs.length → xs.getD d 0 ≠ 0 → ∃ s, Res.idx w.startPos (slot (k + 1 + d)) = .ok s ∧
        read cache (s + xs.getD d 0) = .ok (F (k + 1 + d) (xs.getD d 0)) := by
      intro d hd hne
      have := hr (d + 1) (by simpa using hd) (by simpa using hne)
      simpa [Nat.add_assoc, Nat.add_comm 1 d] using this
    rw [prodFrom]
    by_cases hx : x > 0
    · have hx0 : x ≠ 0 := by omega
      have hn : nnz (x :: xs) = nnz xs + 1 := by rw [nnz_cons, if_neg hx0]
      simp only [nzI, nzV, hx, if_true] at h1 h2
      have g1 : Res.idx w.multiSet.nzDims A.length = .ok k := by
        rw [h1]; simp only [List.append_assoc, List.cons_append]; exact idx_append rfl
      have g2 : Res.idx w.multiSet.nzOrders A.length = .ok x := by
        rw [h2]; simp only [List.append_assoc, List.cons_append]; exact idx_append hA.symm
      obtain ⟨s, g3, g4⟩ := hr 0 (by simp) (by simpa using hx0)
      simp only [Nat.add_zero, List.getD_cons_zero] at g3 g4
      rw [hn, termLoop, g1, Res.bind_ok, g2, Res.bind_ok, g3, Res.bind_ok, g4, Res.bind_ok]
      have := ih (A ++ [k]) B (A' ++ [x]) B' (k + 1) (acc * F k x) (upd k fl) (by simp [h1]) (by simp [h2])
        (by simp [hA]) hr'
      rw [List.length_append, List.length_singleton] at this
      rw [this, if_neg hx0]
      simp only [nzI, hx, if_true, List.foldl_cons]
    · have hx0 : x = 0 := by omega
      subst hx0
      have hn : nnz (0 :: xs) = nnz xs := by simp [nnz_cons]
      simp only [nzI, nzV, hx, if_false] at h1 h2
      have := ih A B A' B' (k + 1) acc fl h1 h2 hA hr'
      rw [hn, this]
      simp [nzI]

section functions
variable (w : Worker) (D : Nat) (ts : List (List Nat)) (hdim : w.dim = D) (hw : w.multiSet = csr D ts)
  (hts : ∀ t ∈ ts, t.length = D) (cache : Cache K) (coeffs : List K) (hc : coeffs.length = ts.length)
include hw hts

theorem termVal_ord {σ : Type} (slot : Nat → Nat) (upd : Nat → σ → σ)
    (F : Nat → Nat → K) (hr : Reads w cache D ts slot F) (fl : σ) {i : Nat} (hi : i < ts.length) :
    termVal w cache slot upd fl i
      = .ok (product F ts[i], (nzI 0 ts[i]).foldl (fun s d => upd d s) fl) := by
  have hget : ts[i]? = some ts[i] := by simp [hi]
  generalize ts[i] = t at hget
  have htm := List.mem_of_getElem? hget
  have hlen := hts t htm
  obtain ⟨a, b, rfl, rfl⟩ := split_at hget
  obtain ⟨h1, h2⟩ := csr_starts D a b t
  rw [← hw] at h1 h2
  rw [termVal, h1, Res.bind_ok, h2, Res.bind_ok, Nat.add_sub_cancel_left]
  have := termLoop_ord w cache slot upd F t (a.flatMap (nzI 0)) (b.flatMap (nzI 0)) (a.flatMap nzV)
    (b.flatMap nzV) 0 1 fl (by simp [hw, csr]) (by simp [hw, csr])
    (by rw [flatMap_nzI_length, flatMap_nzV_length]) (by
      intro d hd hne
      have := hr t htm d (by omega) hne
      simpa using this)
  rw [flatMap_nzI_length] at this
  rw [this, product_eq]

omit hw hts in
theorem drop_zip {i : Nat} (hi : i < ts.length) (hic : i < coeffs.length) :
    (ts.zip coeffs).drop i = (ts[i], coeffs[i]) :: (ts.zip coeffs).drop (i + 1) := by
  rw [List.drop_eq_getElem_cons (by simp; omega)]
  simp

/-- Running sum over a list of terms and coefficients. -/
def sumFrom (F : Nat → Nat → K) (l : List (List Nat × K)) (out : K) : K := l.foldl (fun a p => a + product F p.1 * p.2) out

/-- The terms that depend on the last coordinate. -/
def dep (D : Nat) (l : List (List Nat × K)) : List (List Nat × K) := l.filter fun p => p.1.getD (D - 1) 0 != 0

include hc

theorem evalLoop_ord (F : Nat → Nat → K) (hr : Reads w cache D ts id F)
    (n : Nat) : ∀ (i : Nat) (out : K), i + n = ts.length →
    evalLoop w cache coeffs out i n = .ok (sumFrom F ((ts.zip coeffs).drop i) out) := by
  induction n with
  | zero => intro i out h; rw [List.drop_eq_nil_of_le (by simp; omega)]; rfl
  | succ n ih =>
    intro i out hi
    rw [evalLoop, termVal_ord w D ts hw hts cache id _ F hr () (by omega), Res.bind_ok,
      Res.idx_lt (by omega), Res.bind_ok, ih (i + 1) _ (by omega), drop_zip ts coeffs (i := i) (by omega) (by omega)]
    rfl

theorem evaluate_ord (F : Nat → Nat → K) (hr : Reads w cache D ts id F) :
    evaluate w cache coeffs = .ok (sumFrom F (ts.zip coeffs) 0) := by
  rw [evaluate, size_csr w D ts hw hts, Res.bind_ok,
    evalLoop_ord w D ts hw hts cache coeffs hc F hr ts.length 0 0 (by omega)]
  rfl

theorem coeffLoop_ord (F : Nat → Nat → K) (hr : Reads w cache D ts id F)
    (n : Nat) : ∀ (i : Nat) (out : K) (grad : List K), i + n = ts.length → ts.length ≤ grad.length →
    ∃ g, coeffLoop w cache coeffs grad out i n = .ok (sumFrom F ((ts.zip coeffs).drop i) out, g) ∧ g.length = grad.length := by
  induction n with
  | zero => intro i out grad h _; exact ⟨grad, by rw [List.drop_eq_nil_of_le (by simp; omega)]; rfl, rfl⟩
  | succ n ih =>
    intro i out grad hi hg
    obtain ⟨g, e, l⟩ := ih (i + 1) (out + product F ts[i] * coeffs[i]) (grad.set i (product F ts[i])) (by omega) (by simpa using hg)
    refine ⟨g, ?_, by simpa using l⟩
    rw [coeffLoop, termVal_ord w D ts hw hts cache id _ F hr () (by omega), Res.bind_ok,
        Res.idx_lt (by omega), Res.bind_ok, Res.setIdx_lt (by omega), Res.bind_ok, e,
        drop_zip ts coeffs (i := i) (by omega) (by omega)]
    rfl

theorem coeffDerivative_ord (F : Nat → Nat → K) (hr : Reads w cache D ts id F) (grad : List K) (hg : ts.length ≤ grad.length) :
    ∃ g, coeffDerivative w cache coeffs grad = .ok (sumFrom F (ts.zip coeffs) 0, g) ∧ g.length = grad.length := by
  obtain ⟨g, e, l⟩ := coeffLoop_ord w D ts hw hts cache coeffs hc F hr ts.length 0 0 grad (by omega) hg
  exact ⟨g, by rw [coeffDerivative, size_csr w D ts hw hts, Res.bind_ok, e]; rfl, l⟩

theorem inputTerms_none_ord (F : Nat → Nat → K) (hr : Reads w cache D ts (w.inputSlot none) F) (grad : List K) (n : Nat) :
    ∀ (i : Nat) (f : K), i + n = ts.length →
    inputTerms w cache coeffs none f grad i n = .ok (sumFrom F ((ts.zip coeffs).drop i) f, grad) := by
  induction n with
  | zero => intro i out h; rw [List.drop_eq_nil_of_le (by simp; omega)]; rfl
  | succ n ih =>
    intro i f hi
    rw [inputTerms, termVal_ord w D ts hw hts cache _ _ F hr false (by omega), Res.bind_ok]
    simp only
    rw [Res.idx_lt (by omega), Res.bind_ok, ih (i + 1) _ (by omega), drop_zip ts coeffs (i := i) (by omega) (by omega)]
    rfl

theorem inputTerms_some_ord (e : Nat) (F : Nat → Nat → K) (hr : Reads w cache D ts (w.inputSlot (some e)) F) (f : K) (n : Nat) :
    ∀ (i : Nat) (grad : List K), i + n = ts.length → e < grad.length →
    ∃ g, inputTerms w cache coeffs (some e) f grad i n = .ok (f, g) ∧ g.length = grad.length := by
  induction n with
  | zero => intro i grad _ _; exact ⟨grad, rfl, rfl⟩
  | succ n ih =>
    intro i grad hi hg
    rw [inputTerms, termVal_ord w D ts hw hts cache _ _ F hr false (by omega), Res.bind_ok]
    simp only
    split
    · rw [Res.idx_lt (by omega), Res.bind_ok, Res.idx_lt hg, Res.bind_ok, Res.setIdx_lt hg, Res.bind_ok]
      obtain ⟨g, e1, l⟩ := ih (i + 1) (grad.set e (grad[e] + product F ts[i] * coeffs[i])) (by omega) (by simpa using hg)
      exact ⟨g, e1, by simpa using l⟩
    · exact ih (i + 1) grad (by omega) hg

theorem inputWrt_ord (F : Nat → Nat → Nat → K) (hr : ∀ e, e < D → Reads w cache D ts (w.inputSlot (some e)) (F e)) (f : K) (n : Nat) :
    ∀ (e : Nat) (grad : List K), e + n = D → D ≤ grad.length →
    ∃ g, inputWrt w cache coeffs ts.length f grad e n = .ok (f, g) ∧ g.length = grad.length := by
  induction n with
  | zero => intro e grad _ _; exact ⟨grad, rfl, rfl⟩
  | succ n ih =>
    intro e grad he hg
    obtain ⟨g1, e1, l1⟩ := inputTerms_some_ord w D ts hw hts cache coeffs hc e (F e) (hr e (by omega)) f ts.length 0 (grad.set e 0)
      (by omega) (by simp; omega)
    obtain ⟨g, e2, l⟩ := ih (e + 1) g1 (by omega) (by simpa [l1] using hg)
    exact ⟨g, by rw [inputWrt, Res.setIdx_lt (by omega), Res.bind_ok, e1, Res.bind_ok, e2], by simpa [l1] using l⟩

include hdim in
theorem inputDerivative_ord (G : Nat → Nat → K) (hr0 : Reads w cache D ts (w.inputSlot none) G) (F : Nat → Nat → Nat → K)
    (hr : ∀ e, e < D → Reads w cache D ts (w.inputSlot (some e)) (F e)) (grad : List K) (hg : D ≤ grad.length) :
    ∃ g, inputDerivative w cache coeffs grad = .ok (sumFrom G (ts.zip coeffs) 0, g) ∧ g.length = grad.length := by
  obtain ⟨g, e, l⟩ := inputWrt_ord w D ts hw hts cache coeffs hc F hr (sumFrom G (ts.zip coeffs) 0) D 0 grad (by omega) hg
  refine ⟨g, ?_, l⟩
  rw [inputDerivative, size_csr w D ts hw hts, Res.bind_ok,
    inputTerms_none_ord w D ts hw hts cache coeffs hc G hr0 grad ts.length 0 0 (by omega), Res.bind_ok, List.drop_zero, hdim, e]

include hdim

theorem diagLoop_ord (r : Nat) (F : Nat → Nat → K) (hr : Reads w cache D ts (w.diagSlot r) F) (n : Nat) :
    ∀ (i : Nat) (out : K), i + n = ts.length →
    diagLoop w cache coeffs r out i n = .ok (sumFrom F (dep D ((ts.zip coeffs).drop i)) out) := by
  induction n with
  | zero => intro i out h; rw [List.drop_eq_nil_of_le (by simp; omega)]; rfl
  | succ n ih =>
    intro i out hi
    rw [diagLoop, termVal_ord w D ts hw hts cache _ _ F hr false (by omega), Res.bind_ok,
      diagFold w D hdim, drop_zip ts coeffs (i := i) (by omega) (by omega), dep]
    by_cases h : ts[i].getD (D - 1) 0 ≠ 0
    · rw [if_pos (decide_eq_true h), Res.idx_lt (by omega), Res.bind_ok, ih (i + 1) _ (by omega),
        List.filter_cons_of_pos (by simpa using h)]
      rfl
    · rw [if_neg (by simpa using h), ih (i + 1) _ (by omega), List.filter_cons_of_neg (by simpa using h)]
      rfl

theorem diagonalDerivative_ord (r : Nat) (h0 : r = 1 ∨ r = 2) (F : Nat → Nat → K)
    (hr : Reads w cache D ts (w.diagSlot r) F) :
    diagonalDerivative w cache coeffs r = .ok (sumFrom F (dep D (ts.zip coeffs)) 0) := by
  rw [diagonalDerivative, if_neg (by omega), size_csr w D ts hw hts, Res.bind_ok,
    diagLoop_ord w D ts hdim hw hts cache coeffs hc r F hr ts.length 0 0 (by omega)]
  rfl

theorem mixedCoeffLoop_ord (r : Nat) (F : Nat → Nat → K) (hr : Reads w cache D ts (w.diagSlot r) F) (n : Nat) :
    ∀ (i : Nat) (out : K) (grad : List K), i + n = ts.length → ts.length ≤ grad.length →
    ∃ g, mixedCoeffLoop w cache coeffs r out grad i n = .ok (sumFrom F (dep D ((ts.zip coeffs).drop i)) out, g) ∧
      g.length = grad.length := by
  induction n with
  | zero => intro i out grad h _; exact ⟨grad, by rw [List.drop_eq_nil_of_le (by simp; omega)]; rfl, rfl⟩
  | succ n ih =>
    intro i out grad hi hg
    rw [mixedCoeffLoop, termVal_ord w D ts hw hts cache _ _ F hr false (by omega), Res.bind_ok,
        diagFold w D hdim, drop_zip ts coeffs (i := i) (by omega) (by omega), dep]
    by_cases h : ts[i].getD (D - 1) 0 ≠ 0
    · obtain ⟨g, e, l⟩ := ih (i + 1) (out + product F ts[i] * coeffs[i]) (grad.set i (product F ts[i])) (by omega) (by simpa using hg)
      refine ⟨g, ?_, by simpa using l⟩
      rw [if_pos (decide_eq_true h), Res.idx_lt (by omega), Res.bind_ok, Res.setIdx_lt (by omega), Res.bind_ok, e,
        List.filter_cons_of_pos (by simpa using h)]
      rfl
    · obtain ⟨g, e, l⟩ := ih (i + 1) out (grad.set i 0) (by omega) (by simpa using hg)
      refine ⟨g, ?_, by simpa using l⟩
      rw [if_neg (by simpa using h), Res.setIdx_lt (by omega), Res.bind_ok, e, List.filter_cons_of_neg (by simpa using h)]
      rfl

theorem mixedCoeffDerivative_ord (r : Nat) (h0 : r = 1 ∨ r = 2) (F : Nat → Nat → K)
    (hr : Reads w cache D ts (w.diagSlot r) F) (grad : List K) (hg : ts.length ≤ grad.length) :
    ∃ g, mixedCoeffDerivative w cache coeffs r grad = .ok (sumFrom F (dep D (ts.zip coeffs)) 0, g) ∧ g.length = grad.length := by
  obtain ⟨g, e, l⟩ := mixedCoeffLoop_ord w D ts hdim hw hts cache coeffs hc r F hr ts.length 0 0 grad (by omega) hg
  exact ⟨g, by rw [mixedCoeffDerivative, if_neg (by omega), size_csr w D ts hw hts, Res.bind_ok, e]; rfl, l⟩

theorem mixedTerms_none_ord (F : Nat → Nat → K) (hr : Reads w cache D ts (w.mixedSlot none) F) (grad : List K) (n : Nat) :
    ∀ (i : Nat) (f : K), i + n = ts.length →
    mixedTerms w cache coeffs none f grad i n = .ok (sumFrom F (dep D ((ts.zip coeffs).drop i)) f, grad) := by
  induction n with
  | zero => intro i out h; rw [List.drop_eq_nil_of_le (by simp; omega)]; rfl
  | succ n ih =>
    intro i f hi
    rw [mixedTerms, termVal_ord w D ts hw hts cache _ _ F hr _ (by omega), Res.bind_ok,
      mixedFold_none w D hdim, drop_zip ts coeffs (i := i) (by omega) (by omega), dep]
    simp only
    by_cases h : ts[i].getD (D - 1) 0 ≠ 0
    · rw [if_pos (decide_eq_true h), Res.idx_lt (by omega), Res.bind_ok, ih (i + 1) _ (by omega),
        List.filter_cons_of_pos (by simpa using h)]
      rfl
    · rw [if_neg (by simpa using h), ih (i + 1) _ (by omega), List.filter_cons_of_neg (by simpa using h)]
      rfl

omit hdim in
theorem mixedTerms_some_ord (e : Nat) (F : Nat → Nat → K) (hr : Reads w cache D ts (w.mixedSlot (some e)) F) (f : K) (n : Nat) :
    ∀ (i : Nat) (grad : List K), i + n = ts.length → e < grad.length →
    ∃ g, mixedTerms w cache coeffs (some e) f grad i n = .ok (f, g) ∧ g.length = grad.length := by
  induction n with
  | zero => intro i grad _ _; exact ⟨grad, rfl, rfl⟩
  | succ n ih =>
    intro i grad hi hg
    rw [mixedTerms, termVal_ord w D ts hw hts cache _ _ F hr _ (by omega), Res.bind_ok]
    simp only
    split
    · rw [Res.idx_lt (by omega), Res.bind_ok, Res.idx_lt hg, Res.bind_ok, Res.setIdx_lt hg, Res.bind_ok]
      obtain ⟨g, e1, l⟩ := ih (i + 1) (grad.set e (grad[e] + product F ts[i] * coeffs[i])) (by omega) (by simpa using hg)
      exact ⟨g, e1, by simpa using l⟩
    · exact ih (i + 1) grad (by omega) hg

omit hdim in
theorem mixedWrt_ord (F : Nat → Nat → Nat → K) (hr : ∀ e, e < D → Reads w cache D ts (w.mixedSlot (some e)) (F e)) (f : K) (n : Nat) :
    ∀ (e : Nat) (grad : List K), e + n = D → D ≤ grad.length →
    ∃ g, mixedWrt w cache coeffs ts.length f grad e n = .ok (f, g) ∧ g.length = grad.length := by
  induction n with
  | zero => intro e grad _ _; exact ⟨grad, rfl, rfl⟩
  | succ n ih =>
    intro e grad he hg
    obtain ⟨g1, e1, l1⟩ := mixedTerms_some_ord w D ts hw hts cache coeffs hc e (F e) (hr e (by omega)) f ts.length 0 (grad.set e 0)
      (by omega) (by simp; omega)
    obtain ⟨g, e2, l⟩ := ih (e + 1) g1 (by omega) (by simpa [l1] using hg)
    exact ⟨g, by rw [mixedWrt, Res.setIdx_lt (by omega), Res.bind_ok, e1, Res.bind_ok, e2], by simpa [l1] using l⟩

theorem mixedInputDerivative_ord (G : Nat → Nat → K) (hr0 : Reads w cache D ts (w.mixedSlot none) G) (F : Nat → Nat → Nat → K)
    (hr : ∀ e, e < D → Reads w cache D ts (w.mixedSlot (some e)) (F e)) (grad : List K) (hg : D ≤ grad.length) :
    ∃ g, mixedInputDerivative w cache coeffs grad = .ok (sumFrom G (dep D (ts.zip coeffs)) 0, g) ∧ g.length = grad.length := by
  obtain ⟨g, e, l⟩ := mixedWrt_ord w D ts hw hts cache coeffs hc F hr (sumFrom G (dep D (ts.zip coeffs)) 0) D 0 grad (by omega) hg
  refine ⟨g, ?_, l⟩
  rw [mixedInputDerivative, size_csr w D ts hw hts, Res.bind_ok,
    mixedTerms_none_ord w D ts hdim hw hts cache coeffs hc G hr0 grad ts.length 0 0 (by omega), Res.bind_ok, List.drop_zero, hdim, e]

end functions
end Worker
end MParT
