import Verif.Lemmas.Rounding
/-! Helper lemmas for rounding errors in expansions: the program is run with rounded numbers, with real numbers, and with the absolute values. -/
namespace MParT.Worker
open Spec FixedSet Finset

/-- A cache as rounded numbers. -/
def flC (fl : ℝ → ℝ) (c : Cache ℝ) : Cache (Fl fl) := c

/-- A list as rounded numbers. -/
def flL (fl : ℝ → ℝ) (l : List ℝ) : List (Fl fl) := l

/-- The absolute values of a cache. -/
def absC (c : Cache ℝ) : Cache ℝ := c.map (Option.map fun v => |v|)

/-- The absolute values of a list. -/
def absL (l : List ℝ) : List ℝ := l.map fun v => |v|

variable {u : ℝ} {fl : ℝ → ℝ}

theorem read_abs {c : Cache ℝ} {i : Nat} {v : ℝ} (h : read c i = .ok v) : read (absC c) i = .ok |v| := by
  unfold read at h ⊢
  unfold absC
  rw [List.getElem?_map]
  rcases hc : c[i]? with _ | (_ | x) <;> rw [hc] at h <;> simp_all

theorem idx_abs {l : List ℝ} {i : Nat} {v : ℝ} (h : Res.idx l i = .ok v) : Res.idx (absL l) i = .ok |v| := by
  unfold Res.idx at h ⊢
  unfold absL
  rw [List.getElem?_map]
  rcases hc : l[i]? with _ | x <;> rw [hc] at h <;> simp_all

theorem read_fl {c : Cache ℝ} {i : Nat} {v : ℝ} (h : read c i = .ok v) : read (flC fl c) i = .ok (Fl.of v) := h

theorem idx_fl {l : List ℝ} {i : Nat} {v : ℝ} (h : Res.idx l i = .ok v) : Res.idx (flL fl l) i = .ok (Fl.of v) := h

theorem termLoop_close (hfl : RelError u fl) {σ : Type} (w : Worker) (c : Cache ℝ) (slot : Nat → Nat) (upd : Nat → σ → σ) (n : Nat) :
    ∀ (i k : Nat) (acc : Fl fl) (a A : ℝ) (s : σ) (r : ℝ × σ), Close u k acc.val a A → termLoop w c slot upd a s i n = .ok r →
      ∃ (x : Fl fl) (X : ℝ), termLoop w (flC fl c) slot upd acc s i n = .ok (x, r.2) ∧
        termLoop w (absC c) slot upd A s i n = .ok (X, r.2) ∧ Close u (k + n) x.val r.1 X := by
  induction n with
  | zero =>
    intro i k acc a A s r h e
    cases e
    exact ⟨acc, A, rfl, rfl, h⟩
  | succ n ih =>
    intro i k acc a A s r h e
    obtain ⟨d, e1, e⟩ := Res.bind_eq_ok.1 e
    obtain ⟨o, e2, e⟩ := Res.bind_eq_ok.1 e
    obtain ⟨p, e3, e⟩ := Res.bind_eq_ok.1 e
    obtain ⟨v, e4, e⟩ := Res.bind_eq_ok.1 e
    have hm := h.mul hfl (Close.exact hfl.nonneg 0 (Fl.of (fl := fl) v).val)
    obtain ⟨x, X, f1, f2, f3⟩ := ih (i + 1) (k + 1) (acc * Fl.of v) (a * v) (A * |v|) (upd d s) r hm e
    refine ⟨x, X, ?_, ?_, f3.mono hfl.nonneg (by omega)⟩
    · rw [termLoop, e1, Res.bind_ok, e2, Res.bind_ok, e3, Res.bind_ok, read_fl e4, Res.bind_ok, f1]
    · rw [termLoop, e1, Res.bind_ok, e2, Res.bind_ok, e3, Res.bind_ok, read_abs e4, Res.bind_ok, f2]

theorem nnz_le (t : List Nat) : nnz t ≤ t.length := by
  induction t with
  | nil => simp [nnz]
  | cons x xs ih =>
    rw [nnz_cons, List.length_cons]
    split <;> omega

section
variable (hfl : RelError u fl) (w : Worker) (D : Nat) (ts : List (List Nat)) (hw : w.multiSet = csr D ts)
  (hts : ∀ t ∈ ts, t.length = D) (c : Cache ℝ) (coeffs : List ℝ)
include hfl hw hts

theorem termVal_close {σ : Type} (slot : Nat → Nat) (upd : Nat → σ → σ) (s : σ) {i : Nat} (hi : i < ts.length) {r : ℝ × σ}
    (e : termVal w c slot upd s i = .ok r) :
    ∃ (x : Fl fl) (X : ℝ), termVal w (flC fl c) slot upd s i = .ok (x, r.2) ∧ termVal w (absC c) slot upd s i = .ok (X, r.2) ∧
      Close u D x.val r.1 X := by
  have hget : ts[i]? = some (ts.getD i []) := by simp [hi]
  generalize ts.getD i [] = t at hget
  have hlen := hts t (List.mem_of_getElem? hget)
  obtain ⟨a, b, rfl, rfl⟩ := split_at hget
  obtain ⟨h1, h2⟩ := csr_starts D a b t
  rw [← hw] at h1 h2
  rw [termVal, h1, Res.bind_ok, h2, Res.bind_ok, Nat.add_sub_cancel_left] at e
  obtain ⟨x, X, f1, f2, f3⟩ := termLoop_close hfl w c slot upd (nnz t) (totNz a) 0 1 1 1 s r (Close.one hfl.nonneg 0) e
  refine ⟨x, X, ?_, ?_, f3.mono hfl.nonneg (by have := nnz_le t; omega)⟩
  · rw [termVal, h1, Res.bind_ok, h2, Res.bind_ok, Nat.add_sub_cancel_left, f1]
  · rw [termVal, h1, Res.bind_ok, h2, Res.bind_ok, Nat.add_sub_cancel_left, f2]

/-- A term times its coefficient is added. -/
theorem add_term {x y : Fl fl} {a b A B v : ℝ} {k : Nat} (hx : Close u (D + 1 + k) x.val a A) (hy : Close u D y.val b B) :
    Close u (D + 1 + (k + 1)) (x + y * Fl.of v).val (a + b * v) (A + B * |v|) :=
  have h : Close u (D + 1) (y * Fl.of v).val (b * v) (B * |v|) := hy.mul hfl (Close.exact hfl.nonneg 0 (Fl.of (fl := fl) v).val)
  hx.add hfl (h.mono hfl.nonneg (Nat.le_add_right _ _))

theorem evalLoop_close (n : Nat) : ∀ (i k : Nat) (out : Fl fl) (a A r : ℝ), i + n ≤ ts.length → Close u (D + 1 + k) out.val a A →
    evalLoop w c coeffs a i n = .ok r →
    ∃ (x : Fl fl) (X : ℝ), evalLoop w (flC fl c) (flL fl coeffs) out i n = .ok x ∧ evalLoop w (absC c) (absL coeffs) A i n = .ok X ∧
      Close u (D + 1 + (k + n)) x.val r X := by
  induction n with
  | zero =>
    intro i k out a A r _ h e
    cases e
    exact ⟨out, A, rfl, rfl, h⟩
  | succ n ih =>
    intro i k out a A r hi h e
    obtain ⟨tv, e1, e⟩ := Res.bind_eq_ok.1 e
    obtain ⟨v, e2, e⟩ := Res.bind_eq_ok.1 e
    obtain ⟨y, Y, g1, g2, g3⟩ := termVal_close hfl w D ts hw hts c id _ () (by omega) e1
    obtain ⟨x, X, f1, f2, f3⟩ := ih (i + 1) (k + 1) _ _ _ r (by omega) (add_term hfl w D ts hw hts (v := v) h g3) e
    refine ⟨x, X, ?_, ?_, f3.mono hfl.nonneg (by omega)⟩
    · rw [evalLoop, g1, Res.bind_ok, idx_fl e2, Res.bind_ok, f1]
    · rw [evalLoop, g2, Res.bind_ok, idx_abs e2, Res.bind_ok, f2]

theorem diagLoop_close (o n : Nat) : ∀ (i k : Nat) (out : Fl fl) (a A r : ℝ), i + n ≤ ts.length → Close u (D + 1 + k) out.val a A →
    diagLoop w c coeffs o a i n = .ok r →
    ∃ (x : Fl fl) (X : ℝ), diagLoop w (flC fl c) (flL fl coeffs) o out i n = .ok x ∧ diagLoop w (absC c) (absL coeffs) o A i n = .ok X ∧
      Close u (D + 1 + (k + n)) x.val r X := by
  induction n with
  | zero =>
    intro i k out a A r _ h e
    cases e
    exact ⟨out, A, rfl, rfl, h⟩
  | succ n ih =>
    intro i k out a A r hi h e
    obtain ⟨tv, e1, e⟩ := Res.bind_eq_ok.1 e
    obtain ⟨y, Y, g1, g2, g3⟩ := termVal_close hfl w D ts hw hts c _ _ _ (by omega) e1
    by_cases hd : tv.2 = true
    · rw [if_pos hd] at e
      obtain ⟨v, e2, e⟩ := Res.bind_eq_ok.1 e
      obtain ⟨x, X, f1, f2, f3⟩ := ih (i + 1) (k + 1) _ _ _ r (by omega) (add_term hfl w D ts hw hts (v := v) h g3) e
      refine ⟨x, X, ?_, ?_, f3.mono hfl.nonneg (by omega)⟩
      · rw [diagLoop, g1, Res.bind_ok, if_pos hd, idx_fl e2, Res.bind_ok, f1]
      · rw [diagLoop, g2, Res.bind_ok, if_pos hd, idx_abs e2, Res.bind_ok, f2]
    · rw [if_neg hd] at e
      obtain ⟨x, X, f1, f2, f3⟩ := ih (i + 1) (k + 1) _ _ _ r (by omega) (h.mono hfl.nonneg (by omega)) e
      refine ⟨x, X, ?_, ?_, f3.mono hfl.nonneg (by omega)⟩
      · rw [diagLoop, g1, Res.bind_ok, if_neg hd, f1]
      · rw [diagLoop, g2, Res.bind_ok, if_neg hd, f2]

theorem evaluate_close {r : ℝ} (e : evaluate w c coeffs = .ok r) :
    ∃ (x : Fl fl) (X : ℝ), evaluate w (flC fl c) (flL fl coeffs) = .ok x ∧ evaluate w (absC c) (absL coeffs) = .ok X ∧
      Close u (D + 1 + ts.length) x.val r X := by
  have hs := size_csr w D ts hw hts
  rw [evaluate, hs, Res.bind_ok] at e
  obtain ⟨x, X, f1, f2, f3⟩ := evalLoop_close hfl w D ts hw hts c coeffs ts.length 0 0 0 0 0 r (by omega) (Close.zero hfl.nonneg _) e
  refine ⟨x, X, ?_, ?_, f3.mono hfl.nonneg (by omega)⟩
  · rw [evaluate, hs, Res.bind_ok, f1]
  · rw [evaluate, hs, Res.bind_ok, f2]

theorem diagonal_close {o : Nat} {r : ℝ} (e : diagonalDerivative w c coeffs o = .ok r) :
    ∃ (x : Fl fl) (X : ℝ), diagonalDerivative w (flC fl c) (flL fl coeffs) o = .ok x ∧
      diagonalDerivative w (absC c) (absL coeffs) o = .ok X ∧ Close u (D + 1 + ts.length) x.val r X := by
  have hs := size_csr w D ts hw hts
  unfold diagonalDerivative at e ⊢
  by_cases ho : o = 0 ∨ o > 2
  · rw [if_pos ho] at e; cases e
  rw [if_neg ho, hs, Res.bind_ok] at e
  obtain ⟨x, X, f1, f2, f3⟩ := diagLoop_close hfl w D ts hw hts c coeffs o ts.length 0 0 0 0 0 r (by omega) (Close.zero hfl.nonneg _) e
  refine ⟨x, X, ?_, ?_, f3.mono hfl.nonneg (by omega)⟩
  · rw [if_neg ho, hs, Res.bind_ok, f1]
  · rw [if_neg ho, hs, Res.bind_ok, f2]

/-! ### Gradients -/

end

/-- The entries of a list are those of `g'` after roundings, as many as `k` says. -/
structure GClose (u : ℝ) {fl : ℝ → ℝ} (k : Nat → Nat) (g : List (Fl fl)) (g' G : List ℝ) : Prop where
  len : g.length = g'.length
  len' : G.length = g'.length
  entry : ∀ e, Close u (k e) (g.getD e 0).val (g'.getD e 0) (G.getD e 0)

theorem GClose.exact (hu : 0 ≤ u) (k : Nat → Nat) (l : List ℝ) : GClose u k (flL fl l) l (absL l) := by
  refine ⟨rfl, by simp [absL], fun e => ?_⟩
  have h1 : ((flL fl l).getD e 0).val = l.getD e 0 := rfl
  have h2 : (absL l).getD e 0 = |l.getD e 0| := by
    simp only [absL, List.getD_eq_getElem?_getD, List.getElem?_map]
    rcases l[e]? with _ | x <;> simp
  rw [h1, h2]
  exact Close.exact hu _ _

theorem GClose.mono (hu : 0 ≤ u) {k k' : Nat → Nat} {g : List (Fl fl)} {g' G : List ℝ} (h : GClose u k g g' G) (hk : ∀ e, k e ≤ k' e) :
    GClose u k' g g' G := ⟨h.len, h.len', fun e => (h.entry e).mono hu (hk e)⟩

theorem GClose.get {k : Nat → Nat} {g : List (Fl fl)} {g' G : List ℝ} (h : GClose u k g g' G) {e : Nat} {a : ℝ} (ha : Res.idx g' e = .ok a) :
    ∃ (x : Fl fl) (A : ℝ), Res.idx g e = .ok x ∧ Res.idx G e = .ok A ∧ Close u (k e) x.val a A := by
  have he : e < g'.length := by
    by_contra hn
    rw [Res.idx, List.getElem?_eq_none (by omega)] at ha
    cases ha
  have h1 := h.len
  have h2 := h.len'
  rw [Res.idx_lt he] at ha
  cases ha
  refine ⟨g[e], G[e], Res.idx_lt _, Res.idx_lt _, ?_⟩
  have := h.entry e
  rwa [List.getD_eq_getElem?_getD, List.getD_eq_getElem?_getD, List.getD_eq_getElem?_getD, List.getElem?_eq_getElem he,
    List.getElem?_eq_getElem (by omega), List.getElem?_eq_getElem (by omega)] at this

theorem getD_set' {K : Type} (l : List K) (e i : Nat) (a d : K) (he : e < l.length) :
    (l.set e a).getD i d = if i = e then a else l.getD i d := by
  rw [List.getD_eq_getElem?_getD, List.getElem?_set, List.getD_eq_getElem?_getD]
  by_cases h : i = e
  · subst h; rw [if_pos rfl, if_pos he, if_pos rfl]; rfl
  · rw [if_neg (fun h' => h h'.symm), if_neg h]

theorem GClose.set {k : Nat → Nat} {g : List (Fl fl)} {g' G h' : List ℝ} (h : GClose u k g g' G) {e j : Nat} {x : Fl fl} {a A : ℝ}
    (hc : Close u j x.val a A) (ha : Res.setIdx g' e a = .ok h') :
    ∃ (y : List (Fl fl)) (Y : List ℝ), Res.setIdx g e x = .ok y ∧ Res.setIdx G e A = .ok Y ∧
      GClose u (fun i => if i = e then j else k i) y h' Y := by
  have he : e < g'.length := by
    by_contra hn
    rw [Res.setIdx, if_neg hn] at ha
    cases ha
  have h1 := h.len
  have h2 := h.len'
  rw [Res.setIdx_lt he] at ha
  cases ha
  refine ⟨g.set e x, G.set e A, Res.setIdx_lt (by omega), Res.setIdx_lt (by omega), by simpa using h1, by simpa using h2, fun i => ?_⟩
  rw [getD_set' _ _ _ _ _ (by omega), getD_set' _ _ _ _ _ he, getD_set' _ _ _ _ _ (by omega)]
  by_cases hi : i = e
  · simp only [hi, if_true]; exact hc
  · simp only [hi, if_false]; exact h.entry i

section
variable (hfl : RelError u fl) (w : Worker) (D : Nat) (ts : List (List Nat)) (hw : w.multiSet = csr D ts)
  (hts : ∀ t ∈ ts, t.length = D) (c : Cache ℝ) (coeffs : List ℝ)
include hfl hw hts

theorem coeffLoop_close (n : Nat) : ∀ (i k : Nat) (out : Fl fl) (a A : ℝ) (g : List (Fl fl)) (g' G : List ℝ) (r : ℝ × List ℝ), i + n ≤ ts.length →
    Close u (D + 1 + k) out.val a A → GClose u (fun _ => D) g g' G → coeffLoop w c coeffs g' a i n = .ok r →
    ∃ (x : Fl fl) (X : ℝ) (h : List (Fl fl)) (H : List ℝ), coeffLoop w (flC fl c) (flL fl coeffs) g out i n = .ok (x, h) ∧
      coeffLoop w (absC c) (absL coeffs) G A i n = .ok (X, H) ∧ Close u (D + 1 + (k + n)) x.val r.1 X ∧ GClose u (fun _ => D) h r.2 H := by
  induction n with
  | zero =>
    intro i k out a A g g' G r _ h hg e
    cases e
    exact ⟨out, A, g, G, rfl, rfl, h, hg⟩
  | succ n ih =>
    intro i k out a A g g' G r hi h hg e
    obtain ⟨tv, e1, e⟩ := Res.bind_eq_ok.1 e
    obtain ⟨v, e2, e⟩ := Res.bind_eq_ok.1 e
    obtain ⟨q, e3, e⟩ := Res.bind_eq_ok.1 e
    obtain ⟨y, Y, g1, g2, g3⟩ := termVal_close hfl w D ts hw hts c id _ () (by omega) e1
    obtain ⟨z, Z, k1, k2, k3⟩ := hg.set g3 e3
    obtain ⟨x, X, p, P, f1, f2, f3, f4⟩ := ih (i + 1) (k + 1) _ _ _ z q Z r (by omega) (add_term hfl w D ts hw hts (v := v) h g3)
      (k3.mono hfl.nonneg (fun e => by split <;> rfl)) e
    refine ⟨x, X, p, P, ?_, ?_, f3.mono hfl.nonneg (by omega), f4⟩
    · rw [coeffLoop, g1, Res.bind_ok, idx_fl e2, Res.bind_ok, k1, Res.bind_ok, f1]
    · rw [coeffLoop, g2, Res.bind_ok, idx_abs e2, Res.bind_ok, k2, Res.bind_ok, f2]

theorem mixedCoeffLoop_close (o n : Nat) : ∀ (i k : Nat) (out : Fl fl) (a A : ℝ) (g : List (Fl fl)) (g' G : List ℝ) (r : ℝ × List ℝ),
    i + n ≤ ts.length → Close u (D + 1 + k) out.val a A → GClose u (fun _ => D) g g' G → mixedCoeffLoop w c coeffs o a g' i n = .ok r →
    ∃ (x : Fl fl) (X : ℝ) (h : List (Fl fl)) (H : List ℝ), mixedCoeffLoop w (flC fl c) (flL fl coeffs) o out g i n = .ok (x, h) ∧
      mixedCoeffLoop w (absC c) (absL coeffs) o A G i n = .ok (X, H) ∧ Close u (D + 1 + (k + n)) x.val r.1 X ∧ GClose u (fun _ => D) h r.2 H := by
  induction n with
  | zero =>
    intro i k out a A g g' G r _ h hg e
    cases e
    exact ⟨out, A, g, G, rfl, rfl, h, hg⟩
  | succ n ih =>
    intro i k out a A g g' G r hi h hg e
    obtain ⟨tv, e1, e⟩ := Res.bind_eq_ok.1 e
    obtain ⟨y, Y, g1, g2, g3⟩ := termVal_close hfl w D ts hw hts c _ _ _ (by omega) e1
    by_cases hd : tv.2 = true
    · rw [if_pos hd] at e
      obtain ⟨v, e2, e⟩ := Res.bind_eq_ok.1 e
      obtain ⟨q, e3, e⟩ := Res.bind_eq_ok.1 e
      obtain ⟨z, Z, k1, k2, k3⟩ := hg.set g3 e3
      obtain ⟨x, X, p, P, f1, f2, f3, f4⟩ := ih (i + 1) (k + 1) _ _ _ z q Z r (by omega) (add_term hfl w D ts hw hts (v := v) h g3)
        (k3.mono hfl.nonneg (fun e => by split <;> rfl)) e
      refine ⟨x, X, p, P, ?_, ?_, f3.mono hfl.nonneg (by omega), f4⟩
      · rw [mixedCoeffLoop, g1, Res.bind_ok, if_pos hd, idx_fl e2, Res.bind_ok, k1, Res.bind_ok, f1]
      · rw [mixedCoeffLoop, g2, Res.bind_ok, if_pos hd, idx_abs e2, Res.bind_ok, k2, Res.bind_ok, f2]
    · rw [if_neg hd] at e
      obtain ⟨q, e3, e⟩ := Res.bind_eq_ok.1 e
      obtain ⟨z, Z, k1, k2, k3⟩ := hg.set (Close.zero (fl := fl) hfl.nonneg D) e3
      obtain ⟨x, X, p, P, f1, f2, f3, f4⟩ := ih (i + 1) (k + 1) _ _ _ z q Z r (by omega) (h.mono hfl.nonneg (by omega))
        (k3.mono hfl.nonneg (fun e => by split <;> rfl)) e
      refine ⟨x, X, p, P, ?_, ?_, f3.mono hfl.nonneg (by omega), f4⟩
      · rw [mixedCoeffLoop, g1, Res.bind_ok, if_neg hd, k1, Res.bind_ok, f1]
      · rw [mixedCoeffLoop, g2, Res.bind_ok, if_neg hd, k2, Res.bind_ok, f2]

/-- The number of roundings of the gradient's entries after the loop over the terms. -/
def gradK (D : Nat) (wrt : Option Nat) (k : Nat → Nat) (q : Nat) : Nat → Nat := fun i => if wrt = some i then D + 1 + q else k i

theorem inputTerms_close (wrt : Option Nat) (n : Nat) : ∀ (i kf q : Nat) (k : Nat → Nat) (f : Fl fl) (a A : ℝ) (g : List (Fl fl)) (g' G : List ℝ)
    (r : ℝ × List ℝ), i + n ≤ ts.length → Close u (D + 1 + kf) f.val a A → GClose u (gradK D wrt k q) g g' G →
    inputTerms w c coeffs wrt a g' i n = .ok r →
    ∃ (x : Fl fl) (X : ℝ) (h : List (Fl fl)) (H : List ℝ), inputTerms w (flC fl c) (flL fl coeffs) wrt f g i n = .ok (x, h) ∧
      inputTerms w (absC c) (absL coeffs) wrt A G i n = .ok (X, H) ∧
      Close u (D + 1 + (if wrt = none then kf + n else kf)) x.val r.1 X ∧ GClose u (gradK D wrt k (q + n)) h r.2 H := by
  induction n with
  | zero =>
    intro i kf q k f a A g g' G r _ h hg e
    cases e
    exact ⟨f, A, g, G, rfl, rfl, by simpa using h, hg⟩
  | succ n ih =>
    intro i kf q k f a A g g' G r hi h hg e
    obtain ⟨tv, e1, e⟩ := Res.bind_eq_ok.1 e
    obtain ⟨y, Y, g1, g2, g3⟩ := termVal_close hfl w D ts hw hts c _ _ _ (by omega) e1
    rcases wrt with _ | m
    · obtain ⟨v, e2, e⟩ := Res.bind_eq_ok.1 e
      obtain ⟨x, X, p, P, f1, f2, f3, f4⟩ := ih (i + 1) (kf + 1) q k _ _ _ g g' G r (by omega) (add_term hfl w D ts hw hts (v := v) h g3) hg e
      refine ⟨x, X, p, P, ?_, ?_, f3.mono hfl.nonneg (by simp; omega), f4⟩
      · rw [inputTerms, g1, Res.bind_ok]
        show (Res.idx (flL fl coeffs) i >>= _) = _
        rw [idx_fl e2, Res.bind_ok, f1]
      · rw [inputTerms, g2, Res.bind_ok]
        show (Res.idx (absL coeffs) i >>= _) = _
        rw [idx_abs e2, Res.bind_ok, f2]
    · by_cases hd : tv.2 = true
      · dsimp only at e
        rw [if_pos hd] at e
        obtain ⟨v, e2, e⟩ := Res.bind_eq_ok.1 e
        obtain ⟨b, e3, e⟩ := Res.bind_eq_ok.1 e
        obtain ⟨l, e4, e⟩ := Res.bind_eq_ok.1 e
        obtain ⟨z, Z, k1, k2, k3⟩ := hg.get e3
        have hk : gradK D (some m) k q m = D + 1 + q := by simp [gradK]
        rw [hk] at k3
        obtain ⟨z', Z', j1, j2, j3⟩ := hg.set (add_term hfl w D ts hw hts (v := v) k3 g3) e4
        obtain ⟨x, X, p, P, f1, f2, f3, f4⟩ := ih (i + 1) kf (q + 1) k _ _ _ z' l Z' r (by omega) h
          (j3.mono hfl.nonneg (fun e => by
            unfold gradK
            by_cases he : e = m
            · subst he; simp
            · have : m ≠ e := fun h => he h.symm
              simp [he, this])) e
        refine ⟨x, X, p, P, ?_, ?_, f3, f4.mono hfl.nonneg (fun e => by unfold gradK; split <;> omega)⟩
        · rw [inputTerms, g1, Res.bind_ok]
          dsimp only
          rw [if_pos hd, idx_fl e2, Res.bind_ok, k1, Res.bind_ok, j1, Res.bind_ok, f1]
        · rw [inputTerms, g2, Res.bind_ok]
          dsimp only
          rw [if_pos hd, idx_abs e2, Res.bind_ok, k2, Res.bind_ok, j2, Res.bind_ok, f2]
      · dsimp only at e
        rw [if_neg hd] at e
        obtain ⟨x, X, p, P, f1, f2, f3, f4⟩ := ih (i + 1) kf (q + 1) k _ _ _ g g' G r (by omega) h
          (hg.mono hfl.nonneg (fun e => by unfold gradK; split <;> omega)) e
        refine ⟨x, X, p, P, ?_, ?_, f3, f4.mono hfl.nonneg (fun e => by unfold gradK; split <;> omega)⟩
        · rw [inputTerms, g1, Res.bind_ok]
          dsimp only
          rw [if_neg hd, f1]
        · rw [inputTerms, g2, Res.bind_ok]
          dsimp only
          rw [if_neg hd, f2]

theorem inputWrt_close (n : Nat) : ∀ (e0 kf : Nat) (f : Fl fl) (a A : ℝ) (g : List (Fl fl)) (g' G : List ℝ) (r : ℝ × List ℝ),
    Close u (D + 1 + kf) f.val a A → GClose u (fun _ => D + 1 + ts.length) g g' G → inputWrt w c coeffs ts.length a g' e0 n = .ok r →
    ∃ (x : Fl fl) (X : ℝ) (h : List (Fl fl)) (H : List ℝ), inputWrt w (flC fl c) (flL fl coeffs) ts.length f g e0 n = .ok (x, h) ∧
      inputWrt w (absC c) (absL coeffs) ts.length A G e0 n = .ok (X, H) ∧ Close u (D + 1 + kf) x.val r.1 X ∧
      GClose u (fun _ => D + 1 + ts.length) h r.2 H := by
  induction n with
  | zero =>
    intro e0 kf f a A g g' G r h hg e
    cases e
    exact ⟨f, A, g, G, rfl, rfl, h, hg⟩
  | succ n ih =>
    intro e0 kf f a A g g' G r h hg e
    obtain ⟨g0, e1, e⟩ := Res.bind_eq_ok.1 e
    obtain ⟨p, e2, e⟩ := Res.bind_eq_ok.1 e
    obtain ⟨z, Z, k1, k2, k3⟩ := hg.set (Close.zero (fl := fl) hfl.nonneg (D + 1 + 0)) e1
    obtain ⟨y, Y, l, L, j1, j2, j3, j4⟩ := inputTerms_close hfl w D ts hw hts c coeffs (some e0) ts.length 0 kf 0 (fun _ => D + 1 + ts.length)
      f a A z g0 Z p (by omega) h (k3.mono hfl.nonneg (fun e => by
        unfold gradK
        by_cases he : e = e0
        · subst he; simp
        · have : e0 ≠ e := fun h => he h.symm
          simp [he, this])) e2
    obtain ⟨x, X, m, M, f1, f2, f3, f4⟩ := ih (e0 + 1) kf y p.1 Y l p.2 L r (by simpa using j3)
      (j4.mono hfl.nonneg (fun e => by unfold gradK; split <;> simp)) e
    refine ⟨x, X, m, M, ?_, ?_, f3, f4⟩
    · rw [inputWrt, k1, Res.bind_ok, j1, Res.bind_ok, f1]
    · rw [inputWrt, k2, Res.bind_ok, j2, Res.bind_ok, f2]

theorem input_close {g' : List ℝ} {r : ℝ × List ℝ} (e : inputDerivative w c coeffs g' = .ok r) :
    ∃ (x : Fl fl) (X : ℝ) (h : List (Fl fl)) (H : List ℝ), inputDerivative w (flC fl c) (flL fl coeffs) (flL fl g') = .ok (x, h) ∧
      inputDerivative w (absC c) (absL coeffs) (absL g') = .ok (X, H) ∧ Close u (D + 1 + ts.length) x.val r.1 X ∧
      GClose u (fun _ => D + 1 + ts.length) h r.2 H := by
  have hs := size_csr w D ts hw hts
  rw [inputDerivative, hs, Res.bind_ok] at e
  obtain ⟨p, e1, e⟩ := Res.bind_eq_ok.1 e
  obtain ⟨y, Y, l, L, j1, j2, j3, j4⟩ := inputTerms_close hfl w D ts hw hts c coeffs none ts.length 0 0 0 (fun _ => D + 1 + ts.length) 0 0 0 _ g' _ p
    (by omega) (Close.zero hfl.nonneg _) (GClose.exact hfl.nonneg _ g') e1
  obtain ⟨x, X, m, M, f1, f2, f3, f4⟩ := inputWrt_close hfl w D ts hw hts c coeffs w.dim 0 ts.length y p.1 Y l p.2 L r (by simpa using j3)
    (j4.mono hfl.nonneg (fun e => by simp [gradK])) e
  refine ⟨x, X, m, M, ?_, ?_, f3, f4⟩
  · rw [inputDerivative, hs, Res.bind_ok, j1, Res.bind_ok, f1]
  · rw [inputDerivative, hs, Res.bind_ok, j2, Res.bind_ok, f2]

theorem coeff_close {g' : List ℝ} {r : ℝ × List ℝ} (e : coeffDerivative w c coeffs g' = .ok r) :
    ∃ (x : Fl fl) (X : ℝ) (h : List (Fl fl)) (H : List ℝ), coeffDerivative w (flC fl c) (flL fl coeffs) (flL fl g') = .ok (x, h) ∧
      coeffDerivative w (absC c) (absL coeffs) (absL g') = .ok (X, H) ∧ Close u (D + 1 + ts.length) x.val r.1 X ∧ GClose u (fun _ => D) h r.2 H := by
  have hs := size_csr w D ts hw hts
  rw [coeffDerivative, hs, Res.bind_ok] at e
  obtain ⟨x, X, m, M, f1, f2, f3, f4⟩ := coeffLoop_close hfl w D ts hw hts c coeffs ts.length 0 0 0 0 0 _ g' _ r (by omega)
    (Close.zero hfl.nonneg _) (GClose.exact hfl.nonneg _ g') e
  refine ⟨x, X, m, M, ?_, ?_, f3.mono hfl.nonneg (by omega), f4⟩
  · rw [coeffDerivative, hs, Res.bind_ok, f1]
  · rw [coeffDerivative, hs, Res.bind_ok, f2]

theorem mixedCoeff_close {o : Nat} {g' : List ℝ} {r : ℝ × List ℝ} (e : mixedCoeffDerivative w c coeffs o g' = .ok r) :
    ∃ (x : Fl fl) (X : ℝ) (h : List (Fl fl)) (H : List ℝ), mixedCoeffDerivative w (flC fl c) (flL fl coeffs) o (flL fl g') = .ok (x, h) ∧
      mixedCoeffDerivative w (absC c) (absL coeffs) o (absL g') = .ok (X, H) ∧ Close u (D + 1 + ts.length) x.val r.1 X ∧
      GClose u (fun _ => D) h r.2 H := by
  have hs := size_csr w D ts hw hts
  unfold mixedCoeffDerivative at e ⊢
  by_cases ho : o = 0 ∨ o > 2
  · rw [if_pos ho] at e; cases e
  rw [if_neg ho, hs, Res.bind_ok] at e
  obtain ⟨x, X, m, M, f1, f2, f3, f4⟩ := mixedCoeffLoop_close hfl w D ts hw hts c coeffs o ts.length 0 0 0 0 0 _ g' _ r (by omega)
    (Close.zero hfl.nonneg _) (GClose.exact hfl.nonneg _ g') e
  refine ⟨x, X, m, M, ?_, ?_, f3.mono hfl.nonneg (by omega), f4⟩
  · rw [if_neg ho, hs, Res.bind_ok, f1]
  · rw [if_neg ho, hs, Res.bind_ok, f2]

end

end MParT.Worker
