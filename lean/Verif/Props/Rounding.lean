import Verif.Lemmas.RoundingReduce
import Verif.Lemmas.RoundingExpansion
import Verif.Props.Expansion
import Verif.Props.Parallel
import Mathlib.Tactic.NormNum
/-!
# C103: rounding errors, whatever the schedule

The programs are run with rounded numbers (`Fl fl`), for every rounding `fl` with relative error at most `u`.
-/
namespace MParT
open Spec

/-- Rounding to 53 binary digits is such a rounding, with `u = 2⁻⁵³`. -/
theorem C103_double : RelError (2 ^ (-53 : ℤ)) (nearest 53) := nearest_relError 53

/-! ### Reductions -/

namespace Parallel
variable {u : ℝ} {fl : ℝ → ℝ}

theorem term_close (hfl : RelError u fl) (m : ReduceDimMap) (dim1 : Bool) (A : Nat → Nat → Fl fl) {alpha : Fl fl} {a B : ℝ} {k : Nat}
    (ha : Close u k alpha.val a B) (i j : Nat) :
    Close u ((match m with | .sum => 1 | .norm => 2) + k) (m.kernel (if dim1 then A i j else A j i) * alpha).val
      (summand m dim1 A i j * a) (|summand m dim1 A i j| * B) := by
  cases m with
  | sum =>
    exact ((Close.exact hfl.nonneg 0 (if dim1 then A i j else A j i).val).mul hfl ha).mono hfl.nonneg (by simp only; omega)
  | norm =>
    have h0 := Close.exact hfl.nonneg 0 (if dim1 then A i j else A j i).val
    have := ((h0.mul hfl h0).mul hfl ha).mono hfl.nonneg (show 0 + 0 + 1 + k + 1 ≤ 2 + k by omega)
    simp only [summand, pow_two, abs_mul]
    exact this

theorem sum_scaled (l : List Nat) (t : Nat → ℝ) (a : ℝ) : (l.map fun j => t j * a).sum = a * (l.map t).sum := by
  induction l with
  | nil => simp
  | cons x l ih => simp only [List.map_cons, List.sum_cons, ih]; ring

theorem reduce_within (hfl : RelError u fl) (m : ReduceDimMap) (dim1 : Bool) (valueCount n : Nat) (A : Nat → Nat → Fl fl) {alpha : Fl fl} {a B : ℝ}
    {k : Nat} (ha : Close u k alpha.val a B) (s : Split) (hs : s.indices.Perm (List.range n)) :
    (reduce m dim1 valueCount A alpha s).length = valueCount ∧ ∀ i < valueCount, ∃ y, (reduce m dim1 valueCount A alpha s)[i]? = some y ∧
      Within u (additions s + ((match m with | .sum => 1 | .norm => 2) + k)) y.val (a * ((List.range n).map (summand m dim1 A i)).sum)
        (B * ((List.range n).map fun j => |summand m dim1 A i j|).sum) := by
  have hlen : (reduce m dim1 valueCount A alpha s).length = valueCount := by
    clear hs
    have fold : ∀ (l : List Nat) (s : List (Fl fl)), (l.foldl (fun s j => reduceOp m dim1 A alpha j s) s).length = s.length := by
      intro l
      induction l with
      | nil => intro s; rfl
      | cons j l ih => intro s; rw [List.foldl_cons, ih]; simp [reduceOp]
    induction s with
    | chunk l => rw [reduce, fold]; simp [reduceInit]
    | join a b iha ihb => simp [reduce, reduceJoin, iha, ihb]
    | andThen a l iha => rw [reduce, fold, iha]
  refine ⟨hlen, fun i hi => ?_⟩
  obtain ⟨-, h⟩ := reduce_close hfl m dim1 valueCount A alpha hi _ _ _ (term_close hfl m dim1 A ha i) s
  refine ⟨(reduce m dim1 valueCount A alpha s).getD i 0, by simp [hlen, hi], ?_⟩
  have h' := h.within
  rw [(hs.map _).sum_eq, (hs.map _).sum_eq, sum_scaled, sum_scaled] at h'
  rw [add_comm (additions s)]
  exact h'

/-- **C103, reductions.** However the range is split into parts, in whatever order the parts are worked on and joined, entry `i` of the result of
`ReduceDim` is `alpha` times the exact sum up to the error of `additions s + 1` roundings (`+ 2` for the sum of squares), relative to `|alpha|` times
the sum of the absolute values. -/
theorem C103_reduce (hfl : RelError u fl) (m : ReduceDimMap) (dim1 : Bool) (valueCount n : Nat) (A : Nat → Nat → Fl fl) (alpha : Fl fl)
    (s : Split) (hs : s.indices.Perm (List.range n)) :
    (reduce m dim1 valueCount A alpha s).length = valueCount ∧ ∀ i < valueCount, ∃ y, (reduce m dim1 valueCount A alpha s)[i]? = some y ∧
      Within u (additions s + (match m with | .sum => 1 | .norm => 2)) y.val (alpha.val * ((List.range n).map (summand m dim1 A i)).sum)
        (|alpha.val| * ((List.range n).map fun j => |summand m dim1 A i j|).sum) :=
  reduce_within hfl m dim1 valueCount n A (Close.exact hfl.nonneg 0 alpha.val) s hs

/-- Two schedules of the same reduction give results that differ by at most the sum of their bounds. -/
theorem C103_schedules (hfl : RelError u fl) (m : ReduceDimMap) (dim1 : Bool) (valueCount n : Nat) (A : Nat → Nat → Fl fl) (alpha : Fl fl)
    (s s' : Split) (hs : s.indices.Perm (List.range n)) (hs' : s'.indices.Perm (List.range n)) (i : Nat) (hi : i < valueCount) :
    ∃ y y', (reduce m dim1 valueCount A alpha s)[i]? = some y ∧ (reduce m dim1 valueCount A alpha s')[i]? = some y' ∧
      |y.val - y'.val| ≤ (((1 + u) ^ (additions s + (match m with | .sum => 1 | .norm => 2)) - 1) +
        ((1 + u) ^ (additions s' + (match m with | .sum => 1 | .norm => 2)) - 1)) *
        (|alpha.val| * ((List.range n).map fun j => |summand m dim1 A i j|).sum) := by
  obtain ⟨y, e, h⟩ := (C103_reduce hfl m dim1 valueCount n A alpha s hs).2 i hi
  obtain ⟨y', e', h'⟩ := (C103_reduce hfl m dim1 valueCount n A alpha s' hs').2 i hi
  refine ⟨y, y', e, e', ?_⟩
  unfold Within at h h'
  rw [add_mul]
  have := abs_sub_le y.val (alpha.val * ((List.range n).map (summand m dim1 A i)).sum) y'.val
  rw [abs_sub_comm (alpha.val * _) y'.val] at this
  linarith

/-- **C103, value of the objective.** However the sum over the samples is split, the objective is minus the mean of the log-densities up to the
error of `additions s + 1` roundings, relative to the mean of their absolute values. -/
theorem C103_objective (hfl : RelError u fl) (x : Nat → Fl fl) (n : Nat) (s : Split) (hs : s.indices.Perm (List.range n)) :
    Within u (additions s + 1) (objectiveValue x (Fl.of (n : ℝ)) s).val (-((List.range n).map fun i => (x i).val).sum / n)
      (((List.range n).map fun i => |(x i).val|).sum / n) := by
  have h := negSum_close hfl x s
  rw [(hs.map _).sum_eq, (hs.map _).sum_eq] at h
  have hn : |((n : ℝ))⁻¹| = (n : ℝ)⁻¹ := abs_of_nonneg (by positivity)
  have h2 := h.mul_exact hfl.nonneg (Close.exact hfl.nonneg 0 ((n : ℝ)⁻¹))
  rw [hn] at h2
  simp only [← div_eq_mul_inv] at h2
  exact (Close.round (fl := fl) hfl h2).within

/-- **C103, gradient of the objective.** The same for the entries of the gradient, whose factor `-1/n` is itself rounded. -/
theorem C103_gradient (hfl : RelError u fl) (P n : Nat) (A : Nat → Nat → Fl fl) (s : Split) (hs : s.indices.Perm (List.range n)) :
    ∀ i < P, ∃ y, (reduce .sum true P A (Fl.of (-1) / Fl.of (n : ℝ)) s)[i]? = some y ∧
      Within u (additions s + 2) y.val (-1 / n * ((List.range n).map fun j => (A i j).val).sum)
        (1 / n * ((List.range n).map fun j => |(A i j).val|).sum) := by
  have ha : Close u 1 ((Fl.of (-1) : Fl fl) / Fl.of (n : ℝ)).val (-1 / n) (1 / n) := by
    have := Close.exact hfl.nonneg 0 (-1 / (n : ℝ))
    rw [abs_div, abs_neg, abs_one, Nat.abs_cast] at this
    exact Close.round (fl := fl) hfl this
  exact (reduce_within hfl .sum true P n A ha s hs).2

/-- Non-vacuous: five columns in three parts, one of which continues another. -/
example : ∃ y, (reduce (R := Fl (nearest 53)) .norm true 2 (fun i j => Fl.of (i + 0.1 * j)) (Fl.of 3)
      (.join (.andThen (.chunk [3, 1]) [4]) (.chunk [0, 2])))[1]? = some y ∧
    Within (2 ^ (-53 : ℤ)) 6 y.val (3 * ((List.range 5).map fun j : Nat => (1 + 0.1 * (j : ℝ)) ^ 2).sum)
      (|3| * ((List.range 5).map fun j : Nat => |(1 + 0.1 * (j : ℝ)) ^ 2|).sum) := by
  have := (C103_reduce C103_double .norm true 2 5 (fun i j => Fl.of ((i : ℝ) + 0.1 * (j : ℝ))) (Fl.of 3)
    (.join (.andThen (.chunk [3, 1]) [4]) (.chunk [0, 2])) (by decide)).2 1 (by omega)
  have hs : summand (fl := nearest 53) .norm true (fun i j => Fl.of ((i : ℝ) + 0.1 * (j : ℝ))) 1 = fun j : Nat => (1 + 0.1 * (j : ℝ)) ^ 2 := by
    funext j
    simp [summand, Fl.of, Fl.val]
  rw [hs] at this
  exact this

/-- `1`, `3·2⁻⁵⁵`, `3·2⁻⁵⁵`. -/
noncomputable def three (_ : Nat) (j : Nat) : Fl (nearest 53) := Fl.of (if j = 0 then 1 else 3 * 2 ^ (-55 : ℤ))

theorem nearest_int {p : Nat} {x : ℝ} {e k : ℤ} (h1 : (2 : ℝ) ^ e ≤ |x|) (h2 : |x| < 2 ^ (e + 1)) (hk : |x / 2 ^ (e + 1 - (p : ℤ)) - k| < 1 / 2) :
    nearest p x = k * 2 ^ (e + 1 - (p : ℤ)) := by
  rw [nearest_eq h1 h2]
  congr 2
  rw [round_eq, Int.floor_eq_iff]
  rw [abs_lt] at hk
  constructor <;> linarith

theorem n1 : nearest 53 1 = 1 := by
  rw [nearest_int (e := 0) (k := 2 ^ 52)] <;> norm_num

theorem n2 : nearest 53 (3 * 2 ^ (-55 : ℤ)) = 3 * 2 ^ (-55 : ℤ) := by
  rw [nearest_int (e := -54) (k := 3 * 2 ^ 51)] <;> norm_num [abs_of_pos]

theorem n3 : nearest 53 (3 * 2 ^ (-55 : ℤ) + 3 * 2 ^ (-55 : ℤ)) = 3 * 2 ^ (-54 : ℤ) := by
  rw [nearest_int (e := -53) (k := 3 * 2 ^ 51)] <;> norm_num [abs_of_pos]

theorem n4 : nearest 53 (1 + 3 * 2 ^ (-55 : ℤ)) = 1 := by
  rw [nearest_int (e := 0) (k := 2 ^ 52)] <;> norm_num [abs_of_pos]

theorem n5 : nearest 53 (1 + 3 * 2 ^ (-54 : ℤ)) = 1 + 2 ^ (-52 : ℤ) := by
  rw [nearest_int (e := 0) (k := 2 ^ 52 + 1)] <;> norm_num [abs_of_pos, abs_of_neg]

/-- **C103: the result does depend on the schedule.** Three numbers summed by one thread, and the same numbers by two threads: with 53 binary
digits the results are different numbers, so that the value of an objective or of a gradient need not be the same in two runs of the same program. -/
theorem C103_fails_reproducible : ∃ (s s' : Split) (A : Nat → Nat → Fl (nearest 53)), s.indices = List.range 3 ∧ s'.indices = List.range 3 ∧
    reduce .sum true 1 A 1 s = [Fl.of 1] ∧ reduce .sum true 1 A 1 s' = [Fl.of (1 + 2 ^ (-52 : ℤ))] := by
  have hadd : ∀ x y : ℝ, (Fl.of x : Fl (nearest 53)) + Fl.of y = Fl.of (nearest 53 (x + y)) := fun _ _ => rfl
  have hmul : ∀ x : ℝ, (Fl.of x : Fl (nearest 53)) * 1 = Fl.of (nearest 53 x) := fun x => by
    show Fl.of (nearest 53 (x * 1)) = _
    rw [mul_one]
  have h0 : (0 : Fl (nearest 53)) = Fl.of 0 := rfl
  refine ⟨.chunk [0, 1, 2], .join (.chunk [0]) (.chunk [1, 2]), three, by decide, by decide, ?_, ?_⟩
  · simp only [reduce, reduceInit, reduceOp, List.replicate, List.foldl, List.mapIdx_cons, List.mapIdx_nil, ReduceDimMap.kernel, three, if_true,
      hmul, h0, hadd, zero_add, one_ne_zero, if_false, n1, n2, n4, OfNat.ofNat_ne_zero]
  · simp only [reduce, reduceInit, reduceOp, reduceJoin, List.replicate, List.foldl, List.mapIdx_cons, List.mapIdx_nil, ReduceDimMap.kernel, three,
      if_true, hmul, h0, hadd, zero_add, one_ne_zero, if_false, n1, n2, n3, n5, OfNat.ofNat_ne_zero, List.zipWith]

end Parallel

/-! ### Expansions -/

namespace Worker
open FixedSet Finset
variable {u : ℝ} {fl : ℝ → ℝ}

theorem Reads.abs {w : Worker} {c : Cache ℝ} {D : Nat} {ts : List (List Nat)} {slot : Nat → Nat} {F : Nat → Nat → ℝ} (h : Reads w c D ts slot F) :
    Reads w (absC c) D ts slot fun d n => |F d n| := by
  intro t ht d hd hne
  obtain ⟨s, h1, h2⟩ := h t ht d hd hne
  exact ⟨s, h1, read_abs h2⟩

theorem absL_length (l : List ℝ) : (absL l).length = l.length := by simp [absL]

theorem sum_nz {D : Nat} {F : Nat → Nat → ℝ} (h : ∀ d, d < D → F d 0 = 1) (ts : List (List Nat)) (c : List ℝ) :
    ∑ k ∈ range ts.length, c.getD k 0 * nzProd D F (ts.getD k []) = expansion D ts c F := by
  rw [expansion]
  exact sum_congr rfl fun k _ => by rw [nzProd_eq h]

theorem sum_ctr {D e : Nat} (he : e < D) {F : Nat → Nat → ℝ} (h0 : F e 0 = 0) (h : ∀ d, d < D → d ≠ e → F d 0 = 1) (ts : List (List Nat))
    (c : List ℝ) : ∑ k ∈ range ts.length, c.getD k 0 * ctr D e F (ts.getD k []) = expansion D ts c F := by
  rw [expansion]
  exact sum_congr rfl fun k _ => by rw [ctr_eq he h0 h]

theorem sumWithin_nz {K D : Nat} {F : Nat → Nat → ℝ} (h : ∀ d, d < D → F d 0 = 1) {ts : List (List Nat)} {c : List (Fl fl)} {x : ℝ} {co : List ℝ}
    (hco : co = c)
    (hx : Close u K x (∑ k ∈ range ts.length, co.getD k 0 * nzProd D F (ts.getD k []))
      (∑ k ∈ range ts.length, (absL co).getD k 0 * nzProd D (fun d n => |F d n|) (ts.getD k []))) : SumWithin u K x D ts c F := by
  rw [sum_nz h, sum_nz (fun d hd => by rw [h d hd, abs_one])] at hx
  subst hco
  have := hx.within
  unfold SumWithin
  rwa [show List.map Fl.val (show List (Fl fl) from co) = co from List.map_id co]

theorem sumWithin_ctr {K D e : Nat} (he : e < D) {F : Nat → Nat → ℝ} (h0 : F e 0 = 0) (h : ∀ d, d < D → d ≠ e → F d 0 = 1) {ts : List (List Nat)}
    {c : List (Fl fl)} {x : ℝ} {co : List ℝ} (hco : co = c)
    (hx : Close u K x (∑ k ∈ range ts.length, co.getD k 0 * ctr D e F (ts.getD k []))
      (∑ k ∈ range ts.length, (absL co).getD k 0 * ctr D e (fun d n => |F d n|) (ts.getD k []))) : SumWithin u K x D ts c F := by
  rw [sum_ctr he h0 h, sum_ctr he (by rw [h0, abs_zero]) (fun d hd hne => by rw [h d hd hne, abs_one])] at hx
  subst hco
  have := hx.within
  unfold SumWithin
  rwa [show List.map Fl.val (show List (Fl fl) from co) = co from List.map_id co]

variable (hfl : RelError u fl) {f : FixedSet} (hb : Built f) (hcomp : f.isCompressed = true) (hD : 0 < f.dim)
  {ts : List (List Nat)} (hts : Holds f ts) (b : Basis (Fl fl)) (coeffs : List (Fl fl))
  (hc : ts.length ≤ coeffs.length) (pt : List (Fl fl)) (hpt : f.dim - 1 ≤ pt.length)
  (calls : List (Fl fl × DFlag)) (xd : Fl fl) (f1 f2 : DFlag)

/-- The basis as real functions. -/
def realB (b : Basis (Fl fl)) : Basis ℝ := b

theorem eff_factor (D d n : Nat) : (realB b).eff.val n (pointOf D (K := ℝ) pt xd d) = factor b (coordinate D pt xd) d n := rfl

theorem eff_factorD1 (D e d n : Nat) : facD1 (realB b).eff (pointOf D (K := ℝ) pt xd) e d n = factorD1 b (coordinate D pt xd) e d n := rfl

theorem eff_factorD2 (D e d n : Nat) : facD2 (realB b).eff (pointOf D (K := ℝ) pt xd) e d n = factorD2 b (coordinate D pt xd) e d n := rfl

theorem factor_zero (x : Nat → Fl fl) (d : Nat) : factor b x d 0 = 1 := if_pos rfl

theorem factorD1_zero (x : Nat → Fl fl) (e : Nat) : factorD1 b x e e 0 = 0 := by simp [factorD1]

theorem factorD1_one (x : Nat → Fl fl) {e d : Nat} (h : d ≠ e) : factorD1 b x e d 0 = 1 := by simp [factorD1, h, factor]

theorem factorD2_zero (x : Nat → Fl fl) (e : Nat) : factorD2 b x e e 0 = 0 := by simp [factorD2]

theorem factorD2_one (x : Nat → Fl fl) {e d : Nat} (h : d ≠ e) : factorD2 b x e d 0 = 1 := by simp [factorD2, h, factor]

include hfl hb hcomp hD hts hc hpt in
/-- **C103, value of an expansion.** After any history of fills of the cache, `Evaluate` returns `Σ_k c_k Π_d φ_{a_{k,d}}(x_d)`, for the numbers the
basis functions return, up to the error of (dimension + 1 + number of terms) roundings, relative to the sum of the absolute values of the terms. -/
theorem C103_evaluate (hf2 : f2 ≠ .mixed) :
    ∃ w, ofFixed f = .ok w ∧ ∀ cache : Cache (Fl fl), cache.length = w.cacheSize → ∃ y : Fl fl,
      (do let c ← fillSeq w b cache pt f1 (calls ++ [(xd, f2)])
          evaluate w c coeffs) = .ok y ∧
      SumWithin u (f.dim + 1 + ts.length) y.val f.dim ts coeffs (factor b (coordinate f.dim pt xd)) := by
  obtain ⟨hf, hl⟩ := built_csr hb hcomp hts
  refine ⟨_, built_ofFixed hb hD hts, fun cache hcache => ?_⟩
  obtain ⟨c, W, e, hW, hB, hlast, -, -⟩ := fillSeq_eq (K := ℝ) f.dim hD f (degs f.dim ts) (by simp [degs]) (realB b) pt hpt f1
    cache hcache calls xd f2 hf2
  have hr := reads_id_eff (realB b) pt xd f1 hD hW rfl hB hlast f
  simp only [eff_factor] at hr
  have h1 := evaluate_eq (mk' f.dim f (degs f.dim ts)) f.dim ts hf hl c (K := ℝ) coeffs _ hr hc
  have h2 := evaluate_eq (mk' f.dim f (degs f.dim ts)) f.dim ts hf hl (absC c) (absL coeffs) _ hr.abs (hc.trans_eq (absL_length coeffs).symm)
  obtain ⟨x, X, e1, e2, h⟩ := evaluate_close hfl (mk' f.dim f (degs f.dim ts)) f.dim ts hf hl c coeffs h1
  rw [h2] at e2
  cases e2
  refine ⟨x, ?_, sumWithin_nz (fun d _ => factor_zero b _ d) rfl h⟩
  have e' : fillSeq (mk' f.dim f (degs f.dim ts)) b cache pt f1 (calls ++ [(xd, f2)]) = .ok (flC fl c) := e
  rw [e', Res.bind_ok]
  exact e1

include hfl hb hcomp hD hts hc hpt in
/-- **C103, derivative with respect to the last coordinate**: the same for `DiagonalDerivative(.., 1)`, with the derivatives the basis returns. -/
theorem C103_diagonal (hf2 : f2 = .diagonal ∨ f2 = .input ∨ f2 = .diagonal2 ∨ f2 = .mixedInput) :
    ∃ w, ofFixed f = .ok w ∧ ∀ cache : Cache (Fl fl), cache.length = w.cacheSize → ∃ y : Fl fl,
      (do let c ← fillSeq w b cache pt f1 (calls ++ [(xd, f2)])
          diagonalDerivative w c coeffs 1) = .ok y ∧
      SumWithin u (f.dim + 1 + ts.length) y.val f.dim ts coeffs (factorD1 b (coordinate f.dim pt xd) (f.dim - 1)) := by
  obtain ⟨hf, hl⟩ := built_csr hb hcomp hts
  refine ⟨_, built_ofFixed hb hD hts, fun cache hcache => ?_⟩
  obtain ⟨c, W, e, hW, hB, hlast, h1, -⟩ := fillSeq_eq (K := ℝ) f.dim hD f (degs f.dim ts) (by simp [degs]) (realB b) pt hpt f1
    cache hcache calls xd f2 (by rintro rfl; simp at hf2)
  have hr := reads_diag1_eff (realB b) pt xd f1 hD hW rfl hB f (h1 (by rintro rfl; simp at hf2) (by rintro rfl; simp at hf2))
  have hr' : Reads _ c f.dim ts _ (factorD1 b (coordinate f.dim pt xd) (f.dim - 1)) := hr
  have h1 := diagonalDerivative_eq (mk' f.dim f (degs f.dim ts)) f.dim ts rfl hf hl c (K := ℝ) coeffs 1 (.inl rfl) _ hr' hc
  have h2 := diagonalDerivative_eq (mk' f.dim f (degs f.dim ts)) f.dim ts rfl hf hl (absC c) (absL coeffs) 1 (.inl rfl) _ hr'.abs
    (hc.trans_eq (absL_length coeffs).symm)
  obtain ⟨x, X, e1, e2, h⟩ := diagonal_close hfl (mk' f.dim f (degs f.dim ts)) f.dim ts hf hl c coeffs h1
  rw [h2] at e2
  cases e2
  refine ⟨x, ?_, sumWithin_ctr (by omega) (factorD1_zero b _ _) (fun d _ hd => factorD1_one b _ hd) rfl h⟩
  have e' : fillSeq (mk' f.dim f (degs f.dim ts)) b cache pt f1 (calls ++ [(xd, f2)]) = .ok (flC fl c) := e
  rw [e', Res.bind_ok]
  exact e1

include hfl hb hcomp hD hts hc hpt in
/-- **C103, second derivative with respect to the last coordinate**: the same for `DiagonalDerivative(.., 2)`. -/
theorem C103_diagonal2 (hf2 : f2 = .diagonal2 ∨ f2 = .mixedInput) :
    ∃ w, ofFixed f = .ok w ∧ ∀ cache : Cache (Fl fl), cache.length = w.cacheSize → ∃ y : Fl fl,
      (do let c ← fillSeq w b cache pt f1 (calls ++ [(xd, f2)])
          diagonalDerivative w c coeffs 2) = .ok y ∧
      SumWithin u (f.dim + 1 + ts.length) y.val f.dim ts coeffs (factorD2 b (coordinate f.dim pt xd) (f.dim - 1)) := by
  obtain ⟨hf, hl⟩ := built_csr hb hcomp hts
  refine ⟨_, built_ofFixed hb hD hts, fun cache hcache => ?_⟩
  obtain ⟨c, W, e, hW, hB, hlast, -, h2⟩ := fillSeq_eq (K := ℝ) f.dim hD f (degs f.dim ts) (by simp [degs]) (realB b) pt hpt f1
    cache hcache calls xd f2 (by rintro rfl; simp at hf2)
  have hr := reads_diag2_eff (realB b) pt xd f1 hD hW rfl hB f (h2 hf2)
  have hr' : Reads _ c f.dim ts _ (factorD2 b (coordinate f.dim pt xd) (f.dim - 1)) := hr
  have h1 := diagonalDerivative_eq (mk' f.dim f (degs f.dim ts)) f.dim ts rfl hf hl c (K := ℝ) coeffs 2 (.inr rfl) _ hr' hc
  have h2 := diagonalDerivative_eq (mk' f.dim f (degs f.dim ts)) f.dim ts rfl hf hl (absC c) (absL coeffs) 2 (.inr rfl) _ hr'.abs
    (hc.trans_eq (absL_length coeffs).symm)
  obtain ⟨x, X, e1, e2, h⟩ := diagonal_close hfl (mk' f.dim f (degs f.dim ts)) f.dim ts hf hl c coeffs h1
  rw [h2] at e2
  cases e2
  refine ⟨x, ?_, sumWithin_ctr (by omega) (factorD2_zero b _ _) (fun d _ hd => factorD2_one b _ hd) rfl h⟩
  have e' : fillSeq (mk' f.dim f (degs f.dim ts)) b cache pt f1 (calls ++ [(xd, f2)]) = .ok (flC fl c) := e
  rw [e', Res.bind_ok]
  exact e1

theorem GClose.at {k : Nat → Nat} {g : List (Fl fl)} {g' G : List ℝ} (h : GClose u k g g' G) {e : Nat} {a A : ℝ} (ha : g'[e]? = some a)
    (hA : G[e]? = some A) : ∃ y, g[e]? = some y ∧ Close u (k e) y.val a A := by
  obtain ⟨y, B, h1, h2, h3⟩ := h.get (Res.idx_some ha)
  rw [Res.idx_some hA] at h2
  cases h2
  refine ⟨y, ?_, h3⟩
  unfold Res.idx at h1
  rcases hg : g[e]? with _ | z <;> rw [hg] at h1
  · cases h1
  · cases h1; rfl

include hfl hb hcomp hD hts hc hpt in
/-- **C103, gradient with respect to the coefficients**: entry `k` of what `CoeffDerivative` writes is the product of the factors of term `k` up to the
error of as many roundings as there are coordinates. -/
theorem C103_coeff (hf2 : f2 ≠ .mixed) (grad : List (Fl fl)) (hg : ts.length ≤ grad.length) :
    ∃ w, ofFixed f = .ok w ∧ ∀ cache : Cache (Fl fl), cache.length = w.cacheSize → ∃ (y : Fl fl) (g : List (Fl fl)),
      (do let c ← fillSeq w b cache pt f1 (calls ++ [(xd, f2)])
          coeffDerivative w c coeffs grad) = .ok (y, g) ∧
      SumWithin u (f.dim + 1 + ts.length) y.val f.dim ts coeffs (factor b (coordinate f.dim pt xd)) ∧
      ∀ k < ts.length, ∃ z, g[k]? = some z ∧ Within u f.dim z.val (termProd f.dim (factor b (coordinate f.dim pt xd)) (ts.getD k []))
        |termProd f.dim (factor b (coordinate f.dim pt xd)) (ts.getD k [])| := by
  obtain ⟨hf, hl⟩ := built_csr hb hcomp hts
  refine ⟨_, built_ofFixed hb hD hts, fun cache hcache => ?_⟩
  obtain ⟨c, W, e, hW, hB, hlast, -, -⟩ := fillSeq_eq (K := ℝ) f.dim hD f (degs f.dim ts) (by simp [degs]) (realB b) pt hpt f1
    cache hcache calls xd f2 hf2
  have hr := reads_id_eff (realB b) pt xd f1 hD hW rfl hB hlast f
  simp only [eff_factor] at hr
  obtain ⟨g1, a1, l1, v1⟩ := coeffLoop_eq (mk' f.dim f (degs f.dim ts)) f.dim ts hf hl c (K := ℝ) coeffs _ hr hc ts.length 0 0 grad (by omega) hg
  obtain ⟨g2, a2, l2, v2⟩ := coeffLoop_eq (mk' f.dim f (degs f.dim ts)) f.dim ts hf hl (absC c) (absL coeffs) _ hr.abs
    (hc.trans_eq (absL_length coeffs).symm) ts.length 0 0 (absL grad) (by omega) (hg.trans_eq (absL_length grad).symm)
  have hs := size_csr (mk' f.dim f (degs f.dim ts)) f.dim ts hf hl
  have hrun : ∀ (c : Cache ℝ) (co g : List ℝ), coeffDerivative (mk' f.dim f (degs f.dim ts)) c co g
      = coeffLoop (mk' f.dim f (degs f.dim ts)) c co g 0 0 ts.length := fun c co g => by rw [coeffDerivative, hs, Res.bind_ok]
  have h1 := (hrun c coeffs grad).trans a1
  have h2 := (hrun (absC c) (absL coeffs) (absL grad)).trans a2
  obtain ⟨x, X, g, G, e1, e2, h, h'⟩ := coeff_close hfl (mk' f.dim f (degs f.dim ts)) f.dim ts hf hl c coeffs h1
  rw [h2] at e2
  cases e2
  simp only [zero_add] at h
  refine ⟨x, g, ?_, sumWithin_nz (fun d _ => factor_zero b _ d) rfl h, fun k hk => ?_⟩
  · have e' : fillSeq (mk' f.dim f (degs f.dim ts)) b cache pt f1 (calls ++ [(xd, f2)]) = .ok (flC fl c) := e
    rw [e', Res.bind_ok]
    exact e1
  · obtain ⟨z, hz, hz'⟩ := h'.at (by rw [v1 k, if_pos (by omega)]) (by rw [v2 k, if_pos (by omega)])
    refine ⟨z, hz, ?_⟩
    rw [nzProd_eq (fun d _ => factor_zero b _ d), nzProd_eq (fun d _ => by rw [factor_zero, abs_one])] at hz'
    have := hz'.within
    unfold termProd at this ⊢
    rwa [Finset.abs_prod]

include hfl hb hcomp hD hts hc hpt in
/-- **C103, gradient with respect to the point**: entry `e` of what `InputDerivative` writes is the derivative with respect to coordinate `e`, for the
numbers the basis returns, up to the error of (dimension + 1 + number of terms) roundings. -/
theorem C103_input (hf1 : f1 = .input ∨ f1 = .mixedInput) (hf2 : f2 = .diagonal ∨ f2 = .input ∨ f2 = .diagonal2 ∨ f2 = .mixedInput)
    (grad : List (Fl fl)) (hg : f.dim ≤ grad.length) :
    ∃ w, ofFixed f = .ok w ∧ ∀ cache : Cache (Fl fl), cache.length = w.cacheSize → ∃ (y : Fl fl) (g : List (Fl fl)),
      (do let c ← fillSeq w b cache pt f1 (calls ++ [(xd, f2)])
          inputDerivative w c coeffs grad) = .ok (y, g) ∧
      SumWithin u (f.dim + 1 + ts.length) y.val f.dim ts coeffs (factor b (coordinate f.dim pt xd)) ∧
      ∀ e < f.dim, ∃ z, g[e]? = some z ∧
        SumWithin u (f.dim + 1 + ts.length) z.val f.dim ts coeffs (factorD1 b (coordinate f.dim pt xd) e) := by
  obtain ⟨hf, hl⟩ := built_csr hb hcomp hts
  refine ⟨_, built_ofFixed hb hD hts, fun cache hcache => ?_⟩
  obtain ⟨c, W, e, hW, hB, hlast, h1, -⟩ := fillSeq_eq (K := ℝ) f.dim hD f (degs f.dim ts) (by simp [degs]) (realB b) pt hpt f1
    cache hcache calls xd f2 (by rintro rfl; simp at hf2)
  have h1' := h1 (by rintro rfl; simp at hf2) (by rintro rfl; simp at hf2)
  have hr : ∀ e, e < f.dim → Reads (mk' f.dim f (degs f.dim ts)) c f.dim ts _ (factorD1 b (coordinate f.dim pt xd) e) :=
    fun e he => reads_input_eff (realB b) pt xd f1 hD hW rfl hB hlast f hf1 h1' e he
  have hn := reads_input_none_eff (realB b) pt xd f1 hD hW rfl hB hlast f
  simp only [eff_factor] at hn
  have hc' : ts.length ≤ (absL coeffs).length := hc.trans_eq (absL_length coeffs).symm
  have p1 := inputTerms_none (mk' f.dim f (degs f.dim ts)) f.dim ts hf hl c (K := ℝ) coeffs _ hn hc grad ts.length 0 0 (by omega)
  have p2 := inputTerms_none (mk' f.dim f (degs f.dim ts)) f.dim ts hf hl (absC c) (absL coeffs) _ hn.abs hc' (absL grad) ts.length 0 0 (by omega)
  obtain ⟨g1, a1, l1, v1⟩ := inputWrt_eq (mk' f.dim f (degs f.dim ts)) f.dim ts hf hl c (K := ℝ) coeffs _ hr hc
    (0 + ∑ k ∈ range ts.length, List.getD (α := ℝ) coeffs (0 + k) 0 * nzProd f.dim (factor b (coordinate f.dim pt xd)) (ts.getD (0 + k) [])) f.dim 0 grad
    (by omega) hg
  obtain ⟨g2, a2, l2, v2⟩ := inputWrt_eq (mk' f.dim f (degs f.dim ts)) f.dim ts hf hl (absC c) (absL coeffs) _ (fun e he => (hr e he).abs) hc'
    (0 + ∑ k ∈ range ts.length, (absL coeffs).getD (0 + k) 0 *
      nzProd f.dim (fun d n => |factor b (coordinate f.dim pt xd) d n|) (ts.getD (0 + k) [])) f.dim 0 (absL grad)
    (by omega) (hg.trans_eq (absL_length grad).symm)
  have hs := size_csr (mk' f.dim f (degs f.dim ts)) f.dim ts hf hl
  have hrun : ∀ (c : Cache ℝ) (co g g' : List ℝ) (v : ℝ), inputTerms (mk' f.dim f (degs f.dim ts)) c co none 0 g 0 ts.length = .ok (v, g') →
      inputDerivative (mk' f.dim f (degs f.dim ts)) c co g = inputWrt (mk' f.dim f (degs f.dim ts)) c co ts.length v g' 0 f.dim :=
    fun c co g g' v h => by rw [inputDerivative, hs, Res.bind_ok, h, Res.bind_ok]; rfl
  have q1 := (hrun c coeffs grad _ _ p1).trans a1
  have q2 := (hrun (absC c) (absL coeffs) (absL grad) _ _ p2).trans a2
  obtain ⟨x, X, g, G, e1, e2, h, h'⟩ := input_close hfl (mk' f.dim f (degs f.dim ts)) f.dim ts hf hl c coeffs q1
  rw [q2] at e2
  cases e2
  simp only [zero_add] at h
  refine ⟨x, g, ?_, sumWithin_nz (fun d _ => factor_zero b _ d) rfl h, fun k hk => ?_⟩
  · have e' : fillSeq (mk' f.dim f (degs f.dim ts)) b cache pt f1 (calls ++ [(xd, f2)]) = .ok (flC fl c) := e
    rw [e', Res.bind_ok]
    exact e1
  · obtain ⟨z, hz, hz'⟩ := h'.at (by rw [v1 k, if_pos (by omega)]) (by rw [v2 k, if_pos (by omega)])
    exact ⟨z, hz, sumWithin_ctr hk (factorD1_zero b _ _) (fun d _ hd => factorD1_one b _ hd) rfl hz'⟩

/-- Non-vacuous: the six terms of total degree at most two in two variables, with the monomials and 53 binary digits. -/
example (coeffs : List (Fl (nearest 53))) (hc : coeffs.length = 6) (x y : Fl (nearest 53)) (cache : Cache (Fl (nearest 53)))
    (hcache : cache.length = 15) : ∃ (f : FixedSet) (ts : List (List Nat)) (w : Worker) (v : Fl (nearest 53)), Built f ∧ Holds f ts ∧
      ts.length = 6 ∧ ofFixed f = .ok w ∧
      (do let c ← fillSeq w ⟨fun n x => Fl.of (x.val ^ n), fun n x => Fl.of (n * x.val ^ (n - 1)), fun _ _ => Fl.of 0⟩ cache [x] .none [(y, .none)]
          evaluate w c coeffs) = .ok v ∧
      SumWithin (2 ^ (-53 : ℤ)) 9 v.val 2 ts coeffs (factor ⟨fun n x => Fl.of (x.val ^ n), fun n x => Fl.of (n * x.val ^ (n - 1)), fun _ _ => Fl.of 0⟩
        (coordinate 2 [x] y)) := by
  have hb : Built (csr 2 (MISet.toEnum 2 2)) := .totalOrder (totalOrder_csr 2 (by omega) 2)
  have hts := csr_holds 2 (MISet.toEnum 2 2) fun t ht => ((MISet.mem_toEnum _ _ _).1 ht).1
  have h6 : (MISet.toEnum 2 2).length = 6 := by decide +kernel
  obtain ⟨w, e, h⟩ := C103_evaluate C103_double hb rfl (by simp [csr]) hts
    ⟨fun n x => Fl.of (x.val ^ n), fun n x => Fl.of (n * x.val ^ (n - 1)), fun _ _ => Fl.of 0⟩ coeffs (by omega) [x] (by simp [csr]) [] y
    .none .none (by decide)
  have hw : w.cacheSize = 15 := by
    have : (do let w ← ofFixed (csr 2 (MISet.toEnum 2 2)); .ok w.cacheSize) = Res.ok 15 := by decide +kernel
    rw [e] at this
    exact Res.ok.inj this
  obtain ⟨v, h1, h2⟩ := h cache (by omega)
  rw [h6] at h2
  exact ⟨_, _, w, v, hb, hts, h6, e, h1, h2⟩

end Worker
end MParT
