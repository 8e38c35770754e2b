import Verif.Spec.LinearAlgebra
import Mathlib.Analysis.Matrix.LDL
import Mathlib.LinearAlgebra.Matrix.Block
import Mathlib.Algebra.BigOperators.Fin
import Mathlib.Data.List.GetD
/-! # Lemmas on substitution and factorisations -/
namespace MParT.LinAlg

open Spec

theorem sum_range {R : Type} [CommRing R] (n : Nat) (f : Nat → R) :
    ((List.range n).map f).sum = ∑ j : Fin n, f j := by
  rw [← Finset.sum_range]
  induction n with
  | zero => simp
  | succ n ih => rw [List.range_succ, List.map_append, List.sum_append, ih, Finset.sum_range_succ]; simp

theorem lower_sum {n i : Nat} (hi : i < n) (f : Nat → ℝ) (h : ∀ j, i < j → j < n → f j = 0) :
    ∑ j : Fin n, f j = ((List.range i).map f).sum + f i := by
  rw [sum_range, ← Finset.sum_range, ← Finset.sum_range, ← Finset.sum_range_succ]
  symm
  apply Finset.sum_subset
  · intro j hj; simp only [Finset.mem_range] at *; omega
  · intro j hj hj'; simp only [Finset.mem_range] at *; exact h j (by omega) hj

theorem upper_sum {n i k : Nat} (hi : i + 1 + k = n) (f : Nat → ℝ) (h : ∀ j, j < i → f j = 0) :
    ∑ j : Fin n, f j = f i + ((List.range k).map fun j => f (i + 1 + j)).sum := by
  subst hi
  rw [sum_range, ← Finset.sum_range, ← Finset.sum_range (fun j => f (i + 1 + j)), Finset.sum_range_add,
    Finset.sum_range_succ, Finset.sum_eq_zero (s := Finset.range i) fun j hj => h j (Finset.mem_range.mp hj)]
  simp

theorem forward_length (L : Nat → Nat → ℝ) (d b : Nat → ℝ) (k : Nat) : (forward L d b k).length = k := by
  induction k with
  | zero => rfl
  | succ k ih => rw [forward]; simp [ih]

theorem forward_getD (L : Nat → Nat → ℝ) (d b : Nat → ℝ) {k m i : Nat} (hi : i < k) (hk : k ≤ m) :
    (forward L d b m).getD i 0 = (forward L d b k).getD i 0 := by
  induction m with
  | zero => omega
  | succ m ih =>
    rcases Nat.lt_or_ge m k with h | h
    · have : k = m + 1 := by omega
      rw [this]
    · rw [forward, List.getD_append _ _ _ _ (by rw [forward_length]; omega), ih h]

theorem forward_spec (L : Nat → Nat → ℝ) (d b : Nat → ℝ) {n i : Nat} (hi : i < n) (hd : d i ≠ 0) :
    ((List.range i).map fun j => L i j * (forward L d b n).getD j 0).sum + d i * (forward L d b n).getD i 0 = b i := by
  have h1 : (forward L d b n).getD i 0
      = (b i - ((List.range i).map fun j => L i j * (forward L d b n).getD j 0).sum) / d i := by
    rw [forward_getD L d b (Nat.lt_succ_self i) hi, forward, List.getD_append_right _ _ _ _ (by rw [forward_length])]
    simp only [forward_length, Nat.sub_self, List.getD_cons_zero]
    congr 3
    apply List.map_congr_left
    intro j hj
    rw [forward_getD L d b (List.mem_range.mp hj) hi.le]
  rw [h1]
  field_simp
  ring

theorem backward_length (U : Nat → Nat → ℝ) (n : Nat) (b : Nat → ℝ) (k : Nat) : (backward U n b k).length = k := by
  induction k with
  | zero => rfl
  | succ k ih => rw [backward]; simp [ih]

theorem backward_getD (U : Nat → Nat → ℝ) (n : Nat) (b : Nat → ℝ) {k m i : Nat} (hk : k ≤ m) :
    (backward U n b m).getD (m - k + i) 0 = (backward U n b k).getD i 0 := by
  induction m with
  | zero => have : k = 0 := by omega
            subst this; simp
  | succ m ih =>
    rcases Nat.lt_or_ge m k with h | h
    · have : k = m + 1 := by omega
      subst this; simp
    · rw [backward, show m + 1 - k + i = (m - k + i) + 1 by omega, List.getD_cons_succ, ih h]

theorem backward_spec (U : Nat → Nat → ℝ) (b : Nat → ℝ) {n i k : Nat} (hi : i + 1 + k = n) (hd : U i i ≠ 0) :
    U i i * (backward U n b n).getD i 0
      + ((List.range k).map fun j => U i (i + 1 + j) * (backward U n b n).getD (i + 1 + j) 0).sum = b i := by
  have e : ∀ j, (backward U n b n).getD (i + 1 + j) 0 = (backward U n b k).getD j 0 := by
    intro j
    rw [← backward_getD U n b (show k ≤ n by omega)]
    congr 1; omega
  have e0 : (backward U n b n).getD i 0 = (backward U n b (k + 1)).getD 0 0 := by
    rw [← backward_getD U n b (show k + 1 ≤ n by omega)]
    congr 1; omega
  simp only [e, e0]
  rw [backward]
  simp only [List.getD_cons_zero, show n - (k + 1) = i by omega, show n - k = i + 1 by omega]
  field_simp
  ring

theorem ext_fin {n : Nat} (A : Matrix (Fin n) (Fin n) ℝ) (i j : Fin n) : ext A i j = A i j := by
  simp [ext]

/-- Forward substitution solves the triangular system. -/
theorem forward_solves {n : Nat} (T : Matrix (Fin n) (Fin n) ℝ) (hT : ∀ i j, i < j → T i j = 0) (hd : ∀ i, T i i ≠ 0)
    (L : Nat → Nat → ℝ) (d b : Nat → ℝ) (hL : ∀ i j : Fin n, j < i → L i j = T i j) (hdd : ∀ i : Fin n, d i = T i i)
    (i : Fin n) : ∑ j : Fin n, T i j * (forward L d b n).getD j 0 = b i := by
  have h := lower_sum i.2 (fun j => (if h : j < n then T i ⟨j, h⟩ else 0) * (forward L d b n).getD j 0) (by
    intro j hj hjn
    simp only [hjn, dite_true]
    rw [hT i ⟨j, hjn⟩ hj, zero_mul])
  simp only [Fin.is_lt, dite_true, Fin.eta] at h
  rw [h, ← forward_spec L d b i.2 (by rw [hdd]; exact hd i), hdd]
  congr 2
  apply List.map_congr_left
  intro j hj
  have hj := List.mem_range.mp hj
  have hjn : j < n := hj.trans i.2
  simp only [hjn, dite_true]
  rw [← hL i ⟨j, hjn⟩ hj]

/-- Backward substitution solves the triangular system. -/
theorem backward_solves {n : Nat} (T : Matrix (Fin n) (Fin n) ℝ) (hT : ∀ i j, j < i → T i j = 0) (hd : ∀ i, T i i ≠ 0)
    (U : Nat → Nat → ℝ) (b : Nat → ℝ) (hU : ∀ i j : Fin n, i ≤ j → U i j = T i j)
    (i : Fin n) : ∑ j : Fin n, T i j * (backward U n b n).getD j 0 = b i := by
  have hk : i.1 + 1 + (n - 1 - i) = n := by have := i.2; omega
  have h := upper_sum hk (fun j => (if h : j < n then T i ⟨j, h⟩ else 0) * (backward U n b n).getD j 0) (by
    intro j hj
    have hjn : j < n := hj.trans i.2
    simp only [hjn, dite_true]
    rw [hT i ⟨j, hjn⟩ hj, zero_mul])
  simp only [Fin.is_lt, dite_true, Fin.eta] at h
  rw [h, ← backward_spec U b hk (by rw [hU i i le_rfl]; exact hd i), hU i i le_rfl]
  congr 2
  apply List.map_congr_left
  intro j hj
  have hj := List.mem_range.mp hj
  have hjn : i.1 + 1 + j < n := by omega
  simp only [hjn, dite_true]
  rw [← hU i ⟨i.1 + 1 + j, hjn⟩ (by rw [Fin.le_def]; simp only; omega)]

theorem guardDiag_ok {n : Nat} {d : Nat → ℝ} (h : ∀ i, i < n → d i ≠ 0) (x : List ℝ) : guardDiag n d x = .ok x := by
  rw [guardDiag, if_neg]
  rintro ⟨i, hi, h0⟩
  exact h i hi h0

theorem guardDiag_ub {n i : Nat} {d : Nat → ℝ} (hi : i < n) (h : d i = 0) (x : List ℝ) : guardDiag n d x = .ub := by
  rw [guardDiag, if_pos ⟨i, hi, h⟩]

theorem columnsOf_ok (X : View2 ℝ) (f : (Nat → ℝ) → Res (List ℝ)) (g : Nat → List ℝ) (k j : Nat)
    (h : ∀ l, j ≤ l → l < j + k → f (fun i => X.get i l) = .ok (g l)) :
    columnsOf X f j k = .ok ((List.range' j k).map g) := by
  induction k generalizing j with
  | zero => rfl
  | succ k ih =>
    rw [columnsOf, h j le_rfl (by omega), Res.bind_ok, ih (j + 1) fun l h1 h2 => h l (by omega) (by omega), Res.bind_ok]
    rw [List.range'_succ, List.map_cons]

theorem columnsOf_ub (X : View2 ℝ) (f : (Nat → ℝ) → Res (List ℝ)) {k j : Nat} (hk : 0 < k)
    (h : f (fun i => X.get i j) = .ub) : columnsOf X f j k = .ub := by
  obtain ⟨k, rfl⟩ : ∃ k', k = k' + 1 := ⟨k - 1, by omega⟩
  rw [columnsOf, h]; rfl

theorem ofColumns_get {n m : Nat} (g : Nat → List ℝ) {j : Nat} (hj : j < m) (i : Nat) :
    (ofColumns n ((List.range' 0 m).map g)).get i j = (g j).getD i 0 := by
  simp [ofColumns, List.getD_eq_getElem?_getD, hj]

/-! ## Existence and uniqueness of the factors -/

/-- Every square matrix has an LU factorisation with row exchanges. -/
theorem exists_lu : ∀ {n : Nat} (A : Matrix (Fin n) (Fin n) ℝ), ∃ f, Factorises A f
  | 0, _ => ⟨⟨1, 0⟩, fun i => i.elim0⟩
  | n + 1, A => by
    obtain ⟨p, hp⟩ : ∃ p, A p 0 = 0 → ∀ i, A i 0 = 0 := by
      by_cases h : ∃ p, A p 0 ≠ 0
      · obtain ⟨p, hp⟩ := h; exact ⟨p, fun h0 => absurd h0 hp⟩
      · push Not at h; exact ⟨0, fun _ => h⟩
    let B : Matrix (Fin (n + 1)) (Fin (n + 1)) ℝ := Matrix.of fun i j => A (Equiv.swap 0 p i) j
    have hB : B 0 0 = 0 → ∀ i, B i 0 = 0 := fun h0 i => hp (by simpa [B] using h0) _
    let l : Fin n → ℝ := fun i => B i.succ 0 / B 0 0
    have hl : ∀ i, l i * B 0 0 = B i.succ 0 := by
      intro i
      by_cases h0 : B 0 0 = 0
      · rw [h0, mul_zero, hB h0]
      · exact div_mul_cancel₀ _ h0
    obtain ⟨f, hf⟩ := exists_lu (Matrix.of fun i j : Fin n => B i.succ j.succ - l i * B 0 j.succ)
    refine ⟨⟨(Equiv.Perm.decomposeFin.symm (0, f.perm)).trans (Equiv.swap 0 p),
      Matrix.of fun i => Fin.cases (B 0) (fun i' => Fin.cons (l (f.perm i')) (f.lu i')) i⟩, ?_⟩
    intro i
    refine Fin.cases ?_ (fun i => ?_) i
    · intro j
      simp only [Matrix.mul_apply, Fin.sum_univ_succ, unitLower, upper, Matrix.of_apply, Fin.cases_zero]
      rw [Finset.sum_eq_zero]
      · simp [B, Equiv.Perm.decomposeFin_symm_apply_zero]
      · intro k _
        rw [if_neg (Fin.not_lt_zero _), if_neg (Fin.succ_ne_zero k).symm, zero_mul]
    · intro j
      refine Fin.cases ?_ (fun j => ?_) j
      · simp only [Matrix.mul_apply, Fin.sum_univ_succ, unitLower, upper, Matrix.of_apply, Fin.cases_zero]
        rw [Finset.sum_eq_zero]
        · simp [Equiv.Perm.decomposeFin_symm_apply_succ]
          rw [hl]; simp [B]
        · intro k _
          simp
      · have := hf i j
        simp only [Matrix.mul_apply, unitLower, upper, Matrix.of_apply] at this
        simp only [Matrix.mul_apply, Fin.sum_univ_succ, unitLower, upper, Matrix.of_apply, Fin.cases_zero]
        simp [Equiv.Perm.decomposeFin_symm_apply_succ, Fin.cases_succ]
        have e : A (Equiv.swap 0 p (f.perm i).succ) j.succ = B (f.perm i).succ j.succ := by simp [B]
        rw [e]
        simp only [mul_ite, ite_mul, zero_mul, one_mul, mul_zero] at this
        linarith

/-- A matrix has at most one Cholesky factor. -/
theorem cholesky_unique {n : Nat} {L M S : Matrix (Fin n) (Fin n) ℝ} (hL : IsCholesky L S) (hM : IsCholesky M S) : L = M := by
  obtain ⟨l0, lp, le⟩ := hL
  obtain ⟨m0, mp, me⟩ := hM
  have key : ∀ k : Nat, ∀ j : Fin n, j.1 < k → ∀ i, L i j = M i j := by
    intro k
    induction k with
    | zero => intro j hj; omega
    | succ k ih =>
      intro j hj
      rcases Nat.lt_or_ge j.1 k with h | h
      · exact ih j h
      have hjk : j.1 = k := by omega
      have hs : ∀ (N : Matrix (Fin n) (Fin n) ℝ), (∀ a b, a < b → N a b = 0) → ∀ i, (N * N.transpose) i j
          = (∑ a : Fin n, if a < j then N i a * N j a else 0) + N i j * N j j := by
        intro N h0 i
        rw [Matrix.mul_apply, ← Finset.add_sum_erase _ _ (Finset.mem_univ j),
          ← Finset.add_sum_erase (f := fun a => if a < j then N i a * N j a else 0) Finset.univ (Finset.mem_univ j)]
        rw [if_neg (lt_irrefl j), zero_add, add_comm]
        congr 1
        apply Finset.sum_congr rfl
        intro a ha
        rw [Matrix.transpose_apply]
        by_cases haj : a < j
        · rw [if_pos haj]
        · rw [if_neg haj, h0 j a (lt_of_le_of_ne (not_lt.mp haj) (Finset.ne_of_mem_erase ha).symm), mul_zero]
      have hsame : ∀ i, (∑ a : Fin n, if a < j then L i a * L j a else 0) = ∑ a : Fin n, if a < j then M i a * M j a else 0 := by
        intro i
        apply Finset.sum_congr rfl
        intro a _
        by_cases haj : a < j
        · rw [if_pos haj, if_pos haj, ih a (by have := Fin.lt_def.mp haj; omega) i, ih a (by have := Fin.lt_def.mp haj; omega) j]
        · rw [if_neg haj, if_neg haj]
      have heq : ∀ i, L i j * L j j = M i j * M j j := by
        intro i
        have h1 := hs L l0 i
        have h2 := hs M m0 i
        rw [le, hsame i] at h1
        rw [me] at h2
        linarith
      have hjj : L j j = M j j := by
        have := heq j
        have h1 := lp j
        have h2 := mp j
        nlinarith [mul_self_eq_mul_self_iff.mp this]
      intro i
      have := heq i
      rw [hjj] at this
      exact mul_right_cancel₀ (mp j).ne' this
  ext i j
  exact key n j j.2 i

/-- Every positive definite matrix has a Cholesky factor. -/
theorem exists_cholesky {n : Nat} {S : Matrix (Fin n) (Fin n) ℝ} (hS : S.PosDef) : ∃ L, IsCholesky L S := by
  let L := LDL.lower hS
  let e := LDL.diagEntries hS
  have hLI : Matrix.BlockTriangular (LDL.lowerInv hS) OrderDual.toDual := fun i j hij => LDL.lowerInv_triangular hS hij
  have hL0 : ∀ i j, i < j → L i j = 0 := by
    have := Matrix.blockTriangular_inv_of_blockTriangular hLI
    intro i j hij
    exact this hij
  have hdet : L.det ≠ 0 := by
    have : IsUnit (LDL.lowerInv hS).det := Matrix.isUnit_det_of_invertible _
    exact (Matrix.isUnit_nonsing_inv_det _ this).ne_zero
  have hLd : ∀ i, L i i ≠ 0 := by
    have h1 : L.det = ∏ i, L i i := Matrix.det_of_isLowerTriangular _ (fun i j hij => hL0 i j hij)
    rw [h1] at hdet
    exact fun i => Finset.prod_ne_zero_iff.mp hdet i (Finset.mem_univ i)
  have he : ∀ i, 0 < e i := by
    intro i
    have h1 : (LDL.diag hS).PosDef := by
      rw [LDL.diag_eq_lowerInv_conj]
      exact hS.mul_mul_conjTranspose_same (Matrix.vecMul_injective_of_invertible _)
    have := h1.diag_pos (i := i)
    simpa [LDL.diag, e] using this
  let s : Fin n → ℝ := fun i => SignType.sign (L i i) * Real.sqrt (e i)
  have hs : ∀ i, s i * s i = e i := by
    intro i
    have h1 : (SignType.sign (L i i) : ℝ) * SignType.sign (L i i) = 1 := by
      rcases lt_or_gt_of_ne (hLd i) with h | h
      · simp [sign_neg h]
      · simp [sign_pos h]
    calc s i * s i = ((SignType.sign (L i i) : ℝ) * SignType.sign (L i i)) * (Real.sqrt (e i) * Real.sqrt (e i)) := by
          simp only [s]; ring
      _ = e i := by rw [h1, Real.mul_self_sqrt (he i).le, one_mul]
  refine ⟨L * Matrix.diagonal s, ?_, ?_, ?_⟩
  · intro i j hij
    rw [Matrix.mul_diagonal, hL0 i j hij, zero_mul]
  · intro i
    rw [Matrix.mul_diagonal]
    have : L i i * s i = |L i i| * Real.sqrt (e i) := by
      rw [← self_mul_sign (L i i)]; ring
    rw [this]
    exact mul_pos (abs_pos.mpr (hLd i)) (Real.sqrt_pos.mpr (he i))
  · rw [Matrix.transpose_mul, Matrix.diagonal_transpose, Matrix.mul_assoc, ← Matrix.mul_assoc (Matrix.diagonal s),
      Matrix.diagonal_mul_diagonal]
    have h2 := LDL.lower_conj_diag hS
    rw [Matrix.conjTranspose_eq_transpose_of_trivial, Matrix.mul_assoc] at h2
    simp only [hs]
    exact h2

end MParT.LinAlg
