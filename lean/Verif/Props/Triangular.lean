import Verif.Lemmas.Triangular
import Verif.Lemmas.ToyMap
import Verif.Props.Identity
import Mathlib.LinearAlgebra.Matrix.SchurComplement
import Mathlib.Analysis.SpecialFunctions.Log.Basic
/-! Properties C40–C43: `TriangularMap`. -/
namespace MParT
open Spec

theorem chain_iff {e : Nat} {m : CMap} {ms : List CMap} :
    Chain e (m :: ms) ↔ m.inputDim = e + m.outputDim ∧
      (m :: ms).IsChain (fun a b => b.inputDim = a.inputDim + b.outputDim) := by
  induction ms generalizing e m with
  | nil => simp [Chain]
  | cons m' ms ih =>
    rw [Chain, ih, List.isChain_cons_cons]

/-- C40: the constructor accepts exactly the non-empty lists in which no component has more outputs than inputs and every
component takes the inputs of the previous one plus one for each of its own outputs. -/
theorem C40_new (comps : List CMap) :
    (∃ t, TriangularMap.new comps = .ok t) ↔ comps ≠ [] ∧ (∀ m ∈ comps, m.outputDim ≤ m.inputDim) ∧
      comps.IsChain (fun a b => b.inputDim = a.inputDim + b.outputDim) := by
  cases comps with
  | nil => simp [TriangularMap.new]
  | cons m ms =>
    constructor
    · rintro ⟨t, ht⟩
      obtain ⟨hne, ⟨e, hch⟩, -⟩ := new_triangular.mp ht
      refine ⟨hne, ?_, (chain_iff.mp hch).2⟩
      have aux : ∀ (l : List CMap) e, Chain e l → ∀ m ∈ l, m.outputDim ≤ m.inputDim := by
        intro l
        induction l with
        | nil => simp
        | cons a l ih =>
          intro e h m hm
          rcases List.mem_cons.mp hm with rfl | hm
          · rw [h.1]; omega
          · exact ih _ h.2 _ hm
      exact aux _ _ hch
    · rintro ⟨-, hle, hc⟩
      refine ⟨_, new_triangular.mpr ⟨by simp, ⟨m.inputDim - m.outputDim, chain_iff.mpr ⟨?_, hc⟩⟩, rfl⟩⟩
      have := hle m (by simp)
      omega

theorem obj_sizes {e : Nat} {comps : List CMap} (hne : comps ≠ []) (hch : Chain e comps) :
    (TriangularMap.obj comps).inputDim = e + (comps.map CMap.outputDim).sum ∧
    (TriangularMap.obj comps).outputDim = (comps.map CMap.outputDim).sum ∧
    (TriangularMap.obj comps).numCoeffs = (comps.map CMap.numCoeffs).sum := by
  cases comps with
  | nil => simp at hne
  | cons m ms => exact ⟨hch.last, rfl, rfl⟩

theorem fn_triangular {comps : List CMap} {e : Nat} (hne : comps ≠ []) (hch : Chain e comps)
    (hE : ∀ m ∈ comps, Evaluates m) {c x : List ℝ} (hf : Fits (TriangularMap.obj comps) c x) (out : List ℝ)
    (ho : out.length = (TriangularMap.obj comps).outputDim) :
    (TriangularMap.obj comps).eval c x out = .ok (stacked comps c x) := by
  obtain ⟨h1, h2, h3⟩ := obj_sizes hne hch
  have := evalLoop_eq (c := c) (pts := x) comps hE (fun m hm => by rw [hf.2, h1]; exact hch.le hm) 0 0 out
    (by rw [hf.1, h3]; simp) (by rw [ho, h2]; simp)
  change TriangularMap.evalLoop c x comps 0 0 out = _
  simpa using this

/-- C40: the outputs of the components are stacked, component `i` being applied to its first `inputDim_i` inputs with the
`i`-th block of coefficients; nothing depends on what the output contained. -/
theorem C40_evaluate {comps : List CMap} {t : CMap} (ht : TriangularMap.new comps = .ok t)
    (hE : ∀ m ∈ comps, Evaluates m) :
    Evaluates t ∧ ∀ c x, Fits t c x → fn t c x = stacked comps c x := by
  obtain ⟨hne, ⟨e, hch⟩, rfl⟩ := new_triangular.mp ht
  obtain ⟨h1, h2, h3⟩ := obj_sizes hne hch
  have key : ∀ c x, Fits (TriangularMap.obj comps) c x → fn (TriangularMap.obj comps) c x = stacked comps c x := by
    intro c x hf
    rw [fn, fn_triangular hne hch hE hf _ (by simp)]
    rfl
  refine ⟨fun c x hf => ⟨?_, fun out ho => ?_⟩, key⟩
  · rw [key c x hf, stacked_length hE (fun m hm => by rw [hf.2, h1]; exact hch.le hm) (by rw [hf.1, h3]), h2]
  · rw [key c x hf]; exact fn_triangular hne hch hE hf out ho

theorem stacked_prefix {pre post : List CMap} {m : CMap} {c x x' : List ℝ}
    (hmono : ∀ m' ∈ pre, m'.inputDim ≤ m.inputDim) (h : x.take m.inputDim = x'.take m.inputDim) :
    stacked (pre ++ [m]) c x = stacked (pre ++ [m]) c x' := by
  induction pre generalizing c with
  | nil => simp [stacked, h]
  | cons a pre ih =>
    have ha := hmono a (by simp)
    have : x.take a.inputDim = x'.take a.inputDim := by
      have := congrArg (List.take a.inputDim) h
      simpa [List.take_take, Nat.min_eq_left ha] using this
    rw [List.cons_append, stacked, stacked, this, ih (fun m' h' => hmono m' (by simp [h']))]

theorem stacked_append (a b : List CMap) (c x : List ℝ) :
    stacked (a ++ b) c x = stacked a c x ++ stacked b (c.drop (a.map CMap.numCoeffs).sum) x := by
  induction a generalizing c with
  | nil => simp [stacked]
  | cons m a ih => simp [stacked, ih, List.drop_drop]

theorem Chain.append {e : Nat} {a b : List CMap} (h : Chain e (a ++ b)) :
    Chain e a ∧ Chain (e + (a.map CMap.outputDim).sum) b := by
  induction a generalizing e with
  | nil => simpa [Chain] using h
  | cons m a ih =>
    obtain ⟨h1, h2⟩ := ih h.2
    refine ⟨⟨h.1, h1⟩, ?_⟩
    rw [h.1] at h2
    simpa [Nat.add_assoc] using h2

/-- C40: block `k` of the output, and all blocks before it, depend only on the first `inputDim_k` inputs. -/
theorem C40_causal {pre post : List CMap} {m t : CMap} (ht : TriangularMap.new (pre ++ m :: post) = .ok t)
    (hE : ∀ m' ∈ pre ++ m :: post, Evaluates m') {c x x' : List ℝ} (hf : Fits t c x) (hf' : Fits t c x')
    (h : x.take m.inputDim = x'.take m.inputDim) :
    (fn t c x).take ((pre ++ [m]).map CMap.outputDim).sum = (fn t c x').take ((pre ++ [m]).map CMap.outputDim).sum := by
  obtain ⟨-, key⟩ := C40_evaluate ht hE
  obtain ⟨hne, ⟨e, hch⟩, rfl⟩ := new_triangular.mp ht
  obtain ⟨h1, h2, h3⟩ := obj_sizes hne hch
  have hsplit : pre ++ m :: post = (pre ++ [m]) ++ post := by simp
  have hmono : ∀ m' ∈ pre, m'.inputDim ≤ m.inputDim := by
    intro m' hm'
    have hap := hch.append
    have := hap.1.le hm'
    have h4 : m.inputDim = _ := hap.2.1
    omega
  have hlen : ∀ y, Fits (TriangularMap.obj (pre ++ m :: post)) c y →
      (stacked (pre ++ [m]) (c.take ((pre ++ [m]).map CMap.numCoeffs).sum) y).length
        = ((pre ++ [m]).map CMap.outputDim).sum := by
    intro y hy
    apply stacked_length
    · intro m' hm'; exact hE m' (by rw [hsplit]; exact List.mem_append_left _ hm')
    · intro m' hm'; rw [hy.2, h1]; exact hch.le (by rw [hsplit]; exact List.mem_append_left _ hm')
    · rw [List.length_take, hy.1, h3, hsplit, List.map_append (l₂ := post), List.sum_append]
      omega
  have hpre : ∀ (l : List CMap) (c : List ℝ) y, stacked l c y = stacked l (c.take (l.map CMap.numCoeffs).sum) y := by
    intro l
    induction l with
    | nil => intros; rfl
    | cons a l ih =>
      intro c y
      rw [stacked, stacked, ih (c.drop a.numCoeffs)]
      simp only [List.map_cons, List.sum_cons]
      rw [List.take_take, Nat.min_eq_left (by omega), List.drop_take]
      congr 3
      omega
  rw [key c x hf, key c x' hf', hsplit, stacked_append (pre ++ [m]), stacked_append (pre ++ [m]), hpre (pre ++ [m]) c x,
    hpre (pre ++ [m]) c x', List.take_append_of_le_length (by rw [hlen x hf]), List.take_append_of_le_length (by rw [hlen x' hf']),
    stacked_prefix (post := post) hmono h]

/-- C41: if the inverse of every component is exact, so is the inverse of the triangular map, whether it is given only the
leading inputs or a full input vector. -/
theorem C41_inverse {comps : List CMap} {t : CMap} (ht : TriangularMap.new comps = .ok t)
    (hE : ∀ m ∈ comps, Evaluates m) (hI : ∀ m ∈ comps, InvertsFrom m m.inputDim) {k : Nat}
    (hk : t.inputDim - t.outputDim ≤ k) (hk' : k ≤ t.inputDim) : InvertsFrom t k := by
  obtain ⟨-, key⟩ := C40_evaluate ht hE
  obtain ⟨hne, ⟨e, hch⟩, rfl⟩ := new_triangular.mp ht
  obtain ⟨h1, h2, h3⟩ := obj_sizes hne hch
  intro c x1 r hc hx1 hr out ho
  rw [h1, h2] at hk
  rw [h1] at hk'
  have hlen : (putRows (List.replicate (TriangularMap.obj comps).inputDim 0) 0 x1.length x1).length
      = e + 0 + (comps.map CMap.outputDim).sum := by
    rw [putRows_length (by simp [h1]; omega) rfl]; simp [h1]
  obtain ⟨y, hy, hl, hr1, hu⟩ := inverseInplace_eq (c := c) (r := r) (e := e) comps hE hI 0 0
    (putRows (List.replicate (TriangularMap.obj comps).inputDim 0) 0 x1.length x1) (by simpa using hch)
    (by rw [hc, h3]; simp) (by rw [hr, h2]; simp) hlen
  have htk : (putRows (List.replicate (TriangularMap.obj comps).inputDim 0) 0 x1.length x1).take (e + 0) = x1.take e := by
    simp only [putRows, List.take_zero, List.nil_append, Nat.add_zero, Nat.zero_add]
    rw [List.take_append_of_le_length (by omega)]
  rw [htk] at hy hr1 hu
  simp only [List.drop_zero] at hr1 hu
  have hext : (TriangularMap.obj comps).inputDim - (TriangularMap.obj comps).outputDim = e := by omega
  have hfit : ∀ y' : List ℝ, y'.length = (TriangularMap.obj comps).outputDim →
      Fits (TriangularMap.obj comps) c (x1.take e ++ y') := by
    intro y' hy'
    refine ⟨hc, ?_⟩
    simp [hy', h1, h2]
    omega
  refine ⟨y, ?_, by rw [hl, h2], ?_, ?_⟩
  · have hinv : (TriangularMap.obj comps).inv c x1 r out = TriangularMap.inverse comps (TriangularMap.obj comps).inputDim
        (TriangularMap.obj comps).outputDim c x1 r out := rfl
    rw [hinv, TriangularMap.inverse]

    rw [rows_ok (by simp [h1]; omega), Res.bind_ok, deepCopy_ok (by simp [h1]; omega), Res.bind_ok, hext, hy,
      Res.bind_ok, rows_ok (by simp [hl, h2]; omega), Res.bind_ok]
    have : ((x1.take e ++ y).drop e).take (TriangularMap.obj comps).outputDim = y := by
      have hel : (x1.take e).length = e := by simp; omega
      conv_lhs => rw [show (x1.take e ++ y).drop e = y from by rw [List.drop_append_of_le_length (by omega)]; simp]
      rw [List.take_of_length_le (by omega)]
    rw [this, deepCopy_ok (by rw [ho, hl, h2])]
  · rw [hext, key _ _ (hfit y (by rw [hl, h2])), hr1]
  · intro y' hy' heq
    rw [hext, key _ _ (hfit y' hy')] at heq
    exact hu y' (by rw [hy', h2]) heq

/-- Round trip with an exact inverse: `Inverse(x1, Evaluate([x1; x2])) = x2`, and `Evaluate([x1; Inverse(x1, r)]) = r`. -/
theorem C41_roundtrip {m : CMap} {k : Nat} (hI : InvertsFrom m k) (hE : Evaluates m) (hd : m.outputDim ≤ m.inputDim)
    (hk : m.inputDim - m.outputDim ≤ k) {c x1 out : List ℝ} (hc : c.length = m.numCoeffs) (hx1 : x1.length = k)
    (ho : out.length = m.outputDim) :
    (∀ x2 : List ℝ, x2.length = m.outputDim →
      m.inv c x1 (fn m c (x1.take (m.inputDim - m.outputDim) ++ x2)) out = .ok x2) ∧
    (∀ r : List ℝ, r.length = m.outputDim →
      ∃ y, m.inv c x1 r out = .ok y ∧ fn m c (x1.take (m.inputDim - m.outputDim) ++ y) = r) := by
  constructor
  · intro x2 hx2
    have hfit : Fits m c (x1.take (m.inputDim - m.outputDim) ++ x2) := ⟨hc, by simp [hx2]; omega⟩
    obtain ⟨y, hy, -, -, hu⟩ := hI c x1 _ hc hx1 (hE _ _ hfit).1 out ho
    rw [hy, hu x2 hx2 rfl]
  · intro r hr
    obtain ⟨y, hy, -, h, -⟩ := hI c x1 r hc hx1 hr out ho
    exact ⟨y, hy, h⟩

/-- C41: `InverseInplace` leaves the leading inputs and puts the same solution in the remaining rows. -/
theorem C41_inplace {comps : List CMap} {t : CMap} (ht : TriangularMap.new comps = .ok t)
    (hE : ∀ m ∈ comps, Evaluates m) (hI : ∀ m ∈ comps, InvertsFrom m m.inputDim) {c x r out : List ℝ}
    (hc : c.length = t.numCoeffs) (hx : x.length = t.inputDim) (hr : r.length = t.outputDim)
    (ho : out.length = t.outputDim) :
    ∃ y, t.inv c x r out = .ok y ∧ TriangularMap.inverseInplace c r (t.inputDim - t.outputDim) comps 0 0 x
      = .ok (x.take (t.inputDim - t.outputDim) ++ y) := by
  obtain ⟨y, hy, hl, hr0, hu⟩ := C41_inverse ht hE hI (Nat.sub_le _ _) (le_refl _) c x r hc hx hr out ho
  refine ⟨y, hy, ?_⟩
  obtain ⟨-, key⟩ := C40_evaluate ht hE
  obtain ⟨hne, ⟨e, hch⟩, rfl⟩ := new_triangular.mp ht
  obtain ⟨h1, h2, h3⟩ := obj_sizes hne hch
  have hext : (TriangularMap.obj comps).inputDim - (TriangularMap.obj comps).outputDim = e := by omega
  rw [hext] at hu ⊢
  obtain ⟨y', hy', hl', hr1, -⟩ := inverseInplace_eq (c := c) (r := r) (e := e) comps hE hI 0 0 x (by simpa using hch)
    (by rw [hc, h3]; simp) (by rw [hr, h2]; simp) (by rw [hx, h1]; simp)
  simp only [Nat.add_zero, List.drop_zero] at hy' hr1
  rw [hy', hu y' (by rw [hl', h2]) (by
    rw [key]
    · exact hr1
    · exact ⟨hc, by simp [hl', hx, h1]⟩)]

/-- C41 for inverses that are not exact: whatever the inverse of each component guarantees of its result, at the leading
inputs it was given, holds block by block of the result of the triangular inverse, each block being solved at the leading
inputs followed by the blocks already computed. -/
theorem C41_blockwise {comps : List CMap} {t : CMap} (ht : TriangularMap.new comps = .ok t)
    (P : CMap → (c lead y r : List ℝ) → Prop) (hP : ∀ m ∈ comps, InvertsUpTo P m m.inputDim) {k : Nat}
    (hk : t.inputDim - t.outputDim ≤ k) (hk' : k ≤ t.inputDim) : InvertsUpTo (fun _ => blockwise P comps) t k := by
  obtain ⟨hne, ⟨e, hch⟩, rfl⟩ := new_triangular.mp ht
  obtain ⟨h1, h2, h3⟩ := obj_sizes hne hch
  intro c x1 r hc hx1 hr out ho
  rw [h1, h2] at hk
  rw [h1] at hk'
  obtain ⟨y, hy, hl, hr1⟩ := inverseInplace_blockwise (c := c) (r := r) (e := e) P comps hP 0 0
    (putRows (List.replicate (TriangularMap.obj comps).inputDim 0) 0 x1.length x1) (by simpa using hch)
    (by rw [hc, h3]; simp) (by rw [hr, h2]; simp)
    (by rw [putRows_length (by simp [h1]; omega) rfl]; simp [h1])
  have htk : (putRows (List.replicate (TriangularMap.obj comps).inputDim 0) 0 x1.length x1).take (e + 0) = x1.take e := by
    simp only [putRows, List.take_zero, List.nil_append, Nat.add_zero, Nat.zero_add]
    rw [List.take_append_of_le_length (by omega)]
  rw [htk] at hy hr1
  simp only [List.drop_zero] at hr1
  have hext : (TriangularMap.obj comps).inputDim - (TriangularMap.obj comps).outputDim = e := by omega
  refine ⟨y, ?_, by rw [hl, h2], by rw [hext]; exact hr1⟩
  have hinv : (TriangularMap.obj comps).inv c x1 r out = TriangularMap.inverse comps (TriangularMap.obj comps).inputDim
      (TriangularMap.obj comps).outputDim c x1 r out := rfl
  rw [hinv, TriangularMap.inverse]
  rw [rows_ok (by simp [h1]; omega), Res.bind_ok, deepCopy_ok (by simp [h1]; omega), Res.bind_ok, hext, hy,
    Res.bind_ok, rows_ok (by simp [hl, h2]; omega), Res.bind_ok]
  have : ((x1.take e ++ y).drop e).take (TriangularMap.obj comps).outputDim = y := by
    have hel : (x1.take e).length = e := by simp; omega
    conv_lhs => rw [show (x1.take e ++ y).drop e = y from by rw [List.drop_append_of_le_length (by omega)]; simp]
    rw [List.take_of_length_le (by omega)]
  rw [this, deepCopy_ok (by rw [ho, hl, h2])]

/-- C42: the log-determinant is the sum of the log-determinants of the components, whatever the output contained. -/
theorem C42_sum {comps : List CMap} {t : CMap} (ht : TriangularMap.new comps = .ok t) (hL : ∀ m ∈ comps, HasLogDet m) :
    HasLogDet t ∧ ∀ c x, Fits t c x → logdet t c x = stackedLogDet comps c x := by
  obtain ⟨hne, ⟨e, hch⟩, rfl⟩ := new_triangular.mp ht
  obtain ⟨h1, h2, h3⟩ := obj_sizes hne hch
  have key : ∀ c x, Fits (TriangularMap.obj comps) c x → ∀ o, (TriangularMap.obj comps).logDet c x o
      = .ok (some (stackedLogDet comps c x)) := fun c x hf o =>
    logDet_eq hne hL (fun m hm => by rw [hf.2, h1]; exact hch.le hm) (by rw [hf.1, h3]) o
  have key' : ∀ c x, Fits (TriangularMap.obj comps) c x → logdet (TriangularMap.obj comps) c x = stackedLogDet comps c x := by
    intro c x hf
    rw [logdet, key c x hf]
    rfl
  exact ⟨fun c x hf o => by rw [key' c x hf]; exact key c x hf o, key'⟩

/-- The determinant of the Jacobian of two stacked functions, the first of which does not depend on the last inputs. -/
theorem det_jac_append {F G H : List ℝ → List ℝ} {off a b : Nat} {x : List ℝ} (hoff : off + a + b ≤ x.length)
    (hF : ∀ y : List ℝ, y.length = x.length → F y = G y ++ H y)
    (hG : ∀ y : List ℝ, y.length = x.length → (G y).length = a)
    (hloc : ∀ j t, off + a ≤ j → G (x.set j t) = G x) :
    (jac F off (a + b) x).det = (jac G off a x).det * (jac H (off + a) b x).det := by
  rw [← Matrix.det_reindex_self finSumFinEquiv.symm, ← Matrix.det_fromBlocks_zero₁₂ (jac G off a x)
    (Matrix.of fun (i : Fin b) (j : Fin a) =>
      deriv (fun t => (H (x.set (off + j) t)).getD i 0) (x.getD (off + j) 0)) (jac H (off + a) b x)]
  congr 1
  ext i j
  have hset : ∀ k t, (x.set k t).length = x.length := fun k t => by simp
  rcases i with i | i <;> rcases j with j | j
  · simp only [Matrix.reindex_apply, Matrix.submatrix_apply, Equiv.symm_symm, finSumFinEquiv_apply_left, jac,
      Matrix.of_apply, Fin.val_castAdd, Matrix.fromBlocks_apply₁₁]
    congr 1
    funext t
    rw [hF _ (hset _ _), getD_append_left (by rw [hG _ (hset _ _)]; exact i.2)]
  · simp only [Matrix.reindex_apply, Matrix.submatrix_apply, Equiv.symm_symm, finSumFinEquiv_apply_left, jac,
      Matrix.of_apply, Fin.val_castAdd, Matrix.fromBlocks_apply₁₂, finSumFinEquiv_apply_right, Fin.val_natAdd,
      Matrix.zero_apply]
    rw [show (fun t => (F (x.set (off + (a + (j : Nat))) t)).getD i 0) = fun _ => (G x).getD i 0 from by
      funext t
      rw [hF _ (hset _ _), getD_append_left (by rw [hG _ (hset _ _)]; exact i.2), hloc _ _ (by omega)]]
    exact deriv_const _ _
  · simp only [Matrix.reindex_apply, Matrix.submatrix_apply, Equiv.symm_symm, finSumFinEquiv_apply_left, jac,
      Matrix.of_apply, Fin.val_castAdd, Matrix.fromBlocks_apply₂₁, finSumFinEquiv_apply_right, Fin.val_natAdd]
    congr 1
    funext t
    rw [hF _ (hset _ _)]
    have := getD_append_right (a := G (x.set (off + (j : Nat)) t)) (b := H (x.set (off + (j : Nat)) t)) (i := i)
    rwa [hG _ (hset _ _)] at this
  · simp only [Matrix.reindex_apply, Matrix.submatrix_apply, Equiv.symm_symm, jac,
      Matrix.of_apply, Matrix.fromBlocks_apply₂₂, finSumFinEquiv_apply_right, Fin.val_natAdd]
    rw [Nat.add_assoc off a j]
    congr 1
    funext t
    rw [hF _ (hset _ _)]
    have := getD_append_right (a := G (x.set (off + (a + (j : Nat))) t)) (b := H (x.set (off + (a + (j : Nat))) t)) (i := i)
    rwa [hG _ (hset _ _)] at this

theorem stacked_jacobian {ms : List CMap} : ∀ {e : Nat} {c x : List ℝ}, Chain e ms → (∀ m ∈ ms, Evaluates m) →
    (∀ m ∈ ms, LogDetIsJacobian m) → c.length = (ms.map CMap.numCoeffs).sum →
    x.length = e + (ms.map CMap.outputDim).sum →
    ∀ N, (∀ m ∈ ms, m.inputDim ≤ N) → N = x.length →
    (jac (stacked ms c) e (ms.map CMap.outputDim).sum x).det ≠ 0 ∧
      stackedLogDet ms c x = Real.log |(jac (stacked ms c) e (ms.map CMap.outputDim).sum x).det| := by
  induction ms with
  | nil =>
    intro e c x _ _ _ _ _ N _ _
    have : (jac (stacked [] c) e (([] : List CMap).map CMap.outputDim).sum x).det = 1 :=
      Matrix.det_isEmpty (n := Fin 0)
    rw [this]
    simp [stackedLogDet]
  | cons m ms ih =>
    intro e c x hch hE hL hc hx N hN hNx
    simp only [List.map_cons, List.sum_cons] at hc hx
    have hin := hch.1
    have hle : m.inputDim ≤ x.length := by omega
    have hfit : Fits m (c.take m.numCoeffs) (x.take m.inputDim) := ⟨by simp [hc], by simp [hle]⟩
    have hm := hL m (by simp) _ _ hfit
    have hdet := det_jac_append (F := stacked (m :: ms) c) (G := fun y => fn m (c.take m.numCoeffs) (y.take m.inputDim))
      (H := stacked ms (c.drop m.numCoeffs)) (off := e) (a := m.outputDim) (b := (ms.map CMap.outputDim).sum) (x := x)
      (by omega) (fun y _ => rfl)
      (fun y hy => (hE m (by simp) _ _ ⟨by simp [hc], by simp [hy, hle]⟩).1)
      (fun j t hj => by rw [List.take_set_of_le (by omega)])
    have hsub : jac (fun y => fn m (c.take m.numCoeffs) (y.take m.inputDim)) e m.outputDim x
        = jacobian m (c.take m.numCoeffs) (x.take m.inputDim) := by
      ext i j
      simp only [jac, jacobian, Matrix.of_apply]
      have he : m.inputDim - m.outputDim = e := by omega
      rw [he, getD_take (by omega)]
      simp only [List.take_set]
    have h2 := ih (e := m.inputDim) (c := c.drop m.numCoeffs) (x := x) hch.2 (fun m' h' => hE m' (by simp [h']))
      (fun m' h' => hL m' (by simp [h'])) (by simp [hc]) (by omega) N (fun m' h' => hN m' (by simp [h'])) hNx
    rw [List.map_cons, List.sum_cons, hdet, hsub, ← hin, stackedLogDet, hm.2, h2.2, abs_mul,
      Real.log_mul (abs_ne_zero.mpr hm.1) (abs_ne_zero.mpr h2.1)]
    exact ⟨mul_ne_zero hm.1 h2.1, rfl⟩

/-- C42: the log-determinant is `log|det|` of the (block lower triangular) Jacobian with respect to the last `outputDim`
inputs, if that is so for every component. -/
theorem C42_jacobian {comps : List CMap} {t : CMap} (ht : TriangularMap.new comps = .ok t)
    (hE : ∀ m ∈ comps, Evaluates m) (hL : ∀ m ∈ comps, HasLogDet m) (hJ : ∀ m ∈ comps, LogDetIsJacobian m) :
    LogDetIsJacobian t := by
  obtain ⟨-, key⟩ := C40_evaluate ht hE
  obtain ⟨-, keyL⟩ := C42_sum ht hL
  obtain ⟨hne, ⟨e, hch⟩, rfl⟩ := new_triangular.mp ht
  obtain ⟨h1, h2, h3⟩ := obj_sizes hne hch
  intro c x hf
  have hext : (TriangularMap.obj comps).inputDim - (TriangularMap.obj comps).outputDim = e := by omega
  have hj : jacobian (TriangularMap.obj comps) c x = jac (stacked comps c) e (TriangularMap.obj comps).outputDim x := by
    ext i j
    simp only [jacobian, jac, Matrix.of_apply]
    rw [hext]
    congr 1
    funext t
    rw [key _ _ ⟨hf.1, by rw [List.length_set]; exact hf.2⟩]
  rw [hj, keyL c x hf]
  exact stacked_jacobian hch hE hJ (by rw [hf.1, h3]) (by rw [hf.2, h1]) x.length
    (fun m hm => by rw [hf.2, h1]; exact hch.le hm) rfl

/-- C43: `Gradient` and `CoeffGrad` give the gradient of `s · Evaluate` with respect to inputs and coefficients. -/
theorem C43_gradient {comps : List CMap} {t : CMap} (ht : TriangularMap.new comps = .ok t)
    (hE : ∀ m ∈ comps, Evaluates m) (hD : ∀ m ∈ comps, Differentiates m) : Differentiates t := by
  obtain ⟨-, key⟩ := C40_evaluate ht hE
  obtain ⟨hne, ⟨e, hch⟩, rfl⟩ := new_triangular.mp ht
  obtain ⟨h1, h2, h3⟩ := obj_sizes hne hch
  intro c x s hf hs
  have hin : ∀ m ∈ comps, m.inputDim ≤ x.length := fun m hm => by rw [hf.2, h1]; exact hch.le hm
  have hc : c.length = (comps.map CMap.numCoeffs).sum := by rw [hf.1, h3]
  have hs' : s.length = (comps.map CMap.outputDim).sum := by rw [hs, h2]
  have hgr := fun m hm => grads_of_differentiates (hD m hm)
  have hsum := grads_sum (G := coeffGrad) (H := grad) (f := fun m s c x => dot s (fn m c x)) comps (c := c) (x := x) (s := s)
    hgr hin hc hs'
  have hg : ∀ out : List ℝ, out.length = (TriangularMap.obj comps).inputDim → (TriangularMap.obj comps).grad c x s out
      = .ok (gradSum grad comps c x s) := by
    intro out ho
    have : (TriangularMap.obj comps).grad c x s out = TriangularMap.gradient comps c x s out := rfl
    rw [this, TriangularMap.gradient, zeroRows_eq _ _ _ (by rw [ho, hf.2]; omega), Res.bind_ok]
    have hz : out.take 0 ++ zeros x.length ++ out.drop (0 + x.length) = zeros x.length := by
      simp [List.drop_eq_nil_of_le, ho, hf.2]
    rw [hz, gradLoop_eq comps hD hin 0 0 _ (by rw [hc]; simp) (by rw [hs']; simp) (by simp)]
    have hl := gradSum_length hgr hin hc hs'
    have := zipWith_zeros (gradSum grad comps c x s)
    rw [hl] at this
    simp only [List.drop_zero, this]
  have hcg : ∀ out : List ℝ, out.length = (TriangularMap.obj comps).numCoeffs → (TriangularMap.obj comps).coeffGrad c x s out
      = .ok (gradStack coeffGrad comps c x s) := by
    intro out ho
    have := coeffGradLoop_eq (c := c) (pts := x) (sens := s) comps hD hin 0 0 out (by rw [hc]; simp) (by rw [hs']; simp)
      (by rw [ho, h3]; simp)
    change TriangularMap.coeffGradLoop c x s comps 0 0 out = _
    simpa using this
  have e1 : grad (TriangularMap.obj comps) c x s = gradSum grad comps c x s := by
    rw [grad, hg _ (by simp)]; rfl
  have e2 : coeffGrad (TriangularMap.obj comps) c x s = gradStack coeffGrad comps c x s := by
    rw [coeffGrad, hcg _ (by simp)]; rfl
  refine ⟨fun out ho => by rw [e1]; exact hg out ho, fun _ out ho => by rw [e2]; exact hcg out ho, ?_⟩
  rw [e1, e2, h3, ← hf.2]
  refine ⟨hsum.1, hsum.2.1, fun γ δ vc vx t₀ hγ hδ hγc hδx => ?_⟩
  have := hsum.2.2 γ δ vc vx t₀ hγ hδ hγc hδx
  refine this.congr_of_eventuallyEq (Filter.Eventually.of_forall fun t => ?_)
  simp only
  rw [key _ _ ⟨by rw [hγ.1 t, h3], by rw [hδ.1 t]; exact hf.2⟩,
    scalarSum_stacked hE (fun m hm => by rw [hδ.1 t]; exact hin m hm) (hγ.1 t) hs']

/-- C43: `LogDeterminantCoeffGrad` and `LogDeterminantInputGrad` give the gradient of `LogDeterminant`, provided every
component does so whatever its output buffer contained. -/
theorem C43_logDet {comps : List CMap} {t : CMap} (ht : TriangularMap.new comps = .ok t)
    (hL : ∀ m ∈ comps, HasLogDet m) (hD : ∀ m ∈ comps, DifferentiatesLogDet m) : DifferentiatesLogDet t := by
  obtain ⟨-, key⟩ := C42_sum ht hL
  obtain ⟨hne, ⟨e, hch⟩, rfl⟩ := new_triangular.mp ht
  obtain ⟨h1, h2, h3⟩ := obj_sizes hne hch
  intro c x hf
  have hin : ∀ m ∈ comps, m.inputDim ≤ x.length := fun m hm => by rw [hf.2, h1]; exact hch.le hm
  have hc : c.length = (comps.map CMap.numCoeffs).sum := by rw [hf.1, h3]
  have hgr := fun m hm => grads_of_ld (hD m hm)
  have hs' : (zeros (comps.map CMap.outputDim).sum).length = (comps.map CMap.outputDim).sum := by simp
  have hsum := grads_sum comps (c := c) (x := x) hgr hin hc hs'
  have hg : ∀ out : List ℝ, out.length = (TriangularMap.obj comps).inputDim → (TriangularMap.obj comps).ldInputGrad c x out
      = .ok (gradSum (fun m c x _ => ldInputGrad m c x) comps c x (zeros (comps.map CMap.outputDim).sum)) := by
    intro out ho
    have : (TriangularMap.obj comps).ldInputGrad c x out = TriangularMap.ldInputGradLoop c x comps 0
        (List.replicate (TriangularMap.obj comps).inputDim 0) (zeros out.length) := rfl
    have hl := gradSum_length hgr hin hc hs'
    have hz := zipWith_zeros (gradSum (fun m c x _ => ldInputGrad m c x) comps c x (zeros (comps.map CMap.outputDim).sum))
    rw [hl] at hz
    rw [this, ho, ← hf.2, ldInputGradLoop_eq (zeros (comps.map CMap.outputDim).sum) comps hD hin 0 _ _ (by rw [hc]; simp)
      (by simp) (by simp)]
    simp only [List.drop_zero, hz]
  have hcg : ∀ out : List ℝ, out.length = (TriangularMap.obj comps).numCoeffs → (TriangularMap.obj comps).ldCoeffGrad c x out
      = .ok (gradStack (fun m c x _ => ldCoeffGrad m c x) comps c x (zeros (comps.map CMap.outputDim).sum)) := by
    intro out ho
    have := ldCoeffGradLoop_eq (c := c) (pts := x) (zeros (comps.map CMap.outputDim).sum) comps hD hin 0 out
      (by rw [hc]; simp) (by rw [ho, h3]; simp)
    change TriangularMap.ldCoeffGradLoop c x comps 0 out = _
    simpa using this
  have e1 := congrArg (value []) (hg (zeros (TriangularMap.obj comps).inputDim) (by simp))
  have e2 := congrArg (value []) (hcg (zeros (TriangularMap.obj comps).numCoeffs) (by simp))
  change ldInputGrad (TriangularMap.obj comps) c x = _ at e1
  change ldCoeffGrad (TriangularMap.obj comps) c x = _ at e2
  refine ⟨fun out ho => by rw [e1]; exact hg out ho, fun _ out ho => by rw [e2]; exact hcg out ho, ?_⟩
  rw [e1, e2, h3, ← hf.2]
  refine ⟨hsum.1, hsum.2.1, fun γ δ vc vx t₀ hγ hδ hγc hδx => ?_⟩
  have := hsum.2.2 γ δ vc vx t₀ hγ hδ hγc hδx
  refine this.congr_of_eventuallyEq (Filter.Eventually.of_forall fun t => ?_)
  simp only
  rw [key _ _ ⟨by rw [hγ.1 t, h3], by rw [hδ.1 t]; exact hf.2⟩, scalarSum_logdet]

/-! A concrete map that meets all hypotheses: `(x₁, x₂) ↦ (x₁, exp(a) x₂ + x₁²)`. -/

/-- The components of the example. -/
noncomputable def exampleComps : List CMap := [IdentityMap.obj 1 1, toy]

theorem example_new : TriangularMap.new exampleComps = .ok (TriangularMap.obj exampleComps) := by
  simp [TriangularMap.new, exampleComps, IdentityMap.obj, toy, TriangularMap.checkNext]

theorem example_all {P : CMap → Prop} (h1 : P (IdentityMap.obj 1 1)) (h2 : P toy) : ∀ m ∈ exampleComps, P m := by
  intro m hm
  simp only [exampleComps, List.mem_cons, List.not_mem_nil, or_false] at hm
  rcases hm with rfl | rfl
  · exact h1
  · exact h2

theorem example_evaluates : ∀ m ∈ exampleComps, Evaluates m :=
  example_all (C48_identity_evaluate (le_refl 1)).1 toy_evaluates

theorem example_inverts : ∀ m ∈ exampleComps, InvertsFrom m m.inputDim :=
  example_all (P := fun m => InvertsFrom m m.inputDim) (C48_identity_inverse (le_refl 1) (by decide))
    (toy_inverts (by decide))

example : fn (TriangularMap.obj exampleComps) [0] [3, 4] = [3, 13] := by
  rw [(C40_evaluate example_new example_evaluates).2 _ _ ⟨rfl, rfl⟩]
  simp only [stacked, exampleComps]
  rw [(C48_identity_evaluate (n := 1) (k := 1) (le_refl 1)).2 _ _ ⟨rfl, rfl⟩, toy_fn]
  simp [IdentityMap.obj, toy]
  norm_num

example : (TriangularMap.obj exampleComps).inv [0] [] [3, 13] [7, 7] = .ok [3, 4] := by
  have h := (C41_roundtrip (C41_inverse example_new example_evaluates example_inverts (k := 0) (by decide) (by decide))
    (C40_evaluate example_new example_evaluates).1 (by decide) (by decide) (c := [0]) (x1 := []) (out := [7, 7]) rfl rfl
    rfl).1 [3, 4] rfl
  rw [(C40_evaluate example_new example_evaluates).2 _ _ ⟨rfl, rfl⟩] at h
  simp only [stacked, exampleComps] at h
  rw [(C48_identity_evaluate (n := 1) (k := 1) (le_refl 1)).2 _ _ ⟨rfl, rfl⟩, toy_fn] at h
  rw [← h]
  simp [IdentityMap.obj, toy, TriangularMap.obj, exampleComps]
  norm_num

example : LogDetIsJacobian (TriangularMap.obj exampleComps) :=
  C42_jacobian example_new example_evaluates (example_all (C48_identity_logDet (le_refl 1)).1 toy_hasLogDet)
    (example_all (C48_identity_logDet (le_refl 1)).2.2 toy_jacobian)

example : Differentiates (TriangularMap.obj exampleComps) ∧ DifferentiatesLogDet (TriangularMap.obj exampleComps) :=
  ⟨C43_gradient example_new example_evaluates (example_all (C48_identity_gradient (le_refl 1)).1 toy_differentiates),
    C43_logDet example_new (example_all (C48_identity_logDet (le_refl 1)).1 toy_hasLogDet)
      (example_all C48_identity_logDetGradient toy_differentiatesLogDet)⟩

end MParT
