import Verif.Lemmas.Affine
import Verif.Lemmas.ToyMap
import Verif.Props.Composed
/-! Properties C48 (affine maps) and C47 (affine layers). -/
namespace MParT
open Spec Aff

section
variable {A : View2 ℝ} {b : List ℝ} {m n : Nat} {t : CMap}

/-- C48: an affine map computes `A x + b`, whatever the output buffer contained. -/
theorem C48_affine_evaluate (h : MakesAffine A b m n t) : Evaluates t ∧ t.inputDim = n ∧ t.outputDim = m ∧
    ∀ c x, Fits t c x → fn t c x = affine (matrix A) b m n x := by
  obtain ⟨hs, st, rfl⟩ := makes_iff h
  have e : ∀ c x, Fits (AffineMap.obj A b n m st) c x → fn (AffineMap.obj A b n m st) c x = affine (matrix A) b m n x := by
    intro c x hf
    exact congrArg (value []) (evaluate_eq hs hf.2 (out := zeros m) (by simp))
  refine ⟨fun c x hf => ?_, rfl, rfl, e⟩
  rw [e c x hf]
  exact ⟨affine_length, fun out ho => evaluate_eq hs hf.2 ho⟩

/-- C48: its inverse solves `A (x1, y) + b = r` for `y`, when the last columns of `A` are a regular matrix. -/
theorem C48_affine_inverse (h : MakesAffine A b m n t) (hd : (lastColumns (matrix A) m n).det ≠ 0) {k : Nat}
    (hk : n - m ≤ k) : InvertsFrom t k := by
  obtain ⟨-, -, -, e⟩ := C48_affine_evaluate h
  obtain ⟨hs, st, rfl⟩ := makes_iff h
  have hmn := hs.2.1
  intro c x1 r hc hx1 hr out ho
  have hr : r.length = m := hr
  have ho : out.length = m := ho
  have hl : (x1.take (n - m)).length = n - m := by simp; omega
  have ev : ∀ y : List ℝ, y.length = m → fn (AffineMap.obj A b n m st) c (x1.take (n - m) ++ y)
      = affine (matrix A) b m n (x1.take (n - m) ++ y) := fun y hy =>
    e c _ ⟨hc, by simp only [List.length_append, hl, hy]; change n - m + m = n; omega⟩
  obtain ⟨y, h1, h2, h3⟩ := inverse_ok (st := st) hs hd hx1 hk hr ho
  refine ⟨y, h1, h2, ?_, fun y' hy' hf => ?_⟩
  · change fn _ c (x1.take (n - m) ++ y) = r
    rw [ev y h2]
    refine list_ext affine_length hr fun i hi => ?_
    rw [affine_split hmn hl hi, h3]
    ring
  · have hy' : y'.length = m := hy'
    change fn _ c (x1.take (n - m) ++ y') = r at hf
    rw [ev y' hy'] at hf
    have hz : (lastColumns (matrix A) m n).mulVec (fun j => y'.getD j 0)
        = (lastColumns (matrix A) m n).mulVec (fun j => y.getD j 0) := by
      rw [h3]
      funext i
      have := congrArg (fun l : List ℝ => l.getD i 0) hf
      simp only [affine_split hmn hl i.2] at this
      rw [← this]; ring
    have hinj := Matrix.mulVec_injective_iff_isUnit.mpr
      ((Matrix.isUnit_iff_isUnit_det _).mpr (isUnit_iff_ne_zero.mpr hd)) hz
    exact list_ext hy' h2 fun i hi => congrFun hinj ⟨i, hi⟩

theorem affine_jacobian (h : MakesAffine A b m n t) {c x : List ℝ} (hf : Fits t c x) :
    t.outputDim = m ∧ jac (fn t c) (n - m) m x = lastColumns (matrix A) m n := by
  obtain ⟨-, hin, -, e⟩ := C48_affine_evaluate h
  obtain ⟨hs, st, rfl⟩ := makes_iff h
  have hmn := hs.2.1
  have hx : x.length = n := hf.2
  refine ⟨rfl, ?_⟩
  funext i j
  simp only [jac, Matrix.of_apply, lastColumns]
  have e2 : (fun τ => (fn (AffineMap.obj A b n m st) c (x.set (n - m + (j : Nat)) τ)).getD i 0)
      = fun τ => (∑ l ∈ Finset.range n, matrix A i l * (x.set (n - m + (j : Nat)) τ).getD l 0) + b.getD i 0 := by
    funext τ
    rw [e c _ ⟨hf.1, by simp only [List.length_set, hx]; rfl⟩, affine_getD i.2]
  rw [e2]
  have hj : n - m + (j : Nat) < n := by have := j.2; omega
  have hp := path_set hj hx (x.getD (n - m + (j : Nat)) 0)
  have := (HasDerivAt.fun_sum (u := Finset.range n) fun l hl =>
    (hp.2.2 l (Finset.mem_range.mp hl)).const_mul (matrix A i l)).add_const (b.getD i 0)
  rw [this.deriv, Finset.sum_eq_single (n - m + (j : Nat))]
  · rw [unit_getD hj]; simp
  · intro l hl hne
    rw [unit_getD (Finset.mem_range.mp hl), if_neg (Ne.symm hne), mul_zero]
  · intro hnot; exact absurd (Finset.mem_range.mpr hj) hnot

/-- C48: its log-determinant is the logarithm of the modulus of the determinant of the last columns of `A`, which is the
determinant of its Jacobian. -/
theorem C48_affine_logDet (h : MakesAffine A b m n t) (hd : (lastColumns (matrix A) m n).det ≠ 0) :
    HasLogDet t ∧ (∀ c x, logdet t c x = Real.log |(lastColumns (matrix A) m n).det|) ∧ LogDetIsJacobian t := by
  have hv : AffineMap.logDetValue A = some (Real.log |(lastColumns (matrix A) m n).det|) := by
    obtain ⟨⟨hm, hmn, hs⟩, -⟩ := makes_iff h
    rw [AffineMap.logDetValue]
    rcases hs with ⟨h0, hb, rfl⟩ | ⟨rfl, rfl, hb⟩
    · rw [if_neg (by omega), lastColumns_identity h0]; simp
    · rw [if_pos hm, square_eq hm, if_neg hd]
  have hl : ∀ c x, logdet t c x = Real.log |(lastColumns (matrix A) m n).det| := by
    obtain ⟨hs, st, rfl⟩ := makes_iff h
    intro c x
    change (AffineMap.logDetValue A).getD 0 = _
    rw [hv]; rfl
  refine ⟨fun c x hf o => ?_, hl, fun c x hf => ?_⟩
  · rw [hl]
    obtain ⟨hs, st, rfl⟩ := makes_iff h
    change Res.ok (AffineMap.logDetValue A) = _
    rw [hv]
  · have hj := (affine_jacobian h hf).2
    rw [hl]
    obtain ⟨hs, st, rfl⟩ := makes_iff h
    have : jacobian (AffineMap.obj A b n m st) c x = lastColumns (matrix A) m n := hj
    rw [this]
    exact ⟨hd, rfl⟩

/-- C48: for a singular matrix `LogDeterminant` is `-infinity`. -/
theorem C48_affine_singular (h : MakesAffine A b m n t) (hd : (lastColumns (matrix A) m n).det = 0) (c x : List ℝ)
    (o : Option ℝ) : t.logDet c x o = .ok none := by
  obtain ⟨⟨hm, hmn, hs⟩, st, rfl⟩ := makes_iff h
  change Res.ok (AffineMap.logDetValue A) = _
  rw [AffineMap.logDetValue]
  rcases hs with ⟨h0, hb, rfl⟩ | ⟨rfl, rfl, hb⟩
  · rw [lastColumns_identity h0] at hd; simp at hd
  · rw [if_pos hm, square_eq hm, if_pos hd]

/-- C48: its input gradient is `Aᵀ s`, whatever numbers the output buffer contained, and there are no coefficients. -/
theorem C48_affine_gradient (h : MakesAffine A b m n t) : Differentiates t ∧ CoeffGradReturns t ∧
    ∀ c x s, s.length = m → grad t c x s = transposed (matrix A) m n s := by
  obtain ⟨-, -, -, e⟩ := C48_affine_evaluate h
  obtain ⟨hs, st, rfl⟩ := makes_iff h
  have eg : ∀ c x s, s.length = m → grad (AffineMap.obj A b n m st) c x s = transposed (matrix A) m n s :=
    fun c x s hsl => congrArg (value []) (gradient_eq hs hsl (out := zeros n) (by simp))
  refine ⟨fun c x s hf hsl => ⟨fun out ho => ?_, fun h => absurd rfl h, rfl, ?_, ?_⟩, ⟨?_, ?_⟩, eg⟩
  · rw [eg c x s hsl]; exact gradient_eq hs hsl ho
  · rw [eg c x s hsl]; exact transposed_length
  · intro γ δ vc vx t₀ hγ hδ _ _
    have hsl : s.length = m := hsl
    have hδl : ∀ τ, (δ τ).length = n := hδ.1
    have hvl : vx.length = n := hδ.2.1
    have hvc : vc = [] := List.length_eq_zero_iff.mp hγ.2.1
    subst hvc
    have e2 : (fun τ => dot s (fn (AffineMap.obj A b n m st) (γ τ) (δ τ)))
        = fun τ => ∑ i ∈ Finset.range m, s.getD i 0
          * ((∑ j ∈ Finset.range n, matrix A i j * (δ τ).getD j 0) + b.getD i 0) := by
      funext τ
      rw [e _ _ ⟨hγ.1 τ, hδ.1 τ⟩, dot_eq_sum hsl affine_length]
      exact Finset.sum_congr rfl fun i hi => by rw [affine_getD (Finset.mem_range.mp hi)]
    rw [e2, eg c x s hsl, dot_eq_sum transposed_length hvl]
    have hc : dot (coeffGrad (AffineMap.obj A b n m st) c x s) [] = 0 := by simp [dot]
    rw [hc, zero_add]
    have := HasDerivAt.fun_sum (u := Finset.range m) fun i _ =>
      ((HasDerivAt.fun_sum (u := Finset.range n) fun j hj =>
        (hδ.2.2 j (Finset.mem_range.mp hj)).const_mul (matrix A i j)).add_const (b.getD i 0)).const_mul (s.getD i 0)
    refine this.congr_deriv ?_
    simp only [Finset.mul_sum]
    rw [Finset.sum_comm]
    refine Finset.sum_congr rfl fun j hj => ?_
    rw [transposed, getD_map_range _ (Finset.mem_range.mp hj), Finset.sum_mul]
    exact Finset.sum_congr rfl fun i _ => by ring
  · intro c x s hf hsl out ho
    rw [List.length_eq_zero_iff.mp ho]; rfl
  · intro c x hf out ho
    rw [List.length_eq_zero_iff.mp ho]; rfl

/-- C47/C48: the gradients of the log-determinant are right when the output buffer is zeroed, as the public functions do.
Missing: nothing is written, so a buffer with other contents is returned unchanged (`C47_fails_affine`). -/
theorem C48_affine_logDetGradient_partial (h : MakesAffine A b m n t) {c x : List ℝ} (hf : Fits t c x) :
    t.ldInputGrad c x (zeros n) = .ok (zeros n) ∧ t.ldCoeffGrad c x [] = .ok [] ∧
    IsGradient t.numCoeffs t.inputDim (logdet t) c x (ldCoeffGrad t c x) (ldInputGrad t c x) := by
  obtain ⟨hs, st, rfl⟩ := makes_iff h
  have e1 : ldInputGrad (AffineMap.obj A b n m st) c x = zeros n := rfl
  refine ⟨rfl, rfl, rfl, by rw [e1]; simp [AffineMap.obj], ?_⟩
  intro γ δ vc vx t₀ hγ hδ _ _
  have hvc : vc = [] := List.length_eq_zero_iff.mp hγ.2.1
  subst hvc
  rw [e1, dot_zeros]
  have : dot (ldCoeffGrad (AffineMap.obj A b n m st) c x) [] = 0 := by simp [dot]
  rw [this, add_zero]
  exact hasDerivAt_const t₀ ((AffineMap.logDetValue A).getD 0)

end

/-- C48: a matrix with more rows than columns, or an offset of the wrong length, is rejected. -/
theorem C48_affine_rejects (A : View2 ℝ) (b : List ℝ) (st : Bool) :
    ((∃ t, AffineMap.newA A st = .ok t) ↔ A.n0 ≤ A.n1) ∧
    ((∃ t, AffineMap.newAB A b st = .ok t) ↔ A.n0 ≤ A.n1 ∧ A.n0 = b.length) := by
  constructor
  · rw [AffineMap.newA]; split_ifs with h <;> simp [h]
  · rw [AffineMap.newAB]; split_ifs with h
    · exact ⟨fun _ => h, fun _ => ⟨_, rfl⟩⟩
    · exact ⟨fun ⟨_, h'⟩ => by simp at h', fun h' => absurd h' h⟩

/-! A concrete affine map: `(x₁, x₂) ↦ 3 x₁ + 2 x₂ + 5`. -/

/-- The matrix `(3 2)`. -/
def exampleA : View2 ℝ := ⟨1, 2, fun _ j => if j = 0 then 3 else 2⟩

theorem exampleA_makes : MakesAffine exampleA [5] 1 2 (AffineMap.obj exampleA [5] 2 1 true) :=
  .Ab (A := exampleA) (b := [5]) (st := true) (by simp [exampleA]) (by simp [AffineMap.newAB, exampleA])

theorem exampleA_det : (lastColumns (matrix exampleA) 1 2).det = 2 := by
  rw [Matrix.det_fin_one]; simp [lastColumns, matrix, exampleA]

example : fn (AffineMap.obj exampleA [5] 2 1 true) [] [7, 11] = [48] := by
  rw [(C48_affine_evaluate exampleA_makes).2.2.2 [] [7, 11] ⟨rfl, rfl⟩]
  simp [affine, matrix, exampleA, Finset.sum_range_succ]; norm_num

example : InvertsFrom (AffineMap.obj exampleA [5] 2 1 true) 1 ∧
    LogDetIsJacobian (AffineMap.obj exampleA [5] 2 1 true) :=
  ⟨C48_affine_inverse exampleA_makes (by rw [exampleA_det]; norm_num) (by omega),
    (C48_affine_logDet exampleA_makes (by rw [exampleA_det]; norm_num)).2.2⟩

/-! ### Failures -/

/-- A number or a value that is not a number. -/
inductive Val where
  | num (r : ℝ)
  | nan

/-- As for IEEE numbers, an operation on a NaN gives a NaN. -/
def Val.lift (f : ℝ → ℝ → ℝ) : Val → Val → Val
  | .num a, .num b => .num (f a b)
  | _, _ => .nan

noncomputable instance : Zero Val := ⟨.num 0⟩
noncomputable instance : Add Val := ⟨Val.lift (· + ·)⟩
noncomputable instance : Mul Val := ⟨Val.lift (· * ·)⟩

/-- C48 fails for the `Eigen` overload of `Gradient`: it passes memory that was not initialised as output, and the product
`0 * output` that `dgemm` adds is not a number when that memory contains one that is not. -/
theorem C48_fails_gradient_nan (A : View2 Val) (s C : List Val) (h1 : A.n0 = s.length) (h2 : A.n1 = C.length) (i : Nat)
    (hi : i < C.length) (hC : C[i] = .nan) :
    ∃ out, gemv (Val.num 1) A.transpose s (Val.num 0) C = .ok out ∧ out[i]? = some .nan := by
  refine ⟨_, by rw [gemv, if_pos ⟨h1, h2⟩], ?_⟩
  have hn : ∀ v : Val, (Val.num 0 * Val.nan : Val) + v = .nan := fun v => rfl
  simp only [View2.transpose, h2, List.getElem?_map, List.getElem?_range hi, Option.map_some]
  congr 1
  have hg : C.getD i 0 = .nan := by simp [List.getD_eq_getElem?_getD, hi, hC]
  rw [hg]
  exact hn _

example : ∃ out, gemv (Val.num 1) (View2.transpose ⟨1, 1, fun _ _ => .num 2⟩) [Val.num 3] (Val.num 0) [Val.nan] = .ok out ∧
    out[0]? = some .nan := C48_fails_gradient_nan _ _ _ rfl rfl 0 (by simp) rfl

/-- A layer with a log-determinant that is not constant: `x ↦ exp x`. -/
noncomputable def expLayer : CMap where
  inputDim := 1
  outputDim := 1
  numCoeffs := 0
  eval _ x _ := .ok [Real.exp (x.getD 0 0)]
  logDet _ x _ := .ok (some (x.getD 0 0))
  inv _ _ r _ := .ok [Real.log (r.getD 0 0)]
  grad _ x s _ := .ok [Real.exp (x.getD 0 0) * s.getD 0 0]
  coeffGrad _ _ _ _ := .ok []
  ldCoeffGrad _ _ _ := .ok []
  ldInputGrad _ _ _ := .ok [1]

theorem expLayer_ok : Evaluates expLayer ∧ HasLogDet expLayer ∧ Differentiates expLayer ∧ CoeffGradReturns expLayer ∧
    DifferentiatesLogDet expLayer := by
  refine ⟨fun c x hf => ⟨rfl, fun _ _ => rfl⟩, fun c x hf o => rfl, fun c x s hf hs => ⟨fun _ _ => rfl, fun _ _ _ => rfl, rfl,
    rfl, ?_⟩, ⟨fun c x s hf hs out ho => rfl, fun c x hf out ho => rfl⟩, fun c x hf => ⟨fun _ _ => rfl, fun _ _ _ => rfl, rfl,
    rfl, ?_⟩⟩
  · intro γ δ vc vx t₀ hγ hδ _ hx
    have hvc : vc = [] := List.length_eq_zero_iff.mp hγ.2.1
    have hvx := length_one hδ.2.1
    have hsl := length_one (l := s) hs
    subst hvc
    have h0 := hδ.2.2 0 (by simp [expLayer])
    have := (h0.exp).const_mul (s.getD 0 0)
    have e : (fun τ => dot s (fn expLayer (γ τ) (δ τ))) = fun τ => s.getD 0 0 * Real.exp ((δ τ).getD 0 0) := by
      funext τ
      conv_lhs => rw [hsl]
      simp [dot, fn, value, expLayer]
    rw [e]
    refine this.congr_deriv ?_
    conv_rhs => rw [hvx]
    rw [hx]
    simp [dot, coeffGrad, grad, value, expLayer]
    ring
  · intro γ δ vc vx t₀ hγ hδ _ hx
    have hvc : vc = [] := List.length_eq_zero_iff.mp hγ.2.1
    have hvx := length_one hδ.2.1
    subst hvc
    have h0 := hδ.2.2 0 (by simp [expLayer])
    have e : (fun τ => logdet expLayer (γ τ) (δ τ)) = fun τ => (δ τ).getD 0 0 := rfl
    rw [e]
    refine h0.congr_deriv ?_
    conv_rhs => rw [hvx]
    simp [dot, ldCoeffGrad, ldInputGrad, value, expLayer]

/-- The matrix `(2)`. -/
def doubling : View2 ℝ := ⟨1, 1, fun _ _ => 2⟩

theorem doubling_makes : MakesAffine doubling [] 1 1 (AffineMap.obj doubling [] 1 1 false) :=
  .A (A := doubling) (st := false) (by simp [doubling]) (by simp [AffineMap.newA, doubling])

/-- C47 fails for affine layers of a composed map. For `x ↦ exp(2x)`, made of the affine layer `2x` and the layer `exp`,
`LogDeterminantInputGrad` returns 3 although the derivative of its log-determinant is 2: the affine layer leaves the buffer
it is given unchanged, which holds the gradient of the following layers. -/
theorem C47_fails_affine : ∃ t, ComposedMap.new [AffineMap.obj doubling [] 1 1 false, expLayer] 0 = .ok t ∧ ∀ x : ℝ,
    t.ldInputGrad [] [x] [0] = .ok [3] ∧ HasDerivAt (fun x => logdet t [] [x]) 2 x := by
  have ht : ComposedMap.new [AffineMap.obj doubling [] 1 1 false, expLayer] 0
      = .ok (ComposedMap.obj [AffineMap.obj doubling [] 1 1 false, expLayer] 0) :=
    new_composed.mpr ⟨by simp, fun m hm => by
      simp only [List.mem_cons, List.not_mem_nil, or_false] at hm
      rcases hm with rfl | rfl <;> exact ⟨rfl, rfl⟩, rfl⟩
  have hdet : (lastColumns (matrix doubling) 1 1).det = 2 := by
    rw [Matrix.det_fin_one]; simp [lastColumns, matrix, doubling]
  have hfn : ∀ x : ℝ, fn (AffineMap.obj doubling [] 1 1 false) [] [x] = [2 * x] := fun x => by
    rw [(C48_affine_evaluate doubling_makes).2.2.2 _ _ ⟨rfl, rfl⟩]
    simp [affine, matrix, doubling]
  refine ⟨_, ht, fun x => ⟨?_, ?_⟩⟩
  · have hev : ∀ out : List ℝ, out.length = 1 → AffineMap.evaluate doubling [] 1 [x] out = .ok [2 * x] := fun out ho => by
      rw [evaluate_eq (makes_iff doubling_makes).1 rfl ho]
      simp [affine, matrix, doubling]
    have hgr : AffineMap.gradient doubling [1] [0] = .ok [2] := by
      rw [gradient_eq (makes_iff doubling_makes).1 rfl rfl]
      simp [transposed, matrix, doubling]
    simp [ComposedMap.obj, ComposedMap.ldInputGrad, ComposedMap.maxChecks, Checkpointer.new, Checkpointer.request,
      Checkpointer.getLayerInput, ComposedMap.withCoeffs, AffineMap.obj, expLayer, ComposedMap.layers, hev, hgr,
      Checkpointer.getNextCheckpoint, Checkpointer.advance, ComposedMap.ldInputGradLoop, Res.at', Checkpointer.grow,
      Checkpointer.idiv, Checkpointer.bino2, Checkpointer.bino3, Checkpointer.bino5, addInPlace, addRows, Res.idx, Res.setIdx,
      deepCopy]
    norm_num
  · obtain ⟨-, key⟩ := C45_logDet ht (fun m hm => by
      simp only [List.mem_cons, List.not_mem_nil, or_false] at hm
      rcases hm with rfl | rfl
      · exact (C48_affine_evaluate doubling_makes).1
      · exact expLayer_ok.1) (fun m hm => by
      simp only [List.mem_cons, List.not_mem_nil, or_false] at hm
      rcases hm with rfl | rfl
      · exact (C48_affine_logDet doubling_makes (by rw [hdet]; norm_num)).1
      · exact expLayer_ok.2.1)
    have e : (fun x : ℝ => logdet (ComposedMap.obj [AffineMap.obj doubling [] 1 1 false, expLayer] 0) [] [x])
        = fun x => Real.log |(lastColumns (matrix doubling) 1 1).det| + 2 * x := by
      funext x
      rw [key [] [x] ⟨rfl, rfl⟩]
      simp only [composedLogDet, List.take_nil, List.drop_nil, hfn, (C48_affine_logDet doubling_makes
        (by rw [hdet]; norm_num)).2.1]
      change _ + (2 * x + 0) = _
      ring
    rw [e]
    simpa using ((hasDerivAt_id x).const_mul (2 : ℝ)).const_add (Real.log |(lastColumns (matrix doubling) 1 1).det|)

/-- The matrix `(0 1)`. -/
def second : View2 ℝ := ⟨1, 2, fun _ j => if j = 0 then 0 else 1⟩

/-- C43/C47 fail for affine components of a triangular map. For `(x₁, x₂) ↦ (exp x₁, x₂)` with the affine second component
`x₂`, `LogDeterminantInputGrad` returns `(2, 0)` although the log-determinant is `x₁`: the affine component leaves the
gradient of the first component in the shared buffer and it is added twice. -/
theorem C47_fails_affine_triangular : ∃ a t, MakesAffine second [] 1 2 a ∧ TriangularMap.new [expLayer, a] = .ok t ∧
    ∀ x y : ℝ, t.ldInputGrad [] [x, y] [0, 0] = .ok [2, 0] ∧ logdet t [] [x, y] = x := by
  have ha : MakesAffine second [] 1 2 (AffineMap.obj second [] 2 1 false) :=
    .A (A := second) (st := false) (by simp [second]) (by simp [AffineMap.newA, second])
  have hdet : (lastColumns (matrix second) 1 2).det = 1 := by
    rw [Matrix.det_fin_one]; simp [lastColumns, matrix, second]
  refine ⟨_, _, ha, by simp [TriangularMap.new, TriangularMap.checkNext, expLayer, AffineMap.obj]; rfl, fun x y => ⟨?_, ?_⟩⟩
  · simp [TriangularMap.obj, TriangularMap.ldInputGrad, TriangularMap.ldInputGradLoop, expLayer, AffineMap.obj, rows, addRows,
      Res.idx, Res.setIdx, putRows, List.replicate]
    norm_num
  · have hl := (C48_affine_logDet ha (by rw [hdet]; norm_num)).2.1 [] [x, y]
    have hl' : AffineMap.logDetValue second = some 0 := by
      have := (C48_affine_logDet ha (by rw [hdet]; norm_num)).1 [] [x, y] ⟨rfl, rfl⟩ none
      rw [hl, hdet] at this
      simpa [AffineMap.obj] using this
    simp [logdet, value, TriangularMap.obj, TriangularMap.logDet, TriangularMap.logDetLoop, expLayer, AffineMap.obj, rows, hl',
      addLD]

end MParT
