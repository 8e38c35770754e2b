import Verif.Lemmas.Maps
import Mathlib.Analysis.Calculus.Deriv.Add
import Mathlib.Analysis.Calculus.Deriv.Mul
import Mathlib.LinearAlgebra.Matrix.Determinant.Basic
/-! Property C48, first part: `IdentityMap`. -/
namespace MParT
open Spec

variable {n k : Nat}

theorem identity_fn (hk : k ≤ n) {c x : List ℝ} (hx : x.length = n) :
    fn (IdentityMap.obj n k) c x = x.drop (n - k) := by
  have h : (IdentityMap.obj n k).eval c x (zeros k) = .ok ((x.drop (n - k)).take k) := by
    simp only [IdentityMap.obj]
    rw [rows_ok (by omega), Res.bind_ok, deepCopy_ok (by simp; omega)]
  have h2 : fn (IdentityMap.obj n k) c x = (x.drop (n - k)).take k := by
    rw [fn]
    change value [] ((IdentityMap.obj n k).eval c x (zeros k)) = _
    rw [h]; rfl
  rw [h2, List.take_of_length_le (by simp; omega)]

/-- C48: the identity map returns its last `outputDim` inputs. -/
theorem C48_identity_evaluate (hk : k ≤ n) : Evaluates (IdentityMap.obj n k) ∧
    ∀ c x, Fits (IdentityMap.obj n k) c x → fn (IdentityMap.obj n k) c x = x.drop (n - k) := by
  refine ⟨fun c x hf => ?_, fun c x hf => identity_fn hk hf.2⟩
  have hx : x.length = n := hf.2
  rw [identity_fn hk hx]
  refine ⟨by simp [hx, IdentityMap.obj]; omega, fun out ho => ?_⟩
  have ho : out.length = k := ho
  simp only [IdentityMap.obj]
  rw [rows_ok (by omega), Res.bind_ok, deepCopy_ok (by simp; omega), List.take_of_length_le (by simp; omega)]

/-- C48: the inverse of the identity map returns the target, whatever the leading inputs are. -/
theorem C48_identity_inverse (hk : k ≤ n) {j : Nat} (hj : n - k ≤ j) : InvertsFrom (IdentityMap.obj n k) j := by
  intro c x1 r _ hx1 hr out ho
  have hr : r.length = k := hr
  have ho : out.length = k := ho
  have key : ∀ y : List ℝ, y.length = k → fn (IdentityMap.obj n k) c (x1.take (n - k) ++ y) = y := by
    intro y hy
    rw [identity_fn hk (by simp [hy]; omega), List.drop_append_of_le_length (by simp; omega),
      List.drop_eq_nil_of_le (by simp)]
    rfl
  refine ⟨r, deepCopy_ok (by omega), hr, key r hr, fun y' hy' h => ?_⟩
  rw [← key y' hy']; exact h

/-- C48: its log-determinant is 0, which is the logarithm of the determinant of its Jacobian. -/
theorem C48_identity_logDet (hk : k ≤ n) : HasLogDet (IdentityMap.obj n k) ∧
    (∀ c x, logdet (IdentityMap.obj n k) c x = 0) ∧ LogDetIsJacobian (IdentityMap.obj n k) := by
  refine ⟨fun c x _ o => rfl, fun c x => rfl, fun c x hf => ?_⟩
  have hx : x.length = n := hf.2
  have hj : jacobian (IdentityMap.obj n k) c x = (1 : Matrix (Fin k) (Fin k) ℝ) := by
    funext i j
    have hi : (i : Nat) < k := i.2
    have hjl : (j : Nat) < k := j.2
    simp only [jacobian, jac, Matrix.of_apply]
    have e : (fun t => (fn (IdentityMap.obj n k) c (x.set (n - k + (j : Nat)) t)).getD i 0)
        = fun t => if i = j then t else x.getD (n - k + i) 0 := by
      funext t
      rw [identity_fn hk (by simp [hx]), getD_drop', List.getD_eq_getElem?_getD, List.getElem?_set,
        List.getD_eq_getElem?_getD]
      by_cases hij : i = j
      · subst hij
        rw [if_pos rfl, if_pos (show n - k + (i : Nat) < x.length by omega), if_pos rfl]
        rfl
      · rw [if_neg (by simpa [Fin.ext_iff, eq_comm] using hij), if_neg hij]
    change deriv (fun t => (fn (IdentityMap.obj n k) c (x.set (n - k + (j : Nat)) t)).getD i 0) _ = _
    rw [e]
    by_cases hij : i = j
    · subst hij
      simp only [if_true, deriv_id'']
      exact (Matrix.one_apply_eq i).symm
    · simp only [hij, if_false, deriv_const]
      exact (Matrix.one_apply_ne hij).symm
  rw [hj]
  change ((1 : Matrix (Fin k) (Fin k) ℝ).det ≠ 0) ∧ (0 : ℝ) = Real.log |(1 : Matrix (Fin k) (Fin k) ℝ).det|
  simp

/-- C48: its input gradient is zero for the leading inputs and the sensitivity for the others, whatever the output buffer
contained. -/
theorem C48_identity_gradient (hk : k ≤ n) : Differentiates (IdentityMap.obj n k) ∧
    ∀ c x s, Fits (IdentityMap.obj n k) c x → s.length = k →
      grad (IdentityMap.obj n k) c x s = zeros (n - k) ++ s := by
  have hg : ∀ (s out : List ℝ), s.length = k → out.length = n →
      IdentityMap.gradient n k s out = .ok (zeros (n - k) ++ s) := by
    intro s out hs ho
    have hl : (zeros (n - k) ++ out.drop (n - k)).length = n := by simp [ho, hk]
    rw [IdentityMap.gradient, zeroRows_eq _ _ _ (by omega), Res.bind_ok]
    simp only [List.take_zero, List.nil_append, Nat.zero_add]
    rw [rows_ok (by omega), Res.bind_ok, deepCopy_ok (by rw [rows_length (by omega), hs]), Res.bind_ok, Res.pure_eq, putRows,
      List.take_append_of_le_length (by simp), List.take_of_length_le (by simp), List.drop_eq_nil_of_le (by omega),
      List.append_nil]
  have e1 : ∀ c x s, s.length = k → grad (IdentityMap.obj n k) c x s = zeros (n - k) ++ s := by
    intro c x s hs
    rw [grad]
    change value [] (IdentityMap.gradient n k s (zeros n)) = _
    rw [hg s _ hs (by simp)]; rfl
  refine ⟨fun c x s hf hs => ⟨fun out ho => ?_, fun h => absurd rfl h, ?_⟩, fun c x s _ hs => e1 c x s hs⟩
  · rw [e1 c x s hs]; exact hg s out hs ho
  · have hs : s.length = k := hs
    rw [e1 c x s hs]
    refine ⟨rfl, by simp [hs, IdentityMap.obj]; omega, fun γ δ vc vx t₀ hγ hδ _ _ => ?_⟩
    have hvl : vx.length = n := hδ.2.1
    have hvc : vc = [] := List.length_eq_zero_iff.mp hγ.2.1
    subst hvc
    have hδl : ∀ t, (δ t).length = n := hδ.1
    have hd : Path k (fun t => (δ t).drop (n - k)) (vx.drop (n - k)) t₀ :=
      Spec.Path.drop (k := n - k) (n := k) (by rw [Nat.sub_add_cancel hk]; exact hδ)
    have e2 : (fun t => dot s (fn (IdentityMap.obj n k) (γ t) (δ t)))
        = fun t => ∑ i ∈ Finset.range k, s.getD i 0 * ((δ t).drop (n - k)).getD i 0 := by
      funext t
      rw [identity_fn hk (hδl t), dot_eq_sum hs (by simp [hδl t]; omega)]
    rw [e2, dot_split (n - k) (by omega) (by simp), dot_zeros, dot_eq_sum hs (by simp [hvl]; omega)]
    have : dot (coeffGrad (IdentityMap.obj n k) c x s) [] = 0 := by simp [dot]
    rw [this, zero_add, zero_add]
    exact HasDerivAt.fun_sum fun i hi => (hd.2.2 i (Finset.mem_range.mp hi)).const_mul _

/-- C48: the gradient of its log-determinant is zero, whatever the output buffer contained. -/
theorem C48_identity_logDetGradient : DifferentiatesLogDet (IdentityMap.obj n k) := by
  intro c x hf
  have e1 : ldInputGrad (IdentityMap.obj n k) c x = zeros n := by simp [ldInputGrad, value, IdentityMap.obj, zeros]
  refine ⟨fun out ho => ?_, fun h => absurd rfl h, rfl, by rw [e1]; simp [IdentityMap.obj], ?_⟩
  · rw [e1]
    have ho : out.length = n := ho
    simp [IdentityMap.obj, ho, zeros]
  · intro γ δ vc vx t₀ hγ hδ _ _
    have hvc : vc = [] := List.length_eq_zero_iff.mp hγ.2.1
    subst hvc
    rw [e1, dot_zeros]
    have : dot (ldCoeffGrad (IdentityMap.obj n k) c x) [] = 0 := by simp [dot]
    rw [this, add_zero]
    exact hasDerivAt_const _ _

example : fn (IdentityMap.obj 3 2) [] [5, 6, 7] = [6, 7] := by
  
  rw [(C48_identity_evaluate (n := 3) (k := 2) (by omega)).2 [] [5, 6, 7] ⟨rfl, rfl⟩]; rfl

end MParT
