import Verif.Lemmas.Composed
import Mathlib.Analysis.Calculus.Deriv.Add
import Mathlib.Analysis.Calculus.Deriv.Mul
import Mathlib.LinearAlgebra.Matrix.Determinant.Basic
/-! Chain rule for maps whose gradients are exact. -/
namespace MParT
open Spec

/-- `i`-th unit vector. -/
def unit (d i : Nat) : List ℝ := (zeros d).set i 1

@[simp] theorem unit_length (d i : Nat) : (unit d i).length = d := by simp [unit]

theorem unit_getD {d i j : Nat} (hj : j < d) : (unit d i).getD j 0 = if i = j then 1 else 0 := by
  rw [unit, List.getD_eq_getElem?_getD, List.getElem?_set]
  by_cases h : i = j
  · subst h; simp [hj]
  · simp [h, zeros, hj]

theorem dot_unit {d i : Nat} (hi : i < d) {y : List ℝ} (hy : y.length = d) : dot (unit d i) y = y.getD i 0 := by
  rw [dot_eq_sum (unit_length d i) hy, Finset.sum_eq_single i]
  · rw [unit_getD hi]; simp
  · intro j hj hne
    rw [unit_getD (Finset.mem_range.mp hj), if_neg (fun h => hne h.symm), zero_mul]
  · intro h; exact absurd (Finset.mem_range.mpr hi) h

theorem dot_comm' {d : Nat} {a b : List ℝ} (ha : a.length = d) (hb : b.length = d) : dot a b = dot b a := by
  rw [dot_eq_sum ha hb, dot_eq_sum hb ha]
  exact Finset.sum_congr rfl fun _ _ => mul_comm _ _

theorem path_dot {d : Nat} {γ : ℝ → List ℝ} {v s : List ℝ} {t₀ : ℝ} (h : Path d γ v t₀) (hs : s.length = d) :
    HasDerivAt (fun t => dot s (γ t)) (dot s v) t₀ := by
  have e : (fun t => dot s (γ t)) = fun t => ∑ i ∈ Finset.range d, s.getD i 0 * (γ t).getD i 0 := by
    funext t; rw [dot_eq_sum hs (h.1 t)]
  rw [e, dot_eq_sum hs h.2.1]
  exact HasDerivAt.fun_sum fun i hi => (h.2.2 i (Finset.mem_range.mp hi)).const_mul _

/-- The path that changes one entry. -/
theorem path_set {d j : Nat} (hj : j < d) {x : List ℝ} (hx : x.length = d) (t₀ : ℝ) :
    Path d (fun t => x.set j t) (unit d j) t₀ := by
  refine ⟨fun t => by simp [hx], by simp, fun i hi => ?_⟩
  rw [unit_getD hi]
  by_cases h : j = i
  · subst h
    have e : (fun t => (x.set j t).getD j 0) = fun t => t := by
      funext t
      rw [List.getD_eq_getElem?_getD, List.getElem?_set]
      simp [hx, hj]
    rw [e, if_pos rfl]
    exact hasDerivAt_id _
  · have e : (fun t => (x.set j t).getD i 0) = fun _ => x.getD i 0 := by
      funext t
      rw [List.getD_eq_getElem?_getD, List.getElem?_set, if_neg h, List.getD_eq_getElem?_getD]
    rw [e, if_neg h]
    exact hasDerivAt_const _ _

theorem set_self {x : List ℝ} (j : Nat) : x.set j (x.getD j 0) = x := by
  by_cases h : j < x.length
  · rw [List.getD_eq_getElem?_getD, List.getElem?_eq_getElem h]; simp
  · rw [List.set_eq_of_length_le (by omega)]

/-- A path through a map has a velocity, and pairing it with `S` is pairing the gradients of `S · T` with the
velocities of the arguments. -/
theorem path_fn {m : CMap} (hE : Evaluates m) (hD : Differentiates m) {c x vc vx : List ℝ} {γ δ : ℝ → List ℝ} {t₀ : ℝ}
    (hγ : Path m.numCoeffs γ vc t₀) (hδ : Path m.inputDim δ vx t₀) (hc : γ t₀ = c) (hx : δ t₀ = x) :
    ∃ v, Path m.outputDim (fun t => fn m (γ t) (δ t)) v t₀ ∧
      ∀ S : List ℝ, S.length = m.outputDim → dot S v = dot (coeffGrad m c x S) vc + dot (grad m c x S) vx := by
  have hf : Fits m c x := ⟨by rw [← hc]; exact hγ.1 t₀, by rw [← hx]; exact hδ.1 t₀⟩
  have hlen : ∀ t, (fn m (γ t) (δ t)).length = m.outputDim := fun t => (hE _ _ ⟨hγ.1 t, hδ.1 t⟩).1
  have hd : ∀ S : List ℝ, S.length = m.outputDim → HasDerivAt (fun t => dot S (fn m (γ t) (δ t)))
      (dot (coeffGrad m c x S) vc + dot (grad m c x S) vx) t₀ := fun S hS =>
    (hD c x S hf hS).2.2.2.2 γ δ vc vx t₀ hγ hδ hc hx
  set v := (List.range m.outputDim).map fun i =>
    dot (coeffGrad m c x (unit m.outputDim i)) vc + dot (grad m c x (unit m.outputDim i)) vx with hv
  have hp : Path m.outputDim (fun t => fn m (γ t) (δ t)) v t₀ := by
    refine ⟨hlen, by simp [hv], fun i hi => ?_⟩
    have := hd (unit m.outputDim i) (by simp)
    have e : (fun t => dot (unit m.outputDim i) (fn m (γ t) (δ t))) = fun t => (fn m (γ t) (δ t)).getD i 0 := by
      funext t; exact dot_unit hi (hlen t)
    rw [e] at this
    refine this.congr_deriv ?_
    rw [hv, List.getD_eq_getElem?_getD]
    simp [hi]
  exact ⟨v, hp, fun S hS => (path_dot hp hS).unique (hd S hS)⟩

/-- The gradient of `0 · T` is 0. -/
theorem grad_zeros {m : CMap} (hE : Evaluates m) (hD : Differentiates m) {c x : List ℝ} (hf : Fits m c x) :
    coeffGrad m c x (zeros m.outputDim) = zeros m.numCoeffs ∧ grad m c x (zeros m.outputDim) = zeros m.inputDim := by
  have hg := (hD c x (zeros m.outputDim) hf (by simp)).2.2
  have key : ∀ γ δ vc vx t₀, Path m.numCoeffs γ vc t₀ → Path m.inputDim δ vx t₀ → γ t₀ = c → δ t₀ = x →
      dot (coeffGrad m c x (zeros m.outputDim)) vc + dot (grad m c x (zeros m.outputDim)) vx = 0 := by
    intro γ δ vc vx t₀ hγ hδ hc hx
    have h := hg.2.2 γ δ vc vx t₀ hγ hδ hc hx
    have e : (fun t => dot (zeros m.outputDim) (fn m (γ t) (δ t))) = fun _ => 0 := by funext t; exact dot_zeros _ _
    simp only [e] at h
    exact h.unique (hasDerivAt_const _ _)
  have ext : ∀ (a : List ℝ) (n : Nat), a.length = n → (∀ i, i < n → a.getD i 0 = 0) → a = zeros n := by
    intro a n ha h
    refine List.ext_getElem (by simp [ha]) fun i h1 h2 => ?_
    have := h i (by omega)
    rw [List.getD_eq_getElem?_getD, List.getElem?_eq_getElem h1] at this
    simpa [zeros] using this
  have hc0 : ∀ v, dot v (zeros v.length) = 0 := by
    intro v; rw [dot_comm' rfl (by simp), dot_zeros]
  constructor
  · refine ext _ _ hg.1 fun i hi => ?_
    have := key _ _ _ _ _ (path_set hi hf.1 (c.getD i 0)) (by have := path_const x (c.getD i 0); rwa [hf.2] at this)
      (set_self i) rfl
    have hz := hc0 (grad m c x (zeros m.outputDim))
    rw [hg.2.1] at hz
    rw [hz, add_zero, dot_comm' hg.1 (by simp), dot_unit hi hg.1] at this
    exact this
  · refine ext _ _ hg.2.1 fun i hi => ?_
    have := key _ _ _ _ _ (by have := path_const c (x.getD i 0); rwa [hf.1] at this) (path_set hi hf.2 (x.getD i 0))
      rfl (set_self i)
    have hz := hc0 (coeffGrad m c x (zeros m.outputDim))
    rw [hg.1] at hz
    rw [hz, zero_add, dot_comm' hg.2.1 (by simp), dot_unit hi hg.2.1] at this
    exact this

namespace Comp
open ComposedMap (withCoeffs)

theorem withCoeffs_shift (c : List ℝ) (ms : List CMap) (a b : Nat) :
    withCoeffs c ms (a + b) = withCoeffs (c.drop a) ms b := by
  induction ms generalizing b with
  | nil => rfl
  | cons m ms ih =>
    rw [withCoeffs, withCoeffs, Nat.add_assoc, ih, slice, slice, List.drop_drop]

theorem withCoeffs_cons (c : List ℝ) (m : CMap) (ms : List CMap) :
    withCoeffs c (m :: ms) 0 = (m, c.take m.numCoeffs) :: withCoeffs (c.drop m.numCoeffs) ms 0 := by
  rw [withCoeffs, slice, List.drop_zero, Nat.zero_add]
  have := withCoeffs_shift c ms m.numCoeffs 0
  rw [Nat.add_zero] at this
  rw [this]

theorem withCoeffs_mem {c : List ℝ} {ms : List CMap} {d : Nat} (hc : c.length = (ms.map CMap.numCoeffs).sum)
    (hd : ∀ m ∈ ms, m.inputDim = d ∧ m.outputDim = d) : ∀ p ∈ withCoeffs c ms 0, Sq d p ∧ p.1 ∈ ms := by
  induction ms generalizing c with
  | nil => intro p hp; simp [withCoeffs] at hp
  | cons m ms ih =>
    simp only [List.map_cons, List.sum_cons] at hc
    intro p hp
    rw [withCoeffs_cons] at hp
    rcases List.mem_cons.mp hp with rfl | hp
    · exact ⟨⟨(hd m (by simp)).1, (hd m (by simp)).2, by simp [hc]⟩, by simp⟩
    · have := ih (c := c.drop m.numCoeffs) (by simp [hc]) (fun m' h' => hd m' (by simp [h'])) p hp
      exact ⟨this.1, by simp [this.2]⟩

theorem withCoeffs_length (c : List ℝ) (ms : List CMap) (k : Nat) : (withCoeffs c ms k).length = ms.length := by
  induction ms generalizing k with
  | nil => rfl
  | cons m ms ih => simp [withCoeffs, ih]

theorem withCoeffs_nc (c : List ℝ) (ms : List CMap) (k : Nat) : nc (withCoeffs c ms k) = (ms.map CMap.numCoeffs).sum := by
  induction ms generalizing k with
  | nil => rfl
  | cons m ms ih =>
    have := ih (k + m.numCoeffs)
    rw [nc] at this
    simp only [withCoeffs, nc, List.map_cons, List.sum_cons, this]

theorem run_withCoeffs (c : List ℝ) (ms : List CMap) (x : List ℝ) : run (withCoeffs c ms 0) x = composed ms c x := by
  induction ms generalizing c x with
  | nil => rfl
  | cons m ms ih => rw [withCoeffs_cons, run, ih, composed]

theorem ldSum_withCoeffs (c : List ℝ) (ms : List CMap) (x : List ℝ) :
    ldSum (withCoeffs c ms 0) x = composedLogDet ms c x := by
  induction ms generalizing c x with
  | nil => rfl
  | cons m ms ih => rw [withCoeffs_cons, ldSum, ih, composedLogDet]

variable {d : Nat}

/-- Reverse sweeps give the gradient of `s · (T_n ∘ ... ∘ T_1)`. -/
theorem back_gradient {s : List ℝ} (hs : s.length = d) (ms : List CMap) : ∀ {c x : List ℝ},
    (∀ m ∈ ms, m.inputDim = d ∧ m.outputDim = d) → (∀ m ∈ ms, Evaluates m) → (∀ m ∈ ms, Differentiates m) →
    c.length = (ms.map CMap.numCoeffs).sum → x.length = d →
    IsGradient (ms.map CMap.numCoeffs).sum d (fun c x => dot s (composed ms c x)) c x
      (cgBack (withCoeffs c ms 0) x s) (back (withCoeffs c ms 0) x s) := by
  induction ms with
  | nil =>
    intro c x _ _ _ hc hx
    refine ⟨rfl, hs, fun γ δ vc vx t₀ hγ hδ _ _ => ?_⟩
    have : dot (cgBack (withCoeffs c [] 0) x s) vc = 0 := dot_nil_left vc
    rw [this, zero_add]
    exact path_dot hδ hs
  | cons m ms ih =>
    intro c x hd hE hD hc hx
    simp only [List.map_cons, List.sum_cons] at hc ⊢
    obtain ⟨hi, ho⟩ := hd m (by simp)
    have hEm := hE m (by simp)
    have hDm := hD m (by simp)
    have hfit : Fits m (c.take m.numCoeffs) x := ⟨by simp [hc], by rw [hx, hi]⟩
    have hfl : (fn m (c.take m.numCoeffs) x).length = d := by rw [(hEm _ _ hfit).1, ho]
    have IH := ih (c := c.drop m.numCoeffs) (x := fn m (c.take m.numCoeffs) x) (fun m' h' => hd m' (by simp [h']))
      (fun m' h' => hE m' (by simp [h'])) (fun m' h' => hD m' (by simp [h'])) (by simp [hc]) hfl
    rw [withCoeffs_cons, cgBack, back]
    simp only
    set S := back (withCoeffs (c.drop m.numCoeffs) ms 0) (fn m (c.take m.numCoeffs) x) s with hS
    have hg := (hDm _ _ S hfit (by rw [IH.2.1, ho])).2.2
    refine ⟨by rw [List.length_append, hg.1, IH.1], by rw [hg.2.1, hi], fun γ δ vc vx t₀ hγ hδ hγc hδx => ?_⟩
    have hγ1 := hγ.take (k := m.numCoeffs) (by omega)
    obtain ⟨v, hv, hvS⟩ := path_fn hEm hDm (c := c.take m.numCoeffs) (x := x) hγ1 (by rw [hi]; exact hδ)
      (by simp only [hγc]) hδx
    have := IH.2.2 (fun t => (γ t).drop m.numCoeffs) (fun t => fn m ((γ t).take m.numCoeffs) (δ t)) (vc.drop m.numCoeffs) v t₀
      hγ.drop (by rw [ho] at hv; exact hv) (by simp only [hγc]) (by simp only [hγc, hδx])
    refine this.congr_deriv ?_
    rw [hvS S (by rw [IH.2.1, ho]), dot_split m.numCoeffs (by rw [hγ.2.1]; omega) hg.1]
    ring

/-- Reverse sweeps give the gradient of the log-determinant of the composition. -/
theorem ldBack_gradient (ms : List CMap) : ∀ {c x : List ℝ},
    (∀ m ∈ ms, m.inputDim = d ∧ m.outputDim = d) → (∀ m ∈ ms, Evaluates m) → (∀ m ∈ ms, Differentiates m) →
    (∀ m ∈ ms, DifferentiatesLogDet m) → c.length = (ms.map CMap.numCoeffs).sum → x.length = d →
    IsGradient (ms.map CMap.numCoeffs).sum d (fun c x => composedLogDet ms c x) c x
      (ldcBack (withCoeffs c ms 0) x (zeros d)) (ldBack (withCoeffs c ms 0) x (zeros d)) := by
  induction ms with
  | nil =>
    intro c x _ _ _ _ hc hx
    refine ⟨rfl, by simp [withCoeffs, ldBack], fun γ δ vc vx t₀ hγ hδ _ _ => ?_⟩
    have h1 : dot (ldcBack (withCoeffs c [] 0) x (zeros d)) vc = 0 := dot_nil_left vc
    have h2 : dot (ldBack (withCoeffs c [] 0) x (zeros d)) vx = 0 := dot_zeros d vx
    rw [h1, h2, zero_add]
    exact hasDerivAt_const _ _
  | cons m ms ih =>
    intro c x hd hE hD hL hc hx
    simp only [List.map_cons, List.sum_cons] at hc ⊢
    obtain ⟨hi, ho⟩ := hd m (by simp)
    have hEm := hE m (by simp)
    have hDm := hD m (by simp)
    have hfit : Fits m (c.take m.numCoeffs) x := ⟨by simp [hc], by rw [hx, hi]⟩
    have hfl : (fn m (c.take m.numCoeffs) x).length = d := by rw [(hEm _ _ hfit).1, ho]
    have IH := ih (c := c.drop m.numCoeffs) (x := fn m (c.take m.numCoeffs) x) (fun m' h' => hd m' (by simp [h']))
      (fun m' h' => hE m' (by simp [h'])) (fun m' h' => hD m' (by simp [h'])) (fun m' h' => hL m' (by simp [h']))
      (by simp [hc]) hfl
    rw [withCoeffs_cons, ldcBack, ldBack]
    simp only
    set S := ldBack (withCoeffs (c.drop m.numCoeffs) ms 0) (fn m (c.take m.numCoeffs) x) (zeros d) with hS
    have hg := (hDm _ _ S hfit (by rw [IH.2.1, ho])).2.2
    have hl := (hL m (by simp) _ _ hfit).2.2
    refine ⟨by simp [hg.1, hl.1, IH.1], by simp [hg.2.1, hl.2.1, hi], fun γ δ vc vx t₀ hγ hδ hγc hδx => ?_⟩
    have hγ1 := hγ.take (k := m.numCoeffs) (by omega)
    obtain ⟨v, hv, hvS⟩ := path_fn hEm hDm (c := c.take m.numCoeffs) (x := x) hγ1 (by rw [hi]; exact hδ)
      (by simp only [hγc]) hδx
    have h1 := IH.2.2 (fun t => (γ t).drop m.numCoeffs) (fun t => fn m ((γ t).take m.numCoeffs) (δ t)) (vc.drop m.numCoeffs) v t₀
      hγ.drop (by rw [ho] at hv; exact hv) (by simp only [hγc]) (by simp only [hγc, hδx])
    have h2 := hl.2.2 (fun t => (γ t).take m.numCoeffs) δ (vc.take m.numCoeffs) vx t₀ hγ1 (by rw [hi]; exact hδ)
      (by simp only [hγc]) hδx
    refine (h2.fun_add h1).congr_deriv ?_
    rw [hvS S (by rw [IH.2.1, ho]), dot_split m.numCoeffs (by rw [hγ.2.1]; omega) (by simp [hg.1, hl.1]),
      dot_zipWith_add (by rw [hg.1, hl.1]), dot_zipWith_add (by rw [hg.2.1, hl.2.1])]
    ring

/-- `J` is the Jacobian of `F` at `x`, along every path. -/
def HasJac (d : Nat) (F : List ℝ → List ℝ) (x : List ℝ) (J : Matrix (Fin d) (Fin d) ℝ) : Prop :=
  ∀ δ v t₀, Path d δ v t₀ → δ t₀ = x → ∀ i : Fin d,
    HasDerivAt (fun t => (F (δ t)).getD i 0) (∑ k : Fin d, J i k * v.getD k 0) t₀

theorem HasJac.jac {F : List ℝ → List ℝ} {x : List ℝ} {J : Matrix (Fin d) (Fin d) ℝ} (h : HasJac d F x J)
    (hx : x.length = d) : jac F 0 d x = J := by
  ext i j
  rw [Spec.jac, Matrix.of_apply, Nat.zero_add]
  rw [(h _ _ _ (path_set j.2 hx (x.getD j 0)) (set_self _) i).deriv, Finset.sum_eq_single j]
  · rw [unit_getD j.2]; simp
  · intro k _ hk
    rw [unit_getD k.2, if_neg (fun h => hk (Fin.ext h.symm)), mul_zero]
  · intro h; exact absurd (Finset.mem_univ _) h

theorem hasJac_id {x : List ℝ} : HasJac d (fun y => y) x 1 := by
  intro δ v t₀ hδ _ i
  refine (hδ.2.2 i i.2).congr_deriv ?_
  rw [Finset.sum_eq_single i]
  · simp
  · intro k _ hk; rw [Matrix.one_apply_ne hk.symm, zero_mul]
  · intro h; exact absurd (Finset.mem_univ _) h

theorem hasJac_comp {F G : List ℝ → List ℝ} {x : List ℝ} {J K : Matrix (Fin d) (Fin d) ℝ} (hG : HasJac d G x J)
    (hl : ∀ y : List ℝ, y.length = d → (G y).length = d) (hF : HasJac d F (G x) K) :
    HasJac d (fun y => F (G y)) x (K * J) := by
  intro δ v t₀ hδ hx i
  have hp : Path d (fun t => G (δ t)) ((List.finRange d).map fun i => ∑ k : Fin d, J i k * v.getD k 0) t₀ := by
    refine ⟨fun t => hl _ (hδ.1 t), by simp, fun j hj => ?_⟩
    refine (hG δ v t₀ hδ hx ⟨j, hj⟩).congr_deriv ?_
    rw [List.getD_eq_getElem?_getD]
    simp [hj]
  refine (hF _ _ t₀ hp (by simp only [hx]) i).congr_deriv ?_
  have e : ∀ k : Fin d, ((List.finRange d).map fun i => ∑ k : Fin d, J i k * v.getD k 0).getD k 0
      = ∑ l : Fin d, J k l * v.getD l 0 := by
    intro k
    rw [List.getD_eq_getElem?_getD]
    simp
  simp only [e, Matrix.mul_apply, Finset.mul_sum, Finset.sum_mul]
  rw [Finset.sum_comm]
  exact Finset.sum_congr rfl fun _ _ => Finset.sum_congr rfl fun _ _ => by ring

theorem hasJac_fn {m : CMap} (hE : Evaluates m) (hD : Differentiates m) {c x : List ℝ} (hf : Fits m c x)
    (hsq : m.inputDim = m.outputDim) :
    HasJac m.outputDim (fn m c) x (Matrix.of fun i k => (grad m c x (unit m.outputDim i)).getD k 0) := by
  intro δ v t₀ hδ hx i
  have hc : Path m.numCoeffs (fun _ => c) (zeros m.numCoeffs) t₀ := by
    have := path_const c t₀; rwa [hf.1] at this
  obtain ⟨w, hw, hwS⟩ := path_fn hE hD hc (by rw [hsq]; exact hδ) rfl hx
  refine (hw.2.2 i i.2).congr_deriv ?_
  have hg := (hD c x (unit m.outputDim i) hf (by simp)).2.2
  have h0 : dot (coeffGrad m c x (unit m.outputDim i)) (zeros m.numCoeffs) = 0 := by
    rw [dot_comm' hg.1 (by simp), dot_zeros]
  rw [← dot_unit i.2 hw.2.1, hwS _ (by simp), h0, zero_add, dot_eq_sum (n := m.outputDim) (by rw [hg.2.1, hsq]) hδ.2.1,
    Finset.sum_range]
  rfl

/-- The Jacobian determinant of the composition. -/
theorem run_jacobian (ps : List (CMap × List ℝ)) : ∀ {x : List ℝ}, (∀ p ∈ ps, Sq d p ∧ Evaluates p.1) →
    (∀ p ∈ ps, Differentiates p.1) → (∀ p ∈ ps, LogDetIsJacobian p.1) → x.length = d →
    ∃ J : Matrix (Fin d) (Fin d) ℝ, HasJac d (run ps) x J ∧ J.det ≠ 0 ∧ ldSum ps x = Real.log |J.det| := by
  induction ps with
  | nil => intro x _ _ _ _; exact ⟨1, hasJac_id, by simp, by simp [ldSum]⟩
  | cons p ps ih =>
    intro x h hD hL hx
    have hp := h p (by simp)
    have hfit := hp.1.fits hx
    obtain ⟨K, hK, hK0, hKl⟩ := ih (x := fn p.1 p.2 x) (fun q hq => h q (by simp [hq])) (fun q hq => hD q (by simp [hq]))
      (fun q hq => hL q (by simp [hq])) (hp.1.fn_length hp.2 hx)
    have hd : d = p.1.outputDim := hp.1.2.1.symm
    have hin : p.1.inputDim = p.1.outputDim := by rw [hp.1.1, hd]
    subst hd
    have hJ := hasJac_fn hp.2 (hD p (by simp)) hfit hin
    have hl := hL p (by simp) _ _ hfit
    rw [jacobian, hin, Nat.sub_self, hJ.jac hx] at hl
    refine ⟨_, hasJac_comp (F := run ps) (G := fn p.1 p.2) hJ (fun y hy => hp.1.fn_length hp.2 hy) hK, ?_, ?_⟩
    · rw [Matrix.det_mul]; exact mul_ne_zero hK0 hl.1
    · rw [ldSum, hl.2, hKl, Matrix.det_mul, abs_mul, Real.log_mul (abs_ne_zero.mpr hK0) (abs_ne_zero.mpr hl.1), add_comm]

/-- Inverting from the last layer to the first. -/
theorem invLoop_eq {k : Nat} {x1 : List ℝ} (hx1 : x1.length = k) (ps : List (CMap × List ℝ)) : ∀ (r buf : List ℝ),
    (∀ p ∈ ps, Sq d p ∧ Evaluates p.1) → (∀ p ∈ ps, InvertsFrom p.1 k) → r.length = d → buf.length = d →
    ∃ y : List ℝ, ComposedMap.invLoop x1 ps.reverse r buf = .ok y ∧ y.length = d ∧ run ps y = r ∧
      ∀ y' : List ℝ, y'.length = d → run ps y' = r → y' = y := by
  induction ps using List.reverseRecOn with
  | nil => intro r buf _ _ hr _; exact ⟨r, rfl, hr, rfl, fun y' _ h => h⟩
  | append_singleton ps p ih =>
    intro r buf h hI hr hb
    have hp := h p (by simp)
    obtain ⟨y0, e0, l0, r0, u0⟩ := hI p (by simp) p.2 x1 r hp.1.2.2 hx1 (by rw [hr, hp.1.2.1]) buf (by rw [hb, hp.1.2.1])
    rw [hp.1.1, hp.1.2.1, Nat.sub_self] at r0 u0
    rw [hp.1.2.1] at l0
    simp only [List.take_zero, List.nil_append] at r0 u0
    have h' : ∀ q ∈ ps, Sq d q ∧ Evaluates q.1 := fun q hq => h q (by simp [hq])
    obtain ⟨y, e, l, hr1, hu⟩ := ih y0 r h' (fun q hq => hI q (by simp [hq])) l0 hr
    refine ⟨y, ?_, l, by rw [run_append, hr1]; exact r0, fun y' hy' hrun => ?_⟩
    · rw [List.reverse_append, List.reverse_singleton, List.singleton_append, ComposedMap.invLoop, e0, Res.bind_ok, e]
    · rw [run_append] at hrun
      exact hu y' hy' (u0 _ (run_length h' hy') hrun)

end Comp
end MParT
