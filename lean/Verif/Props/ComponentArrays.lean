import Verif.Model.ComponentArrays
import Verif.Props.MonotoneQuad
/-!
# Property C91: the functions of a component on whole arrays

`T pt cs' x` is the component with the integral discretised by the nodes the quadrature chooses at the point `pt` for the
coefficients `cs` of the call; the derivatives returned are derivatives of this function.
-/
namespace MParT
open Spec Worker FixedSet Finset MonotoneComponent

/-! ### Loops over the points -/

theorem forPts_ok {α : Type} {f : List ℝ → α → Res α} {P : α → Prop} {Q : List ℝ → α → α → Prop} :
    ∀ (pts : List (List ℝ)) (i : Nat) (out : List α), (∀ pt ∈ pts, ∀ a, P a → ∃ a', f pt a = .ok a' ∧ Q pt a a') →
      (∀ j a, i ≤ j → out[j]? = some a → P a) → i + pts.length ≤ out.length →
      ∃ out', forPts f pts i out = .ok out' ∧ out'.length = out.length ∧
        (∀ j, j < i ∨ i + pts.length ≤ j → out'[j]? = out[j]?) ∧
        ∀ k pt a, pts[k]? = some pt → out[i + k]? = some a → ∃ a', out'[i + k]? = some a' ∧ Q pt a a'
  | [], i, out, _, _, _ => ⟨out, rfl, rfl, fun _ _ => rfl, by simp⟩
  | pt :: pts, i, out, hf, hP, hl => by
    simp only [List.length_cons] at hl
    have hi : i < out.length := by omega
    obtain ⟨a', e, hq⟩ := hf pt (by simp) out[i] (hP i _ le_rfl (List.getElem?_eq_getElem hi))
    obtain ⟨out', e', hl', hk, hpt⟩ := forPts_ok pts (i + 1) (out.set i a') (fun p hp => hf p (by simp [hp]))
      (fun j a hj h => hP j a (by omega) (by rwa [List.getElem?_set_ne (by omega)] at h)) (by simp; omega)
    refine ⟨out', ?_, by simpa using hl', fun j hj => ?_, fun k p a hp ha => ?_⟩
    · rw [forPts, Res.idx_lt hi, Res.bind_ok, e, Res.bind_ok, Res.setIdx_lt hi, Res.bind_ok, e']
    · simp only [List.length_cons] at hj
      rw [hk j (by omega), List.getElem?_set_ne (by omega)]
    · cases k with
      | zero =>
        simp only [List.getElem?_cons_zero, Option.some.injEq] at hp
        rw [Nat.add_zero, List.getElem?_eq_getElem hi] at ha
        cases ha; subst hp
        refine ⟨a', ?_, hq⟩
        rw [Nat.add_zero, hk i (by omega), List.getElem?_set_self hi]
      | succ k =>
        rw [show i + (k + 1) = i + 1 + k by omega] at ha ⊢
        exact hpt k p a (by simpa using hp) (by rwa [List.getElem?_set_ne (by omega)])

theorem forPts2_ok {α : Type} {f : List ℝ → α → Res (ℝ × α)} {P : α → Prop} {Q : List ℝ → α → ℝ → α → Prop} :
    ∀ (pts : List (List ℝ)) (i : Nat) (ev : List ℝ) (out : List α),
      (∀ pt ∈ pts, ∀ a, P a → ∃ v a', f pt a = .ok (v, a') ∧ Q pt a v a') →
      (∀ j a, i ≤ j → out[j]? = some a → P a) → i + pts.length ≤ out.length → i + pts.length ≤ ev.length →
      ∃ ev' out', forPts2 f pts i ev out = .ok (ev', out') ∧ ev'.length = ev.length ∧ out'.length = out.length ∧
        (∀ j, j < i ∨ i + pts.length ≤ j → out'[j]? = out[j]? ∧ ev'[j]? = ev[j]?) ∧
        ∀ k pt a, pts[k]? = some pt → out[i + k]? = some a →
          ∃ v a', ev'[i + k]? = some v ∧ out'[i + k]? = some a' ∧ Q pt a v a'
  | [], i, ev, out, _, _, _, _ => ⟨ev, out, rfl, rfl, rfl, fun _ _ => ⟨rfl, rfl⟩, by simp⟩
  | pt :: pts, i, ev, out, hf, hP, hl, hle => by
    simp only [List.length_cons] at hl hle
    have hi : i < out.length := by omega
    have hie : i < ev.length := by omega
    obtain ⟨v, a', e, hq⟩ := hf pt (by simp) out[i] (hP i _ le_rfl (List.getElem?_eq_getElem hi))
    obtain ⟨ev', out', e', hle', hl', hk, hpt⟩ := forPts2_ok pts (i + 1) (ev.set i v) (out.set i a')
      (fun p hp => hf p (by simp [hp]))
      (fun j a hj h => hP j a (by omega) (by rwa [List.getElem?_set_ne (by omega)] at h)) (by simp; omega) (by simp; omega)
    refine ⟨ev', out', ?_, by simpa using hle', by simpa using hl', fun j hj => ?_, fun k p a hp ha => ?_⟩
    · rw [forPts2, Res.idx_lt hi, Res.bind_ok, e, Res.bind_ok, Res.setIdx_lt hie, Res.bind_ok, Res.setIdx_lt hi, Res.bind_ok, e']
    · simp only [List.length_cons] at hj
      rw [(hk j (by omega)).1, (hk j (by omega)).2, List.getElem?_set_ne (by omega), List.getElem?_set_ne (by omega)]
      exact ⟨rfl, rfl⟩
    · cases k with
      | zero =>
        simp only [List.getElem?_cons_zero, Option.some.injEq] at hp
        rw [Nat.add_zero, List.getElem?_eq_getElem hi] at ha
        cases ha; subst hp
        refine ⟨v, a', ?_, ?_, hq⟩
        · rw [Nat.add_zero, (hk i (by omega)).2, List.getElem?_set_self hie]
        · rw [Nat.add_zero, (hk i (by omega)).1, List.getElem?_set_self hi]
      | succ k =>
        rw [show i + (k + 1) = i + 1 + k by omega] at ha ⊢
        exact hpt k p a (by simpa using hp) (by rwa [List.getElem?_set_ne (by omega)])

/-- A point beyond the end of the array is an access out of range. -/
theorem forPts_short {α : Type} {f : List ℝ → α → Res α} :
    ∀ (pts : List (List ℝ)) (i : Nat) (out : List α), (∀ pt ∈ pts, ∀ a, ∃ a', f pt a = .ok a') →
      out.length < i + pts.length → i ≤ out.length → forPts f pts i out = .ub
  | [], i, out, _, h, h' => by simp at h; omega
  | pt :: pts, i, out, hf, h, h' => by
    simp only [List.length_cons] at h
    by_cases hi : i < out.length
    · obtain ⟨a', e⟩ := hf pt (by simp) out[i]
      rw [forPts, Res.idx_lt hi, Res.bind_ok, e, Res.bind_ok, Res.setIdx_lt hi, Res.bind_ok]
      exact forPts_short pts (i + 1) _ (fun p hp => hf p (by simp [hp])) (by simp; omega) (by simp; omega)
    · rw [forPts, show Res.idx out i = .ub by simp [Res.idx, List.getElem?_eq_none (show out.length ≤ i by omega)]]
      rfl

theorem scaleCols_ok (n : Nat) : ∀ (ss : List ℝ) (cols : List (List ℝ)), ss.length = cols.length → (∀ col ∈ cols, col.length = n) →
    ∃ r, scaleCols n ss cols = .ok r ∧ r.length = cols.length ∧
      ∀ (k : Nat) (s : ℝ) (col : List ℝ), ss[k]? = some s → cols[k]? = some col → r[k]? = some (col.map (· * s))
  | [], [], _, _ => ⟨[], rfl, rfl, by simp⟩
  | [], _ :: _, h, _ => by simp at h
  | _ :: _, [], h, _ => by simp at h
  | s :: ss, col :: cols, h, hn => by
    obtain ⟨r, e, hl, hk⟩ := scaleCols_ok n ss cols (by simpa using h) fun c hc => hn c (by simp [hc])
    have hc := hn col (by simp)
    refine ⟨col.map (· * s) :: r, ?_, by simpa using hl, fun k s' col' h1 h2 => ?_⟩
    · rw [scaleCols, if_neg (by omega), e, Res.bind_ok, mapIdx_lt _ _ hc.le]
      rfl
    · cases k with
      | zero =>
        simp only [List.getElem?_cons_zero, Option.some.injEq] at h1 h2 ⊢
        rw [h1, h2]
      | succ k => simpa using hk k s' col' (by simpa using h1) (by simpa using h2)

/-! ### Specification -/

variable {c : MonotoneComponent} {D : Nat} {ts : List (List Nat)}

/-- The component discretised with the nodes chosen for the coefficients `cs` and the point `pt`, as a function of the
coefficients and of the point. -/
noncomputable def compAt (c : MonotoneComponent) (D : Nat) (ts : List (List Nat)) (mesh : (ℝ → ℝ) → List (ℝ × ℝ)) (cs pt : List ℝ)
    (cs' : List ℝ) (x : Nat → ℝ) : ℝ :=
  discretised c.b.eff c.g.eval c.nugget D ts cs' x (mesh (unitDensity c.b.eff c.g.eval c.nugget D ts cs (coords pt)))

/-- The second derivatives of the basis are right at the nodes used for `pt`. -/
def NodesTwice (c : MonotoneComponent) (D : Nat) (ts : List (List Nat)) (mesh : (ℝ → ℝ) → List (ℝ × ℝ)) (cs pt : List ℝ) : Prop :=
  ∀ p ∈ mesh (unitDensity c.b.eff c.g.eval c.nugget D ts cs (coords pt)), TwiceAt c.b.eff (p.1 * coords pt (D - 1))

/-- `g(∂_D f)`, the continuous derivative. -/
noncomputable def slope (c : MonotoneComponent) (D : Nat) (ts : List (List Nat)) (cs : List ℝ) (x : Nat → ℝ) : ℝ :=
  c.g.eval (diagD c.b.eff D ts cs x)

/-- The matrix has `extent(0)` entries in each column. -/
def MonotoneComponent.Cols.WF (m : Cols) : Prop := ∀ col ∈ m.cols, col.length = m.rows

section
variable (hv : ValidComponent c D ts) {mesh : (ℝ → ℝ) → List (ℝ × ℝ)} (hm : UsesMesh c.quad mesh) {cs : List ℝ}
  (hc : cs.length = ts.length) (pts : Cols) (hp : ∀ pt ∈ pts.cols, pt.length = D) (scr : Cache ℝ)
  (hs : scr.length = c.w.cacheSize)
include hv hm hc hp hs

/-- **C91.** `CoeffJacobian` with a Jacobian of one row per coefficient and one column per point and with one evaluation per
point: evaluation `i` is the value and column `i` holds the derivatives with respect to all coefficients at point `i`,
whatever the arrays contained before. -/
theorem C91_coeffJacobian (evals : List ℝ) (jac : Cols) (hj : jac.WF) :
    (jac.rows = ts.length → jac.cols.length = pts.cols.length → evals.length = pts.cols.length →
      ∃ ev j, c.coeffJacobian scr pts cs evals jac = .ok (ev, j) ∧ ev.length = pts.cols.length ∧ j.length = pts.cols.length ∧
        ∀ (i : Nat) (pt : List ℝ), pts.cols[i]? = some pt → ev[i]? = some (compAt c D ts mesh cs pt cs (coords pt)) ∧
          ∃ col, j[i]? = some col ∧ col.length = ts.length ∧ ∀ k, k < ts.length →
            HasDerivAt (fun z => compAt c D ts mesh cs pt (cs.set k z) (coords pt)) (col.getD k 0) (cs.getD k 0)) := by
  · intro h1 h2 h3
    obtain ⟨ev, j, e, hle, hl, -, hk⟩ := forPts2_ok (f := fun pt jac => c.coeffJacobianPt scr cs pt jac)
      (P := fun a => a.length = ts.length) (Q := fun pt _ v col => v = compAt c D ts mesh cs pt cs (coords pt) ∧
        col.length = ts.length ∧ ∀ k, k < ts.length →
            HasDerivAt (fun z => compAt c D ts mesh cs pt (cs.set k z) (coords pt)) (col.getD k 0) (cs.getD k 0))
      pts.cols 0 evals jac.cols (fun pt hpt a ha => by
        obtain ⟨j, e, h⟩ := C39_coeff hv hm hc (hp pt hpt) scr hs a ha
        exact ⟨_, j, e, rfl, h⟩) (fun i a _ ha => by rw [hj a (List.mem_of_getElem? ha), h1]) (by omega) (by omega)
    refine ⟨ev, j, ?_, by omega, by omega, fun i pt hi => ?_⟩
    · rw [coeffJacobian, checkJacobianInput, hc, if_pos ⟨h1, h2, h3⟩]
      exact e
    · have hlt : i < pts.cols.length := (List.getElem?_eq_some_iff.1 hi).1
      obtain ⟨v, col, e1, e2, rfl, h⟩ := hk i pt jac.cols[i] hi (by rw [Nat.zero_add]; exact List.getElem?_eq_getElem (by omega))
      rw [Nat.zero_add] at e1 e2
      exact ⟨e1, col, e2, h⟩

/-- **C91.** `InputJacobian` with a Jacobian of one row per input and one column per point and with one evaluation per point:
evaluation `i` is the value and column `i` holds the derivatives with respect to all inputs at point `i`. -/
theorem C91_inputJacobian (evals : List ℝ) (jac : Cols) (hj : jac.WF) :
    (jac.rows = D → jac.cols.length = pts.cols.length → evals.length = pts.cols.length →
      ∃ ev j, c.inputJacobian scr pts cs evals jac = .ok (ev, j) ∧ ev.length = pts.cols.length ∧ j.length = pts.cols.length ∧
        ∀ (i : Nat) (pt : List ℝ), pts.cols[i]? = some pt → ev[i]? = some (compAt c D ts mesh cs pt cs (coords pt)) ∧
          ∃ col, j[i]? = some col ∧ col.length = D ∧ ∀ e, e < D → (e = D - 1 → NodesTwice c D ts mesh cs pt) →
            HasDerivAt (fun y => compAt c D ts mesh cs pt cs (Function.update (coords pt) e y)) (col.getD e 0) (coords pt e)) := by
  · intro h1 h2 h3
    obtain ⟨ev, j, e, hle, hl, -, hk⟩ := forPts2_ok (f := fun pt jac => c.inputJacobianPt scr cs pt jac)
      (P := fun a => a.length = D) (Q := fun pt _ v col => v = compAt c D ts mesh cs pt cs (coords pt) ∧
        col.length = D ∧ ∀ e, e < D → (e = D - 1 → NodesTwice c D ts mesh cs pt) →
            HasDerivAt (fun y => compAt c D ts mesh cs pt cs (Function.update (coords pt) e y)) (col.getD e 0) (coords pt e))
      pts.cols 0 evals jac.cols (fun pt hpt a ha => by
        obtain ⟨j, e, h⟩ := C39_input hv hm hc (hp pt hpt) scr hs a ha
        exact ⟨_, j, e, rfl, h⟩) (fun i a _ ha => by rw [hj a (List.mem_of_getElem? ha), h1]) (by omega) (by omega)
    refine ⟨ev, j, ?_, by omega, by omega, fun i pt hi => ?_⟩
    · rw [inputJacobian, checkJacobianInput, dim_eq hv, if_pos ⟨h1, h2, h3⟩]
      exact e
    · have hlt : i < pts.cols.length := (List.getElem?_eq_some_iff.1 hi).1
      obtain ⟨v, col, e1, e2, rfl, h⟩ := hk i pt jac.cols[i] hi (by rw [Nat.zero_add]; exact List.getElem?_eq_getElem (by omega))
      rw [Nat.zero_add] at e1 e2
      exact ⟨e1, col, e2, h⟩

/-- **C91.** `Gradient` and `CoeffGrad` with arguments of the right sizes: column `i` is the gradient of `s_i T` at point `i`,
whatever the output contained before. -/
theorem C91_gradients (sensRows : Nat) (sens : List ℝ) (out : Cols) (ho : out.WF) :
    (sensRows = 1 → sens.length = pts.cols.length → pts.rows = D → out.rows = D → out.cols.length = pts.cols.length →
      ∃ j, c.gradientImpl scr pts cs sensRows sens out = .ok j ∧ j.length = pts.cols.length ∧
        ∀ (i : Nat) (pt : List ℝ) (s : ℝ), pts.cols[i]? = some pt → sens[i]? = some s → ∃ col, j[i]? = some col ∧ col.length = D ∧
          ∀ e, e < D → (e = D - 1 → NodesTwice c D ts mesh cs pt) →
            HasDerivAt (fun y => s * compAt c D ts mesh cs pt cs (Function.update (coords pt) e y)) (col.getD e 0) (coords pt e)) ∧
    (sensRows = 1 → sens.length = pts.cols.length → pts.rows = D → out.rows = ts.length → out.cols.length = pts.cols.length →
      ∃ j, c.coeffGradImpl scr pts cs sensRows sens out = .ok j ∧ j.length = pts.cols.length ∧
        ∀ (i : Nat) (pt : List ℝ) (s : ℝ), pts.cols[i]? = some pt → sens[i]? = some s → ∃ col, j[i]? = some col ∧
          col.length = ts.length ∧ ∀ k, k < ts.length →
            HasDerivAt (fun z => s * compAt c D ts mesh cs pt (cs.set k z) (coords pt)) (col.getD k 0) (cs.getD k 0)) := by
  have hn : c.numCoeffs = ts.length := by rw [numCoeffs, size_eq hv]
  refine ⟨fun h1 h2 h3 h4 h5 => ?_, fun h1 h2 h3 h4 h5 => ?_⟩
  · obtain ⟨ev, j, e, -, hl, hk⟩ := (C91_inputJacobian hv hm hc pts hp scr hs (List.replicate pts.cols.length 0) out ho) h4 h5
      (by simp)
    have hcol : ∀ col ∈ j, col.length = D := by
      intro col hcol
      obtain ⟨i, hi⟩ := List.getElem?_of_mem hcol
      have hlt : i < pts.cols.length := by rw [← hl]; exact (List.getElem?_eq_some_iff.1 hi).1
      obtain ⟨-, col', e', hl', -⟩ := hk i _ (List.getElem?_eq_getElem hlt)
      rw [hi] at e'; cases e'
      exact hl'
    obtain ⟨r, er, hlr, hr⟩ := scaleCols_ok D sens j (by omega) hcol
    refine ⟨r, ?_, by omega, fun i pt s hi hsi => ?_⟩
    · rw [gradientImpl, if_pos (by simp [gradShapeOk, dim_eq hv, h1, h2, h3, h4, h5]), e, Res.bind_ok, dim_eq hv]
      exact er
    · obtain ⟨-, col, e', hl', hd⟩ := hk i pt hi
      refine ⟨_, hr i s col hsi e', by simpa using hl', fun a ha h2 => ?_⟩
      refine ((hd a ha h2).const_mul s).congr_deriv ?_
      simp [List.getD_eq_getElem?_getD, show a < col.length by omega, mul_comm]
  · obtain ⟨ev, j, e, -, hl, hk⟩ := (C91_coeffJacobian hv hm hc pts hp scr hs (List.replicate pts.cols.length 0) out ho) h4 h5
      (by simp)
    have hcol : ∀ col ∈ j, col.length = ts.length := by
      intro col hcol
      obtain ⟨i, hi⟩ := List.getElem?_of_mem hcol
      have hlt : i < pts.cols.length := by rw [← hl]; exact (List.getElem?_eq_some_iff.1 hi).1
      obtain ⟨-, col', e', hl', -⟩ := hk i _ (List.getElem?_eq_getElem hlt)
      rw [hi] at e'; cases e'
      exact hl'
    obtain ⟨r, er, hlr, hr⟩ := scaleCols_ok ts.length sens j (by omega) hcol
    refine ⟨r, ?_, by omega, fun i pt s hi hsi => ?_⟩
    · rw [coeffGradImpl, if_pos (by simp [gradShapeOk, dim_eq hv, hn, h1, h2, h3, h4, h5]), e, Res.bind_ok, hn]
      exact er
    · obtain ⟨-, col, e', hl', hd⟩ := hk i pt hi
      refine ⟨_, hr i s col hsi e', by simpa using hl', fun a ha => ?_⟩
      refine ((hd a ha).const_mul s).congr_deriv ?_
      simp [List.getD_eq_getElem?_getD, show a < col.length by omega, mul_comm]

/-- **C91.** `DiscreteDerivative` on arrays with at least one entry per point: entry `i` is the value and the derivative in
the last input at point `i`; entries after the points keep their content. Missing from the full property: too short arrays
are not rejected, see `C91_fails_short`. -/
theorem C91_discreteDerivative_partial (evals derivs : List ℝ) (he : pts.cols.length ≤ evals.length)
    (hd : pts.cols.length ≤ derivs.length) :
    ∃ ev d, c.discreteDerivative scr pts cs evals derivs = .ok (ev, d) ∧ ev.length = evals.length ∧ d.length = derivs.length ∧
      (∀ j, pts.cols.length ≤ j → d[j]? = derivs[j]? ∧ ev[j]? = evals[j]?) ∧
      ∀ (i : Nat) (pt : List ℝ), pts.cols[i]? = some pt → ev[i]? = some (compAt c D ts mesh cs pt cs (coords pt)) ∧
        ∃ y, d[i]? = some y ∧ (NodesTwice c D ts mesh cs pt →
          HasDerivAt (fun y => compAt c D ts mesh cs pt cs (Function.update (coords pt) (D - 1) y)) y (coords pt (D - 1))) := by
  obtain ⟨ev, d, e, hle, hl, hr, hk⟩ := forPts2_ok (f := fun pt _ => c.discreteDerivativePt scr cs pt)
    (P := fun _ => True) (Q := fun pt _ v y => v = compAt c D ts mesh cs pt cs (coords pt) ∧
      (NodesTwice c D ts mesh cs pt →
          HasDerivAt (fun y => compAt c D ts mesh cs pt cs (Function.update (coords pt) (D - 1) y)) y (coords pt (D - 1))))
    pts.cols 0 evals derivs (fun pt hpt a _ => by
      obtain ⟨d, e, h⟩ := C39_discrete hv hm hc (hp pt hpt) scr hs
      exact ⟨_, d, e, rfl, h⟩) (fun _ _ _ _ => trivial) (by omega) (by omega)
  refine ⟨ev, d, e, hle, hl, fun j hj => hr j (by omega), fun i pt hi => ?_⟩
  have hlt : i < pts.cols.length := (List.getElem?_eq_some_iff.1 hi).1
  obtain ⟨v, y, e1, e2, rfl, h⟩ := hk i pt derivs[i] hi (by rw [Nat.zero_add]; exact List.getElem?_eq_getElem (by omega))
  rw [Nat.zero_add] at e1 e2
  exact ⟨e1, y, e2, h⟩

omit hm

/-- **C91.** `ContinuousDerivative` on an array with at least one entry per point: entry `i` is `g(∂_D f)` at point `i`;
entries after the points keep their content. Missing from the full property: too short arrays are not rejected, see
`C91_fails_short`. -/
theorem C91_continuousDerivative_partial (derivs : List ℝ) (hd : pts.cols.length ≤ derivs.length) :
    ∃ d, c.continuousDerivative scr pts cs derivs = .ok d ∧ d.length = derivs.length ∧
      (∀ j, pts.cols.length ≤ j → d[j]? = derivs[j]?) ∧
      ∀ (i : Nat) (pt : List ℝ), pts.cols[i]? = some pt → d[i]? = some (slope c D ts cs (coords pt)) := by
  obtain ⟨d, e, hl, hr, hk⟩ := forPts_ok (f := fun pt _ => c.continuousDerivativePt scr cs pt)
    (P := fun _ => True) (Q := fun pt _ y => y = slope c D ts cs (coords pt)) pts.cols 0 derivs (fun pt hpt a _ =>
      ⟨_, (C39_continuous_partial hv hc (hp pt hpt) scr hs).1, rfl⟩) (fun _ _ _ _ => trivial) (by omega)
  refine ⟨d, e, hl, fun j hj => hr j (by omega), fun i pt hi => ?_⟩
  have hlt : i < pts.cols.length := (List.getElem?_eq_some_iff.1 hi).1
  obtain ⟨y, e1, rfl⟩ := hk i pt derivs[i] hi (by rw [Nat.zero_add]; exact List.getElem?_eq_getElem (by omega))
  rwa [Nat.zero_add] at e1

/-- **C91.** The overload of `ContinuousDerivative` that allocates its result returns exactly one entry per point, `g(∂_D f)`
at that point. -/
theorem C91_continuousNew : c.continuousDerivativeNew scr pts cs = .ok (pts.cols.map fun pt => slope c D ts cs (coords pt)) := by
  obtain ⟨d, e, hl, -, h⟩ := C91_continuousDerivative_partial hv hc pts hp scr hs (List.replicate pts.cols.length 0) (by simp)
  rw [continuousDerivativeNew, e]
  congr 1
  apply List.ext_getElem?
  intro i
  by_cases hi : i < pts.cols.length
  · rw [h i _ (List.getElem?_eq_getElem hi)]
    simp [hi]
  · rw [List.getElem?_eq_none (by simp at hl; omega), List.getElem?_eq_none (by simp; omega)]

/-- **C91.** `ContinuousMixedJacobian` with a Jacobian of one row per coefficient and one column per point: column `i` holds the derivatives of `g(∂_D f)` at point `i` with respect to all coefficients. -/
theorem C91_continuousMixed (jac : Cols) (hj : jac.WF) :
    (jac.rows = ts.length → jac.cols.length = pts.cols.length →
      ∃ j, c.continuousMixedJacobian scr pts cs jac = .ok j ∧ j.length = pts.cols.length ∧
        ∀ (i : Nat) (pt : List ℝ), pts.cols[i]? = some pt → ∃ col, j[i]? = some col ∧ col.length = ts.length ∧
          ∀ k, k < ts.length → HasDerivAt (fun z => slope c D ts (cs.set k z) (coords pt)) (col.getD k 0) (cs.getD k 0)) := by
  · intro h1 h2
    obtain ⟨j, e, hl, -, hk⟩ := forPts_ok (f := fun pt jac => c.continuousMixedJacobianPt scr cs pt jac)
      (P := fun a => a.length = ts.length) (Q := fun pt _ col => col.length = ts.length ∧
          ∀ k, k < ts.length → HasDerivAt (fun z => slope c D ts (cs.set k z) (coords pt)) (col.getD k 0) (cs.getD k 0))
      pts.cols 0 jac.cols (fun pt hpt a ha => C39_continuousMixed hv hc (hp pt hpt) scr hs a ha)
      (fun i a _ ha => by rw [hj a (List.mem_of_getElem? ha), h1]) (by omega)
    refine ⟨j, ?_, by omega, fun i pt hi => ?_⟩
    · rw [continuousMixedJacobian, checkMixedJacobianInput, checkJacobianInput, hc, if_pos ⟨h1, h2, rfl⟩]
      exact e
    · have hlt : i < pts.cols.length := (List.getElem?_eq_some_iff.1 hi).1
      have := hk i pt jac.cols[i] hi (by rw [Nat.zero_add]; exact List.getElem?_eq_getElem (by omega))
      rwa [Nat.zero_add] at this

/-- **C91.** `ContinuousMixedInputJacobian` with a Jacobian of the size of the points: column `i` holds
the derivatives of `g(∂_D f)` at point `i` with respect to all inputs. -/
theorem C91_continuousMixedInput (hpr : pts.rows = D) (jac : Cols) (hj : jac.WF) :
    (jac.rows = D → jac.cols.length = pts.cols.length →
      ∃ j, c.continuousMixedInputJacobian scr pts cs jac = .ok j ∧ j.length = pts.cols.length ∧
        ∀ (i : Nat) (pt : List ℝ), pts.cols[i]? = some pt → ∃ col, j[i]? = some col ∧ col.length = D ∧
          ∀ e, e < D → (e = D - 1 → TwiceAt c.b.eff (coords pt (D - 1))) →
            HasDerivAt (fun y => slope c D ts cs (Function.update (coords pt) e y)) (col.getD e 0) (coords pt e)) := by
  · intro h1 h2
    obtain ⟨j, e, hl, -, hk⟩ := forPts_ok (f := fun pt jac => c.continuousMixedInputJacobianPt scr cs pt jac)
      (P := fun a => a.length = D) (Q := fun pt _ col => col.length = D ∧
          ∀ e, e < D → (e = D - 1 → TwiceAt c.b.eff (coords pt (D - 1))) →
            HasDerivAt (fun y => slope c D ts cs (Function.update (coords pt) e y)) (col.getD e 0) (coords pt e))
      pts.cols 0 jac.cols (fun pt hpt a ha => C39_continuousMixedInput hv hc (hp pt hpt) scr hs a ha)
      (fun i a _ ha => by rw [hj a (List.mem_of_getElem? ha), h1]) (by omega)
    refine ⟨j, ?_, by omega, fun i pt hi => ?_⟩
    · rw [continuousMixedInputJacobian, checkMixedJacobianInput, checkJacobianInput, hpr, if_pos ⟨h1, h2, rfl⟩]
      exact e
    · have hlt : i < pts.cols.length := (List.getElem?_eq_some_iff.1 hi).1
      have := hk i pt jac.cols[i] hi (by rw [Nat.zero_add]; exact List.getElem?_eq_getElem (by omega))
      rwa [Nat.zero_add] at this

/-- **C91.** With the continuous derivative, `LogDeterminant` into an array with exactly one entry per point writes the
logarithm of `g(∂_D f)` at each point, and the columns written by `LogDeterminantCoeffGrad` and `LogDeterminantInputGrad` into
matrices of the right sizes are the gradients of the logarithm, whatever they contained before. Missing from the full property: an output of
`LogDeterminant` of another length, see `C91_fails_logdet`. -/
theorem C91_logdet_partial (hcont : c.useContDeriv = true) (hpr : pts.rows = D) (work output : List ℝ)
    (hout : output.length = pts.cols.length) (jac : Cols) (hj : jac.WF) :
    c.logDeterminantImpl scr pts cs output = .ok (pts.cols.map fun pt => some (Real.log (slope c D ts cs (coords pt)))) ∧
    (jac.rows = ts.length → jac.cols.length = pts.cols.length →
      ∃ j, c.logDeterminantCoeffGradImpl scr work pts cs jac = .ok j ∧ j.length = pts.cols.length ∧
        ∀ (i : Nat) (pt : List ℝ), pts.cols[i]? = some pt → ∃ col, j[i]? = some col ∧ col.length = ts.length ∧
          ∀ k, k < ts.length → HasDerivAt (fun z => Real.log (slope c D ts (cs.set k z) (coords pt))) (col.getD k 0) (cs.getD k 0)) ∧
    (jac.rows = D → jac.cols.length = pts.cols.length →
      ∃ j, c.logDeterminantInputGradImpl scr pts cs jac = .ok j ∧ j.length = pts.cols.length ∧
        ∀ (i : Nat) (pt : List ℝ), pts.cols[i]? = some pt → ∃ col, j[i]? = some col ∧ col.length = D ∧
          ∀ e, e < D → (e = D - 1 → TwiceAt c.b.eff (coords pt (D - 1))) →
            HasDerivAt (fun y => Real.log (slope c D ts cs (Function.update (coords pt) e y))) (col.getD e 0) (coords pt e)) := by
  have hn : c.numCoeffs = ts.length := by rw [numCoeffs, size_eq hv]
  have hpos : ∀ cs x, 0 < slope c D ts cs x := fun _ _ => hv.bij.pos _
  have hnew := C91_continuousNew hv hc pts hp scr hs
  rw [continuousDerivativeNew] at hnew
  refine ⟨?_, fun h1 h2 => ?_, fun h1 h2 => ?_⟩
  · obtain ⟨d, e, hl, -, h⟩ := C91_continuousDerivative_partial hv hc pts hp scr hs output hout.ge
    have hd : d = pts.cols.map fun pt => slope c D ts cs (coords pt) := by
      apply List.ext_getElem?
      intro i
      by_cases hi : i < pts.cols.length
      · rw [h i _ (List.getElem?_eq_getElem hi)]
        simp [hi]
      · rw [List.getElem?_eq_none (by omega), List.getElem?_eq_none (by simp; omega)]
    rw [logDeterminantImpl, diagDerivImpl, hcont, if_pos rfl, e, Res.bind_ok, hd, logAll, List.map_map, Res.pure_eq]
    congr 1
    refine List.map_congr_left fun pt _ => ?_
    simp only [Function.comp]
    rw [if_neg (not_le.2 (hpos _ _))]
  · obtain ⟨j, e, hl, hk⟩ := (C91_continuousMixed hv hc pts hp scr hs jac hj) h1 h2
    have hcol : ∀ col ∈ j, col.length = ts.length := by
      intro col hcol
      obtain ⟨i, hi⟩ := List.getElem?_of_mem hcol
      have hlt : i < pts.cols.length := by rw [← hl]; exact (List.getElem?_eq_some_iff.1 hi).1
      obtain ⟨col', e', hl', -⟩ := hk i _ (List.getElem?_eq_getElem hlt)
      rw [hi] at e'; cases e'
      exact hl'
    obtain ⟨r, er, hlr, hr⟩ := scaleCols_ok ts.length ((pts.cols.map fun pt => slope c D ts cs (coords pt)).map fun v => 1 / v) j
      (by simp [hl]) hcol
    refine ⟨r, ?_, by omega, fun i pt hi => ?_⟩
    · rw [logDeterminantCoeffGradImpl, hcont, if_pos rfl, e, Res.bind_ok, hnew, Res.bind_ok, hn]
      exact er
    · obtain ⟨col, e', hl', hd⟩ := hk i pt hi
      refine ⟨_, hr i (1 / slope c D ts cs (coords pt)) col (by simp [hi]) e', by simpa using hl', fun a ha => ?_⟩
      refine ((hd a ha).log (hpos _ _).ne').congr_deriv ?_
      rw [set_getD _ _ (by omega)]
      simp [List.getD_eq_getElem?_getD, show a < col.length by omega, div_eq_mul_inv]
  · obtain ⟨j, e, hl, hk⟩ := (C91_continuousMixedInput hv hc pts hp scr hs hpr jac hj) h1 h2
    have hcol : ∀ col ∈ j, col.length = D := by
      intro col hcol
      obtain ⟨i, hi⟩ := List.getElem?_of_mem hcol
      have hlt : i < pts.cols.length := by rw [← hl]; exact (List.getElem?_eq_some_iff.1 hi).1
      obtain ⟨col', e', hl', -⟩ := hk i _ (List.getElem?_eq_getElem hlt)
      rw [hi] at e'; cases e'
      exact hl'
    obtain ⟨r, er, hlr, hr⟩ := scaleCols_ok D ((pts.cols.map fun pt => slope c D ts cs (coords pt)).map fun v => 1 / v) j
      (by simp [hl]) hcol
    refine ⟨r, ?_, by omega, fun i pt hi => ?_⟩
    · rw [logDeterminantInputGradImpl, hcont, if_pos rfl, e, Res.bind_ok, hnew, Res.bind_ok, dim_eq hv]
      exact er
    · obtain ⟨col, e', hl', hd⟩ := hk i pt hi
      refine ⟨_, hr i (1 / slope c D ts cs (coords pt)) col (by simp [hi]) e', by simpa using hl', fun a ha h2 => ?_⟩
      refine ((hd a ha h2).log (hpos _ _).ne').congr_deriv ?_
      rw [Function.update_eq_self]
      simp [List.getD_eq_getElem?_getD, show a < col.length by omega, div_eq_mul_inv]

include hm

/-- **C91.** `DiscreteMixedJacobian` into a Jacobian of zeros with one row per coefficient and one column per point: column `i`
holds the derivatives with respect to all coefficients of the derivative of the component in its last input at point `i`.
Missing from the full property: what the Jacobian contained is added to the result, see `C39_fails_accumulate`. -/
theorem C91_discreteMixed_partial (h2 : ∀ pt ∈ pts.cols, NodesTwice c D ts mesh cs pt) (work : List ℝ) (hw : work.length = ts.length)
    (jac : Cols) (hj : jac.WF) (h0 : ∀ col ∈ jac.cols, ∀ v ∈ col, v = 0) (h1 : jac.rows = ts.length)
    (hl : jac.cols.length = pts.cols.length) :
    ∃ j, c.discreteMixedJacobian scr work pts cs jac = .ok j ∧ j.length = pts.cols.length ∧
      ∀ (i : Nat) (pt : List ℝ), pts.cols[i]? = some pt → ∃ col, j[i]? = some col ∧ col.length = ts.length ∧
        ∀ k, k < ts.length → HasDerivAt (fun z => partialDeriv (compAt c D ts mesh cs pt (cs.set k z)) (D - 1) (coords pt))
          (col.getD k 0) (cs.getD k 0) := by
  obtain ⟨j, e, hlj, -, hk⟩ := forPts_ok (f := fun pt jac => c.discreteMixedJacobianPt scr work cs pt jac)
    (P := fun a => a.length = ts.length ∧ ∀ v ∈ a, v = 0) (Q := fun pt _ col => col.length = ts.length ∧
        ∀ k, k < ts.length → HasDerivAt (fun z => partialDeriv (compAt c D ts mesh cs pt (cs.set k z)) (D - 1) (coords pt))
          (col.getD k 0) (cs.getD k 0))
    pts.cols 0 jac.cols (fun pt hpt a ha => by
      obtain ⟨j, e, hl, h⟩ := C39_discreteMixed_partial hv hm hc (hp pt hpt) scr hs (h2 pt hpt) work a hw ha.1
      refine ⟨j, e, hl, fun k hk => ?_⟩
      have := h k hk
      rw [show a.getD k 0 = 0 by
        rw [List.getD_eq_getElem?_getD, List.getElem?_eq_getElem (show k < a.length by omega)]
        exact ha.2 _ (List.getElem_mem _), sub_zero] at this
      exact this)
    (fun i a _ ha => ⟨by rw [hj a (List.mem_of_getElem? ha), h1], h0 a (List.mem_of_getElem? ha)⟩) (by omega)
  refine ⟨j, ?_, by omega, fun i pt hi => ?_⟩
  · rw [discreteMixedJacobian, checkMixedJacobianInput, checkJacobianInput, hc, if_pos ⟨h1, hl, rfl⟩]
    exact e
  · have hlt : i < pts.cols.length := (List.getElem?_eq_some_iff.1 hi).1
    have := hk i pt jac.cols[i] hi (by rw [Nat.zero_add]; exact List.getElem?_eq_getElem (by omega))
    rwa [Nat.zero_add] at this

/-- **C91.** The overload of `DiscreteDerivative` that allocates its result returns exactly one entry per point, the derivative
in the last input at that point. -/
theorem C91_discreteNew : ∃ d, c.discreteDerivativeNew scr pts cs = .ok d ∧ d.length = pts.cols.length ∧
    ∀ (i : Nat) (pt : List ℝ), pts.cols[i]? = some pt → ∃ y, d[i]? = some y ∧ (NodesTwice c D ts mesh cs pt →
      HasDerivAt (fun y => compAt c D ts mesh cs pt cs (Function.update (coords pt) (D - 1) y)) y (coords pt (D - 1))) := by
  obtain ⟨ev, d, e, -, hl, -, h⟩ := C91_discreteDerivative_partial hv hm hc pts hp scr hs (List.replicate pts.cols.length 0)
    (List.replicate pts.cols.length 0) (by simp) (by simp)
  refine ⟨d, ?_, by simpa using hl, fun i pt hi => (h i pt hi).2⟩
  rw [discreteDerivativeNew, e]
  rfl

/-- **C91.** With the discrete derivative, `LogDeterminant` into an array with one entry per point writes the logarithm of the
derivative in the last input at each point, or minus infinity if that is not positive; `LogDeterminantCoeffGrad` into a
matrix of zeros of the right size writes the gradient of this logarithm; `LogDeterminantInputGrad` throws. Missing from
the full property: outputs of another length, reused outputs and the input gradient. -/
theorem C91_logdet_discrete_partial (hdisc : c.useContDeriv = false) (h2 : ∀ pt ∈ pts.cols, NodesTwice c D ts mesh cs pt)
    (work : List ℝ) (hw : work.length = ts.length) (output : List ℝ) (hout : output.length = pts.cols.length) (jac jac' : Cols)
    (hj : jac.WF) (h0 : ∀ col ∈ jac.cols, ∀ v ∈ col, v = 0) (h1 : jac.rows = ts.length)
    (hl : jac.cols.length = pts.cols.length) :
    ∃ (ld : List (Option ℝ)) (j : List (List ℝ)), c.logDeterminantImpl scr pts cs output = .ok ld ∧ ld.length = pts.cols.length ∧
      c.logDeterminantCoeffGradImpl scr work pts cs jac = .ok j ∧ j.length = pts.cols.length ∧
      c.logDeterminantInputGradImpl scr pts cs jac' = .throw ∧
      ∀ (i : Nat) (pt : List ℝ), pts.cols[i]? = some pt → ∃ d : ℝ,
        HasDerivAt (fun y => compAt c D ts mesh cs pt cs (Function.update (coords pt) (D - 1) y)) d (coords pt (D - 1)) ∧
        (d ≤ 0 → ld[i]? = some none) ∧ (0 < d → ld[i]? = some (some (Real.log d))) ∧
        ∃ col, j[i]? = some col ∧ col.length = ts.length ∧ (d ≠ 0 → ∀ k, k < ts.length →
          HasDerivAt (fun z => Real.log (partialDeriv (compAt c D ts mesh cs pt (cs.set k z)) (D - 1) (coords pt)))
            (col.getD k 0) (cs.getD k 0)) := by
  have hn : c.numCoeffs = ts.length := by rw [numCoeffs, size_eq hv]
  obtain ⟨ev, d, e, -, hld, -, hd⟩ := C91_discreteDerivative_partial hv hm hc pts hp scr hs (List.replicate pts.cols.length 0) output
    (by simp) (by omega)
  obtain ⟨ev', d', e', -, hld', -, hd'⟩ := C91_discreteDerivative_partial hv hm hc pts hp scr hs (List.replicate pts.cols.length 0)
    (List.replicate pts.cols.length 0) (by simp) (by simp)
  obtain ⟨j, ej, hlj, hk⟩ := C91_discreteMixed_partial hv hm hc pts hp scr hs h2 work hw jac hj h0 h1 hl
  have hcol : ∀ col ∈ j, col.length = ts.length := by
    intro col hcol
    obtain ⟨i, hi⟩ := List.getElem?_of_mem hcol
    have hlt : i < pts.cols.length := by rw [← hlj]; exact (List.getElem?_eq_some_iff.1 hi).1
    obtain ⟨col', e', hl', -⟩ := hk i _ (List.getElem?_eq_getElem hlt)
    rw [hi] at e'; cases e'
    exact hl'
  obtain ⟨r, er, hlr, hr⟩ := scaleCols_ok ts.length (d'.map fun v => 1 / v) j (by simp [hlj, hld']) hcol
  refine ⟨logAll d, r, ?_, by simp [logAll, hld, hout], ?_, by omega, ?_, fun i pt hi => ?_⟩
  · rw [logDeterminantImpl, diagDerivImpl, hdisc, if_neg (by simp), e]
    rfl
  · rw [logDeterminantCoeffGradImpl, hdisc, if_neg (by simp), ej, Res.bind_ok, e', Res.bind_ok, hn]
    exact er
  · rw [logDeterminantInputGradImpl, hdisc, if_neg (by simp)]
  · have hn2 := h2 pt (List.mem_of_getElem? hi)
    obtain ⟨-, y, ey, hy⟩ := hd i pt hi
    obtain ⟨-, y', ey', hy'⟩ := hd' i pt hi
    obtain ⟨col, ec, hlc, hdc⟩ := hk i pt hi
    have hyy : y' = y := (hy' hn2).unique (hy hn2)
    subst hyy
    refine ⟨y', hy hn2, fun h => ?_, fun h => ?_, _, hr i (1 / y') col (by simp [ey']) ec, by simpa using hlc, fun hne k hk => ?_⟩
    · rw [logAll, List.getElem?_map, ey]
      simp [h]
    · rw [logAll, List.getElem?_map, ey]
      simp [h]
    · have hp0 : partialDeriv (compAt c D ts mesh cs pt cs) (D - 1) (coords pt) = y' := (hy hn2).deriv
      refine ((hdc k hk).log (by rw [set_getD _ _ (by omega), hp0]; exact hne)).congr_deriv ?_
      rw [set_getD _ _ (by omega), hp0]
      simp [List.getD_eq_getElem?_getD, show k < col.length by omega, div_eq_mul_inv]

/-- **C91.** `Evaluate` into an array with one entry per point: entry `i` is the value at point `i` (without the nugget, see
`C38_fails_nugget`). -/
theorem C91_evaluate_partial (output : List ℝ) (ho : output.length = pts.cols.length) :
    c.evaluateArr scr pts cs output = .ok (pts.cols.map fun pt => discretised c.b.eff c.g.eval 0 D ts cs (coords pt)
      (mesh (unitDensity c.b.eff c.g.eval 0 D ts cs (coords pt)))) := by
  obtain ⟨d, e, hl, -, hk⟩ := forPts_ok (f := fun pt _ => c.evaluatePt scr cs pt)
    (P := fun _ => True) (Q := fun pt _ y => y = discretised c.b.eff c.g.eval 0 D ts cs (coords pt)
      (mesh (unitDensity c.b.eff c.g.eval 0 D ts cs (coords pt)))) pts.cols 0 output (fun pt hpt a _ =>
      ⟨_, C38_evaluate_partial hv hm hc (hp pt hpt) scr hs, rfl⟩) (fun _ _ _ _ => trivial) (by omega)
  rw [evaluateArr, if_neg (by simpa using ho), e]
  congr 1
  apply List.ext_getElem?
  intro i
  by_cases hi : i < pts.cols.length
  · obtain ⟨y, e1, rfl⟩ := hk i _ output[i] (List.getElem?_eq_getElem hi)
      (by rw [Nat.zero_add]; exact List.getElem?_eq_getElem (by omega))
    rw [Nat.zero_add] at e1
    rw [e1]
    simp [hi]
  · rw [List.getElem?_eq_none (by omega), List.getElem?_eq_none (by simp; omega)]

end

/-! ### Arrays of the wrong size -/

/-- **C91.** For all points (of any number of rows), coefficients and contents: the Jacobians, `Gradient`, `CoeffGrad`,
the gradients of the log-determinant with the continuous derivative and `Evaluate` throw, before anything is written, if an
output does not have the size the component and the points ask for; `Gradient` and `CoeffGrad` also if the points or
the sensitivities do not. -/
theorem C91_rejects (hv : ValidComponent c D ts) (scr : Cache ℝ) (work : List ℝ) (pts : Cols) (cs evals : List ℝ) (jac : Cols)
    (sensRows : Nat) (sens : List ℝ) :
    (¬ (jac.rows = cs.length ∧ jac.cols.length = pts.cols.length ∧ evals.length = pts.cols.length) →
      c.coeffJacobian scr pts cs evals jac = .throw) ∧
    (¬ (jac.rows = D ∧ jac.cols.length = pts.cols.length ∧ evals.length = pts.cols.length) →
      c.inputJacobian scr pts cs evals jac = .throw) ∧
    (¬ (jac.rows = cs.length ∧ jac.cols.length = pts.cols.length) → c.continuousMixedJacobian scr pts cs jac = .throw ∧
      c.discreteMixedJacobian scr work pts cs jac = .throw ∧ c.logDeterminantCoeffGradImpl scr work pts cs jac = .throw) ∧
    (¬ (jac.rows = pts.rows ∧ jac.cols.length = pts.cols.length) → c.continuousMixedInputJacobian scr pts cs jac = .throw ∧
      c.logDeterminantInputGradImpl scr pts cs jac = .throw) ∧
    (evals.length ≠ pts.cols.length → c.evaluateArr scr pts cs evals = .throw) ∧
    (¬ (sensRows = 1 ∧ sens.length = pts.cols.length ∧ pts.rows = D ∧ jac.rows = D ∧ jac.cols.length = pts.cols.length) →
      c.gradientImpl scr pts cs sensRows sens jac = .throw) ∧
    (¬ (sensRows = 1 ∧ sens.length = pts.cols.length ∧ pts.rows = D ∧ jac.rows = ts.length ∧
      jac.cols.length = pts.cols.length) → c.coeffGradImpl scr pts cs sensRows sens jac = .throw) := by
  have hn : c.numCoeffs = ts.length := by rw [numCoeffs, size_eq hv]
  have hm1 : ¬ (jac.rows = cs.length ∧ jac.cols.length = pts.cols.length) → c.continuousMixedJacobian scr pts cs jac = .throw ∧
      c.discreteMixedJacobian scr work pts cs jac = .throw := fun h => by
    rw [continuousMixedJacobian, discreteMixedJacobian, checkMixedJacobianInput, checkJacobianInput, if_neg (by tauto)]
    exact ⟨rfl, rfl⟩
  have hm2 : ¬ (jac.rows = pts.rows ∧ jac.cols.length = pts.cols.length) →
      c.continuousMixedInputJacobian scr pts cs jac = .throw := fun h => by
    rw [continuousMixedInputJacobian, checkMixedJacobianInput, checkJacobianInput, if_neg (by tauto)]
    rfl
  refine ⟨fun h => ?_, fun h => ?_, fun h => ⟨(hm1 h).1, (hm1 h).2, ?_⟩, fun h => ⟨hm2 h, ?_⟩, fun h => ?_, fun h => ?_, fun h => ?_⟩
  · rw [coeffJacobian, checkJacobianInput, if_neg h]
    rfl
  · rw [inputJacobian, checkJacobianInput, dim_eq hv, if_neg h]
    rfl
  · rw [logDeterminantCoeffGradImpl, (hm1 h).1, (hm1 h).2]
    split <;> rfl
  · rw [logDeterminantInputGradImpl, hm2 h]
    split <;> rfl
  · rw [evaluateArr, if_pos h]
  · rw [gradientImpl, if_neg]
    simpa [gradShapeOk, dim_eq hv, and_assoc] using h
  · rw [coeffGradImpl, if_neg]
    simpa [gradShapeOk, dim_eq hv, hn, and_assoc] using h

section
variable (hv : ValidComponent c D ts) {cs : List ℝ} (hc : cs.length = ts.length) (scr : Cache ℝ)
  (hs : scr.length = c.w.cacheSize)
include hv hc hs

/-- **C91 fails for `ContinuousDerivative` and `LogDeterminant`.** For every component and all points, an output with fewer
entries than there are points is not rejected: the call writes outside it. -/
theorem C91_fails_short (hcont : c.useContDeriv = true) (pts : Cols) (hp : ∀ pt ∈ pts.cols, pt.length = D) (output : List ℝ)
    (ho : output.length < pts.cols.length) :
    c.continuousDerivative scr pts cs output = .ub ∧ c.logDeterminantImpl scr pts cs output = .ub := by
  have h : c.continuousDerivative scr pts cs output = .ub := forPts_short _ 0 _
    (fun pt hpt _ => ⟨_, (C39_continuous_partial hv hc (hp pt hpt) scr hs).1⟩) (by omega) (by omega)
  refine ⟨h, ?_⟩
  rw [logDeterminantImpl, diagDerivImpl, hcont, if_pos rfl, h]
  rfl

/-- **C91 fails for `LogDeterminant`.** An output with more entries than there are points is not rejected, and the entries
that belong to no point do not keep their content: they are replaced by their logarithms (`none`, that is minus infinity, if
they are not positive). -/
theorem C91_fails_logdet (hcont : c.useContDeriv = true) (pts : Cols) (hp : ∀ pt ∈ pts.cols, pt.length = D) (output : List ℝ)
    (i : Nat) (hi : pts.cols.length ≤ i) (v : ℝ) (hv' : output[i]? = some v) :
    ∃ d, c.logDeterminantImpl scr pts cs output = .ok d ∧ (v ≤ 0 → d[i]? = some none) ∧
      (0 < v → d[i]? = some (some (Real.log v))) := by
  have hlt : i < output.length := (List.getElem?_eq_some_iff.1 hv').1
  obtain ⟨d, e, -, h, -⟩ := C91_continuousDerivative_partial hv hc pts hp scr hs output (by omega)
  refine ⟨logAll d, ?_, fun h0 => ?_, fun h0 => ?_⟩
  · rw [logDeterminantImpl, diagDerivImpl, hcont, if_pos rfl, e]
    rfl
  · rw [logAll, List.getElem?_map, h i hi, hv']
    simp [h0]
  · rw [logAll, List.getElem?_map, h i hi, hv']
    simp [h0]

omit hv hc hs in
theorem fill1Loop_congr (w : Worker) (b : Basis ℝ) (p q : List ℝ) (f : Bool) : ∀ (n d : Nat) (cache : Cache ℝ),
    (∀ k, k < d + n → p[k]? = q[k]?) → fill1Loop w b p f cache d n = fill1Loop w b q f cache d n
  | 0, _, _, _ => rfl
  | n + 1, d, cache, h => by
    have e : Res.idx p d = Res.idx q d := by rw [Res.idx, Res.idx, h d (by omega)]
    have ih := fun cache => fill1Loop_congr w b p q f n (d + 1) cache fun k hk => h k (by omega)
    simp only [fill1Loop, e, ih]

/-- **C91 fails for points with additional rows.** Neither `Evaluate` nor `LogDeterminant` rejects points with more rows than
the component has inputs, and they disagree about what such a point is: for the point `(x_1, …, x_D, y)` the value is that
at `(x_1, …, x_D)` but the log-determinant is that at `(x_1, …, x_{D-1}, y)`. -/
theorem C91_fails_rows {mesh : (ℝ → ℝ) → List (ℝ × ℝ)} (hm : UsesMesh c.quad mesh) (hcont : c.useContDeriv = true) (pre : List ℝ)
    (hpre : pre.length = D - 1) (x y o : ℝ) :
    (∃ v, c.evaluateArr scr ⟨D + 1, [pre ++ [x, y]]⟩ cs [o] = .ok [v] ∧ c.evaluateArr scr ⟨D, [pre ++ [x]]⟩ cs [o] = .ok [v]) ∧
    c.logDeterminantImpl scr ⟨D + 1, [pre ++ [x, y]]⟩ cs [o] = c.logDeterminantImpl scr ⟨D, [pre ++ [y]]⟩ cs [o] ∧
    c.logDeterminantImpl scr ⟨D, [pre ++ [y]]⟩ cs [o] = .ok [some (Real.log (slope c D ts cs (coords (pre ++ [y]))))] := by
  have hD := hv.pos
  have hf : ∀ f l, fillCache1 c.w c.b scr (pre ++ l) f = fillCache1 c.w c.b scr pre f := fun f l => by
    rw [fillCache1, fillCache1, dim_eq hv]
    exact fill1Loop_congr _ _ _ _ _ _ _ _ fun k hk => List.getElem?_append_left (by omega)
  have he : c.evaluatePt scr cs (pre ++ [x, y]) = c.evaluatePt scr cs (pre ++ [x]) := by
    have hi : ∀ l : List ℝ, Res.idx (pre ++ x :: l) (c.w.dim - 1) = .ok x := fun l => by
      rw [dim_eq hv, ← hpre, Res.idx, List.getElem?_append_right le_rfl]
      simp
    simp only [evaluatePt, hf, hi]
    rfl
  have hd : c.continuousDerivativePt scr cs (pre ++ [x, y]) = c.continuousDerivativePt scr cs (pre ++ [y]) := by
    simp only [continuousDerivativePt, hf]
    rw [show Res.idx (pre ++ [x, y]) ((pre ++ [x, y]).length - 1) = .ok y by simp [Res.idx],
      show Res.idx (pre ++ [y]) ((pre ++ [y]).length - 1) = .ok y by simp [Res.idx]]
  have hl : (pre ++ [y]).length = D := by simp; omega
  have hl' : (pre ++ [x]).length = D := by simp; omega
  refine ⟨⟨discretised c.b.eff c.g.eval 0 D ts cs (coords (pre ++ [x]))
    (mesh (unitDensity c.b.eff c.g.eval 0 D ts cs (coords (pre ++ [x])))), ?_, ?_⟩, ?_, ?_⟩
  · simp only [evaluateArr, forPts, he, C38_evaluate_partial hv hm hc hl' scr hs]
    rfl
  · simp only [evaluateArr, forPts, C38_evaluate_partial hv hm hc hl' scr hs]
    rfl
  · simp only [logDeterminantImpl, diagDerivImpl, continuousDerivative, forPts, hcont, if_true, hd]
  · simp only [logDeterminantImpl, diagDerivImpl, hcont, if_true, continuousDerivative, forPts, (C39_continuous_partial hv hc hl scr hs).1]
    show Res.ok (logAll [_]) = _
    rw [logAll, List.map_cons, List.map_nil, if_neg (not_le.2 (hv.bij.pos _))]
    rfl

omit hc hs in
/-- **C91 fails for points with too few rows.** `Evaluate` does not reject points with fewer rows than the component has
inputs: it reads outside the array. -/
theorem C91_fails_few_rows (pt : List ℝ) (hpt : pt.length < D) (rest : List (List ℝ)) (output : List ℝ)
    (ho : output.length = rest.length + 1) : c.evaluateArr scr ⟨pt.length, pt :: rest⟩ cs output = .ub := by
  have hD := hv.pos
  have hw : ∀ (vs : List ℝ) (cache : Cache ℝ) (st : Nat), writeBlock cache st vs ≠ .throw := by
    intro vs
    induction vs with
    | nil => intro cache st; simp [writeBlock]
    | cons v vs ih =>
      intro cache st
      rw [writeBlock, Res.setIdx]
      split
      · exact ih _ _
      · simp
  have hi : ∀ {α : Type} (l : List α) (k : Nat), Res.idx l k ≠ .throw := fun l k => by
    rw [Res.idx]; split <;> simp
  have hb : ∀ {α β : Type} {a : Res α} {f : α → Res β}, a ≠ .throw → (∀ x, f x ≠ .throw) → (a >>= f) ≠ .throw := by
    intro α β a f h1 h2
    cases a with
    | ok a => exact h2 a
    | throw => exact absurd rfl h1
    | ub => simp
  have hfl : ∀ (n d : Nat) (cache : Cache ℝ), fill1Loop c.w c.b pt false cache d n ≠ .throw := by
    intro n
    induction n with
    | zero => intro d cache; simp [fill1Loop]
    | succ n ih =>
      intro d cache
      rw [fill1Loop]
      exact hb (hi _ _) fun _ => hb (hi _ _) fun _ => hb (hi _ _) fun _ => hb (hw _ _ _) fun _ => ih _ _
  have he : c.evaluatePt scr cs pt = .ub := by
    rw [evaluatePt]
    have : Res.idx pt (c.w.dim - 1) = .ub := by
      rw [dim_eq hv, Res.idx, List.getElem?_eq_none (by omega)]
    rw [this]
    have h := hfl (c.w.dim - 1) 0 scr
    rw [fillCache1]
    change fill1Loop c.w c.b pt false scr 0 (c.w.dim - 1) >>= _ = _
    cases hh : fill1Loop c.w c.b pt false scr 0 (c.w.dim - 1) with
    | ok a => rfl
    | throw => exact absurd hh h
    | ub => rfl
  rw [evaluateArr, if_neg (by simpa using ho), forPts, Res.idx_lt (by omega), Res.bind_ok, he]
  rfl

end

/-- Non-vacuity: the linear component of two inputs (total order 1, Hermite polynomials, `exp`, a one-point rule) meets the
hypotheses; `CoeffJacobian` at two points returns two columns, and throws for a Jacobian with a missing column. -/
example : ∃ (c : MonotoneComponent) (scr : Cache ℝ), ValidComponent c 2 (MISet.toEnum 2 1) ∧
    (∃ ev j, c.coeffJacobian scr ⟨2, [[1, 2], [3, 4]]⟩ [1, 2, 3] [7, 7] ⟨3, [[0, 0, 0], [9, 9, 9]]⟩ = .ok (ev, j) ∧ j.length = 2) ∧
    c.coeffJacobian scr ⟨2, [[1, 2], [3, 4]]⟩ [1, 2, 3] [7, 7] ⟨3, [[0, 0, 0]]⟩ = .throw ∧
    c.evaluateArr scr ⟨1, [[1], [3]]⟩ [1, 2, 3] [7, 7] = .ub := by
  obtain ⟨h1, h2⟩ := C39_rule [(1 / 2, 1)]
  have hv := valid_total 2 1 (by decide) C24_bases.1.eff.c1 C30_exp _ h2 true 0
  refine ⟨_, List.replicate (totalWorker 2 1).cacheSize none, hv, ?_, ?_, ?_⟩
  · obtain ⟨ev, j, e, -, hl, -⟩ := C91_coeffJacobian hv h1 (cs := [1, 2, 3]) rfl ⟨2, [[1, 2], [3, 4]]⟩ (by simp)
      (List.replicate (totalWorker 2 1).cacheSize none) (by simp) [7, 7] ⟨3, [[0, 0, 0], [9, 9, 9]]⟩ (by simp [Cols.WF]) rfl rfl rfl
    exact ⟨ev, j, e, hl⟩
  · exact (C91_rejects hv _ [] _ _ _ _ 0 []).1 (by simp)
  · exact C91_fails_few_rows hv _ [1] (by decide) [[3]] [7, 7] rfl

end MParT
