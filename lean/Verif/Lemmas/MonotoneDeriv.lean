import Verif.Lemmas.Monotone
/-!
# Lemmas: derivatives of the integrand of a monotone component, kernels
-/
namespace MParT
open Spec Worker FixedSet Finset

variable {c : MonotoneComponent} {D : Nat} {ts : List (List Nat)}

theorem hasDerivAt_meshSum (R : List (ℝ × ℝ)) (h : ℝ → ℝ → ℝ) (h' : ℝ → ℝ) (z0 : ℝ)
    (hh : ∀ p ∈ R, HasDerivAt (h p.1) (h' p.1) z0) :
    HasDerivAt (fun z => (R.map fun p => p.2 * h p.1 z).sum) (R.map fun p => p.2 * h' p.1).sum z0 := by
  induction R with
  | nil => simpa using hasDerivAt_const z0 (0 : ℝ)
  | cons p R ih =>
    simp only [List.map_cons, List.sum_cons]
    exact ((hh p (by simp)).const_mul p.2).add (ih fun q hq => hh q (by simp [hq]))

theorem set_getD (cs : List ℝ) (k : Nat) (hk : k < cs.length) : cs.set k (cs.getD k 0) = cs := by
  apply List.ext_getElem
  · simp
  · intro i h1 h2
    rw [List.getElem_set]
    split
    · subst_vars; simp [hk]
    · rfl

section
variable (hv : ValidComponent c D ts) (cs pt : List ℝ) (ν : ℝ)
include hv

theorem density_eq (x : Nat → ℝ) (s : ℝ) : density c.b.eff c.g.eval ν D ts cs x s
    = c.g.eval (expansion D ts cs (facD1 c.b.eff (Function.update x (D - 1) s) (D - 1))) + ν := by
  rw [density, diagD_eq hv]

theorem unitDensity_eq (x : Nat → ℝ) (t : ℝ) : unitDensity c.b.eff c.g.eval ν D ts cs x t = x (D - 1) *
    (c.g.eval (expansion D ts cs (facD1 c.b.eff (Function.update x (D - 1) (t * x (D - 1))) (D - 1))) + ν) := by
  rw [unitDensity, density_eq hv]

omit hv in
theorem out0_eq (xd t : ℝ) :
    out0 c D ts cs pt xd ν t = unitDensity c.b.eff c.g.eval ν D ts cs (Function.update (coords pt) (D - 1) xd) t := by
  rw [unitDensity, density, out0, dfAt, pointOf_eq]
  simp

theorem outP_deriv (hc : cs.length = ts.length) (xd t : ℝ) (k : Nat) (hk : k < ts.length) :
    HasDerivAt (fun z => unitDensity c.b.eff c.g.eval ν D ts (cs.set k z) (Function.update (coords pt) (D - 1) xd) t)
      (outP c D ts cs pt xd t k) (cs.getD k 0) := by
  simp only [unitDensity_eq hv, Function.update_self, Function.update_idem]
  have h1 := expansion_coeff_hasDerivAt D ts cs (facD1 c.b.eff (Function.update (coords pt) (D - 1) (t * xd)) (D - 1)) k hk
    hc.ge (cs.getD k 0)
  have h2 := HasDerivAt.comp_of_eq _ (hv.bij.deriv _) h1 rfl
  refine ((h2.add_const ν).const_mul xd).congr_deriv ?_
  rw [set_getD _ _ (by omega), outP, dfAt, diagD_eq hv, pointOf_eq]
  ring

theorem outD_deriv (t xd : ℝ) (h2 : TwiceAt c.b.eff (t * xd)) :
    HasDerivAt (fun y => unitDensity c.b.eff c.g.eval ν D ts cs (Function.update (coords pt) (D - 1) y) t)
      (outD c D ts cs pt xd ν t) xd := by
  simp only [unitDensity_eq hv, Function.update_self, Function.update_idem]
  have h0 := deriv2_last (ts := ts) c.b.eff cs pt hv.basis D hv.pos (t * xd) h2
  have hm : HasDerivAt (fun y : ℝ => t * y) t xd := by simpa using (hasDerivAt_id xd).const_mul t
  have h1 := h0.comp xd hm
  simp only [pointOf_eq] at h1
  have h3 := HasDerivAt.comp_of_eq _ (hv.bij.deriv _) h1 rfl
  refine ((hasDerivAt_id xd).mul (h3.add_const ν)).congr_deriv ?_
  rw [outD, dfAt, diagD_eq hv, pointOf_eq, d2F]
  simp only [Function.comp, id]
  ring

theorem outI_deriv (xd t : ℝ) (e : Nat) (he : e < D - 1) :
    HasDerivAt (fun y => unitDensity c.b.eff c.g.eval ν D ts cs
        (Function.update (Function.update (coords pt) (D - 1) xd) e y) t)
      (outI c D ts cs pt xd t e) (coords pt e) := by
  have hne : D - 1 ≠ e := by omega
  have swap : ∀ y s : ℝ, Function.update (Function.update (Function.update (coords pt) (D - 1) xd) e y) (D - 1) s
      = Function.update (Function.update (coords pt) (D - 1) s) e y := by
    intro y s
    rw [Function.update_comm hne.symm, Function.update_idem]
  simp only [unitDensity_eq hv, swap, Function.update_of_ne hne, Function.update_self]
  have h0 := facD1_partial (ts := ts) c.b.eff cs hv.basis D (Function.update (coords pt) (D - 1) (t * xd)) e (by omega)
    (fun h => absurd h hne.symm)
  rw [Function.update_of_ne hne.symm] at h0
  have h2 := HasDerivAt.comp_of_eq _ (hv.bij.deriv _) h0 rfl
  refine ((h2.add_const ν).const_mul xd).congr_deriv ?_
  have : Function.update (Function.update (coords pt) (D - 1) (t * xd)) e (coords pt e)
      = Function.update (coords pt) (D - 1) (t * xd) := by
    conv_lhs => rw [show coords pt e = Function.update (coords pt) (D - 1) (t * xd) e from
      (Function.update_of_ne hne.symm _ _).symm]
    exact Function.update_eq_self _ _
  rw [this, outI, dfAt, diagD_eq hv, pointOf_eq]
  ring

theorem outM_deriv (hc : cs.length = ts.length) (xd t : ℝ) (k : Nat) (hk : k < ts.length) :
    HasDerivAt (fun z => outD c D ts (cs.set k z) pt xd ν t) (outM c D ts cs pt xd t k) (cs.getD k 0) := by
  have e1 := expansion_coeff_hasDerivAt D ts cs (facD1 c.b.eff (pointOf D pt (t * xd)) (D - 1)) k hk hc.ge (cs.getD k 0)
  have e2 := expansion_coeff_hasDerivAt D ts cs (facD2 c.b.eff (pointOf D pt (t * xd)) (D - 1)) k hk hc.ge (cs.getD k 0)
  have g1 := HasDerivAt.comp_of_eq _ (hv.bij.deriv _) e1 rfl
  have g2 := HasDerivAt.comp_of_eq _ (hv.bij.deriv2 _) e1 rfl
  simp only [outD, dfAt, diagD_eq hv, d2F]
  refine ((e2.mul (g2.const_mul (xd * t))).add (g1.add_const ν)).congr_deriv ?_
  rw [set_getD _ _ (by omega), outM, dfAt, diagD_eq hv, d2F]
  simp only [Function.comp, set_getD _ _ (show k < cs.length by omega)]
  ring

/-! ### Running the quadrature -/

variable {mesh : (ℝ → ℝ) → List (ℝ × ℝ)} (hm : UsesMesh c.quad mesh)

/-- Entry `j` of the vector written by the integrand. -/
noncomputable def vecAt (c : MonotoneComponent) (D : Nat) (ts : List (List Nat)) (cs pt : List ℝ) (xd ν : ℝ) (flag : DFlag)
    (t : ℝ) (j : Nat) : ℝ := (vec c D ts cs pt xd ν t flag).getD j 0

omit hv in
theorem map_getD (l : List ℝ) : (List.range l.length).map (fun j => l.getD j 0) = l := by
  apply List.ext_getElem
  · simp
  · intro i h1 h2
    simp [h2]

theorem vec_eq_map (xd t : ℝ) (flag : DFlag) :
    vec c D ts cs pt xd ν t flag = (List.range (vecLen D ts flag)).map (vecAt c D ts cs pt xd ν flag t) := by
  rw [← vec_length (c := c) hv.pos cs pt xd ν t flag]
  exact (map_getD _).symm

omit hv in
theorem vecAt_zero (xd t : ℝ) (flag : DFlag) : vecAt c D ts cs pt xd ν flag t 0 = out0 c D ts cs pt xd ν t := by
  cases flag <;> rfl

/-- The result of the quadrature applied to the integrand. -/
noncomputable def integralOf (c : MonotoneComponent) (D : Nat) (ts : List (List Nat)) (cs pt : List ℝ) (xd ν : ℝ)
    (flag : DFlag) (R : List (ℝ × ℝ)) (j : Nat) : ℝ := (R.map fun p => p.2 * vecAt c D ts cs pt xd ν flag p.1 j).sum

include hm in
theorem run_eq (hc : cs.length = ts.length) (flag f1 : DFlag) (xd : ℝ) (hpt : D - 1 ≤ pt.length)
    (hin : flag = .input → pt.length = D ∧ f1 = .input) (s : Cache ℝ × List ℝ) (hs : Cached c pt f1 s.1)
    (hw : flag = .mixed → s.2.length = ts.length) :
    ∃ s' : Cache ℝ × List ℝ, (c.quad (vecLen D ts flag)).run (c.integrand pt xd cs flag ν).call s
        = .ok (s', (List.range (vecLen D ts flag)).map
            (integralOf c D ts cs pt xd ν flag (mesh (out0 c D ts cs pt xd ν)))) ∧
      Cached c pt f1 s'.1 := by
  have h := (QProg.run_ok (f := (c.integrand pt xd cs flag ν).call) (F := fun t => vec c D ts cs pt xd ν t flag)
    (fun s : Cache ℝ × List ℝ => Cached c pt f1 s.1 ∧ (flag = .mixed → s.2.length = ts.length))
    (fun t => vec_length hv.pos cs pt xd ν t flag)
    (fun s t buf hs hb => call_eq hv hc flag f1 xd ν hpt hin s hs.1 hs.2 t buf hb)
    (c.quad (vecLen D ts flag)) s (hv.quad _) ⟨hs, hw⟩).1
  have e := hm (vecLen D ts flag) (vecAt c D ts cs pt xd ν flag) (by cases flag <;> simp [vecLen])
  simp only [← vec_eq_map hv] at e
  obtain ⟨-, s', e', h1, -⟩ := h _ e
  refine ⟨s', ?_, h1⟩
  rw [e']
  simp only [vecAt_zero]
  rfl

end

/-! ### Kernels -/

theorem addIntegral_eq (integral : List ℝ) (n : Nat) : ∀ (jac : List ℝ) (i : Nat), i + n ≤ jac.length →
    i + n + 1 ≤ integral.length → ∃ j, MonotoneComponent.addIntegral integral jac i n = .ok j ∧ j.length = jac.length ∧
      ∀ k, j.getD k 0 = jac.getD k 0 + if i ≤ k ∧ k < i + n then integral.getD (k + 1) 0 else 0 := by
  induction n with
  | zero =>
    intro jac i _ _
    refine ⟨jac, rfl, rfl, fun k => ?_⟩
    rw [if_neg (by omega), add_zero]
  | succ n ih =>
    intro jac i h1 h2
    obtain ⟨j, e, hl, hk⟩ := ih (jac.set i (jac.getD i 0 + integral.getD (i + 1) 0)) (i + 1) (by simp; omega) (by omega)
    refine ⟨j, ?_, by simpa using hl, fun k => ?_⟩
    · rw [MonotoneComponent.addIntegral, Res.idx_lt (by omega), Res.bind_ok, Res.idx_lt (by omega), Res.bind_ok,
        Res.setIdx_lt (by omega), Res.bind_ok, ← e]
      congr 2
      simp [show i < jac.length by omega, show i + 1 < integral.length by omega]
    · rw [hk k]
      by_cases hki : k = i
      · subst hki
        rw [if_neg (by omega), if_pos (by omega), add_zero]
        simp [show k < jac.length by omega]
      · have : (jac.set i (jac.getD i 0 + integral.getD (i + 1) 0)).getD k 0 = jac.getD k 0 := by
          simp [List.getD_eq_getElem?_getD, List.getElem?_set, Ne.symm hki]
        rw [this]
        congr 1
        by_cases h : i + 1 ≤ k ∧ k < i + 1 + n
        · rw [if_pos h, if_pos (by omega)]
        · rw [if_neg h, if_neg (by omega)]

end MParT
