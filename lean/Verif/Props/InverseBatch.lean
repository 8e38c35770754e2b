import Verif.Model.InverseBatch
import Verif.Props.ComponentLinear
/-!
# Property C87: `Inverse` of a monotone component on many points
-/
namespace MParT.MonotoneComponent
open Spec Worker

/-! ### Options -/

/-- The tolerance a user asks for: the number written in the options, or else `1e-6`. -/
def Asks (stod : String → Res (Option ℝ)) (options : InverseOptions) (key : String) (t : ℝ) : Prop :=
  (options key = none ∧ t = 1e-6) ∨ ∃ s, options key = some s ∧ stod s = .ok (some t)

theorem tolerance_of_asks {stod : String → Res (Option ℝ)} {options : InverseOptions} {key : String} {t : ℝ}
    (h : Asks stod options key t) : (0 ≤ t → tolerance stod options key = .ok (some t)) ∧
      (t < 0 → tolerance stod options key = .throw) := by
  rcases h with ⟨e, rfl⟩ | ⟨s, e, e'⟩
  · refine ⟨fun _ => by rw [tolerance, e], fun h => ?_⟩
    norm_num at h
  · refine ⟨fun h => ?_, fun h => ?_⟩
    · rw [tolerance, e]; simp only [e', Res.bind_ok]; rw [if_neg (not_lt.mpr h)]
    · rw [tolerance, e]; simp only [e', Res.bind_ok]; rw [if_pos h]

theorem tolerance_total {stod : String → Res (Option ℝ)} {options : InverseOptions} {key : String} {t : ℝ}
    (h : Asks stod options key t) : tolerance stod options key = if t < 0 then .throw else .ok (some t) := by
  by_cases ht : t < 0
  · rw [if_pos ht, (tolerance_of_asks h).2 ht]
  · rw [if_neg ht, (tolerance_of_asks h).1 (not_lt.mp ht)]

/-- **C87**, options: the only method is "Bracket"; tolerances must not be negative, and not both at most the machine epsilon;
all other tolerances are used as they are. -/
theorem C87_options (stod : String → Res (Option ℝ)) (options : InverseOptions) {xtol ytol : ℝ} (hx : Asks stod options "xtol" xtol)
    (hy : Asks stod options "ytol" ytol) :
    (options "Method" ≠ none ∧ options "Method" ≠ some "Bracket" → inverseTolerances stod options = .throw) ∧
    (options "Method" = none ∨ options "Method" = some "Bracket" →
      (0 ≤ xtol ∧ 0 ≤ ytol ∧ (2⁻¹ ^ 52 < xtol ∨ 2⁻¹ ^ 52 < ytol) → inverseTolerances stod options = .ok (some xtol, some ytol)) ∧
      (¬ (0 ≤ xtol ∧ 0 ≤ ytol ∧ (2⁻¹ ^ 52 < xtol ∨ 2⁻¹ ^ 52 < ytol)) → inverseTolerances stod options = .throw)) := by
  have he : (2 : ℝ) ^ (-52 : ℤ) = 2⁻¹ ^ 52 := by norm_num
  rw [inverseTolerances]
  constructor
  · rintro ⟨h1, h2⟩
    cases hm : options "Method" with
    | none => exact absurd hm h1
    | some m => exact if_pos fun h => h2 (by rw [hm]; exact congrArg some h)
  · intro hm
    have e1 : (options "Method").getD "Bracket" = "Bracket" := by rcases hm with hm | hm <;> rw [hm] <;> rfl
    rw [if_neg (not_not.mpr e1)]
    rw [tolerance_total hx, tolerance_total hy, he]
    refine ⟨fun ⟨h1, h2, h3⟩ => ?_, fun h => ?_⟩
    · rw [if_neg (not_lt.mpr h1), Res.bind_ok, if_neg (not_lt.mpr h2), Res.bind_ok]
      refine if_neg ?_
      rintro ⟨h4, h5⟩
      rcases h3 with h3 | h3 <;> linarith
    · by_cases h1 : xtol < 0
      · rw [if_pos h1]; rfl
      · rw [if_neg h1, Res.bind_ok]
        by_cases h2 : ytol < 0
        · rw [if_pos h2]; rfl
        · rw [if_neg h2, Res.bind_ok]
          refine if_pos ⟨?_, ?_⟩
          · by_contra hc; exact h ⟨not_lt.mp h1, not_lt.mp h2, Or.inr (not_le.mp hc)⟩
          · by_contra hc; exact h ⟨not_lt.mp h1, not_lt.mp h2, Or.inl (not_le.mp hc)⟩

/-- **C87** fails for tolerances that are not numbers: `options["xtol"] = "nan"` is accepted (`std::stod` reads it as NaN). -/
theorem C87_fails_nan (stod : String → Res (Option ℝ)) (h : stod "nan" = .ok none) (options : InverseOptions)
    (hm : options "Method" = none) (hx : options "xtol" = some "nan") (hy : options "ytol" = none) :
    inverseTolerances stod options = .ok (none, some 1e-6) := by
  simp only [inverseTolerances, tolerance, hm, hx, hy, h, Res.bind_ok, Option.getD_none, ne_eq, not_true_eq_false, if_false]

/-! ### Points -/

/-- What `Inverse` returns for one column of `xs` and one target, from tolerances `xtol` and `ytol`, for a function `T` of the
leading inputs and the last input: NaN if the column contains NaN, and else the result of the root finder, started from the last entry
of the column. -/
noncomputable def Inverted (T : (Nat → ℝ) → ℝ → ℝ) (xtol ytol : ℝ) (x : List (Option ℝ)) (y : ℝ) : Option ℝ :=
  if none ∈ x then none
  else (RootFinding.inverseSingleBracket y (T (coords (x.map fun v => v.getD 0)))
    (coords (x.map fun v => v.getD 0) (x.length - 1)) xtol ytol).1

variable {c : MonotoneComponent} {D : Nat} {ts : List (List Nat)}

/-- The component with the quadrature `mesh`, as a function of its inputs and its last input. -/
noncomputable def component (c : MonotoneComponent) (D : Nat) (ts : List (List Nat)) (mesh : (ℝ → ℝ) → List (ℝ × ℝ)) (cs : List ℝ)
    (x : Nat → ℝ) (t : ℝ) : ℝ :=
  discretised c.b.eff c.g.eval c.nugget D ts cs (Function.update x (D - 1) t)
    (mesh (unitDensity c.b.eff c.g.eval c.nugget D ts cs (Function.update x (D - 1) t)))

section
variable (hv : ValidComponent c D ts) {mesh : (ℝ → ℝ) → List (ℝ × ℝ)} (hm : UsesMesh c.quad mesh) {cs : List ℝ}
  (hc : cs.length = ts.length) (scr : Cache ℝ) (hs : scr.length = c.w.cacheSize)
include hv hm hc hs

theorem inverseColumn_ok (xtol ytol : ℝ) (xs : List (List (Option ℝ))) (hr : ∀ x ∈ xs, D ≤ x.length) (i : Nat) (y : ℝ)
    (hi : xs.length = 1 ∨ i < xs.length) :
    c.inverseColumn scr cs xtol ytol xs i y
      = .ok (Inverted (component c D ts mesh cs) xtol ytol (xs.getD (if xs.length = 1 then 0 else i) []) y) := by
  have hD := hv.pos
  have hlt : (if xs.length = 1 then 0 else i) < xs.length := by split <;> omega
  rw [inverseColumn]
  rw [Res.idx_lt hlt, Res.bind_ok, List.getD_eq_getElem?_getD, List.getElem?_eq_getElem hlt, Option.getD_some]
  generalize hx : xs[if xs.length = 1 then 0 else i] = x
  have hl := hr x (hx ▸ List.getElem_mem hlt)
  rw [Inverted]
  by_cases hn : none ∈ x
  · rw [if_pos hn, if_pos]
    · rfl
    · exact List.any_eq_true.mpr ⟨none, hn, rfl⟩
  · rw [if_neg hn, if_neg]
    · rw [C38_inverse hv hm hc (pt := x.map fun v => v.getD 0) (by simp; omega) (by simp; omega) scr hs y xtol ytol]
      simp only [List.length_map]
      rfl
    · simp only [List.any_eq_true, Option.isNone_iff_eq_none]
      rintro ⟨v, h1, rfl⟩
      exact hn h1

theorem inverseColumns_ok (xtol ytol : ℝ) (xs : List (List (Option ℝ))) (hr : ∀ x ∈ xs, D ≤ x.length) (ys : List ℝ) (i : Nat)
    (hi : xs.length = 1 ∨ i + ys.length ≤ xs.length) :
    ∃ out, c.inverseColumns scr cs xtol ytol xs i ys = .ok out ∧ out.length = ys.length ∧ ∀ j y, ys[j]? = some y →
      out[j]? = some (Inverted (component c D ts mesh cs) xtol ytol (xs.getD (if xs.length = 1 then 0 else i + j) []) y) := by
  induction ys generalizing i with
  | nil => exact ⟨[], rfl, rfl, fun j y h => by simp at h⟩
  | cons y ys ih =>
    rw [List.length_cons] at hi
    obtain ⟨out, e, h1, h2⟩ := ih (i + 1) (by omega)
    have e' := inverseColumn_ok hv hm hc scr hs xtol ytol xs hr i y (by omega)
    refine ⟨_ :: out, by rw [inverseColumns, e', Res.bind_ok, e, Res.bind_ok]; rfl, by simp [h1], fun j y' h => ?_⟩
    cases j with
    | zero =>
      obtain rfl := Option.some.inj h
      simp
    | succ j =>
      rw [List.getElem?_cons_succ] at h ⊢
      rw [h2 j y' h, show i + 1 + j = i + (j + 1) by omega]

/-- **C87.** `Inverse` on many points, with accepted tolerances: the number of columns of `xs` must be one or the number of targets, and
the output must have one entry per target; then entry `j` belongs to target `j` and to column `j` of `xs` (the only one, if there
is just one), and does not depend on the others; a column with NaN gives NaN. -/
theorem C87_points_partial (stod : String → Res (Option ℝ)) (options : InverseOptions) {xtol ytol : ℝ}
    (ht : inverseTolerances stod options = .ok (some xtol, some ytol)) (xs : List (List (Option ℝ)))
    (hr : ∀ x ∈ xs, D ≤ x.length) (ys : List ℝ) (outLen : Nat) :
    (¬ ((xs.length = 1 ∨ xs.length = ys.length) ∧ outLen = ys.length) →
      c.inverseImpl stod scr xs ys cs outLen options = .throw) ∧
    ((xs.length = 1 ∨ xs.length = ys.length) → outLen = ys.length →
      ∃ out, c.inverseImpl stod scr xs ys cs outLen options = .ok out ∧ out.length = ys.length ∧ ∀ j y, ys[j]? = some y →
        out[j]? = some (Inverted (component c D ts mesh cs) xtol ytol (xs.getD (if xs.length = 1 then 0 else j) []) y)) := by
  rw [inverseImpl, ht, Res.bind_ok]
  refine ⟨fun h => ?_, fun h1 h2 => ?_⟩
  · by_cases h1 : xs.length ≠ 1 ∧ xs.length ≠ ys.length
    · rw [if_pos h1]
    · rw [if_neg h1, if_pos]
      intro h2
      exact h ⟨by omega, h2⟩
  · rw [if_neg (by omega), if_neg (by omega)]
    obtain ⟨out, e, h3, h4⟩ := inverseColumns_ok hv hm hc scr hs xtol ytol xs hr ys 0 (by omega)
    exact ⟨out, e, h3, fun j y hj => by rw [h4 j y hj, Nat.zero_add]⟩

end

/-- **C87.** What one entry is, when the component is strictly increasing in the last input and `xtol` at least the least positive
double: NaN only if the column contains NaN or no bracket was found; otherwise a number at which the component is within `ytol` of the
target, or the middle of an interval shorter than `xtol` on which it passes the target. -/
theorem C87_entry (T : (Nat → ℝ) → ℝ → ℝ) (xtol ytol : ℝ) (hx : (2 : ℝ) ^ (-1074 : ℤ) ≤ xtol) (x : List (Option ℝ)) (y : ℝ)
    (hT : StrictMono (T (coords (x.map fun v => v.getD 0)))) :
    (none ∈ x → Inverted T xtol ytol x y = none) ∧
    ∀ r, Inverted T xtol ytol x y = some r → (|T (coords (x.map fun v => v.getD 0)) r - y| < ytol ∨
      ∃ xl xu, xu - xl < xtol ∧ r = (xl + xu) / 2 ∧ T (coords (x.map fun v => v.getD 0)) xl ≤ y ∧
        y ≤ T (coords (x.map fun v => v.getD 0)) xu) := by
  refine ⟨fun h => if_pos h, fun r h => ?_⟩
  rw [Inverted] at h
  split at h
  · cases h
  · obtain ⟨h1, h2⟩ := RootFinding.C36_inverse _ hT y (coords (x.map fun v => v.getD 0) (x.length - 1)) xtol ytol hx
    by_cases hb : (RootFinding.findBracket (T (coords (x.map fun v => v.getD 0))) (coords (x.map fun v => v.getD 0) (x.length - 1))
        (coords (x.map fun v => v.getD 0) (x.length - 1)) y).info = 0
    · obtain ⟨z, e, hz⟩ := h2 hb
      rw [e] at h
      obtain rfl := Option.some.inj h
      rcases hz with hz | ⟨xl, xu, -, -, z3, z4, z5, z6⟩
      · exact Or.inl hz
      · exact Or.inr ⟨xl, xu, z3, z4, z5, z6⟩
    · rw [h1 hb] at h
      cases h

/-- Non-vacuity: two inputs, total order 1, adaptive Simpson quadrature; two targets for one column, whose last row is the
starting point. -/
example : ∃ (c : MonotoneComponent) (out : List (Option ℝ)),
    c.inverseImpl (fun _ => .throw) (List.replicate c.w.cacheSize (some 3)) [[some 4, some 0]] [1, 2] [1, 2, 3] 2 (fun _ => none) = .ok out ∧
    out.length = 2 ∧
    c.inverseImpl (fun _ => .throw) (List.replicate c.w.cacheSize (some 3)) [[none, some 0]] [1] [1, 2, 3] 1 (fun _ => none) = .ok [none] := by
  obtain ⟨h1, h2, -⟩ := C39_simpson ⟨1, 30, 0, 1e-6, 1e-6, .first⟩ rfl (by decide) (by decide)
  have hv := valid_total 2 1 (by decide) C24_bases_normalized.1.c1 C30_softPlus _ h2 true 0
  have ht := ((C87_options (fun _ => .throw) (fun _ => none) (Or.inl ⟨rfl, rfl⟩) (Or.inl ⟨rfl, rfl⟩)).2 (Or.inl rfl)).1
    ⟨by norm_num, by norm_num, Or.inl (by norm_num)⟩
  have key := fun xs hr ys n => (C87_points_partial hv h1 (cs := [1, 2, 3]) rfl (List.replicate (totalWorker 2 1).cacheSize (some 3))
    (by simp) (fun _ => .throw) (fun _ => none) ht xs hr ys n).2
  obtain ⟨out, e, h3, -⟩ := key [[some 4, some 0]] (by simp) [1, 2] 2 (Or.inl rfl) rfl
  obtain ⟨out', e', h4, h5⟩ := key [[none, some 0]] (by simp) [1] 1 (Or.inl rfl) rfl
  refine ⟨_, out, e, h3, ?_⟩
  obtain ⟨o, rfl⟩ := List.length_eq_one_iff.mp h4
  have := h5 0 1 rfl
  rw [Inverted, if_pos (by simp)] at this
  obtain rfl := Option.some.inj this
  exact e'

end MParT.MonotoneComponent
