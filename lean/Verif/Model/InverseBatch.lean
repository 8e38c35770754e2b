import Verif.Model.MonotoneComponent
/-!
# Model of `MonotoneComponent::InverseImpl` on many points, with its options

Source: `MParT/MonotoneComponent.h` 331–443.

Simplifications
* an entry of `xs`, and of the output, is `none` if it is NaN;
* `std::stod` is an argument: it throws, or returns a number or NaN (`none`); infinite tolerances are left out;
* the points are worked on in order; schedules, and calls without points, are the subject of `Model/Parallel.lean`.
-/
namespace MParT.MonotoneComponent
open Worker

/-- `options`: key and value. MonotoneComponent.h 335. -/
abbrev InverseOptions := String → Option String

open Classical in
/-- One tolerance, MonotoneComponent.h 354–363 and 364–373: comparison with NaN is false. -/
noncomputable def tolerance (stod : String → Res (Option ℝ)) (options : InverseOptions) (key : String) : Res (Option ℝ) :=
  match options key with
  | some s => do
    match ← stod s with
    | some t => if t < 0 then .throw else .ok (some t)
    | none => .ok none
  | none => .ok (some 1e-6)

open Classical in
/-- The part of `InverseImpl` that reads the options, MonotoneComponent.h 337–379: the tolerances `xtol` and `ytol`. -/
noncomputable def inverseTolerances (stod : String → Res (Option ℝ)) (options : InverseOptions) : Res (Option ℝ × Option ℝ) := do
  if (options "Method").getD "Bracket" ≠ "Bracket" then .throw
  else
    let xtol ← tolerance stod options "xtol"
    let ytol ← tolerance stod options "ytol"
    match xtol, ytol with
    | some x, some y =>
      if y ≤ (2 : ℝ) ^ (-52 : ℤ) ∧ x ≤ (2 : ℝ) ^ (-52 : ℤ) then .throw else .ok (xtol, ytol)
    | _, _ => .ok (xtol, ytol)

/-- The work for one point, MonotoneComponent.h 412–434: NaN if the column of `xs` contains NaN. -/
noncomputable def inverseColumn (c : MonotoneComponent) (scratch : Cache ℝ) (coeffs : List ℝ) (xtol ytol : ℝ)
    (xs : List (List (Option ℝ))) (ptInd : Nat) (y : ℝ) : Res (Option ℝ) := do
  let xInd := if xs.length = 1 then 0 else ptInd
  let pt ← Res.idx xs xInd
  if pt.any Option.isNone then return none
  else
    let s ← c.inversePt scratch coeffs (pt.map fun v => v.getD 0) y xtol ytol
    return s.1

/-- The loop over the points, MonotoneComponent.h 407–442. -/
noncomputable def inverseColumns (c : MonotoneComponent) (scratch : Cache ℝ) (coeffs : List ℝ) (xtol ytol : ℝ)
    (xs : List (List (Option ℝ))) : Nat → List ℝ → Res (List (Option ℝ))
  | _, [] => .ok []
  | i, y :: ys => do
    let r ← c.inverseColumn scratch coeffs xtol ytol xs i y
    let rs ← c.inverseColumns scratch coeffs xtol ytol xs (i + 1) ys
    return r :: rs

/-- `InverseImpl(xs, ys, coeffs, output, options)`, MonotoneComponent.h 331–443: new content of an output of length `outLen`.
Simplification: what the search does with a tolerance that is NaN is not modelled; it counts as undefined. -/
noncomputable def inverseImpl (c : MonotoneComponent) (stod : String → Res (Option ℝ)) (scratch : Cache ℝ)
    (xs : List (List (Option ℝ))) (ys coeffs : List ℝ) (outLen : Nat) (options : InverseOptions) : Res (List (Option ℝ)) := do
  let tol ← inverseTolerances stod options
  if xs.length ≠ 1 ∧ xs.length ≠ ys.length then .throw
  else if outLen ≠ ys.length then .throw
  else match tol with
    | (some xtol, some ytol) => c.inverseColumns scratch coeffs xtol ytol xs 0 ys
    | _ => .ub

end MParT.MonotoneComponent
