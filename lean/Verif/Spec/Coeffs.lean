import Verif.Model.Coeffs
/-!
# What users mean by coefficients being shared

Nothing here refers to the code that sets or wraps coefficients.
-/
namespace MParT.Spec
open MParT.Coeffs

/-- The vector an object reports as its coefficients. -/
def coeffs (st : State) (id : Nat) : Option (List ℝ) :=
  match st.views[id]? with
  | some (some v) => some (st.get v)
  | _ => none

/-- Blocks of consecutive components. -/
def layoutList (g : Nat → Nat → List (Nat × Nat)) (n : Nat → Nat) : List Nat → Nat → List (Nat × Nat)
  | [], _ => []
  | c :: cs, off => g c off ++ layoutList g n cs (off + n c)

/-- An object and everything inside it, each with the position at which its coefficients start, when those of the object
start at `off`. -/
def layoutFrom : Nat → List Obj → Nat → Nat → List (Nat × Nat)
  | 0, _, _, _ => []
  | f + 1, objs, id, off => (id, off) :: layoutList (layoutFrom f objs) (nc objs) (children objs id) off

/-- An object and everything inside it, each with the position of its coefficients in the object's vector. -/
def layout (objs : List Obj) (id : Nat) : List (Nat × Nat) := layoutFrom (id + 1) objs id 0

/-- The objects inside an object, itself included, one entry for each occurrence. -/
def members (objs : List Obj) (id : Nat) : List Nat := (layout objs id).map Prod.fst

/-- No object occurs twice inside `id`. -/
def NoSharing (objs : List Obj) (id : Nat) : Prop := (members objs id).Nodup

/-- Everything inside `id` looks at its own range of the memory `id` looks at. -/
def Shares (st : State) (id : Nat) : Prop :=
  ∃ v, st.views[id]? = some (some v) ∧ v.len = nc st.objs id ∧ st.inBounds v = true ∧
    ∀ p ∈ layout st.objs id, st.views[p.1]? = some (some ⟨v.buf, v.off + p.2, nc st.objs p.1⟩)

/-- States users can reach without assigning to `Coeffs()`. -/
def Reachable (st : State) : Prop := ∃ ops : List Op, (∀ op ∈ ops, ∀ id v, op ≠ .rebind id v) ∧ st = run initial ops

/-- States users can reach, by whatever calls. -/
def Reached (st : State) : Prop := ∃ ops : List Op, st = run initial ops

/-- `o` may be given coefficients while `id` is in use: it has nothing in common with `id`, or it contains `id` and no
object twice. -/
def Compatible (objs : List Obj) (o id : Nat) : Prop :=
  (members objs o).Disjoint (members objs id) ∨ id ∈ members objs o ∧ NoSharing objs o

/-- Steps that users take while working with the map `id`: anything except pointing something inside `id` elsewhere. -/
def Keeps (st : State) (id : Nat) : Op → Prop
  | .newParent cs move => move = true → Compatible (st.objs ++ [⟨.parent, cs, (cs.map (nc st.objs)).sum⟩]) st.objs.length id
  | .set o _ => o ∈ members st.objs id ∨ Compatible st.objs o id
  | .wrap o _ => Compatible st.objs o id
  | .rebind o _ => o ∉ members st.objs id
  | _ => True

/-- A history of such steps. -/
def KeepsAll (st : State) (id : Nat) : List Op → Prop
  | [] => True
  | op :: ops => Keeps st id op ∧ KeepsAll (step st op).1 id ops

/-- Steps that do not concern `id`: nothing that contains it is given coefficients, and its own `Coeffs()` is not assigned to. -/
def Untouched (st : State) (id : Nat) : Op → Prop
  | .newParent cs move => move = true → ∀ c ∈ cs, id ∉ members st.objs c
  | .set o _ => id ∉ members st.objs o
  | .wrap o _ => id ∉ members st.objs o
  | .rebind o _ => o ≠ id
  | _ => True

/-- A history of such steps. -/
def UntouchedAll (st : State) (id : Nat) : List Op → Prop
  | [] => True
  | op :: ops => Untouched st id op ∧ UntouchedAll (step st op).1 id ops

end MParT.Spec
