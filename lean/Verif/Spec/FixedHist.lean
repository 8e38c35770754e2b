import Verif.Spec.MISetHist
import Verif.Model.FixedSet
/-!
# Specification: what is observed of a fixed multi-index set
-/
namespace MParT
namespace FixedSet

/-- The terms of a fixed set, in index order, read through `Size` and `IndexToMulti` (all reads in
range). -/
def Holds (f : FixedSet) (ts : List (List Nat)) : Prop :=
  f.size = .ok ts.length ∧ ∀ (i : Nat) (t : List Nat), ts[i]? = some t → f.indexToMulti i = .ok t

/-- The fixed sets a program builds: by `Fix` on a reachable set, in either layout, by the
total-order constructor, or by the dense constructor from the orders of any list of vectors. -/
inductive Built : FixedSet → Prop
  | fix {b : Bool} {s : MISet} {c : Bool} {f : FixedSet} : MISet.Reach b s → s.fix c = .ok f → Built f
  | totalOrder {dim p : Nat} {f : FixedSet} : totalOrder dim p = .ok f → Built f
  | dense {dim : Nat} {ts : List (List Nat)} {f : FixedSet} : (∀ t ∈ ts, t.length = dim) →
      ofDense dim ts.flatten = .ok f → Built f

end FixedSet
end MParT
