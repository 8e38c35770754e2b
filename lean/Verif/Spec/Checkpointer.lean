import Verif.Model.ComposedMap
/-!
# Specification of checkpointing

The input of layer `i` is the initial point sent through the first `i` layers. A history is a list of requests.
-/
namespace MParT.Spec

/-- The input of layer `i`: the first `i` functions applied one after the other. -/
def layerInput (fs : List (List ℝ → List ℝ)) (x : List ℝ) (i : Nat) : List ℝ := (fs.take i).foldl (fun y f => f y) x

/-- `layers` compute the functions `fs` on vectors of `d` entries, whatever the output buffer contained. -/
def Computes (d : Nat) (layers : List Layer) (fs : List (List ℝ → List ℝ)) : Prop :=
  List.Forall₂ (fun L f => ∀ x out : List ℝ, x.length = d → out.length = d → L x out = .ok (f x) ∧ (f x).length = d)
    layers fs

/-- The results of a sequence of requests and the state after it. -/
def requests (layers : List Layer) : Checkpointer → List Nat → Res (List (List ℝ) × Checkpointer)
  | st, [] => .ok ([], st)
  | st, i :: is => do
    let (x, st) ← st.request layers i
    let (xs, st) ← requests layers st is
    return (x :: xs, st)

end MParT.Spec
