import Verif.Spec.Vec
import Verif.Model.MultiIndexSet
/-!
# Specification: what is observed of a multi-index set, and which sets a program can build

`Terms s ts` reads the set through its public interface only.  `Reach fixed s` holds of the sets
obtained from an empty set by any finite history of public mutations; `fixed = true` marks the
histories in which the limiter was never replaced (and unions were taken with sets of the same
limiter).
-/
namespace MParT
namespace MISet
open MultiIndex Spec

/-- The terms of the set, in index order, as the user sees them through `Size` and
`IndexToMulti`. -/
def Terms (s : MISet) (ts : List (List Nat)) : Prop :=
  s.size = ts.length ∧ ∀ (i : Nat) (t : List Nat), ts[i]? = some t → s.indexToMulti i = .ok (ofVec t)

/-- The vectors accepted by the limiter of `s`. -/
def Accepts (s : MISet) (v : List Nat) : Prop := s.limiter (ofVec v) = true

/-- Histories of public mutations.  Calls that throw are not continued. -/
inductive Reach : Bool → MISet → Prop
  /-- empty set of the given length and limiter -/
  | init (len : Nat) (lim : MultiIndex → Bool) : Reach true (init len lim)
  /-- `AddActive` / `+=` of an accepted term -/
  | addActive {b : Bool} {s s' : MISet} {v : List Nat} {o : Option Nat} : Reach b s →
      v.length = s.length → Accepts s v → s.addActive (ofVec v) = .ok (s', o) → Reach b s'
  /-- `AddActive` of a rejected term, when the limiter was never replaced -/
  | addRejected {s s' : MISet} {v : List Nat} {o : Option Nat} : Reach true s →
      ¬ Accepts s v → s.addActive (ofVec v) = .ok (s', o) → Reach true s'
  /-- `Activate(m)` -/
  | activate {b : Bool} {s s' : MISet} {v : List Nat} : Reach b s →
      s.activate (ofVec v) = .ok s' → Reach b s'
  /-- `Expand(i)` -/
  | expand {b : Bool} {s s' : MISet} {i : Nat} {new : List Nat} : Reach b s →
      s.expand i = .ok (s', new) → Reach b s'
  /-- `Expand()` -/
  | expandAll {b : Bool} {s s' : MISet} {new : List Nat} : Reach b s →
      s.expandAll = .ok (s', new) → Reach b s'
  /-- `ForciblyActivate(m)` -/
  | forciblyActivate {s s' : MISet} {v : List Nat} {cap : Nat} {new : List Nat} : Reach true s →
      v.length = s.length → s.forciblyActivate cap (ofVec v) = .ok (s', new) → Reach true s'
  /-- `ForciblyExpand(i)` -/
  | forciblyExpand {s s' : MISet} {i cap : Nat} {new : List Nat} : Reach true s →
      s.forciblyExpand cap i = .ok (s', new) → Reach true s'
  /-- `Union` with a set of the same limiter and the same kind of history -/
  | unionSame {b : Bool} {s r s' : MISet} {n : Nat} : Reach b s → Reach b r →
      r.length = s.length → r.limiter = s.limiter → s.union r = .ok (s', n) → Reach b s'
  /-- `Union` with any set -/
  | union {b b' : Bool} {s r s' : MISet} {n : Nat} : Reach b s → Reach b' r →
      r.length = s.length → s.union r = .ok (s', n) → Reach false s'
  /-- successful `SetLimiter` -/
  | setLimiter {b : Bool} {s s' : MISet} {lim : MultiIndex → Bool} : Reach b s →
      s.setLimiter lim = .ok (s', false) → Reach false s'
  /-- assignment from another set -/
  | assign {b b' : Bool} {s r s' : MISet} : Reach b s → Reach b' r → s.assign r = .ok s' → Reach b' s'

/-- One successful public mutation other than assignment. -/
inductive Mutation : MISet → MISet → Prop
  | addActive {s s' : MISet} {v : List Nat} {o : Option Nat} : v.length = s.length → Accepts s v →
      s.addActive (ofVec v) = .ok (s', o) → Mutation s s'
  | activate {s s' : MISet} {v : List Nat} : s.activate (ofVec v) = .ok s' → Mutation s s'
  | expand {s s' : MISet} {i : Nat} {new : List Nat} : s.expand i = .ok (s', new) → Mutation s s'
  | expandAll {s s' : MISet} {new : List Nat} : s.expandAll = .ok (s', new) → Mutation s s'
  | union {b : Bool} {s r s' : MISet} {n : Nat} : Reach b r → r.length = s.length →
      s.union r = .ok (s', n) → Mutation s s'
  | setLimiter {s s' : MISet} {thrown : Bool} {lim : MultiIndex → Bool} :
      s.setLimiter lim = .ok (s', thrown) → Mutation s s'

/-- A list of vectors is downward closed. -/
def DownClosed (ts : List (List Nat)) : Prop := ∀ v w, Fwd v w → w ∈ ts → v ∈ ts

/-- The limiter of `s` is downward closed: lowering an entry keeps acceptance. -/
def DownClosedLimiter (s : MISet) : Prop := ∀ v w, Fwd v w → Accepts s w → Accepts s v

end MISet
end MParT
