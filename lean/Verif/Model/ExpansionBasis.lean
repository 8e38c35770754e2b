import Verif.Model.Expansion
import Verif.Model.Hermite
/-!
# Model of the cache fills of `MultivariateExpansionWorker` with a basis class

Source: `MParT/MultivariateExpansionWorker.h`. `Model/Expansion.lean` writes the members of an abstract basis into the cache;
here the members of a basis class are called with pointers into the cache, as in the code.

Simplifications
* the cache is a list of numbers, the previous contents of which are arbitrary;
* a routine called with `&polyCache[s]` and `maxOrder` is handed the `maxOrder+1` entries from `s` on; its model returns `ub` if
  it accesses anything else. The blocks handed to one call do not overlap (`C22_layout`), so that separate lists model them.
-/
namespace MParT.Worker

/-- The entries from `&polyCache[s]` on that a call with this `maxOrder` may use. MultivariateExpansionWorker.h 144. -/
def segment (m : List ℝ) (s maxOrder : Nat) : List ℝ := (m.drop s).take (maxOrder + 1)

/-- Put the entries returned by a routine back. MultivariateExpansionWorker.h 144. -/
def putBack (m : List ℝ) (s : Nat) : List ℝ → Res (List ℝ)
  | [] => .ok m
  | v :: vs => do
    let m ← Res.setIdx m s v
    putBack m (s + 1) vs

/-- `basis1d_.EvaluateAll(&polyCache[s], maxOrder, x)`. MultivariateExpansionWorker.h 149. -/
def callAll (b : Basis1d) (m : List ℝ) (s maxOrder : Nat) (x : ℝ) : Res (List ℝ) := do
  let v ← b.evaluateAll (segment m s maxOrder) maxOrder x
  putBack m s v

/-- `basis1d_.EvaluateDerivatives(&polyCache[s], &polyCache[s1], maxOrder, x)`. MultivariateExpansionWorker.h 144. -/
def callDerivatives (b : Basis1d) (m : List ℝ) (s s1 maxOrder : Nat) (x : ℝ) : Res (List ℝ) := do
  let r ← b.evaluateDerivatives (segment m s maxOrder) (segment m s1 maxOrder) maxOrder x
  let m ← putBack m s r.1
  putBack m s1 r.2

/-- `basis1d_.EvaluateSecondDerivatives(&polyCache[s], &polyCache[s1], &polyCache[s2], maxOrder, x)`. MultivariateExpansionWorker.h 184–186. -/
def callSecond (b : Basis1d) (m : List ℝ) (s s1 s2 maxOrder : Nat) (x : ℝ) : Res (List ℝ) := do
  let r ← b.evaluateSecondDerivatives (segment m s maxOrder) (segment m s1 maxOrder) (segment m s2 maxOrder) maxOrder x
  let m ← putBack m s r.1
  let m ← putBack m s1 r.2.1
  putBack m s2 r.2.2

/-- Loop of `FillCache1` over `d..d+n-1`, MultivariateExpansionWorker.h 142–150. -/
def fill1LoopOf (w : Worker) (b : Basis1d) (pt : List ℝ) (derivs : Bool) (m : List ℝ) (d : Nat) : Nat → Res (List ℝ)
  | 0 => .ok m
  | n + 1 => do
    let s ← Res.idx w.startPos d
    let deg ← Res.idx w.maxDegrees d
    let x ← Res.idx pt d
    if derivs then do
      let s1 ← Res.idx w.startPos (d + w.dim)
      let m ← callDerivatives b m s s1 deg x
      fill1LoopOf w b pt derivs m (d + 1) n
    else do
      let m ← callAll b m s deg x
      fill1LoopOf w b pt derivs m (d + 1) n

/-- `FillCache1`, MultivariateExpansionWorker.h 137–151. -/
def fillCache1Of (w : Worker) (b : Basis1d) (m : List ℝ) (pt : List ℝ) (flag : DFlag) : Res (List ℝ) :=
  fill1LoopOf w b pt (flag == .input || flag == .mixedInput) m 0 (w.dim - 1)

/-- `FillCache2`, MultivariateExpansionWorker.h 166–190. -/
def fillCache2Of (w : Worker) (b : Basis1d) (m : List ℝ) (xd : ℝ) (flag : DFlag) : Res (List ℝ) :=
  if flag = .none ∨ flag = .parameters then do
    let s ← Res.idx w.startPos (w.dim - 1)
    let deg ← Res.idx w.maxDegrees (w.dim - 1)
    callAll b m s deg xd
  else if flag = .diagonal ∨ flag = .input then do
    let s ← Res.idx w.startPos (w.dim - 1)
    let s1 ← Res.idx w.startPos (2 * w.dim - 1)
    let deg ← Res.idx w.maxDegrees (w.dim - 1)
    callDerivatives b m s s1 deg xd
  else if flag = .diagonal2 ∨ flag = .mixedInput then do
    let s ← Res.idx w.startPos (w.dim - 1)
    let s1 ← Res.idx w.startPos (2 * w.dim - 1)
    let s2 ← Res.idx w.startPos (2 * w.dim)
    let deg ← Res.idx w.maxDegrees (w.dim - 1)
    callSecond b m s s1 s2 deg xd
  else .ok m

/-- `FillCache1` once, then `FillCache2` any number of times. E.g. MultivariateExpansion.h 122–123. -/
def fillSeqOf (w : Worker) (b : Basis1d) (m : List ℝ) (pt : List ℝ) (flag1 : DFlag) (calls : List (ℝ × DFlag)) :
    Res (List ℝ) := do
  let m ← fillCache1Of w b m pt flag1
  calls.foldlM (fun m h => fillCache2Of w b m h.1 h.2) m

end MParT.Worker
