import Mathlib.Data.Real.Basic
import Verif.Model.FixedSet
/-!
# Model of adaptive training

Source: `src/TrainMapAdaptive.cpp`.

What is computed by the optimiser and the objective is arbitrary: the test errors and the gradients are functions of the step
number and of the multi-index sets, so every sequence of training results is covered. The maps themselves (built from the
multi-index sets by `CreateComponent`) only enter through the number of their coefficients.

Simplifications
* errors and gradients are real numbers, so no `NaN`;
* `CreateComponent`, the map constructors and `TrainMap` return normally, output for `verbose` is left out;
* the sum of the sizes does not overflow `unsigned int`.
-/
namespace MParT
namespace ATM

/-- The arguments of `TrainMapAdaptive` and the results of training. `strict` chooses whether a read of a coefficient outside
the view, or of an index outside `multis_rm[i]`, is undefined behaviour (`true`) or gives an arbitrary value (`false`). TrainMapAdaptive.cpp 44–46. -/
structure Env where
  inputDim : Nat
  outputDim : Nat
  maxSize : Nat
  maxPatience : Nat
  maxDegrees : MultiIndex
  initError : ℝ
  gradient : Nat → List MISet → List ℝ
  testError : Nat → List MISet → ℝ
  strict : Bool

/-- The local variables that live through the loop: `mset0`, `mset_tmp`, `mset_best`, `mset_sizes`, `currSz`, `currPatience`,
`bestError`. TrainMapAdaptive.cpp 52–61 and 130. -/
structure St where
  mset0 : List MISet
  tmp : List MISet
  best : List MISet
  sizes : List Nat
  currSz : Nat
  patience : Nat
  bestError : ℝ

/-- Loop over the reduced margin of one output in `findMaxGrad`, TrainMapAdaptive.cpp 12–20. The maximum so far is
`(maxVal, maxIdx and maxIdxBlock)`; the two references are only assigned here. -/
noncomputable def maxGradInner (grad : List ℝ) (blockStart output : Nat) : ℝ × Option (Nat × Nat) → List Nat →
    Res (ℝ × Option (Nat × Nat))
  | acc, [] => .ok acc
  | acc, i :: rest => do
    let g ← Res.idx grad (blockStart + i)
    maxGradInner grad blockStart output (if |g| > acc.1 then (|g|, some (i, output)) else acc) rest

/-- Outer loop of `findMaxGrad`, TrainMapAdaptive.cpp 11–22. -/
noncomputable def maxGradOuter (grad : List ℝ) (msets : List MISet) (blockStart output : Nat) :
    ℝ × Option (Nat × Nat) → List (List Nat) → Res (ℝ × Option (Nat × Nat))
  | acc, [] => .ok acc
  | acc, rm :: rest => do
    let acc ← maxGradInner grad blockStart output acc rm
    let s ← Res.idx msets output
    maxGradOuter grad msets (blockStart + s.size) (output + 1) acc rest

/-- `findMaxGrad`, TrainMapAdaptive.cpp 6–23; `none`: `maxIdx` and `maxIdxBlock` were not assigned. -/
noncomputable def findMaxGrad (grad : List ℝ) (rms : List (List Nat)) (msets : List MISet) : Res (Option (Nat × Nat)) := do
  let r ← maxGradOuter grad msets 0 0 (0, none) rms
  .ok r.2

/-- The iterator loop of `maxDegreeRMFilter`, TrainMapAdaptive.cpp 32–38. -/
def eraseBounded (bounded : List Bool) : List Nat → Res (List Nat)
  | [] => .ok []
  | i :: rest => do
    let b ← Res.idx bounded i
    let r ← eraseBounded bounded rest
    .ok (if b then r else i :: r)

/-- `maxDegreeRMFilter`, TrainMapAdaptive.cpp 25–40, over the pairs of a set and its reduced margin. -/
def maxDegreeRMFilter (maxDegrees : MultiIndex) : List MISet → List (List Nat) → Res (List (List Nat))
  | s :: ss, rm :: rms => do
    let bounded ← s.filterBounded maxDegrees
    let rm ← eraseBounded bounded rm
    let rest ← maxDegreeRMFilter maxDegrees ss rms
    .ok (rm :: rest)
  | _, _ => .ok []

/-- The filter is applied only if maximum degrees were given, TrainMapAdaptive.cpp 108–116 and 187–189. -/
def filterStep (maxDegrees : MultiIndex) (msets : List MISet) (rms : List (List Nat)) : Res (List (List Nat)) :=
  if maxDegrees.length = 0 then .ok rms else maxDegreeRMFilter maxDegrees msets rms

/-- The loop that fills the coefficients of the expanded component, TrainMapAdaptive.cpp 150–161: `j == multis_rm[i][rmIdx]`
gives a zero, otherwise coefficient `oldIdx` of the old component, which has `oldSize` of them. The result is the list of the
positions copied (`none` for zero). -/
def copyLoop (rm : List Nat) (oldSize : Nat) (j rmIdx oldIdx : Nat) : Nat → Res (List (Option Nat))
  | 0 => .ok []
  | n + 1 => do
    let r ← Res.idx rm rmIdx
    if j = r then do
      let rest ← copyLoop rm oldSize (j + 1) (rmIdx + 1) oldIdx n
      .ok (none :: rest)
    else if oldIdx < oldSize then do
      let rest ← copyLoop rm oldSize (j + 1) rmIdx (oldIdx + 1) n
      .ok (some oldIdx :: rest)
    else .ub

/-- First part of the loop body, TrainMapAdaptive.cpp 142–165: every set is copied and expanded. -/
def expandAll (strict : Bool) : List MISet → List MISet → List Nat → Res (List MISet × List (List Nat))
  | s :: ss, t :: ts, n :: ns => do
    let t ← t.assign s
    let (t, rm) ← t.expandAll
    if strict then do
      let _ ← copyLoop rm n 0 0 0 t.size
      let (ts, rms) ← expandAll strict ss ts ns
      .ok (t :: ts, rm :: rms)
    else do
      let (ts, rms) ← expandAll strict ss ts ns
      .ok (t :: ts, rm :: rms)
  | _, _, _ => .ok ([], [])

/-- `for(i) a[i] = b[i]` on vectors of sets, TrainMapAdaptive.cpp 229–231 and 243–246. -/
def assignAll : List MISet → List MISet → Res (List MISet)
  | a :: as, b :: bs => do
    let x ← a.assign b
    let rest ← assignAll as bs
    .ok (x :: rest)
  | as, _ => .ok as

/-- Step `k` of the loop, TrainMapAdaptive.cpp 137–240. -/
noncomputable def step (env : Env) (k : Nat) (st : St) : Res St := do
  let (tmp, rms) ← expandAll env.strict st.mset0 st.tmp st.sizes
  let rms ← filterStep env.maxDegrees tmp rms
  let found ← findMaxGrad (env.gradient k tmp) rms tmp
  match found with
  | none => .ub -- the values of `maxIdx` and `maxIdxBlock` are indeterminate
  | some (maxIdx, block) => do
    let t ← Res.idx tmp block
    let added ← t.indexToMulti maxIdx
    let s ← Res.idx st.mset0 block
    let (s, _) ← s.addActive added
    let mset0 := st.mset0.set block s
    let sz ← Res.idx st.sizes block
    if s.size ≠ sz + 1 then .throw
    else do
      let _ ← s.fix true
      let err := env.testError k mset0
      if err < st.bestError then do
        let best ← assignAll st.best mset0
        .ok { mset0 := mset0, tmp := tmp, best := best, sizes := st.sizes.set block (sz + 1), currSz := st.currSz + 1,
              patience := 0, bestError := err }
      else .ok { st with mset0 := mset0, tmp := tmp, sizes := st.sizes.set block (sz + 1), currSz := st.currSz + 1,
                         patience := st.patience + 1 }

/-- The loop, TrainMapAdaptive.cpp 137–240. `currSz` grows in every step, so `maxSize - currSz` steps are enough. -/
noncomputable def loop (env : Env) (k : Nat) (st : St) : Nat → Res St
  | 0 => .ok st
  | n + 1 =>
    if st.currSz < env.maxSize ∧ st.patience < env.maxPatience then do
      let st ← step env k st
      loop env (k + 1) st n
    else .ok st

/-- The checks of the initial sets, TrainMapAdaptive.cpp 70–96: lengths and sizes, and the constant sets that `mset_tmp` and
`mset_best` start from. The length `inputDim-outputDim+j+1` is computed modulo 2^32 in the code; here a negative value gives
zero, and `CreateTotalOrder` throws (the code would try to build a set of more than four thousand million variables). -/
def initLoop (env : Env) (j dim : Nat) : List MISet → Res (List MISet × List Nat)
  | [] => .ok ([], [])
  | s :: ss => do
    if s.length ≠ dim then .throw
    else do
      let _ ← s.fix true
      let c ← MISet.createTotalOrder (env.inputDim + j + 1 - env.outputDim) 0 (fun _ => true)
      let (cs, ns) ← initLoop env (j + 1) (dim + 1) ss
      .ok (c :: cs, s.size :: ns)

/-- `TrainMapAdaptive`, TrainMapAdaptive.cpp 44–271. The result is `mset0` on return, which holds the sets of the map that is
built, trained once more and returned. -/
noncomputable def trainMapAdaptive (env : Env) (mset0 : List MISet) : Res (List MISet) := do
  if mset0.length ≠ env.outputDim then .throw
  else do
    let s0 ← Res.idx mset0 0
    let (consts, sizes) ← initLoop env 0 s0.length mset0
    if s0.length + env.outputDim - 1 ≠ env.inputDim then .throw
    else if env.maxDegrees.length ≠ 0 ∧ env.maxDegrees.length ≠ s0.length + env.outputDim - 1 then .throw
    else do
      let st ← loop env 0 { mset0 := mset0, tmp := consts, best := consts, sizes := sizes, currSz := sizes.sum, patience := 0,
                            bestError := env.initError } (env.maxSize - sizes.sum)
      assignAll st.mset0 st.best

end ATM
end MParT
