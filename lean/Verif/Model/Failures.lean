import Verif.Model.TrainAdaptiveCoeffs
import Verif.Model.Serialization
/-!
# Model of what calls leave behind when they fail

Source: `src/TrainMapAdaptive.cpp`, `MParT/MapOptions.h`, `MParT/MultiIndices/FixedMultiIndexSet.h`, `MParT/Utilities/Serialization.h`,
`bindings/python/src/MapOptions.cpp`, `bindings/python/src/MultiIndex.cpp`.

`TrainMapAdaptive` has its multi-index sets by reference, and an archive is read into an object that exists. Here these arguments are followed also if the
call ends with an exception. (`Model/Coeffs.lean` and `Model/Train.lean` do the same for coefficients.)

Simplifications
* those of `Model/TrainAdaptiveCoeffs.lean` and `Model/Serialization.lean`;
* objects are stored with the lowest byte first, as in the archive, and a stream that ends early has delivered the bytes it had.
-/
namespace MParT

namespace ATM
namespace Full

/-- A loop step up to the line in which a term is added, TrainMapAdaptive.cpp 142–197: `mset_tmp`, `maxIdxBlock` and the set that grew. -/
noncomputable def grow (env : Env) (st : St) : Res (List MISet × Nat × MISet) := do
  let (tmp, rms, front) ← expandBlocks env st.mset0 st.tmp st.blocks
  let rms ← filterStep env.maxDegrees tmp rms
  let found ← findMaxGrad (env.gradient front) rms tmp
  match found with
  | none => .ub
  | some (maxIdx, block) => do
    let t ← Res.idx tmp block
    let added ← t.indexToMulti maxIdx
    let s ← Res.idx st.mset0 block
    let (s, _) ← s.addActive added
    .ok (tmp, block, s)

/-- The rest of the loop step, TrainMapAdaptive.cpp 201–239. -/
noncomputable def finish (env : Env) (k : Nat) (st : St) (tmp : List MISet) (block : Nat) (s : MISet) : Res St := do
  let sz ← Res.idx st.sizes block
  if s.size ≠ sz + 1 then .throw
  else do
    let newComp ← newBlock s
    let old ← Res.idx st.blocks block
    if old.coeffs.length < sz then .ub
    else do
      let blocks ← trainBlocks env (k + 1) (st.blocks.set block newComp)
      let err := env.testError blocks
      if err < st.bestError then do
        let best ← assignAll st.best (st.mset0.set block s)
        .ok { mset0 := st.mset0.set block s, tmp := tmp, best := best, sizes := st.sizes.set block (sz + 1), currSz := st.currSz + 1,
              patience := 0, bestError := err, blocks := blocks }
      else .ok { st with mset0 := st.mset0.set block s, tmp := tmp, sizes := st.sizes.set block (sz + 1), currSz := st.currSz + 1,
                         patience := st.patience + 1, blocks := blocks }

/-- Step `k` of the loop, TrainMapAdaptive.cpp 137–240: the sets of the caller when it ends, and how it ends. -/
noncomputable def stepRef (env : Env) (k : Nat) (st : St) : List MISet × Res St :=
  match grow env st with
  | .ok (tmp, block, s) => (st.mset0.set block s, finish env k st tmp block s)
  | .throw => (st.mset0, .throw)
  | .ub => (st.mset0, .ub)

/-- The loop, TrainMapAdaptive.cpp 137–240, as `Full.loop`, with the sets of the caller. -/
noncomputable def loopRef (env : Env) (k : Nat) (st : St) : Nat → List MISet × Res (St × Nat)
  | 0 => (st.mset0, .ok (st, k))
  | n + 1 =>
    if st.currSz < env.maxSize ∧ st.patience < env.maxPatience then
      match stepRef env k st with
      | (_, .ok st') => loopRef env (k + 1) st' n
      | (ms, .throw) => (ms, .throw)
      | (ms, .ub) => (ms, .ub)
    else (st.mset0, .ok (st, k))

/-- What happens before the loop, TrainMapAdaptive.cpp 48–134; the sets of the caller are only read. -/
noncomputable def prepare (env : Env) (mset0 : List MISet) : Res St := do
  if mset0.length ≠ env.outputDim then .throw
  else do
    let s0 ← Res.idx mset0 0
    let (consts, sizes, blocks) ← initLoop env 0 s0.length mset0
    if s0.length + env.outputDim - 1 ≠ env.inputDim then .throw
    else if env.maxDegrees.length ≠ 0 ∧ env.maxDegrees.length ≠ s0.length + env.outputDim - 1 then .throw
    else do
      let blocks ← trainBlocks env 0 blocks
      .ok { mset0 := mset0, tmp := consts, best := consts, sizes := sizes, currSz := sizes.sum, patience := 0,
            bestError := env.testError blocks, blocks := blocks }

/-- The last loop, TrainMapAdaptive.cpp 243–246: component `i` is made, then `mset0[i] = mset_best[i]`. -/
def finalRef : (mset0 best : List MISet) → List MISet × Res (List Block)
  | m :: ms, b :: bs =>
    match newBlock b with
    | .ok nb =>
      match m.assign b with
      | .ok m' =>
        match finalRef ms bs with
        | (ms', .ok nbs) => (m' :: ms', .ok (nb :: nbs))
        | (ms', r) => (m' :: ms', r)
      | .throw => (m :: ms, .throw)
      | .ub => (m :: ms, .ub)
    | .throw => (m :: ms, .throw)
    | .ub => (m :: ms, .ub)
  | ms, _ => (ms, .ok [])

/-- `TrainMapAdaptive(mset0, objective, options)`, TrainMapAdaptive.cpp 44–271: the sets of the caller afterwards, and the components of the map that is
returned, or how the call fails. -/
noncomputable def trainMapAdaptiveRef (env : Env) (mset0 : List MISet) : List MISet × Res (List Block) :=
  match prepare env mset0 with
  | .throw => (mset0, .throw)
  | .ub => (mset0, .ub)
  | .ok st =>
    match loopRef env 0 st (env.maxSize - st.currSz) with
    | (ms, .throw) => (ms, .throw)
    | (ms, .ub) => (ms, .ub)
    | (_, .ok (st, k)) =>
      match finalRef st.mset0 st.best with
      | (ms, .ok blocks) => (ms, trainBlocks env (k + 1) blocks)
      | (ms, r) => (ms, r)

end Full
end ATM

namespace Ser

/-- Reads into an object: the object afterwards, and the bytes that are left or how the reading fails. Deserialize, bindings/python/src/MapOptions.cpp 62–67. -/
def Into (σ : Type) : Type := σ → List Byte → σ × Res (List Byte)

/-- Two reads, the second only if the first succeeds. `archive(a, b, …)`, MapOptions.h 106. -/
def Into.andThen {σ : Type} (f g : Into σ) : Into σ := fun o bs =>
  match f o bs with
  | (o, .ok rest) => g o rest
  | r => r

/-- Reads a member. `archive(a, b, …)`, MapOptions.h 106. -/
def Into.member {σ α : Type} (f : Into α) (get : σ → α) (set : σ → α → σ) : Into σ := fun o bs =>
  match f (get o) bs with
  | (a, r) => (set o a, r)

/-- `loadBinary(&x, k)` for a number of `k` bytes: `rdbuf()->sgetn` overwrites its first bytes with those that there are. cereal library; used in
MapOptions.h 106. -/
def intoNat (k : Nat) : Into Nat := fun old bs =>
  if bs.length < k then (valLE (bs ++ (putLE k old).drop bs.length), .throw) else (valLE (bs.take k), .ok (bs.drop k))

/-- Reading into an `unsigned int`. cereal library; used in MapOptions.h 106. -/
def intoU32 : Into UInt32 := fun old bs => match intoNat 4 old.toNat bs with | (n, r) => (UInt32.ofNat n, r)
/-- Reading into eight bytes, e.g. a `double`. cereal library; used in MapOptions.h 106. -/
def intoU64 : Into UInt64 := fun old bs => match intoNat 8 old.toNat bs with | (n, r) => (UInt64.ofNat n, r)
/-- Reading into a `bool`, which has one byte. cereal library; used in MapOptions.h 106. -/
def intoBool : Into Bool := fun old bs =>
  match bs with
  | [] => (old, .throw)
  | b :: rest => (b != 0, .ok rest)
/-- Reading into a view: a new view is read and then moved into its place. Serialization.h 35–50. -/
def intoView {α : Type} (get : Rd α) : Into (View α) := fun old bs =>
  match View.load get bs with
  | .ok (v, rest) => (v, .ok rest)
  | .throw => (old, .throw)
  | .ub => (old, .ub)

/-- `opts.Deserialize(filename)` in Python, bindings/python/src/MapOptions.cpp 62–67; `serialize`, MapOptions.h 103–107. A file that cannot be opened gives no bytes. -/
def Options.loadInto : Into Options :=
  (intoU32.member Options.basisType fun o x => { o with basisType := x }).andThen <|
  (intoU64.member Options.basisLB fun o x => { o with basisLB := x }).andThen <|
  (intoU64.member Options.basisUB fun o x => { o with basisUB := x }).andThen <|
  (intoU32.member Options.posFuncType fun o x => { o with posFuncType := x }).andThen <|
  (intoU32.member Options.quadType fun o x => { o with quadType := x }).andThen <|
  (intoU64.member Options.quadAbsTol fun o x => { o with quadAbsTol := x }).andThen <|
  (intoU64.member Options.quadRelTol fun o x => { o with quadRelTol := x }).andThen <|
  (intoU32.member Options.quadMaxSub fun o x => { o with quadMaxSub := x }).andThen <|
  (intoU32.member Options.quadMinSub fun o x => { o with quadMinSub := x }).andThen <|
  (intoU32.member Options.quadPts fun o x => { o with quadPts := x }).andThen <|
  (intoBool.member Options.contDeriv fun o x => { o with contDeriv := x }).andThen <|
  (intoBool.member Options.basisNorm fun o x => { o with basisNorm := x }).andThen <|
  intoU64.member Options.nugget fun o x => { o with nugget := x }

/-- `mset.Deserialize(filename)` in Python, bindings/python/src/MultiIndex.cpp 211–216; `load`, FixedMultiIndexSet.h 90–98. -/
def SetObj.loadInto : Into SetObj :=
  (intoU32.member SetObj.dim fun o x => { o with dim := x }).andThen <|
  (intoBool.member SetObj.isCompressed fun o x => { o with isCompressed := x }).andThen <|
  ((intoView getU32).member SetObj.nzStarts fun o x => { o with nzStarts := x }).andThen <|
  ((intoView getU32).member SetObj.nzDims fun o x => { o with nzDims := x }).andThen <|
  ((intoView getU32).member SetObj.nzOrders fun o x => { o with nzOrders := x }).andThen <|
  (intoView getU32).member SetObj.maxDegrees fun o x => { o with maxDegrees := x }

end Ser
end MParT
