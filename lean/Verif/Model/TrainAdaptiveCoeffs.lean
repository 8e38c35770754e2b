import Verif.Model.TrainAdaptive
/-!
# Model of adaptive training with the coefficients of the maps

Source: `src/TrainMapAdaptive.cpp`.

`Model/TrainAdaptive.lean` follows the multi-index sets through `TrainMapAdaptive`; here the components and their coefficients are followed as well.
A component is what `CreateComponent` makes of a fixed multi-index set (the options are the same for all of them), so it is given by the set and its
coefficients. The optimiser is arbitrary: `train k` is the result of the `k`th call of `TrainMap`, as a function of the map it was given.

Simplifications
* errors and gradients are real numbers, so no `NaN`;
* `TriangularMap` concatenates the coefficients of its components, which then refer to slices of them (C44), so `SetCoeffs` on the map changes the
  coefficients of the components;
* output for `verbose` is left out.
-/
namespace MParT
namespace ATM
namespace Full

/-- A component made by `CreateComponent(set, options)` and its coefficients. TrainMapAdaptive.cpp 55, 86, 148 and 211. -/
structure Block where
  set : FixedSet
  coeffs : List ℝ

/-- The arguments of `TrainMapAdaptive` and what the objective and the optimiser compute: `gradient` is `TrainCoeffGrad`, `train k` the coefficients that
the `k`th call of `TrainMap` leaves in the map, `testError` is `TestError`. `strict` chooses whether a read outside the coefficients of a component, or
outside `multis_rm[i]`, is undefined behaviour (`true`) or whether the coefficients of the expanded component are then arbitrary, `junk` (`false`).
TrainMapAdaptive.cpp 44–46. -/
structure Env where
  inputDim : Nat
  outputDim : Nat
  maxSize : Nat
  maxPatience : Nat
  maxDegrees : MultiIndex
  gradient : List Block → List ℝ
  train : Nat → List Block → Res (List ℝ)
  testError : List Block → ℝ
  strict : Bool
  junk : List ℝ → List Nat → Nat → List ℝ

/-- The local variables that live through the loop: those of the sets, and `mapBlocks`. TrainMapAdaptive.cpp 52–61 and 130. -/
structure St where
  mset0 : List MISet
  tmp : List MISet
  best : List MISet
  sizes : List Nat
  currSz : Nat
  patience : Nat
  bestError : ℝ
  blocks : List Block

/-- A component as it comes from the factory: all the coefficients are zero. TrainMapAdaptive.cpp 86, 211 and 244; e.g. MapFactoryImpl1.cpp 29. -/
def newBlock (s : MISet) : Res Block := do
  let f ← s.fix true
  .ok ⟨f, List.replicate s.size 0⟩

/-- `map->SetCoeffs(x)` seen from the components, which have slices of the coefficients of the map. TrainMap.cpp 87. -/
def setCoeffs : List Block → List ℝ → List Block
  | [], _ => []
  | b :: bs, x => ⟨b.set, x.take b.coeffs.length⟩ :: setCoeffs bs (x.drop b.coeffs.length)

/-- `TrainMap(map, objective, options)` for the map with the given components. TrainMapAdaptive.cpp 129, 221 and 254; TrainMap.cpp 60–103. -/
def trainBlocks (env : Env) (k : Nat) (bs : List Block) : Res (List Block) := do
  let x ← env.train k bs
  if x.length ≠ (bs.map fun b => b.coeffs.length).sum then .throw
  else .ok (setCoeffs bs x)

/-- The coefficients of the expanded component, TrainMapAdaptive.cpp 149–162. -/
def fill (env : Env) (old : List ℝ) (rm : List Nat) (n : Nat) : Res (List ℝ) :=
  match copyLoop rm old.length 0 0 0 n with
  | .ok ps => .ok (ps.map fun p => match p with
    | none => 0
    | some i => old.getD i 0)
  | _ => if env.strict then .ub else .ok (env.junk old rm n)

/-- First part of the loop body, TrainMapAdaptive.cpp 142–165: every set is copied and expanded, and a component is made for it. -/
def expandBlocks (env : Env) : List MISet → List MISet → List Block → Res (List MISet × List (List Nat) × List Block)
  | s :: ss, t :: ts, b :: bs => do
    let t ← t.assign s
    let (t, rm) ← t.expandAll
    let f ← t.fix true
    let c ← fill env b.coeffs rm t.size
    let (ts, rms, fs) ← expandBlocks env ss ts bs
    .ok (t :: ts, rm :: rms, ⟨f, c⟩ :: fs)
  | _, _, _ => .ok ([], [], [])

/-- Step `k` of the loop, TrainMapAdaptive.cpp 137–240. The coefficients in `newCoeffs`, lines 212–215, are computed but not given to the new
component: it keeps the zeros it was made with. -/
noncomputable def step (env : Env) (k : Nat) (st : St) : Res St := do
  let (tmp, rms, front) ← expandBlocks env st.mset0 st.tmp st.blocks
  let rms ← filterStep env.maxDegrees tmp rms
  let found ← findMaxGrad (env.gradient front) rms tmp
  match found with
  | none => .ub -- the values of `maxIdx` and `maxIdxBlock` are indeterminate
  | some (maxIdx, block) => do
    let t ← Res.idx tmp block
    let added ← t.indexToMulti maxIdx
    let s ← Res.idx st.mset0 block
    let (s, _) ← s.addActive added
    let mset0 := st.mset0.set block s
    let sz ← Res.idx st.sizes block
    if s.size ≠ sz + 1 then .throw
    else do
      let newComp ← newBlock s
      let old ← Res.idx st.blocks block
      if old.coeffs.length < sz then .ub
      else do
        let blocks ← trainBlocks env (k + 1) (st.blocks.set block newComp)
        let err := env.testError blocks
        if err < st.bestError then do
          let best ← assignAll st.best mset0
          .ok { mset0 := mset0, tmp := tmp, best := best, sizes := st.sizes.set block (sz + 1), currSz := st.currSz + 1,
                patience := 0, bestError := err, blocks := blocks }
        else .ok { st with mset0 := mset0, tmp := tmp, sizes := st.sizes.set block (sz + 1), currSz := st.currSz + 1,
                           patience := st.patience + 1, blocks := blocks }

/-- The loop, TrainMapAdaptive.cpp 137–240: the state and the number of steps. `currSz` grows in every step, so `maxSize - currSz` steps are enough. -/
noncomputable def loop (env : Env) (k : Nat) (st : St) : Nat → Res (St × Nat)
  | 0 => .ok (st, k)
  | n + 1 =>
    if st.currSz < env.maxSize ∧ st.patience < env.maxPatience then do
      let st ← step env k st
      loop env (k + 1) st n
    else .ok (st, k)

/-- The checks of the initial sets, TrainMapAdaptive.cpp 70–96: the constant sets that `mset_tmp` and `mset_best` start from, the sizes, and the
components. See `ATM.initLoop` about the length of the constant sets. -/
def initLoop (env : Env) (j dim : Nat) : List MISet → Res (List MISet × List Nat × List Block)
  | [] => .ok ([], [], [])
  | s :: ss => do
    if s.length ≠ dim then .throw
    else do
      let b ← newBlock s
      let c ← MISet.createTotalOrder (env.inputDim + j + 1 - env.outputDim) 0 (fun _ => true)
      let (cs, ns, bs) ← initLoop env (j + 1) (dim + 1) ss
      .ok (c :: cs, s.size :: ns, b :: bs)

/-- The components of the map that is returned, before it is trained, TrainMapAdaptive.cpp 243–246. -/
def finalBlocks : List MISet → Res (List Block)
  | [] => .ok []
  | s :: ss => do
    let b ← newBlock s
    let bs ← finalBlocks ss
    .ok (b :: bs)

/-- `TrainMapAdaptive`, TrainMapAdaptive.cpp 44–271. The result is `mset0` on return and the components of the map that is returned. -/
noncomputable def trainMapAdaptive (env : Env) (mset0 : List MISet) : Res (List MISet × List Block) := do
  if mset0.length ≠ env.outputDim then .throw
  else do
    let s0 ← Res.idx mset0 0
    let (consts, sizes, blocks) ← initLoop env 0 s0.length mset0
    if s0.length + env.outputDim - 1 ≠ env.inputDim then .throw
    else if env.maxDegrees.length ≠ 0 ∧ env.maxDegrees.length ≠ s0.length + env.outputDim - 1 then .throw
    else do
      let blocks ← trainBlocks env 0 blocks
      let (st, k) ← loop env 0 { mset0 := mset0, tmp := consts, best := consts, sizes := sizes, currSz := sizes.sum, patience := 0,
                                 bestError := env.testError blocks, blocks := blocks } (env.maxSize - sizes.sum)
      let blocks ← finalBlocks st.best
      let res ← assignAll st.mset0 st.best
      let blocks ← trainBlocks env (k + 1) blocks
      .ok (res, blocks)

end Full
end ATM
end MParT
