import Verif.Model.FixedSet
import Mathlib.Algebra.Ring.Basic
/-!
# Model of `MultivariateExpansionWorker` and `MultivariateExpansion`

Source: `MParT/MultivariateExpansionWorker.h`, `MParT/MultivariateExpansion.h`.

Simplifications
* the programs are written for any numbers `K` with `+` and `*`; the properties use exact arithmetic in a commutative ring, except C103,
  which uses rounded arithmetic (`Model/Rounding.lean`);
* the 1d basis is abstract: three families of functions (values, first and second derivatives);
  `EvaluateAll`, `EvaluateDerivatives` and `EvaluateSecondDerivatives` write the entries
  `0..maxOrder` of the arrays they are given (the concrete bases are modelled separately);
* the cache is a list of optional values, `none` being memory that was never written; reading such an
  entry or an entry outside the cache is `ub`;
* `parallel_scan` is the sequential exclusive scan; the assertions on `derivOrder` are enabled.
-/
namespace MParT

/-- A family of 1d basis functions with first and second derivatives. `BasisEvaluatorType`, MultivariateExpansionWorker.h 144–186. -/
structure Basis (K : Type) where
  val : Nat → K → K
  d1 : Nat → K → K
  d2 : Nat → K → K

/-- `DerivativeFlags::DerivativeType`, DerivativeFlags.h 7–15. -/
inductive DFlag
  | none | parameters | diagonal | diagonal2 | mixed | input | mixedInput
deriving DecidableEq, Repr

/-- Data members of `MultivariateExpansionWorker`, MultivariateExpansionWorker.h 452–460. -/
structure Worker where
  dim : Nat
  multiSet : FixedSet
  startPos : List Nat
  maxDegrees : List Nat
  cacheSize : Nat
deriving DecidableEq, Repr

namespace Worker

/-- `MultivariateExpansionMaxDegreeFunctor` applied to `i..i+n-1` in order,
MultivariateExpansionWorker.h 23–32. -/
def scanLoop (dim : Nat) (md startPos : List Nat) (update i : Nat) : Nat → Res (List Nat)
  | 0 => .ok startPos
  | n + 1 => do
    let sp ← Res.setIdx startPos i update
    let deg ← Res.idx md (if i < 2 * dim then i % dim else dim - 1)
    scanLoop dim md sp (update + (deg + 1)) (i + 1) n

/-- Constructor, MultivariateExpansionWorker.h 90–103.  For `dim = 0` the functor reads
`maxDegrees(dim-1)` with a wrapped index: `ub`. -/
def ofFixed (f : FixedSet) : Res Worker :=
  if f.dim = 0 then .ub
  else do
    let sp ← scanLoop f.dim f.maxDegrees (List.replicate (2 * f.dim + 2) 0) 0 0 (2 * f.dim + 2)
    let cs ← Res.idx sp (sp.length - 1)
    return { dim := f.dim, multiSet := f, startPos := sp, maxDegrees := f.maxDegrees, cacheSize := cs }

variable {K : Type}

/-- The polynomial cache (`double* polyCache`); `none` is uninitialised. MultivariateExpansionWorker.h 137. -/
abbrev Cache (K : Type) := List (Option K)

/-- Write consecutive values starting at `&polyCache[start]`. MultivariateExpansionWorker.h 144, 149, 173–186. -/
def writeBlock (cache : Cache K) (start : Nat) : List K → Res (Cache K)
  | [] => .ok cache
  | v :: vs => do
    let c ← Res.setIdx cache start (some v)
    writeBlock c (start + 1) vs

/-- Read `polyCache[i]`. MultivariateExpansionWorker.h 205. -/
def read (cache : Cache K) (i : Nat) : Res K :=
  match cache[i]? with
  | some (some v) => .ok v
  | _ => .ub

/-- The entries `0..maxOrder` of a family of functions at `x`. MultivariateExpansionWorker.h 149. -/
def block (g : Nat → K → K) (maxOrder : Nat) (x : K) : List K := (List.range (maxOrder + 1)).map (g · x)

/-- Loop of `FillCache1`, MultivariateExpansionWorker.h 142–150. -/
def fill1Loop (w : Worker) (b : Basis K) (pt : List K) (derivs : Bool) (cache : Cache K) (d : Nat) :
    Nat → Res (Cache K)
  | 0 => .ok cache
  | n + 1 => do
    let s ← Res.idx w.startPos d
    let deg ← Res.idx w.maxDegrees d
    let x ← Res.idx pt d
    let c ← writeBlock cache s (block b.val deg x)
    if derivs then do
      let s' ← Res.idx w.startPos (d + w.dim)
      let c' ← writeBlock c s' (block b.d1 deg x)
      fill1Loop w b pt derivs c' (d + 1) n
    else fill1Loop w b pt derivs c (d + 1) n

/-- `FillCache1`, MultivariateExpansionWorker.h 137–151. -/
def fillCache1 (w : Worker) (b : Basis K) (cache : Cache K) (pt : List K) (flag : DFlag) :
    Res (Cache K) :=
  fill1Loop w b pt (flag == .input || flag == .mixedInput) cache 0 (w.dim - 1)

/-- `FillCache2`, MultivariateExpansionWorker.h 166–190.  With the flag `Mixed` nothing is written. -/
def fillCache2 (w : Worker) (b : Basis K) (cache : Cache K) (xd : K) (flag : DFlag) :
    Res (Cache K) :=
  if flag = .none ∨ flag = .parameters then do
    let s ← Res.idx w.startPos (w.dim - 1)
    let deg ← Res.idx w.maxDegrees (w.dim - 1)
    writeBlock cache s (block b.val deg xd)
  else if flag = .diagonal ∨ flag = .input then do
    let s ← Res.idx w.startPos (w.dim - 1)
    let s' ← Res.idx w.startPos (2 * w.dim - 1)
    let deg ← Res.idx w.maxDegrees (w.dim - 1)
    let c ← writeBlock cache s (block b.val deg xd)
    writeBlock c s' (block b.d1 deg xd)
  else if flag = .diagonal2 ∨ flag = .mixedInput then do
    let s ← Res.idx w.startPos (w.dim - 1)
    let s' ← Res.idx w.startPos (2 * w.dim - 1)
    let s'' ← Res.idx w.startPos (2 * w.dim)
    let deg ← Res.idx w.maxDegrees (w.dim - 1)
    let c ← writeBlock cache s (block b.val deg xd)
    let c' ← writeBlock c s' (block b.d1 deg xd)
    writeBlock c' s'' (block b.d2 deg xd)
  else .ok cache

variable [Add K] [Mul K] [Zero K] [One K]

/-- Inner loop over the stored components of one term (e.g. MultivariateExpansionWorker.h 204–205,
237–246, 311–319, 356–371), over positions `i..i+n-1`.  `slot d` is the block of the cache used for
dimension `d`; `upd` updates the flags (`hasDeriv`, ...) for each component. -/
def termLoop {σ : Type} (w : Worker) (cache : Cache K) (slot : Nat → Nat) (upd : Nat → σ → σ)
    (acc : K) (fl : σ) (i : Nat) : Nat → Res (K × σ)
  | 0 => .ok (acc, fl)
  | n + 1 => do
    let d ← Res.idx w.multiSet.nzDims i
    let o ← Res.idx w.multiSet.nzOrders i
    let s ← Res.idx w.startPos (slot d)
    let v ← read cache (s + o)
    termLoop w cache slot upd (acc * v) (upd d fl) (i + 1) n

/-- One term: `termVal = 1`, then the loop from `nzStarts(termInd)` to `nzStarts(termInd+1)`. MultivariateExpansionWorker.h 203–205. -/
def termVal {σ : Type} (w : Worker) (cache : Cache K) (slot : Nat → Nat) (upd : Nat → σ → σ) (fl : σ)
    (termInd : Nat) : Res (K × σ) := do
  let lo ← Res.idx w.multiSet.nzStarts termInd
  let hi ← Res.idx w.multiSet.nzStarts (termInd + 1)
  termLoop w cache slot upd 1 fl lo (hi - lo)

/-- Loop of `Evaluate`, MultivariateExpansionWorker.h 200–208. -/
def evalLoop (w : Worker) (cache : Cache K) (coeffs : List K) (output : K) (termInd : Nat) : Nat → Res K
  | 0 => .ok output
  | n + 1 => do
    let tv ← termVal w cache id (fun _ (u : Unit) => u) () termInd
    let c ← Res.idx coeffs termInd
    evalLoop w cache coeffs (output + tv.1 * c) (termInd + 1) n

/-- `Evaluate`, MultivariateExpansionWorker.h 193–211. -/
def evaluate (w : Worker) (cache : Cache K) (coeffs : List K) : Res K := do
  let numTerms ← w.multiSet.size
  evalLoop w cache coeffs 0 0 numTerms

/-- Cache block used by the diagonal derivatives: `posIndex` for the last dimension. MultivariateExpansionWorker.h 231, 239–243. -/
def diagSlot (w : Worker) (derivOrder d : Nat) : Nat :=
  if d = w.dim - 1 then 2 * w.dim + derivOrder - 2 else d

/-- `hasDeriv` of the diagonal derivatives. MultivariateExpansionWorker.h 237–241. -/
def diagFlag (w : Worker) (d : Nat) (h : Bool) : Bool := h || d == w.dim - 1

/-- Loop of `DiagonalDerivative`, MultivariateExpansionWorker.h 233–251. -/
def diagLoop (w : Worker) (cache : Cache K) (coeffs : List K) (derivOrder : Nat) (output : K)
    (termInd : Nat) : Nat → Res K
  | 0 => .ok output
  | n + 1 => do
    let tv ← termVal w cache (w.diagSlot derivOrder) w.diagFlag false termInd
    if tv.2 then do
      let c ← Res.idx coeffs termInd
      diagLoop w cache coeffs derivOrder (output + tv.1 * c) (termInd + 1) n
    else diagLoop w cache coeffs derivOrder output (termInd + 1) n

/-- `DiagonalDerivative`, MultivariateExpansionWorker.h 221–254. -/
def diagonalDerivative (w : Worker) (cache : Cache K) (coeffs : List K) (derivOrder : Nat) : Res K :=
  if derivOrder = 0 ∨ derivOrder > 2 then .throw
  else do
    let numTerms ← w.multiSet.size
    diagLoop w cache coeffs derivOrder 0 0 numTerms

/-- Loop of `CoeffDerivative`, MultivariateExpansionWorker.h 275–284. -/
def coeffLoop (w : Worker) (cache : Cache K) (coeffs grad : List K) (f : K) (termInd : Nat) :
    Nat → Res (K × List K)
  | 0 => .ok (f, grad)
  | n + 1 => do
    let tv ← termVal w cache id (fun _ (u : Unit) => u) () termInd
    let c ← Res.idx coeffs termInd
    let grad' ← Res.setIdx grad termInd tv.1
    coeffLoop w cache coeffs grad' (f + tv.1 * c) (termInd + 1) n

/-- `CoeffDerivative`, MultivariateExpansionWorker.h 269–287. -/
def coeffDerivative (w : Worker) (cache : Cache K) (coeffs grad : List K) : Res (K × List K) := do
  let numTerms ← w.multiSet.size
  coeffLoop w cache coeffs grad 0 0 numTerms

/-- Cache block used by `InputDerivative`; `wrt = none` is `-1`. MultivariateExpansionWorker.h 313–317. -/
def inputSlot (w : Worker) (wrt : Option Nat) (d : Nat) : Nat :=
  if wrt = some d then w.dim + d else d

/-- Term loop of `InputDerivative` for one `wrt`, MultivariateExpansionWorker.h 307–326. -/
def inputTerms (w : Worker) (cache : Cache K) (coeffs : List K) (wrt : Option Nat) (f : K)
    (grad : List K) (termInd : Nat) : Nat → Res (K × List K)
  | 0 => .ok (f, grad)
  | n + 1 => do
    let tv ← termVal w cache (w.inputSlot wrt) (fun d h => h || wrt == some d) false termInd
    match wrt with
    | some e =>
      if tv.2 then do
        let c ← Res.idx coeffs termInd
        let g ← Res.idx grad e
        let grad' ← Res.setIdx grad e (g + tv.1 * c)
        inputTerms w cache coeffs wrt f grad' (termInd + 1) n
      else inputTerms w cache coeffs wrt f grad (termInd + 1) n
    | none => do
      let c ← Res.idx coeffs termInd
      inputTerms w cache coeffs wrt (f + tv.1 * c) grad (termInd + 1) n

/-- Loop over `wrt = e..e+n-1`, MultivariateExpansionWorker.h 301–327. -/
def inputWrt (w : Worker) (cache : Cache K) (coeffs : List K) (numTerms : Nat) (f : K)
    (grad : List K) (e : Nat) : Nat → Res (K × List K)
  | 0 => .ok (f, grad)
  | n + 1 => do
    let g0 ← Res.setIdx grad e 0
    let r ← inputTerms w cache coeffs (some e) f g0 0 numTerms
    inputWrt w cache coeffs numTerms r.1 r.2 (e + 1) n

/-- `InputDerivative`, MultivariateExpansionWorker.h 295–329. -/
def inputDerivative (w : Worker) (cache : Cache K) (coeffs grad : List K) : Res (K × List K) := do
  let numTerms ← w.multiSet.size
  let r ← inputTerms w cache coeffs none 0 grad 0 numTerms
  inputWrt w cache coeffs numTerms r.1 r.2 0 w.dim

/-- Cache block used by `MixedInputDerivative`, MultivariateExpansionWorker.h 357–369. -/
def mixedSlot (w : Worker) (wrt : Option Nat) (d : Nat) : Nat :=
  if d = w.dim - 1 then (if wrt = some (w.dim - 1) then 2 * w.dim else 2 * w.dim - 1)
  else if wrt = some d then w.dim + d else d

/-- Flags `(hasDeriv1, hasDeriv2)`, MultivariateExpansionWorker.h 361–366. -/
def mixedFlag (w : Worker) (wrt : Option Nat) (d : Nat) (h : Bool × Bool) : Bool × Bool :=
  if d = w.dim - 1 then (h.1 || wrt == some (w.dim - 1), true)
  else if wrt = some d then (true, h.2) else h

/-- Term loop of `MixedInputDerivative` for one `wrt`, MultivariateExpansionWorker.h 349–379. -/
def mixedTerms (w : Worker) (cache : Cache K) (coeffs : List K) (wrt : Option Nat) (df : K)
    (grad : List K) (termInd : Nat) : Nat → Res (K × List K)
  | 0 => .ok (df, grad)
  | n + 1 => do
    let tv ← termVal w cache (w.mixedSlot wrt) (w.mixedFlag wrt) (false, false) termInd
    match wrt with
    | some e =>
      if tv.2.1 && tv.2.2 then do
        let c ← Res.idx coeffs termInd
        let g ← Res.idx grad e
        let grad' ← Res.setIdx grad e (g + tv.1 * c)
        mixedTerms w cache coeffs wrt df grad' (termInd + 1) n
      else mixedTerms w cache coeffs wrt df grad (termInd + 1) n
    | none =>
      if tv.2.2 then do
        let c ← Res.idx coeffs termInd
        mixedTerms w cache coeffs wrt (df + tv.1 * c) grad (termInd + 1) n
      else mixedTerms w cache coeffs wrt df grad (termInd + 1) n

/-- Loop over `wrt = e..e+n-1`, MultivariateExpansionWorker.h 344–380. -/
def mixedWrt (w : Worker) (cache : Cache K) (coeffs : List K) (numTerms : Nat) (df : K)
    (grad : List K) (e : Nat) : Nat → Res (K × List K)
  | 0 => .ok (df, grad)
  | n + 1 => do
    let g0 ← Res.setIdx grad e 0
    let r ← mixedTerms w cache coeffs (some e) df g0 0 numTerms
    mixedWrt w cache coeffs numTerms r.1 r.2 (e + 1) n

/-- `MixedInputDerivative`, MultivariateExpansionWorker.h 337–382. -/
def mixedInputDerivative (w : Worker) (cache : Cache K) (coeffs grad : List K) : Res (K × List K) := do
  let numTerms ← w.multiSet.size
  let r ← mixedTerms w cache coeffs none 0 grad 0 numTerms
  mixedWrt w cache coeffs numTerms r.1 r.2 0 w.dim

/-- Loop of `MixedCoeffDerivative`, MultivariateExpansionWorker.h 404–425. -/
def mixedCoeffLoop (w : Worker) (cache : Cache K) (coeffs : List K) (derivOrder : Nat) (df : K)
    (grad : List K) (termInd : Nat) : Nat → Res (K × List K)
  | 0 => .ok (df, grad)
  | n + 1 => do
    let tv ← termVal w cache (w.diagSlot derivOrder) w.diagFlag false termInd
    if tv.2 then do
      let c ← Res.idx coeffs termInd
      let grad' ← Res.setIdx grad termInd tv.1
      mixedCoeffLoop w cache coeffs derivOrder (df + tv.1 * c) grad' (termInd + 1) n
    else do
      let grad' ← Res.setIdx grad termInd 0
      mixedCoeffLoop w cache coeffs derivOrder df grad' (termInd + 1) n

/-- `MixedCoeffDerivative`, MultivariateExpansionWorker.h 390–428. -/
def mixedCoeffDerivative (w : Worker) (cache : Cache K) (coeffs : List K) (derivOrder : Nat)
    (grad : List K) : Res (K × List K) :=
  if derivOrder = 0 ∨ derivOrder > 2 then .throw
  else do
    let numTerms ← w.multiSet.size
    mixedCoeffLoop w cache coeffs derivOrder 0 grad 0 numTerms

/-! ### `MultivariateExpansion`: the loop body executed for one point -/

/-- `Kokkos::subview(v, make_pair(a, b))`; a range beyond the extent is out of bounds. MultivariateExpansion.h 77. -/
def subview (l : List K) (a b : Nat) : Res (List K) :=
  if b ≤ l.length then .ok ((l.drop a).take (b - a)) else .ub

/-- Output loop of `EvaluateImpl`, MultivariateExpansion.h 74–83. -/
def mvEvalLoop (w : Worker) (cache : Cache K) (saved : List K) (numCoeffs : Nat) (coeffStart : Nat) :
    Nat → Res (List K)
  | 0 => .ok []
  | n + 1 => do
    let cs ← subview saved coeffStart (coeffStart + numCoeffs)
    let v ← evaluate w cache cs
    let rest ← mvEvalLoop w cache saved numCoeffs (coeffStart + numCoeffs) n
    return v :: rest

/-- Body of `MultivariateExpansion::EvaluateImpl` for one point, MultivariateExpansion.h 60–84.  The cache
is fresh scratch memory; the result is the column `output(:, ptInd)`. -/
def mvEvaluate (w : Worker) (b : Basis K) (saved : List K) (outputDim : Nat) (pt : List K) : Res (List K) := do
  let n ← w.multiSet.size
  let c ← fillCache1 w b (List.replicate w.cacheSize none) pt .none
  let xd ← Res.idx pt (pt.length - 1)
  let c ← fillCache2 w b c xd .none
  mvEvalLoop w c saved n 0 outputDim

/-- `output(i) += s * grad(i)` for `i < n`, MultivariateExpansion.h 137–138. -/
def axpyLoop (s : K) (grad : List K) (out : List K) (i : Nat) : Nat → Res (List K)
  | 0 => .ok out
  | n + 1 => do
    let g ← Res.idx grad i
    let o ← Res.idx out i
    let out' ← Res.setIdx out i (o + s * g)
    axpyLoop s grad out' (i + 1) n

/-- Output loop of `GradientImpl`, MultivariateExpansion.h 129–141. -/
def mvGradLoop (w : Worker) (cache : Cache K) (saved sens : List K) (numCoeffs inDim : Nat)
    (out grad : List K) (coeffStart d : Nat) : Nat → Res (List K)
  | 0 => .ok out
  | n + 1 => do
    let cs ← subview saved coeffStart (coeffStart + numCoeffs)
    let r ← inputDerivative w cache cs grad
    let s ← Res.idx sens d
    let out' ← axpyLoop s r.2 out 0 inDim
    mvGradLoop w cache saved sens numCoeffs inDim out' r.2 (coeffStart + numCoeffs) (d + 1) n

/-- Body of `MultivariateExpansion::GradientImpl` for one point, MultivariateExpansion.h 108–142. `grad0` is
the initial (arbitrary) contents of the scratch array `grad` of length `inDim = pts.extent(0)`. -/
def mvGradient (w : Worker) (b : Basis K) (saved : List K) (outputDim : Nat) (pt sens grad0 : List K) :
    Res (List K) := do
  let n ← w.multiSet.size
  let c ← fillCache1 w b (List.replicate w.cacheSize none) pt .input
  let xd ← Res.idx pt (pt.length - 1)
  let c ← fillCache2 w b c xd .input
  mvGradLoop w c saved sens n pt.length (List.replicate pt.length 0) grad0 0 0 outputDim

/-- `output(start + i) = s * grad(i)` for `i < n`, MultivariateExpansion.h 196–197. -/
def scaleLoop (s : K) (grad : List K) (out : List K) (start i : Nat) : Nat → Res (List K)
  | 0 => .ok out
  | n + 1 => do
    let g ← Res.idx grad i
    let out' ← Res.setIdx out (start + i) (s * g)
    scaleLoop s grad out' start (i + 1) n

/-- Output loop of `CoeffGradImpl`, MultivariateExpansion.h 188–200. -/
def mvCoeffLoop (w : Worker) (cache : Cache K) (saved sens : List K) (numCoeffs : Nat)
    (out grad : List K) (coeffStart d : Nat) : Nat → Res (List K)
  | 0 => .ok out
  | n + 1 => do
    let cs ← subview saved coeffStart (coeffStart + numCoeffs)
    let r ← coeffDerivative w cache cs grad
    let s ← Res.idx sens d
    let out' ← scaleLoop s r.2 out coeffStart 0 numCoeffs
    mvCoeffLoop w cache saved sens numCoeffs out' r.2 (coeffStart + numCoeffs) (d + 1) n

/-- Body of `MultivariateExpansion::CoeffGradImpl` for one point, MultivariateExpansion.h 169–202.
`out0` is the initial contents of `output(:, ptInd)`. -/
def mvCoeffGrad (w : Worker) (b : Basis K) (saved : List K) (outputDim : Nat) (pt sens grad0 out0 : List K) :
    Res (List K) := do
  let n ← w.multiSet.size
  let c ← fillCache1 w b (List.replicate w.cacheSize none) pt .parameters
  let xd ← Res.idx pt (pt.length - 1)
  let c ← fillCache2 w b c xd .parameters
  mvCoeffLoop w c saved sens n out0 grad0 0 0 outputDim

end Worker
end MParT
