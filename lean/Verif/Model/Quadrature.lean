import Verif.Model.Res
import Mathlib.Analysis.SpecialFunctions.Trigonometric.Basic
import Mathlib.Analysis.SpecialFunctions.Sqrt
/-!
# Model of `ClenshawCurtisQuadrature`, `AdaptiveSimpson` and `AdaptiveClenshawCurtis`

Source: `MParT/Quadrature.h`.

Simplifications
* `double` arithmetic is exact real arithmetic; `std::numeric_limits<double>::epsilon()` is `2^-52`;
* a `double*` (workspace, `res`, points, weights) is a `Mem`: a size and a content; an access outside it is `ub`. Distinct
  pointers point to disjoint memory, pointers into the workspace are offsets into it;
* the integrand `f(x, double*)` is a function `f : ℝ → Nat → ℝ`: a call writes `f x 0, …, f x (fdim-1)`;
* `unsigned int` counters are natural numbers, except where the wrap-around of 32-bit arithmetic can be observed.
-/
namespace MParT
open Real

/-- Memory behind a `double*`. `workspace`, Quadrature.h 279. -/
structure Mem where
  size : Nat
  val : Nat → ℝ

namespace Mem

/-- `p[i]` read. E.g. Quadrature.h 618. -/
def read (m : Mem) (i : Nat) : Res ℝ := if i < m.size then .ok (m.val i) else .ub

/-- `p[i] = v`. E.g. Quadrature.h 618. -/
def write (m : Mem) (i : Nat) (v : ℝ) : Res Mem :=
  if i < m.size then .ok ⟨m.size, Function.update m.val i v⟩ else .ub

end Mem

/-- `for(k=i; k<i+n; ++k) body`. E.g. Quadrature.h 617. -/
def forLoop {σ : Type} (body : Nat → σ → Res σ) (i : Nat) : Nat → σ → Res σ
  | 0, s => .ok s
  | n + 1, s => do
    let s ← body i s
    forLoop body (i + 1) n s

/-- An integrand: component `i` at `x`. `f`, Quadrature.h 279–283. -/
abbrev Integrand := ℝ → Nat → ℝ

/-- `f(x, &ws[off])`: the call writes `fdim` entries. E.g. Quadrature.h 569. -/
def Integrand.call (f : Integrand) (fdim : Nat) (x : ℝ) (ws : Mem) (off : Nat) : Res Mem :=
  forLoop (fun i ws => ws.write (off + i) (f x i)) 0 fdim ws

/-- `p[j] = 0` for `j < n`. Quadrature.h 297–298, 558–560. -/
def zeroFill (n : Nat) (res : Mem) : Res Mem := forLoop (fun j res => res.write j 0) 0 n res

namespace ClenshawCurtis

/-- `4*(j+1)*(j+1) - 1` in 32-bit unsigned arithmetic, Quadrature.h 246. -/
def denom (j : Nat) : Nat := (4 * (j + 1) * (j + 1) + (2 ^ 32 - 1)) % 2 ^ 32

/-- One iteration of the inner weight loop, Quadrature.h 239–247. -/
noncomputable def weightStep (numPts i : Nat) (theta : ℝ) (j : Nat) (wts : Mem) : Res Mem := do
  let b : ℝ := if 2 * (j + 1) = numPts - 1 then 1 else 2
  let w ← wts.read i
  wts.write i (w - b * cos (2 * ((j : ℝ) + 1) * theta) / (denom j : ℝ))

/-- One iteration of the outer weight loop, Quadrature.h 235–248. -/
noncomputable def weightRow (numPts i : Nat) (wts : Mem) : Res Mem := do
  let wts ← wts.write i 1
  let theta := (i : ℝ) * π / ((numPts - 1 : Nat) : ℝ)
  forLoop (weightStep numPts i theta) 0 ((numPts - 1) / 2) wts

/-- The points, Quadrature.h 223–231. -/
noncomputable def points (numPts : Nat) (pts : Mem) : Res Mem := do
  let pts ← forLoop (fun i pts =>
    pts.write i (cos (((numPts - (i + 1) : Nat) : ℝ) * π / ((numPts - 1 : Nat) : ℝ)))) 0 numPts pts
  let pts ← pts.write 0 (-1)
  let pts ← if numPts % 2 = 1 then pts.write ((numPts - 1) / 2) 0 else .ok pts
  pts.write (numPts - 1) 1

/-- The weights, Quadrature.h 233–255. -/
noncomputable def weights (numPts : Nat) (wts : Mem) : Res Mem := do
  let wts ← forLoop (weightRow numPts) 0 numPts wts
  let w ← wts.read 0
  let wts ← wts.write 0 (w / ((numPts : ℝ) - 1))
  let wts ← forLoop (fun i wts => do
    let w ← wts.read i
    wts.write i (2 * w / ((numPts : ℝ) - 1))) 1 (numPts - 2) wts
  let w ← wts.read (numPts - 1)
  wts.write (numPts - 1) (w / ((numPts : ℝ) - 1))

/-- `GetRule(numPts, wts, pts)`, Quadrature.h 210–256: new contents of `wts` and `pts`. -/
noncomputable def getRule (numPts : Nat) (wts pts : Mem) : Res (Mem × Mem) := do
  if numPts = 0 then return (wts, pts)
  else if numPts = 1 then
    let pts ← pts.write 0 0
    let wts ← wts.write 0 2
    return (wts, pts)
  else
    let pts ← points numPts pts
    let wts ← weights numPts wts
    return (wts, pts)

/-- `15.0*std::numeric_limits<double>::epsilon()`, Quadrature.h 287. -/
noncomputable def midpointTol : ℝ := 15 * (2 : ℝ)⁻¹ ^ 52

/-- `Integrate(workspace, f, lb, ub, res)` with `pts_`, `wts_` and `fdim_`, Quadrature.h 278–309: new contents of the
workspace and of `res`. -/
noncomputable def integrate (pts wts : Mem) (fdim : Nat) (ws : Mem) (f : Integrand) (lb ub : ℝ) (res : Mem) :
    Res (Mem × Mem) := by
  classical exact
  if ub - lb < midpointTol then do
    let res ← f.call fdim (0.5 * (ub + lb)) res 0
    let res ← forLoop (fun i res => do
      let r ← res.read i
      res.write i (r * (ub - lb))) 0 fdim res
    return (ws, res)
  else do
    let res ← zeroFill fdim res
    forLoop (fun i (st : Mem × Mem) => do
      let p ← pts.read i
      let ws ← f.call fdim (0.5 * (ub + lb + (ub - lb) * p)) st.1 0
      let res ← forLoop (fun j res => do
        let r ← res.read j
        let w ← wts.read i
        let v ← ws.read j
        res.write j (r + 0.5 * (ub - lb) * w * v)) 0 fdim st.2
      return (ws, res)) 0 pts.size (ws, res)

end ClenshawCurtis

/-- `QuadError::Type`, Quadrature.h. Quadrature.h 24–29. -/
inductive QuadError where
  | first
  | normInf
  | norm2
  | norm1

/-- The members of `RecursiveQuadratureBase` used by `Integrate`, Quadrature.h 91, 481–486. -/
structure Recursive where
  fdim : Nat
  maxSub : Nat
  minSub : Nat
  absTol : ℝ
  relTol : ℝ
  errorMetric : QuadError

namespace Recursive

/-- `EstimateError(&ws[coarse], &ws[fine], error, tol)`, Quadrature.h 439–479: `(error, tol)`. -/
noncomputable def estimateError (q : Recursive) (ws : Mem) (coarse fine : Nat) : Res (ℝ × ℝ) := do
  let (error, ref) ← match q.errorMetric with
    | .first => do
      let fv ← ws.read fine
      let cv ← ws.read coarse
      pure (|fv - cv|, |cv|)
    | .normInf =>
      forLoop (fun i (s : ℝ × ℝ) => do
        let fv ← ws.read (fine + i)
        let cv ← ws.read (coarse + i)
        pure (max s.1 |fv - cv|, max s.2 |cv|)) 0 q.fdim (0, 0)
    | .norm2 => do
      let s ← forLoop (fun i (s : ℝ × ℝ) => do
        let fv ← ws.read (fine + i)
        let cv ← ws.read (coarse + i)
        pure (s.1 + (fv - cv) * (fv - cv), s.2 + cv * cv)) 0 q.fdim (0, 0)
      pure (√s.1, √s.2)
    | .norm1 =>
      forLoop (fun i (s : ℝ × ℝ) => do
        let fv ← ws.read (fine + i)
        let cv ← ws.read (coarse + i)
        pure (s.1 + |fv - cv|, s.2 + |cv|)) 0 q.fdim (0, 0)
  return (error, max (q.relTol * ref) q.absTol)

/-- The pointers `leftFunc`, `midFunc`, `rightFunc`, as offsets into the workspace (`midFunc` is not carried over
between iterations by `AdaptiveClenshawCurtis`). Quadrature.h 568–575 and 835–850. -/
structure Ptrs where
  left : Nat
  mid : Nat
  right : Nat

/-- What distinguishes the two adaptive rules: `workStartInd` of a level; the part of the loop body up to the error
estimate, which fills the integrals at offsets `3*fdim` and `4*fdim` and computes `midPt`; the pointers on moving to the left
half; and `UpdateValues`. Quadrature.h 551–712 and 817–1002. -/
structure Scheme where
  start : Nat → Nat
  node : Ptrs → Nat → Mem → Res (Mem × ℝ)
  down : Ptrs → Nat → Ptrs
  updateValues : Nat → BitVec 32 → Res Ptrs

/-- `while(((currSegment >> currLevel) & 1U)&&(currLevel>0))`, Quadrature.h 634–637 and 924–927; a shift by 32 or more is
undefined. -/
def backtrack (seg : BitVec 32) : Nat → Res (BitVec 32 × Nat)
  | 0 => .ok (seg, 0)
  | l + 1 =>
    if 32 ≤ l + 1 then .ub
    else if seg.getLsbD (l + 1) then backtrack (seg &&& ~~~(1#32 <<< (l + 1))) l
    else .ok (seg, l + 1)

/-- The local variables of `Integrate` that live across iterations. Quadrature.h 562–594 and 828–857. -/
structure State where
  ws : Mem
  res : Mem
  level : Nat
  seg : BitVec 32
  ptrs : Ptrs
  workStart : Nat

/-- The test of Quadrature.h 627 and 917; `maxSub_-1` wraps around at 0. -/
noncomputable def accept (q : Recursive) (lb ub error errorTol : ℝ) (level : Nat) : Prop :=
  ((error < errorTol ∨ level = (q.maxSub + (2 ^ 32 - 1)) % 2 ^ 32) ∧ level ≥ q.minSub) ∨ |ub - lb| < 1e-14

/-- The `while(true)` loop, Quadrature.h 596–673 and 859–964, run for at most the given number of iterations; `none`: it
has not stopped by then. -/
noncomputable def loop (q : Recursive) (S : Scheme) (lb ub : ℝ) : Nat → State → Res (Option (Mem × Mem))
  | 0, _ => .ok none
  | fuel + 1, st => by
    classical exact do
    let (ws, midPt) ← S.node st.ptrs st.workStart st.ws
    let (error, errorTol) ← q.estimateError ws (3 * q.fdim) (4 * q.fdim)
    if q.accept lb ub error errorTol st.level then
      let res ← forLoop (fun i (res : Mem) => do
        let r ← res.read i
        let v ← ws.read (4 * q.fdim + i)
        res.write i (r + v)) 0 q.fdim st.res
      let (seg, level) ← backtrack st.seg st.level
      if level = 0 then return some (ws, res)
      else
        if 32 ≤ level then Res.ub else
        let seg := seg ||| (1#32 <<< level)
        let workStart := S.start level
        let prevStart := S.start (level - 1)
        let a ← ws.read prevStart
        let b ← ws.read (prevStart + 1)
        let ws ← ws.write workStart (0.5 * (a + b))
        let b ← ws.read (prevStart + 1)
        let ws ← ws.write (workStart + 1) b
        let ptrs ← S.updateValues level seg
        loop q S lb ub fuel ⟨ws, res, level, seg, ptrs, workStart⟩
    else
      let level := st.level + 1
      let ptrs := S.down st.ptrs st.workStart
      let workStart := S.start level
      let a ← ws.read st.workStart
      let ws ← ws.write workStart a
      let ws ← ws.write (workStart + 1) midPt
      loop q S lb ub fuel ⟨ws, st.res, level, st.seg, ptrs, workStart⟩

end Recursive

namespace AdaptiveSimpson
open Recursive

/-- `GetWorkspaceSize`, Quadrature.h 518. -/
def workspaceSize (maxSub fdim : Nat) : Nat := (2 * maxSub + 5) * fdim + 2 * maxSub

/-- `workStartInd`, Quadrature.h 591, 648, 669. -/
def start (fdim level : Nat) : Nat := (2 * level + 5) * fdim + 2 * level

/-- Loop body up to the error estimate, Quadrature.h 599–621. -/
noncomputable def node (fdim : Nat) (f : Integrand) (p : Ptrs) (workStart : Nat) (ws : Mem) : Res (Mem × ℝ) := do
  let l ← ws.read workStart
  let r ← ws.read (workStart + 1)
  let midPt := 0.5 * (l + r)
  let leftMidPt := 0.5 * (l + midPt)
  let rightMidPt := 0.5 * (midPt + r)
  let ws ← f.call fdim leftMidPt ws (workStart + 2)
  let ws ← f.call fdim rightMidPt ws (workStart + 2 + fdim)
  let ws ← forLoop (fun i (ws : Mem) => do
    let l ← ws.read workStart
    let r ← ws.read (workStart + 1)
    let fl ← ws.read (p.left + i)
    let fm ← ws.read (p.mid + i)
    let fr ← ws.read (p.right + i)
    let flm ← ws.read (workStart + 2 + i)
    let frm ← ws.read (workStart + 2 + fdim + i)
    let ws ← ws.write (3 * fdim + i) ((r - l) / 6 * (fl + 4 * fm + fr))
    let ws ← ws.write (4 * fdim + i) ((midPt - l) / 6 * (fl + 4 * flm + fm))
    let s ← ws.read (4 * fdim + i)
    ws.write (4 * fdim + i) (s + (r - midPt) / 6 * (fm + 4 * frm + fr))) 0 fdim ws
  return (ws, midPt)

/-- `UpdateValues`, Quadrature.h 696–712. -/
def updateValues (fdim currLevel : Nat) (seg : BitVec 32) : Res Ptrs :=
  forLoop (fun level (p : Ptrs) =>
    if 32 ≤ level + 1 then .ub
    else if seg.getLsbD (level + 1) then
      .ok { p with left := p.mid, mid := (2 * level + 5 + 1) * fdim + 2 * level + 2 }
    else .ok { p with right := p.mid, mid := (2 * level + 5) * fdim + 2 * level + 2 }) 0 currLevel
    ⟨0, 2 * fdim, fdim⟩

/-- The pieces of `AdaptiveSimpson`; `rightFunc = midFunc; midFunc = leftMidFunc`, Quadrature.h 666–667. -/
noncomputable def scheme (fdim : Nat) (f : Integrand) : Scheme where
  start := start fdim
  node := node fdim f
  down := fun p workStart => ⟨p.left, workStart + 2, p.mid⟩
  updateValues := updateValues fdim

/-- `AdaptiveSimpson::Integrate(workspace, f, lb, ub, res)`, Quadrature.h 551–674. -/
noncomputable def integrate (q : Recursive) (ws : Mem) (f : Integrand) (lb ub : ℝ) (res : Mem) (fuel : Nat) :
    Res (Option (Mem × Mem)) := do
  let res ← zeroFill q.fdim res
  let midPt := 0.5 * (lb + ub)
  let ws ← f.call q.fdim lb ws 0
  let ws ← f.call q.fdim ub ws q.fdim
  let ws ← f.call q.fdim midPt ws (2 * q.fdim)
  let ws ← ws.write (5 * q.fdim) lb
  let ws ← ws.write (5 * q.fdim + 1) ub
  q.loop (scheme q.fdim f) lb ub fuel ⟨ws, res, 0, 0, ⟨0, 2 * q.fdim, q.fdim⟩, 5 * q.fdim⟩

end AdaptiveSimpson

/-- `coarsePts_`, `coarseWts_`, `finePts_`, `fineWts_`, Quadrature.h 1005. -/
structure NestedRule where
  coarsePts : Mem
  coarseWts : Mem
  finePts : Mem
  fineWts : Mem

namespace AdaptiveClenshawCurtis
open Recursive

/-- A freshly allocated (zero-filled) Kokkos view of `n` entries. Quadrature.h 1009–1044. -/
def view (n : Nat) : Mem := ⟨n, fun _ => 0⟩

/-- Constructor taking a level, Quadrature.h 1009–1044 and 1048–1085 (host space): a failing `assert` is `throw`. -/
noncomputable def new (level : Nat) : Res NestedRule := do
  if 2 ^ level + 1 ≥ 3 then
    let c ← ClenshawCurtis.getRule (2 ^ level + 1) (view (2 ^ level + 1)) (view (2 ^ level + 1))
    let r ← ClenshawCurtis.getRule (2 ^ (level + 1) + 1) (view (2 ^ (level + 1) + 1)) (view (2 ^ (level + 1) + 1))
    return ⟨c.2, c.1, r.2, r.1⟩
  else Res.throw

/-- Constructor taking views, Quadrature.h 760–781: `level` is the rounded-down `log2(coarsePts.extent(0)-2)`. -/
noncomputable def ofViews (v : NestedRule) : Res NestedRule := do
  let level := Nat.log 2 (v.coarsePts.size - 2)
  if 2 ^ level + 1 ≥ 3 then
    let c ← ClenshawCurtis.getRule (2 ^ level + 1) v.coarseWts v.coarsePts
    let r ← ClenshawCurtis.getRule (2 ^ (level + 1) + 1) v.fineWts v.finePts
    return ⟨c.2, c.1, r.2, r.1⟩
  else Res.throw

/-- `GetWorkspaceSize`, Quadrature.h 784. -/
def workspaceSize (maxSub fdim : Nat) : Nat := (maxSub + 5) * fdim + 2 * maxSub

/-- `workStartInd`, Quadrature.h 852, 938, 958. -/
def start (fdim level : Nat) : Nat := (level + 5) * fdim + 2 * level

/-- Body of the two loops over the interior coarse points, Quadrature.h 890–904. -/
noncomputable def coarseStep (r : NestedRule) (fdim : Nat) (f : Integrand) (midPt scale : ℝ) (i : Nat) (ws : Mem) :
    Res Mem := do
  let x ← r.coarsePts.read i
  let ws ← f.call fdim (midPt + scale * x) ws (2 * fdim)
  forLoop (fun j (ws : Mem) => do
    let c ← ws.read (3 * fdim + j)
    let w ← r.coarseWts.read i
    let v ← ws.read (2 * fdim + j)
    let ws ← ws.write (3 * fdim + j) (c + scale * w * v)
    let s ← ws.read (4 * fdim + j)
    let w ← r.fineWts.read (2 * i)
    let v ← ws.read (2 * fdim + j)
    ws.write (4 * fdim + j) (s + scale * w * v)) 0 fdim ws

/-- Body of the loop over the points of the fine rule only, `i = 2*k+1`, Quadrature.h 907–911. -/
noncomputable def fineStep (r : NestedRule) (fdim : Nat) (f : Integrand) (midPt scale : ℝ) (k : Nat) (ws : Mem) :
    Res Mem := do
  let x ← r.finePts.read (2 * k + 1)
  let ws ← f.call fdim (midPt + scale * x) ws (2 * fdim)
  forLoop (fun j (ws : Mem) => do
    let s ← ws.read (4 * fdim + j)
    let w ← r.fineWts.read (2 * k + 1)
    let v ← ws.read (2 * fdim + j)
    ws.write (4 * fdim + j) (s + scale * w * v)) 0 fdim ws

/-- Contributions of the end points and the mid point, Quadrature.h 879–887. -/
noncomputable def endStep (r : NestedRule) (fdim : Nat) (p : Ptrs) (midFunc : Nat) (scale : ℝ) (i : Nat) (ws : Mem) :
    Res Mem := do
  let coarseRight := r.coarseWts.size - 1
  let coarseMid := coarseRight / 2
  let fineRight := r.fineWts.size - 1
  let fineMid := fineRight / 2
  let fl ← ws.read (p.left + i)
  let fm ← ws.read (midFunc + i)
  let fr ← ws.read (p.right + i)
  let w ← r.coarseWts.read 0
  let ws ← ws.write (3 * fdim + i) (scale * w * fl)
  let c ← ws.read (3 * fdim + i)
  let w ← r.coarseWts.read coarseMid
  let ws ← ws.write (3 * fdim + i) (c + scale * w * fm)
  let c ← ws.read (3 * fdim + i)
  let w ← r.coarseWts.read coarseRight
  let ws ← ws.write (3 * fdim + i) (c + scale * w * fr)
  let w ← r.fineWts.read 0
  let ws ← ws.write (4 * fdim + i) (scale * w * fl)
  let c ← ws.read (4 * fdim + i)
  let w ← r.fineWts.read fineMid
  let ws ← ws.write (4 * fdim + i) (c + scale * w * fm)
  let c ← ws.read (4 * fdim + i)
  let w ← r.fineWts.read fineRight
  ws.write (4 * fdim + i) (c + scale * w * fr)

/-- Loop body up to the error estimate, Quadrature.h 864–911. -/
noncomputable def node (r : NestedRule) (fdim : Nat) (f : Integrand) (p : Ptrs) (workStart : Nat) (ws : Mem) :
    Res (Mem × ℝ) := do
  let a ← ws.read workStart
  let b ← ws.read (workStart + 1)
  let midPt := 0.5 * (a + b)
  let scale := 0.5 * (b - a)
  let ws ← f.call fdim midPt ws (workStart + 2)
  let coarseRight := r.coarseWts.size - 1
  let coarseMid := coarseRight / 2
  let ws ← forLoop (endStep r fdim p (workStart + 2) scale) 0 fdim ws
  let ws ← forLoop (coarseStep r fdim f midPt scale) 1 (coarseMid - 1) ws
  let ws ← forLoop (coarseStep r fdim f midPt scale) (coarseMid + 1) (coarseRight - (coarseMid + 1)) ws
  let ws ← forLoop (fineStep r fdim f midPt scale) 0 (r.finePts.size / 2) ws
  return (ws, midPt)

/-- `UpdateValues`, Quadrature.h 988–1002. -/
def updateValues (fdim currLevel : Nat) (seg : BitVec 32) : Res Ptrs :=
  forLoop (fun level (p : Ptrs) =>
    if 32 ≤ level + 1 then .ub
    else if seg.getLsbD (level + 1) then .ok { p with left := (level + 5) * fdim + 2 * (level + 1) }
    else .ok { p with right := (level + 5) * fdim + 2 * (level + 1) }) 0 currLevel ⟨0, 2 * fdim, fdim⟩

/-- The pieces of `AdaptiveClenshawCurtis`; `rightFunc = midFunc`, Quadrature.h 956. -/
noncomputable def scheme (r : NestedRule) (fdim : Nat) (f : Integrand) : Scheme where
  start := start fdim
  node := node r fdim f
  down := fun p workStart => { p with right := workStart + 2 }
  updateValues := updateValues fdim

/-- `AdaptiveClenshawCurtis::Integrate(workspace, f, lb, ub, res)`, Quadrature.h 817–966. -/
noncomputable def integrate (q : Recursive) (r : NestedRule) (ws : Mem) (f : Integrand) (lb ub : ℝ) (res : Mem)
    (fuel : Nat) : Res (Option (Mem × Mem)) := do
  let res ← zeroFill q.fdim res
  let ws ← f.call q.fdim lb ws 0
  let ws ← f.call q.fdim ub ws q.fdim
  let ws ← ws.write (5 * q.fdim) lb
  let ws ← ws.write (5 * q.fdim + 1) ub
  q.loop (scheme r q.fdim f) lb ub fuel ⟨ws, res, 0, 0, ⟨0, 2 * q.fdim, q.fdim⟩, 5 * q.fdim⟩

end AdaptiveClenshawCurtis
end MParT
