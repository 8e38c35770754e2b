import Verif.Model.Distributions
/-!
# Model of training with an optimiser

Source: `src/TrainMap.cpp`, `CreateGaussianKLObjective` of `src/MapObjective.cpp`.

NLopt is arbitrary: an optimiser is a tree of questions. It asks for the value of the objective at a point, with or without gradient, continues
depending on the answer, and stops with a point and a value or fails.

Simplifications
* an `nlopt::opt` reports failures by exceptions (its default), so the code after `optimize` only sees results that are not negative;
* exceptions of the objective reach the caller through NLopt;
* without a gradient NLopt passes a null pointer, and `&grad(0)` refers to the first entry of an array that is not there. C++ leaves this
  undefined (`strict`); Kokkos takes a null pointer to mean that the result of the reduction is not wanted;
* what the gradient array contains before is arbitrary; only what is printed without `verbose` is left out.
-/
namespace MParT
namespace Train

/-- What an optimiser does next. The answer to a question is the value, `none` for not a number, and the gradient, empty if it was not wanted. NLopt library; `opt.optimize`, TrainMap.cpp 83. -/
inductive Opt
  | query (x : List ℝ) (wantGrad : Bool) (next : (value : Option ℝ) → (grad : List ℝ) → Opt)
  | stop (x : List ℝ) (f : Option ℝ) (result : Nat)
  | fail

/-- The arguments of `TrainMap`: the map, the objective with its training set, the algorithm named by `opt_alg` with the other options (`none` if
there is none of this name) and `verbose`. `split k` is the schedule of the reduction in call `k` of the objective, `garbage k` the content of the
gradient array. TrainMap.cpp 60. -/
structure Env where
  map : CMap
  density : Density
  train : List (List ℝ)
  alg : Option (List ℝ → Opt)
  verbose : Bool
  strict : Bool
  split : Nat → Parallel.Split
  garbage : Nat → List ℝ

/-- `MPART_NLOPT_SUCCESS_CODES`, TrainMap.cpp 7–15. -/
def successCodes : List String := ["UNDEFINED OPTIMIZATION RESULT", "Generic success", "stopval reached", "xtol reached", "xtol reached",
  "maxeval reached", "maxtime reached"]

/-- One call of the objective, TrainMap.cpp 26–30 and 75, MapObjective.cpp 5–11. -/
noncomputable def answer (env : Env) (k : Nat) (x : List ℝ) (wantGrad : Bool) : Res (Option ℝ × List ℝ) :=
  if wantGrad then KL.call env.map env.density x (env.garbage k) env.train (env.split k)
  else if env.strict then .ub
  else do
    let r ← KL.call env.map env.density x (List.replicate x.length 0) env.train (env.split k)
    .ok (r.1, [])

/-- `opt.optimize(mapCoeffsStd, error)`, TrainMap.cpp 83: the coefficients of the map afterwards, and the point, the value and the result code. `cur`
are the coefficients of the map, `k` counts the calls. -/
noncomputable def optimize (env : Env) : Opt → (k : Nat) → (cur : List ℝ) → List ℝ × Res (List ℝ × Option ℝ × Nat)
  | .stop x f result, _, cur => (cur, .ok (x, f, result))
  | .fail, _, cur => (cur, .throw)
  | .query x wantGrad next, k, cur =>
    let cur := if x.length = env.map.numCoeffs then x else cur
    match answer env k x wantGrad with
    | .ok r => optimize env (next r.1 r.2) (k + 1) cur
    | .throw => (cur, .throw)
    | .ub => (cur, .ub)

/-- The default coefficients, TrainMap.cpp 61–70. -/
def startCoeffs (m : CMap) (cur : List ℝ) : List ℝ := if cur.length = 0 then List.replicate m.numCoeffs 1 else cur

/-- `TrainMap(map, objective, options)`, TrainMap.cpp 60–103: the coefficients of the map afterwards and the result; `cur` are its coefficients
before, none if they were never set. NLopt rejects a starting point of the wrong length. -/
noncomputable def trainMap (env : Env) (cur : List ℝ) : List ℝ × Res (Option ℝ) :=
  let cur := startCoeffs env.map cur
  match env.alg with
  | none => (cur, .throw)
  | some alg =>
    if cur.length ≠ env.map.numCoeffs then (cur, .throw)
    else
      match optimize env (alg cur) 0 cur with
      | (cur, .ok (x, error, result)) =>
        if x.length = env.map.numCoeffs then
          if env.verbose then
            match Res.idx successCodes result with
            | .ok _ => (x, .ok error)
            | _ => (x, .ub)
          else (x, .ok error)
        else (cur, .throw)
      | (cur, .throw) => (cur, .throw)
      | (cur, .ub) => (cur, .ub)

/-- `CreateGaussianKLObjective(train, dim)`, MapObjective.cpp 38–43 and 45–50: the density of the objective; `rows` is `train.extent(0)`. -/
noncomputable def gaussianKLDensity (rows dim : Nat) : Density := (Gaussian.ofDim (if dim = 0 then rows else dim)).density

end Train
end MParT
