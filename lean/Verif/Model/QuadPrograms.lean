import Verif.Model.MonotoneComponent
import Verif.Model.Quadrature
/-!
# The quadratures as programs that call an integrand with side effects

Source: `MParT/Quadrature.h`. `Model/Quadrature.lean` follows the code of the quadratures statement by statement for
integrands without side effects. Here the same quadratures on `[0,1]` are programs (`QProg`) that call the integrand of a
monotone component; that both compute the same numbers is proved (`C39_simpson`, `C39_adaptiveCC`, `C39_clenshawCurtis`).
Simplification: the values at points shared by an interval and its halves are computed again rather than kept.
-/
namespace MParT.QProg

/-- Call the integrand (with `n` outputs) at every point of the list. Quadrature.h 304–305, 609–614. -/
noncomputable def evalAll (n : Nat) : List ℝ → (List (List ℝ) → QProg) → QProg
  | [], k => k []
  | t :: ts, k => call t (List.replicate n 0) fun o => evalAll n ts fun os => k (o :: os)

/-- `Σ_i w_i o_i`, for each of the `n` outputs. Quadrature.h 306–307, 617–621. -/
noncomputable def comb (n : Nat) (ws : List ℝ) (os : List (List ℝ)) : List ℝ :=
  (List.range n).map fun j => (List.zipWith (fun w o => w * o.getD j 0) ws os).sum

open Classical in
/-- The adaptive loop of Quadrature.h 596–673 and 859–964 on an interval: `rule a b` lists the points of both estimates
with their weights in the coarse and in the fine one; the estimates of the first output are compared
(`QuadError::First`); `acc` is the result so far. -/
noncomputable def adaptive (n : Nat) (rule : ℝ → ℝ → List (ℝ × ℝ × ℝ)) (stop : Nat → ℝ → ℝ → Prop) :
    Nat → Nat → ℝ → ℝ → List ℝ → (List ℝ → QProg) → QProg
  | 0, _, a, b, acc, k => evalAll n ((rule a b).map (·.1)) fun os =>
      k (List.zipWith (· + ·) acc (comb n ((rule a b).map (·.2.2)) os))
  | d + 1, level, a, b, acc, k => evalAll n ((rule a b).map (·.1)) fun os =>
      if stop level ((comb n ((rule a b).map (·.2.1)) os).getD 0 0) ((comb n ((rule a b).map (·.2.2)) os).getD 0 0) then
        k (List.zipWith (· + ·) acc (comb n ((rule a b).map (·.2.2)) os))
      else adaptive n rule stop d (level + 1) a ((a + b) / 2) acc fun acc =>
        adaptive n rule stop d (level + 1) ((a + b) / 2) b acc k

/-- The test of Quadrature.h 439–479 and 627 for `QuadError::First`, given the coarse and the fine estimate. -/
def stopFirst (q : Recursive) (level : Nat) (c f : ℝ) : Prop := |f - c| < max (q.relTol * |c|) q.absTol ∧ q.minSub ≤ level

/-- Points and weights of Simpson's rule on `[a,b]` and on its halves, Quadrature.h 604–621. -/
noncomputable def simpsonRule (a b : ℝ) : List (ℝ × ℝ × ℝ) :=
  let m := (a + b) / 2
  [(a, (b - a) / 6, (b - a) / 12), ((a + m) / 2, 0, (b - a) / 12 * 4), (m, (b - a) / 6 * 4, (b - a) / 12 * 2),
    ((m + b) / 2, 0, (b - a) / 12 * 4), (b, (b - a) / 6, (b - a) / 12)]

/-- `AdaptiveSimpson` on `[0,1]` after `SetDim(n)`, Quadrature.h 551–674. -/
noncomputable def simpson (q : Recursive) (n : Nat) : QProg :=
  adaptive n simpsonRule (stopFirst q) (q.maxSub - 1) 0 0 1 (List.replicate n 0) done

/-- The rule with the given points and weights on `[-1,1]`, moved to `[a,b]`. Quadrature.h 304–307, 864–911. -/
noncomputable def moved (n : Nat) (p w : Nat → ℝ) (a b : ℝ) : List (ℝ × ℝ) :=
  (List.range n).map fun i => ((a + b) / 2 + (b - a) / 2 * p i, (b - a) / 2 * w i)

/-- Points and weights of the two nested rules, Quadrature.h 864–911. -/
noncomputable def nestedRule (r : NestedRule) (a b : ℝ) : List (ℝ × ℝ × ℝ) :=
  (moved r.coarsePts.size r.coarsePts.val r.coarseWts.val a b).map (fun p => (p.1, p.2, 0)) ++
    (moved r.finePts.size r.finePts.val r.fineWts.val a b).map fun p => (p.1, 0, p.2)

/-- `AdaptiveClenshawCurtis` on `[0,1]` after `SetDim(n)`, Quadrature.h 817–966. -/
noncomputable def adaptiveCC (q : Recursive) (r : NestedRule) (n : Nat) : QProg :=
  adaptive n (nestedRule r) (stopFirst q) (q.maxSub - 1) 0 0 1 (List.replicate n 0) done

/-- `ClenshawCurtisQuadrature` on `[0,1]` after `SetDim(n)`, Quadrature.h 278–309. -/
noncomputable def clenshawCurtis (pts wts : Mem) (n : Nat) : QProg :=
  ofRule n (moved pts.size pts.val wts.val 0 1) (List.replicate n 0)

end MParT.QProg
