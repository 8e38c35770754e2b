import Verif.Spec.MISetHist
import Verif.Model.TrainAdaptive
/-!
# Specification: histories of adaptive training

A history lists the maps that were trained, newest first: for each the terms of its components and its test error.
-/
namespace MParT
namespace Spec
open MultiIndex

/-- A map that was trained: the terms of each of its components, and its test error. -/
structure Visit where
  sets : List (List (List Nat))
  err : ℝ

/-- Number of terms of all the components. -/
def total (S : List (List (List Nat))) : Nat := (S.map List.length).sum

/-- `S'` is `S` with one term `w` more in one component `b`. The term is in the reduced margin of the component: it is not
among its terms, is accepted by the limiter of the component, comes directly after one of the terms and all its backward
neighbours are terms. If maximum degrees are given, every entry of `w` is below the one given for its variable. -/
def Grows (maxDegrees : List Nat) (lims : List (MultiIndex → Bool)) (S S' : List (List (List Nat))) : Prop :=
  ∃ (b : Nat) (ts : List (List Nat)) (lim : MultiIndex → Bool) (w : List Nat),
    S[b]? = some ts ∧ lims[b]? = some lim ∧ S' = S.set b (ts ++ [w]) ∧
    w ∉ ts ∧ lim (ofVec w) = true ∧ (∃ t ∈ ts, Fwd t w) ∧ (∀ v, Fwd v w → v ∈ ts) ∧
    (maxDegrees ≠ [] → ∀ (i x : Nat), w[i]? = some x → ∃ y : Nat, maxDegrees[i]? = some y ∧ x < y)

/-- The histories that start from components with terms `S0` and test error `err0`. `testError k sets` is the error that was
measured after step `k`. -/
inductive History (maxDegrees : List Nat) (lims : List (MultiIndex → Bool)) (testError : Nat → List MISet → ℝ)
    (S0 : List (List (List Nat))) (err0 : ℝ) : List Visit → Prop
  | start : History maxDegrees lims testError S0 err0 [⟨S0, err0⟩]
  | step {v : Visit} {h : List Visit} {S' : List (List (List Nat))} {e : ℝ} :
      History maxDegrees lims testError S0 err0 (v :: h) → Grows maxDegrees lims v.sets S' →
      (∃ ms, List.Forall₂ MISet.Terms ms S' ∧ e = testError h.length ms) →
      History maxDegrees lims testError S0 err0 (⟨S', e⟩ :: v :: h)

/-- One constant term in each of `m` components of `n, n+1, …` variables. -/
def constants (n : Nat) : Nat → List (List (List Nat))
  | 0 => []
  | m + 1 => [List.replicate n 0] :: constants (n + 1) m

end Spec
end MParT
