import Verif.Spec.TrainAdaptive
import Verif.Spec.FixedHist
import Verif.Model.TrainAdaptiveCoeffs
/-!
# Specification: the maps that adaptive training goes through

A history lists the maps that were trained, newest first, with their coefficients after training.
-/
namespace MParT
namespace Spec
open ATM.Full

/-- A map that was trained: the terms of each of its components, its components with the coefficients after training, and its test error. -/
structure Trained where
  sets : List (List (List Nat))
  blocks : List Block
  err : ℝ

/-- The components have the terms `S`, and as many coefficients as terms. -/
def Made (bs : List Block) (S : List (List (List Nat))) : Prop :=
  List.Forall₂ (fun b ts => FixedSet.Holds b.set ts ∧ b.coeffs.length = ts.length) bs S

/-- All the coefficients are zero. -/
def AllZero (bs : List Block) : Prop := ∀ b ∈ bs, ∀ x ∈ b.coeffs, x = 0

/-- `bs'` are the components `bs` of a map after its coefficients were set to `x`. -/
def Assigned (bs : List Block) (x : List ℝ) (bs' : List Block) : Prop :=
  bs'.map Block.set = bs.map Block.set ∧ bs'.map (fun b => b.coeffs.length) = bs.map (fun b => b.coeffs.length) ∧ (bs'.map Block.coeffs).flatten = x

/-- The components `new`, with terms `S'`, take over from the components `old`, with terms `S`: a component with the same terms is kept, with its
coefficients; the coefficients of one with other terms are made from the old ones by `restart`. -/
def TakesOver (restart : List ℝ → List ℝ) (S S' : List (List (List Nat))) (old new : List Block) : Prop :=
  ∀ (i : Nat) (a b : Block), old[i]? = some a → new[i]? = some b → (S'[i]? = S[i]? → b = a) ∧ (S'[i]? ≠ S[i]? → b.coeffs = restart a.coeffs)

/-- The histories of training that start from components with terms `S0` and zero coefficients; each further map has one term more and takes over from
the map before it. -/
inductive Trainings (restart : List ℝ → List ℝ) (env : Env) (maxDegrees : List Nat) (lims : List (MultiIndex → Bool))
    (S0 : List (List (List Nat))) : List Trained → Prop
  | start {bs bs' : List Block} {x : List ℝ} : Made bs S0 → AllZero bs → env.train 0 bs = .ok x → Assigned bs x bs' →
      Trainings restart env maxDegrees lims S0 [⟨S0, bs', env.testError bs'⟩]
  | step {v : Trained} {h : List Trained} {S' : List (List (List Nat))} {bs bs' : List Block} {x : List ℝ} :
      Trainings restart env maxDegrees lims S0 (v :: h) → Grows maxDegrees lims v.sets S' → Made bs S' → TakesOver restart v.sets S' v.blocks bs →
      env.train (h.length + 1) bs = .ok x → Assigned bs x bs' →
      Trainings restart env maxDegrees lims S0 (⟨S', bs', env.testError bs'⟩ :: v :: h)

/-- What it means to continue training when a term was added: the coefficients so far, and zero for the new term. -/
def goOn (c : List ℝ) : List ℝ := c ++ [0]

/-- What it means to begin again when a term was added: only zeros. -/
def beginAgain (c : List ℝ) : List ℝ := List.replicate (c.length + 1) 0

/-- What adding a term with coefficient zero to component `i` of a map means: the objective cannot tell. -/
def IgnoresZeros (F : List Block → ℝ) : Prop :=
  ∀ (bs : List Block) (i : Nat) (b : Block) (f : FixedSet), bs[i]? = some b → F (bs.set i ⟨f, goOn b.coeffs⟩) = F bs

/-- The optimiser never makes things worse. -/
def NeverWorse (env : Env) (F : List Block → ℝ) : Prop :=
  ∀ (k : Nat) (bs bs' : List Block) (x : List ℝ), env.train k bs = .ok x → Assigned bs x bs' → F bs' ≤ F bs

/-- No entry of `w` reaches the maximum degree of its variable, if maximum degrees are given. -/
def Allowed (maxDegrees : List Nat) (w : List Nat) : Prop :=
  maxDegrees ≠ [] → ∀ (i x : Nat), w[i]? = some x → ∃ y : Nat, maxDegrees[i]? = some y ∧ x < y

/-- Where the candidates of component `b` begin among the coefficients of a map whose components have the terms `S` followed by the candidates. -/
def place (S cands : List (List (List Nat))) (b : Nat) : Nat := total ((List.zipWith (· ++ ·) S cands).take b) + (S.getD b []).length

/-- The terms `S'` come from those of the map `u` by adding the best candidate. The candidates of a component are the terms of its reduced margin; `front` is
the map `u` with all the candidates added, with coefficient zero; the term that was added is a candidate for which the derivative of the training error of
`front` is not zero, and no candidate that is allowed has a larger one in absolute value. -/
def Chosen (env : Env) (maxDegrees : List Nat) (lims : List (MultiIndex → Bool)) (u : Trained) (S' : List (List (List Nat))) : Prop :=
  ∃ (cands : List (List (List Nat))) (front : List Block) (b j : Nat) (ts cs : List (List Nat)) (w : List Nat) (g : ℝ),
    cands.length = u.sets.length ∧
    (∀ (i : Nat) (ts cs : List (List Nat)) (lim : MultiIndex → Bool), u.sets[i]? = some ts → cands[i]? = some cs → lims[i]? = some lim →
      cs.Nodup ∧ ∀ w, w ∈ cs ↔ w ∉ ts ∧ lim (MultiIndex.ofVec w) = true ∧ (∃ t ∈ ts, Fwd t w) ∧ ∀ v, Fwd v w → v ∈ ts) ∧
    Made front (List.zipWith (· ++ ·) u.sets cands) ∧
    (∀ (i : Nat) (a f : Block) (cs : List (List Nat)), u.blocks[i]? = some a → front[i]? = some f → cands[i]? = some cs →
      f.coeffs = a.coeffs ++ List.replicate cs.length 0) ∧
    u.sets[b]? = some ts ∧ cands[b]? = some cs ∧ cs[j]? = some w ∧ S' = u.sets.set b (ts ++ [w]) ∧ Allowed maxDegrees w ∧
    (env.gradient front)[place u.sets cands b + j]? = some g ∧ g ≠ 0 ∧
    ∀ (b' j' : Nat) (cs' : List (List Nat)) (w' : List Nat), cands[b']? = some cs' → cs'[j']? = some w' → Allowed maxDegrees w' →
      ∃ g', (env.gradient front)[place u.sets cands b' + j']? = some g' ∧ |g'| ≤ |g|

/-- Every map of a history came from the one before it by adding the best candidate. -/
def BestChosen (env : Env) (maxDegrees : List Nat) (lims : List (MultiIndex → Bool)) (hist : List Trained) : Prop :=
  ∀ (i : Nat) (v u : Trained), hist[i]? = some v → hist[i + 1]? = some u → Chosen env maxDegrees lims u v.sets

end Spec
end MParT
