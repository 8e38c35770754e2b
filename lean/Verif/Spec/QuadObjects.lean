import Verif.Model.QuadObjects
import Verif.Spec.Quadrature
import Verif.Lemmas.Adaptive
/-!
# What the user of quadrature objects knows about them
-/
namespace MParT.Spec
open Quad

/-- Where `Integrate(f, lb, ub, res)` works: in memory of the object, in an array of the user, or nowhere. -/
inductive Work where
  | own
  | user (b : Nat)
  | null

/-- What the user knows about an object: its rule, the dimension last set, the maximum dimension given at construction, whether
the object was constructed with its own memory (then the maximum is a limit), and where it works. -/
structure QuadUse where
  rule : Rule
  dim : Nat
  maxDim : Nat
  limited : Bool
  work : Work

/-- Reasonable rules: at least one point; less forced than allowed subdivisions, at most 32. -/
def _root_.MParT.Quad.RuleArgs.Sensible : RuleArgs → Prop
  | .clenshawCurtis n => 1 ≤ n
  | .simpson q => q.minSub < q.maxSub ∧ q.maxSub ≤ 32
  | .adaptiveCC l q => 1 ≤ l ∧ q.minSub < q.maxSub ∧ q.maxSub ≤ 32

open Classical in
/-- Component `j` of what the rule makes of the integral of `f` over `[lb,ub]`, for integrands of dimension `dim`. -/
noncomputable def ruleValue (dim : Nat) (f : Integrand) (lb ub : ℝ) (j : Nat) : Rule → ℝ
  | .clenshawCurtis pts wts =>
    if 15 * (2 : ℝ) ^ (-52 : ℤ) ≤ ub - lb then applyRule pts.size pts.val wts.val (f · j) lb ub
    else (ub - lb) * f ((lb + ub) / 2) j
  | .simpson q =>
    ((leaves (converged simpson simpson2 q.errorMetric.norm dim q.absTol q.relTol q.minSub lb ub f) (q.maxSub - 1) 0 lb ub).map
      fun p => simpson2 (f · j) p.1 p.2).sum
  | .adaptiveCC q r =>
    let coarse := applyRule r.coarsePts.size r.coarsePts.val r.coarseWts.val
    let fine := applyRule r.finePts.size r.finePts.val r.fineWts.val
    ((leaves (converged coarse fine q.errorMetric.norm dim q.absTol q.relTol q.minSub lb ub f) (q.maxSub - 1) 0 lb ub).map
      fun p => fine (f · j) p.1 p.2).sum

/-- An array of the user in which the object works has the number of entries the object asks for. -/
def Enough (h : Heap) (u : QuadUse) : Prop :=
  ∀ b m, u.work = .user b → h.bufs[b]? = some (false, m) → u.rule.workspaceSize u.dim ≤ m.size

/-- Programs that use quadrature objects: `Uses h us` says that a program can have reached the state `h`, and that `us` is what
its author knows about its objects. The only rules for the author: the rules are sensible; dimensions are at least 1; arrays
handed over exist, and have the size the object asks for when it integrates; and no object that works in its own memory is
overwritten from the archive of one without. -/
inductive Uses : Heap → List (Option QuadUse) → Prop
  | start : Uses ⟨[], []⟩ []
  | alloc {h us} (m : Mem) : Uses h us → Uses (h.alloc m) us
  | newInternal {h us h'} (a : RuleArgs) (rule : Rule) (d : Nat) : Uses h us → a.Sensible → a.build = .ok rule → 1 ≤ d →
      h.newInternal a d = .ok h' → Uses h' (us ++ [some ⟨rule, d, d, true, .own⟩])
  | newNull {h us h'} (a : RuleArgs) (rule : Rule) (d : Nat) : Uses h us → a.Sensible → a.build = .ok rule → 1 ≤ d →
      h.newExternal a d none = .ok h' → Uses h' (us ++ [some ⟨rule, d, d, false, .null⟩])
  | newUser {h us h'} (a : RuleArgs) (rule : Rule) (d b : Nat) (m : Mem) : Uses h us → a.Sensible → a.build = .ok rule →
      1 ≤ d → h.bufs[b]? = some (false, m) → h.newExternal a d (some b) = .ok h' →
      Uses h' (us ++ [some ⟨rule, d, d, false, .user b⟩])
  | copy {h us h'} (i : Nat) (u : QuadUse) : Uses h us → us[i]? = some (some u) → h.copy i = .ok h' → Uses h' (us ++ [some u])
  | assign {h us h'} (i j : Nat) (u v : QuadUse) : Uses h us → us[i]? = some (some u) → us[j]? = some (some v) →
      h.assign i j = .ok h' → Uses h' (us.set i (some v))
  | destroy {h us h'} (i : Nat) (u : QuadUse) : Uses h us → us[i]? = some (some u) → h.destroy i = .ok h' →
      Uses h' (us.set i none)
  | setDim {h us h'} (i n : Nat) (u : QuadUse) : Uses h us → us[i]? = some (some u) → 1 ≤ n → h.setDim i n = .ok h' →
      Uses h' (us.set i (some { u with dim := n }))
  | setWorkspace {h us h'} (i b : Nat) (m : Mem) (u : QuadUse) : Uses h us → us[i]? = some (some u) →
      h.bufs[b]? = some (false, m) → h.setWorkspace i (some b) = .ok h' → Uses h' (us.set i (some { u with work := .user b }))
  | clearWorkspace {h us h'} (i : Nat) (u : QuadUse) : Uses h us → us[i]? = some (some u) →
      h.setWorkspace i none = .ok h' → Uses h' (us.set i (some { u with work := .null }))
  | loadOwn {h us h'} (i j : Nat) (u v : QuadUse) : Uses h us → us[i]? = some (some u) → us[j]? = some (some v) →
      v.limited = true → h.load i j = .ok h' → Uses h' (us.set i (some { v with work := .own }))
  | loadOther {h us h'} (i j : Nat) (u v : QuadUse) : Uses h us → us[i]? = some (some u) → us[j]? = some (some v) →
      v.limited = false → u.work ≠ .own → h.load i j = .ok h' → Uses h' (us.set i (some { v with work := u.work }))
  | integrate {h us h'} (i : Nat) (u : QuadUse) (f : Integrand) (lb ub : ℝ) (res res' : Mem) (fuel : Nat) : Uses h us →
      us[i]? = some (some u) → Enough h u → u.dim ≤ res.size → 2 ^ 32 ≤ fuel →
      h.integrate i f lb ub res fuel = .ok (some (h', res')) → Uses h' us
  | integrateWith {h us h'} (i b : Nat) (u : QuadUse) (m : Mem) (f : Integrand) (lb ub : ℝ) (res res' : Mem) (fuel : Nat) :
      Uses h us → us[i]? = some (some u) → h.bufs[b]? = some (false, m) → u.rule.workspaceSize u.dim ≤ m.size →
      u.dim ≤ res.size → 2 ^ 32 ≤ fuel → h.integrateWith i b f lb ub res fuel = .ok (some (h', res')) → Uses h' us

end MParT.Spec
