import Verif.Props.Expansion
import Verif.Spec.Monotone
/-!
# Lemmas: the integrand and the kernels of a monotone component
-/
namespace MParT
open Spec Worker FixedSet Finset

/-! ### Programs -/

theorem QProg.run_ok {σ : Type} {f : σ → ℝ → List ℝ → Res (σ × List ℝ)} {F : ℝ → List ℝ} {n : Nat} (Inv : σ → Prop)
    (hF : ∀ t, (F t).length = n)
    (hf : ∀ s t buf, Inv s → buf.length = n → ∃ s', f s t buf = .ok (s', F t) ∧ Inv s') :
    ∀ (q : QProg) (s : σ), QuadShape n q → Inv s →
      (∀ r, q.pureRun F = .ok r → r.length = n ∧ ∃ s', q.run f s = .ok (s', r) ∧ Inv s') ∧
      (q.pureRun F = .ub → q.run f s = .ub) ∧ q.pureRun F ≠ .throw
  | .done r, s, hq, hs => by
    refine ⟨fun r' h => ?_, fun h => by simp [QProg.pureRun] at h, by simp [QProg.pureRun]⟩
    simp only [QProg.pureRun, Res.ok.injEq] at h
    subst h
    exact ⟨hq, s, rfl, hs⟩
  | .call t buf k, s, hq, hs => by
    obtain ⟨s', e, hs'⟩ := hf s t buf hs hq.1
    have ih := QProg.run_ok Inv hF hf (k (F t)) s' (hq.2 _ (hF t)) hs'
    simp only [QProg.pureRun, QProg.run, e, Res.bind_ok]
    exact ih
  | .bad, s, hq, hs => by simp [QProg.pureRun, QProg.run]

/-! ### The cache -/

variable {c : MonotoneComponent} {D : Nat} {ts : List (List Nat)}

/-- The cache after `FillCache1` and any calls of `FillCache2`. -/
def Cached (c : MonotoneComponent) (pt : List ℝ) (f1 : DFlag) (cache : Cache ℝ) : Prop :=
  ∃ (scr : Cache ℝ) (calls : List (ℝ × DFlag)), scr.length = c.w.cacheSize ∧ fillSeq c.w c.b scr pt f1 calls = .ok cache

/-- The cache after the last `FillCache2` was at `xd` with flag `f2`. -/
def FilledAt (c : MonotoneComponent) (pt : List ℝ) (f1 : DFlag) (xd : ℝ) (f2 : DFlag) (cache : Cache ℝ) : Prop :=
  ∃ (scr : Cache ℝ) (calls : List (ℝ × DFlag)), scr.length = c.w.cacheSize ∧
    fillSeq c.w c.b scr pt f1 (calls ++ [(xd, f2)]) = .ok cache

theorem FilledAt.cached {pt : List ℝ} {f1 f2 : DFlag} {xd : ℝ} {cache : Cache ℝ} (h : FilledAt c pt f1 xd f2 cache) :
    Cached c pt f1 cache := by
  obtain ⟨scr, calls, h1, h2⟩ := h
  exact ⟨scr, _, h1, h2⟩

theorem fillSeq_append (w : Worker) (b : Basis ℝ) (scr : Cache ℝ) (pt : List ℝ) (f1 : DFlag) (calls : List (ℝ × DFlag))
    (xd : ℝ) (f2 : DFlag) : fillSeq w b scr pt f1 (calls ++ [(xd, f2)])
      = (fillSeq w b scr pt f1 calls).bind fun c => fillCache2 w b c xd f2 := by
  simp only [fillSeq, List.foldlM_append, List.foldlM_cons, List.foldlM_nil]
  cases fillCache1 w b scr pt f1 with
  | ok c =>
    simp only [Res.bind_ok]
    cases List.foldlM (fun c h => fillCache2 w b c h.1 h.2) c calls with
    | ok c' =>
      simp only [Res.bind_ok]
      show (fillCache2 w b c' xd f2).bind pure = (fillCache2 w b c' xd f2)
      cases fillCache2 w b c' xd f2 <;> rfl
    | throw => rfl
    | ub => rfl
  | throw => rfl
  | ub => rfl

section
variable (hv : ValidComponent c D ts) {pt : List ℝ} (hpt : D - 1 ≤ pt.length)
include hv hpt

theorem fillSeq_ok (scr : Cache ℝ) (hs : scr.length = c.w.cacheSize) (f1 : DFlag) (calls : List (ℝ × DFlag)) (xd : ℝ)
    (f2 : DFlag) (h2 : f2 ≠ .mixed) : ∃ cache, fillSeq c.w c.b scr pt f1 (calls ++ [(xd, f2)]) = .ok cache := by
  obtain ⟨f, hb, -, hd, hts, hw⟩ := hv.fixed
  have hD := hv.pos
  have e := built_ofFixed hb (by omega) hts
  rw [hw] at e
  obtain ⟨c', W, e', -⟩ := fillSeq_eq f.dim (by omega) f (degs f.dim ts) (by simp [degs]) c.b pt (by omega) f1 scr
    (by have := Res.ok.inj e; rw [this] at hs; exact hs) calls xd f2 h2
  rw [← Res.ok.inj e] at e'
  exact ⟨c', e'⟩

theorem cached_start (scr : Cache ℝ) (hs : scr.length = c.w.cacheSize) (f1 : DFlag) :
    ∃ cache, fillCache1 c.w c.b scr pt f1 = .ok cache ∧ Cached c pt f1 cache := by
  obtain ⟨cache, e⟩ := fillSeq_ok hv hpt scr hs f1 [] 0 .none (by decide)
  rw [fillSeq_append] at e
  cases e1 : fillSeq c.w c.b scr pt f1 [] with
  | ok c1 =>
    refine ⟨c1, ?_, scr, [], hs, e1⟩
    simp only [fillSeq, List.foldlM_nil] at e1
    cases e2 : fillCache1 c.w c.b scr pt f1 with
    | ok c2 => rw [e2, Res.bind_ok, Res.pure_eq] at e1; exact e1
    | throw => rw [e2] at e1; cases e1
    | ub => rw [e2] at e1; cases e1
  | throw => rw [e1] at e; cases e
  | ub => rw [e1] at e; cases e

theorem Cached.fill {f1 : DFlag} {cache : Cache ℝ} (h : Cached c pt f1 cache) (xd : ℝ) (f2 : DFlag) (h2 : f2 ≠ .mixed) :
    ∃ cache', fillCache2 c.w c.b cache xd f2 = .ok cache' ∧ FilledAt c pt f1 xd f2 cache' := by
  obtain ⟨scr, calls, hs, e⟩ := h
  obtain ⟨cache', e'⟩ := fillSeq_ok hv hpt scr hs f1 calls xd f2 h2
  have e2 := e'
  rw [fillSeq_append, e] at e2
  exact ⟨cache', e2, scr, calls, hs, e'⟩

end

theorem pointOf_eq (D : Nat) (pt : List ℝ) (y : ℝ) : pointOf D pt y = Function.update (coords pt) (D - 1) y := by
  funext d
  by_cases h : d = D - 1
  · subst h; simp [pointOf]
  · simp [pointOf, h, coords]

section
variable (hv : ValidComponent c D ts)
include hv

theorem diagD_eq (cs : List ℝ) (x : Nat → ℝ) : diagD c.b.eff D ts cs x = expansion D ts cs (facD1 c.b.eff x (D - 1)) := by
  have hD := hv.pos
  rw [diagD, partialDeriv_expandAt c.b.eff cs hv.basis D (D - 1) (by omega)]

variable {pt : List ℝ} (hpt : D - 1 ≤ pt.length) {cs : List ℝ} (hc : cs.length = ts.length)
include hpt hc

theorem FilledAt.evaluate {f1 f2 : DFlag} {xd : ℝ} {cache : Cache ℝ} (h : FilledAt c pt f1 xd f2 cache)
    (h2 : f2 ≠ .mixed) : evaluate c.w cache cs = .ok (expandAt c.b.eff D ts cs (pointOf D pt xd)) := by
  obtain ⟨f, hb, hcomp, rfl, hts, hw⟩ := hv.fixed
  obtain ⟨scr, calls, hs, e⟩ := h
  obtain ⟨w, hw', h⟩ := C23_degree_zero_ignored hb hcomp hv.pos hts c.b cs hc.ge pt hpt calls xd f1 f2 h2
  rw [hw] at hw'; cases hw'
  have := h scr hs
  rwa [e, Res.bind_ok] at this

theorem FilledAt.diag1 {f1 f2 : DFlag} {xd : ℝ} {cache : Cache ℝ} (h : FilledAt c pt f1 xd f2 cache)
    (h2 : f2 = .diagonal ∨ f2 = .input ∨ f2 = .diagonal2 ∨ f2 = .mixedInput) :
    diagonalDerivative c.w cache cs 1 = .ok (diagD c.b.eff D ts cs (pointOf D pt xd)) := by
  have hd := diagD_eq hv cs (pointOf D pt xd)
  obtain ⟨f, hb, hcomp, rfl, hts, hw⟩ := hv.fixed
  obtain ⟨scr, calls, hs, e⟩ := h
  obtain ⟨w, hw', h⟩ := run_diagonal hb hcomp hv.pos hts c.b cs hc.ge pt hpt calls xd f1 f2 h2
  rw [hw] at hw'; cases hw'
  have := h scr hs
  rw [e, Res.bind_ok] at this
  rw [this, hd]

/-- `∂²f/∂x_D²`. -/
noncomputable def d2F (c : MonotoneComponent) (D : Nat) (ts : List (List Nat)) (cs : List ℝ) (x : Nat → ℝ) : ℝ :=
  expansion D ts cs (facD2 c.b.eff x (D - 1))

theorem FilledAt.diag2 {f1 f2 : DFlag} {xd : ℝ} {cache : Cache ℝ} (h : FilledAt c pt f1 xd f2 cache)
    (h2 : f2 = .diagonal2 ∨ f2 = .mixedInput) :
    diagonalDerivative c.w cache cs 2 = .ok (d2F c D ts cs (pointOf D pt xd)) := by
  obtain ⟨f, hb, hcomp, rfl, hts, hw⟩ := hv.fixed
  obtain ⟨scr, calls, hs, e⟩ := h
  obtain ⟨w, hw', h⟩ := run_diagonal2 hb hcomp hv.pos hts c.b cs hc.ge pt hpt calls xd f1 f2 h2
  rw [hw] at hw'; cases hw'
  have := h scr hs
  rwa [e, Res.bind_ok] at this

omit hv hpt hc in
theorem map_ext {g : List ℝ} {n : Nat} {v : Nat → ℝ} (hl : g.length = n) (h : ∀ k, k < n → g[k]? = some (v k)) :
    g = (List.range n).map v := by
  apply List.ext_getElem?
  intro k
  by_cases hk : k < n
  · rw [h k hk]; simp [hk]
  · rw [List.getElem?_eq_none (by omega), List.getElem?_eq_none (by simp; omega)]

/-- `∂/∂c_k` of the value, of `∂_D f` and of `∂_D² f`. -/
noncomputable def termF (D : Nat) (ts : List (List Nat)) (F : Nat → Nat → ℝ) : List ℝ :=
  (List.range ts.length).map fun k => termProd D F (ts.getD k [])

theorem FilledAt.coeff {f1 f2 : DFlag} {xd : ℝ} {cache : Cache ℝ} (h : FilledAt c pt f1 xd f2 cache)
    (h2 : f2 ≠ .mixed) (grad : List ℝ) (hg : grad.length = ts.length) :
    coeffDerivative c.w cache cs grad = .ok (expandAt c.b.eff D ts cs (pointOf D pt xd),
      termF D ts fun d n => c.b.eff.val n (pointOf D pt xd d)) := by
  obtain ⟨f, hb, hcomp, rfl, hts, hw⟩ := hv.fixed
  obtain ⟨scr, calls, hs, e⟩ := h
  obtain ⟨w, hw', h⟩ := C24_coeff hb hcomp hv.pos hts c.b hv.basis cs hc.ge pt hpt calls xd f1 f2 h2 grad hg.ge
  rw [hw] at hw'; cases hw'
  obtain ⟨g, hl, hk, -, h⟩ := h scr hs
  rw [e, Res.bind_ok] at h
  rw [h]
  congr 2
  refine map_ext (hl.trans hg) fun k hk' => ?_
  obtain ⟨v, h1, h2⟩ := hk k hk'
  rw [h1, (h2 0).unique (expansion_coeff_hasDerivAt f.dim ts cs _ k hk' hc.ge 0)]

theorem FilledAt.mixedCoeff1 {f1 f2 : DFlag} {xd : ℝ} {cache : Cache ℝ} (h : FilledAt c pt f1 xd f2 cache)
    (h2 : f2 = .diagonal ∨ f2 = .input ∨ f2 = .diagonal2 ∨ f2 = .mixedInput) (grad : List ℝ) (hg : grad.length = ts.length) :
    mixedCoeffDerivative c.w cache cs 1 grad = .ok (diagD c.b.eff D ts cs (pointOf D pt xd),
      termF D ts (facD1 c.b.eff (pointOf D pt xd) (D - 1))) := by
  have hd := diagD_eq hv cs (pointOf D pt xd)
  obtain ⟨f, hb, hcomp, rfl, hts, hw⟩ := hv.fixed
  obtain ⟨scr, calls, hs, e⟩ := h
  obtain ⟨w, hw', h⟩ := run_mixedCoeff hb hcomp hv.pos hts c.b cs hc.ge pt hpt calls xd f1 f2 1 (.inl ⟨rfl, h2⟩) grad hg.ge
  rw [hw] at hw'; cases hw'
  obtain ⟨g, hl, hk, -, h⟩ := h scr hs
  rw [e, Res.bind_ok] at h
  rw [h, hd, map_ext (hl.trans hg) hk]
  rfl

theorem FilledAt.mixedCoeff2 {f1 f2 : DFlag} {xd : ℝ} {cache : Cache ℝ} (h : FilledAt c pt f1 xd f2 cache)
    (h2 : f2 = .diagonal2 ∨ f2 = .mixedInput) (grad : List ℝ) (hg : grad.length = ts.length) :
    mixedCoeffDerivative c.w cache cs 2 grad = .ok (d2F c D ts cs (pointOf D pt xd),
      termF D ts (facD2 c.b.eff (pointOf D pt xd) (D - 1))) := by
  obtain ⟨f, hb, hcomp, rfl, hts, hw⟩ := hv.fixed
  obtain ⟨scr, calls, hs, e⟩ := h
  obtain ⟨w, hw', h⟩ := run_mixedCoeff hb hcomp hv.pos hts c.b cs hc.ge pt hpt calls xd f1 f2 2 (.inr ⟨rfl, h2⟩) grad hg.ge
  rw [hw] at hw'; cases hw'
  obtain ⟨g, hl, hk, -, h⟩ := h scr hs
  rw [e, Res.bind_ok] at h
  rw [h, map_ext (hl.trans hg) hk]
  rfl

theorem FilledAt.inputD {f1 f2 : DFlag} {xd : ℝ} {cache : Cache ℝ} (h : FilledAt c pt f1 xd f2 cache)
    (h1 : f1 = .input ∨ f1 = .mixedInput)
    (h2 : f2 = .diagonal ∨ f2 = .input ∨ f2 = .diagonal2 ∨ f2 = .mixedInput) (grad : List ℝ) (hg : grad.length = D) :
    inputDerivative c.w cache cs grad = .ok (expandAt c.b.eff D ts cs (pointOf D pt xd),
      (List.range D).map fun e => expansion D ts cs (facD1 c.b.eff (pointOf D pt xd) e)) := by
  obtain ⟨f, hb, hcomp, rfl, hts, hw⟩ := hv.fixed
  obtain ⟨scr, calls, hs, e⟩ := h
  obtain ⟨w, g, hw', hl, hk, -, h⟩ := C24_input hb hcomp hv.pos hts c.b hv.basis cs hc.ge pt hpt calls xd f1 f2 h1 h2
    grad hg.ge
  rw [hw] at hw'; cases hw'
  have := h scr hs
  rw [e, Res.bind_ok] at this
  rw [this]
  congr 2
  refine map_ext (hl.trans hg) fun k hk' => ?_
  obtain ⟨v, h1, h2⟩ := hk k hk'
  rw [h1, h2.unique (expandAt_partial c.b.eff cs hv.basis f.dim (pointOf f.dim pt xd) k hk')]

theorem FilledAt.mixedInputD {f1 f2 : DFlag} {xd : ℝ} {cache : Cache ℝ} (h : FilledAt c pt f1 xd f2 cache)
    (h1 : f1 = .input ∨ f1 = .mixedInput)
    (h2 : f2 = .diagonal2 ∨ f2 = .mixedInput) (grad : List ℝ) (hg : grad.length = D) :
    mixedInputDerivative c.w cache cs grad = .ok (diagD c.b.eff D ts cs (pointOf D pt xd),
      (List.range D).map fun e => expansion D ts cs (facMixed c.b.eff D (pointOf D pt xd) e)) := by
  have hd := diagD_eq hv cs (pointOf D pt xd)
  obtain ⟨f, hb, hcomp, rfl, hts, hw⟩ := hv.fixed
  obtain ⟨scr, calls, hs, e⟩ := h
  obtain ⟨w, g, hw', hl, hk, -, h⟩ := run_mixedInput hb hcomp hv.pos hts c.b cs hc.ge pt hpt calls xd f1 f2
    h1 h2 grad hg.ge
  rw [hw] at hw'; cases hw'
  have := h scr hs
  rw [e, Res.bind_ok] at this
  rw [this, hd, map_ext (hl.trans hg) hk]

end

/-! ### The integrand -/

section
variable (c : MonotoneComponent) (D : Nat) (ts : List (List Nat)) (cs pt : List ℝ) (xd ν t : ℝ)

/-- `∂_D f` at the quadrature point. -/
noncomputable def dfAt : ℝ := diagD c.b.eff D ts cs (pointOf D pt (t * xd))

/-- First output of the integrand. -/
noncomputable def out0 : ℝ := xd * (c.g.eval (dfAt c D ts cs pt xd t) + ν)

/-- Derivative of the first output with respect to `x_D`. -/
noncomputable def outD : ℝ := d2F c D ts cs (pointOf D pt (t * xd)) * (xd * t * c.g.deriv (dfAt c D ts cs pt xd t))
  + (c.g.eval (dfAt c D ts cs pt xd t) + ν)

/-- Derivative of the first output with respect to `c_k`. -/
noncomputable def outP (k : Nat) : ℝ := termProd D (facD1 c.b.eff (pointOf D pt (t * xd)) (D - 1)) (ts.getD k [])
  * (xd * c.g.deriv (dfAt c D ts cs pt xd t))

/-- Mixed derivative. -/
noncomputable def outM (k : Nat) : ℝ :=
  (xd * t * d2F c D ts cs (pointOf D pt (t * xd)) * c.g.deriv2 (dfAt c D ts cs pt xd t)
    + c.g.deriv (dfAt c D ts cs pt xd t)) * termProd D (facD1 c.b.eff (pointOf D pt (t * xd)) (D - 1)) (ts.getD k [])
  + termProd D (facD2 c.b.eff (pointOf D pt (t * xd)) (D - 1)) (ts.getD k []) * (xd * t * c.g.deriv (dfAt c D ts cs pt xd t))

/-- Derivative of the first output with respect to `x_e`, `e < D-1`. -/
noncomputable def outI (e : Nat) : ℝ := expansion D ts cs (facMixed c.b.eff D (pointOf D pt (t * xd)) e)
  * (xd * c.g.deriv (dfAt c D ts cs pt xd t))

/-- The vector the integrand writes. -/
noncomputable def vec (flag : DFlag) : List ℝ := match flag with
  | .parameters => out0 c D ts cs pt xd ν t :: (List.range ts.length).map (outP c D ts cs pt xd t)
  | .mixed => out0 c D ts cs pt xd ν t :: (List.range ts.length).map (outM c D ts cs pt xd t)
  | .input => out0 c D ts cs pt xd ν t :: ((List.range (D - 1)).map (outI c D ts cs pt xd t) ++ [outD c D ts cs pt xd ν t])
  | .diagonal => [out0 c D ts cs pt xd ν t, outD c D ts cs pt xd ν t]
  | _ => [out0 c D ts cs pt xd ν t]

/-- Number of outputs. -/
def vecLen (flag : DFlag) : Nat := match flag with
  | .parameters => ts.length + 1
  | .mixed => ts.length + 1
  | .input => D + 1
  | .diagonal => 2
  | _ => 1

end

theorem vec_length (hD : 0 < D) (cs pt : List ℝ) (xd ν t : ℝ) (flag : DFlag) :
    (vec c D ts cs pt xd ν t flag).length = vecLen D ts flag := by
  cases flag <;> simp [vec, vecLen]
  omega

theorem size_eq (hv : ValidComponent c D ts) : c.w.multiSet.size = .ok ts.length := by
  obtain ⟨f, hb, -, hd, hts, hw⟩ := hv.fixed
  have hD := hv.pos
  have e := built_ofFixed hb (by omega) hts
  rw [hw] at e
  rw [Res.ok.inj e]
  exact hts.1

theorem dim_eq (hv : ValidComponent c D ts) : c.w.dim = D := by
  obtain ⟨f, hb, -, hd, hts, hw⟩ := hv.fixed
  have hD := hv.pos
  have e := built_ofFixed hb (by omega) hts
  rw [hw] at e
  rw [Res.ok.inj e]
  exact hd

theorem seg_cons (a : ℝ) (l : List ℝ) (n : Nat) (h : l.length = n) : MonotoneIntegrand.seg (a :: l) n = .ok l := by
  rw [MonotoneIntegrand.seg, if_pos (by simp; omega)]
  simp [h]

theorem putSeg_cons (a : ℝ) (l s : List ℝ) (n : Nat) (h : l.length = n) : MonotoneIntegrand.putSeg (a :: l) s n = a :: s := by
  rw [MonotoneIntegrand.putSeg]
  simp [Nat.add_comm 1 n, h]

theorem mapIdx_lt (l : List ℝ) (n : Nat) (h : l.length ≤ n) (F : ℝ → ℝ) :
    l.mapIdx (fun i v => if i < n then F v else v) = l.map F := by
  apply List.ext_getElem
  · simp
  · intro i h1 h2
    simp only [List.getElem_mapIdx, List.getElem_map]
    rw [if_pos (by simp at h1; omega)]

theorem zipWith_range (n : Nat) (F G : Nat → ℝ) (H : ℝ → ℝ → ℝ) :
    List.zipWith H ((List.range n).map F) ((List.range n).map G) = (List.range n).map fun k => H (F k) (G k) := by
  apply List.ext_getElem
  · simp
  · intro i h1 h2
    simp

section
variable (hv : ValidComponent c D ts) {pt : List ℝ} {cs : List ℝ} (hc : cs.length = ts.length)
include hv hc

theorem call_eq (flag f1 : DFlag) (xd ν : ℝ) (hpt : D - 1 ≤ pt.length) (hin : flag = .input → pt.length = D ∧ f1 = .input)
    (s : Cache ℝ × List ℝ) (hs : Cached c pt f1 s.1) (hw : flag = .mixed → s.2.length = ts.length) (t : ℝ)
    (out : List ℝ) (ho : out.length = vecLen D ts flag) :
    ∃ s' : Cache ℝ × List ℝ, (c.integrand pt xd cs flag ν).call s t out = .ok (s', vec c D ts cs pt xd ν t flag) ∧
      Cached c pt f1 s'.1 ∧ (flag = .mixed → s'.2.length = ts.length) := by
  have hD := hv.pos
  obtain ⟨a, out, rfl⟩ : ∃ a l, out = a :: l := by
    cases out with
    | nil => cases flag <;> simp [vecLen] at ho
    | cons a l => exact ⟨a, l, rfl⟩
  obtain ⟨cache, e, hf⟩ := hs.fill hv hpt (t * xd) (MonotoneIntegrand.fillFlag flag)
    (by cases flag <;> decide)
  have h1 := hf.diag1 hv hpt hc (by cases flag <;> decide)
  simp only [MonotoneIntegrand.call, MonotoneComponent.integrand, size_eq hv, Res.bind_ok, e]
  cases flag with
  | none =>
    refine ⟨(cache, s.2), ?_, hf.cached, by simp⟩
    obtain rfl : out = [] := by simpa [vecLen] using ho
    simp only [h1, Res.bind_ok]
    rfl
  | diagonal2 =>
    refine ⟨(cache, s.2), ?_, hf.cached, by simp⟩
    obtain rfl : out = [] := by simpa [vecLen] using ho
    simp only [h1, Res.bind_ok]
    rfl
  | mixedInput =>
    refine ⟨(cache, s.2), ?_, hf.cached, by simp⟩
    obtain rfl : out = [] := by simpa [vecLen] using ho
    simp only [h1, Res.bind_ok]
    rfl
  | diagonal =>
    refine ⟨(cache, s.2), ?_, hf.cached, by simp⟩
    have h2 := hf.diag2 hv hpt hc (by decide)
    obtain ⟨b, rfl⟩ := List.length_eq_one_iff.1 (show out.length = 1 by simpa [vecLen] using ho)
    simp only [h1, Res.bind_ok, MonotoneIntegrand.putValue, MonotoneIntegrand.putDiag, h2]
    rfl
  | parameters =>
    refine ⟨(cache, s.2), ?_, hf.cached, by simp⟩
    have hl : out.length = ts.length := by simpa [vecLen] using ho
    have h3 := hf.mixedCoeff1 hv hpt hc (by decide) out hl
    simp only [seg_cons a out _ hl, Res.bind_ok, h3, putSeg_cons a out _ _ hl, MonotoneIntegrand.putValue]
    simp only [Res.setIdx, vec, termF, List.map_map]
    rfl
  | mixed =>
    have hl : out.length = ts.length := by simpa [vecLen] using ho
    have h3 := hf.mixedCoeff1 hv hpt hc (by decide) out hl
    have h4 := hf.mixedCoeff2 hv hpt hc (by decide) s.2 (hw rfl)
    refine ⟨(cache, (termF D ts (facD2 c.b.eff (pointOf D pt (t * xd)) (D - 1))).map
      (· * (xd * t * c.g.deriv (dfAt c D ts cs pt xd t)))), ?_, hf.cached, by simp [termF]⟩
    simp only [seg_cons a out _ hl, Res.bind_ok, h1, h3, h4, putSeg_cons a out _ _ hl, MonotoneIntegrand.putValue]
    rw [mapIdx_lt _ _ (by simp [termF])]
    simp only [termF, List.map_map, zipWith_range]
    rfl
  | input =>
    obtain ⟨hpt', rfl⟩ := hin rfl
    have hl : out.length = D := by simpa [vecLen] using ho
    have h3 := hf.mixedInputD hv hpt hc (by decide) (by decide) out hl
    have h4 := hf.diag2 hv hpt hc (by decide)
    refine ⟨(cache, s.2), ?_, hf.cached, by simp⟩
    simp only [hpt', show D ≠ 0 by omega, if_false, seg_cons a out _ hl, Res.bind_ok, h3, h4, putSeg_cons a out _ _ hl,
      MonotoneIntegrand.putValue, MonotoneIntegrand.putDiag]
    rw [Res.setIdx_lt (by simp), Res.bind_ok, Res.setIdx_lt (by simp), Res.bind_ok]
    show Res.ok (_, _) = Res.ok (_, _)
    congr 2
    apply List.ext_getElem
    · simp [vec]; omega
    · intro i h1 h2
      simp only [vec]
      cases i with
      | zero => simp [List.getElem_set, show D ≠ 0 by omega]; rfl
      | succ i =>
        have hi : i < D := by simpa using h1
        simp only [List.getElem_set, List.set_cons_zero, List.getElem_cons_succ, List.getElem_mapIdx, List.getElem_map,
          List.getElem_range]
        by_cases h : i = D - 1
        · subst h
          rw [if_pos (by omega), List.getElem_append_right (by simp)]
          simp only [List.getElem_singleton]
          rfl
        · rw [if_neg (by omega), if_pos (by omega), List.getElem_append_left (by simp; omega)]
          simp only [List.getElem_map, List.getElem_range]
          rfl

end
end MParT
