import Verif.Model.FactoryQuad
import Verif.Props.QuadObjects
/-!
# C93: every function of a component from the factory can be called, in every order
-/
namespace MParT.Quad
open Spec Shared MapFactory

/-- Reasonable options: at least one point; for the adaptive rules fewer forced than allowed subdivisions, at most 32; at least four
points for nested rules. -/
def QuadOptions (opts : MapOptions) : Prop :=
  match opts.quadType with
  | .clenshawCurtis => 1 ≤ opts.quadPts
  | .adaptiveSimpson => opts.quadMinSub < opts.quadMaxSub ∧ opts.quadMaxSub ≤ 32
  | .adaptiveClenshawCurtis => 4 ≤ opts.quadPts ∧ opts.quadPts < 2 ^ 32 ∧ opts.quadMinSub < opts.quadMaxSub ∧ opts.quadMaxSub ≤ 32

/-- What a call has to leave in its results: nothing if the function does not integrate, otherwise for every output what the
rule makes of the integral over `[0,1]`. -/
def Correct (rule : Rule) (M d : Nat) (c : Fn × Integrand) (r : Option Mem) : Prop :=
  (c.1.dim M d = none → r = none) ∧
  ∀ n, c.1.dim M d = some n → ∃ m, r = some m ∧ m.size = n ∧ ∀ j < n, m.val j = ruleValue n c.2 0 1 j rule

theorem factoryRule_ok (opts : MapOptions) (h : QuadOptions opts) : ∃ a, factoryRule opts = .ok a ∧ a.Sensible := by
  unfold QuadOptions at h
  unfold factoryRule
  cases hq : opts.quadType with
  | clenshawCurtis => simp only [hq] at h ⊢; exact ⟨_, rfl, h⟩
  | adaptiveSimpson => simp only [hq] at h ⊢; exact ⟨_, rfl, h⟩
  | adaptiveClenshawCurtis =>
    simp only [hq] at h ⊢
    obtain ⟨h1, h2, h3, h4⟩ := h
    have e : (opts.quadPts + (2 ^ 32 - 2)) % 2 ^ 32 = opts.quadPts - 2 := by
      rw [show opts.quadPts + (2 ^ 32 - 2) = opts.quadPts - 2 + 2 ^ 32 by omega, Nat.add_mod_right, Nat.mod_eq_of_lt (by omega)]
    rw [quadLevel, e, if_neg (by omega), Res.bind_ok, Res.pure_eq]
    exact ⟨_, rfl, Nat.log_pos (by omega) (by omega), h3, h4⟩

/-- The quadrature of a new component: object 1. -/
theorem factoryQuad_ok (opts : MapOptions) (h : QuadOptions opts) : ∃ a rule h' w,
    factoryRule opts = .ok a ∧ a.build = .ok rule ∧ factoryQuad opts = .ok h' ∧
    Uses h' [none, some ⟨rule, 1, 1, decide (opts.quadType = .clenshawCurtis), w⟩] := by
  obtain ⟨a, ea, sa⟩ := factoryRule_ok opts h
  obtain ⟨rule, hb, ⟨h1, e1, H1⟩, ⟨h2, e2, H2⟩, -⟩ := (C86_construct Uses.start).1 a 1 sa le_rfl
  by_cases hq : opts.quadType = .clenshawCurtis
  · obtain ⟨⟨h3, e3, H3⟩, -⟩ := (C86_construct H1).2 0 _ rfl
    obtain ⟨-, ⟨h4, e4, H4⟩, -⟩ := (C86_construct H3).2 0 _ rfl
    refine ⟨a, rule, h4, .own, ea, hb, ?_, by simpa [hq] using H4⟩
    simp [factoryQuad, ea, hq, e1, e3, e4]
  · obtain ⟨⟨h3, e3, H3⟩, -⟩ := (C86_construct H2).2 0 _ rfl
    obtain ⟨-, ⟨h4, e4, H4⟩, -⟩ := (C86_construct H3).2 0 _ rfl
    refine ⟨a, rule, h4, .null, ea, hb, ?_, by simpa [hq] using H4⟩
    cases h5 : opts.quadType with
    | clenshawCurtis => exact absurd h5 hq
    | adaptiveSimpson => simp [factoryQuad, ea, h5, e2, e3, e4]
    | adaptiveClenshawCurtis => simp [factoryQuad, ea, h5, e2, e3, e4]

theorem dim_pos {M d n : Nat} {fn : Fn} (h : fn.dim M d = some n) : 1 ≤ n := by
  cases fn <;> simp [Fn.dim] at h <;> omega

/-- One call. -/
theorem call_ok {h : Heap} {us : List (Option QuadUse)} (H : Uses h us) (u : QuadUse) (hu : us[1]? = some (some u))
    (fuel M d : Nat) (hf : 2 ^ 32 ≤ fuel) (junk : Nat → ℝ) (c : Fn × Integrand)
    (hc : ∀ n, c.1.dim M d = some n → ¬ (u.limited = true ∧ u.maxDim < n)) :
    ∃ h' r us' k, call fuel M d junk h c = .ok (some (h', r)) ∧ Correct u.rule M d c r ∧ Uses h' us' ∧
      us'[1]? = some (some { u with dim := k }) := by
  unfold call Correct
  cases hn : c.1.dim M d with
  | none => exact ⟨h, none, us, u.dim, rfl, ⟨fun _ => rfl, nofun⟩, H, hu⟩
  | some n =>
    have h1 := dim_pos hn
    obtain ⟨ha, ea, Ha⟩ := (C86_setDim H 1 u hu n h1).2 (hc n hn)
    have hlen : 1 < us.length := by
      by_contra hc'
      rw [List.getElem?_eq_none (by omega)] at hu
      cases hu
    have hu1 : (us.set 1 (some { u with dim := n }))[1]? = some (some { u with dim := n }) := by
      rw [List.getElem?_set_self hlen]
    obtain ⟨o, eo, -, ko⟩ := (Inv.ofUses Ha).obj hu1
    have Hb := Uses.alloc ⟨o.workspaceSize, junk⟩ Ha
    obtain ⟨⟨hd, ed, Hd⟩, -⟩ := (C86_construct Hb).2 1 _ hu1
    have hl : (ha.alloc ⟨o.workspaceSize, junk⟩).objs.length = (us.set 1 (some { u with dim := n })).length := (Inv.ofUses Hb).len
    have hu2 : (us.set 1 (some { u with dim := n }) ++ [some { u with dim := n }])[(ha.alloc ⟨o.workspaceSize, junk⟩).objs.length]?
        = some (some { u with dim := n }) := by
      rw [hl, List.getElem?_append_right le_rfl, Nat.sub_self]; rfl
    have hbuf : hd.bufs[ha.bufs.length]? = some (false, ⟨o.workspaceSize, junk⟩) := by
      rw [Heap.copy, Res.bind_eq_ok] at ed
      obtain ⟨_, -, e⟩ := ed
      rw [← Res.ok.inj e]
      simp [Heap.alloc]
    obtain ⟨he, res, ee, He, s, v, -⟩ := C86_integrateWith Hd _ ha.bufs.length _ _ hu2 hbuf (by simp [ko.size]) c.2 0 1 ⟨n, junk⟩
      (by simp) fuel hf
    obtain ⟨-, ⟨hg, eg, Hg⟩, -⟩ := (C86_construct He).2 _ _ hu2
    refine ⟨hg, some res, _, n, ?_, ⟨nofun, fun n' e => ?_⟩, Hg, ?_⟩
    · simp only [ea, Res.bind_ok, eo, ed, ee, eg]; rfl
    · obtain rfl := Option.some.inj e
      exact ⟨res, rfl, s, v⟩
    · rw [hl, List.getElem?_set_ne (by simp; omega), List.getElem?_append_left (by simpa using hlen), hu1]

theorem calls_ok (fuel M d : Nat) (hf : 2 ^ 32 ≤ fuel) (junk : Nat → ℝ) (cs : List (Fn × Integrand)) {h : Heap}
    {us : List (Option QuadUse)} (H : Uses h us) (u : QuadUse) (hu : us[1]? = some (some u))
    (hc : ∀ c ∈ cs, ∀ n, c.1.dim M d = some n → ¬ (u.limited = true ∧ u.maxDim < n)) :
    ∃ h' rs us' k, calls fuel M d junk h cs = .ok (some (h', rs)) ∧ List.Forall₂ (Correct u.rule M d) cs rs ∧ Uses h' us' ∧
      us'[1]? = some (some { u with dim := k }) := by
  induction cs generalizing h us u with
  | nil => exact ⟨h, [], us, u.dim, rfl, .nil, H, hu⟩
  | cons c cs ih =>
    obtain ⟨h1, r, us1, k1, e1, c1, H1, hu1⟩ := call_ok H u hu fuel M d hf junk c (hc c (by simp))
    obtain ⟨h2, rs, us2, k2, e2, c2, H2, hu2⟩ := ih H1 _ hu1 (fun c' hc' => hc c' (by simp [hc']))
    exact ⟨h2, r :: rs, us2, k2, by simp only [calls, e1, Res.bind_ok, e2]; rfl, .cons c1 c2, H2, hu2⟩

/-- **C93** (adaptive quadratures). A component built with `AdaptiveSimpson` or `AdaptiveClenshawCurtis` can be called in every order
and any number of times: no `SetDim` fails, no workspace is too small, and every call that integrates gets, for each of its
outputs, what the rule makes of the integral over `[0,1]`, whatever the calls before it were. -/
theorem C93_adaptive_partial (opts : MapOptions) (h : QuadOptions opts) (hq : opts.quadType ≠ .clenshawCurtis) (fuel M d : Nat)
    (hf : 2 ^ 32 ≤ fuel) (junk : Nat → ℝ) (cs : List (Fn × Integrand)) :
    ∃ a rule h0 h' rs, factoryRule opts = .ok a ∧ a.build = .ok rule ∧ factoryQuad opts = .ok h0 ∧
      calls fuel M d junk h0 cs = .ok (some (h', rs)) ∧ List.Forall₂ (Correct rule M d) cs rs := by
  obtain ⟨a, rule, h0, w, e1, e2, e3, H⟩ := factoryQuad_ok opts h
  obtain ⟨h', rs, -, -, e4, c, -⟩ := calls_ok fuel M d hf junk cs H _ rfl (fun _ _ _ _ => by simp [hq])
  exact ⟨a, rule, h0, h', rs, e1, e2, e3, e4, c⟩

/-- **C93** (`ClenshawCurtisQuadrature`). The same holds if all calls that integrate have one output: evaluation and inverse. -/
theorem C93_clenshawCurtis_partial (opts : MapOptions) (h : QuadOptions opts) (fuel M d : Nat)
    (hf : 2 ^ 32 ≤ fuel) (junk : Nat → ℝ) (cs : List (Fn × Integrand)) (hc : ∀ c ∈ cs, ∀ n, c.1.dim M d = some n → n = 1) :
    ∃ a rule h0 h' rs, factoryRule opts = .ok a ∧ a.build = .ok rule ∧ factoryQuad opts = .ok h0 ∧
      calls fuel M d junk h0 cs = .ok (some (h', rs)) ∧ List.Forall₂ (Correct rule M d) cs rs := by
  obtain ⟨a, rule, h0, w, e1, e2, e3, H⟩ := factoryQuad_ok opts h
  obtain ⟨h', rs, -, -, e4, c, -⟩ := calls_ok fuel M d hf junk cs H _ rfl (fun c' hc' n hn => by simp [hc c' hc' n hn])
  exact ⟨a, rule, h0, h', rs, e1, e2, e3, e4, c⟩

/-- C93 fails for `ClenshawCurtisQuadrature`: the factory gives it memory of its own for one output, so that after any calls with one
output a call with more fails an assertion. -/
theorem C93_fails_clenshawCurtis (opts : MapOptions) (h : QuadOptions opts) (hq : opts.quadType = .clenshawCurtis) (fuel M d : Nat)
    (hf : 2 ^ 32 ≤ fuel) (junk : Nat → ℝ) (cs rest : List (Fn × Integrand)) (hc : ∀ c ∈ cs, ∀ n, c.1.dim M d = some n → n = 1)
    (c : Fn × Integrand) (n : Nat) (hn : c.1.dim M d = some n) (h2 : 2 ≤ n) :
    ∃ h0, factoryQuad opts = .ok h0 ∧ calls fuel M d junk h0 (cs ++ c :: rest) = .throw := by
  obtain ⟨a, rule, h0, w, e1, e2, e3, H⟩ := factoryQuad_ok opts h
  refine ⟨h0, e3, ?_⟩
  clear e3
  suffices hs : ∀ (cs : List (Fn × Integrand)) (h0 : Heap) (us : List (Option QuadUse)) (u : QuadUse), Uses h0 us →
      us[1]? = some (some u) → u.limited = true → u.maxDim = 1 → (∀ c ∈ cs, ∀ n, c.1.dim M d = some n → n = 1) →
      calls fuel M d junk h0 (cs ++ c :: rest) = .throw from
    hs cs h0 _ _ H rfl (by simp [hq]) rfl hc
  intro cs
  induction cs with
  | nil =>
    intro h0 us u H hu h3 h4 _
    have := (C86_setDim H 1 u hu n (by omega)).1 ⟨h3, by omega⟩
    simp [calls, call, hn, this]
  | cons c' cs ih =>
    intro h0 us u H hu h3 h4 hcs
    obtain ⟨h1, r, us1, k1, e1, -, H1, hu1⟩ := call_ok H u hu fuel M d hf junk c' (fun n hn => by
      simp [h4, hcs c' (by simp) n hn])
    have := ih h1 us1 _ H1 hu1 h3 h4 (fun c'' hc'' => hcs c'' (by simp [hc'']))
    simp only [List.cons_append, calls, e1, Res.bind_ok, this]
    rfl

/-- C93 fails for `ClenshawCurtisQuadrature`, for users: the gradient with respect to the coefficients (with at least one), the one with respect
to the input (with at least one), and the log-determinant with discrete derivatives, each as the first call. -/
theorem C93_fails_api (opts : MapOptions) (h : QuadOptions opts) (hq : opts.quadType = .clenshawCurtis) (fuel M d : Nat)
    (hf : 2 ^ 32 ≤ fuel) (junk : Nat → ℝ) (f : Fn → Integrand) :
    ∃ h0, factoryQuad opts = .ok h0 ∧
      (1 ≤ M → ∀ cont, calls fuel M d junk h0 ((Api.coeffGrad.kernels cont).map fun fn => (fn, f fn)) = .throw) ∧
      (1 ≤ d → ∀ cont, calls fuel M d junk h0 ((Api.gradient.kernels cont).map fun fn => (fn, f fn)) = .throw) ∧
      calls fuel M d junk h0 ((Api.logDeterminant.kernels false).map fun fn => (fn, f fn)) = .throw := by
  obtain ⟨h0, e, -⟩ := C93_fails_clenshawCurtis opts h hq fuel M d hf junk [] [] (by simp) (.discreteDerivative, f .discreteDerivative) 2 rfl le_rfl
  have key : ∀ (c : Fn × Integrand) (n : Nat), c.1.dim M d = some n → 2 ≤ n → ∀ rest : List (Fn × Integrand),
      calls fuel M d junk h0 (c :: rest) = .throw := fun c n hn h2 rest => by
    obtain ⟨h1, e1, t⟩ := C93_fails_clenshawCurtis opts h hq fuel M d hf junk [] rest (by simp) c n hn h2
    rw [e] at e1
    exact (Res.ok.inj e1) ▸ t
  refine ⟨h0, e, fun hM cont => ?_, fun hd cont => ?_, ?_⟩
  · exact key (.coeffJacobian, f .coeffJacobian) (M + 1) rfl (by omega) [(.scale, f .scale)]
  · exact key (.inputJacobian, f .inputJacobian) (d + 1) rfl (by omega) [(.scale, f .scale)]
  · exact key (.discreteDerivative, f .discreteDerivative) 2 rfl le_rfl [(.scale, f .scale)]

/-- Non-vacuity: the default options (with each of the quadratures) are reasonable. -/
example (q : QuadType) : QuadOptions { quadType := q } := by
  cases q <;> simp [QuadOptions]

/-- Non-vacuity: a history that mixes functions of all dimensions. -/
example (f : Integrand) (junk : Nat → ℝ) : ∃ a rule h0 h' rs, factoryRule {} = .ok a ∧ a.build = .ok rule ∧ factoryQuad {} = .ok h0 ∧
    calls (2 ^ 32) 3 2 junk h0 [(.coeffJacobian, f), (.evaluate, f), (.inputJacobian, f), (.continuousDerivative, f)]
      = .ok (some (h', rs)) ∧
    List.Forall₂ (Correct rule 3 2) [(.coeffJacobian, f), (.evaluate, f), (.inputJacobian, f), (.continuousDerivative, f)] rs :=
  C93_adaptive_partial {} (by simp [QuadOptions]) (by simp) (2 ^ 32) 3 2 le_rfl junk _

end MParT.Quad
