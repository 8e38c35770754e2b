import Verif.Props.TriangularTraining
/-!
# C112: the gradient of the training objective of a triangular map built by the factory
-/
namespace MParT
open Spec Finset MeasureTheory MapFactory Worker MonotoneComponent

/-! ### Components -/

section
variable {c : MonotoneComponent} {D : Nat} {ts : List (List Nat)}

theorem unitDensity_nugget (b : Basis ℝ) (g : ℝ → ℝ) (ν : ℝ) (cs : List ℝ) (x : Nat → ℝ) (t : ℝ) :
    unitDensity b g ν D ts cs x t = unitDensity b g 0 D ts cs x t + x (D - 1) * ν := by
  simp only [unitDensity, density]; ring

/-- `CoeffGrad` of a component: it returns normally, whatever the output contained; every entry is within `|s| ε` of `s` times the derivative of
the exact component when the derivative of the integrand in that coefficient is within `ε/2` of a polynomial of the degree of the rule. With the continuous derivative `LogDeterminantCoeffGrad` returns the derivatives of `log g(∂_D f)`. -/
structure Spec.CoeffNear (o : MapOptions) (b : Basis ℝ) (D : Nat) (ts : List (List Nat)) (T : CMap) : Prop where
  returns : ∀ cs x s, Fits T cs x → s.length = T.outputDim → (coeffGrad T cs x s).length = T.numCoeffs ∧
    ∀ out : List ℝ, out.length = T.numCoeffs → T.coeffGrad cs x s out = .ok (coeffGrad T cs x s)
  near : ∀ cs x s k ε, Fits T cs x → k < ts.length →
    PolyNear (quadDegree o + 1) (fun t => deriv (fun z => unitDensity b.eff (positive o.posFuncType) 0 D ts (cs.set k z) (coords x) t) (cs.getD k 0)) ε →
    ∃ d, HasDerivAt (fun z => monotone b.eff (positive o.posFuncType) 0 D ts (cs.set k z) (coords x)) d (cs.getD k 0) ∧
      |(coeffGrad T cs x [s]).getD k 0 - s * d| ≤ |s| * ε
  ldReturns : o.contDeriv = true → ∀ cs x, Fits T cs x → (ldCoeffGrad T cs x).length = T.numCoeffs ∧
    ∀ out : List ℝ, out.length = T.numCoeffs → T.ldCoeffGrad cs x out = .ok (ldCoeffGrad T cs x)
  ldDeriv : o.contDeriv = true → ∀ cs x k, Fits T cs x → k < ts.length →
    HasDerivAt (fun z => Real.log (positive o.posFuncType (diagD b.eff D ts (cs.set k z) (coords x)))) ((ldCoeffGrad T cs x).getD k 0) (cs.getD k 0)

theorem component_coeffNear {o : MapOptions} (hv : ValidComponent c D ts) (hg : c.g.eval = positive o.posFuncType) (hcont : c.useContDeriv = o.contDeriv) (scr : Cache ℝ)
    (hs : scr.length = c.w.cacheSize) (work : List ℝ) {mesh : (ℝ → ℝ) → List (ℝ × ℝ)} (hm : UsesMesh c.quad mesh) (hmesh : IsMeshOf o mesh) :
    CoeffNear o c.b D ts (c.obj scr work) := by
  obtain ⟨h1, h2', h3⟩ := obj_sizes_component hv scr work
  have hG : ∀ cs x s, Fits (c.obj scr work) cs x → ∀ out : List ℝ, out.length = ts.length → ∃ j : List ℝ,
      (c.obj scr work).coeffGrad cs x [s] out = .ok j ∧ j.length = ts.length ∧ ∀ k, k < ts.length →
      HasDerivAt (fun z => s * discretised c.b.eff c.g.eval c.nugget D ts (cs.set k z) (coords x)
        (mesh (unitDensity c.b.eff c.g.eval c.nugget D ts cs (coords x)))) (j.getD k 0) (cs.getD k 0) := by
    intro cs x s hf out ho
    rw [Fits, h1, h3] at hf
    obtain ⟨j, e, l, hj⟩ := (C39_gradients hv hm hf.1 hf.2 scr hs s (List.replicate D 0) out (by simp) ho).2
    refine ⟨j, ?_, l, hj⟩
    have : numCoeffs c = ts.length := h3
    simp only [obj, gradShapeOk, dim_eq hv, this, ho, hf.2]
    simp only [List.length_singleton, beq_self_eq_true, Bool.and_self, if_true]
    rw [Res.idx_lt (by simp), Res.bind_ok]
    exact e
  have hval : ∀ cs x s, Fits (c.obj scr work) cs x → ∃ j : List ℝ, coeffGrad (c.obj scr work) cs x [s] = j ∧ j.length = ts.length ∧
      (∀ out : List ℝ, out.length = ts.length → (c.obj scr work).coeffGrad cs x [s] out = .ok j) ∧ ∀ k, k < ts.length →
      HasDerivAt (fun z => s * discretised c.b.eff c.g.eval c.nugget D ts (cs.set k z) (coords x)
        (mesh (unitDensity c.b.eff c.g.eval c.nugget D ts cs (coords x)))) (j.getD k 0) (cs.getD k 0) := by
    intro cs x s hf
    obtain ⟨j, e, l, hj⟩ := hG cs x s hf (zeros ts.length) (by simp [zeros])
    refine ⟨j, by rw [coeffGrad, h3, e]; rfl, l, fun out ho => ?_, hj⟩
    obtain ⟨j', e', l', hj'⟩ := hG cs x s hf out ho
    rw [e']
    congr 1
    refine List.ext_getElem (by omega) fun k k1 k2 => ?_
    have := (hj' k (by omega)).unique (hj k (by omega))
    simpa [List.getD_eq_getElem?_getD, k1, k2] using this
  have hG' : o.contDeriv = true → ∀ cs x, Fits (c.obj scr work) cs x → ∀ out : List ℝ, out.length = ts.length → ∃ j : List ℝ,
      (c.obj scr work).ldCoeffGrad cs x out = .ok j ∧ j.length = ts.length ∧ ∀ k, k < ts.length →
      HasDerivAt (fun z => Real.log (c.g.eval (diagD c.b.eff D ts (cs.set k z) (coords x)))) (j.getD k 0) (cs.getD k 0) := by
    intro ho cs x hf out hol
    rw [Fits, h1, h3] at hf
    obtain ⟨-, ⟨j, e, l, hj⟩, -⟩ := C39_logdet_continuous hv hf.1 hf.2 scr hs (hcont.trans ho) work out (zeros D) hol (by simp [zeros])
    exact ⟨j, e, l, hj⟩
  have hval' : o.contDeriv = true → ∀ cs x, Fits (c.obj scr work) cs x → ∃ j : List ℝ, ldCoeffGrad (c.obj scr work) cs x = j ∧ j.length = ts.length ∧
      (∀ out : List ℝ, out.length = ts.length → (c.obj scr work).ldCoeffGrad cs x out = .ok j) ∧ ∀ k, k < ts.length →
      HasDerivAt (fun z => Real.log (c.g.eval (diagD c.b.eff D ts (cs.set k z) (coords x)))) (j.getD k 0) (cs.getD k 0) := by
    intro hco cs x hf
    obtain ⟨j, e, l, hj⟩ := hG' hco cs x hf (zeros ts.length) (by simp [zeros])
    refine ⟨j, by rw [ldCoeffGrad, h3, e]; rfl, l, fun out ho => ?_, hj⟩
    obtain ⟨j', e', l', hj'⟩ := hG' hco cs x hf out ho
    rw [e']
    congr 1
    refine List.ext_getElem (by omega) fun k k1 k2 => ?_
    have := (hj' k (by omega)).unique (hj k (by omega))
    simpa [List.getD_eq_getElem?_getD, k1, k2] using this
  refine ⟨?_, ?_, fun hco cs x hf => ?_, fun hco cs x k hf hk => ?_⟩
  rotate_left 2
  · obtain ⟨j, e, l, hj, -⟩ := hval' hco cs x hf
    rw [e, h3]
    exact ⟨l, hj⟩
  · obtain ⟨j, e, l, -, hj⟩ := hval' hco cs x hf
    rw [e, ← hg]
    exact hj k hk
  · intro cs x s hf hsl
    rw [h2'] at hsl
    obtain ⟨s, rfl⟩ := List.length_eq_one_iff.1 hsl
    obtain ⟨j, e, l, hj, -⟩ := hval cs x s hf
    rw [e, h3]
    exact ⟨l, hj⟩
  · intro cs x s k ε hf hk hL
    obtain ⟨j, e, l, -, hj⟩ := hval cs x s hf
    rw [Fits, h1, h3] at hf
    rw [e]
    rw [← hg] at hL ⊢
    have hF : ∀ z t, HasDerivAt (fun z => unitDensity c.b.eff c.g.eval c.nugget D ts (cs.set k z) (coords x) t)
        (outP c D ts (cs.set k z) x (coords x (D - 1)) t k) z := by
      intro z t
      have h := outP_deriv hv (cs.set k z) x c.nugget (by simpa using hf.1) (coords x (D - 1)) t k hk
      simpa [Function.update_eq_self, List.getD_eq_getElem?_getD, show k < cs.length by omega] using h
    have hF0 : ∀ z t, HasDerivAt (fun z => unitDensity c.b.eff c.g.eval 0 D ts (cs.set k z) (coords x) t)
        (outP c D ts (cs.set k z) x (coords x (D - 1)) t k) z := by
      intro z t
      have h := outP_deriv hv (cs.set k z) x 0 (by simpa using hf.1) (coords x (D - 1)) t k hk
      simpa [Function.update_eq_self, List.getD_eq_getElem?_getD, show k < cs.length by omega] using h
    simp only [(hF0 _ _).deriv] at hL
    have hR := mesh_near hmesh ((continuous_outP hv cs x (coords x (D - 1)) k).comp (f := fun t => (cs.getD k 0, t))
      (continuous_const.prodMk continuous_id)) hL (unitDensity c.b.eff c.g.eval c.nugget D ts cs (coords x))
    have hj := hj k hk
    simp only [discretised, unitDensity_nugget _ _ c.nugget] at hj
    obtain ⟨d, a1, a2⟩ := deriv_close (F := fun z t => unitDensity c.b.eff c.g.eval 0 D ts (cs.set k z) (coords x) t + coords x (D - 1) * c.nugget)
      (offset_coeff hf.1 c.b.eff (coords x) k hk) (fun z t => (hF0 z t).add_const _) (continuous_outP hv cs x _ k)
      (fun z => (unitDensity_cont hv _ _ _).add continuous_const) hR hj
    refine ⟨d, ?_, a2⟩
    have e : ∀ z, monotone c.b.eff c.g.eval 0 D ts (cs.set k z) (coords x) = offset c.b.eff D ts (cs.set k z) (coords x)
        + (∫ t in (0 : ℝ)..1, (unitDensity c.b.eff c.g.eval 0 D ts (cs.set k z) (coords x) t + coords x (D - 1) * c.nugget)) - coords x (D - 1) * c.nugget := by
      intro z
      rw [monotone_unit, intervalIntegral.integral_add ((unitDensity_cont hv _ _ _).intervalIntegrable _ _) (continuous_const.intervalIntegrable _ _)]
      simp
      ring
    simp only [e]
    exact a1.sub_const _

end

/-! ### What the factory builds -/

theorem createComponent_near {f : FixedSet} (hb : FixedSet.Built f) (hcomp : f.isCompressed = true) (hD : 0 < f.dim) {ts : List (List Nat)}
    (hts : FixedSet.Holds f ts) {o : MapOptions} {b : Basis ℝ} {quad : Nat → QProg} {mesh : (ℝ → ℝ) → List (ℝ × ℝ)}
    (hsel : Selected o (maxOrder f) b quad mesh) (mem : Nat → Option ℝ) (work : List ℝ) {T : CMap} {w : List ℝ}
    (hT : createComponent f o mem work = .ok (T, w)) : CoeffNear o b f.dim ts T := by
  have hw := built_ofFixed hb hD hts
  obtain ⟨g1, g2⟩ := posFunc_ok o
  have hv : ValidComponent ⟨mk' f.dim f (FixedSet.degs f.dim ts), b, posFunc o, quad, o.contDeriv, o.nugget⟩ f.dim ts :=
    ⟨⟨f, hb, hcomp, rfl, hts, hw⟩, hD, hsel.c1, g1, hsel.shape⟩
  rw [createComponent, hsel.quad_ok, Res.bind_ok, hw, Res.bind_ok, hsel.read] at hT
  simp only [hts.1, Res.bind_ok] at hT
  obtain ⟨rfl, -⟩ := Prod.mk.inj (Res.ok.inj hT)
  exact component_coeffNear hv g2 rfl _ (by simp) work hsel.usesMesh hsel.isMesh

theorem total_near {o : MapOptions} {p : Nat} {b : Basis ℝ} {quad : Nat → QProg} {mesh : (ℝ → ℝ) → List (ℝ × ℝ)}
    (hsel : Selected o p b quad mesh) (mem : Nat → Option ℝ) (work : List ℝ) {n : Nat} (hn : 0 < n) {f : FixedSet} {T : CMap} {w : List ℝ}
    (hf : FixedSet.totalOrder n p = .ok f) (hT : createComponent f o mem work = .ok (T, w)) {ts : List (List Nat)} (hts : IsTotalOrder n p ts) :
    CoeffNear o b n ts T := by
  have hl : ∀ t ∈ MISet.toEnum n p, t.length = n := fun t ht => ((MISet.mem_toEnum _ _ _).1 ht).1
  have hh := FixedSet.csr_holds n _ hl
  have hmax := maxOrder_total hn p
  obtain rfl := totalOrder_unique hts ⟨MISet.toEnum_sorted n p, MISet.mem_toEnum n p⟩
  obtain rfl := Res.ok.inj (hf.symm.trans (FixedSet.totalOrder_csr n hn p))
  exact createComponent_near (f := FixedSet.csr n (MISet.toEnum n p)) (.totalOrder (FixedSet.totalOrder_csr n hn p))
    rfl hn hh (by rw [hmax]; exact hsel) mem work hT

theorem componentLoop_near {o : MapOptions} {p : Nat} {b : Basis ℝ} {quad : Nat → QProg} {mesh : (ℝ → ℝ) → List (ℝ × ℝ)}
    (hsel : Selected o p b quad mesh) (mem : Nat → Option ℝ) (work : List ℝ) (e : Nat) : ∀ n i comps, i + e + n < 2 ^ 32 →
    componentLoop e p o mem work i n = .ok comps → ∀ k m, comps[k]? = some m → ∀ ts, IsTotalOrder (e + (i + k) + 1) p ts →
      CoeffNear o b (e + (i + k) + 1) ts m := by
  intro n
  induction n with
  | zero =>
    intro i comps _ h k m hk
    obtain rfl := Res.ok.inj h
    simp at hk
  | succ n ih =>
    intro i comps hi h k m hk ts hts
    rw [componentLoop, Nat.mod_eq_of_lt (by omega), show i + e + 1 = e + i + 1 by omega] at h
    obtain ⟨f, hf, h⟩ := Res.bind_eq_ok.1 h
    obtain ⟨⟨T, w⟩, hT, h⟩ := Res.bind_eq_ok.1 h
    obtain ⟨rest, hr, h⟩ := Res.bind_eq_ok.1 h
    obtain rfl := Res.ok.inj h
    cases k with
    | zero =>
      obtain rfl : T = m := by simpa using hk
      exact total_near hsel mem work (by omega) hf hT hts
    | succ k =>
      have := ih (i + 1) rest (by omega) hr k m (by simpa using hk) ts (by rwa [show i + 1 + k = i + (k + 1) by omega])
      rwa [show i + 1 + k = i + (k + 1) by omega] at this

/-! ### Triangular maps -/

theorem coeffGradLoop_eq' {c pts sens : List ℝ} (ms : List CMap) (h : ∀ m ∈ ms, ∀ cs x s, Fits m cs x → s.length = m.outputDim →
      (coeffGrad m cs x s).length = m.numCoeffs ∧ ∀ out : List ℝ, out.length = m.numCoeffs → m.coeffGrad cs x s out = .ok (coeffGrad m cs x s))
    (hin : ∀ m ∈ ms, m.inputDim ≤ pts.length) : ∀ (s k : Nat) (out : List ℝ),
    c.length = k + (ms.map CMap.numCoeffs).sum → sens.length = s + (ms.map CMap.outputDim).sum →
    out.length = k + (ms.map CMap.numCoeffs).sum →
    TriangularMap.coeffGradLoop c pts sens ms s k out
      = .ok (out.take k ++ gradStack coeffGrad ms (c.drop k) pts (sens.drop s)) := by
  induction ms with
  | nil => intro s k out _ _ ho; simp at ho; simp [TriangularMap.coeffGradLoop, gradStack, ← ho]
  | cons m ms ih =>
    intro s k out hc hs ho
    simp only [List.map_cons, List.sum_cons] at hc hs ho
    have hle := hin m (by simp)
    have hfit : Fits m (slice c k m.numCoeffs) (pts.take m.inputDim) := ⟨by simp [slice, hc], by simp [hle]⟩
    have hm := h m (by simp) _ _ ((sens.drop s).take m.outputDim) hfit (by simp [hs])
    have hl := hm.1
    rw [TriangularMap.coeffGradLoop]
    by_cases h0 : m.numCoeffs = 0
    · rw [if_neg (by simp [h0]), ih (fun m' h' => h m' (by simp [h'])) (fun m' h' => hin m' (by simp [h'])) _ _ _
        (by omega) (by omega) (by omega), gradStack]
      have : coeffGrad m ((c.drop k).take m.numCoeffs) (pts.take m.inputDim) ((sens.drop s).take m.outputDim) = [] :=
        List.length_eq_zero_iff.mp (by rw [← h0]; exact hl)
      rw [this, h0]
      simp [List.drop_drop]
    · rw [if_pos h0, rows_ok (by simpa using hle), Res.bind_ok, rows_ok (by omega), Res.bind_ok, List.drop_zero,
        rows_ok (by omega), Res.bind_ok, hm.2 _ (rows_length (by omega)), Res.bind_ok,
        ih (fun m' h' => h m' (by simp [h'])) (fun m' h' => hin m' (by simp [h'])) _ _ _ (by omega) (by omega)
          (by rw [putRows_length (by omega) hl]; omega), putRows_take (by omega) hl, gradStack]
      simp [slice, List.drop_drop]

theorem ldCoeffGradLoop_eq' {c pts : List ℝ} (sens : List ℝ) (ms : List CMap) (h : ∀ m ∈ ms, ∀ cs x, Fits m cs x →
      (ldCoeffGrad m cs x).length = m.numCoeffs ∧ ∀ out : List ℝ, out.length = m.numCoeffs → m.ldCoeffGrad cs x out = .ok (ldCoeffGrad m cs x))
    (hin : ∀ m ∈ ms, m.inputDim ≤ pts.length) : ∀ (k : Nat) (out : List ℝ),
    c.length = k + (ms.map CMap.numCoeffs).sum → out.length = k + (ms.map CMap.numCoeffs).sum →
    TriangularMap.ldCoeffGradLoop c pts ms k out
      = .ok (out.take k ++ gradStack (fun m c x _ => ldCoeffGrad m c x) ms (c.drop k) pts sens) := by
  induction ms generalizing sens with
  | nil => intro k out _ ho; simp at ho; simp [TriangularMap.ldCoeffGradLoop, gradStack, ← ho]
  | cons m ms ih =>
    intro k out hc ho
    simp only [List.map_cons, List.sum_cons] at hc ho
    have hle := hin m (by simp)
    have hfit : Fits m (slice c k m.numCoeffs) (pts.take m.inputDim) := ⟨by simp [slice, hc], by simp [hle]⟩
    have hm := h m (by simp) _ _ hfit
    have hl := hm.1
    rw [TriangularMap.ldCoeffGradLoop]
    by_cases h0 : m.numCoeffs = 0
    · rw [if_neg (by simp [h0]), ih (sens.drop m.outputDim) (fun m' h' => h m' (by simp [h']))
        (fun m' h' => hin m' (by simp [h'])) _ _ (by omega) (by omega), gradStack]
      have : ldCoeffGrad m ((c.drop k).take m.numCoeffs) (pts.take m.inputDim) = [] :=
        List.length_eq_zero_iff.mp (by rw [← h0]; exact hl)
      rw [this, h0]
      simp
    · rw [if_pos h0, rows_ok (by simpa using hle), Res.bind_ok, List.drop_zero,
        rows_ok (by omega), Res.bind_ok, hm.2 _ (rows_length (by omega)), Res.bind_ok,
        ih (sens.drop m.outputDim) (fun m' h' => h m' (by simp [h'])) (fun m' h' => hin m' (by simp [h'])) _ _ (by omega)
          (by rw [putRows_length (by omega) hl]; omega), putRows_take (by omega) hl, gradStack]
      simp [slice, List.drop_drop]

theorem flatten_locate : ∀ (L : List Nat) (j : Nat), j < L.sum → ∃ i k, ∃ hi : i < L.length, k < L[i] ∧ ∀ l : List (List ℝ), l.map List.length = L →
    l.flatten.getD j 0 = (l.getD i []).getD k 0 ∧ ∀ z, (l.set i ((l.getD i []).set k z)).flatten = l.flatten.set j z := by
  intro L
  induction L with
  | nil => intro j hj; simp at hj
  | cons a L ih =>
    intro j hj
    by_cases h : j < a
    · refine ⟨0, j, by simp, by simpa using h, fun l hl => ?_⟩
      cases l with
      | nil => simp at hl
      | cons b l =>
        simp only [List.map_cons, List.cons.injEq] at hl
        refine ⟨?_, fun z => ?_⟩
        · simp [List.getD_eq_getElem?_getD, List.getElem?_append_left (show j < b.length by omega)]
        · simp [List.set_append_left _ _ (show j < b.length by omega)]
    · simp only [List.sum_cons] at hj
      obtain ⟨i, k, hi, hk, h'⟩ := ih (j - a) (by omega)
      refine ⟨i + 1, k, by simpa using hi, by simpa using hk, fun l hl => ?_⟩
      cases l with
      | nil => simp at hl
      | cons b l =>
        simp only [List.map_cons, List.cons.injEq] at hl
        obtain ⟨e1, e2⟩ := h' l hl.2
        refine ⟨?_, fun z => ?_⟩
        · rw [List.flatten_cons, List.getD_eq_getElem?_getD, List.getElem?_append_right (by omega), hl.1, ← List.getD_eq_getElem?_getD, e1]
          simp
        · rw [List.flatten_cons, List.set_append_right _ _ (by omega), hl.1, ← e2 z]
          simp

/-- The coefficient with index `j` of the map is a coefficient of one component. -/
theorem slices_locate {n : Nat} {ts : Fin n → List (List Nat)} {j : Nat} (hj : j < (List.ofFn fun i => (ts i).length).sum) :
    ∃ (i : Fin n) (k : Nat), k < (ts i).length ∧ ∀ cs c, Slices ts cs c →
      c.getD j 0 = (cs i).getD k 0 ∧ ∀ z, Slices ts (Function.update cs i ((cs i).set k z)) (c.set j z) := by
  obtain ⟨i, k, hi, hk, h⟩ := flatten_locate _ j hj
  have hi' : i < n := by simpa using hi
  refine ⟨⟨i, hi'⟩, k, by simpa using hk, fun cs c hc => ?_⟩
  obtain ⟨e1, e2⟩ := h (List.ofFn cs) (by
    rw [List.map_ofFn]; congr 1; funext i; exact hc.2 i)
  rw [hc.1] at e1 e2
  have hget : (List.ofFn cs).getD i [] = cs ⟨i, hi'⟩ := by simp [List.getD_eq_getElem?_getD, hi']
  rw [hget] at e1 e2
  refine ⟨e1, fun z => ⟨?_, fun i' => ?_⟩⟩
  · rw [← e2 z]
    congr 1
    refine List.ext_getElem (by simp) fun a h1 h2 => ?_
    rw [List.getElem_ofFn, List.getElem_set]
    by_cases hia : i = a
    · subst hia; simp
    · rw [if_neg hia, Function.update_of_ne (by simpa [Fin.ext_iff] using Ne.symm hia)]
      simp
  · by_cases h : i' = ⟨i, hi'⟩
    · subst h; simp [hc.2]
    · rw [Function.update_of_ne h]; exact hc.2 i'

theorem slices_unique {n : Nat} {ts : Fin n → List (List Nat)} {cs cs' : Fin n → List ℝ} {c : List ℝ} (h : Slices ts cs c) (h' : Slices ts cs' c) : cs = cs' := by
  refine List.ofFn_injective (List.eq_iff_flatten_eq.2 ⟨h.1.trans h'.1.symm, ?_⟩)
  rw [List.map_ofFn, List.map_ofFn]
  congr 1
  funext i
  simp [h.2, h'.2]

theorem slices_length {n : Nat} {ts : Fin n → List (List Nat)} {cs : Fin n → List ℝ} {c : List ℝ} (h : Slices ts cs c) :
    c.length = (List.ofFn fun i => (ts i).length).sum := by
  rw [← h.1, List.length_flatten, List.map_ofFn]
  congr 2
  funext i
  exact h.2 i

theorem gradStack_flatten {G : CMap → List ℝ → List ℝ → List ℝ → List ℝ} {x : List ℝ} : ∀ (comps : List CMap) (l : List (List ℝ)) (s : List ℝ),
    l.map List.length = comps.map CMap.numCoeffs → (∀ m ∈ comps, m.outputDim = 1) → s.length = comps.length →
    gradStack G comps l.flatten x s = (List.zipWith (fun m p => G m p.1 (x.take m.inputDim) [p.2]) comps (l.zip s)).flatten := by
  intro comps
  induction comps with
  | nil => intro l s _ _ _; simp [gradStack]
  | cons m ms ih =>
    intro l s hl ho hs
    cases l with
    | nil => simp at hl
    | cons a l =>
      cases s with
      | nil => simp at hs
      | cons s0 s =>
        simp only [List.map_cons, List.cons.injEq] at hl
        simp only [List.length_cons, add_left_inj] at hs
        rw [gradStack, List.flatten_cons, ← hl.1, List.drop_left, List.take_left, ho m (by simp), List.take_one, List.drop_one, List.tail_cons,
          ih l s hl.2 (fun m hm => ho m (by simp [hm])) hs]
        simp

/-- **C112.** What the gradient of the training objective of a triangular map has to do with that of the exact negative log-likelihood. -/
def Spec.TrainsGradient (o : MapOptions) (b : Basis ℝ) (k : Nat) {n : Nat} (ts : Fin n → List (List Nat)) (split : List ℝ → Fin n → List ℝ) (T : CMap) : Prop :=
  ∀ (d : Density) (c : List ℝ) (data : List (List ℝ)), HasDensity d → DifferentiatesDensity d → d.dim = n → c.length = T.numCoeffs → data ≠ [] →
    (∀ x ∈ data, x.length = k + n) → ∃ g : List ℝ, g.length = T.numCoeffs ∧
    /- `TrainCoeffGrad` and `operator()` return it, however the reductions are scheduled. -/
    (∀ schedule : Parallel.Split, schedule.indices.Perm (List.range data.length) → KL.trainCoeffGrad T d c data schedule = .ok g ∧
      ∀ grad : List ℝ, grad.length = T.numCoeffs → ∃ v, KL.objective T d c data = .ok v ∧ KL.call T d c grad data schedule = .ok (v, g)) ∧
    /- Entry `j` is close to the derivative of the exact negative log-likelihood in coefficient `j`. -/
    ∀ j, j < T.numCoeffs → ∀ ε γ G M : ℝ, (∀ x ∈ data, ∀ i : Fin n,
      PolyNear (quadDegree o + 1) (fun t => deriv (fun z => unitDensity b.eff (positive o.posFuncType) 0 (k + i + 1) (ts i) (split (c.set j z) i) (coords x) t)
        (c.getD j 0)) ε ∧
      |(gradp d (fn T c x)).getD i 0| ≤ G ∧
      |(gradp d (fn T c x)).getD i 0 - (gradp d (List.ofFn (exactImage b.eff (positive o.posFuncType) k ts (split c) x))).getD i 0| ≤ γ ∧
      |deriv (fun z => exactImage b.eff (positive o.posFuncType) k ts (split (c.set j z)) x i) (c.getD j 0)| ≤ M) →
      ∃ D, HasDerivAt (fun z => exactObjective b.eff (positive o.posFuncType) k ts d data (split (c.set j z))) D (c.getD j 0) ∧
        |g.getD j 0 - D| ≤ G * ε + γ * M

theorem exactImage_eq {b : Basis ℝ} {g : ℝ → ℝ} {k n : Nat} {ts : Fin n → List (List Nat)} {cs : Fin n → List ℝ} {x : List ℝ} (hx : x.length = k + n)
    (i : Fin n) : exactImage b g k ts cs x i = monotone b g 0 (k + i + 1) (ts i) (cs i) (coords x) := by
  rw [exactImage, exactTriangular, take_append_tail hx, List.length_take, hx, Nat.min_eq_left (by omega)]

theorem gradient_of_selected {o : MapOptions} {inputDim outputDim p : Nat} {b : Basis ℝ} {quad : Nat → QProg} {mesh : (ℝ → ℝ) → List (ℝ × ℝ)}
    (hsel : Selected o p b quad mesh) (h0 : 0 < outputDim) (h1 : outputDim ≤ inputDim) (h2 : inputDim < 2 ^ 32) (hB : GoodBasis o p)
    (hcd : o.contDeriv = true) {mem : Nat → Option ℝ} {work : List ℝ} {T : CMap} {w : List ℝ}
    (hT : createTriangular inputDim outputDim p o mem work = .ok (T, w)) {ts : Fin outputDim → List (List Nat)}
    (hts : ∀ i : Fin outputDim, IsTotalOrder (inputDim - outputDim + i + 1) p (ts i)) {split : List ℝ → Fin outputDim → List ℝ}
    (hTr : Trains o b (inputDim - outputDim) ts split T) : TrainsGradient o b (inputDim - outputDim) ts split T := by
  obtain ⟨T', comps, l1, hobj, s1, s2, s3, s4, s5, s6, s7, hE, -⟩ := triangular_of_selected hsel h0 h1 h2 mem work
  obtain ⟨rfl, -⟩ := Prod.mk.inj (Res.ok.inj (hT.symm.trans s1))
  set K := inputDim - outputDim with hK
  set P := positive o.posFuncType with hPdef
  have hN0 : T.numCoeffs ≠ 0 := by
    rw [s4]
    have := Finset.single_le_sum (f := fun i => (K + i + 1 + p).choose p) (fun _ _ => Nat.zero_le _) (mem_range.2 h0)
    have h' : 0 < (K + 0 + 1 + p).choose p := Nat.choose_pos (by omega)
    omega
  have hcomp : ∀ i m, comps[i]? = some m → ∃ hi : i < outputDim, m.inputDim = K + i + 1 ∧ m.outputDim = 1 ∧ m.numCoeffs = (ts ⟨i, hi⟩).length ∧
      CoeffNear o b (K + i + 1) (ts ⟨i, hi⟩) m := by
    intro i m hm
    have hi : i < outputDim := by have := (List.getElem?_eq_some_iff.1 hm).1; omega
    obtain ⟨ts', g1, g2⟩ := s7 i m hm
    obtain rfl := totalOrder_unique g1 (hts ⟨i, hi⟩)
    refine ⟨hi, g2.inputs, g2.outputs, g2.coeffs, ?_⟩
    have := componentLoop_near hsel mem work K outputDim 0 comps (by omega) l1 i m hm (ts ⟨i, hi⟩) (by simpa using g1)
    simpa using this
  have hout : ∀ m ∈ comps, m.outputDim = 1 := fun m hm => by
    obtain ⟨i, hi⟩ := List.mem_iff_getElem?.1 hm
    obtain ⟨-, -, h, -⟩ := hcomp i m hi
    exact h
  have hlens : comps.map CMap.numCoeffs = List.ofFn fun i => (ts i).length := by
    refine List.ext_getElem (by simp [s6]) fun i a1 a2 => ?_
    have a3 : i < comps.length := by simpa using a1
    obtain ⟨hi, -, -, h, -⟩ := hcomp i comps[i] (List.getElem?_eq_getElem a3)
    simpa using h
  have houts : (comps.map CMap.outputDim).sum = outputDim := by
    have : comps.map CMap.outputDim = List.replicate outputDim 1 := List.eq_replicate_iff.2 ⟨by simp [s6], fun v hv => by
      obtain ⟨m, hm, rfl⟩ := List.mem_map.1 hv
      exact hout m hm⟩
    rw [this]; simp
  -- the coefficient gradient of the map
  have hgrad : ∀ c x s : List ℝ, c.length = T.numCoeffs → x.length = K + outputDim → s.length = outputDim → ∃ gs : Fin outputDim → List ℝ,
      Slices ts gs (coeffGrad T c x s) ∧ (∀ out : List ℝ, out.length = T.numCoeffs → T.coeffGrad c x s out = .ok (coeffGrad T c x s)) ∧
      ∀ (i : Fin outputDim) (k : Nat) (ε : ℝ), k < (ts i).length →
        PolyNear (quadDegree o + 1) (fun t => deriv (fun z => unitDensity b.eff P 0 (K + i + 1) (ts i) ((split c i).set k z) (coords x) t) ((split c i).getD k 0)) ε →
        ∃ d, HasDerivAt (fun z => monotone b.eff P 0 (K + i + 1) (ts i) ((split c i).set k z) (coords x)) d ((split c i).getD k 0) ∧
          |(gs i).getD k 0 - s.getD i 0 * d| ≤ |s.getD i 0| * ε := by
    intro c x s hc hx hs
    have hsl := hTr.slices c hc
    have hloop : ∀ out : List ℝ, out.length = T.numCoeffs → T.coeffGrad c x s out = .ok (gradStack coeffGrad comps c x s) := by
      intro out ho
      rw [hobj]
      refine (coeffGradLoop_eq' comps (fun m hm => ?_) (fun m hm => ?_) 0 0 out (by rw [hc, s5]; simp) (by rw [hs, houts]; simp) (by rw [ho, s5]; simp)).trans ?_
      · obtain ⟨i, hi⟩ := List.mem_iff_getElem?.1 hm
        obtain ⟨_, -, -, -, h⟩ := hcomp i m hi
        exact h.returns
      · obtain ⟨i, hi⟩ := List.mem_iff_getElem?.1 hm
        obtain ⟨h, h', -⟩ := hcomp i m hi
        omega
      · simp
    have hcg : coeffGrad T c x s = gradStack coeffGrad comps c x s := by
      rw [coeffGrad, hloop _ (by simp [zeros])]; rfl
    have hcs : c = (List.ofFn (split c)).flatten := hsl.1.symm
    have hst : gradStack coeffGrad comps c x s
        = (List.zipWith (fun m p => coeffGrad m p.1 (x.take m.inputDim) [p.2]) comps ((List.ofFn (split c)).zip s)).flatten := by
      conv_lhs => rw [hcs]
      refine gradStack_flatten comps _ s ?_ hout (by omega)
      rw [hlens, List.map_ofFn]; congr 1; funext i; exact hsl.2 i
    have hfit : ∀ i : Fin outputDim, ∃ h : (i : Nat) < comps.length, Fits (comps[(i : Nat)]'h) (split c i) (x.take (comps[(i : Nat)]'h).inputDim) := by
      intro i
      have h : (i : Nat) < comps.length := by omega
      obtain ⟨a1, a2, a3, a4, a5⟩ := hcomp i _ (List.getElem?_eq_getElem h)
      exact ⟨h, by rw [a4]; exact hsl.2 i, by rw [List.length_take, a2]; omega⟩
    refine ⟨fun i => coeffGrad (comps[(i : Nat)]'(hfit i).1) (split c i) (x.take (comps[(i : Nat)]'(hfit i).1).inputDim) [s.getD i 0], ⟨?_, fun i => ?_⟩,
      fun out ho => by rw [hcg]; exact hloop out ho, fun i k ε hk hL => ?_⟩
    · rw [hcg, hst]
      congr 1
      refine List.ext_getElem (by simp; omega) fun i a1 a2 => ?_
      have hi : i < outputDim := by simpa using a1
      simp [List.getD_eq_getElem?_getD, hs]
    · obtain ⟨a1, a2, a3, a4, a5⟩ := hcomp i _ (List.getElem?_eq_getElem (hfit i).1)
      rw [← a4]
      exact (a5.returns _ _ _ (hfit i).2 (by rw [a3]; simp)).1
    · obtain ⟨a1, a2, a3, a4, a5⟩ := hcomp i _ (List.getElem?_eq_getElem (hfit i).1)
      have hagree : ∀ d < K + i + 1, coords (x.take (comps[(i : Nat)]'(hfit i).1).inputDim) d = coords x d := fun d hd => by
        rw [a2]; exact coords_take_lt x hd
      have := a5.near (split c i) (x.take (comps[(i : Nat)]'(hfit i).1).inputDim) (s.getD i 0) k ε (hfit i).2 hk (by
        simp only [unitDensity_agree (by omega) hagree]; exact hL)
      simp only [monotone_agree (by omega) hagree] at this
      exact this
  -- the coefficient gradient of the log-determinant
  have hldg : ∀ c x : List ℝ, c.length = T.numCoeffs → x.length = K + outputDim → ∃ gs : Fin outputDim → List ℝ,
      Slices ts gs (ldCoeffGrad T c x) ∧ (∀ out : List ℝ, out.length = T.numCoeffs → T.ldCoeffGrad c x out = .ok (ldCoeffGrad T c x)) ∧
      ∀ (i : Fin outputDim) (k : Nat), k < (ts i).length →
        HasDerivAt (fun z => Real.log (P (diagD b.eff (K + i + 1) (ts i) ((split c i).set k z) (coords x)))) ((gs i).getD k 0) ((split c i).getD k 0) := by
    intro c x hc hx
    have hsl := hTr.slices c hc
    have hloop : ∀ out : List ℝ, out.length = T.numCoeffs →
        T.ldCoeffGrad c x out = .ok (gradStack (fun m c x _ => ldCoeffGrad m c x) comps c x (zeros outputDim)) := by
      intro out ho
      rw [hobj]
      refine (ldCoeffGradLoop_eq' (zeros outputDim) comps (fun m hm => ?_) (fun m hm => ?_) 0 out (by rw [hc, s5]; simp) (by rw [ho, s5]; simp)).trans ?_
      · obtain ⟨i, hi⟩ := List.mem_iff_getElem?.1 hm
        obtain ⟨_, -, -, -, h⟩ := hcomp i m hi
        exact h.ldReturns hcd
      · obtain ⟨i, hi⟩ := List.mem_iff_getElem?.1 hm
        obtain ⟨h, h', -⟩ := hcomp i m hi
        omega
      · simp
    have hcg : ldCoeffGrad T c x = gradStack (fun m c x _ => ldCoeffGrad m c x) comps c x (zeros outputDim) := by
      rw [ldCoeffGrad, hloop _ (by simp [zeros])]; rfl
    have hcs : c = (List.ofFn (split c)).flatten := hsl.1.symm
    have hst : gradStack (fun m c x _ => ldCoeffGrad m c x) comps c x (zeros outputDim)
        = (List.zipWith (fun m p => ldCoeffGrad m p.1 (x.take m.inputDim)) comps ((List.ofFn (split c)).zip (zeros outputDim))).flatten := by
      conv_lhs => rw [hcs]
      refine gradStack_flatten comps _ (zeros outputDim) ?_ hout (by simp [zeros]; omega)
      rw [hlens, List.map_ofFn]; congr 1; funext i; exact hsl.2 i
    have hfit : ∀ i : Fin outputDim, ∃ h : (i : Nat) < comps.length, Fits (comps[(i : Nat)]'h) (split c i) (x.take (comps[(i : Nat)]'h).inputDim) := by
      intro i
      have h : (i : Nat) < comps.length := by omega
      obtain ⟨a1, a2, a3, a4, a5⟩ := hcomp i _ (List.getElem?_eq_getElem h)
      exact ⟨h, by rw [a4]; exact hsl.2 i, by rw [List.length_take, a2]; omega⟩
    refine ⟨fun i => ldCoeffGrad (comps[(i : Nat)]'(hfit i).1) (split c i) (x.take (comps[(i : Nat)]'(hfit i).1).inputDim), ⟨?_, fun i => ?_⟩,
      fun out ho => by rw [hcg]; exact hloop out ho, fun i k hk => ?_⟩
    · rw [hcg, hst]
      congr 1
      refine List.ext_getElem (by simp [zeros]; omega) fun i a1 a2 => ?_
      simp
    · obtain ⟨a1, a2, a3, a4, a5⟩ := hcomp i _ (List.getElem?_eq_getElem (hfit i).1)
      rw [← a4]
      exact (a5.ldReturns hcd _ _ (hfit i).2).1
    · obtain ⟨a1, a2, a3, a4, a5⟩ := hcomp i _ (List.getElem?_eq_getElem (hfit i).1)
      have hagree : ∀ d < K + i + 1, coords (x.take (comps[(i : Nat)]'(hfit i).1).inputDim) d = coords x d := fun d hd => by
        rw [a2]; exact coords_take_lt x hd
      have := a5.ldDeriv hcd (split c i) (x.take (comps[(i : Nat)]'(hfit i).1).inputDim) k (hfit i).2 hk
      simp only [diagD_agree (by omega) hagree] at this
      exact this
  have hbs : ∀ m ≤ p, ContDiff ℝ 1 (b.eff.val m) := fun m hm => isBasis_contDiff hsel.isBasis hB.bounds m hm
  have hps : ∀ i, ∀ t ∈ ts i, ∀ m ∈ t, m ≤ p := fun i t ht m hm => by
    have := ((hts i).2 t).1 ht
    exact (List.single_le_sum (by simp) m hm).trans this.2
  have hexact : ∀ cs x, x.length = K + outputDim → exactLogDet b.eff P K ts cs x
      = ∑ i : Fin outputDim, Real.log (P (diagD b.eff (K + i + 1) (ts i) (cs i) (coords x))) := fun cs x hx => by
    rw [exactLogDet, exact_det hbs hps _ (positive_contDiff o.posFuncType 1), Real.log_prod fun i _ => (positive_pos' o.posFuncType _).ne', take_append_tail hx,
      List.length_take, hx, Nat.min_eq_left (by omega)]
  intro d c data hd hdd hdim hc hne hx
  -- one sample
  have hfits : ∀ x ∈ data, Fits T c x := fun x h => ⟨hc, by rw [hx x h, s2]; omega⟩
  have hyl : ∀ x ∈ data, (fn T c x).length = d.dim := fun x h => by rw [(hE c x (hfits x h)).1, s3, hdim]
  have hsl : ∀ x ∈ data, (gradp d (fn T c x)).length = outputDim := fun x h => by rw [(hdd _ (hyl x h)).2.2.1, hdim]
  have hGl : ∀ x ∈ data, (coeffGrad T c x (gradp d (fn T c x))).length = T.numCoeffs ∧ (ldCoeffGrad T c x).length = T.numCoeffs := fun x h => by
    obtain ⟨gs, q1, -⟩ := hgrad c x _ hc (hx x h) (hsl x h)
    obtain ⟨gs', q1', -⟩ := hldg c x hc (hx x h)
    exact ⟨by rw [slices_length q1, ← slices_length (hTr.slices c hc), hc], by rw [slices_length q1', ← slices_length (hTr.slices c hc), hc]⟩
  set Gx : List ℝ → List ℝ := fun x => List.zipWith (· + ·) (coeffGrad T c x (gradp d (fn T c x))) (ldCoeffGrad T c x) with hGx
  have hcol : ∀ x ∈ data, Pullback.logDensityCoeffGrad T d c x = .ok (Gx x) := by
    intro x h
    obtain ⟨gs, q1, q2, -⟩ := hgrad c x _ hc (hx x h) (hsl x h)
    obtain ⟨gs', -, q2', -⟩ := hldg c x hc (hx x h)
    have hsd : d.logDensityInputGrad (fn T c x) = .ok (gradp d (fn T c x)) := by
      rw [Density.logDensityInputGrad]; exact (hdd _ (hyl x h)).1 _ (by simp [hyl x h])
    rw [Pullback.logDensityCoeffGrad, Pullback.coeffGrad, (hE c x (hfits x h)).2 _ (by simp), Res.bind_ok, hsd, Res.bind_ok, q2 _ (by simp), Res.bind_ok,
      q2' _ (by simp), Res.bind_ok, addInPlace_zip (hGl x h).1 (hGl x h).2]
  have hcols := KL.columns_ok hcol
  set g : List ℝ := (List.range T.numCoeffs).map fun i => (-1 / data.length : ℝ) * ((List.range data.length).map fun j => ((data.map Gx).getD j []).getD i 0).sum
    with hg
  have hgl : g.length = T.numCoeffs := by simp [hg]
  refine ⟨g, hgl, fun schedule hsp => ?_, fun j hj ε γ G M hyp => ?_⟩
  · have hr : Parallel.reduce .sum true T.numCoeffs (fun i j => ((data.map Gx).getD j []).getD i 0) (-1 / data.length) schedule = g := by
      rw [Parallel.C51_reduce _ _ _ _ _ _ _ hsp]; rfl
    obtain ⟨Pd, hPd⟩ := ((C52_dimensions (m := T) (d := d) c).1).2 (by rw [s3, hdim])
    obtain ⟨v, hv, -⟩ := hTr.objective d c data hd hdim hc hne hx
    have hw : ∀ grad : List ℝ, grad.length = T.numCoeffs → KL.writeFrom grad 0 g = .ok g := by
      intro grad h
      have := KL.writeFrom_ok g grad 0 (by omega)
      rw [this]
      simp [hgl, ← h]
    refine ⟨?_, fun grad hgr => ⟨_, hv, ?_⟩⟩
    · rw [KL.trainCoeffGrad, KL.coeffGrad, hPd, Res.bind_ok, hcols, Res.bind_ok]
      simp only [hr]
      exact hw _ (by simp)
    · rw [KL.objective, hPd, Res.bind_ok] at hv
      obtain ⟨dx, hdx, hav⟩ := Res.bind_eq_ok.mp hv
      rw [KL.call, if_pos hc, KL.objectivePlusCoeffGrad, hPd, Res.bind_ok, hdx, Res.bind_ok, hcols, Res.bind_ok]
      simp only [hr]
      rw [hw grad hgr, Res.bind_ok, Res.ok.inj hav]
  · obtain ⟨i, k, hk, hloc⟩ := slices_locate (ts := ts) (j := j) (by rw [← slices_length (hTr.slices c hc), hc]; exact hj)
    obtain ⟨hck, -⟩ := hloc _ _ (hTr.slices c hc)
    have hset : ∀ z, split (c.set j z) = Function.update (split c) i ((split c i).set k z) := fun z =>
      slices_unique (hTr.slices (c.set j z) (by simpa using hc)) ((hloc _ _ (hTr.slices c hc)).2 z)
    have hcc : c.set j (c.getD j 0) = c := set_getD _ _ (by omega)
    have hsample : ∀ x ∈ data, ∃ D, HasDerivAt (fun z => logp d (List.ofFn (exactImage b.eff P K ts (split (c.set j z)) x))
        + exactLogDet b.eff P K ts (split (c.set j z)) x) D (c.getD j 0) ∧ |(Gx x).getD j 0 - D| ≤ G * ε + γ * M := by
      intro x h
      obtain ⟨gs, q1, -, q3⟩ := hgrad c x _ hc (hx x h) (hsl x h)
      obtain ⟨y1, y2, y3, y4⟩ := hyp x h i
      simp only [hset, Function.update_self] at y1
      rw [hck] at y1
      obtain ⟨d0, b1, b2⟩ := q3 i k ε hk y1
      have hq := (hloc _ _ q1).1
      rw [← hq] at b2
      have hsl' := hsl x h
      generalize hse : gradp d (fn T c x) = s at *
      have himg : ∀ i', HasDerivAt (fun z => exactImage b.eff P K ts (split (c.set j z)) x i') ((unit outputDim i).getD i' 0 * d0) (c.getD j 0) := by
        intro i'
        simp only [exactImage_eq (hx x h), hset]
        rw [unit_getD i'.2]
        by_cases hi : i' = i
        · subst hi
          simp only [Function.update_self, if_true, one_mul]
          rw [hck]; exact b1
        · have hne' : (i : Nat) ≠ i' := fun e => hi (Fin.ext e.symm)
          simp only [Function.update_of_ne hi, if_neg hne', zero_mul]
          exact hasDerivAt_const _ _
      have hd0 : |d0| ≤ M := by
        have := (himg i).deriv
        rw [unit_getD i.2, if_pos rfl, one_mul] at this
        rwa [this] at y4
      have hpath : Path d.dim (fun z => List.ofFn (exactImage b.eff P K ts (split (c.set j z)) x)) ((unit outputDim i).map (· * d0)) (c.getD j 0) := by
        refine ⟨fun z => by simp [hdim], by simp [hdim], fun i' hi' => ?_⟩
        rw [hdim] at hi'
        have := himg ⟨i', hi'⟩
        simpa [List.getD_eq_getElem?_getD, hi'] using this
      have hlp := (hdd (List.ofFn (exactImage b.eff P K ts (split c) x)) (by simp [hdim])).2.2.2 (fun _ => []) _ [] _ (c.getD j 0)
        ⟨fun _ => rfl, rfl, fun i hi => absurd hi (by omega)⟩ hpath rfl (by rw [hcc])
      obtain ⟨gs', p1, -, p3⟩ := hldg c x hc (hx x h)
      have hld : HasDerivAt (fun z => exactLogDet b.eff P K ts (split (c.set j z)) x) ((ldCoeffGrad T c x).getD j 0) (c.getD j 0) := by
        simp only [hexact _ x (hx x h), hset]
        have hsum := HasDerivAt.fun_sum (u := Finset.univ) (x := c.getD j 0)
          (A := fun (i' : Fin outputDim) z => Real.log (P (diagD b.eff (K + i' + 1) (ts i') (Function.update (split c) i ((split c i).set k z) i') (coords x))))
          (A' := fun i' => if i' = i then (ldCoeffGrad T c x).getD j 0 else 0) fun i' _ => by
            by_cases hi : i' = i
            · subst hi
              simp only [Function.update_self, if_true]
              rw [(hloc _ _ p1).1, hck]
              exact p3 i' k hk
            · simp only [Function.update_of_ne hi, if_neg hi]
              exact hasDerivAt_const _ _
        refine hsum.congr_deriv ?_
        simp
      refine ⟨_, hlp.fun_add hld, ?_⟩
      have e1 : dot ([] : List ℝ) [] = 0 := rfl
      have hgl2 : (gradp d (List.ofFn (exactImage b.eff P K ts (split c) x))).length = outputDim := by
        rw [((hdd (List.ofFn (exactImage b.eff P K ts (split c) x)) (by simp [hdim])).2.2.1), hdim]
      have e2 : dot (gradp d (List.ofFn (exactImage b.eff P K ts (split c) x))) ((unit outputDim i).map (· * d0))
          = (gradp d (List.ofFn (exactImage b.eff P K ts (split c) x))).getD i 0 * d0 := by
        rw [dot_eq_sum hgl2 (by simp), Finset.sum_eq_single (i : Nat)]
        · simp [List.getD_eq_getElem?_getD, unit]
        · intro i' hi' hne'
          have hlt := Finset.mem_range.1 hi'
          have : ((unit outputDim i).map (· * d0)).getD i' 0 = (unit outputDim i).getD i' 0 * d0 := by
            simp [List.getD_eq_getElem?_getD, hlt]
          rw [this, unit_getD hlt, if_neg (Ne.symm hne')]; ring
        · intro hn; exact absurd (Finset.mem_range.2 i.2) hn
      have e5 : (Gx x).getD j 0 = (coeffGrad T c x s).getD j 0 + (ldCoeffGrad T c x).getD j 0 := by
        have h1 := (hGl x h).1
        have h2 := (hGl x h).2
        rw [hGx]
        simp only [hse]
        rw [hse] at h1
        simp [List.getD_eq_getElem?_getD, h1, h2, hj]
      rw [e5, e1, e2]
      set s' := (gradp d (List.ofFn (exactImage b.eff P K ts (split c) x))).getD i 0
      have hε : 0 ≤ ε := by
        obtain ⟨Q, -, hQ⟩ := y1
        have := (abs_nonneg _).trans (hQ 0 le_rfl zero_le_one)
        linarith
      calc _ = |((coeffGrad T c x s).getD j 0 - s.getD i 0 * d0) + (s.getD i 0 - s') * d0| := by congr 1; ring
        _ ≤ |s.getD i 0| * ε + |s.getD i 0 - s'| * |d0| := (abs_add_le _ _).trans (add_le_add b2 (abs_mul _ _).le)
        _ ≤ G * ε + γ * M := add_le_add (mul_le_mul_of_nonneg_right y2 hε) (mul_le_mul y3 hd0 (abs_nonneg _) ((abs_nonneg _).trans y3))
    choose! D hD1 hD2 using hsample
    refine ⟨-(data.map D).sum / data.length, ?_, ?_⟩
    · simp only [exactObjective]
      exact ((list_sum_deriv hD1).neg).div_const _
    · have : g.getD j 0 = -(data.map fun x => (Gx x).getD j 0).sum / data.length := by
        rw [hg, List.getD_eq_getElem?_getD, List.getElem?_map, List.getElem?_range hj, Option.map_some, Option.getD_some]
        have : ((List.range data.length).map fun j' => ((data.map Gx).getD j' []).getD j 0) = data.map fun x => (Gx x).getD j 0 := by
          refine List.ext_getElem (by simp) fun a h1 h2 => ?_
          have ha : a < data.length := by simpa using h2
          simp [List.getD_eq_getElem?_getD, ha]
        rw [this]; ring
      rw [this]
      exact average_close hne hD2

/-- **C112.** Under the same conditions the gradient handed to the optimiser is that of the exact
negative log-likelihood, up to explicit errors. -/
theorem C112_gradient {o : MapOptions} {inputDim outputDim p : Nat} (h0 : 0 < outputDim) (h1 : outputDim ≤ inputDim)
    (h2 : inputDim < 2 ^ 32) (hB : GoodBasis o p) (hQ : GoodQuad o) (hcd : o.contDeriv = true) :
    ∃ (b : Basis ℝ) (ts : Fin outputDim → List (List Nat)), IsBasisOf o (fun n => n ≤ p) b ∧
      (∀ i : Fin outputDim, IsTotalOrder (inputDim - outputDim + i + 1) p (ts i)) ∧ ∀ mem work, ∃ T split,
      createTriangular inputDim outputDim p o mem work = .ok (T, zeros T.numCoeffs) ∧ Trains o b (inputDim - outputDim) ts split T ∧
      TrainsGradient o b (inputDim - outputDim) ts split T := by
  obtain ⟨b, quad, mesh, hsel⟩ := selected le_rfl hB hQ
  obtain ⟨ts, hts, h⟩ := trains_of_selected hsel h0 h1 h2 hB hcd
  refine ⟨b, ts, hsel.isBasis, hts, fun mem work => ?_⟩
  obtain ⟨T, split, t1, t2⟩ := h mem work
  exact ⟨T, split, t1, t2, gradient_of_selected hsel h0 h1 h2 hB hcd t1 hts t2⟩

theorem std_gradp (n : Nat) {x : List ℝ} (hx : x.length = n) {i : Nat} (hi : i < n) : (gradp (Gaussian.ofDim n).density x).getD i 0 = -x.getD i 0 := by
  have hg := (C53_density (.dim n)).2.2.1 x hx
  have h := hg.2.2.2 (fun _ => []) (fun z => x.set i z) [] _ (x.getD i 0) ⟨fun _ => rfl, rfl, fun i hi => absurd hi (by omega)⟩
    (path_set hi hx _) rfl (set_getD _ _ (by omega))
  rw [dot_comm' (show _ = n from hg.2.2.1) (by simp), dot_unit hi hg.2.2.1] at h
  have e : (fun z => logp (Gaussian.ofDim n).density (x.set i z))
      = fun z => -(1 / 2) * (z ^ 2 + ((x.map (· ^ 2)).sum - x.getD i 0 ^ 2)) - (1 / 2) * (n * Real.log (2 * Real.pi)) := by
    funext z
    have hix : i < x.length := by omega
    rw [std_logp n (by simpa using hx), List.map_set]
    have := List.sum_set' (x.map (· ^ 2)) i (z ^ 2)
    rw [dif_pos (by simpa using hix)] at this
    rw [this]
    simp only [List.getElem_map, List.getD_eq_getElem?_getD, List.getElem?_eq_getElem hix, Option.getD_some]
    ring
  rw [e] at h
  have h' : HasDerivAt (fun z => -(1 / 2) * (z ^ 2 + ((x.map (· ^ 2)).sum - x.getD i 0 ^ 2)) - (1 / 2) * (n * Real.log (2 * Real.pi))) (-x.getD i 0) (x.getD i 0) := by
    refine ((((hasDerivAt_pow 2 (x.getD i 0)).add_const _).const_mul (-(1 / 2))).sub_const _).congr_deriv ?_
    norm_num
    ring
  have := h.unique h'
  rwa [show dot ([] : List ℝ) [] = 0 from rfl, zero_add] at this

/-- **C112.** Training on the standard normal reference: if at the samples every integrand is within `ε₀/2`, and its derivative in coefficient `j` within
`ε/2`, of a polynomial of the degree of the rule, and the images under the exact map and their derivatives in coefficient `j` are at most `R` and `M` in size, then
entry `j` of the gradient is the derivative of the exact negative log-likelihood up to `(R + ε₀) ε + ε₀ M`. -/
theorem C112_gradient_gaussian {o : MapOptions} {b : Basis ℝ} {k n : Nat} {ts : Fin n → List (List Nat)} {split : List ℝ → Fin n → List ℝ} {T : CMap}
    (h : Trains o b k ts split T) (hG : TrainsGradient o b k ts split T) {c : List ℝ} (hc : c.length = T.numCoeffs) {data : List (List ℝ)} (hne : data ≠ [])
    (hx : ∀ x ∈ data, x.length = k + n) {j : Nat} (hj : j < T.numCoeffs) {ε₀ ε R M : ℝ}
    (hn : ∀ x ∈ data, ∀ i : Fin n, PolyNear (quadDegree o + 1)
      (unitDensity b.eff (positive o.posFuncType) 0 (k + i + 1) (ts i) (split c i) (coords x)) ε₀ ∧
      PolyNear (quadDegree o + 1) (fun t => deriv (fun z => unitDensity b.eff (positive o.posFuncType) 0 (k + i + 1) (ts i) (split (c.set j z) i) (coords x) t)
        (c.getD j 0)) ε)
    (hR : ∀ x ∈ data, ∀ i, |exactImage b.eff (positive o.posFuncType) k ts (split c) x i| ≤ R)
    (hM : ∀ x ∈ data, ∀ i, |deriv (fun z => exactImage b.eff (positive o.posFuncType) k ts (split (c.set j z)) x i) (c.getD j 0)| ≤ M)
    {schedule : Parallel.Split} (hs : schedule.indices.Perm (List.range data.length)) :
    ∃ g D, KL.trainCoeffGrad T (Gaussian.ofDim n).density c data schedule = .ok g ∧
      HasDerivAt (fun z => exactObjective b.eff (positive o.posFuncType) k ts (Gaussian.ofDim n).density data (split (c.set j z))) D (c.getD j 0) ∧
      |g.getD j 0 - D| ≤ (R + ε₀) * ε + ε₀ * M := by
  have hd := C53_density (.dim n)
  obtain ⟨g, g1, g2, g3⟩ := hG (Gaussian.ofDim n).density c data hd.2.1 hd.2.2.1 rfl hc hne hx
  obtain ⟨D, d1, d2⟩ := g3 j hj ε ε₀ (R + ε₀) M fun x hxd i => by
    obtain ⟨hlen, hval⟩ := h.images c x hc (hx x hxd)
    have hv := hval i ε₀ (hn x hxd i).1
    have hr := hR x hxd i
    refine ⟨(hn x hxd i).2, ?_, ?_, hM x hxd i⟩
    · rw [std_gradp n hlen i.2, abs_neg]
      have h1 := abs_le.1 hv
      have h2 := abs_le.1 hr
      rw [abs_le]; constructor <;> linarith
    · rw [std_gradp n hlen i.2, std_gradp n (by simp) i.2, neg_sub_neg, abs_sub_comm]
      simpa [List.getD_eq_getElem?_getD] using hv
  exact ⟨g, D, (g2 schedule hs).1, d1, d2⟩

/-! ### Non-vacuity -/

/-- One input, order 2, the exponential: the exact map for the coefficients `(0, z, 1/2)` is `exp(z) (exp(y) - 1) - 1/2`, with slope `exp(z + y)`. -/
theorem exp_exact' {b : Basis ℝ} {o : MapOptions} (hl : o.basisLB = none) (hu : o.basisUB = none) (ht : o.basisType = .probabilistHermite)
    (hN : o.basisNorm = false) (hg : o.posFuncType = .exp) (hb : IsBasisOf o (fun n => n ≤ 2) b) (z : ℝ) (x : Nat → ℝ) :
    (∀ t, unitDensity b.eff (positive o.posFuncType) 0 1 [[0], [1], [2]] [0, z, 1 / 2] x t = x 0 * Real.exp (z + t * x 0)) ∧
    monotone b.eff (positive o.posFuncType) 0 1 [[0], [1], [2]] [0, z, 1 / 2] x = Real.exp z * (Real.exp (x 0) - 1) - 1 / 2 ∧
    positive o.posFuncType (diagD b.eff 1 [[0], [1], [2]] [0, z, 1 / 2] x) = Real.exp (z + x 0) := by
  obtain ⟨a, -, -, h1, h2⟩ := hb
  have hv : ∀ y, b.eff.val 2 y = y ^ 2 - 1 := fun y => by
    simp only [Basis.eff, h2 2 le_rfl, hl, hu, extend_none, ht, rawFamily, h1 (.inl hN)]
    rw [Hermite.He_rec, Hermite.He_one, Hermite.He_zero]
    norm_num
    ring
  have hv1 : ∀ y, b.eff.val 1 y = y := fun y => by
    simp only [Basis.eff, h2 1 (by norm_num), hl, hu, extend_none, ht, rawFamily, h1 (.inl hN)]
    rw [Hermite.He_one]
    norm_num
  have he : ∀ y, expandAt b.eff 1 [[0], [1], [2]] [0, z, 1 / 2] y = z * y 0 + 1 / 2 * (y 0 ^ 2 - 1) := fun y => by
    simp [expandAt, expansion, termProd, Finset.sum_range_succ, hv, hv1]
  have hdg : ∀ y, diagD b.eff 1 [[0], [1], [2]] [0, z, 1 / 2] y = z + y 0 := fun y => by
    have hfun : (fun s => expandAt b.eff 1 [[0], [1], [2]] [0, z, 1 / 2] (Function.update y (1 - 1) s)) = fun s => z * s + 1 / 2 * (s ^ 2 - 1) := by
      funext s; rw [he]; simp
    have hD : HasDerivAt (fun s : ℝ => z * s + 1 / 2 * (s ^ 2 - 1)) (z + y 0) (y 0) :=
      (((hasDerivAt_id (y 0)).const_mul z).add (((hasDerivAt_pow 2 (y 0)).sub_const 1).const_mul (1 / 2))).congr_deriv (by norm_num; ring)
    rw [diagD, partialDeriv, hfun]
    exact hD.deriv
  have hden : ∀ s, density b.eff (positive o.posFuncType) 0 1 [[0], [1], [2]] [0, z, 1 / 2] x s = Real.exp z * Real.exp s := fun s => by
    rw [density, hdg, hg]; simp [positive, Real.exp_add]
  refine ⟨fun t => by rw [unitDensity, hden, Real.exp_add], ?_, by rw [hdg, hg]; rfl⟩
  rw [monotone, offset, he]
  simp only [hden, intervalIntegral.integral_const_mul, integral_exp]
  simp
  ring

/-- Non-vacuity: one input, order 2, 41 Clenshaw–Curtis points, the exponential, coefficients `(0, 0, 1/2)`, any samples in `[-7, 7]`: the objective is within `2e-7`
of the negative log-likelihood of the samples for the map `exp(y) - 3/2`, and the second entry of the gradient is within `1e-6` of its derivative. -/
example (mem : Nat → Option ℝ) (work : List ℝ) (data : List (List ℝ)) (hne : data ≠ []) (hx : ∀ x ∈ data, x.length = 1) (h7 : ∀ x ∈ data, |x.getD 0 0| ≤ 7)
    (schedule : Parallel.Split) (hs : schedule.indices.Perm (List.range data.length)) :
    ∃ T v g D, createTriangular 1 1 2 { basisNorm := false, quadType := .clenshawCurtis, quadPts := 41, posFuncType := .exp } mem work = .ok (T, zeros T.numCoeffs) ∧
      KL.objective T (Gaussian.ofDim 1).density [0, 0, 1 / 2] data = .ok (some v) ∧
      |v - -(data.map fun x => logp (Gaussian.ofDim 1).density [Real.exp (x.getD 0 0) - 3 / 2] + x.getD 0 0).sum / data.length| ≤ 2e-7 ∧
      KL.trainCoeffGrad T (Gaussian.ofDim 1).density [0, 0, 1 / 2] data schedule = .ok g ∧
      HasDerivAt (fun z => -(data.map fun x => logp (Gaussian.ofDim 1).density [Real.exp z * (Real.exp (x.getD 0 0) - 1) - 1 / 2] + (z + x.getD 0 0)).sum
        / data.length) D 0 ∧ |g.getD 1 0 - D| ≤ 1e-6 := by
  obtain ⟨b, ts, hb, hts, h⟩ := C112_gradient (inputDim := 1) (outputDim := 1) (p := 2) (by decide) (by decide) (by decide)
    (o := { basisNorm := false, quadType := .clenshawCurtis, quadPts := 41, posFuncType := .exp })
    ⟨fun l hl => by simp at hl, fun h => by simp [Bounded] at h, fun h => by simp [Bounded] at h, fun _ h => by simp at h⟩
    ⟨by simp, by simp, by simp⟩ rfl
  obtain ⟨T, split, t1, hT, hG⟩ := h mem work
  have hts0 : ∀ i, ts i = [[0], [1], [2]] := fun i => by
    obtain rfl : i = 0 := Subsingleton.elim _ _
    refine totalOrder_unique (hts 0) ⟨by decide, fun v => ?_⟩
    constructor
    · intro hv
      fin_cases hv <;> simp
    · rintro ⟨h1, h2⟩
      obtain ⟨a, rfl⟩ := List.length_eq_one_iff.1 h1
      simp at h2
      interval_cases a <;> simp
  have hnc : T.numCoeffs = 3 := by
    have := slices_length (hT.slices (zeros T.numCoeffs) (by simp [zeros]))
    simpa [zeros, hts0] using this
  have hcs : ∀ z i, split [0, z, 1 / 2] i = [0, z, 1 / 2] := fun z i => by
    obtain rfl : i = 0 := Subsingleton.elim _ _
    simpa using (hT.slices [0, z, 1 / 2] (by rw [hnc]; rfl)).1
  have hE := fun z x => exp_exact' (o := { basisNorm := false, quadType := .clenshawCurtis, quadPts := 41, posFuncType := .exp })
    rfl rfl rfl rfl rfl hb z (coords x)
  have hset : ∀ z : ℝ, ([0, 0, 1 / 2] : List ℝ).set 1 z = [0, z, 1 / 2] := fun z => rfl
  have himg : ∀ z, ∀ x ∈ data, ∀ i, exactImage b.eff (positive .exp) (1 - 1) ts (split [0, z, 1 / 2]) x i = Real.exp z * (Real.exp (x.getD 0 0) - 1) - 1 / 2 :=
    fun z x h i => by
      obtain rfl : i = 0 := Subsingleton.elim _ _
      rw [exactImage_eq (by rw [hx x h]), hts0, hcs]
      exact (hE z x).2.1
  have hb7 : ∀ x ∈ data, Real.exp (x.getD 0 0) ≤ 1200 := fun x h => by
    calc Real.exp (x.getD 0 0) ≤ Real.exp 7 := Real.exp_le_exp.2 (abs_le.1 (h7 x h)).2
      _ = Real.exp 1 ^ 7 := by rw [← Real.exp_nat_mul]; norm_num
      _ ≤ 2.7182818286 ^ 7 := pow_le_pow_left₀ (Real.exp_pos 1).le Real.exp_one_lt_d9.le 7
      _ ≤ 1200 := by norm_num
  have hbs : ∀ m ≤ 2, ContDiff ℝ 1 (b.eff.val m) := fun m hm => isBasis_contDiff hb (fun l hl => by simp at hl) m hm
  have hld : ∀ z, ∀ x ∈ data, exactLogDet b.eff (positive .exp) (1 - 1) ts (split [0, z, 1 / 2]) x = z + x.getD 0 0 := fun z x h => by
    have hp : ∀ i, ∀ t ∈ ts i, ∀ m ∈ t, m ≤ 2 := fun i t ht m hm => by
      rw [hts0] at ht
      fin_cases ht <;> simp at hm <;> omega
    rw [exactLogDet, exact_det hbs hp _ (positive_contDiff .exp 1)]
    have e := take_append_tail (k := 0) (n := 1) (hx x h)
    simp only [Nat.sub_self, Finset.univ_unique, Finset.prod_singleton, Fin.default_eq_zero, Fin.val_zero, hts0, hcs, List.length_take, Nat.zero_min]
    rw [e]
    refine (congrArg Real.log (hE z x).2.2).trans ?_
    rw [Real.log_exp]; rfl
  have hobj : ∀ z, exactObjective b.eff (positive .exp) (1 - 1) ts (Gaussian.ofDim 1).density data (split [0, z, 1 / 2])
      = -(data.map fun x => logp (Gaussian.ofDim 1).density [Real.exp z * (Real.exp (x.getD 0 0) - 1) - 1 / 2] + (z + x.getD 0 0)).sum / data.length := fun z => by
    rw [exactObjective]
    congr 3
    refine List.map_congr_left fun x h => ?_
    rw [hld z x h, show exactImage b.eff (positive .exp) (1 - 1) ts (split [0, z, 1 / 2]) x = _ from funext (himg z x h)]
    simp only [List.ofFn_succ, List.ofFn_zero]
  have hnear : ∀ x ∈ data, ∀ i : Fin 1, PolyNear 41 (unitDensity b.eff (positive .exp) 0 (1 - 1 + i + 1) (ts i) (split [0, 0, 1 / 2] i) (coords x)) 1e-10 := fun x h i => by
    obtain rfl : i = 0 := Subsingleton.elim _ _
    rw [hts0, hcs]
    have := funext (hE 0 x).1
    simp only [zero_add] at this
    refine (congrArg (fun f => PolyNear 41 f 1e-10) this).mpr ?_
    exact exp_near (by simpa [coords] using h7 x h)
  have hR : ∀ x ∈ data, ∀ i, |exactImage b.eff (positive .exp) (1 - 1) ts (split [0, 0, 1 / 2]) x i| ≤ 1500 := fun x h i => by
    rw [himg 0 x h, Real.exp_zero]
    have := hb7 x h
    have := Real.exp_pos (x.getD 0 0)
    rw [abs_le]; constructor <;> linarith
  have hx' : ∀ x ∈ data, x.length = 1 - 1 + 1 := fun x h => by rw [hx x h]
  obtain ⟨v, v1, v2⟩ := C112_gaussian hT (c := [0, 0, 1 / 2]) (by rw [hnc]; rfl) hne hx' (ε := 1e-10) (R := 1500) hnear hR
  obtain ⟨g, D, g1, g2, g3⟩ := C112_gradient_gaussian hT hG (c := [0, 0, 1 / 2]) (by rw [hnc]; rfl) hne hx' (j := 1) (by rw [hnc]; decide)
    (ε₀ := 1e-10) (ε := 1e-10) (R := 1500) (M := 1500) (fun x h i => ⟨hnear x h i, by
      obtain rfl : i = 0 := Subsingleton.elim _ _
      simp only [hset, hcs, hts0]
      have hd : ∀ t, deriv (fun z => unitDensity b.eff (positive .exp) 0 1 [[0], [1], [2]] [0, z, 1 / 2] (coords x) t) 0 = coords x 0 * Real.exp (t * coords x 0) := by
        intro t
        have e : (fun z => unitDensity b.eff (positive .exp) 0 1 [[0], [1], [2]] [0, z, 1 / 2] (coords x) t) = fun z => coords x 0 * Real.exp (z + t * coords x 0) :=
          funext fun z => (hE z x).1 t
        rw [e]
        have := (((hasDerivAt_id (0 : ℝ)).add_const (t * coords x 0)).exp).const_mul (coords x 0)
        simp
      refine (congrArg (fun f => PolyNear 41 f 1e-10) (funext hd)).mpr ?_
      exact exp_near (by simpa [coords] using h7 x h)⟩) hR (fun x h i => by
        have e : (fun z => exactImage b.eff (positive .exp) (1 - 1) ts (split (([0, 0, 1 / 2] : List ℝ).set 1 z)) x i)
          = fun z => Real.exp z * (Real.exp (x.getD 0 0) - 1) - 1 / 2 := funext fun z => by rw [hset, himg z x h]
        change |deriv (fun z => exactImage b.eff (positive .exp) (1 - 1) ts (split (([0, 0, 1 / 2] : List ℝ).set 1 z)) x i) 0| ≤ 1500
        rw [e]
        have hd := (((Real.hasDerivAt_exp 0).mul_const (Real.exp (x.getD 0 0) - 1)).sub_const (1 / 2)).deriv
        rw [hd, Real.exp_zero]
        have := hb7 x h
        have := Real.exp_pos (x.getD 0 0)
        rw [abs_le]; constructor <;> linarith) hs
  refine ⟨T, v, g, D, t1, v1, ?_, g1, ?_, g3.trans (by norm_num)⟩
  · have := hobj 0
    rw [show exactObjective b.eff (positive .exp) (1 - 1) ts (Gaussian.ofDim 1).density data (split [0, 0, 1 / 2]) = _ from this] at v2
    simp only [Real.exp_zero, one_mul, zero_add] at v2
    have e : ∀ x : List ℝ, Real.exp (x.getD 0 0) - 1 - 1 / 2 = Real.exp (x.getD 0 0) - 3 / 2 := fun x => by ring
    simp only [e] at v2
    exact v2.trans (by norm_num)
  · simp only [hset] at g2
    have e := funext hobj
    exact (congrArg (fun f => HasDerivAt f D 0) e).mp g2
