import Verif.Props.TriangularGradient
import Verif.Props.QuadInverse
/-!
# C113: the inverse of a triangular map built by the factory, against the exact triangular map

`Inverse` solves the components one after the other, each with its own root search, at leading inputs that are the results of the searches before. The
discretised component need not be increasing or continuous, in particular with the adaptive rules; it is only close to the exact one, and `inverse_near` covers the
search on such a function. Here the errors of the searches are followed through the components.
-/
namespace MParT
open Spec Finset MapFactory Worker MonotoneComponent

/-! ### Components -/

/-- `Inverse` of a component from the starting point `t0`: when the exact component (nugget included) is within `η` of the target `y` at `s`, its slope is at least
`m` and the rule resolves the integrand around `s`, the result is within `(η + ε)/m`, plus the tolerance, of `s`. -/
def Spec.InvertsNear (o : MapOptions) (b : Basis ℝ) (D : Nat) (ts : List (List Nat)) (T : CMap) : Prop :=
  ∀ (cs pre : List ℝ) (t0 y s m ε η ρ W : ℝ), cs.length = T.numCoeffs → pre.length = D - 1 → |t0 - s| ≤ ρ →
    |monotone b.eff (positive o.posFuncType) o.nugget D ts cs (Function.update (coords (pre ++ [t0])) (D - 1) s) - y| ≤ η →
    (∀ t, |t - s| ≤ W → m ≤ positive o.posFuncType (diagD b.eff D ts cs (Function.update (coords (pre ++ [t0])) (D - 1) t)) + o.nugget ∧
      PolyNear (quadDegree o + 1) (unitDensity b.eff (positive o.posFuncType) o.nugget D ts cs (Function.update (coords (pre ++ [t0])) (D - 1) t)) ε) →
    0 < m → 3 * (η / m) + 2 * ρ + 5 ≤ W → 1e-12 ≤ m - ε / 5 → ε ≤ m → ρ + η / m ≤ 2 ^ 128 - 3 → ∀ out : List ℝ, out.length = 1 →
    ∃ x, T.inv cs (pre ++ [t0]) [y] out = .ok [x] ∧ |x - s| ≤ η / m + (max (1e-6 / 2) (1e-6 / m) + ε / m)

theorem component_invertsNear {c : MonotoneComponent} {D : Nat} {ts : List (List Nat)} {o : MapOptions} (hv : ValidComponent c D ts)
    (hg : c.g.eval = positive o.posFuncType) (hnug : c.nugget = o.nugget) (scr : Cache ℝ) (hs : scr.length = c.w.cacheSize) (work : List ℝ)
    {mesh : (ℝ → ℝ) → List (ℝ × ℝ)} (hmesh : UsesMesh c.quad mesh) (hmo : IsMeshOf o mesh) : InvertsNear o c.b D ts (c.obj scr work) := by
  have hD := hv.pos
  obtain ⟨s1, s2, s3⟩ := obj_sizes_component hv scr work
  intro cs pre t0 y s m ε η ρ W hc hpre h0 hres hnear hm0 hW hm hε hfar out ho
  rw [s3] at hc
  rw [← hg, ← hnug] at hres hnear
  have hx0 : coords (pre ++ [t0]) ((pre ++ [t0]).length - 1) = t0 := by simp [coords]
  obtain ⟨x, ex, hx⟩ := C110_inverse_any hv hmesh hc (pt := pre ++ [t0]) (by simp; omega) (by simp) scr hs (y := y) (xtol := 1e-6) (ytol := 1e-6) hres
    (fun t ht => ⟨(hnear t ht).1, mesh_near hmo (unitDensity_cont hv c.nugget cs _) (hnear t ht).2 _⟩) hm0 (by rw [hx0]; linarith) hm hε (by rw [hx0]; linarith)
    ((zpow_le_zpow_right₀ (by norm_num : (1 : ℝ) ≤ 2) (by norm_num : (-1074 : ℤ) ≤ -20)).trans (by norm_num)) (by norm_num)
  refine ⟨x, ?_, hx⟩
  have hck : inverseCheck 1e-6 1e-6 1 1 1 = .ok () := by
    rw [inverseCheck, if_neg (by norm_num), if_neg (by norm_num), if_neg (by norm_num), if_neg (by simp), if_neg (by simp)]
  simp only [obj, inverseCol]
  rw [Res.idx_lt (by simp), Res.bind_ok, hck, Res.bind_ok]
  simp only [List.getElem_cons_zero, ex, Res.bind_ok]
  exact setIdx_one ho x

/-! ### What the factory builds -/

section
variable {o : MapOptions} {b : Basis ℝ} {quad : Nat → QProg} {mesh : (ℝ → ℝ) → List (ℝ × ℝ)}

theorem createComponent_inverts {f : FixedSet} (hb : FixedSet.Built f) (hcomp : f.isCompressed = true) (hD : 0 < f.dim) {ts : List (List Nat)}
    (hts : FixedSet.Holds f ts) (hsel : Selected o (maxOrder f) b quad mesh)
    (mem : Nat → Option ℝ) (work : List ℝ) {T : CMap} {w : List ℝ} (hT : createComponent f o mem work = .ok (T, w)) : InvertsNear o b f.dim ts T := by
  have hw := built_ofFixed hb hD hts
  obtain ⟨g1, g2⟩ := posFunc_ok o
  have hv : ValidComponent ⟨mk' f.dim f (FixedSet.degs f.dim ts), b, posFunc o, quad, o.contDeriv, o.nugget⟩ f.dim ts :=
    ⟨⟨f, hb, hcomp, rfl, hts, hw⟩, hD, hsel.c1, g1, hsel.shape⟩
  rw [createComponent, hsel.quad_ok, Res.bind_ok, hw, Res.bind_ok, hsel.read] at hT
  simp only [hts.1, Res.bind_ok] at hT
  obtain ⟨rfl, -⟩ := Prod.mk.inj (Res.ok.inj hT)
  exact component_invertsNear (c := ⟨mk' f.dim f (FixedSet.degs f.dim ts), b, posFunc o, quad, o.contDeriv, o.nugget⟩) hv g2 rfl _ (by simp) work
    hsel.usesMesh hsel.isMesh

theorem total_inverts {p : Nat} (hsel : Selected o p b quad mesh)
    (mem : Nat → Option ℝ) (work : List ℝ) {n : Nat} (hn : 0 < n) {f : FixedSet} {T : CMap} {w : List ℝ}
    (hf : FixedSet.totalOrder n p = .ok f) (hT : createComponent f o mem work = .ok (T, w)) {ts : List (List Nat)} (hts : IsTotalOrder n p ts) :
    InvertsNear o b n ts T := by
  have hl : ∀ t ∈ MISet.toEnum n p, t.length = n := fun t ht => ((MISet.mem_toEnum _ _ _).1 ht).1
  have hh := FixedSet.csr_holds n _ hl
  have hmax := maxOrder_total hn p
  obtain rfl := totalOrder_unique hts ⟨MISet.toEnum_sorted n p, MISet.mem_toEnum n p⟩
  obtain rfl := Res.ok.inj (hf.symm.trans (FixedSet.totalOrder_csr n hn p))
  exact createComponent_inverts (f := FixedSet.csr n (MISet.toEnum n p)) (.totalOrder (FixedSet.totalOrder_csr n hn p))
    rfl hn hh (by rw [hmax]; exact hsel) mem work hT

theorem componentLoop_inverts {p : Nat} (hsel : Selected o p b quad mesh)
    (mem : Nat → Option ℝ) (work : List ℝ) (e : Nat) : ∀ n i comps, i + e + n < 2 ^ 32 →
    componentLoop e p o mem work i n = .ok comps → ∀ k m, comps[k]? = some m → ∀ ts, IsTotalOrder (e + (i + k) + 1) p ts →
      InvertsNear o b (e + (i + k) + 1) ts m := by
  intro n
  induction n with
  | zero =>
    intro i comps _ h k m hk
    obtain rfl := Res.ok.inj h
    simp at hk
  | succ n ih =>
    intro i comps hi h k m hk ts hts
    rw [componentLoop, Nat.mod_eq_of_lt (by omega), show i + e + 1 = e + i + 1 by omega] at h
    obtain ⟨f, hf, h⟩ := Res.bind_eq_ok.1 h
    obtain ⟨⟨T, w⟩, hT, h⟩ := Res.bind_eq_ok.1 h
    obtain ⟨rest, hr, h⟩ := Res.bind_eq_ok.1 h
    obtain rfl := Res.ok.inj h
    cases k with
    | zero =>
      obtain rfl : T = m := by simpa using hk
      exact total_inverts hsel mem work (by omega) hf hT hts
    | succ k =>
      have := ih (i + 1) rest (by omega) hr k m (by simpa using hk) ts (by rwa [show i + 1 + k = i + (k + 1) by omega])
      rwa [show i + 1 + k = i + (k + 1) by omega] at this

end

/-! ### One component after the other -/

/-- `InverseInplace`: if every component, at leading inputs of which `Ok` holds, returns a number with which `Ok` continues to hold, then `Ok` holds of
the numbers returned by the triangular map. -/
theorem inverse_steps {c r lead : List ℝ} {e : Nat} {Ok : List ℝ → Prop} (_hlead : lead.length = e) : ∀ (ms : List CMap) (ls : List (List ℝ)) (s k : Nat) (x y : List ℝ),
    ls.map List.length = ms.map CMap.numCoeffs → c.drop k = ls.flatten → (∀ m ∈ ms, m.outputDim = 1) →
    (∀ j m, ms[j]? = some m → m.inputDim = e + s + j + 1) → r.length = s + ms.length → x.length = e + s + ms.length → y.length = s →
    x.take (e + s) = lead ++ y → Ok y →
    (∀ j m, ms[j]? = some m → ∀ y' : List ℝ, y'.length = s + j → Ok y' → ∀ out : List ℝ, out.length = 1 →
      ∃ z, m.inv (ls.getD j []) (lead ++ y' ++ [x.getD (e + s + j) 0]) [r.getD (s + j) 0] out = .ok [z] ∧ Ok (y' ++ [z])) →
    ∃ y' : List ℝ, TriangularMap.inverseInplace c r e ms s k x = .ok (lead ++ y') ∧ y'.length = s + ms.length ∧ Ok y' := by
  intro ms
  induction ms with
  | nil =>
    intro ls s k x y _ _ _ _ _ hx hy hxy hOk _
    refine ⟨y, ?_, by simpa using hy, hOk⟩
    rw [TriangularMap.inverseInplace, ← hxy, List.take_of_length_le (by simp at hx; omega)]
  | cons m ms ih =>
    intro ls s k x y hls hc hout hin hr hx hy hxy hOk hstep
    cases ls with
    | nil => simp at hls
    | cons a ls =>
      simp only [List.map_cons, List.cons.injEq] at hls
      simp only [List.length_cons] at hr hx
      have ho1 := hout m (by simp)
      have hi1 := hin 0 m rfl
      have hxs : x.take (e + s + 1) = lead ++ y ++ [x.getD (e + s) 0] := by
        rw [List.take_add_one, hxy, List.getD_eq_getElem?_getD, List.getElem?_eq_getElem (by omega)]; rfl
      obtain ⟨z, hz, hOk'⟩ := hstep 0 m rfl y hy hOk ((x.drop (e + s)).take 1) (by simp; omega)
      have hsl : slice c k m.numCoeffs = a := by rw [slice, hc, List.flatten_cons, ← hls.1, List.take_left]
      have hrs : (r.drop s).take 1 = [r.getD s 0] := by
        rw [List.take_one, List.head?_drop, List.getD_eq_getElem?_getD, List.getElem?_eq_getElem (by omega)]; rfl
      rw [TriangularMap.inverseInplace, rows_ok (by omega), Res.bind_ok, rows_ok (by omega), Res.bind_ok, rows_ok (by omega), Res.bind_ok, List.drop_zero, hi1, ho1, hsl,
        hrs, show e + s + 0 + 1 = e + s + 1 from rfl, hxs]
      rw [show m.inv a (lead ++ y ++ [x.getD (e + s) 0]) [r.getD s 0] ((x.drop (e + s)).take 1) = .ok [z] from hz, Res.bind_ok]
      have htk : (putRows x (e + s) 1 [z]).take (e + s + 1) = lead ++ (y ++ [z]) := by
        rw [putRows_take (v := x) (s := [z]) (a := e + s) (n := 1) (by omega) rfl, hxy, List.append_assoc]
      have hget : ∀ j, (putRows x (e + s) 1 [z]).getD (e + s + 1 + j) 0 = x.getD (e + s + 1 + j) 0 := fun j => by
        simp only [putRows, List.getD_eq_getElem?_getD]
        rw [List.getElem?_append_right (by simp; omega)]
        simp only [List.length_append, List.length_take, List.length_singleton]
        rw [List.getElem?_drop]
        congr 2; omega
      obtain ⟨y', e1, e2, e3⟩ := ih ls (s + 1) (k + m.numCoeffs) (putRows x (e + s) 1 [z]) (y ++ [z]) hls.2
        (by rw [← List.drop_drop, hc, List.flatten_cons, ← hls.1, List.drop_left]) (fun m' h => hout m' (by simp [h]))
        (fun j m' h => by rw [hin (j + 1) m' (by simpa using h)]; omega) (by omega) (by rw [putRows_length (v := x) (s := [z]) (a := e + s) (n := 1) (by omega) rfl]; omega) (by simp [hy])
        htk hOk' (fun j m' h y'' hy'' hO out ho => by
          have := hstep (j + 1) m' (by simpa using h) y'' (by omega) hO out ho
          rw [show e + (s + 1) + j = e + s + 1 + j by omega, hget]
          rw [show e + s + (j + 1) = e + s + 1 + j by omega, show s + (j + 1) = s + 1 + j by omega] at this
          simpa using this)
      exact ⟨y', e1, by rw [List.length_cons]; omega, e3⟩

/-! ### The triangular map -/

/-- The coordinates `w` are those of `x` for the leading `k` inputs, and within `W` of them for the next `i + 1`. -/
def Spec.Around (k i : Nat) (x : Nat → ℝ) (W : ℝ) (w : Nat → ℝ) : Prop := (∀ d < k, w d = x d) ∧ ∀ j ≤ i, |w (k + j) - x (k + j)| ≤ W

/-- Around `x`, as far as `W`: every component of the exact triangular map (nugget included) has slope at least `m` in its last input and Lipschitz constant `L`
in the ones before; its integrand is within `ε/2` of a polynomial that the quadrature integrates exactly. -/
structure Spec.WellConditioned (o : MapOptions) (b : Basis ℝ) (k : Nat) {n : Nat} (ts : Fin n → List (List Nat)) (cs : Fin n → List ℝ) (x : Nat → ℝ)
    (W m L ε : ℝ) : Prop where
  slope : ∀ (i : Fin n) w, Around k i x W w → m ≤ positive o.posFuncType (diagD b.eff (k + i + 1) (ts i) (cs i) w) + o.nugget
  lipschitz : ∀ (i : Fin n) w w', Around k i x W w → Around k i x W w' → w (k + i) = w' (k + i) →
    |monotone b.eff (positive o.posFuncType) o.nugget (k + i + 1) (ts i) (cs i) w - monotone b.eff (positive o.posFuncType) o.nugget (k + i + 1) (ts i) (cs i) w'|
      ≤ L * ∑ j ∈ range i, |w (k + j) - w' (k + j)|
  value : ∀ (i : Fin n) w, Around k i x W w → PolyNear (quadDegree o + 1) (unitDensity b.eff (positive o.posFuncType) o.nugget (k + i + 1) (ts i) (cs i) w) ε

/-- **C113.** `Inverse` of the triangular map `T`, given the leading inputs and possibly starting points `x1` and the target `r`, where the exact map is within `σ` of
the target at `x`: it returns, and entry `i` of the result is within `τ (1 + L/m)^i` of that of `x`, where `τ` is the tolerance plus `(ε + σ)/m`. -/
def Spec.SolvesNear (o : MapOptions) (b : Basis ℝ) (k : Nat) {n : Nat} (ts : Fin n → List (List Nat)) (T : CMap) : Prop :=
  ∀ (c : List ℝ) (cs : Fin n → List ℝ) (x1 r : List ℝ) (x : Nat → ℝ) (W m L ε σ ρ τ : ℝ), Slices ts cs c → k ≤ x1.length → x1.length ≤ k + n → r.length = n →
    (∀ d < k, coords x1 d = x d) → (∀ i : Fin n, |coords x1 (k + i) - x (k + i)| ≤ ρ) →
    (∀ i : Fin n, |monotone b.eff (positive o.posFuncType) o.nugget (k + i + 1) (ts i) (cs i) x - r.getD i 0| ≤ σ) →
    WellConditioned o b k ts cs x W m L ε → 0 < m → 0 ≤ L → 1e-12 ≤ m - ε / 5 → 0 ≤ ε → ε ≤ m →
    τ = max (1e-6 / 2) (1e-6 / m) + (ε + σ) / m → 3 * (τ * (1 + L / m) ^ n) + 2 * ρ + 5 ≤ W → ρ + τ * (1 + L / m) ^ n ≤ 2 ^ 128 - 3 →
    ∀ out : List ℝ, out.length = n → ∃ y, T.inv c x1 r out = .ok y ∧ y.length = n ∧ ∀ i : Fin n, |y.getD i 0 - x (k + i)| ≤ τ * (1 + L / m) ^ (i : Nat)

theorem solves_of_selected {o : MapOptions} {inputDim outputDim p : Nat} {b : Basis ℝ} {quad : Nat → QProg} {mesh : (ℝ → ℝ) → List (ℝ × ℝ)}
    (hsel : Selected o p b quad mesh) (h0 : 0 < outputDim) (h1 : outputDim ≤ inputDim) (h2 : inputDim < 2 ^ 32)
    {mem : Nat → Option ℝ} {work : List ℝ} {T : CMap} {w : List ℝ}
    (hT : createTriangular inputDim outputDim p o mem work = .ok (T, w)) {ts : Fin outputDim → List (List Nat)}
    (hts : ∀ i : Fin outputDim, IsTotalOrder (inputDim - outputDim + i + 1) p (ts i)) : SolvesNear o b (inputDim - outputDim) ts T := by
  obtain ⟨T', comps, l1, hobj, s1, s2, s3, s4, s5, s6, s7, -⟩ := triangular_of_selected hsel h0 h1 h2 mem work
  obtain ⟨rfl, -⟩ := Prod.mk.inj (Res.ok.inj (hT.symm.trans s1))
  set K := inputDim - outputDim with hK
  set P := positive o.posFuncType with hPdef
  have hcomp : ∀ i m, comps[i]? = some m → ∃ hi : i < outputDim, m.inputDim = K + i + 1 ∧ m.outputDim = 1 ∧ m.numCoeffs = (ts ⟨i, hi⟩).length ∧
      InvertsNear o b (K + i + 1) (ts ⟨i, hi⟩) m := by
    intro i m hm
    have hi : i < outputDim := by have := (List.getElem?_eq_some_iff.1 hm).1; omega
    obtain ⟨ts', g1, g2⟩ := s7 i m hm
    obtain rfl := totalOrder_unique g1 (hts ⟨i, hi⟩)
    refine ⟨hi, g2.inputs, g2.outputs, g2.coeffs, ?_⟩
    have := componentLoop_inverts hsel mem work K outputDim 0 comps (by omega) l1 i m hm (ts ⟨i, hi⟩) (by simpa using g1)
    simpa using this
  have hout : ∀ m ∈ comps, m.outputDim = 1 := fun m hm => by
    obtain ⟨i, hi⟩ := List.mem_iff_getElem?.1 hm
    obtain ⟨-, -, h, -⟩ := hcomp i m hi
    exact h
  intro c cs x1 r x W m L ε σ ρ τ hsl hk hk' hr hlead hstart hres hwell hm0 hL hm hε0 hε hτ hW hfar out ho
  have hlens : (List.ofFn cs).map List.length = comps.map CMap.numCoeffs := by
    refine List.ext_getElem (by simp [s6]) fun i a1 a2 => ?_
    have a3 : i < comps.length := by simpa using a2
    obtain ⟨hi, -, -, h, -⟩ := hcomp i comps[i] (List.getElem?_eq_getElem a3)
    simp [h, hsl.2]
  have hσ : 0 ≤ σ := (abs_nonneg _).trans (hres ⟨0, h0⟩)
  have hρ : 0 ≤ ρ := (abs_nonneg _).trans (hstart ⟨0, h0⟩)
  set q := 1 + L / m with hq
  have hLm : 0 ≤ L / m := div_nonneg hL hm0.le
  have hq1 : 1 ≤ q := by linarith
  have hτ0 : 0 ≤ τ := by rw [hτ]; positivity
  have hpow : ∀ i ≤ outputDim, τ * q ^ i ≤ τ * q ^ outputDim := fun i hi => mul_le_mul_of_nonneg_left (pow_le_pow_right₀ hq1 hi) hτ0
  have hfull := hpow 0 (Nat.zero_le _)
  have hgeom : ∀ i : Nat, L * ∑ j ∈ range i, τ * q ^ j = m * (τ * (q ^ i - 1)) := fun i => by
    have hLq : L = m * (q - 1) := by rw [hq]; field_simp; ring
    rw [← mul_sum, hLq]
    have := mul_geom_sum q i
    calc _ = m * τ * ((q - 1) * ∑ j ∈ range i, q ^ j) := by ring
      _ = _ := by rw [this]; ring
  have hlt : (x1.take K).length = K := by simp; omega
  set x0 := putRows (List.replicate inputDim 0) 0 x1.length x1 with hx0
  have hx0l : x0.length = inputDim := by rw [hx0, putRows_length (by simp; omega) rfl]; simp
  have hx0g : ∀ d, x0.getD d 0 = coords x1 d := fun d => by
    simp only [hx0, putRows, List.take_zero, List.nil_append, coords, List.getD_eq_getElem?_getD, List.drop_replicate]
    by_cases hd : d < x1.length
    · rw [List.getElem?_append_left hd]
    · rw [List.getElem?_append_right (by omega), List.getElem?_eq_none (l := x1) (by omega)]
      rw [List.getElem?_replicate]
      split <;> rfl
  have hx0t : x0.take (K + 0) = x1.take K ++ [] := by
    simp only [hx0, putRows, List.take_zero, List.nil_append, Nat.add_zero, List.append_nil]
    rw [List.take_append_of_le_length (by omega)]
  obtain ⟨y, e1, e2, e3⟩ := inverse_steps (c := c) (r := r) (lead := x1.take K) (e := K) (Ok := fun y => ∀ j < y.length, |y.getD j 0 - x (K + j)| ≤ τ * q ^ j) hlt
    comps (List.ofFn cs) 0 0 x0 [] hlens (by rw [List.drop_zero]; exact hsl.1.symm) hout
    (fun j m' hj => by
      obtain ⟨-, h, -⟩ := hcomp j m' hj
      rw [h]; omega) (by omega) (by omega) rfl hx0t (by simp)
    (fun j m' hj y' hy' hOk out' ho' => by
      obtain ⟨hi, -, -, hnc, hinv⟩ := hcomp j m' hj
      rw [Nat.zero_add] at hy'
      have hget : (List.ofFn cs).getD j [] = cs ⟨j, hi⟩ := by simp [List.getD_eq_getElem?_getD, hi]
      rw [hget, Nat.add_zero, Nat.zero_add, hx0g]
      set pre := x1.take K ++ y' with hpre
      have hprel : pre.length = K + j := by simp [hpre, hlt, hy']
      set t0 := coords x1 (K + j) with ht0
      have hdist : ∀ j' < j, |y'.getD j' 0 - x (K + j')| ≤ τ * q ^ j' := fun j' h => hOk j' (by omega)
      have hcl : ∀ d < K, coords (pre ++ [t0]) d = x d := fun d hd => by
        rw [← hlead d hd, coords, coords, List.getD_eq_getElem?_getD, List.getD_eq_getElem?_getD, hpre, List.append_assoc,
          List.getElem?_append_left (by omega), List.getElem?_take_of_lt hd]
      have hcm : ∀ j' < j, coords (pre ++ [t0]) (K + j') = y'.getD j' 0 := fun j' h => by
        rw [coords, List.getD_eq_getElem?_getD, List.getD_eq_getElem?_getD, hpre, List.append_assoc,
          List.getElem?_append_right (by omega), List.getElem?_append_left (by omega), hlt]
        congr 2; omega
      have har : ∀ t, |t - x (K + j)| ≤ W → Around K j x W (Function.update (coords (pre ++ [t0])) (K + j) t) := fun t ht => by
        refine ⟨fun d hd => by rw [Function.update_of_ne (by omega)]; exact hcl d hd, fun j' hj' => ?_⟩
        rcases hj'.eq_or_lt with rfl | hlt'
        · rwa [Function.update_self]
        · rw [Function.update_of_ne (by omega), hcm j' hlt']
          have := hdist j' hlt'
          have := hpow j' (by omega)
          have : 0 ≤ τ * q ^ j' := by positivity
          linarith
      have hxx : Around K j x W x := ⟨fun _ _ => rfl, fun j' _ => by
        have : 0 ≤ τ * q ^ outputDim := by positivity
        rw [sub_self, abs_zero]; linarith⟩
      have hsum : ∑ j' ∈ range j, |Function.update (coords (pre ++ [t0])) (K + j) (x (K + j)) (K + j') - x (K + j')| ≤ ∑ j' ∈ range j, τ * q ^ j' :=
        sum_le_sum fun j' hj' => by
          have := mem_range.1 hj'
          rw [Function.update_of_ne (by omega), hcm j' this]
          exact hdist j' this
      have hη : |monotone b.eff P o.nugget (K + j + 1) (ts ⟨j, hi⟩) (cs ⟨j, hi⟩) (Function.update (coords (pre ++ [t0])) (K + j + 1 - 1) (x (K + j)))
          - r.getD j 0| ≤ m * (τ * (q ^ j - 1)) + σ := by
        rw [Nat.add_sub_cancel]
        have a1 := hwell.lipschitz ⟨j, hi⟩ _ x (har (x (K + j)) (by
          have : 0 ≤ τ * q ^ outputDim := by positivity
          rw [sub_self, abs_zero]; linarith)) hxx (by simp)
        have a2 := hres ⟨j, hi⟩
        have a3 := mul_le_mul_of_nonneg_left hsum hL
        rw [hgeom] at a3
        have a4 := abs_le.1 (a1.trans a3)
        have a5 := abs_le.1 a2
        exact abs_le.2 ⟨by linarith [a4.1, a5.1], by linarith [a4.2, a5.2]⟩
      have hηm : (m * (τ * (q ^ j - 1)) + σ) / m = τ * (q ^ j - 1) + σ / m := by field_simp
      have hbnd : τ * (q ^ j - 1) + σ / m + (max (1e-6 / 2) (1e-6 / m) + ε / m) = τ * q ^ j := by
        have : τ = max (1e-6 / 2) (1e-6 / m) + ε / m + σ / m := by rw [hτ, add_div]; ring
        linear_combination -this
      have hpos : 0 ≤ max (1e-6 / 2 : ℝ) (1e-6 / m) + ε / m := by positivity
      have hj' := hpow j hi.le
      obtain ⟨z, z1, z2⟩ := hinv (cs ⟨j, hi⟩) pre t0 (r.getD j 0) (x (K + j)) m ε (m * (τ * (q ^ j - 1)) + σ) ρ W (by rw [hnc, hsl.2]) (by omega)
        (hstart ⟨j, hi⟩) hη (fun t ht => by
          have hA := har t ht
          rw [Nat.add_sub_cancel]
          exact ⟨hwell.slope ⟨j, hi⟩ _ hA, hwell.value ⟨j, hi⟩ _ hA⟩)
        hm0 (by rw [hηm]; linarith) hm hε (by rw [hηm]; linarith) out' ho'
      refine ⟨z, z1, fun j' hj' => ?_⟩
      rw [List.length_append, List.length_singleton, hy'] at hj'
      rcases (Nat.lt_succ_iff.1 hj').eq_or_lt with rfl | hlt'
      · rw [List.getD_eq_getElem?_getD, List.getElem?_append_right (by omega)]
        rw [hηm, hbnd] at z2
        simpa [hy'] using z2
      · rw [List.getD_eq_getElem?_getD, List.getElem?_append_left (by omega), ← List.getD_eq_getElem?_getD]
        exact hdist j' hlt')
  rw [Nat.zero_add, s6] at e2
  refine ⟨y, ?_, e2, fun i => e3 i (by omega)⟩
  have hin : T.inv c x1 r out = TriangularMap.inverse comps T.inputDim T.outputDim c x1 r out := by rw [hobj]; rfl
  rw [hin, s2, s3, TriangularMap.inverse, rows_ok (by simp; omega), Res.bind_ok, deepCopy_ok (by simp; omega), Res.bind_ok, ← hK, e1,
    Res.bind_ok, rows_ok (by simp [e2]; omega), Res.bind_ok]
  have : ((x1.take K ++ y).drop K).take outputDim = y := by
    rw [List.drop_append_of_le_length (by omega), List.drop_of_length_le (by omega), List.nil_append, List.take_of_length_le (by omega)]
  rw [this, deepCopy_ok (by rw [ho, e2])]

/-- **C113.** For good options, with any of the quadratures, the map built by `CreateTriangular` inverts the exact triangular map
up to the tolerance of the root search and the quadrature error. -/
theorem C113_inverse {o : MapOptions} {inputDim outputDim p : Nat} (h0 : 0 < outputDim) (h1 : outputDim ≤ inputDim)
    (h2 : inputDim < 2 ^ 32) (hB : GoodBasis o p) (hQ : GoodQuad o) :
    ∃ (b : Basis ℝ) (ts : Fin outputDim → List (List Nat)), IsBasisOf o (fun n => n ≤ p) b ∧
      (∀ i : Fin outputDim, IsTotalOrder (inputDim - outputDim + i + 1) p (ts i)) ∧ ∀ mem work, ∃ T,
      createTriangular inputDim outputDim p o mem work = .ok (T, zeros T.numCoeffs) ∧
      (∀ c : List ℝ, c.length = T.numCoeffs → ∃ cs, Slices ts cs c ∧ ∀ lead : List ℝ, lead.length = inputDim - outputDim → Approximates o b lead ts cs T c) ∧
      SolvesNear o b (inputDim - outputDim) ts T := by
  obtain ⟨b, quad, mesh, hsel⟩ := selected le_rfl hB hQ
  obtain ⟨ts, hts, h⟩ := approximates_of_selected hsel h0 h1 h2 hB
  refine ⟨b, ts, hsel.isBasis, hts, fun mem work => ?_⟩
  obtain ⟨T, t1, t2⟩ := h mem work
  exact ⟨T, t1, t2, solves_of_selected hsel h0 h1 h2 t1 hts⟩

/-- **C113.** The round trip: without nugget, `Inverse` of the computed images of a point `x`, given its leading inputs, returns the other inputs up to `τ (1 + L/m)^i`. -/
theorem C113_roundtrip {o : MapOptions} {b : Basis ℝ} {k n : Nat} {ts : Fin n → List (List Nat)} {T : CMap} {c : List ℝ} {cs : Fin n → List ℝ}
    (hn : 0 < n) (hsl : Slices ts cs c) (hA : ∀ lead : List ℝ, lead.length = k → Approximates o b lead ts cs T c) (hS : SolvesNear o b k ts T)
    (hnug : o.nugget = 0) {x : List ℝ} (hx : x.length = k + n) {W m L ε ρ τ : ℝ} (hρ : ∀ i : Fin n, |x.getD (k + i) 0| ≤ ρ)
    (hwell : WellConditioned o b k ts cs (coords x) W m L ε) (hm0 : 0 < m) (hL : 0 ≤ L) (hm : 1e-12 ≤ m - ε / 5) (hε0 : 0 ≤ ε) (hε : ε ≤ m)
    (hτ : τ = max (1e-6 / 2) (1e-6 / m) + 2 * ε / m) (hW : 3 * (τ * (1 + L / m) ^ n) + 2 * ρ + 5 ≤ W) (hfar : ρ + τ * (1 + L / m) ^ n ≤ 2 ^ 128 - 3)
    {out : List ℝ} (ho : out.length = n) :
    ∃ y, T.inv c (x.take k) (fn T c x) out = .ok y ∧ y.length = n ∧ ∀ i : Fin n, |y.getD i 0 - x.getD (k + i) 0| ≤ τ * (1 + L / m) ^ (i : Nat) := by
  have hlt : (x.take k).length = k := by simp [hx]
  have hap := hA _ hlt
  have e := take_append_tail hx
  have hW0 : 0 ≤ W := by
    have hρ0 : 0 ≤ ρ := (abs_nonneg _).trans (hρ ⟨0, hn⟩)
    have := div_nonneg hL hm0.le
    have hτ0 : 0 ≤ τ := by rw [hτ]; positivity
    have : 0 ≤ τ * (1 + L / m) ^ n := by positivity
    linarith
  have hself : ∀ i : Fin n, Around k i (coords x) W (coords x) := fun i => ⟨fun _ _ => rfl, fun j _ => by simpa using hW0⟩
  refine hS c cs (x.take k) (fn T c x) (coords x) W m L ε ε ρ τ hsl hlt.ge (by omega) ?_ (fun d hd => coords_take_lt x hd) (fun i => ?_) (fun i => ?_) hwell hm0 hL hm hε0 hε
    (by rw [hτ]; ring) hW hfar out ho
  · have := hap.outputs fun i => x.getD (k + i) 0
    rwa [e] at this
  · rw [show coords (x.take k) (k + i) = 0 by simp [coords, List.getD_eq_getElem?_getD, hx], zero_sub, abs_neg]
    exact hρ i
  · have h3 := hap.values (fun i => x.getD (k + i) 0) i ε
    rw [e, hlt] at h3
    have hv := hwell.value i _ (hself i)
    rw [hnug] at hv ⊢
    have := h3 hv
    rw [abs_sub_comm]
    have hex : exactTriangular b.eff (positive o.posFuncType) (x.take k) ts cs (fun i => x.getD (k + i) 0) i
        = monotone b.eff (positive o.posFuncType) 0 (k + i + 1) (ts i) (cs i) (coords x) := exactImage_eq hx i
    rwa [hex] at this

/-! ### Non-vacuity -/

theorem polyNear_const {n : Nat} (hn : 0 < n) (v : ℝ) : PolyNear n (fun _ => v) 0 :=
  ⟨Polynomial.C v, by simpa using hn, fun s _ _ => by simp⟩

/-- Two inputs, order 2, the exponential, coefficients 1 for the constant of the first component and `1/10` for the product term of the second: the
exact map is `(1 + x₁, x₂ exp(x₁/10))`. -/
theorem product_exact {b : Basis ℝ} {o : MapOptions} (hl : o.basisLB = none) (hu : o.basisUB = none) (ht : o.basisType = .probabilistHermite)
    (hN : o.basisNorm = false) (hg : o.posFuncType = .exp) (hb : IsBasisOf o (fun n => n ≤ 2) b) (x : Nat → ℝ) :
    (diagD b.eff 1 [[0], [1], [2]] [1, 0, 0] x = 0 ∧ (∀ t, unitDensity b.eff (positive o.posFuncType) 0 1 [[0], [1], [2]] [1, 0, 0] x t = x 0) ∧
      monotone b.eff (positive o.posFuncType) 0 1 [[0], [1], [2]] [1, 0, 0] x = 1 + x 0) ∧
    (diagD b.eff 2 [[0, 0], [0, 1], [0, 2], [1, 0], [1, 1], [2, 0]] [0, 0, 0, 0, 1 / 10, 0] x = x 0 / 10 ∧
      (∀ t, unitDensity b.eff (positive o.posFuncType) 0 2 [[0, 0], [0, 1], [0, 2], [1, 0], [1, 1], [2, 0]] [0, 0, 0, 0, 1 / 10, 0] x t = x 1 * Real.exp (x 0 / 10)) ∧
      monotone b.eff (positive o.posFuncType) 0 2 [[0, 0], [0, 1], [0, 2], [1, 0], [1, 1], [2, 0]] [0, 0, 0, 0, 1 / 10, 0] x = x 1 * Real.exp (x 0 / 10)) := by
  obtain ⟨a, -, -, h1, h2⟩ := hb
  have hv1 : ∀ y, b.eff.val 1 y = y := fun y => by
    simp only [Basis.eff, h2 1 (by norm_num), hl, hu, extend_none, ht, rawFamily, h1 (.inl hN)]
    rw [Hermite.He_one]
    norm_num
  have hv0 : ∀ y, b.eff.val 0 y = 1 := fun y => by simp [Basis.eff]
  have he1 : ∀ y, expandAt b.eff 1 [[0], [1], [2]] [1, 0, 0] y = 1 := fun y => by
    simp [expandAt, expansion, termProd, Finset.sum_range_succ, hv0]
  have he2 : ∀ y, expandAt b.eff 2 [[0, 0], [0, 1], [0, 2], [1, 0], [1, 1], [2, 0]] [0, 0, 0, 0, 1 / 10, 0] y = y 0 * y 1 / 10 := fun y => by
    simp [expandAt, expansion, termProd, Finset.sum_range_succ, Finset.prod_range_succ, hv1]
    ring
  have hd1 : ∀ y, diagD b.eff 1 [[0], [1], [2]] [1, 0, 0] y = 0 := fun y => by
    rw [diagD, partialDeriv]; simp [he1]
  have hd2 : ∀ y, diagD b.eff 2 [[0, 0], [0, 1], [0, 2], [1, 0], [1, 1], [2, 0]] [0, 0, 0, 0, 1 / 10, 0] y = y 0 / 10 := fun y => by
    have hfun : (fun s => expandAt b.eff 2 [[0, 0], [0, 1], [0, 2], [1, 0], [1, 1], [2, 0]] [0, 0, 0, 0, 1 / 10, 0] (Function.update y (2 - 1) s))
        = fun s => y 0 * s / 10 := by
      funext s; rw [he2]; simp
    rw [diagD, partialDeriv, hfun]
    exact (((hasDerivAt_id (y 1)).const_mul (y 0)).div_const 10).deriv.trans (by simp)
  have hn1 : ∀ s, density b.eff (positive o.posFuncType) 0 1 [[0], [1], [2]] [1, 0, 0] x s = 1 := fun s => by
    rw [density, hd1, hg]; simp [positive]
  have hn2 : ∀ s, density b.eff (positive o.posFuncType) 0 2 [[0, 0], [0, 1], [0, 2], [1, 0], [1, 1], [2, 0]] [0, 0, 0, 0, 1 / 10, 0] x s = Real.exp (x 0 / 10) := fun s => by
    rw [density, hd2, hg]; simp [positive]
  refine ⟨⟨hd1 x, fun t => by rw [unitDensity, hn1, mul_one], ?_⟩, hd2 x, fun t => by rw [unitDensity, hn2], ?_⟩
  · rw [monotone, offset, he1]
    simp only [hn1]
    simp
  · rw [monotone, offset, he2]
    simp only [hn2]
    simp

/-- Non-vacuity: two inputs, order 2, the adaptive Simpson rule of the default options, the map `(1 + x₁, x₂ exp(x₁/10))`, which is not linear: `Inverse` of the computed images of
`(1, 2)` returns two numbers within `1e-5` of 1 and within `1e-4` of 2. -/
example (mem : Nat → Option ℝ) (work : List ℝ) :
    ∃ T, createTriangular 2 2 2 { basisNorm := false, quadType := .adaptiveSimpson, posFuncType := .exp, nugget := 0 } mem work = .ok (T, zeros T.numCoeffs) ∧
      ∃ y, T.inv [1, 0, 0, 0, 0, 0, 0, 1 / 10, 0] [] (fn T [1, 0, 0, 0, 0, 0, 0, 1 / 10, 0] [1, 2]) [0, 0] = .ok y ∧
        |y.getD 0 0 - 1| ≤ 1e-5 ∧ |y.getD 1 0 - 2| ≤ 1e-4 := by
  obtain ⟨b, ts, hb, hts, h⟩ := C113_inverse (inputDim := 2) (outputDim := 2) (p := 2) (by decide) (by decide) (by decide)
    (o := { basisNorm := false, quadType := .adaptiveSimpson, posFuncType := .exp, nugget := 0 })
    ⟨fun l hl => by simp at hl, fun h => by simp [Bounded] at h, fun h => by simp [Bounded] at h, fun _ h => by simp at h⟩
    ⟨by simp, by simp, by simp⟩
  obtain ⟨T, t1, hA, hS⟩ := h mem work
  refine ⟨T, t1, ?_⟩
  have hts0 : ts 0 = [[0], [1], [2]] := by
    refine totalOrder_unique (hts 0) ⟨by decide, fun v => ?_⟩
    have := MISet.mem_toEnum 1 2 v
    rwa [show MISet.toEnum 1 2 = [[0], [1], [2]] by decide] at this
  have hts1 : ts 1 = [[0, 0], [0, 1], [0, 2], [1, 0], [1, 1], [2, 0]] := by
    refine totalOrder_unique (hts 1) ⟨by decide, fun v => ?_⟩
    have := MISet.mem_toEnum 2 2 v
    rwa [show MISet.toEnum 2 2 = [[0, 0], [0, 1], [0, 2], [1, 0], [1, 1], [2, 0]] by decide] at this
  have hsl : Slices ts ![[1, 0, 0], [0, 0, 0, 0, 1 / 10, 0]] [1, 0, 0, 0, 0, 0, 0, 1 / 10, 0] := by
    refine ⟨by simp [List.ofFn_succ], fun i => ?_⟩
    fin_cases i
    · simp [hts0]
    · simp [hts1]
  have hnc : ([1, 0, 0, 0, 0, 0, 0, 1 / 10, 0] : List ℝ).length = T.numCoeffs := by
    obtain ⟨T', comps, -, -, s1, -, -, s4, -⟩ := triangular_of_selected (selected (o := { basisNorm := false, quadType := .adaptiveSimpson, posFuncType := .exp, nugget := 0 }) (N := 2) (M := 2) le_rfl
      ⟨fun l hl => by simp at hl, fun h => by simp [Bounded] at h, fun h => by simp [Bounded] at h, fun _ h => by simp at h⟩
      ⟨by simp, by simp, by simp⟩).choose_spec.choose_spec.choose_spec (inputDim := 2) (outputDim := 2) (by decide) (by decide) (by decide) mem work
    obtain ⟨rfl, -⟩ := Prod.mk.inj (Res.ok.inj (t1.symm.trans s1))
    rw [s4]; decide
  obtain ⟨cs, hcs, hAp⟩ := hA _ hnc
  obtain rfl := slices_unique hcs hsl
  have hE := fun x => product_exact (o := { basisNorm := false, quadType := .adaptiveSimpson, posFuncType := .exp, nugget := 0 }) rfl rfl rfl rfl rfl hb x
  have hx0 : coords [1, 2] 0 = 1 := rfl
  have hx1 : coords [1, 2] 1 = 2 := rfl
  have h09 : (2 / 5 : ℝ) ≤ Real.exp (-(9 / 10)) := by
    rw [Real.exp_neg, ← one_div, le_div_iff₀ (Real.exp_pos _)]
    have : Real.exp (9 / 10) ≤ 2.5 := by
      have h := Real.exp_bound' (x := 9 / 10) (by norm_num) (by norm_num) (n := 6) (by norm_num)
      refine h.trans ?_
      norm_num [Finset.sum_range_succ, Nat.factorial]
    linarith
  have h11 : Real.exp (11 / 10) ≤ 3.1 := by
    have h := Real.exp_bound' (x := 11 / 20) (by norm_num) (by norm_num) (n := 6) (by norm_num)
    have h2 : Real.exp (11 / 10) = Real.exp (11 / 20) ^ 2 := by rw [← Real.exp_nat_mul]; norm_num
    have h3 : Real.exp (11 / 20) ≤ 1.74 := by
      refine h.trans ?_
      norm_num [Finset.sum_range_succ, Nat.factorial]
    rw [h2]
    calc _ ≤ (1.74 : ℝ) ^ 2 := pow_le_pow_left₀ (Real.exp_pos _).le h3 2
      _ ≤ _ := by norm_num
  have hwell : WellConditioned { basisNorm := false, quadType := .adaptiveSimpson, posFuncType := .exp, nugget := 0 } b (2 - 2) ts
      ![[1, 0, 0], [0, 0, 0, 0, 1 / 10, 0]] (coords [1, 2]) 10 (2 / 5) 4 0 := by
    refine ⟨fun i w hw => ?_, fun i w w' hw hw' heq => ?_, fun i w hw => ?_⟩
    · have a := abs_le.1 (hw.2 0 (Nat.zero_le _))
      simp only [Nat.sub_self, Nat.add_zero, hx0] at a
      fin_cases i
      · have := (hE w).1.1
        simp only [Fin.zero_eta, hts0, Nat.sub_self, Nat.zero_add, Matrix.cons_val_zero, this, positive, Real.exp_zero]
        norm_num
      · have := (hE w).2.1
        simp only [Fin.mk_one, hts1, Nat.sub_self, Nat.zero_add, Matrix.cons_val_one, Matrix.cons_val_fin_one, Nat.reduceAdd, this, positive]
        have e : -(9 / 10 : ℝ) ≤ w 0 / 10 := by linarith [a.1]
        exact (h09.trans (Real.exp_le_exp.2 e)).trans (by simp)
    · fin_cases i
      · simp only [Fin.zero_eta, hts0, Nat.sub_self, Nat.zero_add, Matrix.cons_val_zero] at heq ⊢
        rw [(hE w).1.2.2, (hE w').1.2.2, heq]
        simp
      · have a := abs_le.1 (hw.2 0 (Nat.zero_le _))
        have a' := abs_le.1 (hw'.2 0 (Nat.zero_le _))
        have c1 := abs_le.1 (hw.2 1 le_rfl)
        simp only [Nat.sub_self, Nat.add_zero, Nat.zero_add, hx0, hx1] at a a' c1
        simp only [Fin.mk_one, hts1, Nat.sub_self, Nat.zero_add, Matrix.cons_val_one, Matrix.cons_val_fin_one, Nat.reduceAdd] at heq ⊢
        rw [(hE w).2.2.2, (hE w').2.2.2, ← heq, ← mul_sub, abs_mul, Finset.sum_range_one]
        have hdexp : |Real.exp (w 0 / 10) - Real.exp (w' 0 / 10)| ≤ 3.1 / 10 * |w 0 - w' 0| := by
          have := (convex_Icc (-9 : ℝ) 11).norm_image_sub_le_of_norm_hasDerivWithin_le (f := fun u : ℝ => Real.exp (u / 10)) (f' := fun u => Real.exp (u / 10) * (1 / 10))
            (C := 3.1 / 10) (x := w' 0) (y := w 0) (fun u _ => (((hasDerivAt_id u).div_const 10).exp).hasDerivWithinAt) (fun u hu => by
              rw [Real.norm_eq_abs, abs_of_pos (by positivity)]
              have := (Real.exp_le_exp.2 (show u / 10 ≤ 11 / 10 by linarith [hu.2])).trans h11
              linarith) ⟨by linarith [a'.1], by linarith [a'.2]⟩ ⟨by linarith [a.1], by linarith [a.2]⟩
          simpa [Real.norm_eq_abs] using this
        have hw1 : |w 1| ≤ 12 := abs_le.2 ⟨by linarith [c1.1], by linarith [c1.2]⟩
        calc _ ≤ 12 * (3.1 / 10 * |w 0 - w' 0|) := mul_le_mul hw1 hdexp (abs_nonneg _) (by norm_num)
          _ ≤ _ := by
            have := abs_nonneg (w 0 - w' 0)
            linarith
    · fin_cases i
      · simp only [Fin.zero_eta, hts0, Nat.sub_self, Nat.zero_add, Matrix.cons_val_zero]
        refine (congrArg (fun f => PolyNear 4 f 0) (funext (hE w).1.2.1)).mpr (polyNear_const (by norm_num) _)
      · simp only [Fin.mk_one, hts1, Nat.sub_self, Nat.zero_add, Matrix.cons_val_one, Matrix.cons_val_fin_one, Nat.reduceAdd]
        refine (congrArg (fun f => PolyNear 4 f 0) (funext (hE w).2.2.1)).mpr (polyNear_const (by norm_num) _)
  obtain ⟨y, y1, -, y3⟩ := C113_roundtrip (x := [1, 2]) (by decide) hsl hAp hS rfl rfl (W := 10) (m := 2 / 5) (L := 4) (ε := 0) (ρ := 2)
    (τ := 2.5e-6) (fun i => by fin_cases i <;> simp) hwell (by norm_num) (by norm_num) (by norm_num) le_rfl (by norm_num)
    (by rw [max_eq_right (by norm_num)]; norm_num) (by norm_num) (by norm_num) (out := [0, 0]) rfl
  have a0 := y3 0
  have a1 := y3 1
  simp at a0 a1
  exact ⟨y, y1, a0.trans (by norm_num), a1.trans (by norm_num)⟩

end MParT
