import Verif.Props.DeepMaps
import Verif.Props.Identify
/-!
# C105: the coefficients of a composition are not determined by the function

Each layer is identifiable by C105, but a composition of identifiable layers is not: two shifts may be exchanged.
-/
namespace MParT
open Spec Finset MapFactory _root_.MParT.Comp

/-- One input, order 2, the exponential and a constant only: the map adds the constant. -/
theorem shift_exact {b : Basis ℝ} {o : MapOptions} (hg : o.posFuncType = .exp) (a : ℝ) (x : Nat → ℝ) :
    (∀ t, unitDensity b.eff (positive o.posFuncType) 0 1 [[0], [1], [2]] [a, 0, 0] x t = x 0) ∧
    monotone b.eff (positive o.posFuncType) 0 1 [[0], [1], [2]] [a, 0, 0] x = a + x 0 := by
  have hv0 : ∀ y, b.eff.val 0 y = 1 := fun y => by simp [Basis.eff]
  have he : ∀ z, expandAt b.eff 1 [[0], [1], [2]] [a, 0, 0] z = a := fun z => by
    simp [expandAt, expansion, termProd, Finset.sum_range_succ, hv0]
  have hdg : ∀ z, diagD b.eff 1 [[0], [1], [2]] [a, 0, 0] z = 0 := fun z => by
    rw [diagD, partialDeriv]
    simp only [he, deriv_const]
  have hden : ∀ s, density b.eff (positive o.posFuncType) 0 1 [[0], [1], [2]] [a, 0, 0] x s = 1 := fun s => by
    rw [density, hdg, hg]; simp [positive]
  refine ⟨fun t => by rw [unitDensity, hden]; simp, ?_⟩
  rw [monotone, offset, he]
  simp [hden]

theorem shift_layer {b : Basis ℝ} {ts : Fin 1 → List (List Nat)} {cs : Fin 1 → List ℝ} {l : DeepLayer 1} (h : BuiltLayer (2, expOptions) b ts cs l) {a : ℝ} (hc : l.coeffs = [a, 0, 0]) :
    l.exact = (fun y _ => a + y 0) ∧ ∀ x : Fin 1 → ℝ, Tracks 0 0 0 0 l x := by
  have hts : ts 0 = [[0], [1], [2]] := total_one_two (h.terms 0)
  have hcs : cs 0 = [a, 0, 0] := by
    have h1 := h.slices.1
    rw [hc] at h1
    simpa using h1
  have hx := fun y : Fin 1 → ℝ => shift_exact (b := b) (o := expOptions) rfl a (coords (List.ofFn y))
  have hex : exactSquare expOptions b ts cs = fun y _ => a + y 0 := by
    funext y i
    obtain rfl : i = 0 := Subsingleton.elim _ _
    rw [exactSquare, exactTriangular, hts, hcs]
    exact (hx y).2.trans (by simp [coords])
  refine ⟨h.exact_eq.trans hex, fun x => C116_tracks h (fun y _ i => ?_) (fun y hy => ?_) (fun y hy => ?_)⟩
  · obtain rfl : i = 0 := Subsingleton.elim _ _
    simp only [hts, hcs]
    refine (congrArg (fun f => PolyNear 41 f 0) (funext (hx y).1)).mpr ?_
    exact polyNear_const (by norm_num) _
  all_goals
    obtain rfl : y = x := dist_le_zero.1 hy
    simp

/-- **C105 does not extend to compositions.** A composition of two maps of the factory, each of which is identifiable, computes the same values and the same log-determinants with the coefficients of the
layers exchanged. -/
theorem C105_fails_composed (mem : Nat → Option ℝ) (work : List ℝ) (checks : Int) : ∃ T t, createTriangular 1 1 2 expOptions mem work = .ok (T, zeros T.numCoeffs) ∧ Identifiable T ∧
    ComposedMap.new [T, T] checks = .ok t ∧ (∀ a b : ℝ, SameValues t [a, 0, 0, b, 0, 0] [b, 0, 0, a, 0, 0] ∧ SameLogDets t [a, 0, 0, b, 0, 0] [b, 0, 0, a, 0, 0]) ∧
    ¬ IdentifiableWithLogDet t := by
  obtain ⟨maps, t, m1, ht, h⟩ := C116_composed (n := 1) (by decide) (by decide) (specs := [(2, expOptions), (2, expOptions)]) (by simp)
    (fun s hs => by
      obtain rfl : s = (2, expOptions) := by simpa using hs
      exact ⟨expOptions_good.1, expOptions_good.2, rfl⟩) checks mem work
  obtain ⟨T, maps1, t1, m2, rfl⟩ := List.forall₂_cons_left_iff.1 m1
  obtain ⟨T', maps2, t2, m3, rfl⟩ := List.forall₂_cons_left_iff.1 m2
  obtain rfl := List.forall₂_nil_left_iff.1 m3
  obtain ⟨rfl, -⟩ := Prod.mk.inj (Res.ok.inj (t1.symm.trans t2))
  have hid : T.numCoeffs = 3 ∧ Identifiable T := by
    obtain ⟨T', s1, s2, s3, -⟩ := C105_triangular_partial (inputDim := 1) (outputDim := 1) (by decide) le_rfl (by decide) expOptions_good.1 expOptions_good.2 mem work
    obtain ⟨rfl, -⟩ := Prod.mk.inj (Res.ok.inj (t1.symm.trans s1))
    exact ⟨by rw [s2]; decide, s3 (.inl rfl)⟩
  have hnt : t.numCoeffs = 6 := by
    obtain ⟨-, -, rfl⟩ := new_composed.mp ht
    change (([T, T] : List CMap).map CMap.numCoeffs).sum = 6
    simp [hid.1]
  have key : ∀ a b : ℝ, ∀ x : Fin 1 → ℝ, ∃ E : (Fin 1 → ℝ) → Fin 1 → ℝ, E = (fun y _ => b + (a + y 0)) ∧
      (∀ out : List ℝ, out.length = 1 → t.eval [a, 0, 0, b, 0, 0] (List.ofFn x) out = .ok (List.ofFn (E x))) ∧
      ∀ out, t.logDet [a, 0, 0, b, 0, 0] (List.ofFn x) out = .ok (some (Real.log (fderiv ℝ E x).det)) := fun a b x => by
    obtain ⟨ls, e1, e2, e3, e4⟩ := h [a, 0, 0, b, 0, 0] (by rw [hnt]; rfl)
    obtain ⟨l1, ls1, ⟨b1, ts1, cs1, q1⟩, e5, rfl⟩ := List.forall₂_cons_left_iff.1 e4
    obtain ⟨l2, ls2, ⟨b2, ts2, cs2, q2⟩, e6, rfl⟩ := List.forall₂_cons_left_iff.1 e5
    obtain rfl := List.forall₂_nil_left_iff.1 e6
    have hsplit : l1.coeffs ++ l2.coeffs = [a, 0, 0] ++ [b, 0, 0] := by simpa using e2
    obtain ⟨c1, c2⟩ := List.append_inj hsplit (by simpa using (exp_layer q1).1)
    obtain ⟨x1, r1⟩ := shift_layer q1 c1
    obtain ⟨x2, r2⟩ := shift_layer q2 c2
    have ht' : ComposedMap.new ([l1, l2].map DeepLayer.map) checks = .ok t := by rw [e1]; exact ht
    obtain ⟨⟨z, hz, hze⟩, v, hv, hve⟩ := C116_evaluate ht' e3 (Λ := 0) (ε := 0) (M := 0) (R := 0) le_rfl le_rfl le_rfl (by simp) (x := x) ⟨r1 _, r2 _, trivial⟩
    rw [zero_mul] at hz hv
    obtain rfl := dist_le_zero.1 hz
    obtain rfl := sub_eq_zero.1 (abs_nonpos_iff.1 hv)
    rw [e2] at hze hve
    exact ⟨exactDeep [l1, l2], by funext y i; simp only [exactDeep, x1, x2], hze, hve⟩
  have hdims : t.inputDim = 1 ∧ t.outputDim = 1 := by
    obtain ⟨ls, e1, e2, e3, e4⟩ := h (zeros 6) (by rw [hnt]; simp [zeros])
    have ht' : ComposedMap.new (ls.map DeepLayer.map) checks = .ok t := by rw [e1]; exact ht
    exact ⟨(deep_new ht' e3).2.2.1, (deep_new ht' e3).2.2.2.1⟩
  have hsame : ∀ a b : ℝ, SameValues t [a, 0, 0, b, 0, 0] [b, 0, 0, a, 0, 0] ∧ SameLogDets t [a, 0, 0, b, 0, 0] [b, 0, 0, a, 0, 0] := fun a b => by
    have hE : (fun (y : Fin 1 → ℝ) (_ : Fin 1) => b + (a + y 0)) = fun y _ => a + (b + y 0) := by funext y _; ring
    constructor
    · intro x out hx ho
      obtain ⟨E, rfl, h1, -⟩ := key a b fun i => x.getD i 0
      obtain ⟨E', rfl, h2, -⟩ := key b a fun i => x.getD i 0
      rw [← ofFn_getD (hx.trans hdims.1)] at h1 h2
      rw [h1 out (ho.trans hdims.2), h2 out (ho.trans hdims.2), hE]
    · intro x out hx
      obtain ⟨E, rfl, -, h1⟩ := key a b fun i => x.getD i 0
      obtain ⟨E', rfl, -, h2⟩ := key b a fun i => x.getD i 0
      rw [← ofFn_getD (hx.trans hdims.1)] at h1 h2
      rw [h1, h2, hE]
  refine ⟨T, t, t1, hid.2, ht, hsame, fun hI => ?_⟩
  have := hI [1, 0, 0, 2, 0, 0] [2, 0, 0, 1, 0, 0] (by rw [hnt]; rfl) (by rw [hnt]; rfl) (hsame 1 2).1 (hsame 1 2).2
  norm_num at this

end MParT
