import Verif.Props.Laws
import Verif.Props.Triangular
import Verif.Props.Affine
import Verif.Props.ComponentLinear
import Mathlib.Analysis.Complex.ExponentialBounds
/-!
# C100 for the maps of the library
-/
namespace MParT
open Spec MeasureTheory Aff MonotoneComponent Worker OrthoPoly Hermite

/-- C100 for affine maps: every affine map whose last columns form an invertible matrix, over every Gaussian. -/
theorem C100_affine {A : View2 ℝ} {b : List ℝ} {n k N : Nat} {t : CMap} (h : MakesAffine A b n N t)
    (hd : (lastColumns (matrix A) n N).det ≠ 0) (hk : N - n ≤ k) {μ : Fin n → ℝ} {Sig : Matrix (Fin n) (Fin n) ℝ} {g : Gaussian}
    (hg : Constructed μ Sig g) {c x1 : List ℝ} {p : Density} (hp : Pullback.new t g.density c = .ok p)
    (hc : c.length = t.numCoeffs) (hx1 : x1.length = k) :
    ∃ S T : (Fin n → ℝ) → (Fin n → ℝ),
      (∀ z, g.sampleImpl [List.ofFn z] (Layout.left n 1) = .ok [List.ofFn (S z)] ∧
        t.inv c x1 (List.ofFn (S z)) (zeros n) = .ok (List.ofFn (T (S z)))) ∧
      Measure.map (fun z => T (S z)) (Measure.pi fun _ => ProbabilityTheory.gaussianReal 0 1)
        = lawOf (densityOn p (x1.take (N - n)) n) ∧
      IsProbabilityMeasure (lawOf (densityOn p (x1.take (N - n)) n)) := by
  obtain ⟨e1, e2, e3, -⟩ := C48_affine_evaluate h
  obtain ⟨l1, -, l3⟩ := C48_affine_logDet h hd
  have hnN : n ≤ N := by obtain ⟨⟨-, h2, -⟩, -⟩ := makes_iff h; exact h2
  have := C100_gaussian_conditional hg e3 (by rw [e2]; exact hnN) (by rw [e2]; exact hk) hp e1 (C48_affine_gradient h).1 l1 l3
    (C48_affine_inverse h hd hk) hc hx1
  rwa [e2] at this

/-- C100 for triangular maps: if every component keeps the contract, then for every value of the leading inputs the samples that
`Inverse` makes have the conditional density. -/
theorem C100_triangular {comps : List CMap} {t : CMap} (ht : TriangularMap.new comps = .ok t) (hE : ∀ m ∈ comps, Evaluates m)
    (hG : ∀ m ∈ comps, Differentiates m) (hL : ∀ m ∈ comps, HasLogDet m) (hJ : ∀ m ∈ comps, LogDetIsJacobian m)
    (hI : ∀ m ∈ comps, InvertsFrom m m.inputDim) {n k : Nat} (hn : t.outputDim = n) (hk : t.inputDim - n ≤ k) (hk' : k ≤ t.inputDim)
    {μ : Fin n → ℝ} {Sig : Matrix (Fin n) (Fin n) ℝ} {g : Gaussian}
    (hg : Constructed μ Sig g) {c x1 : List ℝ} {p : Density} (hp : Pullback.new t g.density c = .ok p)
    (hc : c.length = t.numCoeffs) (hx1 : x1.length = k) :
    ∃ S T : (Fin n → ℝ) → (Fin n → ℝ),
      (∀ z, g.sampleImpl [List.ofFn z] (Layout.left n 1) = .ok [List.ofFn (S z)] ∧
        t.inv c x1 (List.ofFn (S z)) (zeros n) = .ok (List.ofFn (T (S z)))) ∧
      Measure.map (fun z => T (S z)) (Measure.pi fun _ => ProbabilityTheory.gaussianReal 0 1)
        = lawOf (densityOn p (x1.take (t.inputDim - n)) n) ∧
      IsProbabilityMeasure (lawOf (densityOn p (x1.take (t.inputDim - n)) n)) := by
  have hio : n ≤ t.inputDim := by
    obtain ⟨hne, ⟨e, hch⟩, rfl⟩ := new_triangular.mp ht
    obtain ⟨h1, h2, h3⟩ := obj_sizes hne hch
    omega
  exact C100_gaussian_conditional hg hn hio hk hp (C40_evaluate ht hE).1 (C43_gradient ht hE hG) (C42_sum ht hL).1
    (C42_jacobian ht hE hL hJ) (C41_inverse ht hE hI (by rw [hn]; exact hk) hk') hc hx1

theorem stackedLogDet_append (a b : List CMap) (c x : List ℝ) :
    stackedLogDet (a ++ b) c x = stackedLogDet a c x + stackedLogDet b (c.drop (a.map CMap.numCoeffs).sum) x := by
  induction a generalizing c with
  | nil => simp [stackedLogDet]
  | cons m a ih => simp [stackedLogDet, ih, List.drop_drop, add_assoc]

theorem stacked_take (l : List CMap) (k n : Nat) (c x : List ℝ) (hk : (l.map CMap.numCoeffs).sum ≤ k) (hn : ∀ m ∈ l, m.inputDim ≤ n) :
    stacked l (c.take k) (x.take n) = stacked l c x ∧ stackedLogDet l (c.take k) (x.take n) = stackedLogDet l c x := by
  induction l generalizing c k with
  | nil => exact ⟨rfl, rfl⟩
  | cons a l ih =>
    simp only [List.map_cons, List.sum_cons] at hk
    obtain ⟨h1, h2⟩ := ih (k - a.numCoeffs) (c.drop a.numCoeffs) (by omega) (fun m hm => hn m (by simp [hm]))
    have ha := hn a (by simp)
    simp only [stacked, stackedLogDet, List.take_take, Nat.min_eq_left (show a.numCoeffs ≤ k by omega), Nat.min_eq_left ha,
      List.drop_take]
    rw [h1, h2]
    exact ⟨rfl, rfl⟩

/-- C100: the joint density is the marginal density times the conditional density. For a triangular map split into its upper
and lower components and a reference whose two blocks are independent, the pullback density of the whole map is that of the upper
part at the leading inputs times that of the lower part, which `C100_triangular` shows to be the law of the samples that the lower
part makes for these leading inputs. -/
theorem C100_factorises {upper lower : List CMap} {t ta tb : CMap} (ht : TriangularMap.new (upper ++ lower) = .ok t)
    (hta : TriangularMap.new upper = .ok ta) (htb : TriangularMap.new lower = .ok tb) (hE : ∀ m ∈ upper ++ lower, Evaluates m)
    (hL : ∀ m ∈ upper ++ lower, HasLogDet m) {d da db p pa pb : Density} {c x : List ℝ} (hD : HasDensity d) (hDa : HasDensity da)
    (hDb : HasDensity db) (hind : ∀ u v : List ℝ, u.length = da.dim → v.length = db.dim → logp d (u ++ v) = logp da u + logp db v)
    (hp : Pullback.new t d c = .ok p) (hpa : Pullback.new ta da (c.take ta.numCoeffs) = .ok pa)
    (hpb : Pullback.new tb db (c.drop ta.numCoeffs) = .ok pb) (hf : Fits t c x) :
    logp p x = logp pa (x.take ta.inputDim) + logp pb x := by
  have hEa : ∀ m ∈ upper, Evaluates m := fun m hm => hE m (by simp [hm])
  have hEb : ∀ m ∈ lower, Evaluates m := fun m hm => hE m (by simp [hm])
  have hLa : ∀ m ∈ upper, HasLogDet m := fun m hm => hL m (by simp [hm])
  have hLb : ∀ m ∈ lower, HasLogDet m := fun m hm => hL m (by simp [hm])
  obtain ⟨k1, k2⟩ := C40_evaluate ht hE
  obtain ⟨a1, a2⟩ := C40_evaluate hta hEa
  obtain ⟨b1, b2⟩ := C40_evaluate htb hEb
  obtain ⟨lk1, lk2⟩ := C42_sum ht hL
  obtain ⟨la1, la2⟩ := C42_sum hta hLa
  obtain ⟨lb1, lb2⟩ := C42_sum htb hLb
  obtain ⟨q1, rfl⟩ := pull_new.mp hp
  obtain ⟨q2, rfl⟩ := pull_new.mp hpa
  obtain ⟨q3, rfl⟩ := pull_new.mp hpb
  obtain ⟨hne, ⟨e, hch⟩, rfl⟩ := new_triangular.mp ht
  obtain ⟨hnea, ⟨ea, hcha⟩, rfl⟩ := new_triangular.mp hta
  obtain ⟨hneb, ⟨eb, hchb⟩, rfl⟩ := new_triangular.mp htb
  obtain ⟨h1, h2, h3⟩ := obj_sizes hne hch
  obtain ⟨hch1, hch2⟩ := Chain.append hch
  obtain ⟨u1, u2, u3⟩ := obj_sizes hnea hch1
  obtain ⟨v1, v2, v3⟩ := obj_sizes hneb hch2
  have hs2 : ((upper ++ lower).map CMap.outputDim).sum = (upper.map CMap.outputDim).sum + (lower.map CMap.outputDim).sum := by simp
  have hs3 : ((upper ++ lower).map CMap.numCoeffs).sum = (upper.map CMap.numCoeffs).sum + (lower.map CMap.numCoeffs).sum := by simp
  have hfa : Fits (TriangularMap.obj upper) (c.take (TriangularMap.obj upper).numCoeffs) (x.take (TriangularMap.obj upper).inputDim) :=
    ⟨by rw [List.length_take, hf.1]; omega, by rw [List.length_take, hf.2]; omega⟩
  have hfb : Fits (TriangularMap.obj lower) (c.drop (TriangularMap.obj upper).numCoeffs) x :=
    ⟨by rw [List.length_drop, hf.1]; omega, by rw [hf.2]; omega⟩
  have e1 : ∀ {m : CMap} {d : Density} {c x : List ℝ} {i}, Evaluates m → HasLogDet m → HasDensity d → m.outputDim = d.dim → Fits m c x →
      logp { dim := d.dim, logDensity := Pullback.logDensity m d c, inputGrad := i } x = logp d (fn m c x) + logdet m c x := by
    intro m d c x i hE hL hD hdim hf
    rw [logp]
    simp only
    rw [pull_logDensity hE hL hD hdim hf]
    rfl
  rw [e1 k1 lk1 hD q1 hf, e1 a1 la1 hDa q2 hfa, e1 b1 lb1 hDb q3 hfb, k2 _ _ hf, a2 _ _ hfa, b2 _ _ hfb, lk2 _ _ hf, la2 _ _ hfa,
    lb2 _ _ hfb, stacked_append, stackedLogDet_append]
  have hin : ∀ m ∈ upper, m.inputDim ≤ (TriangularMap.obj upper).inputDim := fun m hm => by rw [u1]; exact hch1.le hm
  obtain ⟨t1, t2⟩ := stacked_take upper (TriangularMap.obj upper).numCoeffs (TriangularMap.obj upper).inputDim c x u3.ge hin
  have la := a2 _ _ hfa
  have hla := (a1 _ _ hfa).1
  have hlb := (b1 _ _ hfb).1
  rw [la, t1] at hla
  rw [b2 _ _ hfb] at hlb
  rw [← u3, t1, t2, hind _ _ (hla.trans q2) (hlb.trans q3)]
  ring

/-- Log-density of the standard normal distribution. -/
theorem std_logp (n : Nat) {x : List ℝ} (hx : x.length = n) :
    logp (Gaussian.ofDim n).density x = -(1 / 2) * (x.map (· ^ 2)).sum - (1 / 2) * (n * Real.log (2 * Real.pi)) := by
  have h := (C53_density (.dim n)).2.2.2 x hx
  rw [h, normalLogDensity]
  simp only [Matrix.one_apply, inv_one, Matrix.det_one, Real.log_one, add_zero, sub_zero]
  congr 2
  subst hx
  have : ∀ i : Fin x.length, ∑ j, colVec x.length x i * (if i = j then (1 : ℝ) else 0) * colVec x.length x j = x[i] ^ 2 := by
    intro i
    rw [Finset.sum_eq_single i (fun j _ hj => by rw [if_neg (Ne.symm hj)]; ring) (by simp)]
    simp [colVec, sq]
  rw [Finset.sum_congr rfl fun i _ => this i, ← List.sum_ofFn]
  congr 1
  exact List.ext_getElem (by simp) fun i h1 h2 => by simp

/-- The blocks of a standard normal vector are independent. -/
theorem std_blocks (a b : Nat) (u v : List ℝ) (hu : u.length = a) (hv : v.length = b) :
    logp (Gaussian.ofDim (a + b)).density (u ++ v) = logp (Gaussian.ofDim a).density u + logp (Gaussian.ofDim b).density v := by
  rw [std_logp _ (by simp [hu, hv]), std_logp _ hu, std_logp _ hv, List.map_append, List.sum_append, Nat.cast_add]
  ring

/-- Non-vacuity: the triangular map `(x₁, x₂) ↦ (x₁, exp(a) x₂ + x₁²)` over the standard normal distribution. -/
example : ∃ t p pa pb, TriangularMap.new exampleComps = .ok t ∧ Pullback.new t (Gaussian.ofDim 2).density [3] = .ok p ∧
    Pullback.new (TriangularMap.obj [IdentityMap.obj 1 1]) (Gaussian.ofDim 1).density [] = .ok pa ∧
    Pullback.new (TriangularMap.obj [toy]) (Gaussian.ofDim 1).density [3] = .ok pb ∧
    (∀ x : List ℝ, x.length = 2 → logp p x = logp pa (x.take 1) + logp pb x) ∧
    ∀ x₁ : ℝ, IsProbabilityMeasure (lawOf (densityOn pb [x₁] 1)) := by
  have hone : TriangularMap.new [toy] = .ok (TriangularMap.obj [toy]) := by
    simp [TriangularMap.new, toy, TriangularMap.checkNext]
  have hid : TriangularMap.new [IdentityMap.obj 1 1] = .ok (TriangularMap.obj [IdentityMap.obj 1 1]) := by
    simp [TriangularMap.new, IdentityMap.obj, TriangularMap.checkNext]
  refine ⟨_, _, _, _, example_new, pull_new.mpr ⟨rfl, rfl⟩, pull_new.mpr ⟨rfl, rfl⟩, pull_new.mpr ⟨rfl, rfl⟩, fun x hx => ?_,
    fun x₁ => ?_⟩
  · exact C100_factorises (c := [3]) (upper := [IdentityMap.obj 1 1]) (lower := [toy]) example_new hid hone example_evaluates
      (example_all (C48_identity_logDet (le_refl 1)).1 toy_hasLogDet) (C53_density (.dim 2)).2.1 (C53_density (.dim 1)).2.1
      (C53_density (.dim 1)).2.1 (fun u v hu hv => std_blocks 1 1 u v hu hv) (pull_new.mpr ⟨rfl, rfl⟩) (pull_new.mpr ⟨rfl, rfl⟩)
      (pull_new.mpr ⟨rfl, rfl⟩) ⟨rfl, hx⟩
  · obtain ⟨S, T, -, -, h⟩ := C100_triangular hone (by simpa using toy_evaluates) (by simpa using toy_differentiates)
      (by simpa using toy_hasLogDet) (by simpa using toy_jacobian) (by simpa using toy_inverts (by decide)) (n := 1) (k := 1) rfl
      (by decide) (by decide) (.dim 1) (c := [3]) (x1 := [x₁]) (pull_new.mpr ⟨rfl, rfl⟩) rfl rfl
    exact h

/-! ## Monotone components that are affine in the last input -/

/-- C100 for monotone components that are affine in their last input, with the continuous derivative and no nugget: with every
quadrature whose weights sum to 1, for every value of the leading inputs the pullback density over the standard normal
distribution integrates to one over the last input, and it is the law of the preimages of standard normal draws. (`Inverse`
computes these preimages up to a tolerance only, `C61_affine_inverse`.) -/
theorem C100_component_partial {c : MonotoneComponent} {D : Nat} {ts : List (List Nat)} (hv : ValidComponent c D ts) (scr : Cache ℝ)
    (hs : scr.length = c.w.cacheSize) (work : List ℝ) {mesh : (ℝ → ℝ) → List (ℝ × ℝ)} (hm : UsesMesh c.quad mesh)
    (hw : WeightsOne mesh) (ha : AffineLast c.b D ts) (h2 : ∀ y, TwiceAt c.b.eff y) (hcont : c.useContDeriv = true)
    (hν : c.nugget = 0) {cs lead : List ℝ} (hc : cs.length = ts.length) (hl : lead.length + 1 = D) :
    ∃ p, Pullback.new (c.obj scr work) (Gaussian.ofDim 1).density cs = .ok p ∧ IsProbabilityMeasure (lawOf (densityOn p lead 1)) ∧
      ∃ S : (Fin 1 → ℝ) → (Fin 1 → ℝ), (∀ z, fn (c.obj scr work) cs (lead ++ [S z 0]) = [z 0]) ∧
        Measure.map S (Measure.pi fun _ => ProbabilityTheory.gaussianReal 0 1) = lawOf (densityOn p lead 1) := by
  obtain ⟨s1, s2, s3⟩ := obj_sizes_component hv scr work
  obtain ⟨e1, e2, e3, e4, -, e6⟩ := C61_affine hv scr hs work hm hw ha h2 hcont hν
  have hT : ∀ t, fn (c.obj scr work) cs (lead ++ [t]) = [offset c.b.eff D ts cs (coords lead)
      + t * c.g.eval (diagD c.b.eff D ts cs (coords lead))] := by
    intro t
    have hl2 : lead.take (D - 1) = lead := List.take_of_length_le (by omega)
    have := coords_lead hv (x1 := lead) (.inr (by omega)) t
    rw [hl2] at this
    rw [e6 cs _ ⟨by rw [s3]; exact hc, by rw [s1]; simp; omega⟩, this, affine_diagD hv ha, Function.update_self, offset,
      Function.update_idem]
    rfl
  have hpos : 0 < c.g.eval (diagD c.b.eff D ts cs (coords lead)) := hv.bij.pos _
  have hp := (pull_new (m := c.obj scr work) (d := (Gaussian.ofDim 1).density) (c := cs)).mpr ⟨s2, rfl⟩
  obtain ⟨S, hS1, hS2⟩ := C100_preimage (lead := lead) s2 (by rw [s1]; omega) hp e1 e2 e3 e4 (C53_density (.dim 1)).2.1
    (by rw [s3]; exact hc) (fun r hr => by
      refine ⟨[(r.getD 0 0 - offset c.b.eff D ts cs (coords lead)) / c.g.eval (diagD c.b.eff D ts cs (coords lead))], rfl, ?_,
        fun y' hy' h => ?_⟩
      · rw [hT, div_mul_cancel₀ _ hpos.ne', length_one hr]
        simp
      · rw [length_one hy', hT, length_one hr] at h
        have h3 := (List.cons.inj h).1
        rw [length_one hy', length_one hr, ← h3]
        simp only [List.getD_cons_zero, add_sub_cancel_left]
        rw [mul_div_cancel_right₀ _ hpos.ne'])
  obtain ⟨T, hT1, hT2, -⟩ := C100_gaussian (.dim 1)
  have hstd : densityOn (Gaussian.ofDim 1).density [] 1 = stdNormal := by
    funext z
    rw [densityOn, List.nil_append, std_logp 1 (by simp), std_eq]
    simp
  rw [hstd] at hS2
  refine ⟨_, hp, hS2.total, S, fun z => ?_, ?_⟩
  · have := hS1 z
    simpa using this
  · rw [← stdNormal_law]; exact hS2.2

/-- Non-vacuity: two inputs, total order 1, normalised Hermite polynomials, `softplus`, adaptive Simpson quadrature with the default
settings, coefficients `(1,2,3)`, leading input 4. -/
example : ∃ (c : MonotoneComponent) (p : Density), c.quad = QProg.simpson ⟨1, 30, 0, 1e-6, 1e-6, .first⟩ ∧
    Pullback.new (c.obj (List.replicate c.w.cacheSize (some 3)) []) (Gaussian.ofDim 1).density [1, 2, 3] = .ok p ∧
    IsProbabilityMeasure (lawOf (densityOn p [4] 1)) := by
  obtain ⟨h1, h2, -⟩ := C39_simpson ⟨1, 30, 0, 1e-6, 1e-6, .first⟩ rfl (by decide) (by decide)
  have hv := valid_total 2 1 (by decide) C24_bases_normalized.1.c1 C30_softPlus _ h2 true 0
  have ha := affineLast_total 2 1 le_rfl _ fun y => (affine_bases true y).1
  obtain ⟨p, hp, h, -⟩ := C100_component_partial hv (List.replicate (totalWorker 2 1).cacheSize (some 3)) (by simp) [] h1
    (C61_weights.2.1 _) ha C24_bases_normalized.1.twice rfl rfl (cs := [1, 2, 3]) (lead := [4]) rfl rfl
  exact ⟨_, p, rfl, hp, h⟩

/-! ## Failure with an inexact quadrature -/

/-- **C100 fails for monotone components in general.** With the one-point Clenshaw–Curtis rule, Hermite polynomials of order 2
in one variable, `exp`, the continuous derivative (the default) and no nugget, there are coefficients for which the pullback
density over the standard normal distribution is finite everywhere but has total mass greater than one: no sampler has it. -/
theorem C100_fails_component : ∃ (c : MonotoneComponent) (w q : Mem) (cs : List ℝ), ValidComponent c 1 (MISet.toEnum 1 2) ∧
    ClenshawCurtis.getRule 1 ⟨1, fun _ => 0⟩ ⟨1, fun _ => 0⟩ = .ok (w, q) ∧ c.quad = QProg.clenshawCurtis q w ∧
    c.useContDeriv = true ∧ c.nugget = 0 ∧ ∀ (scr : Cache ℝ) (work : List ℝ), scr.length = c.w.cacheSize →
      ∃ p, Pullback.new (c.obj scr work) (Gaussian.ofDim 1).density cs = .ok p ∧ HasDensity p ∧
        1 < lawOf (densityOn p [] 1) Set.univ ∧
        ∀ (S : (Fin 1 → ℝ) → (Fin 1 → ℝ)), ¬ CarriesLaw S stdNormal (densityOn p [] 1) := by
  have hrule : ClenshawCurtis.getRule 1 ⟨1, fun _ => 0⟩ ⟨1, fun _ => 0⟩
      = .ok (⟨1, Function.update (fun _ => 0) 0 2⟩, ⟨1, Function.update (fun _ => 0) 0 0⟩) := by
    simp only [ClenshawCurtis.getRule]
    rw [if_neg one_ne_zero, if_pos trivial, Mem.write_ok (by decide), Res.bind_ok, Mem.write_ok (by decide), Res.bind_ok,
      Res.pure_eq]
  obtain ⟨h1, h2, -⟩ := C39_clenshawCurtis ⟨1, Function.update (fun _ => 0) 0 0⟩ ⟨1, Function.update (fun _ => 0) 0 2⟩ rfl
  have hv := valid_total 1 2 (by decide) C24_bases.1.eff.c1 C30_exp _ h2 true 0
  refine ⟨_, _, _, [1 / 2, -17 / 2, 1 / 2], hv, hrule, rfl, rfl, rfl, fun scr work hs => ?_⟩
  obtain ⟨s1, s2, s3⟩ := obj_sizes_component hv scr work
  obtain ⟨e1, e2⟩ := C61_evaluates hv scr hs work h1
  obtain ⟨l1, -, l3⟩ := C61_logdet hv scr hs work rfl
  have hts : MISet.toEnum 1 2 = [[0], [1], [2]] := by decide
  have hd2 : ∀ y, deriv (He 2) y = 2 * y := fun y => by
    rw [(He_hasDerivAt 1 y).deriv, He_one]; norm_num
  have hd1 : ∀ y, deriv (He 1) y = 1 := fun y => by
    rw [(He_hasDerivAt 0 y).deriv, He_zero]; norm_num
  have h2 : ∀ y, He 2 y = y ^ 2 - 1 := fun y => by
    rw [He_rec 0 y, He_one, He_zero]; push_cast; ring
  have hf : ∀ x : Nat → ℝ, diagD (Spec.basisOf He).eff 1 (MISet.toEnum 1 2) [1 / 2, -17 / 2, 1 / 2] x = x 0 - 17 / 2 := by
    intro x
    have := diagD_eq hv [1 / 2, -17 / 2, 1 / 2] x
    simp only at this
    rw [this, hts, expansion]
    simp [Finset.sum_range_succ, termProd, facD1, Basis.eff, Spec.basisOf, hd2, hd1]
    ring
  have ho : ∀ x : Nat → ℝ, offset (Spec.basisOf He).eff 1 (MISet.toEnum 1 2) [1 / 2, -17 / 2, 1 / 2] x = 0 := by
    intro x
    rw [offset, expandAt, hts, expansion]
    simp [Finset.sum_range_succ, termProd, Basis.eff, Spec.basisOf, h2, He_one]
  have hfit : ∀ y, Fits (MonotoneComponent.obj ⟨totalWorker 1 2, Spec.basisOf He, expBij,
      QProg.clenshawCurtis ⟨1, Function.update (fun _ => 0) 0 0⟩ ⟨1, Function.update (fun _ => 0) 0 2⟩, true, 0⟩ scr work)
      [1 / 2, -17 / 2, 1 / 2] [y] := fun y => ⟨by rw [s3, hts]; rfl, by rw [s1]; rfl⟩
  have hfn : ∀ y, fn (MonotoneComponent.obj ⟨totalWorker 1 2, Spec.basisOf He, expBij,
      QProg.clenshawCurtis ⟨1, Function.update (fun _ => 0) 0 0⟩ ⟨1, Function.update (fun _ => 0) 0 2⟩, true, 0⟩ scr work)
      [1 / 2, -17 / 2, 1 / 2] [y] = [y * Real.exp (y / 2 - 17 / 2)] := by
    intro y
    rw [e2 _ _ (hfit y)]
    simp only [discretised, QProg.moved, unitDensity, density, hf, ho]
    simp [coords, expBij]
    left; ring
  have hld : ∀ y, logdet (MonotoneComponent.obj ⟨totalWorker 1 2, Spec.basisOf He, expBij,
      QProg.clenshawCurtis ⟨1, Function.update (fun _ => 0) 0 0⟩ ⟨1, Function.update (fun _ => 0) 0 2⟩, true, 0⟩ scr work)
      [1 / 2, -17 / 2, 1 / 2] [y] = y - 17 / 2 := by
    intro y
    rw [l3 _ _ (hfit y)]
    simp only [hf]
    simp [expBij, coords]
  have hlp : ∀ y : ℝ, ∀ o, Pullback.logDensity (MonotoneComponent.obj ⟨totalWorker 1 2, Spec.basisOf He, expBij,
      QProg.clenshawCurtis ⟨1, Function.update (fun _ => 0) 0 0⟩ ⟨1, Function.update (fun _ => 0) 0 2⟩, true, 0⟩ scr work)
      (Gaussian.ofDim 1).density [1 / 2, -17 / 2, 1 / 2] [y] o
      = .ok (some (-(1 / 2) * (y * Real.exp (y / 2 - 17 / 2)) ^ 2 - 1 / 2 * Real.log (2 * Real.pi) + (y - 17 / 2))) := by
    intro y o
    rw [pull_logDensity e1 l1 (C53_density (.dim 1)).2.1 rfl (hfit y), hfn, hld, std_logp 1 rfl]
    simp
  have hp := pull_new (m := MonotoneComponent.obj ⟨totalWorker 1 2, Spec.basisOf He, expBij,
      QProg.clenshawCurtis ⟨1, Function.update (fun _ => 0) 0 0⟩ ⟨1, Function.update (fun _ => 0) 0 2⟩, true, 0⟩ scr work)
      (d := (Gaussian.ofDim 1).density) (c := [1 / 2, -17 / 2, 1 / 2]) |>.mpr ⟨rfl, rfl⟩
  generalize hP : (Density.mk _ _ _) = P at hp
  have hlogp : ∀ y : ℝ, logp P [y] = -(1 / 2) * (y * Real.exp (y / 2 - 17 / 2)) ^ 2 - 1 / 2 * Real.log (2 * Real.pi) + (y - 17 / 2) := by
    intro y
    rw [logp, ← hP]
    simp only [hlp y]
    rfl
  have hmass : 1 < lawOf (densityOn P [] 1) Set.univ := by
    have hlow : ∀ x : Fin 1 → ℝ, x ∈ Set.Icc (fun _ : Fin 1 => (12 : ℝ)) (fun _ => 13) → ENNReal.ofReal (3 / 2) ≤ ENNReal.ofReal (densityOn P [] 1 x) := by
      intro x hx
      have hx1 : 12 ≤ x 0 := hx.1 0
      have hx2 : x 0 ≤ 13 := hx.2 0
      refine ENNReal.ofReal_le_ofReal ?_
      have e : List.ofFn x = [x 0] := by simp
      rw [densityOn, List.nil_append, e, hlogp]
      generalize x 0 = y at hx1 hx2
      have hexp1 : (2.7182818283 : ℝ) < Real.exp 1 := Real.exp_one_gt_d9
      have he2 : (7 : ℝ) < Real.exp 2 := by
        have : Real.exp 2 = Real.exp 1 * Real.exp 1 := by rw [← Real.exp_add]; norm_num
        rw [this]; nlinarith
      have hT0 : 0 ≤ y * Real.exp (y / 2 - 17 / 2) := mul_nonneg (by linarith) (Real.exp_pos _).le
      have hT : y * Real.exp (y / 2 - 17 / 2) ≤ 2 := by
        have h3 : Real.exp (y / 2 - 17 / 2) ≤ Real.exp (-2) := Real.exp_le_exp.mpr (by linarith)
        have h4 : Real.exp (-2) ≤ 1 / 7 := by
          rw [Real.exp_neg, inv_eq_one_div]
          exact one_div_le_one_div_of_le (by norm_num) he2.le
        have h5 : y * Real.exp (y / 2 - 17 / 2) ≤ 13 * (1 / 7) :=
          mul_le_mul hx2 (h3.trans h4) (Real.exp_pos _).le (by norm_num)
        linarith
      have hlog : Real.log (2 * Real.pi) ≤ 2 := by
        rw [Real.log_le_iff_le_exp (by positivity)]
        have := Real.pi_lt_d2
        linarith
      have hsq : (y * Real.exp (y / 2 - 17 / 2)) ^ 2 ≤ 4 := by nlinarith
      have hle : 1 / 2 ≤ -(1 / 2) * (y * Real.exp (y / 2 - 17 / 2)) ^ 2 - 1 / 2 * Real.log (2 * Real.pi) + (y - 17 / 2) := by linarith
      have h6 := Real.add_one_le_exp (1 / 2 : ℝ)
      have h7 := Real.exp_le_exp.mpr hle
      linarith
    have hvol : volume (Set.Icc (fun _ : Fin 1 => (12 : ℝ)) (fun _ => 13)) = 1 := by
      rw [Real.volume_Icc_pi]; norm_num
    have h8 : ENNReal.ofReal (3 / 2) * 1 ≤ lawOf (densityOn P [] 1) (Set.Icc (fun _ : Fin 1 => (12 : ℝ)) (fun _ => 13)) := by
      rw [lawOf, withDensity_apply _ measurableSet_Icc, ← hvol]
      rw [← setLIntegral_const]
      exact setLIntegral_mono' measurableSet_Icc hlow
    have h9 : (1 : ENNReal) < ENNReal.ofReal (3 / 2) := by
      rw [← ENNReal.ofReal_one]
      exact (ENNReal.ofReal_lt_ofReal_iff (by norm_num)).mpr (by norm_num)
    rw [mul_one] at h8
    exact h9.trans_le (h8.trans (measure_mono (Set.subset_univ _)))
  refine ⟨P, hp, fun x hx o => ?_, hmass, fun S hS => ?_⟩
  · have hx1 : x.length = 1 := by rw [hx, ← hP]; rfl
    rw [length_one hx1, hlogp, ← hP]
    exact hlp _ o
  · have := hS.total
    rw [measure_univ] at hmass
    exact lt_irrefl _ hmass

end MParT
