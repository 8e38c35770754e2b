import Verif.Props.Gaussian
import Verif.Lemmas.BendMap
import Verif.Lemmas.ToyMap
/-!
# C52: pullback and pushforward densities
-/
namespace MParT
open Spec

variable {m : CMap} {d : Density}

theorem pull_new {c : List ℝ} {p : Density} : Pullback.new m d c = .ok p ↔
    m.outputDim = d.dim ∧ p = { dim := d.dim, logDensity := Pullback.logDensity m d c, inputGrad := Pullback.inputGrad m d c } := by
  rw [Pullback.new]
  split
  · exact ⟨fun h => ⟨‹_›, (Res.ok.inj h).symm⟩, fun h => by rw [h.2]⟩
  · exact ⟨fun h => absurd h (by simp), fun h => absurd h.1 ‹_›⟩

theorem push_new {c : List ℝ} {p : Density} : Pushforward.new m d c = .ok p ↔
    m.inputDim = d.dim ∧ m.outputDim = m.inputDim ∧
      p = { dim := d.dim, logDensity := Pushforward.logDensity m d c, inputGrad := fun _ _ => .throw } := by
  rw [Pushforward.new]
  by_cases h1 : m.inputDim = d.dim
  · by_cases h2 : m.outputDim = m.inputDim
    · rw [if_neg (by simp [h1]), if_neg (by simp [h2])]
      exact ⟨fun h => ⟨h1, h2, (Res.ok.inj h).symm⟩, fun h => by rw [h.2.2]⟩
    · rw [if_neg (by simp [h1]), if_pos h2]
      exact ⟨fun h => absurd h (by simp), fun h => absurd h.2.1 h2⟩
  · rw [if_pos h1]
    exact ⟨fun h => absurd h (by simp), fun h => absurd h.1 h1⟩

theorem pull_logDensity (hE : Evaluates m) (hL : HasLogDet m) (hD : HasDensity d) (hdim : m.outputDim = d.dim) {c x : List ℝ}
    (hf : Fits m c x) (o : Option ℝ) :
    Pullback.logDensity m d c x o = .ok (some (logp d (fn m c x) + logdet m c x)) := by
  rw [Pullback.logDensity, (hE c x hf).2 _ (by simp), Res.bind_ok, hD _ ((hE c x hf).1.trans hdim), Res.bind_ok, hL c x hf]
  rfl

/-- C52: the pullback by `T` of a density is the density at `T(x)` times the modulus of the Jacobian determinant of `T` at `x`:
this is what `LogDensity` returns, whatever the output buffer contained. -/
theorem C52_pullback {c x : List ℝ} {p : Density} (hp : Pullback.new m d c = .ok p) (hE : Evaluates m) (hL : HasLogDet m)
    (hJ : LogDetIsJacobian m) (hD : HasDensity d) (hf : Fits m c x) (o : Option ℝ) :
    p.logDensity x o = .ok (some (pulledBack m d c x)) := by
  obtain ⟨hdim, rfl⟩ := pull_new.mp hp
  rw [pulledBack, ← (hJ c x hf).2]
  exact pull_logDensity hE hL hD hdim hf o

/-- C52: a density and a map are rejected exactly when their dimensions do not fit. -/
theorem C52_dimensions (c : List ℝ) :
    ((∃ p, Pullback.new m d c = .ok p) ↔ m.outputDim = d.dim) ∧ (Pullback.new m d c = .throw ↔ m.outputDim ≠ d.dim) ∧
    ((∃ p, Pushforward.new m d c = .ok p) ↔ m.inputDim = d.dim ∧ m.outputDim = d.dim) ∧
    (Pushforward.new m d c = .throw ↔ ¬ (m.inputDim = d.dim ∧ m.outputDim = d.dim)) := by
  rw [Pullback.new, Pushforward.new]
  refine ⟨?_, ?_, ?_, ?_⟩
  · by_cases h : m.outputDim = d.dim <;> simp [h]
  · by_cases h : m.outputDim = d.dim <;> simp [h]
  · by_cases h : m.inputDim = d.dim <;> by_cases h2 : m.outputDim = d.dim <;> simp [h, h2]
  · by_cases h : m.inputDim = d.dim <;> by_cases h2 : m.outputDim = d.dim <;> simp [h, h2]

theorem addInPlace_zip {a b : List ℝ} {n : Nat} (ha : a.length = n) (hb : b.length = n) :
    addInPlace a b = .ok (List.zipWith (· + ·) a b) := addInPlace_ok (hb.trans ha.symm)

theorem dot_add_left {n : Nat} {a b v : List ℝ} (ha : a.length = n) (hb : b.length = n) (hv : v.length = n) :
    dot (List.zipWith (· + ·) a b) v = dot a v + dot b v := by
  rw [dot_eq_sum (by simp [ha, hb]) hv, dot_eq_sum ha hv, dot_eq_sum hb hv, ← Finset.sum_add_distrib]
  refine Finset.sum_congr rfl fun i hi => ?_
  have hi := Finset.mem_range.mp hi
  have : (List.zipWith (· + ·) a b).getD i 0 = a.getD i 0 + b.getD i 0 := by
    simp [List.getD_eq_getElem?_getD, ha, hb, hi]
  rw [this]; ring

/-- C52: `LogDensityInputGrad` and `LogDensityCoeffGrad` (on views) of a pullback density return the gradient of the pulled back
log-density with respect to the point and to the coefficients of the map. -/
theorem C52_pullback_gradient {c x : List ℝ} (hdim : m.outputDim = d.dim) (hE : Evaluates m) (hL : HasLogDet m)
    (hJ : LogDetIsJacobian m) (hDm : Differentiates m) (hDL : DifferentiatesLogDet m) (hD : DifferentiatesDensity d)
    (hf : Fits m c x) :
    ∃ gc gx : List ℝ, (∀ out : List ℝ, out.length = m.inputDim → Pullback.inputGrad m d c x out = .ok gx) ∧
      (m.numCoeffs ≠ 0 → Pullback.logDensityCoeffGrad m d c x = .ok gc ∧
        ∀ out : List ℝ, out.length = m.numCoeffs → Pullback.coeffGrad m d c x out = .ok gc) ∧
      IsGradient m.numCoeffs m.inputDim (pulledBack m d) c x gc gx := by
  have hy := (hE c x hf).1
  have hyd : (fn m c x).length = d.dim := hy.trans hdim
  set y := fn m c x with hyy
  set s := gradp d y with hss
  have hs : s.length = m.outputDim := ((hD y hyd).2.2.1).trans hdim.symm
  have hsd : d.logDensityInputGrad y = .ok s := by
    rw [Density.logDensityInputGrad]; exact (hD y hyd).1 _ (by simp [hyd])
  obtain ⟨g1, g2, g3⟩ := hDm c x s hf hs
  obtain ⟨l1, l2, l3⟩ := hDL c x hf
  have hgl := g3.1; have hgl' := g3.2.1; have hll := l3.1; have hll' := l3.2.1
  refine ⟨List.zipWith (· + ·) (coeffGrad m c x s) (ldCoeffGrad m c x), List.zipWith (· + ·) (grad m c x s) (ldInputGrad m c x),
    fun out ho => ?_, fun hn => ?_, by simp [hgl, hll], by simp [hgl', hll'], fun γ δ vc vx t₀ hγ hδ hc hx => ?_⟩
  · rw [Pullback.inputGrad, (hE c x hf).2 _ (by simp), Res.bind_ok, ← hyy, hsd, Res.bind_ok, g1 _ ho, Res.bind_ok, l1 _ (by simp),
      Res.bind_ok, addInPlace_zip hgl' hll']
  · have h : ∀ out : List ℝ, out.length = m.numCoeffs → Pullback.coeffGrad m d c x out
        = .ok (List.zipWith (· + ·) (coeffGrad m c x s) (ldCoeffGrad m c x)) := by
      intro out ho
      rw [Pullback.coeffGrad, (hE c x hf).2 _ (by simp), Res.bind_ok, ← hyy, hsd, Res.bind_ok, g2 hn _ ho, Res.bind_ok,
        l2 hn _ (by simp), Res.bind_ok, addInPlace_zip hgl hll]
    exact ⟨h _ (by simp), h⟩
  · obtain ⟨v, hv, hv2⟩ := path_fn hE hDm hγ hδ hc hx
    have hp : HasDerivAt (fun t => logp d (fn m (γ t) (δ t))) (dot s v) t₀ := by
      have := (hD y hyd).2.2.2 (fun _ => []) _ [] v t₀ ⟨fun _ => rfl, rfl, fun i hi => absurd hi (by omega)⟩
        (by rw [← hdim]; exact hv) rfl (by rw [hc, hx])
      refine this.congr_deriv ?_
      change 0 + _ = _
      rw [zero_add]
    have hl := l3.2.2 γ δ vc vx t₀ hγ hδ hc hx
    have e : (fun t => pulledBack m d (γ t) (δ t)) = fun t => logp d (fn m (γ t) (δ t)) + logdet m (γ t) (δ t) := by
      funext t
      rw [pulledBack, ← (hJ _ _ ⟨hγ.1 t, hδ.1 t⟩).2]
    rw [e]
    refine (hp.fun_add hl).congr_deriv ?_
    rw [hv2 s hs, dot_add_left hgl hll hγ.2.1, dot_add_left hgl' hll' hδ.2.1]
    ring

/-- C52: the pushforward by `T` of a density is the density at the preimage divided by the modulus of the Jacobian determinant
there. -/
theorem C52_pushforward {c r : List ℝ} {p : Density} (hp : Pushforward.new m d c = .ok p) (hL : HasLogDet m)
    (hJ : LogDetIsJacobian m) (hI : InvertsFrom m 0) (hD : HasDensity d) (hc : c.length = m.numCoeffs)
    (hr : r.length = m.outputDim) :
    ∃ y : List ℝ, y.length = m.inputDim ∧ fn m c y = r ∧ (∀ y' : List ℝ, y'.length = m.inputDim → fn m c y' = r → y' = y) ∧
      ∀ o, p.logDensity r o = .ok (some (pushedForward m d c y)) := by
  obtain ⟨h1, h2, rfl⟩ := push_new.mp hp
  obtain ⟨y, hy, hyl, hyr, hyu⟩ := hI c [] r hc rfl hr (List.replicate m.outputDim 0) (by simp)
  simp only [List.take_nil, List.nil_append] at hyr hyu
  have hf : Fits m c y := ⟨hc, hyl.trans h2⟩
  refine ⟨y, hyl.trans h2, hyr, fun y' hl h => hyu y' (hl.trans h2.symm) h, fun o => ?_⟩
  change Pushforward.logDensity m d c r o = _
  rw [Pushforward.logDensity, hy, Res.bind_ok, hD y (hyl.trans (h2.trans h1)), Res.bind_ok, hL c y hf, Res.bind_ok, pushedForward,
    ← (hJ c y hf).2]
  rfl

theorem pull_hasDensity {c : List ℝ} {p : Density} (hp : Pullback.new m d c = .ok p) (hE : Evaluates m) (hL : HasLogDet m)
    (hJ : LogDetIsJacobian m) (hD : HasDensity d) (hc : c.length = m.numCoeffs) (hsq : m.inputDim = m.outputDim) :
    HasDensity p ∧ p.dim = d.dim ∧ ∀ x : List ℝ, x.length = d.dim → logp p x = pulledBack m d c x := by
  have hdim := (pull_new.mp hp).1
  have hpd : p.dim = d.dim := by rw [(pull_new.mp hp).2]
  have h : ∀ x : List ℝ, x.length = d.dim → ∀ o, p.logDensity x o = .ok (some (pulledBack m d c x)) := fun x hx o =>
    C52_pullback hp hE hL hJ hD ⟨hc, hx.trans (hdim.symm.trans hsq.symm)⟩ o
  have h' : ∀ x : List ℝ, x.length = d.dim → logp p x = pulledBack m d c x := fun x hx => by rw [logp, h x hx]; rfl
  exact ⟨fun x hx o => by rw [h x (hx.trans hpd), h' x (hx.trans hpd)], hpd, h'⟩

/-- C52 fails for the gradient of a pushforward density: the function exists but always throws. -/
theorem C52_fails_pushforward_gradient {c : List ℝ} {p : Density} (hp : Pushforward.new m d c = .ok p) (x out : List ℝ) :
    p.inputGrad x out = .throw := by
  obtain ⟨-, -, rfl⟩ := push_new.mp hp
  rfl

/-- C52: pulling a density back by a square map and pushing the result forward by the same map gives the original density at
every point, and so does pushing forward and pulling back. -/
theorem C52_round_trip {c : List ℝ} (hsq : m.inputDim = m.outputDim) (hdim : m.outputDim = d.dim) (hE : Evaluates m)
    (hL : HasLogDet m) (hJ : LogDetIsJacobian m) (hI : InvertsFrom m 0) (hD : HasDensity d) (hc : c.length = m.numCoeffs) :
    (∃ p q, Pullback.new m d c = .ok p ∧ Pushforward.new m p c = .ok q ∧
      ∀ x : List ℝ, x.length = d.dim → ∀ o, q.logDensity x o = .ok (some (logp d x))) ∧
    (∃ p q, Pushforward.new m d c = .ok p ∧ Pullback.new m p c = .ok q ∧
      ∀ x : List ℝ, x.length = d.dim → ∀ o, q.logDensity x o = .ok (some (logp d x))) := by
  constructor
  · obtain ⟨p, hp⟩ := ((C52_dimensions (m := m) (d := d) c).1).2 hdim
    obtain ⟨hpD, hpd, hpv⟩ := pull_hasDensity hp hE hL hJ hD hc hsq
    obtain ⟨q, hq⟩ := ((C52_dimensions (m := m) (d := p) c).2.2.1).2 ⟨hsq.trans (hdim.trans hpd.symm), hdim.trans hpd.symm⟩
    refine ⟨p, q, hp, hq, fun x hx o => ?_⟩
    obtain ⟨y, hyl, hyx, -, hv⟩ := C52_pushforward hq hL hJ hI hpD hc (hx.trans hdim.symm)
    rw [hv o, pushedForward, hpv y (hyl.trans (hsq.trans hdim)), pulledBack, hyx]
    congr 2; ring
  · obtain ⟨p, hp⟩ := ((C52_dimensions (m := m) (d := d) c).2.2.1).2 ⟨hsq.trans hdim, hdim⟩
    have hpd : p.dim = d.dim := by rw [(push_new.mp hp).2.2]
    have hpD : HasDensity p := by
      intro r hr o
      obtain ⟨y, -, -, -, hv⟩ := C52_pushforward hp hL hJ hI hD hc (hr.trans (hpd.trans hdim.symm))
      rw [logp, hv o, hv (some 0)]; rfl
    obtain ⟨q, hq⟩ := ((C52_dimensions (m := m) (d := p) c).1).2 (hdim.trans hpd.symm)
    refine ⟨p, q, hp, hq, fun x hx o => ?_⟩
    have hf : Fits m c x := ⟨hc, hx.trans (hdim.symm.trans hsq.symm)⟩
    rw [C52_pullback hq hE hL hJ hpD hf o, pulledBack]
    obtain ⟨y, hyl, hyx, hyu, hv⟩ := C52_pushforward hp hL hJ hI hD hc (hE c x hf).1
    have hxy : x = y := hyu x hf.2 rfl
    rw [logp, hv (some 0), ← hxy]
    change Res.ok (some (pushedForward m d c x + _)) = _
    rw [pushedForward]
    congr 2; ring

/-- C52: a pushforward sampler returns `T(z)` for the draw `z` of its sampler, a pullback sampler the one `y` with `T(y) = z`;
maps that are not square or have another dimension are rejected. -/
theorem C52_samplers {c z out : List ℝ} (hE : Evaluates m) (hI : InvertsFrom m 0) (hc : c.length = m.numCoeffs)
    (hz : z.length = m.outputDim) (ho : out.length = m.outputDim) (samplerDim : Nat) :
    (m.inputDim = m.outputDim → m.outputDim = samplerDim →
      Pushforward.sample m samplerDim c z out = .ok (fn m c z) ∧
      ∃ y : List ℝ, Pullback.sample m samplerDim c z out = .ok y ∧ y.length = m.inputDim ∧ fn m c y = z ∧
        ∀ y' : List ℝ, y'.length = m.inputDim → fn m c y' = z → y' = y) ∧
    (¬ (m.inputDim = m.outputDim ∧ m.outputDim = samplerDim) →
      Pushforward.sample m samplerDim c z out = .throw ∧ Pullback.sample m samplerDim c z out = .throw) := by
  rw [Pushforward.sample, Pullback.sample]
  constructor
  · intro h1 h2
    simp only [h2, h1, ne_eq, not_true_eq_false, if_false]
    refine ⟨(hE c z ⟨hc, hz.trans h1.symm⟩).2 _ ho, ?_⟩
    obtain ⟨y, hy, hyl, hyr, hyu⟩ := hI c [] z hc rfl hz out ho
    simp only [List.take_nil, List.nil_append] at hyr hyu
    exact ⟨y, hy, hyl.trans h2, hyr, fun y' hl h => hyu y' (hl.trans h2.symm) h⟩
  · intro h
    by_cases h2 : m.outputDim = samplerDim
    · have h1 : ¬ m.inputDim = m.outputDim := fun h' => h ⟨h', h2⟩
      rw [h2] at h1
      simp [h1, h2]
    · simp [h2]

/-! ## Samples and density belong together -/

theorem onVec_ofFn {n : Nat} (c : List ℝ) (hE : Evaluates m) (hn : m.outputDim = n) (hi : m.inputDim = n)
    (hc : c.length = m.numCoeffs) (x : Fin n → ℝ) : List.ofFn (onVec m c n x) = fn m c (List.ofFn x) := by
  have hl := (hE c (List.ofFn x) ⟨hc, by simp [hi]⟩).1
  refine List.ext_getElem (by simp [hl, hn]) fun i h1 h2 => ?_
  simp only [List.getElem_ofFn, onVec, colVec]
  rw [List.getD_eq_getElem?_getD, List.getElem?_eq_getElem h2]; rfl

theorem ofFn_set {n : Nat} (x : Fin n → ℝ) (j : Fin n) (t : ℝ) :
    (List.ofFn x).set j t = List.ofFn (Function.update x j t) := by
  refine List.ext_getElem (by simp) fun i h1 h2 => ?_
  have hi : i < n := by simpa using h2
  rw [List.getElem_set, List.getElem_ofFn, List.getElem_ofFn, Function.update_apply]
  by_cases h : (j : Nat) = i
  · rw [if_pos h, if_pos (Fin.ext h.symm)]
  · rw [if_neg h, if_neg (fun e => h (by rw [← e]))]

/-- The matrix of the derivative is the Jacobian of the specification. -/
theorem fderiv_det {n : Nat} {c : List ℝ} (hn : m.outputDim = n) (hi : m.inputDim = n) {x : Fin n → ℝ}
    (h : DifferentiableAt ℝ (onVec m c n) x) :
    (fderiv ℝ (onVec m c n) x).det = (jacobian m c (List.ofFn x)).det := by
  subst hn
  have e : jacobian m c (List.ofFn x) = LinearMap.toMatrix' (fderiv ℝ (onVec m c m.outputDim) x).toLinearMap := by
    ext i j
    have hoff : m.inputDim - m.outputDim + (j : Nat) = j := by omega
    rw [jacobian, jac, Matrix.of_apply, LinearMap.toMatrix'_apply, hoff]
    have hd : HasDerivAt (fun t => onVec m c m.outputDim (Function.update x j t))
        ((fderiv ℝ (onVec m c m.outputDim) x) (Pi.single j 1)) (x j) := by
      have h1 : HasDerivAt (fun t => Function.update x j t) (Pi.single j 1) (x j) := by
        rw [hasDerivAt_pi]
        intro k
        by_cases hk : k = j
        · subst hk
          simp only [Function.update_self, Pi.single_eq_same]
          exact hasDerivAt_id _
        · simp only [Function.update_of_ne hk, Pi.single_eq_of_ne hk]
          exact hasDerivAt_const _ _
      have h2 : HasFDerivAt (onVec m c m.outputDim) (fderiv ℝ (onVec m c m.outputDim) x) (Function.update x j (x j)) := by
        rw [Function.update_eq_self]; exact h.hasFDerivAt
      exact h2.comp_hasDerivAt (x j) h1
    have hd2 := (hasDerivAt_pi.mp hd) i
    have e1 : (List.ofFn x).getD j 0 = x j := getD_ofFn x j
    have e2 : (fun t => (fn m c ((List.ofFn x).set j t)).getD i 0) = fun t => onVec m c m.outputDim (Function.update x j t) i := by
      funext t; rw [ofFn_set]; rfl
    rw [e1, e2, hd2.deriv]
    simp [Pi.single_apply, Function.comp_def]
  rw [e, LinearMap.det_toMatrix']

/-- C52: a pullback sampler and a pullback density describe the same distribution, for a differentiable invertible map. If the
draws `z` of the reference sampler have the density that the reference density gives, the expectation of any function of the
pullback samples (the `y` with `T(y) = z`) is its integral against the pullback density. -/
theorem C52_law {n : Nat} {c : List ℝ} {p : Density} (hn : m.outputDim = n) (hi : m.inputDim = n)
    (hp : Pullback.new m d c = .ok p) (hE : Evaluates m) (hL : HasLogDet m) (hJ : LogDetIsJacobian m) (hI : InvertsFrom m 0)
    (hD : HasDensity d) (hc : c.length = m.numCoeffs) (hdiff : Differentiable ℝ (onVec m c n)) (f : (Fin n → ℝ) → ℝ) :
    ∃ S : (Fin n → ℝ) → (Fin n → ℝ),
      (∀ z, Pullback.sample m n c (List.ofFn z) (zeros n) = .ok (List.ofFn (S z))) ∧
      ∫ z : Fin n → ℝ, Real.exp (logp d (List.ofFn z)) * f (S z) = ∫ x : Fin n → ℝ, Real.exp (logp p (List.ofFn x)) * f x := by
  have hsamp : ∀ z : Fin n → ℝ, ∃ y : Fin n → ℝ, Pullback.sample m n c (List.ofFn z) (zeros n) = .ok (List.ofFn y) ∧
      onVec m c n y = z ∧ ∀ y', onVec m c n y' = z → y' = y := by
    intro z
    obtain ⟨y, hy, hyl, hyz, hyu⟩ := ((C52_samplers (z := List.ofFn z) (out := zeros n) hE hI hc (by simp [hn]) (by simp [hn]) n).1
      (hi.trans hn.symm) hn).2
    rw [hi] at hyl
    have hyv : List.ofFn (colVec n y) = y := by
      refine List.ext_getElem (by simp [hyl]) fun i h1 h2 => ?_
      simp only [List.getElem_ofFn, colVec]
      rw [List.getD_eq_getElem?_getD, List.getElem?_eq_getElem h2]; rfl
    refine ⟨colVec n y, by rw [hyv]; exact hy, ?_, fun y' h => ?_⟩
    · rw [onVec, hyv, hyz, vec_ofFn]
    · have h3 := hyu (List.ofFn y') (by simp [hi]) (by rw [← onVec_ofFn c hE hn hi hc, h])
      rw [← h3, vec_ofFn]
  choose S hS1 hS2 hS3 using hsamp
  refine ⟨S, hS1, ?_⟩
  have hinj : Function.Injective (onVec m c n) := fun a b hab => (hS3 _ a hab).trans (hS3 _ b rfl).symm
  have himg : onVec m c n '' Set.univ = Set.univ := Set.eq_univ_of_forall fun z => ⟨S z, trivial, hS2 z⟩
  have := MeasureTheory.integral_image_eq_integral_abs_det_fderiv_smul (μ := MeasureTheory.volume)
    (s := Set.univ) MeasurableSet.univ
    (fun x _ => ((hdiff x).hasFDerivAt).hasFDerivWithinAt) hinj.injOn (fun z => Real.exp (logp d (List.ofFn z)) * f (S z))
  rw [himg, MeasureTheory.setIntegral_univ, MeasureTheory.setIntegral_univ] at this
  rw [this]
  refine MeasureTheory.integral_congr_ae (Filter.Eventually.of_forall fun x => ?_)
  have hf : Fits m c (List.ofFn x) := ⟨hc, by simp [hi]⟩
  have hdim := (pull_new.mp hp).1
  obtain ⟨-, -, hv⟩ := pull_hasDensity hp hE hL hJ hD hc (hi.trans hn.symm)
  have hdet := fderiv_det hn hi (hdiff x)
  have hSx : S (onVec m c n x) = x := (hS3 _ x rfl).symm
  simp only [smul_eq_mul]
  rw [hSx, hv _ (by simp [← hdim, hn]), pulledBack, Real.exp_add, onVec_ofFn c hE hn hi hc, hdet,
    Real.exp_log (abs_pos.mpr (hJ c _ hf).1)]
  ring

/-! ## Non-vacuity -/

/-- The standard normal density of dimension 1. -/
noncomputable def std1 : Density := (Gaussian.ofDim 1).density

/-- Non-vacuity: `T(a; x) = exp(a) sinh(x)` with the standard normal distribution satisfies the hypotheses of `C52_pullback`,
`C52_pullback_gradient`, `C52_pushforward` and `C52_round_trip`. -/
example : (∃ p q, Pullback.new bend std1 [3] = .ok p ∧ Pushforward.new bend p [3] = .ok q ∧
      ∀ x : List ℝ, x.length = 1 → ∀ o, q.logDensity x o = .ok (some (logp std1 x))) ∧
    ∃ gc gx : List ℝ, Pullback.logDensityCoeffGrad bend std1 [3] [2] = .ok gc ∧
      IsGradient 1 1 (pulledBack bend std1) [3] [2] gc gx := by
  have hd := C53_density (.dim 1)
  refine ⟨(C52_round_trip rfl rfl bend_evaluates bend_hasLogDet bend_jacobian bend_inverts hd.2.1 rfl).1, ?_⟩
  obtain ⟨gc, gx, h1, h2, h3⟩ := C52_pullback_gradient (m := bend) (d := std1) (c := [3]) (x := [2]) rfl bend_evaluates
    bend_hasLogDet bend_jacobian bend_differentiates bend_differentiatesLogDet hd.2.2.1 ⟨rfl, rfl⟩
  exact ⟨gc, gx, (h2 (by decide)).1, h3⟩

/-- Non-vacuity for the law: the same map, which is differentiable. -/
example (f : (Fin 1 → ℝ) → ℝ) : ∃ p, Pullback.new bend std1 [3] = .ok p ∧ ∃ S : (Fin 1 → ℝ) → (Fin 1 → ℝ),
    (∀ z, Pullback.sample bend 1 [3] (List.ofFn z) (zeros 1) = .ok (List.ofFn (S z))) ∧
    ∫ z : Fin 1 → ℝ, Real.exp (logp std1 (List.ofFn z)) * f (S z) = ∫ x : Fin 1 → ℝ, Real.exp (logp p (List.ofFn x)) * f x := by
  have hd := C53_density (.dim 1)
  refine ⟨_, pull_new.mpr ⟨rfl, rfl⟩, C52_law (n := 1) rfl rfl (pull_new.mpr ⟨rfl, rfl⟩) bend_evaluates bend_hasLogDet bend_jacobian
    bend_inverts hd.2.1 rfl ?_ f⟩
  rw [differentiable_pi]
  intro i
  have e : (fun x => onVec bend [3] 1 x i) = fun x : Fin 1 → ℝ => Real.exp 3 * Real.sinh (x 0) := by
    funext x
    have : i = 0 := Subsingleton.elim _ _
    subst this
    rfl
  rw [e]
  exact (Real.differentiable_sinh.comp (differentiable_apply 0)).const_mul _

/-- C52 fails for the Eigen overload in a concrete case: a map with two inputs and one coefficient, for which the "coefficient
gradient" has two entries instead of one. -/
theorem C52_fails_coeffGrad_eigen_size : ∃ (m : CMap) (d : Density) (c x : List ℝ), Evaluates m ∧ HasLogDet m ∧
    LogDetIsJacobian m ∧ Differentiates m ∧ DifferentiatesLogDet m ∧ HasDensity d ∧ DifferentiatesDensity d ∧
    m.outputDim = d.dim ∧ Fits m c x ∧ ∀ garbage : List ℝ, garbage.length = x.length →
      ∃ g, Pullback.logDensityCoeffGradEigen m d c x garbage = .ok g ∧ g.length = 2 ∧ m.numCoeffs = 1 := by
  have hd := C53_density (.dim 1)
  refine ⟨toy, std1, [3], [1, 2], toy_evaluates, toy_hasLogDet, toy_jacobian, toy_differentiates, toy_differentiatesLogDet,
    hd.2.1, hd.2.2.1, rfl, ⟨rfl, rfl⟩, fun garbage hg => ?_⟩
  obtain ⟨gc, gx, h1, h2, h3⟩ := C52_pullback_gradient (m := toy) (d := std1) (c := [3]) (x := [1, 2]) rfl toy_evaluates
    toy_hasLogDet toy_jacobian toy_differentiates toy_differentiatesLogDet hd.2.2.1 ⟨rfl, rfl⟩
  exact ⟨gx, h1 _ hg, h3.2.1, rfl⟩

end MParT
