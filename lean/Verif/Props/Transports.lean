import Verif.Props.Laws
import Verif.Spec.Transports
/-!
# C101: distributions that are transported again and again
-/
namespace MParT
open Spec MeasureTheory

theorem Sampler.columns_ok {f : List ℝ → List ℝ → Res (List ℝ)} {n : Nat} {α : Type} {v r : α → List ℝ}
    (h : ∀ a (o : List ℝ), o.length = n → f (v a) o = .ok (r a)) :
    ∀ (zs : List α) (out : List (List ℝ)), Shaped n zs.length out → Sampler.columns f (zs.map v) out = .ok (zs.map r)
  | [], out, ho => by
    obtain rfl : out = [] := List.length_eq_zero_iff.mp ho.1
    rfl
  | a :: zs, out, ho => by
    match out, ho with
    | [], ho => exact absurd ho.1 (by simp)
    | o :: os, ho =>
      rw [List.map_cons, Sampler.columns, h a o (ho.2 o (by simp)), Res.bind_ok,
        Sampler.columns_ok h zs os ⟨by simpa using ho.1, fun o' h' => ho.2 o' (by simp [h'])⟩, Res.bind_ok]
      rfl

/-- What is kept by every step: the samples are a function of the draws that carries the normal law to the law of the density. -/
structure Carried (n : Nat) (D : Distrib) (S : (Fin n → ℝ) → (Fin n → ℝ)) : Prop where
  sdim : D.sampler.dim = n
  ddim : D.density.dim = n
  dens : HasDensity D.density
  samples : ∀ (z : List (Fin n → ℝ)) (lay : Layout) (out : List (List ℝ)), Shaped n z.length out →
    D.sampler.sampleImpl (z.map List.ofFn) lay out = .ok (z.map fun z => List.ofFn (S z))
  law : CarriesLaw S stdNormal (densityOn D.density [] n)

theorem Carried.sample {n : Nat} {D : Distrib} {S : (Fin n → ℝ) → (Fin n → ℝ)} (h : Carried n D S) (z : List (Fin n → ℝ)) :
    D.sampler.sample (z.map List.ofFn) = .ok (z.map fun z => List.ofFn (S z)) := by
  rw [Sampler.sample]
  exact h.samples z _ _ ⟨by simp, by simp [h.sdim]⟩

theorem pushforward_hasDensity {m : CMap} {d p : Density} {c : List ℝ} (hp : Pushforward.new m d c = .ok p) (hL : HasLogDet m)
    (hJ : LogDetIsJacobian m) (hI : InvertsFrom m 0) (hD : HasDensity d) (hc : c.length = m.numCoeffs) :
    p.dim = d.dim ∧ HasDensity p := by
  have hdim : p.dim = d.dim ∧ m.inputDim = d.dim ∧ m.outputDim = m.inputDim := by
    obtain ⟨h1, h2, rfl⟩ := push_new.mp hp
    exact ⟨rfl, h1, h2⟩
  refine ⟨hdim.1, fun x hx o => ?_⟩
  obtain ⟨y, -, -, -, h⟩ := C52_pushforward hp hL hJ hI hD hc (r := x) (by rw [hx, hdim.1, hdim.2.2, hdim.2.1])
  rw [h o, logp, h (some 0)]
  rfl

theorem Carried.step {n : Nat} {D : Distrib} {S : (Fin n → ℝ) → (Fin n → ℝ)} (h : Carried n D S) {s : Distrib.Step} (hs : Sound n s) :
    ∃ (D' : Distrib) (T : (Fin n → ℝ) → (Fin n → ℝ)), D.apply s = .ok D' ∧ Carried n D' (fun z => T (S z)) := by
  obtain ⟨back, m, c⟩ := s
  obtain ⟨hi, ho, hc, hE, hG, hL, hJ, hI⟩ := hs
  dsimp only at hi ho hc hE hG hL hJ hI
  cases back with
  | true =>
    obtain ⟨p, hp⟩ := ((C52_dimensions (m := m) (d := D.density) c).1).2 (ho.trans h.ddim.symm)
    obtain ⟨T, hT1, hT2⟩ := C100_pullback ho hi hp hE hG hL hJ hI h.dens hc
    obtain ⟨hpD, hpd, -⟩ := pull_hasDensity hp hE hL hJ h.dens hc (hi.trans ho.symm)
    have hinv : ∀ (y : Fin n → ℝ) (o : List ℝ), o.length = n → m.inv c [] (List.ofFn y) o = .ok (List.ofFn (T y)) := by
      intro y o hol
      have := hT1 y o hol
      rwa [Pullback.sample, if_neg (by simp [ho]), if_neg (by simp [hi, ho])] at this
    refine ⟨⟨⟨D.sampler.dim, fun z _ output => D.sampler.sample z >>= fun pts => Sampler.columns (m.inv c []) pts output⟩, p⟩, T, ?_, ?_⟩
    · rw [Distrib.apply, if_pos rfl, Distrib.pullback, Sampler.pullback, if_neg (by simp [ho, h.sdim]), if_neg (by simp [hi, ho]),
        Res.bind_ok, hp, Res.bind_ok, Distrib.new, if_neg]
      simp [hpd, h.ddim, h.sdim]
    · refine ⟨h.sdim, hpd.trans h.ddim, hpD, fun z lay out hout => ?_, h.law.comp hT2⟩
      change (D.sampler.sample (z.map List.ofFn)).bind _ = _
      rw [h.sample z]
      exact Sampler.columns_ok (fun a o ho => hinv (S a) o ho) z out hout
  | false =>
    obtain ⟨p, hp⟩ := ((C52_dimensions (m := m) (d := D.density) c).2.2.1).2 ⟨hi.trans h.ddim.symm, ho.trans h.ddim.symm⟩
    obtain ⟨T, hT1, hT2⟩ := C100_pushforward ho hp hE hG hL hJ hI h.dens hc
    obtain ⟨hpd, hpD⟩ := pushforward_hasDensity hp hL hJ hI h.dens hc
    have heval : ∀ (y : Fin n → ℝ) (o : List ℝ), o.length = n → m.eval c (List.ofFn y) o = .ok (List.ofFn (T y)) := by
      intro y o hol
      have := hT1 y o hol
      rwa [Pushforward.sample, if_neg (by simp [ho]), if_neg (by simp [hi, ho])] at this
    refine ⟨⟨⟨D.sampler.dim, fun z _ output => D.sampler.sample z >>= fun pts => Sampler.columns (m.eval c) pts output⟩, p⟩, T, ?_, ?_⟩
    · rw [Distrib.apply, if_neg (by simp), Distrib.pushforward, Sampler.pushforward, if_neg (by simp [ho, h.sdim]), if_neg (by simp [hi, ho]),
        Res.bind_ok, hp, Res.bind_ok, Distrib.new, if_neg]
      simp [hpd, h.ddim, h.sdim]
    · refine ⟨h.sdim, hpd.trans h.ddim, hpD, fun z lay out hout => ?_, h.law.comp hT2⟩
      change (D.sampler.sample (z.map List.ofFn)).bind _ = _
      rw [h.sample z]
      exact Sampler.columns_ok (fun a o ho => heval (S a) o ho) z out hout

theorem Carried.chain {n : Nat} : ∀ {steps : List Distrib.Step} {D : Distrib} {S : (Fin n → ℝ) → (Fin n → ℝ)}, Carried n D S →
    (∀ s ∈ steps, Sound n s) → ∃ D' S', D.chain steps = .ok D' ∧ Carried n D' S'
  | [], D, S, h, _ => ⟨D, S, rfl, h⟩
  | s :: ss, D, S, h, hs => by
    obtain ⟨D1, T, h1, h2⟩ := h.step (hs s (by simp))
    obtain ⟨D2, S2, h3, h4⟩ := h2.chain (steps := ss) fun s' h' => hs s' (by simp [h'])
    exact ⟨D2, S2, by rw [Distrib.chain, h1, Res.bind_ok, h3], h4⟩

theorem Carried.gaussian {n : Nat} {μ : Fin n → ℝ} {Sig : Matrix (Fin n) (Fin n) ℝ} {g : Gaussian} (hg : Constructed μ Sig g)
    (hc : g.chol = none) : ∃ D S, Distrib.gaussian g = .ok D ∧ Carried n D S := by
  obtain ⟨S, hS1, hS2, -⟩ := C100_gaussian hg
  obtain ⟨hd1, hd2, -, -⟩ := C53_density hg
  obtain ⟨L, -, hL⟩ := C53_sample_partial hg
  refine ⟨⟨Sampler.ofGaussian g, g.density⟩, S, ?_, hg.dim_eq, hd1, hd2, fun z lay out _ => ?_, hS2⟩
  · rw [Distrib.gaussian, Distrib.new, if_neg]
    simp only [ne_eq, not_not]
    rfl
  · have hz : ∀ x ∈ z.map (List.ofFn (n := n)), x.length = n := by simp
    have h1 := hL (z.map List.ofFn) lay hz (.inr hc)
    have h2 := hL (z.map List.ofFn) (Layout.left n z.length) hz (.inr hc)
    rw [hS1 z] at h2
    exact h1.trans h2.symm

theorem asColumns_eq {n N : Nat} (z : Fin N → Fin n → ℝ) : asColumns z = (List.ofFn z).map List.ofFn := by
  rw [asColumns, List.map_ofFn]; rfl

/-- C101: start from a Gaussian without covariance matrix and transport it any number of times, back and forth, by maps that keep the contracts. The program
returns a distribution; `SampleImpl` fills any array of the right shape, for any number of samples; for independent standard normal draws the samples are
independent and each has the density whose logarithm is what `LogDensity` returns, everywhere a number; the density integrates to one. -/
theorem C101_law {n : Nat} {μ : Fin n → ℝ} {Sig : Matrix (Fin n) (Fin n) ℝ} {g : Gaussian} (hg : Constructed μ Sig g) (hc : g.chol = none)
    {steps : List Distrib.Step} (hs : ∀ s ∈ steps, Sound n s) :
    ∃ D, (Distrib.gaussian g >>= fun G => G.chain steps) = .ok D ∧ D.dim = n ∧
      (∀ x : List ℝ, x.length = n → ∃ v : ℝ, D.logDensity x = .ok (some v)) ∧
      IsProbabilityMeasure (lawOf (densityOn D.density [] n)) ∧
      ∃ X : (N : Nat) → (Fin N → Fin n → ℝ) → Fin N → Fin n → ℝ,
        (∀ N z lay out, Shaped n N out → D.sampleImpl (asColumns z) lay out = .ok (asColumns (X N z))) ∧
        (∀ N z, D.sample (asColumns z) = .ok (asColumns (X N z))) ∧
        ∀ N, (normalDraws n N).map (X N) = Measure.pi fun _ => lawOf (densityOn D.density [] n) := by
  obtain ⟨G, S0, hG, hG'⟩ := Carried.gaussian hg hc
  obtain ⟨D, S, hD, h⟩ := hG'.chain hs
  have hprob : IsProbabilityMeasure (lawOf (stdNormal (n := n))) := by rw [stdNormal_law]; infer_instance
  have hpq : IsProbabilityMeasure (lawOf (densityOn D.density [] n)) := h.law.total
  refine ⟨D, by rw [hG, Res.bind_ok, hD], h.sdim, fun x hx => ⟨_, h.dens x (hx.trans h.ddim.symm) _⟩, hpq,
    fun N z j => S (z j), fun N z lay out hout => ?_, fun N z => ?_, fun N => ?_⟩
  · rw [Distrib.sampleImpl, asColumns_eq, h.samples _ lay out (by simpa using hout), asColumns_eq, List.map_ofFn, List.map_ofFn]
    rfl
  · rw [Distrib.sample, asColumns_eq, h.sample, asColumns_eq, List.map_ofFn, List.map_ofFn]
    rfl
  · rw [normalDraws, ← stdNormal_law]
    have := Measure.pi_map_pi (ι := Fin N) (μ := fun _ => lawOf (stdNormal (n := n))) (f := fun _ => S)
      (fun _ => h.law.1.aemeasurable)
    rw [h.law.2] at this
    exact this

/-- C101: a distribution of `n` variables is transported exactly by maps with `n` inputs and `n` outputs; other maps are refused with an exception. -/
theorem C101_dimensions {n : Nat} {D : Distrib} (h1 : D.sampler.dim = n) (h2 : D.density.dim = n) (s : Distrib.Step) :
    ((∃ D', D.apply s = .ok D') ↔ s.map.inputDim = n ∧ s.map.outputDim = n) ∧
    (D.apply s = .throw ↔ ¬ (s.map.inputDim = n ∧ s.map.outputDim = n)) ∧
    ∀ D', D.apply s = .ok D' → D'.sampler.dim = n ∧ D'.density.dim = n := by
  obtain ⟨back, m, c⟩ := s
  subst h1
  by_cases ho : m.outputDim = D.sampler.dim
  · by_cases hi : m.inputDim = D.sampler.dim
    · cases back <;>
        simp [Distrib.apply, Distrib.pullback, Distrib.pushforward, Sampler.pullback, Sampler.pushforward, Pullback.new, Pushforward.new, Distrib.new,
          ho, hi, h2]
    · cases back <;>
        simp [Distrib.apply, Distrib.pullback, Distrib.pushforward, Sampler.pullback, Sampler.pushforward, ho, hi]
  · cases back <;>
      simp [Distrib.apply, Distrib.pullback, Distrib.pushforward, Sampler.pullback, Sampler.pushforward, ho]

/-- C101: a sampler and a density are combined exactly if their dimensions agree. -/
theorem C101_new (s : Sampler) (d : Density) :
    (s.dim = d.dim → Distrib.new s d = .ok ⟨s, d⟩) ∧ (s.dim ≠ d.dim → Distrib.new s d = .throw) :=
  ⟨fun h => by simp [Distrib.new, h], fun h => by simp [Distrib.new, h]⟩

theorem Distrib.apply_throws {D D' : Distrib} {s : Distrib.Step} {z : List (List ℝ)} (h : D.sampler.sample z = .throw) (ha : D.apply s = .ok D') :
    ∀ lay out, D'.sampler.sampleImpl z lay out = .throw := by
  intro lay out
  obtain ⟨back, m, c⟩ := s
  cases back with
  | true =>
    rw [Distrib.apply, if_pos rfl, Distrib.pullback, Sampler.pullback] at ha
    split at ha
    · cases ha
    · split at ha
      · cases ha
      · obtain ⟨sm, e1, ha⟩ := Res.bind_eq_ok.mp ha
        obtain ⟨p, -, ha⟩ := Res.bind_eq_ok.mp ha
        rw [Distrib.new] at ha
        split at ha
        · cases ha
        · cases Res.ok.inj ha
          cases Res.ok.inj e1
          change (D.sampler.sample z).bind _ = _
          rw [h]; rfl
  | false =>
    rw [Distrib.apply, if_neg (by simp), Distrib.pushforward, Sampler.pushforward] at ha
    split at ha
    · cases ha
    · split at ha
      · cases ha
      · obtain ⟨sm, e1, ha⟩ := Res.bind_eq_ok.mp ha
        obtain ⟨p, -, ha⟩ := Res.bind_eq_ok.mp ha
        rw [Distrib.new] at ha
        split at ha
        · cases ha
        · cases Res.ok.inj ha
          cases Res.ok.inj e1
          change (D.sampler.sample z).bind _ = _
          rw [h]; rfl

theorem Distrib.chain_throws {z : List (List ℝ)} : ∀ {ss : List Distrib.Step} {D D' : Distrib}, D.sampler.sample z = .throw →
    D.chain ss = .ok D' → ss ≠ [] → ∀ lay out, D'.sampler.sampleImpl z lay out = .throw
  | [], _, _, _, _, hne => absurd rfl hne
  | s :: ss, D, D', h, hc, _ => by
    rw [Distrib.chain] at hc
    obtain ⟨D1, h1, h2⟩ := Res.bind_eq_ok.mp hc
    have h3 := Distrib.apply_throws h h1
    cases ss with
    | nil => cases Res.ok.inj h2; exact h3
    | cons s' ss' => exact Distrib.chain_throws (h3 _ _) h2 (by simp)

/-- C101 fails for a Gaussian with a covariance matrix: however it is transported (at least once), and whatever array is offered, sampling the result does not
return, except for one sample of one number. `Sample` allocates a row-major array for the Gaussian, which insists on a column-major one. -/
theorem C101_fails_covariance {n : Nat} {μ : Fin n → ℝ} {L : Matrix (Fin n) (Fin n) ℝ} {lay : Layout} {g : Gaussian}
    (hg : Gaussian.ofMeanCov μ L lay = .ok g) {steps : List Distrib.Step} (hne : steps ≠ []) {D : Distrib}
    (hD : (Distrib.gaussian g >>= fun G => G.chain steps) = .ok D) {z : List (List ℝ)} (hz : ¬ (n = 1 ∧ z.length = 1)) :
    D.sample z = .throw ∧ ∀ lay out, D.sampleImpl z lay out = .throw := by
  obtain ⟨G, h1, h2⟩ := Res.bind_eq_ok.mp hD
  have hG : G.sampler.sample z = .throw := by
    rw [Distrib.gaussian, Distrib.new] at h1
    split at h1
    · cases h1
    · cases Res.ok.inj h1
      exact C53_fails_sample hg hz
  have := Distrib.chain_throws hG h2 hne
  exact ⟨this _ _, this⟩

/-- C101: without a covariance matrix the gradient of the log-density reaches the Gaussian for data sets of any size: the density seen by the maps is the one
the theorems about pullbacks are about. -/
theorem C101_gradient {n : Nat} {μ : Fin n → ℝ} {Sig : Matrix (Fin n) (Fin n) ℝ} {g : Gaussian} (hg : Constructed μ Sig g) (hc : g.chol = none)
    (N : Nat) : (g.densityIn N).dim = n ∧ HasDensity (g.densityIn N) ∧ DifferentiatesDensity (g.densityIn N) ∧
      ∀ x : List ℝ, x.length = n → logp (g.densityIn N) x = normalLogDensity μ Sig (colVec n x) := by
  have e : g.densityIn N = g.density := by
    rw [Gaussian.densityIn, Gaussian.density]
    congr 1
    funext pts _
    rw [Gaussian.inputGradImpl, Gaussian.inputGradImpl, hc]
    rfl
  rw [e]
  exact C53_density hg

/-- C101 fails for gradients with a covariance matrix: the gradients of a pulled back Gaussian, with respect to the points and to the coefficients of the map,
and the gradient of the training objective, do not return, except for one point of one number. -/
theorem C101_fails_gradient {n : Nat} {μ : Fin n → ℝ} {L : Matrix (Fin n) (Fin n) ℝ} {lay : Layout} {g : Gaussian}
    (hg : Gaussian.ofMeanCov μ L lay = .ok g) {N : Nat} (hz : ¬ (n = 1 ∧ N = 1)) {m : CMap} (hE : Evaluates m) {c : List ℝ}
    (hc : c.length = m.numCoeffs) {x : List ℝ} (hx : x.length = m.inputDim) :
    (∀ out, Pullback.inputGrad m (g.densityIn N) c x out = .throw) ∧ (∀ out, Pullback.coeffGrad m (g.densityIn N) c x out = .throw) ∧
    (m.outputDim = n → ∀ data split mem off, KL.coeffGrad m (g.densityIn N) c (x :: data) split mem off = .throw) := by
  have hgr : ∀ y, (g.densityIn N).logDensityInputGrad y = .throw := by
    intro y
    have e := Gaussian.ofMeanCov_ok hg
    subst e
    change (Gaussian.inputGradImpl _ [y] (Layout.right n N)).bind _ = _
    rw [Gaussian.inputGradImpl]
    split
    · rfl
    · simp only [Option.isSome_some, if_true]
      rw [Layout.toLeft, if_neg]
      · rfl
      · simp only [Layout.right]
        omega
  have he := (hE c x ⟨hc, hx⟩).2 (List.replicate m.outputDim 0) (by simp)
  have h1 : ∀ out, Pullback.inputGrad m (g.densityIn N) c x out = .throw := by
    intro out
    rw [Pullback.inputGrad, he, Res.bind_ok, hgr]; rfl
  have h2 : ∀ out, Pullback.coeffGrad m (g.densityIn N) c x out = .throw := by
    intro out
    rw [Pullback.coeffGrad, he, Res.bind_ok, hgr]; rfl
  refine ⟨h1, h2, fun ho data split mem off => ?_⟩
  rw [KL.coeffGrad, Pullback.new, if_pos]
  · rw [Res.bind_ok, KL.columns, Pullback.logDensityCoeffGrad, h2]; rfl
  · rw [ho, Gaussian.densityIn, Gaussian.ofMeanCov_ok hg]

/-- Non-vacuity: a normal distribution with mean 3, pulled back by `exp(a) sinh(x)` with `a = 2`, pushed forward by it with `a = -1` and pulled back with `a = 1`. -/
example : ∃ D, (Distrib.gaussian (Gaussian.ofMean fun _ : Fin 1 => 3) >>= fun G =>
      G.chain [⟨true, bend, [2]⟩, ⟨false, bend, [-1]⟩, ⟨true, bend, [1]⟩]) = .ok D ∧ D.dim = 1 ∧
    IsProbabilityMeasure (lawOf (densityOn D.density [] 1)) := by
  have hs : ∀ a : ℝ, ∀ b, Sound 1 ⟨b, bend, [a]⟩ := fun a b =>
    ⟨rfl, rfl, rfl, bend_evaluates, bend_differentiates, bend_hasLogDet, bend_jacobian, bend_inverts⟩
  obtain ⟨D, h1, h2, -, h4, -⟩ := C101_law (.mean fun _ : Fin 1 => (3 : ℝ)) rfl
    (steps := [⟨true, bend, [2]⟩, ⟨false, bend, [-1]⟩, ⟨true, bend, [1]⟩]) (by
      intro s hs'
      simp only [List.mem_cons, List.not_mem_nil, or_false] at hs'
      rcases hs' with rfl | rfl | rfl <;> exact hs _ _)
  exact ⟨D, h1, h2, h4⟩

/-- Non-vacuity: a Gaussian with the covariance matrix 4, pushed forward by `exp(a) sinh(x)`; sampling two numbers fails. -/
example : ∃ g D, Gaussian.ofMeanCov (fun _ : Fin 1 => (0 : ℝ)) (fun _ _ => 2) (Layout.left 1 1) = .ok g ∧
    (Distrib.gaussian g >>= fun G => G.chain [⟨false, bend, [1]⟩]) = .ok D ∧ D.sample [[1], [2]] = .throw := by
  have hg : ∃ g, Gaussian.ofMeanCov (fun _ : Fin 1 => (0 : ℝ)) (fun _ _ => 2) (Layout.left 1 1) = .ok g := by
    unfold Gaussian.ofMeanCov Layout.toLeft
    rw [if_pos ⟨rfl, rfl⟩]
    exact ⟨_, rfl⟩
  obtain ⟨g, hg⟩ := hg
  have hd : g.dim = 1 := by rw [Gaussian.ofMeanCov_ok hg]
  have hG : Distrib.gaussian g = .ok ⟨Sampler.ofGaussian g, g.density⟩ := (C101_new _ _).1 rfl
  obtain ⟨D, hD⟩ := (C101_dimensions (D := ⟨Sampler.ofGaussian g, g.density⟩) hd hd ⟨false, bend, [1]⟩).1.2 ⟨rfl, rfl⟩
  have hch : (Distrib.gaussian g >>= fun G => G.chain [⟨false, bend, [1]⟩]) = .ok D := by
    rw [hG, Res.bind_ok, Distrib.chain, hD, Res.bind_ok]; rfl
  exact ⟨g, D, hg, hch, (C101_fails_covariance hg (by simp) hch (by simp)).1⟩

end MParT
