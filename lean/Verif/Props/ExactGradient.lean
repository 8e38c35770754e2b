import Verif.Props.FirstOrder
import Verif.Props.Train
import Verif.Props.Overfitting
import Verif.Spec.TensorProduct
/-!
# C128: the gradient that training follows is the exact gradient of the objective it reports
-/
namespace MParT
open Spec Finset MapFactory

/-- The number that the objective with reference `d` returns for the coefficients `c`. -/
noncomputable def Spec.reported (m : CMap) (d : Density) (data : List (List ℝ)) (c : List ℝ) : ℝ := (value none (KL.objective m d c data)).getD 0

section
variable {m : CMap} {d : Density}

theorem reported_eq {c : List ℝ} {data : List (List ℝ)} (hdim : m.outputDim = d.dim) (hE : Evaluates m) (hL : HasLogDet m) (hD : HasDensity d)
    (hc : c.length = m.numCoeffs) (hx : ∀ x ∈ data, x.length = m.inputDim) (hne : data ≠ []) :
    KL.objective m d c data = .ok (some (-((data.map fun x => logp d (fn m c x) + logdet m c x).sum / data.length))) := by
  obtain ⟨p, hp⟩ := ((C52_dimensions (m := m) (d := d) c).1).2 hdim
  have hcol : KL.columns (fun x => p.logDensity x (some 0)) data = .ok (data.map fun x => some (logp d (fn m c x) + logdet m c x)) :=
    KL.columns_ok fun x h => by
      obtain ⟨-, rfl⟩ := pull_new.mp hp
      exact pull_logDensity hE hL hD hdim ⟨hc, hx x h⟩ _
  rw [KL.objective, hp, Res.bind_ok, hcol, Res.bind_ok]
  have : (data.map fun x => some (logp d (fn m c x) + logdet m c x)) = (data.map fun x => logp d (fn m c x) + logdet m c x).map some := by simp
  rw [this, KL.sumNegative_eq, KL.average_eq (by simpa using hne), neg_div]

/-- The gradient of one sample. -/
theorem sample_gradient' {c x : List ℝ} (hdim : m.outputDim = d.dim) (hE : Evaluates m) (hDm : Differentiates m) (hDL : DifferentiatesLogDet m)
    (hD : DifferentiatesDensity d) (hf : Fits m c x) (hn : m.numCoeffs ≠ 0) :
    Pullback.logDensityCoeffGrad m d c x = .ok (value [] (Pullback.logDensityCoeffGrad m d c x)) ∧
      (value [] (Pullback.logDensityCoeffGrad m d c x)).length = m.numCoeffs ∧
      ∀ γ vc t₀, Path m.numCoeffs γ vc t₀ → γ t₀ = c →
        HasDerivAt (fun t => logp d (fn m (γ t) x) + logdet m (γ t) x) (dot (value [] (Pullback.logDensityCoeffGrad m d c x)) vc) t₀ := by
  have hy := (hE c x hf).1
  have hyd : (fn m c x).length = d.dim := hy.trans hdim
  set y := fn m c x with hyy
  set s := gradp d y with hss
  have hs : s.length = m.outputDim := ((hD y hyd).2.2.1).trans hdim.symm
  have hsd : d.logDensityInputGrad y = .ok s := by
    rw [Density.logDensityInputGrad]; exact (hD y hyd).1 _ (by simp [hyd])
  obtain ⟨g1, g2, g3⟩ := hDm c x s hf hs
  obtain ⟨l1, l2, l3⟩ := hDL c x hf
  have hgl := g3.1; have hll := l3.1; have hgl' := g3.2.1; have hll' := l3.2.1
  have h : Pullback.logDensityCoeffGrad m d c x = .ok (List.zipWith (· + ·) (coeffGrad m c x s) (ldCoeffGrad m c x)) := by
    change Pullback.coeffGrad m d c x _ = _
    rw [Pullback.coeffGrad, (hE c x hf).2 _ (by simp), Res.bind_ok, ← hyy, hsd, Res.bind_ok, g2 hn _ (by simp), Res.bind_ok,
      l2 hn _ (by simp), Res.bind_ok, addInPlace_zip hgl hll]
  rw [h]
  refine ⟨rfl, by change (List.zipWith _ _ _).length = _; simp [hgl, hll], fun γ vc t₀ hγ hc => ?_⟩
  have hpx := path_const x t₀
  rw [hf.2] at hpx
  obtain ⟨v, hv, hv2⟩ := path_fn hE hDm hγ hpx hc rfl
  have hp : HasDerivAt (fun t => logp d (fn m (γ t) x)) (dot s v) t₀ := by
    have := (hD y hyd).2.2.2 (fun _ => []) _ [] v t₀ ⟨fun _ => rfl, rfl, fun i hi => absurd hi (by omega)⟩
      (by rw [← hdim]; exact hv) rfl (by rw [hc])
    refine this.congr_deriv ?_
    change 0 + _ = _
    rw [zero_add]
  refine (hp.fun_add (l3.2.2 γ (fun _ => x) vc _ t₀ hγ hpx hc rfl)).congr_deriv ?_
  change _ = dot (List.zipWith _ _ _) vc
  rw [hv2 s hs, dot_add_left hgl hll hγ.2.1, dot_comm' hgl' (by simp), dot_zeros, dot_comm' hll' (by simp), dot_zeros]
  ring

/-- C128: for every map whose values and log-determinants are differentiated exactly, whether or not the log-determinant is that of the Jacobian of the
values, the vector that `TrainCoeffGrad` and `operator()` return, for every schedule, is the gradient of the number that the objective returns. -/
theorem C128_gradient {c : List ℝ} {data : List (List ℝ)} (hdim : m.outputDim = d.dim) (hE : Evaluates m) (hL : HasLogDet m) (hDm : Differentiates m)
    (hDL : DifferentiatesLogDet m) (hD : HasDensity d) (hDd : DifferentiatesDensity d) (hc : c.length = m.numCoeffs)
    (hx : ∀ x ∈ data, x.length = m.inputDim) (hne : data ≠ []) (hn : m.numCoeffs ≠ 0) :
    KL.objective m d c data = .ok (some (reported m d data c)) ∧ ∃ g : List ℝ, IsGradientAt m.numCoeffs (reported m d data) c g ∧
      ∀ split : Parallel.Split, split.indices.Perm (List.range data.length) → KL.trainCoeffGrad m d c data split = .ok g ∧
        ∀ grad : List ℝ, grad.length = m.numCoeffs → KL.call m d c grad data split = .ok (some (reported m d data c), g) := by
  have hval : ∀ c, c.length = m.numCoeffs → reported m d data c = -((data.map fun x => logp d (fn m c x) + logdet m c x).sum / data.length) :=
    fun c hc => by rw [reported, reported_eq hdim hE hL hD hc hx hne]; rfl
  have hobj : KL.objective m d c data = .ok (some (reported m d data c)) := by rw [hval c hc]; exact reported_eq hdim hE hL hD hc hx hne
  have hs := fun x (h : x ∈ data) => sample_gradient' hdim hE hDm hDL hDd ⟨hc, hx x h⟩ hn
  have hcol : KL.columns (Pullback.logDensityCoeffGrad m d c) data = .ok (data.map fun x => value [] (Pullback.logDensityCoeffGrad m d c x)) :=
    KL.columns_ok fun x h => (hs x h).1
  obtain ⟨p, hp⟩ := ((C52_dimensions (m := m) (d := d) c).1).2 hdim
  have hobj' := hobj
  rw [KL.objective, hp, Res.bind_ok] at hobj'
  obtain ⟨dx, hdx, hav⟩ := Res.bind_eq_ok.mp hobj'
  have hred := fun (split : Parallel.Split) (h : split.indices.Perm (List.range data.length)) =>
    Parallel.C51_reduce .sum true m.numCoeffs data.length
      (fun i j => ((data.map fun x => value [] (Pullback.logDensityCoeffGrad m d c x)).getD j []).getD i 0) (-1 / data.length : ℝ) split h
  simp only [if_true] at hred
  refine ⟨hobj, (List.range m.numCoeffs).map fun i => (-1 / data.length : ℝ) * ((List.range data.length).map fun j =>
    ((data.map fun x => value [] (Pullback.logDensityCoeffGrad m d c x)).getD j []).getD i 0).sum, ⟨?_, fun γ v t₀ hγ hγc => ?_⟩,
    fun split hsp => ⟨?_, fun grad hgr => ?_⟩⟩
  · simp
  · rw [reduced_dot (fun x h => (hs x h).2.1) _ hγ.2.1]
    have := (list_sum_deriv fun x h => (hs x h).2.2 γ v t₀ hγ hγc).div_const (data.length : ℝ)
    refine ((this.neg.congr_deriv ?_).congr_of_eventuallyEq (Filter.Eventually.of_forall fun t => hval _ (hγ.1 t)))
    rw [neg_div, neg_mul, one_div, div_eq_inv_mul]
  · rw [KL.trainCoeffGrad, KL.coeffGrad, hp, Res.bind_ok, hcol, Res.bind_ok]
    dsimp only
    rw [hred split hsp, KL.writeFrom_ok _ _ _ (by simp)]
    simp
  · rw [KL.call, if_pos hc, KL.objectivePlusCoeffGrad, hp, Res.bind_ok, hdx, Res.bind_ok, hcol, Res.bind_ok]
    dsimp only
    rw [hred split hsp, KL.writeFrom_ok _ _ _ (by simp [hgr]), Res.bind_ok, Res.ok.inj hav]
    simp [← hgr]

theorem dot_self {g : List ℝ} (h : ∃ i, g.getD i 0 ≠ 0) : 0 < dot g g := by
  obtain ⟨i, hi⟩ := h
  rw [dot_eq_sum rfl rfl]
  have hlt : i < g.length := by
    by_contra hge
    exact hi (by simp [List.getD_eq_getElem?_getD, List.getElem?_eq_none (not_lt.1 hge)])
  exact sum_pos' (fun j _ => mul_self_nonneg _) ⟨i, mem_range.2 hlt, mul_self_pos.2 hi⟩

/-- A function with a gradient that is not zero gets smaller along every short step against it. -/
theorem descends {n : ℕ} {F : List ℝ → ℝ} {c g : List ℝ} (hc : c.length = n) (hg : IsGradientAt n F c g) (h0 : ∃ i, g.getD i 0 ≠ 0) :
    ∃ δ > 0, ∀ t : ℝ, 0 < t → t < δ → F (List.zipWith (fun a b => a - t * b) c g) < F c := by
  have hγ : Path n (fun t => List.zipWith (fun a b => a - t * b) c g) (g.map fun a => -a) 0 := by
    refine ⟨fun t => by simp [hc, hg.1], by simp [hg.1], fun i hi => ?_⟩
    have e : (fun t => (List.zipWith (fun a b => a - t * b) c g).getD i 0) = fun t : ℝ => c.getD i 0 - t * g.getD i 0 := by
      funext t
      have h1 : i < c.length := by omega
      have h2 : i < g.length := by have := hg.1; omega
      simp [List.getD_eq_getElem?_getD, h1, h2]
    have e2 : (g.map fun a => -a).getD i 0 = -(1 * g.getD i 0) := by
      have h2 : i < g.length := by have := hg.1; omega
      simp [List.getD_eq_getElem?_getD, h2]
    rw [e, e2]
    exact ((hasDerivAt_id 0).mul_const _).const_sub _
  have hat : List.zipWith (fun a b => a - (0 : ℝ) * b) c g = c := by
    refine List.ext_getElem (by simp [hc, hg.1]) fun i h1 h2 => by simp
  have hd := hg.2 _ _ _ hγ hat
  have hneg : dot g (g.map fun a => -a) < 0 := by
    have : dot g (g.map fun a => -a) = -dot g g := by
      rw [dot_eq_sum rfl (by simp), dot_eq_sum rfl rfl, ← sum_neg_distrib]
      refine sum_congr rfl fun i hi => ?_
      have h2 : i < g.length := mem_range.1 hi
      simp [List.getD_eq_getElem?_getD, h2]
    rw [this]
    exact neg_neg_of_pos (dot_self h0)
  have := hd.tendsto_slope_zero_right
  have hev := this.eventually (gt_mem_nhds hneg)
  rw [eventually_nhdsWithin_iff] at hev
  obtain ⟨δ, hδ, hb⟩ := Metric.eventually_nhds_iff.1 hev
  refine ⟨δ, hδ, fun t h1 h2 => ?_⟩
  have h3 := hb (y := t) (by rw [Real.dist_eq, sub_zero, abs_of_pos h1]; exact h2) h1
  rw [zero_add, hat, smul_eq_mul] at h3
  have := (mul_neg_iff.1 h3).resolve_right fun h => absurd (inv_pos.2 h1) (not_lt.2 h.1.le)
  linarith

end

section
variable {o : MapOptions} {k n p : ℕ}

/-- The contracts that hold with the fixed quadrature for every order. -/
theorem triangular_contracts (h0 : 0 < n) (h2 : k + n < 2 ^ 32) (hB : GoodBasis o p) (hQ : GoodQuad o) (hcd : o.contDeriv = true)
    (hcc : o.quadType = .clenshawCurtis) (hnug : o.nugget = 0) (hbd : Bounded o → p ≤ 1) {mem : ℕ → Option ℝ} {work : List ℝ} {T : CMap} {w : List ℝ}
    (hT : createTriangular (k + n) n p o mem work = .ok (T, w)) :
    T.inputDim = k + n ∧ T.outputDim = n ∧ T.numCoeffs ≠ 0 ∧ Evaluates T ∧ HasLogDet T ∧ Differentiates T ∧ DifferentiatesLogDet T := by
  obtain ⟨b, mesh, -, -, h⟩ := C63_triangular_partial (inputDim := k + n) h0 (by omega) h2 hB hQ
  obtain ⟨T', comps, t1, t2, t3, t4, -, -, -, t5, -, t6, t7⟩ := h mem work
  obtain ⟨rfl, -⟩ := Prod.mk.inj (Res.ok.inj (hT.symm.trans t1))
  refine ⟨t2, t3, ?_, t5, (t6 hcd).1, t7.gradients (.inl hcc) hnug hbd, t7.logDetGradients hcd hbd⟩
  rw [t4]
  have := Finset.single_le_sum (f := fun i => (k + n - n + i + 1 + p).choose p) (fun _ _ => Nat.zero_le _) (mem_range.2 h0)
  have h' : 0 < (k + n - n + 0 + 1 + p).choose p := Nat.choose_pos (by omega)
  omega

variable (h0 : 0 < n) (h2 : k + n < 2 ^ 32) (hB : GoodBasis o p) (hQ : GoodQuad o) (hcd : o.contDeriv = true)
  (hcc : o.quadType = .clenshawCurtis) (hnug : o.nugget = 0) (hbd : Bounded o → p ≤ 1) {mem : ℕ → Option ℝ} {work : List ℝ} {T : CMap} {w : List ℝ}
  (hT : createTriangular (k + n) n p o mem work = .ok (T, w)) {data : List (List ℝ)} (hne : data ≠ []) (hdata : ∀ x ∈ data, x.length = k + n)
include h0 h2 hB hQ hcd hcc hnug hbd hT hne hdata

/-- C128: so it is for the maps `CreateTriangular` builds with the fixed quadrature, however coarse, and any order. -/
theorem C128_triangular {c : List ℝ} (hc : c.length = T.numCoeffs) :
    KL.objective T (Gaussian.ofDim T.outputDim).density c data = .ok (some (reported T (Gaussian.ofDim T.outputDim).density data c)) ∧
    ∃ g : List ℝ, IsGradientAt T.numCoeffs (reported T (Gaussian.ofDim T.outputDim).density data) c g ∧
      ∀ split : Parallel.Split, split.indices.Perm (List.range data.length) →
        KL.trainCoeffGrad T (Gaussian.ofDim T.outputDim).density c data split = .ok g ∧ ∀ grad : List ℝ, grad.length = T.numCoeffs →
          KL.call T (Gaussian.ofDim T.outputDim).density c grad data split = .ok (some (reported T (Gaussian.ofDim T.outputDim).density data c), g) := by
  obtain ⟨t1, t2, t3, t4, t5, t6, t7⟩ := triangular_contracts h0 h2 hB hQ hcd hcc hnug hbd hT
  have hd := C53_density (.dim T.outputDim)
  exact C128_gradient rfl t4 t5 t6 t7 hd.2.1 hd.2.2.1 hc (fun x hx => by rw [t1, hdata x hx]) hne t3

/-- C128: if the gradient that is returned is not zero, then every short step against it makes the objective smaller. -/
theorem C128_descent {c g : List ℝ} (hc : c.length = T.numCoeffs) {split : Parallel.Split} (hsp : split.indices.Perm (List.range data.length))
    (hg : KL.trainCoeffGrad T (Gaussian.ofDim T.outputDim).density c data split = .ok g) (hnz : ∃ i, g.getD i 0 ≠ 0) :
    ∃ v, KL.objective T (Gaussian.ofDim T.outputDim).density c data = .ok (some v) ∧ ∃ δ > 0, ∀ t : ℝ, 0 < t → t < δ →
      ∃ v', KL.objective T (Gaussian.ofDim T.outputDim).density (List.zipWith (fun a b => a - t * b) c g) data = .ok (some v') ∧ v' < v := by
  obtain ⟨h1, g', hg', h3⟩ := C128_triangular h0 h2 hB hQ hcd hcc hnug hbd hT hne hdata hc
  obtain rfl := Res.ok.inj ((h3 split hsp).1.symm.trans hg)
  obtain ⟨δ, hδ, h⟩ := descends hc hg' hnz
  refine ⟨_, h1, δ, hδ, fun t ht ht' => ⟨_, ?_, h t ht ht'⟩⟩
  exact (C128_triangular h0 h2 hB hQ hcd hcc hnug hbd hT hne hdata (by simp [hc, hg'.1])).1

/-- C128: at coefficients that minimise the objective the gradient that is returned is zero. -/
theorem C128_stationary {c : List ℝ} (hmin : MinimisesKL T data c) {split : Parallel.Split} (hsp : split.indices.Perm (List.range data.length)) :
    KL.trainCoeffGrad T (Gaussian.ofDim T.outputDim).density c data split = .ok (zeros T.numCoeffs) := by
  obtain ⟨h1, g, hg, h3⟩ := C128_triangular h0 h2 hB hQ hcd hcc hnug hbd hT hne hdata hmin.1
  rw [(h3 split hsp).1]
  congr 1
  by_cases hnz : ∃ i, g.getD i 0 ≠ 0
  · exfalso
    obtain ⟨v, e, δ, hδ, h⟩ := C128_descent h0 h2 hB hQ hcd hcc hnug hbd hT hne hdata hmin.1 hsp (h3 split hsp).1 hnz
    obtain ⟨v', e', hlt⟩ := h (δ / 2) (by positivity) (by linarith)
    obtain ⟨v0, e0, hm⟩ := hmin.2
    have : v = v0 := by simpa using e.symm.trans e0
    have := hm _ v' (by simp [hmin.1, hg.1]) e'
    linarith
  · push Not at hnz
    refine List.ext_getElem (by simp [hg.1]) fun i h1 h2 => ?_
    simpa [List.getD_eq_getElem?_getD, h1, zeros] using hnz i

end

open Train in
/-- A run of `TrainMap` whose calls of the objective answer with `F` and `G` is the optimiser applied to these. -/
theorem train_play {env : Env} {F : List ℝ → ℝ} {G : List ℝ → List ℝ} (hG : ∀ c, c.length = env.map.numCoeffs → (G c).length = env.map.numCoeffs)
    (hgar : ∀ k, (env.garbage k).length = env.map.numCoeffs)
    (hcall : ∀ k c grad, c.length = env.map.numCoeffs → grad.length = env.map.numCoeffs →
      KL.call env.map env.density c grad env.train (env.split k) = .ok (some (F c), G c))
    {alg : List ℝ → Opt} (halg : env.alg = some alg) {cur start : List ℝ} (hn : env.map.numCoeffs ≠ 0)
    (hstart : cur.length = env.map.numCoeffs ∧ start = cur ∨ cur = [] ∧ start = List.replicate env.map.numCoeffs 1)
    (ho : HasDim env.map.numCoeffs (alg start)) (hs : env.strict = false ∨ UsesGradient (alg start)) :
    match play F G (alg start) with
      | some (x, f, _) => trainMap env cur = (x, .ok f) ∧ x.length = env.map.numCoeffs
      | none => trainMap env cur = (lastAsked F G start (alg start), .throw) ∧ (lastAsked F G start (alg start)).length = env.map.numCoeffs := by
  have hsl : start.length = env.map.numCoeffs := by
    rcases hstart with ⟨h1, rfl⟩ | ⟨-, rfl⟩
    · exact h1
    · simp
  have hsc : startCoeffs env.map cur = start := by
    rw [startCoeffs]
    rcases hstart with ⟨h1, rfl⟩ | ⟨rfl, rfl⟩
    · rw [if_neg (by omega)]
    · rfl
  have key := optimize_ok (env := env) (F := F) (G := G) rfl hG
    (fun k x hxl w hw => by
      cases w with
      | true => rw [answer, if_pos rfl, hcall k x _ hxl (hgar k)]; rfl
      | false =>
        have : env.strict = false := by simpa using hw
        rw [answer, if_neg (by simp), this, if_neg (by simp), hcall k x _ hxl (by simp [hxl])]
        rfl) (alg start) 0 start hsl ho hs
  have hstop : ∀ (o : Opt), HasDim env.map.numCoeffs o → ∀ x f r, play F G o = some (x, f, r) → x.length = env.map.numCoeffs ∧ r ≤ 6 := by
    intro o
    induction o with
    | stop x f r => intro h x' f' r' he; simp only [play, Option.some.injEq, Prod.mk.injEq] at he; obtain ⟨rfl, rfl, rfl⟩ := he; exact h
    | fail => intro _ x f r he; simp [play] at he
    | query x w next ih =>
      intro h x' f' r' he
      exact ih _ _ (h.2 _ _ (by cases w <;> simp [hG x h.1])) x' f' r' he
  obtain ⟨k1, k3, k2⟩ := key
  cases hp : play F G (alg start) with
  | some r =>
    obtain ⟨x, f, r⟩ := r
    obtain ⟨hxl, hr⟩ := hstop _ ho x f r hp
    rw [hp] at k2
    simp only at k2 ⊢
    refine ⟨?_, hxl⟩
    rw [trainMap]
    simp only [halg, hsc]
    rw [if_neg (by simpa using hsl)]
    rw [show optimize env (alg start) 0 start = ((optimize env (alg start) 0 start).1, .ok (x, f, r)) from Prod.ext rfl k2]
    simp only [hxl, if_true]
    have : r < successCodes.length := by simp [successCodes]; omega
    rw [Res.idx_some (List.getElem?_eq_getElem this)]
    simp
  | none =>
    rw [hp] at k2
    simp only at k2 ⊢
    rw [trainMap]
    simp only [halg, hsc]
    rw [if_neg (by simpa using hsl)]
    rw [show optimize env (alg start) 0 start = (lastAsked F G start (alg start), .throw) from Prod.ext k3 k2]
    exact ⟨rfl, k1⟩

open Train in
/-- C128: so `TrainMap` of such a map, with any algorithm and any schedules, is that algorithm applied to the reported objective and its exact gradient. -/
theorem C128_training {o : MapOptions} {k n p : ℕ} (h0 : 0 < n) (h2 : k + n < 2 ^ 32) (hB : GoodBasis o p) (hQ : GoodQuad o) (hcd : o.contDeriv = true)
    (hcc : o.quadType = .clenshawCurtis) (hnug : o.nugget = 0) (hbd : Bounded o → p ≤ 1) {mem : ℕ → Option ℝ} {work w : List ℝ} {env : Env}
    (hT : createTriangular (k + n) n p o mem work = .ok (env.map, w)) (hd : env.density = (Gaussian.ofDim env.map.outputDim).density)
    (hne : env.train ≠ []) (hdata : ∀ x ∈ env.train, x.length = k + n)
    (hsplit : ∀ k, (env.split k).indices.Perm (List.range env.train.length)) (hgar : ∀ k, (env.garbage k).length = env.map.numCoeffs)
    {alg : List ℝ → Opt} (halg : env.alg = some alg) {cur start : List ℝ}
    (hstart : cur.length = env.map.numCoeffs ∧ start = cur ∨ cur = [] ∧ start = List.replicate env.map.numCoeffs 1)
    (ho : HasDim env.map.numCoeffs (alg start)) (hs : env.strict = false ∨ UsesGradient (alg start)) :
    ∃ G : List ℝ → List ℝ, (∀ c, c.length = env.map.numCoeffs → IsGradientAt env.map.numCoeffs (reported env.map env.density env.train) c (G c)) ∧
      match play (reported env.map env.density env.train) G (alg start) with
      | some (x, f, _) => trainMap env cur = (x, .ok f) ∧ x.length = env.map.numCoeffs
      | none => trainMap env cur = (lastAsked (reported env.map env.density env.train) G start (alg start), .throw) ∧
          (lastAsked (reported env.map env.density env.train) G start (alg start)).length = env.map.numCoeffs := by
  have hg := fun (c : List ℝ) (hc : c.length = env.map.numCoeffs) => (C128_triangular h0 h2 hB hQ hcd hcc hnug hbd hT hne hdata hc).2
  rw [← hd] at hg
  choose G0 hG0 hG1 using hg
  classical
  let G : List ℝ → List ℝ := fun c => if h : c.length = env.map.numCoeffs then G0 c h else []
  have hGd : ∀ c (h : c.length = env.map.numCoeffs), G c = G0 c h := fun c h => by simp only [G]; rw [dif_pos h]
  refine ⟨G, fun c hc => by rw [hGd c hc]; exact hG0 c hc, ?_⟩
  exact train_play (fun c hc => by rw [hGd c hc]; exact (hG0 c hc).1) hgar
    (fun k c grad hc hgr => by rw [hGd c hc]; exact (hG1 c hc _ (hsplit k)).2 grad hgr) halg
    (triangular_contracts h0 h2 hB hQ hcd hcc hnug hbd hT).2.2.1 hstart ho hs

open Train in
/-- C128: with an algorithm that returns the best point it has seen, what `TrainMap` returns is the objective of the map as it is left, and not more than the
objective at the coefficients the training started from. -/
theorem C128_improves {o : MapOptions} {k n p : ℕ} (h0 : 0 < n) (h2 : k + n < 2 ^ 32) (hB : GoodBasis o p) (hQ : GoodQuad o) (hcd : o.contDeriv = true)
    (hcc : o.quadType = .clenshawCurtis) (hnug : o.nugget = 0) (hbd : Bounded o → p ≤ 1) {mem : ℕ → Option ℝ} {work w : List ℝ} {env : Env}
    (hT : createTriangular (k + n) n p o mem work = .ok (env.map, w)) (hd : env.density = (Gaussian.ofDim env.map.outputDim).density)
    (hne : env.train ≠ []) (hdata : ∀ x ∈ env.train, x.length = k + n)
    (hsplit : ∀ k, (env.split k).indices.Perm (List.range env.train.length)) (hgar : ∀ k, (env.garbage k).length = env.map.numCoeffs)
    {alg : List ℝ → Opt} (halg : env.alg = some alg) {cur start : List ℝ}
    (hstart : cur.length = env.map.numCoeffs ∧ start = cur ∨ cur = [] ∧ start = List.replicate env.map.numCoeffs 1)
    (ho : HasDim env.map.numCoeffs (alg start)) (hs : env.strict = false ∨ UsesGradient (alg start))
    (hbest : ∀ G, ReturnsBest (reported env.map env.density env.train) G start (alg start)) {x : List ℝ} {e : Option ℝ}
    (hr : trainMap env cur = (x, .ok e)) :
    KL.objective env.map env.density x env.train = .ok e ∧
    ∃ e0 e1, KL.objective env.map env.density start env.train = .ok (some e0) ∧ e = some e1 ∧ e1 ≤ e0 := by
  obtain ⟨G, -, h⟩ := C128_training h0 h2 hB hQ hcd hcc hnug hbd hT hd hne hdata hsplit hgar halg hstart ho hs
  have hval := fun (c : List ℝ) (hc : c.length = env.map.numCoeffs) => (C128_triangular h0 h2 hB hQ hcd hcc hnug hbd hT hne hdata hc).1
  rw [← hd] at hval
  have hsl : start.length = env.map.numCoeffs := by
    rcases hstart with ⟨h1, rfl⟩ | ⟨-, rfl⟩
    · exact h1
    · simp
  cases hp : play (reported env.map env.density env.train) G (alg start) with
  | some r =>
    obtain ⟨x', f', r'⟩ := r
    rw [hp] at h
    simp only at h
    rw [hr] at h
    obtain ⟨h, hxl⟩ := h
    obtain ⟨rfl, he⟩ := Prod.mk.inj h
    obtain rfl := Res.ok.inj he
    obtain ⟨v, rfl, h1, ⟨w, h2⟩, h3⟩ := hbest G x _ r' hp
    have hv := answers_value _ _ _ h1
    have hw := answers_value _ _ _ h2
    refine ⟨by rw [hval x hxl, hv], _, v, hval start hsl, rfl, ?_⟩
    rw [← hw]; exact h3 _ _ h2
  | none =>
    rw [hp] at h
    simp only at h
    rw [hr] at h
    exact absurd (congrArg Prod.snd h.1) (by simp)

/-- Non-vacuity: gradient descent for a map of order two returns, and its result is not worse than the coefficients it started from. -/
example : ∃ (env : Train.Env) (w x : List ℝ) (e0 e1 : ℝ), createTriangular 1 1 2 pairOptions (fun _ => none) [] = .ok (env.map, w) ∧ env.train = [[3], [-1]] ∧
    Train.trainMap env [] = (x, .ok (some e1)) ∧ KL.objective env.map env.density x [[3], [-1]] = .ok (some e1) ∧
    KL.objective env.map env.density (List.replicate env.map.numCoeffs 1) [[3], [-1]] = .ok (some e0) ∧ e1 ≤ e0 := by
  obtain ⟨T, w, -, t, -, hB, hQ⟩ := pair_trained
  have hbd : Bounded pairOptions → 2 ≤ 1 := fun h => absurd h (by simp [Bounded, pairOptions])
  let env : Train.Env := { map := T, density := (Gaussian.ofDim T.outputDim).density, train := [[3], [-1]], alg := some descent, verbose := true, strict := true,
                           split := fun _ => .join (.chunk [1]) (.chunk [0]), garbage := fun k => List.replicate T.numCoeffs (k : ℝ) }
  have hsp : ∀ k, (env.split k).indices.Perm (List.range env.train.length) := fun k => by
    change ([1] ++ [0] : List Nat).Perm [0, 1]; decide
  have hdat : ∀ x ∈ env.train, x.length = 0 + 1 := by simp [env]
  have hdim : HasDim env.map.numCoeffs (descent (List.replicate env.map.numCoeffs 1)) := descent_hasDim (by simp)
  obtain ⟨G, -, h⟩ := C128_training (k := 0) (n := 1) (env := env) one_pos (by norm_num) hB hQ rfl rfl rfl hbd t rfl (by simp [env]) hdat hsp
    (fun k => by simp [env]) rfl (cur := []) (.inr ⟨rfl, rfl⟩) hdim (.inr (descent_usesGradient _))
  cases hp : play (reported env.map env.density env.train) G (descent (List.replicate env.map.numCoeffs 1)) with
  | none =>
    rw [descent] at hp
    simp only [play] at hp
    split_ifs at hp <;> simp [play] at hp
  | some r =>
    obtain ⟨x, f, r⟩ := r
    rw [hp] at h
    obtain ⟨h3, e0, e1, h4, rfl, h5⟩ := C128_improves (k := 0) (n := 1) (env := env) one_pos (by norm_num) hB hQ rfl rfl rfl hbd t rfl (by simp [env]) hdat hsp
      (fun k => by simp [env]) rfl (cur := []) (.inr ⟨rfl, rfl⟩) hdim (.inr (descent_usesGradient _)) (fun G => descent_best _ G _) h.1
    exact ⟨env, w, x, e0, e1, t, rfl, h.1, h3, h4, h5⟩

/-- Non-vacuity: a trained map of order two, with the rule that has only one point. -/
example : ∃ T w c, createTriangular 1 1 2 pairOptions (fun _ => none) [] = .ok (T, w) ∧
    KL.trainCoeffGrad T (Gaussian.ofDim T.outputDim).density c [[-1], [1]] (.join (.chunk [1]) (.chunk [0])) = .ok (zeros T.numCoeffs) := by
  obtain ⟨T, w, c, t, hc, hB, hQ⟩ := pair_trained
  exact ⟨T, w, c, t, C128_stationary (k := 0) (n := 1) one_pos (by norm_num) hB hQ rfl rfl rfl (fun h => absurd h (by simp [Bounded, pairOptions])) t
    (by simp) (by simp) hc (by decide)⟩

/-- Non-vacuity: for a single sample there are coefficients at which the gradient is not zero, because the objective is not constant. -/
example : ∃ T w c g v v', createTriangular 1 1 2 pairOptions (fun _ => none) [] = .ok (T, w) ∧
    KL.trainCoeffGrad T (Gaussian.ofDim T.outputDim).density c [[3]] (.chunk [0]) = .ok g ∧
    KL.objective T (Gaussian.ofDim T.outputDim).density c [[3]] = .ok (some v) ∧
    ∃ t > 0, KL.objective T (Gaussian.ofDim T.outputDim).density (List.zipWith (fun a b => a - t * b) c g) [[3]] = .ok (some v') ∧ v' < v := by
  obtain ⟨T, w, -, t, -, hB, hQ⟩ := pair_trained
  have hbd : Bounded pairOptions → 2 ≤ 1 := fun h => absurd h (by simp [Bounded, pairOptions])
  have key := fun (c : List ℝ) (hc : c.length = T.numCoeffs) => C128_triangular (k := 0) (n := 1) one_pos (by norm_num) hB hQ rfl rfl rfl hbd t
    (data := [[3]]) (by simp) (by simp) hc
  by_cases h : ∃ c, ∃ hc : c.length = T.numCoeffs, ∃ i, (key c hc).2.choose.getD i 0 ≠ 0
  · obtain ⟨c, hc, hnz⟩ := h
    have hg := ((key c hc).2.choose_spec.2 (.chunk [0]) (by decide)).1
    obtain ⟨v, e, δ, hδ, h⟩ := C128_descent (k := 0) (n := 1) one_pos (by norm_num) hB hQ rfl rfl rfl hbd t (data := [[3]]) (by simp) (by simp) hc
      (split := .chunk [0]) (by decide) hg hnz
    obtain ⟨v', e', hlt⟩ := h (δ / 2) (by positivity) (by linarith)
    exact ⟨T, w, c, _, v, v', t, hg, e, δ / 2, by positivity, e', hlt⟩
  · exfalso
    push Not at h
    have hz : (zeros T.numCoeffs).length = T.numCoeffs := by simp
    obtain ⟨c, v, hc, e, hlt⟩ := C121_few_samples (k := 0) (n := 1) one_pos (by norm_num) two_pos hB hQ rfl (by decide) t (data := [[3]]) (by simp)
      (by simp) (i := 0) (by simp) (by simp) (by simp) (reported T (Gaussian.ofDim T.outputDim).density [[3]] (zeros T.numCoeffs))
    have hγ : ∀ t, Path T.numCoeffs (fun t => c.map fun a => t * a) c t := fun t => ⟨fun _ => by simpa using hc, hc, fun i hi => by
      have hi' : i < c.length := by omega
      have e : (fun t => (c.map fun a => t * a).getD i 0) = fun t : ℝ => t * c.getD i 0 := by
        funext t; simp [List.getD_eq_getElem?_getD, hi']
      rw [e]
      simpa using (hasDerivAt_id t).mul_const (c.getD i 0)⟩
    have hd : ∀ t, HasDerivAt (fun t => reported T (Gaussian.ofDim T.outputDim).density [[3]] (c.map fun a => t * a)) 0 t := fun t => by
      have hl : (c.map fun a => t * a).length = T.numCoeffs := by simpa using hc
      have hg := (key _ hl).2.choose_spec.1
      refine (hg.2 _ _ t (hγ t) rfl).congr_deriv ?_
      rw [dot_eq_sum hg.1 hc]
      exact sum_eq_zero fun i _ => by rw [h _ hl i, zero_mul]
    have hconst := is_const_of_deriv_eq_zero (fun t => (hd t).differentiableAt) (fun t => (hd t).deriv) 0 1
    have e0 : (c.map fun a => (0 : ℝ) * a) = zeros T.numCoeffs := by
      rw [← hc]; simp [zeros, List.map_const']
    have e1 : (c.map fun a => (1 : ℝ) * a) = c := by simp
    simp only [e0, e1] at hconst
    have : v = reported T (Gaussian.ofDim T.outputDim).density [[3]] c := by simpa using e.symm.trans (key c hc).1
    linarith

end MParT
