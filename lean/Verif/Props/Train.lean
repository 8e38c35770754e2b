import Verif.Spec.Train
import Verif.Props.Objective
/-!
# C68, C69: training with an optimiser, and the objective with a standard normal reference
-/
namespace MParT
open Spec Train

theorem optimize_ok {env : Env} {F : List ℝ → ℝ} {G : List ℝ → List ℝ} {n : Nat} (hn : env.map.numCoeffs = n) (hG : ∀ x, x.length = n → (G x).length = n)
    (hans : ∀ k x, x.length = n → ∀ w, (env.strict = false ∨ w = true) → answer env k x w = .ok (some (F x), if w then G x else [])) (o : Opt) :
    ∀ (k : Nat) (cur : List ℝ), cur.length = n → HasDim n o → (env.strict = false ∨ UsesGradient o) →
    (lastAsked F G cur o).length = n ∧ (optimize env o k cur).1 = lastAsked F G cur o ∧
    (optimize env o k cur).2 = match play F G o with
      | some r => .ok r
      | none => .throw := by
  induction o with
  | stop x f r => intro k cur hc _ _; exact ⟨hc, rfl, rfl⟩
  | fail => intro k cur hc _ _; exact ⟨hc, rfl, rfl⟩
  | query x w next ih =>
    intro k cur hc hd hs
    obtain ⟨hx, hd⟩ := hd
    have ha := hans k x hx w (hs.imp id fun h => h.1)
    have := ih (some (F x)) (if w then G x else []) (k + 1) x hx
      (hd _ _ (by cases w <;> simp [hG x hx])) (hs.imp id fun h => h.2 _ _)
    have e : lastAsked F G cur (.query x w next) = lastAsked F G x (next (some (F x)) (if w then G x else [])) := by
      simp only [lastAsked, answers, List.map_cons]
      rw [List.getLast?_cons]
      rfl
    rw [optimize, ha, e]
    simp only [hn, hx, if_true]
    exact this

variable {env : Env}

/-- **C68.** Training is the optimiser applied to the exact objective and its exact gradient: whatever algorithm is used, however it proceeds and however the
reductions are scheduled, it is told the value and the gradient of the training error at the points it asks for; it starts from the coefficients of the map,
or from ones if these were not set; if it ends with a point, then these are the coefficients of the map afterwards and the result is its value; if it fails,
`TrainMap` throws, and the coefficients of the last point it asked for stay in the map. -/
theorem C68_train_partial (hdim : env.map.outputDim = env.density.dim) (hE : Evaluates env.map) (hL : HasLogDet env.map) (hJ : LogDetIsJacobian env.map)
    (hDm : Differentiates env.map) (hDL : DifferentiatesLogDet env.map) (hD : HasDensity env.density) (hDd : DifferentiatesDensity env.density)
    (hx : ∀ x ∈ env.train, x.length = env.map.inputDim) (hne : env.train ≠ []) (hn : env.map.numCoeffs ≠ 0)
    (hsplit : ∀ k, (env.split k).indices.Perm (List.range env.train.length)) (hgar : ∀ k, (env.garbage k).length = env.map.numCoeffs)
    {alg : List ℝ → Opt} (halg : env.alg = some alg) {cur start : List ℝ}
    (hstart : cur.length = env.map.numCoeffs ∧ start = cur ∨ cur = [] ∧ start = List.replicate env.map.numCoeffs 1)
    (ho : HasDim env.map.numCoeffs (alg start)) (hs : env.strict = false ∨ UsesGradient (alg start)) :
    ∃ G : List ℝ → List ℝ, (∀ c, c.length = env.map.numCoeffs →
        IsGradient env.map.numCoeffs 0 (fun c _ => klObjective env.map env.density env.train c) c [] (G c) []) ∧
      match play (klObjective env.map env.density env.train) G (alg start) with
      | some (x, f, _) => trainMap env cur = (x, .ok f) ∧ x.length = env.map.numCoeffs
      | none => trainMap env cur = (lastAsked (klObjective env.map env.density env.train) G start (alg start), .throw) ∧
          (lastAsked (klObjective env.map env.density env.train) G start (alg start)).length = env.map.numCoeffs := by
  have hg := fun (c : List ℝ) (hc : c.length = env.map.numCoeffs) => C54_gradient_partial (c := c) hdim hE hL hJ hDm hDL hD hDd hc hx hne hn
  choose G0 hG0 using hg
  classical
  let G : List ℝ → List ℝ := fun c => if h : c.length = env.map.numCoeffs then G0 c h else []
  have hGd : ∀ c (h : c.length = env.map.numCoeffs), G c = G0 c h := fun c h => by simp only [G]; rw [dif_pos h]
  refine ⟨G, fun c hc => by rw [hGd c hc]; exact (hG0 c hc).1, ?_⟩
  have hsl : start.length = env.map.numCoeffs := by
    rcases hstart with ⟨h1, rfl⟩ | ⟨-, rfl⟩
    · exact h1
    · simp
  have hsc : startCoeffs env.map cur = start := by
    rw [startCoeffs]
    rcases hstart with ⟨h1, rfl⟩ | ⟨rfl, rfl⟩
    · rw [if_neg (by omega)]
    · rfl
  have key := optimize_ok (env := env) (F := klObjective env.map env.density env.train) (G := G) rfl
    (fun x h => by rw [hGd x h]; exact (hG0 x h).1.1)
    (fun k x hxl w hw => by
      have hc := (((hG0 x hxl).2 (env.split k) (hsplit k)).2).2
      cases w with
      | true => rw [answer, if_pos rfl, hc _ (hgar k), hGd x hxl]; rfl
      | false =>
        have : env.strict = false := by simpa using hw
        rw [answer, if_neg (by simp), this, if_neg (by simp), hc _ (by simp [hxl])]
        rfl) (alg start) 0 start hsl ho hs
  have hstop : ∀ (o : Opt), HasDim env.map.numCoeffs o → ∀ x f r, play (klObjective env.map env.density env.train) G o = some (x, f, r) →
      x.length = env.map.numCoeffs ∧ r ≤ 6 := by
    intro o
    induction o with
    | stop x f r => intro h x' f' r' he; simp only [play, Option.some.injEq, Prod.mk.injEq] at he; obtain ⟨rfl, rfl, rfl⟩ := he; exact h
    | fail => intro _ x f r he; simp [play] at he
    | query x w next ih =>
      intro h x' f' r' he
      exact ih _ _ (h.2 _ _ (by cases w <;> simp [hGd x h.1, (hG0 x h.1).1.1])) x' f' r' he
  obtain ⟨k1, k3, k2⟩ := key
  cases hp : play (klObjective env.map env.density env.train) G (alg start) with
  | some r =>
    obtain ⟨x, f, r⟩ := r
    obtain ⟨hxl, hr⟩ := hstop _ ho x f r hp
    rw [hp] at k2
    simp only at k2 ⊢
    refine ⟨?_, hxl⟩
    rw [trainMap]
    simp only [halg, hsc]
    rw [if_neg (by simpa using hsl)]
    rw [show optimize env (alg start) 0 start = ((optimize env (alg start) 0 start).1, .ok (x, f, r)) from Prod.ext rfl k2]
    simp only [hxl, if_true]
    have : ∃ s, Res.idx successCodes r = .ok s := by
      have : r < successCodes.length := by simp [successCodes]; omega
      exact ⟨_, Res.idx_some (List.getElem?_eq_getElem this)⟩
    obtain ⟨s, hs⟩ := this
    rw [hs]
    simp
  | none =>
    rw [hp] at k2
    simp only at k2 ⊢
    rw [trainMap]
    simp only [halg, hsc]
    rw [if_neg (by simpa using hsl)]
    rw [show optimize env (alg start) 0 start = (lastAsked (klObjective env.map env.density env.train) G start (alg start), .throw) from
      Prod.ext k3 k2]
    exact ⟨rfl, k1⟩

theorem answers_value {F : List ℝ → ℝ} {G : List ℝ → List ℝ} (o : Opt) : ∀ y w, (y, w) ∈ answers F G o → w = F y := by
  induction o with
  | stop => intro y w h; simp [answers] at h
  | fail => intro y w h; simp [answers] at h
  | query x wg next ih =>
    intro y w h
    rw [answers, List.mem_cons] at h
    rcases h with h | h
    · simp only [Prod.mk.injEq] at h; obtain ⟨rfl, rfl⟩ := h; rfl
    · exact ih _ _ y w h

/-- **C68.** With an optimiser that returns the best point it has seen, the result of `TrainMap` is the training error of the map as it is left, and it is
not larger than the training error of the map with the coefficients the training started from. -/
theorem C68_improves_partial (hdim : env.map.outputDim = env.density.dim) (hE : Evaluates env.map) (hL : HasLogDet env.map) (hJ : LogDetIsJacobian env.map)
    (hDm : Differentiates env.map) (hDL : DifferentiatesLogDet env.map) (hD : HasDensity env.density) (hDd : DifferentiatesDensity env.density)
    (hx : ∀ x ∈ env.train, x.length = env.map.inputDim) (hne : env.train ≠ []) (hn : env.map.numCoeffs ≠ 0)
    (hsplit : ∀ k, (env.split k).indices.Perm (List.range env.train.length)) (hgar : ∀ k, (env.garbage k).length = env.map.numCoeffs)
    {alg : List ℝ → Opt} (halg : env.alg = some alg) {cur start : List ℝ}
    (hstart : cur.length = env.map.numCoeffs ∧ start = cur ∨ cur = [] ∧ start = List.replicate env.map.numCoeffs 1)
    (ho : HasDim env.map.numCoeffs (alg start)) (hs : env.strict = false ∨ UsesGradient (alg start))
    (hbest : ∀ G, ReturnsBest (klObjective env.map env.density env.train) G start (alg start)) {x : List ℝ} {e : Option ℝ}
    (hr : trainMap env cur = (x, .ok e)) :
    KL.objective env.map env.density x env.train = .ok e ∧
    ∃ e0 e1, KL.objective env.map env.density start env.train = .ok (some e0) ∧ e = some e1 ∧ e1 ≤ e0 := by
  obtain ⟨G, -, h⟩ := C68_train_partial hdim hE hL hJ hDm hDL hD hDd hx hne hn hsplit hgar halg hstart ho hs
  have hsl : start.length = env.map.numCoeffs := by
    rcases hstart with ⟨h1, rfl⟩ | ⟨-, rfl⟩
    · exact h1
    · simp
  cases hp : play (klObjective env.map env.density env.train) G (alg start) with
  | some r =>
    obtain ⟨x', f', r'⟩ := r
    rw [hp] at h
    simp only at h
    rw [hr] at h
    obtain ⟨h, hxl⟩ := h
    obtain ⟨rfl, he⟩ := Prod.mk.inj h
    obtain rfl := Res.ok.inj he
    obtain ⟨v, rfl, h1, ⟨w, h2⟩, h3⟩ := hbest G x _ r' hp
    have hv := answers_value _ _ _ h1
    have hw := answers_value _ _ _ h2
    refine ⟨by rw [C54_value hdim hE hL hJ hD hxl hx hne, hv], _, v, C54_value hdim hE hL hJ hD hsl hx hne, rfl, ?_⟩
    rw [← hw]; exact h3 _ _ h2
  | none =>
    rw [hp] at h
    simp only at h
    rw [hr] at h
    exact absurd (congrArg Prod.snd h.1) (by simp)

/-- **C68.** An unknown algorithm, or coefficients of the wrong length (`Coeffs() = v`), make `TrainMap` throw before the optimiser starts; the coefficients
of the map are then what it would have started from. -/
theorem C68_rejects (env : Env) (cur : List ℝ) (h : env.alg = none ∨ cur ≠ [] ∧ cur.length ≠ env.map.numCoeffs) :
    trainMap env cur = (if cur = [] then List.replicate env.map.numCoeffs 1 else cur, .throw) := by
  rw [trainMap]
  rcases h with h | ⟨h1, h2⟩
  · simp only [h, startCoeffs]
    by_cases hc : cur = [] <;> simp [hc]
  · have hl : cur.length ≠ 0 := by simpa using h1
    simp only [startCoeffs, hl, if_false]
    cases env.alg <;> simp [h1, h2]

/-- **C68 fails as C++ for algorithms without derivatives.** When an optimiser asks for a value without the gradient, as derivative-free
algorithms of NLopt do, the objective refers to an entry of the array behind a null pointer. -/
theorem C68_fails_no_gradient (env : Env) (hs : env.strict = true) {x : List ℝ} {next : Option ℝ → List ℝ → Opt} {alg : List ℝ → Opt}
    (halg : env.alg = some alg) {cur : List ℝ} (hc : cur.length = env.map.numCoeffs) (hn : cur ≠ []) (ho : alg cur = .query x false next) :
    (trainMap env cur).2 = .ub := by
  rw [trainMap]
  have hl : cur.length ≠ 0 := by simpa using hn
  simp only [startCoeffs, hl, if_false, halg]
  rw [if_neg (by simpa using hc), ho, optimize]
  simp [answer, hs]

/-- A step of gradient descent that is only accepted if it helps. -/
noncomputable def descent (x0 : List ℝ) : Opt :=
  .query x0 true fun v g => .query (List.zipWith (· - ·) x0 g) true fun v' _ =>
    match v, v' with
    | some a, some b => if b ≤ a then .stop (List.zipWith (· - ·) x0 g) v' 1 else .stop x0 v 1
    | _, _ => .fail

theorem descent_hasDim {n : Nat} {x0 : List ℝ} (h : x0.length = n) : HasDim n (descent x0) := by
  refine ⟨h, fun v g hg => ⟨?_, fun v' g' hg' => ?_⟩⟩
  · simp at hg; simp [h, hg]
  · simp only [if_true] at hg
    cases v with
    | none => trivial
    | some a =>
      cases v' with
      | none => trivial
      | some b =>
        simp only
        split_ifs
        · exact ⟨by simp [h, hg], by omega⟩
        · exact ⟨h, by omega⟩

theorem descent_usesGradient (x0 : List ℝ) : UsesGradient (descent x0) := by
  refine ⟨rfl, fun v g => ⟨rfl, fun v' g' => ?_⟩⟩
  cases v with
  | none => trivial
  | some a =>
    cases v' with
    | none => trivial
    | some b => simp only; split_ifs <;> trivial

theorem descent_best (F : List ℝ → ℝ) (G : List ℝ → List ℝ) (x0 : List ℝ) : ReturnsBest F G x0 (descent x0) := by
  intro x f r h
  rw [descent] at h ⊢
  simp only [play, answers, if_true] at h ⊢
  split_ifs at h ⊢ with hle
  · simp only [play, Option.some.injEq, Prod.mk.injEq] at h
    obtain ⟨rfl, rfl, rfl⟩ := h
    refine ⟨_, rfl, by simp, ⟨F x0, by simp⟩, fun y w hy => ?_⟩
    simp [answers] at hy
    rcases hy with ⟨rfl, rfl⟩ | ⟨rfl, rfl⟩
    · exact hle
    · exact le_rfl
  · simp only [play, Option.some.injEq, Prod.mk.injEq] at h
    obtain ⟨rfl, rfl, rfl⟩ := h
    refine ⟨_, rfl, by simp, ⟨F x0, by simp⟩, fun y w hy => ?_⟩
    simp [answers] at hy
    rcases hy with ⟨rfl, rfl⟩ | ⟨rfl, rfl⟩
    · exact le_rfl
    · exact (not_le.1 hle).le

/-- The arguments of the example: the map `exp(a) sinh(x)`, the standard normal distribution, three samples. -/
noncomputable def exampleEnv : Env where
  map := bend
  density := std1
  train := [[1], [2], [-3]]
  alg := some descent
  verbose := true
  strict := true
  split := fun _ => .join (.chunk [2]) (.andThen (.chunk []) [0, 1])
  garbage := fun k => [k]

/-- Non-vacuity: gradient descent on the map `exp(a) sinh(x)`, from coefficients that were not set. -/
theorem exampleEnv_trained : ∃ x e, trainMap exampleEnv [] = (x, .ok (some e)) ∧ KL.objective bend std1 x [[1], [2], [-3]] = .ok (some e) ∧
    e ≤ klObjective bend std1 [[1], [2], [-3]] [1] := by
  have hd := C53_density (.dim 1)
  have hx : ∀ x ∈ exampleEnv.train, x.length = exampleEnv.map.inputDim := by
    intro x hx; simp [exampleEnv] at hx; rcases hx with rfl | rfl | rfl <;> rfl
  have hsp : ∀ k, (exampleEnv.split k).indices.Perm (List.range exampleEnv.train.length) := fun k => by
    change ([2] ++ ([] ++ [0, 1]) : List Nat).Perm [0, 1, 2]; decide
  have h1 := C68_train_partial (env := exampleEnv) rfl bend_evaluates bend_hasLogDet bend_jacobian bend_differentiates bend_differentiatesLogDet
    hd.2.1 hd.2.2.1 hx (by simp [exampleEnv]) (by decide) hsp (fun k => rfl) (alg := descent) rfl (cur := []) (.inr ⟨rfl, rfl⟩)
    (descent_hasDim rfl) (.inr (descent_usesGradient _))
  obtain ⟨G, -, h1⟩ := h1
  cases hp : play (klObjective exampleEnv.map exampleEnv.density exampleEnv.train) G (descent (List.replicate exampleEnv.map.numCoeffs 1)) with
  | none =>
    rw [descent] at hp
    simp only [play] at hp
    split_ifs at hp <;> simp [play] at hp
  | some r =>
    obtain ⟨x, f, r⟩ := r
    rw [hp] at h1
    have h2 := C68_improves_partial (env := exampleEnv) rfl bend_evaluates bend_hasLogDet bend_jacobian bend_differentiates bend_differentiatesLogDet
      hd.2.1 hd.2.2.1 hx (by simp [exampleEnv]) (by decide) hsp (fun k => rfl) (alg := descent) rfl (cur := []) (.inr ⟨rfl, rfl⟩)
      (descent_hasDim rfl) (.inr (descent_usesGradient _)) (fun G => descent_best _ G _) h1.1
    obtain ⟨h3, e0, e1, h4, rfl, h5⟩ := h2
    refine ⟨x, e1, h1.1, h3, ?_⟩
    have h6 := C54_value (m := bend) (d := std1) (c := [1]) (data := [[1], [2], [-3]]) rfl bend_evaluates bend_hasLogDet bend_jacobian hd.2.1 rfl hx (by simp)
    have h4' : KL.objective bend std1 [1] [[1], [2], [-3]] = .ok (some e0) := h4
    rw [h6] at h4'
    rw [Option.some.inj (Res.ok.inj h4')]
    exact h5

/-! ### The objective with a standard normal reference -/

/-- **C69.** `CreateGaussianKLObjective(train, dim)`: the training error of a map with `n` outputs, where `n` is `dim` or, by default, the number of rows of
the training set, is the average over the samples of `|T(x)|²/2 + n log(2π)/2 - log|det ∇T(x)|`. -/
theorem C69_value {m : CMap} {rows dim n : Nat} (hn : n = if dim = 0 then rows else dim) (hout : m.outputDim = n) (hE : Evaluates m) (hL : HasLogDet m)
    (hJ : LogDetIsJacobian m) {c : List ℝ} (hc : c.length = m.numCoeffs) {train : List (List ℝ)} (hx : ∀ x ∈ train, x.length = m.inputDim)
    (hne : train ≠ []) :
    KL.objective m (gaussianKLDensity rows dim) c train = .ok (some ((train.map fun x =>
      (∑ i ∈ Finset.range n, (fn m c x).getD i 0 ^ 2) / 2 + n * Real.log (2 * Real.pi) / 2 - Real.log |(jacobian m c x).det|).sum / train.length)) := by
  subst hn
  obtain ⟨hd1, hd2, -, hd4⟩ := C53_density (.dim (if dim = 0 then rows else dim))
  rw [gaussianKLDensity, C54_value (hout.trans hd1.symm) hE hL hJ hd2 hc hx hne]
  congr 2
  rw [klObjective, ← neg_div]
  congr 1
  have hpt : ∀ x ∈ train, (fun x => (∑ i ∈ Finset.range (if dim = 0 then rows else dim), (fn m c x).getD i 0 ^ 2) / 2
      + (if dim = 0 then rows else dim : Nat) * Real.log (2 * Real.pi) / 2 - Real.log |(jacobian m c x).det|) x
      = -pulledBack m (Gaussian.ofDim (if dim = 0 then rows else dim)).density c x := by
    intro x hxm
    have hl : (fn m c x).length = if dim = 0 then rows else dim := by rw [(hE c x ⟨hc, hx x hxm⟩).1, hout]
    rw [pulledBack, hd4 _ hl, normalLogDensity]
    have hq : (∑ i, ∑ j, (colVec (if dim = 0 then rows else dim) (fn m c x) i - 0)
        * (1 : Matrix (Fin (if dim = 0 then rows else dim)) (Fin (if dim = 0 then rows else dim)) ℝ)⁻¹ i j
        * (colVec (if dim = 0 then rows else dim) (fn m c x) j - 0)) = ∑ i ∈ Finset.range (if dim = 0 then rows else dim), (fn m c x).getD i 0 ^ 2 := by
      rw [Finset.sum_range fun i => (fn m c x).getD i 0 ^ 2]
      refine Finset.sum_congr rfl fun i _ => ?_
      rw [inv_one, Finset.sum_eq_single i]
      · simp only [Matrix.one_apply_eq, sub_zero, mul_one, colVec]; ring
      · intro j _ hj; rw [Matrix.one_apply_ne (Ne.symm hj)]; ring
      · intro h; exact absurd (Finset.mem_univ i) h
    rw [hq, Matrix.det_one, Real.log_one]
    ring
  rw [List.map_congr_left hpt]
  clear hpt hx hne
  induction train with
  | nil => simp
  | cons x xs ih => simp only [List.map_cons, List.sum_cons, neg_add, ih]

/-- **C69.** With a map that has another number of outputs the objective throws. -/
theorem C69_dimension {m : CMap} {rows dim : Nat} (hout : m.outputDim ≠ if dim = 0 then rows else dim) (c : List ℝ) (data : List (List ℝ)) :
    KL.objective m (gaussianKLDensity rows dim) c data = .throw := by
  have := (C52_dimensions (m := m) (d := gaussianKLDensity rows dim) c).2.1.2 (by simpa [gaussianKLDensity, Gaussian.density, Gaussian.ofDim] using hout)
  rw [KL.objective, this]
  rfl

/-- Non-vacuity: the map `exp(a) sinh(x)` with `a = 2` and two samples, default dimension. -/
example : KL.objective bend (gaussianKLDensity 1 0) [2] [[1], [-3]] = .ok (some (([[1], [-3]].map fun x =>
    (∑ i ∈ Finset.range 1, (fn bend [2] x).getD i 0 ^ 2) / 2 + (1 : Nat) * Real.log (2 * Real.pi) / 2 - Real.log |(jacobian bend [2] x).det|).sum / 2)) := by
  have := C69_value (m := bend) (rows := 1) (dim := 0) (n := 1) rfl rfl bend_evaluates bend_hasLogDet bend_jacobian (c := [2]) rfl (train := [[1], [-3]])
    (by intro x hx; simp at hx; rcases hx with rfl | rfl <;> rfl) (by simp)
  simpa using this

end MParT
