import Verif.Model.Samplers
import Verif.Props.Gaussian
import Verif.Props.Densities
/-!
# Property C75: after `SetSeed` samples are reproducible
-/
namespace MParT
namespace Samplers

/-- The Gaussian at the end of the chain. -/
def Sampler.root : Sampler → Nat
  | .gaussian _ loc => loc
  | .pullback _ _ ref _ => ref.root
  | .pushforward _ _ ref _ => ref.root

/-- The objects a sampler consists of: itself and those it refers to. -/
def Sampler.locs : Sampler → List Nat
  | .gaussian _ loc => [loc]
  | .pullback _ _ ref loc => loc :: ref.locs
  | .pushforward _ _ ref loc => loc :: ref.locs

/-- What a program does after the seed was set: `inl` is `Sample` of the sampler observed, `inr` any call on any sampler. -/
abbrev History := List ((Nat × Sched) ⊕ Call)

/-- The results of the calls of `Sample` observed. -/
noncomputable def outputs {P : Type} (rng : Rng P) (s : Sampler) : History → Store P → List (Res (List (List ℝ)))
  | [], _ => []
  | .inl (n, sched) :: rest, σ => (sample rng n sched s σ).2 :: outputs rng s rest (sample rng n sched s σ).1
  | .inr call :: rest, σ => outputs rng s rest (call.run rng σ)

/-- The calls of `Sample` observed. -/
def own (h : History) : List (Nat × Sched) := h.filterMap fun
  | .inl x => some x
  | .inr _ => none

theorem draw_congr {P : Type} (rng : Rng P) (loc : Nat) (sched : Sched) : ∀ {σ τ : Store P} (out : Nat → Nat → ℝ), σ loc = τ loc →
    (draw rng loc sched σ out).1 loc = (draw rng loc sched τ out).1 loc ∧ (draw rng loc sched σ out).2 = (draw rng loc sched τ out).2 := by
  induction sched with
  | nil => intro σ τ out h; exact ⟨h, rfl⟩
  | cons x rest ih =>
    intro σ τ out h
    obtain ⟨i, j, t⟩ := x
    simp only [draw]
    rw [h]
    exact ih _ (funext fun u => by simp [setState, h])

theorem draw_frame {P : Type} (rng : Rng P) {loc l : Nat} (hl : l ≠ loc) (sched : Sched) : ∀ (σ : Store P) (out : Nat → Nat → ℝ),
    (draw rng loc sched σ out).1 l = σ l := by
  induction sched with
  | nil => intro σ out; rfl
  | cons x rest ih =>
    intro σ out
    obtain ⟨i, j, t⟩ := x
    simp only [draw]
    rw [ih]
    funext u
    simp [setState, hl]

theorem sample_congr {P : Type} (rng : Rng P) (n : Nat) (sched : Sched) (s : Sampler) {σ τ : Store P} (h : σ s.root = τ s.root) :
    (sample rng n sched s σ).1 s.root = (sample rng n sched s τ).1 s.root ∧ (sample rng n sched s σ).2 = (sample rng n sched s τ).2 := by
  induction s with
  | gaussian g loc =>
    simp only [sample]
    split
    · exact ⟨h, rfl⟩
    · obtain ⟨h1, h2⟩ := draw_congr rng loc sched (fun _ _ => 0) h
      exact ⟨h1, by rw [h2]⟩
  | pullback m c ref loc ih =>
    obtain ⟨h1, h2⟩ := ih h
    exact ⟨h1, by simp only [sample, h2]⟩
  | pushforward m c ref loc ih =>
    obtain ⟨h1, h2⟩ := ih h
    exact ⟨h1, by simp only [sample, h2]⟩

theorem sample_frame {P : Type} (rng : Rng P) (n : Nat) (sched : Sched) (s : Sampler) {l : Nat} (hl : l ∉ s.locs) (σ : Store P) :
    (sample rng n sched s σ).1 l = σ l := by
  induction s with
  | gaussian g loc =>
    simp only [sample]
    split
    · rfl
    · exact draw_frame rng (by simpa [Sampler.locs] using hl) sched σ _
  | pullback m c ref loc ih => exact ih (by simp [Sampler.locs] at hl; exact hl.2)
  | pushforward m c ref loc ih => exact ih (by simp [Sampler.locs] at hl; exact hl.2)

theorem reseed_frame {P : Type} (rng : Rng P) {loc l : Nat} (hl : l ≠ loc) (seed : Nat) (σ : Store P) : reseed rng loc seed σ l = σ l := by
  funext u; simp [reseed, hl]

theorem setSeed_frame {P : Type} (rng : Rng P) (seed : Nat) (s : Sampler) {l : Nat} (hl : l ∉ s.locs) : ∀ σ : Store P,
    setSeed rng seed s σ l = σ l := by
  induction s with
  | gaussian g loc => exact reseed_frame rng (by simpa [Sampler.locs] using hl) seed
  | pullback m c ref loc ih =>
    intro σ
    simp only [Sampler.locs, List.mem_cons, not_or] at hl
    rw [setSeed, ih hl.2, reseed_frame rng hl.1]
  | pushforward m c ref loc ih =>
    intro σ
    simp only [Sampler.locs, List.mem_cons, not_or] at hl
    rw [setSeed, ih hl.2, reseed_frame rng hl.1]

theorem setSeed_root {P : Type} (rng : Rng P) (seed : Nat) (s : Sampler) : ∀ σ : Store P, setSeed rng seed s σ s.root = rng.init seed := by
  induction s with
  | gaussian g loc => intro σ; funext u; simp [setSeed, reseed, Sampler.root]
  | pullback m c ref loc ih => intro σ; exact ih _
  | pushforward m c ref loc ih => intro σ; exact ih _

theorem outputs_own {P : Type} (rng : Rng P) (s : Sampler) (h : History) :
    ∀ {σ τ : Store P}, σ s.root = τ s.root → (∀ call, .inr call ∈ h → s.root ∉ call.on.locs) →
    outputs rng s h σ = outputs rng s ((own h).map .inl) τ := by
  induction h with
  | nil => intros; rfl
  | cons x rest ih =>
    intro σ τ e hf
    have hf' : ∀ call, Sum.inr call ∈ rest → s.root ∉ call.on.locs := fun call hc => hf call (by simp [hc])
    cases x with
    | inl x =>
      obtain ⟨n, sched⟩ := x
      obtain ⟨h1, h2⟩ := sample_congr rng n sched s e
      have : own (.inl (n, sched) :: rest) = (n, sched) :: own rest := rfl
      rw [this, List.map_cons, outputs, outputs, h2, ih h1 hf']
    | inr call =>
      have : own (.inr call :: rest) = own rest := rfl
      rw [this, outputs]
      refine ih ?_ hf'
      have hc := hf call (by simp)
      cases call with
      | setSeed t seed => rw [Call.run, setSeed_frame rng seed t hc, e]
      | sample t n sched => rw [Call.run, sample_frame rng n sched t hc, e]

/-- **C75.** After `SetSeed(seed)` the results of a sequence of calls of `Sample` depend only on the sampler, the seed, the numbers of
samples and the schedules: neither on what happened before (`σ`, `σ'`) nor on the calls made in between on samplers that do not
contain the same Gaussian object.  In particular `SetSeed` of a transport sampler seeds the sampler it refers to. -/
theorem C75_reproducible_partial {P : Type} (rng : Rng P) (s : Sampler) (seed : Nat) (σ σ' : Store P) (h h' : History)
    (hf : ∀ call, .inr call ∈ h → s.root ∉ call.on.locs) (hf' : ∀ call, .inr call ∈ h' → s.root ∉ call.on.locs) (e : own h = own h') :
    outputs rng s h (setSeed rng seed s σ) = outputs rng s h' (setSeed rng seed s σ') := by
  have hr : setSeed rng seed s σ s.root = setSeed rng seed s σ' s.root := by rw [setSeed_root, setSeed_root]
  rw [outputs_own rng s h (τ := setSeed rng seed s σ') hr hf, outputs_own rng s h' rfl hf', e]

/-- A generator that counts: the seed plus one hundred times the thread, plus the number of draws. -/
def counter : Rng ℕ where
  init seed t := seed + 100 * t
  normal p := ((p : ℝ), p + 1)

/-- The standard normal of dimension one. -/
def std : Sampler := .gaussian (Gaussian.ofDim 1) 0

theorem sample_std (σ : Store ℕ) (sched : Sched) : sample counter 1 sched std σ =
    ((draw counter 0 sched σ fun _ _ => 0).1, .ok [[(draw counter 0 sched σ fun _ _ => 0).2 0 0]]) := by
  simp [sample, std, Gaussian.ofDim, Gaussian.sample, Gaussian.sampleImpl, drawn, colVec]

/-- **C75** fails for two samplers with the same reference object: a call on one changes the samples of the other. -/
theorem C75_fails_shared (σ : Store ℕ) (m : CMap) (c : List ℝ) :
    outputs counter std [.inl (1, [(0, 0, 0)])] (setSeed counter 7 std σ) ≠
    outputs counter std [.inr (.sample (.pushforward m c std 1) 1 [(0, 0, 0)]), .inl (1, [(0, 0, 0)])] (setSeed counter 7 std σ) := by
  simp only [outputs, Call.run, sample, sample_std]
  simp [draw, setSeed, std, reseed, counter, setState]

/-- **C75** fails when the schedule changes: another thread takes another generator from the pool. -/
theorem C75_fails_schedule (σ : Store ℕ) :
    outputs counter std [.inl (1, [(0, 0, 0)])] (setSeed counter 7 std σ) ≠
    outputs counter std [.inl (1, [(0, 0, 1)])] (setSeed counter 7 std σ) := by
  simp only [outputs, sample_std]
  simp [draw, setSeed, std, reseed, counter]

theorem outputs_gaussian {P : Type} (rng : Rng P) (g : Gaussian) {a b : Nat} (l : List (Nat × Sched)) : ∀ {σ τ : Store P}, σ a = τ b →
    outputs rng (.gaussian g a) (l.map .inl) σ = outputs rng (.gaussian g b) (l.map .inl) τ := by
  have hd : ∀ (sched : Sched) {σ τ : Store P} (out : Nat → Nat → ℝ), σ a = τ b →
      (draw rng a sched σ out).1 a = (draw rng b sched τ out).1 b ∧ (draw rng a sched σ out).2 = (draw rng b sched τ out).2 := by
    intro sched
    induction sched with
    | nil => intro σ τ out h; exact ⟨h, rfl⟩
    | cons x rest ih =>
      intro σ τ out h
      obtain ⟨i, j, t⟩ := x
      simp only [draw]
      rw [h]
      exact ih _ (funext fun u => by simp [setState, h])
  induction l with
  | nil => intros; rfl
  | cons x rest ih =>
    intro σ τ e
    obtain ⟨n, sched⟩ := x
    rw [List.map_cons, outputs, outputs]
    simp only [sample]
    split
    · rw [ih e]
    · obtain ⟨h1, h2⟩ := hd sched (fun _ _ => 0) e
      rw [h2, ih h1]

/-- Samplers are not independent by default: two Gaussians that are created in the same second, and not seeded, return the same samples
(on the same schedules). -/
theorem C75_fails_same_second {P : Type} (rng : Rng P) (g : Gaussian) {a b : Nat} (hab : a ≠ b) (time : Nat) (σ : Store P)
    (calls : List (Nat × Sched)) :
    let first := newGaussian rng g a time σ
    let second := newGaussian rng g b time first.2
    outputs rng first.1 (calls.map .inl) second.2 = outputs rng second.1 (calls.map .inl) second.2 := by
  refine outputs_gaussian rng g calls ?_
  funext u
  simp [newGaussian, reseed, hab]

/-- **C75.** A new Gaussian gives the samples of one that was seeded with the time it was made at, until it is seeded again. -/
theorem C75_new {P : Type} (rng : Rng P) (g : Gaussian) (loc time : Nat) (σ : Store P) (calls : List (Nat × Sched)) :
    outputs rng (newGaussian rng g loc time σ).1 (calls.map .inl) (newGaussian rng g loc time σ).2 =
      outputs rng (.gaussian g loc) (calls.map .inl) (setSeed rng time (.gaussian g loc) σ) := rfl

/-- **C75.** A Gaussian with a covariance matrix that refuses to draw samples does not use up random numbers: later samples are as if it had not been
asked. -/
theorem C75_refused {P : Type} (rng : Rng P) (g : Gaussian) (loc n : Nat) (sched : Sched) (σ : Store P) (hg : g.chol.isSome)
    (h : (sample rng n sched (.gaussian g loc) σ).2 = .throw) : (sample rng n sched (.gaussian g loc) σ).1 = σ := by
  rw [sample] at h ⊢
  split
  · rfl
  · rename_i hn
    rw [if_neg hn] at h
    exfalso
    simp only [Gaussian.sample, Gaussian.sampleImpl] at h
    obtain ⟨L, hL⟩ := Option.isSome_iff_exists.1 hg
    rw [if_neg, hL] at h
    · have hlen : (drawn g.dim n (draw rng loc sched σ fun _ _ => 0).2).length = n := by simp [drawn]
      rw [hlen] at h
      cases ht : (Layout.right g.dim n).toLeft with
      | ok u => rw [ht] at h; cases h
      | throw => exact hn ⟨hg, ht⟩
      | ub => rw [Layout.toLeft] at ht; split at ht <;> cases ht
    · simp [drawn]

/-- The hypotheses are met by a Gaussian in two dimensions. -/
example (σ : Store ℕ) : (sample counter 3 [] (.gaussian ⟨2, none, some 1, 0⟩ 0) σ).2 = .throw := by
  rw [sample, if_pos ⟨rfl, by rw [Layout.toLeft, if_neg]; rintro ⟨h, _⟩; simp [Layout.right] at h⟩]

/-- **C75.** `Distribution(sampler, density)` throws exactly if the dimensions differ; the default pairs of the library fit. -/
theorem C75_distribution (s : Sampler) (d : Density) :
    (distribution s d = .ok (s, d) ↔ s.dim = d.dim) ∧ (s.dim ≠ d.dim → distribution s d = .throw) ∧
    (∀ (g : Gaussian) (loc : Nat), distribution (.gaussian g loc) g.density = .ok (.gaussian g loc, g.density)) := by
  refine ⟨?_, fun h => if_pos h, fun g loc => if_neg (by simp [Sampler.dim, Gaussian.density])⟩
  unfold distribution
  by_cases h : s.dim = d.dim <;> simp [h]

/-- The hypotheses are met: another sampler is used in between. -/
example (m : CMap) (c : List ℝ) (σ σ' : Store ℕ) :
    outputs counter (.pushforward m c std 1) [.inl (2, [(0, 0, 0), (0, 1, 0)]), .inl (1, [(0, 0, 0)])] (setSeed counter 7 (.pushforward m c std 1) σ) =
    outputs counter (.pushforward m c std 1) [.inl (2, [(0, 0, 0), (0, 1, 0)]), .inr (.sample (.gaussian (Gaussian.ofDim 3) 2) 5 []),
      .inr (.setSeed (.gaussian (Gaussian.ofDim 3) 2) 4), .inl (1, [(0, 0, 0)])] (setSeed counter 7 (.pushforward m c std 1) σ') := by
  refine C75_reproducible_partial _ _ _ _ _ _ _ ?_ ?_ rfl <;> simp [Call.on, Sampler.locs, Sampler.root, std]

/-! ### What the samples are -/

/-- Samplers within the documented use: the Gaussian has no covariance matrix (with one, `Sample` throws: C53), all maps are square, of
its dimension, and meet the contract of `Evaluate` and `Inverse`. -/
def Sampler.Fits : Sampler → Prop
  | .gaussian g _ => g.chol = none
  | .pullback m c ref _ => ref.Fits ∧ m.inputDim = ref.dim ∧ m.outputDim = ref.dim ∧ c.length = m.numCoeffs ∧ Spec.InvertsFrom m 0
  | .pushforward m c ref _ => ref.Fits ∧ m.inputDim = ref.dim ∧ m.outputDim = ref.dim ∧ c.length = m.numCoeffs ∧ Spec.Evaluates m

/-- `x` is the sample made of the standard normal draws `z`: draws are shifted by the mean, pushed through the map of a pushforward,
and pulled back through the map of a pullback. -/
inductive Sampler.Makes (z : List ℝ) : Sampler → List ℝ → Prop
  | standard {g : Gaussian} {loc : Nat} : g.mean = none → Makes z (.gaussian g loc) z
  | shifted {g : Gaussian} {loc : Nat} {mean : Fin g.dim → ℝ} {x : List ℝ} : g.mean = some mean → x.length = g.dim →
      (∀ i : Fin g.dim, x[(i : Nat)]? = some (z.getD i 0 + mean i)) → Makes z (.gaussian g loc) x
  | pushforward {m : CMap} {c y : List ℝ} {ref : Sampler} {loc : Nat} : Makes z ref y →
      Makes z (.pushforward m c ref loc) (Spec.fn m c y)
  | pullback {m : CMap} {c x y : List ℝ} {ref : Sampler} {loc : Nat} : Makes z ref y → Spec.fn m c x = y →
      Makes z (.pullback m c ref loc) x

/-- The dimension of the Gaussian at the end of the chain. -/
def Sampler.gaussianDim : Sampler → Nat
  | .gaussian g _ => g.dim
  | .pullback _ _ ref _ => ref.gaussianDim
  | .pushforward _ _ ref _ => ref.gaussianDim

theorem columns_ok {f : List ℝ → Res (List ℝ)} {Q R : List ℝ → List ℝ → Prop} {zs ys : List (List ℝ)}
    (h : List.Forall₂ Q zs ys) (hf : ∀ z y, Q z y → ∃ x, f y = .ok x ∧ R z x) :
    ∃ xs, KL.columns f ys = .ok xs ∧ List.Forall₂ R zs xs := by
  induction h with
  | nil => exact ⟨[], rfl, .nil⟩
  | cons hq _ ih =>
    obtain ⟨x, e, r⟩ := hf _ _ hq
    obtain ⟨xs, e', r'⟩ := ih
    exact ⟨x :: xs, by rw [KL.columns, e, Res.bind_ok, e', Res.bind_ok], .cons r r'⟩

/-- **C75.** `Sample(n)` returns `n` columns of length `Dim()`, which is that of the Gaussian; column `j` is the transported column
`j` of the standard normal draws of the generators of this Gaussian. -/
theorem C75_sample {P : Type} (rng : Rng P) (n : Nat) (sched : Sched) (s : Sampler) (hs : s.Fits) (σ : Store P) :
    s.dim = s.gaussianDim ∧ (sample rng n sched s σ).1 = (draw rng s.root sched σ fun _ _ => 0).1 ∧
    ∃ xs, (sample rng n sched s σ).2 = .ok xs ∧
      List.Forall₂ (fun z x => x.length = s.dim ∧ s.Makes z x)
        (drawn s.gaussianDim n (draw rng s.root sched σ fun _ _ => 0).2) xs := by
  induction s with
  | gaussian g loc =>
    have hc : g.chol = none := hs
    refine ⟨rfl, ?_, ?_⟩
    · rw [sample, if_neg (by simp [hc])]; rfl
    · rw [sample, if_neg (by simp [hc])]
      simp only [Gaussian.sample, Gaussian.sampleImpl]
      rw [if_neg (by simp [drawn]), hc]
      refine ⟨_, rfl, ?_⟩
      refine List.forall₂_map_right_iff.mpr (List.forall₂_same.mpr fun z hz => ?_)
      obtain ⟨j, -, rfl⟩ := List.mem_map.mp hz
      refine ⟨by simp [Sampler.dim], ?_⟩
      cases hm : g.mean with
      | none =>
        convert Sampler.Makes.standard hm using 1
        refine List.ext_getElem (by simp [Sampler.gaussianDim]) fun i h1 h2 => ?_
        simp only [List.length_map, List.length_range, Sampler.gaussianDim] at h2
        simp [colVec, Sampler.gaussianDim, h2]
      | some mean =>
        refine Sampler.Makes.shifted hm (by simp) fun i => ?_
        simp [colVec]
  | pullback m c ref loc ih =>
    obtain ⟨h1, h2, h3, h4, h5⟩ := hs
    obtain ⟨i1, i2, ys, i3, i4⟩ := ih h1
    refine ⟨i1, i2, ?_⟩
    simp only [sample, i3, Res.bind_ok]
    refine columns_ok i4 fun z y ⟨q1, q2⟩ => ?_
    rw [Pullback.sample, if_neg (by omega), if_neg (by omega)]
    obtain ⟨x, e, e1, e2, -⟩ := h5 c [] y h4 rfl (by omega) (List.replicate ref.dim 0) (by simp [h3])
    refine ⟨x, e, by rw [e1, h3]; rfl, .pullback q2 ?_⟩
    simpa using e2
  | pushforward m c ref loc ih =>
    obtain ⟨h1, h2, h3, h4, h5⟩ := hs
    obtain ⟨i1, i2, ys, i3, i4⟩ := ih h1
    refine ⟨i1, i2, ?_⟩
    simp only [sample, i3, Res.bind_ok]
    refine columns_ok i4 fun z y ⟨q1, q2⟩ => ?_
    rw [Pushforward.sample, if_neg (by omega), if_neg (by omega)]
    obtain ⟨e1, e2⟩ := h5 c y ⟨h4, by omega⟩
    exact ⟨_, e2 _ (by simp [h3]), by rw [e1, h3]; rfl, .pushforward q2⟩

/-- The number of draws of thread `t` in a schedule. -/
def draws (t : Nat) (sched : Sched) : Nat := (sched.filter fun x => x.2.2 == t).length

/-- The `k`-th draw after the state `p` of a generator. -/
def nth {P : Type} (rng : Rng P) (p : P) (k : Nat) : ℝ := (rng.normal ((fun q => (rng.normal q).2)^[k] p)).1

/-- **C75.** When no entry is filled twice, an entry filled by a thread that has made `k` draws before in this call is draw number `k`
of the generator of this thread; afterwards each generator has advanced by the number of its draws. -/
theorem C75_draws {P : Type} (rng : Rng P) (loc : Nat) (sched : Sched) (hn : (sched.map fun x => (x.1, x.2.1)).Nodup) (σ : Store P)
    (out : Nat → Nat → ℝ) :
    (∀ before after i j t, sched = before ++ (i, j, t) :: after →
      (draw rng loc sched σ out).2 i j = nth rng (σ loc t) (draws t before)) ∧
    (∀ i j, (∀ t, (i, j, t) ∉ sched) → (draw rng loc sched σ out).2 i j = out i j) ∧
    ∀ t, (draw rng loc sched σ out).1 loc t = (fun q => (rng.normal q).2)^[draws t sched] (σ loc t) := by
  induction sched generalizing σ out with
  | nil => exact ⟨fun b a i j t h => by simp at h, fun i j _ => rfl, fun t => rfl⟩
  | cons x rest ih =>
    obtain ⟨i₀, j₀, t₀⟩ := x
    rw [List.map_cons, List.nodup_cons] at hn
    obtain ⟨h1, h2, h3⟩ := ih hn.2 (setState σ loc t₀ (rng.normal (σ loc t₀)).2)
      (fun i' j' => if i' = i₀ ∧ j' = j₀ then (rng.normal (σ loc t₀)).1 else out i' j')
    refine ⟨fun before after i j t h => ?_, fun i j h => ?_, fun t => ?_⟩
    · cases before with
      | nil =>
        obtain ⟨he, rfl⟩ := List.cons.inj h
        simp only [Prod.mk.injEq] at he
        obtain ⟨rfl, rfl, rfl⟩ := he
        rw [draw, h2 _ _ fun t ht => hn.1 (List.mem_map.mpr ⟨_, ht, rfl⟩)]
        simp [nth, draws]
      | cons y before =>
        obtain ⟨rfl, rfl⟩ := List.cons.inj h
        rw [draw, h1 before after i j t rfl]
        by_cases e : t₀ = t
        · subst e
          simp [nth, draws, setState]
        · simp [nth, draws, setState, e, Ne.symm e]
    · rw [draw, h2 i j fun t ht => h t (List.mem_cons_of_mem _ ht), if_neg]
      rintro ⟨rfl, rfl⟩
      exact h t₀ List.mem_cons_self
    · rw [draw, h3]
      by_cases e : t₀ = t
      · subst e
        simp [draws, setState]
      · simp [draws, setState, e, Ne.symm e]

/-- The hypotheses are met: the pullback of the standard normal through a nonlinear map, drawn by two threads. -/
example (σ : Store ℕ) : (Sampler.pullback bend [3] std 1).Fits ∧
    ([(0, 0, 1), (0, 1, 0)].map fun x : Nat × Nat × Nat => (x.1, x.2.1)).Nodup := by
  refine ⟨⟨rfl, rfl, rfl, rfl, bend_inverts⟩, by decide⟩

end Samplers
end MParT
