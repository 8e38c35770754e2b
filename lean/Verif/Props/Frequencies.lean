import Verif.Props.Train
import Verif.Props.Regression
/-!
# C127: training sees the samples only through their frequencies
-/
namespace MParT
open Spec

/-- The same points occur in `a` and `b`, each with the same relative frequency. -/
def Spec.SameFrequencies (a b : List (List ℝ)) : Prop :=
  a ≠ [] ∧ b ≠ [] ∧ ∀ x, (a.count x : ℝ) / a.length = (b.count x : ℝ) / b.length

namespace Spec.SameFrequencies
variable {a b : List (List ℝ)}

theorem symm (h : SameFrequencies a b) : SameFrequencies b a := ⟨h.2.1, h.1, fun x => (h.2.2 x).symm⟩

theorem length_ne (h : SameFrequencies a b) : (a.length : ℝ) ≠ 0 := by simpa using h.1

theorem mem (h : SameFrequencies a b) {x : List ℝ} (hx : x ∈ a) : x ∈ b := by
  by_contra hb
  have := h.2.2 x
  rw [List.count_eq_zero_of_not_mem hb, Nat.cast_zero, zero_div, div_eq_zero_iff, or_iff_left h.length_ne] at this
  exact (List.count_pos_iff.2 hx).ne' (by exact_mod_cast this)

theorem mean (h : SameFrequencies a b) (g : List ℝ → ℝ) : (a.map g).sum / a.length = (b.map g).sum / b.length := by
  have e : a.toFinset = b.toFinset := by
    ext x; simp only [List.mem_toFinset]; exact ⟨h.mem, h.symm.mem⟩
  rw [Finset.sum_list_map_count, Finset.sum_list_map_count, e, Finset.sum_div, Finset.sum_div]
  refine Finset.sum_congr rfl fun x _ => ?_
  have hc : (@List.count _ instBEqOfDecidableEq x a : ℝ) / a.length = (@List.count _ instBEqOfDecidableEq x b : ℝ) / b.length := by
    convert h.2.2 x using 4 <;> exact lawful_beq_subsingleton _ _
  rw [nsmul_eq_mul, nsmul_eq_mul, mul_div_right_comm, hc, ← mul_div_right_comm]

/-- The order of the samples has no effect on their frequencies. -/
theorem of_perm (hne : a ≠ []) (h : a.Perm b) : SameFrequencies a b :=
  ⟨hne, fun hb => hne (by rw [hb] at h; exact h.eq_nil), fun x => by rw [h.count_eq, h.length_eq]⟩

/-- Nor has repeating all of them. -/
theorem repeated (hne : a ≠ []) {k : ℕ} (hk : k ≠ 0) : SameFrequencies a (List.replicate k a).flatten := by
  have hl : (a.length : ℝ) ≠ 0 := by simpa using hne
  have hk' : (k : ℝ) ≠ 0 := by exact_mod_cast hk
  have hc : ∀ x, (List.replicate k a).flatten.count x = k * a.count x := by
    intro x; simp [List.count_flatten]
  refine ⟨hne, ?_, fun x => ?_⟩
  · intro h
    have := congrArg List.length h
    simp at this
    tauto
  · rw [hc]
    simp only [List.length_flatten, List.map_replicate, List.sum_replicate, smul_eq_mul]
    push_cast
    field_simp

end Spec.SameFrequencies

namespace KL
variable {m : CMap} {d : Density} {a b : List (List ℝ)}

theorem columns_inv {α : Type} [Inhabited α] {f : List ℝ → Res α} : ∀ {data : List (List ℝ)} {ys : List α}, columns f data = .ok ys →
    (∀ x ∈ data, f x = .ok (value default (f x))) ∧ ys = data.map fun x => value default (f x)
  | [], ys, h => ⟨by simp, by cases h; rfl⟩
  | x :: xs, ys, h => by
    obtain ⟨y, hy, h⟩ := Res.bind_eq_ok.1 h
    obtain ⟨zs, hz, h⟩ := Res.bind_eq_ok.1 h
    obtain ⟨h1, h2⟩ := columns_inv hz
    cases h
    refine ⟨fun z hz => ?_, by rw [h2, List.map_cons, hy]; rfl⟩
    rcases List.mem_cons.1 hz with rfl | hz
    · rw [hy]; rfl
    · exact h1 z hz

/-- A kernel that succeeds on all samples of one set does so on another with the same points. -/
theorem columns_same {α : Type} [Inhabited α] {f : List ℝ → Res α} (h : SameFrequencies a b) {ys : List α} (hy : columns f a = .ok ys) :
    ys = a.map (fun x => value default (f x)) ∧ columns f b = .ok (b.map fun x => value default (f x)) :=
  ⟨(columns_inv hy).2, columns_ok fun x hx => (columns_inv hy).1 x (h.symm.mem hx)⟩

theorem sumNegative_none (l : List (Option ℝ)) (h : none ∈ l) : sumNegative l = none := by
  have h0 : ∀ l : List (Option ℝ), l.foldl subLD none = none := by
    intro l
    induction l with
    | nil => rfl
    | cons y ys ih => rw [List.foldl_cons]; exact ih
  have : ∀ (l : List (Option ℝ)) (s : Option ℝ), none ∈ l → l.foldl subLD s = none := by
    intro l
    induction l with
    | nil => simp
    | cons y ys ih =>
      intro s hm
      rw [List.foldl_cons]
      rcases List.mem_cons.1 hm with rfl | hm
      · rw [show subLD s none = none by cases s <;> rfl, h0]
      · exact ih _ hm
  exact this l _ h

theorem average_same (h : SameFrequencies a b) (g : List ℝ → Option ℝ) :
    average (sumNegative (a.map g)) a.length = average (sumNegative (b.map g)) b.length := by
  by_cases hn : ∃ x ∈ a, g x = none
  · obtain ⟨x, hx, hg⟩ := hn
    rw [sumNegative_none _ (List.mem_map.2 ⟨x, hx, hg⟩), sumNegative_none _ (List.mem_map.2 ⟨x, h.mem hx, hg⟩)]
    simp [average]
  · push Not at hn
    have e : ∀ l : List (List ℝ), (∀ x ∈ l, x ∈ a) → l.map g = (l.map fun x => (g x).getD 0).map some := by
      intro l hl
      rw [List.map_map]
      refine List.map_congr_left fun x hx => ?_
      obtain ⟨v, hv⟩ := Option.ne_none_iff_exists'.1 (hn x (hl x hx))
      simp [hv]
    rw [e a fun _ => id, e b fun _ => h.symm.mem, sumNegative_eq, sumNegative_eq, average_eq (by simpa using h.1), average_eq (by simpa using h.2.1),
      neg_div, neg_div, h.mean]

theorem reduce_same (h : SameFrequencies a b) (G : List ℝ → List ℝ) (n : ℕ) {sa sb : Parallel.Split}
    (ha : sa.indices.Perm (List.range a.length)) (hb : sb.indices.Perm (List.range b.length)) :
    Parallel.reduce .sum true n (fun i j => ((a.map G).getD j []).getD i 0) (-1 / a.length) sa
      = Parallel.reduce .sum true n (fun i j => ((b.map G).getD j []).getD i 0) (-1 / b.length : ℝ) sb := by
  have e : ∀ (data : List (List ℝ)) (i : ℕ), ((List.range data.length).map fun j => ((data.map G).getD j []).getD i 0).sum
      = (data.map fun x => (G x).getD i 0).sum := by
    intro data i
    congr 1
    refine List.ext_getElem (by simp) fun j h1 h2 => ?_
    have hj : j < data.length := by simpa using h2
    simp [List.getD_eq_getElem?_getD, hj]
  rw [Parallel.C51_reduce _ _ _ _ _ _ _ ha, Parallel.C51_reduce _ _ _ _ _ _ _ hb]
  refine List.map_congr_left fun i _ => ?_
  simp only [if_true]
  rw [e, e, neg_div, neg_div, neg_mul, neg_mul, one_div_mul_eq_div, one_div_mul_eq_div, h.mean]

end KL

section
variable {m : CMap} {d : Density} {a b : List (List ℝ)}

/-- C127: for every map, reference and coefficients, the objective has the same value, possibly not a number, on two sets of samples in which the
same points occur equally often. -/
theorem C127_objective (h : SameFrequencies a b) {c : List ℝ} {v : Option ℝ} (hv : KL.objective m d c a = .ok v) :
    KL.objective m d c b = .ok v := by
  obtain ⟨p, hp, hv⟩ := Res.bind_eq_ok.1 hv
  obtain ⟨ys, hy, hv⟩ := Res.bind_eq_ok.1 hv
  obtain ⟨e, hb⟩ := KL.columns_same h hy
  rw [KL.objective, hp, Res.bind_ok, hb, Res.bind_ok, ← hv, e, KL.average_same h]

/-- C127: and so have its gradients, whatever the schedules of the two reductions. -/
theorem C127_gradient (h : SameFrequencies a b) {c mem g : List ℝ} {off : ℕ} {sa sb : Parallel.Split}
    (ha : sa.indices.Perm (List.range a.length)) (hb : sb.indices.Perm (List.range b.length)) (hg : KL.coeffGrad m d c a sa mem off = .ok g) :
    KL.coeffGrad m d c b sb mem off = .ok g := by
  obtain ⟨p, hp, hg⟩ := Res.bind_eq_ok.1 hg
  obtain ⟨ys, hy, hg⟩ := Res.bind_eq_ok.1 hg
  obtain ⟨e, hcol⟩ := KL.columns_same h hy
  rw [KL.coeffGrad, hp, Res.bind_ok, hcol, Res.bind_ok, ← hg, e]
  dsimp only
  rw [KL.reduce_same h _ _ ha hb]

/-- C127: what an optimiser is told. -/
theorem C127_call (h : SameFrequencies a b) {x grad : List ℝ} {r : Option ℝ × List ℝ} {sa sb : Parallel.Split}
    (ha : sa.indices.Perm (List.range a.length)) (hb : sb.indices.Perm (List.range b.length)) (hr : KL.call m d x grad a sa = .ok r) :
    KL.call m d x grad b sb = .ok r := by
  rw [KL.call] at hr ⊢
  split at hr
  swap
  · cases hr
  rename_i hx
  rw [if_pos hx]
  obtain ⟨p, hp, hr⟩ := Res.bind_eq_ok.1 hr
  obtain ⟨ys, hy, hr⟩ := Res.bind_eq_ok.1 hr
  obtain ⟨gs, hg, hr⟩ := Res.bind_eq_ok.1 hr
  obtain ⟨e, hcol⟩ := KL.columns_same h hy
  obtain ⟨e', hcol'⟩ := KL.columns_same h hg
  rw [KL.objectivePlusCoeffGrad, hp, Res.bind_ok, hcol, Res.bind_ok, hcol', Res.bind_ok, ← hr, e, e']
  dsimp only
  rw [KL.reduce_same h _ _ ha hb, KL.average_same h]

/-- C127: the minimisers are the same. -/
theorem C127_minimisers (h : SameFrequencies a b) (c : List ℝ) : MinimisesKL m a c ↔ MinimisesKL m b c := by
  have : ∀ {a b : List (List ℝ)}, SameFrequencies a b → MinimisesKL m a c → MinimisesKL m b c := fun h ⟨h1, v, h2, h3⟩ =>
    ⟨h1, v, C127_objective h h2, fun c' v' hc hv => h3 c' v' hc (C127_objective h.symm hv)⟩
  exact ⟨this h, this h.symm⟩

/-- C127: the objective of two sets of samples together is the mean of their objectives, weighted with their sizes. -/
theorem C127_pooled (ha : a ≠ []) (hb : b ≠ []) {c : List ℝ} {v w : ℝ} (hv : KL.objective m d c a = .ok (some v))
    (hw : KL.objective m d c b = .ok (some w)) :
    KL.objective m d c (a ++ b) = .ok (some ((a.length * v + b.length * w) / (a.length + b.length))) := by
  have key : ∀ {l : List (List ℝ)} {v : ℝ} {g : List ℝ → Option ℝ}, l ≠ [] → KL.average (KL.sumNegative (l.map g)) l.length = some v →
      (∀ x ∈ l, g x = some ((g x).getD 0)) ∧ -(l.map fun x => (g x).getD 0).sum = l.length * v := by
    intro l v g hl h
    have hn : ∀ x ∈ l, g x = some ((g x).getD 0) := by
      intro x hx
      cases hg : g x with
      | some y => rfl
      | none => rw [KL.sumNegative_none _ (List.mem_map.2 ⟨x, hx, hg⟩)] at h; simp [KL.average] at h
    refine ⟨hn, ?_⟩
    have e : l.map g = (l.map fun x => (g x).getD 0).map some := by
      rw [List.map_map]; exact List.map_congr_left hn
    have hl' : (l.length : ℝ) ≠ 0 := by simpa using hl
    rw [e, KL.sumNegative_eq, KL.average_eq (by simpa using hl)] at h
    rw [← Option.some.inj h]
    field_simp
  obtain ⟨p, hp, hv⟩ := Res.bind_eq_ok.1 hv
  obtain ⟨ys, hy, hv⟩ := Res.bind_eq_ok.1 hv
  rw [KL.objective, hp, Res.bind_ok] at hw
  obtain ⟨zs, hz, hw⟩ := Res.bind_eq_ok.1 hw
  obtain ⟨hy, e⟩ := KL.columns_inv hy
  obtain ⟨hz, e'⟩ := KL.columns_inv hz
  rw [e] at hv
  rw [e'] at hw
  obtain ⟨hv1, hv2⟩ := key ha (Res.ok.inj hv)
  obtain ⟨hw1, hw2⟩ := key hb (Res.ok.inj hw)
  rw [KL.objective, hp, Res.bind_ok, KL.columns_ok (g := fun x => value default (p.logDensity x (some 0))) (by
    intro x hx
    rcases List.mem_append.1 hx with hx | hx
    · exact hy x hx
    · exact hz x hx), Res.bind_ok]
  have e3 : (a ++ b).map (fun x => value default (p.logDensity x (some 0)))
      = ((a ++ b).map fun x => (value default (p.logDensity x (some 0))).getD 0).map some := by
    rw [List.map_map]
    refine List.map_congr_left fun x hx => ?_
    rcases List.mem_append.1 hx with hx | hx
    · exact hv1 x hx
    · exact hw1 x hx
  rw [e3, KL.sumNegative_eq, KL.average_eq (by simp [ha]), List.map_append, List.sum_append, neg_add, hv2, hw2, List.length_append, Nat.cast_add]

end

namespace Train

theorem optimize_same {env : Env} {b : List (List ℝ)} {sb : ℕ → Parallel.Split} (h : SameFrequencies env.train b)
    (ha : ∀ k, (env.split k).indices.Perm (List.range env.train.length)) (hb : ∀ k, (sb k).indices.Perm (List.range b.length)) :
    ∀ (o : Opt) (k : ℕ) (cur : List ℝ) {r}, (optimize env o k cur).2 = .ok r → optimize { env with train := b, split := sb } o k cur = optimize env o k cur
  | .stop _ _ _, _, _, _, _ => rfl
  | .fail, _, _, _, hr => by cases hr
  | .query x wantGrad next, k, cur, r, hr => by
    rw [optimize] at hr
    rw [optimize, optimize]
    dsimp only at hr ⊢
    cases hans : answer env k x wantGrad with
    | throw => rw [hans] at hr; cases hr
    | ub => rw [hans] at hr; cases hr
    | ok s =>
      have : answer { env with train := b, split := sb } k x wantGrad = .ok s := by
        rw [answer] at hans ⊢
        split at hans
        · rw [if_pos ‹_›]; exact C127_call h (ha k) (hb k) hans
        · rw [if_neg ‹_›]
          split at hans
          · cases hans
          · dsimp only
            rw [if_neg ‹_›]
            obtain ⟨t, ht, hans⟩ := Res.bind_eq_ok.1 hans
            rw [C127_call h (ha k) (hb k) ht, Res.bind_ok, hans]
      rw [this]
      rw [hans] at hr
      exact optimize_same h ha hb _ _ _ hr

end Train

/-- C127: `TrainMap` with any algorithm and any schedules of the reductions ends with the same coefficients and returns the same value. -/
theorem C127_training {env : Train.Env} {b : List (List ℝ)} {sb : ℕ → Parallel.Split} (h : SameFrequencies env.train b)
    (ha : ∀ k, (env.split k).indices.Perm (List.range env.train.length)) (hb : ∀ k, (sb k).indices.Perm (List.range b.length))
    {cur : List ℝ} {v : Option ℝ} (hv : (Train.trainMap env cur).2 = .ok v) :
    Train.trainMap { env with train := b, split := sb } cur = Train.trainMap env cur := by
  rw [Train.trainMap] at hv
  rw [Train.trainMap, Train.trainMap]
  dsimp only at hv ⊢
  cases halg : env.alg with
  | none => rfl
  | some alg =>
    rw [halg] at hv
    dsimp only at hv ⊢
    split at hv
    · cases hv
    · rw [if_neg ‹_›, if_neg ‹_›]
      cases ho : Train.optimize env (alg (Train.startCoeffs env.map cur)) 0 (Train.startCoeffs env.map cur) with
      | mk c res =>
        rw [ho] at hv
        cases res with
        | ok r =>
          have := Train.optimize_same h ha hb _ _ _ (r := r) (by rw [ho])
          rw [ho, halg] at this
          rw [this]
        | throw => cases hv
        | ub => cases hv

/-- Non-vacuity: gradient descent on three samples and on six, in another order and with each of them twice. -/
example : ∃ x e, Train.trainMap exampleEnv [] = (x, .ok (some e)) ∧
    Train.trainMap { exampleEnv with train := [[2], [2], [-3], [1], [-3], [1]], split := fun _ => .chunk (List.range 6) } [] = (x, .ok (some e)) := by
  obtain ⟨x, e, h, -⟩ := exampleEnv_trained
  refine ⟨x, e, h, (C127_training ⟨by simp [exampleEnv], by simp, fun y => ?_⟩ (fun k => ?_) (fun k => List.Perm.refl _) (by rw [h])).trans h⟩
  · have h1 := (SameFrequencies.repeated (a := [[1], [2], [-3]]) (by simp) (k := 2) (by norm_num)).2.2 y
    have h2 : ((List.replicate 2 [[1], [2], [-3]]).flatten : List (List ℝ)).Perm [[2], [2], [-3], [1], [-3], [1]] := by
      change ([[1], [2], [-3], [1], [2], [-3]] : List (List ℝ)).Perm _
      have : ([0, 1, 2, 0, 1, 2] : List (Fin 3)).Perm [1, 1, 2, 0, 2, 0] := by decide
      simpa using this.map (![[1], [2], [-3]] : Fin 3 → List ℝ)
    rw [h2.count_eq, h2.length_eq] at h1
    exact h1
  · change ([2] ++ ([] ++ [0, 1]) : List Nat).Perm [0, 1, 2]; decide

end MParT
