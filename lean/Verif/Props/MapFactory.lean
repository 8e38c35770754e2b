import Verif.Model.MapFactory
import Verif.Props.Triangular
import Verif.Props.Identity
import Verif.Lemmas.ToyMap
/-!
# C58: single entry maps
-/
namespace MParT
open Spec

/-- The blocks of the map: identity, component, identity. -/
theorem single_blocks {dim a : Nat} {comp : CMap} (ha : 1 ≤ a) (had : a ≤ dim) (hi : comp.inputDim = a) (ho : comp.outputDim = 1) :
    ∃ t : CMap, ∃ pre post : List CMap, MapFactory.createSingleEntryMap dim a comp = .ok (t, zeros t.numCoeffs) ∧
      TriangularMap.new (pre ++ comp :: post) = .ok t ∧
      (pre = [] ∧ a = 1 ∨ pre = [IdentityMap.obj (a - 1) (a - 1)]) ∧
      (post = [] ∧ a = dim ∨ post = [IdentityMap.obj dim (dim - a)]) := by
  have hnew : ∀ comps : List CMap, comps ≠ [] → (∀ m ∈ comps, m.outputDim ≤ m.inputDim) →
      comps.IsChain (fun a b => b.inputDim = a.inputDim + b.outputDim) → ∃ t, TriangularMap.new comps = .ok t :=
    fun comps h1 h2 h3 => (C40_new comps).mpr ⟨h1, h2, h3⟩
  rw [MapFactory.createSingleEntryMap, if_neg (by omega), if_neg (by simp [hi])]
  by_cases h1 : a = 1
  · obtain ⟨t, ht⟩ := hnew [comp, IdentityMap.obj dim (dim - a)] (by simp)
      (by intro m hm; simp at hm; rcases hm with rfl | rfl <;> first | omega | simp [IdentityMap.obj])
      (by simp [IdentityMap.obj]; omega)
    refine ⟨t, [], [IdentityMap.obj dim (dim - a)], ?_, ht, .inl ⟨rfl, h1⟩, .inr rfl⟩
    rw [if_pos h1, ht]; rfl
  · rw [if_neg h1]
    by_cases h2 : a = dim
    · obtain ⟨t, ht⟩ := hnew [IdentityMap.obj (a - 1) (a - 1), comp] (by simp)
        (by intro m hm; simp at hm; rcases hm with rfl | rfl <;> first | omega | simp [IdentityMap.obj])
        (by simp [IdentityMap.obj]; omega)
      refine ⟨t, [IdentityMap.obj (a - 1) (a - 1)], [], ?_, ht, .inr rfl, .inl ⟨rfl, h2⟩⟩
      rw [if_pos h2, ht]; rfl
    · obtain ⟨t, ht⟩ := hnew [IdentityMap.obj (a - 1) (a - 1), comp, IdentityMap.obj dim (dim - a)] (by simp)
        (by intro m hm; simp at hm; rcases hm with rfl | rfl | rfl <;> first | omega | simp [IdentityMap.obj])
        (by simp [IdentityMap.obj]; omega)
      refine ⟨t, [IdentityMap.obj (a - 1) (a - 1)], [IdentityMap.obj dim (dim - a)], ?_, ht, .inr rfl, .inr rfl⟩
      rw [if_neg h2, ht]; rfl

variable {dim a : Nat} {comp : CMap}

/-- What a property of the component and of identity maps gives for all blocks. -/
theorem block_mem {pre post : List CMap} {P : CMap → Prop} (hpre : pre = [] ∧ a = 1 ∨ pre = [IdentityMap.obj (a - 1) (a - 1)])
    (hpost : post = [] ∧ a = dim ∨ post = [IdentityMap.obj dim (dim - a)]) (hc : P comp)
    (hid : ∀ n k, k ≤ n → P (IdentityMap.obj n k)) : ∀ m ∈ pre ++ comp :: post, P m := by
  intro m hm
  rw [List.mem_append, List.mem_cons] at hm
  rcases hm with hm | rfl | hm
  · rcases hpre with ⟨rfl, -⟩ | rfl
    · simp at hm
    · rw [List.mem_singleton] at hm; rw [hm]; exact hid _ _ (le_refl _)
  · exact hc
  · rcases hpost with ⟨rfl, -⟩ | rfl
    · simp at hm
    · rw [List.mem_singleton] at hm; rw [hm]; exact hid _ _ (Nat.sub_le _ _)

/-- C58: for every `activeInd` in `1..dim` and every component with `activeInd` inputs and one output, `CreateSingleEntryMap`
returns a square map whose coefficients are those of the component and which changes only coordinate `activeInd`: it replaces
it by the value of the component. -/
theorem C58_evaluate (ha : 1 ≤ a) (had : a ≤ dim) (hi : comp.inputDim = a) (ho : comp.outputDim = 1) (hE : Evaluates comp) :
    ∃ t, MapFactory.createSingleEntryMap dim a comp = .ok (t, zeros comp.numCoeffs) ∧
      t.inputDim = dim ∧ t.outputDim = dim ∧ t.numCoeffs = comp.numCoeffs ∧ Evaluates t ∧
      ∀ c x, Fits t c x → fn t c x = x.take (a - 1) ++ fn comp c (x.take a) ++ x.drop a := by
  obtain ⟨t, pre, post, h1, h2, hpre, hpost⟩ := single_blocks ha had hi ho
  obtain ⟨hEt, hfn⟩ := C40_evaluate h2 (block_mem hpre hpost hE fun n k hk => (C48_identity_evaluate hk).1)
  have ht : t = TriangularMap.obj (pre ++ comp :: post) := (new_triangular.mp h2).2.2
  have hin : t.inputDim = dim := by
    rw [ht]
    rcases hpost with ⟨rfl, h⟩ | rfl
    · simp [TriangularMap.obj, hi, h]
    · simp [TriangularMap.obj, List.getLast?_append, IdentityMap.obj]
  have hout : t.outputDim = dim := by
    rw [ht]
    rcases hpost with ⟨rfl, h⟩ | rfl <;> rcases hpre with ⟨rfl, h'⟩ | rfl <;> simp [TriangularMap.obj, IdentityMap.obj, ho] <;> omega
  have hnc : t.numCoeffs = comp.numCoeffs := by
    rw [ht]
    rcases hpost with ⟨rfl, h⟩ | rfl <;> rcases hpre with ⟨rfl, h'⟩ | rfl <;> simp [TriangularMap.obj, IdentityMap.obj]
  refine ⟨t, by rw [← hnc]; exact h1, hin, hout, hnc, hEt, fun c x hf => ?_⟩
  have hx : x.length = dim := hf.2.trans hin
  have hc : c.length = comp.numCoeffs := hf.1.trans hnc
  have hctake : c.take comp.numCoeffs = c := List.take_of_length_le (by omega)
  rw [hfn c x hf, stacked_append]
  have e1 : stacked pre c x = x.take (a - 1) := by
    rcases hpre with ⟨rfl, h⟩ | rfl
    · simp [stacked, h]
    · rw [stacked, stacked, List.append_nil, show (IdentityMap.obj (a - 1) (a - 1)).inputDim = a - 1 from rfl,
        identity_fn (le_refl _) (by simp; omega), Nat.sub_self, List.drop_zero]
  have e0 : c.drop (pre.map CMap.numCoeffs).sum = c := by
    rcases hpre with ⟨rfl, h⟩ | rfl <;> simp [IdentityMap.obj]
  have e2 : stacked post (c.drop comp.numCoeffs) x = x.drop a := by
    rcases hpost with ⟨rfl, h⟩ | rfl
    · rw [stacked, List.drop_of_length_le (by omega)]
    · rw [stacked, stacked, List.append_nil, show (IdentityMap.obj dim (dim - a)).inputDim = dim from rfl,
        List.take_of_length_le (l := x) (by omega), identity_fn (Nat.sub_le _ _) hx, show dim - (dim - a) = a by omega]
  rw [e1, e0, stacked, e2, hctake, hi, List.append_assoc]

/-- C58: the inverse, log-determinant, Jacobian and gradients of the map are right whenever those of the component are. -/
theorem C58_contracts (ha : 1 ≤ a) (had : a ≤ dim) (hi : comp.inputDim = a) (ho : comp.outputDim = 1) (hE : Evaluates comp)
    {t : CMap} {c0 : List ℝ} (ht : MapFactory.createSingleEntryMap dim a comp = .ok (t, c0)) :
    (InvertsFrom comp a → ∀ k ≤ dim, InvertsFrom t k) ∧
    (HasLogDet comp → HasLogDet t ∧ (∀ c x, Fits t c x → logdet t c x = logdet comp c (x.take a)) ∧
      (LogDetIsJacobian comp → LogDetIsJacobian t) ∧ (DifferentiatesLogDet comp → DifferentiatesLogDet t)) ∧
    (Differentiates comp → Differentiates t) := by
  obtain ⟨t', pre, post, h1, h2, hpre, hpost⟩ := single_blocks ha had hi ho
  obtain ⟨t'', h3, hin, hout, hnc, -, -⟩ := C58_evaluate ha had hi ho hE
  rw [ht] at h1 h3
  obtain rfl : t = t' := congrArg Prod.fst (Res.ok.inj h1)
  obtain rfl : t = t'' := congrArg Prod.fst (Res.ok.inj h3)
  have hEall := block_mem hpre hpost hE fun n k hk => (C48_identity_evaluate hk).1
  refine ⟨fun hI k hk => ?_, fun hL => ?_, fun hD => ?_⟩
  · refine C41_inverse h2 hEall (block_mem hpre hpost (P := fun m => InvertsFrom m m.inputDim) (by rw [hi]; exact hI)
      fun n k hk => C48_identity_inverse hk (Nat.sub_le _ _)) (by omega) (by omega)
  · have hLall := block_mem hpre hpost hL fun n k hk => (C48_identity_logDet hk).1
    obtain ⟨hLt, hsum⟩ := C42_sum h2 hLall
    refine ⟨hLt, fun c x hf => ?_, fun hJ => C42_jacobian h2 hEall hLall
      (block_mem hpre hpost hJ fun n k hk => (C48_identity_logDet hk).2.2), fun hD => C43_logDet h2 hLall
      (block_mem hpre hpost hD fun n k hk => C48_identity_logDetGradient)⟩
    have hc : c.length = comp.numCoeffs := hf.1.trans hnc
    have hctake : c.take comp.numCoeffs = c := List.take_of_length_le (by omega)
    rw [hsum c x hf]
    rcases hpre with ⟨rfl, h⟩ | rfl <;> rcases hpost with ⟨rfl, h'⟩ | rfl
    · simp [stackedLogDet, hctake, hi]
    · simp only [List.nil_append, stackedLogDet, hctake, hi, (C48_identity_logDet (Nat.sub_le dim a)).2.1, add_zero]
    · simp only [List.cons_append, List.nil_append, stackedLogDet, (C48_identity_logDet (le_refl (a - 1))).2.1, zero_add, add_zero,
        show (IdentityMap.obj (a - 1) (a - 1)).numCoeffs = 0 from rfl, List.drop_zero, hctake, hi]
    · simp only [List.cons_append, List.nil_append, stackedLogDet, (C48_identity_logDet (le_refl (a - 1))).2.1,
        (C48_identity_logDet (Nat.sub_le dim a)).2.1, zero_add, add_zero,
        show (IdentityMap.obj (a - 1) (a - 1)).numCoeffs = 0 from rfl, List.drop_zero, hctake, hi]
  · exact C43_gradient h2 hEall (block_mem hpre hpost hD fun n k hk => (C48_identity_gradient hk).1)

/-- C58: an index beyond the dimension, or a component with another number of inputs, is rejected. -/
theorem C58_rejects (h : dim < a ∨ comp.inputDim ≠ a) : MapFactory.createSingleEntryMap dim a comp = .throw := by
  rw [MapFactory.createSingleEntryMap]
  split
  · rfl
  · rw [if_pos]
    exact fun e => h.elim (fun h => by omega) fun h => h e.symm

/-- Non-vacuity: the second coordinate of three, and the special cases at both ends. -/
example : (∃ t, MapFactory.createSingleEntryMap 3 2 toy = .ok (t, [0]) ∧ ∀ p q r : ℝ,
      fn t [1] [p, q, r] = [p, Real.exp 1 * q + p ^ 2, r]) ∧
    (∃ t, MapFactory.createSingleEntryMap 2 2 toy = .ok (t, [0]) ∧ ∀ p q : ℝ,
      fn t [1] [p, q] = [p, Real.exp 1 * q + p ^ 2]) := by
  constructor
  · obtain ⟨t, h1, h2, h3, h4, h5, h6⟩ := C58_evaluate (dim := 3) (a := 2) (comp := toy) (by decide) (by decide) rfl rfl
      toy_evaluates
    refine ⟨t, h1, fun p q r => ?_⟩
    rw [h6 _ _ ⟨by rw [h4]; rfl, by rw [h2]; rfl⟩]
    rfl
  · obtain ⟨t, h1, h2, h3, h4, h5, h6⟩ := C58_evaluate (dim := 2) (a := 2) (comp := toy) (by decide) (by decide) rfl rfl
      toy_evaluates
    refine ⟨t, h1, fun p q => ?_⟩
    rw [h6 _ _ ⟨by rw [h4]; rfl, by rw [h2]; rfl⟩]
    rfl

end MParT
