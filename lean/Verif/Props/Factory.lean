import Verif.Spec.Factory
import Verif.Props.ExpansionBasis
import Verif.Props.ComponentLinear
import Verif.Props.MapFactory
import Verif.Props.Settles
/-!
# C62, C63: components and triangular maps built by the factory
-/
namespace MParT
open Spec Finset MapFactory Worker OrthoPoly Hermite Polynomial

/-! ### The basis an expansion sees -/

/-- The basis without the members of order greater than `M`. -/
noncomputable def Spec.upTo (b : Basis ℝ) (M : Nat) : Basis ℝ :=
  ⟨fun n x => if n ≤ M then b.val n x else 0, fun n x => if n ≤ M then b.d1 n x else 0, fun n x => if n ≤ M then b.d2 n x else 0⟩

theorem filled_last {F : Nat → ℝ} {v old : List ℝ} {n : Nat} (h : Filled v old n F) : v.getD n 0 = F n := by
  rw [List.getD_eq_getElem?_getD, h.2.1 n le_rfl]; rfl

theorem read_eq {b1 : Basis1d} {b : Basis ℝ} {N : Nat} (h : Implements b1 b N) {M : Nat} (hM : M ≤ N) : b1.read M = upTo b M := by
  have key : ∀ n, n ≤ M → ∀ x, _ := fun n hn x => h n (hn.trans hM) (List.replicate (n + 1) 0) (List.replicate (n + 1) 0)
    (List.replicate (n + 1) 0) x (by simp) (by simp) (by simp)
  rw [Basis1d.read, upTo]
  congr 1 <;> funext n x <;> by_cases hn : n ≤ M
  · obtain ⟨⟨v, e, hv⟩, -, -⟩ := key n hn x
    rw [if_pos hn, if_pos hn, e]
    exact filled_last hv
  · rw [if_neg hn, if_neg hn]
  · obtain ⟨-, ⟨v, d, e, -, hv⟩, -⟩ := key n hn x
    rw [if_pos hn, if_pos hn, e]
    exact filled_last hv
  · rw [if_neg hn, if_neg hn]
  · obtain ⟨-, -, v, d, s, e, -, -, hv⟩ := key n hn x
    rw [if_pos hn, if_pos hn, e]
    exact filled_last hv
  · rw [if_neg hn, if_neg hn]

theorem filled_congr {F G : Nat → ℝ} {v old : List ℝ} {n : Nat} (h : Filled v old n F) (e : ∀ k, k ≤ n → F k = G k) : Filled v old n G :=
  ⟨h.1, fun k hk => by rw [h.2.1 k hk, e k hk], h.2.2⟩

theorem implements_upTo {b1 : Basis1d} {b : Basis ℝ} {N : Nat} (h : Implements b1 b N) {M : Nat} (hM : M ≤ N) :
    Implements b1 (upTo b M) M := by
  intro n hn vals derivs second x l l1 l2
  obtain ⟨⟨v, e, hv⟩, ⟨v', d', e', hv', hd'⟩, v'', d'', s'', e'', hv'', hd'', hs''⟩ := h n (hn.trans hM) vals derivs second x l l1 l2
  have c0 : ∀ k, k ≤ n → b.val k x = (upTo b M).val k x := fun k hk => (if_pos (hk.trans hn)).symm
  have c1 : ∀ k, k ≤ n → b.d1 k x = (upTo b M).d1 k x := fun k hk => (if_pos (hk.trans hn)).symm
  have c2 : ∀ k, k ≤ n → b.d2 k x = (upTo b M).d2 k x := fun k hk => (if_pos (hk.trans hn)).symm
  exact ⟨⟨v, e, filled_congr hv c0⟩, ⟨v', d', e', filled_congr hv' c0, filled_congr hd' c1⟩, v'', d'', s'', e'', filled_congr hv'' c0,
    filled_congr hd'' c1, filled_congr hs'' c2⟩

theorem eff_upTo (b : Basis ℝ) (M n : Nat) : ((upTo b M).eff.val n, (upTo b M).eff.d1 n, (upTo b M).eff.d2 n)
    = if n ≤ M then (b.eff.val n, b.eff.d1 n, b.eff.d2 n) else (fun _ => 0, fun _ => 0, fun _ => 0) := by
  by_cases h0 : n = 0
  · subst h0; simp [Basis.eff]
  · by_cases h : n ≤ M <;> simp [Basis.eff, h0, h, upTo]

theorem c1_upTo {b : Basis ℝ} (h : C1Basis b.eff) (M : Nat) : C1Basis (upTo b M).eff := by
  have key := eff_upTo b M
  refine ⟨fun y => by simp [Basis.eff], fun n y => ?_, fun n => ?_⟩
  · have := key n
    by_cases hn : n ≤ M
    · rw [if_pos hn, Prod.mk.injEq, Prod.mk.injEq] at this
      rw [this.1, this.2.1]; exact h.d1 n y
    · rw [if_neg hn, Prod.mk.injEq, Prod.mk.injEq] at this
      rw [this.1, this.2.1]; exact hasDerivAt_const y 0
  · have := key n
    by_cases hn : n ≤ M
    · rw [if_pos hn, Prod.mk.injEq, Prod.mk.injEq] at this
      rw [this.2.1]; exact h.cont n
    · rw [if_neg hn, Prod.mk.injEq, Prod.mk.injEq] at this
      rw [this.2.1]; exact continuous_const

theorem twice_upTo {b : Basis ℝ} {y : ℝ} (h : TwiceAt b.eff y) (M : Nat) : TwiceAt (upTo b M).eff y := by
  intro n
  have := eff_upTo b M n
  by_cases hn : n ≤ M
  · rw [if_pos hn, Prod.mk.injEq, Prod.mk.injEq] at this
    rw [this.2.1, this.2.2]; exact h n
  · rw [if_neg hn, Prod.mk.injEq, Prod.mk.injEq] at this
    rw [this.2.1, this.2.2]; exact hasDerivAt_const y 0

/-! ### The classes the options select -/

theorem extend_none (f : ℝ → ℝ) : extend none none f = f := by
  funext x; simp [extend, linearize]

theorem polyVal_prob (norm : Bool) (n : Nat) (x : ℝ) : polyVal (probabilistHermite norm) n x
    = He n x / if norm then √(√(2 * Real.pi) * (factorial32 n : ℝ)) else 1 := by
  have : He n x = polyVal (probabilistHermite false) n x := by rw [← C25_evaluate, C27_probabilist]; rfl
  rw [this, polyVal, polyVal]
  cases norm <;> simp [probabilistHermite, probabilistMixer]

theorem polyVal_phys (norm : Bool) (n : Nat) (x : ℝ) : polyVal (physicistHermite norm) n x
    = Hp n x / if norm then √(√Real.pi * (2 : ℝ) ^ (n : ℝ) * (factorial32 n : ℝ)) else 1 := by
  have : Hp n x = polyVal (physicistHermite false) n x := by rw [← C25_evaluate, C27_physicist]; rfl
  rw [this, polyVal, polyVal]
  cases norm <;> simp [physicistHermite, physicistMixer]

theorem factorial32_pos {n : Nat} (h : n ≤ 33) : 0 < factorial32 n := by
  have : ∀ n ∈ List.range 34, 0 < factorial32 n := by decide
  exact this n (List.mem_range.2 (by omega))

theorem Hp_lin (x : ℝ) : Hp 1 x = 2 * x := by
  rw [Hp, He_one, pow_one, ← mul_assoc, Real.mul_self_sqrt (by norm_num)]

theorem linear_basisOf {F : Nat → ℝ → ℝ} {k : ℝ} (h : ∀ x, F 1 x = k * x) (y : ℝ) :
    (Spec.basisOf F).d1 1 y = k ∧ (Spec.basisOf F).d2 1 y = 0 := by
  have h1 : F 1 = fun x => k * x := funext h
  have h2 : deriv (F 1) = fun _ => k := by
    funext y
    rw [h1]
    exact (((hasDerivAt_id y).const_mul k).congr_deriv (mul_one k)).deriv
  exact ⟨congrFun h2 y, by simp [Spec.basisOf, h2]⟩

theorem linear_extensions {F : Nat → ℝ → ℝ} {k : ℝ} (h : ∀ x, F 1 x = k * x) (lb ub : Option ℝ) (y : ℝ) :
    (Spec.extensions lb ub F).d1 1 y = k ∧ (Spec.extensions lb ub F).d2 1 y = 0 := by
  obtain ⟨h1, h2⟩ := linear_basisOf h y
  have h3 : ∀ z, deriv (F 1) z = k := fun z => (linear_basisOf h z).1
  have e : extend lb ub (F 1) = F 1 := by
    funext x
    simp only [extend, linearize, h3, h]
    split_ifs <;> ring
  refine ⟨by rw [← h1]; simp [Spec.extensions, Spec.basisOf, e], ?_⟩
  simp only [Spec.extensions]
  split_ifs
  · exact h2
  · rfl

/-- **C62, the basis.** For good options the three array routines of the selected class agree on one family of functions up to order
`N`, which is the one the options describe, continuously differentiable and, except at the bounds, with true
second derivatives; the function of order 1 is linear. -/
theorem C62_basis {o : MapOptions} {N : Nat} (h : GoodBasis o N) : ∃ b : Basis ℝ, Implements (class1d o) b N ∧ C1Basis b.eff ∧
    (∀ y, (∀ l ∈ o.basisLB, y ≠ l) → (∀ u ∈ o.basisUB, y ≠ u) → TwiceAt b.eff y) ∧ (∃ k, ∀ y, b.d1 1 y = k ∧ b.d2 1 y = 0) ∧
    IsBasisOf o (fun n => n ≤ N) b := by
  have hlin : isLinearized o = true ↔ Bounded o := by
    simp [isLinearized, Bounded, Option.isSome_iff_ne_none]
  by_cases hb : Bounded o
  · have e : class1d o = LinearizedBasis.ofBounds (plainClass o) o.basisLB o.basisUB := by rw [class1d, if_pos (hlin.2 hb)]
    obtain ⟨r1, r2⟩ := C24_represents_linearized h.bounds
    have hd := C24_bases
    rw [e, plainClass]
    cases ht : o.basisType with
    | probabilistHermite =>
      have hn := h.linearized hb (by simp [ht])
      obtain ⟨s1, s2⟩ := C24_linearized_smooth (fun n => fun y => (hd.1.d1 n y).differentiableAt)
        (fun n => fun y => (hd.1.d2 n y).differentiableAt) h.bounds
      rw [hn]
      exact ⟨_, (r1 N).1, s1, s2, ⟨1, linear_extensions (fun x => by rw [one_mul]; exact He_one x) _ _⟩, fun _ => 1, by simp, by simp [hn], by simp, fun n _ => by simp [Spec.extensions, rawFamily, ht]⟩
    | physicistHermite =>
      have hn := h.linearized hb (by simp [ht])
      obtain ⟨s1, s2⟩ := C24_linearized_smooth (fun n => fun y => (hd.2.1.d1 n y).differentiableAt)
        (fun n => fun y => (hd.2.1.d2 n y).differentiableAt) h.bounds
      rw [hn]
      exact ⟨_, (r1 N).2, s1, s2, ⟨2, linear_extensions Hp_lin _ _⟩, fun _ => 1, by simp, by simp [hn], by simp, fun n _ => by simp [Spec.extensions, rawFamily, ht]⟩
    | hermiteFunctions =>
      have hN := h.functions hb ht
      obtain ⟨s1, s2⟩ := C24_linearized_smooth (fun n => fun y => (hd.2.2.d1 n y).differentiableAt)
        (fun n => fun y => (hd.2.2.d2 n y).differentiableAt) h.bounds
      exact ⟨_, fun n hn => r2 n (hn.trans hN), s1, s2, ⟨1, linear_extensions (fun x => by rw [one_mul]; rfl) _ _⟩, fun _ => 1, by simp, fun _ n _ => by simp [trueNorm, ht], by simp,
        fun n _ => by simp [Spec.extensions, rawFamily, ht]⟩
  · have e : class1d o = plainClass o := by rw [class1d, if_neg (by rw [hlin]; exact hb)]
    have e1 : o.basisLB = none := by by_contra c; exact hb (.inl c)
    have e2 : o.basisUB = none := by by_contra c; exact hb (.inr c)
    rw [e, plainClass]
    simp only [IsBasisOf, e1, e2, extend_none]
    cases ht : o.basisType with
    | probabilistHermite =>
      have sm := smooth_basisOf_eff (fun n _ => (C26_differentiable (probabilist_smooth o.basisNorm) n).1)
        fun n _ => (C26_differentiable (probabilist_smooth o.basisNorm) n).2
      refine ⟨_, represents_poly (probabilist_smooth o.basisNorm) N, sm.c1, fun y _ _ => sm.twice y,
        ⟨_, linear_basisOf fun x => by rw [polyVal_prob, He_one, div_eq_inv_mul]⟩,
        fun n => if o.basisNorm then √(√(2 * Real.pi) * (factorial32 n : ℝ)) else 1, fun n hn => ?_, fun hn n h12 => ?_, fun hn n => ?_,
        fun n _ => funext fun x => polyVal_prob _ n x⟩
      · beta_reduce
        by_cases hnorm : o.basisNorm = true
        · rw [if_pos hnorm]
          have := factorial32_pos (hn.trans (h.normalized (by simp [ht]) hnorm))
          have hpi := Real.pi_pos
          positivity
        · rw [if_neg hnorm]; exact one_pos
      · beta_reduce
        rw [if_pos hn, trueNorm, factorial32_exact h12]
      · have hn : o.basisNorm = false := by simpa using hn
        simp [hn]
    | physicistHermite =>
      have sm := smooth_basisOf_eff (fun n _ => (C26_differentiable (physicist_smooth o.basisNorm) n).1)
        fun n _ => (C26_differentiable (physicist_smooth o.basisNorm) n).2
      refine ⟨_, represents_poly (physicist_smooth o.basisNorm) N, sm.c1, fun y _ _ => sm.twice y,
        ⟨_, linear_basisOf fun x => by rw [polyVal_phys, Hp_lin, div_eq_inv_mul, ← mul_assoc]⟩,
        fun n => if o.basisNorm then √(√Real.pi * (2 : ℝ) ^ (n : ℝ) * (factorial32 n : ℝ)) else 1, fun n hn => ?_, fun hn n h12 => ?_,
        fun hn n => ?_, fun n _ => funext fun x => polyVal_phys _ n x⟩
      · beta_reduce
        by_cases hnorm : o.basisNorm = true
        · rw [if_pos hnorm]
          have := factorial32_pos (hn.trans (h.normalized (by simp [ht]) hnorm))
          have hpi := Real.pi_pos
          positivity
        · rw [if_neg hnorm]; exact one_pos
      · beta_reduce
        rw [if_pos hn, trueNorm, factorial32_exact h12, Real.rpow_natCast]
      · have hn : o.basisNorm = false := by simpa using hn
        simp [hn]
    | hermiteFunctions =>
      have sm := C24_bases.2.2.eff
      exact ⟨_, (C24_represents.1 N).2.2, sm.c1, fun y _ _ => sm.twice y, ⟨1, linear_basisOf fun x => by rw [one_mul]; rfl⟩, fun _ => 1, by simp, fun _ n _ => by simp [trueNorm], by simp,
        fun n _ => by simp [Spec.basisOf, rawFamily]⟩

/-! ### The quadrature the options select -/

theorem exact_adaptive (q : Recursive) (rule : ℝ → ℝ → List (ℝ × ℝ × ℝ)) (d : Nat)
    (h : ∀ (P : ℝ[X]), P.natDegree ≤ d → ∀ a b, ((rule a b).map fun p => p.2.2 * P.eval p.1).sum = ∫ t in a..b, P.eval t) :
    ExactTo d (adaptiveMesh q rule) := by
  intro g P hP
  rw [adaptiveMesh, sum_flatMap_est rule _ fun t => P.eval t]
  simp only [est, h P hP]
  exact (Spec.tiles_leaves _ _ _ _ _).sum_integral _ P.continuous

theorem simpson_rule_exact (P : ℝ[X]) (hP : P.natDegree ≤ 3) (a b : ℝ) :
    ((QProg.simpsonRule a b).map fun p => p.2.2 * P.eval p.1).sum = ∫ t in a..b, P.eval t := by
  rw [← simpson2_exact P hP a b]
  simp only [QProg.simpsonRule, simpson2, simpson, List.map_cons, List.map_nil, List.sum_cons, List.sum_nil]
  ring

theorem nested_rule_exact {l : Nat} (h1 : 1 ≤ l) (h2 : l ≤ 15) {r : NestedRule} (e : AdaptiveClenshawCurtis.new l = .ok r) (P : ℝ[X])
    (hP : P.natDegree ≤ 2 ^ (l + 1)) (a b : ℝ) :
    ((QProg.nestedRule r a b).map fun p => p.2.2 * P.eval p.1).sum = ∫ t in a..b, P.eval t := by
  obtain ⟨r', e', hr, -, hw⟩ := AdaptiveClenshawCurtis.new_ok l h1
  obtain ⟨r'', e'', -, -, s1, -⟩ := (C34_rules l).1 h1
  obtain rfl := Res.ok.inj (e.symm.trans e')
  obtain rfl := Res.ok.inj (e.symm.trans e'')
  have hN : 1 ≤ 2 ^ (l + 1) := Nat.one_le_two_pow
  have hb : 2 ^ (l + 1) ≤ 65536 := (Nat.pow_le_pow_right (by omega) (by omega : l + 1 ≤ 16)).trans_eq (by norm_num)
  have hex : ∀ Q : ℝ[X], Q.natDegree ≤ 2 ^ (l + 1) →
      ∑ i ∈ range (2 ^ (l + 1) + 1), r.fineWts.val i * Q.eval (r.finePts.val i) = ∫ x in (-1 : ℝ)..1, Q.eval x := by
    intro Q hQ
    rw [← ClenshawCurtis.exact _ hN hb Q hQ]
    refine sum_congr rfl fun i hi => ?_
    have := mem_range.mp hi
    rw [(hw i (by omega)).1, (hw i (by omega)).2]
  rw [← applyRule_exact _ _ _ _ hex P hP a b, ← s1, ← moved_sum, QProg.nestedRule, List.map_append, List.sum_append, List.map_map, List.map_map]
  simp [Function.comp_def]

theorem exactTo_mono {d d' : Nat} (h : d' ≤ d) {mesh : (ℝ → ℝ) → List (ℝ × ℝ)} (hm : ExactTo d mesh) : ExactTo d' mesh :=
  fun g P hP => hm g P (hP.trans h)

theorem exactTo_weights {d : Nat} {mesh : (ℝ → ℝ) → List (ℝ × ℝ)} (hm : ExactTo d mesh) : WeightsOne mesh := by
  intro g
  have := hm g 1 (by simp)
  simpa using this

theorem list_sum_nonpos {l : List ℝ} (h : ∀ v ∈ l, v ≤ 0) : l.sum ≤ 0 := by
  induction l with
  | nil => simp
  | cons a l ih =>
    rw [List.sum_cons]
    have := h a (by simp)
    have := ih fun v hv => h v (by simp [hv])
    linarith

theorem interior_of_exact {d : Nat} (hd : 1 ≤ d) {mesh : (ℝ → ℝ) → List (ℝ × ℝ)} (hm : ExactTo d mesh)
    (h : ∀ g, ∀ p ∈ mesh g, 0 ≤ p.1 ∧ p.1 ≤ 1 ∧ 0 ≤ p.2) : Interior mesh := by
  refine fun g => ⟨h g, ?_⟩
  by_contra hne
  push Not at hne
  have h0 := hm g X (by simpa using hd)
  have h1 : ((mesh g).map fun p => p.2 * (X : ℝ[X]).eval p.1).sum ≤ 0 := by
    refine list_sum_nonpos fun v hv => ?_
    obtain ⟨p, hp, rfl⟩ := List.mem_map.1 hv
    obtain ⟨a1, -, a3⟩ := h g p hp
    rw [eval_X]
    rcases a1.eq_or_lt with e | e
    · rw [← e, mul_zero]
    · exact mul_nonpos_of_nonpos_of_nonneg (hne p hp e) a1
  rw [h0] at h1
  simp at h1
  linarith

/-- Rules whose nodes lie in the interval with weights which are not negative give meshes with this property. -/
theorem adaptive_inside (q : Recursive) (rule : ℝ → ℝ → List (ℝ × ℝ × ℝ))
    (hr : ∀ a b, a ≤ b → ∀ r ∈ rule a b, a ≤ r.1 ∧ r.1 ≤ b ∧ 0 ≤ r.2.2) (g : ℝ → ℝ) :
    ∀ p ∈ adaptiveMesh q rule g, 0 ≤ p.1 ∧ p.1 ≤ 1 ∧ 0 ≤ p.2 := by
  have key : ∀ (stop : Nat → ℝ → ℝ → Prop) d level a b, a ≤ b → ∀ p ∈ leaves stop d level a b, a ≤ p.1 ∧ p.1 ≤ p.2 ∧ p.2 ≤ b := by
    intro stop d
    induction d with
    | zero =>
      intro level a b hab p hp
      rw [leaves, List.mem_singleton] at hp
      subst hp
      exact ⟨le_rfl, hab, le_rfl⟩
    | succ d ih =>
      intro level a b hab p hp
      rw [leaves] at hp
      split at hp
      · rw [List.mem_singleton] at hp
        subst hp
        exact ⟨le_rfl, hab, le_rfl⟩
      · rcases List.mem_append.1 hp with h | h
        · have := ih _ _ _ (by linarith) p h
          exact ⟨this.1, this.2.1, by linarith⟩
        · have := ih _ _ _ (by linarith) p h
          exact ⟨by linarith, this.2.1, this.2.2⟩
  intro p hp
  rw [adaptiveMesh] at hp
  obtain ⟨l, hl, hp⟩ := List.mem_flatMap.1 hp
  obtain ⟨r, hr', rfl⟩ := List.mem_map.1 hp
  obtain ⟨k1, k2, k3⟩ := key _ _ _ _ _ zero_le_one l hl
  obtain ⟨r1, r2, r3⟩ := hr _ _ k2 r hr'
  exact ⟨by linarith, by linarith, r3⟩

theorem simpson_inside (a b : ℝ) (hab : a ≤ b) : ∀ r ∈ QProg.simpsonRule a b, a ≤ r.1 ∧ r.1 ≤ b ∧ 0 ≤ r.2.2 := by
  intro r hr
  simp only [QProg.simpsonRule, List.mem_cons, List.not_mem_nil, or_false] at hr
  rcases hr with rfl | rfl | rfl | rfl | rfl <;> refine ⟨?_, ?_, ?_⟩ <;> dsimp only <;> linarith

theorem moved_inside {n : Nat} {p w : Nat → ℝ} (h : ∀ i < n, -1 ≤ p i ∧ p i ≤ 1 ∧ 0 < w i) {a b : ℝ} (hab : a ≤ b) :
    ∀ r ∈ QProg.moved n p w a b, a ≤ r.1 ∧ r.1 ≤ b ∧ 0 ≤ r.2 := by
  intro r hr
  obtain ⟨i, hi, rfl⟩ := List.mem_map.1 hr
  obtain ⟨h1, h2, h3⟩ := h i (List.mem_range.1 hi)
  refine ⟨?_, ?_, mul_nonneg (by linarith) h3.le⟩ <;> dsimp only <;> nlinarith

theorem nested_inside {l : Nat} (h1 : 1 ≤ l) (h2 : l ≤ 15) {r : NestedRule} (e : AdaptiveClenshawCurtis.new l = .ok r) (a b : ℝ)
    (hab : a ≤ b) : ∀ q ∈ QProg.nestedRule r a b, a ≤ q.1 ∧ q.1 ≤ b ∧ 0 ≤ q.2.2 := by
  obtain ⟨r', e', c1, c2, f1, f2, -⟩ := (C34_rules l).1 h1
  obtain ⟨r'', e'', -, hc, hw⟩ := AdaptiveClenshawCurtis.new_ok l h1
  obtain rfl := Res.ok.inj (e.symm.trans e')
  obtain rfl := Res.ok.inj (e.symm.trans e'')
  have pos : ∀ k, 1 ≤ k → k ≤ 16 → ∀ i < 2 ^ k + 1, -1 ≤ ClenshawCurtis.pt (2 ^ k) i ∧ ClenshawCurtis.pt (2 ^ k) i ≤ 1 ∧
      0 < ClenshawCurtis.wt (2 ^ k) i := by
    intro k hk1 hk2 i hi
    refine ⟨?_, ?_, ClenshawCurtis.wt_pos _ i Nat.one_le_two_pow ((Nat.pow_le_pow_right (by omega) hk2).trans_eq (by norm_num))⟩
    · rw [ClenshawCurtis.pt]; linarith [Real.cos_le_one (i * Real.pi / (2 ^ k : ℕ))]
    · rw [ClenshawCurtis.pt]; linarith [Real.neg_one_le_cos (i * Real.pi / (2 ^ k : ℕ))]
  intro q hq
  rw [QProg.nestedRule] at hq
  rcases List.mem_append.1 hq with hq | hq
  · obtain ⟨p, hp, rfl⟩ := List.mem_map.1 hq
    rw [c1] at hp
    have := moved_inside (fun i hi => by rw [(hc i (by omega)).1, (hc i (by omega)).2]; exact pos l h1 (by omega) i hi) hab p hp
    exact ⟨this.1, this.2.1, le_rfl⟩
  · obtain ⟨p, hp, rfl⟩ := List.mem_map.1 hq
    rw [f1] at hp
    exact moved_inside (fun i hi => by rw [(hw i (by omega)).1, (hw i (by omega)).2]; exact pos (l + 1) (by omega) (by omega) i hi) hab p hp

theorem Spec.IsMeshOf.weights {o : MapOptions} {mesh : (ℝ → ℝ) → List (ℝ × ℝ)} (h : IsMeshOf o mesh) : WeightsOne mesh := by
  obtain ⟨-, h⟩ := h
  cases ht : o.quadType <;> rw [ht] at h
  · exact exactTo_weights h.2
  · exact exactTo_weights h
  · exact exactTo_weights h

/-- **C62, the quadrature.** For good options the factory selects a quadrature which is a weighted sum over the nodes of the mesh the options
describe, whatever the number of components of the integrand. -/
theorem C62_quadrature {o : MapOptions} (h : GoodQuad o) : ∃ quad mesh, quadrature o = .ok quad ∧ UsesMesh quad mesh ∧
    (∀ n, QuadShape n (quad n)) ∧ IsMeshOf o mesh := by
  rw [quadrature]
  simp only [IsMeshOf]
  cases ht : o.quadType with
  | clenshawCurtis =>
    obtain ⟨h1, h2⟩ := h.fixed ht
    obtain ⟨w, p, e, hin, hlt, -, h4, sw, sp, -⟩ := C32_rule o.quadPts h1 h2 (AdaptiveClenshawCurtis.view o.quadPts)
      (AdaptiveClenshawCurtis.view o.quadPts) le_rfl le_rfl
    have sp' : p.size = o.quadPts := sp
    obtain ⟨u1, u2, -⟩ := C39_clenshawCurtis p w (by rw [sw, sp])
    refine ⟨_, _, by rw [e, Res.bind_ok], u1, u2, ⟨fun g => ⟨moved_inside (by rw [sp']; exact fun i hi => ⟨(hin i hi).1, (hin i hi).2.1, (hin i hi).2.2.2.1⟩) zero_le_one, ?_⟩,
      ⟨_, fun _ _ _ => Filter.Eventually.of_forall fun _ => rfl⟩⟩, ⟨_, rfl, by simp [QProg.moved, sp']⟩, fun g P hP => ?_⟩
    · have hl : o.quadPts - 1 < o.quadPts := by omega
      have h0 : 0 ≤ p.val (o.quadPts - 1) := by
        have hs := (hin 0 (by omega)).2.2.1
        rw [Nat.sub_zero] at hs
        rcases Nat.eq_or_lt_of_le h1 with e1 | e1
        · rw [← e1] at hs ⊢; simp only [Nat.sub_self] at hs ⊢; linarith
        · have := hlt 0 (o.quadPts - 1) (by omega) hl; linarith
      refine ⟨_, List.mem_map.2 ⟨o.quadPts - 1, List.mem_range.2 (by rw [sp']; exact hl), rfl⟩, ?_, ?_⟩
      · dsimp only; linarith
      · dsimp only; have := (hin _ hl).2.2.2.1; linarith
    refine (moved_sum _ _ _ (fun t => P.eval t) 0 1).trans ?_
    rw [sp']
    exact applyRule_exact o.quadPts (o.quadPts - 1) _ _ (fun Q hQ => h4 Q (by omega)) P hP 0 1
  | adaptiveSimpson =>
    obtain ⟨h1, h2⟩ := h.adaptive (by simp [ht])
    obtain ⟨u1, u2, -⟩ := C39_simpson ⟨1, o.quadMaxSub, o.quadMinSub, o.quadAbsTol, o.quadRelTol, .first⟩ rfl h1 h2
    exact ⟨_, _, rfl, u1, u2, ⟨interior_of_exact (by omega) (exact_adaptive _ _ 3 simpson_rule_exact) (adaptive_inside _ _ simpson_inside),
      adaptive_settles _ _ simpson_coarse_sum fun a b => by simpa using simpson_rule_exact 1 (by simp) a b⟩,
      exact_adaptive _ _ 3 simpson_rule_exact⟩
  | adaptiveClenshawCurtis =>
    obtain ⟨h1, h2⟩ := h.adaptive (by simp [ht])
    obtain ⟨h3, h4⟩ := h.nested ht
    have e1 : (o.quadPts + (2 ^ 32 - 2)) % 2 ^ 32 = o.quadPts - 2 := by
      rw [show o.quadPts + (2 ^ 32 - 2) = (o.quadPts - 2) + 2 ^ 32 by omega, Nat.add_mod_right, Nat.mod_eq_of_lt (by omega)]
    have e2 : quadLevel o.quadPts = .ok (Nat.log 2 (o.quadPts - 2)) := by rw [quadLevel, e1, if_neg (by omega)]
    have l1 : 1 ≤ Nat.log 2 (o.quadPts - 2) := Nat.log_pos (by norm_num) (by omega)
    have l2 : Nat.log 2 (o.quadPts - 2) ≤ 15 := by
      have : Nat.log 2 (o.quadPts - 2) < 16 := Nat.log_lt_of_lt_pow (by omega) (by omega)
      omega
    obtain ⟨r, e3, -⟩ := (C34_rules _).1 l1
    obtain ⟨u1, u2, -⟩ := C39_adaptiveCC ⟨1, o.quadMaxSub, o.quadMinSub, o.quadAbsTol, o.quadRelTol, .first⟩ rfl h1 h2 _ l1 r e3
    have hex := exact_adaptive ⟨1, o.quadMaxSub, o.quadMinSub, o.quadAbsTol, o.quadRelTol, .first⟩ _ (2 * 2 ^ Nat.log 2 (o.quadPts - 2))
      fun P hP => nested_rule_exact l1 l2 e3 P (by rw [pow_succ]; omega)
    have := Nat.one_le_two_pow (n := Nat.log 2 (o.quadPts - 2))
    exact ⟨_, _, by rw [e2, Res.bind_ok, e3, Res.bind_ok], u1, u2,
      ⟨interior_of_exact (by omega) hex (adaptive_inside _ _ (nested_inside l1 l2 e3)),
        adaptive_settles _ _ (nested_coarse_sum l1 e3) fun a b => by simpa using nested_rule_exact l1 l2 e3 1 (by simp) a b⟩, hex⟩

/-! ### Components -/

theorem vmax_mem_le {l : List Nat} {n : Nat} (h : n ∈ l) : n ≤ vmax l := by
  induction l with
  | nil => simp at h
  | cons a l ih =>
    simp only [vmax]
    rcases List.mem_cons.1 h with rfl | h
    · omega
    · have := ih h; omega

theorem foldr_max_le {l : List Nat} {N : Nat} (h : ∀ v ∈ l, v ≤ N) : l.foldr max 0 ≤ N := by
  induction l with
  | nil => simp
  | cons a l ih =>
    have h1 := h a (by simp)
    have h2 := ih fun v hv => h v (by simp [hv])
    simp only [List.foldr_cons]
    omega

theorem le_foldr_max {l : List Nat} {n : Nat} (h : n ∈ l) : n ≤ l.foldr max 0 := by
  induction l with
  | nil => simp at h
  | cons a l ih =>
    simp only [List.foldr_cons]
    rcases List.mem_cons.1 h with rfl | h
    · omega
    · have := ih h; omega

section
variable {f : FixedSet} (hb : FixedSet.Built f) {ts : List (List Nat)} (hts : FixedSet.Holds f ts)
include hb hts

theorem maxOrder_le {N : Nat} (hN : ∀ t ∈ ts, ∀ n ∈ t, n ≤ N) : maxOrder f ≤ N := by
  rw [maxOrder, built_degs hb hts]
  refine foldr_max_le fun n hn => ?_
  simp only [FixedSet.degs, List.mem_map] at hn
  obtain ⟨d, -, rfl⟩ := hn
  refine vmax_le fun v hv => ?_
  obtain ⟨t, ht, rfl⟩ := List.mem_map.1 hv
  rw [List.getD_eq_getElem?_getD]
  cases e : t[d]? with
  | none => simp
  | some v => exact hN t ht v (List.mem_of_getElem? e)

theorem le_maxOrder {t : List Nat} (ht : t ∈ ts) {n : Nat} (hn : n ∈ t) : n ≤ maxOrder f := by
  obtain ⟨d, us, hl, hf, hu⟩ := hb.form
  cases hu.unique hts
  have hd : f.dim = d := by rcases hf with rfl | ⟨-, rfl⟩ <;> rfl
  rw [maxOrder, built_degs hb hts]
  obtain ⟨i, hi, rfl⟩ := List.getElem_of_mem hn
  refine le_trans (vmax_mem_le (l := ts.map fun t => t.getD i 0) (List.mem_map.2 ⟨t, ht, ?_⟩)) (le_foldr_max (List.mem_map.2 ⟨i, ?_, rfl⟩))
  · simp [List.getD_eq_getElem?_getD, hi]
  · rw [List.mem_range, hd, ← hl t ht]; exact hi

end

theorem posFunc_ok (o : MapOptions) : IsPosBijector (posFunc o) ∧ (posFunc o).eval = positive o.posFuncType := by
  rw [posFunc]
  cases o.posFuncType with
  | exp => exact ⟨C30_exp, rfl⟩
  | softPlus => exact ⟨C30_softPlus, funext fun x => (C30_softPlus_formula x)⟩


theorem twice_small {b : Basis ℝ} {k : ℝ} (h : ∀ y, b.d1 1 y = k ∧ b.d2 1 y = 0) {M : Nat} (hM : M ≤ 1) (y : ℝ) :
    TwiceAt (upTo b M).eff y := by
  intro n
  have := eff_upTo b M n
  by_cases hn : n ≤ M
  · rw [if_pos hn, Prod.mk.injEq, Prod.mk.injEq] at this
    rw [this.2.1, this.2.2]
    rcases Nat.eq_zero_or_pos n with rfl | h0
    · simp only [Basis.eff]; exact hasDerivAt_const y 0
    · obtain rfl : n = 1 := by omega
      have e : b.eff.d1 1 = fun _ => k := funext fun y => by simp [Basis.eff, (h y).1]
      have e' : b.eff.d2 1 y = 0 := by simp [Basis.eff, (h y).2]
      rw [e, e']; exact hasDerivAt_const y k
  · rw [if_neg hn, Prod.mk.injEq, Prod.mk.injEq] at this
    rw [this.2.1, this.2.2]; exact hasDerivAt_const y 0

theorem Spec.IsBasisOf.mono {o : MapOptions} {P Q : Nat → Prop} {b : Basis ℝ} (h : IsBasisOf o P b) (hPQ : ∀ n, Q n → P n) :
    IsBasisOf o Q b := by
  obtain ⟨a, h1, h2, h3, h4⟩ := h
  exact ⟨a, fun n hn => h1 n (hPQ n hn), h2, h3, fun n hn => h4 n (hPQ n hn)⟩

theorem Spec.IsBasisOf.upTo {o : MapOptions} {N M : Nat} {b : Basis ℝ} (h : IsBasisOf o (fun n => n ≤ N) b) (hM : M ≤ N) :
    IsBasisOf o (fun n => n ≤ M) (Spec.upTo b M) := by
  obtain ⟨a, h1, h2, h3, h4⟩ := h
  refine ⟨a, fun n hn => h1 n (le_trans hn hM), h2, h3, fun n hn => ?_⟩
  rw [← h4 n (le_trans hn hM)]
  funext x
  exact if_pos hn

/-- What is needed of the basis `b` and the quadrature that the options select for orders up to `M`. -/
structure Selected (o : MapOptions) (M : Nat) (b : Basis ℝ) (quad : Nat → QProg) (mesh : (ℝ → ℝ) → List (ℝ × ℝ)) : Prop where
  quad_ok : quadrature o = .ok quad
  usesMesh : UsesMesh quad mesh
  shape : ∀ n, QuadShape n (quad n)
  isMesh : IsMeshOf o mesh
  impl : Implements (class1d o) b M
  read : (class1d o).read M = b
  c1 : C1Basis b.eff
  twice : (Bounded o → M ≤ 1) → ∀ y, TwiceAt b.eff y
  affine : ∀ y, b.d1 1 y = b.d1 1 0
  isBasis : IsBasisOf o (fun n => n ≤ M) b

theorem selected {o : MapOptions} {N M : Nat} (hM : M ≤ N) (hB : GoodBasis o N) (hQ : GoodQuad o) :
    ∃ b quad mesh, Selected o M b quad mesh := by
  obtain ⟨quad, mesh, q1, q2, q3, q4⟩ := C62_quadrature hQ
  obtain ⟨b, b1, b2, b3, ⟨k, b4⟩, b5⟩ := C62_basis hB
  refine ⟨upTo b M, quad, mesh, q1, q2, q3, q4, implements_upTo b1 hM, read_eq b1 hM, c1_upTo b2 M, fun h y => ?_, fun y => ?_, b5.upTo hM⟩
  · by_cases hb : Bounded o
    · exact twice_small b4 (h hb) y
    · refine twice_upTo (b3 y ?_ ?_) M
      · intro l hl; exact (hb (.inl (by rw [Option.mem_def.1 hl]; simp))).elim
      · intro l hl; exact (hb (.inr (by rw [Option.mem_def.1 hl]; simp))).elim
  · simp only [upTo, (b4 _).1]

section
variable {f : FixedSet} (hb : FixedSet.Built f) (hcomp : f.isCompressed = true) (hD : 0 < f.dim) {ts : List (List Nat)}
  (hts : FixedSet.Holds f ts) {o : MapOptions} {b : Basis ℝ} {quad : Nat → QProg} {mesh : (ℝ → ℝ) → List (ℝ × ℝ)}
  (hsel : Selected o (maxOrder f) b quad mesh) (mem : Nat → Option ℝ) (work : List ℝ)
include hb hcomp hD hts hsel

theorem createComponent_ok : ∃ T, createComponent f o mem work = .ok (T, zeros ts.length) ∧ IsComponent o b mesh f.dim ts T ∧
    ∀ q, (∀ t ∈ ts, t.getD (f.dim - 1) 0 ≤ q) → Contracts o (maxOrder f) q T := by
  have hw := built_ofFixed hb hD hts
  obtain ⟨g1, g2⟩ := posFunc_ok o
  have hv : ValidComponent ⟨mk' f.dim f (FixedSet.degs f.dim ts), b, posFunc o, quad, o.contDeriv, o.nugget⟩ f.dim ts :=
    ⟨⟨f, hb, hcomp, rfl, hts, hw⟩, hD, hsel.c1, g1, hsel.shape⟩
  set c : MonotoneComponent := ⟨mk' f.dim f (FixedSet.degs f.dim ts), b, posFunc o, quad, o.contDeriv, o.nugget⟩ with hc
  have hs : ((List.range c.w.cacheSize).map mem).length = c.w.cacheSize := by simp
  obtain ⟨s1, s2, s3⟩ := obj_sizes_component hv ((List.range c.w.cacheSize).map mem) work
  obtain ⟨e1, e2⟩ := C61_evaluates hv _ hs work hsel.usesMesh
  have hl := C61_logdet hv _ hs work
  have haff := C61_affine hv _ hs work hsel.usesMesh hsel.isMesh.weights
  refine ⟨c.obj ((List.range c.w.cacheSize).map mem) work, ?_, ⟨s1, s2, s3, e1, ?_, fun h => (hl h).1, ?_⟩, fun q hq => ⟨?_, ?_, ?_⟩⟩
  · rw [createComponent, hsel.quad_ok, Res.bind_ok, hw, Res.bind_ok, hsel.read]
    simp only [hts.1, Res.bind_ok]
    rfl
  · intro cs x hf
    rw [e2 cs x hf, ← g2]
  · intro h cs x hf
    rw [(hl h).2.2 cs x hf, ← g2]
  · intro h1 h2
    exact (hl h1).2.1 (hsel.twice h2)
  · rintro (h1 | h1) h2 h3
    · have hm := hsel.isMesh
      simp only [IsMeshOf, h1] at hm
      obtain ⟨-, ⟨R, rfl, -⟩, -⟩ := hm
      exact C61_gradient hv _ hs work (hsel.twice h3) hsel.usesMesh h2
    · have ha : AffineLast c.b f.dim ts := ⟨fun t ht => (hq t ht).trans h1, hsel.affine⟩
      refine C61_gradient_mesh hv _ hs work (hsel.twice h3) hsel.usesMesh h2 fun cs x h h' => ?_
      rw [affine_discretised hv ha cs x (hsel.isMesh.weights h), affine_discretised hv ha cs x (hsel.isMesh.weights h')]
  · intro h1 h2 h3 h4
    exact (haff ⟨fun t ht => (hq t ht).trans h1, hsel.affine⟩ (hsel.twice h4) h2 h3).2.2.2.1

end

/-- **C62.** For good options and every compressed set with the multi-indices `ts`, whose largest order is at most `N`, `CreateComponent`
returns the component the options describe with zero coefficients, whatever the scratch memory contains. Its basis and quadrature, which
do not depend on that memory, are those of the options. -/
theorem C62_component_partial {f : FixedSet} (hb : FixedSet.Built f) (hcomp : f.isCompressed = true) (hD : 0 < f.dim) {ts : List (List Nat)}
    (hts : FixedSet.Holds f ts) {o : MapOptions} {N : Nat} (hN : ∀ t ∈ ts, ∀ n ∈ t, n ≤ N) (hB : GoodBasis o N) (hQ : GoodQuad o) :
    ∃ b mesh, IsBasisOf o (fun n => ∃ t ∈ ts, n ∈ t) b ∧ IsMeshOf o mesh ∧ ∀ mem work, ∃ T,
      createComponent f o mem work = .ok (T, zeros ts.length) ∧ IsComponent o b mesh f.dim ts T ∧
      ∀ p q, (∀ t ∈ ts, ∀ n ∈ t, n ≤ p) → (∀ t ∈ ts, t.getD (f.dim - 1) 0 ≤ q) → Contracts o p q T := by
  obtain ⟨b, quad, mesh, h⟩ := selected (maxOrder_le hb hts hN) hB hQ
  refine ⟨b, mesh, h.isBasis.mono ?_, h.isMesh, fun mem work => ?_⟩
  · rintro n ⟨t, ht, hn⟩
    exact le_maxOrder hb hts ht hn
  · obtain ⟨T, h1, h2, h3⟩ := createComponent_ok hb hcomp hD hts h mem work
    refine ⟨T, h1, h2, fun p q hp hq => ?_⟩
    have hle := maxOrder_le hb hts hp
    obtain ⟨c1, c2, c3⟩ := h3 q hq
    exact ⟨fun a1 a2 => c1 a1 fun hb => hle.trans (a2 hb), fun a1 a2 a3 => c2 a1 a2 fun hb => hle.trans (a3 hb),
      fun a1 a2 a3 a4 => c3 a1 a2 a3 fun hb => hle.trans (a4 hb)⟩

/-- **C62.** As built, with zero coefficients, the component multiplies the last input by `g(0)`. -/
theorem C62_initial {o : MapOptions} {b : Basis ℝ} {mesh : (ℝ → ℝ) → List (ℝ × ℝ)} {D : Nat} {ts : List (List Nat)} {T : CMap}
    (h : IsComponent o b mesh D ts T) (hm : IsMeshOf o mesh) {x : List ℝ} (hx : x.length = D) :
    fn T (zeros ts.length) x = [x.getD (D - 1) 0 * positive o.posFuncType 0] ∧
    (o.contDeriv = true → logdet T (zeros ts.length) x = Real.log (positive o.posFuncType 0)) := by
  have hf : Fits T (zeros ts.length) x := ⟨by rw [h.coeffs]; simp [zeros], by rw [h.inputs, hx]⟩
  have e0 : expandAt b.eff D ts (zeros ts.length) = fun _ => 0 := by
    funext x
    simp only [expandAt, expansion]
    refine Finset.sum_eq_zero fun k hk => ?_
    simp [zeros, List.getD_eq_getElem?_getD, List.getElem?_replicate, mem_range.1 hk]
  have e1 : ∀ x, diagD b.eff D ts (zeros ts.length) x = 0 := fun x => by simp [diagD, e0, partialDeriv]
  refine ⟨?_, fun hc => by rw [h.logDet hc _ _ hf, e1]⟩
  have e2 : ∀ x, unitDensity b.eff (positive o.posFuncType) 0 D ts (zeros ts.length) x
      = fun _ => x (D - 1) * positive o.posFuncType 0 := fun x => by
    funext t
    simp [unitDensity, density, e1]
  rw [h.value _ _ hf, discretised, e2]
  simp only [offset, e0]
  rw [List.sum_map_mul_right, hm.weights, one_mul, zero_add]
  rfl

/-! ### Triangular maps -/

theorem maxOrder_total {n : Nat} (hn : 0 < n) (p : Nat) : maxOrder (FixedSet.csr n (MISet.toEnum n p)) = p := by
  have hb : FixedSet.Built (FixedSet.csr n (MISet.toEnum n p)) := .totalOrder (FixedSet.totalOrder_csr n hn p)
  have hts := FixedSet.csr_holds n (MISet.toEnum n p) fun t ht => ((MISet.mem_toEnum _ _ _).1 ht).1
  refine le_antisymm (maxOrder_le hb hts fun t ht m hm => ?_) (le_maxOrder hb hts (t := p :: List.replicate (n - 1) 0) ?_ (by simp))
  · exact (List.le_sum_of_mem hm).trans ((MISet.mem_toEnum _ _ _).1 ht).2
  · rw [MISet.mem_toEnum]
    exact ⟨by simp; omega, by simp⟩

section
variable {o : MapOptions} {p : Nat} {b : Basis ℝ} {quad : Nat → QProg} {mesh : (ℝ → ℝ) → List (ℝ × ℝ)}
  (hsel : Selected o p b quad mesh) (mem : Nat → Option ℝ) (work : List ℝ)
include hsel

theorem total_component {n : Nat} (hn : 0 < n) : ∃ f T ts, FixedSet.totalOrder n p = .ok f ∧
    createComponent f o mem work = .ok (T, zeros ts.length) ∧ IsTotalOrder n p ts ∧ ts.length = (n + p).choose p ∧
    IsComponent o b mesh n ts T ∧ Contracts o p p T := by
  have hl : ∀ t ∈ MISet.toEnum n p, t.length = n := fun t ht => ((MISet.mem_toEnum _ _ _).1 ht).1
  have hh := FixedSet.csr_holds n _ hl
  have hmax := maxOrder_total hn p
  obtain ⟨T, h1, h2, h3⟩ := createComponent_ok (f := FixedSet.csr n (MISet.toEnum n p)) (.totalOrder (FixedSet.totalOrder_csr n hn p))
    rfl hn hh (by rw [hmax]; exact hsel) mem work
  rw [hmax] at h3
  refine ⟨_, T, _, FixedSet.totalOrder_csr n hn p, h1, ⟨MISet.toEnum_sorted n p, MISet.mem_toEnum n p⟩, ?_, h2, h3 p fun t ht => ?_⟩
  · rw [FixedSet.toEnum_length, Nat.choose_symm_add]
  · rw [List.getD_eq_getElem?_getD]
    cases e : t[(FixedSet.csr n (MISet.toEnum n p)).dim - 1]? with
    | none => simp
    | some v => exact (List.le_sum_of_mem (List.mem_of_getElem? e)).trans ((MISet.mem_toEnum _ _ _).1 ht).2

theorem componentLoop_ok (e : Nat) : ∀ n i, i + e + n < 2 ^ 32 → ∃ comps, componentLoop e p o mem work i n = .ok comps ∧ comps.length = n ∧
    ∀ k m, comps[k]? = some m → (∃ ts, IsTotalOrder (e + (i + k) + 1) p ts ∧ ts.length = (e + (i + k) + 1 + p).choose p ∧
      IsComponent o b mesh (e + (i + k) + 1) ts m) ∧ Contracts o p p m := by
  intro n
  induction n with
  | zero => intro i _; exact ⟨[], rfl, rfl, by simp⟩
  | succ n ih =>
    intro i hi
    obtain ⟨rest, r1, r2, r3⟩ := ih (i + 1) (by omega)
    obtain ⟨f, T, ts, t1, t2, t3, t4, t5, t6⟩ := total_component hsel mem work (n := e + i + 1) (by omega)
    refine ⟨T :: rest, ?_, by simp [r2], fun k m hk => ?_⟩
    · rw [componentLoop, Nat.mod_eq_of_lt (by omega), show i + e + 1 = e + i + 1 by omega, t1, Res.bind_ok, t2, Res.bind_ok, r1,
        Res.bind_ok]
    · cases k with
      | zero =>
        obtain rfl : T = m := by simpa using hk
        exact ⟨⟨ts, t3, t4, t5⟩, t6⟩
      | succ k =>
        have := r3 k m (by simpa using hk)
        rwa [show i + 1 + k = i + (k + 1) by omega] at this

end

theorem triangular_of_selected {o : MapOptions} {inputDim outputDim p : Nat} {b : Basis ℝ} {quad : Nat → QProg} {mesh : (ℝ → ℝ) → List (ℝ × ℝ)}
    (hsel : Selected o p b quad mesh) (h0 : 0 < outputDim) (h1 : outputDim ≤ inputDim) (h2 : inputDim < 2 ^ 32) (mem : Nat → Option ℝ)
    (work : List ℝ) : ∃ T comps, componentLoop (inputDim - outputDim) p o mem work 0 outputDim = .ok comps ∧ T = TriangularMap.obj comps ∧
      createTriangular inputDim outputDim p o mem work = .ok (T, zeros T.numCoeffs) ∧
      T.inputDim = inputDim ∧ T.outputDim = outputDim ∧
      T.numCoeffs = ∑ i ∈ range outputDim, (inputDim - outputDim + i + 1 + p).choose p ∧
      T.numCoeffs = (comps.map CMap.numCoeffs).sum ∧ comps.length = outputDim ∧ (∀ i m, comps[i]? = some m → ∃ ts, IsTotalOrder (inputDim - outputDim + i + 1) p ts ∧
        IsComponent o b mesh (inputDim - outputDim + i + 1) ts m) ∧
      Evaluates T ∧ (∀ c x, Fits T c x → fn T c x = stacked comps c x) ∧
      (o.contDeriv = true → HasLogDet T ∧ ∀ c x, Fits T c x → logdet T c x = stackedLogDet comps c x) ∧ Contracts o p p T := by
  have he : (inputDim + (2 ^ 32 - outputDim)) % 2 ^ 32 = inputDim - outputDim := by
    rw [show inputDim + (2 ^ 32 - outputDim) = (inputDim - outputDim) + 2 ^ 32 by omega, Nat.add_mod_right, Nat.mod_eq_of_lt (by omega)]
  obtain ⟨comps, l1, l2, l3⟩ := componentLoop_ok hsel mem work (inputDim - outputDim) outputDim 0 (by omega)
  simp only [Nat.zero_add] at l3
  have hmem : ∀ m ∈ comps, ∃ k, comps[k]? = some m := fun m hm => List.mem_iff_getElem?.1 hm
  have hne : comps ≠ [] := by rintro rfl; simp at l2; omega
  obtain ⟨T, hT⟩ := (C40_new comps).2 ⟨hne, fun m hm => by
      obtain ⟨k, hk⟩ := hmem m hm
      obtain ⟨⟨ts, -, -, h⟩, -⟩ := l3 k m hk
      rw [h.inputs, h.outputs]; omega, by
      rw [List.isChain_iff_getElem]
      intro i hi
      obtain ⟨⟨ts, -, -, h⟩, -⟩ := l3 i _ (List.getElem?_eq_getElem (by omega))
      obtain ⟨⟨ts', -, -, h'⟩, -⟩ := l3 (i + 1) _ (List.getElem?_eq_getElem hi)
      rw [h.inputs, h'.inputs, h'.outputs]; omega⟩
  have hobj : T = TriangularMap.obj comps := (new_triangular.mp hT).2.2
  have hE : ∀ m ∈ comps, Evaluates m := fun m hm => by
    obtain ⟨k, hk⟩ := hmem m hm
    obtain ⟨⟨ts, -, -, h⟩, -⟩ := l3 k m hk
    exact h.evaluates
  have hL : o.contDeriv = true → ∀ m ∈ comps, HasLogDet m := fun hc m hm => by
    obtain ⟨k, hk⟩ := hmem m hm
    obtain ⟨⟨ts, -, -, h⟩, -⟩ := l3 k m hk
    exact h.logDets hc
  have hC : ∀ m ∈ comps, Contracts o p p m := fun m hm => by
    obtain ⟨k, hk⟩ := hmem m hm
    exact (l3 k m hk).2
  obtain ⟨e1, e2⟩ := C40_evaluate hT hE
  refine ⟨T, comps, l1, hobj, ?_, ?_, ?_, ?_, by rw [hobj]; rfl, l2, fun i m hm => ?_, e1, e2, fun hc => C42_sum hT (hL hc), ⟨fun a1 a2 => ?_, fun a1 a2 a3 => ?_,
    fun a1 a2 a3 a4 => ?_⟩⟩
  · rw [createTriangular, he, l1, Res.bind_ok, hT, Res.bind_ok]; rfl
  · rw [hobj]
    obtain ⟨m, hlast⟩ : ∃ m, comps.getLast? = some m := ⟨_, List.getLast?_eq_some_getLast hne⟩
    have hk := hlast
    rw [List.getLast?_eq_getElem?, l2] at hk
    obtain ⟨⟨ts, -, -, h⟩, -⟩ := l3 _ _ hk
    simp only [TriangularMap.obj, hlast, Option.map_some, Option.getD_some]
    rw [h.inputs]; omega
  · rw [hobj]
    have : comps.map CMap.outputDim = List.replicate outputDim 1 := by
      refine List.eq_replicate_iff.2 ⟨by simp [l2], fun v hv => ?_⟩
      obtain ⟨m, hm, rfl⟩ := List.mem_map.1 hv
      obtain ⟨k, hk⟩ := hmem m hm
      obtain ⟨⟨ts, -, -, h⟩, -⟩ := l3 k m hk
      exact h.outputs
    simp only [TriangularMap.obj, this]
    simp
  · rw [hobj]
    have : comps.map CMap.numCoeffs = (List.range outputDim).map fun i => (inputDim - outputDim + i + 1 + p).choose p := by
      refine List.ext_getElem (by simp [l2]) fun i hi hi' => ?_
      simp only [List.getElem_map, List.getElem_range]
      obtain ⟨⟨ts, -, h4, h⟩, -⟩ := l3 i _ (List.getElem?_eq_getElem (by simpa using hi))
      rw [h.coeffs, h4]
    simp only [TriangularMap.obj, this]
    rfl
  · obtain ⟨⟨ts, t1, -, h⟩, -⟩ := l3 i m hm
    exact ⟨ts, t1, h⟩
  · exact C43_logDet hT (hL a1) fun m hm => (hC m hm).logDetGradients a1 a2
  · exact C43_gradient hT hE fun m hm => (hC m hm).gradients a1 a2 a3
  · exact C42_jacobian hT hE (hL a2) fun m hm => (hC m hm).jacobian a1 a2 a3 a4

/-- **C63.** For good options, order `p` and `0 < outputDim ≤ inputDim`, `CreateTriangular` returns with zero coefficients the triangular map
whose output `i` is the component of the options over the multi-indices of total order at most `p` in the first
`inputDim - outputDim + i + 1` inputs, whatever the scratch memory contains. -/
theorem C63_triangular_partial {o : MapOptions} {inputDim outputDim p : Nat} (h0 : 0 < outputDim) (h1 : outputDim ≤ inputDim)
    (h2 : inputDim < 2 ^ 32) (hB : GoodBasis o p) (hQ : GoodQuad o) :
    ∃ b mesh, IsBasisOf o (fun n => n ≤ p) b ∧ IsMeshOf o mesh ∧ ∀ mem work, ∃ T comps,
      createTriangular inputDim outputDim p o mem work = .ok (T, zeros T.numCoeffs) ∧
      T.inputDim = inputDim ∧ T.outputDim = outputDim ∧
      T.numCoeffs = ∑ i ∈ range outputDim, (inputDim - outputDim + i + 1 + p).choose p ∧
      T.numCoeffs = (comps.map CMap.numCoeffs).sum ∧ comps.length = outputDim ∧ (∀ i m, comps[i]? = some m → ∃ ts, IsTotalOrder (inputDim - outputDim + i + 1) p ts ∧
        IsComponent o b mesh (inputDim - outputDim + i + 1) ts m) ∧
      Evaluates T ∧ (∀ c x, Fits T c x → fn T c x = stacked comps c x) ∧
      (o.contDeriv = true → HasLogDet T ∧ ∀ c x, Fits T c x → logdet T c x = stackedLogDet comps c x) ∧ Contracts o p p T := by
  obtain ⟨b, quad, mesh, hsel⟩ := selected le_rfl hB hQ
  refine ⟨b, mesh, hsel.isBasis, hsel.isMesh, fun mem work => ?_⟩
  obtain ⟨T, comps, -, -, r⟩ := triangular_of_selected hsel h0 h1 h2 mem work
  exact ⟨T, comps, r⟩

theorem stacked_initial {o : MapOptions} {b : Basis ℝ} {mesh : (ℝ → ℝ) → List (ℝ × ℝ)} (hm : IsMeshOf o mesh) {p : Nat} (x : List ℝ) :
    ∀ (comps : List CMap) (e : Nat) (c : List ℝ), e + comps.length ≤ x.length → c = zeros (comps.map CMap.numCoeffs).sum →
      (∀ i m, comps[i]? = some m → ∃ ts, IsTotalOrder (e + i + 1) p ts ∧ IsComponent o b mesh (e + i + 1) ts m) →
      stacked comps c x = ((x.drop e).take comps.length).map (· * positive o.posFuncType 0) ∧
      (o.contDeriv = true → stackedLogDet comps c x = comps.length * Real.log (positive o.posFuncType 0)) := by
  intro comps
  induction comps with
  | nil => intro e c _ _ _; simp [stacked, stackedLogDet]
  | cons m ms ih =>
    intro e c hl hc h
    obtain ⟨ts, -, hi⟩ := h 0 m rfl
    have hl' : e + (ms.length + 1) ≤ x.length := by simpa using hl
    have h1 : c.take m.numCoeffs = zeros ts.length := by
      rw [hc, ← hi.coeffs]; simp [zeros]
    have h2 : c.drop m.numCoeffs = zeros (ms.map CMap.numCoeffs).sum := by
      rw [hc]; simp [zeros]
    obtain ⟨a1, a2⟩ := C62_initial hi hm (x := x.take (e + 0 + 1)) (by simp; omega)
    obtain ⟨b1, b2⟩ := ih (e + 1) _ (by omega) h2 fun i m' hm' => by
      have := h (i + 1) m' (by simpa using hm')
      rwa [show e + (i + 1) = e + 1 + i by omega] at this
    have e1 : (x.take (e + 0 + 1)).getD (e + 0 + 1 - 1) 0 = x[e] := by
      simp [List.getD_eq_getElem?_getD, List.getElem?_take, List.getElem?_eq_getElem (by omega : e < x.length)]
    constructor
    · rw [stacked, h1, hi.inputs, a1, b1, e1, List.drop_eq_getElem_cons (by omega : e < x.length)]
      simp only [List.take_succ_cons, List.length_cons, List.map_cons, List.singleton_append]
    · intro hd
      rw [stackedLogDet, h1, hi.inputs, a2 hd, b2 hd]
      push_cast [List.length_cons]
      ring

/-- **C63.** As built, with zero coefficients, the triangular map multiplies the last `outputDim` inputs by `g(0)`. -/
theorem C63_initial_partial {o : MapOptions} {inputDim outputDim p : Nat} (h0 : 0 < outputDim) (h1 : outputDim ≤ inputDim)
    (h2 : inputDim < 2 ^ 32) (hB : GoodBasis o p) (hQ : GoodQuad o) (mem : Nat → Option ℝ) (work : List ℝ) :
    ∃ T c, createTriangular inputDim outputDim p o mem work = .ok (T, c) ∧ ∀ x : List ℝ, x.length = inputDim →
      T.eval c x (zeros outputDim) = .ok ((x.drop (inputDim - outputDim)).map (· * positive o.posFuncType 0)) ∧
      (o.contDeriv = true → T.logDet c x (some 0) = .ok (some (outputDim * Real.log (positive o.posFuncType 0)))) := by
  obtain ⟨b, mesh, -, hm, h⟩ := C63_triangular_partial h0 h1 h2 hB hQ
  obtain ⟨T, comps, t1, t2, t3, -, hn, t5, t6, t7, t8, t9, -⟩ := h mem work
  refine ⟨T, _, t1, fun x hx => ?_⟩
  have hf : Fits T (zeros T.numCoeffs) x := ⟨by simp [zeros], by rw [t2, hx]⟩
  obtain ⟨a1, a2⟩ := stacked_initial hm x comps (inputDim - outputDim) _ (by omega) (congrArg zeros hn) t6
  have e0 := (t7 _ _ hf).2 (zeros outputDim) (by simp [zeros, t3])
  refine ⟨?_, fun hc => ?_⟩
  · rw [e0, t8 _ _ hf, a1, List.take_of_length_le (by simp; omega)]
  · rw [(t9 hc).1 _ _ hf, (t9 hc).2 _ _ hf, a2 hc, t5]

/-- **C63.** More outputs than inputs, or no outputs: `CreateTriangular` does not return normally. -/
theorem C63_rejects {o : MapOptions} {inputDim outputDim p : Nat} (h2 : outputDim < 2 ^ 32) (h : outputDim = 0 ∨ inputDim < outputDim)
    (mem : Nat → Option ℝ) (work : List ℝ) (r : CMap × List ℝ) : createTriangular inputDim outputDim p o mem work ≠ .ok r := by
  rcases h with rfl | h
  · simp [createTriangular, componentLoop, TriangularMap.new]
  · have he : (inputDim + (2 ^ 32 - outputDim)) % 2 ^ 32 = inputDim + (2 ^ 32 - outputDim) := Nat.mod_eq_of_lt (by omega)
    have key : ∀ n i k, k < n → (i + k + (inputDim + (2 ^ 32 - outputDim)) + 1) % 2 ^ 32 = 0 →
        ∀ comps, componentLoop (inputDim + (2 ^ 32 - outputDim)) p o mem work i n ≠ .ok comps := by
      intro n
      induction n with
      | zero => intro i k hk; omega
      | succ n ih =>
        intro i k hk h0 comps e
        rw [componentLoop] at e
        obtain ⟨mset, e1, e⟩ := Res.bind_eq_ok.1 e
        obtain ⟨comp, e2, e⟩ := Res.bind_eq_ok.1 e
        obtain ⟨rest, e3, e⟩ := Res.bind_eq_ok.1 e
        rcases Nat.eq_zero_or_pos k with rfl | hk0
        · rw [show i + 0 = i from rfl] at h0
          rw [h0] at e1
          simp [FixedSet.totalOrder] at e1
        · exact ih (i + 1) (k - 1) (by omega) (by rw [show i + 1 + (k - 1) = i + k by omega]; exact h0) rest e3
    intro e
    rw [createTriangular, he] at e
    obtain ⟨comps, e1, -⟩ := Res.bind_eq_ok.1 e
    refine key outputDim 0 (outputDim - inputDim - 1) (by omega) ?_ comps e1
    rw [show 0 + (outputDim - inputDim - 1) + (inputDim + (2 ^ 32 - outputDim)) + 1 = 2 ^ 32 by omega, Nat.mod_self]

/-- **C62 fails for few points of the nested rule.** With the adaptive Clenshaw–Curtis quadrature and `quadPts = 3` the factory throws, with
`quadPts = 2` it converts the logarithm of 0 to an unsigned integer. -/
theorem C62_fails_nested {o : MapOptions} (h : o.quadType = .adaptiveClenshawCurtis) (f : FixedSet) (mem : Nat → Option ℝ) (work : List ℝ) :
    (o.quadPts = 3 → createComponent f o mem work = .throw) ∧ (o.quadPts = 2 → createComponent f o mem work = .ub) := by
  constructor <;> intro hq
  · have : quadLevel 3 = .ok 0 := by simp [quadLevel]
    rw [createComponent, quadrature]
    simp only [h, hq, this, Res.bind_ok]
    rfl
  · have : quadLevel 2 = .ub := by simp [quadLevel]
    rw [createComponent, quadrature]
    simp only [h, hq, this]
    rfl

/-! ### The theorems apply -/

/-- The default options: adaptive Simpson, normalised probabilists' polynomials, no bounds. -/
theorem good_default (N : Nat) (hN : N ≤ 33) : GoodBasis {} N ∧ GoodQuad {} :=
  ⟨⟨fun l hl => by simp at hl, fun _ _ => by simp_all [Bounded], fun h => by simp [Bounded] at h, fun _ _ => hN⟩,
    ⟨by simp, by simp, by simp⟩⟩

/-- Non-vacuity: the default options with two variables and order three. -/
example (mem : Nat → Option ℝ) (work : List ℝ) : ∃ f T, FixedSet.totalOrder 2 3 = .ok f ∧
    createComponent f {} mem work = .ok (T, zeros 10) ∧ Evaluates T ∧ HasLogDet T ∧ DifferentiatesLogDet T ∧
    fn T (zeros 10) [5, 3] = [3 * Real.log 2] := by
  have h1 := FixedSet.totalOrder_csr 2 (by decide) 3
  have hh := FixedSet.csr_holds 2 (MISet.toEnum 2 3) fun t ht => ((MISet.mem_toEnum 2 3 t).1 ht).1
  have hN : ∀ t ∈ MISet.toEnum 2 3, ∀ n ∈ t, n ≤ 3 := by decide
  obtain ⟨b, mesh, -, hm, h⟩ := C62_component_partial (.totalOrder h1) rfl (by decide) hh hN (good_default 3 (by decide)).1 (good_default 3 (by decide)).2
  obtain ⟨T, t1, t2, t3⟩ := h mem work
  refine ⟨_, T, h1, t1, t2.evaluates, t2.logDets rfl, (t3 3 3 hN (by decide)).logDetGradients rfl (by simp [Bounded]), ?_⟩
  refine (C62_initial t2 hm (x := [5, 3]) rfl).1.trans ?_
  simp only [positive, Real.exp_zero]
  norm_num [FixedSet.csr]

/-- Non-vacuity: unnormalised Hermite polynomials extended beyond -3, five Clenshaw–Curtis points, order one: the whole contract holds. -/
example (mem : Nat → Option ℝ) (work : List ℝ) : ∃ T c, createTriangular 3 2 1
      { basisLB := some (-3), basisNorm := false, quadType := .clenshawCurtis, posFuncType := .exp } mem work = .ok (T, c) ∧
    T.inputDim = 3 ∧ T.outputDim = 2 ∧ T.numCoeffs = 7 ∧ Evaluates T ∧ HasLogDet T ∧ LogDetIsJacobian T ∧ Differentiates T ∧
    DifferentiatesLogDet T := by
  obtain ⟨b, mesh, -, -, h⟩ := C63_triangular_partial (inputDim := 3) (outputDim := 2) (p := 1) (by decide) (by decide) (by decide)
    (o := { basisLB := some (-3), basisNorm := false, quadType := .clenshawCurtis, posFuncType := .exp })
    ⟨fun _ _ u hu => by simp at hu, fun _ _ => rfl, fun _ h => by simp at h, fun _ h => by simp at h⟩
    ⟨by simp, by simp, by simp⟩
  obtain ⟨T, comps, t1, t2, t3, t4, -, -, -, t5, -, t6, t7⟩ := h mem work
  exact ⟨T, _, t1, t2, t3, by rw [t4]; decide, t5, (t6 rfl).1, t7.jacobian le_rfl rfl rfl fun _ => le_rfl,
    t7.gradients (.inl rfl) rfl fun _ => le_rfl, t7.logDetGradients rfl fun _ => le_rfl⟩

/-- Non-vacuity: as built with the exponential and default options otherwise, the map is the identity on the last two of three inputs. -/
example (mem : Nat → Option ℝ) (work : List ℝ) (x y z : ℝ) : ∃ T c,
    createTriangular 3 2 4 { posFuncType := .exp } mem work = .ok (T, c) ∧ T.eval c [x, y, z] (zeros 2) = .ok [y, z] ∧
    T.logDet c [x, y, z] (some 0) = .ok (some 0) := by
  obtain ⟨T, c, h1, h2⟩ := C63_initial_partial (inputDim := 3) (outputDim := 2) (p := 4) (by decide) (by decide) (by decide)
    (o := { posFuncType := .exp })
    ⟨fun l hl => by simp at hl, fun h => by simp [Bounded] at h, fun h => by simp [Bounded] at h, fun _ _ => by decide⟩
    ⟨by simp, by simp, by simp⟩ mem work
  obtain ⟨h3, h4⟩ := h2 [x, y, z] rfl
  refine ⟨T, c, h1, h3.trans ?_, (h4 rfl).trans ?_⟩
  · simp [positive]
  · simp [positive]

end MParT
