import Verif.Props.Factory
import Verif.Props.MVExpansion
/-!
# C64: expansions built by the factory
-/
namespace MParT
open Spec Finset MapFactory Worker OrthoPoly Hermite

theorem dot_range {s : List ℝ} {m : Nat} (hs : s.length = m) (g : Nat → ℝ) :
    dot s ((List.range m).map g) = ∑ o ∈ range m, s.getD o 0 * g o := by
  have : List.zipWith (· * ·) s ((List.range m).map g) = (List.range m).map fun o => s.getD o 0 * g o := by
    refine List.ext_getElem (by simp [hs]) fun i h1 h2 => ?_
    have : i < s.length := by simp at h2; omega
    simp [List.getD_eq_getElem?_getD, this]
  rw [dot, this]
  rfl

theorem coeffBlock_getD (c : List ℝ) (N o : Nat) {k : Nat} (hk : k < N) : (coeffBlock c N o).getD k 0 = c.getD (o * N + k) 0 := by
  simp [coeffBlock, List.getD_eq_getElem?_getD, List.getElem?_take, hk, List.getElem?_drop]

section
variable {f : FixedSet} (hb : FixedSet.Built f) (hcomp : f.isCompressed = true) (hD : 0 < f.dim) {ts : List (List Nat)}
  (hts : FixedSet.Holds f ts) (b : Basis ℝ) (hc1 : C1Basis b.eff) (m : Nat) (work : Nat → ℝ)
include hb hcomp hD hts hc1

theorem diffAt_weighted {nc : Nat} {s cs x : List ℝ} (hn : m * ts.length ≤ nc) :
    DiffAt nc f.dim (fun cs x => weighted b.eff f.dim ts m cs s (coords x)) cs x := by
  refine diffAt_sum _ _ fun o ho => (diffAt_const _).mul ?_
  have ho := mem_range.1 ho
  simp only [expandAt, expansion]
  refine diffAt_sum _ _ fun k hk => ?_
  have hk := mem_range.1 hk
  simp only [coeffBlock_getD _ _ _ hk]
  have hb := block_bound ho hn
  simp only [termProd]
  refine (diffAt_coeff ?_).mul (diffAt_prod _ _ fun d hd => ?_)
  · rw [Nat.add_mul, Nat.one_mul] at hb; omega
  · exact (diffAt_coord (mem_range.1 hd)).comp (hc1.d1 _ _)

/-- **C64.** A `MultivariateExpansion` computes the expansions and their gradients, whatever the output and the scratch memory contained. -/
theorem C64_expansion : ∃ w, ofFixed f = .ok w ∧ IsExpansion b m f.dim ts (MultivariateExpansion.obj w b m work) := by
  have hw := built_ofFixed hb hD hts
  refine ⟨_, hw, ?_⟩
  generalize hwdef : mk' f.dim f (FixedSet.degs f.dim ts) = w at hw
  have hdim : w.dim = f.dim := by rw [← hwdef]; rfl
  have hsz : w.multiSet.size = .ok ts.length := by rw [← hwdef]; exact hts.1
  have hnc : (MultivariateExpansion.obj w b m work).numCoeffs = ts.length * m := by simp only [MultivariateExpansion.obj, hsz]
  have hin : (MultivariateExpansion.obj w b m work).inputDim = f.dim := hdim
  have key : ∀ c x, Fits (MultivariateExpansion.obj w b m work) c x → ∀ out : List ℝ, out.length = m →
      (MultivariateExpansion.obj w b m work).eval c x out = .ok ((List.range m).map fun o =>
        expandAt b.eff f.dim ts (coeffBlock c ts.length o) (coords x)) := by
    intro c x hf out ho
    rw [Fits, hnc, hin] at hf
    obtain ⟨w', hw', h⟩ := C60_evaluate hb hcomp hD hts b m c (by rw [hf.1, Nat.mul_comm]) x hf.2
    rw [hw] at hw'; cases hw'
    simp only [MultivariateExpansion.obj, h, Res.bind_ok]
    rw [if_pos ho.ge, List.drop_of_length_le ho.le, List.append_nil]
    rfl
  have key' : ∀ c x, Fits (MultivariateExpansion.obj w b m work) c x → fn (MultivariateExpansion.obj w b m work) c x
      = (List.range m).map fun o => expandAt b.eff f.dim ts (coeffBlock c ts.length o) (coords x) := by
    intro c x hf
    rw [fn, key c x hf _ (by simp [zeros, MultivariateExpansion.obj])]
    rfl
  refine ⟨hin, rfl, hnc, fun c x hf => ⟨by rw [key' c x hf]; simp [MultivariateExpansion.obj],
    fun out ho => by rw [key c x hf out ho, key' c x hf]⟩, key', ?_⟩
  intro c x s hf hs
  have hs : s.length = m := hs
  have hf' := hf
  rw [Fits, hnc, hin] at hf'
  have hG : ∀ out out' : List ℝ, out.length = ts.length * m → out'.length = f.dim → ∃ j j' : List ℝ,
      (MultivariateExpansion.obj w b m work).coeffGrad c x s out = .ok j ∧ (MultivariateExpansion.obj w b m work).grad c x s out' = .ok j' ∧
      IsGradient (ts.length * m) f.dim (fun c x => dot s (fn (MultivariateExpansion.obj w b m work) c x)) c x j j' := by
    intro out out' ho ho'
    have hle : m * ts.length ≤ c.length := by rw [hf'.1, Nat.mul_comm]
    obtain ⟨w1, j', hw1, e1, l1, d1⟩ := C60_gradient hb hcomp hD hts b hc1 m c hle x hf'.2 s hs.ge ((List.range x.length).map work) (by simp)
    rw [hw] at hw1; cases hw1
    obtain ⟨w2, j, hw2, e2, l2, d2⟩ := C60_coeffGrad hb hcomp hD hts b hc1 m c hle x hf'.2 s hs.ge ((List.range ts.length).map work) out
      (by simp) (by rw [ho, Nat.mul_comm])
    rw [hw] at hw2; cases hw2
    refine ⟨j, j', ?_, ?_, IsGradient.congr (f := fun c x => weighted b.eff f.dim ts m c s (coords x)) ?_ fun c x h4 h5 => ?_⟩
    · simp only [MultivariateExpansion.obj, hsz, Res.bind_ok, e2]
    · simp only [MultivariateExpansion.obj, e1, Res.bind_ok]
      rw [if_pos (by omega), List.drop_of_length_le (by omega), List.append_nil]
    · refine (diffAt_weighted hb hcomp hD hts b hc1 m (by rw [Nat.mul_comm])).isGradient hf'.1 hf'.2 (by rw [l2, Nat.mul_comm]) l1
        (fun k hk => ?_) fun e he => ?_
      · have hN : 0 < ts.length := Nat.pos_of_ne_zero fun h => by rw [h] at hk; omega
        have h1 : k / ts.length < m := (Nat.div_lt_iff_lt_mul hN).2 (by rw [Nat.mul_comm]; exact hk)
        have := d2 (k / ts.length) (k % ts.length) h1 (Nat.mod_lt _ hN) (c.getD k 0)
        rwa [Nat.mul_comm, Nat.div_add_mod] at this
      · simp only [coords_set (show e < x.length by omega)]
        exact d1 e he
    · beta_reduce
      rw [key' c x ⟨by omega, by omega⟩, dot_range hs]
      rfl
  obtain ⟨j, j', e, e', hgr⟩ := hG (zeros (ts.length * m)) (zeros f.dim) (by simp [zeros]) (by simp [zeros])
  have u1 : coeffGrad (MultivariateExpansion.obj w b m work) c x s = j := by rw [coeffGrad, hnc, e]; rfl
  have u2 : grad (MultivariateExpansion.obj w b m work) c x s = j' := by rw [grad, hin, e']; rfl
  rw [u1, u2, hin, hnc]
  refine ⟨fun out ho => ?_, fun _ out ho => ?_, hgr⟩
  · obtain ⟨i, i', -, ei', hi⟩ := hG (zeros (ts.length * m)) out (by simp [zeros]) ho
    rw [ei', (IsGradient.unique hgr hi hf'.1 hf'.2).2]
  · obtain ⟨i, i', ei, -, hi⟩ := hG out (zeros f.dim) ho (by simp [zeros])
    rw [ei, (IsGradient.unique hgr hi hf'.1 hf'.2).1]

end

/-- **C64.** For good options and every compressed set with the multi-indices `ts`, whose largest order is at most `N`, `CreateExpansion` returns
the expansion the options describe with zero coefficients, and it meets the contract of a parameterised function. -/
theorem C64_createExpansion_partial {f : FixedSet} (hb : FixedSet.Built f) (hcomp : f.isCompressed = true) (hD : 0 < f.dim)
    {ts : List (List Nat)} (hts : FixedSet.Holds f ts) {o : MapOptions} {N : Nat} (hN : ∀ t ∈ ts, ∀ n ∈ t, n ≤ N) (hB : GoodBasis o N) (m : Nat) :
    ∃ b, IsBasisOf o (fun n => ∃ t ∈ ts, n ∈ t) b ∧ ∀ work, ∃ T,
      createExpansion m f o work = .ok (T, zeros (ts.length * m)) ∧ IsExpansion b m f.dim ts T := by
  obtain ⟨b, b1, b2, -, -, b5⟩ := C62_basis hB
  have hM := maxOrder_le hb hts hN
  refine ⟨upTo b (maxOrder f), (b5.upTo hM).mono ?_, fun work => ?_⟩
  · rintro n ⟨t, ht, hn⟩
    exact le_maxOrder hb hts ht hn
  · obtain ⟨w, hw, h⟩ := C64_expansion hb hcomp hD hts (upTo b (maxOrder f)) (c1_upTo b2 _) m work
    refine ⟨_, ?_, h⟩
    rw [createExpansion, hw, Res.bind_ok, read_eq b1 hM, withZeros, h.coeffs]
    rfl

/-! ### Finite bounds with the default normalisation -/

/-- The total-order set of one variable and order one, and the worker for it. -/
def lineSet : FixedSet := ⟨1, true, [0, 0, 1], [0], [1], [1]⟩
@[inherit_doc lineSet]
def lineWorker : Worker := ⟨1, lineSet, [0, 2, 4, 6], [1], 6⟩

theorem line_ok : FixedSet.totalOrder 1 1 = .ok lineSet ∧ ofFixed lineSet = .ok lineWorker ∧ maxOrder lineSet = 1 := by decide

theorem line_value (b : Basis ℝ) (c0 c1 x : ℝ) : ∃ v, mvEvaluate lineWorker b [c0, c1] 1 [x] = .ok [v] ∧ v = c0 + c1 * b.val 1 x := by
  refine ⟨_, rfl, ?_⟩
  ring_nf

theorem line_gradient (b : Basis ℝ) (c0 c1 x s g : ℝ) : ∃ v,
    mvGradient lineWorker b [c0, c1] 1 [x] [s] [g] = .ok [v] ∧ v = s * c1 * b.d1 1 x := by
  refine ⟨_, rfl, ?_⟩
  ring_nf

/-- **C64 fails with finite bounds and the default normalisation.** The function of one variable and order one that `CreateExpansion`
returns has, right of the bounds, the slope 1 with the coefficients 0 and 1, while `Gradient` returns another number. -/
theorem C64_fails_normalized {o : MapOptions} {lb ub : ℝ} (h1 : o.basisType = .probabilistHermite) (h2 : o.basisLB = some lb)
    (h3 : o.basisUB = some ub) (hlt : lb < ub) (h4 : o.basisNorm = true) (work : Nat → ℝ) :
    ∃ f T, FixedSet.totalOrder 1 1 = .ok f ∧ createExpansion 1 f o work = .ok (T, [0, 0]) ∧ ∀ x, ub < x →
      HasDerivAt (fun y => (fn T [0, 1] [y]).getD 0 0) 1 x ∧
      ∃ v, T.grad [0, 1] [x] [1] [0] = .ok [v] ∧ v ≠ 1 := by
  obtain ⟨l1, l2, l3⟩ := line_ok
  have hcls : class1d o = LinearizedBasis.toBasis (probabilistHermite true).toBasis lb ub := by
    rw [class1d, plainClass, isLinearized, h1, h2, h3, h4]; rfl
  refine ⟨_, MultivariateExpansion.obj lineWorker ((LinearizedBasis.toBasis (probabilistHermite true).toBasis lb ub).read 1) 1 work, l1, ?_,
    fun x hx => ⟨?_, ?_⟩⟩
  · rw [createExpansion, l2, Res.bind_ok, hcls, l3]; rfl
  · have hv : ∀ y, ub < y → (fn (MultivariateExpansion.obj lineWorker
        ((LinearizedBasis.toBasis (probabilistHermite true).toBasis lb ub).read 1) 1 work) [0, 1] [y]).getD 0 0
          = ub / (probabilistHermite true).normalization 1 + 1 * (y - ub) := by
      intro y hy
      obtain ⟨v, e, hv⟩ := line_value ((LinearizedBasis.toBasis (probabilistHermite true).toBasis lb ub).read 1) 0 1 y
      rw [fn]
      simp only [MultivariateExpansion.obj, e, Res.bind_ok]
      rw [if_pos (by simp [zeros])]
      simp only [value, zeros, List.getD_cons_zero, List.cons_append]
      rw [hv, zero_add, one_mul]
      simp only [Basis1d.read, le_refl, if_true]
      rw [show List.replicate (1 + 1) (0 : ℝ) = [0, 0] from rfl, (linearized_normalized lb ub y hlt hy).1]
      rfl
    refine HasDerivAt.congr_of_eventuallyEq ?_ ((eventually_gt_nhds hx).mono fun y hy => hv y hy)
    refine ((((hasDerivAt_id x).sub_const ub).const_mul 1).const_add _).congr_deriv (by simp)
  · obtain ⟨v, e, hv⟩ := line_gradient ((LinearizedBasis.toBasis (probabilistHermite true).toBasis lb ub).read 1) 0 1 x 1 (work 0)
    refine ⟨v, ?_, ?_⟩
    · simp only [MultivariateExpansion.obj]
      rw [show (List.range [x].length).map work = [work 0] from rfl, e, Res.bind_ok]
      rfl
    · rw [hv, one_mul, one_mul]
      simp only [Basis1d.read, le_refl, if_true]
      rw [show List.replicate (1 + 1) (0 : ℝ) = [0, 0] from rfl, (linearized_normalized lb ub x hlt hx).2.1]
      exact (linearized_normalized lb ub x hlt hx).2.2.symm

/-- Non-vacuity: three outputs, two variables, order three, Hermite functions extended beyond ±4. -/
example (work : Nat → ℝ) : ∃ f T, FixedSet.totalOrder 2 3 = .ok f ∧
    createExpansion 3 f { basisType := .hermiteFunctions, basisLB := some (-4), basisUB := some 4 } work = .ok (T, zeros 30) ∧
    Evaluates T ∧ Differentiates T := by
  have h1 := FixedSet.totalOrder_csr 2 (by decide) 3
  have hh := FixedSet.csr_holds 2 (MISet.toEnum 2 3) fun t ht => ((MISet.mem_toEnum 2 3 t).1 ht).1
  obtain ⟨b, -, h⟩ := C64_createExpansion_partial (.totalOrder h1) rfl (by decide) hh (N := 3) (by decide)
    (o := { basisType := .hermiteFunctions, basisLB := some (-4), basisUB := some 4 })
    ⟨fun l hl u hu => by simp at hl hu; linarith, fun _ h => by simp at h, fun _ _ => by decide, fun h => by simp at h⟩ 3
  obtain ⟨T, t1, t2⟩ := h work
  exact ⟨_, T, h1, t1, t2.evaluates, t2.gradients⟩

end MParT
