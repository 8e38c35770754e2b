import Verif.Props.TriangularLaw
import Verif.Props.Objective
/-!
# C112: the training objective of a triangular map built by the factory

`C54` describes the objective of a map whose log-determinant is the logarithm of the determinant of its own Jacobian. Maps built by `CreateTriangular` with
more than one term per integrand are not of that kind. Here the number that `Objective` returns for them is compared with the negative log-likelihood
of the data under the exact triangular map, which is a true density.
-/
namespace MParT
open Spec Finset MeasureTheory MapFactory

/-- The image of a sample under the exact triangular map: the first `k` entries are the leading inputs. -/
noncomputable def Spec.exactImage (b : Basis ℝ) (g : ℝ → ℝ) (k : Nat) {n : Nat} (ts : Fin n → List (List Nat)) (cs : Fin n → List ℝ) (x : List ℝ) : Fin n → ℝ :=
  exactTriangular b g (x.take k) ts cs fun i => x.getD (k + i) 0

/-- Logarithm of the determinant of the Jacobian of the exact triangular map, in its last `n` inputs, at a sample. -/
noncomputable def Spec.exactLogDet (b : Basis ℝ) (g : ℝ → ℝ) (k : Nat) {n : Nat} (ts : Fin n → List (List Nat)) (cs : Fin n → List ℝ) (x : List ℝ) : ℝ :=
  Real.log (fderiv ℝ (exactTriangular b g (x.take k) ts cs) fun i => x.getD (k + i) 0).det

/-- Minus the average log-likelihood of the data when the exact triangular map carries the data to the reference `d`. -/
noncomputable def Spec.exactObjective (b : Basis ℝ) (g : ℝ → ℝ) (k : Nat) {n : Nat} (ts : Fin n → List (List Nat)) (d : Density) (data : List (List ℝ))
    (cs : Fin n → List ℝ) : ℝ :=
  -(data.map fun x => logp d (List.ofFn (exactImage b g k ts cs x)) + exactLogDet b g k ts cs x).sum / data.length

theorem take_append_tail {k n : Nat} {x : List ℝ} (hx : x.length = k + n) : x.take k ++ List.ofFn (fun i : Fin n => x.getD (k + i) 0) = x := by
  have : List.ofFn (fun i : Fin n => x.getD (k + i) 0) = x.drop k := by
    refine List.ext_getElem (by simp; omega) fun i h1 h2 => ?_
    simp only [List.getElem_ofFn, List.getElem_drop]
    rw [List.getD_eq_getElem?_getD, List.getElem?_eq_getElem]; rfl
  rw [this, List.take_append_drop]

theorem average_close {data : List (List ℝ)} (hne : data ≠ []) {f h : List ℝ → ℝ} {δ : ℝ} (hfh : ∀ x ∈ data, |f x - h x| ≤ δ) :
    |-(data.map f).sum / data.length - -(data.map h).sum / data.length| ≤ δ := by
  have hpos : (0 : ℝ) < data.length := by exact_mod_cast List.length_pos_iff.2 hne
  have hs : |(data.map f).sum - (data.map h).sum| ≤ data.length * δ := by
    clear hne hpos
    induction data with
    | nil => simp
    | cons x xs ih =>
      simp only [List.map_cons, List.sum_cons, List.length_cons]
      have h1 := hfh x (by simp)
      have h2 := ih fun y hy => hfh y (by simp [hy])
      rw [add_sub_add_comm]
      refine (abs_add_le _ _).trans ?_
      push_cast
      linarith
  rw [← sub_div, abs_div, abs_of_pos hpos, div_le_iff₀ hpos, neg_sub_neg, abs_sub_comm, mul_comm δ]
  exact hs

/-- **C112.** What the training objective of a triangular map with leading dimension `k` has to do with the exact negative log-likelihood, where
`split` cuts the coefficients of the map into those of the components. -/
structure Spec.Trains (o : MapOptions) (b : Basis ℝ) (k : Nat) {n : Nat} (ts : Fin n → List (List Nat)) (split : List ℝ → Fin n → List ℝ) (T : CMap) : Prop where
  sizes : T.inputDim = k + n ∧ T.outputDim = n
  /-- The coefficients are cut in the order of the components. -/
  slices : ∀ c : List ℝ, c.length = T.numCoeffs → Slices ts (split c) c
  /-- For every coefficient vector, non-empty data set and reference density the objective is a number. It is within `δ` of the exact one
  when the log-density of the reference changes by at most `δ` between the computed and the exact image of each sample. -/
  objective : ∀ (d : Density) (c : List ℝ) (data : List (List ℝ)), HasDensity d → d.dim = n → c.length = T.numCoeffs → data ≠ [] → (∀ x ∈ data, x.length = k + n) →
    ∃ v, KL.objective T d c data = .ok (some v) ∧ ∀ δ,
      (∀ x ∈ data, |logp d (fn T c x) - logp d (List.ofFn (exactImage b.eff (positive o.posFuncType) k ts (split c) x))| ≤ δ) →
      |v - exactObjective b.eff (positive o.posFuncType) k ts d data (split c)| ≤ δ
  /-- The computed images are within `ε` of the exact ones when the integrands are within `ε/2` of polynomials of the degree of the rule. -/
  images : ∀ (c x : List ℝ), c.length = T.numCoeffs → x.length = k + n → (fn T c x).length = n ∧ ∀ (i : Fin n) (ε : ℝ),
    PolyNear (quadDegree o + 1) (unitDensity b.eff (positive o.posFuncType) 0 (k + i + 1) (ts i) (split c i) (coords x)) ε →
    |(fn T c x).getD i 0 - exactImage b.eff (positive o.posFuncType) k ts (split c) x i| ≤ ε
  /-- `LogDeterminant` is exact. -/
  logDet : ∀ (c x : List ℝ) (out : Option ℝ), c.length = T.numCoeffs → x.length = k + n →
    T.logDet c x out = .ok (some (exactLogDet b.eff (positive o.posFuncType) k ts (split c) x))
  /-- The exact likelihood is one: given the leading inputs, the density it belongs to assigns to every set the mass of its image under a one-to-one
  differentiable map. -/
  likelihood : ∀ (d : Density) (c lead : List ℝ), c.length = T.numCoeffs → lead.length = k →
    Differentiable ℝ (exactTriangular b.eff (positive o.posFuncType) lead ts (split c)) ∧
    Function.Injective (exactTriangular b.eff (positive o.posFuncType) lead ts (split c)) ∧
    ∀ B : Set (Fin n → ℝ), MeasurableSet B →
      lawOf (fun y => Real.exp (logp d (List.ofFn (exactImage b.eff (positive o.posFuncType) k ts (split c) (lead ++ List.ofFn y)))
        + exactLogDet b.eff (positive o.posFuncType) k ts (split c) (lead ++ List.ofFn y))) B
      = lawOf (densityOn d [] n) (exactTriangular b.eff (positive o.posFuncType) lead ts (split c) '' B)

theorem tail_getD {k n : Nat} {lead : List ℝ} (hl : lead.length = k) (y : Fin n → ℝ) : (fun i : Fin n => (lead ++ List.ofFn y).getD (k + i) 0) = y := by
  funext i
  rw [List.getD_eq_getElem?_getD, List.getElem?_append_right (by omega)]
  simp [hl]

theorem trains_of_selected {o : MapOptions} {inputDim outputDim p : Nat} {b : Basis ℝ} {quad : Nat → QProg} {mesh : (ℝ → ℝ) → List (ℝ × ℝ)}
    (hsel : Selected o p b quad mesh) (h0 : 0 < outputDim) (h1 : outputDim ≤ inputDim) (h2 : inputDim < 2 ^ 32) (hB : GoodBasis o p)
    (hcd : o.contDeriv = true) : ∃ ts : Fin outputDim → List (List Nat),
      (∀ i : Fin outputDim, IsTotalOrder (inputDim - outputDim + i + 1) p (ts i)) ∧ ∀ mem work, ∃ T split,
      createTriangular inputDim outputDim p o mem work = .ok (T, zeros T.numCoeffs) ∧ Trains o b (inputDim - outputDim) ts split T := by
  have hb := hsel.isBasis
  obtain ⟨ts, hts, h⟩ := approximates_of_selected hsel h0 h1 h2 hB
  refine ⟨ts, hts, fun mem work => ?_⟩
  obtain ⟨T, t1, hA⟩ := h mem work
  obtain ⟨T', comps, -, -, s1, s2, s3, -, -, -, -, s7, -, s9, -⟩ := triangular_of_selected hsel h0 h1 h2 mem work
  obtain ⟨rfl, -⟩ := Prod.mk.inj (Res.ok.inj (t1.symm.trans s1))
  have hA' : ∀ c : List ℝ, ∃ cs, c.length = T.numCoeffs → Slices ts cs c ∧ ∀ lead : List ℝ, lead.length = inputDim - outputDim → Approximates o b lead ts cs T c :=
    fun c => by
      by_cases hc : c.length = T.numCoeffs
      · obtain ⟨cs, h⟩ := hA c hc
        exact ⟨cs, fun _ => h⟩
      · exact ⟨fun _ => [], fun h => absurd h hc⟩
  choose split hsplit using hA'
  have hbs : ∀ m ≤ p, ContDiff ℝ 1 (b.eff.val m) := fun m hm => isBasis_contDiff hb hB.bounds m hm
  have hps : ∀ i, ∀ t ∈ ts i, ∀ m ∈ t, m ≤ p := fun i t ht m hm => by
    have := ((hts i).2 t).1 ht
    exact (List.single_le_sum (by simp) m hm).trans this.2
  have hg := positive_contDiff o.posFuncType 1
  have hpos := positive_pos' o.posFuncType
  refine ⟨T, split, t1, ⟨by omega, s3⟩, fun c hc => (hsplit c hc).1, fun d c data hd hdim hc hne hx => ?_, fun c x hc hx => ?_, fun c x out hc hx => ?_, fun d c lead hc hl => ?_⟩
  · have hP := ((C52_dimensions (m := T) (d := d) c).1).2 (by rw [s3, hdim])
    obtain ⟨P, hP⟩ := hP
    have hcol : KL.columns (fun x => P.logDensity x (some 0)) data
        = .ok (data.map fun x => some (logp d (fn T c x) + exactLogDet b.eff (positive o.posFuncType) (inputDim - outputDim) ts (split c) x)) :=
      KL.columns_ok fun x h => by
        have hlt : (x.take (inputDim - outputDim)).length = inputDim - outputDim := by simp [hx x h]
        have := (((hsplit c hc).2 _ hlt).density hcd d P hd hP (fun i : Fin outputDim => x.getD (inputDim - outputDim + i) 0) (some 0)).2
        rw [take_append_tail (hx x h)] at this
        rw [this, exactLogDet]
    refine ⟨-(data.map fun x => logp d (fn T c x) + exactLogDet b.eff (positive o.posFuncType) (inputDim - outputDim) ts (split c) x).sum / data.length, ?_,
      fun δ hδ => average_close hne fun x h => ?_⟩
    · rw [KL.objective, hP, Res.bind_ok, hcol, Res.bind_ok]
      have : (data.map fun x => some (logp d (fn T c x) + exactLogDet b.eff (positive o.posFuncType) (inputDim - outputDim) ts (split c) x))
        = (data.map fun x => logp d (fn T c x) + exactLogDet b.eff (positive o.posFuncType) (inputDim - outputDim) ts (split c) x).map some := by simp
      rw [this, KL.sumNegative_eq, KL.average_eq (by simpa using hne)]
    · rw [add_sub_add_right_eq_sub]
      exact hδ x h
  · have hlt : (x.take (inputDim - outputDim)).length = inputDim - outputDim := by simp [hx]
    have h3 := (hsplit c hc).2 _ hlt
    have e := take_append_tail hx
    refine ⟨?_, fun i ε hn => ?_⟩
    · have := h3.outputs fun i => x.getD (inputDim - outputDim + i) 0
      rwa [e] at this
    · have := h3.values (fun i => x.getD (inputDim - outputDim + i) 0) i ε
      rw [e, hlt] at this
      exact this hn
  · have hd := (C53_density (.dim outputDim)).2.1
    obtain ⟨P, hP⟩ := ((C52_dimensions (m := T) (d := (Gaussian.ofDim outputDim).density) c).1).2 s3
    have hlt : (x.take (inputDim - outputDim)).length = inputDim - outputDim := by simp [hx]
    have h4 := (((hsplit c hc).2 _ hlt).density hcd _ P hd hP (fun i : Fin outputDim => x.getD (inputDim - outputDim + i) 0) (some 0)).2
    rw [take_append_tail hx] at h4
    obtain ⟨hdim, rfl⟩ := pull_new.mp hP
    have h5 := (pull_logDensity s7 (s9 hcd).1 hd hdim (c := c) (x := x) ⟨hc, by rw [hx]; omega⟩ (some 0)).symm.trans h4
    rw [(s9 hcd).1 c x ⟨hc, by rw [hx]; omega⟩ out, add_left_cancel (Option.some.inj (Res.ok.inj h5)), exactLogDet]
  · have h3 := (hsplit c hc).2 _ hl
    refine ⟨h3.differentiable, h3.injective, fun B hBm => ?_⟩
    rw [← exact_mass (lead := lead) hbs hps (split c) hg hpos hBm]
    congr 2
    funext y
    rw [exactImage, exactLogDet, List.take_append_of_le_length hl.ge, ← hl, List.take_length, tail_getD rfl, Real.exp_add, Real.exp_log, exact_det hbs hps _ hg,
      mul_comm, densityOn, List.nil_append]
    rw [exact_det hbs hps _ hg]; exact prod_pos fun i _ => hpos _

/-- **C112.** For good options with the derivative of the continuous map, every order and `0 < outputDim ≤ inputDim`, the map built by
`CreateTriangular` trains on the exact negative log-likelihood, up to the change of the reference density caused by the quadrature. -/
theorem C112_objective {o : MapOptions} {inputDim outputDim p : Nat} (h0 : 0 < outputDim) (h1 : outputDim ≤ inputDim)
    (h2 : inputDim < 2 ^ 32) (hB : GoodBasis o p) (hQ : GoodQuad o) (hcd : o.contDeriv = true) :
    ∃ (b : Basis ℝ) (ts : Fin outputDim → List (List Nat)), IsBasisOf o (fun n => n ≤ p) b ∧
      (∀ i : Fin outputDim, IsTotalOrder (inputDim - outputDim + i + 1) p (ts i)) ∧ ∀ mem work, ∃ T split,
      createTriangular inputDim outputDim p o mem work = .ok (T, zeros T.numCoeffs) ∧ Trains o b (inputDim - outputDim) ts split T := by
  obtain ⟨b, quad, mesh, hsel⟩ := selected le_rfl hB hQ
  obtain ⟨ts, hts, h⟩ := trains_of_selected hsel h0 h1 h2 hB hcd
  exact ⟨b, ts, hsel.isBasis, hts, h⟩

/-- **C112.** Training on the standard normal reference: where every integrand at the samples is within `ε/2` of a polynomial of the degree of the rule
and the images under the exact map are at most `R` in size, the objective is the exact one up to `n ε (R + ε/2)`. -/
theorem C112_gaussian {o : MapOptions} {b : Basis ℝ} {k n : Nat} {ts : Fin n → List (List Nat)} {split : List ℝ → Fin n → List ℝ} {T : CMap}
    (h : Trains o b k ts split T) {c : List ℝ} (hc : c.length = T.numCoeffs) {data : List (List ℝ)} (hne : data ≠ []) (hx : ∀ x ∈ data, x.length = k + n)
    {ε R : ℝ} (hn : ∀ x ∈ data, ∀ i : Fin n, PolyNear (quadDegree o + 1)
      (unitDensity b.eff (positive o.posFuncType) 0 (k + i + 1) (ts i) (split c i) (coords x)) ε)
    (hR : ∀ x ∈ data, ∀ i, |exactImage b.eff (positive o.posFuncType) k ts (split c) x i| ≤ R) :
    ∃ v, KL.objective T (Gaussian.ofDim n).density c data = .ok (some v) ∧
      |v - exactObjective b.eff (positive o.posFuncType) k ts (Gaussian.ofDim n).density data (split c)| ≤ n * (ε * (R + ε / 2)) := by
  have hd := C53_density (.dim n)
  obtain ⟨v, hv, hδ⟩ := h.objective (Gaussian.ofDim n).density c data hd.2.1 rfl hc hne hx
  refine ⟨v, hv, hδ _ fun x hxd => ?_⟩
  obtain ⟨hlen, hval⟩ := h.images c x hc (hx x hxd)
  generalize fn T c x = v at hval hlen
  have hvf : v = List.ofFn fun i : Fin n => v.getD i 0 := List.ext_getElem (by simp [hlen]) fun i h1 h2 => by
    simp [List.getElem?_eq_getElem h1]
  rw [hvf, std_logp n (by simp), std_logp n (by simp), List.map_ofFn, List.map_ofFn, List.sum_ofFn, List.sum_ofFn]
  simp only [Function.comp]
  rw [sub_sub_sub_cancel_right, ← mul_sub, ← Finset.sum_sub_distrib, abs_mul]
  calc _ ≤ |-(1 / 2 : ℝ)| * ∑ i : Fin n, (2 * (ε * (R + ε / 2))) := by
        refine mul_le_mul_of_nonneg_left ((Finset.abs_sum_le_sum_abs _ _).trans (Finset.sum_le_sum fun i _ => ?_)) (abs_nonneg _)
        have h1 := hval i ε (hn x hxd i)
        have h2 := hR x hxd i
        generalize exactImage b.eff (positive o.posFuncType) k ts (split c) x i = w at h1 h2
        rw [show v.getD i 0 ^ 2 - w ^ 2 = (v.getD i 0 - w) * (2 * w + (v.getD i 0 - w)) by ring, abs_mul,
          show 2 * (ε * (R + ε / 2)) = ε * (2 * R + ε) by ring]
        refine mul_le_mul h1 ((abs_add_le _ _).trans ?_) (abs_nonneg _) ((abs_nonneg _).trans h1)
        rw [abs_mul, abs_two]
        linarith
    _ = _ := by rw [abs_neg, abs_of_pos (by norm_num : (0 : ℝ) < 1 / 2)]; simp; ring

/-- **C112.** Coefficients that minimise the computed objective over a set up to `η` minimise the exact negative log-likelihood over that set up to
`η + 2 δ`, when the log-density of the reference changes by at most `δ` between computed and exact images for the coefficients in the set. -/
theorem C112_minimiser {o : MapOptions} {b : Basis ℝ} {k n : Nat} {ts : Fin n → List (List Nat)} {split : List ℝ → Fin n → List ℝ} {T : CMap}
    (h : Trains o b k ts split T) {d : Density} (hd : HasDensity d) (hdim : d.dim = n) {data : List (List ℝ)} (hne : data ≠ [])
    (hx : ∀ x ∈ data, x.length = k + n) {S : Set (List ℝ)} (hS : ∀ c ∈ S, c.length = T.numCoeffs) {δ η : ℝ}
    (hδ : ∀ c ∈ S, ∀ x ∈ data, |logp d (fn T c x) - logp d (List.ofFn (exactImage b.eff (positive o.posFuncType) k ts (split c) x))| ≤ δ)
    {c : List ℝ} (hc : c ∈ S)
    (hmin : ∀ c' ∈ S, ∀ v v', KL.objective T d c data = .ok (some v) → KL.objective T d c' data = .ok (some v') → v ≤ v' + η) :
    ∀ c' ∈ S, exactObjective b.eff (positive o.posFuncType) k ts d data (split c)
      ≤ exactObjective b.eff (positive o.posFuncType) k ts d data (split c') + (η + 2 * δ) := by
  intro c' hc'
  obtain ⟨v, hv, hv'⟩ := h.objective d c data hd hdim (hS c hc) hne hx
  obtain ⟨w, hw, hw'⟩ := h.objective d c' data hd hdim (hS c' hc') hne hx
  have h1 := abs_le.1 (hv' δ (hδ c hc))
  have h2 := abs_le.1 (hw' δ (hδ c' hc'))
  have h3 := hmin c' hc' v w hv hw
  linarith [h1.1, h2.2]
