import Verif.Props.FirstOrder
/-!
# C123: a map with more terms can do whatever a map with fewer can
-/
namespace MParT
open Finset Spec MapFactory

theorem selected_family {o : MapOptions} {N : ℕ} (hB : GoodBasis o N) (hQ : GoodQuad o) : ∃ b quad mesh, ∀ M ≤ N, Selected o M (upTo b M) quad mesh := by
  obtain ⟨quad, mesh, q1, q2, q3, q4⟩ := C62_quadrature hQ
  obtain ⟨b, b1, b2, b3, ⟨k, b4⟩, b5⟩ := C62_basis hB
  refine ⟨b, quad, mesh, fun M hM => ⟨q1, q2, q3, q4, implements_upTo b1 hM, read_eq b1 hM, c1_upTo b2 M, fun h y => ?_, fun y => ?_, b5.upTo hM⟩⟩
  · by_cases hb : Bounded o
    · exact twice_small b4 (h hb) y
    · refine twice_upTo (b3 y ?_ ?_) M
      · intro l hl; exact (hb (.inl (by rw [Option.mem_def.1 hl]; simp))).elim
      · intro l hl; exact (hb (.inr (by rw [Option.mem_def.1 hl]; simp))).elim
  · simp only [upTo, (b4 _).1]

/-- Expansions over some of the terms are expansions over all of them. -/
theorem nested_expand {b b' : Basis ℝ} {D : ℕ} {ts ts' : List (List ℕ)} (hsub : ∀ t ∈ ts, t ∈ ts') (hl : ∀ t ∈ ts, t.length = D)
    (hb : ∀ t ∈ ts, ∀ m ∈ t, ∀ x, b.val m x = b'.val m x) (c : List ℝ) :
    ∃ c' : List ℝ, c'.length = ts'.length ∧ expandAt b' D ts' c' = expandAt b D ts c := by
  have h : Reps b' D ts' fun X => ∑ k ∈ range ts.length, c.getD k 0 * ∏ d ∈ range D, b.val ((ts.getD k []).getD d 0) (X d) := by
    refine Reps.sum _ fun k hk => Reps.mul _ ?_
    have hm : ts.getD k [] ∈ ts := by
      rw [List.getD_eq_getElem?_getD, List.getElem?_eq_getElem (mem_range.1 hk)]
      exact List.getElem_mem _
    generalize ts.getD k [] = t at hm
    have e : List.ofFn (fun i : Fin D => t.getD i 0) = t := List.ext_getElem (by simp [hl t hm]) fun i h1 h2 => by simp [h2]
    have := Reps.term (b := b') (fun i : Fin D => t.getD i 0) (by rw [e]; exact hsub t hm)
    refine Eq.mp (congrArg _ (funext fun X => ?_)) this
    rw [Fin.prod_univ_eq_prod_range (fun d => b'.val (t.getD d 0) (X d)) D]
    refine prod_congr rfl fun d hd => ?_
    refine (hb t hm _ ?_ _).symm
    rw [List.getD_eq_getElem?_getD, List.getElem?_eq_getElem (by rw [hl t hm]; exact mem_range.1 hd)]
    exact List.getElem_mem _
  obtain ⟨c', h1, h2⟩ := h.expand
  exact ⟨c', h1, funext h2⟩

theorem upTo_agree (b : Basis ℝ) {M M' m : ℕ} (hm : m ≤ M) (hm' : m ≤ M') (x : ℝ) : (upTo b M).eff.val m x = (upTo b M').eff.val m x := by
  simp only [Basis.eff, upTo, if_pos hm, if_pos hm']

theorem held_lengths {f : FixedSet} (hb : FixedSet.Built f) {ts : List (List ℕ)} (hts : FixedSet.Holds f ts) : ∀ t ∈ ts, t.length = f.dim := by
  obtain ⟨d, us, hl, hf, hu⟩ := hb.form
  cases hu.unique hts
  have hd : f.dim = d := by rcases hf with rfl | ⟨-, rfl⟩ <;> rfl
  rw [hd]
  exact hl

/-- The map `T'` with the coefficients `c'` does what `T` does with `c`: it has the same values and log-determinants, and the same objective for every reference density and
every data set. -/
structure Spec.DoesWhat (T' : CMap) (c' : List ℝ) (T : CMap) (c : List ℝ) : Prop where
  coeffs : c'.length = T'.numCoeffs
  value : ∀ x : List ℝ, x.length = T.inputDim → fn T' c' x = fn T c x
  logDet : ∀ (x : List ℝ) (out : Option ℝ), x.length = T.inputDim → T'.logDet c' x out = T.logDet c x out
  objective : ∀ (d : Density) (data : List (List ℝ)), HasDensity d → d.dim = T.outputDim → (∀ x ∈ data, x.length = T.inputDim) →
    KL.objective T' d c' data = KL.objective T d c data

theorem does_what {T T' : CMap} {c c' : List ℝ} (hi : T'.inputDim = T.inputDim) (ho : T'.outputDim = T.outputDim) (hE : Evaluates T) (hE' : Evaluates T') (hL : HasLogDet T)
    (hL' : HasLogDet T') (hc : c.length = T.numCoeffs) (hc' : c'.length = T'.numCoeffs) (hv : ∀ x : List ℝ, x.length = T.inputDim → fn T' c' x = fn T c x)
    (hl : ∀ x : List ℝ, x.length = T.inputDim → logdet T' c' x = logdet T c x) : DoesWhat T' c' T c := by
  refine ⟨hc', hv, fun x out hx => ?_, fun d data hd hdim hx => ?_⟩
  · rw [hL c x ⟨hc, hx⟩ out, hL' c' x ⟨hc', by rw [hi]; exact hx⟩ out, hl x hx]
  · obtain ⟨P, hP⟩ := ((C52_dimensions (m := T) (d := d) c).1).2 hdim.symm
    obtain ⟨P', hP'⟩ := ((C52_dimensions (m := T') (d := d) c').1).2 (ho.trans hdim.symm)
    have e1 : KL.columns (fun x => P.logDensity x (some 0)) data = .ok (data.map fun x => some (logp d (fn T c x) + logdet T c x)) := KL.columns_ok fun x h => by
      obtain ⟨h1, rfl⟩ := pull_new.mp hP
      exact pull_logDensity hE hL hd h1 ⟨hc, hx x h⟩ (some 0)
    have e2 : KL.columns (fun x => P'.logDensity x (some 0)) data = .ok (data.map fun x => some (logp d (fn T c x) + logdet T c x)) := KL.columns_ok fun x h => by
      obtain ⟨h1, rfl⟩ := pull_new.mp hP'
      rw [← hv x (hx x h), ← hl x (hx x h)]
      exact pull_logDensity hE' hL' hd h1 ⟨hc', by rw [hi]; exact hx x h⟩ (some 0)
    rw [KL.objective, KL.objective, hP, hP', Res.bind_ok, Res.bind_ok, e1, e2]

/-- Components with the same expansion compute the same. -/
theorem same_component {o : MapOptions} {b b' : Basis ℝ} {D : ℕ} {ts ts' : List (List ℕ)} {c c' : List ℝ}
    (h : expandAt b'.eff D ts' c' = expandAt b.eff D ts c) : offset b'.eff D ts' c' = offset b.eff D ts c ∧ diagD b'.eff D ts' c' = diagD b.eff D ts c ∧
      ∀ X, unitDensity b'.eff (positive o.posFuncType) 0 D ts' c' X = unitDensity b.eff (positive o.posFuncType) 0 D ts c X := by
  have hd : diagD b'.eff D ts' c' = diagD b.eff D ts c := by funext X; simp only [diagD, h]
  exact ⟨by funext X; simp only [offset, h], hd, fun X => by funext s; simp only [unitDensity, density, hd]⟩

/-- **C123.** Whatever a component over the terms of `f` can do, a component over a set `f'` with these and further terms can do. -/
theorem C123_component {f f' : FixedSet} (hb : FixedSet.Built f) (hcomp : f.isCompressed = true) (hb' : FixedSet.Built f') (hcomp' : f'.isCompressed = true)
    (hdim : f'.dim = f.dim) (hD : 0 < f.dim) {ts ts' : List (List ℕ)} (hts : FixedSet.Holds f ts) (hts' : FixedSet.Holds f' ts') (hsub : ∀ t ∈ ts, t ∈ ts')
    {o : MapOptions} {N : ℕ} (hN : ∀ t ∈ ts', ∀ n ∈ t, n ≤ N) (hB : GoodBasis o N) (hQ : GoodQuad o) (hcd : o.contDeriv = true) {mem mem' : ℕ → Option ℝ} {work work' : List ℝ}
    {T T' : CMap} {w w' : List ℝ} (hT : createComponent f o mem work = .ok (T, w)) (hT' : createComponent f' o mem' work' = .ok (T', w')) {c : List ℝ}
    (hc : c.length = T.numCoeffs) : ∃ c', DoesWhat T' c' T c := by
  obtain ⟨b, quad, mesh, hsel⟩ := selected_family hB hQ
  have hN1 := maxOrder_le hb hts fun t ht => hN t (hsub t ht)
  have hN2 := maxOrder_le hb' hts' hN
  obtain ⟨T1, h1, hC, -⟩ := createComponent_ok hb hcomp hD hts (hsel _ hN1) mem work
  obtain ⟨T2, h2, hC', -⟩ := createComponent_ok hb' hcomp' (by omega) hts' (hsel _ hN2) mem' work'
  obtain ⟨rfl, -⟩ := Prod.mk.inj (Res.ok.inj (hT.symm.trans h1))
  obtain ⟨rfl, -⟩ := Prod.mk.inj (Res.ok.inj (hT'.symm.trans h2))
  rw [hdim] at hC'
  obtain ⟨c', l, e⟩ := nested_expand (b := (upTo b (maxOrder f)).eff) (b' := (upTo b (maxOrder f')).eff) (D := f.dim) hsub (held_lengths hb hts)
    (fun t ht m hm x => upTo_agree b (le_maxOrder hb hts ht hm) (le_maxOrder hb' hts' (hsub t ht) hm) x) c
  obtain ⟨s1, s2, s3⟩ := same_component (o := o) e
  have hc' : c'.length = T'.numCoeffs := by rw [l, hC'.coeffs]
  refine ⟨c', does_what (by rw [hC.inputs, hC'.inputs]) (by rw [hC.outputs, hC'.outputs]) hC.evaluates hC'.evaluates (hC.logDets hcd) (hC'.logDets hcd) hc hc'
    (fun x hx => ?_) fun x hx => ?_⟩
  · rw [hC.value c x ⟨hc, hx⟩, hC'.value c' x ⟨hc', by rw [hC'.inputs, hx, hC.inputs]⟩, s3, discretised, discretised, s1, s3]
  · rw [hC.logDet hcd c x ⟨hc, hx⟩, hC'.logDet hcd c' x ⟨hc', by rw [hC'.inputs, hx, hC.inputs]⟩, s2]

/-- **C123.** Whatever a triangular map of order `p` can do, one of a higher order can do. -/
theorem C123_triangular {o : MapOptions} {k n p p' : ℕ} (h0 : 0 < n) (h2 : k + n < 2 ^ 32) (hp : p ≤ p') (hB : GoodBasis o p') (hQ : GoodQuad o) (hcd : o.contDeriv = true)
    {mem mem' : ℕ → Option ℝ} {work work' : List ℝ} {T T' : CMap} {w w' : List ℝ} (hT : createTriangular (k + n) n p o mem work = .ok (T, w))
    (hT' : createTriangular (k + n) n p' o mem' work' = .ok (T', w')) {c : List ℝ} (hc : c.length = T.numCoeffs) : ∃ c', DoesWhat T' c' T c := by
  obtain ⟨b, quad, mesh, hsel⟩ := selected_family hB hQ
  obtain ⟨ts, hts, h⟩ := splits_of_selected (k := k) (hsel p hp) h0 h2 hcd
  obtain ⟨ts', hts', h'⟩ := splits_of_selected (k := k) (hsel p' le_rfl) h0 h2 hcd
  obtain ⟨T1, split, t1, hS⟩ := h mem work
  obtain ⟨T2, split', t2, hS'⟩ := h' mem' work'
  obtain ⟨rfl, -⟩ := Prod.mk.inj (Res.ok.inj (hT.symm.trans t1))
  obtain ⟨rfl, -⟩ := Prod.mk.inj (Res.ok.inj (hT'.symm.trans t2))
  obtain ⟨T1, comps, -, -, r1, r2, r3, -, -, -, -, r7, -, r9, -⟩ := triangular_of_selected (inputDim := k + n) (outputDim := n) (hsel p hp) h0 (by omega) h2 mem work
  obtain ⟨T2, comps', -, -, q1, q2, q3, -, -, -, -, q7, -, q9, -⟩ := triangular_of_selected (inputDim := k + n) (outputDim := n) (hsel p' le_rfl) h0 (by omega) h2 mem' work'
  obtain ⟨rfl, -⟩ := Prod.mk.inj (Res.ok.inj (hT.symm.trans r1))
  obtain ⟨rfl, -⟩ := Prod.mk.inj (Res.ok.inj (hT'.symm.trans q1))
  choose cs hl hcs using fun i : Fin n => nested_expand (b := (upTo b p).eff) (b' := (upTo b p').eff) (D := k + i + 1) (ts := ts i) (ts' := ts' i)
    (fun t ht => ((hts' i).2 t).2 ⟨(((hts i).2 t).1 ht).1, (((hts i).2 t).1 ht).2.trans hp⟩) (fun t ht => (((hts i).2 t).1 ht).1)
    (fun t ht m hm x => by
      have := (List.single_le_sum (by simp) m hm).trans (((hts i).2 t).1 ht).2
      exact upTo_agree b this (this.trans hp) x) (split c i)
  have hsl : Slices ts' cs (List.ofFn cs).flatten := ⟨rfl, hl⟩
  have hc' : (List.ofFn cs).flatten.length = T'.numCoeffs := by
    rw [slices_length hsl, ← slices_length (hS'.slices (zeros T'.numCoeffs) (by simp [zeros]))]
    simp [zeros]
  have hsp : split' (List.ofFn cs).flatten = cs := slices_unique (hS'.slices _ hc') hsl
  refine ⟨_, does_what (by rw [r2, q2]) (by rw [r3, q3]) r7 q7 (r9 hcd).1 (q9 hcd).1 hc hc' (fun x hx => ?_) fun x hx => ?_⟩
  · rw [hS.value c x hc (hx.trans r2), hS'.value _ x hc' (hx.trans r2), hsp]
    congr 1
    funext i
    obtain ⟨s1, -, s3⟩ := same_component (o := o) (hcs i)
    rw [compOutput, compOutput, s3, discretised, discretised, s1, s3]
  · rw [hS.logDet c x hc (hx.trans r2), hS'.logDet _ x hc' (hx.trans r2), hsp]
    refine sum_congr rfl fun i _ => ?_
    obtain ⟨-, s2, -⟩ := same_component (o := o) (hcs i)
    rw [compSlope, compSlope, s2]

/-- **C123.** So training a map of a higher order does not fit worse: a minimum of its objective is at most every value of the objective of the map of lower order. -/
theorem C123_training {o : MapOptions} {k n p p' : ℕ} (h0 : 0 < n) (h2 : k + n < 2 ^ 32) (hp : p ≤ p') (hB : GoodBasis o p') (hQ : GoodQuad o) (hcd : o.contDeriv = true)
    {mem mem' : ℕ → Option ℝ} {work work' : List ℝ} {T T' : CMap} {w w' : List ℝ} (hT : createTriangular (k + n) n p o mem work = .ok (T, w))
    (hT' : createTriangular (k + n) n p' o mem' work' = .ok (T', w')) {data : List (List ℝ)} (hdata : ∀ x ∈ data, x.length = k + n) {c c' : List ℝ}
    (hc : c.length = T.numCoeffs) {v v' : ℝ} (hv : KL.objective T (Gaussian.ofDim n).density c data = .ok (some v)) (hc' : MinimisesKL T' data c')
    (hv' : KL.objective T' (Gaussian.ofDim n).density c' data = .ok (some v')) : v' ≤ v := by
  obtain ⟨e, he⟩ := C123_triangular h0 h2 hp hB hQ hcd hT hT' hc
  obtain ⟨b, quad, mesh, hsel⟩ := selected_family hB hQ
  obtain ⟨T1, -, -, -, r1, r2, r3, -⟩ := triangular_of_selected (inputDim := k + n) (outputDim := n) (hsel p hp) h0 (by omega) h2 mem work
  obtain ⟨T2, -, -, -, q1, q2, q3, -⟩ := triangular_of_selected (inputDim := k + n) (outputDim := n) (hsel p' le_rfl) h0 (by omega) h2 mem' work'
  obtain ⟨rfl, -⟩ := Prod.mk.inj (Res.ok.inj (hT.symm.trans r1))
  obtain ⟨rfl, -⟩ := Prod.mk.inj (Res.ok.inj (hT'.symm.trans q1))
  obtain ⟨-, m, m1, m2⟩ := hc'
  rw [q3] at m1 m2
  have := he.objective (Gaussian.ofDim n).density data (C53_density (.dim n)).2.1 (by rw [r3]; rfl) fun x hx => by rw [r2]; exact hdata x hx
  rw [hv] at this
  rw [m1] at hv'
  cases hv'
  exact m2 e v he.coeffs this

/-- Components over nested total-order sets, of orders one and three, with the default options. -/
example (mem : ℕ → Option ℝ) (work : List ℝ) : ∃ f f' T T' w w', FixedSet.totalOrder 2 1 = .ok f ∧ FixedSet.totalOrder 2 3 = .ok f' ∧ createComponent f {} mem work = .ok (T, w) ∧
    createComponent f' {} mem work = .ok (T', w') ∧ ∃ c', DoesWhat T' c' T [1, 2, 3] := by
  have h1 := FixedSet.totalOrder_csr 2 (by decide) 1
  have h3 := FixedSet.totalOrder_csr 2 (by decide) 3
  have hh1 := FixedSet.csr_holds 2 (MISet.toEnum 2 1) fun t ht => ((MISet.mem_toEnum 2 1 t).1 ht).1
  have hh3 := FixedSet.csr_holds 2 (MISet.toEnum 2 3) fun t ht => ((MISet.mem_toEnum 2 3 t).1 ht).1
  have hN : ∀ t ∈ MISet.toEnum 2 3, ∀ n ∈ t, n ≤ 3 := by decide
  obtain ⟨hB, hQ⟩ := good_default 3 (by decide)
  obtain ⟨b, mesh, -, -, h⟩ := C62_component_partial (.totalOrder h1) rfl (by decide) hh1 (fun t ht => hN t (by revert t; decide)) hB hQ
  obtain ⟨b', mesh', -, -, h'⟩ := C62_component_partial (.totalOrder h3) rfl (by decide) hh3 hN hB hQ
  obtain ⟨T, t1, t2, -⟩ := h mem work
  obtain ⟨T', t1', t2', -⟩ := h' mem work
  exact ⟨_, _, T, T', _, _, h1, h3, t1, t1', C123_component (.totalOrder h1) rfl (.totalOrder h3) rfl rfl (by decide) hh1 hh3 (by decide) hN hB hQ rfl t1 t1' (by rw [t2.coeffs]; decide)⟩

/-- A map of order two, trained on two samples: it fits at least as well as every map of order one. -/
example : ∃ T T' w w' c', createTriangular 1 1 1 pairOptions (fun _ => none) [] = .ok (T, w) ∧ createTriangular 1 1 2 pairOptions (fun _ => none) [] = .ok (T', w') ∧
    MinimisesKL T' [[-1], [1]] c' ∧ ∀ c v v', c.length = T.numCoeffs → KL.objective T (Gaussian.ofDim 1).density c [[-1], [1]] = .ok (some v) →
      KL.objective T' (Gaussian.ofDim 1).density c' [[-1], [1]] = .ok (some v') → v' ≤ v := by
  obtain ⟨T', w', c', t', hc', hB, hQ⟩ := pair_trained
  obtain ⟨b, quad, mesh, hsel⟩ := selected_family hB hQ
  obtain ⟨T, -, -, -, t, -⟩ := triangular_of_selected (inputDim := 1) (outputDim := 1) (hsel 1 one_le_two) one_pos le_rfl (by norm_num) (fun _ => none) []
  exact ⟨T, T', _, w', c', t, t', hc', fun c v v' hc hv hv' => C123_training (k := 0) (n := 1) one_pos (by norm_num) one_le_two hB hQ rfl t t' (by simp) hc hv hc' hv'⟩

end MParT
