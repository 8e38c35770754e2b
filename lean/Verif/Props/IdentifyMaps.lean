import Verif.Props.Identify
import Verif.Props.MapFactory
/-!
# C105: identifiability of triangular maps and of single-entry maps
-/
namespace MParT
open Spec MapFactory

/-- Coefficients are identifiable exactly if the values at all points determine them. -/
theorem identifiable_iff {T : CMap} (hE : Evaluates T) : Identifiable T ↔ ∀ c c' : List ℝ, c.length = T.numCoeffs → c'.length = T.numCoeffs →
    (∀ x : List ℝ, x.length = T.inputDim → fn T c x = fn T c' x) → c = c' :=
  ⟨fun h c c' hc hc' e => h c c' hc hc' (same_of_fn hE hc hc' e), fun h c c' hc hc' e => h c c' hc hc' fun _ hx => fn_of_same e hx⟩

theorem same_of_logdet {T : CMap} (hL : HasLogDet T) {c c' : List ℝ} (hc : c.length = T.numCoeffs) (hc' : c'.length = T.numCoeffs)
    (h : ∀ x : List ℝ, x.length = T.inputDim → logdet T c x = logdet T c' x) : SameLogDets T c c' := fun x out hx => by
  rw [hL c x ⟨hc, hx⟩ out, hL c' x ⟨hc', hx⟩ out, h x hx]

/-- Maps one below the other determine their coefficients only if each of them does. -/
theorem stacked_identifiable_each {N : ℕ} : ∀ (ms : List CMap), (∀ m ∈ ms, m.inputDim ≤ N) →
    (∀ c c' : List ℝ, c.length = (ms.map CMap.numCoeffs).sum → c'.length = (ms.map CMap.numCoeffs).sum →
      (∀ x : List ℝ, x.length = N → stacked ms c x = stacked ms c' x) → c = c') →
    ∀ m ∈ ms, ∀ c c' : List ℝ, c.length = m.numCoeffs → c'.length = m.numCoeffs →
      (∀ x : List ℝ, x.length = m.inputDim → fn m c x = fn m c' x) → c = c' := by
  intro ms
  induction ms with
  | nil => intro _ _ m hm; simp at hm
  | cons m ms ih =>
    intro hN h
    have hN' := hN m (by simp)
    have ht : ∀ a b : List ℝ, a.length = m.numCoeffs → (a ++ b).take m.numCoeffs = a ∧ (a ++ b).drop m.numCoeffs = b := fun a b ha => by
      simp [← ha]
    intro m' hm'
    rcases List.mem_cons.1 hm' with rfl | hm'
    · intro c c' hc hc' e
      have := h (c ++ zeros (ms.map CMap.numCoeffs).sum) (c' ++ zeros (ms.map CMap.numCoeffs).sum) (by simp [hc, zeros]) (by simp [hc', zeros]) fun x hx => by
        rw [stacked, stacked, (ht c _ hc).1, (ht c _ hc).2, (ht c' _ hc').1, (ht c' _ hc').2, e _ (by simp; omega)]
      exact List.append_cancel_right this
    · refine ih (fun m hm => hN m (by simp [hm])) (fun c c' hc hc' e => ?_) m' hm'
      have hz : (zeros m.numCoeffs).length = m.numCoeffs := by simp [zeros]
      have := h (zeros m.numCoeffs ++ c) (zeros m.numCoeffs ++ c') (by simp [hc, zeros]) (by simp [hc', zeros]) fun x hx => by
        rw [stacked, stacked, (ht _ c hz).1, (ht _ c hz).2, (ht _ c' hz).1, (ht _ c' hz).2, e x hx]
      exact List.append_cancel_left this

/-- **C105, any triangular map.** The coefficients of a `TriangularMap` are identifiable exactly if those of every component are, whatever the components. -/
theorem C105_stacked {comps : List CMap} {t : CMap} (ht : TriangularMap.new comps = .ok t) (hE : ∀ m ∈ comps, Evaluates m) :
    Identifiable t ↔ ∀ m ∈ comps, Identifiable m := by
  obtain ⟨hEt, hfn⟩ := C40_evaluate ht hE
  obtain ⟨hne, ⟨e, hch⟩, rfl⟩ := new_triangular.mp ht
  obtain ⟨h1, h2, h3⟩ := obj_sizes hne hch
  have hle : ∀ m ∈ comps, m.inputDim ≤ (TriangularMap.obj comps).inputDim := fun m hm => by rw [h1]; exact hch.le hm
  rw [identifiable_iff hEt]
  constructor
  · intro h m hm
    refine (identifiable_iff (hE m hm)).2 (stacked_identifiable_each comps hle (fun c c' hc hc' e => ?_) m hm)
    refine h c c' (hc.trans h3.symm) (hc'.trans h3.symm) fun x hx => ?_
    rw [hfn c x ⟨hc.trans h3.symm, hx⟩, hfn c' x ⟨hc'.trans h3.symm, hx⟩, e x hx]
  · intro h c c' hc hc' e
    refine stacked_identifiable comps (fun m hm => ⟨hE m hm, hle m hm, (identifiable_iff (hE m hm)).1 (h m hm)⟩) c c' (hc.trans h3) (hc'.trans h3) fun x hx => ?_
    rw [← hfn c x ⟨hc, hx⟩, ← hfn c' x ⟨hc', hx⟩, e x hx]

/-- **C105, single entries.** `CreateSingleEntryMap` keeps identifiability: its coefficients are determined by the values, or by values and log-determinants, exactly if those of
the component are. -/
theorem C105_singleEntry {dim a : ℕ} {comp t : CMap} {c0 : List ℝ} (ha : 1 ≤ a) (had : a ≤ dim) (hi : comp.inputDim = a) (ho : comp.outputDim = 1) (hE : Evaluates comp)
    (ht : createSingleEntryMap dim a comp = .ok (t, c0)) : (Identifiable t ↔ Identifiable comp) ∧ (HasLogDet comp → (IdentifiableWithLogDet t ↔ IdentifiableWithLogDet comp)) := by
  obtain ⟨t', h1, hin, -, hnc, hEt, hfn⟩ := C58_evaluate ha had hi ho hE
  rw [ht] at h1
  obtain ⟨rfl, -⟩ := Prod.mk.inj (Res.ok.inj h1)
  have up : ∀ {c c' : List ℝ}, c.length = t.numCoeffs → c'.length = t.numCoeffs → (SameValues t c c' ↔ SameValues comp c c') := fun {c c'} hc hc' => by
    constructor
    · intro h
      refine same_of_fn hE (hc.trans hnc) (hc'.trans hnc) fun x hx => ?_
      have hl : (x ++ zeros (dim - a)).length = t.inputDim := (length_extend had (hx.trans hi)).trans hin.symm
      have e := fn_of_same h hl
      rw [hfn c _ ⟨hc, hl⟩, hfn c' _ ⟨hc', hl⟩, take_extend (hx.trans hi)] at e
      exact List.append_cancel_left (List.append_cancel_right e)
    · intro h
      refine same_of_fn hEt hc hc' fun x hx => ?_
      rw [hfn c x ⟨hc, hx⟩, hfn c' x ⟨hc', hx⟩, fn_of_same h (by simp; omega)]
  refine ⟨⟨fun h c c' hc hc' e => h c c' (hc.trans hnc.symm) (hc'.trans hnc.symm) ((up (hc.trans hnc.symm) (hc'.trans hnc.symm)).2 e),
    fun h c c' hc hc' e => h c c' (hc.trans hnc) (hc'.trans hnc) ((up hc hc').1 e)⟩, fun hL => ?_⟩
  obtain ⟨hLt, hld, -⟩ := (C58_contracts ha had hi ho hE ht).2.1 hL
  have upl : ∀ {c c' : List ℝ}, c.length = t.numCoeffs → c'.length = t.numCoeffs → (SameLogDets t c c' ↔ SameLogDets comp c c') := fun {c c'} hc hc' => by
    constructor
    · intro h
      refine same_of_logdet hL (hc.trans hnc) (hc'.trans hnc) fun x hx => ?_
      have hl : (x ++ zeros (dim - a)).length = t.inputDim := (length_extend had (hx.trans hi)).trans hin.symm
      have e := logdet_of_same h hl
      rwa [hld c _ ⟨hc, hl⟩, hld c' _ ⟨hc', hl⟩, take_extend (hx.trans hi)] at e
    · intro h
      refine same_of_logdet hLt hc hc' fun x hx => ?_
      rw [hld c x ⟨hc, hx⟩, hld c' x ⟨hc', hx⟩, logdet_of_same h (by simp; omega)]
  exact ⟨fun h c c' hc hc' e l => h c c' (hc.trans hnc.symm) (hc'.trans hnc.symm) ((up (hc.trans hnc.symm) (hc'.trans hnc.symm)).2 e) ((upl (hc.trans hnc.symm) (hc'.trans hnc.symm)).2 l),
    fun h c c' hc hc' e l => h c c' (hc.trans hnc) (hc'.trans hnc) ((up hc hc').1 e) ((upl hc hc').1 l)⟩

/-- Non-vacuity: the second coordinate of three is `exp(c) x₂ + x₁²`, and the coefficient is determined; so it is in the triangular map of these components. -/
example : (∃ t c0, createSingleEntryMap 3 2 toy = .ok (t, c0) ∧ Identifiable t) ∧ ∃ t, TriangularMap.new [IdentityMap.obj 1 1, toy, IdentityMap.obj 3 1] = .ok t ∧ Identifiable t := by
  have hid : Identifiable toy := (identifiable_iff toy_evaluates).2 fun c c' hc hc' e => by
    obtain ⟨a, rfl⟩ := List.length_eq_one_iff.1 hc
    obtain ⟨b, rfl⟩ := List.length_eq_one_iff.1 hc'
    have h : [Real.exp a * 1 + (0 : ℝ) ^ 2] = [Real.exp b * 1 + (0 : ℝ) ^ 2] := e [0, 1] rfl
    have h' : Real.exp a = Real.exp b := by simpa using h
    rw [Real.exp_injective h']
  refine ⟨?_, ?_⟩
  · obtain ⟨t, h1, -⟩ := C58_evaluate (dim := 3) (a := 2) (comp := toy) (by decide) (by decide) rfl rfl toy_evaluates
    exact ⟨t, _, h1, (C105_singleEntry (by decide) (by decide) rfl rfl toy_evaluates h1).1.2 hid⟩
  · obtain ⟨t, pre, post, h1, h2, hpre, hpost⟩ := single_blocks (dim := 3) (a := 2) (comp := toy) (by decide) (by decide) rfl rfl
    obtain rfl : pre = [IdentityMap.obj 1 1] := by simpa using hpre
    obtain rfl : post = [IdentityMap.obj 3 1] := by simpa using hpost
    refine ⟨t, h2, (C105_stacked h2 ?_).2 ?_⟩
    · simp only [List.mem_cons, List.mem_append, List.not_mem_nil, or_false]
      rintro m (rfl | rfl | rfl)
      · exact (C48_identity_evaluate le_rfl).1
      · exact toy_evaluates
      · exact (C48_identity_evaluate (by decide)).1
    · simp only [List.mem_cons, List.mem_append, List.not_mem_nil, or_false]
      have h0 : ∀ n k, Identifiable (IdentityMap.obj n k) := fun n k c c' hc hc' _ => by
        rw [List.length_eq_zero_iff.1 hc, List.length_eq_zero_iff.1 hc']
      rintro m (rfl | rfl | rfl)
      · exact h0 _ _
      · exact hid
      · exact h0 _ _

end MParT
