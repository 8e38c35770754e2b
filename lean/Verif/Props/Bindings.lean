import Verif.Spec.Bindings
import Verif.Lemmas.Serialization
import Verif.Lemmas.ToyMap
import Verif.Props.MultiIndex
import Verif.Props.MultiIndexSet
import Verif.Props.TrainAdaptive
import Verif.Props.Affine
import Mathlib.Tactic.IntervalCases
/-!
# Properties of the language bindings (C78–C84)
-/
namespace MParT
open Ser Bind Spec Aff MultiIndex MISet

/-! ### C78: options set in MATLAB -/

theorem basis_name {s : String} (h : s ∈ basisKinds.map Prod.fst) (d : UInt32) : (s, basisOfName s d) ∈ basisKinds := by
  simp only [basisKinds, List.map_cons, List.map_nil, List.mem_cons, List.not_mem_nil, or_false] at h
  rcases h with rfl | rfl | rfl <;> simp [basisOfName, basisKinds]

theorem pos_name {s : String} (h : s ∈ posKinds.map Prod.fst) (d : UInt32) : (s, posOfName s d) ∈ posKinds := by
  simp only [posKinds, List.map_cons, List.map_nil, List.mem_cons, List.not_mem_nil, or_false] at h
  rcases h with rfl | rfl <;> simp [posOfName, posKinds]

theorem quad_name {s : String} (h : s ∈ quadKinds.map Prod.fst) (d : UInt32) : (s, quadOfName s d) ∈ quadKinds := by
  simp only [quadKinds, List.map_cons, List.map_nil, List.mem_cons, List.not_mem_nil, or_false] at h
  rcases h with rfl | rfl | rfl <;> simp [quadOfName, quadKinds]

/-- **C78.** The C++ factories get exactly the options that were set in MATLAB, through each of the functions that build a map or an
expansion. -/
theorem C78_factories {o : MatOptions} (h : Named o) (mset : Mx) (inDim outDim order : UInt32) :
    ∃ p, Same o p ∧ createComponentOptions mset o = .ok p ∧ createTriangularOptions inDim outDim order o = .ok p ∧
      newExpansionOptions outDim mset o = .ok p :=
  ⟨_, ⟨⟨basis_name h.1 _, pos_name h.2.1 _, quad_name h.2.2 _, rfl, rfl, rfl, rfl, rfl, rfl, rfl, rfl, rfl⟩, rfl⟩, rfl, rfl, rfl⟩

/-- Options that differ from the defaults everywhere. -/
def someOptions : MatOptions where
  basisType := "HermiteFunctions"
  posFuncType := "Exp"
  quadType := "AdaptiveClenshawCurtis"
  quadAbsTol := 1
  quadRelTol := 2
  quadMaxSub := 3
  quadMinSub := 4
  quadPts := 6
  contDeriv := false
  basisLB := 7
  basisUB := 8
  basisNorm := false
  nugget := 9

example : Named someOptions := by unfold Named; decide +kernel

/-- **C78, partial.** Adaptive training gets the options that were set in MATLAB. Missing: the nugget (`C78_fails_nugget`). -/
theorem C78_adaptive_partial {o : MatATM} (h : Named o.toMatOptions) (msets objective : Mx) :
    ∃ p, trainAdaptiveOptions msets objective o = .ok p ∧ SameButNugget o.toMatOptions p.toOptions ∧ SameTraining o p :=
  ⟨_, rfl, ⟨basis_name h.1 _, pos_name h.2.1 _, quad_name h.2.2 _, rfl, rfl, rfl, rfl, rfl, rfl, rfl, rfl, rfl⟩,
    rfl, rfl, rfl, rfl, rfl, rfl, rfl, rfl, rfl, rfl, rfl, rfl⟩

/-- **C78, failure.** The nugget set in MATLAB never reaches adaptive training, which uses 0. -/
theorem C78_fails_nugget (o : MatATM) (msets objective : Mx) :
    ∃ p, trainAdaptiveOptions msets objective o = .ok p ∧ p.nugget = 0 := ⟨_, rfl, rfl⟩

/-- **C78, failure.** A name that is no kind of basis is not rejected: the map is built with another basis. -/
theorem C78_fails_unknown_name {o : MatOptions} (h : o.basisType ∉ basisKinds.map Prod.fst) (mset : Mx) :
    ∃ p, createComponentOptions mset o = .ok p ∧ p.basisType = 0 := by
  refine ⟨_, rfl, ?_⟩
  simp only [basisKinds, List.map_cons, List.map_nil, List.mem_cons, List.not_mem_nil, or_false, not_or] at h
  simp [mapOptionsFromMatlab, basisOfName, h, defaultOptions]

example : ({ someOptions with basisType := "Hermite" } : MatOptions).basisType ∉ basisKinds.map Prod.fst := by decide +kernel

/-- **C78, failure.** With the maximum degrees that MATLAB's options have by default, adaptive training of a map of more than one
variable does not return a map. -/
theorem C78_fails_default_degrees {env : ATM.Env} (hd : env.maxDegrees = matDefaultMaxDegrees) (hn : env.inputDim ≠ 1)
    (mset0 r : List MISet) : ATM.trainMapAdaptive env mset0 ≠ .ok r := by
  have hl : env.maxDegrees.length = 1 := by rw [hd, matDefaultMaxDegrees, ofVec_length]; rfl
  intro h
  rw [ATM.trainMapAdaptive] at h
  split at h
  · cases h
  · simp only [Res.bind_eq_ok] at h
    obtain ⟨s0, _, ⟨consts, sizes⟩, _, h⟩ := h
    split at h
    · cases h
    · rename_i h1
      rw [if_pos (by rw [hl]; omega)] at h
      cases h

/-- The same training returns a map when the maximum degrees are those that C++ has by default. -/
example : ∃ (env : ATM.Env) (s : MISet), env.inputDim ≠ 1 ∧ env.maxDegrees = ofVec [] ∧
    (∃ res, ATM.trainMapAdaptive env [s] = .ok res) ∧
    ∀ res, ATM.trainMapAdaptive { env with maxDegrees := matDefaultMaxDegrees } [s] ≠ .ok res := by
  obtain ⟨s, ts, _, r, l, m, t, d, ne, _⟩ := ATM.totalOrder_start (n := 3) (by omega) 1
  have hr : ∀ x ∈ [s], ∃ b, Reach b x := by intro x hx; rw [List.mem_singleton.1 hx]; exact ⟨_, r⟩
  refine ⟨ATM.exEnv 3 7 false (fun _ => 2), s, by simp [ATM.exEnv], rfl, ?_,
    fun res => C78_fails_default_degrees rfl (by simp [ATM.exEnv]) _ _⟩
  exact ATM.C55_returns_partial (env := ATM.exEnv 3 7 false (fun _ => 2)) (mset0 := [s]) rfl rfl
    (ATM.exEnv_grad _ _ _ _) hr rfl (by simp [ATM.exEnv]) (by simp [ATM.exEnv])
    (by
      intro j x hx
      cases j with
      | zero => simp only [List.getElem?_cons_zero, Option.some.injEq] at hx; subst hx; simp [ATM.exEnv, l]
      | succ j => simp at hx)
    (s0 := s) rfl t ne d (fun w _ => by unfold Accepts; rw [m])

/-! ### C79: options saved and loaded in MATLAB -/

/-- **C79, failure.** `Deserialize` is an error for every file. -/
theorem C79_fails_deserialize (file : List Byte) : matDeserialize file = .throw := rfl

theorem basisName_of {s : String} (h : s ∈ basisKinds.map Prod.fst) (d : UInt32) : basisName (basisOfName s d) = s := by
  simp only [basisKinds, List.map_cons, List.map_nil, List.mem_cons, List.not_mem_nil, or_false] at h
  rcases h with rfl | rfl | rfl <;> simp [basisOfName, basisName]

theorem posName_of {s : String} (h : s ∈ posKinds.map Prod.fst) (d : UInt32) : posName (posOfName s d) = s := by
  simp only [posKinds, List.map_cons, List.map_nil, List.mem_cons, List.not_mem_nil, or_false] at h
  rcases h with rfl | rfl <;> simp [posOfName, posName]

theorem quadName_of {s : String} (h : s ∈ quadKinds.map Prod.fst) (d : UInt32) : quadName (quadOfName s d) = s := by
  simp only [quadKinds, List.map_cons, List.map_nil, List.mem_cons, List.not_mem_nil, or_false] at h
  rcases h with rfl | rfl | rfl <;> simp [quadOfName, quadName]

theorem setOut_eq (outs : List (Option Mx)) (i : Nat) (v : Mx) : setOut outs i v = outs.set i (some v) := by
  unfold setOut
  split
  · rfl
  · rw [List.set_eq_of_length_le (by omega)]

/-- **C79, partial.** The file that `Serialize` writes gives back the options to a caller that asks for at most twelve of them.
Missing: `Deserialize` asks for thirteen (`C79_fails_deserialize`). -/
theorem C79_file_partial {o : MatOptions} (h : Named o) (filename : String) {n : Nat} (hn : n ≤ 12) :
    ∃ file, matSerialize filename o = .ok file ∧ mexDeserialize n file = .ok ((o.mex.take n).map some) := by
  let opts := mapOptionsFromMatlab o.basisType o.posFuncType o.quadType o.quadAbsTol o.quadRelTol o.quadMaxSub
    o.quadMinSub o.quadPts o.contDeriv o.basisLB o.basisUB o.basisNorm o.nugget
  have ho : optionsAt (.str filename :: o.mex) 1 = .ok opts := rfl
  refine ⟨opts.save, by rw [matSerialize, input, if_pos (by simp [MatOptions.mex]), Res.bind_ok, ho]; rfl, ?_⟩
  have hl := reads_options opts []
  rw [List.append_nil] at hl
  have hm : mapOptionsToMatlab opts (List.replicate n none) = (o.mex.take n).map some := by
    simp only [opts, mapOptionsFromMatlab, mapOptionsToMatlab, basisName_of h.1, posName_of h.2.1, quadName_of h.2.2,
      setOut_eq]
    interval_cases n <;> rfl
  rw [mexDeserialize, output, if_neg (by omega), Res.bind_ok, hl]
  show Res.ok _ = _
  rw [hm]

/-! ### C80: deep copy of a set in MATLAB -/

/-- **C80, partial.** The copy holds the terms of the set, and the zero multi-index. Missing: the zero multi-index need not be in the
set, the order of the terms may differ and the limiter is lost (`C80_fails_zero`, `C80_fails_order`, `C80_fails_limiter`). -/
theorem C80_deepCopy_partial {b : Bool} {s : MISet} (h : Reach b s) {ts : List (List Nat)} (ht : Terms s ts) (hl : 0 < s.length) :
    ∃ c cs, matDeepCopy s = .ok c ∧ Terms c cs ∧ cs.Nodup ∧ c.length = s.length ∧
      ∀ w, w ∈ cs ↔ w ∈ ts ∨ w = List.replicate s.length 0 := by
  obtain ⟨z, zs, e, r, l, m, tz, nz, _, hz⟩ := C07_createTotalOrder hl 0 fun _ => true
  obtain ⟨c, added, e', t', n', ha, l', _⟩ := C12_union r h tz ht l.symm
  have hzero : ∀ w, w ∈ zs ↔ w = List.replicate s.length 0 := by
    intro w
    rw [hz, List.eq_replicate_iff]
    simp [List.sum_eq_zero_iff]
  refine ⟨c, zs ++ added, by rw [matDeepCopy, e, Res.bind_ok, e']; rfl, t', ?_, by rw [l', l], fun w => ?_⟩
  · exact List.nodup_append.2 ⟨nz, n', fun a h1 b h2 => by rintro rfl; exact ((ha a).1 h2).1 h1⟩
  · rw [List.mem_append, ha, hzero, Accepts, m]
    by_cases hw : w = List.replicate s.length 0 <;> simp [hw]

/-- **C80, failure.** The limiter of the set is lost: the copy accepts everything. -/
theorem C80_fails_limiter {b : Bool} {s : MISet} (h : Reach b s) {ts : List (List Nat)} (ht : Terms s ts) (hl : 0 < s.length) :
    ∃ c, matDeepCopy s = .ok c ∧ ∀ w, Accepts c w := by
  obtain ⟨z, zs, e, r, l, m, tz, _⟩ := C07_createTotalOrder hl 0 fun _ => true
  obtain ⟨c, added, e', _, _, _, _, m'⟩ := C12_union r h tz ht l.symm
  exact ⟨c, by rw [matDeepCopy, e, Res.bind_ok, e']; rfl, fun w => by rw [Accepts, m', m]⟩

/-- **C80, failure.** A set without the zero multi-index gets one in the copy. -/
theorem C80_fails_zero {b : Bool} {s : MISet} (h : Reach b s) {ts : List (List Nat)} (ht : Terms s ts) (hl : 0 < s.length)
    (h0 : List.replicate s.length 0 ∉ ts) : ∃ c cs, matDeepCopy s = .ok c ∧ Terms c cs ∧ ∃ w, w ∈ cs ∧ w ∉ ts := by
  obtain ⟨c, cs, e, t, _, _, hm⟩ := C80_deepCopy_partial h ht hl
  exact ⟨c, cs, e, t, _, (hm _).2 (.inr rfl), h0⟩

/-- **C80, failure.** The terms of the copy are in another order: here those of a set of one variable to which 1 and then 0 were
added. -/
theorem C80_fails_order : ∃ s c, Reach true s ∧ Terms s [[1], [0]] ∧ matDeepCopy s = .ok c ∧ Terms c [[0], [1]] := by
  have key : (do
      let (s, _) ← (init 1 fun _ => true).addActive (ofVec [1])
      let (s, _) ← s.addActive (ofVec [0])
      let c ← matDeepCopy s
      let a ← s.indexToMulti 0; let b ← s.indexToMulti 1; let d ← c.indexToMulti 0; let e ← c.indexToMulti 1
      pure (s.size, c.size, a, b, d, e)) = .ok (2, 2, ofVec [1], ofVec [0], ofVec [0], ofVec [1]) := by decide +kernel
  simp only [Res.bind_eq_ok, Res.pure_eq, Res.ok.injEq] at key
  obtain ⟨⟨s1, o1⟩, e1, ⟨s, o2⟩, e2, c, e3, a, ha, b, hb, d, hd, e, he, hk⟩ := key
  simp only [Prod.mk.injEq] at hk
  obtain ⟨z1, z2, rfl, rfl, rfl, rfl⟩ := hk
  have l1 : s1.length = 1 ∧ s1.limiter (ofVec [0]) = true := by
    have : (do let (s, _) ← (init 1 fun _ => true).addActive (ofVec [1]); pure (s.length, s.limiter (ofVec [0])))
        = .ok (1, true) := by decide +kernel
    rw [e1] at this
    simpa using this
  refine ⟨s, c, .addActive (v := [0]) (.addActive (v := [1]) (.init 1 fun _ => true) rfl rfl e1) l1.1.symm l1.2 e2, ⟨z1, ?_⟩, e3, ⟨z2, ?_⟩⟩
  all_goals
    intro i t h
    match i, h with
    | 0, h => cases h; assumption
    | 1, h => cases h; assumption
    | n + 2, h => cases h

-- a set without the zero multi-index, as `C80_fails_zero` asks
example : ∃ s, Reach true s ∧ Terms s [[1]] ∧ s.length = 1 ∧ List.replicate s.length 0 ∉ [[1]] := by
  have key : (do
      let (s, _) ← (init 1 fun _ => true).addActive (ofVec [1])
      let a ← s.indexToMulti 0
      pure (s.size, s.length, a)) = .ok (1, 1, ofVec [1]) := by decide +kernel
  simp only [Res.bind_eq_ok, Res.pure_eq, Res.ok.injEq] at key
  obtain ⟨⟨s, o⟩, e1, a, ha, hk⟩ := key
  simp only [Prod.mk.injEq] at hk
  obtain ⟨z1, z2, rfl⟩ := hk
  refine ⟨s, .addActive (v := [1]) (.init 1 fun _ => true) rfl rfl e1, ⟨z1, fun i t h => ?_⟩, z2, by rw [z2]; decide⟩
  match i, h with
  | 0, h => cases h; exact ha
  | n + 1, h => cases h

/-- **C80, failure.** An empty set of zero variables cannot be copied. -/
theorem C80_fails_no_variables {s : MISet} (h : s.length = 0) : matDeepCopy s = .throw := by
  rw [matDeepCopy, h]; rfl

/-! ### C81: iteration in Python -/

/-- The items at `i`, `i + 1`, ... of a container whose items from `l.length` on raise. -/
theorem pyIter_drop {α : Type} {get : Nat → Res α} {l : List α} (hg : ∀ i (h : i < l.length), get i = .ok l[i])
    (he : get l.length = .throw) {i : Nat} (hi : i ≤ l.length) : PyIter get i (l.drop i) := by
  obtain ⟨k, hk⟩ : ∃ k, l.length - i = k := ⟨_, rfl⟩
  induction k generalizing i with
  | zero =>
    have : i = l.length := by omega
    subst this
    rw [List.drop_length]
    exact .stop he
  | succ k ih =>
    have hlt : i < l.length := by omega
    rw [List.drop_eq_getElem_cons hlt]
    exact .next (hg i hlt) (ih (by omega) (by omega))

/-- What an iteration yields is determined. -/
theorem pyIter_unique {α : Type} {get : Nat → Res α} {i : Nat} {l l' : List α} (h : PyIter get i l) (h' : PyIter get i l') :
    l = l' := by
  induction h generalizing l' with
  | stop e => cases h' with
    | stop _ => rfl
    | next e' _ => rw [e] at e'; cases e'
  | next e _ ih => cases h' with
    | stop e' => rw [e] at e'; cases e'
    | next e' t => rw [e] at e'; injection e' with e'; rw [e', ih t]

/-- **C81, partial.** Iterating over a set yields its terms, in order. Missing: iterating over a multi-index
(`C81_fails_multiindex`). -/
theorem C81_set_partial {s : MISet} {ts : List (List Nat)} (ht : Terms s ts) (l : List MultiIndex) :
    PyIter s.indexToMulti 0 l ↔ l = ts.map ofVec := by
  have key : PyIter s.indexToMulti 0 (ts.map ofVec) := by
    refine pyIter_drop (l := ts.map ofVec) (i := 0) (fun i h => ?_) ?_ (by omega)
    · rw [List.length_map] at h
      rw [List.getElem_map]
      exact ht.2 i _ (List.getElem?_eq_getElem h)
    · have : s.active2global.length = ts.length := ht.1
      rw [indexToMulti, List.length_map]
      simp [Res.at', this]
  exact ⟨fun h => pyIter_unique h key, fun h => h ▸ key⟩

/-- **C81, failure.** Iterating over a multi-index yields its entries and then a zero that is not an entry, whatever the
multi-index. -/
theorem C81_fails_multiindex {m : MultiIndex} {v : List Nat} (h : Built m v) (l : List Nat) :
    PyIter m.get 0 l ↔ l = v ++ [0] := by
  obtain rfl := h.eq_ofVec
  have key : PyIter (ofVec v).get 0 (v ++ [0]) := by
    refine pyIter_drop (l := v ++ [0]) (i := 0) (fun i hi => ?_) ?_ (by omega)
    · rw [List.length_append, List.length_singleton] at hi
      rw [get_ofVec, if_neg (by omega)]
      rcases Nat.lt_or_ge i v.length with hlt | hge
      · simp [List.getElem_append_left hlt, hlt]
      · simp [List.getElem_append_right hge, hge]
    · rw [get_ofVec, if_pos (by simp)]
  exact ⟨fun h => pyIter_unique h key, fun h => h ▸ key⟩

example : Built (ofVec [4, 0, 2]) [4, 0, 2] := .ofVec _

/-! ### C82: indices in Julia -/

/-- **C82, partial.** Julia's indices start at 1; 0 and the indices above the length plus one are rejected. Missing: the length plus
one (`C82_fails_get`, `C82_fails_set`). -/
theorem C82_index_partial {m : MultiIndex} {v : List Nat} (h : Built m v) (hv : v.length + 1 < 2 ^ 32) (ind : UInt32) :
    (∀ i (hi : i < v.length), ind.toNat = i + 1 → jlGet m ind = .ok v[i]) ∧
    (ind.toNat = 0 ∨ v.length + 1 < ind.toNat → jlGet m ind = .throw ∧ ∀ val, jlSet m val ind = .throw) := by
  obtain rfl := h.eq_ofVec
  have hlt := ind.toNat_lt
  have hsub : ind.toNat ≠ 0 → (ind - 1).toNat = ind.toNat - 1 := by
    intro h0
    rw [UInt32.toNat_sub_of_le _ _ (by rw [UInt32.le_iff_toNat_le]; simp; omega)]
    simp
  refine ⟨fun i hi e => ?_, fun hc => ?_⟩
  · rw [jlGet, hsub (by omega), e, Nat.add_sub_cancel, get_ofVec, if_neg (by omega)]
    simp [hi]
  · have hb : (ofVec v).length < (ind - 1).toNat := by
      rw [ofVec_length]
      rcases hc with h0 | h1
      · have : ind = 0 := UInt32.toNat_inj.1 (by simpa using h0)
        subst this
        show v.length < 4294967295
        omega
      · rw [hsub (by omega)]; omega
    exact ⟨(C02_beyond_rejected 0 hb).2, fun val => (C02_beyond_rejected _ hb).1⟩

/-- **C82, failure.** The index after the last one is accepted. -/
theorem C82_fails_get {m : MultiIndex} {v : List Nat} (h : Built m v) {ind : UInt32} (hi : ind.toNat = v.length + 1) :
    jlGet m ind = .ok 0 := by
  have hl : (ind - 1).toNat = m.length := by
    obtain rfl := h.eq_ofVec
    rw [UInt32.toNat_sub_of_le _ _ (by rw [UInt32.le_iff_toNat_le]; simp; omega), ofVec_length, hi]
    simp
  rw [jlGet, hl]
  exact C59_get_at_length_accepted h

/-- **C82, failure.** A positive value can be assigned at the index after the last one, and the multi-index is damaged. -/
theorem C82_fails_set {m : MultiIndex} {v : List Nat} (h : Built m v) {ind : UInt32} (hi : ind.toNat = v.length + 1)
    {val : UInt32} (hv : 0 < val.toNat) : ∃ m', jlSet m val ind = .ok (m', false) ∧ m'.vector = .ub := by
  have hl : (ind - 1).toNat = m.length := by
    obtain rfl := h.eq_ofVec
    rw [UInt32.toNat_sub_of_le _ _ (by rw [UInt32.le_iff_toNat_le]; simp; omega), ofVec_length, hi]
    simp
  rw [jlSet, hl]
  exact C59_set_at_length_corrupts h _ hv

example : Built (ofVec [1, 0]) [1, 0] ∧ (3 : UInt32).toNat = [1, 0].length + 1 ∧ 0 < (5 : UInt32).toNat :=
  ⟨.ofVec _, by decide, by decide⟩

/-! ### C83: coefficients in a file -/

/-- **C83.** What `Serialize` wrote, `DeserializeMap` returns in Python and MATLAB: the dimensions and the coefficients. -/
theorem C83_roundtrip (inputDim outputDim numCoeffs : UInt32) {coeffs : View Dbl} (hd : coeffs.data.length < 2 ^ 32)
    (hl : coeffs.label.length < 2 ^ 64) :
    Reads deserializeMap (serializeMap inputDim outputDim numCoeffs coeffs) (inputDim, outputDim, coeffs.data) := by
  unfold serializeMap deserializeMap
  simp only [List.append_assoc]
  exact Reads.bind (reads_u32 _) (Reads.bind (reads_u32 _) (Reads.bind (reads_u32 _)
    (Reads.last (reads_view reads_u64 hd hl) fun s => rfl)))

/-- **C83, partial.** The same in Julia, for a map whose coefficients were set. Missing: a map whose coefficients were not set
(`C83_fails_julia`). -/
theorem C83_julia_partial (inputDim outputDim numCoeffs : UInt32) {coeffs : View Dbl} (hn : coeffs.data.length = numCoeffs.toNat)
    (hl : coeffs.label.length < 2 ^ 64) :
    Reads jlDeserializeMap (serializeMap inputDim outputDim numCoeffs coeffs) (inputDim, outputDim, coeffs.data) := by
  unfold serializeMap jlDeserializeMap
  simp only [List.append_assoc]
  refine Reads.bind (reads_u32 _) (Reads.bind (reads_u32 _) (Reads.bind (reads_u32 _)
    (Reads.last (reads_view reads_u64 (by rw [hn]; exact numCoeffs.toNat_lt) hl) fun s => ?_)))
  simp only [hn, if_true]
  rfl

/-- **C83, failure.** The file of a map whose coefficients were not set cannot be loaded in Julia. -/
theorem C83_fails_julia (inputDim outputDim : UInt32) {numCoeffs : UInt32} (hn : 0 < numCoeffs.toNat) :
    jlDeserializeMap (serializeMap inputDim outputDim numCoeffs View.empty) = .throw := by
  have h1 := reads_u32 inputDim (putU32 outputDim ++ (putU32 numCoeffs ++ (View.empty.save putU64)))
  have h2 := reads_u32 outputDim (putU32 numCoeffs ++ (View.empty.save putU64))
  have h3 := reads_u32 numCoeffs (View.empty.save putU64)
  have h4 := reads_view reads_u64 (v := View.empty) (by simp [View.empty]) (by simp [View.empty]) []
  rw [List.append_nil] at h4
  unfold serializeMap jlDeserializeMap
  simp only [List.append_assoc]
  have hne : ¬ (0 = numCoeffs.toNat) := by omega
  simp only [bind, h1, h2, h3, h4]
  simp [View.empty, hne, Rd.mk]

example : (⟨[80], [1, 2], true⟩ : View Dbl).data.length = (2 : UInt32).toNat := by decide

/-! ### C84: results in Julia -/

/-- **C84, partial.** The values, gradients and log-determinant gradients that Julia returns are those of C++, whatever the new memory
contained. Missing: maps that do not assign their output (`C84_fails_affine`). -/
theorem C84_julia_partial {f : CMap} (he : Evaluates f) (hd : Differentiates f) (hl : DifferentiatesLogDet f) {c x : List ℝ}
    (hf : Fits f c x) {s : List ℝ} (hs : s.length = f.outputDim) :
    (∀ mem : List ℝ, mem.length = f.outputDim → jlEvaluate f c x mem = .ok (fn f c x)) ∧
    (∀ mem : List ℝ, mem.length = f.inputDim → jlGradient f c x s mem = .ok (grad f c x s) ∧
      jlLdInputGrad f c x mem = .ok (ldInputGrad f c x)) ∧
    (f.numCoeffs ≠ 0 → ∀ mem : List ℝ, mem.length = f.numCoeffs → jlCoeffGrad f c x s mem = .ok (coeffGrad f c x s) ∧
      jlLdCoeffGrad f c x mem = .ok (ldCoeffGrad f c x)) :=
  ⟨fun mem h => (he c x hf).2 _ (by simpa using h),
   fun mem h => ⟨(hd c x s hf hs).1 _ (by simpa using h), (hl c x hf).1 _ h⟩,
   fun h0 mem h => ⟨(hd c x s hf hs).2.1 h0 _ h, (hl c x hf).2.1 h0 _ h⟩⟩

/-- **C84, partial.** The same for the log-determinant, and the inverse is the inverse of the map. -/
theorem C84_inverse_partial {f : CMap} (hl : HasLogDet f) {k : Nat} (hi : InvertsFrom f k) {c : List ℝ} :
    (∀ x, Fits f c x → ∀ mem, jlLogDeterminant f c x mem = .ok (some (logdet f c x))) ∧
    ∀ x1 r : List ℝ, c.length = f.numCoeffs → x1.length = k → r.length = f.outputDim →
      ∀ mem : List ℝ, mem.length = f.outputDim → ∃ y : List ℝ, jlInverse f c x1 r mem = .ok y ∧ y.length = f.outputDim ∧
        fn f c (x1.take (f.inputDim - f.outputDim) ++ y) = r :=
  ⟨fun x hf mem => hl c x hf mem, fun x1 r h1 h2 h3 mem h4 => by
    obtain ⟨y, e, l, h, _⟩ := hi c x1 r h1 h2 h3 mem h4
    exact ⟨y, e, l, h⟩⟩

example : HasLogDet toy ∧ InvertsFrom toy 1 := ⟨toy_hasLogDet, toy_inverts (by decide)⟩

example : Evaluates toy ∧ Differentiates toy ∧ DifferentiatesLogDet toy ∧ Fits toy [1] [2, 3] :=
  ⟨toy_evaluates, toy_differentiates, toy_differentiatesLogDet, rfl, rfl⟩

/-- **C84, failure.** For an affine map `LogDeterminantInputGrad` returns in Julia whatever the new memory contained; the gradient
is zero. -/
theorem C84_fails_affine {A : View2 ℝ} {b : List ℝ} {m n : Nat} {t : CMap} (h : MakesAffine A b m n t) (c x mem : List ℝ) :
    jlLdInputGrad t c x mem = .ok mem := by
  obtain ⟨_, st, rfl⟩ := makes_iff h
  rfl

example : MakesAffine exampleA [5] 1 2 (AffineMap.obj exampleA [5] 2 1 true) := exampleA_makes

end MParT
