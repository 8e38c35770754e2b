import Verif.Lemmas.Serialization
/-!
# C56: saving and loading

"Saving and loading any map, multi-index set or option object through an archive yields an equal object and consumes exactly
the bytes written, also when nested or followed by other objects."

`Spec.Reads g p a` says that reading the bytes `p`, whatever follows them, gives `a` and consumes exactly `p`. This is proved
for options, views, multi-index sets, bases of any nesting, quadrature rules, expansions and monotone components. It is false
for triangular maps, which write their components twice and read them once.
-/
namespace MParT
namespace Ser
open Spec

/-! ## What round-trips -/

/-- Every option object. -/
theorem C56_options (o : Options) : Reads Options.load o.save o := reads_options o

/-- Every view that was created, of elements that round-trip. -/
theorem C56_views {α : Type} (g : Rd α) (put : α → List Byte) (h : ∀ a, Reads g (put a) a) (v : View α) (hv : Stored v) :
    Reads (View.load g) (v.save put) v := reads_stored h hv

/-- Every matrix with fewer than 2^32 entries. Missing: larger matrices, for which it is false (`C56_fails_large_matrix`). -/
theorem C56_matrices_partial {α : Type} (z : α) (g : Rd α) (put : α → List Byte) (h : ∀ a, Reads g (put a) a) (v : MatView α)
    (hv : StoredMat v) : Reads (MatView.load z g) (v.save put) v := reads_mat z h hv

/-- Every multi-index set. -/
theorem C56_sets (s : SetObj) (h : StoredSet s) : Reads SetObj.load s.save s := reads_set h

/-- Every one-dimensional basis, at any nesting of linearisations. -/
theorem C56_bases (b : Basis) : Reads (Basis.load b.ty) b.save b := reads_basis b

/-- Every quadrature rule that owns its workspace. Missing: rules with an external workspace, for which it is false
(`C56_fails_external_workspace`). -/
theorem C56_quadrature_partial (q : Quad) (h : StoredQuad q) : Reads (Quad.load q.ty) q.save q := reads_quad h

/-- Every expansion. -/
theorem C56_expansions (e : Expansion) (h : StoredExpansion e) : Reads (Expansion.load e.basis.ty) e.save e := reads_expansion h

theorem loadMap_ok {classOf : List Byte → Option Class} {s : List Byte} {o : Option Obj} {st : InSt}
    (h : getPtr classOf (s.length + 2) ⟨s, [], []⟩ = .ok (o, st)) : loadMap classOf s = .ok (o, st.bytes) := by
  unfold loadMap InSt.new
  rw [h]

theorem loadMap_throw {classOf : List Byte → Option Class} {s : List Byte}
    (h : getPtr classOf (s.length + 2) ⟨s, [], []⟩ = .throw) : loadMap classOf s = .throw := by
  unfold loadMap InSt.new
  rw [h]

theorem loadMap_ub {classOf : List Byte → Option Class} {s : List Byte}
    (h : getPtr classOf (s.length + 2) ⟨s, [], []⟩ = .ub) : loadMap classOf s = .ub := by
  unfold loadMap InSt.new
  rw [h]

/-- Every monotone component, through `Save` and `Load`. -/
theorem C56_components {name : Class → List Byte} {classOf : List Byte → Option Class} {cs : List Class}
    (hreg : Registered name classOf cs)
    (a : Nat) (m : Mono) (hcs : monoClass m ∈ cs) (h : StoredMono m) :
    ∃ a' m', SameMono m m' ∧ Reads (loadMap classOf) (saveMap name (.mono a m)) (some (.mono a' m')) := by
  refine ⟨1, m.reloaded, m.reloaded_same h, fun rest => ?_⟩
  obtain ⟨ic', io', h1, -⟩ := getPtr_mono hreg (a := a) (st := .new) [] rest ((saveMap name (.mono a m) ++ rest).length + 1)
    hcs h
    (clsOk_nil name) (by simp [OutSt.new]) rfl (by simp [OutSt.new])
  exact loadMap_ok h1

/-- Any number of components saved one after the other into the same stream are loaded one after the other. -/
theorem C56_components_in_a_row {name : Class → List Byte} {classOf : List Byte → Option Class} {cs : List Class}
    (hreg : Registered name classOf cs)
    (ms : List (Nat × Mono)) (hcs : ∀ p ∈ ms, monoClass p.2 ∈ cs) (h : ∀ p ∈ ms, StoredMono p.2) :
    ∃ ms', List.Forall₂ (fun (p p' : Nat × Mono) => SameMono p.2 p'.2) ms ms' ∧
      Reads (getMany (loadMap classOf) ms.length) (ms.flatMap fun p => saveMap name (.mono p.1 p.2))
        (ms'.map fun p => some (.mono p.1 p.2)) := by
  induction ms with
  | nil => exact ⟨[], .nil, Reads.pure _⟩
  | cons p l ih =>
    obtain ⟨ms', h1, h2⟩ := ih (fun q hq => hcs q (List.mem_cons_of_mem _ hq)) fun q hq => h q (List.mem_cons_of_mem _ hq)
    obtain ⟨a', m', h3, h4⟩ := C56_components hreg p.1 p.2 (hcs p List.mem_cons_self) (h p List.mem_cons_self)
    exact ⟨(a', m') :: ms', .cons h3 h1, Reads.bind h4 (Reads.last h2 fun s => rfl)⟩

/-! ## Triangular maps -/

theorem loadMap_tri {name : Class → List Byte} {classOf : List Byte → Option Class} {cs : List Class}
    (hreg : Registered name classOf cs)
    {a : Nat} {ms : List (Nat × Mono)} (c : View Dbl) (htri : .tri ∈ cs) (hcs : ∀ p ∈ ms, monoClass p.2 ∈ cs) (hs : StoredTri a ms) (rest : List Byte) :
    ∃ again, again.length = 8 * ms.length ∧
      loadMap classOf (saveMap name (triOf a ms c) ++ rest) =
        if ms.length % 256 ≠ 0 then
          if ∀ p ∈ ms, p.2.coeffs.allocated = true then
            .ok (some (triOf 1 (loadedFrom 1 ms) ⟨triLabel, allCoeffs ms, true⟩),
              leftover ms.length again (c.allocated && decide (c.data.length > 0)) ++ rest)
          else .throw
        else .ok (some (triOf 1 (loadedFrom 1 ms) .empty),
          leftover ms.length again (c.allocated && decide (c.data.length > 0)) ++ rest) := by
  have hlen : ms.length < (saveMap name (triOf a ms c)).length := putPtr_tri_length rfl
  have hlt := hs.2.1
  obtain ⟨again, ic', io', h1, h2⟩ := getPtr_tri hreg c (st := .new) [] rest ((saveMap name (triOf a ms c) ++ rest).length + 1)
    htri hcs hs
    (clsOk_nil name) (by simp only [OutSt.new, List.length_nil]; omega) (fun b _ => rfl)
    (by simp only [OutSt.new, List.length_nil]; omega) (by rw [List.length_append]; omega)
  refine ⟨again, h1, ?_⟩
  split at h2
  · rename_i h5
    rw [if_pos h5]
    split at h2
    · rename_i h6
      rw [if_pos h6]
      exact loadMap_ok h2
    · rename_i h6
      rw [if_neg h6]
      exact loadMap_throw h2
  · rename_i h5
    rw [if_neg h5]
    exact loadMap_ok h2

theorem loadedFrom_same (k : Nat) (ms : List (Nat × Mono)) (h : ∀ p ∈ ms, StoredMono p.2) :
    List.Forall₂ (fun (p p' : Nat × Mono) => SameMono p.2 p'.2) ms (loadedFrom k ms) := by
  induction ms generalizing k with
  | nil => exact .nil
  | cons p l ih =>
    exact .cons (p.2.reloaded_same (h p List.mem_cons_self)) (ih _ fun q hq => h q (List.mem_cons_of_mem _ hq))

theorem leftover_length (n : Nat) (again : List Byte) (mv : Bool) : (leftover n again mv).length = 8 + again.length := by
  simp [leftover, putLE_length, putBool]; omega

/-- A triangular map of monotone components whose coefficients are set, when the number of components is not a multiple of 256:
loading gives a map with the same components and the same coefficients. Missing: the bytes written are not all consumed
(`C56_fails_bytes_left`, `C56_fails_next_object`), maps without coefficients cannot be loaded
(`C56_fails_without_coefficients`), the coefficients are lost when the number of components is a multiple of 256
(`C56_fails_coefficients_lost`), and maps with triangular maps as components do not round-trip
(`C56_fails_nested`, `C56_fails_nested_null`). -/
theorem C56_triangular_partial {name : Class → List Byte} {classOf : List Byte → Option Class} {cs : List Class}
    (hreg : Registered name classOf cs)
    (a : Nat) (ms : List (Nat × Mono)) (c : View Dbl) (htri : .tri ∈ cs) (hcs : ∀ p ∈ ms, monoClass p.2 ∈ cs) (hs : StoredTri a ms) (hn : ms.length % 256 ≠ 0)
    (hset : ∀ p ∈ ms, p.2.coeffs.allocated = true) (hc : c.data = allCoeffs ms) (rest : List Byte) :
    ∃ a' ms' c' left, List.Forall₂ (fun (p p' : Nat × Mono) => SameMono p.2 p'.2) ms ms' ∧ c'.data = c.data ∧
      c'.allocated = true ∧ loadMap classOf (saveMap name (triOf a ms c) ++ rest) = .ok (some (triOf a' ms' c'), left ++ rest) := by
  obtain ⟨again, -, h2⟩ := loadMap_tri hreg c htri hcs hs rest
  rw [if_pos hn, if_pos hset] at h2
  exact ⟨1, loadedFrom 1 ms, ⟨triLabel, allCoeffs ms, true⟩, _, loadedFrom_same 1 ms hs.2.2.2.1, hc.symm, rfl, h2⟩

/-- No triangular map of `n` components consumes the bytes it wrote: whenever it is loaded, the last `8 n + 8` bytes are left. -/
theorem C56_fails_bytes_left {name : Class → List Byte} {classOf : List Byte → Option Class} {cs : List Class}
    (hreg : Registered name classOf cs)
    (a : Nat) (ms : List (Nat × Mono)) (c : View Dbl) (htri : .tri ∈ cs) (hcs : ∀ p ∈ ms, monoClass p.2 ∈ cs) (hs : StoredTri a ms) (o : Option Obj) (left : List Byte)
    (h : loadMap classOf (saveMap name (triOf a ms c)) = .ok (o, left)) : left.length = 8 * ms.length + 8 := by
  obtain ⟨again, h1, h2⟩ := loadMap_tri hreg c htri hcs hs []
  rw [List.append_nil, h] at h2
  have key : left = leftover ms.length again (c.allocated && decide (c.data.length > 0)) ++ [] := by
    split at h2
    · split at h2
      · exact (Prod.mk.inj (Res.ok.inj h2)).2
      · exact absurd h2 (by simp)
    · exact (Prod.mk.inj (Res.ok.inj h2)).2
  rw [key, List.append_nil, leftover_length, h1]
  omega

/-- A second object in the same stream, after a triangular map of at most 255 components, is never found: `Load` returns a null
pointer. -/
theorem C56_fails_next_object {name : Class → List Byte} {classOf : List Byte → Option Class} {cs : List Class}
    (hreg : Registered name classOf cs)
    (a : Nat) (ms : List (Nat × Mono)) (c : View Dbl) (htri : .tri ∈ cs) (hcs : ∀ p ∈ ms, monoClass p.2 ∈ cs) (hs : StoredTri a ms) (hn : ms.length < 256)
    (hset : ∀ p ∈ ms, p.2.coeffs.allocated = true) (second : Obj) :
    ∃ o left left', loadMap classOf (saveMap name (triOf a ms c) ++ saveMap name second) = .ok (some o, left) ∧
      loadMap classOf left = .ok (none, left') := by
  obtain ⟨again, h1, h2⟩ := loadMap_tri hreg c htri hcs hs (saveMap name second)
  have h0 : ms.length ≠ 0 := fun e => hs.1 (List.length_eq_zero_iff.1 e)
  rw [if_pos (by omega), if_pos hset] at h2
  refine ⟨_, _, List.replicate 3 0 ++ (again ++ putBool (c.allocated && decide (c.data.length > 0)) ++ saveMap name second), h2, ?_⟩
  rw [leftover_small hn, show List.replicate 7 (0 : Byte) = List.replicate 4 0 ++ List.replicate 3 0 from rfl]
  simp only [List.append_assoc]
  exact loadMap_ok (getPtr_null _ _ _ _)

/-- A triangular map one of whose components has no coefficients can be saved, but loading it throws, unless the number of
components is a multiple of 256. -/
theorem C56_fails_without_coefficients {name : Class → List Byte} {classOf : List Byte → Option Class} {cs : List Class}
    (hreg : Registered name classOf cs) (a : Nat) (ms : List (Nat × Mono)) (c : View Dbl) (htri : .tri ∈ cs) (hcs : ∀ p ∈ ms, monoClass p.2 ∈ cs) (hs : StoredTri a ms)
    (hn : ms.length % 256 ≠ 0) (p : Nat × Mono) (hp : p ∈ ms) (hset : p.2.coeffs.allocated = false) (rest : List Byte) :
    loadMap classOf (saveMap name (triOf a ms c) ++ rest) = .throw := by
  obtain ⟨again, h1, h2⟩ := loadMap_tri hreg c htri hcs hs rest
  rwa [if_pos hn, if_neg (fun h => by rw [h p hp] at hset; exact absurd hset (by decide))] at h2

/-- With a multiple of 256 components the loaded map has no coefficients, whatever was saved. -/
theorem C56_fails_coefficients_lost {name : Class → List Byte} {classOf : List Byte → Option Class} {cs : List Class}
    (hreg : Registered name classOf cs) (a : Nat) (ms : List (Nat × Mono)) (c : View Dbl) (htri : .tri ∈ cs) (hcs : ∀ p ∈ ms, monoClass p.2 ∈ cs) (hs : StoredTri a ms)
    (hn : ms.length % 256 = 0) (rest : List Byte) :
    ∃ a' ms' left, loadMap classOf (saveMap name (triOf a ms c) ++ rest) = .ok (some (triOf a' ms' .empty), left) := by
  obtain ⟨again, h1, h2⟩ := loadMap_tri hreg c htri hcs hs rest
  rw [if_neg (by simpa using hn)] at h2
  exact ⟨_, _, _, h2⟩

theorem nested_start {name : Class → List Byte} {classOf : List Byte → Option Class} {cs : List Class}
    (hreg : Registered name classOf cs)
    (a b : Nat) (ms : List (Nat × Mono)) (c c' : View Dbl) (os : List Obj) (htri : .tri ∈ cs) (hcs : ∀ p ∈ ms, monoClass p.2 ∈ cs) (hs : StoredTri b ms) (hn : ms.length < 256)
    (hset : ∀ p ∈ ms, p.2.coeffs.allocated = true) (ha : a ∉ b :: ms.map Prod.fst) (hos : os.length < 2 ^ 32) (rest : List Byte) :
    ∃ f rest' ic io, getPtr classOf ((saveMap name (.tri a (triOf b ms c :: os) c') ++ rest).length + 2)
        ⟨saveMap name (.tri a (triOf b ms c :: os) c') ++ rest, [], []⟩ =
      (getPtrs classOf (f + 2) os.length >>= fun comps => In.lift getBool >>= fun mv => In.mk fun s =>
          match mkTri 1 (some (triOf 2 (loadedFrom 2 ms) ⟨triLabel, allCoeffs ms, true⟩) :: comps) mv with
            | .ok o => .ok (some o, { s with objects := (1, o) :: s.objects })
            | .throw => .throw
            | .ub => .ub) ⟨List.replicate 7 0 ++ rest', ic, io⟩ := by
  have hlt := hs.2.1
  obtain ⟨st1, ic', rest', e1, e2, e3, e4, e5⟩ := getPtr_tri_start hreg (a := a) (triOf b ms c :: os) c' (st := .new) [] rest
    ((saveMap name (.tri a (triOf b ms c :: os) c') ++ rest).length + 1) htri (clsOk_nil name) (by simp [OutSt.new]) rfl
    (by simp [OutSt.new]) (by simp only [List.length_cons]; omega)
  simp only [OutSt.new, List.length_nil] at e1 e3
  have hnb : st1.objects.lookup b = none := by
    rw [e1, List.lookup_cons]
    have : (b == a) = false := by
      have : b ≠ a := fun e => ha (e ▸ List.mem_cons_self)
      simpa using this
    rw [this]; rfl
  have hlen : ms.length + 12 < (saveMap name (.tri a (triOf b ms c :: os) c')).length := by
    have h1 := putPtr_tri_length (name := name) (a := b) (ms := ms) (c := c) hnb
    have h2 : (putPtrs name (triOf b ms c :: os) st1).1.length ≥ (putPtr name (triOf b ms c) st1).1.length := by
      simp only [putPtrs, List.length_append]; omega
    unfold saveMap
    omega
  generalize hL : (saveMap name (.tri a (triOf b ms c :: os) c') ++ rest).length = L at e5 ⊢
  have hL' : ms.length + 12 < L := by rw [← hL, List.length_append]; omega
  obtain ⟨f, rfl⟩ : ∃ f, L = f + 2 := ⟨L - 2, by omega⟩
  obtain ⟨again, ic2, io2, -, h3⟩ := getPtr_tri hreg c (st := st1) []
    ((putPtrs name os (putPtr name (triOf b ms c) st1).2).1 ++ rest') (f + 1) htri hcs hs e2
    (by omega) (by
      intro b' hb'
      rw [e1, List.lookup_cons]
      have : (b' == a) = false := by
        have : b' ≠ a := fun e => ha (e ▸ hb')
        simpa using this
      rw [this]; rfl) (by rw [e1]; simp only [List.length_cons, List.length_nil]; omega) (by omega)
  have h0 : ms.length ≠ 0 := fun e => hs.1 (List.length_eq_zero_iff.1 e)
  rw [if_pos (by omega), if_pos hset, leftover_small hn, e1] at h3
  simp only [List.append_assoc, List.length_cons, List.length_nil] at h3
  refine ⟨f, again ++ (putBool (c.allocated && decide (c.data.length > 0)) ++
    ((putPtrs name os (putPtr name (triOf b ms c) st1).2).1 ++ rest')), ic2, io2, ?_⟩
  rw [show saveMap name (.tri a (triOf b ms c :: os) c') = (putPtr name (.tri a (triOf b ms c :: os) c') .new).1 from rfl, e5]
  rw [List.length_cons, getPtrs, In.assoc]
  simp only [putPtrs, List.append_assoc]
  rw [In.bind_ok h3, In.assoc]
  rfl

/-- A triangular map whose only component is a triangular map of at most 255 components: the loaded map has no coefficients,
whatever was saved. -/
theorem C56_fails_nested {name : Class → List Byte} {classOf : List Byte → Option Class} {cs : List Class}
    (hreg : Registered name classOf cs)
    (a b : Nat) (ms : List (Nat × Mono)) (c c' : View Dbl) (htri : .tri ∈ cs) (hcs : ∀ p ∈ ms, monoClass p.2 ∈ cs) (hs : StoredTri b ms) (hn : ms.length < 256)
    (hset : ∀ p ∈ ms, p.2.coeffs.allocated = true) (ha : a ∉ b :: ms.map Prod.fst) (rest : List Byte) :
    ∃ a' comps left, loadMap classOf (saveMap name (.tri a [triOf b ms c] c') ++ rest) = .ok (some (.tri a' comps .empty), left) := by
  obtain ⟨f, rest', ic, io, h⟩ := nested_start hreg a b ms c c' [] htri hcs hs hn hset ha (by simp) rest
  have h1 : getPtrs classOf (f + 2) 0 ⟨List.replicate 7 0 ++ rest', ic, io⟩ = .ok ([], ⟨List.replicate 7 0 ++ rest', ic, io⟩) := rfl
  have h2 : In.lift getBool ⟨List.replicate 7 0 ++ rest', ic, io⟩ = .ok (false, ⟨List.replicate 6 0 ++ rest', ic, io⟩) :=
    In.lift_reads (p := [0]) (reads_bool false) (List.replicate 6 0 ++ rest') ic io
  rw [List.length_nil, In.bind_ok h1, In.bind_ok h2] at h
  have h3 : mkTri 1 [some (triOf 2 (loadedFrom 2 ms) ⟨triLabel, allCoeffs ms, true⟩)] false =
      .ok (.tri 1 [triOf 2 (loadedFrom 2 ms) ⟨triLabel, allCoeffs ms, true⟩] .empty) := by
    generalize hl : loadedFrom 2 ms = l
    have hd : dims l = dims ms := by rw [← hl, dims_loadedFrom]
    have hne : l ≠ [] := by
      intro e
      rw [e] at hd
      exact hs.1 (List.map_eq_nil_iff.1 hd.symm)
    have h4 := lastDim_ge l 0 (by
      rw [hd]; intro d hd'; simp only [dims, List.mem_map] at hd'; obtain ⟨p, hp, rfl⟩ := hd'; exact hs.2.2.2.2.1 p hp)
      (by rw [hd]; exact hs.2.2.2.2.2) hne
    have h5 : ¬ (triOf 2 l ⟨triLabel, allCoeffs ms, true⟩).outputDim > (triOf 2 l ⟨triLabel, allCoeffs ms, true⟩).inputDim := by
      rw [triOf_outputDim]
      unfold triOf
      simp only [Obj.inputDim]
      rw [show (l.map fun p : Nat × Mono => Obj.mono p.1 p.2) = objs l from rfl]
      omega
    simp [mkTri, mkTri.allSome, mkTri.chain, h5]
  rw [h3] at h
  exact ⟨_, _, _, loadMap_ok h⟩

/-- A triangular map of two components, the first of which is a triangular map of at most 255 components: the second component
is read as a null pointer and the constructor dereferences it. -/
theorem C56_fails_nested_null {name : Class → List Byte} {classOf : List Byte → Option Class} {cs : List Class}
    (hreg : Registered name classOf cs)
    (a b : Nat) (ms : List (Nat × Mono)) (c c' : View Dbl) (o : Obj) (htri : .tri ∈ cs) (hcs : ∀ p ∈ ms, monoClass p.2 ∈ cs) (hs : StoredTri b ms) (hn : ms.length < 256)
    (hset : ∀ p ∈ ms, p.2.coeffs.allocated = true) (ha : a ∉ b :: ms.map Prod.fst) (rest : List Byte) :
    loadMap classOf (saveMap name (.tri a [triOf b ms c, o] c') ++ rest) = .ub := by
  obtain ⟨f, rest', ic, io, h⟩ := nested_start hreg a b ms c c' [o] htri hcs hs hn hset ha (by simp) rest
  have h1 : getPtrs classOf (f + 2) 1 ⟨List.replicate 7 0 ++ rest', ic, io⟩ = .ok ([none], ⟨List.replicate 3 0 ++ rest', ic, io⟩) := by
    rw [show List.replicate 7 (0 : Byte) ++ rest' = List.replicate 4 0 ++ (List.replicate 3 0 ++ rest') from rfl]
    rw [getPtrs, In.bind_ok (getPtr_null f (List.replicate 3 0 ++ rest') ic io)]
    rfl
  have h2 : In.lift getBool ⟨List.replicate 3 0 ++ rest', ic, io⟩ = .ok (false, ⟨List.replicate 2 0 ++ rest', ic, io⟩) :=
    In.lift_reads (p := [0]) (reads_bool false) (List.replicate 2 0 ++ rest') ic io
  rw [List.length_singleton, In.bind_ok h1, In.bind_ok h2] at h
  exact loadMap_ub h

/-! ## Other failures -/

/-- A rule given an external workspace has no workspace after loading, unless it needs none. -/
theorem C56_fails_external_workspace (q : QuadBase) (addr : Nat) (hw : q.workspace = .external addr)
    (hi : q.internalWork = .empty) (h0 : q.workspaceSize ≠ 0) (rest : List Byte) :
    ∃ q', QuadBase.load (q.save ++ rest) = .ok (q', rest) ∧ q'.workspace = .null ∧ q' ≠ q := by
  have hv : Reads (View.load getU64) (q.internalWork.save putU64) ⟨q.internalWork.label, q.internalWork.data, true⟩ := by
    refine reads_view reads_u64 ?_ ?_ <;> rw [hi] <;> simp [View.empty]
  have hne : ¬ q.workspaceSize.toNat ≤ q.internalWork.data.length := by
    rw [hi]
    simp only [View.empty, List.length_nil, Nat.le_zero]
    intro e
    exact h0 (UInt32.toNat_inj.1 (by rw [e]; rfl))
  have : Reads QuadBase.load q.save ⟨q.fdim, q.maxDim, q.workspaceSize, ⟨q.internalWork.label, q.internalWork.data, true⟩, .null⟩ := by
    unfold QuadBase.save QuadBase.load
    simp only [List.append_assoc]
    refine Reads.bind (reads_u32 _) (Reads.bind (reads_u32 _) (Reads.bind (reads_u32 _)
      (Reads.last hv fun s => ?_)))
    show Res.ok _ = _
    rw [if_pos rfl, if_neg hne]
  refine ⟨_, this rest, rfl, fun e => ?_⟩
  have := congrArg QuadBase.workspace e
  rw [hw] at this
  cases this

/-- Two different matrices of 2^32 entries are written as the same bytes, so that no reader can tell them apart. -/
theorem C56_fails_large_matrix : ∃ v w : MatView UInt64, v ≠ w ∧ v.rows < 2 ^ 32 ∧ v.cols < 2 ^ 32 ∧
    v.data.length = v.rows * v.cols ∧ w.rows = v.rows ∧ w.cols = v.cols ∧ w.data.length = v.data.length ∧
    v.save putU64 = w.save putU64 := by
  refine ⟨⟨[], 65536, 65536, List.replicate (2 ^ 32) 0, true⟩, ⟨[], 65536, 65536, List.replicate (2 ^ 32) 1, true⟩, ?_, ?_, ?_, ?_, rfl, rfl, ?_, ?_⟩
  · intro h
    have h' := congrArg MatView.data h
    simp only at h'
    have h2 := congrArg (fun l : List UInt64 => l.head?) h'
    rw [List.head?_replicate, List.head?_replicate] at h2
    simp at h2
  · show 65536 < 2 ^ 32
    omega
  · show 65536 < 2 ^ 32
    omega
  · simp only [List.length_replicate]
  · simp only [List.length_replicate]
  · unfold MatView.save
    simp only
    rw [show 65536 * 65536 % 2 ^ 32 = 0 by rfl, List.take_zero, List.take_zero]

/-! ## The hypotheses can be met -/

/-- A view with one number. -/
def exView {α : Type} (x : α) : View α := ⟨[1, 2], [x], true⟩

/-- A component in `d` variables with one term, the constant, and one coefficient. -/
def exMono (d : UInt32) : Mono where
  pos := 0
  expansion := ⟨d, ⟨d, true, ⟨[], [0, 0], true⟩, ⟨[], [], true⟩, ⟨[], [], true⟩, exView 0⟩, .linearized (.hermite true) 5 7,
    exView 3, exView 0, 9⟩
  quad := .adaptiveSimpson ⟨⟨1, 1, 1, exView 0, .internal⟩, 30, 0, 1, 2, 0⟩
  useContDeriv := true
  nugget := 4
  coeffs := exView 11

theorem exMono_stored (d : UInt32) : StoredMono (exMono d) := by
  refine ⟨⟨⟨?_, ?_, ?_, ?_⟩, ?_, rfl⟩, ⟨?_, ?_, rfl⟩, 1, rfl, Or.inl ⟨?_, rfl⟩⟩ <;>
    first
    | exact ⟨rfl, by simp [exMono, exView], by simp [exMono, exView]⟩
    | simp [exMono, exView]

/-- Two components in one and two variables form a triangular map. -/
theorem exTri_stored : StoredTri 5 [(6, exMono 1), (7, exMono 2)] := by
  refine ⟨by simp, by simp, by decide, ?_, ?_, ?_⟩
  · intro p hp
    simp only [List.mem_cons, List.not_mem_nil, or_false] at hp
    rcases hp with rfl | rfl <;> exact exMono_stored _
  · intro p hp
    simp only [List.mem_cons, List.not_mem_nil, or_false] at hp
    rcases hp with rfl | rfl <;> decide
  · simp [exMono]

example : ∀ p ∈ [(6, exMono 1), (7, exMono 2)], p.2.coeffs.allocated = true := by
  intro p hp
  simp only [List.mem_cons, List.not_mem_nil, or_false] at hp
  rcases hp with rfl | rfl <;> rfl

/-- A registry of two classes. -/
def exName : Class → List Byte
  | .tri => [0]
  | _ => [1]

/-- Its inverse. -/
def exClassOf : List Byte → Option Class
  | [0] => some .tri
  | [1] => some (monoClass (exMono 0))
  | _ => none

theorem exRegistered : Registered exName exClassOf [.tri, monoClass (exMono 0)] := by
  intro c hc
  simp only [List.mem_cons, List.not_mem_nil, or_false] at hc
  rcases hc with rfl | rfl
  · exact ⟨rfl, by simp [exName]⟩
  · exact ⟨rfl, by simp [exName, monoClass]⟩

/-- The partial theorem applies to a map of two components. -/
example (rest : List Byte) : ∃ a' ms' c' left, c'.data = [11, 11] ∧
    loadMap exClassOf (saveMap exName (triOf 5 [(6, exMono 1), (7, exMono 2)] ⟨[], [11, 11], true⟩) ++ rest) =
      .ok (some (triOf a' ms' c'), left ++ rest) := by
  obtain ⟨a', ms', c', left, -, h1, -, h2⟩ := C56_triangular_partial exRegistered 5 [(6, exMono 1), (7, exMono 2)]
    ⟨[], [11, 11], true⟩ (by simp) (by
      intro p hp
      simp only [List.mem_cons, List.not_mem_nil, or_false] at hp
      rcases hp with rfl | rfl <;> exact List.mem_cons_of_mem _ List.mem_cons_self) exTri_stored (by decide) (by
      intro p hp
      simp only [List.mem_cons, List.not_mem_nil, or_false] at hp
      rcases hp with rfl | rfl <;> rfl) rfl rest
  exact ⟨a', ms', c', left, h1, h2⟩

/-- So does the failure for nested maps. -/
example (o : Obj) (rest : List Byte) :
    loadMap exClassOf (saveMap exName (.tri 4 [triOf 5 [(6, exMono 1), (7, exMono 2)] ⟨[], [11, 11], true⟩, o] .empty) ++ rest) = .ub :=
  C56_fails_nested_null exRegistered 4 5 _ _ _ o (by simp) (by
      intro p hp
      simp only [List.mem_cons, List.not_mem_nil, or_false] at hp
      rcases hp with rfl | rfl <;> exact List.mem_cons_of_mem _ List.mem_cons_self) exTri_stored (by decide) (by
      intro p hp
      simp only [List.mem_cons, List.not_mem_nil, or_false] at hp
      rcases hp with rfl | rfl <;> rfl) (by decide) rest

/-- A matrix with six entries. -/
example : StoredMat (⟨[], 2, 3, [1, 2, 3, 4, 5, 6], true⟩ : MatView UInt64) := by
  refine ⟨rfl, ?_, ?_, ?_, rfl, ?_⟩ <;> simp

end Ser
end MParT
