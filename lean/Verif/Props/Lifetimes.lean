import Verif.Model.Lifetimes
import Mathlib.Tactic.Ring
import Mathlib.Data.List.Perm.Basic
/-!
# C96: objects and the arrays they were made from
-/
namespace MParT.Life
variable {α : Type}

/-! ### Heap operations leave other blocks alone -/

theorem read_eq {h : Heap α} {v : View} {d : List α} : h.read v = .ok d ↔ ∃ b, h[v.addr]? = some b ∧ b.live = true ∧ b.data = d := by
  unfold Heap.read Res.idx
  cases e : h[v.addr]? with
  | none => simp
  | some b => by_cases c : b.live = true <;> simp [c] <;> exact eq_comm

theorem write_eq {h h' : Heap α} {v : View} {d : List α} :
    h.write v d = .ok h' ↔ ∃ b, h[v.addr]? = some b ∧ b.live = true ∧ h' = h.set v.addr { b with data := d } := by
  unfold Heap.write Res.idx
  cases e : h[v.addr]? with
  | none => simp
  | some b => by_cases c : b.live = true <;> simp [c] <;> exact eq_comm

theorem share_eq {h h' : Heap α} {v : View} : h.share v = .ok h' ↔
    (v.managed = false ∧ h' = h) ∨ (v.managed = true ∧ ∃ b k, h[v.addr]? = some b ∧ b.refs = some k ∧
      h' = h.set v.addr { b with refs := some (k + 1) }) := by
  unfold Heap.share Res.idx
  cases m : v.managed with
  | false => simp [eq_comm]
  | true =>
    cases e : h[v.addr]? with
    | none => simp
    | some b => cases r : b.refs <;> simp [r, eq_comm]

theorem release_eq {h h' : Heap α} {v : View} : h.release v = .ok h' ↔
    (v.managed = false ∧ h' = h) ∨ (v.managed = true ∧ ∃ b k, h[v.addr]? = some b ∧ b.refs = some (k + 1) ∧
      h' = h.set v.addr { b with refs := some k, live := decide (k ≠ 0) }) := by
  unfold Heap.release Res.idx
  cases m : v.managed with
  | false => simp [eq_comm]
  | true =>
    cases e : h[v.addr]? with
    | none => simp
    | some b =>
      cases r : b.refs with
      | none => simp [r]
      | some k => cases k <;> simp [r, eq_comm]

theorem free_eq {h h' : Heap α} {a : Nat} : h.free a = .ok h' ↔ ∃ b, h[a]? = some b ∧ b.live = true ∧ h' = h.set a { b with live := false } := by
  unfold Heap.free Res.idx
  cases e : h[a]? with
  | none => simp
  | some b => by_cases c : b.live = true <;> simp [c] <;> exact eq_comm

theorem get_set_ne (h : Heap α) {a b : Nat} (x : Block α) (hn : b ≠ a) : (h.set b x)[a]? = h[a]? := by
  rw [List.getElem?_set_ne hn]

/-- Block `a` is the same in both heaps, and no address has become invalid. -/
def Same (a : Nat) (h h' : Heap α) : Prop := h'[a]? = h[a]? ∧ h.length ≤ h'.length

theorem Same.rfl' (a : Nat) (h : Heap α) : Same a h h := ⟨rfl, le_refl _⟩
theorem Same.trans {a : Nat} {h h' h'' : Heap α} (p : Same a h h') (q : Same a h' h'') : Same a h h'' := ⟨q.1.trans p.1, p.2.trans q.2⟩
theorem Same.set {a b : Nat} (h : Heap α) (x : Block α) (hn : b ≠ a) : Same a h (h.set b x) := ⟨get_set_ne h x hn, by simp⟩
theorem Same.app {a : Nat} (h e : Heap α) (ha : a < h.length) : Same a h (h ++ e) := ⟨List.getElem?_append_left ha, by simp⟩

theorem write_same {h h' : Heap α} {v : View} {d : List α} (e : h.write v d = .ok h') {a : Nat} (hn : v.addr ≠ a) : Same a h h' := by
  obtain ⟨b, -, -, rfl⟩ := write_eq.mp e; exact .set _ _ hn
theorem share_same {h h' : Heap α} {v : View} (e : h.share v = .ok h') {a : Nat} (hn : v.addr ≠ a) : Same a h h' := by
  rcases share_eq.mp e with ⟨-, rfl⟩ | ⟨-, b, k, -, -, rfl⟩
  · exact .rfl' _ _
  · exact .set _ _ hn
theorem release_same {h h' : Heap α} {v : View} (e : h.release v = .ok h') {a : Nat} (hn : v.addr ≠ a) : Same a h h' := by
  rcases release_eq.mp e with ⟨-, rfl⟩ | ⟨-, b, k, -, -, rfl⟩
  · exact .rfl' _ _
  · exact .set _ _ hn
theorem free_same {h h' : Heap α} {x : Nat} (e : h.free x = .ok h') {a : Nat} (hn : x ≠ a) : Same a h h' := by
  obtain ⟨b, -, -, rfl⟩ := free_eq.mp e; exact .set _ _ hn
theorem deepCopy_same {h h' : Heap α} {v w : View} (e : h.deepCopy v w = .ok h') {a : Nat} (hn : v.addr ≠ a) : Same a h h' := by
  simp only [Heap.deepCopy, Res.bind_eq_ok] at e
  obtain ⟨s, -, d, -, e⟩ := e
  split at e
  · cases e
  · exact write_same e hn
theorem releaseAll_same : ∀ {vs : List View} {h h' : Heap α}, releaseAll vs h = .ok h' → ∀ {a : Nat}, (∀ v ∈ vs, v.addr ≠ a) → Same a h h'
  | [], h, h', e, a, _ => by cases e; exact .rfl' _ _
  | v :: vs, h, h', e, a, hn => by
    simp only [releaseAll, Res.bind_eq_ok] at e
    obtain ⟨h1, e1, e2⟩ := e
    exact (release_same e1 (hn v (by simp))).trans (releaseAll_same e2 fun w hw => hn w (by simp [hw]))

theorem read_append {h e : Heap α} {v : View} {d : List α} (hr : h.read v = .ok d) : Heap.read (h ++ e) v = .ok d := by
  obtain ⟨b, hb, hl, hd⟩ := read_eq.mp hr
  exact read_eq.mpr ⟨b, by rw [List.getElem?_append_left ((List.getElem?_eq_some_iff.mp hb).1)]; exact hb, hl, hd⟩

/-! ### The ways members are made -/

section
variable [Inhabited α]

theorem copyIn_eq {h : Heap α} {v : View} {d : List α} (hr : h.read v = .ok d) :
    copyIn h v = .ok (⟨h.length, true⟩, h ++ [⟨d, some 1, true⟩]) := by
  have h1 := read_append (e := [⟨List.replicate d.length default, some 1, true⟩]) hr
  have h2 : Heap.read (h ++ [⟨List.replicate d.length default, some 1, true⟩]) ⟨h.length, true⟩ = .ok (List.replicate d.length default) :=
    read_eq.mpr ⟨_, by simp; rfl, rfl, rfl⟩
  have h3 : Heap.write (h ++ [⟨List.replicate d.length default, some 1, true⟩]) ⟨h.length, true⟩ d = .ok (h ++ [⟨d, some 1, true⟩]) :=
    write_eq.mpr ⟨_, by simp; rfl, rfl, by simp⟩
  simp only [copyIn, hr, Res.bind_ok, Heap.alloc, Heap.deepCopy, h1, h2, List.length_replicate, ne_eq, not_true_eq_false, if_false, h3, Res.pure_eq]

theorem store_eq {h : Heap α} {v : View} {d : List α} (hr : h.read v = .ok d) :
    store h v = .ok (⟨h.length, true⟩, h ++ [⟨d, some 1, true⟩]) := by
  have h1 := read_append (e := [⟨List.replicate d.length default, some 1, true⟩]) hr
  have h2 : Heap.read (h ++ [⟨List.replicate d.length default, some 1, true⟩]) ⟨h.length, true⟩ = .ok (List.replicate d.length default) :=
    read_eq.mpr ⟨_, by simp; rfl, rfl, rfl⟩
  have h3 : Heap.write (h ++ [⟨List.replicate d.length default, some 1, true⟩]) ⟨h.length, true⟩ d = .ok (h ++ [⟨d, some 1, true⟩]) :=
    write_eq.mpr ⟨_, by simp; rfl, rfl, by simp⟩
  have hs : ∀ k, Heap.share (h ++ [⟨d, some k, true⟩]) ⟨h.length, true⟩ = .ok (h ++ [⟨d, some (k + 1), true⟩]) := fun k =>
    share_eq.mpr (Or.inr ⟨rfl, ⟨d, some k, true⟩, k, by simp, rfl, by simp⟩)
  have hl : ∀ k, Heap.release (h ++ [⟨d, some (k + 2), true⟩]) ⟨h.length, true⟩ = .ok (h ++ [⟨d, some (k + 1), true⟩]) := fun k =>
    release_eq.mpr (Or.inr ⟨rfl, ⟨d, some (k + 2), true⟩, k + 1, by simp, rfl, by simp⟩)
  simp only [store, hr, Res.bind_ok, Heap.alloc, Heap.deepCopy, h1, h2, List.length_replicate, ne_eq, not_true_eq_false, if_false, h3, Res.pure_eq,
    hs, hl 1, hl 0]

theorem copyTemporary_eq {h : Heap α} {v : View} {d : List α} (hr : h.read v = .ok d) :
    copyTemporary h v = .ok (⟨h.length + 1, true⟩, h ++ [⟨d, none, false⟩, ⟨d, some 1, true⟩]) := by
  have h1 : Heap.read (h ++ [⟨d, none, true⟩]) ⟨h.length, false⟩ = .ok d := read_eq.mpr ⟨⟨d, none, true⟩, by simp, rfl, rfl⟩
  have h2 := copyIn_eq h1
  have h3 : Heap.free (h ++ [⟨d, none, true⟩] ++ [⟨d, some 1, true⟩]) h.length = .ok (h ++ [⟨d, none, false⟩, ⟨d, some 1, true⟩]) :=
    free_eq.mpr ⟨⟨d, none, true⟩, by simp, rfl, by simp⟩
  simp only [copyTemporary, hr, Res.bind_ok, h2, h3, Res.pure_eq, List.length_append, List.length_singleton]

theorem keepTemporary_eq {h : Heap α} {v : View} {d : List α} (hr : h.read v = .ok d) :
    keepTemporary h v = .ok (⟨h.length, false⟩, h ++ [⟨d, none, false⟩]) := by
  have h2 : keep (h ++ [⟨d, none, true⟩]) ⟨h.length, false⟩ = .ok (⟨h.length, false⟩, h ++ [⟨d, none, true⟩]) := by
    simp [keep, Heap.share]
  have h3 : Heap.free (h ++ [⟨d, none, true⟩]) h.length = .ok (h ++ [⟨d, none, false⟩]) := free_eq.mpr ⟨⟨d, none, true⟩, by simp, rfl, by simp⟩
  simp only [keepTemporary, hr, Res.bind_ok, h2, h3, Res.pure_eq]

end

/-! ### Objects that copy -/

/-- The constructors after which the object is said to have data of its own: objectives in Python and Julia, affine maps and functions, Gaussians
given by a covariance matrix, and compressed fixed sets in Python. -/
def Ctor.copies : Ctor → Prop
  | .pyObjective | .affine | .gaussianCov | .pyFixedCompressed => True
  | _ => False

section
variable [Inhabited α]

theorem how_copies {c : Ctor} (hc : c.copies) {h : Heap α} {v : View} {d : List α} (hr : h.read v = .ok d) :
    ∃ pre : List (Block α), (∀ b ∈ pre, b.refs = none ∧ b.live = false) ∧
      c.how h v = .ok (⟨h.length + pre.length, true⟩, h ++ (pre ++ [⟨d, some 1, true⟩])) := by
  cases c with
  | objective => exact hc.elim
  | gaussianMean => exact hc.elim
  | fixedSet => exact hc.elim
  | pyFixedDense => exact hc.elim
  | pyObjective => exact ⟨[], by simp, store_eq hr⟩
  | affine => exact ⟨[], by simp, copyIn_eq hr⟩
  | gaussianCov => exact ⟨[], by simp, copyIn_eq hr⟩
  | pyFixedCompressed => exact ⟨[⟨d, none, false⟩], by simp, copyTemporary_eq hr⟩

theorem readAll_append {h e : Heap α} : ∀ {vs : List View} {ds : List (List α)}, readAll h vs = .ok ds → readAll (h ++ e) vs = .ok ds
  | [], ds, hr => hr
  | v :: vs, ds, hr => by
    simp only [readAll, Res.bind_eq_ok] at hr
    obtain ⟨d, h1, ds', h2, h3⟩ := hr
    simp only [readAll, read_append h1, readAll_append h2, Res.bind_ok]
    exact h3

/-- What a copying constructor does to the heap: new blocks, one live one for each argument with one reference. -/
theorem members_copies {c : Ctor} (hc : c.copies) : ∀ (vs : List View) (h : Heap α) (ds : List (List α)), readAll h vs = .ok ds →
    ∃ ms ext, members c.how vs h = .ok (ms, h ++ ext) ∧ readAll (h ++ ext) ms = .ok ds ∧ (ms.map View.addr).Nodup ∧
      (∀ m ∈ ms, m.managed = true ∧ h.length ≤ m.addr ∧ ∃ d, (h ++ ext)[m.addr]? = some ⟨d, some 1, true⟩) ∧
      (∀ a b, (h ++ ext)[a]? = some b → h.length ≤ a → (b.refs = none ∧ b.live = false) ∨ (b.refs = some 1 ∧ b.live = true ∧ (⟨a, true⟩ : View) ∈ ms))
  | [], h, ds, hr => ⟨[], [], by simp [members], by simpa [readAll] using hr, by simp, by simp, fun a b hb ha => by
      have := (List.getElem?_eq_some_iff.mp hb).1
      simp at this; omega⟩
  | v :: vs, h, ds, hr => by
    simp only [readAll, Res.bind_eq_ok] at hr
    obtain ⟨d, h1, ds', h2, h3⟩ := hr
    cases h3
    obtain ⟨pre, hp, hh⟩ := how_copies hc h1
    obtain ⟨ms, ext, e1, e2, e3, e4, e5⟩ := members_copies hc vs (h ++ (pre ++ [⟨d, some 1, true⟩])) ds' (readAll_append h2)
    have hl : (h ++ (pre ++ [(⟨d, some 1, true⟩ : Block α)])).length = h.length + pre.length + 1 := by simp; omega
    have hat : (h ++ (pre ++ [(⟨d, some 1, true⟩ : Block α)]))[h.length + pre.length]? = some ⟨d, some 1, true⟩ := by
      rw [List.getElem?_append_right (by omega), List.getElem?_append_right (by omega)]; simp
    have hat' : (h ++ (pre ++ [(⟨d, some 1, true⟩ : Block α)]) ++ ext)[h.length + pre.length]? = some ⟨d, some 1, true⟩ := by
      rw [List.getElem?_append_left (by rw [hl]; omega)]; exact hat
    have happ : h ++ (pre ++ [(⟨d, some 1, true⟩ : Block α)] ++ ext) = h ++ (pre ++ [⟨d, some 1, true⟩]) ++ ext := by
      rw [List.append_assoc h]
    refine ⟨⟨h.length + pre.length, true⟩ :: ms, pre ++ [⟨d, some 1, true⟩] ++ ext, ?_, ?_, ?_, ?_, ?_⟩
    · simp only [members, hh, Res.bind_ok, e1, Res.pure_eq, happ]
    · have : Heap.read (h ++ (pre ++ [⟨d, some 1, true⟩]) ++ ext) ⟨h.length + pre.length, true⟩ = .ok d := read_eq.mpr ⟨_, hat', rfl, rfl⟩
      rw [happ]
      simp only [readAll, this, e2, Res.bind_ok, Res.pure_eq]
    · simp only [List.map_cons, List.nodup_cons]
      refine ⟨fun hm => ?_, e3⟩
      obtain ⟨m, hm1, hm2⟩ := List.mem_map.mp hm
      have := (e4 m hm1).2.1
      rw [hl] at this; omega
    · intro m hm
      rw [happ]
      rcases List.mem_cons.mp hm with rfl | hm
      · exact ⟨rfl, by simp, d, hat'⟩
      · obtain ⟨g1, g2, g3⟩ := e4 m hm
        exact ⟨g1, by rw [hl] at g2; omega, g3⟩
    · intro a b hb ha
      rw [happ] at hb
      by_cases hA : (h ++ (pre ++ [(⟨d, some 1, true⟩ : Block α)])).length ≤ a
      · rcases e5 a b hb hA with g | ⟨g1, g2, g3⟩
        · exact Or.inl g
        · exact Or.inr ⟨g1, g2, by simp [g3]⟩
      · rw [List.getElem?_append_left (by omega), List.getElem?_append_right ha] at hb
        by_cases hB : a - h.length < pre.length
        · rw [List.getElem?_append_left hB] at hb
          exact Or.inl (hp b (List.mem_of_getElem? hb))
        · have : a = h.length + pre.length := by rw [hl] at hA; omega
          subst this
          rw [List.getElem?_append_right (by omega)] at hb
          simp at hb
          subst hb
          exact Or.inr ⟨rfl, rfl, by simp⟩

/-! ### States -/

/-- The views a variable stands for. -/
def varViews : Option Var → List View
  | some v => [v.as]
  | none => []

/-- The views of an object. -/
def objViews : Option Object → List View
  | some b => b.views
  | none => []

/-- No view points outside the heap. -/
def WF (s : State α) : Prop :=
  (∀ (x : Nat) (v : Var), s.vars[x]? = some (some v) → v.as.addr < s.heap.length) ∧
  (∀ (o : Nat) (b : Object), s.objs[o]? = some (some b) → ∀ w ∈ b.views, w.addr < s.heap.length)

theorem var_eq {s : State α} {x : Nat} {v : Var} : s.var x = .ok v ↔ s.vars[x]? = some (some v) := by
  unfold State.var
  split
  · next h => simp [h]
  · next h =>
    constructor
    · intro e; cases e
    · intro e; exact (h v e).elim

theorem obj_eq {s : State α} {o : Nat} {b : Object} : s.obj o = .ok b ↔ s.objs[o]? = some (some b) := by
  unfold State.obj
  split
  · next h => simp [h]
  · next h =>
    constructor
    · intro e; cases e
    · intro e; exact (h b e).elim

theorem args_vars {s : State α} : ∀ {xs : List Nat} {vs : List View}, s.args xs = .ok vs → ∀ w ∈ vs, ∃ x ∈ xs, ∃ v, s.vars[x]? = some (some v) ∧ w = v.as
  | [], vs, h, w, hw => by cases h; simp at hw
  | x :: xs, vs, h, w, hw => by
    simp only [State.args, Res.bind_eq_ok] at h
    obtain ⟨v, h1, vs', h2, h3⟩ := h
    cases h3
    rcases List.mem_cons.mp hw with rfl | hw
    · exact ⟨x, by simp, v, var_eq.mp h1, rfl⟩
    · obtain ⟨y, hy, r⟩ := args_vars h2 w hw
      exact ⟨y, by simp [hy], r⟩

theorem how_spec {c : Ctor} {h h' : Heap α} {v m : View} (e : c.how h v = .ok (m, h')) :
    h.length ≤ h'.length ∧ (m.addr = v.addr ∨ (h.length ≤ m.addr ∧ m.addr < h'.length)) ∧
      ∀ a, a < h.length → v.addr ≠ a → Same a h h' := by
  have hkeep : keep h v = .ok (m, h') → h.length ≤ h'.length ∧ (m.addr = v.addr ∨ (h.length ≤ m.addr ∧ m.addr < h'.length)) ∧
      ∀ a, a < h.length → v.addr ≠ a → Same a h h' := by
    intro e
    simp only [keep, Res.bind_eq_ok] at e
    obtain ⟨h1, e1, e2⟩ := e
    cases e2
    refine ⟨?_, Or.inl rfl, fun a _ hn => share_same e1 hn⟩
    rcases share_eq.mp e1 with ⟨-, rfl⟩ | ⟨-, b, k, -, -, rfl⟩ <;> simp
  have hread : ∀ (how : Heap α → View → Res (View × Heap α)), (∃ f, how h v = (h.read v >>= f)) → how h v = .ok (m, h') →
      ∃ d, h.read v = .ok d := by
    rintro how ⟨f, hf⟩ e
    rw [hf, Res.bind_eq_ok] at e
    obtain ⟨d, hd, -⟩ := e
    exact ⟨d, hd⟩
  have fin : ∀ ext : List (Block α), ∀ k, k < ext.length → Res.ok ((⟨h.length + k, true⟩ : View), h ++ ext) = .ok (m, h') →
      h.length ≤ h'.length ∧ (m.addr = v.addr ∨ (h.length ≤ m.addr ∧ m.addr < h'.length)) ∧
      ∀ a, a < h.length → v.addr ≠ a → Same a h h' := by
    intro ext k hk e
    cases e
    exact ⟨by simp, Or.inr ⟨by simp, by simpa using hk⟩, fun a ha _ => .app _ _ ha⟩
  cases c with
  | objective => exact hkeep e
  | gaussianMean => exact hkeep e
  | fixedSet => exact hkeep e
  | pyObjective =>
    obtain ⟨d, hd⟩ := hread store ⟨_, rfl⟩ e
    exact fin [_] 0 (by simp) ((store_eq hd).symm.trans e)
  | affine =>
    obtain ⟨d, hd⟩ := hread copyIn ⟨_, rfl⟩ e
    exact fin [_] 0 (by simp) ((copyIn_eq hd).symm.trans e)
  | gaussianCov =>
    obtain ⟨d, hd⟩ := hread copyIn ⟨_, rfl⟩ e
    exact fin [_] 0 (by simp) ((copyIn_eq hd).symm.trans e)
  | pyFixedCompressed =>
    obtain ⟨d, hd⟩ := hread copyTemporary ⟨_, rfl⟩ e
    exact fin [_, _] 1 (by simp) ((copyTemporary_eq hd).symm.trans e)
  | pyFixedDense =>
    obtain ⟨d, hd⟩ := hread keepTemporary ⟨_, rfl⟩ e
    have e' := (keepTemporary_eq hd).symm.trans e
    cases e'
    exact ⟨by simp, Or.inr ⟨by simp, by simp⟩, fun a ha _ => .app _ _ ha⟩

theorem members_spec {c : Ctor} : ∀ {vs : List View} {h h' : Heap α} {ms : List View}, members c.how vs h = .ok (ms, h') →
    h.length ≤ h'.length ∧ (∀ m ∈ ms, (∃ v ∈ vs, m.addr = v.addr) ∨ (h.length ≤ m.addr ∧ m.addr < h'.length)) ∧
      ∀ a, a < h.length → (∀ v ∈ vs, v.addr ≠ a) → Same a h h'
  | [], h, h', ms, e => by
    cases e
    exact ⟨le_refl _, by simp, fun a _ _ => .rfl' _ _⟩
  | v :: vs, h, h', ms, e => by
    simp only [members, Res.bind_eq_ok] at e
    obtain ⟨⟨m, h1⟩, e1, ⟨ms', h2⟩, e2, e3⟩ := e
    cases e3
    dsimp only at e2
    obtain ⟨p1, p2, p3⟩ := how_spec e1
    obtain ⟨q1, q2, q3⟩ := members_spec e2
    dsimp only
    refine ⟨p1.trans q1, ?_, fun a ha hn => (p3 a ha (hn v (by simp))).trans (q3 a (by omega) fun w hw => hn w (by simp [hw]))⟩
    intro w hw
    rcases List.mem_cons.mp hw with rfl | hw
    · rcases p2 with p | ⟨p, p'⟩
      · exact Or.inl ⟨v, by simp, p⟩
      · exact Or.inr ⟨p, by omega⟩
    · rcases q2 w hw with ⟨u, hu, r⟩ | ⟨r, r'⟩
      · exact Or.inl ⟨u, by simp [hu], r⟩
      · exact Or.inr ⟨by omega, r'⟩

/-- The statement does not set the coefficients of `o` or take a map onto them. -/
def Op.Spares (o : Nat) : Op α → Prop
  | .setCoeffs i _ => i ≠ o
  | .wrapCoeffs i _ => i ≠ o
  | .coeffMap i => i ≠ o
  | _ => True

/-- The statement does not give the object `b`, which is object `o`, other data: it was made from its data, or the statement spares it. -/
def Fixed (b : Object) (o : Nat) (op : Op α) : Prop := (∃ ms, b = .made ms) ∨ op.Spares o

theorem Fixed.ne {s : State α} {b : Object} {o i n : Nat} {sv : Option View} {op : Op α} (h : Fixed b o op) (ho : s.objs[o]? = some (some b))
    (hi : s.objs[i]? = some (some (.map n sv))) (hs : op.Spares o → i ≠ o) : i ≠ o := by
  rcases h with ⟨ms, rfl⟩ | h
  · rintro rfl; rw [ho] at hi; cases hi
  · exact hs h

/-- Object `o` is `b`, and nothing else refers to its blocks. -/
def Owns (s : State α) (o : Nat) (b : Object) : Prop :=
  s.objs[o]? = some (some b) ∧ ∀ m ∈ b.views, m.addr < s.heap.length ∧
    (∀ (x : Nat) (v : Var), s.vars[x]? = some (some v) → v.as.addr ≠ m.addr) ∧
    (∀ (o' : Nat) (b : Object), o' ≠ o → s.objs[o']? = some (some b) → ∀ w ∈ b.views, w.addr ≠ m.addr)

theorem get_append {β : Type} {l : List β} {x y : β} {i : Nat} (h : (l ++ [y])[i]? = some x) : l[i]? = some x ∨ (i = l.length ∧ x = y) := by
  rcases Nat.lt_trichotomy i l.length with c | c | c
  · rw [List.getElem?_append_left c] at h; exact Or.inl h
  · subst c; simp at h; exact Or.inr ⟨rfl, h.symm⟩
  · rw [List.getElem?_eq_none (by simp; omega)] at h; cases h

theorem get_set_some {β : Type} {l : List (Option β)} {x : β} {y : Option β} {i j : Nat} (h : (l.set j y)[i]? = some (some x)) :
    (i ≠ j ∧ l[i]? = some (some x)) ∨ (i = j ∧ y = some x) := by
  by_cases c : j = i
  · subst c
    rw [List.getElem?_set] at h
    simp at h
    exact Or.inr ⟨rfl, h.2⟩
  · rw [List.getElem?_set_ne c] at h
    exact Or.inl ⟨fun e => c e.symm, h⟩

/-- What a statement does to the objects that are there: an object keeps its members or is dropped, an object that is gone stays gone. -/
theorem step_objs {s s' : State α} {op : Op α} (e : step s op = .ok s') (o : Nat) :
    (s.objs[o]? = some none → s'.objs[o]? = some none) ∧
    (∀ b, s.objs[o]? = some (some b) → Fixed b o op → s'.objs[o]? = some (some b) ∨ s'.objs[o]? = some none) := by
  have happ : ∀ (y : Option Object), (s.objs[o]? = some none → (s.objs ++ [y])[o]? = some none) ∧
      (∀ b, s.objs[o]? = some (some b) → Fixed b o op → (s.objs ++ [y])[o]? = some (some b) ∨ (s.objs ++ [y])[o]? = some none) := by
    intro y
    constructor
    · intro h; rw [List.getElem?_append_left (List.getElem?_eq_some_iff.mp h).1]; exact h
    · intro ms h _; left; rw [List.getElem?_append_left (List.getElem?_eq_some_iff.mp h).1]; exact h
  have hset : ∀ (i : Nat) (n : Nat) (sv : Option View) (y : Option Object), s.objs[i]? = some (some (.map n sv)) → (op.Spares o → i ≠ o) →
      (s.objs[o]? = some none → (s.objs.set i y)[o]? = some none) ∧
      (∀ b, s.objs[o]? = some (some b) → Fixed b o op → (s.objs.set i y)[o]? = some (some b) ∨ (s.objs.set i y)[o]? = some none) := by
    intro i n sv y hi hsp
    constructor
    · intro h
      have : i ≠ o := by rintro rfl; rw [h] at hi; cases hi
      rw [List.getElem?_set_ne this]; exact h
    · intro b h hf
      have : i ≠ o := hf.ne h hi hsp
      left; rw [List.getElem?_set_ne this]; exact h
  have hid : (s.objs[o]? = some none → s.objs[o]? = some none) ∧
    (∀ b, s.objs[o]? = some (some b) → Fixed b o op → s.objs[o]? = some (some b) ∨ s.objs[o]? = some none) := ⟨id, fun _ h _ => Or.inl h⟩
  cases op with
  | newArray d => cases e; exact hid
  | newView d =>
    simp only [step, Res.bind_eq_ok] at e
    obtain ⟨h, -, e⟩ := e
    cases e; exact hid
  | write x d =>
    simp only [step, Res.bind_eq_ok] at e
    obtain ⟨v, -, old, -, e⟩ := e
    split at e
    · cases e
    · obtain ⟨h, -, e⟩ := Res.bind_eq_ok.mp e
      cases e; exact hid
  | free x =>
    simp only [step, Res.bind_eq_ok] at e
    obtain ⟨v, -, h, -, e⟩ := e
    cases e; exact hid
  | make c args =>
    simp only [step, Res.bind_eq_ok] at e
    obtain ⟨vs, -, ⟨ms, h⟩, -, e⟩ := e
    cases e; exact happ _
  | newMap n => cases e; exact happ _
  | setCoeffs i x =>
    simp only [step, Res.bind_eq_ok] at e
    obtain ⟨b, hb, v, -, e⟩ := e
    cases b with
    | made ms => cases e
    | map n sv =>
      cases sv with
      | none =>
        obtain ⟨⟨m, h⟩, -, e⟩ := Res.bind_eq_ok.mp e
        cases e; exact hset _ _ _ _ (obj_eq.mp hb) id
      | some sv =>
        obtain ⟨d, -, e⟩ := Res.bind_eq_ok.mp e
        obtain ⟨old, -, e⟩ := Res.bind_eq_ok.mp e
        split at e
        · cases e
        · split at e
          · obtain ⟨⟨m, h⟩, -, e⟩ := Res.bind_eq_ok.mp e
            obtain ⟨h', -, e⟩ := Res.bind_eq_ok.mp e
            cases e; exact hset _ _ _ _ (obj_eq.mp hb) id
          · obtain ⟨h, -, e⟩ := Res.bind_eq_ok.mp e
            cases e; exact hid
  | wrapCoeffs i x =>
    simp only [step, Res.bind_eq_ok] at e
    obtain ⟨b, hb, v, -, e⟩ := e
    cases b with
    | made ms => cases e
    | map n sv =>
      obtain ⟨d, -, e⟩ := Res.bind_eq_ok.mp e
      split at e
      · cases e
      · obtain ⟨h, -, e⟩ := Res.bind_eq_ok.mp e
        obtain ⟨h', -, e⟩ := Res.bind_eq_ok.mp e
        cases e; exact hset _ _ _ _ (obj_eq.mp hb) id
  | coeffMap i =>
    simp only [step, Res.bind_eq_ok] at e
    obtain ⟨b, hb, e⟩ := e
    cases b with
    | made ms => cases e
    | map n sv =>
      cases sv with
      | none => cases e
      | some sv => cases e; exact hid
  | look i =>
    simp only [step, Res.bind_eq_ok] at e
    obtain ⟨b, hb, e⟩ := e
    cases e; exact hid
  | drop i =>
    simp only [step, Res.bind_eq_ok] at e
    obtain ⟨b, hb, h, -, e⟩ := e
    cases e
    by_cases c : i = o
    · subst c
      have : (s.objs.set i none)[i]? = some none := by
        rw [List.getElem?_set]; simp [(List.getElem?_eq_some_iff.mp (obj_eq.mp hb)).1]
      exact ⟨fun _ => this, fun _ _ _ => Or.inr this⟩
    · constructor
      · intro h; rw [List.getElem?_set_ne c]; exact h
      · intro b h _; left; rw [List.getElem?_set_ne c]; exact h

/-- What a statement does to the blocks: a block that no variable and no object but `o` refers to is left as it is, unless `o` is dropped, and
nothing new refers to it. -/
theorem step_frame {s s' : State α} {op : Op α} (e : step s op = .ok s') (o : Nat) (b₀ : Object) (ho : s.objs[o]? = some (some b₀)) (hf : Fixed b₀ o op)
    (ho' : s'.objs[o]? ≠ some none)
    (a : Nat) (ha : a < s.heap.length) (hv : ∀ (x : Nat) (v : Var), s.vars[x]? = some (some v) → v.as.addr ≠ a)
    (hb : ∀ (o' : Nat) (b : Object), o' ≠ o → s.objs[o']? = some (some b) → ∀ w ∈ b.views, w.addr ≠ a) :
    Same a s.heap s'.heap ∧ (∀ (x : Nat) (v : Var), s'.vars[x]? = some (some v) → v.as.addr ≠ a) ∧
    (∀ (o' : Nat) (b : Object), o' ≠ o → s'.objs[o']? = some (some b) → ∀ w ∈ b.views, w.addr ≠ a) := by
  have hvapp : ∀ (v : Var), v.as.addr ≠ a → ∀ (x : Nat) (w : Var), (s.vars ++ [some v])[x]? = some (some w) → w.as.addr ≠ a := by
    intro v hva x w h
    rcases get_append h with h | ⟨-, h⟩
    · exact hv x w h
    · cases h; exact hva
  have hoapp : ∀ (b : Object), (∀ w ∈ b.views, w.addr ≠ a) → ∀ (o' : Nat) (b' : Object), o' ≠ o → (s.objs ++ [some b])[o']? = some (some b') →
      ∀ w ∈ b'.views, w.addr ≠ a := by
    intro b hba o' b' hne h
    rcases get_append h with h | ⟨-, h⟩
    · exact hb o' b' hne h
    · cases h; exact hba
  have hoset : ∀ (i : Nat) (y : Option Object), (∀ b, y = some b → ∀ w ∈ b.views, w.addr ≠ a) → ∀ (o' : Nat) (b' : Object), o' ≠ o →
      (s.objs.set i y)[o']? = some (some b') → ∀ w ∈ b'.views, w.addr ≠ a := by
    intro i y hy o' b' hne h
    rcases get_set_some h with ⟨-, h⟩ | ⟨-, h⟩
    · exact hb o' b' hne h
    · exact hy b' h
  have hcopy : ∀ {v m : View} {h : Heap α}, copyIn s.heap v = .ok (m, h) → v.addr ≠ a → Same a s.heap h ∧ m.addr ≠ a := by
    intro v m h e hva
    obtain ⟨p1, p2, p3⟩ := how_spec (c := .affine) (h := s.heap) (v := v) e
    refine ⟨p3 a ha hva, ?_⟩
    rcases p2 with p | p
    · rw [p]; exact hva
    · omega
  have hmap : ∀ {i n : Nat} {sv : Option View}, s.obj i = .ok (.map n sv) → (op.Spares o → i ≠ o) → ∀ w ∈ sv.toList, w.addr ≠ a := by
    intro i n sv hi hsp w hw
    have hi' := obj_eq.mp hi
    exact hb i _ (hf.ne ho hi' hsp) hi' w hw
  cases op with
  | newArray d => cases e; exact ⟨.app _ _ ha, hvapp _ (by simp [Var.as]; omega), hb⟩
  | newView d =>
    simp only [step, Heap.alloc, Res.bind_eq_ok] at e
    obtain ⟨h, e1, e⟩ := e
    cases e
    exact ⟨(Same.app _ _ ha).trans (write_same e1 (by simp; omega)), hvapp _ (by simp [Var.as]; omega), hb⟩
  | write x d =>
    simp only [step, Res.bind_eq_ok] at e
    obtain ⟨v, hx, old, -, e⟩ := e
    split at e
    · cases e
    · obtain ⟨h, e1, e⟩ := Res.bind_eq_ok.mp e
      cases e; exact ⟨write_same e1 (hv x v (var_eq.mp hx)), hv, hb⟩
  | free x =>
    simp only [step, Res.bind_eq_ok] at e
    obtain ⟨v, hx, h, e1, e⟩ := e
    cases e
    have hva := hv x v (var_eq.mp hx)
    refine ⟨?_, ?_, hb⟩
    · cases v with
      | array b => exact free_same e1 hva
      | view b => exact release_same e1 hva
      | «alias» b => cases e1; exact .rfl' _ _
    · intro y w h
      rcases get_set_some h with ⟨-, h⟩ | ⟨-, h⟩
      · exact hv y w h
      · cases h
  | make c args =>
    simp only [step, Res.bind_eq_ok] at e
    obtain ⟨vs, e1, ⟨ms', h⟩, e2, e⟩ := e
    cases e
    obtain ⟨p1, p2, p3⟩ := members_spec e2
    have hvs : ∀ v ∈ vs, v.addr ≠ a := by
      intro v hvv
      obtain ⟨x, -, u, h1, rfl⟩ := args_vars e1 v hvv
      exact hv x u h1
    refine ⟨p3 a ha hvs, hv, hoapp _ ?_⟩
    intro w hw
    rcases p2 w hw with ⟨v, h1, h2⟩ | h1
    · rw [h2]; exact hvs v h1
    · omega
  | newMap n => cases e; exact ⟨.rfl' _ _, hv, hoapp _ (by simp [Object.views])⟩
  | setCoeffs i x =>
    simp only [step, Res.bind_eq_ok] at e
    obtain ⟨b, hbi, v, hx, e⟩ := e
    have hva := hv x v (var_eq.mp hx)
    cases b with
    | made ms => cases e
    | map n sv =>
      cases sv with
      | none =>
        obtain ⟨⟨m, h⟩, e1, e⟩ := Res.bind_eq_ok.mp e
        cases e
        obtain ⟨q1, q2⟩ := hcopy e1 hva
        exact ⟨q1, hv, hoset _ _ (by intro b hb' w hw; cases hb'; simp [Object.views] at hw; rw [hw]; exact q2)⟩
      | some sv =>
        have hsv := hmap hbi id sv (by simp)
        obtain ⟨d, -, e⟩ := Res.bind_eq_ok.mp e
        obtain ⟨old, -, e⟩ := Res.bind_eq_ok.mp e
        split at e
        · cases e
        · split at e
          · obtain ⟨⟨m, h⟩, e1, e⟩ := Res.bind_eq_ok.mp e
            obtain ⟨h', e2, e⟩ := Res.bind_eq_ok.mp e
            cases e
            obtain ⟨q1, q2⟩ := hcopy e1 hva
            exact ⟨q1.trans (release_same e2 hsv), hv,
              hoset _ _ (by intro b hb' w hw; cases hb'; simp [Object.views] at hw; rw [hw]; exact q2)⟩
          · obtain ⟨h, e1, e⟩ := Res.bind_eq_ok.mp e
            cases e; exact ⟨deepCopy_same e1 hsv, hv, hb⟩
  | wrapCoeffs i x =>
    simp only [step, Res.bind_eq_ok] at e
    obtain ⟨b, hbi, v, hx, e⟩ := e
    have hva := hv x v (var_eq.mp hx)
    cases b with
    | made ms => cases e
    | map n sv =>
      have hsv := hmap hbi id
      obtain ⟨d, -, e⟩ := Res.bind_eq_ok.mp e
      split at e
      · cases e
      · obtain ⟨h, e1, e⟩ := Res.bind_eq_ok.mp e
        obtain ⟨h', e2, e⟩ := Res.bind_eq_ok.mp e
        cases e
        exact ⟨(share_same e1 hva).trans (releaseAll_same e2 hsv), hv,
          hoset _ _ (by intro b hb' w hw; cases hb'; simp [Object.views] at hw; rw [hw]; exact hva)⟩
  | coeffMap i =>
    simp only [step, Res.bind_eq_ok] at e
    obtain ⟨b, hbi, e⟩ := e
    cases b with
    | made ms => cases e
    | map n sv =>
      cases sv with
      | none => cases e
      | some sv =>
        cases e
        exact ⟨.rfl' _ _, hvapp _ (hmap hbi id sv (by simp)), hb⟩
  | look i =>
    simp only [step, Res.bind_eq_ok] at e
    obtain ⟨b, hbi, e⟩ := e
    cases e; exact ⟨.rfl' _ _, hv, hb⟩
  | drop i =>
    simp only [step, Res.bind_eq_ok] at e
    obtain ⟨b, hbi, h, e1, e⟩ := e
    cases e
    have hi' := obj_eq.mp hbi
    have hne : i ≠ o := by
      rintro rfl
      refine ho' ?_
      rw [List.getElem?_set]; simp [(List.getElem?_eq_some_iff.mp hi').1]
    exact ⟨releaseAll_same e1 (hb i b hne hi'), hv, hoset _ _ (by simp)⟩

theorem run_objs {s s' : State α} : ∀ {ops : List (Op α)}, run s ops = .ok s' → ∀ o : Nat, s.objs[o]? = some none → s'.objs[o]? = some none
  | [], e, o, h => by cases e; exact h
  | op :: ops, e, o, h => by
    simp only [run, Res.bind_eq_ok] at e
    obtain ⟨s1, e1, e2⟩ := e
    exact run_objs e2 o ((step_objs e1 o).1 h)

theorem readAll_same {h h' : Heap α} : ∀ {ms : List View}, (∀ m ∈ ms, Same m.addr h h') → readAll h' ms = readAll h ms
  | [], _ => rfl
  | m :: ms, hs => by
    have h1 : h'.read m = h.read m := by unfold Heap.read Res.idx; rw [(hs m (by simp)).1]
    have h2 := readAll_same (ms := ms) fun w hw => hs w (by simp [hw])
    simp only [readAll, h1, h2]

theorem Owns.run {o : Nat} {b : Object} : ∀ {ops : List (Op α)} {s s' : State α}, Owns s o b → run s ops = .ok s' → (∀ op ∈ ops, Fixed b o op) →
    s'.objs[o]? ≠ some none → Owns s' o b ∧ readAll s'.heap b.views = readAll s.heap b.views
  | [], s, s', h, e, _, _ => by cases e; exact ⟨h, rfl⟩
  | op :: ops, s, s', h, e, hfix, hn => by
    simp only [Life.run, Res.bind_eq_ok] at e
    obtain ⟨s1, e1, e2⟩ := e
    have hfo := hfix op (by simp)
    have h1 : s1.objs[o]? ≠ some none := fun h' => hn (run_objs e2 o h')
    have hf := fun m hm => step_frame e1 o b h.1 hfo h1 m.addr (h.2 m hm).1 (h.2 m hm).2.1 (h.2 m hm).2.2
    have : Owns s1 o b := by
      refine ⟨((step_objs e1 o).2 b h.1 hfo).resolve_right h1, fun m hm => ?_⟩
      obtain ⟨f1, f2, f3⟩ := hf m hm
      exact ⟨lt_of_lt_of_le (h.2 m hm).1 f1.2, f2, f3⟩
    obtain ⟨r1, r2⟩ := this.run e2 (fun op hop => hfix op (by simp [hop])) hn
    exact ⟨r1, r2.trans (readAll_same fun m hm => (hf m hm).1)⟩

theorem write_len {h h' : Heap α} {v : View} {d : List α} (e : h.write v d = .ok h') : h'.length = h.length := by
  obtain ⟨b, -, -, rfl⟩ := write_eq.mp e; simp
theorem share_len {h h' : Heap α} {v : View} (e : h.share v = .ok h') : h'.length = h.length := by
  rcases share_eq.mp e with ⟨-, rfl⟩ | ⟨-, b, k, -, -, rfl⟩ <;> simp
theorem release_len {h h' : Heap α} {v : View} (e : h.release v = .ok h') : h'.length = h.length := by
  rcases release_eq.mp e with ⟨-, rfl⟩ | ⟨-, b, k, -, -, rfl⟩ <;> simp
theorem endOf_len {h h' : Heap α} {v : Var} (e : h.endOf v = .ok h') : h'.length = h.length := by
  cases v with
  | array a => obtain ⟨b, -, -, rfl⟩ := free_eq.mp e; simp
  | view a => exact release_len e
  | «alias» a => cases e; rfl
theorem deepCopy_len {h h' : Heap α} {v w : View} (e : h.deepCopy v w = .ok h') : h'.length = h.length := by
  simp only [Heap.deepCopy, Res.bind_eq_ok] at e
  obtain ⟨s, -, d, -, e⟩ := e
  split at e
  · cases e
  · exact write_len e
theorem releaseAll_len : ∀ {vs : List View} {h h' : Heap α}, releaseAll vs h = .ok h' → h'.length = h.length
  | [], h, h', e => by cases e; rfl
  | v :: vs, h, h', e => by
    simp only [releaseAll, Res.bind_eq_ok] at e
    obtain ⟨h1, e1, e2⟩ := e
    rw [releaseAll_len e2, release_len e1]

theorem step_wf {s s' : State α} {op : Op α} (hw : WF s) (e : step s op = .ok s') : WF s' := by
  obtain ⟨hv, hb⟩ := hw
  have hcopy : ∀ {v m : View} {h : Heap α}, copyIn s.heap v = .ok (m, h) → v.addr < s.heap.length → s.heap.length ≤ h.length ∧ m.addr < h.length := by
    intro v m h e hva
    obtain ⟨p1, p2, p3⟩ := how_spec (c := .affine) (h := s.heap) (v := v) e
    refine ⟨p1, ?_⟩
    rcases p2 with p | p <;> omega
  have build : ∀ (t : State α), s.heap.length ≤ t.heap.length →
      (∀ (x : Nat) (v : Var), t.vars[x]? = some (some v) → s.vars[x]? = some (some v) ∨ v.as.addr < t.heap.length) →
      (∀ (o : Nat) (b : Object), t.objs[o]? = some (some b) → s.objs[o]? = some (some b) ∨ ∀ w ∈ b.views, w.addr < t.heap.length) → WF t := by
    intro t h1 h2 h3
    refine ⟨fun x v h => ?_, fun o b h w hw => ?_⟩
    · rcases h2 x v h with h | h
      · exact lt_of_lt_of_le (hv x v h) h1
      · exact h
    · rcases h3 o b h with h | h
      · exact lt_of_lt_of_le (hb o b h w hw) h1
      · exact h w hw
  cases op with
  | newArray d =>
    cases e
    refine build _ (by simp) (fun x v h => ?_) fun o b h => Or.inl h
    rcases get_append h with h | ⟨-, h⟩
    · exact Or.inl h
    · cases h; right; simp [Var.as]
  | newView d =>
    simp only [step, Heap.alloc, Res.bind_eq_ok] at e
    obtain ⟨h, e1, e⟩ := e
    cases e
    have := write_len e1
    refine build _ (by rw [this]; simp) (fun x v h => ?_) fun o b h => Or.inl h
    rcases get_append h with h | ⟨-, h⟩
    · exact Or.inl h
    · cases h; right; simp [Var.as, this]
  | write x d =>
    simp only [step, Res.bind_eq_ok] at e
    obtain ⟨v, hx, old, -, e⟩ := e
    split at e
    · cases e
    · obtain ⟨h, e1, e⟩ := Res.bind_eq_ok.mp e
      cases e
      exact build _ (by rw [write_len e1]) (fun _ _ h => Or.inl h) fun _ _ h => Or.inl h
  | free x =>
    simp only [step, Res.bind_eq_ok] at e
    obtain ⟨v, hx, h, e1, e⟩ := e
    cases e
    refine build _ (by rw [endOf_len e1]) (fun y w h => ?_) fun _ _ h => Or.inl h
    rcases get_set_some h with ⟨-, h⟩ | ⟨-, h⟩
    · exact Or.inl h
    · cases h
  | make c args =>
    simp only [step, Res.bind_eq_ok] at e
    obtain ⟨vs, e1, ⟨ms', h⟩, e2, e⟩ := e
    cases e
    obtain ⟨p1, p2, p3⟩ := members_spec e2
    refine build _ p1 (fun _ _ h => Or.inl h) fun o b h => ?_
    rcases get_append h with h | ⟨-, h⟩
    · exact Or.inl h
    · cases h
      right
      intro w hw
      rcases p2 w hw with ⟨v, h1, h2⟩ | h1
      · obtain ⟨x, -, u, h3, rfl⟩ := args_vars e1 v h1
        have := hv x u h3
        dsimp only
        omega
      · exact h1.2
  | newMap n =>
    cases e
    refine build _ (le_refl _) (fun _ _ h => Or.inl h) fun o b h => ?_
    rcases get_append h with h | ⟨-, h⟩
    · exact Or.inl h
    · cases h; right; simp [Object.views]
  | setCoeffs i x =>
    simp only [step, Res.bind_eq_ok] at e
    obtain ⟨b, hbi, v, hx, e⟩ := e
    have hva := hv x v (var_eq.mp hx)
    cases b with
    | made ms => cases e
    | map n sv =>
      cases sv with
      | none =>
        obtain ⟨⟨m, h⟩, e1, e⟩ := Res.bind_eq_ok.mp e
        cases e
        obtain ⟨q1, q2⟩ := hcopy e1 hva
        refine build _ q1 (fun _ _ h => Or.inl h) fun o b h => ?_
        rcases get_set_some h with ⟨-, h⟩ | ⟨-, h⟩
        · exact Or.inl h
        · cases h; right; intro w hw; simp [Object.views] at hw; rw [hw]; exact q2
      | some sv =>
        obtain ⟨d, -, e⟩ := Res.bind_eq_ok.mp e
        obtain ⟨old, -, e⟩ := Res.bind_eq_ok.mp e
        split at e
        · cases e
        · split at e
          · obtain ⟨⟨m, h⟩, e1, e⟩ := Res.bind_eq_ok.mp e
            obtain ⟨h', e2, e⟩ := Res.bind_eq_ok.mp e
            cases e
            obtain ⟨q1, q2⟩ := hcopy e1 hva
            have hl := release_len e2
            dsimp only at hl
            refine build _ (by dsimp only; omega) (fun _ _ h => Or.inl h) fun o b h => ?_
            rcases get_set_some h with ⟨-, h⟩ | ⟨-, h⟩
            · exact Or.inl h
            · cases h; right; intro w hw; simp [Object.views] at hw; rw [hw]; dsimp only; omega
          · obtain ⟨h, e1, e⟩ := Res.bind_eq_ok.mp e
            cases e
            exact build _ (by rw [deepCopy_len e1]) (fun _ _ h => Or.inl h) fun _ _ h => Or.inl h
  | wrapCoeffs i x =>
    simp only [step, Res.bind_eq_ok] at e
    obtain ⟨b, hbi, v, hx, e⟩ := e
    have hva := hv x v (var_eq.mp hx)
    cases b with
    | made ms => cases e
    | map n sv =>
      obtain ⟨d, -, e⟩ := Res.bind_eq_ok.mp e
      split at e
      · cases e
      · obtain ⟨h, e1, e⟩ := Res.bind_eq_ok.mp e
        obtain ⟨h', e2, e⟩ := Res.bind_eq_ok.mp e
        cases e
        have hl := releaseAll_len e2
        have hl' := share_len e1
        refine build _ (by dsimp only; omega) (fun _ _ h => Or.inl h) fun o b h => ?_
        rcases get_set_some h with ⟨-, h⟩ | ⟨-, h⟩
        · exact Or.inl h
        · cases h; right; intro w hw; simp [Object.views] at hw; rw [hw]; dsimp only; omega
  | coeffMap i =>
    simp only [step, Res.bind_eq_ok] at e
    obtain ⟨b, hbi, e⟩ := e
    cases b with
    | made ms => cases e
    | map n sv =>
      cases sv with
      | none => cases e
      | some sv =>
        cases e
        refine build _ (le_refl _) (fun x v h => ?_) fun _ _ h => Or.inl h
        rcases get_append h with h | ⟨-, h⟩
        · exact Or.inl h
        · cases h; right; exact hb i _ (obj_eq.mp hbi) sv (by simp [Object.views])
  | look i =>
    simp only [step, Res.bind_eq_ok] at e
    obtain ⟨b, hbi, e⟩ := e
    cases e; exact ⟨hv, hb⟩
  | drop i =>
    simp only [step, Res.bind_eq_ok] at e
    obtain ⟨b, hbi, h, e1, e⟩ := e
    cases e
    refine build _ (by rw [releaseAll_len e1]) (fun _ _ h => Or.inl h) fun o b h => ?_
    rcases get_set_some h with ⟨-, h⟩ | ⟨-, h⟩
    · exact Or.inl h
    · cases h

theorem run_wf : ∀ {ops : List (Op α)} {s s' : State α}, WF s → run s ops = .ok s' → WF s'
  | [], s, s', h, e => by cases e; exact h
  | op :: ops, s, s', h, e => by
    simp only [run, Res.bind_eq_ok] at e
    obtain ⟨s1, e1, e2⟩ := e
    exact run_wf (step_wf h e1) e2

/-- The states that programs can be in. -/
def Reachable (s : State α) : Prop := ∃ ops, run start ops = .ok s

theorem Reachable.wf {s : State α} (h : Reachable s) : WF s := by
  obtain ⟨ops, e⟩ := h
  exact run_wf ⟨by simp [start], by simp [start]⟩ e

/-- **C96** for the objects that copy: objectives in Python and Julia, affine maps and functions, Gaussians with a covariance matrix, and compressed
fixed sets in Python. In every state of every program, if the object is made from arrays whose entries are `ds`, then as long as it is not dropped it
computes with `ds`, whatever the program does with the arrays or with other objects. -/
theorem C96_copied {c : Ctor} (hc : c.copies) {s : State α} (hs : Reachable s) (args : List Nat) (vs : List View) (ds : List (List α))
    (ha : s.args args = .ok vs) (hd : readAll s.heap vs = .ok ds) :
    ∃ s', step s (.make c args) = .ok s' ∧ ∀ (ops : List (Op α)) (s'' : State α), run s' ops = .ok s'' → s''.objs[s.objs.length]? ≠ some none →
      s''.look s.objs.length = .ok ds := by
  obtain ⟨ms, ext, e1, e2, -, e4, -⟩ := members_copies hc vs s.heap ds hd
  refine ⟨_, by simp only [step, ha, e1, Res.bind_ok, Res.pure_eq]; rfl, fun ops s'' hr hk => ?_⟩
  have ho : Owns (⟨s.heap ++ ext, s.vars, s.objs ++ [some (.made ms)]⟩ : State α) s.objs.length (.made ms) := by
    refine ⟨by simp, fun m hm => ?_⟩
    obtain ⟨g1, g2, d, g3⟩ := e4 m hm
    refine ⟨(List.getElem?_eq_some_iff.mp g3).1, fun x v h => ?_, fun o' b hne h w hw => ?_⟩
    · have := hs.wf.1 x v h
      omega
    · rcases get_append h with h | ⟨h, -⟩
      · have := hs.wf.2 o' b h w hw
        omega
      · exact (hne h).elim
  obtain ⟨r1, r2⟩ := ho.run hr (fun op _ => Or.inl ⟨ms, rfl⟩) hk
  rw [State.look, obj_eq.mpr r1.1, Res.bind_ok]
  exact r2.trans e2

/-! ### Reference counting -/

/-- The views `L` are the views of blocks of `h`: the counters are right, counted blocks are live as long as they are counted, and each live array of the
program has one variable. -/
structure HInv (h : Heap α) (L : List View) : Prop where
  managed : ∀ v ∈ L, v.managed = true → ∃ b k, h[v.addr]? = some b ∧ b.refs = some k
  unmanaged : ∀ v ∈ L, v.managed = false → ∃ b, h[v.addr]? = some b ∧ b.refs = none ∧ b.live = true
  once : ∀ a, L.count ⟨a, false⟩ ≤ 1
  counted : ∀ (a : Nat) (b : Block α) (k : Nat), h[a]? = some b → b.refs = some k → k = L.count ⟨a, true⟩ ∧ b.live = decide (k ≠ 0)
  held : ∀ (a : Nat) (b : Block α), h[a]? = some b → b.refs = none → b.live = true → (⟨a, false⟩ : View) ∈ L

theorem HInv.perm {h : Heap α} {L L' : List View} (i : HInv h L) (p : L.Perm L') : HInv h L' where
  managed v hv := i.managed v (p.mem_iff.mpr hv)
  unmanaged v hv := i.unmanaged v (p.mem_iff.mpr hv)
  once a := by rw [← p.count_eq]; exact i.once a
  counted a b k h1 h2 := by rw [← p.count_eq]; exact i.counted a b k h1 h2
  held a b h1 h2 h3 := p.mem_iff.mp (i.held a b h1 h2 h3)

theorem HInv.read {h : Heap α} {L : List View} (i : HInv h L) {v : View} (hv : v ∈ L) : ∃ d, h.read v = .ok d := by
  cases hm : v.managed with
  | false =>
    obtain ⟨b, h1, -, h3⟩ := i.unmanaged v hv hm
    exact ⟨_, read_eq.mpr ⟨b, h1, h3, rfl⟩⟩
  | true =>
    obtain ⟨b, k, h1, h2⟩ := i.managed v hv hm
    obtain ⟨g1, g2⟩ := i.counted _ b k h1 h2
    have hpos : 0 < L.count ⟨v.addr, true⟩ := List.count_pos_iff.mpr (by rw [← hm]; exact hv)
    refine ⟨_, read_eq.mpr ⟨b, h1, ?_, rfl⟩⟩
    rw [g2, decide_eq_true_eq]; omega

/-- Changing the entries of a block. -/
theorem HInv.setData {h : Heap α} {L : List View} (i : HInv h L) {a : Nat} {b : Block α} (hb : h[a]? = some b) (d : List α) :
    HInv (h.set a { b with data := d }) L := by
  have hlt := (List.getElem?_eq_some_iff.mp hb).1
  have key : ∀ (x : Nat) (c : Block α), (h.set a { b with data := d })[x]? = some c → ∃ c', h[x]? = some c' ∧ c'.refs = c.refs ∧ c'.live = c.live := by
    intro x c hc
    by_cases hx : a = x
    · subst hx
      rw [List.getElem?_set_self hlt] at hc
      cases hc
      exact ⟨b, hb, rfl, rfl⟩
    · rw [List.getElem?_set_ne hx] at hc
      exact ⟨c, hc, rfl, rfl⟩
  have key' : ∀ (x : Nat) (c : Block α), h[x]? = some c → ∃ c', (h.set a { b with data := d })[x]? = some c' ∧ c'.refs = c.refs ∧ c'.live = c.live := by
    intro x c hc
    by_cases hx : a = x
    · subst hx
      rw [hb] at hc
      cases hc
      exact ⟨_, List.getElem?_set_self hlt, rfl, rfl⟩
    · exact ⟨c, by rw [List.getElem?_set_ne hx]; exact hc, rfl, rfl⟩
  constructor
  · intro v hv hm
    obtain ⟨c, k, h1, h2⟩ := i.managed v hv hm
    obtain ⟨c', g1, g2, g3⟩ := key' _ c h1
    exact ⟨c', k, g1, g2.trans h2⟩
  · intro v hv hm
    obtain ⟨c, h1, h2, h3⟩ := i.unmanaged v hv hm
    obtain ⟨c', g1, g2, g3⟩ := key' _ c h1
    exact ⟨c', g1, g2.trans h2, g3.trans h3⟩
  · exact i.once
  · intro x c k h1 h2
    obtain ⟨c', g1, g2, g3⟩ := key x c h1
    have := i.counted x c' k g1 (g2.trans h2)
    exact ⟨this.1, g3.symm.trans this.2⟩
  · intro x c h1 h2 h3
    obtain ⟨c', g1, g2, g3⟩ := key x c h1
    exact i.held x c' g1 (g2.trans h2) (g3.trans h3)

theorem HInv.write {h : Heap α} {L : List View} (i : HInv h L) {v : View} (hv : v ∈ L) (d : List α) : ∃ h', h.write v d = .ok h' ∧ HInv h' L := by
  obtain ⟨o, ho⟩ := i.read hv
  obtain ⟨b, h1, h2, -⟩ := read_eq.mp ho
  exact ⟨_, write_eq.mpr ⟨b, h1, h2, rfl⟩, i.setData h1 d⟩

theorem HInv.deepCopy {h : Heap α} {L : List View} (i : HInv h L) {v w : View} (hv : v ∈ L) (hw : w ∈ L) :
    h.deepCopy v w = .throw ∨ ∃ h', h.deepCopy v w = .ok h' ∧ HInv h' L := by
  obtain ⟨d, hd⟩ := i.read hv
  obtain ⟨e, he⟩ := i.read hw
  simp only [Heap.deepCopy, hd, he, Res.bind_ok]
  split
  · exact Or.inl rfl
  · exact Or.inr (i.write hv e)

/-- A new block at the end. -/
theorem HInv.append {h : Heap α} {L : List View} (i : HInv h L) (hl : ∀ v ∈ L, v.addr < h.length) (b : Block α) (K : List View)
    (hK : K = [] ∧ b.refs = none ∧ b.live = false ∨ K = [⟨h.length, true⟩] ∧ b.refs = some 1 ∧ b.live = true ∨
      K = [⟨h.length, false⟩] ∧ b.refs = none ∧ b.live = true) : HInv (h ++ [b]) (K ++ L) := by
  have hat : (h ++ [b])[h.length]? = some b := by simp
  have hin : ∀ (a : Nat) (c : Block α), h[a]? = some c → (h ++ [b])[a]? = some c := fun a c hc => by
    rw [List.getElem?_append_left (List.getElem?_eq_some_iff.mp hc).1]; exact hc
  have hback : ∀ (a : Nat) (c : Block α), (h ++ [b])[a]? = some c → (h[a]? = some c ∧ a < h.length) ∨ (a = h.length ∧ c = b) := fun a c hc => by
    by_cases ha : a < h.length
    · rw [List.getElem?_append_left ha] at hc; exact Or.inl ⟨hc, ha⟩
    · have := (List.getElem?_eq_some_iff.mp hc).1
      simp at this
      obtain rfl : a = h.length := by omega
      rw [hat] at hc; exact Or.inr ⟨rfl, (Option.some.inj hc).symm⟩
  have hnew : ∀ m, (⟨h.length, m⟩ : View) ∉ L := fun m hm => absurd (hl _ hm) (by simp)
  have hKa : ∀ (a : Nat) (m : Bool), a < h.length → K.count ⟨a, m⟩ = 0 := fun a m ha => by
    apply List.count_eq_zero.mpr
    intro hm
    rcases hK with ⟨rfl, -⟩ | ⟨rfl, -⟩ | ⟨rfl, -⟩ <;> simp at hm
    · omega
    · omega
  constructor
  · intro v hv hm
    rcases List.mem_append.mp hv with hv | hv
    · rcases hK with ⟨rfl, -⟩ | ⟨rfl, h1, -⟩ | ⟨rfl, -⟩
      · simp at hv
      · simp at hv; subst hv; exact ⟨b, 1, hat, h1⟩
      · simp at hv; subst hv; simp at hm
    · obtain ⟨c, k, h1, h2⟩ := i.managed v hv hm
      exact ⟨c, k, hin _ _ h1, h2⟩
  · intro v hv hm
    rcases List.mem_append.mp hv with hv | hv
    · rcases hK with ⟨rfl, -⟩ | ⟨rfl, h1, -⟩ | ⟨rfl, h1, h2⟩
      · simp at hv
      · simp at hv; subst hv; simp at hm
      · simp at hv; subst hv; exact ⟨b, hat, h1, h2⟩
    · obtain ⟨c, h1, h2, h3⟩ := i.unmanaged v hv hm
      exact ⟨c, hin _ _ h1, h2, h3⟩
  · intro a
    rw [List.count_append]
    by_cases ha : a = h.length
    · subst ha
      rw [List.count_eq_zero.mpr (hnew false)]
      rcases hK with ⟨rfl, -⟩ | ⟨rfl, -⟩ | ⟨rfl, -⟩ <;> simp [List.count_cons]
    · have := i.once a
      have : K.count ⟨a, false⟩ = 0 := by
        apply List.count_eq_zero.mpr
        intro hm
        rcases hK with ⟨rfl, -⟩ | ⟨rfl, -⟩ | ⟨rfl, -⟩ <;> simp at hm
        exact ha hm
      omega
  · intro a c k h1 h2
    rw [List.count_append]
    rcases hback a c h1 with ⟨h1, ha⟩ | ⟨rfl, rfl⟩
    · rw [hKa a true ha, Nat.zero_add]
      exact i.counted a c k h1 h2
    · rw [List.count_eq_zero.mpr (hnew true)]
      rcases hK with ⟨rfl, g1, g2⟩ | ⟨rfl, g1, g2⟩ | ⟨rfl, g1, g2⟩
      · rw [g1] at h2; cases h2
      · rw [g1] at h2; cases h2; simp [g2]
      · rw [g1] at h2; cases h2
  · intro a c h1 h2 h3
    rcases hback a c h1 with ⟨h1, ha⟩ | ⟨rfl, rfl⟩
    · exact List.mem_append_right _ (i.held a c h1 h2 h3)
    · rcases hK with ⟨rfl, g1, g2⟩ | ⟨rfl, g1, g2⟩ | ⟨rfl, g1, g2⟩
      · rw [g2] at h3; cases h3
      · rw [g1] at h2; cases h2
      · simp

theorem HInv.lt {h : Heap α} {L : List View} (i : HInv h L) : ∀ v ∈ L, v.addr < h.length := fun v hv => by
  obtain ⟨d, hd⟩ := i.read hv
  obtain ⟨b, h1, -⟩ := read_eq.mp hd
  exact (List.getElem?_eq_some_iff.mp h1).1

theorem HInv.share {h : Heap α} {L : List View} (i : HInv h L) {v : View} (hv : v ∈ L) (hm : v.managed = true) :
    ∃ h', h.share v = .ok h' ∧ HInv h' (v :: L) := by
  obtain ⟨b, k, h1, h2⟩ := i.managed v hv hm
  have hlt := (List.getElem?_eq_some_iff.mp h1).1
  obtain ⟨c1, c2⟩ := i.counted _ b k h1 h2
  have hpos : 0 < L.count ⟨v.addr, true⟩ := List.count_pos_iff.mpr (by rw [← hm]; exact hv)
  have hv' : v = ⟨v.addr, true⟩ := by rw [← hm]
  refine ⟨_, share_eq.mpr (Or.inr ⟨hm, b, k, h1, h2, rfl⟩), ?_⟩
  constructor
  · intro w hw hwm
    by_cases hx : v.addr = w.addr
    · exact ⟨_, k + 1, by rw [← hx, List.getElem?_set_self hlt], rfl⟩
    · rw [List.getElem?_set_ne hx]
      rcases List.mem_cons.mp hw with rfl | hw
      · exact (hx rfl).elim
      · exact i.managed w hw hwm
  · intro w hw hwm
    rcases List.mem_cons.mp hw with rfl | hw
    · rw [hm] at hwm; cases hwm
    · obtain ⟨c, g1, g2, g3⟩ := i.unmanaged w hw hwm
      by_cases hx : v.addr = w.addr
      · rw [← hx, h1] at g1; cases g1; rw [h2] at g2; cases g2
      · exact ⟨c, by rw [List.getElem?_set_ne hx]; exact g1, g2, g3⟩
  · intro a
    rw [hv', List.count_cons]
    simpa using i.once a
  · intro a c l g1 g2
    by_cases hx : v.addr = a
    · subst hx
      rw [List.getElem?_set_self hlt] at g1
      cases g1; cases g2
      rw [hv', List.count_cons]
      simp only [beq_self_eq_true, if_true]
      refine ⟨by omega, ?_⟩
      simp only [c2]
      simp; omega
    · rw [List.getElem?_set_ne hx] at g1
      rw [hv', List.count_cons]
      simp only [show ((⟨v.addr, true⟩ : View) == ⟨a, true⟩) = false by simpa using hx, Bool.false_eq_true, if_false]
      exact i.counted a c l g1 g2
  · intro a c g1 g2 g3
    by_cases hx : v.addr = a
    · subst hx
      rw [List.getElem?_set_self hlt] at g1
      cases g1; cases g2
    · rw [List.getElem?_set_ne hx] at g1
      exact List.mem_cons_of_mem _ (i.held a c g1 g2 g3)

theorem HInv.release {h : Heap α} {L : List View} {v : View} (i : HInv h (v :: L)) (hm : v.managed = true) :
    ∃ h', h.release v = .ok h' ∧ HInv h' L := by
  obtain ⟨b, k, h1, h2⟩ := i.managed v (by simp) hm
  have hlt := (List.getElem?_eq_some_iff.mp h1).1
  obtain ⟨c1, c2⟩ := i.counted _ b k h1 h2
  have hv' : v = ⟨v.addr, true⟩ := by rw [← hm]
  rw [hv', List.count_cons] at c1
  simp only [beq_self_eq_true, if_true] at c1
  subst c1
  refine ⟨_, release_eq.mpr (Or.inr ⟨hm, b, L.count ⟨v.addr, true⟩, h1, h2, rfl⟩), ?_⟩
  constructor
  · intro w hw hwm
    by_cases hx : v.addr = w.addr
    · exact ⟨_, L.count ⟨v.addr, true⟩, by rw [← hx, List.getElem?_set_self hlt], rfl⟩
    · rw [List.getElem?_set_ne hx]
      exact i.managed w (by simp [hw]) hwm
  · intro w hw hwm
    obtain ⟨c, g1, g2, g3⟩ := i.unmanaged w (by simp [hw]) hwm
    by_cases hx : v.addr = w.addr
    · rw [← hx, h1] at g1; cases g1; rw [h2] at g2; cases g2
    · exact ⟨c, by rw [List.getElem?_set_ne hx]; exact g1, g2, g3⟩
  · intro a
    have := i.once a
    rw [hv', List.count_cons] at this
    simpa using this
  · intro a c l g1 g2
    by_cases hx : v.addr = a
    · subst hx
      rw [List.getElem?_set_self hlt] at g1
      cases g1; cases g2
      exact ⟨rfl, rfl⟩
    · rw [List.getElem?_set_ne hx] at g1
      have := i.counted a c l g1 g2
      rw [hv', List.count_cons] at this
      simp only [show ((⟨v.addr, true⟩ : View) == ⟨a, true⟩) = false by simpa using hx, Bool.false_eq_true, if_false] at this
      exact this
  · intro a c g1 g2 g3
    by_cases hx : v.addr = a
    · subst hx
      rw [List.getElem?_set_self hlt] at g1
      cases g1; cases g2
    · rw [List.getElem?_set_ne hx] at g1
      have := i.held a c g1 g2 g3
      rw [hv'] at this
      simpa using this

theorem HInv.free {h : Heap α} {L : List View} {a : Nat} (i : HInv h (⟨a, false⟩ :: L)) : ∃ h', h.free a = .ok h' ∧ HInv h' L := by
  obtain ⟨b, h1, h2, h3⟩ := i.unmanaged ⟨a, false⟩ (by simp) rfl
  dsimp only at h1
  have hlt := (List.getElem?_eq_some_iff.mp h1).1
  have h0 : (⟨a, false⟩ : View) ∉ L := by
    have := i.once a
    rw [List.count_cons] at this
    simp only [beq_self_eq_true, if_true] at this
    exact List.count_eq_zero.mp (by omega)
  refine ⟨_, free_eq.mpr ⟨b, h1, h3, rfl⟩, ?_⟩
  constructor
  · intro w hw hwm
    obtain ⟨c, k, g1, g2⟩ := i.managed w (by simp [hw]) hwm
    by_cases hx : a = w.addr
    · rw [← hx, h1] at g1; cases g1; rw [h2] at g2; cases g2
    · exact ⟨c, k, by rw [List.getElem?_set_ne hx]; exact g1, g2⟩
  · intro w hw hwm
    obtain ⟨c, g1, g2, g3⟩ := i.unmanaged w (by simp [hw]) hwm
    by_cases hx : a = w.addr
    · exact (h0 (by rw [hx, ← hwm]; exact hw)).elim
    · exact ⟨c, by rw [List.getElem?_set_ne hx]; exact g1, g2, g3⟩
  · intro x
    have := i.once x
    rw [List.count_cons] at this
    omega
  · intro x c l g1 g2
    by_cases hx : a = x
    · subst hx
      rw [List.getElem?_set_self hlt] at g1
      cases g1
      dsimp only at g2
      rw [h2] at g2; cases g2
    · rw [List.getElem?_set_ne hx] at g1
      have := i.counted x c l g1 g2
      rw [List.count_cons] at this
      simpa using this
  · intro x c g1 g2 g3
    by_cases hx : a = x
    · subst hx
      rw [List.getElem?_set_self hlt] at g1
      cases g1; cases g3
    · rw [List.getElem?_set_ne hx] at g1
      have := i.held x c g1 g2 g3
      rcases List.mem_cons.mp this with this | this
      · cases this; exact (hx rfl).elim
      · exact this

theorem HInv.releaseAll {L : List View} : ∀ {vs : List View} {h : Heap α}, HInv h (vs ++ L) → (∀ v ∈ vs, v.managed = true) →
    ∃ h', releaseAll vs h = .ok h' ∧ HInv h' L
  | [], h, i, _ => ⟨h, rfl, i⟩
  | v :: vs, h, i, hm => by
    obtain ⟨h1, e1, i1⟩ := HInv.release (L := vs ++ L) i (hm v (by simp))
    obtain ⟨h2, e2, i2⟩ := HInv.releaseAll i1 fun w hw => hm w (by simp [hw])
    exact ⟨h2, by simp only [Life.releaseAll, e1, Res.bind_ok, e2], i2⟩

theorem HInv.copyIn {h : Heap α} {L : List View} (i : HInv h L) {v : View} (hv : v ∈ L) :
    ∃ m h', copyIn h v = .ok (m, h') ∧ m.managed = true ∧ HInv h' (m :: L) := by
  obtain ⟨d, hd⟩ := i.read hv
  exact ⟨_, _, copyIn_eq hd, rfl, i.append i.lt ⟨d, some 1, true⟩ [⟨h.length, true⟩] (by simp)⟩

/-- Constructors that are safe with a view: those that copy, and for managed views those that keep the view. -/
def Ctor.safeWith (c : Ctor) (v : View) : Prop := c.copies ∨ v.managed = true ∧ c ≠ .pyFixedDense

theorem HInv.how {c : Ctor} {h : Heap α} {L : List View} (i : HInv h L) {v : View} (hv : v ∈ L) (hc : c.safeWith v) :
    ∃ m h', c.how h v = .ok (m, h') ∧ m.managed = true ∧ HInv h' (m :: L) := by
  obtain ⟨d, hd⟩ := i.read hv
  have happ : HInv (h ++ [⟨d, some 1, true⟩]) (⟨h.length, true⟩ :: L) := i.append i.lt ⟨d, some 1, true⟩ [⟨h.length, true⟩] (by simp)
  have hk : v.managed = true → ∃ m h', keep h v = .ok (m, h') ∧ m.managed = true ∧ HInv h' (m :: L) := fun hm => by
    obtain ⟨h', e, i'⟩ := i.share hv hm
    exact ⟨v, h', by simp only [keep, e, Res.bind_ok, Res.pure_eq], hm, i'⟩
  cases c with
  | objective => exact hk (hc.elim (fun h => h.elim) fun h => h.1)
  | gaussianMean => exact hk (hc.elim (fun h => h.elim) fun h => h.1)
  | fixedSet => exact hk (hc.elim (fun h => h.elim) fun h => h.1)
  | pyFixedDense => exact (hc.elim (fun h => h.elim) fun h => h.2 rfl).elim
  | pyObjective => exact ⟨_, _, store_eq hd, rfl, happ⟩
  | affine => exact ⟨_, _, copyIn_eq hd, rfl, happ⟩
  | gaussianCov => exact ⟨_, _, copyIn_eq hd, rfl, happ⟩
  | pyFixedCompressed =>
    refine ⟨_, _, copyTemporary_eq hd, rfl, ?_⟩
    have i1 : HInv (h ++ [⟨d, none, false⟩]) L := i.append i.lt ⟨d, none, false⟩ [] (by simp)
    have i2 := i1.append i1.lt ⟨d, some 1, true⟩ [⟨(h ++ [(⟨d, none, false⟩ : Block α)]).length, true⟩] (by simp)
    simpa using i2

theorem HInv.members {c : Ctor} : ∀ {vs : List View} {h : Heap α} {L : List View}, HInv h L → (∀ v ∈ vs, v ∈ L ∧ c.safeWith v) →
    ∃ ms h', members c.how vs h = .ok (ms, h') ∧ (∀ m ∈ ms, m.managed = true) ∧ HInv h' (ms ++ L)
  | [], h, L, i, _ => ⟨[], h, rfl, by simp, i⟩
  | v :: vs, h, L, i, hv => by
    obtain ⟨m, h1, e1, m1, i1⟩ := i.how (hv v (by simp)).1 (hv v (by simp)).2
    obtain ⟨ms, h2, e2, m2, i2⟩ := HInv.members (vs := vs) i1 fun w hw => ⟨List.mem_cons_of_mem _ (hv w (by simp [hw])).1, (hv w (by simp [hw])).2⟩
    refine ⟨m :: ms, h2, ?_, ?_, i2.perm List.perm_middle⟩
    · simp only [Life.members, e1, Res.bind_ok, e2, Res.pure_eq]
    · intro w hw
      rcases List.mem_cons.mp hw with rfl | hw
      · exact m1
      · exact m2 w hw

/-! ### Safe programs -/

/-- All views there are. -/
def State.views (s : State α) : List View := (s.vars.map varViews).flatten ++ (s.objs.map objViews).flatten

/-- The invariant of safe programs. -/
structure Inv (s : State α) : Prop where
  heap : HInv s.heap s.views
  vars : ∀ (x a : Nat), s.vars[x]? ≠ some (some (.alias a))
  objs : ∀ (o : Nat) (b : Object), s.objs[o]? = some (some b) → ∀ w ∈ b.views, w.managed = true

theorem flatten_set {β : Type} (f : β → List View) : ∀ {l : List β} {x : Nat} {old : β} (new : β), l[x]? = some old →
    ∃ R, (l.map f).flatten.Perm (f old ++ R) ∧ ((l.set x new).map f).flatten.Perm (f new ++ R)
  | [], x, old, new, h => by simp at h
  | b :: l, 0, old, new, h => by
    simp at h; subst h
    exact ⟨(l.map f).flatten, by simp, by simp⟩
  | b :: l, x + 1, old, new, h => by
    obtain ⟨R, h1, h2⟩ := flatten_set f (l := l) new (by simpa using h)
    have mid : ∀ A B C : List View, (A ++ (B ++ C)).Perm (B ++ (A ++ C)) := fun A B C => by
      rw [← List.append_assoc, ← List.append_assoc]
      exact (List.perm_append_comm).append_right C
    refine ⟨f b ++ R, ?_, ?_⟩
    · simp only [List.map_cons, List.flatten_cons]
      exact (h1.append_left _).trans (mid _ _ _)
    · simp only [List.set_cons_succ, List.map_cons, List.flatten_cons]
      exact (h2.append_left _).trans (mid _ _ _)

theorem var_mem {s : State α} {x : Nat} {v : Var} (h : s.vars[x]? = some (some v)) : v.as ∈ s.views := by
  refine List.mem_append_left _ (List.mem_flatten.mpr ⟨varViews (some v), List.mem_map.mpr ⟨some v, List.mem_of_getElem? h, rfl⟩, by simp [varViews]⟩)

theorem obj_mem {s : State α} {o : Nat} {b : Object} (h : s.objs[o]? = some (some b)) {w : View} (hw : w ∈ b.views) : w ∈ s.views := by
  refine List.mem_append_right _ (List.mem_flatten.mpr ⟨objViews (some b), List.mem_map.mpr ⟨some b, List.mem_of_getElem? h, rfl⟩, hw⟩)

theorem mid (A B C : List View) : (A ++ (B ++ C)).Perm (B ++ (A ++ C)) := by
  rw [← List.append_assoc, ← List.append_assoc]
  exact (List.perm_append_comm).append_right C

theorem views_app_var {s : State α} (h : Heap α) (v : Var) :
    (⟨h, s.vars ++ [some v], s.objs⟩ : State α).views.Perm (v.as :: s.views) := by
  simp only [State.views, List.map_append, List.map_cons, List.map_nil, List.flatten_append, List.flatten_cons, List.flatten_nil, varViews,
    List.append_nil, List.append_assoc]
  exact mid _ [v.as] _

theorem views_app_obj {s : State α} (h : Heap α) (b : Object) :
    (⟨h, s.vars, s.objs ++ [some b]⟩ : State α).views.Perm (b.views ++ s.views) := by
  simp only [State.views, List.map_append, List.map_cons, List.map_nil, List.flatten_append, List.flatten_cons, List.flatten_nil, objViews,
    List.append_nil]
  rw [← List.append_assoc]
  exact List.perm_append_comm

theorem views_set_var {s : State α} {x : Nat} {v : Var} (hx : s.vars[x]? = some (some v)) :
    ∃ R, s.views.Perm (v.as :: R) ∧ ∀ h, (⟨h, s.vars.set x none, s.objs⟩ : State α).views.Perm R := by
  obtain ⟨R, h1, h2⟩ := flatten_set varViews none hx
  exact ⟨R ++ (s.objs.map objViews).flatten, h1.append_right _, fun h => h2.append_right _⟩

theorem views_set_obj {s : State α} {o : Nat} {b : Object} (new : Option Object) (ho : s.objs[o]? = some (some b)) :
    ∃ R, s.views.Perm (b.views ++ R) ∧ ∀ h, (⟨h, s.vars, s.objs.set o new⟩ : State α).views.Perm (objViews new ++ R) := by
  obtain ⟨R, h1, h2⟩ := flatten_set objViews new ho
  exact ⟨(s.vars.map varViews).flatten ++ R, (h1.append_left _).trans (mid _ _ _), fun h => (h2.append_left _).trans (mid _ _ _)⟩

/-- The statements that are safe in a state: `CoeffMap` is not used, the fixed set of Python is compressed, and what is kept is not an array of the program. -/
def SafeOp (s : State α) : Op α → Prop
  | .coeffMap _ => False
  | .make c args => c.copies ∨ c ≠ .pyFixedDense ∧ ∀ x ∈ args, ∀ a, s.vars[x]? ≠ some (some (.array a))
  | .wrapCoeffs _ x => ∀ a, s.vars[x]? ≠ some (some (.array a))
  | _ => True

theorem var_cases (s : State α) (x : Nat) : s.var x = .throw ∨ ∃ v, s.var x = .ok v ∧ s.vars[x]? = some (some v) := by
  unfold State.var
  split
  · next v h => exact Or.inr ⟨v, rfl, h⟩
  · exact Or.inl rfl

theorem obj_cases (s : State α) (o : Nat) : s.obj o = .throw ∨ ∃ b, s.obj o = .ok b ∧ s.objs[o]? = some (some b) := by
  unfold State.obj
  split
  · next v h => exact Or.inr ⟨v, rfl, h⟩
  · exact Or.inl rfl

theorem args_cases (s : State α) : ∀ xs, s.args xs = .throw ∨ ∃ vs, s.args xs = .ok vs
  | [] => Or.inr ⟨[], rfl⟩
  | x :: xs => by
    rcases var_cases s x with h | ⟨v, h, -⟩
    · exact Or.inl (by simp only [State.args, h]; rfl)
    · rcases args_cases s xs with g | ⟨vs, g⟩
      · exact Or.inl (by simp only [State.args, h, g, Res.bind_ok]; rfl)
      · exact Or.inr ⟨v.as :: vs, by simp only [State.args, h, g, Res.bind_ok]; rfl⟩

theorem HInv.readAll {h : Heap α} {L : List View} (i : HInv h L) : ∀ {vs : List View}, (∀ v ∈ vs, v ∈ L) → ∃ ds, readAll h vs = .ok ds
  | [], _ => ⟨[], rfl⟩
  | v :: vs, hv => by
    obtain ⟨d, hd⟩ := i.read (hv v (by simp))
    obtain ⟨ds, hds⟩ := HInv.readAll i (vs := vs) fun w hw => hv w (by simp [hw])
    exact ⟨d :: ds, by simp only [Life.readAll, hd, hds, Res.bind_ok]; rfl⟩

theorem Inv.look {s : State α} (i : Inv s) {o : Nat} {b : Object} (h : s.objs[o]? = some (some b)) : ∃ ds, s.look o = .ok ds := by
  obtain ⟨ds, e⟩ := i.heap.readAll (vs := b.views) fun w hw => obj_mem h hw
  exact ⟨ds, by simp only [State.look, obj_eq.mpr h, Res.bind_ok, e]⟩

theorem step_safe {s : State α} (i : Inv s) {op : Op α} (hs : SafeOp s op) : step s op = .throw ∨ ∃ s', step s op = .ok s' ∧ Inv s' := by
  have manages : ∀ {x : Nat} {v : Var}, s.vars[x]? = some (some v) → (∀ a, s.vars[x]? ≠ some (some (.array a))) → v.as.managed = true := by
    intro x v hx hna
    cases v with
    | array a => exact (hna a hx).elim
    | view a => rfl
    | «alias» a => exact (i.vars x a hx).elim
  have newVar : ∀ (h : Heap α) (v : Var), HInv h (v.as :: s.views) → (∀ a, v ≠ .alias a) → Inv (⟨h, s.vars ++ [some v], s.objs⟩ : State α) := by
    intro h v hi hv
    refine ⟨hi.perm (views_app_var h v).symm, fun y a hy => ?_, i.objs⟩
    rcases get_append hy with hy | ⟨-, hy⟩
    · exact i.vars y a hy
    · cases hy; exact hv a rfl
  have setObj : ∀ (h : Heap α) (o : Nat) (b new : Object) (R : List View), s.objs[o]? = some (some b) →
      ((⟨h, s.vars, s.objs.set o (some new)⟩ : State α).views.Perm (new.views ++ R)) → HInv h (new.views ++ R) → (∀ w ∈ new.views, w.managed = true) →
      Inv (⟨h, s.vars, s.objs.set o (some new)⟩ : State α) := by
    intro h o b new R ho hp hi hm
    refine ⟨hi.perm hp.symm, i.vars, fun o' b' hb w hw => ?_⟩
    rcases get_set_some hb with ⟨-, hb⟩ | ⟨-, hb⟩
    · exact i.objs o' b' hb w hw
    · cases hb; exact hm w hw
  cases op with
  | newArray d =>
    refine Or.inr ⟨_, rfl, newVar _ (.array s.heap.length) ?_ (by simp)⟩
    exact i.heap.append i.heap.lt ⟨d, none, true⟩ [⟨s.heap.length, false⟩] (by simp)
  | newView d =>
    have i1 : HInv (s.heap ++ [⟨List.replicate d.length default, some 1, true⟩]) (⟨s.heap.length, true⟩ :: s.views) :=
      i.heap.append i.heap.lt _ [⟨s.heap.length, true⟩] (by simp)
    obtain ⟨h', e, i2⟩ := i1.write (v := ⟨s.heap.length, true⟩) (by simp) d
    exact Or.inr ⟨_, by simp only [step, Heap.alloc, e, Res.bind_ok]; rfl, newVar _ (.view s.heap.length) i2 (by simp)⟩
  | write x d =>
    rcases var_cases s x with h | ⟨v, h, hx⟩
    · exact Or.inl (by simp only [step, h]; rfl)
    · obtain ⟨old, ho⟩ := i.heap.read (var_mem hx)
      obtain ⟨h', e, i'⟩ := i.heap.write (var_mem hx) d
      simp only [step, h, ho, Res.bind_ok]
      split
      · exact Or.inl rfl
      · exact Or.inr ⟨⟨h', s.vars, s.objs⟩, by simp only [e, Res.bind_ok]; rfl, ⟨i', i.vars, i.objs⟩⟩
  | free x =>
    rcases var_cases s x with h | ⟨v, h, hx⟩
    · exact Or.inl (by simp only [step, h]; rfl)
    · obtain ⟨R, p1, p2⟩ := views_set_var hx
      have i1 := i.heap.perm p1
      have : ∃ h', s.heap.endOf v = .ok h' ∧ HInv h' R := by
        cases v with
        | array a => exact i1.free
        | view a => exact i1.release rfl
        | «alias» a => exact (i.vars x a hx).elim
      obtain ⟨h', e, i2⟩ := this
      refine Or.inr ⟨⟨h', s.vars.set x none, s.objs⟩, by simp only [step, h, e, Res.bind_ok]; rfl, i2.perm (p2 h').symm, fun y a hy => ?_, i.objs⟩
      rcases get_set_some hy with ⟨-, hy⟩ | ⟨-, hy⟩
      · exact i.vars y a hy
      · cases hy
  | make c args =>
    rcases args_cases s args with h | ⟨vs, h⟩
    · exact Or.inl (by simp only [step, h]; rfl)
    · have hv : ∀ v ∈ vs, v ∈ s.views ∧ c.safeWith v := by
        intro v hv
        obtain ⟨x, hx, u, hu, rfl⟩ := args_vars h v hv
        refine ⟨var_mem hu, ?_⟩
        rcases hs with hs | ⟨hs1, hs2⟩
        · exact Or.inl hs
        · exact Or.inr ⟨manages hu (hs2 x hx), hs1⟩
      obtain ⟨ms, h', e, hm, i'⟩ := i.heap.members hv
      have hp : (ms ++ s.views).Perm (⟨h', s.vars, s.objs ++ [some (.made ms)]⟩ : State α).views := (views_app_obj (s := s) h' (.made ms)).symm
      refine Or.inr ⟨⟨h', s.vars, s.objs ++ [some (.made ms)]⟩, by simp only [step, h, e, Res.bind_ok]; rfl, i'.perm hp, i.vars, fun o b hb w hw => ?_⟩
      rcases get_append hb with hb | ⟨-, hb⟩
      · exact i.objs o b hb w hw
      · cases hb; exact hm w hw
  | newMap n =>
    have hp : s.views.Perm (⟨s.heap, s.vars, s.objs ++ [some (.map n none)]⟩ : State α).views := (views_app_obj (s := s) s.heap (.map n none)).symm
    refine Or.inr ⟨⟨s.heap, s.vars, s.objs ++ [some (.map n none)]⟩, rfl, i.heap.perm hp, i.vars, fun o b hb w hw => ?_⟩
    rcases get_append hb with hb | ⟨-, hb⟩
    · exact i.objs o b hb w hw
    · cases hb; simp [Object.views] at hw
  | setCoeffs o x =>
    rcases obj_cases s o with h | ⟨b, h, ho⟩
    · exact Or.inl (by simp only [step, h]; rfl)
    rcases var_cases s x with g | ⟨v, g, hx⟩
    · exact Or.inl (by simp only [step, h, g, Res.bind_ok]; rfl)
    cases b with
    | made ms => exact Or.inl (by simp only [step, h, g, Res.bind_ok])
    | map n sv =>
      obtain ⟨m, h', e, hm, i'⟩ := i.heap.copyIn (var_mem hx)
      obtain ⟨R, p1, p2⟩ := views_set_obj (some (.map n (some m))) ho
      cases sv with
      | none =>
        refine Or.inr ⟨_, by simp only [step, h, g, e, Res.bind_ok]; rfl, setObj h' o _ (.map n (some m)) R ho (p2 h') ?_ ?_⟩
        · exact i'.perm (p1.cons m)
        · intro w hw; simp [Object.views] at hw; rw [hw]; exact hm
      | some sv =>
        have hsv : sv ∈ s.views := obj_mem ho (by simp [Object.views])
        obtain ⟨d, hd⟩ := i.heap.read (var_mem hx)
        obtain ⟨old, hold⟩ := i.heap.read hsv
        simp only [step, h, g, hd, hold, Res.bind_ok]
        split
        · exact Or.inl rfl
        · split
          · have i1 : HInv h' (sv :: (m :: R)) := i'.perm ((p1.cons m).trans (List.Perm.swap _ _ _))
            obtain ⟨h'', e2, i2⟩ := i1.release (i.objs o _ ho sv (by simp [Object.views]))
            refine Or.inr ⟨_, by simp only [e, e2, Res.bind_ok]; rfl, setObj h'' o _ (.map n (some m)) R ho (p2 h'') i2 ?_⟩
            intro w hw; simp [Object.views] at hw; rw [hw]; exact hm
          · rcases i.heap.deepCopy hsv (var_mem hx) with e | ⟨h'', e, i2⟩
            · exact Or.inl (by simp only [e]; rfl)
            · exact Or.inr ⟨⟨h'', s.vars, s.objs⟩, by simp only [e, Res.bind_ok]; rfl, ⟨i2, i.vars, i.objs⟩⟩
  | wrapCoeffs o x =>
    rcases obj_cases s o with h | ⟨b, h, ho⟩
    · exact Or.inl (by simp only [step, h]; rfl)
    rcases var_cases s x with g | ⟨v, g, hx⟩
    · exact Or.inl (by simp only [step, h, g, Res.bind_ok]; rfl)
    cases b with
    | made ms => exact Or.inl (by simp only [step, h, g, Res.bind_ok])
    | map n sv =>
      have hm := manages hx hs
      obtain ⟨d, hd⟩ := i.heap.read (var_mem hx)
      obtain ⟨h', e, i'⟩ := i.heap.share (var_mem hx) hm
      obtain ⟨R, p1, p2⟩ := views_set_obj (some (.map n (some v.as))) ho
      have i1 : HInv h' (sv.toList ++ (v.as :: R)) := i'.perm ((p1.cons v.as).trans List.perm_middle.symm)
      obtain ⟨h'', e2, i2⟩ := i1.releaseAll (fun w hw => i.objs o _ ho w hw)
      simp only [step, h, g, hd, Res.bind_ok]
      split
      · exact Or.inl rfl
      · refine Or.inr ⟨_, by simp only [e, e2, Res.bind_ok]; rfl, setObj h'' o _ (.map n (some v.as)) R ho (p2 h'') i2 ?_⟩
        intro w hw; simp [Object.views] at hw; rw [hw]; exact hm
  | coeffMap o => exact hs.elim
  | look o =>
    rcases obj_cases s o with h | ⟨b, h, ho⟩
    · exact Or.inl (by simp only [step, State.look, h]; rfl)
    · obtain ⟨ds, e⟩ := i.look ho
      exact Or.inr ⟨s, by simp only [step, e, Res.bind_ok]; rfl, i⟩
  | drop o =>
    rcases obj_cases s o with h | ⟨b, h, ho⟩
    · exact Or.inl (by simp only [step, h]; rfl)
    · obtain ⟨R, p1, p2⟩ := views_set_obj none ho
      obtain ⟨h', e, i'⟩ := (i.heap.perm p1).releaseAll (i.objs o b ho)
      refine Or.inr ⟨⟨h', s.vars, s.objs.set o none⟩, by simp only [step, h, e, Res.bind_ok]; rfl, i'.perm (p2 h').symm, i.vars, fun o' b' hb w hw => ?_⟩
      rcases get_set_some hb with ⟨-, hb⟩ | ⟨-, hb⟩
      · exact i.objs o' b' hb w hw
      · cases hb

/-- Every statement of the program is safe in the state in which it is run. -/
def SafeRun (s : State α) : List (Op α) → Prop
  | [] => True
  | op :: ops => SafeOp s op ∧ ∀ s', step s op = .ok s' → SafeRun s' ops

theorem run_safe : ∀ {ops : List (Op α)} {s : State α}, Inv s → SafeRun s ops → run s ops = .throw ∨ ∃ s', run s ops = .ok s' ∧ Inv s'
  | [], s, i, _ => Or.inr ⟨s, rfl, i⟩
  | op :: ops, s, i, h => by
    rcases step_safe i h.1 with e | ⟨s1, e, i1⟩
    · exact Or.inl (by simp only [run, e]; rfl)
    · rcases run_safe i1 (h.2 s1 e) with g | ⟨s2, g, i2⟩
      · exact Or.inl (by simp only [run, e, g, Res.bind_ok])
      · exact Or.inr ⟨s2, by simp only [run, e, g, Res.bind_ok], i2⟩

theorem start_inv : Inv (start : State α) := by
  refine ⟨⟨?_, ?_, ?_, ?_, ?_⟩, ?_, ?_⟩ <;> simp [start, State.views]

/-- **C96**, safe programs: no array of the program is kept by an object, the fixed set of Python is compressed, and `CoeffMap` is not used. Such a program
never reads or frees memory that is not there, in every state all objects can be used, and when all variables and objects are gone all memory has been freed. -/
theorem C96_safe (ops : List (Op α)) (h : SafeRun start ops) : run start ops ≠ .ub ∧ ∀ s, run start ops = .ok s →
    (∀ (o : Nat) (b : Object), s.objs[o]? = some (some b) → ∃ ds, s.look o = .ok ds) ∧
    ((∀ v ∈ s.vars, v = none) → (∀ b ∈ s.objs, b = none) → ∀ b ∈ s.heap, b.live = false) := by
  rcases run_safe start_inv h with e | ⟨s', e, i⟩
  · rw [e]; exact ⟨by simp, fun s hs => by cases hs⟩
  · rw [e]
    refine ⟨by simp, fun s hs => ?_⟩
    cases hs
    refine ⟨fun o b ho => i.look ho, fun hv ho b hb => ?_⟩
    have hnil : s'.views = [] := by
      unfold State.views
      rw [List.append_eq_nil_iff]
      constructor
      · rw [List.flatten_eq_nil_iff]
        intro l hl
        obtain ⟨v, h1, rfl⟩ := List.mem_map.mp hl
        rw [hv v h1]; rfl
      · rw [List.flatten_eq_nil_iff]
        intro l hl
        obtain ⟨v, h1, rfl⟩ := List.mem_map.mp hl
        rw [ho v h1]; rfl
    obtain ⟨a, ha⟩ := List.mem_iff_getElem?.mp hb
    have ih := i.heap
    rw [hnil] at ih
    cases hl : b.live with
    | false => rfl
    | true =>
      cases hr : b.refs with
      | none => have := ih.held a b ha hr hl; simp at this
      | some k =>
        obtain ⟨h1, h2⟩ := ih.counted a b k ha hr
        simp at h1
        rw [hl, h1] at h2; simp at h2

/-- Programs that only use what copies: any arrays and views, objectives of Python and Julia, affine maps, covariances, compressed sets, and `SetCoeffs`. -/
def Op.Copying : Op α → Prop
  | .make c _ => c.copies
  | .wrapCoeffs _ _ => False
  | .coeffMap _ => False
  | _ => True

/-- **C96**, for the programs that only use what copies there are no conditions on states. -/
theorem C96_copying (ops : List (Op α)) (h : ∀ op ∈ ops, op.Copying) : run start ops ≠ .ub ∧ ∀ s, run start ops = .ok s →
    (∀ (o : Nat) (b : Object), s.objs[o]? = some (some b) → ∃ ds, s.look o = .ok ds) ∧
    ((∀ v ∈ s.vars, v = none) → (∀ b ∈ s.objs, b = none) → ∀ b ∈ s.heap, b.live = false) := by
  refine C96_safe ops ?_
  have : ∀ (ops : List (Op α)), (∀ op ∈ ops, op.Copying) → ∀ s : State α, SafeRun s ops := by
    intro ops
    induction ops with
    | nil => intro _ _; trivial
    | cons op ops ih =>
      intro h s
      refine ⟨?_, fun s' _ => ih (fun o ho => h o (by simp [ho])) s'⟩
      have := h op (by simp)
      cases op with
      | make c args => exact Or.inl this
      | wrapCoeffs o x => exact this.elim
      | coeffMap o => exact this.elim
      | _ => trivial
  exact this ops h start

/-- Programs in which all data are managed views, in C++. -/
def Op.OnlyViews : Op α → Prop
  | .newArray _ => False
  | .make c _ => c ≠ .pyFixedDense
  | .coeffMap _ => False
  | _ => True

theorem step_vars {s s' : State α} {op : Op α} (e : step s op = .ok s') :
    s'.vars = s.vars ∨ (∃ v, s'.vars = s.vars ++ [some v] ∧ ((∃ d, op = .newArray d) ∨ (∃ i, op = .coeffMap i) ∨ ∃ a, v = .view a)) ∨
      ∃ y, op = .free y ∧ s'.vars = s.vars.set y none := by
  cases op with
  | newArray d => cases e; exact Or.inr (Or.inl ⟨_, rfl, Or.inl ⟨d, rfl⟩⟩)
  | newView d =>
    simp only [step, Res.bind_eq_ok] at e
    obtain ⟨h, -, e⟩ := e
    cases e; exact Or.inr (Or.inl ⟨_, rfl, Or.inr (Or.inr ⟨_, rfl⟩)⟩)
  | write x d =>
    simp only [step, Res.bind_eq_ok] at e
    obtain ⟨v, -, old, -, e⟩ := e
    split at e
    · cases e
    · obtain ⟨h, -, e⟩ := Res.bind_eq_ok.mp e
      cases e; exact Or.inl rfl
  | free x =>
    simp only [step, Res.bind_eq_ok] at e
    obtain ⟨v, -, h, -, e⟩ := e
    cases e; exact Or.inr (Or.inr ⟨x, rfl, rfl⟩)
  | make c args =>
    simp only [step, Res.bind_eq_ok] at e
    obtain ⟨vs, -, ⟨ms, h⟩, -, e⟩ := e
    cases e; exact Or.inl rfl
  | newMap n => cases e; exact Or.inl rfl
  | setCoeffs i x =>
    simp only [step, Res.bind_eq_ok] at e
    obtain ⟨b, hb, v, -, e⟩ := e
    cases b with
    | made ms => cases e
    | map n sv =>
      cases sv with
      | none =>
        obtain ⟨⟨m, h⟩, -, e⟩ := Res.bind_eq_ok.mp e
        cases e; exact Or.inl rfl
      | some sv =>
        obtain ⟨d, -, e⟩ := Res.bind_eq_ok.mp e
        obtain ⟨old, -, e⟩ := Res.bind_eq_ok.mp e
        split at e
        · cases e
        · split at e
          · obtain ⟨⟨m, h⟩, -, e⟩ := Res.bind_eq_ok.mp e
            obtain ⟨h', -, e⟩ := Res.bind_eq_ok.mp e
            cases e; exact Or.inl rfl
          · obtain ⟨h, -, e⟩ := Res.bind_eq_ok.mp e
            cases e; exact Or.inl rfl
  | wrapCoeffs i x =>
    simp only [step, Res.bind_eq_ok] at e
    obtain ⟨b, hb, v, -, e⟩ := e
    cases b with
    | made ms => cases e
    | map n sv =>
      obtain ⟨d, -, e⟩ := Res.bind_eq_ok.mp e
      split at e
      · cases e
      · obtain ⟨h, -, e⟩ := Res.bind_eq_ok.mp e
        obtain ⟨h', -, e⟩ := Res.bind_eq_ok.mp e
        cases e; exact Or.inl rfl
  | coeffMap i =>
    simp only [step, Res.bind_eq_ok] at e
    obtain ⟨b, hb, e⟩ := e
    cases b with
    | made ms => cases e
    | map n sv =>
      cases sv with
      | none => cases e
      | some sv => cases e; exact Or.inr (Or.inl ⟨_, rfl, Or.inr (Or.inl ⟨i, rfl⟩)⟩)
  | look i =>
    simp only [step, Res.bind_eq_ok] at e
    obtain ⟨b, hb, e⟩ := e
    cases e; exact Or.inl rfl
  | drop i =>
    simp only [step, Res.bind_eq_ok] at e
    obtain ⟨b, hb, h, -, e⟩ := e
    cases e; exact Or.inl rfl

/-- **C96**, C++ programs in which all data are managed views: all constructors, `SetCoeffs` and `WrapCoeffs` can be used. -/
theorem C96_onlyViews (ops : List (Op α)) (h : ∀ op ∈ ops, op.OnlyViews) : run start ops ≠ .ub ∧ ∀ s, run start ops = .ok s →
    (∀ (o : Nat) (b : Object), s.objs[o]? = some (some b) → ∃ ds, s.look o = .ok ds) ∧
    ((∀ v ∈ s.vars, v = none) → (∀ b ∈ s.objs, b = none) → ∀ b ∈ s.heap, b.live = false) := by
  refine C96_safe ops ?_
  have : ∀ (ops : List (Op α)), (∀ op ∈ ops, op.OnlyViews) → ∀ s : State α, (∀ (x a : Nat), s.vars[x]? ≠ some (some (.array a))) → SafeRun s ops := by
    intro ops
    induction ops with
    | nil => intro _ _ _; trivial
    | cons op ops ih =>
      intro h s hv
      have ho := h op (by simp)
      refine ⟨?_, fun s' e => ih (fun o ho => h o (by simp [ho])) s' fun x a hx => ?_⟩
      · cases op with
        | make c args => exact Or.inr ⟨ho, fun x _ a => hv x a⟩
        | wrapCoeffs o x => exact fun a => hv x a
        | coeffMap o => exact ho.elim
        | _ => trivial
      · rcases step_vars e with g | ⟨v, g, g'⟩ | ⟨y, -, g⟩
        · rw [g] at hx; exact hv x a hx
        · rw [g] at hx
          rcases get_append hx with hx | ⟨-, hx⟩
          · exact hv x a hx
          · cases hx
            rcases g' with ⟨d, rfl⟩ | ⟨i, rfl⟩ | ⟨b, g'⟩
            · exact ho.elim
            · exact ho.elim
            · cases g'
        · rw [g] at hx
          rcases get_set_some hx with ⟨-, hx⟩ | ⟨-, hx⟩
          · exact hv x a hx
          · cases hx
  exact this ops h start (by simp [start])

/-! ### Coefficients -/

theorem step_objs_form {s s' : State α} {op : Op α} (e : step s op = .ok s') :
    s'.objs = s.objs ∨ (∃ b, s'.objs = s.objs ++ [some b] ∧ ∀ n sv, b ≠ .map n (some sv)) ∨ ∃ i y, s'.objs = s.objs.set i y := by
  cases op with
  | newArray d => cases e; exact Or.inl rfl
  | newView d =>
    simp only [step, Res.bind_eq_ok] at e
    obtain ⟨h, -, e⟩ := e
    cases e; exact Or.inl rfl
  | write x d =>
    simp only [step, Res.bind_eq_ok] at e
    obtain ⟨v, -, old, -, e⟩ := e
    split at e
    · cases e
    · obtain ⟨h, -, e⟩ := Res.bind_eq_ok.mp e
      cases e; exact Or.inl rfl
  | free x =>
    simp only [step, Res.bind_eq_ok] at e
    obtain ⟨v, -, h, -, e⟩ := e
    cases e; exact Or.inl rfl
  | make c args =>
    simp only [step, Res.bind_eq_ok] at e
    obtain ⟨vs, -, ⟨ms, h⟩, -, e⟩ := e
    cases e; exact Or.inr (Or.inl ⟨_, rfl, by simp⟩)
  | newMap n => cases e; exact Or.inr (Or.inl ⟨_, rfl, by simp⟩)
  | setCoeffs i x =>
    simp only [step, Res.bind_eq_ok] at e
    obtain ⟨b, hb, v, -, e⟩ := e
    cases b with
    | made ms => cases e
    | map n sv =>
      cases sv with
      | none =>
        obtain ⟨⟨m, h⟩, -, e⟩ := Res.bind_eq_ok.mp e
        cases e; exact Or.inr (Or.inr ⟨_, _, rfl⟩)
      | some sv =>
        obtain ⟨d, -, e⟩ := Res.bind_eq_ok.mp e
        obtain ⟨old, -, e⟩ := Res.bind_eq_ok.mp e
        split at e
        · cases e
        · split at e
          · obtain ⟨⟨m, h⟩, -, e⟩ := Res.bind_eq_ok.mp e
            obtain ⟨h', -, e⟩ := Res.bind_eq_ok.mp e
            cases e; exact Or.inr (Or.inr ⟨_, _, rfl⟩)
          · obtain ⟨h, -, e⟩ := Res.bind_eq_ok.mp e
            cases e; exact Or.inl rfl
  | wrapCoeffs i x =>
    simp only [step, Res.bind_eq_ok] at e
    obtain ⟨b, hb, v, -, e⟩ := e
    cases b with
    | made ms => cases e
    | map n sv =>
      obtain ⟨d, -, e⟩ := Res.bind_eq_ok.mp e
      split at e
      · cases e
      · obtain ⟨h, -, e⟩ := Res.bind_eq_ok.mp e
        obtain ⟨h', -, e⟩ := Res.bind_eq_ok.mp e
        cases e; exact Or.inr (Or.inr ⟨_, _, rfl⟩)
  | coeffMap i =>
    simp only [step, Res.bind_eq_ok] at e
    obtain ⟨b, hb, e⟩ := e
    cases b with
    | made ms => cases e
    | map n sv =>
      cases sv with
      | none => cases e
      | some sv => cases e; exact Or.inl rfl
  | look i =>
    simp only [step, Res.bind_eq_ok] at e
    obtain ⟨b, hb, e⟩ := e
    cases e; exact Or.inl rfl
  | drop i =>
    simp only [step, Res.bind_eq_ok] at e
    obtain ⟨b, hb, h, -, e⟩ := e
    cases e; exact Or.inr (Or.inr ⟨_, _, rfl⟩)

/-- The coefficients of `o`, if it has any, are its own. -/
def OwnCoeffs (s : State α) (o : Nat) : Prop := ∀ n sv, s.objs[o]? = some (some (.map n (some sv))) → Owns s o (.map n (some sv))

theorem setCoeffs_owns {s s' : State α} {o x : Nat} {v : Var} {d : List α} (hw : WF s) (hq : OwnCoeffs s o) (e : step s (.setCoeffs o x) = .ok s')
    (hx : s.var x = .ok v) (hd : s.heap.read v.as = .ok d) : ∃ n m, Owns s' o (.map n (some m)) ∧ s'.heap.read m = .ok d := by
  simp only [step, hx, Res.bind_ok, Res.bind_eq_ok] at e
  obtain ⟨b, hb, e⟩ := e
  have hb' := obj_eq.mp hb
  have hlt := (List.getElem?_eq_some_iff.mp hb').1
  have fresh : ∀ (h : Heap α) (n : Nat), s.heap.length < h.length →
      Owns (⟨h, s.vars, s.objs.set o (some (.map n (some ⟨s.heap.length, true⟩)))⟩ : State α) o (.map n (some ⟨s.heap.length, true⟩)) := by
    intro h n hl
    refine ⟨List.getElem?_set_self hlt, fun m hm => ?_⟩
    simp [Object.views] at hm
    subst hm
    refine ⟨hl, fun y w hy => ?_, fun o' b' hne ho' w hw' => ?_⟩
    · have := hw.1 y w hy; dsimp only; omega
    · rcases get_set_some ho' with ⟨-, ho'⟩ | ⟨h1, -⟩
      · have := hw.2 o' b' ho' w hw'; dsimp only; omega
      · exact (hne h1).elim
  cases b with
  | made ms => cases e
  | map n sv =>
    cases sv with
    | none =>
      dsimp only at e
      rw [copyIn_eq hd, Res.bind_ok] at e
      cases e
      exact ⟨n, _, fresh _ n (by simp), read_eq.mpr ⟨⟨d, some 1, true⟩, by simp, rfl, rfl⟩⟩
    | some sv =>
      have hown := hq n sv hb'
      obtain ⟨g1, g2, g3⟩ := hown.2 sv (by simp [Object.views])
      dsimp only at e
      rw [hd, Res.bind_ok] at e
      obtain ⟨old, ho, e⟩ := Res.bind_eq_ok.mp e
      split at e
      · cases e
      · split at e
        · rw [copyIn_eq hd, Res.bind_ok] at e
          obtain ⟨h', e2, e⟩ := Res.bind_eq_ok.mp e
          cases e
          have hl := release_len e2
          simp at hl
          refine ⟨n, _, fresh _ n (by omega), ?_⟩
          have := release_same e2 (a := s.heap.length) (by omega)
          exact read_eq.mpr ⟨⟨d, some 1, true⟩, by rw [this.1]; simp, rfl, rfl⟩
        · obtain ⟨h, e1, e⟩ := Res.bind_eq_ok.mp e
          cases e
          have hl := deepCopy_len e1
          refine ⟨n, sv, ⟨hb', fun m hm => ?_⟩, ?_⟩
          · simp [Object.views] at hm
            subst hm
            exact ⟨by rw [hl]; exact g1, g2, g3⟩
          · simp only [Heap.deepCopy, hd, ho, Res.bind_ok] at e1
            split at e1
            · cases e1
            · obtain ⟨b, k1, k2, rfl⟩ := write_eq.mp e1
              exact read_eq.mpr ⟨_, List.getElem?_set_self g1, k2, rfl⟩

/-- The statement does not wrap other memory as the coefficients of `o`, or take a map onto them. -/
def Op.NoWrap (o : Nat) : Op α → Prop
  | .wrapCoeffs i _ => i ≠ o
  | .coeffMap i => i ≠ o
  | _ => True

theorem step_ownCoeffs {s s' : State α} {op : Op α} {o : Nat} (hw : WF s) (hq : OwnCoeffs s o) (hn : op.NoWrap o) (e : step s op = .ok s') :
    OwnCoeffs s' o := by
  by_cases hsp : op.Spares o
  · intro n sv h
    have hs : s.objs[o]? = some (some (.map n (some sv))) := by
      cases c : s.objs[o]? with
      | none =>
        exfalso
        have hlen : s.objs.length ≤ o := List.getElem?_eq_none_iff.mp c
        rcases step_objs_form e with g | ⟨b, g, g'⟩ | ⟨i, y, g⟩
        · rw [g, c] at h; cases h
        · rw [g] at h
          rcases get_append h with h | ⟨-, h⟩
          · rw [c] at h; cases h
          · cases h; exact g' n sv rfl
        · have := (List.getElem?_eq_some_iff.mp h).1
          rw [g, List.length_set] at this; omega
      | some b =>
        cases b with
        | none => rw [(step_objs e o).1 c] at h; cases h
        | some b =>
          rcases (step_objs e o).2 b c (Or.inr hsp) with g | g
          · rw [g] at h; cases h; rfl
          · rw [g] at h; cases h
    have ho := hq n sv hs
    refine ⟨h, fun m hm => ?_⟩
    obtain ⟨f1, f2, f3⟩ := step_frame e o _ hs (Or.inr hsp) (by rw [h]; simp) m.addr (ho.2 m hm).1 (ho.2 m hm).2.1 (ho.2 m hm).2.2
    exact ⟨lt_of_lt_of_le (ho.2 m hm).1 f1.2, f2, f3⟩
  · cases op with
    | setCoeffs i x =>
      have hi : i = o := by by_contra h; exact hsp h
      subst hi
      intro n sv h
      have e' := e
      simp only [step, Res.bind_eq_ok] at e'
      obtain ⟨b, hb, v, hv, e'⟩ := e'
      have hd : ∃ d, s.heap.read v.as = .ok d := by
        cases b with
        | made ms => cases e'
        | map n sv =>
          cases sv with
          | none =>
            simp only [Life.copyIn, Res.bind_eq_ok] at e'
            obtain ⟨_, ⟨d, hd, -⟩, -⟩ := e'
            exact ⟨d, hd⟩
          | some sv =>
            obtain ⟨d, hd, -⟩ := Res.bind_eq_ok.mp e'
            exact ⟨d, hd⟩
      obtain ⟨d, hd⟩ := hd
      obtain ⟨n', m, h1, -⟩ := setCoeffs_owns hw hq e hv hd
      have := h1.1
      rw [h] at this
      cases this
      exact h1
    | wrapCoeffs i x => exact (hsp hn).elim
    | coeffMap i => exact (hsp hn).elim
    | _ => exact (hsp trivial).elim

theorem run_ownCoeffs {o : Nat} : ∀ {ops : List (Op α)} {s s' : State α}, WF s → OwnCoeffs s o → (∀ op ∈ ops, op.NoWrap o) → run s ops = .ok s' →
    OwnCoeffs s' o ∧ WF s'
  | [], s, s', hw, hq, _, e => by cases e; exact ⟨hq, hw⟩
  | op :: ops, s, s', hw, hq, hn, e => by
    simp only [run, Res.bind_eq_ok] at e
    obtain ⟨s1, e1, e2⟩ := e
    exact run_ownCoeffs (step_wf hw e1) (step_ownCoeffs hw hq (hn op (by simp)) e1) (fun op h => hn op (by simp [h])) e2

/-- **C96** for `SetCoeffs`. If the coefficients of a map were not wrapped before, then after `SetCoeffs` with an array that holds `d` the map computes with
`d`, whatever is done with the array or with other objects, until its coefficients are set or wrapped or mapped again. -/
theorem C96_setCoeffs {o x : Nat} {v : Var} {d : List α} {pre ops : List (Op α)} {s s' s'' : State α} (hpre : run start pre = .ok s)
    (hn : ∀ op ∈ pre, op.NoWrap o) (hx : s.var x = .ok v) (hd : s.heap.read v.as = .ok d) (e : step s (.setCoeffs o x) = .ok s')
    (hr : run s' ops = .ok s'') (hsp : ∀ op ∈ ops, op.Spares o) (hk : s''.objs[o]? ≠ some none) : s''.look o = .ok [d] := by
  have hstart : WF (start : State α) := ⟨by simp [start], by simp [start]⟩
  obtain ⟨hq, hw⟩ := run_ownCoeffs (o := o) hstart (by intro n sv h; simp [start] at h) hn hpre
  obtain ⟨n, m, h1, h2⟩ := setCoeffs_owns hw hq e hx hd
  obtain ⟨r1, r2⟩ := h1.run hr (fun op hop => Or.inr (hsp op hop)) hk
  rw [State.look, obj_eq.mpr r1.1, Res.bind_ok, r2]
  simp only [Object.views, Option.toList_some, readAll, h2, Res.bind_ok, Res.pure_eq]

/-! ### Objects that share -/

/-- The constructors that keep the view they are given: objectives in C++ (and MATLAB), means of Gaussians, fixed sets in C++. -/
def Ctor.keeps : Ctor → Prop
  | .objective | .gaussianMean | .fixedSet => True
  | _ => False

theorem how_keeps {c : Ctor} (hc : c.keeps) (h : Heap α) (v : View) : c.how h v = keep h v := by
  cases c <;> first | rfl | exact hc.elim

theorem run_made {o : Nat} {ms : List View} : ∀ {ops : List (Op α)} {s s' : State α}, s.objs[o]? = some (some (.made ms)) → run s ops = .ok s' →
    s'.objs[o]? ≠ some none → s'.objs[o]? = some (some (.made ms))
  | [], s, s', h, e, _ => by cases e; exact h
  | op :: ops, s, s', h, e, hn => by
    simp only [run, Res.bind_eq_ok] at e
    obtain ⟨s1, e1, e2⟩ := e
    exact run_made (((step_objs e1 o).2 _ h (Or.inl ⟨ms, rfl⟩)).resolve_right fun h' => hn (run_objs e2 o h')) e2 hn

theorem step_var {x : Nat} {v : Var} {op : Op α} {s s' : State α} (h : s.vars[x]? = some (some v)) (e : step s op = .ok s') :
    s'.vars[x]? = some (some v) ∨ s'.vars[x]? = some none := by
  rcases step_vars e with g | ⟨v, g, -⟩ | ⟨y, -, g⟩
  · rw [g]; exact Or.inl h
  · rw [g, List.getElem?_append_left (List.getElem?_eq_some_iff.mp h).1]; exact Or.inl h
  · rw [g]
    by_cases c : y = x
    · subst c; right; rw [List.getElem?_set_self (List.getElem?_eq_some_iff.mp h).1]
    · left; rw [List.getElem?_set_ne c]; exact h

theorem step_var_gone {x : Nat} {op : Op α} {s s' : State α} (h : s.vars[x]? = some none) (e : step s op = .ok s') : s'.vars[x]? = some none := by
  rcases step_vars e with g | ⟨v, g, -⟩ | ⟨y, -, g⟩
  · rw [g]; exact h
  · rw [g, List.getElem?_append_left (List.getElem?_eq_some_iff.mp h).1]; exact h
  · rw [g]
    by_cases c : y = x
    · subst c; rw [List.getElem?_set_self (List.getElem?_eq_some_iff.mp h).1]
    · rw [List.getElem?_set_ne c]; exact h

theorem run_var_gone {x : Nat} : ∀ {ops : List (Op α)} {s s' : State α}, s.vars[x]? = some none → run s ops = .ok s' → s'.vars[x]? = some none
  | [], s, s', h, e => by cases e; exact h
  | op :: ops, s, s', h, e => by
    simp only [run, Res.bind_eq_ok] at e
    obtain ⟨s1, e1, e2⟩ := e
    exact run_var_gone (step_var_gone h e1) e2

theorem run_var {x : Nat} {v : Var} : ∀ {ops : List (Op α)} {s s' : State α}, s.vars[x]? = some (some v) → run s ops = .ok s' →
    s'.vars[x]? ≠ some none → s'.vars[x]? = some (some v)
  | [], s, s', h, e, _ => by cases e; exact h
  | op :: ops, s, s', h, e, hn => by
    simp only [run, Res.bind_eq_ok] at e
    obtain ⟨s1, e1, e2⟩ := e
    exact run_var ((step_var h e1).resolve_right fun h' => hn (run_var_gone h' e2)) e2 hn

/-- **C96** for the constructors that keep a view, in a safe program. The object shares the memory of the view: as long as the variable is there, it computes
with the entries the variable has at the time; and the end of the life of the variable does not change what it computes with. -/
theorem C96_shared {c : Ctor} (hc : c.keeps) {pre ops : List (Op α)} {s s' s'' : State α} (hpre : run start pre = .ok s) (hsafe : SafeRun start pre) {x a : Nat}
    (hx : s.vars[x]? = some (some (.view a))) (e : step s (.make c [x]) = .ok s') (hr : run s' ops = .ok s'') (hops : SafeRun s' ops)
    (hk : s''.objs[s.objs.length]? ≠ some none) (hkx : s''.vars[x]? ≠ some none) :
    ∃ d, s''.heap.read ⟨a, true⟩ = .ok d ∧ s''.look s.objs.length = .ok [d] ∧
      ∃ t, step s'' (.free x) = .ok t ∧ t.look s.objs.length = .ok [d] := by
  have i : Inv s := by
    rcases run_safe start_inv hsafe with g | ⟨t, g, i⟩
    · rw [hpre] at g; cases g
    · rw [hpre] at g; cases g; exact i
  have hso : SafeOp s (.make c [x]) := by
    right
    refine ⟨by rintro rfl; exact hc, fun y hy b => ?_⟩
    simp at hy; subst hy
    rw [hx]; simp
  have i' : Inv s' := by
    rcases step_safe i hso with g | ⟨t, g, i⟩
    · rw [e] at g; cases g
    · rw [e] at g; cases g; exact i
  have i'' : Inv s'' := by
    rcases run_safe i' hops with g | ⟨t, g, i⟩
    · rw [hr] at g; cases g
    · rw [hr] at g; cases g; exact i
  simp only [step, State.args, var_eq.mpr hx, Res.bind_ok, Res.pure_eq, members, how_keeps hc, keep, Res.bind_eq_ok] at e
  obtain ⟨⟨ms, h⟩, ⟨⟨m, h1⟩, ⟨h2, e1, e2⟩, e3⟩, e⟩ := e
  cases e2; cases e3; cases e
  have hvx : s''.vars[x]? = some (some (.view a)) := by
    refine run_var ?_ hr hkx
    exact hx
  have hob : s''.objs[s.objs.length]? = some (some (.made [⟨a, true⟩])) := run_made (by simp [Var.as]) hr hk
  obtain ⟨d, hd⟩ := i''.heap.read (var_mem hvx)
  refine ⟨d, hd, ?_, ?_⟩
  · simp only [State.look, obj_eq.mpr hob, Res.bind_ok, Object.views, readAll, Res.pure_eq]
    rw [show (⟨a, true⟩ : View) = (Var.view a).as from rfl, hd, Res.bind_ok]
  · have hfree : SafeOp s'' (.free x) := trivial
    rcases step_safe i'' hfree with g | ⟨t, g, it⟩
    · exfalso
      simp only [step, var_eq.mpr hvx, Res.bind_ok, Heap.endOf, Heap.release, if_true] at g
      obtain ⟨b, k, q1, q2⟩ := i''.heap.managed _ (var_mem hvx) rfl
      obtain ⟨c1, c2⟩ := i''.heap.counted _ b k q1 q2
      have hpos : 0 < s''.views.count ⟨a, true⟩ := List.count_pos_iff.mpr (var_mem hvx)
      simp only [Var.as] at q1 c1
      obtain ⟨k, rfl⟩ : ∃ j, k = j + 1 := ⟨k - 1, by omega⟩
      rw [Res.idx, q1] at g
      simp only [Res.bind_ok, q2] at g
      cases g
    · refine ⟨t, g, ?_⟩
      have hot : t.objs[s.objs.length]? = some (some (.made [⟨a, true⟩])) := by
        simp only [step, var_eq.mpr hvx, Res.bind_ok, Res.bind_eq_ok] at g
        obtain ⟨h, -, g⟩ := g
        cases g; exact hob
      obtain ⟨d', hd'⟩ := it.heap.read (obj_mem hot (w := ⟨a, true⟩) (by simp [Object.views]))
      have : d' = d := by
        simp only [step, var_eq.mpr hvx, Res.bind_ok, Res.bind_eq_ok, Heap.endOf] at g
        obtain ⟨h, g1, g⟩ := g
        cases g
        obtain ⟨b, p1, -, p3⟩ := read_eq.mp hd
        obtain ⟨b', p1', -, p3'⟩ := read_eq.mp hd'
        rcases release_eq.mp g1 with ⟨g2, -⟩ | ⟨-, b2, k, g3, g4, g5⟩
        · cases g2
        · simp only [Var.as] at p1
          dsimp only at g3 g5 p1'
          rw [g5, List.getElem?_set_self (List.getElem?_eq_some_iff.mp g3).1] at p1'
          rw [p1] at g3
          cases g3; cases p1'
          rw [← p3, ← p3']
      subst this
      simp only [State.look, obj_eq.mpr hot, Res.bind_ok, Object.views, readAll, hd', Res.pure_eq]

/-! ### Objects whose data can go away -/

/-- **C96 fails for arrays of the program** (the objective of MATLAB, whose points belong to MATLAB; Gaussians with a mean from an Eigen matrix or a MATLAB
array; fixed sets in C++ on the entries of a `std::vector`). In every state, the object made from the array computes with what is later written to the
array, and when the array is gone it reads freed memory. -/
theorem C96_fails_arrays {c : Ctor} (hc : c.keeps) (s : State α) {x a : Nat} {d : List α}
    (hx : s.vars[x]? = some (some (.array a))) (hd : s.heap.read ⟨a, false⟩ = .ok d) :
    ∃ s', step s (.make c [x]) = .ok s' ∧ s'.look s.objs.length = .ok [d] ∧
      (∀ d', d'.length = d.length → ∃ t, step s' (.write x d') = .ok t ∧ t.look s.objs.length = .ok [d']) ∧
      (∃ t, step s' (.free x) = .ok t ∧ t.look s.objs.length = .ub) := by
  obtain ⟨b, hb, hl, rfl⟩ := read_eq.mp hd
  dsimp only at hb
  have hlt := (List.getElem?_eq_some_iff.mp hb).1
  have e : step s (.make c [x]) = .ok ⟨s.heap, s.vars, s.objs ++ [some (.made [⟨a, false⟩])]⟩ := by
    simp only [step, State.args, var_eq.mpr hx, Res.bind_ok, Res.pure_eq, members, how_keeps hc, keep, Var.as, Heap.share, Bool.false_eq_true, if_false]
  have look : ∀ (h : Heap α) (vs : List (Option Var)), (⟨h, vs, s.objs ++ [some (.made [⟨a, false⟩])]⟩ : State α).look s.objs.length =
      (h.read ⟨a, false⟩ >>= fun d => Res.ok [d]) := by
    intro h vs
    have : (⟨h, vs, s.objs ++ [some (.made [⟨a, false⟩])]⟩ : State α).obj s.objs.length = .ok (.made [⟨a, false⟩]) := obj_eq.mpr (by simp)
    simp only [State.look, this, Res.bind_ok, Object.views, readAll, Res.pure_eq]
  refine ⟨_, e, by rw [look, hd, Res.bind_ok], fun d' hd' => ?_, ?_⟩
  · have hv : (⟨s.heap, s.vars, s.objs ++ [some (.made [⟨a, false⟩])]⟩ : State α).var x = .ok (.array a) := var_eq.mpr hx
    have hw : s.heap.write ⟨a, false⟩ d' = .ok (s.heap.set a { b with data := d' }) := write_eq.mpr ⟨b, hb, hl, rfl⟩
    refine ⟨⟨s.heap.set a { b with data := d' }, s.vars, s.objs ++ [some (.made [⟨a, false⟩])]⟩, ?_, ?_⟩
    · simp only [step, hv, Res.bind_ok, Var.as, hd, hw, hd', ne_eq, not_true_eq_false, if_false, Res.pure_eq]
    · have : Heap.read (s.heap.set a { b with data := d' }) ⟨a, false⟩ = .ok d' := read_eq.mpr ⟨_, List.getElem?_set_self hlt, hl, rfl⟩
      rw [look, this, Res.bind_ok]
  · have hv : (⟨s.heap, s.vars, s.objs ++ [some (.made [⟨a, false⟩])]⟩ : State α).var x = .ok (.array a) := var_eq.mpr hx
    have hf : s.heap.free a = .ok (s.heap.set a { b with live := false }) := free_eq.mpr ⟨b, hb, hl, rfl⟩
    refine ⟨⟨s.heap.set a { b with live := false }, s.vars.set x none, s.objs ++ [some (.made [⟨a, false⟩])]⟩, ?_, ?_⟩
    · simp only [step, hv, Res.bind_ok, Heap.endOf, hf, Res.pure_eq]
    · rw [look]
      simp only [Heap.read, Res.idx, List.getElem?_set_self hlt, Res.bind_ok, Bool.false_eq_true, if_false]
      rfl

/-- **C96 fails for `FixedMultiIndexSet(dim, orders)` in Python**: in every state, the set it makes has a view of a temporary that is gone when the constructor
returns. -/
theorem C96_fails_temporary (s : State α) {x : Nat} {v : Var} {d : List α} (hx : s.vars[x]? = some (some v)) (hd : s.heap.read v.as = .ok d) :
    ∃ s', step s (.make .pyFixedDense [x]) = .ok s' ∧ s'.look s.objs.length = .ub := by
  refine ⟨⟨s.heap ++ [⟨d, none, false⟩], s.vars, s.objs ++ [some (.made [⟨s.heap.length, false⟩])]⟩, ?_, ?_⟩
  · simp only [step, State.args, var_eq.mpr hx, Res.bind_ok, Res.pure_eq, members, Ctor.how, keepTemporary_eq hd]
  · have : (⟨s.heap ++ [⟨d, none, false⟩], s.vars, s.objs ++ [some (.made [⟨s.heap.length, false⟩])]⟩ : State α).obj s.objs.length =
        .ok (.made [⟨s.heap.length, false⟩]) := obj_eq.mpr (by simp)
    simp only [State.look, this, Res.bind_ok, Object.views, readAll, Heap.read, Res.idx]
    simp

/-- **C96 fails for `CoeffMap`**: what it returns does not keep the coefficients. After the map is gone, assigning through it writes to freed memory. -/
theorem C96_fails_coeffMap (d d' : List α) :
    ∃ s, run start [.newArray d, .newMap d.length, .setCoeffs 0 0, .coeffMap 0, .drop 0] = .ok s ∧ step s (.write 1 d') = .ub := by
  have h1 : Heap.read [(⟨d, none, true⟩ : Block α)] ⟨0, false⟩ = .ok d := read_eq.mpr ⟨_, rfl, rfl, rfl⟩
  have h2 : copyIn [(⟨d, none, true⟩ : Block α)] ⟨0, false⟩ = .ok (⟨1, true⟩, [⟨d, none, true⟩, ⟨d, some 1, true⟩]) := copyIn_eq h1
  refine ⟨⟨[⟨d, none, true⟩, ⟨d, some 0, false⟩], [some (.array 0), some (.alias 1)], [none]⟩, ?_, ?_⟩
  · simp [run, step, start, State.obj, State.var, Var.as, h2, Object.views, releaseAll, Heap.release, Res.idx]
  · simp [step, State.var, Var.as, Heap.read, Res.idx]

end

/-! ### Examples -/

/-- The hypotheses of `C96_copied` hold in the state after an array was made: the objective of Python still computes with 1, 2 after the array was
overwritten and freed. -/
example : ∃ s s' s'' : State Nat, Reachable s ∧ s.args [0] = .ok [⟨0, false⟩] ∧ readAll s.heap [⟨0, false⟩] = .ok [[1, 2]] ∧
    step s (.make .pyObjective [0]) = .ok s' ∧ run s' [.write 0 [8, 9], .free 0] = .ok s'' ∧ s''.objs[s.objs.length]? ≠ some none ∧
    s''.look 0 = .ok [[1, 2]] :=
  ⟨⟨[⟨[1, 2], none, true⟩], [some (.array 0)], []⟩, _, _, ⟨[.newArray [1, 2]], rfl⟩, rfl, rfl, rfl, rfl, nofun, rfl⟩

/-- A safe program with a shared view: the objective sees the write and outlives the variable, and at the end nothing is left. -/
example : let ops : List (Op Nat) := [.newView [1, 2], .make .objective [0], .write 0 [8, 9], .free 0, .look 0, .drop 0]
    (∀ op ∈ ops, op.OnlyViews) ∧ ∃ s, run start ops = .ok s ∧ s.heap.all (fun b => !b.live) ∧ s.heap.length = 1 := by
  refine ⟨?_, _, rfl, rfl, rfl⟩
  intro op h
  simp only [List.mem_cons, List.not_mem_nil, or_false] at h
  rcases h with rfl | rfl | rfl | rfl | rfl | rfl <;> simp [Op.OnlyViews]

/-- A copying program with all its constructors. -/
example : let ops : List (Op Nat) := [.newArray [1, 2], .make .affine [0, 0], .make .pyFixedCompressed [0], .make .gaussianCov [0], .newMap 2,
      .setCoeffs 3 0, .write 0 [3, 4], .setCoeffs 3 0, .free 0, .look 0, .look 3]
    (∀ op ∈ ops, op.Copying) ∧ ∃ s, run start ops = .ok s ∧ s.look 0 = .ok [[1, 2], [1, 2]] ∧ s.look 1 = .ok [[1, 2]] ∧ s.look 3 = .ok [[3, 4]] := by
  refine ⟨?_, _, rfl, rfl, rfl, rfl⟩
  intro op h
  simp only [List.mem_cons, List.not_mem_nil, or_false] at h
  rcases h with rfl | rfl | rfl | rfl | rfl | rfl | rfl | rfl | rfl | rfl | rfl <;> simp [Op.Copying, Ctor.copies]

/-- The hypotheses of `C96_setCoeffs`. -/
example : ∃ s s' s'' : State Nat, run start [.newArray [1, 2], .newMap 2] = .ok s ∧ s.var 0 = .ok (.array 0) ∧ s.heap.read ⟨0, false⟩ = .ok [1, 2] ∧
    step s (.setCoeffs 0 0) = .ok s' ∧ run s' [.write 0 [3, 4]] = .ok s'' ∧ s''.objs[0]? ≠ some none :=
  ⟨_, _, _, rfl, rfl, rfl, rfl, rfl, nofun⟩

/-- The hypotheses of `C96_shared`. -/
example : ∃ s s' s'' : State Nat, run start [.newView [1, 2]] = .ok s ∧ SafeRun start [.newView [1, 2]] ∧ s.vars[0]? = some (some (.view 0)) ∧
    step s (.make .objective [0]) = .ok s' ∧ run s' [.write 0 [3, 4]] = .ok s'' ∧ SafeRun s' [.write 0 [3, 4]] ∧
    s''.objs[s.objs.length]? ≠ some none ∧ s''.vars[0]? ≠ some none :=
  ⟨_, _, _, rfl, ⟨trivial, fun _ _ => trivial⟩, rfl, rfl, rfl, ⟨trivial, fun _ _ => trivial⟩, nofun, nofun⟩

/-- The hypotheses of `C96_fails_arrays` and `C96_fails_temporary`. -/
example : ∃ s : State Nat, Reachable s ∧ s.vars[0]? = some (some (.array 0)) ∧ s.heap.read ⟨0, false⟩ = .ok [1, 2] :=
  ⟨_, ⟨[.newArray [1, 2]], rfl⟩, rfl, rfl⟩

end MParT.Life
