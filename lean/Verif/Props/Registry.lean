import Verif.Model.Registry
/-!
# C67: the registry of component factories
-/
namespace MParT
open MapFactory

theorem registrations_match : ∀ e ∈ registrations, e.2 = e.1 := by decide

theorem registrations_complete (k : Key) : (k, k) ∈ registrations := by
  obtain ⟨b, l, p, q⟩ := k
  cases b <;> cases l <;> cases p <;> cases q <;> decide

/-- What the registry contains: of each key the first entry. -/
theorem initialised_mem (regs : List (Key × Classes)) : ∀ map : List (Key × Classes),
    (∀ e ∈ regs.foldl register map, e ∈ map ∨ e ∈ regs) ∧
    (∀ e, (e ∈ map ∨ e ∈ regs) → ∃ e' ∈ regs.foldl register map, e'.1 = e.1) := by
  induction regs with
  | nil => intro map; exact ⟨fun e he => .inl he, fun e he => ⟨e, by simpa using he, rfl⟩⟩
  | cons r rs ih =>
    intro map
    obtain ⟨h1, h2⟩ := ih (register map r)
    have hin : ∀ e, e ∈ register map r → e ∈ map ∨ e = r := by
      intro e he
      rw [register] at he
      split at he
      · exact .inl he
      · simpa using he
    have hex : ∀ e, e ∈ map ∨ e = r → ∃ e' ∈ register map r, e'.1 = e.1 := by
      intro e he
      rw [register]
      split
      · rename_i hany
        rcases he with he | rfl
        · exact ⟨e, he, rfl⟩
        · obtain ⟨x, hx, hk⟩ := List.any_eq_true.1 hany
          exact ⟨x, hx, by simpa using hk⟩
      · exact ⟨e, by simpa using he, rfl⟩
    constructor
    · intro e he
      rcases h1 e he with h | h
      · rcases hin e h with h | rfl
        · exact .inl h
        · exact .inr (by simp)
      · exact .inr (by simp [h])
    · intro e he
      have : (e ∈ map ∨ e = r) ∨ e ∈ rs := by
        rcases he with h | h
        · exact .inl (.inl h)
        · rcases List.mem_cons.1 h with h | h
          · exact .inl (.inr h)
          · exact .inr h
      rcases this with h | h
      · obtain ⟨e1, h3, h4⟩ := hex e h
        obtain ⟨e2, h5, h6⟩ := h2 e1 (.inl h3)
        exact ⟨e2, h5, h6.trans h4⟩
      · exact h2 e (.inr h)

theorem createComponentImpl_key (mset : FixedSet) (opts : MapOptions) (mem : Nat → Option ℝ) (work : List ℝ) :
    createComponentImpl (opts.basisType, isLinearized opts, opts.posFuncType, opts.quadType) mset opts mem work
      = createComponent mset opts mem work := by
  rfl

/-- **C67.** When all registrations have run, in whatever order and however often, every set of options is registered and `CreateComponent` builds the
component with the basis, bijector and quadrature they name (`createComponent`, which C62 is about). -/
theorem C67_registry {regs : List (Key × Classes)} (h : regs ⊆ registrations) (hall : registrations ⊆ regs) (mset : FixedSet) (opts : MapOptions)
    (mem : Nat → Option ℝ) (work : List ℝ) :
    createComponentFrom (initialised regs) mset opts mem work = createComponent mset opts mem work := by
  obtain ⟨h1, h2⟩ := initialised_mem regs []
  have hk := registrations_complete (opts.basisType, isLinearized opts, opts.posFuncType, opts.quadType)
  obtain ⟨e, he, hek⟩ := h2 _ (.inr (hall hk))
  have hf : getFactoryFunction (initialised regs) opts = .ok (opts.basisType, isLinearized opts, opts.posFuncType, opts.quadType) := by
    rw [getFactoryFunction]
    split
    · rename_i x hx
      have hx1 := List.find?_some hx
      have hx2 := List.mem_of_find?_eq_some hx
      rcases h1 x hx2 with h' | h'
      · simp at h'
      · rw [registrations_match x (h h')]
        simpa using hx1
    · rename_i hx
      have := List.find?_eq_none.1 hx e he
      simp [hek] at this
  rw [createComponentFrom, hf]
  exact createComponentImpl_key mset opts mem work

/-- **C67.** When only some of the registrations have run (a program that does not link all of the files), `CreateComponent` throws or builds the same
component; it throws exactly if the options were not registered. -/
theorem C67_missing {regs : List (Key × Classes)} (h : regs ⊆ registrations) (mset : FixedSet) (opts : MapOptions) (mem : Nat → Option ℝ) (work : List ℝ) :
    createComponentFrom (initialised regs) mset opts mem work =
      if ∃ e ∈ regs, e.1 = (opts.basisType, isLinearized opts, opts.posFuncType, opts.quadType) then createComponent mset opts mem work else .throw := by
  obtain ⟨h1, h2⟩ := initialised_mem regs []
  rw [createComponentFrom, getFactoryFunction]
  split_ifs with hex
  · obtain ⟨e0, he0, hk⟩ := hex
    obtain ⟨e, he, hek⟩ := h2 e0 (.inr he0)
    split
    · rename_i x hx
      have hx1 := List.find?_some hx
      have hx2 := List.mem_of_find?_eq_some hx
      rcases h1 x hx2 with h' | h'
      · simp at h'
      · have e1 : x.2 = (opts.basisType, isLinearized opts, opts.posFuncType, opts.quadType) := by
          rw [registrations_match x (h h')]; simpa using hx1
        rw [e1]
        exact createComponentImpl_key mset opts mem work
    · rename_i hx
      have := List.find?_eq_none.1 hx e he
      simp [hek, hk] at this
  · split
    · rename_i x hx
      have hx1 := List.find?_some hx
      have hx2 := List.mem_of_find?_eq_some hx
      rcases h1 x hx2 with h' | h'
      · simp at h'
      · exact absurd ⟨x, h', by simpa using hx1⟩ hex
    · rfl

/-- **C67.** No registration is shadowed by another: the registry has an entry for each of the 36 combinations. -/
theorem C67_distinct {regs : List (Key × Classes)} (h : regs.Perm registrations) : initialised regs = regs := by
  have hn : (registrations.map Prod.fst).Nodup := by decide
  have hn' : (regs.map Prod.fst).Nodup := (h.map Prod.fst).nodup_iff.2 hn
  have key : ∀ (rs map : List (Key × Classes)), ((map ++ rs).map Prod.fst).Nodup → rs.foldl register map = map ++ rs := by
    intro rs
    induction rs with
    | nil => intro map _; simp
    | cons r rs ih =>
      intro map hm
      have hr : map.any (fun x => x.1 == r.1) = false := by
        rw [List.any_eq_false]
        intro x hx
        rw [List.map_append, List.nodup_append] at hm
        have := hm.2.2 x.1 (List.mem_map_of_mem hx) r.1 (by simp)
        simpa using this
      rw [List.foldl_cons, register, hr, if_neg (by simp), ih _ (by simpa using hm)]
      simp
  simpa [initialised] using key regs [] (by simpa using hn')

/-- Non-vacuity: the files initialised in reverse order, and a program with the first file only. -/
example (mset : FixedSet) (mem : Nat → Option ℝ) (work : List ℝ) :
    createComponentFrom (initialised registrations.reverse) mset {} mem work = createComponent mset {} mem work ∧
    createComponentFrom (initialised (registrations.take 2)) mset {} mem work = .throw := by
  refine ⟨C67_registry (by intro e; simp) (by intro e; simp) mset {} mem work, ?_⟩
  rw [C67_missing (List.take_subset 2 _), if_neg]
  simp [registrations, isLinearized]

end MParT
