import Verif.Model.SharedComponent
import Verif.Lemmas.Quadrature
import Mathlib.Tactic.Linarith
import Mathlib.Tactic.Ring
import Mathlib.Algebra.BigOperators.Group.Finset.Basic
/-!
# C92: calls on one component by several threads
-/
namespace MParT.Shared

/-- What the kernels of a program have to be started with: the dimension of the function, and the workspace that
`GetWorkspaceSize` asks for that dimension. -/
def Right (ws : Nat → Nat) (M d : Nat) (fns : List Fn) : List (Option (Nat × Nat)) :=
  fns.map fun fn => (fn.dim M d).map fun n => (n, ws n)

/-- Two programs make conflicting accesses: the same member, at least one of them writes. -/
def Conflict (ws : Nat → Nat) (M d : Nat) (p p' : List Fn) : Prop :=
  ∃ s ∈ p.flatMap (Fn.steps ws M d), ∃ s' ∈ p'.flatMap (Fn.steps ws M d), ∃ l : Loc,
    (l ∈ s.writes ∧ (l ∈ s'.writes ∨ l ∈ s'.reads)) ∨ (l ∈ s'.writes ∧ l ∈ s.reads)

/-! ### The same dimension -/

/-- Where a thread is: `done` are started, `rest` are not; within a call the shared member has what this call has set. -/
inductive At (ws : Nat → Nat) (M d : Nat) (n : Nat) (q : Quad) (t : Thread) (p : List Fn) : Prop
  | between (dn rest : List Fn) (hp : p = dn ++ rest) (hl : t.launched = Right ws M d dn)
      (ht : t.todo = rest.flatMap (Fn.steps ws M d))
  | one (dn : List Fn) (fn : Fn) (rest : List Fn) (hp : p = dn ++ fn :: rest) (hl : t.launched = Right ws M d dn)
      (hf : fn.dim M d = some n) (ht : t.todo = .setSize (ws n) :: .readSize :: .copyQuad true :: rest.flatMap (Fn.steps ws M d))
      (h1 : q.fdim = n)
  | two (dn : List Fn) (fn : Fn) (rest : List Fn) (hp : p = dn ++ fn :: rest) (hl : t.launched = Right ws M d dn)
      (hf : fn.dim M d = some n) (ht : t.todo = .readSize :: .copyQuad true :: rest.flatMap (Fn.steps ws M d))
      (h1 : q.fdim = n) (h2 : q.size = ws n)
  | three (dn : List Fn) (fn : Fn) (rest : List Fn) (hp : p = dn ++ fn :: rest) (hl : t.launched = Right ws M d dn)
      (hf : fn.dim M d = some n) (ht : t.todo = .copyQuad true :: rest.flatMap (Fn.steps ws M d))
      (h1 : q.fdim = n) (h3 : t.size = ws n)

/-- What a step of a thread at such a point does to the member. -/
inductive Set (ws : Nat → Nat) (n : Nat) (q : Quad) : Quad → Prop
  | same : Set ws n q q
  | fdim : Set ws n q { q with fdim := n }
  | size : Set ws n q { q with size := ws n }

theorem At.other {ws : Nat → Nat} {M d n : Nat} {q q' : Quad} {t : Thread} {p : List Fn} (h : At ws M d n q t p)
    (hq : Set ws n q q') : At ws M d n q' t p := by
  cases h with
  | between dn rest hp hl ht => exact .between dn rest hp hl ht
  | one dn fn rest hp hl hf ht h1 => cases hq <;> exact .one dn fn rest hp hl hf ht (by first | exact h1 | rfl)
  | two dn fn rest hp hl hf ht h1 h2 =>
    cases hq <;> exact .two dn fn rest hp hl hf ht (by first | exact h1 | rfl) (by first | exact h2 | rfl)
  | three dn fn rest hp hl hf ht h1 h3 => cases hq <;> exact .three dn fn rest hp hl hf ht (by first | exact h1 | rfl) h3

theorem right_snoc (ws : Nat → Nat) (M d : Nat) (dn : List Fn) (fn : Fn) :
    Right ws M d (dn ++ [fn]) = Right ws M d dn ++ [(fn.dim M d).map fun n => (n, ws n)] := by simp [Right]

theorem At.step {ws : Nat → Nat} {M d n : Nat} {q : Quad} {t : Thread} {p : List Fn} (h : At ws M d n q t p)
    (hn : ∀ fn ∈ p, fn.dim M d = none ∨ fn.dim M d = some n) :
    At ws M d n (t.step q).1 (t.step q).2 p ∧ Set ws n q (t.step q).1 := by
  obtain ⟨todo, size, launched⟩ := t
  cases h with
  | between dn rest hp hl ht =>
    cases rest with
    | nil =>
      simp only [List.flatMap_nil] at ht
      subst ht
      exact ⟨.between dn [] hp hl rfl, .same⟩
    | cons fn rest =>
      rcases hn fn (by rw [hp]; simp) with hf | hf
      · simp only [List.flatMap_cons, Fn.steps, hf, List.cons_append, List.nil_append] at ht
        subst ht
        refine ⟨.between (dn ++ [fn]) rest (by rw [hp]; simp) ?_ rfl, .same⟩
        rw [right_snoc, hf]
        simp only at hl
        simp [Thread.step, hl]
      · simp only [List.flatMap_cons, Fn.steps, hf, List.cons_append, List.nil_append] at ht
        subst ht
        exact ⟨.one dn fn rest hp hl hf rfl rfl, .fdim⟩
  | one dn fn rest hp hl hf ht h1 =>
    simp only at ht
    subst ht
    exact ⟨.two dn fn rest hp hl hf rfl h1 rfl, .size⟩
  | two dn fn rest hp hl hf ht h1 h2 =>
    simp only at ht
    subst ht
    exact ⟨.three dn fn rest hp hl hf rfl h1 h2, .same⟩
  | three dn fn rest hp hl hf ht h1 h3 =>
    simp only at ht hl h3
    subst ht
    refine ⟨.between (dn ++ [fn]) rest (by rw [hp]; simp) ?_ rfl, .same⟩
    rw [right_snoc, hf]
    simp [Thread.step, hl, h1, h3]

/-- Every program is either finished, with everything started as it should, or on its way. -/
theorem run_at {ws : Nat → Nat} {M d n : Nat} {prog : Nat → List Fn}
    (hn : ∀ i, ∀ fn ∈ prog i, fn.dim M d = none ∨ fn.dim M d = some n) (schedule : List Nat) (s : State)
    (h : ∀ i, At ws M d n s.quad (s.threads i) (prog i)) (i : Nat) :
    At ws M d n (s.run schedule).quad ((s.run schedule).threads i) (prog i) := by
  induction schedule generalizing s with
  | nil => exact h i
  | cons j l ih =>
    refine ih (s.step j) fun k => ?_
    obtain ⟨h1, h2⟩ := (h j).step (hn j)
    by_cases hk : k = j
    · subst hk
      simpa [State.step] using h1
    · simpa [State.step, hk] using (h k).other h2

/-- C92 (same dimension). If all calls of all threads either do not integrate or integrate with the same number of outputs, then
under every schedule and whatever earlier calls have left, every call that a thread has finished was started with the
dimension and the workspace of its own function. -/
theorem C92_sameDim_partial (ws : Nat → Nat) (M d n : Nat) (q : Quad) (prog : Nat → List Fn)
    (hn : ∀ i, ∀ fn ∈ prog i, fn.dim M d = none ∨ fn.dim M d = some n) (schedule : List Nat) (i : Nat) :
    (∃ rest, ((State.start ws M d q prog).run schedule |>.threads i).launched ++ rest = Right ws M d (prog i)) ∧
    (((State.start ws M d q prog).run schedule |>.threads i).todo = [] →
      ((State.start ws M d q prog).run schedule |>.threads i).launched = Right ws M d (prog i)) := by
  have h := run_at hn schedule (State.start ws M d q prog) (fun k => .between [] (prog k) rfl rfl rfl) i
  have hne : ∀ fn : Fn, Fn.steps ws M d fn ≠ [] := by
    intro fn
    unfold Fn.steps
    cases fn.dim M d <;> simp
  cases h with
  | between dn rest hp hl ht =>
    refine ⟨⟨Right ws M d rest, by rw [hl, hp]; simp [Right]⟩, fun h0 => ?_⟩
    rw [ht] at h0
    cases rest with
    | nil => rw [hl, hp, List.append_nil]
    | cons fn rest => simp [hne] at h0
  | one dn fn rest hp hl hf ht h1 =>
    exact ⟨⟨Right ws M d (fn :: rest), by rw [hl, hp]; simp [Right]⟩, fun h0 => by simp [ht] at h0⟩
  | two dn fn rest hp hl hf ht h1 h2 =>
    exact ⟨⟨Right ws M d (fn :: rest), by rw [hl, hp]; simp [Right]⟩, fun h0 => by simp [ht] at h0⟩
  | three dn fn rest hp hl hf ht h1 h3 =>
    exact ⟨⟨Right ws M d (fn :: rest), by rw [hl, hp]; simp [Right]⟩, fun h0 => by simp [ht] at h0⟩

/-! ### One call at a time -/

/-- The schedule in which the calls of the history are prepared one after the other. -/
def oneByOne (ws : Nat → Nat) (M d : Nat) (history : List (Nat × Fn)) : List Nat :=
  history.flatMap fun c => List.replicate (Fn.steps ws M d c.2).length c.1

theorem State.ext' {s s' : State} (h1 : s.quad = s'.quad) (h2 : ∀ i, s.threads i = s'.threads i) : s = s' := by
  obtain ⟨q, t⟩ := s
  obtain ⟨q', t'⟩ := s'
  simp only at h1 h2
  rw [h1, funext h2]

/-- A call prepared without interruption. -/
theorem run_call (ws : Nat → Nat) (M d : Nat) (fn : Fn) (s : State) (i : Nat) (rest : List Step)
    (h : (s.threads i).todo = Fn.steps ws M d fn ++ rest) :
    (∀ k ≠ i, ((s.run (List.replicate (Fn.steps ws M d fn).length i)).threads k) = s.threads k) ∧
    ((s.run (List.replicate (Fn.steps ws M d fn).length i)).threads i).todo = rest ∧
    ((s.run (List.replicate (Fn.steps ws M d fn).length i)).threads i).launched
      = (s.threads i).launched ++ [(fn.dim M d).map fun n => (n, ws n)] := by
  obtain ⟨q, th⟩ := s
  simp only at h
  cases hf : fn.dim M d with
  | none =>
    simp only [Fn.steps, hf, List.cons_append, List.nil_append] at h ⊢
    refine ⟨fun k hk => ?_, ?_, ?_⟩ <;> simp [State.run, State.step, Thread.step, h, *]
  | some n =>
    simp only [Fn.steps, hf, List.cons_append, List.nil_append] at h ⊢
    refine ⟨fun k hk => ?_, ?_, ?_⟩ <;> simp [State.run, State.step, Thread.step, h, *, List.replicate]

theorem run_append (s : State) (a b : List Nat) : s.run (a ++ b) = (s.run a).run b := by simp [State.run]

theorem oneByOne_run (ws : Nat → Nat) (M d : Nat) (history : List (Nat × Fn)) (s : State)
    (h : ∀ i, (s.threads i).todo = (history.filter fun c => c.1 == i).flatMap fun c => Fn.steps ws M d c.2) (i : Nat) :
    ((s.run (oneByOne ws M d history)).threads i).todo = [] ∧
    ((s.run (oneByOne ws M d history)).threads i).launched
      = (s.threads i).launched ++ Right ws M d ((history.filter fun c => c.1 == i).map Prod.snd) := by
  induction history generalizing s with
  | nil => simpa [oneByOne, State.run, Right] using h i
  | cons c l ih =>
    obtain ⟨j, fn⟩ := c
    have hj := h j
    simp only [List.filter_cons, beq_self_eq_true, if_true, List.flatMap_cons] at hj
    obtain ⟨h1, h2, h3⟩ := run_call ws M d fn s j _ hj
    rw [oneByOne, List.flatMap_cons, run_append]
    have := ih (s.run (List.replicate (Fn.steps ws M d fn).length j)) (fun k => by
      by_cases hk : k = j
      · subst hk; exact h2
      · rw [h1 k hk, h k]
        simp [Ne.symm hk])
    refine ⟨this.1, this.2.trans ?_⟩
    by_cases hk : i = j
    · subst hk
      rw [h3]
      simp [Right]
    · rw [h1 i hk]
      simp [Right, Ne.symm hk]

/-- C92 (one call at a time). For every history of calls, by any threads, of any functions with any dimensions: if a call is
prepared only when the one before it has started its kernel, every kernel is started with the dimension and the workspace of its
own function. The kernels themselves may run at the same time: they have their own copy. -/
theorem C92_oneByOne (ws : Nat → Nat) (M d : Nat) (q : Quad) (history : List (Nat × Fn)) (i : Nat) :
    (((State.start ws M d q fun i => (history.filter fun c => c.1 == i).map Prod.snd).run
      (oneByOne ws M d history)).threads i).todo = [] ∧
    (((State.start ws M d q fun i => (history.filter fun c => c.1 == i).map Prod.snd).run
      (oneByOne ws M d history)).threads i).launched = Right ws M d ((history.filter fun c => c.1 == i).map Prod.snd) := by
  have := oneByOne_run ws M d history (State.start ws M d q fun i => (history.filter fun c => c.1 == i).map Prod.snd)
    (fun i => by simp [State.start, List.flatMap_map]) i
  simpa [State.start] using this

/-! ### Conflicts -/

theorem mem_steps_writes {ws : Nat → Nat} {M d : Nat} {fn : Fn} {s : Step} {l : Loc} (h : s ∈ Fn.steps ws M d fn)
    (hl : l ∈ s.writes) : fn.dim M d ≠ none := by
  intro hf
  simp only [Fn.steps, hf, List.mem_singleton] at h
  subst h
  simp [Step.writes] at hl

theorem some_writes {ws : Nat → Nat} {M d : Nat} {fn : Fn} (h : fn.dim M d ≠ none) :
    ∃ s ∈ Fn.steps ws M d fn, Loc.fdim ∈ s.writes := by
  obtain ⟨n, hn⟩ := Option.ne_none_iff_exists'.mp h
  exact ⟨.setFdim n, by simp [Fn.steps, hn], by simp [Step.writes]⟩

theorem some_reads (ws : Nat → Nat) (M d : Nat) (fn : Fn) : ∃ s ∈ Fn.steps ws M d fn, Loc.fdim ∈ s.reads := by
  cases h : fn.dim M d with
  | none => exact ⟨.copyQuad false, by simp [Fn.steps, h], by simp [Step.reads]⟩
  | some n => exact ⟨.copyQuad true, by simp [Fn.steps, h], by simp [Step.reads]⟩

/-- C92 (conflicts). Two programs run at the same time without conflicting accesses exactly if one of them makes no call or
neither integrates. So a call that integrates, at the same time as any other call, is a data race. -/
theorem C92_conflict (ws : Nat → Nat) (M d : Nat) (p p' : List Fn) :
    ¬ Conflict ws M d p p' ↔
      p = [] ∨ p' = [] ∨ ((∀ fn ∈ p, fn.dim M d = none) ∧ ∀ fn ∈ p', fn.dim M d = none) := by
  constructor
  · intro h
    by_contra hc
    push Not at hc
    obtain ⟨h1, h2, h3⟩ := hc
    apply h
    by_cases hp : ∀ fn ∈ p, fn.dim M d = none
    · obtain ⟨fn, hfn, hd⟩ := h3 hp
      obtain ⟨s', m', w'⟩ := some_writes (ws := ws) hd
      obtain ⟨g, hg⟩ := List.exists_mem_of_ne_nil _ h1
      obtain ⟨s, m, r⟩ := some_reads ws M d g
      exact ⟨s, List.mem_flatMap.mpr ⟨g, hg, m⟩, s', List.mem_flatMap.mpr ⟨fn, hfn, m'⟩, .fdim, .inr ⟨w', r⟩⟩
    · push Not at hp
      obtain ⟨fn, hfn, hd⟩ := hp
      obtain ⟨s, m, w⟩ := some_writes (ws := ws) hd
      obtain ⟨g, hg⟩ := List.exists_mem_of_ne_nil _ h2
      obtain ⟨s', m', r⟩ := some_reads ws M d g
      exact ⟨s, List.mem_flatMap.mpr ⟨fn, hfn, m⟩, s', List.mem_flatMap.mpr ⟨g, hg, m'⟩, .fdim, .inl ⟨w, .inr r⟩⟩
  · rintro (rfl | rfl | ⟨h1, h2⟩) ⟨s, m, s', m', l, h⟩
    · simp at m
    · simp at m'
    · obtain ⟨fn, hfn, m⟩ := List.mem_flatMap.mp m
      obtain ⟨fn', hfn', m'⟩ := List.mem_flatMap.mp m'
      rcases h with ⟨w, -⟩ | ⟨w, -⟩
      · exact mem_steps_writes m w (h1 fn hfn)
      · exact mem_steps_writes m' w (h2 fn' hfn')

/-! ### What a kernel does with what it was started with -/

/-- The rule on `[0,1]` for output `j`. -/
noncomputable def rule01 (pts wts : Mem) (f : Integrand) (m j : Nat) : ℝ :=
  ((List.range m).map fun i => wts.val i / 2 * f ((1 + pts.val i) / 2) j).sum

theorem kernelCC_ok (pts wts : Mem) (hs : wts.size = pts.size) (f : Integrand) (n c w : Nat) (hc : c ≤ n) (hw : n ≤ w)
    (junkW junkR : Nat → ℝ) :
    kernelCC pts wts f n (c, w) junkW junkR
      = .ok ((List.range n).map fun j => if j < c then rule01 pts wts f pts.size j else junkR j) := by
  unfold kernelCC
  obtain ⟨r1, e1, s1, v1, k1⟩ := zeroFill_ok c ⟨n, junkR⟩ hc
  obtain ⟨st, e2, h1, h2, h3, h4⟩ := forLoop_inv (body := fun i (st : Mem × Mem) => do
      let p ← pts.read i
      let ws ← f.call n (0.5 * (1 + p)) st.1 0
      let res ← forLoop (fun j res => do
        let r ← res.read j
        let w ← wts.read i
        let v ← ws.read j
        res.write j (r + 0.5 * w * v)) 0 c st.2
      return (ws, res)) (fun k st => st.1.size = w ∧ st.2.size = n ∧
        (∀ j < c, st.2.val j = rule01 pts wts f k j) ∧ ∀ j, c ≤ j → st.2.val j = junkR j) 0 pts.size (⟨w, junkW⟩, r1)
      ⟨rfl, s1, fun j hj => by rw [v1 j hj]; simp [rule01], k1⟩
      (fun k st _ hk ⟨a1, a2, a3, a4⟩ => by
        rw [Nat.zero_add] at hk
        obtain ⟨w1, b1, b2, b3, b4⟩ := f.call_ok n (0.5 * (1 + pts.val k)) st.1 0 (by omega)
        obtain ⟨r2, c1, c2, c3, c4⟩ := forLoop_pointwise (body := fun j (res : Mem) => do
          let r ← res.read j
          let w ← wts.read k
          let v ← w1.read j
          res.write j (r + 0.5 * w * v))
          (fun j r => r + 0.5 * wts.val k * w1.val j) 0 0 c st.2 (by omega) (fun l m' _ hl hm hv => by
            rw [Nat.zero_add] at hv ⊢
            rw [Mem.read_ok (by omega), Res.bind_ok, Mem.read_ok (by omega), Res.bind_ok, Mem.read_ok (by omega),
              Res.bind_ok, Mem.write_ok (by omega), hv])
        refine ⟨(w1, r2), ?_, b2.trans a1, c2.trans a2, fun j hj => ?_, fun j hj => ?_⟩
        · rw [Mem.read_ok hk, Res.bind_ok, b1, Res.bind_ok, c1, Res.bind_ok, Res.pure_eq]
        · have := c3 j (by omega) (by omega)
          rw [Nat.zero_add, a3 j hj] at this
          have hb := b3 j (by omega)
          rw [Nat.zero_add] at hb
          simp only
          rw [this, hb, rule01, rule01, List.range_succ, List.map_append, List.sum_append, List.map_singleton,
            List.sum_singleton, show (1 + pts.val k) / 2 = 0.5 * (1 + pts.val k) by ring]
          ring
        · simp only; rw [c4 j (by omega), a4 j hj])
  rw [e1, Res.bind_ok, e2, Res.bind_ok, Res.pure_eq]
  congr 1
  refine List.map_congr_left fun j hj => ?_
  rw [Nat.zero_add] at h3
  split
  · next h => exact h3 j h
  · next h => exact h4 j (by omega)

/-- A loop of writes that leaves the memory. -/
theorem forLoop_write_ub (v : Nat → ℝ) (i n : Nat) (m : Mem) (h : m.size < i + n) (hi : i ≤ m.size) :
    forLoop (fun j (m : Mem) => m.write j (v j)) i n m = .ub := by
  induction n generalizing i m with
  | zero => omega
  | succ n ih =>
    rw [forLoop]
    by_cases hlt : i < m.size
    · rw [Mem.write_ok hlt, Res.bind_ok]
      exact ih (i + 1) _ (by simp only; omega) (by simp only; omega)
    · simp [Mem.write, hlt]

/-- C92 (kernel). With the dimension and the workspace of its own function, the kernel computes the rule for every output,
whatever the scratch memory contained. -/
theorem C92_kernel (pts wts : Mem) (hs : wts.size = pts.size) (f : Integrand) (n : Nat) (junkW junkR : Nat → ℝ) :
    kernelCC pts wts f n (n, n) junkW junkR
      = .ok ((List.range n).map fun j => ((List.range pts.size).map fun i => wts.val i / 2 * f ((1 + pts.val i) / 2) j).sum) := by
  rw [kernelCC_ok pts wts hs f n n n le_rfl le_rfl]
  congr 1
  refine List.map_congr_left fun j hj => ?_
  rw [if_pos (by simpa using hj), rule01]

/-- A kernel started with a larger dimension than that of its function writes past the end of its results. -/
theorem kernelCC_large (pts wts : Mem) (f : Integrand) (n c w : Nat) (hc : n < c) (junkW junkR : Nat → ℝ) :
    kernelCC pts wts f n (c, w) junkW junkR = .ub := by
  unfold kernelCC zeroFill
  rw [forLoop_write_ub (fun _ => 0) 0 c _ (by simpa using hc) (by simp)]
  rfl

/-- A kernel started with a workspace that is too small writes past its end. -/
theorem kernelCC_small (pts wts : Mem) (f : Integrand) (n c w : Nat) (hc : c ≤ n) (hw : w < n) (hp : 0 < pts.size)
    (junkW junkR : Nat → ℝ) : kernelCC pts wts f n (c, w) junkW junkR = .ub := by
  unfold kernelCC
  obtain ⟨r1, e1, s1, v1, k1⟩ := zeroFill_ok c ⟨n, junkR⟩ hc
  obtain ⟨m, hm⟩ : ∃ m, pts.size = m + 1 := ⟨pts.size - 1, by omega⟩
  rw [e1, Res.bind_ok, hm, forLoop, Mem.read_ok hp, Res.bind_ok]
  have : Integrand.call f n (0.5 * (1 + pts.val 0)) ⟨w, junkW⟩ 0 = .ub := by
    unfold Integrand.call
    simp only [Nat.zero_add]
    exact forLoop_write_ub (fun i => f (0.5 * (1 + pts.val 0)) i) 0 n _ (by simpa using hw) (by simp)
  simp only [this]
  rfl

/-! ### What fails -/

/-- C92 fails, for every two functions with different numbers of outputs `n < m`, if one thread calls the first while another calls
the second: there is a schedule under which the first one writes past the end of its results (and is undefined), one under which
the second one writes past the end of its workspace, and one under which the second returns, as its outputs from `n` on,
whatever the memory happened to contain. -/
theorem C92_fails_mixed (M d n m : Nat) (a b : Fn) (ha : a.dim M d = some n) (hb : b.dim M d = some m) (hnm : n < m)
    (q : Quad) (pts wts : Mem) (hp : 0 < pts.size) (hs : wts.size = pts.size) (f : Integrand) (junkW junkR : Nat → ℝ) :
    let start := State.start (fun n => n) M d q fun i => if i = 0 then [a] else if i = 1 then [b] else []
    (∃ schedule k, ((start.run schedule).threads 0).todo = [] ∧ ((start.run schedule).threads 1).todo = [] ∧
      ((start.run schedule).threads 0).launched = [some k] ∧ kernelCC pts wts f n k junkW junkR = .ub) ∧
    (∃ schedule k, ((start.run schedule).threads 0).todo = [] ∧ ((start.run schedule).threads 1).todo = [] ∧
      ((start.run schedule).threads 1).launched = [some k] ∧ kernelCC pts wts f m k junkW junkR = .ub) ∧
    (∃ schedule k, ((start.run schedule).threads 0).todo = [] ∧ ((start.run schedule).threads 1).todo = [] ∧
      ((start.run schedule).threads 1).launched = [some k] ∧
      ∃ out, kernelCC pts wts f m k junkW junkR = .ok out ∧ out.length = m ∧ ∀ j, n ≤ j → j < m → out[j]? = some (junkR j)) := by
  refine ⟨⟨[0, 0, 0, 1, 1, 1, 0, 1], (m, n), ?_, ?_, ?_, kernelCC_large pts wts f n m n hnm _ _⟩,
    ⟨[1, 1, 0, 0, 1, 1, 0, 0], (n, n), ?_, ?_, ?_, kernelCC_small pts wts f m n n hnm.le hnm hp _ _⟩,
    ⟨[1, 1, 1, 0, 0, 1, 0, 0], (n, m), ?_, ?_, ?_, _, kernelCC_ok pts wts hs f m n m hnm.le le_rfl _ _, by simp, fun j h1 h2 => ?_⟩⟩
  any_goals simp [State.run, State.step, State.start, Thread.step, Fn.steps, ha, hb]
  simp [h2, Nat.not_lt.mpr h1]

/-- C92 fails for one and the same function: two threads that call `LogDeterminantCoeffGrad` of a component with discrete
derivatives and at least two coefficients can make each other undefined. -/
theorem C92_fails_same (M d : Nat) (hM : 2 ≤ M) (q : Quad) (pts wts : Mem) (f : Integrand) (junkW junkR : Nat → ℝ) :
    let start := State.start (fun n => n) M d q fun i => if i < 2 then Api.logDeterminantCoeffGrad.kernels false else []
    ∃ schedule k1 k2, ((start.run schedule).threads 0).todo = [] ∧ ((start.run schedule).threads 1).todo = [] ∧
      ((start.run schedule).threads 0).launched = [some k1, some k2, none] ∧ k1 = (M + 1, M + 1) ∧
      kernelCC pts wts f 2 k2 junkW junkR = .ub := by
  refine ⟨[0, 0, 0, 0, 0, 0, 0, 1, 1, 1, 0, 0, 1, 1, 1, 1, 1, 1], (M + 1, M + 1), (M + 1, 2), ?_, ?_, ?_, rfl,
    kernelCC_large pts wts f 2 (M + 1) 2 (by omega) _ _⟩
  all_goals simp [State.run, State.step, State.start, Thread.step, Fn.steps, Api.kernels, Fn.dim]

/-- The hypotheses of `C92_sameDim_partial` hold for two threads that evaluate, invert and, with continuous derivatives, compute
log-determinants and their gradients, on a component of any size. -/
example (M d : Nat) (i : Nat) : ∀ fn ∈ (fun i : Nat => if i = 0 then Api.evaluate.kernels true ++ Api.logDeterminant.kernels true
    else if i = 1 then Api.inverse.kernels true ++ Api.logDeterminantCoeffGrad.kernels true else []) i,
    fn.dim M d = none ∨ fn.dim M d = some 1 := by
  intro fn
  by_cases h0 : i = 0 <;> by_cases h1 : i = 1 <;> simp [h0, h1, Api.kernels] <;> rintro (rfl | rfl | rfl | rfl) <;> simp [Fn.dim]

/-- An evaluation and a Jacobian, two coefficients and one input: under the schedule of `C92_fails_mixed` the evaluation starts
with three outputs instead of one. -/
example : (((State.start (fun n => n) 2 1 ⟨0, 0⟩ fun i => if i = 0 then [.evaluate] else if i = 1 then [.coeffJacobian] else []).run
    [0, 0, 0, 1, 1, 1, 0, 1]).threads 0).launched = [some (3, 1)] := by decide

end MParT.Shared
