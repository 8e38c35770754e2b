import Verif.Spec.QuadObjects
import Verif.Props.Adaptive
/-!
# C86: quadrature objects
-/
namespace MParT.Quad
open Spec AdaptiveClenshawCurtis

/-! ### The invariant -/

/-- Rules that the constructors build from sensible arguments. -/
def Rule.Good : Rule → Prop
  | .clenshawCurtis pts wts => wts.size = pts.size ∧ 1 ≤ pts.size
  | .simpson q => q.minSub < q.maxSub ∧ q.maxSub ≤ 32
  | .adaptiveCC q r => q.minSub < q.maxSub ∧ q.maxSub ≤ 32 ∧ ∃ l, 1 ≤ l ∧ AdaptiveClenshawCurtis.new l = .ok r

theorem Rule.workspaceSize_mono (r : Rule) {m n : Nat} (h : m ≤ n) : r.workspaceSize m ≤ r.workspaceSize n := by
  cases r with
  | clenshawCurtis => exact h
  | simpson q => exact Nat.add_le_add_right (Nat.mul_le_mul_left _ h) _
  | adaptiveCC q r => exact Nat.add_le_add_right (Nat.mul_le_mul_left _ h) _

theorem Rule.Good.workspaceSize_pos {r : Rule} (hr : r.Good) {n : Nat} (h : 1 ≤ n) : 0 < r.workspaceSize n := by
  cases r with
  | clenshawCurtis => exact h
  | simpson q =>
    have := hr.1
    simp only [workspaceSize, AdaptiveSimpson.workspaceSize]; omega
  | adaptiveCC q r =>
    have := hr.1
    simp only [workspaceSize, AdaptiveClenshawCurtis.workspaceSize]; omega

theorem RuleArgs.build_ok (a : RuleArgs) (h : a.Sensible) : ∃ r, a.build = .ok r ∧ r.Good := by
  cases a with
  | clenshawCurtis n =>
    obtain ⟨w, p, e, h1, h2⟩ : ∃ w p, ClenshawCurtis.getRule n (view n) (view n) = .ok (w, p) ∧ w.size = n ∧ p.size = n := by
      have hn : 1 ≤ n := h
      rcases Nat.eq_or_lt_of_le hn with rfl | hn
      · refine ⟨⟨1, Function.update (fun _ => 0) 0 2⟩, ⟨1, Function.update (fun _ => 0) 0 0⟩, ?_, rfl, rfl⟩
        simp [ClenshawCurtis.getRule, view, Mem.write]
      · obtain ⟨N, rfl⟩ : ∃ N, n = N + 1 := ⟨n - 1, by omega⟩
        obtain ⟨p, ep, p1, -⟩ := ClenshawCurtis.points_eq N (by omega) (view (N + 1)) le_rfl
        obtain ⟨w, ew, w1, -⟩ := ClenshawCurtis.weights_eq N (by omega) (view (N + 1)) le_rfl
        refine ⟨w, p, ?_, w1, p1⟩
        simp only [ClenshawCurtis.getRule]
        rw [if_neg (by omega), if_neg (by omega), ep, Res.bind_ok, ew, Res.bind_ok, Res.pure_eq]
    exact ⟨.clenshawCurtis p w, by rw [build, e]; rfl, by omega, by rw [h2]; exact h⟩
  | simpson q => exact ⟨_, rfl, h⟩
  | adaptiveCC l q =>
    obtain ⟨r, e, -⟩ := (C34_rules l).1 h.1
    exact ⟨.adaptiveCC q r, by rw [build, e]; rfl, h.2.1, h.2.2, l, h.1, e⟩

/-- An object is as its author knows it. -/
structure Knows (bufs : List (Bool × Mem)) (o : QObj) (u : QuadUse) : Prop where
  rule : o.rule = u.rule
  good : u.rule.Good
  dim : o.fdim = u.dim
  dim_pos : 1 ≤ u.dim
  maxDim : o.maxDim = u.maxDim
  max_pos : 1 ≤ u.maxDim
  size : o.workspaceSize = u.rule.workspaceSize u.dim
  internal : u.limited = true → u.dim ≤ u.maxDim ∧
    ∃ b m, o.internal = some b ∧ bufs[b]? = some (true, m) ∧ m.size = u.rule.workspaceSize u.maxDim
  external : u.limited = false → o.internal = none
  work : match u.work with
    | .own => u.limited = true ∧ o.workspace = o.internal
    | .user b => o.workspace = some b ∧ ∃ m, bufs[b]? = some (false, m)
    | .null => o.workspace = none

/-- `bufs'` has the memory of `bufs`, perhaps with other contents, and perhaps more. -/
def Keeps (bufs bufs' : List (Bool × Mem)) : Prop :=
  ∀ (b : Nat) (k : Bool) (m : Mem), bufs[b]? = some (k, m) → ∃ m', bufs'[b]? = some (k, m') ∧ m'.size = m.size

theorem Keeps.refl (bufs : List (Bool × Mem)) : Keeps bufs bufs := fun _ _ m h => ⟨m, h, rfl⟩

theorem Keeps.append (bufs l : List (Bool × Mem)) : Keeps bufs (bufs ++ l) := fun b k m h => by
  obtain ⟨hb, -⟩ := List.getElem?_eq_some_iff.mp h
  exact ⟨m, by rw [List.getElem?_append_left hb, h], rfl⟩

theorem Keeps.set {bufs : List (Bool × Mem)} {b : Nat} {k : Bool} {m m' : Mem} (h : bufs[b]? = some (k, m))
    (hs : m'.size = m.size) : Keeps bufs (bufs.set b (k, m')) := fun b' k' n hb' => by
  by_cases e : b = b'
  · subst e
    rw [h] at hb'
    obtain ⟨rfl, rfl⟩ := Prod.mk.inj (Option.some.inj hb')
    obtain ⟨hb, -⟩ := List.getElem?_eq_some_iff.mp h
    exact ⟨m', by simp [hb], hs⟩
  · exact ⟨n, by rw [List.getElem?_set_ne e, hb'], rfl⟩

theorem Knows.keeps {bufs bufs' : List (Bool × Mem)} {o : QObj} {u : QuadUse} (h : Knows bufs o u) (k : Keeps bufs bufs') :
    Knows bufs' o u := by
  refine ⟨h.rule, h.good, h.dim, h.dim_pos, h.maxDim, h.max_pos, h.size, fun hl => ?_, h.external, ?_⟩
  · obtain ⟨h1, b, m, h2, h3, h4⟩ := h.internal hl
    obtain ⟨m', h5, h6⟩ := k b _ m h3
    exact ⟨h1, b, m', h2, h5, h6.trans h4⟩
  · have := h.work
    cases hw : u.work with
    | own => rw [hw] at this; exact this
    | user b =>
      rw [hw] at this
      obtain ⟨h1, m, h2⟩ := this
      obtain ⟨m', h3, -⟩ := k b _ m h2
      exact ⟨h1, m', h3⟩
    | null => rw [hw] at this; exact this

/-- All objects are as the author knows them. -/
structure Inv (h : Heap) (us : List (Option QuadUse)) : Prop where
  len : h.objs.length = us.length
  knows : ∀ (i : Nat) (u : QuadUse), us[i]? = some (some u) → ∃ o, h.objs[i]? = some (some o) ∧ Knows h.bufs o u

namespace Inv
variable {h : Heap} {us : List (Option QuadUse)}

theorem obj (H : Inv h us) {i : Nat} {u : QuadUse} (hu : us[i]? = some (some u)) :
    ∃ o, h.obj i = .ok o ∧ h.objs[i]? = some (some o) ∧ Knows h.bufs o u := by
  obtain ⟨o, h1, h2⟩ := H.knows i u hu
  exact ⟨o, by rw [Heap.obj, h1], h1, h2⟩

/-- Other contents and more memory. -/
theorem keeps (H : Inv h us) {bufs' : List (Bool × Mem)} (k : Keeps h.bufs bufs') : Inv { h with bufs := bufs' } us :=
  ⟨H.len, fun i u hu => by
    obtain ⟨o, h1, h2⟩ := H.knows i u hu
    exact ⟨o, h1, h2.keeps k⟩⟩

/-- One more object. -/
theorem push (H : Inv h us) {bufs' : List (Bool × Mem)} (k : Keeps h.bufs bufs') {o : QObj} {u : QuadUse}
    (ho : Knows bufs' o u) : Inv ⟨h.objs ++ [some o], bufs'⟩ (us ++ [some u]) := by
  refine ⟨by simp [H.len], fun i v hv => ?_⟩
  rcases Nat.lt_trichotomy i us.length with hi | hi | hi
  · rw [List.getElem?_append_left hi] at hv
    obtain ⟨o', h1, h2⟩ := H.knows i v hv
    exact ⟨o', by rw [List.getElem?_append_left (by rw [H.len]; exact hi), h1], h2.keeps k⟩
  · subst hi
    rw [List.getElem?_concat_length] at hv
    obtain rfl := Option.some.inj (Option.some.inj hv)
    exact ⟨o, by simp only; rw [← H.len, List.getElem?_concat_length], ho⟩
  · rw [List.getElem?_eq_none (by simpa using hi)] at hv
    cases hv

/-- One object changes. -/
theorem set (H : Inv h us) {bufs' : List (Bool × Mem)} (k : Keeps h.bufs bufs') (i : Nat) {o : Option QObj}
    {u : Option QuadUse} (ho : ∀ v, u = some v → ∃ o', o = some o' ∧ Knows bufs' o' v) :
    Inv ⟨h.objs.set i o, bufs'⟩ (us.set i u) := by
  refine ⟨by simp [H.len], fun j v hv => ?_⟩
  by_cases e : i = j
  · subst e
    by_cases hi : i < us.length
    · rw [List.getElem?_set_self hi] at hv
      obtain ⟨o', h1, h2⟩ := ho v (Option.some.inj hv)
      exact ⟨o', by rw [List.getElem?_set_self (by rw [H.len]; exact hi), h1], h2⟩
    · rw [List.getElem?_eq_none (by simpa using hi)] at hv
      cases hv
  · rw [List.getElem?_set_ne e] at hv
    obtain ⟨o', h1, h2⟩ := H.knows j v hv
    exact ⟨o', by rw [List.getElem?_set_ne e, h1], h2.keeps k⟩

end Inv

/-! ### One integration -/

/-- The rule on enough memory. -/
theorem runRule_ok (o : QObj) (hg : o.rule.Good) (hd : 1 ≤ o.fdim) (ws res : Mem) (f : Integrand) (lb ub : ℝ) (fuel : Nat)
    (hws : o.rule.workspaceSize o.fdim ≤ ws.size) (hres : o.fdim ≤ res.size) (hfuel : 2 ^ 32 ≤ fuel) :
    ∃ ws' res', Heap.runRule o ws f lb ub res fuel = .ok (some (ws', res')) ∧ ws'.size = ws.size ∧ res'.size = res.size ∧
      (∀ j < o.fdim, res'.val j = ruleValue o.fdim f lb ub j o.rule) ∧ ∀ j, o.fdim ≤ j → res'.val j = res.val j := by
  rw [Heap.runRule]
  cases hr : o.rule with
  | clenshawCurtis pts wts =>
    rw [hr] at hg hws
    obtain ⟨ws', res', e, s1, s2, v, k⟩ := C32_integrate pts wts hg.1 o.fdim ws res hws hres f lb ub
    exact ⟨ws', res', by simp only [e]; rfl, s1, s2, v, k⟩
  | simpson q =>
    rw [hr] at hg hws
    have := Nat.pow_le_pow_right (show 0 < 2 by omega) hg.2
    obtain ⟨ws', res', e, s1, s2, v, k⟩ := C33_value { q with fdim := o.fdim } hd hg.1 hg.2 f lb ub ws res hws hres fuel
      (this.trans hfuel)
    exact ⟨ws', res', e, s1, s2, v, k⟩
  | adaptiveCC q r =>
    rw [hr] at hg hws
    obtain ⟨h1, h2, l, hl, hn⟩ := hg
    have := Nat.pow_le_pow_right (show 0 < 2 by omega) h2
    obtain ⟨ws', res', e, s1, s2, v, k⟩ := C34_value l hl r hn { q with fdim := o.fdim } hd h1 h2 f lb ub ws res hws hres fuel
      (this.trans hfuel)
    obtain ⟨r', hn', c1, -, c2, -⟩ := (C34_rules l).1 hl
    obtain rfl := Res.ok.inj (hn.symm.trans hn')
    refine ⟨ws', res', e, s1, s2, fun j hj => ?_, k⟩
    rw [v j hj, ruleValue, c1, c2]
    rfl

/-- `Integrate` in memory that lives and is large enough. -/
theorem Inv.integrateWith {h : Heap} {us : List (Option QuadUse)} (H : Inv h us) {i b : Nat} {u : QuadUse} {k : Bool} {m : Mem}
    (hu : us[i]? = some (some u)) (hb : h.bufs[b]? = some (k, m)) (hl : h.live b = true)
    (hs : u.rule.workspaceSize u.dim ≤ m.size) (f : Integrand) (lb ub : ℝ) (res : Mem) (fuel : Nat) (hres : u.dim ≤ res.size)
    (hfuel : 2 ^ 32 ≤ fuel) :
    ∃ m' res', h.integrateWith i b f lb ub res fuel = .ok (some ({ h with bufs := h.bufs.set b (k, m') }, res')) ∧
      m'.size = m.size ∧ res'.size = res.size ∧ (∀ j < u.dim, res'.val j = ruleValue u.dim f lb ub j u.rule) ∧
      ∀ j, u.dim ≤ j → res'.val j = res.val j := by
  obtain ⟨o, e, -, K⟩ := H.obj hu
  obtain ⟨ws', res', e', s1, s2, v, k'⟩ := runRule_ok o (K.rule ▸ K.good) (K.dim ▸ K.dim_pos) m res f lb ub fuel
    (by rw [K.rule, K.dim]; exact hs) (by rw [K.dim]; exact hres) hfuel
  rw [K.dim] at v k'
  rw [K.rule] at v
  refine ⟨ws', res', ?_, s1, s2, v, k'⟩
  rw [Heap.integrateWith, e, Res.bind_ok, if_pos hl, Res.idx_some hb, Res.bind_ok]
  simp only
  rw [e', Res.bind_ok]
  rfl

/-- Where an object of the author can integrate. -/
theorem Inv.workspace {h : Heap} {us : List (Option QuadUse)} (H : Inv h us) {i : Nat} {u : QuadUse}
    (hu : us[i]? = some (some u)) (hE : Enough h u) :
    (u.work = .null ∧ ∀ f lb ub res fuel, h.integrate i f lb ub res fuel = .throw) ∨
    (u.work ≠ .null ∧ ∃ b k m, h.bufs[b]? = some (k, m) ∧ h.live b = true ∧ u.rule.workspaceSize u.dim ≤ m.size ∧
      ∀ f lb ub res fuel, h.integrate i f lb ub res fuel = h.integrateWith i b f lb ub res fuel) := by
  obtain ⟨o, e, e', K⟩ := H.obj hu
  have w := K.work
  have int : ∀ f lb ub res fuel, h.integrate i f lb ub res fuel =
      (match o.workspace with
        | some b => h.integrateWith i b f lb ub res fuel
        | none => Res.throw) := fun f lb ub res fuel => by
    rw [Heap.integrate, e, Res.bind_ok]; rfl
  cases hw : u.work with
  | null =>
    rw [hw] at w
    exact Or.inl ⟨rfl, fun f lb ub res fuel => by rw [int, w]⟩
  | user b =>
    rw [hw] at w
    obtain ⟨w, m, hm⟩ := w
    exact Or.inr ⟨nofun, b, false, m, hm, by simp [Heap.live, hm], hE b m hw hm, fun f lb ub res fuel => by rw [int, w]⟩
  | own =>
    rw [hw] at w
    obtain ⟨hl, w⟩ := w
    obtain ⟨hd, b, m, hb, hm, hs⟩ := K.internal hl
    refine Or.inr ⟨nofun, b, true, m, hm, ?_, by rw [hs]; exact u.rule.workspaceSize_mono hd, fun f lb ub res fuel => by
      rw [int, w, hb]⟩
    simp only [Heap.live, hm, Bool.not_true, Bool.false_or, List.any_eq_true]
    exact ⟨some o, List.mem_of_getElem? e', by simp [hb]⟩

theorem Knows.extent {h : Heap} {o : QObj} {u : QuadUse} (K : Knows h.bufs o u) :
    h.extent o = if u.limited then u.rule.workspaceSize u.maxDim else 0 := by
  cases hl : u.limited with
  | false => simp [Heap.extent, K.external hl]
  | true =>
    obtain ⟨-, b, m, hb, hm, hs⟩ := K.internal hl
    simp [Heap.extent, hb, hm, hs]

/-- `SetDim`. -/
theorem Inv.setDim {h : Heap} {us : List (Option QuadUse)} (H : Inv h us) {i : Nat} {u : QuadUse}
    (hu : us[i]? = some (some u)) {n : Nat} (hn : 1 ≤ n) :
    (u.limited = true ∧ u.maxDim < n ∧ h.setDim i n = .throw) ∨
    (¬ (u.limited = true ∧ u.maxDim < n) ∧
      ∃ h', h.setDim i n = .ok h' ∧ Inv h' (us.set i (some { u with dim := n })) ∧ h'.bufs = h.bufs) := by
  obtain ⟨o, e, e', K⟩ := H.obj hu
  have hx := K.extent
  have hp := K.good.workspaceSize_pos K.max_pos
  rw [Heap.setDim, e, Res.bind_ok]
  by_cases c : u.limited = true ∧ u.maxDim < n
  · refine Or.inl ⟨c.1, c.2, ?_⟩
    rw [c.1, if_pos rfl] at hx
    rw [if_pos ⟨by rw [hx]; exact hp, by rw [K.maxDim]; omega⟩]
  · have hle : u.limited = true → n ≤ u.maxDim := fun hl => by
      by_contra hc
      exact c ⟨hl, by omega⟩
    refine Or.inr ⟨c, _, ?_, H.set (Keeps.refl _) i (o := some { o with fdim := n, workspaceSize := o.rule.workspaceSize n })
      (fun v hv => ⟨_, rfl, ?_⟩), rfl⟩
    · rw [if_neg]
      · simp only
        rw [if_neg]
        · rfl
        · rintro ⟨-, hc⟩
          refine hc ?_
          cases hl : u.limited with
          | false => left; rw [hx, hl]; rfl
          | true =>
            right
            rw [hx, hl, if_pos rfl, K.rule]
            exact u.rule.workspaceSize_mono (hle hl)
      · rintro ⟨h0, h1⟩
        cases hl : u.limited with
        | false => rw [hx, hl] at h0; simp at h0
        | true => rw [K.maxDim] at h1; exact h1 (hle hl)
    · obtain rfl := Option.some.inj hv
      exact ⟨K.rule, K.good, rfl, hn, K.maxDim, K.max_pos, by simp only; rw [K.rule],
        fun hl => ⟨hle hl, (K.internal hl).2⟩, K.external, K.work⟩

/-- Loading the archive of an object with memory of its own. -/
theorem Inv.loadOwn {h : Heap} {us : List (Option QuadUse)} (H : Inv h us) {i j : Nat} {u v : QuadUse}
    (hu : us[i]? = some (some u)) (hv : us[j]? = some (some v)) (hl : v.limited = true) :
    ∃ h', h.load i j = .ok h' ∧ Inv h' (us.set i (some { v with work := .own })) := by
  obtain ⟨o, e, -, K⟩ := H.obj hu
  obtain ⟨o', e', -, K'⟩ := H.obj hv
  obtain ⟨hd, b, m, hb, hm, hs⟩ := K'.internal hl
  have hp := K'.good.workspaceSize_pos K'.max_pos
  have h0 : m.size ≠ 0 := by omega
  have hle : o'.workspaceSize ≤ m.size := by rw [K'.size, hs]; exact v.rule.workspaceSize_mono hd
  refine ⟨_, by rw [Heap.load, e, Res.bind_ok, e', Res.bind_ok]; simp only [hb, hm, if_neg h0, if_pos hle]; rfl, ?_⟩
  refine H.set (Keeps.append _ _) i fun w hw => ⟨_, rfl, ?_⟩
  obtain rfl := Option.some.inj hw
  exact ⟨K'.rule, K'.good, K'.dim, K'.dim_pos, K'.maxDim, K'.max_pos, K'.size,
    fun _ => ⟨hd, h.bufs.length, m, rfl, by rw [List.getElem?_concat_length], hs⟩,
    fun hf => by simp [hl] at hf, hl, rfl⟩

/-- Loading the archive of another object. -/
theorem Inv.loadOther {h : Heap} {us : List (Option QuadUse)} (H : Inv h us) {i j : Nat} {u v : QuadUse}
    (hu : us[i]? = some (some u)) (hv : us[j]? = some (some v)) (hl : v.limited = false) (hw : u.work ≠ .own) :
    ∃ h', h.load i j = .ok h' ∧ Inv h' (us.set i (some { v with work := u.work })) := by
  obtain ⟨o, e, -, K⟩ := H.obj hu
  obtain ⟨o', e', -, K'⟩ := H.obj hv
  have hb := K'.external hl
  have hp := K'.good.workspaceSize_pos K'.dim_pos
  have hle : ¬ o'.workspaceSize ≤ (view 0).size := by rw [K'.size]; simp only [view]; omega
  refine ⟨_, by rw [Heap.load, e, Res.bind_ok, e', Res.bind_ok]; simp only [hb, if_neg hle]; rfl, ?_⟩
  refine H.set (Keeps.append _ _) i fun w hw' => ⟨_, rfl, ?_⟩
  obtain rfl := Option.some.inj hw'
  refine ⟨K'.rule, K'.good, K'.dim, K'.dim_pos, K'.maxDim, K'.max_pos, K'.size, fun hf => by simp [hl] at hf,
    fun _ => by simp [view], ?_⟩
  have k := K.work
  cases hc : u.work with
  | own => exact absurd hc hw
  | user b =>
    rw [hc] at k
    obtain ⟨k1, m, k2⟩ := k
    obtain ⟨m', k3, -⟩ := Keeps.append h.bufs [(true, view 0)] b _ m k2
    exact ⟨k1, m', k3⟩
  | null => rw [hc] at k; exact k

/-- Objects are as their author knows them. -/
theorem Inv.ofUses {h : Heap} {us : List (Option QuadUse)} (H : Uses h us) : Inv h us := by
  induction H with
  | start => exact ⟨rfl, fun i u hu => by simp at hu⟩
  | alloc m _ ih => exact ih.keeps (Keeps.append _ _)
  | newInternal a rule d _ ha hb hd e ih =>
    obtain ⟨r, hb', hg⟩ := a.build_ok ha
    obtain rfl := Res.ok.inj (hb.symm.trans hb')
    have hp := hg.workspaceSize_pos hd
    rw [Heap.newInternal, hb, Res.bind_ok, Res.pure_eq] at e
    simp only [if_neg hp.ne'] at e
    obtain rfl := Res.ok.inj e
    refine ih.push (Keeps.append _ _) ⟨rfl, hg, rfl, hd, rfl, hd, rfl,
      fun _ => ⟨le_rfl, _, view (rule.workspaceSize d), rfl, ?_, rfl⟩, nofun, rfl, rfl⟩
    rw [List.getElem?_concat_length]
  | newNull a rule d _ ha hb hd e ih =>
    obtain ⟨r, hb', hg⟩ := a.build_ok ha
    obtain rfl := Res.ok.inj (hb.symm.trans hb')
    rw [Heap.newExternal, hb, Res.bind_ok, Res.pure_eq] at e
    obtain rfl := Res.ok.inj e
    exact ih.push (Keeps.refl _) ⟨rfl, hg, rfl, hd, rfl, hd, rfl, nofun, fun _ => rfl, rfl⟩
  | newUser a rule d b m _ ha hb hd hm e ih =>
    obtain ⟨r, hb', hg⟩ := a.build_ok ha
    obtain rfl := Res.ok.inj (hb.symm.trans hb')
    rw [Heap.newExternal, hb, Res.bind_ok, Res.pure_eq] at e
    obtain rfl := Res.ok.inj e
    exact ih.push (Keeps.refl _) ⟨rfl, hg, rfl, hd, rfl, hd, rfl, nofun, fun _ => rfl, rfl, m, hm⟩
  | copy i u _ hu e ih =>
    obtain ⟨o, e', -, K⟩ := ih.obj hu
    rw [Heap.copy, e', Res.bind_ok, Res.pure_eq] at e
    obtain rfl := Res.ok.inj e
    exact ih.push (Keeps.refl _) K
  | assign i j u v _ hu hv e ih =>
    obtain ⟨o, e1, -, -⟩ := ih.obj hu
    obtain ⟨o', e2, -, K⟩ := ih.obj hv
    rw [Heap.assign, e1, Res.bind_ok, e2, Res.bind_ok, Res.pure_eq] at e
    obtain rfl := Res.ok.inj e
    exact ih.set (Keeps.refl _) i fun w hw => ⟨_, rfl, by obtain rfl := Option.some.inj hw; exact K⟩
  | destroy i u _ hu e ih =>
    obtain ⟨o, e1, -, -⟩ := ih.obj hu
    rw [Heap.destroy, e1, Res.bind_ok, Res.pure_eq] at e
    obtain rfl := Res.ok.inj e
    exact ih.set (Keeps.refl _) i nofun
  | setDim i n u _ hu hn e ih =>
    rcases ih.setDim hu hn with ⟨-, -, e'⟩ | ⟨-, h', e', H', -⟩
    · rw [e] at e'; cases e'
    · rw [e] at e'; obtain rfl := Res.ok.inj e'; exact H'
  | setWorkspace i b m u _ hu hm e ih =>
    obtain ⟨o, e1, -, K⟩ := ih.obj hu
    rw [Heap.setWorkspace, e1, Res.bind_ok, Res.pure_eq] at e
    obtain rfl := Res.ok.inj e
    refine ih.set (Keeps.refl _) i fun w hw => ⟨_, rfl, ?_⟩
    obtain rfl := Option.some.inj hw
    exact ⟨K.rule, K.good, K.dim, K.dim_pos, K.maxDim, K.max_pos, K.size, K.internal, K.external, rfl, m, hm⟩
  | clearWorkspace i u _ hu e ih =>
    obtain ⟨o, e1, -, K⟩ := ih.obj hu
    rw [Heap.setWorkspace, e1, Res.bind_ok, Res.pure_eq] at e
    obtain rfl := Res.ok.inj e
    refine ih.set (Keeps.refl _) i fun w hw => ⟨_, rfl, ?_⟩
    obtain rfl := Option.some.inj hw
    exact ⟨K.rule, K.good, K.dim, K.dim_pos, K.maxDim, K.max_pos, K.size, K.internal, K.external, rfl⟩
  | loadOwn i j u v _ hu hv hl e ih =>
    obtain ⟨h', e', H'⟩ := ih.loadOwn hu hv hl
    rw [e] at e'; obtain rfl := Res.ok.inj e'; exact H'
  | loadOther i j u v _ hu hv hl hw e ih =>
    obtain ⟨h', e', H'⟩ := ih.loadOther hu hv hl hw
    rw [e] at e'; obtain rfl := Res.ok.inj e'; exact H'
  | integrate i u f lb ub res res' fuel _ hu hE hres hfuel e ih =>
    rcases ih.workspace hu hE with ⟨-, e'⟩ | ⟨-, b, k, m, hm, hl, hs, e'⟩
    · rw [e'] at e; cases e
    · obtain ⟨m', r, e'', s1, -⟩ := ih.integrateWith hu hm hl hs f lb ub res fuel hres hfuel
      rw [e', e''] at e
      obtain ⟨rfl, rfl⟩ := Prod.mk.inj (Option.some.inj (Res.ok.inj e))
      exact ih.keeps (Keeps.set hm s1)
  | integrateWith i b u m f lb ub res res' fuel _ hu hm hs hres hfuel e ih =>
    obtain ⟨m', r, e'', s1, -⟩ := ih.integrateWith hu hm (by simp [Heap.live, hm]) hs f lb ub res fuel hres hfuel
    rw [e''] at e
    obtain ⟨rfl, rfl⟩ := Prod.mk.inj (Option.some.inj (Res.ok.inj e))
    exact ih.keeps (Keeps.set hm s1)

/-! ### The property -/

/-- C86, constructors: they succeed; copies, assignments and destructions of existing objects succeed. -/
theorem C86_construct {h : Heap} {us : List (Option QuadUse)} (H : Uses h us) :
    (∀ (a : RuleArgs) (d : Nat), a.Sensible → 1 ≤ d → ∃ rule, a.build = .ok rule ∧
      (∃ h', h.newInternal a d = .ok h' ∧ Uses h' (us ++ [some ⟨rule, d, d, true, .own⟩])) ∧
      (∃ h', h.newExternal a d none = .ok h' ∧ Uses h' (us ++ [some ⟨rule, d, d, false, .null⟩])) ∧
      ∀ b m, h.bufs[b]? = some (false, m) →
        ∃ h', h.newExternal a d (some b) = .ok h' ∧ Uses h' (us ++ [some ⟨rule, d, d, false, .user b⟩])) ∧
    (∀ i u, us[i]? = some (some u) →
      (∃ h', h.copy i = .ok h' ∧ Uses h' (us ++ [some u])) ∧
      (∃ h', h.destroy i = .ok h' ∧ Uses h' (us.set i none)) ∧
      ∀ j v, us[j]? = some (some v) → ∃ h', h.assign i j = .ok h' ∧ Uses h' (us.set i (some v))) := by
  refine ⟨fun a d ha hd => ?_, fun i u hu => ?_⟩
  · obtain ⟨rule, hb, -⟩ := a.build_ok ha
    refine ⟨rule, hb, ?_, ?_, fun b m hm => ?_⟩
    · obtain ⟨h', e⟩ : ∃ h', h.newInternal a d = .ok h' := by rw [Heap.newInternal, hb, Res.bind_ok]; exact ⟨_, rfl⟩
      exact ⟨h', e, .newInternal a rule d H ha hb hd e⟩
    · obtain ⟨h', e⟩ : ∃ h', h.newExternal a d none = .ok h' := by rw [Heap.newExternal, hb, Res.bind_ok]; exact ⟨_, rfl⟩
      exact ⟨h', e, .newNull a rule d H ha hb hd e⟩
    · obtain ⟨h', e⟩ : ∃ h', h.newExternal a d (some b) = .ok h' := by rw [Heap.newExternal, hb, Res.bind_ok]; exact ⟨_, rfl⟩
      exact ⟨h', e, .newUser a rule d b m H ha hb hd hm e⟩
  · obtain ⟨o, e, -, -⟩ := (Inv.ofUses H).obj hu
    refine ⟨?_, ?_, fun j v hv => ?_⟩
    · obtain ⟨h', e'⟩ : ∃ h', h.copy i = .ok h' := by rw [Heap.copy, e, Res.bind_ok]; exact ⟨_, rfl⟩
      exact ⟨h', e', .copy i u H hu e'⟩
    · obtain ⟨h', e'⟩ : ∃ h', h.destroy i = .ok h' := by rw [Heap.destroy, e, Res.bind_ok]; exact ⟨_, rfl⟩
      exact ⟨h', e', .destroy i u H hu e'⟩
    · obtain ⟨o', e2, -, -⟩ := (Inv.ofUses H).obj hv
      obtain ⟨h', e'⟩ : ∃ h', h.assign i j = .ok h' := by
        rw [Heap.assign, e, Res.bind_ok, e2, Res.bind_ok]; exact ⟨_, rfl⟩
      exact ⟨h', e', .assign i j u v H hu hv e'⟩

/-- C86, `SetDim`: a dimension is rejected exactly if the object was constructed with memory of its own and the dimension
exceeds the maximum; otherwise it is the dimension of this object, and only of this one. -/
theorem C86_setDim {h : Heap} {us : List (Option QuadUse)} (H : Uses h us) (i : Nat) (u : QuadUse)
    (hu : us[i]? = some (some u)) (n : Nat) (hn : 1 ≤ n) :
    (u.limited = true ∧ u.maxDim < n → h.setDim i n = .throw) ∧
    (¬ (u.limited = true ∧ u.maxDim < n) →
      ∃ h', h.setDim i n = .ok h' ∧ Uses h' (us.set i (some { u with dim := n }))) := by
  rcases (Inv.ofUses H).setDim hu hn with ⟨h1, h2, h3⟩ | ⟨h1, h', h2, -⟩
  · exact ⟨fun _ => h3, fun hc => absurd ⟨h1, h2⟩ hc⟩
  · exact ⟨fun hc => absurd hc h1, fun _ => ⟨h', h2, .setDim i n u H hu hn h2⟩⟩

/-- C86, `SetWorkspace` and loading an archive succeed. -/
theorem C86_setWorkspace_load {h : Heap} {us : List (Option QuadUse)} (H : Uses h us) (i : Nat) (u : QuadUse)
    (hu : us[i]? = some (some u)) :
    (∀ b m, h.bufs[b]? = some (false, m) →
      ∃ h', h.setWorkspace i (some b) = .ok h' ∧ Uses h' (us.set i (some { u with work := .user b }))) ∧
    (∀ j v, us[j]? = some (some v) → v.limited = true →
      ∃ h', h.load i j = .ok h' ∧ Uses h' (us.set i (some { v with work := .own }))) ∧
    (∀ j v, us[j]? = some (some v) → v.limited = false → u.work ≠ .own →
      ∃ h', h.load i j = .ok h' ∧ Uses h' (us.set i (some { v with work := u.work }))) := by
  have I := Inv.ofUses H
  refine ⟨fun b m hm => ?_, fun j v hv hl => ?_, fun j v hv hl hw => ?_⟩
  · obtain ⟨o, e, -, -⟩ := I.obj hu
    obtain ⟨h', e'⟩ : ∃ h', h.setWorkspace i (some b) = .ok h' := by
      rw [Heap.setWorkspace, e, Res.bind_ok]; exact ⟨_, rfl⟩
    exact ⟨h', e', .setWorkspace i b m u H hu hm e'⟩
  · obtain ⟨h', e, -⟩ := I.loadOwn hu hv hl
    exact ⟨h', e, .loadOwn i j u v H hu hv hl e⟩
  · obtain ⟨h', e, -⟩ := I.loadOther hu hv hl hw
    exact ⟨h', e, .loadOther i j u v H hu hv hl hw e⟩

/-- C86, `Integrate(f, lb, ub, res)`, whatever was done before with this and the other objects: an object without workspace is
refused; otherwise `res` is what the rule makes of the integral for the dimension last set, and nothing else changes. -/
theorem C86_integrate_partial {h : Heap} {us : List (Option QuadUse)} (H : Uses h us) (i : Nat) (u : QuadUse)
    (hu : us[i]? = some (some u)) (hE : Enough h u) (f : Integrand) (lb ub : ℝ) (res : Mem) (hres : u.dim ≤ res.size)
    (fuel : Nat) (hfuel : 2 ^ 32 ≤ fuel) :
    (u.work = .null → h.integrate i f lb ub res fuel = .throw) ∧
    (u.work ≠ .null → ∃ h' res', h.integrate i f lb ub res fuel = .ok (some (h', res')) ∧ Uses h' us ∧
      res'.size = res.size ∧ (∀ j < u.dim, res'.val j = ruleValue u.dim f lb ub j u.rule) ∧
      ∀ j, u.dim ≤ j → res'.val j = res.val j) := by
  rcases (Inv.ofUses H).workspace hu hE with ⟨hw, e⟩ | ⟨hw, b, k, m, hm, hl, hs, e⟩
  · exact ⟨fun _ => e _ _ _ _ _, fun hc => absurd hw hc⟩
  · refine ⟨fun hc => absurd hc hw, fun _ => ?_⟩
    obtain ⟨m', r, e', -, s2, v, k'⟩ := (Inv.ofUses H).integrateWith hu hm hl hs f lb ub res fuel hres hfuel
    rw [← e] at e'
    exact ⟨_, r, e', .integrate i u f lb ub res r fuel H hu hE hres hfuel e', s2, v, k'⟩

/-- C86, `Integrate(workspace, f, lb, ub, res)` in an array of the user of the size the object asks for. -/
theorem C86_integrateWith {h : Heap} {us : List (Option QuadUse)} (H : Uses h us) (i b : Nat) (u : QuadUse) (m : Mem)
    (hu : us[i]? = some (some u)) (hm : h.bufs[b]? = some (false, m)) (hs : u.rule.workspaceSize u.dim ≤ m.size)
    (f : Integrand) (lb ub : ℝ) (res : Mem) (hres : u.dim ≤ res.size) (fuel : Nat) (hfuel : 2 ^ 32 ≤ fuel) :
    ∃ h' res', h.integrateWith i b f lb ub res fuel = .ok (some (h', res')) ∧ Uses h' us ∧ res'.size = res.size ∧
      (∀ j < u.dim, res'.val j = ruleValue u.dim f lb ub j u.rule) ∧ ∀ j, u.dim ≤ j → res'.val j = res.val j := by
  obtain ⟨m', r, e', -, s2, v, k'⟩ := (Inv.ofUses H).integrateWith hu hm (by simp [Heap.live, hm]) hs f lb ub res fuel hres hfuel
  exact ⟨_, r, e', .integrateWith i b u m f lb ub res r fuel H hu hm hs hres hfuel e', s2, v, k'⟩

/-! ### What fails -/

/-- The one-point rule: `ub` out of a workspace without room for two components. -/
theorem onePoint_ub (pts wts ws res : Mem) (hp : pts.size = 1) (hw : ws.size = 1) (hr : res.size = 2) (f : Integrand) :
    ClenshawCurtis.integrate pts wts 2 ws f 0 1 res = .ub := by
  obtain ⟨ps, pv⟩ := pts
  obtain ⟨wss, wv⟩ := ws
  obtain ⟨rs, rv⟩ := res
  subst hp hw hr
  rw [ClenshawCurtis.integrate, if_neg (by norm_num [ClenshawCurtis.midpointTol])]
  simp [zeroFill, forLoop, Mem.write, Mem.read, Integrand.call]

/-- C86 fails for workspaces of the user: an object of maximum dimension 1 on an array of exactly the size that
`GetWorkspaceSize(1)` asks for accepts `SetDim(2)`, and `Integrate` then runs out of the array. -/
theorem C86_fails_external (f : Integrand) : ∃ rule h us h', Uses h us ∧
    us[0]? = some (some ⟨rule, 1, 1, false, .user 0⟩) ∧ (∃ m, h.bufs[0]? = some (false, m) ∧ m.size = rule.workspaceSize 1) ∧
    h.setDim 0 2 = .ok h' ∧ ∀ fuel, h'.integrate 0 f 0 1 (view 2) fuel = .ub := by
  have h0 := Uses.alloc (view 1) Uses.start
  obtain ⟨rule, hb, -, -, hu⟩ := (C86_construct h0).1 (.clenshawCurtis 1) 1 le_rfl le_rfl
  obtain ⟨h, e, H⟩ := hu 0 (view 1) rfl
  obtain ⟨h', e', H'⟩ := (C86_setDim H 0 ⟨rule, 1, 1, false, .user 0⟩ rfl 2 (by omega)).2 (by simp)
  obtain ⟨o, e1, e2, K⟩ := (Inv.ofUses H').obj (i := 0) (u := ⟨rule, 2, 1, false, .user 0⟩) rfl
  refine ⟨rule, h, _, h', H, rfl, ⟨view 1, ?_, ?_⟩, e', fun fuel => ?_⟩
  all_goals
    have hr : rule = .clenshawCurtis ⟨1, Function.update (fun _ => 0) 0 0⟩ ⟨1, Function.update (fun _ => 0) 0 2⟩ := by
      simpa [RuleArgs.build, ClenshawCurtis.getRule, view, Mem.write, eq_comm] using hb
    have hh : h.bufs = [(false, view 1)] := by
      rw [Heap.newExternal, hb, Res.bind_ok, Res.pure_eq] at e
      obtain rfl := Res.ok.inj e
      rfl
  · rw [hh]; rfl
  · rw [hr]; rfl
  · have hh' : h'.bufs = [(false, view 1)] := by
      rcases (Inv.ofUses H).setDim (i := 0) (u := ⟨rule, 1, 1, false, .user 0⟩) (n := 2) rfl (by omega) with ⟨h1, -⟩ | ⟨-, h2, h3, -, h4⟩
      · cases h1
      · rw [e'] at h3
        obtain rfl := Res.ok.inj h3
        rw [h4, hh]
    rw [Heap.integrate, e1, Res.bind_ok, K.work.1]
    simp only
    rw [Heap.integrateWith, e1, Res.bind_ok, if_pos (by simp [Heap.live, hh']), hh', Res.idx_some (show _ = some (false, view 1) from rfl), Res.bind_ok]
    simp only
    rw [Heap.runRule, K.rule, hr, K.dim]
    simp only
    rw [onePoint_ub _ _ _ _ rfl rfl rfl]
    rfl

/-- C86 fails for loading: after the archive of an object without memory of its own has been loaded into an object that works in
its own memory, this memory is freed, and `Integrate` still uses it. -/
theorem C86_fails_load : ∃ h us u v h', Uses h us ∧ us[0]? = some (some u) ∧ u.work = .own ∧ us[1]? = some (some v) ∧
    h.load 0 1 = .ok h' ∧ ∀ f lb ub res fuel, h'.integrate 0 f lb ub res fuel = .ub := by
  obtain ⟨rule, hb, ⟨h1, e1, H1⟩, -⟩ := (C86_construct Uses.start).1 (.clenshawCurtis 1) 1 le_rfl le_rfl
  obtain ⟨rule', hb', -, ⟨h2, e2, H2⟩, -⟩ := (C86_construct H1).1 (.clenshawCurtis 1) 1 le_rfl le_rfl
  obtain rfl := Res.ok.inj (hb.symm.trans hb')
  have hr : rule = .clenshawCurtis ⟨1, Function.update (fun _ => 0) 0 0⟩ ⟨1, Function.update (fun _ => 0) 0 2⟩ := by
    simpa [RuleArgs.build, ClenshawCurtis.getRule, view, Mem.write, eq_comm] using hb
  rw [Heap.newInternal, hb, Res.bind_ok, Res.pure_eq] at e1
  obtain rfl := Res.ok.inj e1
  rw [Heap.newExternal, hb, Res.bind_ok, Res.pure_eq] at e2
  obtain rfl := Res.ok.inj e2
  refine ⟨_, _, _, _, _, H2, rfl, rfl, rfl, rfl, fun f lb ub res fuel => ?_⟩
  subst hr
  simp [Heap.integrate, Heap.integrateWith, Heap.obj, Heap.live, Rule.workspaceSize, view]

/-! ### A program -/

/-- Non-vacuity: an object of its own memory for at most 3 components is copied, the copy is set to 2 components and
the original destroyed; the copy integrates in the memory it inherited. -/
example (f : Integrand) (a : RuleArgs) (ha : a.Sensible) : ∃ rule h h' res', a.build = .ok rule ∧
    Uses h [none, some ⟨rule, 2, 3, true, .own⟩] ∧
    h.integrate 1 f (-1) 1 (view 2) (2 ^ 32) = .ok (some (h', res')) ∧
    ∀ j < 2, res'.val j = ruleValue 2 f (-1) 1 j rule := by
  obtain ⟨rule, hb, ⟨h1, -, H1⟩, -⟩ := (C86_construct Uses.start).1 a 3 ha (by omega)
  obtain ⟨⟨h2, -, H2⟩, -⟩ := (C86_construct H1).2 0 ⟨rule, 3, 3, true, .own⟩ rfl
  obtain ⟨h3, -, H3⟩ := (C86_setDim H2 1 ⟨rule, 3, 3, true, .own⟩ rfl 2 (by omega)).2 (by simp)
  obtain ⟨-, ⟨h4, -, H4⟩, -⟩ := (C86_construct H3).2 0 ⟨rule, 3, 3, true, .own⟩ rfl
  obtain ⟨h5, res', e, -, -, v, -⟩ := (C86_integrate_partial H4 1 ⟨rule, 2, 3, true, .own⟩ rfl (fun _ _ h => nomatch h) f (-1) 1
    (view 2) le_rfl (2 ^ 32) le_rfl).2 nofun
  exact ⟨rule, h4, h5, res', hb, H4, e, v⟩

/-- Non-vacuity: sensible arguments. -/
example : (RuleArgs.clenshawCurtis 5).Sensible ∧ (RuleArgs.simpson ⟨3, 30, 1, 1e-6, 1e-6, .first⟩).Sensible ∧
    (RuleArgs.adaptiveCC 2 ⟨3, 30, 1, 1e-6, 1e-6, .first⟩).Sensible := by
  simp [RuleArgs.Sensible]

end MParT.Quad
