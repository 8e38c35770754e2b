import Verif.Props.Serialization
/-!
# C97: archives that were cut off are refused
-/
namespace MParT
namespace Ser
open Spec

/-! ### Readers do not look ahead -/

/-- A reader that does the same when more bytes follow, unless it threw and then needs some of them, and does not put bytes back. -/
structure Sound {α : Type} (g : Rd α) : Prop where
  ok : ∀ s t a r, g s = .ok (a, r) → g (s ++ t) = .ok (a, r ++ t)
  ub : ∀ s t, g s = .ub → g (s ++ t) = .ub
  shrink : ∀ s a r, g s = .ok (a, r) → r.length ≤ s.length
  short : ∀ s t a r, g s = .throw → g (s ++ t) = .ok (a, r) → r.length < t.length

theorem rd_bind_ok {α β : Type} {g : Rd α} {f : α → Rd β} {s : List Byte} {b : β} {r : List Byte} :
    (g >>= f) s = .ok (b, r) ↔ ∃ a r', g s = .ok (a, r') ∧ f a r' = .ok (b, r) := by
  show (match g s with | .ok (a, s') => f a s' | .throw => .throw | .ub => .ub) = _ ↔ _
  cases h : g s with
  | ok p => obtain ⟨a, r'⟩ := p; simp
  | throw => simp
  | ub => simp

theorem rd_bind_ub {α β : Type} {g : Rd α} {f : α → Rd β} {s : List Byte} :
    (g >>= f) s = .ub ↔ g s = .ub ∨ ∃ a r', g s = .ok (a, r') ∧ f a r' = .ub := by
  show (match g s with | .ok (a, s') => f a s' | .throw => .throw | .ub => .ub) = _ ↔ _
  cases h : g s with
  | ok p => obtain ⟨a, r'⟩ := p; simp
  | throw => simp
  | ub => simp

theorem rd_bind_throw {α β : Type} {g : Rd α} {f : α → Rd β} {s : List Byte} :
    (g >>= f) s = .throw ↔ g s = .throw ∨ ∃ a r', g s = .ok (a, r') ∧ f a r' = .throw := by
  show (match g s with | .ok (a, s') => f a s' | .throw => .throw | .ub => .ub) = _ ↔ _
  cases h : g s with
  | ok p => obtain ⟨a, r'⟩ := p; simp
  | throw => simp
  | ub => simp

theorem Sound.pure {α : Type} (a : α) : Sound (Pure.pure a : Rd α) where
  ok s t b r h := by cases h; rfl
  ub s t h := by cases h
  shrink s b r h := by cases h; exact le_refl _
  short s t b r h := by cases h

theorem Sound.bind {α β : Type} {g : Rd α} {f : α → Rd β} (hg : Sound g) (hf : ∀ a, Sound (f a)) : Sound (g >>= f) where
  ok s t b r h := by
    obtain ⟨a, r', h1, h2⟩ := rd_bind_ok.mp h
    exact rd_bind_ok.mpr ⟨a, r' ++ t, hg.ok s t a r' h1, (hf a).ok r' t b r h2⟩
  ub s t h := by
    rcases rd_bind_ub.mp h with h | ⟨a, r', h1, h2⟩
    · exact rd_bind_ub.mpr (Or.inl (hg.ub s t h))
    · exact rd_bind_ub.mpr (Or.inr ⟨a, r' ++ t, hg.ok s t a r' h1, (hf a).ub r' t h2⟩)
  shrink s b r h := by
    obtain ⟨a, r', h1, h2⟩ := rd_bind_ok.mp h
    exact le_trans ((hf a).shrink r' b r h2) (hg.shrink s a r' h1)
  short s t b r h h' := by
    obtain ⟨a, r', h1, h2⟩ := rd_bind_ok.mp h'
    rcases rd_bind_throw.mp h with h | ⟨a', r'', h3, h4⟩
    · exact lt_of_le_of_lt ((hf a).shrink r' b r h2) (hg.short s t a r' h h1)
    · rw [hg.ok s t a' r'' h3] at h1
      cases h1
      exact (hf _).short r'' t b r h4 h2

theorem Sound.getBytes (k : Nat) : Sound (getBytes k) where
  ok s t a r h := by
    unfold Ser.getBytes at h ⊢
    split at h
    · cases h
    · next hk =>
      cases h
      rw [if_neg (by simp; omega), List.take_append_of_le_length (by omega), List.drop_append_of_le_length (by omega)]
  ub s t h := by
    unfold Ser.getBytes at h
    split at h <;> cases h
  shrink s a r h := by
    unfold Ser.getBytes at h
    split at h
    · cases h
    · cases h; simp
  short s t a r h h' := by
    unfold Ser.getBytes at h h'
    split at h
    · split at h'
      · cases h'
      · cases h'; simp at *; omega
    · cases h

theorem Sound.ite {α : Type} {p : Prop} [Decidable p] {g g' : Rd α} (h : Sound g) (h' : Sound g') : Sound (if p then g else g') := by
  split <;> assumption

theorem Sound.u32 : Sound getU32 := .bind (.getBytes 4) fun _ => .pure _
theorem Sound.u64 : Sound getU64 := .bind (.getBytes 8) fun _ => .pure _
theorem Sound.bool : Sound getBool := .bind (.getBytes 1) fun _ => .pure _
theorem Sound.string : Sound getString := .bind .u64 fun _ => .getBytes _
theorem Sound.many {α : Type} {g : Rd α} (h : Sound g) : ∀ n, Sound (getMany g n)
  | 0 => .pure _
  | n + 1 => .bind h fun _ => .bind (Sound.many h n) fun _ => .pure _
theorem Sound.view {α : Type} {g : Rd α} (h : Sound g) : Sound (View.load g) :=
  .bind .string fun _ => .bind .u32 fun _ => .ite (.bind (h.many _) fun _ => .pure _) (.pure _)
theorem Sound.mat {α : Type} (z : α) {g : Rd α} (h : Sound g) : Sound (MatView.load z g) :=
  .bind .string fun _ => .bind .u32 fun _ => .bind .u32 fun _ => .ite (.bind (h.many _) fun _ => .pure _) (.pure _)
theorem Sound.options : Sound Options.load :=
  .bind .u32 fun _ => .bind .u64 fun _ => .bind .u64 fun _ => .bind .u32 fun _ => .bind .u32 fun _ => .bind .u64 fun _ => .bind .u64 fun _ =>
    .bind .u32 fun _ => .bind .u32 fun _ => .bind .u32 fun _ => .bind .bool fun _ => .bind .bool fun _ => .bind .u64 fun _ => .pure _
theorem Sound.set : Sound SetObj.load :=
  .bind .u32 fun _ => .bind .bool fun _ => .bind (.view .u32) fun _ => .bind (.view .u32) fun _ => .bind (.view .u32) fun _ =>
    .bind (.view .u32) fun _ => .pure _
theorem Sound.basis : ∀ t, Sound (Basis.load t)
  | .poly => .bind .bool fun _ => .pure _
  | .hermite => .bind .bool fun _ => .pure _
  | .linearized t => .bind (Sound.basis t) fun _ => .bind .u64 fun _ => .bind .u64 fun _ => .pure _
theorem Sound.quadBase : Sound QuadBase.load :=
  .bind .u32 fun _ => .bind .u32 fun _ => .bind .u32 fun _ => .bind (.view .u64) fun _ => .pure _
theorem Sound.recBase : Sound RecBase.load :=
  .bind .quadBase fun _ => .bind .u32 fun _ => .bind .u32 fun _ => .bind .u64 fun _ => .bind .u64 fun _ => .bind .u32 fun _ => .pure _
theorem Sound.quad : ∀ t, Sound (Quad.load t)
  | .clenshawCurtis => .bind .quadBase fun _ => .bind (.view .u64) fun _ => .bind (.view .u64) fun _ => .bind .u32 fun _ => .pure _
  | .adaptiveSimpson => .bind .recBase fun _ => .pure _
  | .adaptiveClenshawCurtis => .bind .recBase fun _ => .bind (.view .u64) fun _ => .bind (.view .u64) fun _ => .bind (.view .u64) fun _ =>
      .bind (.view .u64) fun _ => .pure _
theorem Sound.expansion (t : BasisTy) : Sound (Expansion.load t) :=
  .bind .u32 fun _ => .bind .set fun _ => .bind (.basis t) fun _ => .bind (.view .u32) fun _ => .bind .u32 fun _ => .pure _
theorem Sound.mono (pos : Nat) (bt : BasisTy) (qt : QuadTy) : Sound (Mono.load pos bt qt) := by
  refine .bind (.expansion bt) fun e => .bind (.quad qt) fun _ => .bind .bool fun _ => .bind .u64 fun _ => .bind (.view .u64) fun c => ?_
  unfold Rd.mk
  cases e.numCoeffs with
  | ok n =>
    by_cases h : c.data.length = n
    · simp only [h, if_true]
      exact .pure _
    · simp only [h, if_false]
      exact .pure _
  | throw => exact ⟨fun _ _ _ _ h => (by cases h), fun _ _ h => (by cases h), fun _ _ _ h => (by cases h), fun _ _ _ _ _ h => (by cases h)⟩
  | ub => exact ⟨fun _ _ _ _ h => (by cases h), fun _ _ _ => rfl, fun _ _ _ h => (by cases h), fun _ _ _ _ h => (by cases h)⟩

theorem Sound.cut {α : Type} {g : Rd α} (h : Sound g) {p q : List Byte} {a : α} (hr : Reads g p a) (hq : CutOff q p) : g q = .throw := by
  obtain ⟨t, ht, rfl⟩ := hq
  have hfull : g (q ++ t) = .ok (a, []) := by simpa using hr []
  cases hg : g q with
  | throw => rfl
  | ub => rw [h.ub q t hg] at hfull; cases hfull
  | ok x =>
    obtain ⟨b, r⟩ := x
    rw [h.ok q t b r hg] at hfull
    have := congrArg Prod.snd (Res.ok.inj hfull)
    simp at this
    exact (ht this.2).elim

/-! ### Pointers -/

/-- The archive with more bytes after those that are left. -/
def InSt.more (st : InSt) (t : List Byte) : InSt := { st with bytes := st.bytes ++ t }

/-- Each run consumes at least `c` bytes. -/
def Takes {α : Type} (c : Nat) (g : In α) : Prop := ∀ st a st', g st = .ok (a, st') → st'.bytes.length + c ≤ st.bytes.length

/-- While fewer than `k` bytes are left, `g'` does on a longer archive what `g` does on the shorter one, unless `g` threw and
`g'` needs some of the further bytes. -/
structure Follows {α : Type} (k : Nat) (g g' : In α) : Prop where
  ok : ∀ st t a st', st.bytes.length < k → g st = .ok (a, st') → g' (st.more t) = .ok (a, st'.more t)
  ub : ∀ st t, st.bytes.length < k → g st = .ub → g' (st.more t) = .ub
  short : ∀ st t a st', st.bytes.length < k → g st = .throw → g' (st.more t) = .ok (a, st') → st'.bytes.length < t.length
  shrink : Takes 0 g'

theorem in_bind_ok {α β : Type} {g : In α} {f : α → In β} {s : InSt} {b : β} {r : InSt} :
    (g >>= f) s = .ok (b, r) ↔ ∃ a r', g s = .ok (a, r') ∧ f a r' = .ok (b, r) := by
  show (match g s with | .ok (a, s') => f a s' | .throw => .throw | .ub => .ub) = _ ↔ _
  cases h : g s with
  | ok p => obtain ⟨a, r'⟩ := p; simp
  | throw => simp
  | ub => simp

theorem in_bind_ub {α β : Type} {g : In α} {f : α → In β} {s : InSt} :
    (g >>= f) s = .ub ↔ g s = .ub ∨ ∃ a r', g s = .ok (a, r') ∧ f a r' = .ub := by
  show (match g s with | .ok (a, s') => f a s' | .throw => .throw | .ub => .ub) = _ ↔ _
  cases h : g s with
  | ok p => obtain ⟨a, r'⟩ := p; simp
  | throw => simp
  | ub => simp

theorem in_bind_throw {α β : Type} {g : In α} {f : α → In β} {s : InSt} :
    (g >>= f) s = .throw ↔ g s = .throw ∨ ∃ a r', g s = .ok (a, r') ∧ f a r' = .throw := by
  show (match g s with | .ok (a, s') => f a s' | .throw => .throw | .ub => .ub) = _ ↔ _
  cases h : g s with
  | ok p => obtain ⟨a, r'⟩ := p; simp
  | throw => simp
  | ub => simp

theorem Takes.bind {α β : Type} {c d : Nat} {g : In α} {f : α → In β} (hc : Takes c g) (hf : ∀ a, Takes d (f a)) : Takes (c + d) (g >>= f) := by
  intro st b st' h
  obtain ⟨a, r', h1, h2⟩ := in_bind_ok.mp h
  have := hc _ _ _ h1
  have := hf a _ _ _ h2
  omega

theorem Takes.less {α : Type} {c d : Nat} {g : In α} (h : Takes d g) (hc : c ≤ d) : Takes c g := by
  intro st a st' e
  have := h st a st' e
  omega

theorem Follows.bind {α β : Type} {k c : Nat} {g g' : In α} {f f' : α → In β} (hg : Follows k g g') (hc : Takes c g)
    (hf : ∀ a, Follows (k - c) (f a) (f' a)) : Follows k (g >>= f) (g' >>= f') where
  ok st t b st' hk h := by
    obtain ⟨a, r', h1, h2⟩ := in_bind_ok.mp h
    have := hc _ _ _ h1
    exact in_bind_ok.mpr ⟨a, r'.more t, hg.ok st t a r' hk h1, (hf a).ok r' t b st' (by omega) h2⟩
  ub st t hk h := by
    rcases in_bind_ub.mp h with h | ⟨a, r', h1, h2⟩
    · exact in_bind_ub.mpr (Or.inl (hg.ub st t hk h))
    · have := hc _ _ _ h1
      exact in_bind_ub.mpr (Or.inr ⟨a, r'.more t, hg.ok st t a r' hk h1, (hf a).ub r' t (by omega) h2⟩)
  short st t b st' hk h h' := by
    obtain ⟨a, r', h1, h2⟩ := in_bind_ok.mp h'
    rcases in_bind_throw.mp h with h | ⟨a', r'', h3, h4⟩
    · have := hg.short st t a r' hk h h1
      have := (hf a).shrink _ _ _ h2
      omega
    · have := hc _ _ _ h3
      rw [hg.ok st t a' r'' hk h3] at h1
      cases h1
      exact (hf _).short r'' t b st' (by omega) h4 h2
  shrink := Takes.bind (c := 0) (d := 0) hg.shrink fun a => (hf a).shrink

theorem Takes.pure {α : Type} (a : α) : Takes 0 (Pure.pure a : In α) := fun st b st' h => by cases h; simp

theorem Follows.pure {α : Type} (k : Nat) (a : α) : Follows k (Pure.pure a : In α) (Pure.pure a) :=
  ⟨fun st t b st' _ h => (by cases h; rfl), fun st t _ h => (by cases h), fun st t b st' _ h => (by cases h), .pure a⟩

theorem Follows.zero {α : Type} {g g' : In α} (h : Takes 0 g') : Follows 0 g g' :=
  ⟨fun _ _ _ _ h => absurd h (by omega), fun _ _ h => absurd h (by omega), fun _ _ _ _ h => absurd h (by omega), h⟩

/-- A step that only looks at the tables. -/
theorem Follows.step {α : Type} (k : Nat) {g : In α}
    (ok : ∀ st t a st', g st = .ok (a, st') → st'.bytes = st.bytes ∧ g (st.more t) = .ok (a, st'.more t))
    (throw : ∀ st t, g st = .throw → g (st.more t) = .throw) (ub : ∀ st t, g st = .ub → g (st.more t) = .ub) : Follows k g g where
  ok st t a st' _ h := (ok st t a st' h).2
  ub st t _ h := ub st t h
  short st t a st' _ h h' := by rw [throw st t h] at h'; cases h'
  shrink st a st' h := by rw [(ok st [] a st' h).1]; omega

theorem Takes.lift {α : Type} {r : Rd α} (h : Sound r) : Takes 0 (In.lift r) := by
  intro st a st' e
  unfold In.lift at e
  cases hr : r st.bytes with
  | ok p =>
    obtain ⟨x, s⟩ := p
    rw [hr] at e
    cases e
    simpa using h.shrink _ _ _ hr
  | throw => rw [hr] at e; cases e
  | ub => rw [hr] at e; cases e

theorem Follows.lift {α : Type} (k : Nat) {r : Rd α} (h : Sound r) : Follows k (In.lift r) (In.lift r) where
  ok st t a st' _ e := by
    unfold In.lift at e ⊢
    cases hr : r st.bytes with
    | ok p =>
      obtain ⟨x, s⟩ := p
      rw [hr] at e
      cases e
      show (match r (st.bytes ++ t) with | .ok (a, s) => _ | .throw => _ | .ub => _) = _
      rw [h.ok _ t _ _ hr]
      rfl
    | throw => rw [hr] at e; cases e
    | ub => rw [hr] at e; cases e
  ub st t _ e := by
    unfold In.lift at e ⊢
    cases hr : r st.bytes with
    | ok p =>
      obtain ⟨x, s⟩ := p
      rw [hr] at e
      cases e
    | throw => rw [hr] at e; cases e
    | ub =>
      show (match r (st.bytes ++ t) with | .ok (a, s) => _ | .throw => _ | .ub => _) = _
      rw [h.ub _ t hr]
  short st t a st' _ e e' := by
    unfold In.lift at e e'
    cases hr : r st.bytes with
    | ok p =>
      obtain ⟨x, s⟩ := p
      rw [hr] at e
      cases e
    | ub => rw [hr] at e; cases e
    | throw =>
      cases hr' : r (st.more t).bytes with
      | ok p =>
        obtain ⟨x, s⟩ := p
        rw [hr'] at e'
        cases e'
        exact h.short _ t _ _ hr hr'
      | throw => rw [hr'] at e'; cases e'
      | ub => rw [hr'] at e'; cases e'
  shrink := .lift h

theorem getU32_takes {s : List Byte} {a : UInt32} {r : List Byte} (h : getU32 s = .ok (a, r)) : r.length + 4 ≤ s.length := by
  obtain ⟨b, r', h1, h2⟩ := rd_bind_ok.mp (show (getBytes 4 >>= fun b => (Pure.pure _ : Rd UInt32)) s = .ok (a, r) from h)
  cases h2
  unfold getBytes at h1
  split at h1
  · cases h1
  · cases h1; simp; omega

theorem Takes.u32 : Takes 4 (In.lift getU32) := by
  intro st a st' e
  unfold In.lift at e
  cases hr : getU32 st.bytes with
  | ok p =>
    obtain ⟨x, s⟩ := p
    rw [hr] at e
    cases e
    exact getU32_takes hr
  | throw => rw [hr] at e; cases e
  | ub => rw [hr] at e; cases e

theorem Follows.ite {α : Type} {k : Nat} {p : Prop} [Decidable p] {a a' b b' : In α} (h : Follows k a a') (h' : Follows k b b') :
    Follows k (if p then a else b) (if p then a' else b') := by
  split <;> assumption

theorem Takes.ite {α : Type} {c : Nat} {p : Prop} [Decidable p] {a b : In α} (h : Takes c a) (h' : Takes c b) :
    Takes c (if p then a else b) := by
  split <;> assumption

/-- The name of a class that is new in the archive is looked up. -/
theorem Follows.newName (classOf : List Byte → Option Class) (k i : Nat) (name : List Byte) :
    Follows k (In.mk fun st => match classOf name with
      | some c => .ok (some c, { st with classes := (i, name) :: st.classes })
      | none => .throw) (In.mk fun st => match classOf name with
      | some c => .ok (some c, { st with classes := (i, name) :: st.classes })
      | none => .throw) := by
  unfold In.mk
  cases hc : classOf name with
  | none => exact .step k (fun st t a st' h => by cases h) (fun _ _ _ => rfl) (fun st t h => by cases h)
  | some c => exact .step k (fun st t a st' h => by cases h; exact ⟨rfl, rfl⟩) (fun st t h => by cases h) (fun st t h => by cases h)

/-- The name of a class that is known in the archive is looked up. -/
theorem Follows.oldName (classOf : List Byte → Option Class) (k i : Nat) :
    Follows k (In.mk fun st => match st.classes.lookup i with
      | some name => (match classOf name with
        | some c => .ok (some c, st)
        | none => .throw)
      | none => .throw) (In.mk fun st => match st.classes.lookup i with
      | some name => (match classOf name with
        | some c => .ok (some c, st)
        | none => .throw)
      | none => .throw) := by
  unfold In.mk
  refine .step k (fun st t a st' h => ?_) (fun st t h => ?_) (fun st t h => ?_)
  all_goals
    simp only [InSt.more] at h ⊢
    cases hl : st.classes.lookup i with
    | none => simp only [hl] at h ⊢; try cases h
    | some name =>
      simp only [hl] at h ⊢
      cases hc : classOf name with
      | none => simp only [hc] at h ⊢; try cases h
      | some c => simp only [hc] at h ⊢; cases h; try exact ⟨rfl, rfl⟩

/-- An object known in the archive is looked up. -/
theorem Follows.oldObject (k i : Nat) :
    Follows k (In.mk fun st => match st.objects.lookup i with
      | some o => .ok (some o, st)
      | none => .throw) (In.mk fun st => match st.objects.lookup i with
      | some o => .ok (some o, st)
      | none => .throw) := by
  unfold In.mk
  refine .step k (fun st t a st' h => ?_) (fun st t h => ?_) (fun st t h => ?_)
  all_goals
    simp only [InSt.more] at h ⊢
    cases hl : st.objects.lookup i with
    | none => simp only [hl] at h ⊢; try cases h
    | some o => simp only [hl] at h ⊢; cases h; try exact ⟨rfl, rfl⟩

/-- A triangular map is made. -/
theorem Follows.made (k i : Nat) (comps : List (Option Obj)) (mv : Bool) :
    Follows k (In.mk fun st => match mkTri i comps mv with
      | .ok o => .ok (some o, { st with objects := (i, o) :: st.objects })
      | .throw => .throw
      | .ub => .ub) (In.mk fun st => match mkTri i comps mv with
      | .ok o => .ok (some o, { st with objects := (i, o) :: st.objects })
      | .throw => .throw
      | .ub => .ub) := by
  unfold In.mk
  cases hm : mkTri i comps mv with
  | ok o => exact .step k (fun st t a st' h => by cases h; exact ⟨rfl, rfl⟩) (fun st t h => by cases h) (fun st t h => by cases h)
  | throw => exact .step k (fun st t a st' h => by cases h) (fun _ _ _ => rfl) (fun st t h => by cases h)
  | ub => exact .step k (fun st t a st' h => by cases h) (fun st t h => by cases h) (fun _ _ _ => rfl)

theorem Follows.cls (classOf : List Byte → Option Class) (k : Nat) : Follows k (getClass classOf) (getClass classOf) :=
  .bind (.lift k .u32) (.lift .u32) fun _ => .ite (.pure _ _) (.ite (.bind (.lift _ .string) (.lift .string) fun _ =>
    .newName classOf _ _ _) (.oldName classOf _ _))

theorem Takes.cls (classOf : List Byte → Option Class) : Takes 4 (getClass classOf) :=
  Takes.bind (d := 0) .u32 fun _ => .ite (.pure _) (.ite (Takes.bind (c := 0) (d := 0) (.lift .string) fun _ =>
    (Follows.newName classOf 0 _ _).shrink) (Follows.oldName classOf 0 _).shrink)

mutual
theorem Takes.ptr (classOf : List Byte → Option Class) : ∀ f, Takes 4 (getPtr classOf f)
  | 0 => fun st a st' h => by cases h
  | f + 1 => by
    refine Takes.bind (d := 0) (.cls classOf) fun c => ?_
    cases c with
    | none => exact .pure _
    | some c =>
      refine Takes.less (Takes.bind (d := 0) .u32 fun id => ?_) (Nat.zero_le _)
      refine .ite ?_ (.ite (.pure _) (Follows.oldObject 0 _).shrink)
      cases c with
      | mono pos bt qt =>
        refine Takes.bind (c := 0) (d := 0) (.lift (.mono pos bt qt)) fun m => ?_
        intro st a st' h
        cases h
        simp
      | tri =>
        exact Takes.bind (c := 0) (d := 0) (.lift .u64) fun n =>
          Takes.bind (c := 0) (d := 0) (Takes.ptrs classOf f n.toNat) fun comps =>
          Takes.bind (c := 0) (d := 0) (.lift .bool) fun mv => (Follows.made 0 _ _ _).shrink
theorem Takes.ptrs (classOf : List Byte → Option Class) : ∀ f n, Takes 0 (getPtrs classOf f n)
  | 0, _ => fun st a st' h => by cases h
  | _ + 1, 0 => .pure _
  | f + 1, n + 1 =>
    Takes.bind (c := 0) (d := 0) ((Takes.ptr classOf f).less (Nat.zero_le _)) fun _ =>
      Takes.bind (c := 0) (d := 0) (Takes.ptrs classOf f n) fun _ => .pure _
end

mutual
theorem Follows.ptr (classOf : List Byte → Option Class) :
    ∀ f f' k, f ≤ f' → k ≤ f → Follows k (getPtr classOf f) (getPtr classOf f')
  | 0, f', k, _, h => by
    obtain rfl : k = 0 := by omega
    exact .zero ((Takes.ptr classOf f').less (Nat.zero_le _))
  | f + 1, 0, _, h, _ => absurd h (by omega)
  | f + 1, f' + 1, k, hf, hk => by
    refine .bind (.cls classOf k) (.cls classOf) fun c => ?_
    cases c with
    | none => exact .pure _ _
    | some c =>
      refine .bind (.lift _ .u32) .u32 fun id => ?_
      refine .ite ?_ (.ite (.pure _ _) (.oldObject _ _))
      cases c with
      | mono pos bt qt =>
        refine .bind (.lift _ (.mono pos bt qt)) (.lift (.mono pos bt qt)) fun m => ?_
        exact .step _ (fun st t a st' h => by cases h; exact ⟨rfl, rfl⟩) (fun st t h => by cases h) (fun st t h => by cases h)
      | tri =>
        exact .bind (.lift _ .u64) (.lift .u64) fun n =>
          .bind (Follows.ptrs classOf f f' n.toNat _ (by omega) (by omega)) (Takes.ptrs classOf f n.toNat) fun comps =>
          .bind (.lift _ .bool) (.lift .bool) fun mv => .made _ _ _ _
theorem Follows.ptrs (classOf : List Byte → Option Class) :
    ∀ f f' n k, f ≤ f' → k = 0 ∨ k + 1 ≤ f → Follows k (getPtrs classOf f n) (getPtrs classOf f' n)
  | 0, f', n, k, _, h => by
    obtain rfl : k = 0 := by omega
    exact .zero (Takes.ptrs classOf f' n)
  | f + 1, 0, _, _, h, _ => absurd h (by omega)
  | f + 1, f' + 1, 0, k, _, _ => .pure _ _
  | f + 1, f' + 1, n + 1, k, hf, hk =>
    .bind (Follows.ptr classOf f f' k (by omega) (by omega)) (Takes.ptr classOf f) fun _ =>
      .bind (Follows.ptrs classOf f f' n _ (by omega) (by omega)) (Takes.ptrs classOf f n) fun _ => .pure _ _
end

theorem Sound.map (classOf : List Byte → Option Class) : Sound (loadMap classOf) := by
  have key (s t : List Byte) := Follows.ptr classOf (s.length + 2) ((s ++ t).length + 2) (s.length + 1) (by simp) (by omega)
  have hl (s : List Byte) : (InSt.new s).bytes.length < s.length + 1 := Nat.lt_succ_self _
  constructor
  · intro s t a r h
    unfold loadMap at h ⊢
    cases hg : getPtr classOf (s.length + 2) (.new s) with
    | ok x =>
      obtain ⟨o, st⟩ := x
      rw [hg] at h
      cases h
      rw [show InSt.new (s ++ t) = (InSt.new s).more t from rfl, (key s t).ok _ t _ _ (hl s) hg]
      rfl
    | throw => rw [hg] at h; cases h
    | ub => rw [hg] at h; cases h
  · intro s t h
    unfold loadMap at h ⊢
    cases hg : getPtr classOf (s.length + 2) (.new s) with
    | ok x =>
      obtain ⟨o, st⟩ := x
      rw [hg] at h
      cases h
    | throw => rw [hg] at h; cases h
    | ub => rw [show InSt.new (s ++ t) = (InSt.new s).more t from rfl, (key s t).ub _ t (hl s) hg]
  · intro s a r h
    unfold loadMap at h
    cases hg : getPtr classOf (s.length + 2) (.new s) with
    | ok x =>
      obtain ⟨o, st⟩ := x
      rw [hg] at h
      cases h
      have := Takes.ptr classOf _ _ _ _ hg
      simp only [InSt.new] at this
      omega
    | throw => rw [hg] at h; cases h
    | ub => rw [hg] at h; cases h
  · intro s t a r h h'
    unfold loadMap at h h'
    cases hg : getPtr classOf (s.length + 2) (.new s) with
    | ok x =>
      obtain ⟨o, st⟩ := x
      rw [hg] at h
      cases h
    | ub => rw [hg] at h; cases h
    | throw =>
      cases hg' : getPtr classOf ((s ++ t).length + 2) (.new (s ++ t)) with
      | ok x =>
        obtain ⟨o, st⟩ := x
        rw [hg'] at h'
        cases h'
        exact (key s t).short _ t _ _ (hl s) hg hg'
      | throw => rw [hg'] at h'; cases h'
      | ub => rw [hg'] at h'; cases h'

/-! ### C97 -/

/-- Options whose end is lost are refused. -/
theorem C97_options (o : Options) (q : List Byte) (hq : CutOff q o.save) : Options.load q = .throw := Sound.options.cut (C56_options o) hq

/-- So are views of numbers. -/
theorem C97_views (v : View Dbl) (hv : Stored v) (q : List Byte) (hq : CutOff q (v.save putU64)) : View.load getU64 q = .throw :=
  (Sound.view .u64).cut (C56_views _ _ reads_u64 v hv) hq

/-- So are matrices of numbers, with fewer than 2^32 entries. Missing: larger matrices, of which only some entries are written at
all (`C56_fails_large_matrix`). -/
theorem C97_matrices_partial (z : Dbl) (v : MatView Dbl) (hv : StoredMat v) (q : List Byte) (hq : CutOff q (v.save putU64)) :
    MatView.load z getU64 q = .throw := (Sound.mat z .u64).cut (C56_matrices_partial z _ _ reads_u64 v hv) hq

/-- So are multi-index sets. -/
theorem C97_sets (s : SetObj) (hs : StoredSet s) (q : List Byte) (hq : CutOff q s.save) : SetObj.load q = .throw :=
  Sound.set.cut (C56_sets s hs) hq

/-- So are one-dimensional bases. -/
theorem C97_bases (b : Basis) (q : List Byte) (hq : CutOff q b.save) : Basis.load b.ty q = .throw := (Sound.basis _).cut (C56_bases b) hq

/-- So are quadrature rules that own their workspace. -/
theorem C97_quadrature (r : Quad) (hr : StoredQuad r) (q : List Byte) (hq : CutOff q r.save) : Quad.load r.ty q = .throw :=
  (Sound.quad _).cut (C56_quadrature_partial r hr) hq

/-- So are expansions. -/
theorem C97_expansions (e : Expansion) (he : StoredExpansion e) (q : List Byte) (hq : CutOff q e.save) :
    Expansion.load e.basis.ty q = .throw := (Sound.expansion _).cut (C56_expansions e he) hq

/-- So are components, through `Save` and `Load`. -/
theorem C97_components {name : Class → List Byte} {classOf : List Byte → Option Class} {cs : List Class}
    (hreg : Registered name classOf cs) (a : Nat) (m : Mono) (hcs : monoClass m ∈ cs) (h : StoredMono m)
    (q : List Byte) (hq : CutOff q (saveMap name (.mono a m))) : loadMap classOf q = .throw := by
  obtain ⟨a', m', -, hr⟩ := C56_components hreg a m hcs h
  exact (Sound.map classOf).cut hr hq

/-- Several components in one stream, of which the bytes after some part of one of them are lost: those before it are loaded, it
is refused, and so is the attempt to load all of them. -/
theorem C97_row {name : Class → List Byte} {classOf : List Byte → Option Class} {cs : List Class}
    (hreg : Registered name classOf cs) (ms more : List (Nat × Mono)) (a : Nat) (m : Mono)
    (hcs : ∀ p ∈ ms, monoClass p.2 ∈ cs) (h : ∀ p ∈ ms, StoredMono p.2) (hm : monoClass m ∈ cs) (hs : StoredMono m)
    (q : List Byte) (hq : CutOff q (saveMap name (.mono a m))) :
    ∃ ms', List.Forall₂ (fun (p p' : Nat × Mono) => SameMono p.2 p'.2) ms ms' ∧
      getMany (loadMap classOf) ms.length (ms.flatMap (fun p => saveMap name (.mono p.1 p.2)) ++ q) =
        .ok (ms'.map fun p => some (.mono p.1 p.2), q) ∧
      loadMap classOf q = .throw ∧
      getMany (loadMap classOf) (ms ++ (a, m) :: more).length (ms.flatMap (fun p => saveMap name (.mono p.1 p.2)) ++ q) = .throw := by
  obtain ⟨ms', h1, h2⟩ := C56_components_in_a_row hreg ms hcs h
  have hq' := C97_components hreg a m hm hs q hq
  refine ⟨ms', h1, h2 q, hq', ?_⟩
  have key : ∀ (n : Nat) (s : List Byte) (l : List (Option Obj)) (r : List Byte), getMany (loadMap classOf) n s = .ok (l, r) →
      loadMap classOf r = .throw → getMany (loadMap classOf) (n + (more.length + 1)) s = .throw := by
    intro n
    induction n with
    | zero =>
      intro s l r h hr
      cases h
      rw [Nat.zero_add]
      exact rd_bind_throw.mpr (Or.inl hr)
    | succ n ih =>
      intro s l r h hr
      obtain ⟨x, r1, h3, h4⟩ := rd_bind_ok.mp (show (loadMap classOf >>= fun x => getMany (loadMap classOf) n >>= fun xs => pure (x :: xs)) s = _ from h)
      obtain ⟨xs, r2, h5, h6⟩ := rd_bind_ok.mp h4
      cases h6
      rw [show n + 1 + (more.length + 1) = (n + (more.length + 1)) + 1 by omega]
      exact rd_bind_throw.mpr (Or.inr ⟨x, r1, h3, rd_bind_throw.mpr (Or.inl (ih r1 xs _ h5 hr))⟩)
  have := key _ _ _ _ (h2 q) hq'
  simpa using this

/-- For any bytes whatsoever that can be loaded, the beginning of them is refused or gives the same object, having left the rest:
never another object, and never undefined behaviour. -/
theorem C97_neverAnother (classOf : List Byte → Option Class) (q lost left : List Byte) (o : Option Obj)
    (h : loadMap classOf (q ++ lost) = .ok (o, left)) :
    (loadMap classOf q = .throw ∧ left.length < lost.length) ∨ ∃ left', loadMap classOf q = .ok (o, left') ∧ left = left' ++ lost := by
  have hs := Sound.map classOf
  cases hg : loadMap classOf q with
  | throw => exact Or.inl ⟨rfl, hs.short _ _ _ _ hg h⟩
  | ub => rw [hs.ub q lost hg] at h; cases h
  | ok x =>
    obtain ⟨o', l⟩ := x
    rw [hs.ok q lost o' l hg] at h
    cases h
    exact Or.inr ⟨l, rfl, rfl⟩

/-- Triangular maps of monotone components are refused when more than `8 n + 8` bytes are lost, `n` being the number of
components. Missing: fewer bytes lost, where it is false (`C97_fails_triangular`). -/
theorem C97_triangular_partial {name : Class → List Byte} {classOf : List Byte → Option Class} {cs : List Class}
    (hreg : Registered name classOf cs)
    (a : Nat) (ms : List (Nat × Mono)) (c : View Dbl) (htri : .tri ∈ cs) (hcs : ∀ p ∈ ms, monoClass p.2 ∈ cs) (hs : StoredTri a ms)
    (q lost : List Byte) (hq : saveMap name (triOf a ms c) = q ++ lost) (hl : 8 * ms.length + 8 < lost.length) :
    loadMap classOf q = .throw := by
  have hS := Sound.map classOf
  cases hg : loadMap classOf q with
  | throw => rfl
  | ub =>
    have h := hS.ub q lost hg
    obtain ⟨again, -, h2⟩ := loadMap_tri hreg c htri hcs hs []
    rw [List.append_nil, hq, h] at h2
    split at h2
    · split at h2 <;> cases h2
    · cases h2
  | ok x =>
    obtain ⟨o, l⟩ := x
    have h := hS.ok q lost o l hg
    have := C56_fails_bytes_left hreg a ms c htri hcs hs o (l ++ lost) (by rw [hq]; exact h)
    simp at this
    omega

/-- **Violation.** A triangular map of which up to `8 n + 8` bytes are lost is loaded, not refused: the second copy of its
components and the flag for its coefficients, which `save` wrote, are never read. -/
theorem C97_fails_triangular {name : Class → List Byte} {classOf : List Byte → Option Class} {cs : List Class}
    (hreg : Registered name classOf cs)
    (a : Nat) (ms : List (Nat × Mono)) (c : View Dbl) (htri : .tri ∈ cs) (hcs : ∀ p ∈ ms, monoClass p.2 ∈ cs) (hs : StoredTri a ms)
    (hn : ms.length % 256 ≠ 0) (hset : ∀ p ∈ ms, p.2.coeffs.allocated = true) (hc : c.data = allCoeffs ms)
    (q lost : List Byte) (hq : saveMap name (triOf a ms c) = q ++ lost) (hl : lost.length ≤ 8 * ms.length + 8) :
    ∃ a' ms' c' left, List.Forall₂ (fun (p p' : Nat × Mono) => SameMono p.2 p'.2) ms ms' ∧ c'.data = c.data ∧
      loadMap classOf q = .ok (some (triOf a' ms' c'), left) := by
  obtain ⟨a', ms', c', left, h1, h2, -, h3⟩ := C56_triangular_partial hreg a ms c htri hcs hs hn hset hc []
  have h3' : loadMap classOf (saveMap name (triOf a ms c)) = .ok (some (triOf a' ms' c'), left) := by simpa using h3
  have hlen := C56_fails_bytes_left hreg a ms c htri hcs hs _ _ h3'
  rw [hq] at h3'
  rcases C97_neverAnother classOf q lost left _ h3' with ⟨-, h⟩ | ⟨left', h, -⟩
  · omega
  · exact ⟨a', ms', c', left', h1, h2, h⟩

/-! ## The hypotheses can be met -/

/-- The last byte of a component is lost. -/
example : loadMap exClassOf (saveMap exName (.mono 3 (exMono 2))).dropLast = .throw := by
  have hne : saveMap exName (.mono 3 (exMono 2)) ≠ [] := by
    intro h
    have := congrArg List.length h
    revert this
    decide +kernel
  exact C97_components exRegistered 3 (exMono 2) (by exact List.mem_cons_of_mem _ List.mem_cons_self) (exMono_stored 2) _
    ⟨[(saveMap exName (.mono 3 (exMono 2))).getLast hne], by simp, (List.dropLast_append_getLast hne).symm⟩

/-- Nothing is left of a set. -/
example : SetObj.load [] = .throw := C97_sets (exMono 2).expansion.multiSet (exMono_stored 2).1.1 [] ⟨_, by simp [SetObj.save, putLE, putU32], rfl⟩

/-- Two components: the last 24 bytes can be lost. -/
example (whole : List Byte) (h : whole = saveMap exName (triOf 5 [(6, exMono 1), (7, exMono 2)] ⟨[], [11, 11], true⟩)) :
    ∃ a' ms' c' left, c'.data = [11, 11] ∧ loadMap exClassOf (whole.take (whole.length - 24)) = .ok (some (triOf a' ms' c'), left) := by
  obtain ⟨a', ms', c', left, -, h1, h2⟩ := C97_fails_triangular exRegistered 5 [(6, exMono 1), (7, exMono 2)]
    ⟨[], [11, 11], true⟩ (by simp) (by
      intro p hp
      simp only [List.mem_cons, List.not_mem_nil, or_false] at hp
      rcases hp with rfl | rfl <;> exact List.mem_cons_of_mem _ List.mem_cons_self) exTri_stored (by decide) (by
      intro p hp
      simp only [List.mem_cons, List.not_mem_nil, or_false] at hp
      rcases hp with rfl | rfl <;> rfl) rfl (whole.take (whole.length - 24)) (whole.drop (whole.length - 24))
    (by rw [← h]; exact (List.take_append_drop _ _).symm) (by rw [List.length_drop]; simp; omega)
  exact ⟨a', ms', c', left, h1, h2⟩

end Ser
end MParT
