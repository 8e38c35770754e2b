import Verif.Model.Failures
import Verif.Props.Truncated
/-!
# C106 (loading): what a failed `Deserialize` leaves in the object
-/
namespace MParT
namespace Ser
open Spec

/-! ### Numbers -/

theorem putLE_valLE (bs : List Byte) : putLE bs.length (valLE bs) = bs := by
  induction bs with
  | nil => rfl
  | cons b bs ih =>
    have h1 : (b.val + 256 * valLE bs) % 256 = b.val := by have := b.isLt; omega
    have h2 : (b.val + 256 * valLE bs) / 256 = valLE bs := by have := b.isLt; omega
    simp only [List.length_cons, putLE, valLE, h1, h2, ih]

theorem valLE_lt (bs : List Byte) : valLE bs < 256 ^ bs.length := by
  induction bs with
  | nil => simp [valLE]
  | cons b bs ih =>
    have := b.isLt
    simp only [valLE, List.length_cons, Nat.pow_succ]
    omega

/-- A read of a fixed number `k` of bytes: complete, or the first bytes are overwritten with what there is. -/
structure Overwrites {α : Type} (k : Nat) (f : Into α) (put : α → List Byte) : Prop where
  len : ∀ a, (put a).length = k
  ok : ∀ a b rest, f a (put b ++ rest) = (b, .ok rest)
  cut : ∀ a q, q.length < k → ∃ a', f a q = (a', .throw) ∧ put a' = q ++ (put a).drop q.length

theorem overwrites_u32 : Overwrites 4 intoU32 putU32 where
  len a := putLE_length _ _
  ok a b rest := by
    have hl : (putLE 4 b.toNat).length = 4 := putLE_length _ _
    unfold intoU32 intoNat putU32
    rw [if_neg (by rw [List.length_append, hl]; omega), List.take_append_of_le_length (by omega), List.take_of_length_le (by omega),
      List.drop_append_of_le_length (by omega), List.drop_of_length_le (by omega), valLE_putLE, Nat.mod_eq_of_lt (by exact b.toNat_lt)]
    simp
  cut a q hq := by
    have hl : (q ++ (putLE 4 a.toNat).drop q.length).length = 4 := by
      rw [List.length_append, List.length_drop, putLE_length]; omega
    refine ⟨_, by unfold intoU32 intoNat; rw [if_pos hq], ?_⟩
    unfold putU32
    have hlt := valLE_lt (q ++ (putLE 4 a.toNat).drop q.length)
    rw [hl] at hlt
    rw [UInt32.toNat_ofNat_of_lt' (by exact hlt)]
    have := putLE_valLE (q ++ (putLE 4 a.toNat).drop q.length)
    rwa [hl] at this

theorem overwrites_u64 : Overwrites 8 intoU64 putU64 where
  len a := putLE_length _ _
  ok a b rest := by
    have hl : (putLE 8 b.toNat).length = 8 := putLE_length _ _
    unfold intoU64 intoNat putU64
    rw [if_neg (by rw [List.length_append, hl]; omega), List.take_append_of_le_length (by omega), List.take_of_length_le (by omega),
      List.drop_append_of_le_length (by omega), List.drop_of_length_le (by omega), valLE_putLE, Nat.mod_eq_of_lt (by exact b.toNat_lt)]
    simp
  cut a q hq := by
    have hl : (q ++ (putLE 8 a.toNat).drop q.length).length = 8 := by
      rw [List.length_append, List.length_drop, putLE_length]; omega
    refine ⟨_, by unfold intoU64 intoNat; rw [if_pos hq], ?_⟩
    unfold putU64
    have hlt := valLE_lt (q ++ (putLE 8 a.toNat).drop q.length)
    rw [hl] at hlt
    rw [UInt64.toNat_ofNat_of_lt' (by exact hlt)]
    have := putLE_valLE (q ++ (putLE 8 a.toNat).drop q.length)
    rwa [hl] at this

theorem overwrites_bool : Overwrites 1 intoBool putBool where
  len a := rfl
  ok a b rest := by cases b <;> rfl
  cut a q hq := by
    have : q = [] := List.length_eq_zero_iff.mp (by omega)
    subst this
    exact ⟨a, rfl, rfl⟩

/-! ### Records of numbers -/

/-- Reading the members whose bytes are `tail`; the members before them, with the bytes `pre`, are left alone. -/
structure Tail {σ : Type} (f : Into σ) (pre tail : σ → List Byte) : Prop where
  ok : ∀ o o1 rest, ∃ o', f o (tail o1 ++ rest) = (o', .ok rest) ∧ tail o' = tail o1 ∧ pre o' = pre o
  cut : ∀ o o1 q lost, lost ≠ [] → tail o1 = q ++ lost →
    ∃ o', f o q = (o', .throw) ∧ tail o' = q ++ (tail o).drop q.length ∧ pre o' = pre o

theorem Tail.last {σ α : Type} {k : Nat} {f : Into α} {put : α → List Byte} (hf : Overwrites k f put) {get : σ → α} {set : σ → α → σ}
    {pre : σ → List Byte} (h1 : ∀ o a, pre (set o a) = pre o) (h2 : ∀ o a, get (set o a) = a) :
    Tail (f.member get set) pre (fun o => put (get o)) where
  ok o o1 rest := ⟨set o (get o1), by unfold Into.member; rw [hf.ok], by rw [h2], h1 _ _⟩
  cut o o1 q lost hl e := by
    have hq : q.length < k := by
      have := congrArg List.length e
      rw [hf.len, List.length_append] at this
      have := List.length_pos_iff.mpr hl
      omega
    obtain ⟨a, ha, hp⟩ := hf.cut (get o) q hq
    exact ⟨set o a, by unfold Into.member; rw [ha], by rw [h2, hp], h1 _ _⟩

theorem Tail.cons {σ α : Type} {k : Nat} {f : Into α} {put : α → List Byte} (hf : Overwrites k f put) {get : σ → α} {set : σ → α → σ}
    {pre tail : σ → List Byte} {g : Into σ} (hg : Tail g (fun o => pre o ++ put (get o)) tail) (h1 : ∀ o a, pre (set o a) = pre o)
    (h2 : ∀ o a, get (set o a) = a) (h3 : ∀ o a, tail (set o a) = tail o) :
    Tail ((f.member get set).andThen g) pre (fun o => put (get o) ++ tail o) where
  ok o o1 rest := by
    have e1 : f.member get set o (put (get o1) ++ (tail o1 ++ rest)) = (set o (get o1), .ok (tail o1 ++ rest)) := by
      unfold Into.member; rw [hf.ok]
    obtain ⟨o', h4, h5, h6⟩ := hg.ok (set o (get o1)) o1 rest
    obtain ⟨h7, h8⟩ := List.append_inj' h6 (by rw [hf.len, hf.len])
    refine ⟨o', ?_, ?_, h7.trans (h1 _ _)⟩
    · unfold Into.andThen
      rw [List.append_assoc, e1]
      exact h4
    · show put (get o') ++ tail o' = _
      rw [h8, h5, h2]
  cut o o1 q lost hl e := by
    rcases Nat.lt_or_ge q.length k with hq | hq
    · obtain ⟨a, ha, hp⟩ := hf.cut (get o) q hq
      have e1 : f.member get set o q = (set o a, .throw) := by unfold Into.member; rw [ha]
      refine ⟨set o a, by unfold Into.andThen; rw [e1], ?_, h1 _ _⟩
      show put (get (set o a)) ++ tail (set o a) = q ++ (put (get o) ++ tail o).drop q.length
      rw [h2, h3, hp, List.drop_append_of_le_length (by rw [hf.len]; omega), List.append_assoc]
    · obtain ⟨q2, rfl⟩ : ∃ q2, q = put (get o1) ++ q2 := by
        refine ⟨q.drop k, ?_⟩
        have h4 := congrArg (List.take k) e
        rw [List.take_append_of_le_length (by rw [hf.len]), List.take_of_length_le (by rw [hf.len]),
          List.take_append_of_le_length hq] at h4
        rw [h4, List.take_append_drop]
      have e2 : tail o1 = q2 ++ lost := by
        rw [List.append_assoc] at e
        exact List.append_cancel_left e
      have e1 : f.member get set o (put (get o1) ++ q2) = (set o (get o1), .ok q2) := by
        unfold Into.member; rw [hf.ok]
      obtain ⟨o', h4, h5, h6⟩ := hg.cut (set o (get o1)) o1 q2 lost hl e2
      obtain ⟨h7, h8⟩ := List.append_inj' h6 (by rw [hf.len, hf.len])
      refine ⟨o', by unfold Into.andThen; rw [e1]; exact h4, ?_, h7.trans (h1 _ _)⟩
      show put (get o') ++ tail o' = put (get o1) ++ q2 ++ (put (get o) ++ tail o).drop (put (get o1) ++ q2).length
      rw [h8, h5, h2, h3, List.length_append, hf.len, List.append_assoc]
      congr 2
      have e3 : (put (get o) ++ tail o).drop k = tail o := by
        rw [← hf.len (get o), List.drop_left]
      rw [← List.drop_drop, e3]

theorem tail_options : Tail Options.loadInto (fun _ => []) fun o =>
    putU32 o.basisType ++ (putU64 o.basisLB ++ (putU64 o.basisUB ++ (putU32 o.posFuncType ++ (putU32 o.quadType ++
    (putU64 o.quadAbsTol ++ (putU64 o.quadRelTol ++ (putU32 o.quadMaxSub ++ (putU32 o.quadMinSub ++ (putU32 o.quadPts ++
    (putBool o.contDeriv ++ (putBool o.basisNorm ++ putU64 o.nugget))))))))))) := by
  unfold Options.loadInto
  refine .cons overwrites_u32 (.cons overwrites_u64 (.cons overwrites_u64 (.cons overwrites_u32 (.cons overwrites_u32
    (.cons overwrites_u64 (.cons overwrites_u64 (.cons overwrites_u32 (.cons overwrites_u32 (.cons overwrites_u32
    (.cons overwrites_bool (.cons overwrites_bool (.last overwrites_u64 ?_ ?_) ?_ ?_ ?_) ?_ ?_ ?_) ?_ ?_ ?_) ?_ ?_ ?_) ?_ ?_ ?_) ?_ ?_ ?_)
    ?_ ?_ ?_) ?_ ?_ ?_) ?_ ?_ ?_) ?_ ?_ ?_) ?_ ?_ ?_) ?_ ?_ ?_ <;> intro o a <;> rfl

theorem save_options (o : Options) : o.save =
    putU32 o.basisType ++ (putU64 o.basisLB ++ (putU64 o.basisUB ++ (putU32 o.posFuncType ++ (putU32 o.quadType ++
    (putU64 o.quadAbsTol ++ (putU64 o.quadRelTol ++ (putU32 o.quadMaxSub ++ (putU32 o.quadMinSub ++ (putU32 o.quadPts ++
    (putBool o.contDeriv ++ (putBool o.basisNorm ++ putU64 o.nugget))))))))))) := by
  unfold Options.save
  simp only [List.append_assoc]

theorem save_options_injective {o o' : Options} (h : o.save = o'.save) : o = o' := by
  have h1 := reads_options o []
  rw [h, reads_options o' []] at h1
  exact ((Prod.ext_iff.mp (Res.ok.inj h1)).1).symm

/-- Options that are saved and loaded into other options replace them. -/
theorem C106_options (o o1 : Options) (rest : List Byte) : Options.loadInto o (o1.save ++ rest) = (o1, .ok rest) := by
  obtain ⟨o', h1, h2, _⟩ := tail_options.ok o o1 rest
  rw [← save_options, ← save_options] at *
  rw [h1, save_options_injective h2]

/-- Loading options from an archive that was cut off fails, and the options are then the bytes of the archive followed by those that were there. -/
theorem C106_options_cut {o1 : Options} {q : List Byte} (h : CutOff q o1.save) (o : Options) :
    ∃ o', Options.loadInto o q = (o', .throw) ∧ o'.save = q ++ o.save.drop q.length := by
  obtain ⟨lost, hl, e⟩ := h
  rw [save_options] at e
  obtain ⟨o', h1, h2, _⟩ := tail_options.cut o o1 q lost hl e
  exact ⟨o', h1, by rw [save_options, save_options]; exact h2⟩

/-- The options that were there stay if the archive has no bytes, as that of a file that cannot be opened, or was cut off so early that it agrees with
them; in all other cases they do not. -/
theorem C106_options_unchanged_iff {o1 : Options} {q : List Byte} (h : CutOff q o1.save) (o : Options) :
    (Options.loadInto o q).1 = o ↔ q = o.save.take q.length := by
  obtain ⟨o', h1, h2⟩ := C106_options_cut h o
  rw [h1]
  show o' = o ↔ _
  constructor
  · rintro rfl
    conv_rhs => rw [h2]
    simp
  · intro hq
    refine save_options_injective (h2.trans ?_)
    conv_lhs => rw [hq]
    rw [show (o.save.take q.length).length = q.length from (congrArg List.length hq).symm]
    exact List.take_append_drop _ _

theorem C106_options_empty (o : Options) : Options.loadInto o [] = (o, .throw) := by
  have hc : CutOff [] o.save := ⟨o.save, by rw [save_options]; simp [putU32, putLE], rfl⟩
  have h := (C106_options_unchanged_iff hc o).mpr rfl
  obtain ⟨o', h1, _⟩ := C106_options_cut hc o
  rw [h1] at h ⊢
  rw [show o' = o from h]

/-- With other options in the archive there is a crash point that leaves options which are neither those that were there nor those of the archive. -/
theorem C106_fails_options {o o1 : Options} (h1 : o.basisType ≠ o1.basisType) (h2 : o.nugget ≠ o1.nugget) :
    ∃ q o', CutOff q o1.save ∧ Options.loadInto o q = (o', .throw) ∧ o' ≠ o ∧ o' ≠ o1 ∧ o'.basisType = o1.basisType ∧ o'.nugget = o.nugget := by
  obtain ⟨t, ht⟩ : ∃ t : Options → List Byte, ∀ p : Options, p.save = putU32 p.basisType ++ t p :=
    ⟨fun _ => _, fun p => save_options p⟩
  obtain ⟨u, hu⟩ : ∃ u : Options → List Byte, ∀ p : Options, p.save = u p ++ putU64 p.nugget := ⟨fun _ => _, fun p => rfl⟩
  have hc : CutOff (putU32 o1.basisType) o1.save := by
    refine ⟨t o1, fun e => ?_, ht o1⟩
    have := congrArg List.length (ht o1)
    rw [e, save_options] at this
    simp [putU32, putU64, putBool, putLE_length] at this
  obtain ⟨o', h3, h4⟩ := C106_options_cut hc o
  rw [ht o', ht o, List.drop_append_of_le_length (by simp [putU32, putLE_length])] at h4
  obtain ⟨h5, h6⟩ := List.append_inj h4 (by simp [putU32, putLE_length])
  have hb : o'.basisType = o1.basisType := by
    have h7 := reads_u32 o'.basisType []
    rw [h5, reads_u32 o1.basisType []] at h7
    exact ((Prod.ext_iff.mp (Res.ok.inj h7)).1).symm
  have hn : o'.nugget = o.nugget := by
    rw [show (putU32 o.basisType).drop (putU32 o1.basisType).length = [] from
      List.drop_of_length_le (by simp [putU32, putLE_length]), List.nil_append] at h6
    have hl : ∀ p : Options, 4 ≤ (u p).length := by
      intro p
      have := congrArg List.length (hu p)
      rw [save_options] at this
      simp [putU32, putU64, putBool, putLE_length] at this
      omega
    have hd : ∀ p : Options, (u p).drop 4 ++ putU64 p.nugget = t p := by
      intro p
      have h8 := congrArg (List.drop 4) ((hu p).symm.trans (ht p))
      have h9 : (putU32 p.basisType).drop 4 = [] := List.drop_of_length_le (by simp [putU32, putLE_length])
      rw [List.drop_append_of_le_length (hl p), List.drop_append_of_le_length (by simp [putU32, putLE_length]), h9,
        List.nil_append] at h8
      exact h8
    obtain ⟨_, h9⟩ := List.append_inj' ((hd o').trans (h6.trans (hd o).symm)) (by simp [putU64, putLE_length])
    have h7 := reads_u64 o'.nugget []
    rw [h9, reads_u64 o.nugget []] at h7
    exact ((Prod.ext_iff.mp (Res.ok.inj h7)).1).symm
  exact ⟨_, o', hc, h3, fun e => h1 (by rw [← e, hb]), fun e => h2 (by rw [← hn, e]), hb, hn⟩

/-! ### Multi-index sets -/

theorem intoView_ok {v : View UInt32} (h : Stored v) (old : View UInt32) (rest : List Byte) :
    intoView getU32 old (v.save putU32 ++ rest) = (v, .ok rest) := by
  unfold intoView
  rw [reads_stored reads_u32 h rest]

theorem intoView_cut {v : View UInt32} (h : Stored v) {q : List Byte} (hq : CutOff q (v.save putU32)) (old : View UInt32) :
    intoView getU32 old q = (old, .throw) := by
  unfold intoView
  rw [(Sound.view Sound.u32).cut (reads_stored reads_u32 h) hq]

theorem member_eq {σ α : Type} {f : Into α} {get : σ → α} {set : σ → α → σ} {o : σ} {bs : List Byte} {a : α} {r : Res (List Byte)}
    (h : f (get o) bs = (a, r)) : f.member get set o bs = (set o a, r) := by
  unfold Into.member; rw [h]

theorem andThen_ok {σ : Type} {f g : Into σ} {o o' : σ} {bs rest : List Byte} (h : f o bs = (o', .ok rest)) :
    f.andThen g o bs = g o' rest := by
  unfold Into.andThen; rw [h]

theorem andThen_throw {σ : Type} {f g : Into σ} {o o' : σ} {bs : List Byte} (h : f o bs = (o', .throw)) :
    f.andThen g o bs = (o', .throw) := by
  unfold Into.andThen; rw [h]

/-- An archive that is cut off ends within its first item or has all of this item. -/
theorem cut_append {q a b : List Byte} (h : CutOff q (a ++ b)) :
    (q.length < a.length ∧ CutOff q a) ∨ ∃ q2, q = a ++ q2 ∧ CutOff q2 b := by
  obtain ⟨lost, hl, e⟩ := h
  rcases List.append_eq_append_iff.mp e with ⟨c, h1, h2⟩ | ⟨c, h1, h2⟩
  · exact .inr ⟨c, h1, lost, hl, h2⟩
  · rcases Nat.eq_zero_or_pos c.length with h0 | h0
    · have : c = [] := List.length_eq_zero_iff.mp h0
      subst this
      exact .inr ⟨[], by simpa using h1.symm, lost, hl, by simpa using h2.symm⟩
    · exact .inl ⟨by rw [h1, List.length_append]; omega, c, List.length_pos_iff.mp h0, h1⟩

/-- A set that is saved and loaded into another set replaces it. -/
theorem C106_sets {s1 : SetObj} (h : StoredSet s1) (s : SetObj) (rest : List Byte) : SetObj.loadInto s (s1.save ++ rest) = (s1, .ok rest) := by
  obtain ⟨h1, h2, h3, h4⟩ := h
  unfold SetObj.save SetObj.loadInto
  simp only [List.append_assoc]
  rw [andThen_ok (member_eq (overwrites_u32.ok _ _ _)), andThen_ok (member_eq (overwrites_bool.ok _ _ _)),
    andThen_ok (member_eq (intoView_ok h1 _ _)), andThen_ok (member_eq (intoView_ok h2 _ _)),
    andThen_ok (member_eq (intoView_ok h3 _ _)), member_eq (intoView_ok h4 _ _)]

/-- Loading a set from an archive that was cut off fails. Afterwards the arrays that the archive had completely are those of the archive, and the other
arrays are those that were there. -/
theorem C106_sets_cut {s1 : SetObj} (h : StoredSet s1) {q : List Byte} (hq : CutOff q s1.save) (s : SetObj) :
    ∃ s', SetObj.loadInto s q = (s', .throw) ∧
      (5 ≤ q.length → s'.dim = s1.dim ∧ s'.isCompressed = s1.isCompressed) ∧
      s'.nzStarts = (if 5 + (s1.nzStarts.save putU32).length ≤ q.length then s1.nzStarts else s.nzStarts) ∧
      s'.nzDims = (if 5 + (s1.nzStarts.save putU32).length + (s1.nzDims.save putU32).length ≤ q.length then s1.nzDims else s.nzDims) ∧
      s'.nzOrders = (if 5 + (s1.nzStarts.save putU32).length + (s1.nzDims.save putU32).length + (s1.nzOrders.save putU32).length ≤ q.length
        then s1.nzOrders else s.nzOrders) ∧
      s'.maxDegrees = s.maxDegrees ∧ (q = [] → s' = s) := by
  obtain ⟨h1, h2, h3, h4⟩ := h
  unfold SetObj.save at hq
  simp only [List.append_assoc] at hq
  unfold SetObj.loadInto
  have l1 : (putU32 s1.dim).length = 4 := putLE_length _ _
  have l2 : (putBool s1.isCompressed).length = 1 := rfl
  rcases cut_append hq with ⟨hl, hc⟩ | ⟨q1, rfl, hq1⟩
  · obtain ⟨a, ha, hp⟩ := overwrites_u32.cut s.dim q (by omega)
    refine ⟨_, andThen_throw (member_eq ha), fun _ => by omega, ?_, ?_, ?_, rfl, ?_⟩
    · rw [if_neg (by omega)]
    · rw [if_neg (by omega)]
    · rw [if_neg (by omega)]
    · rintro rfl
      have : a = s.dim := by
        have h7 := reads_u32 a []
        rw [hp] at h7
        simp only [List.nil_append, List.length_nil, List.drop_zero] at h7
        rw [reads_u32 s.dim []] at h7
        exact ((Prod.ext_iff.mp (Res.ok.inj h7)).1).symm
      rw [this]
  rw [andThen_ok (member_eq (overwrites_u32.ok _ _ _))]
  simp only [List.length_append, l1]
  have hne : ∀ q', (putU32 s1.dim ++ q' : List Byte) ≠ [] := by
    intro q' e
    have := congrArg List.length e
    rw [List.length_append, l1] at this
    simp at this
  rcases cut_append hq1 with ⟨hl, hc⟩ | ⟨q2, rfl, hq2⟩
  · obtain ⟨a, ha, hp⟩ := overwrites_bool.cut s.isCompressed q1 (by omega)
    refine ⟨_, andThen_throw (member_eq ha), fun _ => by omega, ?_, ?_, ?_, rfl, fun e => absurd e (hne _)⟩
    · rw [if_neg (by omega)]
    · rw [if_neg (by omega)]
    · rw [if_neg (by omega)]
  rw [andThen_ok (member_eq (overwrites_bool.ok _ _ _))]
  simp only [List.length_append, l2]
  rcases cut_append hq2 with ⟨hl, hc⟩ | ⟨q3, rfl, hq3⟩
  · refine ⟨_, andThen_throw (member_eq (intoView_cut h1 hc _)), fun _ => ⟨rfl, rfl⟩, ?_, ?_, ?_, rfl, fun e => absurd e (hne _)⟩
    · rw [if_neg (by omega)]
    · rw [if_neg (by omega)]
    · rw [if_neg (by omega)]
  rw [andThen_ok (member_eq (intoView_ok h1 _ _))]
  simp only [List.length_append]
  rcases cut_append hq3 with ⟨hl, hc⟩ | ⟨q4, rfl, hq4⟩
  · refine ⟨_, andThen_throw (member_eq (intoView_cut h2 hc _)), fun _ => ⟨rfl, rfl⟩, ?_, ?_, ?_, rfl, fun e => absurd e (hne _)⟩
    · rw [if_pos (by omega)]
    · rw [if_neg (by omega)]
    · rw [if_neg (by omega)]
  rw [andThen_ok (member_eq (intoView_ok h2 _ _))]
  simp only [List.length_append]
  rcases cut_append hq4 with ⟨hl, hc⟩ | ⟨q5, rfl, hq5⟩
  · refine ⟨_, andThen_throw (member_eq (intoView_cut h3 hc _)), fun _ => ⟨rfl, rfl⟩, ?_, ?_, ?_, rfl, fun e => absurd e (hne _)⟩
    · rw [if_pos (by omega)]
    · rw [if_pos (by omega)]
    · rw [if_neg (by omega)]
  rw [andThen_ok (member_eq (intoView_ok h3 _ _))]
  simp only [List.length_append]
  refine ⟨_, member_eq (intoView_cut h4 hq5 _), fun _ => ⟨rfl, rfl⟩, ?_, ?_, ?_, rfl, fun e => absurd e (hne _)⟩
  · rw [if_pos (by omega)]
  · rw [if_pos (by omega)]
  · rw [if_pos (by omega)]

/-- A failed load can leave a set that no constructor makes: if the archive was cut off within the dimensions of the terms, then the offsets are already
those of the archive, and asking for a term that starts after the end of the old arrays reads memory that is not there. -/
theorem C106_fails_sets {s1 : SetObj} (h : StoredSet s1) (hc : s1.isCompressed = true) (s : SetObj) {i lo hi : Nat}
    (h1 : s1.toFixed.nzStarts[i]? = some lo) (h2 : s1.toFixed.nzStarts[i + 1]? = some hi) (h3 : lo < hi)
    (h4 : s.nzDims.data.length ≤ lo) {q : List Byte} (hq : CutOff q s1.save) (h5 : 5 + (s1.nzStarts.save putU32).length ≤ q.length)
    (h6 : q.length < 5 + (s1.nzStarts.save putU32).length + (s1.nzDims.save putU32).length) :
    ∃ s', SetObj.loadInto s q = (s', .throw) ∧ s'.toFixed.size = s1.toFixed.size ∧ s'.toFixed.indexToMulti i = .ub := by
  obtain ⟨s', e, e1, e2, e3, -⟩ := C106_sets_cut h hq s
  obtain ⟨-, e5⟩ := e1 (by omega)
  rw [if_pos h5] at e2
  rw [if_neg (by omega)] at e3
  have hs : s'.toFixed.nzStarts = s1.toFixed.nzStarts := by show s'.nzStarts.data.map _ = _; rw [e2]; rfl
  have hd : s'.toFixed.nzDims = s.nzDims.data.map UInt32.toNat := by show s'.nzDims.data.map _ = _; rw [e3]
  have hc' : s'.toFixed.isCompressed = true := e5.trans hc
  have hc1 : s1.toFixed.isCompressed = true := hc
  refine ⟨s', e, ?_, ?_⟩
  · simp [FixedSet.size, hc', hc1, hs]
  · obtain ⟨n, rfl⟩ : ∃ n, hi = lo + (n + 1) := ⟨hi - lo - 1, by omega⟩
    have g : Res.idx s'.toFixed.nzDims lo = .ub := by
      rw [hd]
      unfold Res.idx
      rw [List.getElem?_eq_none (by rw [List.length_map]; exact h4)]
    unfold FixedSet.indexToMulti
    rw [if_pos hc', hs, Res.idx_some h1, Res.idx_some h2, Res.bind_ok, Res.bind_ok, Nat.add_sub_cancel_left]
    unfold FixedSet.readLoop
    rw [g]
    rfl

/-! ## The hypotheses can be met -/

/-- Options with a nugget, and the same with another basis and no nugget; the file breaks off after three members. -/
example : ∃ o', Options.loadInto ⟨0, 1, 2, 0, 0, 3, 4, 5, 6, 7, true, false, 8⟩ ((⟨1, 9, 9, 0, 0, 3, 4, 5, 6, 7, false, true, 0⟩ : Options).save.take 20)
    = (o', .throw) ∧ o' = ⟨1, 9, 9, 0, 0, 3, 4, 5, 6, 7, true, false, 8⟩ := ⟨_, by decide +kernel, rfl⟩

example : ∃ q o', CutOff q (⟨1, 9, 9, 0, 0, 3, 4, 5, 6, 7, false, true, 0⟩ : Options).save ∧
    Options.loadInto ⟨0, 1, 2, 0, 0, 3, 4, 5, 6, 7, true, false, 8⟩ q = (o', .throw) := by
  obtain ⟨q, o', h1, h2, -⟩ := C106_fails_options (o := ⟨0, 1, 2, 0, 0, 3, 4, 5, 6, 7, true, false, 8⟩)
    (o1 := ⟨1, 9, 9, 0, 0, 3, 4, 5, 6, 7, false, true, 0⟩) (by decide) (by decide)
  exact ⟨q, o', h1, h2⟩

/-- The set with the constant term only, and a file with the terms 1 and x that breaks off in the second array. -/
example : ∃ s', SetObj.loadInto ⟨1, true, ⟨[], [0, 0], true⟩, ⟨[], [], true⟩, ⟨[], [], true⟩, ⟨[], [0], true⟩⟩
    ((⟨1, true, ⟨[], [0, 0, 1], true⟩, ⟨[], [0], true⟩, ⟨[], [1], true⟩, ⟨[], [1], true⟩⟩ : SetObj).save.take 40) = (s', .throw) ∧
    s'.toFixed.indexToMulti 1 = .ub := by
  obtain ⟨s', h1, -, h2⟩ := C106_fails_sets
    (s1 := ⟨1, true, ⟨[], [0, 0, 1], true⟩, ⟨[], [0], true⟩, ⟨[], [1], true⟩, ⟨[], [1], true⟩⟩)
    (by refine ⟨⟨rfl, ?_, ?_⟩, ⟨rfl, ?_, ?_⟩, ⟨rfl, ?_, ?_⟩, ⟨rfl, ?_, ?_⟩⟩ <;> simp) rfl
    ⟨1, true, ⟨[], [0, 0], true⟩, ⟨[], [], true⟩, ⟨[], [], true⟩, ⟨[], [0], true⟩⟩ (i := 1) (lo := 0) (hi := 1) rfl rfl (by omega) (by simp)
    (q := (⟨1, true, ⟨[], [0, 0, 1], true⟩, ⟨[], [0], true⟩, ⟨[], [1], true⟩, ⟨[], [1], true⟩⟩ : SetObj).save.take 40)
    ⟨_, by decide +kernel, (List.take_append_drop 40 _).symm⟩ (by decide +kernel) (by decide +kernel)
  exact ⟨s', h1, h2⟩

end Ser
end MParT
