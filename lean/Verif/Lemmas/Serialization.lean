import Verif.Spec.Serialization
/-! # Helper lemmas for saving and loading -/
namespace MParT
namespace Ser
open Spec

theorem putLE_length (k n : Nat) : (putLE k n).length = k := by
  induction k generalizing n with
  | zero => rfl
  | succ k ih => simp [putLE, ih]

theorem valLE_putLE (k n : Nat) : valLE (putLE k n) = n % 256 ^ k := by
  induction k generalizing n with
  | zero => simp [putLE, valLE, Nat.mod_one]
  | succ k ih =>
    simp only [putLE, valLE, ih]
    rw [Nat.pow_succ', Nat.mod_mul]

theorem getBytes_append (p rest : List Byte) : getBytes p.length (p ++ rest) = .ok (p, rest) := by
  simp [getBytes]

theorem getBytes_short {k : Nat} {s : List Byte} (h : s.length < k) : getBytes k s = .throw := by
  simp [getBytes, h]

namespace Spec
theorem Reads.bind {α β : Type} {g : Rd α} {p : List Byte} {a : α} {f : α → Rd β} {q : List Byte} {b : β}
    (h : Reads g p a) (h' : Reads (f a) q b) : Reads (g >>= f) (p ++ q) b := by
  intro rest
  show (match g (p ++ q ++ rest) with | .ok (a, s') => f a s' | .throw => .throw | .ub => .ub) = _
  rw [List.append_assoc, h]
  exact h' rest

theorem Reads.pure {α : Type} (a : α) : Reads (Pure.pure a : Rd α) [] a := fun _ => rfl

theorem Reads.last {α β : Type} {g : Rd α} {p : List Byte} {a : α} {f : α → Rd β} {b : β}
    (h : Reads g p a) (h' : ∀ s, f a s = .ok (b, s)) : Reads (g >>= f) p b := by
  have := Reads.bind (q := []) h (f := f) (b := b) (fun rest => h' rest)
  simpa using this
end Spec

theorem reads_bytes (p : List Byte) : Reads (getBytes p.length) p p := fun rest => getBytes_append p rest

theorem reads_bytes' {k : Nat} {p : List Byte} (h : p.length = k) : Reads (getBytes k) p p := by
  subst h; exact reads_bytes p

theorem reads_u32 (n : UInt32) : Reads getU32 (putU32 n) n := by
  refine Reads.last (reads_bytes' (putLE_length _ _)) fun s => ?_
  show Res.ok (UInt32.ofNat (valLE (putLE 4 n.toNat)), s) = _
  rw [valLE_putLE, Nat.mod_eq_of_lt (by exact n.toNat_lt), UInt32.ofNat_toNat]

theorem reads_u64 (n : UInt64) : Reads getU64 (putU64 n) n := by
  refine Reads.last (reads_bytes' (putLE_length _ _)) fun s => ?_
  show Res.ok (UInt64.ofNat (valLE (putLE 8 n.toNat)), s) = _
  rw [valLE_putLE, Nat.mod_eq_of_lt (by exact n.toNat_lt), UInt64.ofNat_toNat]

theorem reads_u32_nat {n : Nat} (h : n < 2 ^ 32) : Reads getU32 (putLE 4 n) (UInt32.ofNat n) := by
  have := reads_u32 (UInt32.ofNat n)
  rwa [putU32, UInt32.toNat_ofNat_of_lt' (by exact h)] at this

theorem reads_u64_nat {n : Nat} (h : n < 2 ^ 64) : Reads getU64 (putLE 8 n) (UInt64.ofNat n) := by
  have := reads_u64 (UInt64.ofNat n)
  rwa [putU64, UInt64.toNat_ofNat_of_lt' (by exact h)] at this

theorem reads_bool (b : Bool) : Reads getBool (putBool b) b := by
  intro rest; cases b <;> rfl

theorem reads_string {l : List Byte} (h : l.length < 2 ^ 64) : Reads getString (putString l) l := by
  refine Reads.bind (reads_u64_nat h) ?_
  rw [UInt64.toNat_ofNat_of_lt' (by exact h)]
  exact reads_bytes l

theorem reads_many {α : Type} {g : Rd α} {put : α → List Byte} (h : ∀ a, Reads g (put a) a) (l : List α) :
    Reads (getMany g l.length) (l.flatMap put) l := by
  induction l with
  | nil => exact Reads.pure _
  | cons a l ih =>
    show Reads _ (put a ++ l.flatMap put) _
    refine Reads.bind (h a) (Reads.last ih fun s => rfl)

theorem reads_view {α : Type} {g : Rd α} {put : α → List Byte} (h : ∀ a, Reads g (put a) a) {v : View α}
    (hd : v.data.length < 2 ^ 32) (hl : v.label.length < 2 ^ 64) :
    Reads (View.load g) (v.save put) ⟨v.label, v.data, true⟩ := by
  unfold View.save View.load
  rw [List.append_assoc]
  refine Reads.bind (reads_string hl) (Reads.bind (reads_u32_nat hd) ?_)
  rw [UInt32.toNat_ofNat_of_lt' (by exact hd)]
  by_cases h0 : v.data.length > 0
  · rw [if_pos h0, if_pos h0]
    exact Reads.last (reads_many h _) fun s => rfl
  · rw [if_neg h0, if_neg h0]
    have : v.data = [] := List.length_eq_zero_iff.1 (by omega)
    rw [this]
    exact Reads.pure _

theorem reads_stored {α : Type} {g : Rd α} {put : α → List Byte} (h : ∀ a, Reads g (put a) a) {v : View α}
    (hv : Stored v) : Reads (View.load g) (v.save put) v := by
  have := reads_view h hv.2.1 hv.2.2
  have e : (⟨v.label, v.data, true⟩ : View α) = v := by
    obtain ⟨a, b, c⟩ := v
    have : c = true := hv.1
    simp [this]
  rwa [e] at this

theorem reads_mat {α : Type} (z : α) {g : Rd α} {put : α → List Byte} (h : ∀ a, Reads g (put a) a) {v : MatView α}
    (hv : StoredMat v) : Reads (MatView.load z g) (v.save put) v := by
  obtain ⟨label, m, n, data, al⟩ := v
  obtain ⟨h1, h2, h3, h4, h5, h6⟩ := hv
  simp only at h1 h2 h3 h4 h5 h6
  unfold MatView.save MatView.load
  simp only [List.append_assoc]
  refine Reads.bind (reads_string h6) (Reads.bind (reads_u32_nat h2) (Reads.bind (reads_u32_nat h3) ?_))
  rw [UInt32.toNat_ofNat_of_lt' (by exact h2), UInt32.toNat_ofNat_of_lt' (by exact h3), Nat.mod_eq_of_lt h2,
    Nat.mod_eq_of_lt h3, Nat.mod_eq_of_lt h4]
  by_cases h0 : m > 0 ∧ n > 0
  · rw [if_pos h0, if_pos h0, ← h5, List.take_length]
    refine Reads.last (reads_many h _) fun s => ?_
    show Res.ok _ = _
    simp [h1]
  · rw [if_neg h0, if_neg h0]
    have h7 : data = [] := by
      refine List.length_eq_zero_iff.1 ?_
      rw [h5]
      rcases Nat.eq_zero_or_pos m with h8 | h8
      · simp [h8]
      · rcases Nat.eq_zero_or_pos n with h9 | h9
        · simp [h9]
        · exact absurd ⟨h8, h9⟩ h0
    rw [h7, h1]
    exact Reads.pure _

theorem reads_options (o : Options) : Reads Options.load o.save o := by
  unfold Options.save Options.load
  simp only [List.append_assoc]
  refine Reads.bind (reads_u32 _) (Reads.bind (reads_u64 _) (Reads.bind (reads_u64 _) (Reads.bind (reads_u32 _)
    (Reads.bind (reads_u32 _) (Reads.bind (reads_u64 _) (Reads.bind (reads_u64 _) (Reads.bind (reads_u32 _)
    (Reads.bind (reads_u32 _) (Reads.bind (reads_u32 _) (Reads.bind (reads_bool _) (Reads.bind (reads_bool _)
    (Reads.last (reads_u64 _) fun s => rfl))))))))))))

theorem reads_set {s : SetObj} (h : StoredSet s) : Reads SetObj.load s.save s := by
  obtain ⟨h1, h2, h3, h4⟩ := h
  unfold SetObj.save SetObj.load
  simp only [List.append_assoc]
  exact Reads.bind (reads_u32 _) (Reads.bind (reads_bool _) (Reads.bind (reads_stored reads_u32 h1)
    (Reads.bind (reads_stored reads_u32 h2) (Reads.bind (reads_stored reads_u32 h3)
    (Reads.last (reads_stored reads_u32 h4) fun s => rfl)))))

theorem reads_basis (b : Basis) : Reads (Basis.load b.ty) b.save b := by
  induction b with
  | poly n => exact Reads.last (reads_bool _) fun s => rfl
  | hermite n => exact Reads.last (reads_bool _) fun s => rfl
  | linearized b lb ub ih =>
    unfold Basis.save
    rw [List.append_assoc]
    exact Reads.bind ih (Reads.bind (reads_u64 _) (Reads.last (reads_u64 _) fun s => rfl))

theorem reads_quadBase {q : QuadBase} (h : OwnsWorkspace q) : Reads QuadBase.load q.save q := by
  obtain ⟨h1, h2, h3⟩ := h
  unfold QuadBase.save QuadBase.load
  simp only [List.append_assoc]
  refine Reads.bind (reads_u32 _) (Reads.bind (reads_u32 _) (Reads.bind (reads_u32 _)
    (Reads.last (reads_stored reads_u64 h1) fun s => ?_)))
  show Res.ok _ = _
  rw [if_pos h1.1, if_pos h2, ← h3]

theorem reads_recBase {q : RecBase} (h : OwnsWorkspace q.base) : Reads RecBase.load q.save q := by
  unfold RecBase.save RecBase.load
  simp only [List.append_assoc]
  exact Reads.bind (reads_quadBase h) (Reads.bind (reads_u32 _) (Reads.bind (reads_u32 _) (Reads.bind (reads_u64 _)
    (Reads.bind (reads_u64 _) (Reads.last (reads_u32 _) fun s => rfl)))))

theorem reads_quad {q : Quad} (h : StoredQuad q) : Reads (Quad.load q.ty) q.save q := by
  cases q with
  | clenshawCurtis b pts wts n =>
    obtain ⟨h1, h2, h3⟩ := h
    unfold Quad.save
    simp only [List.append_assoc]
    exact Reads.bind (reads_quadBase h1) (Reads.bind (reads_stored reads_u64 h2) (Reads.bind (reads_stored reads_u64 h3)
      (Reads.last (reads_u32 _) fun s => rfl)))
  | adaptiveSimpson r => exact Reads.last (reads_recBase h) fun s => rfl
  | adaptiveClenshawCurtis r cp cw fp fw =>
    obtain ⟨h1, h2, h3, h4, h5⟩ := h
    unfold Quad.save
    simp only [List.append_assoc]
    exact Reads.bind (reads_recBase h1) (Reads.bind (reads_stored reads_u64 h2) (Reads.bind (reads_stored reads_u64 h3)
      (Reads.bind (reads_stored reads_u64 h4) (Reads.last (reads_stored reads_u64 h5) fun s => rfl))))

theorem reads_expansion {e : Expansion} (h : StoredExpansion e) : Reads (Expansion.load e.basis.ty) e.save e := by
  obtain ⟨h1, h2, h3⟩ := h
  unfold Expansion.save Expansion.load
  simp only [List.append_assoc]
  refine Reads.bind (reads_u32 _) (Reads.bind (reads_set h1) (Reads.bind (reads_basis _)
    (Reads.bind (reads_stored reads_u32 h2) (Reads.last (reads_u32 _) fun s => ?_))))
  show Res.ok _ = _
  rw [← h3]

/-- What loading a component gives. -/
def Mono.reloaded (m : Mono) : Mono :=
  { m with coeffs := if m.coeffs.allocated then ⟨setCoeffsLabel, m.coeffs.data, true⟩ else .empty }

theorem Mono.reloaded_same {m : Mono} (h : StoredMono m) : SameMono m m.reloaded := by
  obtain ⟨-, -, n, -, h | h⟩ := h
  · simp [SameMono, Mono.reloaded, h.1.1]
  · simp [SameMono, Mono.reloaded, h.1, View.empty]

theorem reads_mono {m : Mono} (h : StoredMono m) :
    Reads (Mono.load m.pos m.expansion.basis.ty m.quad.ty) m.save m.reloaded := by
  obtain ⟨h1, h2, n, h3, h4⟩ := h
  unfold Mono.save Mono.load
  simp only [List.append_assoc]
  have hv : Reads (View.load getU64) (m.coeffs.save putU64) ⟨m.coeffs.label, m.coeffs.data, true⟩ := by
    refine reads_view reads_u64 ?_ ?_
    · rcases h4 with h | h
      · exact h.1.2.1
      · rw [h.1]; simp [View.empty]
    · rcases h4 with h | h
      · exact h.1.2.2
      · rw [h.1]; simp [View.empty]
  refine Reads.bind (reads_expansion h1) (Reads.bind (reads_quad h2) (Reads.bind (reads_bool _) (Reads.bind (reads_u64 _)
    (Reads.last hv fun s => ?_))))
  simp only [h3, Rd.mk]
  rcases h4 with h | h
  · rw [if_pos h.2]
    simp [Mono.reloaded, h.1.1]
  · have : m.coeffs.data.length ≠ n := by rw [h.1]; simpa [View.empty] using h.2.symm
    rw [if_neg this]
    simp [Mono.reloaded, h.1, View.empty]

/-! ### Pointers -/

theorem In.bind_ok {α β : Type} {m : In α} {f : α → In β} {s s' : InSt} {a : α} (h : m s = .ok (a, s')) :
    (m >>= f) s = f a s' := by
  show (match m s with | .ok (a, s') => f a s' | .throw => .throw | .ub => .ub) = _
  rw [h]

theorem In.assoc {α β γ : Type} (m : In α) (f : α → In β) (g : β → In γ) : (m >>= f) >>= g = m >>= fun x => f x >>= g := by
  funext s
  simp only [Bind.bind]
  cases m s <;> rfl

theorem In.pure_bind {α β : Type} (a : α) (f : α → In β) : (pure a : In α) >>= f = f a := rfl

theorem In.lift_reads {α : Type} {g : Rd α} {p : List Byte} {a : α} (h : Reads g p a) (rest : List Byte) (ic io) :
    In.lift g ⟨p ++ rest, ic, io⟩ = .ok (a, ⟨rest, ic, io⟩) := by
  simp [In.lift, h rest]

/-- The class numbers of the two archives agree. -/
def ClsOk (name : Class → List Byte) (oc : List (Class × Nat)) (ic : List (Nat × List Byte)) : Prop :=
  ∀ c k, oc.lookup c = some k → 0 < k ∧ k ≤ oc.length ∧ ic.lookup k = some (name c)

theorem clsOk_nil (name) : ClsOk name [] [] := by
  intro c k h; simp at h

theorem getClass_put {name : Class → List Byte} {classOf : List Byte → Option Class} {cs : List Class} (hreg : Registered name classOf cs)
    {c : Class} (hcs : c ∈ cs) (st : OutSt) {ic : List (Nat × List Byte)} (io : List (Nat × Obj)) (rest : List Byte)
    (hc : ClsOk name st.classes ic) (hl : st.classes.length < 2 ^ 30) :
    ∃ ic', getClass classOf ⟨(putClass name c st).1 ++ rest, ic, io⟩ = .ok (some c, ⟨rest, ic', io⟩) ∧
      ClsOk name (putClass name c st).2.classes ic' := by
  unfold putClass
  cases h : st.classes.lookup c with
  | some k =>
    obtain ⟨h1, h2, h3⟩ := hc c k h
    refine ⟨ic, ?_, hc⟩
    have hk : k < 2 ^ 32 := by omega
    unfold getClass
    rw [In.bind_ok (In.lift_reads (reads_u32_nat hk) rest ic io), UInt32.toNat_ofNat_of_lt' (by exact hk)]
    rw [if_neg (by omega), if_neg (by unfold msb; omega)]
    simp only [In.mk, h3, (hreg c hcs).1]
  | none =>
    refine ⟨(st.classes.length + 1, name c) :: ic, ?_, ?_⟩
    · have hk : st.classes.length + 1 + msb < 2 ^ 32 := by unfold msb; omega
      unfold getClass
      simp only [List.append_assoc]
      rw [In.bind_ok (In.lift_reads (reads_u32_nat hk) _ ic io), UInt32.toNat_ofNat_of_lt' (by exact hk)]
      rw [if_neg (by omega), if_pos (by omega), In.bind_ok (In.lift_reads (reads_string (hreg c hcs).2) rest ic io)]
      simp only [In.mk, (hreg c hcs).1, Nat.add_sub_cancel]
    · intro c' k' h'
      simp only [List.lookup_cons] at h'
      by_cases e : c' = c
      · subst e
        simp at h'
        subst h'
        simp
      · have e' : (c' == c) = false := by simpa using e
        rw [e'] at h'
        obtain ⟨h1, h2, h3⟩ := hc c' k' h'
        refine ⟨h1, by simp; omega, ?_⟩
        have : (k' == st.classes.length + 1) = false := by simp; omega
        simp only [List.lookup_cons, this, h3]

theorem putClass_objects (name) (c : Class) (st : OutSt) : (putClass name c st).2.objects = st.objects := by
  unfold putClass
  split <;> rfl

theorem putClass_length (name) (c : Class) (st : OutSt) : (putClass name c st).2.classes.length ≤ st.classes.length + 1 := by
  unfold putClass
  split <;> simp

/-- Objects loaded for new components, numbered from `k + 1`. -/
def loadedFrom : Nat → List (Nat × Mono) → List (Nat × Mono)
  | _, [] => []
  | k, (_, m) :: l => (k + 1, m.reloaded) :: loadedFrom (k + 1) l

/-- Components as objects. -/
def objs (l : List (Nat × Mono)) : List Obj := l.map fun p => .mono p.1 p.2

theorem putPtr_mono_new {name} {a : Nat} {m : Mono} {st : OutSt} (h : st.objects.lookup a = none) :
    putPtr name (.mono a m) st = ((putClass name (Obj.mono a m).cls st).1 ++ putLE 4 (st.objects.length + 1 + msb) ++ m.save,
      { (putClass name (Obj.mono a m).cls st).2 with objects := (a, st.objects.length + 1) :: st.objects }) := by
  unfold putPtr
  simp only [putClass_objects, h]

theorem getPtr_mono {name : Class → List Byte} {classOf : List Byte → Option Class} {cs : List Class} (hreg : Registered name classOf cs)
    {a : Nat} {m : Mono} {st : OutSt} {ic : List (Nat × List Byte)} (io : List (Nat × Obj)) (rest : List Byte) (fuel : Nat)
    (hcs : monoClass m ∈ cs) (hm : StoredMono m) (hc : ClsOk name st.classes ic) (hl : st.classes.length < 2 ^ 30) (hn : st.objects.lookup a = none)
    (ho : st.objects.length < 2 ^ 31 - 1) :
    ∃ ic' io', getPtr classOf (fuel + 1) ⟨(putPtr name (.mono a m) st).1 ++ rest, ic, io⟩ =
        .ok (some (.mono (st.objects.length + 1) m.reloaded), ⟨rest, ic', io'⟩) ∧
      ClsOk name (putPtr name (.mono a m) st).2.classes ic' := by
  rw [putPtr_mono_new hn]
  simp only [List.append_assoc]
  obtain ⟨ic', h1, h2⟩ := getClass_put hreg (c := (Obj.mono a m).cls) hcs st io
    (putLE 4 (st.objects.length + 1 + msb) ++ (m.save ++ rest)) hc hl
  have hk : st.objects.length + 1 + msb < 2 ^ 32 := by unfold msb; omega
  refine ⟨ic', (st.objects.length + 1, .mono (st.objects.length + 1) m.reloaded) :: io, ?_, h2⟩
  rw [getPtr, In.bind_ok h1]
  simp only
  rw [In.bind_ok (In.lift_reads (reads_u32_nat hk) _ ic' io), UInt32.toNat_ofNat_of_lt' (by exact hk), if_pos (by omega)]
  simp only [Obj.cls]
  rw [In.bind_ok (In.lift_reads (reads_mono hm) rest ic' io)]
  simp only [In.mk, Nat.add_sub_cancel]

theorem getPtrs_monos {name : Class → List Byte} {classOf : List Byte → Option Class} {cs : List Class} (hreg : Registered name classOf cs)
    (rest : List Byte) (ms : List (Nat × Mono)) (st : OutSt) (ic : List (Nat × List Byte)) (io : List (Nat × Obj)) (fuel : Nat)
    (hcs : ∀ p ∈ ms, monoClass p.2 ∈ cs) (hm : ∀ p ∈ ms, StoredMono p.2) (hc : ClsOk name st.classes ic)
    (hl : st.classes.length + ms.length < 2 ^ 30)
    (hn : ∀ p ∈ ms, st.objects.lookup p.1 = none) (hd : (ms.map Prod.fst).Nodup)
    (ho : st.objects.length + ms.length < 2 ^ 31) (hf : ms.length < fuel) :
    ∃ ic' io', getPtrs classOf fuel ms.length ⟨(putPtrs name (objs ms) st).1 ++ rest, ic, io⟩ =
        .ok ((objs (loadedFrom st.objects.length ms)).map some, ⟨rest, ic', io'⟩) := by
  induction ms generalizing st ic io fuel with
  | nil =>
    obtain ⟨f, rfl⟩ := Nat.exists_eq_succ_of_ne_zero (by omega : fuel ≠ 0)
    exact ⟨ic, io, rfl⟩
  | cons p ms ih =>
    obtain ⟨a, m⟩ := p
    obtain ⟨f, rfl⟩ := Nat.exists_eq_succ_of_ne_zero (by omega : fuel ≠ 0)
    simp only [List.length_cons] at hf hl ho
    obtain ⟨f, rfl⟩ := Nat.exists_eq_succ_of_ne_zero (by omega : f ≠ 0)
    have hna : st.objects.lookup a = none := hn (a, m) List.mem_cons_self
    rw [show objs ((a, m) :: ms) = Obj.mono a m :: objs ms from rfl]
    simp only [putPtrs, List.append_assoc, List.length_cons]
    obtain ⟨ic', io', h1, h2⟩ := getPtr_mono hreg (a := a) (m := m) io ((putPtrs name (objs ms) (putPtr name (.mono a m) st).2).1 ++ rest) f
      (hcs (a, m) List.mem_cons_self) (hm (a, m) List.mem_cons_self) hc (by omega) hna (by omega)
    have e := putPtr_mono_new (name := name) (m := m) hna
    have eo : (putPtr name (.mono a m) st).2.objects = (a, st.objects.length + 1) :: st.objects := by rw [e]
    have ec : (putPtr name (.mono a m) st).2.classes.length ≤ st.classes.length + 1 := by
      rw [e]; exact putClass_length _ _ _
    obtain ⟨ic'', io'', h3⟩ := ih (putPtr name (.mono a m) st).2 ic' io' (f + 1)
      (fun p hp => hcs p (List.mem_cons_of_mem _ hp)) (fun p hp => hm p (List.mem_cons_of_mem _ hp)) h2
      (by omega) (by
        intro p hp
        rw [eo, List.lookup_cons]
        have : (p.1 == a) = false := by
          simp only [List.map_cons, List.nodup_cons] at hd
          have : p.1 ≠ a := fun e => hd.1 (e ▸ List.mem_map_of_mem hp)
          simpa using this
        rw [this]
        exact hn p (List.mem_cons_of_mem _ hp))
      (by simp only [List.map_cons, List.nodup_cons] at hd; exact hd.2) (by rw [eo]; simp; omega) (by omega)
    refine ⟨ic'', io'', ?_⟩
    rw [getPtrs, In.bind_ok h1, In.bind_ok h3, eo]
    rfl

/-! ### Triangular maps -/

/-- The archive has numbers for the object and its class. -/
def Known (st : OutSt) (p : Nat × Mono) : Prop :=
  (∃ k, st.objects.lookup p.1 = some k) ∧ ∃ k, st.classes.lookup (Obj.mono p.1 p.2).cls = some k

theorem lookup_isSome_cons {α β : Type} [BEq α] [LawfulBEq α] {l : List (α × β)} {a b : α} {v : β}
    (h : ∃ k, l.lookup a = some k) : ∃ k, ((b, v) :: l).lookup a = some k := by
  rw [List.lookup_cons]
  by_cases e : (a == b) = true
  · rw [e]; exact ⟨v, rfl⟩
  · have : (a == b) = false := by simpa using e
    rw [this]; exact h

theorem putClass_mono (name) (c c' : Class) (st : OutSt) (h : ∃ k, st.classes.lookup c' = some k) :
    ∃ k, (putClass name c st).2.classes.lookup c' = some k := by
  unfold putClass
  split
  · exact h
  · exact lookup_isSome_cons h

theorem putClass_self (name) (c : Class) (st : OutSt) : ∃ k, (putClass name c st).2.classes.lookup c = some k := by
  unfold putClass
  split
  · rename_i k h; exact ⟨k, h⟩
  · exact ⟨_, by simp [List.lookup_cons]; rfl⟩

theorem putPtr_known {name} {p : Nat × Mono} {st : OutSt} (q : Nat × Mono) (h : Known st q) :
    Known (putPtr name (.mono p.1 p.2) st).2 q := by
  unfold putPtr
  simp only [putClass_objects]
  split
  · exact ⟨by rw [putClass_objects]; exact h.1, putClass_mono _ _ _ _ h.2⟩
  · exact ⟨lookup_isSome_cons h.1, putClass_mono _ _ _ _ h.2⟩

theorem putPtr_known_self {name} {p : Nat × Mono} {st : OutSt} : Known (putPtr name (.mono p.1 p.2) st).2 p := by
  unfold putPtr
  simp only [putClass_objects]
  split
  · rename_i k h
    exact ⟨by rw [putClass_objects]; exact ⟨k, h⟩, putClass_self _ _ _⟩
  · exact ⟨⟨st.objects.length + 1, by simp [List.lookup_cons]⟩, putClass_self _ _ _⟩

theorem putPtrs_known {name} (l : List (Nat × Mono)) (st : OutSt) {q : Nat × Mono} (h : Known st q) :
    Known (putPtrs name (objs l) st).2 q := by
  induction l generalizing st with
  | nil => exact h
  | cons p l ih => exact ih _ (putPtr_known q h)

theorem putPtrs_known_self {name} (l : List (Nat × Mono)) (st : OutSt) : ∀ q ∈ l, Known (putPtrs name (objs l) st).2 q := by
  induction l generalizing st with
  | nil => simp
  | cons p l ih =>
    intro q hq
    rcases List.mem_cons.1 hq with rfl | hq
    · exact putPtrs_known l _ putPtr_known_self
    · exact ih _ q hq

theorem putPtr_again {name} {st : OutSt} {p : Nat × Mono} (h : Known st p) :
    (putPtr name (.mono p.1 p.2) st).1.length = 8 ∧ (putPtr name (.mono p.1 p.2) st).2 = st := by
  obtain ⟨⟨k, h1⟩, ⟨k', h2⟩⟩ := h
  unfold putPtr
  have e : putClass name (Obj.mono p.1 p.2).cls st = (putLE 4 k', st) := by
    unfold putClass; rw [h2]
  simp only [e, h1]
  simp [putLE_length]

theorem putPtrs_again {name} {st : OutSt} (l : List (Nat × Mono)) (h : ∀ p ∈ l, Known st p) :
    (putPtrs name (objs l) st).1.length = 8 * l.length ∧ (putPtrs name (objs l) st).2 = st := by
  induction l with
  | nil => exact ⟨rfl, rfl⟩
  | cons p l ih =>
    obtain ⟨h1, h2⟩ := putPtr_again (name := name) (h p List.mem_cons_self)
    obtain ⟨h3, h4⟩ := ih fun q hq => h q (List.mem_cons_of_mem _ hq)
    show ((putPtr name (.mono p.1 p.2) st).1 ++ (putPtrs name (objs l) (putPtr name (.mono p.1 p.2) st).2).1).length = _ ∧
      (putPtrs name (objs l) (putPtr name (.mono p.1 p.2) st).2).2 = _
    rw [h2]
    refine ⟨?_, h4⟩
    simp [h1, h3]; omega

/-- Dimensions of the components. -/
def dims (ms : List (Nat × Mono)) : List Nat := ms.map fun p => p.2.expansion.multiSet.dim.toNat

theorem dims_loadedFrom (k : Nat) (ms : List (Nat × Mono)) : dims (loadedFrom k ms) = dims ms := by
  induction ms generalizing k with
  | nil => rfl
  | cons p l ih => simp only [loadedFrom, dims, List.map_cons] at ih ⊢; rw [ih]; rfl

theorem chain_objs (ms : List (Nat × Mono)) (h : (dims ms).IsChain (fun d d' => d' = d + 1)) : mkTri.chain (objs ms) = true := by
  induction ms with
  | nil => rfl
  | cons p l ih =>
    cases l with
    | nil => rfl
    | cons q l =>
      simp only [dims, List.map_cons, List.isChain_cons_cons] at h
      have := ih h.2
      simp only [objs, List.map_cons, mkTri.chain, Bool.and_eq_true] at this ⊢
      refine ⟨?_, this⟩
      simp [Obj.inputDim, Obj.outputDim, h.1]

theorem allSome_map (l : List Obj) : mkTri.allSome (l.map some) = some l := by
  induction l with
  | nil => rfl
  | cons o l ih => simp [mkTri.allSome, ih]

theorem mkTri_objs (k : Nat) (ms : List (Nat × Mono)) (mv : Bool) (h0 : ms ≠ []) (hd : ∀ d ∈ dims ms, 0 < d)
    (hc : (dims ms).IsChain (fun d d' => d' = d + 1)) :
    mkTri k ((objs ms).map some) mv =
      if mv then
        if ∀ p ∈ ms, p.2.coeffs.allocated = true then
          .ok (triOf k ms ⟨triLabel, allCoeffs ms, true⟩)
        else .throw
      else .ok (triOf k ms .empty) := by
  unfold mkTri
  rw [allSome_map]
  obtain ⟨p, l, rfl⟩ := List.exists_cons_of_ne_nil h0
  have h1 : (objs (p :: l)).any (fun o => decide (o.outputDim > o.inputDim)) = false := by
    rw [List.any_eq_false]
    intro o ho
    simp only [objs, List.mem_map] at ho
    obtain ⟨q, hq, rfl⟩ := ho
    have := hd q.2.expansion.multiSet.dim.toNat (List.mem_map_of_mem (f := fun p : Nat × Mono => p.2.expansion.multiSet.dim.toNat) hq)
    simp only [Obj.inputDim, Obj.outputDim, decide_eq_true_eq, gt_iff_lt, not_lt]
    exact this
  have h2 := chain_objs (p :: l) hc
  have h3 : ((objs (p :: l)).all fun o => o.coeffs.allocated) = decide (∀ q ∈ p :: l, q.2.coeffs.allocated = true) := by
    rw [Bool.eq_iff_iff]
    simp [objs, Obj.coeffs]
  have h4 : ((objs (p :: l)).flatMap fun o => o.coeffs.data) = allCoeffs (p :: l) := by
    simp [objs, Obj.coeffs, allCoeffs, List.flatMap_map]
  have e : objs (p :: l) = Obj.mono p.1 p.2 :: objs l := rfl
  rw [e] at h1 h2 h3 h4 ⊢
  simp only [h1, h2, h3, h4]
  cases mv
  · simp [triOf, objs]
  · by_cases hh : ∀ q ∈ p :: l, q.2.coeffs.allocated = true
    · rw [if_pos rfl, if_pos hh]; simp only [decide_eq_true hh]; simp [triOf, objs]
    · rw [if_pos rfl, if_neg hh]; simp only [decide_eq_false hh]; simp

/-- What follows the part of the bytes of a triangular map that is read. -/
def leftover (n : Nat) (again : List Byte) (mv : Bool) : List Byte := (putLE 8 n).tail ++ again ++ putBool mv

theorem putLE8_cons (n : Nat) : putLE 8 n = ⟨n % 256, Nat.mod_lt _ (by decide)⟩ :: (putLE 8 n).tail := rfl

theorem putPtr_tri_new {name} {a : Nat} {comps : List Obj} {c : View Dbl} {st : OutSt} (h : st.objects.lookup a = none) :
    putPtr name (.tri a comps c) st =
      let st1 : OutSt := { (putClass name .tri st).2 with objects := (a, st.objects.length + 1) :: st.objects }
      let q1 := putPtrs name comps st1
      let q2 := putPtrs name comps q1.2
      ((putClass name .tri st).1 ++ putLE 4 (st.objects.length + 1 + msb) ++ (putLE 8 comps.length ++ q1.1) ++
        (putLE 8 comps.length ++ q2.1) ++ putBool (c.allocated && decide (c.data.length > 0)), q2.2) := by
  unfold putPtr
  simp only [putClass_objects, h]

theorem getPtr_tri {name : Class → List Byte} {classOf : List Byte → Option Class} {cs : List Class} (hreg : Registered name classOf cs)
    {a : Nat} {ms : List (Nat × Mono)} (c : View Dbl) {st : OutSt} {ic : List (Nat × List Byte)} (io : List (Nat × Obj))
    (rest : List Byte) (fuel : Nat) (htri : .tri ∈ cs) (hcs : ∀ p ∈ ms, monoClass p.2 ∈ cs) (hs : StoredTri a ms)
    (hc : ClsOk name st.classes ic) (hl : st.classes.length + ms.length + 1 < 2 ^ 30)
    (hn : ∀ b ∈ a :: ms.map Prod.fst, st.objects.lookup b = none)
    (ho : st.objects.length + ms.length + 1 < 2 ^ 31) (hf : ms.length < fuel) :
    ∃ again ic' io', again.length = 8 * ms.length ∧
      getPtr classOf (fuel + 1) ⟨(putPtr name (triOf a ms c) st).1 ++ rest, ic, io⟩ =
        if ms.length % 256 ≠ 0 then
          if ∀ p ∈ ms, p.2.coeffs.allocated = true then
            .ok (some (triOf (st.objects.length + 1) (loadedFrom (st.objects.length + 1) ms) ⟨triLabel, allCoeffs ms, true⟩),
              ⟨leftover ms.length again (c.allocated && decide (c.data.length > 0)) ++ rest, ic', io'⟩)
          else .throw
        else .ok (some (triOf (st.objects.length + 1) (loadedFrom (st.objects.length + 1) ms) .empty),
          ⟨leftover ms.length again (c.allocated && decide (c.data.length > 0)) ++ rest, ic', io'⟩) := by
  obtain ⟨hs0, hs1, hs2, hs3, hs4, hs5⟩ := hs
  have hna := hn a List.mem_cons_self
  rw [triOf, show (ms.map fun p : Nat × Mono => Obj.mono p.1 p.2) = objs ms from rfl, putPtr_tri_new hna]
  have hlen : (objs ms).length = ms.length := by simp [objs]
  simp only [List.append_assoc, hlen]
  generalize hst1 : (OutSt.mk (putClass name .tri st).2.classes ((a, st.objects.length + 1) :: st.objects)) = st1
  have e1 : st1.objects = (a, st.objects.length + 1) :: st.objects := by rw [← hst1]
  have e2 : st1.classes = (putClass name .tri st).2.classes := by rw [← hst1]
  have hcl := putClass_length name .tri st
  obtain ⟨ic', h1, h2⟩ := getClass_put hreg htri st io
    (putLE 4 (st.objects.length + 1 + msb) ++ (putLE 8 ms.length ++ ((putPtrs name (objs ms) st1).1 ++ (putLE 8 ms.length ++
      ((putPtrs name (objs ms) (putPtrs name (objs ms) st1).2).1 ++
        (putBool (c.allocated && decide (c.data.length > 0)) ++ rest)))))) hc (by omega)
  have hk : st.objects.length + 1 + msb < 2 ^ 32 := by unfold msb; omega
  obtain ⟨ic2, io2, h3⟩ := getPtrs_monos hreg (putLE 8 ms.length ++
      ((putPtrs name (objs ms) (putPtrs name (objs ms) st1).2).1 ++
        (putBool (c.allocated && decide (c.data.length > 0)) ++ rest))) ms st1 ic' io fuel hcs hs3 (by rw [e2]; exact h2)
      (by rw [e2]; omega) (by
        intro p hp
        rw [e1, List.lookup_cons]
        have : (p.1 == a) = false := by
          simp only [List.nodup_cons] at hs2
          have : p.1 ≠ a := fun e => hs2.1 (e ▸ List.mem_map_of_mem hp)
          simpa using this
        rw [this]
        exact hn p.1 (List.mem_cons_of_mem _ (List.mem_map_of_mem hp)))
      (by simp only [List.nodup_cons] at hs2; exact hs2.2) (by rw [e1]; simp; omega) hf
  have hag := (putPtrs_again (name := name) ms (putPtrs_known_self (name := name) ms st1)).1
  refine ⟨(putPtrs name (objs ms) (putPtrs name (objs ms) st1).2).1, ic2, (st.objects.length + 1,
    if ms.length % 256 ≠ 0 then triOf (st.objects.length + 1) (loadedFrom (st.objects.length + 1) ms) ⟨triLabel, allCoeffs ms, true⟩
    else triOf (st.objects.length + 1) (loadedFrom (st.objects.length + 1) ms) .empty) :: io2, hag, ?_⟩
  have hlt : ms.length < 2 ^ 64 := by omega
  rw [getPtr, In.bind_ok h1]
  simp only
  rw [In.bind_ok (In.lift_reads (reads_u32_nat hk) _ ic' io), UInt32.toNat_ofNat_of_lt' (by exact hk), if_pos (by omega)]
  rw [In.bind_ok (In.lift_reads (reads_u64_nat hlt) _ ic' io), UInt64.toNat_ofNat_of_lt' (by exact hlt), In.bind_ok h3]
  have hb : In.lift getBool ⟨putLE 8 ms.length ++ ((putPtrs name (objs ms) (putPtrs name (objs ms) st1).2).1 ++
        (putBool (c.allocated && decide (c.data.length > 0)) ++ rest)), ic2, io2⟩ =
      .ok (ms.length % 256 != 0, ⟨leftover ms.length (putPtrs name (objs ms) (putPtrs name (objs ms) st1).2).1
        (c.allocated && decide (c.data.length > 0)) ++ rest, ic2, io2⟩) := by
    rw [putLE8_cons]
    simp only [leftover, List.append_assoc]
    generalize hx : (⟨ms.length % 256, Nat.mod_lt _ (by decide)⟩ : Byte) = x
    have hx' : x.val = ms.length % 256 := by rw [← hx]
    have : Reads getBool [x] (ms.length % 256 != 0) := by
      intro r
      show Res.ok (x.val + 256 * 0 != 0, r) = _
      rw [hx']
      rfl
    exact In.lift_reads this _ _ _
  rw [In.bind_ok hb]
  simp only [In.mk, Nat.add_sub_cancel]
  rw [e1]
  have hne : loadedFrom (st.objects.length + 1) ms ≠ [] := by
    obtain ⟨p, l, rfl⟩ := List.exists_cons_of_ne_nil hs0
    simp [loadedFrom]
  simp only [List.length_cons]
  rw [mkTri_objs _ _ _ hne (by
      rw [dims_loadedFrom]; intro d hd; simp only [dims, List.mem_map] at hd; obtain ⟨p, hp, rfl⟩ := hd; exact hs4 p hp)
    (by rw [dims_loadedFrom]; exact hs5)]
  have hall : (∀ p ∈ loadedFrom (st.objects.length + 1) ms, p.2.coeffs.allocated = true) ↔ ∀ p ∈ ms, p.2.coeffs.allocated = true := by
    generalize st.objects.length + 1 = k
    clear * -
    induction ms generalizing k with
    | nil => simp [loadedFrom]
    | cons p l ih =>
      simp only [loadedFrom, List.forall_mem_cons, ih]
      refine and_congr ?_ Iff.rfl
      unfold Mono.reloaded
      cases h : p.2.coeffs.allocated <;> simp [View.empty]
  by_cases h5 : ms.length % 256 ≠ 0
  · have hb5 : (ms.length % 256 != 0) = true := by simpa using h5
    rw [hb5, if_pos rfl]
    simp only [if_pos h5, hall]
    by_cases h6 : ∀ p ∈ ms, p.2.coeffs.allocated = true
    · have hco : allCoeffs (loadedFrom (st.objects.length + 1) ms) = allCoeffs ms := by
        generalize st.objects.length + 1 = k
        clear * - h6
        induction ms generalizing k with
        | nil => simp [loadedFrom]
        | cons p l ih =>
          simp only [loadedFrom, allCoeffs, List.flatMap_cons] at ih ⊢
          rw [ih (fun p hp => h6 p (List.mem_cons_of_mem _ hp))]
          simp [Mono.reloaded, h6 p List.mem_cons_self]
      simp only [if_pos h6, hco]
    · simp only [if_neg h6]
  · have hb5 : (ms.length % 256 != 0) = false := by simpa using h5
    rw [hb5]
    simp only [if_neg h5]
    rfl

theorem putPtr_tri_length {name} {a : Nat} {ms : List (Nat × Mono)} {c : View Dbl} {st : OutSt} (h : st.objects.lookup a = none) :
    ms.length < (putPtr name (triOf a ms c) st).1.length := by
  rw [triOf, show (ms.map fun p : Nat × Mono => Obj.mono p.1 p.2) = objs ms from rfl, putPtr_tri_new h]
  generalize hst1 : (OutSt.mk (putClass name .tri st).2.classes ((a, st.objects.length + 1) :: st.objects)) = st1
  have := (putPtrs_again (name := name) ms (putPtrs_known_self (name := name) ms st1)).1
  simp only [List.length_append, putLE_length, this]
  omega

/-- The start of reading a triangular map: class, object number and number of components. -/
theorem getPtr_tri_start {name : Class → List Byte} {classOf : List Byte → Option Class} {cs : List Class} (hreg : Registered name classOf cs)
    {a : Nat} (comps : List Obj) (c : View Dbl) {st : OutSt} {ic : List (Nat × List Byte)} (io : List (Nat × Obj))
    (rest : List Byte) (fuel : Nat) (htri : .tri ∈ cs) (hc : ClsOk name st.classes ic) (hl : st.classes.length < 2 ^ 30)
    (hn : st.objects.lookup a = none) (ho : st.objects.length < 2 ^ 31 - 1) (hlt : comps.length < 2 ^ 64) :
    ∃ st1 ic' rest', st1.objects = (a, st.objects.length + 1) :: st.objects ∧ ClsOk name st1.classes ic' ∧
      st1.classes.length ≤ st.classes.length + 1 ∧
      (putPtrs name comps st1).1.length + 12 ≤ (putPtr name (.tri a comps c) st).1.length ∧
      getPtr classOf (fuel + 1) ⟨(putPtr name (.tri a comps c) st).1 ++ rest, ic, io⟩ =
        (getPtrs classOf fuel comps.length >>= fun comps => In.lift getBool >>= fun mv => In.mk fun s =>
          match mkTri (st.objects.length + 1) comps mv with
            | .ok o => .ok (some o, { s with objects := (st.objects.length + 1, o) :: s.objects })
            | .throw => .throw
            | .ub => .ub) ⟨(putPtrs name comps st1).1 ++ rest', ic', io⟩ := by
  rw [putPtr_tri_new hn]
  simp only [List.append_assoc]
  generalize hst1 : (OutSt.mk (putClass name .tri st).2.classes ((a, st.objects.length + 1) :: st.objects)) = st1
  obtain ⟨ic', h1, h2⟩ := getClass_put hreg htri st io
    (putLE 4 (st.objects.length + 1 + msb) ++ (putLE 8 comps.length ++ ((putPtrs name comps st1).1 ++ (putLE 8 comps.length ++
      ((putPtrs name comps (putPtrs name comps st1).2).1 ++
        (putBool (c.allocated && decide (c.data.length > 0)) ++ rest)))))) hc hl
  have hk : st.objects.length + 1 + msb < 2 ^ 32 := by unfold msb; omega
  refine ⟨st1, ic', (putLE 8 comps.length ++
      ((putPtrs name comps (putPtrs name comps st1).2).1 ++
        (putBool (c.allocated && decide (c.data.length > 0)) ++ rest))), by rw [← hst1], by rw [← hst1]; exact h2,
        by rw [← hst1]; exact putClass_length _ _ _, by
          simp only [List.length_append, putLE_length]; omega, ?_⟩
  rw [getPtr, In.bind_ok h1]
  simp only
  rw [In.bind_ok (In.lift_reads (reads_u32_nat hk) _ ic' io), UInt32.toNat_ofNat_of_lt' (by exact hk), if_pos (by omega)]
  rw [In.bind_ok (In.lift_reads (reads_u64_nat hlt) _ ic' io), UInt64.toNat_ofNat_of_lt' (by exact hlt), Nat.add_sub_cancel]
  rfl

theorem leftover_small {n : Nat} (h : n < 256) (again : List Byte) (mv : Bool) :
    leftover n again mv = List.replicate 7 0 ++ (again ++ putBool mv) := by
  have h1 : n / 256 = 0 := Nat.div_eq_of_lt h
  simp [leftover, putLE, h1, List.replicate]

theorem getPtr_null {classOf : List Byte → Option Class} (fuel : Nat) (rest : List Byte) (ic io) :
    getPtr classOf (fuel + 1) ⟨List.replicate 4 0 ++ rest, ic, io⟩ = .ok (none, ⟨rest, ic, io⟩) := by
  have h : getClass classOf ⟨List.replicate 4 0 ++ rest, ic, io⟩ = .ok (none, ⟨rest, ic, io⟩) := by
    have := In.lift_reads (reads_u32_nat (n := 0) (by decide)) rest ic io
    unfold getClass
    rw [show List.replicate 4 (0 : Byte) = putLE 4 0 from rfl, In.bind_ok this]
    rfl
  rw [getPtr, In.bind_ok h]
  rfl

theorem triOf_outputDim (a : Nat) (ms : List (Nat × Mono)) (c : View Dbl) : (triOf a ms c).outputDim = ms.length := by
  unfold triOf
  simp only [Obj.outputDim]
  induction ms with
  | nil => rfl
  | cons p l ih => simp only [List.map_cons, Obj.outputDim.sumDims, ih, Obj.outputDim, List.length_cons]; omega

theorem lastDim_ge (ms : List (Nat × Mono)) (k : Nat) (hd : ∀ d ∈ dims ms, k < d)
    (hc : (dims ms).IsChain (fun d d' => d' = d + 1)) (h0 : ms ≠ []) : k + ms.length ≤ Obj.inputDim.lastDim (objs ms) := by
  induction ms generalizing k with
  | nil => exact absurd rfl h0
  | cons p l ih =>
    cases l with
    | nil =>
      have := hd p.2.expansion.multiSet.dim.toNat (by simp [dims])
      simp only [objs, List.map_cons, List.map_nil, Obj.inputDim.lastDim, Obj.inputDim, List.length_cons, List.length_nil]
      omega
    | cons q l =>
      simp only [dims, List.map_cons, List.isChain_cons_cons] at hc
      have hp := hd p.2.expansion.multiSet.dim.toNat (by simp [dims])
      have := ih (k + 1) (by
        intro d hd'
        have key : ∀ (l : List Nat) (x : Nat), k + 1 < x → (x :: l).IsChain (fun d d' => d' = d + 1) → ∀ d ∈ x :: l, k + 1 < d := by
          intro l
          induction l with
          | nil => intro x hx _ d hd; simp at hd; omega
          | cons y l ih' =>
            intro x hx hch d hd
            rw [List.isChain_cons_cons] at hch
            rcases List.mem_cons.1 hd with rfl | hd
            · exact hx
            · exact ih' y (by omega) hch.2 d hd
        simp only [dims, List.map_cons] at hd'
        exact key _ _ (by omega) hc.2 d hd') (by simpa [dims] using hc.2) (by simp)
      simp only [objs, List.map_cons, Obj.inputDim.lastDim] at this ⊢
      simp only [List.length_cons] at this ⊢
      omega

end Ser
end MParT
