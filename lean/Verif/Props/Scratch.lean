import Verif.Spec.Scratch
import Verif.Model.Quadrature
import Mathlib.Tactic.Ring
import Mathlib.Tactic.Linarith
/-!
# C98: scratch memory is large enough and not shared
-/
namespace MParT.Scratch
open Spec

/-! ### Where the views are -/

/-- The length of the views before view `i`. -/
def before (ns : List Nat) (i : Nat) : Nat := (ns.take i).sum

theorem before_succ {ns : List Nat} {i n : Nat} (h : ns[i]? = some n) : before ns (i + 1) = before ns i + n := by
  unfold before
  rw [List.take_succ, h, List.sum_append, Option.toList_some, List.sum_singleton]

theorem before_mono {ns : List Nat} {i j : Nat} (h : i ≤ j) : before ns i ≤ before ns j := by
  unfold before
  obtain ⟨d, rfl⟩ := Nat.exists_eq_add_of_le h
  rw [List.take_add, List.sum_append]
  omega

theorem before_le (ns : List Nat) (i : Nat) : before ns i ≤ ns.sum := by
  have := congrArg List.sum (List.take_append_drop i ns)
  rw [List.sum_append] at this
  unfold before
  omega

theorem takeViews_get (T r last : Nat) : ∀ (ns : List Nat) (iter : Nat), iter % 8 = 0 → iter + 8 * (T * ns.sum) ≤ last →
    ∀ (i n : Nat), ns[i]? = some n → (takeViews T r last ns iter)[i]? = some (some (iter + 8 * (T * before ns i) + 8 * (r * n)))
  | [], _, _, _, _, _, h => by simp at h
  | m :: ns, iter, ha, hl, i, n, h => by
    have hb : ¬ last < iter + 8 * m * T := by
      rw [List.sum_cons, Nat.mul_add] at hl
      have : 8 * m * T = 8 * (T * m) := by ring
      have := Nat.zero_le (T * ns.sum)
      omega
    have hg : getShmem T r last (8 * m) iter = (some (iter + r * (8 * m)), iter + 8 * m * T) := by
      unfold getShmem
      simp only [ha, if_true, hb, if_false]
    unfold takeViews
    simp only [hg]
    cases i with
    | zero =>
      simp only [List.getElem?_cons_zero, Option.some.injEq] at h ⊢
      subst h
      simp [before]
      ring
    | succ i =>
      rw [List.getElem?_cons_succ] at h ⊢
      have h8 : 8 * m * T = 8 * (T * m) := by ring
      rw [takeViews_get T r last ns (iter + 8 * m * T) (by omega) (by
        rw [List.sum_cons, Nat.mul_add] at hl
        omega) i n h]
      congr 2
      have : before (m :: ns) (i + 1) = m + before ns i := by simp [before]
      rw [this]
      ring

/-- Nothing of what a kernel asks for is lost to 32-bit arithmetic. -/
theorem asked_eq (k : Kernel) (s : Sizes) (h : total (k.views s) < 2 ^ 32) : k.asked s = total (k.views s) := by
  cases k <;> simp only [Kernel.views, Kernel.asked, total, List.sum_cons, List.sum_nil] at h ⊢ <;> omega

theorem bytes_eq {pad : Nat} {k : Kernel} {s : Sizes} (h : 8 * total (k.views s) + pad < 2 ^ 32) :
    k.cacheBytes pad s = 8 * total (k.views s) + pad := by
  unfold Kernel.cacheBytes
  rw [asked_eq k s (by omega)]
  exact Nat.mod_eq_of_lt h

theorem view_addr {pad : Nat} {k : Kernel} {s : Sizes} (h : 8 * total (k.views s) + pad < 2 ^ 32) (T r : Nat) {i n : Nat}
    (hi : (k.views s)[i]? = some n) :
    (takeViews T r (teamBytes T (k.cacheBytes pad s)) (k.views s) 0)[i]? =
      some (some (8 * (T * before (k.views s) i) + 8 * (r * n))) := by
  rw [takeViews_get T r _ (k.views s) 0 rfl ?_ i n hi]
  · simp
  · rw [bytes_eq h]
    unfold teamBytes total
    rw [Nat.mul_add]
    have : 8 * (T * (k.views s).sum) = T * (8 * (k.views s).sum) := by ring
    have := Nat.zero_le (T * pad)
    omega

/-- Every view of every thread of a team lies in the memory of the team, whatever the size of the team, and no two of them
overlap. -/
theorem C98_apart (pad : Nat) (k : Kernel) (s : Sizes) (h : 8 * total (k.views s) + pad < 2 ^ 32) (T : Nat) :
    (∀ r < T, ∀ (i n : Nat), (k.views s)[i]? = some n →
      ∃ b, (takeViews T r (teamBytes T (k.cacheBytes pad s)) (k.views s) 0)[i]? = some (some b) ∧
        b + 8 * n ≤ teamBytes T (k.cacheBytes pad s)) ∧
    ∀ r < T, ∀ r' < T, ∀ i n b i' n' b' : Nat, (k.views s)[i]? = some n → (k.views s)[i']? = some n' → (r, i) ≠ (r', i') →
      (takeViews T r (teamBytes T (k.cacheBytes pad s)) (k.views s) 0)[i]? = some (some b) →
      (takeViews T r' (teamBytes T (k.cacheBytes pad s)) (k.views s) 0)[i']? = some (some b') →
      Apart b (b + 8 * n) b' (b' + 8 * n') := by
  have key (i r n : Nat) (hr : r < T) (hi : (k.views s)[i]? = some n) :
      8 * (T * before (k.views s) i) + 8 * (r * n) + 8 * n ≤ 8 * (T * before (k.views s) (i + 1)) := by
    rw [before_succ hi, Nat.mul_add]
    have : (r + 1) * n ≤ T * n := Nat.mul_le_mul_right _ hr
    rw [Nat.succ_mul] at this
    omega
  constructor
  · intro r hr i n hi
    refine ⟨_, view_addr h T r hi, le_trans (key i r n hr hi) ?_⟩
    rw [bytes_eq h]
    unfold teamBytes
    have h1 := Nat.mul_le_mul_left T (before_le (k.views s) (i + 1))
    have h2 : T * (8 * total (k.views s) + pad) = 8 * (T * (k.views s).sum) + T * pad := by unfold total; ring
    omega
  · intro r hr r' hr' i n b i' n' b' hi hi' hne hb hb'
    rw [view_addr h T r hi] at hb
    rw [view_addr h T r' hi'] at hb'
    cases hb
    cases hb'
    have k1 := key i r n hr hi
    have k2 := key i' r' n' hr' hi'
    unfold Apart
    rcases Nat.lt_trichotomy i i' with hlt | rfl | hgt
    · have := Nat.mul_le_mul_left T (before_mono (ns := k.views s) (show i + 1 ≤ i' from hlt))
      left
      omega
    · rw [hi] at hi'
      cases hi'
      rcases Nat.lt_trichotomy r r' with hlt | rfl | hgt
      · left
        have : (r + 1) * n ≤ r' * n := Nat.mul_le_mul_right _ hlt
        rw [Nat.succ_mul] at this
        omega
      · exact absurd rfl hne
      · right
        have : (r' + 1) * n ≤ r * n := Nat.mul_le_mul_right _ hgt
        rw [Nat.succ_mul] at this
        omega
    · have := Nat.mul_le_mul_left T (before_mono (ns := k.views s) (show i' + 1 ≤ i from hgt))
      right
      omega

/-! ### Threads do not disturb each other -/

/-- The address of entry `e` of view `v` of thread `r`. -/
def addr (ns : List Nat) (T r v e : Nat) : Nat := 8 * (T * before ns v) + 8 * (r * ns.getD v 0) + 8 * e

theorem addr_inj {ns : List Nat} {T r r' v v' e e' : Nat} (hr : r < T) (hr' : r' < T) (he : e < ns.getD v 0) (he' : e' < ns.getD v' 0)
    (h : addr ns T r v e = addr ns T r' v' e') : r = r' ∧ v = v' ∧ e = e' := by
  have get (v e : Nat) (he : e < ns.getD v 0) : ns[v]? = some (ns.getD v 0) := by
    rw [List.getD_eq_getElem?_getD] at he ⊢
    cases hv : ns[v]? with
    | none => rw [hv] at he; simp at he
    | some n => rfl
  have key (v r e : Nat) (hr : r < T) (he : e < ns.getD v 0) :
      T * before ns v + r * ns.getD v 0 + e < T * before ns (v + 1) := by
    rw [before_succ (get v e he), Nat.mul_add]
    have : (r + 1) * ns.getD v 0 ≤ T * ns.getD v 0 := Nat.mul_le_mul_right _ hr
    rw [Nat.succ_mul] at this
    omega
  unfold addr at h
  have k1 := key v r e hr he
  have k2 := key v' r' e' hr' he'
  rcases Nat.lt_trichotomy v v' with hlt | rfl | hgt
  · have := Nat.mul_le_mul_left T (before_mono (ns := ns) (show v + 1 ≤ v' from hlt))
    omega
  · rcases Nat.lt_trichotomy r r' with hlt | rfl | hgt
    · have : (r + 1) * ns.getD v 0 ≤ r' * ns.getD v 0 := Nat.mul_le_mul_right _ hlt
      rw [Nat.succ_mul] at this
      omega
    · exact ⟨rfl, rfl, by omega⟩
    · have : (r' + 1) * ns.getD v 0 ≤ r * ns.getD v 0 := Nat.mul_le_mul_right _ hgt
      rw [Nat.succ_mul] at this
      omega
  · have := Nat.mul_le_mul_left T (before_mono (ns := ns) (show v' + 1 ≤ v from hgt))
    omega

theorem entryAddr_eq {pad : Nat} {k : Kernel} {s : Sizes} (h : 8 * total (k.views s) + pad < 2 ^ 32) (T r : Nat) {v e : Nat}
    (he : e < (k.views s).getD v 0) :
    entryAddr (takeViews T r (teamBytes T (k.cacheBytes pad s)) (k.views s) 0) (k.views s) v e = .ok (addr (k.views s) T r v e) := by
  have hv : (k.views s)[v]? = some ((k.views s).getD v 0) := by
    rw [List.getD_eq_getElem?_getD] at he ⊢
    cases hv : (k.views s)[v]? with
    | none => rw [hv] at he; simp at he
    | some n => rfl
  unfold entryAddr addr
  rw [view_addr h T r hv, hv]
  simp only [he, if_true]

/-- The state of thread `r` as it appears in the memory of the team. -/
def mine {σ α : Type} (ns : List Nat) (T : Nat) (t : Team σ α) (r : Nat) : Alone σ α := ⟨t.regs r, fun v e => t.mem (addr ns T r v e)⟩

/-- Equal registers and equal entries. -/
def Same {σ α : Type} (ns : List Nat) (a b : Alone σ α) : Prop := a.regs = b.regs ∧ ∀ v e, e < ns.getD v 0 → a.views v e = b.views v e

theorem step_own {σ α : Type} {pad : Nat} {k : Kernel} {s : Sizes} (h : 8 * total (k.views s) + pad < 2 ^ 32) {T r : Nat} (hr : r < T)
    {prog : Nat → σ → Option (Step σ α)} {t : Team σ α} {a a' : Alone σ α} (hs : Same (k.views s) (mine (k.views s) T t r) a)
    (ha : a.step (prog r) (k.views s) = .ok a') :
    ∃ t', t.step prog (k.views s) (fun r => takeViews T r (teamBytes T (k.cacheBytes pad s)) (k.views s) 0) r = .ok t' ∧
      Same (k.views s) (mine (k.views s) T t' r) a' ∧
      ∀ r' < T, r' ≠ r → Same (k.views s) (mine (k.views s) T t' r') (mine (k.views s) T t r') := by
  have hreg : t.regs r = a.regs := hs.1
  unfold Alone.step at ha
  unfold Team.step
  rw [hreg]
  cases hp : prog r a.regs with
  | none =>
    rw [hp] at ha
    cases ha
    exact ⟨t, rfl, hs, fun _ _ _ => ⟨rfl, fun _ _ _ => rfl⟩⟩
  | some st =>
    rw [hp] at ha
    cases st with
    | load v e f =>
      simp only at ha ⊢
      split at ha
      · next he =>
        cases ha
        rw [entryAddr_eq h T r he]
        refine ⟨_, rfl, ⟨?_, fun v' e' h' => hs.2 v' e' h'⟩, fun r' _ hne => ⟨?_, fun _ _ _ => rfl⟩⟩
        · simp only [mine, Function.update_self]
          rw [← hs.2 v e he]
          rfl
        · simp only [mine, Function.update_of_ne hne]
      · cases ha
    | store v e f =>
      simp only at ha ⊢
      split at ha
      · next he =>
        cases ha
        rw [entryAddr_eq h T r he]
        refine ⟨_, rfl, ⟨?_, fun v' e' h' => ?_⟩, fun r' hr' hne => ⟨?_, fun v' e' h' => ?_⟩⟩
        · simp only [mine, Function.update_self]
        · simp only [mine]
          by_cases hve : v' = v ∧ e' = e
          · obtain ⟨rfl, rfl⟩ := hve
            simp
          · rw [if_neg hve, Function.update_of_ne, ← hs.2 v' e' h']
            · rfl
            · intro hc
              obtain ⟨-, h1, h2⟩ := addr_inj hr hr h' he hc
              exact hve ⟨h1, h2⟩
        · simp only [mine, Function.update_of_ne hne]
        · simp only [mine]
          rw [Function.update_of_ne]
          intro hc
          exact hne (addr_inj hr' hr h' he hc).1
      · cases ha

/-- Whatever the size of the team and the order of the steps: if each thread, alone with memory of its own, uses only entries
that exist, then the threads on the memory of the team do what they do alone. -/
theorem C98_private {σ α : Type} (pad : Nat) (k : Kernel) (s : Sizes) (h : 8 * total (k.views s) + pad < 2 ^ 32) (T : Nat)
    (prog : Nat → σ → Option (Step σ α)) (schedule : List Nat) (hsched : ∀ r ∈ schedule, r < T)
    (t : Team σ α) (alone after : Nat → Alone σ α)
    (hstart : ∀ r < T, (alone r).regs = t.regs r ∧ ∀ v e b n : Nat, (k.views s)[v]? = some n → e < n →
      (takeViews T r (teamBytes T (k.cacheBytes pad s)) (k.views s) 0)[v]? = some (some b) → (alone r).views v e = t.mem (b + 8 * e))
    (hrun : ∀ r < T, (alone r).steps (prog r) (k.views s) (schedule.count r) = .ok (after r)) :
    ∃ t', runKernel pad k s T prog schedule t = .ok t' ∧ ∀ r < T, t'.regs r = (after r).regs ∧
      ∀ v e b n : Nat, (k.views s)[v]? = some n → e < n →
        (takeViews T r (teamBytes T (k.cacheBytes pad s)) (k.views s) 0)[v]? = some (some b) → t'.mem (b + 8 * e) = (after r).views v e := by
  have hconv (v n : Nat) (hv : (k.views s)[v]? = some n) : (k.views s).getD v 0 = n := by
    rw [List.getD_eq_getElem?_getD, hv]; rfl
  have hback (v e : Nat) (he : e < (k.views s).getD v 0) : (k.views s)[v]? = some ((k.views s).getD v 0) := by
    rw [List.getD_eq_getElem?_getD] at he ⊢
    cases hv : (k.views s)[v]? with
    | none => rw [hv] at he; simp at he
    | some n => rfl
  have hsame : ∀ r < T, Same (k.views s) (mine (k.views s) T t r) (alone r) := by
    intro r hr
    refine ⟨(hstart r hr).1.symm, fun v e he => ?_⟩
    exact ((hstart r hr).2 v e _ _ (hback v e he) he (view_addr h T r (hback v e he))).symm
  have main : ∀ (schedule : List Nat) (t : Team σ α) (alone : Nat → Alone σ α), (∀ r ∈ schedule, r < T) →
      (∀ r < T, Same (k.views s) (mine (k.views s) T t r) (alone r)) →
      (∀ r < T, (alone r).steps (prog r) (k.views s) (schedule.count r) = .ok (after r)) →
      ∃ t', runKernel pad k s T prog schedule t = .ok t' ∧ ∀ r < T, Same (k.views s) (mine (k.views s) T t' r) (after r) := by
    intro schedule
    induction schedule with
    | nil =>
      intro t alone _ hs hr
      refine ⟨t, rfl, fun r hrT => ?_⟩
      have h0 : alone r = after r := Res.ok.inj (hr r hrT)
      rw [← h0]
      exact hs r hrT
    | cons q rest ih =>
      intro t alone hq hs hr
      have hqT := hq q List.mem_cons_self
      have h1 := hr q hqT
      rw [List.count_cons_self] at h1
      unfold Alone.steps at h1
      obtain ⟨a', ha', h2⟩ := Res.bind_eq_ok.mp h1
      obtain ⟨t1, ht1, hs1, ho⟩ := step_own h hqT (hs q hqT) ha'
      obtain ⟨t', ht', hfin⟩ := ih t1 (Function.update alone q a') (fun r hr => hq r (List.mem_cons_of_mem _ hr)) (by
        intro r hrT
        by_cases hrq : r = q
        · subst hrq
          rw [Function.update_self]
          exact hs1
        · rw [Function.update_of_ne hrq]
          have h3 := ho r hrT hrq
          exact ⟨h3.1.trans (hs r hrT).1, fun v e he => (h3.2 v e he).trans ((hs r hrT).2 v e he)⟩) (by
        intro r hrT
        by_cases hrq : r = q
        · subst hrq
          rw [Function.update_self]
          exact h2
        · rw [Function.update_of_ne hrq]
          have := hr r hrT
          rwa [List.count_cons_of_ne (Ne.symm hrq)] at this)
      refine ⟨t', ?_, hfin⟩
      unfold runKernel at ht' ⊢
      unfold Team.run
      exact Res.bind_eq_ok.mpr ⟨t1, ht1, ht'⟩
  obtain ⟨t', h1, h2⟩ := main schedule t alone hsched hsame hrun
  refine ⟨t', h1, fun r hr => ⟨(h2 r hr).1, fun v e b n hv he hb => ?_⟩⟩
  rw [view_addr h T r hv] at hb
  cases hb
  have := (h2 r hr).2 v e (by rw [hconv v n hv]; exact he)
  simp only [mine, addr, hconv v n hv] at this
  exact this

/-! ### Which sizes fit -/

/-- The condition of `C98_apart` and `C98_private` holds for every kernel if it holds for the largest, and then the workspace has
the size the rule wants. -/
theorem C98_fits (k : Kernel) (cacheSize numTerms dim maxSub : Nat) (pad : Nat)
    (h : 8 * (cacheSize + (2 * maxSub + 5) * (max numTerms dim + 2) + 2 * maxSub + 2 * max numTerms dim + 2) + pad < 2 ^ 32) :
    8 * total (k.views ⟨cacheSize, numTerms, dim, .adaptiveSimpson maxSub⟩) + pad < 2 ^ 32 ∧
    8 * total (k.views ⟨cacheSize, numTerms, dim, .adaptiveClenshawCurtis maxSub⟩) + pad < 2 ^ 32 ∧
    8 * total (k.views ⟨cacheSize, numTerms, dim, .clenshawCurtis⟩) + pad < 2 ^ 32 ∧
    k.workspaceSize ⟨cacheSize, numTerms, dim, .adaptiveSimpson maxSub⟩ =
      AdaptiveSimpson.workspaceSize maxSub (k.fdim ⟨cacheSize, numTerms, dim, .adaptiveSimpson maxSub⟩) ∧
    k.workspaceSize ⟨cacheSize, numTerms, dim, .adaptiveClenshawCurtis maxSub⟩ =
      AdaptiveClenshawCurtis.workspaceSize maxSub (k.fdim ⟨cacheSize, numTerms, dim, .adaptiveClenshawCurtis maxSub⟩) := by
  have hN1 : numTerms ≤ max numTerms dim := le_max_left _ _
  have hN2 : dim ≤ max numTerms dim := le_max_right _ _
  generalize max numTerms dim = N at *
  have hf : ∀ r, k.fdim ⟨cacheSize, numTerms, dim, r⟩ ≤ N + 2 ∧
      (k = .coeffJacobian ∨ k = .discreteMixedJacobian ∨ k = .inputJacobian → k.fdim ⟨cacheSize, numTerms, dim, r⟩ ≤ N + 1) := by
    intro r
    cases k <;> simp [Kernel.fdim] <;> omega
  have hm : ∀ x, x ≤ N + 2 → (2 * maxSub + 5) * x + 2 * maxSub ≤ (2 * maxSub + 5) * (N + 2) + 2 * maxSub := fun x hx =>
    Nat.add_le_add_right (Nat.mul_le_mul_left _ hx) _
  have hm' : ∀ x, x ≤ N + 1 → (2 * maxSub + 5) * x + 2 * maxSub + 5 ≤ (2 * maxSub + 5) * (N + 2) + 2 * maxSub := fun x hx => by
    have := Nat.mul_le_mul_left (2 * maxSub + 5) (show x + 1 ≤ N + 2 by omega)
    rw [Nat.mul_add, Nat.mul_one] at this
    omega
  have hc : ∀ x, (maxSub + 5) * x ≤ (2 * maxSub + 5) * x := fun x => Nat.mul_le_mul_right _ (by omega)
  have hx : ∀ x, x ≤ (2 * maxSub + 5) * x := fun x => Nat.le_mul_of_pos_left _ (by omega)
  have w1 : ∀ s : Sizes, s.rule = .adaptiveSimpson maxSub → k.fdim s ≤ N + 2 →
      k.workspaceSize s = (2 * maxSub + 5) * k.fdim s + 2 * maxSub := by
    intro s hs hk
    unfold Kernel.workspaceSize
    rw [hs]
    have := hm _ hk
    exact Nat.mod_eq_of_lt (by omega)
  have w2 : ∀ s : Sizes, s.rule = .adaptiveClenshawCurtis maxSub → k.fdim s ≤ N + 2 →
      k.workspaceSize s = (maxSub + 5) * k.fdim s + 2 * maxSub := by
    intro s hs hk
    unfold Kernel.workspaceSize
    rw [hs]
    have := hm _ hk
    have := hc (k.fdim s)
    exact Nat.mod_eq_of_lt (by omega)
  have w3 : ∀ s : Sizes, s.rule = .clenshawCurtis → k.fdim s ≤ N + 2 → k.workspaceSize s = k.fdim s := by
    intro s hs hk
    unfold Kernel.workspaceSize
    rw [hs]
    have := hm _ hk
    have := hx (k.fdim s)
    exact Nat.mod_eq_of_lt (by omega)
  have tot : ∀ s : Sizes, s.cacheSize = cacheSize → s.numTerms = numTerms → s.dim = dim →
      k.workspaceSize s ≤ (2 * maxSub + 5) * k.fdim s + 2 * maxSub → k.fdim s ≤ N + 2 →
      (k = .coeffJacobian ∨ k = .discreteMixedJacobian ∨ k = .inputJacobian → k.fdim s ≤ N + 1) →
      8 * total (k.views s) + pad < 2 ^ 32 := by
    intro s h1 h2 h3 hw hk hk'
    have a1 := hm _ hk
    cases k <;> simp only [Kernel.views, total, List.sum_cons, List.sum_nil, h1, h2, h3] <;> try omega
    all_goals
      have a2 := hm' _ (hk' (by simp))
      omega
  refine ⟨tot _ rfl rfl rfl ?_ (hf _).1 (hf _).2, tot _ rfl rfl rfl ?_ (hf _).1 (hf _).2, tot _ rfl rfl rfl ?_ (hf _).1 (hf _).2,
    w1 _ rfl (hf _).1, w2 _ rfl (hf _).1⟩
  · rw [w1 _ rfl (hf _).1]
  · rw [w2 _ rfl (hf _).1]
    have := hc (k.fdim ⟨cacheSize, numTerms, dim, .adaptiveClenshawCurtis maxSub⟩)
    omega
  · rw [w3 _ rfl (hf _).1]
    have := hx (k.fdim ⟨cacheSize, numTerms, dim, .clenshawCurtis⟩)
    omega

theorem takeViews_null (T r last : Nat) : ∀ (ns : List Nat) (iter : Nat), iter % 8 = 0 → last < iter + 8 * (T * ns.sum) → 0 < ns.length →
    ∃ i n : Nat, ns[i]? = some n ∧ (takeViews T r last ns iter)[i]? = some none
  | [], _, _, _, h => absurd h (by simp)
  | m :: ns, iter, ha, hl, _ => by
    have h8 : 8 * m * T = 8 * (T * m) := by ring
    unfold takeViews getShmem
    simp only [ha, if_true]
    by_cases hb : last < iter + 8 * m * T
    · exact ⟨0, m, rfl, by simp [hb]⟩
    · simp only [hb, if_false]
      rw [List.sum_cons, Nat.mul_add] at hl
      have hne : 0 < ns.length := by
        cases ns with
        | nil => simp at hl; omega
        | cons a l => simp
      obtain ⟨i, n, h1, h2⟩ := takeViews_null T r last ns (iter + 8 * m * T) (by omega) (by omega) hne
      exact ⟨i + 1, n, by simpa using h1, by simpa using h2⟩

/-- **Violation.** When the number of bytes does not fit an `unsigned int`, too little memory is asked for, every thread gets a
null pointer for one of its views, and using that view is undefined. -/
theorem C98_fails_large (pad : Nat) (k : Kernel) (s : Sizes) (T : Nat) (hT : 0 < T) (h : k.cacheBytes pad s < 8 * total (k.views s))
    (r : Nat) : ∃ v n : Nat, (k.views s)[v]? = some n ∧
      ∀ e, entryAddr (takeViews T r (teamBytes T (k.cacheBytes pad s)) (k.views s) 0) (k.views s) v e = .ub := by
  have hlt : teamBytes T (k.cacheBytes pad s) < 0 + 8 * (T * (k.views s).sum) := by
    unfold teamBytes
    have h1 := Nat.mul_lt_mul_of_pos_left h hT
    unfold total at h1
    have : T * (8 * (k.views s).sum) = 8 * (T * (k.views s).sum) := by ring
    omega
  obtain ⟨v, n, h1, h2⟩ := takeViews_null T r _ (k.views s) 0 rfl hlt (by
    cases k <;> simp [Kernel.views])
  refine ⟨v, n, h1, fun e => ?_⟩
  unfold entryAddr
  rw [h2]

/-- With the default `quadMaxSub` of 30 this happens in the coefficient gradient of a component with 8.3 million terms. -/
example (T r : Nat) (hT : 0 < T) : ∃ v n : Nat, (Kernel.coeffJacobian.views ⟨100, 8300000, 2, .adaptiveSimpson 30⟩)[v]? = some n ∧
    ∀ e, entryAddr (takeViews T r (teamBytes T (Kernel.coeffJacobian.cacheBytes 8 ⟨100, 8300000, 2, .adaptiveSimpson 30⟩))
      (Kernel.coeffJacobian.views ⟨100, 8300000, 2, .adaptiveSimpson 30⟩) 0)
      (Kernel.coeffJacobian.views ⟨100, 8300000, 2, .adaptiveSimpson 30⟩) v e = .ub :=
  C98_fails_large 8 _ _ T hT (by decide) r

/-- **Violation.** A `quadMaxSub` of 2^30 (meant as no limit) makes the size of the workspace wrap around to 5 entries; each
integration, of whatever function, writes beyond them. -/
theorem C98_fails_maxSub (q : Recursive) (hsub : q.maxSub = 2 ^ 30) (hdim : q.fdim = 1) (ws res : Mem) (f : Integrand) (lb ub : ℝ)
    (hws : ws.size = (Rule.adaptiveSimpson q.maxSub).workspaceSize q.fdim) (hres : 1 ≤ res.size) (fuel : Nat) :
    AdaptiveSimpson.integrate q ws f lb ub res fuel = .ub := by
  have h5 : ws.size = 5 := by rw [hws, hsub, hdim]; decide
  have hw (m : Mem) (i : Nat) (v : ℝ) (h : i < m.size) : m.write i v = .ok ⟨m.size, Function.update m.val i v⟩ := by
    unfold Mem.write; rw [if_pos h]
  have hub (m : Mem) (i : Nat) (v : ℝ) (h : ¬ i < m.size) : m.write i v = .ub := by
    unfold Mem.write; rw [if_neg h]
  unfold AdaptiveSimpson.integrate zeroFill Integrand.call
  rw [hdim]
  simp only [forLoop, Nat.add_zero, hw res 0 _ (by omega), Res.bind_ok]
  rw [hw ws 0 _ (by omega)]
  simp only [Res.bind_ok]
  rw [hw _ 1 _ (by simp only; omega)]
  simp only [Res.bind_ok]
  rw [hw _ (2 * 1) _ (by simp only; omega)]
  simp only [Res.bind_ok]
  rw [hub _ (5 * 1) _ (by simp only; omega)]
  rfl

/-! ## The hypotheses can be met -/

/-- A component in ten variables with five thousand terms: all kernels fit, for all three rules. -/
example (k : Kernel) : 8 * total (k.views ⟨1000, 5000, 10, .adaptiveSimpson 30⟩) + 8 < 2 ^ 32 :=
  (C98_fits k 1000 5000 10 30 8 (by decide)).1

/-- A thread writes its number to an entry of its first view and reads it back. -/
def exProg (r : Nat) (s : Nat × Nat) : Option (Step (Nat × Nat) Nat) :=
  if s.1 = 0 then some (.store 0 1 fun s => (r, (1, s.2))) else if s.1 = 1 then some (.load 0 1 fun _ x => (2, x)) else none

/-- Two threads of one team, each of which writes its number to its cache and reads it back, in any order. -/
example (schedule : List Nat) (hs : ∀ r ∈ schedule, r < 2) (h0 : schedule.count 0 = 2) (h1 : schedule.count 1 = 2) (t : Team (Nat × Nat) Nat)
    (hr0 : t.regs 0 = (0, 7)) (hr1 : t.regs 1 = (0, 7)) :
    ∃ t', runKernel 8 .evaluate ⟨3, 1, 1, .clenshawCurtis⟩ 2 exProg schedule t = .ok t' ∧ ∀ r < 2, (t'.regs r).2 = r := by
  obtain ⟨t', h, h'⟩ := C98_private 8 .evaluate ⟨3, 1, 1, .clenshawCurtis⟩ (by decide) 2 exProg schedule hs t (fun r => mine (Kernel.evaluate.views ⟨3, 1, 1, .clenshawCurtis⟩) 2 t r)
    (fun r => ⟨(2, r), fun v e => if v = 0 ∧ e = 1 then r else
      (mine (Kernel.evaluate.views ⟨3, 1, 1, .clenshawCurtis⟩) 2 t r).views v e⟩)
    (by
      intro r _
      refine ⟨rfl, fun v e b n hv he hb => ?_⟩
      rw [view_addr (by decide) 2 r hv] at hb
      cases hb
      simp only [mine, addr, List.getD_eq_getElem?_getD, hv, Option.getD_some])
    (by
      intro r hr
      have hreg : t.regs r = (0, 7) := by rcases (by omega : r = 0 ∨ r = 1) with rfl | rfl <;> assumption
      have hcount : schedule.count r = 2 := by rcases (by omega : r = 0 ∨ r = 1) with rfl | rfl <;> assumption
      rw [hcount]
      simp [Alone.steps, Alone.step, mine, hreg, Kernel.views, exProg])
  exact ⟨t', h, fun r hr => by rw [(h' r hr).1]⟩

end MParT.Scratch
