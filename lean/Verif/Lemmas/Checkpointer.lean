import Verif.Spec.Checkpointer
import Verif.Lemmas.Maps
/-! Lemmas about `Checkpointer`: every state keeps exact layer inputs; the schedule never divides by zero. -/
namespace MParT.Checkpointer
open Spec

theorem idiv_pos {a b : Int} (ha : 0 ≤ a) (hb : 0 < b) : ∃ q, idiv a b = .ok q ∧ 0 ≤ q := by
  refine ⟨a.tdiv b, by rw [idiv, if_neg (by omega)], Int.tdiv_nonneg ha hb.le⟩

/-- The loop ends: the range grows by at least one in every round. -/
theorem grow_ok {avail target : Int} (ha : 1 ≤ avail) : ∀ (n : Nat) (reps range : Int), 0 ≤ reps → reps + 1 ≤ range →
    target ≤ range + n → ∃ r, grow avail target n reps range = .ok r ∧ reps ≤ r.1 ∧ r.1 + 1 ≤ r.2 ∧
      target ≤ r.2 ∧ (range < target → reps < r.1) := by
  intro n
  induction n with
  | zero =>
    intro reps range h0 h1 h2
    refine ⟨(reps, range), ?_, le_refl _, h1, by simpa using h2, fun h => by simp at h2; omega⟩
    rw [grow, if_neg (by simp at h2; omega)]
  | succ n ih =>
    intro reps range h0 h1 h2
    by_cases hlt : range < target
    · have hq : (range + 1) * (reps + 1) ≤ range * (reps + 1 + avail) := by nlinarith
      have hdiv : range + 1 ≤ (range * (reps + 1 + avail)).tdiv (reps + 1) := by
        rw [Int.tdiv_eq_ediv_of_nonneg (by nlinarith)]
        exact (Int.le_ediv_iff_mul_le (by omega)).mpr hq
      obtain ⟨r, hr, a1, a2, a3, -⟩ := ih (reps + 1) ((range * (reps + 1 + avail)).tdiv (reps + 1)) (by omega) (by omega)
        (by push_cast at h2; omega)
      refine ⟨r, ?_, by omega, a2, a3, fun _ => by omega⟩
      rw [grow, if_pos hlt, idiv, if_neg (by omega), Res.bind_ok, hr]
    · refine ⟨(reps, range), ?_, le_refl _, h1, by omega, fun h => absurd h hlt⟩
      rw [grow, if_neg hlt]

/-- `GetNextCheckpoint` returns normally and gives `-1` when nothing more can be stored. -/
theorem next_ok {maxSaves saved curr layerInd : Nat} (hs : saved ≤ maxSaves) (hl : curr < layerInd) :
    ∃ r, getNextCheckpoint maxSaves saved curr layerInd = .ok r ∧ (saved = maxSaves → r = -1) := by
  rw [getNextCheckpoint]
  by_cases h0 : (maxSaves : Int) - saved = 0
  · simp only [h0]
    exact ⟨-1, rfl, fun _ => rfl⟩
  · have ha : 1 ≤ (maxSaves : Int) - saved := by omega
    obtain ⟨⟨reps, range⟩, hr, a1, a2, a3, a4⟩ := grow_ok (target := (layerInd : Int) + 1 - curr) ha (layerInd + 1 - curr)
      0 1 (le_refl _) (by omega) (by omega)
    have hreps : 0 < reps := a4 (by omega)
    simp only at a2
    set avail := (maxSaves : Int) - saved with hav
    simp only [if_neg h0, hr, Res.bind_ok]
    obtain ⟨b1, h1, p1⟩ := idiv_pos (a := range * reps) (b := avail + reps) (by nlinarith) (by omega)
    rw [h1, Res.bind_ok]
    have : ∃ b2, bino2 avail reps b1 = .ok b2 ∧ 0 ≤ b2 := by
      rw [bino2]
      split_ifs
      · exact idiv_pos (by nlinarith) (by omega)
      · exact ⟨1, rfl, by omega⟩
    obtain ⟨b2, h2, p2⟩ := this
    rw [h2, Res.bind_ok]
    have : ∃ b3, bino3 avail reps b2 = .ok b3 ∧ 0 ≤ b3 := by
      rw [bino3]
      split_ifs
      · exact ⟨0, rfl, le_refl _⟩
      · exact idiv_pos (by nlinarith) (by omega)
      · exact ⟨1, rfl, by omega⟩
    obtain ⟨b3, h3, p3⟩ := this
    rw [h3, Res.bind_ok]
    obtain ⟨b4, h4, p4⟩ := idiv_pos (a := b2 * (reps - 1)) (b := avail) (by nlinarith) (by omega)
    rw [h4, Res.bind_ok]
    have : ∃ b5, bino5 avail reps b3 = .ok b5 ∧ 0 ≤ b5 := by
      rw [bino5]
      split_ifs
      · exact ⟨0, rfl, le_refl _⟩
      · exact idiv_pos (by nlinarith) (by omega)
      · exact ⟨1, rfl, by omega⟩
    obtain ⟨b5, h5, p5⟩ := this
    rw [h5, Res.bind_ok]
    exact ⟨_, rfl, fun h => by omega⟩

theorem layerInput_zero (fs : List (List ℝ → List ℝ)) (x : List ℝ) : layerInput fs x 0 = x := rfl

theorem layerInput_succ {fs : List (List ℝ → List ℝ)} {x : List ℝ} {i : Nat} (h : i < fs.length) :
    layerInput fs x (i + 1) = fs[i] (layerInput fs x i) := by
  rw [layerInput, layerInput, List.take_succ_eq_append_getElem h, List.foldl_append]
  rfl

theorem computes_at {d : Nat} {layers : List Layer} {fs : List (List ℝ → List ℝ)} (h : Computes d layers fs) {i : Nat}
    (hi : i < fs.length) : ∃ L, Res.at' layers i = .ok L ∧ ∀ x out : List ℝ, x.length = d → out.length = d →
      L x out = .ok (fs[i] x) ∧ (fs[i] x).length = d := by
  have hl := List.Forall₂.length_eq h
  refine ⟨layers[i], ?_, ?_⟩
  · exact Res.at'_lt (by omega)
  · have := (List.forall₂_iff_get.mp h).2 i (by omega) hi
    simpa using this

theorem layerInput_length {d : Nat} {layers : List Layer} {fs : List (List ℝ → List ℝ)} (h : Computes d layers fs)
    {x : List ℝ} (hx : x.length = d) : ∀ {i : Nat}, i ≤ fs.length → (layerInput fs x i).length = d := by
  intro i
  induction i with
  | zero => intro _; exact hx
  | succ i ih =>
    intro hi
    rw [layerInput_succ (by omega)]
    obtain ⟨L, -, hL⟩ := computes_at h (i := i) (by omega)
    exact (hL _ (List.replicate d 0) (ih (by omega)) (by simp)).2

/-- What every reachable state satisfies. -/
structure Inv (d : Nat) (fs : List (List ℝ → List ℝ)) (x : List ℝ) (ms : Nat) (st : Checkpointer) : Prop where
  saves : st.maxSaves = ms
  ws1 : st.ws1.length = d
  ws2 : st.ws2.length = d
  some : st.checks ≠ []
  first : ∀ c ∈ st.checks.getLast?, c.1 = 0
  exact : ∀ c ∈ st.checks, c.2 = layerInput fs x c.1
  count : st.checks.length ≤ ms

theorem advance_ok {d : Nat} {layers : List Layer} {fs : List (List ℝ → List ℝ)} (h : Computes d layers fs)
    {x : List ℝ} (hx : x.length = d) {ms layerInd : Nat} (hli : layerInd ≤ fs.length) :
    ∀ (n i : Nat) (next : Int) (st : Checkpointer), i + n = layerInd → Inv d fs x ms st → st.ws1 = layerInput fs x i →
      (st.checks.length = ms → next = -1) →
      ∃ st', advance layers layerInd n i next st = .ok st' ∧ Inv d fs x ms st' ∧ st'.ws1 = layerInput fs x layerInd := by
  intro n
  induction n with
  | zero =>
    intro i next st hi hinv hw _
    exact ⟨st, rfl, hinv, by rw [hw]; congr 1⟩
  | succ n ih =>
    intro i next st hi hinv hw hnext
    obtain ⟨L, hL, hLx⟩ := computes_at h (i := i) (by omega)
    have step : ∀ (st : Checkpointer) (next : Int), Inv d fs x ms st → st.ws1 = layerInput fs x i →
        (st.checks.length = ms → next = -1) →
        ∃ st', (do
          let f ← Res.at' layers i
          let o ← f st.ws1 st.ws2
          advance layers layerInd n (i + 1) next { st with ws1 := o, ws2 := st.ws1 }) = .ok st' ∧
          Inv d fs x ms st' ∧ st'.ws1 = layerInput fs x layerInd := by
      intro st next hinv hw hnext
      obtain ⟨e1, e2⟩ := hLx st.ws1 st.ws2 hinv.ws1 hinv.ws2
      rw [hL, Res.bind_ok, e1, Res.bind_ok]
      exact ih (i + 1) next _ (by omega) ⟨hinv.saves, e2, hinv.ws1, hinv.some, hinv.first, hinv.exact, hinv.count⟩
        (by rw [layerInput_succ (by omega), hw]) hnext
    rw [advance]
    by_cases hin : (i : Int) = next
    · have hcount : st.checks.length + 1 ≤ ms := by
        have := hinv.count
        have : st.checks.length ≠ ms := fun he => by have := hnext he; omega
        omega
      obtain ⟨r, hr, hr1⟩ := next_ok (maxSaves := ms) (saved := st.checks.length + 1) (curr := i) (layerInd := layerInd)
        hcount (by omega)
      simp only [if_pos hin, hinv.saves, List.length_cons, hr, Res.bind_ok, Res.pure_eq]
      have hlast : ∀ c ∈ ((i, st.ws1) :: st.checks).getLast?, c.1 = 0 := by
        rw [List.getLast?_cons_of_ne_nil hinv.some]
        exact hinv.first
      have := step { st with checks := (i, st.ws1) :: st.checks } r
        ⟨hinv.saves, hinv.ws1, hinv.ws2, by simp, hlast,
          fun c hc => by
            rcases List.mem_cons.mp hc with rfl | hc
            · exact hw
            · exact hinv.exact c hc,
          by simpa using hcount⟩ hw (fun he => hr1 (by simpa using he))
      have hms := hinv.saves
      subst hms
      exact this
    · simp only [if_neg hin, Res.pure_eq, Res.bind_ok]
      exact step st next hinv hw hnext

theorem getLayerInput_ok {d : Nat} {layers : List Layer} {fs : List (List ℝ → List ℝ)} (h : Computes d layers fs)
    {x : List ℝ} (hx : x.length = d) {ms layerInd : Nat} (hli : layerInd ≤ fs.length) (ws1 ws2 : List ℝ)
    (h1 : ws1.length = d) (h2 : ws2.length = d) :
    ∀ checks : List (Nat × List ℝ), checks ≠ [] → (∀ c ∈ checks.getLast?, c.1 = 0) →
      (∀ c ∈ checks, c.2 = layerInput fs x c.1) → checks.length ≤ ms →
      ∃ st', getLayerInput layers layerInd ms ws1 ws2 checks = .ok (layerInput fs x layerInd, st') ∧
        Inv d fs x ms st' := by
  intro checks
  induction checks with
  | nil => intro hne; exact absurd rfl hne
  | cons a rest ih =>
    obtain ⟨l, v⟩ := a
    intro _ hlast hex hcount
    have hv : v = layerInput fs x l := hex (l, v) (by simp)
    rw [getLayerInput]
    by_cases he : layerInd = l
    · rw [if_pos he]
      exact ⟨⟨ms, (l, v) :: rest, ws1, ws2⟩, by rw [hv, he], rfl, h1, h2, by simp, hlast, hex, hcount⟩
    · rw [if_neg he]
      by_cases hlt : layerInd < l
      · rw [if_pos hlt]
        have hr : rest ≠ [] := by
          rintro rfl
          have := hlast (l, v) (by simp)
          simp at this
          omega
        refine ih hr ?_ (fun c hc => hex c (by simp [hc])) (by simp at hcount; omega)
        rw [List.getLast?_cons_of_ne_nil hr] at hlast
        exact hlast
      · rw [if_neg hlt]
        have hcount' : rest.length + 1 ≤ ms := by simpa using hcount
        obtain ⟨r, hr, hr1⟩ := next_ok (maxSaves := ms) (saved := rest.length + 1) (curr := l) (layerInd := layerInd)
          hcount' (by omega)
        obtain ⟨L, hL, hLx⟩ := computes_at h (i := l) (by omega)
        have hvl : v.length = d := by rw [hv]; exact layerInput_length h hx (by omega)
        obtain ⟨e1, e2⟩ := hLx v ws1 hvl h1
        obtain ⟨st', hst, hinv, hw⟩ := advance_ok h hx hli (layerInd - (l + 1)) (l + 1) r
          ⟨ms, (l, v) :: rest, (fs[l]'(by omega)) v, ws2⟩ (by omega)
          ⟨rfl, e2, h2, by simp, hlast, hex, hcount⟩ (by rw [layerInput_succ (by omega), hv])
          (fun he => hr1 (by simpa using he))
        rw [hr, Res.bind_ok, hL, Res.bind_ok, e1, Res.bind_ok, hst, Res.bind_ok]
        exact ⟨st', by rw [hw]; rfl, hinv⟩

theorem request_ok {d : Nat} {layers : List Layer} {fs : List (List ℝ → List ℝ)} (h : Computes d layers fs)
    {x : List ℝ} (hx : x.length = d) {ms layerInd : Nat} (hli : layerInd ≤ fs.length) {st : Checkpointer}
    (hinv : Inv d fs x ms st) :
    ∃ st', st.request layers layerInd = .ok (layerInput fs x layerInd, st') ∧ Inv d fs x ms st' := by
  rw [request, hinv.saves]
  exact getLayerInput_ok h hx hli _ _ hinv.ws1 hinv.ws2 _ hinv.some hinv.first hinv.exact hinv.count

theorem new_inv {ms : Nat} {x : List ℝ} (fs : List (List ℝ → List ℝ)) (hms : ms ≠ 0) :
    ∃ st, new ms x = .ok st ∧ Inv x.length fs x ms st := by
  refine ⟨_, by rw [new, if_neg hms], rfl, by simp, by simp, by simp, by simp, by simp [layerInput], ?_⟩
  simp; omega

end MParT.Checkpointer
