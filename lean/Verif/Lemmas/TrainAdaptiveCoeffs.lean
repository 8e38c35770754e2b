import Verif.Spec.TrainAdaptiveCoeffs
import Verif.Lemmas.TrainAdaptiveTotal
/-!
Helper lemmas for adaptive training with coefficients.
-/
namespace MParT
namespace ATM
namespace Full
open MultiIndex Spec MISet

theorem setCoeffs_assigned : ∀ {bs : List Block} {x : List ℝ}, x.length = (bs.map fun b => b.coeffs.length).sum → Assigned bs x (setCoeffs bs x)
  | [], x, h => by
    have : x = [] := List.length_eq_zero_iff.1 (by simpa using h)
    exact ⟨rfl, rfl, by simp [setCoeffs, this]⟩
  | b :: bs, x, h => by
    simp only [List.map_cons, List.sum_cons] at h
    obtain ⟨h1, h2, h3⟩ := setCoeffs_assigned (bs := bs) (x := x.drop b.coeffs.length) (by simp; omega)
    refine ⟨by simp [setCoeffs, h1], ?_, ?_⟩
    · simp only [setCoeffs, List.map_cons, h2, List.length_take]
      congr 1
      omega
    · simp only [setCoeffs, List.map_cons, List.flatten_cons, h3, List.take_append_drop]

theorem trainBlocks_ok {env : Env} {k : Nat} {bs bs' : List Block} (h : trainBlocks env k bs = .ok bs') :
    ∃ x, env.train k bs = .ok x ∧ Assigned bs x bs' := by
  simp only [trainBlocks, Res.bind_eq_ok] at h
  obtain ⟨x, hx, h⟩ := h
  split at h
  · cases h
  · rename_i hl
    obtain rfl := Res.ok.inj h
    exact ⟨x, hx, setCoeffs_assigned (by simpa using hl)⟩

theorem newBlock_eq {b : Bool} {s : MISet} (h : Reach b s) {ts : List (List Nat)} (ht : Terms s ts) :
    newBlock s = .ok ⟨FixedSet.csr s.length ts, List.replicate ts.length 0⟩ := by
  rw [newBlock, FixedSet.fix_csr h ht, Res.bind_ok, ht.1]

theorem holds_csr {b : Bool} {s : MISet} (h : Reach b s) {ts : List (List Nat)} (ht : Terms s ts) : FixedSet.Holds (FixedSet.csr s.length ts) ts :=
  FixedSet.csr_holds _ ts (FixedSet.terms_length h ht)

/-- The part of the state that `ATM` has. -/
def St.sets (st : St) : ATM.St := ⟨st.mset0, st.tmp, st.best, st.sizes, st.currSz, st.patience, st.bestError⟩

theorem expandBlocks_expandAll {env : Env} : ∀ {ss ts : List MISet} {bs : List Block} {ts' : List MISet} {rms : List (List Nat)} {fs : List Block},
    expandBlocks env ss ts bs = .ok (ts', rms, fs) →
    ATM.expandAll env.strict ss ts (bs.map fun b => b.coeffs.length) = .ok (ts', rms)
  | [], ts, bs, ts', rms, fs, h => by
    simp only [expandBlocks, Res.ok.injEq, Prod.mk.injEq] at h
    obtain ⟨rfl, rfl, rfl⟩ := h
    rfl
  | s :: ss, [], bs, ts', rms, fs, h => by
    simp only [expandBlocks, Res.ok.injEq, Prod.mk.injEq] at h
    obtain ⟨rfl, rfl, rfl⟩ := h
    rfl
  | s :: ss, t :: ts, [], ts', rms, fs, h => by
    simp only [expandBlocks, Res.ok.injEq, Prod.mk.injEq] at h
    obtain ⟨rfl, rfl, rfl⟩ := h
    rfl
  | s :: ss, t :: ts, b :: bs, ts', rms, fs, h => by
    simp only [expandBlocks, Res.bind_eq_ok] at h
    obtain ⟨t1, h1, ⟨t2, rm⟩, h2, f, h3, c, h4, ⟨ts1, rms1, fs1⟩, h5, h⟩ := h
    simp only [Res.ok.injEq, Prod.mk.injEq] at h
    obtain ⟨rfl, rfl, rfl⟩ := h
    have ih := expandBlocks_expandAll h5
    simp only [List.map_cons, expandAll, h1, Res.bind_ok, h2]
    cases hs : env.strict
    · rw [hs] at ih
      simp only [Bool.false_eq_true, if_false, ih, Res.bind_ok]
    · rw [hs] at ih
      simp only [if_true]
      have : ∃ ps, copyLoop rm b.coeffs.length 0 0 0 t2.size = .ok ps := by
        rw [fill] at h4
        split at h4
        · rename_i ps hp; exact ⟨ps, hp⟩
        · rw [hs] at h4; cases h4
      obtain ⟨ps, hp⟩ := this
      rw [hp, Res.bind_ok, ih, Res.bind_ok]

/-- A step with coefficients is a step of the sets, with the gradient and the error that were computed. -/
theorem step_sets {env : Env} {k : Nat} {st st' : St} (hsz : st.sizes = st.blocks.map fun b => b.coeffs.length) (h : step env k st = .ok st') :
    ∃ (env' : ATM.Env) (tmp : List MISet) (rms : List (List Nat)) (front : List Block) (block : Nat) (s : MISet) (nb : Block),
      env'.maxDegrees = env.maxDegrees ∧ env'.testError k st'.mset0 = env.testError st'.blocks ∧
      expandBlocks env st.mset0 st.tmp st.blocks = .ok (tmp, rms, front) ∧ env'.gradient k tmp = env.gradient front ∧
      ATM.step env' k st.sets = .ok st'.sets ∧ st'.mset0 = st.mset0.set block s ∧ block < st.mset0.length ∧ newBlock s = .ok nb ∧
      trainBlocks env (k + 1) (st.blocks.set block nb) = .ok st'.blocks := by
  simp only [step, Res.bind_eq_ok] at h
  obtain ⟨⟨tmp, rms, front⟩, hx, rms', hf, found, hg, h⟩ := h
  have hx' := expandBlocks_expandAll hx
  rw [← hsz] at hx'
  dsimp only at hf hg
  cases found with
  | none => cases h
  | some p =>
    obtain ⟨i, block⟩ := p
    simp only [Res.bind_eq_ok] at h
    obtain ⟨t, h1, m, h2, s, h3, ⟨s', o⟩, h4, sz, h5, h⟩ := h
    split at h
    · cases h
    · rename_i hs
      dsimp only at hs
      simp only [Res.bind_eq_ok] at h
      obtain ⟨nb, h6, old, h7, h⟩ := h
      split at h
      · cases h
      · simp only [Res.bind_eq_ok] at h
        obtain ⟨bl, h8, h⟩ := h
        have hlt : block < st.mset0.length := (List.getElem?_eq_some_iff.1 (idx_eq h3)).1
        have hfix : ∃ f, s'.fix true = .ok f := by
          simp only [newBlock, Res.bind_eq_ok] at h6
          obtain ⟨f, hf, _⟩ := h6
          exact ⟨f, hf⟩
        obtain ⟨f, hfx⟩ := hfix
        split at h
        · rename_i hlt'
          simp only [Res.bind_eq_ok] at h
          obtain ⟨best, hb, h⟩ := h
          obtain rfl := Res.ok.inj h
          refine ⟨⟨env.inputDim, env.outputDim, env.maxSize, env.maxPatience, env.maxDegrees, 0, fun _ _ => env.gradient front,
            fun _ _ => env.testError bl, env.strict⟩, tmp, rms, front, block, s', nb, rfl, rfl, hx, rfl, ?_, rfl, hlt, h6, h8⟩
          simp only [ATM.step, St.sets, hx', Res.bind_ok, hf, hg, h1, h2, h3, h4, h5, hfx]
          rw [if_neg hs]
          refine (if_pos hlt').trans ?_
          rw [hb]
          rfl
        · rename_i hlt'
          obtain rfl := Res.ok.inj h
          refine ⟨⟨env.inputDim, env.outputDim, env.maxSize, env.maxPatience, env.maxDegrees, 0, fun _ _ => env.gradient front,
            fun _ _ => env.testError bl, env.strict⟩, tmp, rms, front, block, s', nb, rfl, rfl, hx, rfl, ?_, rfl, hlt, h6, h8⟩
          simp only [ATM.step, St.sets, hx', Res.bind_ok, hf, hg, h1, h2, h3, h4, h5, hfx]
          rw [if_neg hs]
          exact if_neg hlt'

end Full
end ATM
end MParT
