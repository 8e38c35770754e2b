import Verif.Lemmas.TrainAdaptiveCoeffsRun
import Verif.Props.TrainAdaptive
/-!
Helper lemmas for adaptive training with coefficients: conditions under which the call returns.
-/
namespace MParT
namespace ATM
namespace Full
open MultiIndex Spec MISet

/-- Number of coefficients of the map with the given components. -/
def count (bs : List Block) : Nat := (bs.map fun b => b.coeffs.length).sum

/-- The optimiser always returns, gradients have as many entries as there are coefficients and none is zero. -/
structure Kind (env : Env) : Prop where
  junk : ∀ old rm n, (env.junk old rm n).length = n
  grad : ∀ bs, (env.gradient bs).length = count bs ∧ (0 : ℝ) ∉ env.gradient bs
  train : ∀ k bs, ∃ x, env.train k bs = .ok x ∧ x.length = count bs

theorem copyLoop_length (rm : List Nat) (m : Nat) : ∀ (n : Nat) {j r o : Nat} {ps : List (Option Nat)}, copyLoop rm m j r o n = .ok ps → ps.length = n
  | 0, j, r, o, ps, h => by simp only [copyLoop, Res.ok.injEq] at h; simp [← h]
  | n + 1, j, r, o, ps, h => by
    simp only [copyLoop, Res.bind_eq_ok] at h
    obtain ⟨x, _, h⟩ := h
    split at h
    · simp only [Res.bind_eq_ok] at h
      obtain ⟨rest, hr, h⟩ := h
      obtain rfl := Res.ok.inj h
      simp [copyLoop_length rm m n hr]
    · split at h
      · simp only [Res.bind_eq_ok] at h
        obtain ⟨rest, hr, h⟩ := h
        obtain rfl := Res.ok.inj h
        simp [copyLoop_length rm m n hr]
      · cases h

theorem fill_ok {env : Env} (he : Kind env) (hs : env.strict = false) (old : List ℝ) (rm : List Nat) (n : Nat) :
    ∃ c, fill env old rm n = .ok c ∧ c.length = n := by
  rw [fill]
  split
  · rename_i ps hp
    exact ⟨_, rfl, by simp [copyLoop_length _ _ _ hp]⟩
  · rw [hs]
    exact ⟨_, rfl, he.junk _ _ _⟩

theorem fill_range {env : Env} (old : List ℝ) {m : Nat} (hm : 0 < m) :
    ∃ c, fill env old (List.range' old.length m) (old.length + m) = .ok c ∧ c.length = old.length + m := by
  rw [fill, copy_range _ _ hm]
  exact ⟨_, rfl, by simp⟩

theorem expandBlocks_run {env : Env} (he : Kind env) : ∀ {ss ts : List MISet} {bs : List Block} {S : List (List (List Nat))}, (∀ s ∈ ss, ∃ b, Reach b s) →
    ts.map MISet.length = ss.map MISet.length → List.Forall₂ Terms ss S → bs.map (fun b => b.coeffs.length) = S.map List.length →
    (env.strict = false ∨ List.Forall₂ Clean ss S) →
    ∃ ts' rms fs, expandBlocks env ss ts bs = .ok (ts', rms, fs) ∧ count fs = (ts'.map MISet.size).sum
  | [], ts, bs, _, _, _, _, _, _ => ⟨[], [], [], by simp [expandBlocks], rfl⟩
  | s :: ss, [], bs, _, _, h, _, _, _ => by simp at h
  | s :: ss, t :: ts, [], _, _, _, .cons _ _, h, _ => by simp at h
  | s :: ss, t :: ts, b :: bs, us :: S, hr, h1, .cons hu hU, h2, hcl => by
    simp only [List.map_cons, List.cons.injEq] at h1 h2
    obtain ⟨ts', rms, fs, e, ec⟩ := expandBlocks_run he (ss := ss) (ts := ts) (bs := bs) (fun s hs => hr s (by simp [hs])) h1.2 hU h2.2
      (hcl.imp id fun h => by cases h; assumption)
    obtain ⟨bb, hb⟩ := hr s (by simp)
    obtain ⟨s', added, new, ex, et, _⟩ := C15_expandAll hb hu
    obtain ⟨c, hc, hcl⟩ : ∃ c, fill env b.coeffs new s'.size = .ok c ∧ c.length = s'.size := by
      rcases hcl with h | h
      · exact fill_ok he h b.coeffs new s'.size
      · obtain ⟨s2, m, hm, e2, hsz⟩ : Clean s us := by cases h; assumption
        rw [ex] at e2
        simp only [Res.ok.injEq, Prod.mk.injEq] at e2
        obtain ⟨rfl, rfl⟩ := e2
        rw [hsz, ← h2.1]
        exact fill_range b.coeffs hm
    refine ⟨s' :: ts', new :: rms, ⟨FixedSet.csr s'.length (us ++ added), c⟩ :: fs, ?_, ?_⟩
    · rw [expandBlocks, assign_same h1.1.symm, Res.bind_ok, ex, Res.bind_ok]
      dsimp only
      rw [FixedSet.fix_csr (hb.expandAll ex) et, Res.bind_ok, hc, Res.bind_ok, e]
      rfl
    · simp only [count, List.map_cons, List.sum_cons] at ec ⊢
      rw [ec, hcl]

/-- What succeeds when out-of-range reads stop the program gives the same when they do not. -/
theorem expandAll_lenient {strict : Bool} : ∀ {ss ts : List MISet} {ns : List Nat} {p : List MISet × List (List Nat)},
    ATM.expandAll strict ss ts ns = .ok p → ATM.expandAll false ss ts ns = .ok p
  | [], _, _, _, h => by simpa [ATM.expandAll] using h
  | _ :: _, [], _, _, h => by simpa [ATM.expandAll] using h
  | _ :: _, _ :: _, [], _, h => by simpa [ATM.expandAll] using h
  | s :: ss, t :: ts, n :: ns, p, h => by
    simp only [ATM.expandAll, Res.bind_eq_ok] at h
    obtain ⟨t1, h1, ⟨t2, rm⟩, h2, h⟩ := h
    dsimp only at h
    have : ∃ q, ATM.expandAll strict ss ts ns = .ok q ∧ p = (t2 :: q.1, rm :: q.2) := by
      split at h
      · simp only [Res.bind_eq_ok] at h
        obtain ⟨_, _, q, h3, h4⟩ := h
        exact ⟨q, h3, (Res.ok.inj h4).symm⟩
      · simp only [Res.bind_eq_ok] at h
        obtain ⟨q, h3, h4⟩ := h
        exact ⟨q, h3, (Res.ok.inj h4).symm⟩
    obtain ⟨q, h3, rfl⟩ := this
    rw [ATM.expandAll, h1, Res.bind_ok, h2, Res.bind_ok]
    simp only [Bool.false_eq_true, if_false]
    rw [expandAll_lenient h3, Res.bind_ok]

theorem trainBlocks_run {env : Env} (he : Kind env) (k : Nat) (bs : List Block) : ∃ bs', trainBlocks env k bs = .ok bs' := by
  obtain ⟨x, hx, hl⟩ := he.train k bs
  refine ⟨setCoeffs bs x, ?_⟩
  rw [trainBlocks, hx, Res.bind_ok, if_neg]
  simpa [count] using hl

theorem step_run {env : Env} (he : Kind env) (hD : env.maxDegrees = ofVec []) {lims : List (MultiIndex → Bool)} {lens : List Nat}
    {S0 consts : List (List (List Nat))} {e0 : ℝ} {st : St} {v : Trained} {h : List Trained} (hi : Inv env [] lims lens S0 consts e0 st v h)
    (hs : env.strict = false ∨ List.Forall₂ Clean st.mset0 v.sets)
    {s0 : MISet} {ts0 : List (List Nat)} (h0 : st.mset0[0]? = some s0) (ht0 : Terms s0 ts0)
    (hcand : ∃ w, w ∉ ts0 ∧ Accepts s0 w ∧ (∃ t ∈ ts0, Fwd t w) ∧ ∀ b, Fwd b w → b ∈ ts0) : ∃ st', Full.step env h.length st = .ok st' := by
  have hbl : st.blocks.length = st.mset0.length := by
    have := congrArg List.length hi.lenBlocks
    simpa [← hi.terms.length_eq] using this
  obtain ⟨tmp, rms, front, hx, hc⟩ := expandBlocks_run he (bs := st.blocks) hi.reach (hi.tmpLens.trans hi.hlens.symm) hi.terms
    hi.lenBlocks hs
  let env' : ATM.Env := ⟨env.inputDim, env.outputDim, env.maxSize, env.maxPatience, env.maxDegrees, 0,
    fun _ ms => if (env.gradient front).length = (ms.map MISet.size).sum then env.gradient front else List.replicate (ms.map MISet.size).sum 1,
    fun _ _ => st.bestError - 1, false⟩
  obtain ⟨st1, h1⟩ := ATM.step_run (env := env') (k := h.length) (st := st.sets) hD
    (by
      intro k ms
      simp only [env']
      split
      · rename_i h; exact ⟨h, (he.grad front).2⟩
      · simp)
    hi.reach hi.terms (hi.tmpLens.trans hi.hlens.symm) (hi.bestLens.trans hi.hlens.symm) hi.sizes (Or.inl rfl) h0 ht0 hcand
  have hx' := expandAll_lenient (expandBlocks_expandAll hx)
  rw [← hi.sizes.trans hi.lenBlocks.symm] at hx'
  have hgr : env'.gradient h.length tmp = env.gradient front := by
    simp only [env']
    rw [if_pos]
    rw [(he.grad front).1, hc]
  have hszb : st.sizes = st.blocks.map fun b => b.coeffs.length := hi.sizes.trans hi.lenBlocks.symm
  simp only [ATM.step, St.sets, Res.bind_eq_ok] at h1
  obtain ⟨⟨tmp2, rms2⟩, hx2, rms', hf, found, hg, h1⟩ := h1
  rw [show env'.strict = false from rfl, hx'] at hx2
  simp only [Res.ok.injEq, Prod.mk.injEq] at hx2
  obtain ⟨rfl, rfl⟩ := hx2
  rw [hgr] at hg
  cases found with
  | none => cases h1
  | some p =>
    obtain ⟨i, b⟩ := p
    simp only [Res.bind_eq_ok] at h1
    obtain ⟨t, g1, m, g2, s, g3, ⟨s', o⟩, g4, sz, g5, h1⟩ := h1
    split at h1
    · cases h1
    · rename_i hs
      simp only [Res.bind_eq_ok] at h1
      obtain ⟨f, hfx, h1⟩ := h1
      have hb : b < st.blocks.length := by rw [hbl]; exact (List.getElem?_eq_some_iff.1 (idx_eq g3)).1
      have hnb : newBlock s' = .ok ⟨f, List.replicate s'.size 0⟩ := by rw [newBlock, hfx]; rfl
      obtain ⟨bl, hbl'⟩ := trainBlocks_run he (h.length + 1) (st.blocks.set b ⟨f, List.replicate s'.size 0⟩)
      have hlen : ¬ st.blocks[b].coeffs.length < sz := by
        have := idx_eq g5
        rw [hszb, List.getElem?_map, List.getElem?_eq_getElem hb] at this
        simp at this
        omega
      have hbest : ∃ best, assignAll st.best (st.mset0.set b s') = .ok best := by
        have hc : env'.testError h.length (st.mset0.set b s') < st.bestError := by simp [env']
        replace h1 := (if_pos hc).symm.trans h1
        simp only [Res.bind_eq_ok] at h1
        obtain ⟨best, hb, _⟩ := h1
        exact ⟨best, hb⟩
      obtain ⟨best, hbest⟩ := hbest
      have hfilt : filterStep env.maxDegrees tmp rms = .ok rms' := hf
      rw [step, hx, Res.bind_ok]
      dsimp only
      rw [hfilt, Res.bind_ok, hg, Res.bind_ok]
      dsimp only
      rw [g1, Res.bind_ok, g2, Res.bind_ok, g3, Res.bind_ok, g4, Res.bind_ok, g5, Res.bind_ok]
      dsimp only
      rw [if_neg hs, hnb, Res.bind_ok, Res.idx_lt hb, Res.bind_ok, if_neg hlen, hbl', Res.bind_ok]
      split
      · rw [hbest, Res.bind_ok]
        exact ⟨_, rfl⟩
      · exact ⟨_, rfl⟩

end Full
end ATM
end MParT
