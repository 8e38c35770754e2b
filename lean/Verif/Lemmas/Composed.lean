import Verif.Lemmas.Checkpointer
import Verif.Lemmas.Triangular
/-! Lemmas about the loops of `ComposedMap`. -/
namespace MParT.Comp
open Spec
open ComposedMap (layers evalLoop evaluate logDetLoop logDet gradLoop coeffGradLoop ldInputGradLoop ldCoeffGradLoop)

/-- The layers with their coefficients applied one after the other. -/
def run : List (CMap × List ℝ) → List ℝ → List ℝ
  | [], x => x
  | p :: ps, x => run ps (fn p.1 p.2 x)

/-- Sum of the log-determinants. -/
def ldSum : List (CMap × List ℝ) → List ℝ → ℝ
  | [], _ => 0
  | p :: ps, x => logdet p.1 p.2 x + ldSum ps (fn p.1 p.2 x)

/-- Reverse sweep for the input gradient. -/
def back : List (CMap × List ℝ) → (x s : List ℝ) → List ℝ
  | [], _, s => s
  | p :: ps, x, s => grad p.1 p.2 x (back ps (fn p.1 p.2 x) s)

/-- Reverse sweep for the coefficient gradient. -/
def cgBack : List (CMap × List ℝ) → (x s : List ℝ) → List ℝ
  | [], _, _ => []
  | p :: ps, x, s => coeffGrad p.1 p.2 x (back ps (fn p.1 p.2 x) s) ++ cgBack ps (fn p.1 p.2 x) s

/-- Reverse sweep for the input gradient of the log-determinant, started with the gradient `s` of what follows. -/
def ldBack : List (CMap × List ℝ) → (x s : List ℝ) → List ℝ
  | [], _, s => s
  | p :: ps, x, s => List.zipWith (· + ·) (grad p.1 p.2 x (ldBack ps (fn p.1 p.2 x) s)) (ldInputGrad p.1 p.2 x)

/-- Reverse sweep for the coefficient gradient of the log-determinant. -/
def ldcBack : List (CMap × List ℝ) → (x s : List ℝ) → List ℝ
  | [], _, _ => []
  | p :: ps, x, s => List.zipWith (· + ·) (ldCoeffGrad p.1 p.2 x) (coeffGrad p.1 p.2 x (ldBack ps (fn p.1 p.2 x) s))
      ++ ldcBack ps (fn p.1 p.2 x) s

/-- A square layer with `d` inputs and the right number of coefficients. -/
def Sq (d : Nat) (p : CMap × List ℝ) : Prop :=
  p.1.inputDim = d ∧ p.1.outputDim = d ∧ p.2.length = p.1.numCoeffs

variable {d : Nat} {ps : List (CMap × List ℝ)} {x s : List ℝ}

theorem Sq.fits {p : CMap × List ℝ} (h : Sq d p) {x : List ℝ} (hx : x.length = d) : Fits p.1 p.2 x :=
  ⟨h.2.2, by rw [hx, h.1]⟩

theorem Sq.fn_length {p : CMap × List ℝ} (h : Sq d p) (hE : Evaluates p.1) (hx : x.length = d) :
    (fn p.1 p.2 x).length = d := by rw [(hE _ _ (h.fits hx)).1, h.2.1]

theorem Sq.eval {p : CMap × List ℝ} (h : Sq d p) (hE : Evaluates p.1) (hx : x.length = d) {out : List ℝ}
    (ho : out.length = d) : p.1.eval p.2 x out = .ok (fn p.1 p.2 x) :=
  (hE _ _ (h.fits hx)).2 out (by rw [ho, h.2.1])

theorem Sq.grad_length {p : CMap × List ℝ} (h : Sq d p) (hD : Differentiates p.1) (hx : x.length = d) (hs : s.length = d) :
    (grad p.1 p.2 x s).length = d := by
  rw [(hD _ _ _ (h.fits hx) (by rw [hs, h.2.1])).2.2.2.1, h.1]

theorem Sq.coeffGrad_length {p : CMap × List ℝ} (h : Sq d p) (hD : Differentiates p.1) (hx : x.length = d)
    (hs : s.length = d) : (coeffGrad p.1 p.2 x s).length = p.1.numCoeffs :=
  (hD _ _ _ (h.fits hx) (by rw [hs, h.2.1])).2.2.1

theorem Sq.ldInputGrad_length {p : CMap × List ℝ} (h : Sq d p) (hD : DifferentiatesLogDet p.1) (hx : x.length = d) :
    (ldInputGrad p.1 p.2 x).length = d := by
  rw [(hD _ _ (h.fits hx)).2.2.2.1, h.1]

theorem Sq.ldCoeffGrad_length {p : CMap × List ℝ} (h : Sq d p) (hD : DifferentiatesLogDet p.1) (hx : x.length = d) :
    (ldCoeffGrad p.1 p.2 x).length = p.1.numCoeffs := (hD _ _ (h.fits hx)).2.2.1

theorem run_length (h : ∀ p ∈ ps, Sq d p ∧ Evaluates p.1) (hx : x.length = d) : (run ps x).length = d := by
  induction ps generalizing x with
  | nil => exact hx
  | cons p ps ih =>
    have hp := h p (by simp)
    exact ih (fun q hq => h q (by simp [hq])) (hp.1.fn_length hp.2 hx)

theorem run_append (ps qs : List (CMap × List ℝ)) (x : List ℝ) : run (ps ++ qs) x = run qs (run ps x) := by
  induction ps generalizing x with
  | nil => rfl
  | cons p ps ih => exact ih _

theorem back_append (ps : List (CMap × List ℝ)) (p : CMap × List ℝ) (x s : List ℝ) :
    back (ps ++ [p]) x s = back ps x (grad p.1 p.2 (run ps x) s) := by
  induction ps generalizing x with
  | nil => rfl
  | cons q ps ih => rw [List.cons_append, back, ih, back, run]

theorem cgBack_append (ps : List (CMap × List ℝ)) (p : CMap × List ℝ) (x s : List ℝ) :
    cgBack (ps ++ [p]) x s = cgBack ps x (grad p.1 p.2 (run ps x) s) ++ coeffGrad p.1 p.2 (run ps x) s := by
  induction ps generalizing x with
  | nil => simp [cgBack, back, run]
  | cons q ps ih => rw [List.cons_append, cgBack, ih, cgBack, run, back_append, List.append_assoc]

theorem ldBack_append (ps : List (CMap × List ℝ)) (p : CMap × List ℝ) (x s : List ℝ) :
    ldBack (ps ++ [p]) x s
      = ldBack ps x (List.zipWith (· + ·) (grad p.1 p.2 (run ps x) s) (ldInputGrad p.1 p.2 (run ps x))) := by
  induction ps generalizing x with
  | nil => rfl
  | cons q ps ih => rw [List.cons_append, ldBack, ih, ldBack, run]

theorem ldcBack_append (ps : List (CMap × List ℝ)) (p : CMap × List ℝ) (x s : List ℝ) :
    ldcBack (ps ++ [p]) x s
      = ldcBack ps x (List.zipWith (· + ·) (grad p.1 p.2 (run ps x) s) (ldInputGrad p.1 p.2 (run ps x)))
        ++ List.zipWith (· + ·) (ldCoeffGrad p.1 p.2 (run ps x)) (coeffGrad p.1 p.2 (run ps x) s) := by
  induction ps generalizing x with
  | nil => simp [ldcBack, ldBack, run]
  | cons q ps ih => rw [List.cons_append, ldcBack, ih, ldcBack, run, ldBack_append, List.append_assoc]

theorem computes (h : ∀ p ∈ ps, Sq d p ∧ Evaluates p.1) :
    Computes d (layers ps) (ps.map fun p => fn p.1 p.2) := by
  rw [Computes, layers, List.forall₂_map_left_iff, List.forall₂_map_right_iff, List.forall₂_same]
  intro p hp x out hx ho
  have := h p hp
  exact ⟨this.1.eval this.2 hx ho, this.1.fn_length this.2 hx⟩

theorem layerInput_run (ps : List (CMap × List ℝ)) (x : List ℝ) (i : Nat) :
    layerInput (ps.map fun p => fn p.1 p.2) x i = run (ps.take i) x := by
  rw [layerInput, ← List.map_take]
  generalize ps.take i = qs
  induction qs generalizing x with
  | nil => rfl
  | cons p qs ih => exact ih _

theorem at_ok {i : Nat} (hi : i < ps.length) : Res.at' ps i = .ok ps[i] := Res.at'_lt hi

theorem take_mem {i : Nat} {p : CMap × List ℝ} (h : p ∈ ps.take i) : p ∈ ps := List.mem_of_mem_take h

/-- What the reverse loops use of the checkpointer. -/
theorem request_eq (h : ∀ p ∈ ps, Sq d p ∧ Evaluates p.1) (hx : x.length = d) {i ms : Nat} (hi : i ≤ ps.length)
    {ck : Checkpointer} (hck : Checkpointer.Inv d (ps.map fun p => fn p.1 p.2) x ms ck) :
    ∃ ck', ck.request (layers ps) i = .ok (run (ps.take i) x, ck') ∧
      Checkpointer.Inv d (ps.map fun p => fn p.1 p.2) x ms ck' := by
  rw [← layerInput_run]
  exact Checkpointer.request_ok (computes h) hx (by simpa using hi) hck

theorem run_take_length (h : ∀ p ∈ ps, Sq d p ∧ Evaluates p.1) (hx : x.length = d) (i : Nat) :
    (run (ps.take i) x).length = d := run_length (fun p hp => h p (take_mem hp)) hx

theorem take_succ' {i : Nat} (hi : i < ps.length) : ps.take (i + 1) = ps.take i ++ [ps[i]] :=
  List.take_succ_eq_append_getElem hi

theorem evalLoop_eq : ∀ (ps : List (CMap × List ℝ)) (i1 i2 : List ℝ), (∀ p ∈ ps, Sq d p ∧ Evaluates p.1) →
    i1.length = d → i2.length = d → evalLoop ps i1 i2 = .ok (run ps i1) := by
  intro ps
  induction ps with
  | nil => intros; rfl
  | cons p ps ih =>
    intro i1 i2 h h1 h2
    have hp := h p (by simp)
    rw [evalLoop, hp.1.eval hp.2 h1 h2, Res.bind_ok,
      ih _ _ (fun q hq => h q (by simp [hq])) (hp.1.fn_length hp.2 h1) h1, run]

theorem evaluate_eq (hne : ps ≠ []) (h : ∀ p ∈ ps, Sq d p ∧ Evaluates p.1) (hx : x.length = d) {out : List ℝ}
    (ho : out.length = d) : evaluate ps x out = .ok (run ps x) := by
  cases ps with
  | nil => exact absurd rfl hne
  | cons p ps =>
    have hp := h p (by simp)
    have h' := fun q hq => h q (List.mem_cons_of_mem p hq)
    have hl := hp.1.fn_length hp.2 hx
    rw [evaluate]
    rw [hp.1.eval hp.2 hx (by simp [hx]), Res.bind_ok, evalLoop_eq ps _ _ h' hl (by simp [hx]), Res.bind_ok,
      deepCopy_ok (by rw [ho, run_length h' hl]), run]

theorem logDetLoop_eq : ∀ (ps : List (CMap × List ℝ)) (q : CMap × List ℝ) (i1 i2 : List ℝ) (o : Option ℝ) (v : ℝ),
    (∀ p ∈ q :: ps, Sq d p ∧ Evaluates p.1) → (∀ p ∈ ps, HasLogDet p.1) → i1.length = d → i2.length = d →
    logDetLoop q ps i1 i2 o (some v) = .ok (some (v + ldSum ps (fn q.1 q.2 i1))) := by
  intro ps
  induction ps with
  | nil => intros; simp [logDetLoop, ldSum]
  | cons p ps ih =>
    intro q i1 i2 o v h hL h1 h2
    have hq := h q (by simp)
    have hp := h p (by simp)
    have hl := hq.1.fn_length hq.2 h1
    rw [logDetLoop, hq.1.eval hq.2 h1 h2, Res.bind_ok, hL p (by simp) _ _ (hp.1.fits hl), Res.bind_ok]
    simp only [addLD]
    rw [ih p _ _ _ _ (fun r hr => h r (by simp at hr ⊢; tauto)) (fun r hr => hL r (by simp [hr])) hl h1, ldSum, add_assoc]

theorem logDet_eq (hne : ps ≠ []) (h : ∀ p ∈ ps, Sq d p ∧ Evaluates p.1) (hL : ∀ p ∈ ps, HasLogDet p.1)
    (hx : x.length = d) (o : Option ℝ) : logDet ps x o = .ok (some (ldSum ps x)) := by
  cases ps with
  | nil => exact absurd rfl hne
  | cons p ps =>
    have hp := h p (by simp)
    rw [logDet]
    rw [hL p (by simp) _ _ (hp.1.fits hx), Res.bind_ok,
      logDetLoop_eq ps p _ _ _ _ h (fun q hq => hL q (by simp [hq])) hx (by simp [hx]), ldSum]

theorem gradLoop_eq (h : ∀ p ∈ ps, Sq d p ∧ Evaluates p.1) (hD : ∀ p ∈ ps, Differentiates p.1) (hx : x.length = d)
    {ms : Nat} : ∀ (i : Nat) (ck : Checkpointer) (s1 s2 : List ℝ), i ≤ ps.length →
    Checkpointer.Inv d (ps.map fun p => fn p.1 p.2) x ms ck → s1.length = d → s2.length = d →
    gradLoop ps i ck s1 s2 = .ok (back (ps.take i) x s1) ∧ (back (ps.take i) x s1).length = d := by
  intro i
  induction i with
  | zero => intro ck s1 s2 _ _ h1 _; exact ⟨rfl, h1⟩
  | succ i ih =>
    intro ck s1 s2 hi hck h1 h2
    obtain ⟨ck', e, hck'⟩ := request_eq h hx (i := i) (by omega) hck
    have hm := List.getElem_mem (l := ps) (n := i) (by omega)
    have hp := h _ hm
    have hpd := hD _ hm
    have hxl := run_take_length h hx i
    have hgl := hp.1.grad_length hpd hxl h1
    rw [gradLoop, e, Res.bind_ok, at_ok (by omega)]
    simp only [Res.bind_ok]
    rw [(hpd _ _ _ (hp.1.fits hxl) (by rw [h1, hp.1.2.1])).1 s2 (by rw [h2, hp.1.1]), Res.bind_ok,
      take_succ' (by omega), back_append]
    exact ih ck' _ _ (by omega) hck' hgl h1

/-- Number of coefficients of the layers. -/
def nc (ps : List (CMap × List ℝ)) : Nat := (ps.map fun p => p.1.numCoeffs).sum

theorem nc_take_succ {i : Nat} (hi : i < ps.length) : nc (ps.take (i + 1)) = nc (ps.take i) + ps[i].1.numCoeffs := by
  rw [take_succ' hi, nc, nc, List.map_append, List.sum_append]; simp

theorem coeffGradLoop_eq (h : ∀ p ∈ ps, Sq d p ∧ Evaluates p.1) (hD : ∀ p ∈ ps, Differentiates p.1)
    (hC : ∀ p ∈ ps, CoeffGradReturns p.1) (hx : x.length = d) {ms : Nat} :
    ∀ (i : Nat) (ck : Checkpointer) (s1 s2 : List ℝ) (out : List ℝ), i ≤ ps.length →
    Checkpointer.Inv d (ps.map fun p => fn p.1 p.2) x ms ck → s1.length = d → s2.length = d →
    nc (ps.take i) ≤ out.length →
    coeffGradLoop ps i ck s1 s2 (nc (ps.take i)) out = .ok (cgBack (ps.take i) x s1 ++ out.drop (nc (ps.take i))) ∧
      (cgBack (ps.take i) x s1).length = nc (ps.take i) := by
  intro i
  induction i with
  | zero => intro ck s1 s2 out _ _ _ _ _; simp [coeffGradLoop, cgBack, nc]
  | succ i ih =>
    intro ck s1 s2 out hi hck h1 h2 ho
    obtain ⟨ck', e, hck'⟩ := request_eq h hx (i := i) (by omega) hck
    have hm := List.getElem_mem (l := ps) (n := i) (by omega)
    have hp := h _ hm
    have hpd := hD _ hm
    have hxl := run_take_length h hx i
    have hgl := hp.1.grad_length hpd hxl h1
    have hcl := hp.1.coeffGrad_length hpd hxl h1
    have hn := nc_take_succ (ps := ps) (i := i) (by omega)
    have hsub : nc (ps.take (i + 1)) - ps[i].1.numCoeffs = nc (ps.take i) := by omega
    have hfin : ∀ s1' s2' : List ℝ, s1'.length = d → s2'.length = d →
        cgBack (ps.take i) x s1' = cgBack (ps.take i) x (grad ps[i].1 ps[i].2 (run (ps.take i) x) s1) →
        coeffGradLoop ps i ck' s1' s2' (nc (ps.take i))
          (putRows out (nc (ps.take i)) ps[i].1.numCoeffs (coeffGrad ps[i].1 ps[i].2 (run (ps.take i) x) s1))
          = .ok (cgBack (ps.take (i + 1)) x s1 ++ out.drop (nc (ps.take (i + 1)))) ∧
        (cgBack (ps.take (i + 1)) x s1).length = nc (ps.take (i + 1)) := by
      intro s1' s2' hs1 hs2 heq
      obtain ⟨e1, e2⟩ := ih ck' s1' s2' (putRows out (nc (ps.take i)) ps[i].1.numCoeffs
        (coeffGrad ps[i].1 ps[i].2 (run (ps.take i) x) s1)) (by omega) hck' hs1 hs2
        (by rw [putRows_length (by omega) hcl]; omega)
      rw [e1, heq, take_succ' (by omega), cgBack_append]
      rw [heq] at e2
      refine ⟨?_, by rw [List.length_append, e2, hcl, ← take_succ' (by omega), hn]⟩
      congr 1
      rw [List.append_assoc]
      congr 1
      rw [putRows, List.append_assoc, List.drop_append_of_le_length (by simp; omega),
        List.drop_eq_nil_of_le (by simp), List.nil_append, ← take_succ' (by omega), hn]
    rw [coeffGradLoop, e, Res.bind_ok, at_ok (by omega)]
    simp only [Res.bind_ok]
    rw [hsub, rows_ok (by omega), Res.bind_ok,
      (hC _ hm).1 _ _ _ (hp.1.fits hxl) (by rw [h1, hp.1.2.1]) _ (rows_length (by omega)), Res.bind_ok]
    by_cases h0 : 0 < i
    · rw [if_pos h0, (hpd _ _ _ (hp.1.fits hxl) (by rw [h1, hp.1.2.1])).1 s2 (by rw [h2, hp.1.1]), Res.bind_ok]
      exact hfin _ _ hgl h1 rfl
    · rw [if_neg h0]
      have : i = 0 := by omega
      subst this
      exact hfin _ _ h1 h2 rfl

theorem ldInputGradLoop_eq (h : ∀ p ∈ ps, Sq d p ∧ Evaluates p.1) (hD : ∀ p ∈ ps, Differentiates p.1)
    (hL : ∀ p ∈ ps, DifferentiatesLogDet p.1) (hx : x.length = d) {ms : Nat} :
    ∀ (i : Nat) (ck : Checkpointer) (s1 s2 : List ℝ), i ≤ ps.length →
    Checkpointer.Inv d (ps.map fun p => fn p.1 p.2) x ms ck → s1.length = d → s2.length = d →
    ldInputGradLoop ps i ck s1 s2 = .ok (ldBack (ps.take i) x s1) ∧ (ldBack (ps.take i) x s1).length = d := by
  intro i
  induction i with
  | zero => intro ck s1 s2 _ _ h1 _; exact ⟨rfl, h1⟩
  | succ i ih =>
    intro ck s1 s2 hi hck h1 h2
    obtain ⟨ck', e, hck'⟩ := request_eq h hx (i := i) (by omega) hck
    have hm := List.getElem_mem (l := ps) (n := i) (by omega)
    have hp := h _ hm
    have hpd := hD _ hm
    have hxl := run_take_length h hx i
    have hgl := hp.1.grad_length hpd hxl h1
    have hll := hp.1.ldInputGrad_length (hL _ hm) hxl
    rw [ldInputGradLoop, e, Res.bind_ok, at_ok (by omega)]
    simp only [Res.bind_ok]
    rw [(hpd _ _ _ (hp.1.fits hxl) (by rw [h1, hp.1.2.1])).1 s2 (by rw [h2, hp.1.1]), Res.bind_ok,
      (hL _ hm _ _ (hp.1.fits hxl)).1 s1 (by rw [h1, hp.1.1]), Res.bind_ok, addInPlace_ok (by omega), Res.bind_ok,
      take_succ' (by omega), ldBack_append]
    exact ih ck' _ _ (by omega) hck' (by simp [hgl, hll]) hll

theorem ldCoeffGradLoop_eq (h : ∀ p ∈ ps, Sq d p ∧ Evaluates p.1) (hD : ∀ p ∈ ps, Differentiates p.1)
    (hL : ∀ p ∈ ps, DifferentiatesLogDet p.1) (hC : ∀ p ∈ ps, CoeffGradReturns p.1) (hx : x.length = d) {ms : Nat} :
    ∀ (i : Nat) (ck : Checkpointer) (s1 s2 : List ℝ) (out : List ℝ), i ≤ ps.length →
    Checkpointer.Inv d (ps.map fun p => fn p.1 p.2) x ms ck → s1.length = d → s2.length = d →
    nc (ps.take i) ≤ out.length →
    ldCoeffGradLoop ps i ck s1 s2 (nc (ps.take i)) out = .ok (ldcBack (ps.take i) x s1 ++ out.drop (nc (ps.take i))) ∧
      (ldcBack (ps.take i) x s1).length = nc (ps.take i) := by
  intro i
  induction i with
  | zero => intro ck s1 s2 out _ _ _ _ _; simp [ldCoeffGradLoop, ldcBack, nc]
  | succ i ih =>
    intro ck s1 s2 out hi hck h1 h2 ho
    obtain ⟨ck', e, hck'⟩ := request_eq h hx (i := i) (by omega) hck
    have hm := List.getElem_mem (l := ps) (n := i) (by omega)
    have hp := h _ hm
    have hpd := hD _ hm
    have hxl := run_take_length h hx i
    have hgl := hp.1.grad_length hpd hxl h1
    have hll := hp.1.ldInputGrad_length (hL _ hm) hxl
    have hcl := hp.1.coeffGrad_length hpd hxl h1
    have hlcl := hp.1.ldCoeffGrad_length (hL _ hm) hxl
    have hn := nc_take_succ (ps := ps) (i := i) (by omega)
    have hsub : nc (ps.take (i + 1)) - ps[i].1.numCoeffs = nc (ps.take i) := by omega
    have hzl : (List.zipWith (· + ·) (ldCoeffGrad ps[i].1 ps[i].2 (run (ps.take i) x))
        (coeffGrad ps[i].1 ps[i].2 (run (ps.take i) x) s1)).length = ps[i].1.numCoeffs := by simp [hcl, hlcl]
    have hfin : ∀ s1' s2' : List ℝ, s1'.length = d → s2'.length = d →
        ldcBack (ps.take i) x s1' = ldcBack (ps.take i) x (List.zipWith (· + ·)
          (grad ps[i].1 ps[i].2 (run (ps.take i) x) s1) (ldInputGrad ps[i].1 ps[i].2 (run (ps.take i) x))) →
        ldCoeffGradLoop ps i ck' s1' s2' (nc (ps.take i))
          (putRows out (nc (ps.take i)) ps[i].1.numCoeffs (List.zipWith (· + ·)
            (ldCoeffGrad ps[i].1 ps[i].2 (run (ps.take i) x)) (coeffGrad ps[i].1 ps[i].2 (run (ps.take i) x) s1)))
          = .ok (ldcBack (ps.take (i + 1)) x s1 ++ out.drop (nc (ps.take (i + 1)))) ∧
        (ldcBack (ps.take (i + 1)) x s1).length = nc (ps.take (i + 1)) := by
      intro s1' s2' hs1 hs2 heq
      obtain ⟨e1, e2⟩ := ih ck' s1' s2' (putRows out (nc (ps.take i)) ps[i].1.numCoeffs (List.zipWith (· + ·)
            (ldCoeffGrad ps[i].1 ps[i].2 (run (ps.take i) x)) (coeffGrad ps[i].1 ps[i].2 (run (ps.take i) x) s1)))
        (by omega) hck' hs1 hs2 (by rw [putRows_length (by omega) hzl]; omega)
      rw [e1, heq, take_succ' (by omega), ldcBack_append]
      rw [heq] at e2
      refine ⟨?_, by rw [List.length_append, e2, hzl, ← take_succ' (by omega), hn]⟩
      congr 1
      rw [List.append_assoc]
      congr 1
      rw [putRows, List.append_assoc, List.drop_append_of_le_length (by simp; omega),
        List.drop_eq_nil_of_le (by simp), List.nil_append, ← take_succ' (by omega), hn]
    rw [ldCoeffGradLoop, e, Res.bind_ok, at_ok (by omega)]
    simp only [Res.bind_ok]
    rw [hsub, rows_ok (by omega), Res.bind_ok,
      (hC _ hm).2 _ _ (hp.1.fits hxl) _ (rows_length (by omega)), Res.bind_ok,
      (hC _ hm).1 _ _ _ (hp.1.fits hxl) (by rw [h1, hp.1.2.1]) _ (by simp), Res.bind_ok, addInPlace_ok (by omega),
      Res.bind_ok]
    by_cases h0 : 0 < i
    · rw [if_pos h0, (hpd _ _ _ (hp.1.fits hxl) (by rw [h1, hp.1.2.1])).1 s2 (by rw [h2, hp.1.1]), Res.bind_ok,
        (hL _ hm _ _ (hp.1.fits hxl)).1 s1 (by rw [h1, hp.1.1]), Res.bind_ok, addInPlace_ok (by omega), Res.bind_ok]
      exact hfin _ _ (by simp [hgl, hll]) hll rfl
    · rw [if_neg h0]
      have : i = 0 := by omega
      subst this
      exact hfin _ _ h1 h2 rfl

end MParT.Comp
