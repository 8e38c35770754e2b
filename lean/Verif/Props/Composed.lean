import Verif.Lemmas.ChainRule
import Verif.Props.Triangular
/-! Properties C45–C47: `ComposedMap` and its checkpointing. -/
namespace MParT
open Spec Comp
open ComposedMap (withCoeffs)

/-- C46: whatever is requested, in whatever order, the checkpointer returns the exact input of the requested layer and
never stores more than `maxSaves` states. -/
theorem C46_requests {d maxSaves : Nat} {layers : List Layer} {fs : List (List ℝ → List ℝ)} (h : Computes d layers fs)
    {x : List ℝ} (hx : x.length = d) (hms : maxSaves ≠ 0) {reqs : List Nat} (hr : ∀ i ∈ reqs, i ≤ fs.length) :
    ∃ st st', Checkpointer.new maxSaves x = .ok st ∧
      requests layers st reqs = .ok (reqs.map (layerInput fs x), st') ∧ st'.checks.length ≤ maxSaves := by
  obtain ⟨st, hst, hinv⟩ := Checkpointer.new_inv (ms := maxSaves) (x := x) fs hms
  rw [hx] at hinv
  have : ∀ (reqs : List Nat) (st : Checkpointer), (∀ i ∈ reqs, i ≤ fs.length) → Checkpointer.Inv d fs x maxSaves st →
      ∃ st', requests layers st reqs = .ok (reqs.map (layerInput fs x), st') ∧
        Checkpointer.Inv d fs x maxSaves st' := by
    intro reqs
    induction reqs with
    | nil => intro st _ hinv; exact ⟨st, rfl, hinv⟩
    | cons i is ih =>
      intro st hr hinv
      obtain ⟨st1, e1, h1⟩ := Checkpointer.request_ok h hx (hr i (by simp)) hinv
      obtain ⟨st2, e2, h2⟩ := ih st1 (fun j hj => hr j (by simp [hj])) h1
      refine ⟨st2, ?_, h2⟩
      rw [requests, e1, Res.bind_ok]
      simp only
      rw [e2]
      rfl
  obtain ⟨st', e, h'⟩ := this reqs st hr hinv
  exact ⟨st, st', hst, e, h'.count⟩

/-- C46: no checkpoints at all are refused. -/
theorem C46_zero (x : List ℝ) : Checkpointer.new 0 x = .throw := rfl

example : ∃ st st', Checkpointer.new 2 [5] = .ok st ∧
    requests (List.replicate 4 (fun (p _ : List ℝ) => Res.ok (p.map (2 * ·)))) st [3, 2, 1, 0]
      = .ok ([[40], [20], [10], [5]], st') ∧ st'.checks.length ≤ 2 := by
  have hc : Computes 1 (List.replicate 4 (fun (p _ : List ℝ) => Res.ok (p.map (2 * ·))))
      (List.replicate 4 (fun p : List ℝ => p.map (2 * ·))) := by
    have h : ∀ x out : List ℝ, x.length = 1 → out.length = 1 →
        (fun (p _ : List ℝ) => Res.ok (p.map (2 * ·))) x out = .ok (x.map (2 * ·)) ∧ (x.map (2 * ·)).length = 1 :=
      fun x out hx _ => ⟨rfl, by simp [hx]⟩
    exact .cons h (.cons h (.cons h (.cons h .nil)))
  obtain ⟨st, st', h1, h2, h3⟩ := C46_requests hc (x := [5]) rfl (maxSaves := 2) (by omega) (reqs := [3, 2, 1, 0])
    (by simp)
  refine ⟨st, st', h1, ?_, h3⟩
  rw [h2]
  simp only [List.map_cons, List.map_nil, layerInput, List.replicate, List.take, List.foldl]
  norm_num

theorem checkSquare_iff {m : CMap} {ms : List CMap} : ComposedMap.checkSquare (m :: ms) = true ↔
    ∀ m' ∈ m :: ms, m'.inputDim = m.inputDim ∧ m'.outputDim = m.inputDim := by
  induction ms generalizing m with
  | nil => simp only [ComposedMap.checkSquare, beq_iff_eq, List.mem_singleton, forall_eq, true_and]; exact eq_comm
  | cons m' ms ih =>
    rw [ComposedMap.checkSquare, Bool.and_eq_true, Bool.and_eq_true, ih]
    simp only [beq_iff_eq, List.forall_mem_cons]
    constructor
    · rintro ⟨⟨h1, h2⟩, ⟨-, h3⟩, h4⟩
      refine ⟨⟨trivial, by omega⟩, ⟨by omega, by omega⟩, fun a ha => ?_⟩
      have := h4 a ha
      omega
    · rintro ⟨⟨-, h1⟩, ⟨h2, h3⟩, h4⟩
      refine ⟨⟨by omega, by omega⟩, ⟨trivial, by omega⟩, fun a ha => ?_⟩
      have := h4 a ha
      omega

theorem new_composed {maps : List CMap} {checks : Int} {t : CMap} :
    ComposedMap.new maps checks = .ok t ↔ maps ≠ [] ∧
      (∀ m ∈ maps, m.inputDim = t.inputDim ∧ m.outputDim = t.inputDim) ∧ t = ComposedMap.obj maps checks := by
  cases maps with
  | nil => simp [ComposedMap.new]
  | cons m ms =>
    rw [ComposedMap.new, if_neg (by simp)]
    constructor
    · intro h
      split_ifs at h with hs
      simp only [Bool.not_eq_true, Bool.not_eq_false, Bool.not_eq_true'] at hs
      have e := (Res.ok.inj h).symm
      refine ⟨by simp, ?_, e⟩
      rw [e]
      exact checkSquare_iff.mp (by simpa using hs)
    · rintro ⟨-, h, rfl⟩
      have := checkSquare_iff (m := m) (ms := ms) |>.mpr h
      simp [this]

/-- C45: the constructor accepts exactly the non-empty lists of square maps of one dimension. -/
theorem C45_new (maps : List CMap) (checks : Int) : (∃ t, ComposedMap.new maps checks = .ok t) ↔
    maps ≠ [] ∧ ∃ d, ∀ m ∈ maps, m.inputDim = d ∧ m.outputDim = d := by
  constructor
  · rintro ⟨t, ht⟩
    obtain ⟨h1, h2, -⟩ := new_composed.mp ht
    exact ⟨h1, _, h2⟩
  · rintro ⟨hne, d, hd⟩
    refine ⟨_, new_composed.mpr ⟨hne, ?_, rfl⟩⟩
    cases maps with
    | nil => simp at hne
    | cons m ms =>
      have : (ComposedMap.obj (m :: ms) checks).inputDim = d := (hd m (by simp)).1
      rw [this]; exact hd

section
variable {maps : List CMap} {checks : Int} {t : CMap}

theorem pairs_ok {c x : List ℝ} (hd : ∀ m ∈ maps, m.inputDim = (ComposedMap.obj maps checks).inputDim ∧
      m.outputDim = (ComposedMap.obj maps checks).inputDim) (hf : Fits (ComposedMap.obj maps checks) c x) :
    ∀ p ∈ withCoeffs c maps 0, Sq (ComposedMap.obj maps checks).inputDim p ∧ p.1 ∈ maps :=
  withCoeffs_mem hf.1 hd

theorem pairs_ne (hne : maps ≠ []) (c : List ℝ) : withCoeffs c maps 0 ≠ [] := by
  intro h
  have := withCoeffs_length c maps 0
  rw [h] at this
  exact hne (List.length_eq_zero_iff.mp this.symm)

/-- C45: `Evaluate` applies the layers one after the other, the first one first. -/
theorem C45_evaluate (ht : ComposedMap.new maps checks = .ok t) (hE : ∀ m ∈ maps, Evaluates m) :
    Evaluates t ∧ ∀ c x, Fits t c x → fn t c x = composed maps c x := by
  obtain ⟨hne, hd, rfl⟩ := new_composed.mp ht
  have key : ∀ c x, Fits (ComposedMap.obj maps checks) c x → ∀ out : List ℝ,
      out.length = (ComposedMap.obj maps checks).outputDim →
      (ComposedMap.obj maps checks).eval c x out = .ok (composed maps c x) ∧
        (composed maps c x).length = (ComposedMap.obj maps checks).outputDim := by
    intro c x hf out ho
    have hps : ∀ p ∈ withCoeffs c maps 0, Sq (ComposedMap.obj maps checks).inputDim p ∧ Evaluates p.1 :=
      fun p hp => ⟨(pairs_ok hd hf p hp).1, hE _ (pairs_ok hd hf p hp).2⟩
    rw [← run_withCoeffs]
    exact ⟨evaluate_eq (pairs_ne hne c) hps hf.2 ho, run_length hps hf.2⟩
  have key' : ∀ c x, Fits (ComposedMap.obj maps checks) c x → fn (ComposedMap.obj maps checks) c x = composed maps c x := by
    intro c x hf
    rw [fn, (key c x hf _ (by simp)).1]
    rfl
  refine ⟨fun c x hf => ⟨?_, fun out ho => ?_⟩, key'⟩
  · rw [key' c x hf]; exact (key c x hf (zeros (ComposedMap.obj maps checks).outputDim) (by simp)).2
  · rw [key' c x hf]; exact (key c x hf out ho).1

/-- C45: if the layers' inverses are exact, `Inverse` is the exact inverse of `Evaluate`; the first argument is irrelevant
as long as the layers accept it. -/
theorem C45_inverse (ht : ComposedMap.new maps checks = .ok t) (hE : ∀ m ∈ maps, Evaluates m) {k : Nat}
    (hI : ∀ m ∈ maps, InvertsFrom m k) : InvertsFrom t k := by
  obtain ⟨-, key⟩ := C45_evaluate ht hE
  obtain ⟨hne, hd, rfl⟩ := new_composed.mp ht
  intro c x1 r hc hx1 hr out ho
  have hps : ∀ p ∈ withCoeffs c maps 0, Sq (ComposedMap.obj maps checks).inputDim p ∧ p.1 ∈ maps := withCoeffs_mem hc hd
  obtain ⟨y, e, hl, hr1, hu⟩ := invLoop_eq hx1 (withCoeffs c maps 0) r (List.replicate r.length 0)
    (fun p hp => ⟨(hps p hp).1, hE _ (hps p hp).2⟩) (fun p hp => hI _ (hps p hp).2) hr (by simp [hr]; rfl)
  have hlead : (ComposedMap.obj maps checks).inputDim - (ComposedMap.obj maps checks).outputDim = 0 := Nat.sub_self _
  rw [hlead]
  simp only [List.take_zero, List.nil_append]
  refine ⟨y, ?_, hl, ?_, fun y' hy' h => ?_⟩
  · change ComposedMap.inverse (withCoeffs c maps 0) x1 r out = _
    rw [ComposedMap.inverse, e, Res.bind_ok, deepCopy_ok (by rw [ho, hl]; rfl)]
  · rw [key _ _ ⟨hc, hl⟩, ← run_withCoeffs, hr1]
  · rw [key _ _ ⟨hc, hy'⟩, ← run_withCoeffs] at h
    exact hu y' hy' h

/-- C45: `LogDeterminant` is the sum of the layers' log-determinants at the points they receive. -/
theorem C45_logDet (ht : ComposedMap.new maps checks = .ok t) (hE : ∀ m ∈ maps, Evaluates m)
    (hL : ∀ m ∈ maps, HasLogDet m) :
    HasLogDet t ∧ ∀ c x, Fits t c x → logdet t c x = composedLogDet maps c x := by
  obtain ⟨hne, hd, rfl⟩ := new_composed.mp ht
  have key : ∀ c x, Fits (ComposedMap.obj maps checks) c x → ∀ o, (ComposedMap.obj maps checks).logDet c x o
      = .ok (some (composedLogDet maps c x)) := by
    intro c x hf o
    rw [← ldSum_withCoeffs]
    exact Comp.logDet_eq (pairs_ne hne c) (fun p hp => ⟨(pairs_ok hd hf p hp).1, hE _ (pairs_ok hd hf p hp).2⟩)
      (fun p hp => hL _ (pairs_ok hd hf p hp).2) hf.2 o
  have key' : ∀ c x, Fits (ComposedMap.obj maps checks) c x →
      logdet (ComposedMap.obj maps checks) c x = composedLogDet maps c x := by
    intro c x hf
    rw [logdet, key c x hf]
    rfl
  exact ⟨fun c x hf o => by rw [key' c x hf]; exact key c x hf o, key'⟩

/-- C45: it is the logarithm of the modulus of the Jacobian determinant of the composition, if that is so for each layer. -/
theorem C45_jacobian (ht : ComposedMap.new maps checks = .ok t) (hE : ∀ m ∈ maps, Evaluates m)
    (hD : ∀ m ∈ maps, Differentiates m) (hL : ∀ m ∈ maps, HasLogDet m) (hJ : ∀ m ∈ maps, LogDetIsJacobian m) :
    LogDetIsJacobian t := by
  obtain ⟨-, key⟩ := C45_evaluate ht hE
  obtain ⟨-, keyL⟩ := C45_logDet ht hE hL
  obtain ⟨hne, hd, rfl⟩ := new_composed.mp ht
  intro c x hf
  obtain ⟨J, h1, h2, h3⟩ := run_jacobian (withCoeffs c maps 0) (x := x)
    (fun p hp => ⟨(pairs_ok hd hf p hp).1, hE _ (pairs_ok hd hf p hp).2⟩)
    (fun p hp => hD _ (pairs_ok hd hf p hp).2) (fun p hp => hJ _ (pairs_ok hd hf p hp).2) hf.2
  have hlead : (ComposedMap.obj maps checks).inputDim - (ComposedMap.obj maps checks).outputDim = 0 := Nat.sub_self _
  have hj : jacobian (ComposedMap.obj maps checks) c x = J := by
    rw [← h1.jac hf.2, jacobian, hlead]
    ext i j
    simp only [jac, Matrix.of_apply]
    congr 1
    funext t
    rw [key _ _ ⟨hf.1, by rw [List.length_set]; exact hf.2⟩, run_withCoeffs]
  rw [hj, keyL c x hf, ← ldSum_withCoeffs]
  exact ⟨h2, h3⟩

theorem maxChecks_ne (hne : maps ≠ []) (checks : Int) : ComposedMap.maxChecks maps checks ≠ 0 := by
  rw [ComposedMap.maxChecks]
  split_ifs with h
  · exact fun h0 => hne (List.length_eq_zero_iff.mp h0)
  · omega

theorem grad_eq {c x s : List ℝ} (hne : maps ≠ []) (hd : ∀ m ∈ maps, m.inputDim = (ComposedMap.obj maps checks).inputDim ∧
      m.outputDim = (ComposedMap.obj maps checks).inputDim) (hE : ∀ m ∈ maps, Evaluates m)
    (hD : ∀ m ∈ maps, Differentiates m) (hf : Fits (ComposedMap.obj maps checks) c x)
    (hs : s.length = (ComposedMap.obj maps checks).outputDim) {out : List ℝ}
    (ho : out.length = (ComposedMap.obj maps checks).inputDim) :
    (ComposedMap.obj maps checks).grad c x s out = .ok (back (withCoeffs c maps 0) x s) := by
  have hps := pairs_ok hd hf
  obtain ⟨ck, e, hck⟩ := Checkpointer.new_inv (ms := ComposedMap.maxChecks maps checks) (x := x)
    ((withCoeffs c maps 0).map fun p => fn p.1 p.2) (maxChecks_ne hne checks)
  rw [hf.2] at hck
  obtain ⟨e2, e3⟩ := Comp.gradLoop_eq (ps := withCoeffs c maps 0) (fun p hp => ⟨(hps p hp).1, hE _ (hps p hp).2⟩)
    (fun p hp => hD _ (hps p hp).2) hf.2 (withCoeffs c maps 0).length ck s (List.replicate s.length 0) (le_refl _) hck hs
    (by simp [hs]; rfl)
  rw [List.take_length] at e2 e3
  change ComposedMap.gradient _ _ _ _ _ = _
  rw [ComposedMap.gradient, e, Res.bind_ok, e2, Res.bind_ok, deepCopy_ok (by rw [ho, e3])]

theorem coeffGrad_eq {c x s : List ℝ} (hne : maps ≠ [])
    (hd : ∀ m ∈ maps, m.inputDim = (ComposedMap.obj maps checks).inputDim ∧
      m.outputDim = (ComposedMap.obj maps checks).inputDim) (hE : ∀ m ∈ maps, Evaluates m)
    (hD : ∀ m ∈ maps, Differentiates m) (hC : ∀ m ∈ maps, CoeffGradReturns m) (hf : Fits (ComposedMap.obj maps checks) c x)
    (hs : s.length = (ComposedMap.obj maps checks).outputDim) {out : List ℝ}
    (ho : out.length = (ComposedMap.obj maps checks).numCoeffs) :
    (ComposedMap.obj maps checks).coeffGrad c x s out = .ok (cgBack (withCoeffs c maps 0) x s) := by
  have hps := pairs_ok hd hf
  obtain ⟨ck, e, hck⟩ := Checkpointer.new_inv (ms := ComposedMap.maxChecks maps checks) (x := x)
    ((withCoeffs c maps 0).map fun p => fn p.1 p.2) (maxChecks_ne hne checks)
  rw [hf.2] at hck
  have hn := withCoeffs_nc c maps 0
  have ho' : out.length = (maps.map CMap.numCoeffs).sum := ho
  obtain ⟨e2, e3⟩ := Comp.coeffGradLoop_eq (ps := withCoeffs c maps 0) (fun p hp => ⟨(hps p hp).1, hE _ (hps p hp).2⟩)
    (fun p hp => hD _ (hps p hp).2) (fun p hp => hC _ (hps p hp).2) hf.2 (withCoeffs c maps 0).length ck s
    (List.replicate s.length 0) out (le_refl _) hck hs (by simp [hs]; rfl) (by rw [List.take_length, hn, ho'])
  rw [List.take_length, hn, List.drop_eq_nil_of_le (by omega), List.append_nil] at e2
  change ComposedMap.coeffGrad _ _ _ _ _ _ = _
  rw [ComposedMap.coeffGrad, e, Res.bind_ok]
  exact e2

/-- C45: `Gradient` and `CoeffGrad` are the gradients of `s · Evaluate` (chain rule through all layers), provided the
layers' are; layers without coefficients must also have a `CoeffGrad` that returns. -/
theorem C45_gradient (ht : ComposedMap.new maps checks = .ok t) (hE : ∀ m ∈ maps, Evaluates m)
    (hD : ∀ m ∈ maps, Differentiates m) (hC : ∀ m ∈ maps, CoeffGradReturns m) : Differentiates t := by
  obtain ⟨-, key⟩ := C45_evaluate ht hE
  obtain ⟨hne, hd, rfl⟩ := new_composed.mp ht
  intro c x s hf hs
  have hg := back_gradient (s := s) hs maps hd hE hD hf.1 hf.2
  have e1 := congrArg (value []) (grad_eq hne hd hE hD hf hs (out := zeros (ComposedMap.obj maps checks).inputDim) (by simp))
  have e2 := congrArg (value []) (coeffGrad_eq hne hd hE hD hC hf hs
    (out := zeros (ComposedMap.obj maps checks).numCoeffs) (by simp))
  change Spec.grad (ComposedMap.obj maps checks) c x s = back (withCoeffs c maps 0) x s at e1
  change Spec.coeffGrad (ComposedMap.obj maps checks) c x s = cgBack (withCoeffs c maps 0) x s at e2
  refine ⟨fun out ho => by rw [e1]; exact grad_eq hne hd hE hD hf hs ho,
    fun _ out ho => by rw [e2]; exact coeffGrad_eq hne hd hE hD hC hf hs ho, ?_⟩
  rw [e1, e2]
  refine ⟨hg.1, hg.2.1, fun γ δ vc vx t₀ hγ hδ hγc hδx => ?_⟩
  refine (hg.2.2 γ δ vc vx t₀ hγ hδ hγc hδx).congr_of_eventuallyEq (Filter.Eventually.of_forall fun t => ?_)
  simp only
  rw [key _ _ ⟨hγ.1 t, hδ.1 t⟩]

theorem pairs_snoc (hne : maps ≠ []) (c : List ℝ) : ∃ qs p, withCoeffs c maps 0 = qs ++ [p] :=
  ⟨_, _, (List.dropLast_append_getLast (pairs_ne hne c)).symm⟩

theorem ldBack_snoc {d : Nat} {qs : List (CMap × List ℝ)} {p : CMap × List ℝ} {x : List ℝ}
    (h : ∀ q ∈ qs ++ [p], Sq d q ∧ Evaluates q.1) (hD : Differentiates p.1) (hL : DifferentiatesLogDet p.1)
    (hx : x.length = d) :
    ldBack (qs ++ [p]) x (zeros d) = ldBack qs x (Spec.ldInputGrad p.1 p.2 (run qs x)) ∧
    ldcBack (qs ++ [p]) x (zeros d) = ldcBack qs x (Spec.ldInputGrad p.1 p.2 (run qs x))
      ++ Spec.ldCoeffGrad p.1 p.2 (run qs x) := by
  have hp := h p (by simp)
  have hxl : (run qs x).length = d := run_length (fun q hq => h q (by simp [hq])) hx
  obtain ⟨z1, z2⟩ := grad_zeros hp.2 hD (hp.1.fits hxl)
  rw [hp.1.2.1] at z1 z2
  rw [hp.1.1] at z2
  have e1 : List.zipWith (· + ·) (zeros d) (Spec.ldInputGrad p.1 p.2 (run qs x)) = Spec.ldInputGrad p.1 p.2 (run qs x) := by
    have := zipWith_zeros (Spec.ldInputGrad p.1 p.2 (run qs x))
    rwa [hp.1.ldInputGrad_length hL hxl] at this
  rw [ldBack_append, ldcBack_append, z1, z2, e1, zipWith_zeros_right (hp.1.ldCoeffGrad_length hL hxl).symm]
  exact ⟨rfl, rfl⟩

theorem ldInputGrad_eq {c x : List ℝ} (hne : maps ≠ []) (hd : ∀ m ∈ maps, m.inputDim = (ComposedMap.obj maps checks).inputDim ∧
      m.outputDim = (ComposedMap.obj maps checks).inputDim) (hE : ∀ m ∈ maps, Evaluates m)
    (hD : ∀ m ∈ maps, Differentiates m) (hL : ∀ m ∈ maps, DifferentiatesLogDet m)
    (hf : Fits (ComposedMap.obj maps checks) c x) {out : List ℝ}
    (ho : out.length = (ComposedMap.obj maps checks).inputDim) :
    (ComposedMap.obj maps checks).ldInputGrad c x out
      = .ok (ldBack (withCoeffs c maps 0) x (zeros (ComposedMap.obj maps checks).inputDim)) := by
  have hps := pairs_ok hd hf
  obtain ⟨ck, e, hck⟩ := Checkpointer.new_inv (ms := ComposedMap.maxChecks maps checks) (x := x)
    ((withCoeffs c maps 0).map fun p => fn p.1 p.2) (maxChecks_ne hne checks)
  rw [hf.2] at hck
  change ComposedMap.ldInputGrad _ _ _ _ = _
  obtain ⟨qs, p, hq⟩ := pairs_snoc hne c
  rw [hq] at hps hck ⊢
  have h : ∀ q ∈ qs ++ [p], Sq (ComposedMap.obj maps checks).inputDim q ∧ Evaluates q.1 :=
    fun q hq => ⟨(hps q hq).1, hE _ (hps q hq).2⟩
  have hp := h p (by simp)
  have hpm := (hps p (by simp)).2
  have hlen : (qs ++ [p]).length - 1 = qs.length := by simp
  have hxl : (run qs x).length = (ComposedMap.obj maps checks).inputDim :=
    run_length (fun q hq => h q (by simp [hq])) hf.2
  obtain ⟨ck', e', hck'⟩ := request_eq h hf.2 (i := qs.length) (by simp) hck
  rw [List.take_left] at e'
  have hll := hp.1.ldInputGrad_length (hL _ hpm) hxl
  obtain ⟨e2, e3⟩ := Comp.ldInputGradLoop_eq h (fun q hq => hD _ (hps q hq).2) (fun q hq => hL _ (hps q hq).2) hf.2
    qs.length ck' (Spec.ldInputGrad p.1 p.2 (run qs x)) (List.replicate x.length 0) (by simp) hck' hll (by simp [hf.2])
  rw [List.take_left] at e2 e3
  rw [ComposedMap.ldInputGrad, e, Res.bind_ok, hlen, e', Res.bind_ok]
  simp only [List.getLast?_append, List.getLast?_singleton, Option.some_or, Res.bind_ok]
  rw [(hL _ hpm _ _ (hp.1.fits hxl)).1 _ (by simp [hf.2, hp.1.1]), Res.bind_ok, e2, Res.bind_ok,
    deepCopy_ok (by rw [ho, e3]), (ldBack_snoc h (hD _ hpm) (hL _ hpm) hf.2).1]

theorem ldCoeffGrad_eq {c x : List ℝ} (hne : maps ≠ []) (hd : ∀ m ∈ maps, m.inputDim = (ComposedMap.obj maps checks).inputDim ∧
      m.outputDim = (ComposedMap.obj maps checks).inputDim) (hE : ∀ m ∈ maps, Evaluates m)
    (hD : ∀ m ∈ maps, Differentiates m) (hL : ∀ m ∈ maps, DifferentiatesLogDet m) (hC : ∀ m ∈ maps, CoeffGradReturns m)
    (hf : Fits (ComposedMap.obj maps checks) c x) {out : List ℝ}
    (ho : out.length = (ComposedMap.obj maps checks).numCoeffs) :
    (ComposedMap.obj maps checks).ldCoeffGrad c x out
      = .ok (ldcBack (withCoeffs c maps 0) x (zeros (ComposedMap.obj maps checks).inputDim)) := by
  have hps := pairs_ok hd hf
  obtain ⟨ck, e, hck⟩ := Checkpointer.new_inv (ms := ComposedMap.maxChecks maps checks) (x := x)
    ((withCoeffs c maps 0).map fun p => fn p.1 p.2) (maxChecks_ne hne checks)
  rw [hf.2] at hck
  have hn := withCoeffs_nc c maps 0
  have ho' : out.length = (maps.map CMap.numCoeffs).sum := ho
  rw [← hn] at ho'
  change ComposedMap.ldCoeffGrad _ (maps.map CMap.numCoeffs).sum _ _ _ = _
  rw [← hn]
  obtain ⟨qs, p, hq⟩ := pairs_snoc hne c
  rw [hq] at hps hck ho' ⊢
  have h : ∀ q ∈ qs ++ [p], Sq (ComposedMap.obj maps checks).inputDim q ∧ Evaluates q.1 :=
    fun q hq => ⟨(hps q hq).1, hE _ (hps q hq).2⟩
  have hp := h p (by simp)
  have hpm := (hps p (by simp)).2
  have hlen : (qs ++ [p]).length - 1 = qs.length := by simp
  have hnc : nc (qs ++ [p]) = nc qs + p.1.numCoeffs := by simp [nc]
  have hsub : nc (qs ++ [p]) - p.1.numCoeffs = nc qs := by omega
  have hxl : (run qs x).length = (ComposedMap.obj maps checks).inputDim :=
    run_length (fun q hq => h q (by simp [hq])) hf.2
  obtain ⟨ck', e', hck'⟩ := request_eq h hf.2 (i := qs.length) (by simp) hck
  rw [List.take_left] at e'
  have hll := hp.1.ldInputGrad_length (hL _ hpm) hxl
  have hcl := hp.1.ldCoeffGrad_length (hL _ hpm) hxl
  obtain ⟨e2, e3⟩ := Comp.ldCoeffGradLoop_eq h (fun q hq => hD _ (hps q hq).2) (fun q hq => hL _ (hps q hq).2)
    (fun q hq => hC _ (hps q hq).2) hf.2
    qs.length ck' (Spec.ldInputGrad p.1 p.2 (run qs x)) (List.replicate x.length 0)
    (putRows out (nc qs) p.1.numCoeffs (Spec.ldCoeffGrad p.1 p.2 (run qs x))) (by simp) hck' hll (by simp [hf.2])
    (by rw [List.take_left, putRows_length (by omega) hcl]; omega)
  rw [List.take_left] at e2 e3
  rw [ComposedMap.ldCoeffGrad, e, Res.bind_ok, hlen, e', Res.bind_ok]
  simp only [List.getLast?_append, List.getLast?_singleton, Option.some_or, Res.bind_ok]
  rw [hsub, rows_ok (by omega), Res.bind_ok, (hC _ hpm).2 _ _ (hp.1.fits hxl) _ (rows_length (by omega)), Res.bind_ok,
    (hL _ hpm _ _ (hp.1.fits hxl)).1 _ (by simp [hf.2, hp.1.1]), Res.bind_ok, e2,
    (ldBack_snoc h (hD _ hpm) (hL _ hpm) hf.2).2]
  congr 2
  rw [putRows, List.append_assoc, List.drop_append_of_le_length (by simp; omega), List.drop_eq_nil_of_le (by simp),
    List.nil_append, List.drop_eq_nil_of_le (by omega), List.append_nil]

/-- C47: `LogDeterminantInputGrad` and `LogDeterminantCoeffGrad` are the gradients of `LogDeterminant`, provided every layer's
are and overwrite their output buffer. -/
theorem C47_composed_partial (ht : ComposedMap.new maps checks = .ok t) (hE : ∀ m ∈ maps, Evaluates m)
    (hD : ∀ m ∈ maps, Differentiates m) (hH : ∀ m ∈ maps, HasLogDet m) (hL : ∀ m ∈ maps, DifferentiatesLogDet m)
    (hC : ∀ m ∈ maps, CoeffGradReturns m) : DifferentiatesLogDet t := by
  obtain ⟨-, key⟩ := C45_logDet ht hE hH
  obtain ⟨hne, hd, rfl⟩ := new_composed.mp ht
  intro c x hf
  have hg := ldBack_gradient maps hd hE hD hL hf.1 hf.2
  have e1 := congrArg (value []) (ldInputGrad_eq hne hd hE hD hL hf
    (out := zeros (ComposedMap.obj maps checks).inputDim) (by simp))
  have e2 := congrArg (value []) (ldCoeffGrad_eq hne hd hE hD hL hC hf
    (out := zeros (ComposedMap.obj maps checks).numCoeffs) (by simp))
  change Spec.ldInputGrad (ComposedMap.obj maps checks) c x = ldBack (withCoeffs c maps 0) x _ at e1
  change Spec.ldCoeffGrad (ComposedMap.obj maps checks) c x = ldcBack (withCoeffs c maps 0) x _ at e2
  refine ⟨fun out ho => by rw [e1]; exact ldInputGrad_eq hne hd hE hD hL hf ho,
    fun _ out ho => by rw [e2]; exact ldCoeffGrad_eq hne hd hE hD hL hC hf ho, ?_⟩
  rw [e1, e2]
  refine ⟨hg.1, hg.2.1, fun γ δ vc vx t₀ hγ hδ hγc hδx => ?_⟩
  refine (hg.2.2 γ δ vc vx t₀ hγ hδ hγc hδx).congr_of_eventuallyEq (Filter.Eventually.of_forall fun t => ?_)
  simp only
  rw [key _ _ ⟨hγ.1 t, hδ.1 t⟩]

/-- C46: the number of checkpoints changes no gradient. -/
theorem C46_gradients {checks' : Int} {t' : CMap} (ht : ComposedMap.new maps checks = .ok t)
    (ht' : ComposedMap.new maps checks' = .ok t') (hE : ∀ m ∈ maps, Evaluates m) (hD : ∀ m ∈ maps, Differentiates m)
    (hL : ∀ m ∈ maps, DifferentiatesLogDet m) (hC : ∀ m ∈ maps, CoeffGradReturns m) {c x s : List ℝ} (hf : Fits t c x)
    (hs : s.length = t.outputDim) {o1 o2 : List ℝ} (h1 : o1.length = t.inputDim) (h2 : o2.length = t.numCoeffs) :
    t.grad c x s o1 = t'.grad c x s o1 ∧ t.coeffGrad c x s o2 = t'.coeffGrad c x s o2 ∧
    t.ldInputGrad c x o1 = t'.ldInputGrad c x o1 ∧ t.ldCoeffGrad c x o2 = t'.ldCoeffGrad c x o2 := by
  obtain ⟨hne, hd, rfl⟩ := new_composed.mp ht
  obtain ⟨-, hd', rfl⟩ := new_composed.mp ht'
  exact ⟨by rw [grad_eq hne hd hE hD hf hs h1, grad_eq hne hd' hE hD hf hs h1],
    by rw [coeffGrad_eq hne hd hE hD hC hf hs h2, coeffGrad_eq hne hd' hE hD hC hf hs h2],
    by rw [ldInputGrad_eq hne hd hE hD hL hf h1, ldInputGrad_eq hne hd' hE hD hL hf h1]; rfl,
    by rw [ldCoeffGrad_eq hne hd hE hD hL hC hf h2, ldCoeffGrad_eq hne hd' hE hD hL hC hf h2]; rfl⟩

end

/-- C45 fails for identity layers: `CoeffGrad` of a composed map that contains one hits `assert(false)`, although the
identity has no coefficients and hence nothing to differentiate. -/
theorem C45_fails_identity (d : Nat) : ∃ t, ComposedMap.new [IdentityMap.obj d d] 0 = .ok t ∧
    ∀ x s : List ℝ, x.length = d → s.length = d → t.coeffGrad [] x s [] = .throw ∧ t.ldCoeffGrad [] x [] = .throw := by
  refine ⟨_, new_composed.mpr ⟨by simp, fun m hm => ?_, rfl⟩, fun x s hx hs => ⟨?_, ?_⟩⟩
  · rw [List.mem_singleton.mp hm]; exact ⟨rfl, rfl⟩
  · simp [ComposedMap.obj, ComposedMap.coeffGrad, ComposedMap.maxChecks, Checkpointer.new, ComposedMap.coeffGradLoop,
      Checkpointer.request, Checkpointer.getLayerInput, withCoeffs, Res.at', rows, IdentityMap.obj, slice,
      ComposedMap.numCoeffs]
  · simp [ComposedMap.obj, ComposedMap.ldCoeffGrad, ComposedMap.maxChecks, Checkpointer.new,
      Checkpointer.request, Checkpointer.getLayerInput, withCoeffs, rows, IdentityMap.obj, slice,
      ComposedMap.numCoeffs]

/-! A concrete composed map that meets all hypotheses: three copies of `(x₁, x₂) ↦ (x₁, exp(a) x₂ + x₁²)`, each with its own
coefficient, checkpointed with two states. -/

/-- The layers of the example. -/
noncomputable def exampleLayers : List CMap := List.replicate 3 (TriangularMap.obj exampleComps)

theorem layers_all {P : CMap → Prop} (h : P (TriangularMap.obj exampleComps)) : ∀ m ∈ exampleLayers, P m := by
  intro m hm
  rw [exampleLayers, List.mem_replicate] at hm
  rw [hm.2]; exact h

theorem layers_new : ComposedMap.new exampleLayers 2 = .ok (ComposedMap.obj exampleLayers 2) :=
  new_composed.mpr ⟨by simp [exampleLayers], layers_all ⟨rfl, rfl⟩, rfl⟩

theorem example_cg : CoeffGradReturns (TriangularMap.obj exampleComps) := by
  have h1 := C43_gradient example_new example_evaluates
    (example_all (C48_identity_gradient (le_refl 1)).1 toy_differentiates)
  have h2 := C43_logDet example_new (example_all (C48_identity_logDet (le_refl 1)).1 toy_hasLogDet)
      (example_all C48_identity_logDetGradient toy_differentiatesLogDet)
  exact ⟨fun c x s hf hs => (h1 c x s hf hs).2.1 (by decide), fun c x hf => (h2 c x hf).2.1 (by decide)⟩

example : Evaluates (ComposedMap.obj exampleLayers 2) ∧ InvertsFrom (ComposedMap.obj exampleLayers 2) 0 ∧
    LogDetIsJacobian (ComposedMap.obj exampleLayers 2) ∧ Differentiates (ComposedMap.obj exampleLayers 2) ∧
    DifferentiatesLogDet (ComposedMap.obj exampleLayers 2) := by
  have hE := layers_all (C40_evaluate example_new example_evaluates).1
  have hI := layers_all (P := fun m => InvertsFrom m 0) (C41_inverse example_new example_evaluates example_inverts (k := 0) (by decide) (by decide))
  have hD := layers_all (C43_gradient example_new example_evaluates
    (example_all (C48_identity_gradient (le_refl 1)).1 toy_differentiates))
  have hH := layers_all (C42_sum example_new (example_all (C48_identity_logDet (le_refl 1)).1 toy_hasLogDet)).1
  have hL := layers_all (C43_logDet example_new (example_all (C48_identity_logDet (le_refl 1)).1 toy_hasLogDet)
      (example_all C48_identity_logDetGradient toy_differentiatesLogDet))
  have hJ := layers_all (C42_jacobian example_new example_evaluates
    (example_all (C48_identity_logDet (le_refl 1)).1 toy_hasLogDet)
    (example_all (C48_identity_logDet (le_refl 1)).2.2 toy_jacobian))
  have hC := layers_all example_cg
  exact ⟨(C45_evaluate layers_new hE).1, C45_inverse layers_new hE hI, C45_jacobian layers_new hE hD hH hJ,
    C45_gradient layers_new hE hD hC, C47_composed_partial layers_new hE hD hH hL hC⟩

example : (ComposedMap.obj exampleLayers 2).numCoeffs = 3 := by
  simp [ComposedMap.obj, ComposedMap.numCoeffs, exampleLayers, TriangularMap.obj, exampleComps, toy, IdentityMap.obj]

end MParT
