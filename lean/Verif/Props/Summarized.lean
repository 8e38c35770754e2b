import Verif.Props.Affine
/-! Property C48: `SummarizedMap`. -/
namespace MParT
open Spec Aff

/-- A summary function as a map without coefficients. -/
def asMap (s : Summary) : CMap where
  inputDim := s.inputDim
  outputDim := s.outputDim
  numCoeffs := 0
  eval _ := s.eval
  logDet _ _ _ := .throw
  inv _ _ _ _ := .throw
  grad _ := s.grad
  coeffGrad _ _ _ _ := .ok []
  ldCoeffGrad _ _ _ := .throw
  ldInputGrad _ _ _ := .throw

section
variable {s : Summary} {m t : CMap}

theorem asMap_evaluates (h : Summarises s) : Evaluates (asMap s) := fun _ _ hf => h _ hf.2

theorem asMap_differentiates (h : DifferentiatesSummary s) : Differentiates (asMap s) := by
  intro c x v hf hv
  obtain ⟨h1, h2, h3⟩ := h x v hf.2 hv
  refine ⟨h1, fun h => absurd rfl h, rfl, h2, fun γ δ vc vx t₀ hγ hδ hc hx => ?_⟩
  have hvc : vc = [] := List.length_eq_zero_iff.mp hγ.2.1
  subst hvc
  have := h3 δ vx t₀ hδ hx
  have e : dot (coeffGrad (asMap s) c x v) [] = 0 := by simp [dot]
  rw [e, zero_add]
  exact this

theorem new_summarized : SummarizedMap.new s m = .ok t ↔
    m.outputDim = 1 ∧ m.inputDim = s.outputDim + 1 ∧ t = SummarizedMap.obj s m := by
  rw [SummarizedMap.new]
  split_ifs with h1 h2
  · simp [h1]
  · simp [h2]
  · push Not at h1 h2
    simp [h1, h2, eq_comm]

/-- C48: the constructor accepts exactly the components with one output and one input more than the summary has outputs. -/
theorem C48_summarised_new : (∃ t, SummarizedMap.new s m = .ok t) ↔ m.outputDim = 1 ∧ m.inputDim = s.outputDim + 1 := by
  simp only [new_summarized]
  exact ⟨fun ⟨_, h⟩ => ⟨h.1, h.2.1⟩, fun h => ⟨_, h.1, h.2, rfl⟩⟩

/-- The point handed to the component. -/
def sp (s : Summary) (x : List ℝ) : List ℝ := summarise s (x.take s.inputDim) ++ x.drop s.inputDim

theorem sp_length (hS : Summarises s) {x : List ℝ} (hx : x.length = s.inputDim + 1) : (sp s x).length = s.outputDim + 1 := by
  simp [sp, (hS (x.take s.inputDim) (by simp; omega)).1, hx]

theorem summarizePts_eq (hS : Summarises s) {x out : List ℝ} (hx : x.length = s.inputDim + 1)
    (ho : out.length = s.outputDim + 1) : SummarizedMap.summarizePts s x out = .ok (sp s x) := by
  obtain ⟨hl, he⟩ := hS (x.take s.inputDim) (by simp; omega)
  rw [SummarizedMap.summarizePts, rows_ok (by omega), Res.bind_ok, rows_ok (by omega), Res.bind_ok, rows_ok (by omega),
    Res.bind_ok, List.drop_zero, he _ (by simp; omega), Res.bind_ok]
  simp only
  rw [rows_ok (by rw [putRows_length (by omega) hl]; omega), Res.bind_ok, deepCopy_ok (by
    rw [rows_length (by rw [putRows_length (by omega) hl]; omega), rows_length (by omega)]), Res.bind_ok, Res.pure_eq]
  congr 1
  have hd : (putRows out 0 s.outputDim (summarise s (x.take s.inputDim))).drop (s.outputDim + 1) = [] :=
    List.drop_eq_nil_of_le (by rw [putRows_length (by omega) hl]; omega)
  have ht := putRows_take (v := out) (a := 0) (n := s.outputDim) (by omega) hl
  rw [List.take_zero, List.nil_append, Nat.zero_add] at ht
  rw [putRows, hd, List.append_nil, ht, sp, List.take_of_length_le (l := x.drop s.inputDim) (by simp; omega)]

theorem obj_eval (hS : Summarises s) (hmi : m.inputDim = s.outputDim + 1) {c x : List ℝ} (hx : x.length = s.inputDim + 1)
    (out : List ℝ) : (SummarizedMap.obj s m).eval c x out = m.eval c (sp s x) out := by
  change (SummarizedMap.summarizePts s x (List.replicate m.inputDim 0)).bind _ = _
  rw [summarizePts_eq hS hx (by simp [hmi])]
  rfl

theorem obj_fn (hS : Summarises s) (hmi : m.inputDim = s.outputDim + 1) {c x : List ℝ} (hx : x.length = s.inputDim + 1) :
    fn (SummarizedMap.obj s m) c x = fn m c (sp s x) := congrArg (value []) (obj_eval hS hmi hx _)

theorem sp_fits (hS : Summarises s) (hmi : m.inputDim = s.outputDim + 1) {c x : List ℝ}
    (hf : Fits (SummarizedMap.obj s m) c x) : Fits m c (sp s x) := ⟨hf.1, by rw [sp_length hS hf.2, hmi]⟩

/-- C48: a summarised map is its component at the summary of the leading inputs followed by the last input. -/
theorem C48_summarised_evaluate (ht : SummarizedMap.new s m = .ok t) (hS : Summarises s) (hE : Evaluates m) :
    Evaluates t ∧ ∀ c x, Fits t c x → fn t c x = summarised s m c x := by
  obtain ⟨hmo, hmi, rfl⟩ := new_summarized.mp ht
  refine ⟨fun c x hf => ?_, fun c x hf => obj_fn hS hmi hf.2⟩
  rw [obj_fn hS hmi hf.2]
  obtain ⟨h1, h2⟩ := hE c _ (sp_fits hS hmi hf)
  exact ⟨h1, fun out ho => by rw [obj_eval hS hmi hf.2]; exact h2 out ho⟩

/-- C48: its inverse is the inverse of the component at the summary of the leading inputs. -/
theorem C48_summarised_inverse (ht : SummarizedMap.new s m = .ok t) (hS : Summarises s) (hI : InvertsFrom m s.outputDim)
    {k : Nat} (hk : s.inputDim ≤ k) : InvertsFrom t k := by
  obtain ⟨hmo, hmi, rfl⟩ := new_summarized.mp ht
  intro c x1 r hc hx1 hr out ho
  obtain ⟨hl, he⟩ := hS (x1.take s.inputDim) (by simp; omega)
  have hd : (SummarizedMap.obj s m).inputDim - (SummarizedMap.obj s m).outputDim = s.inputDim := by
    change s.inputDim + 1 - m.outputDim = _; omega
  have hd' : m.inputDim - m.outputDim = s.outputDim := by omega
  obtain ⟨y, h1, h2, h3, h4⟩ := hI c (summarise s (x1.take s.inputDim)) r hc hl hr out ho
  rw [hd', List.take_of_length_le (by omega)] at h3 h4
  have e : ∀ y : List ℝ, y.length = m.outputDim → fn (SummarizedMap.obj s m) c (x1.take s.inputDim ++ y)
      = fn m c (summarise s (x1.take s.inputDim) ++ y) := by
    intro y hy
    have hlt : (x1.take s.inputDim).length = s.inputDim := by simp; omega
    rw [obj_fn hS hmi (by simp only [List.length_append, hlt]; omega), sp, List.take_append_of_le_length (by omega),
      List.take_of_length_le (by omega), List.drop_append_of_le_length (by omega), List.drop_eq_nil_of_le (by omega),
      List.nil_append]
  rw [hd]
  refine ⟨y, ?_, h2, by rw [e y h2]; exact h3, fun y' hy' hf => h4 y' hy' (by rw [← e y' hy']; exact hf)⟩
  change (rows x1 0 s.inputDim).bind _ = _
  rw [rows_ok (by omega), List.drop_zero]
  change (s.eval (x1.take s.inputDim) (List.replicate s.outputDim 0)).bind _ = _
  rw [he _ (by simp)]
  exact h1

/-- C48: the same for an inverse that is only approximate. -/
theorem C48_summarised_inverse_upTo {P : CMap → (c lead y r : List ℝ) → Prop} (ht : SummarizedMap.new s m = .ok t)
    (hS : Summarises s) (hI : InvertsUpTo P m s.outputDim) {k : Nat} (hk : s.inputDim ≤ k) :
    InvertsUpTo (fun _ c lead y r => P m c (summarise s lead) y r) t k := by
  obtain ⟨hmo, hmi, rfl⟩ := new_summarized.mp ht
  intro c x1 r hc hx1 hr out ho
  obtain ⟨hl, he⟩ := hS (x1.take s.inputDim) (by simp; omega)
  have hd : (SummarizedMap.obj s m).inputDim - (SummarizedMap.obj s m).outputDim = s.inputDim := by
    change s.inputDim + 1 - m.outputDim = _; omega
  have hd' : m.inputDim - m.outputDim = s.outputDim := by omega
  obtain ⟨y, h1, h2, h3⟩ := hI c (summarise s (x1.take s.inputDim)) r hc hl hr out ho
  rw [hd', List.take_of_length_le (by omega)] at h3
  rw [hd]
  refine ⟨y, ?_, h2, h3⟩
  change (rows x1 0 s.inputDim).bind _ = _
  rw [rows_ok (by omega), List.drop_zero]
  change (s.eval (x1.take s.inputDim) (List.replicate s.outputDim 0)).bind _ = _
  rw [he _ (by simp)]
  exact h1

theorem obj_logDet (hS : Summarises s) (hmi : m.inputDim = s.outputDim + 1) {c x : List ℝ} (hx : x.length = s.inputDim + 1)
    (o : Option ℝ) : (SummarizedMap.obj s m).logDet c x o = m.logDet c (sp s x) o := by
  change (SummarizedMap.summarizePts s x (List.replicate m.inputDim 0)).bind _ = _
  rw [summarizePts_eq hS hx (by simp [hmi])]
  rfl

theorem sp_set {x : List ℝ} (hS : Summarises s) (hx : x.length = s.inputDim + 1) (τ : ℝ) :
    sp s (x.set s.inputDim τ) = (sp s x).set s.outputDim τ := by
  have hl := (hS (x.take s.inputDim) (by simp; omega)).1
  rw [sp, List.take_set_of_le (by omega), List.drop_set, if_neg (by omega), Nat.sub_self, sp,
    List.set_append_right _ _ (by omega), hl, Nat.sub_self]

/-- C48: its log-determinant is that of the component there, and it is the logarithm of the modulus of its own diagonal
derivative if this holds for the component. -/
theorem C48_summarised_logDet (ht : SummarizedMap.new s m = .ok t) (hS : Summarises s) (hL : HasLogDet m) :
    HasLogDet t ∧ (∀ c x, Fits t c x → logdet t c x = logdet m c (summarise s (x.take s.inputDim) ++ x.drop s.inputDim)) ∧
    (LogDetIsJacobian m → LogDetIsJacobian t) := by
  obtain ⟨hmo, hmi, rfl⟩ := new_summarized.mp ht
  have e : ∀ c x, Fits (SummarizedMap.obj s m) c x → logdet (SummarizedMap.obj s m) c x = logdet m c (sp s x) := by
    intro c x hf
    rw [logdet, obj_logDet hS hmi hf.2]; rfl
  refine ⟨fun c x hf o => ?_, e, fun hJ c x hf => ?_⟩
  · rw [obj_logDet hS hmi hf.2, e c x hf]; exact hL c _ (sp_fits hS hmi hf) o
  · have hx : x.length = s.inputDim + 1 := hf.2
    have hl := (hS (x.take s.inputDim) (by simp; omega)).1
    have h := hJ c (sp s x) (sp_fits hS hmi hf)
    rw [e c x hf]
    have hj : jacobian (SummarizedMap.obj s m) c x = jacobian m c (sp s x) := by
      funext i j
      have hj : (j : Nat) = 0 := by have : (j : Nat) < m.outputDim := j.2; omega
      have e1 : s.inputDim + 1 - m.outputDim + (j : Nat) = s.inputDim := by omega
      have e2 : m.inputDim - m.outputDim + (j : Nat) = s.outputDim := by omega
      change deriv (fun τ => (fn (SummarizedMap.obj s m) c (x.set (s.inputDim + 1 - m.outputDim + (j : Nat)) τ)).getD i 0)
        (x.getD (s.inputDim + 1 - m.outputDim + (j : Nat)) 0)
        = deriv (fun τ => (fn m c ((sp s x).set (m.inputDim - m.outputDim + (j : Nat)) τ)).getD i 0)
          ((sp s x).getD (m.inputDim - m.outputDim + (j : Nat)) 0)
      rw [e1, e2]
      have e3 : x.getD s.inputDim 0 = (sp s x).getD s.outputDim 0 := by
        rw [sp]
        conv_rhs => rw [← Nat.add_zero s.outputDim, ← hl, getD_append_right, getD_drop', Nat.add_zero]
      rw [e3]
      congr 1
      funext τ
      rw [obj_fn hS hmi (by simpa using hx), sp_set hS hx]
    rw [hj]
    exact h

theorem sp_path (hS : Summarises s) (hD : DifferentiatesSummary s) {δ : ℝ → List ℝ} {u x : List ℝ} {t₀ : ℝ}
    (hδ : Path (s.inputDim + 1) δ u t₀) (hx : δ t₀ = x) : ∃ v, v.length = s.outputDim ∧
    Path (s.outputDim + 1) (fun t => sp s (δ t)) (v ++ u.drop s.inputDim) t₀ ∧
    ∀ S : List ℝ, S.length = s.outputDim → dot S v = dot (summaryGrad s (x.take s.inputDim) S) (u.take s.inputDim) := by
  obtain ⟨v, h1, h2⟩ := path_fn (asMap_evaluates hS) (asMap_differentiates hD) (c := []) (vc := []) (γ := fun _ => [])
    ⟨fun _ => rfl, rfl, fun i hi => absurd hi (Nat.not_lt_zero _)⟩ (hδ.take (Nat.le_succ _)) rfl
    (show (δ t₀).take s.inputDim = x.take s.inputDim by rw [hx])
  refine ⟨v, h1.2.1, Spec.Path.append h1 (Spec.Path.drop hδ), fun S hS => ?_⟩
  have := h2 S hS
  have e : dot (coeffGrad (asMap s) [] (x.take s.inputDim) S) [] = 0 := by simp [dot]
  rw [e, zero_add] at this
  exact this

/-- The rows that both gradient functions put together. -/
def joined (s : Summary) (x g : List ℝ) : List ℝ :=
  summaryGrad s (x.take s.inputDim) (g.take s.outputDim) ++ g.drop s.outputDim

theorem joined_length (hD : DifferentiatesSummary s) {x g : List ℝ} (hx : x.length = s.inputDim + 1)
    (hg : g.length = s.outputDim + 1) : (joined s x g).length = s.inputDim + 1 := by
  simp [joined, (hD (x.take s.inputDim) (g.take s.outputDim) (by simp; omega) (by simp; omega)).2.1, hg]

theorem putBoth {out o gx : List ℝ} {k : Nat} (ho : out.length = k + 1) (hk : o.length = k) (hg : gx.length = 1) :
    rows (putRows out 0 k o) k 1 = .ok (((putRows out 0 k o).drop k).take 1) ∧
    deepCopy (((putRows out 0 k o).drop k).take 1) gx = .ok gx ∧
    putRows (putRows out 0 k o) k 1 gx = o ++ gx := by
  have hl : (putRows out 0 k o).length = k + 1 := by rw [putRows_length (by omega) hk, ho]
  have ht := putRows_take (v := out) (a := 0) (n := k) (by omega) hk
  rw [List.take_zero, List.nil_append, Nat.zero_add] at ht
  refine ⟨rows_ok (by omega), deepCopy_ok (by rw [rows_length (by omega), hg]), ?_⟩
  rw [putRows, ht, List.drop_eq_nil_of_le (by omega), List.append_nil]

theorem obj_grad (hS : Summarises s) (hD : DifferentiatesSummary s) (hmi : m.inputDim = s.outputDim + 1)
    {c x v out : List ℝ} (hx : x.length = s.inputDim + 1) (ho : out.length = s.inputDim + 1) {g : List ℝ}
    (hg : g.length = s.outputDim + 1) (h : m.grad c (sp s x) v (zeros m.inputDim) = .ok g) :
    (SummarizedMap.obj s m).grad c x v out = .ok (joined s x g) := by
  obtain ⟨h1, h2, -⟩ := hD (x.take s.inputDim) (g.take s.outputDim) (by simp; omega) (by simp; omega)
  obtain ⟨p1, p2, p3⟩ := putBoth ho h2 (gx := g.drop s.outputDim) (by simp; omega)
  have ht : (g.drop s.outputDim).take 1 = g.drop s.outputDim := List.take_of_length_le (by simp; omega)
  change SummarizedMap.gradient s m c x v out = _
  rw [SummarizedMap.gradient, summarizePts_eq hS hx (by simp [hmi]), Res.bind_ok]
  change (m.grad c (sp s x) v (zeros m.inputDim)).bind _ = _
  rw [h]
  simp only [Res.bind]
  rw [rows_ok (by omega), Res.bind_ok, rows_ok (by omega), Res.bind_ok, rows_ok (by omega), Res.bind_ok, rows_ok (by omega),
    Res.bind_ok]
  simp only [List.drop_zero]
  rw [h1 _ (by simp; omega), Res.bind_ok, p1, Res.bind_ok, ht, p2, Res.bind_ok, Res.pure_eq, p3]
  rfl

theorem obj_ldInputGrad (hS : Summarises s) (hD : DifferentiatesSummary s) (hmi : m.inputDim = s.outputDim + 1)
    {c x out : List ℝ} (hx : x.length = s.inputDim + 1) (ho : out.length = s.inputDim + 1) {g : List ℝ}
    (hg : g.length = s.outputDim + 1) (h : m.ldInputGrad c (sp s x) (zeros m.inputDim) = .ok g) :
    (SummarizedMap.obj s m).ldInputGrad c x out = .ok (joined s x g) := by
  obtain ⟨h1, h2, -⟩ := hD (x.take s.inputDim) (g.take s.outputDim) (by simp; omega) (by simp; omega)
  obtain ⟨p1, p2, p3⟩ := putBoth ho h2 (gx := g.drop s.outputDim) (by simp; omega)
  have ht : (g.drop s.outputDim).take 1 = g.drop s.outputDim := List.take_of_length_le (by simp; omega)
  change SummarizedMap.ldInputGrad s m c x out = _
  rw [SummarizedMap.ldInputGrad, summarizePts_eq hS hx (by simp [hmi]), Res.bind_ok]
  change (m.ldInputGrad c (sp s x) (zeros m.inputDim)).bind _ = _
  rw [h]
  simp only [Res.bind]
  rw [rows_ok (by omega), Res.bind_ok, rows_ok (by omega), Res.bind_ok, rows_ok (by omega), Res.bind_ok]
  simp only [List.drop_zero]
  rw [h1 _ (by simp), Res.bind_ok, rows_ok (by omega), Res.bind_ok, deepCopy_ok (by rw [rows_length (by omega), h2]),
    Res.bind_ok]
  rw [p1, Res.bind_ok, ht, p2, Res.bind_ok, Res.pure_eq, p3]
  rfl

theorem joined_gradient (hS : Summarises s) (hD : DifferentiatesSummary s) (hmi : m.inputDim = s.outputDim + 1)
    {f : List ℝ → List ℝ → ℝ} {F : List ℝ → List ℝ → ℝ} {c x gc g : List ℝ} (hx : x.length = s.inputDim + 1)
    (hF : ∀ c x, c.length = m.numCoeffs → x.length = s.inputDim + 1 → F c x = f c (sp s x))
    (h : IsGradient m.numCoeffs m.inputDim f c (sp s x) gc g) :
    IsGradient m.numCoeffs (s.inputDim + 1) F c x gc (joined s x g) := by
  rw [hmi] at h
  refine ⟨h.1, joined_length hD hx h.2.1, fun γ δ vc vx t₀ hγ hδ hc hx' => ?_⟩
  obtain ⟨v, hv, hp, hdot⟩ := sp_path hS hD hδ hx'
  have := h.2.2 γ _ vc _ t₀ hγ hp hc (by simp only [hx'])
  have e : (fun t => F (γ t) (δ t)) = fun t => f (γ t) (sp s (δ t)) := by
    funext t; rw [hF _ _ (hγ.1 t) (hδ.1 t)]
  rw [e]
  refine this.congr_deriv ?_
  congr 1
  have hg := h.2.1
  conv_lhs => rw [← List.take_append_drop s.outputDim g]
  rw [dot_append (by simp [hv, hg]), hdot _ (by simp; omega), joined, dot_split s.inputDim (by rw [hδ.2.1]; omega)
    (hD (x.take s.inputDim) (g.take s.outputDim) (by simp; omega) (by simp; omega)).2.1]

/-- C48: its gradients follow the chain rule through the summary function. -/
theorem C48_summarised_gradient (ht : SummarizedMap.new s m = .ok t) (hS : Summarises s) (hDs : DifferentiatesSummary s)
    (hD : Differentiates m) : Differentiates t := by
  obtain ⟨hmo, hmi, rfl⟩ := new_summarized.mp ht
  intro c x v hf hv
  have hx : x.length = s.inputDim + 1 := hf.2
  obtain ⟨h1, h2, h3⟩ := hD c (sp s x) v (sp_fits hS hmi hf) hv
  have hg : (grad m c (sp s x) v).length = s.outputDim + 1 := by rw [h3.2.1, hmi]
  have hG : ∀ out : List ℝ, out.length = s.inputDim + 1 →
      (SummarizedMap.obj s m).grad c x v out = .ok (joined s x (grad m c (sp s x) v)) :=
    fun out ho => obj_grad hS hDs hmi hx ho hg (h1 _ (by simp))
  have e1 : grad (SummarizedMap.obj s m) c x v = joined s x (grad m c (sp s x) v) :=
    congrArg (value []) (hG (zeros (s.inputDim + 1)) (by simp))
  have hC : ∀ out : List ℝ, (SummarizedMap.obj s m).coeffGrad c x v out = m.coeffGrad c (sp s x) v out := by
    intro out
    change (SummarizedMap.summarizePts s x (List.replicate m.inputDim 0)).bind _ = _
    rw [summarizePts_eq hS hx (by simp [hmi])]
    rfl
  have e2 : coeffGrad (SummarizedMap.obj s m) c x v = coeffGrad m c (sp s x) v := congrArg (value []) (hC _)
  refine ⟨fun out ho => by rw [e1]; exact hG out ho, fun hn out ho => by rw [e2, hC]; exact h2 hn out ho, ?_⟩
  rw [e1, e2]
  exact joined_gradient hS hDs hmi hx (fun c x _ hx => by rw [obj_fn hS hmi hx]) h3

/-- C48: so do the gradients of its log-determinant. -/
theorem C48_summarised_logDetGradient (ht : SummarizedMap.new s m = .ok t) (hS : Summarises s)
    (hDs : DifferentiatesSummary s) (hD : DifferentiatesLogDet m) : DifferentiatesLogDet t := by
  obtain ⟨hmo, hmi, rfl⟩ := new_summarized.mp ht
  intro c x hf
  have hx : x.length = s.inputDim + 1 := hf.2
  obtain ⟨h1, h2, h3⟩ := hD c (sp s x) (sp_fits hS hmi hf)
  have hg : (ldInputGrad m c (sp s x)).length = s.outputDim + 1 := by rw [h3.2.1, hmi]
  have hG : ∀ out : List ℝ, out.length = s.inputDim + 1 →
      (SummarizedMap.obj s m).ldInputGrad c x out = .ok (joined s x (ldInputGrad m c (sp s x))) :=
    fun out ho => obj_ldInputGrad hS hDs hmi hx ho hg (h1 _ (by simp))
  have e1 : ldInputGrad (SummarizedMap.obj s m) c x = joined s x (ldInputGrad m c (sp s x)) :=
    congrArg (value []) (hG (zeros (s.inputDim + 1)) (by simp))
  have hC : ∀ out : List ℝ, (SummarizedMap.obj s m).ldCoeffGrad c x out = m.ldCoeffGrad c (sp s x) out := by
    intro out
    change (SummarizedMap.summarizePts s x (List.replicate m.inputDim 0)).bind _ = _
    rw [summarizePts_eq hS hx (by simp [hmi])]
    rfl
  have e2 : ldCoeffGrad (SummarizedMap.obj s m) c x = ldCoeffGrad m c (sp s x) := congrArg (value []) (hC _)
  refine ⟨fun out ho => by rw [e1]; exact hG out ho, fun hn out ho => by rw [e2, hC]; exact h2 hn out ho, ?_⟩
  rw [e1, e2]
  refine joined_gradient hS hDs hmi hx (fun c x _ hx => ?_) h3
  rw [logdet, obj_logDet hS hmi hx]; rfl

end

/-- C48: an affine function meets the demands on a summary function. -/
theorem C48_affine_summary {A : View2 ℝ} {b : List ℝ} {m n : Nat} {t : CMap} (h : MakesAffine A b m n t) :
    Summarises (AffineFunction.summary A b n m) ∧ DifferentiatesSummary (AffineFunction.summary A b n m) ∧
    ∀ x : List ℝ, x.length = n → summarise (AffineFunction.summary A b n m) x = affine (matrix A) b m n x := by
  obtain ⟨hE, -, -, he⟩ := C48_affine_evaluate h
  obtain ⟨hD, -, -⟩ := C48_affine_gradient h
  obtain ⟨-, st, rfl⟩ := makes_iff h
  refine ⟨fun x hx => hE [] x ⟨rfl, hx⟩, fun x v hx hv => ?_, fun x hx => he [] x ⟨rfl, hx⟩⟩
  obtain ⟨h1, -, h3⟩ := hD [] x v ⟨rfl, hx⟩ hv
  refine ⟨h1, h3.2.1, fun δ u t₀ hδ hx' => ?_⟩
  have := h3.2.2 (fun _ => []) δ [] u t₀ ⟨fun _ => rfl, rfl, fun i hi => absurd hi (Nat.not_lt_zero _)⟩ hδ rfl hx'
  have e : dot (coeffGrad (AffineMap.obj A b n m st) [] x v) [] = 0 := by simp [dot]
  rw [e, zero_add] at this
  exact this

/-! ### C85: affine functions -/

/-- C85: `AffineFunction(b)` computes `x + b`, for every `b` with at least one entry. -/
theorem C85_shift {b : List ℝ} (hb : b ≠ []) : ∃ s, AffineFunction.newB b = .ok s ∧ s.inputDim = b.length ∧
    s.outputDim = b.length ∧ Summarises s ∧ DifferentiatesSummary s ∧
    ∀ x : List ℝ, x.length = b.length → summarise s x = List.zipWith (· + ·) x b := by
  obtain ⟨hS, hD, he⟩ := C48_affine_summary (MakesAffine.b (st := false) hb rfl)
  refine ⟨_, rfl, rfl, rfl, hS, hD, fun x hx => ?_⟩
  refine (he x hx).trans (list_ext affine_length (by simp [hx]) fun i hi => ?_)
  rw [affine_getD hi, Finset.sum_eq_single i]
  · have hix : i < x.length := by omega
    simp [matrix, View2.empty, hi, hix]
  · intro j _ hj
    simp [matrix, View2.empty, Ne.symm hj]
  · intro hn
    exact absurd (Finset.mem_range.mpr hi) hn

/-- C85: `AffineFunction(A)` and `AffineFunction(A, b)` compute `A x` and `A x + b`, with gradient `Aᵀ s`, for matrices with at
least one row and not more rows than columns; offsets of another length are rejected. -/
theorem C85_affine_partial {A : View2 ℝ} (h0 : A.n0 ≠ 0) (h : A.n0 ≤ A.n1) :
    (∃ s, AffineFunction.newA A = .ok s ∧ s.inputDim = A.n1 ∧ s.outputDim = A.n0 ∧ Summarises s ∧ DifferentiatesSummary s ∧
      ∀ x : List ℝ, x.length = A.n1 → summarise s x = affine A.get [] A.n0 A.n1 x) ∧
    ∀ b : List ℝ, (b.length ≠ A.n0 → AffineFunction.newAB A b = .throw) ∧ (b.length = A.n0 →
      ∃ s, AffineFunction.newAB A b = .ok s ∧ s.inputDim = A.n1 ∧ s.outputDim = A.n0 ∧ Summarises s ∧ DifferentiatesSummary s ∧
        (∀ x : List ℝ, x.length = A.n1 → summarise s x = affine A.get b A.n0 A.n1 x) ∧
        ∀ x v : List ℝ, v.length = A.n0 → summaryGrad s x v = transposed A.get A.n0 A.n1 v) := by
  have hm : matrix A = A.get := by funext i j; simp [matrix, h0]
  refine ⟨?_, fun b => ⟨fun hb => ?_, fun hb => ?_⟩⟩
  · obtain ⟨hS, hD, he⟩ := C48_affine_summary (MakesAffine.A (st := false) h0 (if_pos h))
    exact ⟨_, if_pos h, rfl, rfl, hS, hD, fun x hx => by rw [← hm]; exact he x hx⟩
  · rw [AffineFunction.newAB, if_pos h, if_neg (Ne.symm hb)]
  · have hM := MakesAffine.Ab (A := A) (b := b) (st := false) h0 (if_pos ⟨h, hb.symm⟩)
    obtain ⟨hS, hD, he⟩ := C48_affine_summary hM
    obtain ⟨-, -, hg⟩ := C48_affine_gradient hM
    exact ⟨_, by rw [AffineFunction.newAB, if_pos h, if_pos hb.symm], rfl, rfl, hS, hD,
      fun x hx => by rw [← hm]; exact he x hx, fun x v hv => by rw [← hm]; exact hg [] x v hv⟩

/-- C85 fails for tall matrices: functions `A x + b` with more outputs than inputs, which the class documentation allows
("arbitrary rectangular matrix"), cannot be constructed. -/
theorem C85_fails_tall (A : View2 ℝ) (h : A.n1 < A.n0) (b : List ℝ) :
    AffineFunction.newA A = .throw ∧ AffineFunction.newAB A b = .throw :=
  ⟨if_neg (by omega), if_neg (by omega)⟩

example : exampleA.n0 ≠ 0 ∧ exampleA.n0 ≤ exampleA.n1 ∧ [(5 : ℝ)].length = exampleA.n0 := ⟨by decide, by decide, rfl⟩

/-! A concrete summarised map: `T(a; x₁, x₂, x₃) = exp(a) x₃ + (3 x₁ + 2 x₂ + 5)²`. -/

example : ∃ t, SummarizedMap.new (AffineFunction.summary exampleA [5] 2 1) toy = .ok t ∧ Evaluates t ∧ InvertsFrom t 2 ∧
    Differentiates t ∧ DifferentiatesLogDet t ∧ LogDetIsJacobian t ∧ fn t [0] [1, 0, 3] = [67] := by
  obtain ⟨hS, hD, he⟩ := C48_affine_summary exampleA_makes
  have ht : SummarizedMap.new (AffineFunction.summary exampleA [5] 2 1) toy = .ok (SummarizedMap.obj _ toy) :=
    new_summarized.mpr ⟨rfl, rfl, rfl⟩
  refine ⟨_, ht, (C48_summarised_evaluate ht hS toy_evaluates).1, C48_summarised_inverse ht hS (toy_inverts (by decide)) (by decide),
    C48_summarised_gradient ht hS hD toy_differentiates, C48_summarised_logDetGradient ht hS hD toy_differentiatesLogDet,
    (C48_summarised_logDet ht hS toy_hasLogDet).2.2 toy_jacobian, ?_⟩
  rw [(C48_summarised_evaluate ht hS toy_evaluates).2 _ _ ⟨rfl, rfl⟩, summarised]
  have : (AffineFunction.summary exampleA [5] 2 1).inputDim = 2 := rfl
  rw [this, he _ rfl, toy_fn]
  simp [affine, matrix, exampleA, Finset.sum_range_succ]
  norm_num

end MParT
