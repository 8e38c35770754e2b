import Verif.Lemmas.ChainRule
import Mathlib.Analysis.Calculus.Deriv.Comp
/-! Gradients along paths: existence by the usual rules, and agreement with partial derivatives. -/
namespace MParT
open Spec Finset

/-- The function of coefficients and input has a gradient at `(c, x)`. -/
def DiffAt (nc nx : Nat) (f : List ℝ → List ℝ → ℝ) (c x : List ℝ) : Prop :=
  ∃ gc gx, IsGradient nc nx f c x gc gx

variable {nc nx : Nat} {f g : List ℝ → List ℝ → ℝ} {c x : List ℝ}

theorem dot_map_range {n : Nat} (a : Nat → ℝ) {v : List ℝ} (hv : v.length = n) :
    dot ((List.range n).map a) v = ∑ k ∈ range n, a k * v.getD k 0 := by
  rw [dot_eq_sum (by simp) hv]
  refine sum_congr rfl fun k hk => ?_
  have := mem_range.1 hk
  simp [this]

theorem dot_lin {n : Nat} (a b : ℝ) {u w v : List ℝ} (hu : u.length = n) (hw : w.length = n) (hv : v.length = n) :
    dot ((List.range n).map fun k => a * u.getD k 0 + b * w.getD k 0) v = a * dot u v + b * dot w v := by
  rw [dot_map_range _ hv, dot_eq_sum hu hv, dot_eq_sum hw hv, mul_sum, mul_sum, ← sum_add_distrib]
  exact sum_congr rfl fun k _ => by ring

theorem IsGradient.congr {gc gx : List ℝ} (h : IsGradient nc nx f c x gc gx)
    (e : ∀ c x : List ℝ, c.length = nc → x.length = nx → g c x = f c x) : IsGradient nc nx g c x gc gx := by
  refine ⟨h.1, h.2.1, fun γ δ vc vx t₀ hγ hδ h1 h2 => ?_⟩
  have := h.2.2 γ δ vc vx t₀ hγ hδ h1 h2
  rwa [show (fun t => f (γ t) (δ t)) = fun t => g (γ t) (δ t) from funext fun t => (e _ _ (hγ.1 t) (hδ.1 t)).symm] at this

theorem DiffAt.congr (h : DiffAt nc nx f c x) (e : ∀ c x : List ℝ, c.length = nc → x.length = nx → g c x = f c x) :
    DiffAt nc nx g c x := by
  obtain ⟨gc, gx, h⟩ := h
  exact ⟨gc, gx, IsGradient.congr h e⟩

theorem diffAt_const (a : ℝ) : DiffAt nc nx (fun _ _ => a) c x :=
  ⟨zeros nc, zeros nx, by simp [zeros], by simp [zeros], fun γ δ vc vx t₀ _ _ _ _ => by
    rw [dot_zeros, dot_zeros, add_zero]; exact hasDerivAt_const _ _⟩

theorem diffAt_coeff {k : Nat} (hk : k < nc) : DiffAt nc nx (fun c _ => c.getD k 0) c x :=
  ⟨unit nc k, zeros nx, by simp, by simp [zeros], fun γ δ vc vx t₀ hγ _ _ _ => by
    rw [dot_zeros, add_zero, dot_unit hk hγ.2.1]; exact hγ.2.2 k hk⟩

theorem diffAt_coord {e : Nat} (he : e < nx) : DiffAt nc nx (fun _ x => x.getD e 0) c x :=
  ⟨zeros nc, unit nx e, by simp [zeros], by simp, fun γ δ vc vx t₀ _ hδ _ _ => by
    rw [dot_zeros, zero_add, dot_unit he hδ.2.1]; exact hδ.2.2 e he⟩

/-- The general rule: if the derivative of `h` along a path is `a f' + b g'`, it has a gradient. -/
theorem DiffAt.lin {h : List ℝ → List ℝ → ℝ} (hf : DiffAt nc nx f c x) (hg : DiffAt nc nx g c x) (a b : ℝ)
    (H : ∀ (F G : ℝ → ℝ) (F' G' t₀ : ℝ) (γ δ : ℝ → List ℝ), F = (fun t => f (γ t) (δ t)) → G = (fun t => g (γ t) (δ t)) →
      γ t₀ = c → δ t₀ = x → HasDerivAt F F' t₀ → HasDerivAt G G' t₀ → HasDerivAt (fun t => h (γ t) (δ t)) (a * F' + b * G') t₀) :
    DiffAt nc nx h c x := by
  obtain ⟨fc, fx, l1, l2, h1⟩ := hf
  obtain ⟨gc, gx, l3, l4, h2⟩ := hg
  refine ⟨(List.range nc).map fun k => a * fc.getD k 0 + b * gc.getD k 0,
    (List.range nx).map fun k => a * fx.getD k 0 + b * gx.getD k 0, by simp, by simp, fun γ δ vc vx t₀ hγ hδ e1 e2 => ?_⟩
  rw [dot_lin a b l1 l3 hγ.2.1, dot_lin a b l2 l4 hδ.2.1]
  exact (H _ _ _ _ t₀ γ δ rfl rfl e1 e2 (h1 γ δ vc vx t₀ hγ hδ e1 e2) (h2 γ δ vc vx t₀ hγ hδ e1 e2)).congr_deriv (by ring)

theorem DiffAt.add (hf : DiffAt nc nx f c x) (hg : DiffAt nc nx g c x) : DiffAt nc nx (fun c x => f c x + g c x) c x :=
  hf.lin hg 1 1 fun F G F' G' t₀ γ δ e1 e2 _ _ h1 h2 => by subst e1 e2; exact (h1.add h2).congr_deriv (by ring)

theorem DiffAt.mul (hf : DiffAt nc nx f c x) (hg : DiffAt nc nx g c x) : DiffAt nc nx (fun c x => f c x * g c x) c x :=
  hf.lin hg (g c x) (f c x) fun F G F' G' t₀ γ δ e1 e2 e3 e4 h1 h2 => by
    subst e1 e2
    refine (h1.mul h2).congr_deriv ?_
    rw [e3, e4]; ring

theorem DiffAt.comp {φ : ℝ → ℝ} {φ' : ℝ} (hf : DiffAt nc nx f c x) (h : HasDerivAt φ φ' (f c x)) :
    DiffAt nc nx (fun c x => φ (f c x)) c x :=
  hf.lin hf φ' 0 fun F G F' G' t₀ γ δ e1 e2 e3 e4 h1 _ => by
    subst e1 e2
    refine (HasDerivAt.comp_of_eq t₀ h h1 (by rw [e3, e4])).congr_deriv (by ring)

theorem diffAt_sum {ι : Type} (s : Finset ι) (F : ι → List ℝ → List ℝ → ℝ) (h : ∀ i ∈ s, DiffAt nc nx (F i) c x) :
    DiffAt nc nx (fun c x => ∑ i ∈ s, F i c x) c x := by
  classical
  induction s using Finset.induction_on with
  | empty => simpa using diffAt_const 0
  | insert i s hi ih =>
    simp only [sum_insert hi]
    exact (h i (mem_insert_self _ _)).add (ih fun j hj => h j (mem_insert_of_mem hj))

theorem diffAt_prod {ι : Type} (s : Finset ι) (F : ι → List ℝ → List ℝ → ℝ) (h : ∀ i ∈ s, DiffAt nc nx (F i) c x) :
    DiffAt nc nx (fun c x => ∏ i ∈ s, F i c x) c x := by
  classical
  induction s using Finset.induction_on with
  | empty => simpa using diffAt_const 1
  | insert i s hi ih =>
    simp only [prod_insert hi]
    exact (h i (mem_insert_self _ _)).mul (ih fun j hj => h j (mem_insert_of_mem hj))

theorem diffAt_listSum {ι : Type} (l : List ι) (F : ι → List ℝ → List ℝ → ℝ) (h : ∀ i ∈ l, DiffAt nc nx (F i) c x) :
    DiffAt nc nx (fun c x => (l.map fun i => F i c x).sum) c x := by
  induction l with
  | nil => simpa using diffAt_const 0
  | cons i l ih =>
    simp only [List.map_cons, List.sum_cons]
    exact (h i (by simp)).add (ih fun j hj => h j (by simp [hj]))

theorem IsGradient.coeff {gc gx : List ℝ} (h : IsGradient nc nx f c x gc gx) (hc : c.length = nc) (hx : x.length = nx)
    {k : Nat} (hk : k < nc) : HasDerivAt (fun z => f (c.set k z) x) (gc.getD k 0) (c.getD k 0) := by
  have := h.2.2 (fun t => c.set k t) (fun _ => x) (unit nc k) (zeros nx) (c.getD k 0) (path_set hk hc _)
    (by subst hx; exact path_const x _) (set_self k) rfl
  rwa [dot_comm' h.1 (by simp), dot_unit hk h.1, dot_comm' h.2.1 (by simp [zeros]), dot_zeros, add_zero] at this

theorem IsGradient.input {gc gx : List ℝ} (h : IsGradient nc nx f c x gc gx) (hc : c.length = nc) (hx : x.length = nx)
    {e : Nat} (he : e < nx) : HasDerivAt (fun y => f c (x.set e y)) (gx.getD e 0) (x.getD e 0) := by
  have := h.2.2 (fun _ => c) (fun t => x.set e t) (zeros nc) (unit nx e) (x.getD e 0)
    (by subst hc; exact path_const c _) (path_set he hx _) rfl (set_self e)
  rwa [dot_comm' h.1 (by simp [zeros]), dot_zeros, dot_comm' h.2.1 (by simp), dot_unit he h.2.1, zero_add] at this

theorem list_ext_getD {a b : List ℝ} {n : Nat} (ha : a.length = n) (hb : b.length = n)
    (h : ∀ k, k < n → a.getD k 0 = b.getD k 0) : a = b := by
  refine List.ext_getElem (by omega) fun k h1 h2 => ?_
  have := h k (by omega)
  simpa [h1, h2] using this

theorem IsGradient.unique {a a' b b' : List ℝ} (ha : IsGradient nc nx f c x a a') (hb : IsGradient nc nx f c x b b')
    (hc : c.length = nc) (hx : x.length = nx) : a = b ∧ a' = b' :=
  ⟨list_ext_getD ha.1 hb.1 fun k hk => (IsGradient.coeff ha hc hx hk).unique (IsGradient.coeff hb hc hx hk),
    list_ext_getD ha.2.1 hb.2.1 fun k hk => (IsGradient.input ha hc hx hk).unique (IsGradient.input hb hc hx hk)⟩

/-- A function that has a gradient has the vectors of its partial derivatives as gradient. -/
theorem DiffAt.isGradient (h : DiffAt nc nx f c x) (hc : c.length = nc) (hx : x.length = nx) {gc gx : List ℝ}
    (l1 : gc.length = nc) (l2 : gx.length = nx)
    (h1 : ∀ k, k < nc → HasDerivAt (fun z => f (c.set k z) x) (gc.getD k 0) (c.getD k 0))
    (h2 : ∀ e, e < nx → HasDerivAt (fun y => f c (x.set e y)) (gx.getD e 0) (x.getD e 0)) :
    IsGradient nc nx f c x gc gx := by
  obtain ⟨fc, fx, h⟩ := h
  rw [list_ext_getD l1 h.1 fun k hk => (h1 k hk).unique (IsGradient.coeff h hc hx hk),
    list_ext_getD l2 h.2.1 fun e he => (h2 e he).unique (IsGradient.input h hc hx he)]
  exact h

end MParT
