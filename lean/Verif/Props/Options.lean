import Verif.Model.Options
import Verif.Props.Serialization
/-!
# Property C76: comparison of option objects
-/
namespace MParT
namespace Ser
open Spec

/-- IEEE 754: the eleven exponent bits are ones and the fraction (the lowest 52 bits) is not zero. -/
def NotANumber (x : Dbl) : Prop := x.toNat / 2 ^ 52 % 2 ^ 11 = 2047 ∧ x.toNat % 2 ^ 52 ≠ 0

/-- Zero of any sign: exponent and fraction are zero. -/
def Zero (x : Dbl) : Prop := x.toNat / 2 ^ 52 % 2 ^ 11 = 0 ∧ x.toNat % 2 ^ 52 = 0

/-- Two doubles have the same value: they are numbers, and the same bits or zeros of any sign. -/
def SameValue (x y : Dbl) : Prop := ¬ NotANumber x ∧ ¬ NotANumber y ∧ (x = y ∨ Zero x ∧ Zero y)

/-- All numbers among the options are numbers. -/
def Options.NoNaN (o : Options) : Prop := ∀ x ∈ [o.basisLB, o.basisUB, o.quadAbsTol, o.quadRelTol, o.nugget], ¬ NotANumber x

theorem isNaN_iff (x : Dbl) : isNaN x = true ↔ NotANumber x := by
  simp only [isNaN, NotANumber, decide_eq_true_eq]
  omega

theorem isZero_iff (x : Dbl) : isZero x = true ↔ Zero x := by
  simp only [isZero, Zero, beq_iff_eq]
  omega

theorem dblEq_iff (x y : Dbl) : dblEq x y = true ↔ SameValue x y := by
  simp only [dblEq, SameValue, Bool.and_eq_true, Bool.or_eq_true, Bool.not_eq_true', ← Bool.not_eq_true, isNaN_iff, isZero_iff, beq_iff_eq, and_assoc]

/-- **C76.** Options compare equal exactly if every option has the same value. -/
theorem C76_eq_iff (a b : Options) : a.eq b = true ↔
    a.basisType = b.basisType ∧ SameValue a.basisLB b.basisLB ∧ SameValue a.basisUB b.basisUB ∧ a.posFuncType = b.posFuncType ∧
    a.quadType = b.quadType ∧ SameValue a.quadAbsTol b.quadAbsTol ∧ SameValue a.quadRelTol b.quadRelTol ∧
    a.quadMaxSub = b.quadMaxSub ∧ a.quadMinSub = b.quadMinSub ∧ a.quadPts = b.quadPts ∧ a.contDeriv = b.contDeriv ∧
    a.basisNorm = b.basisNorm ∧ SameValue a.nugget b.nugget := by
  simp only [Options.eq, Id.run, pure, bind, Bool.and_eq_true, beq_iff_eq, dblEq_iff, Bool.true_and, true_and, and_assoc]

theorem SameValue.refl {x : Dbl} (h : ¬ NotANumber x) : SameValue x x := ⟨h, h, Or.inl rfl⟩
theorem SameValue.symm {x y : Dbl} (h : SameValue x y) : SameValue y x := ⟨h.2.1, h.1, h.2.2.elim (fun e => Or.inl e.symm) fun e => Or.inr ⟨e.2, e.1⟩⟩
theorem SameValue.trans {x y z : Dbl} (h : SameValue x y) (h' : SameValue y z) : SameValue x z := by
  refine ⟨h.1, h'.2.1, ?_⟩
  rcases h.2.2 with rfl | ⟨a, b⟩
  · exact h'.2.2
  · rcases h'.2.2 with rfl | ⟨c, d⟩
    · exact Or.inr ⟨a, b⟩
    · exact Or.inr ⟨a, d⟩

/-- **C76.** `==` is symmetric and transitive, and reflexive exactly on options without NaN. -/
theorem C76_equivalence :
    (∀ a : Options, a.eq a = true ↔ a.NoNaN) ∧
    (∀ a b : Options, a.eq b = b.eq a) ∧
    (∀ a b c : Options, a.eq b = true → b.eq c = true → a.eq c = true) := by
  refine ⟨fun a => ?_, fun a b => ?_, fun a b c hab hbc => ?_⟩
  · rw [C76_eq_iff]
    simp only [Options.NoNaN, List.mem_cons, List.not_mem_nil, or_false, forall_eq_or_imp, forall_eq, SameValue, true_or, and_true, true_and]
    tauto
  · rw [Bool.eq_iff_iff, C76_eq_iff, C76_eq_iff]
    constructor <;> rintro ⟨h1, h2, h3, h4, h5, h6, h7, h8, h9, h10, h11, h12, h13⟩ <;>
      exact ⟨h1.symm, h2.symm, h3.symm, h4.symm, h5.symm, h6.symm, h7.symm, h8.symm, h9.symm, h10.symm, h11.symm, h12.symm, h13.symm⟩
  · rw [C76_eq_iff] at *
    obtain ⟨h1, h2, h3, h4, h5, h6, h7, h8, h9, h10, h11, h12, h13⟩ := hab
    obtain ⟨k1, k2, k3, k4, k5, k6, k7, k8, k9, k10, k11, k12, k13⟩ := hbc
    exact ⟨h1.trans k1, h2.trans k2, h3.trans k3, h4.trans k4, h5.trans k5, h6.trans k6, h7.trans k7, h8.trans k8, h9.trans k9,
      h10.trans k10, h11.trans k11, h12.trans k12, h13.trans k13⟩

/-- **C76.** Saved and loaded options compare equal to the original, unless an option is NaN. -/
theorem C76_roundtrip (o : Options) (rest : List Byte) : ∃ o', Options.load (o.save ++ rest) = .ok (o', rest) ∧ (o'.eq o = true ↔ o.NoNaN) :=
  ⟨o, C56_options o rest, C76_equivalence.1 o⟩

/-- The default options. -/
def defaults : Options := ⟨0, 0xFFF0000000000000, 0x7FF0000000000000, 1, 1, 0x3EB0C6F7A0B5ED8D, 0x3EB0C6F7A0B5ED8D, 30, 0, 5, true, true, 0⟩

/-- The default options have no NaN: infinite bounds are numbers. -/
example : defaults.NoNaN ∧ defaults.eq { defaults with nugget := 0x8000000000000000 } = true ∧
    defaults.eq { defaults with quadPts := 6 } = false :=
  ⟨by unfold Options.NoNaN NotANumber; decide +kernel, by decide +kernel⟩

/-- **C76** fails for NaN: such options are not equal to their own copy. -/
theorem C76_fails_nan (o : Options) (h : NotANumber o.nugget) : o.eq o = false := by
  have := C76_equivalence.1 o
  cases e : o.eq o
  · rfl
  · exact absurd h ((this.1 e) o.nugget (by simp))

example : NotANumber 0x7FF8000000000000 := by unfold NotANumber; decide +kernel

/-- **C76** fails for adaptive options: the additional options are not compared. -/
theorem C76_fails_derived (a b : ATMOptions) (h : a.NoNaN) (e : a.toOptions = b.toOptions) : a.eq b = true := by
  rw [ATMOptions.eq, ← e]
  exact (C76_equivalence.1 _).2 h

end Ser
end MParT
