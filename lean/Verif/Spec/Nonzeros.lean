/-!
# Specification: the variables a term depends on
-/
namespace MParT
namespace Spec

/-- Number of nonzero entries of a multi-index: the number of variables its term depends on. -/
def nonzeros (w : List Nat) : Nat := w.countP fun x => decide (x ≠ 0)

end Spec
end MParT
