import Verif.Model.Serialization
import Mathlib.Data.List.Chain
/-!
# Specification of saving and loading

What it means for a pair of a writer and a reader to round-trip, and which objects can occur.
-/
namespace MParT
namespace Ser
namespace Spec

/-- Reading the bytes `p`, whatever follows them, gives `a` and consumes exactly `p`. -/
def Reads {α : Type} (g : Rd α) (p : List Byte) (a : α) : Prop := ∀ rest, g (p ++ rest) = .ok (a, rest)

/-- The bytes `q` are what is left of `p` when some bytes at its end are lost: the file after a crash while it was written, or a
copy that was interrupted. -/
def CutOff (q p : List Byte) : Prop := ∃ lost, lost ≠ [] ∧ p = q ++ lost

/-- A view that was created with a size below 2^32. -/
def Stored {α : Type} (v : View α) : Prop := v.allocated = true ∧ v.data.length < 2 ^ 32 ∧ v.label.length < 2 ^ 64

/-- A matrix whose number of entries is below 2^32. -/
def StoredMat {α : Type} (v : MatView α) : Prop :=
  v.allocated = true ∧ v.rows < 2 ^ 32 ∧ v.cols < 2 ^ 32 ∧ v.rows * v.cols < 2 ^ 32 ∧ v.data.length = v.rows * v.cols ∧
    v.label.length < 2 ^ 64

/-- The views of a multi-index set were created. -/
def StoredSet (s : SetObj) : Prop := Stored s.nzStarts ∧ Stored s.nzDims ∧ Stored s.nzOrders ∧ Stored s.maxDegrees

/-- A rule that owns its workspace. -/
def OwnsWorkspace (q : QuadBase) : Prop :=
  Stored q.internalWork ∧ q.workspaceSize.toNat ≤ q.internalWork.data.length ∧ q.workspace = .internal

/-- The views of a rule were created and it owns its workspace. -/
def StoredQuad : Quad → Prop
  | .clenshawCurtis b pts wts _ => OwnsWorkspace b ∧ Stored pts ∧ Stored wts
  | .adaptiveSimpson r => OwnsWorkspace r.base
  | .adaptiveClenshawCurtis r cp cw fp fw => OwnsWorkspace r.base ∧ Stored cp ∧ Stored cw ∧ Stored fp ∧ Stored fw

/-- The views of an expansion were created; its degrees are those of its multi-index set. -/
def StoredExpansion (e : Expansion) : Prop :=
  StoredSet e.multiSet ∧ Stored e.startPos ∧ e.maxDegrees = e.multiSet.maxDegrees

/-- A component whose parts were created; its coefficients are set, one for each term, or not set at all. -/
def StoredMono (m : Mono) : Prop :=
  StoredExpansion m.expansion ∧ StoredQuad m.quad ∧ ∃ n, m.expansion.numCoeffs = .ok n ∧
    ((Stored m.coeffs ∧ m.coeffs.data.length = n) ∨ (m.coeffs = .empty ∧ n ≠ 0))

/-- Two components are equal, except for the label of the coefficients. -/
def SameMono (m m' : Mono) : Prop :=
  m'.pos = m.pos ∧ m'.expansion = m.expansion ∧ m'.quad = m.quad ∧ m'.useContDeriv = m.useContDeriv ∧ m'.nugget = m.nugget ∧
    m'.coeffs.data = m.coeffs.data ∧ m'.coeffs.allocated = m.coeffs.allocated

/-- The class of a component. -/
def monoClass (m : Mono) : Class := .mono m.pos m.expansion.basis.ty m.quad.ty

/-- The classes `cs` are registered: their names are recognised and no longer than 2^64. -/
def Registered (name : Class → List Byte) (classOf : List Byte → Option Class) (cs : List Class) : Prop :=
  ∀ c ∈ cs, classOf (name c) = some c ∧ (name c).length < 2 ^ 64

/-- A triangular map of components: created components with increasing dimensions, no two objects at the same address, and
fewer than 2^29 of them. -/
def StoredTri (a : Nat) (ms : List (Nat × Mono)) : Prop :=
  ms ≠ [] ∧ ms.length < 2 ^ 29 ∧ (a :: ms.map Prod.fst).Nodup ∧ (∀ p ∈ ms, StoredMono p.2) ∧
    (∀ p ∈ ms, 0 < p.2.expansion.multiSet.dim.toNat) ∧
    (ms.map fun p => p.2.expansion.multiSet.dim.toNat).IsChain (fun d d' => d' = d + 1)

/-- The map with these components. -/
def triOf (a : Nat) (ms : List (Nat × Mono)) (c : View Dbl) : Obj := .tri a (ms.map fun p => .mono p.1 p.2) c

/-- All coefficients, in the order of the components. -/
def allCoeffs (ms : List (Nat × Mono)) : List Dbl := ms.flatMap fun p => p.2.coeffs.data

end Spec
end Ser
end MParT
