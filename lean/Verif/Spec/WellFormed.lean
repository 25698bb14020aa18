import Verif.Spec.Invariants
import Verif.Spec.Energy

/-!
# Specification: Hamiltonians that mean what their notation says
-/

set_option autoImplicit false

namespace Magnopy

/-- The orientation of a bond that is kept when bonds are counted once: the lattice vector is
lexicographically positive, or zero with the atoms in the order of their indices. -/
def Canonical (b : Bond) : Prop :=
  0 < b.2.2.1 ∨ (b.2.2.1 = 0 ∧ 0 < b.2.2.2.1) ∨ (b.2.2.1 = 0 ∧ b.2.2.2.1 = 0 ∧ 0 < b.2.2.2.2) ∨
    (b.2.2 = (0, 0, 0) ∧ b.1.index ≤ b.2.1.index)

namespace St

variable {K : Type*} [Field K]

/-- Parameters are stored under unique keys, in objects of their own, for atoms of the crystal with
different indices, and no atom has a bond with itself in the same cell. -/
structure Sound (s : St K) : Prop where
  keys : s.KeysNodup
  refer : s.Refer
  alloc : s.Alloc
  noShare : s.NoShare
  index : ∀ a ∈ s.atoms, ∀ b ∈ s.atoms, a.index = b.index → a = b
  noSelf : ∀ b ∈ s.exch.keys, b.mirror ≠ b

/-- The stored bonds are as the flag of double counting says: both orientations with transposed
matrices, or only the canonical orientation. -/
structure WellFormed (s : St K) : Prop extends Sound s where
  twice : s.dc = some true → ∀ b, s.valE b.mirror = (s.valE b).map Matrix.transpose
  once : s.dc = some false → ∀ b ∈ s.exch.keys, Canonical b

/-- The stored bonds stand for pairs of atoms as the flag of double counting says: both orientations
with transposed matrices, or one of the two orientations, whichever. -/
structure Paired (s : St K) : Prop extends Sound s where
  twice : s.dc = some true → ∀ b, s.valE b.mirror = (s.valE b).map Matrix.transpose
  single : s.dc = some false → ∀ b ∈ s.exch.keys, b.mirror ∉ s.exch.keys

/-- The classical energy according to the notation of the Hamiltonian; `none` while the notation is
not complete. -/
def physics {Γ : Type*} [AddCommGroup Γ] [Fintype Γ] (s : St K) (c : Config K Γ) (spin : Atom → K) : Option K :=
  match s.getNotation with
  | .ok (_, n, e, o) => some (s.energy c n spin e o)
  | .error _ => none

/-- Spins of the atoms of the crystal are set and are not zero. -/
def Spins (s : St K) (spin : Atom → K) : Prop := ∀ a ∈ s.atoms, s.spin a = some (spin a) ∧ spin a ≠ 0

end St
end Magnopy
