import Verif.Spec.Describe
import Verif.Spec.Rotation

/-!
# Specification: reversed spins, half turns
-/

set_option autoImplicit false

namespace Magnopy

open Matrix

/-- The spin vectors of the reversed state. -/
def reverse (spinVec : Atom → Option (V3 ℝ)) (a : Atom) : Option (V3 ℝ) := (spinVec a).map (-·)

/-- The energy `xᵀ m y` does not change if both spins make half a turn about `n`. -/
def HalfTurn (n : V3 ℝ) (m : M3 ℝ) : Prop :=
  ∀ x y : V3 ℝ, bilin (rotate n Real.pi x) m (rotate n Real.pi y) = bilin x m y

/-- All spins are perpendicular to the unit vector `n`, and no term of the Hamiltonian changes if all spins make half a
turn about `n`. -/
structure St.Coplanar (s : St ℝ) (l : List Atom) (spinVec : Atom → Option (V3 ℝ)) (n : V3 ℝ) : Prop where
  unit : IsUnit3 n
  plane : ∀ a ∈ l, ∀ v, spinVec a = some v → n ⬝ᵥ v = 0
  bonds : ∀ b m, s.valE b = some m → HalfTurn n m
  sites : ∀ a m, s.valO a = some m → HalfTurn n m

end Magnopy
