import Verif.Spec.Rotation

/-!
# Specification: local frames
-/

set_option autoImplicit false

namespace Magnopy

open Matrix

/-- The rows of `e` are a right-handed orthonormal basis. -/
structure RightHanded (e : M3 ℝ) : Prop where
  /-- orthonormal -/
  ortho : ∀ i j, e i ⬝ᵥ e j = if i = j then 1 else 0
  /-- e1 × e2 = e3 -/
  hand : crossProduct (e 0) (e 1) = e 2

/-- `d` is the direction of the vector `v`. -/
def Directs (d v : V3 ℝ) : Prop := IsUnit3 d ∧ ∃ x : ℝ, 0 < x ∧ v = x • d

end Magnopy
