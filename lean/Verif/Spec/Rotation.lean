import Verif.Model.Basic
import Verif.Spec.Energy
import Mathlib.LinearAlgebra.CrossProduct
import Mathlib.Analysis.SpecialFunctions.Trigonometric.Basic

/-!
# Specification: rotations about an axis
-/

set_option autoImplicit false

namespace Magnopy

/-- The vector `v` rotated about the unit vector `n` by the angle `θ` (right-handed). -/
noncomputable def rotate (n : V3 ℝ) (θ : ℝ) (v : V3 ℝ) : V3 ℝ :=
  Real.cos θ • v + Real.sin θ • (crossProduct n v) + ((1 - Real.cos θ) * (n ⬝ᵥ v)) • n

/-- The projection of `v` on the unit vector `n`. -/
def project (n v : V3 ℝ) : V3 ℝ := (n ⬝ᵥ v) • n

/-- A vector of length one. -/
def IsUnit3 (v : V3 ℝ) : Prop := v ⬝ᵥ v = 1

end Magnopy
