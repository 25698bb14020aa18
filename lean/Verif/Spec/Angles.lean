import Verif.Model.Basic
import Mathlib.Analysis.SpecialFunctions.Trigonometric.Basic

/-!
# Spherical coordinates
-/

set_option autoImplicit false

namespace Magnopy.Spec

/-- The vector with the given length, polar angle (from the z axis) and azimuthal angle (from the x axis towards the y axis). The angles
are given in units of which a half turn has `half`: 180 for degrees, π for radians. -/
noncomputable def spherical (half r polar azimuthal : ℝ) : V3 ℝ :=
  ![r * Real.sin (polar * (Real.pi / half)) * Real.cos (azimuthal * (Real.pi / half)),
    r * Real.sin (polar * (Real.pi / half)) * Real.sin (azimuthal * (Real.pi / half)),
    r * Real.cos (polar * (Real.pi / half))]

/-- The number of angle units in a half turn. -/
noncomputable def halfTurn (in_degrees : Bool) : ℝ := if in_degrees then 180 else Real.pi

/-- The length of a vector. -/
def IsLength (r : ℝ) (v : V3 ℝ) : Prop := 0 ≤ r ∧ r * r = v 0 * v 0 + v 1 * v 1 + v 2 * v 2

/-- The vector points along the z axis, up or down, within the tolerances of numpy. -/
def NearPole (r : ℝ) (v : V3 ℝ) : Prop :=
  |v 0| ≤ r / 10 ^ 8 ∧ |v 1| ≤ r / 10 ^ 8 ∧ |(|v 2| - r)| ≤ r * (1 / 10 ^ 8 + 1 / 10 ^ 5)

end Magnopy.Spec
