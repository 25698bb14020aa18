import Verif.Model.Basic
import Mathlib.Analysis.SpecialFunctions.Trigonometric.Inverse

/-!
# `vector_to_angles`  (src/magnopy/geometry.py)
-/

set_option autoImplicit false

namespace Magnopy
namespace Angles

/-- What the two undefined names of the function stand for. -/
structure Globals where
  /-- numpy has a function `linalg.notm` (geometry.py 43), which is taken to be the norm -/
  notm : Bool
  /-- the value of the global variable `in_degreees` (geometry.py 57), if there is one -/
  in_degreees : Option Bool

/-- The code as it is: `np.linalg` has no attribute `notm`, and there is no variable `in_degreees`. -/
def Globals.real : Globals := ⟨false, none⟩

/-- The code with the two names corrected to `np.linalg.norm` and to the argument `in_degrees`. -/
def Globals.corrected (in_degrees : Bool) : Globals := ⟨true, some in_degrees⟩

/-- `np.linalg.norm` of a vector. -/
noncomputable def len (v : V3 ℝ) : ℝ := Real.sqrt (∑ i, v i ^ 2)

/-- `np.allclose(a, b)` with its default tolerances. -/
def Close (a b : V3 ℝ) : Prop := ∀ i, |a i - b i| ≤ 1 / 10 ^ 8 + 1 / 10 ^ 5 * |b i|

/-- `TODEGREES` of wulfric.constants. -/
noncomputable def toDegrees : ℝ := 180 / Real.pi

open Classical in
/-- Polar and azimuthal angle in radians, geometry.py 45-55, for a vector other than zero. -/
noncomputable def radians (v : V3 ℝ) : ℝ × ℝ :=
  if Close (fun i => v i / len v) ![0, 0, 1] then (0, Real.pi / 2)
  else if Close (fun i => v i / len v) ![0, 0, -1] then (Real.pi, Real.pi / 2)
  else (Real.arccos (v 2 / len v), Real.arccos (v 0 / len ![v 0, v 1, 0]))

open Classical in
/-- `vector_to_angles`, geometry.py 23-60. `none` stands for the angles of the zero vector, which are not numbers (numpy divides by zero
with a warning). -/
noncomputable def vectorToAngles (g : Globals) (v : V3 ℝ) : Except PyErr (Option (ℝ × ℝ × ℝ)) :=
  if g.notm = false then .error .attributeError
  else match g.in_degreees with
    | none => .error .nameError
    | some b =>
      if v = 0 then .ok none
      else if b then .ok (some (len v, (radians v).1 * toDegrees, (radians v).2 * toDegrees))
      else .ok (some (len v, (radians v).1, (radians v).2))

end Angles
end Magnopy
