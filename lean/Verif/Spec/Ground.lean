import Verif.Model.Ground
import Verif.Spec.Frame

/-!
# Specification: spiral vector and cone axis as the last accepted values
-/

set_option autoImplicit false

namespace Magnopy
namespace Ground

/-- A list of three numbers. -/
def IsVector (x : Param.ArrayLike ℝ) (v : V3 ℝ) : Prop := x = .vector [v 0, v 1, v 2]

/-- A vector that is accepted as an axis: a component exceeds 1e-8. -/
def IsAxis (x : Param.ArrayLike ℝ) (v : V3 ℝ) : Prop := IsVector x v ∧ ∃ i, 1 / 10 ^ 8 < |v i|

/-- `v` is the last vector that was assigned to `spiral_vector`. -/
def LastSpiral (ops : List Op) (v : V3 ℝ) : Prop :=
  ∃ x before after, ops = before ++ Op.spiral x :: after ∧ IsVector x v ∧ ∀ y w, Op.spiral y ∈ after → ¬ IsVector y w

/-- `v` is the last axis that was assigned to `cone_axis`. -/
def LastAxis (ops : List Op) (v : V3 ℝ) : Prop :=
  ∃ x before after, ops = before ++ Op.cone x :: after ∧ IsAxis x v ∧ ∀ y w, Op.cone y ∈ after → ¬ IsAxis y w

/-- Nobody writes into the array that is the spiral vector at that time. -/
def KeepsSpiral (ops : List Op) : Prop :=
  ∀ before r i x after, ops = before ++ Op.write r i x :: after → (run before new).spiral ≠ some r

/-- Nobody writes into the array that is the cone axis at that time. -/
def KeepsAxis (ops : List Op) : Prop :=
  ∀ before r i x after, ops = before ++ Op.write r i x :: after → (run before new).cone ≠ some r

end Ground
end Magnopy
