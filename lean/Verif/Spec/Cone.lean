import Verif.Model.Param
import Verif.Spec.Rotation

/-!
# Specification: energies of cone states
-/

set_option autoImplicit false

namespace Magnopy

/-- An `(I, 3)` array with the given rows. -/
def arr (l : List (V3 ℝ)) : Param.ArrayLike ℝ := .rows (l.map fun v => [v 0, v 1, v 2])

/-- A `(3,)` array. -/
def vec (v : V3 ℝ) : Param.ArrayLike ℝ := .vector [v 0, v 1, v 2]

/-- The bond energy when the spins at the start of the bonds are rotated about `n` by `φ`, and those at
the end by `φ + q·d`.  Bonds are `(i, j, d, J)`, `S` are the spin lengths and `u` the directions. -/
noncomputable def conePhase (f : ℝ) (S : ℕ → ℝ) (bonds : List (ℕ × ℕ × V3 ℝ × M3 ℝ)) (u : ℕ → V3 ℝ) (n q : V3 ℝ)
    (φ : ℝ) : ℝ :=
  (bonds.map fun (i, j, d, J) =>
    f * S i * S j * bilin (rotate n φ (u i)) J (rotate n (φ + q ⬝ᵥ d) (u j))).sum

end Magnopy
