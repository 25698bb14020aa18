import Mathlib.LinearAlgebra.Matrix.Notation
import Mathlib.LinearAlgebra.Matrix.Trace

/-!
# Specification: decomposition of an exchange tensor

Independent of the model: the user guide (docs/source/user-guide/methods/spinham.rst) writes a
tensor as `J = J_iso * 1 + S + A` with `S` symmetric and traceless and `A` the antisymmetric matrix
of the Dzyaloshinskii-Moriya vector `D`.
-/

set_option autoImplicit false

namespace Magnopy.Spec

variable {K : Type*} [Field K]

/-- The antisymmetric matrix of a DMI vector, as printed in the user guide. -/
def dmMatrix (D : Fin 3 → K) : Matrix (Fin 3) (Fin 3) K :=
  !![0, D 2, -D 1;
     -D 2, 0, D 0;
     D 1, -D 0, 0]

/-- `(j, S, D)` is a decomposition of the tensor `J`. -/
structure IsDecomposition (J : Matrix (Fin 3) (Fin 3) K) (j : K)
    (S : Matrix (Fin 3) (Fin 3) K) (D : Fin 3 → K) : Prop where
  sum : J = j • (1 : Matrix (Fin 3) (Fin 3) K) + S + dmMatrix D
  symmetric : S.transpose = S
  traceless : S.trace = 0

end Magnopy.Spec
