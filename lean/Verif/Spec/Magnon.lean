import Verif.Spec.WellFormed
import Verif.Spec.Notation
import Verif.Model.Ham
import Mathlib.Data.Real.Basic

/-!
# Specification: Hamiltonians with magnons
-/

set_option autoImplicit false

namespace Magnopy

open Matrix

/-- On-site matrices are symmetric. -/
def St.OnSiteSymmetric (s : St ℝ) : Prop := ∀ a m, s.valO a = some m → mᵀ = m

/-- Mirrored bonds have transposed matrices, on-site matrices are symmetric. -/
structure MagnonObj.Symmetric (t : St ℝ) : Prop where
  mirror : ∀ b, t.valE b.mirror = (t.valE b).map Matrix.transpose
  onSite : t.OnSiteSymmetric

/-- A Hamiltonian with a complete notation, spins and spin vectors. Bonds counted once may be stored in either
orientation. -/
structure MagnonReady (order : List Atom → List Atom) (spinVec : Atom → Option (V3 ℝ)) (s : St ℝ) (spin : Atom → ℝ) :
    Prop where
  wf : s.Paired
  spins : s.Spins spin
  complete : s.Complete
  vectors : ∀ a ∈ s.magneticAtoms order, (spinVec a).isSome

end Magnopy
