import Verif.Model.Magnon
import Verif.Spec.Colpa

/-!
# Specification: the reported energies of one magnon object are not above those of another one
-/

set_option autoImplicit false

namespace Magnopy

/-- The lists of energies that `omega` reports for the two objects have the same length and consist of real numbers, and no
energy of the first list is negative or larger than the energy at the same place of the second list. This holds for all correct
routines of linear algebra and all flags. -/
def NotAbove (o : MagnonObj) (cell : ℕ → M3 ℝ) (k : V3 ℝ) (o' : MagnonObj) (cell' : ℕ → M3 ℝ) (k' : V3 ℝ) : Prop :=
  ∃ w w' : Fin o.N → ℝ, (∀ i, 0 ≤ w i ∧ w i ≤ w' i) ∧
    (∀ chol eig sort, IsCholesky chol → IsEig eig → IsSort sort → ∀ (junk : MagnonObj.Mat o.N) (z im : Bool),
      (o.omega cell (Colpa.solve chol eig sort) junk z false im k).1.1 = (List.finRange o.N).map fun i => some (w i : ℂ)) ∧
    ∀ chol eig sort, IsCholesky chol → IsEig eig → IsSort sort → ∀ (junk : MagnonObj.Mat o'.N) (z im : Bool),
      (o'.omega cell' (Colpa.solve chol eig sort) junk z false im k').1.1 = (List.finRange o.N).map fun i => some (w' i : ℂ)

end Magnopy
