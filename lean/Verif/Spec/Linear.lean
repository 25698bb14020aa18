import Verif.Spec.Supercell
import Verif.Spec.Compare

/-!
# Specification: sums and multiples of Hamiltonians
-/

set_option autoImplicit false

namespace Magnopy

/-- The classical energy of the first Hamiltonian is `x` times the one of the second plus `y` times the one of the third, for all
configurations of spins in all supercells. -/
def St.Mixture (s s1 s2 : St ℝ) (x y : ℝ) (spin : Atom → ℝ) : Prop :=
  ∀ (Γ : Type) [AddCommGroup Γ] [Fintype Γ] (c : Config ℝ Γ), ∃ e1 e2, s1.physics c spin = some e1 ∧
    s2.physics c spin = some e2 ∧ s.physics c spin = some (x * e1 + y * e2)

/-- `omega` reports these energies, in this order, up to the rounding of energies up to `1e-8` to zero, for all correct routines of
linear algebra and all flags. -/
def Reports (o : MagnonObj) (cell : ℕ → M3 ℝ) (k : V3 ℝ) (n : ℕ) (e : Fin n → ℝ) : Prop :=
  ∀ chol eig sort, IsCholesky chol → IsEig eig → IsSort sort → ∀ (junk : MagnonObj.Mat o.N) (z im : Bool),
    (o.omega cell (Colpa.solve chol eig sort) junk z false im k).1.1 =
      (List.finRange n).map fun i => some (((if e i ≤ 1 / 10 ^ 8 then 0 else e i : ℝ)) : ℂ)

end Magnopy
