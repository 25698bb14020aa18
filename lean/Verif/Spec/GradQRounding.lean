import Verif.Spec.EnergyConeRounding

/-!
# Specification: round-off of the derivative with respect to the spiral vector
-/

set_option autoImplicit false

namespace Magnopy
namespace EnergyObj

/-- The strength of the interactions times the component `c` of the vectors of their bonds. -/
noncomputable def reach (E : EnergyObj ℝ) (cell : ℕ → M3 ℝ) (c : Fin 3) : ℝ :=
  (E.bonds.map fun b => |b.2.2.1 c| * (|E.factor * E.spins.getD b.1 0 * E.spins.getD b.2.1 0| * ∑ x, ∑ y, |cell b.2.2.2 x y|)).sum

/-- The number of roundings of a term of the derivative. -/
def gradRoundings (E : EnergyObj ℝ) (d k : ℕ) : ℕ := 5 * d + k + 14 + E.bonds.length

end EnergyObj
end Magnopy
