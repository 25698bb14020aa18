import Verif.Spec.WellFormed
import Verif.Spec.Rotation

/-!
# Specification: rotations of all spins, stationary states
-/

set_option autoImplicit false

namespace Magnopy

open Matrix

/-- The configuration with the same directions in every cell. -/
def uniform (d : Atom → V3 ℝ) : Config ℝ Unit := ⟨0, fun a _ => d a⟩

/-- The directions `d` are a stationary point of the energy: for small deviations perpendicular to the directions the
energy has no linear term. -/
def St.Stationary (s : St ℝ) (spin : Atom → ℝ) (d : Atom → V3 ℝ) : Prop :=
  ∀ η : Atom → V3 ℝ, (∀ a, η a ⬝ᵥ d a = 0) →
    ∃ E0 E2 : ℝ, ∀ ε : ℝ, s.physics (uniform fun a => d a + ε • η a) spin = some (E0 + ε ^ 2 * E2)

/-- The energy `xᵀ m y` does not change if both spins are rotated about `n`. -/
def AxisInvariant (n : V3 ℝ) (m : M3 ℝ) : Prop :=
  ∀ (θ : ℝ) (x y : V3 ℝ), bilin (rotate n θ x) m (rotate n θ y) = bilin x m y

/-- All terms of the Hamiltonian are invariant under rotations about `n`. -/
structure St.Axial (s : St ℝ) (n : V3 ℝ) : Prop where
  unit : IsUnit3 n
  bonds : ∀ b m, s.valE b = some m → AxisInvariant n m
  sites : ∀ a m, s.valO a = some m → AxisInvariant n m

/-- All terms of the Hamiltonian are multiples of the scalar product of two spins. -/
structure St.Heisenberg (s : St ℝ) : Prop where
  bonds : ∀ b m, s.valE b = some m → ∃ j : ℝ, m = j • 1
  sites : ∀ a m, s.valO a = some m → ∃ j : ℝ, m = j • 1

/-- A Hamiltonian of scalar products whose bonds all have their lowest energy if every spin `a` has the direction
`σ a` times a common vector. -/
structure St.Unfrustrated (s : St ℝ) (σ : Atom → ℝ) : Prop where
  sites : ∀ a m, s.valO a = some m → ∃ j : ℝ, m = j • 1
  bonds : ∀ d n e o, s.getNotation = .ok (d, n, e, o) → ∀ b m, s.valE b = some m →
    ∃ j : ℝ, m = j • 1 ∧ e * j * (σ b.1 * σ b.2.1) ≤ 0

/-- All spins are along a common direction, up to the signs `σ`. -/
structure CollinearSpins (l : List Atom) (spinVec : Atom → Option (V3 ℝ)) (spin σ : Atom → ℝ) (d : V3 ℝ) : Prop where
  unit : IsUnit3 d
  sign : ∀ a ∈ l, σ a = 1 ∨ σ a = -1
  pos : ∀ a ∈ l, 0 < spin a
  vec : ∀ a ∈ l, spinVec a = some ((σ a * spin a) • d)

end Magnopy
