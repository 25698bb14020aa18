import Verif.Spec.Wave
import Verif.Spec.WellFormed
import Mathlib.Data.ZMod.Basic
import Mathlib.Algebra.Group.AddChar

/-!
# Specification: local minima of the classical energy
-/

set_option autoImplicit false

namespace Magnopy

open Matrix

/-- The directions `d`, repeated in all cells of the supercell `τ`, are a local minimum of the classical energy: no
configuration of unit vectors of the atoms `l` close to it has a lower energy. The spins of the cells of the supercell
are independent. -/
def St.LocalMinimum {Γ : Type*} [AddCommGroup Γ] [Fintype Γ] (s : St ℝ) (spin : Atom → ℝ) (l : List Atom)
    (d : Atom → V3 ℝ) (τ : Cell →+ Γ) : Prop :=
  ∃ δ : ℝ, 0 < δ ∧ ∀ σ : Atom → Γ → V3 ℝ,
    (∀ a ∈ l, ∀ n, σ a n ⬝ᵥ σ a n = 1 ∧ ∀ i, |σ a n i - d a i| ≤ δ) →
    ∀ E0 E, s.physics (⟨τ, fun a _ => d a⟩ : Config ℝ Γ) spin = some E0 → s.physics (⟨τ, σ⟩ : Config ℝ Γ) spin = some E →
      E0 ≤ E

/-- The energy grows with the squares of the deviations from the directions `d`: for configurations of unit vectors of the
atoms `l` close to `d`, the energy is higher by at least `c` times the sum of the squares of the deviations of all spins. -/
def St.Grows {Γ : Type*} [AddCommGroup Γ] [Fintype Γ] (s : St ℝ) (spin : Atom → ℝ) (l : List Atom)
    (d : Atom → V3 ℝ) (τ : Cell →+ Γ) (c : ℝ) : Prop :=
  ∃ δ : ℝ, 0 < δ ∧ ∀ σ : Atom → Γ → V3 ℝ,
    (∀ a ∈ l, ∀ n, σ a n ⬝ᵥ σ a n = 1 ∧ ∀ i, |σ a n i - d a i| ≤ δ) →
    ∀ E0 E, s.physics (⟨τ, fun a _ => d a⟩ : Config ℝ Γ) spin = some E0 → s.physics (⟨τ, σ⟩ : Config ℝ Γ) spin = some E →
      E0 + c * (l.map fun a => ∑ n, (σ a n - d a) ⬝ᵥ (σ a n - d a)).sum ≤ E

/-- A minimum of the energy with a positive second derivative in all directions. -/
def St.FirmMinimum {Γ : Type*} [AddCommGroup Γ] [Fintype Γ] (s : St ℝ) (spin : Atom → ℝ) (l : List Atom)
    (d : Atom → V3 ℝ) (τ : Cell →+ Γ) : Prop := ∃ c : ℝ, 0 < c ∧ s.Grows spin l d τ c

/-- The energy of `s'` grows at least as fast as the energy of `s` close to the directions `d`: every small change of the
directions of the spins of the supercell costs in `s'` at least what it costs in `s` (both costs may be negative). -/
def St.Stiffer {Γ : Type*} [AddCommGroup Γ] [Fintype Γ] (s s' : St ℝ) (spin : Atom → ℝ) (l : List Atom)
    (d : Atom → V3 ℝ) (τ : Cell →+ Γ) : Prop :=
  ∃ δ : ℝ, 0 < δ ∧ ∀ σ : Atom → Γ → V3 ℝ,
    (∀ a ∈ l, ∀ n, σ a n ⬝ᵥ σ a n = 1 ∧ ∀ i, |σ a n i - d a i| ≤ δ) →
    ∀ E0 E E0' E', s.physics (⟨τ, fun a _ => d a⟩ : Config ℝ Γ) spin = some E0 → s.physics (⟨τ, σ⟩ : Config ℝ Γ) spin = some E →
      s'.physics (⟨τ, fun a _ => d a⟩ : Config ℝ Γ) spin = some E0' → s'.physics (⟨τ, σ⟩ : Config ℝ Γ) spin = some E' →
      E - E0 ≤ E' - E0'

/-- The component of a function of the cells along the character `ψ` (its Fourier coefficient). -/
noncomputable def component {Γ : Type*} [AddCommGroup Γ] [Fintype Γ] (z : Γ → ℂ) (ψ : AddChar Γ ℂ) : ℂ :=
  (1 / Fintype.card Γ : ℂ) * ∑ n, z n * star (ψ n)

/-- The supercell of `n × n × n` cells. -/
def cube (n : ℕ) : Cell →+ ZMod n × ZMod n × ZMod n :=
  (Int.castAddHom (ZMod n)).prodMap ((Int.castAddHom (ZMod n)).prodMap (Int.castAddHom (ZMod n)))

/-- The only cell of a crystal of equal cells. -/
def oneCell : Cell →+ Unit := 0

end Magnopy
