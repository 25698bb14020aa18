import Verif.Spec.WellFormed
import Verif.Spec.Frame
import Verif.Spec.Wave
import Mathlib.LinearAlgebra.Matrix.Determinant.Basic

/-!
# Specification: two descriptions of one magnet

Another description of a magnet has other names of the atoms, other lattice vectors of the same lattice, another choice of the
cell that an atom belongs to, other axes for the spins, and another origin and other axes of space.
-/

set_option autoImplicit false

namespace Magnopy

open Matrix

/-- The new atom `name a` in the cell `cells n + shift a` is the old atom `a` in the cell `n`; the new components of a spin are
`turn` times the old ones, the new components of a position or wave vector are `space` times the old ones. -/
structure Description where
  name : Atom → Atom
  shift : Atom → Cell
  turn : M3 ℝ
  space : M3 ℝ
  cells : Cell ≃+ Cell

/-- A proper rotation. -/
structure IsRotation (Q : M3 ℝ) : Prop where
  ortho : Qᵀ * Q = 1
  proper : Q.det = 1

/-- The configuration in the old description, from the new one. -/
def Description.old {Γ : Type*} [AddCommGroup Γ] (f : Description) (c : Config ℝ Γ) : Config ℝ Γ :=
  ⟨c.τ.comp f.cells.toAddMonoidHom, fun a n => f.turnᵀ *ᵥ c.σ (f.name a) (n + c.τ (f.shift a))⟩

/-- `s'` is another description of the Hamiltonian `s`, whose magnetic atoms are `l`: the energies of all configurations
of all supercells are the same. -/
structure Description.Holds (f : Description) (l l' : List Atom) (spin spin' : Atom → ℝ) (s s' : St ℝ) : Prop where
  rotation : IsRotation f.turn
  isometry : f.spaceᵀ * f.space = 1
  inj : ∀ a ∈ l, ∀ b ∈ l, f.name a = f.name b → a = b
  atoms : ∀ a', a' ∈ l' ↔ ∃ a ∈ l, f.name a = a'
  spins : ∀ a ∈ l, spin' (f.name a) = spin a
  energy : ∀ (Γ : Type) [AddCommGroup Γ] [Fintype Γ] (c : Config ℝ Γ), s'.physics c spin' = s.physics (f.old c) spin

/-- The new lattice, positions and spin vectors. -/
structure Description.Moves (f : Description) (l : List Atom) (lat lat' : M3 ℝ) (pos pos' : Atom → V3 ℝ)
    (spinVec spinVec' : Atom → Option (V3 ℝ)) : Prop where
  lattice : ∀ R, absolute lat' (f.cells R).rel = f.space *ᵥ absolute lat R.rel
  positions : ∃ origin, ∀ a ∈ l, absolute lat' (pos' (f.name a) + (f.shift a).rel) = f.space *ᵥ absolute lat (pos a) + origin
  vectors : ∀ a ∈ l, spinVec' (f.name a) = (spinVec a).map fun v => f.turn *ᵥ v

/-- The direction of `v` is not so close to `±z` that the code takes `±z` instead. -/
def OwnAxis (v : V3 ℝ) : Prop :=
  ∀ d, Directs d v → (1 / 10 ^ 8 < |d 0| ∨ 1 / 10 ^ 8 < |d 1|) ∨ (d 0 = 0 ∧ d 1 = 0)

/-- The same names, cells and axes. -/
def Description.same : Description := ⟨id, fun _ => 0, 1, 1, .refl _⟩

end Magnopy
