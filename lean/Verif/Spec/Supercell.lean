import Verif.Spec.Fourier

/-!
# Specification: a supercell of a magnet

A supercell consists of `n` cells of the crystal.  It is another description of the same magnet: its atoms are the atoms
of the `n` cells, and its lattice vectors are some of the lattice vectors of the crystal.
-/

set_option autoImplicit false

namespace Magnopy

open Matrix

/-- The energy matrix of a pair of atoms: the stored bond `b`, and the stored bond of the opposite orientation. -/
noncomputable def St.interaction (s : St ℝ) (spin : Atom → ℝ) (b : Bond) : M3 ℝ :=
  match s.getNotation with
  | .error _ => 0
  | .ok (_, n, e, _) =>
    (e * (weight n spin b.1 * weight n spin b.2.1)) • ((s.valE b).getD 0 + ((s.valE b.mirror).getD 0)ᵀ)

/-- The atom `name a m` of the supercell at `R` is the atom `a` of the crystal in the cell `sub R + rep m`. -/
structure Supercell (n : ℕ) where
  sub : Cell →+ Cell
  rep : Fin n → Cell
  name : Atom → Fin n → Atom

/-- `s'` describes the magnet `s`, whose magnetic atoms are `l`, with the supercell: every cell belongs to one supercell, and the
parameters of `s'` are those of `s`, up to the notation. -/
structure Supercell.Holds {n : ℕ} (f : Supercell n) (l l' : List Atom) (spin spin' : Atom → ℝ) (s s' : St ℝ) : Prop where
  cells : ∀ R, ∃! p : Fin n × Cell, f.sub p.2 + f.rep p.1 = R
  inj : ∀ a ∈ l, ∀ b ∈ l, ∀ m m', f.name a m = f.name b m' → a = b ∧ m = m'
  atoms : ∀ a', a' ∈ l' ↔ ∃ a ∈ l, ∃ m, f.name a m = a'
  spins : ∀ a ∈ l, ∀ m, spin' (f.name a m) = spin a
  bonds : ∀ a ∈ l, ∀ b ∈ l, ∀ m m' R,
    s'.interaction spin' (f.name a m, f.name b m', R) = s.interaction spin (a, b, f.sub R + f.rep m' - f.rep m)
  sites : ∀ a ∈ l, ∀ m, s'.siteEnergy spin' (f.name a m) = s.siteEnergy spin a

/-- The lattice, the positions and the spin vectors of the supercell. -/
structure Supercell.Moves {n : ℕ} (f : Supercell n) (l : List Atom) (lat lat' : M3 ℝ) (pos pos' : Atom → V3 ℝ)
    (spinVec spinVec' : Atom → Option (V3 ℝ)) : Prop where
  lattice : ∀ R, absolute lat' R.rel = absolute lat (f.sub R).rel
  positions : ∀ a ∈ l, ∀ m, absolute lat' (pos' (f.name a m)) = absolute lat (pos a + (f.rep m).rel)
  vectors : ∀ a ∈ l, ∀ m, spinVec' (f.name a m) = spinVec a

/-- The wave vectors that are equivalent to zero for the supercell, but not equivalent to each other for the crystal. -/
structure FoldedWaves {n : ℕ} (lat lat' : M3 ℝ) (G : Fin n → V3 ℝ) : Prop where
  trivial : ∀ t R, ∃ m : ℤ, G t ⬝ᵥ absolute lat' (Cell.rel R) = 2 * Real.pi * m
  distinct : ∀ t t', t ≠ t' → ∃ R, ∀ m : ℤ, (G t - G t') ⬝ᵥ absolute lat (Cell.rel R) ≠ 2 * Real.pi * m

/-- The configuration `c'` of the supercells `Γ'` is the configuration `c` of the cells `Γ`. -/
structure Supercell.Same {n : ℕ} (f : Supercell n) (l : List Atom) {Γ Γ' : Type} [AddCommGroup Γ] [AddCommGroup Γ']
    (ι : Γ' →+ Γ) (c : Config ℝ Γ) (c' : Config ℝ Γ') : Prop where
  cells : Function.Bijective fun p : Γ' × Fin n => ι p.1 + c.τ (f.rep p.2)
  period : ∀ R, ι (c'.τ R) = c.τ (f.sub R)
  spins : ∀ a ∈ l, ∀ m γ, c'.σ (f.name a m) γ = c.σ a (ι γ + c.τ (f.rep m))

end Magnopy
