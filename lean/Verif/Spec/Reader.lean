import Verif.Spec.Invariants
import Verif.Spec.Energy
import Verif.Model.Hdf5
import Verif.Model.Tb2j

/-!
# Specification: Hamiltonians that were put together from a file
-/

set_option autoImplicit false

namespace Magnopy

/-- Keys are unique, parameters refer to atoms of the crystal, with double counting mirrors are there, every parameter is stored
in an existing object of its own, and the atoms are numbered from one. -/
structure St.Own {K : Type*} [Field K] (s : St K) : Prop where
  inv : s.Inv
  alloc : s.Alloc
  noShare : s.NoShare
  index : ∀ (i : ℕ) a, s.atoms[i]? = some a → a.index = i + 1

/-- The length of a bond: of the vector from the first atom to the second one, where `p` are the relative positions in the unit cell, and the
rows of `cell` are the lattice vectors. -/
def bondLength {K : Type*} [Field K] (norm : V3 K → K) (cell : M3 K) (p : Atom → V3 K) (b : Bond) : K :=
  norm (Matrix.vecMul (p b.2.1 + ![(b.2.2.1 : K), (b.2.2.2.1 : K), (b.2.2.2.2 : K)] - p b.1) cell)

/-- The Hamiltonian was returned by one of the three readers, for any contents of the file. -/
inductive FromFile {K : Type} [Field K] [LinearOrder K] (L : Txt.Lib K) : St K → Prop where
  | text {lines : List Str} {y : Txt.Loaded K} : Txt.load L lines = .ok y → FromFile L y.ham
  | hdf5 {name : Option Str} {f : H5.File K} {y : H5.Full K} : H5.load L name f = .ok y → FromFile L y.ham
  | tb2j {lines : List Str} {y : H5.Full K} : Tb2j.load L lines = .ok y → FromFile L y.ham

/-- The configuration `c'` and the spins `sp'` of the atoms `l'` are those of the atoms of the same names in `l`. -/
structure ByName {K Γ : Type*} [AddCommGroup Γ] (l l' : List Atom) (c c' : Config K Γ) (sp sp' : Atom → K) : Prop where
  supercell : c'.τ = c.τ
  spins : ∀ a ∈ l, ∀ a' ∈ l', a'.name = a.name → sp' a' = sp a ∧ c'.σ a' = c.σ a

/-- The sum of the absolute values of the components. -/
def size {K : Type*} [Field K] [LinearOrder K] (v : V3 K) : K := ∑ i, |v i|

end Magnopy
