import Verif.Model.Hdf5
import Verif.Spec.Invariants

/-!
# Specification: storing a Hamiltonian in a file
-/

set_option autoImplicit false

namespace Magnopy
namespace H5

variable {K : Type} [Field K]

/-- What is asked of a Hamiltonian which is written to a file, except for spins: parameters refer to its atoms, with double
counting both orientations are there; names of atoms are unique, not empty and do not look like full names; the part of the
notation which belongs to existing parameters is set; the cone axis has length one. -/
structure Kept (x : Full K) : Prop where
  inv : x.ham.Inv
  unique : (x.ham.atoms.map Atom.name).Nodup
  named : ∀ a ∈ x.ham.atoms, a.name ≠ ""
  plain : ∀ a ∈ x.ham.atoms, ¬ ['_', '_'] <:+: a.name.toList
  sn : x.ham.exch ≠ [] ∨ x.ham.onSite ≠ [] → x.ham.sn.isSome
  dc : x.ham.exch ≠ [] → x.ham.dc.isSome
  ef : x.ham.exch ≠ [] → x.ham.ef.isSome
  osf : x.ham.onSite ≠ [] → x.ham.osf.isSome
  cone : ∀ n, x.cone = some n → n 0 * n 0 + n 1 * n 1 + n 2 * n 2 = 1

/-- What is asked of a Hamiltonian which is written to a file: also the spins are set. -/
structure Storable (x : Full K) : Prop extends Kept x where
  spins : ∀ a ∈ x.ham.atoms, (x.spinVec a).isSome

/-- The same Hamiltonian up to the order and the indices of the atoms: atoms with the same name have the same data and the
same parameters, the notation is the same. -/
structure Same (x y : Full K) : Prop where
  cell : y.cell = x.cell
  names : (y.ham.atoms.map Atom.name).Perm (x.ham.atoms.map Atom.name)
  pos : ∀ a ∈ x.ham.atoms, ∀ a' ∈ y.ham.atoms, a'.name = a.name → y.pos a' = x.pos a
  spinVec : ∀ a ∈ x.ham.atoms, ∀ a' ∈ y.ham.atoms, a'.name = a.name → y.spinVec a' = x.spinVec a
  gFactor : ∀ a ∈ x.ham.atoms, ∀ a' ∈ y.ham.atoms, a'.name = a.name → y.gFactor a' = x.gFactor a
  charge : ∀ a ∈ x.ham.atoms, ∀ a' ∈ y.ham.atoms, a'.name = a.name → y.charge a' = x.charge a
  refer : y.ham.Refer
  exchange : ∀ a ∈ x.ham.atoms, ∀ b ∈ x.ham.atoms, ∀ a' ∈ y.ham.atoms, ∀ b' ∈ y.ham.atoms, a'.name = a.name →
    b'.name = b.name → ∀ R, y.ham.valE (a', b', R) = x.ham.valE (a, b, R)
  onSite : ∀ a ∈ x.ham.atoms, ∀ a' ∈ y.ham.atoms, a'.name = a.name → y.ham.valO a' = x.ham.valO a
  sn : x.ham.exch ≠ [] ∨ x.ham.onSite ≠ [] → y.ham.sn = x.ham.sn
  dc : x.ham.exch ≠ [] → y.ham.dc = x.ham.dc
  ef : x.ham.exch ≠ [] → y.ham.ef = x.ham.ef
  osf : x.ham.onSite ≠ [] → y.ham.osf = x.ham.osf
  spiral : y.spiral = x.spiral
  cone : y.cone = x.cone

/-- The object is a group of type "SpinHamiltonian" (in any letter case). -/
def Obj.Holds (o : Obj K) : Prop := ∃ g, o = .ham g ∧ g.type.lower = Str.lit "spinhamiltonian"

end H5

/-- Unit vectors have length one.  (So it is for the Euclidean length.) -/
def Txt.Lib.Unit {K : Type} [Field K] (L : Txt.Lib K) : Prop :=
  ∀ v : V3 K, v 0 * v 0 + v 1 * v 1 + v 2 * v 2 = 1 → L.norm v = 1

end Magnopy
