import Verif.Model.Vampire
import Verif.Spec.Notation

/-!
# Specification: the files of Vampire

The interaction list of an .UCF file as it is read by Vampire: the energy of the listed interactions is
`-1/2 Σ eᵢᵀ Jᵢⱼ eⱼ` with unit vectors `e`, every line being one ordered pair (docs/source/user-guide: notation
"vampire" of the exchange).
-/

set_option autoImplicit false

namespace Magnopy

variable {K : Type*} [Field K]

/-- The content of an .UCF file lists the interactions: the printed number is their number, and line `n` has the number
`n`, the positions of the two atoms in the list of atoms, the cell of the second one and the matrix `f J`. -/
structure Vampire.Ucf.Lists (u : Vampire.Ucf K) (atoms : List Atom) (items : List (Bond × M3 K)) (f : M3 K → M3 K) :
    Prop where
  count : u.count = items.length
  length : u.lines.length = items.length
  line : ∀ (n : ℕ) (b : Bond) (J : M3 K), items[n]? = some (b, J) → ∃ l : Vampire.Line K, u.lines[n]? = some l ∧
    l.iid = n ∧ atoms[l.i]? = some b.1 ∧ atoms[l.j]? = some b.2.1 ∧ l.cell = b.2.2 ∧ l.matrix = f J

/-- The atoms of an .UCF file: numbered from zero, in the order of the list, with their materials. -/
def Vampire.Ucf.HasAtoms (u : Vampire.Ucf K) (atoms : List Atom) (material : ℕ → ℤ) : Prop :=
  u.atoms.length = atoms.length ∧ ∀ (n : ℕ) (a : Atom), atoms[n]? = some a → u.atoms[n]? = some (n, a, material n)

/-- `Σ e_iᵀ J e_j` over the pairs of a line. -/
def Vampire.Ucf.lineSum {Γ : Type*} [AddCommGroup Γ] [Fintype Γ] (u : Vampire.Ucf K) (c : Config K Γ)
    (l : Vampire.Line K) : K :=
  match u.atoms[l.i]?, u.atoms[l.j]? with
  | some a, some b => c.bond (a.2.1, b.2.1, l.cell) l.matrix
  | _, _ => 0

/-- The energy of a configuration as Vampire computes it from the interaction list. -/
def Vampire.Ucf.energy {Γ : Type*} [AddCommGroup Γ] [Fintype Γ] (u : Vampire.Ucf K) (c : Config K Γ) : K :=
  -(1 / 2) * (u.lines.map (u.lineSum c)).sum

/-- The matrix of the ordered pair `b` in the convention of Vampire, where the pair contributes `-σᵀ J σ` (both orders
together): minus the energy matrix of the stored bonds of the pair. -/
def St.vampireBond (s : St K) (n : Bool) (e : K) (sp : Atom → K) (b : Bond) : M3 K :=
  -(e * (weight n sp b.1 * weight n sp b.2.1)) • ((s.valE b).getD 0 + ((s.valE b.mirror).getD 0).transpose)

/-- Two states store the same parameters, atoms and notation. -/
structure SameHam (s t : St K) : Prop where
  atoms : t.atoms = s.atoms
  notation' : t.getNotation = s.getNotation
  valE : ∀ b, t.valE b = s.valE b
  valO : ∀ a, t.valO a = s.valO a

/-- The second state stores the parameters, atoms and notation of the first one; bonds that are counted once are
stored in the canonical orientation, turned around with the transposed matrix if needed. -/
structure TurnedHam (s t : St K) : Prop where
  atoms : t.atoms = s.atoms
  notation' : t.getNotation = s.getNotation
  twice : s.dc = some true → ∀ b, t.valE b = s.valE b
  canonical : s.dc = some false → ∀ b ∈ t.exch.keys, Canonical b
  once : s.dc = some false → ∀ b, Canonical b → (b ∈ s.exch.keys → t.valE b = s.valE b) ∧
    (b.mirror ∈ s.exch.keys → t.valE b = (s.valE b.mirror).map Matrix.transpose) ∧
    (b ∉ s.exch.keys → b.mirror ∉ s.exch.keys → t.valE b = none)
  valO : ∀ a, t.valO a = s.valO a

end Magnopy
