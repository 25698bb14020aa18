import Verif.Model.VampireText
import Verif.Spec.HistoryText
import Verif.Spec.Vampire

/-!
# Specification: reading the files for Vampire
-/

set_option autoImplicit false

namespace Magnopy.Vampire

open Txt

variable {K : Type} [Field K]

/-- A non-negative integer is read. -/
def readNat (w : Str) : Option ℕ := if w ≠ [] ∧ w.all Char.isDigit then some (Nat.ofDigitChars 10 w 0) else none

/-- An integer is read. -/
def readInt (w : Str) : Option ℤ :=
  match w with
  | '-' :: t => (readNat t).map fun n : ℕ => -(n : ℤ)
  | t => (readNat t).map fun n : ℕ => (n : ℤ)

/-- The words of the lines which are neither blank nor comments. -/
def dataWords (text : Str) : List (List Str) :=
  (((Logo.linesOf text).filter fun l => l.head? ≠ some '#').map Str.split).filter fun ws => ws ≠ []

/-- A vector is read. -/
def readVec (float : Str → Option K) : List Str → Option (V3 K)
  | [a, b, c] => do
    let x ← float a
    let y ← float b
    let z ← float c
    return ![x, y, z]
  | _ => none

/-- The line of an atom is read: number, position, material. -/
def readAtom (float : Str → Option K) : List Str → Option (ℕ × V3 K × ℤ)
  | [n, x, y, z, m] => do
    let k ← readNat n
    let p ← readVec float [x, y, z]
    let i ← readInt m
    return (k, p, i)
  | _ => none

/-- The line of an interaction is read: number, atoms, cell, matrix by rows. -/
def readBond (float : Str → Option K) : List Str → Option (Line K)
  | [n, i, j, c1, c2, c3, xx, xy, xz, yx, yy, yz, zx, zy, zz] => do
    let n ← readNat n
    let i ← readNat i
    let j ← readNat j
    let c1 ← readInt c1
    let c2 ← readInt c2
    let c3 ← readInt c3
    let x ← readVec float [xx, xy, xz]
    let y ← readVec float [yx, yy, yz]
    let z ← readVec float [zx, zy, zz]
    return ⟨n, i, j, (c1, c2, c3), Matrix.of ![x, y, z]⟩
  | _ => none

/-- What is in an .UCF file. -/
structure UcfFile (K : Type) where
  /-- size of the unit cell -/
  size : V3 K
  /-- lattice vectors -/
  vectors : M3 K
  /-- number of materials -/
  nMaterials : ℕ
  /-- the atoms -/
  atoms : List (ℕ × V3 K × ℤ)
  /-- the interactions -/
  bonds : List (Line K)

/-- An .UCF file is read: size, three vectors, number of atoms and materials, the atoms, number and kind of the interactions,
the interactions.  There have to be as many atoms and interactions as announced. -/
def readUcf (float : Str → Option K) (text : Str) : Option (UcfFile K) :=
  match dataWords text with
  | s :: v1 :: v2 :: v3 :: [n, m] :: rest => do
    let size ← readVec float s
    let x ← readVec float v1
    let y ← readVec float v2
    let z ← readVec float v3
    let n ← readNat n
    let m ← readNat m
    match rest.drop n with
    | [c, kind] :: bonds => do
      let c ← readNat c
      let as ← (rest.take n).mapM (readAtom float)
      let bs ← bonds.mapM (readBond float)
      if as.length = n ∧ bs.length = c ∧ kind = Str.lit "tensorial" then return ⟨size, Matrix.of ![x, y, z], m, as, bs⟩
      else none
    | _ => none
  | _ => none

/-- `y` is `x` up to half a unit of the eighth digit after the point. -/
def Near [LinearOrder K] (y x : K) : Prop := |y - x| * (2 * 10 ^ 8) ≤ 1

/-- `y` is `x` up to half of `10 ^ (-d)` of its size. -/
def NearSig [LinearOrder K] (d : ℕ) (y x : K) : Prop := |y - x| * (2 * 10 ^ d) ≤ |x|

/-- `Σ eᵢᵀ J eⱼ` over the pairs of a line, if the atoms of the file are the given ones. -/
def bondSum {Γ : Type} [AddCommGroup Γ] [Fintype Γ] (atoms : List Atom) (c : Config K Γ) (l : Line K) : K :=
  match atoms[l.i]?, atoms[l.j]? with
  | some a, some b => c.bond (a, b, l.cell) l.matrix
  | _, _ => 0

/-- The energy of a configuration as Vampire computes it from the file. -/
def UcfFile.energy {Γ : Type} [AddCommGroup Γ] [Fintype Γ] (f : UcfFile K) (atoms : List Atom) (c : Config K Γ) : K :=
  -(1 / 2) * (f.bonds.map (bondSum atoms c)).sum

/-- The absolute values of the spins. -/
def absConfig [LinearOrder K] {Γ : Type} [AddCommGroup Γ] (c : Config K Γ) : Config K Γ := ⟨c.τ, fun a n i => |c.σ a n i|⟩

end Magnopy.Vampire
