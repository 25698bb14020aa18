import Verif.Model.Vampire
import Verif.Model.HistoryText
import Verif.Model.Logo

/-!
# The text of the files for Vampire  (src/magnopy/io/txt/vampire.py)

Formatting of floats (without the width) is a function of the library, `Magnopy.History.NumFmt`.
-/

set_option autoImplicit false

namespace Magnopy.Vampire

open Txt
open History (NumFmt joinLines)

variable {K : Type} [Field K]

/-- `f"{n}"` of a non-negative integer. -/
def natStr (n : ℕ) : Str := Nat.toDigits 10 n

/-- `f"{i}"` of an integer. -/
def intStr (i : ℤ) : Str := if i < 0 then '-' :: natStr i.natAbs else natStr i.natAbs

/-- What the crystal gives to the file: `a`, `b`, `c`; `a1`, `a2`, `a3` as rows; `atom.position`. -/
structure Geometry (K : Type) where
  /-- lengths of the lattice vectors -/
  size : V3 K
  /-- lattice vectors -/
  vectors : M3 K
  /-- `atom.position` -/
  position : Atom → V3 K

/-- The line of an atom, vampire.py 223-225. -/
def atomText (F : NumFmt K) (geo : Geometry K) (l : ℕ × Atom × ℤ) : Str :=
  join [padR 5 (natStr l.1), padL 15 (F.fixed 8 (geo.position l.2.1 0)), padL 15 (F.fixed 8 (geo.position l.2.1 1)),
    padL 15 (F.fixed 8 (geo.position l.2.1 2)), padL 5 (intStr l.2.2)]

/-- The line of an interaction, vampire.py 242-248. -/
def lineText (F : NumFmt K) (decimals : ℕ) (l : Line K) : Str :=
  let num := fun x : K => padL (7 + decimals) (F.sci decimals x)
  join [padR 5 (natStr l.iid), padL 3 (natStr l.i), padL 3 (natStr l.j)] ++ Str.lit "  " ++
    join [padL 2 (intStr l.cell.1), padL 2 (intStr l.cell.2.1), padL 2 (intStr l.cell.2.2)] ++ Str.lit "  " ++
    join [num (l.matrix 0 0), num (l.matrix 0 1), num (l.matrix 0 2), num (l.matrix 1 0), num (l.matrix 1 1),
      num (l.matrix 1 2), num (l.matrix 2 0), num (l.matrix 2 1), num (l.matrix 2 2)]

/-- The lines below the logo, vampire.py 210-250. -/
def ucfLines (F : NumFmt K) (geo : Geometry K) (decimals : ℕ) (u : Ucf K) : List Str :=
  let row := fun i : Fin 3 => join [padL 15 (F.fixed 8 (geo.vectors i 0)), padL 15 (F.fixed 8 (geo.vectors i 1)),
    padL 15 (F.fixed 8 (geo.vectors i 2))]
  [Str.lit "# Unit cell size:",
    join [F.fixed 8 (geo.size 0), F.fixed 8 (geo.size 1), F.fixed 8 (geo.size 2)],
    Str.lit "# Unit cell lattice vectors:", row 0, row 1, row 2,
    Str.lit "# Atoms", join [natStr u.atoms.length, natStr u.nMaterials]] ++
  u.atoms.map (atomText F geo) ++
  [Str.lit "# Interactions", join [natStr u.count, Str.lit "tensorial"]] ++
  u.lines.map (lineText F decimals)

/-- `logo(comment=True, date_time=True)` unless `nologo`, vampire.py 206-209. -/
def logoLines (env : Logo.Env) (nologo : Bool) : Except PyErr (List Str) :=
  if nologo then .ok []
  else match Logo.logo env none none false true (.bool true) with
    | .error e => .error e
    | .ok t => .ok [t]

/-- The text of `dump_ucf`, vampire.py 162-260: the text or the exception, and the Hamiltonian afterwards. -/
def ucfText [DecidableEq K] (F : NumFmt K) (env : Logo.Env) (geo : Geometry K) (order : List Atom → List Atom) (energy : K)
    (mask : Mask K) (decimals : ℕ) (materials : Option (List ℤ)) (nologo : Bool) (s : St K) : Except PyErr Str × St K :=
  match dumpUcf order energy mask materials s with
  | (.error e, t) => (.error e, t)
  | (.ok u, t) =>
    match logoLines env nologo with
    | .error e => (.error e, t)
    | .ok l => (.ok (joinLines (l ++ ucfLines F geo decimals u)), t)

end Magnopy.Vampire
