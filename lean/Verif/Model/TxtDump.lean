import Verif.Model.Hdf5

/-!
# Writing a model file  (src/magnopy/io/txt/internal.py 44-314)

The result is the list of the lines of the file: an element of `text` with line breaks inside (the logo, a bond) is
several lines.  Number formatting and the logo are functions of the library.  Printing to the terminal and the file
itself are not modelled.
-/

set_option autoImplicit false

namespace Magnopy
namespace Txt

open H5 (Full)

/-- Formatting of numbers without the width, and the logo. -/
structure Fmt (K : Type) where
  /-- `f"{x:.{digits}f}"` -/
  fixed : ℕ → K → Str
  /-- `f"{x}"` of a float -/
  repr : K → Str
  /-- `f"{i}"` of an integer -/
  int : ℤ → Str
  /-- the lines of `logo(comment=True)` -/
  logo : List Str

/-- `write_matrix`, `write_iso`, `write_dmi`, `write_symm`, `write_distance`, `write_spin_angles`. -/
structure Opts where
  /-- `write_matrix` -/
  matrix : Bool := true
  /-- `write_iso` -/
  iso : Bool := false
  /-- `write_dmi` -/
  dmi : Bool := false
  /-- `write_symm` -/
  symm : Bool := false
  /-- `write_distance` -/
  distance : Bool := false
  /-- `write_spin_angles` -/
  angles : Bool := false

/-- `f"{w:>n}"` (the default for numbers). -/
def padL (n : ℕ) (w : Str) : Str := List.replicate (n - w.length) ' ' ++ w

/-- `f"{w:<n}"` (the default for strings). -/
def padR (n : ℕ) (w : Str) : Str := w ++ List.replicate (n - w.length) ' '

/-- `" ".join(ws)`. -/
def join : List Str → Str
  | [] => []
  | [w] => w
  | w :: ws => w ++ ' ' :: join ws

/-- `SEPARATOR`, internal.py 44. -/
def separator : Str := List.replicate 80 '='

/-- `SUBSEPARATOR`, internal.py 45. -/
def subSeparator : Str := List.replicate 80 '-'

variable {K : Type}

/-- `f"{x:12.8f}"`. -/
def wide (F : Fmt K) (x : K) : Str := padL 12 (F.fixed 8 x)

/-- `f"{x:8.4f}"`. -/
def narrow (F : Fmt K) (x : K) : Str := padL 8 (F.fixed 4 x)

/-- `f"{b}"` of a bool. -/
def boolName (b : Bool) : Str := if b then Str.lit "True" else Str.lit "False"

/-- The cell, internal.py 174-190. -/
def cellText (F : Fmt K) (cell : M3 K) : List Str :=
  [Str.lit "Cell Angstrom", Str.lit "#          x            y            z",
    join ([wide F (cell 0 0), wide F (cell 0 1), wide F (cell 0 2)] ++ [Str.lit "# <- a (first lattice vector)"]),
    join ([wide F (cell 1 0), wide F (cell 1 1), wide F (cell 1 2)] ++ [Str.lit "# <- b (second lattice vector)"]),
    join ([wide F (cell 2 0), wide F (cell 2 1), wide F (cell 2 2)] ++ [Str.lit "# <- c (third lattice vector)"])]

/-- The header of the table of atoms, internal.py 194-198. -/
def atomsTitle (o : Opts) : Str :=
  if o.angles then Str.lit "name         r1           r2           r3     St     Sp      S"
  else Str.lit "name         r1           r2           r3       Sx       Sy       Sz"

/-- The spin of an atom, internal.py 210-235.  `vector_to_angles` raises `AttributeError` (`np.linalg.notm`,
geometry.py 43), which is not caught. -/
def spinText (F : Fmt K) (o : Opts) (s : Option (V3 K)) : Except PyErr Str :=
  match s with
  | none => .ok (join [padL 8 ['-'], padL 8 ['-'], padL 8 ['-']])
  | some v =>
    if o.angles then .error .attributeError else .ok (join [narrow F (v 0), narrow F (v 1), narrow F (v 2)])

/-- The loop over the atoms, internal.py 199-235. -/
def atomsText (F : Fmt K) (o : Opts) (x : Full K) : List Atom → Except PyErr (List Str)
  | [] => .ok []
  | a :: as =>
    match spinText F o (x.spinVec a) with
    | .error e => .error e
    | .ok t =>
      match atomsText F o x as with
      | .error e => .error e
      | .ok ts =>
        .ok ((join [padR 4 a.name.toList, wide F (x.pos a 0), wide F (x.pos a 1), wide F (x.pos a 2)] ++ ' ' :: t) :: ts)

/-- `if len(spinham.exchange) > 0`, internal.py 242-244. -/
def notationExchange (F : Fmt K) (s : St K) : Except PyErr (List Str) :=
  if s.exch = [] then .ok []
  else
    match s.dc, s.ef with
    | some d, some e => .ok [Str.lit "Double-counting " ++ boolName d, Str.lit "Exchange-factor " ++ F.repr e]
    | _, _ => .error .notationError

/-- `if len(spinham.on_site) > 0`, internal.py 245-246. -/
def notationSite (F : Fmt K) (s : St K) : Except PyErr (List Str) :=
  if s.onSite = [] then .ok []
  else
    match s.osf with
    | some e => .ok [Str.lit "On-site-factor " ++ F.repr e]
    | none => .error .notationError

/-- Notation, internal.py 239-247. -/
def notationText (F : Fmt K) (s : St K) : Except PyErr (List Str) :=
  if s.exch = [] ∧ s.onSite = [] then .ok []
  else
    match s.sn with
    | none => .error .notationError
    | some b =>
      match notationExchange F s with
      | .error e => .error e
      | .ok ls =>
        match notationSite F s with
        | .error e => .error e
        | .ok ks => .ok ([Str.lit "Notation", Str.lit "Spin-normalized " ++ boolName b] ++ ls ++ ks ++ [separator])

section
variable [Field K]

/-- `_write_exchange`, internal.py 48-121. -/
def bondText (F : Fmt K) (o : Opts) (b : Bond) (dist : K) (m : M3 K) : List Str :=
  [join ([padR 6 b.1.name.toList, padR 6 b.2.1.name.toList, padL 3 (F.int b.2.2.1), padL 3 (F.int b.2.2.2.1),
      padL 3 (F.int b.2.2.2.2)] ++ if o.distance then [Str.lit "# " ++ padR 8 (F.fixed 4 dist)] else [])] ++
  (if o.iso then [join [Str.lit "Isotropic", narrow F (Param.iso m)]] else []) ++
  (if o.dmi then [join [Str.lit "DMI", narrow F (Param.dmi m 0), narrow F (Param.dmi m 1), narrow F (Param.dmi m 2)]]
    else []) ++
  (if o.symm then
    [Str.lit "#                         Axx      Ayy      Axy      Axz      Ayz",
      join [Str.lit "Symmetric-anisotropy", narrow F (Param.aniso m 0 0), narrow F (Param.aniso m 1 1),
        narrow F (Param.aniso m 0 1), narrow F (Param.aniso m 0 2), narrow F (Param.aniso m 1 2)]]
    else []) ++
  (if o.matrix then
    [Str.lit "Matrix", join [narrow F (m 0 0), narrow F (m 0 1), narrow F (m 0 2)],
      join [narrow F (m 1 0), narrow F (m 1 1), narrow F (m 1 2)],
      join [narrow F (m 2 0), narrow F (m 2 1), narrow F (m 2 2)]]
    else [])

/-- The loop over the bonds, internal.py 256-276. -/
def bondsText (F : Fmt K) (o : Opts) (s : St K) : List (Bond × ℕ) → List Str
  | [] => []
  | p :: ps =>
    (if p.1.1 = p.1.2.1 ∧ p.1.2.2 = (0, 0, 0) then [] else bondText F o p.1 (s.dist p.1) (s.cell p.2) ++ [subSeparator]) ++
      bondsText F o s ps

/-- Exchange, internal.py 250-277. -/
def exchangeText (F : Fmt K) (o : Opts) (s : St K) : List Str :=
  if s.exch = [] then []
  else
    [Str.lit "Exchange milli-electron-Volt",
      Str.lit "# Atom1 Atom2   i   j   k" ++ (if o.distance then Str.lit " # distance" else []), subSeparator] ++
      bondsText F o s s.exch ++ [separator]

/-- One on-site parameter, internal.py 284-289. -/
def siteText (F : Fmt K) (a : Atom) (m : M3 K) : List Str :=
  [a.name.toList,
    join [narrow F (m 0 0), narrow F (m 1 1), narrow F (m 2 2), narrow F (m 0 1), narrow F (m 0 2), narrow F (m 1 2)],
    subSeparator]

/-- On-site, internal.py 280-290. -/
def onSiteText (F : Fmt K) (s : St K) : List Str :=
  if s.onSite = [] then []
  else
    [Str.lit "On-site milli-electron-Volt", subSeparator] ++ s.onSite.flatMap (fun p => siteText F p.1 (s.cell p.2)) ++
      [separator]

/-- A vector with its title, internal.py 293-306. -/
def vectorText (F : Fmt K) (title : Str) (v : Option (V3 K)) : List Str :=
  match v with
  | none => []
  | some v => [title, join [wide F (v 0), wide F (v 1), wide F (v 2)], separator]

/-- `dump_spinham_txt`, internal.py 124-314: the lines of the file. -/
def dumpText (F : Fmt K) (o : Opts) (x : Full K) : Except PyErr (List Str) :=
  match atomsText F o x x.ham.atoms with
  | .error e => .error e
  | .ok atoms =>
    match notationText F x.ham with
    | .error e => .error e
    | .ok notn =>
      .ok (F.logo ++ [separator] ++ cellText F x.cell ++ [separator, Str.lit "Atoms", atomsTitle o] ++ atoms ++ [separator] ++
        notn ++ exchangeText F o x.ham ++ onSiteText F x.ham ++ vectorText F (Str.lit "Cone-axis absolute") x.cone ++
        vectorText F (Str.lit "Spiral-vector relative") x.spiral)

end

end Txt
end Magnopy
