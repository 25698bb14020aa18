import Verif.Model.DispersionScript
import Verif.Model.HistoryText

/-!
# The text of the files of `magnopy-magnon-dispersion`, `score/magnon_dispersion.py` 117-199

Formatting of numbers without the width is a function of the library.  The texts made by wulfric, numpy and `logo` are fields of
`Parts`.  `np.savetxt` writes the header (if it is not empty, with `comments` in front of every line) and then one line for each
row.
-/

set_option autoImplicit false

namespace Magnopy.DispScript

open History (NumFmt)
open Txt (padL)
open MagnonObj (Entry)

/-- Texts from elsewhere. -/
structure Parts where
  /-- `logo(date_time=True, line_length=80)` -/
  logo : Str
  /-- `str(spinham.cell)` -/
  cell : Str
  /-- `spinham.variation` -/
  variation : Str
  /-- `kp.path_string` -/
  path : Str
  /-- `str(names_data)`, the coordinates of the high-symmetry points -/
  points : Str
  /-- `str(labels_data)`, the ticks -/
  ticks : Str

/-- `main_separator` without the line break, magnon_dispersion.py 118. -/
def separator : Str := List.replicate 80 '='

/-- Three titles of width ten, magnon_dispersion.py 156-157. -/
def threeTitles (l : List Str) : Str := Str.lit "   " ++ l.flatMap fun t => ' ' :: padL 10 t

/-- `"".join(header)` for the names of the columns, magnon_dispersion.py 153-158. -/
def titlesText (cols : List Str) : Str :=
  cols.headD [] ++ ((cols.tail.take (cols.length - 7)).flatMap fun t => ' ' :: padL 14 t) ++
    threeTitles ((cols.drop (cols.length - 6)).take 3) ++ threeTitles (cols.drop (cols.length - 3))

/-- `"".join(info)`, magnon_dispersion.py 119-158. -/
def infoText (P : Parts) (input : Str) (cols : List Str) : Str :=
  separator ++ '\n' :: P.logo ++ '\n' :: Str.lit "Magnon dispersion is computed based on the file:" ++ '\n' :: input ++
    '\n' :: separator ++ '\n' :: Str.lit "Cell:" ++ '\n' :: P.cell ++ '\n' :: Str.lit "Detected Bravais lattice: " ++ P.variation ++
    '\n' :: separator ++ '\n' :: separator ++ '\n' :: Str.lit "kpath" ++ '\n' :: Str.lit "  " ++ P.path ++
    '\n' :: Str.lit "kpoints" ++ '\n' :: P.points ++ Str.lit "klabels" ++ '\n' :: P.ticks ++ separator ++
    '\n' :: Str.lit "dispersion" ++ '\n' :: titlesText cols

/-- `"%..." % x` for an element of a real array. -/
def numText (f : ℝ → Str) : Entry → Str
  | none => Str.lit "nan"
  | some z => f z.re

/-- Three numbers, magnon_dispersion.py 193-196. -/
def threeText (F : NumFmt ℝ) (l : List Entry) : Str := Str.lit "   " ++ l.flatMap fun x => ' ' :: numText (F.fixed 8) x

/-- One line of `np.savetxt`, magnon_dispersion.py 191-196. -/
def rowText (F : NumFmt ℝ) (r : List Entry) : Str :=
  numText (F.fixed 8) (r.headD none) ++ ((r.tail.take (r.length - 7)).flatMap fun x => ' ' :: numText (F.sci 8) x) ++
    threeText F ((r.drop (r.length - 6)).take 3) ++ threeText F (r.drop (r.length - 3))

/-- The text of the files, magnon_dispersion.py 160-199.  The plot has none. -/
def fileText (F : NumFmt ℝ) (P : Parts) : File → Str
  | .info input cols data =>
    infoText P input cols ++ '\n' :: Str.lit "separate" ++ '\n' :: data.getD []
  | .table header rows =>
    (match header with
      | none => []
      | some (input, cols) => infoText P input cols ++ ['\n']) ++ rows.flatMap fun r => rowText F r ++ ['\n']
  | .figure _ _ => []

end Magnopy.DispScript
