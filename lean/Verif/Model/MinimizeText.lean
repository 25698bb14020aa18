import Verif.Model.HistoryText

/-!
# The text of the results file of `magnopy-minimize-energy`, `score/minimize_energy.py` 32-215

Formatting of numbers without the width is a function of the library.  The logo is an argument (see `Model/Logo.lean`).
-/

set_option autoImplicit false

namespace Magnopy.Minimize

open History Txt

/-- The names of the history files, minimize_energy.py 36, 41, 72, 116, 122. -/
def fileName (seed : Str) : HistFile → Str
  | .ferro => seed ++ Str.lit "-ferro-history"
  | .antiferro i => seed ++ Str.lit "-antiferro-history-" ++ Nat.toDigits 10 i
  | .spiral => seed ++ Str.lit "-spiral-history"

/-- `f"{v[0]:.8f} {v[1]:.8f} {v[2]:.8f}"`. -/
def vectorText (F : NumFmt ℝ) (v : V3 ℝ) : Str :=
  F.fixed 8 (v 0) ++ ' ' :: F.fixed 8 (v 1) ++ ' ' :: F.fixed 8 (v 2)

/-- `f"{v[0]:11.8f} {v[1]:11.8f} {v[2]:11.8f}"`. -/
def cells (F : NumFmt ℝ) (v : V3 ℝ) : Str := cell F (v 0) ++ ' ' :: cell F (v 1) ++ ' ' :: cell F (v 2)

/-- The titles of the table, minimize_energy.py 47-49, 92-94, 128-130. -/
def tableTitle : Str :=
  Str.lit "  " ++ padL 5 (Str.lit "name") ++ ' ' :: padL 11 (Str.lit "r1") ++ ' ' :: padL 11 (Str.lit "r2") ++
    ' ' :: padL 11 (Str.lit "r3") ++ ' ' :: padL 11 (Str.lit "sx") ++ ' ' :: padL 11 (Str.lit "sy") ++
    ' ' :: padL 11 (Str.lit "sz")

/-- The first line after a minimisation, minimize_energy.py 44, 89, 125. -/
def doneText (s : Str) : Option ℕ → Str
  | none =>
    if s = Str.lit "ferromagnetic" then Str.lit "Minimization for ferromagnetic case is done."
    else Str.lit "Minimization for the spiral case is done."
  | some i => Str.lit "Minimization for the antiferro case is done " ++ Nat.toDigits 10 i ++ Str.lit " out of 26."

/-- `f"{q:2.0f}"`, minimize_energy.py 78. -/
def shortCell (F : NumFmt ℝ) (q : ℤ) : Str := padL 2 (F.fixed 0 q)

/-- The text of the records.  The text of `history` has no line break at the end, minimize_energy.py 77-80. -/
def render (F : NumFmt ℝ) (seed : Str) : Rec → Str
  | .start s =>
    if s = Str.lit "antiferromagnetic" then
      Str.lit "Start to minimize assuming antiferromagnetic ground state type." ++ '\n' ::
        Str.lit "History of the minimization is written in the 26 files" ++ ['\n']
    else if s = Str.lit "ferromagnetic" then
      Str.lit "Start to minimize assuming ferromagnetic ground state type." ++ '\n' ::
        Str.lit "History of the minimization is written in the file" ++ '\n' :: fileName seed .ferro ++ ['\n']
    else
      Str.lit "Start to minimize assuming spiral ground state type." ++ '\n' ::
        Str.lit "History of the minimization is written in the file" ++ '\n' :: fileName seed .spiral ++ ['\n']
  | .history q file =>
    Str.lit "History for the q_rel = (" ++ shortCell F (q 0) ++ Str.lit ", " ++ shortCell F (q 1) ++ Str.lit ", " ++
      shortCell F (q 2) ++ Str.lit ") is written to the file " ++ fileName seed file
  | .done s i =>
    doneText s i ++ '\n' :: Str.lit "Spin orientations in the minimum configuration:" ++ '\n' :: tableTitle ++ ['\n']
  | .spin name pos e =>
    Str.lit "  " ++ padL 5 name.toList ++ ' ' :: cells F pos ++ ' ' :: cells F e ++ ['\n']
  | .cone n => Str.lit "Cone axis is: " ++ vectorText F n ++ ['\n']
  | .vector q => Str.lit "Spiral vector is: " ++ vectorText F q ++ ['\n']
  | .summary => Str.lit "All minimization routines are finished. Summary:" ++ ['\n']
  | .ferro x => Str.lit "Ferromagnetic energy : " ++ F.fixed 8 x ++ ['\n']
  | .antiferroTitle => Str.lit "Antiferromagnetic energies :" ++ ['\n']
  | .antiferro n x => Str.lit "  " ++ Nat.toDigits 10 n ++ ' ' :: F.fixed 8 x ++ ['\n']
  | .spiral x => Str.lit "Spiral energy : " ++ F.fixed 8 x ++ ['\n']

/-- The results file, minimize_energy.py 154-157 and what the functions add. -/
def resultsText (F : NumFmt ℝ) (seed logo : Str) (w : World) : Str :=
  logo ++ '\n' :: w.recs.flatMap (render F seed)

end Magnopy.Minimize
