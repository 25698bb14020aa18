import Verif.Model.HistoryText
import Verif.Spec.TxtDump
import Verif.Spec.Logo
import Verif.Spec.Optimize

/-!
# Specification: a history is a table
-/

set_option autoImplicit false

namespace Magnopy.History

open Optimize Txt

/-- What is needed of formatting and parsing of floats: numbers are words, and they are read as the rounded value; a
fixed-point number is off by at most half a unit of its last digit, a number with exponent and `d` digits by at most half of
`10 ^ (-d)` of its size. -/
structure Reads {K : Type} [Field K] [LinearOrder K] (F : NumFmt K) (float : Str → Option K) : Prop where
  fixed : ∀ d x, Plain (F.fixed d x) ∧ ∃ y, float (F.fixed d x) = some y ∧ |y - x| * (2 * 10 ^ d) ≤ 1
  sci : ∀ d x, Plain (F.sci d x) ∧ ∃ y, float (F.sci d x) = some y ∧ |y - x| * (2 * 10 ^ d) ≤ |x|

/-- A text as a table: the first line gives the titles, every other line which is not blank gives numbers, one for each
title. -/
def readTable {K : Type} (float : Str → Option K) (text : Str) : Option (List Str × List (List K)) :=
  match Logo.linesOf text with
  | [] => none
  | h :: ls =>
    match ((ls.map Str.split).filter fun ws => ws ≠ []).mapM fun ws => ws.mapM float with
    | none => none
    | some rows => if ∀ r ∈ rows, r.length = h.split.length then some (h.split, rows) else none

/-- The lines of a text which are not blank. -/
def textLines (text : Str) : List Str := (Logo.linesOf text).filter fun l => l.any fun c => !Str.isSpace c

/-- The number of a row under the given title. -/
def column {K : Type} (titles : List Str) (row : List K) (title : Str) : Option K := row[titles.idxOf title]?

/-- The title of the component `c` of spin `i` (counted from one in the title). -/
def spinTitle (i : ℕ) (c : Fin 3) : Str := 'S' :: Nat.toDigits 10 (i + 1) ++ ['_', ![ 'x', 'y', 'z'] c]

/-- The titles of the components of all spins. -/
def spinTitles (n : ℕ) : List Str := (List.range n).flatMap fun i => [spinTitle i 0, spinTitle i 1, spinTitle i 2]

/-- The titles of a vector. -/
def vectorTitle (name : Char) (c : Fin 3) : Str := [name, '_', ![ 'x', 'y', 'z'] c]

/-- The titles of the ferro case. -/
def ferroTitles (n : ℕ) : List Str := [Str.lit "Energy", Str.lit "Torque"] ++ spinTitles n

/-- The titles of the antiferro and spiral cases. -/
def coneTitles (n : ℕ) : List Str :=
  [Str.lit "Energy", Str.lit "Torque", Str.lit "Torque_n"] ++ spinTitles n ++
    [vectorTitle 'n' 0, vectorTitle 'n' 1, vectorTitle 'n' 2, vectorTitle 'q' 0, vectorTitle 'q' 1, vectorTitle 'q' 2]

/-- The value is there and right to eight digits after the point. -/
def Shown (v : Option ℝ) (x : ℝ) : Prop := ∃ y, v = some y ∧ |y - x| * (2 * 10 ^ 8) ≤ 1

/-- The value is there and right to nine significant digits. -/
def ShownE (v : Option ℝ) (x : ℝ) : Prop := ∃ y, v = some y ∧ |y - x| * (2 * 10 ^ 8) ≤ |x|

/-- The largest length of the vectors is `t`. -/
def IsMaxNorm (ts : List (V3 ℝ)) (t : ℝ) : Prop := (∃ v ∈ ts, EnergyObj.norm3 v = t) ∧ ∀ v ∈ ts, EnergyObj.norm3 v ≤ t

end Magnopy.History
