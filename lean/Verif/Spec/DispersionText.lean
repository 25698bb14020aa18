import Verif.Model.DispersionText
import Verif.Spec.DispersionScript
import Verif.Spec.MinimizeText

/-!
# Specification: reading the files of `magnopy-magnon-dispersion`
-/

set_option autoImplicit false

namespace Magnopy.DispScript

open Minimize (Near8 comps)

/-- A text as rows of numbers: every line which is not blank is a row. -/
def readRows (float : Str → Option ℝ) (text : Str) : Option (List (List ℝ)) :=
  (((Logo.linesOf text).map Str.split).filter fun ws => ws ≠ []).mapM fun ws => ws.mapM float

/-- Right to nine significant digits. -/
def NearE (y x : ℝ) : Prop := |y - x| * (2 * 10 ^ 8) ≤ |x|

/-- The numbers of a line are the coordinate along the path, the energies, and the relative and absolute coordinates of a
point; coordinates are right to eight digits after the point, energies to nine significant digits. -/
def RowRead (ys : List ℝ) (x : ℝ) (energies : List ℝ) (rel k : V3 ℝ) : Prop :=
  ∃ y es r a, ys = y :: es ++ r ++ a ∧ Near8 y x ∧ List.Forall₂ NearE es energies ∧
    List.Forall₂ Near8 r (comps rel) ∧ List.Forall₂ Near8 a (comps k)

/-- The texts have no line `x`; the name of the lattice and the path are on one line each. -/
structure Parts.Without (P : Parts) (x : Str) : Prop where
  /-- logo -/
  logo : x ∉ Logo.linesOf P.logo
  /-- cell -/
  cell : x ∉ Logo.linesOf P.cell
  /-- lattice -/
  variation : '\n' ∉ P.variation
  /-- path -/
  path : '\n' ∉ P.path
  /-- points -/
  points : x ∉ Logo.linesOf P.points
  /-- ticks -/
  ticks : x ∉ Logo.linesOf P.ticks

end Magnopy.DispScript
