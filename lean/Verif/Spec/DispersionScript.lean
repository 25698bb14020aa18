import Verif.Model.DispersionScript

/-!
# Specification: what the script magnopy-magnon-dispersion should write
-/

set_option autoImplicit false

namespace Magnopy
namespace DispScript

open MagnonObj (Entry)

/-- Three numbers of a row. -/
def triple (v : V3 ℝ) : List Entry := [some ((v 0 : ℝ) : ℂ), some ((v 1 : ℝ) : ℂ), some ((v 2 : ℝ) : ℂ)]

/-- One row of the table: the coordinate along the path, the energies, relative and absolute coordinates. -/
def row (x : ℝ) (energies : List Entry) (rel k : V3 ℝ) : List Entry := some (x : ℂ) :: energies ++ triple rel ++ triple k

/-- The words of an additional point. -/
structure Words where
  /-- name -/
  name : Str
  /-- label -/
  label : Str
  /-- coordinates -/
  x : Str
  /-- coordinates -/
  y : Str
  /-- coordinates -/
  z : Str

/-- The words on the command line. -/
def Words.list (w : Words) : List Str := [w.name, w.label, w.x, w.y, w.z]

/-- The points one after the other. -/
def addAll {H Kp : Type} (env : Env H Kp) : List Words → Kp → Except PyErr Kp
  | [], kp => .ok kp
  | w :: ws, kp => do
    let some x := env.float w.x | throw .valueError
    let some y := env.float w.y | throw .valueError
    let some z := env.float w.z | throw .valueError
    let kp' ← env.addPoint kp w.name ![x, y, z] w.label
    addAll env ws kp'

/-- Names of the files that the options ask for, behind the common part. -/
def suffixes (args : Args) : List Str :=
  (if args.saveTxt then if args.join then [Str.lit ".txt"] else [Str.lit "_info.txt", Str.lit "_data.txt"] else []) ++
    if args.interactive then [] else [Str.lit ".png"]

/-- The file with the table. -/
def tableSuffix (args : Args) : Str := if args.join then Str.lit ".txt" else Str.lit "_data.txt"

end DispScript
end Magnopy
