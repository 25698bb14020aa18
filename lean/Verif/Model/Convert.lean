import Verif.Model.Tb2j
import Verif.Model.TxtDump

/-!
# Converting a TB2J file  (src/magnopy/score/convert_tb2j.py)

The files on the disk are two maps: text files and HDF5 files.  Command lines: `Model/Cli`.
-/

set_option autoImplicit false

namespace Magnopy
namespace Convert

open H5 (Full)

/-- What is written, and the name of the file. -/
inductive Target where
  | text (name : Str)
  | hdf5 (name : Str)
  deriving DecidableEq, Repr

/-- The format, convert_tb2j.py 30-34. -/
def formatOf (out : Str) (format : Option Str) : Str :=
  match format with
  | some f => f
  | none => if out.endsWith (Str.lit ".hdf5") then Str.lit "hdf5" else Str.lit "txt"

/-- `if name.endswith(end): name = name[:-len(end)]`, convert_tb2j.py 39-42. -/
def strip (e name : Str) : Str := if name.endsWith e then name.take (name.length - e.length) else name

/-- The name of the file and the writer, convert_tb2j.py 30-47. -/
def target (out : Str) (format : Option Str) : Except PyErr Target :=
  if (formatOf out format).lower = Str.lit "txt" then .ok (.text out)
  else if (formatOf out format).lower = Str.lit "hdf5" then
    .ok (.hdf5 (strip (Str.lit ".hdf5") (strip (Str.lit ".txt") out) ++ Str.lit ".hdf5"))
  else .error .runtimeError

/-- The files; a missing HDF5 file is an empty one. -/
structure Disk (K : Type) where
  /-- text files -/
  text : Str → Option (List Str)
  /-- HDF5 files -/
  hdf5 : Str → H5.File K

variable {K : Type} [Field K] [DecidableEq K]

/-- Writing, convert_tb2j.py 36-47: text with default options, or the group "spinham" without permission to overwrite. -/
def write (F : Txt.Fmt K) (x : Full K) (t : Target) (d : Disk K) : Res (Disk K) :=
  match t with
  | .text n =>
    match Txt.dumpText F {} x with
    | .error e => .raise d e
    | .ok ls => .ok { d with text := fun m => if m = n then some ls else d.text m }
  | .hdf5 n =>
    let r := H5.dump x (Str.lit "spinham") false (d.hdf5 n)
    ⟨{ d with hdf5 := fun m => if m = n then r.st else d.hdf5 m }, r.err⟩

/-- `manager`, convert_tb2j.py 27-47; `ls` are the lines of the input file. -/
def manager (L : Txt.Lib K) (F : Txt.Fmt K) (ls : List Str) (out : Str) (format : Option Str) (d : Disk K) : Res (Disk K) :=
  match Tb2j.load L ls with
  | .error e => .raise d e
  | .ok x =>
    match target out format with
    | .error e => .raise d e
    | .ok t => write F x t d

end Convert
end Magnopy
