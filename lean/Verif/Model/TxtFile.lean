import Verif.Model.TxtRead
import Verif.Model.DispersionScript

/-!
# Model files on the disk  (src/magnopy/io/txt/internal.py 1027-1160)

A file is its text.  Reading in text mode turns "\r\n" and "\r" into "\n" (universal newlines); the text is decoded already.
Directories are a predicate on paths, with the empty path for the current directory; a file can be written if its directory
exists and the path is not a directory itself.
-/

set_option autoImplicit false

namespace Magnopy.Txt

/-- Universal newlines of `open(filename, "r")`. -/
def newlines : Str → Str
  | [] => []
  | c :: s =>
    if c = '\r' then
      match s with
      | '\n' :: t => '\n' :: newlines t
      | s => '\n' :: newlines s
    else c :: newlines s

/-- `f.readlines()`: every line with its newline. -/
def readlines : Str → List Str
  | [] => []
  | c :: s =>
    if c = '\n' then [c] :: readlines s
    else
      match readlines s with
      | [] => [[c]]
      | l :: ls => (c :: l) :: ls

/-- `"\n".join(lines)`. -/
def joinLines : List Str → Str
  | [] => []
  | [l] => l
  | l :: ls => l ++ '\n' :: joinLines ls

/-- The disk. -/
structure Disk where
  files : PyDict Str Str
  dir : Str → Bool

/-- What goes wrong with a file: it can not be opened (`OSError`), the arguments (`ValueError`), or its content. -/
inductive FileErr where
  | os
  | args
  | load (e : LoadErr)
  deriving DecidableEq

/-- `open(name, "r").readlines()`. -/
def Disk.read (d : Disk) (name : Str) : Except FileErr (List Str) :=
  match d.files.get? name with
  | none => .error .os
  | some t => .ok (readlines (newlines t))

/-- `open(name, "w").write(text)`. -/
def Disk.write (d : Disk) (name text : Str) : Except FileErr Disk :=
  if d.dir (Path.split name).1 && !d.dir name then .ok { d with files := d.files.set name text } else .error .os

/-- `f"filtered_{filename}"`. -/
def copyName (filename : Option Str) : Str := Str.lit "filtered_" ++ filename.getD (Str.lit "None")

/-- `_filter_txt_file`, internal.py 1027-1097: the result and the disk afterwards. -/
def filterFile (filename : Option Str) (lines : Option (List Str)) (save : Bool) (d : Disk) :
    Except FileErr (List (Str × ℕ)) × Disk :=
  if filename.isNone && lines.isNone then (.error .args, d)
  else if filename.isSome && lines.isSome then (.error .args, d)
  else
    let content : Except FileErr (List Str) :=
      match lines with
      | some ls => .ok ls
      | none => d.read (filename.getD [])
    match content with
    | .error e => (.error e, d)
    | .ok ls =>
      if save then
        match d.write (copyName filename) (joinLines ((filter ls).map Prod.fst)) with
        | .error e => (.error e, d)
        | .ok d' => (.ok (filter ls), d')
      else (.ok (filter ls), d)

/-- `load_spinham_txt`, internal.py 1100-1160: the file is read once more than needed. -/
def loadFile {K : Type} [Field K] [LinearOrder K] (L : Lib K) (filename : Str) (save : Bool) (d : Disk) :
    Except FileErr (Loaded K) × Disk :=
  match d.read filename with
  | .error e => (.error e, d)
  | .ok _ =>
    match filterFile (some filename) none save d with
    | (.error e, d') => (.error e, d')
    | (.ok r, d') =>
      let lines := r.map Prod.fst
      (match verify L lines with
      | .error e => .error (.load (.py e))
      | .ok (true, _) => .error (.load .rejected)
      | .ok (false, found) => (readAll L lines found).mapError fun e => .load (.py e), d')

end Magnopy.Txt
