import Verif.Model.VampireText

/-!
# The .mat file, the input file and `dump_vampire`  (src/magnopy/io/txt/vampire.py)

Formatting of floats is a function of the library (`Magnopy.History.NumFmt` and `repr`); files are a map from names to
contents, errors of the file system are not modelled.
-/

set_option autoImplicit false

namespace Magnopy.Vampire

open Txt
open History (NumFmt joinLines)

variable {K : Type} [Field K]

/-- What wulfric's atoms give to the .mat file besides name and spin. -/
structure AtomInfo (K : Type) where
  /-- `atom.type` -/
  type : Atom → Str
  /-- `atom._spin_direction`, `none` if not set -/
  direction : Atom → Option (V3 K)

/-- The line of comment between the blocks, vampire.py 136. -/
def rule : Str := Str.lit "#---------------------------------------------------"

/-- `material[{m_i}]:` -/
def matKey (m : ℤ) : Str := Str.lit "material[" ++ intStr m ++ Str.lit "]:"

/-- `initial-spin-direction`, vampire.py 143-148. -/
def directionText (F : NumFmt K) : Option (V3 K) → Str
  | some v => F.fixed 8 (v 0) ++ ',' :: F.fixed 8 (v 1) ++ ',' :: F.fixed 8 (v 2)
  | none => Str.lit "random"

/-- One block, vampire.py 136-150; `spin` is `atom.spin`. -/
def blockText (F : NumFmt K) (repr : K → Str) (info : AtomInfo K) (m : ℤ) (a : Atom) (spin : K) : List Str :=
  [rule, Str.lit "# Material " ++ intStr m ++ Str.lit " \n", rule,
    matKey m ++ Str.lit "material-name = " ++ a.name.toList,
    matKey m ++ Str.lit "material-element = " ++ info.type a,
    matKey m ++ Str.lit "atomic-spin-moment=" ++ repr spin ++ Str.lit " ! muB",
    matKey m ++ Str.lit "initial-spin-direction = " ++ directionText F (info.direction a),
    matKey m ++ Str.lit "damping-constant=0.1",
    matKey m ++ Str.lit "uniaxial-anisotropy-constant=0.0"]

/-- The number of the material of the atom `i` if the atom is the first one of its material, vampire.py 131-135. -/
def blockNumber (materials : Option (List ℤ)) (i : ℕ) : Except PyErr (Option ℤ) :=
  match materials with
  | none => .ok (some ((i : ℤ) + 1))
  | some m =>
    match m[i]? with
    | none => .error .indexError
    | some x => if x ∈ m.take i then .ok none else .ok (some (x + 1))

/-- The loop over the atoms, vampire.py 130-150. -/
def matLines (F : NumFmt K) (repr : K → Str) (info : AtomInfo K) (materials : Option (List ℤ)) (s : St K) :
    ℕ → List Atom → Except PyErr (List Str)
  | _, [] => .ok []
  | i, a :: as =>
    match blockNumber materials i with
    | .error e => .error e
    | .ok none => matLines F repr info materials s (i + 1) as
    | .ok (some k) =>
      match s.spinOf a with
      | .error e => .error e
      | .ok x =>
        match matLines F repr info materials s (i + 1) as with
        | .error e => .error e
        | .ok l => .ok (blockText F repr info k a x ++ l)

/-- `max(materials)+1` or the number of magnetic atoms, vampire.py 126-129. -/
def materialCount (materials : Option (List ℤ)) (n : ℕ) : Except PyErr ℤ :=
  match materials with
  | none => .ok n
  | some m =>
    match m.max? with
    | none => .error .valueError
    | some x => .ok (x + 1)

/-- The text of `dump_mat`, vampire.py 105-159. -/
def matText (F : NumFmt K) (repr : K → Str) (env : Logo.Env) (info : AtomInfo K) (order : List Atom → List Atom)
    (materials : Option (List ℤ)) (nologo : Bool) (s : St K) : Except PyErr Str :=
  match logoLines env nologo with
  | .error e => .error e
  | .ok l =>
    match materialCount materials (s.magneticAtoms order).length with
    | .error e => .error e
    | .ok n =>
      match matLines F repr info materials s 0 (s.magneticAtoms order) with
      | .error e => .error e
      | .ok b => .ok (joinLines (l ++ [Str.lit "material:num-materials = " ++ intStr n] ++ b ++ [rule]))

/-- The text of the input file, vampire.py 87-102. -/
def inputText (env : Logo.Env) (seed : Str) (nologo : Bool) : Except PyErr Str :=
  match logoLines env nologo with
  | .error e => .error e
  | .ok l => .ok (joinLines (l ++ [Str.lit "#------------------------------------------",
      Str.lit "material:file=" ++ seed ++ Str.lit ".mat",
      Str.lit "material:unit-cell-file = " ++ seed ++ Str.lit ".UCF",
      Str.lit "#------------------------------------------", Str.lit "# TODO: your simulation parameters"]))

/-- The files. -/
abbrev Files := Str → Option Str

/-- `open(name, "w")` and `write`. -/
def Files.write (w : Files) (name text : Str) : Files := fun n => if n = name then some text else w n

/-- `dump_vampire`, vampire.py 28-102: the exception, the Hamiltonian and the files afterwards.  The texts of the .UCF and the
.mat file are complete before the file is opened; the input file is empty while the logo is made. -/
def dumpVampire [DecidableEq K] (F : NumFmt K) (repr : K → Str) (env : Logo.Env) (geo : Geometry K) (info : AtomInfo K)
    (order : List Atom → List Atom) (energy : K) (mask : Mask K) (decimals : ℕ) (materials : Option (List ℤ)) (nologo : Bool)
    (seed : Str) (s : St K) (w : Files) : Option PyErr × St K × Files :=
  match ucfText F env geo order energy mask decimals materials nologo s with
  | (.error e, t) => (some e, t, w)
  | (.ok u, t) =>
    let w1 := w.write (seed ++ Str.lit ".UCF") u
    match matText F repr env info order materials nologo t with
    | .error e => (some e, t, w1)
    | .ok m =>
      let w2 := w1.write (seed ++ Str.lit ".mat") m
      match inputText env seed nologo with
      | .error e => (some e, t, w2.write (Str.lit "input") [])
      | .ok i => (none, t, w2.write (Str.lit "input") i)

end Magnopy.Vampire
