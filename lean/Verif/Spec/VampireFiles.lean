import Verif.Model.VampireFiles
import Verif.Spec.VampireText

/-!
# Specification: reading the .mat file and the input file
-/

set_option autoImplicit false

namespace Magnopy.Vampire

open Txt
open History (NumFmt Reads)

variable {K : Type} [Field K]

/-- A line without its comment: everything from `#` or `!` on is a comment. -/
def uncomment (l : Str) : Str := l.takeWhile fun c => c ≠ '#' ∧ c ≠ '!'

/-- A line `key = value`. -/
def keyValue (l : Str) : Option (Str × Str) :=
  match l.dropWhile (· ≠ '=') with
  | [] => none
  | _ :: v => some (Str.strip (l.takeWhile (· ≠ '=')), Str.strip v)

/-- A file of lines `key = value` with comments and blank lines is read. -/
def readSettings (text : Str) : Option (List (Str × Str)) :=
  (((Logo.linesOf text).map uncomment).filter fun l => l.any fun c => !Str.isSpace c).mapM keyValue

/-- The value of a key. -/
def valueOf (keys : List (Str × Str)) (k : Str) : Option Str := (keys.find? fun p => p.1 = k).map Prod.snd

/-- The key of a property of a material: `material[m]:what`. -/
def materialKey (m : ℤ) (what : String) : Str := Str.lit "material[" ++ intStr m ++ Str.lit "]:" ++ Str.lit what

/-- Text that can be a value: no line break, no comment, no white space at the ends. -/
def Neat (x : Str) : Prop := '\n' ∉ x ∧ '#' ∉ x ∧ '!' ∉ x ∧ Str.strip x = x

/-- A word is read as three numbers between commas. -/
def readDirection (float : Str → Option K) (w : Str) : Option (V3 K) :=
  match w.dropWhile (· ≠ ',') with
  | [] => none
  | _ :: r =>
    match r.dropWhile (· ≠ ',') with
    | [] => none
    | _ :: z => readVec float [w.takeWhile (· ≠ ','), r.takeWhile (· ≠ ','), z]

/-- What is needed of `repr` and of the fixed-point format beyond `Reads`. -/
structure ReadsMat [LinearOrder K] (F : NumFmt K) (repr : K → Str) (float : Str → Option K) : Prop where
  reads : Reads F float
  repr : ∀ x, Plain (repr x) ∧ '!' ∉ repr x ∧ float (repr x) = some x
  fixed : ∀ d x, ',' ∉ F.fixed d x ∧ '!' ∉ F.fixed d x

/-- The material of the `n`-th magnetic atom. -/
def materialAt (materials : Option (List ℤ)) (n : ℕ) : ℤ :=
  match materials with
  | none => n
  | some m => (m[n]?).getD 0

/-- The `n`-th magnetic atom is the first one of its material. -/
def FirstAt (materials : Option (List ℤ)) (n : ℕ) : Prop := ∀ n' < n, materialAt materials n' ≠ materialAt materials n

/-- What the keys of material `m` say is what is known about an atom. -/
structure Describes [LinearOrder K] (float : Str → Option K) (info : AtomInfo K) (keys : List (Str × Str)) (m : ℤ) (a : Atom)
    (spin : K) : Prop where
  name : valueOf keys (materialKey m "material-name") = some a.name.toList
  element : valueOf keys (materialKey m "material-element") = some (info.type a)
  moment : (valueOf keys (materialKey m "atomic-spin-moment")).bind float = some spin
  random : info.direction a = none → valueOf keys (materialKey m "initial-spin-direction") = some (Str.lit "random")
  direction : ∀ v, info.direction a = some v →
    ∃ y, (valueOf keys (materialKey m "initial-spin-direction")).bind (readDirection float) = some y ∧ ∀ c, Near (y c) (v c)
  damping : valueOf keys (materialKey m "damping-constant") = some (Str.lit "0.1")
  anisotropy : valueOf keys (materialKey m "uniaxial-anisotropy-constant") = some (Str.lit "0.0")

/-- The properties that are given for a material. -/
def materialProperties : List String := ["material-name", "material-element", "atomic-spin-moment", "initial-spin-direction",
  "damping-constant", "uniaxial-anisotropy-constant"]

end Magnopy.Vampire
