import Verif.Model.MinimizeText
import Verif.Spec.HistoryText
import Verif.Spec.Minimize

/-!
# Specification: reading the results file of `magnopy-minimize-energy`
-/

set_option autoImplicit false

namespace Magnopy.Minimize

open History Txt

/-- What a line of the results file says. -/
inductive Entry where
  /-- name of an atom, position and direction -/
  | row (name : Str) (l : List ℝ)
  /-- cone axis -/
  | cone (l : List ℝ)
  /-- spiral vector -/
  | vector (l : List ℝ)
  /-- energy of the ferro state -/
  | ferro (x : ℝ)
  /-- number and energy of an antiferro state -/
  | antiferro (n : Str) (x : ℝ)
  /-- energy of the spiral state -/
  | spiral (x : ℝ)

/-- What a line with the given words says: a row of the table has a name and six numbers, and the other lines with numbers
begin with a text. -/
def parse (float : Str → Option ℝ) : List Str → Option Entry
  | [n, x] => (float x).map (.antiferro n)
  | [a, b, c, x] =>
    if [a, b, c] = [Str.lit "Ferromagnetic", Str.lit "energy", Str.lit ":"] then (float x).map .ferro
    else if [a, b, c] = [Str.lit "Spiral", Str.lit "energy", Str.lit ":"] then (float x).map .spiral
    else none
  | [a, b, c, x, y, z] =>
    if [a, b, c] = [Str.lit "Cone", Str.lit "axis", Str.lit "is:"] then ([x, y, z].mapM float).map .cone
    else if [a, b, c] = [Str.lit "Spiral", Str.lit "vector", Str.lit "is:"] then ([x, y, z].mapM float).map .vector
    else none
  | [n, a, b, c, x, y, z] => ([a, b, c, x, y, z].mapM float).map (.row n)
  | _ => none

/-- What a text says, line by line. -/
def entries (float : Str → Option ℝ) (text : Str) : List Entry :=
  (Logo.linesOf text).filterMap fun l => parse float l.split

/-- Right to eight digits after the point. -/
def Near8 (y x : ℝ) : Prop := |y - x| * (2 * 10 ^ 8) ≤ 1

/-- The same information, with the numbers right to eight digits after the point. -/
def Entry.Near : Entry → Entry → Prop
  | .row n l, .row n' l' => n = n' ∧ List.Forall₂ Near8 l l'
  | .cone l, .cone l' => List.Forall₂ Near8 l l'
  | .vector l, .vector l' => List.Forall₂ Near8 l l'
  | .ferro x, .ferro x' => Near8 x x'
  | .antiferro n x, .antiferro n' x' => n = n' ∧ Near8 x x'
  | .spiral x, .spiral x' => Near8 x x'
  | _, _ => False

/-- The three components. -/
def comps (v : V3 ℝ) : List ℝ := [v 0, v 1, v 2]

/-- The information in a record. -/
def Rec.entry : Rec → Option Entry
  | .spin name pos e => some (.row name.toList (comps pos ++ comps e))
  | .cone n => some (.cone (comps n))
  | .vector q => some (.vector (comps q))
  | .ferro x => some (.ferro x)
  | .antiferro n x => some (.antiferro (Nat.toDigits 10 n) x)
  | .spiral x => some (.spiral x)
  | _ => none

/-- One word. -/
def OneWord (w : Str) : Prop := w ≠ [] ∧ ∀ c ∈ w, Str.isSpace c = false

/-- The names of the magnetic atoms are words. -/
def Env.Named (env : Env) : Prop := ∀ a ∈ env.atoms, OneWord a.name.toList

/-- The lines which begin as the announcement of a history end with the name of a file. -/
def announced (text : Str) : List Str :=
  (Logo.linesOf text).filterMap fun l => if Str.lit "History for" <+: l then (Str.split l).getLast? else none

/-- Two words which are not numbers. -/
def NoNumbers (float : Str → Option ℝ) : Prop := float (Str.lit "r1") = none ∧ float (Str.lit "for") = none

/-- The table about one minimisation of the ferro or spiral case, with cone axis and spiral vector. -/
def Env.told (env : Env) (g : Str) (c : ℕ) : List Entry :=
  if g = Str.lit "ferro" then
    List.zipWith (fun a e => .row a.name.toList (comps (env.pos a) ++ comps e)) env.atoms (env.sol .ferro c).spins
  else
    List.zipWith (fun a e => .row a.name.toList (comps (env.pos a) ++ comps e)) env.atoms (env.sol .spiral c).spins ++
      [.cone (comps (env.sol .spiral c).cone), .vector (comps (env.sol .spiral c).q)]

/-- The energy of one minimisation of the ferro or spiral case. -/
noncomputable def Env.toldEnergy (env : Env) (g : Str) (c : ℕ) : Entry :=
  if g = Str.lit "ferro" then .ferro (env.en .ferro c) else .spiral (env.en .spiral c)

end Magnopy.Minimize
