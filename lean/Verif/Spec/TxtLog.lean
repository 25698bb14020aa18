import Verif.Model.TxtLog
import Verif.Model.TxtFilter
import Verif.Spec.Txt

/-!
# Specification: what the messages about a model file say
-/

set_option autoImplicit false

namespace Magnopy.Txt

variable {K : Type}

/-- `l` is what the line number `n` (counted from 1) of the file contains besides comments and white space. -/
def LineAt (file : List Str) (n : ℕ) (l : Str) : Prop := ∃ i a, n = i + 1 ∧ file[i]? = some a ∧ Content a l ∧ l ≠ []

/-- The words of a line in lower case. -/
def lowWords (l : Str) : List Str := l.split.map Str.lower

/-- The section with the given keyword (see C45): its lines with their numbers. -/
def sectionOf (file : List Str) (name : Str) : Option (List Line) :=
  ((sections ((filter file).map Prod.fst)).2.get? name).map fun p => ((filter file).take p.2).drop p.1

/-- The words in the column "name" of the atoms section. -/
def nameColumn (s : List Line) : List Str :=
  match (lowWords (s.getD 1 ([], 0)).1).idxOf? (Str.lit "name") with
  | none => []
  | some i => (s.drop 2).filterMap fun l => l.1.split[i]?

/-- The names of the atoms section of the file. -/
def namesOf (file : List Str) : List Str := ((sectionOf file (Str.lit "atoms")).map nameColumn).getD []

/-- A word that can not be the name of an atom. -/
def NotName (L : Lib K) (w : Str) : Prop :=
  (∀ c t, w = c :: t → L.alnum c = false) ∨ '#' ∈ w ∨ ['_', '_'] <+: w ∨ ['_', '_'] <:+ w

/-- The sets of titles, in alphabetical order, that give a vector called `c`. -/
def vectorForms (c : Char) : List (List Str) :=
  let p := fun t : String => c :: t.toList
  [[p "x", p "y", p "z"], [p "", p "p", p "t"], [p ""], [p "", p "x", p "y", p "z"],
    [p "", p "p", p "t", p "x", p "y", p "z"], []]

/-- The sets of titles, in alphabetical order, that give the position of an atom. -/
def positionForms : List (List Str) :=
  [[Str.lit "r1", Str.lit "r2", Str.lit "r3"], [['x'], ['y'], ['z']],
    [Str.lit "r1", Str.lit "r2", Str.lit "r3", ['x'], ['y'], ['z']]]

/-- The line starts with the given letter, in any letter case. -/
def Initial (l : Str) (c : Char) : Prop := ∃ t ws, lowWords l = (c :: t) :: ws

/-- The line is a separator, maybe a too short one. -/
def AnySep (sym : Char) (l : Str) : Prop := Separator sym l ∨ TooShort sym l

/-- What the message says is true: `sec` gives the sections of the file, `names` are the names of the atoms section and
`at n l` means that `l` is the line number `n`. -/
def Msg.Holds [Field K] [LinearOrder K] (L : Lib K) (sec : Str → Option (List Line)) (names : List Str)
    (at' : ℕ → Str → Prop) : Msg → Prop
  | .atomName n w => ∃ l, at' n l ∧ w ∈ l.split ∧ NotName L w
  | .noUnits n ws => ∃ l, at' n l ∧ lowWords l = ws ∧ ws.length = 2
  | .units n us u => ∃ l k, at' n l ∧ lowWords l = [k, u] ∧ ∀ e ∈ us, ¬ e <+: u
  | .header n ws => ∃ l, at' n l ∧ lowWords l = ws ∧ 2 < ws.length
  | .blockLines n expected got => ∃ l, at' n l ∧ Initial l 'm' ∧ expected = 4 ∧ got < 4
  | .keyword _ _ _ => False
  | .amount n kw expected got => got ∉ expected ∧ ∃ l, at' n l ∧ l.split.length = got + (if kw.isSome then 1 else 0)
  | .number n block w => L.float w = none ∧ ∃ l i, at' n l ∧ block = i + 1 ∧
      ((lowWords l)[i]? = some w ∨ (lowWords l)[i + 1]? = some w ∧ ∃ c ∈ ['i', 'd', 's', 'm'], Initial l c)
  | .size n name expected got => got ∉ expected ∧ ∃ s l, sec name = some s ∧ s.head? = some (l, n) ∧ at' n l ∧ s.length = got
  | .atLeast n name expected got =>
      got < expected ∧ ∃ s l, sec name = some s ∧ s.head? = some (l, n) ∧ at' n l ∧ s.length = got
  | .short n sym count => (sym = '-' ∨ sym = '=') ∧ count < 10 ∧ at' n (List.replicate count sym)
  | .scaleZero => ∃ s l x, sec (Str.lit "cell") = some s ∧ s[1]? = some l ∧ l.1.split = [x] ∧ L.float x = some 0
  | .scaleSign ws => ∃ s l, sec (Str.lit "cell") = some s ∧ s[1]? = some l ∧ l.1.split = ws ∧ ws.length = 3 ∧
      ∃ w ∈ ws, ∃ v, L.float w = some v ∧ v ≤ 0
  | .vector n ws => ∃ l, at' n l ∧ ∃ c ∈ ['s', 'l', 'j'], ws.Perm ((lowWords l).filter fun w => w.head? == some c) ∧
      ws ∉ vectorForms c
  | .repeated n ws => ∃ l, at' n l ∧ lowWords l = ws ∧ ¬ ws.Nodup
  | .noName n => ∃ l, at' n l ∧ Str.lit "name" ∉ lowWords l
  | .position n ws => ∃ l, at' n l ∧
      ws.Perm ((lowWords l).filter fun w => w.head? == some 'r' || decide (w <:+: ['x', 'y', 'z'])) ∧ ws ∉ positionForms
  | .atomBlocks n expected line => at' n line ∧ line.split.length ≠ expected ∧
      ∃ s h, sec (Str.lit "atoms") = some s ∧ s[1]? = some h ∧ h.1.split.length = expected
  | .atomNumber n block w => L.float w = none ∧ w ≠ ['-'] ∧ ∃ l i, at' n l ∧ block = i + 1 ∧ l.split[i]? = some w ∧
      ∃ s h, sec (Str.lit "atoms") = some s ∧ s[1]? = some h ∧ (lowWords h.1).idxOf? (Str.lit "name") ≠ some i
  | .duplicates n last count => ∃ s l l', sec (Str.lit "atoms") = some s ∧ s[2]? = some (l, n) ∧ at' n l ∧
      s.getLast? = some (l', last) ∧ count = (nameColumn s).dedup.length ∧ count < s.length - 2
  | .twoBlocks n line => at' n line ∧ line.split.length ≠ 2
  | .twice n w => ∃ l v l' n' w' v', at' n l ∧ lowWords l = [w, v] ∧ n' < n ∧ at' n' l' ∧ lowWords l' = [w', v'] ∧
      w'.head? = w.head?
  | .missing n name => ∃ s l, sec (Str.lit "notation") = some s ∧ s.head? = some (l, n) ∧ at' n l ∧
      ∀ p ∈ s.tail, ∀ k v, lowWords p.1 = [k, v] → k.head? ≠ name.head?
  | .value n kind w => ∃ l c t, at' n l ∧ lowWords l = [c :: t, w] ∧
      ((kind = Str.lit "boolean" ∧ (c = 'd' ∨ c = 's') ∧ w ∉ trueWords ∧ w ∉ falseWords) ∨
        (kind = Str.lit "number" ∧ (c = 'e' ∨ c = 'o') ∧ L.float w = none))
  | .bondHead n ws => ∃ l, at' n l ∧ l.split = ws ∧ ws.length ≠ 5
  | .bondAtom n block w => w ∉ names ∧ ∃ l i, at' n l ∧ block = i + 1 ∧ i < 2 ∧ l.split[i]? = some w ∧ l.split.length = 5
  | .integers n ws => ∃ l a b, at' n l ∧ l.split = a :: b :: ws ∧ ws.length = 3 ∧ ∃ w ∈ ws, L.int w = none
  | .bondTwice n key last => ∃ s b l l', sec (Str.lit "exchange") = some s ∧ b <:+: s ∧ b.head? = some (l, n) ∧ at' n l ∧
      b.getLast? = some (l', last) ∧ ∃ c t, key = c :: t ∧ ∃ p q, [p, q].Sublist b.tail ∧ Initial p.1 c ∧ Initial q.1 c
  | .bondEmpty n last => ∃ s b l l', sec (Str.lit "exchange") = some s ∧ b <:+: s ∧ b.head? = some (l, n) ∧ at' n l ∧
      b.getLast? = some (l', last) ∧ ∀ p ∈ b.tail, ∀ c ∈ ['i', 'd', 's', 'm'], ¬ Initial p.1 c
  | .noBonds => ∃ s, sec (Str.lit "exchange") = some s ∧ ∀ p ∈ s.tail, AnySep '-' p.1
  | .siteHead n line => at' n line ∧ line.split.length ≠ 1
  | .siteAtom n w => w ∉ names ∧ ∃ l, at' n l ∧ l.split.head? = some w
  | .siteEnd n => ∃ s l, sec (Str.lit "on-site") = some s ∧ s.getLast? = some (l, n) ∧ at' n l ∧ ¬ AnySep '-' l
  | .noSites => ∃ s, sec (Str.lit "on-site") = some s ∧ ∀ p ∈ s.tail.dropLast, AnySep '-' p.1
  | .noSection name => (name = Str.lit "cell" ∨ name = Str.lit "atoms") ∧ sec name = none
  | .warnKeywords n ws => ws ≠ [] ∧ ∃ l, at' n l ∧ ws.Sublist (lowWords l)
  | .warnProperties ks => ks ≠ [] ∧ ∃ s, sec (Str.lit "notation") = some s ∧
      ∀ k ∈ ks, k ∉ [some 'd', some 's', some 'e', some 'o'] ∧ ∃ p ∈ s.tail, ∃ w v, lowWords p.1 = [w, v] ∧ w.head? = k
  | .warnSection name => (sec name).isSome ∧ name ∉ ["cell", "atoms", "notation", "exchange", "on-site", "cone-axis",
      "spiral-vector"].map Str.lit

/-- The number printed after "Line". -/
def Msg.line : Msg → Option ℕ
  | .atomName n _ => some n
  | .noUnits n _ => some n
  | .units n _ _ => some n
  | .header n _ => some n
  | .blockLines n _ _ => some n
  | .keyword n _ _ => some n
  | .amount n _ _ _ => some n
  | .number n _ _ => some n
  | .size n _ _ _ => some n
  | .atLeast n _ _ _ => some n
  | .short n _ _ => some n
  | .scaleZero => none
  | .scaleSign _ => none
  | .vector n _ => some n
  | .repeated n _ => some n
  | .noName n => some n
  | .position n _ => some n
  | .atomBlocks n _ _ => some n
  | .atomNumber n _ _ => some n
  | .duplicates n _ _ => some n
  | .twoBlocks n _ => some n
  | .twice n _ => some n
  | .missing n _ => some n
  | .value n _ _ => some n
  | .bondHead n _ => some n
  | .bondAtom n _ _ => some n
  | .integers n _ => some n
  | .bondTwice n _ _ => some n
  | .bondEmpty n _ => some n
  | .noBonds => none
  | .siteHead n _ => some n
  | .siteAtom n _ => some n
  | .siteEnd n => some n
  | .noSites => none
  | .noSection _ => none
  | .warnKeywords n _ => some n
  | .warnProperties _ => none
  | .warnSection _ => none

/-- The line number `n` belongs to the section `name` of the file. -/
def InSection (file : List Str) (name : Str) (n : ℕ) : Prop := ∃ s l, sectionOf file name = some s ∧ (l, n) ∈ s

end Magnopy.Txt
