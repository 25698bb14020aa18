import Verif.Model.PyDict
import Verif.Model.Basic

/-!
# Python strings

A string is a list of characters.  `lower` only changes the letters A-Z (the keywords of the file format are ASCII);
words with other letters are left alone.
-/

set_option autoImplicit false

namespace Magnopy

/-- `str`. -/
abbrev Str := List Char

namespace Str

/-- `c.isspace()`: the white space of `strip` and `split`. -/
def isSpace (c : Char) : Bool :=
  let n := c.toNat
  (9 ≤ n && n ≤ 13) || (28 ≤ n && n ≤ 32) || n == 0x85 || n == 0xa0 || n == 0x1680 || (0x2000 ≤ n && n ≤ 0x200a) ||
    n == 0x2028 || n == 0x2029 || n == 0x202f || n == 0x205f || n == 0x3000

/-- `s.lower()`. -/
def lower (s : Str) : Str := s.map Char.toLower

/-- `s.lstrip()`. -/
def lstrip (s : Str) : Str := s.dropWhile isSpace

/-- `s.strip()`. -/
def strip (s : Str) : Str := (lstrip (lstrip s).reverse).reverse

/-- `s.split()`: the words between white space. -/
def split : Str → List Str
  | [] => []
  | c :: s =>
    if isSpace c then split s
    else
      match s with
      | [] => [[c]]
      | d :: _ =>
        if isSpace d then [c] :: split s
        else
          match split s with
          | [] => [[c]]
          | w :: ws => (c :: w) :: ws

/-- `s.split("#")[0]`. -/
def beforeHash (s : Str) : Str := s.takeWhile (· != '#')

/-- `s.startswith(p)`. -/
def startsWith (s p : Str) : Bool := p.isPrefixOf s

/-- `s.endswith(p)`. -/
def endsWith (s p : Str) : Bool := p.isSuffixOf s

/-- A literal. -/
def lit (s : String) : Str := s.toList

/-- `c.isalnum()` for ASCII. -/
def isAlnum (c : Char) : Bool := c.isAlpha || c.isDigit

/-- The first word of a line; the lines are not blank (for a blank line Python would raise `IndexError`). -/
def first (s : Str) : Str := s.split.headD []

/-- `word in list`. -/
def mem (w : Str) (l : List Str) : Bool := l.any (· == w)

end Str
end Magnopy
