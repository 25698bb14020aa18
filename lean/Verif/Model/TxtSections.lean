import Verif.Model.Text

/-!
# Separators, sections and subsections of a model file  (src/magnopy/io/txt/verify.py)

Lines are filtered lines: not blank, without comments, without white space at the ends.
The loops of `_verify_model_file` (symbol `=`), `_verify_exchange` and `_read_exchange` (symbol `-`) are the same.
-/

set_option autoImplicit false

namespace Magnopy.Txt

/-- `line.startswith(symbol * 10)`. -/
def isLong (sym : Char) (l : Str) : Bool := l.startsWith (List.replicate 10 sym)

/-- `_verify_short_separator`, verify.py 399-430 (`true` = error). -/
def isShort (sym : Char) (l : Str) : Bool := decide (l.strip.length < 10) && decide (l.strip.length = l.count sym)

/-- The loop that skips separators, verify.py 1456-1463, 1145-1152: errors and the number of skipped lines. -/
def skip (sym : Char) : List Str → Bool × ℕ
  | [] => (false, 0)
  | l :: ls =>
    let short := isShort sym l
    if !(isLong sym l || short) then (false, 0)
    else
      let r := skip sym ls
      (short || r.1, r.2 + 1)

/-- The loop that looks for the end of a section, verify.py 1473-1477, 1159-1163: errors and the number of lines. -/
def body (sym : Char) : List Str → Bool × ℕ
  | [] => (false, 0)
  | l :: ls =>
    if isLong sym l then (false, 0)
    else
      let r := body sym ls
      (isShort sym l || r.1, r.2 + 1)

/-- The outer loop, verify.py 1454-1486, 1143-1166, from line `i` on: errors and the blocks `(start, end)`.  Every turn
consumes at least one line, so `fuel = len(lines)` turns are enough. -/
def scan (sym : Char) (lines : List Str) : ℕ → ℕ → Bool × List (ℕ × ℕ)
  | 0, _ => (false, [])
  | fuel + 1, i =>
    if lines.length ≤ i then (false, [])
    else
      let a := skip sym (lines.drop i)
      let start := i + a.2
      if lines.length ≤ start then (a.1, [])
      else
        let b := body sym (lines.drop start)
        let stop := start + b.2
        let r := scan sym lines fuel stop
        (a.1 || b.1 || r.1, (start, stop) :: r.2)

/-- `section_keyword`, verify.py 1469. -/
def keyword (l : Str) : Str := l.first.lower

/-- `lines[slice(*p)]`. -/
def slice (lines : List Str) (p : ℕ × ℕ) : List Str := (lines.take p.2).drop p.1

/-- `found_sections`, verify.py 1449-1486, with the errors about separators. -/
def sections (lines : List Str) : Bool × PyDict Str (ℕ × ℕ) :=
  let r := scan '=' lines lines.length 0
  (r.1, r.2.foldl (fun d p => d.set (keyword (lines.getD p.1 [])) p) [])

end Magnopy.Txt
