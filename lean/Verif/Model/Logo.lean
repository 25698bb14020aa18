import Verif.Model.Text

/-!
# The logo  (src/magnopy/_pinfo.py 27-132)
-/

set_option autoImplicit false

namespace Magnopy
namespace Logo

/-- What the standard information is made of: version, link and date of the release, and the date of today (as texts). -/
structure Env where
  /-- `__version__` -/
  version : Str
  /-- `__doclink__` -/
  doclink : Str
  /-- `__release_date__` -/
  release : Str
  /-- `datetime.now().year` -/
  year : Str
  /-- `{cd.day} {month_name[cd.month]} {cd.year} at {cd.hour}:{cd.minute}:{cd.second} ` -/
  now : Str

/-- The argument `comment`. -/
inductive Comment where
  | none | bool (b : Bool) | str (s : Str)

/-- The standard information, _pinfo.py 58-72. -/
def Env.standard (e : Env) (dateTime : Bool) : List Str :=
  [Str.lit "Version: " ++ e.version, Str.lit "Documentation: " ++ e.doclink, Str.lit "Release date: " ++ e.release,
    Str.lit "License: GNU GPLv3", Str.lit "Copyright (C) 2023-" ++ e.year ++ Str.lit "  Magnopy Team"] ++
  if dateTime then [[], Str.lit "Generated on " ++ e.now] else []

/-- `logo`, _pinfo.py 73-80. -/
def bold : List Str := [
   Str.lit "███╗   ███╗  █████╗   ██████╗  ███╗   ██╗  ██████╗  ██████╗  ██╗   ██╗",
   Str.lit "████╗ ████║ ██╔══██╗ ██╔════╝  ████╗  ██║ ██╔═══██╗ ██╔══██╗ ╚██╗ ██╔╝",
   Str.lit "██╔████╔██║ ███████║ ██║  ███╗ ██╔██╗ ██║ ██║   ██║ ██████╔╝  ╚████╔╝ ",
   Str.lit "██║╚██╔╝██║ ██╔══██║ ██║  ╚██║ ██║╚██╗██║ ██║   ██║ ██╔═══╝    ╚██╔╝  ",
   Str.lit "██║ ╚═╝ ██║ ██║  ██║ ╚██████╔╝ ██║ ╚████║ ╚██████╔╝ ██║         ██║   ",
   Str.lit "╚═╝     ╚═╝ ╚═╝  ╚═╝  ╚═════╝  ╚═╝  ╚═══╝  ╚═════╝  ╚═╝         ╚═╝   "]

/-- `logo` for `flat=True`, _pinfo.py 82-88. -/
def plain : List Str := [
   Str.lit "███    ███   █████    ██████   ███    ██   ██████   ██████   ██    ██",
   Str.lit "████  ████  ██   ██  ██        ████   ██  ██    ██  ██   ██   ██  ██ ",
   Str.lit "██ ████ ██  ███████  ██   ███  ██ ██  ██  ██    ██  ██████     ████  ",
   Str.lit "██  ██  ██  ██   ██  ██    ██  ██  ██ ██  ██    ██  ██          ██   ",
   Str.lit "██      ██  ██   ██   ██████   ██   ████   ██████   ██          ██   "]

/-- `cat`, _pinfo.py 89-97. -/
def cat : List Str := [
   Str.lit "▄   ▄     ",
   Str.lit "█▀█▀█     ",
   Str.lit "█▄█▄█     ",
   Str.lit " ███   ▄▄ ",
   Str.lit " ████ █  █",
   Str.lit " ████    █",
   Str.lit " ▀▀▀▀▀▀▀▀ "]

/-- `f"{x:^{w}}"`. -/
def center (w : ℕ) (x : Str) : Str :=
  List.replicate ((w - x.length) / 2) ' ' ++ x ++ List.replicate (w - x.length - (w - x.length) / 2) ' '

/-- `l[i]` for a list of Python. -/
def index (l : List Str) (i : ℤ) : Except PyErr Str :=
  match (if 0 ≤ i then l[i.toNat]? else if -(l.length : ℤ) ≤ i then l[(l.length + i).toNat]? else none) with
  | some x => .ok x
  | none => .error .indexError

/-- The rows below the title, _pinfo.py 113-129; `N` and `n` are the widths of the title and of the cat. -/
def rows (N n : ℕ) (info : List Str) : Except PyErr (List Str) :=
  if info.length ≤ cat.length then
    let before := (cat.length - info.length) / 2 + (cat.length - info.length) % 2
    let after := cat.length - info.length - before
    (List.range cat.length).mapM fun i => do
      if i < before ∨ i ≥ cat.length - after then
        return List.replicate (N - n) ' ' ++ center n (← index cat i)
      else
        return center (N - n) (← index info ((i : ℤ) - before)) ++ center n (← index cat i)
  else
    let before := (info.length - cat.length) / 2
    let after := info.length - cat.length - before
    (List.range info.length).mapM fun i => do
      if i < before ∨ i ≥ info.length - after then
        return center (N - n) (← index info ((i : ℤ) - before))
      else
        return center (N - n) (← index info ((i : ℤ) - before)) ++ center n (← index cat ((i : ℤ) - before))

/-- The text in front of every line, _pinfo.py 105-110.  `isinstance(False, bool) and False` is false, and `False` is not
`None`: then the text is `str(False)`. -/
def Comment.text : Comment → Str
  | .none => []
  | .bool true => Str.lit "# "
  | .bool false => Str.lit "False"
  | .str s => s

/-- `line_length` after the checks, _pinfo.py 101-104. -/
def lineWidth (N : ℕ) : Option ℤ → ℕ
  | none => N
  | some l => if l < N then N else l.toNat

/-- `logo(info, line_length, flat, date_time, comment)`, _pinfo.py 27-132. -/
def logo (e : Env) (info : Option (List Str)) (lineLength : Option ℤ) (flat dateTime : Bool) (comment : Comment) :
    Except PyErr Str := do
  let info := info.getD (e.standard dateTime)
  let title := if flat then plain else bold
  let N := (← index title 0).length
  let n := (← index cat 0).length + 2
  let width := lineWidth N lineLength
  let below ← if info.length > 0 then rows N n info else pure []
  let lines := (title.map (center N) ++ below).map fun x => comment.text ++ center width x ++ ['\n']
  return lines.flatten.dropLast

end Logo
end Magnopy
