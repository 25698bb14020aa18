import Verif.Model.TxtSections
import Mathlib.Algebra.Field.Basic
import Mathlib.Order.Defs.LinearOrder
import Mathlib.Data.List.Dedup

/-!
# Verification of a model file  (src/magnopy/io/txt/verify.py)

Log messages are in `TxtLog`.  A result `true` means "errors were found", as in the code.  `errors = errors or f()` is
`||`, since the skipped calls have no effect.
-/

set_option autoImplicit false

namespace Magnopy.Txt

/-- The functions of Python and numpy which the model takes as they are: `float(word)`, `int(word)` (`none` =
`ValueError`), `c.isalnum()`, the length of a vector, sine and cosine of an angle in degrees, the reciprocal cell. -/
structure Lib (K : Type) where
  /-- `float(word)` -/
  float : Str → Option K
  /-- `int(word)` -/
  int : Str → Option ℤ
  /-- `str.isalnum(c)` -/
  alnum : Char → Bool
  /-- `np.linalg.norm` -/
  norm : V3 K → K
  /-- `np.sin(x * TORADIANS)` -/
  sin : K → K
  /-- `np.cos(x * TORADIANS)` -/
  cos : K → K
  /-- `Crystal.reciprocal_cell` for the given cell -/
  recip : M3 K → M3 K

variable {K : Type}

/-- `_is_float`, verify.py 32-45. -/
def isFloat (L : Lib K) (w : Str) : Bool := (L.float w).isSome

/-- `_is_integer`, verify.py 48-62. -/
def isInteger (L : Lib K) (w : Str) : Bool := (L.int w).isSome

/-- `TRUE_KEYWORDS`, units/inside.py. -/
def trueWords : List Str := [Str.lit "true", Str.lit "t", Str.lit "yes", Str.lit "y", Str.lit "1"]

/-- `FALSE_KEYWORDS`, units/inside.py. -/
def falseWords : List Str := [Str.lit "false", Str.lit "f", Str.lit "no", Str.lit "n", Str.lit "0"]

/-- `_is_bool`, verify.py 65-74. -/
def isBool (w : Str) : Bool := Str.mem w.lower (trueWords ++ falseWords)

/-- `_verify_atom_name`, verify.py 80-114 (the word is not empty). -/
def badName (L : Lib K) (w : Str) : Bool :=
  !((w.head?.any L.alnum) && decide (w.count '#' = 0)) || w.startsWith (Str.lit "__") || w.endsWith (Str.lit "__")

/-- `_verify_section_header`, verify.py 117-207. -/
def badHeader (line : Str) (units : List Str) : Bool :=
  match line.lower.split with
  | [_] => false
  | [_, u] => units.isEmpty || !(units.any fun e => u.lower.startsWith e)
  | _ => true

/-- One line of `_verify_numerical_data_block` after the keyword is removed, verify.py 281-315. -/
def badNumbers (L : Lib K) (words : List Str) (amounts : List ℕ) : Bool :=
  !(amounts.contains words.length) || words.any fun w => !isFloat L w

/-- The loop of `_verify_numerical_data_block` over lines without keyword, verify.py 257-315.  (The callers never pass
more lines than specifications.) -/
def badRows (L : Lib K) : List Str → List (List ℕ) → Bool
  | l :: ls, a :: as => badNumbers L l.lower.split a || badRows L ls as
  | _, _ => false

/-- `_verify_numerical_data_block` without keyword, verify.py 210-317. -/
def badBlock (L : Lib K) (lines : List Str) (specs : List (List ℕ)) : Bool :=
  decide (lines.length ≠ specs.length) || badRows L lines specs

/-- `_verify_numerical_data_block` with a keyword, verify.py 210-317. -/
def badKeyBlock (L : Lib K) (lines : List Str) (specs : List (List ℕ)) (kw : Str) : Bool :=
  decide (lines.length ≠ specs.length) ||
    match lines, specs with
    | l :: ls, a :: as =>
      decide (kw.lower.head? ≠ (l.lower.split.headD []).head?) || badNumbers L l.lower.split.tail a || badRows L ls as
    | _, _ => false

/-- `_verify_cell`, verify.py 436-504. -/
def badCell [Field K] [LinearOrder K] (L : Lib K) (lines : List Str) : Bool :=
  if !([4, 5].contains lines.length) then true
  else
    badHeader (lines.headD []) [Str.lit "a", Str.lit "b"] ||
      if lines.length = 5 then
        let s := lines.getD 1 []
        let scaleErr := badBlock L [s] [[1, 3]]
        scaleErr ||
          (!scaleErr && (match s.split with
            | [x] => decide (L.float x = some 0)
            | [x, y, z] => [x, y, z].any fun w => (L.float w).any fun v => decide (v ≤ 0)
            | _ => false)) ||
          badBlock L (lines.drop 2) [[3], [3], [3]]
      else badBlock L (lines.drop 1) [[3], [3], [3]]

/-- `_verify_vector_keyword`, verify.py 510-564, on the sorted keywords. -/
def badVector (ks : List Str) (c : Char) : Bool :=
  let p := fun t : String => c :: t.toList
  !(decide (ks = [p "x", p "y", p "z"]) || decide (ks = [p "", p "p", p "t"]) || decide (ks = [p ""]) ||
    decide (ks = [p "", p "x", p "y", p "z"]) || decide (ks = [p "", p "p", p "t", p "x", p "y", p "z"]) ||
    decide (ks = []))

/-- `a <= b` for strings: by code points. -/
def strLe : Str → Str → Bool
  | [], _ => true
  | _ :: _, [] => false
  | a :: s, b :: t => decide (a.toNat < b.toNat) || (decide (a = b) && strLe s t)

/-- `list.sort()` of strings. -/
def sortStr (l : List Str) : List Str := l.insertionSort fun a b => strLe a b = true

/-- `word in "xyz"`: a substring. -/
def inXyz (w : Str) : Bool := decide (w <:+: Str.lit "xyz")

/-- `_verify_atoms_data_header`, verify.py 567-699: the number of blocks, the index of the name and the errors.  The
keywords left over only cause a warning. -/
def atomsHeader (line : Str) : ℕ × Option ℕ × Bool :=
  let all := line.lower.split
  let e1 := decide (all.dedup.length ≠ all.length)
  let nameIndex := all.idxOf? (Str.lit "name")
  let ks := ((all.erase (Str.lit "name")).erase ['q']).erase ['g']
  let pos := fun w : Str => w.startsWith ['r'] || inXyz w
  let position := sortStr (ks.filter pos)
  let spin := sortStr (ks.filter fun w => !pos w && w.startsWith ['s'])
  let orbital := sortStr (ks.filter fun w => !pos w && w.startsWith ['l'])
  let total := sortStr (ks.filter fun w => !pos w && w.startsWith ['j'])
  let r := [Str.lit "r1", Str.lit "r2", Str.lit "r3"]
  let x := [['x'], ['y'], ['z']]
  let e2 := !(decide (position = r) || decide (position = x) || decide (position = r ++ x))
  (line.split.length, nameIndex,
    e1 || nameIndex.isNone || e2 || badVector spin 's' || badVector orbital 'l' || badVector total 'j')

/-- The loop of `_verify_atoms` over the atom lines, verify.py 750-786: names and errors.  `line[name_index]` of a
short line raises `IndexError`. -/
def atomsLoop (L : Lib K) (n : ℕ) (nameIndex : Option ℕ) : List Str → Except PyErr (List Str × Bool)
  | [] => .ok ([], false)
  | l :: ls =>
    let w := l.split
    let e1 := decide (w.length ≠ n)
    match nameIndex with
    | none =>
      match atomsLoop L n nameIndex ls with
      | .error e => .error e
      | .ok r => .ok (r.1, e1 || (w.any fun b => !isFloat L b && b != ['-']) || r.2)
    | some i =>
      match w[i]? with
      | none => .error .indexError
      | some name =>
        match atomsLoop L n nameIndex ls with
        | .error e => .error e
        | .ok r =>
          .ok (name :: r.1, e1 || badName L name || ((w.eraseIdx i).any fun b => !isFloat L b && b != ['-']) || r.2)

/-- `_verify_atoms`, verify.py 702-799: allowed atoms (as a list, the set is `dedup`) and errors. -/
def verifyAtoms (L : Lib K) (lines : List Str) : Except PyErr (List Str × Bool) :=
  if lines.length < 3 then .ok ([], true)
  else
    let e1 := badHeader (lines.headD []) [['a'], ['b']]
    let h := atomsHeader (lines.getD 1 [])
    match atomsLoop L h.1 h.2.1 (lines.drop 2) with
    | .error e => .error e
    | .ok r => .ok (r.1, e1 || h.2.2 || r.2 || decide (r.1.dedup.length ≠ lines.length - 2))

/-- The loop of `_verify_notation`, verify.py 860-885: found properties and errors. -/
def notationLoop : List Str → PyDict (Option Char) Str → Bool × PyDict (Option Char) Str
  | [], d => (false, d)
  | l :: ls, d =>
    match l.lower.split with
    | [k, v] =>
      if (d.get? k.head?).isSome then
        let r := notationLoop ls d
        (true, r.2)
      else notationLoop ls (d.set k.head? v)
    | _ =>
      let r := notationLoop ls d
      (true, r.2)

/-- `_verify_notation`, verify.py 805-952; `e`, `o` tell whether the exchange and the on-site section are present. -/
def badNotation (L : Lib K) (lines : List Str) (e o : Bool) : Bool :=
  let n := e.toNat + o.toNat + e.toNat + (e || o).toNat + 1
  let r := notationLoop lines.tail []
  let chk := fun (c : Char) (expected : Bool) (f : Str → Bool) =>
    match r.2.get? (some c) with
    | none => expected
    | some v => !f v
  decide (lines.length < n) || badHeader (lines.headD []) [] || r.1 || chk 'd' e isBool || chk 's' (e || o) isBool ||
    chk 'e' e (isFloat L) || chk 'o' o (isFloat L)

/-- The loop of `_verify_bond`, verify.py 1031-1075: errors and the counts of the four kinds (`iso`, `dmi`, `symmetric`,
`matrix`). -/
def bondLoop (L : Lib K) : List Str → Bool × ℕ × ℕ × ℕ × ℕ
  | [] => (false, 0, 0, 0, 0)
  | l :: ls =>
    let r := bondLoop L ls
    let w := l.lower.split.headD []
    if w.startsWith ['i'] then
      (badKeyBlock L [l] [[1]] (Str.lit "isotropic") || r.1, r.2.1 + 1, r.2.2.1, r.2.2.2.1, r.2.2.2.2)
    else if w.startsWith ['d'] then
      (badKeyBlock L [l] [[3]] (Str.lit "dmi") || r.1, r.2.1, r.2.2.1 + 1, r.2.2.2.1, r.2.2.2.2)
    else if w.startsWith ['s'] then
      (badKeyBlock L [l] [[5]] (Str.lit "symmetric-anisotropy") || r.1, r.2.1, r.2.2.1, r.2.2.2.1 + 1, r.2.2.2.2)
    else if w.startsWith ['m'] then
      (badKeyBlock L (l :: ls.take 3) [[0], [3], [3], [3]] (Str.lit "matrix") || r.1,
        r.2.1, r.2.2.1, r.2.2.2.1, r.2.2.2.2 + 1)
    else r

/-- `_verify_bond`, verify.py 958-1104. -/
def badBond (L : Lib K) (allowed : List Str) (lines : List Str) : Bool :=
  let e1 :=
    match (lines.headD []).split with
    | [a, b, i, j, k] =>
      badName L a || badName L b || !Str.mem a allowed || !Str.mem b allowed ||
        !(isInteger L i && isInteger L j && isInteger L k)
    | _ => true
  let r := bondLoop L lines.tail
  e1 || r.1 || decide (1 < r.2.1) || decide (1 < r.2.2.1) || decide (1 < r.2.2.2.1) || decide (1 < r.2.2.2.2) ||
    decide (r.2.1 + r.2.2.1 + r.2.2.2.1 + r.2.2.2.2 = 0)

/-- The names of energy units, verify.py 1136, 1213. -/
def energyUnits : List Str := [['m'], ['e'], ['j'], ['k'], ['r']]

/-- `_verify_exchange`, verify.py 1107-1178.  The blocks are found among the lines after the header. -/
def badExchange (L : Lib K) (allowed : List Str) (lines : List Str) : Bool :=
  let r := scan '-' lines.tail lines.tail.length 0
  badHeader (lines.headD []) energyUnits || r.1 || r.2.isEmpty ||
    r.2.any fun p => badBond L allowed (slice lines.tail p)

/-- The loop of `_verify_on_site`, verify.py 1220-1282: errors and the number of parameters. -/
def siteLoop (L : Lib K) (allowed : List Str) : List Str → Bool × ℕ
  | [] => (false, 0)
  | l :: ls =>
    let short := isShort '-' l
    if isLong '-' l || short then
      let r := siteLoop L allowed ls
      (short || r.1, r.2)
    else
      let e := decide (l.split.length ≠ 1) || badName L l.first || !Str.mem l.first allowed
      match ls with
      | [] => (true, 0)
      | v :: rest =>
        let r := siteLoop L allowed rest
        (e || badBlock L [v] [[6]] || r.1, r.2 + 1)

/-- `_verify_on_site`, verify.py 1184-1291. -/
def badOnSite (L : Lib K) (allowed : List Str) (lines : List Str) : Bool :=
  let r := siteLoop L allowed lines.tail
  badHeader (lines.headD []) energyUnits || r.1 || decide (r.2 = 0)

/-- `_verify_cone_axis`, verify.py 1297-1339. -/
def badCone (L : Lib K) (lines : List Str) : Bool :=
  if lines.length ≠ 2 then true
  else badHeader (lines.headD []) [['a'], ['r']] || badBlock L [lines.getD 1 []] [[3, 2]]

/-- `_verify_spiral_vector`, verify.py 1345-1387. -/
def badSpiral (L : Lib K) (lines : List Str) : Bool :=
  if lines.length ≠ 2 then true
  else badHeader (lines.headD []) [['a'], ['r']] || badBlock L [lines.getD 1 []] [[3]]

/-- `_VERIFY[section]`, verify.py 1409-1417, for the sections other than "atoms"; sections that are not supported cause
a warning only. -/
def badSection [Field K] [LinearOrder K] (L : Lib K) (found : PyDict Str (ℕ × ℕ)) (allowed : List Str)
    (name : Str) (lines : List Str) : Bool :=
  let e := (found.get? (Str.lit "exchange")).isSome
  let o := (found.get? (Str.lit "on-site")).isSome
  if name = Str.lit "cell" then badCell L lines
  else if name = Str.lit "notation" then badNotation L lines e o
  else if name = Str.lit "exchange" then badExchange L allowed lines
  else if name = Str.lit "on-site" then badOnSite L allowed lines
  else if name = Str.lit "cone-axis" then badCone L lines
  else if name = Str.lit "spiral-vector" then badSpiral L lines
  else false

/-- `_verify_model_file` with `raise_on_fail=False, return_sections=True`, verify.py 1423-1561: errors and the found
sections. -/
def verify [Field K] [LinearOrder K] (L : Lib K) (lines : List Str) : Except PyErr (Bool × PyDict Str (ℕ × ℕ)) :=
  let (e0, found) := sections lines
  let e1 := (found.get? (Str.lit "cell")).isNone || (found.get? (Str.lit "atoms")).isNone
  let atoms : Except PyErr (List Str × Bool) :=
    match found.get? (Str.lit "atoms") with
    | some p => verifyAtoms L (slice lines p)
    | none => .ok ([], false)
  match atoms with
  | .error e => .error e
  | .ok a =>
    .ok (e0 || e1 || a.2 || found.any fun p => badSection L found a.1 p.1 (slice lines p.2), found)

end Magnopy.Txt
