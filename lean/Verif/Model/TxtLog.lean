import Verif.Model.TxtVerify

/-!
# The log of the verification of a model file  (src/magnopy/io/txt/verify.py)

The same functions as in `TxtVerify`, now with the messages they send to the logger.  A line comes with its number in the
original file (`lines` and `line_indices` of the code are one list of pairs).  A message is kept as its kind and the
values printed in it; the fixed words around the values are not modelled, neither are the messages of the level "info".

`errors = errors or f()` calls `f` only if no error was found so far, hence the messages of `f` depend on the errors found
before.
-/

set_option autoImplicit false

namespace Magnopy.Txt

/-- The messages of verify.py.  `n` is always the number printed after "Line". -/
inductive Msg
  /-- `_verify_atom_name`, 103-112. -/
  | atomName (n : ℕ) (word : Str)
  /-- `_verify_section_header`, 161-168: no units expected. -/
  | noUnits (n : ℕ) (words : List Str)
  /-- `_verify_section_header`, 172-180: block 2 is not a unit. -/
  | units (n : ℕ) (expected : List Str) (word : Str)
  /-- `_verify_section_header`, 187-205: too many words. -/
  | header (n : ℕ) (words : List Str)
  /-- `_verify_numerical_data_block`, 247-254. -/
  | blockLines (n expected got : ℕ)
  /-- `_verify_numerical_data_block`, 267-275. -/
  | keyword (n : ℕ) (expected : Str) (got : Option Char)
  /-- `_verify_numerical_data_block`, 295-303. -/
  | amount (n : ℕ) (kw : Option Str) (expected : List ℕ) (got : ℕ)
  /-- `_verify_numerical_data_block`, 308-315. -/
  | number (n block : ℕ) (word : Str)
  /-- `_verify_size_of_section`, 370-377. -/
  | size (n : ℕ) (name : Str) (expected : List ℕ) (got : ℕ)
  /-- `_verify_size_of_section`, 387-394. -/
  | atLeast (n : ℕ) (name : Str) (expected got : ℕ)
  /-- `_verify_short_separator`, 421-429. -/
  | short (n : ℕ) (sym : Char) (count : ℕ)
  /-- `_verify_cell`, 481. -/
  | scaleZero
  /-- `_verify_cell`, 488-490. -/
  | scaleSign (words : List Str)
  /-- `_verify_vector_keyword`, 552-561. -/
  | vector (n : ℕ) (words : List Str)
  /-- `_verify_atoms_data_header`, 599-606. -/
  | repeated (n : ℕ) (words : List Str)
  /-- `_verify_atoms_data_header`, 614-621. -/
  | noName (n : ℕ)
  /-- `_verify_atoms_data_header`, 656-663. -/
  | position (n : ℕ) (words : List Str)
  /-- `_verify_atoms`, 756-763. -/
  | atomBlocks (n expected : ℕ) (line : Str)
  /-- `_verify_atoms`, 779-786. -/
  | atomNumber (n block : ℕ) (word : Str)
  /-- `_verify_atoms`, 790-797: "Line `n`-`last`: expected unique names". -/
  | duplicates (n last count : ℕ)
  /-- `_verify_notation`, 864-871. -/
  | twoBlocks (n : ℕ) (line : Str)
  /-- `_verify_notation`, 876-883. -/
  | twice (n : ℕ) (word : Str)
  /-- `_verify_notation`, 921-924. -/
  | missing (n : ℕ) (name : Str)
  /-- `_verify_notation`, 930-938. -/
  | value (n : ℕ) (kind word : Str)
  /-- `_verify_bond`, 993-1000. -/
  | bondHead (n : ℕ) (words : List Str)
  /-- `_verify_bond`, 1009-1016. -/
  | bondAtom (n block : ℕ) (word : Str)
  /-- `_verify_bond`, 1021-1028. -/
  | integers (n : ℕ) (words : List Str)
  /-- `_verify_bond`, 1083-1090: "check the bond on lines `n`-`last`". -/
  | bondTwice (n : ℕ) (key : Str) (last : ℕ)
  /-- `_verify_bond`, 1095-1102. -/
  | bondEmpty (n last : ℕ)
  /-- `_verify_exchange`, 1171. -/
  | noBonds
  /-- `_verify_on_site`, 1238-1245. -/
  | siteHead (n : ℕ) (line : Str)
  /-- `_verify_on_site`, 1251-1258. -/
  | siteAtom (n : ℕ) (word : Str)
  /-- `_verify_on_site`, 1265-1272. -/
  | siteEnd (n : ℕ)
  /-- `_verify_on_site`, 1287-1289. -/
  | noSites
  /-- `_verify_model_file`, 1492. -/
  | noSection (name : Str)
  /-- Warning: `_verify_atoms_data_header`, 690-697. -/
  | warnKeywords (n : ℕ) (words : List Str)
  /-- Warning: `_verify_notation`, 943-950. -/
  | warnProperties (keys : List (Option Char))
  /-- Warning: `_verify_model_file`, 1545. -/
  | warnSection (name : Str)
  deriving DecidableEq

/-- The level of a message: everything but the warnings is sent by `_logger.error`. -/
def Msg.isError : Msg → Bool
  | .warnKeywords _ _ => false
  | .warnProperties _ => false
  | .warnSection _ => false
  | _ => true

/-- The variable `errors` and the messages so far. -/
structure Log where
  err : Bool
  out : List Msg

namespace Log

/-- Nothing happened yet. -/
def nil : Log := ⟨false, []⟩

/-- `if c: errors = True; _logger.error(m)`. -/
def msg (c : Bool) (m : Msg) : Log := ⟨c, if c then [m] else []⟩

/-- `if c: _logger.warning(m)`. -/
def warn (c : Bool) (m : Msg) : Log := ⟨false, if c then [m] else []⟩

/-- One piece of code after another. -/
def and (a b : Log) : Log := ⟨a.err || b.err, a.out ++ b.out⟩

/-- `errors = errors or b()` after `a`. -/
def orElse (a b : Log) : Log := if a.err then a else ⟨b.err, a.out ++ b.out⟩

/-- A loop in which every turn runs. -/
def all : List Log → Log
  | [] => nil
  | a :: as => a.and (all as)

end Log

open Log

/-- A line of the filtered file with its number, `(lines[i], line_indices[i])`. -/
abbrev Line := Str × ℕ

variable {K : Type}

/-- `_verify_atom_name`, verify.py 80-114. -/
def nameLog (L : Lib K) (w : Str) (n : ℕ) : Log := msg (badName L w) (.atomName n w)

/-- `_verify_section_header`, verify.py 117-207. -/
def headerLog (l : Line) (us : List Str) : Log :=
  match l.1.lower.split with
  | [_] => nil
  | [k, u] => if us.isEmpty then msg true (.noUnits l.2 [k, u])
    else msg (!(us.any fun e => u.lower.startsWith e)) (.units l.2 us u)
  | ws => msg true (.header l.2 ws)

/-- One line of `_verify_numerical_data_block` after the keyword is removed, verify.py 281-315. -/
def numbersLog (L : Lib K) (n : ℕ) (kw : Option Str) (words : List Str) (amounts : List ℕ) : Log :=
  (msg (!(amounts.contains words.length)) (.amount n kw amounts words.length)).and
    (all (words.zipIdx.map fun p => msg (!isFloat L p.1) (.number n (p.2 + 1) p.1)))

/-- The loop of `_verify_numerical_data_block` over lines without keyword, verify.py 257-315. -/
def rowsLog (L : Lib K) : List Line → List (List ℕ) → Log
  | l :: ls, a :: as => (numbersLog L l.2 none l.1.lower.split a).and (rowsLog L ls as)
  | _, _ => nil

/-- `_verify_numerical_data_block` without keyword, verify.py 210-317. -/
def blockLog (L : Lib K) (lines : List Line) (specs : List (List ℕ)) : Log :=
  (msg (decide (lines.length ≠ specs.length)) (.blockLines (lines.headD ([], 0)).2 specs.length lines.length)).and
    (rowsLog L lines specs)

/-- `_verify_numerical_data_block` with a keyword, verify.py 210-317.  The blocks are numbered after `line = line[1:]`. -/
def keyBlockLog (L : Lib K) (lines : List Line) (specs : List (List ℕ)) (kw : Str) : Log :=
  (msg (decide (lines.length ≠ specs.length)) (.blockLines (lines.headD ([], 0)).2 specs.length lines.length)).and
    (match lines, specs with
    | l :: ls, a :: as =>
      let c := (l.1.lower.split.headD []).head?
      ((msg (decide (kw.lower.head? ≠ c)) (.keyword l.2 kw c)).and
        (numbersLog L l.2 (some kw) l.1.lower.split.tail a)).and (rowsLog L ls as)
    | _, _ => nil)

/-- `_verify_cell`, verify.py 436-504. -/
def cellLog [Field K] [LinearOrder K] (L : Lib K) (lines : List Line) : Log :=
  if !([4, 5].contains lines.length) then
    msg true (.size (lines.headD ([], 0)).2 (Str.lit "cell") [4, 5] lines.length)
  else
    let h := headerLog (lines.headD ([], 0)) [Str.lit "a", Str.lit "b"]
    if lines.length = 5 then
      let s := lines.getD 1 ([], 0)
      let b := blockLog L [s] [[1, 3]]
      let sign :=
        match s.1.split with
        | [x] => msg (!b.err && decide (L.float x = some 0)) .scaleZero
        | [x, y, z] =>
          msg (!b.err && [x, y, z].any fun w => (L.float w).any fun v => decide (v ≤ 0)) (.scaleSign [x, y, z])
        | _ => nil
      ((h.and b).and sign).orElse (blockLog L (lines.drop 2) [[3], [3], [3]])
    else h.orElse (blockLog L (lines.drop 1) [[3], [3], [3]])

/-- `_verify_vector_keyword`, verify.py 510-564, on the sorted keywords. -/
def vectorLog (ks : List Str) (c : Char) (n : ℕ) : Log := msg (badVector ks c) (.vector n ks)

/-- `_verify_atoms_data_header`, verify.py 567-699: the number of blocks, the index of the name and the errors. -/
def atomsHeaderLog (l : Line) : ℕ × Option ℕ × Log :=
  let all := l.1.lower.split
  let nameIndex := all.idxOf? (Str.lit "name")
  let ks := ((all.erase (Str.lit "name")).erase ['q']).erase ['g']
  let pos := fun w : Str => w.startsWith ['r'] || inXyz w
  let position := sortStr (ks.filter pos)
  let spin := sortStr (ks.filter fun w => !pos w && w.startsWith ['s'])
  let orbital := sortStr (ks.filter fun w => !pos w && w.startsWith ['l'])
  let total := sortStr (ks.filter fun w => !pos w && w.startsWith ['j'])
  let rest := ks.filter fun w => !pos w && !w.startsWith ['s'] && !w.startsWith ['l'] && !w.startsWith ['j']
  let r := [Str.lit "r1", Str.lit "r2", Str.lit "r3"]
  let x := [['x'], ['y'], ['z']]
  let a := msg (decide (all.dedup.length ≠ all.length)) (.repeated l.2 all)
  let b := a.and (msg nameIndex.isNone (.noName l.2))
  let c := b.and (msg (!(decide (position = r) || decide (position = x) || decide (position = r ++ x)))
    (.position l.2 position))
  let d := ((c.orElse (vectorLog spin 's' l.2)).orElse (vectorLog orbital 'l' l.2)).orElse (vectorLog total 'j' l.2)
  (l.1.split.length, nameIndex, d.and (warn (!rest.isEmpty) (.warnKeywords l.2 rest)))

/-- The check of the blocks of an atom line, verify.py 771-786. -/
def blocksLog (L : Lib K) (n : ℕ) (nameIndex : Option ℕ) (words : List Str) : Log :=
  all (words.zipIdx.map fun p =>
    msg (decide (nameIndex ≠ some p.2) && (!isFloat L p.1 && p.1 != ['-'])) (.atomNumber n (p.2 + 1) p.1))

/-- The loop of `_verify_atoms` over the atom lines, verify.py 750-786: the log and the names. -/
def atomsLoopLog (L : Lib K) (n : ℕ) (nameIndex : Option ℕ) : Log → List Line → Log × Except PyErr (List Str)
  | acc, [] => (acc, .ok [])
  | acc, l :: ls =>
    let w := l.1.split
    let a := acc.and (msg (decide (w.length ≠ n)) (.atomBlocks l.2 n l.1))
    match nameIndex with
    | none => atomsLoopLog L n nameIndex (a.and (blocksLog L l.2 nameIndex w)) ls
    | some i =>
      match w[i]? with
      | none => (a, .error .indexError)
      | some name =>
        let r := atomsLoopLog L n nameIndex ((a.orElse (nameLog L name l.2)).and (blocksLog L l.2 nameIndex w)) ls
        (r.1, r.2.map (name :: ·))

/-- `_verify_atoms`, verify.py 702-799.  The size is verified twice (732-736). -/
def atomsLog (L : Lib K) (lines : List Line) : Log × Except PyErr (List Str) :=
  let size := msg (decide (lines.length < 3)) (.atLeast (lines.headD ([], 0)).2 (Str.lit "atoms") 3 lines.length)
  if lines.length < 3 then (size.and size, .ok [])
  else
    let e := headerLog (lines.headD ([], 0)) [['a'], ['b']]
    let h := atomsHeaderLog (lines.getD 1 ([], 0))
    let r := atomsLoopLog L h.1 h.2.1 (e.and h.2.2) (lines.drop 2)
    match r.2 with
    | .error x => (r.1, .error x)
    | .ok names =>
      (r.1.and (msg (decide (names.dedup.length ≠ lines.length - 2))
        (.duplicates (lines.getD 2 ([], 0)).2 (lines.getLastD ([], 0)).2 names.dedup.length)), .ok names)

/-- The loop of `_verify_notation`, verify.py 860-885: the log and the found properties with their lines. -/
def notationLoopLog : List Line → PyDict (Option Char) Line → Log × PyDict (Option Char) Line
  | [], d => (nil, d)
  | l :: ls, d =>
    match l.1.lower.split with
    | [k, v] =>
      if (d.get? k.head?).isSome then
        let r := notationLoopLog ls d
        ((msg true (.twice l.2 k)).and r.1, r.2)
      else notationLoopLog ls (d.set k.head? (v, l.2))
    | _ =>
      let r := notationLoopLog ls d
      ((msg true (.twoBlocks l.2 l.1)).and r.1, r.2)

/-- One turn of the loop over the recognised properties, verify.py 915-939. -/
def propertyLog (n : ℕ) (d : PyDict (Option Char) Line) (c : Char) (expected : Bool) (f : Str → Bool) (name kind : String) :
    Log :=
  match d.get? (some c) with
  | none => msg expected (.missing n (Str.lit name))
  | some v => msg (!f v.1) (.value v.2 (Str.lit kind) v.1)

/-- `_verify_notation`, verify.py 805-952. -/
def notationLog (L : Lib K) (lines : List Line) (e o : Bool) : Log :=
  let h := lines.headD ([], 0)
  let n := e.toNat + o.toNat + e.toNat + (e || o).toNat + 1
  let a := (msg (decide (lines.length < n)) (.atLeast h.2 (Str.lit "notation") n lines.length)).orElse (headerLog h [])
  let r := notationLoopLog lines.tail []
  let b := (((a.and r.1).and (propertyLog h.2 r.2 'd' e isBool "double-counting" "boolean")).and
    (propertyLog h.2 r.2 's' (e || o) isBool "spin-normalized" "boolean")).and
    (propertyLog h.2 r.2 'e' e (isFloat L) "exchange-factor" "number")
  let c := b.and (propertyLog h.2 r.2 'o' o (isFloat L) "on-site-factor" "number")
  let rest := r.2.keys.filter fun k => !([some 'd', some 's', some 'e', some 'o'].contains k)
  c.and (warn (!rest.isEmpty) (.warnProperties rest))

/-- The loop of `_verify_bond`, verify.py 1031-1075.  The counts are those of `bondLoop`. -/
def bondLoopLog (L : Lib K) : Log → List Line → Log
  | acc, [] => acc
  | acc, l :: ls =>
    let w := l.1.lower.split.headD []
    if w.startsWith ['i'] then bondLoopLog L (acc.orElse (keyBlockLog L [l] [[1]] (Str.lit "isotropic"))) ls
    else if w.startsWith ['d'] then bondLoopLog L (acc.orElse (keyBlockLog L [l] [[3]] (Str.lit "dmi"))) ls
    else if w.startsWith ['s'] then
      bondLoopLog L (acc.orElse (keyBlockLog L [l] [[5]] (Str.lit "symmetric-anisotropy"))) ls
    else if w.startsWith ['m'] then
      bondLoopLog L (acc.orElse (keyBlockLog L (l :: ls.take 3) [[0], [3], [3], [3]] (Str.lit "matrix"))) ls
    else bondLoopLog L acc ls

/-- `_verify_bond`, verify.py 958-1104. -/
def bondLog (L : Lib K) (allowed : List Str) (lines : List Line) : Log :=
  let h := lines.headD ([], 0)
  let last := (lines.getLastD ([], 0)).2
  let head :=
    match h.1.split with
    | [a, b, i, j, k] =>
      ((((nameLog L a h.2).orElse (nameLog L b h.2)).and (msg (!Str.mem a allowed) (.bondAtom h.2 1 a))).and
        (msg (!Str.mem b allowed) (.bondAtom h.2 2 b))).and
        (msg (!(isInteger L i && isInteger L j && isInteger L k)) (.integers h.2 [i, j, k]))
    | ws => msg true (.bondHead h.2 ws)
  let c := (bondLoop L (lines.tail.map Prod.fst)).2
  let many := fun (m : ℕ) (key : String) => msg (decide (1 < m)) (.bondTwice h.2 (Str.lit key) last)
  (((((bondLoopLog L head lines.tail).and (many c.2.2.2 "matrix")).and (many c.2.2.1 "symmetric")).and
    (many c.2.1 "dmi")).and (many c.1 "iso")).and
    (msg (decide (c.1 + c.2.1 + c.2.2.1 + c.2.2.2 = 0)) (.bondEmpty h.2 last))

/-- `_verify_short_separator`, verify.py 399-430. -/
def shortLog (sym : Char) (l : Line) : Log := msg (isShort sym l.1) (.short l.2 sym (l.1.count sym))

/-- The loop that skips separators, verify.py 1456-1463, 1145-1152. -/
def skipLog (sym : Char) : List Line → Log
  | [] => nil
  | l :: ls => if !(isLong sym l.1 || isShort sym l.1) then nil else (shortLog sym l).and (skipLog sym ls)

/-- The loop that looks for the end of a section, verify.py 1473-1477, 1159-1163. -/
def bodyLog (sym : Char) : Log → List Line → Log
  | acc, [] => acc
  | acc, l :: ls => if isLong sym l.1 then acc else bodyLog sym (acc.orElse (shortLog sym l)) ls

/-- The outer loop, verify.py 1454-1486, 1143-1166; the blocks are those of `scan`. -/
def scanLog (sym : Char) (lines : List Line) : ℕ → ℕ → Log → Log
  | 0, _, acc => acc
  | fuel + 1, i, acc =>
    if lines.length ≤ i then acc
    else
      let a := acc.and (skipLog sym (lines.drop i))
      let start := i + (skip sym ((lines.drop i).map Prod.fst)).2
      if lines.length ≤ start then a
      else
        let b := bodyLog sym a (lines.drop start)
        scanLog sym lines fuel (start + (body sym ((lines.drop start).map Prod.fst)).2) b

/-- `lines[slice(*p)]` with the numbers of the lines. -/
def sliceL (lines : List Line) (p : ℕ × ℕ) : List Line := (lines.take p.2).drop p.1

/-- `_verify_exchange`, verify.py 1107-1178. -/
def exchangeLog (L : Lib K) (allowed : List Str) (lines : List Line) : Log :=
  let bonds := (scan '-' (lines.tail.map Prod.fst) lines.tail.length 0).2
  let a := scanLog '-' lines.tail lines.tail.length 0 (headerLog (lines.headD ([], 0)) energyUnits)
  bonds.foldl (fun acc p => acc.orElse (bondLog L allowed (sliceL lines.tail p))) (a.and (msg bonds.isEmpty .noBonds))

/-- The loop of `_verify_on_site`, verify.py 1220-1282.  The number of parameters is that of `siteLoop`. -/
def siteLoopLog (L : Lib K) (allowed : List Str) : Log → List Line → Log
  | acc, [] => acc
  | acc, l :: ls =>
    let a := acc.and (shortLog '-' l)
    if isLong '-' l.1 || isShort '-' l.1 then siteLoopLog L allowed a ls
    else
      let b := ((a.and (msg (decide (l.1.split.length ≠ 1)) (.siteHead l.2 l.1))).orElse (nameLog L l.1.first l.2)).and
        (msg (!Str.mem l.1.first allowed) (.siteAtom l.2 l.1.first))
      match ls with
      | [] => b.and (msg true (.siteEnd l.2))
      | v :: rest => siteLoopLog L allowed (b.orElse (blockLog L [v] [[6]])) rest

/-- `_verify_on_site`, verify.py 1184-1291. -/
def onSiteLog (L : Lib K) (allowed : List Str) (lines : List Line) : Log :=
  (siteLoopLog L allowed (headerLog (lines.headD ([], 0)) energyUnits) lines.tail).and
    (msg (decide ((siteLoop L allowed (lines.tail.map Prod.fst)).2 = 0)) .noSites)

/-- `_verify_cone_axis`, verify.py 1297-1339. -/
def coneLog (L : Lib K) (lines : List Line) : Log :=
  let h := lines.headD ([], 0)
  if lines.length ≠ 2 then msg true (.size h.2 (Str.lit "cone-axis") [2] lines.length)
  else (headerLog h [['a'], ['r']]).orElse (blockLog L [lines.getD 1 ([], 0)] [[3, 2]])

/-- `_verify_spiral_vector`, verify.py 1345-1387. -/
def spiralLog (L : Lib K) (lines : List Line) : Log :=
  let h := lines.headD ([], 0)
  if lines.length ≠ 2 then msg true (.size h.2 (Str.lit "spiral-vector") [2] lines.length)
  else (headerLog h [['a'], ['r']]).orElse (blockLog L [lines.getD 1 ([], 0)] [[3]])

/-- `_VERIFY[section]`, verify.py 1409-1417, for the supported sections other than "atoms". -/
def sectionLog [Field K] [LinearOrder K] (L : Lib K) (found : PyDict Str (ℕ × ℕ)) (allowed : List Str)
    (name : Str) (lines : List Line) : Log :=
  let e := (found.get? (Str.lit "exchange")).isSome
  let o := (found.get? (Str.lit "on-site")).isSome
  if name = Str.lit "cell" then cellLog L lines
  else if name = Str.lit "notation" then notationLog L lines e o
  else if name = Str.lit "exchange" then exchangeLog L allowed lines
  else if name = Str.lit "on-site" then onSiteLog L allowed lines
  else if name = Str.lit "cone-axis" then coneLog L lines
  else if name = Str.lit "spiral-vector" then spiralLog L lines
  else nil

/-- `_SUPPORTED_SECTIONS`, verify.py 1396-1404. -/
def supported : List Str :=
  ["cell", "atoms", "notation", "exchange", "on-site", "cone-axis", "spiral-vector"].map Str.lit

/-- The loop over the found sections, verify.py 1525-1545. -/
def sectionsLog [Field K] [LinearOrder K] (L : Lib K) (found : PyDict Str (ℕ × ℕ)) (allowed : List Str)
    (lines : List Line) (acc : Log) : Log :=
  found.foldl (fun acc p =>
    if p.1 = Str.lit "atoms" then acc
    else if supported.contains p.1 then acc.orElse (sectionLog L found allowed p.1 (sliceL lines p.2))
    else acc.and (warn true (.warnSection p.1))) acc

/-- `_verify_model_file`, verify.py 1423-1561: the log, and the found sections unless an exception was raised before the
end of the verification. -/
def verifyLog [Field K] [LinearOrder K] (L : Lib K) (lines : List Line) :
    Log × Except PyErr (PyDict Str (ℕ × ℕ)) :=
  let text := lines.map Prod.fst
  let found := (sections text).2
  let a := scanLog '=' lines lines.length 0 nil
  let b := (a.and (msg (found.get? (Str.lit "cell")).isNone (.noSection (Str.lit "cell")))).and
    (msg (found.get? (Str.lit "atoms")).isNone (.noSection (Str.lit "atoms")))
  match found.get? (Str.lit "atoms") with
  | none => (sectionsLog L found [] lines b, .ok found)
  | some p =>
    let r := atomsLog L (sliceL lines p)
    match r.2 with
    | .error e => (b.and r.1, .error e)
    | .ok names => (sectionsLog L found names lines (b.and r.1), .ok found)

end Magnopy.Txt
