import Verif.Model.TxtVerify
import Verif.Model.TxtFilter
import Verif.Model.Ham
import Mathlib.Algebra.Order.Field.Basic

/-!
# Reading a model file  (src/magnopy/io/txt/internal.py 317-1160)

An exception ends the whole load, so the readers return `Except`.  Where several statements of one step can raise, the
order of the checks inside the step is kept, except for files which verification rejects.
-/

set_option autoImplicit false

namespace Magnopy

/-- The exception of a statement. -/
def Res.toExcept {σ : Type*} (r : Res σ) : Except PyErr σ :=
  match r.err with
  | none => .ok r.st
  | some e => .error e

namespace Txt

variable {K : Type} [Field K]

/-! ### Units, units/si.py and units/inside.py -/

/-- `ANGSTROM` = `LENGTH` -/
def angstrom : K := 1 / 10 ^ 10
/-- `BOHR_RADIUS` -/
def bohrRadius : K := 529177210903 / 10 ^ 22
/-- `ELECTRON_VOLT` -/
def electronVolt : K := 1602176634 / 10 ^ 28
/-- `K_BOLTZMANN` -/
def kBoltzmann : K := 1380649 / 10 ^ 29
/-- `RYDBERG_ENERGY` = `PLANK_CONSTANT * SPEED_OF_LIGHT * RYDBERG_CONSTANT` -/
def rydberg : K := (662607015 / 10 ^ 42) * 299792458 * (10973731568160 / 10 ^ 6)
/-- `ENERGY` -/
def energyUnit : K := (1 / 10 ^ 3) * electronVolt

/-! ### Words -/

/-- `float(word)`. -/
def parse (L : Lib K) (w : Str) : Except PyErr K :=
  match L.float w with
  | some x => .ok x
  | none => .error .valueError

/-- `[float(x) for x in words]`. -/
def floats (L : Lib K) : List Str → Except PyErr (List K)
  | [] => .ok []
  | w :: ws =>
    match parse L w with
    | .error e => .error e
    | .ok x =>
      match floats L ws with
      | .error e => .error e
      | .ok xs => .ok (x :: xs)

/-- `words[i]`. -/
def word (ws : List Str) (i : ℕ) : Except PyErr Str :=
  match ws[i]? with
  | some w => .ok w
  | none => .error .indexError

/-- `array[i] = xs` for a row of length three (a single number is broadcast). -/
def toRow : List K → Except PyErr (V3 K)
  | [x, y, z] => .ok ![x, y, z]
  | [x] => .ok ![x, x, x]
  | _ => .error .valueError

/-- A line of numbers as a row of an array. -/
def readRow (L : Lib K) (ws : List Str) : Except PyErr (V3 K) := (floats L ws).bind toRow

/-! ### Cell -/

/-- `np.linalg.det` of a `(3,3)` array. -/
def det3 (m : M3 K) : K :=
  m 0 0 * (m 1 1 * m 2 2 - m 1 2 * m 2 1) - m 0 1 * (m 1 0 * m 2 2 - m 1 2 * m 2 0) +
    m 0 2 * (m 1 0 * m 2 1 - m 1 1 * m 2 0)

/-- `units_conversion` for lengths, internal.py 368-373; other units leave the variable undefined. -/
def lengthFactor (units : Str) : Except PyErr K :=
  if units.startsWith ['b'] then .ok (bohrRadius / angstrom)
  else if units.startsWith ['a'] then .ok (angstrom / angstrom)
  else .error .nameError

/-- The scale factors, internal.py 396-410. -/
def readScale [LinearOrder K] (L : Lib K) (cell : M3 K) (ws : List Str) : Except PyErr (V3 K) :=
  match ws with
  | [w] =>
    match parse L w with
    | .error e => .error e
    | .ok x =>
      let x' := if x < 0 then |x| / |det3 cell| else x
      .ok ![x', x', x']
  | [a, b, c] => (floats L [a, b, c]).bind toRow
  | _ => .error .typeError

/-- The units of the cell section, internal.py 355-366. -/
def cellUnits (line : Str) : Except PyErr Str :=
  match line.split with
  | [_] => .ok (Str.lit "Angstrom")
  | [_, u] => .ok u
  | _ => .error .nameError

/-- `_read_cell`, internal.py 317-419. -/
def readCell [LinearOrder K] (L : Lib K) (lines : List Str) : Except PyErr (M3 K × V3 K) := do
  let units ← cellUnits (lines.headD [])
  let c ← lengthFactor units.lower
  let start ← if lines.length = 4 then .ok 1 else if lines.length = 5 then .ok 2 else .error .nameError
  let r0 ← readRow L ((lines.getD start []).split.take 3)
  let r1 ← readRow L ((lines.getD (start + 1) []).split.take 3)
  let r2 ← readRow L ((lines.getD (start + 2) []).split.take 3)
  let cell : M3 K := Matrix.of fun i j => ![r0, r1, r2] i j * c
  let scale ← if lines.length = 5 then readScale L cell (lines.getD 1 []).split else .ok ![1, 1, 1]
  .ok (Matrix.of fun i j => cell i j * scale j, scale)

/-! ### Atoms -/

/-- What the file says about an atom; `pos` is the relative position, `spin` the spin vector. -/
structure AtomData (K : Type) where
  /-- name -/
  name : Str
  /-- relative position -/
  pos : V3 K
  /-- spin vector -/
  spin : V3 K
  /-- charge -/
  charge : K
  /-- g factor -/
  gFactor : K

/-- `absolute_to_relative(v, cell)` of wulfric: the solution of `r @ cell = v`; a singular system raises
`LinAlgError`, which is a `ValueError`. -/
def toRelative [DecidableEq K] (cell : M3 K) (v : V3 K) : Except PyErr (V3 K) :=
  if det3 cell = 0 then .error .valueError
  else .ok ![det3 ![v, cell 1, cell 2] / det3 cell, det3 ![cell 0, v, cell 2] / det3 cell,
    det3 ![cell 0, cell 1, v] / det3 cell]

/-- `float(line[data_header.index(key)])`. -/
def column (L : Lib K) (hdr ws : List Str) (key : Str) : Except PyErr K :=
  match hdr.idxOf? key with
  | none => .error .valueError
  | some i => (word ws i).bind (parse L)

/-- Three columns. -/
def column3 (L : Lib K) (hdr ws : List Str) (k1 k2 k3 : Str) : Except PyErr (V3 K) := do
  let a ← column L hdr ws k1
  let b ← column L hdr ws k2
  let c ← column L hdr ws k3
  .ok ![a, b, c]

/-- The spin of an atom line, internal.py 524-547. -/
def readSpin (L : Lib K) (hdr ws : List Str) : Except PyErr (V3 K) :=
  if Str.mem (Str.lit "sx") hdr then column3 L hdr ws (Str.lit "sx") (Str.lit "sy") (Str.lit "sz")
  else if Str.mem (Str.lit "sp") hdr then do
    let phi ← column L hdr ws (Str.lit "sp")
    let theta ← column L hdr ws (Str.lit "st")
    let s ← column L hdr ws (Str.lit "s")
    .ok ![s * L.sin theta * L.cos phi, s * L.sin theta * L.sin phi, s * L.cos theta]
  else if Str.mem (Str.lit "s") hdr then do
    let s ← column L hdr ws (Str.lit "s")
    .ok ![0, 0, s]
  else .ok ![0, 0, 0]

/-- The name, internal.py 495. -/
def atomName (hdr ws : List Str) : Except PyErr Str :=
  match hdr.idxOf? (Str.lit "name") with
  | none => .error .valueError
  | some i => word ws i

/-- The column if the header has it. -/
def columnOr (L : Lib K) (hdr ws : List Str) (k : Str) (d : K) : Except PyErr K :=
  if Str.mem k hdr then column L hdr ws k else .ok d

/-- The three coordinates, internal.py 498-520. -/
def atomCoords (L : Lib K) (hdr ws : List Str) : Except PyErr (V3 K) :=
  if Str.mem (Str.lit "r1") hdr then column3 L hdr ws (Str.lit "r1") (Str.lit "r2") (Str.lit "r3")
  else column3 L hdr ws ['x'] ['y'] ['z']

/-- Relative position, internal.py 498-520. -/
def atomPos [DecidableEq K] (cell : M3 K) (c : K) (scale : V3 K) (hdr : List Str) (p : V3 K) : Except PyErr (V3 K) :=
  if Str.mem (Str.lit "r1") hdr then .ok p else toRelative cell fun i => p i * scale i * c

/-- One atom line, internal.py 486-560. -/
def readAtom [DecidableEq K] (L : Lib K) (cell : M3 K) (c : K) (scale : V3 K) (hdr : List Str) (l : Str) :
    Except PyErr (AtomData K) := do
  let name ← atomName hdr l.split
  let p ← atomCoords L hdr l.split
  let charge ← columnOr L hdr l.split ['q'] 0
  let g ← columnOr L hdr l.split ['g'] 2
  let spin ← readSpin L hdr l.split
  let pos ← atomPos cell c scale hdr p
  .ok ⟨name, pos, spin, charge, g⟩

/-- The loop over the atom lines. -/
def readAtomLines [DecidableEq K] (L : Lib K) (cell : M3 K) (c : K) (scale : V3 K) (hdr : List Str) :
    List Str → Except PyErr (List (AtomData K))
  | [] => .ok []
  | l :: ls => do
    let a ← readAtom L cell c scale hdr l
    let as ← readAtomLines L cell c scale hdr ls
    .ok (a :: as)

/-- The units of the atoms section, internal.py 455-462. -/
def atomUnits (line : Str) : Str :=
  match line.lower.split with
  | [_, u] => u
  | _ => Str.lit "relative"

/-- `units_conversion` of `_read_atoms`, internal.py 464-480. -/
def atomFactor (units : Str) : Except PyErr K :=
  if units.startsWith ['r'] then .ok 1 else lengthFactor units

/-- `_read_atoms`, internal.py 422-562. -/
def readAtoms [DecidableEq K] (L : Lib K) (cell : M3 K) (scale : V3 K) (lines : List Str) :
    Except PyErr (List (AtomData K)) := do
  let c ← atomFactor (atomUnits (lines.headD []))
  readAtomLines L cell c scale (lines.getD 1 []).lower.split (lines.drop 2)

/-- The data of an atom of the crystal: wulfric numbers the atoms from one in the order in which they are added. -/
def dataOf (data : List (AtomData K)) (a : Atom) : Option (AtomData K) := data[(a.index - 1).toNat]?

/-- The Hamiltonian after the atoms are added: `spin` is the length of the spin vector, the distance is that of wulfric. -/
def mkHam (L : Lib K) (cell : M3 K) (data : List (AtomData K)) : St K :=
  St.empty ⟨fun _ => 0, 0⟩ (data.mapIdx fun i d => ⟨String.ofList d.name, (i : ℤ) + 1⟩)
    (fun a => (dataOf data a).map fun d => L.norm d.spin)
    (fun b =>
      let p := fun a => ((dataOf data a).map AtomData.pos).getD 0
      let v : V3 K := p b.2.1 + ![(b.2.2.1 : K), (b.2.2.2.1 : K), (b.2.2.2.2 : K)] - p b.1
      L.norm fun j => v 0 * cell 0 j + v 1 * cell 1 j + v 2 * cell 2 j)

/-! ### Notation -/

/-- `word.lower() in TRUE_KEYWORDS`. -/
def isTrue (w : Str) : Bool := Str.mem w.lower trueWords

/-- One line of `_read_notation`, internal.py 588-600. -/
def notationLine [DecidableEq K] (L : Lib K) (l : Str) (s : St K) : Except PyErr (St K) :=
  if l.lower.startsWith ['s'] then (word l.split 1).bind fun w => (s.setSN (isTrue w)).toExcept
  else if l.lower.startsWith ['d'] then (word l.split 1).bind fun w => (s.setDC (isTrue w)).toExcept
  else if l.lower.startsWith ['e'] then
    ((word l.split 1).bind (parse L)).bind fun x => (s.setEF x).toExcept
  else if l.lower.startsWith ['o'] then
    ((word l.split 1).bind (parse L)).bind fun x => (s.setOF x).toExcept
  else .ok s

/-- The loop of `_read_notation`. -/
def readNotationLines [DecidableEq K] (L : Lib K) : List Str → St K → Except PyErr (St K)
  | [], s => .ok s
  | l :: ls, s => (notationLine L l s).bind (readNotationLines L ls)

/-- `_read_notation`, internal.py 565-602. -/
def readNotation [DecidableEq K] (L : Lib K) (lines : List Str) (s : St K) : Except PyErr (St K) :=
  readNotationLines L lines.tail s

/-! ### Exchange -/

/-- The keyword arguments collected in `_read_bond`, internal.py 745-748. -/
structure Parts (K : Type) where
  /-- `iso` -/
  iso : Option K := none
  /-- `matrix` -/
  matrix : Option (M3 K) := none
  /-- `symm` -/
  symm : Option (M3 K) := none
  /-- `dmi` -/
  dmi : Option (List K) := none

/-- A `(3,3)` array as an argument. -/
def rowsOf (m : M3 K) : Param.ArrayLike K :=
  .rows [[m 0 0, m 0 1, m 0 2], [m 1 0, m 1 1, m 1 2], [m 2 0, m 2 1, m 2 2]]

/-- `spinham.add_exchange(name1, name2, R, matrix=matrix, iso=iso, aniso=symm, dmi=dmi)`, internal.py 764-766. -/
def addParts (n1 n2 : Str) (R : Cell) (p : Parts K) (s : St K) : Except PyErr (St K) :=
  match (Param.init (p.matrix.map rowsOf) p.iso (p.symm.map rowsOf) (p.dmi.map .vector)).toExcept with
  | .error e => .error e
  | .ok m => (s.addExchange (.name (String.ofList n1)) (.name (String.ofList n2)) R (.fresh m)).toExcept

/-- The symmetric anisotropy line, internal.py 757-758. -/
def symmOf : List K → Except PyErr (M3 K)
  | [xx, yy, xy, xz, yz] => .ok !![xx, xy, xz; xy, yy, yz; xz, yz, -xx - yy]
  | _ => .error .valueError

/-- The loop of `_read_bond`, internal.py 750-767. -/
def bondLines (L : Lib K) (n1 n2 : Str) (R : Cell) : List Str → Parts K → St K → Except PyErr (St K)
  | [], _, s => .ok s
  | l :: ls, p, s =>
    if l.lower.startsWith ['i'] then
      match (word l.split 1).bind (parse L) with
      | .error e => .error e
      | .ok x =>
        let p' := { p with iso := some x }
        (addParts n1 n2 R p' s).bind (bondLines L n1 n2 R ls p')
    else if l.lower.startsWith ['d'] then
      match floats L l.split.tail with
      | .error e => .error e
      | .ok x =>
        let p' := { p with dmi := some x }
        (addParts n1 n2 R p' s).bind (bondLines L n1 n2 R ls p')
    else if l.lower.startsWith ['s'] then
      match (floats L l.split.tail).bind symmOf with
      | .error e => .error e
      | .ok x =>
        let p' := { p with symm := some x }
        (addParts n1 n2 R p' s).bind (bondLines L n1 n2 R ls p')
    else if l.lower.startsWith ['m'] then
      match ls with
      | a :: b :: c :: rest =>
        match readRow L a.split, readRow L b.split, readRow L c.split with
        | .ok x, .ok y, .ok z =>
          let p' := { p with matrix := some ![x, y, z] }
          (addParts n1 n2 R p' s).bind (bondLines L n1 n2 R rest p')
        | .error e, _, _ => .error e
        | _, .error e, _ => .error e
        | _, _, .error e => .error e
      | _ => .error .indexError
    else (addParts n1 n2 R p s).bind (bondLines L n1 n2 R ls p)

/-- `int(x)`. -/
def parseInt (L : Lib K) (w : Str) : Except PyErr ℤ :=
  match L.int w with
  | some x => .ok x
  | none => .error .valueError

/-- `_read_bond`, internal.py 708-768.  `units_conversion` is not used.  A header with less than five words counts as
`ValueError`. -/
def readBond (L : Lib K) (lines : List Str) (s : St K) : Except PyErr (St K) :=
  match (lines.headD []).split with
  | a :: b :: i :: j :: k :: _ => do
    let i ← parseInt L i
    let j ← parseInt L j
    let k ← parseInt L k
    bondLines L a b (i, j, k) lines.tail {} s
  | _ => .error .valueError

/-- The blocks between long separators, internal.py 684-703: separators are skipped, a block ends before the next
separator. -/
def groups (sym : Char) : List Str → List (List Str)
  | [] => []
  | l :: ls =>
    if isLong sym l then groups sym ls
    else
      match ls with
      | [] => [[l]]
      | d :: _ =>
        if isLong sym d then [l] :: groups sym ls
        else
          match groups sym ls with
          | [] => [[l]]
          | g :: gs => (l :: g) :: gs

/-- The units of a section, internal.py 640-646, 807-812. -/
def energyName (line : Str) : Str :=
  match line.lower.split with
  | _ :: u :: _ => u
  | _ => Str.lit "meV"

/-- `units_conversion` of `_read_exchange`, internal.py 650-675; `ENERGY_UNITS` of line 657 is not defined. -/
def exchangeFactor (units : Str) : Except PyErr K :=
  if units.startsWith ['r'] then .ok (rydberg / energyUnit)
  else if units.startsWith ['j'] then .error .nameError
  else if units.startsWith ['k'] then .ok (kBoltzmann / energyUnit)
  else if units.startsWith ['e'] then .ok (electronVolt / energyUnit)
  else if units.startsWith ['m'] then .ok ((1 / 10 ^ 3) * electronVolt / energyUnit)
  else .error .nameError

/-- The bonds one after another. -/
def readBonds (L : Lib K) : List (List Str) → St K → Except PyErr (St K)
  | [], s => .ok s
  | g :: gs, s => (readBond L g s).bind (readBonds L gs)

/-- `_read_exchange`, internal.py 605-705.  The conversion factor is computed (and may raise), but it has no effect. -/
def readExchange (L : Lib K) (lines : List Str) (s : St K) : Except PyErr (St K) := do
  let _factor ← exchangeFactor (K := K) (energyName (lines.headD []))
  readBonds L (groups '-' lines.tail) s

/-! ### On-site -/

/-- `units_conversion` of `_read_on_site`, internal.py 819-848. -/
def onSiteFactor (units : Str) : Except PyErr K :=
  if units.startsWith ['r'] then .ok (rydberg / energyUnit)
  else if units.startsWith ['j'] then .ok (1 / energyUnit)
  else if units.startsWith ['k'] then .ok (kBoltzmann / energyUnit)
  else if units.startsWith ['e'] then .ok (electronVolt / energyUnit)
  else if units.startsWith ['m'] then .ok ((1 / 10 ^ 3) * electronVolt / energyUnit)
  else .error .nameError

/-- The matrix of an on-site line, internal.py 868-872. -/
def siteMatrix (L : Lib K) (c : K) (ws : List Str) : Except PyErr (M3 K) :=
  match ws with
  | a :: b :: d :: e :: f :: g :: _ =>
    match floats L [a, b, d, e, f, g] with
    | .ok [xx, yy, zz, xy, xz, yz] => .ok (Matrix.of fun i j => !![xx, xy, xz; xy, yy, yz; xz, yz, zz] i j * c)
    | .ok _ => .error .valueError
    | .error e => .error e
  | _ => .error .indexError

/-- The loop of `_read_on_site`, internal.py 853-878. -/
def siteLines (L : Lib K) (c : K) : List Str → St K → Except PyErr (St K)
  | [], s => .ok s
  | l :: ls, s =>
    if isLong '-' l then siteLines L c ls s
    else
      match s.getAtom (String.ofList l.strip) with
      | .error e => .error e
      | .ok a =>
        match ls with
        | [] => .error .indexError
        | v :: rest =>
          match siteMatrix L c v.split with
          | .error e => .error e
          | .ok m => ((s.addOnSite (.atom a) (.fresh m)).toExcept).bind (siteLines L c rest)

/-- `_read_on_site`, internal.py 771-880. -/
def readOnSite (L : Lib K) (lines : List Str) (s : St K) : Except PyErr (St K) := do
  let c ← onSiteFactor (energyName (lines.headD []))
  siteLines L c lines.tail s

/-! ### Cone axis and spiral vector -/

/-- `n @ matrix`. -/
def vecMul (v : V3 K) (m : M3 K) : V3 K := fun j => v 0 * m 0 j + v 1 * m 1 j + v 2 * m 2 j

/-- Whether the units of the section are relative, internal.py 920-939, 996-1015. -/
def isRelative (line : Str) : Except PyErr Bool :=
  let units :=
    match line.lower.split with
    | _ :: u :: _ => u
    | _ => Str.lit "relative"
  if units.startsWith ['r'] then .ok true
  else if units.startsWith ['a'] then .ok false
  else .error .nameError

/-- `cone_axis.setter`, hamiltonian.py 174-190, for a vector of length three: `np.allclose(new_axis, 0)` raises. -/
def setCone [LinearOrder K] (L : Lib K) (v : V3 K) : Except PyErr (V3 K) :=
  if (List.finRange 3).all fun i => decide (|v i| ≤ 1 / 10 ^ 8) then .error .valueError
  else .ok fun i => v i / L.norm v

/-- `_read_cone_axis`, internal.py 883-956.  Division by a zero length (numpy: `nan`) is outside of the model. -/
def readCone [LinearOrder K] (L : Lib K) (cell : M3 K) (lines : List Str) : Except PyErr (V3 K) := do
  let relative ← isRelative (lines.headD [])
  let n ← floats L (lines.getD 1 []).split
  match n with
  | [alpha, beta] => setCone L ![L.cos beta * L.sin alpha, L.sin beta * L.sin alpha, L.cos alpha]
  | [x, y, z] =>
    let v := if relative then vecMul ![x, y, z] cell else ![x, y, z]
    setCone L fun i => v i / L.norm v
  | _ => .error .valueError

/-- `_read_spiral_vector`, internal.py 959-1024. -/
def readSpiral (L : Lib K) (cell : M3 K) (lines : List Str) : Except PyErr (V3 K) := do
  let relative ← isRelative (lines.headD [])
  let q ← floats L (lines.getD 1 []).split
  match q with
  | [x, y, z] => .ok (if relative then vecMul ![x, y, z] (L.recip cell) else ![x, y, z])
  | _ => .error .valueError

/-! ### The file -/

/-- The loaded spin Hamiltonian. -/
structure Loaded (K : Type) where
  /-- `cell` -/
  cell : M3 K
  /-- data of the atoms -/
  data : List (AtomData K)
  /-- parameters and notation -/
  ham : St K
  /-- `cone_axis` -/
  cone : Option (V3 K)
  /-- `spiral_vector` -/
  spiral : Option (V3 K)

/-- `lines[slice(*sections[name])]`. -/
def sectionLines (lines : List Str) (found : PyDict Str (ℕ × ℕ)) (name : String) : Except PyErr (List Str) :=
  match found.get? (Str.lit name) with
  | some p => .ok (slice lines p)
  | none => .error .keyError

/-- `name in sections`. -/
def hasSection (found : PyDict Str (ℕ × ℕ)) (name : String) : Bool := (found.get? (Str.lit name)).isSome

/-- `if name in sections: … = f(lines[slice(*sections[name])])`. -/
def ifSection {α : Type} (lines : List Str) (found : PyDict Str (ℕ × ℕ)) (name : String) (f : List Str → Except PyErr α)
    (d : α) : Except PyErr α :=
  if hasSection found name then (sectionLines lines found name).bind f else .ok d

/-- `if "exchange" in sections or "on-site" in sections: _read_notation(…)`, internal.py 1140-1142. -/
def ifNotation [DecidableEq K] (L : Lib K) (lines : List Str) (found : PyDict Str (ℕ × ℕ)) (s : St K) : Except PyErr (St K) :=
  if hasSection found "exchange" || hasSection found "on-site" then
    (sectionLines lines found "notation").bind fun t => readNotation L t s
  else .ok s

/-- `load_spinham_txt` after verification, internal.py 1130-1160. -/
def readAll [LinearOrder K] (L : Lib K) (lines : List Str) (found : PyDict Str (ℕ × ℕ)) : Except PyErr (Loaded K) := do
  let (cell, scale) ← (sectionLines lines found "cell").bind (readCell L)
  let data ← (sectionLines lines found "atoms").bind (readAtoms L cell scale)
  let s1 ← ifNotation L lines found (mkHam L cell data)
  let s2 ← ifSection lines found "exchange" (fun t => readExchange L t s1) s1
  let s3 ← ifSection lines found "on-site" (fun t => readOnSite L t s2) s2
  let cone ← ifSection lines found "cone-axis" (fun t => (readCone L cell t).map some) none
  let spiral ← ifSection lines found "spiral-vector" (fun t => (readSpiral L cell t).map some) none
  .ok ⟨cell, data, s3, cone, spiral⟩

/-- What `load_spinham_txt` can raise: `FailedToVerifyTxtModelFile` or something else. -/
inductive LoadErr where
  | rejected
  | py (e : PyErr)
  deriving DecidableEq, Repr

/-- `load_spinham_txt` on the lines of the file, internal.py 1100-1160. -/
def load [LinearOrder K] (L : Lib K) (text : List Str) : Except LoadErr (Loaded K) :=
  let lines := (filter text).map Prod.fst
  match verify L lines with
  | .error e => .error (.py e)
  | .ok (true, _) => .error .rejected
  | .ok (false, found) => (readAll L lines found).mapError .py

end Txt
end Magnopy
