import Verif.Model.Hdf5

/-!
# Reading the output of TB2J  (src/magnopy/io/txt/tb2j.py)

A file is the list of its lines without the line breaks; `readline` at the end of the file gives the empty string, which is
falsy, whereas an empty line is not.  The variable `line` of the Python code holds a string or, after the table of atoms, a list
of words.  `bravais_type` is `None`; `eps_rel`, the magnetic moments (only whether they are numbers matters) and the comparison
of distances (it only prints) are left out.
-/

set_option autoImplicit false

namespace Magnopy
namespace Tb2j

open Txt
open H5 (Full)

/-- `flag in line` for a string. -/
def has (flag : Str) : Str → Bool
  | [] => flag.isPrefixOf []
  | c :: s => flag.isPrefixOf (c :: s) || has flag s

/-- `minor_sep`, tb2j.py 77. -/
def minorSep : Str := List.replicate 88 '-'

/-- `line.translate(garbage)`, tb2j.py 78-80. -/
def clean (s : Str) : Str := s.filter fun c => !((Str.lit "()[],'").contains c)

/-- The flags, tb2j.py 82-88. -/
def cellFlag : Str := Str.lit "Cell (Angstrom):"
/-- `atoms_flag` -/
def atomsFlag : Str := Str.lit "Atoms:"
/-- `atom_end_flag` -/
def atomEndFlag : Str := Str.lit "Total"
/-- `exchange_flag` -/
def exchangeFlag : Str := Str.lit "Exchange:"
/-- `iso_flag` -/
def isoFlag : Str := Str.lit "J_iso:"
/-- `aniso_flag` -/
def anisoFlag : Str := Str.lit "J_ani:"
/-- `dmi_flag` -/
def dmiFlag : Str := Str.lit "DMI:"

/-- The variable `line` when it is truthy. -/
inductive Line where
  | text (l : Str)
  | words (ws : List Str)

/-- `flag in line`. -/
def Line.contains (flag : Str) : Line → Bool
  | .text l => has flag l
  | .words ws => Str.mem flag ws

variable {K : Type} [Field K]

/-- A row of three numbers; another length is refused with `ValueError` (by numpy or by wulfric). -/
def row3 (L : Lib K) (ws : List Str) : Except PyErr (V3 K) :=
  match floats L ws with
  | .error e => .error e
  | .ok [x, y, z] => .ok ![x, y, z]
  | .ok _ => .error .valueError

/-- What is known about an atom. -/
structure TbAtom (K : Type) where
  /-- name -/
  name : Str
  /-- relative position -/
  pos : V3 K
  /-- charge -/
  charge : Option K

/-- The model before the exchange section is read. -/
structure Head (K : Type) where
  /-- cell -/
  cell : M3 K
  /-- atoms -/
  atoms : List (TbAtom K)

/-- The cell, tb2j.py 99-118. -/
def readCell (L : Lib K) (ls : List Str) (h : Head K) : Except PyErr (Head K) :=
  match row3 L (ls.getD 0 []).split, row3 L (ls.getD 1 []).split, row3 L (ls.getD 2 []).split with
  | .ok a, .ok b, .ok c => .ok { h with cell := ![a, b, c] }
  | .error e, _, _ => .error e
  | _, .error e, _ => .error e
  | _, _, .error e => .error e

/-- `try: … float(line[i]) … except IndexError: None` for several columns. -/
def optional (L : Lib K) (ws : List Str) (n : ℕ) : Except PyErr (Option (List K)) :=
  if ws.length < n then .ok none else (floats L ws).map some

/-- One atom, tb2j.py 126-141. -/
def readAtom [DecidableEq K] (L : Lib K) (cell : M3 K) (ws : List Str) : Except PyErr (TbAtom K) :=
  match optional L ((ws.drop 5).take 3) 3, optional L ((ws.drop 4).take 1) 1, row3 L ((ws.drop 1).take 3) with
  | .ok _, .ok q, .ok p =>
    match toRelative cell p with
    | .ok r => .ok ⟨ws.headD [], r, q.map fun l => l.headD 0⟩
    | .error e => .error e
  | .error e, _, _ => .error e
  | _, .error e, _ => .error e
  | _, _, .error e => .error e

/-- The loop over the atoms, tb2j.py 123-143: the model, the variable `line` (`none`: falsy), and the rest of the file. -/
def atomRows [DecidableEq K] (L : Lib K) : List Str → Head K → Except PyErr (Head K × Option Line × List Str)
  | [], h => .ok (h, none, [])
  | l :: ls, h =>
    if l.split = [] then .ok (h, none, ls)
    else if Str.mem atomEndFlag l.split then .ok (h, some (.words l.split), ls)
    else
      match readAtom L h.cell l.split with
      | .error e => .error e
      | .ok a => atomRows L ls { h with atoms := h.atoms ++ [a] }

/-- `if line and cell_flag in line`, tb2j.py 98-118. -/
def cellStep (L : Lib K) (l : Str) (ls : List Str) (h : Head K) : Except PyErr (Head K × List Str) :=
  if has cellFlag l then (readCell L ls h).map fun h' => (h', ls.drop 3) else .ok (h, ls)

/-- `if line and atoms_flag in line`, tb2j.py 121-143. -/
def atomsStep [DecidableEq K] (L : Lib K) (l : Str) (ls : List Str) (h : Head K) :
    Except PyErr (Head K × Option Line × List Str) :=
  if has atomsFlag l then atomRows L (ls.drop 2) h else .ok (h, some (.text l), ls)

/-- Everything before the exchange section, tb2j.py 95-147, at most `n` lines: the model, the variable `line` (`none`: falsy), and
the rest of the file. -/
def preamble [DecidableEq K] (L : Lib K) : ℕ → List Str → Head K → Except PyErr (Head K × Option Line × List Str)
  | 0, ls, h => .ok (h, none, ls)
  | _ + 1, [], h => .ok (h, none, [])
  | n + 1, l :: ls, h =>
    match cellStep L l ls h with
    | .error e => .error e
    | .ok (h1, ls1) =>
      match atomsStep L l ls1 h1 with
      | .error e => .error e
      | .ok (h2, none, ls2) => .ok (h2, none, ls2)
      | .ok (h2, some line, ls2) =>
        if line.contains exchangeFlag then .ok (h2, some line, ls2) else preamble L n ls2 h2

/-- The keyword arguments of `add_exchange`. -/
structure Args (K : Type) where
  /-- `iso` -/
  iso : Option K := none
  /-- `aniso` -/
  aniso : Option (M3 K) := none
  /-- `dmi` -/
  dmi : Option (List K) := none

/-- Isotropic exchange, tb2j.py 171-172. -/
def isoStep (L : Lib K) (l : Str) (p : Args K) : Except PyErr (Args K) :=
  if has isoFlag l then (parse L (l.split.getLastD [])).map fun x => { p with iso := some x } else .ok p

/-- DMI, tb2j.py 185-186. -/
def dmiStep (L : Lib K) (l : Str) (p : Args K) : Except PyErr (Args K) :=
  if has dmiFlag l then
    (floats L ((clean l).split.drop ((clean l).split.length - 3))).map fun x => { p with dmi := some x }
  else .ok p

/-- The loop over the lines of a block, tb2j.py 167-186: what was given, whether it ended at a separator, and the rest. -/
def block (L : Lib K) : List Str → Args K → Except PyErr (Args K × Bool × List Str)
  | [], p => .ok (p, false, [])
  | l :: ls, p =>
    match isoStep L l p with
    | .error e => .error e
    | .ok p1 =>
      if has anisoFlag l then
        match ls with
        | a :: b :: c :: rest =>
          match row3 L (clean a).split, row3 L (clean b).split, row3 L (clean c).split with
          | .ok x, .ok y, .ok z =>
            match dmiStep L l { p1 with aniso := some ![x, y, z] } with
            | .error e => .error e
            | .ok p2 => if has minorSep l then .ok (p2, true, rest) else block L rest p2
          | .error e, _, _ => .error e
          | _, .error e, _ => .error e
          | _, _, .error e => .error e
        | _ => .error .valueError
      else
        match dmiStep L l p1 with
        | .error e => .error e
        | .ok p2 => if has minorSep l then .ok (p2, true, ls) else block L ls p2

/-- `tuple(map(int, words))`. -/
def ints (L : Lib K) : List Str → Except PyErr (List ℤ)
  | [] => .ok []
  | w :: ws =>
    match parseInt L w with
    | .error e => .error e
    | .ok x =>
      match ints L ws with
      | .error e => .error e
      | .ok xs => .ok (x :: xs)

/-- `model.add_exchange(atom1, atom2, R, iso=iso, aniso=aniso, dmi=dmi)`, tb2j.py 189; a tuple `R` with less than three entries
raises `ValueError`. -/
def add (n1 n2 : Str) (R : List ℤ) (p : Args K) (s : St K) : Except PyErr (St K) :=
  match R with
  | [i, j, k] => addParts n1 n2 (i, j, k) { iso := p.iso, symm := p.aniso, dmi := p.dmi } s
  | _ => .error .valueError

/-- The blocks, tb2j.py 156-196, at most `n` of them; the separator before the first of them is read.  The first line of a block
is a list of words; if the separator is one of them, no lines are read for this block. -/
def bonds (L : Lib K) : ℕ → List Str → St K → Except PyErr (St K)
  | 0, _, s => .ok s
  | n + 1, ls, s =>
    match (clean (ls.headD [])).split with
    | a :: b :: ws =>
      match ints L (ws.take 3), parse L ((a :: b :: ws).getLastD []) with
      | .ok R, .ok _ =>
        match (if Str.mem minorSep (a :: b :: ws) then .ok ({}, true, ls.tail) else block L ls.tail {}) with
        | .error e => .error e
        | .ok (p, more, rest) =>
          match add a b R p s with
          | .error e => .error e
          | .ok s' => if more then bonds L n rest s' else .ok s'
      | .error e, _ => .error e
      | _, .error e => .error e
    | _ => .error .indexError

/-- `while line and minor_sep not in line: line = file.readline()`, tb2j.py 157-158. -/
def skip : List Str → List Str
  | [] => []
  | l :: ls => if has minorSep l then ls else skip ls

/-- The Hamiltonian with its atoms: `SpinHamiltonian(notation="TB2J")` and the calls of `add_atom`, tb2j.py 92, 134-141.  The
spins of the atoms are not set (only `magmom` is). -/
def start [DecidableEq K] (L : Lib K) (h : Head K) : Except PyErr (St K) :=
  let p := fun a : Atom => ((h.atoms[(a.index - 1).toNat]?).map TbAtom.pos).getD 0
  (St.setNotation (.str "TB2J") (St.empty ⟨fun _ => 0, 0⟩ (h.atoms.mapIdx fun i d => ⟨String.ofList d.name, (i : ℤ) + 1⟩) (fun _ => none)
    (fun b =>
      let v : V3 K := p b.2.1 + ![(b.2.2.1 : K), (b.2.2.2.1 : K), (b.2.2.2.2 : K)] - p b.1
      L.norm fun j => v 0 * h.cell 0 j + v 1 * h.cell 1 j + v 2 * h.cell 2 j))).toExcept

/-- The exchange section, tb2j.py 156-196. -/
def exchange (L : Lib K) (line : Option Line) (ls : List Str) (s : St K) : Except PyErr (St K) :=
  match line with
  | none => .ok s
  | some l => bonds L (ls.length + 1) (if l.contains minorSep then ls else skip ls) s

/-- `load_tb2j`, tb2j.py 27-199.  The default cell of wulfric is the unit cube, the default g-factor is 2. -/
def load [DecidableEq K] (L : Lib K) (ls : List Str) : Except PyErr (Full K) :=
  match preamble L ls.length ls ⟨1, []⟩ with
  | .error e => .error e
  | .ok (h, line, rest) =>
    match start L h with
    | .error e => .error e
    | .ok s =>
      match exchange L line rest s with
      | .error e => .error e
      | .ok s' => .ok {
          cell := h.cell
          pos := fun a => ((h.atoms[(a.index - 1).toNat]?).map TbAtom.pos).getD 0
          spinVec := fun _ => none
          gFactor := fun _ => 2
          charge := fun a => (h.atoms[(a.index - 1).toNat]?).bind TbAtom.charge
          ham := s'
          spiral := none
          cone := none }

end Tb2j
end Magnopy
