import Verif.Model.TxtRead
import Mathlib.Data.List.Sort
import Mathlib.Data.List.Enum

/-!
# HDF5 files and the choice of the reader  (src/magnopy/io/hdf5/internal.py, src/magnopy/io/__init__.py)

A group of the file is a record; a part which may be missing is an `Option`.  Subgroups are pairs of a label and a
content; h5py visits them in the order of the labels.  Names of spin Hamiltonian groups are taken as plain names
(no path with "/").  Files are values: opening, closing and locking are not modelled.
-/

set_option autoImplicit false

namespace Magnopy
namespace H5

open Txt

/-- A `SpinHamiltonian` with its crystal: what `atom.position`, `atom.spin_vector`, `atom.g_factor`, `atom.charge` give
(`none`: reading raises `ValueError`), the parameters and the ground state. -/
structure Full (K : Type) where
  /-- `cell` -/
  cell : M3 K
  /-- `atom.position` -/
  pos : Atom → V3 K
  /-- `atom.spin_vector` -/
  spinVec : Atom → Option (V3 K)
  /-- `atom.g_factor` -/
  gFactor : Atom → K
  /-- `atom.charge` -/
  charge : Atom → Option K
  /-- atoms, parameters and notation -/
  ham : St K
  /-- `spiral_vector` -/
  spiral : Option (V3 K)
  /-- `cone_axis` -/
  cone : Option (V3 K)

/-- Group of an atom.  (`name` and `position` are always written.) -/
structure AtomG (K : Type) where
  /-- dataset "name" -/
  name : String
  /-- dataset "position" -/
  pos : V3 K
  /-- dataset "spin" -/
  spin : Option (V3 K) := none
  /-- dataset "g-factor" -/
  gFactor : Option K := none
  /-- dataset "charge" -/
  charge : Option K := none

/-- Group "notation". -/
structure NotationG (K : Type) where
  /-- dataset "spin-normalized" -/
  sn : Option Bool := none
  /-- dataset "double-counting" -/
  dc : Option Bool := none
  /-- dataset "exchange-factor" -/
  ef : Option K := none
  /-- dataset "on-site-factor" -/
  osf : Option K := none

/-- Group of a bond. -/
structure BondG (K : Type) where
  /-- dataset "atom-1" -/
  name1 : String
  /-- dataset "atom-2" -/
  name2 : String
  /-- dataset "ijk" -/
  ijk : Cell
  /-- dataset "matrix" -/
  matrix : M3 K

/-- Group of an on-site parameter. -/
structure SiteG (K : Type) where
  /-- dataset "atom" -/
  name : String
  /-- dataset "matrix" -/
  matrix : M3 K

/-- The root group of a spin Hamiltonian. -/
structure Group (K : Type) where
  /-- attribute "type" -/
  type : Str
  /-- datasets "a1", "a2", "a3" of group "cell" -/
  cell : M3 K
  /-- attribute "units" of group "cell" -/
  cellUnits : Str
  /-- group "atoms" -/
  atoms : List (Str × AtomG K) := []
  /-- group "notation" -/
  notn : Option (NotationG K) := none
  /-- group "exchange" with attribute "units" -/
  exchange : Option (Str × List (Str × BondG K)) := none
  /-- group "on-site" with attribute "units" -/
  onSite : Option (Str × List (Str × SiteG K)) := none
  /-- dataset "spiral-vector" with attribute "units" -/
  spiral : Option (V3 K × Str) := none
  /-- dataset "cone-axis" with attribute "units" -/
  cone : Option (V3 K × Str) := none

/-! ### Labels -/

/-- `str(i + 1)`. -/
def label (i : ℕ) : Str := Nat.toDigits 10 (i + 1)

/-- Order of h5py on the names of the members of a group. -/
def nameLe : Str → Str → Bool
  | [], _ => true
  | _ :: _, [] => false
  | a :: s, b :: t => decide (a < b) || (decide (a = b) && nameLe s t)

/-- `for i, x in enumerate(xs): group.create_group(str(i + 1))`. -/
def labelled {α : Type} (xs : List α) : List (Str × α) := xs.zipIdx.map fun p => (label p.2, p.1)

/-- `for index in group: group[index]`. -/
def visit {α : Type} (g : List (Str × α)) : List α :=
  (g.insertionSort fun a b => nameLe a.1 b.1 = true).map Prod.snd

/-! ### Writing -/

section Dump
variable {K : Type}

/-- Group, cell and units, internal.py 341-348; `LENGTH_NAME` of units/inside.py. -/
def start (x : Full K) : Group K := { type := Str.lit "SpinHamiltonian", cell := x.cell, cellUnits := Str.lit "Angstrom" }

/-- One turn of the loop over the atoms, internal.py 352-362. -/
def writeAtom (x : Full K) (p : Atom × ℕ) (g : Group K) : Res (Group K) :=
  let e : AtomG K := { name := p.1.name, pos := x.pos p.1 }
  match x.spinVec p.1 with
  | none => .raise { g with atoms := g.atoms ++ [(label p.2, e)] } .valueError
  | some v =>
    .ok { g with
      atoms := g.atoms ++ [(label p.2, { e with spin := some v, gFactor := some (x.gFactor p.1), charge := x.charge p.1 })] }

/-- `create_dataset("spin-normalized", …)`, internal.py 367-369. -/
def writeSN (x : Full K) (g : Group K) : Res (Group K) :=
  match x.ham.sn with
  | none => .raise { g with notn := some {} } .notationError
  | some b => .ok { g with notn := some { sn := some b } }

/-- `create_dataset` for "double-counting" and "exchange-factor", internal.py 370-376. -/
def writeEx (x : Full K) (g : Group K) : Res (Group K) :=
  if x.ham.exch = [] then .ok g
  else
    match x.ham.dc with
    | none => .raise g .notationError
    | some b =>
      let g1 : Group K := { g with notn := g.notn.map fun n => { n with dc := some b } }
      match x.ham.ef with
      | none => .raise g1 .notationError
      | some e => .ok { g1 with notn := g1.notn.map fun n => { n with ef := some e } }

/-- `create_dataset("on-site-factor", …)`, internal.py 377-380. -/
def writeOs (x : Full K) (g : Group K) : Res (Group K) :=
  if x.ham.onSite = [] then .ok g
  else
    match x.ham.osf with
    | none => .raise g .notationError
    | some o => .ok { g with notn := g.notn.map fun n => { n with osf := some o } }

/-- Notation, internal.py 365-380. -/
def writeNotation (x : Full K) (g : Group K) : Res (Group K) :=
  if x.ham.exch = [] ∧ x.ham.onSite = [] then .ok g
  else ((writeSN x g).andThen (writeEx x)).andThen (writeOs x)

/-- `ENERGY_NAME`, units/inside.py 60. -/
def energyName : Str := Str.lit "milli-electron-Volt"

/-- The members of group "exchange", internal.py 386-391. -/
def bondGroups (x : Full K) : List (BondG K) :=
  x.ham.exch.map fun p => ⟨p.1.1.name, p.1.2.1.name, p.1.2.2, x.ham.cell p.2⟩

/-- The members of group "on-site", internal.py 397-400. -/
def siteGroups (x : Full K) : List (SiteG K) := x.ham.onSite.map fun p => ⟨p.1.name, x.ham.cell p.2⟩

/-- Exchange, on-site, spiral vector and cone axis, internal.py 382-414. -/
def writeRest (x : Full K) (g : Group K) : Group K :=
  { g with
    exchange := if x.ham.exch = [] then none else some (energyName, labelled (bondGroups x))
    onSite := if x.ham.onSite = [] then none else some (energyName, labelled (siteGroups x))
    spiral := x.spiral.map fun v => (v, Str.lit "Relative")
    cone := x.cone.map fun v => (v, Str.lit "Absolute") }

/-- The group which `dump_spinham_hdf5` leaves in the file, internal.py 339-414. -/
def dumpGroup (x : Full K) : Res (Group K) :=
  ((forEach x.ham.atoms.zipIdx (writeAtom x) (start x)).andThen (writeNotation x)).andThen fun g => .ok (writeRest x g)

end Dump

/-! ### Reading -/

section Load
variable {K : Type} [Field K]

/-- What is read of an atom. -/
structure Rec (K : Type) where
  /-- name -/
  name : String
  /-- relative position -/
  pos : V3 K
  /-- spin vector -/
  spin : V3 K
  /-- g factor -/
  gFactor : K
  /-- charge -/
  charge : Option K

/-- `units_conversion` for the cell, internal.py 117-123; the message for unknown units asks the group for a dataset
"units". -/
def cellFactor (u : Str) : Except PyErr K :=
  if u.lower.startsWith (Str.lit "bohr") then .ok (bohrRadius / angstrom)
  else if u.lower.startsWith (Str.lit "angstrom") then .ok (angstrom / angstrom)
  else .error .keyError

/-- `units_conversion` for energies, internal.py 191-206, 230-245. -/
def energyFactor (u : Str) : Except PyErr K :=
  if u.lower = Str.lit "rydberg" then .ok (rydberg / energyUnit)
  else if u.lower = Str.lit "joule" then .ok (1 / energyUnit)
  else if u.lower = Str.lit "kelvin" then .ok (kBoltzmann / energyUnit)
  else if u.lower = Str.lit "electron-volt" then .ok (electronVolt / energyUnit)
  else if u.lower = Str.lit "milli-electron-volt" then .ok ((1 / 10 ^ 3) * electronVolt / energyUnit)
  else .error .valueError

/-- One turn of the loop over the atoms, internal.py 129-150.  `_verify_atom_name` looks at the first letter of the name
and otherwise only logs. -/
def readAtomG (a : AtomG K) : Except PyErr (Rec K) :=
  if a.name = "" then .error .indexError
  else
    match a.spin, a.gFactor with
    | some s, some g => .ok ⟨a.name, a.pos, s, g, a.charge⟩
    | _, _ => .error .keyError

/-- The loop over the atoms. -/
def readAtomGs : List (AtomG K) → Except PyErr (List (Rec K))
  | [] => .ok []
  | a :: as => (readAtomG a).bind fun r => (readAtomGs as).map fun rs => r :: rs

/-- The data of an atom: wulfric numbers the atoms from one in the order in which they are added. -/
def recOf (rs : List (Rec K)) (a : Atom) : Option (Rec K) := rs[(a.index - 1).toNat]?

/-- The spin Hamiltonian after the atoms are added. -/
def crystal (L : Lib K) (cell : M3 K) (rs : List (Rec K)) : Full K where
  cell := cell
  pos a := ((recOf rs a).map Rec.pos).getD 0
  spinVec a := (recOf rs a).map Rec.spin
  gFactor a := ((recOf rs a).map Rec.gFactor).getD 2
  charge a := (recOf rs a).bind Rec.charge
  ham := St.empty ⟨fun _ => 0, 0⟩ (rs.mapIdx fun i r => ⟨r.name, (i : ℤ) + 1⟩) (fun a => (recOf rs a).map fun r => L.norm r.spin)
    (fun b =>
      let p := fun a => ((recOf rs a).map Rec.pos).getD 0
      let v : V3 K := p b.2.1 + ![(b.2.2.1 : K), (b.2.2.2.1 : K), (b.2.2.2.2 : K)] - p b.1
      L.norm fun j => v 0 * cell 0 j + v 1 * cell 1 j + v 2 * cell 2 j)
  spiral := none
  cone := none

/-- `group[name][()]`. -/
def dataset {α : Type} (o : Option α) : Except PyErr α :=
  match o with
  | some a => .ok a
  | none => .error .keyError

/-- `if "exchange" in root_group: …`, internal.py 170-184. -/
def readEx [DecidableEq K] (g : Group K) (n : NotationG K) (s : St K) : Except PyErr (St K) :=
  if g.exchange.isSome then
    (dataset n.dc).bind fun d => ((s.setDC d).toExcept).bind fun s1 => (dataset n.ef).bind fun e => (s1.setEF e).toExcept
  else .ok s

/-- `if "on-site" in root_group: …`, internal.py 186-193. -/
def readOs [DecidableEq K] (g : Group K) (n : NotationG K) (s : St K) : Except PyErr (St K) :=
  if g.onSite.isSome then (dataset n.osf).bind fun o => (s.setOF o).toExcept else .ok s

/-- Notation, internal.py 152-193. -/
def readNotn [DecidableEq K] (g : Group K) (s : St K) : Except PyErr (St K) :=
  if g.exchange.isSome || g.onSite.isSome then
    (dataset g.notn).bind fun n => (dataset n.sn).bind fun b =>
      ((s.setSN b).toExcept).bind fun s1 => (readEx g n s1).bind (readOs g n)
  else .ok s

/-- `spinham.get_atom(name)`; for an unknown name the message adds one to a string. -/
def atomOf (s : St K) (n : String) : Except PyErr Atom := (s.getAtom n).mapError fun _ => .typeError

/-- One turn of the loop over the bonds, internal.py 208-226. -/
def readBondG (c : K) (b : BondG K) (s : St K) : Except PyErr (St K) :=
  (atomOf s b.name1).bind fun a1 => (atomOf s b.name2).bind fun a2 =>
    (s.addExchange (.atom a1) (.atom a2) b.ijk (.fresh (c • b.matrix))).toExcept

/-- One turn of the loop over the on-site parameters, internal.py 247-257. -/
def readSiteG (c : K) (b : SiteG K) (s : St K) : Except PyErr (St K) :=
  (atomOf s b.name).bind fun a => (s.addOnSite (.atom a) (.fresh (c • b.matrix))).toExcept

/-- `for x in xs: …`. -/
def foldE {α σ : Type} (f : α → σ → Except PyErr σ) : List α → σ → Except PyErr σ
  | [], s => .ok s
  | x :: xs, s => (f x s).bind (foldE f xs)

/-- Exchange, internal.py 186-226. -/
def readExchangeG (g : Group K) (s : St K) : Except PyErr (St K) :=
  match g.exchange with
  | none => .ok s
  | some (u, bs) => (energyFactor u).bind fun c => foldE (readBondG c) (visit bs) s

/-- On-site, internal.py 228-257. -/
def readOnSiteG (g : Group K) (s : St K) : Except PyErr (St K) :=
  match g.onSite with
  | none => .ok s
  | some (u, bs) => (energyFactor u).bind fun c => foldE (readSiteG c) (visit bs) s

/-- Spiral vector, internal.py 260-273. -/
def readSpiralG [DecidableEq K] (L : Lib K) (cell : M3 K) (g : Group K) : Except PyErr (Option (V3 K)) :=
  match g.spiral with
  | none => .ok none
  | some (v, u) =>
    if u.lower = Str.lit "absolute" then (toRelative (L.recip cell) v).map some
    else if u.lower = Str.lit "relative" then .ok (some v)
    else .error .valueError

/-- Cone axis, internal.py 276-288. -/
def readConeG [LinearOrder K] (L : Lib K) (cell : M3 K) (g : Group K) : Except PyErr (Option (V3 K)) :=
  match g.cone with
  | none => .ok none
  | some (v, u) =>
    if u.lower = Str.lit "relative" then (setCone L (vecMul v cell)).map some
    else if u.lower = Str.lit "absolute" then (setCone L v).map some
    else .error .valueError

/-- `load_spinham_hdf5` from the root group on, internal.py 109-290. -/
def loadGroup [LinearOrder K] (L : Lib K) (g : Group K) : Except PyErr (Full K) :=
  (cellFactor g.cellUnits).bind fun (c : K) =>
    let cell : M3 K := c • g.cell
    (readAtomGs (visit g.atoms)).bind fun rs =>
      let x := crystal L cell rs
      (readNotn g x.ham).bind fun s1 => (readExchangeG g s1).bind fun s2 => (readOnSiteG g s2).bind fun s3 =>
        (readSpiralG L cell g).bind fun q => (readConeG L cell g).map fun n => { x with ham := s3, spiral := q, cone := n }

end Load

/-! ### Files -/

section File
variable {K : Type}

/-- A top level object of the file: a group with attribute "type", or something else. -/
inductive Obj (K : Type) where
  | ham (g : Group K)
  | other

/-- A file: its top level objects by name. -/
abbrev File (K : Type) := PyDict Str (Obj K)

/-- `dump_spinham_hdf5`, internal.py 326-418. -/
def dump (x : Full K) (name : Str) (overwrite : Bool) (f : File K) : Res (File K) :=
  match f.get? name with
  | none => ⟨f.set name (.ham (dumpGroup x).st), (dumpGroup x).err⟩
  | some _ =>
    if overwrite then ⟨(f.del name).set name (.ham (dumpGroup x).st), (dumpGroup x).err⟩ else .raise f .fileExists

/-- `find_spinhams`, internal.py 78-84. -/
def isHam : Obj K → Bool
  | .ham g => decide (g.type.lower = Str.lit "spinhamiltonian")
  | .other => false

/-- The group name, internal.py 73-106. -/
def chooseName (name : Option Str) (f : File K) : Except PyErr Str :=
  match name with
  | some n => .ok n
  | none =>
    match f.filter fun p => isHam p.2 with
    | [p] => .ok p.1
    | _ => .error .runtimeError

/-- `load_spinham_hdf5`, internal.py 70-290.  Other objects have no group "cell". -/
def load [Field K] [LinearOrder K] (L : Lib K) (name : Option Str) (f : File K) : Except PyErr (Full K) :=
  (chooseName name f).bind fun n =>
    match f.get? n with
    | some (.ham g) => loadGroup L g
    | _ => .error .keyError

end File

end H5

/-! ### The choice of the reader -/

/-- The three readers. -/
inductive Reader where
  | txt | hdf5 | tb2j
  deriving DecidableEq, Repr

/-- `load_spinham`, io/__init__.py 76-103: the reader which is called. -/
def chooseReader (filename : Str) (format : Option Str) : Except PyErr Reader :=
  let fmt : Str :=
    match format with
    | none =>
      if filename.endsWith (Str.lit ".hdf5") then Str.lit "hdf5"
      else if filename.endsWith (Str.lit "exchange.out") then Str.lit "tb2j"
      else Str.lit "txt"
    | some f => f.lower
  if fmt = Str.lit "txt" then .ok .txt
  else if fmt = Str.lit "hdf5" then .ok .hdf5
  else if fmt = Str.lit "tb2j" then .ok .tb2j
  else .error .valueError

end Magnopy
