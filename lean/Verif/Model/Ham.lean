import Verif.Model.Basic
import Verif.Model.PyDict
import Verif.Model.Param
import Mathlib.Algebra.Field.Basic
import Mathlib.Order.Defs.LinearOrder
import Mathlib.Data.List.Dedup
import Mathlib.Data.List.Sort
import Mathlib.Data.Int.Order.Basic

/-!
# `SpinHamiltonian`  (src/magnopy/spinham/hamiltonian.py)

State = heap of `MatrixParameter` objects + one Hamiltonian that refers to them.
-/

set_option autoImplicit false

namespace Magnopy

/-- wulfric `Atom`: compared and hashed by name and index.  (Atoms are assumed to have their index
set before they are used as keys.) -/
structure Atom where
  /-- name of the atom -/
  name : String
  /-- index of the atom -/
  index : Int
  deriving DecidableEq, Repr

/-- `Atom.fullname` of wulfric. -/
def Atom.fullname (a : Atom) : String := a.name ++ "__" ++ toString a.index

/-- Lattice vector `(i, j, k)`. -/
abbrev Cell := ℤ × ℤ × ℤ

/-- Key of an exchange parameter: `(atom1, atom2, (i, j, k))`. -/
abbrev Bond := Atom × Atom × Cell

/-- `(atom2, atom1, (-i, -j, -k))`. -/
def Bond.mirror (b : Bond) : Bond := (b.2.1, b.1, (-b.2.2.1, -b.2.2.2.1, -b.2.2.2.2))


/-- The `MatrixParameter` objects, identified by natural numbers: `cell r` is the matrix of object `r`; objects `r < next` exist. -/
structure Mem (K : Type*) where
  /-- matrix stored in the object -/
  cell : ℕ → M3 K
  /-- the next free identity -/
  next : ℕ

/-- The Hamiltonian (hamiltonian.py 65-83).  `spin` and `dist` stand for the attributes which the
underlying wulfric crystal provides (`Atom.spin`: `none` = not set, reading it raises `ValueError`;
`Crystal.get_distance`). -/
structure Ham (K : Type*) where
  /-- `self.atoms` -/
  atoms : List Atom
  /-- `self._exchange` -/
  exch : PyDict Bond ℕ
  /-- `self._on_site` -/
  onSite : PyDict Atom ℕ
  /-- `self._double_counting` -/
  dc : Option Bool
  /-- `self._spin_normalized` -/
  sn : Option Bool
  /-- `self._exchange_factor` -/
  ef : Option K
  /-- `self._on_site_factor` -/
  osf : Option K
  /-- `Atom.spin` -/
  spin : Atom → Option K
  /-- `Crystal.get_distance` -/
  dist : Bond → K

/-- Heap and Hamiltonian. -/
structure St (K : Type*) extends Mem K, Ham K

/-- An argument that is either an `Atom` or the name of one. -/
inductive AtomArg where
  | atom (a : Atom)
  | name (s : String)

/-- The `parameter` argument: an existing object, or keyword arguments from which a new
`MatrixParameter` with the given matrix is constructed. -/
inductive ParamArg (K : Type*) where
  | obj (r : ℕ)
  | fresh (m : M3 K)

namespace St

variable {K : Type*} [Field K]

/-- `obj.matrix = m` (the object keeps its identity), parameter.py 137-144. -/
def write (s : St K) (r : ℕ) (m : M3 K) : St K := { s with cell := Function.update s.cell r m }

/-- `MatrixParameter(matrix=m)`: a new object. -/
def alloc (s : St K) (m : M3 K) : St K × ℕ :=
  ({ s with cell := Function.update s.cell s.next m, next := s.next + 1 }, s.next)

/-- The object meant by a `parameter` argument, hamiltonian.py 706-707, 800-801. -/
def resolve (s : St K) : ParamArg K → St K × ℕ
  | .obj r => (s, r)
  | .fresh m => s.alloc m

/-- wulfric `Crystal.get_atom(name)`: the unique atom with that name or full name, otherwise
`ValueError`. -/
def getAtom (s : St K) (n : String) : Except PyErr Atom :=
  match s.atoms.filter (fun a => a.name == n || a.fullname == n) with
  | [a] => .ok a
  | _ => .error .valueError

/-- An atom argument of `remove_*`, `__getitem__`, `__contains__`: names are looked up, atoms are
taken as they are. -/
def find (s : St K) : AtomArg → Except PyErr Atom
  | .atom a => .ok a
  | .name n => s.getAtom n

/-- `if isinstance(atom, str): get_atom elif atom not in self.atoms: add_atom`,
hamiltonian.py 693-703, 791-797. -/
def findOrAdd (s : St K) : AtomArg → Except PyErr (St K × Atom)
  | .name n => (s.getAtom n).map fun a => (s, a)
  | .atom a => .ok (if a ∈ s.atoms then s else { s with atoms := s.atoms ++ [a] }, a)

/-- `self._exchange[(atom1, atom2, ijk)] = parameter` and the mirrored bond,
hamiltonian.py 709-726.  A missing notation is the `NotationError` branch. -/
def putBond (s : St K) (b : Bond) (r : ℕ) : St K :=
  let s1 : St K := { s with exch := s.exch.set b r }
  if s.dc = some true ∧ s1.exch.get? b.mirror = none then
    let (s2, r') := s1.alloc (Param.T (s1.cell r))
    { s2 with exch := s2.exch.set b.mirror r' }
  else s1

/-- `add_exchange`, hamiltonian.py 670-726. -/
def addExchange (x y : AtomArg) (R : Cell) (p : ParamArg K) (s : St K) : Res (St K) :=
  match s.findOrAdd x with
  | .error e => .raise s e
  | .ok (s1, a) =>
    match s1.findOrAdd y with
    | .error e => .raise s1 e
    | .ok (s2, b) =>
      let (s3, r) := s2.resolve p
      .ok (s3.putBond (a, b, R) r)

/-- The part of `remove_exchange` after the atoms are known, hamiltonian.py 752-767. -/
def dropBond (b : Bond) (raiseIfNoBond : Bool) (s : St K) : Res (St K) :=
  if s.exch.get? b = none ∧ raiseIfNoBond = true then .raise s .keyError
  else
    let s1 : St K := { s with exch := s.exch.del b }
    if s.dc = some true ∧ s1.exch.get? b.mirror ≠ none then
      .ok { s1 with exch := s1.exch.del b.mirror }
    else .ok s1

/-- `remove_exchange`, hamiltonian.py 728-767. -/
def removeExchange (x y : AtomArg) (R : Cell) (raiseIfNoBond : Bool) (s : St K) : Res (St K) :=
  match s.find x with
  | .error e => .raise s e
  | .ok a =>
    match s.find y with
    | .error e => .raise s e
    | .ok b => s.dropBond (a, b, R) raiseIfNoBond

/-- `add_on_site`, hamiltonian.py 772-803. -/
def addOnSite (x : AtomArg) (p : ParamArg K) (s : St K) : Res (St K) :=
  match s.findOrAdd x with
  | .error e => .raise s e
  | .ok (s1, a) =>
    let (s2, r) := s1.resolve p
    .ok { s2 with onSite := s2.onSite.set a r }

/-- `remove_on_site`, hamiltonian.py 805-827.  For a name the atom is looked up but the result is not
used (line 819): the key `str` is never in the dictionary, and building the error message asks the
`str` for `.fullname`. -/
def removeOnSite (x : AtomArg) (raiseIfNoBond : Bool) (s : St K) : Res (St K) :=
  match x with
  | .name n =>
    match s.getAtom n with
    | .error e => .raise s e
    | .ok _ => if raiseIfNoBond then .raise s .attributeError else .ok s
  | .atom a =>
    if s.onSite.get? a = none then
      if raiseIfNoBond then .raise s .keyError else .ok s
    else .ok { s with onSite := s.onSite.del a }

/-! ### Keys of the dictionary-like interface -/

/-- A key of the Hamiltonian: on-site or exchange.  Other objects raise `KeyError`. -/
inductive Key where
  | site (x : AtomArg)
  | bond (x y : AtomArg) (R : Cell)
  | bad

/-- `__contains__`, hamiltonian.py 532-554. -/
def contains (s : St K) : Key → Except PyErr Bool
  | .site x => (s.find x).map fun a => (s.onSite.get? a).isSome
  | .bond x y R =>
    match s.find x, s.find y with
    | .ok a, .ok b => .ok (s.exch.get? (a, b, R)).isSome
    | .error e, _ => .error e
    | _, .error e => .error e
  | .bad => .error .keyError

/-- `__getitem__`, hamiltonian.py 556-577: the parameter object. -/
def getItem (s : St K) : Key → Except PyErr ℕ
  | .site x =>
    match s.find x with
    | .ok a => (match s.onSite.get? a with | some r => .ok r | none => .error .keyError)
    | .error e => .error e
  | .bond x y R =>
    match s.find x, s.find y with
    | .ok a, .ok b => (match s.exch.get? (a, b, R) with | some r => .ok r | none => .error .keyError)
    | .error e, _ => .error e
    | _, .error e => .error e
  | .bad => .error .keyError

/-- `__setitem__`, hamiltonian.py 579-590. -/
def setItem (k : Key) (p : ParamArg K) (s : St K) : Res (St K) :=
  match k with
  | .site x => s.addOnSite x p
  | .bond x y R => s.addExchange x y R p
  | .bad => .raise s .keyError

/-- `__delitem__`, hamiltonian.py 592-603. -/
def delItem (k : Key) (s : St K) : Res (St K) :=
  match k with
  | .site x => s.removeOnSite x true
  | .bond x y R => s.removeExchange x y R true
  | .bad => .raise s .keyError

/-! ### Notation -/

/-- `_ensure_double_counting`, first loop, hamiltonian.py 314-318.  The membership test compares a
3-tuple with the 4-tuples of the iterator, so it is always true: every mirror is collected.
`parameter.T` makes a new object. -/
def collectMirrors : PyDict Bond ℕ → St K → St K × List (Bond × ℕ)
  | [], s => (s, [])
  | (b, r) :: d, s =>
    let (s1, r') := s.alloc (Param.T (s.cell r))
    let (s2, l) := collectMirrors d s1
    (s2, (b.mirror, r') :: l)

/-- `_ensure_double_counting`, hamiltonian.py 306-322. -/
def ensureDC (s : St K) : Res (St K) :=
  let (s1, adds) := collectMirrors s.exch s
  forEach adds (fun p t => t.addExchange (.atom p.1.1) (.atom p.1.2.1) p.1.2.2 (.obj p.2)) s1

/-- The condition under which a bond "has to stay", hamiltonian.py 342-347. -/
def keeps (b : Bond) : Bool :=
  let (i, j, k) := b.2.2
  decide (0 < i) || (decide (i = 0) && decide (0 < j)) ||
    (decide (i = 0) && decide (j = 0) && decide (0 < k)) ||
    (decide (i = 0) && decide (j = 0) && decide (k = 0) && decide (b.1.index ≤ b.2.1.index))

/-- `_ensure_no_double_counting`, first loop, hamiltonian.py 340-359: the bonds to remove.
`bonds_to_add.append` with four arguments raises `TypeError`. -/
def collectRemovals (s : St K) : List Bond → Except PyErr (List Bond)
  | [] => .ok []
  | b :: bs =>
    if keeps b then
      match collectRemovals s bs with
      | .error e => .error e
      | .ok l => .ok (if s.exch.get? b.mirror ≠ none then b.mirror :: l else l)
    else if s.exch.get? b.mirror = none then .error .typeError
    else
      match collectRemovals s bs with
      | .error e => .error e
      | .ok l => .ok (b :: l)

/-- `_ensure_no_double_counting`, hamiltonian.py 324-365. -/
def ensureNoDC (s : St K) : Res (St K) :=
  match s.collectRemovals s.exch.keys with
  | .error e => .raise s e
  | .ok l => forEach l (fun b t => t.removeExchange (.atom b.1) (.atom b.2.1) b.2.2 false) s

/-- `self[atom1, atom2, ijk].matrix *= c` where evaluating `c` may raise. -/
def imulBond (c : Bond → St K → Except PyErr K) (b : Bond) (s : St K) : Res (St K) :=
  match s.exch.get? b with
  | none => .raise s .keyError
  | some r =>
    match c b s with
    | .error e => .raise s e
    | .ok x => .ok (s.write r (x • s.cell r))

/-- `self[atom].matrix *= c` where evaluating `c` may raise. -/
def imulSite (c : Atom → St K → Except PyErr K) (a : Atom) (s : St K) : Res (St K) :=
  match s.onSite.get? a with
  | none => .raise s .keyError
  | some r =>
    match c a s with
    | .error e => .raise s e
    | .ok x => .ok (s.write r (x • s.cell r))

/-- `for atom1, atom2, ijk in self._exchange: self[...].matrix *= c`. -/
def scaleExch (c : Bond → St K → Except PyErr K) (s : St K) : Res (St K) :=
  forEach s.exch.keys (imulBond c) s

/-- `for atom in self._on_site: self[...].matrix *= c`. -/
def scaleSite (c : Atom → St K → Except PyErr K) (s : St K) : Res (St K) :=
  forEach s.onSite.keys (imulSite c) s

/-- `double_counting.setter`, hamiltonian.py 367-392. -/
def setDC (new : Bool) (s : St K) : Res (St K) :=
  let old := s.dc
  let s1 : St K := { s with dc := some new }
  let r : Res (St K) :=
    if old = some true ∧ new = false then s1.scaleExch (fun _ _ => .ok 2)
    else if old = some false ∧ new = true then s1.scaleExch (fun _ _ => .ok (1 / 2))
    else .ok s1
  r.andThen (if new then ensureDC else ensureNoDC)

/-- `atom.spin` of wulfric raises `ValueError` if the spin is not set. -/
def spinOf (s : St K) (a : Atom) : Except PyErr K :=
  match s.spin a with
  | some x => .ok x
  | none => .error .valueError

/-- `atom1.spin * atom2.spin`. -/
def spinProd (s : St K) (a b : Atom) : Except PyErr K :=
  match s.spinOf a with
  | .error e => .error e
  | .ok x =>
    match s.spinOf b with
    | .error e => .error e
    | .ok y => .ok (x * y)

/-- `spin_normalized.setter`, hamiltonian.py 424-445.  Division by a zero spin (numpy: `inf`) is
outside of the model (`0⁻¹ = 0` here), theorems assume non-zero spins. -/
def setSN (new : Bool) (s : St K) : Res (St K) :=
  let r : Res (St K) :=
    if s.sn = some true ∧ new = false then
      (s.scaleExch fun b t => (t.spinProd b.1 b.2.1).map fun x => x⁻¹).andThen
        (scaleSite fun a t => (t.spinProd a a).map fun x => x⁻¹)
    else if s.sn = some false ∧ new = true then
      (s.scaleExch fun b t => t.spinProd b.1 b.2.1).andThen
        (scaleSite fun a t => t.spinProd a a)
    else .ok s
  r.andThen fun t => .ok { t with sn := some new }

/-- `old / new` of Python floats. -/
def ratio [DecidableEq K] (old new : K) : Except PyErr K :=
  if new = 0 then .error .zeroDivision else .ok (old / new)

/-- `exchange_factor.setter`, hamiltonian.py 478-486. -/
def setEF [DecidableEq K] (new : K) (s : St K) : Res (St K) :=
  let r : Res (St K) :=
    match s.ef with
    | some old => if old ≠ new then s.scaleExch (fun _ _ => ratio old new) else .ok s
    | none => .ok s
  r.andThen fun t => .ok { t with ef := some new }

/-- `on_site_factor.setter`, hamiltonian.py 519-527. -/
def setOF [DecidableEq K] (new : K) (s : St K) : Res (St K) :=
  let r : Res (St K) :=
    match s.osf with
    | some old => if old ≠ new then s.scaleSite (fun _ _ => ratio old new) else .ok s
    | none => .ok s
  r.andThen fun t => .ok { t with osf := some new }

/-- The assignment of the four values, hamiltonian.py 269-274. -/
def setFour [DecidableEq K] (dc sn : Bool) (ef osf : K) (s : St K) : Res (St K) :=
  (((s.setDC dc).andThen (setSN sn)).andThen (setEF ef)).andThen (setOF osf)

/-- What can be assigned to `notation`: a string, an iterable of numbers (`True`/`False` are the
numbers 1/0), or anything else. -/
inductive NotationArg (K : Type*) where
  | str (s : String)
  | seq (xs : List K)
  | other

/-- `PREDEFINED_NOTATIONS`, hamiltonian.py 30-35. -/
def predefined (n : String) : Option (Bool × Bool × K × K) :=
  if n = "magnopy" then some (true, false, 1 / 2, 1)
  else if n = "tb2j" then some (true, true, -1, -1)
  else if n = "spinw" then some (true, false, 1, 1)
  else if n = "vampire" then some (true, true, -1 / 2, -1)
  else none

/-- `notation.setter`, hamiltonian.py 230-274. -/
def setNotation [DecidableEq K] (arg : NotationArg K) (s : St K) : Res (St K) :=
  match arg with
  | .str n =>
    match predefined n.toLower with
    | some (d, n, e, o) => s.setFour d n e o
    | none => .raise s .valueError
  | .seq [d, n, e] => s.setFour (decide (d ≠ 0)) (decide (n ≠ 0)) e e
  | .seq [d, n, e, o] => s.setFour (decide (d ≠ 0)) (decide (n ≠ 0)) e o
  | .seq _ => .raise s .valueError
  | .other => .raise s .valueError

/-- `notation` getter, hamiltonian.py 196-228: the first unset value raises `NotationError`. -/
def getNotation (s : St K) : Except PyErr (Bool × Bool × K × K) :=
  match s.dc, s.sn, s.ef, s.osf with
  | some d, some n, some e, some o => .ok (d, n, e, o)
  | _, _, _, _ => .error .notationError

/-! ### Filter, remove_atom, magnetic atoms -/

/-- Python `del self[parameter]` for a key found in the Hamiltonian. -/
def delEntry : Bond ⊕ Atom → St K → Res (St K)
  | .inl b, s => s.delItem (.bond (.atom b.1) (.atom b.2.1) b.2.2)
  | .inr a, s => s.delItem (.site (.atom a))

/-- `try: ... except KeyError: pass`. -/
def catchKeyError (r : Res (St K)) : Res (St K) :=
  if r.err = some .keyError then .ok r.st else r

/-- The set `parameters_for_removal` of `filter`, hamiltonian.py 861-881, as a list without
repetitions. -/
def filterSet [LinearOrder K] (maxD minD : Option K) (custom : Option (M3 K → Bool)) (s : St K) :
    List (Bond ⊕ Atom) :=
  (s.exch.filterMap fun (b, r) =>
      if (∃ m ∈ maxD, m < s.dist b) ∨ (∃ m ∈ minD, s.dist b < m) ∨ (∃ f ∈ custom, f (s.cell r) = false)
      then some (Sum.inl b) else none) ++
    (s.onSite.filterMap fun (a, r) =>
      if (∃ m ∈ minD, 0 < m) ∨ (∃ f ∈ custom, f (s.cell r) = false) then some (Sum.inr a) else none)

/-- `filter`, hamiltonian.py 832-888.  `order` is the (unspecified) iteration order of the set. -/
def filter [LinearOrder K] (maxD minD : Option K) (custom : Option (M3 K → Bool))
    (order : List (Bond ⊕ Atom) → List (Bond ⊕ Atom)) (s : St K) : Res (St K) :=
  forEach (order (s.filterSet maxD minD custom)) (fun k t => catchKeyError (t.delEntry k)) s

/-- `remove_atom`, hamiltonian.py 927-960 (wulfric's `remove_atom` removes the atom from the list and
raises `ValueError` if it is not there). -/
def removeAtom (x : AtomArg) (s : St K) : Res (St K) :=
  match s.find x with
  | .error e => .raise s e
  | .ok a =>
    let ks := ((s.exch.keys.filter fun b => b.1 = a ∨ b.2.1 = a).map Sum.inl) ++
      (if s.onSite.get? a ≠ none then [Sum.inr a] else [])
    (forEach ks delEntry s).andThen fun t =>
      if a ∈ t.atoms then .ok { t with atoms := t.atoms.erase a } else .raise t .valueError

/-- `magnetic_atoms`, hamiltonian.py 624-648.  `order` is the iteration order of the set; Python's
`sorted` is a stable sort by the index. -/
def magneticAtoms (order : List Atom → List Atom) (s : St K) : List Atom :=
  let collected := (s.exch.keys.flatMap fun b => [b.1, b.2.1]) ++ s.onSite.keys
  (order collected.dedup).insertionSort fun a b => a.index ≤ b.index

/-! ### Iterators -/

/-- All items of `exchange` (hamiltonian.py 983-1006), with the values of the parameters. -/
def exchangeItems (s : St K) : List (Bond × M3 K) := s.exch.map fun p => (p.1, s.cell p.2)

/-- All items of `on_site` (hamiltonian.py 1009-1032). -/
def onSiteItems (s : St K) : List (Atom × M3 K) := s.onSite.map fun p => (p.1, s.cell p.2)

/-- Value read by `ham[atom1, atom2, ijk].matrix`, `none` if the bond is missing. -/
def valE (s : St K) (b : Bond) : Option (M3 K) := (s.exch.get? b).map s.cell

/-- Value read by `ham[atom].matrix`. -/
def valO (s : St K) (a : Atom) : Option (M3 K) := (s.onSite.get? a).map s.cell

end St

/-- `SpinHamiltonian()` on a crystal with the given atoms, in a heap that may already hold objects. -/
def St.empty {K : Type*} (m : Mem K) (atoms : List Atom) (spin : Atom → Option K) (dist : Bond → K) :
    St K :=
  { toMem := m
    toHam := { atoms := atoms, exch := [], onSite := [], dc := none, sn := none, ef := none,
               osf := none, spin := spin, dist := dist } }

/-- One public operation of a user program. -/
inductive Op (K : Type*) where
  /-- `p = MatrixParameter(matrix=m)` -/
  | newParam (m : M3 K)
  /-- `p.matrix = m` on a parameter that is referenced from anywhere -/
  | writeParam (r : ℕ) (m : M3 K)
  /-- `ham.add_atom(a)` -/
  | addAtom (a : Atom)
  | addExchange (x y : AtomArg) (R : Cell) (p : ParamArg K)
  | removeExchange (x y : AtomArg) (R : Cell) (raiseIfNoBond : Bool)
  | addOnSite (x : AtomArg) (p : ParamArg K)
  | removeOnSite (x : AtomArg) (raiseIfNoBond : Bool)
  | setItem (k : St.Key) (p : ParamArg K)
  | delItem (k : St.Key)
  | filter (maxD minD : Option K) (custom : Option (M3 K → Bool))
      (order : List (Bond ⊕ Atom) → List (Bond ⊕ Atom))
  | removeAtom (x : AtomArg)
  | setDC (b : Bool)
  | setSN (b : Bool)
  | setEF (x : K)
  | setOF (x : K)
  | setNotation (arg : St.NotationArg K)

/-- Run one operation. -/
def Op.step {K : Type*} [Field K] [LinearOrder K] : Op K → St K → Res (St K)
  | .newParam m, s => .ok (s.alloc m).1
  | .writeParam r m, s => .ok (s.write r m)
  | .addAtom a, s => .ok (if a ∈ s.atoms then s else { s with atoms := s.atoms ++ [a] })
  | .addExchange x y R p, s => s.addExchange x y R p
  | .removeExchange x y R f, s => s.removeExchange x y R f
  | .addOnSite x p, s => s.addOnSite x p
  | .removeOnSite x f, s => s.removeOnSite x f
  | .setItem k p, s => s.setItem k p
  | .delItem k, s => s.delItem k
  | .filter a b c o, s => s.filter a b c o
  | .removeAtom x, s => s.removeAtom x
  | .setDC b, s => s.setDC b
  | .setSN b, s => s.setSN b
  | .setEF x, s => s.setEF x
  | .setOF x, s => s.setOF x
  | .setNotation a, s => s.setNotation a

/-- A user program: operations one after another; exceptions are caught by the user, and the program
goes on with whatever state the failed operation left behind. -/
def runOps {K : Type*} [Field K] [LinearOrder K] : List (Op K) → St K → St K
  | [], s => s
  | o :: os, s => runOps os (o.step s).st

end Magnopy
