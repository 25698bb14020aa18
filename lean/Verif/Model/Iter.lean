import Verif.Model.Ham

/-!
# The iterators over the parameters of a Hamiltonian  (hamiltonian.py 983-1075)

Simplification: the dictionaries do not change while they are iterated.
-/

set_option autoImplicit false

namespace Magnopy

/-- What a call of `__next__` does. -/
inductive Next (σ α : Type*) where
  /-- returns an item; the iterator moves to a new state -/
  | item (a : α) (s : σ)
  /-- raises `StopIteration` -/
  | stop
  /-- raises something else -/
  | raise (e : PyErr)

/-- `for x in iterator` sees exactly the items of the list and leaves the last state. -/
inductive Visits {σ α : Type*} (next : σ → Next σ α) : σ → List α → σ → Prop where
  | stop {s} : next s = .stop → Visits next s [] s
  | step {s a s' l t} : next s = .item a s' → Visits next s' l t → Visits next s (a :: l) t

/-- `_SpinHamiltonianExchangeIterator` and `_SpinHamiltonianOnSiteIterator`. -/
structure DictIter (κ : Type*) where
  /-- `self.length` -/
  length : ℕ
  /-- `self.container` -/
  container : PyDict κ ℕ
  /-- what the iterator of the dictionary has not returned yet -/
  rest : List κ
  /-- `self.index` -/
  index : ℕ

namespace DictIter

variable {κ : Type*} [DecidableEq κ]

/-- `__init__`, hamiltonian.py 988-992, 1014-1018. -/
def init (d : PyDict κ ℕ) : DictIter κ := { length := List.length d, container := d, rest := d.keys, index := 0 }

/-- `__next__`, hamiltonian.py 994-1000, 1020-1026.  Both `raise StopIteration` and the exhausted
dictionary iterator stop the loop. -/
def next (it : DictIter κ) : Next (DictIter κ) (κ × ℕ) :=
  if it.index < it.length then
    match it.rest with
    | [] => .stop
    | k :: rest =>
      match it.container.get? k with
      | none => .raise .keyError
      | some r => .item (k, r) { it with rest := rest, index := it.index + 1 }
  else .stop

end DictIter

/-- `_SpinHamiltonianExchangeLikeIterator`, hamiltonian.py 1035-1053. -/
structure LikeIter (K : Type*) where
  /-- `self.length1`, `self.container1`, `self.iterator1`, `self.index1`: on-site terms -/
  length1 : ℕ
  container1 : PyDict Atom ℕ
  rest1 : List Atom
  index1 : ℕ
  /-- the same for the exchange terms -/
  length2 : ℕ
  container2 : PyDict Bond ℕ
  rest2 : List Bond
  index2 : ℕ
  /-- `self.scale_factor` -/
  scale : K

namespace LikeIter

variable {K : Type*} [Field K]

/-- `__init__`, hamiltonian.py 1044-1053. -/
def init [DecidableEq K] (s : St K) : Except PyErr (LikeIter K) :=
  match s.ef, s.osf with
  | some e, some o =>
    match St.ratio e o with
    | .error x => .error x
    | .ok x => .ok { length1 := s.onSite.length, container1 := s.onSite, rest1 := s.onSite.keys, index1 := 0,
                     length2 := s.exch.length, container2 := s.exch, rest2 := s.exch.keys, index2 := 0, scale := x }
  | _, _ => .error .notationError

/-- `__len__`, hamiltonian.py 1074-1075. -/
def len (it : LikeIter K) : ℕ := it.length1 + it.length2

/-- `__next__`, hamiltonian.py 1055-1069.  `container1[atom] * scale_factor` makes a new object.  The second
branch increments `index1` and not `index2`, as in the code. -/
def next (p : LikeIter K × St K) : Next (LikeIter K × St K) (Bond × ℕ) :=
  let it := p.1
  let s := p.2
  if it.index1 < it.length1 then
    match it.rest1 with
    | [] => .stop
    | a :: rest =>
      match it.container1.get? a with
      | none => .raise .keyError
      | some r =>
        let (s', r') := s.alloc (Param.mulNum (s.cell r) it.scale)
        .item ((a, a, (0, 0, 0)), r') ({ it with rest1 := rest, index1 := it.index1 + 1 }, s')
  else if it.index2 < it.length2 then
    match it.rest2 with
    | [] => .stop
    | b :: rest =>
      match it.container2.get? b with
      | none => .raise .keyError
      | some r => .item (b, r) ({ it with rest2 := rest, index1 := it.index1 + 1 }, s)
  else .stop

end LikeIter

end Magnopy
