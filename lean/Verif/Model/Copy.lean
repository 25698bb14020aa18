import Verif.Model.Ham

/-!
# Copies of a Hamiltonian

`copy` (hamiltonian.py 607-621) is `copy.deepcopy`: every parameter object is duplicated once, so
sharing inside the Hamiltonian is preserved and nothing is shared with the original.

Simplification: the copy of the object at address `r` gets the address `r + next`, and objects which
do not belong to the Hamiltonian are duplicated as well (nobody refers to those copies).
-/

set_option autoImplicit false

namespace Magnopy.St

variable {K : Type*} [Field K]

/-- `copy`, hamiltonian.py 607-621.  The result is the heap together with the *new* Hamiltonian. -/
def copy (s : St K) : St K :=
  { cell := fun i => if i < s.next then s.cell i else s.cell (i - s.next)
    next := s.next + s.next
    toHam := { s.toHam with exch := s.exch.map fun p => (p.1, p.2 + s.next)
                            onSite := s.onSite.map fun p => (p.1, p.2 + s.next) } }

/-- `filtered`, hamiltonian.py 890-922. -/
def filtered [LinearOrder K] (maxD minD : Option K) (custom : Option (M3 K → Bool))
    (order : List (Bond ⊕ Atom) → List (Bond ⊕ Atom)) (s : St K) : Res (St K) :=
  s.copy.filter maxD minD custom order

/-- The Hamiltonian of `s` seen in the heap of `t`. -/
def seenIn (s t : St K) : St K := { toMem := t.toMem, toHam := s.toHam }

end Magnopy.St
