import Verif.Model.Ham

/-!
# Specification: which parameter objects an operation names
-/

set_option autoImplicit false

namespace Magnopy

variable {K : Type*}

/-- The existing parameter object named by an argument. -/
def ParamArg.refs : ParamArg K → List ℕ
  | .obj r => [r]
  | .fresh _ => []

/-- The existing parameter objects that the caller hands to an operation. -/
def Op.refs : Op K → List ℕ
  | .writeParam r _ => [r]
  | .addExchange _ _ _ p => p.refs
  | .addOnSite _ p => p.refs
  | .setItem _ p => p.refs
  | _ => []

/-- None of the operations names an object of the set. -/
def Avoids (X : ℕ → Prop) (ops : List (Op K)) : Prop := ∀ o ∈ ops, ∀ r ∈ o.refs, ¬ X r

/-- Two Hamiltonians in one heap. -/
structure Two (K : Type*) where
  mem : Mem K
  fst : Ham K
  snd : Ham K

namespace Two

/-- One of the two Hamiltonians in the heap. -/
def view (t : Two K) : Bool → St K
  | false => { toMem := t.mem, toHam := t.fst }
  | true => { toMem := t.mem, toHam := t.snd }

variable [Field K] [LinearOrder K]

/-- A call on one of the two. -/
def step (t : Two K) : Bool × Op K → Two K
  | (false, o) => let r := (o.step (t.view false)).st; { mem := r.toMem, fst := r.toHam, snd := t.snd }
  | (true, o) => let r := (o.step (t.view true)).st; { mem := r.toMem, fst := t.fst, snd := r.toHam }

/-- A program of calls on both. -/
def run : List (Bool × Op K) → Two K → Two K
  | [], t => t
  | p :: l, t => run l (t.step p)

/-- The parameter objects given to the calls exist, and no call on one of the two is given an object that is
part of the other. -/
def Separate : List (Bool × Op K) → Two K → Prop
  | [], _ => True
  | p :: l, t => (∀ r ∈ p.2.refs, r < t.mem.next ∧ (∀ q ∈ (t.view !p.1).exch, q.2 ≠ r) ∧ ∀ q ∈ (t.view !p.1).onSite, q.2 ≠ r) ∧
      Separate l (t.step p)

end Two

end Magnopy
