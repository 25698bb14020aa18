import Verif.Model.Ham

/-!
# Specification: which calls respect the mirror rule

Definitions used in statements about histories of calls.
-/

set_option autoImplicit false

namespace Magnopy

/-- The matrix meant by a `parameter` argument. -/
def ParamArg.value {K : Type*} (s : St K) : ParamArg K → M3 K
  | .obj r => s.cell r
  | .fresh m => m

/-- Atoms meant by an argument. -/
def AtomArg.Matches : AtomArg → Atom → Prop
  | .atom c, a => a = c
  | .name n, a => a.name = n ∨ a.fullname = n

namespace St

variable {K : Type*} [Field K]

/-- The argument is a new object, or an existing one that is not stored in the Hamiltonian. -/
def Unshared (s : St K) : ParamArg K → Prop
  | .obj r => r < s.next ∧ (∀ b, s.exch.get? b ≠ some r) ∧ (∀ a, s.onSite.get? a ≠ some r)
  | .fresh _ => True

/-- The mirror of a bond, if stored, carries the transposed matrix. -/
def Cons (s : St K) : Prop :=
  ∀ b m m', s.valE b = some m → s.valE b.mirror = some m' → m' = m.transpose

/-- Adding the parameter keeps mirrors transposed. -/
def GoodAdd (s : St K) (x y : AtomArg) (R : Cell) (p : ParamArg K) : Prop :=
  s.Unshared p ∧ ∀ a b, x.Matches a → y.Matches b →
    (Bond.mirror (a, b, R) = (a, b, R) → (p.value s).transpose = p.value s) ∧
    (∀ m', s.valE (Bond.mirror (a, b, R)) = some m' → Bond.mirror (a, b, R) ≠ (a, b, R) →
      m' = (p.value s).transpose)

end St

variable {K : Type*} [Field K] [LinearOrder K]

/-- The operation neither shares parameter objects nor contradicts a stored mirror. -/
def Op.Good (s : St K) : Op K → Prop
  | .writeParam r _ => (∀ b, s.exch.get? b ≠ some r) ∧ (∀ a, s.onSite.get? a ≠ some r)
  | .addExchange x y R p => s.GoodAdd x y R p
  | .setItem (.bond x y R) p => s.GoodAdd x y R p
  | .addOnSite _ p => s.Unshared p
  | .setItem (.site _) p => s.Unshared p
  | _ => True

/-- All operations of the history are good at the moment they are called. -/
def GoodRun : List (Op K) → St K → Prop
  | [], _ => True
  | o :: os, s => o.Good s ∧ GoodRun os (o.step s).st

end Magnopy
