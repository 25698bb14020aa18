import Verif.Spec.WellFormed

/-!
# Specification: assignments of the notation
-/

set_option autoImplicit false

namespace Magnopy

variable {K : Type*} [Field K]

/-- The notation meant by an argument, as documented: a name in any letter case, three numbers
(double counting, spin normalisation, common factor) or four numbers. -/
def St.NotationArg.Means : St.NotationArg K → Bool × Bool × K × K → Prop
  | .str n, q =>
    (n.toLower = "magnopy" ∧ q = (true, false, 1 / 2, 1)) ∨ (n.toLower = "tb2j" ∧ q = (true, true, -1, -1)) ∨
      (n.toLower = "spinw" ∧ q = (true, false, 1, 1)) ∨ (n.toLower = "vampire" ∧ q = (true, true, -(1 / 2), -1))
  | .seq xs, (d, n, e, o) =>
    ∃ x y, (d = true ↔ x ≠ 0) ∧ (n = true ↔ y ≠ 0) ∧ ((xs = [x, y, e] ∧ o = e) ∨ xs = [x, y, e, o])
  | .other, _ => False

/-- Factors other than zero. -/
def St.NotationArg.NonZero (a : St.NotationArg K) : Prop := ∀ q, a.Means q → q.2.2.1 ≠ 0 ∧ q.2.2.2 ≠ 0

/-- The operation assigns the notation or one of its four attributes, factors other than zero. -/
def Op.Renotes : Op K → Prop
  | .setDC _ => True
  | .setSN _ => True
  | .setEF x => x ≠ 0
  | .setOF x => x ≠ 0
  | .setNotation a => a.NonZero
  | _ => False

/-- All four attributes are set, factors are not zero. -/
def St.Complete (s : St K) : Prop := ∃ d n e o, s.getNotation = .ok (d, n, e, o) ∧ e ≠ 0 ∧ o ≠ 0

end Magnopy
