import Verif.Model.Ham

/-!
# Specification: states of a Hamiltonian

Predicates on states that occur in the statements of the theorems.
-/

set_option autoImplicit false

namespace Magnopy
namespace St

variable {K : Type*} [Field K]

/-- Python dictionaries have unique keys. -/
structure KeysNodup (s : St K) : Prop where
  exch : s.exch.keys.Nodup
  site : s.onSite.keys.Nodup

/-- All stored references point to existing objects. -/
structure Alloc (s : St K) : Prop where
  exch : ∀ b r, s.exch.get? b = some r → r < s.next
  site : ∀ a r, s.onSite.get? a = some r → r < s.next

/-- No `MatrixParameter` object is stored under two keys. -/
structure NoShare (s : St K) : Prop where
  exch : ∀ b b' r, s.exch.get? b = some r → s.exch.get? b' = some r → b = b'
  site : ∀ a a' r, s.onSite.get? a = some r → s.onSite.get? a' = some r → a = a'
  cross : ∀ b a r, s.exch.get? b = some r → s.onSite.get? a = some r → False

/-- Parameters refer to atoms of the crystal. -/
structure Refer (s : St K) : Prop where
  exch : ∀ b ∈ s.exch.keys, b.1 ∈ s.atoms ∧ b.2.1 ∈ s.atoms
  site : ∀ a ∈ s.onSite.keys, a ∈ s.atoms

/-- Unique keys, parameters refer to atoms, mirrors are present with double counting. -/
structure Inv (s : St K) : Prop where
  nodup : s.KeysNodup
  refer : s.Refer
  closed : s.dc = some true → ∀ b ∈ s.exch.keys, b.mirror ∈ s.exch.keys

end St
end Magnopy
