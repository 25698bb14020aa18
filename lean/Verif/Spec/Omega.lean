import Verif.Spec.Colpa

/-!
# Specification: the arrays of energies that `omega` returns
-/

set_option autoImplicit false

namespace Magnopy

open Classical in
/-- Values up to 1e-8 count as zero. -/
noncomputable def round8 (z : ℂ) : ℂ := if ‖z‖ ≤ 1 / 10 ^ 8 then 0 else z

/-- The first `N` energies, or all `2N`, rounded; no entry is `nan`. -/
noncomputable def energyArray {N : ℕ} (E : Fin N ⊕ Fin N → ℂ) (all : Bool) : List (Option ℂ) :=
  (List.finRange N).map (fun i => some (round8 (E (.inl i)))) ++
    if all then (List.finRange N).map (fun i => some (round8 (E (.inr i)))) else []

end Magnopy
