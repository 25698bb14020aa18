import Verif.Spec.MagnonRounding

/-!
# How much the magnon matrix depends on the directions of spins
-/

set_option autoImplicit false

namespace Magnopy
namespace MagnonObj

open EnergyObj Matrix

/-- The sum of the absolute values of all elements of all parameters from atom `i` to atom `j`. -/
def bondTotal (o : MagnonObj) (cell : ℕ → M3 ℝ) (i j : ℕ) : ℝ := ∑ a, ∑ b, o.jSize cell (fun _ => 1) i j a b

/-- How much an entry of `h(k)` can change if spins turn by a small angle, divided by that angle. -/
noncomputable def tiltSize (o : MagnonObj) (cell : ℕ → M3 ℝ) : Fin o.N ⊕ Fin o.N → Fin o.N ⊕ Fin o.N → ℝ
  | .inl i, .inl j | .inr i, .inr j => 3 * Real.sqrt (norm3 (o.S.getD i 0) * norm3 (o.S.getD j 0)) * o.bondTotal cell i j +
      if i = j then 4 * ∑ l ∈ Finset.range o.N, norm3 (o.S.getD l 0) * o.bondTotal cell i l else 0
  | .inl i, .inr j => 3 * Real.sqrt (norm3 (o.S.getD i 0) * norm3 (o.S.getD j 0)) * o.bondTotal cell i j
  | .inr i, .inl j => 3 * Real.sqrt (norm3 (o.S.getD j 0) * norm3 (o.S.getD i 0)) * o.bondTotal cell j i

/-- The squared distance of two vectors. -/
def distSq (x y : V3 ℝ) : ℝ := ∑ c, (x c - y c) ^ 2

/-- The spins `sv'` of the atoms of `l` have the lengths of the spins `sv` and differ from them by at most `δ` times these lengths. -/
def NearSpins (δ : ℝ) (l : List Atom) (sv sv' : Atom → Option (V3 ℝ)) : Prop :=
  ∀ a ∈ l, ∃ v v', sv a = some v ∧ sv' a = some v' ∧ v ≠ 0 ∧ v' ⬝ᵥ v' = v ⬝ᵥ v ∧ distSq v' v ≤ δ ^ 2 * (v ⬝ᵥ v)

end MagnonObj
end Magnopy
