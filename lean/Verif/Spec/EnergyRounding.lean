import Verif.Model.EnergyFloat
import Verif.Spec.Rounding

/-!
# Specification: round-off of energies
-/

set_option autoImplicit false

namespace Magnopy
namespace EnergyObj

/-- The terms that are added. -/
def Tree.leaves {ι : Type*} : Tree ι → Multiset ι
  | .zero => 0
  | .leaf i => {i}
  | .node l r => l.leaves + r.leaves

/-- The largest number of additions that a term takes part in. -/
def Tree.depth {ι : Type*} : Tree ι → ℕ
  | .zero => 0
  | .leaf _ => 0
  | .node l r => max l.depth r.depth + 1

/-- Every term is added once, for `n` spins, and takes part in at most `d` additions. -/
structure Sums.Complete (S : Sums) (n d : ℕ) : Prop where
  norm : ∀ k, (S.norm k).leaves = Finset.univ.val ∧ (S.norm k).depth ≤ d
  bond : ∀ k, (S.bond k).leaves = Finset.univ.val ∧ (S.bond k).depth ≤ d
  zeeman : S.zeeman.leaves = (Finset.range n ×ˢ Finset.univ).val ∧ S.zeeman.depth ≤ d

/-- One term after the other, starting from zero. -/
def Tree.ofList {ι : Type*} (l : List ι) : Tree ι := l.foldl (fun t i => .node t (.leaf i)) .zero

/-- All sums one term after the other, for `n` spins. -/
def Sums.sequential (n : ℕ) : Sums where
  norm _ := .ofList (List.finRange 3)
  bond _ := .ofList (List.finRange 3 ×ˢ List.finRange 3)
  zeeman := .ofList (List.range n ×ˢ List.finRange 3)

/-- The sum of the absolute values of all terms of the energy, for unit vectors `e`. -/
def size (E : EnergyObj ℝ) (muB : ℝ) (cell : ℕ → M3 ℝ) (e : List (V3 ℝ)) : ℝ :=
  (E.bonds.map fun (i, j, _, J) => |E.factor| * |E.spins.getD i 0| * |E.spins.getD j 0| *
    ∑ a, ∑ b, |(e.getD i 0) a| * |cell J a b| * |(e.getD j 0) b|).sum +
  match E.field with
  | none => 0
  | some h => |muB| * (List.zipWith (fun g v => ∑ a : Fin 3, |g| * |h a| * |(v : V3 ℝ) a|) E.gFactors e).sum

/-- The number of roundings: in the product of five numbers and in both directions, in the sums, and one for every bond. -/
def roundings (E : EnergyObj ℝ) (d : ℕ) : ℕ := E.bonds.length + 3 * d + 12

end EnergyObj
end Magnopy
