import Verif.Model.EnergyConeFloat
import Verif.Spec.EnergyRounding

/-!
# Specification: round-off of the energies of cone states

The sizes of the matrices are those of the code with all signs removed, and with one in place of the cosine and of the sine.
-/

set_option autoImplicit false

namespace Magnopy
namespace EnergyObj

/-- Rounding by the fraction `u`; the cosine and the sine are correct up to `k` roundings. -/
structure Arith.Good (A : Arith) (u : ℝ) (k : ℕ) : Prop where
  fl : IsRounding A.fl u
  cos : ∀ x, Rounded u k (Real.cos x) (A.cos x)
  sin : ∀ x, Rounded u k (Real.sin x) (A.sin x)

/-- Every term is added once, for `n` spins, and takes part in at most `d` additions. -/
structure ConeSums.Complete (S : ConeSums) (n d : ℕ) : Prop extends S.toSums.Complete n d where
  axis : S.axis.leaves = Finset.univ.val ∧ S.axis.depth ≤ d
  square : ∀ i j, (S.square i j).leaves = Finset.univ.val ∧ (S.square i j).depth ≤ d
  prod : ∀ b k i j, (S.prod b k i j).leaves = Finset.univ.val ∧ (S.prod b k i j).depth ≤ d
  cosine : ∀ b, (S.cosine b).leaves = Finset.univ.val ∧ (S.cosine b).depth ≤ d
  sine : ∀ b, (S.sine b).leaves = Finset.univ.val ∧ (S.sine b).depth ≤ d
  prime : ∀ i j, (S.prime i j).leaves = Finset.univ.val ∧ (S.prime i j).depth ≤ d

/-- All sums one term after the other, for `n` spins. -/
def ConeSums.sequential (n : ℕ) : ConeSums where
  toSums := .sequential n
  axis := .ofList (List.finRange 3)
  square _ _ := .ofList (List.finRange 3)
  prod _ _ _ _ := .ofList (List.finRange 3)
  cosine _ := .ofList (List.finRange 3)
  sine _ := .ofList (List.finRange 3)
  prime _ _ := .ofList (List.finRange 3)

/-- The size of the matrix of the vector product with `n`. -/
def crossSize (n : V3 ℝ) : M3 ℝ := !![0, |n 2|, |n 1|; |n 2|, 0, |n 0|; |n 1|, |n 0|, 0]

/-- The size of its square. -/
def squareSize (n : V3 ℝ) : M3 ℝ := crossSize n * crossSize n

/-- The size of the part of an antiferro bond that turns with the spiral vector. -/
def antiferroTurn (n : V3 ℝ) (J : M3 ℝ) : M3 ℝ := squareSize n * J.map abs * squareSize n + squareSize n * J.map abs * crossSize n

/-- The size of the part of a spiral bond that turns with the spiral vector. -/
noncomputable def spiralTurn (n : V3 ℝ) (J : M3 ℝ) : M3 ℝ :=
  (1 / 2 : ℝ) • (crossSize n * J.map abs * crossSize n + squareSize n * J.map abs * squareSize n +
    crossSize n * J.map abs * squareSize n + squareSize n * J.map abs * crossSize n)

/-- The size of the part of a bond that does not turn. -/
def staySize (n : V3 ℝ) (J : M3 ℝ) : M3 ℝ := (1 + squareSize n) * J.map abs * (1 + squareSize n)

/-- The sum of the sizes of the bonds, for unit vectors `e`; the bond vector `d` and the matrix `J` have the size `M d J`. -/
def bondSize (E : EnergyObj ℝ) (M : V3 ℝ → M3 ℝ → M3 ℝ) (cell : ℕ → M3 ℝ) (e : List (V3 ℝ)) : ℝ :=
  (E.bonds.map fun (i, j, d, J) => |E.factor| * |E.spins.getD i 0| * |E.spins.getD j 0| *
    ∑ a, ∑ b, |(e.getD i 0) a| * M d (cell J) a b * |(e.getD j 0) b|).sum

/-- The size of the Zeeman energy of a cone. -/
def coneZeemanSize (E : EnergyObj ℝ) (muB : ℝ) (n : V3 ℝ) (e : List (V3 ℝ)) : ℝ :=
  match E.field with
  | none => 0
  | some h => |muB| * (List.zipWith (fun g v => ∑ a : Fin 3, |g| * |h a| * ∑ b, (1 + (1 + squareSize n)) a b * |(v : V3 ℝ) b|) E.gFactors e).sum

/-- The size of the phase of a bond. -/
def phaseSize (q d : V3 ℝ) : ℝ := ∑ k, |q k| * |d k|

/-- The bound of the error of the energy of a cone: `N` roundings of all terms, and the error of the phases. -/
noncomputable def coneBound (E : EnergyObj ℝ) (u : ℝ) (N d : ℕ) (muB : ℝ) (turn : V3 ℝ → M3 ℝ → M3 ℝ) (cell : ℕ → M3 ℝ) (e : List (V3 ℝ)) (n q : V3 ℝ) : ℝ :=
  gamma u N * (E.bondSize (fun _ J => staySize n J + turn n J) cell e + E.coneZeemanSize muB n e) +
    gamma u (d + 1) * E.bondSize (fun v J => phaseSize q v • turn n J) cell e

/-- The number of roundings: those inside of the matrix of a bond, of the cosine, and one for every bond. -/
def coneRoundings (E : EnergyObj ℝ) (d k : ℕ) : ℕ := E.bonds.length + 11 * d + k + 33

end EnergyObj
end Magnopy
