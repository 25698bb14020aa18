import Verif.Model.MagnonFloat
import Verif.Spec.EnergyConeRounding

/-!
# Specification: round-off of the magnon matrix

The size of a complex number is the sum of the absolute values of its parts.
-/

set_option autoImplicit false

namespace Magnopy
namespace MagnonObj

open Complex Matrix EnergyObj

/-- Rounding by the fraction `u`; the exponential function of imaginary numbers is correct up to `m` roundings of both parts. -/
structure ExpArith.Good (A : ExpArith) (u : ℝ) (m : ℕ) : Prop where
  fl : IsRounding A.fl u
  re : ∀ y : ℝ, Rounded u m (Real.cos y) (A.exp (y * I)).re
  im : ∀ y : ℝ, Rounded u m (Real.sin y) (A.exp (y * I)).im

/-- Every term is added once and takes part in at most `d` additions. -/
structure CallSums.Complete (S : CallSums) (d : ℕ) : Prop where
  norm : ∀ i j, (S.norm i j).leaves = Finset.univ.val ∧ (S.norm i j).depth ≤ d
  norm' : ∀ i j, (S.norm' i j).leaves = Finset.univ.val ∧ (S.norm' i j).depth ≤ d
  phase : ∀ b, (S.phase b).leaves = Finset.univ.val ∧ (S.phase b).depth ≤ d
  left : ∀ i j b, ((S.left i j b).1.leaves = Finset.univ.val ∧ (S.left i j b).1.depth ≤ d) ∧
    (S.left i j b).2.leaves = Finset.univ.val ∧ (S.left i j b).2.depth ≤ d
  right : ∀ i j, ((S.right i j).1.leaves = Finset.univ.val ∧ (S.right i j).1.depth ≤ d) ∧
    (S.right i j).2.leaves = Finset.univ.val ∧ (S.right i j).2.depth ≤ d

/-- The same for all calls. -/
structure HSums.Complete (S : HSums) (d : ℕ) : Prop where
  a : S.a.Complete d
  c : S.c.Complete d
  b : S.b.Complete d
  b' : S.b'.Complete d
  a' : S.a'.Complete d

/-- All sums one term after the other. -/
def CallSums.sequential : CallSums where
  norm _ _ := .ofList (List.finRange 3)
  norm' _ _ := .ofList (List.finRange 3)
  phase _ := .ofList (List.finRange 3)
  left _ _ _ := (.ofList (List.finRange 3 ×ˢ [false, true]), .ofList (List.finRange 3 ×ˢ [false, true]))
  right _ _ := (.ofList (List.finRange 3 ×ˢ [false, true]), .ofList (List.finRange 3 ×ˢ [false, true]))

/-- The size of a complex number. -/
def size1 (z : ℂ) : ℝ := |z.re| + |z.im|

/-- The sizes of the parameters of all bonds from atom `i` to atom `j`, with a factor `f` that depends on the vector of the bond. -/
def jSize (o : MagnonObj) (cell : ℕ → M3 ℝ) (f : V3 ℝ → ℝ) (i j : ℕ) (a b : Fin 3) : ℝ :=
  (o.bonds.map fun x => if x.1 = i ∧ x.2.1 = j then |cell x.2.2.2 a b| * f x.2.2.1 else 0).sum

/-- The size of `x @ J @ y`. -/
def formSize (o : MagnonObj) (cell : ℕ → M3 ℝ) (f : V3 ℝ → ℝ) (i j : ℕ) (x y : V3 ℂ) : ℝ :=
  ∑ a, ∑ b, size1 (x a) * o.jSize cell f i j a b * size1 (y b)

/-- The size of an entry of `A` or `B`. -/
noncomputable def abSize (o : MagnonObj) (cell : ℕ → M3 ℝ) (f : V3 ℝ → ℝ) (i j : ℕ) : ℝ :=
  Real.sqrt (norm3 (o.S.getD i 0) * norm3 (o.S.getD j 0)) / 2 * o.formSize cell f i j (o.u.getD i 0) (o.u.getD j 0)

/-- The size of an entry of `C`. -/
noncomputable def cSize (o : MagnonObj) (cell : ℕ → M3 ℝ) (f : V3 ℝ → ℝ) (i j : ℕ) : ℝ :=
  if i = j then ∑ l ∈ Finset.range o.N, norm3 (o.S.getD l 0) * o.formSize cell f i l (o.v.getD i 0) (o.v.getD l 0) else 0

/-- The size of an entry of `h`; `f` is the factor in `A` and `B`, `f'` that in `C`. -/
noncomputable def hSize (o : MagnonObj) (cell : ℕ → M3 ℝ) (f f' : V3 ℝ → ℝ) : Fin o.N ⊕ Fin o.N → Fin o.N ⊕ Fin o.N → ℝ
  | .inl i, .inl j => 2 * o.abSize cell f i j + 2 * o.cSize cell f' i j
  | .inl i, .inr j => 2 * o.abSize cell f i j
  | .inr i, .inl j => 2 * o.abSize cell f j i
  | .inr i, .inr j => 2 * o.abSize cell f i j + 2 * o.cSize cell f' i j

/-- The number of roundings: one for every bond and every atom, those of sums, of the exponential function, and in products. -/
def hRoundings (o : MagnonObj) (d m : ℕ) : ℕ := o.bonds.length + o.N + 4 * d + m + 17

/-- The bound of the error of an entry of `h(k)`: the roundings of all terms (both parts of a phase together are at most 3/2), and the
errors of the phases in `A` and `B`. -/
noncomputable def hBound (o : MagnonObj) (cell : ℕ → M3 ℝ) (u : ℝ) (d m : ℕ) (k : V3 ℝ) (i j : Fin o.N ⊕ Fin o.N) : ℝ :=
  gamma u (o.hRoundings d m) * o.hSize cell (fun _ => 3 / 2) (fun _ => 3 / 2) i j +
    gamma u (d + 3) * o.hSize cell (phaseSize k) (fun _ => 0) i j

/-- The place of an index in arrays of size `2N`. -/
def place {N : ℕ} : Fin N ⊕ Fin N → ℕ := Sum.elim (fun i => i) fun i => N + i

/-- The Hermitian matrix with the given entries below the diagonal, and the real parts of those on it. -/
noncomputable def lower {N : ℕ} (M : Mat N) : Mat N := Matrix.of fun i j =>
  if place j < place i then M i j else if place i < place j then star (M j i) else ((M i i).re : ℂ)

/-- `np.linalg.cholesky` uses the lower triangle only (documentation of numpy). -/
def ReadsLower {N : ℕ} (chol : Mat N → Option (Mat N)) : Prop := ∀ D, chol D = chol (lower D)

end MagnonObj
end Magnopy
