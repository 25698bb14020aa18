import Verif.Model.Energy

/-!
# `Energy.ferro` in floating-point arithmetic  (energy.py 1027-1090)

The program of `Model/Energy` with a rounding `fl` after every product, quotient, sum and square root.  numpy does not say in which order
`einsum` and `dot` add; the order is an argument (`Tree`), a different one for every call.  Products inside `einsum` are formed from
left to right.  Overflow, underflow, `nan` (the zero vector) and fused products with sums are outside of the model.
-/

set_option autoImplicit false

namespace Magnopy
namespace EnergyObj

/-- An order of additions: which terms are added, and how they are bracketed; accumulators may start from zero. -/
inductive Tree (ι : Type*) where
  | zero
  | leaf (i : ι)
  | node (l r : Tree ι)

/-- The sum with a rounding after each addition. -/
def Tree.sum {ι K : Type*} [Add K] [Zero K] (fl : K → K) (f : ι → K) : Tree ι → K
  | .zero => 0
  | .leaf i => f i
  | .node l r => fl (l.sum fl f + r.sum fl f)

/-- The orders of additions of one call of `ferro`: in the norm of each spin, in the `einsum` of each bond and in the Zeeman term. -/
structure Sums where
  /-- `dot` in `np.linalg.norm` -/
  norm : ℕ → Tree (Fin 3)
  /-- `np.einsum("i,ij,j", …)` -/
  bond : ℕ → Tree (Fin 3 × Fin 3)
  /-- `np.einsum("i,j,ij", …)` -/
  zeeman : Tree (ℕ × Fin 3)

/-- `np.linalg.norm`: the square root of the scalar product with itself. -/
noncomputable def norm3Fl (fl : ℝ → ℝ) (T : Tree (Fin 3)) (v : V3 ℝ) : ℝ := fl (Real.sqrt (T.sum fl fun i => fl (v i * v i)))

/-- `spin_orientation[i] /= np.linalg.norm(spin_orientation[i])`, energy.py 1068-1069. -/
noncomputable def normalizeFl (fl : ℝ → ℝ) (T : Tree (Fin 3)) (v : V3 ℝ) : V3 ℝ := fun i => fl (v i / norm3Fl fl T v)

variable {K : Type*} [Field K]

/-- `np.einsum("i,ij,j", u, J, v)`. -/
def einsum3Fl (fl : K → K) (T : Tree (Fin 3 × Fin 3)) (u : V3 K) (J : M3 K) (v : V3 K) : K :=
  T.sum fl fun p => fl (fl (u p.1 * J p.1 p.2) * v p.2)

/-- The loop over the bonds, energy.py 1074-1083. -/
def bondSumFl (fl : K → K) (S : Sums) (E : EnergyObj K) (cell : ℕ → M3 K) (e : List (V3 K)) : K :=
  E.bonds.zipIdx.foldl (fun energy b =>
    fl (energy + fl (fl (fl (E.factor * E.spins.getD b.1.1 0) * E.spins.getD b.1.2.1 0) *
      einsum3Fl fl (S.bond b.2) (e.getD b.1.1 0) (cell b.1.2.2.2) (e.getD b.1.2.1 0)))) 0

/-- `ferro` after the checks, energy.py 1071-1090. -/
def ferroUnitFl (fl : K → K) (S : Sums) (E : EnergyObj K) (muB : K) (cell : ℕ → M3 K) (e : List (V3 K)) : K :=
  match E.field with
  | none => bondSumFl fl S E cell e
  | some h => fl (bondSumFl fl S E cell e +
      fl (muB * S.zeeman.sum fl fun p => fl (fl (E.gFactors.getD p.1 0 * h p.2) * e.getD p.1 0 p.2)))

/-- `Energy.ferro`, energy.py 1027-1090. -/
noncomputable def ferroFl (fl : ℝ → ℝ) (S : Sums) (E : EnergyObj ℝ) (muB : ℝ) (cell : ℕ → M3 ℝ) (so : Param.ArrayLike ℝ) :
    Except PyErr ℝ :=
  match orientations E.spins.length so with
  | .error x => .error x
  | .ok e => .ok (ferroUnitFl fl S E muB cell (e.zipIdx.map fun p => normalizeFl fl (S.norm p.2) p.1))

end EnergyObj
end Magnopy
