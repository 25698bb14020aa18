import Mathlib.LinearAlgebra.Matrix.PosDef
import Mathlib.LinearAlgebra.Matrix.NonsingularInverse
import Mathlib.Data.Matrix.Block
import Mathlib.Analysis.Complex.Order
import Mathlib.Logic.Equiv.Defs

/-!
# Specification: diagonalisation of quadratic boson Hamiltonians, and the linear algebra of numpy

`Fin N ⊕ Fin N` are the indices of the `N` annihilation and the `N` creation operators.
-/

set_option autoImplicit false

namespace Magnopy

open Matrix ComplexOrder

variable {N : ℕ}

/-- The commutators of the bosons. -/
def bosonMetric (N : ℕ) : Matrix (Fin N ⊕ Fin N) (Fin N ⊕ Fin N) ℂ := fromBlocks 1 0 0 (-1)

/-- `G` transforms bosons to bosons, and `D` to the diagonal form with the entries `E`. -/
structure BosonDiagonal (D G : Matrix (Fin N ⊕ Fin N) (Fin N ⊕ Fin N) ℂ) (E : Fin N ⊕ Fin N → ℂ) : Prop where
  /-- `G` has an inverse -/
  unit : IsUnit G.det
  /-- the new operators are bosons -/
  bosons : G * bosonMetric N * Gᴴ = bosonMetric N
  /-- diagonal form -/
  diag : (Gᴴ)⁻¹ * D * G⁻¹ = diagonal E

/-- All entries are real and positive, the first `N` in descending, the last `N` in ascending order. -/
structure EnergyOrder (E : Fin N ⊕ Fin N → ℂ) : Prop where
  real : ∀ i, ((E i).re : ℂ) = E i
  pos : ∀ i, 0 < (E i).re
  first : ∀ i j : Fin N, i ≤ j → (E (.inl j)).re ≤ (E (.inl i)).re
  last : ∀ i j : Fin N, i ≤ j → (E (.inr i)).re ≤ (E (.inr j)).re

/-! ### What is assumed of numpy -/

/-- `np.linalg.cholesky` decomposes positive-definite matrices and raises for other Hermitian ones. -/
structure IsCholesky (chol : Matrix (Fin N ⊕ Fin N) (Fin N ⊕ Fin N) ℂ → Option (Matrix (Fin N ⊕ Fin N) (Fin N ⊕ Fin N) ℂ)) :
    Prop where
  ok : ∀ D, D.PosDef → ∃ F, chol D = some F ∧ F * Fᴴ = D
  fail : ∀ D, D.IsHermitian → ¬ D.PosDef → chol D = none

/-- `np.linalg.eig` returns eigenvalues and a basis of normalised eigenvectors of a Hermitian matrix. -/
def IsEig (eig : Matrix (Fin N ⊕ Fin N) (Fin N ⊕ Fin N) ℂ →
    (Fin N ⊕ Fin N → ℂ) × Matrix (Fin N ⊕ Fin N) (Fin N ⊕ Fin N) ℂ) : Prop :=
  ∀ M, M.IsHermitian → M * (eig M).2 = (eig M).2 * diagonal (eig M).1 ∧ IsUnit (eig M).2.det ∧
    ∀ j, ∑ i, ‖(eig M).2 i j‖ ^ 2 = 1

/-- The eigenvectors are orthonormal. -/
def IsOrthoEig (eig : Matrix (Fin N ⊕ Fin N) (Fin N ⊕ Fin N) ℂ →
    (Fin N ⊕ Fin N → ℂ) × Matrix (Fin N ⊕ Fin N) (Fin N ⊕ Fin N) ℂ) : Prop :=
  IsEig eig ∧ ∀ M, M.IsHermitian → (eig M).2ᴴ * (eig M).2 = 1

/-- Descending order of an array of length `2N`. -/
structure Descending (x : Fin N ⊕ Fin N → ℝ) : Prop where
  first : ∀ i j : Fin N, i ≤ j → x (.inl j) ≤ x (.inl i)
  last : ∀ i j : Fin N, i ≤ j → x (.inr j) ≤ x (.inr i)
  across : ∀ i j : Fin N, x (.inr j) ≤ x (.inl i)

/-- The reversed `np.argsort`: descending order of the real parts (whatever happens to equal values). -/
def IsSort (sort : (Fin N ⊕ Fin N → ℂ) → Equiv.Perm (Fin N ⊕ Fin N)) : Prop :=
  ∀ L : Fin N ⊕ Fin N → ℂ, Descending fun i => (L (sort L i)).re

end Magnopy
