import Verif.Spec.Wave
import Verif.Spec.WellFormed
import Mathlib.Analysis.Calculus.Deriv.Basic
import Mathlib.Analysis.SpecialFunctions.Exp
import Mathlib.LinearAlgebra.CrossProduct

/-!
# Specification: the equations of motion of classical spins

With energies in units of frequencies, a spin of length `S` and direction `n` moves according to Landau and Lifshitz:

    S dn/dt = (∂E/∂n) × n

(the Poisson bracket of two components of a spin is the third component).
-/

set_option autoImplicit false

namespace Magnopy

open Matrix Complex

variable {Γ : Type*} [AddCommGroup Γ] [Fintype Γ]

open Classical in
/-- The configuration where the vector of the atom `a` in the cell `n` is changed by `w`. -/
noncomputable def Config.moved (c : Config ℝ Γ) (a : Atom) (n : Γ) (w : V3 ℝ) : Config ℝ Γ :=
  ⟨c.τ, fun b m => if b = a ∧ m = n then c.σ b m + w else c.σ b m⟩

/-- `g a n` is the derivative of the energy by the vector of the atom `a` in the cell `n`. -/
def St.Gradient (s : St ℝ) (spin : Atom → ℝ) (c : Config ℝ Γ) (g : Atom → Γ → V3 ℝ) : Prop :=
  ∀ a n v, ∃ E : ℝ → ℝ, (∀ δ : ℝ, s.physics (c.moved a n (δ • v)) spin = some (E δ)) ∧ HasDerivAt E (g a n ⬝ᵥ v) 0

/-- The configurations `c ε T`, where `ε` is the size of the deviation and `T` the time, obey the equations of motion of all
atoms up to first order in `ε`: for `ε = 0` they hold, and the derivative by `ε` of the difference of both sides is zero. -/
def St.LinearMotion (s : St ℝ) (spin : Atom → ℝ) (atoms : List Atom) (c : ℝ → ℝ → Config ℝ Γ) : Prop :=
  ∀ T, ∃ v g : ℝ → Atom → Γ → V3 ℝ, (∀ ε, s.Gradient spin (c ε T) (g ε)) ∧
    (∀ ε a n, HasDerivAt (fun T => (c ε T).σ a n) (v ε a n) T) ∧
    ∀ a ∈ atoms, ∀ n, spin a • v 0 a n = crossProduct (g 0 a n) ((c 0 T).σ a n) ∧
      HasDerivAt (fun ε => spin a • v ε a n - crossProduct (g ε a n) ((c ε T).σ a n)) 0 0

/-- Amplitudes that oscillate with the frequency `ω`. -/
noncomputable def oscillating (α : Atom → ℂ) (ω : ℂ) (T : ℝ) (a : Atom) : ℂ := α a * exp (-(I * ω * T))

end Magnopy
