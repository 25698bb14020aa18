import Verif.Spec.Energy
import Mathlib.Analysis.SpecialFunctions.Trigonometric.Basic

/-!
# Specification: spin waves of classical spins

A spin of length `S` with the local frame e1, e2, e3 that deviates from e3 by the complex amplitude `z` is, up to
terms of third order,

    S e3 + √(2S) (Re z e1 + Im z e2) - |z|² e3

(`z` takes the place of the boson operator in the expansion of Holstein and Primakoff).
-/

set_option autoImplicit false

namespace Magnopy

open Matrix Complex

/-- The direction of a spin of length `S` with the frame `e` (rows) and the amplitude `ε z`, up to second order in
`ε`. -/
noncomputable def tilted (e : M3 ℝ) (S : ℝ) (z : ℂ) (ε : ℝ) : V3 ℝ :=
  e 2 + (ε * Real.sqrt (2 / S)) • (z.re • e 0 + z.im • e 1) - (ε ^ 2 * (normSq z / S)) • e 2

/-- The vector with the relative coordinates `x`. -/
def absolute (lat : M3 ℝ) (x : V3 ℝ) : V3 ℝ := fun c => ∑ i, x i * lat i c

/-- A lattice vector as relative coordinates. -/
def Cell.rel (R : Cell) : V3 ℝ := ![(R.1 : ℝ), (R.2.1 : ℝ), (R.2.2 : ℝ)]

/-- `χ n` is the factor `exp(i k·R)` of the cell `n` of the supercell. -/
structure Bloch {Γ : Type*} [AddCommGroup Γ] (lat : M3 ℝ) (k : V3 ℝ) (τ : Cell →+ Γ) (χ : Γ → ℂ) : Prop where
  add : ∀ m n, χ (m + n) = χ m * χ n
  unit : ∀ n, ‖χ n‖ = 1
  cell : ∀ R, χ (τ R) = exp (I * ((k ⬝ᵥ absolute lat R.rel : ℝ) : ℂ))

/-- A travelling wave: `k` and `-k` are not equivalent. -/
structure PlaneWave {Γ : Type*} [AddCommGroup Γ] (lat : M3 ℝ) (k : V3 ℝ) (τ : Cell →+ Γ) (χ : Γ → ℂ) : Prop extends
    Bloch lat k τ χ where
  two : ∃ n, χ n ^ 2 ≠ 1

/-- A standing wave: `k` and `-k` are equivalent, and the two parts of the amplitude are equal. (As the factors are
real, every amplitude is the sum of two such equal parts.) -/
structure StandingWave {Γ : Type*} [AddCommGroup Γ] (lat : M3 ℝ) (pos : Atom → V3 ℝ) (k : V3 ℝ) (τ : Cell →+ Γ)
    (χ : Γ → ℂ) (α β : Atom → ℂ) : Prop extends Bloch lat k τ χ where
  two : ∀ n, χ n ^ 2 = 1
  equal : ∀ a, α a * exp (I * ((k ⬝ᵥ absolute lat (pos a) : ℝ) : ℂ)) =
    star (β a * exp (I * ((k ⬝ᵥ absolute lat (pos a) : ℝ) : ℂ)))

/-- The amplitude of the atom `a` in the cell `n`: `α exp(i k·r) + conj(β exp(i k·r))`. -/
noncomputable def amplitude {Γ : Type*} (lat : M3 ℝ) (pos : Atom → V3 ℝ) (k : V3 ℝ) (χ : Γ → ℂ) (α β : Atom → ℂ)
    (a : Atom) (n : Γ) : ℂ :=
  let z := χ n * exp (I * ((k ⬝ᵥ absolute lat (pos a) : ℝ) : ℂ))
  α a * z + star (β a * z)

/-- The spin wave with the wave vector `k`: `frame a` is the local frame of the atom `a`. -/
noncomputable def wave {Γ : Type*} [AddCommGroup Γ] (lat : M3 ℝ) (pos : Atom → V3 ℝ) (frame : Atom → M3 ℝ)
    (spin : Atom → ℝ) (τ : Cell →+ Γ) (χ : Γ → ℂ) (k : V3 ℝ) (α β : Atom → ℂ) (ε : ℝ) : Config ℝ Γ :=
  ⟨τ, fun a n => tilted (frame a) (spin a) (amplitude lat pos k χ α β a n) ε⟩

end Magnopy
