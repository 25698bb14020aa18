import Verif.Model.Energy
import Verif.Spec.Cone
import Verif.Spec.Optimize
import Mathlib.Analysis.Calculus.Deriv.Basic

/-!
# Specification: torques
-/

set_option autoImplicit false

namespace Magnopy

/-- `T` are the torques on the vectors `x` for the energy `En`: whenever the vectors start to turn with the angular
velocities `w`, the energy is defined at all times and changes at the rate `∑ᵢ wᵢ · Tᵢ`. -/
def HasTorques (En : List (V3 ℝ) → Except PyErr ℝ) (x : List (V3 ℝ)) (T : ℕ → V3 ℝ) : Prop :=
  ∀ (w : ℕ → V3 ℝ) (y : ℕ → ℝ → V3 ℝ),
    (∀ i < x.length, y i 0 = x.getD i 0 ∧ HasDerivAt (y i) (crossProduct (w i) (x.getD i 0)) 0) →
    ∃ f : ℝ → ℝ, (∀ t, En ((List.range x.length).map fun i => y i t) = .ok (f t)) ∧
      HasDerivAt f (∑ i ∈ Finset.range x.length, w i ⬝ᵥ T i) 0

/-- The sum of the absolute values of the parameters (times spins and the common factor) and of the components of the
magnetic field (times g factors and the Bohr magneton). -/
noncomputable def strength (E : EnergyObj ℝ) (muB : ℝ) (cell : ℕ → M3 ℝ) : ℝ :=
  (E.bonds.map fun (i, j, _, J) =>
    |E.factor * E.spins.getD i 0 * E.spins.getD j 0| * ∑ a, ∑ b, |cell J a b|).sum +
  match E.field with
  | none => 0
  | some h => |muB| * ((E.gFactors.map fun g => |g|).sum * ∑ a, |h a|)

open EnergyObj Optimize in
/-- The angular velocity of row `i` for the search direction `p` of `optimize`. -/
def angular (p : Arr) (i : ℕ) : V3 ℝ := ![-p (3 * i + 2), p (3 * i + 1), -p (3 * i)]

open EnergyObj in
/-- Row `i` after turning for the time `s` with its angular velocity. -/
noncomputable def turning (p : Arr) (v : V3 ℝ) (i : ℕ) (s : ℝ) : V3 ℝ :=
  if norm3 (angular p i) = 0 then v else rotate (normalize (angular p i)) (s * norm3 (angular p i)) v

/-- The rows `x` after turning for the time `s` with the angular velocities of the search direction `p`. -/
noncomputable def turned (x : List (V3 ℝ)) (p : Arr) (s : ℝ) : List (V3 ℝ) :=
  (List.range x.length).map fun i => turning p (x.getD i 0) i s

end Magnopy
