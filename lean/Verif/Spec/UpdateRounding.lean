import Verif.Model.UpdateFloat
import Verif.Spec.EnergyConeRounding
import Verif.Spec.Optimize
import Verif.Spec.Rotation

/-!
# Specification: updates and runs with floats
-/

set_option autoImplicit false

namespace Magnopy
namespace Optimize

open EnergyObj

/-- The axis of a row that is turned by the entries `a` of the search direction times the step: `a` is `(t_z, -t_y, t_x)` of minus a torque. -/
noncomputable def axisOf (a : V3 ℝ) : V3 ℝ := ![-a 2 / norm3 a, a 1 / norm3 a, -a 0 / norm3 a]

/-- The entries for row `i`. -/
noncomputable def entries (p : Arr) (step : ℝ) (i : ℕ) : V3 ℝ := ![p (3 * i) * step, p (3 * i + 1) * step, p (3 * i + 2) * step]

/-- The first `count` rows are turned about the axes that the search direction gives, by its angles up to five roundings and with an error of the
components of at most `g` times the length of the row; angles below the limit of the program can count as zero.  The other rows are kept. -/
def Turned (u g : ℝ) (count : ℕ) (p : Arr) (step : ℝ) (x x' : List (V3 ℝ)) : Prop :=
  x'.length = x.length ∧ ∀ i < x.length,
    (i < count → ∃ t, (|t - norm3 (entries p step i)| ≤ gamma u 5 * norm3 (entries p step i) ∨ t = 0 ∧ norm3 (entries p step i) < 2 * eps) ∧
      ∀ c, |x'.getD i 0 c - rotate (axisOf (entries p step i)) t (x.getD i 0) c| ≤ g * norm3 (x.getD i 0)) ∧
    (count ≤ i → x'.getD i 0 = x.getD i 0)

/-- `m` rows are unit vectors up to `e`. -/
def NearUnit (m : ℕ) (e : ℝ) (y : List (V3 ℝ)) : Prop := y.length = m ∧ ∀ i < m, |norm3 (y.getD i 0) - 1| ≤ e

/-- What happens to the array of spins in a run of `optimize` in the ferro case: the calls of `_ferro_grad` change it in place, the updates
replace it.  The numbers count both. -/
inductive Run (A : Arith) (d : ℕ) (E : EnergyObj ℝ) (muB : ℝ) (cell : ℕ → M3 ℝ) (x : List (V3 ℝ)) : ℕ → List (V3 ℝ) → Prop where
  | start : Run A d E muB cell x 0 x
  | grad {n : ℕ} {y : List (V3 ℝ)} (S : ℕ → Fin 3 → Bool → Sums) (h : Run A d E muB cell x n y) :
      Run A d E muB cell x (n + 1) (ferroGradFl A.fl S E muB cell y).2.2
  | update {n : ℕ} {y : List (V3 ℝ)} (T : ℕ → EnergyObj.Tree (Fin 3)) (hT : ∀ i, (T i).leaves = Finset.univ.val ∧ (T i).depth ≤ d) (p : Arr)
      (step : ℝ) (h : Run A d E muB cell x n y) : Run A d E muB cell x (n + 1) (updateFerroFl A T (3 * E.spins.length) y p step)

end Optimize
end Magnopy
