import Verif.Spec.UpdateRounding

/-!
# Specification: runs of the cone cases with floats
-/

set_option autoImplicit false

namespace Magnopy
namespace Optimize

open EnergyObj

/-- What happens to the rows (spins and cone axis) and the spiral vector in a run of `optimize` in the antiferro case: the calls of
`_antiferro_grad` change the rows in place, the updates replace both.  The numbers count both. -/
inductive RunAntiferro (A : Arith) (d : ℕ) (E : EnergyObj ℝ) (muB : ℝ) (cell : ℕ → M3 ℝ) (x : ConeX) : ℕ → ConeX → Prop where
  | start : RunAntiferro A d E muB cell x 0 x
  | grad {n : ℕ} {y : ConeX} (S : ℕ → Fin 3 → Bool → ConeSums) (h : RunAntiferro A d E muB cell x n y) :
      RunAntiferro A d E muB cell x (n + 1) ((antiferroTorquesFl A S E muB cell y.1 y.2).2, y.2)
  | update {n : ℕ} {y : ConeX} (T : ℕ → EnergyObj.Tree (Fin 3)) (hT : ∀ i, (T i).leaves = Finset.univ.val ∧ (T i).depth ≤ d) (p : Arr) (step : ℝ)
      (h : RunAntiferro A d E muB cell x n y) : RunAntiferro A d E muB cell x (n + 1) (updateAntiferroFl A T (3 * E.spins.length + 3) y p step)

/-- As `RunAntiferro` for the spiral case. -/
inductive RunSpiral (A : Arith) (d : ℕ) (E : EnergyObj ℝ) (muB : ℝ) (cell : ℕ → M3 ℝ) (x : ConeX) : ℕ → ConeX → Prop where
  | start : RunSpiral A d E muB cell x 0 x
  | grad {n : ℕ} {y : ConeX} (S : ℕ → Fin 3 → Bool → ConeSums) (h : RunSpiral A d E muB cell x n y) :
      RunSpiral A d E muB cell x (n + 1) ((spiralTorquesFl A S E muB cell y.1 y.2).2, y.2)
  | update {n : ℕ} {y : ConeX} (T : ℕ → EnergyObj.Tree (Fin 3)) (hT : ∀ i, (T i).leaves = Finset.univ.val ∧ (T i).depth ≤ d) (p : Arr) (step : ℝ)
      (h : RunSpiral A d E muB cell x n y) : RunSpiral A d E muB cell x (n + 1) (updateSpiralFl A T (3 * E.spins.length + 6) y p step)

end Optimize
end Magnopy
