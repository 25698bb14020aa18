import Verif.Model.EnergyConeFloat
import Verif.Model.Optimize

/-!
# `Energy._ferro_grad` and the torques of the cone cases in floating-point arithmetic  (energy.py 798-990)

The program of `Model/Optimize` with a rounding `fl` after every operation.  The array of spins is changed in place, and is not restored
exactly: `x - h + 2 * h - h` is not `x` for floats.  So later components and rows are computed with the changed array, and the caller gets it
back.  The orders of additions are arguments, one for every call of `ferro`.
-/

set_option autoImplicit false

namespace Magnopy
namespace Optimize

open EnergyObj

/-- `spin_orientation[i][j] = f(spin_orientation[i][j])`. -/
def setComp (x : List (V3 ℝ)) (i : ℕ) (j : Fin 3) (f : ℝ → ℝ) : List (V3 ℝ) :=
  x.set i fun a => if a = j then f (x.getD i 0 a) else x.getD i 0 a

/-- The body of the loop over the components, energy.py 826-831: the component of the gradient and the array afterwards. -/
noncomputable def gradCompFl (fl : ℝ → ℝ) (h : ℝ) (F : Bool → List (V3 ℝ) → ℝ) (x : List (V3 ℝ)) (i : ℕ) (j : Fin 3) :
    ℝ × List (V3 ℝ) :=
  let x1 := setComp x i j fun v => fl (v - h)
  let x2 := setComp x1 i j fun v => fl (v + fl (2 * h))
  (fl (fl (fl (F true x2 - F false x1) / 2) / h), setComp x2 i j fun v => fl (v - h))

/-- `np.cross` of two 3-vectors. -/
def crossFl (fl : ℝ → ℝ) (u v : V3 ℝ) : V3 ℝ :=
  ![fl (fl (u 1 * v 2) - fl (u 2 * v 1)), fl (fl (u 2 * v 0) - fl (u 0 * v 2)), fl (fl (u 0 * v 1) - fl (u 1 * v 0))]

/-- The body of the loop over the spins, energy.py 823-833. -/
noncomputable def rowTorqueFl (fl : ℝ → ℝ) (h : ℝ) (F : Fin 3 → Bool → List (V3 ℝ) → ℝ) (x : List (V3 ℝ)) (i : ℕ) :
    V3 ℝ × List (V3 ℝ) :=
  let a := gradCompFl fl h (F 0) x i 0
  let b := gradCompFl fl h (F 1) a.2 i 1
  let c := gradCompFl fl h (F 2) b.2 i 2
  (crossFl fl (c.2.getD i 0) ![a.1, b.1, c.1], c.2)

/-- The loop over the spins, energy.py 822-838: the torques and the array afterwards. -/
noncomputable def rowTorquesFl (fl : ℝ → ℝ) (h : ℝ) (F : ℕ → Fin 3 → Bool → List (V3 ℝ) → ℝ) : List ℕ → List (V3 ℝ) →
    List (V3 ℝ) × List (V3 ℝ)
  | [], x => ([], x)
  | i :: is, x =>
    let t := rowTorqueFl fl h (F i) x i
    let r := rowTorquesFl fl h F is t.2
    (t.1 :: r.1, r.2)

/-- `_ferro_grad`, energy.py 798-841: the gradient, the torques and the array of spins afterwards.  `h` is the float next to `1e-4`. -/
noncomputable def ferroGradFl (fl : ℝ → ℝ) (S : ℕ → Fin 3 → Bool → Sums) (E : EnergyObj ℝ) (muB : ℝ) (cell : ℕ → M3 ℝ) (x : List (V3 ℝ)) :
    Arr × List (V3 ℝ) × List (V3 ℝ) :=
  let r := rowTorquesFl fl (fl fdStep) (fun i j s l => ferroUnitFl fl (S i j s) E muB cell
    (l.zipIdx.map fun p => normalizeFl fl ((S i j s).norm p.2) p.1)) (List.range x.length) x
  (packTorques r.1, r.1, r.2)

/-- The torques of `_antiferro_grad` and the array afterwards, energy.py 878-910; the last row of `x` is the cone axis. -/
noncomputable def antiferroTorquesFl (A : Arith) (S : ℕ → Fin 3 → Bool → ConeSums) (E : EnergyObj ℝ) (muB : ℝ) (cell : ℕ → M3 ℝ) (x : List (V3 ℝ))
    (q : V3 ℝ) : List (V3 ℝ) × List (V3 ℝ) :=
  rowTorquesFl A.fl (A.fl fdStep) (fun i j s l => coneUnitFl A.fl (S i j s) E muB
    (antiferroCFl A (S i j s) (normalizeFl A.fl (S i j s).axis (l.getLastD 0)) q) cell
    (l.dropLast.zipIdx.map fun p => normalizeFl A.fl ((S i j s).norm p.2) p.1) (normalizeFl A.fl (S i j s).axis (l.getLastD 0)))
    (List.range x.length) x

/-- The torques of `_spiral_grad` and the array afterwards, energy.py 955-987; the last row of `x` is the cone axis. -/
noncomputable def spiralTorquesFl (A : Arith) (S : ℕ → Fin 3 → Bool → ConeSums) (E : EnergyObj ℝ) (muB : ℝ) (cell : ℕ → M3 ℝ) (x : List (V3 ℝ))
    (q : V3 ℝ) : List (V3 ℝ) × List (V3 ℝ) :=
  rowTorquesFl A.fl (A.fl fdStep) (fun i j s l => coneUnitFl A.fl (S i j s) E muB
    (spiralCFl A (S i j s) (normalizeFl A.fl (S i j s).axis (l.getLastD 0)) q) cell
    (l.dropLast.zipIdx.map fun p => normalizeFl A.fl ((S i j s).norm p.2) p.1) (normalizeFl A.fl (S i j s).axis (l.getLastD 0)))
    (List.range x.length) x

/-- `C` in the gradient of the spiral vector for bond number `b`, energy.py 1005-1009. -/
noncomputable def spiralGradCFl (A : Arith) (S : ConeSums) (n q : V3 ℝ) (b : ℕ) (d : V3 ℝ) (J : M3 ℝ) : M3 ℝ := fun i j =>
  A.fl (A.fl (A.fl (-A.cos (dot3Fl A.fl (S.cosine b) q d) / 2) *
      A.fl (tripleFl A.fl S b 0 (coneK n) J (coneKsqFl A.fl S n) i j + tripleFl A.fl S b 2 (coneKsqFl A.fl S n) J (coneK n) i j)) +
    A.fl (A.fl (A.sin (dot3Fl A.fl (S.sine b) q d) / 2) *
      A.fl (tripleFl A.fl S b 4 (coneK n) J (coneK n) i j - tripleFl A.fl S b 6 (coneKsqFl A.fl S n) J (coneKsqFl A.fl S n) i j)))

/-- The gradient of the spiral vector for the spins `e` and the cone axis `n`, energy.py 993-1016. -/
noncomputable def spiralGradQFl (A : Arith) (S : ConeSums) (E : EnergyObj ℝ) (cell : ℕ → M3 ℝ) (e : List (V3 ℝ)) (n q : V3 ℝ) : V3 ℝ := fun c =>
  E.bonds.zipIdx.foldl (fun g b =>
    A.fl (g + A.fl (b.1.2.2.1 c * A.fl (A.fl (A.fl (E.factor * E.spins.getD b.1.1 0) * E.spins.getD b.1.2.1 0) *
      einsum3Fl A.fl (S.bond b.2) (e.getD b.1.1 0) (spiralGradCFl A S n q b.2 b.1.2.2.1 (cell b.1.2.2.2)) (e.getD b.1.2.1 0))))) 0

/-- The last three entries of the gradient of `_spiral_grad`, energy.py 919-1018: computed from the array that the differences of the
torques leave behind. -/
noncomputable def spiralGradLastFl (A : Arith) (S : ℕ → Fin 3 → Bool → ConeSums) (S' : ConeSums) (E : EnergyObj ℝ) (muB : ℝ) (cell : ℕ → M3 ℝ)
    (x : List (V3 ℝ)) (q : V3 ℝ) : V3 ℝ :=
  let y := (spiralTorquesFl A S E muB cell x q).2
  spiralGradQFl A S' E cell y.dropLast (y.getLastD 0) q

/-- `np.linalg.norm(torques, axis=1).max()`, energy.py 399, 403, 407; `T i` is the order of additions in row `i`.  The maximum is not rounded. -/
noncomputable def maxNormFl (fl : ℝ → ℝ) (T : ℕ → EnergyObj.Tree (Fin 3)) (ts : List (V3 ℝ)) : Except PyErr ℝ :=
  match ts.zipIdx.map fun p => norm3Fl fl (T p.2) p.1 with
  | [] => .error .valueError
  | m :: ms => .ok (ms.foldl max m)

/-- `_compute_torque_target_ferro`, energy.py 398-399. -/
noncomputable def targetFerroFl (fl : ℝ → ℝ) (T : ℕ → EnergyObj.Tree (Fin 3)) (ts : List (V3 ℝ)) : Except PyErr (List ℝ) :=
  match maxNormFl fl T ts with
  | .error e => .error e
  | .ok m => .ok [m]

/-- `_compute_torque_target_antiferro`, `_compute_torque_target_spiral`, energy.py 402-407; `T'` is the order of additions for the cone axis. -/
noncomputable def targetConeFl (fl : ℝ → ℝ) (T : ℕ → EnergyObj.Tree (Fin 3)) (T' : EnergyObj.Tree (Fin 3)) (ts : List (V3 ℝ)) : Except PyErr (List ℝ) :=
  match maxNormFl fl T ts.dropLast with
  | .error e => .error e
  | .ok m => .ok [m, norm3Fl fl T' (ts.getLastD 0)]

/-- The condition for another iteration, energy.py 1601-1603: the difference of the energies is rounded, `abs` and the comparisons are not. -/
noncomputable def goOnFl (fl : ℝ → ℝ) (tol : List ℝ) (previous current : ℝ) (targets : List ℝ) : Prop :=
  tol.getD 0 0 < |fl (previous - current)| ∨ ∃ i < targets.length, tol.getD (i + 1) 0 < targets.getD i 0

end Optimize
end Magnopy
