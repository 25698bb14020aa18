import Verif.Model.Optimize
import Verif.Spec.Cone

/-!
# Specification: minimisation
-/

set_option autoImplicit false

namespace Magnopy.Optimize

variable {X : Type}

/-- The `n` updates from `xs 0` to `xs n`: each along some direction `p` with an accepted step `λ`. -/
def Trajectory (P : Problem X) (c1 c2 : ℝ) (xs : ℕ → X) (n : ℕ) : Prop :=
  ∀ i < n, ∃ (p : Arr) (lam : ℝ), 0 < lam ∧ lam ≤ 1 ∧ Accepts P c1 c2 (xs i) p lam ∧
    xs (i + 1) = P.update (xs i) p lam

/-- An initial guess without zero vectors (which cannot be normalised). -/
def GoodGuess : Option (Param.ArrayLike ℝ) → Prop
  | some (.vector xs) => ∃ x ∈ xs, x ≠ 0
  | some (.rows rs) => ∀ r ∈ rs, ∃ x ∈ r, x ≠ 0
  | _ => True

/-- Random numbers without zero vectors, for `n` spins. -/
structure Random.Good (rnd : Random) (n : ℕ) : Prop where
  /-- no zero vector -/
  spins : ∀ v ∈ rnd.spins, v ≠ 0
  /-- one vector for every spin -/
  length : rnd.spins.length = n
  /-- the cone axis can be normalised -/
  cone : rnd.cone ≠ 0

/-- Every spin (and the cone axis, if present) of the list has length one. -/
def AllUnit (l : List (V3 ℝ)) : Prop := ∀ v ∈ l, IsUnit3 v

/-- Some tolerance is positive. -/
def Options.Positive (o : Options) : Prop := 0 < o.tolEnergy ∨ ∃ t ∈ o.tolTorque, 0 < t

/-- The two-loop recursion of L-BFGS for the pairs `(d, y)`, newest first, applied to `q`; `h q` is the
initial approximation of the inverse Hessian applied to `q`. -/
noncomputable def twoLoop (size : ℕ) (h : Arr → Arr) : List (Arr × Arr) → Arr → Arr
  | [], q => h q
  | (d, y) :: l, q =>
    let rho := 1 / vdot size d y
    let a := rho * vdot size d q
    let r := twoLoop size h l (q - a • y)
    r + (a - rho * vdot size y r) • d

/-- A unit vector `v` after following the torque `t` for the step `lam`: rotated about `-t` by `lam |t|`, angles
below the precision of doubles are neglected. -/
noncomputable def follow (t : V3 ℝ) (lam : ℝ) (v : V3 ℝ) : V3 ℝ :=
  if lam * EnergyObj.norm3 t < eps then v
  else rotate (-EnergyObj.normalize t) (lam * EnergyObj.norm3 t) v

/-- The torque on row `i` of the spins and the cone axis. -/
noncomputable def coneTorque (P : Problem ConeX) (x : ConeX) (i : ℕ) : V3 ℝ :=
  rowTorque (fun l => P.energy (l, x.2)) x.1 i

end Magnopy.Optimize
