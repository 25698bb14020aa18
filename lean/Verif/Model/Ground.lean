import Verif.Model.Energy

/-!
# Spiral vector and cone axis of a Hamiltonian  (src/magnopy/spinham/hamiltonian.py 74-75, 131-193)

The getters return the stored arrays, so arrays are objects on a heap and a user may write into an array that a getter
returned.  The setters build new arrays.
-/

set_option autoImplicit false

namespace Magnopy
namespace Ground

/-- The arrays, the number of arrays made so far, and `_spiral_vector`, `_cone_axis`. -/
structure Gs where
  /-- the content of the arrays -/
  arrays : ℕ → V3 ℝ
  /-- the next free array -/
  next : ℕ
  /-- `_spiral_vector` -/
  spiral : Option ℕ
  /-- `_cone_axis` -/
  cone : Option ℕ

/-- A new Hamiltonian, hamiltonian.py 74-75. -/
def new : Gs := ⟨fun _ => 0, 0, none, none⟩

/-- The value of `spiral_vector`, hamiltonian.py 134-147. -/
def Gs.spiralVector (g : Gs) : Option (V3 ℝ) := g.spiral.map g.arrays

/-- The value of `cone_axis`, hamiltonian.py 162-174. -/
def Gs.coneAxis (g : Gs) : Option (V3 ℝ) := g.cone.map g.arrays

/-- Put a value into an array. -/
def put (h : ℕ → V3 ℝ) (r : ℕ) (v : V3 ℝ) : ℕ → V3 ℝ := fun q => if q = r then v else h q

/-- `spiral_vector = x`, hamiltonian.py 148-160. -/
def setSpiral (x : Param.ArrayLike ℝ) (g : Gs) : Res Gs :=
  match x.toV3 with
  | .error e => .raise g e
  | .ok v => .ok { g with arrays := put g.arrays g.next v, next := g.next + 1, spiral := some g.next }

open Classical in
/-- `cone_axis = x`, hamiltonian.py 176-193; `np.allclose(x, 0)` holds if no component exceeds 1e-8. -/
noncomputable def setCone (x : Param.ArrayLike ℝ) (g : Gs) : Res Gs :=
  match x.toV3 with
  | .error e => .raise g e
  | .ok v =>
    if ∀ i, |v i| ≤ 1 / 10 ^ 8 then .raise g .valueError
    else .ok { g with arrays := put g.arrays g.next (EnergyObj.normalize v), next := g.next + 1, cone := some g.next }

/-- `a[i] = x` for an array `a` that a getter returned. -/
def write (r : ℕ) (i : Fin 3) (x : ℝ) (g : Gs) : Gs := { g with arrays := put g.arrays r (Function.update (g.arrays r) i x) }

/-- What a user can do. -/
inductive Op where
  | spiral (x : Param.ArrayLike ℝ)
  | cone (x : Param.ArrayLike ℝ)
  | write (r : ℕ) (i : Fin 3) (x : ℝ)

/-- One step; a caught exception leaves the state that the statement left. -/
noncomputable def step (g : Gs) : Op → Res Gs
  | .spiral x => setSpiral x g
  | .cone x => setCone x g
  | .write r i x => .ok (write r i x g)

/-- A history. -/
noncomputable def run (ops : List Op) (g : Gs) : Gs := ops.foldl (fun g op => (step g op).st) g

end Ground
end Magnopy
