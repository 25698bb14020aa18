import Verif.Model.Param
import Mathlib.Analysis.SpecialFunctions.Pow.Real

/-!
# Further attributes of `MatrixParameter`  (src/magnopy/spinham/parameter.py)
-/

set_option autoImplicit false

namespace Magnopy
namespace Param

/-- A quotient of floats. -/
inductive Quotient where
  | number (x : ℝ)
  | inf
  | nan

open Classical in
/-- `x / y` of numpy for `0 ≤ x` and `0 ≤ y`: division by zero is a warning, not an exception. -/
noncomputable def divide (x y : ℝ) : Quotient := if y = 0 then if x = 0 then .nan else .inf else .number (x / y)

/-- `dmi_module`, parameter.py 445-464: `np.linalg.norm(self.dmi)`. -/
noncomputable def dmiModule (m : M3 ℝ) : ℝ := Real.sqrt (∑ i, dmi m i ^ 2)

/-- `rel_dmi`, parameter.py 467-489. -/
noncomputable def relDmi (m : M3 ℝ) : Quotient := divide (dmiModule m) |iso m|

variable {K : Type*} [Field K]

/-- `__eq__` with something array-like, parameter.py 856-862. -/
def eqArray [DecidableEq K] (p : M3 K) (a : ArrayLike K) : Except PyErr Bool :=
  match a.toM3 with
  | .ok q => .ok (beq p q)
  | .error e => .error e

/-- `p != q`: the class defines `__neq__` (parameter.py 865), which Python does not use; Python negates `__eq__`. -/
def ne [DecidableEq K] (p q : M3 K) : Bool := !beq p q

/-- `p != a` for something array-like. -/
def neArray [DecidableEq K] (p : M3 K) (a : ArrayLike K) : Except PyErr Bool := (eqArray p a).map (!·)

/-- The names of the attributes that share their getters: `I = iso` (parameter.py 230), `S = aniso` (301), `A = asymm_matrix` (201). -/
inductive Name where
  | iso | I | aniso | S | asymm_matrix | A

/-- What is read or assigned. -/
inductive Val (K : Type*) where
  | number (x : K)
  | matrix (m : M3 K)

/-- Reading an attribute. -/
def get (m : M3 K) : Name → Val K
  | .iso => .number (Param.iso m)
  | .I => .number (Param.iso m)
  | .aniso => .matrix (Param.aniso m)
  | .S => .matrix (Param.aniso m)
  | .asymm_matrix => .matrix (asymmMatrix m)
  | .A => .matrix (asymmMatrix m)

/-- Assigning to an attribute. `I` and `S` are the properties as they were before their setters were added (lines 230 and 301 come
before lines 232 and 303), so they have no setter; `asymm_matrix` and `A` have none either. A number for `aniso` has the wrong shape. A
matrix for `iso` goes through: `(new_iso - self.iso) * np.identity(3)` is then a product element by element (lines 233-235). -/
def put (m : M3 K) : Name → Val K → Res (M3 K)
  | .iso, .number v => .ok (setIso m v)
  | .iso, .matrix n => .ok (Matrix.of fun i j => m i j + (n i j - Param.iso m) * eye i j)
  | .aniso, .matrix a => .ok (setAniso m a)
  | .aniso, .number _ => .raise m .valueError
  | .I, _ => .raise m .attributeError
  | .S, _ => .raise m .attributeError
  | .asymm_matrix, _ => .raise m .attributeError
  | .A, _ => .raise m .attributeError

end Param
end Magnopy
