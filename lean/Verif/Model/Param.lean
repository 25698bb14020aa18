import Verif.Model.Basic
import Mathlib.Algebra.Order.Floor.Ring
import Mathlib.Data.Fintype.Basic

/-!
# `MatrixParameter`  (src/magnopy/spinham/parameter.py)

The only live field of a `MatrixParameter` is its `(3,3)` array `_matrix`
(`_iso`, `_aniso`, `_dmi` of lines 58-60 are never read), so an object is modelled by its matrix.
Numbers are elements of a field.
-/

set_option autoImplicit false

namespace Magnopy
namespace Param

variable {K : Type*} [Field K]

/-- What can be passed where an array is expected: a number, a list, a list of rows, or something
numpy cannot convert to a float array.  Arrays of higher dimension count as `bad` (they fail the
shape tests as well, with the same exception). -/
inductive ArrayLike (K : Type*) where
  | number (x : K)
  | vector (xs : List K)
  | rows (xss : List (List K))
  | bad

/-- `np.array(a, dtype=float)` followed by the shape test `== (3, 3)`.
parameter.py 138-143, 306-310. -/
def ArrayLike.toM3 : ArrayLike K → Except PyErr (M3 K)
  | .rows [[a, b, c], [d, e, f], [g, h, i]] => .ok !![a, b, c; d, e, f; g, h, i]
  | _ => .error .valueError

/-- `np.array(a, dtype=float)` followed by the shape test `== (3,)`.  parameter.py 400-404. -/
def ArrayLike.toV3 : ArrayLike K → Except PyErr (V3 K)
  | .vector [a, b, c] => .ok ![a, b, c]
  | _ => .error .valueError

/-- `MatrixParameter.T`, parameter.py 92-105 (a fresh object). -/
def T (m : M3 K) : M3 K := m.transpose

/-- `symm_matrix`, parameter.py 150-171. -/
def symmMatrix (m : M3 K) : M3 K := Matrix.of fun i j => (m i j + m j i) / 2

/-- `asymm_matrix`, parameter.py 177-198. -/
def asymmMatrix (m : M3 K) : M3 K := Matrix.of fun i j => (m i j - m j i) / 2

/-- `iso`, parameter.py 207-227: `np.trace(self.symm_matrix) / 3`. -/
def iso (m : M3 K) : K := (symmMatrix m 0 0 + symmMatrix m 1 1 + symmMatrix m 2 2) / 3

/-- `np.identity(3)`. -/
def eye : M3 K := Matrix.of fun i j => if i = j then 1 else 0

/-- `iso_matrix`, parameter.py 238-261. -/
def isoMatrix (m : M3 K) : M3 K := Matrix.of fun i j => iso m * eye i j

/-- `aniso`, parameter.py 267-298. -/
def aniso (m : M3 K) : M3 K := Matrix.of fun i j => symmMatrix m i j - iso m * eye i j

/-- `aniso_diagonal`, parameter.py 316-337. -/
def anisoDiagonal (m : M3 K) : V3 K := fun i => aniso m i i

/-- `aniso_diagonal_matrix`, parameter.py 340-363. -/
def anisoDiagonalMatrix (m : M3 K) : M3 K := Matrix.of fun i j => if i = j then aniso m i i else 0

/-- `dmi`, parameter.py 369-395. -/
def dmi (m : M3 K) : V3 K := ![asymmMatrix m 1 2, asymmMatrix m 2 0, asymmMatrix m 0 1]

/-- `dmi_matrix`, parameter.py 417-442. -/
def dmiMatrix (m : M3 K) : M3 K := asymmMatrix m

/-- `iso.setter`, parameter.py 233-235. -/
def setIso (m : M3 K) (newIso : K) : M3 K :=
  Matrix.of fun i j => m i j + (newIso - iso m) * eye i j

/-- The matrix built in `dmi.setter`, parameter.py 406-413. -/
def dmiArray (d : V3 K) : M3 K := !![0, d 2, -d 1; -d 2, 0, d 0; d 1, -d 0, 0]

/-- `dmi.setter` for an array of the right shape, parameter.py 405-414. -/
def setDmi (m : M3 K) (newDmi : V3 K) : M3 K := m + dmiArray (newDmi - dmi m)

/-- `aniso.setter` for an array of the right shape, parameter.py 312-313. -/
def setAniso (m : M3 K) (newAniso : M3 K) : M3 K := m + (newAniso - aniso m)

/-- `xx.setter` … `zz.setter`, parameter.py 517-735: `self._matrix[i][j] = float(value)`. -/
def setEntry (m : M3 K) (i j : Fin 3) (v : K) : M3 K :=
  Matrix.of fun a b => if a = i ∧ b = j then v else m a b

/-- `matrix.setter` on anything array-like, parameter.py 137-144. -/
def assignMatrix (m : M3 K) (a : ArrayLike K) : Res (M3 K) :=
  match a.toM3 with
  | .ok n => .ok n
  | .error e => .raise m e

/-- `dmi.setter` on anything array-like, parameter.py 398-414. -/
def assignDmi (m : M3 K) (a : ArrayLike K) : Res (M3 K) :=
  match a.toV3 with
  | .ok d => .ok (setDmi m d)
  | .error e => .raise m e

/-- `aniso.setter` on anything array-like, parameter.py 304-313. -/
def assignAniso (m : M3 K) (a : ArrayLike K) : Res (M3 K) :=
  match a.toM3 with
  | .ok n => .ok (setAniso m n)
  | .error e => .raise m e

/-- `if x is not None: self.attr = x`. -/
def ifGiven {α σ : Type*} (o : Option α) (f : σ → α → Res σ) (s : σ) : Res σ :=
  match o with
  | none => .ok s
  | some a => f s a

/-- `MatrixParameter.__init__`, parameter.py 56-70. -/
def init (matrix : Option (ArrayLike K)) (newIso : Option K) (newAniso newDmi : Option (ArrayLike K)) :
    Res (M3 K) :=
  (((ifGiven matrix assignMatrix (0 : M3 K)).andThen
    (ifGiven newIso fun m v => .ok (setIso m v))).andThen
    (ifGiven newDmi assignDmi)).andThen
    (ifGiven newAniso assignAniso)

/-! ### Arithmetic, parameter.py 742-850 -/

/-- `__add__` (742-750). -/
def addP (p q : M3 K) : M3 K := Matrix.of fun i j => p i j + q i j
/-- `__sub__` (753-761). -/
def subP (p q : M3 K) : M3 K := Matrix.of fun i j => p i j - q i j
/-- `__mul__`, `__rmul__` by a number (764-772, 819-827). -/
def mulNum (p : M3 K) (c : K) : M3 K := Matrix.of fun i j => p i j * c
/-- `__truediv__` by a number (786-794). -/
def divNum (p : M3 K) (c : K) : M3 K := Matrix.of fun i j => p i j / c
/-- `__neg__` (841-842). -/
def negP (p : M3 K) : M3 K := Matrix.of fun i j => -p i j

/-- `__floordiv__` by a number (797-805); numpy `//` is the floor of the quotient. -/
def floorDiv [LinearOrder K] [FloorRing K] (p : M3 K) (c : K) : M3 K :=
  Matrix.of fun i j => ((⌊p i j / c⌋ : ℤ) : K)
/-- `__mod__` by a number (808-816); numpy `%` is `x - floor(x / n) * n`. -/
def modNum [LinearOrder K] [FloorRing K] (p : M3 K) (c : K) : M3 K :=
  Matrix.of fun i j => p i j - ((⌊p i j / c⌋ : ℤ) : K) * c
/-- `__abs__` (849-850). -/
def abs' [LinearOrder K] (p : M3 K) : M3 K := Matrix.of fun i j => |p i j|

/-- `__eq__` between parameters (853-855): all elements are equal. -/
def beq [DecidableEq K] (p q : M3 K) : Bool := 
  (List.finRange 3).all fun i => (List.finRange 3).all fun j => decide ((p i j : K) = q i j)

end Param
end Magnopy
