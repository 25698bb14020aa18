import Verif.Model.Param

/-!
# `MatrixParameter` objects and the arrays they hold  (src/magnopy/spinham/parameter.py)

`Model/Param` takes a parameter for its matrix. In Python a parameter holds a reference to an array: `p.matrix` returns the array
itself (line 134), the setters of the components write into it (lines 519-735), and all other setters replace it by a new array
(line 144). Here parameters and arrays are objects with identities.

Simplified: temporary arrays that no variable can refer to are not allocated. A variable that does not exist is a `NameError`.
-/

set_option autoImplicit false

namespace Magnopy
namespace ParamHeap

open Param

/-- All arrays of shape (3, 3) and all parameters that exist. -/
structure World (K : Type*) where
  /-- the content of an array -/
  cell : ℕ → M3 K
  /-- the number of arrays -/
  arrays : ℕ
  /-- the array `_matrix` of a parameter -/
  ref : ℕ → ℕ
  /-- the number of parameters -/
  params : ℕ

/-- What can be passed as an array: something that is written down, an array, a parameter (which numpy reads as an array, line 89). -/
inductive Src (K : Type*) where
  | written (a : ArrayLike K)
  | array (r : ℕ)
  | param (p : ℕ)

/-- Properties of a parameter that return a matrix made for the caller (lines 150-442). -/
inductive Part where
  | symm | asymm | isoMatrix | aniso | anisoDiagonal | dmiMatrix

/-- Operations of one parameter that return a new parameter: `p.T`, `-p`, `+p`, `abs(p)` (lines 92-105, 841-850). -/
inductive Unary where
  | T | neg | pos | abs

/-- `p + q` and `p - q` (lines 742-761). -/
inductive Binary where
  | add | sub

/-- `p * x`, `x * p`, `p / x`, `p // x`, `p % x` (lines 764-827). -/
inductive Scalar where
  | mul | truediv | floordiv | mod

/-- One statement of a user's program. -/
inductive Op (K : Type*) where
  /-- `a = np.array(...)` -/
  | newArray (m : M3 K)
  /-- `a[i][j] = v` -/
  | writeArray (r : ℕ) (i j : Fin 3) (v : K)
  /-- `a = p.symm_matrix` and the like -/
  | readPart (p : ℕ) (part : Part)
  /-- `p = MatrixParameter(...)` -/
  | new (matrix : Option (Src K)) (iso : Option K) (aniso : Option (Src K)) (dmi : Option (ArrayLike K))
  /-- `p.matrix = ...` -/
  | setMatrix (p : ℕ) (a : Src K)
  /-- `p.iso = v` -/
  | setIso (p : ℕ) (v : K)
  /-- `p.aniso = ...` -/
  | setAniso (p : ℕ) (a : Src K)
  /-- `p.dmi = ...` -/
  | setDmi (p : ℕ) (a : ArrayLike K)
  /-- `p.xx = v`, ..., `p.zz = v` -/
  | setEntry (p : ℕ) (i j : Fin 3) (v : K)
  /-- `q = p.T` and the like -/
  | unary (f : Unary) (p : ℕ)
  /-- `r = p + q` and the like -/
  | binary (f : Binary) (p q : ℕ)
  /-- `q = p * v` and the like -/
  | scalar (f : Scalar) (p : ℕ) (v : K)

variable {K : Type*} [Field K] [LinearOrder K] [FloorRing K]

/-- The matrix of a parameter, `p.matrix`, parameter.py 111-134. -/
def World.value (w : World K) (p : ℕ) : M3 K := w.cell (w.ref p)

/-- `self._matrix = new_matrix` with a new array, parameter.py 144. -/
def World.bind (w : World K) (p : ℕ) (m : M3 K) : World K :=
  { w with cell := fun r => if r = w.arrays then m else w.cell r, arrays := w.arrays + 1,
           ref := fun q => if q = p then w.arrays else w.ref q }

/-- A new array that no parameter holds. -/
def World.alloc (w : World K) (m : M3 K) : World K :=
  { w with cell := fun r => if r = w.arrays then m else w.cell r, arrays := w.arrays + 1 }

/-- `a[i][j] = v`. -/
def World.write (w : World K) (r : ℕ) (i j : Fin 3) (v : K) : World K :=
  { w with cell := fun r' => if r' = r then Param.setEntry (w.cell r) i j v else w.cell r' }

/-- `np.array(src, dtype=float)` (a copy) followed by the shape test `== (3, 3)`; a variable that does not exist is an error. -/
def World.read (w : World K) : Src K → Except PyErr (M3 K)
  | .written a => a.toM3
  | .array r => if r < w.arrays then .ok (w.cell r) else .error .nameError
  | .param p => if p < w.params then .ok (w.value p) else .error .nameError

/-- The variables that are passed exist. -/
def World.has (w : World K) : Option (Src K) → Bool
  | some (.array r) => r < w.arrays
  | some (.param p) => p < w.params
  | _ => true

/-- `matrix.setter`, parameter.py 137-144. -/
def World.assignMatrix (w : World K) (p : ℕ) (a : Src K) : Res (World K) :=
  match w.read a with
  | .ok m => .ok (w.bind p m)
  | .error e => .raise w e

/-- `iso.setter`, parameter.py 233-235. -/
def World.assignIso (w : World K) (p : ℕ) (v : K) : Res (World K) := .ok (w.bind p (Param.setIso (w.value p) v))

/-- `aniso.setter`, parameter.py 304-313. -/
def World.assignAniso (w : World K) (p : ℕ) (a : Src K) : Res (World K) :=
  match w.read a with
  | .ok m => .ok (w.bind p (Param.setAniso (w.value p) m))
  | .error e => .raise w e

/-- `dmi.setter`, parameter.py 398-414. -/
def World.assignDmi (w : World K) (p : ℕ) (a : ArrayLike K) : Res (World K) :=
  match a.toV3 with
  | .ok d => .ok (w.bind p (Param.setDmi (w.value p) d))
  | .error e => .raise w e

/-- The end of `p = MatrixParameter(...)`: if the constructor did not raise, there is one more parameter. -/
def World.keep (r : Res (World K)) : Res (World K) :=
  match r.err with
  | none => .ok { r.st with params := r.st.params + 1 }
  | some e => .raise r.st e

/-- `MatrixParameter.__init__`, parameter.py 56-70, for the object with the next identity. -/
def World.create (w : World K) (matrix : Option (Src K)) (iso : Option K) (aniso : Option (Src K)) (dmi : Option (ArrayLike K)) :
    Res (World K) :=
  World.keep ((((ifGiven matrix (fun u a => u.assignMatrix w.params a) (w.bind w.params 0)).andThen
    (ifGiven iso fun u v => u.assignIso w.params v)).andThen
    (ifGiven dmi fun u d => u.assignDmi w.params d)).andThen
    (ifGiven aniso fun u a => u.assignAniso w.params a))

/-- The parts, parameter.py 150-442. -/
def Part.eval : Part → M3 K → M3 K
  | .symm, m => symmMatrix m
  | .asymm, m => asymmMatrix m
  | .isoMatrix, m => Param.isoMatrix m
  | .aniso, m => Param.aniso m
  | .anisoDiagonal, m => anisoDiagonalMatrix m
  | .dmiMatrix, m => Param.dmiMatrix m

/-- parameter.py 105, 842, 846, 850. -/
def Unary.eval : Unary → M3 K → M3 K
  | .T, m => Param.T m
  | .neg, m => negP m
  | .pos, m => m
  | .abs, m => abs' m

/-- parameter.py 744, 755. -/
def Binary.eval : Binary → M3 K → M3 K → M3 K
  | .add, m, n => addP m n
  | .sub, m, n => subP m n

/-- parameter.py 766, 788, 799, 810, 821. Division by zero gives `inf` or `nan` in numpy; here it gives the value of the field. -/
def Scalar.eval : Scalar → M3 K → K → M3 K
  | .mul, m, v => mulNum m v
  | .truediv, m, v => divNum m v
  | .floordiv, m, v => floorDiv m v
  | .mod, m, v => modNum m v

/-- `MatrixParameter(matrix=m)` for an array that was computed for it. -/
def World.make (w : World K) (m : M3 K) : Res (World K) := .ok { w.bind w.params m with params := w.params + 1 }

/-- If the parameter exists. -/
def World.withParam (w : World K) (p : ℕ) (f : Res (World K)) : Res (World K) := if p < w.params then f else .raise w .nameError

/-- One statement. -/
def step (w : World K) : Op K → Res (World K)
  | .newArray m => .ok (w.alloc m)
  | .writeArray r i j v => if r < w.arrays then .ok (w.write r i j v) else .raise w .nameError
  | .readPart p part => w.withParam p (.ok (w.alloc (part.eval (w.value p))))
  | .new matrix iso aniso dmi => if w.has matrix && w.has aniso then w.create matrix iso aniso dmi else .raise w .nameError
  | .setMatrix p a => w.withParam p (w.assignMatrix p a)
  | .setIso p v => w.withParam p (w.assignIso p v)
  | .setAniso p a => w.withParam p (w.assignAniso p a)
  | .setDmi p a => w.withParam p (w.assignDmi p a)
  | .setEntry p i j v => w.withParam p (.ok (w.write (w.ref p) i j v))
  | .unary f p => w.withParam p (w.make (f.eval (w.value p)))
  | .binary f p q => w.withParam p (w.withParam q (w.make (f.eval (w.value p) (w.value q))))
  | .scalar f p v => w.withParam p (w.make (f.eval (w.value p) v))

/-- A program, which goes on after exceptions. -/
def run (w : World K) (ops : List (Op K)) : World K := ops.foldl (fun u op => (step u op).st) w

/-- Nothing exists at the beginning. -/
def empty : World K := { cell := fun _ => 0, arrays := 0, ref := fun _ => 0, params := 0 }

end ParamHeap
end Magnopy
