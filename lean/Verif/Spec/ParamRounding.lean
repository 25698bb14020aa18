import Verif.Model.ParamFloat
import Verif.Spec.Rounding
import Mathlib.Data.Int.Log

/-!
# What is said about rounded parameters
-/

set_option autoImplicit false

namespace Magnopy
namespace Param

variable {K : Type*} [Field K] [LinearOrder K] [IsStrictOrderedRing K]

/-- Binary floating-point numbers: the relative error is at most `u`, signs do not matter, numbers that are stored are not rounded, and
multiplication by two is exact. -/
structure IsFloat (fl : K → K) (u : K) : Prop extends IsRounding fl u where
  odd : ∀ x, fl (-x) = -fl x
  idem : ∀ x, fl (fl x) = fl x
  two : ∀ x, fl (2 * x) = 2 * fl x

/-- All elements are floating-point numbers. -/
def Stored (fl : K → K) (m : M3 K) : Prop := ∀ i j, fl (m i j) = m i j

/-- Absolute values. -/
def size (m : M3 K) : M3 K := fun i j => |m i j|

/-- The size of `iso`, for elements of the given sizes. -/
def isoSize (s : M3 K) : K := (s 0 0 + s 1 1 + s 2 2) / 3

/-- The size of elements of the symmetric and of the antisymmetric part. -/
def symmSize (s : M3 K) (i j : Fin 3) : K := (s i j + s j i) / 2

/-- The size of elements of `aniso`. -/
def anisoSize (s : M3 K) (i j : Fin 3) : K := symmSize s i j + if i = j then isoSize s else 0

/-- The size of elements after `iso` was assigned. -/
def afterIso (m : M3 K) (v : K) : M3 K := fun i j => |m i j| + if i = j then |v| + isoSize (size m) else 0

/-- The size of elements after `dmi` was assigned. -/
def afterDmi (m : M3 K) (d : V3 K) : M3 K := fun i j => |m i j| + if i = j then 0 else |dmiArray d i j| + symmSize (size m) i j

/-- The size of elements after `aniso` was assigned. -/
def afterAniso (m a : M3 K) : M3 K := fun i j => |m i j| + (|a i j| + anisoSize (size m) i j)

/-- Rounding towards zero to `p + 1` binary digits. -/
noncomputable def chop (p : ℕ) (x : ℝ) : ℝ := (SignType.sign x : ℝ) * (⌊|x| / 2 ^ (Int.log 2 |x| - p)⌋ * 2 ^ (Int.log 2 |x| - p))

end Param
end Magnopy
