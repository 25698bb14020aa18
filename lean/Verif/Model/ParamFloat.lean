import Verif.Model.Param
import Verif.Model.EnergyFloat

/-!
# `MatrixParameter` in floating-point arithmetic  (src/magnopy/spinham/parameter.py 56-442)

The program of `Model/Param` with a rounding after every operation.  The order in which `np.trace` adds is an argument.  Overflow,
underflow, `nan` and signs of zeros are outside of the model.
-/

set_option autoImplicit false

namespace Magnopy
namespace Param

open EnergyObj

variable {K : Type*} [Field K] (fl : K → K)

/-- `symm_matrix`, parameter.py 150-171. -/
def symmFl (m : M3 K) : M3 K := Matrix.of fun i j => fl (fl (m i j + m j i) / 2)

/-- `asymm_matrix`, parameter.py 177-198. -/
def asymmFl (m : M3 K) : M3 K := Matrix.of fun i j => fl (fl (m i j - m j i) / 2)

/-- `iso`, parameter.py 207-227; the tree is the order of additions of `np.trace`. -/
def isoFl (T : EnergyObj.Tree (Fin 3)) (m : M3 K) : K := fl (T.sum fl (fun i => symmFl fl m i i) / 3)

/-- `iso_matrix`, parameter.py 238-261. -/
def isoMatrixFl (T : EnergyObj.Tree (Fin 3)) (m : M3 K) : M3 K := Matrix.of fun i j => fl (isoFl fl T m * eye i j)

/-- `aniso`, parameter.py 267-298. -/
def anisoFl (T : EnergyObj.Tree (Fin 3)) (m : M3 K) : M3 K := Matrix.of fun i j => fl (symmFl fl m i j - fl (isoFl fl T m * eye i j))

/-- `dmi`, parameter.py 369-395. -/
def dmiFl (m : M3 K) : V3 K := ![asymmFl fl m 1 2, asymmFl fl m 2 0, asymmFl fl m 0 1]

/-- `dmi_matrix`, parameter.py 417-442. -/
def dmiMatrixFl (m : M3 K) : M3 K := asymmFl fl m

/-- `iso.setter`, parameter.py 233-235. -/
def setIsoFl (T : EnergyObj.Tree (Fin 3)) (m : M3 K) (newIso : K) : M3 K :=
  Matrix.of fun i j => fl (m i j + fl (fl (newIso - isoFl fl T m) * eye i j))

/-- `dmi.setter`, parameter.py 405-414. -/
def setDmiFl (m : M3 K) (newDmi : V3 K) : M3 K := Matrix.of fun i j => fl (m i j + dmiArray (fun c => fl (newDmi c - dmiFl fl m c)) i j)

/-- `aniso.setter`, parameter.py 312-313. -/
def setAnisoFl (T : EnergyObj.Tree (Fin 3)) (m : M3 K) (newAniso : M3 K) : M3 K :=
  Matrix.of fun i j => fl (m i j + fl (newAniso i j - anisoFl fl T m i j))

end Param
end Magnopy
