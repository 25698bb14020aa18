import Verif.Model.OptimizeFloat

/-!
# The updates of `optimize` in floating-point arithmetic  (energy.py 189-310)

The updates of `Model/Optimize` with a rounding after every operation.  The sums of squares are computed from left to right, the order of
additions in `r @ x[i]` is an argument.
-/

set_option autoImplicit false

namespace Magnopy
namespace Optimize

open EnergyObj

/-- The order of additions in `a12**2 + a13**2 + a23**2`, energy.py 206, 246, 288. -/
def leftSum : EnergyObj.Tree (Fin 3) := .node (.node (.leaf 0) (.leaf 1)) (.leaf 2)

/-- The new direction of one spin, energy.py 206-222, 246-262, 288-304; `T` is the order of additions in `r @ x[i]`. -/
noncomputable def rotateRowFl (A : Arith) (T : EnergyObj.Tree (Fin 3)) (a12 a13 a23 : ℝ) (v : V3 ℝ) : V3 ℝ :=
  let theta := norm3Fl A.fl leftSum ![a12, a13, a23]
  if theta < eps then v
  else
    let r : V3 ℝ := ![A.fl (-a23 / theta), A.fl (a13 / theta), A.fl (-a12 / theta)]
    let w := crossFl A.fl r v
    let s := T.sum A.fl fun c => A.fl (r c * v c)
    fun c => A.fl (A.fl (A.fl (A.cos theta * v c) + A.fl (A.sin theta * w c)) + A.fl (A.fl (A.fl (1 - A.cos theta) * r c) * s))

/-- The loop over the first `count` rows, energy.py 201-222; `T i` is the order of additions for row `i`. -/
noncomputable def rotateRowsFl (A : Arith) (T : ℕ → EnergyObj.Tree (Fin 3)) (count : ℕ) (p : Arr) (step : ℝ) (x : List (V3 ℝ)) : List (V3 ℝ) :=
  x.mapIdx fun i v =>
    if i < count then rotateRowFl A (T i) (A.fl (p (3 * i) * step)) (A.fl (p (3 * i + 1) * step)) (A.fl (p (3 * i + 2) * step)) v else v

/-- `_update_x_ferro`, energy.py 189-224. -/
noncomputable def updateFerroFl (A : Arith) (T : ℕ → EnergyObj.Tree (Fin 3)) (size : ℕ) (x : List (V3 ℝ)) (p : Arr) (step : ℝ) : List (V3 ℝ) :=
  rotateRowsFl A T (size / 3) p step x

/-- `_update_x_antiferro`, energy.py 227-266. -/
noncomputable def updateAntiferroFl (A : Arith) (T : ℕ → EnergyObj.Tree (Fin 3)) (size : ℕ) (x : ConeX) (p : Arr) (step : ℝ) : ConeX :=
  (rotateRowsFl A T ((size - 3) / 3) p step x.1, x.2)

/-- `_update_x_spiral`, energy.py 269-310. -/
noncomputable def updateSpiralFl (A : Arith) (T : ℕ → EnergyObj.Tree (Fin 3)) (size : ℕ) (x : ConeX) (p : Arr) (step : ℝ) : ConeX :=
  (rotateRowsFl A T ((size - 3) / 3) p step x.1, fun c => A.fl (x.2 c + A.fl (p (size - 3 + c.val) * step)))

end Optimize
end Magnopy
