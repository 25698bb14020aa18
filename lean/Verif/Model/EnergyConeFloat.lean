import Verif.Model.EnergyFloat

/-!
# `Energy.antiferro` and `Energy.spiral` in floating-point arithmetic  (energy.py 1092-1329)

As `Model/EnergyFloat`: a rounding after every operation, and every sum in an order of its own (`Tree`).  The cosine and the sine of the
mathematical library are functions of the arithmetic.  The vectors of the bonds and the matrices are the stored ones.
-/

set_option autoImplicit false

namespace Magnopy
namespace EnergyObj

/-- Rounding, `np.cos` and `np.sin`. -/
structure Arith where
  fl : ℝ → ℝ
  cos : ℝ → ℝ
  sin : ℝ → ℝ

/-- The orders of additions of one call of `antiferro` or `spiral`. -/
structure ConeSums extends Sums where
  /-- `dot` in the norm of the cone axis -/
  axis : Tree (Fin 3)
  /-- `K @ K` -/
  square : Fin 3 → Fin 3 → Tree (Fin 3)
  /-- the products of matrices of a bond, in the order of the code -/
  prod : ℕ → ℕ → Fin 3 → Fin 3 → Tree (Fin 3)
  /-- `spiral_vector @ d` in the cosine -/
  cosine : ℕ → Tree (Fin 3)
  /-- `spiral_vector @ d` in the sine -/
  sine : ℕ → Tree (Fin 3)
  /-- `np.einsum("jk,ik ->ij", …)` -/
  prime : ℕ → Fin 3 → Tree (Fin 3)

/-- `A @ B`. -/
noncomputable def matmulFl (fl : ℝ → ℝ) (T : Fin 3 → Fin 3 → Tree (Fin 3)) (A B : M3 ℝ) : M3 ℝ := fun i j => (T i j).sum fl fun k => fl (A i k * B k j)

/-- `u @ v`. -/
noncomputable def dot3Fl (fl : ℝ → ℝ) (T : Tree (Fin 3)) (u v : V3 ℝ) : ℝ := T.sum fl fun k => fl (u k * v k)

/-- `K_sq`, energy.py 1177, 1294. -/
noncomputable def coneKsqFl (fl : ℝ → ℝ) (S : ConeSums) (n : V3 ℝ) : M3 ℝ := matmulFl fl S.square (coneK n) (coneK n)

/-- `np.eye(3) + M`, energy.py 1178, 1201, 1295, 1324. -/
noncomputable def addEyeFl (fl : ℝ → ℝ) (M : M3 ℝ) : M3 ℝ := fun i j => fl ((1 : M3 ℝ) i j + M i j)

/-- `IK_sq`, energy.py 1178, 1295. -/
noncomputable def coneIKsqFl (fl : ℝ → ℝ) (S : ConeSums) (n : V3 ℝ) : M3 ℝ := addEyeFl fl (coneKsqFl fl S n)

/-- `A @ J @ B`, the products number `k` and `k + 1` of bond `b`. -/
noncomputable def tripleFl (fl : ℝ → ℝ) (S : ConeSums) (b k : ℕ) (A J B : M3 ℝ) : M3 ℝ := matmulFl fl (S.prod b (k + 1)) (matmulFl fl (S.prod b k) A J) B

/-- `C_dij` of the antiferro case for bond number `b`, energy.py 1184-1188. -/
noncomputable def antiferroCFl (A : Arith) (S : ConeSums) (n q : V3 ℝ) (b : ℕ) (d : V3 ℝ) (J : M3 ℝ) : M3 ℝ := fun i j =>
  A.fl (A.fl (tripleFl A.fl S b 0 (coneIKsqFl A.fl S n) J (coneIKsqFl A.fl S n) i j +
      A.fl (tripleFl A.fl S b 2 (coneKsqFl A.fl S n) J (coneKsqFl A.fl S n) i j * A.cos (dot3Fl A.fl (S.cosine b) q d))) -
    A.fl (tripleFl A.fl S b 4 (coneKsqFl A.fl S n) J (coneK n) i j * A.sin (dot3Fl A.fl (S.sine b) q d)))

/-- `C_dij` of the spiral case for bond number `b`, energy.py 1303-1311. -/
noncomputable def spiralCFl (A : Arith) (S : ConeSums) (n q : V3 ℝ) (b : ℕ) (d : V3 ℝ) (J : M3 ℝ) : M3 ℝ := fun i j =>
  A.fl (A.fl (tripleFl A.fl S b 0 (coneIKsqFl A.fl S n) J (coneIKsqFl A.fl S n) i j -
      A.fl (A.fl (A.fl (tripleFl A.fl S b 2 (coneK n) J (coneK n) i j -
        tripleFl A.fl S b 4 (coneKsqFl A.fl S n) J (coneKsqFl A.fl S n) i j) / 2) * A.cos (dot3Fl A.fl (S.cosine b) q d))) -
    A.fl (A.fl (A.fl (tripleFl A.fl S b 6 (coneK n) J (coneKsqFl A.fl S n) i j +
      tripleFl A.fl S b 8 (coneKsqFl A.fl S n) J (coneK n) i j) / 2) * A.sin (dot3Fl A.fl (S.sine b) q d)))

/-- The loop over the bonds, energy.py 1182-1196, 1299-1319; `C b d J` is the matrix of bond number `b`. -/
noncomputable def coneSumFl (fl : ℝ → ℝ) (S : ConeSums) (E : EnergyObj ℝ) (C : ℕ → V3 ℝ → M3 ℝ → M3 ℝ) (cell : ℕ → M3 ℝ) (e : List (V3 ℝ)) : ℝ :=
  E.bonds.zipIdx.foldl (fun energy b =>
    fl (energy + fl (fl (fl (E.factor * E.spins.getD b.1.1 0) * E.spins.getD b.1.2.1 0) *
      einsum3Fl fl (S.bond b.2) (e.getD b.1.1 0) (C b.2 b.1.2.2.1 (cell b.1.2.2.2)) (e.getD b.1.2.1 0)))) 0

/-- `so_prime`, energy.py 1200-1202, 1323-1325. -/
noncomputable def soPrimeFl (fl : ℝ → ℝ) (S : ConeSums) (n : V3 ℝ) (e : List (V3 ℝ)) : List (V3 ℝ) :=
  e.zipIdx.map fun p j => (S.prime p.2 j).sum fl fun k => fl (addEyeFl fl (coneIKsqFl fl S n) j k * p.1 k)

/-- `antiferro` and `spiral` after the checks and the normalisation, energy.py 1180-1208, 1297-1329. -/
noncomputable def coneUnitFl (fl : ℝ → ℝ) (S : ConeSums) (E : EnergyObj ℝ) (muB : ℝ) (C : ℕ → V3 ℝ → M3 ℝ → M3 ℝ) (cell : ℕ → M3 ℝ) (e : List (V3 ℝ))
    (n : V3 ℝ) : ℝ :=
  match E.field with
  | none => coneSumFl fl S E C cell e
  | some h => fl (coneSumFl fl S E C cell e +
      fl (muB * S.zeeman.sum fl fun p => fl (fl (E.gFactors.getD p.1 0 * h p.2) * (soPrimeFl fl S n e).getD p.1 0 p.2)))

/-- `Energy.antiferro`, energy.py 1092-1208. -/
noncomputable def antiferroFl (A : Arith) (S : ConeSums) (E : EnergyObj ℝ) (muB : ℝ) (cell : ℕ → M3 ℝ) (so cone q : Param.ArrayLike ℝ) :
    Except PyErr ℝ :=
  match coneInput E.spins.length so cone q with
  | .error x => .error x
  | .ok (e, c, q) => .ok (coneUnitFl A.fl S E muB (antiferroCFl A S (normalizeFl A.fl S.axis c) q) cell
      (e.zipIdx.map fun p => normalizeFl A.fl (S.norm p.2) p.1) (normalizeFl A.fl S.axis c))

/-- `Energy.spiral`, energy.py 1210-1329. -/
noncomputable def spiralFl (A : Arith) (S : ConeSums) (E : EnergyObj ℝ) (muB : ℝ) (cell : ℕ → M3 ℝ) (so cone q : Param.ArrayLike ℝ) :
    Except PyErr ℝ :=
  match coneInput E.spins.length so cone q with
  | .error x => .error x
  | .ok (e, c, q) => .ok (coneUnitFl A.fl S E muB (spiralCFl A S (normalizeFl A.fl S.axis c) q) cell
      (e.zipIdx.map fun p => normalizeFl A.fl (S.norm p.2) p.1) (normalizeFl A.fl S.axis c))

end EnergyObj
end Magnopy
