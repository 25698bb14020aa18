import Verif.Model.Magnon
import Verif.Model.EnergyFloat

/-!
# `MagnonDispersion.h` in floating-point arithmetic  (dispersion.py 148-272)

The program of `Model/Magnon` with a rounding of the real and of the imaginary part after every operation.  Real numbers are turned into
complex ones before they are multiplied by complex ones, as numpy does.  numpy does not say in which order `@` adds, the orders are
arguments (`Tree`), others in each call.  The attributes of the object (spin vectors, frames, vectors of the bonds) and the parameters are
the stored ones.  Overflow, underflow, `nan`, signs of zeros and fused products with sums are outside of the model.
-/

set_option autoImplicit false

namespace Magnopy
namespace MagnonObj

open Complex Matrix EnergyObj

/-- Rounding, and `np.exp` of complex numbers. -/
structure ExpArith where
  fl : ℝ → ℝ
  exp : ℂ → ℂ

/-- Rounding of both parts. -/
def roundC (fl : ℝ → ℝ) (z : ℂ) : ℂ := ⟨fl z.re, fl z.im⟩

/-- The product of two complex numbers. -/
def mulFl (fl : ℝ → ℝ) (z w : ℂ) : ℂ := ⟨fl (fl (z.re * w.re) - fl (z.im * w.im)), fl (fl (z.re * w.im) + fl (z.im * w.re))⟩

/-- The orders of additions in the real and in the imaginary part of a scalar product; `true` marks the terms with the imaginary part
of the first factor. -/
abbrev DotTree := EnergyObj.Tree (Fin 3 × Bool) × EnergyObj.Tree (Fin 3 × Bool)

/-- `x @ y` for complex arrays of length 3. -/
def dotFl (fl : ℝ → ℝ) (T : DotTree) (x y : V3 ℂ) : ℂ :=
  ⟨T.1.sum fl fun p => bif p.2 then -fl ((x p.1).im * (y p.1).im) else fl ((x p.1).re * (y p.1).re),
   T.2.sum fl fun p => bif p.2 then fl ((x p.1).im * (y p.1).re) else fl ((x p.1).re * (y p.1).im)⟩

/-- The orders of additions of one call of `A`, `B` or `C`. -/
structure CallSums where
  /-- `np.linalg.norm(self.S[i])` in the entry `i`, `j` -/
  norm : ℕ → ℕ → EnergyObj.Tree (Fin 3)
  /-- `np.linalg.norm(self.S[j])` in the entry `i`, `j` -/
  norm' : ℕ → ℕ → EnergyObj.Tree (Fin 3)
  /-- `k @ self.dis_vectors[index]` -/
  phase : ℕ → EnergyObj.Tree (Fin 3)
  /-- the entries of `self.u[i] @ J[i][j]` -/
  left : ℕ → ℕ → Fin 3 → DotTree
  /-- the product with `self.u[j]` -/
  right : ℕ → ℕ → DotTree

variable (o : MagnonObj) (A : ExpArith) (cell : ℕ → M3 ℝ)

/-- `np.exp(-1j * (k @ d))`, dispersion.py 172-174. -/
noncomputable def phaseFl (T : EnergyObj.Tree (Fin 3)) (k d : V3 ℝ) : ℂ := A.exp (mulFl A.fl (-I) ((T.sum A.fl fun c => A.fl (k c * d c) : ℝ) : ℂ))

/-- `J`, dispersion.py 148-175: `result[i][j]`. -/
noncomputable def JFl (T : ℕ → EnergyObj.Tree (Fin 3)) (k : V3 ℝ) (i j : ℕ) : M3 ℂ := fun a b =>
  o.bonds.zipIdx.foldl (fun result x => if x.1.1 = i ∧ x.1.2.1 = j then
    roundC A.fl (result + mulFl A.fl ((cell x.1.2.2.2 a b : ℝ) : ℂ) (phaseFl A (T x.2) k x.1.2.2.1)) else result) 0

/-- `sqrt(|S_i| |S_j|) / 2`, dispersion.py 202-203, 233-234. -/
noncomputable def rootFl (S : CallSums) (i j : ℕ) : ℝ :=
  A.fl (A.fl (Real.sqrt (A.fl (norm3Fl A.fl (S.norm i j) (o.S.getD i 0) * norm3Fl A.fl (S.norm' i j) (o.S.getD j 0)))) / 2)

/-- `x @ J @ y` for the entry `i`, `j`. -/
noncomputable def formFl (S : CallSums) (i j : ℕ) (x : V3 ℂ) (M : M3 ℂ) (y : V3 ℂ) : ℂ :=
  dotFl A.fl (S.right i j) (fun b => dotFl A.fl (S.left i j b) x fun a => M a b) y

/-- `A`, dispersion.py 177-206: `result[i][j]`. -/
noncomputable def AFl (S : CallSums) (k : V3 ℝ) (i j : ℕ) : ℂ :=
  roundC A.fl (0 + mulFl A.fl (o.rootFl A S i j : ℝ) (formFl A S i j (o.u.getD i 0) (o.JFl A cell S.phase (-k) i j) (star (o.u.getD j 0))))

/-- `B`, dispersion.py 208-237: `result[i][j]`. -/
noncomputable def BFl (S : CallSums) (k : V3 ℝ) (i j : ℕ) : ℂ :=
  roundC A.fl (0 + mulFl A.fl (o.rootFl A S i j : ℝ) (formFl A S i j (o.u.getD i 0) (o.JFl A cell S.phase (-k) i j) (o.u.getD j 0)))

/-- The array that `C` computes, dispersion.py 252-259; the product with the length of the spin comes first. -/
noncomputable def freshCFl (S : CallSums) (i j : ℕ) : ℂ :=
  if i = j then
    (List.range o.N).foldl (fun result l => roundC A.fl (result + formFl A S i l
      (fun a => mulFl A.fl ((norm3Fl A.fl (S.norm' i l) (o.S.getD l 0) : ℝ) : ℂ) (o.v.getD i 0 a)) (o.JFl A cell S.phase 0 i l) (o.v.getD l 0))) 0
  else 0

/-- The orders of additions of one call of `h`, in the order of the calls there. -/
structure HSums where
  a : CallSums
  c : CallSums
  b : CallSums
  b' : CallSums
  a' : CallSums

/-- `h`, dispersion.py 262-272, and the object afterwards; `C` is computed if it has not been before. -/
noncomputable def callHFl (S : HSums) (k : V3 ℝ) : Mat o.N × MagnonObj :=
  let c : ℕ → ℕ → ℂ := match o.C with
    | some c => c
    | none => o.freshCFl A cell S.c
  (fromBlocks (block o.N fun i j => roundC A.fl (mulFl A.fl 2 (o.AFl A cell S.a k i j) - mulFl A.fl 2 (c i j)))
    (block o.N fun i j => mulFl A.fl 2 (o.BFl A cell S.b' k i j))
    (block o.N fun i j => mulFl A.fl 2 (star (o.BFl A cell S.b k j i)))
    (block o.N fun i j => roundC A.fl (mulFl A.fl 2 (star (o.AFl A cell S.a' (-k) i j)) - mulFl A.fl 2 (c i j))),
    { o with C := some c })

end MagnonObj
end Magnopy
