import Verif.Model.Energy
import Verif.Model.Copy
import Mathlib.Analysis.SpecialFunctions.Trigonometric.Inverse
import Mathlib.Analysis.SpecialFunctions.Pow.Complex
import Mathlib.LinearAlgebra.CrossProduct
import Mathlib.LinearAlgebra.Matrix.NonsingularInverse
import Mathlib.LinearAlgebra.Matrix.ConjTranspose
import Mathlib.Data.Matrix.Block

/-!
# Magnons  (src/magnopy/magnons/dispersion.py, src/magnopy/magnons/diagonalization.py)

Real arrays are over `ℝ`, complex ones over `ℂ`.  A square array of size `2N` is indexed by
`Fin N ⊕ Fin N`: `inl` are the first `N` rows or columns, `inr` the last `N`.
-/

set_option autoImplicit false

namespace Magnopy

open Complex Matrix

/-! ### `span_orthonormal_set` -/

namespace Frame

open EnergyObj (norm3)

/-- `np.allclose(a, b)` with the default `rtol=1e-5` and `atol=1e-8`. -/
def AllClose (a b : V3 ℝ) : Prop := ∀ i, |a i - b i| ≤ 1 / 10 ^ 8 + 1 / 10 ^ 5 * |b i|

/-- `Rotation.from_rotvec(n).as_matrix()` of scipy: the rotation about `n` by the angle `|n|` (formula of
Rodrigues). -/
noncomputable def fromRotvec (n : V3 ℝ) : M3 ℝ :=
  let θ := norm3 n
  let m : V3 ℝ := fun i => n i / θ
  if θ = 0 then 1
  else Matrix.of fun i j =>
    (if i = j then Real.cos θ else 0) + (1 - Real.cos θ) * m i * m j +
      Real.sin θ * !![0, -m 2, m 1; m 2, 0, -m 0; -m 1, m 0, 0] i j

open Classical in
/-- `span_orthonormal_set`, dispersion.py 32-72: the rows of the matrix are e1, e2, e3. -/
noncomputable def span (vec : V3 ℝ) : M3 ℝ :=
  let v := EnergyObj.normalize vec
  if AllClose v ![0, 0, 1] then !![1, 0, 0; 0, 1, 0; 0, 0, 1]
  else if AllClose v ![0, 0, -1] then !![1, 0, 0; 0, -1, 0; 0, 0, -1]
  else
    let z : V3 ℝ := ![0, 0, 1]
    let c := crossProduct v z
    fromRotvec fun i => c i / norm3 c * Real.arccos (v ⬝ᵥ z / norm3 v)

end Frame

/-! ### `MagnonDispersion` -/

/-- The attributes of a `MagnonDispersion`, dispersion.py 104-146. -/
structure MagnonObj where
  /-- `self.N` -/
  N : ℕ
  /-- `indices_i`, `indices_j`, `dis_vectors`, `J_matrices` (references to parameters), item by item -/
  bonds : List (ℕ × ℕ × V3 ℝ × ℕ)
  /-- `self.S`, row by row -/
  S : List (V3 ℝ)
  /-- `self.u` -/
  u : List (V3 ℂ)
  /-- `self.v` -/
  v : List (V3 ℂ)
  /-- `self._C` -/
  C : Option (ℕ → ℕ → ℂ)

namespace MagnonObj

/-- `get_vector(atom1, atom2, R)` of wulfric: `(R + r_2 - r_1) @ cell`. -/
noncomputable def vector (lat : M3 ℝ) (pos : Atom → V3 ℝ) (b : Bond) : V3 ℝ := fun c =>
  EnergyObj.lattice lat b.2.2 c + ∑ i, (pos b.2.1 i - pos b.1 i) * lat i c

/-- The body of the loop over `exchange_like`, dispersion.py 121-128. -/
noncomputable def bondsOf (idx : PyDict Atom ℕ) (vec : Bond → V3 ℝ) : List (Bond × ℕ) → Except PyErr (List (ℕ × ℕ × V3 ℝ × ℕ))
  | [] => .ok []
  | (b, r) :: l =>
    match idx.get? b.1 with
    | none => .error .keyError
    | some i =>
      match idx.get? b.2.1 with
      | none => .error .keyError
      | some j =>
        match bondsOf idx vec l with
        | .error e => .error e
        | .ok bs => .ok ((i, j, vec b, r) :: bs)

/-- `atom.spin_vector` for the atoms one after the other, dispersion.py 136-146; `ValueError` if it is not
defined. -/
def spinVectors (spinVec : Atom → Option (V3 ℝ)) : List Atom → Except PyErr (List (V3 ℝ))
  | [] => .ok []
  | a :: l =>
    match spinVec a with
    | none => .error .valueError
    | some x =>
      match spinVectors spinVec l with
      | .error e => .error e
      | .ok xs => .ok (x :: xs)

/-- `e1 + 1j * e2`, dispersion.py 141. -/
noncomputable def uOf (S : V3 ℝ) : V3 ℂ := fun c => (Frame.span S 0 c : ℂ) + I * (Frame.span S 1 c : ℂ)

/-- `e3` as an array of complex numbers, dispersion.py 140. -/
noncomputable def vOf (S : V3 ℝ) : V3 ℂ := fun c => (Frame.span S 2 c : ℂ)

/-- `MagnonDispersion.__init__`, dispersion.py 104-146: the object or the exception, and the heap with the private
copy of the Hamiltonian.  `order` is the iteration order of the set in `magnetic_atoms`, `lat` the lattice, `pos` the
positions of the atoms, `spinVec` their spin vectors. -/
noncomputable def init (order : List Atom → List Atom) (lat : M3 ℝ) (pos : Atom → V3 ℝ)
    (spinVec : Atom → Option (V3 ℝ)) (s : St ℝ) : Except PyErr MagnonObj × St ℝ :=
  let r := s.copy.setNotation (.str "SpinW")
  match r.err with
  | some e => (.error e, r.st)
  | none =>
    let t := r.st
    let atoms := t.magneticAtoms order
    match LikeIter.init t with
    | .error e => (.error e, t)
    | .ok it =>
      match collectIter LikeIter.next (EnergyObj.likeFuel t) (it, t) with
      | .error e => (.error e, t)
      | .ok (items, (_, t')) =>
        match bondsOf (EnergyObj.indices atoms) (vector lat pos) items with
        | .error e => (.error e, t')
        | .ok bonds =>
          match spinVectors spinVec atoms with
          | .error e => (.error e, t')
          | .ok S => (.ok { N := atoms.length, bonds := bonds, S := S, u := S.map uOf, v := S.map vOf, C := none }, t')

variable (o : MagnonObj) (cell : ℕ → M3 ℝ)

/-- `np.exp(-1j * (k @ d))`. -/
noncomputable def phase (k d : V3 ℝ) : ℂ := Complex.exp (-I * ((k ⬝ᵥ d : ℝ) : ℂ))

/-- `J`, dispersion.py 148-175: `result[i][j]`.  `cell` are the current values of the parameters. -/
noncomputable def J (k : V3 ℝ) (i j : ℕ) : M3 ℂ :=
  (o.bonds.map fun b => if b.1 = i ∧ b.2.1 = j then (phase k b.2.2.1) • (cell b.2.2.2).map ((↑) : ℝ → ℂ) else 0).sum

/-- `sqrt(|S_i| |S_j|) / 2`, dispersion.py 202-203, 233-234. -/
noncomputable def root (i j : ℕ) : ℂ :=
  ((Real.sqrt (EnergyObj.norm3 (o.S.getD i 0) * EnergyObj.norm3 (o.S.getD j 0)) / 2 : ℝ) : ℂ)

/-- `A`, dispersion.py 177-206: `result[i][j]`. -/
noncomputable def A (k : V3 ℝ) (i j : ℕ) : ℂ :=
  o.root i j * (o.u.getD i 0 ⬝ᵥ (o.J cell (-k) i j *ᵥ star (o.u.getD j 0)))

/-- `B`, dispersion.py 208-237: `result[i][j]`. -/
noncomputable def B (k : V3 ℝ) (i j : ℕ) : ℂ :=
  o.root i j * (o.u.getD i 0 ⬝ᵥ (o.J cell (-k) i j *ᵥ o.u.getD j 0))

/-- The array that `C` computes, dispersion.py 252-259. -/
noncomputable def freshC (i j : ℕ) : ℂ :=
  if i = j then
    ∑ l ∈ Finset.range o.N, (EnergyObj.norm3 (o.S.getD l 0) : ℂ) * (o.v.getD i 0 ⬝ᵥ (o.J cell 0 i l *ᵥ o.v.getD l 0))
  else 0

/-- `C`, dispersion.py 239-260: the array is computed once and kept. -/
noncomputable def callC : (ℕ → ℕ → ℂ) × MagnonObj :=
  match o.C with
  | some c => (c, o)
  | none => (o.freshC cell, { o with C := some (o.freshC cell) })

/-- A square complex array of size `2N`. -/
abbrev Mat (N : ℕ) := Matrix (Fin N ⊕ Fin N) (Fin N ⊕ Fin N) ℂ

/-- The first `N` rows and columns of an array. -/
def block (N : ℕ) (f : ℕ → ℕ → ℂ) : Matrix (Fin N) (Fin N) ℂ := Matrix.of fun i j => f i j

/-- `h`, dispersion.py 262-272, and the object afterwards. -/
noncomputable def callH (k : V3 ℝ) : Mat o.N × MagnonObj :=
  let c1 := o.callC cell
  let c2 := c1.2.callC cell
  (fromBlocks (2 • block o.N (o.A cell k) - 2 • block o.N c1.1) (2 • block o.N (o.B cell k))
    (2 • (block o.N (o.B cell k))ᴴ) (2 • (block o.N (o.A cell (-k))).map star - 2 • block o.N c2.1), c2.2)

end MagnonObj

/-! ### `solve_via_colpa` -/

namespace Colpa

open MagnonObj (Mat)

variable {N : ℕ}

/-- `g`, diagonalization.py 124. -/
def g : Mat N := diagonal (Sum.elim (fun _ => 1) fun _ => -1)

/-- `np.sqrt` of a complex number. -/
noncomputable def csqrt (z : ℂ) : ℂ := z ^ (1 / 2 : ℂ)

/-- `solve_via_colpa`, diagonalization.py 27-149; `none` is `ColpaFailed`.  The linear algebra of numpy comes as
arguments: `chol` is `np.linalg.cholesky` (`none` is `LinAlgError`), `eig` is `np.linalg.eig`, and `sort L` is
the order of the columns after `argsort` and the reversal (diagonalization.py 135-138). -/
noncomputable def solve (chol : Mat N → Option (Mat N)) (eig : Mat N → (Fin N ⊕ Fin N → ℂ) × Mat N)
    (sort : (Fin N ⊕ Fin N → ℂ) → Equiv.Perm (Fin N ⊕ Fin N)) (D : Mat N) : Option ((Fin N ⊕ Fin N → ℂ) × Mat N) :=
  match chol D with
  | none => none
  | some F =>
    let K := Fᴴ
    let (L0, U0) := eig (K * g * Kᴴ)
    let σ := sort L0
    let L := fun i => L0 (σ i)
    let U : Mat N := Matrix.of fun r c => U0 r (σ c)
    let E := g *ᵥ L
    let Ginv := K⁻¹ * U * (diagonal E).map csqrt
    let X := Ginvᴴ
    some (E, fromBlocks X.toBlocks₁₁ (-X.toBlocks₁₂) (-X.toBlocks₂₁) X.toBlocks₂₂)

end Colpa

/-! ### `omega` -/

namespace MagnonObj

/-- An entry of an array of energies: a number, or `nan` (`none`). -/
abbrev Entry := Option ℂ

/-- An array of length `2N` as a list. -/
def listOf {N : ℕ} (E : Fin N ⊕ Fin N → ℂ) : List Entry :=
  ((List.finRange N).map fun i => some (E (.inl i))) ++ (List.finRange N).map fun i => some (E (.inr i))

/-- `h + np.diag(x * np.ones(2 * N))`. -/
noncomputable def shift {N : ℕ} (h : Mat N) (x : ℝ) : Mat N := h + diagonal fun _ => (x : ℂ)

/-- The four attempts, dispersion.py 304-327.  `solve` is `solve_via_colpa`. -/
noncomputable def attempts {N : ℕ} (solve : Mat N → Option ((Fin N ⊕ Fin N → ℂ) × Mat N)) (h : Mat N) :
    Option ((Fin N ⊕ Fin N → ℂ) × Mat N) :=
  match solve h with
  | some p => some p
  | none =>
    match solve (shift h (1 / 10 ^ 8)) with
    | some p => some p
    | none =>
      match solve (-h) with
      | some p => some (-p.1, -p.2)
      | none =>
        match solve (shift (-h) (-(1 / 10 ^ 8))) with
        | some p => some (-p.1, -p.2)
        | none => none

open Classical in
/-- `omegas[np.abs(omegas) <= 1e-8] = 0` for one entry; a comparison with `nan` is false. -/
noncomputable def clean : Entry → Entry
  | none => none
  | some z => if ‖z‖ ≤ 1 / 10 ^ 8 then some 0 else some z

/-- `.real` for one entry. -/
def realPart : Entry → Entry := Option.map fun z => ((z.re : ℝ) : ℂ)

/-- `omega` after `h` is computed, dispersion.py 304-345: the energies, and `G` if it was asked for.  `junk` is the
content of `np.empty`. -/
noncomputable def omegaOf {N : ℕ} (solve : Mat N → Option ((Fin N ⊕ Fin N → ℂ) × Mat N)) (junk : Mat N)
    (zerosToNone returnG returnImaginary : Bool) (h : Mat N) : List Entry × Option (Mat N) :=
  let (w, G) : List Entry × Mat N :=
    match attempts solve h with
    | some (E, G) => (listOf E, G)
    | none => if zerosToNone then (List.replicate (2 * N) none, junk) else (List.replicate N (some 0), 0)
  let w := w.map clean
  let w := if returnImaginary then w else w.map realPart
  if returnG then (w, some G) else (w.take N, none)

/-- `omega`, dispersion.py 274-345. -/
noncomputable def omega (o : MagnonObj) (cell : ℕ → M3 ℝ) (solve : Mat o.N → Option ((Fin o.N ⊕ Fin o.N → ℂ) × Mat o.N))
    (junk : Mat o.N) (zerosToNone returnG returnImaginary : Bool) (k : V3 ℝ) :
    (List Entry × Option (Mat o.N)) × MagnonObj :=
  let r := o.callH cell k
  (omegaOf solve junk zerosToNone returnG returnImaginary r.1, r.2)

end MagnonObj

end Magnopy
