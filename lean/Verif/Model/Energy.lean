import Verif.Model.Iter
import Mathlib.Analysis.SpecialFunctions.Trigonometric.Basic
import Mathlib.Analysis.SpecialFunctions.Sqrt
import Mathlib.Data.Matrix.Mul

/-!
# `Energy`  (src/magnopy/spinham/energy.py, lines 537-1329)

The constructor is generic in the numbers, the energies are real.  An `Energy` object keeps references
to `MatrixParameter` objects; its methods read the heap at the time of the call.
-/

set_option autoImplicit false

namespace Magnopy

/-- Python `for x in iterator` for an iterator that stops within `fuel` calls of `__next__`: the items
and the last state.  (Not enough fuel is reported as `RuntimeError`; `Verif/Lemmas/EnergyInit.lean` shows
that it does not happen in `Energy.__init__`.) -/
def collectIter {σ α : Type*} (next : σ → Next σ α) : ℕ → σ → Except PyErr (List α × σ)
  | 0, _ => .error .runtimeError
  | n + 1, s =>
    match next s with
    | .stop => .ok ([], s)
    | .raise e => .error e
    | .item a s' =>
      match collectIter next n s' with
      | .error e => .error e
      | .ok (l, t) => .ok (a :: l, t)

/-- The attributes of an `Energy` object, energy.py 549-595.  (`_atom_indices` is only used while the
object is constructed.) -/
structure EnergyObj (K : Type*) where
  /-- `self._factor` -/
  factor : K
  /-- `self._g_factors` -/
  gFactors : List K
  /-- `self._spins` -/
  spins : List K
  /-- `self._bonds`: `[i, j, d, J]` with a reference to the parameter `J` -/
  bonds : List (ℕ × ℕ × V3 K × ℕ)
  /-- `self._magnetic_field` -/
  field : Option (V3 K)
  /-- `self._m` -/
  m : ℤ
  /-- `self._wolfe_iter_max` -/
  wolfeIterMax : ℕ
  /-- `self._wolfe_c1` -/
  wolfeC1 : K
  /-- `self._wolfe_c2` -/
  wolfeC2 : K

namespace EnergyObj

variable {K : Type*} [Field K]

/-- `[f(atom) for atom in atoms]` where `f` may raise. -/
def mapAtoms (f : Atom → Except PyErr K) : List Atom → Except PyErr (List K)
  | [] => .ok []
  | a :: l =>
    match f a with
    | .error e => .error e
    | .ok x =>
      match mapAtoms f l with
      | .error e => .error e
      | .ok xs => .ok (x :: xs)

/-- `R @ spinham.cell`, energy.py 570. -/
def lattice (cell : M3 K) (R : Cell) : V3 K :=
  fun c => (R.1 : K) * cell 0 c + (R.2.1 : K) * cell 1 c + (R.2.2 : K) * cell 2 c

/-- `self._atom_indices`: position in `magnetic_atoms`, energy.py 552-554. -/
def indices (atoms : List Atom) : PyDict Atom ℕ := atoms.zipIdx

/-- The body of the loop over `exchange_like`, energy.py 567-571. -/
def bondsOf (idx : PyDict Atom ℕ) (cell : M3 K) : List (Bond × ℕ) → Except PyErr (List (ℕ × ℕ × V3 K × ℕ))
  | [] => .ok []
  | (b, r) :: l =>
    match idx.get? b.1 with
    | none => .error .keyError
    | some i =>
      match idx.get? b.2.1 with
      | none => .error .keyError
      | some j =>
        match bondsOf idx cell l with
        | .error e => .error e
        | .ok bs => .ok ((i, j, lattice cell b.2.2, r) :: bs)

/-- The number of `__next__` calls of a loop over `exchange_like`. -/
def likeFuel (s : St K) : ℕ := List.length s.onSite + List.length s.exch + 1

/-- `Energy.__init__`, energy.py 549-595: the object or the exception, and the state of the Hamiltonian
afterwards.  `order` is the iteration order of the set in `magnetic_atoms` (the same for its three
evaluations, as the set has the same contents), `cell` the lattice, `g` the g factors of the atoms. -/
def init [DecidableEq K] (order : List Atom → List Atom) (cell : M3 K) (g : Atom → K) (s : St K) :
    Except PyErr (EnergyObj K) × St K :=
  match s.ef with
  | none => (.error .notationError, s)
  | some f =>
    let atoms := s.magneticAtoms order
    match mapAtoms s.spinOf atoms with
    | .error e => (.error e, s)
    | .ok spins =>
      match s.dc with
      | none => (.error .notationError, s)
      | some previous =>
        let r := s.setDC true
        match r.err with
        | some e => (.error e, r.st)
        | none =>
          match LikeIter.init r.st with
          | .error e => (.error e, r.st)
          | .ok it =>
            match collectIter LikeIter.next (likeFuel r.st) (it, r.st) with
            | .error e => (.error e, r.st)
            | .ok (items, _, s2) =>
              match bondsOf (indices atoms) cell items with
              | .error e => (.error e, s2)
              | .ok bonds =>
                let r2 := s2.setDC previous
                match r2.err with
                | some e => (.error e, r2.st)
                | none =>
                  (.ok { factor := f, gFactors := atoms.map g, spins := spins, bonds := bonds, field := none,
                         m := 10, wolfeIterMax := 10000, wolfeC1 := 1 / 10000, wolfeC2 := 9 / 10 }, r2.st)

/-- `np.einsum("i,ij,j", u, J, v)`. -/
def einsum3 (u : V3 K) (J : M3 K) (v : V3 K) : K := ∑ i, ∑ j, u i * J i j * v j

/-- `np.linalg.norm` of a 3-vector. -/
noncomputable def norm3 (v : V3 ℝ) : ℝ := Real.sqrt (v 0 ^ 2 + v 1 ^ 2 + v 2 ^ 2)

/-- `v /= np.linalg.norm(v)`.  For the zero vector numpy gives `nan`, which is outside of the model. -/
noncomputable def normalize (v : V3 ℝ) : V3 ℝ := fun i => v i / norm3 v

/-- A row of a `(I, 3)` array. -/
def row {K : Type*} : List K → Except PyErr (V3 K)
  | [a, b, c] => .ok ![a, b, c]
  | _ => .error .valueError

/-- The rows of an `(I, 3)` array; ragged input is not array-like, another width fails the shape test:
`ValueError` in both cases. -/
def rows {K : Type*} : List (List K) → Except PyErr (List (V3 K))
  | [] => .ok []
  | r :: rs =>
    match row r with
    | .error e => .error e
    | .ok v =>
      match rows rs with
      | .error e => .error e
      | .ok vs => .ok (v :: vs)

/-- The checks of `spin_orientation` for `n` spins, energy.py 1048-1069, 1124-1165, 1241-1282, without
the normalisation.  A number has an empty shape (`IndexError`).  A `(3,)` array is accepted for one spin;
for three spins it passes the tests and `einsum` raises `ValueError`. -/
def orientations {K : Type*} (n : ℕ) : Param.ArrayLike K → Except PyErr (List (V3 K))
  | .number _ => .error .indexError
  | .vector [a, b, c] => if n = 1 then .ok [![a, b, c]] else .error .valueError
  | .vector _ => .error .valueError
  | .rows rs =>
    if rs = [] then .error .valueError
    else
      match rows rs with
      | .error e => .error e
      | .ok vs => if vs.length = n then .ok vs else .error .valueError
  | .bad => .error .valueError

/-- The sum over the bonds, energy.py 1074-1083, 1182-1196, 1299-1319.  `C d J` is the matrix between the
spins.  Indices outside of the lists do not occur (`C23_indices`). -/
def bondSum (E : EnergyObj K) (C : V3 K → M3 K → M3 K) (cell : ℕ → M3 K) (e : List (V3 K)) : K :=
  (E.bonds.map fun (i, j, d, J) =>
    E.factor * E.spins.getD i 0 * E.spins.getD j 0 * einsum3 (e.getD i 0) (C d (cell J)) (e.getD j 0)).sum

/-- `np.einsum("i,j,ij", g, h, so)`. -/
def einsumZeeman (g : List K) (h : V3 K) (so : List (V3 K)) : K :=
  (List.zipWith (fun gi ei => ∑ j, gi * h j * ei j) g so).sum

/-- The matrix `K` of the cone axis, energy.py 1170-1176, 1287-1293, 993-999. -/
def coneK (n : V3 K) : M3 K := !![0, -n 2, n 1; n 2, 0, -n 0; -n 1, n 0, 0]

/-- `np.eye(3) + K_sq`, energy.py 1178, 1295. -/
def coneIKsq (n : V3 K) : M3 K := 1 + coneK n * coneK n

/-- `C_dij` of the antiferro case, energy.py 1184-1188; `c`, `s` are the cosine and the sine of
`spiral_vector @ d`. -/
def antiferroC (n : V3 K) (c s : K) (J : M3 K) : M3 K :=
  coneIKsq n * J * coneIKsq n + c • (coneK n * coneK n * J * (coneK n * coneK n)) -
    s • (coneK n * coneK n * J * coneK n)

/-- `C_dij` of the spiral case, energy.py 1303-1311. -/
def spiralC (n : V3 K) (c s : K) (J : M3 K) : M3 K :=
  coneIKsq n * J * coneIKsq n -
    (c / 2) • (coneK n * J * coneK n - coneK n * coneK n * J * (coneK n * coneK n)) -
    (s / 2) • (coneK n * J * (coneK n * coneK n) + coneK n * coneK n * J * coneK n)

/-- `u @ v`. -/
def dot3 (u v : V3 K) : K := u 0 * v 0 + u 1 * v 1 + u 2 * v 2

/-- The Zeeman term, energy.py 1086-1089, for the vectors `so`; `muB` is the Bohr magneton in the units of
the energy. -/
def zeeman (E : EnergyObj K) (muB : K) (so : List (V3 K)) : K :=
  match E.field with
  | none => 0
  | some h => muB * einsumZeeman E.gFactors h so

/-- `so_prime`, energy.py 1200-1202, 1323-1325: `(I + IK_sq)` applied to each spin. -/
def soPrime (n : V3 K) (e : List (V3 K)) : List (V3 K) :=
  e.map fun v j => ∑ k, (1 + coneIKsq n) j k * v k

/-- `ferro` after the checks, on normalised spins, energy.py 1071-1090. -/
def ferroUnit (E : EnergyObj K) (muB : K) (cell : ℕ → M3 K) (e : List (V3 K)) : K :=
  E.bondSum (fun _ J => J) cell e + E.zeeman muB e

/-- `antiferro` after the checks, energy.py 1170-1208. -/
noncomputable def antiferroUnit (E : EnergyObj ℝ) (muB : ℝ) (cell : ℕ → M3 ℝ) (e : List (V3 ℝ)) (n q : V3 ℝ) : ℝ :=
  E.bondSum (fun d J => antiferroC n (Real.cos (dot3 q d)) (Real.sin (dot3 q d)) J) cell e +
    E.zeeman muB (soPrime n e)

/-- `spiral` after the checks, energy.py 1287-1329. -/
noncomputable def spiralUnit (E : EnergyObj ℝ) (muB : ℝ) (cell : ℕ → M3 ℝ) (e : List (V3 ℝ)) (n q : V3 ℝ) : ℝ :=
  E.bondSum (fun d J => spiralC n (Real.cos (dot3 q d)) (Real.sin (dot3 q d)) J) cell e +
    E.zeeman muB (soPrime n e)

/-- `Energy.ferro`, energy.py 1027-1090. -/
noncomputable def ferro (E : EnergyObj ℝ) (muB : ℝ) (cell : ℕ → M3 ℝ) (so : Param.ArrayLike ℝ) : Except PyErr ℝ :=
  match orientations E.spins.length so with
  | .error x => .error x
  | .ok e => .ok (E.ferroUnit muB cell (e.map normalize))

/-- The checks common to `antiferro` and `spiral`, energy.py 1124-1168, 1241-1285, in the order of the
code (the number of spins is checked after the cone axis and the spiral vector, every failure is a
`ValueError` except for the shape of a number). -/
def coneInput {K : Type*} (n : ℕ) (so cone q : Param.ArrayLike K) :
    Except PyErr (List (V3 K) × V3 K × V3 K) :=
  match so with
  | .number _ => .error .indexError
  | so =>
    match cone.toV3 with
    | .error x => .error x
    | .ok c =>
      match q.toV3 with
      | .error x => .error x
      | .ok q =>
        match orientations n so with
        | .error x => .error x
        | .ok e => .ok (e, c, q)

/-- `Energy.antiferro`, energy.py 1092-1208. -/
noncomputable def antiferro (E : EnergyObj ℝ) (muB : ℝ) (cell : ℕ → M3 ℝ) (so cone q : Param.ArrayLike ℝ) :
    Except PyErr ℝ :=
  match coneInput E.spins.length so cone q with
  | .error x => .error x
  | .ok (e, c, q) => .ok (E.antiferroUnit muB cell (e.map normalize) (normalize c) q)

/-- `Energy.spiral`, energy.py 1210-1329. -/
noncomputable def spiral (E : EnergyObj ℝ) (muB : ℝ) (cell : ℕ → M3 ℝ) (so cone q : Param.ArrayLike ℝ) :
    Except PyErr ℝ :=
  match coneInput E.spins.length so cone q with
  | .error x => .error x
  | .ok (e, c, q) => .ok (E.spiralUnit muB cell (e.map normalize) (normalize c) q)

/-- The matrix in the q-gradient, energy.py 1005-1009. -/
def spiralGradC (n : V3 K) (c s : K) (J : M3 K) : M3 K :=
  -(c / 2) • (coneK n * J * (coneK n * coneK n) + coneK n * coneK n * J * coneK n) +
    (s / 2) • (coneK n * J * coneK n - coneK n * coneK n * J * (coneK n * coneK n))

/-- The part of `_spiral_grad` for the spiral vector, energy.py 993-1018: three numbers. -/
noncomputable def spiralGradQ (E : EnergyObj ℝ) (cell : ℕ → M3 ℝ) (e : List (V3 ℝ)) (n q : V3 ℝ) : V3 ℝ :=
  (E.bonds.map fun (i, j, d, J) => fun c =>
    d c * (E.factor * E.spins.getD i 0 * E.spins.getD j 0 *
      einsum3 (e.getD i 0) (spiralGradC n (Real.cos (dot3 q d)) (Real.sin (dot3 q d)) (cell J)) (e.getD j 0))).sum

end EnergyObj
end Magnopy
