import Verif.Model.Energy

/-!
# Export to Vampire  (src/magnopy/io/txt/vampire.py)

The content of the files as data; the text with the unit cell and the printed digits is in `Model/VampireText`.  `order` is the iteration order of the set in `magnetic_atoms` (the same in all
evaluations).
-/

set_option autoImplicit false

namespace Magnopy.Vampire

open EnergyObj

variable {K : Type*} [Field K]

/-- The arguments `anisotropic`, `dmi` and `custom_mask` of `dump_ucf`.  A custom mask is a function of the matrix. -/
structure Mask (K : Type*) where
  /-- `anisotropic` -/
  anisotropic : Bool := true
  /-- `dmi` -/
  dmi : Bool := true
  /-- `custom_mask` -/
  custom : Option (M3 K → M3 K) := none

/-- The masked matrix, vampire.py 234-240. -/
def Mask.apply (m : Mask K) (J : M3 K) : M3 K :=
  match m.custom with
  | some f => f J
  | none =>
    let J' := if m.dmi then J else J - Param.dmiMatrix J
    if m.anisotropic then J' else J' - Param.aniso J'

/-- A line of the interaction list, vampire.py 243-249. -/
structure Line (K : Type*) where
  /-- `IID` -/
  iid : ℕ
  /-- `atom_indices[atom1]` -/
  i : ℕ
  /-- `atom_indices[atom2]` -/
  j : ℕ
  /-- `(i, j, k)` -/
  cell : Cell
  /-- the nine numbers -/
  matrix : M3 K

/-- The content of an .UCF file. -/
structure Ucf (K : Type*) where
  /-- `len(np.unique(materials))`, vampire.py 220 -/
  nMaterials : ℕ
  /-- the lines of the atoms with their numbers and materials -/
  atoms : List (ℕ × Atom × ℤ)
  /-- `len(spinham.exchange_like)` as printed in the header -/
  count : ℕ
  /-- the interactions -/
  lines : List (Line K)

/-- The loop over the atoms, vampire.py 222-227: `materials[a_i]` of a short list raises `IndexError`. -/
def atomLines (materials : List ℤ) : ℕ → List Atom → Except PyErr (List (ℕ × Atom × ℤ))
  | _, [] => .ok []
  | n, a :: as =>
    match materials[n]? with
    | none => .error .indexError
    | some m =>
      match atomLines materials (n + 1) as with
      | .error e => .error e
      | .ok l => .ok ((n, a, m) :: l)

/-- The loop over `exchange_like`, vampire.py 231-250, from the number `n` on; `energy` is `ENERGY`. -/
def lines (idx : PyDict Atom ℕ) (mask : Mask K) (energy : K) (s : St K) : ℕ → List (Bond × ℕ) → Except PyErr (List (Line K))
  | _, [] => .ok []
  | n, (b, r) :: l =>
    match idx.get? b.1 with
    | none => .error .keyError
    | some i =>
      match idx.get? b.2.1 with
      | none => .error .keyError
      | some j =>
        match lines idx mask energy s (n + 1) l with
        | .error e => .error e
        | .ok ls => .ok (⟨n, i, j, b.2.2, Param.mulNum (mask.apply (s.cell r)) energy⟩ :: ls)

/-- The assignment of a saved notation (`True` and `False` are numbers), vampire.py 252. -/
def restore (q : Bool × Bool × K × K) : St.NotationArg K :=
  .seq [if q.1 then 1 else 0, if q.2.1 then 1 else 0, q.2.2.1, q.2.2.2]

/-- `materials` or the default, vampire.py 202-203. -/
def materialsOf (materials : Option (List ℤ)) (n : ℕ) : List ℤ :=
  match materials with
  | some m => m
  | none => (List.range n).map fun (i : ℕ) => (i : ℤ)

/-- `dump_ucf`, vampire.py 162-260: the content or the exception, and the Hamiltonian afterwards. -/
def dumpUcf [DecidableEq K] (order : List Atom → List Atom) (energy : K) (mask : Mask K) (materials : Option (List ℤ))
    (s : St K) : Except PyErr (Ucf K) × St K :=
  match s.getNotation with
  | .error e => (.error e, s)
  | .ok original =>
    let r := s.setNotation (.str "vampire")
    match r.err with
    | some e => (.error e, r.st)
    | none =>
      match atomLines (materialsOf materials (s.magneticAtoms order).length) 0 (r.st.magneticAtoms order) with
      | .error e => (.error e, r.st)
      | .ok atoms =>
        match LikeIter.init r.st with
        | .error e => (.error e, r.st)
        | .ok it =>
          match collectIter LikeIter.next (likeFuel r.st) (it, r.st) with
          | .error e => (.error e, r.st)
          | .ok (items, _, s2) =>
            match lines (indices (r.st.magneticAtoms order)) mask energy s2 0 items with
            | .error e => (.error e, s2)
            | .ok ls =>
              let r2 := s2.setNotation (restore original)
              match r2.err with
              | some e => (.error e, r2.st)
              | none => (.ok ⟨(materialsOf materials (s.magneticAtoms order).length).dedup.length, atoms, it.len, ls⟩, r2.st)

/-- The content of a .mat file: the number of materials and the blocks (number, atom). -/
structure Mat where
  /-- `material:num-materials` -/
  count : ℤ
  /-- the blocks -/
  blocks : List (ℤ × Atom)

/-- The loop over the atoms, vampire.py 132-150; `before` is `materials[:i]`. -/
def matBlocks (materials : List ℤ) : List Atom → List ℤ → Except PyErr (List (ℤ × Atom))
  | [], _ => .ok []
  | a :: as, before =>
    match materials[before.length]? with
    | none => .error .indexError
    | some m =>
      match matBlocks materials as (before ++ [m]) with
      | .error e => .error e
      | .ok l => .ok (if m ∈ before then l else (m + 1, a) :: l)

/-- `dump_mat`, vampire.py 105-159.  `max([])` raises `ValueError`. -/
def dumpMat (order : List Atom → List Atom) (materials : Option (List ℤ)) (s : St K) : Except PyErr Mat :=
  let atoms := s.magneticAtoms order
  match materials with
  | none => .ok ⟨atoms.length, atoms.zipIdx.map fun p => ((p.2 : ℤ) + 1, p.1)⟩
  | some m =>
    match m.max? with
    | none => .error .valueError
    | some x =>
      match matBlocks m atoms [] with
      | .error e => .error e
      | .ok l => .ok ⟨x + 1, l⟩

end Magnopy.Vampire
