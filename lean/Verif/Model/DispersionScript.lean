import Verif.Model.Magnon
import Verif.Model.Text

/-!
# `MagnonDispersion.omegas` and the script `magnopy-magnon-dispersion`  (magnons/dispersion.py 347-370, score/magnon_dispersion.py)

A two-dimensional array is the list of its rows.  Loading, `standardize`, the k points of wulfric, `float`, `os.path.abspath`
and matplotlib are fields of `Env`.  The text of the files is left out: what is kept are the numbers before formatting, the
names of the columns and the names of the files.  Printing, the logo, colours and ticks are left out; command lines: `Model/Cli`.
-/

set_option autoImplicit false

namespace Magnopy

open Complex

namespace MagnonObj

/-- The loop of `omegas`, dispersion.py 359-365: one row for each point.  `c` is the cache `self._C` before. -/
noncomputable def omegasData (o : MagnonObj) (cell : ℕ → M3 ℝ) (solve : Mat o.N → Option ((Fin o.N ⊕ Fin o.N → ℂ) × Mat o.N))
    (junk : Mat o.N) (zerosToNone : Bool) : List (V3 ℝ) → Option (ℕ → ℕ → ℂ) → List (List Entry) × Option (ℕ → ℕ → ℂ)
  | [], c => ([], c)
  | k :: ks, c =>
    let r := ({ o with C := c } : MagnonObj).omega cell solve junk zerosToNone false false k
    let q := omegasData o cell solve junk zerosToNone ks r.2.C
    (r.1.1 :: q.1, q.2)

/-- `np.array(data).T`; rows of an array have equal lengths, the array of an empty list has no rows. -/
def transposed {α : Type} (data : List (List (Option α))) : List (List (Option α)) :=
  (List.range (data.headD []).length).map fun i => data.map fun row => row.getD i none

/-- `omegas`, dispersion.py 347-367, and `__call__`, 369-370. -/
noncomputable def omegas (o : MagnonObj) (cell : ℕ → M3 ℝ) (solve : Mat o.N → Option ((Fin o.N ⊕ Fin o.N → ℂ) × Mat o.N))
    (junk : Mat o.N) (zerosToNone : Bool) (kpoints : List (V3 ℝ)) : List (List Entry) :=
  transposed (o.omegasData cell solve junk zerosToNone kpoints o.C).1

end MagnonObj

namespace Path

/-- `os.path.split` of POSIX: the part up to and including the last slash, and the rest; slashes at the end of the first
part are removed, unless it consists of slashes. -/
def split (p : Str) : Str × Str :=
  let tail := (p.reverse.takeWhile (· != '/')).reverse
  let head := (p.reverse.dropWhile (· != '/')).reverse
  (if head.all (· == '/') then head else (head.reverse.dropWhile (· == '/')).reverse, tail)

/-- `os.path.join(a, b)` of POSIX. -/
def join (a b : Str) : Str :=
  if b.startsWith ['/'] then b else if a = [] ∨ a.endsWith ['/'] then a ++ b else a ++ '/' :: b

end Path

namespace DispScript

open MagnonObj (Entry)

/-- What the script uses. -/
structure Env (H Kp : Type) where
  /-- `load_spinham(name, spinham_format=...)` -/
  load : Str → Option Str → Except PyErr H
  /-- `spinham.standardize()` -/
  standardize : H → Except PyErr H
  /-- `spinham.kpoints` -/
  kpoints : H → Except PyErr Kp
  /-- `kp.add_hs_point(name, coordinates, label)` -/
  addPoint : Kp → Str → V3 ℝ → Str → Except PyErr Kp
  /-- `kp.path = ...` -/
  setPath : Kp → Str → Except PyErr Kp
  /-- `kp.points(relative=False)` -/
  points : Kp → List (V3 ℝ)
  /-- `kp.points(relative=True)` -/
  relative : Kp → List (V3 ℝ)
  /-- `kp.flatten_points()` -/
  flat : Kp → List ℝ
  /-- `float(word)` -/
  float : Str → Option ℝ
  /-- `os.path.abspath(name)` -/
  abspath : Str → Str
  /-- `MagnonDispersion(spinham)(points)` -/
  omegas : H → List (V3 ℝ) → Except PyErr (List (List Entry))

/-- Content of a file. -/
inductive File where
  /-- the text in front of the table, with the names of the columns and, if the table is in another file, its name -/
  | info (input : Str) (columns : List Str) (data : Option Str)
  /-- the table, with the text in front of it if `join_output` is given -/
  | table (header : Option (Str × List Str)) (rows : List (List Entry))
  /-- the plot: the curves over the flat coordinates -/
  | figure (x : List ℝ) (curves : List (List Entry))

/-- Directories made and files written. -/
structure World where
  /-- `os.makedirs` -/
  dirs : List Str := []
  /-- the files -/
  files : PyDict Str File := []

/-- Options, magnon_dispersion.py 35-45. -/
structure Args where
  /-- `spinham` -/
  spinham : Str
  /-- `spinham_format` -/
  format : Option Str := none
  /-- `output_seedname` -/
  seed : Str := Str.lit "dispersion"
  /-- `k_points` -/
  kPoints : Option (List Str) := none
  /-- `k_path` -/
  kPath : Option Str := none
  /-- `save_txt` -/
  saveTxt : Bool := false
  /-- `interactive` -/
  interactive : Bool := false
  /-- `join_output` -/
  join : Bool := false

/-- `out_head` and `out_tail`, magnon_dispersion.py 46-51. -/
def output (spinham seed : Str) : Str × Str :=
  let o := Path.split seed
  (if o.1 = [] then (Path.split spinham).1 else o.1, if o.2 = [] then Str.lit "dispersion" else o.2)

/-- `output_name`, magnon_dispersion.py 53. -/
def outputName (spinham seed : Str) : Str := Path.join (output spinham seed).1 (output spinham seed).2

/-- `list(map(float, ...))` of three words. -/
def coordinates (float : Str → Option ℝ) (x y z : Str) : Except PyErr (V3 ℝ) :=
  match float x, float y, float z with
  | some a, some b, some c => .ok ![a, b, c]
  | _, _, _ => .error .valueError

variable {H Kp : Type}

/-- The loop over additional points, magnon_dispersion.py 73-79: `len(k_points) // 5` times five words; `words` is the rest
of the list. -/
def addPoints (env : Env H Kp) : ℕ → List Str → Kp → Except PyErr Kp
  | 0, _, kp => .ok kp
  | n + 1, words, kp =>
    match words with
    | name :: label :: x :: y :: z :: rest =>
      match coordinates env.float x y z with
      | .error e => .error e
      | .ok c =>
        match env.addPoint kp name c label with
        | .error e => .error e
        | .ok kp' => addPoints env n rest kp'
    | _ => .error .indexError

/-- The points of the option `k_points`, magnon_dispersion.py 71-79. -/
def extraPoints (env : Env H Kp) (kPoints : Option (List Str)) (kp : Kp) : Except PyErr Kp :=
  match kPoints with
  | none => .ok kp
  | some ws => addPoints env (ws.length / 5) ws kp

/-- The k points, magnon_dispersion.py 68-83. -/
def kpointsOf (env : Env H Kp) (args : Args) (h : H) : Except PyErr Kp :=
  match env.kpoints h with
  | .error e => .error e
  | .ok kp =>
    match extraPoints env args.kPoints kp with
    | .error e => .error e
    | .ok kp' =>
      match args.kPath with
      | none => .ok kp'
      | some p => env.setPath kp' p

/-- The array of points transposed. -/
def rowsOf (l : List (V3 ℝ)) : List (List Entry) := (List.finRange 3).map fun i => l.map fun v => some ((v i : ℝ) : ℂ)

/-- The columns of the table, one after the other, magnon_dispersion.py 182-190. -/
def columns (flat : List ℝ) (omegas : List (List Entry)) (rel points : List (V3 ℝ)) : List (List Entry) :=
  [flat.map fun x : ℝ => some (x : ℂ)] ++ omegas ++ rowsOf rel ++ rowsOf points

/-- Names of the columns, magnon_dispersion.py 153-157. -/
def names (n : ℕ) : List Str :=
  [Str.lit "Coordinate"] ++ ((List.range n).map fun i => Str.lit s!"omega_{i}") ++
    [Str.lit "b1 (rel)", Str.lit "b2 (rel)", Str.lit "b3 (rel)"] ++
    [Str.lit "k_x (abs)", Str.lit "k_y (abs)", Str.lit "k_z (abs)"]

/-- Text files, magnon_dispersion.py 117-199.  `np.concatenate` raises if the lengths differ. -/
def saveTxt (env : Env H Kp) (args : Args) (kp : Kp) (omegas : List (List Entry)) (w : World) : Res World :=
  let name := outputName args.spinham args.seed
  let cols := columns (env.flat kp) omegas (env.relative kp) (env.points kp)
  let table := MagnonObj.transposed cols
  let fits := cols.all fun c => c.length == (env.flat kp).length
  let input := env.abspath args.spinham
  if args.join then
    if fits then
      .ok { w with files := w.files.set (name ++ Str.lit ".txt") (.table (some (input, names omegas.length)) table) }
    else .raise w .valueError
  else
    let data := name ++ Str.lit "_data.txt"
    let w := { w with files := w.files.set (name ++ Str.lit "_info.txt") (.info input (names omegas.length) (some (env.abspath data))) }
    if fits then .ok { w with files := w.files.set data (.table none table) } else .raise w .valueError

/-- `manager`, magnon_dispersion.py 35-208. -/
def manager (env : Env H Kp) (args : Args) (w : World) : Res World :=
  let out := output args.spinham args.seed
  let w := if out.1 = [] then w else { w with dirs := w.dirs ++ [out.1] }
  match env.load args.spinham args.format with
  | .error e => .raise w e
  | .ok h0 =>
    match env.standardize h0 with
    | .error e => .raise w e
    | .ok h =>
      match kpointsOf env args h with
      | .error e => .raise w e
      | .ok kp =>
        match env.omegas h (env.points kp) with
        | .error e => .raise w e
        | .ok omegas =>
          if (omegas.any fun r => r.length != (env.flat kp).length) then .raise w .valueError
          else if env.flat kp = [] then .raise w .indexError
          else
            (if args.saveTxt then saveTxt env args kp omegas w else .ok w).andThen fun w =>
              if args.interactive then .ok w
              else .ok { w with files := w.files.set (outputName args.spinham args.seed ++ Str.lit ".png") (.figure (env.flat kp) omegas) }

/-- A Hamiltonian as the object uses it. -/
structure Ham where
  /-- the parameters -/
  st : St ℝ
  /-- the cell -/
  lat : M3 ℝ
  /-- positions of the atoms -/
  pos : Atom → V3 ℝ
  /-- spin vectors of the atoms -/
  spinVec : Atom → Option (V3 ℝ)

/-- `MagnonDispersion(spinham)(points)`, magnon_dispersion.py 91, 95.  `solve` is `solve_via_colpa` for every size, `junk`
the content of `np.empty`. -/
noncomputable def compute (order : List Atom → List Atom)
    (solve : ∀ N, MagnonObj.Mat N → Option ((Fin N ⊕ Fin N → ℂ) × MagnonObj.Mat N)) (junk : ∀ N, MagnonObj.Mat N)
    (h : Ham) (points : List (V3 ℝ)) : Except PyErr (List (List Entry)) :=
  match MagnonObj.init order h.lat h.pos h.spinVec h.st with
  | (.error e, _) => .error e
  | (.ok o, t) => .ok (o.omegas t.cell (solve o.N) (junk o.N) false points)

end DispScript
end Magnopy
