import Verif.Model.Optimize
import Verif.Model.Tb2j

/-!
# Model of the script `magnopy-minimize-energy`, `score/minimize_energy.py` 32-215

The results file is the list of the records written to it: the text of the lines is in `Model/MinimizeText.lean`, the
numbers are kept here as they are before formatting.  A history file is the list of the histories that were appended to it.
A block which an interrupted minimisation leaves in its history file is not modelled.  The seed of the names, the
logo and printing to the terminal are left out.
-/

set_option autoImplicit false

namespace Magnopy.Minimize

open Optimize

/-- What is minimised. -/
inductive Job where
  | ferro
  | antiferro (q : V3 ℝ)
  | spiral

/-- What `Energy.optimize` returns (`cone` and `q` are not used for `ferro`) and what it writes to the history. -/
structure Sol where
  /-- spin orientations -/
  spins : List (V3 ℝ)
  /-- cone axis -/
  cone : V3 ℝ
  /-- spiral vector -/
  q : V3 ℝ
  /-- the blocks of the history -/
  history : List (List (Record ConeX))

/-- Names of history files, minimize_energy.py 41, 72, 122. -/
inductive HistFile where
  | ferro
  | antiferro (i : ℕ)
  | spiral
  deriving DecidableEq

/-- What is written to the results file. -/
inductive Rec where
  /-- first lines of the three functions, with the names of the history files, 33-37, 62-65, 113-117 -/
  | start (s : Str)
  /-- the line which announces the history of one `q`, 77-80 -/
  | history (qrel : V3 ℤ) (file : HistFile)
  /-- the lines after a minimisation, with the number in the antiferro case, 43-49, 88-94, 124-130 -/
  | done (s : Str) (i : Option ℕ)
  /-- one row of the table of spins, 50-56, 95-101, 131-137 -/
  | spin (name : String) (pos e : V3 ℝ)
  /-- the cone axis, 102-104, 138-140 -/
  | cone (n : V3 ℝ)
  /-- the spiral vector, 105, 141-143 -/
  | vector (q : V3 ℝ)
  /-- the title of the summary, 206 -/
  | summary
  /-- the energy of the ferro case, 209 -/
  | ferro (x : ℝ)
  /-- the title of the energies of the antiferro case, 211 -/
  | antiferroTitle
  /-- one energy of the antiferro case, 213 -/
  | antiferro (n : ℕ) (x : ℝ)
  /-- the energy of the spiral case, 215 -/
  | spiral (x : ℝ)

/-- The files, and the number of calls of `optimize` made so far (each draws new random numbers). -/
structure World where
  /-- the results file -/
  recs : List Rec := []
  /-- the history files -/
  files : PyDict HistFile (List (List (List (Record ConeX)))) := []
  /-- number of calls of `optimize` -/
  calls : ℕ := 0

/-- `output_file.write`. -/
def World.write (w : World) (l : List Rec) : World := { w with recs := w.recs ++ l }

/-- `open(filename, "a")` and `file.write` in the history processors, energy.py 429-443, 463-483, 503-523: the history is
appended to what is there. -/
def append (f : PyDict HistFile (List (List (List (Record ConeX))))) (file : HistFile) (h : List (List (Record ConeX))) :
    PyDict HistFile (List (List (List (Record ConeX)))) := f.set file ((f.get? file).getD [] ++ [h])

/-- The result of a function of the script: `none` if some minimisation is not finished. -/
abbrev Run (α : Type) := Option (World × Except PyErr α)

/-- Sequence of two parts of the script. -/
def Run.andThen {α β : Type} (r : Run α) (f : α → World → Run β) : Run β :=
  match r with
  | none => none
  | some (w, .error e) => some (w, .error e)
  | some (w, .ok a) => f a w

/-- What the functions use: the loaded Hamiltonian and the `Energy` object. -/
structure Env where
  /-- `spinham.magnetic_atoms` -/
  atoms : List Atom
  /-- `atom.position` -/
  pos : Atom → V3 ℝ
  /-- `spinham.reciprocal_cell` -/
  recip : M3 ℝ
  /-- the `n`-th call of `energy.optimize(case, save_history=True, ...)` -/
  solve : Job → ℕ → Option (Except PyErr Sol)
  /-- `energy.ferro`, `energy.antiferro` and `energy.spiral` of what `optimize` returned -/
  energy : Job → Sol → Except PyErr ℝ

/-- `energy.optimize(..., save_history=True, history_filename=file)`. -/
def optimize (env : Env) (job : Job) (file : HistFile) (w : World) : Run Sol :=
  match env.solve job w.calls with
  | none => none
  | some (.error e) => some ({ w with calls := w.calls + 1 }, .error e)
  | some (.ok s) => some ({ w with calls := w.calls + 1, files := append w.files file s.history }, .ok s)

/-- The loop over the spins from index `k`, minimize_energy.py 50-56, 95-101, 131-137. -/
def table (env : Env) : ℕ → List (V3 ℝ) → World → Run Unit
  | _, [], w => some (w, .ok ())
  | k, e :: l, w =>
    match env.atoms[k]? with
    | none => some (w, .error .indexError)
    | some a => table env (k + 1) l (w.write [.spin a.name (env.pos a) e])

/-- `_minimize_ferro`, minimize_energy.py 32-58. -/
def minimizeFerro (env : Env) (w : World) : Run ℝ :=
  (optimize env .ferro .ferro (w.write [.start (Str.lit "ferromagnetic")])).andThen fun s w =>
    (table env 0 s.spins (w.write [.done (Str.lit "ferromagnetic") none])).andThen fun _ w => some (w, env.energy .ferro s)

/-- `_minimize_spiral`, minimize_energy.py 112-145. -/
def minimizeSpiral (env : Env) (w : World) : Run ℝ :=
  (optimize env .spiral .spiral (w.write [.start (Str.lit "spiral")])).andThen fun s w =>
    (table env 0 s.spins (w.write [.done (Str.lit "spiral") none])).andThen fun _ w =>
      some (w.write [.cone s.cone, .vector s.q], env.energy .spiral s)

/-- The rows of `(np.indices((3, 3, 3)) - 1).transpose((1, 2, 3, 0)).reshape(27, 3)`, minimize_energy.py 69. -/
def qrels : List (V3 ℤ) :=
  [-1, 0, 1].flatMap fun a => [-1, 0, 1].flatMap fun b => [-1, 0, 1].map fun c => ![a, b, c]

/-- `q = qrel @ spinham.reciprocal_cell / 2`, minimize_energy.py 76. -/
noncomputable def qvec (recip : M3 ℝ) (q : V3 ℤ) : V3 ℝ := fun c =>
  ((q 0 : ℝ) * recip 0 c + (q 1 : ℝ) * recip 1 c + (q 2 : ℝ) * recip 2 c) / 2

/-- The variable `i` after `for i, spin in enumerate(spin_orientation)`, minimize_energy.py 95: the loop uses the
name of the counter of the minimisations. -/
def after (i : ℕ) (spins : List (V3 ℝ)) : ℕ := if spins = [] then i else spins.length - 1

/-- The loop of `_minimize_antiferro`, minimize_energy.py 69-107; `i` is the counter. -/
noncomputable def antiferroLoop (env : Env) : List (V3 ℤ) → ℕ → List ℝ → World → Run (List ℝ)
  | [], _, es, w => some (w, .ok es)
  | q :: qs, i, es, w =>
    if q = 0 then antiferroLoop env qs (i + 1) es w
    else
      (optimize env (.antiferro (qvec env.recip q)) (.antiferro (i + 1))
          (w.write [.history q (.antiferro (i + 1))])).andThen fun s w =>
        (table env 0 s.spins (w.write [.done (Str.lit "antiferromagnetic") (some (i + 1))])).andThen fun _ w =>
          match env.energy (.antiferro (qvec env.recip q)) s with
          | .error e => some (w.write [.cone s.cone, .vector (qvec env.recip q)], .error e)
          | .ok x =>
            antiferroLoop env qs (after (i + 1) s.spins) (es ++ [x])
              (w.write [.cone s.cone, .vector (qvec env.recip q)])

/-- `_minimize_antiferro`, minimize_energy.py 61-109. -/
noncomputable def minimizeAntiferro (env : Env) (w : World) : Run (List ℝ) :=
  antiferroLoop env qrels 0 [] (w.write [.start (Str.lit "antiferromagnetic")])

/-! ### The manager -/

/-- The argument `ground_state_type`. -/
inductive GsArg where
  | none
  | str (s : Str)
  | list (l : List Str)

/-- `["ferro", "antiferro", "spiral"]`. -/
def allTypes : List Str := [Str.lit "ferro", Str.lit "antiferro", Str.lit "spiral"]

/-- `gs_to_minimize`, minimize_energy.py 171-174.  `in` looks for a part of a string and for an element of a list;
a string is iterated letter by letter. -/
def selected : GsArg → Except PyErr (List Str)
  | .none => .error .typeError
  | .str s => .ok (if Tb2j.has (Str.lit "all") s then allTypes else s.map fun c => [c])
  | .list l => .ok (if Str.lit "all" ∈ l then allTypes else l)

/-- An element of `energies`: a number, or the list returned by `_minimize_antiferro`. -/
inductive Val where
  | num (x : ℝ)
  | list (l : List ℝ)

/-- The loop over the types, minimize_energy.py 176-204. -/
noncomputable def collect (env : Env) : List Str → List Val → World → Run (List Val)
  | [], es, w => some (w, .ok es)
  | g :: gs, es, w =>
    if g = Str.lit "ferro" then
      (minimizeFerro env w).andThen fun x w => collect env gs (es ++ [.num x]) w
    else if g = Str.lit "antiferro" then
      (minimizeAntiferro env w).andThen fun l w => collect env gs (es ++ [.list l]) w
    else if g = Str.lit "spiral" then
      (minimizeSpiral env w).andThen fun x w => collect env gs (es ++ [.num x]) w
    else collect env gs es w

/-- Records, and the exception which ends them. -/
abbrev Part := List Rec × Option PyErr

/-- One part of the summary after another. -/
def Part.andThen (p : Part) (q : Part) : Part :=
  match p.2 with
  | some e => (p.1, some e)
  | none => (p.1 ++ q.1, q.2)

/-- `f"{energies[i]:.8f}"` in a line: a list has no such format. -/
def formatted (es : List Val) (i : ℕ) (line : ℝ → Rec) : Part :=
  match es[i]? with
  | none => ([], some .indexError)
  | some (.list _) => ([], some .typeError)
  | some (.num x) => ([line x], none)

/-- The inner loop `for i in range(26)` from `i` on, minimize_energy.py 212-213. -/
def numbers (es : List Val) : ℕ → ℕ → Part
  | 0, _ => ([], none)
  | n + 1, i => (formatted es i (.antiferro (i + 1))).andThen (numbers es n (i + 1))

/-- The condition `gs_to_minimize[i] == s` with the block below it. -/
def guarded (gs : List Str) (i : ℕ) (s : Str) (p : Part) : Part :=
  match gs[i]? with
  | none => ([], some .indexError)
  | some g => if g = s then p else ([], none)

/-- The variable `i` after the inner loop, which uses its name, minimize_energy.py 207, 212. -/
def afterInner (gs : List Str) (i : ℕ) : ℕ := if gs[i]? = some (Str.lit "antiferro") then 25 else i

/-- The body of the loop of the summary, minimize_energy.py 208-215. -/
def summaryStep (gs : List Str) (es : List Val) (i : ℕ) : Part :=
  (guarded gs i (Str.lit "ferro") (formatted es i .ferro)).andThen
    ((guarded gs i (Str.lit "antiferro") (Part.andThen ([.antiferroTitle], none) (numbers es 26 0))).andThen
      (guarded gs (afterInner gs i) (Str.lit "spiral") (formatted es (afterInner gs i) .spiral)))

/-- The loop of the summary, minimize_energy.py 207-215. -/
def summaryLoop (gs : List Str) (es : List Val) : List ℕ → Part
  | [] => ([], none)
  | i :: l => (summaryStep gs es i).andThen (summaryLoop gs es l)

/-- The summary, minimize_energy.py 206-215. -/
def summary (gs : List Str) (es : List Val) : Part :=
  Part.andThen ([.summary], none) (summaryLoop gs es (List.range es.length))

/-- `manager` after the `Energy` object is made, minimize_energy.py 170-215. -/
noncomputable def manager (env : Env) (arg : GsArg) : Run Unit :=
  match selected arg with
  | .error e => some ({}, .error e)
  | .ok gs =>
    (collect env gs [] {}).andThen fun es w =>
      some (w.write (summary gs es).1, match (summary gs es).2 with | some e => .error e | none => .ok ())

/-! ### With the Hamiltonian -/

/-- A `(I, 3)` array. -/
def rowsOf (l : List (V3 ℝ)) : Param.ArrayLike ℝ := .rows (l.map fun v => [v 0, v 1, v 2])

/-- A `(3,)` array. -/
def vectorOf (v : V3 ℝ) : Param.ArrayLike ℝ := .vector [v 0, v 1, v 2]

/-- What `optimize` returns in the antiferro and spiral cases, `_unpack_antiferro` and `_unpack_spiral`. -/
def coneSol (r : Outcome ConeX) : Sol :=
  ⟨(unpackCone r.x).1, (unpackCone r.x).2.1, (unpackCone r.x).2.2, r.written⟩

/-- `energy.optimize` with the arguments given in the script; the default `history_step` is 1000. -/
noncomputable def solveWith (E : EnergyObj ℝ) (muB : ℝ) (cell : ℕ → M3 ℝ) (rnd : ℕ → Random) (fuel : ℕ) :
    Job → ℕ → Option (Except PyErr Sol)
  | .ferro, n =>
    (optimizeFerro E muB cell (rnd n) none none none (some 1000) fuel).map fun r =>
      r.map fun o => ⟨o.x, 0, 0, o.written.map fun b => b.map fun t => (t.1, t.2.1, (t.2.2, 0))⟩
  | .antiferro q, n =>
    (optimizeAntiferro E muB cell (rnd n) (some (vectorOf q)) none none none (some 1000) fuel).map fun r => r.map coneSol
  | .spiral, n =>
    (optimizeSpiral E muB cell (rnd n) none none none (some 1000) fuel).map fun r => r.map coneSol

/-- The energies computed in lines 58, 107 and 145. -/
noncomputable def energyWith (E : EnergyObj ℝ) (muB : ℝ) (cell : ℕ → M3 ℝ) : Job → Sol → Except PyErr ℝ
  | .ferro, s => E.ferro muB cell (rowsOf s.spins)
  | .antiferro q, s => E.antiferro muB cell (rowsOf s.spins) (vectorOf s.cone) (vectorOf q)
  | .spiral, s => E.spiral muB cell (rowsOf s.spins) (vectorOf s.cone) (vectorOf s.q)

/-- `manager` with a loaded Hamiltonian, minimize_energy.py 163-215.  `lat` is the cell, `recip` the reciprocal cell,
`rnd` the random numbers of the calls of `optimize`. -/
noncomputable def script (order : List Atom → List Atom) (lat recip : M3 ℝ) (pos : Atom → V3 ℝ) (g : Atom → ℝ) (muB : ℝ)
    (rnd : ℕ → Random) (fuel : ℕ) (s : St ℝ) (field : Option (V3 ℝ)) (arg : GsArg) : Run Unit :=
  match EnergyObj.init order lat g s with
  | (.error e, _) => some ({}, .error e)
  | (.ok E, t) =>
    let E' := match field with | none => E | some h => { E with field := some h }
    manager { atoms := t.magneticAtoms order, pos := pos, recip := recip,
              solve := solveWith E' muB t.cell rnd fuel, energy := energyWith E' muB t.cell } arg

end Magnopy.Minimize
