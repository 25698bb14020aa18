import Verif.Model.Minimize

/-!
# Specification: the report of `magnopy-minimize-energy`
-/

set_option autoImplicit false

namespace Magnopy.Minimize

/-- What the `n`-th minimisation returns (a default if it does not return). -/
def Env.sol (env : Env) (job : Job) (n : ℕ) : Sol :=
  match env.solve job n with
  | some (.ok s) => s
  | _ => ⟨[], 0, 0, []⟩

/-- The energy of the state found by the `n`-th minimisation. -/
noncomputable def Env.en (env : Env) (job : Job) (n : ℕ) : ℝ :=
  match env.energy job (env.sol job n) with
  | .ok x => x
  | .error _ => 0

/-- The `n`-th minimisation succeeds: it returns spins of magnetic atoms, which have an energy. -/
def Env.Ok (env : Env) (job : Job) (n : ℕ) : Prop :=
  ∃ s x, env.solve job n = some (.ok s) ∧ s.spins.length ≤ env.atoms.length ∧ env.energy job s = .ok x

/-- The 26 vectors of the antiferro case. -/
def nonzero : List (V3 ℤ) := qrels.filter fun q => q ≠ 0

/-- The minimisations for one requested type. -/
noncomputable def jobsOf (recip : M3 ℝ) (g : Str) : List Job :=
  if g = Str.lit "ferro" then [.ferro]
  else if g = Str.lit "antiferro" then nonzero.map fun q => .antiferro (qvec recip q)
  else if g = Str.lit "spiral" then [.spiral]
  else []

/-- The minimisations for a list of types, in order. -/
noncomputable def jobs (recip : M3 ℝ) (gs : List Str) : List Job := gs.flatMap (jobsOf recip)

/-- The minimisations from number `c` on all succeed. -/
def Env.AllOk (env : Env) (c : ℕ) (l : List Job) : Prop := ∀ i (h : i < l.length), env.Ok l[i] (c + i)

/-- The energies of the minimisations `l` from number `c` on. -/
noncomputable def Env.energies (env : Env) (c : ℕ) (l : List Job) : List ℝ := l.mapIdx fun i j => env.en j (c + i)

/-- The table of spins: name and position of every magnetic atom with its direction. -/
def Env.rows (env : Env) (l : List (V3 ℝ)) : List Rec := List.zipWith (fun a e => .spin a.name (env.pos a) e) env.atoms l

/-- The report about the `c`-th minimisation, of the ferro or spiral case. -/
def Env.block (env : Env) (g : Str) (c : ℕ) : List Rec :=
  if g = Str.lit "ferro" then
    [.start (Str.lit "ferromagnetic"), .done (Str.lit "ferromagnetic") none] ++ env.rows (env.sol .ferro c).spins
  else
    [.start (Str.lit "spiral"), .done (Str.lit "spiral") none] ++ env.rows (env.sol .spiral c).spins ++
      [.cone (env.sol .spiral c).cone, .vector (env.sol .spiral c).q]

/-- The lines the summary should have for one type whose first minimisation has the number `c`. -/
noncomputable def Env.lines (env : Env) (g : Str) (c : ℕ) : List Rec :=
  if g = Str.lit "ferro" then [.ferro (env.en .ferro c)]
  else if g = Str.lit "antiferro" then
    .antiferroTitle :: (env.energies c (jobsOf env.recip g)).mapIdx fun k x => .antiferro (k + 1) x
  else if g = Str.lit "spiral" then [.spiral (env.en .spiral c)]
  else []

/-- The lines the summary should have for a list of types. -/
noncomputable def Env.expected (env : Env) : List Str → ℕ → List Rec
  | [], _ => []
  | g :: gs, c => env.lines g c ++ env.expected gs (c + (jobsOf env.recip g).length)

/-- Lines of the summary. -/
def Rec.InSummary : Rec → Prop
  | .summary | .ferro _ | .antiferroTitle | .antiferro _ _ | .spiral _ => True
  | _ => False

/-- The number in the name of the history file of the `k`-th of the 26 minimisations, for `I` magnetic atoms. -/
def fileNumber (I k : ℕ) : ℕ := if k = 0 then 1 else if k = 13 then I + 1 else I

/-- What a history file holds: nothing if there is no file. -/
def content (f : PyDict HistFile (List (List (List (Optimize.Record Optimize.ConeX))))) (name : HistFile) :
    List (List (List (Optimize.Record Optimize.ConeX))) :=
  (f.get? name).getD []

/-- The report about the `c`-th minimisation, of the antiferro case for the vector `q`, with the number `n`. -/
noncomputable def afBlock (env : Env) (q : V3 ℤ) (n c : ℕ) : List Rec :=
  [.history q (.antiferro n), .done (Str.lit "antiferromagnetic") (some n)] ++ env.rows (env.sol (.antiferro (qvec env.recip q)) c).spins ++
    [.cone (env.sol (.antiferro (qvec env.recip q)) c).cone, .vector (qvec env.recip q)]

/-- `cell` and `recip` are reciprocal to each other. -/
def Reciprocal (lat recip : M3 ℝ) : Prop :=
  ∀ i j, ∑ c, lat i c * recip j c = if i = j then 2 * Real.pi else 0

/-- Every minimisation which succeeds returns one direction for every magnetic atom. -/
def Env.Full (env : Env) : Prop :=
  ∀ job n s, env.solve job n = some (.ok s) → s.spins.length = env.atoms.length

end Magnopy.Minimize
