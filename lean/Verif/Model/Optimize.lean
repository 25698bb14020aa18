import Verif.Model.Energy
import Verif.Model.Param
import Mathlib.LinearAlgebra.CrossProduct
import Mathlib.Analysis.SpecialFunctions.Trigonometric.Basic

/-!
# Model of the minimisation, `spinham/energy.py` 43-522, 597-1021, 1335-1770

Reals instead of doubles: no rounding, no `nan`, no `inf`.  A one-dimensional array of `size` numbers is a
function on `ℕ` of which only the values below `size` are used.  Random numbers are arguments.
Logging, printing and the plot drawn before `ValueError("Wolfe failed")` are left out; the history file is
modelled as the list of the blocks written to it (records, not their text).
-/

set_option autoImplicit false

namespace Magnopy

/-- A one-dimensional numpy array; its size is kept separately. -/
abbrev Arr := ℕ → ℝ

/-- `u @ v` for arrays of the given size. -/
def vdot (size : ℕ) (u v : Arr) : ℝ := ∑ i ∈ Finset.range size, u i * v i

/-- `np.linalg.norm(v)` for an array of the given size. -/
noncomputable def vnorm (size : ℕ) (v : Arr) : ℝ := Real.sqrt (vdot size v v)

namespace Optimize

open EnergyObj

/-! ### Starting points -/

/-- Normalise every row, energy.py 77-78. -/
noncomputable def normalizeRows (l : List (V3 ℝ)) : List (V3 ℝ) := l.map normalize

/-- `_starting_ferro`, energy.py 50-80.  `random` is `np.random.random((n_spins, 3))`.  Input which numpy
cannot convert (ragged lists included) raises `UnboundLocalError`, a `NameError`: the message of the
`ValueError` uses the variable whose assignment just failed. -/
noncomputable def startFerro (n : ℕ) (random : List (V3 ℝ)) : Option (Param.ArrayLike ℝ) → Except PyErr (List (V3 ℝ))
  | none => .ok (normalizeRows random)
  | some .bad => .error .nameError
  | some (.rows rs) =>
    if rs.any fun r => r.length ≠ (rs.headD []).length then .error .nameError
    else
      match orientations n (.rows rs) with
      | .error e => .error e
      | .ok l => .ok (normalizeRows l)
  | some a =>
    match orientations n a with
    | .error e => .error e
    | .ok l => .ok (normalizeRows l)

/-- The cone axis of the starting point, energy.py 97-113, 144-160. -/
noncomputable def startCone (random : V3 ℝ) : Option (Param.ArrayLike ℝ) → Except PyErr (V3 ℝ)
  | none => .ok (normalize random)
  | some a =>
    match a.toV3 with
    | .error e => .error e
    | .ok v => .ok (normalize v)

/-- The spiral vector of the starting point of the spiral case, energy.py 162-179. -/
def startQ (random : V3 ℝ) : Option (Param.ArrayLike ℝ) → Except PyErr (V3 ℝ)
  | none => .ok random
  | some a => a.toV3

/-- The random numbers drawn for a starting point. -/
structure Random where
  /-- `np.random.random((n_spins, 3))` -/
  spins : List (V3 ℝ)
  /-- `np.random.random(3)` for the cone axis -/
  cone : V3 ℝ
  /-- `np.random.random(3)` for the spiral vector -/
  q : V3 ℝ

/-- The rows of spins and cone axis (one array) and the spiral vector: the coordinate of the antiferro and
spiral cases. -/
abbrev ConeX := List (V3 ℝ) × V3 ℝ

/-- `_starting_antiferro`, energy.py 83-127.  `antiferro_q=None` gives an array of shape `()`. -/
noncomputable def startAntiferro (n : ℕ) (rnd : Random) (q : Option (Param.ArrayLike ℝ))
    (guess : Option (List (Option (Param.ArrayLike ℝ)))) : Except PyErr ConeX :=
  match guess with
  | none => go none none
  | some [a, b] => go a b
  | some _ => .error .valueError
where
  /-- energy.py 91-127 -/
  go (a b : Option (Param.ArrayLike ℝ)) : Except PyErr ConeX :=
    match startFerro n rnd.spins a with
    | .error e => .error e
    | .ok l =>
      match startCone rnd.cone b with
      | .error e => .error e
      | .ok c =>
        match q with
        | none => .error .valueError
        | some q =>
          match q.toV3 with
          | .error e => .error e
          | .ok q => .ok (l ++ [c], q)

/-- `_starting_spiral`, energy.py 130-181. -/
noncomputable def startSpiral (n : ℕ) (rnd : Random) (guess : Option (List (Option (Param.ArrayLike ℝ)))) :
    Except PyErr ConeX :=
  match guess with
  | none => go none none none
  | some [a, b, c] => go a b c
  | some _ => .error .valueError
where
  /-- energy.py 138-181 -/
  go (a b c : Option (Param.ArrayLike ℝ)) : Except PyErr ConeX :=
    match startFerro n rnd.spins a with
    | .error e => .error e
    | .ok l =>
      match startCone rnd.cone b with
      | .error e => .error e
      | .ok n =>
        match startQ rnd.q c with
        | .error e => .error e
        | .ok q => .ok (l ++ [n], q)

/-! ### Updates -/

/-- `np.finfo(float).eps`. -/
noncomputable def eps : ℝ := 1 / 2 ^ 52

/-- The new direction of one spin, energy.py 208-222, 248-262, 290-304. -/
noncomputable def rotateRow (a12 a13 a23 : ℝ) (v : V3 ℝ) : V3 ℝ :=
  let theta := Real.sqrt (a12 ^ 2 + a13 ^ 2 + a23 ^ 2)
  if theta < eps then v
  else
    let r : V3 ℝ := ![-a23 / theta, a13 / theta, -a12 / theta]
    Real.cos theta • v + Real.sin theta • (crossProduct r v) +
      ((1 - Real.cos theta) * (r 0 * v 0 + r 1 * v 1 + r 2 * v 2)) • r

/-- The loop over the first `count` rows, energy.py 201-222. -/
noncomputable def rotateRows (count : ℕ) (p : Arr) (step : ℝ) (x : List (V3 ℝ)) : List (V3 ℝ) :=
  x.mapIdx fun i v =>
    if i < count then rotateRow (p (3 * i) * step) (p (3 * i + 1) * step) (p (3 * i + 2) * step) v else v

/-- `_update_x_ferro`, energy.py 189-224: `len(search_direction[::3])` rows. -/
noncomputable def updateFerro (size : ℕ) (x : List (V3 ℝ)) (p : Arr) (step : ℝ) : List (V3 ℝ) :=
  rotateRows (size / 3) p step x

/-- `_update_x_antiferro`, energy.py 227-266: `len(search_direction[:-3:3])` rows. -/
noncomputable def updateAntiferro (size : ℕ) (x : ConeX) (p : Arr) (step : ℝ) : ConeX :=
  (rotateRows ((size - 3) / 3) p step x.1, x.2)

/-- `_update_x_spiral`, energy.py 269-310. -/
noncomputable def updateSpiral (size : ℕ) (x : ConeX) (p : Arr) (step : ℝ) : ConeX :=
  (rotateRows ((size - 3) / 3) p step x.1,
    fun c => x.2 c + p (size - 3 + c.val) * step)

/-- `_unpack_antiferro`, `_unpack_spiral`, energy.py 341-386. -/
def unpackCone (x : ConeX) : List (V3 ℝ) × V3 ℝ × V3 ℝ := (x.1.dropLast, x.1.getLastD 0, x.2)

/-! ### Gradients and torques -/

/-- The step of the finite differences, energy.py 823. -/
noncomputable def fdStep : ℝ := 1 / 10000

/-- The vector `v` with `x` added to its component `j`. -/
def bump (v : V3 ℝ) (j : Fin 3) (x : ℝ) : V3 ℝ := fun i => if i = j then v i + x else v i

/-- The central differences of `F` with respect to row `i`, energy.py 825-831.  The array is changed in place
and restored, which is exact for reals. -/
noncomputable def rowGrad (F : List (V3 ℝ) → ℝ) (x : List (V3 ℝ)) (i : ℕ) : V3 ℝ := fun j =>
  (F (x.set i (bump (x.getD i 0) j fdStep)) - F (x.set i (bump (x.getD i 0) j (-fdStep)))) / 2 / fdStep

/-- `t = np.cross(spin_orientation[i], gradient)`, energy.py 833. -/
noncomputable def rowTorque (F : List (V3 ℝ) → ℝ) (x : List (V3 ℝ)) (i : ℕ) : V3 ℝ :=
  crossProduct (x.getD i 0) (rowGrad F x i)

/-- The torques of all rows. -/
noncomputable def rowTorques (F : List (V3 ℝ) → ℝ) (x : List (V3 ℝ)) : List (V3 ℝ) :=
  (List.range x.length).map (rowTorque F x)

/-- `gradient_vector[3i : 3i+3] = (t_z, -t_y, t_x)` for every torque, zero elsewhere, energy.py 836-838. -/
def packTorques (ts : List (V3 ℝ)) : Arr := fun k =>
  let t := ts.getD (k / 3) 0
  if k % 3 = 0 then t 2 else if k % 3 = 1 then -t 1 else t 0

/-- `gradient_vector[k : k+3] = (t_z, -t_y, t_x)`, energy.py 911-913, 988-990. -/
def writeTorque (k : ℕ) (t : V3 ℝ) (g : Arr) : Arr := fun i =>
  if i = k then t 2 else if i = k + 1 then -t 1 else if i = k + 2 then t 0 else g i

/-- `gradient_vector[k : k+3] = v`, energy.py 1018. -/
def writeVector (k : ℕ) (v : V3 ℝ) (g : Arr) : Arr := fun i =>
  if i = k then v 0 else if i = k + 1 then v 1 else if i = k + 2 then v 2 else g i

/-- `_ferro_grad`, energy.py 798-841: the gradient vector and the torques.  `F` is the energy. -/
noncomputable def gradFerro (F : List (V3 ℝ) → ℝ) (x : List (V3 ℝ)) : Arr × List (V3 ℝ) :=
  let ts := rowTorques F x
  (packTorques ts, ts)

/-- `_antiferro_grad`, energy.py 843-916: indices `-6, -5, -4` of an array of `3 I + 3` numbers are used for
the torque of the cone axis. -/
noncomputable def gradAntiferro (size : ℕ) (F : ConeX → ℝ) (x : ConeX) : Arr × List (V3 ℝ) :=
  let ts := rowTorques (fun l => F (l, x.2)) x.1
  (writeTorque (size - 6) (ts.getLastD 0) (packTorques ts.dropLast), ts)

/-- `_spiral_grad`, energy.py 918-1021: `3 I + 6` numbers. -/
noncomputable def gradSpiral (size : ℕ) (F : ConeX → ℝ) (gq : ConeX → V3 ℝ) (x : ConeX) : Arr × List (V3 ℝ) :=
  let ts := rowTorques (fun l => F (l, x.2)) x.1
  (writeVector (size - 3) (gq x) (writeTorque (size - 6) (ts.getLastD 0) (packTorques ts.dropLast)), ts)

/-- `np.linalg.norm(torques, axis=1).max()`, energy.py 398-399; numpy raises for an empty array. -/
noncomputable def maxNorm : List (V3 ℝ) → Except PyErr ℝ
  | [] => .error .valueError
  | t :: ts => .ok (ts.foldl (fun m s => max m (norm3 s)) (norm3 t))

/-- `_compute_torque_target_ferro`, energy.py 398-399. -/
noncomputable def targetFerro (ts : List (V3 ℝ)) : Except PyErr (List ℝ) :=
  match maxNorm ts with
  | .error e => .error e
  | .ok m => .ok [m]

/-- `_compute_torque_target_antiferro`, `_compute_torque_target_spiral`, energy.py 402-407. -/
noncomputable def targetCone (ts : List (V3 ℝ)) : Except PyErr (List ℝ) :=
  match maxNorm ts.dropLast with
  | .error e => .error e
  | .ok m => .ok [m, norm3 (ts.getLastD 0)]

/-! ### The three cases -/

/-- What `optimize` uses of a case, energy.py 1454-1523: size of the gradient, energy of a coordinate, gradient
and torques, update, torque targets. -/
structure Problem (X : Type) where
  /-- `self._gradient_size` -/
  size : ℕ
  /-- `energy(*_unpack(x))` -/
  energy : X → ℝ
  /-- `_grad(*_unpack(x))` -/
  grad : X → Arr × List (V3 ℝ)
  /-- `_update(x, search_direction, step)` -/
  update : X → Arr → ℝ → X
  /-- `_compute_torque_target(torques)` -/
  target : List (V3 ℝ) → Except PyErr (List ℝ)

/-- `case="ferro"`, energy.py 1454-1475.  The energy is `Energy.ferro` after its checks, which an array of the
right shape passes. -/
noncomputable def ferroProblem (E : EnergyObj ℝ) (muB : ℝ) (cell : ℕ → M3 ℝ) : Problem (List (V3 ℝ)) :=
  let size := 3 * E.spins.length
  let F := fun x => E.ferroUnit muB cell (x.map normalize)
  { size := size, energy := F, grad := gradFerro F, update := updateFerro size, target := targetFerro }

/-- `case="antiferro"`, energy.py 1476-1496. -/
noncomputable def antiferroProblem (E : EnergyObj ℝ) (muB : ℝ) (cell : ℕ → M3 ℝ) : Problem ConeX :=
  let size := 3 * E.spins.length + 3
  let F := fun x =>
    let u := unpackCone x
    E.antiferroUnit muB cell (u.1.map normalize) (normalize u.2.1) u.2.2
  { size := size, energy := F, grad := gradAntiferro size F, update := updateAntiferro size, target := targetCone }

/-- `case="spiral"`, energy.py 1497-1517. -/
noncomputable def spiralProblem (E : EnergyObj ℝ) (muB : ℝ) (cell : ℕ → M3 ℝ) : Problem ConeX :=
  let size := 3 * E.spins.length + 6
  let F := fun x =>
    let u := unpackCone x
    E.spiralUnit muB cell (u.1.map normalize) (normalize u.2.1) u.2.2
  let gq := fun x =>
    let u := unpackCone x
    E.spiralGradQ cell u.1 u.2.1 u.2.2
  { size := size, energy := F, grad := gradSpiral size F gq, update := updateSpiral size, target := targetCone }

/-! ### Search direction -/

/-- The memory of the L-BFGS update: rows of `_d_vec`, `_y_vec`, entries of `_rho`, `_gamma`. -/
structure Mem where
  /-- `self._d_vec` -/
  d : ℕ → Arr
  /-- `self._y_vec` -/
  y : ℕ → Arr
  /-- `self._rho` -/
  rho : Arr
  /-- `self._gamma` -/
  gamma : Arr

/-- All arrays filled with zeros, energy.py 1688-1691. -/
def Mem.zero : Mem := ⟨fun _ _ => 0, fun _ _ => 0, fun _ => 0, fun _ => 0⟩

/-- Python `range(a, b)`. -/
def pyRange (a b : ℤ) : List ℤ := (List.range (b - a).toNat).map fun (i : ℕ) => a + i

/-- `a[n] = v`. -/
def setAt {α : Type*} (a : ℕ → α) (n : ℕ) (v : α) : ℕ → α := fun i => if i = n then v else a i

/-- One turn of the first loop, energy.py 1708-1711. -/
def backward (size m n : ℕ) (mem : Mem) (gq : Arr × Arr) (l : ℤ) : Arr × Arr :=
  let j := ((l + n + 1) % m).toNat
  let g := mem.rho j * vdot size (mem.d j) gq.2
  (setAt gq.1 j g, gq.2 - g • mem.y j)

/-- One turn of the second loop, energy.py 1713-1720. -/
def forward (size m n k : ℕ) (mem : Mem) (s : Arr) (l : ℕ) : Arr :=
  let j := if k < m then l else (l + n + 1) % m
  s + (mem.gamma j - mem.rho j * vdot size (mem.y j) s) • mem.d j

/-- `_compute_search_direction`, energy.py 1638-1722: the index, the direction and the memory.  `prev` holds
`previous_lambda`, `previous_gradient_vector`, `previous_search_direction`.  A division by zero (`inf` in
numpy) gives zero here. -/
noncomputable def searchDirection (m size : ℕ) (mem : Mem) (k : ℕ) (g : Arr) (prev : Option (ℝ × Arr × Arr)) :
    Except PyErr (ℕ × Arr × Mem) :=
  if k ≠ 0 ∧ prev.isNone then .error .valueError
  else if m = 0 then .error .zeroDivision
  else if k = 0 then .ok (0, g, Mem.zero)
  else
    match prev with
    | none => .error .valueError
    | some (lam, gPrev, pPrev) =>
      let n := k % m
      let d := lam • pPrev
      let y := g - gPrev
      let rho := 1 / vdot size d y
      let mem1 : Mem := ⟨setAt mem.d n d, setAt mem.y n y, setAt mem.rho n rho, mem.gamma⟩
      if rho < 0 then .ok (0, g, Mem.zero)
      else
        let gq := (pyRange ((m : ℤ) - 1) (-1)).foldl (backward size m n mem1) (mem1.gamma, g)
        let mem2 : Mem := { mem1 with gamma := gq.1 }
        let s0 : Arr := fun i => gq.2 i / rho / vnorm size y
        .ok (k, (List.range m).foldl (forward size m n k mem2) s0, mem2)

/-! ### Line search -/

variable {X : Type}

/-- The negation of the condition of the loop, energy.py 1739-1743: the step is accepted. -/
def Accepts (P : Problem X) (c1 c2 : ℝ) (x : X) (p : Arr) (step : ℝ) : Prop :=
  ¬ (P.energy (P.update x p step) > P.energy x + c1 * step * vdot P.size (P.grad x).1 p ∨
    |vdot P.size (P.grad (P.update x p step)).1 p| > |c2 * vdot P.size (P.grad x).1 p|)

open Classical in
/-- The loop of `_lambda`, energy.py 1739-1769; `left` is `self._wolfe_iter_max + 1 - i`. -/
noncomputable def lineLoop (P : Problem X) (c1 c2 : ℝ) (x : X) (p : Arr) : ℕ → ℝ → Except PyErr ℝ
  | left, step =>
    if Accepts P c1 c2 x p step then .ok step
    else
      match left with
      | 0 => .error .valueError
      | left + 1 => lineLoop P c1 c2 x p left (step * (99 / 100))

/-- `_lambda`, energy.py 1727-1770. -/
noncomputable def lineSearch (P : Problem X) (c1 c2 : ℝ) (iterMax : ℕ) (x : X) (p : Arr) : Except PyErr ℝ :=
  lineLoop P c1 c2 x p (iterMax + 1) 1

/-! ### The main loop -/

/-- A record of the history: energy, torque targets, coordinate. -/
abbrev Record (X : Type) := ℝ × List ℝ × X

/-- The arguments of `optimize` used in the loop: `tolerance[0]`, `tolerance[1:]`, `max_iterations`, and
`history_step` if `save_history`. -/
structure Options where
  /-- `tolerance[0]` -/
  tolEnergy : ℝ
  /-- `tolerance[1:]` -/
  tolTorque : List ℝ
  /-- `max_iterations` -/
  maxIter : Option ℤ
  /-- `history_step`, `none` without `save_history` -/
  history : Option ℤ

/-- The local variables of `optimize`, the L-BFGS memory and the blocks written to the history. -/
structure OptState (X : Type) where
  /-- `k` -/
  k : ℕ
  /-- `iteration_counter` -/
  counter : ℕ
  /-- `step`, `previous_gradient_vector`, `previous_search_direction` -/
  prev : Option (ℝ × Arr × Arr)
  /-- `energy_prev` -/
  energyPrev : ℝ
  /-- the L-BFGS memory -/
  mem : Mem
  /-- `x` -/
  x : X
  /-- `energy_diff` -/
  energyDiff : ℝ
  /-- `torque_targets` -/
  targets : List ℝ
  /-- `history` -/
  pending : List (Record X)
  /-- the blocks given to the history processor so far -/
  written : List (List (Record X))

/-- `condition`, energy.py 1550-1553, 1600-1603. -/
def Running (o : Options) (s : OptState X) : Prop :=
  s.energyDiff > o.tolEnergy ∨ ∃ p ∈ s.targets.zip o.tolTorque, p.1 > p.2

/-- `max_iterations is not None and iteration_counter >= max_iterations`, energy.py 1562. -/
def AtLimit (o : Options) (s : OptState X) : Prop :=
  ∃ n, o.maxIter = some n ∧ n ≤ (s.counter : ℤ)

/-- The body of the loop after the check of the limit, energy.py 1570-1626.  The torque targets are those of
the torques computed before the update. -/
noncomputable def iterate (P : Problem X) (E : EnergyObj ℝ) (o : Options) (s : OptState X) : Except PyErr (OptState X) :=
  let g := P.grad s.x
  match searchDirection E.m.toNat P.size s.mem s.k g.1 s.prev with
  | .error e => .error e
  | .ok (k, p, mem) =>
    match lineSearch P E.wolfeC1 E.wolfeC2 E.wolfeIterMax s.x p with
    | .error e => .error e
    | .ok step =>
      let x := P.update s.x p step
      let current := P.energy x
      match P.target g.2 with
      | .error e => .error e
      | .ok targets =>
        let s' : OptState X :=
          { k := k + 1, counter := s.counter + 1, prev := some (step, g.1, p), energyPrev := current, mem := mem,
            x := x, energyDiff := |s.energyPrev - current|, targets := targets, pending := s.pending,
            written := s.written }
        match o.history with
        | none => .ok s'
        | some h =>
          let pending := s.pending ++ [(current, targets, x)]
          if h = 0 then .error .zeroDivision
          else if ((s.counter + 1 : ℕ) : ℤ) % h = 0 then
            .ok { s' with pending := [], written := s.written ++ [pending] }
          else .ok { s' with pending := pending }

/-- What `optimize` returns, and the blocks it wrote to the history. -/
structure Outcome (X : Type) where
  /-- the coordinate which is unpacked and returned -/
  x : X
  /-- the blocks of the history -/
  written : List (List (Record X))

open Classical in
/-- The loop of `optimize`, energy.py 1560-1633; `none` if it is not finished after `fuel` turns. -/
noncomputable def optLoop (P : Problem X) (E : EnergyObj ℝ) (o : Options) :
    ℕ → OptState X → Option (Except PyErr (Outcome X))
  | 0, _ => none
  | fuel + 1, s =>
    if Running o s then
      if AtLimit o s then some (.ok ⟨s.x, s.written⟩)
      else
        match iterate P E o s with
        | .error e => some (.error e)
        | .ok s' => optLoop P E o fuel s'
    else some (.ok ⟨s.x, match o.history with | none => s.written | some _ => s.written ++ [s.pending]⟩)

/-- The state before the loop, energy.py 1528-1558. -/
noncomputable def initial (P : Problem X) (o : Options) (x : X) : OptState X :=
  { k := 0, counter := 0, prev := none, energyPrev := P.energy x, mem := Mem.zero, x := x,
    energyDiff := o.tolEnergy * 2, targets := o.tolTorque.map fun a => 2 * a,
    pending := [(P.energy x, o.tolTorque.map fun a => 2 * a, x)], written := [] }

/-- `optimize` after the starting point and the tolerances, energy.py 1525-1633.  A negative size of the memory
makes `np.zeros` raise. -/
noncomputable def run (P : Problem X) (E : EnergyObj ℝ) (o : Options) (fuel : ℕ) (x : X) :
    Option (Except PyErr (Outcome X)) :=
  if E.m < 0 then some (.error .valueError) else optLoop P E o fuel (initial P o x)

/-- The tolerances, energy.py 1470-1475, 1491-1496, 1512-1517; `n` is the expected length. -/
noncomputable def tolerances (n : ℕ) : Option (List ℝ) → Except PyErr (ℝ × List ℝ)
  | none => .ok (1 / 100000, List.replicate (n - 1) (1 / 100000))
  | some [] => .error .valueError
  | some (t :: ts) => if (t :: ts).length = n then .ok (t, ts) else .error .valueError

/-- `optimize(case="ferro")`, energy.py 1335-1633. -/
noncomputable def optimizeFerro (E : EnergyObj ℝ) (muB : ℝ) (cell : ℕ → M3 ℝ) (rnd : Random)
    (guess : Option (Param.ArrayLike ℝ)) (tol : Option (List ℝ)) (maxIter history : Option ℤ) (fuel : ℕ) :
    Option (Except PyErr (Outcome (List (V3 ℝ)))) :=
  match startFerro E.spins.length rnd.spins guess with
  | .error e => some (.error e)
  | .ok x =>
    match tolerances 2 tol with
    | .error e => some (.error e)
    | .ok (t, ts) => run (ferroProblem E muB cell) E ⟨t, ts, maxIter, history⟩ fuel x

/-- `optimize(case="antiferro")`, energy.py 1335-1633. -/
noncomputable def optimizeAntiferro (E : EnergyObj ℝ) (muB : ℝ) (cell : ℕ → M3 ℝ) (rnd : Random)
    (q : Option (Param.ArrayLike ℝ)) (guess : Option (List (Option (Param.ArrayLike ℝ)))) (tol : Option (List ℝ))
    (maxIter history : Option ℤ) (fuel : ℕ) : Option (Except PyErr (Outcome ConeX)) :=
  match startAntiferro E.spins.length rnd q guess with
  | .error e => some (.error e)
  | .ok x =>
    match tolerances 3 tol with
    | .error e => some (.error e)
    | .ok (t, ts) => run (antiferroProblem E muB cell) E ⟨t, ts, maxIter, history⟩ fuel x

/-- `optimize(case="spiral")`, energy.py 1335-1633. -/
noncomputable def optimizeSpiral (E : EnergyObj ℝ) (muB : ℝ) (cell : ℕ → M3 ℝ) (rnd : Random)
    (guess : Option (List (Option (Param.ArrayLike ℝ)))) (tol : Option (List ℝ))
    (maxIter history : Option ℤ) (fuel : ℕ) : Option (Except PyErr (Outcome ConeX)) :=
  match startSpiral E.spins.length rnd guess with
  | .error e => some (.error e)
  | .ok x =>
    match tolerances 3 tol with
    | .error e => some (.error e)
    | .ok (t, ts) => run (spiralProblem E muB cell) E ⟨t, ts, maxIter, history⟩ fuel x

/-! ### Settings -/

/-- What can be assigned to a numeric setting: an integer, a float, or something which is not a number. -/
inductive Num where
  | int (n : ℤ)
  | float (x : ℝ)
  | other

/-- `int(x)`: truncation towards zero. -/
noncomputable def Num.toInt : Num → Except PyErr ℤ
  | .int n => .ok n
  | .float x => .ok (if 0 ≤ x then ⌊x⌋ else ⌈x⌉)
  | .other => .error .valueError

/-- `float(x)`. -/
def Num.toFloat : Num → Except PyErr ℝ
  | .int n => .ok n
  | .float x => .ok x
  | .other => .error .valueError

/-- An assignment to a property of `Energy`. -/
inductive Setting where
  | m (v : Num)
  | wolfeC1 (v : Num)
  | wolfeC2 (v : Num)
  | field (v : Option (Param.ArrayLike ℝ))
  | gFactors (v : List Num)
  | spins (v : List Num)

/-- The setters, energy.py 615-623, 647-655, 679-687, 706-721, 740-756, 772-786.  `isinstance(Iterable)` has one
argument too few, so the setters of `g_factors` and `spins` raise `TypeError` for every value. -/
noncomputable def assign (E : EnergyObj ℝ) : Setting → Res (EnergyObj ℝ)
  | .m v =>
    match v.toInt with
    | .error e => .raise E e
    | .ok n => .ok { E with m := n }
  | .wolfeC1 v =>
    match v.toFloat with
    | .error e => .raise E e
    | .ok x => .ok { E with wolfeC1 := x }
  | .wolfeC2 v =>
    match v.toFloat with
    | .error e => .raise E e
    | .ok x => .ok { E with wolfeC2 := x }
  | .field none => .ok { E with field := none }
  | .field (some a) =>
    match a.toV3 with
    | .error e => .raise E e
    | .ok h => .ok { E with field := some h }
  | .gFactors _ => .raise E .typeError
  | .spins _ => .raise E .typeError

/-- The getters of the same properties. -/
inductive Getter where
  | m | wolfeC1 | wolfeC2 | field | gFactors | spins
  deriving DecidableEq, Repr

/-- The value returned by a getter. -/
inductive Value where
  | int (n : ℤ)
  | float (x : ℝ)
  | field (h : Option (V3 ℝ))
  | list (l : List ℝ)

/-- The getters, energy.py 602-612, 626-644, 658-676, 694-703, 728-737, 760-769; `wolfe_c2` returns
`self._wolfe_c1` (line 676). -/
def read (E : EnergyObj ℝ) : Getter → Value
  | .m => .int E.m
  | .wolfeC1 => .float E.wolfeC1
  | .wolfeC2 => .float E.wolfeC1
  | .field => .field E.field
  | .gFactors => .list E.gFactors
  | .spins => .list E.spins

end Optimize
end Magnopy
