import Verif.Model.Minimize
import Verif.Model.TxtDump

/-!
# The text of the history  (src/magnopy/spinham/energy.py 415-529, 1520-1633)

Formatting of numbers without the width is a function of the library.  A file is the text in it.
-/

set_option autoImplicit false

namespace Magnopy.History

open Optimize Txt

/-- Formatting of floats without the width. -/
structure NumFmt (K : Type) where
  /-- `f"{x:.{digits}f}"` -/
  fixed : ℕ → K → Str
  /-- `f"{x:.{digits}e}"` -/
  sci : ℕ → K → Str

/-- What the three processors have in common: the titles after `Energy` and before the spins, the titles after the spins, and
the numbers of a coordinate in the order of the output. -/
structure Columns (X : Type) where
  /-- titles of the torques, energy.py 421, 450, 490 -/
  torques : List Str
  /-- titles of cone axis and spiral vector, energy.py 455-456, 495-496 -/
  rest : List Str
  /-- the groups of numbers of a coordinate which are joined, energy.py 436, 472-476, 516-520 -/
  groups : X → List (List ℝ)

/-- The numbers of the rows, `x.flatten()`. -/
def flat (rows : List (V3 ℝ)) : List ℝ := rows.flatMap fun v => [v 0, v 1, v 2]

/-- `_default_history_processor_ferro`, energy.py 415-442. -/
def ferroColumns : Columns (List (V3 ℝ)) where
  torques := [Str.lit "Torque"]
  rest := []
  groups x := [flat x]

/-- `_default_history_processor_antiferro` and `_default_history_processor_spiral`, energy.py 445-529. -/
def coneColumns : Columns ConeX where
  torques := [Str.lit "Torque", Str.lit "Torque_n"]
  rest := [Str.lit "n_x", Str.lit "n_y", Str.lit "n_z", Str.lit "q_x", Str.lit "q_y", Str.lit "q_z"]
  groups x := [flat x.1, [x.2 0, x.2 1, x.2 2]]

/-- `header`, energy.py 421-424, 450-456, 490-496. -/
def header {X : Type} (C : Columns X) (nspins : ℕ) : Str :=
  padL 15 (Str.lit "Energy") ++ C.torques.flatMap (fun t => ' ' :: padL 11 t) ++
    (List.range nspins).flatMap (fun i =>
      ' ' :: padL 11 ('S' :: Nat.toDigits 10 (i + 1) ++ Str.lit "_x") ++
      ' ' :: padL 11 ('S' :: Nat.toDigits 10 (i + 1) ++ Str.lit "_y") ++
      ' ' :: padL 11 ('S' :: Nat.toDigits 10 (i + 1) ++ Str.lit "_z")) ++
    C.rest.flatMap fun t => ' ' :: padL 11 t

/-- `f"{a:11.8f}"`. -/
def cell (F : NumFmt ℝ) (a : ℝ) : Str := padL 11 (F.fixed 8 a)

/-- One record of the history, energy.py 432-437, 464-477, 508-521. -/
def line {X : Type} (F : NumFmt ℝ) (C : Columns X) (r : Record X) : Str :=
  padL 15 (F.sci 8 r.1) ++ ' ' :: join (r.2.1.map (cell F)) ++
    (C.groups r.2.2).flatMap fun g => ' ' :: join (g.map (cell F))

/-- `"\n".join(history)`. -/
def joinLines : List Str → Str
  | [] => []
  | [l] => l
  | l :: ls => l ++ '\n' :: joinLines ls

/-- Where the history goes. -/
inductive Sink where
  /-- `filename is None`: `print` -/
  | screen
  /-- `open(filename, "a")` -/
  | file

/-- What a call with `history=None` adds, energy.py 425-429, 457-462, 497-502. -/
def writeHeader {X : Type} (C : Columns X) (s : Sink) (nspins : ℕ) : Str :=
  match s with
  | .screen => header C nspins ++ ['\n']
  | .file => header C nspins

/-- What a call with a history adds, energy.py 438-442, 478-482, 522-526. -/
def writeBlock {X : Type} (F : NumFmt ℝ) (C : Columns X) (s : Sink) (rs : List (Record X)) : Str :=
  match s with
  | .screen => joinLines (rs.map (line F C)) ++ ['\n']
  | .file => '\n' :: joinLines (rs.map (line F C))

/-- What a run of `optimize` which wrote the given blocks adds to the file or the screen: the header is written before the
loop, energy.py 1520-1522. -/
def runText {X : Type} (F : NumFmt ℝ) (C : Columns X) (s : Sink) (nspins : ℕ) (blocks : List (List (Record X))) : Str :=
  writeHeader C s nspins ++ blocks.flatMap (writeBlock F C s)

end Magnopy.History
