import Verif.Model.TxtRead
import Verif.Spec.Txt

/-!
# Specification: units in a model file
-/

set_option autoImplicit false

namespace Magnopy

open Txt

/-- Units of energy which a file may use. -/
inductive EnergyUnit where
  | milliElectronVolt | electronVolt | joule | kelvin | rydberg
  deriving DecidableEq

namespace EnergyUnit

/-- First letter of the name in the file. -/
def letter : EnergyUnit → Char
  | milliElectronVolt => 'm'
  | electronVolt => 'e'
  | joule => 'j'
  | kelvin => 'k'
  | rydberg => 'r'

/-- The value in milli-electron-Volt: 1 eV = 1000 meV, 1 J = 1 / (1.602176634e-22) meV,
1 K = 1.380649e-23 / 1.602176634e-22 meV, 1 Ry = 6.62607015e-34 * 299792458 * 10973731.568160 / 1.602176634e-22 meV. -/
def inMeV {K : Type} [Field K] : EnergyUnit → K
  | milliElectronVolt => 1
  | electronVolt => 1000
  | joule => 10 ^ 31 / 1602176634
  | kelvin => 138064900 / 1602176634
  | rydberg => 662607015 * 299792458 * 10973731568160 / (1602176634 * 10 ^ 17)

end EnergyUnit

/-- The second word of the section header names the unit; no second word means meV. -/
def HeaderUnit (line : Str) (u : EnergyUnit) : Prop :=
  (∃ w v t more, line.split = w :: v :: more ∧ v.lower = u.letter :: t) ∨ ((∃ w, line.split = [w]) ∧ u = .milliElectronVolt)

/-- The words are numbers, those of the second list are `c` times those of the first. -/
def Scaled {K : Type} [Field K] (L : Lib K) (c : K) (ws ws' : List Str) : Prop :=
  List.Forall₂ (fun w w' => ∃ x, L.float w = some x ∧ L.float w' = some (c * x)) ws ws'

/-- Two bodies of an on-site section: the same separators and atoms, the values of the second are `c` times those of the
first. -/
inductive SitesScaled {K : Type} [Field K] (L : Lib K) (c : K) : List Str → List Str → Prop
  | nil : SitesScaled L c [] []
  | sep {l : Str} {ls ls' : List Str} : Separator '-' l → SitesScaled L c ls ls' → SitesScaled L c (l :: ls) (l :: ls')
  | site {l v v' : Str} {ls ls' : List Str} : ¬ Separator '-' l → v.split.length = 6 → Scaled L c v.split v'.split →
      SitesScaled L c ls ls' → SitesScaled L c (l :: v :: ls) (l :: v' :: ls')

/-- Two atom lines under the same data header: the second one has its absolute coordinates (columns `x`, `y`, `z`)
multiplied by `c`, all other words are the same. -/
structure AtomScaled {K : Type} [Field K] (L : Lib K) (c : K) (hdr : List Str) (l l' : Str) : Prop where
  length : l.split.length = l'.split.length
  coord : ∀ (i : ℕ) k, hdr[i]? = some k → (k = ['x'] ∨ k = ['y'] ∨ k = ['z']) → ∀ w w', l.split[i]? = some w → l'.split[i]? = some w' →
    ∃ x, L.float w = some x ∧ L.float w' = some (c * x)
  other : ∀ (i : ℕ) k, hdr[i]? = some k → ¬ (k = ['x'] ∨ k = ['y'] ∨ k = ['z']) → l.split[i]? = l'.split[i]?

end Magnopy
