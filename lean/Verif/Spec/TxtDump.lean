import Verif.Model.TxtDump
import Verif.Spec.Hdf5
import Mathlib.Algebra.Order.Ring.Abs

/-!
# Specification: writing a model file and reading it back
-/

set_option autoImplicit false

namespace Magnopy
namespace Txt

open H5 (Full)

variable {K : Type} [Field K] [LinearOrder K]

/-- A word: not empty, without white space and without `#`. -/
structure Plain (w : Str) : Prop where
  ne : w ≠ []
  space : ∀ c ∈ w, Str.isSpace c = false
  hash : '#' ∉ w

/-- `a` and `b` differ by at most `n` halves of the last of `d` digits. -/
def Close (n d : ℕ) (a b : K) : Prop := |a - b| * (2 * 10 ^ d) ≤ n

/-- What is needed of formatting and parsing: a fixed-point number is an optional minus, a digit, and then digits and points;
it is read as the value rounded to the given number of digits; integers are read as they are; the logo is a comment. -/
structure Prints (F : Fmt K) (L : Lib K) : Prop where
  shape : ∀ d x, ∃ c t, (F.fixed d x = c :: t ∨ F.fixed d x = '-' :: c :: t) ∧ c.isDigit = true ∧
    ∀ a ∈ t, a.isDigit = true ∨ a = '.'
  value : ∀ d x, ∃ y, L.float (F.fixed d x) = some y ∧ Close 1 d y x
  int : ∀ i, Plain (F.int i) ∧ L.int (F.int i) = some i
  repr : ∀ x, Plain (F.repr x)
  logo : ∀ l ∈ F.logo, ∃ t, l = '#' :: t
  equals : L.alnum '=' = false
  minus : L.alnum '-' = false

/-- The length is the Euclidean length. -/
structure Lib.Euclid (L : Lib K) : Prop where
  nonneg : ∀ v, 0 ≤ L.norm v
  square : ∀ v, L.norm v * L.norm v = v 0 * v 0 + v 1 * v 1 + v 2 * v 2

/-- The Hamiltonians which the text format can hold, except for spins: storable, with at least one atom; names are words that
begin with a letter or a digit; no bond of a site with itself; symmetric on-site matrices; the factors are numbers which are
printed exactly. -/
structure Printable (F : Fmt K) (L : Lib K) (x : Full K) : Prop where
  kept : H5.Kept x
  atoms : x.ham.atoms ≠ []
  words : ∀ a ∈ x.ham.atoms, Plain a.name.toList
  letter : ∀ a ∈ x.ham.atoms, ∀ c t, a.name.toList = c :: t → L.alnum c = true
  noSelf : ∀ b ∈ x.ham.exch.keys, ¬ (b.1 = b.2.1 ∧ b.2.2 = (0, 0, 0))
  symmetric : ∀ a m, x.ham.valO a = some m → m.transpose = m
  ef : ∀ e, x.ham.ef = some e → L.float (F.repr e) = some e
  osf : ∀ e, x.ham.osf = some e → L.float (F.repr e) = some e

/-- The Hamiltonians which the text format can hold: all atoms have spins. -/
structure Writable (F : Fmt K) (L : Lib K) (x : Full K) : Prop extends Printable F L x where
  spins : ∀ a ∈ x.ham.atoms, (x.spinVec a).isSome

/-- The options give the whole matrix. -/
def Opts.Complete (o : Opts) : Prop := o.matrix = true ∨ (o.iso = true ∧ o.dmi = true ∧ o.symm = true)

/-- Halves of the last digit by which an exchange matrix may differ: one if only the matrix is written, three if it is put
together from parts. -/
def Opts.halves (o : Opts) : ℕ := if o.iso || o.dmi || o.symm then 3 else 1

/-- Two optional values are both missing or both there and related. -/
def Both {α β : Type} (r : α → β → Prop) (a : Option α) (b : Option β) : Prop :=
  match a, b with
  | none, none => True
  | some a, some b => r a b
  | _, _ => False

/-- The loaded Hamiltonian is the written one up to the printed precision: the same atoms in the same order, the same bonds, the
same on-site terms, the same notation (as far as there are parameters), and cell, positions, spins, parameters and cone axis up to
rounding. -/
structure Near (n : ℕ) (x : Full K) (y : Loaded K) : Prop where
  cell : ∀ i j, Close 1 8 (y.cell i j) (x.cell i j)
  names : y.ham.atoms.map Atom.name = x.ham.atoms.map Atom.name
  data : ∀ a ∈ x.ham.atoms, ∀ a' ∈ y.ham.atoms, a'.name = a.name → ∃ d v, dataOf y.data a' = some d ∧
    x.spinVec a = some v ∧ d.name = a.name.toList ∧ (∀ i, Close 1 8 (d.pos i) (x.pos a i)) ∧ ∀ i, Close 1 4 (d.spin i) (v i)
  refer : y.ham.Refer
  exchange : ∀ a ∈ x.ham.atoms, ∀ b ∈ x.ham.atoms, ∀ a' ∈ y.ham.atoms, ∀ b' ∈ y.ham.atoms, a'.name = a.name →
    b'.name = b.name → ∀ R, Both (fun m' m => ∀ i j, Close n 4 (m' i j) (m i j)) (y.ham.valE (a', b', R)) (x.ham.valE (a, b, R))
  onSite : ∀ a ∈ x.ham.atoms, ∀ a' ∈ y.ham.atoms, a'.name = a.name →
    Both (fun m' m => ∀ i j, Close 1 4 (m' i j) (m i j)) (y.ham.valO a') (x.ham.valO a)
  sn : x.ham.exch ≠ [] ∨ x.ham.onSite ≠ [] → y.ham.sn = x.ham.sn
  dc : x.ham.exch ≠ [] → y.ham.dc = x.ham.dc
  ef : x.ham.exch ≠ [] → y.ham.ef = x.ham.ef
  osf : x.ham.onSite ≠ [] → y.ham.osf = x.ham.osf
  cone : Both (fun v' v => ∀ i, Close 3 8 (v' i) (v i)) y.cone x.cone

end Txt
end Magnopy
