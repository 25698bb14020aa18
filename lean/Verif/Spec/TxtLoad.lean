import Verif.Spec.TxtUnits
import Mathlib.Algebra.Order.Ring.Abs
import Mathlib.LinearAlgebra.Matrix.Determinant.Basic

/-!
# Specification: which accepted files can be loaded
-/

set_option autoImplicit false

namespace Magnopy

open Txt

/-- `float` does not depend on the case of letters. -/
def Txt.Lib.Words {K : Type} (L : Lib K) : Prop := ∀ w, L.float (Str.lower w) = L.float w

/-- What is needed of length, sine and cosine.  (The Euclidean length is one such length.) -/
structure Txt.Lib.Norm {K : Type} [Field K] [LinearOrder K] (L : Lib K) : Prop where
  pos : ∀ v, v ≠ 0 → 0 < L.norm v
  le : ∀ v, L.norm v ≤ |v 0| + |v 1| + |v 2|
  circle : ∀ x, L.sin x * L.sin x + L.cos x * L.cos x = 1

/-- The columns of the atoms section which are read. -/
def readKeys : List Str :=
  ["r1", "r2", "r3", "x", "y", "z", "q", "g", "s", "sx", "sy", "sz", "sp", "st"].map Str.lit

/-- The lines of a section. -/
def SectionOf (lines : List Str) (found : PyDict Str (ℕ × ℕ)) (name : String) (sec : List Str) : Prop :=
  ∃ p, found.get? (Str.lit name) = some p ∧ sec = slice lines p

/-- What verification should check in addition. -/
structure Readable {K : Type} [Field K] [LinearOrder K] (L : Lib K) (lines : List Str) (found : PyDict Str (ℕ × ℕ)) :
    Prop where
  /-- A notation section is there if there are parameters. -/
  notation' : ∀ sec, SectionOf lines found "exchange" sec ∨ SectionOf lines found "on-site" sec →
    ∃ sec', SectionOf lines found "notation" sec'
  /-- The exchange is not in Joule. -/
  joule : ∀ sec, SectionOf lines found "exchange" sec → ¬ HeaderUnit (sec.headD []) .joule
  /-- No hyphen in a column which is read. -/
  hyphen : ∀ sec, SectionOf lines found "atoms" sec → ∀ l ∈ sec.drop 2, ∀ (i : ℕ) (k : Str),
    (sec.getD 1 []).lower.split[i]? = some k → k ∈ readKeys → l.split[i]? ≠ some ['-']
  /-- Names do not look like full names. -/
  names : ∀ sec, SectionOf lines found "atoms" sec → ∀ l ∈ sec.drop 2, ∀ w ∈ l.split, ¬ ['_', '_'] <:+: w
  /-- The cell has a volume. -/
  volume : ∀ sec, SectionOf lines found "cell" sec → ∀ cell scale, readCell L sec = .ok (cell, scale) → Matrix.det cell ≠ 0
  /-- The cone axis is not the zero vector. -/
  cone : ∀ sec, SectionOf lines found "cone-axis" sec → ∀ a b c, (sec.getD 1 []).split = [a, b, c] →
    ¬ (L.float a = some 0 ∧ L.float b = some 0 ∧ L.float c = some 0)

end Magnopy
