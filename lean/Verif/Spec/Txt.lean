import Verif.Model.Text

/-!
# Specification: lines, words and sections of a model file
-/

set_option autoImplicit false

namespace Magnopy

/-- Specification: `b` is the line `a` without the comment and without white space at both ends. -/
structure Content (a b : Str) : Prop where
  parts : ∃ before after comment : Str, a = before ++ b ++ after ++ comment ∧ (∀ c ∈ before, Str.isSpace c) ∧
    (∀ c ∈ after, Str.isSpace c) ∧ (comment = [] ∨ ∃ t, comment = '#' :: t)
  noHash : '#' ∉ b
  first : ∀ c t, b = c :: t → Str.isSpace c = false
  last : ∀ c t, b = t ++ [c] → Str.isSpace c = false

/-- A line of a filtered file: its own content, and not empty. -/
def Clean (l : Str) : Prop := Content l l ∧ l ≠ []

/-- A separator: ten symbols and anything after them. -/
def Separator (sym : Char) (l : Str) : Prop := ∃ t, l = List.replicate 10 sym ++ t

/-- A line that looks like a separator but is too short. -/
def TooShort (sym : Char) (l : Str) : Prop := ∃ n, n < 10 ∧ l = List.replicate n sym

/-- `w` is the first word of `l`. -/
structure FirstWord (l w : Str) : Prop where
  nonempty : w ≠ []
  noSpace : ∀ c ∈ w, Str.isSpace c = false
  rest : l = w ∨ ∃ c t, l = w ++ c :: t ∧ Str.isSpace c = true

/-- The lines `s`, …, `t - 1` are a section: a contiguous, non-empty block without separators, between two separators or
the ends of the file.  `before` tells which lines count as separators in front of it. -/
structure Block (sep before : Str → Prop) (lines : List Str) (s t : ℕ) : Prop where
  lt : s < t
  le : t ≤ lines.length
  inside : ∀ i, s ≤ i → i < t → ∀ l, lines[i]? = some l → ¬ sep l
  start : s = 0 ∨ ∃ l, lines[s - 1]? = some l ∧ before l
  stop : t = lines.length ∨ ∃ l, lines[t]? = some l ∧ sep l

end Magnopy
