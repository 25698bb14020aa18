import Verif.Model.Logo

/-!
# Specification: the layout of the logo
-/

set_option autoImplicit false

namespace Magnopy
namespace Logo

/-- A line with the text `x` and spaces around it. -/
def Shows (line x : Str) : Prop := ∃ a b, line = List.replicate a ' ' ++ x ++ List.replicate b ' '

/-- A line with a text on the left and a row of the picture (12 characters wide) on the right, if there is one. -/
def Row (line left : Str) (right : Option Str) : Prop :=
  ∃ a b l r, line = List.replicate a ' ' ++ l ++ r ++ List.replicate b ' ' ∧ Shows l left ∧
    match right with
    | some c => Shows r c ∧ r.length = 12
    | none => r = []

/-- The lines of a text. -/
def linesOf : Str → List Str
  | [] => [[]]
  | c :: t =>
    if c = '\n' then [] :: linesOf t
    else match linesOf t with
      | [] => [[c]]
      | l :: ls => (c :: l) :: ls

/-- The title. -/
def title (flat : Bool) : List Str := if flat then plain else bold

/-- The width of the title. -/
def titleWidth (flat : Bool) : ℕ := if flat then 69 else 70

/-- The texts stand in the given order in lines that follow each other. -/
def InOrder (p : Str) (L info : List Str) : Prop :=
  ∃ start : ℕ, ∀ j x, info[j]? = some x → ∃ line right, L[start + j]? = some (p ++ line) ∧ Row line x right

/-- What the documentation of `comment` promises to put in front of every line. -/
def Asked : Comment → Str
  | .none => []
  | .bool true => Str.lit "# "
  | .bool false => []
  | .str s => s

end Logo
end Magnopy
