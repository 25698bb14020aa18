import Verif.Spec.HistoryText
import Verif.Lemmas.TxtWords
import Verif.Lemmas.TxtDump
import Verif.Lemmas.Logo
import Verif.Lemmas.Optimize
import Verif.Lemmas.OptStart

/-!
# Helper lemmas: the text of the history
-/

set_option autoImplicit false
set_option linter.unusedSectionVars false

namespace Magnopy.History

open Optimize Txt

variable {X : Type}

/-! ### Lines -/

theorem plain_noBreak {w : Str} (h : Plain w) : '\n' ∉ w := fun hm => by
  have := h.space _ hm
  revert this
  decide

theorem padL_noBreak {w : Str} (n : ℕ) (h : '\n' ∉ w) : '\n' ∉ padL n w := by
  rw [padL, List.mem_append]
  rintro (h' | h')
  · have := List.eq_of_mem_replicate h'
    revert this; decide
  · exact h h'

theorem join_noBreak {ws : List Str} (h : ∀ w ∈ ws, '\n' ∉ w) : '\n' ∉ join ws := by
  induction ws with
  | nil => simp [join]
  | cons w ws ih =>
    cases ws with
    | nil => exact h w (by simp)
    | cons a as =>
      rw [join_cons (by simp), List.mem_append, List.mem_cons]
      rintro (h' | h' | h')
      · exact h w (by simp) h'
      · revert h'; decide
      · exact ih (fun w hw => h w (by simp [hw])) h'

theorem joinLines_eq (ls : List Str) : joinLines ls = List.intercalate ['\n'] ls := by
  induction ls with
  | nil => rfl
  | cons l ls ih =>
    cases ls with
    | nil => simp [joinLines, List.intercalate]
    | cons a as =>
      rw [joinLines, ih]
      · simp [List.intercalate, List.intersperse]
      · simp

/-- The lines of a block: a block without records is an empty line. -/
def blockLines (ls : List Str) : List Str := if ls = [] then [[]] else ls

theorem linesOf_joinLines {ls : List Str} (h : ∀ l ∈ ls, '\n' ∉ l) : Logo.linesOf (joinLines ls) = blockLines ls := by
  rw [blockLines]
  split
  · rename_i e; subst e; rfl
  · rename_i e
    rw [joinLines_eq, Logo.linesOf_join e h]

theorem linesOf_ne (a : Str) : Logo.linesOf a ≠ [] := by
  induction a with
  | nil => simp [Logo.linesOf]
  | cons c a ih =>
    rw [Logo.linesOf]
    split
    · simp
    · cases h : Logo.linesOf a with
      | nil => exact absurd h ih
      | cons l ls => simp

theorem linesOf_break (a b : Str) : Logo.linesOf (a ++ '\n' :: b) = Logo.linesOf a ++ Logo.linesOf b := by
  induction a with
  | nil => simp [Logo.linesOf]
  | cons c a ih =>
    rw [List.cons_append, Logo.linesOf, Logo.linesOf]
    split
    · rw [ih]; rfl
    · rw [ih]
      cases h : Logo.linesOf a with
      | nil => exact absurd h (linesOf_ne a)
      | cons l ls => rfl

/-! ### Words -/

/-- Titles after the first one. -/
def tail11 (ts : List Str) : Str := ts.flatMap fun t => ' ' :: padL 11 t

theorem spaced_tail {s : Str} {ws ts : List Str} (h : Spaced s ws) (ht : ∀ t ∈ ts, Plain t) :
    Spaced (s ++ tail11 ts) (ws ++ ts) := by
  induction ts generalizing s ws with
  | nil => simpa [tail11] using h
  | cons t ts ih =>
    have h1 : Spaced (s ++ ' ' :: padL 11 t) (ws ++ [t]) := spaced_append h (spaced_padL 11 (ht t (by simp)))
    have h2 := ih h1 fun u hu => ht u (by simp [hu])
    simpa [tail11] using h2

theorem spaced_groups (F : NumFmt ℝ) (hF : ∀ x, Plain (F.fixed 8 x)) {s : Str} {ws : List Str} (h : Spaced s ws)
    (gs : List (List ℝ)) :
    Spaced (s ++ gs.flatMap fun g => ' ' :: join (g.map (cell F))) (ws ++ gs.flatten.map (F.fixed 8)) := by
  induction gs generalizing s ws with
  | nil => simpa using h
  | cons g gs ih =>
    have h0 : Spaced (join (g.map (cell F))) (g.map (F.fixed 8)) := by
      apply spaced_join
      rw [List.forall₂_map_left_iff, List.forall₂_map_right_iff]
      exact List.forall₂_same.2 fun x _ => spaced_padL 11 (hF x)
    have h2 := ih (spaced_append h h0)
    simpa using h2

theorem spaced_line (F : NumFmt ℝ) (hF : ∀ x, Plain (F.fixed 8 x)) (hs : ∀ x, Plain (F.sci 8 x)) (C : Columns X)
    (r : Record X) :
    Spaced (line F C r) (F.sci 8 r.1 :: (r.2.1 ++ (C.groups r.2.2).flatten).map (F.fixed 8)) := by
  have h1 := spaced_groups F hF (spaced_padL 15 (hs r.1)) (r.2.1 :: C.groups r.2.2)
  simpa [line] using h1

theorem line_noBreak (F : NumFmt ℝ) (hF : ∀ x, Plain (F.fixed 8 x)) (hs : ∀ x, Plain (F.sci 8 x)) (C : Columns X)
    (r : Record X) : '\n' ∉ line F C r := by
  have h1 : ∀ g : List ℝ, '\n' ∉ join (g.map (cell F)) := fun g => join_noBreak fun w hw => by
    obtain ⟨x, -, rfl⟩ := List.mem_map.1 hw
    exact padL_noBreak 11 (plain_noBreak (hF x))
  simp only [line, List.mem_append, List.mem_cons, List.mem_flatMap, not_or, not_exists, not_and]
  refine ⟨⟨padL_noBreak 15 (plain_noBreak (hs _)), by decide, h1 _⟩, fun g _ => ⟨by decide, h1 g⟩⟩

theorem digits_plain (n : ℕ) {a b : Str} (ha : ∀ c ∈ a, Str.isSpace c = false ∧ c ≠ '#')
    (hb : ∀ c ∈ b, Str.isSpace c = false ∧ c ≠ '#') (h0 : a ≠ []) : Plain (a ++ Nat.toDigits 10 n ++ b) := by
  have hd : ∀ c ∈ Nat.toDigits 10 n, Str.isSpace c = false ∧ c ≠ '#' := fun c hc =>
    have := digit_facts (Nat.isDigit_of_mem_toDigits (by decide) (by decide) hc)
    ⟨this.1, this.2.1⟩
  have h : ∀ c ∈ a ++ Nat.toDigits 10 n ++ b, Str.isSpace c = false ∧ c ≠ '#' := by
    intro c hc
    rcases List.mem_append.1 hc with hc | hc
    · rcases List.mem_append.1 hc with hc | hc
      · exact ha c hc
      · exact hd c hc
    · exact hb c hc
  exact ⟨by simp [h0], fun c hc => (h c hc).1, fun hc => (h _ hc).2 rfl⟩

theorem spinTitle_plain (i : ℕ) (c : Fin 3) : Plain (spinTitle i c) := by
  have := digits_plain (i + 1) (a := ['S']) (b := ['_', ![ 'x', 'y', 'z'] c]) (by decide) (by revert c; decide) (by simp)
  simpa [spinTitle] using this

theorem spinTitles_plain (n : ℕ) : ∀ t ∈ spinTitles n, Plain t := by
  intro t ht
  obtain ⟨i, -, h⟩ := List.mem_flatMap.1 ht
  simp only [List.mem_cons, List.not_mem_nil, or_false] at h
  rcases h with rfl | rfl | rfl <;> exact spinTitle_plain _ _

theorem header_eq (C : Columns X) (n : ℕ) :
    header C n = padL 15 (Str.lit "Energy") ++ tail11 (C.torques ++ spinTitles n ++ C.rest) := by
  simp [header, tail11, spinTitles, spinTitle, List.flatMap_assoc, Str.lit]

/-- The titles which a processor writes. -/
def titles (C : Columns X) (n : ℕ) : List Str := Str.lit "Energy" :: (C.torques ++ spinTitles n ++ C.rest)

/-- The titles of a processor are words. -/
structure Columns.Good (C : Columns X) : Prop where
  torques : ∀ t ∈ C.torques, Plain t
  rest : ∀ t ∈ C.rest, Plain t

theorem plain_of {w : Str} (h : w ≠ [] ∧ w.all (fun c => !Str.isSpace c && c != '#') = true) : Plain w := by
  have h2 := List.all_eq_true.1 h.2
  refine ⟨h.1, fun c hc => ?_, fun hc => ?_⟩
  · have := h2 c hc
    simp at this
    exact this.1
  · have := h2 _ hc
    simp at this

theorem spaced_header {C : Columns X} (hC : C.Good) (n : ℕ) : Spaced (header C n) (titles C n) := by
  rw [header_eq]
  refine spaced_tail (spaced_padL 15 (plain_of (by decide))) ?_
  intro t ht
  simp only [List.mem_append] at ht
  rcases ht with (h | h) | h
  · exact hC.torques t h
  · exact spinTitles_plain n t h
  · exact hC.rest t h

theorem header_noBreak {C : Columns X} (hC : C.Good) (n : ℕ) : '\n' ∉ header C n := by
  rw [header_eq, tail11]
  simp only [List.mem_append, List.mem_flatMap, List.mem_cons, not_or, not_exists, not_and]
  refine ⟨padL_noBreak 15 (by decide), fun t ht => ⟨by decide, padL_noBreak 11 (plain_noBreak ?_)⟩⟩
  rcases ht with (h | h) | h
  · exact hC.torques t h
  · exact spinTitles_plain n t h
  · exact hC.rest t h

theorem ferro_good : ferroColumns.Good :=
  ⟨fun t ht => plain_of (by revert t; decide), fun t ht => by simp [ferroColumns] at ht⟩

theorem cone_good : coneColumns.Good :=
  ⟨fun t ht => plain_of (by revert t; decide), fun t ht => plain_of (by revert t; decide)⟩

theorem ferro_titles (n : ℕ) : titles ferroColumns n = ferroTitles n := by simp [titles, ferroTitles, ferroColumns]

theorem cone_titles (n : ℕ) : titles coneColumns n = coneTitles n := by
  simp [titles, coneTitles, coneColumns, vectorTitle, Str.lit]

end Magnopy.History
