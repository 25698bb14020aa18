import Verif.Lemmas.MinimizeText
import Verif.Spec.DispersionText

/-!
# Lemmas about the text of the files of the dispersion script
-/

set_option autoImplicit false
set_option linter.unusedSectionVars false

namespace Magnopy.DispScript

open History Txt
open Minimize (Near8 comps OneWord split_cons oneWord_plain fixed_noBreak linesOf_one split_padL)
open MagnonObj (Entry)

variable {F : NumFmt ℝ} {float : Str → Option ℝ}

/-- Real numbers as elements of an array. -/
def reals (l : List ℝ) : List Entry := l.map fun x : ℝ => some (x : ℂ)

/-- The text of a row. -/
def rowLine (F : NumFmt ℝ) (x : ℝ) (en : List ℝ) (rel k : V3 ℝ) : Str :=
  F.fixed 8 x ++ (en.flatMap fun e => ' ' :: F.sci 8 e) ++
    (Str.lit "   " ++ (comps rel).flatMap fun e => ' ' :: F.fixed 8 e) ++
    (Str.lit "   " ++ (comps k).flatMap fun e => ' ' :: F.fixed 8 e)

theorem rowText_row (x : ℝ) (en : List ℝ) (rel k : V3 ℝ) :
    rowText F (row x (reals en) rel k) = rowLine F x en rel k := by
  have hl : (row x (reals en) rel k).length = en.length + 7 := by simp [row, reals, triple]
  have e1 : (row x (reals en) rel k).headD none = some (x : ℂ) := rfl
  have e2 : (row x (reals en) rel k).tail.take (en.length + 7 - 7) = reals en := by
    rw [Nat.add_sub_cancel]
    simp only [row, List.cons_append, List.tail_cons, List.append_assoc]
    rw [List.take_append_of_le_length (by simp [reals]), List.take_of_length_le (by simp [reals])]
  have e3 : (row x (reals en) rel k).drop (en.length + 7 - 6) = triple rel ++ triple k := by
    have : en.length + 7 - 6 = (some (x : ℂ) :: reals en).length := by simp [reals]
    rw [this]
    simp only [row, List.append_assoc]
    rw [List.drop_left]
  have e4 : (row x (reals en) rel k).drop (en.length + 7 - 3) = triple k := by
    have : en.length + 7 - 3 = (some (x : ℂ) :: reals en ++ triple rel).length := by simp [reals, triple]
    rw [this]
    simp only [row]
    rw [List.drop_left]
  rw [rowText, hl, e1, e2, e3, e4]
  have e5 : (triple rel ++ triple k).take 3 = triple rel := rfl
  rw [e5]
  simp only [rowLine, threeText, reals, List.flatMap_map, numText, Complex.ofReal_re]
  rfl

theorem split_more {s : Str} {ws : List Str} (hs : s.split = ws) (f : ℝ → Str) (hf : ∀ x, OneWord (f x)) (l : List ℝ) :
    Str.split (s ++ l.flatMap fun e => ' ' :: f e) = ws ++ l.map f := by
  induction l generalizing s ws with
  | nil => simpa using hs
  | cons x l ih =>
    have h1 : (s ++ ' ' :: f x).split = ws ++ [f x] := by rw [split_cons, hs, (hf x).split]
    have := ih h1
    simpa using this

theorem split_gap {s : Str} {ws : List Str} (hs : s.split = ws) : Str.split (s ++ Str.lit "   ") = ws := by
  rw [Str.split_post (by decide), hs]

theorem rowLine_split (hF : Reads F float) (x : ℝ) (en : List ℝ) (rel k : V3 ℝ) :
    (rowLine F x en rel k).split =
      [F.fixed 8 x] ++ en.map (F.sci 8) ++ (comps rel).map (F.fixed 8) ++ (comps k).map (F.fixed 8) := by
  have hf : ∀ x, OneWord (F.fixed 8 x) := fun x => oneWord_plain (hF.fixed 8 x).1
  have he : ∀ x, OneWord (F.sci 8 x) := fun x => oneWord_plain (hF.sci 8 x).1
  have h1 := split_more (hf x).split (F.sci 8) he en
  have h2 := split_more (split_gap h1) (F.fixed 8) hf (comps rel)
  have h3 := split_more (split_gap h2) (F.fixed 8) hf (comps k)
  simpa [rowLine] using h3

theorem rowLine_noBreak (hF : Reads F float) (x : ℝ) (en : List ℝ) (rel k : V3 ℝ) : '\n' ∉ rowLine F x en rel k := by
  have h1 := fixed_noBreak hF 8
  have h2 : ∀ x, '\n' ∉ F.sci 8 x := fun x => plain_noBreak (hF.sci 8 x).1
  have h3 : '\n' ∉ Str.lit "   " := by decide
  simp [rowLine, h1, h2, h3]

theorem mapM_near {f : ℝ → Str} {R : ℝ → ℝ → Prop} (hf : ∀ x, ∃ y, float (f x) = some y ∧ R y x) (l : List ℝ) :
    ∃ ys, (l.map f).mapM float = some ys ∧ List.Forall₂ R ys l := by
  induction l with
  | nil => exact ⟨[], rfl, .nil⟩
  | cons x l ih =>
    obtain ⟨ys, h1, h2⟩ := ih
    obtain ⟨y, h3, h4⟩ := hf x
    refine ⟨y :: ys, ?_, .cons h4 h2⟩
    rw [List.map_cons, List.mapM_cons, h3, h1]
    rfl

theorem rowLine_read (hF : Reads F float) (x : ℝ) (en : List ℝ) (rel k : V3 ℝ) :
    ∃ ys, (rowLine F x en rel k).split.mapM float = some ys ∧ RowRead ys x en rel k := by
  have hf := fun x => (hF.fixed 8 x).2
  have he := fun x => (hF.sci 8 x).2
  obtain ⟨y, h1, h2⟩ := hf x
  obtain ⟨es, h3, h4⟩ := mapM_near (R := NearE) he en
  obtain ⟨r, h5, h6⟩ := mapM_near (R := Near8) hf (comps rel)
  obtain ⟨a, h7, h8⟩ := mapM_near (R := Near8) hf (comps k)
  refine ⟨y :: es ++ r ++ a, ?_, y, es, r, a, rfl, h2, h4, h6, h8⟩
  rw [rowLine_split hF, List.mapM_append, List.mapM_append, List.mapM_append, h3, h5, h7]
  simp [h1]

/-- The data of a row. -/
structure RowData where
  /-- coordinate along the path -/
  x : ℝ
  /-- energies -/
  en : List ℝ
  /-- relative coordinates -/
  rel : V3 ℝ
  /-- absolute coordinates -/
  k : V3 ℝ

/-- The elements of the row. -/
def RowData.entries (d : RowData) : List Entry := row d.x (reals d.en) d.rel d.k

/-- The line of the row. -/
def RowData.line (F : NumFmt ℝ) (d : RowData) : Str := rowLine F d.x d.en d.rel d.k

theorem lines_table (hF : Reads F float) (l : List RowData) (b : Str) :
    Logo.linesOf ((l.flatMap fun d => d.line F ++ ['\n']) ++ b) = l.map (RowData.line F) ++ Logo.linesOf b := by
  induction l with
  | nil => rfl
  | cons d l ih =>
    have : ((d :: l).flatMap fun d => d.line F ++ ['\n']) ++ b =
        d.line F ++ '\n' :: ((l.flatMap fun d => d.line F ++ ['\n']) ++ b) := by simp
    rw [this, linesOf_break, ih, linesOf_one (l := d.line F) (rowLine_noBreak hF _ _ _ _)]
    rfl

theorem table_text (P : Parts) (l : List RowData) :
    fileText F P (.table none (l.map RowData.entries)) = l.flatMap fun d => d.line F ++ ['\n'] := by
  rw [fileText]
  simp only [List.nil_append, List.flatMap_map, RowData.entries, rowText_row]
  rfl

theorem read_table (hF : Reads F float) (P : Parts) (l : List RowData) :
    ∃ rows, readRows float (fileText F P (.table none (l.map RowData.entries))) = some rows ∧
      List.Forall₂ (fun ys (d : RowData) => RowRead ys d.x d.en d.rel d.k) rows l := by
  have h1 := lines_table hF l []
  rw [List.append_nil] at h1
  rw [table_text, readRows, h1, List.map_append, List.filter_append]
  have e1 : (((Logo.linesOf []).map Str.split).filter fun ws => decide (ws ≠ [])) = [] := rfl
  rw [e1, List.append_nil, List.map_map]
  have e2 : ((l.map (Str.split ∘ RowData.line F)).filter fun ws => decide (ws ≠ [])) = l.map (Str.split ∘ RowData.line F) := by
    rw [List.filter_eq_self]
    intro ws hw
    obtain ⟨d, -, rfl⟩ := List.mem_map.1 hw
    simp [RowData.line, rowLine_split hF]
  rw [e2]
  clear h1 e1 e2
  induction l with
  | nil => exact ⟨[], rfl, .nil⟩
  | cons d l ih =>
    obtain ⟨rows, h1, h2⟩ := ih
    obtain ⟨ys, h3, h4⟩ := rowLine_read hF d.x d.en d.rel d.k
    refine ⟨ys :: rows, ?_, .cons h4 h2⟩
    rw [List.map_cons, List.mapM_cons, h1]
    show (do let b ← (rowLine F d.x d.en d.rel d.k).split.mapM float; _) = _
    rw [h3]
    rfl

/-! ### The energies are real -/

theorem omegaOf_real {N : ℕ} (solve : MagnonObj.Mat N → Option ((Fin N ⊕ Fin N → ℂ) × MagnonObj.Mat N)) (junk h : MagnonObj.Mat N) :
    ∃ en, (MagnonObj.omegaOf solve junk false false false h).1 = reals en := by
  have key : ∀ l : List ℂ, ∃ en, ((l.map some).map MagnonObj.clean).map MagnonObj.realPart = reals en := by
    intro l
    refine ⟨l.map fun z => if ‖z‖ ≤ 1 / 10 ^ 8 then 0 else z.re, ?_⟩
    simp only [reals, List.map_map]
    apply List.map_congr_left
    intro z _
    by_cases hz : ‖z‖ ≤ 1 / 10 ^ 8 <;> simp only [Function.comp, MagnonObj.clean, MagnonObj.realPart, hz, if_true, if_false, Option.map_some, Complex.zero_re]
  have take : ∀ (n : ℕ) (en : List ℝ), (reals en).take n = reals (en.take n) := fun n en => by
    simp [reals, List.map_take]
  unfold MagnonObj.omegaOf
  cases MagnonObj.attempts solve h with
  | some p =>
    obtain ⟨en, he⟩ := key ((List.finRange N).map (fun i => p.1 (.inl i)) ++ (List.finRange N).map fun i => p.1 (.inr i))
    refine ⟨en.take N, ?_⟩
    rw [← take, ← he]
    simp [MagnonObj.listOf]
  | none =>
    obtain ⟨en, he⟩ := key (List.replicate N 0)
    refine ⟨en.take N, ?_⟩
    rw [← take, ← he]
    simp

end Magnopy.DispScript
