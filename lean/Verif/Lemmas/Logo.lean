import Verif.Spec.Logo
import Mathlib.Tactic.Ring
import Mathlib.Tactic.Linarith
import Mathlib.Tactic.IntervalCases

/-!
# The rows of the logo
-/

set_option autoImplicit false

namespace Magnopy
namespace Logo

theorem cat_length : cat.length = 7 := by decide

theorem cat_rows {i : ℕ} (h : i < 7) : ∃ c, cat[i]? = some c ∧ c.length = 10 ∧ '\n' ∉ c := by
  have : ∀ i < 7, ∃ c, cat[i]? = some c ∧ c.length = 10 ∧ '\n' ∉ c := by
    intro i h
    interval_cases i <;> exact ⟨_, rfl, by decide, by decide⟩
  exact this i h

theorem title_rows (flat : Bool) : ∀ x ∈ title flat, x.length = titleWidth flat ∧ '\n' ∉ x := by
  cases flat <;> decide +kernel

theorem center_length {w : ℕ} {x : Str} (h : x.length ≤ w) : (center w x).length = w := by
  simp only [center, List.length_append, List.length_replicate]
  omega

theorem center_shows (w : ℕ) (x : Str) : Shows (center w x) x := ⟨_, _, rfl⟩

theorem center_no_newline {w : ℕ} {x : Str} (h : '\n' ∉ x) : '\n' ∉ center w x := by
  simp only [center, List.mem_append, List.mem_replicate, not_or]
  exact ⟨⟨fun h => absurd h.2 (by decide), h⟩, fun h => absurd h.2 (by decide)⟩

theorem Row.center {x left : Str} {right : Option Str} (w : ℕ) (h : Row x left right) : Row (center w x) left right := by
  obtain ⟨a, b, l, r, e, h1, h2⟩ := h
  refine ⟨(w - x.length) / 2 + a, b + (w - x.length - (w - x.length) / 2), l, r, ?_, h1, h2⟩
  unfold Logo.center
  generalize (w - x.length) / 2 = p
  generalize w - x.length - p = q
  rw [e]
  simp only [List.replicate_add, List.append_assoc]

theorem index_nat {l : List Str} {i : ℕ} {x : Str} (h : l[i]? = some x) : index l i = .ok x := by
  simp [index, h]

theorem index_sub {l : List Str} {i b : ℕ} (hb : b ≤ i) {x : Str} (h : l[i - b]? = some x) : index l ((i : ℤ) - b) = .ok x := by
  rw [show (i : ℤ) - b = ((i - b : ℕ) : ℤ) by omega]
  exact index_nat h

theorem index_neg {l : List Str} {i b : ℕ} (hb : i < b) (hl : b ≤ l.length) {x : Str} (h : l[l.length + i - b]? = some x) :
    index l ((i : ℤ) - b) = .ok x := by
  have h1 : ¬ (0 : ℤ) ≤ (i : ℤ) - b := by omega
  have h2 : -(l.length : ℤ) ≤ (i : ℤ) - b := by omega
  have h3 : ((l.length : ℤ) + ((i : ℤ) - b)).toNat = l.length + i - b := by omega
  simp only [index, h1, h2, if_true, if_false, h3, h]

/-- Python's index in a list of texts, seen as counting around. -/
theorem index_mod {l : List Str} {i b : ℕ} (hi : i < l.length) (hb : b ≤ l.length) :
    ∃ x, l[(i + (l.length - b)) % l.length]? = some x ∧ index l ((i : ℤ) - b) = .ok x := by
  have hm : (i + (l.length - b)) % l.length < l.length := Nat.mod_lt _ (by omega)
  refine ⟨l[(i + (l.length - b)) % l.length], List.getElem?_eq_getElem hm, ?_⟩
  by_cases h : b ≤ i
  · refine index_sub h ?_
    rw [List.getElem?_eq_getElem (by omega : i - b < l.length)]
    congr 2
    rw [show i + (l.length - b) = (i - b) + l.length by omega, Nat.add_mod_right, Nat.mod_eq_of_lt (by omega)]
  · refine index_neg (by omega) hb ?_
    rw [List.getElem?_eq_getElem (by omega : l.length + i - b < l.length)]
    congr 2
    rw [Nat.mod_eq_of_lt (by omega)]
    omega

theorem mapM_ok {α β : Type} (f : α → Except PyErr β) (P : ℕ → β → Prop) (l : List α)
    (h : ∀ i x, l[i]? = some x → ∃ y, f x = .ok y ∧ P i y) : ∃ L, l.mapM f = .ok L ∧ L.length = l.length ∧
      ∀ i y, L[i]? = some y → P i y := by
  induction l generalizing P with
  | nil => exact ⟨[], rfl, rfl, by simp⟩
  | cons x l ih =>
    obtain ⟨y, e1, p1⟩ := h 0 x rfl
    obtain ⟨L, e2, e3, e4⟩ := ih (fun i => P (i + 1)) fun i x hx => h (i + 1) x hx
    refine ⟨y :: L, ?_, by simp [e3], ?_⟩
    · rw [List.mapM_cons, e1, e2]; rfl
    · intro i z hz
      cases i with
      | zero => simp at hz; exact hz ▸ p1
      | succ i => exact e4 i z (by simpa using hz)

/-- A row of the block, before it is widened. -/
def Good (N : ℕ) (line left : Str) (right : Option Str) : Prop :=
  Row line left right ∧ (left.length ≤ N - 12 → right ≠ none → line.length = N - 12 + 12) ∧
    (left.length ≤ N - 12 → right = none → line.length = N - 12) ∧ ('\n' ∉ left → '\n' ∉ line)

theorem good_both (N : ℕ) (x : Str) {c : Str} (hc : c.length = 10) (hn : '\n' ∉ c) :
    Good N (center (N - 12) x ++ center 12 c) x (some c) := by
  refine ⟨⟨0, 0, _, _, by simp only [List.replicate_zero, List.nil_append, List.append_nil]; rfl, center_shows _ _, center_shows _ _,
    center_length (by omega)⟩, fun h _ => ?_, fun _ h => by simp at h, fun h => ?_⟩
  · rw [List.length_append, center_length h, center_length (by omega)]
  · rw [List.mem_append, not_or]
    exact ⟨center_no_newline h, center_no_newline hn⟩

theorem good_blank (N : ℕ) {c : Str} (hc : c.length = 10) (hn : '\n' ∉ c) :
    Good N (List.replicate (N - 12) ' ' ++ center 12 c) [] (some c) := by
  refine ⟨⟨0, 0, List.replicate (N - 12) ' ', center 12 c, by simp only [List.replicate_zero, List.nil_append, List.append_nil],
    ⟨N - 12, 0, by simp⟩, center_shows _ _, center_length (by omega)⟩, fun h _ => ?_, fun _ h => by simp at h, fun h => ?_⟩
  · rw [List.length_append, List.length_replicate, center_length (by omega)]
  · rw [List.mem_append, not_or]
    exact ⟨fun h => absurd (List.mem_replicate.1 h).2 (by decide), center_no_newline hn⟩

theorem good_left (N : ℕ) (x : Str) : Good N (center (N - 12) x) x none :=
  ⟨⟨0, 0, _, [], by simp only [List.replicate_zero, List.nil_append, List.append_nil]; rfl, center_shows _ _, rfl⟩,
    fun _ h => by simp at h, fun h _ => center_length h, center_no_newline⟩

/-- Few texts beside the picture. -/
theorem rows_few (N : ℕ) {info : List Str} (h : info.length ≤ 7) : ∃ L, rows N 12 info = .ok L ∧ L.length = 7 ∧
    ∀ i line, L[i]? = some line → Good N line (if (8 - info.length) / 2 ≤ i then (info[i - (8 - info.length) / 2]?).getD [] else [])
      cat[i]? := by
  have hc := cat_length
  unfold rows
  rw [if_pos (by rw [hc]; exact h)]
  simp only [hc]
  have hb : (7 - info.length) / 2 + (7 - info.length) % 2 = (8 - info.length) / 2 := by omega
  rw [hb]
  obtain ⟨L, e1, e2, e3⟩ := mapM_ok (l := List.range 7) (fun i => (do
      if i < (8 - info.length) / 2 ∨ i ≥ 7 - (7 - info.length - (8 - info.length) / 2) then
        return List.replicate (N - 12) ' ' ++ center 12 (← index cat i)
      else
        return center (N - 12) (← index info ((i : ℤ) - ((8 - info.length) / 2 : ℕ))) ++ center 12 (← index cat i) : Except PyErr Str))
    (fun i line => Good N line (if (8 - info.length) / 2 ≤ i then (info[i - (8 - info.length) / 2]?).getD [] else [])
      cat[i]?) (by
    intro i x hx
    have hi : i < 7 := by
      by_contra hcon
      rw [List.getElem?_eq_none (by simp; omega)] at hx
      simp at hx
    rw [List.getElem?_range hi] at hx
    obtain rfl : i = x := by simpa using hx
    obtain ⟨c, hc1, hc2, hc3⟩ := cat_rows hi
    by_cases h1 : i < (8 - info.length) / 2 ∨ i ≥ 7 - (7 - info.length - (8 - info.length) / 2)
    · refine ⟨List.replicate (N - 12) ' ' ++ center 12 c, by rw [if_pos h1, index_nat hc1]; rfl, ?_⟩
      have : (if (8 - info.length) / 2 ≤ i then (info[i - (8 - info.length) / 2]?).getD [] else []) = [] := by
        split_ifs with h2
        · rw [List.getElem?_eq_none (by omega)]; rfl
        · rfl
      rw [this, hc1]
      exact good_blank N hc2 hc3
    · have h2 : (8 - info.length) / 2 ≤ i := by omega
      have h3 : i - (8 - info.length) / 2 < info.length := by omega
      have h4 := List.getElem?_eq_getElem h3
      refine ⟨center (N - 12) info[i - (8 - info.length) / 2] ++ center 12 c, ?_, ?_⟩
      · rw [if_neg h1, index_sub h2 h4, index_nat hc1]; rfl
      · rw [if_pos h2, h4, hc1]
        exact good_both N _ hc2 hc3)
  exact ⟨L, e1, by simpa using e2, e3⟩

/-- Many texts beside and around the picture. -/
theorem rows_many (N : ℕ) {info : List Str} (h : 7 < info.length) : ∃ L, rows N 12 info = .ok L ∧ L.length = info.length ∧
    ∀ i line, L[i]? = some line →
      Good N line ((info[(i + (info.length - (info.length - 7) / 2)) % info.length]?).getD [])
        (if (info.length - 7) / 2 ≤ i then cat[i - (info.length - 7) / 2]? else none) := by
  have hc := cat_length
  unfold rows
  rw [if_neg (by rw [hc]; omega)]
  simp only [hc]
  obtain ⟨L, e1, e2, e3⟩ := mapM_ok (l := List.range info.length) (fun i => (do
      if i < (info.length - 7) / 2 ∨ i ≥ info.length - (info.length - 7 - (info.length - 7) / 2) then
        return center (N - 12) (← index info ((i : ℤ) - ((info.length - 7) / 2 : ℕ)))
      else
        return center (N - 12) (← index info ((i : ℤ) - ((info.length - 7) / 2 : ℕ))) ++
          center 12 (← index cat ((i : ℤ) - ((info.length - 7) / 2 : ℕ))) : Except PyErr Str))
    (fun i line => Good N line ((info[(i + (info.length - (info.length - 7) / 2)) % info.length]?).getD [])
        (if (info.length - 7) / 2 ≤ i then cat[i - (info.length - 7) / 2]? else none)) (by
    intro i x hx
    have hi : i < info.length := by
      by_contra hcon
      rw [List.getElem?_eq_none (by simp; omega)] at hx
      simp at hx
    rw [List.getElem?_range hi] at hx
    obtain rfl : i = x := by simpa using hx
    obtain ⟨y, hy1, hy2⟩ := index_mod (l := info) (b := (info.length - 7) / 2) hi (by omega)
    rw [hy1, Option.getD_some]
    split_ifs with h1 h2 h3
    · rw [List.getElem?_eq_none (by rw [hc]; omega)]
      exact ⟨_, by rw [hy2]; rfl, good_left N y⟩
    · exact ⟨_, by rw [hy2]; rfl, good_left N y⟩
    · obtain ⟨c, hc1, hc2, hc3⟩ := cat_rows (i := i - (info.length - 7) / 2) (by omega)
      refine ⟨center (N - 12) y ++ center 12 c, by rw [hy2, index_sub h3 hc1]; rfl, ?_⟩
      rw [hc1]
      exact good_both N _ hc2 hc3
    · omega)
  exact ⟨L, e1, by simpa using e2, e3⟩

theorem join_lines (L : List Str) (h : L ≠ []) : ((L.map fun l => l ++ ['\n']).flatten).dropLast = List.intercalate ['\n'] L := by
  induction L with
  | nil => exact absurd rfl h
  | cons x L ih =>
    cases L with
    | nil => simp [List.intercalate]
    | cons y L =>
      have ih := ih (by simp)
      rw [List.map_cons, List.flatten_cons, List.dropLast_append_of_ne_nil (by simp), ih]
      simp [List.intercalate, List.intersperse]

theorem linesOf_plain (x : Str) (h : '\n' ∉ x) : linesOf x = [x] := by
  induction x with
  | nil => rfl
  | cons c x ih =>
    rw [List.mem_cons, not_or] at h
    rw [linesOf, if_neg (Ne.symm h.1), ih h.2]

theorem linesOf_append (x t : Str) (h : '\n' ∉ x) : linesOf (x ++ '\n' :: t) = x :: linesOf t := by
  induction x with
  | nil => simp [linesOf]
  | cons c x ih =>
    rw [List.mem_cons, not_or] at h
    rw [List.cons_append, linesOf, if_neg (Ne.symm h.1), ih h.2]

theorem linesOf_join {L : List Str} (h : L ≠ []) (hn : ∀ l ∈ L, '\n' ∉ l) : linesOf (List.intercalate ['\n'] L) = L := by
  induction L with
  | nil => exact absurd rfl h
  | cons x L ih =>
    cases L with
    | nil =>
      rw [show List.intercalate ['\n'] [x] = x by simp [List.intercalate]]
      exact linesOf_plain x (hn x (by simp))
    | cons y L =>
      rw [show List.intercalate ['\n'] (x :: y :: L) = x ++ '\n' :: List.intercalate ['\n'] (y :: L) by
        simp [List.intercalate, List.intersperse], linesOf_append x _ (hn x (by simp)),
        ih (by simp) fun l hl => hn l (List.mem_cons_of_mem _ hl)]

end Logo
end Magnopy
