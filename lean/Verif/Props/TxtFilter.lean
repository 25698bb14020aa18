import Verif.Model.TxtFilter
import Verif.Spec.Txt
import Mathlib.Data.List.Basic
import Mathlib.Data.List.TakeWhile
import Mathlib.Data.List.Infix

/-!
# Property C44: filtering a model file
-/

set_option autoImplicit false

namespace Magnopy

open Txt

namespace Str

theorem lstrip_spec (s : Str) : ∃ p, s = p ++ s.lstrip ∧ (∀ c ∈ p, isSpace c) ∧
    ∀ c t, s.lstrip = c :: t → isSpace c = false := by
  refine ⟨s.takeWhile isSpace, (List.takeWhile_append_dropWhile).symm, fun c hc => List.mem_takeWhile_imp hc, fun c t h => ?_⟩
  have := List.head?_dropWhile_not isSpace s
  rw [show s.dropWhile isSpace = c :: t from h] at this
  simpa using this

theorem strip_spec (s : Str) : ∃ p q, s = p ++ s.strip ++ q ∧ (∀ c ∈ p, isSpace c) ∧ (∀ c ∈ q, isSpace c) ∧
    (∀ c t, s.strip = c :: t → isSpace c = false) ∧ ∀ c t, s.strip = t ++ [c] → isSpace c = false := by
  obtain ⟨p, h1, h2, h3⟩ := lstrip_spec s
  obtain ⟨q, h4, h5, h6⟩ := lstrip_spec s.lstrip.reverse
  have e : s.lstrip = s.strip ++ q.reverse := by
    have := congrArg List.reverse h4
    rw [List.reverse_reverse, List.reverse_append] at this
    exact this
  refine ⟨p, q.reverse, by rw [List.append_assoc, ← e]; exact h1, h2, fun c hc => h5 c (List.mem_reverse.1 hc), ?_, ?_⟩
  · intro c t h
    exact h3 c (t ++ q.reverse) (by rw [e, h]; rfl)
  · intro c t h
    exact h6 c t.reverse (by
      have := congrArg List.reverse h
      rw [strip, List.reverse_reverse] at this
      rw [this]; simp)

theorem beforeHash_spec (s : Str) : '#' ∉ s.beforeHash ∧ ∃ c, s = s.beforeHash ++ c ∧ (c = [] ∨ ∃ t, c = '#' :: t) := by
  refine ⟨fun h => by simpa using List.mem_takeWhile_imp h, s.dropWhile (· != '#'), (List.takeWhile_append_dropWhile).symm, ?_⟩
  have := List.head?_dropWhile_not (· != '#') s
  cases h : s.dropWhile (· != '#') with
  | nil => exact Or.inl rfl
  | cons c t =>
    rw [h] at this
    exact Or.inr ⟨t, by simpa using this⟩

end Str

theorem content_strip (a : Str) : Content a a.beforeHash.strip := by
  obtain ⟨h1, c, h2, h3⟩ := Str.beforeHash_spec a
  obtain ⟨p, q, h4, h5, h6, h7, h8⟩ := Str.strip_spec a.beforeHash
  refine ⟨⟨p, q, c, by rw [← h4]; exact h2, h5, h6, h3⟩, fun h => h1 ?_, h7, h8⟩
  rw [h4]
  exact List.mem_append_left _ (List.mem_append_right _ h)

theorem not_space_hash : Str.isSpace '#' = false := by decide

/-- The content of a line is unique. -/
theorem Content.unique {a b b' : Str} (h : Content a b) (h' : Content a b') : b = b' := by
  obtain ⟨p, q, c, h1, h2, h3, h4⟩ := h.parts
  obtain ⟨p', q', c', h1', h2', h3', h4'⟩ := h'.parts
  have cut : ∀ {x c : Str}, '#' ∉ x → (c = [] ∨ ∃ t, c = '#' :: t) → (x ++ c).takeWhile (· != '#') = x := by
    intro x c hx hc
    rw [List.takeWhile_append_of_pos fun d hd => by
      have : d ≠ '#' := fun e => hx (by rw [← e]; exact hd)
      simpa using this]
    rcases hc with rfl | ⟨t, rfl⟩ <;> simp
  have sp : ∀ {x : Str}, (∀ d ∈ x, Str.isSpace d) → '#' ∉ x := fun hx h => by simpa [not_space_hash] using hx _ h
  have e : p ++ b ++ q = p' ++ b' ++ q' := by
    have n1 : '#' ∉ p ++ b ++ q := by simp [sp h2, sp h3, h.noHash]
    have n2 : '#' ∉ p' ++ b' ++ q' := by simp [sp h2', sp h3', h'.noHash]
    rw [← cut n1 h4, ← cut n2 h4', ← h1, ← h1']
  have drop : ∀ {x y : Str}, (∀ d ∈ x, Str.isSpace d) → (∀ d t, y = d :: t → Str.isSpace d = false) →
      (x ++ y).dropWhile Str.isSpace = y := by
    intro x y hx hy
    rw [List.dropWhile_append_of_pos hx]
    cases y with
    | nil => rfl
    | cons d t => rw [List.dropWhile_cons_of_neg]; simp [hy d t rfl]
  by_cases hb : b = []
  · by_cases hb' : b' = []
    · rw [hb, hb']
    · exfalso
      obtain ⟨d, t, rfl⟩ := List.exists_cons_of_ne_nil hb'
      subst hb
      have : d ∈ p ++ [] ++ q := by rw [e]; simp
      simp only [List.append_nil, List.mem_append] at this
      have hd := h'.first d t rfl
      rcases this with h | h
      · simpa [hd] using h2 d h
      · simpa [hd] using h3 d h
  · by_cases hb' : b' = []
    · exfalso
      obtain ⟨d, t, rfl⟩ := List.exists_cons_of_ne_nil hb
      subst hb'
      have : d ∈ p' ++ [] ++ q' := by rw [← e]; simp
      simp only [List.append_nil, List.mem_append] at this
      have hd := h.first d t rfl
      rcases this with h | h
      · simpa [hd] using h2' d h
      · simpa [hd] using h3' d h
    · have f : ∀ {b q : Str}, b ≠ [] → (∀ d t, b = d :: t → Str.isSpace d = false) →
          ∀ d t, b ++ q = d :: t → Str.isSpace d = false := by
        intro b q hb h d t ht
        obtain ⟨d', t', rfl⟩ := List.exists_cons_of_ne_nil hb
        cases ht
        exact h d t' rfl
      have e2 : b ++ q = b' ++ q' := by
        rw [← drop h2 (f hb h.first), ← drop h2' (f hb' h'.first), ← List.append_assoc, ← List.append_assoc, e]
      have r : ∀ {b : Str}, (∀ d t, b = t ++ [d] → Str.isSpace d = false) →
          ∀ d t, b.reverse = d :: t → Str.isSpace d = false := by
        intro b h d t ht
        refine h d t.reverse ?_
        rw [← List.reverse_reverse b, ht]; simp
      have e3 := congrArg List.reverse e2
      rw [List.reverse_append, List.reverse_append] at e3
      have e4 := drop (x := q.reverse) (y := b.reverse) (fun d hd => h3 d (List.mem_reverse.1 hd)) (r h.last)
      rw [e3, drop (x := q'.reverse) (y := b'.reverse) (fun d hd => h3' d (List.mem_reverse.1 hd)) (r h'.last)] at e4
      exact (List.reverse_injective e4).symm

theorem beforeHash_comment {l : Str} (h : l.startsWith ['#'] = true) : l.beforeHash.strip = [] := by
  cases l with
  | nil => simp [Str.startsWith] at h
  | cons c t =>
    have : c = '#' := by simpa [Str.startsWith] using (Eq.symm (by simpa [Str.startsWith] using h))
    subst this
    rfl

/-- The loop in one equation. -/
theorem filterFrom_cons (n : ℕ) (l : Str) (ls : List Str) : filterFrom n (l :: ls) =
    (if l.beforeHash.strip = [] then [] else [(l.beforeHash.strip, n + 1)]) ++ filterFrom (n + 1) ls := by
  rw [filterFrom]
  split_ifs with h1 h2 h3 <;> simp_all [beforeHash_comment]

theorem mem_filterFrom (n : ℕ) (ls : List Str) (b : Str) (m : ℕ) :
    (b, m) ∈ filterFrom n ls ↔ ∃ i a, m = n + i + 1 ∧ ls[i]? = some a ∧ Content a b ∧ b ≠ [] := by
  induction ls generalizing n with
  | nil => simp [filterFrom]
  | cons l ls ih =>
    rw [filterFrom_cons, List.mem_append, ih]
    constructor
    · rintro (h | ⟨i, a, rfl, h1, h2, h3⟩)
      · split_ifs at h with h1
        · simp at h
        · simp only [List.mem_singleton, Prod.mk.injEq] at h
          obtain ⟨rfl, rfl⟩ := h
          exact ⟨0, l, rfl, rfl, content_strip l, h1⟩
      · exact ⟨i + 1, a, by omega, by simpa using h1, h2, h3⟩
    · rintro ⟨i, a, rfl, h1, h2, h3⟩
      cases i with
      | zero =>
        simp only [List.getElem?_cons_zero, Option.some.injEq] at h1
        subst h1
        have e := (content_strip l).unique h2
        left
        rw [e, if_neg h3]
        simp
      | succ i => exact Or.inr ⟨i, a, by omega, by simpa using h1, h2, h3⟩

theorem filterFrom_sorted (n : ℕ) (ls : List Str) :
    ((filterFrom n ls).map Prod.snd).Pairwise (· < ·) := by
  induction ls generalizing n with
  | nil => simp [filterFrom]
  | cons l ls ih =>
    rw [filterFrom_cons, List.map_append, List.pairwise_append]
    refine ⟨by split_ifs <;> simp, ih _, fun x hx y hy => ?_⟩
    obtain ⟨⟨b, m⟩, hm, rfl⟩ := List.mem_map.1 hy
    obtain ⟨i, a, rfl, _⟩ := (mem_filterFrom _ _ _ _).1 hm
    split_ifs at hx
    · simp at hx
    · simp only [List.map_cons, List.map_nil, List.mem_singleton] at hx
      omega

/-- **C44.** A line with a number is in the result exactly if it is the non-empty content of the line of the file with
that number (counted from one), and the numbers increase: the order is that of the file. -/
theorem C44_kept (lines : List Str) :
    (∀ (b : Str) (m : ℕ), (b, m) ∈ Txt.filter lines ↔
      ∃ i a, m = i + 1 ∧ lines[i]? = some a ∧ Content a b ∧ b ≠ []) ∧
    ((Txt.filter lines).map Prod.snd).Pairwise (· < ·) :=
  ⟨fun b m => by rw [Txt.filter, mem_filterFrom]; simp, filterFrom_sorted 0 lines⟩

/-- **C44, contents.** Every line has exactly one content. -/
theorem C44_content (a : Str) : ∃! b, Content a b :=
  ⟨_, content_strip a, fun _ h => h.unique (content_strip a)⟩

theorem content_self {a b : Str} (h : Content a b) : Content b b :=
  ⟨⟨[], [], [], by simp, by simp, by simp, Or.inl rfl⟩, h.noHash, h.first, h.last⟩

theorem filterFrom_self (n : ℕ) (ls : List Str) (h : ∀ l ∈ ls, Content l l ∧ l ≠ []) :
    (filterFrom n ls).map Prod.fst = ls := by
  induction ls generalizing n with
  | nil => rfl
  | cons l ls ih =>
    obtain ⟨h1, h2⟩ := h l List.mem_cons_self
    rw [filterFrom_cons, (content_strip l).unique h1, if_neg h2, List.map_append,
      ih _ fun x hx => h x (List.mem_cons_of_mem _ hx)]
    rfl

/-- **C44, again.** Filtering the filtered lines changes nothing. -/
theorem C44_idempotent (lines : List Str) :
    (Txt.filter ((Txt.filter lines).map Prod.fst)).map Prod.fst = (Txt.filter lines).map Prod.fst := by
  refine filterFrom_self 0 _ fun l hl => ?_
  obtain ⟨⟨b, m⟩, hm, rfl⟩ := List.mem_map.1 hl
  obtain ⟨i, a, _, _, h2, h3⟩ := (mem_filterFrom _ _ _ _).1 hm
  exact ⟨content_self h2, h3⟩

/-- A file with a comment line, a blank line, an inline comment and surrounding white space. -/
example : Txt.filter (["# top", "Cell\n", "  \t", "  1 0 0 # <- a  ", "=====#"].map Str.lit) =
    [(Str.lit "Cell", 2), (Str.lit "1 0 0", 4), (Str.lit "=====", 5)] := by decide +kernel

end Magnopy
