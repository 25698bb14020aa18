import Verif.Model.TxtSections
import Verif.Props.TxtFilter
import Mathlib.Tactic.Ring

/-!
# Lemmas about words and separators
-/

set_option autoImplicit false

namespace Magnopy

open Txt

namespace Str

/-- The first word of a line and the rest. -/
theorem split_append {w rest : Str} (hw : w ≠ []) (hs : ∀ c ∈ w, isSpace c = false)
    (hr : rest = [] ∨ ∃ c t, rest = c :: t ∧ isSpace c = true) : split (w ++ rest) = w :: split rest := by
  induction w with
  | nil => exact absurd rfl hw
  | cons c w ih =>
    have hc := hs c List.mem_cons_self
    cases w with
    | nil =>
      rcases hr with rfl | ⟨d, t, rfl, hd⟩
      · simp [split, hc]
      · simp [split, hc, hd]
    | cons d w =>
      have hd := hs d (by simp)
      have := ih (by simp) fun x hx => hs x (List.mem_cons_of_mem _ hx)
      simp only [List.cons_append] at this ⊢
      rw [split.eq_def]
      simp only [hc, hd, this]
      simp

theorem split_space {c : Char} {s : Str} (h : isSpace c = true) : split (c :: s) = split s := by
  rw [split.eq_def]; simp [h]

theorem first_spec {l w : Str} (h : FirstWord l w) : l.first = w := by
  have hr : ∃ rest, l = w ++ rest ∧ (rest = [] ∨ ∃ c t, rest = c :: t ∧ isSpace c = true) := by
    rcases h.rest with e | ⟨c, t, e, hc⟩
    · exact ⟨[], by simpa using e, Or.inl rfl⟩
    · exact ⟨c :: t, e, Or.inr ⟨c, t, rfl, hc⟩⟩
  obtain ⟨rest, rfl, hr⟩ := hr
  rw [first, split_append h.nonempty h.noSpace hr]
  rfl

theorem exists_first {l : Str} (h : Clean l) : ∃ w, FirstWord l w := by
  obtain ⟨h1, h2⟩ := h
  obtain ⟨c, t, rfl⟩ := List.exists_cons_of_ne_nil h2
  have hc := h1.first c t rfl
  refine ⟨(c :: t).takeWhile (fun c => !isSpace c), ?_, ?_, ?_⟩
  · simp [hc]
  · intro d hd
    simpa using List.mem_takeWhile_imp hd
  · have e := List.takeWhile_append_dropWhile (p := fun c => !isSpace c) (l := c :: t)
    have := List.head?_dropWhile_not (fun c => !isSpace c) (c :: t)
    cases hd : (c :: t).dropWhile (fun c => !isSpace c) with
    | nil => rw [hd, List.append_nil] at e; exact Or.inl e.symm
    | cons d u =>
      rw [hd] at this e
      exact Or.inr ⟨d, u, e.symm, by simpa using this⟩

theorem firstWord_first {l : Str} (h : Clean l) : FirstWord l l.first := by
  obtain ⟨w, hw⟩ := exists_first h
  rw [first_spec hw]
  exact hw

theorem strip_clean {l : Str} (h : Content l l) : l.strip = l := by
  have h1 : l.beforeHash = l := by
    obtain ⟨_, c, h2, h3⟩ := beforeHash_spec l
    rcases h3 with rfl | ⟨t, rfl⟩
    · simpa using h2.symm
    · exact absurd (by rw [h2]; simp) h.noHash
  have := (content_strip l).unique h
  rwa [h1] at this

end Str

namespace Txt

theorem isLong_iff {sym : Char} {l : Str} : isLong sym l = true ↔ Separator sym l := by
  rw [isLong, Str.startsWith, List.isPrefixOf_iff_prefix]
  exact ⟨fun ⟨t, h⟩ => ⟨t, h.symm⟩, fun ⟨t, h⟩ => ⟨t, h.symm⟩⟩

theorem isShort_iff {sym : Char} {l : Str} (h : Clean l) : isShort sym l = true ↔ TooShort sym l := by
  rw [isShort, Str.strip_clean h.1]
  simp only [Bool.and_eq_true, decide_eq_true_eq]
  constructor
  · rintro ⟨h1, h2⟩
    exact ⟨l.length, h1, List.eq_replicate_of_mem fun c hc => ((List.count_eq_length.1 h2.symm) c hc).symm⟩
  · rintro ⟨n, h1, rfl⟩
    simpa using h1

theorem skip_spec (sym : Char) (ls : List Str) :
    (skip sym ls).2 ≤ ls.length ∧ (∀ j l, j < (skip sym ls).2 → ls[j]? = some l → isLong sym l = true ∨ isShort sym l = true) ∧
    (∀ l, ls[(skip sym ls).2]? = some l → isLong sym l = false ∧ isShort sym l = false) ∧
    ((skip sym ls).1 = false → ∀ j l, j < (skip sym ls).2 → ls[j]? = some l → isShort sym l = false) := by
  induction ls with
  | nil => simp [skip]
  | cons a ls ih =>
    obtain ⟨h1, h2, h3, h4⟩ := ih
    rw [skip]
    by_cases h : (!(isLong sym a || isShort sym a)) = true
    · simp only [h, if_true]
      simp only [Bool.not_eq_true', Bool.or_eq_false_iff] at h
      simp [h]
    · simp only [h, if_false, Bool.false_eq_true]
      simp only [Bool.not_eq_true', Bool.not_eq_false, Bool.or_eq_true] at h
      refine ⟨by simpa using h1, ?_, by simpa using h3, ?_⟩
      · intro j l hj hl
        cases j with
        | zero => simp at hl; subst hl; exact h
        | succ j => exact h2 j l (by simpa using hj) (by simpa using hl)
      · intro he j l hj hl
        simp only [Bool.or_eq_false_iff] at he
        cases j with
        | zero => simp at hl; subst hl; exact he.1
        | succ j => exact h4 he.2 j l (by simpa using hj) (by simpa using hl)

theorem body_spec (sym : Char) (ls : List Str) :
    (body sym ls).2 ≤ ls.length ∧ (∀ j l, j < (body sym ls).2 → ls[j]? = some l → isLong sym l = false) ∧
    (∀ l, ls[(body sym ls).2]? = some l → isLong sym l = true) ∧
    ((body sym ls).1 = false → ∀ j l, j < (body sym ls).2 → ls[j]? = some l → isShort sym l = false) := by
  induction ls with
  | nil => simp [body]
  | cons a ls ih =>
    obtain ⟨h1, h2, h3, h4⟩ := ih
    rw [body]
    by_cases h : isLong sym a = true
    · simp [h]
    · simp only [h, if_false, Bool.false_eq_true]
      refine ⟨by simpa using h1, ?_, by simpa using h3, ?_⟩
      · intro j l hj hl
        cases j with
        | zero => simp at hl; subst hl; simpa using h
        | succ j => exact h2 j l (by simpa using hj) (by simpa using hl)
      · intro he j l hj hl
        simp only [Bool.or_eq_false_iff] at he
        cases j with
        | zero => simp at hl; subst hl; exact he.1
        | succ j => exact h4 he.2 j l (by simpa using hj) (by simpa using hl)

/-- What the outer loop finds from line `i` on. -/
structure ScanSpec (sym : Char) (lines : List Str) (i : ℕ) (e : Bool) (bs : List (ℕ × ℕ)) : Prop where
  from' : ∀ p ∈ bs, i ≤ p.1
  blocks : ∀ p ∈ bs, Block (fun l => isLong sym l = true) (fun l => isLong sym l = true ∨ isShort sym l = true) lines p.1 p.2
  head : ∀ p ∈ bs, ∀ l, lines[p.1]? = some l → isShort sym l = false
  sorted : bs.Pairwise fun p q => p.2 < q.1
  cover : ∀ j l, i ≤ j → lines[j]? = some l → isLong sym l = true ∨ isShort sym l = true ∨ ∃ p ∈ bs, p.1 ≤ j ∧ j < p.2
  noShort : e = false → ∀ j l, i ≤ j → lines[j]? = some l → isShort sym l = false

theorem scan_spec (sym : Char) (lines : List Str) (fuel i : ℕ) (hf : lines.length ≤ i + fuel)
    (hi : i = 0 ∨ ∀ l, lines[i]? = some l → isLong sym l = true) :
    ScanSpec sym lines i (scan sym lines fuel i).1 (scan sym lines fuel i).2 := by
  induction fuel generalizing i with
  | zero =>
    have : ∀ j l, i ≤ j → lines[j]? = some l → False := fun j l hj hl => by
      have := (List.getElem?_eq_some_iff.1 hl).1
      omega
    exact ⟨by simp [scan], by simp [scan], by simp [scan], by simp [scan], fun j l hj hl => (this j l hj hl).elim,
      fun _ j l hj hl => (this j l hj hl).elim⟩
  | succ fuel ih =>
    rw [scan]
    by_cases h0 : lines.length ≤ i
    · have : ∀ j l, i ≤ j → lines[j]? = some l → False := fun j l hj hl => by
        have := (List.getElem?_eq_some_iff.1 hl).1
        omega
      simp only [h0, if_true]
      exact ⟨by simp, by simp, by simp, by simp, fun j l hj hl => (this j l hj hl).elim,
        fun _ j l hj hl => (this j l hj hl).elim⟩
    · simp only [h0, if_false]
      obtain ⟨s1, s2, s3, s4⟩ := skip_spec sym (lines.drop i)
      set a := skip sym (lines.drop i)
      have s2' : ∀ j l, i ≤ j → j < i + a.2 → lines[j]? = some l → isLong sym l = true ∨ isShort sym l = true := by
        intro j l h1 h2 h3
        refine s2 (j - i) l (by omega) ?_
        rw [List.getElem?_drop, show i + (j - i) = j by omega]; exact h3
      have s4' : a.1 = false → ∀ j l, i ≤ j → j < i + a.2 → lines[j]? = some l → isShort sym l = false := by
        intro he j l h1 h2 h3
        refine s4 he (j - i) l (by omega) ?_
        rw [List.getElem?_drop, show i + (j - i) = j by omega]; exact h3
      by_cases h1 : lines.length ≤ i + a.2
      · simp only [h1, if_true]
        have lt : ∀ j l, lines[j]? = some l → j < i + a.2 := fun j l hl => by
          have := (List.getElem?_eq_some_iff.1 hl).1
          omega
        refine ⟨by simp, by simp, by simp, by simp, fun j l hj hl => ?_, fun he j l hj hl => s4' he j l hj (lt j l hl) hl⟩
        rcases s2' j l hj (lt j l hl) hl with h | h
        · exact Or.inl h
        · exact Or.inr (Or.inl h)
      · simp only [h1, if_false]
        obtain ⟨b1, b2, b3, b4⟩ := body_spec sym (lines.drop (i + a.2))
        set b := body sym (lines.drop (i + a.2)) with hb
        have hdl : (lines.drop (i + a.2)).length = lines.length - (i + a.2) := List.length_drop
        have hs : ∃ l, lines[i + a.2]? = some l ∧ isLong sym l = false ∧ isShort sym l = false := by
          have hlt : i + a.2 < lines.length := by omega
          refine ⟨lines[i + a.2], List.getElem?_eq_getElem hlt, s3 _ ?_⟩
          rw [List.getElem?_drop]
          exact List.getElem?_eq_getElem hlt
        obtain ⟨ls, hls, hlong, hshort⟩ := hs
        have hpos : 0 < b.2 := by
          by_contra hz
          have hz : b.2 = 0 := by omega
          have := b3 ls (by rw [hz, List.getElem?_drop, Nat.add_zero]; exact hls)
          rw [hlong] at this
          exact Bool.false_ne_true this
        have b2' : ∀ j l, i + a.2 ≤ j → j < i + a.2 + b.2 → lines[j]? = some l → isLong sym l = false := by
          intro j l h1 h2 h3
          refine b2 (j - (i + a.2)) l (by omega) ?_
          rw [List.getElem?_drop, show i + a.2 + (j - (i + a.2)) = j by omega]; exact h3
        have b4' : b.1 = false → ∀ j l, i + a.2 ≤ j → j < i + a.2 + b.2 → lines[j]? = some l → isShort sym l = false := by
          intro he j l h1 h2 h3
          refine b4 he (j - (i + a.2)) l (by omega) ?_
          rw [List.getElem?_drop, show i + a.2 + (j - (i + a.2)) = j by omega]; exact h3
        have b3' : ∀ l, lines[i + a.2 + b.2]? = some l → isLong sym l = true := by
          intro l h3
          refine b3 l ?_
          rw [List.getElem?_drop]; exact h3
        have R := ih (i + a.2 + b.2) (by omega) (Or.inr b3')
        refine ⟨?_, ?_, ?_, ?_, ?_, ?_⟩
        · intro p hp
          rcases List.mem_cons.1 hp with rfl | hp
          · simp
          · have := R.from' p hp; omega
        · intro p hp
          rcases List.mem_cons.1 hp with rfl | hp
          · refine ⟨by simpa using hpos, by simp only; omega, ?_, ?_, ?_⟩
            · intro j h1 h2 l hl
              simp [b2' j l h1 h2 hl]
            · by_cases ha : a.2 = 0
              · rcases hi with hi | hi
                · left; simp only; omega
                · exfalso
                  have := hi ls (by rw [show i = i + a.2 by omega]; exact hls)
                  rw [hlong] at this
                  exact Bool.false_ne_true this
              · right
                have hlt : i + a.2 - 1 < lines.length := by omega
                exact ⟨_, List.getElem?_eq_getElem hlt, s2' _ _ (by omega) (by omega) (List.getElem?_eq_getElem hlt)⟩
            · by_cases ht : i + a.2 + b.2 = lines.length
              · exact Or.inl ht
              · have hlt : i + a.2 + b.2 < lines.length := by omega
                exact Or.inr ⟨_, List.getElem?_eq_getElem hlt, b3' _ (List.getElem?_eq_getElem hlt)⟩
          · exact R.blocks p hp
        · intro p hp l hl
          rcases List.mem_cons.1 hp with rfl | hp
          · simp only [hls, Option.some.injEq] at hl
            rw [← hl]; exact hshort
          · exact R.head p hp l hl
        · rw [List.pairwise_cons]
          refine ⟨fun q hq => ?_, R.sorted⟩
          have h2 := R.from' q hq
          have h3 := (R.blocks q hq)
          simp only
          rcases Nat.lt_or_ge (i + a.2 + b.2) q.1 with h | h
          · exact h
          · exfalso
            have e : q.1 = i + a.2 + b.2 := by omega
            have hlt : q.1 < lines.length := lt_of_lt_of_le h3.lt h3.le
            have := h3.inside q.1 le_rfl h3.lt _ (List.getElem?_eq_getElem hlt)
            refine this (b3' _ ?_)
            rw [← e]
            exact List.getElem?_eq_getElem hlt
        · intro j l hj hl
          by_cases h2 : j < i + a.2
          · rcases s2' j l hj h2 hl with h | h
            · exact Or.inl h
            · exact Or.inr (Or.inl h)
          · by_cases h3 : j < i + a.2 + b.2
            · exact Or.inr (Or.inr ⟨_, List.mem_cons_self, by simp only; omega, h3⟩)
            · rcases R.cover j l (by omega) hl with h | h | ⟨p, hp, h⟩
              · exact Or.inl h
              · exact Or.inr (Or.inl h)
              · exact Or.inr (Or.inr ⟨p, List.mem_cons_of_mem _ hp, h⟩)
        · intro he j l hj hl
          simp only [Bool.or_eq_false_iff] at he
          by_cases h2 : j < i + a.2
          · exact s4' he.1.1 j l hj h2 hl
          · by_cases h3 : j < i + a.2 + b.2
            · exact b4' he.1.2 j l (by omega) h3 hl
            · exact R.noShort he.2 j l (by omega) hl

end Txt
end Magnopy
