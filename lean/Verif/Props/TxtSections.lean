import Verif.Lemmas.TxtSections

/-!
# Property C45: sections of a model file
-/

set_option autoImplicit false

namespace Magnopy

open Txt

/-- The dictionary built by repeated assignment holds, for every key, the value assigned last. -/
theorem get?_foldl_set {α β γ : Type*} [DecidableEq α] (f : γ → α) (g : γ → β) (bs : List γ) (d : PyDict α β) (k : α) :
    (bs.foldl (fun d p => d.set (f p) (g p)) d).get? k =
      match (bs.filter fun p => decide (f p = k)).getLast? with
      | some p => some (g p)
      | none => d.get? k := by
  induction bs generalizing d with
  | nil => rfl
  | cons p bs ih =>
    rw [List.foldl_cons, ih]
    by_cases h : f p = k
    · subst h
      rw [List.filter_cons_of_pos (by simp)]
      cases hb : (bs.filter fun q => decide (f q = f p)) with
      | nil => simp [PyDict.get?_set_self]
      | cons q qs => simp [List.getLast?_eq_some_getLast]
    · rw [List.filter_cons_of_neg (by simpa using h)]
      cases hb : (bs.filter fun q => decide (f q = k)).getLast? with
      | none => simp [PyDict.get?_set, h]
      | some q => rfl

theorem filter_clean (text : List Str) : ∀ l ∈ (Txt.filter text).map Prod.fst, Clean l := by
  intro l hl
  obtain ⟨⟨b, m⟩, hm, rfl⟩ := List.mem_map.1 hl
  obtain ⟨i, a, _, _, h2, h3⟩ := (mem_filterFrom _ _ _ _).1 hm
  exact ⟨content_self h2, h3⟩

/-- **C45.** The lines of a filtered file are divided into blocks: contiguous, non-empty, in the order of the file,
without a separator inside, between separators (or the ends of the file); every line is a separator (maybe a too short one)
or belongs to a block.  The section reported for a keyword is the last block whose first word is that keyword in any letter
case; nothing else is reported. -/
theorem C45_sections (lines : List Str) (hl : ∀ l ∈ lines, Clean l) :
    ∃ bs : List (ℕ × ℕ),
      (∀ p ∈ bs, Block (Separator '=') (fun l => Separator '=' l ∨ TooShort '=' l) lines p.1 p.2) ∧
      bs.Pairwise (fun p q => p.2 < q.1) ∧
      (∀ i l, lines[i]? = some l → Separator '=' l ∨ TooShort '=' l ∨ ∃ p ∈ bs, p.1 ≤ i ∧ i < p.2) ∧
      ∀ (kw : Str) (p : ℕ × ℕ), (sections lines).2.get? kw = some p ↔
        ∃ before after, bs = before ++ p :: after ∧
          (∃ l w, lines[p.1]? = some l ∧ FirstWord l w ∧ w.lower = kw) ∧
          ∀ q ∈ after, ∀ l w, lines[q.1]? = some l → FirstWord l w → w.lower ≠ kw := by
  have S := scan_spec '=' lines lines.length 0 (by omega) (Or.inl rfl)
  have clean : ∀ {i l}, lines[i]? = some l → Clean l := fun h => hl _ (List.mem_of_getElem? h)
  refine ⟨(scan '=' lines lines.length 0).2, ?_, S.sorted, ?_, ?_⟩
  · intro p hp
    have B := S.blocks p hp
    refine ⟨B.lt, B.le, fun i h1 h2 l h h' => B.inside i h1 h2 l h (isLong_iff.2 h'), ?_, ?_⟩
    · refine B.start.imp_right ?_
      rintro ⟨l, h, h'⟩
      exact ⟨l, h, h'.imp isLong_iff.1 (isShort_iff (clean h)).1⟩
    · refine B.stop.imp_right ?_
      rintro ⟨l, h, h'⟩
      exact ⟨l, h, isLong_iff.1 h'⟩
  · intro i l h
    rcases S.cover i l (Nat.zero_le _) h with h' | h' | h'
    · exact Or.inl (isLong_iff.1 h')
    · exact Or.inr (Or.inl ((isShort_iff (clean h)).1 h'))
    · exact Or.inr (Or.inr h')
  · intro kw p
    set bs := (scan '=' lines lines.length 0).2
    have key : ∀ q ∈ bs, ∃ l, lines[q.1]? = some l ∧ FirstWord l l.first ∧
        keyword (lines.getD q.1 []) = l.first.lower := by
      intro q hq
      have B := S.blocks q hq
      have hlt : q.1 < lines.length := lt_of_lt_of_le B.lt B.le
      refine ⟨_, List.getElem?_eq_getElem hlt, Str.firstWord_first (clean (List.getElem?_eq_getElem hlt)), ?_⟩
      rw [keyword, List.getD_eq_getElem?_getD, List.getElem?_eq_getElem hlt]; rfl
    have e : (sections lines).2.get? kw = (bs.filter fun q => decide (keyword (lines.getD q.1 []) = kw)).getLast? := by
      rw [sections]
      simp only
      rw [get?_foldl_set (fun p : ℕ × ℕ => keyword (lines.getD p.1 [])) (fun p => p) bs [] kw]
      cases (bs.filter fun q => decide (keyword (lines.getD q.1 []) = kw)).getLast? <;> rfl
    rw [e]
    constructor
    · intro h
      obtain ⟨ys, hys⟩ := List.getLast?_eq_some_iff.1 h
      obtain ⟨l1, l2, rfl_, h3, h4⟩ := List.filter_eq_append_iff.1 hys
      obtain ⟨m1, m2, h5, h6, h7, h8⟩ := List.filter_eq_cons_iff.1 h4
      refine ⟨l1 ++ m1, m2, by rw [rfl_, h5]; simp, ?_, ?_⟩
      · obtain ⟨l, h9, h10, h11⟩ := key p (by rw [rfl_, h5]; simp)
        exact ⟨l, _, h9, h10, by rw [← h11]; simpa using h7⟩
      · intro q hq l w h9 h10 h11
        obtain ⟨l', k1, k2, k3⟩ := key q (by rw [rfl_, h5]; simp [hq])
        rw [h9] at k1
        cases k1
        have := List.filter_eq_nil_iff.1 h8 q hq
        apply this
        simp only [decide_eq_true_eq]
        rw [k3, Str.first_spec h10, h11]
    · rintro ⟨b, a, h1, ⟨l, w, h2, h3, h4⟩, h5⟩
      rw [h1, List.filter_append, List.filter_cons_of_pos, List.getLast?_append, List.getLast?_cons]
      · have : (a.filter fun q => decide (keyword (lines.getD q.1 []) = kw)) = [] := by
          rw [List.filter_eq_nil_iff]
          intro q hq
          obtain ⟨l', k1, k2, k3⟩ := key q (by rw [h1]; simp [hq])
          rw [k3]
          simpa using h5 q hq l' _ k1 k2
        rw [this]
        simp
      · obtain ⟨l', k1, k2, k3⟩ := key p (by rw [h1]; simp)
        rw [h2] at k1
        cases k1
        simp only [decide_eq_true_eq]
        rw [k3, Str.first_spec h3, h4]

/-- **C45, accepted files.** If no errors about separators were found then the section of a keyword is a block between two
separators (or the ends of the file), starts with its keyword and contains neither a separator nor a line that looks like
one. -/
theorem C45_accepted (lines : List Str) (hl : ∀ l ∈ lines, Clean l) (h : (sections lines).1 = false) :
    (∀ (i : ℕ) (l : Str), lines[i]? = some l → ¬ TooShort '=' l) ∧
    ∀ (kw : Str) (p : ℕ × ℕ), (sections lines).2.get? kw = some p →
      Block (Separator '=') (Separator '=') lines p.1 p.2 ∧
      ∃ l w, lines[p.1]? = some l ∧ FirstWord l w ∧ w.lower = kw := by
  have S := scan_spec '=' lines lines.length 0 (by omega) (Or.inl rfl)
  have hs : ∀ (i : ℕ) (l : Str), lines[i]? = some l → ¬ TooShort '=' l := by
    intro i l hi ht
    have := S.noShort h i l (Nat.zero_le _) hi
    rw [(isShort_iff (hl _ (List.mem_of_getElem? hi))).2 ht] at this
    exact Bool.noConfusion this
  refine ⟨hs, fun kw p hp => ?_⟩
  obtain ⟨bs, h1, _, _, h4⟩ := C45_sections lines hl
  obtain ⟨b, a, h5, h6, _⟩ := (h4 kw p).1 hp
  have B := h1 p (by rw [h5]; simp)
  refine ⟨⟨B.lt, B.le, B.inside, ?_, B.stop⟩, h6⟩
  refine B.start.imp_right ?_
  rintro ⟨l, k1, k2⟩
  exact ⟨l, k1, k2.resolve_right (hs _ l k1)⟩

/-- **C45, lines.** What a reader gets are the lines `start`, …, `end - 1`. -/
theorem C45_slice (lines : List Str) (p : ℕ × ℕ) (hp : p.2 ≤ lines.length) (i : ℕ) (hi : i < p.2 - p.1) :
    (slice lines p)[i]? = lines[p.1 + i]? ∧ (slice lines p).length = p.2 - p.1 := by
  constructor
  · rw [slice, List.getElem?_drop, List.getElem?_take_of_lt (by omega)]
  · rw [slice, List.length_drop, List.length_take]
    omega

/-- A small file with two sections, one of them twice. -/
example : sections (["==========", "Cell", "1 2", "==============", "ATOMS a", "==========", "cell b"].map Str.lit) =
    (false, [(Str.lit "cell", (6, 7)), (Str.lit "atoms", (4, 5))]) := by decide +kernel

example : ∀ l ∈ (Txt.filter (["==========", " Cell # x", "1 2"].map Str.lit)).map Prod.fst, Clean l := filter_clean _

/-- A too short separator is an error and does not end a section. -/
example : sections (["Cell", "====", "1 2"].map Str.lit) = (true, [(Str.lit "cell", (0, 3))]) := by decide +kernel

end Magnopy
