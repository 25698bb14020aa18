import Verif.Lemmas.HistoryText

/-!
# Helper lemmas: reading the text of the history
-/

set_option autoImplicit false
set_option linter.unusedSectionVars false

namespace Magnopy.History

open Optimize Txt

variable {X : Type} {F : NumFmt ℝ} {float : Str → Option ℝ}

/-! ### The lines of a run -/

theorem linesOf_file (hF : Reads F float) {C : Columns X} (hC : C.Good) (n : ℕ) (bs : List (List (Record X))) :
    Logo.linesOf (runText F C .file n bs) = header C n :: bs.flatMap fun b => blockLines (b.map (line F C)) := by
  have hl := line_noBreak F (fun x => (hF.fixed 8 x).1) (fun x => (hF.sci 8 x).1) C
  have key : ∀ (bs : List (List (Record X))) (a : Str),
      Logo.linesOf (a ++ bs.flatMap (writeBlock F C .file)) =
        Logo.linesOf a ++ bs.flatMap fun b => blockLines (b.map (line F C)) := by
    intro bs
    induction bs with
    | nil => intro a; simp
    | cons b bs ih =>
      intro a
      have h1 : a ++ (b :: bs).flatMap (writeBlock F C .file) =
          (a ++ '\n' :: joinLines (b.map (line F C))) ++ bs.flatMap (writeBlock F C .file) := by
        simp [writeBlock]
      rw [h1, ih, linesOf_break, linesOf_joinLines]
      · simp
      · intro l hm
        obtain ⟨r, -, rfl⟩ := List.mem_map.1 hm
        exact hl r
  rw [runText, key, writeHeader, Logo.linesOf_plain _ (header_noBreak hC n)]
  rfl

theorem linesOf_screen (hF : Reads F float) {C : Columns X} (hC : C.Good) (n : ℕ) (bs : List (List (Record X))) :
    Logo.linesOf (runText F C .screen n bs) =
      header C n :: (bs.flatMap fun b => blockLines (b.map (line F C))) ++ [[]] := by
  have hl := line_noBreak F (fun x => (hF.fixed 8 x).1) (fun x => (hF.sci 8 x).1) C
  have key : ∀ bs : List (List (Record X)), Logo.linesOf (bs.flatMap (writeBlock F C .screen)) =
      (bs.flatMap fun b => blockLines (b.map (line F C))) ++ [[]] := by
    intro bs
    induction bs with
    | nil => rfl
    | cons b bs ih =>
      have h1 : (b :: bs).flatMap (writeBlock F C .screen) =
          joinLines (b.map (line F C)) ++ '\n' :: bs.flatMap (writeBlock F C .screen) := by
        simp [writeBlock]
      rw [h1, linesOf_break, ih, linesOf_joinLines]
      · simp
      · intro l hm
        obtain ⟨r, -, rfl⟩ := List.mem_map.1 hm
        exact hl r
  have h1 : runText F C .screen n bs = header C n ++ '\n' :: bs.flatMap (writeBlock F C .screen) := by
    simp [runText, writeHeader]
  rw [h1, linesOf_break, key, Logo.linesOf_plain _ (header_noBreak hC n)]
  rfl

/-! ### The numbers of a line -/

/-- The number which is read from a fixed-point number. -/
noncomputable def rdF (hF : Reads F float) (x : ℝ) : ℝ := (hF.fixed 8 x).2.choose

/-- The number which is read from a number with exponent. -/
noncomputable def rdE (hF : Reads F float) (x : ℝ) : ℝ := (hF.sci 8 x).2.choose

/-- The numbers of the line of a record. -/
noncomputable def rowOf (hF : Reads F float) (C : Columns X) (r : Record X) : List ℝ :=
  rdE hF r.1 :: (r.2.1 ++ (C.groups r.2.2).flatten).map (rdF hF)

/-- The words of the line of a record. -/
def wordsOf (F : NumFmt ℝ) (C : Columns X) (r : Record X) : List Str :=
  F.sci 8 r.1 :: (r.2.1 ++ (C.groups r.2.2).flatten).map (F.fixed 8)

theorem mapM_float (hF : Reads F float) (l : List ℝ) : (l.map (F.fixed 8)).mapM float = some (l.map (rdF hF)) := by
  induction l with
  | nil => rfl
  | cons x l ih =>
    have hx : float (F.fixed 8 x) = some (rdF hF x) := (hF.fixed 8 x).2.choose_spec.1
    rw [List.map_cons, List.mapM_cons, hx, ih]
    rfl

theorem mapM_words (hF : Reads F float) (C : Columns X) (r : Record X) :
    (wordsOf F C r).mapM float = some (rowOf hF C r) := by
  have hx : float (F.sci 8 r.1) = some (rdE hF r.1) := (hF.sci 8 r.1).2.choose_spec.1
  rw [wordsOf, List.mapM_cons, hx, mapM_float hF]
  rfl

theorem words_block (hF : Reads F float) (C : Columns X) (b : List (Record X)) :
    ((blockLines (b.map (line F C))).map Str.split).filter (fun ws => decide (ws ≠ [])) = b.map (wordsOf F C) := by
  have hl := fun r => (spaced_line F (fun x => (hF.fixed 8 x).1) (fun x => (hF.sci 8 x).1) C r).split
  rw [blockLines]
  split
  · rename_i e
    rw [List.map_eq_nil_iff] at e
    subst e
    simp [Str.split]
  · rw [List.map_map]
    have : (Str.split ∘ line F C) = wordsOf F C := funext fun r => hl r
    rw [this, List.filter_eq_self]
    intro ws hw
    obtain ⟨r, -, rfl⟩ := List.mem_map.1 hw
    simp [wordsOf]

theorem words_run (hF : Reads F float) (C : Columns X) (bs : List (List (Record X))) :
    ((bs.flatMap fun b => blockLines (b.map (line F C))).map Str.split).filter (fun ws => decide (ws ≠ [])) =
      bs.flatten.map (wordsOf F C) := by
  induction bs with
  | nil => rfl
  | cons b bs ih => rw [List.flatMap_cons, List.map_append, List.filter_append, ih, words_block hF, List.flatten_cons, List.map_append]

theorem mapM_rows (hF : Reads F float) (C : Columns X) (rs : List (Record X)) :
    ((rs.map (wordsOf F C)).mapM fun ws => ws.mapM float) = some (rs.map (rowOf hF C)) := by
  induction rs with
  | nil => rfl
  | cons r rs ih => rw [List.map_cons, List.mapM_cons, mapM_words hF, ih]; rfl

/-- Every record has one number for each title. -/
def Fits (C : Columns X) (n : ℕ) (r : Record X) : Prop :=
  r.2.1.length = C.torques.length ∧ (C.groups r.2.2).flatten.length = 3 * n + C.rest.length

theorem spinTitles_length (n : ℕ) : (spinTitles n).length = 3 * n := by
  induction n with
  | zero => rfl
  | succ n ih =>
    rw [spinTitles, List.range_succ, List.flatMap_append, List.length_append, ← spinTitles, ih]
    simp; ring

theorem read_run (hF : Reads F float) {C : Columns X} (hC : C.Good) (s : Sink) (n : ℕ) (bs : List (List (Record X)))
    (hb : ∀ r ∈ bs.flatten, Fits C n r) :
    readTable float (runText F C s n bs) = some (titles C n, bs.flatten.map (rowOf hF C)) := by
  have hlen : ∀ row ∈ bs.flatten.map (rowOf hF C), row.length = (titles C n).length := by
    intro row hr
    obtain ⟨r, hm, rfl⟩ := List.mem_map.1 hr
    obtain ⟨h1, h2⟩ := hb r hm
    simp only [rowOf, titles, List.length_cons, List.length_map, List.length_append, h1, h2, spinTitles_length]
    omega
  have hw := words_run hF C bs
  have ht := (spaced_header hC n).split
  cases s with
  | file =>
    rw [readTable, linesOf_file hF hC]
    simp only
    rw [hw, mapM_rows hF, ht]
    simp only
    rw [if_pos hlen]
  | screen =>
    rw [readTable, linesOf_screen hF hC, List.cons_append]
    simp only
    rw [List.map_append, List.filter_append, hw]
    have : (List.map Str.split [[]]).filter (fun ws => decide (ws ≠ [])) = [] := by decide
    rw [this, List.append_nil, mapM_rows hF, ht]
    simp only
    rw [if_pos hlen]

/-! ### Titles -/

theorem spinTitle_inj {i j : ℕ} {c d : Fin 3} (h : spinTitle i c = spinTitle j d) : i = j ∧ c = d := by
  rw [spinTitle, spinTitle] at h
  have h1 := (List.cons.inj h).2
  obtain ⟨h2, h3⟩ := List.append_inj' h1 rfl
  have h4 := congrArg (fun l => Nat.ofDigitChars 10 l 0) h2
  simp only [Nat.ofDigitChars_ten_toDigits] at h4
  refine ⟨by omega, ?_⟩
  clear h h1 h2 h4
  revert c d
  decide

theorem spinTitles_nodup (n : ℕ) : (spinTitles n).Nodup := by
  rw [spinTitles, List.nodup_flatMap]
  refine ⟨fun i _ => ?_, ?_⟩
  · simp only [List.nodup_cons, List.mem_cons, List.not_mem_nil, or_false, not_or, not_false_eq_true, List.nodup_nil, and_true]
    refine ⟨⟨fun h => ?_, fun h => ?_⟩, fun h => ?_⟩ <;> exact absurd (spinTitle_inj h).2 (by decide)
  · refine List.Pairwise.imp_of_mem ?_ List.nodup_range
    intro i j _ _ hij
    rw [Function.onFun, List.disjoint_left]
    intro t h1 h2
    simp only [List.mem_cons, List.not_mem_nil, or_false] at h1 h2
    rcases h1 with rfl | rfl | rfl <;> rcases h2 with h | h | h <;> exact hij (spinTitle_inj h).1

theorem spinTitles_get {n i : ℕ} (hi : i < n) (c : Fin 3) : (spinTitles n)[3 * i + (c : ℕ)]? = some (spinTitle i c) := by
  induction n with
  | zero => omega
  | succ n ih =>
    rw [spinTitles, List.range_succ, List.flatMap_append, ← spinTitles]
    rcases Nat.lt_or_ge i n with h | h
    · rw [List.getElem?_append_left (by rw [spinTitles_length]; omega)]
      exact ih h
    · obtain rfl : i = n := by omega
      rw [List.getElem?_append_right (by rw [spinTitles_length]; omega), spinTitles_length, Nat.add_sub_cancel_left]
      fin_cases c <;> rfl

theorem spinTitles_head {n : ℕ} {t : Str} (h : t ∈ spinTitles n) : t.head? = some 'S' := by
  obtain ⟨i, -, h⟩ := List.mem_flatMap.1 h
  simp only [List.mem_cons, List.not_mem_nil, or_false] at h
  rcases h with rfl | rfl | rfl <;> rfl

theorem ferroTitles_nodup (n : ℕ) : (ferroTitles n).Nodup := by
  rw [ferroTitles, List.nodup_append]
  refine ⟨by decide, spinTitles_nodup n, ?_⟩
  rintro a ha b hb rfl
  have h := spinTitles_head hb
  clear hb
  revert a
  decide

theorem coneTitles_nodup (n : ℕ) : (coneTitles n).Nodup := by
  rw [coneTitles, List.nodup_append, List.nodup_append]
  refine ⟨⟨by decide, spinTitles_nodup n, ?_⟩, by decide, ?_⟩
  · rintro a ha b hb rfl
    have h := spinTitles_head hb
    clear hb
    revert a
    decide
  · rintro a ha b hb rfl
    rcases List.mem_append.1 ha with h | h
    · clear ha
      revert a
      decide
    · have h' := spinTitles_head h
      clear ha h
      revert a
      decide

theorem column_eq {K : Type} {T : List Str} (hT : T.Nodup) {k : ℕ} {t : Str} (h : T[k]? = some t) (row : List K) :
    column T row t = row[k]? := by
  obtain ⟨hk, rfl⟩ := List.getElem?_eq_some_iff.1 h
  rw [column, hT.idxOf_getElem]

theorem flat_length (x : List (V3 ℝ)) : (flat x).length = 3 * x.length := by
  induction x with
  | nil => rfl
  | cons v x ih => rw [flat, List.flatMap_cons, List.length_append, ← flat, ih]; simp; ring

theorem flat_get {x : List (V3 ℝ)} {i : ℕ} (hi : i < x.length) (c : Fin 3) :
    (flat x)[3 * i + (c : ℕ)]? = some (x.getD i 0 c) := by
  induction x generalizing i with
  | nil => simp at hi
  | cons v x ih =>
    rw [flat, List.flatMap_cons, ← flat]
    cases i with
    | zero => fin_cases c <;> rfl
    | succ i =>
      rw [List.getElem?_append_right (by simp; omega)]
      have : 3 * (i + 1) + (c : ℕ) - [v 0, v 1, v 2].length = 3 * i + c := by simp; omega
      rw [this, ih (by simpa using hi)]
      rfl

theorem shown_rdF (hF : Reads F float) (x : ℝ) : Shown (some (rdF hF x)) x := ⟨_, rfl, (hF.fixed 8 x).2.choose_spec.2⟩

theorem shown_rdE (hF : Reads F float) (x : ℝ) : ShownE (some (rdE hF x)) x := ⟨_, rfl, (hF.sci 8 x).2.choose_spec.2⟩

theorem shown_row (hF : Reads F float) {C : Columns X} {r : Record X} {k : ℕ} {x : ℝ}
    (h : (r.2.1 ++ (C.groups r.2.2).flatten)[k]? = some x) : Shown ((rowOf hF C r)[k + 1]?) x := by
  rw [rowOf, List.getElem?_cons_succ, List.getElem?_map, h]
  exact shown_rdF hF x

end Magnopy.History
