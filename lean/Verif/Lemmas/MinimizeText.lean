import Verif.Lemmas.HistoryText
import Verif.Spec.MinimizeText

/-!
# Lemmas about the text of the results file
-/

set_option autoImplicit false
set_option linter.unusedSectionVars false

namespace Magnopy.Minimize

open History Txt

variable {F : NumFmt ℝ} {float : Str → Option ℝ} {seed : Str}

/-! ### The order of the records -/

/-- Every announcement of a history is followed by the report, and the names of atoms are words. -/
inductive Closed : List Rec → Prop where
  | nil : Closed []
  | one {r : Rec} {l : List Rec} : (∀ q f, r ≠ .history q f) →
    (∀ n p e, r = .spin n p e → OneWord n.toList) → Closed l → Closed (r :: l)
  | two {q : V3 ℤ} {f : HistFile} {s : Str} {i : Option ℕ} {l : List Rec} : Closed l → Closed (.history q f :: .done s i :: l)

theorem Closed.append {a b : List Rec} (ha : Closed a) (hb : Closed b) : Closed (a ++ b) := by
  induction ha with
  | nil => exact hb
  | one h h' _ ih => exact .one h h' ih
  | two _ ih => exact .two ih

/-- As `Closed`, but the last announcement may be open. -/
def Fine (l : List Rec) : Prop := Closed l ∨ ∃ l' q f, l = l' ++ [.history q f] ∧ Closed l'

/-- After a part of the script. -/
def Sound {α : Type} : Run α → Prop
  | none => True
  | some (w, .ok _) => Closed w.recs
  | some (w, .error _) => Fine w.recs

theorem Sound.andThen {α β : Type} {r : Run α} {f : α → World → Run β} (hr : Sound r)
    (hf : ∀ a w, Closed w.recs → Sound (f a w)) : Sound (r.andThen f) := by
  match r, hr with
  | none, _ => trivial
  | some (w, .error e), h => exact h
  | some (w, .ok a), h => exact hf a w h

theorem closed_write {w : World} {l : List Rec} (h : Closed w.recs) (hl : Closed l) : Closed (w.write l).recs := h.append hl

theorem sound_table {env : Env} (he : env.Named) (l : List (V3 ℝ)) (k : ℕ) (w : World) (h : Closed w.recs) :
    Sound (table env k l w) := by
  induction l generalizing k w with
  | nil => exact h
  | cons e l ih =>
    rw [table]
    split
    · exact Or.inl h
    · rename_i a ha
      refine ih _ _ (closed_write h (.one (by simp) ?_ .nil))
      intro n p e' heq
      simp only [Rec.spin.injEq] at heq
      rw [← heq.1]
      exact he a (List.mem_of_getElem? ha)

theorem sound_optimize {env : Env} {job : Job} {file : HistFile} {w : World} (h : Closed w.recs) :
    Sound (optimize env job file w) := by
  rw [optimize]
  split
  · trivial
  · exact Or.inl h
  · exact h

theorem sound_ferro {env : Env} (he : env.Named) {w : World} (h : Closed w.recs) : Sound (minimizeFerro env w) := by
  refine (sound_optimize (closed_write h (.one (by simp) (by simp) .nil))).andThen fun s w hw => ?_
  refine (sound_table he _ _ _ (closed_write hw (.one (by simp) (by simp) .nil))).andThen fun _ w hw => ?_
  cases env.energy .ferro s with
  | ok x => exact hw
  | error e => exact Or.inl hw

theorem sound_spiral {env : Env} (he : env.Named) {w : World} (h : Closed w.recs) : Sound (minimizeSpiral env w) := by
  refine (sound_optimize (closed_write h (.one (by simp) (by simp) .nil))).andThen fun s w hw => ?_
  refine (sound_table he _ _ _ (closed_write hw (.one (by simp) (by simp) .nil))).andThen fun _ w hw => ?_
  have := closed_write (l := [.cone s.cone, .vector s.q]) hw (.one (by simp) (by simp) (.one (by simp) (by simp) .nil))
  cases env.energy .spiral s with
  | ok x => exact this
  | error e => exact Or.inl this

theorem sound_loop {env : Env} (he : env.Named) (qs : List (V3 ℤ)) (i : ℕ) (es : List ℝ) (w : World) (h : Closed w.recs) :
    Sound (antiferroLoop env qs i es w) := by
  induction qs generalizing i es w with
  | nil => exact h
  | cons q qs ih =>
    rw [antiferroLoop]
    split
    · exact ih _ _ _ h
    · rw [optimize]
      cases env.solve (.antiferro (qvec env.recip q)) (w.write [.history q (.antiferro (i + 1))]).calls with
      | none => trivial
      | some r =>
        cases r with
        | error e => exact Or.inr ⟨_, _, _, rfl, h⟩
        | ok s =>
          simp only [Run.andThen]
          refine Sound.andThen (sound_table he _ _ _ ?_) fun _ w hw => ?_
          · have := h.append (.two (q := q) (f := .antiferro (i + 1)) (s := Str.lit "antiferromagnetic") (i := some (i + 1)) .nil)
            simpa [World.write] using this
          · have hc := closed_write (l := [.cone s.cone, .vector (qvec env.recip q)]) hw (.one (by simp) (by simp) (.one (by simp) (by simp) .nil))
            cases env.energy (.antiferro (qvec env.recip q)) s with
            | ok x => exact ih _ _ _ hc
            | error e => exact Or.inl hc

theorem sound_collect {env : Env} (he : env.Named) (gs : List Str) (es : List Val) (w : World) (h : Closed w.recs) :
    Sound (collect env gs es w) := by
  induction gs generalizing es w with
  | nil => exact h
  | cons g gs ih =>
    rw [collect]
    split_ifs
    · exact (sound_ferro he h).andThen fun _ w hw => ih _ _ hw
    · exact (sound_loop he _ _ _ _ (closed_write h (.one (by simp) (by simp) .nil))).andThen fun _ w hw => ih _ _ hw
    · exact (sound_spiral he h).andThen fun _ w hw => ih _ _ hw
    · exact ih _ _ h

theorem closed_then {p q : Part} (hp : Closed p.1) (hq : Closed q.1) : Closed (p.andThen q).1 := by
  rw [Part.andThen]
  split
  · exact hp
  · exact hp.append hq

theorem closed_formatted {es : List Val} {i : ℕ} {line : ℝ → Rec} (h : ∀ x q f, line x ≠ .history q f)
    (h' : ∀ x n p e, line x = .spin n p e → OneWord n.toList) :
    Closed (formatted es i line).1 := by
  rw [formatted]
  split
  · exact .nil
  · exact .nil
  · exact .one (h _) (h' _) .nil

theorem closed_numbers (es : List Val) (n i : ℕ) : Closed (numbers es n i).1 := by
  induction n generalizing i with
  | zero => exact .nil
  | succ n ih => exact closed_then (closed_formatted (by simp) (by simp)) (ih _)

theorem closed_guarded {gs : List Str} {i : ℕ} {s : Str} {p : Part} (h : Closed p.1) : Closed (guarded gs i s p).1 := by
  rw [guarded]
  split
  · exact .nil
  · split
    · exact h
    · exact .nil

theorem closed_summary (gs : List Str) (es : List Val) : Closed (summary gs es).1 := by
  refine closed_then (.one (by simp) (by simp) .nil) ?_
  generalize List.range es.length = l
  induction l with
  | nil => exact .nil
  | cons i l ih =>
    refine closed_then (closed_then (closed_guarded (closed_formatted (by simp) (by simp))) (closed_then (closed_guarded ?_)
      (closed_guarded (closed_formatted (by simp) (by simp))))) ih
    exact closed_then (.one (by simp) (by simp) .nil) (closed_numbers _ _ _)

theorem fine_manager {env : Env} (he : env.Named) {arg : GsArg} {w : World} {res : Except PyErr Unit} (h : manager env arg = some (w, res)) :
    Fine w.recs := by
  have : ∀ r : Run Unit, Sound r → r = some (w, res) → Fine w.recs := by
    rintro r hr rfl
    cases res with
    | ok _ => exact Or.inl hr
    | error e => exact hr
  refine this _ ?_ h
  rw [manager]
  split
  · exact Or.inl .nil
  · refine (sound_collect he _ _ _ .nil).andThen fun es w hw => ?_
    have := closed_write hw (closed_summary (by assumption) es)
    split
    · exact Or.inl this
    · exact this

/-! ### Lines -/

theorem entries_break (a b : Str) : entries float (a ++ '\n' :: b) = entries float a ++ entries float b := by
  rw [entries, linesOf_break, List.filterMap_append]; rfl

theorem entries_nil : entries float [] = [] := by
  rfl

theorem entries_line {l : Str} (h : '\n' ∉ l) : entries float l = (parse float l.split).toList := by
  have := Logo.linesOf_join (L := [l]) (by simp) (by simpa using h)
  simp only [List.intercalate, List.intersperse, List.flatten_cons, List.flatten_nil, List.append_nil] at this
  rw [entries, this]
  cases h : parse float l.split <;> simp [h]

theorem parse_long {ws : List Str} (h : 7 < ws.length) : parse float ws = none := by
  match ws, h with
  | _ :: _ :: _ :: _ :: _ :: _ :: _ :: _ :: _, _ => rfl

theorem parse_one {w : Str} : parse float [w] = none := rfl

/-! ### Words -/

theorem OneWord.split {w : Str} (h : OneWord w) : w.split = [w] := by
  have := Str.split_append (rest := []) h.1 h.2 (Or.inl rfl)
  simpa [Str.split] using this

theorem OneWord.noBreak {w : Str} (h : OneWord w) : '\n' ∉ w := fun hm => by
  have := h.2 _ hm
  revert this
  decide

theorem oneWord_plain {w : Str} (h : Plain w) : OneWord w := ⟨h.ne, h.space⟩

theorem split_padL {w : Str} (n : ℕ) (h : OneWord w) : (padL n w).split = [w] := by
  rw [padL, Str.split_pre (replicate_space _), h.split]

theorem split_cons (s t : Str) : (s ++ ' ' :: t).split = s.split ++ t.split := Str.split_append_space (by decide)

theorem split_lead (t : Str) : (Str.lit "  " ++ t).split = t.split := Str.split_pre (by decide)

theorem digits_oneWord (n : ℕ) : OneWord (Nat.toDigits 10 n) :=
  ⟨by
    intro h
    have := Nat.length_toDigits_pos (b := 10) (n := n)
    simp [h] at this,
   fun c hc => (digit_facts (Nat.isDigit_of_mem_toDigits (by decide) (by decide) hc)).1⟩

/-! ### The records -/

theorem line_none {l b : Str} (hl : '\n' ∉ l) (hp : parse float l.split = none) :
    entries float (l ++ '\n' :: b) = entries float b := by
  rw [entries_break, entries_line hl, hp]; rfl

theorem line_some {l b : Str} {x : Entry} (hl : '\n' ∉ l) (hp : parse float l.split = some x) :
    entries float (l ++ '\n' :: b) = x :: entries float b := by
  rw [entries_break, entries_line hl, hp]; rfl

theorem fixed_read (hF : Reads F float) (x : ℝ) :
    OneWord (F.fixed 8 x) ∧ ∃ y, float (F.fixed 8 x) = some y ∧ Near8 y x :=
  ⟨oneWord_plain (hF.fixed 8 x).1, (hF.fixed 8 x).2⟩

theorem cell_noBreak (hF : Reads F float) (x : ℝ) : '\n' ∉ cell F x :=
  padL_noBreak 11 (plain_noBreak (hF.fixed 8 x).1)

theorem fixed_noBreak (hF : Reads F float) (d : ℕ) (x : ℝ) : '\n' ∉ F.fixed d x := plain_noBreak (hF.fixed d x).1

theorem cells_split (hF : Reads F float) (v : V3 ℝ) : (cells F v).split = (comps v).map (F.fixed 8) := by
  have h := fun x => split_padL 11 (fixed_read hF x).1
  simp only [cells, cell, List.append_assoc, List.cons_append, split_cons, h]
  rfl

theorem vector_split (hF : Reads F float) (v : V3 ℝ) : (vectorText F v).split = (comps v).map (F.fixed 8) := by
  have h := fun x => (fixed_read hF x).1.split
  simp only [vectorText, List.append_assoc, List.cons_append, split_cons, h]
  rfl

theorem cells_noBreak (hF : Reads F float) (v : V3 ℝ) : '\n' ∉ cells F v := by
  simp [cells, cell_noBreak hF]

theorem vector_noBreak (hF : Reads F float) (v : V3 ℝ) : '\n' ∉ vectorText F v := by
  simp [vectorText, fixed_noBreak hF]

theorem mapM_read (hF : Reads F float) (l : List ℝ) :
    ∃ ys, (l.map (F.fixed 8)).mapM float = some ys ∧ List.Forall₂ Near8 ys l := by
  induction l with
  | nil => exact ⟨[], rfl, .nil⟩
  | cons x l ih =>
    obtain ⟨ys, h1, h2⟩ := ih
    obtain ⟨y, h3, h4⟩ := (fixed_read hF x).2
    refine ⟨y :: ys, ?_, .cons h4 h2⟩
    rw [List.map_cons, List.mapM_cons, h3, h1]
    rfl

theorem split_of_lit {s : String} {ws : List Str} (t : Str) (h : (Str.lit s).split = ws) (hs : ∃ p, Str.lit s = p ++ [' ']) :
    (Str.lit s ++ t).split = ws ++ t.split := by
  obtain ⟨p, hp⟩ := hs
  rw [← h, hp, List.append_assoc, List.singleton_append, split_cons, split_cons]
  simp [Str.split]

theorem history_long (hF : Reads F float) (q : V3 ℤ) (f : HistFile) (t : Str) :
    7 < (render F seed (.history q f) ++ t).split.length := by
  obtain ⟨p, hp⟩ : ∃ p, render F seed (.history q f) ++ t =
      (Str.lit "History for the q_rel = " ++ p) ++ ' ' :: (Str.lit "is written to the file " ++ (fileName seed f ++ t)) :=
    ⟨['('] ++ shortCell F (q 0) ++ Str.lit ", " ++ shortCell F (q 1) ++ Str.lit ", " ++ shortCell F (q 2) ++ [')'], by
      simp [render, Str.lit]⟩
  rw [hp, split_cons, split_of_lit p (ws := ["History", "for", "the", "q_rel", "="].map Str.lit) (by decide)
    ⟨Str.lit "History for the q_rel =", by decide⟩,
    split_of_lit _ (ws := ["is", "written", "to", "the", "file"].map Str.lit) (by decide)
    ⟨Str.lit "is written to the file", by decide⟩]
  simp
  omega

theorem seed_noBreak (hs : ∀ c ∈ seed, Str.isSpace c = false) : '\n' ∉ seed := fun hm => by
  have := hs _ hm
  revert this
  decide

theorem fileName_word (hs : ∀ c ∈ seed, Str.isSpace c = false) (f : HistFile) : OneWord (fileName seed f) := by
  have hc : ∀ s : String, (∀ c ∈ Str.lit s, Str.isSpace c = false) → Str.lit s ≠ [] → OneWord (seed ++ Str.lit s) := by
    intro s h1 h2
    refine ⟨by simp [h2], fun c hc => ?_⟩
    rcases List.mem_append.1 hc with hc | hc
    · exact hs c hc
    · exact h1 c hc
  cases f with
  | ferro => exact hc _ (by decide) (by decide)
  | spiral => exact hc _ (by decide) (by decide)
  | antiferro i =>
    have h := hc "-antiferro-history-" (by decide) (by decide)
    refine ⟨by simp [fileName, h.1], fun c hc => ?_⟩
    rcases List.mem_append.1 hc with hc | hc
    · exact h.2 c hc
    · exact (digits_oneWord i).2 c hc

theorem doneText_noBreak (s : Str) (i : Option ℕ) : '\n' ∉ doneText s i := by
  cases i with
  | none =>
    simp only [doneText]
    split <;> decide
  | some i =>
    have := (digits_oneWord i).noBreak
    have h1 : '\n' ∉ Str.lit "Minimization for the antiferro case is done " := by decide
    have h2 : '\n' ∉ Str.lit " out of 26." := by decide
    simp [doneText, this, h1, h2]

theorem doneText_none (hw : NoNumbers float) (s : Str) (i : Option ℕ) : parse float (doneText s i).split = none := by
  cases i with
  | none =>
    simp only [doneText]
    split
    · have : (Str.lit "Minimization for ferromagnetic case is done.").split =
        ["Minimization", "for", "ferromagnetic", "case", "is", "done."].map Str.lit := by decide
      rw [this]
      simp only [List.map_cons, List.map_nil, parse]
      rw [if_neg (by decide), if_neg (by decide)]
    · have : (Str.lit "Minimization for the spiral case is done.").split =
        ["Minimization", "for", "the", "spiral", "case", "is", "done."].map Str.lit := by decide
      rw [this]
      simp [parse, hw.2]
  | some i =>
    apply parse_long
    rw [doneText, List.append_assoc, split_of_lit _
      (ws := ["Minimization", "for", "the", "antiferro", "case", "is", "done"].map Str.lit) (by decide)
      ⟨Str.lit "Minimization for the antiferro case is done", by decide⟩]
    have : Str.split (Nat.toDigits 10 i ++ Str.lit " out of 26.") = Str.split (Nat.toDigits 10 i) ++ (Str.lit "out of 26.").split :=
      split_cons _ _
    rw [this, (digits_oneWord i).split]
    simp

theorem title_none (hw : NoNumbers float) : parse float tableTitle.split = none := by
  have : tableTitle.split = ["name", "r1", "r2", "r3", "sx", "sy", "sz"].map Str.lit := by decide
  rw [this]
  simp [parse, hw.1]

theorem title_noBreak : '\n' ∉ tableTitle := by decide

theorem minimum_none (b : Str) : entries float (Str.lit "Spin orientations in the minimum configuration:" ++ '\n' :: b) =
    entries float b := by
  refine line_none (by decide) ?_
  have : (Str.lit "Spin orientations in the minimum configuration:").split =
    ["Spin", "orientations", "in", "the", "minimum", "configuration:"].map Str.lit := by decide
  rw [this]
  simp only [List.map_cons, List.map_nil, parse]
  rw [if_neg (by decide), if_neg (by decide)]

theorem done_tail (hw : NoNumbers float) (b : Str) : entries float (Str.lit "Spin orientations in the minimum configuration:" ++
    '\n' :: (tableTitle ++ '\n' :: b)) = entries float b := by
  rw [minimum_none, line_none title_noBreak (title_none hw)]

theorem read_done (hw : NoNumbers float) (s : Str) (i : Option ℕ) (b : Str) :
    entries float (render F seed (.done s i) ++ b) = entries float b := by
  have : render F seed (.done s i) ++ b = doneText s i ++ '\n' :: (Str.lit "Spin orientations in the minimum configuration:" ++
      '\n' :: (tableTitle ++ '\n' :: b)) := by simp [render]
  rw [this, line_none (doneText_noBreak s i) (doneText_none hw s i), done_tail hw]

theorem history_noBreak (hF : Reads F float) (hs : ∀ c ∈ seed, Str.isSpace c = false) (q : V3 ℤ) (f : HistFile) :
    '\n' ∉ render F seed (.history q f) := by
  have h1 : '\n' ∉ Str.lit "History for the q_rel = (" := by decide
  have h2 : '\n' ∉ Str.lit ", " := by decide
  have h3 : '\n' ∉ Str.lit ") is written to the file " := by decide
  have h4 : ∀ z : ℤ, '\n' ∉ shortCell F z := fun z => padL_noBreak 2 (fixed_noBreak hF 0 z)
  simp [render, h1, h2, h3, h4, (fileName_word hs f).noBreak]

theorem read_history (hF : Reads F float) (hw : NoNumbers float) (hs : ∀ c ∈ seed, Str.isSpace c = false) (q : V3 ℤ)
    (f : HistFile) (s : Str) (i : Option ℕ) (b : Str) :
    entries float (render F seed (.history q f) ++ (render F seed (.done s i) ++ b)) = entries float b := by
  have : render F seed (.history q f) ++ (render F seed (.done s i) ++ b) = (render F seed (.history q f) ++ doneText s i) ++
      '\n' :: (Str.lit "Spin orientations in the minimum configuration:" ++ '\n' :: (tableTitle ++ '\n' :: b)) := by
    simp [render]
  rw [this, line_none ?_ (parse_long (history_long hF q f _)), done_tail hw]
  simp only [List.mem_append, not_or]
  exact ⟨history_noBreak hF hs q f, doneText_noBreak s i⟩

/-- The lines of one record, if it is not the announcement of a history. -/
theorem read_rec (hF : Reads F float) (hw : NoNumbers float) (hs : ∀ c ∈ seed, Str.isSpace c = false) {r : Rec}
    (hr : ∀ q f, r ≠ .history q f) (hn : ∀ n p e, r = .spin n p e → OneWord n.toList) :
    ∃ es, List.Forall₂ Entry.Near es r.entry.toList ∧ ∀ b, entries float (render F seed r ++ b) = es ++ entries float b := by
  have long : ∀ {s : String} (b : Str), '\n' ∉ Str.lit s → 7 < (Str.lit s).split.length →
      entries float (Str.lit s ++ '\n' :: b) = entries float b := fun b h1 h2 => line_none h1 (parse_long h2)
  have name : ∀ f b, entries float (fileName seed f ++ '\n' :: b) = entries float b := fun f b =>
    line_none (fileName_word hs f).noBreak (by rw [(fileName_word hs f).split, parse_one])
  have num : ∀ {s : String} {ws : List Str} (x : ℝ), (Str.lit s).split = ws → (∃ p, Str.lit s = p ++ [' ']) →
      '\n' ∉ Str.lit s → (Str.lit s ++ F.fixed 8 x).split = ws ++ [F.fixed 8 x] ∧ '\n' ∉ Str.lit s ++ F.fixed 8 x := by
    intro s ws x h1 h2 h3
    exact ⟨by rw [split_of_lit _ h1 h2, (fixed_read hF x).1.split], by simp [h3, fixed_noBreak hF]⟩
  cases r with
  | start s =>
    refine ⟨[], .nil, fun b => ?_⟩
    rw [render]
    split_ifs
    · have := long (s := "Start to minimize assuming antiferromagnetic ground state type.")
        (Str.lit "History of the minimization is written in the 26 files" ++ '\n' :: b) (by decide) (by decide)
      have h2 := long (s := "History of the minimization is written in the 26 files") b (by decide) (by decide)
      simpa [h2] using this
    · have := long (s := "Start to minimize assuming ferromagnetic ground state type.")
        (Str.lit "History of the minimization is written in the file" ++ '\n' :: (fileName seed .ferro ++ '\n' :: b))
        (by decide) (by decide)
      have h2 := long (s := "History of the minimization is written in the file") (fileName seed .ferro ++ '\n' :: b)
        (by decide) (by decide)
      rw [h2, name] at this
      simpa using this
    · have := long (s := "Start to minimize assuming spiral ground state type.")
        (Str.lit "History of the minimization is written in the file" ++ '\n' :: (fileName seed .spiral ++ '\n' :: b))
        (by decide) (by decide)
      have h2 := long (s := "History of the minimization is written in the file") (fileName seed .spiral ++ '\n' :: b)
        (by decide) (by decide)
      rw [h2, name] at this
      simpa using this
  | history q f => exact absurd rfl (hr q f)
  | done s i => exact ⟨[], .nil, fun b => read_done hw s i b⟩
  | spin n p e =>
    have h := hn n p e rfl
    obtain ⟨ys, h1, h2⟩ := mapM_read hF (comps p ++ comps e)
    refine ⟨[.row n.toList ys], .cons ⟨rfl, h2⟩ .nil, fun b => ?_⟩
    have e1 : render F seed (.spin n p e) ++ b =
        (Str.lit "  " ++ (padL 5 n.toList ++ ' ' :: (cells F p ++ ' ' :: cells F e))) ++ '\n' :: b := by simp [render]
    rw [e1]
    refine line_some ?_ ?_
    · have h3 : '\n' ∉ Str.lit "  " := by decide
      simp [h3, cells_noBreak hF, padL_noBreak 5 h.noBreak]
    · rw [split_lead, split_cons, split_cons, split_padL 5 h, cells_split hF, cells_split hF, ← List.map_append]
      simp only [comps, List.cons_append, List.nil_append, List.map_cons, List.map_nil, parse] at h1 ⊢
      rw [h1]
      rfl
  | cone n =>
    obtain ⟨ys, h1, h2⟩ := mapM_read hF (comps n)
    refine ⟨[.cone ys], .cons h2 .nil, fun b => ?_⟩
    have e1 : render F seed (.cone n) ++ b = (Str.lit "Cone axis is: " ++ vectorText F n) ++ '\n' :: b := by simp [render]
    rw [e1]
    refine line_some ?_ ?_
    · have h3 : '\n' ∉ Str.lit "Cone axis is: " := by decide
      simp [h3, vector_noBreak hF]
    · rw [split_of_lit _ (ws := ["Cone", "axis", "is:"].map Str.lit) (by decide) ⟨Str.lit "Cone axis is:", by decide⟩,
        vector_split hF]
      simp only [comps, List.cons_append, List.nil_append, List.map_cons, List.map_nil, parse, if_true] at h1 ⊢
      rw [h1]
      rfl
  | vector q =>
    obtain ⟨ys, h1, h2⟩ := mapM_read hF (comps q)
    refine ⟨[.vector ys], .cons h2 .nil, fun b => ?_⟩
    have e1 : render F seed (.vector q) ++ b = (Str.lit "Spiral vector is: " ++ vectorText F q) ++ '\n' :: b := by
      simp [render]
    rw [e1]
    refine line_some ?_ ?_
    · have h3 : '\n' ∉ Str.lit "Spiral vector is: " := by decide
      simp [h3, vector_noBreak hF]
    · rw [split_of_lit _ (ws := ["Spiral", "vector", "is:"].map Str.lit) (by decide)
        ⟨Str.lit "Spiral vector is:", by decide⟩, vector_split hF]
      simp only [comps, List.cons_append, List.nil_append, List.map_cons, List.map_nil, parse, if_true] at h1 ⊢
      rw [if_neg (by decide), h1]
      rfl
  | summary =>
    refine ⟨[], .nil, fun b => ?_⟩
    have e1 : render F seed .summary ++ b = Str.lit "All minimization routines are finished. Summary:" ++ '\n' :: b := by
      simp [render]
    rw [e1]
    refine line_none (by decide) ?_
    have : (Str.lit "All minimization routines are finished. Summary:").split =
      ["All", "minimization", "routines", "are", "finished.", "Summary:"].map Str.lit := by decide
    rw [this]
    simp only [List.map_cons, List.map_nil, parse]
    rw [if_neg (by decide), if_neg (by decide)]
  | ferro x =>
    obtain ⟨y, h1, h2⟩ := (fixed_read hF x).2
    refine ⟨[.ferro y], .cons h2 .nil, fun b => ?_⟩
    have e1 : render F seed (.ferro x) ++ b = (Str.lit "Ferromagnetic energy : " ++ F.fixed 8 x) ++ '\n' :: b := by
      simp [render]
    obtain ⟨n1, n2⟩ := num (s := "Ferromagnetic energy : ") (ws := ["Ferromagnetic", "energy", ":"].map Str.lit) x (by decide)
      ⟨Str.lit "Ferromagnetic energy :", by decide⟩ (by decide)
    rw [e1]
    refine line_some n2 ?_
    rw [n1]
    simp only [List.cons_append, List.nil_append, List.map_cons, List.map_nil, parse, if_true, h1]
    rfl
  | antiferroTitle =>
    refine ⟨[], .nil, fun b => ?_⟩
    have e1 : render F seed .antiferroTitle ++ b = Str.lit "Antiferromagnetic energies :" ++ '\n' :: b := by simp [render]
    rw [e1]
    refine line_none (by decide) ?_
    have : (Str.lit "Antiferromagnetic energies :").split = ["Antiferromagnetic", "energies", ":"].map Str.lit := by decide
    rw [this]
    rfl
  | antiferro n x =>
    obtain ⟨y, h1, h2⟩ := (fixed_read hF x).2
    refine ⟨[.antiferro (Nat.toDigits 10 n) y], .cons ⟨rfl, h2⟩ .nil, fun b => ?_⟩
    have e1 : render F seed (.antiferro n x) ++ b =
        (Str.lit "  " ++ (Nat.toDigits 10 n ++ ' ' :: F.fixed 8 x)) ++ '\n' :: b := by simp [render]
    rw [e1]
    refine line_some ?_ ?_
    · have h3 : '\n' ∉ Str.lit "  " := by decide
      simp [h3, fixed_noBreak hF, (digits_oneWord n).noBreak]
    · rw [split_lead, split_cons, (digits_oneWord n).split, (fixed_read hF x).1.split]
      simp only [List.cons_append, List.nil_append, parse, h1]
      rfl
  | spiral x =>
    obtain ⟨y, h1, h2⟩ := (fixed_read hF x).2
    refine ⟨[.spiral y], .cons h2 .nil, fun b => ?_⟩
    have e1 : render F seed (.spiral x) ++ b = (Str.lit "Spiral energy : " ++ F.fixed 8 x) ++ '\n' :: b := by
      simp [render]
    obtain ⟨n1, n2⟩ := num (s := "Spiral energy : ") (ws := ["Spiral", "energy", ":"].map Str.lit) x (by decide)
      ⟨Str.lit "Spiral energy :", by decide⟩ (by decide)
    rw [e1]
    refine line_some n2 ?_
    rw [n1]
    simp only [List.cons_append, List.nil_append, List.map_cons, List.map_nil, parse, if_true, h1]
    rw [if_neg (by decide)]
    rfl

theorem read_closed (hF : Reads F float) (hw : NoNumbers float) (hs : ∀ c ∈ seed, Str.isSpace c = false) {l : List Rec}
    (hl : Closed l) :
    ∃ es, List.Forall₂ Entry.Near es (l.filterMap Rec.entry) ∧
      ∀ b, entries float (l.flatMap (render F seed) ++ b) = es ++ entries float b := by
  induction hl with
  | nil => exact ⟨[], .nil, fun b => rfl⟩
  | one h h' _ ih =>
    rename_i r l hl
    obtain ⟨es, h1, h2⟩ := ih
    obtain ⟨es', h3, h4⟩ := read_rec (F := F) hF hw hs h h'
    refine ⟨es' ++ es, ?_, fun b => ?_⟩
    · have : (r :: l).filterMap Rec.entry = r.entry.toList ++ l.filterMap Rec.entry := by
        cases h : r.entry <;> simp [h]
      rw [this]
      exact List.rel_append h3 h1
    · rw [List.flatMap_cons, List.append_assoc, h4, h2, List.append_assoc]
  | two _ ih =>
    obtain ⟨es, h1, h2⟩ := ih
    refine ⟨es, h1, fun b => ?_⟩
    rw [List.flatMap_cons, List.flatMap_cons, List.append_assoc, List.append_assoc, read_history hF hw hs, h2]

theorem read_fine (hF : Reads F float) (hw : NoNumbers float) (hs : ∀ c ∈ seed, Str.isSpace c = false) {l : List Rec}
    (hl : Fine l) :
    List.Forall₂ Entry.Near (entries float (l.flatMap (render F seed))) (l.filterMap Rec.entry) := by
  rcases hl with hl | ⟨l', q, f, rfl, hl⟩
  · obtain ⟨es, h1, h2⟩ := read_closed (F := F) hF hw hs hl
    have := h2 []
    rw [List.append_nil, entries_nil, List.append_nil] at this
    rw [this]
    exact h1
  · obtain ⟨es, h1, h2⟩ := read_closed (F := F) hF hw hs hl
    rw [List.flatMap_append, h2]
    have : entries float ([Rec.history q f].flatMap (render F seed)) = [] := by
      rw [List.flatMap_singleton, entries_line (history_noBreak hF hs q f)]
      have := history_long (seed := seed) hF q f []
      rw [List.append_nil] at this
      rw [parse_long this]
      rfl
    rw [this, List.append_nil]
    have e1 : [Rec.history q f].filterMap Rec.entry = [] := rfl
    rw [List.filterMap_append, e1, List.append_nil]
    exact h1

/-! ### The names of the history files -/

theorem not_announces {l : Str} (h : l.head? ≠ some 'H') : ¬ Str.lit "History for" <+: l := by
  rintro ⟨t, rfl⟩
  exact h rfl

theorem linesOf_one {l : Str} (h : '\n' ∉ l) : Logo.linesOf l = [l] := by
  have := Logo.linesOf_join (L := [l]) (by simp) (by simpa using h)
  simpa [List.intercalate, List.intersperse] using this

theorem mem_lines {l b x : Str} (h : '\n' ∉ l) (hx : x ∈ Logo.linesOf (l ++ '\n' :: b)) : x = l ∨ x ∈ Logo.linesOf b := by
  rw [linesOf_break, linesOf_one h] at hx
  simpa using hx

/-- A line which announces a history and is joined with the report. -/
def Joined (F : NumFmt ℝ) (seed x : Str) : Prop := ∃ q f s i, x = render F seed (.history q f) ++ doneText s i

theorem done_tail_lines {b x : Str} (hx : x ∈ Logo.linesOf (Str.lit "Spin orientations in the minimum configuration:" ++
    '\n' :: (tableTitle ++ '\n' :: b))) (ha : Str.lit "History for" <+: x) : x ∈ Logo.linesOf b := by
  rcases mem_lines (by decide) hx with rfl | hx
  · exact absurd ha (by decide)
  · rcases mem_lines title_noBreak hx with rfl | hx
    · exact absurd ha (by decide)
    · exact hx

theorem rec_lines (hF : Reads F float) (hs : ∀ c ∈ seed, Str.isSpace c = false) {r : Rec}
    (hr : ∀ q f, r ≠ .history q f) (hn : ∀ n p e, r = .spin n p e → OneWord n.toList) {b x : Str}
    (hx : x ∈ Logo.linesOf (render F seed r ++ b)) (ha : Str.lit "History for" <+: x) : x ∈ Logo.linesOf b := by
  have name : ∀ f, ¬ Str.lit "History for" <+: fileName seed f := by
    rintro f ⟨t, ht⟩
    have := (fileName_word hs f).2 ' ' (by rw [← ht]; exact List.mem_append_left _ (by decide))
    revert this
    decide
  have one : ∀ {l : Str} {b : Str}, '\n' ∉ l → l.head? ≠ some 'H' → x ∈ Logo.linesOf (l ++ '\n' :: b) → x ∈ Logo.linesOf b := by
    intro l b h1 h2 h3
    rcases mem_lines h1 h3 with rfl | h
    · exact absurd ha (not_announces h2)
    · exact h
  have lit : ∀ {s : String} {l : Str} {c : Char}, (Str.lit s).head? = some c → c ≠ 'H' → (Str.lit s ++ l).head? ≠ some 'H' := by
    intro s l c h1 h2
    rw [List.head?_append, h1]
    simpa using h2
  cases r with
  | start s =>
    rw [render] at hx
    split_ifs at hx
    · rw [List.append_assoc, List.cons_append, List.append_assoc] at hx
      have hx := one (by decide) (by decide) hx
      rcases mem_lines (by decide) hx with rfl | hx
      · exact absurd ha (by decide)
      · exact hx
    all_goals
      simp only [List.append_assoc, List.cons_append, List.nil_append] at hx
      have hx := one (by decide) (by decide) hx
      rcases mem_lines (by decide) hx with rfl | hx
      · exact absurd ha (by decide)
      · rcases mem_lines (fileName_word hs _).noBreak hx with rfl | hx
        · exact absurd ha (name _)
        · exact hx
  | history q f => exact absurd rfl (hr q f)
  | done s i =>
    simp only [render, List.append_assoc, List.cons_append, List.nil_append] at hx
    refine done_tail_lines (one (doneText_noBreak s i) ?_ hx) ha
    cases i with
    | none =>
      simp only [doneText]
      split <;> decide
    | some i =>
      simp only [doneText, List.append_assoc]
      exact lit (c := 'M') rfl (by decide)
  | spin n p e =>
    have h := hn n p e rfl
    have h3 : '\n' ∉ Str.lit "  " := by decide
    have e1 : render F seed (.spin n p e) ++ b =
        (Str.lit "  " ++ (padL 5 n.toList ++ ' ' :: (cells F p ++ ' ' :: cells F e))) ++ '\n' :: b := by simp [render]
    rw [e1] at hx
    exact one (by simp [h3, cells_noBreak hF, padL_noBreak 5 h.noBreak]) (lit (c := ' ') rfl (by decide)) hx
  | cone n =>
    have h3 : '\n' ∉ Str.lit "Cone axis is: " := by decide
    have e1 : render F seed (.cone n) ++ b = (Str.lit "Cone axis is: " ++ vectorText F n) ++ '\n' :: b := by simp [render]
    rw [e1] at hx
    exact one (by simp [h3, vector_noBreak hF]) (lit (c := 'C') rfl (by decide)) hx
  | vector q =>
    have h3 : '\n' ∉ Str.lit "Spiral vector is: " := by decide
    have e1 : render F seed (.vector q) ++ b = (Str.lit "Spiral vector is: " ++ vectorText F q) ++ '\n' :: b := by
      simp [render]
    rw [e1] at hx
    exact one (by simp [h3, vector_noBreak hF]) (lit (c := 'S') rfl (by decide)) hx
  | summary =>
    simp only [render, List.append_assoc, List.cons_append, List.nil_append] at hx
    exact one (by decide) (by decide) hx
  | ferro y =>
    have h3 : '\n' ∉ Str.lit "Ferromagnetic energy : " := by decide
    have e1 : render F seed (.ferro y) ++ b = (Str.lit "Ferromagnetic energy : " ++ F.fixed 8 y) ++ '\n' :: b := by
      simp [render]
    rw [e1] at hx
    exact one (by simp [h3, fixed_noBreak hF]) (lit (c := 'F') rfl (by decide)) hx
  | antiferroTitle =>
    simp only [render, List.append_assoc, List.cons_append, List.nil_append] at hx
    exact one (by decide) (by decide) hx
  | antiferro n y =>
    have h3 : '\n' ∉ Str.lit "  " := by decide
    have e1 : render F seed (.antiferro n y) ++ b =
        (Str.lit "  " ++ (Nat.toDigits 10 n ++ ' ' :: F.fixed 8 y)) ++ '\n' :: b := by simp [render]
    rw [e1] at hx
    exact one (by simp [h3, fixed_noBreak hF, (digits_oneWord n).noBreak]) (lit (c := ' ') rfl (by decide)) hx
  | spiral y =>
    have h3 : '\n' ∉ Str.lit "Spiral energy : " := by decide
    have e1 : render F seed (.spiral y) ++ b = (Str.lit "Spiral energy : " ++ F.fixed 8 y) ++ '\n' :: b := by
      simp [render]
    rw [e1] at hx
    exact one (by simp [h3, fixed_noBreak hF]) (lit (c := 'S') rfl (by decide)) hx

theorem closed_lines (hF : Reads F float) (hs : ∀ c ∈ seed, Str.isSpace c = false) {l : List Rec} (hl : Closed l) {x : Str}
    (hx : x ∈ Logo.linesOf (l.flatMap (render F seed))) (ha : Str.lit "History for" <+: x) : Joined F seed x := by
  induction hl with
  | nil =>
    simp only [List.flatMap_nil, Logo.linesOf, List.mem_singleton] at hx
    subst hx
    exact absurd ha (by decide)
  | one h h' _ ih =>
    rw [List.flatMap_cons] at hx
    exact ih (rec_lines hF hs h h' hx ha)
  | two _ ih =>
    rename_i q f s i l _
    rw [List.flatMap_cons, List.flatMap_cons] at hx
    have e1 : render F seed (.history q f) ++ (render F seed (.done s i) ++ l.flatMap (render F seed)) =
        (render F seed (.history q f) ++ doneText s i) ++ '\n' :: (Str.lit "Spin orientations in the minimum configuration:" ++
          '\n' :: (tableTitle ++ '\n' :: l.flatMap (render F seed))) := by
      simp [render]
    rw [e1] at hx
    rcases mem_lines (by
      simp only [List.mem_append, not_or]
      exact ⟨history_noBreak hF hs q f, doneText_noBreak s i⟩) hx with rfl | hx
    · exact ⟨q, f, s, i, rfl⟩
    · exact ih (done_tail_lines hx ha)

theorem doneText_last (s : Str) (i : Option ℕ) (p : Str) :
    (p ++ doneText s i).split.getLast? = some (Str.lit "done.") ∨ (p ++ doneText s i).split.getLast? = some (Str.lit "26.") := by
  have key : ∀ (a : Str) (w : Str), OneWord w → (p ++ (a ++ ' ' :: w)).split.getLast? = some w := by
    intro a w hw
    rw [← List.append_assoc, split_cons, hw.split]
    simp
  cases i with
  | none =>
    left
    simp only [doneText]
    split
    · exact key (Str.lit "Minimization for ferromagnetic case is") (Str.lit "done.") ⟨by decide, by decide⟩
    · exact key (Str.lit "Minimization for the spiral case is") (Str.lit "done.") ⟨by decide, by decide⟩
  | some i =>
    right
    have : doneText s (some i) = (Str.lit "Minimization for the antiferro case is done " ++ Nat.toDigits 10 i ++
        Str.lit " out of") ++ ' ' :: Str.lit "26." := by simp [doneText, Str.lit]
    rw [this]
    exact key _ _ ⟨by decide, by decide⟩

end Magnopy.Minimize
