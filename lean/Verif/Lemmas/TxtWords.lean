import Verif.Spec.TxtDump
import Verif.Lemmas.TxtLoadParams
import Verif.Props.TxtSections

/-!
# Lemmas about written lines
-/

set_option autoImplicit false
set_option linter.unusedSectionVars false

namespace Magnopy

open Txt

namespace Str

theorem split_append_space {s t : Str} {c : Char} (hc : isSpace c = true) : split (s ++ c :: t) = split s ++ split t := by
  induction s with
  | nil => simp [split_space hc, split]
  | cons d s ih =>
    by_cases hd : isSpace d = true
    · rw [List.cons_append, split_space hd, split_space hd, ih]
    · have hd' : isSpace d = false := by simpa using hd
      cases s with
      | nil =>
        rw [List.cons_append, List.nil_append, split.eq_def]
        simp [hd', hc, split_space hc, split]
      | cons e s =>
        rw [List.cons_append, split.eq_def, split.eq_def (d :: e :: s)]
        simp only [List.cons_append] at ih ⊢
        rw [ih]
        by_cases he : isSpace e = true
        · simp [hd', he]
        · have he' : isSpace e = false := by simpa using he
          simp only [hd', he']
          have : ∃ w ws, split (e :: s) = w :: ws := by
            rw [split.eq_def]
            simp only [he']
            cases s with
            | nil => exact ⟨_, _, rfl⟩
            | cons f s =>
              by_cases hf : isSpace f = true
              · simp [hf]
              · simp only [hf]
                cases split (f :: s) <;> simp
          obtain ⟨w, ws, e1⟩ := this
          rw [e1]
          simp

theorem split_spaces {q : Str} (h : ∀ c ∈ q, isSpace c = true) : split q = [] := by
  induction q with
  | nil => rfl
  | cons c q ih =>
    rw [split_space (h c (by simp))]
    exact ih fun d hd => h d (by simp [hd])

theorem split_pre {p s : Str} (h : ∀ c ∈ p, isSpace c = true) : split (p ++ s) = split s := by
  induction p with
  | nil => rfl
  | cons c p ih =>
    rw [List.cons_append, split_space (h c (by simp))]
    exact ih fun d hd => h d (by simp [hd])

theorem split_post {q s : Str} (h : ∀ c ∈ q, isSpace c = true) : split (s ++ q) = split s := by
  cases q with
  | nil => rw [List.append_nil]
  | cons c q =>
    rw [split_append_space (h c (by simp)), split_spaces (q := q) fun d hd => h d (by simp [hd]), List.append_nil]

theorem split_strip (s : Str) : split (strip s) = split s := by
  obtain ⟨p, q, h1, h2, h3, -, -⟩ := strip_spec s
  conv_rhs => rw [h1]
  rw [split_post h3, split_pre h2]

theorem split_plain {w : Str} (h : Plain w) : split w = [w] := by
  have := split_append (rest := []) h.ne h.space (Or.inl rfl)
  simpa [split] using this

end Str

namespace Txt

/-- A line without comment whose words are `ws`. -/
structure Spaced (s : Str) (ws : List Str) : Prop where
  hash : '#' ∉ s
  split : s.split = ws

theorem spaced_append {s t : Str} {ws us : List Str} (h : Spaced s ws) (h' : Spaced t us) :
    Spaced (s ++ ' ' :: t) (ws ++ us) := by
  refine ⟨?_, by rw [Str.split_append_space (by decide), h.split, h'.split]⟩
  have := h.hash
  have := h'.hash
  simp [*]

theorem spaced_plain {w : Str} (h : Plain w) : Spaced w [w] := ⟨h.hash, Str.split_plain h⟩

theorem replicate_space (n : ℕ) : ∀ c ∈ List.replicate n ' ', Str.isSpace c = true := by
  intro c hc
  rw [List.eq_of_mem_replicate hc]
  decide

theorem hash_space (n : ℕ) : '#' ∉ List.replicate n ' ' := by
  intro h
  have := List.eq_of_mem_replicate h
  revert this
  decide

theorem spaced_padL {w : Str} (n : ℕ) (h : Plain w) : Spaced (padL n w) [w] := by
  refine ⟨?_, by rw [padL, Str.split_pre (replicate_space _), Str.split_plain h]⟩
  rw [padL, List.mem_append]
  rintro (h' | h')
  · exact hash_space _ h'
  · exact h.hash h'

theorem spaced_padR {w : Str} (n : ℕ) (h : Plain w) : Spaced (padR n w) [w] := by
  refine ⟨?_, by rw [padR, Str.split_post (replicate_space _), Str.split_plain h]⟩
  rw [padR, List.mem_append]
  rintro (h' | h')
  · exact h.hash h'
  · exact hash_space _ h'

theorem join_cons {w : Str} {ws : List Str} (h : ws ≠ []) : join (w :: ws) = w ++ ' ' :: join ws := by
  cases ws with
  | nil => exact absurd rfl h
  | cons a as => rfl

theorem join_append {ws us : List Str} (h : ws ≠ []) (h' : us ≠ []) : join (ws ++ us) = join ws ++ ' ' :: join us := by
  induction ws with
  | nil => exact absurd rfl h
  | cons w ws ih =>
    cases ws with
    | nil => simpa [join] using join_cons h'
    | cons a as =>
      have := ih (by simp)
      rw [List.cons_append, join_cons (by simp), this, join_cons (ws := a :: as) (by simp), List.append_assoc]
      rfl

/-- A joined list of padded words. -/
theorem spaced_join {ss ws : List Str} (h : List.Forall₂ (fun s w => Spaced s [w]) ss ws) : Spaced (join ss) ws := by
  induction h with
  | nil => exact ⟨by simp [join], rfl⟩
  | cons h hs ih =>
    rename_i s w ss ws
    cases hs with
    | nil => exact h
    | cons h' hs => exact spaced_append h ih

/-- A line of a filtered file with its words. -/
structure Says (c : Str) (ws : List Str) : Prop where
  clean : Clean c
  split : c.split = ws

/-! ### Filtering -/

/-- The filtered lines. -/
def flt (ls : List Str) : List Str := (filter ls).map Prod.fst

theorem filterFrom_fst (n m : ℕ) (ls : List Str) : (filterFrom n ls).map Prod.fst = (filterFrom m ls).map Prod.fst := by
  induction ls generalizing n m with
  | nil => rfl
  | cons l ls ih =>
    rw [filterFrom, filterFrom]
    split
    · exact ih _ _
    · dsimp only
      split
      · rw [List.map_cons, List.map_cons, ih (n + 1) (m + 1)]
      · exact ih _ _

theorem flt_append (ls ms : List Str) : flt (ls ++ ms) = flt ls ++ flt ms := by
  unfold flt filter
  induction ls with
  | nil => rfl
  | cons l ls ih =>
    rw [List.cons_append, filterFrom, filterFrom]
    split
    · rw [filterFrom_fst (0 + 1) 0 (ls ++ ms), filterFrom_fst (0 + 1) 0 ls]
      exact ih
    · dsimp only
      split
      · rw [List.map_cons, List.map_cons, filterFrom_fst (0 + 1) 0 (ls ++ ms), filterFrom_fst (0 + 1) 0 ls, ih, List.cons_append]
      · rw [filterFrom_fst (0 + 1) 0 (ls ++ ms), filterFrom_fst (0 + 1) 0 ls]
        exact ih

/-- A line of the written file with its words and perhaps a comment. -/
def LineOf (l : Str) (ws : List Str) : Prop :=
  ∃ s rest, l = s ++ rest ∧ Spaced s ws ∧ ws ≠ [] ∧ (rest = [] ∨ ∃ t, rest = '#' :: t)

theorem flt_comment (t : Str) (ls : List Str) : flt (('#' :: t) :: ls) = flt ls := by
  unfold flt filter
  rw [filterFrom, if_pos (by rw [Str.startsWith]; rfl), filterFrom_fst (0 + 1) 0]

theorem flt_line {l : Str} {ws : List Str} (h : LineOf l ws) : ∃ c, (∀ ls, flt (l :: ls) = c :: flt ls) ∧ Says c ws := by
  obtain ⟨s, rest, rfl, h1, h2, h3⟩ := h
  have hb : Str.beforeHash (s ++ rest) = s := by
    rw [Str.beforeHash, List.takeWhile_append_of_pos (fun c hc => by
      have : c ≠ '#' := fun e => h1.hash (e ▸ hc)
      simpa using this)]
    rcases h3 with rfl | ⟨t, rfl⟩ <;> simp
  have hs : s.strip ≠ [] := by
    intro e
    have := Str.split_strip s
    rw [e, h1.split] at this
    exact h2 this.symm
  have hn : Str.startsWith (s ++ rest) ['#'] = false := by
    cases s with
    | nil => exact absurd h1.split.symm h2
    | cons c s =>
      have : c ≠ '#' := fun e => h1.hash (by simp [e])
      simp [Str.startsWith, List.isPrefixOf, this.symm]
  have key : ∀ ls, flt ((s ++ rest) :: ls) = s.strip :: flt ls := by
    intro ls
    unfold flt filter
    rw [filterFrom, if_neg (by rw [hn]; decide)]
    simp only [hb, if_pos hs, List.map_cons]
    rw [filterFrom_fst (0 + 1) 0]
  refine ⟨s.strip, key, ?_, by rw [Str.split_strip]; exact h1.split⟩
  refine filter_clean [s ++ rest] _ ?_
  have := key []
  rw [show (Txt.filter [s ++ rest]).map Prod.fst = flt [s ++ rest] from rfl, this]
  simp

/-- A list of lines with their words. -/
theorem flt_lines {ls : List Str} {wss : List (List Str)} (h : List.Forall₂ LineOf ls wss) :
    List.Forall₂ Says (flt ls) wss := by
  induction h with
  | nil => exact .nil
  | cons h _ ih =>
    obtain ⟨c, h1, h2⟩ := flt_line h
    rw [h1]
    exact .cons h2 ih

theorem lineOf_spaced {l : Str} {ws : List Str} (h : Spaced l ws) (hw : ws ≠ []) : LineOf l ws :=
  ⟨l, [], by simp, h, hw, Or.inl rfl⟩

theorem lineOf_comment {l t : Str} {ws : List Str} (h : Spaced l ws) (hw : ws ≠ []) : LineOf (l ++ ' ' :: '#' :: t) ws :=
  ⟨l ++ [' '], '#' :: t, by simp, ⟨by simpa using h.hash, by rw [Str.split_append_space (by decide), h.split]; simp [Str.split]⟩,
    hw, Or.inr ⟨t, rfl⟩⟩

theorem clean_replicate {c : Char} {n : ℕ} (hc : Str.isSpace c = false) (hh : c ≠ '#') (hn : n ≠ 0) :
    ∀ ls, flt (List.replicate n c :: ls) = List.replicate n c :: flt ls := by
  intro ls
  have hp : Plain (List.replicate n c) := ⟨by simpa using hn, fun d hd => by rw [List.eq_of_mem_replicate hd]; exact hc,
    fun h => hh (List.eq_of_mem_replicate h).symm⟩
  obtain ⟨d, h1, h2⟩ := flt_line (lineOf_spaced (spaced_plain hp) (by simp))
  rw [h1, Str.split_single h2.clean h2.split]

theorem flt_separator (ls : List Str) : flt (separator :: ls) = separator :: flt ls :=
  clean_replicate (by decide) (by decide) (by decide) ls

theorem flt_subSeparator (ls : List Str) : flt (subSeparator :: ls) = subSeparator :: flt ls :=
  clean_replicate (by decide) (by decide) (by decide) ls

theorem flt_nil : flt [] = [] := rfl

theorem flt_comments {ls : List Str} (h : ∀ l ∈ ls, ∃ t, l = '#' :: t) : flt ls = [] := by
  induction ls with
  | nil => rfl
  | cons l ls ih =>
    obtain ⟨t, rfl⟩ := h l (by simp)
    rw [flt_comment]
    exact ih fun l' hl => h l' (by simp [hl])

/-! ### First letters and separators -/

theorem Says.prefix {c w : Str} {ws : List Str} (h : Says c (w :: ws)) : w ≠ [] ∧ ∃ rest, c = w ++ rest := by
  have hf := Str.firstWord_first h.clean
  have e : c.first = w := by rw [Str.first, h.split]; rfl
  rw [e] at hf
  refine ⟨hf.nonempty, ?_⟩
  rcases hf.rest with r | ⟨d, t, r, -⟩
  · exact ⟨[], by simp [r]⟩
  · exact ⟨d :: t, r⟩

/-- Neither a separator nor a short separator. -/
def NotSep (sym : Char) (l : Str) : Prop := isLong sym l = false ∧ isShort sym l = false

theorem notSep_of {sym d : Char} {t : Str} (h : Clean (d :: t)) (hd : d ≠ sym) : NotSep sym (d :: t) := by
  refine ⟨?_, ?_⟩
  · rw [← Bool.not_eq_true, isLong_iff]
    rintro ⟨u, e⟩
    rw [List.replicate_succ, List.cons_append] at e
    exact hd (List.cons.inj e).1
  · rw [← Bool.not_eq_true, isShort_iff h]
    rintro ⟨n, -, e⟩
    exact hd (List.eq_of_mem_replicate (e ▸ List.mem_cons_self : d ∈ List.replicate n sym))

theorem notSep_of2 {sym d e : Char} {t : Str} (h : Clean (d :: e :: t)) (hd : e ≠ sym) : NotSep sym (d :: e :: t) := by
  refine ⟨?_, ?_⟩
  · rw [← Bool.not_eq_true, isLong_iff]
    rintro ⟨u, h'⟩
    rw [List.replicate_succ, List.cons_append, List.replicate_succ, List.cons_append] at h'
    exact hd (List.cons.inj (List.cons.inj h').2).1
  · rw [← Bool.not_eq_true, isShort_iff h]
    rintro ⟨n, -, h'⟩
    exact hd (List.eq_of_mem_replicate (h' ▸ (by simp) : e ∈ List.replicate n sym))

theorem Says.notSep {c : Str} {d sym : Char} {t : Str} {ws : List Str} (h : Says c ((d :: t) :: ws)) (hd : d ≠ sym) : NotSep sym c := by
  obtain ⟨-, rest, e⟩ := h.prefix
  have := h.clean
  subst e
  exact notSep_of this hd

theorem scan_ok {sym : Char} {lines : List Str} (h : ∀ l ∈ lines, isShort sym l = false) (fuel i : ℕ) :
    (scan sym lines fuel i).1 = false := by
  have h1 : ∀ ls : List Str, (∀ l ∈ ls, isShort sym l = false) → (skip sym ls).1 = false := by
    intro ls hl
    induction ls with
    | nil => rfl
    | cons l ls ih =>
      rw [skip]
      split
      · rfl
      · simp only [hl l (by simp), Bool.false_or]
        exact ih fun m hm => hl m (by simp [hm])
  have h2 : ∀ ls : List Str, (∀ l ∈ ls, isShort sym l = false) → (body sym ls).1 = false := by
    intro ls hl
    induction ls with
    | nil => rfl
    | cons l ls ih =>
      rw [body]
      split
      · rfl
      · simp only [hl l (by simp), Bool.false_or]
        exact ih fun m hm => hl m (by simp [hm])
  induction fuel generalizing i with
  | zero => rfl
  | succ fuel ih =>
    rw [scan]
    split
    · rfl
    · dsimp only
      have hd : ∀ n, ∀ l ∈ lines.drop n, isShort sym l = false := fun n l hl => h l (List.mem_of_mem_drop hl)
      split
      · exact h1 _ (hd i)
      · rw [h1 _ (hd i), h2 _ (hd _), ih]
        rfl

/-- Blocks between separators. -/
def blocksText (sep : Str) (bs : List (List Str)) : List Str := bs.flatMap (fun b => sep :: b) ++ [sep]

theorem groups_blocks {sym : Char} {sep : Str} (hs : isLong sym sep = true) {bs : List (List Str)}
    (h : ∀ b ∈ bs, b ≠ [] ∧ ∀ l ∈ b, isLong sym l = false) : groups sym (blocksText sep bs) = bs := by
  have hb : ∀ b : List Str, b ≠ [] → (∀ l ∈ b, isLong sym l = false) → ∀ rest, groups sym (b ++ sep :: rest) = b :: groups sym rest := by
    intro b hb hl rest
    induction b with
    | nil => exact absurd rfl hb
    | cons l b ih =>
      have h1 := hl l (by simp)
      cases b with
      | nil =>
        rw [List.cons_append, List.nil_append, groups.eq_def]
        simp only [h1, hs, if_true, Bool.false_eq_true, if_false]
        rw [groups.eq_def]
        simp [hs]
      | cons d b =>
        have h2 := hl d (by simp)
        have := ih (by simp) fun m hm => hl m (by simp [hm])
        rw [List.cons_append, groups.eq_def]
        simp only [List.cons_append] at this ⊢
        simp [h1, h2, this]
  rw [blocksText]
  have h0 : ∀ rest, groups sym (sep :: rest) = groups sym rest := by
    intro rest
    rw [groups.eq_def]
    simp [hs]
  induction bs with
  | nil => rw [List.flatMap_nil, List.nil_append, h0]; rfl
  | cons b bs ih =>
    have ih := ih fun b' hb' => h b' (by simp [hb'])
    rw [List.flatMap_cons, List.cons_append, List.cons_append, h0, List.append_assoc]
    obtain ⟨e1, e2⟩ := h b (by simp)
    cases bs with
    | nil =>
      rw [List.flatMap_nil, List.nil_append, hb b e1 e2]
      rfl
    | cons b' bs =>
      rw [List.flatMap_cons, List.cons_append, List.cons_append, h0] at ih
      rw [List.flatMap_cons, List.cons_append, List.cons_append, hb b e1 e2, ih]

/-! ### Sections -/

/-- The keyword of a section. -/
def titleOf (b : List Str) : Str := keyword (b.headD [])

theorem slice_head {lines : List Str} {p : ℕ × ℕ} (h : slice lines p ≠ []) : lines.getD p.1 [] = (slice lines p).headD [] := by
  rw [slice] at h ⊢
  have hlt : p.1 < (lines.take p.2).length := by
    by_contra hc
    exact h (List.drop_eq_nil_of_le (by omega))
  have hlt' : p.1 < lines.length := lt_of_lt_of_le hlt (by simp)
  rw [List.drop_eq_getElem_cons hlt, List.headD_cons, List.getElem_take, List.getD_eq_getElem?_getD, List.getElem?_eq_getElem hlt', Option.getD_some]

theorem set_append {α β : Type} [DecidableEq α] {d : PyDict α β} {k : α} {v : β} (h : k ∉ d.keys) : d.set k v = d ++ [(k, v)] := by
  induction d with
  | nil => rfl
  | cons p d ih =>
    obtain ⟨k', v'⟩ := p
    simp only [PyDict.keys, List.map_cons, List.mem_cons, not_or] at h
    rw [PyDict.set]
    rw [if_neg (fun e => h.1 e.symm), List.cons_append, ih h.2]

theorem fold_set {α : Type} (f : α → Str) (l : List α) (d : PyDict Str α) (hn : (d.keys ++ l.map f).Nodup) :
    l.foldl (fun d p => d.set (f p) p) d = d ++ l.map fun p => (f p, p) := by
  induction l generalizing d with
  | nil => simp
  | cons a l ih =>
    have hk : f a ∉ d.keys := by
      intro h
      exact (List.disjoint_of_nodup_append hn) h (by simp)
    rw [List.foldl_cons, set_append hk, ih, List.append_assoc]
    · rfl
    · have : PyDict.keys (d ++ [(f a, a)]) = d.keys ++ [f a] := by simp [PyDict.keys]
      rw [this, List.append_assoc]
      exact hn

theorem get?_map {α β : Type} (f : α → Str) (g : α → β) (l : List α) (n : Str) :
    PyDict.get? (l.map fun p => (f p, g p)) n = (PyDict.get? (l.map fun p => (f p, p)) n).map g := by
  induction l with
  | nil => rfl
  | cons a l ih =>
    simp only [List.map_cons, PyDict.get?, ih]
    split <;> rfl

/-- The sections of a file made of blocks. -/
theorem sections_blocks {bs : List (List Str)} (hb : ∀ b ∈ bs, b ≠ [] ∧ ∀ l ∈ b, NotSep '=' l)
    (hn : (bs.map titleOf).Nodup) :
    ∃ found, sections (blocksText separator bs) = (false, found) ∧
      (∀ n, (found.get? n).map (slice (blocksText separator bs)) = PyDict.get? (bs.map fun b => (titleOf b, b)) n) ∧
      ∀ q : Str → List Str → Bool, (found.any fun p => q p.1 (slice (blocksText separator bs) p.2)) = bs.any fun b => q (titleOf b) b := by
  set lines := blocksText separator bs with hl
  have hlong : isLong '=' separator = true := by decide +kernel
  have hshort : ∀ l ∈ lines, isShort '=' l = false := by
    intro l h
    have h0 : isShort '=' separator = false := by decide +kernel
    rw [hl, blocksText, List.mem_append, List.mem_flatMap, List.mem_singleton] at h
    rcases h with ⟨b, hb', h⟩ | rfl
    · rcases List.mem_cons.1 h with rfl | h
      · exact h0
      · exact ((hb b hb').2 l h).2
    · exact h0
  have hscan := scan_ok hshort lines.length 0
  have hg := groups_scan lines lines.length 0 (by omega) hscan
  rw [List.drop_zero, hl, groups_blocks hlong (fun b h => ⟨(hb b h).1, fun l hl => ((hb b h).2 l hl).1⟩), ← hl] at hg
  set ps := (scan '=' lines lines.length 0).2 with hps
  have hkw : ∀ p ∈ ps, keyword (lines.getD p.1 []) = titleOf (slice lines p) := by
    intro p hp
    have : slice lines p ∈ bs := by rw [← hg]; exact List.mem_map_of_mem hp
    rw [slice_head (hb _ this).1]
    rfl
  have hfold : ps.foldl (fun d p => PyDict.set d (keyword (lines.getD p.1 [])) p) [] = ps.map fun p => (titleOf (slice lines p), p) := by
    have e1 : ps.map (fun p => keyword (lines.getD p.1 [])) = bs.map titleOf := by
      rw [← hg, List.map_map]
      exact List.map_congr_left hkw
    rw [fold_set (fun p => keyword (lines.getD p.1 [])) ps [] (by
      rw [e1]; simpa [PyDict.keys] using hn), List.nil_append]
    exact List.map_congr_left fun p hp => by rw [hkw p hp]
  refine ⟨ps.map fun p => (titleOf (slice lines p), p), ?_, ?_, ?_⟩
  · rw [sections, ← hfold, ← hps]
    exact Prod.ext hscan rfl
  · intro n
    rw [← get?_map (fun p => titleOf (slice lines p)) (slice lines)]
    conv_rhs => rw [← hg, List.map_map]
    rfl
  · intro q
    conv_rhs => rw [← hg]
    rw [List.any_map, List.any_map]
    rfl

end Txt
end Magnopy
