import Verif.Spec.VampireText
import Verif.Lemmas.HistoryTable
import Verif.Lemmas.Vampire
import Verif.Props.Logo

/-!
# Helper lemmas: the text of the files for Vampire
-/

set_option autoImplicit false
set_option linter.unusedSectionVars false

namespace Magnopy.Vampire

open Txt
open History (NumFmt joinLines Reads)

/-! ### Integers -/

theorem natStr_digits (n : ℕ) : natStr n ≠ [] ∧ ∀ c ∈ natStr n, c.isDigit = true :=
  ⟨toDigits_ne n, fun _ hc => Nat.isDigit_of_mem_toDigits (by decide) (by decide) hc⟩

theorem readNat_natStr (n : ℕ) : readNat (natStr n) = some n := by
  obtain ⟨h0, h1⟩ := natStr_digits n
  rw [readNat, if_pos ⟨h0, List.all_eq_true.2 h1⟩, natStr, Nat.ofDigitChars_ten_toDigits]

theorem readInt_intStr (i : ℤ) : readInt (intStr i) = some i := by
  obtain ⟨h0, h1⟩ := natStr_digits i.natAbs
  rw [intStr]
  split
  · rw [readInt, readNat_natStr, Option.map_some]
    congr 1; omega
  · rw [readInt]
    · rw [readNat_natStr, Option.map_some]
      congr 1; omega
    · rintro u e
      exact absurd (h1 '-' (by rw [e]; simp)) (by decide)

theorem natStr_plain (n : ℕ) : Plain (natStr n) := by
  obtain ⟨h0, h1⟩ := natStr_digits n
  exact ⟨h0, fun c hc => (digit_facts (h1 c hc)).1, fun hc => (digit_facts (h1 _ hc)).2.1 rfl⟩

theorem intStr_plain (i : ℤ) : Plain (intStr i) := by
  have h := natStr_plain i.natAbs
  rw [intStr]
  split
  · refine ⟨by simp, fun c hc => ?_, fun hc => ?_⟩
    · rcases List.mem_cons.1 hc with rfl | hc
      · decide
      · exact h.space c hc
    · rcases List.mem_cons.1 hc with hc | hc
      · exact absurd hc (by decide)
      · exact h.hash hc
  · exact h

/-! ### Lines of data -/

/-- A line of data whose words are `ws`. -/
structure Row (s : Str) (ws : List Str) : Prop where
  spaced : Spaced s ws
  line : '\n' ∉ s

theorem row_plain {w : Str} (h : Plain w) : Row w [w] := ⟨spaced_plain h, History.plain_noBreak h⟩

theorem row_padL {w : Str} (n : ℕ) (h : Plain w) : Row (padL n w) [w] :=
  ⟨spaced_padL n h, History.padL_noBreak n (History.plain_noBreak h)⟩

theorem row_padR {w : Str} (n : ℕ) (h : Plain w) : Row (padR n w) [w] := by
  refine ⟨spaced_padR n h, ?_⟩
  rw [padR, List.mem_append]
  rintro (h' | h')
  · exact History.plain_noBreak h h'
  · have := List.eq_of_mem_replicate h'
    revert this; decide

theorem row_join {ss ws : List Str} (h : List.Forall₂ (fun s w => Row s [w]) ss ws) : Row (join ss) ws := by
  refine ⟨spaced_join (h.imp fun _ _ a => a.spaced), History.join_noBreak ?_⟩
  clear * - h
  induction h with
  | nil => simp
  | cons hx _ ih =>
    intro w hw
    rcases List.mem_cons.1 hw with rfl | hw
    · exact hx.line
    · exact ih w hw

theorem row_two {s t : Str} {ws us : List Str} (h : Row s ws) (h' : Row t us) : Row (s ++ Str.lit "  " ++ t) (ws ++ us) := by
  have h1 : Spaced ([] ++ ' ' :: t) ([] ++ us) := spaced_append ⟨by simp, rfl⟩ h'.spaced
  have h2 := spaced_append h.spaced h1
  refine ⟨by simpa [Str.lit] using h2, ?_⟩
  have := h.line
  have := h'.line
  simp [Str.lit, *]

theorem Row.words {s : Str} {ws : List Str} (h : Row s ws) (h0 : ws ≠ []) (ls : List Str) :
    (((s :: ls).filter fun l => decide (l.head? ≠ some '#')).map Str.split).filter (fun ws => decide (ws ≠ [])) =
      ws :: ((ls.filter fun l => decide (l.head? ≠ some '#')).map Str.split).filter (fun ws => decide (ws ≠ [])) := by
  have h1 : s.head? ≠ some '#' := fun e => h.spaced.hash (List.mem_of_head? e)
  rw [List.filter_cons_of_pos (by simpa using h1), List.map_cons, h.spaced.split, List.filter_cons_of_pos (by simpa using h0)]

theorem comment_words (t : Str) (ls : List Str) :
    (((('#' :: t) :: ls).filter fun l => decide (l.head? ≠ some '#')).map Str.split).filter (fun ws => decide (ws ≠ [])) =
      ((ls.filter fun l => decide (l.head? ≠ some '#')).map Str.split).filter (fun ws => decide (ws ≠ [])) := by
  rw [List.filter_cons_of_neg (by simp)]

theorem rows_words {α : Type} (f : α → Str) (g : α → List Str) (l : List α) (h : ∀ a ∈ l, Row (f a) (g a) ∧ g a ≠ []) (ls : List Str) :
    (((l.map f ++ ls).filter fun l => decide (l.head? ≠ some '#')).map Str.split).filter (fun ws => decide (ws ≠ [])) =
      l.map g ++ ((ls.filter fun l => decide (l.head? ≠ some '#')).map Str.split).filter (fun ws => decide (ws ≠ [])) := by
  induction l with
  | nil => rfl
  | cons a l ih =>
    obtain ⟨h1, h2⟩ := h a (by simp)
    rw [List.map_cons, List.cons_append, h1.words h2, ih fun a ha => h a (by simp [ha])]
    rfl

variable {K : Type} [Field K] [LinearOrder K] {F : NumFmt K} {float : Str → Option K}

/-! ### Numbers -/

/-- The number which is read from a fixed-point number. -/
noncomputable def fix (hF : Reads F float) (x : K) : K := (hF.fixed 8 x).2.choose

theorem fix_read (hF : Reads F float) (x : K) : float (F.fixed 8 x) = some (fix hF x) := (hF.fixed 8 x).2.choose_spec.1

theorem fix_near (hF : Reads F float) (x : K) : Near (fix hF x) x := (hF.fixed 8 x).2.choose_spec.2

/-- The number which is read from a number with exponent. -/
noncomputable def sig (hF : Reads F float) (d : ℕ) (x : K) : K := (hF.sci d x).2.choose

theorem sig_read (hF : Reads F float) (d : ℕ) (x : K) : float (F.sci d x) = some (sig hF d x) := (hF.sci d x).2.choose_spec.1

theorem sig_near (hF : Reads F float) (d : ℕ) (x : K) : NearSig d (sig hF d x) x := (hF.sci d x).2.choose_spec.2

/-! ### The lines of an .UCF file -/

/-- Words of a vector. -/
def vecWords (F : NumFmt K) (v : V3 K) : List Str := [F.fixed 8 (v 0), F.fixed 8 (v 1), F.fixed 8 (v 2)]

/-- Words of the line of an atom. -/
def atomWords (F : NumFmt K) (geo : Geometry K) (l : ℕ × Atom × ℤ) : List Str :=
  natStr l.1 :: vecWords F (geo.position l.2.1) ++ [intStr l.2.2]

/-- Words of the line of an interaction. -/
def lineWords (F : NumFmt K) (d : ℕ) (l : Line K) : List Str :=
  [natStr l.iid, natStr l.i, natStr l.j, intStr l.cell.1, intStr l.cell.2.1, intStr l.cell.2.2,
    F.sci d (l.matrix 0 0), F.sci d (l.matrix 0 1), F.sci d (l.matrix 0 2), F.sci d (l.matrix 1 0), F.sci d (l.matrix 1 1),
    F.sci d (l.matrix 1 2), F.sci d (l.matrix 2 0), F.sci d (l.matrix 2 1), F.sci d (l.matrix 2 2)]

theorem atom_row (hF : Reads F float) (geo : Geometry K) (l : ℕ × Atom × ℤ) : Row (atomText F geo l) (atomWords F geo l) := by
  have hp := fun x => row_padL 15 (hF.fixed 8 x).1
  exact row_join (.cons (row_padR 5 (natStr_plain _)) (.cons (hp _) (.cons (hp _) (.cons (hp _)
    (.cons (row_padL 5 (intStr_plain _)) .nil)))))

theorem line_row (hF : Reads F float) (d : ℕ) (l : Line K) : Row (lineText F d l) (lineWords F d l) := by
  have hp := fun x => row_padL (7 + d) (hF.sci d x).1
  exact row_two (row_two (row_join (.cons (row_padR 5 (natStr_plain _)) (.cons (row_padL 3 (natStr_plain _))
    (.cons (row_padL 3 (natStr_plain _)) .nil))))
    (row_join (.cons (row_padL 2 (intStr_plain _)) (.cons (row_padL 2 (intStr_plain _)) (.cons (row_padL 2 (intStr_plain _)) .nil)))))
    (row_join (.cons (hp _) (.cons (hp _) (.cons (hp _) (.cons (hp _) (.cons (hp _) (.cons (hp _) (.cons (hp _) (.cons (hp _)
      (.cons (hp _) .nil))))))))))

theorem size_row (hF : Reads F float) (v : V3 K) : Row (join [F.fixed 8 (v 0), F.fixed 8 (v 1), F.fixed 8 (v 2)]) (vecWords F v) := by
  have hp := fun x => row_plain (hF.fixed 8 x).1
  exact row_join (.cons (hp _) (.cons (hp _) (.cons (hp _) .nil)))

theorem vec_row (hF : Reads F float) (v : V3 K) :
    Row (join [padL 15 (F.fixed 8 (v 0)), padL 15 (F.fixed 8 (v 1)), padL 15 (F.fixed 8 (v 2))]) (vecWords F v) := by
  have hp := fun x => row_padL 15 (hF.fixed 8 x).1
  exact row_join (.cons (hp _) (.cons (hp _) (.cons (hp _) .nil)))

/-- The words of an .UCF file. -/
def ucfWords (F : NumFmt K) (geo : Geometry K) (d : ℕ) (u : Ucf K) : List (List Str) :=
  vecWords F geo.size :: vecWords F (geo.vectors 0) :: vecWords F (geo.vectors 1) :: vecWords F (geo.vectors 2) ::
    [natStr u.atoms.length, natStr u.nMaterials] ::
    (u.atoms.map (atomWords F geo) ++ [natStr u.count, Str.lit "tensorial"] :: u.lines.map (lineWords F d))

theorem ucfLines_noBreak (hF : Reads F float) (geo : Geometry K) (d : ℕ) (u : Ucf K) : ∀ l ∈ ucfLines F geo d u, '\n' ∉ l := by
  intro l hl
  simp only [ucfLines, List.mem_append, List.mem_cons, List.mem_map, List.not_mem_nil, or_false] at hl
  rcases hl with (((rfl | rfl | rfl | rfl | rfl | rfl | rfl | rfl) | ⟨a, _, rfl⟩) | (rfl | rfl)) | ⟨a, _, rfl⟩
  · decide
  · exact (size_row hF _).line
  · decide
  · exact (vec_row hF _).line
  · exact (vec_row hF _).line
  · exact (vec_row hF _).line
  · decide
  · exact (row_join (.cons (row_plain (natStr_plain _)) (.cons (row_plain (natStr_plain _)) .nil))).line
  · exact (atom_row hF geo a).line
  · decide
  · exact (row_join (.cons (row_plain (natStr_plain _)) (.cons (row_plain (w := Str.lit "tensorial") (History.plain_of (by decide))) .nil))).line
  · exact (line_row hF d a).line

theorem ucf_words (hF : Reads F float) (geo : Geometry K) (d : ℕ) (u : Ucf K) :
    (((ucfLines F geo d u).filter fun l => decide (l.head? ≠ some '#')).map Str.split).filter (fun ws => decide (ws ≠ [])) =
      ucfWords F geo d u := by
  have h2 : Row (join [natStr u.atoms.length, natStr u.nMaterials]) [natStr u.atoms.length, natStr u.nMaterials] :=
    row_join (.cons (row_plain (natStr_plain _)) (.cons (row_plain (natStr_plain _)) .nil))
  have h3 : Row (join [natStr u.count, Str.lit "tensorial"]) [natStr u.count, Str.lit "tensorial"] :=
    row_join (.cons (row_plain (natStr_plain _)) (.cons (row_plain (w := Str.lit "tensorial") (History.plain_of (by decide))) .nil))
  have hl := rows_words (lineText F d) (lineWords F d) u.lines (fun a _ => ⟨line_row hF d a, by simp [lineWords]⟩) []
  rw [List.append_nil] at hl
  rw [ucfLines, List.append_assoc, List.append_assoc]
  simp only [List.cons_append, List.nil_append]
  rw [show Str.lit "# Unit cell size:" = '#' :: Str.lit " Unit cell size:" from rfl, comment_words,
    (size_row hF geo.size).words (by simp [vecWords]),
    show Str.lit "# Unit cell lattice vectors:" = '#' :: Str.lit " Unit cell lattice vectors:" from rfl, comment_words,
    (vec_row hF (geo.vectors 0)).words (by simp [vecWords]), (vec_row hF (geo.vectors 1)).words (by simp [vecWords]),
    (vec_row hF (geo.vectors 2)).words (by simp [vecWords]),
    show Str.lit "# Atoms" = '#' :: Str.lit " Atoms" from rfl, comment_words, h2.words (by simp),
    rows_words (atomText F geo) (atomWords F geo) u.atoms (fun a _ => ⟨atom_row hF geo a, by simp [atomWords]⟩),
    show Str.lit "# Interactions" = '#' :: Str.lit " Interactions" from rfl, comment_words, h3.words (by simp), hl]
  simp [ucfWords]

/-! ### Reading -/

theorem readVec_words (hF : Reads F float) (v : V3 K) :
    readVec float (vecWords F v) = some ![fix hF (v 0), fix hF (v 1), fix hF (v 2)] := by
  simp [readVec, vecWords, fix_read hF]

theorem readAtom_words (hF : Reads F float) (geo : Geometry K) (l : ℕ × Atom × ℤ) :
    readAtom float (atomWords F geo l) = some (l.1, (fun c => fix hF (geo.position l.2.1 c)), l.2.2) := by
  have h := readVec_words hF (geo.position l.2.1)
  rw [vecWords] at h
  have e : (fun c => fix hF (geo.position l.2.1 c)) =
      ![fix hF (geo.position l.2.1 0), fix hF (geo.position l.2.1 1), fix hF (geo.position l.2.1 2)] := by
    funext c; fin_cases c <;> rfl
  rw [e]
  simp only [atomWords, vecWords, List.cons_append, List.nil_append, readAtom, readNat_natStr, readInt_intStr, h]
  rfl

theorem readBond_words (hF : Reads F float) (d : ℕ) (l : Line K) :
    readBond float (lineWords F d l) = some ⟨l.iid, l.i, l.j, l.cell, fun i j => sig hF d (l.matrix i j)⟩ := by
  have e : (fun i j => sig hF d (l.matrix i j)) = Matrix.of ![![sig hF d (l.matrix 0 0), sig hF d (l.matrix 0 1), sig hF d (l.matrix 0 2)],
      ![sig hF d (l.matrix 1 0), sig hF d (l.matrix 1 1), sig hF d (l.matrix 1 2)],
      ![sig hF d (l.matrix 2 0), sig hF d (l.matrix 2 1), sig hF d (l.matrix 2 2)]] := by
    funext i j; fin_cases i <;> fin_cases j <;> rfl
  rw [e]
  simp [lineWords, readBond, readNat_natStr, readInt_intStr, readVec, sig_read hF]

theorem mapM_some {α β γ : Type} (f : α → β) (g : β → Option γ) (k : α → γ) (h : ∀ a, g (f a) = some (k a)) (l : List α) :
    (l.map f).mapM g = some (l.map k) := by
  induction l with
  | nil => rfl
  | cons a l ih => rw [List.map_cons, List.mapM_cons, h, ih]; rfl

theorem readUcf_words (hF : Reads F float) (geo : Geometry K) (d : ℕ) (u : Ucf K) (text : Str)
    (h : dataWords text = ucfWords F geo d u) (hc : u.count = u.lines.length) :
    readUcf float text = some ⟨fun c => fix hF (geo.size c), fun i j => fix hF (geo.vectors i j), u.nMaterials,
      u.atoms.map (fun l => (l.1, (fun c => fix hF (geo.position l.2.1 c)), l.2.2)),
      u.lines.map (fun l => ⟨l.iid, l.i, l.j, l.cell, fun i j => sig hF d (l.matrix i j)⟩)⟩ := by
  have e1 : (fun c => fix hF (geo.size c)) = ![fix hF (geo.size 0), fix hF (geo.size 1), fix hF (geo.size 2)] := by
    funext c; fin_cases c <;> rfl
  have e2 : (fun i j => fix hF (geo.vectors i j)) = Matrix.of ![![fix hF (geo.vectors 0 0), fix hF (geo.vectors 0 1), fix hF (geo.vectors 0 2)],
      ![fix hF (geo.vectors 1 0), fix hF (geo.vectors 1 1), fix hF (geo.vectors 1 2)],
      ![fix hF (geo.vectors 2 0), fix hF (geo.vectors 2 1), fix hF (geo.vectors 2 2)]] := by
    funext i j; fin_cases i <;> fin_cases j <;> rfl
  have ha := mapM_some (atomWords F geo) (readAtom float) _ (readAtom_words hF geo) u.atoms
  have hb := mapM_some (lineWords F d) (readBond float) _ (readBond_words hF d) u.lines
  rw [e1, e2, readUcf, h, ucfWords]
  simp only [readVec_words hF, readNat_natStr, Option.bind_eq_bind, Option.bind_some]
  rw [List.drop_left' (by simp), List.take_left' (by simp)]
  simp only [readNat_natStr, ha, hb, Option.bind_some, List.length_map, hc, true_and, if_true]
  rfl

/-! ### The logo -/

theorem logo_words {env : Logo.Env} {nologo : Bool} (henv : ∀ x ∈ env.standard true, '\n' ∉ x) :
    ∃ l, logoLines env nologo = .ok l ∧ ∀ ls : List Str, (∀ x ∈ ls, '\n' ∉ x) → ls ≠ [] →
      dataWords (joinLines (l ++ ls)) = ((ls.filter fun l => decide (l.head? ≠ some '#')).map Str.split).filter
        (fun ws => decide (ws ≠ [])) := by
  have hb : ∀ ls : List Str, ls ≠ [] → History.blockLines ls = ls := fun ls h => by rw [History.blockLines, if_neg h]
  cases nologo with
  | true =>
    refine ⟨[], rfl, fun ls hn h0 => ?_⟩
    rw [dataWords, List.nil_append, History.linesOf_joinLines hn, hb ls h0]
  | false =>
    obtain ⟨text, h1, h2, -⟩ := Logo.C77_ignored env none none false true (by simpa using henv)
    refine ⟨[text], by rw [logoLines]; simp only [Bool.false_eq_true, if_false, h1], fun ls hn h0 => ?_⟩
    obtain ⟨x, xs, rfl⟩ := List.exists_cons_of_ne_nil h0
    rw [dataWords, List.singleton_append, joinLines.eq_def]
    simp only
    rw [History.linesOf_break, History.linesOf_joinLines hn, hb _ h0, List.filter_append, List.map_append, List.filter_append]
    have : (Logo.linesOf text).filter (fun l => decide (l.head? ≠ some '#')) = [] := by
      rw [List.filter_eq_nil_iff]
      intro l hl
      obtain ⟨t, rfl⟩ := h2 l hl
      simp
    rw [this]
    rfl

end Magnopy.Vampire
