import Verif.Lemmas.TxtDumpNotation
import Verif.Props.TxtBond

/-!
# Lemmas: the block of a bond in a written file
-/

set_option autoImplicit false
set_option linter.unusedSectionVars false

namespace Magnopy
namespace Txt

open H5 (Full)
open Spec

section
variable {K : Type} [Field K] [LinearOrder K]

/-! ### Words and lines -/

/-- The header of a bond. -/
def bondHead (F : Fmt K) (b : Bond) : List Str :=
  [b.1.name.toList, b.2.1.name.toList, F.int b.2.2.1, F.int b.2.2.2.1, F.int b.2.2.2.2]

/-- Numbers with four digits. -/
def row4 (F : Fmt K) (xs : List K) : List Str := xs.map (F.fixed 4)

/-- Entries of the row of a matrix. -/
def entries (m : M3 K) (i : Fin 3) : List K := [m i 0, m i 1, m i 2]

/-- The five numbers of the anisotropy. -/
def five (m : M3 K) : List K := [Param.aniso m 0 0, Param.aniso m 1 1, Param.aniso m 0 1, Param.aniso m 0 2, Param.aniso m 1 2]

/-- The three numbers of the DMI. -/
def three (m : M3 K) : List K := [Param.dmi m 0, Param.dmi m 1, Param.dmi m 2]

/-- The lines of the isotropic value. -/
def isoWords (F : Fmt K) (o : Opts) (m : M3 K) : List (List Str) :=
  if o.iso then [Str.lit "Isotropic" :: row4 F [Param.iso m]] else []

/-- The lines of the DMI. -/
def dmiWords (F : Fmt K) (o : Opts) (m : M3 K) : List (List Str) :=
  if o.dmi then [Str.lit "DMI" :: row4 F (three m)] else []

/-- The lines of the anisotropy. -/
def symWords (F : Fmt K) (o : Opts) (m : M3 K) : List (List Str) :=
  if o.symm then [Str.lit "Symmetric-anisotropy" :: row4 F (five m)] else []

/-- The lines of the matrix. -/
def matWords (F : Fmt K) (o : Opts) (m : M3 K) : List (List Str) :=
  if o.matrix then [[Str.lit "Matrix"], row4 F (entries m 0), row4 F (entries m 1), row4 F (entries m 2)] else []

theorem spaced_numbers {F : Fmt K} {L : Lib K} (h : Prints F L) (xs : List K) : Spaced (join (xs.map (narrow F))) (row4 F xs) := by
  refine spaced_join ?_
  rw [row4, List.forall₂_map_left_iff, List.forall₂_map_right_iff, List.forall₂_same]
  exact fun x _ => h.narrow x

theorem spaced_keyword {F : Fmt K} {L : Lib K} (h : Prints F L) {s : String} (hs : Plain (Str.lit s)) {xs : List K} :
    LineOf (join (Str.lit s :: xs.map (narrow F))) (Str.lit s :: row4 F xs) := by
  refine lineOf_spaced (spaced_join (.cons (spaced_plain hs) ?_)) (by simp)
  rw [row4, List.forall₂_map_left_iff, List.forall₂_map_right_iff, List.forall₂_same]
  exact fun x _ => h.narrow x

/-- A block is the header and four groups of lines. -/
structure Block (F : Fmt K) (o : Opts) (b : Bond) (m : M3 K) (C : List Str) : Prop where
  lines : ∃ c iso dmi sym mat, C = c :: (iso ++ (dmi ++ (sym ++ mat))) ∧ Says c (bondHead F b) ∧
    List.Forall₂ Says iso (isoWords F o m) ∧ List.Forall₂ Says dmi (dmiWords F o m) ∧ List.Forall₂ Says sym (symWords F o m) ∧
    List.Forall₂ Says mat (matWords F o m)

theorem bond_block {F : Fmt K} {L : Lib K} (h : Prints F L) (o : Opts) {b : Bond} (h1 : Plain b.1.name.toList)
    (h2 : Plain b.2.1.name.toList) (dist : K) (m : M3 K) : Block F o b m (flt (bondText F o b dist m)) := by
  have hh : LineOf (join ([padR 6 b.1.name.toList, padR 6 b.2.1.name.toList, padL 3 (F.int b.2.2.1), padL 3 (F.int b.2.2.2.1),
      padL 3 (F.int b.2.2.2.2)] ++ if o.distance then [Str.lit "# " ++ padR 8 (F.fixed 4 dist)] else [])) (bondHead F b) := by
    have hs : Spaced (join [padR 6 b.1.name.toList, padR 6 b.2.1.name.toList, padL 3 (F.int b.2.2.1), padL 3 (F.int b.2.2.2.1),
        padL 3 (F.int b.2.2.2.2)]) (bondHead F b) :=
      spaced_join (.cons (spaced_padR 6 h1) (.cons (spaced_padR 6 h2) (.cons (spaced_padL 3 (h.int _).1) (.cons (spaced_padL 3 (h.int _).1)
        (.cons (spaced_padL 3 (h.int _).1) .nil)))))
    split
    · rw [join_append (by simp) (by simp)]
      exact lineOf_comment (t := ' ' :: padR 8 (F.fixed 4 dist)) hs (by simp [bondHead])
    · rw [List.append_nil]
      exact lineOf_spaced hs (by simp [bondHead])
  obtain ⟨c, e0, s0⟩ := flt_line hh
  rw [bondText, List.append_assoc, List.append_assoc, List.append_assoc, List.singleton_append, e0, flt_append, flt_append, flt_append]
  refine ⟨c, _, _, _, _, rfl, s0, ?_, ?_, ?_, ?_⟩
  · rw [isoWords]
    split
    · exact flt_lines (.cons (spaced_keyword h (s := "Isotropic") (xs := [Param.iso m]) ⟨by decide +kernel, by decide +kernel, by decide +kernel⟩) .nil)
    · exact .nil
  · rw [dmiWords]
    split
    · exact flt_lines (.cons (spaced_keyword h (s := "DMI") (xs := three m) ⟨by decide +kernel, by decide +kernel, by decide +kernel⟩) .nil)
    · exact .nil
  · rw [symWords]
    split
    · rw [flt_cons_comment (by decide +kernel)]
      exact flt_lines (.cons (spaced_keyword h (s := "Symmetric-anisotropy") (xs := five m)
        ⟨by decide +kernel, by decide +kernel, by decide +kernel⟩) .nil)
    · exact .nil
  · rw [matWords]
    split
    · exact flt_lines (.cons (lineOf_spaced (spaced_plain ⟨by decide +kernel, by decide +kernel, by decide +kernel⟩) (by simp))
        (.cons (lineOf_spaced (spaced_numbers h (entries m 0)) (by simp [row4, entries]))
        (.cons (lineOf_spaced (spaced_numbers h (entries m 1)) (by simp [row4, entries]))
        (.cons (lineOf_spaced (spaced_numbers h (entries m 2)) (by simp [row4, entries])) .nil))))
    · exact .nil

/-! ### Verification -/

theorem numbers_ok {F : Fmt K} {L : Lib K} (h : Prints F L) (hw : L.Words) (xs : List K) {as : List ℕ}
    (ha : as.contains xs.length = true) : badNumbers L ((row4 F xs).map Str.lower) as = false := by
  rw [badNumbers, List.length_map, row4, List.length_map, ha, Bool.not_true, Bool.false_or, List.any_eq_false]
  intro w hw'
  obtain ⟨v, hv, rfl⟩ := List.mem_map.1 hw'
  obtain ⟨x, -, rfl⟩ := List.mem_map.1 hv
  rw [isFloat, hw, h.float]
  simp

theorem fixed_lower {F : Fmt K} {L : Lib K} (h : Prints F L) (d : ℕ) (x : K) {a : Char} (ha : a.isLower = true) :
    Str.startsWith (F.fixed d x).lower [a] = false := by
  obtain ⟨c, t, h1, h2, -⟩ := h.shape d x
  rcases h1 with e | e
  · rw [e, show Str.lower (c :: t) = c.toLower :: Str.lower t from rfl, startsWith_cons, (digit_facts h2).2.2.2.2, decide_eq_false_iff_not]
    rintro rfl
    simp only [Char.isDigit, Char.isLower, Bool.and_eq_true, decide_eq_true_eq] at h2 ha
    have h3 := UInt32.le_iff_toNat_le.1 h2.2
    have h4 := UInt32.le_iff_toNat_le.1 ha.1
    simp at h3 h4
    omega
  · rw [e, show Str.lower ('-' :: c :: t) = ('-' : Char).toLower :: Str.lower (c :: t) from rfl, startsWith_cons, decide_eq_false_iff_not]
    rintro rfl
    exact absurd ha (by decide)

theorem head_lower {c : Str} {w : Str} {ws : List Str} (h : Says c (w :: ws)) : c.lower.split = w.lower :: ws.map Str.lower := by
  rw [Str.split_lower, h.split]; rfl

theorem loop_row {F : Fmt K} {L : Lib K} (h : Prints F L) {c : Str} {x : K} {xs : List K} (hc : Says c (row4 F (x :: xs)))
    (cs : List Str) : bondLoop L (c :: cs) = bondLoop L cs := by
  rw [bondLoop]
  have e : c.lower.split.headD [] = (F.fixed 4 x).lower := by
    rw [head_lower (w := F.fixed 4 x) (ws := row4 F xs) hc]; rfl
  simp only [e, fixed_lower h 4 x (a := 'i') (by decide), fixed_lower h 4 x (a := 'd') (by decide), fixed_lower h 4 x (a := 's') (by decide),
    fixed_lower h 4 x (a := 'm') (by decide)]
  rfl

theorem key_ok {F : Fmt K} {L : Lib K} (h : Prints F L) (hw : L.Words) {c : Str} {s k : Str} {xs : List K}
    (hc : Says c (s :: row4 F xs)) (hk : k.lower.head? = s.lower.head?) : badKeyBlock L [c] [[xs.length]] k = false := by
  rw [badKeyBlock, head_lower hc]
  simp only [List.length_cons, List.length_nil, ne_eq, not_true_eq_false, decide_false, List.headD_cons, hk, List.tail_cons,
    numbers_ok h hw xs (as := [xs.length]) (by simp), badRows, Bool.or_false]

theorem loop_iso {F : Fmt K} {L : Lib K} (h : Prints F L) (hw : L.Words) {o : Opts} {m : M3 K} {C : List Str}
    (hC : List.Forall₂ Says C (isoWords F o m)) (cs : List Str) :
    bondLoop L (C ++ cs) = ((bondLoop L cs).1, (bondLoop L cs).2.1 + o.iso.toNat, (bondLoop L cs).2.2) := by
  rw [isoWords] at hC
  cases ho : o.iso with
  | false => rw [ho] at hC; cases hC; rfl
  | true =>
    rw [ho] at hC
    cases hC with
    | cons t0 hC =>
    cases hC
    rw [List.singleton_append, bondLoop, head_lower t0, show [1] = [[Param.iso m].length] from rfl,
      key_ok h hw (xs := [Param.iso m]) (k := Str.lit "isotropic") t0 (by decide +kernel)]
    rfl

theorem loop_dmi {F : Fmt K} {L : Lib K} (h : Prints F L) (hw : L.Words) {o : Opts} {m : M3 K} {C : List Str}
    (hC : List.Forall₂ Says C (dmiWords F o m)) (cs : List Str) :
    bondLoop L (C ++ cs) = ((bondLoop L cs).1, (bondLoop L cs).2.1, (bondLoop L cs).2.2.1 + o.dmi.toNat, (bondLoop L cs).2.2.2) := by
  rw [dmiWords] at hC
  cases ho : o.dmi with
  | false => rw [ho] at hC; cases hC; rfl
  | true =>
    rw [ho] at hC
    cases hC with
    | cons t0 hC =>
    cases hC
    rw [List.singleton_append, bondLoop, head_lower t0, show [3] = [(three m).length] from rfl,
      key_ok h hw (xs := three m) (k := Str.lit "dmi") t0 (by decide +kernel)]
    rfl

theorem loop_sym {F : Fmt K} {L : Lib K} (h : Prints F L) (hw : L.Words) {o : Opts} {m : M3 K} {C : List Str}
    (hC : List.Forall₂ Says C (symWords F o m)) (cs : List Str) :
    bondLoop L (C ++ cs) = ((bondLoop L cs).1, (bondLoop L cs).2.1, (bondLoop L cs).2.2.1, (bondLoop L cs).2.2.2.1 + o.symm.toNat,
      (bondLoop L cs).2.2.2.2) := by
  rw [symWords] at hC
  cases ho : o.symm with
  | false => rw [ho] at hC; cases hC; rfl
  | true =>
    rw [ho] at hC
    cases hC with
    | cons t0 hC =>
    cases hC
    rw [List.singleton_append, bondLoop, head_lower t0, show [5] = [(five m).length] from rfl,
      key_ok h hw (xs := five m) (k := Str.lit "symmetric-anisotropy") t0 (by decide +kernel)]
    rfl

theorem loop_mat {F : Fmt K} {L : Lib K} (h : Prints F L) (hw : L.Words) {o : Opts} {m : M3 K} {C : List Str}
    (hC : List.Forall₂ Says C (matWords F o m)) : bondLoop L C = (false, 0, 0, 0, o.matrix.toNat) := by
  rw [matWords] at hC
  cases ho : o.matrix with
  | false => rw [ho] at hC; cases hC; rfl
  | true =>
    rw [ho] at hC
    cases hC with
    | cons t0 hC =>
    cases hC with
    | cons t1 hC =>
    cases hC with
    | cons t2 hC =>
    cases hC with
    | cons t3 hC =>
    cases hC
    have g : ∀ {c : Str} {i : Fin 3}, Says c (row4 F (entries m i)) → badNumbers L c.lower.split [3] = false := by
      intro c i hc
      rw [Str.split_lower, hc.split]
      exact numbers_ok h hw (entries m i) rfl
    rename_i c0 c1 c2 c3
    have k : badKeyBlock L [c0, c1, c2, c3] [[0], [3], [3], [3]] (Str.lit "matrix") = false := by
      rw [badKeyBlock, head_lower t0]
      simp only [badRows, g t1, g t2, g t3, List.map_nil, List.tail_cons]
      rfl
    rw [bondLoop, loop_row h t1, loop_row h t2, loop_row h t3, head_lower t0, List.take_succ_cons, List.take_succ_cons,
      List.take_succ_cons, List.take_zero, k]
    rfl

theorem bond_good {F : Fmt K} {L : Lib K} (h : Prints F L) (hw : L.Words) {o : Opts} (ho : o.Complete) {x : Full K} (hx : Printable F L x)
    {b : Bond} (h1 : b.1 ∈ x.ham.atoms) (h2 : b.2.1 ∈ x.ham.atoms) {m : M3 K} {C : List Str} (hC : Block F o b m C) :
    badBond L (x.ham.atoms.map fun a => a.name.toList) C = false := by
  obtain ⟨c, ci, cd, cs, cm, rfl, t0, ti, td, ts, tm⟩ := hC.lines
  have hl : bondLoop L (ci ++ (cd ++ (cs ++ cm))) = (false, o.iso.toNat, o.dmi.toNat, o.symm.toNat, o.matrix.toNat) := by
    rw [loop_iso h hw ti, loop_dmi h hw td, loop_sym h hw ts, loop_mat h hw tm]
    simp
  have hm : ∀ a ∈ x.ham.atoms, Str.mem a.name.toList (x.ham.atoms.map fun a => a.name.toList) = true :=
    fun a ha => Str.mem_iff.2 (List.mem_map_of_mem ha)
  have hi : ∀ i, isInteger L (F.int i) = true := fun i => by rw [isInteger, (h.int i).2]; rfl
  rw [badBond]
  simp only [List.headD_cons, t0.split, bondHead, List.tail_cons, hl, name_good hx h1, name_good hx h2, hm _ h1, hm _ h2, hi]
  rcases ho with ho | ⟨h3, h4, h5⟩
  · rw [ho]
    cases o.iso <;> cases o.dmi <;> cases o.symm <;> rfl
  · rw [h3, h4, h5]
    cases o.matrix <;> rfl

/-! ### Separators -/

theorem notSep_word {F : Fmt K} {L : Lib K} (h : Prints F L) {c : Str} {d : ℕ} {x : K} {ws : List Str} (hc : Says c (F.fixed d x :: ws)) :
    NotSep '-' c ∧ NotSep '=' c := by
  obtain ⟨-, rest, e⟩ := hc.prefix
  have hcl := hc.clean
  obtain ⟨a, t, h1, h2, -⟩ := h.shape d x
  have hd := digit_facts h2
  rcases h1 with e' | e' <;> rw [e'] at e <;> subst e
  · exact ⟨notSep_of hcl hd.2.2.1, notSep_of hcl hd.2.2.2.1⟩
  · exact ⟨notSep_of2 hcl hd.2.2.1, notSep_of hcl (by decide)⟩

theorem notSep_name {F : Fmt K} {L : Lib K} (h : Prints F L) {x : Full K} (hx : Printable F L x) {a : Atom} (ha : a ∈ x.ham.atoms)
    {c : Str} {ws : List Str} (hc : Says c (a.name.toList :: ws)) : NotSep '-' c ∧ NotSep '=' c := by
  obtain ⟨d, t, e⟩ := List.exists_cons_of_ne_nil (hx.words a ha).ne
  have hl := hx.letter a ha d t e
  rw [e] at hc
  refine ⟨hc.notSep ?_, hc.notSep ?_⟩
  · rintro rfl
    rw [h.minus] at hl
    exact absurd hl (by decide)
  · rintro rfl
    rw [h.equals] at hl
    exact absurd hl (by decide)

theorem notSep_lit {c : Str} {d : Char} {t : Str} {ws : List Str} (hc : Says c ((d :: t) :: ws)) (h1 : d ≠ '-') (h2 : d ≠ '=') :
    NotSep '-' c ∧ NotSep '=' c := ⟨hc.notSep h1, hc.notSep h2⟩

theorem bond_sep {F : Fmt K} {L : Lib K} (h : Prints F L) {o : Opts} {x : Full K} (hx : Printable F L x)
    {b : Bond} (h1 : b.1 ∈ x.ham.atoms) {m : M3 K} {C : List Str} (hC : Block F o b m C) :
    C ≠ [] ∧ ∀ l ∈ C, NotSep '-' l ∧ NotSep '=' l := by
  obtain ⟨c, ci, cd, cs, cm, rfl, t0, ti, td, ts, tm⟩ := hC.lines
  have hk : ∀ {C : List Str} {W : List (List Str)}, List.Forall₂ Says C W →
      (∀ w ∈ W, ∀ c, Says c w → NotSep '-' c ∧ NotSep '=' c) → ∀ l ∈ C, NotSep '-' l ∧ NotSep '=' l := by
    intro C W hCW
    induction hCW with
    | nil => simp
    | cons h0 _ ih =>
      intro hW l hl
      rcases List.mem_cons.1 hl with rfl | hl
      · exact hW _ (by simp) _ h0
      · exact ih (fun w hw => hW w (by simp [hw])) l hl
  refine ⟨by simp, fun l hl => ?_⟩
  simp only [List.mem_cons, List.mem_append] at hl
  rcases hl with rfl | hl | hl | hl | hl
  · exact notSep_name h hx h1 t0
  · refine hk ti ?_ l hl
    rw [isoWords]
    split
    · intro w hw c hc
      rw [List.mem_singleton] at hw
      subst hw
      exact notSep_lit (d := 'I') (t := Str.lit "sotropic") hc (by decide) (by decide)
    · simp
  · refine hk td ?_ l hl
    rw [dmiWords]
    split
    · intro w hw c hc
      rw [List.mem_singleton] at hw
      subst hw
      exact notSep_lit (d := 'D') (t := Str.lit "MI") hc (by decide) (by decide)
    · simp
  · refine hk ts ?_ l hl
    rw [symWords]
    split
    · intro w hw c hc
      rw [List.mem_singleton] at hw
      subst hw
      exact notSep_lit (d := 'S') (t := Str.lit "ymmetric-anisotropy") hc (by decide) (by decide)
    · simp
  · refine hk tm ?_ l hl
    rw [matWords]
    split
    · intro w hw c hc
      simp only [List.mem_cons, List.not_mem_nil, or_false] at hw
      rcases hw with rfl | rfl | rfl | rfl
      · exact notSep_lit (d := 'M') (t := Str.lit "atrix") hc (by decide) (by decide)
      · exact notSep_word h hc
      · exact notSep_word h hc
      · exact notSep_word h hc
    · simp

/-! ### Reading -/

/-- A rounded matrix. -/
noncomputable def rdM (F : Fmt K) (L : Lib K) (m : M3 K) : M3 K :=
  !![rd F L 4 (m 0 0), rd F L 4 (m 0 1), rd F L 4 (m 0 2); rd F L 4 (m 1 0), rd F L 4 (m 1 1), rd F L 4 (m 1 2);
    rd F L 4 (m 2 0), rd F L 4 (m 2 1), rd F L 4 (m 2 2)]

/-- A rounded DMI vector. -/
noncomputable def rdD (F : Fmt K) (L : Lib K) (m : M3 K) : V3 K :=
  ![rd F L 4 (Param.dmi m 0), rd F L 4 (Param.dmi m 1), rd F L 4 (Param.dmi m 2)]

/-- A rounded anisotropy. -/
noncomputable def rdS (F : Fmt K) (L : Lib K) (m : M3 K) : M3 K :=
  !![rd F L 4 (Param.aniso m 0 0), rd F L 4 (Param.aniso m 0 1), rd F L 4 (Param.aniso m 0 2);
    rd F L 4 (Param.aniso m 0 1), rd F L 4 (Param.aniso m 1 1), rd F L 4 (Param.aniso m 1 2);
    rd F L 4 (Param.aniso m 0 2), rd F L 4 (Param.aniso m 1 2), -rd F L 4 (Param.aniso m 0 0) - rd F L 4 (Param.aniso m 1 1)]

/-- What the block of a bond gives. -/
noncomputable def given (F : Fmt K) (L : Lib K) (o : Opts) (m : M3 K) : List (Given K) :=
  (if o.iso then [.iso (rd F L 4 (Param.iso m))] else []) ++ ((if o.dmi then [.dmi (rdD F L m)] else []) ++
    ((if o.symm then [.symmetric (rdS F L m)] else []) ++ if o.matrix then [.matrix (rdM F L m)] else []))

theorem numbers_row {F : Fmt K} {L : Lib K} (h : Prints F L) (xs : List K) : Numbers L (row4 F xs) (xs.map (rd F L 4)) := by
  rw [Numbers, row4, List.forall₂_map_left_iff, List.forall₂_map_right_iff, List.forall₂_same]
  exact fun x _ => h.float 4 x

theorem bond_gives {F : Fmt K} {L : Lib K} (h : Prints F L) {o : Opts} {b : Bond} {m : M3 K} {C : List Str} (hC : Block F o b m C) :
    ∃ c ls, C = c :: ls ∧ Says c (bondHead F b) ∧ Gives L ls (given F L o m) := by
  obtain ⟨c, ci, cd, cs, cm, rfl, t0, ti, td, ts, tm⟩ := hC.lines
  refine ⟨c, _, rfl, t0, ?_⟩
  have gm : Gives L cm (if o.matrix then [.matrix (rdM F L m)] else []) := by
    rw [matWords] at tm
    cases ho : o.matrix with
    | false => rw [ho] at tm; cases tm; exact .nil
    | true =>
      rw [ho] at tm
      cases tm with
      | cons t0 hC =>
      cases hC with
      | cons t1 hC =>
      cases hC with
      | cons t2 hC =>
      cases hC with
      | cons t3 hC =>
      cases hC
      obtain ⟨u, hu⟩ := t0.lower_head (d := 'M') (t := Str.lit "atrix")
      exact .matrix hu (by rw [t1.split]; exact numbers_row h (entries m 0)) (by rw [t2.split]; exact numbers_row h (entries m 1))
        (by rw [t3.split]; exact numbers_row h (entries m 2)) .nil
  have gs : Gives L (cs ++ cm) ((if o.symm then [.symmetric (rdS F L m)] else []) ++ if o.matrix then [.matrix (rdM F L m)] else []) := by
    rw [symWords] at ts
    cases ho : o.symm with
    | false => rw [ho] at ts; cases ts; exact gm
    | true =>
      rw [ho] at ts
      cases ts with
      | cons t0 hC =>
      cases hC
      obtain ⟨u, hu⟩ := t0.lower_head (d := 'S') (t := Str.lit "ymmetric-anisotropy")
      exact .symmetric hu t0.split (numbers_row h (five m)) gm
  have gd : Gives L (cd ++ (cs ++ cm)) ((if o.dmi then [.dmi (rdD F L m)] else []) ++
      ((if o.symm then [.symmetric (rdS F L m)] else []) ++ if o.matrix then [.matrix (rdM F L m)] else [])) := by
    rw [dmiWords] at td
    cases ho : o.dmi with
    | false => rw [ho] at td; cases td; exact gs
    | true =>
      rw [ho] at td
      cases td with
      | cons t0 hC =>
      cases hC
      obtain ⟨u, hu⟩ := t0.lower_head (d := 'D') (t := Str.lit "MI")
      exact .dmi hu t0.split (numbers_row h (three m)) gs
  rw [given]
  rw [isoWords] at ti
  cases ho : o.iso with
  | false => rw [ho] at ti; cases ti; exact gd
  | true =>
    rw [ho] at ti
    cases ti with
    | cons t0 hC =>
    cases hC
    obtain ⟨u, hu⟩ := t0.lower_head (d := 'I') (t := Str.lit "sotropic")
    exact .iso hu t0.split (numbers_row h [Param.iso m]) gd

end

end Txt
end Magnopy
