import Verif.Lemmas.TxtWords

/-!
# Lemmas: the cell, the atoms and the notation of a written file
-/

set_option autoImplicit false
set_option linter.unusedSectionVars false

namespace Magnopy
namespace Txt

open H5 (Full)

/-! ### Words -/

theorem digit_facts {c : Char} (h : c.isDigit = true) : Str.isSpace c = false ∧ c ≠ '#' ∧ c ≠ '-' ∧ c ≠ '=' ∧ c.toLower = c := by
  have h1 : 48 ≤ c.toNat ∧ c.toNat ≤ 57 := by
    simp only [Char.isDigit, Bool.and_eq_true, decide_eq_true_eq] at h
    exact ⟨by simpa using UInt32.le_iff_toNat_le.1 h.1, by simpa using UInt32.le_iff_toNat_le.1 h.2⟩
  refine ⟨?_, ?_, ?_, ?_, ?_⟩
  · simp only [Str.isSpace, Bool.or_eq_false_iff, Bool.and_eq_false_iff, decide_eq_false_iff_not, beq_eq_false_iff_ne]
    omega
  · rintro rfl; exact absurd h (by decide)
  · rintro rfl; exact absurd h (by decide)
  · rintro rfl; exact absurd h (by decide)
  · rw [Char.toLower, dif_neg]
    intro hc
    have h2 : 65 ≤ c.toNat := by simpa using UInt32.le_iff_toNat_le.1 hc.1
    omega

section
variable {K : Type} [Field K] [LinearOrder K]

theorem Prints.plain {F : Fmt K} {L : Lib K} (h : Prints F L) (d : ℕ) (x : K) : Plain (F.fixed d x) := by
  obtain ⟨c, t, h1, h2, h3⟩ := h.shape d x
  have hm : ∀ a ∈ F.fixed d x, a.isDigit = true ∨ a = '.' ∨ a = '-' := by
    intro a ha
    rcases h1 with e | e
    · rw [e] at ha
      rcases List.mem_cons.1 ha with rfl | ha
      · exact Or.inl h2
      · rcases h3 a ha with h | h <;> tauto
    · rw [e] at ha
      rcases List.mem_cons.1 ha with rfl | ha
      · tauto
      rcases List.mem_cons.1 ha with rfl | ha
      · exact Or.inl h2
      · rcases h3 a ha with h | h <;> tauto
  refine ⟨?_, ?_, ?_⟩
  · rcases h1 with e | e <;> simp [e]
  · intro a ha
    rcases hm a ha with h | rfl | rfl
    · exact (digit_facts h).1
    · decide
    · decide
  · intro ha
    rcases hm '#' ha with h | h | h <;> exact absurd h (by decide)

/-- The number which is read for a printed one. -/
noncomputable def rd (F : Fmt K) (L : Lib K) (d : ℕ) (x : K) : K := (L.float (F.fixed d x)).getD 0

theorem Prints.float {F : Fmt K} {L : Lib K} (h : Prints F L) (d : ℕ) (x : K) : L.float (F.fixed d x) = some (rd F L d x) := by
  obtain ⟨y, h1, -⟩ := h.value d x
  rw [rd, h1]; rfl

theorem Prints.close {F : Fmt K} {L : Lib K} (h : Prints F L) (d : ℕ) (x : K) : Close 1 d (rd F L d x) x := by
  obtain ⟨y, h1, h2⟩ := h.value d x
  rw [rd, h1]; exact h2

theorem Prints.wide {F : Fmt K} {L : Lib K} (h : Prints F L) (x : K) : Spaced (wide F x) [F.fixed 8 x] :=
  spaced_padL 12 (h.plain 8 x)

theorem Prints.narrow {F : Fmt K} {L : Lib K} (h : Prints F L) (x : K) : Spaced (narrow F x) [F.fixed 4 x] :=
  spaced_padL 8 (h.plain 4 x)

theorem goodNumbers {L : Lib K} (hw : L.Words) {c : Str} {ws : List Str} (h : Says c ws) (hf : ∀ w ∈ ws, (L.float w).isSome)
    {as : List ℕ} (ha : as.contains ws.length = true) : badNumbers L c.lower.split as = false := by
  rw [badNumbers, Str.split_lower, h.split, List.length_map, ha, Bool.not_true, Bool.false_or, List.any_eq_false]
  intro w hw'
  obtain ⟨v, hv, rfl⟩ := List.mem_map.1 hw'
  rw [isFloat, hw v, hf v hv]
  decide

theorem flt_cons_comment {l : Str} (h : l.head? = some '#') (ls : List Str) : flt (l :: ls) = flt ls := by
  cases l with
  | nil => simp at h
  | cons c t =>
    simp only [List.head?_cons, Option.some.injEq] at h
    subst h
    exact flt_comment t ls

theorem flt_second {l : Str} (h : l.head? = some '#') (a : Str) (ls : List Str) : flt (a :: l :: ls) = flt (a :: ls) := by
  rw [← List.singleton_append (x := a) (l := l :: ls), flt_append, flt_cons_comment h, ← flt_append]
  rfl

theorem lineOf_lit {s : String} {ws : List Str} (h : (Str.lit s).split = ws) (hh : '#' ∉ Str.lit s) (hw : ws ≠ []) :
    LineOf (Str.lit s) ws := lineOf_spaced ⟨hh, h⟩ hw

/-! ### Cell -/

/-- The words of a row. -/
def row8 (F : Fmt K) (v : V3 K) : List Str := [F.fixed 8 (v 0), F.fixed 8 (v 1), F.fixed 8 (v 2)]

theorem join_row {F : Fmt K} {L : Lib K} (h : Prints F L) (v : V3 K) : Spaced (join [wide F (v 0), wide F (v 1), wide F (v 2)]) (row8 F v) :=
  spaced_join (.cons (h.wide _) (.cons (h.wide _) (.cons (h.wide _) .nil)))

theorem row_ok {F : Fmt K} {L : Lib K} (h : Prints F L) (v : V3 K) : ∀ w ∈ row8 F v, (L.float w).isSome := by
  intro w hw
  simp only [row8, List.mem_cons, List.not_mem_nil, or_false] at hw
  rcases hw with rfl | rfl | rfl <;> simp [h.float]

theorem read_row {F : Fmt K} {L : Lib K} (h : Prints F L) (v : V3 K) : readRow L (row8 F v) = .ok fun i => rd F L 8 (v i) := by
  rw [readRow, row8]
  simp only [floats, parse, h.float, Except.bind, toRow]
  congr 1
  funext i
  fin_cases i <;> rfl

theorem cell_says {F : Fmt K} {L : Lib K} (h : Prints F L) (cell : M3 K) : List.Forall₂ Says (flt (cellText F cell))
    [[Str.lit "Cell", Str.lit "Angstrom"], row8 F (cell 0), row8 F (cell 1), row8 F (cell 2)] := by
  have hr : ∀ (v : V3 K) (s : String) (t : Str), Str.lit s = '#' :: t →
      LineOf (join ([wide F (v 0), wide F (v 1), wide F (v 2)] ++ [Str.lit s])) (row8 F v) := by
    intro v s t hs
    rw [join_append (by simp) (by simp), show join [Str.lit s] = '#' :: t from hs]
    exact lineOf_comment (join_row h v) (by simp [row8])
  have := flt_lines (ls := [Str.lit "Cell Angstrom",
      join ([wide F (cell 0 0), wide F (cell 0 1), wide F (cell 0 2)] ++ [Str.lit "# <- a (first lattice vector)"]),
      join ([wide F (cell 1 0), wide F (cell 1 1), wide F (cell 1 2)] ++ [Str.lit "# <- b (second lattice vector)"]),
      join ([wide F (cell 2 0), wide F (cell 2 1), wide F (cell 2 2)] ++ [Str.lit "# <- c (third lattice vector)"])])
    (.cons (lineOf_lit (s := "Cell Angstrom") (ws := [Str.lit "Cell", Str.lit "Angstrom"]) (by decide +kernel) (by decide +kernel) (by simp))
    (.cons (hr (cell 0) _ _ rfl) (.cons (hr (cell 1) _ _ rfl) (.cons (hr (cell 2) _ _ rfl) .nil))))
  have e : flt (cellText F cell) = flt [Str.lit "Cell Angstrom",
      join ([wide F (cell 0 0), wide F (cell 0 1), wide F (cell 0 2)] ++ [Str.lit "# <- a (first lattice vector)"]),
      join ([wide F (cell 1 0), wide F (cell 1 1), wide F (cell 1 2)] ++ [Str.lit "# <- b (second lattice vector)"]),
      join ([wide F (cell 2 0), wide F (cell 2 1), wide F (cell 2 2)] ++ [Str.lit "# <- c (third lattice vector)"])] := by
    rw [cellText, flt_second (by decide +kernel)]
  rw [e]
  exact this

theorem says_header {c : Str} {k u : Str} (h : Says c [k, u]) {us : List Str} (hu : us.any (fun e => u.lower.lower.startsWith e) = true) :
    badHeader c us = false := by
  have h1 : c.lower.split = [k.lower, u.lower] := by rw [Str.split_lower, h.split]; rfl
  rw [badHeader, h1]
  have : us.isEmpty = false := by
    cases us with
    | nil => simp at hu
    | cons a as => rfl
  simp only [this, Bool.false_or, hu, Bool.not_true]

theorem says_header1 {c : Str} {k : Str} (h : Says c [k]) (us : List Str) : badHeader c us = false := by
  have h1 : c.lower.split = [k.lower] := by rw [Str.split_lower, h.split]; rfl
  rw [badHeader, h1]

theorem cell_good {F : Fmt K} {L : Lib K} (h : Prints F L) (hw : L.Words) {cell : M3 K} {C : List Str} (hC : List.Forall₂ Says C
    [[Str.lit "Cell", Str.lit "Angstrom"], row8 F (cell 0), row8 F (cell 1), row8 F (cell 2)]) : badCell L C = false := by
  cases hC with
  | cons s0 hC =>
    cases hC with
    | cons s1 hC =>
      cases hC with
      | cons s2 hC =>
        cases hC with
        | cons s3 hC =>
          cases hC
          rw [badCell, if_neg (by simp)]
          simp only [List.headD_cons, List.length_cons, List.length_nil, List.drop_succ_cons, List.drop_zero]
          rw [says_header s0 (by decide +kernel), if_neg (by decide), badBlock]
          simp only [badRows, goodNumbers hw s1 (row_ok h _) (as := [3]) rfl, goodNumbers hw s2 (row_ok h _) (as := [3]) rfl,
            goodNumbers hw s3 (row_ok h _) (as := [3]) rfl]
          rfl

variable [IsStrictOrderedRing K]

theorem cell_read {F : Fmt K} {L : Lib K} (h : Prints F L) {cell : M3 K} {C : List Str} (hC : List.Forall₂ Says C
    [[Str.lit "Cell", Str.lit "Angstrom"], row8 F (cell 0), row8 F (cell 1), row8 F (cell 2)]) :
    readCell L C = .ok (Matrix.of fun i j => rd F L 8 (cell i j), ![1, 1, 1]) := by
  have : CharZero K := inferInstance
  cases hC with
  | cons s0 hC =>
    cases hC with
    | cons s1 hC =>
      cases hC with
      | cons s2 hC =>
        cases hC with
        | cons s3 hC =>
          cases hC
          have hf : lengthFactor (K := K) (Str.lit "Angstrom").lower = .ok 1 := by
            have h1 : ((Str.lit "Angstrom").lower.startsWith ['b']) = false := by decide +kernel
            have h2 : ((Str.lit "Angstrom").lower.startsWith ['a']) = true := by decide +kernel
            rw [lengthFactor, h1, h2]
            simp [angstrom]
          have ht : ∀ v : V3 K, (row8 F v).take 3 = row8 F v := fun v => rfl
          simp only [readCell, List.headD_cons, cellUnits, s0.split, List.length_cons, List.length_nil, bind, Except.bind, hf,
            Nat.reduceAdd, if_true, List.getD_cons_succ, List.getD_cons_zero, s1.split, s2.split, s3.split, ht, read_row h]
          rw [if_neg (by decide)]
          congr 1
          refine Prod.ext ?_ rfl
          funext i j
          fin_cases i <;> fin_cases j <;> simp

end

end Txt
end Magnopy
