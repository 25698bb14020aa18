import Verif.Lemmas.TxtDumpSample
import Verif.Spec.HistoryText
import Mathlib.Data.Int.Log

/-!
# Lemmas: decimal notation with and without exponent meets the conditions of the history
-/

set_option autoImplicit false
set_option linter.unusedSectionVars false

namespace Magnopy.History

open Txt

variable {K : Type} [Field K] [LinearOrder K] [IsStrictOrderedRing K] [FloorRing K]

/-- The exponent, with its sign and at least two digits. -/
def expWord (e : ℤ) : Str := (if e < 0 then '-' else '+') :: digits 2 e.natAbs

/-- An exponent is read. -/
def expOf (w : Str) : Option ℤ :=
  match w with
  | '+' :: t => integerOf t
  | t => integerOf t

/-- A decimal number with or without exponent is read. -/
def sciOf (w : Str) : Option K :=
  match decimalOf (K := K) (w.takeWhile (· ≠ 'e')), w.dropWhile (· ≠ 'e') with
  | none, _ => none
  | some m, [] => some m
  | some m, _ :: t => (expOf t).map fun e => m * 10 ^ e

/-- The digits and the exponent of a number. -/
def sciParts (d : ℕ) (x : K) : ℕ × ℤ :=
  let e := Int.log 10 |x|
  let m := (round (|x| / 10 ^ e * 10 ^ d)).natAbs
  if m = 10 ^ (d + 1) then (10 ^ d, e + 1) else (m, e)

/-- Ordinary decimal notation. -/
def decimal : NumFmt K where
  fixed d x := signed (decide (round (x * 10 ^ d) < 0)) (pointed d (round (x * 10 ^ d)).natAbs)
  sci d x := signed (decide (x < 0)) (pointed d (sciParts d x).1) ++ 'e' :: expWord (sciParts d x).2

theorem expOf_expWord (e : ℤ) : expOf (expWord e) = some e := by
  obtain ⟨h1, h2, h3, h4⟩ := digits_facts 2 e.natAbs
  have hall : (digits 2 e.natAbs).all Char.isDigit = true := List.all_eq_true.2 h1
  rw [expWord]
  split
  · show integerOf ('-' :: digits 2 e.natAbs) = some e
    rw [integerOf, if_pos ⟨h4, hall⟩, h3]
    congr 1; omega
  · show integerOf (digits 2 e.natAbs) = some e
    rw [integerOf]
    · rw [if_pos ⟨h4, hall⟩, h3]
      congr 1; omega
    · rintro u e'
      exact absurd (h1 '-' (by rw [e']; simp)) (by decide)

theorem number_chars (neg : Bool) (d k : ℕ) : signed neg (pointed d k) ≠ [] ∧
    ∀ a ∈ signed neg (pointed d k), a.isDigit = true ∨ a = '.' ∨ a = '-' := by
  obtain ⟨c, t, h1, h2, h3⟩ := pointed_shape d k
  have h : ∀ a ∈ pointed d k, a.isDigit = true ∨ a = '.' ∨ a = '-' := by
    intro a ha
    rw [h1] at ha
    rcases List.mem_cons.1 ha with rfl | ha
    · exact .inl h2
    · rcases h3 a ha with h | h
      · exact .inl h
      · exact .inr (.inl h)
  cases neg with
  | true =>
    refine ⟨by simp [signed], fun a ha => ?_⟩
    rcases List.mem_cons.1 ha with rfl | ha
    · exact .inr (.inr rfl)
    · exact h a ha
  | false => exact ⟨by simp [signed, h1], h⟩

theorem number_noE (neg : Bool) (d k : ℕ) : ∀ a ∈ signed neg (pointed d k), decide (a ≠ 'e') = true := by
  intro a ha
  rw [decide_eq_true_eq]
  rintro rfl
  rcases (number_chars neg d k).2 _ ha with h | h | h <;> exact absurd h (by decide)

theorem good_char {a : Char} (h : a.isDigit = true ∨ a ∈ ['.', '-', '+', 'e']) : Str.isSpace a = false ∧ a ≠ '#' := by
  rcases h with h | h
  · exact ⟨(digit_facts h).1, (digit_facts h).2.1⟩
  · revert a; decide

theorem plain_chars {w : Str} (h0 : w ≠ []) (h : ∀ a ∈ w, a.isDigit = true ∨ a ∈ ['.', '-', '+', 'e']) : Plain w :=
  ⟨h0, fun a ha => (good_char (h a ha)).1, fun ha => (good_char (h _ ha)).2 rfl⟩

theorem sciParts_close (d : ℕ) (x : K) :
    abs (((sciParts d x).1 : K) / 10 ^ d * 10 ^ (sciParts d x).2 - |x|) * (2 * 10 ^ d) ≤ |x| := by
  obtain ⟨e, he⟩ : ∃ e, e = Int.log 10 |x| := ⟨_, rfl⟩
  obtain ⟨m, hm⟩ : ∃ m, m = (round (|x| / 10 ^ e * 10 ^ d)).natAbs := ⟨_, rfl⟩
  have h1 : ((sciParts d x).1 : K) / 10 ^ d * 10 ^ (sciParts d x).2 = (m : K) / 10 ^ d * 10 ^ e := by
    rw [sciParts, ← he, ← hm]
    split
    · rename_i h
      rw [h]
      push_cast
      rw [zpow_add₀ (by norm_num), zpow_one, pow_succ]
      field_simp
    · rfl
  rw [h1]
  have hd : (0 : K) < 10 ^ d := by positivity
  have hE : (0 : K) < (10 : K) ^ e := by positivity
  have hnn : 0 ≤ round (|x| / 10 ^ e * 10 ^ d) := by
    rw [round_eq]
    exact Int.floor_nonneg.2 (by positivity)
  have hmr : (m : K) = (round (|x| / 10 ^ e * 10 ^ d) : K) := by
    rw [hm]
    rw [← Int.cast_natCast, Int.natAbs_of_nonneg hnn]
  rcases (abs_nonneg x).eq_or_lt with h0 | h0
  · have : (m : K) = 0 := by rw [hmr, ← h0]; simp
    rw [this, ← h0]; simp
  · have hlog : (10 : K) ^ e ≤ |x| := by
      have := Int.zpow_log_le_self (b := 10) (by norm_num) h0
      rw [he]; exact_mod_cast this
    have hr := abs_sub_round (|x| / 10 ^ e * 10 ^ d)
    rw [← hmr] at hr
    have e1 : (m : K) / 10 ^ d * 10 ^ e - |x| = -((|x| / 10 ^ e * 10 ^ d - m) * (10 ^ e / 10 ^ d)) := by
      field_simp; ring
    rw [e1, abs_neg, abs_mul, abs_of_pos (show (0 : K) < 10 ^ e / 10 ^ d by positivity)]
    calc |(|x| / 10 ^ e * 10 ^ d - m)| * (10 ^ e / 10 ^ d) * (2 * 10 ^ d)
        = |(|x| / 10 ^ e * 10 ^ d - m)| * 2 * 10 ^ e := by field_simp
      _ ≤ 1 * 10 ^ e := mul_le_mul_of_nonneg_right (by linarith) hE.le
      _ ≤ |x| := by rw [one_mul]; exact hlog

/-- Ordinary decimal notation meets the conditions. -/
theorem decimal_reads : Reads (decimal (K := K)) sciOf := by
  refine ⟨fun d x => ⟨?_, ?_⟩, fun d x => ⟨?_, ?_⟩⟩
  · obtain ⟨h0, h1⟩ := number_chars (decide (round (x * 10 ^ d) < 0)) d (round (x * 10 ^ d)).natAbs
    refine plain_chars h0 fun a ha => ?_
    rcases h1 a ha with h | rfl | rfl <;> simp_all
  · refine ⟨(round (x * 10 ^ d) : K) / 10 ^ d, ?_, by simpa [Close] using round_close d x⟩
    have hE := number_noE (decide (round (x * 10 ^ d) < 0)) d (round (x * 10 ^ d)).natAbs
    rw [decimal, sciOf]
    simp only
    rw [List.takeWhile_eq_self_iff.2 hE, List.dropWhile_eq_nil_iff.2 hE, decimal_pointed, natAbs_signed]
  · obtain ⟨h0, h1⟩ := number_chars (decide (x < 0)) d (sciParts d x).1
    refine plain_chars (by rw [decimal]; simp) fun a ha => ?_
    rcases List.mem_append.1 ha with ha | ha
    · rcases h1 a ha with h | rfl | rfl <;> simp_all
    · rcases List.mem_cons.1 ha with rfl | ha
      · simp
      · rw [expWord] at ha
        rcases List.mem_cons.1 ha with rfl | ha
        · split <;> simp
        · exact .inl ((digits_facts 2 _).1 a ha)
  · have hE := number_noE (decide (x < 0)) d (sciParts d x).1
    refine ⟨(if decide (x < 0) = true then -((sciParts d x).1 : K) else ((sciParts d x).1 : K)) / 10 ^ d * 10 ^ (sciParts d x).2,
      ?_, ?_⟩
    · rw [decimal, sciOf]
      simp only
      rw [List.takeWhile_append_of_pos hE, List.dropWhile_append_of_pos hE, List.takeWhile_cons_of_neg (by simp),
        List.dropWhile_cons_of_neg (by simp), List.append_nil, decimal_pointed]
      simp only [expOf_expWord, Option.map_some]
    · have h := sciParts_close d x
      by_cases hx : x < 0
      · rw [if_pos (by simpa using hx)]
        have e : -((sciParts d x).1 : K) / 10 ^ d * 10 ^ (sciParts d x).2 - x =
            -(((sciParts d x).1 : K) / 10 ^ d * 10 ^ (sciParts d x).2 - |x|) := by rw [abs_of_neg hx]; ring
        rw [e, abs_neg]
        exact h
      · rw [if_neg (by simpa using hx)]
        have e : ((sciParts d x).1 : K) / 10 ^ d * 10 ^ (sciParts d x).2 - x =
            ((sciParts d x).1 : K) / 10 ^ d * 10 ^ (sciParts d x).2 - |x| := by rw [abs_of_nonneg (not_lt.1 hx)]
        rw [e]
        exact h

end Magnopy.History
