import Verif.Lemmas.TxtDumpClose
import Mathlib.Algebra.Order.Round
import Mathlib.Tactic.NormNum
import Mathlib.Tactic.Positivity

/-!
# Lemmas: a formatter and a parser that meet the conditions on them

The conditions `Prints` and `Lib.Words` on the numbers of a model file are met by ordinary decimal notation.
-/

set_option autoImplicit false
set_option linter.unusedSectionVars false

namespace Magnopy
namespace Txt

/-- Digits of a natural number, at least `n` of them. -/
def digits (n k : ℕ) : Str := List.replicate (n - (Nat.toDigits 10 k).length) '0' ++ Nat.toDigits 10 k

/-- A natural number of units of the last of `d` digits. -/
def pointed (d k : ℕ) : Str :=
  let ds := digits (d + 1) k
  ds.take (ds.length - d) ++ '.' :: ds.drop (ds.length - d)

/-- With the sign. -/
def signed (neg : Bool) (w : Str) : Str := if neg then '-' :: w else w

/-- A decimal number without sign: digits with at most one point. -/
def unsignedOf {K : Type} [Field K] (w : Str) : Option K :=
  let a := w.takeWhile (· ≠ '.')
  let b := (w.dropWhile (· ≠ '.')).drop 1
  if a ≠ [] ∧ (a ++ b).all Char.isDigit then some (Nat.ofDigitChars 10 (a ++ b) 0 / 10 ^ b.length) else none

/-- A decimal number. -/
def decimalOf {K : Type} [Field K] (w : Str) : Option K :=
  match w with
  | '-' :: t => (unsignedOf t).map fun v => -v
  | t => unsignedOf t

/-- An integer. -/
def integerOf (w : Str) : Option ℤ :=
  match w with
  | '-' :: t => if t ≠ [] ∧ t.all Char.isDigit then some (-(Nat.ofDigitChars 10 t 0)) else none
  | t => if t ≠ [] ∧ t.all Char.isDigit then some (Nat.ofDigitChars 10 t 0) else none

section
variable {K : Type} [Field K] [LinearOrder K] [IsStrictOrderedRing K] [FloorRing K]

/-- Decimal notation, rounded to the nearest. -/
def decimalFmt (logo : List Str) : Fmt K where
  fixed d x := signed (decide (round (x * 10 ^ d) < 0)) (pointed d (round (x * 10 ^ d)).natAbs)
  repr x := signed (decide (round (x * 10 ^ 1) < 0)) (pointed 1 (round (x * 10 ^ 1)).natAbs)
  int i := signed (decide (i < 0)) (Nat.toDigits 10 i.natAbs)
  logo := logo

/-- Reading decimal notation; the rest is given. -/
def decimalLib (norm : V3 K → K) (sin cos : K → K) (recip : M3 K → M3 K) : Lib K where
  float w := decimalOf w.lower
  int := integerOf
  alnum c := c.isAlphanum
  norm := norm
  sin := sin
  cos := cos
  recip := recip

theorem toDigits_ne (k : ℕ) : Nat.toDigits 10 k ≠ [] := by
  intro h
  have := Nat.ofDigitChars_ten_toDigits (n := k)
  rw [Nat.toDigits_eq_if (by decide)] at h
  split at h <;> simp at h

theorem digits_facts (n k : ℕ) : (∀ c ∈ digits n k, c.isDigit = true) ∧ n ≤ (digits n k).length ∧ Nat.ofDigitChars 10 (digits n k) 0 = k ∧
    digits n k ≠ [] := by
  refine ⟨?_, ?_, ?_, ?_⟩
  · intro c hc
    rcases List.mem_append.1 hc with hc | hc
    · rw [List.eq_of_mem_replicate hc]; decide
    · exact Nat.isDigit_of_mem_toDigits (by decide) (by decide) hc
  · simp only [digits, List.length_append, List.length_replicate]
    omega
  · rw [digits, Nat.ofDigitChars_append, Nat.ofDigitChars_replicate_zero, Nat.mul_zero, Nat.ofDigitChars_ten_toDigits]
  · simp [digits, toDigits_ne]

theorem pointed_parts (d k : ℕ) : ∃ a b, pointed d k = a ++ '.' :: b ∧ a ++ b = digits (d + 1) k ∧ b.length = d ∧ a ≠ [] := by
  obtain ⟨h1, h2, h3, h4⟩ := digits_facts (d + 1) k
  refine ⟨(digits (d + 1) k).take ((digits (d + 1) k).length - d), (digits (d + 1) k).drop ((digits (d + 1) k).length - d), rfl,
    List.take_append_drop _ _, ?_, ?_⟩
  · rw [List.length_drop]; omega
  · intro e
    have := congrArg List.length e
    rw [List.length_take, List.length_nil] at this
    omega

theorem pointed_shape (d k : ℕ) : ∃ c t, pointed d k = c :: t ∧ c.isDigit = true ∧ ∀ a ∈ t, a.isDigit = true ∨ a = '.' := by
  obtain ⟨a, b, h1, h2, -, h4⟩ := pointed_parts d k
  have hd := (digits_facts (d + 1) k).1
  rw [← h2] at hd
  obtain ⟨c, a, rfl⟩ := List.exists_cons_of_ne_nil h4
  refine ⟨c, a ++ '.' :: b, h1, hd c (by simp), fun e he => ?_⟩
  rcases List.mem_append.1 he with he | he
  · exact Or.inl (hd e (by simp [he]))
  · rcases List.mem_cons.1 he with rfl | he
    · exact Or.inr rfl
    · exact Or.inl (hd e (by simp [he]))

theorem unsigned_pointed (d k : ℕ) : unsignedOf (K := K) (pointed d k) = some ((k : K) / 10 ^ d) := by
  obtain ⟨a, b, h1, h2, h3, h4⟩ := pointed_parts d k
  have hd := (digits_facts (d + 1) k).1
  have hv := (digits_facts (d + 1) k).2.2.1
  rw [← h2] at hd hv
  have hp : ∀ c ∈ a, (decide (c ≠ '.')) = true := by
    intro c hc
    have := hd c (by simp [hc])
    rw [decide_eq_true_eq]
    rintro rfl
    exact absurd this (by decide)
  have e1 : (a ++ '.' :: b).takeWhile (· ≠ '.') = a := by
    rw [List.takeWhile_append_of_pos hp]; simp
  have e2 : (a ++ '.' :: b).dropWhile (· ≠ '.') = '.' :: b := by
    rw [List.dropWhile_append_of_pos hp]; simp
  rw [h1, unsignedOf]
  simp only [e1, e2, List.drop_succ_cons, List.drop_zero]
  rw [if_pos ⟨h4, List.all_eq_true.2 hd⟩, hv, h3]

theorem decimal_pointed (neg : Bool) (d k : ℕ) :
    decimalOf (K := K) (signed neg (pointed d k)) = some ((if neg then -(k : K) else (k : K)) / 10 ^ d) := by
  cases neg with
  | true => simp [signed, decimalOf, unsigned_pointed, neg_div]
  | false =>
    obtain ⟨c, t, h1, h2, -⟩ := pointed_shape d k
    have h := unsigned_pointed (K := K) d k
    rw [h1] at h
    simp only [signed, Bool.false_eq_true, if_false, h1]
    rw [decimalOf]
    · exact h
    · rintro u e
      cases e
      exact absurd h2 (by decide)

theorem natAbs_signed (i : ℤ) : (if decide (i < 0) = true then -((i.natAbs : ℕ) : K) else ((i.natAbs : ℕ) : K)) = (i : K) := by
  by_cases h : i < 0
  · rw [if_pos (by simpa using h)]
    obtain ⟨n, rfl⟩ : ∃ n : ℕ, i = -(n : ℤ) := ⟨i.natAbs, by omega⟩
    simp
  · rw [if_neg (by simpa using h)]
    obtain ⟨n, rfl⟩ : ∃ n : ℕ, i = (n : ℤ) := ⟨i.natAbs, by omega⟩
    simp

theorem lower_signed {neg : Bool} {w : Str} (h : ∀ a ∈ w, a.isDigit = true ∨ a = '.') : (signed neg w).lower = signed neg w := by
  have : w.lower = w := by
    rw [Str.lower]
    conv_rhs => rw [← List.map_id w]
    refine List.map_congr_left fun a ha => ?_
    rcases h a ha with h | rfl
    · exact (digit_facts h).2.2.2.2
    · decide
  cases neg with
  | true =>
    show '-'.toLower :: w.lower = _
    rw [this]; rfl
  | false => exact this

theorem lower_lower (w : Str) : w.lower.lower = w.lower := by
  rw [Str.lower, Str.lower, List.map_map]
  refine List.map_congr_left fun a _ => ?_
  simp only [Function.comp]
  by_cases h : a.val ≥ 'A'.val ∧ a.val ≤ 'Z'.val
  · have h2 : ¬ ((a.toLower).val ≥ 'A'.val ∧ (a.toLower).val ≤ 'Z'.val) := by
      rw [Char.toLower, dif_pos h]
      intro hc
      have h0 := UInt32.le_iff_toNat_le.1 h.1
      have h1 := UInt32.le_iff_toNat_le.1 h.2
      have h3 := UInt32.le_iff_toNat_le.1 hc.2
      simp only [UInt32.toNat_add] at h3
      simp at h0 h1 h3
      omega
    conv_lhs => rw [Char.toLower, dif_neg h2]
  · have h2 : a.toLower = a := by rw [Char.toLower, dif_neg h]
    rw [h2, h2]

theorem round_close (d : ℕ) (x : K) : Close 1 d ((round (x * 10 ^ d) : K) / 10 ^ d) x := by
  have hp : (0 : K) < 10 ^ d := by positivity
  have h := abs_sub_round (x * 10 ^ d)
  rw [Close]
  have e : (round (x * 10 ^ d) : K) / 10 ^ d - x = -(x * 10 ^ d - round (x * 10 ^ d)) / 10 ^ d := by
    field_simp
    ring
  rw [e, abs_div, abs_neg, abs_of_pos hp, Nat.cast_one, div_mul_eq_mul_div, div_le_iff₀ hp]
  nlinarith

/-- Decimal notation meets the conditions. -/
theorem decimal_prints {logo : List Str} (hl : ∀ l ∈ logo, ∃ t, l = '#' :: t) (norm : V3 K → K) (sin cos : K → K) (recip : M3 K → M3 K) :
    Prints (decimalFmt logo) (decimalLib norm sin cos recip) := by
  have hsh : ∀ (neg : Bool) (d k : ℕ), ∃ c t, (signed neg (pointed d k) = c :: t ∨ signed neg (pointed d k) = '-' :: c :: t) ∧
      c.isDigit = true ∧ ∀ a ∈ t, a.isDigit = true ∨ a = '.' := by
    intro neg d k
    obtain ⟨c, t, h1, h2, h3⟩ := pointed_shape d k
    refine ⟨c, t, ?_, h2, h3⟩
    cases neg with
    | true => exact Or.inr (by rw [signed, if_pos rfl, h1])
    | false => exact Or.inl (by rw [signed, if_neg (by decide), h1])
  have hpl : ∀ w : Str, w ≠ [] → (∀ a ∈ w, a.isDigit = true ∨ a = '.' ∨ a = '-') → Plain w := by
    intro w h0 h
    refine ⟨h0, fun a ha => ?_, fun ha => ?_⟩
    · rcases h a ha with h | rfl | rfl
      · exact (digit_facts h).1
      · decide
      · decide
    · rcases h '#' ha with h | h | h <;> exact absurd h (by decide)
  refine ⟨fun d x => hsh _ _ _, ?_, ?_, ?_, hl, rfl, rfl⟩
  · intro d x
    refine ⟨(round (x * 10 ^ d) : K) / 10 ^ d, ?_, round_close d x⟩
    obtain ⟨c, t, h1, h2, h3⟩ := pointed_shape d (round (x * 10 ^ d)).natAbs
    show decimalOf (Str.lower (signed _ (pointed d (round (x * 10 ^ d)).natAbs))) = _
    rw [lower_signed (by
      intro a ha
      rw [h1] at ha
      rcases List.mem_cons.1 ha with rfl | ha
      · exact Or.inl h2
      · exact h3 a ha), decimal_pointed, natAbs_signed]
  · intro i
    have hd : ∀ c ∈ Nat.toDigits 10 i.natAbs, c.isDigit = true := fun c hc => Nat.isDigit_of_mem_toDigits (by decide) (by decide) hc
    have hall : (Nat.toDigits 10 i.natAbs).all Char.isDigit = true := List.all_eq_true.2 hd
    show Plain (signed _ (Nat.toDigits 10 i.natAbs)) ∧ integerOf (signed _ (Nat.toDigits 10 i.natAbs)) = _
    by_cases h : i < 0
    · rw [decide_eq_true h, signed, if_pos rfl]
      refine ⟨hpl _ (by simp) ?_, ?_⟩
      · intro a ha
        rcases List.mem_cons.1 ha with rfl | ha
        · tauto
        · exact Or.inl (hd a ha)
      · rw [integerOf, if_pos ⟨toDigits_ne _, hall⟩, Nat.ofDigitChars_ten_toDigits]
        congr 1; omega
    · rw [decide_eq_false h, signed, if_neg (by decide)]
      refine ⟨hpl _ (toDigits_ne _) fun a ha => Or.inl (hd a ha), ?_⟩
      rw [integerOf]
      · rw [if_pos ⟨toDigits_ne _, hall⟩, Nat.ofDigitChars_ten_toDigits]
        congr 1; omega
      · rintro u e
        exact absurd (hd '-' (by rw [e]; simp)) (by decide)
  · intro x
    obtain ⟨c, t, h1, h2, h3⟩ := hsh (decide (round (x * 10 ^ 1) < 0)) 1 (round (x * 10 ^ 1)).natAbs
    show Plain (signed (decide (round (x * 10 ^ 1) < 0)) (pointed 1 (round (x * 10 ^ 1)).natAbs))
    refine hpl _ ?_ ?_
    · rcases h1 with e | e <;> (rw [e]; simp)
    · intro a ha
      rcases h1 with e | e <;> rw [e] at ha <;> simp only [List.mem_cons] at ha
      · rcases ha with rfl | ha
        · tauto
        · rcases h3 a ha with h | h <;> tauto
      · rcases ha with rfl | rfl | ha
        · tauto
        · tauto
        · rcases h3 a ha with h | h <;> tauto

theorem decimal_words (norm : V3 K → K) (sin cos : K → K) (recip : M3 K → M3 K) : (decimalLib norm sin cos recip).Words := by
  intro w
  show decimalOf w.lower.lower = decimalOf w.lower
  rw [lower_lower]

end

end Txt
end Magnopy
