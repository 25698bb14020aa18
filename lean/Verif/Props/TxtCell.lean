import Verif.Model.TxtRead
import Mathlib.LinearAlgebra.Matrix.Determinant.Basic
import Mathlib.Tactic.FieldSimp
import Mathlib.Tactic.Ring
import Mathlib.Tactic.NormNum
import Mathlib.Tactic.Linarith
import Mathlib.Algebra.Order.Ring.Abs

/-!
# Property C48: negative scale of the cell
-/

set_option autoImplicit false

namespace Magnopy

open Txt

section
variable {K : Type} [Field K]

theorem det3_eq (m : M3 K) : det3 m = m.det := by
  rw [Matrix.det_fin_three, det3]; ring

theorem det3_scale (m : M3 K) (s : V3 K) : det3 (Matrix.of fun i j => m i j * s j) = det3 m * (s 0 * s 1 * s 2) := by
  simp only [det3, Matrix.of_apply]; ring

end

section
variable {K : Type} [Field K] [LinearOrder K] [IsStrictOrderedRing K]

/-- The unscaled cell described by the header and the rows of the section: the rows in Angstrom. -/
structure CellRows (L : Lib K) (lines : List Str) (base : M3 K) : Prop where
  header : ∃ u c, ((lines.headD []).split = [u] ∧ c = 1 ∨ ∃ v t, (lines.headD []).split = [u, v] ∧
    (v.lower = 'a' :: t ∧ c = 1 ∨ v.lower = 'b' :: t ∧ c = 529177210903 / 10 ^ 12)) ∧
    ∃ w : Fin 3 → Fin 3 → Str, (∀ i : Fin 3, (lines.getD (lines.length - 3 + i) []).split = [w i 0, w i 1, w i 2]) ∧
      ∀ i j, ∃ x, L.float (w i j) = some x ∧ base i j = c * x

theorem parse_some {L : Lib K} {w : Str} {x : K} (h : L.float w = some x) : parse L w = .ok x := by
  rw [parse, h]

theorem readRow_three {L : Lib K} {a b c : Str} {x y z : K} (ha : L.float a = some x) (hb : L.float b = some y)
    (hc : L.float c = some z) : readRow L [a, b, c] = .ok ![x, y, z] := by
  simp [readRow, floats, parse_some ha, parse_some hb, parse_some hc, Except.bind, toRow]

theorem lengthFactor_a (t : Str) : lengthFactor (K := K) ('a' :: t) = .ok 1 := by
  simp [lengthFactor, Str.startsWith, angstrom, List.isPrefixOf]

theorem lengthFactor_b (t : Str) : lengthFactor (K := K) ('b' :: t) = .ok (529177210903 / 10 ^ 12) := by
  simp only [lengthFactor, Str.startsWith, angstrom, bohrRadius, List.isPrefixOf]
  norm_num

/-- The first part of `_read_cell`. -/
theorem readCell_eq {L : Lib K} {lines : List Str} {base : M3 K} (h : CellRows L lines base)
    (hn : lines.length = 4 ∨ lines.length = 5) : readCell L lines =
      ((if lines.length = 5 then readScale L base (lines.getD 1 []).split else .ok ![1, 1, 1]).bind fun s =>
        .ok (Matrix.of fun i j => base i j * s j, s)) := by
  obtain ⟨u, c, hc, w, hw, hx⟩ := h.header
  choose x hx using hx
  have hu : ∃ units, cellUnits (lines.headD []) = .ok units ∧ lengthFactor (K := K) units.lower = .ok c := by
    rcases hc with ⟨h1, rfl⟩ | ⟨v, t, h1, h2⟩
    · refine ⟨_, by rw [cellUnits, h1], ?_⟩
      rw [show (Str.lit "Angstrom").lower = 'a' :: Str.lit "ngstrom" by decide +kernel]
      exact lengthFactor_a _
    · refine ⟨v, by rw [cellUnits, h1], ?_⟩
      rcases h2 with ⟨h2, rfl⟩ | ⟨h2, rfl⟩
      · rw [h2]; exact lengthFactor_a t
      · rw [h2]; exact lengthFactor_b t
  obtain ⟨units, hu1, hu2⟩ := hu
  have row : ∀ i : Fin 3, readRow L ((lines.getD (lines.length - 3 + i) []).split.take 3) = .ok ![x i 0, x i 1, x i 2] := by
    intro i
    rw [hw i]
    exact readRow_three (hx i 0).1 (hx i 1).1 (hx i 2).1
  have hb : (Matrix.of fun i j => ![![x 0 0, x 0 1, x 0 2], ![x 1 0, x 1 1, x 1 2], ![x 2 0, x 2 1, x 2 2]] i j * c : M3 K) = base := by
    ext i j
    rw [(hx i j).2]
    fin_cases i <;> fin_cases j <;> simp [mul_comm]
  unfold readCell
  rw [hu1]
  simp only [bind, Except.bind, hu2]
  have r0 := row 0
  have r1 := row 1
  have r2 := row 2
  rcases hn with hn | hn
  · simp only [hn, if_true] at r0 r1 r2 ⊢
    simp only [Fin.val_zero, Fin.val_one, Fin.val_two] at r0 r1 r2
    simp only [Nat.reduceSub, Nat.reduceAdd] at r0 r1 r2 ⊢
    rw [r0, r1, r2]
    simp only [hb]
    simp
  · simp only [hn] at r0 r1 r2 ⊢
    simp only [Fin.val_zero, Fin.val_one, Fin.val_two] at r0 r1 r2
    simp only [Nat.reduceSub, Nat.reduceAdd, Nat.reduceEqDiff, if_false, if_true] at r0 r1 r2 ⊢
    rw [r0, r1, r2]
    simp only [hb]

/-- **C48, partial.** The claim is `|cell.det| = V`.  What holds: with the single scale `-V` every lattice vector is
multiplied by `V / V₀`, where `V₀` is the volume of the cell as given, so the volume of the loaded cell is `V³ / V₀²`;
it is `V` exactly if `V₀ = V` already.  Missing: the cube root of the ratio of volumes. -/
theorem C48_volume_partial {L : Lib K} {lines : List Str} {base : M3 K} (h : CellRows L lines base)
    (hn : lines.length = 5) {w : Str} (hw : (lines.getD 1 []).split = [w]) {V : K} (hV : 0 < V)
    (hf : L.float w = some (-V)) (hd : base.det ≠ 0) :
    ∃ cell scale, readCell L lines = .ok (cell, scale) ∧ cell = (V / |base.det|) • base ∧
      |cell.det| = V ^ 3 / |base.det| ^ 2 ∧ (|cell.det| = V ↔ |base.det| = V) := by
  have hd0 : 0 < |base.det| := abs_pos.2 hd
  have e : readCell L lines = .ok (Matrix.of fun i j => base i j * (V / |base.det|),
      ![V / |base.det|, V / |base.det|, V / |base.det|]) := by
    rw [readCell_eq h (Or.inr hn), if_pos hn, hw, readScale, parse_some hf]
    simp only [Left.neg_neg_iff, hV, if_true, abs_neg, abs_of_pos hV, det3_eq, Except.bind]
    congr 2
    ext i j
    fin_cases j <;> simp
  have hm : (Matrix.of fun i j => base i j * (V / |base.det|) : M3 K) = (V / |base.det|) • base := by
    ext i j
    simp [mul_comm]
  have hdet : |((V / |base.det|) • base).det| = V ^ 3 / |base.det| ^ 2 := by
    rw [Matrix.det_smul, Fintype.card_fin, abs_mul, abs_pow, abs_div, abs_abs, abs_of_pos hV]
    field_simp
  refine ⟨_, _, e, hm, by rw [hm, hdet], ?_⟩
  rw [hm, hdet, div_eq_iff (by positivity)]
  constructor
  · intro h
    have h2 : V ^ 2 = |base.det| ^ 2 := by
      have : V * V ^ 2 = V * |base.det| ^ 2 := by rw [← h]; ring
      exact mul_left_cancel₀ hV.ne' this
    exact ((sq_eq_sq₀ hV.le hd0.le).1 h2).symm
  · intro h
    rw [h]; ring

end

namespace TxtExample

/-- Digits. -/
def digits : Str → Option ℕ
  | [] => none
  | s => if s.all Char.isDigit then some (s.foldl (fun n c => 10 * n + (c.toNat - '0'.toNat)) 0) else none

/-- Decimal numbers without exponent: `12`, `0.5`. -/
def unsigned (s : Str) : Option ℚ :=
  match s.dropWhile (· != '.') with
  | [] => (digits s).map fun n => (n : ℚ)
  | _ :: f =>
    match digits (s.takeWhile (· != '.')), digits f with
    | some n, some m => some (n + m / 10 ^ f.length)
    | _, _ => none

/-- A part of `float`. -/
def float (s : Str) : Option ℚ :=
  match s with
  | '-' :: t => (unsigned t).map fun x => -x
  | t => unsigned t

/-- A part of `int`. -/
def int (s : Str) : Option ℤ :=
  match s with
  | '-' :: t => (digits t).map fun n => -(n : ℤ)
  | t => (digits t).map fun n => (n : ℤ)

/-- A library for examples: decimal numbers, the length is the sum of absolute values. -/
def lib : Lib ℚ :=
  ⟨float, int, fun c => c.isAlpha || c.isDigit, fun v => |v 0| + |v 1| + |v 2|, fun _ => 0, fun _ => 1, fun m => m⟩

/-- A cubic cell of edge two, with a target volume of one. -/
def cell : List Str := ["Cell", "-1", "2 0 0", "0 2 0", "0 0 2"].map Str.lit

theorem rows : CellRows lib cell !![2, 0, 0; 0, 2, 0; 0, 0, 2] := by
  refine ⟨Str.lit "Cell", 1, Or.inl ⟨by decide +kernel, rfl⟩,
    fun i j => if i = j then ['2'] else ['0'], ?_, ?_⟩
  · intro i
    fin_cases i <;> decide +kernel
  · intro i j
    fin_cases i <;> fin_cases j <;> first
      | exact ⟨2, by decide +kernel, by norm_num⟩
      | exact ⟨0, by decide +kernel, by norm_num⟩

end TxtExample

/-- **C48 is false.** The cubic cell of volume eight with scale `-1` gets the volume 1/64 instead of one. -/
theorem C48_volume_false : ∃ (L : Lib ℚ) (lines : List Str) (base : M3 ℚ), CellRows L lines base ∧ base.det ≠ 0 ∧
    lines.length = 5 ∧ (∃ w, (lines.getD 1 []).split = [w] ∧ L.float w = some (-1)) ∧
    ∀ cell scale, readCell L lines = .ok (cell, scale) → |cell.det| ≠ 1 := by
  have hd : (!![2, 0, 0; 0, 2, 0; 0, 0, 2] : M3 ℚ).det = 8 := by rw [Matrix.det_fin_three]; simp; norm_num
  refine ⟨TxtExample.lib, TxtExample.cell, _, TxtExample.rows, by rw [hd]; norm_num, rfl,
    ⟨['-', '1'], by decide +kernel, by decide +kernel⟩, ?_⟩
  intro cell scale h
  obtain ⟨c, s, h1, _, h2, _⟩ := C48_volume_partial TxtExample.rows rfl (w := ['-', '1']) (V := 1) (by decide +kernel)
    (by norm_num) (by decide +kernel) (by rw [hd]; norm_num)
  rw [h1] at h
  cases h
  rw [h2, hd]
  norm_num

/-- Without a scale line the cell is the one written in the file. -/
theorem C48_no_scale {K : Type} [Field K] [LinearOrder K] [IsStrictOrderedRing K] {L : Lib K} {lines : List Str}
    {base : M3 K} (h : CellRows L lines base) (hn : lines.length = 4) : readCell L lines = .ok (base, ![1, 1, 1]) := by
  rw [readCell_eq h (Or.inl hn), if_neg (by omega)]
  simp only [Except.bind]
  congr 2
  ext i j
  fin_cases j <;> simp

/-- **C48, positive scales.** One positive factor multiplies the cell, three factors multiply the x, y and z components. -/
theorem C48_positive {K : Type} [Field K] [LinearOrder K] [IsStrictOrderedRing K] {L : Lib K} {lines : List Str}
    {base : M3 K} (h : CellRows L lines base) (hn : lines.length = 5) :
    (∀ w x, (lines.getD 1 []).split = [w] → L.float w = some x → 0 ≤ x →
      readCell L lines = .ok (x • base, ![x, x, x])) ∧
    ∀ a b c x y z, (lines.getD 1 []).split = [a, b, c] → L.float a = some x → L.float b = some y → L.float c = some z →
      readCell L lines = .ok (Matrix.of fun i j => ![x, y, z] j * base i j, ![x, y, z]) := by
  constructor
  · intro w x hw hx h0
    rw [readCell_eq h (Or.inr hn), if_pos hn, hw, readScale, parse_some hx]
    simp only [not_lt.2 h0, if_false, Except.bind]
    congr 2
    ext i j
    fin_cases j <;> simp [mul_comm]
  · intro a b c x y z hw ha hb hc
    rw [readCell_eq h (Or.inr hn), if_pos hn, hw, readScale]
    simp only [floats, parse_some ha, parse_some hb, parse_some hc, Except.bind, toRow]
    congr 2
    ext i j
    rw [Matrix.of_apply, Matrix.of_apply, mul_comm]

example : ((readCell TxtExample.lib (["CELL bohr", "0.5 1 2", "2 0 0", "0 2 0", "0 0 2"].map Str.lit)).toOption.map
    fun p => (List.finRange 3).map fun i => p.1 i i) =
    some [529177210903 / 10 ^ 12, 2 * 529177210903 / 10 ^ 12, 4 * 529177210903 / 10 ^ 12] := by decide +kernel

end Magnopy
