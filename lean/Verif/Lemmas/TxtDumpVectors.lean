import Verif.Lemmas.TxtDumpSections
import Mathlib.Tactic.FieldSimp
import Mathlib.Tactic.NormNum
import Mathlib.Tactic.Positivity
import Mathlib.Tactic.LinearCombination
import Mathlib.Tactic.Ring

/-!
# Lemmas: cone axis and spiral vector of a written file
-/

set_option autoImplicit false
set_option linter.unusedSectionVars false

namespace Magnopy
namespace Txt

open H5 (Full)

section
variable {K : Type} [Field K] [LinearOrder K] [IsStrictOrderedRing K]

theorem Lib.Euclid.unit {L : Lib K} (h : L.Euclid) : L.Unit := by
  intro v hv
  have h1 := h.square v
  rw [hv] at h1
  rcases mul_self_eq_one_iff.1 h1 with h2 | h2
  · exact h2
  · have := h.nonneg v
    rw [h2] at this
    linarith

/-- The length of a rounded unit vector. -/
theorem norm_bounds {v e : V3 K} {n h : K} (hv : v 0 * v 0 + v 1 * v 1 + v 2 * v 2 = 1) (hp : 0 < h) (hh : h * h ≤ 1 / 200000000 * h)
    (hee : ∀ i, e i * e i ≤ h * h) (hn : 0 ≤ n)
    (hs : n * n = (v 0 + e 0) * (v 0 + e 0) + (v 1 + e 1) * (v 1 + e 1) + (v 2 + e 2) * (v 2 + e 2)) :
    n ≤ 1 + 7 / 4 * h ∧ 1 - 9 / 5 * h ≤ n := by
  obtain ⟨c, hc⟩ : ∃ c, c = v 0 * e 0 + v 1 * e 1 + v 2 * e 2 := ⟨_, rfl⟩
  obtain ⟨s, hsd⟩ : ∃ s, s = e 0 * e 0 + e 1 * e 1 + e 2 * e 2 := ⟨_, rfl⟩
  have hs3 : s ≤ 3 * (h * h) := by linarith [hee 0, hee 1, hee 2]
  have hs0 : 0 ≤ s := by
    have := mul_self_nonneg (e 0); have := mul_self_nonneg (e 1); have := mul_self_nonneg (e 2)
    linarith
  have hcs : c * c ≤ s := by
    have key : c * c + ((v 0 * e 1 - v 1 * e 0) * (v 0 * e 1 - v 1 * e 0) + (v 0 * e 2 - v 2 * e 0) * (v 0 * e 2 - v 2 * e 0) +
        (v 1 * e 2 - v 2 * e 1) * (v 1 * e 2 - v 2 * e 1)) = (v 0 * v 0 + v 1 * v 1 + v 2 * v 2) * s := by
      rw [hc, hsd]; ring
    rw [hv, one_mul] at key
    have := mul_self_nonneg (v 0 * e 1 - v 1 * e 0)
    have := mul_self_nonneg (v 0 * e 2 - v 2 * e 0)
    have := mul_self_nonneg (v 1 * e 2 - v 2 * e 1)
    linarith
  have hq : 0 < h * h := mul_pos hp hp
  have hca : |c| ≤ 7 / 4 * h := by
    apply abs_le_of_sq_le_sq _ (by positivity)
    have : (7 / 4 * h) ^ 2 = 49 / 16 * (h * h) := by ring
    rw [sq, this]
    linarith
  have hc' := abs_le.1 hca
  have hnn : n * n = 1 + 2 * c + s := by
    rw [hs, hc, hsd, ← hv]; ring
  constructor
  · by_contra hlt
    have h1 : (1 + 7 / 4 * h) * (1 + 7 / 4 * h) < n * n := mul_self_lt_mul_self (by positivity) (not_le.1 hlt)
    have h2 : (1 + 7 / 4 * h) * (1 + 7 / 4 * h) = 1 + 7 / 2 * h + 49 / 16 * (h * h) := by ring
    linarith
  · by_contra hlt
    have h1 : n * n < (1 - 9 / 5 * h) * (1 - 9 / 5 * h) := mul_self_lt_mul_self hn (not_le.1 hlt)
    have h2 : (1 - 9 / 5 * h) * (1 - 9 / 5 * h) = 1 - 18 / 5 * h + 81 / 25 * (h * h) := by ring
    linarith

/-- One component of a rounded vector which is divided by its length. -/
theorem component_close {v w n h : K} (hp : 0 < h) (hn : 99 / 100 ≤ n) (h1 : |1 - n| ≤ 9 / 5 * h) (hv : |v| ≤ 1) (hw : |w - v| ≤ h) :
    |w / n - v| ≤ 3 * h := by
  have hn0 : 0 < n := lt_of_lt_of_le (by norm_num) hn
  have hd : w / n - v = (w - v + v * (1 - n)) / n := by
    field_simp
    ring
  rw [hd, abs_div, abs_of_pos hn0, div_le_iff₀ hn0]
  have h2 : |v * (1 - n)| ≤ 1 * (9 / 5 * h) := by
    rw [abs_mul]
    exact mul_le_mul hv h1 (abs_nonneg _) zero_le_one
  have h3 : 3 * h * (99 / 100) ≤ 3 * h * n := mul_le_mul_of_nonneg_left hn (by linarith)
  have h4 := abs_add_le (w - v) (v * (1 - n))
  linarith

/-- Rounding a unit vector and making it a unit vector again. -/
theorem unit_close {v w : V3 K} {n : K} (hv : v 0 * v 0 + v 1 * v 1 + v 2 * v 2 = 1) (hw : ∀ i, Close 1 8 (w i) (v i)) (hn : 0 ≤ n)
    (hs : n * n = w 0 * w 0 + w 1 * w 1 + w 2 * w 2) : n ≠ 0 ∧ ∀ i, Close 3 8 (w i / n) (v i) := by
  obtain ⟨h, hh⟩ : ∃ h : K, h = half 8 := ⟨_, rfl⟩
  have hv' : h = 1 / 200000000 := by rw [hh, half]; norm_num
  have hp : 0 < h := hh ▸ half_pos 8
  simp only [close_iff, Nat.cast_one, one_mul, ← hh] at hw
  have hwv : ∀ i, |w i - v i| ≤ h := fun i => abs_le.2 ⟨(hw i).2, (hw i).1⟩
  obtain ⟨up, lo⟩ := norm_bounds (e := fun i => w i - v i) (n := n) hv hp (by rw [hv']) (fun i => by
    rw [← abs_mul_abs_self]
    exact mul_le_mul (hwv i) (hwv i) (abs_nonneg _) hp.le) hn (by rw [hs]; ring)
  have hn9 : 99 / 100 ≤ n := by
    have : h ≤ 1 / 1000 := by rw [hv']; norm_num
    linarith
  refine ⟨fun e => by rw [e] at hn9; norm_num at hn9, fun i => ?_⟩
  have hvi : |v i| ≤ 1 := by
    apply abs_le_of_sq_le_sq _ zero_le_one
    rw [one_pow, sq]
    have h0 := mul_self_nonneg (v 0); have h1 := mul_self_nonneg (v 1); have h2 := mul_self_nonneg (v 2)
    fin_cases i
    · show v 0 * v 0 ≤ 1; linarith
    · show v 1 * v 1 ≤ 1; linarith
    · show v 2 * v 2 ≤ 1; linarith
  have := abs_le.1 (component_close hp hn9 (abs_le.2 ⟨by linarith, by linarith⟩) hvi (hwv i))
  rw [close_iff, ← hh]
  push_cast
  exact ⟨this.2, this.1⟩

variable {F : Fmt K} {L : Lib K}

theorem vector_text (h : Prints F L) (title : String) {k u : Str} (ht : (Str.lit title).split = [k, u]) (hh : '#' ∉ Str.lit title) (v : V3 K) :
    ∃ ls, vectorText F (Str.lit title) (some v) = ls ++ [separator] ∧ List.Forall₂ Says (flt ls) [[k, u], row8 F v] :=
  ⟨[Str.lit title, join [wide F (v 0), wide F (v 1), wide F (v 2)]], rfl,
    flt_lines (.cons (lineOf_spaced ⟨hh, ht⟩ (by simp)) (.cons (lineOf_spaced (join_row h v) (by simp [row8])) .nil))⟩

theorem vector_good (h : Prints F L) (hw : L.Words) {k u : Str} (hu : [['a'], ['r']].any (fun e => u.lower.lower.startsWith e) = true)
    {v : V3 K} {C : List Str} (hC : List.Forall₂ Says C [[k, u], row8 F v]) : badCone L C = false ∧ badSpiral L C = false := by
  cases hC with
  | cons t0 hC =>
  cases hC with
  | cons t1 hC =>
  cases hC
  rename_i c0 c1
  have h1 : badBlock L [c1] [[3, 2]] = false := by
    rw [badBlock, badRows, goodNumbers hw t1 (row_ok h v) (as := [3, 2]) rfl]; rfl
  have h2 : badBlock L [c1] [[3]] = false := by
    rw [badBlock, badRows, goodNumbers hw t1 (row_ok h v) (as := [3]) rfl]; rfl
  refine ⟨?_, ?_⟩
  · rw [badCone, if_neg (by simp)]
    simp only [List.headD_cons, List.getD_cons_succ, List.getD_cons_zero, says_header t0 hu, h1]
    rfl
  · rw [badSpiral, if_neg (by simp)]
    simp only [List.headD_cons, List.getD_cons_succ, List.getD_cons_zero, says_header t0 hu, h2]
    rfl

theorem floats_row (h : Prints F L) (v : V3 K) : floats L (row8 F v) = .ok [rd F L 8 (v 0), rd F L 8 (v 1), rd F L 8 (v 2)] := by
  simp only [row8, floats, parse, h.float, Except.bind]

theorem cone_read (h : Prints F L) (hE : L.Euclid) {v : V3 K} (hv : v 0 * v 0 + v 1 * v 1 + v 2 * v 2 = 1) (cell : M3 K) {C : List Str}
    (hC : List.Forall₂ Says C [[Str.lit "Cone-axis", Str.lit "absolute"], row8 F v]) :
    ∃ u, readCone L cell C = .ok u ∧ ∀ i, Close 3 8 (u i) (v i) := by
  cases hC with
  | cons t0 hC =>
  cases hC with
  | cons t1 hC =>
  cases hC
  rename_i c0 c1
  set w : V3 K := ![rd F L 8 (v 0), rd F L 8 (v 1), rd F L 8 (v 2)] with hw
  have hwi : ∀ i, w i = rd F L 8 (v i) := fun i => by fin_cases i <;> rfl
  obtain ⟨hn, hu⟩ := unit_close hv (w := w) (fun i => by rw [hwi]; exact h.close 8 _) (hE.nonneg w) (hE.square w)
  refine ⟨fun i => w i / L.norm w, ?_, hu⟩
  have hr : isRelative c0 = .ok false := by
    rw [isRelative, head_lower t0]
    have h1 : (Str.lit "absolute").lower.startsWith ['r'] = false := by decide +kernel
    have h2 : (Str.lit "absolute").lower.startsWith ['a'] = true := by decide +kernel
    simp only [List.map_cons, List.map_nil, h1, h2, Bool.false_eq_true, if_false, if_true]
  simp only [readCone, List.headD_cons, List.getD_cons_succ, List.getD_cons_zero, hr, t1.split, floats_row h, bind, Except.bind,
    Bool.false_eq_true, if_false]
  refine H5.setCone_unit hE.unit ?_
  have := hE.square w
  show w 0 / L.norm w * (w 0 / L.norm w) + w 1 / L.norm w * (w 1 / L.norm w) + w 2 / L.norm w * (w 2 / L.norm w) = 1
  field_simp
  linear_combination -this

theorem spiral_read (h : Prints F L) (v : V3 K) (cell : M3 K) {C : List Str}
    (hC : List.Forall₂ Says C [[Str.lit "Spiral-vector", Str.lit "relative"], row8 F v]) :
    readSpiral L cell C = .ok (vecMul (fun i => rd F L 8 (v i)) (L.recip cell)) := by
  cases hC with
  | cons t0 hC =>
  cases hC with
  | cons t1 hC =>
  cases hC
  rename_i c0 c1
  have hr : isRelative c0 = .ok true := by
    rw [isRelative, head_lower t0]
    have h1 : (Str.lit "relative").lower.startsWith ['r'] = true := by decide +kernel
    simp only [List.map_cons, List.map_nil, h1, if_true]
  simp only [readSpiral, List.headD_cons, List.getD_cons_succ, List.getD_cons_zero, hr, t1.split, floats_row h, bind, Except.bind, if_true]
  rfl

end

end Txt
end Magnopy
