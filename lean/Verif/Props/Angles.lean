import Verif.Model.Angles
import Verif.Spec.Angles
import Mathlib.Tactic.FinCases
import Mathlib.Tactic.FieldSimp
import Mathlib.Tactic.NormNum
import Mathlib.Tactic.LinearCombination
import Mathlib.Tactic.Positivity

/-!
# Property C96: the angles of a vector
-/

set_option autoImplicit false
set_option linter.unusedSectionVars false

namespace Magnopy

open Angles Spec

namespace Angles

theorem len_sq (v : V3 ℝ) : len v ^ 2 = v 0 ^ 2 + v 1 ^ 2 + v 2 ^ 2 := by
  rw [len, Real.sq_sqrt (Finset.sum_nonneg fun _ _ => sq_nonneg _), Fin.sum_univ_three]

theorem len_nonneg (v : V3 ℝ) : 0 ≤ len v := Real.sqrt_nonneg _

theorem len_pos {v : V3 ℝ} (h : v ≠ 0) : 0 < len v := by
  rcases (len_nonneg v).lt_or_eq with h1 | h1
  · exact h1
  · exfalso
    have h2 := len_sq v
    rw [← h1] at h2
    apply h
    ext i
    fin_cases i <;> simp <;> nlinarith [sq_nonneg (v 0), sq_nonneg (v 1), sq_nonneg (v 2)]

theorem close_iff {v : V3 ℝ} (h : v ≠ 0) (e : ℝ) (he : |e| = 1) : Close (fun i => v i / len v) ![0, 0, e] ↔
    |v 0| ≤ len v / 10 ^ 8 ∧ |v 1| ≤ len v / 10 ^ 8 ∧ |v 2 - e * len v| ≤ len v * (1 / 10 ^ 8 + 1 / 10 ^ 5) := by
  have hp := len_pos h
  have e0 : ∀ x : ℝ, |x / len v| = |x| / len v := fun x => by rw [abs_div, abs_of_pos hp]
  have e2 : |v 2 / len v - e| = |v 2 - e * len v| / len v := by
    rw [← e0]
    congr 1
    field_simp
  have key : Close (fun i => v i / len v) ![0, 0, e] ↔ |v 0| / len v ≤ 1 / 10 ^ 8 ∧ |v 1| / len v ≤ 1 / 10 ^ 8 ∧
      |v 2 - e * len v| / len v ≤ 1 / 10 ^ 8 + 1 / 10 ^ 5 := by
    rw [← e0, ← e0, ← e2]
    constructor
    · intro hc
      have c0 := hc 0
      have c1 := hc 1
      have c2 := hc 2
      simp only [Matrix.cons_val, sub_zero, abs_zero, mul_zero, add_zero, he, mul_one] at c0 c1 c2
      exact ⟨c0, c1, c2⟩
    · rintro ⟨c0, c1, c2⟩ i
      fin_cases i
      · simpa using c0
      · simpa using c1
      · simpa [he] using c2
  rw [key, div_le_iff₀ hp, div_le_iff₀ hp, div_le_iff₀ hp]
  constructor <;> rintro ⟨a, b, c⟩ <;> refine ⟨by linarith, by linarith, by linarith⟩

theorem pole_of {r z : ℝ} {e : ℝ} (he : e = 1 ∨ e = -1) (hr : 0 ≤ r) (c : ℝ) (h : |z - e * r| ≤ c) : |(|z| - r)| ≤ c := by
  refine le_trans ?_ h
  have := abs_abs_sub_abs_le z (e * r)
  rcases he with rfl | rfl
  · simpa [abs_of_nonneg hr] using this
  · simpa [abs_of_nonneg hr] using this

/-- Radians: the angles give the vector back, except for the sign of its y component, or the vector is near the z axis. -/
theorem radians_spec {v : V3 ℝ} (h : v ≠ 0) :
    (0 ≤ (radians v).1 ∧ (radians v).1 ≤ Real.pi) ∧ (0 ≤ (radians v).2 ∧ (radians v).2 ≤ Real.pi) ∧
    (¬ NearPole (len v) v → len v * Real.sin (radians v).1 * Real.cos (radians v).2 = v 0 ∧
      len v * Real.sin (radians v).1 * Real.sin (radians v).2 = |v 1| ∧ len v * Real.cos (radians v).1 = v 2) ∧
    (NearPole (len v) v → len v * Real.sin (radians v).1 = 0 ∧
      |len v * Real.cos (radians v).1 - v 2| ≤ len v * (1 / 10 ^ 8 + 1 / 10 ^ 5)) := by
  have hp := len_pos h
  have hpi := Real.pi_pos
  by_cases h1 : Close (fun i => v i / len v) ![0, 0, 1]
  · have e : radians v = (0, Real.pi / 2) := if_pos h1
    obtain ⟨a, b, c⟩ := (close_iff h 1 (by norm_num)).1 h1
    have hn : NearPole (len v) v := ⟨a, b, pole_of (Or.inl rfl) hp.le _ c⟩
    rw [e]
    refine ⟨⟨le_rfl, hpi.le⟩, ⟨by positivity, by linarith⟩, fun hh => absurd hn hh, fun _ => ⟨by simp, ?_⟩⟩
    rw [abs_sub_comm]
    simpa using c
  · by_cases h2 : Close (fun i => v i / len v) ![0, 0, -1]
    · have e : radians v = (Real.pi, Real.pi / 2) := by rw [radians, if_neg h1, if_pos h2]
      obtain ⟨a, b, c⟩ := (close_iff h (-1) (by norm_num)).1 h2
      have hn : NearPole (len v) v := ⟨a, b, pole_of (Or.inr rfl) hp.le _ c⟩
      rw [e]
      refine ⟨⟨hpi.le, le_rfl⟩, ⟨by positivity, by linarith⟩, fun hh => absurd hn hh, fun _ => ⟨by simp, ?_⟩⟩
      rw [abs_sub_comm]
      simpa using c
    · have e : radians v = (Real.arccos (v 2 / len v), Real.arccos (v 0 / len ![v 0, v 1, 0])) := by
        rw [radians, if_neg h1, if_neg h2]
      rw [e]
      have hfar : ¬ NearPole (len v) v := by
        rintro ⟨a, b, c⟩
        rcases le_total 0 (v 2) with hz | hz
        · exact h1 ((close_iff h 1 (by norm_num)).2 ⟨a, b, by rwa [one_mul, ← abs_of_nonneg hz]⟩)
        · refine h2 ((close_iff h (-1) (by norm_num)).2 ⟨a, b, ?_⟩)
          rw [abs_of_nonpos hz] at c
          rw [← abs_neg]
          convert c using 2
          ring
      have hq2 : len ![v 0, v 1, 0] ^ 2 = v 0 ^ 2 + v 1 ^ 2 := by
        rw [len_sq]
        simp
      have hn2 := len_sq v
      have hq0 := len_nonneg ![v 0, v 1, 0]
      generalize len ![v 0, v 1, 0] = q at *
      generalize len v = n at *
      have hqn : q ≠ 0 := by
        intro hq
        rw [hq] at hq2
        have x0 : v 0 = 0 := by nlinarith [sq_nonneg (v 0), sq_nonneg (v 1)]
        have x1 : v 1 = 0 := by nlinarith [sq_nonneg (v 0), sq_nonneg (v 1)]
        apply hfar
        refine ⟨by rw [x0, abs_zero]; positivity, by rw [x1, abs_zero]; positivity, ?_⟩
        have : |v 2| = n := by
          rw [← abs_of_pos hp, ← sq_eq_sq_iff_abs_eq_abs, hn2, x0, x1]
          ring
        rw [this, sub_self, abs_zero]
        positivity
      have hqp : 0 < q := lt_of_le_of_ne hq0 (Ne.symm hqn)
      have z1 : v 2 / n ≤ 1 := by
        rw [div_le_one hp]
        nlinarith [sq_nonneg (v 0), sq_nonneg (v 1)]
      have z2 : -1 ≤ v 2 / n := by
        rw [le_div_iff₀ hp]
        nlinarith [sq_nonneg (v 0), sq_nonneg (v 1)]
      have x1 : v 0 / q ≤ 1 := by
        rw [div_le_one hqp]
        nlinarith [sq_nonneg (v 1)]
      have x2 : -1 ≤ v 0 / q := by
        rw [le_div_iff₀ hqp]
        nlinarith [sq_nonneg (v 1)]
      have s1 : n * Real.sqrt (1 - (v 2 / n) ^ 2) = q := by
        have : 1 - (v 2 / n) ^ 2 = (q / n) ^ 2 := by
          field_simp
          linarith
        rw [this, Real.sqrt_sq (by positivity)]
        field_simp
      have s2 : q * Real.sqrt (1 - (v 0 / q) ^ 2) = |v 1| := by
        have : 1 - (v 0 / q) ^ 2 = (|v 1| / q) ^ 2 := by
          rw [div_pow, div_pow, sq_abs]
          field_simp
          linarith
        rw [this, Real.sqrt_sq (by positivity)]
        field_simp
      refine ⟨⟨Real.arccos_nonneg _, Real.arccos_le_pi _⟩, ⟨Real.arccos_nonneg _, Real.arccos_le_pi _⟩, fun _ => ?_,
        fun hh => absurd hh hfar⟩
      simp only [Real.sin_arccos, Real.cos_arccos z2 z1, Real.cos_arccos x2 x1]
      rw [s1, s2]
      refine ⟨by field_simp, rfl, by field_simp⟩

theorem corrected_eq {v : V3 ℝ} (h : v ≠ 0) (d : Bool) : ∃ polar azimuthal,
    vectorToAngles (.corrected d) v = .ok (some (len v, polar, azimuthal)) ∧
    polar * (Real.pi / halfTurn d) = (radians v).1 ∧ azimuthal * (Real.pi / halfTurn d) = (radians v).2 := by
  have hpi := Real.pi_ne_zero
  cases d
  · refine ⟨_, _, by simp only [vectorToAngles, Globals.corrected, h, if_false, Bool.false_eq_true, reduceCtorEq]; rfl, ?_, ?_⟩ <;>
      simp [halfTurn, hpi]
  · refine ⟨_, _, by simp only [vectorToAngles, Globals.corrected, h, if_false, if_true, reduceCtorEq]; rfl, ?_, ?_⟩ <;>
      (simp only [halfTurn, toDegrees, if_true]; field_simp)

end Angles

/-- **C96 (false).** The function returns no angles for any vector: it always ends with `AttributeError`, and, were that name corrected,
with `NameError`. -/
theorem C96_returns_false (v : V3 ℝ) :
    vectorToAngles .real v = .error .attributeError ∧ vectorToAngles ⟨true, none⟩ v = .error .nameError := by
  constructor <;> simp [vectorToAngles, Globals.real]

/-- **C96 (false).** Even with both names corrected the angles do not give the vector back. -/
theorem C96_angles_false (d : Bool) : ¬ ∀ v : V3 ℝ, v ≠ 0 → ∃ r polar azimuthal,
    vectorToAngles (.corrected d) v = .ok (some (r, polar, azimuthal)) ∧ spherical (halfTurn d) r polar azimuthal = v := by
  intro h
  have hne : (![0, -1, 0] : V3 ℝ) ≠ 0 := fun hh => by simpa using congrFun hh 1
  obtain ⟨r, p, a, h1, h2⟩ := h _ hne
  obtain ⟨p', a', h3, h4, h5⟩ := corrected_eq hne d
  rw [h1] at h3
  simp only [Except.ok.injEq, Option.some.injEq, Prod.mk.injEq] at h3
  obtain ⟨rfl, rfl, rfl⟩ := h3
  obtain ⟨⟨a1, a2⟩, ⟨b1, b2⟩, -, -⟩ := radians_spec hne
  have h6 := congrFun h2 1
  simp only [spherical, h4, h5, Matrix.cons_val_one, Matrix.cons_val_zero] at h6
  have s1 := Real.sin_nonneg_of_nonneg_of_le_pi a1 a2
  have s2 := Real.sin_nonneg_of_nonneg_of_le_pi b1 b2
  have := mul_nonneg (mul_nonneg (Angles.len_nonneg (![0, -1, 0] : V3 ℝ)) s1) s2
  linarith

/-- **C96 (partial).** With both names corrected, a vector other than zero gets its length and two angles between 0 and a half turn.
Unless the vector is along the z axis within the tolerances of numpy, the angles give back the vector with the absolute value of its y
component; otherwise they give back the vector along the z axis, with an error that is small compared with the length. Missing: the code
with the names it has, and the sign of the y component. -/
theorem C96_angles_partial {v : V3 ℝ} (h : v ≠ 0) (d : Bool) : ∃ r polar azimuthal,
    vectorToAngles (.corrected d) v = .ok (some (r, polar, azimuthal)) ∧ IsLength r v ∧
    (0 ≤ polar ∧ polar ≤ halfTurn d) ∧ (0 ≤ azimuthal ∧ azimuthal ≤ halfTurn d) ∧
    (¬ NearPole r v → spherical (halfTurn d) r polar azimuthal = ![v 0, |v 1|, v 2]) ∧
    (NearPole r v → ∀ i, |spherical (halfTurn d) r polar azimuthal i - v i| ≤ r * (1 / 10 ^ 8 + 1 / 10 ^ 5)) := by
  obtain ⟨p, a, h3, h4, h5⟩ := corrected_eq h d
  obtain ⟨⟨a1, a2⟩, ⟨b1, b2⟩, c1, c2⟩ := radians_spec h
  have hpi := Real.pi_pos
  have hh : 0 < halfTurn d := by
    cases d <;> simp [halfTurn, hpi]
  have hk : 0 < Real.pi / halfTurn d := by positivity
  have back : ∀ x y : ℝ, x * (Real.pi / halfTurn d) = y → x = y * (halfTurn d / Real.pi) := fun x y e => by
    rw [← e]
    field_simp
  have hp := len_pos h
  refine ⟨len v, p, a, h3, ⟨hp.le, ?_⟩, ⟨?_, ?_⟩, ⟨?_, ?_⟩, fun hn => ?_, fun hn => ?_⟩
  · linear_combination len_sq v
  · rw [back _ _ h4]
    positivity
  · rw [back _ _ h4]
    calc (radians v).1 * (halfTurn d / Real.pi) ≤ Real.pi * (halfTurn d / Real.pi) := by gcongr
      _ = halfTurn d := by field_simp
  · rw [back _ _ h5]
    positivity
  · rw [back _ _ h5]
    calc (radians v).2 * (halfTurn d / Real.pi) ≤ Real.pi * (halfTurn d / Real.pi) := by gcongr
      _ = halfTurn d := by field_simp
  · obtain ⟨e1, e2, e3⟩ := c1 hn
    simp only [spherical, h4, h5, e1, e2, e3]
  · obtain ⟨e1, e2⟩ := c2 hn
    have e3 := hn.1
    have e4 := hn.2.1
    have : len v / 10 ^ 8 ≤ len v * (1 / 10 ^ 8 + 1 / 10 ^ 5) := by
      have : len v * (1 / 10 ^ 8 + 1 / 10 ^ 5) = len v / 10 ^ 8 + len v * (1 / 10 ^ 5) := by ring
      rw [this]
      have : 0 ≤ len v * (1 / 10 ^ 5) := by positivity
      linarith
    intro i
    fin_cases i
    · simp only [spherical, h4, h5, e1]
      simp only [Fin.zero_eta, Matrix.cons_val_zero, zero_mul, zero_sub, abs_neg]
      linarith
    · simp only [spherical, h4, h5, e1]
      simp only [Fin.mk_one, Matrix.cons_val_one, Matrix.cons_val_zero, zero_mul, zero_sub, abs_neg]
      linarith
    · simpa [spherical, h4, h5] using e2

/-- Vectors that differ in the sign of y get the same angles. -/
example : ∃ p a, vectorToAngles (.corrected true) ![3, 4, 0] = .ok (some (5, p, a)) ∧
    vectorToAngles (.corrected true) ![3, -4, 0] = .ok (some (5, p, a)) := by
  have n1 : len ![3, 4, 0] = 5 := by
    rw [len, Fin.sum_univ_three]
    simp
    rw [show (3 : ℝ) ^ 2 + 4 ^ 2 = 5 ^ 2 by norm_num, Real.sqrt_sq (by norm_num)]
  have n2 : len ![3, -4, 0] = 5 := by
    rw [len, Fin.sum_univ_three]
    simp
    rw [show (3 : ℝ) ^ 2 + 4 ^ 2 = 5 ^ 2 by norm_num, Real.sqrt_sq (by norm_num)]
  have ne1 : (![3, 4, 0] : V3 ℝ) ≠ 0 := fun hh => by simpa using congrFun hh 0
  have ne2 : (![3, -4, 0] : V3 ℝ) ≠ 0 := fun hh => by simpa using congrFun hh 0
  have f : ∀ v : V3 ℝ, v ≠ 0 → len v = 5 → v 0 = 3 → v 2 = 0 → len ![v 0, v 1, 0] = 5 →
      radians v = (Real.arccos 0, Real.arccos (3 / 5)) := by
    intro v h hn h0 h2 hq
    have c : ∀ e : ℝ, |e| = 1 → ¬ Close (fun i => v i / len v) ![0, 0, e] := fun e he hc => by
      have := ((close_iff h e he).1 hc).1
      rw [hn, h0] at this
      norm_num at this
    rw [radians, if_neg (c 1 (by norm_num)), if_neg (c (-1) (by norm_num)), hq, hn, h0, h2, zero_div]
  have r1 := f _ ne1 n1 rfl rfl n1
  have r2 := f _ ne2 n2 rfl rfl n2
  refine ⟨Real.arccos 0 * toDegrees, Real.arccos (3 / 5) * toDegrees, ?_, ?_⟩
  · simp only [vectorToAngles, Globals.corrected, ne1, if_false, if_true, reduceCtorEq, r1, n1]
  · simp only [vectorToAngles, Globals.corrected, ne2, if_false, if_true, reduceCtorEq, r2, n2]

end Magnopy
