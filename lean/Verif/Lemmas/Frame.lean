import Verif.Model.Magnon
import Verif.Lemmas.Cone
import Verif.Spec.Frame
import Mathlib.Tactic.LinearCombination
import Mathlib.Tactic.FieldSimp
import Mathlib.Tactic.FinCases
import Mathlib.Tactic.NormNum

/-!
# Helper lemmas: `span_orthonormal_set`
-/

set_option autoImplicit false
set_option linter.unusedSectionVars false

namespace Magnopy

open EnergyObj Matrix

namespace Frame

/-- The frame of a unit vector `(x, y, c)` which is not `-z`. -/
noncomputable def frame (x y c : ℝ) : M3 ℝ :=
  !![c + (1 + c)⁻¹ * y ^ 2, -((1 + c)⁻¹ * x * y), -x; -((1 + c)⁻¹ * x * y), c + (1 + c)⁻¹ * x ^ 2, -y; x, y, c]

theorem frame_rightHanded {x y c : ℝ} (h : x ^ 2 + y ^ 2 + c ^ 2 = 1) (hc : 1 + c ≠ 0) : RightHanded (frame x y c) := by
  set p := (1 + c)⁻¹ with hp
  have hpc : p * (1 + c) = 1 := inv_mul_cancel₀ hc
  have hk : p * (x ^ 2 + y ^ 2) = 1 - c := by linear_combination p * h + (1 - c) * hpc
  constructor
  · intro i j
    fin_cases i <;> fin_cases j <;>
      simp [frame, dotProduct, Fin.sum_univ_three, ← hp]
    · linear_combination (p * y ^ 2) * hk + y ^ 2 * hpc + h
    · linear_combination (-p * x * y) * hk - x * y * hpc
    · ring
    · linear_combination (-p * x * y) * hk - x * y * hpc
    · linear_combination (p * x ^ 2) * hk + x ^ 2 * hpc + h
    · ring
    · ring
    · ring
    · linear_combination h
  · simp only [frame, cross_apply]
    ext i
    fin_cases i <;> simp [← hp]
    · linear_combination x * hk
    · linear_combination y * hk
    · linear_combination c * hk

theorem norm3_eq {v : V3 ℝ} {x : ℝ} (hx : 0 ≤ x) (h : v ⬝ᵥ v = x ^ 2) : norm3 v = x := by
  have h1 := norm3_sq v
  have h2 : 0 ≤ norm3 v := Real.sqrt_nonneg _
  rw [h] at h1
  exact (pow_left_inj₀ h2 hx two_ne_zero).1 h1

theorem fromRotvec_eq {x y c : ℝ} (h : x ^ 2 + y ^ 2 + c ^ 2 = 1) (h0 : x ≠ 0 ∨ y ≠ 0) :
    (fromRotvec fun i => (crossProduct ![x, y, c] ![0, 0, 1]) i / norm3 (crossProduct ![x, y, c] ![0, 0, 1]) *
      Real.arccos (![x, y, c] ⬝ᵥ ![0, 0, 1] / norm3 ![x, y, c])) = frame x y c := by
  have hs : 0 < x ^ 2 + y ^ 2 := by
    rcases h0 with h0 | h0 <;> positivity
  set s := Real.sqrt (x ^ 2 + y ^ 2) with hsd
  have hs0 : 0 < s := Real.sqrt_pos.2 hs
  have hss : s ^ 2 = x ^ 2 + y ^ 2 := Real.sq_sqrt hs.le
  have hc1 : c < 1 := by nlinarith
  have hc2 : -1 < c := by nlinarith
  have hcr : crossProduct ![x, y, c] ![0, 0, 1] = ![y, -x, 0] := by
    rw [cross_apply]; ext i; fin_cases i <;> simp
  have hn : norm3 ![y, -x, 0] = s := by
    refine norm3_eq hs0.le ?_
    rw [hss]; simp [dotProduct, Fin.sum_univ_three]; ring
  have hv : norm3 ![x, y, c] = 1 := by
    refine norm3_eq zero_le_one ?_
    simp [dotProduct, Fin.sum_univ_three]; linear_combination h
  have hd : (![x, y, c] : V3 ℝ) ⬝ᵥ ![0, 0, 1] = c := by simp [dotProduct, Fin.sum_univ_three]
  rw [hcr, hn, hv, hd, div_one]
  set θ := Real.arccos c with hθ
  have hθ0 : 0 < θ := Real.arccos_pos.2 hc1
  have hcos : Real.cos θ = c := Real.cos_arccos hc2.le hc1.le
  have hsin : Real.sin θ = s := by
    rw [hθ, Real.sin_arccos, hsd]; congr 1; linarith
  have hnn : norm3 (fun i => (![y, -x, 0] : V3 ℝ) i / s * θ) = θ := by
    refine norm3_eq hθ0.le ?_
    simp only [dotProduct, Fin.sum_univ_three]
    simp
    field_simp
    linear_combination -hss
  have hp : (1 - c) / s ^ 2 = (1 + c)⁻¹ := by
    have : 1 + c ≠ 0 := by linarith
    field_simp
    rw [hss]; linarith
  unfold fromRotvec
  simp only [hnn, if_neg hθ0.ne', hcos, hsin]
  have e0 : (1 + c)⁻¹ * y ^ 2 = (1 - c) * (y / s) * (y / s) := by rw [← hp]; field_simp
  have e1 : (1 + c)⁻¹ * x ^ 2 = (1 - c) * (x / s) * (x / s) := by rw [← hp]; field_simp
  have e2 : (1 + c)⁻¹ * x * y = (1 - c) * (x / s) * (y / s) := by rw [← hp]; field_simp
  unfold frame
  rw [e0, e1, e2]
  ext i j
  have hθ1 := hθ0.ne'
  have hs1 := hs0.ne'
  fin_cases i <;> fin_cases j <;> simp <;> field_simp

end Frame
end Magnopy
