import Verif.Model.Energy
import Verif.Spec.Rotation
import Mathlib.Tactic.Ring
import Mathlib.Tactic.LinearCombination
import Mathlib.Tactic.Module
import Mathlib.Tactic.FinCases

/-!
# Helper lemmas: the matrices of the cone axis
-/

set_option autoImplicit false

set_option linter.unusedSectionVars false

namespace Magnopy

open EnergyObj Matrix

section
variable {K : Type*} [Field K]

theorem einsum3_eq_bilin (u : V3 K) (J : M3 K) (v : V3 K) : einsum3 u J v = bilin u J v := rfl

theorem bilin_eq_dot (u : V3 K) (J : M3 K) (v : V3 K) : bilin u J v = u ⬝ᵥ (J *ᵥ v) := by
  simp only [bilin, dotProduct, mulVec, Finset.mul_sum]
  refine Finset.sum_congr rfl fun i _ => Finset.sum_congr rfl fun j _ => by ring

theorem bilin_add_left (u u' : V3 K) (J : M3 K) (v : V3 K) : bilin (u + u') J v = bilin u J v + bilin u' J v := by
  simp only [bilin_eq_dot, add_dotProduct]

theorem bilin_add_right (u : V3 K) (J : M3 K) (v v' : V3 K) : bilin u J (v + v') = bilin u J v + bilin u J v' := by
  simp only [bilin_eq_dot, mulVec_add, dotProduct_add]

theorem bilin_sub_left (u u' : V3 K) (J : M3 K) (v : V3 K) : bilin (u - u') J v = bilin u J v - bilin u' J v := by
  simp only [bilin_eq_dot, sub_dotProduct]

theorem bilin_sub_right (u : V3 K) (J : M3 K) (v v' : V3 K) : bilin u J (v - v') = bilin u J v - bilin u J v' := by
  simp only [bilin_eq_dot, mulVec_sub, dotProduct_sub]

theorem bilin_smul_left (x : K) (u : V3 K) (J : M3 K) (v : V3 K) : bilin (x • u) J v = x * bilin u J v := by
  simp only [bilin_eq_dot, smul_dotProduct, smul_eq_mul]

theorem bilin_smul_right (x : K) (u : V3 K) (J : M3 K) (v : V3 K) : bilin u J (x • v) = x * bilin u J v := by
  simp only [bilin_eq_dot, mulVec_smul, dotProduct_smul, smul_eq_mul]

theorem bilin_neg_left (u : V3 K) (J : M3 K) (v : V3 K) : bilin (-u) J v = -bilin u J v := by
  simp only [bilin_eq_dot, neg_dotProduct]

theorem bilin_neg_right (u : V3 K) (J : M3 K) (v : V3 K) : bilin u J (-v) = -bilin u J v := by
  simp only [bilin_eq_dot, mulVec_neg, dotProduct_neg]

theorem bilin_add_mat (u : V3 K) (J J' : M3 K) (v : V3 K) : bilin u (J + J') v = bilin u J v + bilin u J' v := by
  simp only [bilin_eq_dot, add_mulVec, dotProduct_add]

theorem bilin_sub_mat (u : V3 K) (J J' : M3 K) (v : V3 K) : bilin u (J - J') v = bilin u J v - bilin u J' v := by
  simp only [bilin_eq_dot, sub_mulVec, dotProduct_sub]

theorem bilin_smul_mat (x : K) (u : V3 K) (J : M3 K) (v : V3 K) : bilin u (x • J) v = x * bilin u J v := by
  simp only [bilin_eq_dot, smul_mulVec, dotProduct_smul, smul_eq_mul]

theorem bilin_neg_mat (u : V3 K) (J : M3 K) (v : V3 K) : bilin u (-J) v = -bilin u J v := by
  simp only [bilin_eq_dot, neg_mulVec, dotProduct_neg]

theorem bilin_mul (u : V3 K) (X J Y : M3 K) (v : V3 K) : bilin u (X * J * Y) v = bilin (Xᵀ *ᵥ u) J (Y *ᵥ v) := by
  simp only [bilin_eq_dot, ← mulVec_mulVec]
  rw [dotProduct_mulVec u X, ← mulVec_transpose]

theorem coneK_transpose (n : V3 K) : (coneK n)ᵀ = -coneK n := by
  ext i j
  fin_cases i <;> fin_cases j <;> simp [coneK]

theorem coneK_mulVec (n v : V3 K) : coneK n *ᵥ v = crossProduct n v := by
  rw [cross_apply]
  ext i
  fin_cases i <;> simp [coneK, mulVec, dotProduct, Fin.sum_univ_three] <;> ring

theorem coneKK_mulVec (n v : V3 K) : (coneK n * coneK n) *ᵥ v = (n ⬝ᵥ v) • n - (n ⬝ᵥ n) • v := by
  rw [← mulVec_mulVec, coneK_mulVec, coneK_mulVec, cross_apply, cross_apply]
  ext i
  fin_cases i <;> simp [dotProduct, Fin.sum_univ_three] <;> ring

theorem coneKK_transpose (n : V3 K) : (coneK n * coneK n)ᵀ = coneK n * coneK n := by
  rw [transpose_mul, coneK_transpose]; simp

theorem coneIKsq_transpose (n : V3 K) : (coneIKsq n)ᵀ = coneIKsq n := by
  rw [coneIKsq, transpose_add, coneKK_transpose, transpose_one]

/-- Component along the axis. -/
def par (n v : V3 K) : V3 K := (n ⬝ᵥ v) • n
/-- Component perpendicular to the axis. -/
def perp (n v : V3 K) : V3 K := v - (n ⬝ᵥ v) • n

theorem coneKK_unit {n : V3 K} (hn : n ⬝ᵥ n = 1) (v : V3 K) : (coneK n * coneK n) *ᵥ v = -perp n v := by
  rw [coneKK_mulVec, hn, one_smul, perp, neg_sub]

theorem coneIKsq_unit {n : V3 K} (hn : n ⬝ᵥ n = 1) (v : V3 K) : coneIKsq n *ᵥ v = par n v := by
  rw [coneIKsq, add_mulVec, one_mulVec, coneKK_unit hn, par, perp]
  abel

/-- The spiral matrix between two spins. -/
theorem bilin_spiralC {n : V3 K} (hn : n ⬝ᵥ n = 1) (c s : K) (J : M3 K) (u v : V3 K) :
    bilin u (spiralC n c s J) v = bilin (par n u) J (par n v) +
      c / 2 * (bilin (perp n u) J (perp n v) + bilin (crossProduct n u) J (crossProduct n v)) +
      s / 2 * (bilin (perp n u) J (crossProduct n v) - bilin (crossProduct n u) J (perp n v)) := by
  rw [spiralC, bilin_sub_mat, bilin_sub_mat, bilin_smul_mat, bilin_smul_mat, bilin_sub_mat, bilin_add_mat, bilin_mul,
    bilin_mul, bilin_mul, bilin_mul, bilin_mul, coneKK_transpose, coneIKsq_transpose, coneK_transpose, neg_mulVec,
    coneKK_unit hn, coneKK_unit hn, coneIKsq_unit hn, coneIKsq_unit hn, coneK_mulVec, coneK_mulVec,
    bilin_neg_left, bilin_neg_left, bilin_neg_left, bilin_neg_left, bilin_neg_right, bilin_neg_right]
  ring

/-- The antiferro matrix between two spins. -/
theorem bilin_antiferroC {n : V3 K} (hn : n ⬝ᵥ n = 1) (c s : K) (J : M3 K) (u v : V3 K) :
    bilin u (antiferroC n c s J) v = bilin (par n u) J (par n v) + c * bilin (perp n u) J (perp n v) +
      s * bilin (perp n u) J (crossProduct n v) := by
  rw [antiferroC, bilin_sub_mat, bilin_add_mat, bilin_smul_mat, bilin_smul_mat, bilin_mul,
    bilin_mul, bilin_mul, coneKK_transpose, coneIKsq_transpose,
    coneKK_unit hn, coneKK_unit hn, coneIKsq_unit hn, coneIKsq_unit hn, coneK_mulVec,
    bilin_neg_left, bilin_neg_left, bilin_neg_right]
  ring

/-- The matrix of the q-gradient between two spins. -/
theorem bilin_spiralGradC {n : V3 K} (hn : n ⬝ᵥ n = 1) (c s : K) (J : M3 K) (u v : V3 K) :
    bilin u (spiralGradC n c s J) v =
      -(s / 2) * (bilin (perp n u) J (perp n v) + bilin (crossProduct n u) J (crossProduct n v)) +
      c / 2 * (bilin (perp n u) J (crossProduct n v) - bilin (crossProduct n u) J (perp n v)) := by
  rw [spiralGradC, bilin_add_mat, bilin_smul_mat, bilin_smul_mat, bilin_sub_mat, bilin_add_mat, bilin_mul,
    bilin_mul, bilin_mul, bilin_mul, coneKK_transpose, coneK_transpose, neg_mulVec,
    coneKK_unit hn, coneKK_unit hn, coneK_mulVec, coneK_mulVec,
    bilin_neg_left, bilin_neg_left, bilin_neg_left, bilin_neg_left, bilin_neg_right, bilin_neg_right]
  ring

end

theorem rotate_eq (n : V3 ℝ) (θ : ℝ) (v : V3 ℝ) :
    rotate n θ v = par n v + Real.cos θ • perp n v + Real.sin θ • crossProduct n v := by
  rw [rotate, par, perp]
  module

section
variable {n : V3 ℝ} (hn : IsUnit3 n)
include hn

theorem dot_perp (v : V3 ℝ) : n ⬝ᵥ perp n v = 0 := by
  have h : n ⬝ᵥ n = 1 := hn
  rw [perp, dotProduct_sub, dotProduct_smul, h]; simp

theorem dot_par (v : V3 ℝ) : n ⬝ᵥ par n v = n ⬝ᵥ v := by
  have h : n ⬝ᵥ n = 1 := hn
  rw [par, dotProduct_smul, h]; simp

theorem dot_rotate (α : ℝ) (v : V3 ℝ) : n ⬝ᵥ rotate n α v = n ⬝ᵥ v := by
  rw [rotate_eq, dotProduct_add, dotProduct_add, dot_par hn, dotProduct_smul, dotProduct_smul, dot_perp hn,
    dot_self_cross]
  simp

theorem par_rotate (α : ℝ) (v : V3 ℝ) : par n (rotate n α v) = par n v := by
  rw [par, dot_rotate hn, par]

theorem perp_rotate (α : ℝ) (v : V3 ℝ) :
    perp n (rotate n α v) = Real.cos α • perp n v + Real.sin α • crossProduct n v := by
  have : perp n (rotate n α v) = rotate n α v - par n v := by rw [perp, dot_rotate hn, par]
  rw [this, rotate_eq]
  abel

omit hn in
theorem cross_perp (v : V3 ℝ) : crossProduct n (perp n v) = crossProduct n v := by
  rw [perp, map_sub, map_smul, cross_self]; simp

theorem cross_cross' (v : V3 ℝ) : crossProduct n (crossProduct n v) = -perp n v := by
  have := coneKK_unit (show n ⬝ᵥ n = 1 from hn) v
  rw [← mulVec_mulVec, coneK_mulVec, coneK_mulVec] at this
  exact this

theorem cross_rotate (α : ℝ) (v : V3 ℝ) :
    crossProduct n (rotate n α v) = Real.cos α • crossProduct n v - Real.sin α • perp n v := by
  rw [rotate_eq, map_add, map_add, map_smul, map_smul, cross_perp, cross_cross' hn, par, map_smul, cross_self]
  module

theorem perp_dot_perp (u v : V3 ℝ) : perp n u ⬝ᵥ perp n v = u ⬝ᵥ v - (n ⬝ᵥ u) * (n ⬝ᵥ v) := by
  have h : n ⬝ᵥ n = 1 := hn
  simp only [perp, sub_dotProduct, dotProduct_sub, smul_dotProduct, dotProduct_smul, smul_eq_mul, h,
    dotProduct_comm u n]
  ring

theorem crs_dot_crs (u v : V3 ℝ) : crossProduct n u ⬝ᵥ crossProduct n v = u ⬝ᵥ v - (n ⬝ᵥ u) * (n ⬝ᵥ v) := by
  have h : n ⬝ᵥ n = 1 := hn
  rw [cross_dot_cross, h, dotProduct_comm u n]; ring

theorem par_dot_par (u v : V3 ℝ) : par n u ⬝ᵥ par n v = (n ⬝ᵥ u) * (n ⬝ᵥ v) := by
  have h : n ⬝ᵥ n = 1 := hn
  simp only [par, smul_dotProduct, dotProduct_smul, smul_eq_mul, h]
  ring

theorem rotate_dot_rotate (α : ℝ) (u v : V3 ℝ) : rotate n α u ⬝ᵥ rotate n α v = u ⬝ᵥ v := by
  have e1 : ∀ w, par n u ⬝ᵥ w = (n ⬝ᵥ u) * (n ⬝ᵥ w) := fun w => by simp [par, smul_dotProduct]
  have e2 : ∀ w, w ⬝ᵥ par n v = (n ⬝ᵥ v) * (n ⬝ᵥ w) := fun w => by
    simp [par, dotProduct_smul, dotProduct_comm w n]
  have e3 : perp n u ⬝ᵥ crossProduct n v = u ⬝ᵥ crossProduct n v := by
    rw [perp, sub_dotProduct, smul_dotProduct, dot_self_cross]; simp
  have e4 : crossProduct n u ⬝ᵥ perp n v = -(u ⬝ᵥ crossProduct n v) := by
    rw [perp, dotProduct_sub, dotProduct_smul, dotProduct_comm (crossProduct n u) n, dot_self_cross,
      dotProduct_comm, triple_product_permutation, ← cross_anticomm, dotProduct_neg]
    simp only [smul_eq_mul, mul_zero, sub_zero, neg_inj]
    exact (triple_product_permutation u n v).symm
  rw [rotate_eq, rotate_eq]
  simp only [add_dotProduct, dotProduct_add, smul_dotProduct, dotProduct_smul, smul_eq_mul, e3, e4, e2, e1,
    perp_dot_perp hn, crs_dot_crs hn, dot_perp hn, dot_self_cross, dot_par hn]
  linear_combination (u ⬝ᵥ v - (n ⬝ᵥ u) * (n ⬝ᵥ v)) * Real.cos_sq_add_sin_sq α

theorem rotate_unit {v : V3 ℝ} (α : ℝ) (hv : IsUnit3 v) : IsUnit3 (rotate n α v) := by
  unfold IsUnit3
  rw [rotate_dot_rotate hn]; exact hv

end

theorem norm3_sq (v : V3 ℝ) : norm3 v ^ 2 = v ⬝ᵥ v := by
  rw [norm3, Real.sq_sqrt (by positivity)]
  simp [dotProduct, Fin.sum_univ_three]; ring

theorem norm3_pos {v : V3 ℝ} (h : v ≠ 0) : 0 < norm3 v := by
  rw [norm3]
  apply Real.sqrt_pos.2
  by_contra hc
  apply h
  have h0 : v 0 ^ 2 + v 1 ^ 2 + v 2 ^ 2 ≤ 0 := not_lt.1 hc
  have a0 := sq_nonneg (v 0)
  have a1 := sq_nonneg (v 1)
  have a2 := sq_nonneg (v 2)
  have b0 : v 0 = 0 := (pow_eq_zero_iff two_ne_zero).1 (by linarith)
  have b1 : v 1 = 0 := (pow_eq_zero_iff two_ne_zero).1 (by linarith)
  have b2 : v 2 = 0 := (pow_eq_zero_iff two_ne_zero).1 (by linarith)
  ext i
  fin_cases i
  · exact b0
  · exact b1
  · exact b2

theorem normalize_eq (v : V3 ℝ) : normalize v = (norm3 v)⁻¹ • v := by
  ext i; simp [EnergyObj.normalize, div_eq_inv_mul]

theorem normalize_unit {v : V3 ℝ} (h : v ≠ 0) : normalize v ⬝ᵥ normalize v = 1 := by
  rw [normalize_eq, smul_dotProduct, dotProduct_smul, ← norm3_sq, smul_eq_mul, smul_eq_mul]
  have := (norm3_pos h).ne'
  field_simp

theorem norm3_smul {x : ℝ} (hx : 0 < x) (v : V3 ℝ) : norm3 (x • v) = x * norm3 v := by
  have : (x • v) 0 ^ 2 + (x • v) 1 ^ 2 + (x • v) 2 ^ 2 = x ^ 2 * (v 0 ^ 2 + v 1 ^ 2 + v 2 ^ 2) := by
    simp; ring
  rw [norm3, this, Real.sqrt_mul (by positivity), Real.sqrt_sq hx.le, norm3]

theorem normalize_smul {x : ℝ} (hx : 0 < x) (v : V3 ℝ) : normalize (x • v) = normalize v := by
  rw [normalize_eq, normalize_eq, norm3_smul hx, smul_smul, mul_inv]
  congr 1
  field_simp

theorem norm3_of_unit {v : V3 ℝ} (h : IsUnit3 v) : norm3 v = 1 := by
  have h1 : norm3 v ^ 2 = 1 := by rw [norm3_sq]; exact h
  have h2 : 0 ≤ norm3 v := Real.sqrt_nonneg _
  nlinarith [sq_nonneg (norm3 v - 1)]

theorem normalize_of_unit {v : V3 ℝ} (h : IsUnit3 v) : normalize v = v := by
  rw [normalize_eq, norm3_of_unit h]; simp

end Magnopy
