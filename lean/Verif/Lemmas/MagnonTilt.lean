import Verif.Spec.MagnonTilt
import Verif.Props.MagnonRounding
import Verif.Lemmas.Strict

/-!
# Helper lemmas: frames of nearby directions
-/

set_option autoImplicit false
set_option linter.unusedSectionVars false

namespace Magnopy
namespace MagnonObj

open Complex Matrix EnergyObj

/-- Frames whose third vectors are close agree up to a phase. -/
theorem cu_close {e e' : M3 ℝ} (h : RightHanded e) (h' : RightHanded e') {δ : ℝ} (h0 : 0 ≤ δ) (h1 : δ ≤ 1)
    (hd : distSq (e 2) (e' 2) ≤ δ ^ 2) : ∃ z : ℂ, z * star z = 1 ∧ ∀ c, ‖cu e' c - z * cu e c‖ ≤ 3 / 2 * δ := by
  obtain ⟨M, hM⟩ : ∃ M : Fin 3 → Fin 3 → ℝ, ∀ i j, e' i ⬝ᵥ e j = M i j := ⟨fun i j => e' i ⬝ᵥ e j, fun _ _ => rfl⟩
  have r0 := length_sq h (e' 0)
  have r1 := length_sq h (e' 1)
  have c2 := length_sq h' (e 2)
  rw [h'.ortho 0 0, if_pos rfl, hM, hM, hM] at r0
  rw [h'.ortho 1 1, if_pos rfl, hM, hM, hM] at r1
  rw [h.ortho 2 2, if_pos rfl, dotProduct_comm, hM, dotProduct_comm, hM, dotProduct_comm, hM] at c2
  have hdet : M 2 2 = M 0 0 * M 1 1 - M 0 1 * M 1 0 := by
    rw [← hM, ← h.hand, ← h'.hand, cross_dot_cross, hM, hM, hM, hM]
  set D := distSq (e 2) (e' 2) with hD
  have hc : M 2 2 = 1 - D / 2 := by
    have a := h.ortho 2 2
    have b := h'.ortho 2 2
    have c := hM 2 2
    simp only [if_true, dotProduct, Fin.sum_univ_three] at a b c
    rw [hD, distSq, Fin.sum_univ_three, ← c]
    linear_combination (1 / 2 : ℝ) * a + (1 / 2 : ℝ) * b
  have hD0 : 0 ≤ D := by rw [hD, distSq]; positivity
  have hD1 : D ≤ δ := hd.trans (by nlinarith)
  set c := M 2 2
  have hc0 : 0 < 1 + c := by rw [hc]; linarith
  have hc1 : 0 ≤ 1 - c := by rw [hc]; linarith
  set p : ℂ := ⟨M 0 0 + M 1 1, M 1 0 - M 0 1⟩ with hp
  set q : ℂ := ⟨M 0 0 - M 1 1, M 1 0 + M 0 1⟩ with hq
  set s : ℂ := ⟨M 0 2, M 1 2⟩ with hs
  have np : ‖p‖ = 1 + c := by
    rw [← Real.sqrt_sq hc0.le, Complex.norm_def, normSq_mk]; congr 1
    linear_combination -r0 - r1 + c2 - 2 * hdet
  have nq : ‖q‖ = 1 - c := by
    rw [← Real.sqrt_sq hc1, Complex.norm_def, normSq_mk]; congr 1
    linear_combination -r0 - r1 + c2 + 2 * hdet
  have ns : ‖s‖ ≤ δ := by
    rw [Complex.norm_def, normSq_mk]
    refine Real.sqrt_le_iff.2 ⟨h0, ?_⟩
    have : M 0 2 * M 0 2 + M 1 2 * M 1 2 = (1 - c) * (1 + c) := by linear_combination -c2
    rw [this, hc]
    nlinarith
  refine ⟨p / ((1 + c : ℝ) : ℂ), ?_, fun i => ?_⟩
  · rw [Complex.star_def, Complex.mul_conj, Complex.normSq_eq_norm_sq, norm_div, np, Complex.norm_real, Real.norm_of_nonneg hc0.le,
      div_self hc0.ne']
    simp
  have hu : ‖cu e i‖ ≤ 1 ∧ ‖e 2 i‖ ≤ 1 := by
    have a := h.column_dot i i
    rw [if_pos rfl] at a
    constructor
    · have : cu e i = ⟨e 0 i, e 1 i⟩ := by apply Complex.ext <;> simp [cu]
      rw [this, Complex.norm_def, normSq_mk]
      exact Real.sqrt_le_one.2 (by nlinarith [mul_self_nonneg (e 2 i)])
    · rw [Real.norm_eq_abs]; exact abs_le_one_iff_mul_self_le_one.2 (by nlinarith [mul_self_nonneg (e 0 i), mul_self_nonneg (e 1 i)])
  have exp : cu e' i = p / 2 * cu e i + q / 2 * star (cu e i) + s * (e 2 i : ℂ) := by
    have a := components h (e' 0) i
    have b := components h (e' 1) i
    rw [hM, hM, hM] at a b
    apply Complex.ext
    · simp [cu, hp, hq, hs, a, b]; ring
    · simp [cu, hp, hq, hs, a, b]; ring
  have key : cu e' i - p / ((1 + c : ℝ) : ℂ) * cu e i =
      p * (((1 / 2 - 1 / (1 + c) : ℝ)) : ℂ) * cu e i + q / 2 * star (cu e i) + s * (e 2 i : ℂ) := by
    rw [exp]; push_cast; ring
  have n1 : ‖p * (((1 / 2 - 1 / (1 + c) : ℝ)) : ℂ) * cu e i‖ ≤ (1 - c) / 2 := by
    rw [norm_mul, norm_mul, np, Complex.norm_real, Real.norm_eq_abs,
      show (1 / 2 - 1 / (1 + c) : ℝ) = -((1 - c) / 2 / (1 + c)) by field_simp; ring, abs_neg, abs_of_nonneg (by positivity),
      mul_div_cancel₀ _ hc0.ne']
    exact mul_le_of_le_one_right (by linarith) hu.1
  have n2 : ‖q / 2 * star (cu e i)‖ ≤ (1 - c) / 2 := by
    rw [norm_mul, norm_div, nq, norm_star]
    simp only [Complex.norm_ofNat]
    exact mul_le_of_le_one_right (by linarith) hu.1
  have n3 : ‖s * (e 2 i : ℂ)‖ ≤ δ := by
    rw [norm_mul, Complex.norm_real]
    exact (mul_le_of_le_one_right (norm_nonneg _) hu.2).trans ns
  rw [key]
  refine (norm_add₃_le).trans ?_
  have : 1 - c ≤ δ / 2 := by rw [hc]; linarith
  linarith

theorem cu_le {e : M3 ℝ} (h : RightHanded e) (i : Fin 3) : ‖cu e i‖ ≤ 1 := by
  have a := h.column_dot i i
  rw [if_pos rfl] at a
  have : cu e i = ⟨e 0 i, e 1 i⟩ := by apply Complex.ext <;> simp [cu]
  rw [this, Complex.norm_def, normSq_mk]
  exact Real.sqrt_le_one.2 (by nlinarith [mul_self_nonneg (e 2 i)])

theorem third_le {e : M3 ℝ} (h : RightHanded e) (i : Fin 3) : ‖cvec (e 2) i‖ ≤ 1 := by
  have a := h.column_dot i i
  rw [if_pos rfl] at a
  rw [cvec, Complex.norm_real, Real.norm_eq_abs]
  exact abs_le_one_iff_mul_self_le_one.2 (by nlinarith [mul_self_nonneg (e 0 i), mul_self_nonneg (e 1 i)])

theorem third_close {x y : V3 ℝ} {δ : ℝ} (h0 : 0 ≤ δ) (hd : distSq x y ≤ δ ^ 2) (c : Fin 3) : ‖cvec y c - cvec x c‖ ≤ δ := by
  rw [cvec, cvec, ← Complex.ofReal_sub, Complex.norm_real, Real.norm_eq_abs]
  refine abs_le_of_sq_le_sq ?_ h0
  refine le_trans ?_ hd
  rw [distSq, ← neg_sub, neg_sq]
  exact Finset.single_le_sum (f := fun c => (x c - y c) ^ 2) (fun _ _ => sq_nonneg _) (Finset.mem_univ c)

theorem J_le (o : MagnonObj) (cell : ℕ → M3 ℝ) (k : V3 ℝ) (i j : ℕ) (a b : Fin 3) :
    ‖o.J cell k i j a b‖ ≤ o.jSize cell (fun _ => 1) i j a b := by
  rw [J, sum_entry, List.map_map, jSize]
  induction o.bonds with
  | nil => simp
  | cons x l ih =>
    simp only [List.map_cons, List.sum_cons]
    refine (norm_add_le _ _).trans (add_le_add ?_ ih)
    rw [Function.comp_apply]
    split_ifs with hx
    · rw [Matrix.smul_apply, Matrix.map_apply, smul_eq_mul, norm_mul, Complex.norm_real, Real.norm_eq_abs, mul_one]
      have : ‖phase k x.2.2.1‖ = 1 := by
        rw [phase, show -I * ((k ⬝ᵥ x.2.2.1 : ℝ) : ℂ) = ((-(k ⬝ᵥ x.2.2.1) : ℝ) : ℂ) * I by push_cast; ring, Complex.norm_exp_ofReal_mul_I]
      rw [this, one_mul]
    · simp

/-- Forms of nearby vectors. -/
theorem form_tilt {M : M3 ℂ} {s : Fin 3 → Fin 3 → ℝ} (hM : ∀ a b, ‖M a b‖ ≤ s a b) {x y x' y' : V3 ℂ} {ε : ℝ} (hx : ∀ a, ‖x' a - x a‖ ≤ ε)
    (hy : ∀ a, ‖y' a - y a‖ ≤ ε) (h1 : ∀ a, ‖x a‖ ≤ 1) (h2 : ∀ a, ‖y' a‖ ≤ 1) :
    ‖x' ⬝ᵥ (M *ᵥ y') - x ⬝ᵥ (M *ᵥ y)‖ ≤ 2 * ε * ∑ a, ∑ b, s a b := by
  have e : x' ⬝ᵥ (M *ᵥ y') - x ⬝ᵥ (M *ᵥ y) = ∑ a, ∑ b, M a b * ((x' a - x a) * y' b + x a * (y' b - y b)) := by
    simp only [dotProduct, mulVec, Fin.sum_univ_three]; ring
  rw [e, Finset.mul_sum]
  refine norm_sum_le_of_le _ fun a _ => ?_
  rw [Finset.mul_sum]
  refine norm_sum_le_of_le _ fun b _ => ?_
  have h0 : 0 ≤ ε := (norm_nonneg _).trans (hx 0)
  rw [norm_mul, mul_comm (2 * ε)]
  refine mul_le_mul (hM a b) ((norm_add_le _ _).trans ?_) (norm_nonneg _) ((norm_nonneg _).trans (hM a b))
  rw [norm_mul, norm_mul]
  have a1 := mul_le_mul (hx a) (h2 b) (norm_nonneg _) h0
  have a2 := mul_le_mul (h1 a) (hy b) (norm_nonneg _) zero_le_one
  linarith

end MagnonObj
end Magnopy
