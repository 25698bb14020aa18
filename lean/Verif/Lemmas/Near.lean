import Verif.Lemmas.Courant
import Verif.Lemmas.Strict

/-!
# Lemmas: the energies are continuous functions of the matrix and of the wave vector
-/

set_option autoImplicit false
set_option linter.unusedSectionVars false

namespace Magnopy

open Matrix ComplexOrder Magnopy.Colpa Filter Topology Complex
open MagnonObj (Mat)

variable {N : ℕ}

/-- Matrices that are relatively close have relatively close energies. -/
theorem Diag.close {D D' Y Y' : Mat N} {e e' : Fin N ⊕ Fin N → ℝ} (h : Diag D Y e) (h' : Diag D' Y' e') {r : ℝ} (h0 : 0 ≤ r)
    (h1 : r < 1) (hl : (D' - ((1 - r : ℝ) : ℂ) • D).PosSemidef) (hu : (((1 + r : ℝ) : ℂ) • D - D').PosSemidef)
    (i : Fin N ⊕ Fin N) : |e' i - e i| ≤ r * e i := by
  have a := (h.smul (sub_pos.2 h1)).mono h' hl i
  have b := h'.mono (h.smul (by linarith : 0 < 1 + r)) hu i
  rw [abs_le]
  constructor <;> linarith

theorem hermitian_form_im {ι : Type*} [Fintype ι] {D : Matrix ι ι ℂ} (hH : D.IsHermitian) (x : ι → ℂ) :
    (star x ⬝ᵥ (D *ᵥ x)).im = 0 := by
  have e : star (star x ⬝ᵥ (D *ᵥ x)) = star x ⬝ᵥ (D *ᵥ x) := by
    rw [← star_dotProduct_star, star_star, star_mulVec, hH.eq, dotProduct_mulVec, dotProduct_comm]
  exact Complex.conj_eq_iff_im.1 e

theorem posSemidef_of_re {ι : Type*} [Fintype ι] {D : Matrix ι ι ℂ} (hH : D.IsHermitian)
    (h : ∀ x : ι → ℂ, 0 ≤ (star x ⬝ᵥ (D *ᵥ x)).re) : D.PosSemidef :=
  .of_dotProduct_mulVec_nonneg hH fun x => Complex.nonneg_iff.2 ⟨h x, (hermitian_form_im hH x).symm⟩

/-- The form of a matrix with small elements. -/
theorem form_small {ι : Type*} [Fintype ι] {M : Matrix ι ι ℂ} {η : ℝ} (hM : ∀ i j, ‖M i j‖ ≤ η) (x : ι → ℂ) :
    |(star x ⬝ᵥ (M *ᵥ x)).re| ≤ η * Fintype.card ι * ∑ i, normSq (x i) := by
  have h1 : ‖star x ⬝ᵥ (M *ᵥ x)‖ ≤ ∑ i, ∑ j, ‖x i‖ * (η * ‖x j‖) := by
    simp only [dotProduct, mulVec]
    refine (norm_sum_le _ _).trans (Finset.sum_le_sum fun i _ => ?_)
    rw [norm_mul, Pi.star_apply, norm_star, ← Finset.mul_sum]
    refine mul_le_mul_of_nonneg_left ((norm_sum_le _ _).trans (Finset.sum_le_sum fun j _ => ?_)) (norm_nonneg _)
    rw [norm_mul]
    exact mul_le_mul_of_nonneg_right (hM i j) (norm_nonneg _)
  refine (Complex.abs_re_le_norm _).trans (h1.trans ?_)
  by_cases hι : IsEmpty ι
  · simp
  rw [not_isEmpty_iff] at hι
  have hη : 0 ≤ η := (norm_nonneg _).trans (hM (Classical.arbitrary ι) (Classical.arbitrary ι))
  have h2 : ∀ i j : ι, ‖x i‖ * (η * ‖x j‖) ≤ η * ((normSq (x i) + normSq (x j)) / 2) := fun i j => by
    rw [Complex.normSq_eq_norm_sq, Complex.normSq_eq_norm_sq]
    nlinarith [mul_nonneg hη (sq_nonneg (‖x i‖ - ‖x j‖))]
  refine (Finset.sum_le_sum fun i _ => Finset.sum_le_sum fun j _ => h2 i j).trans (le_of_eq ?_)
  simp only [← Finset.mul_sum, ← Finset.sum_div, Finset.sum_add_distrib, Finset.sum_const, Finset.card_univ, nsmul_eq_mul]
  ring

/-- Hermitian matrices with close elements are relatively close to a positive-definite matrix. -/
theorem relatively_close {D : Mat N} (hD : D.PosDef) {r : ℝ} (hr : 0 < r) : ∃ η : ℝ, 0 < η ∧ ∀ D' : Mat N, D'.IsHermitian →
    (∀ i j, ‖D' i j - D i j‖ ≤ η) → (D' - ((1 - r : ℝ) : ℂ) • D).PosSemidef ∧ (((1 + r : ℝ) : ℂ) • D - D').PosSemidef := by
  obtain ⟨c, hc, hb⟩ := posDef_bound hD
  have hn : (0 : ℝ) < Fintype.card (Fin N ⊕ Fin N) + 1 := by positivity
  refine ⟨r * c / (Fintype.card (Fin N ⊕ Fin N) + 1), by positivity, fun D' hH hη => ?_⟩
  have hs : ∀ a : ℝ, ((a : ℂ) • D).IsHermitian := fun a => by
    unfold Matrix.IsHermitian
    rw [conjTranspose_smul, hD.1.eq]; simp
  have small : ∀ x : Fin N ⊕ Fin N → ℂ, |(star x ⬝ᵥ ((D' - D) *ᵥ x)).re| ≤ r * (star x ⬝ᵥ (D *ᵥ x)).re := by
    intro x
    refine (form_small (M := D' - D) (fun i j => hη i j) x).trans ?_
    refine le_trans ?_ (mul_le_mul_of_nonneg_left (hb x) hr.le)
    have hq : (0 : ℝ) ≤ ∑ i, normSq (x i) := Finset.sum_nonneg fun i _ => normSq_nonneg _
    have : r * c / (Fintype.card (Fin N ⊕ Fin N) + 1) * (Fintype.card (Fin N ⊕ Fin N) : ℝ) ≤ r * c := by
      rw [div_mul_eq_mul_div, div_le_iff₀ hn]
      nlinarith [mul_pos hr hc]
    calc _ ≤ r * c * ∑ i, normSq (x i) := mul_le_mul_of_nonneg_right this hq
      _ = _ := by ring
  refine ⟨posSemidef_of_re (hH.sub (hs _)) fun x => ?_, posSemidef_of_re ((hs _).sub hH) fun x => ?_⟩
  · have := (abs_le.1 (small x)).1
    simp only [sub_mulVec, dotProduct_sub, smul_mulVec, dotProduct_smul, smul_eq_mul, Complex.sub_re, Complex.re_ofReal_mul] at this ⊢
    linarith
  · have := (abs_le.1 (small x)).2
    simp only [sub_mulVec, dotProduct_sub, smul_mulVec, dotProduct_smul, smul_eq_mul, Complex.sub_re, Complex.re_ofReal_mul] at this ⊢
    linarith

/-- The magnon matrix is a continuous function of the wave vector. -/
theorem callH_continuous (o : MagnonObj) (cell : ℕ → M3 ℝ) (i j : Fin o.N ⊕ Fin o.N) :
    Continuous fun k : V3 ℝ => (o.callH cell k).1 i j := by
  have hJ : ∀ a b c d, Continuous fun k : V3 ℝ => o.J cell k a b c d := by
    intro a b c d
    unfold MagnonObj.J
    generalize o.bonds = l
    induction l with
    | nil => simpa using continuous_const
    | cons p l ih =>
      simp only [List.map_cons, List.sum_cons, Matrix.add_apply]
      refine Continuous.add ?_ ih
      split_ifs
      · simp only [Matrix.smul_apply, smul_eq_mul, MagnonObj.phase, dotProduct, Fin.sum_univ_three]
        fun_prop
      · exact continuous_const
  have hA : ∀ a b, Continuous fun k : V3 ℝ => o.A cell k a b := by
    intro a b
    simp only [MagnonObj.A, dotProduct, mulVec]
    have := fun c d => (hJ a b c d).comp (continuous_neg (G := V3 ℝ))
    refine continuous_const.mul (continuous_finsetSum _ fun c _ => continuous_const.mul (continuous_finsetSum _ fun d _ => ?_))
    exact (this c d).mul continuous_const
  have hB : ∀ a b, Continuous fun k : V3 ℝ => o.B cell k a b := by
    intro a b
    simp only [MagnonObj.B, dotProduct, mulVec]
    have := fun c d => (hJ a b c d).comp (continuous_neg (G := V3 ℝ))
    refine continuous_const.mul (continuous_finsetSum _ fun c _ => continuous_const.mul (continuous_finsetSum _ fun d _ => ?_))
    exact (this c d).mul continuous_const
  rcases i with i | i <;> rcases j with j | j <;>
    simp only [MagnonObj.callH, fromBlocks_apply₁₁, fromBlocks_apply₁₂, fromBlocks_apply₂₁, fromBlocks_apply₂₂, Matrix.sub_apply,
      Matrix.smul_apply, MagnonObj.block, Matrix.of_apply, Matrix.conjTranspose_apply, Matrix.map_apply]
  · exact ((hA _ _).const_smul _).sub continuous_const
  · exact (hB _ _).const_smul _
  · exact ((hB _ _).star).const_smul _
  · exact ((((hA _ _).comp continuous_neg).star).const_smul _).sub continuous_const

/-- Close to a wave vector with a positive-definite matrix the energies are close. -/
theorem energies_continuous (o : MagnonObj) (cell : ℕ → M3 ℝ) (hH : ∀ k, (o.callH cell k).1.IsHermitian) {k : V3 ℝ} {Y : Mat o.N}
    {e : Fin o.N ⊕ Fin o.N → ℝ} (h : Diag (o.callH cell k).1 Y e) (hD : (o.callH cell k).1.PosDef) {r : ℝ} (hr : 0 < r) (hr1 : r < 1) :
    ∀ᶠ q in 𝓝 k, ∃ Y' e', Modes (o.callH cell q).1 Y' e' ∧ (o.callH cell q).1.PosDef ∧ ∀ i, |e' i - e i| ≤ r * e i := by
  obtain ⟨η, hη, hc⟩ := relatively_close hD hr
  have hev : ∀ᶠ q in 𝓝 k, ∀ i j, ‖(o.callH cell q).1 i j - (o.callH cell k).1 i j‖ ≤ η := by
    rw [eventually_all]
    intro i
    rw [eventually_all]
    intro j
    have ht := ((callH_continuous o cell i j).sub continuous_const).norm.tendsto k (f := fun q => ‖(o.callH cell q).1 i j - (o.callH cell k).1 i j‖)
    simp only [sub_self, norm_zero] at ht
    exact (ht.eventually (gt_mem_nhds hη)).mono fun _ h => le_of_lt h
  filter_upwards [hev] with q hq
  obtain ⟨a, b⟩ := hc _ (hH q) hq
  have hp : (o.callH cell q).1.PosDef := by
    have h1 : (((1 - r : ℝ) : ℂ) • (o.callH cell k).1).PosDef := hD.smul (Complex.zero_lt_real.2 (sub_pos.2 hr1))
    have := h1.add_posSemidef a
    simpa using this
  obtain ⟨Y', e', hm⟩ := exists_modes hp
  exact ⟨Y', e', hm, hp, h.close hm.toDiag hr.le hr1 a b⟩

end Magnopy
