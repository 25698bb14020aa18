import Verif.Model.Magnon
import Verif.Spec.Colpa
import Mathlib.LinearAlgebra.FiniteDimensional.Lemmas
import Mathlib.Analysis.SpecialFunctions.Sqrt
import Mathlib.Analysis.SpecialFunctions.Pow.Real
import Mathlib.Tactic.LinearCombination
import Mathlib.Tactic.NoncommRing

/-!
# Helper lemmas: Colpa's algorithm
-/

set_option autoImplicit false
set_option linter.unusedSectionVars false

namespace Magnopy

open Matrix ComplexOrder

namespace Colpa

section Inertia

variable {I : Type*} [Fintype I] [DecidableEq I]

/-- `U` diagonalises a Hermitian matrix: then the Gram matrix of `U` commutes with the eigenvalues, which are real. -/
theorem gram {M U : Matrix I I ℂ} {L : I → ℂ} (hM : M.IsHermitian) (hU : IsUnit U.det)
    (h : M * U = U * diagonal L) :
    (∀ i, ((L i).re : ℂ) = L i) ∧ ∀ i j, (Uᴴ * U) i j * L j = L i * (Uᴴ * U) i j := by
  set P := Uᴴ * U with hP
  have h1 : Uᴴ * M * U = P * diagonal L := by rw [Matrix.mul_assoc, h, ← Matrix.mul_assoc]
  have h2 : P * diagonal L = (diagonal L)ᴴ * P := by
    have : (Uᴴ * M * U)ᴴ = Uᴴ * M * U := by
      rw [conjTranspose_mul, conjTranspose_mul, conjTranspose_conjTranspose, hM.eq, Matrix.mul_assoc]
    rw [h1, conjTranspose_mul] at this
    rw [← this, hP, conjTranspose_mul, conjTranspose_conjTranspose]
  have h3 : ∀ i j, P i j * L j = star (L i) * P i j := by
    intro i j
    have := congrFun (congrFun h2 i) j
    rw [mul_diagonal, diagonal_conjTranspose, diagonal_mul] at this
    exact this
  have hpos : P.PosDef := PosDef.conjTranspose_mul_self U (mulVec_injective_of_isUnit ((isUnit_iff_isUnit_det U).2 hU))
  have hreal : ∀ i, star (L i) = L i := by
    intro i
    have h4 : P i i ≠ 0 := (hpos.diag_pos (i := i)).ne'
    have := h3 i i
    rw [mul_comm] at this
    exact (mul_right_cancel₀ h4 this).symm
  refine ⟨fun i => Complex.conj_eq_iff_re.1 (hreal i), fun i j => ?_⟩
  rw [h3 i j, hreal]

/-- Sylvester's law of inertia in the form that is needed: a set `T` of eigenvalues of the sign `-s` (or zero) is not
larger than the set `Z` outside of which the signature has the sign `s`. -/
theorem inertia {K U : Matrix I I ℂ} {ε l : I → ℝ} (hK : IsUnit K.det) (hU : IsUnit U.det)
    (h : K * diagonal (fun i => (ε i : ℂ)) * Kᴴ * U = U * diagonal fun i => (l i : ℂ)) (s : ℝ) (T Z : Finset I)
    (hT : ∀ i ∈ T, s * l i ≤ 0) (hZ : ∀ i, i ∉ Z → 0 < s * ε i) : T.card ≤ Z.card := by
  by_contra hcard
  rw [not_le] at hcard
  set M := K * diagonal (fun i => (ε i : ℂ)) * Kᴴ with hM
  have hMh : M.IsHermitian := by
    unfold Matrix.IsHermitian
    rw [hM, conjTranspose_mul, conjTranspose_mul, conjTranspose_conjTranspose, diagonal_conjTranspose, Matrix.mul_assoc]
    have : (star fun i => (ε i : ℂ)) = fun i => (ε i : ℂ) := by ext i; simp
    rw [this]
  set P := Uᴴ * U with hP
  have hcomm : ∀ i j, P i j * (l j : ℂ) = (l i : ℂ) * P i j := (gram hMh hU h).2
  set W := Kᴴ * U with hW
  have hWu : IsUnit W.det := by
    rw [hW, det_mul, det_conjTranspose]; exact hK.star.mul hU
  have hWM : Wᴴ * diagonal (fun i => (ε i : ℂ)) * W = P * diagonal fun i => (l i : ℂ) := by
    rw [hP, Matrix.mul_assoc Uᴴ, ← h, hM, hW, conjTranspose_mul, conjTranspose_conjTranspose]
    simp only [Matrix.mul_assoc]
  -- a combination of the vectors of `T` which vanishes on `Z` after `W`
  let W' : Matrix Z T ℂ := W.submatrix (fun z => z.1) fun t => t.1
  have hker : LinearMap.ker W'.mulVecLin ≠ ⊥ :=
    LinearMap.ker_ne_bot_of_finrank_lt (by simpa using hcard)
  obtain ⟨c, hc, hc0⟩ := Submodule.exists_mem_ne_zero_of_ne_bot hker
  let x : I → ℂ := fun i => if hi : i ∈ T then c ⟨i, hi⟩ else 0
  have hxT : ∀ i, i ∉ T → x i = 0 := fun i hi => by simp [x, hi]
  have hx0 : x ≠ 0 := by
    intro hx
    apply hc0
    ext t
    have := congrFun hx t.1
    simpa [x] using this
  have hyZ : ∀ z ∈ Z, (W *ᵥ x) z = 0 := by
    intro z hz
    have h1 : (W' *ᵥ c) ⟨z, hz⟩ = 0 := congrFun (LinearMap.mem_ker.1 hc) ⟨z, hz⟩
    rw [← h1]
    simp only [mulVec, dotProduct, W', submatrix_apply]
    rw [← Finset.sum_subset (Finset.subset_univ T) (fun i _ hi => by rw [hxT i hi, mul_zero]), ← Finset.sum_coe_sort]
    exact Finset.sum_congr rfl fun t _ => by simp [x]
  set y := W *ᵥ x with hy
  have hy0 : y ≠ 0 := by
    intro h0
    exact hx0 (mulVec_injective_of_isUnit ((isUnit_iff_isUnit_det W).2 hWu) (by rw [← hy, h0, mulVec_zero]))
  -- the form in the two bases
  have e1 : star x ⬝ᵥ ((P * diagonal fun i => (l i : ℂ)) *ᵥ x) = ∑ i, (ε i : ℂ) * (star (y i) * y i) := by
    rw [← hWM, Matrix.mul_assoc, ← mulVec_mulVec, ← mulVec_mulVec, ← hy, dotProduct_mulVec, ← star_mulVec, ← hy,
      dotProduct]
    refine Finset.sum_congr rfl fun i _ => ?_
    rw [mulVec_diagonal, Pi.star_apply]; ring
  let w : I → ℂ := fun i => ((Real.sqrt (-(s * l i)) : ℝ) : ℂ) * x i
  have e2 : (s : ℂ) * (star x ⬝ᵥ ((P * diagonal fun i => (l i : ℂ)) *ᵥ x)) = -(star w ⬝ᵥ (P *ᵥ w)) := by
    simp only [dotProduct, mulVec, Finset.mul_sum, mul_diagonal]
    rw [← Finset.sum_neg_distrib]
    refine Finset.sum_congr rfl fun i _ => ?_
    rw [← Finset.sum_neg_distrib]
    refine Finset.sum_congr rfl fun j _ => ?_
    by_cases hi : i ∈ T
    · by_cases hj : j ∈ T
      · by_cases hp : P i j = 0
        · simp [hp]
        · have hl : l j = l i := by
            have := hcomm i j
            rw [mul_comm] at this
            exact_mod_cast mul_right_cancel₀ hp this
          have hsq : ((Real.sqrt (-(s * l i)) : ℝ) : ℂ) * ((Real.sqrt (-(s * l i)) : ℝ) : ℂ) = -((s : ℂ) * (l i : ℂ)) := by
            rw [← Complex.ofReal_mul, Real.mul_self_sqrt (by linarith [hT i hi])]
            push_cast; ring
          simp only [Pi.star_apply, w, star_mul', hl, Complex.star_def, Complex.conj_ofReal]
          linear_combination (starRingEnd ℂ (x i) * P i j * x j) * hsq
      · simp [w, hxT j hj]
    · simp [w, hxT i hi]
  have hPsd : P.PosSemidef := posSemidef_conjTranspose_mul_self U
  have h3 : 0 ≤ star w ⬝ᵥ (P *ᵥ w) := hPsd.dotProduct_mulVec_nonneg w
  have e3 : (s : ℂ) * ∑ i, (ε i : ℂ) * (star (y i) * y i) = ((∑ i, s * ε i * ‖y i‖ ^ 2 : ℝ) : ℂ) := by
    push_cast
    rw [Finset.mul_sum]
    refine Finset.sum_congr rfl fun i _ => ?_
    rw [Complex.star_def, ← Complex.normSq_eq_conj_mul_self, Complex.normSq_eq_norm_sq]
    push_cast; ring
  have h4 : 0 < ∑ i, s * ε i * ‖y i‖ ^ 2 := by
    obtain ⟨i, hi⟩ := Function.ne_iff.1 hy0
    refine Finset.sum_pos' (fun j _ => ?_) ⟨i, Finset.mem_univ _, ?_⟩
    · by_cases hj : j ∈ Z
      · simp [hyZ j hj]
      · have := hZ j hj; positivity
    · have hiZ : i ∉ Z := fun hz => hi (by simp [hyZ i hz])
      have := hZ i hiZ
      have : 0 < ‖y i‖ := norm_pos_iff.2 hi
      positivity
  rw [← e1, e2] at e3
  have h5 : star w ⬝ᵥ (P *ᵥ w) = ((-(∑ i, s * ε i * ‖y i‖ ^ 2) : ℝ) : ℂ) := by
    rw [Complex.ofReal_neg, ← e3, neg_neg]
  rw [h5] at h3
  have h6 := Complex.zero_le_real.1 h3
  linarith

end Inertia

variable {N : ℕ}

open MagnonObj (Mat)

/-- The signature of the metric. -/
def sgn : Fin N ⊕ Fin N → ℝ := Sum.elim (fun _ => 1) fun _ => -1

theorem g_eq : (g : Mat N) = diagonal fun i => (sgn i : ℂ) := by
  unfold g
  congr 1
  ext i
  cases i <;> simp [sgn]

theorem g_eq_metric : (g : Mat N) = bosonMetric N := by
  unfold bosonMetric g
  rw [← diagonal_one, diagonal_neg, fromBlocks_diagonal]

/-- Reading of the two descending parts. -/
theorem signs {K U : Mat N} {l : Fin N ⊕ Fin N → ℝ} (hK : IsUnit K.det) (hU : IsUnit U.det)
    (h : K * g * Kᴴ * U = U * diagonal fun i => (l i : ℂ)) (hl : Descending l) : ∀ i, 0 < sgn i * l i := by
  rw [g_eq] at h
  rintro (i | i)
  · by_contra hc
    have hc' : l (.inl i) ≤ 0 := by simpa [sgn] using hc
    have := inertia hK hU h 1 (insert (.inl i) (Finset.univ.image Sum.inr)) (Finset.univ.image Sum.inr)
      (by
        intro j hj
        rcases Finset.mem_insert.1 hj with rfl | hj
        · linarith
        · obtain ⟨k, -, rfl⟩ := Finset.mem_image.1 hj
          have := hl.across i k; linarith)
      (by
        rintro (j | j) hj
        · simp [sgn]
        · exact absurd (Finset.mem_image_of_mem _ (Finset.mem_univ _)) hj)
    rw [Finset.card_insert_of_notMem (by simp)] at this
    omega
  · by_contra hc
    have hc' : 0 ≤ l (.inr i) := by simpa [sgn] using hc
    have := inertia hK hU h (-1) (insert (.inr i) (Finset.univ.image Sum.inl)) (Finset.univ.image Sum.inl)
      (by
        intro j hj
        rcases Finset.mem_insert.1 hj with rfl | hj
        · linarith
        · obtain ⟨k, -, rfl⟩ := Finset.mem_image.1 hj
          have := hl.across k i; linarith)
      (by
        rintro (j | j) hj
        · exact absurd (Finset.mem_image_of_mem _ (Finset.mem_univ _)) hj
        · simp [sgn])
    rw [Finset.card_insert_of_notMem (by simp)] at this
    omega

theorem csqrt_ofReal {x : ℝ} (hx : 0 < x) : csqrt (x : ℂ) = (Real.sqrt x : ℂ) := by
  unfold csqrt
  rw [Real.sqrt_eq_rpow, Complex.ofReal_cpow hx.le]
  norm_num

theorem csqrt_zero : csqrt 0 = 0 := by
  unfold csqrt
  exact Complex.zero_cpow (by norm_num)

/-- What `solve` returns for a positive-definite matrix. -/
theorem solve_eq {chol : Mat N → Option (Mat N)} {eig : Mat N → (Fin N ⊕ Fin N → ℂ) × Mat N}
    {sort : (Fin N ⊕ Fin N → ℂ) → Equiv.Perm (Fin N ⊕ Fin N)} (hchol : IsCholesky chol) (heig : IsEig eig)
    (hsort : IsSort sort) {D : Mat N} (hD : D.PosDef) :
    ∃ (K U : Mat N) (l : Fin N ⊕ Fin N → ℝ), Kᴴ * K = D ∧ IsUnit K.det ∧ IsUnit U.det ∧
      K * g * Kᴴ * U = U * diagonal (fun i => (l i : ℂ)) ∧ Descending l ∧ (∀ i, 0 < sgn i * l i) ∧
      (IsOrthoEig eig → Uᴴ * U = 1) ∧
      solve chol eig sort D = some ((fun i => ((sgn i * l i : ℝ) : ℂ)),
        g * (K⁻¹ * U * diagonal fun i => ((Real.sqrt (sgn i * l i) : ℝ) : ℂ))ᴴ * g) := by
  obtain ⟨F, hF, hFD⟩ := hchol.ok D hD
  have hK : IsUnit (Fᴴ).det := by
    have : IsUnit D.det := (isUnit_iff_isUnit_det D).1 hD.isUnit
    rw [← hFD, det_mul] at this
    exact isUnit_of_mul_isUnit_right this
  set K := Fᴴ with hKd
  set M := K * g * Kᴴ with hM
  have hMh : M.IsHermitian := by
    unfold Matrix.IsHermitian
    rw [hM, conjTranspose_mul, conjTranspose_mul, conjTranspose_conjTranspose, g_eq, diagonal_conjTranspose,
      Matrix.mul_assoc]
    have : (star fun i => (sgn i : ℂ)) = fun i : Fin N ⊕ Fin N => (sgn i : ℂ) := by ext i; simp
    rw [this]
  obtain ⟨h1, h2, h3⟩ := heig M hMh
  set L0 := (eig M).1 with hL0
  set U0 := (eig M).2 with hU0
  set σ := sort L0 with hσ
  have hreal := (gram hMh h2 h1).1
  set U : Mat N := Matrix.of fun r c => U0 r (σ c) with hU
  have hUu : IsUnit U.det := by
    rw [← isUnit_iff_isUnit_det] at h2 ⊢
    exact (isUnit_submatrix_equiv (e₁ := Equiv.refl _) (e₂ := σ)).2 h2
  let l : Fin N ⊕ Fin N → ℝ := fun i => (L0 (σ i)).re
  have hl : (fun i => (l i : ℂ)) = fun i => L0 (σ i) := funext fun i => hreal _
  have hMU : M * U = U * diagonal fun i => (l i : ℂ) := by
    ext i j
    rw [hl, mul_diagonal]
    have := congrFun (congrFun h1 i) (σ j)
    rw [mul_diagonal] at this
    exact this
  have hdesc : Descending l := hsort L0
  have hsg := signs hK hUu hMU hdesc
  refine ⟨K, U, l, ?_, hK, hUu, hMU, hdesc, hsg, ?_, ?_⟩
  · rw [hKd, conjTranspose_conjTranspose]; exact hFD
  · intro h
    have h4 := h.2 M hMh
    ext i j
    have := congrFun (congrFun h4 (σ i)) (σ j)
    rw [← hU0] at this
    rw [Matrix.mul_apply] at this ⊢
    rw [show (∑ k, Uᴴ i k * U k j) = ∑ k, U0ᴴ (σ i) k * U0 k (σ j) from rfl, this]
    simp [Matrix.one_apply]
  · unfold solve
    rw [hF]
    simp only [← hKd, ← hM, ← hL0, ← hU0, ← hσ, ← hU]
    have hE : (g : Mat N) *ᵥ (fun i => L0 (σ i)) = fun i => ((sgn i * l i : ℝ) : ℂ) := by
      rw [g_eq, ← hl]
      ext i
      rw [mulVec_diagonal]; simp
    rw [hE]
    have hS : (diagonal fun i => ((sgn i * l i : ℝ) : ℂ)).map csqrt =
        diagonal fun i => ((Real.sqrt (sgn i * l i) : ℝ) : ℂ) := by
      rw [diagonal_map csqrt_zero]
      congr 1
      ext i
      exact csqrt_ofReal (hsg i)
    rw [hS]
    congr 2
    set X := (K⁻¹ * U * diagonal fun i => ((Real.sqrt (sgn i * l i) : ℝ) : ℂ))ᴴ
    rw [g_eq_metric, bosonMetric]
    conv_rhs => rw [← fromBlocks_toBlocks X]
    rw [fromBlocks_multiply, fromBlocks_multiply]
    simp

end Colpa
end Magnopy
