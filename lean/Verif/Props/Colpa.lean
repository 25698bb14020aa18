import Verif.Lemmas.ColpaOracle

/-!
# C41: Colpa's algorithm
-/

set_option autoImplicit false
set_option linter.unusedSectionVars false

namespace Magnopy

open Matrix ComplexOrder Magnopy.Colpa
open MagnonObj (Mat)

variable {N : ℕ}

/-- **C41, energies.** For every positive-definite matrix, every basis of eigenvectors that the eigensolver may
return and every order of equal eigenvalues, `solve_via_colpa` returns real, positive energies, the first `N` in
descending and the last `N` in ascending order. -/
theorem C41_energies {chol : Mat N → Option (Mat N)} {eig : Mat N → (Fin N ⊕ Fin N → ℂ) × Mat N}
    {sort : (Fin N ⊕ Fin N → ℂ) → Equiv.Perm (Fin N ⊕ Fin N)} (hchol : IsCholesky chol) (heig : IsEig eig)
    (hsort : IsSort sort) (D : Mat N) (hD : D.PosDef) :
    ∃ E G, solve chol eig sort D = some (E, G) ∧ EnergyOrder E := by
  obtain ⟨K, U, l, _, _, _, _, hd, hs, _, h⟩ := solve_eq hchol heig hsort hD
  refine ⟨_, _, h, ⟨fun i => by simp, fun i => ?_, fun i j hij => ?_, fun i j hij => ?_⟩⟩
  · rw [Complex.ofReal_re]; exact hs i
  · rw [Complex.ofReal_re, Complex.ofReal_re]; simpa [sgn] using hd.first i j hij
  · rw [Complex.ofReal_re, Complex.ofReal_re]; simpa [sgn] using hd.last i j hij

/-- If the matrix is Hermitian and not positive definite, `ColpaFailed` is raised. -/
theorem C41_failure {chol : Mat N → Option (Mat N)} {eig : Mat N → (Fin N ⊕ Fin N → ℂ) × Mat N}
    {sort : (Fin N ⊕ Fin N → ℂ) → Equiv.Perm (Fin N ⊕ Fin N)} (hchol : IsCholesky chol) (D : Mat N) (hD : D.IsHermitian)
    (h : ¬ D.PosDef) : solve chol eig sort D = none := by
  unfold solve
  rw [hchol.fail D hD h]

/-- The full statement of C41 for the eigensolvers with `P`. -/
def C41_statement (P : ∀ N : ℕ, (Mat N → (Fin N ⊕ Fin N → ℂ) × Mat N) → Prop) : Prop :=
  ∀ (N : ℕ) (chol : Mat N → Option (Mat N)) (eig : Mat N → (Fin N ⊕ Fin N → ℂ) × Mat N)
    (sort : (Fin N ⊕ Fin N → ℂ) → Equiv.Perm (Fin N ⊕ Fin N)), IsCholesky chol → P N eig → IsSort sort →
    ∀ D : Mat N, D.PosDef → ∃ E G, solve chol eig sort D = some (E, G) ∧ EnergyOrder E ∧ BosonDiagonal D G E

/-- **C41, what is provable.** If the eigensolver returns orthonormal eigenvectors, also for repeated eigenvalues,
`solve_via_colpa` returns a bosonic diagonalisation with positive, ordered energies for every positive-definite matrix.

Missing for the full property: eigenvectors that are not orthogonal, see `C41_eigenbasis_false`. -/
theorem C41_colpa_partial : C41_statement fun _ eig => IsOrthoEig eig := by
  intro N chol eig sort hchol heig hsort D hD
  obtain ⟨E, G, h, hE⟩ := C41_energies hchol heig.1 hsort D hD
  refine ⟨E, G, h, hE, ?_⟩
  obtain ⟨K, U, l, hKD, hK, hU, hMU, hd, hs, ho, h'⟩ := solve_eq hchol heig.1 hsort hD
  rw [h] at h'
  have hUU := ho heig
  have hUU' : U * Uᴴ = 1 := mul_eq_one_comm.1 hUU
  set q : Fin N ⊕ Fin N → ℂ := fun i => ((Real.sqrt (sgn i * l i) : ℝ) : ℂ) with hq
  set e : Fin N ⊕ Fin N → ℂ := fun i => ((sgn i * l i : ℝ) : ℂ) with he
  obtain ⟨rfl, rfl⟩ : E = e ∧ G = g * (K⁻¹ * U * diagonal q)ᴴ * g := by simpa using h'
  clear_value e
  have hqq : ∀ i, q i * q i = e i := by
    intro i
    simp only [hq, he]
    rw [← Complex.ofReal_mul, Real.mul_self_sqrt (hs i).le]
  have hq0 : ∀ i, q i ≠ 0 := fun i => by
    simp only [hq]
    exact_mod_cast (Real.sqrt_pos.2 (hs i)).ne'
  have hsg : ∀ i : Fin N ⊕ Fin N, (sgn i : ℂ) * sgn i = 1 := by rintro (i | i) <;> simp [sgn]
  have hel : ∀ i, e i = sgn i * (l i : ℂ) := fun i => by simp [he]
  have hqstar : (diagonal q)ᴴ = diagonal q := by
    rw [diagonal_conjTranspose]; congr 1; ext i; simp [hq]
  have hKi : K * K⁻¹ = 1 := mul_nonsing_inv K hK
  have hKi' : K⁻¹ * K = 1 := nonsing_inv_mul K hK
  have hgg : (g : Mat N) * g = 1 := by
    rw [g_eq, diagonal_mul_diagonal, ← diagonal_one]; congr 1; ext i; exact hsg i
  set Q := diagonal q with hQ
  set R := diagonal (fun i => (q i)⁻¹) with hR
  have hQR : Q * R = 1 := by
    rw [hQ, hR, diagonal_mul_diagonal, ← diagonal_one]; congr 1; ext i; exact mul_inv_cancel₀ (hq0 i)
  have hRQ : R * Q = 1 := mul_eq_one_comm.1 hQR
  have hRs : Rᴴ = R := by
    rw [hR, diagonal_conjTranspose]; congr 1; ext i; simp [hq]
  set Λ := diagonal (fun i => (l i : ℂ)) with hΛ
  -- the returned matrix is Q⁻¹ Uᴴ K
  have hKg : Uᴴ * K * g * Kᴴ = Λ * Uᴴ := by
    have h1 : K * g * Kᴴ = U * Λ * Uᴴ := by
      rw [← hMU, Matrix.mul_assoc _ U, hUU', Matrix.mul_one]
    calc Uᴴ * K * g * Kᴴ = Uᴴ * (K * g * Kᴴ) := by simp only [Matrix.mul_assoc]
      _ = (Uᴴ * U) * Λ * Uᴴ := by rw [h1]; simp only [Matrix.mul_assoc]
      _ = Λ * Uᴴ := by rw [hUU, Matrix.one_mul]
  have hgQ : R * Λ = g * Q := by
    rw [hR, hΛ, g_eq, hQ, diagonal_mul_diagonal, diagonal_mul_diagonal]
    congr 1; ext i
    have h1 := hqq i
    have h2 := hel i
    have h3 := hsg i
    field_simp [hq0 i]
    linear_combination -(sgn i : ℂ) * (h1 + h2) - (l i : ℂ) * h3
  have hKh : Kᴴ * (K⁻¹)ᴴ = 1 := by rw [← conjTranspose_mul, hKi', conjTranspose_one]
  have hG : g * (K⁻¹ * U * Q)ᴴ * g = R * Uᴴ * K := by
    have h1 : R * Uᴴ * K * g * Kᴴ = g * Q * Uᴴ := by
      calc R * Uᴴ * K * g * Kᴴ = R * (Uᴴ * K * g * Kᴴ) := by simp only [Matrix.mul_assoc]
        _ = R * Λ * Uᴴ := by rw [hKg]; simp only [Matrix.mul_assoc]
        _ = g * Q * Uᴴ := by rw [hgQ]
    have h2 : R * Uᴴ * K * g = g * Q * Uᴴ * (K⁻¹)ᴴ := by
      rw [← h1, Matrix.mul_assoc _ Kᴴ, hKh, Matrix.mul_one]
    calc g * (K⁻¹ * U * Q)ᴴ * g = g * Q * Uᴴ * (K⁻¹)ᴴ * g := by
          rw [conjTranspose_mul, conjTranspose_mul, hqstar]; simp only [Matrix.mul_assoc]
      _ = R * Uᴴ * K * (g * g) := by rw [← h2]; simp only [Matrix.mul_assoc]
      _ = R * Uᴴ * K := by rw [hgg, Matrix.mul_one]
  rw [hG]
  have hinv : (R * Uᴴ * K) * (K⁻¹ * U * Q) = 1 := by
    calc (R * Uᴴ * K) * (K⁻¹ * U * Q) = R * (Uᴴ * ((K * K⁻¹) * U)) * Q := by simp only [Matrix.mul_assoc]
      _ = 1 := by rw [hKi, Matrix.one_mul, hUU, Matrix.mul_one, hRQ]
  have hGinv : (R * Uᴴ * K)⁻¹ = K⁻¹ * U * Q := inv_eq_right_inv hinv
  refine ⟨?_, ?_, ?_⟩
  · exact (isUnit_iff_isUnit_det _).1 (IsUnit.of_mul_eq_one _ hinv)
  · rw [← g_eq_metric, conjTranspose_mul, conjTranspose_mul, conjTranspose_conjTranspose, hRs]
    calc R * Uᴴ * K * g * (Kᴴ * (U * R)) = R * (Uᴴ * K * g * Kᴴ) * U * R := by simp only [Matrix.mul_assoc]
      _ = R * Λ * (Uᴴ * U) * R := by rw [hKg]; simp only [Matrix.mul_assoc]
      _ = g * (Q * R) := by rw [hUU, Matrix.mul_one, hgQ, Matrix.mul_assoc]
      _ = g := by rw [hQR, Matrix.mul_one]
  · rw [← conjTranspose_nonsing_inv, hGinv, conjTranspose_mul, conjTranspose_mul, hqstar, ← hKD]
    calc Q * (Uᴴ * (K⁻¹)ᴴ) * (Kᴴ * K) * (K⁻¹ * U * Q) = Q * Uᴴ * ((K⁻¹)ᴴ * Kᴴ) * (K * K⁻¹) * U * Q := by
          simp only [Matrix.mul_assoc]
      _ = Q * (Uᴴ * U) * Q := by
          rw [mul_eq_one_comm.1 hKh, hKi]; simp only [Matrix.mul_assoc, Matrix.mul_one, Matrix.one_mul]
      _ = diagonal e := by
          rw [hUU, Matrix.mul_one, hQ, diagonal_mul_diagonal]; congr 1; ext i; exact hqq i

/-- **C41, uniqueness.** The energies do not depend on the numerics: for every two decompositions, eigensolvers and
orders of equal eigenvalues they are the same. -/
theorem C41_unique {chol chol' : Mat N → Option (Mat N)} {eig eig' : Mat N → (Fin N ⊕ Fin N → ℂ) × Mat N}
    {sort sort' : (Fin N ⊕ Fin N → ℂ) → Equiv.Perm (Fin N ⊕ Fin N)} (hchol : IsCholesky chol) (heig : IsEig eig)
    (hsort : IsSort sort) (hchol' : IsCholesky chol') (heig' : IsEig eig') (hsort' : IsSort sort') (D : Mat N)
    (hD : D.PosDef) : (solve chol eig sort D).map Prod.fst = (solve chol' eig' sort' D).map Prod.fst := by
  obtain ⟨K, U, l, h1, h2, h3, h4, h5, h6, _, h7⟩ := solve_eq hchol heig hsort hD
  obtain ⟨K', U', l', h1', h2', h3', h4', h5', h6', _, h7'⟩ := solve_eq hchol' heig' hsort' hD
  have c : ∀ {K U : Mat N} {l : Fin N ⊕ Fin N → ℝ}, Kᴴ * K = D → IsUnit U.det →
      K * g * Kᴴ * U = U * diagonal (fun i => (l i : ℂ)) →
      (Finset.univ.val.map fun i => (l i : ℂ)) = (g * D).charpoly.roots := by
    intro K U l hK hU h
    have := charpoly_eq hU h
    rw [Matrix.mul_assoc, charpoly_mul_comm, Matrix.mul_assoc, hK] at this
    have e1 : (Finset.univ.val.map fun i => Polynomial.X - Polynomial.C (l i : ℂ)) =
        (Finset.univ.val.map fun i => (l i : ℂ)).map fun x : ℂ => Polynomial.X - Polynomial.C x := by
      rw [Multiset.map_map]; rfl
    rw [this, Finset.prod, e1]
    exact (Polynomial.roots_multiset_prod_X_sub_C _).symm
  have e : l = l' := by
    refine Descending.unique h5 h5' ?_
    have := (c h1 h3 h4).trans (c h1' h3' h4').symm
    have e1 : ∀ m : Fin N ⊕ Fin N → ℝ, (Finset.univ.val.map fun i => (m i : ℂ)) =
        (Finset.univ.val.map m).map fun x : ℝ => (x : ℂ) := fun m => by rw [Multiset.map_map]; rfl
    rw [e1, e1] at this
    exact Multiset.map_injective Complex.ofReal_injective this
  rw [h7, h7']
  simp only [Option.map_some]
  rw [e]

/-! ### Examples and the negation -/

namespace ColpaExample

theorem isUnit_det_of_mul {M M' : Mat N} (h : M * M' = 1) : IsUnit M.det :=
  (isUnit_iff_isUnit_det _).1 (IsUnit.of_mul_eq_one _ h)

/-- A positive-definite matrix that is not diagonal. -/
def D1 : Mat 1 := fromBlocks !![2] !![1] !![1] !![2]

theorem D1_posDef : D1.PosDef := by
  refine .of_dotProduct_mulVec_pos ?_ fun x hx => ?_
  · ext i j; rcases i with i | i <;> rcases j with j | j <;> fin_cases i <;> fin_cases j <;> simp [D1]
  · have e : star x ⬝ᵥ (D1 *ᵥ x) = ((‖x (.inl 0)‖ ^ 2 + ‖x (.inr 0)‖ ^ 2 + ‖x (.inl 0) + x (.inr 0)‖ ^ 2 : ℝ) : ℂ) := by
      push_cast
      simp only [← Complex.conj_mul']
      simp [dotProduct, mulVec, D1, Fintype.sum_sum_type]
      ring
    rw [e, Complex.zero_lt_real]
    have : x (.inl 0) ≠ 0 ∨ x (.inr 0) ≠ 0 := by
      by_contra hc
      rw [not_or, not_not, not_not] at hc
      apply hx
      ext i
      rcases i with i | i <;> fin_cases i
      · exact hc.1
      · exact hc.2
    rcases this with h | h
    · have := norm_pos_iff.2 h; positivity
    · have := norm_pos_iff.2 h; positivity

/-- Functions with the contracts exist, so the theorems apply, e.g. to this matrix. -/
example : ∃ (chol : Mat 1 → Option (Mat 1)) (eig : Mat 1 → (Fin 1 ⊕ Fin 1 → ℂ) × Mat 1)
    (sort : (Fin 1 ⊕ Fin 1 → ℂ) → Equiv.Perm (Fin 1 ⊕ Fin 1)), IsCholesky chol ∧ IsOrthoEig eig ∧ IsSort sort ∧
    D1.PosDef ∧ ∃ E G, solve chol eig sort D1 = some (E, G) ∧ BosonDiagonal D1 G E := by
  obtain ⟨chol, h1⟩ := exists_chol (N := 1)
  obtain ⟨eig, h2⟩ := exists_eig (N := 1)
  obtain ⟨sort, h3⟩ := exists_sort (N := 1)
  obtain ⟨E, G, h4, _, h5⟩ := C41_colpa_partial 1 chol eig sort h1 h2 h3 D1 D1_posDef
  exact ⟨chol, eig, sort, h1, h2, h3, D1_posDef, E, G, h4, h5⟩

/-- Normalised eigenvectors of the metric which are not orthogonal: the eigenvalues are repeated. -/
noncomputable def U2 : Mat 2 := fromBlocks !![1, 3 / 5; 0, 4 / 5] 0 0 1

/-- Their eigenvalues. -/
def L2 : Fin 2 ⊕ Fin 2 → ℂ := Sum.elim (fun _ => 1) fun _ => -1

theorem U2_unit : IsUnit U2.det := by
  refine isUnit_det_of_mul (M' := fromBlocks !![1, -3 / 4; 0, 5 / 4] 0 0 1) ?_
  rw [U2, fromBlocks_multiply, ← fromBlocks_one]
  congr 1
  · ext i j; fin_cases i <;> fin_cases j <;> simp [Matrix.mul_apply, Fin.sum_univ_two] <;> norm_num
  all_goals simp

theorem U2_eig : (g : Mat 2) * U2 = U2 * diagonal L2 := by
  rw [show (g : Mat 2) = diagonal L2 from rfl]
  ext i j
  rw [diagonal_mul, mul_diagonal]
  rcases i with i | i <;> rcases j with j | j <;> simp [L2, U2]

theorem U2_norm : ∀ j, ∑ i, ‖U2 i j‖ ^ 2 = 1 := by
  rintro (j | j) <;> fin_cases j <;> simp [U2, Fintype.sum_sum_type, Fin.sum_univ_two] <;> norm_num

theorem L2_descending : Descending fun i => (L2 i).re :=
  ⟨fun _ _ _ => le_refl _, fun _ _ _ => le_refl _, fun _ _ => by simp [L2]⟩

end ColpaExample

open ColpaExample in
/-- **C41 is false** for eigensolvers that return some basis of normalised eigenvectors, which is all that the
documentation of `np.linalg.eig` promises: for the unit matrix the eigenvalues are repeated, the eigenvectors need not
be orthogonal, and then `G` is not a transformation of bosons. -/
theorem C41_eigenbasis_false : ¬ C41_statement fun _ eig => IsEig eig := by
  classical
  intro h
  obtain ⟨chol, h1⟩ := exists_chol (N := 2)
  obtain ⟨eig, h2⟩ := exists_eig (N := 2)
  obtain ⟨sort, h3⟩ := exists_sort (N := 2)
  obtain ⟨E, G, h4, _, h5⟩ := h 2 (Function.update chol 1 (some 1)) (Function.update eig g (L2, U2))
    (Function.update sort L2 1)
    ⟨fun D hD => by
        by_cases hd : D = 1
        · subst hd; exact ⟨1, by simp, by simp⟩
        · rw [Function.update_of_ne hd]; exact h1.ok D hD,
      fun D hD hn => by
        by_cases hd : D = 1
        · subst hd; exact absurd PosDef.one hn
        · rw [Function.update_of_ne hd]; exact h1.fail D hD hn⟩
    (fun M hM => by
        by_cases hd : M = g
        · subst hd; rw [Function.update_self]; exact ⟨U2_eig, U2_unit, U2_norm⟩
        · rw [Function.update_of_ne hd]; exact h2.1 M hM)
    (fun L => by
        by_cases hd : L = L2
        · subst hd; rw [Function.update_self]; exact L2_descending
        · rw [Function.update_of_ne hd]; exact h3 L)
    1 PosDef.one
  have hM : (1 : Mat 2)ᴴ * g * ((1 : Mat 2)ᴴ)ᴴ = g := by simp
  unfold solve at h4
  simp only [Function.update_self, hM, Option.some.injEq, Prod.mk.injEq] at h4
  have hE : (diagonal ((g : Mat 2) *ᵥ fun i => L2 ((1 : Equiv.Perm (Fin 2 ⊕ Fin 2)) i))).map csqrt = 1 := by
    rw [diagonal_map csqrt_zero, ← diagonal_one]
    congr 1
    ext i
    rw [show (g : Mat 2) = diagonal L2 from rfl, mulVec_diagonal]
    have : csqrt 1 = 1 := by simp [csqrt]
    rcases i with i | i <;> simp [L2, this]
  have hG := h4.2
  rw [hE] at hG
  have hb := h5.bosons
  rw [← hG] at hb
  have := congrFun (congrFun hb (.inl 0)) (.inl 1)
  simp [bosonMetric, fromBlocks_multiply, U2, Matrix.mul_apply, toBlocks₁₁, toBlocks₁₂, toBlocks₂₁, toBlocks₂₂,
    Fintype.sum_sum_type, Fin.sum_univ_two, conjTranspose_apply] at this

end Magnopy
