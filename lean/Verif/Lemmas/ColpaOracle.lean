import Verif.Lemmas.Colpa
import Mathlib.Analysis.Matrix.Spectrum
import Mathlib.Analysis.Matrix.PosDef
import Mathlib.Data.Fin.Tuple.Sort
import Mathlib.LinearAlgebra.Matrix.Charpoly.Basic

/-!
# Helper lemmas: functions with the contracts of numpy exist, uniqueness of the energies
-/

set_option autoImplicit false
set_option linter.unusedSectionVars false

namespace Magnopy

open Matrix ComplexOrder

namespace Colpa

open MagnonObj (Mat)

variable {N : ℕ}

theorem exists_spectral (M : Mat N) (hM : M.IsHermitian) :
    ∃ U : Mat N, Uᴴ * U = 1 ∧ M * U = U * diagonal fun i => ((hM.eigenvalues i : ℝ) : ℂ) := by
  refine ⟨hM.eigenvectorUnitary, ?_, ?_⟩
  · exact (Matrix.mem_unitaryGroup_iff'.1 hM.eigenvectorUnitary.2)
  · have h := hM.spectral_theorem
    have hu : (hM.eigenvectorUnitary : Mat N)ᴴ * hM.eigenvectorUnitary = 1 :=
      Matrix.mem_unitaryGroup_iff'.1 hM.eigenvectorUnitary.2
    rw [Unitary.conjStarAlgAut_apply] at h
    have h2 := congrArg (fun X => X * (hM.eigenvectorUnitary : Mat N)) h
    rw [Matrix.mul_assoc] at h2
    have : star (hM.eigenvectorUnitary : Mat N) * (hM.eigenvectorUnitary : Mat N) = 1 := hu
    rw [this, Matrix.mul_one] at h2
    exact h2

theorem exists_eig : ∃ eig : Mat N → (Fin N ⊕ Fin N → ℂ) × Mat N, IsOrthoEig eig := by
  classical
  have key : ∀ M : Mat N, ∃ p : (Fin N ⊕ Fin N → ℂ) × Mat N, M.IsHermitian → M * p.2 = p.2 * diagonal p.1 ∧ p.2ᴴ * p.2 = 1 := by
    intro M
    by_cases hM : M.IsHermitian
    · obtain ⟨U, h1, h2⟩ := exists_spectral M hM
      exact ⟨(_, U), fun _ => ⟨h2, h1⟩⟩
    · exact ⟨(0, 0), fun h => absurd h hM⟩
  choose eig h using key
  refine ⟨eig, fun M hM => ⟨(h M hM).1, ?_, fun j => ?_⟩, fun M hM => (h M hM).2⟩
  · have := congrArg Matrix.det (h M hM).2
    rw [det_mul, det_one, mul_comm] at this
    exact IsUnit.of_mul_eq_one _ this
  · have := congrFun (congrFun (h M hM).2 j) j
    rw [Matrix.mul_apply] at this
    simp only [conjTranspose_apply, one_apply_eq, Complex.star_def, ← Complex.normSq_eq_conj_mul_self,
      Complex.normSq_eq_norm_sq] at this
    exact_mod_cast this

theorem exists_chol : ∃ chol : Mat N → Option (Mat N), IsCholesky chol := by
  classical
  have key : ∀ D : Mat N, ∃ F : Mat N, D.PosDef → F * Fᴴ = D := by
    intro D
    by_cases hD : D.PosDef
    · obtain ⟨U, h1, h2⟩ := exists_spectral D hD.1
      have h1' : U * Uᴴ = 1 := mul_eq_one_comm.1 h1
      refine ⟨U * diagonal fun i => ((Real.sqrt (hD.1.eigenvalues i) : ℝ) : ℂ), fun _ => ?_⟩
      rw [conjTranspose_mul, diagonal_conjTranspose]
      have h3 : (diagonal fun i => ((Real.sqrt (hD.1.eigenvalues i) : ℝ) : ℂ)) *
          diagonal (star fun i => ((Real.sqrt (hD.1.eigenvalues i) : ℝ) : ℂ)) =
          diagonal fun i => ((hD.1.eigenvalues i : ℝ) : ℂ) := by
        rw [diagonal_mul_diagonal]
        congr 1
        ext i
        simp only [Pi.star_apply, Complex.star_def, Complex.conj_ofReal]
        rw [← Complex.ofReal_mul, Real.mul_self_sqrt (hD.posSemidef.eigenvalues_nonneg i)]
      rw [Matrix.mul_assoc, ← Matrix.mul_assoc (diagonal _), h3, ← Matrix.mul_assoc, ← h2, Matrix.mul_assoc, h1',
        Matrix.mul_one]
    · exact ⟨0, fun h => absurd h hD⟩
  choose F hF using key
  exact ⟨fun D => if D.PosDef then some (F D) else none, fun D hD => ⟨F D, if_pos hD, hF D hD⟩,
    fun D _ hD => if_neg hD⟩

/-- The order of the indices in an array of length `2N`. -/
theorem descending_iff (x : Fin N ⊕ Fin N → ℝ) : Descending x ↔ Antitone (x ∘ finSumFinEquiv.symm) := by
  have hl : ∀ i : Fin N, finSumFinEquiv.symm (Fin.castAdd N i) = Sum.inl i := finSumFinEquiv_symm_apply_castAdd
  have hr : ∀ i : Fin N, finSumFinEquiv.symm (Fin.natAdd N i) = Sum.inr i := finSumFinEquiv_symm_apply_natAdd
  constructor
  · intro h a b hab
    induction a using Fin.addCases with
    | left i =>
      induction b using Fin.addCases with
      | left j => simp only [Function.comp, hl]; exact h.first i j hab
      | right j => simp only [Function.comp, hl, hr]; exact h.across i j
    | right i =>
      induction b using Fin.addCases with
      | left j =>
        exfalso
        have h1 : (Fin.natAdd N i : Fin (N + N)).1 ≤ (Fin.castAdd N j : Fin (N + N)).1 := hab
        simp at h1
        omega
      | right j => simp only [Function.comp, hr]; exact h.last i j (by simpa using hab)
  · intro h
    refine ⟨fun i j hij => ?_, fun i j hij => ?_, fun i j => ?_⟩
    · have := h (show Fin.castAdd N i ≤ Fin.castAdd N j from hij)
      simpa [Function.comp, hl] using this
    · have := h (show Fin.natAdd N i ≤ Fin.natAdd N j by simpa using hij)
      simp only [Function.comp, hr] at this; exact this
    · have := h (show Fin.castAdd N i ≤ Fin.natAdd N j by
        show (Fin.castAdd N i : Fin (N + N)).1 ≤ (Fin.natAdd N j : Fin (N + N)).1
        simp; omega)
      simp only [Function.comp, hl, hr] at this; exact this

theorem exists_sort : ∃ sort : (Fin N ⊕ Fin N → ℂ) → Equiv.Perm (Fin N ⊕ Fin N), IsSort sort := by
  have key : ∀ L : Fin N ⊕ Fin N → ℂ, ∃ σ : Equiv.Perm (Fin N ⊕ Fin N), Descending fun i => (L (σ i)).re := by
    intro L
    let f : Fin (N + N) → ℝ := fun i => -(L (finSumFinEquiv.symm i)).re
    refine ⟨finSumFinEquiv.trans ((Tuple.sort f).trans finSumFinEquiv.symm), ?_⟩
    rw [descending_iff]
    intro a b hab
    have := Tuple.monotone_sort f hab
    simp only [Function.comp, f, neg_le_neg_iff] at this
    simpa [Function.comp] using this
  choose sort h using key
  exact ⟨sort, h⟩

/-- Two descending arrays with the same entries are equal. -/
theorem Descending.unique {x y : Fin N ⊕ Fin N → ℝ} (hx : Descending x) (hy : Descending y)
    (h : (Finset.univ.val.map x) = Finset.univ.val.map y) : x = y := by
  rw [descending_iff] at hx hy
  have hu : ∀ z : Fin N ⊕ Fin N → ℝ, Finset.univ.val.map z = (List.ofFn (z ∘ finSumFinEquiv.symm) : Multiset ℝ) := by
    intro z
    rw [← Fin.univ_val_map, ← Multiset.map_map]
    congr 1
    have := Finset.map_univ_equiv (finSumFinEquiv (m := N) (n := N)).symm
    exact (congrArg Finset.val this).symm
  rw [hu, hu] at h
  have hp := Multiset.coe_eq_coe.1 h
  have hs : ∀ {f : Fin (N + N) → ℝ}, Antitone f → (List.ofFn f).SortedGE := fun hf => List.sortedGE_ofFn_iff.2 hf
  have := List.ofFn_injective (hp.eq_of_sortedGE (hs hx) (hs hy))
  ext i
  have h2 := congrFun this (finSumFinEquiv i)
  simpa using h2

theorem charpoly_eq {M U : Mat N} {l : Fin N ⊕ Fin N → ℂ} (hU : IsUnit U.det) (h : M * U = U * diagonal l) :
    M.charpoly = ∏ i, (Polynomial.X - Polynomial.C (l i)) := by
  have hM : M = U * diagonal l * U⁻¹ := by rw [← h, Matrix.mul_assoc, mul_nonsing_inv U hU, Matrix.mul_one]
  rw [hM, charpoly_mul_comm, ← Matrix.mul_assoc, nonsing_inv_mul U hU, Matrix.one_mul, charpoly_diagonal]

end Colpa
end Magnopy
