import Verif.Lemmas.Omega
import Mathlib.Analysis.Matrix.Order
import Mathlib.LinearAlgebra.Matrix.Charpoly.Eigs

/-!
# Helper lemmas: the lowest energy of a shifted positive-semidefinite matrix
-/

set_option autoImplicit false
set_option linter.unusedSectionVars false

namespace Magnopy

open Matrix ComplexOrder

namespace Colpa

open MagnonObj (Mat)

variable {N : ℕ}

/-- The sum of the squared moduli. -/
noncomputable def sqNorm {n : ℕ} (x : Fin n → ℂ) : ℝ := ∑ i, Complex.normSq (x i)

theorem sqNorm_nonneg {n : ℕ} (x : Fin n → ℂ) : 0 ≤ sqNorm x := Finset.sum_nonneg fun _ _ => Complex.normSq_nonneg _

theorem sqNorm_eq_zero {n : ℕ} {x : Fin n → ℂ} (h : sqNorm x = 0) : x = 0 := by
  funext i
  have := (Finset.sum_eq_zero_iff_of_nonneg fun i _ => Complex.normSq_nonneg (x i)).1 h i (Finset.mem_univ _)
  exact Complex.normSq_eq_zero.1 this

theorem star_dot_self (z : Fin N ⊕ Fin N → ℂ) :
    star z ⬝ᵥ z = ((sqNorm (z ∘ Sum.inl) + sqNorm (z ∘ Sum.inr) : ℝ) : ℂ) := by
  simp only [dotProduct, Fintype.sum_sum_type, sqNorm, Pi.star_apply, RCLike.star_def, Function.comp]
  push_cast
  simp only [Complex.normSq_eq_conj_mul_self]

theorem star_dot_g (z : Fin N ⊕ Fin N → ℂ) :
    star z ⬝ᵥ (g *ᵥ z) = ((sqNorm (z ∘ Sum.inl) - sqNorm (z ∘ Sum.inr) : ℝ) : ℂ) := by
  rw [g_eq]
  simp only [dotProduct, mulVec_diagonal, Fintype.sum_sum_type, sqNorm, Pi.star_apply, RCLike.star_def, Function.comp,
    sgn, Sum.elim_inl, Sum.elim_inr]
  push_cast
  simp only [Complex.normSq_eq_conj_mul_self, sub_eq_add_neg, ← Finset.sum_neg_distrib]
  congr 1 <;> exact Finset.sum_congr rfl fun i _ => by ring

/-- A positive energy of `h + x`, `h` positive semidefinite, is at least `x`; it is `x` only for zero modes of `h`
without creation operators. -/
theorem shifted_energy {h : Mat N} (hh : h.PosSemidef) {x l : ℝ} (hx : 0 < x) (hl : 0 < l) {z : Fin N ⊕ Fin N → ℂ}
    (hz : z ≠ 0) (he : MagnonObj.shift h x *ᵥ z = (l : ℂ) • g *ᵥ z) :
    x ≤ l ∧ (l = x → h *ᵥ z = 0 ∧ z ∘ Sum.inr = 0) := by
  set a := sqNorm (z ∘ Sum.inl) with ha
  set b := sqNorm (z ∘ Sum.inr) with hb
  have ha0 : 0 ≤ a := sqNorm_nonneg _
  have hb0 : 0 ≤ b := sqNorm_nonneg _
  have hab : 0 < a + b := by
    rcases (add_nonneg ha0 hb0).lt_or_eq with h0 | h0
    · exact h0
    · refine absurd ?_ hz
      have h1 := sqNorm_eq_zero (show sqNorm (z ∘ Sum.inl) = 0 by linarith)
      have h2 := sqNorm_eq_zero (show sqNorm (z ∘ Sum.inr) = 0 by linarith)
      funext i
      rcases i with i | i
      · exact congrFun h1 i
      · exact congrFun h2 i
  have hq := hh.dotProduct_mulVec_nonneg z
  obtain ⟨hq1, hq2⟩ := Complex.nonneg_iff.1 hq
  set q := (star z ⬝ᵥ (h *ᵥ z)).re with hqd
  have hqc : star z ⬝ᵥ (h *ᵥ z) = (q : ℂ) := Complex.ext rfl hq2.symm
  have key : q + x * (a + b) = l * (a - b) := by
    have := congrArg (fun y => star z ⬝ᵥ y) he
    have hd : (diagonal fun _ : Fin N ⊕ Fin N => (x : ℂ)) *ᵥ z = (x : ℂ) • z := by
      funext i
      simp [mulVec_diagonal]
    simp only [MagnonObj.shift, add_mulVec, dotProduct_add, hqc, hd, dotProduct_smul, star_dot_self, star_dot_g,
      smul_eq_mul] at this
    exact_mod_cast this
  have hpos : 0 < a - b := by
    by_contra hc
    have : l * (a - b) ≤ 0 := mul_nonpos_of_nonneg_of_nonpos hl.le (not_lt.1 hc)
    have := mul_pos hx hab
    linarith
  have h1 : x ≤ l := by
    by_contra hc
    have := mul_lt_mul_of_pos_right (not_le.1 hc) hpos
    have := mul_nonneg hx.le hb0
    nlinarith
  refine ⟨h1, fun e => ?_⟩
  rw [e] at key
  have hb2 : b = 0 := by
    have := mul_nonneg hx.le hb0
    have h2 : x * b = 0 := by nlinarith
    exact (mul_eq_zero.1 h2).resolve_left hx.ne'
  have hq0 : q = 0 := by rw [hb2] at key; linarith
  refine ⟨?_, sqNorm_eq_zero hb2⟩
  rw [← hh.dotProduct_mulVec_zero_iff, hqc, hq0, Complex.ofReal_zero]

/-- The energies of `solve` belong to vectors. -/
theorem exists_vector {D K U : Mat N} {l : Fin N ⊕ Fin N → ℝ} (hK : Kᴴ * K = D) (hKu : IsUnit K.det) (hU : IsUnit U.det)
    (h : K * g * Kᴴ * U = U * diagonal (fun i => (l i : ℂ))) (i : Fin N ⊕ Fin N) :
    ∃ z, z ≠ 0 ∧ D *ᵥ z = (l i : ℂ) • g *ᵥ z := by
  have hgg : (g : Mat N) * g = 1 := by
    rw [g_eq, diagonal_mul_diagonal, ← diagonal_one]
    congr 1
    funext j
    rcases j with j | j <;> simp [sgn]
  let y : Fin N ⊕ Fin N → ℂ := fun r => U r i
  have hy : (K * g * Kᴴ) *ᵥ y = (l i : ℂ) • y := by
    funext r
    have := congrFun (congrFun h r) i
    rw [mul_diagonal, mul_apply] at this
    rw [Pi.smul_apply, smul_eq_mul, mul_comm (l i : ℂ)]
    exact this
  have hy0 : y ≠ 0 := by
    intro h0
    have : U.det = 0 := det_eq_zero_of_column_eq_zero i fun r => congrFun h0 r
    rw [this] at hU
    exact not_isUnit_zero hU
  refine ⟨g *ᵥ (Kᴴ *ᵥ y), fun h0 => hy0 ?_, ?_⟩
  · have hKh : IsUnit (Kᴴ : Mat N) := (isUnit_iff_isUnit_det _).2 (by rw [det_conjTranspose]; exact hKu.star)
    have h1 : Kᴴ *ᵥ y = 0 := by
      have := congrArg (fun v => (g : Mat N) *ᵥ v) h0
      simpa [mulVec_mulVec, ← Matrix.mul_assoc, hgg] using this
    have := congrArg (fun v => (Kᴴ)⁻¹ *ᵥ v) h1
    rw [mulVec_mulVec, nonsing_inv_mul _ ((isUnit_iff_isUnit_det _).1 hKh), one_mulVec, mulVec_zero] at this
    exact this
  · have e : D *ᵥ (g *ᵥ (Kᴴ *ᵥ y)) = Kᴴ *ᵥ ((K * g * Kᴴ) *ᵥ y) := by
      rw [← hK]; simp only [mulVec_mulVec, Matrix.mul_assoc]
    rw [e, hy, mulVec_smul]
    congr 1
    rw [mulVec_mulVec, hgg, one_mulVec]

/-- Vectors belong to energies. -/
theorem exists_energy {D K U : Mat N} {l : Fin N ⊕ Fin N → ℝ} (hK : Kᴴ * K = D) (hU : IsUnit U.det)
    (h : K * g * Kᴴ * U = U * diagonal (fun i => (l i : ℂ))) {x : ℝ} {z : Fin N ⊕ Fin N → ℂ} (hz : z ≠ 0)
    (he : D *ᵥ z = (x : ℂ) • g *ᵥ z) : ∃ i, l i = x := by
  have hgg : (g : Mat N) * g = 1 := by
    rw [g_eq, diagonal_mul_diagonal, ← diagonal_one]
    congr 1
    funext j
    rcases j with j | j <;> simp [sgn]
  have he' : (g * D) *ᵥ z = (x : ℂ) • z := by
    rw [← mulVec_mulVec, he, mulVec_smul, mulVec_mulVec, hgg, one_mulVec]
  have hr : (x : ℂ) ∈ (g * D).charpoly.roots := by
    rw [Polynomial.mem_roots (charpoly_monic _).ne_zero, Polynomial.IsRoot, eval_charpoly,
      ← exists_mulVec_eq_zero_iff]
    refine ⟨z, hz, ?_⟩
    rw [sub_mulVec, he', scalar_apply, sub_eq_zero]
    funext i
    simp [mulVec_diagonal]
  rw [← roots_gD hK hU h] at hr
  obtain ⟨i, _, hi⟩ := Multiset.mem_map.1 hr
  exact ⟨i, Complex.ofReal_injective hi⟩

/-- The energies of a positive-semidefinite matrix shifted by `x`: none is below `x`, and the lowest is `x` exactly if
there is a zero mode without creation operators. -/
theorem solve_shift {chol : Mat N → Option (Mat N)} {eig : Mat N → (Fin N ⊕ Fin N → ℂ) × Mat N}
    {sort : (Fin N ⊕ Fin N → ℂ) → Equiv.Perm (Fin N ⊕ Fin N)} (hchol : IsCholesky chol) (heig : IsEig eig)
    (hsort : IsSort sort) {h : Mat N} (hh : h.PosSemidef) {x : ℝ} (hx : 0 < x) :
    ∃ (e : Fin N ⊕ Fin N → ℝ) (G : Mat N),
      solve chol eig sort (MagnonObj.shift h x) = some (fun i => (e i : ℂ), G) ∧
      (∀ i : Fin N, x ≤ e (.inl i)) ∧ (∀ i j : Fin N, i ≤ j → e (.inl j) ≤ e (.inl i)) ∧
      ((∃ i : Fin N, e (.inl i) = x) ↔ ∃ a : Fin N → ℂ, a ≠ 0 ∧ h *ᵥ Sum.elim a 0 = 0) := by
  have hD : (MagnonObj.shift h x).PosDef := (MagnonObj.posDef_const hx).posSemidef_add hh
  obtain ⟨K, U, l, h1, h2, h3, h4, h5, h6, _, h7⟩ := solve_eq hchol heig hsort hD
  have hs : ∀ i : Fin N, sgn (.inl i : Fin N ⊕ Fin N) = 1 := fun _ => rfl
  refine ⟨fun i => sgn i * l i, _, h7, fun i => ?_, fun i j hij => ?_, ⟨?_, ?_⟩⟩
  · obtain ⟨z, hz, he⟩ := exists_vector h1 h2 h3 h4 (.inl i)
    have := h6 (.inl i)
    simp only [hs, one_mul] at this ⊢
    exact (shifted_energy hh hx this hz he).1
  · simp only [hs, one_mul]
    exact h5.first i j hij
  · rintro ⟨i, hi⟩
    obtain ⟨z, hz, he⟩ := exists_vector h1 h2 h3 h4 (.inl i)
    have hp := h6 (.inl i)
    simp only [hs, one_mul] at hp hi
    obtain ⟨e1, e2⟩ := (shifted_energy hh hx hp hz he).2 hi
    have ez : z = Sum.elim (z ∘ Sum.inl) 0 := by
      funext j
      rcases j with j | j
      · rfl
      · exact congrFun e2 j
    refine ⟨z ∘ Sum.inl, fun h0 => hz ?_, ez ▸ e1⟩
    rw [ez, h0]
    funext j
    rcases j with j | j <;> rfl
  · rintro ⟨a, ha, hz⟩
    have hz0 : (Sum.elim a 0 : Fin N ⊕ Fin N → ℂ) ≠ 0 := by
      intro h0
      exact ha (funext fun i => congrFun h0 (.inl i))
    have he : MagnonObj.shift h x *ᵥ (Sum.elim a 0) = (x : ℂ) • g *ᵥ (Sum.elim a 0) := by
      rw [MagnonObj.shift, add_mulVec, hz, zero_add, g_eq]
      funext i
      rcases i with i | i <;> simp [mulVec_diagonal, sgn]
    obtain ⟨i, hi⟩ := exists_energy h1 h3 h4 hz0 he
    rcases i with i | i
    · exact ⟨i, by simp only [hs, one_mul]; exact hi⟩
    · have := h6 (.inr i)
      rw [hi] at this
      simp only [sgn, Sum.elim_inr] at this
      linarith

end Colpa

end Magnopy
