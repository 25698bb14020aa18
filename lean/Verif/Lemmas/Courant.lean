import Verif.Props.Omega
import Mathlib.LinearAlgebra.Matrix.NonsingularInverse
import Mathlib.LinearAlgebra.FiniteDimensional.Basic

/-!
# Lemmas: comparison of the energies of two positive-definite matrices
-/

set_option autoImplicit false
set_option linter.unusedSectionVars false

namespace Magnopy

open Matrix ComplexOrder Magnopy.Colpa
open MagnonObj (Mat)

variable {N : ℕ}

/-- Fewer equations than unknowns: a vector of the one subspace that is in the other as well. -/
theorem common_vector {ι : Type*} [Fintype ι] [DecidableEq ι] {Y Y' : Matrix ι ι ℂ} (hY : IsUnit Y.det) (hY' : IsUnit Y'.det)
    (P P' : ι → Prop) [DecidablePred P] [DecidablePred P'] (hc : Fintype.card {j // ¬ P j} < Fintype.card {j // P' j}) :
    ∃ c c' : ι → ℂ, c' ≠ 0 ∧ (∀ j, ¬ P j → c j = 0) ∧ (∀ j, ¬ P' j → c' j = 0) ∧ Y *ᵥ c = Y' *ᵥ c' := by
  let ext : ({j // P' j} → ℂ) →ₗ[ℂ] (ι → ℂ) :=
    { toFun := fun u j => if h : P' j then u ⟨j, h⟩ else 0
      map_add' := fun u v => by funext j; by_cases h : P' j <;> simp [h]
      map_smul' := fun a u => by funext j; by_cases h : P' j <;> simp [h] }
  let f : ({j // P' j} → ℂ) →ₗ[ℂ] ({j // ¬ P j} → ℂ) :=
    (LinearMap.funLeft ℂ ℂ Subtype.val) ∘ₗ (Matrix.toLin' (Y⁻¹ * Y')) ∘ₗ ext
  have hk : LinearMap.ker f ≠ ⊥ := LinearMap.ker_ne_bot_of_finrank_lt (by
    rw [Module.finrank_fintype_fun_eq_card, Module.finrank_fintype_fun_eq_card]; exact hc)
  obtain ⟨u, hu, hu0⟩ := Submodule.exists_mem_ne_zero_of_ne_bot hk
  refine ⟨(Y⁻¹ * Y') *ᵥ ext u, ext u, fun h => hu0 ?_, fun j hj => ?_, fun j hj => ?_, ?_⟩
  · funext j
    have := congrFun h j.1
    simpa [ext, j.2] using this
  · have := congrFun (LinearMap.mem_ker.1 hu) ⟨j, hj⟩
    simpa [f, LinearMap.funLeft] using this
  · simp [ext, hj]
  · rw [mulVec_mulVec, ← Matrix.mul_assoc, mul_nonsing_inv _ hY, Matrix.one_mul]

/-- The form of a matrix that is diagonal in the columns of `Y`. -/
theorem form_diagonal {ι : Type*} [Fintype ι] [DecidableEq ι] {Y M : Matrix ι ι ℂ} {d : ι → ℝ}
    (h : Yᴴ * M * Y = diagonal fun i => (d i : ℂ)) (c : ι → ℂ) :
    star (Y *ᵥ c) ⬝ᵥ (M *ᵥ (Y *ᵥ c)) = ((∑ i, d i * Complex.normSq (c i) : ℝ) : ℂ) := by
  have : star (Y *ᵥ c) ⬝ᵥ (M *ᵥ (Y *ᵥ c)) = star c ⬝ᵥ ((Yᴴ * M * Y) *ᵥ c) := by
    rw [star_mulVec, ← dotProduct_mulVec, mulVec_mulVec, mulVec_mulVec, Matrix.mul_assoc]
  rw [this, h]
  simp only [mulVec_diagonal, dotProduct, Pi.star_apply, Complex.ofReal_sum, Complex.ofReal_mul, Complex.normSq_eq_conj_mul_self,
    RCLike.star_def]
  refine Finset.sum_congr rfl fun i _ => by ring

/-- Positive numbers in the order of the energies, and vectors that diagonalise the matrix and the metric of bosons. -/
structure Diag (D Y : Mat N) (e : Fin N ⊕ Fin N → ℝ) : Prop where
  unit : IsUnit Y.det
  energy : Yᴴ * D * Y = diagonal fun i => ((e i ^ 2 : ℝ) : ℂ)
  metric : Yᴴ * g * Y = diagonal fun i => ((sgn i * e i : ℝ) : ℂ)
  motion : g * D * Y = Y * diagonal fun i => ((sgn i * e i : ℝ) : ℂ)
  pos : ∀ i, 0 < e i
  first : ∀ i j : Fin N, i ≤ j → e (.inl j) ≤ e (.inl i)
  last : ∀ i j : Fin N, i ≤ j → e (.inr i) ≤ e (.inr j)

/-- The modes of a positive-definite matrix: the numbers are the energies that `solve_via_colpa` returns for every correct
linear algebra. -/
structure Modes (D Y : Mat N) (e : Fin N ⊕ Fin N → ℝ) : Prop extends Diag D Y e where
  trace : ∑ i, e i ≤ (D.trace).re
  solve : ∀ (chol : Mat N → Option (Mat N)) (eig : Mat N → (Fin N ⊕ Fin N → ℂ) × Mat N)
    (sort : (Fin N ⊕ Fin N → ℂ) → Equiv.Perm (Fin N ⊕ Fin N)), IsCholesky chol → IsEig eig → IsSort sort →
    (Colpa.solve chol eig sort D).map Prod.fst = some fun i => (e i : ℂ)

theorem sgn_sq (i : Fin N ⊕ Fin N) : sgn i * sgn i = 1 := by cases i <;> simp [sgn]

theorem g_star : (g : Mat N)ᴴ = g := by
  rw [g_eq, diagonal_conjTranspose]
  congr 1
  funext i
  simp

theorem g_mul_g : (g : Mat N) * g = 1 := by
  rw [g_eq, diagonal_mul_diagonal, ← diagonal_one]
  congr 1
  funext i
  rw [← Complex.ofReal_mul, sgn_sq, Complex.ofReal_one]

theorem exists_modes {D : Mat N} (hD : D.PosDef) : ∃ Y e, Modes D Y e := by
  obtain ⟨chol, hchol⟩ := exists_chol (N := N)
  obtain ⟨eig, heig⟩ := exists_eig (N := N)
  obtain ⟨sort, hsort⟩ := exists_sort (N := N)
  obtain ⟨K, U, l, hKD, hK, hU, hMU, hd, hs, ho, h⟩ := solve_eq hchol heig.1 hsort hD
  have hUU := ho heig
  have he : ∀ i, sgn i * (sgn i * l i) = l i := fun i => by rw [← mul_assoc, sgn_sq, one_mul]
  have hY : (g * Kᴴ * U)ᴴ = Uᴴ * K * g := by
    rw [conjTranspose_mul, conjTranspose_mul, conjTranspose_conjTranspose, g_star, Matrix.mul_assoc]
  have hM : Uᴴ * (K * g * Kᴴ) * U = diagonal fun i => (l i : ℂ) := by
    rw [Matrix.mul_assoc, hMU, ← Matrix.mul_assoc, hUU, Matrix.one_mul]
  refine ⟨g * Kᴴ * U, fun i => sgn i * l i, ⟨⟨?_, ?_, ?_, ?_, hs, fun i j hij => by simpa [sgn] using hd.first i j hij,
    fun i j hij => by simpa [sgn] using hd.last i j hij⟩, ?_, fun chol' eig' sort' hc he hso => ?_⟩⟩
  · have hg : IsUnit (g : Mat N).det := (isUnit_iff_isUnit_det _).1 (IsUnit.of_mul_eq_one _ g_mul_g)
    rw [det_mul, det_mul, det_conjTranspose]
    exact (hg.mul hK.star).mul hU
  · have : (g * Kᴴ * U)ᴴ * D * (g * Kᴴ * U) = Uᴴ * (K * g * Kᴴ) * (K * g * Kᴴ * U) := by
      rw [hY, ← hKD]; simp only [Matrix.mul_assoc]
    rw [this, hMU, ← Matrix.mul_assoc, hM, diagonal_mul_diagonal]
    congr 1
    funext i
    rw [← Complex.ofReal_mul]
    congr 1
    rw [mul_pow, sq (sgn i), sgn_sq]; ring
  · have : (g * Kᴴ * U)ᴴ * g * (g * Kᴴ * U) = Uᴴ * (K * (g * g) * (g * Kᴴ)) * U := by
      rw [hY]; simp only [Matrix.mul_assoc]
    rw [this, g_mul_g, Matrix.mul_one, ← Matrix.mul_assoc K, hM]
    simp only [he]
  · simp only [he]
    rw [← hKD, Matrix.mul_assoc (g * Kᴴ) U, ← hMU]
    simp only [Matrix.mul_assoc]
  · have htr : D.trace = ∑ i, star (fun a => (Kᴴ * U) a i) ⬝ᵥ fun a => (Kᴴ * U) a i := by
      have e1 : D.trace = ((Kᴴ * U)ᴴ * (Kᴴ * U)).trace := by
        rw [conjTranspose_mul, conjTranspose_conjTranspose, trace_mul_comm, Matrix.mul_assoc, ← Matrix.mul_assoc U,
          mul_eq_one_comm.1 hUU, Matrix.one_mul, hKD]
      rw [e1, Matrix.trace]
      refine Finset.sum_congr rfl fun i _ => ?_
      rw [diag_apply, Matrix.mul_apply]
      rfl
    rw [htr, Complex.re_sum]
    refine Finset.sum_le_sum fun i _ => ?_
    have hl : (l i : ℂ) = ∑ a, (sgn a : ℂ) * (Complex.normSq ((Kᴴ * U) a i) : ℂ) := by
      have := congrFun (congrFun hM i) i
      rw [diagonal_apply_eq] at this
      rw [← this]
      have e2 : Uᴴ * (K * g * Kᴴ) * U = (Kᴴ * U)ᴴ * (g * (Kᴴ * U)) := by
        rw [conjTranspose_mul, conjTranspose_conjTranspose]; simp only [Matrix.mul_assoc]
      rw [e2, Matrix.mul_apply]
      refine Finset.sum_congr rfl fun a _ => ?_
      rw [g_eq, diagonal_mul, conjTranspose_apply, Complex.normSq_eq_conj_mul_self, RCLike.star_def]
      ring
    have hl' : l i = ∑ a, sgn a * Complex.normSq ((Kᴴ * U) a i) := by exact_mod_cast hl
    have hr : (star (fun a => (Kᴴ * U) a i) ⬝ᵥ fun a => (Kᴴ * U) a i).re = ∑ a, Complex.normSq ((Kᴴ * U) a i) := by
      rw [dotProduct, Complex.re_sum]
      refine Finset.sum_congr rfl fun a _ => ?_
      simp [Complex.normSq_apply]
    rw [hl', hr, Finset.mul_sum]
    refine Finset.sum_le_sum fun a _ => ?_
    rw [← mul_assoc]
    have : sgn i * sgn a ≤ 1 := by cases i <;> cases a <;> norm_num [sgn]
    nlinarith [Complex.normSq_nonneg ((Kᴴ * U) a i)]
  · rw [C41_unique hc he hso hchol heig.1 hsort D hD, h, Option.map_some]

/-- **Comparison.** A larger matrix has higher energies. -/
theorem Diag.mono {D D' Y Y' : Mat N} {e e' : Fin N ⊕ Fin N → ℝ} (h : Diag D Y e) (h' : Diag D' Y' e')
    (hle : (D' - D).PosSemidef) (i : Fin N ⊕ Fin N) : e i ≤ e' i := by
  classical
  have key : ∀ x : Fin N ⊕ Fin N → ℂ, (star x ⬝ᵥ (D *ᵥ x)).re ≤ (star x ⬝ᵥ (D' *ᵥ x)).re := by
    intro x
    have := (Complex.nonneg_iff.1 (hle.dotProduct_mulVec_nonneg x)).1
    rw [sub_mulVec, dotProduct_sub, Complex.sub_re] at this
    linarith
  have gen : ∀ P P' : Fin N ⊕ Fin N → Prop, ∀ [DecidablePred P] [DecidablePred P'],
      Fintype.card {j // ¬ P j} < Fintype.card {j // P' j} →
      (∀ j, P j → e i * (sgn i * sgn j * e j) ≤ e j ^ 2) → (∀ j, P' j → sgn j = sgn i ∧ e' j ≤ e' i) → e i ≤ e' i := by
    intro P P' _ _ hc hP hP'
    obtain ⟨c, c', h0, h1, h2, h3⟩ := common_vector h.unit h'.unit P P' hc
    have f1 := form_diagonal h.energy c
    have f2 := form_diagonal h.metric c
    have f1' := form_diagonal h'.energy c'
    have f2' := form_diagonal h'.metric c'
    have k := key (Y *ᵥ c)
    rw [f1, h3, f1', Complex.ofReal_re, Complex.ofReal_re] at k
    rw [h3, f2'] at f2
    have f3 : ∑ j, sgn j * e' j * Complex.normSq (c' j) = ∑ j, sgn j * e j * Complex.normSq (c j) := by exact_mod_cast f2
    -- the form of the metric is positive
    obtain ⟨j0, hj0⟩ := Function.ne_iff.1 h0
    have hp0 : P' j0 := by by_contra hn; exact hj0 (h2 j0 hn)
    have hpos : 0 < sgn i * ∑ j, sgn j * e' j * Complex.normSq (c' j) := by
      rw [Finset.mul_sum]
      refine Finset.sum_pos' (fun j _ => ?_) ⟨j0, Finset.mem_univ _, ?_⟩
      · by_cases hj : P' j
        · rw [(hP' j hj).1, ← mul_assoc, ← mul_assoc, sgn_sq, one_mul]
          exact mul_nonneg (h'.pos j).le (Complex.normSq_nonneg _)
        · rw [h2 j hj]; simp
      · rw [(hP' j0 hp0).1, ← mul_assoc, ← mul_assoc, sgn_sq, one_mul]
        exact mul_pos (h'.pos j0) (Complex.normSq_pos.2 hj0)
    have b1 : e i * (sgn i * ∑ j, sgn j * e j * Complex.normSq (c j)) ≤ ∑ j, e j ^ 2 * Complex.normSq (c j) := by
      rw [Finset.mul_sum, Finset.mul_sum]
      refine Finset.sum_le_sum fun j _ => ?_
      by_cases hj : P j
      · have := mul_le_mul_of_nonneg_right (hP j hj) (Complex.normSq_nonneg (c j))
        linarith
      · rw [h1 j hj]; simp
    have b2 : ∑ j, e' j ^ 2 * Complex.normSq (c' j) ≤ e' i * (sgn i * ∑ j, sgn j * e' j * Complex.normSq (c' j)) := by
      rw [Finset.mul_sum, Finset.mul_sum]
      refine Finset.sum_le_sum fun j _ => ?_
      by_cases hj : P' j
      · obtain ⟨q1, q2⟩ := hP' j hj
        have hh : e' j ^ 2 ≤ e' i * e' j := by nlinarith [h'.pos j]
        have e1 : e' i * (sgn i * (sgn j * e' j * Complex.normSq (c' j))) = (sgn i * sgn i) * (e' i * e' j) * Complex.normSq (c' j) := by
          rw [q1]; ring
        rw [e1, sgn_sq, one_mul]
        exact mul_le_mul_of_nonneg_right hh (Complex.normSq_nonneg _)
      · rw [h2 j hj]; simp
    rw [f3] at b2 hpos
    have := b1.trans (k.trans b2)
    exact le_of_mul_le_mul_right this hpos
  rcases i with i | i
  · refine gen (fun j => ∀ m, j = .inl m → m ≤ i) (fun j => ∃ m, j = .inl m ∧ i ≤ m) ?_ ?_ ?_
    · refine Fintype.card_lt_of_injective_of_notMem
        (fun j : {j : Fin N ⊕ Fin N // ¬ ∀ m, j = .inl m → m ≤ i} => (⟨j.1, ?_⟩ : {j : Fin N ⊕ Fin N // ∃ m, j = .inl m ∧ i ≤ m}))
        (fun a b hab => Subtype.ext (congrArg (fun x => x.1) hab)) (b := ⟨.inl i, i, rfl, le_refl _⟩) ?_
      · obtain ⟨m, hm⟩ := not_forall.1 j.2
        obtain ⟨hm, hi⟩ := Classical.not_imp.1 hm
        exact ⟨m, hm, (not_le.1 hi).le⟩
      · rintro ⟨⟨j, hj⟩, e⟩
        have := congrArg (fun x => x.1) e
        simp only at this
        subst this
        exact hj fun m hm => by rw [Sum.inl.injEq] at hm; exact hm.ge
    · rintro (j | j) hj
      · have := h.first j i (hj j rfl)
        simp only [sgn, Sum.elim_inl]
        nlinarith [h.pos (.inl j)]
      · simp only [sgn, Sum.elim_inl, Sum.elim_inr]
        nlinarith [h.pos (.inr j), h.pos (.inl i), mul_pos (h.pos (.inr j)) (h.pos (.inl i))]
    · rintro j ⟨m, rfl, hm⟩
      exact ⟨rfl, h'.first i m hm⟩
  · refine gen (fun j => ∀ m, j = .inr m → i ≤ m) (fun j => ∃ m, j = .inr m ∧ m ≤ i) ?_ ?_ ?_
    · refine Fintype.card_lt_of_injective_of_notMem
        (fun j : {j : Fin N ⊕ Fin N // ¬ ∀ m, j = .inr m → i ≤ m} => (⟨j.1, ?_⟩ : {j : Fin N ⊕ Fin N // ∃ m, j = .inr m ∧ m ≤ i}))
        (fun a b hab => Subtype.ext (congrArg (fun x => x.1) hab)) (b := ⟨.inr i, i, rfl, le_refl _⟩) ?_
      · obtain ⟨m, hm⟩ := not_forall.1 j.2
        obtain ⟨hm, hi⟩ := Classical.not_imp.1 hm
        exact ⟨m, hm, (not_le.1 hi).le⟩
      · rintro ⟨⟨j, hj⟩, e⟩
        have := congrArg (fun x => x.1) e
        simp only at this
        subst this
        exact hj fun m hm => by rw [Sum.inr.injEq] at hm; exact hm.le
    · rintro (j | j) hj
      · simp only [sgn, Sum.elim_inl, Sum.elim_inr]
        nlinarith [h.pos (.inl j), h.pos (.inr i), mul_pos (h.pos (.inl j)) (h.pos (.inr i))]
      · have := h.last i j (hj j rfl)
        simp only [sgn, Sum.elim_inr]
        nlinarith [h.pos (.inr j)]
    · rintro j ⟨m, rfl, hm⟩
      exact ⟨rfl, h'.last m i hm⟩

theorem Diag.unique {D Y Y' : Mat N} {e e' : Fin N ⊕ Fin N → ℝ} (h : Diag D Y e) (h' : Diag D Y' e') : e = e' := by
  have h0 : (D - D).PosSemidef := by rw [sub_self]; exact PosSemidef.zero
  funext i
  exact le_antisymm (h.mono h' h0 i) (h'.mono h h0 i)

/-- The energies are proportional to the matrix. -/
theorem Diag.smul {D Y : Mat N} {e : Fin N ⊕ Fin N → ℝ} (h : Diag D Y e) {c : ℝ} (hc : 0 < c) :
    Diag ((c : ℂ) • D) ((Real.sqrt c : ℂ) • Y) fun i => c * e i := by
  have hr : (Real.sqrt c : ℂ) * (Real.sqrt c : ℂ) = c := by rw [← Complex.ofReal_mul, Real.mul_self_sqrt hc.le]
  have hs : ((Real.sqrt c : ℂ) • Y)ᴴ = (Real.sqrt c : ℂ) • Yᴴ := by
    rw [conjTranspose_smul]; simp
  refine ⟨?_, ?_, ?_, ?_, fun i => mul_pos hc (h.pos i), fun i j hij => mul_le_mul_of_nonneg_left (h.first i j hij) hc.le,
    fun i j hij => mul_le_mul_of_nonneg_left (h.last i j hij) hc.le⟩
  · rw [det_smul]
    exact (IsUnit.pow _ (isUnit_iff_ne_zero.2 (Complex.ofReal_ne_zero.2 (Real.sqrt_pos.2 hc).ne'))).mul h.unit
  · rw [hs, Matrix.smul_mul, Matrix.smul_mul, Matrix.mul_smul, Matrix.mul_smul, smul_smul, Matrix.smul_mul, smul_smul, h.energy, hr,
      ← diagonal_smul]
    congr 1
    funext i
    simp only [Pi.smul_apply, smul_eq_mul]
    push_cast
    ring
  · rw [hs, Matrix.smul_mul, Matrix.smul_mul, Matrix.mul_smul, smul_smul, hr, h.metric, ← diagonal_smul]
    congr 1
    funext i
    simp only [Pi.smul_apply, smul_eq_mul]
    push_cast
    ring
  · have hd : (diagonal fun i => ((sgn i * (c * e i) : ℝ) : ℂ)) = (c : ℂ) • (diagonal fun i => ((sgn i * e i : ℝ) : ℂ) : Mat N) := by
      rw [← diagonal_smul]
      congr 1
      funext i
      simp only [Pi.smul_apply, smul_eq_mul]
      push_cast
      ring
    rw [hd, Matrix.mul_smul, Matrix.smul_mul, Matrix.mul_smul, Matrix.smul_mul, h.motion, Matrix.mul_smul]

/-- The unit matrix has the energies one. -/
theorem Diag.one {Y : Mat N} {e : Fin N ⊕ Fin N → ℝ} (h : Diag 1 Y e) : e = 1 := by
  have h1 := h.motion
  rw [Matrix.mul_one] at h1
  have h2 : Y * diagonal (fun i => ((e i ^ 2 : ℝ) : ℂ)) = Y := by
    have : g * (g * Y) = Y := by rw [← Matrix.mul_assoc, g_mul_g, Matrix.one_mul]
    rw [h1, ← Matrix.mul_assoc, h1, Matrix.mul_assoc, diagonal_mul_diagonal] at this
    refine Eq.trans ?_ this
    congr 2
    funext i
    rw [← Complex.ofReal_mul]
    congr 1
    linear_combination -(e i ^ 2) * sgn_sq i
  have h3 : diagonal (fun i => ((e i ^ 2 : ℝ) : ℂ)) = (1 : Mat N) := by
    have := congrArg (Y⁻¹ * ·) h2
    simpa [← Matrix.mul_assoc, nonsing_inv_mul _ h.unit] using this
  funext i
  have := congrFun (congrFun h3 i) i
  rw [diagonal_apply_eq, one_apply_eq] at this
  have h4 : e i ^ 2 = 1 := by exact_mod_cast this
  have := h.pos i
  show e i = 1
  nlinarith

/-- A lower and an upper bound of the matrix bound the energies. -/
theorem Diag.bounds {D Y : Mat N} {e : Fin N ⊕ Fin N → ℝ} (h : Diag D Y e) {a : ℝ} (ha : 0 < a) :
    ((D - (a : ℂ) • 1).PosSemidef → ∀ i, a ≤ e i) ∧ (((a : ℂ) • 1 - D).PosSemidef → ∀ i, e i ≤ a) := by
  obtain ⟨Y1, e1, h1⟩ := exists_modes (N := N) (D := 1) PosDef.one
  have h2 := h1.toDiag.smul ha
  rw [h1.toDiag.one] at h2
  refine ⟨fun hD i => ?_, fun hD i => ?_⟩
  · simpa using h2.mono h hD i
  · simpa using h.mono h2 hD i

/-- The product and the sum of the squares. -/
theorem Diag.sums {D Y : Mat N} {e : Fin N ⊕ Fin N → ℝ} (h : Diag D Y e) :
    D.det = ((∏ i, e i : ℝ) : ℂ) ∧ (g * D * (g * D)).trace = ((∑ i, e i ^ 2 : ℝ) : ℂ) ∧
      (g * D).trace = ((∑ i, sgn i * e i : ℝ) : ℂ) := by
  have hsim : g * D = Y * diagonal (fun i => ((sgn i * e i : ℝ) : ℂ)) * Y⁻¹ := by
    rw [← h.motion, Matrix.mul_assoc, mul_nonsing_inv _ h.unit, Matrix.mul_one]
  have hY : Y.det ≠ 0 := h.unit.ne_zero
  refine ⟨?_, ?_, ?_⟩
  · have h1 := congrArg det h.motion
    rw [det_mul, det_mul, det_mul, det_diagonal, mul_comm Y.det] at h1
    have h2 := mul_right_cancel₀ hY h1
    rw [g_eq, det_diagonal] at h2
    have h3 : ∏ i : Fin N ⊕ Fin N, ((sgn i * e i : ℝ) : ℂ) = (∏ i : Fin N ⊕ Fin N, (sgn i : ℂ)) * ∏ i, (e i : ℂ) := by
      rw [← Finset.prod_mul_distrib]
      exact Finset.prod_congr rfl fun i _ => by push_cast; rfl
    rw [h3] at h2
    have h4 : (∏ i : Fin N ⊕ Fin N, (sgn i : ℂ)) ≠ 0 := Finset.prod_ne_zero_iff.2 fun i _ => by cases i <;> simp [sgn]
    rw [mul_left_cancel₀ h4 h2]
    push_cast
    rfl
  · rw [hsim, trace_mul_comm]
    have : Y * diagonal (fun i => ((sgn i * e i : ℝ) : ℂ)) * Y⁻¹ * (Y * diagonal (fun i => ((sgn i * e i : ℝ) : ℂ)) * Y⁻¹) =
        Y * (diagonal (fun i => ((sgn i * e i : ℝ) : ℂ)) * diagonal (fun i => ((sgn i * e i : ℝ) : ℂ)) * Y⁻¹) := by
      have e1 : Y⁻¹ * (Y * (diagonal (fun i => ((sgn i * e i : ℝ) : ℂ)) * Y⁻¹)) = diagonal (fun i => ((sgn i * e i : ℝ) : ℂ)) * Y⁻¹ := by
        rw [← Matrix.mul_assoc, nonsing_inv_mul _ h.unit, Matrix.one_mul]
      simp only [Matrix.mul_assoc]
      rw [e1]
    rw [this, trace_mul_comm, Matrix.mul_assoc, nonsing_inv_mul _ h.unit, Matrix.mul_one, diagonal_mul_diagonal, trace_diagonal]
    push_cast
    refine Finset.sum_congr rfl fun i _ => ?_
    have : (sgn i : ℂ) * sgn i = 1 := by rw [← Complex.ofReal_mul, sgn_sq, Complex.ofReal_one]
    linear_combination (e i : ℂ) ^ 2 * this
  · rw [hsim, Matrix.mul_assoc, trace_mul_comm, Matrix.mul_assoc, nonsing_inv_mul _ h.unit, Matrix.mul_one, trace_diagonal]
    push_cast
    rfl

/-- **Variational principle.** The form of a vector is at least the lowest energy times the metric. -/
theorem Diag.variational {D Y : Mat N} {e : Fin N ⊕ Fin N → ℝ} (h : Diag D Y e) {i : Fin N} (hi : ∀ j, j ≤ i)
    (x : Fin N ⊕ Fin N → ℂ) : e (.inl i) * (star x ⬝ᵥ (g *ᵥ x)).re ≤ (star x ⬝ᵥ (D *ᵥ x)).re := by
  have hx : x = Y *ᵥ (Y⁻¹ *ᵥ x) := by rw [mulVec_mulVec, mul_nonsing_inv _ h.unit, one_mulVec]
  rw [hx, form_diagonal h.energy, form_diagonal h.metric, Complex.ofReal_re, Complex.ofReal_re, Finset.mul_sum]
  refine Finset.sum_le_sum fun j _ => ?_
  rw [← mul_assoc]
  refine mul_le_mul_of_nonneg_right ?_ (Complex.normSq_nonneg _)
  rcases j with j | j
  · have := h.first j i (hi j)
    simp only [sgn, Sum.elim_inl]
    nlinarith [h.pos (.inl j)]
  · simp only [sgn, Sum.elim_inr]
    nlinarith [h.pos (.inr j), h.pos (.inl i), mul_pos (h.pos (.inr j)) (h.pos (.inl i))]

end Magnopy
