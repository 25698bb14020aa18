import Verif.Model.ParamMore
import Verif.Props.Param
import Verif.Spec.Energy
import Mathlib.LinearAlgebra.CrossProduct
import Mathlib.LinearAlgebra.Matrix.Adjugate
import Mathlib.LinearAlgebra.Matrix.NonsingularInverse
import Mathlib.LinearAlgebra.Matrix.Notation

/-!
# Properties C94 and C95: the parts of a parameter in other axes, and its comparisons and names
-/

set_option autoImplicit false
set_option linter.unusedSectionVars false

namespace Magnopy

open Matrix Param Spec

/-! ## Rotating the antisymmetric part -/

section Field
variable {K : Type*} [Field K]

/-- A matrix acts on the antisymmetric part through its cofactors. -/
theorem dmMatrix_cofactor (R : M3 K) (D : V3 K) : R * dmMatrix D * Rᵀ = dmMatrix (R.adjugateᵀ *ᵥ D) := by
  rw [Matrix.adjugate_fin_three]
  ext i j
  fin_cases i <;> fin_cases j <;>
    simp [dmMatrix, Matrix.mul_apply, Matrix.mulVec, dotProduct, Fin.sum_univ_three] <;> ring

theorem dmMatrix_orthogonal {R : M3 K} (hR : R * Rᵀ = 1) (D : V3 K) :
    R * dmMatrix D * Rᵀ = dmMatrix (R.det • (R *ᵥ D)) := by
  rw [dmMatrix_cofactor]
  congr 1
  have h1 : R.adjugate = R.det • Rᵀ := by
    calc R.adjugate = R.adjugate * (R * Rᵀ) := by rw [hR, Matrix.mul_one]
      _ = R.det • Rᵀ := by rw [← Matrix.mul_assoc, Matrix.adjugate_mul, Matrix.smul_mul, Matrix.one_mul]
  rw [h1, Matrix.transpose_smul, Matrix.transpose_transpose, Matrix.smul_mulVec]

/-- The decomposition in other axes. -/
theorem decomposition_rotated {R m S : M3 K} {j : K} {D : V3 K} (hR : R * Rᵀ = 1) (h : IsDecomposition m j S D) :
    IsDecomposition (R * m * Rᵀ) j (R * S * Rᵀ) (R.det • (R *ᵥ D)) := by
  obtain ⟨h1, h2, h3⟩ := h
  refine ⟨?_, ?_, ?_⟩
  · rw [← dmMatrix_orthogonal hR, h1, Matrix.mul_add, Matrix.mul_add, Matrix.add_mul, Matrix.add_mul, Matrix.mul_smul,
      Matrix.smul_mul, Matrix.mul_one, hR]
  · rw [Matrix.transpose_mul, Matrix.transpose_mul, Matrix.transpose_transpose, h2, Matrix.mul_assoc]
  · rw [Matrix.trace_mul_comm, ← Matrix.mul_assoc, mul_eq_one_comm.1 hR, Matrix.one_mul, h3]

/-- **C94.** In axes related by an orthogonal matrix `R` the isotropic value is the same, the anisotropy turns like a tensor and the
Dzyaloshinskii-Moriya vector like an axial vector: it turns with a proper rotation and has the extra sign of the determinant with an
improper one. -/
theorem C94_rotation [CharZero K] {R : M3 K} (hR : R * Rᵀ = 1) (m : M3 K) :
    iso (R * m * Rᵀ) = iso m ∧ aniso (R * m * Rᵀ) = R * aniso m * Rᵀ ∧ dmi (R * m * Rᵀ) = R.det • (R *ᵥ dmi m) := by
  obtain ⟨h1, h2, h3⟩ := C01_unique _ (decomposition_rotated hR (C01_decomposition m))
  exact ⟨h1.symm, h2.symm, h3.symm⟩

/-- **C94.** The energy of two spins through the matrix is the Heisenberg term, plus the symmetric anisotropy, plus the
Dzyaloshinskii-Moriya term `D · (u × v)`, with the parts that the parameter reports. -/
theorem C94_energy [CharZero K] (m : M3 K) (u v : V3 K) :
    bilin u m v = iso m * (u ⬝ᵥ v) + bilin u (aniso m) v + dmi m ⬝ᵥ (crossProduct u v) := by
  have h := (C01_decomposition m).sum
  conv_lhs => rw [h]
  simp [bilin, dmMatrix, cross_apply, dotProduct, Fin.sum_univ_three, Matrix.one_apply]
  ring

end Field

/-! ## Lengths -/

theorem dmiModule_sq (m : M3 ℝ) : dmiModule m ^ 2 = ∑ i, dmi m i ^ 2 :=
  Real.sq_sqrt (Finset.sum_nonneg fun _ _ => sq_nonneg _)

theorem dmiModule_nonneg (m : M3 ℝ) : 0 ≤ dmiModule m := Real.sqrt_nonneg _

theorem sum_sq_eq (D : V3 ℝ) : ∑ i, D i ^ 2 = D ⬝ᵥ D := by simp [dotProduct, pow_two]

/-- **C94.** The length of the Dzyaloshinskii-Moriya vector and its ratio to the isotropic value do not depend on the axes. -/
theorem C94_invariants {R : M3 ℝ} (hR : R * Rᵀ = 1) (m : M3 ℝ) :
    dmiModule (R * m * Rᵀ) = dmiModule m ∧ relDmi (R * m * Rᵀ) = relDmi m := by
  obtain ⟨h1, -, h3⟩ := C94_rotation hR m
  have hd : R.det * R.det = 1 := by
    have := congrArg Matrix.det hR
    rwa [Matrix.det_mul, Matrix.det_transpose, Matrix.det_one] at this
  have h : dmiModule (R * m * Rᵀ) = dmiModule m := by
    unfold dmiModule
    rw [sum_sq_eq, sum_sq_eq, h3, smul_dotProduct, dotProduct_smul, smul_smul, hd, one_smul, Matrix.dotProduct_mulVec,
      Matrix.vecMul_mulVec, mul_eq_one_comm.1 hR, Matrix.vecMul_one]
  exact ⟨h, by unfold relDmi; rw [h, h1]⟩

/-- **C94.** The three parts are orthogonal: the squares of the nine entries add up to three times the square of the isotropic value, the
squares of the anisotropy and twice the square of the length of the Dzyaloshinskii-Moriya vector. -/
theorem C94_norm (m : M3 ℝ) :
    ∑ i, ∑ j, m i j ^ 2 = 3 * iso m ^ 2 + ∑ i, ∑ j, aniso m i j ^ 2 + 2 * dmiModule m ^ 2 := by
  obtain ⟨h1, h2, h3⟩ := C01_decomposition m
  rw [dmiModule_sq]
  have hs : ∀ a b, aniso m a b = aniso m b a := fun a b => by
    conv_lhs => rw [← h2]
    rfl
  have ht : aniso m 0 0 + aniso m 1 1 + aniso m 2 2 = 0 := by simpa [Matrix.trace, Fin.sum_univ_three] using h3
  conv_lhs => rw [h1]
  generalize aniso m = S at *
  simp [dmMatrix, Fin.sum_univ_three, Matrix.one_apply]
  rw [hs 1 0, hs 2 0, hs 2 1]
  linear_combination 2 * iso m * ht

/-- **C94.** The length of the Dzyaloshinskii-Moriya vector is zero exactly for the symmetric matrices, it is the same for the transposed
matrix, and it grows with the absolute value of a factor. -/
theorem C94_module (m : M3 ℝ) :
    (dmiModule m = 0 ↔ mᵀ = m) ∧ dmiModule (T m) = dmiModule m ∧ ∀ c : ℝ, dmiModule (mulNum m c) = |c| * dmiModule m := by
  refine ⟨?_, ?_, fun c => ?_⟩
  · rw [← sq_eq_zero_iff, dmiModule_sq, Fin.sum_univ_three]
    constructor
    · intro h
      have a0 : dmi m 0 = 0 := by nlinarith [sq_nonneg (dmi m 0), sq_nonneg (dmi m 1), sq_nonneg (dmi m 2)]
      have a1 : dmi m 1 = 0 := by nlinarith [sq_nonneg (dmi m 0), sq_nonneg (dmi m 1), sq_nonneg (dmi m 2)]
      have a2 : dmi m 2 = 0 := by nlinarith [sq_nonneg (dmi m 0), sq_nonneg (dmi m 1), sq_nonneg (dmi m 2)]
      simp [dmi, asymmMatrix] at a0 a1 a2
      ext i j
      fin_cases i <;> fin_cases j <;> simp <;> linarith
    · intro h
      have hs : ∀ a b, m a b = m b a := fun a b => by
        conv_lhs => rw [← h]
        rfl
      have e : ∀ a b, asymmMatrix m a b = 0 := fun a b => by
        show (m a b - m b a) / 2 = 0
        rw [hs a b, sub_self, zero_div]
      simp [dmi, e]
  · unfold dmiModule
    congr 1
    simp [dmi, asymmMatrix, T, Fin.sum_univ_three]
    ring
  · unfold dmiModule
    rw [← Real.sqrt_sq_eq_abs, ← Real.sqrt_mul (sq_nonneg c)]
    congr 1
    simp [dmi, asymmMatrix, mulNum, Fin.sum_univ_three]
    ring

/-- **C94.** The ratio `rel_dmi` is a number exactly if the isotropic value is not zero; otherwise it is infinite, or, for a symmetric
matrix, not a number. Multiplying the parameter by a number other than zero leaves it as it is. -/
theorem C94_ratio (m : M3 ℝ) :
    (iso m ≠ 0 → ∃ x, relDmi m = .number x ∧ x * |iso m| = dmiModule m) ∧
    (iso m = 0 → mᵀ ≠ m → relDmi m = .inf) ∧ (iso m = 0 → mᵀ = m → relDmi m = .nan) ∧
    ∀ c : ℝ, c ≠ 0 → relDmi (mulNum m c) = relDmi m := by
  refine ⟨fun h => ?_, fun h hm => ?_, fun h hm => ?_, fun c hc => ?_⟩
  · refine ⟨dmiModule m / |iso m|, ?_, ?_⟩
    · simp [relDmi, divide, h]
    · field_simp
  · have := mt (C94_module m).1.1 hm
    simp [relDmi, divide, h, this]
  · have := (C94_module m).1.2 hm
    simp [relDmi, divide, h, this]
  · have hi : iso (mulNum m c) = c * iso m := by
      simp [iso_unfold, mulNum]
      ring
    have hc' : |c| ≠ 0 := abs_ne_zero.2 hc
    simp only [relDmi, divide, hi, (C94_module m).2.2 c, abs_mul, mul_eq_zero, hc', false_or]
    rw [mul_div_mul_left _ _ hc']

/-! ## Examples -/

/-- A quarter turn about z with a reflection of z: the vector `(1, 2, 3)` becomes `-(-2, 1, -3)`. -/
example : ∃ R : M3 ℚ, R * Rᵀ = 1 ∧ R.det = -1 ∧ dmi (R * dmiArray ![1, 2, 3] * Rᵀ) = ![2, -1, 3] := by
  refine ⟨!![0, -1, 0; 1, 0, 0; 0, 0, -1], by decide +kernel, by decide +kernel, by decide +kernel⟩

/-- The ratio for `iso = 2` and the vector `(0, 3, 4)`. -/
example : relDmi (setIso (dmiArray ![0, 3, 4]) (-2)) = .number (5 / 2) := by
  have h1 : iso (setIso (dmiArray ![0, 3, 4]) (-2 : ℝ)) = -2 := by
    simp [iso_unfold, setIso, dmiArray, eye]
    try norm_num
  have h2 : dmiModule (setIso (dmiArray ![0, 3, 4]) (-2 : ℝ)) = 5 := by
    have : ∑ i, dmi (setIso (dmiArray ![0, 3, 4]) (-2 : ℝ)) i ^ 2 = 5 ^ 2 := by
      simp [dmi, asymmMatrix, setIso, dmiArray, eye, Fin.sum_univ_three]
      norm_num
    rw [dmiModule, this, Real.sqrt_sq (by norm_num)]
  simp [relDmi, divide, h1, h2]

/-! ## C95 -/

section Compare
variable {K : Type*} [Field K] [DecidableEq K]

theorem beq_iff (p q : M3 K) : beq p q = true ↔ p = q := by
  simp only [beq, List.all_eq_true, List.mem_finRange, true_implies, decide_eq_true_eq]
  exact ⟨fun h => Matrix.ext h, fun h i j => by rw [h]⟩

/-- **C95.** Two parameters are equal exactly if all their entries are, and different otherwise: `==` is reflexive, symmetric and
transitive, and `!=` is its negation. -/
theorem C95_equal (p q : M3 K) :
    (beq p q = true ↔ ∀ i j, p i j = q i j) ∧ (ne p q = true ↔ ∃ i j, p i j ≠ q i j) := by
  have h : beq p q = true ↔ ∀ i j, p i j = q i j := by
    rw [beq_iff]
    exact ⟨fun h i j => by rw [h], fun h => Matrix.ext h⟩
  refine ⟨h, ?_⟩
  rw [ne, Bool.not_eq_true', ← Bool.not_eq_true, h]
  push Not
  rfl

/-- **C95.** A parameter compared with something that is not a parameter: rows of a three by three matrix are compared entry by entry;
anything else, such as a number, a vector, `None` or a text, raises `ValueError` instead of being different. -/
theorem C95_array (p : M3 K) (a : ArrayLike K) :
    (∀ x : Fin 3 → Fin 3 → K, a = .rows [[x 0 0, x 0 1, x 0 2], [x 1 0, x 1 1, x 1 2], [x 2 0, x 2 1, x 2 2]] →
      ∃ b, eqArray p a = .ok b ∧ neArray p a = .ok (!b) ∧ (b = true ↔ ∀ i j, p i j = x i j)) ∧
    ((∀ x : Fin 3 → Fin 3 → K, a ≠ .rows [[x 0 0, x 0 1, x 0 2], [x 1 0, x 1 1, x 1 2], [x 2 0, x 2 1, x 2 2]]) →
      eqArray p a = .error .valueError ∧ neArray p a = .error .valueError) := by
  constructor
  · rintro x rfl
    have hx : !![x 0 0, x 0 1, x 0 2; x 1 0, x 1 1, x 1 2; x 2 0, x 2 1, x 2 2] = Matrix.of x := by
      ext i j
      fin_cases i <;> fin_cases j <;> rfl
    refine ⟨beq p (Matrix.of x), ?_, ?_, (C95_equal p _).1⟩
    · rw [← hx]
      rfl
    · rw [← hx]
      rfl
  · intro h
    have h1 : a.toM3 = .error .valueError := by
      unfold ArrayLike.toM3
      split
      · rename_i a0 b0 c0 d0 e0 f0 g0 h0 i0
        exact absurd rfl (h !![a0, b0, c0; d0, e0, f0; g0, h0, i0])
      · rfl
    have h2 : eqArray p a = .error .valueError := by rw [eqArray, h1]
    exact ⟨h2, by rw [neArray, h2]; rfl⟩

end Compare

section Names
variable {K : Type*} [Field K]

/-- The long name of an attribute. -/
def Param.Name.long : Name → Name
  | .I => .iso
  | .S => .aniso
  | .A => .asymm_matrix
  | n => n

/-- **C95 (false).** The short name of an attribute cannot be used for the long one: assigning to `I` or `S` is refused, although `iso`
and `aniso` accept the value. -/
theorem C95_names_false : ¬ ∀ (m : M3 ℚ) (n : Name) (v : Val ℚ), put m n v = put m n.long v := by
  intro h
  have := congrArg Res.err (h 0 .I (.number 1))
  simp [put, Param.Name.long, Res.ok, Res.raise] at this

/-- **C95 (partial).** Short and long names read the same values. Assigning to a short name always raises `AttributeError` and leaves the
parameter as it is; assigning to `asymm_matrix` does as well. Missing: assigning to `I` and `S`. -/
theorem C95_names_partial (m : M3 K) (n : Name) :
    get m n = get m n.long ∧
      ∀ v, (n ≠ .iso → n ≠ .aniso → put m n v = .raise m .attributeError) := by
  refine ⟨by cases n <;> rfl, fun v h1 h2 => ?_⟩
  cases n <;> first | exact absurd rfl h1 | exact absurd rfl h2 | (cases v <;> rfl)

/-- **C95.** The long names: assigning a number to `iso`, or a symmetric traceless matrix to `aniso`, makes it the value that is read
from both names, and the other two parts stay. -/
theorem C95_long [CharZero K] (m : M3 K) :
    (∀ x, ∃ m', put m .iso (.number x) = .ok m' ∧ get m' .iso = .number x ∧ get m' .I = .number x ∧
      aniso m' = aniso m ∧ dmi m' = dmi m) ∧
    (∀ a : M3 K, aᵀ = a → a.trace = 0 → ∃ m', put m .aniso (.matrix a) = .ok m' ∧ get m' .aniso = .matrix a ∧
      get m' .S = .matrix a ∧ iso m' = iso m ∧ dmi m' = dmi m) := by
  have h := C01_decomposition m
  constructor
  · intro x
    have : IsDecomposition (setIso m x) x (aniso m) (dmi m) := by
      refine ⟨?_, h.symmetric, h.traceless⟩
      have e : setIso m x = m + (x - iso m) • (1 : M3 K) := by
        ext i j
        simp [setIso, eye, Matrix.one_apply]
      rw [e]
      have e2 := h.sum
      generalize iso m = j at e2 ⊢
      generalize aniso m = S at e2 ⊢
      generalize dmi m = D at e2 ⊢
      rw [e2]
      module
    obtain ⟨h1, h2, h3⟩ := C01_unique _ this
    exact ⟨_, rfl, by simp [Param.get, ← h1], by simp [Param.get, ← h1], h2.symm, h3.symm⟩
  · intro a ha ht
    have : IsDecomposition (setAniso m a) (iso m) a (dmi m) := by
      refine ⟨?_, ha, ht⟩
      have e : setAniso m a = m + (a - aniso m) := rfl
      rw [e]
      have e2 := h.sum
      generalize iso m = j at e2 ⊢
      generalize aniso m = S at e2 ⊢
      generalize dmi m = D at e2 ⊢
      rw [e2]
      module
    obtain ⟨h1, h2, h3⟩ := C01_unique _ this
    exact ⟨_, rfl, by simp [Param.get, ← h2], by simp [Param.get, ← h2], h1.symm, h3.symm⟩

/-- A parameter with its entries 1 to 9 is different from its transposed one, equal to its rows, and cannot be compared with `None`. -/
example : ne (!![1, 2, 3; 4, 5, 6; 7, 8, 9] : M3 ℚ) (T !![1, 2, 3; 4, 5, 6; 7, 8, 9]) = true ∧
    eqArray (!![1, 2, 3; 4, 5, 6; 7, 8, 9] : M3 ℚ) (.rows [[1, 2, 3], [4, 5, 6], [7, 8, 9]]) = .ok true ∧
    eqArray (!![1, 2, 3; 4, 5, 6; 7, 8, 9] : M3 ℚ) .bad = .error .valueError := by
  refine ⟨by decide +kernel, ?_, rfl⟩
  show Except.ok _ = _
  congr 1

end Names

end Magnopy
