import Verif.Model.Param
import Verif.Spec.Tensor
import Mathlib.Tactic.FinCases
import Mathlib.Tactic.LinearCombination
import Mathlib.Tactic.FieldSimp
import Mathlib.Tactic.NormNum
import Mathlib.Data.Rat.Floor

/-!
# Properties C01-C04: `MatrixParameter`
-/

set_option autoImplicit false

namespace Magnopy

open Matrix Param Spec

variable {K : Type*} [Field K]

/-- Unfold everything to the nine entries. -/
local macro "entries" : tactic => `(tactic|
  (ext i j; fin_cases i <;> fin_cases j <;>
    simp [Param.aniso, Param.symmMatrix, Param.asymmMatrix, Param.iso, Param.dmi, Param.eye, Param.isoMatrix, Param.dmiMatrix,
      Param.setIso, Param.setDmi, Param.setAniso, Param.dmiArray, Param.T, Spec.dmMatrix,
      Matrix.one_apply, Matrix.smul_apply, Param.addP, Param.subP, Param.mulNum, Param.divNum, Param.negP]))

theorem iso_unfold (m : M3 K) : iso m = ((m 0 0 + m 0 0) / 2 + (m 1 1 + m 1 1) / 2 + (m 2 2 + m 2 2) / 2) / 3 := rfl

/-! ## C01 -/

/-- **C01.** The parts reported by a parameter are a decomposition of its matrix. -/
theorem C01_decomposition [CharZero K] (m : M3 K) :
    IsDecomposition m (iso m) (aniso m) (dmi m) := by
  have h3 : (3 : K) ≠ 0 := by norm_num
  refine ⟨?_, ?_, ?_⟩
  · entries <;> ring
  · entries <;> ring
  · simp [Matrix.trace, Fin.sum_univ_three, aniso, symmMatrix, eye, iso_unfold]
    field_simp
    ring

/-- **C01.** There is no other decomposition: the reported isotropic value, anisotropy and DMI
vector are the only ones. -/
theorem C01_unique [CharZero K] (m : M3 K) {j : K} {S : M3 K} {D : V3 K}
    (h : IsDecomposition m j S D) : j = iso m ∧ S = aniso m ∧ D = dmi m := by
  have h3 : (3 : K) ≠ 0 := by norm_num
  obtain ⟨h1, h2, h4⟩ := h
  have hs : ∀ a b, S a b = S b a := fun a b => by
    conv_lhs => rw [← h2]
    rfl
  have ht : S 0 0 + S 1 1 + S 2 2 = 0 := by simpa [Matrix.trace, Fin.sum_univ_three] using h4
  have hj : j = iso m := by
    rw [iso_unfold]
    subst h1
    simp [dmMatrix, Matrix.smul_apply]
    field_simp
    linear_combination -ht
  have hS : S = aniso m := by
    have : ∀ a b, S a b = symmMatrix m a b - j * eye a b := by
      intro a b
      subst h1
      have := hs b a
      fin_cases a <;> fin_cases b <;> simp [symmMatrix, eye, dmMatrix, Matrix.smul_apply] <;>
        simp at this <;> field_simp <;> (try rw [this]) <;> ring
    ext a b
    rw [this, hj]
    rfl
  refine ⟨hj, hS, ?_⟩
  subst h1
  have h12 := hs 1 2
  have h20 := hs 2 0
  have h01 := hs 0 1
  ext a
  fin_cases a <;> simp [dmi, asymmMatrix, dmMatrix, Matrix.smul_apply] <;> field_simp
  · linear_combination -h12
  · linear_combination -h20
  · linear_combination -h01

/-- **C01.** The reported matrices `iso_matrix`, `aniso`, `dmi_matrix` add up to the matrix, and
`dmi_matrix` is the (antisymmetric) matrix of the reported DMI vector. -/
theorem C01_matrices [CharZero K] (m : M3 K) :
    m = isoMatrix m + aniso m + dmiMatrix m ∧ dmiMatrix m = dmMatrix (dmi m) ∧
      (dmiMatrix m)ᵀ = -dmiMatrix m ∧ isoMatrix m = iso m • (1 : M3 K) ∧
      aniso m = anisoDiagonalMatrix m + Matrix.of (fun i j => if i = j then 0 else symmMatrix m i j) ∧
      (∀ i, anisoDiagonal m i = aniso m i i) := by
  refine ⟨?_, ?_, ?_, ?_, ?_, fun _ => rfl⟩
  · entries <;> ring
  · entries <;> ring
  · entries <;> ring
  · entries
  · ext i j
    by_cases h : i = j
    · subst h; simp [anisoDiagonalMatrix]
    · simp [anisoDiagonalMatrix, aniso, eye, h]

/-- A parameter with all three parts non-zero. -/
example : iso (!![1, 2, 3; 4, 5, 6; 7, 8, 12] : M3 ℚ) = 6 ∧
    dmi (!![1, 2, 3; 4, 5, 6; 7, 8, 12] : M3 ℚ) = ![-1, 2, -1] := by
  constructor
  · rw [iso_unfold]; norm_num [Matrix.of_apply, Matrix.cons_val_two]
  · ext i; fin_cases i <;> simp [dmi, asymmMatrix] <;> norm_num

/-! ## C02 -/

/-- **C02.** Assigning `iso`. -/
theorem C02_set_iso [CharZero K] (m : M3 K) (v : K) :
    iso (setIso m v) = v ∧ aniso (setIso m v) = aniso m ∧ dmi (setIso m v) = dmi m := by
  have h3 : (3 : K) ≠ 0 := by norm_num
  have h : iso (setIso m v) = v := by
    rw [iso_unfold]
    simp [setIso, eye, iso_unfold m]
    field_simp
    ring
  refine ⟨h, ?_, ?_⟩
  · ext i j
    simp only [aniso, Matrix.of_apply, h]
    fin_cases i <;> fin_cases j <;> simp [symmMatrix, setIso, eye] <;> ring
  · ext i; fin_cases i <;> simp [dmi, asymmMatrix, setIso, eye]

/-- **C02.** Assigning `dmi`. -/
theorem C02_set_dmi [CharZero K] (m : M3 K) (d : V3 K) :
    dmi (setDmi m d) = d ∧ iso (setDmi m d) = iso m ∧ aniso (setDmi m d) = aniso m := by
  have hs : symmMatrix (setDmi m d) = symmMatrix m := by
    ext i j
    fin_cases i <;> fin_cases j <;> simp [symmMatrix, setDmi, dmiArray] <;> ring
  have hi : iso (setDmi m d) = iso m := by simp only [iso, hs]
  refine ⟨?_, hi, ?_⟩
  · ext i; fin_cases i <;> simp [dmi, asymmMatrix, setDmi, dmiArray] <;> ring
  · simp only [aniso, hs, hi]

/-- **C02.** Assigning a symmetric traceless `aniso`. -/
theorem C02_set_aniso [CharZero K] (m a : M3 K) (hsym : aᵀ = a) (htr : a.trace = 0) :
    aniso (setAniso m a) = a ∧ iso (setAniso m a) = iso m ∧ dmi (setAniso m a) = dmi m := by
  have hd := C01_decomposition m
  have h := C01_unique (setAniso m a) (j := iso m) (S := a) (D := dmi m)
    ⟨by
      have e : m + (a - aniso m) = iso m • (1 : M3 K) + aniso m + dmMatrix (dmi m) + (a - aniso m) := by
        rw [← hd.sum]
      rw [setAniso, e]; abel, hsym, htr⟩
  exact ⟨h.2.1.symm, h.1.symm, h.2.2.symm⟩

/-- **C02, full statement is false for general matrices**: assigning an `aniso` with a trace (resp.
one that is not symmetric) leaks into `iso` (resp. `dmi`).  Exactly: `iso` changes by a third of the
trace, `dmi` by the DMI vector of the argument, and `aniso` reads back the symmetric traceless part
of what was assigned. -/
theorem C02_set_aniso_general [CharZero K] (m a : M3 K) :
    iso (setAniso m a) = iso m + a.trace / 3 ∧ dmi (setAniso m a) = dmi m + dmi a ∧
      aniso (setAniso m a) = aniso a := by
  have h3 : (3 : K) ≠ 0 := by norm_num
  have hi : iso (setAniso m a) = iso m + a.trace / 3 := by
    rw [iso_unfold]
    simp [setAniso, aniso, symmMatrix, eye, Matrix.trace, Fin.sum_univ_three, iso_unfold m]
    field_simp
    ring
  refine ⟨hi, ?_, ?_⟩
  · ext i; fin_cases i <;> simp [dmi, asymmMatrix, setAniso, aniso, symmMatrix, eye] <;> ring
  · ext i j
    simp only [aniso, Matrix.of_apply, hi]
    have : iso a = a.trace / 3 := by
      rw [iso_unfold]; simp [Matrix.trace, Fin.sum_univ_three]
    rw [this]
    fin_cases i <;> fin_cases j <;> simp [symmMatrix, setAniso, eye, aniso] <;> ring

theorem C02_set_aniso_false : ∃ m a : M3 ℚ, iso (setAniso m a) ≠ iso m ∧ aniso (setAniso m a) ≠ a := by
  refine ⟨0, !![3, 0, 0; 0, 0, 0; 0, 0, 0], ?_, ?_⟩
  · rw [(C02_set_aniso_general _ _).1]; simp [Matrix.trace, Fin.sum_univ_three]
  · intro h
    have := congrFun (congrFun h 0) 0
    rw [(C02_set_aniso_general _ _).2.2] at this
    simp [aniso, symmMatrix, eye, iso_unfold] at this

omit [Field K] in
/-- **C02.** Assigning one component (`xx`, `xy`, …, `zz`) changes that matrix element only. -/
theorem C02_set_entry (m : M3 K) (i j : Fin 3) (v : K) :
    setEntry m i j v i j = v ∧ ∀ a b, (a, b) ≠ (i, j) → setEntry m i j v a b = m a b := by
  refine ⟨by simp [setEntry], fun a b h => ?_⟩
  have : ¬ (a = i ∧ b = j) := fun ⟨h1, h2⟩ => h (by rw [h1, h2])
  simp [setEntry, this]

/-- **C02.** The constructor keywords override the matrix part by part: the final matrix has the
given isotropic value, DMI vector and (symmetric traceless) anisotropy, and takes every part that
is not given from `matrix` (zero if there is none). -/
theorem C02_constructor [CharZero K] (matrix : Option (List (List K)))
    (i : Option K) (an : Option (List (List K))) (d : Option (List K)) (base : M3 K)
    (hbase : match matrix with
      | none => base = 0
      | some rows => (ArrayLike.rows rows).toM3 = .ok base)
    (an' : M3 K) (han : ∀ rows, an = some rows → (ArrayLike.rows rows).toM3 = .ok an')
    (hansym : an.isSome → an'ᵀ = an' ∧ an'.trace = 0)
    (d' : V3 K) (hd : ∀ xs, d = some xs → (ArrayLike.vector xs).toV3 = .ok d') :
    ∃ m, init (matrix.map .rows) i (an.map .rows) (d.map .vector) = Res.ok m ∧
      IsDecomposition m (i.getD (iso base)) (if an.isSome then an' else aniso base)
        (if d.isSome then d' else dmi base) := by
  have h0 : ifGiven (matrix.map ArrayLike.rows) assignMatrix (0 : M3 K) = Res.ok base := by
    cases matrix with
    | none => simp at hbase; simp [ifGiven, hbase]
    | some rows => simp at hbase; simp [ifGiven, assignMatrix, hbase]
  set m1 := match i with | none => base | some v => setIso base v with hm1
  have h1 : ifGiven i (fun m v => Res.ok (setIso m v)) base = Res.ok m1 := by
    cases i <;> rfl
  have p1 : iso m1 = i.getD (iso base) ∧ aniso m1 = aniso base ∧ dmi m1 = dmi base := by
    cases i with
    | none => simp [hm1]
    | some v => simpa [hm1] using C02_set_iso base v
  set m2 := if d.isSome then setDmi m1 d' else m1 with hm2
  have h2 : ifGiven (d.map ArrayLike.vector) assignDmi m1 = Res.ok m2 := by
    cases d with
    | none => simp [ifGiven, hm2]
    | some xs => simp [ifGiven, assignDmi, hd xs rfl, hm2]
  have p2 : iso m2 = i.getD (iso base) ∧ aniso m2 = aniso base ∧
      dmi m2 = if d.isSome then d' else dmi base := by
    by_cases hds : d.isSome
    · have := C02_set_dmi m1 d'
      simp [hm2, hds, this.1, this.2.1, this.2.2, p1]
    · simp [hm2, hds, p1]
  set m3 := if an.isSome then setAniso m2 an' else m2 with hm3
  have h3 : ifGiven (an.map ArrayLike.rows) assignAniso m2 = Res.ok m3 := by
    cases an with
    | none => simp [ifGiven, hm3]
    | some xs => simp [ifGiven, assignAniso, han xs rfl, hm3]
  have p3 : iso m3 = i.getD (iso base) ∧ aniso m3 = (if an.isSome then an' else aniso base) ∧
      dmi m3 = if d.isSome then d' else dmi base := by
    by_cases hs : an.isSome
    · have := C02_set_aniso m2 an' (hansym hs).1 (hansym hs).2
      simp [hm3, hs, this.1, this.2.1, this.2.2, p2]
    · simp [hm3, hs, p2]
  refine ⟨m3, ?_, ?_⟩
  · unfold init
    rw [h0, Res.ok_andThen, h1, Res.ok_andThen, h2, Res.ok_andThen, h3]
  · rw [← p3.1, ← p3.2.1, ← p3.2.2]
    exact C01_decomposition m3

/-- **C02.** An assignment that is rejected (`ValueError`: wrong shape or not array-like) leaves the
parameter as it was. -/
theorem C02_errors_keep_state (m : M3 K) (a : ArrayLike K) :
    ((assignMatrix m a).err ≠ none → (assignMatrix m a).st = m ∧ (assignMatrix m a).err = some .valueError) ∧
    ((assignDmi m a).err ≠ none → (assignDmi m a).st = m ∧ (assignDmi m a).err = some .valueError) ∧
    ((assignAniso m a).err ≠ none → (assignAniso m a).st = m ∧ (assignAniso m a).err = some .valueError) := by
  have hM : ∀ e, a.toM3 = .error e → e = PyErr.valueError := by
    intro e h; unfold ArrayLike.toM3 at h; split at h <;> simp_all
  have hV : ∀ e, a.toV3 = .error e → e = PyErr.valueError := by
    intro e h; unfold ArrayLike.toV3 at h; split at h <;> simp_all
  refine ⟨?_, ?_, ?_⟩
  · unfold assignMatrix
    cases h : a.toM3 with
    | ok n => simp
    | error e => simp [hM e h]
  · unfold assignDmi
    cases h : a.toV3 with
    | ok n => simp
    | error e => simp [hV e h]
  · unfold assignAniso
    cases h : a.toM3 with
    | ok n => simp
    | error e => simp [hM e h]

/-- Non-trivial instance: matrix, iso, aniso and dmi given together. -/
example : ∃ m, init (K := ℚ) (some (.rows [[1, 2, 3], [4, 5, 6], [7, 8, 9]])) (some 7)
    (some (.rows [[1, 2, 0], [2, -1, 0], [0, 0, 0]])) (some (.vector [1, 2, 3])) = Res.ok m ∧
    iso m = 7 ∧ dmi m = ![1, 2, 3] := by
  obtain ⟨m, h1, h2⟩ := C02_constructor (K := ℚ) (some [[1, 2, 3], [4, 5, 6], [7, 8, 9]]) (some 7)
    (some [[1, 2, 0], [2, -1, 0], [0, 0, 0]]) (some [1, 2, 3]) !![1, 2, 3; 4, 5, 6; 7, 8, 9] rfl
    !![1, 2, 0; 2, -1, 0; 0, 0, 0] (by rintro rows h; cases h; rfl)
    (fun _ => ⟨by ext i j; fin_cases i <;> fin_cases j <;> rfl,
      by simp [Matrix.trace, Fin.sum_univ_three]⟩) ![1, 2, 3] (by rintro xs h; cases h; rfl)
  exact ⟨m, h1, (C01_unique m h2).1.symm, (C01_unique m h2).2.2.symm⟩

/-! ## C03 -/

/-- **C03.** Transposing a parameter keeps the isotropic part and the symmetric anisotropy, reverses
the DMI vector, is an involution, and swaps the roles of the two spins. -/
theorem C03_transpose (m : M3 K) :
    iso (T m) = iso m ∧ aniso (T m) = aniso m ∧ dmi (T m) = -dmi m ∧ T (T m) = m ∧
      ∀ a b : V3 K, a ⬝ᵥ (m *ᵥ b) = b ⬝ᵥ (T m *ᵥ a) := by
  have hs : symmMatrix (T m) = symmMatrix m := by
    ext i j; simp [symmMatrix, T, add_comm]
  refine ⟨by simp only [iso, hs], ?_, ?_, rfl, ?_⟩
  · have : iso (T m) = iso m := by simp only [iso, hs]
    simp only [aniso, hs, this]
  · ext i; fin_cases i <;> simp [dmi, asymmMatrix, T] <;> ring
  · intro a b
    rw [T, Matrix.mulVec_transpose, Matrix.dotProduct_mulVec, dotProduct_comm]

example : dmi (T (!![0, 1, 0; -1, 0, 0; 0, 0, 0] : M3 ℚ)) = ![0, 0, -1] := by
  ext i; fin_cases i <;> simp [dmi, asymmMatrix, T]; norm_num

/-! ## C04 -/

/-- **C04.** Arithmetic on parameters is linear in each part. -/
theorem C04_linear (p q : M3 K) (c : K) :
    (iso (addP p q) = iso p + iso q ∧ aniso (addP p q) = aniso p + aniso q ∧ dmi (addP p q) = dmi p + dmi q) ∧
    (iso (subP p q) = iso p - iso q ∧ aniso (subP p q) = aniso p - aniso q ∧ dmi (subP p q) = dmi p - dmi q) ∧
    (iso (mulNum p c) = c * iso p ∧ aniso (mulNum p c) = c • aniso p ∧ dmi (mulNum p c) = c • dmi p) ∧
    (iso (negP p) = -iso p ∧ aniso (negP p) = -aniso p ∧ dmi (negP p) = -dmi p) ∧
    (iso (divNum p c) = iso p / c ∧ aniso (divNum p c) = c⁻¹ • aniso p ∧ dmi (divNum p c) = c⁻¹ • dmi p) := by
  have e1 : iso (addP p q) = iso p + iso q := by simp only [iso_unfold, addP, Matrix.of_apply]; ring
  have e2 : iso (subP p q) = iso p - iso q := by simp only [iso_unfold, subP, Matrix.of_apply]; ring
  have e3 : iso (mulNum p c) = c * iso p := by simp only [iso_unfold, mulNum, Matrix.of_apply]; ring
  have e4 : iso (negP p) = -iso p := by simp only [iso_unfold, negP, Matrix.of_apply]; ring
  have e5 : iso (divNum p c) = iso p / c := by simp only [iso_unfold, divNum, Matrix.of_apply]; ring
  refine ⟨⟨e1, ?_, ?_⟩, ⟨e2, ?_, ?_⟩, ⟨e3, ?_, ?_⟩, ⟨e4, ?_, ?_⟩, ⟨e5, ?_, ?_⟩⟩
  · ext i j; simp only [aniso, Matrix.of_apply, Matrix.add_apply, e1]; simp only [symmMatrix, addP, Matrix.of_apply]; ring
  · ext i; fin_cases i <;> simp [dmi, asymmMatrix, addP] <;> ring
  · ext i j; simp only [aniso, Matrix.of_apply, Matrix.sub_apply, e2]; simp only [symmMatrix, subP, Matrix.of_apply]; ring
  · ext i; fin_cases i <;> simp [dmi, asymmMatrix, subP] <;> ring
  · ext i j; simp only [aniso, Matrix.of_apply, Matrix.smul_apply, e3]; simp only [symmMatrix, mulNum, Matrix.of_apply, smul_eq_mul]; ring
  · ext i; fin_cases i <;> simp [dmi, asymmMatrix, mulNum] <;> ring
  · ext i j; simp only [aniso, Matrix.of_apply, Matrix.neg_apply, e4]; simp only [symmMatrix, negP, Matrix.of_apply]; ring
  · ext i; fin_cases i <;> simp [dmi, asymmMatrix, negP] <;> ring
  · ext i j; simp only [aniso, Matrix.of_apply, Matrix.smul_apply, e5]; simp only [symmMatrix, divNum, Matrix.of_apply, smul_eq_mul]; ring
  · ext i; fin_cases i <;> simp [dmi, asymmMatrix, divNum] <;> ring

/-- **C04.** Multiplying and dividing by a non-zero number are inverse; `p - q + q = p`. -/
theorem C04_inverse (p q : M3 K) {c : K} (hc : c ≠ 0) :
    divNum (mulNum p c) c = p ∧ mulNum (divNum p c) c = p ∧ addP (subP p q) q = p ∧
      subP p q = addP p (negP q) ∧ negP (negP p) = p := by
  refine ⟨?_, ?_, ?_, ?_, ?_⟩ <;> ext i j <;> simp [divNum, mulNum, addP, subP, negP, hc, sub_eq_add_neg]

/-- **C04.** Floor division and remainder: `p == (p // n) * n + p % n`, remainders lie in `[0, n)`,
and the quotient consists of integers. -/
theorem C04_floordiv_mod {K : Type*} [Field K] [LinearOrder K] [IsStrictOrderedRing K] [FloorRing K]
    (p : M3 K) {n : K} (hn : 0 < n) :
    p = addP (mulNum (floorDiv p n) n) (modNum p n) ∧
      (∀ i j, 0 ≤ modNum p n i j ∧ modNum p n i j < n) ∧ ∀ i j, ∃ z : ℤ, floorDiv p n i j = z := by
  refine ⟨?_, ?_, fun i j => ⟨⌊p i j / n⌋, rfl⟩⟩
  · ext i j; simp [addP, mulNum, floorDiv, modNum]
  · intro i j
    have h1 := Int.floor_le (p i j / n)
    have h2 := Int.lt_floor_add_one (p i j / n)
    rw [le_div_iff₀ hn] at h1
    rw [div_lt_iff₀ hn] at h2
    simp only [modNum, Matrix.of_apply]
    constructor
    · linarith
    · linarith

omit [Field K] in
/-- **C04.** `==` of parameters is equality of the matrices. -/
theorem C04_eq [DecidableEq K] (p q : M3 K) : beq p q = true ↔ p = q := by
  simp only [beq, List.all_eq_true, decide_eq_true_eq]
  exact ⟨fun h => by ext i j; exact h i (List.mem_finRange i) j (List.mem_finRange j),
    fun h i _ j _ => by rw [h]⟩

example : modNum (!![-7, 0, 0; 0, 7, 0; 0, 0, 1/2] : M3 ℚ) 2 0 0 = 1 := by
  simp only [modNum, Matrix.of_apply]
  norm_num

end Magnopy
