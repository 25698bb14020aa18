import Verif.Lemmas.EnergyConeRounding

/-!
# C101: round-off of the energies of cone states
-/

set_option autoImplicit false
set_option linter.unusedSectionVars false

namespace Magnopy
namespace EnergyObj

variable {u : ℝ} {A : Arith} {S : ConeSums} {d k : ℕ}

/-- **C101, exceptions.** Rounding does not change which arguments raise which exceptions. -/
theorem C101_exceptions (A : Arith) (S : ConeSums) (E : EnergyObj ℝ) (muB : ℝ) (cell : ℕ → M3 ℝ) (so cone q : Param.ArrayLike ℝ) (x : PyErr) :
    (E.antiferroFl A S muB cell so cone q = .error x ↔ E.antiferro muB cell so cone q = .error x) ∧
    (E.spiralFl A S muB cell so cone q = .error x ↔ E.spiral muB cell so cone q = .error x) := by
  unfold antiferroFl antiferro spiralFl spiral
  cases coneInput E.spins.length so cone q <;> simp

theorem cone_bound (hf : IsRounding A.fl u) (E : EnergyObj ℝ) (muB : ℝ) {C : V3 ℝ → M3 ℝ → M3 ℝ} {C₁ C' : ℕ → V3 ℝ → M3 ℝ → M3 ℝ}
    {turn : V3 ℝ → M3 ℝ → M3 ℝ} (cell : ℕ → M3 ℝ) (l : List (V3 ℝ)) (c q : V3 ℝ) (hS : S.Complete l.length d) (hN : E.coneRoundings d k * u < 1)
    (hC : ∀ b v J, ApproxM u (8 * d + k + 21) (C₁ b v J) (C' b v J) (staySize (normalize c) J + turn (normalize c) J))
    (hp : ∀ b v J i j, |C₁ b v J i j - C v J i j| ≤ gamma u (d + 1) * phaseSize q v * turn (normalize c) J i j) :
    |coneUnitFl A.fl S E muB C' cell (l.zipIdx.map fun p => normalizeFl A.fl (S.norm p.2) p.1) (normalizeFl A.fl S.axis c) -
      (E.bondSum C cell (l.map normalize) + E.zeeman muB (soPrime (normalize c) (l.map normalize)))| ≤
      E.coneBound u (E.coneRoundings d k) d muB turn cell (l.map normalize) (normalize c) q := by
  have h1 := (coneUnit_near hf E muB cell l hS hC (fun i => normalize_rounded hf hS.axis c i)).error hf.nonneg hf.lt hN
  have h2 := numberedSum_sub E (C := C₁) (C' := fun _ => C) (M := fun v J => phaseSize q v • turn (normalize c) J) (δ := gamma u (d + 1))
    (fun b v J i j => (hp b v J i j).trans (by rw [Matrix.smul_apply, smul_eq_mul, mul_assoc])) cell (l.map normalize)
  rw [numberedSum_eq]
  unfold coneBound
  have h3 := abs_le.1 h1
  have h4 := abs_le.1 h2
  exact abs_le.2 ⟨by linarith, by linarith⟩

theorem antiferroFl_arr (A : Arith) (S : ConeSums) (E : EnergyObj ℝ) (muB : ℝ) (cell : ℕ → M3 ℝ) {l : List (V3 ℝ)} (hl : l.length = E.spins.length)
    (hn : E.spins ≠ []) (c q : V3 ℝ) : E.antiferroFl A S muB cell (arr l) (vec c) (vec q) =
      .ok (coneUnitFl A.fl S E muB (antiferroCFl A S (normalizeFl A.fl S.axis c) q) cell
        (l.zipIdx.map fun p => normalizeFl A.fl (S.norm p.2) p.1) (normalizeFl A.fl S.axis c)) := by
  simp [antiferroFl, coneInput_arr, orientations_arr hl (by simpa using hn)]

theorem spiralFl_arr (A : Arith) (S : ConeSums) (E : EnergyObj ℝ) (muB : ℝ) (cell : ℕ → M3 ℝ) {l : List (V3 ℝ)} (hl : l.length = E.spins.length)
    (hn : E.spins ≠ []) (c q : V3 ℝ) : E.spiralFl A S muB cell (arr l) (vec c) (vec q) =
      .ok (coneUnitFl A.fl S E muB (spiralCFl A S (normalizeFl A.fl S.axis c) q) cell
        (l.zipIdx.map fun p => normalizeFl A.fl (S.norm p.2) p.1) (normalizeFl A.fl S.axis c)) := by
  simp [spiralFl, coneInput_arr, orientations_arr hl (by simpa using hn)]

theorem depth_lt (h0 : 0 ≤ u) (E : EnergyObj ℝ) (hN : E.coneRoundings d k * u < 1) : (d + 1 : ℕ) * u < 1 := by
  refine lt_of_le_of_lt (mul_le_mul_of_nonneg_right ?_ h0) hN
  exact_mod_cast (show d + 1 ≤ E.coneRoundings d k by unfold coneRoundings; omega)

/-- **C101, `antiferro`.** With rounded floats, and whatever order numpy adds in, the value of `antiferro` differs from the exact energy at
most by `N u / (1 - N u)` times the size of all terms, plus the error of the phases: `(d + 1) u / (1 - (d + 1) u)` times the size of the terms
that turn with the spiral vector, each multiplied by the size of its phase. -/
theorem C101_antiferro (hA : A.Good u k) (E : EnergyObj ℝ) (muB : ℝ) (cell : ℕ → M3 ℝ) (l : List (V3 ℝ)) (c q : V3 ℝ)
    (hl : l.length = E.spins.length) (hn : E.spins ≠ []) (hS : S.Complete E.spins.length d) (hN : E.coneRoundings d k * u < 1) :
    ∃ y y', E.antiferro muB cell (arr l) (vec c) (vec q) = .ok y ∧ E.antiferroFl A S muB cell (arr l) (vec c) (vec q) = .ok y' ∧
      |y' - y| ≤ E.coneBound u (E.coneRoundings d k) d muB antiferroTurn cell (l.map normalize) (normalize c) q := by
  refine ⟨_, _, antiferro_arr E muB cell hl hn c q, antiferroFl_arr A S E muB cell hl hn c q, ?_⟩
  · have hS' : S.Complete l.length d := hl ▸ hS
    have hd := depth_lt hA.fl.nonneg E hN
    refine cone_bound hA.fl E muB cell l c q hS' hN
      (fun b v J => antiferroC_near hA hS' (fun i => normalize_rounded hA.fl hS'.axis c i) q b v J) fun b v J i j => ?_
    exact antiferroC_phase _ J ((Real.abs_cos_sub_cos_le _ _).trans (phase_near hA.fl (hS'.cosine b) hd q v))
      ((Real.abs_sin_sub_sin_le _ _).trans (phase_near hA.fl (hS'.sine b) hd q v)) i j

/-- **C101, `spiral`.** As `C101_antiferro` for the value of `spiral`. -/
theorem C101_spiral (hA : A.Good u k) (E : EnergyObj ℝ) (muB : ℝ) (cell : ℕ → M3 ℝ) (l : List (V3 ℝ)) (c q : V3 ℝ)
    (hl : l.length = E.spins.length) (hn : E.spins ≠ []) (hS : S.Complete E.spins.length d) (hN : E.coneRoundings d k * u < 1) :
    ∃ y y', E.spiral muB cell (arr l) (vec c) (vec q) = .ok y ∧ E.spiralFl A S muB cell (arr l) (vec c) (vec q) = .ok y' ∧
      |y' - y| ≤ E.coneBound u (E.coneRoundings d k) d muB spiralTurn cell (l.map normalize) (normalize c) q := by
  refine ⟨_, _, spiral_arr E muB cell hl hn c q, spiralFl_arr A S E muB cell hl hn c q, ?_⟩
  · have hS' : S.Complete l.length d := hl ▸ hS
    have hd := depth_lt hA.fl.nonneg E hN
    refine cone_bound hA.fl E muB cell l c q hS' hN
      (fun b v J => spiralC_near hA hS' (fun i => normalize_rounded hA.fl hS'.axis c i) q b v J) fun b v J i j => ?_
    exact spiralC_phase _ J ((Real.abs_cos_sub_cos_le _ _).trans (phase_near hA.fl (hS'.cosine b) hd q v))
      ((Real.abs_sin_sub_sin_le _ _).trans (phase_near hA.fl (hS'.sine b) hd q v)) i j

/-- **C101, comparison.** Two spirals are ordered by the computed energies as by the exact ones, if these differ by more than the sum of the
bounds. -/
theorem C101_compare (hA : A.Good u k) (E : EnergyObj ℝ) (muB : ℝ) (cell : ℕ → M3 ℝ) (l l' : List (V3 ℝ)) (c q c' q' : V3 ℝ)
    (hl : l.length = E.spins.length) (hl' : l'.length = E.spins.length) (hn : E.spins ≠ []) {S' : ConeSums}
    (hS : S.Complete E.spins.length d) (hS' : S'.Complete E.spins.length d) (hN : E.coneRoundings d k * u < 1) (y z y' z' : ℝ)
    (hy : E.spiral muB cell (arr l) (vec c) (vec q) = .ok y) (hz : E.spiral muB cell (arr l') (vec c') (vec q') = .ok z)
    (hy' : E.spiralFl A S muB cell (arr l) (vec c) (vec q) = .ok y') (hz' : E.spiralFl A S' muB cell (arr l') (vec c') (vec q') = .ok z')
    (h : y + (E.coneBound u (E.coneRoundings d k) d muB spiralTurn cell (l.map normalize) (normalize c) q +
      E.coneBound u (E.coneRoundings d k) d muB spiralTurn cell (l'.map normalize) (normalize c') q') < z) : y' < z' := by
  obtain ⟨a, b, h1, h2, h3⟩ := C101_spiral hA E muB cell l c q hl hn hS hN
  obtain ⟨a', b', h1', h2', h3'⟩ := C101_spiral hA E muB cell l' c' q' hl' hn hS' hN
  rw [hy] at h1
  rw [hy'] at h2
  rw [hz] at h1'
  rw [hz'] at h2'
  cases h1; cases h2; cases h1'; cases h2'
  have := abs_le.1 h3
  have := abs_le.1 h3'
  linarith

/-- **C101, without a spiral vector.** The error of the phases vanishes. -/
theorem C101_still (hA : A.Good u k) (E : EnergyObj ℝ) (muB : ℝ) (cell : ℕ → M3 ℝ) (l : List (V3 ℝ)) (c : V3 ℝ)
    (hl : l.length = E.spins.length) (hn : E.spins ≠ []) (hS : S.Complete E.spins.length d) (hN : E.coneRoundings d k * u < 1) :
    ∃ y y', E.spiral muB cell (arr l) (vec c) (vec 0) = .ok y ∧ E.spiralFl A S muB cell (arr l) (vec c) (vec 0) = .ok y' ∧
      |y' - y| ≤ gamma u (E.coneRoundings d k) * (E.bondSize (fun _ J => staySize (normalize c) J + spiralTurn (normalize c) J) cell
        (l.map normalize) + E.coneZeemanSize muB (normalize c) (l.map normalize)) := by
  obtain ⟨y, y', h1, h2, h3⟩ := C101_spiral hA E muB cell l c 0 hl hn hS hN
  refine ⟨y, y', h1, h2, h3.trans (le_of_eq ?_)⟩
  have : E.bondSize (fun v J => phaseSize 0 v • spiralTurn (normalize c) J) cell (l.map normalize) = 0 := by
    unfold bondSize
    refine List.sum_eq_zero fun x hx => ?_
    obtain ⟨b, _, rfl⟩ := List.mem_map.1 hx
    simp [phaseSize]
  rw [coneBound, this, mul_zero, add_zero]

theorem cone_sequential_complete (n : ℕ) : (ConeSums.sequential n).Complete n (3 * n + 9) := by
  have h : (Tree.ofList (List.finRange 3)).leaves = Finset.univ.val ∧ (Tree.ofList (List.finRange 3)).depth ≤ 3 * n + 9 :=
    ⟨(leaves_ofList _).1.trans rfl, by rw [(leaves_ofList _).2]; simp⟩
  exact { sequential_complete n with
    axis := h, square := fun _ _ => h, prod := fun _ _ _ _ => h, cosine := fun _ => h, sine := fun _ => h, prime := fun _ _ => h }

/-! An instance: rounding towards zero by the fraction `1/1000`, one spin, one bond with the matrix `1`, a field, and a phase of one. -/
example : ∃ y', (⟨1, [2], [1], [(0, 0, ![1, 0, 0], 0)], some ![1, 0, 0], 10, 1, 0, 0⟩ : EnergyObj ℝ).antiferroFl
      ⟨fun x => x * (999 / 1000), Real.cos, Real.sin⟩
      (ConeSums.sequential 1) 1 (fun _ => 1) (arr [![1, 0, 0]]) (vec ![0, 0, 1]) (vec ![1, 0, 0]) = .ok y' ∧
      |y' - (Real.cos 1 + 2)| ≤ 166 / 834 * 11 + 13 / 987 := by
  have hf : IsRounding (fun x : ℝ => x * (999 / 1000)) (1 / 1000) := ⟨by norm_num, by norm_num, fun x => by
    rw [show x * (999 / 1000) - x = -(1 / 1000 * x) by ring, abs_neg, abs_mul]
    norm_num⟩
  have hA : Arith.Good ⟨fun x => x * (999 / 1000), Real.cos, Real.sin⟩ (1 / 1000) 0 := ⟨hf, fun x => .refl _, fun x => .refl _⟩
  have hnorm : normalize ![1, 0, 0] = ![1, 0, 0] := normalize_of_unit (by simp [IsUnit3])
  have hnorm' : normalize ![0, 0, 1] = ![0, 0, 1] := normalize_of_unit (by simp [IsUnit3])
  obtain ⟨y, y', h1, h2, h3⟩ := C101_antiferro (S := ConeSums.sequential 1) (d := 12) hA
    (⟨1, [2], [1], [(0, 0, ![1, 0, 0], 0)], some ![1, 0, 0], 10, 1, 0, 0⟩ : EnergyObj ℝ) 1 (fun _ => 1) [![1, 0, 0]] ![0, 0, 1] ![1, 0, 0]
    rfl (by simp) (cone_sequential_complete 1) (by norm_num [coneRoundings])
  rw [antiferro_arr _ _ _ rfl (by simp)] at h1
  injection h1 with h1
  refine ⟨y', h2, ?_⟩
  have hy : y = Real.cos 1 + 2 := by
    rw [← h1]
    simp [antiferroUnit, bondSum, zeeman, einsumZeeman, einsum3, hnorm, hnorm', Fin.sum_univ_three, antiferroC, soPrime, coneIKsq, coneK,
      Matrix.mul_apply, Matrix.one_apply, dot3]
  rw [hy] at h3
  refine h3.trans (le_of_eq ?_)
  simp [coneBound, bondSize, coneZeemanSize, staySize, antiferroTurn, squareSize, crossSize, phaseSize, gamma, coneRoundings, hnorm, hnorm',
    Fin.sum_univ_three, Matrix.mul_apply, Matrix.one_apply]
  norm_num

end EnergyObj
end Magnopy
