import Verif.Lemmas.Cone
import Verif.Spec.Cone
import Mathlib.Analysis.SpecialFunctions.Integrals.Basic
import Mathlib.Analysis.SpecialFunctions.Trigonometric.Deriv
import Mathlib.Tactic.NormNum

/-!
# Properties C26-C31: energies of the ferro, antiferro and spiral states

`E` is any `Energy` object, `cell` any contents of the heap (the matrices of its bonds), so the theorems hold
whatever the constructor put there and whatever happened to the parameters later.
-/

set_option autoImplicit false

set_option linter.unusedSectionVars false

namespace Magnopy

open EnergyObj Matrix

theorem rows_arr (l : List (V3 ℝ)) : rows (l.map fun v => [v 0, v 1, v 2]) = .ok l := by
  induction l with
  | nil => rfl
  | cons v l ih =>
    have : EnergyObj.row [v 0, v 1, v 2] = .ok v := by
      simp only [EnergyObj.row]
      congr 1
      ext i; fin_cases i <;> rfl
    simp [rows, this, ih]

theorem orientations_arr {n : ℕ} {l : List (V3 ℝ)} (hl : l.length = n) (hn : n ≠ 0) :
    orientations n (arr l) = .ok l := by
  have : l ≠ [] := by rintro rfl; exact hn hl.symm
  simp [orientations, arr, rows_arr, hl, this]

theorem orientations_arr_error {n : ℕ} {l : List (V3 ℝ)} (hl : ¬ (l.length = n ∧ n ≠ 0)) :
    orientations n (arr l) = .error .valueError := by
  by_cases h : l = []
  · subst h; simp [orientations, arr]
  · have : l.length ≠ n := fun e => hl ⟨e, by rw [← e]; simpa using h⟩
    simp [orientations, arr, rows_arr, h, this]

theorem eta3 (v : V3 ℝ) : ![v 0, v 1, v 2] = v := by
  ext i; fin_cases i <;> rfl

theorem toV3_vec (v : V3 ℝ) : (vec v).toV3 = .ok v := by
  simp only [vec, Param.ArrayLike.toV3]
  congr 1
  ext i; fin_cases i <;> rfl

theorem coneInput_arr (n : ℕ) (l : List (V3 ℝ)) (c q : V3 ℝ) :
    coneInput n (arr l) (vec c) (vec q) =
      match orientations n (arr l) with
      | .error x => .error x
      | .ok e => .ok (e, c, q) := by
  simp only [coneInput, arr, toV3_vec]
  cases orientations n (.rows (l.map fun v => [v 0, v 1, v 2])) <;> rfl

theorem ferro_arr (E : EnergyObj ℝ) (muB : ℝ) (cell : ℕ → M3 ℝ) {l : List (V3 ℝ)} (hl : l.length = E.spins.length)
    (hn : E.spins ≠ []) : E.ferro muB cell (arr l) = .ok (E.ferroUnit muB cell (l.map normalize)) := by
  simp [ferro, orientations_arr hl (by simpa using hn)]

theorem antiferro_arr (E : EnergyObj ℝ) (muB : ℝ) (cell : ℕ → M3 ℝ) {l : List (V3 ℝ)} (hl : l.length = E.spins.length)
    (hn : E.spins ≠ []) (c q : V3 ℝ) : E.antiferro muB cell (arr l) (vec c) (vec q) =
      .ok (E.antiferroUnit muB cell (l.map normalize) (normalize c) q) := by
  simp [antiferro, coneInput_arr, orientations_arr hl (by simpa using hn)]

theorem spiral_arr (E : EnergyObj ℝ) (muB : ℝ) (cell : ℕ → M3 ℝ) {l : List (V3 ℝ)} (hl : l.length = E.spins.length)
    (hn : E.spins ≠ []) (c q : V3 ℝ) : E.spiral muB cell (arr l) (vec c) (vec q) =
      .ok (E.spiralUnit muB cell (l.map normalize) (normalize c) q) := by
  simp [spiral, coneInput_arr, orientations_arr hl (by simpa using hn)]

theorem map_normalize_unit {l : List (V3 ℝ)} (h : ∀ v ∈ l, IsUnit3 v) : l.map normalize = l := by
  conv_rhs => rw [← List.map_id l]
  exact List.map_congr_left fun v hv => normalize_of_unit (h v hv)

/-! ### C26 -/

/-- The vectors of `l`, multiplied by the numbers `xs`. -/
def stretch (xs : List ℝ) (l : List (V3 ℝ)) : List (V3 ℝ) := List.zipWith (fun x v => x • v) xs l

theorem stretch_length {xs : List ℝ} {l : List (V3 ℝ)} (h : xs.length = l.length) : (stretch xs l).length = l.length := by
  simp [stretch, h]

theorem map_normalize_stretch {xs : List ℝ} {l : List (V3 ℝ)} (h : xs.length = l.length) (hx : ∀ x ∈ xs, 0 < x) :
    (stretch xs l).map normalize = l.map normalize := by
  induction l generalizing xs with
  | nil => simp [stretch]
  | cons v l ih =>
    cases xs with
    | nil => simp at h
    | cons x xs =>
      have := ih (xs := xs) (by simpa using h) (fun y hy => hx y (List.mem_cons_of_mem _ hy))
      simp only [stretch] at this
      simp only [stretch, List.zipWith_cons_cons, List.map_cons, this,
        normalize_smul (hx x List.mem_cons_self)]

/-- **C26.** Multiplying the spin vectors and the cone axis by positive numbers changes neither the energies
nor the exceptions, for every Energy object, field, heap and any number of vectors. -/
theorem C26_direction_only (E : EnergyObj ℝ) (muB : ℝ) (cell : ℕ → M3 ℝ) (l : List (V3 ℝ)) (xs : List ℝ)
    (h : xs.length = l.length) (hx : ∀ x ∈ xs, 0 < x) (c q : V3 ℝ) (y : ℝ) (hy : 0 < y) :
    E.ferro muB cell (arr (stretch xs l)) = E.ferro muB cell (arr l) ∧
    E.antiferro muB cell (arr (stretch xs l)) (vec (y • c)) (vec q) = E.antiferro muB cell (arr l) (vec c) (vec q) ∧
    E.spiral muB cell (arr (stretch xs l)) (vec (y • c)) (vec q) = E.spiral muB cell (arr l) (vec c) (vec q) := by
  by_cases hl : l.length = E.spins.length ∧ E.spins.length ≠ 0
  · have hn : E.spins ≠ [] := by simpa using hl.2
    have hs := (stretch_length h).trans hl.1
    rw [ferro_arr E muB cell hs hn, ferro_arr E muB cell hl.1 hn, antiferro_arr E muB cell hs hn,
      antiferro_arr E muB cell hl.1 hn, spiral_arr E muB cell hs hn, spiral_arr E muB cell hl.1 hn,
      map_normalize_stretch h hx, normalize_smul hy]
    exact ⟨rfl, rfl, rfl⟩
  · have e1 := orientations_arr_error hl
    have e2 := orientations_arr_error (n := E.spins.length) (l := stretch xs l) (by rw [stretch_length h]; exact hl)
    simp only [ferro, antiferro, spiral, coneInput_arr, e1, e2, and_self]

/-- **C26 (one spin).** For one spin an array of shape `(3,)` means the same as one of shape `(1, 3)`. -/
theorem C26_single (E : EnergyObj ℝ) (muB : ℝ) (cell : ℕ → M3 ℝ) (h1 : E.spins.length = 1) (v c q : V3 ℝ) :
    E.ferro muB cell (vec v) = E.ferro muB cell (arr [v]) ∧
    E.antiferro muB cell (vec v) (vec c) (vec q) = E.antiferro muB cell (arr [v]) (vec c) (vec q) ∧
    E.spiral muB cell (vec v) (vec c) (vec q) = E.spiral muB cell (arr [v]) (vec c) (vec q) := by
  have e : orientations 1 (vec v) = orientations 1 (arr [v]) := by
    rw [orientations_arr (n := 1) (l := [v]) rfl one_ne_zero]
    have := toV3_vec v
    simp only [vec, Param.ArrayLike.toV3] at this
    simp [orientations, vec, Except.ok.inj this]
  refine ⟨?_, ?_, ?_⟩
  · simp only [ferro, h1, e]
  · simp only [antiferro, coneInput_arr, h1, ← e]
    simp [coneInput, vec, Param.ArrayLike.toV3, orientations, eta3]
  · simp only [spiral, coneInput_arr, h1, ← e]
    simp [coneInput, vec, Param.ArrayLike.toV3, orientations, eta3]

/-! ### C27, C28 -/

/-- The bonds with the matrices they hold now. -/
def EnergyObj.view (E : EnergyObj ℝ) (cell : ℕ → M3 ℝ) : List (ℕ × ℕ × V3 ℝ × M3 ℝ) :=
  E.bonds.map fun b => (b.1, b.2.1, b.2.2.1, cell b.2.2.2)

/-- `conePhase` of an Energy object. -/
noncomputable def EnergyObj.atPhase (E : EnergyObj ℝ) (cell : ℕ → M3 ℝ) (u : List (V3 ℝ)) (n q : V3 ℝ) (φ : ℝ) : ℝ :=
  conePhase E.factor (fun i => E.spins.getD i 0) (E.view cell) (fun i => u.getD i 0) n q φ

theorem dot3_eq (u v : V3 ℝ) : dot3 u v = u ⬝ᵥ v := by
  simp [dot3, dotProduct, Fin.sum_univ_three]

/-- A bond energy at phase `φ` as a trigonometric polynomial. -/
theorem bilin_rotate (n : V3 ℝ) (φ θ : ℝ) (J : M3 ℝ) (u v : V3 ℝ) :
    bilin (rotate n φ u) J (rotate n (φ + θ) v) =
      bilin (par n u) J (par n v) +
      (bilin (par n u) J (perp n v) * Real.cos θ + bilin (par n u) J (crossProduct n v) * Real.sin θ +
        bilin (perp n u) J (par n v)) * Real.cos φ +
      (-(bilin (par n u) J (perp n v)) * Real.sin θ + bilin (par n u) J (crossProduct n v) * Real.cos θ +
        bilin (crossProduct n u) J (par n v)) * Real.sin φ +
      (bilin (perp n u) J (perp n v) * Real.cos θ + bilin (perp n u) J (crossProduct n v) * Real.sin θ) * Real.cos φ ^ 2 +
      (bilin (crossProduct n u) J (crossProduct n v) * Real.cos θ - bilin (crossProduct n u) J (perp n v) * Real.sin θ) *
        Real.sin φ ^ 2 +
      (-(bilin (perp n u) J (perp n v)) * Real.sin θ + bilin (perp n u) J (crossProduct n v) * Real.cos θ +
        bilin (crossProduct n u) J (perp n v) * Real.cos θ + bilin (crossProduct n u) J (crossProduct n v) * Real.sin θ) *
        (Real.sin φ * Real.cos φ) := by
  simp only [rotate_eq, bilin_add_left, bilin_add_right, bilin_smul_left, bilin_smul_right, Real.cos_add, Real.sin_add]
  ring

theorem integral_trig (a b c d e f : ℝ) :
    ∫ φ in (0 : ℝ)..(2 * Real.pi), (a + b * Real.cos φ + c * Real.sin φ + d * Real.cos φ ^ 2 + e * Real.sin φ ^ 2 +
      f * (Real.sin φ * Real.cos φ)) = 2 * Real.pi * a + Real.pi * d + Real.pi * e := by
  have i1 : ∀ g : ℝ → ℝ, Continuous g → IntervalIntegrable g MeasureTheory.volume 0 (2 * Real.pi) :=
    fun g hg => hg.intervalIntegrable _ _
  rw [intervalIntegral.integral_add (i1 _ (by fun_prop)) (i1 _ (by fun_prop)),
    intervalIntegral.integral_add (i1 _ (by fun_prop)) (i1 _ (by fun_prop)),
    intervalIntegral.integral_add (i1 _ (by fun_prop)) (i1 _ (by fun_prop)),
    intervalIntegral.integral_add (i1 _ (by fun_prop)) (i1 _ (by fun_prop)),
    intervalIntegral.integral_add (i1 _ (by fun_prop)) (i1 _ (by fun_prop)),
    intervalIntegral.integral_const_mul, intervalIntegral.integral_const_mul, intervalIntegral.integral_const_mul,
    intervalIntegral.integral_const_mul, intervalIntegral.integral_const_mul, integral_cos, integral_sin,
    integral_cos_sq, integral_sin_sq, integral_sin_mul_cos₁, intervalIntegral.integral_const]
  simp [Real.sin_two_pi, Real.cos_two_pi]
  ring

/-- The phase average of one bond. -/
theorem integral_bond {n : V3 ℝ} (hn : IsUnit3 n) (θ : ℝ) (J : M3 ℝ) (u v : V3 ℝ) :
    ∫ φ in (0 : ℝ)..(2 * Real.pi), bilin (rotate n φ u) J (rotate n (φ + θ) v) =
      2 * Real.pi * bilin u (spiralC n (Real.cos θ) (Real.sin θ) J) v := by
  simp only [bilin_rotate]
  rw [integral_trig, bilin_spiralC hn]
  ring

theorem continuous_bond (n : V3 ℝ) (θ : ℝ) (J : M3 ℝ) (u v : V3 ℝ) :
    Continuous fun φ => bilin (rotate n φ u) J (rotate n (φ + θ) v) := by
  simp only [bilin_rotate]
  fun_prop

theorem continuous_conePhase (f : ℝ) (S : ℕ → ℝ) (bonds : List (ℕ × ℕ × V3 ℝ × M3 ℝ)) (u : ℕ → V3 ℝ) (n q : V3 ℝ) :
    Continuous (conePhase f S bonds u n q) := by
  unfold conePhase
  induction bonds with
  | nil => simpa using continuous_const
  | cons b l ih =>
    simp only [List.map_cons, List.sum_cons]
    exact (continuous_const.mul (continuous_bond n _ _ _ _)).add ih

theorem integral_conePhase (f : ℝ) (S : ℕ → ℝ) (bonds : List (ℕ × ℕ × V3 ℝ × M3 ℝ)) (u : ℕ → V3 ℝ) {n : V3 ℝ}
    (hn : IsUnit3 n) (q : V3 ℝ) :
    ∫ φ in (0 : ℝ)..(2 * Real.pi), conePhase f S bonds u n q φ =
      2 * Real.pi * (bonds.map fun (i, j, d, J) =>
        f * S i * S j * bilin (u i) (spiralC n (Real.cos (dot3 q d)) (Real.sin (dot3 q d)) J) (u j)).sum := by
  induction bonds with
  | nil => simp [conePhase]
  | cons b l ih =>
    have : conePhase f S (b :: l) u n q = fun φ =>
        f * S b.1 * S b.2.1 * bilin (rotate n φ (u b.1)) b.2.2.2 (rotate n (φ + q ⬝ᵥ b.2.2.1) (u b.2.1)) +
          conePhase f S l u n q φ := rfl
    have hc : Continuous fun φ =>
        f * S b.1 * S b.2.1 * bilin (rotate n φ (u b.1)) b.2.2.2 (rotate n (φ + q ⬝ᵥ b.2.2.1) (u b.2.1)) :=
      continuous_const.mul (continuous_bond n _ _ _ _)
    simp only [this]
    rw [intervalIntegral.integral_add (hc.intervalIntegrable _ _)
      ((continuous_conePhase f S l u n q).intervalIntegrable _ _), intervalIntegral.integral_const_mul,
      integral_bond hn, ih]
    simp only [List.map_cons, List.sum_cons, dot3_eq]
    ring

theorem bondSum_view (E : EnergyObj ℝ) (C : V3 ℝ → M3 ℝ → M3 ℝ) (cell : ℕ → M3 ℝ) (e : List (V3 ℝ)) :
    E.bondSum C cell e = ((E.view cell).map fun (i, j, d, J) =>
      E.factor * E.spins.getD i 0 * E.spins.getD j 0 * bilin (e.getD i 0) (C d J) (e.getD j 0)).sum := by
  rw [bondSum, EnergyObj.view, List.map_map]
  rfl

/-- **C27.** Without field the spiral energy is the average of the bond energy over the phase, for all bonds,
unit spins, unit axes and wave vectors (other lengths: C26). -/
theorem C27_spiral_average (E : EnergyObj ℝ) (muB : ℝ) (cell : ℕ → M3 ℝ) (hf : E.field = none) (u : List (V3 ℝ))
    (hl : u.length = E.spins.length) (hne : E.spins ≠ []) (hu : ∀ v ∈ u, IsUnit3 v) (n q : V3 ℝ) (hn : IsUnit3 n) :
    E.spiral muB cell (arr u) (vec n) (vec q) =
      .ok (1 / (2 * Real.pi) * ∫ φ in (0 : ℝ)..(2 * Real.pi), E.atPhase cell u n q φ) := by
  rw [spiral_arr E muB cell hl hne, map_normalize_unit hu, normalize_of_unit hn]
  simp only [EnergyObj.atPhase]
  rw [integral_conePhase _ _ _ _ hn, spiralUnit, zeeman, hf, bondSum_view]
  congr 1
  have : Real.pi ≠ 0 := Real.pi_ne_zero
  field_simp
  rw [add_zero]

/-- One bond at the phases `0` and `π`. -/
theorem bilin_two_phases {n : V3 ℝ} (hn : IsUnit3 n) (θ : ℝ) (J : M3 ℝ) (u v : V3 ℝ) :
    bilin (rotate n 0 u) J (rotate n (0 + θ) v) + bilin (rotate n Real.pi u) J (rotate n (Real.pi + θ) v) =
      2 * bilin u (antiferroC n (Real.cos θ) (Real.sin θ) J) v := by
  rw [bilin_rotate, bilin_rotate, bilin_antiferroC hn]
  simp
  ring

/-- **C28.** Without field the antiferro energy is the average of the bond energies over the two phases `0`
and `π`.  (The code's formula has this property for every `q`, not only if `2q` is a reciprocal vector.) -/
theorem C28_antiferro_average (E : EnergyObj ℝ) (muB : ℝ) (cell : ℕ → M3 ℝ) (hf : E.field = none) (u : List (V3 ℝ))
    (hl : u.length = E.spins.length) (hne : E.spins ≠ []) (hu : ∀ v ∈ u, IsUnit3 v) (n q : V3 ℝ) (hn : IsUnit3 n) :
    E.antiferro muB cell (arr u) (vec n) (vec q) =
      .ok ((E.atPhase cell u n q 0 + E.atPhase cell u n q Real.pi) / 2) := by
  rw [antiferro_arr E muB cell hl hne, map_normalize_unit hu, normalize_of_unit hn, EnergyObj.atPhase,
    EnergyObj.atPhase, antiferroUnit, zeeman, hf, bondSum_view, add_zero]
  congr 1
  rw [eq_div_iff two_ne_zero]
  simp only [conePhase]
  induction E.view cell with
  | nil => simp
  | cons b l ih =>
    simp only [List.map_cons, List.sum_cons, dot3_eq] at ih ⊢
    have := bilin_two_phases hn (q ⬝ᵥ b.2.2.1) b.2.2.2 (u.getD b.1 0) (u.getD b.2.1 0)
    linear_combination ih - E.factor * E.spins.getD b.1 0 * E.spins.getD b.2.1 0 * this

/-! ### C29 -/

theorem bondSum_congr {E : EnergyObj ℝ} {C C' : V3 ℝ → M3 ℝ → M3 ℝ} {cell : ℕ → M3 ℝ} {e e' : List (V3 ℝ)}
    (h : ∀ i j d r, (i, j, d, r) ∈ E.bonds →
      bilin (e.getD i 0) (C d (cell r)) (e.getD j 0) = bilin (e'.getD i 0) (C' d (cell r)) (e'.getD j 0)) :
    E.bondSum C cell e = E.bondSum C' cell e' := by
  unfold bondSum
  congr 1
  refine List.map_congr_left fun b hb => ?_
  obtain ⟨i, j, d, r⟩ := b
  show _ * _ = _ * _
  rw [einsum3_eq_bilin, einsum3_eq_bilin, h i j d r hb]

theorem getD_map_rotate (l : List (V3 ℝ)) (n : V3 ℝ) (α : ℝ) (i : ℕ) :
    (l.map (rotate n α)).getD i 0 = rotate n α (l.getD i 0) := by
  have h0 : rotate n α 0 = 0 := by simp [rotate]
  simp only [List.getD_eq_getElem?_getD, List.getElem?_map]
  cases l[i]? with
  | none => simp [h0]
  | some v => simp

/-- **C29 (rotation).** Without field, rotating all spins by a common angle about the cone axis does not change
the spiral energy. -/
theorem C29_rotation_partial (E : EnergyObj ℝ) (muB : ℝ) (cell : ℕ → M3 ℝ) (hf : E.field = none) (u : List (V3 ℝ))
    (hu : ∀ v ∈ u, IsUnit3 v) (n q : V3 ℝ) (hn : IsUnit3 n) (α : ℝ) :
    E.spiral muB cell (arr (u.map (rotate n α))) (vec n) (vec q) = E.spiral muB cell (arr u) (vec n) (vec q) := by
  by_cases hl : u.length = E.spins.length ∧ E.spins.length ≠ 0
  · have hne : E.spins ≠ [] := by simpa using hl.2
    rw [spiral_arr E muB cell hl.1 hne, spiral_arr E muB cell (by simpa using hl.1) hne, map_normalize_unit hu,
      map_normalize_unit (by
        intro v hv
        obtain ⟨w, hw, rfl⟩ := List.mem_map.1 hv
        exact rotate_unit hn α (hu w hw)), normalize_of_unit hn, spiralUnit, spiralUnit, zeeman, zeeman, hf]
    congr 2
    refine bondSum_congr fun i j d r _ => ?_
    rw [getD_map_rotate, getD_map_rotate, bilin_spiralC hn, bilin_spiralC hn, par_rotate hn, par_rotate hn,
      perp_rotate hn, perp_rotate hn, cross_rotate hn, cross_rotate hn]
    simp only [bilin_add_left, bilin_add_right, bilin_sub_left, bilin_sub_right, bilin_smul_left, bilin_smul_right]
    have := Real.cos_sq_add_sin_sq α
    generalize Real.cos α = c at *
    generalize Real.sin α = s at *
    generalize bilin (perp n (u.getD i 0)) (cell r) (perp n (u.getD j 0)) = x1
    generalize bilin (perp n (u.getD i 0)) (cell r) (crossProduct n (u.getD j 0)) = x2
    generalize bilin (crossProduct n (u.getD i 0)) (cell r) (perp n (u.getD j 0)) = x3
    generalize bilin (crossProduct n (u.getD i 0)) (cell r) (crossProduct n (u.getD j 0)) = x4
    linear_combination (Real.cos (dot3 q d) / 2 * (x1 + x4) + Real.sin (dot3 q d) / 2 * (x2 - x3)) * this
  · have e1 := orientations_arr_error hl
    have e2 := orientations_arr_error (n := E.spins.length) (l := u.map (rotate n α)) (by simpa using hl)
    simp only [spiral, coneInput_arr, e1, e2]

/-- **C29 (periodicity).** Adding to `q` a vector whose product with every bond vector is a multiple of `2π`
does not change the spiral energy, with or without field. -/
theorem C29_periodic (E : EnergyObj ℝ) (muB : ℝ) (cell : ℕ → M3 ℝ) (so : Param.ArrayLike ℝ) (c q g : V3 ℝ)
    (hg : ∀ b ∈ E.bonds, ∃ k : ℤ, g ⬝ᵥ b.2.2.1 = k * (2 * Real.pi)) :
    E.spiral muB cell so (vec c) (vec (q + g)) = E.spiral muB cell so (vec c) (vec q) := by
  have key : ∀ e, E.spiralUnit muB cell e (normalize c) (q + g) = E.spiralUnit muB cell e (normalize c) q := by
    intro e
    unfold spiralUnit
    congr 1
    refine bondSum_congr fun i j d r hb => ?_
    obtain ⟨k, hk⟩ := hg _ hb
    have : dot3 (q + g) d = dot3 q d + k * (2 * Real.pi) := by
      rw [dot3_eq, dot3_eq, add_dotProduct]; simp only at hk; rw [hk]
    rw [this, Real.cos_add_int_mul_two_pi, Real.sin_add_int_mul_two_pi]
  simp only [spiral, coneInput, toV3_vec]
  cases so with
  | number x => rfl
  | vector xs => cases h : orientations E.spins.length (.vector xs) <;> simp [h, key]
  | rows xs => cases h : orientations E.spins.length (.rows xs) <;> simp [h, key]
  | bad => rfl

theorem normalize_neg (v : V3 ℝ) : normalize (-v) = -normalize v := by
  ext i; simp [EnergyObj.normalize, norm3, neg_div]

theorem coneK_neg (n : V3 ℝ) : coneK (-n) = -coneK n := by
  ext i j; fin_cases i <;> fin_cases j <;> simp [coneK]

theorem coneIKsq_neg (n : V3 ℝ) : coneIKsq (-n) = coneIKsq n := by
  simp [coneIKsq, coneK_neg]

theorem spiralC_neg (n : V3 ℝ) (c s : ℝ) (J : M3 ℝ) : spiralC (-n) c (-s) J = spiralC n c s J := by
  have h2 : coneK (-n) * coneK (-n) = coneK n * coneK n := by rw [coneK_neg, neg_mul_neg]
  rw [spiralC, spiralC, coneIKsq_neg, h2, coneK_neg]
  generalize coneK n = k
  generalize k * k = kk
  have e1 : -k * J * -k = k * J * k := by rw [Matrix.neg_mul, neg_mul_neg]
  have e2 : -k * J * kk + kk * J * -k = -(k * J * kk + kk * J * k) := by
    rw [Matrix.neg_mul, Matrix.neg_mul, Matrix.mul_neg, neg_add]
  rw [e1, e2, neg_div, neg_smul_neg]

theorem spiralUnit_neg (E : EnergyObj ℝ) (muB : ℝ) (cell : ℕ → M3 ℝ) (e : List (V3 ℝ)) (n q : V3 ℝ) :
    E.spiralUnit muB cell e (-n) (-q) = E.spiralUnit muB cell e n q := by
  have hs : soPrime (-n) e = soPrime n e := by simp only [soPrime, coneIKsq_neg]
  have hd : ∀ d, dot3 (-q) d = - dot3 q d := fun d => by rw [dot3_eq, dot3_eq, neg_dotProduct]
  simp only [spiralUnit, hs, hd, Real.cos_neg, Real.sin_neg, spiralC_neg]

/-- **C29 (reversal).** Reversing the cone axis and the wave vector changes nothing, with or without field. -/
theorem C29_reversal (E : EnergyObj ℝ) (muB : ℝ) (cell : ℕ → M3 ℝ) (so : Param.ArrayLike ℝ) (c q : V3 ℝ) :
    E.spiral muB cell so (vec (-c)) (vec (-q)) = E.spiral muB cell so (vec c) (vec q) := by
  have key : ∀ e, E.spiralUnit muB cell e (normalize (-c)) (-q) = E.spiralUnit muB cell e (normalize c) q :=
    fun e => by rw [normalize_neg, spiralUnit_neg]
  simp only [spiral, coneInput, toV3_vec]
  cases so with
  | number x => rfl
  | vector xs => cases h : orientations E.spins.length (.vector xs) <;> simp [h, key]
  | rows xs => cases h : orientations E.spins.length (.rows xs) <;> simp [h, key]
  | bad => rfl

/-- **C29 (isotropic exchange).** If all matrices are multiples of the unit matrix, the spiral energy at `q = 0`
without field is the ferro energy, for every cone axis. -/
theorem C29_isotropic (E : EnergyObj ℝ) (muB : ℝ) (cell : ℕ → M3 ℝ) (hf : E.field = none) (u : List (V3 ℝ))
    (hiso : ∀ b ∈ E.bonds, ∃ x : ℝ, cell b.2.2.2 = x • (1 : M3 ℝ)) (c : V3 ℝ) (hc : c ≠ 0) :
    E.spiral muB cell (arr u) (vec c) (vec 0) = E.ferro muB cell (arr u) := by
  by_cases hl : u.length = E.spins.length ∧ E.spins.length ≠ 0
  · have hne : E.spins ≠ [] := by simpa using hl.2
    rw [spiral_arr E muB cell hl.1 hne, ferro_arr E muB cell hl.1 hne, spiralUnit, ferroUnit, zeeman, zeeman, hf]
    congr 2
    have hn : IsUnit3 (normalize c) := normalize_unit hc
    refine bondSum_congr fun i j d r hb => ?_
    obtain ⟨x, hx⟩ := hiso _ hb
    simp only at hx
    have h0 : dot3 (0 : V3 ℝ) d = 0 := by simp [dot3]
    have hid : ∀ a b : V3 ℝ, bilin a (x • (1 : M3 ℝ)) b = x * (a ⬝ᵥ b) := fun a b => by
      rw [bilin_smul_mat, bilin_eq_dot, one_mulVec]
    rw [h0, hx, Real.cos_zero, Real.sin_zero, bilin_spiralC hn, hid, hid, hid, hid, hid, hid, par_dot_par hn,
      perp_dot_perp hn, crs_dot_crs hn]
    ring
  · have e1 := orientations_arr_error hl
    simp only [spiral, ferro, coneInput_arr, e1]

/-! ### C30 -/

/-- `Σ g_i h·v_i`. -/
def fieldSum (g : List ℝ) (h : V3 ℝ) (v : List (V3 ℝ)) : ℝ := (List.zipWith (fun x w => x * (h ⬝ᵥ w)) g v).sum

/-- `Σ g_i S_i h·v_i`. -/
def momentSum (g S : List ℝ) (h : V3 ℝ) (v : List (V3 ℝ)) : ℝ := fieldSum (List.zipWith (· * ·) g S) h v

theorem einsumZeeman_eq (g : List ℝ) (h : V3 ℝ) (v : List (V3 ℝ)) : einsumZeeman g h v = fieldSum g h v := by
  have : ∀ (x : ℝ) (w : V3 ℝ), ∑ j, x * h j * w j = x * (h ⬝ᵥ w) := fun x w => by
    simp [dotProduct, Finset.mul_sum, mul_assoc]
  simp only [einsumZeeman, fieldSum, this]

theorem soPrime_eq {n : V3 ℝ} (hn : IsUnit3 n) (e : List (V3 ℝ)) : soPrime n e = e.map fun v => v + project n v := by
  unfold soPrime
  refine List.map_congr_left fun v _ => ?_
  have : (1 + coneIKsq n) *ᵥ v = v + project n v := by
    rw [add_mulVec, one_mulVec, coneIKsq_unit hn]; rfl
  rw [← this]; rfl

/-- **C30, exact value (ferro).** The field contribution is `μ_B Σ g_i h·e_i`: the lengths of the spins are missing. -/
theorem C30_ferro_exact (E : EnergyObj ℝ) (muB : ℝ) (cell : ℕ → M3 ℝ) (h : V3 ℝ) (u : List (V3 ℝ))
    (hl : u.length = E.spins.length) (hne : E.spins ≠ []) (hu : ∀ v ∈ u, IsUnit3 v) :
    ∃ x, EnergyObj.ferro { E with field := none } muB cell (arr u) = .ok x ∧
      EnergyObj.ferro { E with field := some h } muB cell (arr u) = .ok (x + muB * fieldSum E.gFactors h u) := by
  refine ⟨_, ferro_arr { E with field := none } muB cell hl hne, ?_⟩
  rw [ferro_arr { E with field := some h } muB cell hl hne, map_normalize_unit hu]
  simp only [ferroUnit, zeeman, einsumZeeman_eq, add_zero]
  rfl

/-- **C30, exact value (antiferro and spiral).** The field contribution is `μ_B Σ g_i h·(e_i + P e_i)` where `P`
projects on the cone axis. -/
theorem C30_cone_exact (E : EnergyObj ℝ) (muB : ℝ) (cell : ℕ → M3 ℝ) (h : V3 ℝ) (u : List (V3 ℝ))
    (hl : u.length = E.spins.length) (hne : E.spins ≠ []) (hu : ∀ v ∈ u, IsUnit3 v) (n q : V3 ℝ) (hn : IsUnit3 n) :
    (∃ x, EnergyObj.antiferro { E with field := none } muB cell (arr u) (vec n) (vec q) = .ok x ∧
      EnergyObj.antiferro { E with field := some h } muB cell (arr u) (vec n) (vec q) =
        .ok (x + muB * fieldSum E.gFactors h (u.map fun v => v + project n v))) ∧
    (∃ x, EnergyObj.spiral { E with field := none } muB cell (arr u) (vec n) (vec q) = .ok x ∧
      EnergyObj.spiral { E with field := some h } muB cell (arr u) (vec n) (vec q) =
        .ok (x + muB * fieldSum E.gFactors h (u.map fun v => v + project n v))) := by
  constructor
  · refine ⟨_, antiferro_arr { E with field := none } muB cell hl hne n q, ?_⟩
    rw [antiferro_arr { E with field := some h } muB cell hl hne, map_normalize_unit hu, normalize_of_unit hn]
    simp only [antiferroUnit, zeeman, einsumZeeman_eq, add_zero, soPrime_eq hn]
    rfl
  · refine ⟨_, spiral_arr { E with field := none } muB cell hl hne n q, ?_⟩
    rw [spiral_arr { E with field := some h } muB cell hl hne, map_normalize_unit hu, normalize_of_unit hn]
    simp only [spiralUnit, zeeman, einsumZeeman_eq, add_zero, soPrime_eq hn]
    rfl

/-- The full statement of C30 for the ferro case. -/
def C30_ferro_statement : Prop :=
  ∀ (E : EnergyObj ℝ) (muB : ℝ) (cell : ℕ → M3 ℝ) (h : V3 ℝ) (u : List (V3 ℝ)), u.length = E.spins.length →
    E.gFactors.length = E.spins.length → E.spins ≠ [] → (∀ v ∈ u, IsUnit3 v) →
    ∃ x, EnergyObj.ferro { E with field := none } muB cell (arr u) = .ok x ∧
      EnergyObj.ferro { E with field := some h } muB cell (arr u) = .ok (x + muB * momentSum E.gFactors E.spins h u)

/-- The full statement of C30 for the spiral case. -/
def C30_spiral_statement : Prop :=
  ∀ (E : EnergyObj ℝ) (muB : ℝ) (cell : ℕ → M3 ℝ) (h : V3 ℝ) (u : List (V3 ℝ)) (n q : V3 ℝ),
    u.length = E.spins.length → E.gFactors.length = E.spins.length → E.spins ≠ [] → (∀ v ∈ u, IsUnit3 v) → IsUnit3 n →
    ∃ x, EnergyObj.spiral { E with field := none } muB cell (arr u) (vec n) (vec q) = .ok x ∧
      EnergyObj.spiral { E with field := some h } muB cell (arr u) (vec n) (vec q) =
        .ok (x + muB * momentSum E.gFactors E.spins h (u.map (project n)))

/-- **C30, partial (ferro).** The ferro contribution is right iff `Σ g_i (S_i - 1) h·e_i` vanishes, in particular if
all spins have length one. -/
theorem C30_ferro_partial (E : EnergyObj ℝ) (muB : ℝ) (cell : ℕ → M3 ℝ) (h : V3 ℝ) (u : List (V3 ℝ))
    (hl : u.length = E.spins.length) (hg : E.gFactors.length = E.spins.length) (hne : E.spins ≠ [])
    (hu : ∀ v ∈ u, IsUnit3 v) (h1 : ∀ S ∈ E.spins, S = 1) :
    ∃ x, EnergyObj.ferro { E with field := none } muB cell (arr u) = .ok x ∧
      EnergyObj.ferro { E with field := some h } muB cell (arr u) =
        .ok (x + muB * momentSum E.gFactors E.spins h u) := by
  obtain ⟨x, hx, hy⟩ := C30_ferro_exact E muB cell h u hl hne hu
  refine ⟨x, hx, ?_⟩
  have : List.zipWith (· * ·) E.gFactors E.spins = E.gFactors := by
    clear hx hy hl hne
    generalize E.gFactors = g at *
    generalize E.spins = S at *
    induction g generalizing S with
    | nil => simp
    | cons a g ih =>
      cases S with
      | nil => simp at hg
      | cons b S =>
        rw [List.zipWith_cons_cons, h1 b List.mem_cons_self, mul_one,
          ih S (fun y hy => h1 y (List.mem_cons_of_mem _ hy)) (by simpa using hg)]
  rw [hy, momentSum, this]

namespace ConeExample

/-- One atom with spin 2 and g factor 2, one isotropic bond along x. -/
noncomputable def E : EnergyObj ℝ :=
  { factor := 1, gFactors := [2], spins := [2], bonds := [(0, 0, ![1, 0, 0], 0)], field := none, m := 10,
    wolfeIterMax := 10000, wolfeC1 := 1 / 10000, wolfeC2 := 9 / 10 }

/-- The unit vectors along x and z. -/
def ex : V3 ℝ := ![1, 0, 0]
def ez : V3 ℝ := ![0, 0, 1]

theorem ex_unit : IsUnit3 ex := by simp [IsUnit3, ex, dotProduct, Fin.sum_univ_three]
theorem ez_unit : IsUnit3 ez := by simp [IsUnit3, ez, dotProduct, Fin.sum_univ_three]

end ConeExample

open ConeExample in
/-- **C30 is false of the code (ferro)**: spin 2 along the field. -/
theorem C30_ferro_false : ¬ C30_ferro_statement := by
  intro H
  obtain ⟨x, hx, hy⟩ := H E 1 (fun _ => 1) ez [ez] rfl rfl (by simp [E]) (by simpa using ez_unit)
  obtain ⟨x', hx', hy'⟩ := C30_ferro_exact E 1 (fun _ => 1) ez [ez] rfl (by simp [E]) (by simpa using ez_unit)
  rw [hx] at hx'
  cases hx'
  rw [hy] at hy'
  have := Except.ok.inj hy'
  simp [momentSum, fieldSum, E, ez, dotProduct, Fin.sum_univ_three] at this

open ConeExample in
/-- **C30 is false of the code (spiral)**, even for the part that does not depend on the length of the spin: a spin
perpendicular to the cone axis has no average moment, but the code counts it. -/
theorem C30_spiral_false : ¬ C30_spiral_statement := by
  intro H
  obtain ⟨x, hx, hy⟩ := H E 1 (fun _ => 1) ex [ex] ez 0 rfl rfl (by simp [E]) (by simpa using ex_unit) ez_unit
  obtain ⟨x', hx', hy'⟩ := (C30_cone_exact E 1 (fun _ => 1) ex [ex] rfl (by simp [E]) (by simpa using ex_unit) ez 0
    ez_unit).2
  rw [hx] at hx'
  cases hx'
  rw [hy] at hy'
  have := Except.ok.inj hy'
  simp [momentSum, fieldSum, E, ex, ez, project, dotProduct, Fin.sum_univ_three] at this

open ConeExample in
/-- **C29 (rotation) is false with a field**: the energy of a spin perpendicular to the cone axis changes when the
spins are rotated about the axis, because of C30. -/
theorem C29_rotation_field_false : ¬ ∀ (E : EnergyObj ℝ) (muB : ℝ) (cell : ℕ → M3 ℝ) (u : List (V3 ℝ))
    (_ : ∀ v ∈ u, IsUnit3 v) (n q : V3 ℝ) (_ : IsUnit3 n) (α : ℝ),
    E.spiral muB cell (arr (u.map (rotate n α))) (vec n) (vec q) = E.spiral muB cell (arr u) (vec n) (vec q) := by
  intro H
  have h1 := H { E with field := some ex } 1 (fun _ => 0) [ex] (by simpa using ex_unit) ez 0 ez_unit Real.pi
  have hr : [ex].map (rotate ez Real.pi) = [-ex] := by
    simp only [List.map_cons, List.map_nil, rotate, Real.cos_pi, Real.sin_pi]
    congr 1
    ext i
    fin_cases i <;> simp [ex, ez, dotProduct, Fin.sum_univ_three]
  have hu : IsUnit3 (-ex) := by simpa [IsUnit3] using ex_unit
  rw [hr] at h1
  obtain ⟨x, hx, hy⟩ := (C30_cone_exact E 1 (fun _ => 0) ex [ex] rfl (by simp [E]) (by simpa using ex_unit) ez 0
    ez_unit).2
  obtain ⟨x', hx', hy'⟩ := (C30_cone_exact E 1 (fun _ => 0) ex [-ex] rfl (by simp [E]) (by simpa using hu) ez 0
    ez_unit).2
  have h0 := C29_rotation_partial { E with field := none } 1 (fun _ => 0) rfl [ex] (by simpa using ex_unit) ez 0
    ez_unit Real.pi
  rw [hr, hx, hx'] at h0
  rw [hy, hy'] at h1
  have e0 := Except.ok.inj h0
  have e1 := Except.ok.inj h1
  rw [e0] at e1
  simp [fieldSum, E, ex, ez, project, dotProduct, Fin.sum_univ_three] at e1
  norm_num at e1

/-! ### C31 -/

/-- **C31.** The spiral part of the gradient is the derivative of the spiral energy along every direction `p` of the
wave vector, with or without field. -/
theorem C31_q_gradient (E : EnergyObj ℝ) (muB : ℝ) (cell : ℕ → M3 ℝ) (u : List (V3 ℝ))
    (hl : u.length = E.spins.length) (hne : E.spins ≠ []) (hu : ∀ v ∈ u, IsUnit3 v) (n q : V3 ℝ) (hn : IsUnit3 n)
    (p : V3 ℝ) :
    ∃ f : ℝ → ℝ, (∀ t, E.spiral muB cell (arr u) (vec n) (vec (q + t • p)) = .ok (f t)) ∧
      HasDerivAt f (E.spiralGradQ cell u n q ⬝ᵥ p) 0 := by
  refine ⟨fun t => E.spiralUnit muB cell u n (q + t • p), fun t => ?_, ?_⟩
  · rw [spiral_arr E muB cell hl hne, map_normalize_unit hu, normalize_of_unit hn]
  · unfold spiralUnit
    refine HasDerivAt.add_const _ ?_
    unfold bondSum spiralGradQ
    induction E.bonds with
    | nil => simpa using hasDerivAt_const (0 : ℝ) (0 : ℝ)
    | cons b l ih =>
      obtain ⟨i, j, d, r⟩ := b
      simp only [List.map_cons, List.sum_cons, add_dotProduct]
      refine HasDerivAt.add ?_ ih
      simp only [einsum3_eq_bilin, bilin_spiralC hn, bilin_spiralGradC hn]
      generalize bilin (perp n (u.getD i 0)) (cell r) (perp n (u.getD j 0)) +
        bilin (crossProduct n (u.getD i 0)) (cell r) (crossProduct n (u.getD j 0)) = x1
      generalize bilin (perp n (u.getD i 0)) (cell r) (crossProduct n (u.getD j 0)) -
        bilin (crossProduct n (u.getD i 0)) (cell r) (perp n (u.getD j 0)) = x2
      generalize bilin (par n (u.getD i 0)) (cell r) (par n (u.getD j 0)) = x0
      have hd : HasDerivAt (fun t : ℝ => dot3 (q + t • p) d) (dot3 p d) 0 := by
        have : (fun t : ℝ => dot3 (q + t • p) d) = fun t => dot3 q d + t * dot3 p d := by
          funext t; simp [dot3]; ring
        rw [this]
        simpa using ((hasDerivAt_id (0 : ℝ)).mul_const (dot3 p d)).const_add (dot3 q d)
      have hc := hd.cos
      have hs := hd.sin
      have e0 : dot3 (q + (0 : ℝ) • p) d = dot3 q d := by simp
      rw [e0] at hc hs
      have := ((((hc.div_const 2).mul_const x1).const_add x0).add ((hs.div_const 2).mul_const x2)).const_mul
        (E.factor * E.spins.getD i 0 * E.spins.getD j 0)
      refine this.congr_deriv ?_
      have : (fun c => d c * (E.factor * E.spins.getD i 0 * E.spins.getD j 0 *
          (-(Real.sin (dot3 q d) / 2) * x1 + Real.cos (dot3 q d) / 2 * x2))) ⬝ᵥ p =
          dot3 p d * (E.factor * E.spins.getD i 0 * E.spins.getD j 0 *
          (-(Real.sin (dot3 q d) / 2) * x1 + Real.cos (dot3 q d) / 2 * x2)) := by
        simp [dotProduct, Fin.sum_univ_three, dot3]; ring
      rw [this]
      ring

open ConeExample in
/-- Hypotheses of C26-C31: an object with one bond of non-zero length, unit vectors along x and z. -/
example : E.field = none ∧ [ex].length = E.spins.length ∧ E.spins ≠ [] ∧ (∀ v ∈ [ex], IsUnit3 v) ∧ IsUnit3 ez ∧
    E.bonds.length = 1 ∧ (∀ b ∈ E.bonds, ∃ x : ℝ, (fun _ => (3 : ℝ) • (1 : M3 ℝ)) b.2.2.2 = x • (1 : M3 ℝ)) ∧
    (∀ b ∈ E.bonds, ∃ k : ℤ, ((2 * Real.pi) • ex) ⬝ᵥ b.2.2.1 = k * (2 * Real.pi)) :=
  ⟨rfl, rfl, by simp [E], by simpa using ex_unit, ez_unit, rfl, fun _ _ => ⟨3, rfl⟩, fun b hb => ⟨1, by
    simp only [E, List.mem_singleton] at hb
    subst hb
    simp [ex, dotProduct, Fin.sum_univ_three]⟩⟩

open ConeExample in
/-- The spiral energy of the example is `12 cos q_x` for a spin perpendicular to the axis (`J = 3`). -/
example (q : V3 ℝ) : E.spiral 1 (fun _ => (3 : ℝ) • 1) (arr [ex]) (vec ez) (vec q) = .ok (12 * Real.cos (q 0)) := by
  rw [spiral_arr E 1 _ rfl (by simp [E]), map_normalize_unit (by simpa using ex_unit), normalize_of_unit ez_unit]
  congr 1
  simp only [spiralUnit, zeeman, E, bondSum, List.map_cons, List.map_nil, List.sum_cons, List.sum_nil,
    einsum3_eq_bilin]
  rw [bilin_spiralC ez_unit]
  have hid : ∀ a b : V3 ℝ, bilin a ((3 : ℝ) • (1 : M3 ℝ)) b = 3 * (a ⬝ᵥ b) := fun a b => by
    rw [bilin_smul_mat, bilin_eq_dot, one_mulVec]
  simp only [hid]
  simp [bilin_eq_dot, par, perp, ex, ez, dot3, dotProduct, Fin.sum_univ_three, cross_apply]
  ring

end Magnopy
