import Verif.Lemmas.TorqueConeRounding
import Verif.Props.EnergyConeRounding
import Verif.Props.TorqueRounding

/-!
# Property C108: round-off of the torques of the minimisation, cone states
-/

set_option autoImplicit false

set_option linter.unusedSectionVars false

namespace Magnopy
namespace Optimize

open EnergyObj Matrix

variable {u : ℝ} {A : Arith} {k d : ℕ}

theorem dropLast_getD (l : List (V3 ℝ)) {m : ℕ} (hl : l.length = m + 1) (i : ℕ) :
    l.dropLast.getD i 0 = if i < m then l.getD i 0 else 0 := by
  by_cases h : i < m
  · rw [if_pos h, List.getD_eq_getElem?_getD, List.getD_eq_getElem?_getD, List.getElem?_dropLast, if_pos (by omega)]
  · rw [if_neg h, List.getD_eq_getElem?_getD, List.getElem?_dropLast, if_neg (by omega)]
    rfl

theorem getLastD_getD (l : List (V3 ℝ)) {m : ℕ} (hl : l.length = m + 1) : l.getLastD 0 = l.getD m 0 := by
  rw [List.getLastD_eq_getLast?, List.getLast?_eq_getElem?, hl]
  rfl

theorem ne_zero_of_norm {v : V3 ℝ} (h : 0 < norm3 v) : v ≠ 0 := by
  rintro rfl
  simp [norm3] at h

theorem near_lists {m : ℕ} {l l' : List (V3 ℝ)} {D : ℝ} (hl : l.length = m + 1) (hl' : l'.length = m + 1) (hD : 0 ≤ D) (hD' : D ≤ 1 / 50)
    (h : ∀ k < m + 1, ∀ a, |l.getD k 0 a - l'.getD k 0 a| ≤ D) (hn : ∀ k < m + 1, 98 / 100 ≤ norm3 (l.getD k 0)) (i : ℕ) :
    Near2 (EnergyObj.normalize (l.getLastD 0)) (EnergyObj.normalize (l'.getLastD 0)) ((l.dropLast.map EnergyObj.normalize).getD i 0)
      ((l'.dropLast.map EnergyObj.normalize).getD i 0) (4 * D) := by
  have h1 := norm3_close (h m (by omega))
  have h2 := hn m (by omega)
  have h3 : 0 < norm3 (l'.getD m 0) := by linarith [(abs_le.1 h1).2]
  rw [getLastD_getD l hl, getLastD_getD l' hl', getD_normalize, getD_normalize, dropLast_getD l hl, dropLast_getD l' hl']
  refine ⟨normalize_unit (ne_zero_of_norm (by linarith)), normalize_unit (ne_zero_of_norm h3), normalize_dot_le _, normalize_dot_le _,
    normalize_close (h m (by omega)) h2, fun a => ?_⟩
  by_cases hi : i < m
  · rw [if_pos hi, if_pos hi]
    exact normalize_close (h i (by omega)) (hn i (by omega)) a
  · rw [if_neg hi, if_neg hi, sub_self, abs_zero]
    linarith

theorem cone_sum {g g' Φ X Y a b c : ℝ} (hg : 0 ≤ g) (hg' : 0 ≤ g') (hΦ : 0 ≤ Φ) (hX : 0 ≤ X) (hY : 0 ≤ Y) (h1 : a ≤ 9 * 28 * X)
    (h2 : b ≤ 9 * (12 * Φ) * X) (h3 : c ≤ 15 * Y) : g * (a + c) + g' * b ≤ (9 * g + 4 * Φ * g') * (30 * (X + Y)) := by
  have k1 := mul_le_mul_of_nonneg_left (add_le_add h1 h3) hg
  have k2 := mul_le_mul_of_nonneg_left h2 hg'
  have k3 : 0 ≤ g * X := mul_nonneg hg hX
  have k4 : 0 ≤ g * Y := mul_nonneg hg hY
  have k5 : 0 ≤ g' * Φ * X := mul_nonneg (mul_nonneg hg' hΦ) hX
  have k6 : 0 ≤ g' * Φ * Y := mul_nonneg (mul_nonneg hg' hΦ) hY
  refine (add_le_add k1 k2).trans ?_
  nlinarith

/-- The bound of C101 in terms of the strength of the interactions, for phases of size at most `Φ`. -/
theorem coneBound_le (hu : 0 ≤ u) (E : EnergyObj ℝ) (muB : ℝ) (cell : ℕ → M3 ℝ) {N : ℕ} (hN : N * u < 1) (hd : (d + 1 : ℕ) * u < 1)
    {turn : V3 ℝ → M3 ℝ → M3 ℝ} {n q : V3 ℝ} (hn : n ⬝ᵥ n ≤ 1) {e : List (V3 ℝ)} (he : ∀ k a, |e.getD k 0 a| ≤ 1)
    (ht : ∀ J i j, 0 ≤ turn n J i j ∧ turn n J i j ≤ 12 * ∑ k, ∑ l, |J k l|) {Φ : ℝ} (hΦ : 0 ≤ Φ) (hq : ∀ b ∈ E.bonds, phaseSize q b.2.2.1 ≤ Φ) :
    E.coneBound u N d muB turn cell e n q ≤ (9 * gamma u N + 4 * Φ * gamma u (d + 1)) * (30 * strength E muB cell) := by
  have h1 := bondSize_le E cell (M := fun _ J => staySize n J + turn n J) (m := 28) he fun b _ J i j => by
    have a1 := stay_entry hn J i j
    have a2 := ht J i j
    rw [Matrix.add_apply]
    constructor <;> linarith [a1.1, a1.2, a2.1, a2.2]
  have h2 := bondSize_le E cell (M := fun v J => phaseSize q v • turn n J) (m := 12 * Φ) he fun b hb J i j => by
    have a2 := ht J i j
    have a3 : 0 ≤ phaseSize q b.2.2.1 := Finset.sum_nonneg fun _ _ => by positivity
    rw [Matrix.smul_apply, smul_eq_mul]
    refine ⟨mul_nonneg a3 a2.1, ?_⟩
    have := mul_le_mul (hq b hb) a2.2 a2.1 hΦ
    linarith
  have h3 := coneZeeman_le E muB hn he
  have hg : 0 ≤ gamma u N := div_nonneg (mul_nonneg (Nat.cast_nonneg _) hu) (by linarith)
  have hg' : 0 ≤ gamma u (d + 1) := div_nonneg (mul_nonneg (Nat.cast_nonneg _) hu) (by linarith)
  have hS1 : 0 ≤ (E.bonds.map fun (i, j, _, J) => |E.factor * E.spins.getD i 0 * E.spins.getD j 0| * ∑ a, ∑ b, |cell J a b|).sum := by
    refine List.sum_nonneg fun a ha => ?_
    obtain ⟨b, -, rfl⟩ := List.mem_map.mp ha
    exact mul_nonneg (abs_nonneg _) (Finset.sum_nonneg fun _ _ => Finset.sum_nonneg fun _ _ => abs_nonneg _)
  have hS2 : 0 ≤ (match E.field with
      | none => (0 : ℝ)
      | some h => |muB| * ((E.gFactors.map fun g => |g|).sum * ∑ a, |h a|)) := by
    split
    · exact le_rfl
    · refine mul_nonneg (abs_nonneg _) (mul_nonneg (List.sum_nonneg ?_) (Finset.sum_nonneg fun _ _ => abs_nonneg _))
      intro a ha
      obtain ⟨b, -, rfl⟩ := List.mem_map.mp ha
      exact abs_nonneg _
  exact cone_sum hg hg' hΦ hS1 hS2 h1 h2 h3

/-- Both cone cases: computed energies, and the change of the exact ones. -/
theorem cone_close (hu : 0 ≤ u) (E : EnergyObj ℝ) (muB : ℝ) (cell : ℕ → M3 ℝ) {N : ℕ} (hN : N * u < 1) (hd : (d + 1 : ℕ) * u < 1)
    {turn : V3 ℝ → M3 ℝ → M3 ℝ} {q : V3 ℝ} {Φ : ℝ} (hΦ : 0 ≤ Φ) (hq : ∀ b ∈ E.bonds, phaseSize q b.2.2.1 ≤ Φ)
    {C : V3 ℝ → V3 ℝ → M3 ℝ → M3 ℝ} {F : List (V3 ℝ) → ℝ} {F' : Bool → List (V3 ℝ) → ℝ}
    (ht : ∀ n : V3 ℝ, n ⬝ᵥ n ≤ 1 → ∀ J i j, 0 ≤ turn n J i j ∧ turn n J i j ≤ 12 * ∑ k, ∑ l, |J k l|)
    (hF : ∀ l, F l = E.bondSum (C (EnergyObj.normalize (l.getLastD 0))) cell (l.dropLast.map EnergyObj.normalize) +
      E.zeeman muB (soPrime (EnergyObj.normalize (l.getLastD 0)) (l.dropLast.map EnergyObj.normalize)))
    (hC : ∀ (n n' e e' f f' : V3 ℝ) (L : ℝ), Near2 n n' e e' L → Near2 n n' f f' L → ∀ v J,
      |einsum3 e (C n v J) f - einsum3 e' (C n' v J) f'| ≤ 70 * L * ∑ a, ∑ b, |J a b|)
    (hF' : ∀ s l, l.length = E.spins.length + 1 → |F' s l - F l| ≤ E.coneBound u N d muB turn cell (l.dropLast.map EnergyObj.normalize)
      (EnergyObj.normalize (l.getLastD 0)) q) :
    Close F F' (E.spins.length + 1) (9 * gamma u N + 4 * Φ * gamma u (d + 1)) (30 * strength E muB cell) := by
  constructor
  · intro s l hl
    refine (hF' s l hl).trans (coneBound_le hu E muB cell hN hd (normalize_dot_le _) (fun k a => ?_) (ht _ (normalize_dot_le _)) hΦ hq)
    rw [getD_normalize]
    exact normalize_le _ a
  · intro l l' D hl hl' hD hD' h hn
    rw [hF, hF]
    refine (cone_lipschitz (L := 4 * D) E muB cell _ _ (by simp [hl, hl']) (by linarith) (fun i j v J => ?_)
      (near_lists hl hl' hD hD' h hn)).trans ?_
    · exact hC _ _ _ _ _ _ _ (near_lists hl hl' hD hD' h hn i) (near_lists hl hl' hD hD' h hn j) v J
    · have h0 : 0 ≤ strength E muB cell := strength_nonneg E muB cell
      nlinarith [mul_nonneg hD h0]

/-- The torques of both cone cases. -/
theorem cone_rounding {fl : ℝ → ℝ} (hf : IsRounding fl u) (hu : u ≤ 1 / 10000) {m : ℕ} {G W a b : ℝ} {F : List (V3 ℝ) → ℝ}
    {F' : ℕ → Fin 3 → Bool → List (V3 ℝ) → ℝ} {x z : List (V3 ℝ)} {δ : ℝ} (hδ0 : 0 ≤ δ) (hδ : δ ≤ 1 / 100) (hx : x.length = m + 1)
    (hzl : z.length = m + 1) (hz : AllUnit z) (hxz : ∀ k a, |x.getD k 0 a - z.getD k 0 a| ≤ δ) (hG : 0 ≤ G)
    (hc : ∀ i j, Close F (F' i j) (m + 1) G W) {T : ℕ → V3 ℝ} (h1 : ∀ i < m, ∀ c, |rowTorque F z i c - T i c| ≤ a)
    (h2 : ∀ c, |rowTorque F z m c - T m c| ≤ b) :
    (rowTorquesFl fl (fl fdStep) F' (List.range x.length) x).1.length = m + 1 ∧
    (∀ i < m, ∀ c, |(rowTorquesFl fl (fl fdStep) F' (List.range x.length) x).1.getD i 0 c - T i c| ≤
      a + (22000 * G + 10 ^ 6 * (δ + 2 * u)) * W) ∧
    ∀ c, |(rowTorquesFl fl (fl fdStep) F' (List.range x.length) x).1.getD m 0 c - T m c| ≤ b + (22000 * G + 10 ^ 6 * (δ + 2 * u)) * W := by
  have hu0 := hf.nonneg
  obtain ⟨t1, t2, -, -⟩ := rowTorques_step hf hu hδ hδ0 hz (fun i j => hzl ▸ hc i j) hG
    (List.range x.length) x (fun _ _ => False) ⟨hx.trans hzl.symm, fun k a => (hxz k a).trans (by linarith), fun k a _ => hxz k a⟩
    (by simp [hx, hzl]) List.nodup_range
  refine ⟨t1.trans (by simp [hx]), fun i hi c => ?_, fun c => ?_⟩
  · have h4 := t2 i (by simp [hx]; omega) c
    have h3 := h1 i hi c
    simp only [List.getElem_range] at h4
    rw [abs_le] at *
    constructor <;> linarith [h3.1, h3.2, h4.1, h4.2]
  · have h4 := t2 m (by simp [hx]) c
    have h3 := h2 c
    simp only [List.getElem_range] at h4
    rw [abs_le] at *
    constructor <;> linarith [h3.1, h3.2, h4.1, h4.2]

/-- **C108, antiferro.** As `C108_torques` for the torques on the spins and on the cone axis (the last row) in the antiferro case; the phases
`q · d` of the bonds have at most the size `Φ`. -/
theorem C108_antiferro (hA : A.Good u k) (hu : u ≤ 1 / 10000) (E : EnergyObj ℝ) (muB : ℝ) (cell : ℕ → M3 ℝ)
    (hN : E.coneRoundings d k * u < 1) {S : ℕ → Fin 3 → Bool → ConeSums} (hS : ∀ i j s, (S i j s).Complete E.spins.length d) (hne : E.spins ≠ [])
    (x z : List (V3 ℝ)) (q : V3 ℝ) {δ Φ : ℝ} (hδ0 : 0 ≤ δ) (hδ : δ ≤ 1 / 100) (hx : x.length = E.spins.length + 1)
    (hzl : z.length = E.spins.length + 1) (hz : AllUnit z) (hxz : ∀ k a, |x.getD k 0 a - z.getD k 0 a| ≤ δ) (hΦ : 0 ≤ Φ)
    (hq : ∀ b ∈ E.bonds, phaseSize q b.2.2.1 ≤ Φ) :
    ∃ T : ℕ → V3 ℝ, HasTorques (fun l => E.antiferro muB cell (arr l.dropLast) (vec (l.getLastD 0)) (vec q)) z T ∧
      (antiferroTorquesFl A S E muB cell x q).1.length = E.spins.length + 1 ∧
      (∀ i < E.spins.length, ∀ c, |(antiferroTorquesFl A S E muB cell x q).1.getD i 0 c - T i c| ≤ 216 / 10 ^ 8 * strength E muB cell +
        (22000 * (9 * gamma u (E.coneRoundings d k) + 4 * Φ * gamma u (d + 1)) + 10 ^ 6 * (δ + 2 * u)) * (30 * strength E muB cell)) ∧
      ∀ c, |(antiferroTorquesFl A S E muB cell x q).1.getD E.spins.length 0 c - T E.spins.length c| ≤ 5774 / 10 ^ 8 * strength E muB cell +
        (22000 * (9 * gamma u (E.coneRoundings d k) + 4 * Φ * gamma u (d + 1)) + 10 ^ 6 * (δ + 2 * u)) * (30 * strength E muB cell) := by
  obtain ⟨T, h1, h2, h3⟩ := C79_antiferro E muB cell z q hzl hne hz
  have hd := depth_lt hA.fl.nonneg E hN
  have hG : 0 ≤ 9 * gamma u (E.coneRoundings d k) + 4 * Φ * gamma u (d + 1) :=
    add_nonneg (mul_nonneg (by norm_num) (div_nonneg (mul_nonneg (Nat.cast_nonneg _) hA.fl.nonneg) (by linarith)))
      (mul_nonneg (by linarith) (div_nonneg (mul_nonneg (Nat.cast_nonneg _) hA.fl.nonneg) (by linarith)))
  have hg : ∀ i < z.length, ((antiferroProblem E muB cell).grad (z, q)).2.getD i 0 =
      rowTorque (fun l => (antiferroProblem E muB cell).energy (l, q)) z i := fun i hi => rowTorques_getD _ _ hi
  refine ⟨T, h1, cone_rounding (F := fun l => (antiferroProblem E muB cell).energy (l, q)) hA.fl hu hδ0 hδ hx hzl hz hxz hG (fun i j => ?_)
    (fun i hi c => ?_) fun c => ?_⟩
  · refine cone_close (C := fun n v J => antiferroC n (Real.cos (dot3 q v)) (Real.sin (dot3 q v)) J) (turn := antiferroTurn) hA.fl.nonneg E muB cell hN
      hd hΦ hq (fun n hn J a b => antiferroTurn_entry hn J a b) (fun l => rfl) (fun n n' e e' f f' L h h' v J => ?_) fun s l hl => ?_
    · exact antiferro_term_close h h' (Real.abs_cos_le_one _) (Real.abs_sin_le_one _) J
    · have hl' : l.dropLast.length = E.spins.length := by simp [hl]
      obtain ⟨y, y', e1, e2, e3⟩ := C101_antiferro hA E muB cell l.dropLast (l.getLastD 0) q hl' hne (hS i j s) hN
      rw [antiferro_arr E muB cell hl' hne] at e1
      rw [antiferroFl_arr A _ E muB cell hl' hne] at e2
      cases e1; cases e2
      exact e3
  · rw [← hg i (by omega)]; exact h2 i hi c
  · rw [← hg _ (by omega)]; exact h3 c

/-- **C108, spiral.** As `C108_antiferro` for the spiral case. -/
theorem C108_spiral (hA : A.Good u k) (hu : u ≤ 1 / 10000) (E : EnergyObj ℝ) (muB : ℝ) (cell : ℕ → M3 ℝ)
    (hN : E.coneRoundings d k * u < 1) {S : ℕ → Fin 3 → Bool → ConeSums} (hS : ∀ i j s, (S i j s).Complete E.spins.length d) (hne : E.spins ≠ [])
    (x z : List (V3 ℝ)) (q : V3 ℝ) {δ Φ : ℝ} (hδ0 : 0 ≤ δ) (hδ : δ ≤ 1 / 100) (hx : x.length = E.spins.length + 1)
    (hzl : z.length = E.spins.length + 1) (hz : AllUnit z) (hxz : ∀ k a, |x.getD k 0 a - z.getD k 0 a| ≤ δ) (hΦ : 0 ≤ Φ)
    (hq : ∀ b ∈ E.bonds, phaseSize q b.2.2.1 ≤ Φ) :
    ∃ T : ℕ → V3 ℝ, HasTorques (fun l => E.spiral muB cell (arr l.dropLast) (vec (l.getLastD 0)) (vec q)) z T ∧
      (spiralTorquesFl A S E muB cell x q).1.length = E.spins.length + 1 ∧
      (∀ i < E.spins.length, ∀ c, |(spiralTorquesFl A S E muB cell x q).1.getD i 0 c - T i c| ≤ 216 / 10 ^ 8 * strength E muB cell +
        (22000 * (9 * gamma u (E.coneRoundings d k) + 4 * Φ * gamma u (d + 1)) + 10 ^ 6 * (δ + 2 * u)) * (30 * strength E muB cell)) ∧
      ∀ c, |(spiralTorquesFl A S E muB cell x q).1.getD E.spins.length 0 c - T E.spins.length c| ≤ 5774 / 10 ^ 8 * strength E muB cell +
        (22000 * (9 * gamma u (E.coneRoundings d k) + 4 * Φ * gamma u (d + 1)) + 10 ^ 6 * (δ + 2 * u)) * (30 * strength E muB cell) := by
  obtain ⟨T, h1, h2, h3⟩ := C79_spiral E muB cell z q hzl hne hz
  have hd := depth_lt hA.fl.nonneg E hN
  have hG : 0 ≤ 9 * gamma u (E.coneRoundings d k) + 4 * Φ * gamma u (d + 1) :=
    add_nonneg (mul_nonneg (by norm_num) (div_nonneg (mul_nonneg (Nat.cast_nonneg _) hA.fl.nonneg) (by linarith)))
      (mul_nonneg (by linarith) (div_nonneg (mul_nonneg (Nat.cast_nonneg _) hA.fl.nonneg) (by linarith)))
  have hg : ∀ i < z.length, ((spiralProblem E muB cell).grad (z, q)).2.getD i 0 =
      rowTorque (fun l => (spiralProblem E muB cell).energy (l, q)) z i := fun i hi => rowTorques_getD _ _ hi
  refine ⟨T, h1, cone_rounding (F := fun l => (spiralProblem E muB cell).energy (l, q)) hA.fl hu hδ0 hδ hx hzl hz hxz hG (fun i j => ?_)
    (fun i hi c => ?_) fun c => ?_⟩
  · refine cone_close (C := fun n v J => spiralC n (Real.cos (dot3 q v)) (Real.sin (dot3 q v)) J) (turn := spiralTurn) hA.fl.nonneg E muB cell hN
      hd hΦ hq (fun n hn J a b => spiralTurn_entry hn J a b) (fun l => rfl) (fun n n' e e' f f' L h h' v J => ?_) fun s l hl => ?_
    · exact spiral_term_close h h' (Real.abs_cos_le_one _) (Real.abs_sin_le_one _) J
    · have hl' : l.dropLast.length = E.spins.length := by simp [hl]
      obtain ⟨y, y', e1, e2, e3⟩ := C101_spiral hA E muB cell l.dropLast (l.getLastD 0) q hl' hne (hS i j s) hN
      rw [spiral_arr E muB cell hl' hne] at e1
      rw [spiralFl_arr A _ E muB cell hl' hne] at e2
      cases e1; cases e2
      exact e3
  · rw [← hg i (by omega)]; exact h2 i hi c
  · rw [← hg _ (by omega)]; exact h3 c

/-- One spin with a bond to its copy in the next cell, in a field, with floats of 53 bits that are rounded towards zero (the cosines, too): the
computed torque on the spin is right to `10⁻⁴` and the one on the cone axis to `10⁻³`. -/
example : ∃ T : ℕ → V3 ℝ, HasTorques (fun l => (⟨1, [2], [1], [(0, 0, ![1, 0, 0], 0)], some ![1, 0, 0], 10, 1, 0, 0⟩ : EnergyObj ℝ).spiral 1
      (fun _ => 1) (arr l.dropLast) (vec (l.getLastD 0)) (vec ![1, 0, 0])) [![1, 0, 0], ![0, 0, 1]] T ∧
    ∀ c, |(spiralTorquesFl ⟨Param.chop 52, fun x => Param.chop 52 (Real.cos x), fun x => Param.chop 52 (Real.sin x)⟩
        (fun _ _ _ => ConeSums.sequential 1) ⟨1, [2], [1], [(0, 0, ![1, 0, 0], 0)], some ![1, 0, 0], 10, 1, 0, 0⟩ 1 (fun _ => 1)
        [![1, 0, 0], ![0, 0, 1]] ![1, 0, 0]).1.getD 0 0 c - T 0 c| ≤ 1 / 10 ^ 4 ∧
      |(spiralTorquesFl ⟨Param.chop 52, fun x => Param.chop 52 (Real.cos x), fun x => Param.chop 52 (Real.sin x)⟩
        (fun _ _ _ => ConeSums.sequential 1) ⟨1, [2], [1], [(0, 0, ![1, 0, 0], 0)], some ![1, 0, 0], 10, 1, 0, 0⟩ 1 (fun _ => 1)
        [![1, 0, 0], ![0, 0, 1]] ![1, 0, 0]).1.getD 1 0 c - T 1 c| ≤ 1 / 10 ^ 3 := by
  have hf : IsRounding (Param.chop 52) (1 / 2 ^ 52) := (Param.chop_isFloat 52 (by norm_num)).toIsRounding
  have hA : Arith.Good ⟨Param.chop 52, fun x => Param.chop 52 (Real.cos x), fun x => Param.chop 52 (Real.sin x)⟩ (1 / 2 ^ 52) 1 :=
    ⟨hf, fun x => .one hf _, fun x => .one hf _⟩
  have hx : AllUnit [![1, 0, (0 : ℝ)], ![0, 0, 1]] := by
    intro v hv
    simp only [List.mem_cons, List.not_mem_nil, or_false] at hv
    rcases hv with rfl | rfl <;> simp [IsUnit3, dotProduct, Fin.sum_univ_three]
  obtain ⟨T, h1, -, h2, h3⟩ := C108_spiral (d := 12) (S := fun _ _ _ => ConeSums.sequential 1) hA (by norm_num)
    ⟨1, [2], [1], [(0, 0, ![1, 0, 0], 0)], some ![1, 0, 0], 10, 1, 0, 0⟩ 1 (fun _ => 1) (by norm_num [coneRoundings])
    (fun _ _ _ => cone_sequential_complete 1) (by simp) [![1, 0, 0], ![0, 0, 1]] [![1, 0, 0], ![0, 0, 1]] ![1, 0, 0] (δ := 0) (Φ := 1) le_rfl
    (by norm_num) rfl rfl hx (by simp) (by norm_num) (by simp [phaseSize, Fin.sum_univ_three])
  have hs : strength (⟨1, [2], [1], [(0, 0, ![1, 0, 0], 0)], some ![1, 0, 0], 10, 1, 0, 0⟩ : EnergyObj ℝ) 1 (fun _ => 1) ≤ 13 := by
    simp [strength, Fin.sum_univ_three, Matrix.one_apply]
    norm_num
  have hs0 := strength_nonneg (⟨1, [2], [1], [(0, 0, ![1, 0, 0], 0)], some ![1, 0, 0], 10, 1, 0, 0⟩ : EnergyObj ℝ) 1 (fun _ => 1)
  have hg : 22000 * (9 * gamma (1 / 2 ^ 52 : ℝ) ((⟨1, [2], [1], [(0, 0, ![1, 0, 0], 0)], some ![1, 0, 0], 10, 1, 0, 0⟩ :
      EnergyObj ℝ).coneRoundings 12 1) + 4 * 1 * gamma (1 / 2 ^ 52 : ℝ) (12 + 1)) + 10 ^ 6 * (0 + 2 * (1 / 2 ^ 52)) ≤ 1 / 10 ^ 7 := by
    norm_num [gamma, coneRoundings]
  refine ⟨T, h1, fun c => ⟨(h2 0 (by simp) c).trans ?_, (h3 c).trans ?_⟩⟩ <;> nlinarith

end Optimize
end Magnopy
