import Verif.Props.UpdateRounding
import Verif.Spec.ConeRun

/-!
# Property C112: runs of the cone cases with floats
-/

set_option autoImplicit false

set_option linter.unusedSectionVars false

namespace Magnopy
namespace Optimize

open EnergyObj Matrix

variable {u : ℝ} {d k : ℕ} {A : Arith}

/-- **C112, antiferro.** In a run of the antiferro case with `n` calls of the gradient and updates, in any order and with any search directions and
steps, spins and cone axis that are unit vectors up to `e` stay so up to `(1 + e) (1 + 18 γ)ⁿ - 1`, and the spiral vector is kept. -/
theorem C112_antiferro (hA : A.Good u k) (hu : u ≤ 1 / 10000) (hN : (k + d + 19 : ℕ) * u < 1) (E : EnergyObj ℝ) (muB : ℝ) (cell : ℕ → M3 ℝ)
    {x y : ConeX} {e : ℝ} (he : 0 ≤ e) (h0 : NearUnit (E.spins.length + 1) e x.1) {n : ℕ} (h : RunAntiferro A d E muB cell x n y)
    (hn : (1 + e) * (1 + 18 * gamma u (k + d + 19)) ^ n ≤ 1 + 1 / 2000) :
    y.2 = x.2 ∧ NearUnit (E.spins.length + 1) ((1 + e) * (1 + 18 * gamma u (k + d + 19)) ^ n - 1) y.1 := by
  have hg := u_le_gamma hA.fl.nonneg hN
  have hg0 := hA.fl.nonneg.trans hg
  induction h with
  | start => simpa using h0
  | @grad n y S _ ih =>
    obtain ⟨h1, h2, h3⟩ := pow_step hg0 he hn
    obtain ⟨i1, i2⟩ := ih h1
    have := nearUnit_grad hA.fl hu (fun i j s l => coneUnitFl A.fl (S i j s) E muB
      (antiferroCFl A (S i j s) (normalizeFl A.fl (S i j s).axis (l.getLastD 0)) y.2) cell
      (l.dropLast.zipIdx.map fun p => normalizeFl A.fl ((S i j s).norm p.2) p.1) (normalizeFl A.fl (S i j s).axis (l.getLastD 0)))
      i2 h2 (by linarith) hg
    rw [h3] at this
    exact ⟨i1, this⟩
  | @update n y T hT p step _ ih =>
    obtain ⟨h1, h2, h3⟩ := pow_step hg0 he hn
    obtain ⟨i1, i2⟩ := ih h1
    have := nearUnit_update hA hu hN hT ((3 * E.spins.length + 3 - 3) / 3) p step i2 h2
    rw [h3] at this
    exact ⟨i1, this⟩

/-- **C112, spiral.** As `C112_antiferro` for the spiral case, in which the spiral vector moves. -/
theorem C112_spiral (hA : A.Good u k) (hu : u ≤ 1 / 10000) (hN : (k + d + 19 : ℕ) * u < 1) (E : EnergyObj ℝ) (muB : ℝ) (cell : ℕ → M3 ℝ)
    {x y : ConeX} {e : ℝ} (he : 0 ≤ e) (h0 : NearUnit (E.spins.length + 1) e x.1) {n : ℕ} (h : RunSpiral A d E muB cell x n y)
    (hn : (1 + e) * (1 + 18 * gamma u (k + d + 19)) ^ n ≤ 1 + 1 / 2000) :
    NearUnit (E.spins.length + 1) ((1 + e) * (1 + 18 * gamma u (k + d + 19)) ^ n - 1) y.1 := by
  have hg := u_le_gamma hA.fl.nonneg hN
  have hg0 := hA.fl.nonneg.trans hg
  induction h with
  | start => simpa using h0
  | @grad n y S _ ih =>
    obtain ⟨h1, h2, h3⟩ := pow_step hg0 he hn
    have := nearUnit_grad hA.fl hu (fun i j s l => coneUnitFl A.fl (S i j s) E muB
      (spiralCFl A (S i j s) (normalizeFl A.fl (S i j s).axis (l.getLastD 0)) y.2) cell
      (l.dropLast.zipIdx.map fun p => normalizeFl A.fl ((S i j s).norm p.2) p.1) (normalizeFl A.fl (S i j s).axis (l.getLastD 0)))
      (ih h1) h2 (by linarith) hg
    rwa [h3] at this
  | @update n y T hT p step _ ih =>
    obtain ⟨h1, h2, h3⟩ := pow_step hg0 he hn
    have := nearUnit_update hA hu hN hT ((3 * E.spins.length + 6 - 3) / 3) p step (ih h1) h2
    rwa [h3] at this

/-- **C112, end of an antiferro run.** When the loop ends by its condition, the torques at unit vectors near to the rows for which they were
computed are within the tolerances up to round-off and the error of the differences. -/
theorem C112_antiferro_stop (hA : A.Good u k) (hu : u ≤ 1 / 10000) (E : EnergyObj ℝ) (muB : ℝ) (cell : ℕ → M3 ℝ)
    (hE : E.coneRoundings d k * u < 1) (hne : E.spins ≠ []) {S : ℕ → Fin 3 → Bool → ConeSums} (hS : ∀ i j s, (S i j s).Complete E.spins.length d)
    {R : ℕ → EnergyObj.Tree (Fin 3)} {R' : EnergyObj.Tree (Fin 3)} (hR : ∀ i, (R i).leaves = Finset.univ.val ∧ (R i).depth ≤ d)
    (hR' : R'.leaves = Finset.univ.val ∧ R'.depth ≤ d) {x y : ConeX} {e : ℝ} (he : 0 ≤ e) (h0 : NearUnit (E.spins.length + 1) e x.1) {n : ℕ}
    (h : RunAntiferro A d E muB cell x n y) (hn : (1 + e) * (1 + 18 * gamma u (k + d + 19)) ^ n ≤ 1 + 1 / 2000) {Φ δ : ℝ} (hΦ : 0 ≤ Φ)
    (hq : ∀ b ∈ E.bonds, phaseSize x.2 b.2.2.1 ≤ Φ) (hδ : δ = (1 + e) * (1 + 18 * gamma u (k + d + 19)) ^ n - 1)
    (t0 t1 t2 previous current : ℝ) (targets : List ℝ)
    (ht : targetConeFl A.fl R R' (antiferroTorquesFl A S E muB cell y.1 y.2).1 = .ok targets)
    (hstop : ¬ goOnFl A.fl [t0, t1, t2] previous current targets) :
    ∃ z, AllUnit z ∧ z.length = E.spins.length + 1 ∧ (∀ i a, |y.1.getD i 0 a - z.getD i 0 a| ≤ δ) ∧
      ∃ T : ℕ → V3 ℝ, HasTorques (fun l => E.antiferro muB cell (arr l.dropLast) (vec (l.getLastD 0)) (vec x.2)) z T ∧
      (∀ i < E.spins.length, norm3 (T i) ≤ (1 + gamma u (d + 2)) * t1 + 2 * (216 / 10 ^ 8 * strength E muB cell +
        (22000 * (9 * gamma u (E.coneRoundings d k) + 4 * Φ * gamma u (d + 1)) + 10 ^ 6 * (δ + 2 * u)) * (30 * strength E muB cell))) ∧
      norm3 (T E.spins.length) ≤ (1 + gamma u (d + 2)) * t2 + 2 * (5774 / 10 ^ 8 * strength E muB cell +
        (22000 * (9 * gamma u (E.coneRoundings d k) + 4 * Φ * gamma u (d + 1)) + 10 ^ 6 * (δ + 2 * u)) * (30 * strength E muB cell)) := by
  have hN : (k + d + 19 : ℕ) * u < 1 := by
    refine lt_of_le_of_lt (mul_le_mul_of_nonneg_right ?_ hA.fl.nonneg) hE
    exact_mod_cast (show k + d + 19 ≤ E.coneRoundings d k by unfold coneRoundings; omega)
  have hp := one_le_drift hA.fl.nonneg hN he n
  obtain ⟨hq', hy⟩ := C112_antiferro hA hu hN E muB cell he h0 h hn
  rw [← hδ] at hy
  obtain ⟨z, hz, hzl, hyz⟩ := nearUnit_exists hy (by linarith) (by linarith)
  rw [hq'] at ht
  obtain ⟨-, hT⟩ := C110_converged_antiferro hA hu E muB cell hE hS hR hR' hne y.1 z x.2 (by linarith) (by linarith) hy.1 hzl hz hyz hΦ hq
    t0 t1 t2 previous current targets ht hstop
  exact ⟨z, hz, hzl, hyz, hT⟩

/-- **C112, end of a spiral run.** As `C112_antiferro_stop`; the phases are bounded for the spiral vector at the end. -/
theorem C112_spiral_stop (hA : A.Good u k) (hu : u ≤ 1 / 10000) (E : EnergyObj ℝ) (muB : ℝ) (cell : ℕ → M3 ℝ)
    (hE : E.coneRoundings d k * u < 1) (hne : E.spins ≠ []) {S : ℕ → Fin 3 → Bool → ConeSums} (hS : ∀ i j s, (S i j s).Complete E.spins.length d)
    {R : ℕ → EnergyObj.Tree (Fin 3)} {R' : EnergyObj.Tree (Fin 3)} (hR : ∀ i, (R i).leaves = Finset.univ.val ∧ (R i).depth ≤ d)
    (hR' : R'.leaves = Finset.univ.val ∧ R'.depth ≤ d) {x y : ConeX} {e : ℝ} (he : 0 ≤ e) (h0 : NearUnit (E.spins.length + 1) e x.1) {n : ℕ}
    (h : RunSpiral A d E muB cell x n y) (hn : (1 + e) * (1 + 18 * gamma u (k + d + 19)) ^ n ≤ 1 + 1 / 2000) {Φ δ : ℝ} (hΦ : 0 ≤ Φ)
    (hq : ∀ b ∈ E.bonds, phaseSize y.2 b.2.2.1 ≤ Φ) (hδ : δ = (1 + e) * (1 + 18 * gamma u (k + d + 19)) ^ n - 1)
    (t0 t1 t2 previous current : ℝ) (targets : List ℝ)
    (ht : targetConeFl A.fl R R' (spiralTorquesFl A S E muB cell y.1 y.2).1 = .ok targets)
    (hstop : ¬ goOnFl A.fl [t0, t1, t2] previous current targets) :
    ∃ z, AllUnit z ∧ z.length = E.spins.length + 1 ∧ (∀ i a, |y.1.getD i 0 a - z.getD i 0 a| ≤ δ) ∧
      ∃ T : ℕ → V3 ℝ, HasTorques (fun l => E.spiral muB cell (arr l.dropLast) (vec (l.getLastD 0)) (vec y.2)) z T ∧
      (∀ i < E.spins.length, norm3 (T i) ≤ (1 + gamma u (d + 2)) * t1 + 2 * (216 / 10 ^ 8 * strength E muB cell +
        (22000 * (9 * gamma u (E.coneRoundings d k) + 4 * Φ * gamma u (d + 1)) + 10 ^ 6 * (δ + 2 * u)) * (30 * strength E muB cell))) ∧
      norm3 (T E.spins.length) ≤ (1 + gamma u (d + 2)) * t2 + 2 * (5774 / 10 ^ 8 * strength E muB cell +
        (22000 * (9 * gamma u (E.coneRoundings d k) + 4 * Φ * gamma u (d + 1)) + 10 ^ 6 * (δ + 2 * u)) * (30 * strength E muB cell)) := by
  have hN : (k + d + 19 : ℕ) * u < 1 := by
    refine lt_of_le_of_lt (mul_le_mul_of_nonneg_right ?_ hA.fl.nonneg) hE
    exact_mod_cast (show k + d + 19 ≤ E.coneRoundings d k by unfold coneRoundings; omega)
  have hp := one_le_drift hA.fl.nonneg hN he n
  have hy := C112_spiral hA hu hN E muB cell he h0 h hn
  rw [← hδ] at hy
  obtain ⟨z, hz, hzl, hyz⟩ := nearUnit_exists hy (by linarith) (by linarith)
  obtain ⟨-, hT⟩ := C110_converged_spiral hA hu E muB cell hE hS hR hR' hne y.1 z y.2 (by linarith) (by linarith) hy.1 hzl hz hyz hΦ hq
    t0 t1 t2 previous current targets ht hstop
  exact ⟨z, hz, hzl, hyz, hT⟩

/-- One spin and a cone axis with floats of 53 bits: after a call of the gradient and an update by any search direction and step, the length of the
cone axis is right up to `10⁻¹⁰`. -/
example (p : Arr) (step : ℝ) : |norm3 ((updateSpiralFl ⟨Param.chop 52, fun x => Param.chop 52 (Real.cos x), fun x => Param.chop 52 (Real.sin x)⟩
      (fun _ => .ofList (List.finRange 3)) 9 ((spiralTorquesFl
        ⟨Param.chop 52, fun x => Param.chop 52 (Real.cos x), fun x => Param.chop 52 (Real.sin x)⟩ (fun _ _ _ => ConeSums.sequential 1)
        ⟨1, [2], [1], [(0, 0, ![1, 0, 0], 0)], some ![1, 0, 0], 10, 1, 0, 0⟩ 1 (fun _ => 1) [![1, 0, 0], ![0, 0, 1]] ![1, 0, 0]).2, ![1, 0, 0])
      p step).1.getD 1 0) - 1| ≤ 1 / 10 ^ 10 := by
  have hx : NearUnit 2 0 [![1, 0, (0 : ℝ)], ![0, 0, 1]] := by
    refine ⟨rfl, fun i hi => ?_⟩
    interval_cases i <;> simp [norm3]
  have h := C112_spiral (d := 12) chop_good (by norm_num) (by norm_num)
    ⟨1, [2], [1], [(0, 0, ![1, 0, 0], 0)], some ![1, 0, 0], 10, 1, 0, 0⟩ 1 (fun _ => 1) (x := ([![1, 0, 0], ![0, 0, 1]], ![1, 0, 0])) le_rfl hx
    (.update (fun _ => .ofList (List.finRange 3)) (fun i => (sequential_complete 1).norm i) p step
      (.grad (fun _ _ _ => ConeSums.sequential 1) .start)) (by norm_num [gamma])
  refine (h.2 1 (by simp)).trans ?_
  norm_num [gamma]

end Optimize
end Magnopy
