import Verif.Props.StopRounding

/-!
# Property C110: the energies at the end of the loop
-/

set_option autoImplicit false

set_option linter.unusedSectionVars false

namespace Magnopy
namespace Optimize

open EnergyObj Matrix

variable {fl : ℝ → ℝ} {u : ℝ} {d k : ℕ}

theorem stop_near {p c p' c' t a b : ℝ} (h : |p' - c'| ≤ t) (hp : |p' - p| ≤ a) (hc : |c' - c| ≤ b) : |p - c| ≤ t + (a + b) := by
  have := abs_le.1 h
  have := abs_le.1 hp
  have := abs_le.1 hc
  exact abs_le.2 ⟨by linarith, by linarith⟩

/-- **C110, energies.** When the loop of the ferro case ends by its condition, the energies without round-off of the last two arrays of spins differ
by the tolerance and the errors of the two energies at most. -/
theorem C110_energies (hf : IsRounding fl u) (E : EnergyObj ℝ) (muB : ℝ) (cell : ℕ → M3 ℝ) (x x' : List (V3 ℝ)) (hx : x.length = E.spins.length)
    (hx' : x'.length = E.spins.length) (hn : E.spins ≠ []) {S S' : Sums} (hS : S.Complete E.spins.length d)
    (hS' : S'.Complete E.spins.length d) (hN : E.roundings d * u < 1) (t0 previous current : ℝ) (tol targets : List ℝ)
    (hp : E.ferroFl fl S muB cell (arr x) = .ok previous) (hc : E.ferroFl fl S' muB cell (arr x') = .ok current)
    (hstop : ¬ goOnFl fl (t0 :: tol) previous current targets) :
    ∃ y y', E.ferro muB cell (arr x) = .ok y ∧ E.ferro muB cell (arr x') = .ok y' ∧
      |y - y'| ≤ (1 + gamma u 1) * t0 +
        (gamma u (E.roundings d) * E.size muB cell (x.map EnergyObj.normalize) + gamma u (E.roundings d) * E.size muB cell (x'.map EnergyObj.normalize)) := by
  obtain ⟨y, z, h1, h2, h3⟩ := C100_ferro hf E muB cell x hx hn hS hN
  obtain ⟨y', z', h1', h2', h3'⟩ := C100_ferro hf E muB cell x' hx' hn hS' hN
  rw [hp] at h2
  rw [hc] at h2'
  cases h2; cases h2'
  exact ⟨y, y', h1, h1', stop_near (energy_stop hf hstop) h3 h3'⟩

/-- **C110, energies of the antiferro case.** -/
theorem C110_energies_antiferro {A : Arith} (hA : A.Good u k) (E : EnergyObj ℝ) (muB : ℝ) (cell : ℕ → M3 ℝ) (x x' : List (V3 ℝ)) (n n' q : V3 ℝ)
    (hx : x.length = E.spins.length) (hx' : x'.length = E.spins.length) (hn : E.spins ≠ []) {S S' : ConeSums}
    (hS : S.Complete E.spins.length d) (hS' : S'.Complete E.spins.length d) (hN : E.coneRoundings d k * u < 1) (t0 previous current : ℝ)
    (tol targets : List ℝ) (hp : E.antiferroFl A S muB cell (arr x) (vec n) (vec q) = .ok previous)
    (hc : E.antiferroFl A S' muB cell (arr x') (vec n') (vec q) = .ok current) (hstop : ¬ goOnFl A.fl (t0 :: tol) previous current targets) :
    ∃ y y', E.antiferro muB cell (arr x) (vec n) (vec q) = .ok y ∧ E.antiferro muB cell (arr x') (vec n') (vec q) = .ok y' ∧
      |y - y'| ≤ (1 + gamma u 1) * t0 +
        (E.coneBound u (E.coneRoundings d k) d muB antiferroTurn cell (x.map EnergyObj.normalize) (EnergyObj.normalize n) q +
          E.coneBound u (E.coneRoundings d k) d muB antiferroTurn cell (x'.map EnergyObj.normalize) (EnergyObj.normalize n') q) := by
  obtain ⟨y, z, h1, h2, h3⟩ := C101_antiferro hA E muB cell x n q hx hn hS hN
  obtain ⟨y', z', h1', h2', h3'⟩ := C101_antiferro hA E muB cell x' n' q hx' hn hS' hN
  rw [hp] at h2
  rw [hc] at h2'
  cases h2; cases h2'
  exact ⟨y, y', h1, h1', stop_near (energy_stop hA.fl hstop) h3 h3'⟩

/-- **C110, energies of the spiral case.** The spiral vector changes as well. -/
theorem C110_energies_spiral {A : Arith} (hA : A.Good u k) (E : EnergyObj ℝ) (muB : ℝ) (cell : ℕ → M3 ℝ) (x x' : List (V3 ℝ)) (n n' q q' : V3 ℝ)
    (hx : x.length = E.spins.length) (hx' : x'.length = E.spins.length) (hn : E.spins ≠ []) {S S' : ConeSums}
    (hS : S.Complete E.spins.length d) (hS' : S'.Complete E.spins.length d) (hN : E.coneRoundings d k * u < 1) (t0 previous current : ℝ)
    (tol targets : List ℝ) (hp : E.spiralFl A S muB cell (arr x) (vec n) (vec q) = .ok previous)
    (hc : E.spiralFl A S' muB cell (arr x') (vec n') (vec q') = .ok current) (hstop : ¬ goOnFl A.fl (t0 :: tol) previous current targets) :
    ∃ y y', E.spiral muB cell (arr x) (vec n) (vec q) = .ok y ∧ E.spiral muB cell (arr x') (vec n') (vec q') = .ok y' ∧
      |y - y'| ≤ (1 + gamma u 1) * t0 +
        (E.coneBound u (E.coneRoundings d k) d muB spiralTurn cell (x.map EnergyObj.normalize) (EnergyObj.normalize n) q +
          E.coneBound u (E.coneRoundings d k) d muB spiralTurn cell (x'.map EnergyObj.normalize) (EnergyObj.normalize n') q') := by
  obtain ⟨y, z, h1, h2, h3⟩ := C101_spiral hA E muB cell x n q hx hn hS hN
  obtain ⟨y', z', h1', h2', h3'⟩ := C101_spiral hA E muB cell x' n' q' hx' hn hS' hN
  rw [hp] at h2
  rw [hc] at h2'
  cases h2; cases h2'
  exact ⟨y, y', h1, h1', stop_near (energy_stop hA.fl hstop) h3 h3'⟩

theorem normalize_axis (s : ℝ) (hs : s = 1 ∨ s = -1) : EnergyObj.normalize ![0, 0, s] = ![0, 0, s] := by
  have : norm3 ![0, 0, s] = 1 := by
    unfold norm3
    rcases hs with rfl | rfl <;> simp
  funext i
  unfold EnergyObj.normalize
  rw [this]
  fin_cases i <;> simp

/-- One spin, one bond with the matrix `-1` and a field, with floats of 53 bits that are rounded towards zero: the loop does not end when the spin
has been turned from `z` to `-z`, for every tolerance of the energy up to `3.9`. -/
example (tol targets : List ℝ) (previous current : ℝ)
    (hp : (⟨1, [2], [1], [(0, 0, 0, 0)], some ![0, 0, -1], 10, 1, 0, 0⟩ : EnergyObj ℝ).ferroFl (Param.chop 52) (Sums.sequential 1) 1
      (fun _ => -1) (arr [![0, 0, 1]]) = .ok previous)
    (hc : (⟨1, [2], [1], [(0, 0, 0, 0)], some ![0, 0, -1], 10, 1, 0, 0⟩ : EnergyObj ℝ).ferroFl (Param.chop 52) (Sums.sequential 1) 1
      (fun _ => -1) (arr [![0, 0, -1]]) = .ok current) : goOnFl (Param.chop 52) (39 / 10 :: tol) previous current targets := by
  by_contra hstop
  obtain ⟨y, y', h1, h2, h3⟩ := C110_energies (Param.chop_isFloat 52 (by norm_num)).toIsRounding
    (⟨1, [2], [1], [(0, 0, 0, 0)], some ![0, 0, -1], 10, 1, 0, 0⟩ : EnergyObj ℝ) 1 (fun _ => -1) [![0, 0, 1]] [![0, 0, -1]] rfl rfl (by simp)
    (sequential_complete 1) (sequential_complete 1) (d := 12) (by norm_num [roundings]) (39 / 10) previous current tol targets hp hc hstop
  rw [ferro_arr _ _ _ rfl (by simp)] at h1 h2
  injection h1 with h1
  injection h2 with h2
  have n1 := normalize_axis 1 (.inl rfl)
  have n2 := normalize_axis (-1) (.inr rfl)
  have hy : y = -3 := by
    rw [← h1]
    simp [ferroUnit, bondSum, zeeman, einsumZeeman, einsum3, n1, Fin.sum_univ_three, Matrix.one_apply]
    norm_num
  have hy' : y' = 1 := by
    rw [← h2]
    simp [ferroUnit, bondSum, zeeman, einsumZeeman, einsum3, n2, Fin.sum_univ_three, Matrix.one_apply]
    norm_num
  rw [hy, hy'] at h3
  simp [EnergyObj.size, gamma, roundings, n1, n2, Fin.sum_univ_three, Matrix.one_apply] at h3
  norm_num at h3

end Optimize
end Magnopy
