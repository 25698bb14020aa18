import Verif.Props.TorqueConeRounding

/-!
# Property C110: the test of convergence with floats
-/

set_option autoImplicit false

set_option linter.unusedSectionVars false

namespace Magnopy
namespace Optimize

open EnergyObj Matrix

variable {fl : ℝ → ℝ} {u : ℝ} {d k : ℕ}

theorem rounded_symm (h1 : u < 1) {n : ℕ} {x y : ℝ} (h : Rounded u n x y) : Rounded u n y x := by
  obtain ⟨θ, a, b, c⟩ := h
  have hp : 0 < (1 - u) ^ n := pow_pos (by linarith) n
  have hθ : 0 < θ := hp.trans_le a
  refine ⟨θ⁻¹, ?_, ?_, by rw [c]; field_simp⟩
  · rw [le_inv_comm₀ hp hθ, ← one_div, le_div_iff₀ hp]
    exact b
  · rw [inv_mul_le_iff₀ hθ, mul_one]
    exact a

theorem rounded_le (h0 : 0 ≤ u) (h1 : u < 1) {n : ℕ} (hn : n * u < 1) {x y : ℝ} (h : Rounded u n x y) (hx : 0 ≤ x) : y ≤ (1 + gamma u n) * x := by
  have := (abs_le.1 (h.error h0 h1 hn)).2
  rw [abs_of_nonneg hx] at this
  linarith

theorem foldl_max_spec (l : List ℝ) : ∀ a, (∀ b ∈ a :: l, b ≤ l.foldl max a) ∧ l.foldl max a ∈ a :: l := by
  induction l with
  | nil => intro a; simp
  | cons c l ih =>
    intro a
    obtain ⟨h1, h2⟩ := ih (max a c)
    have h3 := h1 (max a c) (by simp)
    rw [List.foldl_cons]
    refine ⟨fun b hb => ?_, ?_⟩
    · rcases List.mem_cons.1 hb with rfl | hb
      · exact (le_max_left _ _).trans h3
      · rcases List.mem_cons.1 hb with rfl | hb
        · exact (le_max_right _ _).trans h3
        · exact h1 b (List.mem_cons_of_mem _ hb)
    · rcases List.mem_cons.1 h2 with h2 | h2
      · rw [h2]
        rcases max_choice a c with h | h <;> rw [h] <;> simp
      · exact List.mem_cons_of_mem _ (List.mem_cons_of_mem _ h2)

theorem norm3_nonneg (v : V3 ℝ) : 0 ≤ norm3 v := Real.sqrt_nonneg _

/-- A computed norm of a computed torque. -/
theorem norm_near (hf : IsRounding fl u) (hd : (d + 2 : ℕ) * u < 1) {T : EnergyObj.Tree (Fin 3)} (hT : T.leaves = Finset.univ.val ∧ T.depth ≤ d) {t t' : V3 ℝ}
    {ε : ℝ} (h : ∀ c, |t c - t' c| ≤ ε) :
    norm3 t' ≤ (1 + gamma u (d + 2)) * norm3Fl fl T t + 2 * ε ∧ norm3Fl fl T t ≤ (1 + gamma u (d + 2)) * (norm3 t' + 2 * ε) := by
  have h1 := norm3_rounded hf hT t
  have h2 := rounded_symm hf.lt h1
  have h3 := abs_le.1 (norm3_close h)
  have hg : 0 ≤ gamma u (d + 2) := div_nonneg (mul_nonneg (Nat.cast_nonneg _) hf.nonneg) (by linarith)
  have h4 := rounded_le hf.nonneg hf.lt hd h1 (norm3_nonneg t)
  have h0 : 0 ≤ norm3Fl fl T t := by
    obtain ⟨θ, a, -, c⟩ := h1
    rw [c]
    exact mul_nonneg (norm3_nonneg t) ((pow_nonneg (by linarith [hf.lt]) _).trans a)
  have h5 := rounded_le hf.nonneg hf.lt hd h2 h0
  refine ⟨by linarith, h4.trans (mul_le_mul_of_nonneg_left (by linarith) (by linarith))⟩

/-- The largest computed norm is near to the largest norm of the torques. -/
theorem maxNorm_near (hf : IsRounding fl u) (hd : (d + 2 : ℕ) * u < 1) {T : ℕ → EnergyObj.Tree (Fin 3)}
    (hT : ∀ i, (T i).leaves = Finset.univ.val ∧ (T i).depth ≤ d) {ts : List (V3 ℝ)} {t' : ℕ → V3 ℝ} {ε : ℝ} (hne : ts ≠ [])
    (h : ∀ i < ts.length, ∀ c, |ts.getD i 0 c - t' i c| ≤ ε) :
    ∃ m, maxNormFl fl T ts = .ok m ∧ (∀ i < ts.length, norm3 (t' i) ≤ (1 + gamma u (d + 2)) * m + 2 * ε) ∧
      ∃ i < ts.length, m ≤ (1 + gamma u (d + 2)) * (norm3 (t' i) + 2 * ε) := by
  have hg : 0 ≤ gamma u (d + 2) := div_nonneg (mul_nonneg (Nat.cast_nonneg _) hf.nonneg) (by linarith)
  have hget : ∀ i (hi : i < ts.length), (ts.zipIdx.map fun p => norm3Fl fl (T p.2) p.1)[i]'(by simpa using hi) = norm3Fl fl (T i) (ts.getD i 0) := by
    intro i hi
    simp [List.getD, hi]
  unfold maxNormFl
  cases hl : ts.zipIdx.map fun p => norm3Fl fl (T p.2) p.1 with
  | nil =>
    refine absurd ?_ hne
    have := congrArg List.length hl
    simpa using this
  | cons a l =>
    obtain ⟨h1, h2⟩ := foldl_max_spec l a
    rw [← hl] at h1 h2
    refine ⟨_, rfl, fun i hi => ?_, ?_⟩
    · have h3 := h1 _ (List.getElem_mem (by simpa using hi))
      rw [hget i hi] at h3
      have h4 := (norm_near hf hd (hT i) (h i hi)).1
      have h5 := mul_le_mul_of_nonneg_left h3 (show 0 ≤ 1 + gamma u (d + 2) by linarith)
      linarith
    · obtain ⟨i, hi, h3⟩ := List.getElem_of_mem h2
      have hi' : i < ts.length := by simpa using hi
      refine ⟨i, hi', ?_⟩
      rw [← h3, hget i hi']
      exact (norm_near hf hd (hT i) (h i hi')).2

/-- **C110, ferro.** The number that `optimize` compares with the tolerance of torques is the largest torque of the energy, up to round-off and
the error of the differences. -/
theorem C110_ferro (hf : IsRounding fl u) (hu : u ≤ 1 / 10000) (E : EnergyObj ℝ) (muB : ℝ) (cell : ℕ → M3 ℝ)
    (hN : E.roundings d * u < 1) (hd : (d + 2 : ℕ) * u < 1) {S : ℕ → Fin 3 → Bool → Sums} (hS : ∀ i j s, (S i j s).Complete E.spins.length d)
    {R : ℕ → EnergyObj.Tree (Fin 3)} (hR : ∀ i, (R i).leaves = Finset.univ.val ∧ (R i).depth ≤ d) (hne : E.spins ≠ []) (x z : List (V3 ℝ)) {δ ε : ℝ}
    (hδ0 : 0 ≤ δ) (hδ : δ ≤ 1 / 100) (hx : x.length = E.spins.length) (hzl : z.length = E.spins.length) (hz : AllUnit z)
    (hxz : ∀ k a, |x.getD k 0 a - z.getD k 0 a| ≤ δ)
    (hε : ε = (72 / 10 ^ 8 + 22000 * gamma u (E.roundings d) + 10 ^ 6 * (δ + 2 * u)) * strength E muB cell) :
    ∃ (T : ℕ → V3 ℝ) (m : ℝ), HasTorques (fun l => E.ferro muB cell (arr l)) z T ∧
      targetFerroFl fl R (ferroGradFl fl S E muB cell x).2.1 = .ok [m] ∧
      (∀ i < E.spins.length, norm3 (T i) ≤ (1 + gamma u (d + 2)) * m + 2 * ε) ∧
      ∃ i < E.spins.length, m ≤ (1 + gamma u (d + 2)) * (norm3 (T i) + 2 * ε) := by
  obtain ⟨T, h1, h2, h3⟩ := C108_torques hf hu E muB cell hN hS hne x z hδ0 hδ hx hzl hz hxz
  have hts : (ferroGradFl fl S E muB cell x).2.1 ≠ [] := by
    rw [← List.length_pos_iff_ne_nil, h2]
    exact List.length_pos_iff_ne_nil.2 hne
  obtain ⟨m, m1, m2, m3⟩ := maxNorm_near hf hd hR (t' := T) (ε := ε) hts fun i hi c => by
    rw [h2] at hi
    rw [hε]
    exact h3 i hi c
  rw [h2] at m2 m3
  exact ⟨T, m, h1, by simp [targetFerroFl, m1], m2, m3⟩

/-- Both cone cases. -/
theorem cone_target (hf : IsRounding fl u) (hd : (d + 2 : ℕ) * u < 1) {R : ℕ → EnergyObj.Tree (Fin 3)} {R' : EnergyObj.Tree (Fin 3)}
    (hR : ∀ i, (R i).leaves = Finset.univ.val ∧ (R i).depth ≤ d) (hR' : R'.leaves = Finset.univ.val ∧ R'.depth ≤ d) {n : ℕ} (hn : 0 < n)
    {ts : List (V3 ℝ)} (hl : ts.length = n + 1) {T : ℕ → V3 ℝ} {ε ε' : ℝ} (h : ∀ i < n, ∀ c, |ts.getD i 0 c - T i c| ≤ ε)
    (h' : ∀ c, |ts.getD n 0 c - T n c| ≤ ε') :
    ∃ m m', targetConeFl fl R R' ts = .ok [m, m'] ∧ (∀ i < n, norm3 (T i) ≤ (1 + gamma u (d + 2)) * m + 2 * ε) ∧
      (∃ i < n, m ≤ (1 + gamma u (d + 2)) * (norm3 (T i) + 2 * ε)) ∧ norm3 (T n) ≤ (1 + gamma u (d + 2)) * m' + 2 * ε' ∧
      m' ≤ (1 + gamma u (d + 2)) * (norm3 (T n) + 2 * ε') := by
  have hlen : ts.dropLast.length = n := by simp [hl]
  obtain ⟨m, m1, m2, m3⟩ := maxNorm_near hf hd hR (ts := ts.dropLast) (t' := T) (ε := ε) (List.length_pos_iff_ne_nil.1 (by omega)) fun i hi c => by
    rw [hlen] at hi
    rw [dropLast_getD ts hl, if_pos hi]
    exact h i hi c
  rw [hlen] at m2 m3
  have h4 := norm_near hf hd hR' h'
  refine ⟨m, norm3Fl fl R' (ts.getLastD 0), by simp [targetConeFl, m1], m2, m3, ?_⟩
  rw [getLastD_getD ts hl]
  exact h4

/-- **C110, antiferro.** The two numbers that `optimize` compares with the tolerances are the largest torque on a spin and the torque on the cone
axis. -/
theorem C110_antiferro {A : Arith} (hA : A.Good u k) (hu : u ≤ 1 / 10000) (E : EnergyObj ℝ) (muB : ℝ) (cell : ℕ → M3 ℝ)
    (hN : E.coneRoundings d k * u < 1) {S : ℕ → Fin 3 → Bool → ConeSums} (hS : ∀ i j s, (S i j s).Complete E.spins.length d)
    {R : ℕ → EnergyObj.Tree (Fin 3)} {R' : EnergyObj.Tree (Fin 3)} (hR : ∀ i, (R i).leaves = Finset.univ.val ∧ (R i).depth ≤ d)
    (hR' : R'.leaves = Finset.univ.val ∧ R'.depth ≤ d) (hne : E.spins ≠ []) (x z : List (V3 ℝ)) (q : V3 ℝ) {δ Φ ε ε' : ℝ} (hδ0 : 0 ≤ δ)
    (hδ : δ ≤ 1 / 100) (hx : x.length = E.spins.length + 1) (hzl : z.length = E.spins.length + 1) (hz : AllUnit z)
    (hxz : ∀ k a, |x.getD k 0 a - z.getD k 0 a| ≤ δ) (hΦ : 0 ≤ Φ) (hq : ∀ b ∈ E.bonds, phaseSize q b.2.2.1 ≤ Φ)
    (hε : ε = 216 / 10 ^ 8 * strength E muB cell +
      (22000 * (9 * gamma u (E.coneRoundings d k) + 4 * Φ * gamma u (d + 1)) + 10 ^ 6 * (δ + 2 * u)) * (30 * strength E muB cell))
    (hε' : ε' = 5774 / 10 ^ 8 * strength E muB cell +
      (22000 * (9 * gamma u (E.coneRoundings d k) + 4 * Φ * gamma u (d + 1)) + 10 ^ 6 * (δ + 2 * u)) * (30 * strength E muB cell)) :
    ∃ (T : ℕ → V3 ℝ) (m m' : ℝ), HasTorques (fun l => E.antiferro muB cell (arr l.dropLast) (vec (l.getLastD 0)) (vec q)) z T ∧
      targetConeFl A.fl R R' (antiferroTorquesFl A S E muB cell x q).1 = .ok [m, m'] ∧
      (∀ i < E.spins.length, norm3 (T i) ≤ (1 + gamma u (d + 2)) * m + 2 * ε) ∧
      (∃ i < E.spins.length, m ≤ (1 + gamma u (d + 2)) * (norm3 (T i) + 2 * ε)) ∧
      norm3 (T E.spins.length) ≤ (1 + gamma u (d + 2)) * m' + 2 * ε' ∧ m' ≤ (1 + gamma u (d + 2)) * (norm3 (T E.spins.length) + 2 * ε') := by
  have hd : (d + 2 : ℕ) * u < 1 := by
    refine lt_of_le_of_lt (mul_le_mul_of_nonneg_right ?_ hA.fl.nonneg) hN
    exact_mod_cast (show d + 2 ≤ E.coneRoundings d k by unfold coneRoundings; omega)
  obtain ⟨T, h1, h2, h3, h4⟩ := C108_antiferro hA hu E muB cell hN hS hne x z q hδ0 hδ hx hzl hz hxz hΦ hq
  rw [← hε] at h3
  rw [← hε'] at h4
  obtain ⟨m, m', h5⟩ := cone_target hA.fl hd hR hR' (List.length_pos_iff_ne_nil.2 hne) h2 h3 h4
  exact ⟨T, m, m', h1, h5⟩

/-- **C110, spiral.** As `C110_antiferro` for the spiral case. -/
theorem C110_spiral {A : Arith} (hA : A.Good u k) (hu : u ≤ 1 / 10000) (E : EnergyObj ℝ) (muB : ℝ) (cell : ℕ → M3 ℝ)
    (hN : E.coneRoundings d k * u < 1) {S : ℕ → Fin 3 → Bool → ConeSums} (hS : ∀ i j s, (S i j s).Complete E.spins.length d)
    {R : ℕ → EnergyObj.Tree (Fin 3)} {R' : EnergyObj.Tree (Fin 3)} (hR : ∀ i, (R i).leaves = Finset.univ.val ∧ (R i).depth ≤ d)
    (hR' : R'.leaves = Finset.univ.val ∧ R'.depth ≤ d) (hne : E.spins ≠ []) (x z : List (V3 ℝ)) (q : V3 ℝ) {δ Φ ε ε' : ℝ} (hδ0 : 0 ≤ δ)
    (hδ : δ ≤ 1 / 100) (hx : x.length = E.spins.length + 1) (hzl : z.length = E.spins.length + 1) (hz : AllUnit z)
    (hxz : ∀ k a, |x.getD k 0 a - z.getD k 0 a| ≤ δ) (hΦ : 0 ≤ Φ) (hq : ∀ b ∈ E.bonds, phaseSize q b.2.2.1 ≤ Φ)
    (hε : ε = 216 / 10 ^ 8 * strength E muB cell +
      (22000 * (9 * gamma u (E.coneRoundings d k) + 4 * Φ * gamma u (d + 1)) + 10 ^ 6 * (δ + 2 * u)) * (30 * strength E muB cell))
    (hε' : ε' = 5774 / 10 ^ 8 * strength E muB cell +
      (22000 * (9 * gamma u (E.coneRoundings d k) + 4 * Φ * gamma u (d + 1)) + 10 ^ 6 * (δ + 2 * u)) * (30 * strength E muB cell)) :
    ∃ (T : ℕ → V3 ℝ) (m m' : ℝ), HasTorques (fun l => E.spiral muB cell (arr l.dropLast) (vec (l.getLastD 0)) (vec q)) z T ∧
      targetConeFl A.fl R R' (spiralTorquesFl A S E muB cell x q).1 = .ok [m, m'] ∧
      (∀ i < E.spins.length, norm3 (T i) ≤ (1 + gamma u (d + 2)) * m + 2 * ε) ∧
      (∃ i < E.spins.length, m ≤ (1 + gamma u (d + 2)) * (norm3 (T i) + 2 * ε)) ∧
      norm3 (T E.spins.length) ≤ (1 + gamma u (d + 2)) * m' + 2 * ε' ∧ m' ≤ (1 + gamma u (d + 2)) * (norm3 (T E.spins.length) + 2 * ε') := by
  have hd : (d + 2 : ℕ) * u < 1 := by
    refine lt_of_le_of_lt (mul_le_mul_of_nonneg_right ?_ hA.fl.nonneg) hN
    exact_mod_cast (show d + 2 ≤ E.coneRoundings d k by unfold coneRoundings; omega)
  obtain ⟨T, h1, h2, h3, h4⟩ := C108_spiral hA hu E muB cell hN hS hne x z q hδ0 hδ hx hzl hz hxz hΦ hq
  rw [← hε] at h3
  rw [← hε'] at h4
  obtain ⟨m, m', h5⟩ := cone_target hA.fl hd hR hR' (List.length_pos_iff_ne_nil.2 hne) h2 h3 h4
  exact ⟨T, m, m', h1, h5⟩

theorem energy_stop (hf : IsRounding fl u) {t0 previous current : ℝ} {tol targets : List ℝ}
    (h : ¬ goOnFl fl (t0 :: tol) previous current targets) : |previous - current| ≤ (1 + gamma u 1) * t0 := by
  have h1 : |fl (previous - current)| ≤ t0 := by
    by_contra hc
    exact h (.inl (by simpa using hc))
  obtain ⟨θ, a, -, c⟩ := Rounded.one hf (previous - current)
  have hu := hf.lt
  have hg : 1 + gamma u 1 = (1 - u)⁻¹ := by
    have : (1 - u) ≠ 0 := by linarith
    simp only [gamma, Nat.cast_one]
    field_simp
    ring
  rw [pow_one] at a
  rw [c, abs_mul, abs_of_nonneg (show 0 ≤ θ by linarith)] at h1
  rw [hg, le_inv_mul_iff₀ (by linarith), mul_comm]
  exact (mul_le_mul_of_nonneg_left a (abs_nonneg _)).trans h1

theorem cone_stop {g t0 t1 t2 previous current m m' : ℝ} (hg : 0 ≤ g) (h : ¬ goOnFl fl [t0, t1, t2] previous current [m, m']) {T : ℕ → V3 ℝ} {n : ℕ}
    {ε ε' : ℝ} (h1 : ∀ i < n, norm3 (T i) ≤ (1 + g) * m + 2 * ε) (h2 : norm3 (T n) ≤ (1 + g) * m' + 2 * ε') :
    (∀ i < n, norm3 (T i) ≤ (1 + g) * t1 + 2 * ε) ∧ norm3 (T n) ≤ (1 + g) * t2 + 2 * ε' := by
  have hm : m ≤ t1 := by
    by_contra hc
    exact h (.inr ⟨0, by simp, by simpa using hc⟩)
  have hm' : m' ≤ t2 := by
    by_contra hc
    exact h (.inr ⟨1, by simp, by simpa using hc⟩)
  have h3 := mul_le_mul_of_nonneg_left hm (show 0 ≤ 1 + g by linarith)
  have h4 := mul_le_mul_of_nonneg_left hm' (show 0 ≤ 1 + g by linarith)
  exact ⟨fun i hi => (h1 i hi).trans (by linarith), h2.trans (by linarith)⟩

theorem cone_gamma {A : Arith} (hA : A.Good u k) {E : EnergyObj ℝ} (hN : E.coneRoundings d k * u < 1) : 0 ≤ gamma u (d + 2) := by
  have hd : (d + 2 : ℕ) * u < 1 := by
    refine lt_of_le_of_lt (mul_le_mul_of_nonneg_right ?_ hA.fl.nonneg) hN
    exact_mod_cast (show d + 2 ≤ E.coneRoundings d k by unfold coneRoundings; omega)
  exact div_nonneg (mul_nonneg (Nat.cast_nonneg _) hA.fl.nonneg) (by linarith)

/-- **C110, convergence.** When the loop of the ferro case ends by its condition, all torques of the energy at the spins before the last update are
within the tolerance up to round-off and the error of the differences, and so is the difference of the last two energies. -/
theorem C110_converged (hf : IsRounding fl u) (hu : u ≤ 1 / 10000) (E : EnergyObj ℝ) (muB : ℝ) (cell : ℕ → M3 ℝ)
    (hN : E.roundings d * u < 1) (hd : (d + 2 : ℕ) * u < 1) {S : ℕ → Fin 3 → Bool → Sums} (hS : ∀ i j s, (S i j s).Complete E.spins.length d)
    {R : ℕ → EnergyObj.Tree (Fin 3)} (hR : ∀ i, (R i).leaves = Finset.univ.val ∧ (R i).depth ≤ d) (hne : E.spins ≠ []) (x z : List (V3 ℝ)) {δ : ℝ}
    (hδ0 : 0 ≤ δ) (hδ : δ ≤ 1 / 100) (hx : x.length = E.spins.length) (hzl : z.length = E.spins.length) (hz : AllUnit z)
    (hxz : ∀ k a, |x.getD k 0 a - z.getD k 0 a| ≤ δ) (t0 t1 previous current : ℝ) (targets : List ℝ)
    (ht : targetFerroFl fl R (ferroGradFl fl S E muB cell x).2.1 = .ok targets) (hstop : ¬ goOnFl fl [t0, t1] previous current targets) :
    |previous - current| ≤ (1 + gamma u 1) * t0 ∧
    ∃ T : ℕ → V3 ℝ, HasTorques (fun l => E.ferro muB cell (arr l)) z T ∧ ∀ i < E.spins.length, norm3 (T i) ≤ (1 + gamma u (d + 2)) * t1 +
      2 * ((72 / 10 ^ 8 + 22000 * gamma u (E.roundings d) + 10 ^ 6 * (δ + 2 * u)) * strength E muB cell) := by
  obtain ⟨T, m, h1, h2, h3, -⟩ := C110_ferro hf hu E muB cell hN hd hS hR hne x z hδ0 hδ hx hzl hz hxz rfl
  rw [h2] at ht
  obtain rfl := Except.ok.inj ht
  have hm : m ≤ t1 := by
    by_contra hc
    exact hstop (.inr ⟨0, by simp, by simpa using hc⟩)
  have hg : 0 ≤ gamma u (d + 2) := div_nonneg (mul_nonneg (Nat.cast_nonneg _) hf.nonneg) (by linarith)
  refine ⟨energy_stop hf hstop, T, h1, fun i hi => (h3 i hi).trans ?_⟩
  have := mul_le_mul_of_nonneg_left hm (show 0 ≤ 1 + gamma u (d + 2) by linarith)
  linarith

/-- **C110, convergence of the antiferro case.** -/
theorem C110_converged_antiferro {A : Arith} (hA : A.Good u k) (hu : u ≤ 1 / 10000) (E : EnergyObj ℝ) (muB : ℝ) (cell : ℕ → M3 ℝ)
    (hN : E.coneRoundings d k * u < 1) {S : ℕ → Fin 3 → Bool → ConeSums} (hS : ∀ i j s, (S i j s).Complete E.spins.length d)
    {R : ℕ → EnergyObj.Tree (Fin 3)} {R' : EnergyObj.Tree (Fin 3)} (hR : ∀ i, (R i).leaves = Finset.univ.val ∧ (R i).depth ≤ d)
    (hR' : R'.leaves = Finset.univ.val ∧ R'.depth ≤ d) (hne : E.spins ≠ []) (x z : List (V3 ℝ)) (q : V3 ℝ) {δ Φ : ℝ} (hδ0 : 0 ≤ δ)
    (hδ : δ ≤ 1 / 100) (hx : x.length = E.spins.length + 1) (hzl : z.length = E.spins.length + 1) (hz : AllUnit z)
    (hxz : ∀ k a, |x.getD k 0 a - z.getD k 0 a| ≤ δ) (hΦ : 0 ≤ Φ) (hq : ∀ b ∈ E.bonds, phaseSize q b.2.2.1 ≤ Φ)
    (t0 t1 t2 previous current : ℝ) (targets : List ℝ)
    (ht : targetConeFl A.fl R R' (antiferroTorquesFl A S E muB cell x q).1 = .ok targets)
    (hstop : ¬ goOnFl A.fl [t0, t1, t2] previous current targets) :
    |previous - current| ≤ (1 + gamma u 1) * t0 ∧
    ∃ T : ℕ → V3 ℝ, HasTorques (fun l => E.antiferro muB cell (arr l.dropLast) (vec (l.getLastD 0)) (vec q)) z T ∧
      (∀ i < E.spins.length, norm3 (T i) ≤ (1 + gamma u (d + 2)) * t1 + 2 * (216 / 10 ^ 8 * strength E muB cell +
        (22000 * (9 * gamma u (E.coneRoundings d k) + 4 * Φ * gamma u (d + 1)) + 10 ^ 6 * (δ + 2 * u)) * (30 * strength E muB cell))) ∧
      norm3 (T E.spins.length) ≤ (1 + gamma u (d + 2)) * t2 + 2 * (5774 / 10 ^ 8 * strength E muB cell +
        (22000 * (9 * gamma u (E.coneRoundings d k) + 4 * Φ * gamma u (d + 1)) + 10 ^ 6 * (δ + 2 * u)) * (30 * strength E muB cell)) := by
  obtain ⟨T, m, m', h1, h2, h3, -, h4, -⟩ := C110_antiferro hA hu E muB cell hN hS hR hR' hne x z q hδ0 hδ hx hzl hz hxz hΦ hq rfl rfl
  rw [h2] at ht
  obtain rfl := Except.ok.inj ht
  exact ⟨energy_stop hA.fl hstop, T, h1, cone_stop (cone_gamma hA hN) hstop h3 h4⟩

/-- **C110, convergence of the spiral case.** -/
theorem C110_converged_spiral {A : Arith} (hA : A.Good u k) (hu : u ≤ 1 / 10000) (E : EnergyObj ℝ) (muB : ℝ) (cell : ℕ → M3 ℝ)
    (hN : E.coneRoundings d k * u < 1) {S : ℕ → Fin 3 → Bool → ConeSums} (hS : ∀ i j s, (S i j s).Complete E.spins.length d)
    {R : ℕ → EnergyObj.Tree (Fin 3)} {R' : EnergyObj.Tree (Fin 3)} (hR : ∀ i, (R i).leaves = Finset.univ.val ∧ (R i).depth ≤ d)
    (hR' : R'.leaves = Finset.univ.val ∧ R'.depth ≤ d) (hne : E.spins ≠ []) (x z : List (V3 ℝ)) (q : V3 ℝ) {δ Φ : ℝ} (hδ0 : 0 ≤ δ)
    (hδ : δ ≤ 1 / 100) (hx : x.length = E.spins.length + 1) (hzl : z.length = E.spins.length + 1) (hz : AllUnit z)
    (hxz : ∀ k a, |x.getD k 0 a - z.getD k 0 a| ≤ δ) (hΦ : 0 ≤ Φ) (hq : ∀ b ∈ E.bonds, phaseSize q b.2.2.1 ≤ Φ)
    (t0 t1 t2 previous current : ℝ) (targets : List ℝ)
    (ht : targetConeFl A.fl R R' (spiralTorquesFl A S E muB cell x q).1 = .ok targets)
    (hstop : ¬ goOnFl A.fl [t0, t1, t2] previous current targets) :
    |previous - current| ≤ (1 + gamma u 1) * t0 ∧
    ∃ T : ℕ → V3 ℝ, HasTorques (fun l => E.spiral muB cell (arr l.dropLast) (vec (l.getLastD 0)) (vec q)) z T ∧
      (∀ i < E.spins.length, norm3 (T i) ≤ (1 + gamma u (d + 2)) * t1 + 2 * (216 / 10 ^ 8 * strength E muB cell +
        (22000 * (9 * gamma u (E.coneRoundings d k) + 4 * Φ * gamma u (d + 1)) + 10 ^ 6 * (δ + 2 * u)) * (30 * strength E muB cell))) ∧
      norm3 (T E.spins.length) ≤ (1 + gamma u (d + 2)) * t2 + 2 * (5774 / 10 ^ 8 * strength E muB cell +
        (22000 * (9 * gamma u (E.coneRoundings d k) + 4 * Φ * gamma u (d + 1)) + 10 ^ 6 * (δ + 2 * u)) * (30 * strength E muB cell)) := by
  obtain ⟨T, m, m', h1, h2, h3, -, h4, -⟩ := C110_spiral hA hu E muB cell hN hS hR hR' hne x z q hδ0 hδ hx hzl hz hxz hΦ hq rfl rfl
  rw [h2] at ht
  obtain rfl := Except.ok.inj ht
  exact ⟨energy_stop hA.fl hstop, T, h1, cone_stop (cone_gamma hA hN) hstop h3 h4⟩

open OneSpin in
/-- One spin along `z` in a field along `x`, with floats of 53 bits that are rounded towards zero: the number that is compared with the tolerance
is more than `0.98`, so the loop goes on for every smaller tolerance. -/
example (previous current t0 : ℝ) : ∃ targets, targetFerroFl (Param.chop 52) (fun _ => .ofList (List.finRange 3))
      (ferroGradFl (Param.chop 52) (fun _ _ _ => Sums.sequential 1) (obj 1 0 (9 / 10)) 1 (mat 0) [![0, 0, 1]]).2.1 = .ok targets ∧
    goOnFl (Param.chop 52) [t0, 98 / 100] previous current targets := by
  have hx : AllUnit [![0, 0, (1 : ℝ)]] := by
    intro v hv
    rw [List.mem_singleton.mp hv]; exact z_unit
  obtain ⟨T, h1, h2⟩ := C79_ferro (obj 1 0 (9 / 10)) 1 (mat 0) [![0, 0, 1]] rfl (by simp [obj]) hx
  obtain ⟨T', m, h1', h4, h5, -⟩ := C110_ferro (Param.chop_isFloat 52 (by norm_num)).toIsRounding (by norm_num) (obj 1 0 (9 / 10)) 1 (mat 0) (d := 12)
    (by norm_num [roundings, obj]) (by norm_num) (fun _ _ _ => sequential_complete 1) (fun i => (sequential_complete 1).norm i) (by simp [obj])
    [![0, 0, 1]] [![0, 0, 1]] (δ := 0) le_rfl (by norm_num) rfl rfl hx (by simp) rfl
  refine ⟨[m], h4, .inr ⟨0, by simp, ?_⟩⟩
  have h3 := h2 0 (by simp) 1
  have h6 := h5 0 (by simp [obj])
  rw [h1.unique h1' 0 (by simp), grad_field.1, strength_field] at h3
  rw [strength_field] at h6
  have hg : gamma (1 / 2 ^ 52 : ℝ) ((obj 1 0 (9 / 10)).roundings 12) ≤ 1 / 10 ^ 13 := by
    norm_num [gamma, roundings, obj]
  have hg2 : gamma (1 / 2 ^ 52 : ℝ) (12 + 2) ≤ 1 / 10 ^ 13 := by norm_num [gamma]
  have hg0 : 0 ≤ gamma (1 / 2 ^ 52 : ℝ) (12 + 2) := by norm_num [gamma]
  have hw := w_bounds
  have h7 : 1 ≤ 2 / w := by rw [le_div_iff₀ w_pos]; linarith
  have h8 := abs_le.mp h3
  simp only [cons_val_one, cons_val_zero] at h8
  have h9 : T' 0 1 ≤ norm3 (T' 0) := by
    refine (le_abs_self _).trans (Real.abs_le_sqrt ?_)
    nlinarith [sq_nonneg (T' 0 0), sq_nonneg (T' 0 2)]
  show (98 / 100 : ℝ) < m
  by_contra hc
  nlinarith

/-- One spin with a bond to its copy in the next cell, in a field, with floats of 53 bits that are rounded towards zero: if the loop stops for the
tolerances `0.01`, the torque on the spin is at most `0.011`, the one on the cone axis at most `0.013`. -/
example (p e : ℝ) : ∃ targets, targetConeFl (Param.chop 52) (fun _ => .ofList (List.finRange 3)) (.ofList (List.finRange 3))
      (spiralTorquesFl ⟨Param.chop 52, fun x => Param.chop 52 (Real.cos x), fun x => Param.chop 52 (Real.sin x)⟩ (fun _ _ _ => ConeSums.sequential 1)
        ⟨1, [2], [1], [(0, 0, ![1, 0, 0], 0)], some ![1, 0, 0], 10, 1, 0, 0⟩ 1 (fun _ => 1) [![1, 0, 0], ![0, 0, 1]] ![1, 0, 0]).1 = .ok targets ∧
    (¬ goOnFl (Param.chop 52) [1 / 100, 1 / 100, 1 / 100] p e targets →
      ∃ T : ℕ → V3 ℝ, HasTorques (fun l => (⟨1, [2], [1], [(0, 0, ![1, 0, 0], 0)], some ![1, 0, 0], 10, 1, 0, 0⟩ : EnergyObj ℝ).spiral 1
        (fun _ => 1) (arr l.dropLast) (vec (l.getLastD 0)) (vec ![1, 0, 0])) [![1, 0, 0], ![0, 0, 1]] T ∧
      norm3 (T 0) ≤ 11 / 1000 ∧ norm3 (T 1) ≤ 13 / 1000) := by
  have hf : IsRounding (Param.chop 52) (1 / 2 ^ 52) := (Param.chop_isFloat 52 (by norm_num)).toIsRounding
  have hA : Arith.Good ⟨Param.chop 52, fun x => Param.chop 52 (Real.cos x), fun x => Param.chop 52 (Real.sin x)⟩ (1 / 2 ^ 52) 1 :=
    ⟨hf, fun x => .one hf _, fun x => .one hf _⟩
  have hx : AllUnit [![1, 0, (0 : ℝ)], ![0, 0, 1]] := by
    intro v hv
    simp only [List.mem_cons, List.not_mem_nil, or_false] at hv
    rcases hv with rfl | rfl <;> simp [IsUnit3, dotProduct, Fin.sum_univ_three]
  have hN : ((⟨1, [2], [1], [(0, 0, ![1, 0, 0], 0)], some ![1, 0, 0], 10, 1, 0, 0⟩ : EnergyObj ℝ).coneRoundings 12 1 : ℝ) *
      (1 / 2 ^ 52) < 1 := by norm_num [coneRoundings]
  have hR := (sequential_complete 1).norm 0
  have hq : ∀ b ∈ (⟨1, [2], [1], [(0, 0, ![1, 0, 0], 0)], some ![1, 0, 0], 10, 1, 0, 0⟩ : EnergyObj ℝ).bonds,
      phaseSize ![1, 0, 0] b.2.2.1 ≤ 1 := by simp [phaseSize, Fin.sum_univ_three]
  obtain ⟨-, m, m', -, h2, -⟩ := C110_spiral hA (by norm_num) ⟨1, [2], [1], [(0, 0, ![1, 0, 0], 0)], some ![1, 0, 0], 10, 1, 0, 0⟩ 1 (fun _ => 1) hN
    (S := fun _ _ _ => ConeSums.sequential 1) (fun _ _ _ => cone_sequential_complete 1) (fun _ => hR) hR (by simp) [![1, 0, 0], ![0, 0, 1]]
    [![1, 0, 0], ![0, 0, 1]] ![1, 0, 0] (δ := 0) (Φ := 1) le_rfl (by norm_num) rfl rfl hx (by simp) (by norm_num) hq rfl rfl
  refine ⟨_, h2, fun hstop => ?_⟩
  obtain ⟨-, T, h1, h3, h4⟩ := C110_converged_spiral hA (by norm_num) ⟨1, [2], [1], [(0, 0, ![1, 0, 0], 0)], some ![1, 0, 0], 10, 1, 0, 0⟩ 1 (fun _ => 1) hN
    (S := fun _ _ _ => ConeSums.sequential 1) (fun _ _ _ => cone_sequential_complete 1) (fun _ => hR) hR (by simp) [![1, 0, 0], ![0, 0, 1]]
    [![1, 0, 0], ![0, 0, 1]] ![1, 0, 0] (δ := 0) (Φ := 1) le_rfl (by norm_num) rfl rfl hx (by simp) (by norm_num) hq (1 / 100) (1 / 100) (1 / 100)
    p e _ h2 hstop
  have hs : strength (⟨1, [2], [1], [(0, 0, ![1, 0, 0], 0)], some ![1, 0, 0], 10, 1, 0, 0⟩ : EnergyObj ℝ) 1 (fun _ => 1) ≤ 13 := by
    simp [strength, Fin.sum_univ_three, Matrix.one_apply]
    norm_num
  have hs0 := strength_nonneg (⟨1, [2], [1], [(0, 0, ![1, 0, 0], 0)], some ![1, 0, 0], 10, 1, 0, 0⟩ : EnergyObj ℝ) 1 (fun _ => 1)
  have hg : 22000 * (9 * gamma (1 / 2 ^ 52 : ℝ) ((⟨1, [2], [1], [(0, 0, ![1, 0, 0], 0)], some ![1, 0, 0], 10, 1, 0, 0⟩ :
      EnergyObj ℝ).coneRoundings 12 1) + 4 * 1 * gamma (1 / 2 ^ 52 : ℝ) (12 + 1)) + 10 ^ 6 * (0 + 2 * (1 / 2 ^ 52)) ≤ 1 / 10 ^ 7 := by
    norm_num [gamma, coneRoundings]
  have hg2 : gamma (1 / 2 ^ 52 : ℝ) (12 + 2) ≤ 1 / 10 ^ 13 := by norm_num [gamma]
  refine ⟨T, h1, (h3 0 (by simp)).trans ?_, h4.trans ?_⟩ <;> nlinarith

end Optimize
end Magnopy
