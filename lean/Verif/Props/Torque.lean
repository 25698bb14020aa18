import Verif.Lemmas.TorqueEnergy
import Verif.Props.EnergyCone
import Verif.Props.OptExample

/-!
# Property C79: the torques of the minimisation are the torques of the energy
-/

set_option autoImplicit false

set_option linter.unusedSectionVars false

namespace Magnopy

open EnergyObj Matrix Optimize

theorem fdStep_sq : fdStep ^ 2 = 1 / 10 ^ 8 := by unfold fdStep; norm_num

theorem strength_nonneg (E : EnergyObj ℝ) (muB : ℝ) (cell : ℕ → M3 ℝ) : 0 ≤ strength E muB cell := by
  unfold strength
  refine add_nonneg (List.sum_nonneg ?_) ?_
  · intro a ha
    obtain ⟨b, -, rfl⟩ := List.mem_map.mp ha
    exact mul_nonneg (abs_nonneg _) (Finset.sum_nonneg fun _ _ => Finset.sum_nonneg fun _ _ => abs_nonneg _)
  · split
    · exact le_rfl
    · refine mul_nonneg (abs_nonneg _) (mul_nonneg (List.sum_nonneg ?_) (Finset.sum_nonneg fun _ _ => abs_nonneg _))
      intro a ha
      obtain ⟨b, -, rfl⟩ := List.mem_map.mp ha
      exact abs_nonneg _

/-- **C79**, ferro: the torques that `optimize` computes are the torques of `Energy.ferro`, up to `7.2e-7` times the
strength of the interactions. -/
theorem C79_ferro (E : EnergyObj ℝ) (muB : ℝ) (cell : ℕ → M3 ℝ) (x : List (V3 ℝ)) (hl : x.length = E.spins.length)
    (hne : E.spins ≠ []) (hx : AllUnit x) :
    ∃ T : ℕ → V3 ℝ, HasTorques (fun l => E.ferro muB cell (arr l)) x T ∧
      ∀ i < x.length, ∀ c, |((ferroProblem E muB cell).grad x).2.getD i 0 c - T i c| ≤
        72 / 10 ^ 8 * strength E muB cell := by
  obtain ⟨T, h1, h2⟩ := torques_of_good (ferroProblem E muB cell).energy x hx (fun _ => 36 * strength E muB cell)
    fun i => ferro_good E muB cell (fun k => hx _ (List.getElem_mem _)) i
  refine ⟨T, fun w y hy => ⟨_, fun t => ?_, h1 w y hy⟩, fun i hi c => ?_⟩
  · exact ferro_arr E muB cell (by simpa using hl) hne
  · have h3 := h2 i hi c
    rw [fdStep_sq] at h3
    simp only [ferroProblem, gradFerro] at h3 ⊢
    rw [rowTorques_getD _ _ hi]
    linarith

/-- The two cone cases. -/
theorem cone_torques (P : Problem ConeX) (En : List (V3 ℝ) → V3 ℝ → Except PyErr ℝ) (W : ℝ) (x : List (V3 ℝ)) (q : V3 ℝ)
    (m : ℕ) (hl : x.length = m + 1) (hx : AllUnit x) (hts : (P.grad (x, q)).2 = rowTorques (fun l => P.energy (l, q)) x)
    (hEn : ∀ l : List (V3 ℝ), l.length = m + 1 → En l.dropLast (l.getLastD 0) = .ok (P.energy (l, q)))
    (hG : ∀ N, N = m + 1 → ∀ (x : Fin N → V3 ℝ), (∀ k, IsUnit3 (x k)) → ∀ i,
      Good x i (fun z => P.energy (List.ofFn z, q)) (coneBound m i * W)) :
    ∃ T : ℕ → V3 ℝ, HasTorques (fun l => En l.dropLast (l.getLastD 0)) x T ∧
      (∀ i < m, ∀ c, |(P.grad (x, q)).2.getD i 0 c - T i c| ≤ 216 / 10 ^ 8 * W) ∧
      ∀ c, |(P.grad (x, q)).2.getD m 0 c - T m c| ≤ 5774 / 10 ^ 8 * W := by
  obtain ⟨T, h1, h2⟩ := torques_of_good (fun l => P.energy (l, q)) x hx (fun i => coneBound m i * W)
    (hG _ hl _ fun k => hx _ (List.getElem_mem _))
  refine ⟨T, fun w y hy => ⟨_, fun t => hEn _ (by simpa using hl), h1 w y hy⟩, fun i hi c => ?_, fun c => ?_⟩
  · have h3 := h2 i (by omega) c
    rw [fdStep_sq] at h3
    rw [hts, rowTorques_getD _ _ (by omega)]
    simp only [coneBound, if_neg hi.ne] at h3
    linarith
  · have h3 := h2 m (by omega) c
    rw [fdStep_sq] at h3
    rw [hts, rowTorques_getD _ _ (by omega)]
    simp only [coneBound, if_true] at h3
    linarith

/-- **C79**, antiferro: the torques that `optimize` computes for spins and cone axis are those of `Energy.antiferro`, up to
`2.2e-6` (spins) and `5.8e-5` (cone axis) times the strength of the interactions.  (They are written to wrong places of the
gradient afterwards: `C33_antiferro_last_spin`.) -/
theorem C79_antiferro (E : EnergyObj ℝ) (muB : ℝ) (cell : ℕ → M3 ℝ) (x : List (V3 ℝ)) (q : V3 ℝ)
    (hl : x.length = E.spins.length + 1) (hne : E.spins ≠ []) (hx : AllUnit x) :
    ∃ T : ℕ → V3 ℝ, HasTorques (fun l => E.antiferro muB cell (arr l.dropLast) (vec (l.getLastD 0)) (vec q)) x T ∧
      (∀ i < E.spins.length, ∀ c, |((antiferroProblem E muB cell).grad (x, q)).2.getD i 0 c - T i c| ≤
        216 / 10 ^ 8 * strength E muB cell) ∧
      ∀ c, |((antiferroProblem E muB cell).grad (x, q)).2.getD E.spins.length 0 c - T E.spins.length c| ≤
        5774 / 10 ^ 8 * strength E muB cell :=
  cone_torques (antiferroProblem E muB cell) (fun l n => E.antiferro muB cell (arr l) (vec n) (vec q)) _ x q _ hl hx rfl
    (fun l h => antiferro_arr E muB cell (by simp [h]) hne _ _)
    (by rintro _ rfl x hx i; exact antiferro_good E muB cell hx q i)

/-- **C79**, spiral: the torques that `optimize` computes for spins and cone axis are those of `Energy.spiral`. -/
theorem C79_spiral (E : EnergyObj ℝ) (muB : ℝ) (cell : ℕ → M3 ℝ) (x : List (V3 ℝ)) (q : V3 ℝ)
    (hl : x.length = E.spins.length + 1) (hne : E.spins ≠ []) (hx : AllUnit x) :
    ∃ T : ℕ → V3 ℝ, HasTorques (fun l => E.spiral muB cell (arr l.dropLast) (vec (l.getLastD 0)) (vec q)) x T ∧
      (∀ i < E.spins.length, ∀ c, |((spiralProblem E muB cell).grad (x, q)).2.getD i 0 c - T i c| ≤
        216 / 10 ^ 8 * strength E muB cell) ∧
      ∀ c, |((spiralProblem E muB cell).grad (x, q)).2.getD E.spins.length 0 c - T E.spins.length c| ≤
        5774 / 10 ^ 8 * strength E muB cell :=
  cone_torques (spiralProblem E muB cell) (fun l n => E.spiral muB cell (arr l) (vec n) (vec q)) _ x q _ hl hx rfl
    (fun l h => spiral_arr E muB cell (by simp [h]) hne _ _)
    (by rintro _ rfl x hx i; exact spiral_good E muB cell hx q i)

/-! ### Uniqueness -/

/-- There is at most one list of torques. -/
theorem HasTorques.unique {En : List (V3 ℝ) → Except PyErr ℝ} {x : List (V3 ℝ)} {T T' : ℕ → V3 ℝ}
    (h : HasTorques En x T) (h' : HasTorques En x T') (i : ℕ) (hi : i < x.length) : T i = T' i := by
  have key : ∀ u : V3 ℝ, u ⬝ᵥ T i = u ⬝ᵥ T' i := by
    intro u
    let w : ℕ → V3 ℝ := fun k => if k = i then u else 0
    let y : ℕ → ℝ → V3 ℝ := fun k t => x.getD k 0 + t • crossProduct (w k) (x.getD k 0)
    have hy : ∀ k < x.length, y k 0 = x.getD k 0 ∧ HasDerivAt (y k) (crossProduct (w k) (x.getD k 0)) 0 := by
      intro k _
      refine ⟨by simp [y], ?_⟩
      have := ((hasDerivAt_id (0 : ℝ)).smul_const (crossProduct (w k) (x.getD k 0))).const_add (x.getD k 0)
      rw [one_smul] at this
      exact this
    obtain ⟨f, hf, hd⟩ := h w y hy
    obtain ⟨f', hf', hd'⟩ := h' w y hy
    have hff : f = f' := funext fun t => Except.ok.inj ((hf t).symm.trans (hf' t))
    subst hff
    have hu := hd.unique hd'
    have hs : ∀ S : ℕ → V3 ℝ, ∑ k ∈ Finset.range x.length, w k ⬝ᵥ S k = u ⬝ᵥ S i := by
      intro S
      rw [Finset.sum_eq_single i]
      · simp [w]
      · intro k _ hk
        simp [w, hk]
      · intro hk
        exact absurd (Finset.mem_range.mpr hi) hk
    rwa [hs, hs] at hu
  funext c
  have := key (Pi.single c 1)
  simpa using this

/-! ### The slope along a search direction -/

theorem turning_zero (p : Arr) (v : V3 ℝ) (i : ℕ) : turning p v i 0 = v := by
  unfold turning
  split <;> simp [rotate]

theorem turning_deriv (p : Arr) (v : V3 ℝ) (i : ℕ) :
    HasDerivAt (turning p v i) (crossProduct (angular p i) v) 0 := by
  unfold turning
  by_cases h : norm3 (angular p i) = 0
  · simp only [if_pos h]
    have h0 : angular p i = 0 := by
      by_contra hne
      exact (norm3_pos hne).ne' h
    rw [h0]
    simpa using hasDerivAt_const (0 : ℝ) v
  · simp only [if_neg h]
    have hθ : HasDerivAt (fun s : ℝ => s * norm3 (angular p i)) (norm3 (angular p i)) 0 := by
      simpa using (hasDerivAt_id (0 : ℝ)).mul_const (norm3 (angular p i))
    have hcos : HasDerivAt (fun s : ℝ => Real.cos (s * norm3 (angular p i))) 0 0 := by
      simpa using hθ.cos
    have hsin : HasDerivAt (fun s : ℝ => Real.sin (s * norm3 (angular p i))) (norm3 (angular p i)) 0 := by
      simpa using hθ.sin
    have h1 := ((hcos.smul_const v).add (hsin.smul_const (crossProduct (normalize (angular p i)) v))).add
      (((hcos.const_sub 1).mul_const (normalize (angular p i) ⬝ᵥ v)).smul_const (normalize (angular p i)))
    have h2 : crossProduct (angular p i) v = (0 : ℝ) • v + norm3 (angular p i) • crossProduct (normalize (angular p i)) v +
        (-0 * (normalize (angular p i) ⬝ᵥ v)) • normalize (angular p i) := by
      rw [normalize_eq, LinearMap.map_smul₂, smul_smul, mul_inv_cancel₀ h]
      simp
    rw [h2]
    exact h1

/-- The update turns the rows, if no angle is below the precision of doubles. -/
theorem rotateRow_turning (p : Arr) (v : V3 ℝ) (i : ℕ) {s : ℝ} (hs : 0 < s)
    (h : angular p i = 0 ∨ eps ≤ s * norm3 (angular p i)) :
    rotateRow (p (3 * i) * s) (p (3 * i + 1) * s) (p (3 * i + 2) * s) v = turning p v i s := by
  have hθ : Real.sqrt ((p (3 * i) * s) ^ 2 + (p (3 * i + 1) * s) ^ 2 + (p (3 * i + 2) * s) ^ 2) =
      s * norm3 (angular p i) := by
    have e : (p (3 * i) * s) ^ 2 + (p (3 * i + 1) * s) ^ 2 + (p (3 * i + 2) * s) ^ 2 =
        s ^ 2 * ((angular p i) 0 ^ 2 + (angular p i) 1 ^ 2 + (angular p i) 2 ^ 2) := by
      simp [angular]; ring
    rw [e, Real.sqrt_mul (sq_nonneg s), Real.sqrt_sq hs.le, norm3]
  rcases h with h | h
  · have h0 : norm3 (angular p i) = 0 := by rw [h]; simp [norm3]
    rw [h0, mul_zero] at hθ
    rw [rotateRow_small (by rw [hθ]; exact eps_pos), turning, if_pos h0]
  · have hpos : 0 < norm3 (angular p i) := by
      by_contra hcon
      have h1 : s * norm3 (angular p i) ≤ 0 := mul_nonpos_of_nonneg_of_nonpos hs.le (not_lt.mp hcon)
      linarith [eps_pos]
    have hnlt : ¬ s * norm3 (angular p i) < eps := not_lt.mpr h
    rw [turning, if_neg hpos.ne', rotateRow]
    simp only [hθ, if_neg hnlt]
    have hr : (![-(p (3 * i + 2) * s) / (s * norm3 (angular p i)), p (3 * i + 1) * s / (s * norm3 (angular p i)),
        -(p (3 * i) * s) / (s * norm3 (angular p i))] : V3 ℝ) = normalize (angular p i) := by
      funext c
      rw [EnergyObj.normalize]
      fin_cases c <;> simp [angular] <;> field_simp
    rw [hr, rotate]
    simp [dotProduct, Fin.sum_univ_three]

theorem sum_range_three (f : ℕ → ℝ) (m : ℕ) :
    ∑ k ∈ Finset.range (3 * m), f k = ∑ i ∈ Finset.range m, (f (3 * i) + f (3 * i + 1) + f (3 * i + 2)) := by
  induction m with
  | zero => simp
  | succ m ih =>
    rw [Finset.sum_range_succ, ← ih, show 3 * (m + 1) = 3 * m + 1 + 1 + 1 by ring, Finset.sum_range_succ,
      Finset.sum_range_succ, Finset.sum_range_succ]
    ring

/-- **C79**, ferro: along any search direction `p` the slope of the energy is `-g·p`, where `g` is the gradient vector of
`optimize`, up to the errors of the torques.  (The acceptance test of the line search uses `+g·p`, see `C36_false`.) -/
theorem C79_slope (E : EnergyObj ℝ) (muB : ℝ) (cell : ℕ → M3 ℝ) (x : List (V3 ℝ)) (hl : x.length = E.spins.length)
    (hne : E.spins ≠ []) (hx : AllUnit x) (p : Arr) :
    ∃ (f : ℝ → ℝ) (D : ℝ), (∀ s, E.ferro muB cell (arr (turned x p s)) = .ok (f s)) ∧ HasDerivAt f D 0 ∧
      turned x p 0 = x ∧
      (∀ s, 0 < s → (∀ i < x.length, angular p i = 0 ∨ eps ≤ s * norm3 (angular p i)) →
        (ferroProblem E muB cell).update x p s = turned x p s) ∧
      |D + vdot (ferroProblem E muB cell).size ((ferroProblem E muB cell).grad x).1 p| ≤
        72 / 10 ^ 8 * strength E muB cell * ∑ k ∈ Finset.range (3 * x.length), |p k| := by
  obtain ⟨T, hT, hb⟩ := C79_ferro E muB cell x hl hne hx
  obtain ⟨f, hf, hd⟩ := hT (angular p) (fun i => turning p (x.getD i 0) i) fun i _ =>
    ⟨turning_zero _ _ _, turning_deriv _ _ _⟩
  refine ⟨f, _, hf, hd, ?_, fun s hs hi => ?_, ?_⟩
  · refine List.ext_getElem (by simp [turned]) fun k h1 h2 => ?_
    simp [turned, turning_zero, h2]
  · refine List.ext_getElem (by simp [ferroProblem, updateFerro, rotateRows_length, turned]) fun k h1 h2 => ?_
    have hk : k < x.length := by simpa [turned] using h2
    have hc : k < 3 * E.spins.length / 3 := by omega
    simp only [ferroProblem, updateFerro]
    rw [rotateRows_getElem _ _ _ _ _ hk, if_pos hc, rotateRow_turning p _ k hs (hi k hk)]
    simp [turned, List.getD, hk]
  · have hsize : (ferroProblem E muB cell).size = 3 * x.length := by rw [hl]; rfl
    rw [hsize, vdot, sum_range_three, sum_range_three, ← Finset.sum_add_distrib, Finset.mul_sum]
    refine (Finset.abs_sum_le_sum_abs _ _).trans (Finset.sum_le_sum fun i hi => ?_)
    have hi' := Finset.mem_range.mp hi
    have hpk := packTorques_at (rowTorques (ferroProblem E muB cell).energy x) i
    have hb0 := hb i hi'
    simp only [ferroProblem, gradFerro] at hpk hb0 ⊢
    rw [hpk.1, hpk.2.1, hpk.2.2]
    obtain ⟨t, ht⟩ : ∃ t, t = (rowTorques (fun x => E.ferroUnit muB cell (x.map normalize)) x).getD i 0 := ⟨_, rfl⟩
    rw [← ht] at hb0 ⊢
    have e : angular p i ⬝ᵥ T i + (t 2 * p (3 * i) + -t 1 * p (3 * i + 1) + t 0 * p (3 * i + 2)) =
        (t 2 - T i 2) * p (3 * i) + (-((t 1 - T i 1) * p (3 * i + 1)) + (t 0 - T i 0) * p (3 * i + 2)) := by
      simp [angular, dotProduct, Fin.sum_univ_three]; ring
    rw [e]
    have a1 := abs_add_le ((t 2 - T i 2) * p (3 * i)) (-((t 1 - T i 1) * p (3 * i + 1)) + (t 0 - T i 0) * p (3 * i + 2))
    have a2 := abs_add_le (-((t 1 - T i 1) * p (3 * i + 1))) ((t 0 - T i 0) * p (3 * i + 2))
    rw [abs_neg, abs_mul, abs_mul] at a2
    rw [abs_mul] at a1
    have b0 := mul_le_mul_of_nonneg_right (hb0 0) (abs_nonneg (p (3 * i + 2)))
    have b1 := mul_le_mul_of_nonneg_right (hb0 1) (abs_nonneg (p (3 * i + 1)))
    have b2 := mul_le_mul_of_nonneg_right (hb0 2) (abs_nonneg (p (3 * i)))
    linarith

/-! ### The end of a minimisation -/

theorem norm3_add_le (u v : V3 ℝ) : norm3 (u + v) ≤ norm3 u + norm3 v := by
  have hu : 0 ≤ norm3 u := Real.sqrt_nonneg _
  have hv : 0 ≤ norm3 v := Real.sqrt_nonneg _
  have h1 := norm3_sq u
  have h2 := norm3_sq v
  have h3 := norm3_sq (u + v)
  have h4 : u ⬝ᵥ v ≤ norm3 u * norm3 v := by
    have h5 := cauchy3 u v
    rw [← h1, ← h2, ← mul_pow] at h5
    exact le_trans (le_abs_self _) (abs_le_of_sq_le_sq h5 (mul_nonneg hu hv))
  refine le_of_sq_le_sq ?_ (add_nonneg hu hv)
  rw [h3, add_dotProduct, dotProduct_add, dotProduct_add, dotProduct_comm v u]
  nlinarith

theorem norm3_le_two {v : V3 ℝ} {e : ℝ} (h : ∀ c, |v c| ≤ e) : norm3 v ≤ 2 * e := by
  have he : 0 ≤ e := (abs_nonneg _).trans (h 0)
  rw [norm3]
  refine Real.sqrt_le_iff.mpr ⟨by linarith, ?_⟩
  have hs : ∀ c, v c ^ 2 ≤ e ^ 2 := fun c => sq_le_sq' (by linarith [(abs_le.mp (h c)).1]) (abs_le.mp (h c)).2
  nlinarith [hs 0, hs 1, hs 2, sq_nonneg e]

/-- **C79**, ferro: when `optimize` returns before the limit of iterations, the torques of the energy before the last update
are within the tolerance, up to the errors of the finite differences. -/
theorem C79_converged (E : EnergyObj ℝ) (muB : ℝ) (cell : ℕ → M3 ℝ) (rnd : Random)
    (guess : Option (Param.ArrayLike ℝ)) (t0 t1 : ℝ) (maxIter history : Option ℤ) (fuel : ℕ)
    (r : Outcome (List (V3 ℝ))) (hne : E.spins ≠ []) (hg : GoodGuess guess) (hr : rnd.Good E.spins.length)
    (hpos : 0 < t0 ∨ 0 < t1)
    (h : optimizeFerro E muB cell rnd guess (some [t0, t1]) maxIter history fuel = some (.ok r)) :
    ∃ (n : ℕ) (xs : ℕ → List (V3 ℝ)), Trajectory (ferroProblem E muB cell) E.wolfeC1 E.wolfeC2 xs n ∧
      startFerro E.spins.length rnd.spins guess = .ok (xs 0) ∧ xs n = r.x ∧
      ((∃ N, maxIter = some N ∧ (n : ℤ) = max N 0) ∨
        0 < n ∧ ∃ T : ℕ → V3 ℝ, HasTorques (fun l => E.ferro muB cell (arr l)) (xs (n - 1)) T ∧
          ∀ i < E.spins.length, norm3 (T i) ≤ t1 + 144 / 10 ^ 8 * strength E muB cell) := by
  obtain ⟨n, xs, h1, h2, h3, -, h5⟩ := C34_ferro_partial E muB cell rnd guess t0 t1 maxIter history fuel r hpos h
  refine ⟨n, xs, h1, h2, h3, ?_⟩
  rcases h5 with h5 | ⟨hn, -, ht⟩
  · exact .inl h5
  · have hI : ∀ i ≤ n, (xs i).length = E.spins.length ∧ AllUnit (xs i) := by
      intro i
      induction i with
      | zero => intro _; exact startFerro_unit h2 hg hr.length hr.spins
      | succ i ih =>
        intro hi
        obtain ⟨p, lam, -, -, -, e⟩ := h1 i hi
        obtain ⟨a, b⟩ := ih (by omega)
        rw [e]
        exact ⟨(rotateRows_length _ _ _ _).trans a, rotateRows_unit _ _ _ b⟩
    obtain ⟨hl, hu⟩ := hI (n - 1) (by omega)
    obtain ⟨T, hT, hb⟩ := C79_ferro E muB cell _ hl hne hu
    refine .inr ⟨hn, T, hT, fun i hi => ?_⟩
    have hi' : i < (xs (n - 1)).length := by omega
    have hb0 := hb i hi'
    have ht0 := ht i hi'
    have hgr : ((ferroProblem E muB cell).grad (xs (n - 1))).2.getD i 0 =
        rowTorque (ferroProblem E muB cell).energy (xs (n - 1)) i := rowTorques_getD _ _ hi'
    rw [hgr] at hb0
    obtain ⟨t, htd⟩ : ∃ t, t = rowTorque (ferroProblem E muB cell).energy (xs (n - 1)) i := ⟨_, rfl⟩
    rw [← htd] at hb0 ht0
    have h6 : norm3 (T i - t) ≤ 2 * (72 / 10 ^ 8 * strength E muB cell) := norm3_le_two fun c => by
      rw [Pi.sub_apply, abs_sub_comm]; exact hb0 c
    have h7 := norm3_add_le t (T i - t)
    rw [add_sub_cancel] at h7
    linarith

/-- The claim that the acceptance test of the line search makes about the ferro case: `g·p` is the slope of the energy
along the search direction, up to the errors of the torques. -/
def C79_test_statement (muB : ℝ) : Prop :=
  ∀ (E : EnergyObj ℝ) (cell : ℕ → M3 ℝ) (x : List (V3 ℝ)) (p : Arr), x.length = E.spins.length → E.spins ≠ [] → AllUnit x →
    ∃ (f : ℝ → ℝ) (D : ℝ), (∀ s, E.ferro muB cell (arr (turned x p s)) = .ok (f s)) ∧ HasDerivAt f D 0 ∧
      |D - vdot (ferroProblem E muB cell).size ((ferroProblem E muB cell).grad x).1 p| ≤
        72 / 10 ^ 8 * strength E muB cell * ∑ k ∈ Finset.range (3 * x.length), |p k|

namespace OneSpin

theorem z_unit : IsUnit3 ![0, 0, 1] := by simp [IsUnit3, dotProduct, Fin.sum_univ_three]

/-- The gradient vector of a spin along `z` in a field along `x`. -/
theorem grad_field : ((ferroProblem (obj 1 0 (9 / 10)) 1 (mat 0)).grad [![0, 0, 1]]).2.getD 0 0 = ![0, 2 / w, 0] ∧
    ((ferroProblem (obj 1 0 (9 / 10)) 1 (mat 0)).grad [![0, 0, 1]]).1 1 = -(2 / w) := by
  have h := torque_one 1 0 (9 / 10) 0 1 1 (by norm_num)
  have h1 : ((ferroProblem (obj 1 0 (9 / 10)) 1 (mat 0)).grad [![0, 0, 1]]).2.getD 0 0 = ![0, 2 / w, 0] := by
    show (rowTorques (ferroProblem (obj 1 0 (9 / 10)) 1 (mat 0)).energy [![0, 0, 1]]).getD 0 0 = _
    rw [rowTorques_getD _ _ (by simp), h]
    norm_num
  refine ⟨h1, ?_⟩
  have h2 := (packTorques_at (rowTorques (ferroProblem (obj 1 0 (9 / 10)) 1 (mat 0)).energy [![0, 0, 1]]) 0).2.1
  have h3 : (rowTorques (ferroProblem (obj 1 0 (9 / 10)) 1 (mat 0)).energy [![0, 0, 1]]).getD 0 0 = ![0, 2 / w, 0] := h1
  rw [h3] at h2
  show packTorques (rowTorques (ferroProblem (obj 1 0 (9 / 10)) 1 (mat 0)).energy [![0, 0, 1]]) 1 = _
  simpa using h2

theorem strength_field : strength (obj 1 0 (9 / 10)) 1 (mat 0) = 2 := by
  simp [strength, obj, mat, Fin.sum_univ_three]

theorem w_bounds : 1 ≤ w ∧ w ≤ 2 := by
  have h := w_sq
  have hp := w_pos
  have hf : fdStep ^ 2 = 1 / 10 ^ 8 := fdStep_sq
  rw [hf] at h
  constructor <;> nlinarith

end OneSpin

open OneSpin in
/-- **C79** is false for the sign that the acceptance test uses: the slope is `-g·p`. -/
theorem C79_test_false : ¬ C79_test_statement 1 := by
  intro h
  set p : Arr := fun k => if k = 1 then 1 else 0 with hp
  have hx : AllUnit [![0, 0, (1 : ℝ)]] := by
    intro v hv
    rw [List.mem_singleton.mp hv]; exact z_unit
  obtain ⟨f, D, hf, hd, hb⟩ := h (obj 1 0 (9 / 10)) (mat 0) [![0, 0, 1]] p rfl (by simp [obj]) hx
  obtain ⟨f', D', hf', hd', -, -, hb'⟩ := C79_slope (obj 1 0 (9 / 10)) 1 (mat 0) [![0, 0, 1]] rfl (by simp [obj]) hx p
  have hff : f = f' := funext fun t => Except.ok.inj ((hf t).symm.trans (hf' t))
  subst hff
  obtain rfl := hd.unique hd'
  have hsum : ∑ k ∈ Finset.range (3 * [![0, 0, (1 : ℝ)]].length), |p k| = 1 := by
    simp [hp, Finset.sum_range_succ]
  have hdot : vdot (ferroProblem (obj 1 0 (9 / 10)) 1 (mat 0)).size
      ((ferroProblem (obj 1 0 (9 / 10)) 1 (mat 0)).grad [![0, 0, 1]]).1 p = -(2 / w) := by
    rw [← grad_field.2]
    show vdot 3 _ p = _
    simp [vdot, Finset.sum_range_succ, hp]
  rw [hsum, hdot, strength_field] at hb hb'
  have hw := w_bounds
  have h2 : 1 ≤ 2 / w := by rw [le_div_iff₀ w_pos]; linarith
  have h3 := abs_le.mp hb
  have h4 := abs_le.mp hb'
  linarith [h3.1, h3.2, h4.1, h4.2]

open OneSpin in
/-- A spin along `z` in a field along `x`: the torque about `y` exceeds `0.99`. -/
example : ∃ T : ℕ → V3 ℝ, HasTorques (fun l => (obj 1 0 (9 / 10)).ferro 1 (mat 0) (arr l)) [![0, 0, 1]] T ∧
    99 / 100 < T 0 1 := by
  obtain ⟨T, h1, h2⟩ := C79_ferro (obj 1 0 (9 / 10)) 1 (mat 0) [![0, 0, 1]] rfl (by simp [obj]) (by
    intro v hv
    rw [List.mem_singleton.mp hv]; exact z_unit)
  refine ⟨T, h1, ?_⟩
  have h3 := h2 0 (by simp) 1
  rw [grad_field.1, strength_field] at h3
  have hw := w_bounds
  have h4 : 1 ≤ 2 / w := by rw [le_div_iff₀ w_pos]; linarith
  have h5 := abs_le.mp h3
  simp only [cons_val_one, cons_val_zero] at h5
  linarith [h5.1, h5.2]

open OneSpin in
/-- A spin along `x` and a cone axis along `z`, in both cone cases. -/
example (q : V3 ℝ) :
    (∃ T, HasTorques (fun l => (obj 1 0 (9 / 10)).antiferro 1 (mat 2) (arr l.dropLast) (vec (l.getLastD 0)) (vec q))
      [![1, 0, 0], ![0, 0, 1]] T) ∧
    ∃ T, HasTorques (fun l => (obj 1 0 (9 / 10)).spiral 1 (mat 2) (arr l.dropLast) (vec (l.getLastD 0)) (vec q))
      [![1, 0, 0], ![0, 0, 1]] T := by
  have hx : AllUnit [![1, 0, (0 : ℝ)], ![0, 0, 1]] := by
    intro v hv
    simp only [List.mem_cons, List.not_mem_nil, or_false] at hv
    rcases hv with rfl | rfl <;> simp [IsUnit3, dotProduct, Fin.sum_univ_three]
  obtain ⟨T, h1, -⟩ := C79_antiferro (obj 1 0 (9 / 10)) 1 (mat 2) _ q rfl (by simp [obj]) hx
  obtain ⟨T', h2, -⟩ := C79_spiral (obj 1 0 (9 / 10)) 1 (mat 2) _ q rfl (by simp [obj]) hx
  exact ⟨⟨T, h1⟩, T', h2⟩

end Magnopy
