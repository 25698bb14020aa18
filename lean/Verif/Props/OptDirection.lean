import Verif.Props.Optimize

/-!
# Properties C33, C36, C55, C56: directions and steps
-/

set_option autoImplicit false

set_option linter.unusedSectionVars false

namespace Magnopy

open EnergyObj Matrix Optimize

variable {X : Type}

/-! ### C33: every variable follows its own torque -/

theorem rotateRow_follow (t v : V3 ℝ) {lam : ℝ} (hl : 0 < lam) :
    rotateRow (t 2 * lam) (-t 1 * lam) (t 0 * lam) v = follow t lam v := by
  unfold follow
  split
  · rename_i h; exact rotateRow_torque_small t v hl h
  · rename_i h; exact rotateRow_torque t v hl (not_lt.mp h)

/-- The claim of C33 for the spins and the cone axis of a case with `n` spins: along the gradient every row follows
its own torque. -/
def FollowOwnTorques (P : Problem ConeX) (n : ℕ) : Prop :=
  ∀ (x : ConeX) (lam : ℝ), x.1.length = n + 1 → 0 < lam → ∀ i ≤ n,
    (P.update x (P.grad x).1 lam).1.getD i 0 = follow (coneTorque P x i) lam (x.1.getD i 0)

/-- **C33**, ferro: along the gradient every spin follows its own torque. -/
theorem C33_ferro (E : EnergyObj ℝ) (muB : ℝ) (cell : ℕ → M3 ℝ) (x : List (V3 ℝ)) (lam : ℝ)
    (hx : x.length = E.spins.length) (hl : 0 < lam) (i : ℕ) (hi : i < x.length) :
    ((ferroProblem E muB cell).update x ((ferroProblem E muB cell).grad x).1 lam).getD i 0 =
      follow (rowTorque (ferroProblem E muB cell).energy x i) lam (x.getD i 0) := by
  have hc : i < 3 * E.spins.length / 3 := by omega
  have hd : ∀ l : List (V3 ℝ), ∀ h : i < l.length, l.getD i 0 = l[i] := fun l h => by simp [List.getD, h]
  have hpk := packTorques_at (rowTorques (ferroProblem E muB cell).energy x) i
  rw [rowTorques_getD _ _ hi] at hpk
  simp only [ferroProblem, updateFerro, gradFerro] at hpk ⊢
  rw [hd _ (by simpa [rotateRows_length] using hi), hd _ hi, rotateRows_getElem _ _ _ _ _ hi, if_pos hc, hpk.1, hpk.2.1,
    hpk.2.2, rotateRow_follow _ _ hl]

theorem dropLast_getD (l : List (V3 ℝ)) {i : ℕ} (hi : i < l.length - 1) : l.dropLast.getD i 0 = l.getD i 0 := by
  have h1 : i < l.dropLast.length := by simpa using hi
  have h2 : i < l.length := by omega
  rw [List.getD, List.getD, List.getElem?_eq_getElem h1, List.getElem?_eq_getElem h2, List.getElem_dropLast]

theorem rowTorques_last (F : List (V3 ℝ) → ℝ) {x : List (V3 ℝ)} {n : ℕ} (hx : x.length = n + 1) :
    (rowTorques F x).getLastD 0 = rowTorque F x n := by
  have hne : rowTorques F x ≠ [] := by
    intro e
    have := congrArg List.length e
    rw [rowTorques_length, hx] at this
    cases this
  rw [List.getLastD_eq_getLast?, List.getLast?_eq_getLast_of_ne_nil hne, Option.getD_some, List.getLast_eq_getElem]
  simp [rowTorques, hx]

/-- **C33**, spiral: along the gradient every spin and the cone axis follow their own torque. -/
theorem C33_spiral (E : EnergyObj ℝ) (muB : ℝ) (cell : ℕ → M3 ℝ) :
    FollowOwnTorques (spiralProblem E muB cell) E.spins.length := by
  intro x lam hx hl i hi
  have hc : i < (3 * E.spins.length + 6 - 3) / 3 := by omega
  have hi' : i < x.1.length := by omega
  have hd : ∀ l : List (V3 ℝ), ∀ h : i < l.length, l.getD i 0 = l[i] := fun l h => by simp [List.getD, h]
  have hpk := packTorques_at (rowTorques (fun l => (spiralProblem E muB cell).energy (l, x.2)) x.1).dropLast i
  have hg : ∀ k : Fin 3, (((spiralProblem E muB cell).grad x).1 (3 * i + k.val)) =
      ![coneTorque (spiralProblem E muB cell) x i 2, -coneTorque (spiralProblem E muB cell) x i 1,
        coneTorque (spiralProblem E muB cell) x i 0] k := by
    intro k
    have hlast := rowTorques_last (fun l => (spiralProblem E muB cell).energy (l, x.2)) hx
    simp only [spiralProblem, gradSpiral, writeVector, writeTorque] at hpk hlast ⊢
    rw [hlast]
    rcases Nat.lt_or_ge i E.spins.length with h | h
    · rw [dropLast_getD _ (by rw [rowTorques_length]; omega), rowTorques_getD _ _ hi'] at hpk
      have hk := k.isLt
      rw [if_neg (by omega), if_neg (by omega), if_neg (by omega), if_neg (by omega), if_neg (by omega),
        if_neg (by omega)]
      fin_cases k
      · exact hpk.1
      · exact hpk.2.1
      · exact hpk.2.2
    · obtain rfl : i = E.spins.length := by omega
      have hk := k.isLt
      rw [if_neg (by omega), if_neg (by omega), if_neg (by omega)]
      fin_cases k
      · simp [coneTorque]
      · simp [coneTorque]
      · simp [coneTorque]
  have g0 := hg 0
  have g1 := hg 1
  have g2 := hg 2
  simp at g0 g1 g2
  have : (spiralProblem E muB cell).update x ((spiralProblem E muB cell).grad x).1 lam =
    updateSpiral (3 * E.spins.length + 6) x ((spiralProblem E muB cell).grad x).1 lam := rfl
  rw [this]
  simp only [updateSpiral]
  rw [hd _ (by simpa [rotateRows_length] using hi'), hd _ hi', rotateRows_getElem _ _ _ _ _ hi', if_pos hc, g0, g1, g2,
    rotateRow_follow _ _ hl]

/-- **C33**, antiferro: whatever the direction and the step, the cone axis and the wave vector do not move. -/
theorem C33_antiferro_cone_fixed (E : EnergyObj ℝ) (muB : ℝ) (cell : ℕ → M3 ℝ) (o : Options) (fuel : ℕ) (x : ConeX)
    (r : Outcome ConeX) (hx : x.1.length = E.spins.length + 1)
    (h : run (antiferroProblem E muB cell) E o fuel x = some (.ok r)) :
    (unpackCone r.x).2 = (unpackCone x).2 := by
  have hlast : ∀ l : List (V3 ℝ), l.length = E.spins.length + 1 → l.getLastD 0 = l.getD E.spins.length 0 := by
    intro l hl
    have hne : l ≠ [] := by rintro rfl; cases hl
    have hlt : E.spins.length < l.length := by omega
    rw [List.getLastD_eq_getLast?, List.getLast?_eq_getLast_of_ne_nil hne, Option.getD_some, List.getLast_eq_getElem]
    simp [List.getD, hl]
  obtain ⟨n, xs, _, _, h3, h4, _⟩ := run_invariant (fun y : ConeX => y.1.length = E.spins.length + 1 ∧
      y.1.getD E.spins.length 0 = x.1.getD E.spins.length 0 ∧ y.2 = x.2) ⟨hx, rfl, rfl⟩ (by
    intro y p lam hy
    refine ⟨(rotateRows_length _ _ _ _).trans hy.1, ?_, hy.2.2⟩
    rw [← hy.2.1]
    have hlt : E.spins.length < y.1.length := by omega
    have hd : ∀ l : List (V3 ℝ), ∀ h : E.spins.length < l.length, l.getD E.spins.length 0 = l[E.spins.length] :=
      fun l h => by simp [List.getD, h]
    simp only [antiferroProblem, updateAntiferro]
    rw [hd _ (by simpa [rotateRows_length] using hlt), hd _ hlt, rotateRows_getElem _ _ _ _ _ hlt, if_neg (by omega)]) h
  have := h4 n (le_refl _)
  rw [h3] at this
  simp only [unpackCone, hlast _ this.1, hlast _ hx, this.2.1, this.2.2]

/-- **C33**, antiferro: the gradient entries of the last spin hold the torque of the cone axis. -/
theorem C33_antiferro_last_spin (E : EnergyObj ℝ) (muB : ℝ) (cell : ℕ → M3 ℝ) (x : ConeX)
    (hx : x.1.length = E.spins.length + 1) (hne : E.spins ≠ []) (lam : ℝ) (hl : 0 < lam) :
    ((antiferroProblem E muB cell).update x ((antiferroProblem E muB cell).grad x).1 lam).1.getD (E.spins.length - 1) 0 =
      follow (coneTorque (antiferroProblem E muB cell) x E.spins.length) lam (x.1.getD (E.spins.length - 1) 0) := by
  have hpos : 0 < E.spins.length := List.length_pos_of_ne_nil hne
  have hlast := rowTorques_last (fun l => (antiferroProblem E muB cell).energy (l, x.2)) hx
  have hi' : E.spins.length - 1 < x.1.length := by omega
  have hd : ∀ l : List (V3 ℝ), ∀ h : E.spins.length - 1 < l.length, l.getD (E.spins.length - 1) 0 = l[E.spins.length - 1] :=
    fun l h => by simp [List.getD, h]
  have hg : ∀ k : Fin 3, (((antiferroProblem E muB cell).grad x).1 (3 * (E.spins.length - 1) + k.val)) =
      ![coneTorque (antiferroProblem E muB cell) x E.spins.length 2,
        -coneTorque (antiferroProblem E muB cell) x E.spins.length 1,
        coneTorque (antiferroProblem E muB cell) x E.spins.length 0] k := by
    intro k
    simp only [antiferroProblem, gradAntiferro, writeTorque] at hlast ⊢
    rw [hlast]
    fin_cases k
    · rw [if_pos (by show 3 * (E.spins.length - 1) + 0 = 3 * E.spins.length + 3 - 6; omega)]; rfl
    · rw [if_neg (by show ¬ 3 * (E.spins.length - 1) + 1 = 3 * E.spins.length + 3 - 6; omega),
        if_pos (by show 3 * (E.spins.length - 1) + 1 = 3 * E.spins.length + 3 - 6 + 1; omega)]; rfl
    · rw [if_neg (by show ¬ 3 * (E.spins.length - 1) + 2 = 3 * E.spins.length + 3 - 6; omega),
        if_neg (by show ¬ 3 * (E.spins.length - 1) + 2 = 3 * E.spins.length + 3 - 6 + 1; omega),
        if_pos (by show 3 * (E.spins.length - 1) + 2 = 3 * E.spins.length + 3 - 6 + 2; omega)]; rfl
  have g0 := hg 0
  have g1 := hg 1
  have g2 := hg 2
  simp at g0 g1 g2
  have : (antiferroProblem E muB cell).update x ((antiferroProblem E muB cell).grad x).1 lam =
    updateAntiferro (3 * E.spins.length + 3) x ((antiferroProblem E muB cell).grad x).1 lam := rfl
  rw [this]
  simp only [updateAntiferro]
  rw [hd _ (by simpa [rotateRows_length] using hi'), hd _ hi', rotateRows_getElem _ _ _ _ _ hi', if_pos (by omega), g0, g1,
    g2, rotateRow_follow _ _ hl]

/-! ### C55: the search direction -/

theorem vdot_sub (size : ℕ) (p g h : Arr) : vdot size p (g - h) = vdot size p g - vdot size p h := by
  simp only [vdot, Pi.sub_apply, mul_sub, Finset.sum_sub_distrib]

theorem vdot_smul (size : ℕ) (c : ℝ) (p g : Arr) : vdot size (c • p) g = c * vdot size p g := by
  simp only [vdot, Pi.smul_apply, smul_eq_mul, Finset.mul_sum]
  exact Finset.sum_congr rfl fun _ _ => by ring

theorem vdot_comm (size : ℕ) (p g : Arr) : vdot size p g = vdot size g p := by
  simp only [vdot]
  exact Finset.sum_congr rfl fun _ _ => by ring

theorem vdot_self_nonneg (size : ℕ) (p : Arr) : 0 ≤ vdot size p p :=
  Finset.sum_nonneg fun _ _ => mul_self_nonneg _

theorem vdot_self_eq_zero {size : ℕ} {p : Arr} (h : vdot size p p = 0) : ∀ i < size, p i = 0 := by
  intro i hi
  have := (Finset.sum_eq_zero_iff_of_nonneg fun (j : ℕ) _ => mul_self_nonneg (p j)).mp h i (Finset.mem_range.mpr hi)
  exact mul_self_eq_zero.mp this

/-- The state after a step along the gradient: the index is `1` and the previous direction is the gradient, of
which the new one has lost a part. -/
structure Fresh (P : Problem X) (s : OptState X) : Prop where
  k : s.k = 0 ∨ (s.k = 1 ∧ ∃ lam g, s.prev = some (lam, g, g) ∧ 0 < lam ∧
    (vdot P.size g g ≠ 0 → vdot P.size g ((P.grad s.x).1 - g) < 0))

theorem searchDirection_fresh {P : Problem X} {s : OptState X} {m : ℕ} {k : ℕ} {p : Arr} {mem : Optimize.Mem} (hf : Fresh P s)
    (hg : ∀ lam g p, s.prev = some (lam, g, p) → vdot P.size g g ≠ 0)
    (h : searchDirection m P.size s.mem s.k (P.grad s.x).1 s.prev = .ok (k, p, mem)) : k = 0 ∧ p = (P.grad s.x).1 := by
  rcases hf.k with h0 | ⟨h1, lam, g, hp, hl, hlt⟩
  · simp only [searchDirection, h0, ne_eq, not_true_eq_false, false_and, if_false, if_true] at h
    split at h
    · cases h
    · cases h; exact ⟨rfl, rfl⟩
  · simp only [searchDirection, h1, hp, ne_eq, Nat.one_ne_zero, not_false_eq_true, Option.isNone_some, true_and,
      Bool.false_eq_true, if_false] at h
    split at h
    · cases h
    · have hneg : (1 : ℝ) / vdot P.size (lam • g) ((P.grad s.x).1 - g) < 0 := by
        rw [vdot_smul]
        exact div_neg_of_pos_of_neg one_pos (mul_neg_of_pos_of_neg hl (hlt (hg _ _ _ hp)))
      rw [if_pos hneg] at h
      cases h
      exact ⟨rfl, rfl⟩

theorem fresh_turns {P : Problem X} {E : EnergyObj ℝ} {o : Options} {x : X} {S : ℕ → OptState X} {n : ℕ}
    (hT : Turns P E o x S n) (h0 : 0 ≤ E.wolfeC2) (h1 : E.wolfeC2 < 1)
    (hz : ∀ i, i + 1 < n → vdot P.size (P.grad (S i).x).1 (P.grad (S i).x).1 ≠ 0) : ∀ i < n, ∃ lam, 0 < lam ∧ lam ≤ 1 ∧
      Accepts P E.wolfeC1 E.wolfeC2 (S i).x (P.grad (S i).x).1 lam ∧
      (S (i + 1)).x = P.update (S i).x (P.grad (S i).x).1 lam := by
  have key : ∀ i ≤ n, Fresh P (S i) ∧
      ∀ lam g p, (S i).prev = some (lam, g, p) → ∃ j, j + 1 = i ∧ g = (P.grad (S j).x).1 := by
    intro i
    induction i with
    | zero =>
      intro _
      rw [hT.zero]
      exact ⟨⟨.inl rfl⟩, fun lam g p h => by cases h⟩
    | succ i ih =>
      intro hi
      obtain ⟨hf, hp⟩ := ih (by omega)
      obtain ⟨k, p, mem, lam, t⟩ := iterate_spec (hT.turn i hi)
      obtain ⟨hl0, hl1, ha⟩ := lineSearch_ok t.line
      have hne : ∀ lam g p, (S i).prev = some (lam, g, p) → vdot P.size g g ≠ 0 := by
        intro lam g p h
        obtain ⟨j, hj, rfl⟩ := hp lam g p h
        exact hz j (by omega)
      obtain ⟨rfl, rfl⟩ := searchDirection_fresh hf hne t.dir
      refine ⟨⟨.inr ⟨t.k, lam, _, t.prev, hl0, ?_⟩⟩, ?_⟩
      · intro hgz
        have hpos : 0 < vdot P.size (P.grad (S i).x).1 (P.grad (S i).x).1 :=
          lt_of_le_of_ne (vdot_self_nonneg _ _) (Ne.symm hgz)
        simp only [Accepts, not_or, not_lt] at ha
        have h2 := ha.2
        rw [t.x, vdot_sub, vdot_comm P.size (P.grad (S i).x).1 (P.grad (P.update _ _ _)).1]
        rw [abs_mul, abs_of_nonneg h0, abs_of_pos hpos] at h2
        have h3 := le_trans (le_abs_self _) h2
        nlinarith
      · intro lam' g p h
        rw [t.prev] at h
        cases h
        exact ⟨i, rfl, rfl⟩
  intro i hi
  obtain ⟨hf, hp⟩ := key i (by omega)
  obtain ⟨k, p, mem, lam, t⟩ := iterate_spec (hT.turn i hi)
  obtain ⟨hl0, hl1, ha⟩ := lineSearch_ok t.line
  have hne : ∀ lam g p, (S i).prev = some (lam, g, p) → vdot P.size g g ≠ 0 := by
    intro lam g p h
    obtain ⟨j, hj, rfl⟩ := hp lam g p h
    exact hz j (by omega)
  obtain ⟨rfl, rfl⟩ := searchDirection_fresh hf hne t.dir
  exact ⟨lam, hl0, hl1, ha, t.x⟩

/-- **C55**: with `0 ≤ wolfe_c2 < 1` every step of every run is along the plain gradient, as long as no gradient
vanishes before the last step: the L-BFGS memory is thrown away each time, because the accepted step always gives
`d·y < 0`. -/
theorem C55_always_gradient (P : Problem X) (E : EnergyObj ℝ) (o : Options) (fuel : ℕ) (x : X) (r : Outcome X)
    (h0 : 0 ≤ E.wolfeC2) (h1 : E.wolfeC2 < 1) (h : run P E o fuel x = some (.ok r)) :
    ∃ (n : ℕ) (xs : ℕ → X), xs 0 = x ∧ xs n = r.x ∧
      ((∀ i, i + 1 < n → ∃ k < P.size, (P.grad (xs i)).1 k ≠ 0) → ∀ i < n, ∃ lam, 0 < lam ∧ lam ≤ 1 ∧
        Accepts P E.wolfeC1 E.wolfeC2 (xs i) (P.grad (xs i)).1 lam ∧
        xs (i + 1) = P.update (xs i) (P.grad (xs i)).1 lam) := by
  obtain ⟨n, S, hT, hrun, hx, he⟩ := run_spec h
  refine ⟨n, fun i => (S i).x, congrArg OptState.x hT.zero, hx.symm, ?_⟩
  intro hz
  refine fresh_turns hT h0 h1 ?_
  intro i hi e
  obtain ⟨k, hk, hne⟩ := hz i hi
  exact hne (vdot_self_eq_zero e k hk)

theorem rotateRows_zero (count : ℕ) (p : Arr) (lam : ℝ) (x : List (V3 ℝ)) (h : ∀ k < 3 * count, p k = 0) :
    rotateRows count p lam x = x := by
  apply List.ext_getElem (rotateRows_length _ _ _ _)
  intro i h1 h2
  rw [rotateRows_getElem _ _ _ _ _ h2]
  split
  · rename_i hi
    rw [h _ (by omega), h _ (by omega), h _ (by omega)]
    exact rotateRow_small (by simpa using eps_pos)
  · rfl

theorem norm3_zero : norm3 0 = 0 := by simp [norm3]

theorem maxNorm_zero {ts : List (V3 ℝ)} {m : ℝ} (h : maxNorm ts = .ok m) (hz : ∀ t ∈ ts, t = 0) : m = 0 := by
  cases ts with
  | nil => cases h
  | cons a ts =>
    cases h
    have h0 : norm3 a = 0 := by rw [hz a (by simp), norm3_zero]
    rw [h0]
    have : ∀ l : List (V3 ℝ), (∀ t ∈ l, t = 0) → l.foldl (fun m s => max m (norm3 s)) 0 = 0 := by
      intro l
      induction l with
      | nil => intro _; rfl
      | cons b l ih =>
        intro hb
        rw [List.foldl_cons, hb b (by simp), norm3_zero, max_self]
        exact ih fun t ht => hb t (by simp [ht])
    exact this ts fun t ht => hz t (by simp [ht])

theorem torques_zero {F : List (V3 ℝ) → ℝ} {x : List (V3 ℝ)} {n : ℕ} (hx : x.length = n)
    (h : ∀ k < 3 * n, packTorques (rowTorques F x) k = 0) : ∀ t ∈ rowTorques F x, t = 0 := by
  intro t ht
  obtain ⟨i, hi, rfl⟩ := List.mem_map.mp ht
  have hi := List.mem_range.mp hi
  obtain ⟨h1, h2, h3⟩ := packTorques_at (rowTorques F x) i
  rw [rowTorques_getD F x hi, h _ (by omega)] at h1 h2 h3
  ext k
  fin_cases k
  · exact h3.symm
  · have : rowTorque F x i 1 = 0 := by linarith
    exact this
  · exact h1.symm

/-- **C55**, ferro: with the default `wolfe_c2` and non-negative tolerances `optimize` is plain steepest descent, the
L-BFGS direction is never used. -/
theorem C55_ferro_steepest_descent (E : EnergyObj ℝ) (muB : ℝ) (cell : ℕ → M3 ℝ) (o : Options) (fuel : ℕ)
    (x : List (V3 ℝ)) (r : Outcome (List (V3 ℝ))) (hx : x.length = E.spins.length) (t1 : ℝ)
    (ht : o.tolTorque = [t1]) (ht0 : 0 ≤ o.tolEnergy) (ht1 : 0 ≤ t1) (h0 : 0 ≤ E.wolfeC2) (h1 : E.wolfeC2 < 1)
    (h : run (ferroProblem E muB cell) E o fuel x = some (.ok r)) :
    ∃ (n : ℕ) (xs : ℕ → List (V3 ℝ)), xs 0 = x ∧ xs n = r.x ∧ ∀ i < n, ∃ lam, 0 < lam ∧ lam ≤ 1 ∧
      Accepts (ferroProblem E muB cell) E.wolfeC1 E.wolfeC2 (xs i) ((ferroProblem E muB cell).grad (xs i)).1 lam ∧
      xs (i + 1) = (ferroProblem E muB cell).update (xs i) ((ferroProblem E muB cell).grad (xs i)).1 lam := by
  obtain ⟨n, S, hT, hrun, hr, he⟩ := run_spec h
  refine ⟨n, fun i => (S i).x, congrArg OptState.x hT.zero, hr.symm, ?_⟩
  have hlen : ∀ i ≤ n, (S i).x.length = E.spins.length := by
    intro i
    induction i with
    | zero => intro _; rw [hT.zero]; exact hx
    | succ i ih =>
      intro hi
      obtain ⟨p, lam, _, _, _, e⟩ := hT.trajectory i hi
      simp only at e
      rw [e]
      exact (rotateRows_length _ _ _ _).trans (ih (by omega))
  set P := ferroProblem E muB cell with hP
  -- a vanishing gradient stops the loop
  have stop : ∀ i < n, Turns P E o x S (i + 1) → (∃ lam, (S (i + 1)).x = P.update (S i).x (P.grad (S i).x).1 lam) →
      vdot P.size (P.grad (S i).x).1 (P.grad (S i).x).1 = 0 → ¬ Running o (S (i + 1)) := by
    intro i hi hT' ⟨lam, hup⟩ hz
    have hz := vdot_self_eq_zero hz
    obtain ⟨k, p, mem, lam', t⟩ := iterate_spec (hT'.turn i (by omega))
    have hsame : (S (i + 1)).x = (S i).x := by
      rw [hup]
      refine rotateRows_zero _ _ _ _ ?_
      intro k hk
      refine hz k ?_
      have : P.size = 3 * E.spins.length := rfl
      omega
    have htz : ∀ t ∈ (P.grad (S i).x).2, t = 0 :=
      torques_zero (hlen i (by omega)) fun k hk => hz k hk
    have htar := t.targets
    have : ∃ m, (S (i + 1)).targets = [m] ∧ m = 0 := by
      have e : P.target (P.grad (S i).x).2 = targetFerro (P.grad (S i).x).2 := rfl
      rw [e] at htar
      unfold targetFerro at htar
      cases hm : maxNorm (P.grad (S i).x).2 with
      | error e => rw [hm] at htar; cases htar
      | ok m =>
        rw [hm] at htar
        exact ⟨m, (Except.ok.inj htar).symm, maxNorm_zero hm htz⟩
    obtain ⟨m, hm, rfl⟩ := this
    simp only [Running, hm, ht, List.zip_cons_cons, List.zip_nil_left, List.mem_singleton, exists_eq_left, not_or, not_lt]
    refine ⟨?_, ht1⟩
    rw [t.energyDiff, hT'.energyPrev i (by omega), hsame, sub_self, abs_zero]
    exact ht0
  -- hence no gradient vanishes before the last step
  have nz : ∀ i, i + 1 < n → vdot P.size (P.grad (S i).x).1 (P.grad (S i).x).1 ≠ 0 := by
    intro i
    induction i using Nat.strong_induction_on with
    | _ i ih =>
      intro hi hz
      have hT' : Turns P E o x S (i + 1) := ⟨hT.zero, fun j hj => hT.turn j (by omega)⟩
      obtain ⟨lam, _, _, _, hup⟩ := fresh_turns hT' h0 h1 (fun j hj => ih j (by omega) (by omega)) i (by omega)
      exact stop i (by omega) hT' ⟨lam, hup⟩ hz (hrun (i + 1) hi).1
  exact fresh_turns hT h0 h1 nz

/-- The first loop of the recursion is never entered: `range(m - 1, -1)` is empty. -/
theorem pyRange_empty (m : ℕ) : pyRange ((m : ℤ) - 1) (-1) = [] := by
  have : (-1 - ((m : ℤ) - 1)).toNat = 0 := by omega
  simp [pyRange, this]

/-- **C55**, what the code computes when it does use the memory (a full one): a direction orthogonal to the last
change of the gradient. -/
theorem C55_orthogonal (m size : ℕ) (mem mem' : Optimize.Mem) (k k' : ℕ) (g gPrev pPrev p : Arr) (lam : ℝ)
    (hgam : ∀ j, mem.gamma j = 0) (hk : m ≤ k) (hd : vdot size (lam • pPrev) (g - gPrev) ≠ 0)
    (h : searchDirection m size mem k g (some (lam, gPrev, pPrev)) = .ok (k', p, mem')) (hk' : k' ≠ 0) :
    vdot size (g - gPrev) p = 0 := by
  rw [searchDirection, if_neg (by simp)] at h
  split at h
  · cases h
  rename_i hm
  split at h
  · cases h; exact absurd rfl hk'
  simp only at h
  split at h
  · cases h; exact absurd rfl hk'
  simp only [pyRange_empty, List.foldl_nil] at h
  cases h
  obtain ⟨m, rfl⟩ : ∃ m', m = m' + 1 := ⟨m - 1, by omega⟩
  rw [List.range_succ, List.foldl_append, List.foldl_cons, List.foldl_nil]
  generalize List.foldl _ _ (List.range m) = s
  have hlt : ¬ k < m + 1 := not_lt.mpr hk
  have hj : (m + k % (m + 1) + 1) % (m + 1) = k % (m + 1) := by
    have : m + k % (m + 1) + 1 = k % (m + 1) + (m + 1) := by omega
    rw [this, Nat.add_mod_right, Nat.mod_mod]
  have hadd : ∀ (c : ℝ) (u : Arr), vdot size (g - gPrev) (s + c • u) =
      vdot size (g - gPrev) s + c * vdot size (g - gPrev) u := by
    intro c u
    simp only [vdot, Pi.add_apply, Pi.smul_apply, smul_eq_mul, mul_add, Finset.sum_add_distrib, Finset.mul_sum]
    congr 1
    exact Finset.sum_congr rfl fun _ _ => by ring
  simp only [forward, hlt, if_false, hj, setAt, if_true, hgam, zero_sub]
  rw [hadd, vdot_comm size (g - gPrev) (lam • pPrev)]
  field_simp
  ring

/-- The claim of C55: after a step the direction is the L-BFGS one for the stored pair, with some initial scaling. -/
def C55_statement : Prop :=
  ∀ (size : ℕ) (g gPrev pPrev : Arr) (lam : ℝ) (k : ℕ) (p : Arr) (mem : Optimize.Mem),
    searchDirection 1 size Optimize.Mem.zero 1 g (some (lam, gPrev, pPrev)) = .ok (k, p, mem) → k = 1 →
    ∃ c : ℝ, p 0 = twoLoop size (fun q => c • q) [(lam • pPrev, g - gPrev)] g 0

/-- **C55** is false also when the memory is used: with one variable the direction after one step is zero, the L-BFGS
one is not. -/
theorem C55_lbfgs_false : ¬ C55_statement := by
  intro h
  obtain ⟨c, hc⟩ := h 1 (fun _ => 1) (fun _ => -1) (fun _ => 1) 1 1 _ _ (by
    rw [searchDirection, if_neg (by simp), if_neg (by simp), if_neg (by simp)]
    simp only
    rw [if_neg (by norm_num [vdot])]) rfl
  simp only [pyRange_empty, List.foldl_nil] at hc
  norm_num [twoLoop, vdot, vnorm, forward, setAt, Optimize.Mem.zero, Pi.sub_apply, Pi.smul_apply] at hc
  rw [show (2 / √4 + -(1 / 2 * (2 * (2 / √4))) : ℝ) = 0 by ring] at hc
  norm_num at hc

/-! ### C36: the energy along the first step -/

/-- **C36**, what the acceptance test gives for the first step (and, by `C55_always_gradient`, for all of them): the
energy grows at most by `c1 λ |g|²`. -/
theorem C36_bound (P : Problem X) (c1 c2 : ℝ) (N : ℕ) (x : X) (lam : ℝ)
    (h : lineSearch P c1 c2 N x (P.grad x).1 = .ok lam) :
    P.energy (P.update x (P.grad x).1 lam) ≤ P.energy x + c1 * lam * vdot P.size (P.grad x).1 (P.grad x).1 := by
  have := (lineSearch_ok h).2.2
  simp only [Accepts, not_or, not_lt] at this
  exact this.1

/-- **C36** for `wolfe_c1 ≤ 0`: the accepted step does not increase the energy.

Missing: the claim for positive `wolfe_c1`, which is false (`C36_false`): the sign of the bound is wrong, as the
configuration moves against the gradient. -/
theorem C36_energy_partial (P : Problem X) (c1 c2 : ℝ) (N : ℕ) (x : X) (lam : ℝ) (hc : c1 ≤ 0)
    (h : lineSearch P c1 c2 N x (P.grad x).1 = .ok lam) :
    P.energy (P.update x (P.grad x).1 lam) ≤ P.energy x := by
  have h1 := C36_bound P c1 c2 N x lam h
  have h2 := (lineSearch_ok h).1
  have h3 := vdot_self_nonneg P.size (P.grad x).1
  nlinarith [mul_nonneg (mul_nonneg (neg_nonneg.mpr hc) h2.le) h3]

end Magnopy
