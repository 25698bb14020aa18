import Verif.Lemmas.OptStart
import Verif.Props.EnergyCone

/-!
# Properties C32, C34, C35, C37, C38: the minimisation loop

The theorems hold for every Hamiltonian, every size of the L-BFGS memory, every choice of the random numbers
and every number of iterations; `fuel` only says that the run has finished.
-/

set_option autoImplicit false

set_option linter.unusedSectionVars false

namespace Magnopy

open EnergyObj Matrix Optimize

variable {X : Type}

/-! ### The energies used by the loop are the public ones -/

theorem ferroProblem_energy (E : EnergyObj ℝ) (muB : ℝ) (cell : ℕ → M3 ℝ) {x : List (V3 ℝ)}
    (hx : x.length = E.spins.length) (h0 : E.spins ≠ []) :
    E.ferro muB cell (arr x) = .ok ((ferroProblem E muB cell).energy x) :=
  ferro_arr E muB cell hx h0

theorem antiferroProblem_energy (E : EnergyObj ℝ) (muB : ℝ) (cell : ℕ → M3 ℝ) {l : List (V3 ℝ)} (c q : V3 ℝ)
    (hx : l.length = E.spins.length) (h0 : E.spins ≠ []) :
    E.antiferro muB cell (arr l) (vec c) (vec q) = .ok ((antiferroProblem E muB cell).energy (l ++ [c], q)) := by
  rw [antiferro_arr E muB cell hx h0]
  simp [antiferroProblem, unpackCone]

theorem spiralProblem_energy (E : EnergyObj ℝ) (muB : ℝ) (cell : ℕ → M3 ℝ) {l : List (V3 ℝ)} (c q : V3 ℝ)
    (hx : l.length = E.spins.length) (h0 : E.spins ≠ []) :
    E.spiral muB cell (arr l) (vec c) (vec q) = .ok ((spiralProblem E muB cell).energy (l ++ [c], q)) := by
  rw [spiral_arr E muB cell hx h0]
  simp [spiralProblem, unpackCone]

/-! ### C32: vectors of length one -/

theorem run_invariant {P : Problem X} {E : EnergyObj ℝ} {o : Options} {r : Outcome X} {fuel : ℕ} {x : X} (I : X → Prop)
    (h0 : I x) (hI : ∀ x p lam, I x → I (P.update x p lam)) (h : run P E o fuel x = some (.ok r)) :
    ∃ (n : ℕ) (xs : ℕ → X), Trajectory P E.wolfeC1 E.wolfeC2 xs n ∧ xs 0 = x ∧ xs n = r.x ∧ (∀ i ≤ n, I (xs i)) ∧
      ∀ rec ∈ r.written.flatten, I rec.2.2 := by
  obtain ⟨n, S, hT, _, hx, he⟩ := run_spec h
  have hI : ∀ i ≤ n, I (S i).x := by
    intro i
    induction i with
    | zero => intro _; rw [hT.zero]; exact h0
    | succ i ih =>
      intro hi
      obtain ⟨p, lam, _, _, _, e⟩ := hT.trajectory i hi
      simp only at e
      rw [e]
      exact hI _ _ _ (ih (by omega))
  refine ⟨n, fun i => (S i).x, hT.trajectory, congrArg OptState.x hT.zero, hx.symm, hI, ?_⟩
  intro rec hrec
  cases hh : o.history with
  | none =>
    have hw : ∀ i ≤ n, (S i).written = [] := by
      intro i
      induction i with
      | zero => intro _; rw [hT.zero]; rfl
      | succ i ih =>
        intro hi
        obtain ⟨k, p, mem, lam, t⟩ := iterate_spec (hT.turn i hi)
        rcases t.history with ⟨_, _, hw⟩ | ⟨c, hc, _⟩
        · rw [hw, ih (by omega)]
        · rw [hh] at hc; cases hc
    have : r.written = [] := by
      rcases he with ⟨_, _, e⟩ | ⟨_, e⟩
      · rw [e, hw n (le_refl _)]
      · rw [e, flushed, hh]; exact hw n (le_refl _)
    rw [this] at hrec
    cases hrec
  | some c =>
    have hm : rec ∈ (S n).written.flatten ++ (S n).pending := by
      rcases he with ⟨_, _, e⟩ | ⟨_, e⟩
      · rw [e] at hrec
        exact List.mem_append_left _ hrec
      · rw [e, flushed, hh] at hrec
        simpa using hrec
    have hr := hT.records hh n (le_refl _)
    have : (rec.1, rec.2.2) ∈ (List.range (n + 1)).map fun j => (P.energy (S j).x, (S j).x) := by
      rw [← hr]
      exact List.mem_map.mpr ⟨rec, hm, rfl⟩
    obtain ⟨j, hj, e⟩ := List.mem_map.mp this
    have := (Prod.mk.inj e).2
    rw [← this]
    exact hI j (by have := List.mem_range.mp hj; omega)

/-- **C32**, ferro: all spins of every visited, recorded and returned configuration have length one, for every
number of iterations.  The guess and the random numbers must not contain zero vectors. -/
theorem C32_ferro (E : EnergyObj ℝ) (muB : ℝ) (cell : ℕ → M3 ℝ) (rnd : Random) (guess : Option (Param.ArrayLike ℝ))
    (tol : Option (List ℝ)) (maxIter history : Option ℤ) (fuel : ℕ) (r : Outcome (List (V3 ℝ)))
    (hg : GoodGuess guess) (hr : rnd.Good E.spins.length)
    (h : optimizeFerro E muB cell rnd guess tol maxIter history fuel = some (.ok r)) :
    ∃ (n : ℕ) (xs : ℕ → List (V3 ℝ)), Trajectory (ferroProblem E muB cell) E.wolfeC1 E.wolfeC2 xs n ∧
      startFerro E.spins.length rnd.spins guess = .ok (xs 0) ∧ xs n = r.x ∧
      (∀ i ≤ n, (xs i).length = E.spins.length ∧ AllUnit (xs i)) ∧
      ∀ rec ∈ r.written.flatten, AllUnit rec.2.2 := by
  unfold optimizeFerro at h
  cases hs : startFerro E.spins.length rnd.spins guess with
  | error e => rw [hs] at h; cases h
  | ok x =>
    rw [hs] at h
    simp only at h
    cases ht : tolerances 2 tol with
    | error e => rw [ht] at h; cases h
    | ok t =>
      rw [ht] at h
      obtain ⟨n, xs, h1, h2, h3, h4, h5⟩ := run_invariant
        (fun x : List (V3 ℝ) => x.length = E.spins.length ∧ AllUnit x)
        (startFerro_unit hs hg hr.length hr.spins)
        (fun x p lam hx => ⟨(rotateRows_length _ _ _ _).trans hx.1, rotateRows_unit _ _ _ hx.2⟩) h
      exact ⟨n, xs, h1, by rw [h2], h3, h4, fun rec hrec => (h5 rec hrec).2⟩

/-- **C32**, antiferro: all spins and the cone axis (the last row) have length one. -/
theorem C32_antiferro (E : EnergyObj ℝ) (muB : ℝ) (cell : ℕ → M3 ℝ) (rnd : Random) (q : Option (Param.ArrayLike ℝ))
    (guess : Option (List (Option (Param.ArrayLike ℝ)))) (tol : Option (List ℝ)) (maxIter history : Option ℤ)
    (fuel : ℕ) (r : Outcome ConeX) (hg : GoodConeGuess guess) (hr : rnd.Good E.spins.length)
    (h : optimizeAntiferro E muB cell rnd q guess tol maxIter history fuel = some (.ok r)) :
    ∃ (n : ℕ) (xs : ℕ → ConeX), Trajectory (antiferroProblem E muB cell) E.wolfeC1 E.wolfeC2 xs n ∧
      startAntiferro E.spins.length rnd q guess = .ok (xs 0) ∧ xs n = r.x ∧
      (∀ i ≤ n, (xs i).1.length = E.spins.length + 1 ∧ AllUnit (xs i).1) ∧
      ∀ rec ∈ r.written.flatten, AllUnit rec.2.2.1 := by
  unfold optimizeAntiferro at h
  cases hs : startAntiferro E.spins.length rnd q guess with
  | error e => rw [hs] at h; cases h
  | ok x =>
    rw [hs] at h
    simp only at h
    cases ht : tolerances 3 tol with
    | error e => rw [ht] at h; cases h
    | ok t =>
      rw [ht] at h
      obtain ⟨n, xs, h1, h2, h3, h4, h5⟩ := run_invariant
        (fun x : ConeX => x.1.length = E.spins.length + 1 ∧ AllUnit x.1)
        (startAntiferro_unit hs hg hr)
        (fun x p lam hx => ⟨(rotateRows_length _ _ _ _).trans hx.1, rotateRows_unit _ _ _ hx.2⟩) h
      exact ⟨n, xs, h1, by rw [h2], h3, h4, fun rec hrec => (h5 rec hrec).2⟩

/-- **C32**, spiral. -/
theorem C32_spiral (E : EnergyObj ℝ) (muB : ℝ) (cell : ℕ → M3 ℝ) (rnd : Random)
    (guess : Option (List (Option (Param.ArrayLike ℝ)))) (tol : Option (List ℝ)) (maxIter history : Option ℤ)
    (fuel : ℕ) (r : Outcome ConeX) (hg : GoodConeGuess guess) (hr : rnd.Good E.spins.length)
    (h : optimizeSpiral E muB cell rnd guess tol maxIter history fuel = some (.ok r)) :
    ∃ (n : ℕ) (xs : ℕ → ConeX), Trajectory (spiralProblem E muB cell) E.wolfeC1 E.wolfeC2 xs n ∧
      startSpiral E.spins.length rnd guess = .ok (xs 0) ∧ xs n = r.x ∧
      (∀ i ≤ n, (xs i).1.length = E.spins.length + 1 ∧ AllUnit (xs i).1) ∧
      ∀ rec ∈ r.written.flatten, AllUnit rec.2.2.1 := by
  unfold optimizeSpiral at h
  cases hs : startSpiral E.spins.length rnd guess with
  | error e => rw [hs] at h; cases h
  | ok x =>
    rw [hs] at h
    simp only at h
    cases ht : tolerances 3 tol with
    | error e => rw [ht] at h; cases h
    | ok t =>
      rw [ht] at h
      obtain ⟨n, xs, h1, h2, h3, h4, h5⟩ := run_invariant
        (fun x : ConeX => x.1.length = E.spins.length + 1 ∧ AllUnit x.1)
        (startSpiral_unit hs hg hr)
        (fun x p lam hx => ⟨(rotateRows_length _ _ _ _).trans hx.1, rotateRows_unit _ _ _ hx.2⟩) h
      exact ⟨n, xs, h1, by rw [h2], h3, h4, fun rec hrec => (h5 rec hrec).2⟩

/-! ### C34: when the loop stops -/

theorem running_initial_iff (P : Problem X) (o : Options) (x : X) : Running o (initial P o x) ↔ o.Positive := by
  have hz : ∀ (l : List ℝ), (∃ p ∈ (l.map fun a => 2 * a).zip l, p.1 > p.2) ↔ ∃ t ∈ l, 0 < t := by
    intro l
    induction l with
    | nil => simp
    | cons a l ih =>
      simp only [List.map_cons, List.zip_cons_cons, List.mem_cons, exists_eq_or_imp, ih]
      constructor
      · rintro (h | h)
        · left; linarith
        · exact .inr h
      · rintro (h | h)
        · left; linarith
        · exact .inr h
  simp only [Running, initial, Options.Positive, hz]
  constructor
  · rintro (h | h)
    · left; linarith
    · exact .inr h
  · rintro (h | h)
    · left; linarith
    · exact .inr h

/-- The last energy change is within `tolerance[0]`, the torque targets computed for the configuration before
the last update are within `tolerance[1:]`. -/
def Converged (P : Problem X) (o : Options) (xs : ℕ → X) (n : ℕ) : Prop :=
  0 < n ∧ |P.energy (xs (n - 1)) - P.energy (xs n)| ≤ o.tolEnergy ∧
    ∃ targets, P.target (P.grad (xs (n - 1))).2 = .ok targets ∧ ∀ p ∈ targets.zip o.tolTorque, p.1 ≤ p.2

/-- The full claim of C34: the torque targets of the returned configuration are within the tolerances. -/
def ConvergedHere (P : Problem X) (o : Options) (xs : ℕ → X) (n : ℕ) : Prop :=
  0 < n ∧ |P.energy (xs (n - 1)) - P.energy (xs n)| ≤ o.tolEnergy ∧
    ∃ targets, P.target (P.grad (xs n)).2 = .ok targets ∧ ∀ p ∈ targets.zip o.tolTorque, p.1 ≤ p.2

/-- **C34** for every case of `optimize`: `n` updates were made, at most `max_iterations`; if fewer, the last
energy change is within the tolerance and so are the torques.

Missing against the full claim: the torques are those *before* the last update (`C34_torque_false`), and at
least one tolerance has to be positive (`C34_zero_tolerance`). -/
theorem C34_stops_partial (P : Problem X) (E : EnergyObj ℝ) (o : Options) (fuel : ℕ) (x : X) (r : Outcome X)
    (hpos : o.Positive) (h : run P E o fuel x = some (.ok r)) :
    ∃ (n : ℕ) (xs : ℕ → X), Trajectory P E.wolfeC1 E.wolfeC2 xs n ∧ xs 0 = x ∧ xs n = r.x ∧
      (∀ N, o.maxIter = some N → (n : ℤ) ≤ max N 0) ∧
      ((∃ N, o.maxIter = some N ∧ (n : ℤ) = max N 0) ∨ Converged P o xs n) := by
  obtain ⟨n, S, hT, hrun, hx, he⟩ := run_spec h
  have hle : ∀ N, o.maxIter = some N → (n : ℤ) ≤ max N 0 := by
    intro N hN
    by_cases hn : n = 0
    · subst hn; simp
    · have := (hrun (n - 1) (by omega)).2
      have hc := hT.counter (n - 1) (by omega)
      simp only [AtLimit, hN, Option.some.injEq, hc, not_exists, not_and, not_le] at this
      have := this N rfl
      have : (n : ℤ) ≤ N := by omega
      exact le_trans this (le_max_left _ _)
  refine ⟨n, fun i => (S i).x, hT.trajectory, congrArg OptState.x hT.zero, hx.symm, hle, ?_⟩
  rcases he with ⟨_, ⟨N, hN, hNn⟩, _⟩ | ⟨hnr, _⟩
  · left
    rw [hT.counter n (le_refl _)] at hNn
    refine ⟨N, hN, le_antisymm (hle N hN) (max_le hNn (by omega))⟩
  · right
    have hn : 0 < n := by
      rcases Nat.eq_zero_or_pos n with rfl | hn
      · rw [hT.zero, running_initial_iff] at hnr
        exact absurd hpos hnr
      · exact hn
    obtain ⟨k, p, mem, lam, t⟩ := iterate_spec (hT.turn (n - 1) (by omega))
    have en : n - 1 + 1 = n := by omega
    rw [en] at t
    simp only [Running, not_or, not_exists, not_and, not_lt] at hnr
    refine ⟨hn, ?_, (S n).targets, t.targets, fun p hp => hnr.2 p hp⟩
    have := hnr.1
    rw [t.energyDiff, hT.energyPrev (n - 1) (by omega)] at this
    exact this

/-- **C34**: with `max_iterations = N` the loop ends after at most `N` turns. -/
theorem C34_terminates (P : Problem X) (E : EnergyObj ℝ) (o : Options) (x : X) (N : ℤ) (hN : o.maxIter = some N) :
    run P E o (N.toNat + 1) x ≠ none := by
  have key : ∀ (fuel : ℕ) (s : OptState X), N ≤ fuel + s.counter → optLoop P E o (fuel + 1) s ≠ none := by
    intro fuel
    induction fuel with
    | zero =>
      intro s hs
      have : AtLimit o s := ⟨N, hN, by simpa using hs⟩
      rw [optLoop]
      simp only [this, if_true]
      split <;> simp
    | succ fuel ih =>
      intro s hs
      rw [optLoop]
      split
      · split
        · simp
        · cases hi : iterate P E o s with
          | error e => simp
          | ok s' =>
            obtain ⟨k, p, mem, lam, t⟩ := iterate_spec hi
            apply ih
            rw [t.counter]
            push_cast at hs ⊢
            linarith
      · simp
  unfold run
  split
  · simp
  · apply key
    simp only [initial]
    push_cast
    have := Int.self_le_toNat N
    linarith

/-- **C34**: without a positive tolerance the initial guess is returned at once, whatever its torques are. -/
theorem C34_zero_tolerance (P : Problem X) (E : EnergyObj ℝ) (o : Options) (fuel : ℕ) (x : X) (hm : 0 ≤ E.m)
    (hpos : ¬ o.Positive) : ∃ r, run P E o (fuel + 1) x = some (.ok r) ∧ r.x = x := by
  have hr : ¬ Running o (initial P o x) := by rwa [running_initial_iff]
  refine ⟨⟨x, flushed o (initial P o x)⟩, ?_, rfl⟩
  unfold run
  rw [if_neg (not_lt.mpr hm), optLoop]
  simp only [hr, if_false, flushed]
  cases o.history <;> rfl

theorem le_foldl_max (l : List (V3 ℝ)) : ∀ m : ℝ, m ≤ l.foldl (fun m s => max m (norm3 s)) m ∧
    ∀ t ∈ l, norm3 t ≤ l.foldl (fun m s => max m (norm3 s)) m := by
  induction l with
  | nil => intro m; simp
  | cons a l ih =>
    intro m
    obtain ⟨h1, h2⟩ := ih (max m (norm3 a))
    refine ⟨le_trans (le_max_left _ _) h1, ?_⟩
    intro t ht
    rcases List.mem_cons.mp ht with rfl | ht
    · exact le_trans (le_max_right _ _) h1
    · exact h2 t ht

theorem le_maxNorm {ts : List (V3 ℝ)} {m : ℝ} (h : maxNorm ts = .ok m) : ∀ t ∈ ts, norm3 t ≤ m := by
  cases ts with
  | nil => cases h
  | cons a ts =>
    cases h
    intro t ht
    obtain ⟨h1, h2⟩ := le_foldl_max ts (norm3 a)
    rcases List.mem_cons.mp ht with rfl | ht
    · exact h1
    · exact h2 t ht

/-- **C34** for `case="ferro"`: the torque of every spin before the last update is within `tolerance[1]`. -/
theorem C34_ferro_partial (E : EnergyObj ℝ) (muB : ℝ) (cell : ℕ → M3 ℝ) (rnd : Random)
    (guess : Option (Param.ArrayLike ℝ)) (t0 t1 : ℝ) (maxIter history : Option ℤ) (fuel : ℕ)
    (r : Outcome (List (V3 ℝ))) (hpos : 0 < t0 ∨ 0 < t1)
    (h : optimizeFerro E muB cell rnd guess (some [t0, t1]) maxIter history fuel = some (.ok r)) :
    ∃ (n : ℕ) (xs : ℕ → List (V3 ℝ)), Trajectory (ferroProblem E muB cell) E.wolfeC1 E.wolfeC2 xs n ∧
      startFerro E.spins.length rnd.spins guess = .ok (xs 0) ∧ xs n = r.x ∧
      (∀ N, maxIter = some N → (n : ℤ) ≤ max N 0) ∧
      ((∃ N, maxIter = some N ∧ (n : ℤ) = max N 0) ∨
        (0 < n ∧ |(ferroProblem E muB cell).energy (xs (n - 1)) - (ferroProblem E muB cell).energy (xs n)| ≤ t0 ∧
          ∀ i < (xs (n - 1)).length, norm3 (rowTorque (ferroProblem E muB cell).energy (xs (n - 1)) i) ≤ t1)) := by
  unfold optimizeFerro at h
  cases hs : startFerro E.spins.length rnd.spins guess with
  | error e => rw [hs] at h; cases h
  | ok x =>
    rw [hs] at h
    simp only [tolerances, List.length_cons, List.length_nil, Nat.zero_add, Nat.reduceAdd, if_true] at h
    have hp : Options.Positive ⟨t0, [t1], maxIter, history⟩ := by
      rcases hpos with h | h
      · exact .inl h
      · exact .inr ⟨t1, by simp, h⟩
    obtain ⟨n, xs, h1, h2, h3, h4, h5⟩ := C34_stops_partial _ E _ fuel x r hp h
    refine ⟨n, xs, h1, by rw [h2], h3, h4, ?_⟩
    rcases h5 with h5 | ⟨hn, he, ts, htar, hle⟩
    · exact .inl h5
    · refine .inr ⟨hn, he, ?_⟩
      intro i hi
      simp only [ferroProblem, gradFerro, targetFerro] at htar
      cases hm : maxNorm (rowTorques (fun x => E.ferroUnit muB cell (List.map EnergyObj.normalize x)) (xs (n - 1))) with
      | error e => rw [hm] at htar; cases htar
      | ok m =>
        rw [hm] at htar
        cases htar
        have := hle (m, t1) (by simp)
        refine le_trans (le_maxNorm hm _ ?_) this
        exact List.mem_map.mpr ⟨i, List.mem_range.mpr hi, rfl⟩

theorem target_cone_le {F : List (V3 ℝ) → ℝ} {x : List (V3 ℝ)} {ts : List ℝ} {t1 t2 : ℝ}
    (h : targetCone (rowTorques F x) = .ok ts) (hle : ∀ p ∈ ts.zip [t1, t2], p.1 ≤ p.2) (hx : x ≠ []) :
    (∀ i < x.length - 1, norm3 (rowTorque F x i) ≤ t1) ∧ norm3 (rowTorque F x (x.length - 1)) ≤ t2 := by
  simp only [targetCone] at h
  cases hm : maxNorm (rowTorques F x).dropLast with
  | error e => rw [hm] at h; cases h
  | ok m =>
    rw [hm] at h
    cases h
    have hlen : 0 < x.length := List.length_pos_of_ne_nil hx
    constructor
    · intro i hi
      have h1 := hle (m, t1) (by simp)
      refine le_trans (le_maxNorm hm _ ?_) h1
      rw [List.mem_iff_getElem]
      exact ⟨i, by simpa [rowTorques_length] using hi, by simp [rowTorques]⟩
    · have h2 := hle (norm3 ((rowTorques F x).getLastD 0), t2) (by simp)
      have hne : rowTorques F x ≠ [] := by
        intro e
        have := congrArg List.length e
        rw [rowTorques_length] at this
        simp at this
        exact hx this
      have e : (rowTorques F x).getLastD 0 = rowTorque F x (x.length - 1) := by
        rw [List.getLastD_eq_getLast?, List.getLast?_eq_getLast_of_ne_nil hne, Option.getD_some, List.getLast_eq_getElem]
        simp [rowTorques]
      rw [e] at h2
      exact h2

theorem cone_stops_aux {E : EnergyObj ℝ} {P : Problem ConeX} {o : Options} {t0 t1 t2 : ℝ} {fuel : ℕ} {x : ConeX}
    {r : Outcome ConeX} (hg : ∀ x, (P.grad x).2 = rowTorques (fun l => P.energy (l, x.2)) x.1)
    (ht : P.target = targetCone) (hup : ∀ x p lam, (P.update x p lam).1.length = x.1.length) (hx : x.1 ≠ [])
    (ho : o.tolEnergy = t0) (ho' : o.tolTorque = [t1, t2]) (hpos : 0 < t0 ∨ 0 < t1 ∨ 0 < t2)
    (h : run P E o fuel x = some (.ok r)) :
    ∃ (n : ℕ) (xs : ℕ → ConeX), Trajectory P E.wolfeC1 E.wolfeC2 xs n ∧ xs 0 = x ∧ xs n = r.x ∧
      (∀ N, o.maxIter = some N → (n : ℤ) ≤ max N 0) ∧
      ((∃ N, o.maxIter = some N ∧ (n : ℤ) = max N 0) ∨
        (0 < n ∧ |P.energy (xs (n - 1)) - P.energy (xs n)| ≤ t0 ∧
          (∀ i < x.1.length - 1,
            norm3 (rowTorque (fun l => P.energy (l, (xs (n - 1)).2)) (xs (n - 1)).1 i) ≤ t1) ∧
          norm3 (rowTorque (fun l => P.energy (l, (xs (n - 1)).2)) (xs (n - 1)).1 (x.1.length - 1)) ≤ t2)) := by
  have hp : o.Positive := by
    rcases hpos with h | h | h
    · exact .inl (by rw [ho]; exact h)
    · exact .inr ⟨t1, by simp [ho'], h⟩
    · exact .inr ⟨t2, by simp [ho'], h⟩
  obtain ⟨n, xs, h1, h2, h3, h4, h5⟩ := C34_stops_partial P E o fuel x r hp h
  have hlen : ∀ i ≤ n, (xs i).1.length = x.1.length := by
    intro i
    induction i with
    | zero => intro _; rw [h2]
    | succ i ih =>
      intro hi
      obtain ⟨p, lam, _, _, _, e⟩ := h1 i hi
      rw [e, hup, ih (by omega)]
  refine ⟨n, xs, h1, h2, h3, h4, ?_⟩
  rcases h5 with h5 | ⟨hn, he, ts, htar, hle⟩
  · exact .inl h5
  · refine .inr ⟨hn, by rw [ho] at he; exact he, ?_⟩
    rw [hg, ht] at htar
    rw [ho'] at hle
    have hl := hlen (n - 1) (by omega)
    have hne : (xs (n - 1)).1 ≠ [] := by
      intro e; rw [e] at hl; exact hx (List.length_eq_zero_iff.mp hl.symm)
    have := target_cone_le htar hle hne
    rw [hl] at this
    exact this

/-- **C34** for `case="antiferro"`: the torques of the spins (before the last update) are within `tolerance[1]`,
that of the cone axis, the last row, within `tolerance[2]`. -/
theorem C34_antiferro_partial (E : EnergyObj ℝ) (muB : ℝ) (cell : ℕ → M3 ℝ) (o : Options) (t0 t1 t2 : ℝ) (fuel : ℕ)
    (x : ConeX) (r : Outcome ConeX) (hx : x.1 ≠ []) (ho : o.tolEnergy = t0) (ho' : o.tolTorque = [t1, t2])
    (hpos : 0 < t0 ∨ 0 < t1 ∨ 0 < t2) (h : run (antiferroProblem E muB cell) E o fuel x = some (.ok r)) :
    ∃ (n : ℕ) (xs : ℕ → ConeX), Trajectory (antiferroProblem E muB cell) E.wolfeC1 E.wolfeC2 xs n ∧ xs 0 = x ∧
      xs n = r.x ∧ (∀ N, o.maxIter = some N → (n : ℤ) ≤ max N 0) ∧
      ((∃ N, o.maxIter = some N ∧ (n : ℤ) = max N 0) ∨
        (0 < n ∧ |(antiferroProblem E muB cell).energy (xs (n - 1)) - (antiferroProblem E muB cell).energy (xs n)| ≤ t0 ∧
          (∀ i < x.1.length - 1, norm3 (rowTorque (fun l => (antiferroProblem E muB cell).energy (l, (xs (n - 1)).2))
            (xs (n - 1)).1 i) ≤ t1) ∧
          norm3 (rowTorque (fun l => (antiferroProblem E muB cell).energy (l, (xs (n - 1)).2))
            (xs (n - 1)).1 (x.1.length - 1)) ≤ t2)) :=
  cone_stops_aux (fun _ => rfl) rfl (fun _ _ _ => rotateRows_length _ _ _ _) hx ho ho' hpos h

/-- **C34** for `case="spiral"`. -/
theorem C34_spiral_partial (E : EnergyObj ℝ) (muB : ℝ) (cell : ℕ → M3 ℝ) (o : Options) (t0 t1 t2 : ℝ) (fuel : ℕ)
    (x : ConeX) (r : Outcome ConeX) (hx : x.1 ≠ []) (ho : o.tolEnergy = t0) (ho' : o.tolTorque = [t1, t2])
    (hpos : 0 < t0 ∨ 0 < t1 ∨ 0 < t2) (h : run (spiralProblem E muB cell) E o fuel x = some (.ok r)) :
    ∃ (n : ℕ) (xs : ℕ → ConeX), Trajectory (spiralProblem E muB cell) E.wolfeC1 E.wolfeC2 xs n ∧ xs 0 = x ∧
      xs n = r.x ∧ (∀ N, o.maxIter = some N → (n : ℤ) ≤ max N 0) ∧
      ((∃ N, o.maxIter = some N ∧ (n : ℤ) = max N 0) ∨
        (0 < n ∧ |(spiralProblem E muB cell).energy (xs (n - 1)) - (spiralProblem E muB cell).energy (xs n)| ≤ t0 ∧
          (∀ i < x.1.length - 1, norm3 (rowTorque (fun l => (spiralProblem E muB cell).energy (l, (xs (n - 1)).2))
            (xs (n - 1)).1 i) ≤ t1) ∧
          norm3 (rowTorque (fun l => (spiralProblem E muB cell).energy (l, (xs (n - 1)).2))
            (xs (n - 1)).1 (x.1.length - 1)) ≤ t2)) :=
  cone_stops_aux (fun _ => rfl) rfl (fun _ _ _ => rotateRows_length _ _ _ _) hx ho ho' hpos h

/-! ### C35: the line search -/

/-- **C35**: `_lambda` returns `0.99^n` with `n ≤ wolfe_iter_max + 1`, both conditions hold for it and some
condition fails for every larger trial step; or it raises `ValueError` after `wolfe_iter_max + 2` failed trials. -/
theorem C35_line_search (P : Problem X) (c1 c2 : ℝ) (N : ℕ) (x : X) (p : Arr) :
    (∃ n ≤ N + 1, lineSearch P c1 c2 N x p = .ok ((99 / 100) ^ n) ∧ (0 : ℝ) < (99 / 100) ^ n ∧
        (99 / 100 : ℝ) ^ n ≤ 1 ∧
        P.energy (P.update x p ((99 / 100) ^ n)) ≤
          P.energy x + c1 * (99 / 100) ^ n * vdot P.size (P.grad x).1 p ∧
        |vdot P.size (P.grad (P.update x p ((99 / 100) ^ n))).1 p| ≤ |c2 * vdot P.size (P.grad x).1 p| ∧
        ∀ j < n, P.energy x + c1 * (99 / 100) ^ j * vdot P.size (P.grad x).1 p <
            P.energy (P.update x p ((99 / 100) ^ j)) ∨
          |c2 * vdot P.size (P.grad x).1 p| < |vdot P.size (P.grad (P.update x p ((99 / 100) ^ j))).1 p|) ∨
      (lineSearch P c1 c2 N x p = .error .valueError ∧
        ∀ j ≤ N + 1, P.energy x + c1 * (99 / 100) ^ j * vdot P.size (P.grad x).1 p <
            P.energy (P.update x p ((99 / 100) ^ j)) ∨
          |c2 * vdot P.size (P.grad x).1 p| < |vdot P.size (P.grad (P.update x p ((99 / 100) ^ j))).1 p|) := by
  rcases lineLoop_spec P c1 c2 x p (N + 1) 1 with ⟨n, hn, hr, ha, hb⟩ | ⟨hr, hb⟩
  · left
    simp only [one_mul] at hr ha hb
    simp only [Accepts, not_or, not_lt] at ha
    refine ⟨n, hn, hr, by positivity, pow_le_one₀ (by norm_num) (by norm_num), ha.1, ha.2, ?_⟩
    intro j hj
    have := hb j hj
    simp only [Accepts, not_not] at this
    exact this
  · right
    simp only [one_mul] at hb
    refine ⟨hr, ?_⟩
    intro j hj
    have := hb j hj
    simp only [Accepts, not_not] at this
    exact this

/-! ### C37: the history -/

/-- **C37**: if the loop ends by itself, the written blocks together are the visited configurations with their
energies, from the initial guess to the returned one, each once and in order.

Missing: a run ended by `max_iterations` does not write the rest of the history (`C37_limit`,
`C37_limit_false`). -/
theorem C37_history_partial (P : Problem X) (E : EnergyObj ℝ) (o : Options) (fuel : ℕ) (x : X) (r : Outcome X)
    (c : ℤ) (hc : o.history = some c) (hmax : o.maxIter = none) (h : run P E o fuel x = some (.ok r)) :
    ∃ (n : ℕ) (xs : ℕ → X), Trajectory P E.wolfeC1 E.wolfeC2 xs n ∧ xs 0 = x ∧ xs n = r.x ∧
      r.written.flatten.map (fun rec => (rec.1, rec.2.2)) =
        (List.range (n + 1)).map fun i => (P.energy (xs i), xs i) := by
  obtain ⟨n, S, hT, hrun, hx, he⟩ := run_spec h
  refine ⟨n, fun i => (S i).x, hT.trajectory, congrArg OptState.x hT.zero, hx.symm, ?_⟩
  rcases he with ⟨_, ⟨N, hN, _⟩, _⟩ | ⟨_, e⟩
  · rw [hmax] at hN; cases hN
  · rw [e, flushed, hc, ← hT.records hc n (le_refl _)]
    simp

/-- **C37**, what is written in general: everything if the loop ends by itself; at the limit of the iterations
only the blocks that were full, so nothing before `history_step` updates. -/
theorem C37_limit (P : Problem X) (E : EnergyObj ℝ) (o : Options) (fuel : ℕ) (x : X) (r : Outcome X)
    (c : ℤ) (hc : o.history = some c) (h : run P E o fuel x = some (.ok r)) :
    ∃ (n : ℕ) (xs : ℕ → X), Trajectory P E.wolfeC1 E.wolfeC2 xs n ∧ xs 0 = x ∧ xs n = r.x ∧
      (r.written.flatten.map (fun rec => (rec.1, rec.2.2)) =
          ((List.range (n + 1)).map fun i => (P.energy (xs i), xs i)) ∨
        (∃ N, o.maxIter = some N ∧ N ≤ (n : ℤ)) ∧
        r.written.flatten.map (fun rec => (rec.1, rec.2.2)) =
          ((List.range (n + 1)).map fun i => (P.energy (xs i), xs i)).take
            (if n = 0 ∨ n < c.natAbs then 0 else n + 1 - n % c.natAbs)) := by
  obtain ⟨n, S, hT, hrun, hx, he⟩ := run_spec h
  refine ⟨n, fun i => (S i).x, hT.trajectory, congrArg OptState.x hT.zero, hx.symm, ?_⟩
  rcases he with ⟨_, ⟨N, hN, hNn⟩, e⟩ | ⟨_, e⟩
  · right
    rw [hT.counter n (le_refl _)] at hNn
    refine ⟨⟨N, hN, hNn⟩, ?_⟩
    have hr := hT.records hc n (le_refl _)
    have hl := hT.pending_length hc n (le_refl _)
    rw [e, ← hr, List.map_append]
    have hlen := congrArg List.length hr
    simp only [List.length_map, List.length_append, List.length_range] at hlen
    rw [List.take_left']
    rw [List.length_map]
    by_cases hb : n = 0 ∨ n < c.natAbs
    · simp only [hb, if_true] at hl ⊢
      omega
    · simp only [hb, if_false] at hl ⊢
      omega
  · left
    rw [e, flushed, hc, ← hT.records hc n (le_refl _)]
    simp

/-- The full claim of C37. -/
def C37_statement : Prop :=
  ∀ (E : EnergyObj ℝ) (muB : ℝ) (cell : ℕ → M3 ℝ) (o : Options) (fuel : ℕ) (x : List (V3 ℝ))
    (r : Outcome (List (V3 ℝ))), o.history ≠ none → run (ferroProblem E muB cell) E o fuel x = some (.ok r) →
    r.x ∈ r.written.flatten.map fun rec => rec.2.2

/-- **C37** is false at the limit of the iterations: with `max_iterations = 0` nothing is written although the
initial guess was visited and is returned. -/
theorem C37_limit_false : ¬ C37_statement := by
  intro h
  let E : EnergyObj ℝ := ⟨1, [2], [1], [], none, 10, 10000, 1 / 10000, 9 / 10⟩
  let o : Options := ⟨1, [1], some 0, some 1000⟩
  have hr : run (ferroProblem E 1 fun _ => 0) E o 1 [![0, 0, 1]] = some (.ok ⟨[![0, 0, 1]], []⟩) := by
    have h1 : Running o (initial (ferroProblem E 1 fun _ => 0) o [![0, 0, 1]]) := by
      rw [running_initial_iff]
      exact .inl (by norm_num [o])
    have h2 : AtLimit o (initial (ferroProblem E 1 fun _ => 0) o [![0, 0, 1]]) := ⟨0, rfl, by simp [initial]⟩
    unfold run
    rw [if_neg (by norm_num [E]), optLoop]
    simp only [h1, h2, if_true]
    rfl
  have := h E 1 (fun _ => 0) o 1 _ _ (by simp [o]) hr
  simp at this

/-! ### C38: settings -/

/-- The property which an assignment is meant to change. -/
def Optimize.Setting.target : Setting → Getter
  | .m _ => .m
  | .wolfeC1 _ => .wolfeC1
  | .wolfeC2 _ => .wolfeC2
  | .field _ => .field
  | .gFactors _ => .gFactors
  | .spins _ => .spins

/-- The value a user expects to read back: the number or the vector which was assigned. -/
def Optimize.Setting.Expects : Setting → Value → Prop
  | .m (.int n), v => v = .int n
  | .m (.float x), v => ∃ n : ℤ, v = .int n ∧ (n : ℝ) = x
  | .wolfeC1 (.int n), v => v = .float n
  | .wolfeC1 (.float x), v => v = .float x
  | .wolfeC2 (.int n), v => v = .float n
  | .wolfeC2 (.float x), v => v = .float x
  | .field none, v => v = .field none
  | .field (some a), v => ∃ h, a = vec h ∧ v = .field (some h)
  | _, _ => False

/-- The full claim of C38 for assignments satisfying `G`: an accepted assignment is read back and changes no
other property. -/
def C38_statement (G : Setting → Prop) : Prop :=
  ∀ (E : EnergyObj ℝ) (s : Setting), G s →
    (∀ g ≠ s.target, read (assign E s).st g = read E g) ∧
      ((assign E s).err = none → s.Expects (read (assign E s).st s.target))

/-- **C38** for integer `m` and for `magnetic_field`.

Missing: `wolfe_c1` changes `wolfe_c2`, which does not return its own value (`C38_wolfe_false`), and
`g_factors`, `spins` cannot be assigned (`C38_lists`); `m` truncates floats (`C38_m_false`). -/
theorem C38_settings_partial :
    C38_statement fun s => (∃ n, s = .m (.int n)) ∨ ∃ v, s = .field v := by
  rintro E s (⟨n, rfl⟩ | ⟨v, rfl⟩)
  · refine ⟨?_, fun _ => rfl⟩
    intro g hg
    cases g <;> first | rfl | exact absurd rfl hg
  · cases v with
    | none =>
      refine ⟨?_, fun _ => rfl⟩
      intro g hg
      cases g <;> first | rfl | exact absurd rfl hg
    | some a =>
      cases ha : a.toV3 with
      | error e =>
        simp only [assign, ha]
        exact ⟨fun _ _ => rfl, fun h => by cases h⟩
      | ok h =>
        simp only [assign, ha]
        refine ⟨?_, fun _ => ?_⟩
        · intro g hg
          cases g <;> first | rfl | exact absurd rfl hg
        · refine ⟨h, ?_, rfl⟩
          unfold Param.ArrayLike.toV3 at ha
          split at ha
          · cases ha; rfl
          · cases ha

/-- **C38** for `wolfe_c1`: it is read back and nothing but the displayed `wolfe_c2` changes; the value used by
the line search for `c2` does not. -/
theorem C38_wolfe_c1_partial (E : EnergyObj ℝ) (v : Num) :
    (∀ g, g ≠ .wolfeC1 → g ≠ .wolfeC2 → read (assign E (.wolfeC1 v)).st g = read E g) ∧
      (assign E (.wolfeC1 v)).st.wolfeC2 = E.wolfeC2 ∧
      ((assign E (.wolfeC1 v)).err = none →
        (Setting.wolfeC1 v).Expects (read (assign E (.wolfeC1 v)).st .wolfeC1)) := by
  cases v <;> refine ⟨?_, rfl, ?_⟩
  all_goals first
    | (intro g h1 h2; cases g <;> first | rfl | exact absurd rfl h1 | exact absurd rfl h2)
    | (intro h; first | rfl | cases h)

/-- **C38** for `wolfe_c2`: the value used by the line search is the assigned one and no other value changes
(what the getter returns is `C38_wolfe_false`). -/
theorem C38_wolfe_c2_partial (E : EnergyObj ℝ) (v : Num) :
    (∀ g, read (assign E (.wolfeC2 v)).st g = read E g) ∧
      ∀ x, v.toFloat = .ok x → (assign E (.wolfeC2 v)).err = none ∧ (assign E (.wolfeC2 v)).st.wolfeC2 = x := by
  constructor
  · intro g
    cases v <;> cases g <;> rfl
  · intro x hx
    simp only [assign, hx]
    exact ⟨rfl, rfl⟩

/-- **C38**: `g_factors` and `spins` cannot be assigned at all: `TypeError`, the object is unchanged. -/
theorem C38_lists (E : EnergyObj ℝ) (l : List Num) :
    assign E (.gFactors l) = .raise E .typeError ∧ assign E (.spins l) = .raise E .typeError := ⟨rfl, rfl⟩

/-- A rejected assignment changes nothing. -/
theorem C38_rejected (E : EnergyObj ℝ) (s : Setting) (h : (assign E s).err ≠ none) : (assign E s).st = E := by
  cases s with
  | m v => cases v <;> first | rfl | exact absurd rfl h
  | wolfeC1 v => cases v <;> first | rfl | exact absurd rfl h
  | wolfeC2 v => cases v <;> first | rfl | exact absurd rfl h
  | field v =>
    cases v with
    | none => exact absurd rfl h
    | some a =>
      cases ha : a.toV3 with
      | error e => simp only [assign, ha]; rfl
      | ok x => simp only [assign, ha] at h; exact absurd rfl h
  | gFactors l => rfl
  | spins l => rfl

/-- **C38** is false for `wolfe_c2`: after `wolfe_c2 = 1/2` on a new object it reads `10⁻⁴`; and assigning
`wolfe_c1` changes what `wolfe_c2` returns. -/
theorem C38_wolfe_false :
    ¬ C38_statement (fun s => ∃ v, s = .wolfeC2 v) ∧ ¬ C38_statement (fun s => ∃ v, s = .wolfeC1 v) := by
  let E : EnergyObj ℝ := ⟨1, [2], [1], [], none, 10, 10000, 1 / 10000, 9 / 10⟩
  constructor
  · intro h
    have := (h E (.wolfeC2 (.float (1 / 2))) ⟨_, rfl⟩).2 rfl
    have : (Value.float (1 / 10000 : ℝ)) = .float (1 / 2) := this
    injection this with this
    norm_num at this
  · intro h
    have := (h E (.wolfeC1 (.float (1 / 2))) ⟨_, rfl⟩).1 .wolfeC2 (by decide)
    have : (Value.float (1 / 2 : ℝ)) = .float (1 / 10000) := this
    injection this with this
    norm_num at this

/-- **C38** is false for `m` and floats: `m = 7/2` is read back as `3`. -/
theorem C38_m_false : ¬ C38_statement (fun s => ∃ x, s = .m (.float x)) := by
  intro h
  let E : EnergyObj ℝ := ⟨1, [2], [1], [], none, 10, 10000, 1 / 10000, 9 / 10⟩
  obtain ⟨n, _, hn⟩ := (h E (.m (.float (7 / 2))) ⟨_, rfl⟩).2 rfl
  have : ((2 * n : ℤ) : ℝ) = ((7 : ℤ) : ℝ) := by push_cast; linarith
  have := Int.cast_injective this
  omega

end Magnopy
