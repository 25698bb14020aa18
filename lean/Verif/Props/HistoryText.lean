import Verif.Lemmas.HistoryTable
import Verif.Props.OptExample

/-!
# Property C80: the text of the history of a minimisation
-/

set_option autoImplicit false
set_option linter.unusedSectionVars false

namespace Magnopy.History

open Optimize Txt EnergyObj

variable {X : Type} {F : NumFmt ℝ} {float : Str → Option ℝ}

/-! ### The records of a run -/

theorem records_full {P : Problem X} {E : EnergyObj ℝ} {o : Options} {x : X} {S : ℕ → OptState X} {n : ℕ}
    (h : Turns P E o x S n) {c : ℤ} (hc : o.history = some c) : ∀ i ≤ n, (S i).written.flatten ++ (S i).pending =
      (List.range (i + 1)).map fun j => (P.energy (S j).x, (S j).targets, (S j).x) := by
  intro i
  induction i with
  | zero => intro _; simp [h.zero, initial]
  | succ i ih =>
    intro hi
    obtain ⟨k, p, mem, lam, t⟩ := iterate_spec (h.turn i hi)
    rw [List.range_succ, List.map_append (l₁ := List.range (i + 1)), ← ih (by omega)]
    rcases t.history with ⟨h0, _⟩ | ⟨c', _, _, ⟨_, hp, hw⟩ | ⟨_, hp, hw⟩⟩
    · rw [hc] at h0; cases h0
    · rw [hp, hw]; simp
    · rw [hp, hw]; simp

/-- The written records are the first records of the run, with the torque targets of the configuration before. -/
theorem run_records {P : Problem X} {E : EnergyObj ℝ} {o : Options} {fuel : ℕ} {x : X} {r : Outcome X} {c : ℤ}
    (hc : o.history = some c) (h : run P E o fuel x = some (.ok r)) :
    ∃ (n : ℕ) (xs : ℕ → X) (ts : ℕ → List ℝ), Trajectory P E.wolfeC1 E.wolfeC2 xs n ∧ xs 0 = x ∧ xs n = r.x ∧
      ts 0 = o.tolTorque.map (fun a => 2 * a) ∧ (∀ k < n, P.target (P.grad (xs k)).2 = .ok (ts (k + 1))) ∧
      r.written.flatten <+: (List.range (n + 1)).map (fun j => (P.energy (xs j), ts j, xs j)) ∧
      (o.maxIter = none → r.written.flatten = (List.range (n + 1)).map fun j => (P.energy (xs j), ts j, xs j)) := by
  obtain ⟨n, S, hT, hrun, hx, he⟩ := run_spec h
  have hr := records_full hT hc n (le_refl _)
  refine ⟨n, fun i => (S i).x, fun i => (S i).targets, hT.trajectory, congrArg OptState.x hT.zero, hx.symm,
    congrArg OptState.targets hT.zero,
    fun k hk => ?_, ?_, fun hm => ?_⟩
  · obtain ⟨_, p, mem, lam, t⟩ := iterate_spec (hT.turn k hk)
    exact t.targets
  · rcases he with ⟨_, _, e⟩ | ⟨_, e⟩
    · rw [e, ← hr]; exact List.prefix_append _ _
    · rw [e, flushed, hc, ← hr]; simp
  · rcases he with ⟨_, ⟨N, hN, _⟩, _⟩ | ⟨_, e⟩
    · rw [hm] at hN; cases hN
    · rw [e, flushed, hc, ← hr]; simp

theorem prefix_get {α : Type} {f : ℕ → α} {n : ℕ} {l : List α} (h : l <+: (List.range n).map f) :
    l.length ≤ n ∧ ∀ k a, l[k]? = some a → k < n ∧ a = f k := by
  obtain ⟨t, ht⟩ := h
  have hl := congrArg List.length ht
  rw [List.length_append, List.length_map, List.length_range] at hl
  refine ⟨by omega, fun k a hk => ?_⟩
  obtain ⟨hk', rfl⟩ := List.getElem?_eq_some_iff.1 hk
  refine ⟨by omega, ?_⟩
  have : (l ++ t)[k]? = some l[k] := by rw [List.getElem?_append_left hk', hk]
  rw [ht, List.getElem?_map, List.getElem?_range (by omega)] at this
  exact (Option.some.inj this).symm

theorem maxNorm_spec {ts : List (V3 ℝ)} {m : ℝ} (h : maxNorm ts = .ok m) : IsMaxNorm ts m := by
  have key : ∀ (l : List (V3 ℝ)) (a : ℝ), (l.foldl (fun m s => max m (norm3 s)) a = a ∨
      ∃ v ∈ l, norm3 v = l.foldl (fun m s => max m (norm3 s)) a) ∧ a ≤ l.foldl (fun m s => max m (norm3 s)) a ∧
      ∀ v ∈ l, norm3 v ≤ l.foldl (fun m s => max m (norm3 s)) a := by
    intro l
    induction l with
    | nil => intro a; simp
    | cons t l ih =>
      intro a
      obtain ⟨h1, h2, h3⟩ := ih (max a (norm3 t))
      rw [List.foldl_cons]
      refine ⟨?_, le_trans (le_max_left _ _) h2, ?_⟩
      · rcases h1 with h1 | ⟨v, hv, h1⟩
        · rcases max_choice a (norm3 t) with h4 | h4
          · exact .inl (h1.trans h4)
          · exact .inr ⟨t, by simp, (h1.trans h4).symm⟩
        · exact .inr ⟨v, by simp [hv], h1⟩
      · intro v hv
        rcases List.mem_cons.1 hv with rfl | hv
        · exact le_trans (le_max_right _ _) h2
        · exact h3 v hv
  cases ts with
  | nil => cases h
  | cons t ts =>
    cases h
    obtain ⟨h1, h2, h3⟩ := key ts (norm3 t)
    refine ⟨?_, ?_⟩
    · rcases h1 with h1 | ⟨v, hv, h1⟩
      · exact ⟨t, by simp, h1.symm⟩
      · exact ⟨v, by simp [hv], h1⟩
    · intro v hv
      rcases List.mem_cons.1 hv with rfl | hv
      · exact h2
      · exact h3 v hv

/-! ### The table of the ferro case -/

/-- What a row of the table of the ferro case shows: energy and directions of the configuration `x`, and the largest length
`t` of torques. -/
structure FerroRow (T : List Str) (row : List ℝ) (energy : ℝ) (x : List (V3 ℝ)) (t : ℝ) : Prop where
  energy : ShownE (column T row (Str.lit "Energy")) energy
  torque : Shown (column T row (Str.lit "Torque")) t
  spins : ∀ i < x.length, ∀ c, Shown (column T row (spinTitle i c)) (x.getD i 0 c)

theorem ferro_row (hF : Reads F float) {I : ℕ} {x : List (V3 ℝ)} (hx : x.length = I) (e t : ℝ) :
    FerroRow (ferroTitles I) (rowOf hF ferroColumns (e, [t], x)) e x t := by
  have hT := ferroTitles_nodup I
  refine ⟨?_, ?_, fun i hi c => ?_⟩
  · rw [column_eq hT (k := 0) rfl]
    exact shown_rdE hF e
  · rw [column_eq hT (k := 1) rfl]
    exact shown_row hF (k := 0) rfl
  · have h1 : (ferroTitles I)[3 * i + (c : ℕ) + 1 + 1]? = some (spinTitle i c) := by
      rw [ferroTitles, List.cons_append, List.cons_append, List.getElem?_cons_succ, List.getElem?_cons_succ, List.nil_append]
      exact spinTitles_get (hx ▸ hi) c
    rw [column_eq hT h1]
    refine shown_row hF ?_
    have h2 : ([t] ++ (ferroColumns.groups x).flatten)[3 * i + (c : ℕ) + 1]? = (flat x)[3 * i + (c : ℕ)]? := by
      simp [ferroColumns]
    exact h2.trans (flat_get hi c)

theorem tolerances_spec {n : ℕ} {tol : Option (List ℝ)} {t : ℝ} {ts : List ℝ} (h : tolerances (n + 1) tol = .ok (t, ts)) :
    ts.length = n := by
  rcases tol with _ | _ | ⟨a, l⟩
  · simp only [tolerances, Except.ok.injEq, Prod.mk.injEq] at h
    rw [← h.2]; simp
  · cases h
  · rw [tolerances] at h
    split at h
    · rename_i hl
      simp only [Except.ok.injEq, Prod.mk.injEq] at h
      rw [← h.2]
      simpa using hl
    · cases h

/-- **C80, ferro case.** The text which a run of `optimize` writes (to a file that did not exist, or to the screen) is a table
with the titles `Energy`, `Torque`, `S1_x`, …; its rows are the visited configurations in order (all of them unless the run was
ended by `max_iterations`), with their energies and directions, to the digits printed.  The torque of a row is the largest torque
of the configuration of the row *before*; the first row has twice the tolerance. -/
theorem C80_ferro_partial (hF : Reads F float) (E : EnergyObj ℝ) (muB : ℝ) (cell : ℕ → M3 ℝ) (rnd : Random)
    (guess : Option (Param.ArrayLike ℝ)) (tol : Option (List ℝ)) (maxIter : Option ℤ) (c : ℤ) (fuel : ℕ)
    (r : Outcome (List (V3 ℝ))) (hr : rnd.Good E.spins.length) (hg : GoodGuess guess)
    (h : optimizeFerro E muB cell rnd guess tol maxIter (some c) fuel = some (.ok r)) (s : Sink) :
    ∃ (n : ℕ) (xs : ℕ → List (V3 ℝ)) (rows : List (List ℝ)),
      startFerro E.spins.length rnd.spins guess = .ok (xs 0) ∧
      Trajectory (ferroProblem E muB cell) E.wolfeC1 E.wolfeC2 xs n ∧ xs n = r.x ∧
      readTable float (runText F ferroColumns s E.spins.length r.written) = some (ferroTitles E.spins.length, rows) ∧
      rows.length ≤ n + 1 ∧ (maxIter = none → rows.length = n + 1) ∧
      ∀ k row, rows[k]? = some row → k ≤ n ∧ (xs k).length = E.spins.length ∧
        ∃ t, FerroRow (ferroTitles E.spins.length) row ((ferroProblem E muB cell).energy (xs k)) (xs k) t ∧
          (∀ j, k = j + 1 → IsMaxNorm (rowTorques (ferroProblem E muB cell).energy (xs j)) t) ∧
          (k = 0 → ∀ t0 t1, tolerances 2 tol = .ok (t0, [t1]) → t = 2 * t1) := by
  rw [optimizeFerro] at h
  cases hx : startFerro E.spins.length rnd.spins guess with
  | error e => rw [hx] at h; cases h
  | ok x =>
    rw [hx] at h
    simp only at h
    cases ht : tolerances 2 tol with
    | error e => rw [ht] at h; cases h
    | ok p =>
      obtain ⟨t0, ts⟩ := p
      rw [ht] at h
      simp only at h
      have hts := tolerances_spec (n := 1) ht
      obtain ⟨t1, rfl⟩ := List.length_eq_one_iff.1 hts
      obtain ⟨n, xs, tg, hT, hx0, hxn, ht0, htk, hpre, hall⟩ := run_records rfl h
      have hlen : ∀ k ≤ n, (xs k).length = E.spins.length := by
        intro k
        induction k with
        | zero => intro _; rw [hx0]; exact (startFerro_unit hx hg hr.length hr.spins).1
        | succ k ih =>
          intro hk
          obtain ⟨p, lam, -, -, -, e⟩ := hT k hk
          rw [e, ← ih (by omega)]
          exact rotateRows_length _ _ _ _
      have htg : ∀ k ≤ n, ∃ t, tg k = [t] ∧
          (∀ j, k = j + 1 → IsMaxNorm (rowTorques (ferroProblem E muB cell).energy (xs j)) t) ∧ (k = 0 → t = 2 * t1) := by
        intro k hk
        cases k with
        | zero => exact ⟨2 * t1, by rw [ht0]; rfl, fun j hj => by omega, fun _ => rfl⟩
        | succ k =>
          have h1 := htk k hk
          have h2 : targetFerro (rowTorques (ferroProblem E muB cell).energy (xs k)) = .ok (tg (k + 1)) := h1
          rw [targetFerro] at h2
          cases hm : maxNorm (rowTorques (ferroProblem E muB cell).energy (xs k)) with
          | error e => rw [hm] at h2; cases h2
          | ok m =>
            rw [hm] at h2
            refine ⟨m, (Except.ok.inj h2).symm, fun j hj => ?_, fun h => by omega⟩
            obtain rfl : k = j := by omega
            exact maxNorm_spec hm
      obtain ⟨hle, hget⟩ := prefix_get hpre
      have hfit : ∀ q ∈ r.written.flatten, Fits ferroColumns E.spins.length q := by
        intro q hq
        obtain ⟨k, hk, rfl⟩ := List.getElem_of_mem hq
        obtain ⟨hk1, hk2⟩ := hget k _ (List.getElem?_eq_getElem hk)
        obtain ⟨t, h1, -⟩ := htg k (by omega)
        rw [hk2]
        refine ⟨?_, ?_⟩
        · simp [h1, ferroColumns]
        · simp [ferroColumns, flat_length, hlen k (by omega)]
      refine ⟨n, xs, r.written.flatten.map (rowOf hF ferroColumns), by rw [hx0], hT, hxn, ?_, by rw [List.length_map]; exact hle,
        fun hm => ?_, ?_⟩
      · rw [read_run hF ferro_good s _ _ hfit, ferro_titles]
      · rw [hall hm]; simp
      · intro k row hrow
        rw [List.getElem?_map, Option.map_eq_some_iff] at hrow
        obtain ⟨q, hq, rfl⟩ := hrow
        obtain ⟨hk, rfl⟩ := hget k q hq
        obtain ⟨t, h1, h2, h3⟩ := htg k (by omega)
        refine ⟨by omega, hlen k (by omega), t, ?_, h2, fun hk0 t0' t1' he => ?_⟩
        · rw [h1]
          exact ferro_row hF (hlen k (by omega)) _ _
        · simp only [Except.ok.injEq, Prod.mk.injEq, List.cons.injEq, and_true] at he
          rw [h3 hk0, he.2]

/-! ### The table of the antiferro and spiral cases -/

/-- What a row of the table of the antiferro and spiral cases shows: energy, directions, cone axis and spiral vector of a
configuration, and lengths of torques. -/
structure ConeRow (T : List Str) (row : List ℝ) (energy : ℝ) (x : List (V3 ℝ)) (axis q : V3 ℝ) (t tn : ℝ) : Prop where
  energy : ShownE (column T row (Str.lit "Energy")) energy
  torque : Shown (column T row (Str.lit "Torque")) t
  torqueAxis : Shown (column T row (Str.lit "Torque_n")) tn
  spins : ∀ i < x.length, ∀ c, Shown (column T row (spinTitle i c)) (x.getD i 0 c)
  axis : ∀ c, Shown (column T row (vectorTitle 'n' c)) (axis c)
  vector : ∀ c, Shown (column T row (vectorTitle 'q' c)) (q c)

theorem cone_row (hF : Reads F float) {I : ℕ} {x : ConeX} (hx : x.1.length = I + 1) (e t tn : ℝ) :
    ConeRow (coneTitles I) (rowOf hF coneColumns (e, [t, tn], x)) e x.1.dropLast (x.1.getLastD 0) x.2 t tn := by
  have hT := coneTitles_nodup I
  have hsp := spinTitles_length I
  have hfl : (flat x.1).length = 3 * (I + 1) := by rw [flat_length, hx]
  have hget : ∀ k, ([t, tn] ++ (coneColumns.groups x).flatten)[k + 2]? = (flat x.1 ++ [x.2 0, x.2 1, x.2 2])[k]? := by
    intro k; simp [coneColumns]
  have htit : ∀ k, (coneTitles I)[k + 3]? = (spinTitles I ++ [vectorTitle 'n' 0, vectorTitle 'n' 1, vectorTitle 'n' 2,
      vectorTitle 'q' 0, vectorTitle 'q' 1, vectorTitle 'q' 2])[k]? := by
    intro k; simp [coneTitles]
  refine ⟨?_, ?_, ?_, fun i hi c => ?_, fun c => ?_, fun c => ?_⟩
  · rw [column_eq hT (k := 0) rfl]
    exact shown_rdE hF e
  · rw [column_eq hT (k := 1) rfl]
    exact shown_row hF (k := 0) rfl
  · rw [column_eq hT (k := 2) rfl]
    exact shown_row hF (k := 1) rfl
  · rw [List.length_dropLast, hx, Nat.add_sub_cancel] at hi
    have h1 : (coneTitles I)[3 * i + (c : ℕ) + 2 + 1]? = some (spinTitle i c) := by
      rw [htit, List.getElem?_append_left (by rw [hsp]; omega)]
      exact spinTitles_get hi c
    rw [column_eq hT h1]
    refine shown_row hF ?_
    have h3 : x.1.dropLast.getD i 0 = x.1.getD i 0 := by
      rw [List.getD_eq_getElem?_getD, List.getD_eq_getElem?_getD, List.getElem?_dropLast, if_pos (by omega)]
    rw [h3, hget, List.getElem?_append_left (by rw [hfl]; omega)]
    exact flat_get (by omega) c
  · have h1 : (coneTitles I)[3 * I + (c : ℕ) + 2 + 1]? = some (vectorTitle 'n' c) := by
      rw [htit, List.getElem?_append_right (by rw [hsp]; omega), hsp, Nat.add_sub_cancel_left]
      fin_cases c <;> rfl
    rw [column_eq hT h1]
    refine shown_row hF ?_
    have h3 : x.1.getLastD 0 = x.1.getD I 0 := by
      rw [List.getLastD_eq_getLast?, List.getLast?_eq_getElem?, hx, List.getD_eq_getElem?_getD]; rfl
    rw [h3, hget, List.getElem?_append_left (by rw [hfl]; omega)]
    exact flat_get (by omega) c
  · have h1 : (coneTitles I)[3 * I + 3 + (c : ℕ) + 2 + 1]? = some (vectorTitle 'q' c) := by
      rw [htit, List.getElem?_append_right (by rw [hsp]; omega), hsp]
      have : 3 * I + 3 + (c : ℕ) - 3 * I = 3 + c := by omega
      rw [this]
      fin_cases c <;> rfl
    rw [column_eq hT h1]
    refine shown_row hF ?_
    rw [hget, List.getElem?_append_right (by rw [hfl]; omega), hfl]
    have : 3 * I + 3 + (c : ℕ) - 3 * (I + 1) = c := by omega
    rw [this]
    fin_cases c <;> rfl

/-- The claim of C80 for a run of the antiferro or spiral case with the problem `P`. -/
def ConeTable (F : NumFmt ℝ) (float : Str → Option ℝ) (E : EnergyObj ℝ) (P : Problem ConeX) (maxIter : Option ℤ)
    (tol : Option (List ℝ)) (start : Except PyErr ConeX) (r : Outcome ConeX) (s : Sink) : Prop :=
  ∃ (n : ℕ) (xs : ℕ → ConeX) (rows : List (List ℝ)), start = .ok (xs 0) ∧
    Trajectory P E.wolfeC1 E.wolfeC2 xs n ∧ xs n = r.x ∧
    readTable float (runText F coneColumns s E.spins.length r.written) = some (coneTitles E.spins.length, rows) ∧
    rows.length ≤ n + 1 ∧ (maxIter = none → rows.length = n + 1) ∧
    ∀ k row, rows[k]? = some row → k ≤ n ∧ (xs k).1.length = E.spins.length + 1 ∧
      ∃ t tn, ConeRow (coneTitles E.spins.length) row (P.energy (xs k)) (xs k).1.dropLast ((xs k).1.getLastD 0) (xs k).2 t tn ∧
        (∀ j, k = j + 1 → IsMaxNorm ((List.range E.spins.length).map (coneTorque P (xs j))) t ∧
          tn = norm3 (coneTorque P (xs j) E.spins.length)) ∧
        (k = 0 → ∀ t0 t1 t2, tolerances 3 tol = .ok (t0, [t1, t2]) → t = 2 * t1 ∧ tn = 2 * t2)

theorem cone_table (hF : Reads F float) (E : EnergyObj ℝ) (P : Problem ConeX) (maxIter : Option ℤ) (tol : Option (List ℝ))
    (c : ℤ) (fuel : ℕ) (r : Outcome ConeX) (s : Sink) (x : ConeX) (t0 : ℝ) (ts : List ℝ)
    (hup : ∀ x p lam, (P.update x p lam).1.length = x.1.length)
    (htar : ∀ x, P.target (P.grad x).2 = targetCone (rowTorques (fun l => P.energy (l, x.2)) x.1))
    (hx : x.1.length = E.spins.length + 1) (ht : tolerances 3 tol = .ok (t0, ts))
    (h : run P E ⟨t0, ts, maxIter, some c⟩ fuel x = some (.ok r)) : ConeTable F float E P maxIter tol (.ok x) r s := by
  have hts := tolerances_spec (n := 2) ht
  obtain ⟨t1, t2, rfl⟩ := List.length_eq_two.1 hts
  obtain ⟨n, xs, tg, hT, hx0, hxn, ht0, htk, hpre, hall⟩ := run_records rfl h
  have hlen : ∀ k ≤ n, (xs k).1.length = E.spins.length + 1 := by
    intro k
    induction k with
    | zero => intro _; rw [hx0]; exact hx
    | succ k ih =>
      intro hk
      obtain ⟨p, lam, -, -, -, e⟩ := hT k hk
      rw [e, hup, ih (by omega)]
  have htg : ∀ k ≤ n, ∃ t tn, tg k = [t, tn] ∧
      (∀ j, k = j + 1 → IsMaxNorm ((List.range E.spins.length).map (coneTorque P (xs j))) t ∧
        tn = norm3 (coneTorque P (xs j) E.spins.length)) ∧ (k = 0 → t = 2 * t1 ∧ tn = 2 * t2) := by
    intro k hk
    cases k with
    | zero => exact ⟨2 * t1, 2 * t2, by rw [ht0]; rfl, fun j hj => by omega, fun _ => ⟨rfl, rfl⟩⟩
    | succ k =>
      have h2 := htk k hk
      have hT : rowTorques (fun l => P.energy (l, (xs k).2)) (xs k).1 =
          (List.range E.spins.length).map (coneTorque P (xs k)) ++ [coneTorque P (xs k) E.spins.length] := by
        rw [rowTorques, hlen k (by omega), List.range_succ, List.map_append]
        rfl
      rw [htar, hT, targetCone, List.dropLast_concat, List.getLastD_concat] at h2
      cases hm : maxNorm ((List.range E.spins.length).map (coneTorque P (xs k))) with
      | error e => rw [hm] at h2; cases h2
      | ok m =>
        rw [hm] at h2
        refine ⟨m, _, (Except.ok.inj h2).symm, fun j hj => ?_, fun h => by omega⟩
        obtain rfl : k = j := by omega
        exact ⟨maxNorm_spec hm, rfl⟩
  obtain ⟨hle, hget⟩ := prefix_get hpre
  have hfit : ∀ q ∈ r.written.flatten, Fits coneColumns E.spins.length q := by
    intro q hq
    obtain ⟨k, hk, rfl⟩ := List.getElem_of_mem hq
    obtain ⟨hk1, hk2⟩ := hget k _ (List.getElem?_eq_getElem hk)
    obtain ⟨t, tn, h1, -⟩ := htg k (by omega)
    rw [hk2]
    refine ⟨?_, ?_⟩
    · simp [h1, coneColumns]
    · simp [coneColumns, flat_length, hlen k (by omega)]; ring
  refine ⟨n, xs, r.written.flatten.map (rowOf hF coneColumns), by rw [hx0], hT, hxn, ?_, by rw [List.length_map]; exact hle,
    fun hm => ?_, ?_⟩
  · rw [read_run hF cone_good s _ _ hfit, cone_titles]
  · rw [hall hm]; simp
  · intro k row hrow
    rw [List.getElem?_map, Option.map_eq_some_iff] at hrow
    obtain ⟨q, hq, rfl⟩ := hrow
    obtain ⟨hk, rfl⟩ := hget k q hq
    obtain ⟨t, tn, h1, h2, h3⟩ := htg k (by omega)
    refine ⟨by omega, hlen k (by omega), t, tn, ?_, h2, fun hk0 a b d he => ?_⟩
    · rw [h1]
      exact cone_row hF (hlen k (by omega)) _ _ _
    · rw [ht] at he
      simp only [Except.ok.injEq, Prod.mk.injEq, List.cons.injEq, and_true] at he
      rw [(h3 hk0).1, (h3 hk0).2, he.2.1, he.2.2]
      exact ⟨rfl, rfl⟩

/-- **C80, antiferro case**: the same with the columns of the cone axis and the (constant) spiral vector. -/
theorem C80_antiferro_partial (hF : Reads F float) (E : EnergyObj ℝ) (muB : ℝ) (cell : ℕ → M3 ℝ) (rnd : Random)
    (q : Option (Param.ArrayLike ℝ)) (guess : Option (List (Option (Param.ArrayLike ℝ)))) (tol : Option (List ℝ))
    (maxIter : Option ℤ) (c : ℤ) (fuel : ℕ) (r : Outcome ConeX) (hr : rnd.Good E.spins.length)
    (hg : GoodConeGuess guess)
    (h : optimizeAntiferro E muB cell rnd q guess tol maxIter (some c) fuel = some (.ok r)) (s : Sink) :
    ConeTable F float E (antiferroProblem E muB cell) maxIter tol (startAntiferro E.spins.length rnd q guess) r s := by
  rw [optimizeAntiferro] at h
  cases hx : startAntiferro E.spins.length rnd q guess with
  | error e => rw [hx] at h; cases h
  | ok x =>
    rw [hx] at h
    simp only at h
    cases ht : tolerances 3 tol with
    | error e => rw [ht] at h; cases h
    | ok p =>
      rw [ht] at h
      exact cone_table hF E _ maxIter tol c fuel r s x p.1 p.2 (fun x p lam => rotateRows_length _ _ _ _) (fun x => rfl)
        (startAntiferro_unit hx hg hr).1 ht h

/-- **C80, spiral case**: the same with the columns of the cone axis and the spiral vector. -/
theorem C80_spiral_partial (hF : Reads F float) (E : EnergyObj ℝ) (muB : ℝ) (cell : ℕ → M3 ℝ) (rnd : Random)
    (guess : Option (List (Option (Param.ArrayLike ℝ)))) (tol : Option (List ℝ))
    (maxIter : Option ℤ) (c : ℤ) (fuel : ℕ) (r : Outcome ConeX) (hr : rnd.Good E.spins.length)
    (hg : GoodConeGuess guess)
    (h : optimizeSpiral E muB cell rnd guess tol maxIter (some c) fuel = some (.ok r)) (s : Sink) :
    ConeTable F float E (spiralProblem E muB cell) maxIter tol (startSpiral E.spins.length rnd guess) r s := by
  rw [optimizeSpiral] at h
  cases hx : startSpiral E.spins.length rnd guess with
  | error e => rw [hx] at h; cases h
  | ok x =>
    rw [hx] at h
    simp only at h
    cases ht : tolerances 3 tol with
    | error e => rw [ht] at h; cases h
    | ok p =>
      rw [ht] at h
      exact cone_table hF E _ maxIter tol c fuel r s x p.1 p.2 (fun x p lam => rotateRows_length _ _ _ _) (fun x => rfl)
        (startSpiral_unit hx hg hr).1 ht h

end Magnopy.History
