import Verif.Lemmas.Optimize

/-!
# Helper lemmas: starting points of the minimisation
-/

set_option autoImplicit false

set_option linter.unusedSectionVars false

namespace Magnopy

open EnergyObj Matrix Optimize

theorem normalizeRows_unit {l : List (V3 ℝ)} (h : ∀ v ∈ l, v ≠ 0) : AllUnit (normalizeRows l) := by
  intro v hv
  obtain ⟨w, hw, rfl⟩ := List.mem_map.mp hv
  exact normalize_unit (h w hw)

theorem row_ne_zero {r : List ℝ} {v : V3 ℝ} (h : EnergyObj.row r = .ok v) (hr : ∃ x ∈ r, x ≠ 0) : v ≠ 0 := by
  unfold EnergyObj.row at h
  split at h
  · cases h
    rintro e
    obtain ⟨x, hx, h0⟩ := hr
    rename_i a b c
    have e0 := congrFun e 0
    have e1 := congrFun e 1
    have e2 := congrFun e 2
    simp at e0 e1 e2
    simp [e0, e1, e2] at hx
    exact h0 hx
  · cases h

theorem rows_ne_zero {rs : List (List ℝ)} : ∀ {l : List (V3 ℝ)}, rows rs = .ok l → (∀ r ∈ rs, ∃ x ∈ r, x ≠ 0) →
    ∀ v ∈ l, v ≠ 0 := by
  induction rs with
  | nil => intro l h _ v hv; cases h; cases hv
  | cons r rs ih =>
    intro l h hr v hv
    rw [rows] at h
    cases h1 : EnergyObj.row r with
    | error e => rw [h1] at h; cases h
    | ok w =>
      rw [h1] at h
      cases h2 : rows rs with
      | error e => rw [h2] at h; cases h
      | ok vs =>
        rw [h2] at h
        cases h
        rcases List.mem_cons.mp hv with rfl | hv
        · exact row_ne_zero h1 (hr r (by simp))
        · exact ih h2 (fun r' h' => hr r' (by simp [h'])) v hv

theorem orientations_good {n : ℕ} {a : Param.ArrayLike ℝ} {l : List (V3 ℝ)} (h : orientations n a = .ok l)
    (hg : GoodGuess (some a)) : l.length = n ∧ ∀ v ∈ l, v ≠ 0 := by
  unfold orientations at h
  split at h
  · cases h
  · split at h
    · rename_i a b c hn
      cases h
      refine ⟨by simp [hn], ?_⟩
      intro v hv
      simp at hv
      subst hv
      exact row_ne_zero (r := [a, b, c]) rfl hg
    · cases h
  · cases h
  · split at h
    · cases h
    · rename_i rs _
      cases h1 : rows rs with
      | error e => rw [h1] at h; cases h
      | ok vs =>
        rw [h1] at h
        simp only at h
        split at h
        · rename_i hlen
          cases h
          exact ⟨hlen, rows_ne_zero h1 hg⟩
        · cases h
  · cases h

theorem startFerro_unit {n : ℕ} {random : List (V3 ℝ)} {guess : Option (Param.ArrayLike ℝ)} {x : List (V3 ℝ)}
    (h : startFerro n random guess = .ok x) (hg : GoodGuess guess) (hl : random.length = n)
    (hr : ∀ v ∈ random, v ≠ 0) : x.length = n ∧ AllUnit x := by
  have key : ∀ a, GoodGuess (some a) →
      (match orientations n a with | .error e => Except.error e | .ok l => .ok (normalizeRows l)) = Except.ok x →
      x.length = n ∧ AllUnit x := by
    intro a ha h
    cases ho : orientations n a with
    | error e => rw [ho] at h; cases h
    | ok l =>
      rw [ho] at h
      cases h
      obtain ⟨h1, h2⟩ := orientations_good ho ha
      exact ⟨by simp [normalizeRows, h1], normalizeRows_unit h2⟩
  unfold startFerro at h
  split at h
  · cases h
    exact ⟨by simp [normalizeRows, hl], normalizeRows_unit hr⟩
  · cases h
  · split at h
    · cases h
    · exact key _ hg h
  · exact key _ hg h

theorem toV3_ne_zero {a : Param.ArrayLike ℝ} {v : V3 ℝ} (h : a.toV3 = .ok v) (hg : GoodGuess (some a)) : v ≠ 0 := by
  unfold Param.ArrayLike.toV3 at h
  split at h
  · rename_i x y z
    cases h
    exact row_ne_zero (r := [x, y, z]) rfl hg
  · cases h

theorem startCone_unit {random : V3 ℝ} {guess : Option (Param.ArrayLike ℝ)} {c : V3 ℝ}
    (h : startCone random guess = .ok c) (hg : GoodGuess guess) (hr : random ≠ 0) : IsUnit3 c := by
  unfold startCone at h
  split at h
  · cases h
    exact normalize_unit hr
  · rename_i a
    cases ht : a.toV3 with
    | error e => rw [ht] at h; cases h
    | ok v =>
      rw [ht] at h
      cases h
      exact normalize_unit (toV3_ne_zero ht hg)

/-- Guesses for the antiferro and spiral cases without zero vectors among the spins and the cone axis. -/
def GoodConeGuess : Option (List (Option (Param.ArrayLike ℝ))) → Prop
  | some (a :: b :: _) => GoodGuess a ∧ GoodGuess b
  | _ => True

theorem allUnit_append {l : List (V3 ℝ)} {c : V3 ℝ} (h : AllUnit l) (hc : IsUnit3 c) : AllUnit (l ++ [c]) := by
  intro v hv
  rcases List.mem_append.mp hv with hv | hv
  · exact h v hv
  · simp at hv; subst hv; exact hc

theorem startAntiferro_go_unit {n : ℕ} {rnd : Random} {q : Option (Param.ArrayLike ℝ)}
    {a b : Option (Param.ArrayLike ℝ)} {x : ConeX} (h : startAntiferro.go n rnd q a b = .ok x) (ha : GoodGuess a)
    (hb : GoodGuess b) (hr : rnd.Good n) : x.1.length = n + 1 ∧ AllUnit x.1 := by
  unfold startAntiferro.go at h
  cases h1 : startFerro n rnd.spins a with
  | error e => rw [h1] at h; cases h
  | ok l =>
    rw [h1] at h
    simp only at h
    cases h2 : startCone rnd.cone b with
    | error e => rw [h2] at h; cases h
    | ok c =>
      rw [h2] at h
      simp only at h
      obtain ⟨hl, hu⟩ := startFerro_unit h1 ha hr.length hr.spins
      have hc := startCone_unit h2 hb hr.cone
      cases q with
      | none => cases h
      | some q =>
        simp only at h
        cases h3 : q.toV3 with
        | error e => rw [h3] at h; cases h
        | ok q =>
          rw [h3] at h
          cases h
          exact ⟨by simp [hl], allUnit_append hu hc⟩

theorem startAntiferro_unit {n : ℕ} {rnd : Random} {q : Option (Param.ArrayLike ℝ)}
    {guess : Option (List (Option (Param.ArrayLike ℝ)))} {x : ConeX} (h : startAntiferro n rnd q guess = .ok x)
    (hg : GoodConeGuess guess) (hr : rnd.Good n) : x.1.length = n + 1 ∧ AllUnit x.1 := by
  unfold startAntiferro at h
  split at h
  · exact startAntiferro_go_unit h trivial trivial hr
  · exact startAntiferro_go_unit h hg.1 hg.2 hr
  · cases h

theorem startSpiral_go_unit {n : ℕ} {rnd : Random} {a b c : Option (Param.ArrayLike ℝ)} {x : ConeX}
    (h : startSpiral.go n rnd a b c = .ok x) (ha : GoodGuess a) (hb : GoodGuess b) (hr : rnd.Good n) :
    x.1.length = n + 1 ∧ AllUnit x.1 := by
  unfold startSpiral.go at h
  cases h1 : startFerro n rnd.spins a with
  | error e => rw [h1] at h; cases h
  | ok l =>
    rw [h1] at h
    simp only at h
    cases h2 : startCone rnd.cone b with
    | error e => rw [h2] at h; cases h
    | ok m =>
      rw [h2] at h
      simp only at h
      obtain ⟨hl, hu⟩ := startFerro_unit h1 ha hr.length hr.spins
      have hc := startCone_unit h2 hb hr.cone
      cases h3 : startQ rnd.q c with
      | error e => rw [h3] at h; cases h
      | ok q =>
        rw [h3] at h
        cases h
        exact ⟨by simp [hl], allUnit_append hu hc⟩

theorem startSpiral_unit {n : ℕ} {rnd : Random} {guess : Option (List (Option (Param.ArrayLike ℝ)))} {x : ConeX}
    (h : startSpiral n rnd guess = .ok x) (hg : GoodConeGuess guess) (hr : rnd.Good n) :
    x.1.length = n + 1 ∧ AllUnit x.1 := by
  unfold startSpiral at h
  split at h
  · exact startSpiral_go_unit h trivial trivial hr
  · exact startSpiral_go_unit h hg.1 hg.2 hr
  · cases h

end Magnopy
