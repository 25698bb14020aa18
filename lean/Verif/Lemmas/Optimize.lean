import Verif.Lemmas.Cone
import Verif.Spec.Optimize
import Mathlib.Tactic.NormNum
import Mathlib.Tactic.FieldSimp
import Mathlib.Tactic.LinearCombination
import Mathlib.Tactic.Positivity

/-!
# Helper lemmas: minimisation
-/

set_option autoImplicit false

set_option linter.unusedSectionVars false

namespace Magnopy.Optimize

open EnergyObj Matrix

variable {X : Type}

theorem eps_pos : 0 < eps := by unfold eps; positivity

/-! ### One row -/

theorem rotateRow_small {a b c : ℝ} {v : V3 ℝ} (h : Real.sqrt (a ^ 2 + b ^ 2 + c ^ 2) < eps) :
    rotateRow a b c v = v := by
  simp only [rotateRow, h, if_true]

theorem rotateRow_big {a b c : ℝ} {v : V3 ℝ} (h : ¬ Real.sqrt (a ^ 2 + b ^ 2 + c ^ 2) < eps) :
    rotateRow a b c v =
      rotate ![-c / Real.sqrt (a ^ 2 + b ^ 2 + c ^ 2), b / Real.sqrt (a ^ 2 + b ^ 2 + c ^ 2),
        -a / Real.sqrt (a ^ 2 + b ^ 2 + c ^ 2)] (Real.sqrt (a ^ 2 + b ^ 2 + c ^ 2)) v := by
  simp only [rotateRow, h, if_false, rotate, dotProduct, Fin.sum_univ_three]

theorem axis_unit {a b c : ℝ} (h : ¬ Real.sqrt (a ^ 2 + b ^ 2 + c ^ 2) < eps) :
    IsUnit3 ![-c / Real.sqrt (a ^ 2 + b ^ 2 + c ^ 2), b / Real.sqrt (a ^ 2 + b ^ 2 + c ^ 2),
        -a / Real.sqrt (a ^ 2 + b ^ 2 + c ^ 2)] := by
  have hp : 0 < Real.sqrt (a ^ 2 + b ^ 2 + c ^ 2) := lt_of_lt_of_le eps_pos (not_lt.mp h)
  have h0 : 0 ≤ a ^ 2 + b ^ 2 + c ^ 2 := by positivity
  have hs := Real.sq_sqrt h0
  generalize Real.sqrt (a ^ 2 + b ^ 2 + c ^ 2) = t at *
  simp only [IsUnit3, dotProduct, Fin.sum_univ_three, Matrix.cons_val_zero, Matrix.cons_val_one, Matrix.cons_val_two,
    Matrix.head_cons, Matrix.tail_cons]
  field_simp
  linarith

theorem rotateRow_unit (a b c : ℝ) {v : V3 ℝ} (hv : IsUnit3 v) : IsUnit3 (rotateRow a b c v) := by
  by_cases h : Real.sqrt (a ^ 2 + b ^ 2 + c ^ 2) < eps
  · rwa [rotateRow_small h]
  · rw [rotateRow_big h]
    exact rotate_unit (axis_unit h) _ hv

/-- The row follows the torque `t` written as `(t_z, -t_y, t_x)`. -/
theorem rotateRow_torque (t v : V3 ℝ) {lam : ℝ} (hl : 0 < lam) (h : eps ≤ lam * norm3 t) :
    rotateRow (t 2 * lam) (-t 1 * lam) (t 0 * lam) v = rotate (-normalize t) (lam * norm3 t) v := by
  have e : Real.sqrt ((t 2 * lam) ^ 2 + (-t 1 * lam) ^ 2 + (t 0 * lam) ^ 2) = lam * norm3 t := by
    have : (t 2 * lam) ^ 2 + (-t 1 * lam) ^ 2 + (t 0 * lam) ^ 2 = lam ^ 2 * (t 0 ^ 2 + t 1 ^ 2 + t 2 ^ 2) := by ring
    rw [this, Real.sqrt_mul (by positivity), Real.sqrt_sq hl.le, norm3]
  rw [rotateRow_big (by rw [e]; exact not_lt.mpr h), e]
  congr 1
  have hn : norm3 t ≠ 0 := by
    intro h0; rw [h0, mul_zero] at h; exact absurd eps_pos (not_lt.mpr h)
  ext i
  fin_cases i <;> simp [EnergyObj.normalize] <;> field_simp

theorem rotateRow_torque_small (t v : V3 ℝ) {lam : ℝ} (hl : 0 < lam) (h : lam * norm3 t < eps) :
    rotateRow (t 2 * lam) (-t 1 * lam) (t 0 * lam) v = v := by
  have e : Real.sqrt ((t 2 * lam) ^ 2 + (-t 1 * lam) ^ 2 + (t 0 * lam) ^ 2) = lam * norm3 t := by
    have : (t 2 * lam) ^ 2 + (-t 1 * lam) ^ 2 + (t 0 * lam) ^ 2 = lam ^ 2 * (t 0 ^ 2 + t 1 ^ 2 + t 2 ^ 2) := by ring
    rw [this, Real.sqrt_mul (by positivity), Real.sqrt_sq hl.le, norm3]
  exact rotateRow_small (by rw [e]; exact h)

theorem rotateRows_length (count : ℕ) (p : Arr) (lam : ℝ) (x : List (V3 ℝ)) :
    (rotateRows count p lam x).length = x.length := by
  simp [rotateRows]

theorem rotateRows_unit (count : ℕ) (p : Arr) (lam : ℝ) {x : List (V3 ℝ)} (h : AllUnit x) :
    AllUnit (rotateRows count p lam x) := by
  intro v hv
  rw [rotateRows, List.mem_mapIdx] at hv
  obtain ⟨i, hi, rfl⟩ := hv
  split
  · exact rotateRow_unit _ _ _ (h _ (List.getElem_mem hi))
  · exact h _ (List.getElem_mem hi)

theorem rotateRows_getElem (count : ℕ) (p : Arr) (lam : ℝ) (x : List (V3 ℝ)) (i : ℕ) (hi : i < x.length) :
    (rotateRows count p lam x)[i]'(by simpa [rotateRows_length] using hi) =
      if i < count then rotateRow (p (3 * i) * lam) (p (3 * i + 1) * lam) (p (3 * i + 2) * lam) x[i] else x[i] := by
  simp [rotateRows]

/-! ### The vector of the torques -/

theorem packTorques_at (ts : List (V3 ℝ)) (i : ℕ) :
    packTorques ts (3 * i) = ts.getD i 0 2 ∧ packTorques ts (3 * i + 1) = -ts.getD i 0 1 ∧
      packTorques ts (3 * i + 2) = ts.getD i 0 0 := by
  have e0 : 3 * i / 3 = i := by omega
  have e1 : (3 * i + 1) / 3 = i := by omega
  have e2 : (3 * i + 2) / 3 = i := by omega
  have m0 : 3 * i % 3 = 0 := by omega
  have m1 : (3 * i + 1) % 3 = 1 := by omega
  have m2 : (3 * i + 2) % 3 = 2 := by omega
  simp [packTorques, e0, e1, e2, m1, m2]

theorem rowTorques_length (F : List (V3 ℝ) → ℝ) (x : List (V3 ℝ)) : (rowTorques F x).length = x.length := by
  simp [rowTorques]

theorem rowTorques_getD (F : List (V3 ℝ) → ℝ) (x : List (V3 ℝ)) {i : ℕ} (hi : i < x.length) :
    (rowTorques F x).getD i 0 = rowTorque F x i := by
  simp [rowTorques, List.getD, hi]

/-! ### The line search -/

theorem lineLoop_spec (P : Problem X) (c1 c2 : ℝ) (x : X) (p : Arr) (left : ℕ) :
    ∀ step : ℝ, (∃ n ≤ left, lineLoop P c1 c2 x p left step = .ok (step * (99 / 100) ^ n) ∧
        Accepts P c1 c2 x p (step * (99 / 100) ^ n) ∧ ∀ j < n, ¬ Accepts P c1 c2 x p (step * (99 / 100) ^ j)) ∨
      (lineLoop P c1 c2 x p left step = .error .valueError ∧
        ∀ j ≤ left, ¬ Accepts P c1 c2 x p (step * (99 / 100) ^ j)) := by
  induction left with
  | zero =>
    intro step
    by_cases h : Accepts P c1 c2 x p step
    · left
      exact ⟨0, le_refl _, by simp [lineLoop, h], by simpa using h, by simp⟩
    · right
      exact ⟨by simp [lineLoop, h], fun j hj => by
        obtain rfl : j = 0 := by omega
        simpa using h⟩
  | succ left ih =>
    intro step
    by_cases h : Accepts P c1 c2 x p step
    · left
      exact ⟨0, Nat.zero_le _, by simp [lineLoop, h], by simpa using h, by simp⟩
    · have e : lineLoop P c1 c2 x p (left + 1) step = lineLoop P c1 c2 x p left (step * (99 / 100)) := by
        simp [lineLoop, h]
      have pw : ∀ n : ℕ, step * (99 / 100) * (99 / 100) ^ n = step * (99 / 100 : ℝ) ^ (n + 1) := by
        intro n; ring
      rcases ih (step * (99 / 100)) with ⟨n, hn, hr, ha, hb⟩ | ⟨hr, hb⟩
      · left
        refine ⟨n + 1, by omega, by rw [e, hr, pw], by rw [← pw]; exact ha, ?_⟩
        intro j hj
        cases j with
        | zero => simpa using h
        | succ j => rw [← pw]; exact hb j (by omega)
      · right
        refine ⟨by rw [e, hr], ?_⟩
        intro j hj
        cases j with
        | zero => simpa using h
        | succ j => rw [← pw]; exact hb j (by omega)

theorem lineSearch_ok {P : Problem X} {c1 c2 : ℝ} {N : ℕ} {x : X} {p : Arr} {lam : ℝ}
    (h : lineSearch P c1 c2 N x p = .ok lam) : 0 < lam ∧ lam ≤ 1 ∧ Accepts P c1 c2 x p lam := by
  rcases lineLoop_spec P c1 c2 x p (N + 1) 1 with ⟨n, _, hr, ha, _⟩ | ⟨hr, _⟩
  · rw [lineSearch, hr] at h
    cases h
    refine ⟨by positivity, ?_, ha⟩
    rw [one_mul]
    exact pow_le_one₀ (by norm_num) (by norm_num)
  · rw [lineSearch, hr] at h
    cases h

/-! ### One turn of the loop -/

/-- What one turn does. -/
structure Turn (P : Problem X) (E : EnergyObj ℝ) (o : Options) (s s' : OptState X) (k : ℕ) (p : Arr) (mem : Mem)
    (lam : ℝ) : Prop where
  /-- the search direction -/
  dir : searchDirection E.m.toNat P.size s.mem s.k (P.grad s.x).1 s.prev = .ok (k, p, mem)
  /-- the step -/
  line : lineSearch P E.wolfeC1 E.wolfeC2 E.wolfeIterMax s.x p = .ok lam
  x : s'.x = P.update s.x p lam
  k : s'.k = k + 1
  mem : s'.mem = mem
  counter : s'.counter = s.counter + 1
  prev : s'.prev = some (lam, (P.grad s.x).1, p)
  energyPrev : s'.energyPrev = P.energy s'.x
  energyDiff : s'.energyDiff = |s.energyPrev - P.energy s'.x|
  targets : P.target (P.grad s.x).2 = .ok s'.targets
  /-- the history -/
  history : (o.history = none ∧ s'.pending = s.pending ∧ s'.written = s.written) ∨
    ∃ h, o.history = some h ∧ h ≠ 0 ∧
      ((((s.counter + 1 : ℕ) : ℤ) % h = 0 ∧ s'.pending = [] ∧
          s'.written = s.written ++ [s.pending ++ [(P.energy s'.x, s'.targets, s'.x)]]) ∨
        (((s.counter + 1 : ℕ) : ℤ) % h ≠ 0 ∧ s'.pending = s.pending ++ [(P.energy s'.x, s'.targets, s'.x)] ∧
          s'.written = s.written))

theorem iterate_spec {P : Problem X} {E : EnergyObj ℝ} {o : Options} {s s' : OptState X}
    (h : iterate P E o s = .ok s') : ∃ k p mem lam, Turn P E o s s' k p mem lam := by
  simp only [iterate] at h
  cases hd : searchDirection E.m.toNat P.size s.mem s.k (P.grad s.x).1 s.prev with
  | error e => rw [hd] at h; cases h
  | ok r =>
    obtain ⟨k, p, mem⟩ := r
    rw [hd] at h
    simp only at h
    cases hl : lineSearch P E.wolfeC1 E.wolfeC2 E.wolfeIterMax s.x p with
    | error e => rw [hl] at h; cases h
    | ok lam =>
      rw [hl] at h
      simp only at h
      cases ht : P.target (P.grad s.x).2 with
      | error e => rw [ht] at h; cases h
      | ok ts =>
        rw [ht] at h
        simp only at h
        refine ⟨k, p, mem, lam, ?_⟩
        cases hh : o.history with
        | none =>
          rw [hh] at h
          cases h
          exact ⟨hd, hl, rfl, rfl, rfl, rfl, rfl, rfl, rfl, ht, .inl ⟨hh, rfl, rfl⟩⟩
        | some c =>
          rw [hh] at h
          simp only at h
          by_cases hc : c = 0
          · simp [hc] at h
          · simp only [hc, if_false] at h
            by_cases hm : ((s.counter + 1 : ℕ) : ℤ) % c = 0
            · simp only [hm, if_true] at h
              cases h
              exact ⟨hd, hl, rfl, rfl, rfl, rfl, rfl, rfl, rfl, ht, .inr ⟨c, hh, hc, .inl ⟨hm, rfl, rfl⟩⟩⟩
            · simp only [hm, if_false] at h
              cases h
              exact ⟨hd, hl, rfl, rfl, rfl, rfl, rfl, rfl, rfl, ht, .inr ⟨c, hh, hc, .inr ⟨hm, rfl, rfl⟩⟩⟩

/-- What the history processor got when the loop ended by itself. -/
def flushed (o : Options) (s : OptState X) : List (List (Record X)) :=
  match o.history with
  | none => s.written
  | some _ => s.written ++ [s.pending]

/-- A finished run is a sequence of turns. -/
theorem optLoop_spec {P : Problem X} {E : EnergyObj ℝ} {o : Options} {r : Outcome X} (fuel : ℕ) :
    ∀ {s : OptState X}, optLoop P E o fuel s = some (.ok r) →
      ∃ (n : ℕ) (S : ℕ → OptState X), S 0 = s ∧
        (∀ i < n, Running o (S i) ∧ ¬ AtLimit o (S i) ∧ iterate P E o (S i) = .ok (S (i + 1))) ∧ r.x = (S n).x ∧
        ((Running o (S n) ∧ AtLimit o (S n) ∧ r.written = (S n).written) ∨
          (¬ Running o (S n) ∧ r.written = flushed o (S n))) := by
  induction fuel with
  | zero => intro s h; cases h
  | succ fuel ih =>
    intro s h
    rw [optLoop] at h
    by_cases hr : Running o s
    · simp only [hr, if_true] at h
      by_cases hl : AtLimit o s
      · simp only [hl, if_true] at h
        cases h
        exact ⟨0, fun _ => s, rfl, by simp, rfl, .inl ⟨hr, hl, rfl⟩⟩
      · simp only [hl, if_false] at h
        cases hi : iterate P E o s with
        | error e => rw [hi] at h; cases h
        | ok s' =>
          rw [hi] at h
          obtain ⟨n, S, h0, hS, hx, he⟩ := ih h
          refine ⟨n + 1, fun i => if i = 0 then s else S (i - 1), by simp, ?_, by simpa using hx, by simpa using he⟩
          intro i hi'
          cases i with
          | zero =>
            simp only [if_true, Nat.zero_add, Nat.one_ne_zero, if_false, Nat.sub_self, h0]
            exact ⟨hr, hl, hi⟩
          | succ i =>
            simp only [Nat.succ_ne_zero, if_false, Nat.add_sub_cancel]
            exact hS i (by omega)
    · simp only [hr, if_false] at h
      cases h
      refine ⟨0, fun _ => s, rfl, by simp, rfl, .inr ⟨hr, ?_⟩⟩
      simp only [flushed]
      cases o.history <;> rfl

/-- A sequence of turns from the initial state. -/
structure Turns (P : Problem X) (E : EnergyObj ℝ) (o : Options) (x : X) (S : ℕ → OptState X) (n : ℕ) : Prop where
  zero : S 0 = initial P o x
  turn : ∀ i < n, iterate P E o (S i) = .ok (S (i + 1))

namespace Turns

variable {P : Problem X} {E : EnergyObj ℝ} {o : Options} {x : X} {S : ℕ → OptState X} {n : ℕ}

theorem counter (h : Turns P E o x S n) : ∀ i ≤ n, (S i).counter = i := by
  intro i
  induction i with
  | zero => intro _; rw [h.zero]; rfl
  | succ i ih =>
    intro hi
    obtain ⟨k, p, mem, lam, t⟩ := iterate_spec (h.turn i hi)
    rw [t.counter, ih (by omega)]

theorem energyPrev (h : Turns P E o x S n) : ∀ i ≤ n, (S i).energyPrev = P.energy (S i).x := by
  intro i
  cases i with
  | zero => intro _; rw [h.zero]; rfl
  | succ i =>
    intro hi
    obtain ⟨k, p, mem, lam, t⟩ := iterate_spec (h.turn i hi)
    exact t.energyPrev

theorem trajectory (h : Turns P E o x S n) : Trajectory P E.wolfeC1 E.wolfeC2 (fun i => (S i).x) n := by
  intro i hi
  obtain ⟨k, p, mem, lam, t⟩ := iterate_spec (h.turn i hi)
  obtain ⟨h0, h1, ha⟩ := lineSearch_ok t.line
  exact ⟨p, lam, h0, h1, ha, t.x⟩

theorem records (h : Turns P E o x S n) {c : ℤ} (hc : o.history = some c) : ∀ i ≤ n,
    ((S i).written.flatten ++ (S i).pending).map (fun r => (r.1, r.2.2)) =
      (List.range (i + 1)).map fun j => (P.energy (S j).x, (S j).x) := by
  intro i
  induction i with
  | zero => intro _; simp [h.zero, initial]
  | succ i ih =>
    intro hi
    obtain ⟨k, p, mem, lam, t⟩ := iterate_spec (h.turn i hi)
    rw [List.range_succ, List.map_append (l₁ := List.range (i + 1)), ← ih (by omega)]
    rcases t.history with ⟨h0, _⟩ | ⟨c', _, _, ⟨_, hp, hw⟩ | ⟨_, hp, hw⟩⟩
    · rw [hc] at h0; cases h0
    · rw [hp, hw]; simp
    · rw [hp, hw]; simp

theorem pending_length (h : Turns P E o x S n) {c : ℤ} (hc : o.history = some c) : ∀ i ≤ n,
    (S i).pending.length = if i = 0 ∨ i < c.natAbs then i + 1 else i % c.natAbs := by
  intro i
  induction i with
  | zero => intro _; rw [h.zero]; simp [initial]
  | succ i ih =>
    intro hi
    obtain ⟨k, p, mem, lam, t⟩ := iterate_spec (h.turn i hi)
    have hcnt := h.counter i (by omega)
    have ih := ih (by omega)
    rcases t.history with ⟨h0, _⟩ | ⟨c', h1, h2, ht⟩
    · rw [hc] at h0; cases h0
    · obtain rfl : c = c' := by rw [hc] at h1; exact Option.some.inj h1
      have hpos : 0 < c.natAbs := Int.natAbs_pos.mpr h2
      have hdvd : (((i + 1 : ℕ) : ℤ) % c = 0) ↔ (i + 1) % c.natAbs = 0 := by
        rw [← Int.dvd_iff_emod_eq_zero, ← Nat.dvd_iff_mod_eq_zero, ← Int.natAbs_dvd_natAbs, Int.natAbs_natCast]
      rw [hcnt] at ht
      simp only [ne_eq, hdvd] at ht
      generalize c.natAbs = H at *
      rcases ht with ⟨hd, hp, _⟩ | ⟨hd, hp, _⟩
      · rw [hp]
        by_cases hlt : i + 1 < H
        · rw [Nat.mod_eq_of_lt hlt] at hd; omega
        · simp [hlt, hd]
      · rw [hp, List.length_append, ih]
        by_cases hlt : i + 1 < H
        · have : i < H := by omega
          simp [hlt, this]
        · have hH1 : H ≠ 1 := by rintro rfl; simp [Nat.mod_one] at hd
          by_cases hi0 : i = 0
          · subst hi0; omega
          · have hne : ¬ i < H := by
              intro hl
              have : i + 1 = H := by omega
              rw [this, Nat.mod_self] at hd
              exact hd rfl
            simp only [hi0, hne, or_self, if_false, Nat.succ_ne_zero, hlt, List.length_singleton]
            rw [Nat.add_mod i 1 H, Nat.mod_eq_of_lt (show 1 < H by omega)]
            have hm : i % H < H := Nat.mod_lt _ hpos
            by_cases he : i % H + 1 = H
            · exfalso; apply hd
              rw [Nat.add_mod, Nat.mod_eq_of_lt (show 1 < H by omega), he, Nat.mod_self]
            · rw [Nat.mod_eq_of_lt (show i % H + 1 < H by omega)]

end Turns

theorem run_spec {P : Problem X} {E : EnergyObj ℝ} {o : Options} {r : Outcome X} {fuel : ℕ} {x : X}
    (h : run P E o fuel x = some (.ok r)) :
    ∃ (n : ℕ) (S : ℕ → OptState X), Turns P E o x S n ∧ (∀ i < n, Running o (S i) ∧ ¬ AtLimit o (S i)) ∧
      r.x = (S n).x ∧
      ((Running o (S n) ∧ AtLimit o (S n) ∧ r.written = (S n).written) ∨
        (¬ Running o (S n) ∧ r.written = flushed o (S n))) := by
  unfold run at h
  split at h
  · cases h
  · obtain ⟨n, S, h0, hS, hx, he⟩ := optLoop_spec fuel h
    exact ⟨n, S, ⟨h0, fun i hi => (hS i hi).2.2⟩, fun i hi => ⟨(hS i hi).1, (hS i hi).2.1⟩, hx, he⟩

end Magnopy.Optimize
