import Verif.Spec.Ground
import Verif.Lemmas.Axes

/-!
# Property C78: spiral vector and cone axis are the last accepted values
-/

set_option autoImplicit false
set_option linter.unusedSectionVars false

namespace Magnopy
namespace Ground

open Matrix

theorem toV3_iff (x : Param.ArrayLike ℝ) (v : V3 ℝ) : x.toV3 = .ok v ↔ IsVector x v := by
  unfold IsVector Param.ArrayLike.toV3
  constructor
  · intro h
    split at h
    · simp only [Except.ok.injEq] at h
      subst h
      rfl
    · simp at h
  · rintro rfl
    simp only [Except.ok.injEq]
    funext i
    fin_cases i <;> rfl

theorem toV3_error (x : Param.ArrayLike ℝ) : (∃ v, IsVector x v ∧ x.toV3 = .ok v) ∨ (∀ v, ¬ IsVector x v) ∧ x.toV3 = .error .valueError := by
  cases h : x.toV3 with
  | ok v => exact Or.inl ⟨v, (toV3_iff x v).1 h, rfl⟩
  | error e =>
    refine Or.inr ⟨fun v hv => ?_, ?_⟩
    · rw [(toV3_iff x v).2 hv] at h; simp at h
    · unfold Param.ArrayLike.toV3 at h
      split at h
      · simp at h
      · exact h.symm

theorem IsVector.unique {x : Param.ArrayLike ℝ} {v w : V3 ℝ} (hv : IsVector x v) (hw : IsVector x w) : v = w := by
  have := (toV3_iff x v).2 hv
  rw [(toV3_iff x w).2 hw] at this
  exact (Except.ok.inj this).symm

/-- Assigning an axis. -/
theorem setCone_cases (x : Param.ArrayLike ℝ) (g : Gs) :
    (∃ v, IsAxis x v ∧ setCone x g =
      .ok { g with arrays := put g.arrays g.next (EnergyObj.normalize v), next := g.next + 1, cone := some g.next }) ∨ (∀ v, ¬ IsAxis x v) ∧ setCone x g = .raise g .valueError := by
  unfold setCone
  rcases toV3_error x with ⟨v, h1, h2⟩ | ⟨h1, h2⟩
  · rw [h2]
    simp only
    split_ifs with h3
    · refine Or.inr ⟨fun w hw => ?_, rfl⟩
      obtain ⟨i, hi⟩ := hw.2
      rw [hw.1.unique h1] at hi
      exact absurd (h3 i) (not_le.2 hi)
    · simp only [not_forall, not_le] at h3
      exact Or.inl ⟨v, ⟨h1, h3⟩, rfl⟩
  · rw [h2]
    exact Or.inr ⟨fun v hv => h1 v hv.1, rfl⟩

/-- Assigning a spiral vector. -/
theorem setSpiral_cases (x : Param.ArrayLike ℝ) (g : Gs) :
    (∃ v, IsVector x v ∧ setSpiral x g = .ok { g with arrays := put g.arrays g.next v, next := g.next + 1, spiral := some g.next }) ∨
      (∀ v, ¬ IsVector x v) ∧ setSpiral x g = .raise g .valueError := by
  unfold setSpiral
  rcases toV3_error x with ⟨v, h1, h2⟩ | ⟨h1, h2⟩
  · rw [h2]; exact Or.inl ⟨v, h1, rfl⟩
  · rw [h2]; exact Or.inr ⟨h1, rfl⟩

theorem run_append (ops : List Op) (op : Op) (g : Gs) : run (ops ++ [op]) g = (step (run ops g) op).st := by
  simp [run]

/-- The references of a state are different arrays that exist. -/
structure Ok (g : Gs) : Prop where
  spiral : ∀ r, g.spiral = some r → r < g.next
  cone : ∀ r, g.cone = some r → r < g.next
  ne : ∀ r, g.spiral = some r → g.cone ≠ some r

theorem ok_run (ops : List Op) : Ok (run ops new) := by
  induction ops using List.reverseRecOn with
  | nil => exact ⟨fun r h => by simp [run, new] at h, fun r h => by simp [run, new] at h, fun r h => by simp [run, new] at h⟩
  | append_singleton ops op ih =>
    rw [run_append]
    generalize run ops new = g at ih
    cases op with
    | spiral x =>
      rcases setSpiral_cases x g with ⟨v, _, h⟩ | ⟨_, h⟩ <;> simp only [step, h, Res.ok, Res.raise]
      · refine ⟨fun r hr => ?_, fun r hr => (ih.cone r hr).trans (Nat.lt_succ_self _), fun r hr hc => ?_⟩
        · simp only [Option.some.injEq] at hr; simp only [← hr]; exact Nat.lt_succ_self _
        · simp only [Option.some.injEq] at hr; exact absurd (ih.cone r hc) (by omega)
      · exact ih
    | cone x =>
      rcases setCone_cases x g with ⟨v, _, h⟩ | ⟨_, h⟩ <;> simp only [step, h, Res.ok, Res.raise]
      · refine ⟨fun r hr => (ih.spiral r hr).trans (Nat.lt_succ_self _), fun r hr => ?_, fun r hr hc => ?_⟩
        · simp only [Option.some.injEq] at hr; simp only [← hr]; exact Nat.lt_succ_self _
        · simp only [Option.some.injEq] at hc; exact absurd (ih.spiral r hr) (by omega)
      · exact ih
    | write r i x => exact ⟨ih.spiral, ih.cone, ih.ne⟩

/-- The last value after one more step, for any kind of assignment. -/
theorem last_append {kind : Param.ArrayLike ℝ → Op} {P : Param.ArrayLike ℝ → V3 ℝ → Prop} (ops : List Op) (op : Op) (v : V3 ℝ) :
    (∃ x before after, ops ++ [op] = before ++ kind x :: after ∧ P x v ∧ ∀ y w, kind y ∈ after → ¬ P y w) ↔
      (∃ x, op = kind x ∧ P x v) ∨ ((∃ x before after, ops = before ++ kind x :: after ∧ P x v ∧ ∀ y w, kind y ∈ after → ¬ P y w) ∧
        ∀ y w, op = kind y → ¬ P y w) := by
  constructor
  · rintro ⟨x, before, after, h1, h2, h3⟩
    rcases List.eq_nil_or_concat after with rfl | ⟨after', op', rfl⟩
    · have : ops = before ∧ op = kind x := by
        have := List.append_inj' h1 rfl
        exact ⟨this.1, by simpa using this.2⟩
      exact Or.inl ⟨x, this.2, h2⟩
    · have : ops = before ++ kind x :: after' ∧ op = op' := by
        rw [List.concat_eq_append, ← List.cons_append, ← List.append_assoc] at h1
        have := List.append_inj' h1 rfl
        exact ⟨this.1, by simpa using this.2⟩
      refine Or.inr ⟨⟨x, before, after', this.1, h2, fun y w hy => h3 y w (by simp [hy])⟩, fun y w hy => h3 y w ?_⟩
      rw [← hy, this.2]
      simp
  · rintro (⟨x, rfl, h⟩ | ⟨⟨x, before, after, rfl, h2, h3⟩, h4⟩)
    · exact ⟨x, ops, [], rfl, h, by simp⟩
    · refine ⟨x, before, after ++ [op], by simp, h2, fun y w hy => ?_⟩
      rcases List.mem_append.1 hy with h | h
      · exact h3 y w h
      · exact h4 y w (List.mem_singleton.1 h).symm

theorem normalize_directs {v : V3 ℝ} (h : ∃ i, 1 / 10 ^ 8 < |v i|) : Directs (EnergyObj.normalize v) v := by
  have hv : v ≠ 0 := by
    rintro rfl
    obtain ⟨i, hi⟩ := h
    rw [Pi.zero_apply, abs_zero] at hi
    norm_num at hi
  have hp : 0 < EnergyObj.norm3 v := norm3_pos hv
  refine ⟨normalize_unit hv, _, hp, ?_⟩
  rw [normalize_eq, smul_smul, mul_inv_cancel₀ hp.ne', one_smul]

/-- **C78, exceptions.** An assignment raises `ValueError` exactly for values that are no three numbers or, for the cone axis, no
component of which exceeds 1e-8; then nothing changes. -/
theorem C78_errors (x : Param.ArrayLike ℝ) (g : Gs) :
    ((setSpiral x g).err = none ↔ ∃ v, IsVector x v) ∧ ((setCone x g).err = none ↔ ∃ v, IsAxis x v) ∧
      (∀ e, (setSpiral x g).err = some e → e = .valueError ∧ (setSpiral x g).st = g) ∧
      ∀ e, (setCone x g).err = some e → e = .valueError ∧ (setCone x g).st = g := by
  refine ⟨?_, ?_, ?_, ?_⟩
  · rcases setSpiral_cases x g with ⟨v, hv, h⟩ | ⟨hv, h⟩ <;> rw [h]
    · exact ⟨fun _ => ⟨v, hv⟩, fun _ => rfl⟩
    · exact ⟨fun h => by simp [Res.raise] at h, fun ⟨v, h⟩ => absurd h (hv v)⟩
  · rcases setCone_cases x g with ⟨v, hv, h⟩ | ⟨hv, h⟩ <;> rw [h]
    · exact ⟨fun _ => ⟨v, hv⟩, fun _ => rfl⟩
    · exact ⟨fun h => by simp [Res.raise] at h, fun ⟨v, h⟩ => absurd h (hv v)⟩
  · rcases setSpiral_cases x g with ⟨v, hv, h⟩ | ⟨hv, h⟩ <;> rw [h] <;> intro e he
    · simp [Res.ok] at he
    · simp only [Res.raise, Option.some.injEq] at he; exact ⟨he.symm, rfl⟩
  · rcases setCone_cases x g with ⟨v, hv, h⟩ | ⟨hv, h⟩ <;> rw [h] <;> intro e he
    · simp [Res.ok] at he
    · simp only [Res.raise, Option.some.injEq] at he; exact ⟨he.symm, rfl⟩

theorem KeepsAxis.prefix {ops : List Op} {op : Op} (h : KeepsAxis (ops ++ [op])) : KeepsAxis ops := by
  rintro before r i x after rfl
  exact h before r i x (after ++ [op]) (by simp)

theorem KeepsSpiral.prefix {ops : List Op} {op : Op} (h : KeepsSpiral (ops ++ [op])) : KeepsSpiral ops := by
  rintro before r i x after rfl
  exact h before r i x (after ++ [op]) (by simp)

/-- **C78, cone axis.** After any history of assignments, also failing ones, and of writes into arrays other than the current cone
axis: `cone_axis` is `None` exactly if no axis was assigned so far; otherwise it is the unit vector along the last assigned axis. -/
theorem C78_axis_partial (ops : List Op) (h : KeepsAxis ops) :
    ((run ops new).coneAxis = none ↔ ∀ v, ¬ LastAxis ops v) ∧
      ∀ v, LastAxis ops v → ∃ n, (run ops new).coneAxis = some n ∧ Directs n v := by
  suffices hs : ((run ops new).coneAxis = none ∧ ∀ v, ¬ LastAxis ops v) ∨
      ∃ v n, LastAxis ops v ∧ (∀ w, LastAxis ops w → w = v) ∧ (run ops new).coneAxis = some n ∧ Directs n v by
    rcases hs with ⟨h1, h2⟩ | ⟨v, n, h1, h2, h3, h4⟩
    · exact ⟨⟨fun _ => h2, fun _ => h1⟩, fun v hv => absurd hv (h2 v)⟩
    · refine ⟨⟨fun e => by rw [h3] at e; simp at e, fun e => absurd h1 (e v)⟩, fun w hw => ?_⟩
      rw [h2 w hw]
      exact ⟨n, h3, h4⟩
  induction ops using List.reverseRecOn with
  | nil => exact Or.inl ⟨rfl, fun v ⟨x, b, a, e, _⟩ => by simp at e⟩
  | append_singleton ops op ih =>
    have ih := ih h.prefix
    have hok := ok_run ops
    have hlast : ∀ v, LastAxis (ops ++ [op]) v ↔ (∃ x, op = .cone x ∧ IsAxis x v) ∨ (LastAxis ops v ∧ ∀ y w, op = .cone y → ¬ IsAxis y w) :=
      fun v => last_append (kind := Op.cone) (P := IsAxis) ops op v
    simp only [hlast]
    -- a step that keeps the axis
    have keep : (run (ops ++ [op]) new).coneAxis = (run ops new).coneAxis → (∀ y w, op = .cone y → ¬ IsAxis y w) →
        ((run (ops ++ [op]) new).coneAxis = none ∧
          ∀ v, ¬ ((∃ x, op = .cone x ∧ IsAxis x v) ∨ (LastAxis ops v ∧ ∀ y w, op = .cone y → ¬ IsAxis y w))) ∨
        ∃ v n, ((∃ x, op = .cone x ∧ IsAxis x v) ∨ (LastAxis ops v ∧ ∀ y w, op = .cone y → ¬ IsAxis y w)) ∧
          (∀ w, ((∃ x, op = .cone x ∧ IsAxis x w) ∨ (LastAxis ops w ∧ ∀ y w, op = .cone y → ¬ IsAxis y w)) → w = v) ∧
          (run (ops ++ [op]) new).coneAxis = some n ∧ Directs n v := by
      intro e hno
      rw [e]
      have hiff : ∀ v, ((∃ x, op = .cone x ∧ IsAxis x v) ∨ (LastAxis ops v ∧ ∀ y w, op = .cone y → ¬ IsAxis y w)) ↔ LastAxis ops v :=
        fun v => ⟨fun h => h.elim (fun ⟨x, h1, h2⟩ => absurd h2 (hno x v h1)) fun h => h.1, fun h => Or.inr ⟨h, hno⟩⟩
      simp only [hiff]
      exact ih
    cases op with
    | spiral x =>
      refine keep ?_ (by simp)
      rw [run_append]
      rcases setSpiral_cases x (run ops new) with ⟨v, _, h⟩ | ⟨_, h⟩ <;> simp only [step, h, Res.ok, Res.raise]
      unfold Gs.coneAxis
      simp only
      cases hc : (run ops new).cone with
      | none => rfl
      | some r => simp [put, (hok.cone r hc).ne]
    | cone x =>
      rcases setCone_cases x (run ops new) with ⟨v, hv, h'⟩ | ⟨hv, h'⟩
      · refine Or.inr ⟨v, EnergyObj.normalize v, Or.inl ⟨x, rfl, hv⟩, ?_, ?_, normalize_directs hv.2⟩
        · rintro w (⟨y, e, hy⟩ | ⟨_, hno⟩)
          · simp only [Op.cone.injEq] at e
            subst e
            exact hy.1.unique hv.1
          · exact absurd hv (hno x v rfl)
        · rw [run_append]
          simp [step, h', Res.ok, Gs.coneAxis, put]
      · refine keep ?_ (fun y w e => by simp only [Op.cone.injEq] at e; subst e; exact hv w)
        rw [run_append]
        simp only [step, h', Res.raise]
    | write r i x =>
      refine keep ?_ (by simp)
      have hr := h ops r i x [] rfl
      rw [run_append]
      simp only [step, Res.ok, write, Gs.coneAxis]
      cases hc : (run ops new).cone with
      | none => rfl
      | some q =>
        have : q ≠ r := by rintro rfl; exact hr hc
        simp [put, this]

/-- **C78, spiral vector.** After any history of assignments, also failing ones, and of writes into arrays other than the current
spiral vector: `spiral_vector` is the last assigned vector, or `None` if there was none. -/
theorem C78_spiral_partial (ops : List Op) (h : KeepsSpiral ops) (v : V3 ℝ) :
    (run ops new).spiralVector = some v ↔ LastSpiral ops v := by
  induction ops using List.reverseRecOn generalizing v with
  | nil => exact ⟨fun e => by simp [run, new, Gs.spiralVector] at e, fun ⟨x, b, a, e, _⟩ => by simp at e⟩
  | append_singleton ops op ih =>
    have ih := ih h.prefix
    have hok := ok_run ops
    have hlast : LastSpiral (ops ++ [op]) v ↔ (∃ x, op = .spiral x ∧ IsVector x v) ∨
        (LastSpiral ops v ∧ ∀ y w, op = .spiral y → ¬ IsVector y w) := last_append (kind := Op.spiral) (P := IsVector) ops op v
    rw [hlast, run_append]
    have keep : (step (run ops new) op).st.spiralVector = (run ops new).spiralVector → (∀ y w, op = .spiral y → ¬ IsVector y w) →
        ((step (run ops new) op).st.spiralVector = some v ↔ (∃ x, op = .spiral x ∧ IsVector x v) ∨
          (LastSpiral ops v ∧ ∀ y w, op = .spiral y → ¬ IsVector y w)) := by
      intro e hno
      rw [e, ih v]
      exact ⟨fun h => Or.inr ⟨h, hno⟩, fun h => h.elim (fun ⟨x, h1, h2⟩ => absurd h2 (hno x v h1)) fun h => h.1⟩
    cases op with
    | spiral x =>
      rcases setSpiral_cases x (run ops new) with ⟨w, hw, h'⟩ | ⟨hv, h'⟩
      · simp only [step, h', Res.ok, Gs.spiralVector, put, Option.map_some, if_true, Option.some.injEq, Op.spiral.injEq]
        constructor
        · rintro rfl
          exact Or.inl ⟨x, rfl, hw⟩
        · rintro (⟨y, rfl, hy⟩ | ⟨_, hno⟩)
          · exact hw.unique hy
          · exact absurd hw (hno x w rfl)
      · refine keep ?_ (fun y w e => by simp only [Op.spiral.injEq] at e; subst e; exact hv w)
        simp only [step, h', Res.raise]
    | cone x =>
      refine keep ?_ (by simp)
      rcases setCone_cases x (run ops new) with ⟨v, _, h⟩ | ⟨_, h⟩ <;> simp only [step, h, Res.ok, Res.raise]
      unfold Gs.spiralVector
      simp only
      cases hc : (run ops new).spiral with
      | none => rfl
      | some r => simp [put, (hok.spiral r hc).ne]
    | write r i x =>
      refine keep ?_ (by simp)
      have hr := h ops r i x [] rfl
      simp only [step, Res.ok, write, Gs.spiralVector]
      cases hc : (run ops new).spiral with
      | none => rfl
      | some q =>
        have : q ≠ r := by rintro rfl; exact hr hc
        simp [put, this]

/-- **C78, returned arrays.** Without the condition on writes the cone axis need not be a unit vector: the getter returns the stored
array itself. -/
theorem C78_write_false : ¬ ∀ (ops : List Op) (v : V3 ℝ), LastAxis ops v → ∃ n, (run ops new).coneAxis = some n ∧ Directs n v := by
  intro h
  obtain ⟨n, h1, h2, _⟩ := h [.cone (.vector [0, 0, 1]), .write 0 2 5] ![0, 0, 1]
    ⟨.vector [0, 0, 1], [], [.write 0 2 5], rfl, ⟨rfl, 2, by show (1 / 10 ^ 8 : ℝ) < |1|; norm_num⟩, by simp⟩
  have hn : n 2 = 5 := by
    rcases setCone_cases (.vector [0, 0, 1]) new with ⟨v, hv, e⟩ | ⟨hv, _⟩
    · simp only [run, List.foldl_cons, List.foldl_nil, step, e, Res.ok, write, Gs.coneAxis, show new.next = 0 from rfl, Option.map_some, put, if_true,
        Option.some.injEq] at h1
      rw [← h1]
      simp
    · exact absurd ⟨rfl, 2, by show (1 / 10 ^ 8 : ℝ) < |1|; norm_num⟩ (hv ![0, 0, 1])
  have h3 : n ⬝ᵥ n = 1 := h2
  simp only [dotProduct, Fin.sum_univ_three, hn] at h3
  nlinarith [mul_self_nonneg (n 0), mul_self_nonneg (n 1)]

/-- **C78, short axes.** Not every vector other than zero is accepted as an axis. -/
theorem C78_small_false : ¬ ∀ (v : V3 ℝ) (g : Gs), v ≠ 0 → (setCone (.vector [v 0, v 1, v 2]) g).err = none := by
  intro h
  have h1 := h ![0, 0, 1 / 10 ^ 9] new (fun e => by have : (1 / 10 ^ 9 : ℝ) = 0 := congrFun e 2; norm_num at this)
  obtain ⟨w, hw, i, hi⟩ := (C78_errors _ new).2.1.1 h1
  have := hw.unique (show IsVector _ ![0, 0, 1 / 10 ^ 9] from rfl)
  rw [this] at hi
  fin_cases i <;> norm_num at hi

/-! ### Example -/

/-- C78: the axis is normalised; a zero vector and `None` raise and change nothing; writing into an old array has no effect. -/
example : (run [.cone (.vector [1, 0, 0]), .cone (.vector [0, 3, 4]), .cone (.vector [0, 0, 0]), .cone .bad, .write 0 1 7,
    .spiral (.vector [1, 2, 3])] new).coneAxis = some ![0, 3 / 5, 4 / 5] := by
  have hz : ∀ v, ¬ IsAxis (.vector [0, 0, 0]) v := by
    rintro v ⟨h1, i, hi⟩
    rw [h1.unique (show IsVector _ 0 from rfl), Pi.zero_apply, abs_zero] at hi
    norm_num at hi
  have hb : ∀ v, ¬ IsAxis .bad v := by
    rintro v ⟨h1, _⟩
    simp [IsVector] at h1
  have hc : (run [.cone (.vector [1, 0, 0]), .cone (.vector [0, 3, 4]), .cone (.vector [0, 0, 0]), .cone .bad] new).cone ≠ some 0 := by
    have ez : ∀ g, setCone (.vector [0, 0, 0]) g = .raise g .valueError := fun g =>
      (setCone_cases _ g).elim (fun ⟨v, hv, _⟩ => absurd hv (hz v)) fun h => h.2
    have eb : ∀ g, setCone .bad g = .raise g .valueError := fun g =>
      (setCone_cases _ g).elim (fun ⟨v, hv, _⟩ => absurd hv (hb v)) fun h => h.2
    obtain ⟨v, _, e1⟩ | ⟨hn, _⟩ := setCone_cases (.vector [1, 0, 0]) new
    · obtain ⟨v2, _, e2⟩ | ⟨hn, _⟩ := setCone_cases (.vector [0, 3, 4]) (setCone (.vector [1, 0, 0]) new).st
      · simp only [run, List.foldl_cons, List.foldl_nil, step, ez, eb, e2]
        rw [e1]
        simp [Res.ok, Res.raise, new]
      · exact absurd ⟨rfl, 1, by show (1 / 10 ^ 8 : ℝ) < |3|; norm_num⟩ (hn ![0, 3, 4])
    · exact absurd ⟨rfl, 0, by show (1 / 10 ^ 8 : ℝ) < |1|; norm_num⟩ (hn ![1, 0, 0])
  obtain ⟨n, h1, h2⟩ := (C78_axis_partial _ (by
    intro before r i x after e
    match before, e with
    | [], e => simp at e
    | [_], e => simp at e
    | [_, _], e => simp at e
    | [_, _, _], e => simp at e
    | [a, b, c, d], e =>
      simp only [List.cons_append, List.nil_append, List.cons.injEq] at e
      obtain ⟨rfl, rfl, rfl, rfl, e, _⟩ := e
      simp only [Op.write.injEq] at e
      rw [← e.1]
      exact hc
    | [_, _, _, _, _], e => simp at e
    | _ :: _ :: _ :: _ :: _ :: _ :: _, e => simp at e)).2 ![0, 3, 4]
      ⟨.vector [0, 3, 4], [.cone (.vector [1, 0, 0])], [.cone (.vector [0, 0, 0]), .cone .bad, .write 0 1 7, .spiral (.vector [1, 2, 3])], rfl,
        ⟨rfl, 1, by show (1 / 10 ^ 8 : ℝ) < |3|; norm_num⟩, by
          intro y w hy
          simp only [List.mem_cons, Op.cone.injEq, reduceCtorEq, List.not_mem_nil, or_false] at hy
          rcases hy with rfl | rfl
          · exact hz w
          · exact hb w⟩
  refine Eq.trans h1 (congrArg some ?_)
  refine directs_unique h2 ⟨?_, 5, by norm_num, ?_⟩
  · simp [IsUnit3, dotProduct, Fin.sum_univ_three]; norm_num
  · funext i; fin_cases i <;> norm_num

end Ground
end Magnopy
