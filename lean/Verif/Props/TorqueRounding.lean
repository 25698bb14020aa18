import Verif.Lemmas.TorqueRounding
import Verif.Props.EnergyRounding
import Verif.Props.Torque
import Verif.Props.ParamRounding

/-!
# Property C108: round-off of the torques of the minimisation
-/

set_option autoImplicit false

set_option linter.unusedSectionVars false

namespace Magnopy
namespace Optimize

open EnergyObj Matrix

variable {fl : ℝ → ℝ} {u : ℝ}

/-- All components of `x` are those of `z` up to `δ + 6 u`, and up to `δ` where `P` does not hold. -/
structure Kept (z x : List (V3 ℝ)) (δ u : ℝ) (P : ℕ → Fin 3 → Prop) : Prop where
  length : x.length = z.length
  near : ∀ k a, |x.getD k 0 a - z.getD k 0 a| ≤ δ + 6 * u
  start : ∀ k a, ¬ P k a → |x.getD k 0 a - z.getD k 0 a| ≤ δ

theorem setComp_length (x : List (V3 ℝ)) (i : ℕ) (j : Fin 3) (f : ℝ → ℝ) : (setComp x i j f).length = x.length := by
  simp [setComp]

theorem setComp_getD (x : List (V3 ℝ)) {i : ℕ} (hi : i < x.length) (j : Fin 3) (f : ℝ → ℝ) (k : ℕ) (a : Fin 3) :
    (setComp x i j f).getD k 0 a = if k = i ∧ a = j then f (x.getD i 0 j) else x.getD k 0 a := by
  unfold setComp
  by_cases hk : k = i
  · subst hk
    simp only [List.getD, List.getElem?_set_self hi, Option.getD_some, true_and]
    by_cases ha : a = j
    · subst ha; simp
    · simp [ha]
  · have : i ≠ k := fun h => hk h.symm
    simp [List.getD, List.getElem?_set_ne this, hk]

theorem set_bump_getD (z : List (V3 ℝ)) {i : ℕ} (hi : i < z.length) (j : Fin 3) (t : ℝ) (k : ℕ) (a : Fin 3) :
    (z.set i (bump (z.getD i 0) j t)).getD k 0 a = if k = i ∧ a = j then z.getD i 0 j + t else z.getD k 0 a := by
  have : z.set i (bump (z.getD i 0) j t) = setComp z i j fun v => v + t := by
    unfold setComp bump
    rfl
  rw [this, setComp_getD z hi]

theorem getD_unit {z : List (V3 ℝ)} (hz : AllUnit z) {k : ℕ} (hk : k < z.length) : IsUnit3 (z.getD k 0) := by
  have : z.getD k 0 = z[k] := by simp [List.getD, hk]
  rw [this]
  exact hz _ (List.getElem_mem _)

theorem norm_set_bump {z : List (V3 ℝ)} (hz : AllUnit z) {i : ℕ} (hi : i < z.length) (j : Fin 3) {t : ℝ} (ht : |t| ≤ 1 / 1000) {k : ℕ}
    (hk : k < z.length) : 98 / 100 ≤ norm3 ((z.set i (bump (z.getD i 0) j t)).getD k 0) := by
  by_cases h : k = i
  · subst h
    have e : (z.set k (bump (z.getD k 0) j t)).getD k 0 = bump (z.getD k 0) j t := by simp [List.getD, hk]
    rw [e, bump_norm (getD_unit hz hk)]
    refine Real.le_sqrt_of_sq_le ?_
    have h1 := abs_component_le (getD_unit hz hk) j
    have h2 : |z.getD k 0 j * t| ≤ 1 * (1 / 1000) := by
      rw [abs_mul]; exact mul_le_mul h1 ht (abs_nonneg _) (by norm_num)
    nlinarith [(abs_le.1 h2).1, sq_nonneg t]
  · have e : (z.set i (bump (z.getD i 0) j t)).getD k 0 = z.getD k 0 := by
      simp [List.getD, List.getElem?_set_ne (fun h' => h h'.symm : i ≠ k)]
    have h1 : z.getD k 0 ⬝ᵥ z.getD k 0 = 1 := getD_unit hz hk
    rw [e]
    refine Real.le_sqrt_of_sq_le ?_
    simp only [dotProduct, Fin.sum_univ_three] at h1
    nlinarith

/-- The energies: exact, and computed in each call. -/
structure Close (F : List (V3 ℝ) → ℝ) (F' : Bool → List (V3 ℝ) → ℝ) (n : ℕ) (G W : ℝ) : Prop where
  call : ∀ s l, l.length = n → |F' s l - F l| ≤ G * W
  lipschitz : ∀ (l l' : List (V3 ℝ)) (D : ℝ), l.length = n → l'.length = n → 0 ≤ D → D ≤ 1 / 50 →
    (∀ k < n, ∀ a, |l.getD k 0 a - l'.getD k 0 a| ≤ D) → (∀ k < n, 98 / 100 ≤ norm3 (l.getD k 0)) → |F l - F l'| ≤ 10 * D * W

variable {F : List (V3 ℝ) → ℝ} {F' : Bool → List (V3 ℝ) → ℝ} {z x : List (V3 ℝ)} {G W δ : ℝ} {P : ℕ → Fin 3 → Prop} {i : ℕ} {j : Fin 3}

theorem fdStep_abs : |fdStep| = 1 / 10000 := by unfold fdStep; norm_num

theorem rowGrad_le (hc : Close F F' z.length G W) (hz : AllUnit z) (hi : i < z.length) (j : Fin 3) : |rowGrad F z i j| ≤ 10 * W := by
  have h := hc.lipschitz (z.set i (bump (z.getD i 0) j fdStep)) (z.set i (bump (z.getD i 0) j (-fdStep))) (2 * fdStep) (by simp) (by simp)
    (by unfold fdStep; norm_num) (by unfold fdStep; norm_num) (by
      intro k _ a
      rw [set_bump_getD z hi, set_bump_getD z hi]
      split
      · unfold fdStep; norm_num
      · simp only [sub_self, abs_zero]; unfold fdStep; norm_num)
    fun k hk => norm_set_bump hz hi j (by rw [fdStep_abs]; norm_num) hk
  unfold rowGrad
  rw [abs_div, abs_div, fdStep_abs, abs_two]
  unfold fdStep at h ⊢
  rw [div_div, div_le_iff₀ (by norm_num)]
  linarith

/-- One component of the gradient. -/
theorem gradComp_step (hf : IsRounding fl u) (hu : u ≤ 1 / 10000) (hδ : δ ≤ 1 / 100) (hδ0 : 0 ≤ δ) (hz : AllUnit z)
    (hc : Close F F' z.length G W) (hx : Kept z x δ u P) (hi : i < z.length) (hP : ¬ P i j) :
    |(gradCompFl fl (fl fdStep) F' x i j).1 - rowGrad F z i j| ≤ (10100 * (G + 10 * (δ + 6 * u)) + 50 * u) * W ∧
      Kept z (gradCompFl fl (fl fdStep) F' x i j).2 δ u fun k a => P k a ∨ (k = i ∧ a = j) := by
  have hu0 := hf.nonneg
  obtain ⟨s1, s2⟩ := fdStep_fl hf hu
  have hf0 := fdStep_abs
  have hz1 := abs_component_le (getD_unit hz hi) j
  have hix : i < x.length := hx.length ▸ hi
  set x1 := setComp x i j fun v => fl (v - fl fdStep) with hx1
  set x2 := setComp x1 i j fun v => fl (v + fl (2 * fl fdStep)) with hx2
  set x3 := setComp x2 i j fun v => fl (v - fl fdStep) with hx3
  have l1 : x1.length = x.length := setComp_length _ _ _ _
  have l2 : x2.length = x.length := (setComp_length _ _ _ _).trans l1
  have l3 : x3.length = x.length := (setComp_length _ _ _ _).trans l2
  have g1 : ∀ k a, x1.getD k 0 a = if k = i ∧ a = j then fl (x.getD i 0 j - fl fdStep) else x.getD k 0 a := setComp_getD x hix j _
  have g2 : ∀ k a, x2.getD k 0 a = if k = i ∧ a = j then fl (x1.getD i 0 j + fl (2 * fl fdStep)) else x1.getD k 0 a :=
    setComp_getD x1 (l1 ▸ hix) j _
  have g3 : ∀ k a, x3.getD k 0 a = if k = i ∧ a = j then fl (x2.getD i 0 j - fl fdStep) else x2.getD k 0 a :=
    setComp_getD x2 (l2 ▸ hix) j _
  have c1 : |x1.getD i 0 j - (z.getD i 0 j - fdStep)| ≤ δ + 2 * u := by
    rw [g1, if_pos ⟨rfl, rfl⟩]
    exact step_sub_close hf (hx.start i j hP) (by linarith) (by linarith) s1 (by rw [hf0]; norm_num) hu
  have c2 : |x2.getD i 0 j - (z.getD i 0 j + fdStep)| ≤ δ + 4 * u := by
    rw [g2, if_pos ⟨rfl, rfl⟩]
    have := step_close hf c1 (by
      refine (abs_sub _ _).trans ?_
      rw [hf0]; linarith) (by linarith) s2 (by rw [abs_mul, hf0, abs_two]; norm_num) hu
    rw [show z.getD i 0 j + fdStep = z.getD i 0 j - fdStep + 2 * fdStep by ring]
    linarith
  have c3 : |x3.getD i 0 j - z.getD i 0 j| ≤ δ + 6 * u := by
    rw [g3, if_pos ⟨rfl, rfl⟩]
    have := step_sub_close hf c2 (by
      refine (abs_add_le _ _).trans ?_
      rw [hf0]; linarith) (by linarith) s1 (by rw [hf0]; norm_num) hu
    rw [show z.getD i 0 j + fdStep - fdStep = z.getD i 0 j by ring] at this
    linarith
  have n3 : ∀ k a, ¬ (k = i ∧ a = j) → x3.getD k 0 a = x.getD k 0 a := fun k a h => by
    rw [g3, if_neg h, g2, if_neg h, g1, if_neg h]
  constructor
  · have m1 := hc.lipschitz (z.set i (bump (z.getD i 0) j (-fdStep))) x1 (δ + 6 * u) (by simp) (l1.trans hx.length) (by linarith) (by linarith) (by
      intro k _ a
      rw [set_bump_getD z hi, abs_sub_comm]
      by_cases h : k = i ∧ a = j
      · rw [if_pos h, h.1, h.2, ← sub_eq_add_neg]
        linarith
      · rw [if_neg h, g1, if_neg h]
        exact hx.near k a) fun k hk => norm_set_bump hz hi j (by rw [abs_neg, hf0]; norm_num) hk
    have m2 := hc.lipschitz (z.set i (bump (z.getD i 0) j fdStep)) x2 (δ + 6 * u) (by simp) (l2.trans hx.length) (by linarith) (by linarith) (by
      intro k _ a
      rw [set_bump_getD z hi, abs_sub_comm]
      by_cases h : k = i ∧ a = j
      · rw [if_pos h, h.1, h.2]
        linarith
      · rw [if_neg h, g2, if_neg h, g1, if_neg h]
        exact hx.near k a) fun k hk => norm_set_bump hz hi j (by rw [hf0]; norm_num) hk
    have e1 := hc.call false x1 (l1.trans hx.length)
    have e2 := hc.call true x2 (l2.trans hx.length)
    have hg := rowGrad_le hc hz hi j
    have hq := quotient_close hf hu (F' true x2 - F' false x1)
    show |fl (fl (fl (F' true x2 - F' false x1) / 2) / fl fdStep) - rowGrad F z i j| ≤ _
    set A := F (z.set i (bump (z.getD i 0) j fdStep)) with hA
    set B := F (z.set i (bump (z.getD i 0) j (-fdStep))) with hB
    have hr : rowGrad F z i j = (A - B) / 2 / fdStep := rfl
    have hd : |(F' true x2 - F' false x1) / 2 / fdStep - rowGrad F z i j| ≤ 10000 * ((G + 10 * (δ + 6 * u)) * W) := by
      rw [hr, ← sub_div, ← sub_div, abs_div, abs_div, hf0, abs_two, div_div, div_le_iff₀ (by norm_num)]
      rw [abs_le] at *
      constructor <;> linarith [m1.1, m1.2, m2.1, m2.2, e1.1, e1.2, e2.1, e2.2]
    have hW : 0 ≤ 10 * W := (abs_nonneg _).trans hg
    have hη : 0 ≤ 10000 * ((G + 10 * (δ + 6 * u)) * W) := (abs_nonneg _).trans hd
    set Q := (F' true x2 - F' false x1) / 2 / fdStep with hQ
    have hQa : |Q| ≤ 10000 * ((G + 10 * (δ + 6 * u)) * W) + 10 * W := by
      have : |Q| ≤ |Q - rowGrad F z i j| + |rowGrad F z i j| := by simpa using abs_add_le (Q - rowGrad F z i j) (rowGrad F z i j)
      linarith
    have h1 : 5 * u * |Q| ≤ 5 * u * (10000 * ((G + 10 * (δ + 6 * u)) * W) + 10 * W) := mul_le_mul_of_nonneg_left hQa (by linarith)
    have h2 : u * (10000 * ((G + 10 * (δ + 6 * u)) * W)) ≤ 1 / 10000 * (10000 * ((G + 10 * (δ + 6 * u)) * W)) :=
      mul_le_mul_of_nonneg_right hu hη
    have h3 : |fl (fl (fl (F' true x2 - F' false x1) / 2) / fl fdStep) - rowGrad F z i j| ≤
        |fl (fl (fl (F' true x2 - F' false x1) / 2) / fl fdStep) - Q| + |Q - rowGrad F z i j| := by
      simpa using abs_add_le (fl (fl (fl (F' true x2 - F' false x1) / 2) / fl fdStep) - Q) (Q - rowGrad F z i j)
    nlinarith
  · show Kept z x3 δ u _
    refine ⟨l3.trans hx.length, fun k a => ?_, fun k a h => ?_⟩
    · by_cases h : k = i ∧ a = j
      · rw [h.1, h.2]; exact c3
      · rw [n3 k a h]; exact hx.near k a
    · rw [n3 k a fun h' => h (.inr h')]
      exact hx.start k a fun h' => h (.inl h')

/-- The torque of one spin. -/
theorem rowTorque_step (hf : IsRounding fl u) (hu : u ≤ 1 / 10000) (hδ : δ ≤ 1 / 100) (hδ0 : 0 ≤ δ) (hz : AllUnit z)
    {F' : Fin 3 → Bool → List (V3 ℝ) → ℝ} (hc : ∀ j, Close F (F' j) z.length G W) (hG : 0 ≤ G) (hx : Kept z x δ u P) (hi : i < z.length)
    (hP : ∀ a, ¬ P i a) :
    (∀ c, |(rowTorqueFl fl (fl fdStep) F' x i).1 c - rowTorque F z i c| ≤ (22000 * G + 10 ^ 6 * (δ + 2 * u)) * W) ∧
      Kept z (rowTorqueFl fl (fl fdStep) F' x i).2 δ u fun k a => P k a ∨ k = i := by
  have hu0 := hf.nonneg
  obtain ⟨a1, a2⟩ := gradComp_step hf hu hδ hδ0 hz (hc 0) hx hi (hP 0)
  obtain ⟨b1, b2⟩ := gradComp_step (j := 1) hf hu hδ hδ0 hz (hc 1) a2 hi (by
    rintro (h | h)
    · exact hP 1 h
    · exact absurd h.2 (by decide))
  obtain ⟨c1, c2⟩ := gradComp_step (j := 2) hf hu hδ hδ0 hz (hc 2) b2 hi (by
    rintro ((h | h) | h)
    · exact hP 2 h
    · exact absurd h.2 (by decide)
    · exact absurd h.2 (by decide))
  have hW : 0 ≤ 10 * W := (abs_nonneg _).trans (rowGrad_le (hc 0) hz hi 0)
  constructor
  · intro c
    refine (cross_close hf hu (D := δ + 6 * u) (S := W) (e := 10100 * (G + 10 * (δ + 6 * u)) + 50 * u) (by linarith) (fun a => c2.near i a)
      (fun a => abs_component_le (getD_unit hz hi) a) ?_ (fun a => rowGrad_le (hc 0) hz hi a) c).trans ?_
    · intro a
      fin_cases a
      · exact a1
      · exact b1
      · exact c1
    · refine mul_le_mul_of_nonneg_right ?_ (by linarith)
      nlinarith
  · refine ⟨c2.length, c2.near, fun k a h => c2.start k a ?_⟩
    rintro (((h' | h') | h') | h')
    · exact h (.inl h')
    · exact h (.inr h'.1)
    · exact h (.inr h'.1)
    · exact h (.inr h'.1)

theorem rowTorques_step (hf : IsRounding fl u) (hu : u ≤ 1 / 10000) (hδ : δ ≤ 1 / 100) (hδ0 : 0 ≤ δ) (hz : AllUnit z)
    {F' : ℕ → Fin 3 → Bool → List (V3 ℝ) → ℝ} (hc : ∀ i j, Close F (F' i j) z.length G W) (hG : 0 ≤ G) :
    ∀ (is : List ℕ) (x : List (V3 ℝ)) (P : ℕ → Fin 3 → Prop), Kept z x δ u P → (∀ i ∈ is, i < z.length ∧ ∀ a, ¬ P i a) → is.Nodup →
      (rowTorquesFl fl (fl fdStep) F' is x).1.length = is.length ∧
      (∀ k (hk : k < is.length), ∀ c, |(rowTorquesFl fl (fl fdStep) F' is x).1.getD k 0 c - rowTorque F z is[k] c| ≤
        (22000 * G + 10 ^ 6 * (δ + 2 * u)) * W) ∧
      (rowTorquesFl fl (fl fdStep) F' is x).2.length = z.length ∧
      ∀ k a, |(rowTorquesFl fl (fl fdStep) F' is x).2.getD k 0 a - z.getD k 0 a| ≤ δ + 6 * u
  | [], x, P, hx, _, _ => ⟨rfl, fun k hk => absurd hk (by simp), hx.length, hx.near⟩
  | i :: is, x, P, hx, hi, hnd => by
    obtain ⟨h1, h2⟩ := rowTorque_step (P := P) hf hu hδ hδ0 hz (hc i) hG hx (hi i (by simp)).1 (hi i (by simp)).2
    obtain ⟨t1, t2, t3, t4⟩ := rowTorques_step hf hu hδ hδ0 hz hc hG is _ _ h2 (by
      intro k hk
      refine ⟨(hi k (by simp [hk])).1, fun a => ?_⟩
      rintro (h | h)
      · exact (hi k (by simp [hk])).2 a h
      · subst h
        exact (List.nodup_cons.1 hnd).1 hk) (List.nodup_cons.1 hnd).2
    refine ⟨by simp [rowTorquesFl, t1], ?_, t3, t4⟩
    intro k hk c
    cases k with
    | zero => exact h1 c
    | succ k => exact t2 k (by simpa using hk) c

theorem ferro_close (hf : IsRounding fl u) (E : EnergyObj ℝ) (muB : ℝ) (cell : ℕ → M3 ℝ) {d : ℕ} (hN : E.roundings d * u < 1) {S : Bool → Sums}
    (hS : ∀ s, (S s).Complete E.spins.length d) :
    Close (ferroProblem E muB cell).energy (fun s l => ferroUnitFl fl (S s) E muB cell
      (l.zipIdx.map fun p => normalizeFl fl ((S s).norm p.2) p.1)) E.spins.length (gamma u (E.roundings d)) (strength E muB cell) := by
  constructor
  · intro s l hl
    obtain ⟨L, h1, h2, h3⟩ := ferro_near hf E muB cell l (hl ▸ hS s)
    have h4 := h1.error hf.nonneg hf.lt hN
    rw [h2, h3] at h4
    refine h4.trans (mul_le_mul_of_nonneg_left (size_le_strength E muB cell fun k a => ?_) ?_)
    · rw [getD_normalize]
      exact normalize_le _ a
    · exact div_nonneg (mul_nonneg (Nat.cast_nonneg _) hf.nonneg) (by linarith)
  · intro l l' D hl hl' hD _ h hn
    exact ferro_lipschitz E muB cell (hl.trans hl'.symm) hD (fun k hk => h k (hl ▸ hk)) fun k hk => hn k (hl ▸ hk)

/-- **C108.** With rounded floats, whatever order numpy adds in, for spins that have unit length up to `δ`: the torques that `_ferro_grad`
computes are those of the energy up to `7.2e-7 + 22000 γ + 10⁶ (δ + 2 u)` times the strength of the interactions, where `γ` is the bound of
C100 for one energy. -/
theorem C108_torques (hf : IsRounding fl u) (hu : u ≤ 1 / 10000) (E : EnergyObj ℝ) (muB : ℝ) (cell : ℕ → M3 ℝ) {d : ℕ}
    (hN : E.roundings d * u < 1) {S : ℕ → Fin 3 → Bool → Sums} (hS : ∀ i j s, (S i j s).Complete E.spins.length d) (hne : E.spins ≠ [])
    (x z : List (V3 ℝ)) {δ : ℝ} (hδ0 : 0 ≤ δ) (hδ : δ ≤ 1 / 100) (hx : x.length = E.spins.length) (hzl : z.length = E.spins.length)
    (hz : AllUnit z) (hxz : ∀ k a, |x.getD k 0 a - z.getD k 0 a| ≤ δ) :
    ∃ T : ℕ → V3 ℝ, HasTorques (fun l => E.ferro muB cell (arr l)) z T ∧
      (ferroGradFl fl S E muB cell x).2.1.length = E.spins.length ∧
      ∀ i < E.spins.length, ∀ c, |(ferroGradFl fl S E muB cell x).2.1.getD i 0 c - T i c| ≤
        (72 / 10 ^ 8 + 22000 * gamma u (E.roundings d) + 10 ^ 6 * (δ + 2 * u)) * strength E muB cell := by
  obtain ⟨T, h1, h2⟩ := C79_ferro E muB cell z hzl hne hz
  have hu0 := hf.nonneg
  have hc : ∀ i j, Close (ferroProblem E muB cell).energy (fun s l => ferroUnitFl fl (S i j s) E muB cell
      (l.zipIdx.map fun p => normalizeFl fl ((S i j s).norm p.2) p.1)) z.length (gamma u (E.roundings d)) (strength E muB cell) :=
    fun i j => hzl ▸ ferro_close hf E muB cell hN (hS i j)
  obtain ⟨t1, t2, -, -⟩ := rowTorques_step hf hu hδ hδ0 hz hc (div_nonneg (mul_nonneg (Nat.cast_nonneg _) hf.nonneg) (by linarith))
    (List.range x.length) x (fun _ _ => False) ⟨hx.trans hzl.symm, fun k a => (hxz k a).trans (by linarith), fun k a _ => hxz k a⟩
    (by simp [hx, hzl]) List.nodup_range
  refine ⟨T, h1, t1.trans (by simp [hx]), fun i hi c => ?_⟩
  have h3 := h2 i (hzl ▸ hi) c
  have h4 := t2 i (by simpa [hx] using hi) c
  simp only [List.getElem_range] at h4
  have h5 : ((ferroProblem E muB cell).grad z).2.getD i 0 = rowTorque (ferroProblem E muB cell).energy z i :=
    rowTorques_getD _ _ (hzl ▸ hi)
  rw [h5] at h3
  show |(rowTorquesFl _ _ _ _ _).1.getD i 0 c - _| ≤ _
  rw [abs_le] at *
  constructor <;> linarith [h3.1, h3.2, h4.1, h4.2]

/-- **C108, array.** The array of spins after the call is the one before up to `6 u` in every component. -/
theorem C108_array (hf : IsRounding fl u) (hu : u ≤ 1 / 10000) (E : EnergyObj ℝ) (muB : ℝ) (cell : ℕ → M3 ℝ) {d : ℕ}
    (hN : E.roundings d * u < 1) {S : ℕ → Fin 3 → Bool → Sums} (hS : ∀ i j s, (S i j s).Complete E.spins.length d)
    (x : List (V3 ℝ)) (hx : x.length = E.spins.length) (hz : AllUnit x) :
    (ferroGradFl fl S E muB cell x).2.2.length = x.length ∧
      ∀ k a, |(ferroGradFl fl S E muB cell x).2.2.getD k 0 a - x.getD k 0 a| ≤ 6 * u := by
  have hu0 := hf.nonneg
  have hc : ∀ i j, Close (ferroProblem E muB cell).energy (fun s l => ferroUnitFl fl (S i j s) E muB cell
      (l.zipIdx.map fun p => normalizeFl fl ((S i j s).norm p.2) p.1)) x.length (gamma u (E.roundings d)) (strength E muB cell) :=
    fun i j => hx ▸ ferro_close hf E muB cell hN (hS i j)
  obtain ⟨-, -, t3, t4⟩ := rowTorques_step (δ := 0) hf hu (by norm_num) le_rfl hz hc
    (div_nonneg (mul_nonneg (Nat.cast_nonneg _) hf.nonneg) (by linarith))
    (List.range x.length) x (fun _ _ => False) ⟨rfl, fun k a => by simpa using hu0, fun k a _ => by simp⟩ (by simp) List.nodup_range
  exact ⟨t3, fun k a => (t4 k a).trans (by linarith)⟩

/-- **C108, gradient.** The gradient consists of the components of the computed torques, in the order `z, -y, x`. -/
theorem C108_gradient (fl : ℝ → ℝ) (S : ℕ → Fin 3 → Bool → Sums) (E : EnergyObj ℝ) (muB : ℝ) (cell : ℕ → M3 ℝ) (x : List (V3 ℝ)) (i : ℕ) :
    (ferroGradFl fl S E muB cell x).1 (3 * i) = (ferroGradFl fl S E muB cell x).2.1.getD i 0 2 ∧
    (ferroGradFl fl S E muB cell x).1 (3 * i + 1) = -(ferroGradFl fl S E muB cell x).2.1.getD i 0 1 ∧
    (ferroGradFl fl S E muB cell x).1 (3 * i + 2) = (ferroGradFl fl S E muB cell x).2.1.getD i 0 0 := by
  refine ⟨?_, ?_, ?_⟩
  · show packTorques _ (3 * i) = _
    unfold packTorques
    rw [Nat.mul_div_cancel_left _ (by norm_num), Nat.mul_mod_right]
    rfl
  · show packTorques _ (3 * i + 1) = _
    unfold packTorques
    rw [show (3 * i + 1) / 3 = i by omega, show (3 * i + 1) % 3 = 1 by omega]
    rfl
  · show packTorques _ (3 * i + 2) = _
    unfold packTorques
    rw [show (3 * i + 2) / 3 = i by omega, show (3 * i + 2) % 3 = 2 by omega]
    rfl

theorem ferroGradFl_one (fl : ℝ → ℝ) (S : ℕ → Fin 3 → Bool → Sums) (E : EnergyObj ℝ) (muB : ℝ) (cell : ℕ → M3 ℝ) (v : V3 ℝ) (c : Fin 3) :
    (ferroGradFl fl S E muB cell [v]).2.2.getD 0 0 c = fl (fl (fl (v c - fl fdStep) + fl (2 * fl fdStep)) - fl fdStep) := by
  fin_cases c <;> simp [ferroGradFl, rowTorquesFl, rowTorqueFl, gradCompFl, setComp]

/-- **C108, not restored.** `_ferro_grad` does not give the array of spins back as it was: with floats of 53 bits that are rounded towards
zero, the component `1` of one spin along `z` becomes smaller, whatever the energy is. -/
theorem C108_restored_false (S : ℕ → Fin 3 → Bool → Sums) (E : EnergyObj ℝ) (muB : ℝ) (cell : ℕ → M3 ℝ) :
    (ferroGradFl (Param.chop 52) S E muB cell [![0, 0, 1]]).2.2.getD 0 0 2 = 1 - 3 / 2 ^ 53 := by
  have c1 : Param.chop 52 fdStep = 7378697629483820 / 2 ^ 66 := by
    unfold fdStep
    rw [Param.chop_of (e := -14) (by norm_num) (by norm_num) (by norm_num)]; norm_num
  have c2 : Param.chop 52 (2 * (7378697629483820 / 2 ^ 66)) = 7378697629483820 / 2 ^ 65 := by
    rw [Param.chop_of (e := -13) (by norm_num) (by norm_num) (by norm_num)]; norm_num
  have c3 : Param.chop 52 (1 - 7378697629483820 / 2 ^ 66) = 9006298534815517 / 2 ^ 53 := by
    rw [Param.chop_of (e := -1) (by norm_num) (by norm_num) (by norm_num)]; norm_num
  have c4 : Param.chop 52 (9006298534815517 / 2 ^ 53 + 7378697629483820 / 2 ^ 65) = 4504049987333232 / 2 ^ 52 := by
    rw [Param.chop_of (e := 0) (by norm_num) (by norm_num) (by norm_num)]; norm_num
  have c5 : Param.chop 52 (4504049987333232 / 2 ^ 52 - 7378697629483820 / 2 ^ 66) = 1 - 3 / 2 ^ 53 := by
    rw [Param.chop_of (e := -1) (by norm_num) (by norm_num) (by norm_num)]; norm_num
  have h1 : (![0, 0, 1] : V3 ℝ) 2 = 1 := rfl
  rw [ferroGradFl_one, h1, c1, c2, c3, c4, c5]

open OneSpin in
/-- One spin in a field, with floats of 53 bits that are rounded towards zero: the computed torque is more than `0.99`. -/
example : 99 / 100 < (ferroGradFl (Param.chop 52) (fun _ _ _ => Sums.sequential 1) (obj 1 0 (9 / 10)) 1 (mat 0) [![0, 0, 1]]).2.1.getD 0 0 1 := by
  have hx : AllUnit [![0, 0, (1 : ℝ)]] := by
    intro v hv
    rw [List.mem_singleton.mp hv]; exact z_unit
  obtain ⟨T, h1, h2⟩ := C79_ferro (obj 1 0 (9 / 10)) 1 (mat 0) [![0, 0, 1]] rfl (by simp [obj]) hx
  obtain ⟨T', h1', -, h2'⟩ := C108_torques (Param.chop_isFloat 52 (by norm_num)).toIsRounding (by norm_num) (obj 1 0 (9 / 10)) 1 (mat 0) (d := 12)
    (by norm_num [roundings, obj]) (fun _ _ _ => sequential_complete 1) (by simp [obj]) [![0, 0, 1]] [![0, 0, 1]] (δ := 0) le_rfl (by norm_num)
    rfl rfl hx (by simp)
  have h3 := h2 0 (by simp) 1
  have h3' := h2' 0 (by simp [obj]) 1
  rw [h1.unique h1' 0 (by simp), grad_field.1, strength_field] at h3
  rw [strength_field] at h3'
  have hg : gamma (1 / 2 ^ 52 : ℝ) ((obj 1 0 (9 / 10)).roundings 12) ≤ 1 / 10 ^ 13 := by
    norm_num [gamma, roundings, obj]
  have hw := w_bounds
  have h4 : 1 ≤ 2 / w := by rw [le_div_iff₀ w_pos]; linarith
  have h5 := abs_le.mp h3
  have h6 := abs_le.mp h3'
  simp only [cons_val_one, cons_val_zero] at h5
  linarith [h5.1, h5.2, h6.1, h6.2]

end Optimize
end Magnopy
