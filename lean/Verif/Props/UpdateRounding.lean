import Verif.Lemmas.Optimize
import Verif.Model.UpdateFloat
import Verif.Props.StopRounding
import Verif.Spec.UpdateRounding

/-!
# Property C111: round-off of the updates of `optimize`
-/

set_option autoImplicit false

set_option linter.unusedSectionVars false

namespace Magnopy
namespace Optimize

open EnergyObj Matrix

variable {u : ℝ} {d k : ℕ} {A : Arith}

theorem leftSum_complete : leftSum.leaves = (Finset.univ : Finset (Fin 3)).val ∧ leftSum.depth ≤ 2 := by decide

/-- The norm of a vector whose components are rounded. -/
theorem norm3_components (h0 : 0 ≤ u) (h1 : u < 1) {n : ℕ} {a b : V3 ℝ} (h : ∀ c, Rounded u n (a c) (b c)) :
    Rounded u n (norm3 a) (norm3 b) := by
  have hp : 0 < (1 - u) ^ n := pow_pos (by linarith) n
  have hp1 : (1 - u) ^ n ≤ 1 := pow_le_one₀ (by linarith) (by linarith)
  have hsq : ∀ c, ((1 - u) ^ n) ^ 2 * a c ^ 2 ≤ b c ^ 2 ∧ b c ^ 2 * ((1 - u) ^ n) ^ 2 ≤ a c ^ 2 := by
    intro c
    obtain ⟨θ, l, m, e⟩ := h c
    have h2 : ((1 - u) ^ n) ^ 2 ≤ θ ^ 2 := pow_le_pow_left₀ hp.le l 2
    have h3 : (θ * (1 - u) ^ n) ^ 2 ≤ 1 := pow_le_one₀ (mul_nonneg (hp.le.trans l) hp.le) m
    rw [e]
    constructor <;> nlinarith [sq_nonneg (a c)]
  have ha := norm3_sq a
  have hb := norm3_sq b
  have l1 : (1 - u) ^ n * norm3 a ≤ norm3 b := by
    refine abs_le_of_sq_le_sq' ?_ (norm3_nonneg b) |>.2
    rw [mul_pow, ha, hb]
    linarith [(hsq 0).1, (hsq 1).1, (hsq 2).1]
  have l2 : norm3 b * (1 - u) ^ n ≤ norm3 a := by
    refine abs_le_of_sq_le_sq' ?_ (norm3_nonneg a) |>.2
    rw [mul_pow, ha, hb]
    linarith [(hsq 0).2, (hsq 1).2, (hsq 2).2]
  rcases (norm3_nonneg a).eq_or_lt with h4 | h4
  · refine ⟨1, hp1, by simpa using hp1, ?_⟩
    rw [← h4] at l2
    nlinarith [norm3_nonneg b]
  · refine ⟨norm3 b / norm3 a, by rwa [le_div_iff₀ h4], ?_, by field_simp⟩
    rw [div_mul_eq_mul_div, div_le_one h4]
    exact l2

theorem abs_comp_le (v : V3 ℝ) (c : Fin 3) : |v c| ≤ norm3 v := by
  refine Real.abs_le_sqrt ?_
  fin_cases c <;> simp <;> nlinarith [sq_nonneg (v 0), sq_nonneg (v 1), sq_nonneg (v 2)]

theorem axis_comp (a : V3 ℝ) (c : Fin 3) : |axisOf a c| ≤ 1 := by
  have h : ∀ c, |a c / norm3 a| ≤ 1 := fun c => by
    rw [abs_div, abs_of_nonneg (norm3_nonneg a)]
    exact div_le_one_of_le₀ (abs_comp_le a c) (norm3_nonneg a)
  fin_cases c
  · simpa [axisOf, neg_div, abs_neg] using h 2
  · simpa [axisOf] using h 1
  · simpa [axisOf, neg_div, abs_neg] using h 0

theorem rounded_neg {n : ℕ} {x y : ℝ} (h : Rounded u n x y) : Rounded u n (-x) (-y) := by
  obtain ⟨θ, a, b, c⟩ := h
  exact ⟨θ, a, b, by rw [c]; ring⟩

theorem theta_near (hf : IsRounding A.fl u) (a : V3 ℝ) :
    Rounded u 5 (norm3 a) (norm3Fl A.fl leftSum ![A.fl (a 0), A.fl (a 1), A.fl (a 2)]) := by
  have h1 : Rounded u 1 (norm3 a) (norm3 ![A.fl (a 0), A.fl (a 1), A.fl (a 2)]) :=
    norm3_components hf.nonneg hf.lt fun c => by fin_cases c <;> exact Rounded.one hf _
  exact h1.trans hf.lt (norm3_rounded hf leftSum_complete _)

theorem axis_near (hf : IsRounding A.fl u) (a : V3 ℝ) {t : ℝ} (ht : Rounded u 5 (norm3 a) t) (c : Fin 3) :
    Rounded u 7 (axisOf a c) ((![A.fl (-A.fl (a 2) / t), A.fl (A.fl (a 1) / t), A.fl (-A.fl (a 0) / t)] : V3 ℝ) c) := by
  have h : ∀ {x y : ℝ}, Rounded u 1 x y → Rounded u 7 (x / norm3 a) (A.fl (y / t)) := fun {x y} hx => by
    rw [div_eq_mul_inv, div_eq_mul_inv]
    exact Rounded.fl_mul hf hx (ht.inv hf.lt)
  fin_cases c
  · exact h (rounded_neg (.one hf _))
  · exact h (.one hf _)
  · exact h (rounded_neg (.one hf _))

/-- The components of a rotated vector, for an axis that is rounded. -/
theorem turn_near (hA : A.Good u k) {T : EnergyObj.Tree (Fin 3)} (hT : T.leaves = Finset.univ.val ∧ T.depth ≤ d) {r r' : V3 ℝ}
    (hr : ∀ c, Rounded u 7 (r c) (r' c)) (hr1 : ∀ c, |r c| ≤ 1) (t : ℝ) (v : V3 ℝ) (c : Fin 3) :
    Approx u (k + d + 19) (rotate r t v c)
      (A.fl (A.fl (A.fl (A.cos t * v c) + A.fl (A.sin t * crossFl A.fl r' v c)) +
        A.fl (A.fl (A.fl (1 - A.cos t) * r' c) * T.sum A.fl fun c => A.fl (r' c * v c)))) (9 * norm3 v) := by
  have hf := hA.fl
  have hm : ∀ {n m : ℕ} {x y s : ℝ}, n ≤ m → Approx u n x y s → Approx u m x y s := fun h h' => h'.mono hf.nonneg hf.lt h le_rfl
  have hR : ∀ c, Approx u 7 (r c) (r' c) 1 := fun c => (Approx.of_rounded (hr c)).mono hf.nonneg hf.lt le_rfl (hr1 c)
  have hv : ∀ c, Approx u 0 (v c) (v c) (norm3 v) := fun c => (Approx.refl (v c)).mono hf.nonneg hf.lt le_rfl (abs_comp_le v c)
  have hrv : ∀ i j, Approx u 8 (r i * v j) (A.fl (r' i * v j)) (1 * norm3 v) := fun i j => (hR i).fl_mul hf (hv j)
  have hx : ∀ i j, Approx u 9 (r i * v j - r j * v i) (A.fl (A.fl (r' i * v j) - A.fl (r' j * v i))) (1 * norm3 v + 1 * norm3 v) :=
    fun i j => ((hrv i j).sub hf.lt (hrv j i)).round hf
  have hw : Approx u 9 (crossProduct r v c) (crossFl A.fl r' v c) (1 * norm3 v + 1 * norm3 v) := by
    fin_cases c
    · simpa [cross_apply, crossFl] using hx 1 2
    · simpa [cross_apply, crossFl] using hx 2 0
    · simpa [cross_apply, crossFl] using hx 0 1
  have hc : Approx u k (Real.cos t) (A.cos t) 1 := (Approx.of_rounded (hA.cos t)).mono hf.nonneg hf.lt le_rfl (Real.abs_cos_le_one t)
  have hs : Approx u k (Real.sin t) (A.sin t) 1 := (Approx.of_rounded (hA.sin t)).mono hf.nonneg hf.lt le_rfl (Real.abs_sin_le_one t)
  have h1 : Approx u k (1 : ℝ) 1 1 := by
    have := hm (Nat.zero_le k) (Approx.refl (u := u) (1 : ℝ))
    rwa [abs_one] at this
  have t1 := hc.fl_mul hf (hv c)
  have t2 := hs.fl_mul hf hw
  have t12 := ((hm (show k + 0 + 1 ≤ k + 9 + 1 by omega) t1).add t2).round hf
  have hdot := Approx.tree_univ hf hT fun c => hrv c c
  have t3 := ((((h1.sub hf.lt hc).round hf).fl_mul hf (hR c)).fl_mul hf hdot)
  have t4 := ((hm (show k + 9 + 1 + 1 ≤ k + 1 + 7 + 1 + (8 + d) + 1 by omega) t12).add t3).round hf
  have t5 := t4.mono hf.nonneg hf.lt (show k + 1 + 7 + 1 + (8 + d) + 1 + 1 ≤ k + d + 19 by omega) le_rfl
  convert t5 using 1
  · simp only [rotate, Pi.add_apply, Pi.smul_apply, smul_eq_mul, dotProduct]
    ring
  · simp only [Fin.sum_univ_three]
    ring

/-- **C111, one row.** The new row is the old one turned about the axis that the search direction gives, by its angle up to round-off; an angle
below the limit of the program counts as zero. -/
theorem C111_row (hA : A.Good u k) (hu : u ≤ 1 / 10000) (hN : (k + d + 19 : ℕ) * u < 1) {T : EnergyObj.Tree (Fin 3)}
    (hT : T.leaves = Finset.univ.val ∧ T.depth ≤ d) (a v : V3 ℝ) :
    ∃ t, (|t - norm3 a| ≤ gamma u 5 * norm3 a ∨ t = 0 ∧ norm3 a < 2 * eps) ∧
      ∀ c, |rotateRowFl A T (A.fl (a 0)) (A.fl (a 1)) (A.fl (a 2)) v c - rotate (axisOf a) t v c| ≤ 9 * gamma u (k + d + 19) * norm3 v := by
  have hf := hA.fl
  have h5 : ((5 : ℕ) : ℝ) * u < 1 := by norm_num; linarith
  have hg : 0 ≤ gamma u (k + d + 19) := div_nonneg (mul_nonneg (Nat.cast_nonneg _) hf.nonneg) (by linarith)
  have ht := theta_near hf a
  unfold rotateRowFl
  simp only
  by_cases h : norm3Fl A.fl leftSum ![A.fl (a 0), A.fl (a 1), A.fl (a 2)] < eps
  · refine ⟨0, .inr ⟨rfl, ?_⟩, fun c => ?_⟩
    · have h1 := rounded_symm hf.lt ht
      have h0 : 0 ≤ norm3Fl A.fl leftSum ![A.fl (a 0), A.fl (a 1), A.fl (a 2)] := by
        obtain ⟨θ, l, -, e⟩ := ht
        rw [e]
        exact mul_nonneg (norm3_nonneg a) ((pow_nonneg (by linarith [hf.lt]) _).trans l)
      have h2 := rounded_le hf.nonneg hf.lt h5 h1 h0
      have h3 : gamma u 5 ≤ 1 := by
        unfold gamma
        rw [div_le_one (by linarith)]
        norm_num
        linarith
      nlinarith
    · rw [if_pos h]
      simp only [rotate, Real.cos_zero, Real.sin_zero, one_smul, zero_smul, add_zero, sub_self, zero_mul, abs_zero]
      exact mul_nonneg (mul_nonneg (by norm_num) hg) (norm3_nonneg v)
  · refine ⟨_, .inl (ht.error hf.nonneg hf.lt h5 |>.trans_eq (by rw [abs_of_nonneg (norm3_nonneg a)])), fun c => ?_⟩
    rw [if_neg h]
    refine ((turn_near hA hT (axis_near hf a ht) (axis_comp a) _ v c).error hf.nonneg hf.lt hN).trans_eq ?_
    ring

theorem axisOf_unit {a : V3 ℝ} (h : norm3 a ≠ 0) : axisOf a ⬝ᵥ axisOf a = 1 := by
  have hs := norm3_sq a
  simp only [axisOf, dotProduct, Fin.sum_univ_three, cons_val_zero, cons_val_one, cons_val_two, head_cons, tail_cons]
  field_simp
  linarith

theorem norm3_rotate {a : V3 ℝ} {t : ℝ} (h : norm3 a ≠ 0 ∨ t = 0) (v : V3 ℝ) : norm3 (rotate (axisOf a) t v) = norm3 v := by
  rcases h with h | rfl
  · have h1 := rotate_dot_rotate (axisOf_unit h) t v v
    simp only [dotProduct, Fin.sum_univ_three] at h1
    unfold norm3
    congr 1
    linarith
  · simp [rotate]

/-- **C111, lengths.** An update keeps the lengths of the rows up to round-off, whatever the search direction and the step are. -/
theorem C111_length (hA : A.Good u k) (hu : u ≤ 1 / 10000) (hN : (k + d + 19 : ℕ) * u < 1) {T : EnergyObj.Tree (Fin 3)}
    (hT : T.leaves = Finset.univ.val ∧ T.depth ≤ d) (a v : V3 ℝ) :
    |norm3 (rotateRowFl A T (A.fl (a 0)) (A.fl (a 1)) (A.fl (a 2)) v) - norm3 v| ≤ 18 * gamma u (k + d + 19) * norm3 v := by
  obtain ⟨t, h1, h2⟩ := C111_row hA hu hN hT a v
  have h3 := norm3_close h2
  rw [norm3_rotate] at h3
  · linarith
  · by_cases h0 : norm3 a = 0
    · right
      rcases h1 with h1 | h1
      · rw [h0, mul_zero, sub_zero] at h1
        exact abs_eq_zero.1 (le_antisymm h1 (abs_nonneg t))
      · exact h1.1
    · exact .inl h0

theorem turned_rows (hA : A.Good u k) (hu : u ≤ 1 / 10000) (hN : (k + d + 19 : ℕ) * u < 1) {T : ℕ → EnergyObj.Tree (Fin 3)}
    (hT : ∀ i, (T i).leaves = Finset.univ.val ∧ (T i).depth ≤ d) (count : ℕ) (p : Arr) (step : ℝ) (x : List (V3 ℝ)) :
    Turned u (9 * gamma u (k + d + 19)) count p step x (rotateRowsFl A T count p step x) := by
  refine ⟨by simp [rotateRowsFl], fun i hi => ⟨fun hc => ?_, fun hc => ?_⟩⟩
  · have e : (rotateRowsFl A T count p step x).getD i 0 =
        rotateRowFl A (T i) (A.fl (entries p step i 0)) (A.fl (entries p step i 1)) (A.fl (entries p step i 2)) (x.getD i 0) := by
      simp [rotateRowsFl, List.getD, hi, hc, entries]
    rw [e]
    exact C111_row hA hu hN (hT i) (entries p step i) (x.getD i 0)
  · simp [rotateRowsFl, List.getD, hi, Nat.not_lt.2 hc]

/-- **C111, ferro.** All rows are turned as the search direction says. -/
theorem C111_ferro (hA : A.Good u k) (hu : u ≤ 1 / 10000) (hN : (k + d + 19 : ℕ) * u < 1) {T : ℕ → EnergyObj.Tree (Fin 3)}
    (hT : ∀ i, (T i).leaves = Finset.univ.val ∧ (T i).depth ≤ d) (x : List (V3 ℝ)) (p : Arr) (step : ℝ) :
    Turned u (9 * gamma u (k + d + 19)) x.length p step x (updateFerroFl A T (3 * x.length) x p step) := by
  have := turned_rows hA hu hN hT x.length p step x
  unfold updateFerroFl
  rwa [Nat.mul_div_cancel_left _ (by norm_num)]

/-- **C111, antiferro.** The gradient has `3 I + 3` entries, of which the program uses `3 I` for rows: the spins are turned, the cone axis (the
last row) and the spiral vector are kept. -/
theorem C111_antiferro (hA : A.Good u k) (hu : u ≤ 1 / 10000) (hN : (k + d + 19 : ℕ) * u < 1) {T : ℕ → EnergyObj.Tree (Fin 3)}
    (hT : ∀ i, (T i).leaves = Finset.univ.val ∧ (T i).depth ≤ d) (n : ℕ) (x : ConeX) (p : Arr) (step : ℝ) :
    Turned u (9 * gamma u (k + d + 19)) n p step x.1 (updateAntiferroFl A T (3 * n + 3) x p step).1 ∧
      (updateAntiferroFl A T (3 * n + 3) x p step).2 = x.2 := by
  have := turned_rows hA hu hN hT ((3 * n + 3 - 3) / 3) p step x.1
  rw [Nat.add_sub_cancel, Nat.mul_div_cancel_left _ (by norm_num)] at this
  refine ⟨?_, rfl⟩
  unfold updateAntiferroFl
  rwa [Nat.add_sub_cancel, Nat.mul_div_cancel_left _ (by norm_num)]

/-- **C111, spiral.** The gradient has `3 I + 6` entries: the spins and the cone axis are turned, the last three entries times the step are added
to the spiral vector. -/
theorem C111_spiral (hA : A.Good u k) (hu : u ≤ 1 / 10000) (hN : (k + d + 19 : ℕ) * u < 1) {T : ℕ → EnergyObj.Tree (Fin 3)}
    (hT : ∀ i, (T i).leaves = Finset.univ.val ∧ (T i).depth ≤ d) (n : ℕ) (x : ConeX) (p : Arr) (step : ℝ) :
    Turned u (9 * gamma u (k + d + 19)) (n + 1) p step x.1 (updateSpiralFl A T (3 * n + 6) x p step).1 ∧
      ∀ c : Fin 3, |(updateSpiralFl A T (3 * n + 6) x p step).2 c - (x.2 c + p (3 * n + 3 + c) * step)| ≤
        gamma u 2 * (|x.2 c| + |p (3 * n + 3 + c) * step|) := by
  have hf := hA.fl
  have := turned_rows hA hu hN hT ((3 * (n + 1) + 3 - 3) / 3) p step x.1
  rw [Nat.add_sub_cancel, Nat.mul_div_cancel_left _ (by norm_num)] at this
  have e : 3 * n + 6 = 3 * (n + 1) + 3 := by ring
  refine ⟨?_, fun c => ?_⟩
  · unfold updateSpiralFl
    rwa [e, Nat.add_sub_cancel, Nat.mul_div_cancel_left _ (by norm_num)]
  · have h1 : Approx u 1 (p (3 * n + 3 + c) * step) (A.fl (p (3 * n + 3 + c) * step)) |p (3 * n + 3 + c) * step| := .of_rounded (.one hf _)
    have h2 := (((Approx.refl (x.2 c)).mono hf.nonneg hf.lt (Nat.zero_le 1) le_rfl).add h1).round hf
    refine h2.error hf.nonneg hf.lt ?_
    norm_num
    linarith

/-- What a call of the gradient does to one component. -/
noncomputable def back (fl : ℝ → ℝ) (h v : ℝ) : ℝ := fl (fl (fl (v - h) + fl (2 * h)) - h)

theorem back_near {fl : ℝ → ℝ} (hf : IsRounding fl u) (hu : u ≤ 1 / 10000) {v : ℝ} (hv : |v| ≤ 1 + 1 / 2000) :
    |back fl (fl fdStep) v - v| ≤ 6 * u := by
  obtain ⟨s1, s2⟩ := fdStep_fl hf hu
  have hu0 := hf.nonneg
  have e : fdStep = 1 / 10000 := rfl
  have hv' := abs_le.1 hv
  have a1 := step_sub_close hf (w := v) (w0 := v) (d := 0) (by simp) (hv.trans (by norm_num)) (by norm_num) s1 (by rw [e]; norm_num) hu
  have a2 := step_close hf a1 (by rw [e, abs_le]; constructor <;> linarith [hv'.1, hv'.2]) (by linarith) s2 (by rw [e]; norm_num) hu
  have a3 := step_sub_close hf a2 (by rw [e, abs_le]; constructor <;> linarith [hv'.1, hv'.2]) (by linarith) s1 (by rw [e]; norm_num) hu
  unfold back
  convert a3 using 1
  · congr 1
    ring
  · ring

theorem setComp_setComp (x : List (V3 ℝ)) (i : ℕ) (j : Fin 3) (f g : ℝ → ℝ) :
    setComp (setComp x i j f) i j g = setComp x i j fun v => g (f v) := by
  by_cases hi : i < x.length
  · unfold setComp
    rw [List.set_set]
    congr 1
    funext a
    by_cases ha : a = j <;> simp [List.getD, hi, ha]
  · unfold setComp
    simp [List.set_eq_of_length_le (Nat.not_lt.1 hi)]

theorem gradComp_array (fl : ℝ → ℝ) (h : ℝ) (F : Bool → List (V3 ℝ) → ℝ) (x : List (V3 ℝ)) (i : ℕ) (j : Fin 3) :
    (gradCompFl fl h F x i j).2 = setComp x i j (back fl h) := by
  unfold gradCompFl
  simp only [setComp_setComp]
  rfl

theorem rowTorque_array (fl : ℝ → ℝ) (h : ℝ) (F : Fin 3 → Bool → List (V3 ℝ) → ℝ) (x : List (V3 ℝ)) (i : ℕ) :
    (rowTorqueFl fl h F x i).2 = x.set i fun a => back fl h (x.getD i 0 a) := by
  unfold rowTorqueFl
  simp only [gradComp_array]
  by_cases hi : i < x.length
  · unfold setComp
    rw [List.set_set, List.set_set]
    congr 1
    funext a
    fin_cases a <;> simp [List.getD, hi]
  · unfold setComp
    simp [List.set_eq_of_length_le (Nat.not_lt.1 hi)]

theorem rowTorques_array (fl : ℝ → ℝ) (h : ℝ) (F : ℕ → Fin 3 → Bool → List (V3 ℝ) → ℝ) : ∀ (is : List ℕ) (x : List (V3 ℝ)), is.Nodup →
    (rowTorquesFl fl h F is x).2.length = x.length ∧ ∀ k < x.length,
      (rowTorquesFl fl h F is x).2.getD k 0 = if k ∈ is then fun a => back fl h (x.getD k 0 a) else x.getD k 0
  | [], x, _ => by simp [rowTorquesFl]
  | i :: is, x, hn => by
    obtain ⟨h1, h2⟩ := rowTorques_array fl h F is (rowTorqueFl fl h (F i) x i).2 (List.nodup_cons.1 hn).2
    rw [rowTorque_array] at h1 h2
    have e : (rowTorquesFl fl h F (i :: is) x).2 = (rowTorquesFl fl h F is (rowTorqueFl fl h (F i) x i).2).2 := rfl
    rw [e, rowTorque_array]
    rw [List.length_set] at h1 h2
    refine ⟨h1, fun k hk => ?_⟩
    rw [h2 k hk]
    by_cases hki : k = i
    · subst hki
      rw [if_neg (List.nodup_cons.1 hn).1, if_pos (by simp)]
      simp [List.getD, hk]
    · have e2 : (x.set i fun a => back fl h (x.getD i 0 a)).getD k 0 = x.getD k 0 := by
        simp [List.getD, List.getElem?_set_ne (Ne.symm hki)]
      rw [e2]
      simp [hki]

/-- **C111, start.** The normalization of the starting point gives unit vectors up to `d + 3` roundings. -/
theorem C111_start {fl : ℝ → ℝ} (hf : IsRounding fl u) (hd : (d + 3 : ℕ) * u < 1) {T : ℕ → EnergyObj.Tree (Fin 3)}
    (hT : ∀ i, (T i).leaves = Finset.univ.val ∧ (T i).depth ≤ d) {x : List (V3 ℝ)} (hx : ∀ v ∈ x, v ≠ 0) :
    NearUnit x.length (gamma u (d + 3)) (x.zipIdx.map fun p => normalizeFl fl (T p.2) p.1) := by
  refine ⟨by simp, fun i hi => ?_⟩
  have e : (x.zipIdx.map fun p => normalizeFl fl (T p.2) p.1).getD i 0 = normalizeFl fl (T i) x[i] := by
    simp [List.getD, hi]
  rw [e]
  have h1 : ∀ c, Rounded u (d + 3) (EnergyObj.normalize x[i] c) (normalizeFl fl (T i) x[i] c) := fun c => by
    unfold EnergyObj.normalize normalizeFl
    rw [div_eq_mul_inv, div_eq_mul_inv]
    have := Rounded.fl_mul hf (.refl (x[i] c)) ((norm3_rounded hf (hT i) x[i]).inv hf.lt)
    rwa [show 0 + (d + 2) + 1 = d + 3 by omega] at this
  have h2 := norm3_components hf.nonneg hf.lt h1
  have h3 : norm3 (EnergyObj.normalize x[i]) = 1 := by
    have h4 := normalize_unit (hx _ (List.getElem_mem hi))
    simp only [dotProduct, Fin.sum_univ_three] at h4
    have h5 := norm3_sq (EnergyObj.normalize x[i])
    nlinarith [norm3_nonneg (EnergyObj.normalize x[i])]
  rw [h3] at h2
  simpa using h2.error hf.nonneg hf.lt hd

theorem u_le_gamma (hu0 : 0 ≤ u) (hN : (k + d + 19 : ℕ) * u < 1) : u ≤ gamma u (k + d + 19) := by
  unfold gamma
  rw [le_div_iff₀ (by linarith)]
  push_cast
  nlinarith [mul_nonneg hu0 hu0, (Nat.cast_nonneg k : (0 : ℝ) ≤ k), (Nat.cast_nonneg d : (0 : ℝ) ≤ d), mul_nonneg hu0 (Nat.cast_nonneg (α := ℝ) k),
    mul_nonneg hu0 (Nat.cast_nonneg (α := ℝ) d), mul_nonneg (mul_nonneg hu0 hu0) (Nat.cast_nonneg (α := ℝ) k),
    mul_nonneg (mul_nonneg hu0 hu0) (Nat.cast_nonneg (α := ℝ) d)]

theorem nearUnit_grad {fl : ℝ → ℝ} (hf : IsRounding fl u) (hu : u ≤ 1 / 10000) (F : ℕ → Fin 3 → Bool → List (V3 ℝ) → ℝ) {m : ℕ} {e g : ℝ}
    {y : List (V3 ℝ)} (h : NearUnit m e y) (he0 : 0 ≤ e) (he : e ≤ 1 / 2000) (hg : u ≤ g) :
    NearUnit m ((1 + e) * (1 + 18 * g) - 1) (rowTorquesFl fl (fl fdStep) F (List.range y.length) y).2 := by
  have hu0 := hf.nonneg
  obtain ⟨l, h⟩ := h
  obtain ⟨a1, a2⟩ := rowTorques_array fl (fl fdStep) F (List.range y.length) y List.nodup_range
  refine ⟨a1.trans l, fun i hi => ?_⟩
  have h1 := h i hi
  have h2 := a2 i (l ▸ hi)
  rw [if_pos (by simpa [l] using hi)] at h2
  have h3 : ∀ c, |(rowTorquesFl fl (fl fdStep) F (List.range y.length) y).2.getD i 0 c - y.getD i 0 c| ≤ 6 * u := fun c => by
    rw [h2]
    refine back_near hf hu ((abs_comp_le _ c).trans ?_)
    linarith [(abs_le.1 h1).2]
  have h4 := abs_le.1 (norm3_close h3)
  have h5 := abs_le.1 h1
  rw [abs_le]
  constructor <;> nlinarith

theorem nearUnit_update (hA : A.Good u k) (hu : u ≤ 1 / 10000) (hN : (k + d + 19 : ℕ) * u < 1) {T : ℕ → EnergyObj.Tree (Fin 3)}
    (hT : ∀ i, (T i).leaves = Finset.univ.val ∧ (T i).depth ≤ d) (count : ℕ) (p : Arr) (step : ℝ) {m : ℕ} {e : ℝ} {y : List (V3 ℝ)}
    (h : NearUnit m e y) (he0 : 0 ≤ e) :
    NearUnit m ((1 + e) * (1 + 18 * gamma u (k + d + 19)) - 1) (rotateRowsFl A T count p step y) := by
  have hg := u_le_gamma hA.fl.nonneg hN
  have hu0 := hA.fl.nonneg
  obtain ⟨l, h⟩ := h
  refine ⟨by simp [rotateRowsFl, l], fun i hi => ?_⟩
  have h1 := abs_le.1 (h i hi)
  by_cases hc : i < count
  · have e : (rotateRowsFl A T count p step y).getD i 0 =
        rotateRowFl A (T i) (A.fl (entries p step i 0)) (A.fl (entries p step i 1)) (A.fl (entries p step i 2)) (y.getD i 0) := by
      simp [rotateRowsFl, List.getD, l, hi, hc, entries]
    rw [e]
    have h2 := abs_le.1 (C111_length hA hu hN (hT i) (entries p step i) (y.getD i 0))
    rw [abs_le]
    constructor <;> nlinarith
  · have e : (rotateRowsFl A T count p step y).getD i 0 = y.getD i 0 := by
      simp [rotateRowsFl, List.getD, l, hi, hc]
    rw [e, abs_le]
    constructor <;> nlinarith

/-- Rows that are nearly unit vectors are near to unit vectors. -/
theorem nearUnit_exists {m : ℕ} {e : ℝ} {y : List (V3 ℝ)} (h : NearUnit m e y) (he0 : 0 ≤ e) (he : e ≤ 1 / 2000) :
    ∃ z, AllUnit z ∧ z.length = m ∧ ∀ i a, |y.getD i 0 a - z.getD i 0 a| ≤ e := by
  obtain ⟨l, h1⟩ := h
  have hpos : ∀ i < m, 0 < norm3 (y.getD i 0) := fun i hi => by linarith [(abs_le.1 (h1 i hi)).1]
  refine ⟨y.map EnergyObj.normalize, ?_, by simp [l], ?_⟩
  · intro v hv
    obtain ⟨w, hw, rfl⟩ := List.mem_map.1 hv
    obtain ⟨i, hi, rfl⟩ := List.getElem_of_mem hw
    have h2 := hpos i (l ▸ hi)
    rw [List.getD_eq_getElem _ _ hi] at h2
    refine normalize_unit fun h3 => ?_
    rw [h3] at h2
    simp [norm3] at h2
  · intro i a
    rw [getD_normalize]
    by_cases hi : i < m
    · have h2 := hpos i hi
      have h3 : y.getD i 0 a - EnergyObj.normalize (y.getD i 0) a = EnergyObj.normalize (y.getD i 0) a * (norm3 (y.getD i 0) - 1) := by
        unfold EnergyObj.normalize
        field_simp
      rw [h3, abs_mul]
      calc _ ≤ 1 * |norm3 (y.getD i 0) - 1| := mul_le_mul_of_nonneg_right (normalize_le _ a) (abs_nonneg _)
        _ ≤ _ := by rw [one_mul]; exact h1 i hi
    · have h2 : y.getD i 0 = 0 := by
        rw [List.getD_eq_default]
        omega
      rw [h2]
      simpa [EnergyObj.normalize] using he0

theorem pow_step {g e : ℝ} (hg : 0 ≤ g) (he : 0 ≤ e) {n : ℕ} (hn : (1 + e) * (1 + 18 * g) ^ (n + 1) ≤ 1 + 1 / 2000) :
    (1 + e) * (1 + 18 * g) ^ n ≤ 1 + 1 / 2000 ∧ 0 ≤ (1 + e) * (1 + 18 * g) ^ n - 1 ∧
      (1 + ((1 + e) * (1 + 18 * g) ^ n - 1)) * (1 + 18 * g) - 1 = (1 + e) * (1 + 18 * g) ^ (n + 1) - 1 := by
  have hp : 1 ≤ (1 + 18 * g) ^ n := one_le_pow₀ (by linarith)
  have hq : 1 ≤ (1 + e) * (1 + 18 * g) ^ n := by nlinarith
  rw [pow_succ] at hn ⊢
  exact ⟨by nlinarith, by linarith, by ring⟩

theorem one_le_drift (hu0 : 0 ≤ u) (hN : (k + d + 19 : ℕ) * u < 1) {e : ℝ} (he : 0 ≤ e) (n : ℕ) :
    1 ≤ (1 + e) * (1 + 18 * gamma u (k + d + 19)) ^ n := by
  have hp : 1 ≤ (1 + 18 * gamma u (k + d + 19)) ^ n := one_le_pow₀ (by linarith [u_le_gamma hu0 hN])
  nlinarith

/-- **C111, runs.** In a run of the ferro case with `n` calls of the gradient and updates, in any order and with any search directions and steps,
unit vectors up to `e` stay unit vectors up to `(1 + e) (1 + 18 γ)ⁿ - 1`. -/
theorem C111_run (hA : A.Good u k) (hu : u ≤ 1 / 10000) (hN : (k + d + 19 : ℕ) * u < 1) (E : EnergyObj ℝ) (muB : ℝ) (cell : ℕ → M3 ℝ)
    {x y : List (V3 ℝ)} {e : ℝ} (he : 0 ≤ e) (h0 : NearUnit E.spins.length e x) {n : ℕ} (h : Run A d E muB cell x n y)
    (hn : (1 + e) * (1 + 18 * gamma u (k + d + 19)) ^ n ≤ 1 + 1 / 2000) :
    NearUnit E.spins.length ((1 + e) * (1 + 18 * gamma u (k + d + 19)) ^ n - 1) y := by
  have hg := u_le_gamma hA.fl.nonneg hN
  have hg0 := hA.fl.nonneg.trans hg
  induction h with
  | start => simpa using h0
  | @grad n y S _ ih =>
    obtain ⟨h1, h2, h3⟩ := pow_step hg0 he hn
    have := nearUnit_grad hA.fl hu (fun i j s l => ferroUnitFl A.fl (S i j s) E muB cell
      (l.zipIdx.map fun p => normalizeFl A.fl ((S i j s).norm p.2) p.1)) (ih h1) h2 (by linarith) hg
    rwa [h3] at this
  | @update n y T hT p step _ ih =>
    obtain ⟨h1, h2, h3⟩ := pow_step hg0 he hn
    have := nearUnit_update hA hu hN hT (3 * E.spins.length / 3) p step (ih h1) h2
    rwa [h3] at this

/-- **C111, torques in a run.** At every point of a run of the ferro case the computed torques are the derivatives of the energy at unit vectors
near to the array of spins, up to the error of C108. -/
theorem C111_torques (hA : A.Good u k) (hu : u ≤ 1 / 10000) (hN : (k + d + 19 : ℕ) * u < 1) (E : EnergyObj ℝ) (muB : ℝ) (cell : ℕ → M3 ℝ)
    (hE : E.roundings d * u < 1) (hne : E.spins ≠ []) {S : ℕ → Fin 3 → Bool → Sums} (hS : ∀ i j s, (S i j s).Complete E.spins.length d)
    {x y : List (V3 ℝ)} {e : ℝ} (he : 0 ≤ e) (h0 : NearUnit E.spins.length e x) {n : ℕ} (h : Run A d E muB cell x n y)
    (hn : (1 + e) * (1 + 18 * gamma u (k + d + 19)) ^ n ≤ 1 + 1 / 2000) :
    ∃ z, AllUnit z ∧ z.length = E.spins.length ∧ (∀ i a, |y.getD i 0 a - z.getD i 0 a| ≤ (1 + e) * (1 + 18 * gamma u (k + d + 19)) ^ n - 1) ∧
      ∃ T : ℕ → V3 ℝ, HasTorques (fun l => E.ferro muB cell (arr l)) z T ∧ ∀ i < E.spins.length, ∀ c,
        |(ferroGradFl A.fl S E muB cell y).2.1.getD i 0 c - T i c| ≤ (72 / 10 ^ 8 + 22000 * gamma u (E.roundings d) +
          10 ^ 6 * ((1 + e) * (1 + 18 * gamma u (k + d + 19)) ^ n - 1 + 2 * u)) * strength E muB cell := by
  have hp := one_le_drift hA.fl.nonneg hN he n
  have hy := C111_run hA hu hN E muB cell he h0 h hn
  obtain ⟨z, hz, hzl, hyz⟩ := nearUnit_exists hy (by linarith) (by linarith)
  have l := hy.1
  obtain ⟨T, t1, -, t3⟩ := C108_torques hA.fl hu E muB cell hE hS hne y z (by linarith) (by linarith) l hzl hz hyz
  exact ⟨z, hz, hzl, hyz, T, t1, t3⟩

/-- **C111, end of a run.** When the loop of the ferro case ends by its condition after `n` calls of the gradient and updates, the last torques are
those of the energy at unit vectors near to the array of spins for which they were computed, and they are within the tolerance up to round-off. -/
theorem C111_stop (hA : A.Good u k) (hu : u ≤ 1 / 10000) (hN : (k + d + 19 : ℕ) * u < 1) (E : EnergyObj ℝ) (muB : ℝ) (cell : ℕ → M3 ℝ)
    (hE : E.roundings d * u < 1) (hne : E.spins ≠ []) {S : ℕ → Fin 3 → Bool → Sums} (hS : ∀ i j s, (S i j s).Complete E.spins.length d)
    {R : ℕ → EnergyObj.Tree (Fin 3)} (hR : ∀ i, (R i).leaves = Finset.univ.val ∧ (R i).depth ≤ d)
    {x y : List (V3 ℝ)} {e : ℝ} (he : 0 ≤ e) (h0 : NearUnit E.spins.length e x) {n : ℕ} (h : Run A d E muB cell x n y)
    (hn : (1 + e) * (1 + 18 * gamma u (k + d + 19)) ^ n ≤ 1 + 1 / 2000) (t0 t1 previous current : ℝ) (targets : List ℝ)
    (ht : targetFerroFl A.fl R (ferroGradFl A.fl S E muB cell y).2.1 = .ok targets)
    (hstop : ¬ goOnFl A.fl [t0, t1] previous current targets) :
    ∃ z, AllUnit z ∧ z.length = E.spins.length ∧ (∀ i a, |y.getD i 0 a - z.getD i 0 a| ≤ (1 + e) * (1 + 18 * gamma u (k + d + 19)) ^ n - 1) ∧
      ∃ T : ℕ → V3 ℝ, HasTorques (fun l => E.ferro muB cell (arr l)) z T ∧ ∀ i < E.spins.length,
        norm3 (T i) ≤ (1 + gamma u (d + 2)) * t1 + 2 * ((72 / 10 ^ 8 + 22000 * gamma u (E.roundings d) +
          10 ^ 6 * ((1 + e) * (1 + 18 * gamma u (k + d + 19)) ^ n - 1 + 2 * u)) * strength E muB cell) := by
  have hp := one_le_drift hA.fl.nonneg hN he n
  have hy := C111_run hA hu hN E muB cell he h0 h hn
  obtain ⟨z, hz, hzl, hyz⟩ := nearUnit_exists hy (by linarith) (by linarith)
  have l := hy.1
  have hd : (d + 2 : ℕ) * u < 1 := by
    refine lt_of_le_of_lt (mul_le_mul_of_nonneg_right ?_ hA.fl.nonneg) hN
    exact_mod_cast (show d + 2 ≤ k + d + 19 by omega)
  obtain ⟨-, T, h1, h2⟩ := C110_converged hA.fl hu E muB cell hE hd hS hR hne y z (by linarith) (by linarith) l hzl hz hyz t0 t1 previous current
    targets ht hstop
  exact ⟨z, hz, hzl, hyz, T, h1, h2⟩

theorem chop_good : Arith.Good ⟨Param.chop 52, fun x => Param.chop 52 (Real.cos x), fun x => Param.chop 52 (Real.sin x)⟩ (1 / 2 ^ 52) 1 :=
  have hf : IsRounding (Param.chop 52) (1 / 2 ^ 52) := (Param.chop_isFloat 52 (by norm_num)).toIsRounding
  ⟨hf, fun _ => .one hf _, fun _ => .one hf _⟩

/-- A quarter turn with floats of 53 bits that are rounded towards zero: the spin along `x` points along `-y` afterwards. -/
example : (rotateRowFl ⟨Param.chop 52, fun x => Param.chop 52 (Real.cos x), fun x => Param.chop 52 (Real.sin x)⟩ (.ofList (List.finRange 3))
    (Param.chop 52 (Real.pi / 2)) (Param.chop 52 0) (Param.chop 52 0) ![1, 0, 0]) 1 ≤ -99 / 100 := by
  obtain ⟨t, h1, h2⟩ := C111_row (d := 12) (T := .ofList (List.finRange 3)) chop_good (by norm_num) (by norm_num) ((sequential_complete 1).norm 0) ![Real.pi / 2, 0, 0] ![1, 0, 0]
  have hp := Real.pi_gt_three
  have hp4 := Real.pi_le_four
  have hn : norm3 ![Real.pi / 2, 0, 0] = Real.pi / 2 := by
    simp [norm3]
    exact Real.sqrt_sq (by linarith)
  have hn1 : norm3 ![1, 0, 0] = 1 := by simp [norm3]
  have h3 := h2 1
  rw [hn1] at h3
  have hr : rotate (axisOf ![Real.pi / 2, 0, 0]) t ![1, 0, 0] 1 = -Real.sin t := by
    simp [rotate, axisOf, hn, cross_apply]
  have hg : gamma (1 / 2 ^ 52 : ℝ) (1 + 12 + 19) ≤ 1 / 10 ^ 10 := by norm_num [gamma]
  have hg5 : gamma (1 / 2 ^ 52 : ℝ) 5 ≤ 1 / 10 ^ 10 := by norm_num [gamma]
  rw [hn] at h1
  have h4 : |t - Real.pi / 2| ≤ 1 / 100 := by
    rcases h1 with h1 | ⟨-, h1⟩
    · refine h1.trans ?_
      nlinarith
    · have : eps ≤ 1 / 2 := by norm_num [eps]
      linarith
  have h5 : 999 / 1000 ≤ Real.sin t := by
    have h6 := Real.one_sub_sq_div_two_le_cos (x := t - Real.pi / 2)
    rw [Real.cos_sub_pi_div_two] at h6
    have h7 := sq_le_sq' (abs_le.1 h4).1 (abs_le.1 h4).2
    linarith
  rw [hr] at h3
  have h8 := (abs_le.1 h3).2
  simp only [cons_val_zero, cons_val_one, cons_val_two, head_cons, tail_cons] at h8
  linarith

open OneSpin in
/-- One spin along `(3, 0, 4)`, normalized by the program, in a field along `x` with floats of 53 bits: after a call of the gradient and an update by
any search direction and step, the length of the spin is right up to `10⁻¹⁰`. -/
example (p : Arr) (step : ℝ) : |norm3 ((updateFerroFl ⟨Param.chop 52, fun x => Param.chop 52 (Real.cos x), fun x => Param.chop 52 (Real.sin x)⟩
      (fun _ => .ofList (List.finRange 3)) 3 (ferroGradFl (Param.chop 52) (fun _ _ _ => Sums.sequential 1) (obj 1 0 (9 / 10)) 1 (mat 0)
        [normalizeFl (Param.chop 52) (.ofList (List.finRange 3)) ![3, 0, 4]]).2.2 p step).getD 0 0) - 1| ≤ 1 / 10 ^ 10 := by
  have h0 := C111_start (d := 12) (u := 1 / 2 ^ 52) chop_good.fl (by norm_num) (T := fun _ => .ofList (List.finRange 3))
    (fun i => (sequential_complete 1).norm i) (x := [![3, 0, 4]]) (by simp)
  have h := C111_run (d := 12) chop_good (by norm_num) (by norm_num) (obj 1 0 (9 / 10)) 1 (mat 0) (by norm_num [gamma]) h0
    (.update (fun _ => .ofList (List.finRange 3)) (fun i => (sequential_complete 1).norm i) p step
      (.grad (fun _ _ _ => Sums.sequential 1) .start)) (by norm_num [gamma])
  refine (h.2 0 (by simp [obj])).trans ?_
  norm_num [gamma]

end Optimize
end Magnopy
