import Verif.Lemmas.Frame

/-!
# C42: local frames of the spins
-/

set_option autoImplicit false
set_option linter.unusedSectionVars false

namespace Magnopy

open EnergyObj Matrix

namespace Frame

theorem normalize_directs {v : V3 ℝ} (hv : v ≠ 0) : Directs (EnergyObj.normalize v) v := by
  refine ⟨normalize_unit hv, norm3 v, norm3_pos hv, ?_⟩
  rw [normalize_eq, smul_smul, mul_inv_cancel₀ (norm3_pos hv).ne', one_smul]

theorem rightHanded_up : RightHanded !![1, 0, 0; 0, 1, 0; 0, 0, 1] := by
  constructor
  · intro i j; fin_cases i <;> fin_cases j <;> simp [dotProduct, Fin.sum_univ_three]
  · rw [cross_apply]; ext i; fin_cases i <;> simp

theorem rightHanded_down : RightHanded !![1, 0, 0; 0, -1, 0; 0, 0, -1] := by
  constructor
  · intro i j; fin_cases i <;> fin_cases j <;> simp [dotProduct, Fin.sum_univ_three]
  · rw [cross_apply]; ext i; fin_cases i <;> simp

theorem sq_eq_one_or {x : ℝ} (h : x ^ 2 = 1) : x = 1 ∨ x = -1 := by
  have : (x - 1) * (x + 1) = 0 := by linear_combination h
  rcases mul_eq_zero.1 this with h | h
  · exact Or.inl (by linarith)
  · exact Or.inr (by linarith)

/-- A unit vector close to the third axis is very close to it. -/
theorem third_close {x y c : ℝ} (h : x ^ 2 + y ^ 2 + c ^ 2 = 1) (hx : |x| ≤ 1 / 10 ^ 8) (hy : |y| ≤ 1 / 10 ^ 8)
    (hc : 0 ≤ c) : |c - 1| ≤ 1 / 10 ^ 8 := by
  have h1 : x ^ 2 ≤ (1 / 10 ^ 8) ^ 2 := sq_le_sq' (by linarith [abs_le.1 hx]) (abs_le.1 hx).2
  have h2 : y ^ 2 ≤ (1 / 10 ^ 8) ^ 2 := sq_le_sq' (by linarith [abs_le.1 hy]) (abs_le.1 hy).2
  have h3 : c ≤ 1 := by nlinarith [sq_nonneg x, sq_nonneg y]
  rw [abs_le]
  constructor <;> nlinarith

theorem allClose_iff {d : V3 ℝ} {x : ℝ} (hx : |x| = 1) :
    AllClose d ![0, 0, x] ↔ |d 0| ≤ 1 / 10 ^ 8 ∧ |d 1| ≤ 1 / 10 ^ 8 ∧ |d 2 - x| ≤ 1 / 10 ^ 8 + 1 / 10 ^ 5 := by
  unfold AllClose
  rw [Fin.forall_fin_succ, Fin.forall_fin_succ, Fin.forall_fin_succ]
  simp [hx]

end Frame

open Magnopy.Frame

/-- **C42.** For every vector except zero, `span_orthonormal_set` returns a right-handed orthonormal frame.  Its
third vector is the direction `d` of the argument if one of the components of `d` along x and y exceeds 1e-8, and in
every case it agrees with `d` up to 1e-8 in each component. -/
theorem C42_frame (v : V3 ℝ) (hv : v ≠ 0) :
    RightHanded (span v) ∧ ∃ d, Directs d v ∧ ((1 / 10 ^ 8 < |d 0| ∨ 1 / 10 ^ 8 < |d 1|) → span v 2 = d) ∧
      ∀ i, |span v 2 i - d i| ≤ 1 / 10 ^ 8 := by
  set d := EnergyObj.normalize v with hd
  have hu : d 0 ^ 2 + d 1 ^ 2 + d 2 ^ 2 = 1 := by
    have := normalize_unit hv
    rw [← hd] at this
    simp only [dotProduct, Fin.sum_univ_three] at this
    linear_combination this
  have hde : d = ![d 0, d 1, d 2] := by ext i; fin_cases i <;> rfl
  have hz : ∀ x : ℝ, |x| = 1 → AllClose d ![0, 0, x] → ¬ (1 / 10 ^ 8 < |d 0| ∨ 1 / 10 ^ 8 < |d 1|) := by
    intro x hx h
    rw [allClose_iff hx] at h
    rintro (h' | h')
    · exact absurd h.1 (not_le.2 h')
    · exact absurd h.2.1 (not_le.2 h')
  by_cases h1 : AllClose d ![0, 0, 1]
  · have e : span v = !![1, 0, 0; 0, 1, 0; 0, 0, 1] := by unfold span; simp only [← hd]; rw [if_pos h1]
    have h2 := (allClose_iff (by simp)).1 h1
    rw [e]
    refine ⟨rightHanded_up, d, normalize_directs hv, fun h => absurd h (hz 1 (by simp) h1), fun i => ?_⟩
    have h3 := third_close hu h2.1 h2.2.1 (by have := abs_le.1 h2.2.2; norm_num at this ⊢; linarith)
    fin_cases i
    · simpa using h2.1
    · simpa using h2.2.1
    · simpa [abs_sub_comm] using h3
  by_cases h2 : AllClose d ![0, 0, -1]
  · have e : span v = !![1, 0, 0; 0, -1, 0; 0, 0, -1] := by unfold span; simp only [← hd]; rw [if_neg h1, if_pos h2]
    have h2' := (allClose_iff (by simp)).1 h2
    rw [e]
    refine ⟨rightHanded_down, d, normalize_directs hv, fun h => absurd h (hz (-1) (by simp) h2), fun i => ?_⟩
    have h3 := third_close (c := - d 2) (by linarith) h2'.1 h2'.2.1
      (by have := abs_le.1 h2'.2.2; norm_num at this ⊢; linarith)
    fin_cases i
    · simpa using h2'.1
    · simpa using h2'.2.1
    · rw [abs_le] at h3 ⊢; constructor
      · show -(1 / 10 ^ 8 : ℝ) ≤ -1 - d 2
        linarith [h3.1]
      · show -1 - d 2 ≤ (1 / 10 ^ 8 : ℝ)
        linarith [h3.2]
  · have hne : d 0 ≠ 0 ∨ d 1 ≠ 0 := by
      by_contra hc
      rw [not_or, not_not, not_not] at hc
      have hc2 : d 2 ^ 2 = 1 := by rw [hc.1, hc.2] at hu; linarith
      rcases (sq_eq_one_or hc2) with h | h
      · exact h1 ((allClose_iff (by simp)).2 ⟨by rw [hc.1]; norm_num, by rw [hc.2]; norm_num, by rw [h]; norm_num⟩)
      · exact h2 ((allClose_iff (by simp)).2 ⟨by rw [hc.1]; norm_num, by rw [hc.2]; norm_num, by rw [h]; norm_num⟩)
    have e : span v = frame (d 0) (d 1) (d 2) := by
      unfold span
      simp only [← hd]
      rw [if_neg h1, if_neg h2]
      rw [← fromRotvec_eq hu hne, ← hde]
    have hc : 1 + d 2 ≠ 0 := by
      intro h
      have h' : d 2 = -1 := by linarith
      rw [h'] at hu
      rcases hne with h0 | h0
      · have := sq_pos_of_ne_zero h0; nlinarith [sq_nonneg (d 1)]
      · have := sq_pos_of_ne_zero h0; nlinarith [sq_nonneg (d 0)]
    have e2 : span v 2 = d := by rw [e, hde]; ext i; fin_cases i <;> rfl
    exact ⟨e ▸ frame_rightHanded hu hc, d, normalize_directs hv, fun _ => e2, fun i => by rw [e2]; simp⟩

/-- The vector (2, 2, 1) is outside of the band, its frame is not one of the constant ones. -/
example : span ![2, 2, 1] 2 = ![2 / 3, 2 / 3, 1 / 3] := by
  obtain ⟨_, d, ⟨h1, x, hx, h2⟩, h3, _⟩ := C42_frame ![2, 2, 1] (by intro h; simpa using congrFun h 2)
  have a0 : (2 : ℝ) = x * d 0 := congrFun h2 0
  have a1 : (2 : ℝ) = x * d 1 := congrFun h2 1
  have a2 : (1 : ℝ) = x * d 2 := congrFun h2 2
  have hu : d 0 ^ 2 + d 1 ^ 2 + d 2 ^ 2 = 1 := by
    have := h1; simp only [IsUnit3, dotProduct, Fin.sum_univ_three] at this; linear_combination this
  have hx3 : x = 3 := by
    have : x ^ 2 = 3 ^ 2 := by
      linear_combination x ^ 2 * (-hu) - (2 + x * d 0) * a0 - (2 + x * d 1) * a1 - (1 + x * d 2) * a2
    exact (pow_left_inj₀ hx.le (by norm_num) two_ne_zero).1 this
  subst hx3
  have hd : d = ![2 / 3, 2 / 3, 1 / 3] := by
    ext i; fin_cases i <;> simp <;> linarith
  rw [h3 (Or.inl (by rw [hd]; simp; norm_num)), hd]

end Magnopy
