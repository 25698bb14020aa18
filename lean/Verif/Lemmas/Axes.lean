import Verif.Lemmas.Describe
import Verif.Lemmas.Collinear
import Verif.Lemmas.Similar

/-!
# Helper lemmas: local axes in two descriptions
-/

set_option autoImplicit false
set_option linter.unusedSectionVars false

namespace Magnopy

open PyDict Matrix Complex MagnonObj

theorem cross_turn {Q : M3 ℝ} (h : IsRotation Q) (a b : V3 ℝ) : crossProduct (Q *ᵥ a) (Q *ᵥ b) = Q *ᵥ crossProduct a b := by
  have key : ∀ c : V3 ℝ, c ⬝ᵥ (Qᵀ *ᵥ crossProduct (Q *ᵥ a) (Q *ᵥ b)) = c ⬝ᵥ crossProduct a b := by
    intro c
    rw [← adjoint]
    have hd := h.proper
    rw [Matrix.det_fin_three] at hd
    simp only [dotProduct, mulVec, Fin.sum_univ_three, cross_apply, Matrix.cons_val_zero, Matrix.cons_val_one, Matrix.cons_val]
    linear_combination (c 0 * (a 1 * b 2 - a 2 * b 1) + c 1 * (a 2 * b 0 - a 0 * b 2) + c 2 * (a 0 * b 1 - a 1 * b 0)) * hd
  have e : Qᵀ *ᵥ crossProduct (Q *ᵥ a) (Q *ᵥ b) = crossProduct a b := by
    funext i
    have := key (Pi.single i 1)
    simpa using this
  rw [← e, mulVec_mulVec, mul_eq_one_comm.1 h.ortho, one_mulVec]

theorem RightHanded.turn {e Q : M3 ℝ} (he : RightHanded e) (h : IsRotation Q) : RightHanded fun i => Q *ᵥ e i :=
  ⟨fun i j => by rw [dot_turn h.ortho]; exact he.ortho i j, by rw [cross_turn h, he.hand]⟩

/-- Frames with the same third axis differ by a phase. -/
theorem RightHanded.same_axis {e f : M3 ℝ} (he : RightHanded e) (hf : RightHanded f) (h : f 2 = e 2) :
    ∃ z : ℂ, z * star z = 1 ∧ cu f = z • cu e := by
  have h0 : f 0 = (f 0 ⬝ᵥ e 0) • e 0 + (f 0 ⬝ᵥ e 1) • e 1 := by
    have hp : f 0 ⬝ᵥ e 2 = 0 := by rw [← h]; simpa using hf.ortho 0 2
    funext d
    have key : ∀ c, f 0 c * (e 0 c * e 0 d + e 1 c * e 1 d + e 2 c * e 2 d) = if c = d then f 0 c else 0 := by
      intro c
      rw [he.columns c d]
      split_ifs <;> simp
    have hs : f 0 0 * (e 0 0 * e 0 d + e 1 0 * e 1 d + e 2 0 * e 2 d) + f 0 1 * (e 0 1 * e 0 d + e 1 1 * e 1 d + e 2 1 * e 2 d) +
        f 0 2 * (e 0 2 * e 0 d + e 1 2 * e 1 d + e 2 2 * e 2 d) = f 0 d := by
      rw [key, key, key]
      fin_cases d <;> simp
    simp only [dotProduct, Fin.sum_univ_three] at hp
    simp only [dotProduct, Fin.sum_univ_three, Pi.add_apply, Pi.smul_apply, smul_eq_mul]
    linear_combination e 2 d * hp - hs
  set x := f 0 ⬝ᵥ e 0 with hx
  set y := f 0 ⬝ᵥ e 1 with hy
  have h1 : f 1 = x • e 1 - y • e 0 := by
    rw [← hf.cycle.1, h, h0, map_add, map_smul, map_smul, he.cycle.1, ← cross_anticomm, he.cycle.2, smul_neg, sub_eq_add_neg]
  have hn : x * x + y * y = 1 := by
    have := hf.ortho 0 0
    rw [h0] at this
    simp only [add_dotProduct, dotProduct_add, smul_dotProduct, dotProduct_smul, he.ortho, smul_eq_mul] at this
    simpa using this
  refine ⟨(x : ℂ) - I * y, ?_, ?_⟩
  · have hI : star (I : ℂ) = -I := by rw [RCLike.star_def, Complex.conj_I]
    have hr : ∀ r : ℝ, star (r : ℂ) = (r : ℂ) := fun r => by rw [RCLike.star_def, Complex.conj_ofReal]
    have hn' := congrArg (fun r : ℝ => (r : ℂ)) hn
    push_cast at hn'
    rw [star_sub, star_mul', hI, hr, hr]
    linear_combination hn' - (y : ℂ) * y * Complex.I_mul_I
  · funext c
    have c0 := congrFun h0 c
    have c1 := congrFun h1 c
    simp only [Pi.add_apply, Pi.sub_apply, Pi.smul_apply, smul_eq_mul] at c0 c1
    simp only [cu, c0, c1, Pi.smul_apply, smul_eq_mul]
    push_cast
    linear_combination (y : ℂ) * e 1 c * Complex.I_mul_I

theorem directs_unique {d d' v : V3 ℝ} (h : Directs d v) (h' : Directs d' v) : d = d' := by
  obtain ⟨hu, x, hx, e⟩ := h
  obtain ⟨hu', x', hx', e'⟩ := h'
  have e1 : x * x = x' * x' := by
    have a1 : v ⬝ᵥ v = x * x := by rw [e, smul_dotProduct, dotProduct_smul, hu]; simp
    have a2 : v ⬝ᵥ v = x' * x' := by rw [e', smul_dotProduct, dotProduct_smul, hu']; simp
    rw [← a1, a2]
  have e2 : x = x' := by nlinarith
  subst e2
  have := congrArg (fun w => x⁻¹ • w) (e.symm.trans e')
  simpa [smul_smul, inv_mul_cancel₀ hx.ne'] using this

/-- The third axis of the frame is the direction of the spin. -/
theorem span_axis {v : V3 ℝ} (hv : v ≠ 0) (h : OwnAxis v) : Frame.span v 2 = EnergyObj.normalize v := by
  obtain ⟨_, d, hd, h1, _⟩ := C42_frame v hv
  have hn := Frame.normalize_directs hv
  obtain rfl := directs_unique hd hn
  rcases h _ hd with h2 | ⟨h2, h3⟩
  · exact h1 h2
  · have hu : EnergyObj.normalize v 2 ^ 2 = 1 := by
      have := hn.1
      simp only [IsUnit3, dotProduct, Fin.sum_univ_three, h2, h3] at this
      linarith
    have hde : EnergyObj.normalize v = ![0, 0, EnergyObj.normalize v 2] := by
      ext i; fin_cases i
      · exact h2
      · exact h3
      · rfl
    unfold Frame.span
    rcases Frame.sq_eq_one_or hu with h4 | h4
    · have hc : Frame.AllClose (EnergyObj.normalize v) ![0, 0, 1] :=
        (Frame.allClose_iff (by simp)).2 ⟨by rw [h2]; norm_num, by rw [h3]; norm_num, by rw [h4]; norm_num⟩
      simp only [if_pos hc]
      rw [hde, h4]
      ext i; fin_cases i <;> rfl
    · have hc : ¬ Frame.AllClose (EnergyObj.normalize v) ![0, 0, 1] := by
        rw [Frame.allClose_iff (by simp), h4]
        rintro ⟨_, _, h⟩
        norm_num at h
      have hc' : Frame.AllClose (EnergyObj.normalize v) ![0, 0, -1] :=
        (Frame.allClose_iff (by simp)).2 ⟨by rw [h2]; norm_num, by rw [h3]; norm_num, by rw [h4]; norm_num⟩
      simp only [if_neg hc, if_pos hc']
      rw [hde, h4]
      ext i; fin_cases i <;> rfl

theorem normalize_turn {Q : M3 ℝ} (h : Qᵀ * Q = 1) (v : V3 ℝ) : EnergyObj.normalize (Q *ᵥ v) = Q *ᵥ EnergyObj.normalize v := by
  funext i
  simp only [EnergyObj.normalize, norm3_turn h, mulVec, dotProduct, Fin.sum_univ_three]
  ring

theorem uOf_eq (v : V3 ℝ) : uOf v = cu (Frame.span v) := rfl

theorem vOf_eq (v : V3 ℝ) : vOf v = cvec (Frame.span v 2) := rfl

theorem turn_ne_zero' {Q : M3 ℝ} (h : Qᵀ * Q = 1) {v : V3 ℝ} (hv : v ≠ 0) : Q *ᵥ v ≠ 0 := by
  intro e
  have := congrArg (fun w => Qᵀ *ᵥ w) e
  simp only [mulVec_mulVec, h, one_mulVec, mulVec_zero] at this
  exact hv this

/-- The local axes of a rotated spin. -/
theorem axes_turn {Q : M3 ℝ} (h : IsRotation Q) {v : V3 ℝ} (hv : v ≠ 0) (h1 : OwnAxis v) (h2 : OwnAxis (Q *ᵥ v)) :
    (∃ z : ℂ, z * star z = 1 ∧ uOf (Q *ᵥ v) = z • (cmat Q *ᵥ uOf v)) ∧ vOf (Q *ᵥ v) = cmat Q *ᵥ vOf v := by
  have hv' := turn_ne_zero' h.ortho hv
  have e2 : Frame.span (Q *ᵥ v) 2 = Q *ᵥ Frame.span v 2 := by
    rw [span_axis hv h1, span_axis hv' h2, normalize_turn h.ortho]
  have hu : cu (fun i => Q *ᵥ Frame.span v i) = cmat Q *ᵥ cu (Frame.span v) := by
    funext c
    simp only [cu, mulVec, dotProduct, Fin.sum_univ_three, cmat, Matrix.map_apply]
    push_cast
    ring
  constructor
  · obtain ⟨z, hz, e⟩ := ((C42_frame v hv).1.turn h).same_axis (C42_frame _ hv').1 e2
    exact ⟨z, hz, by rw [uOf_eq, uOf_eq, e, hu]⟩
  · rw [vOf_eq, vOf_eq, e2, ← cvec_mulVec]

end Magnopy
