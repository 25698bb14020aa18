import Verif.Props.OptExample
import Verif.Props.EnergyCone

/-!
# The cone cases of the minimisation: C33 (antiferro), C56 (spiral vector)
-/

set_option autoImplicit false

set_option linter.unusedSectionVars false

namespace Magnopy

open EnergyObj Matrix Optimize

/-! ### C33 -/

namespace AntiferroOne

open ConeExample

/-- One spin of length one with the single-site matrix `A_xz = 1`. -/
noncomputable def obj : EnergyObj ℝ := ⟨1, [2], [1], [(0, 0, 0, 7)], none, 10, 10000, 1 / 10000, 9 / 10⟩

/-- The single-site matrix. -/
def mat : ℕ → M3 ℝ := fun _ => !![0, 0, 1; 0, 0, 0; 0, 0, 0]

theorem energy_one (n q : V3 ℝ) (hn : n ≠ 0) :
    (antiferroProblem obj 1 mat).energy ([ex, n], q) =
      (let m := normalize n; m 0 * m 0 * (m 0 * m 2) - (1 - m 0 * m 0) * (m 0 * m 2)) := by
  have hu := normalize_unit hn
  have he : normalize ex = ex := normalize_of_unit ex_unit
  simp only [antiferroProblem, unpackCone, antiferroUnit, bondSum, zeeman, obj, List.map_cons, List.map_nil, List.sum_cons,
    List.sum_nil, einsum3_eq_bilin, List.dropLast_cons₂, List.dropLast_singleton, List.getLastD_cons, List.getLastD_nil,
    List.getD_cons_zero, he]
  rw [bilin_antiferroC hu]
  simp [bilin, par, perp, ex, dot3, dotProduct, Fin.sum_univ_three, mat]
  ring

/-- The torque on the cone axis along `z`. -/
theorem torque_cone (q : V3 ℝ) : ∃ g : ℝ, g < -(1 / 2) ∧ -1 < g ∧
    coneTorque (antiferroProblem obj 1 mat) ([ex, ez], q) 1 = ![0, g, 0] := by
  have hh := OneSpin.fdStep_pos
  have hw := OneSpin.w_pos
  have hw2 := OneSpin.w_sq
  have hlt : fdStep < 1 := by unfold fdStep; norm_num
  have hne : ∀ j : Fin 3, j ≠ 2 → ∀ x, bump ez j x ≠ 0 := by
    intro j hj x e
    have := congrFun e 2
    simp [bump, ez, Ne.symm hj] at this
  have g0 : rowGrad (fun l => (antiferroProblem obj 1 mat).energy (l, q)) [ex, ez] 1 0 =
      (fdStep ^ 2 - 1) / (1 + fdStep ^ 2) ^ 2 := by
    simp only [rowGrad, List.getD_cons_succ, List.getD_cons_zero, List.set_cons_succ, List.set_cons_zero]
    rw [energy_one _ _ (hne 0 (by decide) _), energy_one _ _ (hne 0 (by decide) _)]
    simp only [EnergyObj.normalize]
    rw [OneSpin.norm_side (v := bump ez 0 fdStep) (by simp [bump, ez]; ring),
      OneSpin.norm_side (v := bump ez 0 (-fdStep)) (by simp [bump, ez]; ring)]
    simp only [bump, ez, ← hw2]
    simp
    field_simp
    rw [hw2]
    ring
  have g1 : rowGrad (fun l => (antiferroProblem obj 1 mat).energy (l, q)) [ex, ez] 1 1 = 0 := by
    simp only [rowGrad, List.getD_cons_succ, List.getD_cons_zero, List.set_cons_succ, List.set_cons_zero]
    rw [energy_one _ _ (hne 1 (by decide) _), energy_one _ _ (hne 1 (by decide) _)]
    simp [EnergyObj.normalize, bump, ez]
  have hp : (1 : ℝ) ≤ (1 + fdStep ^ 2) ^ 2 := by nlinarith [sq_nonneg fdStep]
  refine ⟨(fdStep ^ 2 - 1) / (1 + fdStep ^ 2) ^ 2, ?_, ?_, ?_⟩
  · rw [div_lt_iff₀ (by linarith)]; unfold fdStep; norm_num
  · rw [lt_div_iff₀ (by linarith)]
    nlinarith [pow_pos hh 2]
  · simp only [coneTorque, rowTorque, List.getD_cons_succ, List.getD_cons_zero]
    rw [cross_apply, g0, g1]
    ext i
    fin_cases i <;> simp [ez]

end AntiferroOne

open AntiferroOne ConeExample in
/-- **C33** is false for the antiferro case: the cone axis does not follow its torque (it is never changed, see
`C33_antiferro_cone_fixed`). -/
theorem C33_antiferro_false : ¬ ∀ (E : EnergyObj ℝ) (muB : ℝ) (cell : ℕ → M3 ℝ),
    FollowOwnTorques (antiferroProblem E muB cell) E.spins.length := by
  intro h
  obtain ⟨g, hg0, hg1, ht⟩ := torque_cone 0
  have := h obj 1 mat ([ex, ez], 0) 1 rfl one_pos 1 le_rfl
  have hup : ∀ p : Arr, ((antiferroProblem obj 1 mat).update ([ex, ez], 0) p 1).1.getD 1 0 = ez := by
    intro p
    simp [antiferroProblem, updateAntiferro, rotateRows, obj]
  rw [hup, ht] at this
  have hn : norm3 ![0, g, 0] = -g := by
    simp [norm3, Real.sqrt_sq_eq_abs, abs_of_neg (by linarith : g < 0)]
  unfold follow at this
  rw [hn, one_mul] at this
  have he : eps ≤ 1 / 2 := by unfold eps; norm_num
  rw [if_neg (by linarith)] at this
  have h0 := congrFun this 0
  have hgn : g / -g = -1 := by rw [div_neg, div_self (by linarith)]
  have ha : -EnergyObj.normalize ![0, g, 0] = ![0, 1, 0] := by
    ext i
    fin_cases i <;> simp [EnergyObj.normalize, hn, hgn]
  rw [ha] at h0
  simp [rotate, ez, dotProduct, Fin.sum_univ_three, cross_apply] at h0
  have := Real.sin_neg_of_neg_of_neg_pi_lt (x := g) (by linarith) (by linarith [Real.pi_gt_three])
  linarith

/-! ### C56 -/

/-- The gradient vector of the spiral case in the entries of the spiral vector. -/
theorem grad_spiral_q (E : EnergyObj ℝ) (muB : ℝ) (cell : ℕ → M3 ℝ) (x : ConeX) (c : Fin 3) :
    ((spiralProblem E muB cell).grad x).1 (3 * E.spins.length + 3 + c.val) =
      E.spiralGradQ cell (unpackCone x).1 (unpackCone x).2.1 x.2 c := by
  simp only [spiralProblem, gradSpiral, writeVector]
  fin_cases c <;> simp [unpackCone]

/-- **C56**, what the code does: along the gradient the spiral vector moves by `+λ` times the gradient of the energy
with respect to it, so the energy grows along its displacement (to first order, by `λ |∂E/∂q|²`). -/
theorem C56_uphill (E : EnergyObj ℝ) (muB : ℝ) (cell : ℕ → M3 ℝ) (u : List (V3 ℝ)) (n q : V3 ℝ)
    (hl : u.length = E.spins.length) (hne : E.spins ≠ []) (hu : ∀ v ∈ u, IsUnit3 v) (hn : IsUnit3 n) (lam : ℝ) :
    let P := spiralProblem E muB cell
    let q' := (P.update (u ++ [n], q) (P.grad (u ++ [n], q)).1 lam).2
    ∃ f : ℝ → ℝ, (∀ t, E.spiral muB cell (arr u) (vec n) (vec (q + t • (q' - q))) = .ok (f t)) ∧
      ∃ G : V3 ℝ, q' = q + lam • G ∧ (∀ p : V3 ℝ, ∃ f : ℝ → ℝ,
        (∀ t, E.spiral muB cell (arr u) (vec n) (vec (q + t • p)) = .ok (f t)) ∧ HasDerivAt f (G ⬝ᵥ p) 0) ∧
      HasDerivAt f (lam * (G ⬝ᵥ G)) 0 := by
  intro P q'
  have hq : q' = q + lam • E.spiralGradQ cell u n q := by
    ext c
    have := grad_spiral_q E muB cell (u ++ [n], q) c
    simp only [unpackCone, List.dropLast_concat, List.getLastD_concat] at this
    show q c + (P.grad (u ++ [n], q)).1 (3 * E.spins.length + 6 - 3 + c.val) * lam = _
    rw [show 3 * E.spins.length + 6 - 3 = 3 * E.spins.length + 3 by omega, this]
    simp [mul_comm]
  obtain ⟨f, hf, hd⟩ := C31_q_gradient E muB cell u hl hne hu n q hn (q' - q)
  refine ⟨f, hf, _, hq, fun p => C31_q_gradient E muB cell u hl hne hu n q hn p, ?_⟩
  have e : E.spiralGradQ cell u n q ⬝ᵥ (q' - q) = lam * (E.spiralGradQ cell u n q ⬝ᵥ E.spiralGradQ cell u n q) := by
    rw [hq, add_sub_cancel_left, dotProduct_smul, smul_eq_mul]
  rwa [e] at hd

/-- The full claim of C56: with the other coordinates fixed, the energy does not grow (to first order) when the spiral
vector is moved by a step along the gradient. -/
def C56_statement : Prop :=
  ∀ (E : EnergyObj ℝ) (muB : ℝ) (cell : ℕ → M3 ℝ) (u : List (V3 ℝ)) (n q : V3 ℝ), u.length = E.spins.length →
    E.spins ≠ [] → (∀ v ∈ u, IsUnit3 v) → IsUnit3 n → ∀ lam : ℝ, 0 < lam →
    let P := spiralProblem E muB cell
    let q' := (P.update (u ++ [n], q) (P.grad (u ++ [n], q)).1 lam).2
    ∃ (f : ℝ → ℝ) (D : ℝ), (∀ t, E.spiral muB cell (arr u) (vec n) (vec (q + t • (q' - q))) = .ok (f t)) ∧
      HasDerivAt f D 0 ∧ D ≤ 0

namespace SpiralOne

open ConeExample

/-- Isotropic exchange: the energy of the chain of `ConeExample.E` becomes `c` times the cosine of the angle. -/
noncomputable def mat (c : ℝ) : ℕ → M3 ℝ := fun _ => (c / 4) • 1

theorem energy_unit (c muB : ℝ) {e n : V3 ℝ} (hn : n ⬝ᵥ n = 1) (q : V3 ℝ) :
    E.spiralUnit muB (mat c) [e] n q = c * ((n ⬝ᵥ e) ^ 2 + Real.cos (q 0) * (e ⬝ᵥ e - (n ⬝ᵥ e) ^ 2)) := by
  simp only [spiralUnit, zeeman, E, bondSum, List.map_cons, List.map_nil, List.sum_cons, List.sum_nil,
    einsum3_eq_bilin]
  rw [bilin_spiralC hn]
  have hid : ∀ a b : V3 ℝ, bilin a ((c / 4 : ℝ) • (1 : M3 ℝ)) b = c / 4 * (a ⬝ᵥ b) := fun a b => by
    rw [bilin_smul_mat, bilin_eq_dot, one_mulVec]
  have h1 : (crossProduct n e) ⬝ᵥ (crossProduct n e) = e ⬝ᵥ e - (n ⬝ᵥ e) ^ 2 := by
    rw [cross_dot_cross, hn, one_mul, dotProduct_comm e n]; ring
  have h2 : perp n e ⬝ᵥ perp n e = e ⬝ᵥ e - (n ⬝ᵥ e) ^ 2 := by
    simp only [perp, sub_dotProduct, dotProduct_sub, smul_dotProduct, dotProduct_smul, smul_eq_mul, hn, dotProduct_comm e n]
    ring
  have h3 : par n e ⬝ᵥ par n e = (n ⬝ᵥ e) ^ 2 := by
    simp only [par, smul_dotProduct, dotProduct_smul, smul_eq_mul, hn]
    ring
  have h4 : dot3 q ![1, 0, 0] = q 0 := by simp [dot3]
  simp only [mat, hid, List.getD_cons_zero, h1, h2, h3, h4, dotProduct_comm (crossProduct n e) (perp n e)]
  ring

theorem energy_pair (c muB : ℝ) {e n : V3 ℝ} (he : e ≠ 0) (hn : n ≠ 0) (q : V3 ℝ) :
    (spiralProblem E muB (mat c)).energy ([e, n], q) = c * ((normalize n ⬝ᵥ normalize e) ^ 2 +
      Real.cos (q 0) * (1 - (normalize n ⬝ᵥ normalize e) ^ 2)) := by
  have : (spiralProblem E muB (mat c)).energy ([e, n], q) = E.spiralUnit muB (mat c) [normalize e] (normalize n) q := by
    simp [spiralProblem, unpackCone]
  rw [this, energy_unit c muB (normalize_unit hn), normalize_unit he]

/-- The spiral vector `(π/2, 0, 0)`. -/
noncomputable def q0 : V3 ℝ := ![Real.pi / 2, 0, 0]

/-- The gradient with respect to the spiral vector. -/
theorem gradQ (c : ℝ) (q : V3 ℝ) : E.spiralGradQ (mat c) [ex] ez q = ![-(c * Real.sin (q 0)), 0, 0] := by
  have key : ∀ p : V3 ℝ, E.spiralGradQ (mat c) [ex] ez q ⬝ᵥ p = -(c * Real.sin (q 0)) * p 0 := by
    intro p
    obtain ⟨f, hf, hd⟩ := C31_q_gradient E 0 (mat c) [ex] rfl (by simp [E]) (by simpa using ex_unit) ez q ez_unit p
    have hfe : ∀ t, f t = c * Real.cos (q 0 + t * p 0) := by
      intro t
      have := hf t
      rw [spiral_arr E 0 _ rfl (by simp [E]), map_normalize_unit (by simpa using ex_unit), normalize_of_unit ez_unit,
        energy_unit c 0 ez_unit] at this
      have := (Except.ok.inj this).symm
      rw [this]
      simp [ex, ez, dotProduct, Fin.sum_univ_three]
    have hfun : f = fun t => c * Real.cos (q 0 + t * p 0) := funext hfe
    have h1 : HasDerivAt (fun t : ℝ => q 0 + t * p 0) (p 0) 0 := by
      simpa using ((hasDerivAt_id (0 : ℝ)).mul_const (p 0)).const_add (q 0)
    have h2 := (h1.cos).const_mul c
    rw [hfun] at hd
    have := hd.unique h2
    rw [this, zero_mul, add_zero]
    ring
  ext i
  have := key (Pi.single i 1)
  rw [dotProduct_single, mul_one] at this
  rw [this]
  fin_cases i <;> simp

end SpiralOne

open SpiralOne ConeExample in
/-- **C56** is false: the spiral vector of a chain moves up the energy. -/
theorem C56_descends_false : ¬ C56_statement := by
  intro h
  obtain ⟨f, D, hf, hD, hle⟩ := h E 0 (mat 1) [ex] ez q0 rfl (by simp [E]) (by simpa using ex_unit) ez_unit 1 one_pos
  obtain ⟨f', hf', G, hG, hp, hD'⟩ := C56_uphill E 0 (mat 1) [ex] ez q0 rfl (by simp [E]) (by simpa using ex_unit) ez_unit 1
  have hff : f = f' := by
    funext t
    have h1 := hf t
    rw [hf' t] at h1
    exact (Except.ok.inj h1).symm
  rw [hff] at hD
  have e := hD.unique hD'
  have hG0 : G 0 = -1 := by
    obtain ⟨f1, hf1, hd1⟩ := hp (Pi.single 0 1)
    obtain ⟨f2, hf2, hd2⟩ := C31_q_gradient E 0 (mat 1) [ex] rfl (by simp [E]) (by simpa using ex_unit) ez q0 ez_unit
      (Pi.single 0 1)
    have : f1 = f2 := by
      funext t
      have h1 := hf1 t
      rw [hf2 t] at h1
      exact (Except.ok.inj h1).symm
    rw [this] at hd1
    have := hd1.unique hd2
    rw [gradQ, dotProduct_single, dotProduct_single] at this
    simpa [q0] using this
  have : 0 < G ⬝ᵥ G := by
    simp only [dotProduct, Fin.sum_univ_three, hG0]
    nlinarith [mul_self_nonneg (G 1), mul_self_nonneg (G 2)]
  linarith

namespace SpiralOne

open ConeExample

theorem bump_ne (e : V3 ℝ) (j k : Fin 3) (hjk : j ≠ k) (he : e k = 1) (x : ℝ) : bump e j x ≠ 0 := by
  intro h
  have := congrFun h k
  simp [bump, Ne.symm hjk, he] at this

theorem ne_of_comp {v : V3 ℝ} (k : Fin 3) (h : v k ≠ 0) : v ≠ 0 := fun e => h (by rw [e]; rfl)

theorem energy_q0 (c muB : ℝ) {e n : V3 ℝ} (he : e ≠ 0) (hn : n ≠ 0) :
    (spiralProblem E muB (mat c)).energy ([e, n], q0) = c * (normalize n ⬝ᵥ normalize e) ^ 2 := by
  rw [energy_pair c muB he hn]
  simp [q0]

theorem fd_lt : fdStep < 1 := by unfold fdStep; norm_num

theorem spin_grad (c muB : ℝ) (i : ℕ) (hi : i < 2) :
    rowGrad (fun l => (spiralProblem E muB (mat c)).energy (l, q0)) [ex, ez] i = 0 := by
  have hh := OneSpin.fdStep_pos
  have hlt := fd_lt
  have hx : ex ≠ 0 := ne_of_comp 0 (by simp [ex])
  have hz : ez ≠ 0 := ne_of_comp 2 (by simp [ez])
  ext j
  obtain rfl | rfl : i = 0 ∨ i = 1 := by omega
  · have hb : ∀ x : ℝ, -1 < x → bump ex j x ≠ 0 := by
      intro x hx
      refine ne_of_comp 0 ?_
      fin_cases j <;> simp [bump, ex]
      linarith
    simp only [rowGrad, List.getD_cons_zero, List.set_cons_zero]
    rw [energy_q0 c muB (hb _ (by linarith)) hz, energy_q0 c muB (hb _ (by linarith)) hz, normalize_of_unit ez_unit]
    have : ∀ v : V3 ℝ, ez ⬝ᵥ v = v 2 := fun v => by simp [ez, dotProduct, Fin.sum_univ_three]
    rw [this, this]
    fin_cases j
    · simp [EnergyObj.normalize, bump, ex]
    · simp [EnergyObj.normalize, bump, ex]
    · show (c * normalize (bump ex 2 fdStep) 2 ^ 2 - c * normalize (bump ex 2 (-fdStep)) 2 ^ 2) / 2 / fdStep = 0
      simp only [EnergyObj.normalize]
      rw [OneSpin.norm_side (v := bump ex 2 fdStep) (by simp [bump, ex]),
        OneSpin.norm_side (v := bump ex 2 (-fdStep)) (by simp [bump, ex])]
      simp [bump, ex, neg_div]
  · have hb : ∀ x : ℝ, -1 < x → bump ez j x ≠ 0 := by
      intro x hx
      refine ne_of_comp 2 ?_
      fin_cases j <;> simp [bump, ez]
      linarith
    simp only [rowGrad, List.getD_cons_succ, List.getD_cons_zero, List.set_cons_succ, List.set_cons_zero]
    rw [energy_q0 c muB hx (hb _ (by linarith)), energy_q0 c muB hx (hb _ (by linarith)), normalize_of_unit ex_unit]
    have : ∀ v : V3 ℝ, v ⬝ᵥ ex = v 0 := fun v => by simp [ex, dotProduct, Fin.sum_univ_three]
    rw [this, this]
    fin_cases j
    · show (c * normalize (bump ez 0 fdStep) 0 ^ 2 - c * normalize (bump ez 0 (-fdStep)) 0 ^ 2) / 2 / fdStep = 0
      simp only [EnergyObj.normalize]
      rw [OneSpin.norm_side (v := bump ez 0 fdStep) (by simp [bump, ez]; ring),
        OneSpin.norm_side (v := bump ez 0 (-fdStep)) (by simp [bump, ez]; ring)]
      simp [bump, ez, neg_div]
    · simp [EnergyObj.normalize, bump, ez]
    · simp [EnergyObj.normalize, bump, ez]

theorem torques_q0 (c muB : ℝ) :
    rowTorques (fun l => (spiralProblem E muB (mat c)).energy (l, q0)) [ex, ez] = [0, 0] := by
  have h : ∀ i < 2, rowTorque (fun l => (spiralProblem E muB (mat c)).energy (l, q0)) [ex, ez] i = 0 := by
    intro i hi
    rw [rowTorque, spin_grad c muB i hi, map_zero]
  have hr : List.range [ex, ez].length = [0, 1] := rfl
  rw [rowTorques, hr, List.map_cons, List.map_cons, List.map_nil, h 0 (by norm_num), h 1 (by norm_num)]

/-- The gradient vector at `q0`: `-c` in entry 6, zero elsewhere. -/
theorem grad_q0 (c muB : ℝ) (k : ℕ) :
    ((spiralProblem E muB (mat c)).grad ([ex, ez], q0)).1 k = if k = 6 then -c else 0 := by
  have hg : ((spiralProblem E muB (mat c)).grad ([ex, ez], q0)).1 =
      writeVector 6 (E.spiralGradQ (mat c) [ex] ez q0) (writeTorque 3
        ((rowTorques (fun l => (spiralProblem E muB (mat c)).energy (l, q0)) [ex, ez]).getLastD 0)
        (packTorques (rowTorques (fun l => (spiralProblem E muB (mat c)).energy (l, q0)) [ex, ez]).dropLast)) := by
    have hs : E.spins.length = 1 := rfl
    simp only [spiralProblem, gradSpiral, unpackCone, hs]
    rfl
  rw [hg, torques_q0, gradQ]
  have hp : packTorques [0, 0].dropLast = fun _ => 0 := by
    funext k
    have : ([0, 0] : List (V3 ℝ)).dropLast.getD (k / 3) 0 = 0 := by
      rcases Nat.lt_or_ge (k / 3) 1 with h | h
      · have : k / 3 = 0 := by omega
        rw [this]; rfl
      · rw [List.getD, List.getElem?_eq_none (by simpa using h)]; rfl
    simp only [packTorques]
    rw [this]
    simp
  rw [hp]
  simp only [writeVector, writeTorque]
  split
  · simp [q0]
  · simp

/-- Every step is rejected. -/
theorem rejected (c muB c2 lam : ℝ) (hc : 0 < c) (hc1 : c ≤ 1) (hl : 0 < lam) (hl1 : lam ≤ 1) :
    ¬ Accepts (spiralProblem E muB (mat c)) (1 / 10000) c2 ([ex, ez], q0)
      ((spiralProblem E muB (mat c)).grad ([ex, ez], q0)).1 lam := by
  have hx : ex ≠ 0 := ne_of_comp 0 (by simp [ex])
  have hz : ez ≠ 0 := ne_of_comp 2 (by simp [ez])
  have hsz : (spiralProblem E muB (mat c)).size = 9 := rfl
  have hv : vdot 9 ((spiralProblem E muB (mat c)).grad ([ex, ez], q0)).1
      ((spiralProblem E muB (mat c)).grad ([ex, ez], q0)).1 = c ^ 2 := by
    simp only [vdot, grad_q0]
    simp
    ring
  have hup : (spiralProblem E muB (mat c)).update ([ex, ez], q0)
      ((spiralProblem E muB (mat c)).grad ([ex, ez], q0)).1 lam = ([ex, ez], ![Real.pi / 2 - c * lam, 0, 0]) := by
    have h1 : rotateRows 2 ((spiralProblem E muB (mat c)).grad ([ex, ez], q0)).1 lam [ex, ez] = [ex, ez] :=
      rotateRows_zero _ _ _ _ fun k hk => by rw [grad_q0, if_neg (by omega)]
    refine Prod.ext h1 ?_
    ext j
    show q0 j + ((spiralProblem E muB (mat c)).grad ([ex, ez], q0)).1 (6 + j.val) * lam = _
    rw [grad_q0]
    fin_cases j <;> simp [q0]
    ring
  have hxz : ez ⬝ᵥ ex = 0 := by simp [ex, ez, dotProduct, Fin.sum_univ_three]
  simp only [Accepts, not_not]
  left
  rw [hsz, hv, hup, energy_pair c muB hx hz, energy_pair c muB hx hz, normalize_of_unit ex_unit, normalize_of_unit ez_unit, hxz]
  simp only [q0, Matrix.cons_val_zero, Real.cos_pi_div_two, Real.cos_pi_div_two_sub]
  have hcl : 0 < c * lam := mul_pos hc hl
  have hcl1 : c * lam ≤ 1 := by nlinarith
  have hs := Real.mul_le_sin hcl.le (by linarith [Real.pi_gt_three])
  have hpi : (1 / 2 : ℝ) ≤ 2 / Real.pi := by
    rw [le_div_iff₀ Real.pi_pos]; linarith [Real.pi_lt_four]
  nlinarith [mul_le_mul_of_nonneg_right hpi hcl.le]

end SpiralOne

open SpiralOne ConeExample in
/-- **C56**, a consequence: with the default `wolfe_c1` the minimisation of a chain with exchange `0 < c ≤ 1` (energy
`c cos q`) started from `q = π / 2` raises `ValueError`, whatever the other settings: no step is accepted. -/
theorem C56_raises (c muB : ℝ) (hc : 0 < c) (hc1 : c ≤ 1) (E' : EnergyObj ℝ) (hm : 0 < E'.m)
    (h1 : E'.wolfeC1 = 1 / 10000) (o : Options) (hpos : o.Positive) (hmax : ∀ n, o.maxIter = some n → 0 < n) (fuel : ℕ) :
    run (spiralProblem E muB (mat c)) E' o (fuel + 1) ([ex, ez], q0) = some (.error .valueError) := by
  have hr := (running_initial_iff (spiralProblem E muB (mat c)) o ([ex, ez], q0)).mpr hpos
  have hl : ¬ AtLimit o (initial (spiralProblem E muB (mat c)) o ([ex, ez], q0)) := by
    rintro ⟨n, hn, h⟩
    have := hmax n hn
    have h' : n ≤ 0 := h
    omega
  have hm0 : E'.m.toNat ≠ 0 := by omega
  have hd : searchDirection E'.m.toNat (spiralProblem E muB (mat c)).size
      (initial (spiralProblem E muB (mat c)) o ([ex, ez], q0)).mem (initial (spiralProblem E muB (mat c)) o ([ex, ez], q0)).k
      ((spiralProblem E muB (mat c)).grad (initial (spiralProblem E muB (mat c)) o ([ex, ez], q0)).x).1
      (initial (spiralProblem E muB (mat c)) o ([ex, ez], q0)).prev =
      .ok (0, ((spiralProblem E muB (mat c)).grad ([ex, ez], q0)).1, Optimize.Mem.zero) := by
    simp [searchDirection, initial, hm0]
  have hls : lineSearch (spiralProblem E muB (mat c)) E'.wolfeC1 E'.wolfeC2 E'.wolfeIterMax
      (initial (spiralProblem E muB (mat c)) o ([ex, ez], q0)).x
      ((spiralProblem E muB (mat c)).grad ([ex, ez], q0)).1 = .error .valueError := by
    rcases lineLoop_spec (spiralProblem E muB (mat c)) E'.wolfeC1 E'.wolfeC2 ([ex, ez], q0)
      ((spiralProblem E muB (mat c)).grad ([ex, ez], q0)).1 (E'.wolfeIterMax + 1) 1 with ⟨n, _, _, ha, _⟩ | ⟨h, _⟩
    · rw [h1] at ha
      refine absurd ha (rejected c muB _ _ hc hc1 (by positivity) ?_)
      rw [one_mul]
      exact pow_le_one₀ (by norm_num) (by norm_num)
    · exact h
  rw [run, if_neg (by omega), optLoop, if_pos hr, if_neg hl]
  simp only [iterate, hd, hls]

open SpiralOne ConeExample in
/-- The hypotheses of `C56_raises` hold for a default object and the default tolerances. -/
example : 0 < E.m ∧ E.wolfeC1 = 1 / 10000 ∧ (⟨1 / 100000, [1 / 100000, 1 / 100000], none, none⟩ : Options).Positive :=
  ⟨by simp [E], rfl, .inl (by norm_num)⟩

end Magnopy
