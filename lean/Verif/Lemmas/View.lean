import Verif.Props.Wave
import Verif.Spec.Goldstone

/-!
# Helper lemmas: the blocks of the magnon matrix
-/

set_option autoImplicit false
set_option linter.unusedSectionVars false

namespace Magnopy

open PyDict Matrix Complex

/-- The columns of a right-handed frame are orthonormal as well. -/
theorem RightHanded.columns {e : M3 ℝ} (h : RightHanded e) (c d : Fin 3) :
    e 0 c * e 0 d + e 1 c * e 1 d + e 2 c * e 2 d = if c = d then 1 else 0 := by
  have h1 : e * eᵀ = 1 := by
    ext i j
    rw [mul_apply, Matrix.one_apply, ← h.ortho i j]
    rfl
  have h2 := mul_eq_one_comm.1 h1
  have := congrFun (congrFun h2 c) d
  rw [mul_apply, Matrix.one_apply, Fin.sum_univ_three] at this
  exact this

namespace MagnonObj

/-- `e1 + i e2`. -/
noncomputable def cu (e : M3 ℝ) : V3 ℂ := fun c => (e 0 c : ℂ) + I * (e 1 c : ℂ)

/-- What an object knows about its atoms: lengths of the spins, frames, and the exchange of the whole crystal. -/
structure View (o : MagnonObj) (cell : ℕ → M3 ℝ) (sp : Fin o.N → ℝ) (e : Fin o.N → M3 ℝ)
    (R : Fin o.N → Fin o.N → M3 ℝ) : Prop where
  C : o.C = none
  pos : ∀ i, 0 < sp i
  S : ∀ i : Fin o.N, EnergyObj.norm3 (o.S.getD i 0) = sp i
  u : ∀ i : Fin o.N, o.u.getD i 0 = cu (e i)
  v : ∀ i : Fin o.N, o.v.getD i 0 = cvec (e i 2)
  J : ∀ i j : Fin o.N, o.J cell 0 i j = (R i j).map ((↑) : ℝ → ℂ)
  sym : ∀ i j, R j i = (R i j)ᵀ
  hand : ∀ i, RightHanded (e i)

theorem root_eq (o : MagnonObj) (i j : ℕ) : o.root i j = ((Real.sqrt (EnergyObj.norm3 (o.S.getD i 0) / 2) : ℝ) : ℂ) *
    ((Real.sqrt (EnergyObj.norm3 (o.S.getD j 0) / 2) : ℝ) : ℂ) := by
  unfold root
  rw [← Complex.ofReal_mul, ← Real.sqrt_mul (by unfold EnergyObj.norm3; positivity)]
  congr 1
  rw [show EnergyObj.norm3 (o.S.getD i 0) / 2 * (EnergyObj.norm3 (o.S.getD j 0) / 2) =
    EnergyObj.norm3 (o.S.getD i 0) * EnergyObj.norm3 (o.S.getD j 0) / 2 ^ 2 by ring, Real.sqrt_div' _ (by norm_num),
    Real.sqrt_sq (by norm_num)]

theorem cvec_mulVec (J : M3 ℝ) (w : V3 ℝ) : J.map ((↑) : ℝ → ℂ) *ᵥ cvec w = cvec (J *ᵥ w) := by
  funext c
  simp only [mulVec, dotProduct, cvec, Fin.sum_univ_three, Matrix.map_apply]
  push_cast
  rfl

/-- A vector perpendicular to the third axis in terms of `u`. -/
theorem perp_eq {e : M3 ℝ} (h : RightHanded e) {w : V3 ℝ} (hw : w ⬝ᵥ e 2 = 0) :
    (cvec w ⬝ᵥ cu e) • star (cu e) + (cvec w ⬝ᵥ star (cu e)) • cu e = (2 : ℂ) • cvec w := by
  have hI : star (I : ℂ) = -I := by rw [RCLike.star_def, Complex.conj_I]
  have hr : ∀ r : ℝ, star (r : ℂ) = (r : ℂ) := fun r => by rw [RCLike.star_def, Complex.conj_ofReal]
  funext d
  have key : ∀ c, (w c : ℂ) * (e 0 c * e 0 d + e 1 c * e 1 d + e 2 c * e 2 d) = if c = d then (w c : ℂ) else 0 := by
    intro c
    have := congrArg (fun x : ℝ => (w c : ℂ) * (x : ℂ)) (h.columns c d)
    push_cast at this
    rw [this]
    split_ifs <;> simp
  have hw' : (w 0 : ℂ) * e 2 0 + (w 1 : ℂ) * e 2 1 + (w 2 : ℂ) * e 2 2 = 0 := by
    have := congrArg (fun x : ℝ => (x : ℂ)) hw
    simp only [dotProduct, Fin.sum_univ_three] at this
    push_cast at this
    exact this
  have hs : (w 0 : ℂ) * (e 0 0 * e 0 d + e 1 0 * e 1 d + e 2 0 * e 2 d) + (w 1 : ℂ) * (e 0 1 * e 0 d + e 1 1 * e 1 d + e 2 1 * e 2 d) +
      (w 2 : ℂ) * (e 0 2 * e 0 d + e 1 2 * e 1 d + e 2 2 * e 2 d) = w d := by
    rw [key, key, key]
    fin_cases d <;> simp
  simp only [dotProduct, Fin.sum_univ_three, cvec, cu, Pi.add_apply, Pi.smul_apply, Pi.star_apply, smul_eq_mul, star_add,
    star_mul', hI, hr]
  have hII : (I : ℂ) * I = -1 := Complex.I_mul_I
  linear_combination 2 * hs - 2 * (e 2 d : ℂ) * hw' - 2 * ((w 0 : ℂ) * e 1 0 + w 1 * e 1 1 + w 2 * e 1 2) * e 1 d * hII

section

variable {o : MagnonObj} {cell : ℕ → M3 ℝ} {sp : Fin o.N → ℝ} {e : Fin o.N → M3 ℝ} {R : Fin o.N → Fin o.N → M3 ℝ}

theorem View.A0 (h : View o cell sp e R) (i j : Fin o.N) : o.A cell 0 i j =
    ((Real.sqrt (sp i / 2) : ℝ) : ℂ) * ((Real.sqrt (sp j / 2) : ℝ) : ℂ) * cbil (cu (e i)) (R i j) (star (cu (e j))) := by
  unfold A
  rw [root_eq, h.S, h.S, neg_zero, h.J, h.u, h.u]
  rfl

theorem View.B0 (h : View o cell sp e R) (i j : Fin o.N) : o.B cell 0 i j =
    ((Real.sqrt (sp i / 2) : ℝ) : ℂ) * ((Real.sqrt (sp j / 2) : ℝ) : ℂ) * cbil (cu (e i)) (R i j) (cu (e j)) := by
  unfold B
  rw [root_eq, h.S, h.S, neg_zero, h.J, h.u, h.u]
  rfl

theorem View.C0 (h : View o cell sp e R) (i : Fin o.N) : o.freshC cell i i =
    ((e i 2 ⬝ᵥ ∑ j, sp j • (R i j *ᵥ e j 2) : ℝ) : ℂ) := by
  unfold freshC
  rw [if_pos rfl, Finset.sum_range, dotProduct_sum, Complex.ofReal_sum]
  refine Finset.sum_congr rfl fun j _ => ?_
  rw [h.S, h.v, h.v, h.J, cvec_mulVec, dotProduct_smul, smul_eq_mul]
  push_cast
  congr 1
  simp [dotProduct, cvec]

/-- The sum over one row of `h(0)`. -/
theorem View.row (h : View o cell sp e R) (x : Fin o.N → ℂ) (i : Fin o.N) :
    (((o.callH cell 0).1 *ᵥ Sum.elim x (star x)) (.inl i) = 2 * (∑ j : Fin o.N, (o.A cell 0 i j * x j + o.B cell 0 i j * star (x j)) -
      o.freshC cell i i * x i)) ∧
    ((o.callH cell 0).1 *ᵥ Sum.elim x (star x)) (.inr i) =
      star (((o.callH cell 0).1 *ᵥ Sum.elim x (star x)) (.inl i)) := by
  have h2 : ∀ (M : Matrix (Fin o.N) (Fin o.N) ℂ) (i j : Fin o.N), (2 • M) i j = 2 * M i j := fun M i j => by
    rw [two_smul, two_mul]; rfl
  have hC : ∀ (z : Fin o.N → ℂ), ∑ j : Fin o.N, o.freshC cell i j * z j = o.freshC cell i i * z i := by
    intro z
    rw [Finset.sum_eq_single i]
    · intro j _ hj
      have : o.freshC cell i j = 0 := by
        unfold freshC
        exact if_neg fun e => hj (Fin.ext e.symm)
      rw [this, zero_mul]
    · simp
  have hB : ∀ j : Fin o.N, o.B cell 0 j i = o.B cell 0 i j := by
    intro j
    rw [h.B0, h.B0, h.sym i j, cbil_transpose]
    ring
  have e1 : ((o.callH cell 0).1 *ᵥ Sum.elim x (star x)) (.inl i) =
      2 * (∑ j : Fin o.N, (o.A cell 0 i j * x j + o.B cell 0 i j * star (x j)) - o.freshC cell i i * x i) := by
    rw [callH_fresh _ h.C, fromBlocks_mulVec, Sum.elim_inl]
    simp only [mulVec, dotProduct, Pi.add_apply, Matrix.sub_apply, h2, block, of_apply, sub_mul, Finset.sum_sub_distrib,
      Function.comp, Sum.elim_inl, Sum.elim_inr, mul_assoc, ← Finset.mul_sum, hC, Finset.sum_add_distrib, Pi.star_apply]
    ring
  refine ⟨e1, ?_⟩
  rw [e1, callH_fresh _ h.C, fromBlocks_mulVec, Sum.elim_inr]
  have hCs : star (o.freshC cell i i) = o.freshC cell i i := by
    rw [h.C0, RCLike.star_def, Complex.conj_ofReal]
  simp only [mulVec, dotProduct, Pi.add_apply, Matrix.sub_apply, h2, block, of_apply, sub_mul, Finset.sum_sub_distrib,
    Function.comp, Sum.elim_inl, Sum.elim_inr, mul_assoc, ← Finset.mul_sum, Finset.sum_add_distrib, Pi.star_apply,
    conjTranspose_apply, Matrix.map_apply, hB, neg_zero, star_mul', star_sub, star_add, star_sum, star_star]
  rw [hC fun j => star (x j), hCs]
  have : star (2 : ℂ) = 2 := by rw [RCLike.star_def]; exact Complex.conj_ofNat 2
  rw [this]
  ring

/-- The amplitudes of a rotation of all spins about `n`. -/
noncomputable def turn (n : V3 ℝ) (e : M3 ℝ) (S : ℝ) : ℂ :=
  ((Real.sqrt (S / 2) : ℝ) : ℂ) / 2 * (cvec (crossProduct n (e 2)) ⬝ᵥ cu e)

theorem cvec_dot_star (w : V3 ℝ) (e : M3 ℝ) : star (cvec w ⬝ᵥ cu e) = cvec w ⬝ᵥ star (cu e) := by
  simp only [dotProduct, star_sum, star_mul', cvec, RCLike.star_def, Complex.conj_ofReal, Pi.star_apply]

theorem turn_star (n : V3 ℝ) (e : M3 ℝ) (S : ℝ) :
    star (turn n e S) = ((Real.sqrt (S / 2) : ℝ) : ℂ) / 2 * (cvec (crossProduct n (e 2)) ⬝ᵥ star (cu e)) := by
  unfold turn
  rw [star_mul', cvec_dot_star]
  congr 1
  rw [RCLike.star_def, map_div₀, Complex.conj_ofReal, Complex.conj_ofNat]

theorem cross_perp (n w : V3 ℝ) : crossProduct n w ⬝ᵥ w = 0 := by
  rw [dotProduct_comm]; exact dot_cross_self _ _

/-- **The mode of a rotation.** -/
theorem View.kernel (h : View o cell sp e R) {n : V3 ℝ} {l : Fin o.N → ℝ}
    (hF : ∀ i, ∑ j, sp j • (R i j *ᵥ e j 2) = l i • e i 2)
    (hR : ∀ i j x, R i j *ᵥ crossProduct n x = crossProduct n (R i j *ᵥ x)) :
    (o.callH cell 0).1 *ᵥ Sum.elim (fun i => turn n (e i) (sp i)) (star fun i => turn n (e i) (sp i)) = 0 := by
  have top : ∀ i, ((o.callH cell 0).1 *ᵥ Sum.elim (fun i => turn n (e i) (sp i)) (star fun i => turn n (e i) (sp i))) (.inl i) = 0 := by
    intro i
    rw [(h.row (fun i => turn n (e i) (sp i)) i).1]
    set r := fun i => ((Real.sqrt (sp i / 2) : ℝ) : ℂ) with hr
    set w := fun i => crossProduct n (e i 2) with hw
    have hrr : ∀ i, r i * r i = ((sp i : ℝ) : ℂ) / 2 := by
      intro i
      simp only [hr]
      rw [← Complex.ofReal_mul, Real.mul_self_sqrt (by linarith [h.pos i])]
      push_cast; rfl
    have hrow : ∀ j : Fin o.N, o.A cell 0 i j * turn n (e j) (sp j) + o.B cell 0 i j * star (turn n (e j) (sp j)) =
        r i / 2 * (cu (e i) ⬝ᵥ cvec (sp j • (R i j *ᵥ w j))) := by
      intro j
      rw [h.A0, h.B0, turn_star]
      have h1 := perp_eq (h.hand j) (cross_perp n (e j 2))
      have h2 : cbil (cu (e i)) (R i j) (star (cu (e j))) * (cvec (w j) ⬝ᵥ cu (e j)) +
          cbil (cu (e i)) (R i j) (cu (e j)) * (cvec (w j) ⬝ᵥ star (cu (e j))) =
          2 * (cu (e i) ⬝ᵥ cvec (R i j *ᵥ w j)) := by
        have := congrArg (fun y => cbil (cu (e i)) (R i j) y) h1
        simp only [cbil, mulVec_add, mulVec_smul, dotProduct_add, dotProduct_smul, smul_eq_mul, cvec_mulVec] at this ⊢
        rw [← this]; ring
      have h3 : cu (e i) ⬝ᵥ cvec (sp j • (R i j *ᵥ w j)) = (sp j : ℂ) * (cu (e i) ⬝ᵥ cvec (R i j *ᵥ w j)) := by
        simp only [dotProduct, cvec, Pi.smul_apply, smul_eq_mul, Fin.sum_univ_three]
        push_cast; ring
      have h4 := hrr j
      unfold turn
      rw [h3]
      linear_combination r i * r j * r j / 2 * h2 + r i * (cu (e i) ⬝ᵥ cvec (R i j *ᵥ w j)) * h4
    have hc : ∀ x : Fin o.N → V3 ℝ, ∑ j, cu (e i) ⬝ᵥ cvec (x j) = cu (e i) ⬝ᵥ cvec (∑ j, x j) := by
      intro x
      rw [← dotProduct_sum]
      congr 1
      funext c
      simp [cvec]
    have hsum : ∑ j, sp j • (R i j *ᵥ w j) = l i • w i := by
      have h1 : ∀ j, sp j • (R i j *ᵥ w j) = crossProduct n (sp j • (R i j *ᵥ e j 2)) := by
        intro j
        rw [map_smul, ← hR]
      simp only [h1]
      rw [← map_sum, hF, map_smul]
    have hd : e i 2 ⬝ᵥ e i 2 = 1 := by simpa using (h.hand i).ortho 2 2
    simp only [Function.comp, hrow]
    rw [← Finset.mul_sum, hc, hsum, h.C0, hF, dotProduct_smul, hd]
    have : cu (e i) ⬝ᵥ cvec (l i • w i) = (l i : ℂ) * (cvec (w i) ⬝ᵥ cu (e i)) := by
      simp only [dotProduct, cvec, Pi.smul_apply, smul_eq_mul, Fin.sum_univ_three]
      push_cast; ring
    rw [this]
    unfold turn
    simp only [smul_eq_mul, mul_one, hr, hw]
    ring
  funext i
  rcases i with i | i
  · exact top i
  · rw [(h.row (fun i => turn n (e i) (sp i)) i).2, top i]
    exact star_zero _

end

end MagnonObj

end Magnopy
