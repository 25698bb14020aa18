import Verif.Lemmas.Wave

/-!
# Helper lemmas: the quadratic form of the magnon matrix
-/

set_option autoImplicit false
set_option linter.unusedSectionVars false

namespace Magnopy

open PyDict Matrix Complex

namespace MagnonObj

theorem sum_single {N a b : ℕ} (ha : a < N) (hb : b < N) (f g : ℕ → V3 ℂ) (X : M3 ℂ) :
    ∑ i : Fin N, ∑ j : Fin N, f i ⬝ᵥ ((if a = i ∧ b = j then X else 0) *ᵥ g j) = f a ⬝ᵥ (X *ᵥ g b) := by
  rw [Finset.sum_eq_single ⟨a, ha⟩, Finset.sum_eq_single ⟨b, hb⟩]
  · simp
  · intro j _ hj
    have : b ≠ j := fun e => hj (Fin.ext e.symm)
    simp [this]
  · simp
  · intro i _ hi
    have : a ≠ i := fun e => hi (Fin.ext e.symm)
    simp [this]
  · simp

theorem sum_list {N : ℕ} (l : List (Bond × M3 ℝ)) (ix : Atom → ℕ) (ph : Bond → ℂ)
    (hl : ∀ p ∈ l, ix p.1.1 < N ∧ ix p.1.2.1 < N) (f g : ℕ → V3 ℂ) :
    ∑ i : Fin N, ∑ j : Fin N, f i ⬝ᵥ ((l.map fun p => if ix p.1.1 = i ∧ ix p.1.2.1 = j then
        ph p.1 • p.2.map ((↑) : ℝ → ℂ) else 0).sum *ᵥ g j) =
      (l.map fun p => ph p.1 * cbil (f (ix p.1.1)) p.2 (g (ix p.1.2.1))).sum := by
  induction l with
  | nil => simp
  | cons p l ih =>
    have hp := hl p List.mem_cons_self
    simp only [List.map_cons, List.sum_cons, Matrix.add_mulVec, dotProduct_add, Finset.sum_add_distrib]
    rw [ih fun q hq => hl q (List.mem_cons_of_mem _ hq), sum_single hp.1 hp.2, Matrix.smul_mulVec, dotProduct_smul,
      smul_eq_mul, cbil]

variable {order : List Atom → List Atom} {lat : M3 ℝ} {pos : Atom → V3 ℝ} {spinVec : Atom → Option (V3 ℝ)}
  {s : St ℝ} {o : MagnonObj} {t : St ℝ} {items : List (Bond × ℕ)}

theorem ObjSpec.like_atoms (h : ObjSpec order lat pos spinVec s o t items) {p : Bond × M3 ℝ} (hp : p ∈ likeItems t) :
    p.1.1 ∈ t.magneticAtoms order ∧ p.1.2.1 ∈ t.magneticAtoms order := by
  rw [← h.values] at hp
  obtain ⟨q, hq, rfl⟩ := List.mem_map.1 hp
  exact h.atoms q hq

theorem ObjSpec.sum_J (h : ObjSpec order lat pos spinVec s o t items) (k : V3 ℝ) (f g : ℕ → V3 ℂ) :
    ∑ i : Fin o.N, ∑ j : Fin o.N, f i ⬝ᵥ (o.J t.cell k i j *ᵥ g j) =
      ((likeItems t).map fun p => phase k (vector lat pos p.1) *
        cbil (f ((t.magneticAtoms order).idxOf p.1.1)) p.2 (g ((t.magneticAtoms order).idxOf p.1.2.1))).sum := by
  have key := sum_list (N := o.N) (likeItems t) (fun a => (t.magneticAtoms order).idxOf a)
    (fun b => phase k (vector lat pos b)) (fun p hp => by
      rw [h.N]
      exact ⟨List.idxOf_lt_length_iff.2 (h.like_atoms hp).1, List.idxOf_lt_length_iff.2 (h.like_atoms hp).2⟩) f g
  rw [← key]
  refine Finset.sum_congr rfl fun i _ => Finset.sum_congr rfl fun j _ => ?_
  rw [h.J_eq]

theorem A_neg_star (o : MagnonObj) (cell : ℕ → M3 ℝ) (k : V3 ℝ) (i j : ℕ) :
    star (o.A cell (-k) i j) = o.root i j * (star (o.u.getD i 0) ⬝ᵥ (o.J cell (-k) i j *ᵥ o.u.getD j 0)) := by
  unfold A
  rw [star_mul', root_star, star_bilin, star_star, J_conj, neg_neg]

theorem B_neg_star (o : MagnonObj) (cell : ℕ → M3 ℝ) (k : V3 ℝ) (i j : ℕ) :
    star (o.B cell (-k) i j) = o.root i j * (star (o.u.getD i 0) ⬝ᵥ (o.J cell (-k) i j *ᵥ star (o.u.getD j 0))) := by
  unfold B
  rw [star_mul', root_star, star_bilin, J_conj, neg_neg]

/-- The form of one pair of atoms. -/
theorem pair_form (u w : V3 ℂ) (M : M3 ℂ) (a b a' b' : ℂ) :
    star (b • u + a • star u) ⬝ᵥ (M *ᵥ (b' • w + a' • star w)) =
      star a * (u ⬝ᵥ (M *ᵥ star w)) * a' + star a * (u ⬝ᵥ (M *ᵥ w)) * b' +
        star b * (star u ⬝ᵥ (M *ᵥ star w)) * a' + star b * (star u ⬝ᵥ (M *ᵥ w)) * b' := by
  simp only [dotProduct, mulVec, Fin.sum_univ_three, Pi.add_apply, Pi.smul_apply, Pi.star_apply, smul_eq_mul, star_add,
    star_mul', star_star]
  ring

theorem ObjSpec.form (h : ObjSpec order lat pos spinVec s o t items) (hs : Symmetric t) (k : V3 ℝ) (x y : ℕ → ℂ) :
    let F : ℕ → V3 ℂ := fun i => ((Real.sqrt (EnergyObj.norm3 (o.S.getD i 0) / 2) : ℝ) : ℂ) •
      (y i • o.u.getD i 0 + x i • star (o.u.getD i 0))
    let X : Fin o.N ⊕ Fin o.N → ℂ := Sum.elim (fun i => x i) fun i => y i
    star X ⬝ᵥ ((o.callH t.cell k).1 *ᵥ X) =
      2 * (∑ i : Fin o.N, ∑ j : Fin o.N, star (F i) ⬝ᵥ (o.J t.cell (-k) i j *ᵥ F j)) -
      2 * ∑ i : Fin o.N, ((normSq (x i) : ℝ) + (normSq (y i) : ℝ) : ℂ) * o.freshC t.cell i i := by
  intro F X
  have hroot : ∀ i j, o.root i j = ((Real.sqrt (EnergyObj.norm3 (o.S.getD i 0) / 2) : ℝ) : ℂ) *
      ((Real.sqrt (EnergyObj.norm3 (o.S.getD j 0) / 2) : ℝ) : ℂ) := by
    intro i j
    unfold root
    rw [← Complex.ofReal_mul, ← Real.sqrt_mul (by unfold EnergyObj.norm3; positivity)]
    congr 1
    rw [show EnergyObj.norm3 (o.S.getD i 0) / 2 * (EnergyObj.norm3 (o.S.getD j 0) / 2) =
      EnergyObj.norm3 (o.S.getD i 0) * EnergyObj.norm3 (o.S.getD j 0) / 2 ^ 2 by ring, Real.sqrt_div' _ (by norm_num),
      Real.sqrt_sq (by norm_num)]
  have hpair : ∀ i j, star (F i) ⬝ᵥ (o.J t.cell (-k) i j *ᵥ F j) =
      star (x i) * o.A t.cell k i j * x j + star (x i) * o.B t.cell k i j * y j +
        star (y i) * star (o.B t.cell k j i) * x j + star (y i) * star (o.A t.cell (-k) i j) * y j := by
    intro i j
    rw [← h.B_transpose hs k j i, B_neg_star, A_neg_star]
    simp only [A, B, F, hroot]
    have hr : ∀ r : ℝ, star (r : ℂ) = (r : ℂ) := fun r => by rw [RCLike.star_def, Complex.conj_ofReal]
    rw [star_smul, hr, smul_dotProduct, mulVec_smul, dotProduct_smul, smul_eq_mul,
      smul_eq_mul, pair_form]
    ring
  have hC : ∀ z : Fin o.N → ℂ, ∑ i : Fin o.N, ∑ j : Fin o.N, star (z i) * o.freshC t.cell i j * z j =
      ∑ i : Fin o.N, (normSq (z i) : ℂ) * o.freshC t.cell i i := by
    intro z
    refine Finset.sum_congr rfl fun i _ => ?_
    rw [Finset.sum_eq_single i]
    · rw [Complex.normSq_eq_conj_mul_self, ← RCLike.star_def]; ring
    · intro j _ hj
      have : o.freshC t.cell i j = 0 := by
        unfold freshC
        exact if_neg fun e => hj (Fin.ext e.symm)
      rw [this]; ring
    · simp
  have h2 : ∀ (M : Matrix (Fin o.N) (Fin o.N) ℂ) (i j : Fin o.N), (2 • M) i j = 2 * M i j := fun M i j => by
    rw [two_smul, two_mul]; rfl
  rw [callH_fresh _ h.C]
  have hform : ∀ P Q R T : Matrix (Fin o.N) (Fin o.N) ℂ, star X ⬝ᵥ (fromBlocks P Q R T *ᵥ X) =
      ∑ i : Fin o.N, ∑ j : Fin o.N, (star (x i) * P i j * x j + star (x i) * Q i j * y j + star (y i) * R i j * x j +
        star (y i) * T i j * y j) := by
    intro P Q R T
    simp only [dotProduct, mulVec, Fintype.sum_sum_type, fromBlocks_apply₁₁, fromBlocks_apply₁₂, fromBlocks_apply₂₁,
      fromBlocks_apply₂₂, X, Sum.elim_inl, Sum.elim_inr, Pi.star_apply, mul_add, Finset.mul_sum, Finset.sum_add_distrib,
      mul_assoc]
    ring
  rw [hform]
  simp only [hpair]
  have e : ∑ i : Fin o.N, ((normSq (x i) : ℝ) + (normSq (y i) : ℝ) : ℂ) * o.freshC t.cell i i =
      ∑ i : Fin o.N, ∑ j : Fin o.N,
        (star (x i) * o.freshC t.cell i j * x j + star (y i) * o.freshC t.cell i j * y j) := by
    simp only [Finset.sum_add_distrib]
    rw [hC fun i => x i, hC fun i => y i, ← Finset.sum_add_distrib]
    exact Finset.sum_congr rfl fun i _ => by ring
  rw [e, Finset.mul_sum, Finset.mul_sum, ← Finset.sum_sub_distrib]
  refine Finset.sum_congr rfl fun i _ => ?_
  rw [Finset.mul_sum, Finset.mul_sum, ← Finset.sum_sub_distrib]
  refine Finset.sum_congr rfl fun j _ => ?_
  rw [Matrix.sub_apply, Matrix.sub_apply, h2, h2, h2, h2, h2, conjTranspose_apply, Matrix.map_apply]
  simp only [block, Matrix.of_apply]
  ring

end MagnonObj
end Magnopy
