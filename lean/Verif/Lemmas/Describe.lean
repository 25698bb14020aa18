import Verif.Lemmas.Coupling
import Verif.Lemmas.Goldstone

/-!
# Helper lemmas: the magnon matrix in two descriptions
-/

set_option autoImplicit false
set_option linter.unusedSectionVars false

namespace Magnopy

open PyDict Matrix Complex MagnonObj

/-! ### Vectors -/

/-- A real matrix as a complex one. -/
abbrev cmat (Q : M3 ℝ) : M3 ℂ := Q.map ((↑) : ℝ → ℂ)

theorem cmat_mul (P Q : M3 ℝ) : cmat (P * Q) = cmat P * cmat Q := by
  ext i j; simp [mul_apply]

theorem cmat_transpose (Q : M3 ℝ) : cmat Qᵀ = (cmat Q)ᵀ := rfl

theorem cmat_one : cmat 1 = 1 := by ext i j; simp [one_apply, apply_ite]

theorem cmat_star (Q : M3 ℝ) (u : V3 ℂ) : star (cmat Q *ᵥ u) = cmat Q *ᵥ star u := by
  funext c
  simp only [Pi.star_apply, mulVec, dotProduct, star_sum, star_mul', cmat, Matrix.map_apply, RCLike.star_def, Complex.conj_ofReal]

theorem adjoint {F : Type*} [CommRing F] (Q : M3 F) (x w : V3 F) : (Q *ᵥ x) ⬝ᵥ w = x ⬝ᵥ (Qᵀ *ᵥ w) := by
  rw [dotProduct_mulVec, vecMul_transpose]

theorem dot_turn {Q : M3 ℝ} (h : Qᵀ * Q = 1) (x y : V3 ℝ) : (Q *ᵥ x) ⬝ᵥ (Q *ᵥ y) = x ⬝ᵥ y := by
  rw [adjoint, mulVec_mulVec, h, one_mulVec]

theorem cbil_turn {Q : M3 ℝ} (h : Qᵀ * Q = 1) (u v : V3 ℂ) (J : M3 ℂ) :
    (cmat Q *ᵥ u) ⬝ᵥ ((cmat Q * J * (cmat Q)ᵀ) *ᵥ (cmat Q *ᵥ v)) = u ⬝ᵥ (J *ᵥ v) := by
  have hc : (cmat Q)ᵀ * cmat Q = 1 := by rw [← cmat_transpose, ← cmat_mul, h, cmat_one]
  rw [adjoint, mulVec_mulVec, mulVec_mulVec]
  congr 2
  calc (cmat Q)ᵀ * (cmat Q * J * (cmat Q)ᵀ) * cmat Q = ((cmat Q)ᵀ * cmat Q) * J * ((cmat Q)ᵀ * cmat Q) := by
        simp only [Matrix.mul_assoc]
    _ = J := by rw [hc, Matrix.one_mul, Matrix.mul_one]

theorem norm3_turn {Q : M3 ℝ} (h : Qᵀ * Q = 1) (v : V3 ℝ) : EnergyObj.norm3 (Q *ᵥ v) = EnergyObj.norm3 v := by
  have hn : ∀ v : V3 ℝ, EnergyObj.norm3 v = Real.sqrt (v ⬝ᵥ v) := by
    intro v
    rw [← norm3_sq, Real.sqrt_sq (show 0 ≤ EnergyObj.norm3 v from Real.sqrt_nonneg _)]
  rw [hn, hn, dot_turn h]

/-- The vector of a bond in the new description. -/
theorem Description.Moves.vector {f : Description} {l : List Atom} {lat lat' : M3 ℝ} {pos pos' : Atom → V3 ℝ}
    {spinVec spinVec' : Atom → Option (V3 ℝ)} (h : f.Moves l lat lat' pos pos' spinVec spinVec') {b : Bond} (h1 : b.1 ∈ l)
    (h2 : b.2.1 ∈ l) : MagnonObj.vector lat' pos' (f.bond b) = f.space *ᵥ MagnonObj.vector lat pos b := by
  obtain ⟨a, b, R⟩ := b
  obtain ⟨origin, p⟩ := h.positions
  have p1 := p a h1
  have p2 := p b h2
  have p3 := h.lattice R
  have hv : ∀ (lat : M3 ℝ) (pos : Atom → V3 ℝ) (a b : Atom) (R : Cell), MagnonObj.vector lat pos (a, b, R) =
      absolute lat R.rel + (absolute lat (pos b) - absolute lat (pos a)) := by
    intro lat pos a b R
    funext c
    simp only [MagnonObj.vector, EnergyObj.lattice, absolute, Cell.rel, Fin.sum_univ_three, Pi.add_apply, Pi.sub_apply,
      Matrix.cons_val_zero, Matrix.cons_val_one, Matrix.cons_val]
    ring
  have hadd : ∀ (lat : M3 ℝ) (x y : V3 ℝ), absolute lat (x + y) = absolute lat x + absolute lat y := by
    intro lat x y
    funext c
    simp only [absolute, Fin.sum_univ_three, Pi.add_apply]
    ring
  have hrel : ∀ (lat : M3 ℝ) (R R' R'' : Cell), absolute lat (R + R' - R'').rel =
      absolute lat R.rel + absolute lat R'.rel - absolute lat R''.rel := by
    intro lat R R' R''
    funext c
    simp only [absolute, Cell.rel, Fin.sum_univ_three, Pi.add_apply, Pi.sub_apply, Prod.fst_add, Prod.snd_add, Prod.fst_sub,
      Prod.snd_sub, Matrix.cons_val_zero, Matrix.cons_val_one, Matrix.cons_val]
    push_cast
    ring
  rw [hadd] at p1 p2
  rw [Description.bond, hv, hv, hrel, mulVec_add, mulVec_sub, eq_sub_of_add_eq p1.symm, eq_sub_of_add_eq p2.symm, ← p3]
  abel

/-! ### Indices -/

variable {order order' : List Atom → List Atom} {lat lat' : M3 ℝ} {pos pos' : Atom → V3 ℝ}
  {spinVec spinVec' : Atom → Option (V3 ℝ)} {s s' : St ℝ} {o o' : MagnonObj} {t t' : St ℝ} {items items' : List (Bond × ℕ)}

theorem atomAt_inj (h : ObjSpec order lat pos spinVec s o t items) (hord : ∀ l, (order l).Perm l) {i j : Fin o.N}
    (e : atomAt o (t.magneticAtoms order) i = atomAt o (t.magneticAtoms order) j) : i = j := by
  have h1 := (idxOf_eq h hord (atomAt_mem h hord i) i).2 rfl
  have h2 := (idxOf_eq h hord (atomAt_mem h hord i) j).2 e
  exact Fin.ext (h1.symm.trans h2)

/-- The numbers of the atoms in the two descriptions. -/
theorem Description.Holds.number {f : Description} {spin spin' : Atom → ℝ}
    (hf : f.Holds (t.magneticAtoms order) (t'.magneticAtoms order') spin spin' s s')
    (h : ObjSpec order lat pos spinVec s o t items) (hord : ∀ l, (order l).Perm l)
    (h' : ObjSpec order' lat' pos' spinVec' s' o' t' items') (hord' : ∀ l, (order' l).Perm l) :
    ∃ e : Fin o.N ≃ Fin o'.N, ∀ i, atomAt o' (t'.magneticAtoms order') (e i) = f.name (atomAt o (t.magneticAtoms order) i) := by
  have hex : ∀ i : Fin o.N, ∃ j : Fin o'.N, atomAt o' (t'.magneticAtoms order') j = f.name (atomAt o (t.magneticAtoms order) i) :=
    fun i => atomAt_exists h' hord' ((hf.atoms _).2 ⟨_, atomAt_mem h hord i, rfl⟩)
  choose g hg using hex
  refine ⟨Equiv.ofBijective g ⟨fun i j hij => ?_, fun j => ?_⟩, hg⟩
  · have := (hg i).symm.trans ((congrArg _ hij).trans (hg j))
    exact atomAt_inj h hord (hf.inj _ (atomAt_mem h hord i) _ (atomAt_mem h hord j) this)
  · obtain ⟨a, ha, e⟩ := (hf.atoms _).1 (atomAt_mem h' hord' j)
    obtain ⟨i, rfl⟩ := atomAt_exists h hord ha
    exact ⟨i, atomAt_inj h' hord' ((hg i).trans e)⟩

/-! ### `J` -/

/-- One term of `J`. -/
noncomputable def termHom (c : Prop) [Decidable c] (z : ℂ) : M3 ℝ →+ M3 ℂ where
  toFun m := if c then z • m.map ((↑) : ℝ → ℂ) else 0
  map_zero' := by split_ifs <;> ext <;> simp
  map_add' x y := by split_ifs <;> ext <;> simp [mul_add]

theorem J_couple (h : ObjSpec order lat pos spinVec s o t items) (hord : ∀ l, (order l).Perm l) (k : V3 ℝ) (i j : Fin o.N)
    (K : Finset Bond) (hK : ∀ p ∈ likeItems t, p.1 ∈ K) : o.J t.cell k i j = ∑ b ∈ K,
      termHom (b.1 = atomAt o (t.magneticAtoms order) i ∧ b.2.1 = atomAt o (t.magneticAtoms order) j)
        (phase k (MagnonObj.vector lat pos b)) (couple (likeItems t) b) := by
  rw [h.J_eq, ← sum_by_bond (likeItems t) (fun b => termHom (b.1 = atomAt o (t.magneticAtoms order) i ∧
    b.2.1 = atomAt o (t.magneticAtoms order) j) (phase k (MagnonObj.vector lat pos b))) K hK]
  congr 1
  refine List.map_congr_left fun p hp => ?_
  obtain ⟨ha, hb⟩ := h.like_atoms hp
  simp only [idxOf_eq h hord ha, idxOf_eq h hord hb]
  rfl

theorem J_describe {f : Description} {spin spin' : Atom → ℝ} {sv sv' : Atom → Option (V3 ℝ)}
    (hf : f.Holds (t.magneticAtoms order) (t'.magneticAtoms order') spin spin' s s')
    (hm : f.Moves (t.magneticAtoms order) lat lat' pos pos' sv sv')
    (h : ObjSpec order lat pos spinVec s o t items) (hord : ∀ l, (order l).Perm l)
    (h' : ObjSpec order' lat' pos' spinVec' s' o' t' items') (hord' : ∀ l, (order' l).Perm l)
    (hc : ∀ b : Bond, b.1 ∈ t.magneticAtoms order → b.2.1 ∈ t.magneticAtoms order →
      couple (likeItems t') (f.bond b) = f.turn * couple (likeItems t) b * f.turnᵀ)
    {e : Fin o.N ≃ Fin o'.N}
    (he : ∀ i, atomAt o' (t'.magneticAtoms order') (e i) = f.name (atomAt o (t.magneticAtoms order) i)) (k : V3 ℝ) (i j : Fin o.N) :
    o'.J t'.cell (f.space *ᵥ k) (e i) (e j) = cmat f.turn * o.J t.cell k i j * (cmat f.turn)ᵀ := by
  classical
  have hex : ∀ p ∈ likeItems t', ∃ b : Bond, b.1 ∈ t.magneticAtoms order ∧ b.2.1 ∈ t.magneticAtoms order ∧ f.bond b = p.1 := by
    intro p hp
    obtain ⟨ha, hb⟩ := h'.like_atoms hp
    obtain ⟨a, ha, ea⟩ := (hf.atoms _).1 ha
    obtain ⟨b, hb, eb⟩ := (hf.atoms _).1 hb
    refine ⟨(a, b, f.cells.symm (p.1.2.2 - f.shift b + f.shift a)), ha, hb, ?_⟩
    simp only [Description.bond, ea, eb, AddEquiv.apply_symm_apply]
    rw [show p.1.2.2 - f.shift b + f.shift a + f.shift b - f.shift a = p.1.2.2 by abel]
  have : Nonempty Bond := ⟨(⟨"", 0⟩, ⟨"", 0⟩, (0, 0, 0))⟩
  choose! g hg using hex
  set K : Finset Bond := ((likeItems t).map Prod.fst).toFinset ∪ ((likeItems t').map g).toFinset with hK
  have hKl : ∀ b ∈ K, b.1 ∈ t.magneticAtoms order ∧ b.2.1 ∈ t.magneticAtoms order := by
    intro b hb
    rcases Finset.mem_union.1 hb with hb | hb <;> obtain ⟨p, hp, rfl⟩ := List.mem_map.1 (List.mem_toFinset.1 hb)
    · exact h.like_atoms hp
    · exact ⟨(hg p hp).1, (hg p hp).2.1⟩
  have hinj : Set.InjOn f.bond K := by
    rintro ⟨a, b, R⟩ h1 ⟨a', b', R'⟩ h2 e
    simp only [Description.bond, Prod.mk.injEq] at e
    have e1 := hf.inj _ (hKl _ h1).1 _ (hKl _ h2).1 e.1
    have e2 := hf.inj _ (hKl _ h1).2 _ (hKl _ h2).2 e.2.1
    simp only at e1 e2
    subst e1 e2
    have e3 := e.2.2
    simp only [add_sub_assoc, add_left_inj] at e3
    rw [f.cells.injective e3]
  rw [J_couple h hord k i j K fun p hp => Finset.mem_union_left _ (List.mem_toFinset.2 (List.mem_map.2 ⟨p, hp, rfl⟩)),
    J_couple h' hord' _ (e i) (e j) (K.image f.bond) fun p hp => Finset.mem_image.2 ⟨g p, Finset.mem_union_right _
      (List.mem_toFinset.2 (List.mem_map.2 ⟨p, hp, rfl⟩)), (hg p hp).2.2⟩, Finset.sum_image hinj, Finset.mul_sum, Finset.sum_mul]
  refine Finset.sum_congr rfl fun b hb => ?_
  obtain ⟨h1, h2⟩ := hKl b hb
  have hph : phase (f.space *ᵥ k) (MagnonObj.vector lat' pos' (f.bond b)) = phase k (MagnonObj.vector lat pos b) := by
    rw [phase, phase, hm.vector h1 h2, dot_turn hf.isometry]
  have hcond : ((f.bond b).1 = atomAt o' (t'.magneticAtoms order') (e i) ∧
      (f.bond b).2.1 = atomAt o' (t'.magneticAtoms order') (e j)) ↔
      (b.1 = atomAt o (t.magneticAtoms order) i ∧ b.2.1 = atomAt o (t.magneticAtoms order) j) := by
    rw [he, he]
    exact and_congr ⟨hf.inj _ h1 _ (atomAt_mem h hord i), fun e => congrArg f.name e⟩
      ⟨hf.inj _ h2 _ (atomAt_mem h hord j), fun e => congrArg f.name e⟩
  simp only [termHom, AddMonoidHom.coe_mk, ZeroHom.coe_mk, hph, hcond]
  rw [hc b h1 h2]
  split_ifs
  · rw [show ((f.turn * couple (likeItems t) b * f.turnᵀ).map ((↑) : ℝ → ℂ)) = cmat (f.turn * couple (likeItems t) b * f.turnᵀ) from rfl,
      cmat_mul, cmat_mul, cmat_transpose, Matrix.mul_smul, Matrix.smul_mul]
  · rw [Matrix.mul_zero, Matrix.zero_mul]

/-! ### `h` -/

/-- Spins and local axes of the object in the two descriptions. -/
structure SameAxes (f : Description) (o o' : MagnonObj) (e : Fin o.N ≃ Fin o'.N) (z : Fin o.N → ℂ) : Prop where
  unit : ∀ i, z i * star (z i) = 1
  S : ∀ i, EnergyObj.norm3 (o'.S.getD (e i) 0) = EnergyObj.norm3 (o.S.getD i 0)
  u : ∀ i, o'.u.getD (e i) 0 = z i • (cmat f.turn *ᵥ o.u.getD i 0)
  v : ∀ i, o'.v.getD (e i) 0 = cmat f.turn *ᵥ o.v.getD i 0

theorem h_describe {f : Description} {e : Fin o.N ≃ Fin o'.N} {z : Fin o.N → ℂ} {cell cell' : ℕ → M3 ℝ} (hQ : f.turnᵀ * f.turn = 1)
    (ha : SameAxes f o o' e z) (hC : o.C = none) (hC' : o'.C = none)
    (hJ : ∀ k i j, o'.J cell' (f.space *ᵥ k) (e i) (e j) = cmat f.turn * o.J cell k i j * (cmat f.turn)ᵀ) (k : V3 ℝ)
    (r c : Fin o.N ⊕ Fin o.N) : (o'.callH cell' (f.space *ᵥ k)).1 (Sum.map e e r) (Sum.map e e c) =
      Sum.elim z (star z) r * (o.callH cell k).1 r c * star (Sum.elim z (star z) c) := by
  have hroot : ∀ i j : Fin o.N, o'.root (e i) (e j) = o.root i j := by
    intro i j
    unfold root
    rw [ha.S, ha.S]
  have hA : ∀ k (i j : Fin o.N), o'.A cell' (f.space *ᵥ k) (e i) (e j) = z i * o.A cell k i j * star (z j) := by
    intro k i j
    unfold A
    rw [hroot, ha.u, ha.u, ← mulVec_neg, hJ, star_smul, cmat_star, smul_dotProduct, mulVec_smul, dotProduct_smul, cbil_turn hQ,
      smul_eq_mul, smul_eq_mul]
    ring
  have hB : ∀ (i j : Fin o.N), o'.B cell' (f.space *ᵥ k) (e i) (e j) = z i * o.B cell k i j * z j := by
    intro i j
    unfold B
    rw [hroot, ha.u, ha.u, ← mulVec_neg, hJ, smul_dotProduct, mulVec_smul, dotProduct_smul, cbil_turn hQ, smul_eq_mul, smul_eq_mul]
    ring
  have hCC : ∀ (i j : Fin o.N), o'.freshC cell' (e i) (e j) = o.freshC cell i j := by
    intro i j
    unfold freshC
    by_cases hij : i = j
    · subst hij
      rw [if_pos rfl, if_pos rfl, Finset.sum_range, Finset.sum_range, ← e.sum_comp]
      refine Finset.sum_congr rfl fun l _ => ?_
      have := hJ 0 i l
      rw [mulVec_zero] at this
      rw [ha.S, ha.v, ha.v, this, cbil_turn hQ]
    · rw [if_neg fun h => hij (Fin.ext h), if_neg fun h => hij (e.injective (Fin.ext h))]
  have hzC : ∀ (i j : Fin o.N), z i * o.freshC cell i j * star (z j) = o.freshC cell i j := by
    intro i j
    by_cases hij : i = j
    · subst hij
      rw [mul_right_comm, ha.unit, one_mul]
    · unfold freshC
      rw [if_neg fun h => hij (Fin.ext h), mul_zero, zero_mul]
  have hzC' : ∀ (i j : Fin o.N), star (z i) * o.freshC cell i j * z j = o.freshC cell i j := by
    intro i j
    by_cases hij : i = j
    · subst hij
      rw [mul_right_comm, mul_comm (star (z i)), ha.unit, one_mul]
    · unfold freshC
      rw [if_neg fun h => hij (Fin.ext h), mul_zero, zero_mul]
  have h2 : ∀ {n : ℕ} (M : Matrix (Fin n) (Fin n) ℂ) (i j : Fin n), (2 • M) i j = 2 * M i j := fun M i j => by
    rw [two_smul, two_mul]; rfl
  rw [callH_fresh _ hC, callH_fresh _ hC', ← mulVec_neg]
  rcases r with i | i <;> rcases c with j | j <;>
    simp only [Sum.map_inl, Sum.map_inr, Sum.elim_inl, Sum.elim_inr, fromBlocks_apply₁₁, fromBlocks_apply₁₂, fromBlocks_apply₂₁,
      fromBlocks_apply₂₂, Matrix.sub_apply, h2, block, of_apply, conjTranspose_apply, Matrix.map_apply, hA, hB, hCC, Pi.star_apply,
      star_star, star_mul']
  · linear_combination 2 * hzC i j
  · ring
  · ring
  · linear_combination 2 * hzC' i j

end Magnopy
