import Verif.Lemmas.Similar
import Mathlib.Data.Matrix.Block
import Mathlib.Data.Multiset.Fintype

/-!
# Helper lemmas: the energies of a matrix that falls into blocks
-/

set_option autoImplicit false
set_option linter.unusedSectionVars false

namespace Magnopy

open Matrix Complex MagnonObj ComplexOrder

/-! ### Block-diagonal matrices -/

section Block

variable {I T : Type*} [Fintype I] [DecidableEq I] [Fintype T] [DecidableEq T]

theorem charpoly_blockDiagonal (M : T → Matrix I I ℂ) : (blockDiagonal M).charpoly = ∏ t, (M t).charpoly := by
  unfold Matrix.charpoly
  rw [← det_blockDiagonal]
  congr 1
  refine Matrix.ext ?_
  rintro ⟨i, t⟩ ⟨j, u⟩
  by_cases h : t = u
  · subst h
    by_cases hij : i = j
    · subst hij; simp [blockDiagonal_apply, charmatrix_apply]
    · simp [blockDiagonal_apply, charmatrix_apply, hij]
  · simp [blockDiagonal_apply, charmatrix_apply, h]

theorem posDef_blockDiagonal (M : T → Matrix I I ℂ) : (blockDiagonal M).PosDef ↔ ∀ t, (M t).PosDef := by
  have hform : ∀ x : I × T → ℂ, star x ⬝ᵥ (blockDiagonal M *ᵥ x) =
      ∑ t, star (fun i => x (i, t)) ⬝ᵥ (M t *ᵥ fun i => x (i, t)) := by
    intro x
    simp only [dotProduct, mulVec, Fintype.sum_prod_type, blockDiagonal_apply]
    rw [Finset.sum_comm]
    refine Finset.sum_congr rfl fun t _ => Finset.sum_congr rfl fun i _ => ?_
    congr 1
    rw [Finset.sum_congr rfl fun j _ => Finset.sum_eq_single t (fun u _ hu => by rw [if_neg (Ne.symm hu), zero_mul]) (by simp)]
    simp
  constructor
  · intro h t
    refine PosDef.of_dotProduct_mulVec_pos ?_ fun y hy => ?_
    · have := h.isHermitian
      rw [Matrix.IsHermitian, blockDiagonal_conjTranspose] at this
      exact congrFun (blockDiagonal_injective this) t
    · have h0 : (fun p : I × T => if p.2 = t then y p.1 else 0) ≠ 0 := by
        intro e
        apply hy
        funext i
        simpa using congrFun e (i, t)
      have := h.dotProduct_mulVec_pos h0
      rw [hform, Finset.sum_eq_single t] at this
      · simpa using this
      · intro u _ hu
        simp only [if_neg hu]
        rw [show (fun _ : I => (0 : ℂ)) = 0 from rfl, mulVec_zero, dotProduct_zero]
      · simp
  · intro h
    refine PosDef.of_dotProduct_mulVec_pos ?_ fun x hx => ?_
    · rw [Matrix.IsHermitian, blockDiagonal_conjTranspose]
      congr 1
      funext t
      exact (h t).isHermitian
    · rw [hform]
      obtain ⟨⟨i, t⟩, hi⟩ := Function.ne_iff.1 hx
      refine Finset.sum_pos' (fun u _ => (h u).posSemidef.dotProduct_mulVec_nonneg _) ⟨t, Finset.mem_univ _, ?_⟩
      refine (h t).dotProduct_mulVec_pos fun e => hi ?_
      exact congrFun e i

end Block

/-! ### Folding -/

/-- `D'` falls into the blocks `D t`. -/
structure Folds {N N' n : ℕ} (D' : Mat N') (D : Fin n → Mat N) (E : (Fin N ⊕ Fin N) × Fin n ≃ Fin N' ⊕ Fin N')
    (p : Fin n → Fin N ⊕ Fin N → Fin n → ℂ) : Prop where
  pos : n ≠ 0
  sgn : ∀ r m, Colpa.sgn (E (r, m)) = Colpa.sgn r
  ortho : ∀ r m m', ∑ t, p t r m * star (p t r m') = if m = m' then (n : ℂ) else 0
  entry : ∀ r m c m', D' (E (r, m)) (E (c, m')) = (1 / n : ℂ) * ∑ t, p t r m * D t r c * star (p t c m')

namespace Folds

variable {N N' n : ℕ} {D' : Mat N'} {D : Fin n → Mat N} {E : (Fin N ⊕ Fin N) × Fin n ≃ Fin N' ⊕ Fin N'}
  {p : Fin n → Fin N ⊕ Fin N → Fin n → ℂ}

/-- The change of the basis. -/
noncomputable def W (E : (Fin N ⊕ Fin N) × Fin n ≃ Fin N' ⊕ Fin N') (p : Fin n → Fin N ⊕ Fin N → Fin n → ℂ) :
    Matrix (Fin N' ⊕ Fin N') ((Fin N ⊕ Fin N) × Fin n) ℂ :=
  .of fun x y => if (E.symm x).1 = y.1 then p y.2 y.1 (E.symm x).2 / (Real.sqrt n : ℂ) else 0

theorem W_apply (r : Fin N ⊕ Fin N) (m : Fin n) (c : Fin N ⊕ Fin N) (t : Fin n) :
    W E p (E (r, m)) (c, t) = if r = c then p t r m / (Real.sqrt n : ℂ) else 0 := by
  unfold W
  rw [of_apply, Equiv.symm_apply_apply]
  by_cases h : r = c
  · subst h; rfl
  · simp [h]

theorem root_sq (hn : n ≠ 0) : ((Real.sqrt n : ℝ) : ℂ) * star ((Real.sqrt n : ℝ) : ℂ) = n := by
  rw [RCLike.star_def, Complex.conj_ofReal, ← Complex.ofReal_mul, Real.mul_self_sqrt (Nat.cast_nonneg n)]
  simp

theorem unitary (h : Folds D' D E p) : W E p * (W E p)ᴴ = 1 := by
  have hn : (n : ℂ) ≠ 0 := Nat.cast_ne_zero.2 h.pos
  ext x y
  obtain ⟨⟨r, m⟩, rfl⟩ := E.surjective x
  obtain ⟨⟨c, m'⟩, rfl⟩ := E.surjective y
  rw [mul_apply, Fintype.sum_prod_type, Finset.sum_eq_single r]
  · simp only [conjTranspose_apply, W_apply, if_true]
    by_cases hrc : c = r
    · subst hrc
      simp only [if_true, star_div₀, div_mul_div_comm, root_sq h.pos, ← Finset.sum_div, h.ortho]
      by_cases hm : m = m'
      · subst hm; simp [hn]
      · rw [if_neg hm, zero_div, one_apply_ne]
        intro e
        exact hm (congrArg Prod.snd (E.injective e))
    · simp only [if_neg hrc, star_zero, mul_zero, Finset.sum_const_zero]
      rw [one_apply_ne]
      intro e
      exact hrc (congrArg Prod.fst (E.injective e)).symm
  · intro d _ hd
    refine Finset.sum_eq_zero fun t _ => ?_
    rw [W_apply, if_neg (Ne.symm hd), zero_mul]
  · simp

theorem unitary' (h : Folds D' D E p) : (W E p)ᴴ * W E p = 1 := (Matrix.mul_eq_one_comm_of_equiv E.symm).1 h.unitary

theorem eq_blocks (h : Folds D' D E p) : D' = W E p * blockDiagonal D * (W E p)ᴴ := by
  ext x y
  obtain ⟨⟨r, m⟩, rfl⟩ := E.surjective x
  obtain ⟨⟨c, m'⟩, rfl⟩ := E.surjective y
  rw [h.entry, mul_apply, Fintype.sum_prod_type, Finset.sum_eq_single c, Finset.mul_sum]
  · refine Finset.sum_congr rfl fun t _ => ?_
    rw [conjTranspose_apply, W_apply, if_pos rfl, mul_apply, Fintype.sum_prod_type, Finset.sum_eq_single r, Finset.sum_eq_single t,
      W_apply, if_pos rfl, blockDiagonal_apply, if_pos rfl, star_div₀, ← root_sq h.pos]
    · field_simp
    · intro u _ hu
      rw [blockDiagonal_apply, if_neg hu, mul_zero]
    · simp
    · intro d _ hd
      refine Finset.sum_eq_zero fun t _ => ?_
      rw [W_apply, if_neg (Ne.symm hd), zero_mul]
    · simp
  · intro d _ hd
    refine Finset.sum_eq_zero fun t _ => ?_
    rw [conjTranspose_apply, W_apply, if_neg (Ne.symm hd), star_zero, mul_zero]
  · simp

theorem metric (h : Folds D' D E p) : Colpa.g * W E p = W E p * blockDiagonal fun _ => Colpa.g := by
  have hg : ∀ {M : ℕ} (i : Fin M ⊕ Fin M), (Sum.elim (fun _ => (1 : ℂ)) (fun _ => -1) i : ℂ) = ((Colpa.sgn i : ℝ) : ℂ) := by
    rintro M (i | i) <;> simp [Colpa.sgn]
  ext x ⟨c, t⟩
  obtain ⟨⟨r, m⟩, rfl⟩ := E.surjective x
  unfold Colpa.g
  rw [blockDiagonal_diagonal, diagonal_mul, mul_diagonal, W_apply, hg, hg, h.sgn]
  split_ifs with hr
  · subst hr; ring
  · simp

/-- The matrix is positive definite if and only if all blocks are. -/
theorem posDef_iff (h : Folds D' D E p) : D'.PosDef ↔ ∀ t, (D t).PosDef := by
  rw [← posDef_blockDiagonal]
  constructor
  · intro hp
    have hb : blockDiagonal D = (W E p)ᴴ * D' * ((W E p)ᴴ)ᴴ := by
      rw [conjTranspose_conjTranspose, h.eq_blocks]
      calc blockDiagonal D = ((W E p)ᴴ * W E p) * blockDiagonal D * ((W E p)ᴴ * W E p) := by
            rw [h.unitary', Matrix.one_mul, Matrix.mul_one]
        _ = _ := by simp only [Matrix.mul_assoc]
    rw [hb]
    refine hp.mul_mul_conjTranspose_same fun x y hxy => ?_
    have := congrArg (fun v => v ᵥ* W E p) hxy
    simpa [vecMul_vecMul, h.unitary'] using this
  · intro hp
    rw [h.eq_blocks]
    refine hp.mul_mul_conjTranspose_same fun x y hxy => ?_
    have := congrArg (fun v => v ᵥ* (W E p)ᴴ) hxy
    simpa [vecMul_vecMul, h.unitary] using this

/-- The eigenvalues are those of the blocks. -/
theorem charpoly (h : Folds D' D E p) : (Colpa.g * D').charpoly = ∏ t, (Colpa.g * D t).charpoly := by
  have hX : (Polynomial.X : Polynomial ℂ) ^ Fintype.card ((Fin N ⊕ Fin N) × Fin n) ≠ 0 := pow_ne_zero _ Polynomial.X_ne_zero
  have e1 : Colpa.g * D' = W E p * ((blockDiagonal fun t => Colpa.g * D t) * (W E p)ᴴ) := by
    rw [h.eq_blocks, ← Matrix.mul_assoc, ← Matrix.mul_assoc, h.metric, blockDiagonal_mul]
    simp only [Matrix.mul_assoc]
  have e2 := charpoly_mul_comm' (W E p) ((blockDiagonal fun t => Colpa.g * D t) * (W E p)ᴴ)
  rw [← e1, Matrix.mul_assoc, h.unitary', Matrix.mul_one, ← Fintype.card_congr E, charpoly_blockDiagonal] at e2
  exact mul_left_cancel₀ hX e2

end Folds

/-! ### The energies -/

namespace Colpa

variable {N : ℕ} {chol : Mat N → Option (Mat N)} {eig : Mat N → (Fin N ⊕ Fin N → ℂ) × Mat N}
  {sort : (Fin N ⊕ Fin N → ℂ) → Equiv.Perm (Fin N ⊕ Fin N)}

theorem solve_signed (hchol : IsCholesky chol) (heig : IsEig eig) (hsort : IsSort sort) {D : Mat N} (hD : D.PosDef) :
    ∃ l : Fin N ⊕ Fin N → ℝ, ∃ G, (∀ i, 0 < sgn i * l i) ∧
      (Finset.univ.val.map fun i => (l i : ℂ)) = (g * D).charpoly.roots ∧
      solve chol eig sort D = some ((fun i => ((sgn i * l i : ℝ) : ℂ)), G) := by
  obtain ⟨K, U, l, h1, h2, h3, h4, h5, h6, _, h7⟩ := solve_eq hchol heig hsort hD
  refine ⟨l, _, h6, ?_, h7⟩
  have := charpoly_eq h3 h4
  rw [Matrix.mul_assoc, charpoly_mul_comm, Matrix.mul_assoc, h1] at this
  have e1 : (Finset.univ.val.map fun i => Polynomial.X - Polynomial.C (l i : ℂ)) =
      (Finset.univ.val.map fun i => (l i : ℂ)).map fun x : ℂ => Polynomial.X - Polynomial.C x := by
    rw [Multiset.map_map]; rfl
  rw [this, Finset.prod, e1]
  exact (Polynomial.roots_multiset_prod_X_sub_C _).symm

end Colpa

theorem signed_parts {N : ℕ} {l : Fin N ⊕ Fin N → ℝ} (h : ∀ i, 0 < Colpa.sgn i * l i) :
    ((Finset.univ.val.map l).filter fun x => 0 < x) = (Finset.univ.val.map fun i => l (.inl i)) ∧
      ((Finset.univ.val.map l).filter fun x => ¬ 0 < x) = (Finset.univ.val.map fun i => l (.inr i)) := by
  have hs : (Finset.univ.val.map l) = (Finset.univ.val.map fun i => l (.inl i)) + (Finset.univ.val.map fun i => l (.inr i)) := by
    rw [← Finset.univ_disjSum_univ, Finset.val_disjSum, Multiset.disjSum, Multiset.map_add, Multiset.map_map, Multiset.map_map]
    rfl
  have h1 : ∀ x ∈ (Finset.univ.val.map fun i : Fin N => l (.inl i)), 0 < x := by
    intro x hx
    obtain ⟨i, _, rfl⟩ := Multiset.mem_map.1 hx
    simpa [Colpa.sgn] using h (.inl i)
  have h2 : ∀ x ∈ (Finset.univ.val.map fun i : Fin N => l (.inr i)), ¬ 0 < x := by
    intro x hx
    obtain ⟨i, _, rfl⟩ := Multiset.mem_map.1 hx
    have : l (.inr i) < 0 := by simpa [Colpa.sgn] using h (.inr i)
    exact not_lt.2 this.le
  rw [hs, Multiset.filter_add, Multiset.filter_add, Multiset.filter_eq_self.2 h1, Multiset.filter_eq_nil.2 h2,
    Multiset.filter_eq_nil.2 fun x hx => not_not.2 (h1 x hx), Multiset.filter_eq_self.2 h2, add_zero, zero_add]
  exact ⟨rfl, rfl⟩

namespace Folds

variable {N N' n : ℕ} {D' : Mat N'} {D : Fin n → Mat N} {E : (Fin N ⊕ Fin N) × Fin n ≃ Fin N' ⊕ Fin N'}
  {p : Fin n → Fin N ⊕ Fin N → Fin n → ℂ} {chol : Mat N → Option (Mat N)} {eig : Mat N → (Fin N ⊕ Fin N → ℂ) × Mat N}
  {sort : (Fin N ⊕ Fin N → ℂ) → Equiv.Perm (Fin N ⊕ Fin N)} {chol' : Mat N' → Option (Mat N')}
  {eig' : Mat N' → (Fin N' ⊕ Fin N' → ℂ) × Mat N'} {sort' : (Fin N' ⊕ Fin N' → ℂ) → Equiv.Perm (Fin N' ⊕ Fin N')}

theorem filter_sum {ι : Type*} (u : Finset ι) (f : ι → Multiset ℝ) (q : ℝ → Prop) [DecidablePred q] :
    (∑ t ∈ u, f t).filter q = ∑ t ∈ u, (f t).filter q :=
  map_sum ({ toFun := Multiset.filter q, map_zero' := Multiset.filter_zero _, map_add' := Multiset.filter_add _ } :
    Multiset ℝ →+ Multiset ℝ) f u

theorem coe_flatMap {α β : Type*} (L : List β) (f : β → List α) :
    ((L.flatMap f : List α) : Multiset α) = (L.map fun t => (f t : Multiset α)).sum := by
  induction L with
  | nil => simp
  | cons a L ih => rw [List.flatMap_cons, ← Multiset.coe_add, ih, List.map_cons, List.sum_cons]

/-- What `omega` does to an energy. -/
noncomputable def entryOf (im : Bool) (x : ℝ) : Entry := if im then clean (some (x : ℂ)) else realPart (clean (some (x : ℂ)))

/-- The array of energies of a positive matrix. -/
theorem omegaOf_signed {solve : Mat N → Option ((Fin N ⊕ Fin N → ℂ) × Mat N)} {l : Fin N ⊕ Fin N → ℝ} {G M : Mat N}
    (h : solve M = some ((fun i => ((Colpa.sgn i * l i : ℝ) : ℂ)), G)) (junk : Mat N) (z r im : Bool) :
    ((omegaOf solve junk z r im M).1 : Multiset Entry) = (Finset.univ.val.map fun i => l (.inl i)).map (entryOf im) +
      if r then (Finset.univ.val.map fun i => l (.inr i)).map (fun x => entryOf im (-x)) else 0 := by
  have ha : attempts solve M = some ((fun i => ((Colpa.sgn i * l i : ℝ) : ℂ)), G) := by
    unfold attempts
    rw [h]
  have e : (omegaOf solve junk z r im M).1 = ((List.finRange N).map fun i => entryOf im (l (.inl i))) ++
      if r then ((List.finRange N).map fun i => entryOf im (-l (.inr i))) else [] := by
    unfold omegaOf
    rw [ha]
    cases r <;> cases im <;> simp [listOf, entryOf, Colpa.sgn, Function.comp_def]
  rw [e, ← Multiset.coe_add, Multiset.map_map, Multiset.map_map]
  rw [Fin.univ_val_map, Fin.univ_val_map, List.ofFn_eq_map, List.ofFn_eq_map]
  cases r <;> rfl

/-- The energies are those of the blocks, if all blocks are positive. -/
theorem omegaOf_perm (h : Folds D' D E p) (hchol : IsCholesky chol) (heig : IsEig eig) (hsort : IsSort sort)
    (hchol' : IsCholesky chol') (heig' : IsEig eig') (hsort' : IsSort sort') (hD : ∀ t, (D t).PosDef) (junk : Mat N)
    (junk' : Mat N') (z r im : Bool) : (omegaOf (Colpa.solve chol' eig' sort') junk' z r im D').1.Perm
      ((List.finRange n).flatMap fun t => (omegaOf (Colpa.solve chol eig sort) junk z r im (D t)).1) := by
  obtain ⟨l', G', h1', h2', h3'⟩ := Colpa.solve_signed hchol' heig' hsort' (h.posDef_iff.2 hD)
  choose l G h1 h2 h3 using fun t => Colpa.solve_signed hchol heig hsort (hD t)
  have hre : ∀ {M : ℕ} (m : Fin M ⊕ Fin M → ℝ), (Finset.univ.val.map fun i => (m i : ℂ)) =
      Multiset.mapAddMonoidHom (fun x : ℝ => (x : ℂ)) (Finset.univ.val.map m) := fun m => by
    rw [Multiset.coe_mapAddMonoidHom, Multiset.map_map]; rfl
  have hroots : (Finset.univ.val.map l') = ∑ t, Finset.univ.val.map (l t) := by
    apply Multiset.map_injective Complex.ofReal_injective
    rw [← Multiset.coe_mapAddMonoidHom, map_sum, ← hre, h2', h.charpoly, Polynomial.roots_prod _ _
      (Finset.prod_ne_zero_iff.2 fun t _ => (charpoly_monic _).ne_zero), Multiset.bind, Multiset.join]
    show (Finset.univ.val.map fun t => (Colpa.g * D t).charpoly.roots).sum = _
    rw [← Finset.sum_eq_multiset_sum]
    refine Finset.sum_congr rfl fun t _ => ?_
    rw [← h2 t, hre]
  have hpos : (Finset.univ.val.map fun i => l' (.inl i)) = ∑ t, Finset.univ.val.map fun i => l t (.inl i) := by
    rw [← (signed_parts h1').1, hroots, filter_sum]
    exact Finset.sum_congr rfl fun t _ => (signed_parts (h1 t)).1
  have hneg : (Finset.univ.val.map fun i => l' (.inr i)) = ∑ t, Finset.univ.val.map fun i => l t (.inr i) := by
    rw [← (signed_parts h1').2, hroots, filter_sum]
    exact Finset.sum_congr rfl fun t _ => (signed_parts (h1 t)).2
  rw [← Multiset.coe_eq_coe, coe_flatMap, omegaOf_signed h3', ← Fin.sum_univ_def]
  simp only [fun t => omegaOf_signed (h3 t) junk z r im]
  rw [Finset.sum_add_distrib, hpos, hneg]
  simp only [← Multiset.coe_mapAddMonoidHom, map_sum]
  cases r <;> simp

/-- A shift of the matrix is a shift of all blocks. -/
theorem shifted (h : Folds D' D E p) (x : ℝ) : Folds (shift D' x) (fun t => shift (D t) x) E p := by
  have hn : (n : ℂ) ≠ 0 := Nat.cast_ne_zero.2 h.pos
  refine ⟨h.pos, h.sgn, h.ortho, fun r m c m' => ?_⟩
  simp only [shift, Matrix.add_apply, h.entry, mul_add, add_mul, Finset.sum_add_distrib]
  congr 1
  by_cases hrc : r = c
  · subst hrc
    simp only [diagonal_apply_eq]
    rw [Finset.sum_congr rfl fun t _ => mul_right_comm _ _ _, ← Finset.sum_mul, h.ortho]
    by_cases hm : m = m'
    · subst hm
      rw [diagonal_apply_eq, if_pos rfl, ← mul_assoc, one_div_mul_cancel hn, one_mul]
    · rw [if_neg hm, diagonal_apply_ne, zero_mul, mul_zero]
      exact fun e => hm (congrArg Prod.snd (E.injective e))
  · rw [diagonal_apply_ne _ fun e => hrc (congrArg Prod.fst (E.injective e))]
    simp only [diagonal_apply_ne _ hrc, mul_zero, zero_mul, Finset.sum_const_zero]

theorem shift_hermitian {M : Mat N} {x : ℝ} (h : (shift M x).IsHermitian) : M.IsHermitian := by
  have hd : (diagonal fun _ => (x : ℂ) : Mat N).IsHermitian := by
    rw [Matrix.IsHermitian, diagonal_conjTranspose]
    congr 1
    ext i
    simp
  have := h.sub hd
  simpa [shift] using this

/-- The energies if not all blocks are positive, but all of them after the shift. -/
theorem omegaOf_shifted (h : Folds D' D E p) (hchol : IsCholesky chol) (heig : IsEig eig) (hsort : IsSort sort)
    (hchol' : IsCholesky chol') (heig' : IsEig eig') (hsort' : IsSort sort') (hD : ¬ ∀ t, (D t).PosDef)
    (hD' : ∀ t, (shift (D t) (1 / 10 ^ 8)).PosDef) (junk : Mat N) (junk' : Mat N') (z r im : Bool) :
    (omegaOf (Colpa.solve chol' eig' sort') junk' z r im D').1.Perm ((List.finRange n).flatMap fun t =>
      (omegaOf (Colpa.solve chol eig sort) junk z r im (shift (D t) (1 / 10 ^ 8))).1) := by
  have hs := h.shifted (1 / 10 ^ 8)
  have hpd := hs.posDef_iff.2 hD'
  have hfail : Colpa.solve chol' eig' sort' D' = none := by
    have := C41_failure (eig := eig') (sort := sort') hchol' D' (shift_hermitian hpd.isHermitian) fun hp => hD (h.posDef_iff.1 hp)
    exact this
  obtain ⟨l', G', _, _, h3'⟩ := Colpa.solve_signed hchol' heig' hsort' hpd
  have e : omegaOf (Colpa.solve chol' eig' sort') junk' z r im D' =
      omegaOf (Colpa.solve chol' eig' sort') junk' z r im (shift D' (1 / 10 ^ 8)) := by
    have e1 : attempts (Colpa.solve chol' eig' sort') D' = attempts (Colpa.solve chol' eig' sort') (shift D' (1 / 10 ^ 8)) := by
      unfold attempts
      rw [hfail, h3']
    unfold omegaOf
    rw [e1]
  rw [e]
  exact hs.omegaOf_perm hchol heig hsort hchol' heig' hsort' hD' junk junk' z r im

/-- The opposite matrix has the opposite blocks. -/
theorem opposite (h : Folds D' D E p) : Folds (-D') (fun t => -D t) E p := by
  refine ⟨h.pos, h.sgn, h.ortho, fun r m c m' => ?_⟩
  simp only [Matrix.neg_apply, h.entry, mul_neg, neg_mul, Finset.sum_neg_distrib]

theorem round8_neg (z : ℂ) : round8 (-z) = -round8 z := by
  unfold round8
  rw [norm_neg]
  split_ifs <;> simp

theorem energyArray_neg {M : ℕ} (F : Fin M ⊕ Fin M → ℂ) (r : Bool) :
    energyArray (-F) r = (energyArray F r).map (Option.map Neg.neg) := by
  unfold energyArray
  cases r <;> simp [round8_neg, Function.comp_def]

/-- The energies of a negative matrix. -/
theorem omegaOf_neg {M : ℕ} {chol : Mat M → Option (Mat M)} {eig : Mat M → (Fin M ⊕ Fin M → ℂ) × Mat M}
    {sort : (Fin M ⊕ Fin M → ℂ) → Equiv.Perm (Fin M ⊕ Fin M)} (hchol : IsCholesky chol) (heig : IsEig eig) (hsort : IsSort sort)
    {D : Mat M} (hD : (-D).PosDef) (hM : 0 < M) (junk : Mat M) (z r im : Bool) :
    (omegaOf (Colpa.solve chol eig sort) junk z r im D).1 =
      (omegaOf (Colpa.solve chol eig sort) junk z r im (-D)).1.map (Option.map Neg.neg) := by
  obtain ⟨E1, G1, a1, a2⟩ := C43_negative hchol heig hsort D junk hD hM z r im
  obtain ⟨E2, G2, b1, b2⟩ := C43_positive hchol heig hsort (-D) junk hD z r im
  rw [a1] at b1
  simp only [Option.some.injEq, Prod.mk.injEq] at b1
  obtain ⟨rfl, rfl⟩ := b1
  rw [a2, b2, energyArray_neg]

/-- The energies are those of the blocks, if all blocks are negative. -/
theorem omegaOf_opposite (h : Folds D' D E p) (hchol : IsCholesky chol) (heig : IsEig eig) (hsort : IsSort sort)
    (hchol' : IsCholesky chol') (heig' : IsEig eig') (hsort' : IsSort sort') (hD : ∀ t, (-D t).PosDef) (junk : Mat N)
    (junk' : Mat N') (z r im : Bool) : (omegaOf (Colpa.solve chol' eig' sort') junk' z r im D').1.Perm
      ((List.finRange n).flatMap fun t => (omegaOf (Colpa.solve chol eig sort) junk z r im (D t)).1) := by
  rcases Nat.eq_zero_or_pos N with hN | hN
  · subst hN
    refine h.omegaOf_perm hchol heig hsort hchol' heig' hsort' (fun t => ?_) junk junk' z r im
    have : D t = -D t := Matrix.ext fun i => i.elim Fin.elim0 Fin.elim0
    rw [this]
    exact hD t
  · have hN' : 0 < N' := by
      have t0 : Fin n := ⟨0, Nat.pos_of_ne_zero h.pos⟩
      rcases E (.inl ⟨0, hN⟩, t0) with i | i <;> exact i.pos
    rw [omegaOf_neg hchol' heig' hsort' (h.opposite.posDef_iff.2 hD) hN']
    simp only [fun t => omegaOf_neg hchol heig hsort (hD t) hN junk z r im]
    rw [← List.map_flatMap]
    exact (h.opposite.omegaOf_perm hchol heig hsort hchol' heig' hsort' hD junk junk' z r im).map _

/-- All other matrices. -/
theorem omegaOf_fallback (h : Folds D' D E p) (hchol' : IsCholesky chol') (hH : D'.IsHermitian)
    (hs : ¬ ∀ t, (shift (D t) (1 / 10 ^ 8)).PosDef) (hn : ¬ ∀ t, (-D t).PosDef) (junk' : Mat N') (z r im : Bool) :
    (omegaOf (Colpa.solve chol' eig' sort') junk' z r im D').1 =
      if z then List.replicate (if r then 2 * N' else N') none else List.replicate N' (some 0) := by
  refine C43_fallback hchol' D' junk' hH (fun hp => hs ((h.shifted _).posDef_iff.1 ?_)) (fun hp => hn (h.opposite.posDef_iff.1 hp)) z r im
  simpa [shift] using hp

end Folds

end Magnopy
