import Verif.Props.Omega

/-!
# Helper lemmas: similar magnon matrices have the same energies
-/

set_option autoImplicit false
set_option linter.unusedSectionVars false

namespace Magnopy

open Matrix Complex MagnonObj ComplexOrder

namespace Colpa

variable {N : ℕ} {chol chol' : Mat N → Option (Mat N)} {eig eig' : Mat N → (Fin N ⊕ Fin N → ℂ) × Mat N}
  {sort sort' : (Fin N ⊕ Fin N → ℂ) → Equiv.Perm (Fin N ⊕ Fin N)}

theorem solve_roots (hchol : IsCholesky chol) (heig : IsEig eig) (hsort : IsSort sort) {D : Mat N} (hD : D.PosDef) :
    ∃ l : Fin N ⊕ Fin N → ℝ, Descending l ∧ (Finset.univ.val.map fun i => (l i : ℂ)) = (g * D).charpoly.roots ∧
      (solve chol eig sort D).map Prod.fst = some fun i => ((sgn i * l i : ℝ) : ℂ) := by
  obtain ⟨K, U, l, h1, h2, h3, h4, h5, h6, _, h7⟩ := solve_eq hchol heig hsort hD
  refine ⟨l, h5, ?_, by rw [h7]; rfl⟩
  have := charpoly_eq h3 h4
  rw [Matrix.mul_assoc, charpoly_mul_comm, Matrix.mul_assoc, h1] at this
  have e1 : (Finset.univ.val.map fun i => Polynomial.X - Polynomial.C (l i : ℂ)) =
      (Finset.univ.val.map fun i => (l i : ℂ)).map fun x : ℂ => Polynomial.X - Polynomial.C x := by
    rw [Multiset.map_map]; rfl
  rw [this, Finset.prod, e1]
  exact (Polynomial.roots_multiset_prod_X_sub_C _).symm

theorem posDef_similar {P D : Mat N} (hP : P * Pᴴ = 1) (hD : D.PosDef) : (P * D * Pᴴ).PosDef := by
  refine hD.mul_mul_conjTranspose_same ?_
  intro x y hxy
  have := congrArg (fun v => v ᵥ* Pᴴ) hxy
  simpa [vecMul_vecMul, hP] using this

theorem similar_back {P D : Mat N} (hP : P * Pᴴ = 1) : Pᴴ * (P * D * Pᴴ) * (Pᴴ)ᴴ = D := by
  have hP' : Pᴴ * P = 1 := mul_eq_one_comm.1 hP
  calc Pᴴ * (P * D * Pᴴ) * (Pᴴ)ᴴ = (Pᴴ * P) * D * (Pᴴ * P) := by
        rw [conjTranspose_conjTranspose]; simp only [Matrix.mul_assoc]
    _ = D := by rw [hP', Matrix.one_mul, Matrix.mul_one]

/-- The energies of similar matrices are the same. -/
theorem solve_similar (hchol : IsCholesky chol) (heig : IsEig eig) (hsort : IsSort sort) (hchol' : IsCholesky chol')
    (heig' : IsEig eig') (hsort' : IsSort sort') {P D : Mat N} (hP : P * Pᴴ = 1) (hg : P * g = g * P) (hD : D.IsHermitian) :
    (solve chol' eig' sort' (P * D * Pᴴ)).map Prod.fst = (solve chol eig sort D).map Prod.fst := by
  by_cases hd : D.PosDef
  · obtain ⟨l, h1, h2, h3⟩ := solve_roots hchol heig hsort hd
    obtain ⟨l', h1', h2', h3'⟩ := solve_roots hchol' heig' hsort' (posDef_similar hP hd)
    rw [h3, h3']
    have e : l' = l := by
      refine Descending.unique h1' h1 ?_
      have e0 : (g * (P * D * Pᴴ)).charpoly = (g * D).charpoly := by
        rw [show g * (P * D * Pᴴ) = P * (g * D * Pᴴ) by rw [← Matrix.mul_assoc, ← Matrix.mul_assoc, ← hg]; simp only [Matrix.mul_assoc],
          charpoly_mul_comm, Matrix.mul_assoc, mul_eq_one_comm.1 hP, Matrix.mul_one]
      rw [e0, ← h2] at h2'
      have e1 : ∀ m : Fin N ⊕ Fin N → ℝ, (Finset.univ.val.map fun i => (m i : ℂ)) =
          (Finset.univ.val.map m).map fun x : ℝ => (x : ℂ) := fun m => by rw [Multiset.map_map]; rfl
      rw [e1, e1] at h2'
      exact Multiset.map_injective Complex.ofReal_injective h2'
    rw [e]
  · have hd' : ¬ (P * D * Pᴴ).PosDef := by
      intro hp
      apply hd
      have := posDef_similar (P := Pᴴ) (by rw [conjTranspose_conjTranspose]; exact mul_eq_one_comm.1 hP) hp
      rwa [similar_back hP] at this
    rw [C41_failure hchol D hD hd, C41_failure hchol' _ (isHermitian_mul_mul_conjTranspose P hD) hd']

end Colpa

namespace MagnonObj

variable {N : ℕ} {chol chol' : Mat N → Option (Mat N)} {eig eig' : Mat N → (Fin N ⊕ Fin N → ℂ) × Mat N}
  {sort sort' : (Fin N ⊕ Fin N → ℂ) → Equiv.Perm (Fin N ⊕ Fin N)}

theorem attempts_congr {solve solve' : Mat N → Option ((Fin N ⊕ Fin N → ℂ) × Mat N)} {h h' : Mat N}
    (h1 : (solve' h').map Prod.fst = (solve h).map Prod.fst)
    (h2 : (solve' (shift h' (1 / 10 ^ 8))).map Prod.fst = (solve (shift h (1 / 10 ^ 8))).map Prod.fst)
    (h3 : (solve' (-h')).map Prod.fst = (solve (-h)).map Prod.fst)
    (h4 : (solve' (shift (-h') (-(1 / 10 ^ 8)))).map Prod.fst = (solve (shift (-h) (-(1 / 10 ^ 8)))).map Prod.fst) :
    (attempts solve' h').map Prod.fst = (attempts solve h).map Prod.fst := by
  unfold attempts
  revert h1 h2 h3 h4
  generalize solve' h' = a'
  generalize solve h = a
  generalize solve' (shift h' (1 / 10 ^ 8)) = b'
  generalize solve (shift h (1 / 10 ^ 8)) = b
  generalize solve' (-h') = c'
  generalize solve (-h) = c
  generalize solve' (shift (-h') (-(1 / 10 ^ 8))) = d'
  generalize solve (shift (-h) (-(1 / 10 ^ 8))) = d
  intro h1 h2 h3 h4
  rcases a with _ | a <;> rcases a' with _ | a' <;> simp at h1 <;> rcases b with _ | b <;> rcases b' with _ | b' <;> simp at h2 <;>
    rcases c with _ | c <;> rcases c' with _ | c' <;> simp at h3 <;> rcases d with _ | d <;> rcases d' with _ | d' <;> simp at h4 <;>
    simp_all

theorem omegaOf_congr {solve solve' : Mat N → Option ((Fin N ⊕ Fin N → ℂ) × Mat N)} {h h' : Mat N} (junk junk' : Mat N)
    (z r im : Bool) (h0 : (attempts solve' h').map Prod.fst = (attempts solve h).map Prod.fst) :
    (omegaOf solve' junk' z r im h').1 = (omegaOf solve junk z r im h).1 := by
  unfold omegaOf
  revert h0
  generalize attempts solve' h' = a'
  generalize attempts solve h = a
  intro h0
  rcases a with _ | ⟨E, G⟩ <;> rcases a' with _ | ⟨E', G'⟩ <;> simp at h0
  · cases z <;> cases r <;> cases im <;> rfl
  · subst h0
    cases r <;> cases im <;> rfl

/-- Similar matrices give the same array of energies. -/
theorem omegaOf_similar (hchol : IsCholesky chol) (heig : IsEig eig) (hsort : IsSort sort) (hchol' : IsCholesky chol')
    (heig' : IsEig eig') (hsort' : IsSort sort') {P D : Mat N} (hP : P * Pᴴ = 1) (hg : P * Colpa.g = Colpa.g * P)
    (hD : D.IsHermitian) (junk junk' : Mat N) (z r im : Bool) :
    (omegaOf (Colpa.solve chol' eig' sort') junk' z r im (P * D * Pᴴ)).1 =
      (omegaOf (Colpa.solve chol eig sort) junk z r im D).1 := by
  have key : ∀ M : Mat N, M.IsHermitian → (Colpa.solve chol' eig' sort' (P * M * Pᴴ)).map Prod.fst =
      (Colpa.solve chol eig sort M).map Prod.fst := fun M hM =>
    Colpa.solve_similar hchol heig hsort hchol' heig' hsort' hP hg hM
  have hsh : ∀ (M : Mat N) (x : ℝ), shift (P * M * Pᴴ) x = P * shift M x * Pᴴ := by
    intro M x
    unfold shift
    rw [Matrix.mul_add, Matrix.add_mul]
    congr 1
    have : (diagonal fun _ => (x : ℂ) : Mat N) = (x : ℂ) • 1 := by rw [← diagonal_one, ← diagonal_smul]; congr 1; ext; simp
    rw [this, Matrix.mul_smul, Matrix.smul_mul, Matrix.mul_one, hP]
  have hher : ∀ (M : Mat N) (x : ℝ), M.IsHermitian → (shift M x).IsHermitian := by
    intro M x hM
    unfold shift
    refine hM.add ?_
    rw [Matrix.IsHermitian, diagonal_conjTranspose]
    congr 1
    ext i
    simp
  have hneg : ∀ M : Mat N, -(P * M * Pᴴ) = P * (-M) * Pᴴ := fun M => by rw [Matrix.mul_neg, Matrix.neg_mul]
  refine omegaOf_congr _ _ _ _ _ (attempts_congr (key D hD) ?_ ?_ ?_)
  · rw [hsh]; exact key _ (hher _ _ hD)
  · rw [hneg]; exact key _ hD.neg
  · rw [hneg, hsh]; exact key _ (hher _ _ hD.neg)

/-- Matrices that differ by a permutation of the atoms and phases give the same array of energies. -/
theorem omegaOf_relabel {N' : ℕ} {chol' : Mat N' → Option (Mat N')} {eig' : Mat N' → (Fin N' ⊕ Fin N' → ℂ) × Mat N'}
    {sort' : (Fin N' ⊕ Fin N' → ℂ) → Equiv.Perm (Fin N' ⊕ Fin N')}
    (hchol : IsCholesky chol) (heig : IsEig eig) (hsort : IsSort sort) (hchol' : IsCholesky chol')
    (heig' : IsEig eig') (hsort' : IsSort sort') {D : Mat N} {D' : Mat N'} (e : Fin N ≃ Fin N') (w : Fin N ⊕ Fin N → ℂ)
    (hw : ∀ i, w i * star (w i) = 1) (hD : D.IsHermitian)
    (hDD : ∀ r c, D' (Sum.map e e r) (Sum.map e e c) = w r * D r c * star (w c)) (junk : Mat N) (junk' : Mat N') (z r im : Bool) :
    (omegaOf (Colpa.solve chol' eig' sort') junk' z r im D').1 = (omegaOf (Colpa.solve chol eig sort) junk z r im D).1 := by
  obtain rfl : N = N' := by simpa using Fintype.card_congr e
  let E : Fin N ⊕ Fin N ≃ Fin N ⊕ Fin N := Equiv.sumCongr e e
  have hE : ∀ r, E r = Sum.map e e r := fun r => rfl
  let P : Mat N := Matrix.of fun r c => if r = E c then w c else 0
  have hPe : ∀ r c, P (E r) c = if r = c then w c else 0 := fun r c => by
    simp [P, E.injective.eq_iff]
  have hP : P * Pᴴ = 1 := by
    ext r c
    obtain ⟨r, rfl⟩ := E.surjective r
    obtain ⟨c, rfl⟩ := E.surjective c
    rw [mul_apply, Finset.sum_eq_single r]
    · rw [conjTranspose_apply, hPe, hPe, if_pos rfl, one_apply]
      by_cases h : r = c
      · subst h; rw [if_pos rfl, if_pos rfl, hw]
      · rw [if_neg (Ne.symm h), if_neg (fun e => h (E.injective e)), star_zero, mul_zero]
    · intro d _ hd
      rw [hPe, if_neg (Ne.symm hd), zero_mul]
    · simp
  have hg : P * Colpa.g = Colpa.g * P := by
    ext r c
    unfold Colpa.g
    rw [mul_diagonal, diagonal_mul]
    simp only [P, of_apply]
    split_ifs with h
    · subst h
      rcases c with c | c <;> simp [hE]
    · simp
  have hDP : D' = P * D * Pᴴ := by
    ext r c
    obtain ⟨r, rfl⟩ := E.surjective r
    obtain ⟨c, rfl⟩ := E.surjective c
    rw [mul_apply, Finset.sum_eq_single c, mul_apply, Finset.sum_eq_single r]
    · rw [conjTranspose_apply, hPe, hPe, if_pos rfl, if_pos rfl, hE, hE, hDD]
    · intro d _ hd
      rw [hPe, if_neg (Ne.symm hd), zero_mul]
    · simp
    · intro d _ hd
      rw [conjTranspose_apply, hPe, if_neg (Ne.symm hd), star_zero, mul_zero]
    · simp
  rw [hDP]
  exact omegaOf_similar hchol heig hsort hchol' heig' hsort' hP hg hD junk junk' z r im

end MagnonObj

end Magnopy
