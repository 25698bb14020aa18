import Verif.Lemmas.ColpaOracle
import Verif.Spec.Omega

/-!
# Helper lemmas: `omega`
-/

set_option autoImplicit false
set_option linter.unusedSectionVars false

namespace Magnopy

open Matrix ComplexOrder Colpa

namespace MagnonObj

variable {N : ℕ}

/-- The values are real numbers. -/
def RealVals (E : Fin N ⊕ Fin N → ℂ) : Prop := ∀ i, ((E i).re : ℂ) = E i

theorem clean_some (z : ℂ) : clean (some z) = some (round8 z) := by
  simp only [clean, round8]
  split_ifs <;> rfl

theorem round8_real {z : ℂ} (h : ((z.re : ℝ) : ℂ) = z) : (((round8 z).re : ℝ) : ℂ) = round8 z := by
  unfold round8
  split_ifs
  · simp
  · exact h

theorem listOf_length (E : Fin N ⊕ Fin N → ℂ) : (listOf E).length = 2 * N := by
  simp [listOf]; omega

/-- A successful attempt. -/
theorem omegaOf_some {solve : Mat N → Option ((Fin N ⊕ Fin N → ℂ) × Mat N)} {junk h G : Mat N} {E : Fin N ⊕ Fin N → ℂ}
    (z rg im : Bool) (ha : attempts solve h = some (E, G)) (hE : im = false → RealVals E) :
    omegaOf solve junk z rg im h = (energyArray E rg, if rg then some G else none) := by
  have hc : (listOf E).map clean = (List.finRange N).map (fun i => some (round8 (E (.inl i)))) ++
      (List.finRange N).map (fun i => some (round8 (E (.inr i)))) := by
    simp [listOf, Function.comp_def, clean_some]
  have hr : (if im then (listOf E).map clean else ((listOf E).map clean).map realPart) = (listOf E).map clean := by
    cases im with
    | true => rfl
    | false =>
      simp only [Bool.false_eq_true, if_false]
      rw [hc, List.map_append, List.map_map, List.map_map]
      congr 1 <;>
      · apply List.map_congr_left
        intro i _
        simp [realPart, round8_real (hE rfl _)]
  unfold omegaOf
  rw [ha]
  simp only [hr]
  cases rg with
  | true => simp [hc, energyArray]
  | false => simp [hc, energyArray]

/-- No attempt is successful. -/
theorem omegaOf_none {solve : Mat N → Option ((Fin N ⊕ Fin N → ℂ) × Mat N)} {junk h : Mat N} (z rg im : Bool)
    (ha : attempts solve h = none) :
    omegaOf solve junk z rg im h =
      (if z then List.replicate (if rg then 2 * N else N) none else List.replicate N (some 0),
        if rg then some (if z then junk else 0) else none) := by
  have h1 : clean none = none := rfl
  have h2 : clean (some 0) = some 0 := by rw [clean_some]; simp [round8]
  have h3 : realPart none = none := rfl
  have h4 : realPart (some 0) = some 0 := by simp [realPart]
  unfold omegaOf
  rw [ha]
  cases z <;> cases rg <;> cases im <;> simp [h1, h2, h3, h4] <;> omega

end MagnonObj

namespace Colpa

open MagnonObj (Mat)

variable {N : ℕ}

/-- The eigenvalues found by `solve` are those of `g D`. -/
theorem roots_gD {D K U : Mat N} {l : Fin N ⊕ Fin N → ℝ} (hK : Kᴴ * K = D) (hU : IsUnit U.det)
    (h : K * g * Kᴴ * U = U * diagonal (fun i => (l i : ℂ))) :
    (Finset.univ.val.map fun i => (l i : ℂ)) = (g * D).charpoly.roots := by
  have := charpoly_eq hU h
  rw [Matrix.mul_assoc, charpoly_mul_comm, Matrix.mul_assoc, hK] at this
  have e1 : (Finset.univ.val.map fun i => Polynomial.X - Polynomial.C (l i : ℂ)) =
      (Finset.univ.val.map fun i => (l i : ℂ)).map fun x : ℂ => Polynomial.X - Polynomial.C x := by
    rw [Multiset.map_map]; rfl
  rw [this, Finset.prod, e1]
  exact (Polynomial.roots_multiset_prod_X_sub_C _).symm

/-- Arrays with the same entries. -/
theorem descending_eq {l l' : Fin N ⊕ Fin N → ℝ} (h : Descending l) (h' : Descending l')
    (hm : (Finset.univ.val.map fun i => (l i : ℂ)) = Finset.univ.val.map fun i => (l' i : ℂ)) : l = l' := by
  refine Descending.unique h h' ?_
  have e1 : ∀ m : Fin N ⊕ Fin N → ℝ, (Finset.univ.val.map fun i => (m i : ℂ)) =
      (Finset.univ.val.map m).map fun x : ℝ => (x : ℂ) := fun m => by rw [Multiset.map_map]; rfl
  rw [e1, e1] at hm
  exact Multiset.map_injective Complex.ofReal_injective hm

/-- Energies of a diagonal matrix. -/
theorem solve_diagonal {chol : Mat N → Option (Mat N)} {eig : Mat N → (Fin N ⊕ Fin N → ℂ) × Mat N}
    {sort : (Fin N ⊕ Fin N → ℂ) → Equiv.Perm (Fin N ⊕ Fin N)} (hchol : IsCholesky chol) (heig : IsEig eig)
    (hsort : IsSort sort) (d : Fin N ⊕ Fin N → ℝ) (hd : ∀ i, 0 < d i) (ho : Descending fun i => sgn i * d i) :
    ∃ G, solve chol eig sort (diagonal fun i => (d i : ℂ)) = some (fun i => (d i : ℂ), G) := by
  have hD : (diagonal fun i => (d i : ℂ)).PosDef := posDef_diagonal_iff.2 fun i => Complex.zero_lt_real.2 (hd i)
  obtain ⟨K, U, l, h1, _, h3, h4, h5, _, _, h7⟩ := solve_eq hchol heig hsort hD
  have hm := roots_gD h1 h3 h4
  have e : l = fun i => sgn i * d i := by
    refine descending_eq h5 ho ?_
    rw [hm, g_eq, diagonal_mul_diagonal, charpoly_diagonal, Finset.prod]
    have e1 : (Finset.univ.val.map fun i => Polynomial.X - Polynomial.C ((sgn i : ℂ) * (d i : ℂ))) =
        (Finset.univ.val.map fun i : Fin N ⊕ Fin N => (sgn i : ℂ) * (d i : ℂ)).map
          fun x : ℂ => Polynomial.X - Polynomial.C x := by
      rw [Multiset.map_map]; rfl
    rw [e1, Polynomial.roots_multiset_prod_X_sub_C]
    push_cast
    rfl
  have hs : (fun i => ((sgn i * l i : ℝ) : ℂ)) = fun i => (d i : ℂ) := by
    funext i
    rw [e]
    rcases i with i | i <;> simp [sgn]
  rw [hs] at h7
  exact ⟨_, h7⟩

/-- Energies are bounded by the matrix. -/
theorem solve_le {chol : Mat N → Option (Mat N)} {eig : Mat N → (Fin N ⊕ Fin N → ℂ) × Mat N}
    {sort : (Fin N ⊕ Fin N → ℂ) → Equiv.Perm (Fin N ⊕ Fin N)} (hchol : IsCholesky chol) (heig : IsEig eig)
    (hsort : IsSort sort) {D : Mat N} (hD : D.PosDef) {c : ℝ} (c0 : 0 < c) (hc : ((diagonal fun _ => (c : ℂ)) - D).PosSemidef)
    {E : Fin N ⊕ Fin N → ℂ} {G : Mat N} (h : solve chol eig sort D = some (E, G)) (i : Fin N ⊕ Fin N) : ‖E i‖ ≤ c := by
  obtain ⟨K, U, l, h1, _, h3, h4, _, h6, _, h7⟩ := solve_eq hchol heig hsort hD
  rw [h] at h7
  have hE : E i = ((sgn i * l i : ℝ) : ℂ) := by
    have := congrArg (fun x => x.1 i) (Option.some.inj h7)
    exact this
  rw [hE, Complex.norm_real, Real.norm_of_nonneg (h6 i).le]
  -- the column of U
  set x : Fin N ⊕ Fin N → ℂ := fun j => U j i with hx
  have hx0 : x ≠ 0 := by
    intro h0
    refine h3.ne_zero (det_eq_zero_of_column_eq_zero i fun j => ?_)
    exact congrFun h0 j
  have hev : (K * g * Kᴴ) *ᵥ x = (l i : ℂ) • x := by
    funext j
    have := congrFun (congrFun h4 j) i
    rw [mul_diagonal] at this
    simp only [Matrix.mul_apply (M := K * g * Kᴴ), mulVec, dotProduct, Pi.smul_apply, smul_eq_mul] at this ⊢
    rw [this, mul_comm]
  set y := Kᴴ *ᵥ x with hy
  have e1 : star y ⬝ᵥ g *ᵥ y = (l i : ℂ) * (star x ⬝ᵥ x) := by
    have : star x ⬝ᵥ (K * g * Kᴴ) *ᵥ x = star y ⬝ᵥ g *ᵥ y := by
      rw [hy, star_mulVec, conjTranspose_conjTranspose, ← dotProduct_mulVec, mulVec_mulVec, mulVec_mulVec, Matrix.mul_assoc]
    rw [← this, hev, dotProduct_smul, smul_eq_mul]
  have re_sum : ∀ v : Fin N ⊕ Fin N → ℂ, star v ⬝ᵥ v = ((∑ j, ‖v j‖ ^ 2 : ℝ) : ℂ) := by
    intro v
    simp only [dotProduct, Pi.star_apply, RCLike.star_def, Complex.conj_mul']
    push_cast
    rfl
  have e2 : star y ⬝ᵥ g *ᵥ y = ((∑ j, sgn j * ‖y j‖ ^ 2 : ℝ) : ℂ) := by
    rw [g_eq]
    simp only [dotProduct, Pi.star_apply, RCLike.star_def, mulVec_diagonal]
    push_cast
    refine Finset.sum_congr rfl fun j _ => ?_
    rw [← Complex.conj_mul']
    ring
  set n := ∑ j, ‖x j‖ ^ 2 with hn
  set m := ∑ j, ‖y j‖ ^ 2 with hm
  have hn0 : 0 < n := by
    obtain ⟨j, hj⟩ := Function.ne_iff.1 hx0
    have : 0 < ‖x j‖ ^ 2 := by have := norm_pos_iff.2 hj; positivity
    exact this.trans_le (Finset.single_le_sum (f := fun j => ‖x j‖ ^ 2) (fun _ _ => by positivity) (Finset.mem_univ j))
  have e3 : (∑ j, sgn j * ‖y j‖ ^ 2 : ℝ) = l i * n := by
    rw [e2, re_sum] at e1
    exact_mod_cast e1
  have e4 : sgn i * l i * n ≤ m := by
    rw [mul_assoc, ← e3, Finset.mul_sum]
    refine Finset.sum_le_sum fun j _ => ?_
    have : 0 ≤ ‖y j‖ ^ 2 := by positivity
    rcases i with i | i <;> rcases j with j | j <;> simp [sgn] <;> linarith
  -- 0 ≤ |K y - c x|²
  set z := K *ᵥ y with hz
  have e5 : star z ⬝ᵥ z = star y ⬝ᵥ D *ᵥ y := by
    rw [hz, star_mulVec, ← dotProduct_mulVec, mulVec_mulVec, h1]
  have e6 : star x ⬝ᵥ z = star y ⬝ᵥ y := by
    rw [hz, hy, star_mulVec, conjTranspose_conjTranspose, ← dotProduct_mulVec]
  have e7 : star z ⬝ᵥ x = star y ⬝ᵥ y := by
    rw [hz, star_mulVec, ← dotProduct_mulVec, ← hy]
  have e8 : (∑ j, ‖z j‖ ^ 2) ≤ c * m := by
    have := hc.dotProduct_mulVec_nonneg y
    rw [sub_mulVec, dotProduct_sub, ← e5, re_sum] at this
    have h2 : (diagonal fun _ => (c : ℂ)) *ᵥ y = (c : ℂ) • y := by
      funext j; rw [mulVec_diagonal]; rfl
    rw [h2, dotProduct_smul, re_sum, smul_eq_mul, ← Complex.ofReal_mul, ← Complex.ofReal_sub, Complex.zero_le_real] at this
    linarith
  have e9 : (∑ j, ‖(z - (c : ℂ) • x) j‖ ^ 2) = (∑ j, ‖z j‖ ^ 2) - 2 * c * m + c ^ 2 * n := by
    have h2 := re_sum (z - (c : ℂ) • x)
    have h3 : star (z - (c : ℂ) • x) = star z - (c : ℂ) • star x := by
      rw [star_sub, star_smul, RCLike.star_def, Complex.conj_ofReal]
    rw [h3, sub_dotProduct, dotProduct_sub, dotProduct_sub, smul_dotProduct, smul_dotProduct, dotProduct_smul,
      dotProduct_smul, e6, e7, re_sum, re_sum, re_sum, ← hn, ← hm] at h2
    simp only [smul_eq_mul] at h2
    have h4 : (((∑ j, ‖z j‖ ^ 2) - 2 * c * m + c ^ 2 * n : ℝ) : ℂ) = ((∑ j, ‖(z - (c : ℂ) • x) j‖ ^ 2 : ℝ) : ℂ) := by
      rw [← h2]; push_cast; ring
    exact_mod_cast h4.symm
  have e10 : 0 ≤ ∑ j, ‖(z - (c : ℂ) • x) j‖ ^ 2 := Finset.sum_nonneg fun _ _ => by positivity
  have e11 : m ≤ c * n := by
    have : c * m ≤ c * (c * n) := by nlinarith
    exact le_of_mul_le_mul_left this c0
  exact le_of_mul_le_mul_right (e4.trans e11) hn0

/-- Energies are real for every matrix, Hermitian or not. -/
theorem solve_real {chol : Mat N → Option (Mat N)} {eig : Mat N → (Fin N ⊕ Fin N → ℂ) × Mat N}
    {sort : (Fin N ⊕ Fin N → ℂ) → Equiv.Perm (Fin N ⊕ Fin N)} (heig : IsEig eig) {D : Mat N}
    {E : Fin N ⊕ Fin N → ℂ} {G : Mat N} (h : solve chol eig sort D = some (E, G)) : MagnonObj.RealVals E := by
  unfold solve at h
  cases hF : chol D with
  | none => rw [hF] at h; simp at h
  | some F =>
    rw [hF] at h
    simp only [Option.some.injEq, Prod.mk.injEq] at h
    set K := Fᴴ with hKd
    set M := K * g * Kᴴ with hM
    have hMh : M.IsHermitian := by
      unfold Matrix.IsHermitian
      rw [hM, conjTranspose_mul, conjTranspose_mul, conjTranspose_conjTranspose, g_eq, diagonal_conjTranspose,
        Matrix.mul_assoc]
      have : (star fun i => (sgn i : ℂ)) = fun i : Fin N ⊕ Fin N => (sgn i : ℂ) := by ext i; simp
      rw [this]
    obtain ⟨h1, h2, _⟩ := heig M hMh
    have hreal := (gram hMh h2 h1).1
    intro i
    rw [← h.1, g_eq, mulVec_diagonal]
    have := hreal (sort (eig M).1 i)
    rw [← this]
    simp

end Colpa

namespace MagnonObj

variable {N : ℕ}

theorem RealVals.neg {E : Fin N ⊕ Fin N → ℂ} (h : RealVals E) : RealVals (-E) := by
  intro i
  have := h i
  simp only [Pi.neg_apply, Complex.neg_re, Complex.ofReal_neg, this]

/-- Only real energies. -/
theorem attempts_real {solve : Mat N → Option ((Fin N ⊕ Fin N → ℂ) × Mat N)}
    (hs : ∀ D E G, solve D = some (E, G) → RealVals E) {h G : Mat N} {E : Fin N ⊕ Fin N → ℂ}
    (ha : attempts solve h = some (E, G)) : RealVals E := by
  unfold attempts at ha
  cases h1 : solve h with
  | some p =>
    rw [h1] at ha
    simp only [Option.some.injEq] at ha
    exact hs _ E G (h1.trans (congrArg some ha))
  | none =>
    rw [h1] at ha
    cases h2 : solve (shift h (1 / 10 ^ 8)) with
    | some p =>
      rw [h2] at ha
      simp only [Option.some.injEq] at ha
      exact hs _ E G (h2.trans (congrArg some ha))
    | none =>
      rw [h2] at ha
      cases h3 : solve (-h) with
      | some p =>
        rw [h3] at ha
        simp only [Option.some.injEq, Prod.mk.injEq] at ha
        rw [← ha.1]
        exact (hs _ p.1 p.2 h3).neg
      | none =>
        rw [h3] at ha
        cases h4 : solve (shift (-h) (-(1 / 10 ^ 8))) with
        | some p =>
          rw [h4] at ha
          simp only [Option.some.injEq, Prod.mk.injEq] at ha
          rw [← ha.1]
          exact (hs _ p.1 p.2 h4).neg
        | none => rw [h4] at ha; simp at ha

theorem shift_isHermitian {h : Mat N} (hh : h.IsHermitian) (x : ℝ) : (shift h x).IsHermitian := by
  refine hh.add ?_
  rw [Matrix.IsHermitian, diagonal_conjTranspose]
  congr 1
  ext i
  simp

theorem posDef_const {x : ℝ} (hx : 0 < x) : (diagonal fun _ : Fin N ⊕ Fin N => (x : ℂ)).PosDef :=
  posDef_diagonal_iff.2 fun _ => Complex.zero_lt_real.2 hx

end MagnonObj
end Magnopy
