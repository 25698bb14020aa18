import Verif.Spec.ParamRounding
import Verif.Lemmas.EnergyConeRounding

/-!
# Lemmas about rounded parameters
-/

set_option autoImplicit false
set_option linter.unusedSectionVars false

namespace Magnopy
namespace Param

open EnergyObj

variable {K : Type*} [Field K] [LinearOrder K] [IsStrictOrderedRing K] {u : K} {fl : K → K} {n d : ℕ} {m m' s : M3 K}
  {T : EnergyObj.Tree (Fin 3)}

theorem fl_zero (hf : IsRounding fl u) : fl 0 = 0 := by
  have := hf.close 0
  simpa using this

/-- Division by a number. -/
theorem Approx.div {x y s c : K} (hf : IsRounding fl u) (hc : 0 < c) (h : Approx u n x y s) : Approx u n (x / c) (y / c) (s / c) := by
  have := Approx.smul hf.lt (.refl c⁻¹) h
  rw [abs_of_pos (inv_pos.2 hc), zero_add] at this
  simpa only [div_eq_inv_mul] using this

theorem symm_near (hf : IsRounding fl u) (h : ∀ i j, Approx u n (m i j) (m' i j) (s i j)) (i j : Fin 3) :
    Approx u (n + 2) (symmMatrix m i j) (symmFl fl m' i j) (symmSize s i j) :=
  (Approx.div hf two_pos (((h i j).add (h j i)).round hf)).round hf

theorem asymm_near (hf : IsRounding fl u) (h : ∀ i j, Approx u n (m i j) (m' i j) (s i j)) (i j : Fin 3) :
    Approx u (n + 2) (asymmMatrix m i j) (asymmFl fl m' i j) (symmSize s i j) :=
  (Approx.div hf two_pos (((h i j).sub hf.lt (h j i)).round hf)).round hf

theorem iso_near (hf : IsRounding fl u) (hT : T.leaves = Finset.univ.val ∧ T.depth ≤ d)
    (h : ∀ i j, Approx u n (m i j) (m' i j) (s i j)) : Approx u (n + d + 3) (iso m) (isoFl fl T m') (isoSize s) := by
  have h1 := Approx.tree_univ hf hT fun i => symm_near hf h i i
  have h2 := (Approx.div hf three_pos h1).round hf
  have e : (∑ i, symmSize s i i) / 3 = isoSize s := by
    simp only [Fin.sum_univ_three, symmSize, isoSize]; ring
  have e' : (∑ i, symmMatrix m i i) / 3 = iso m := by rw [Fin.sum_univ_three, iso]
  rw [e, e'] at h2
  exact h2.mono hf.nonneg hf.lt (by omega) le_rfl

theorem eye_near (hf : IsRounding fl u) {x y t : K} (h : Approx u n x y t) (i j : Fin 3) :
    Approx u (n + 1) (x * eye i j) (fl (y * eye i j)) (if i = j then t else 0) := by
  by_cases hij : i = j
  · simpa [eye, hij] using h.round hf
  · simpa [eye, hij, fl_zero hf] using Approx.zero (u := u) (n + 1)

theorem aniso_near (hf : IsRounding fl u) (hT : T.leaves = Finset.univ.val ∧ T.depth ≤ d)
    (h : ∀ i j, Approx u n (m i j) (m' i j) (s i j)) (i j : Fin 3) :
    Approx u (n + d + 5) (aniso m i j) (anisoFl fl T m' i j) (anisoSize s i j) :=
  (((symm_near hf h i j).mono hf.nonneg hf.lt (by omega) le_rfl).sub hf.lt (eye_near hf (iso_near hf hT h) i j)).round hf

theorem setIso_near (hf : IsRounding fl u) (hT : T.leaves = Finset.univ.val ∧ T.depth ≤ d) (m : M3 K) (v : K) (i j : Fin 3) :
    Approx u (d + 6) (setIso m v i j) (setIsoFl fl T m v i j) (afterIso m v i j) := by
  have h0 : ∀ i j, Approx u 0 (m i j) (m i j) (size m i j) := fun i j => .refl _
  have h1 := (((Approx.refl v).mono hf.nonneg hf.lt (Nat.zero_le _) le_rfl).sub hf.lt (iso_near hf hT h0)).round hf
  have h2 := (((h0 i j).mono hf.nonneg hf.lt (Nat.zero_le _) le_rfl).add (eye_near hf h1 i j)).round hf
  exact h2.mono hf.nonneg hf.lt (by omega) le_rfl

theorem dmi_near (hf : IsRounding fl u) (h : ∀ i j, Approx u n (m i j) (m' i j) (s i j)) (i j : Fin 3) :
    Approx u (n + 2) (dmiArray (dmi m) i j) (dmiArray (dmiFl fl m') i j) (if i = j then 0 else symmSize s i j) := by
  have e : ∀ i j, symmSize s i j = symmSize s j i := fun i j => by simp only [symmSize, add_comm]
  have h1 := asymm_near hf h
  fin_cases i <;> fin_cases j <;> simp [dmiArray, dmi, dmiFl]
  · exact Approx.zero _
  · exact h1 0 1
  · rw [e]; exact (h1 2 0).neg hf.lt
  · rw [e]; exact (h1 0 1).neg hf.lt
  · exact Approx.zero _
  · exact h1 1 2
  · exact h1 2 0
  · rw [e]; exact (h1 1 2).neg hf.lt
  · exact Approx.zero _

theorem setDmi_near (hf : IsRounding fl u) (m : M3 K) (v : V3 K) (i j : Fin 3) :
    Approx u 4 (setDmi m v i j) (setDmiFl fl m v i j) (afterDmi m v i j) := by
  have h0 : ∀ i j, Approx u 0 (m i j) (m i j) (size m i j) := fun i j => .refl _
  have e : ∀ i j, symmSize (size m) i j = symmSize (size m) j i := fun i j => by simp only [symmSize, add_comm]
  have h1 := asymm_near hf h0
  have h2 : ∀ i j c, Approx u 3 (v c - asymmMatrix m i j) (fl (v c - asymmFl fl m i j)) (|v c| + symmSize (size m) i j) := fun i j c =>
    (((Approx.refl (v c)).mono hf.nonneg hf.lt (Nat.zero_le _) le_rfl).sub hf.lt (h1 i j)).round hf
  have h3 : Approx u 3 (dmiArray (v - dmi m) i j) (dmiArray (fun c => fl (v c - dmiFl fl m c)) i j)
      (if i = j then 0 else |dmiArray v i j| + symmSize (size m) i j) := by
    fin_cases i <;> fin_cases j <;> simp [dmiArray, dmi, dmiFl]
    · exact Approx.zero _
    · exact h2 0 1 2
    · rw [e, ← neg_sub]; exact (h2 2 0 1).neg hf.lt
    · rw [e, ← neg_sub]; exact (h2 0 1 2).neg hf.lt
    · exact Approx.zero _
    · exact h2 1 2 0
    · exact h2 2 0 1
    · rw [e, ← neg_sub]; exact (h2 1 2 0).neg hf.lt
    · exact Approx.zero _
  exact (((h0 i j).mono hf.nonneg hf.lt (Nat.zero_le _) le_rfl).add h3).round hf

theorem setAniso_near (hf : IsRounding fl u) (hT : T.leaves = Finset.univ.val ∧ T.depth ≤ d) (m a : M3 K) (i j : Fin 3) :
    Approx u (d + 7) (setAniso m a i j) (setAnisoFl fl T m a i j) (afterAniso m a i j) := by
  have h0 : ∀ i j, Approx u 0 (m i j) (m i j) (size m i j) := fun i j => .refl _
  have h1 := (((Approx.refl (a i j)).mono hf.nonneg hf.lt (Nat.zero_le _) le_rfl).sub hf.lt (aniso_near hf hT h0 i j)).round hf
  have h2 := (((h0 i j).mono hf.nonneg hf.lt (Nat.zero_le _) le_rfl).add h1).round hf
  exact h2.mono hf.nonneg hf.lt (by omega) le_rfl

end Param
end Magnopy
