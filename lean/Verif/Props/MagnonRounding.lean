import Verif.Lemmas.MagnonRounding
import Verif.Props.Spectrum

/-!
# C105: round-off of the magnon matrix and of the magnon energies
-/

set_option autoImplicit false
set_option linter.unusedSectionVars false

namespace Magnopy
namespace MagnonObj

open Complex Matrix EnergyObj Colpa ComplexOrder

variable {u : ℝ} {A : ExpArith} {d m : ℕ} {S : HSums}

/-- `C` was not computed before, or by an earlier call in the same arithmetic. -/
def CachedFl (o : MagnonObj) (A : ExpArith) (cell : ℕ → M3 ℝ) (d : ℕ) : Prop :=
  o.C = none ∨ ∃ S : CallSums, S.Complete d ∧ o.C = some (o.freshCFl A cell S)

/-- The same object before any calls. -/
def fresh (o : MagnonObj) : MagnonObj := { o with C := none }

theorem phaseSize_neg (k v : V3 ℝ) : phaseSize (-k) v = phaseSize k v := by simp [phaseSize]

theorem cSize_zero (o : MagnonObj) (cell : ℕ → M3 ℝ) (i j : ℕ) : o.cSize cell (fun _ => 0) i j = 0 := by
  have h : ∀ i l a b, o.jSize cell (fun _ => 0) i l a b = 0 := fun i l a b => by
    rw [jSize]
    refine List.sum_eq_zero fun x hx => ?_
    obtain ⟨y, _, rfl⟩ := List.mem_map.1 hx
    simp
  simp [cSize, formSize, h]

theorem cached_near (o : MagnonObj) (cell : ℕ → M3 ℝ) (hA : A.Good u m) (hS : S.Complete d) (hd : (d + 3 : ℕ) * u < 1) (hC : o.CachedFl A cell d) (i j : ℕ) :
    ApproxC u (o.bonds.length + o.N + 3 * d + m + 8) (o.freshC cell i j)
      ((match o.C with | some c => c | none => o.freshCFl A cell S.c : ℕ → ℕ → ℂ) i j) (o.cSize cell (fun _ => 3 / 2) i j) := by
  rcases hC with hC | ⟨S0, h0, hC⟩
  · rw [hC]; exact o.freshC_near cell hA hS.c hd i j
  · rw [hC]; exact o.freshC_near cell hA h0 hd i j

theorem callH_entries (p : MagnonObj) (hp : p.C = none) (cell : ℕ → M3 ℝ) (k : V3 ℝ) (i j : Fin p.N) :
    (p.callH cell k).1 (.inl i) (.inl j) = 2 * p.A cell k i j - 2 * p.freshC cell i j ∧
    (p.callH cell k).1 (.inl i) (.inr j) = 2 * p.B cell k i j ∧
    (p.callH cell k).1 (.inr i) (.inl j) = 2 * star (p.B cell k j i) ∧
    (p.callH cell k).1 (.inr i) (.inr j) = 2 * star (p.A cell (-k) i j) - 2 * p.freshC cell i j := by
  refine ⟨?_, ?_, ?_, ?_⟩ <;> simp [callH, callC, hp, block, two_smul, two_mul]

/-- **C105 (matrix).** Every entry of the matrix `h(k)` computed in floating-point arithmetic differs from the exact one by at most `hBound`:
the bound of Wilkinson for the number of roundings of one term, times the sum of the absolute values of all terms, and the error of the
phases `k @ d` times the sum of the absolute values of the terms with phases.  This holds for all orders of additions, whether `C` was
computed before or not, for the stored spins, frames, vectors and parameters. -/
theorem C105_matrix (o : MagnonObj) (cell : ℕ → M3 ℝ) (hA : A.Good u m) (hS : S.Complete d) (hu : (o.hRoundings d m : ℕ) * u < 1)
    (hC : o.CachedFl A cell d) (k : V3 ℝ) (i j : Fin o.N ⊕ Fin o.N) :
    ‖(o.callHFl A cell S k).1 i j - (o.fresh.callH cell k).1 i j‖ ≤ o.hBound cell u d m k i j := by
  have hf := hA.fl
  have hd : (d + 3 : ℕ) * u < 1 := lt_of_le_of_lt (mul_le_mul_of_nonneg_right (by
    have : d + 3 ≤ o.hRoundings d m := by unfold hRoundings; omega
    exact_mod_cast this) hf.nonneg) hu
  have two : ApproxC u 0 (2 : ℂ) 2 2 := by simpa using ApproxC.ofReal (.refl (u := u) (2 : ℝ))
  have hg : (0 : ℝ) ≤ gamma u (d + 3) := div_nonneg (mul_nonneg (by positivity) hf.nonneg) (by linarith)
  have hps : ∀ q : V3 ℝ, phaseSize (-q) = phaseSize q := fun q => funext fun v => phaseSize_neg q v
  -- the entries of `A` and `B`
  have hAe : ∀ {T : CallSums}, T.Complete d → ∀ q i j, ∃ z, ApproxC u (o.bonds.length + 4 * d + m + 14) z (o.AFl A cell T q i j)
      (o.abSize cell (fun _ => 3 / 2) i j) ∧ ‖z - o.A cell q i j‖ ≤ gamma u (d + 3) * o.abSize cell (phaseSize q) i j := fun hT q i j => by
    have := o.entry_near cell hA hT hd (-q) i j (y := star (o.u.getD j 0)) fun b => size1_star _
    rw [hps] at this
    exact this
  have hBe : ∀ {T : CallSums}, T.Complete d → ∀ q i j, ∃ z, ApproxC u (o.bonds.length + 4 * d + m + 14) z (o.BFl A cell T q i j)
      (o.abSize cell (fun _ => 3 / 2) i j) ∧ ‖z - o.B cell q i j‖ ≤ gamma u (d + 3) * o.abSize cell (phaseSize q) i j := fun hT q i j => by
    have := o.entry_near cell hA hT hd (-q) i j (y := o.u.getD j 0) fun b => rfl
    rw [hps] at this
    exact this
  have hCe := o.cached_near cell hA hS hd hC
  have fin : ∀ {n : ℕ} {z w h : ℂ} {s s' : ℝ}, n ≤ o.hRoundings d m → ApproxC u n z w s → ‖z - h‖ ≤ gamma u (d + 3) * s' →
      ‖w - h‖ ≤ gamma u (o.hRoundings d m) * s + gamma u (d + 3) * s' := fun hn h1 h2 => by
    refine le_trans ?_ (add_le_add ((h1.mono hf hn le_rfl).error hf hu) h2)
    exact norm_sub_le_norm_sub_add_norm_sub _ _ _
  have double : ∀ {z h : ℂ} {s : ℝ}, ‖z - h‖ ≤ gamma u (d + 3) * s → ‖2 * z - 2 * h‖ ≤ gamma u (d + 3) * (2 * s) := fun h => by
    rw [← mul_sub, norm_mul, Complex.norm_ofNat]; linarith
  rcases i with i | i <;> rcases j with j | j
  · obtain ⟨z, h1, h2⟩ := hAe hS.a k i j
    have h3 := (((two.mul hf h1).mono hf (m := o.bonds.length + o.N + 4 * d + m + 16) (by omega) le_rfl).sub hf
      ((two.mul hf (hCe i j)).mono hf (by omega) le_rfl)).round hf
    have e : (o.fresh.callH cell k).1 (.inl i) (.inl j) = 2 * o.A cell k i j - 2 * o.freshC cell i j := by
      exact (callH_entries o.fresh rfl cell k i j).1
    have h4 : ‖(2 * z - 2 * o.freshC cell i j) - (o.fresh.callH cell k).1 (.inl i) (.inl j)‖ ≤
        gamma u (d + 3) * o.hSize cell (phaseSize k) (fun _ => 0) (.inl i) (.inl j) := by
      rw [e, hSize, cSize_zero, mul_zero, add_zero, sub_sub_sub_cancel_right]
      exact double h2
    exact fin (by unfold hRoundings; omega) h3 h4
  · obtain ⟨z, h1, h2⟩ := hBe hS.b' k i j
    have e : (o.fresh.callH cell k).1 (.inl i) (.inr j) = 2 * o.B cell k i j := by
      exact (callH_entries o.fresh rfl cell k i j).2.1
    have h4 : ‖2 * z - (o.fresh.callH cell k).1 (.inl i) (.inr j)‖ ≤
        gamma u (d + 3) * o.hSize cell (phaseSize k) (fun _ => 0) (.inl i) (.inr j) := by
      rw [e]
      exact double h2
    exact fin (by unfold hRoundings; omega) (two.mul hf h1) h4
  · obtain ⟨z, h1, h2⟩ := hBe hS.b k j i
    have e : (o.fresh.callH cell k).1 (.inr i) (.inl j) = 2 * star (o.B cell k j i) := by
      exact (callH_entries o.fresh rfl cell k i j).2.2.1
    have h4 : ‖2 * star z - (o.fresh.callH cell k).1 (.inr i) (.inl j)‖ ≤
        gamma u (d + 3) * o.hSize cell (phaseSize k) (fun _ => 0) (.inr i) (.inl j) := by
      rw [e]
      refine double ?_
      rw [← star_sub, norm_star]
      exact h2
    exact fin (by unfold hRoundings; omega) (two.mul hf (h1.conj hf)) h4
  · obtain ⟨z, h1, h2⟩ := hAe hS.a' (-k) i j
    have h3 := (((two.mul hf (h1.conj hf)).mono hf (m := o.bonds.length + o.N + 4 * d + m + 16) (by omega) le_rfl).sub hf
      ((two.mul hf (hCe i j)).mono hf (by omega) le_rfl)).round hf
    have e : (o.fresh.callH cell k).1 (.inr i) (.inr j) = 2 * star (o.A cell (-k) i j) - 2 * o.freshC cell i j := by
      exact (callH_entries o.fresh rfl cell k i j).2.2.2
    have h4 : ‖(2 * star z - 2 * o.freshC cell i j) - (o.fresh.callH cell k).1 (.inr i) (.inr j)‖ ≤
        gamma u (d + 3) * o.hSize cell (phaseSize k) (fun _ => 0) (.inr i) (.inr j) := by
      rw [e, hSize, cSize_zero, mul_zero, add_zero, sub_sub_sub_cancel_right]
      refine double ?_
      rw [← star_sub, norm_star, ← hps k]
      exact h2
    exact fin (by unfold hRoundings; omega) h3 h4

/-- **C105 (kept array).** After a call of `h` the object is again one that `C105_matrix` holds for, with the same attributes except for
`C`; all later calls use the same array. -/
theorem C105_kept (o : MagnonObj) (cell : ℕ → M3 ℝ) (hS : S.Complete d) (hC : o.CachedFl A cell d) (k : V3 ℝ) :
    (o.callHFl A cell S k).2.fresh = o.fresh ∧ (o.callHFl A cell S k).2.CachedFl A cell d ∧
      ∀ S' k', ((o.callHFl A cell S k).2.callHFl A cell S' k').2.C = (o.callHFl A cell S k).2.C := by
  refine ⟨rfl, ?_, fun S' k' => rfl⟩
  rcases hC with hC | ⟨S0, h0, hC⟩
  · refine Or.inr ⟨S.c, hS.c, ?_⟩
    simp only [callHFl, hC]
    rfl
  · refine Or.inr ⟨S0, h0, ?_⟩
    simp only [callHFl, hC]
    rfl

/-! ### Energies -/

theorem place_injective {N : ℕ} : Function.Injective (place (N := N)) := by
  rintro (i | i) (j | j) h <;> simp only [place, Sum.elim_inl, Sum.elim_inr] at h
  · rw [Fin.ext h]
  · have := i.2; omega
  · have := j.2; omega
  · rw [Fin.ext (show (i : ℕ) = j by omega)]

theorem lower_hermitian {N : ℕ} (M : Mat N) : (lower M).IsHermitian := by
  refine Matrix.IsHermitian.ext fun i j => ?_
  simp only [lower, Matrix.of_apply]
  rcases lt_trichotomy (place i) (place j) with h | h | h
  · rw [if_pos h, if_neg (by omega), if_pos h]
  · rw [if_neg (by omega), if_neg (by omega), if_neg (by omega), if_neg (by omega), place_injective h]
    simp
  · rw [if_neg (by omega), if_pos h, if_pos h, star_star]

/-- The lower triangle of a matrix close to a Hermitian matrix. -/
theorem lower_close {N : ℕ} {M D : Mat N} (hD : D.IsHermitian) {η : ℝ} (h : ∀ i j, place j ≤ place i → ‖M i j - D i j‖ ≤ η) (i j : Fin N ⊕ Fin N) :
    ‖lower M i j - D i j‖ ≤ η := by
  simp only [lower, Matrix.of_apply]
  rcases lt_trichotomy (place i) (place j) with hij | hij | hij
  · rw [if_neg (by omega), if_pos hij, ← hD.apply i j, ← star_sub, norm_star]
    exact h j i hij.le
  · rw [if_neg (by omega), if_neg (by omega), ← place_injective hij]
    have e : D i i = ((D i i).re : ℂ) := by
      have := hD.apply i i
      exact (Complex.conj_eq_iff_re.1 this).symm
    rw [e, ← Complex.ofReal_sub, ← Complex.sub_re, Complex.norm_real, Real.norm_eq_abs]
    exact (Complex.abs_re_le_norm _).trans (h i i le_rfl)
  · rw [if_pos hij]
    exact h i j hij.le

/-- Entries within `η` of a matrix that is at least `a`. -/
theorem close_of_entries {N : ℕ} {D M : Mat N} (hH : D.IsHermitian) (hM : M.IsHermitian) {a η : ℝ} (ha : 0 < a) (hD : (D - (a : ℂ) • 1).PosSemidef)
    (h : ∀ i j, ‖M i j - D i j‖ ≤ η) (h0 : 0 ≤ η) :
    (M - ((1 - 2 * N * η / a : ℝ) : ℂ) • D).PosSemidef ∧ (((1 + 2 * N * η / a : ℝ) : ℂ) • D - M).PosSemidef := by
  have hs : ∀ c : ℝ, ((c : ℂ) • D).IsHermitian := fun c => by
    unfold Matrix.IsHermitian
    rw [conjTranspose_smul, hH.eq]; simp
  have small : ∀ x : Fin N ⊕ Fin N → ℂ, |(star x ⬝ᵥ ((M - D) *ᵥ x)).re| ≤ 2 * N * η / a * (star x ⬝ᵥ (D *ᵥ x)).re := by
    intro x
    refine (form_small (M := M - D) (fun i j => h i j) x).trans ?_
    have h1 := (hD.dotProduct_mulVec_nonneg x)
    have h2 : 0 ≤ (star x ⬝ᵥ (D *ᵥ x)).re - a * ∑ i, normSq (x i) := by
      have h3 := (Complex.nonneg_iff.1 h1).1
      rw [sub_mulVec, dotProduct_sub, smul_mulVec, one_mulVec, dotProduct_smul, Complex.sub_re, smul_eq_mul, Complex.re_ofReal_mul] at h3
      have h4 : (star x ⬝ᵥ x).re = ∑ i, normSq (x i) := by
        simp only [dotProduct, Complex.re_sum]
        refine Finset.sum_congr rfl fun i _ => ?_
        rw [Pi.star_apply, Complex.star_def, mul_comm, Complex.mul_conj, Complex.ofReal_re]
      rwa [h4] at h3
    have hc : (Fintype.card (Fin N ⊕ Fin N) : ℝ) = 2 * N := by
      rw [Fintype.card_sum, Fintype.card_fin]; push_cast; ring
    rw [hc, div_mul_eq_mul_div, le_div_iff₀ ha]
    have : 0 ≤ 2 * N * η := by positivity
    nlinarith
  refine ⟨posSemidef_of_re (hM.sub (hs _)) fun x => ?_, posSemidef_of_re ((hs _).sub hM) fun x => ?_⟩
  · have := (abs_le.1 (small x)).1
    simp only [sub_mulVec, dotProduct_sub, smul_mulVec, dotProduct_smul, smul_eq_mul, Complex.sub_re, Complex.re_ofReal_mul] at this ⊢
    linarith
  · have := (abs_le.1 (small x)).2
    simp only [sub_mulVec, dotProduct_sub, smul_mulVec, dotProduct_smul, smul_eq_mul, Complex.sub_re, Complex.re_ofReal_mul] at this ⊢
    linarith

/-- Only the lower triangle matters, if the first attempt succeeds. -/
theorem omegaOf_lower {N : ℕ} {chol : Mat N → Option (Mat N)} {eig : Mat N → (Fin N ⊕ Fin N → ℂ) × Mat N}
    {sort : (Fin N ⊕ Fin N → ℂ) → Equiv.Perm (Fin N ⊕ Fin N)} (hc : IsCholesky chol) (he : IsEig eig) (hs : IsSort sort)
    (hl : ReadsLower chol) {M : Mat N} (hM : (lower M).PosDef) (junk : Mat N) (z rg im : Bool) :
    omegaOf (Colpa.solve chol eig sort) junk z rg im M = omegaOf (Colpa.solve chol eig sort) junk z rg im (lower M) := by
  have h1 : Colpa.solve chol eig sort M = Colpa.solve chol eig sort (lower M) := by
    unfold Colpa.solve
    rw [hl M]
  obtain ⟨E, G, h2, -⟩ := C41_energies hc he hs _ hM
  have h3 : attempts (Colpa.solve chol eig sort) M = attempts (Colpa.solve chol eig sort) (lower M) := by
    unfold attempts
    rw [h1, h2]
  unfold omegaOf
  rw [h3]

theorem energies_close {N : ℕ} {D M : Mat N} (hH : D.IsHermitian) {a η : ℝ} (ha : 0 < a) (hpos : (D - (a : ℂ) • 1).PosSemidef) (h0 : 0 ≤ η)
    (hη : ∀ i j, place j ≤ place i → ‖M i j - D i j‖ ≤ η) (hsmall : 2 * N * η < a) :
    ∃ e e' : Fin N ⊕ Fin N → ℝ, (∀ i, 0 < e i ∧ 0 < e' i ∧ |e' i - e i| ≤ 2 * N * η / a * e i) ∧
      ∀ chol eig sort, IsCholesky chol → ReadsLower chol → IsEig eig → IsSort sort → ∀ (junk : Mat N) (z rg im : Bool),
        (omegaOf (Colpa.solve chol eig sort) junk z rg im D).1 = energyArray (fun i => (e i : ℂ)) rg ∧
        (omegaOf (Colpa.solve chol eig sort) junk z rg im M).1 = energyArray (fun i => (e' i : ℂ)) rg := by
  have hr : 2 * N * η / a < 1 := by rw [div_lt_one ha]; exact hsmall
  have hr0 : 0 ≤ 2 * N * η / a := by positivity
  have hD : D.PosDef := by
    have h1 : ((a : ℂ) • (1 : Mat N)).PosDef := PosDef.one.smul (Complex.zero_lt_real.2 ha)
    simpa using h1.add_posSemidef hpos
  obtain ⟨c1, c2⟩ := close_of_entries hH (lower_hermitian M) ha hpos (lower_close hH hη) h0
  have hM : (lower M).PosDef := by
    have h1 := (hD.smul (Complex.zero_lt_real.2 (sub_pos.2 hr))).add_posSemidef c1
    simpa using h1
  obtain ⟨Y, e, h⟩ := exists_modes hD
  obtain ⟨Y', e', h'⟩ := exists_modes hM
  refine ⟨e, e', fun i => ⟨h.pos i, h'.pos i, h.toDiag.close h'.toDiag hr0 hr c1 c2 i⟩, fun chol eig sort hch hl he hs junk z rg im => ⟨?_, ?_⟩⟩
  · exact omegaOf_modes hD h hch he hs junk z rg im
  · rw [omegaOf_lower hch he hs hl hM]
    exact omegaOf_modes hM h' hch he hs junk z rg im

/-- **C105 (energies).** The energies that `omega` finds from the computed matrix are close to those of the exact matrix.  Let the exact
`h(k)` be Hermitian and at least `a > 0`, and let the bounds of its entries on and below the diagonal be at most `η` with `2Nη < a`.  Then,
with exact linear algebra of which the Cholesky decomposition reads the lower triangle, `omega` reports the energies `e` for the exact
matrix and `e'` for the computed one (both set to zero up to 1e-8), and each `e'` differs from `e` by at most the fraction `2Nη / a`. -/
theorem C105_energies (o : MagnonObj) (cell : ℕ → M3 ℝ) (hA : A.Good u m) (hS : S.Complete d) (hu : (o.hRoundings d m : ℕ) * u < 1)
    (hC : o.CachedFl A cell d) (k : V3 ℝ) (hH : (o.fresh.callH cell k).1.IsHermitian) {a η : ℝ} (ha : 0 < a)
    (hpos : ((o.fresh.callH cell k).1 - (a : ℂ) • 1).PosSemidef) (h0 : 0 ≤ η)
    (hη : ∀ i j, place j ≤ place i → o.hBound cell u d m k i j ≤ η) (hsmall : 2 * o.N * η < a) :
    ∃ e e' : Fin o.N ⊕ Fin o.N → ℝ, (∀ i, 0 < e i ∧ 0 < e' i ∧ |e' i - e i| ≤ 2 * o.N * η / a * e i) ∧
      ∀ chol eig sort, IsCholesky chol → ReadsLower chol → IsEig eig → IsSort sort → ∀ (junk : Mat o.N) (z rg im : Bool),
        (o.fresh.omega cell (Colpa.solve chol eig sort) junk z rg im k).1.1 = energyArray (fun i => (e i : ℂ)) rg ∧
        (omegaOf (Colpa.solve chol eig sort) junk z rg im (o.callHFl A cell S k).1).1 = energyArray (fun i => (e' i : ℂ)) rg :=
  energies_close (N := o.N) hH ha hpos h0 (fun i j hij => (C105_matrix o cell hA hS hu hC k i j).trans (hη i j hij)) hsmall

/-! ### Examples -/

theorem call_sequential_complete : CallSums.sequential.Complete 6 := by
  have h : (Tree.ofList (List.finRange 3)).leaves = Finset.univ.val ∧ (Tree.ofList (List.finRange 3)).depth ≤ 6 :=
    ⟨(leaves_ofList _).1.trans rfl, by rw [(leaves_ofList _).2]; simp⟩
  have h' : (Tree.ofList (List.finRange 3 ×ˢ [false, true])).leaves = Finset.univ.val ∧
      (Tree.ofList (List.finRange 3 ×ˢ [false, true])).depth ≤ 6 := by
    refine ⟨(leaves_ofList _).1.trans ?_, by rw [(leaves_ofList _).2, List.length_product]; simp⟩
    decide
  exact ⟨fun _ _ => h, fun _ _ => h, fun _ => h, fun _ _ _ => ⟨h', h'⟩, fun _ _ => ⟨h', h'⟩⟩

/-- There is a Cholesky decomposition that reads the lower triangle. -/
theorem exists_chol_lower {N : ℕ} : ∃ chol : Mat N → Option (Mat N), IsCholesky chol ∧ ReadsLower chol := by
  have hl : ∀ D : Mat N, D.IsHermitian → lower D = D := fun D hD => by
    ext i j
    have := lower_close (M := D) hD (η := 0) (fun i j _ => by simp) i j
    exact sub_eq_zero.1 (norm_le_zero_iff.1 this)
  obtain ⟨chol, h⟩ := Colpa.exists_chol (N := N)
  refine ⟨fun D => chol (lower D), ⟨fun D hD => ?_, fun D hD hn => ?_⟩, fun D => ?_⟩
  · simp only [hl D hD.1]; exact h.ok D hD
  · simp only [hl D hD]; exact h.fail D hD hn
  · simp only [hl _ (lower_hermitian D)]

namespace RoundingExample

/-- A chain along x of spins along z, with an easy axis. -/
noncomputable def chain : MagnonObj :=
  ⟨1, [(0, 0, 0, 0), (0, 0, ![1, 0, 0], 1), (0, 0, ![-1, 0, 0], 1)], [![0, 0, 1]], [![1, I, 0]], [![0, 0, 1]], none⟩

/-- Its parameters. -/
noncomputable def params (r : ℕ) : M3 ℝ := if r = 0 then !![0, 0, 0; 0, 0, 0; 0, 0, -1] else -1

/-- Rounding towards zero by the fraction 1e-6. -/
noncomputable def arith : ExpArith := ⟨fun x => x * (999999 / 1000000), Complex.exp⟩

theorem arith_good : arith.Good (1 / 1000000) 0 := by
  refine ⟨⟨by norm_num, by norm_num, fun x => ?_⟩, fun y => ?_, fun y => ?_⟩
  · show |x * (999999 / 1000000) - x| ≤ _
    rw [show x * (999999 / 1000000) - x = -(1 / 1000000 * x) by ring, abs_neg, abs_mul]
    norm_num
  · show Rounded _ _ _ (Complex.exp _).re
    rw [Complex.exp_ofReal_mul_I_re]; exact .refl _
  · show Rounded _ _ _ (Complex.exp _).im
    rw [Complex.exp_ofReal_mul_I_im]; exact .refl _

theorem norm3_z : norm3 ![0, 0, 1] = 1 := by simp [norm3]

theorem phases : Complex.exp (-I) + Complex.exp I = 2 * Complex.cos 1 := by
  rw [Complex.cos]
  simp
  ring

theorem chain_A : chain.A params ![1, 0, 0] 0 0 = -2 * Complex.cos 1 ∧ chain.A params (-![1, 0, 0]) 0 0 = -2 * Complex.cos 1 := by
  have h := phases
  constructor <;>
  · simp [A, chain, root, norm3_z, J, params, phase, dotProduct, mulVec, Fin.sum_univ_three, Matrix.one_apply]
    linear_combination (-1 : ℂ) * h + (Complex.exp I + Complex.exp (-I)) / 2 * I_sq

theorem chain_B (k : V3 ℝ) : chain.B params k 0 0 = 0 := by
  simp [B, chain, root, norm3_z, J, params, phase, dotProduct, mulVec, Fin.sum_univ_three, Matrix.one_apply]
  ring_nf
  simp

theorem chain_C : chain.freshC params 0 0 = -3 := by
  simp [freshC, chain, norm3_z, J, params, phase, dotProduct, mulVec, Fin.sum_univ_three, Matrix.one_apply]
  norm_num

theorem chain_mode : SingleMode (chain.fresh.callH params ![1, 0, 0]).1 (6 - 4 * Real.cos 1) (6 - 4 * Real.cos 1) 0 := by
  have hz : ∀ i : Fin chain.N, (i : ℕ) = 0 := fun i => by have := i.2; simp only [chain] at this; omega
  have h := fun i j => callH_entries chain rfl params ![1, 0, 0] i j
  simp only [hz, chain_A.1, chain_A.2, chain_B, chain_C] at h
  refine ⟨rfl, fun i j => (h i j).1.trans ?_, fun i j => (h i j).2.2.2.trans ?_, fun i j => (h i j).2.1.trans ?_,
    fun i j => (h i j).2.2.1.trans ?_⟩
  · push_cast; ring
  · rw [show (-2 * Complex.cos 1 : ℂ) = ((-2 * Real.cos 1 : ℝ) : ℂ) by push_cast; rfl, Complex.star_def, Complex.conj_ofReal]
    push_cast; ring
  · simp
  · simp

theorem chain_bound (i j : Fin chain.N ⊕ Fin chain.N) : chain.hBound params (1 / 1000000) 6 0 ![1, 0, 0] i j ≤ 1 / 1000 := by
  have hz : ∀ i : Fin chain.N, (i : ℕ) = 0 := fun i => by have := i.2; simp only [chain] at this; omega
  have hj : ∀ (f : V3 ℝ → ℝ) (a b : Fin 3), chain.jSize params f 0 0 a b =
      |params 0 a b| * f 0 + (|params 1 a b| * f ![1, 0, 0] + |params 1 a b| * f ![-1, 0, 0]) := by
    intro f a b; simp [jSize, chain]
  have hab : ∀ f : V3 ℝ → ℝ, chain.abSize params f 0 0 = f ![1, 0, 0] + f ![-1, 0, 0] := by
    intro f
    simp only [abSize, formSize, hj, Fin.sum_univ_three]
    simp [chain, size1, params, norm3_z, Matrix.one_apply]
    ring
  have hc : ∀ f : V3 ℝ → ℝ, chain.cSize params f 0 0 = f 0 + f ![1, 0, 0] + f ![-1, 0, 0] := by
    intro f
    simp only [cSize, formSize, show chain.N = 1 from rfl, Finset.sum_range_one, hj, Fin.sum_univ_three]
    simp [chain, size1, params, norm3_z, Matrix.one_apply]
    ring
  have hr : chain.hRoundings 6 0 = 45 := rfl
  rcases i with i | i <;> rcases j with j | j <;>
  · simp only [hBound, hSize, hz, hab, hc, hr, gamma, phaseSize, Fin.sum_univ_three]
    simp
    norm_num

end RoundingExample

open RoundingExample in
/-- C105: a chain with an easy axis at the wave vector (1, 0, 0), with six digits.  The entries are correct to 1/1000, and the energies
to 2/1000 of them, for the sequential order of additions; decompositions as required exist. -/
example : let S : HSums := ⟨.sequential, .sequential, .sequential, .sequential, .sequential⟩
    (∀ i j, ‖(chain.callHFl arith params S ![1, 0, 0]).1 i j - (chain.fresh.callH params ![1, 0, 0]).1 i j‖ ≤ 1 / 1000) ∧
    (∃ chol : Mat chain.N → Option (Mat chain.N), IsCholesky chol ∧ ReadsLower chol) ∧
    ∃ e e' : Fin chain.N ⊕ Fin chain.N → ℝ, (∀ i, 0 < e i ∧ 0 < e' i ∧ |e' i - e i| ≤ 1 / 500 * e i) ∧
      ∀ chol eig sort, IsCholesky chol → ReadsLower chol → IsEig eig → IsSort sort → ∀ (junk : Mat chain.N) (z rg im : Bool),
        (chain.fresh.omega params (Colpa.solve chol eig sort) junk z rg im ![1, 0, 0]).1.1 = energyArray (fun i => (e i : ℂ)) rg ∧
        (omegaOf (Colpa.solve chol eig sort) junk z rg im (chain.callHFl arith params S ![1, 0, 0]).1).1 =
          energyArray (fun i => (e' i : ℂ)) rg := by
  intro S
  have hS : S.Complete 6 := ⟨call_sequential_complete, call_sequential_complete, call_sequential_complete, call_sequential_complete,
    call_sequential_complete⟩
  have hr : chain.hRoundings 6 0 = 45 := rfl
  have hu : (chain.hRoundings 6 0 : ℕ) * (1 / 1000000 : ℝ) < 1 := by rw [hr]; norm_num
  have hl := SpectrumExample.less (x := 1) chain_mode
  have hp := (hl.posDef_iff.2 ⟨by have := Real.cos_le_one 1; linarith, by
    have := Real.cos_le_one 1
    rw [map_zero]; exact mul_pos (by linarith) (by linarith)⟩).posSemidef
  refine ⟨fun i j => (C105_matrix chain params arith_good hS hu (.inl rfl) _ i j).trans (chain_bound i j), exists_chol_lower, ?_⟩
  have h := C105_energies chain params arith_good hS hu (.inl rfl) ![1, 0, 0] chain_mode.hermitian one_pos hp (η := 1 / 1000) (by norm_num)
    (fun i j _ => chain_bound i j) (by simp only [chain]; norm_num)
  obtain ⟨e, e', h1, h2⟩ := h
  refine ⟨e, e', fun i => ⟨(h1 i).1, (h1 i).2.1, (h1 i).2.2.trans (le_of_eq ?_)⟩, h2⟩
  simp only [chain]; norm_num

end MagnonObj
end Magnopy
