import Verif.Props.Colpa
import Verif.Lemmas.Omega

/-!
# C43: the decision logic of `omega`
-/

set_option autoImplicit false
set_option linter.unusedSectionVars false

namespace Magnopy

open Matrix ComplexOrder Magnopy.Colpa Magnopy.MagnonObj

variable {N : ℕ} {chol : Mat N → Option (Mat N)} {eig : Mat N → (Fin N ⊕ Fin N → ℂ) × Mat N}
  {sort : (Fin N ⊕ Fin N → ℂ) → Equiv.Perm (Fin N ⊕ Fin N)}

/-- **C43, moduli.** Every returned number is zero or has a modulus above 1e-8, for every matrix (also not Hermitian),
for every Cholesky routine and for every basis of eigenvectors. -/
theorem C43_moduli (heig : IsEig eig) (h junk : Mat N) (zerosToNone returnG returnImaginary : Bool) :
    ∀ z, some z ∈ (omegaOf (Colpa.solve chol eig sort) junk zerosToNone returnG returnImaginary h).1 →
      z = 0 ∨ 1 / 10 ^ 8 < ‖z‖ := by
  intro z hz
  have hr : ∀ w : ℂ, round8 w = 0 ∨ 1 / 10 ^ 8 < ‖round8 w‖ := by
    intro w
    unfold round8
    split_ifs with hw
    · exact Or.inl rfl
    · exact Or.inr (not_le.1 hw)
  cases ha : attempts (Colpa.solve chol eig sort) h with
  | some p =>
    obtain ⟨E, G⟩ := p
    rw [omegaOf_some _ _ _ ha fun _ => attempts_real (fun D E G => solve_real heig) ha] at hz
    simp only [energyArray, List.mem_append, List.mem_map] at hz
    rcases hz with ⟨i, _, hi⟩ | hz
    · rw [← Option.some.inj hi]; exact hr _
    · split_ifs at hz
      · simp only [List.mem_map] at hz
        obtain ⟨i, _, hi⟩ := hz
        rw [← Option.some.inj hi]; exact hr _
      · simp at hz
  | none =>
    rw [omegaOf_none _ _ _ ha] at hz
    simp only at hz
    split_ifs at hz <;> simp [List.mem_replicate] at hz <;> exact Or.inl hz.2

/-- **C43, positive-definite matrices.** The energies of `solve_via_colpa`, rounded. -/
theorem C43_positive (hchol : IsCholesky chol) (heig : IsEig eig) (hsort : IsSort sort) (h junk : Mat N) (hh : h.PosDef)
    (zerosToNone returnG returnImaginary : Bool) :
    ∃ E G, Colpa.solve chol eig sort h = some (E, G) ∧
      omegaOf (Colpa.solve chol eig sort) junk zerosToNone returnG returnImaginary h =
        (energyArray E returnG, if returnG then some G else none) := by
  obtain ⟨E, G, h1, h2⟩ := C41_energies hchol heig hsort h hh
  refine ⟨E, G, h1, omegaOf_some _ _ _ ?_ fun _ => h2.real⟩
  unfold attempts
  rw [h1]

/-- **C43, positive-semidefinite matrices** that are not positive definite: the energies of the matrix shifted by
1e-8. -/
theorem C43_semidefinite (hchol : IsCholesky chol) (heig : IsEig eig) (hsort : IsSort sort) (h junk : Mat N)
    (hh : h.PosSemidef) (hn : ¬ h.PosDef) (zerosToNone returnG returnImaginary : Bool) :
    ∃ E G, Colpa.solve chol eig sort (h + diagonal fun _ => 1 / 10 ^ 8) = some (E, G) ∧
      omegaOf (Colpa.solve chol eig sort) junk zerosToNone returnG returnImaginary h =
        (energyArray E returnG, if returnG then some G else none) := by
  have hp : (shift h (1 / 10 ^ 8)).PosDef := (posDef_const (by norm_num)).posSemidef_add hh
  obtain ⟨E, G, h1, h2⟩ := C41_energies hchol heig hsort _ hp
  have he : h + (diagonal fun _ => 1 / 10 ^ 8) = shift h (1 / 10 ^ 8) := by simp [shift]
  refine ⟨E, G, he ▸ h1, omegaOf_some _ _ _ ?_ fun _ => h2.real⟩
  unfold attempts
  rw [C41_failure hchol h hh.1 hn, h1]

/-- **C43, negative-definite matrices.** Minus the energies of the opposite matrix, rounded.  This holds also if the
matrix is so close to zero that the second attempt, `h + 1e-8`, is successful. -/
theorem C43_negative (hchol : IsCholesky chol) (heig : IsEig eig) (hsort : IsSort sort) (h junk : Mat N)
    (hh : (-h).PosDef) (hN : 0 < N) (zerosToNone returnG returnImaginary : Bool) :
    ∃ E G, Colpa.solve chol eig sort (-h) = some (E, G) ∧
      (omegaOf (Colpa.solve chol eig sort) junk zerosToNone returnG returnImaginary h).1 = energyArray (-E) returnG := by
  have hh1 : h.IsHermitian := by simpa using hh.1.neg
  have hn : ¬ h.PosDef := by
    intro hp
    have hx : (Pi.single (Sum.inl ⟨0, hN⟩) 1 : Fin N ⊕ Fin N → ℂ) ≠ 0 := by simp
    have h1 := hp.dotProduct_mulVec_pos hx
    have h2 := hh.dotProduct_mulVec_pos hx
    rw [neg_mulVec, dotProduct_neg] at h2
    exact absurd (h1.trans (neg_pos.1 h2)) (lt_irrefl _)
  obtain ⟨E, G, h1, h2⟩ := C41_energies hchol heig hsort _ hh
  refine ⟨E, G, h1, ?_⟩
  by_cases hs : (shift h (1 / 10 ^ 8)).PosDef
  · obtain ⟨E', G', h3, h4⟩ := C41_energies hchol heig hsort _ hs
    have ha : attempts (Colpa.solve chol eig sort) h = some (E', G') := by
      unfold attempts
      rw [C41_failure hchol h hh1 hn, h3]
    rw [omegaOf_some _ _ _ ha fun _ => h4.real]
    have b1 : ∀ i, ‖E i‖ ≤ 1 / 10 ^ 8 := fun i => by
      refine solve_le hchol heig hsort hh (c := 1 / 10 ^ 8) (by norm_num) ?_ h1 i
      have := hs.posSemidef
      rw [sub_neg_eq_add, add_comm]
      exact this
    have b2 : ∀ i, ‖E' i‖ ≤ 1 / 10 ^ 8 := fun i => by
      refine solve_le hchol heig hsort hs (c := 1 / 10 ^ 8) (by norm_num) ?_ h3 i
      have := hh.posSemidef
      rw [shift, sub_add_cancel_right]
      exact this
    have e : ∀ i, round8 (E' i) = round8 ((-E) i) := by
      intro i
      unfold round8
      rw [if_pos (b2 i), if_pos (by rw [Pi.neg_apply, norm_neg]; exact b1 i)]
    simp only [energyArray, e]
  · have ha : attempts (Colpa.solve chol eig sort) h = some (-E, -G) := by
      unfold attempts
      rw [C41_failure hchol h hh1 hn, C41_failure hchol _ (shift_isHermitian hh1 _) hs, h1]
    rw [omegaOf_some _ _ _ ha fun _ => RealVals.neg h2.real]

/-- **C43, nothing works.** A Hermitian matrix that is neither negative definite nor positive definite after the shift:
zeros, or NaNs if asked for.  The fourth attempt of the code (a shift of `-h` by -1e-8) never helps. -/
theorem C43_fallback (hchol : IsCholesky chol) (h junk : Mat N) (hh : h.IsHermitian)
    (h1 : ¬ (h + diagonal fun _ => 1 / 10 ^ 8).PosDef) (h2 : ¬ (-h).PosDef) (zerosToNone returnG returnImaginary : Bool) :
    (omegaOf (Colpa.solve chol eig sort) junk zerosToNone returnG returnImaginary h).1 =
      if zerosToNone then List.replicate (if returnG then 2 * N else N) none else List.replicate N (some 0) := by
  have he : h + (diagonal fun _ => 1 / 10 ^ 8) = shift h (1 / 10 ^ 8) := by simp [shift]
  rw [he] at h1
  have h3 : ¬ h.PosDef := fun hp => h1 (hp.add_posSemidef (posDef_const (by norm_num)).posSemidef)
  have h4 : ¬ (shift (-h) (-(1 / 10 ^ 8))).PosDef := by
    intro hp
    apply h2
    have : -h = shift (-h) (-(1 / 10 ^ 8)) + diagonal fun _ => ((1 / 10 ^ 8 : ℝ) : ℂ) := by
      rw [shift, add_assoc, diagonal_add]
      simp
    rw [this]
    exact hp.add_posSemidef (posDef_const (by norm_num)).posSemidef
  have ha : attempts (Colpa.solve chol eig sort) h = none := by
    unfold attempts
    rw [C41_failure hchol h hh h3, C41_failure hchol _ (shift_isHermitian hh _) h1, C41_failure hchol _ hh.neg h2,
      C41_failure hchol _ (shift_isHermitian hh.neg _) h4]
  rw [omegaOf_none _ _ _ ha]

/-- The full statement about the number of energies. -/
def C43_statement : Prop :=
  ∀ (N : ℕ) (solve : Mat N → Option ((Fin N ⊕ Fin N → ℂ) × Mat N)) (h junk : Mat N)
    (zerosToNone returnG returnImaginary : Bool),
    (omegaOf solve junk zerosToNone returnG returnImaginary h).1.length = if returnG then 2 * N else N

/-- **C43, number of energies, what is provable.** For every solver `N` energies are returned; `2N` if `G` is asked for,
provided that an attempt was successful or NaNs were asked for.

Missing: zeros with `return_G`, see `C43_length_false`. -/
theorem C43_length_partial (solve : Mat N → Option ((Fin N ⊕ Fin N → ℂ) × Mat N)) (h junk : Mat N)
    (zerosToNone returnG returnImaginary : Bool)
    (hg : returnG = true → zerosToNone = true ∨ ∃ X ∈ [h, h + diagonal fun _ => 1 / 10 ^ 8, -h], (solve X).isSome) :
    (omegaOf solve junk zerosToNone returnG returnImaginary h).1.length = if returnG then 2 * N else N := by
  cases ha : attempts solve h with
  | some p =>
    obtain ⟨E, G⟩ := p
    unfold omegaOf
    rw [ha]
    cases returnImaginary <;> cases returnG <;> simp [listOf_length] <;> omega
  | none =>
    rw [omegaOf_none _ _ _ ha]
    cases zerosToNone with
    | true => simp
    | false =>
      cases returnG with
      | false => simp
      | true =>
        exfalso
        obtain ⟨X, hX, hs⟩ := (hg rfl).resolve_left (by simp)
        have he : h + (diagonal fun _ => 1 / 10 ^ 8) = shift h (1 / 10 ^ 8) := by simp [shift]
        unfold attempts at ha
        cases h1 : solve h with
        | some p => rw [h1] at ha; simp at ha
        | none =>
          rw [h1] at ha
          cases h2 : solve (shift h (1 / 10 ^ 8)) with
          | some p => rw [h2] at ha; simp at ha
          | none =>
            rw [h2] at ha
            cases h3 : solve (-h) with
            | some p => rw [h3] at ha; simp at ha
            | none =>
              rw [he] at hX
              simp only [List.mem_cons, List.not_mem_nil, or_false] at hX
              rcases hX with rfl | rfl | rfl
              · rw [h1] at hs; simp at hs
              · rw [h2] at hs; simp at hs
              · rw [h3] at hs; simp at hs

namespace OmegaExample

/-- An indefinite matrix. -/
def D : Mat 1 := diagonal (Sum.elim (fun _ => 1) fun _ => -1)

theorem D_isHermitian : D.IsHermitian := by
  rw [D, Matrix.IsHermitian, diagonal_conjTranspose]
  congr 1
  ext i
  rcases i with i | i <;> simp

theorem D_shift : ¬ (D + diagonal fun _ => 1 / 10 ^ 8).PosDef := by
  rw [D, diagonal_add, posDef_diagonal_iff]
  intro h
  have := h (.inr 0)
  have e : (Sum.elim (fun _ : Fin 1 => (1 : ℂ)) (fun _ : Fin 1 => -1) (.inr 0) + 1 / 10 ^ 8) = ((-1 + 1 / 10 ^ 8 : ℝ) : ℂ) := by
    push_cast; simp
  rw [e, Complex.zero_lt_real] at this
  norm_num at this

theorem D_neg : ¬ (-D).PosDef := by
  rw [D, diagonal_neg, posDef_diagonal_iff]
  intro h
  have := h (.inl 0)
  rw [show -(Sum.elim (fun _ : Fin 1 => (1 : ℂ)) (fun _ : Fin 1 => -1) (.inl 0)) = ((-1 : ℝ) : ℂ) by simp,
    Complex.zero_lt_real] at this
  norm_num at this

end OmegaExample

open OmegaExample in
/-- **C43 is false** about the number of energies: an indefinite matrix gives `N` zeros although `2N` energies are
promised with `return_G`. -/
theorem C43_length_false : ¬ C43_statement := by
  intro hall
  obtain ⟨chol, h1⟩ := exists_chol (N := 1)
  obtain ⟨eig, _⟩ := exists_eig (N := 1)
  obtain ⟨sort, _⟩ := exists_sort (N := 1)
  have h2 := C43_fallback (eig := eig) (sort := sort) h1 D 0 D_isHermitian D_shift D_neg false true false
  have h3 := hall 1 (Colpa.solve chol eig sort) D 0 false true false
  rw [h2] at h3
  simp at h3

/-- The matrix of one spin with the energies 3 and 5. -/
example (hchol : IsCholesky chol) (heig : IsEig eig) (hsort : IsSort sort) (hN : N = 1) (junk : Mat N) :
    (omegaOf (Colpa.solve chol eig sort) junk false true false
      (diagonal (Sum.elim (fun _ => -3) fun _ => -5))).1 = [some (-3), some (-5)] := by
  subst hN
  have hd : -(diagonal (Sum.elim (fun _ : Fin 1 => (-3 : ℂ)) fun _ : Fin 1 => -5)) =
      diagonal fun i => ((Sum.elim (fun _ => 3) (fun _ => 5) i : ℝ) : ℂ) := by
    rw [diagonal_neg]
    congr 1
    ext i
    rcases i with i | i <;> simp
  obtain ⟨G, hG⟩ := solve_diagonal hchol heig hsort (Sum.elim (fun _ => 3) fun _ => 5)
    (by rintro (i | i) <;> norm_num) ⟨fun _ _ _ => by simp [sgn], fun _ _ _ => by simp [sgn], fun _ _ => by simp [sgn]; norm_num⟩
  obtain ⟨E, G', h1, h2⟩ := C43_negative hchol heig hsort (diagonal (Sum.elim (fun _ => -3) fun _ => -5)) junk
    (by
      rw [hd, posDef_diagonal_iff]
      rintro (i | i) <;> rw [Complex.zero_lt_real] <;> norm_num) one_pos false true false
  rw [hd, hG] at h1
  rw [h2, ← (Prod.mk.inj (Option.some.inj h1)).1]
  simp [energyArray, round8]
  norm_num

/-! ### C57: negative-semidefinite matrices -/

/-- The full statement of C57: the mirror image of the positive-semidefinite case. -/
def C57_statement : Prop :=
  ∀ (N : ℕ) (chol : Mat N → Option (Mat N)) (eig : Mat N → (Fin N ⊕ Fin N → ℂ) × Mat N)
    (sort : (Fin N ⊕ Fin N → ℂ) → Equiv.Perm (Fin N ⊕ Fin N)), IsCholesky chol → IsOrthoEig eig → IsSort sort →
    ∀ h junk : Mat N, (-h).PosSemidef → ¬ (-h).PosDef → ¬ (h + diagonal fun _ => 1 / 10 ^ 8).PosDef →
      ∃ E G, Colpa.solve chol eig sort (-h + diagonal fun _ => 1 / 10 ^ 8) = some (E, G) ∧
        (omegaOf (Colpa.solve chol eig sort) junk false false false h).1 = energyArray (-E) false

/-- **C57, what happens.** For a negative-semidefinite matrix the solver would find energies of the opposite matrix
shifted by 1e-8, but `omega` shifts in the wrong direction and returns zeros (or NaNs).

Missing for the full property: any energies other than zero, see `C57_semidefinite_false`. -/
theorem C57_semidefinite_partial (hchol : IsCholesky chol) (heig : IsEig eig) (hsort : IsSort sort) (h junk : Mat N)
    (h1 : (-h).PosSemidef) (h2 : ¬ (-h).PosDef) (h3 : ¬ (h + diagonal fun _ => 1 / 10 ^ 8).PosDef)
    (zerosToNone returnImaginary : Bool) :
    (∃ E G, Colpa.solve chol eig sort (-h + diagonal fun _ => 1 / 10 ^ 8) = some (E, G) ∧ EnergyOrder E) ∧
      (omegaOf (Colpa.solve chol eig sort) junk zerosToNone false returnImaginary h).1 =
        List.replicate N (if zerosToNone then none else some 0) := by
  constructor
  · refine C41_energies hchol heig hsort _ ?_
    have : (diagonal fun _ : Fin N ⊕ Fin N => (1 / 10 ^ 8 : ℂ)) = diagonal fun _ => ((1 / 10 ^ 8 : ℝ) : ℂ) := by simp
    rw [this]
    exact (posDef_const (by norm_num)).posSemidef_add h1
  · rw [C43_fallback hchol h junk (by simpa using h1.1.neg) h3 h2]
    cases zerosToNone <;> simp

namespace OmegaExample

/-- A negative-semidefinite matrix. -/
def Dn : Mat 1 := diagonal (Sum.elim (fun _ => -2) fun _ => 0)

theorem Dn_neg : -Dn = diagonal fun i => ((Sum.elim (fun _ => 2) (fun _ => 0) i : ℝ) : ℂ) := by
  rw [Dn, diagonal_neg]
  congr 1
  ext i
  rcases i with i | i <;> simp

theorem Dn_semi : (-Dn).PosSemidef := by
  rw [Dn_neg, posSemidef_diagonal_iff]
  rintro (i | i) <;> simp

theorem Dn_notDef : ¬ (-Dn).PosDef := by
  rw [Dn_neg, posDef_diagonal_iff]
  intro h
  simpa using h (.inr 0)

theorem Dn_shift : ¬ (Dn + diagonal fun _ => 1 / 10 ^ 8).PosDef := by
  rw [Dn, diagonal_add, posDef_diagonal_iff]
  intro h
  have := h (.inl 0)
  have e : (Sum.elim (fun _ : Fin 1 => (-2 : ℂ)) (fun _ : Fin 1 => 0) (.inl 0) + 1 / 10 ^ 8) = ((-2 + 1 / 10 ^ 8 : ℝ) : ℂ) := by
    push_cast; simp
  rw [e, Complex.zero_lt_real] at this
  norm_num at this

end OmegaExample

open OmegaExample in
/-- The matrix `diag(-2, 0)` meets the hypotheses. -/
example : (-Dn).PosSemidef ∧ ¬ (-Dn).PosDef ∧ ¬ (Dn + diagonal fun _ => 1 / 10 ^ 8).PosDef :=
  ⟨Dn_semi, Dn_notDef, Dn_shift⟩

open OmegaExample in
/-- **C57 is false**: for `diag(-2, 0)` zero is returned instead of -(2 + 1e-8). -/
theorem C57_semidefinite_false : ¬ C57_statement := by
  intro hall
  obtain ⟨chol, h1⟩ := exists_chol (N := 1)
  obtain ⟨eig, h2⟩ := exists_eig (N := 1)
  obtain ⟨sort, h3⟩ := exists_sort (N := 1)
  obtain ⟨E, G, h4, h5⟩ := hall 1 chol eig sort h1 h2 h3 Dn 0 Dn_semi Dn_notDef Dn_shift
  rw [(C57_semidefinite_partial h1 h2.1 h3 Dn 0 Dn_semi Dn_notDef Dn_shift false false).2] at h5
  obtain ⟨G', hG⟩ := solve_diagonal h1 h2.1 h3 (Sum.elim (fun _ => 2 + 1 / 10 ^ 8) fun _ => 1 / 10 ^ 8)
    (by rintro (i | i) <;> simp <;> norm_num)
    ⟨fun _ _ _ => by simp [sgn], fun _ _ _ => by simp [sgn], fun _ _ => by simp [sgn]; norm_num⟩
  have e : -Dn + (diagonal fun _ => 1 / 10 ^ 8) =
      diagonal fun i => ((Sum.elim (fun _ => 2 + 1 / 10 ^ 8) (fun _ => 1 / 10 ^ 8) i : ℝ) : ℂ) := by
    rw [Dn_neg, diagonal_add]
    congr 1
    ext i
    rcases i with i | i <;> simp
  rw [e, hG] at h4
  rw [← (Prod.mk.inj (Option.some.inj h4)).1] at h5
  simp only [energyArray, round8, List.finRange_succ, List.finRange_zero, List.map_cons, List.map_nil, Sum.elim_inl,
    Pi.neg_apply, norm_neg, Complex.norm_real, Bool.false_eq_true, if_false, List.append_nil, List.replicate_one,
    List.cons.injEq, and_true, Option.some.injEq] at h5
  rw [if_neg (by norm_num)] at h5
  have := congrArg Complex.re h5
  rw [Complex.neg_re, Complex.ofReal_re] at this
  norm_num at this

end Magnopy
