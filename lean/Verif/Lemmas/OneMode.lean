import Verif.Lemmas.Similar
import Verif.Props.Omega
import Verif.Props.Colpa

/-!
# Helper lemmas: the energy of one mode
-/

set_option autoImplicit false
set_option linter.unusedSectionVars false

namespace Magnopy

open Matrix Complex MagnonObj
open scoped ComplexOrder

/-- A matrix with one mode. -/
structure OneMode (D : Mat 1) (a a' : ℝ) (b : ℂ) : Prop where
  inl : D (.inl 0) (.inl 0) = a
  inr : D (.inr 0) (.inr 0) = a'
  up : D (.inl 0) (.inr 0) = b
  down : D (.inr 0) (.inl 0) = star b

variable {D : Mat 1} {a a' : ℝ} {b : ℂ}

theorem OneMode.hermitian (h : OneMode D a a' b) : D.IsHermitian := by
  ext i j
  rw [conjTranspose_apply]
  rcases i with i | i <;> rcases j with j | j <;> rw [Subsingleton.elim i 0, Subsingleton.elim j 0]
  · rw [h.inl]; simp
  · rw [h.up, h.down, star_star]
  · rw [h.up, h.down]
  · rw [h.inr]; simp

theorem OneMode.form (h : OneMode D a a' b) (x : Fin 1 ⊕ Fin 1 → ℂ) : star x ⬝ᵥ (D *ᵥ x) =
    ((a * normSq (x (.inl 0)) + a' * normSq (x (.inr 0)) + 2 * (star (x (.inl 0)) * b * x (.inr 0)).re : ℝ) : ℂ) := by
  simp only [dotProduct, mulVec, Fintype.sum_sum_type, Fin.sum_univ_one, h.inl, h.inr, h.up, h.down, Pi.star_apply]
  apply Complex.ext <;> simp [normSq_apply] <;> ring

theorem OneMode.posDef (h : OneMode D a a' b) (ha : 0 < a) (hb : normSq b < a * a') : D.PosDef := by
  refine .of_dotProduct_mulVec_pos h.hermitian fun x hx => ?_
  rw [h.form, Complex.zero_lt_real]
  have hne : x (.inl 0) ≠ 0 ∨ x (.inr 0) ≠ 0 := by
    by_contra hcon
    push Not at hcon
    apply hx
    funext i
    rcases i with i | i <;> rw [Subsingleton.elim i 0]
    · exact hcon.1
    · exact hcon.2
  generalize x (.inl 0) = p at *
  generalize x (.inr 0) = q at *
  refine pos_of_mul_pos_right (?_ : 0 < a * _) ha.le
  have e : a * (a * normSq p + a' * normSq q + 2 * (star p * b * q).re) =
      normSq (a * p + b * q) + (a * a' - normSq b) * normSq q := by
    simp [normSq_apply]
    ring
  rw [e]
  by_cases hq : q = 0
  · subst hq
    have hp : p ≠ 0 := by simpa using hne
    have : (a : ℂ) * p ≠ 0 := mul_ne_zero (by exact_mod_cast ha.ne') hp
    simpa using (normSq_pos.2 this)
  · have := mul_pos (sub_pos.2 hb) (normSq_pos.2 hq)
    have := normSq_nonneg (a * p + b * q)
    linarith

theorem OneMode.pos (h : OneMode D a a' b) (hD : D.PosDef) : 0 < a ∧ normSq b < a * a' := by
  have h1 : 0 < a := by
    have := hD.dotProduct_mulVec_pos (x := Sum.elim (fun _ => 1) 0) fun e => by simpa using congrFun e (.inl 0)
    rw [h.form, Complex.zero_lt_real] at this
    simpa using this
  refine ⟨h1, ?_⟩
  have hx : (Sum.elim (fun _ => -b) fun _ => (a : ℂ) : Fin 1 ⊕ Fin 1 → ℂ) ≠ 0 := fun e => by
    have := congrFun e (.inr 0)
    simp at this
    exact h1.ne' this
  have := hD.dotProduct_mulVec_pos hx
  rw [h.form, Complex.zero_lt_real] at this
  simp [normSq_apply] at this
  have h2 : 0 < a * (a * a' - normSq b) := by
    rw [normSq_apply]
    nlinarith
  have := pos_of_mul_pos_right h2 h1.le
  linarith

variable {chol : Mat 1 → Option (Mat 1)} {eig : Mat 1 → (Fin 1 ⊕ Fin 1 → ℂ) × Mat 1}
    {sort : (Fin 1 ⊕ Fin 1 → ℂ) → Equiv.Perm (Fin 1 ⊕ Fin 1)}

theorem OneMode.solve (h : OneMode D a a' b) (hchol : IsCholesky chol) (heig : IsEig eig) (hsort : IsSort sort)
    (hD : D.PosDef) : ∃ E G, Colpa.solve chol eig sort D = some (E, G) ∧
      E (.inl 0) = (((a - a') / 2 + Real.sqrt (((a + a') / 2) ^ 2 - normSq b) : ℝ) : ℂ) := by
  obtain ⟨l, h1, h2, h3⟩ := Colpa.solve_roots hchol heig hsort hD
  obtain ⟨E, G, h4, h5⟩ := C41_energies hchol heig hsort D hD
  refine ⟨E, G, h4, ?_⟩
  rw [h4, Option.map_some, Option.some.injEq] at h3
  simp only at h3
  have hE : E (.inl 0) = (l (.inl 0) : ℂ) := by rw [h3]; simp [Colpa.sgn]
  have hl : 0 < l (.inl 0) := by
    have := h5.pos (.inl 0)
    rwa [hE, Complex.ofReal_re] at this
  rw [hE]
  congr 1
  obtain ⟨hpa, hpb⟩ := h.pos hD
  set x := l (.inl 0) with hx
  have hroot : (x : ℂ) ∈ (Colpa.g * D).charpoly.roots := by
    rw [← h2]
    exact Multiset.mem_map.2 ⟨.inl 0, by simp, rfl⟩
  have hdet := (Polynomial.mem_roots'.1 hroot).2
  rw [Polynomial.IsRoot.def, Matrix.eval_charpoly] at hdet
  obtain ⟨w, hw, hwe⟩ := Matrix.exists_mulVec_eq_zero_iff.2 hdet
  have e1 := congrFun hwe (.inl 0)
  have e2 := congrFun hwe (.inr 0)
  have hg : ∀ i j, ((Colpa.g : Mat 1) * D) i j = (Sum.elim (fun _ => 1) fun _ => -1 : Fin 1 ⊕ Fin 1 → ℂ) i * D i j :=
    fun i j => by rw [Colpa.g, diagonal_mul]
  simp only [mulVec, dotProduct, Fintype.sum_sum_type, Fin.sum_univ_one, Matrix.sub_apply, hg, h.inl, h.inr, h.up, h.down] at e1 e2
  simp at e1 e2
  have key : ((x : ℂ) - a) * (x + a') + normSq b = 0 := by
    rw [normSq_eq_conj_mul_self]
    have hne : w (.inl 0) ≠ 0 ∨ w (.inr 0) ≠ 0 := by
      by_contra hcon
      push Not at hcon
      apply hw
      funext i
      rcases i with i | i <;> rw [Subsingleton.elim i 0]
      · exact hcon.1
      · exact hcon.2
    rcases hne with hne | hne
    · refine (mul_eq_zero.1 (?_ : _ * w (.inl 0) = 0)).resolve_right hne
      linear_combination (x + a' : ℂ) * e1 + b * e2
    · refine (mul_eq_zero.1 (?_ : _ * w (.inr 0) = 0)).resolve_right hne
      linear_combination (x - a : ℂ) * e2 - (starRingEnd ℂ) b * e1
  have key' : (x - a) * (x + a') + normSq b = 0 := by exact_mod_cast key
  have hs : 0 ≤ x - (a - a') / 2 := by
    by_contra hcon
    push Not at hcon
    nlinarith
  rw [show ((a + a') / 2) ^ 2 - normSq b = (x - (a - a') / 2) ^ 2 by linarith, Real.sqrt_sq hs]
  ring

/-! ### Any number that is one -/

/-- A matrix with one mode, whose size is only known to be one. -/
structure SingleMode {N : ℕ} (D : Mat N) (a a' : ℝ) (b : ℂ) : Prop where
  one : N = 1
  inl : ∀ i j, D (.inl i) (.inl j) = a
  inr : ∀ i j, D (.inr i) (.inr j) = a'
  up : ∀ i j, D (.inl i) (.inr j) = b
  down : ∀ i j, D (.inr i) (.inl j) = star b

variable {N : ℕ} {M : Mat N} {ch : Mat N → Option (Mat N)} {ei : Mat N → (Fin N ⊕ Fin N → ℂ) × Mat N}
    {so : (Fin N ⊕ Fin N → ℂ) → Equiv.Perm (Fin N ⊕ Fin N)}

theorem SingleMode.oneMode {M : Mat 1} (h : SingleMode M a a' b) : OneMode M a a' b :=
  ⟨h.inl _ _, h.inr _ _, h.up _ _, h.down _ _⟩

theorem SingleMode.hermitian (h : SingleMode M a a' b) : M.IsHermitian := by
  obtain rfl := h.one
  exact h.oneMode.hermitian

theorem SingleMode.posDef_iff (h : SingleMode M a a' b) : M.PosDef ↔ 0 < a ∧ normSq b < a * a' := by
  obtain rfl := h.one
  exact ⟨h.oneMode.pos, fun hp => h.oneMode.posDef hp.1 hp.2⟩

/-- The energy of one mode. -/
theorem SingleMode.omega (h : SingleMode M a a' b) (hch : IsCholesky ch) (hei : IsEig ei) (hso : IsSort so) (ha : 0 < a)
    (hb : normSq b < a * a') (junk : Mat N) (z im : Bool) : (omegaOf (Colpa.solve ch ei so) junk z false im M).1 =
      [some (round8 (((a - a') / 2 + Real.sqrt (((a + a') / 2) ^ 2 - normSq b) : ℝ) : ℂ))] := by
  have hD := h.posDef_iff.2 ⟨ha, hb⟩
  obtain rfl := h.one
  obtain ⟨E, G, h1, h2⟩ := h.oneMode.solve hch hei hso hD
  obtain ⟨E', G', h1', h2'⟩ := C43_positive hch hei hso M junk hD z false im
  rw [h1] at h1'
  simp only [Option.some.injEq, Prod.mk.injEq] at h1'
  obtain ⟨rfl, rfl⟩ := h1'
  rw [h2']
  simp [energyArray, h2]
  rfl

end Magnopy
