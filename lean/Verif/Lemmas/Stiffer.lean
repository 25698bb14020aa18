import Verif.Lemmas.Minimum

/-!
# Lemmas: the magnon matrices of two Hamiltonians with the same state
-/

set_option autoImplicit false
set_option linter.unusedSectionVars false

namespace Magnopy

open PyDict Matrix Complex ComplexOrder MagnonObj Filter Topology Asymptotics

variable {Γ : Type*} [AddCommGroup Γ] [Fintype Γ]

/-- The second-order parts of the energies of every wave are ordered. -/
theorem wave_stiffer {s t s' t' : St ℝ} {spin : Atom → ℝ} {l : List Atom} (hn : t.getNotation = .ok (true, false, 1, 1))
    (hn' : t'.getNotation = .ok (true, false, 1, 1))
    (hphys : ∀ c : Config ℝ Γ, t.physics c spin = s.physics c spin) (hphys' : ∀ c : Config ℝ Γ, t'.physics c spin = s'.physics c spin)
    (lat : M3 ℝ) (pos : Atom → V3 ℝ) {frame : Atom → M3 ℝ} (hf : ∀ a ∈ l, RightHanded (frame a)) (hS : ∀ a ∈ l, 0 < spin a)
    {τ : Cell →+ Γ} (hst : s.Stiffer s' spin l (fun a => frame a 2) τ) (χ : Γ → ℂ) (k : V3 ℝ) (α β : Atom → ℂ)
    {E0 E1 E2 E3 E4 E0' E1' E2' E3' E4' : ℝ} (hE : ∀ ε : ℝ, t.physics (wave lat pos frame spin τ χ k α β ε) spin =
      some (E0 + ε * E1 + ε ^ 2 * E2 + ε ^ 3 * E3 + ε ^ 4 * E4))
    (hE' : ∀ ε : ℝ, t'.physics (wave lat pos frame spin τ χ k α β ε) spin =
      some (E0' + ε * E1' + ε ^ 2 * E2' + ε ^ 3 * E3' + ε ^ 4 * E4')) : E2 ≤ E2' := by
  obtain ⟨f, hf4, hfE⟩ := energy_unitWave hn lat pos frame spin τ χ k α β
  obtain ⟨f', hf4', hfE'⟩ := energy_unitWave hn' lat pos frame spin τ χ k α β
  obtain ⟨δ, hδ, hm⟩ := hst
  rw [← sub_nonneg]
  refine second_nonneg (E0 := E0' - E0) (E1 := E1' - E1) (E3 := E3' - E3) (E4 := E4' - E4) (hf4'.sub hf4) ?_
  have hclose := unitWave_close lat pos frame spin τ χ k α β l hδ
  filter_upwards [hclose] with ε hε
  have h1 := hm (unitWave lat pos frame spin τ χ k α β ε).σ
    (fun a ha n => ⟨unitWave_unit lat pos τ χ k α β ε (hf a ha) (hS a ha) n, hε a ha n⟩) E0
    (E0 + ε * E1 + ε ^ 2 * E2 + ε ^ 3 * E3 + ε ^ 4 * E4 + f ε) E0'
    (E0' + ε * E1' + ε ^ 2 * E2' + ε ^ 3 * E3' + ε ^ 4 * E4' + f' ε) ?_ ?_ ?_ ?_
  · linarith
  · rw [← hphys]
    have := hE 0
    simp only [wave, tilted_zero] at this
    rw [this]
    simp
  · rw [← hphys]
    exact hfE ε _ (hE ε)
  · rw [← hphys']
    have := hE' 0
    simp only [wave, tilted_zero] at this
    rw [this]
    simp
  · rw [← hphys']
    exact hfE' ε _ (hE' ε)

/-- The places of the matrix of one object as the places of the matrix of another one. -/
def places {N N' : ℕ} (h : N = N') : Fin N ⊕ Fin N ≃ Fin N' ⊕ Fin N' := Equiv.sumCongr (finCongr h) (finCongr h)

theorem form_places {N N' : ℕ} (h : N = N') (D : Mat N') (x : Fin N' ⊕ Fin N' → ℂ) :
    star (x ∘ places h) ⬝ᵥ (D.submatrix (places h) (places h) *ᵥ (x ∘ places h)) = star x ⬝ᵥ (D *ᵥ x) := by
  subst h
  have : (places rfl : Fin N ⊕ Fin N ≃ Fin N ⊕ Fin N) = .refl _ := by
    ext i; rcases i with i | i <;> rfl
  rw [this]
  rfl

theorem amps_places {o o' : MagnonObj} (h : o.N = o'.N) (l : List Atom) (α β : Atom → ℂ) :
    amps o l α β = amps o' l α β ∘ places h := by
  funext i
  rcases i with i | i <;> rfl

variable {order order' : List Atom → List Atom} {lat : M3 ℝ} {pos : Atom → V3 ℝ} {spinVec : Atom → Option (V3 ℝ)}
  {s s' : St ℝ} {o o' : MagnonObj} {t t' : St ℝ} {items items' : List (Bond × ℕ)}

/-- The difference of the magnon matrices is positive semidefinite for all wave vectors of the supercell. -/
theorem posSemidef_of_stiffer (hord : ∀ l, (order l).Perm l) (h2 : ObjSpec order lat pos spinVec s o t items)
    (h2' : ObjSpec order' lat pos spinVec s' o' t' items') (hsym : MagnonObj.Symmetric t) (hsym' : MagnonObj.Symmetric t')
    (hat : t'.magneticAtoms order' = t.magneticAtoms order) {spin : Atom → ℝ} (hpos : ∀ a ∈ t.magneticAtoms order, 0 < spin a)
    (hnorm : ∀ a ∈ t.magneticAtoms order, ∀ v, spinVec a = some v → EnergyObj.norm3 v = spin a)
    (hhand : ∀ a ∈ t.magneticAtoms order, RightHanded (Frame.span ((spinVec a).getD 0)))
    (hphys : ∀ c : Config ℝ Γ, t.physics c spin = s.physics c spin)
    (hphys' : ∀ c : Config ℝ Γ, t'.physics c spin = s'.physics c spin) {τ : Cell →+ Γ}
    (hst : s.Stiffer s' spin (t.magneticAtoms order) (fun a => Frame.span ((spinVec a).getD 0) 2) τ) {χ : Γ → ℂ} {k : V3 ℝ}
    (hH : (o.callH t.cell k).1.IsHermitian) (hH' : (o'.callH t'.cell k).1.IsHermitian) (hb : Bloch lat k τ χ) (hN : o.N = o'.N) :
    ((o'.callH t'.cell k).1.submatrix (places hN) (places hN) - (o.callH t.cell k).1).PosSemidef := by
  have hform : ∀ α β, star (amps o (t.magneticAtoms order) α β) ⬝ᵥ
      (((o'.callH t'.cell k).1.submatrix (places hN) (places hN) - (o.callH t.cell k).1) *ᵥ amps o (t.magneticAtoms order) α β) =
      star (amps o' (t'.magneticAtoms order') α β) ⬝ᵥ ((o'.callH t'.cell k).1 *ᵥ amps o' (t'.magneticAtoms order') α β) -
      star (amps o (t.magneticAtoms order) α β) ⬝ᵥ ((o.callH t.cell k).1 *ᵥ amps o (t.magneticAtoms order) α β) := by
    intro α β
    rw [sub_mulVec, dotProduct_sub]
    congr 1
    rw [amps_places hN, form_places, hat]
  refine posSemidef_of_waves (frame := fun a => Frame.span ((spinVec a).getD 0)) (spin := spin) hord h2
    ((hH'.submatrix _).sub hH) hb (fun htwo α β => ?_) fun α β c hc hw => ?_
  · intro θ X Y
    have e1 := form_exchange h2 hsym hnorm hb htwo α β
    have e2 := form_exchange h2' hsym' (hat ▸ hnorm) hb htwo α β
    simp only [] at e1 e2
    simp only [X, Y, hform, θ]
    rw [e1, e2]
  · rw [hform, Complex.sub_re, sub_nonneg]
    obtain ⟨E0, E1, E3, E4, hE⟩ := energy_wave h2.flags lat pos (fun a => Frame.span ((spinVec a).getD 0)) (spin := spin)
      (fun p hp => ⟨hpos _ (h2.like_atoms hp).1, hpos _ (h2.like_atoms hp).2⟩) τ χ k α β
    obtain ⟨E0', E1', E3', E4', hE'⟩ := energy_wave h2'.flags lat pos (fun a => Frame.span ((spinVec a).getD 0)) (spin := spin)
      (fun p hp => ⟨hpos _ (hat ▸ (h2'.like_atoms hp).1), hpos _ (hat ▸ (h2'.like_atoms hp).2)⟩) τ χ k α β
    have h0 := wave_stiffer h2.flags h2'.flags hphys hphys' lat pos hhand hpos hst χ k α β hE hE'
    have h1 := second_form h2 hsym hpos hnorm hw
    have h1' := second_form h2' hsym' (hat ▸ hpos) (hat ▸ hnorm) hw
    simp only [] at h1 h1'
    have h3 := congrArg Complex.re h1
    have h3' := congrArg Complex.re h1'
    rw [Complex.ofReal_re, Complex.re_ofReal_mul] at h3 h3'
    rw [h3, h3'] at h0
    exact le_of_mul_le_mul_left h0 hc

theorem stiffer_everywhere (hord : ∀ l, (order l).Perm l) (h2 : ObjSpec order lat pos spinVec s o t items)
    (h2' : ObjSpec order' lat pos spinVec s' o' t' items') (hsym : MagnonObj.Symmetric t) (hsym' : MagnonObj.Symmetric t')
    (hat : t'.magneticAtoms order' = t.magneticAtoms order) {spin : Atom → ℝ}
    (hnorm : ∀ a ∈ t.magneticAtoms order, ∀ v, spinVec a = some v → EnergyObj.norm3 v = spin a) (hlat : lat.det ≠ 0) (hN : o.N = o'.N)
    (hH : ∀ k, (o.callH t.cell k).1.IsHermitian) (hH' : ∀ k, (o'.callH t'.cell k).1.IsHermitian)
    (h : ∀ n k χ, Bloch lat k (cube (n + 1)) χ →
      ((o'.callH t'.cell k).1.submatrix (places hN) (places hN) - (o.callH t.cell k).1).PosSemidef) (k : V3 ℝ) :
    ((o'.callH t'.cell k).1.submatrix (places hN) (places hN) - (o.callH t.cell k).1).PosSemidef := by
  refine posSemidef_of_amps h2 hord (((hH' k).submatrix _).sub (hH k)) fun α β => ?_
  obtain ⟨u, hu, hb⟩ := exists_cubes hlat k
  have hc : Continuous fun k => (star (amps o (t.magneticAtoms order) α β) ⬝ᵥ
      (((o'.callH t'.cell k).1.submatrix (places hN) (places hN) - (o.callH t.cell k).1) *ᵥ amps o (t.magneticAtoms order) α β)).re := by
    have c1 := form_continuous h2 hsym hnorm α β
    have c2 := form_continuous h2' hsym' (hat ▸ hnorm) α β
    refine (c2.sub c1).congr fun q => ?_
    rw [sub_mulVec, dotProduct_sub, Complex.sub_re, amps_places hN, form_places, hat]
    rfl
  refine ge_of_tendsto' ((hc.tendsto k).comp hu) fun n => ?_
  obtain ⟨χ, hχ⟩ := hb n
  exact (Complex.nonneg_iff.1 ((h n _ _ hχ).dotProduct_mulVec_nonneg _)).1

end Magnopy
