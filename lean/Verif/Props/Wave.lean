import Verif.Lemmas.WaveMatrix
import Verif.Props.Magnon
import Verif.Props.Frame
import Mathlib.Analysis.SpecialFunctions.Complex.CircleAddChar

/-!
# Property C59: the magnon matrix is the second-order part of the classical energy
-/

set_option autoImplicit false
set_option linter.unusedSectionVars false

namespace Magnopy

open PyDict Matrix Complex MagnonObj

variable {order : List Atom → List Atom} {lat : M3 ℝ} {pos : Atom → V3 ℝ} {spinVec : Atom → Option (V3 ℝ)}
  {s : St ℝ} {o : MagnonObj} {t : St ℝ} {items : List (Bond × ℕ)}

section

variable {Γ : Type*} [AddCommGroup Γ] [Fintype Γ]

/-- The second-order part of the energy. -/
noncomputable def second (lat : M3 ℝ) (pos : Atom → V3 ℝ) (frame : Atom → M3 ℝ) (spin : Atom → ℝ) (τ : Cell →+ Γ)
    (χ : Γ → ℂ) (k : V3 ℝ) (α β : Atom → ℂ) (p : Bond × M3 ℝ) : ℝ :=
  let z := fun a n => amplitude lat pos k χ α β a n
  let P := fun a => spin a • frame a 2
  let Q := fun a n => Real.sqrt (2 * spin a) • ((z a n).re • frame a 0 + (z a n).im • frame a 1)
  let W := fun a n => -(normSq (z a n)) • frame a 2
  ∑ n : Γ, (bilin (Q p.1.1 n) p.2 (Q p.1.2.1 (n + τ p.1.2.2)) + bilin (P p.1.1) p.2 (W p.1.2.1 (n + τ p.1.2.2)) +
    bilin (W p.1.1 n) p.2 (P p.1.2.1))

/-- The energy of a wave is a polynomial in its amplitude. -/
theorem energy_wave {t : St ℝ} (hn : t.getNotation = .ok (true, false, 1, 1)) (lat : M3 ℝ) (pos : Atom → V3 ℝ)
    (frame : Atom → M3 ℝ) {spin : Atom → ℝ} (hspin : ∀ p ∈ likeItems t, 0 < spin p.1.1 ∧ 0 < spin p.1.2.1) (τ : Cell →+ Γ) (χ : Γ → ℂ)
    (k : V3 ℝ) (α β : Atom → ℂ) :
    ∃ E0 E1 E3 E4 : ℝ, ∀ ε : ℝ, t.physics (wave lat pos frame spin τ χ k α β ε) spin =
      some (E0 + ε * E1 + ε ^ 2 * ((likeItems t).map (second lat pos frame spin τ χ k α β)).sum + ε ^ 3 * E3 + ε ^ 4 * E4) := by
  let z := fun a n => amplitude lat pos k χ α β a n
  let P := fun a => spin a • frame a 2
  let Q := fun a n => Real.sqrt (2 * spin a) • ((z a n).re • frame a 0 + (z a n).im • frame a 1)
  let W := fun a n => -(normSq (z a n)) • frame a 2
  refine ⟨((likeItems t).map fun p => ∑ n : Γ, bilin (P p.1.1) p.2 (P p.1.2.1)).sum,
    ((likeItems t).map fun p => ∑ n : Γ, (bilin (P p.1.1) p.2 (Q p.1.2.1 (n + τ p.1.2.2)) + bilin (Q p.1.1 n) p.2 (P p.1.2.1))).sum,
    ((likeItems t).map fun p => ∑ n : Γ, (bilin (Q p.1.1 n) p.2 (W p.1.2.1 (n + τ p.1.2.2)) +
      bilin (W p.1.1 n) p.2 (Q p.1.2.1 (n + τ p.1.2.2)))).sum,
    ((likeItems t).map fun p => ∑ n : Γ, bilin (W p.1.1 n) p.2 (W p.1.2.1 (n + τ p.1.2.2))).sum, fun ε => ?_⟩
  rw [energy_like hn, ← sum_expand]
  congr 2
  refine List.map_congr_left fun p hp => ?_
  simp only [second, Finset.mul_sum, ← Finset.sum_add_distrib]
  refine Finset.sum_congr rfl fun n _ => ?_
  simp only [wave]
  rw [tilted_parts _ (hspin p hp).1, tilted_parts _ (hspin p hp).2]
  exact bilin_expand _ _ _ _ _ _ _ _

/-- The transverse components of the spin of the atom `a`, as the coefficient of the phase. -/
noncomputable def spinor (frame : Atom → M3 ℝ) (spin : Atom → ℝ) (α β : Atom → ℂ) (a : Atom) : V3 ℂ :=
  ((Real.sqrt (spin a / 2) : ℝ) : ℂ) • (β a • (fun c => (frame a 0 c : ℂ) + I * (frame a 1 c : ℂ)) +
    α a • star (fun c => (frame a 0 c : ℂ) + I * (frame a 1 c : ℂ)))

/-- Sums over the cells of products of the waves, up to the factor `c`. -/
structure WaveSums (lat : M3 ℝ) (pos : Atom → V3 ℝ) (k : V3 ℝ) (τ : Cell →+ Γ) (χ : Γ → ℂ) (α β : Atom → ℂ)
    (frame : Atom → M3 ℝ) (spin : Atom → ℝ) (c : ℂ) : Prop extends Bloch lat k τ χ where
  bil : ∀ (a b : Atom) (J : M3 ℝ) (m : Γ),
    let F := spinor frame spin α β
    let θ := atomPhase lat pos k
    ∑ n, cbil ((χ n * θ a) • F a + star (χ n * θ a) • star (F a)) J
      ((χ (n + m) * θ b) • F b + star (χ (n + m) * θ b) • star (F b)) =
    c * (star (θ a) * θ b * χ m * cbil (star (F a)) J (F b) + star (star (θ a) * θ b * χ m) * cbil (F a) J (star (F b)))
  sq : ∀ a, ∑ n, ((normSq (amplitude lat pos k χ α β a n) : ℝ) : ℂ) = c * ((normSq (α a) : ℝ) + (normSq (β a) : ℝ) : ℂ)

theorem PlaneWave.sums {k : V3 ℝ} {τ : Cell →+ Γ} {χ : Γ → ℂ} (h : PlaneWave lat k τ χ) (pos : Atom → V3 ℝ)
    (α β : Atom → ℂ) (frame : Atom → M3 ℝ) (spin : Atom → ℝ) :
    WaveSums lat pos k τ χ α β frame spin (Fintype.card Γ) :=
  ⟨h.toBloch, fun _ _ _ _ => h.sum_bilin _ _ _ _ _ _ _ _,
    fun a => h.sum_normSq (atomPhase_unit lat pos k a) (α a) (β a)⟩

theorem StandingWave.sums {k : V3 ℝ} {τ : Cell →+ Γ} {χ : Γ → ℂ} {α β : Atom → ℂ}
    (h : StandingWave lat pos k τ χ α β) (frame : Atom → M3 ℝ) (spin : Atom → ℝ) :
    WaveSums lat pos k τ χ α β frame spin (2 * Fintype.card Γ) := by
  have hF : ∀ a, atomPhase lat pos k a • spinor frame spin α β a =
      star (atomPhase lat pos k a) • star (spinor frame spin α β a) := by
    intro a
    have h1 : α a * atomPhase lat pos k a = star (β a * atomPhase lat pos k a) := h.equal a
    have h2 : β a * atomPhase lat pos k a = star (α a * atomPhase lat pos k a) := by rw [h1, star_star]
    have hr : ∀ r : ℝ, star (r : ℂ) = (r : ℂ) := fun r => by rw [RCLike.star_def, Complex.conj_ofReal]
    funext c
    simp only [spinor, Pi.smul_apply, Pi.add_apply, Pi.star_apply, smul_eq_mul, star_mul', star_add, star_star, hr] at h1 h2 ⊢
    generalize star (I : ℂ) = I'
    linear_combination (Real.sqrt (spin a / 2) : ℂ) * ((frame a 0 c : ℂ) + I * (frame a 1 c : ℂ)) * h2 +
      (Real.sqrt (spin a / 2) : ℂ) * ((frame a 0 c : ℂ) + I' * (frame a 1 c : ℂ)) * h1
  exact ⟨h.toBloch, fun a b J m => h.toBloch.sum_bilin h.two _ _ _ _ _ _ _ _ (hF a) (hF b),
    fun a => h.toBloch.sum_normSq h.two (atomPhase_unit lat pos k a) (α a) (β a) (h.equal a)⟩

/-- The second-order part of one bond. -/
theorem second_eq {k : V3 ℝ} {τ : Cell →+ Γ} {χ : Γ → ℂ} {frame : Atom → M3 ℝ} {spin : Atom → ℝ} {α β : Atom → ℂ} {c : ℂ}
    (h : WaveSums lat pos k τ χ α β frame spin c) (p : Bond × M3 ℝ) (h1 : 0 < spin p.1.1) (h2 : 0 < spin p.1.2.1) :
    let u : Atom → V3 ℂ := fun a c => (frame a 0 c : ℂ) + I * (frame a 1 c : ℂ)
    let F : Atom → V3 ℂ := fun a => ((Real.sqrt (spin a / 2) : ℝ) : ℂ) • (β a • u a + α a • star (u a))
    let ν : Atom → ℂ := fun a => (normSq (α a) : ℝ) + (normSq (β a) : ℝ)
    let w := phase (-k) (vector lat pos p.1)
    ((second lat pos frame spin τ χ k α β p : ℝ) : ℂ) =
      c * (w * cbil (star (F p.1.1)) p.2 (F p.1.2.1) + star w * cbil (F p.1.1) p.2 (star (F p.1.2.1)) -
        (spin p.1.1 * ν p.1.2.1 + ν p.1.1 * spin p.1.2.1) * cbil (cvec (frame p.1.1 2)) p.2 (cvec (frame p.1.2.1 2))) := by
  intro u F ν w
  have hQ : ∀ a n, 0 < spin a → cvec (Real.sqrt (2 * spin a) • ((amplitude lat pos k χ α β a n).re • frame a 0 +
      (amplitude lat pos k χ α β a n).im • frame a 1)) =
      (χ n * atomPhase lat pos k a) • F a + star (χ n * atomPhase lat pos k a) • star (F a) := by
    intro a n ha
    have := transverse (frame a) ha (α a) (β a) (χ n * atomPhase lat pos k a)
    refine this.trans ?_
    have e : (fun c => (Real.sqrt (spin a / 2) : ℂ) * (β a * ((frame a 0 c : ℂ) + I * (frame a 1 c : ℂ)) +
        α a * ((frame a 0 c : ℂ) - I * (frame a 1 c : ℂ)))) = F a := by
      funext c
      simp only [F, u, Pi.smul_apply, Pi.add_apply, Pi.star_apply, smul_eq_mul]
      congr 3
      apply Complex.ext <;> simp
    rw [e]
  have hsum : ∀ a m, ∑ n : Γ, ((normSq (amplitude lat pos k χ α β a (n + m)) : ℝ) : ℂ) = c * ν a := by
    intro a m
    refine (Equiv.sum_comp (Equiv.addRight m) fun n => ((normSq (amplitude lat pos k χ α β a n) : ℝ) : ℂ)).trans ?_
    exact h.sq a
  have hPW : ∀ (a b : Atom) (x y : ℝ), ((bilin (x • frame a 2) p.2 (y • frame b 2) : ℝ) : ℂ) =
      (x * y : ℂ) * cbil (cvec (frame a 2)) p.2 (cvec (frame b 2)) := by
    intro a b x y
    rw [bilin_smul_smul, ← ofReal_bilin]
    push_cast
    ring
  unfold second
  simp only []
  rw [Complex.ofReal_sum]
  simp only [Complex.ofReal_add, hPW]
  rw [Finset.sum_add_distrib, Finset.sum_add_distrib, ← Finset.sum_mul, ← Finset.sum_mul, ← Finset.mul_sum, ← Finset.sum_mul]
  simp only [Complex.ofReal_neg, Finset.sum_neg_distrib]
  rw [hsum p.1.2.1]
  have h0 := hsum p.1.1 0
  simp only [add_zero] at h0
  rw [h0]
  have hq : ∑ n : Γ, ((bilin (Real.sqrt (2 * spin p.1.1) • ((amplitude lat pos k χ α β p.1.1 n).re • frame p.1.1 0 +
      (amplitude lat pos k χ α β p.1.1 n).im • frame p.1.1 1)) p.2 (Real.sqrt (2 * spin p.1.2.1) •
      ((amplitude lat pos k χ α β p.1.2.1 (n + τ p.1.2.2)).re • frame p.1.2.1 0 +
      (amplitude lat pos k χ α β p.1.2.1 (n + τ p.1.2.2)).im • frame p.1.2.1 1)) : ℝ) : ℂ) =
      c * (w * cbil (star (F p.1.1)) p.2 (F p.1.2.1) + star w * cbil (F p.1.1) p.2 (star (F p.1.2.1))) := by
    simp only [ofReal_bilin, hQ _ _ h1, hQ _ _ h2]
    refine (h.bil p.1.1 p.1.2.1 p.2 (τ p.1.2.2)).trans ?_
    rw [h.toBloch.phase pos p.1]
    rfl
  rw [hq]
  ring

theorem sum_lin {ι : Type*} (l : List ι) (c : ℂ) (f g h h' : ι → ℂ) :
    (l.map fun p => c * (f p + g p - (h p + h' p))).sum =
      c * ((l.map f).sum + (l.map g).sum - ((l.map h).sum + (l.map h').sum)) := by
  induction l with
  | nil => simp
  | cons a l ih => simp only [List.map_cons, List.sum_cons, ih]; ring

/-- The form of the magnon matrix as a sum over the terms of the private Hamiltonian. -/
theorem MagnonObj.ObjSpec.form_like (hI : ObjSpec order lat pos spinVec s o t items) (hs : MagnonObj.Symmetric t) {spin : Atom → ℝ}
    (hlen : ∀ a ∈ t.magneticAtoms order, ∀ v, spinVec a = some v → EnergyObj.norm3 v = spin a) (k : V3 ℝ) (α β : Atom → ℂ) :
    let frame : Atom → M3 ℝ := fun a => Frame.span ((spinVec a).getD 0)
    let u : Atom → V3 ℂ := fun a c => (frame a 0 c : ℂ) + I * (frame a 1 c : ℂ)
    let F : Atom → V3 ℂ := fun a => ((Real.sqrt (spin a / 2) : ℝ) : ℂ) • (β a • u a + α a • star (u a))
    let ν : Atom → ℂ := fun a => (normSq (α a) : ℝ) + (normSq (β a) : ℝ)
    let X : Fin o.N ⊕ Fin o.N → ℂ := Sum.elim (fun i => (t.magneticAtoms order)[(i : ℕ)]?.elim 0 α)
      fun i => (t.magneticAtoms order)[(i : ℕ)]?.elim 0 β
    star X ⬝ᵥ ((o.callH t.cell k).1 *ᵥ X) =
      2 * ((likeItems t).map fun p => phase (-k) (vector lat pos p.1) * cbil (star (F p.1.1)) p.2 (F p.1.2.1)).sum -
      2 * ((likeItems t).map fun p => ν p.1.1 * spin p.1.2.1 * cbil (cvec (frame p.1.1 2)) p.2 (cvec (frame p.1.2.1 2))).sum := by
  intro frame u F ν X
  set atoms := t.magneticAtoms order with hat
  obtain ⟨sv, hsv, hS⟩ := hI.S
  rw [← hat] at hsv hS
  have hsv' : ∀ a ∈ atoms, (spinVec a).getD 0 = sv a := fun a ha => by rw [hsv a ha]; rfl
  let x : ℕ → ℂ := fun i => atoms[i]?.elim 0 α
  let y : ℕ → ℂ := fun i => atoms[i]?.elim 0 β
  have hget : ∀ a ∈ atoms, atoms[atoms.idxOf a]? = some a := fun a ha => List.getElem?_idxOf ha
  have hSi : ∀ a ∈ atoms, o.S.getD (atoms.idxOf a) 0 = sv a := by
    intro a ha
    rw [hS]
    simp [List.getD, hget a ha]
  have hui : ∀ a ∈ atoms, o.u.getD (atoms.idxOf a) 0 = u a := by
    intro a ha
    rw [hI.u, hS]
    simp only [List.getD, List.getElem?_map, hget a ha, Option.map_some, Option.getD_some]
    funext c
    simp only [uOf, u, frame, hsv' a ha]
  have hvi : ∀ a ∈ atoms, o.v.getD (atoms.idxOf a) 0 = cvec (frame a 2) := by
    intro a ha
    rw [hI.v, hS]
    simp only [List.getD, List.getElem?_map, hget a ha, Option.map_some, Option.getD_some]
    funext c
    simp only [vOf, cvec, frame, hsv' a ha]
  have hn : ∀ a ∈ atoms, EnergyObj.norm3 (o.S.getD (atoms.idxOf a) 0) = spin a := by
    intro a ha
    rw [hSi a ha]; exact hlen a ha _ (hsv a ha)
  have hform := hI.form hs k x y
  simp only [] at hform
  rw [show star X ⬝ᵥ ((o.callH t.cell k).1 *ᵥ X) = _ from hform]
  have hC : ∑ i : Fin o.N, ((normSq (x i) : ℝ) + (normSq (y i) : ℝ) : ℂ) * o.freshC t.cell i i =
      ∑ i : Fin o.N, ∑ j : Fin o.N, (((normSq (x i) : ℝ) + (normSq (y i) : ℝ) : ℂ) • o.v.getD i 0) ⬝ᵥ
        (o.J t.cell 0 i j *ᵥ ((EnergyObj.norm3 (o.S.getD j 0) : ℂ) • o.v.getD j 0)) := by
    refine Finset.sum_congr rfl fun i _ => ?_
    rw [freshC, if_pos rfl, Finset.sum_range, Finset.mul_sum]
    refine Finset.sum_congr rfl fun j _ => ?_
    rw [smul_dotProduct, mulVec_smul, dotProduct_smul, smul_eq_mul, smul_eq_mul]
  rw [hC]
  have k1 := hI.sum_J 0 (fun i => ((normSq (x i) : ℝ) + (normSq (y i) : ℝ) : ℂ) • o.v.getD i 0)
    fun j => (EnergyObj.norm3 (o.S.getD j 0) : ℂ) • o.v.getD j 0
  have k2 := hI.sum_J (-k) (fun i => star (((Real.sqrt (EnergyObj.norm3 (o.S.getD i 0) / 2) : ℝ) : ℂ) •
      (y i • o.u.getD i 0 + x i • star (o.u.getD i 0)))) fun i => ((Real.sqrt (EnergyObj.norm3 (o.S.getD i 0) / 2) : ℝ) : ℂ) •
      (y i • o.u.getD i 0 + x i • star (o.u.getD i 0))
  beta_reduce at k1 k2
  rw [k1, k2, ← hat]
  have hX : ((likeItems t).map fun p => phase (-k) (vector lat pos p.1) * cbil
        (star (((Real.sqrt (EnergyObj.norm3 (o.S.getD (atoms.idxOf p.1.1) 0) / 2) : ℝ) : ℂ) •
      (y (atoms.idxOf p.1.1) • o.u.getD (atoms.idxOf p.1.1) 0 + x (atoms.idxOf p.1.1) • star (o.u.getD (atoms.idxOf p.1.1) 0)))) p.2
      (((Real.sqrt (EnergyObj.norm3 (o.S.getD (atoms.idxOf p.1.2.1) 0) / 2) : ℝ) : ℂ) •
      (y (atoms.idxOf p.1.2.1) • o.u.getD (atoms.idxOf p.1.2.1) 0 + x (atoms.idxOf p.1.2.1) • star (o.u.getD (atoms.idxOf p.1.2.1) 0)))) =
      (likeItems t).map fun p => phase (-k) (vector lat pos p.1) * cbil (star (F p.1.1)) p.2 (F p.1.2.1) := by
    refine List.map_congr_left fun p hp => ?_
    obtain ⟨ha, hb⟩ := hI.like_atoms hp
    simp only [hn _ ha, hn _ hb, hui _ ha, hui _ hb, x, y, hget _ ha, hget _ hb, Option.elim, F]
  have hY : ((likeItems t).map fun p => phase 0 (vector lat pos p.1) * cbil
        (((normSq (x (atoms.idxOf p.1.1)) : ℝ) + (normSq (y (atoms.idxOf p.1.1)) : ℝ) : ℂ) • o.v.getD (atoms.idxOf p.1.1) 0) p.2
        ((EnergyObj.norm3 (o.S.getD (atoms.idxOf p.1.2.1) 0) : ℂ) • o.v.getD (atoms.idxOf p.1.2.1) 0)) =
      (likeItems t).map fun p => ν p.1.1 * spin p.1.2.1 * cbil (cvec (frame p.1.1 2)) p.2 (cvec (frame p.1.2.1 2)) := by
    refine List.map_congr_left fun p hp => ?_
    obtain ⟨ha, hb⟩ := hI.like_atoms hp
    rw [cbil_smul_smul]
    simp only [hn _ hb, hvi _ ha, hvi _ hb, x, y, hget _ ha, Option.elim, ν, MagnonObj.phase, zero_dotProduct,
      Complex.ofReal_zero, mul_zero, Complex.exp_zero, one_mul]
  rw [hX, hY]

/-- The second-order part of the energy is the form of the magnon matrix. -/
theorem second_form (hI : ObjSpec order lat pos spinVec s o t items) (hs : MagnonObj.Symmetric t) {spin : Atom → ℝ}
    (hspin : ∀ a ∈ t.magneticAtoms order, 0 < spin a)
    (hlen : ∀ a ∈ t.magneticAtoms order, ∀ v, spinVec a = some v → EnergyObj.norm3 v = spin a) {k : V3 ℝ} {τ : Cell →+ Γ}
    {χ : Γ → ℂ} {α β : Atom → ℂ} {c : ℂ}
    (h : WaveSums lat pos k τ χ α β (fun a => Frame.span ((spinVec a).getD 0)) spin c) :
    let X : Fin o.N ⊕ Fin o.N → ℂ := Sum.elim (fun i => (t.magneticAtoms order)[(i : ℕ)]?.elim 0 α)
      fun i => (t.magneticAtoms order)[(i : ℕ)]?.elim 0 β
    ((((likeItems t).map (second lat pos (fun a => Frame.span ((spinVec a).getD 0)) spin τ χ k α β)).sum : ℝ) : ℂ) =
      c * (star X ⬝ᵥ ((o.callH t.cell k).1 *ᵥ X)) := by
  intro X
  have hform := hI.form_like hs hlen k α β
  set frame : Atom → M3 ℝ := fun a => Frame.span ((spinVec a).getD 0) with hfr
  let u : Atom → V3 ℂ := fun a c => (frame a 0 c : ℂ) + I * (frame a 1 c : ℂ)
  let F : Atom → V3 ℂ := fun a => ((Real.sqrt (spin a / 2) : ℝ) : ℂ) • (β a • u a + α a • star (u a))
  let ν : Atom → ℂ := fun a => (normSq (α a) : ℝ) + (normSq (β a) : ℝ)
  rw [show star X ⬝ᵥ ((o.callH t.cell k).1 *ᵥ X) = 2 * ((likeItems t).map fun p => phase (-k) (vector lat pos p.1) *
      cbil (star (F p.1.1)) p.2 (F p.1.2.1)).sum - 2 * ((likeItems t).map fun p => ν p.1.1 * spin p.1.2.1 *
      cbil (cvec (frame p.1.1 2)) p.2 (cvec (frame p.1.2.1 2))).sum from hform]
  have hT : (likeItems t).map (fun p => ((second lat pos frame spin τ χ k α β p : ℝ) : ℂ)) =
      (likeItems t).map fun p => c * (phase (-k) (vector lat pos p.1) * cbil (star (F p.1.1)) p.2 (F p.1.2.1) +
        star (phase (-k) (vector lat pos p.1)) * cbil (F p.1.1) p.2 (star (F p.1.2.1)) -
        (spin p.1.1 * ν p.1.2.1 * cbil (cvec (frame p.1.1 2)) p.2 (cvec (frame p.1.2.1 2)) +
          ν p.1.1 * spin p.1.2.1 * cbil (cvec (frame p.1.1 2)) p.2 (cvec (frame p.1.2.1 2)))) := by
    refine List.map_congr_left fun p hp => ?_
    obtain ⟨ha, hb⟩ := hI.like_atoms hp
    rw [second_eq h p (hspin _ ha) (hspin _ hb)]
    simp only [F, u, ν]
    ring
  have hcast : ∀ l : List (Bond × M3 ℝ), (((l.map (second lat pos frame spin τ χ k α β)).sum : ℝ) : ℂ) =
      (l.map fun p => ((second lat pos frame spin τ χ k α β p : ℝ) : ℂ)).sum := by
    intro l
    induction l with
    | nil => simp
    | cons a l ih => simp only [List.map_cons, List.sum_cons, Complex.ofReal_add, ih]
  rw [hcast, hT, sum_lin]
  have hX' : ((likeItems t).map fun p => star (phase (-k) (vector lat pos p.1)) * cbil (F p.1.1) p.2 (star (F p.1.2.1))).sum =
      ((likeItems t).map fun p => phase (-k) (vector lat pos p.1) * cbil (star (F p.1.1)) p.2 (F p.1.2.1)).sum := by
    rw [sum_like hI.inv.nodup hs]
    congr 1
    refine List.map_congr_left fun p _ => ?_
    rw [show p.1.mirror.1 = p.1.2.1 from rfl, show p.1.mirror.2.1 = p.1.1 from rfl, vector_mirror, phase_neg, phase_conj,
      cbil_transpose]
  have hY' : ((likeItems t).map fun p => spin p.1.1 * ν p.1.2.1 * cbil (cvec (frame p.1.1 2)) p.2 (cvec (frame p.1.2.1 2))).sum =
      ((likeItems t).map fun p => ν p.1.1 * spin p.1.2.1 * cbil (cvec (frame p.1.1 2)) p.2 (cvec (frame p.1.2.1 2))).sum := by
    rw [sum_like hI.inv.nodup hs]
    congr 1
    refine List.map_congr_left fun p _ => ?_
    rw [show p.1.mirror.1 = p.1.2.1 from rfl, show p.1.mirror.2.1 = p.1.1 from rfl, cbil_transpose]
    ring
  rw [hX', hY']
  ring

/-- C59 for all waves with the sums `WaveSums`. -/
theorem wave_expansion (hord : ∀ l, (order l).Perm l) (lat : M3 ℝ) (pos : Atom → V3 ℝ) {spin : Atom → ℝ}
    (hr : MagnonReady order spinVec s spin) (hs : s.OnSiteSymmetric)
    (hlen : ∀ a ∈ s.magneticAtoms order, ∀ v, spinVec a = some v → spin a = Real.sqrt (v ⬝ᵥ v)) :
    ∃ o t, ∃ frame : Atom → M3 ℝ, init order lat pos spinVec s = (.ok o, t) ∧ o.N = (s.magneticAtoms order).length ∧
      (∀ a ∈ s.magneticAtoms order, RightHanded (frame a) ∧
        ∃ v d, spinVec a = some v ∧ Directs d v ∧ ∀ i, |frame a 2 i - d i| ≤ 1 / 10 ^ 8) ∧
      ∀ (τ : Cell →+ Γ) (χ : Γ → ℂ) (k : V3 ℝ) (α β : Atom → ℂ) (c : ℂ), WaveSums lat pos k τ χ α β frame spin c →
        let x : Fin o.N ⊕ Fin o.N → ℂ := Sum.elim (fun i => (s.magneticAtoms order)[(i : ℕ)]?.elim 0 α)
          fun i => (s.magneticAtoms order)[(i : ℕ)]?.elim 0 β
        ∃ E0 E1 E2 E3 E4 : ℝ, (∀ ε : ℝ, s.physics (wave lat pos frame spin τ χ k α β ε) spin =
            some (E0 + ε * E1 + ε ^ 2 * E2 + ε ^ 3 * E3 + ε ^ 4 * E4)) ∧
          (E2 : ℂ) = c * (star x ⬝ᵥ ((o.callH t.cell k).1 *ᵥ x)) := by
  obtain ⟨o, t, items, h1, h2, h3⟩ := hr.ok (Γ := Γ) hord lat pos
  have hat := h3.magneticAtoms (order := order) hord hr.wf hr.complete
  have hsym := h3.symmetric hr.complete hs (St.getNotation_ok_iff.1 h2.flags).1
  have hmem : ∀ a ∈ s.magneticAtoms order, a ∈ s.atoms := by
    intro a ha
    rw [EnergyObj.mem_magneticAtoms hord] at ha
    rcases ha with ⟨b, hb, rfl | rfl⟩ | ha
    · exact (hr.wf.refer.exch b hb).1
    · exact (hr.wf.refer.exch b hb).2
    · exact hr.wf.refer.site a ha
  have hpos : ∀ a ∈ s.magneticAtoms order, 0 < spin a := by
    intro a ha
    obtain ⟨v, hv⟩ := Option.isSome_iff_exists.1 (hr.vectors a ha)
    have h0 := (hr.spins a (hmem a ha)).2
    rw [hlen a ha v hv] at h0 ⊢
    exact lt_of_le_of_ne (Real.sqrt_nonneg _) (Ne.symm h0)
  have hnorm : ∀ v : V3 ℝ, EnergyObj.norm3 v = Real.sqrt (v ⬝ᵥ v) := by
    intro v
    rw [← norm3_sq, Real.sqrt_sq (show 0 ≤ EnergyObj.norm3 v from Real.sqrt_nonneg _)]
  refine ⟨o, t, fun a => Frame.span ((spinVec a).getD 0), h1, by rw [h2.N, hat], fun a ha => ?_, fun τ χ k α β c hw => ?_⟩
  · obtain ⟨v, hv⟩ := Option.isSome_iff_exists.1 (hr.vectors a ha)
    have hv0 : v ≠ 0 := by
      rintro rfl
      have := hpos a ha
      rw [hlen a ha 0 hv] at this
      simp at this
    obtain ⟨f1, d, f2, _, f3⟩ := C42_frame v hv0
    simp only [hv, Option.getD_some]
    exact ⟨f1, v, d, rfl, f2, f3⟩
  · intro x
    rw [← hat] at hpos
    obtain ⟨E0, E1, E3, E4, hE⟩ := energy_wave h2.flags lat pos (fun a => Frame.span ((spinVec a).getD 0)) (spin := spin)
      (fun p hp => ⟨hpos _ (h2.like_atoms hp).1, hpos _ (h2.like_atoms hp).2⟩) τ χ k α β
    refine ⟨E0, E1, ((likeItems t).map (second lat pos (fun a => Frame.span ((spinVec a).getD 0)) spin τ χ k α β)).sum,
      E3, E4, fun ε => ?_, ?_⟩
    · rw [← h3.physics]; exact hE ε
    · have := second_form h2 hsym hpos (fun a ha v hv => by rw [hnorm, hlen a (by rw [← hat]; exact ha) v hv]) hw
      rw [hat] at this
      exact this

/-- **C59.** For a well-formed Hamiltonian in any notation, with spins of the lengths of the spin vectors: around the
state with every spin along the third vector of its local frame, the energy of a spin wave with the wave vector `k` and
the amplitudes `α`, `β` is `|Γ| x† h(k) x` in second order, where `|Γ|` is the number of cells and `x` are the
amplitudes of the magnetic atoms.  The frames are right-handed and along the spin vectors up to 1e-8.

As the equation holds for every `ε`, it determines the coefficients. -/
theorem C59_expansion (hord : ∀ l, (order l).Perm l) (lat : M3 ℝ) (pos : Atom → V3 ℝ) {spin : Atom → ℝ}
    (hr : MagnonReady order spinVec s spin) (hs : s.OnSiteSymmetric)
    (hlen : ∀ a ∈ s.magneticAtoms order, ∀ v, spinVec a = some v → spin a = Real.sqrt (v ⬝ᵥ v)) :
    ∃ o t frame, init order lat pos spinVec s = (.ok o, t) ∧ o.N = (s.magneticAtoms order).length ∧
      (∀ a ∈ s.magneticAtoms order, RightHanded (frame a) ∧
        ∃ v d, spinVec a = some v ∧ Directs d v ∧ ∀ i, |frame a 2 i - d i| ≤ 1 / 10 ^ 8) ∧
      ∀ (τ : Cell →+ Γ) (χ : Γ → ℂ) (k : V3 ℝ), PlaneWave lat k τ χ → ∀ α β : Atom → ℂ,
        let x : Fin o.N ⊕ Fin o.N → ℂ := Sum.elim (fun i => (s.magneticAtoms order)[(i : ℕ)]?.elim 0 α)
          fun i => (s.magneticAtoms order)[(i : ℕ)]?.elim 0 β
        ∃ E0 E1 E2 E3 E4 : ℝ, (∀ ε : ℝ, s.physics (wave lat pos frame spin τ χ k α β ε) spin =
            some (E0 + ε * E1 + ε ^ 2 * E2 + ε ^ 3 * E3 + ε ^ 4 * E4)) ∧
          (E2 : ℂ) = Fintype.card Γ * (star x ⬝ᵥ ((o.callH t.cell k).1 *ᵥ x)) := by
  obtain ⟨o, t, frame, h1, h2, h3, h4⟩ := wave_expansion (Γ := Γ) hord lat pos hr hs hlen
  exact ⟨o, t, frame, h1, h2, h3, fun τ χ k h α β => h4 τ χ k α β _ (h.sums pos α β frame spin)⟩

/-- **C59 for standing waves.** The same for `k` equivalent to `-k`, with twice the form. -/
theorem C59_standing (hord : ∀ l, (order l).Perm l) (lat : M3 ℝ) (pos : Atom → V3 ℝ) {spin : Atom → ℝ}
    (hr : MagnonReady order spinVec s spin) (hs : s.OnSiteSymmetric)
    (hlen : ∀ a ∈ s.magneticAtoms order, ∀ v, spinVec a = some v → spin a = Real.sqrt (v ⬝ᵥ v)) :
    ∃ o t frame, init order lat pos spinVec s = (.ok o, t) ∧ o.N = (s.magneticAtoms order).length ∧
      (∀ a ∈ s.magneticAtoms order, RightHanded (frame a) ∧
        ∃ v d, spinVec a = some v ∧ Directs d v ∧ ∀ i, |frame a 2 i - d i| ≤ 1 / 10 ^ 8) ∧
      ∀ (τ : Cell →+ Γ) (χ : Γ → ℂ) (k : V3 ℝ) (α β : Atom → ℂ), StandingWave lat pos k τ χ α β →
        let x : Fin o.N ⊕ Fin o.N → ℂ := Sum.elim (fun i => (s.magneticAtoms order)[(i : ℕ)]?.elim 0 α)
          fun i => (s.magneticAtoms order)[(i : ℕ)]?.elim 0 β
        ∃ E0 E1 E2 E3 E4 : ℝ, (∀ ε : ℝ, s.physics (wave lat pos frame spin τ χ k α β ε) spin =
            some (E0 + ε * E1 + ε ^ 2 * E2 + ε ^ 3 * E3 + ε ^ 4 * E4)) ∧
          (E2 : ℂ) = 2 * Fintype.card Γ * (star x ⬝ᵥ ((o.callH t.cell k).1 *ᵥ x)) := by
  obtain ⟨o, t, frame, h1, h2, h3, h4⟩ := wave_expansion (Γ := Γ) hord lat pos hr hs hlen
  exact ⟨o, t, frame, h1, h2, h3, fun τ χ k α β h => h4 τ χ k α β _ (h.sums frame spin)⟩

end

/-- In a right-handed frame the deviating spin is a unit vector up to terms of fourth order. -/
theorem tilted_length {e : M3 ℝ} (he : RightHanded e) {S : ℝ} (hS : 0 < S) (z : ℂ) (ε : ℝ) :
    tilted e S z ε ⬝ᵥ tilted e S z ε = 1 + ε ^ 4 * (normSq z / S) ^ 2 := by
  have h00 : e 0 ⬝ᵥ e 0 = 1 := by simpa using he.ortho 0 0
  have h11 : e 1 ⬝ᵥ e 1 = 1 := by simpa using he.ortho 1 1
  have h22 : e 2 ⬝ᵥ e 2 = 1 := by simpa using he.ortho 2 2
  have h01 : e 0 ⬝ᵥ e 1 = 0 := by simpa using he.ortho 0 1
  have h02 : e 0 ⬝ᵥ e 2 = 0 := by simpa using he.ortho 0 2
  have h12 : e 1 ⬝ᵥ e 2 = 0 := by simpa using he.ortho 1 2
  have hq : Real.sqrt (2 / S) ^ 2 = 2 / S := Real.sq_sqrt (by positivity)
  simp only [dotProduct, Fin.sum_univ_three] at h00 h11 h22 h01 h02 h12
  simp only [tilted, dotProduct, Fin.sum_univ_three, Pi.add_apply, Pi.sub_apply, Pi.smul_apply, smul_eq_mul, normSq_apply]
  generalize Real.sqrt (2 / S) = q at hq
  have e1 : (z.re * z.re + z.im * z.im) / S = (z.re * z.re + z.im * z.im) * q ^ 2 / 2 := by rw [hq]; ring
  rw [e1]
  linear_combination (ε ^ 2 * q ^ 2 * z.re ^ 2) * h00 + (ε ^ 2 * q ^ 2 * z.im ^ 2) * h11 +
    (1 - ε ^ 2 * ((z.re * z.re + z.im * z.im) * q ^ 2 / 2)) ^ 2 * h22 + 2 * ε ^ 2 * q ^ 2 * z.re * z.im * h01 +
    2 * (1 - ε ^ 2 * ((z.re * z.re + z.im * z.im) * q ^ 2 / 2)) * (ε * q * z.re * h02 + ε * q * z.im * h12)

namespace WaveExample

open HistoryExample FerroExample MagnonExample

/-- Three cells in a row. -/
def row : Cell →+ ZMod 3 := (Int.castAddHom (ZMod 3)).comp (AddMonoidHom.fst ℤ (ℤ × ℤ))

/-- A third of a reciprocal lattice vector. -/
noncomputable def k3 : V3 ℝ := ![2 * Real.pi / 3, 0, 0]

theorem planeWave : PlaneWave 1 k3 row fun n => ZMod.stdAddChar (N := 3) n := by
  refine ⟨⟨fun m n => AddChar.map_add_eq_mul _ m n, fun n => ?_, fun R => ?_⟩, ⟨1, ?_⟩⟩
  · rw [ZMod.stdAddChar_apply]
    exact Circle.norm_coe _
  · have : k3 ⬝ᵥ absolute 1 R.rel = 2 * Real.pi / 3 * R.1 := by
      simp [k3, absolute, Cell.rel, dotProduct, Fin.sum_univ_three, Matrix.one_apply]
    rw [this]
    show ZMod.stdAddChar (N := 3) ((R.1 : ℤ) : ZMod 3) = _
    rw [ZMod.stdAddChar_coe]
    congr 1
    push_cast
    ring
  · intro h
    have h2 : ZMod.stdAddChar (N := 3) (1 + 1) = ZMod.stdAddChar (N := 3) 0 := by
      rw [AddChar.map_add_eq_mul, AddChar.map_zero_eq_one, ← sq]; exact h
    exact absurd (ZMod.injective_stdAddChar h2) (by decide)

/-- Two cells in a row with opposite factors. -/
def row2 : Cell →+ ZMod 2 := (Int.castAddHom (ZMod 2)).comp (AddMonoidHom.fst ℤ (ℤ × ℤ))

/-- Half a reciprocal lattice vector. -/
noncomputable def k2 : V3 ℝ := ![2 * Real.pi / 2, 0, 0]

theorem standing (z : ℂ) : StandingWave 1 (fun _ => 0) k2 row2 (fun n => ZMod.stdAddChar (N := 2) n) (fun _ => z)
    fun _ => star z := by
  refine ⟨⟨fun m n => AddChar.map_add_eq_mul _ m n, fun n => ?_, fun R => ?_⟩, fun n => ?_, fun a => ?_⟩
  · rw [ZMod.stdAddChar_apply]
    exact Circle.norm_coe _
  · have : k2 ⬝ᵥ absolute 1 R.rel = 2 * Real.pi / 2 * R.1 := by
      simp [k2, absolute, Cell.rel, dotProduct, Fin.sum_univ_three, Matrix.one_apply]
    rw [this]
    show ZMod.stdAddChar (N := 2) ((R.1 : ℤ) : ZMod 2) = _
    rw [ZMod.stdAddChar_coe]
    congr 1
    push_cast
    ring
  · rw [sq, ← AddChar.map_add_eq_mul, CharTwo.add_self_eq_zero, AddChar.map_zero_eq_one]
  · have : k2 ⬝ᵥ absolute 1 (0 : V3 ℝ) = 0 := by simp [absolute, dotProduct]
    rw [this]
    simp

end WaveExample

open WaveExample MagnonExample FerroExample HistoryExample in
/-- C39, C40 and C59 apply to a chain with one atom per cell in any notation, e.g. SpinW's with other signs, and waves
over three cells. -/
example : ∃ o t frame, init id 1 (fun _ => 0) spinZ (st true true (-3) (-5) twice [(fe1, 2)]) = (.ok o, t) ∧ o.N = 1 ∧
    RightHanded (frame fe1) ∧ ∀ α β : Atom → ℂ, ∃ E0 E1 E2 E3 E4 : ℝ,
      (∀ ε : ℝ, (st true true (-3) (-5) twice [(fe1, 2)]).physics
        (wave 1 (fun _ => 0) frame (fun _ => 2) row (fun n => ZMod.stdAddChar (N := 3) n) k3 α β ε) (fun _ => 2) =
          some (E0 + ε * E1 + ε ^ 2 * E2 + ε ^ 3 * E3 + ε ^ 4 * E4)) := by
  obtain ⟨o, t, frame, h1, h2, h3, h4⟩ := C59_expansion (Γ := ZMod 3) (order := id) (fun _ => .refl _) 1 (fun _ => 0)
    (ready true (e := -3) (o := -5) (by norm_num) (by norm_num)) (symmetric true (-3) (-5)) (fun a _ v hv => length a v hv)
  refine ⟨o, t, frame, h1, by rw [h2, atoms_twice]; rfl, (h3 fe1 (by rw [atoms_twice]; simp)).1, fun α β => ?_⟩
  obtain ⟨E0, E1, E2, E3, E4, h5, _⟩ := h4 row _ k3 planeWave α β
  exact ⟨E0, E1, E2, E3, E4, h5⟩

open WaveExample MagnonExample FerroExample HistoryExample in
/-- Opposite tilts in neighbouring cells. -/
example (z : ℂ) : ∃ o t frame, init id 1 (fun _ => 0) spinZ (st true true (-3) (-5) twice [(fe1, 2)]) = (.ok o, t) ∧ o.N = 1 ∧
    ∃ E0 E1 E2 E3 E4 : ℝ, ∀ ε : ℝ, (st true true (-3) (-5) twice [(fe1, 2)]).physics
        (wave 1 (fun _ => 0) frame (fun _ => 2) row2 (fun n => ZMod.stdAddChar (N := 2) n) k2 (fun _ => z) (fun _ => star z) ε)
          (fun _ => 2) = some (E0 + ε * E1 + ε ^ 2 * E2 + ε ^ 3 * E3 + ε ^ 4 * E4) := by
  obtain ⟨o, t, frame, h1, h2, h3, h4⟩ := C59_standing (Γ := ZMod 2) (order := id) (fun _ => .refl _) 1 (fun _ => 0)
    (ready true (e := -3) (o := -5) (by norm_num) (by norm_num)) (symmetric true (-3) (-5)) (fun a _ v hv => length a v hv)
  obtain ⟨E0, E1, E2, E3, E4, h5, _⟩ := h4 row2 _ k2 _ _ (standing z)
  exact ⟨o, t, frame, h1, by rw [h2, atoms_twice]; rfl, E0, E1, E2, E3, E4, h5⟩

end Magnopy
