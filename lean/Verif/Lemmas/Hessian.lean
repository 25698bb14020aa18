import Verif.Lemmas.Minimum
import Mathlib.Analysis.Fourier.FiniteAbelian.PontryaginDuality

/-!
# Lemmas: the second-order energy of any deviations in a supercell, as a sum over the wave vectors
-/

set_option autoImplicit false
set_option linter.unusedSectionVars false

namespace Magnopy

open PyDict Matrix Complex MagnonObj
open scoped ComplexOrder

section

variable {Γ : Type*} [AddCommGroup Γ] [Fintype Γ]

/-! ### Fourier sums over the cells -/

theorem char_star (ψ : AddChar Γ ℂ) (n : Γ) : star (ψ n) = ψ (-n) := by
  rw [AddChar.map_neg_eq_inv, Complex.inv_def, Complex.normSq_eq_norm_sq, AddChar.norm_apply]
  simp

/-- Characters are orthogonal. -/
theorem char_orthogonal [DecidableEq (AddChar Γ ℂ)] (ψ φ : AddChar Γ ℂ) :
    ∑ n, star (ψ n) * φ n = if ψ = φ then (Fintype.card Γ : ℂ) else 0 := by
  have e : ∀ n, star (ψ n) * φ n = (φ - ψ) n := by
    intro n
    rw [char_star, AddChar.sub_apply, mul_comm]
  simp only [e]
  rw [AddChar.sum_eq_ite]
  simp only [sub_eq_zero, eq_comm (a := φ)]

theorem component_inversion (z : Γ → ℂ) (n : Γ) : z n = ∑ ψ : AddChar Γ ℂ, component z ψ * ψ n := by
  classical
  have hc : (Fintype.card Γ : ℂ) ≠ 0 := by exact_mod_cast Fintype.card_ne_zero
  have e : ∀ ψ : AddChar Γ ℂ, component z ψ * ψ n = (1 / Fintype.card Γ : ℂ) * ∑ m, z m * ψ (n - m) := by
    intro ψ
    rw [component, mul_assoc, Finset.sum_mul]
    congr 1
    refine Finset.sum_congr rfl fun m _ => ?_
    rw [char_star, mul_assoc, ← AddChar.map_add_eq_mul]
    congr 2
    abel
  simp only [e]
  rw [← Finset.mul_sum, Finset.sum_comm]
  simp only [← Finset.mul_sum, AddChar.sum_apply_eq_ite, sub_eq_zero]
  simp only [mul_ite, mul_zero, Finset.sum_ite_eq, Finset.mem_univ, if_true]
  field_simp

theorem component_inversion_star (z : Γ → ℂ) (n : Γ) : star (z n) = ∑ ψ : AddChar Γ ℂ, star (component z (-ψ)) * ψ n := by
  rw [component_inversion z n, star_sum, ← Equiv.sum_comp (Equiv.neg (AddChar Γ ℂ))]
  refine Finset.sum_congr rfl fun ψ _ => ?_
  rw [star_mul', char_star, Equiv.neg_apply, AddChar.neg_apply, neg_neg]

/-- Parseval's equation for two sums, one of them shifted. -/
theorem parseval (f g : AddChar Γ ℂ → ℂ) (m : Γ) :
    ∑ n, star (∑ ψ, ψ n * f ψ) * ∑ ψ, ψ (n + m) * g ψ = Fintype.card Γ * ∑ ψ : AddChar Γ ℂ, ψ m * (star (f ψ) * g ψ) := by
  classical
  have e : ∀ n, star (∑ ψ, ψ n * f ψ) * ∑ φ : AddChar Γ ℂ, φ (n + m) * g φ =
      ∑ ψ : AddChar Γ ℂ, ∑ φ : AddChar Γ ℂ, (star (ψ n) * φ n) * (φ m * (star (f ψ) * g φ)) := by
    intro n
    rw [star_sum, Finset.sum_mul]
    refine Finset.sum_congr rfl fun ψ _ => ?_
    rw [Finset.mul_sum]
    refine Finset.sum_congr rfl fun φ _ => ?_
    rw [star_mul', AddChar.map_add_eq_mul]
    ring
  simp only [e]
  rw [Finset.sum_comm, Finset.mul_sum]
  refine Finset.sum_congr rfl fun ψ _ => ?_
  rw [Finset.sum_comm]
  simp only [← Finset.sum_mul, char_orthogonal]
  simp only [ite_mul, zero_mul, Finset.sum_ite_eq, Finset.mem_univ, if_true]

theorem parseval_norm (z : Γ → ℂ) :
    ∑ n, ((normSq (z n) : ℝ) : ℂ) = Fintype.card Γ * ∑ ψ : AddChar Γ ℂ, ((normSq (component z ψ) : ℝ) : ℂ) := by
  have := parseval (component z) (component z) 0
  simp only [add_zero, AddChar.map_zero_eq_one, one_mul] at this
  have e : ∀ n, ∑ ψ : AddChar Γ ℂ, ψ n * component z ψ = z n := by
    intro n
    rw [component_inversion z n]
    exact Finset.sum_congr rfl fun ψ _ => mul_comm _ _
  simp only [e] at this
  simp only [Complex.normSq_eq_conj_mul_self, ← RCLike.star_def]
  exact this

/-- Parseval's equation for vectors. -/
theorem parseval_cbil (f g : AddChar Γ ℂ → V3 ℂ) (J : M3 ℝ) (m : Γ) :
    ∑ n, cbil (star (∑ ψ, ψ n • f ψ)) J (∑ ψ, ψ (n + m) • g ψ) =
      Fintype.card Γ * ∑ ψ : AddChar Γ ℂ, ψ m * cbil (star (f ψ)) J (g ψ) := by
  have e : ∀ n, cbil (star (∑ ψ : AddChar Γ ℂ, ψ n • f ψ)) J (∑ ψ : AddChar Γ ℂ, ψ (n + m) • g ψ) =
      ∑ i, ∑ j, (J i j : ℂ) * (star (∑ ψ : AddChar Γ ℂ, ψ n * f ψ i) * ∑ ψ : AddChar Γ ℂ, ψ (n + m) * g ψ j) := by
    intro n
    rw [cbil_eq]
    refine Finset.sum_congr rfl fun i _ => Finset.sum_congr rfl fun j _ => ?_
    simp only [Pi.star_apply, Finset.sum_apply, Pi.smul_apply, smul_eq_mul]
    ring
  simp only [e]
  refine Finset.sum_comm.trans ?_
  have e2 : ∀ i : Fin 3, ∑ n, ∑ j : Fin 3, (J i j : ℂ) * (star (∑ ψ : AddChar Γ ℂ, ψ n * f ψ i) *
      ∑ ψ : AddChar Γ ℂ, ψ (n + m) * g ψ j) =
      ∑ j, (J i j : ℂ) * (Fintype.card Γ * ∑ ψ : AddChar Γ ℂ, ψ m * (star (f ψ i) * g ψ j)) := by
    intro i
    rw [Finset.sum_comm]
    refine Finset.sum_congr rfl fun j _ => ?_
    rw [← Finset.mul_sum, parseval (fun ψ => f ψ i) fun ψ => g ψ j]
  simp only [e2]
  simp only [cbil_eq, Fin.sum_univ_three, Pi.star_apply, Finset.mul_sum]
  simp only [← Finset.sum_add_distrib]
  refine Finset.sum_congr rfl fun ψ _ => ?_
  ring

/-! ### The second-order energy -/

theorem list_finset_sum {ι κ M : Type*} [AddCommMonoid M] (l : List ι) (u : Finset κ) (f : κ → ι → M) :
    (l.map fun p => ∑ x ∈ u, f x p).sum = ∑ x ∈ u, (l.map (f x)).sum := by
  induction l with
  | nil => simp
  | cons a l ih => simp only [List.map_cons, List.sum_cons, ih, Finset.sum_add_distrib]

theorem list_cast_sum {ι : Type*} (l : List ι) (f : ι → ℝ) : (((l.map f).sum : ℝ) : ℂ) = (l.map fun p => ((f p : ℝ) : ℂ)).sum := by
  induction l with
  | nil => simp
  | cons a l ih => simp only [List.map_cons, List.sum_cons, Complex.ofReal_add, ih]

theorem list_mul_sum {ι : Type*} (l : List ι) (c : ℂ) (f : ι → ℂ) : (l.map fun p => c * f p).sum = c * (l.map f).sum := by
  induction l with
  | nil => simp
  | cons a l ih => simp only [List.map_cons, List.sum_cons, ih]; ring

/-- The second-order part of the energy of any deviations `z`. -/
noncomputable def secondZ (frame : Atom → M3 ℝ) (spin : Atom → ℝ) (τ : Cell →+ Γ) (z : Atom → Γ → ℂ) (p : Bond × M3 ℝ) : ℝ :=
  let P := fun a => spin a • frame a 2
  let Q := fun a n => Real.sqrt (2 * spin a) • ((z a n).re • frame a 0 + (z a n).im • frame a 1)
  let W := fun a n => -(normSq (z a n)) • frame a 2
  ∑ n : Γ, (bilin (Q p.1.1 n) p.2 (Q p.1.2.1 (n + τ p.1.2.2)) + bilin (P p.1.1) p.2 (W p.1.2.1 (n + τ p.1.2.2)) +
    bilin (W p.1.1 n) p.2 (P p.1.2.1))

/-- The amplitudes of the wave `ψ` in the deviations `z`. -/
noncomputable def waveA (θ : Atom → ℂ) (z : Atom → Γ → ℂ) (ψ : AddChar Γ ℂ) (a : Atom) : ℂ := component (z a) ψ * star (θ a)

noncomputable def waveB (θ : Atom → ℂ) (z : Atom → Γ → ℂ) (ψ : AddChar Γ ℂ) (a : Atom) : ℂ := star (component (z a) (-ψ)) * star (θ a)

theorem normSq_of_unit {x : ℂ} (h : star x * x = 1) : normSq x = 1 := by
  rw [RCLike.star_def, ← Complex.normSq_eq_conj_mul_self] at h
  exact_mod_cast h

/-- The sum of the squares of the amplitudes of the waves. -/
theorem sum_waves {θ : AddChar Γ ℂ → Atom → ℂ} (hθ : ∀ ψ a, star (θ ψ a) * θ ψ a = 1) (z : Atom → Γ → ℂ) (a : Atom) :
    (Fintype.card Γ : ℂ) / 2 * ∑ ψ : AddChar Γ ℂ, ((normSq (waveA (θ ψ) z ψ a) : ℝ) + (normSq (waveB (θ ψ) z ψ a) : ℝ) : ℂ) =
      ∑ n, ((normSq (z a n) : ℝ) : ℂ) := by
  have hs : ∀ w : ℂ, normSq (star w) = normSq w := fun w => Complex.normSq_conj w
  have e1 : ∀ ψ, normSq (waveA (θ ψ) z ψ a) = normSq (component (z a) ψ) := by
    intro ψ
    rw [waveA, map_mul, hs, normSq_of_unit (hθ ψ a), mul_one]
  have e2 : ∀ ψ, normSq (waveB (θ ψ) z ψ a) = normSq (component (z a) (-ψ)) := by
    intro ψ
    rw [waveB, map_mul, hs, hs, normSq_of_unit (hθ ψ a), mul_one]
  simp only [e1, e2]
  have e3 : ∑ ψ : AddChar Γ ℂ, ((normSq (component (z a) (-ψ)) : ℝ) : ℂ) = ∑ ψ : AddChar Γ ℂ, ((normSq (component (z a) ψ) : ℝ) : ℂ) :=
    Equiv.sum_comp (Equiv.neg (AddChar Γ ℂ)) fun ψ => ((normSq (component (z a) ψ) : ℝ) : ℂ)
  rw [Finset.sum_add_distrib, e3, parseval_norm (z a)]
  ring

variable {order : List Atom → List Atom} {lat : M3 ℝ} {pos : Atom → V3 ℝ} {spinVec : Atom → Option (V3 ℝ)}
  {s : St ℝ} {o : MagnonObj} {t : St ℝ} {items : List (Bond × ℕ)}

/-- The deviations as a sum over the waves. -/
theorem transverse_waves (e : M3 ℝ) {S : ℝ} (hS : 0 < S) {θ : AddChar Γ ℂ → ℂ} (hθ : ∀ ψ, star (θ ψ) * θ ψ = 1) (z : Γ → ℂ) (n : Γ) :
    cvec (Real.sqrt (2 * S) • ((z n).re • e 0 + (z n).im • e 1)) =
      ∑ ψ : AddChar Γ ℂ, ψ n • (θ ψ • (((Real.sqrt (S / 2) : ℝ) : ℂ) •
        ((star (component z (-ψ)) * star (θ ψ)) • (fun c => (e 0 c : ℂ) + I * (e 1 c : ℂ)) +
          (component z ψ * star (θ ψ)) • star (fun c => (e 0 c : ℂ) + I * (e 1 c : ℂ))))) := by
  have h := transverse e hS (z n) 0 1
  simp only [mul_one, zero_mul, star_zero, add_zero, one_smul, star_one, zero_add] at h
  rw [h]
  funext c
  simp only [Pi.add_apply, Pi.star_apply, Finset.sum_apply, Pi.smul_apply, smul_eq_mul, star_mul', star_add, star_sub]
  have hr : ∀ r : ℝ, star (r : ℂ) = (r : ℂ) := fun r => by rw [RCLike.star_def, Complex.conj_ofReal]
  have hI : star I = -I := Complex.conj_I
  simp only [hr, hI]
  have e1 : ∀ ψ : AddChar Γ ℂ, ψ n * (θ ψ * ((Real.sqrt (S / 2) : ℂ) * (star (component z (-ψ)) * star (θ ψ) * ((e 0 c : ℂ) + I * (e 1 c : ℂ)) +
      component z ψ * star (θ ψ) * ((e 0 c : ℂ) + -I * (e 1 c : ℂ))))) =
      star (component z (-ψ)) * ψ n * ((Real.sqrt (S / 2) : ℂ) * ((e 0 c : ℂ) + I * (e 1 c : ℂ))) +
      component z ψ * ψ n * ((Real.sqrt (S / 2) : ℂ) * ((e 0 c : ℂ) - I * (e 1 c : ℂ))) := by
    intro ψ
    linear_combination ψ n * (Real.sqrt (S / 2) : ℂ) * (star (component z (-ψ)) * ((e 0 c : ℂ) + I * (e 1 c : ℂ)) +
      component z ψ * ((e 0 c : ℂ) - I * (e 1 c : ℂ))) * hθ ψ
  simp only [e1]
  rw [Finset.sum_add_distrib, ← Finset.sum_mul, ← Finset.sum_mul, ← component_inversion, ← component_inversion_star]
  ring

/-- The second-order part of the energy of any deviations is the sum of the forms of the magnon matrices of all wave vectors
of the supercell. -/
theorem second_waves (hI : ObjSpec order lat pos spinVec s o t items) (hs : MagnonObj.Symmetric t) {spin : Atom → ℝ}
    (hspin : ∀ a ∈ t.magneticAtoms order, 0 < spin a)
    (hlen : ∀ a ∈ t.magneticAtoms order, ∀ v, spinVec a = some v → EnergyObj.norm3 v = spin a) {τ : Cell →+ Γ}
    {k : AddChar Γ ℂ → V3 ℝ} (hk : ∀ ψ : AddChar Γ ℂ, Bloch lat (k ψ) τ ψ) (z : Atom → Γ → ℂ) :
    ((((likeItems t).map (secondZ (fun a => Frame.span ((spinVec a).getD 0)) spin τ z)).sum : ℝ) : ℂ) =
      (Fintype.card Γ : ℂ) / 2 * ∑ ψ : AddChar Γ ℂ,
        let X := amps o (t.magneticAtoms order) (waveA (atomPhase lat pos (k ψ)) z ψ) (waveB (atomPhase lat pos (k ψ)) z ψ)
        star X ⬝ᵥ ((o.callH t.cell (k ψ)).1 *ᵥ X) := by
  set frame : Atom → M3 ℝ := fun a => Frame.span ((spinVec a).getD 0) with hfr
  set θ : AddChar Γ ℂ → Atom → ℂ := fun ψ => atomPhase lat pos (k ψ) with hθd
  have hθ : ∀ ψ a, star (θ ψ a) * θ ψ a = 1 := fun ψ a => atomPhase_unit lat pos (k ψ) a
  let u : Atom → V3 ℂ := fun a c => (frame a 0 c : ℂ) + I * (frame a 1 c : ℂ)
  let F : AddChar Γ ℂ → Atom → V3 ℂ := fun ψ a => ((Real.sqrt (spin a / 2) : ℝ) : ℂ) •
    (waveB (θ ψ) z ψ a • u a + waveA (θ ψ) z ψ a • star (u a))
  let ν : AddChar Γ ℂ → Atom → ℂ := fun ψ a => (normSq (waveA (θ ψ) z ψ a) : ℝ) + (normSq (waveB (θ ψ) z ψ a) : ℝ)
  let A : AddChar Γ ℂ → Bond × M3 ℝ → ℂ := fun ψ p =>
    phase (-k ψ) (vector lat pos p.1) * cbil (star (F ψ p.1.1)) p.2 (F ψ p.1.2.1)
  let B : AddChar Γ ℂ → Bond × M3 ℝ → ℂ := fun ψ p =>
    ν ψ p.1.1 * spin p.1.2.1 * cbil (cvec (frame p.1.1 2)) p.2 (cvec (frame p.1.2.1 2))
  let B' : AddChar Γ ℂ → Bond × M3 ℝ → ℂ := fun ψ p =>
    spin p.1.1 * ν ψ p.1.2.1 * cbil (cvec (frame p.1.1 2)) p.2 (cvec (frame p.1.2.1 2))
  have hPW : ∀ (J : M3 ℝ) (a b : Atom) (x y : ℝ), ((bilin (x • frame a 2) J (y • frame b 2) : ℝ) : ℂ) =
      (x * y : ℂ) * cbil (cvec (frame a 2)) J (cvec (frame b 2)) := by
    intro J a b x y
    rw [bilin_smul_smul, ← ofReal_bilin]
    push_cast
    ring
  have hstar : ∀ v : V3 ℝ, star (cvec v) = cvec v := fun v => funext fun c => by
    rw [Pi.star_apply, cvec, RCLike.star_def, Complex.conj_ofReal]
  have hp : ∀ p ∈ likeItems t, ((secondZ frame spin τ z p : ℝ) : ℂ) =
      (Fintype.card Γ : ℂ) / 2 * ∑ ψ : AddChar Γ ℂ, (2 * A ψ p - (B ψ p + B' ψ p)) := by
    intro p hp
    obtain ⟨ha, hb⟩ := hI.like_atoms hp
    have hQ : ∀ a ∈ t.magneticAtoms order, ∀ n, cvec (Real.sqrt (2 * spin a) • ((z a n).re • frame a 0 + (z a n).im • frame a 1)) =
        ∑ ψ : AddChar Γ ℂ, ψ n • (θ ψ a • F ψ a) := fun a ha n =>
      transverse_waves (frame a) (hspin a ha) (fun ψ => hθ ψ a) (z a) n
    have hq : ∑ n : Γ, ((bilin (Real.sqrt (2 * spin p.1.1) • ((z p.1.1 n).re • frame p.1.1 0 + (z p.1.1 n).im • frame p.1.1 1)) p.2
        (Real.sqrt (2 * spin p.1.2.1) • ((z p.1.2.1 (n + τ p.1.2.2)).re • frame p.1.2.1 0 +
          (z p.1.2.1 (n + τ p.1.2.2)).im • frame p.1.2.1 1)) : ℝ) : ℂ) = Fintype.card Γ * ∑ ψ : AddChar Γ ℂ, A ψ p := by
      have e : ∀ n, ((bilin (Real.sqrt (2 * spin p.1.1) • ((z p.1.1 n).re • frame p.1.1 0 + (z p.1.1 n).im • frame p.1.1 1)) p.2
        (Real.sqrt (2 * spin p.1.2.1) • ((z p.1.2.1 (n + τ p.1.2.2)).re • frame p.1.2.1 0 +
          (z p.1.2.1 (n + τ p.1.2.2)).im • frame p.1.2.1 1)) : ℝ) : ℂ) =
          cbil (star (∑ ψ : AddChar Γ ℂ, ψ n • (θ ψ p.1.1 • F ψ p.1.1))) p.2
            (∑ ψ : AddChar Γ ℂ, ψ (n + τ p.1.2.2) • (θ ψ p.1.2.1 • F ψ p.1.2.1)) := by
        intro n
        rw [ofReal_bilin, ← hQ _ ha, ← hQ _ hb, hstar]
      simp only [e]
      rw [parseval_cbil (fun ψ => θ ψ p.1.1 • F ψ p.1.1) fun ψ => θ ψ p.1.2.1 • F ψ p.1.2.1]
      congr 1
      refine Finset.sum_congr rfl fun ψ _ => ?_
      rw [star_smul, cbil_smul_smul, show A ψ p = phase (-k ψ) (vector lat pos p.1) * cbil (star (F ψ p.1.1)) p.2 (F ψ p.1.2.1) from rfl,
        ← (hk ψ).phase pos p.1]
      simp only [hθd]
      ring
    have hsum : ∀ a m, ∑ n : Γ, ((normSq (z a (n + m)) : ℝ) : ℂ) = (Fintype.card Γ : ℂ) / 2 * ∑ ψ : AddChar Γ ℂ, ν ψ a := by
      intro a m
      refine (Equiv.sum_comp (Equiv.addRight m) fun n => ((normSq (z a n) : ℝ) : ℂ)).trans ?_
      exact (sum_waves hθ z a).symm
    unfold secondZ
    simp only []
    rw [Complex.ofReal_sum]
    simp only [Complex.ofReal_add, hPW]
    rw [Finset.sum_add_distrib, Finset.sum_add_distrib, ← Finset.sum_mul, ← Finset.sum_mul, ← Finset.mul_sum, ← Finset.sum_mul]
    simp only [Complex.ofReal_neg, Finset.sum_neg_distrib]
    rw [hsum p.1.2.1, hq]
    have h0 := hsum p.1.1 0
    simp only [add_zero] at h0
    rw [h0]
    have eB : ∑ ψ : AddChar Γ ℂ, B ψ p = (∑ ψ : AddChar Γ ℂ, ν ψ p.1.1) *
        (spin p.1.2.1 * cbil (cvec (frame p.1.1 2)) p.2 (cvec (frame p.1.2.1 2))) := by
      rw [Finset.sum_mul]
      exact Finset.sum_congr rfl fun ψ _ => by simp only [B]; ring
    have eB' : ∑ ψ : AddChar Γ ℂ, B' ψ p = (∑ ψ : AddChar Γ ℂ, ν ψ p.1.2.1) *
        (spin p.1.1 * cbil (cvec (frame p.1.1 2)) p.2 (cvec (frame p.1.2.1 2))) := by
      rw [Finset.sum_mul]
      exact Finset.sum_congr rfl fun ψ _ => by simp only [B']; ring
    have eS : ∑ ψ : AddChar Γ ℂ, (B ψ p + B' ψ p) = ∑ ψ : AddChar Γ ℂ, B ψ p + ∑ ψ : AddChar Γ ℂ, B' ψ p := Finset.sum_add_distrib
    rw [Finset.sum_sub_distrib, eS, ← Finset.mul_sum, eB, eB']
    ring
  rw [list_cast_sum, List.map_congr_left hp, list_mul_sum, list_finset_sum]
  congr 1
  refine Finset.sum_congr rfl fun ψ _ => ?_
  have hform := hI.form_like hs hlen (k ψ) (waveA (θ ψ) z ψ) (waveB (θ ψ) z ψ)
  simp only [] at hform ⊢
  refine Eq.trans ?_ hform.symm
  have hY' : ((likeItems t).map (B' ψ)).sum = ((likeItems t).map (B ψ)).sum := by
    rw [sum_like hI.inv.nodup hs]
    congr 1
    refine List.map_congr_left fun p _ => ?_
    simp only [B, B']
    rw [show p.1.mirror.1 = p.1.2.1 from rfl, show p.1.mirror.2.1 = p.1.1 from rfl, cbil_transpose]
    ring
  have split : ∀ l : List (Bond × M3 ℝ), (l.map fun p => 2 * A ψ p - (B ψ p + B' ψ p)).sum =
      2 * (l.map (A ψ)).sum - ((l.map (B ψ)).sum + (l.map (B' ψ)).sum) := by
    intro l
    induction l with
    | nil => simp
    | cons a l ih => simp only [List.map_cons, List.sum_cons, ih]; ring
  rw [split, hY', ← two_mul]

end

end Magnopy
