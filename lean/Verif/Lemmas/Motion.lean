import Verif.Spec.Motion
import Verif.Lemmas.View
import Verif.Lemmas.Goldstone
import Mathlib.Analysis.Calculus.Deriv.Add
import Mathlib.Analysis.Calculus.Deriv.Mul
import Mathlib.Analysis.Calculus.Deriv.Pow
import Mathlib.Analysis.Calculus.Deriv.Star
import Verif.Lemmas.Collinear
import Mathlib.Analysis.SpecialFunctions.ExpDeriv

/-!
# Helper lemmas: the linearised equations of motion
-/

set_option autoImplicit false
set_option linter.unusedSectionVars false

namespace Magnopy

open PyDict Matrix Complex MagnonObj

variable {Γ : Type*} [AddCommGroup Γ] [Fintype Γ]

/-! ### The gradient -/

/-- The derivative of the energy by the vector of the atom `a` in the cell `n`; `σ` are the vectors. -/
noncomputable def gr (l : List (Bond × M3 ℝ)) (spin : Atom → ℝ) (τ : Cell →+ Γ) (σ : Atom → Γ → V3 ℝ) (a : Atom) (n : Γ) : V3 ℝ :=
  (l.map fun p => if p.1.1 = a then (2 * spin a * spin p.1.2.1) • (p.2 *ᵥ σ p.1.2.1 (n + τ p.1.2.2)) else 0).sum

theorem gr_parts (l : List (Bond × M3 ℝ)) (spin : Atom → ℝ) (τ : Cell →+ Γ) (σ0 σ1 σ2 : Atom → Γ → V3 ℝ) (x y : ℝ) (a : Atom) (n : Γ) :
    gr l spin τ (fun b m => σ0 b m + x • σ1 b m + y • σ2 b m) a n =
      gr l spin τ σ0 a n + x • gr l spin τ σ1 a n + y • gr l spin τ σ2 a n := by
  unfold gr
  induction l with
  | nil => simp
  | cons p l ih =>
    simp only [List.map_cons, List.sum_cons, ih]
    split_ifs
    · simp only [mulVec_add, mulVec_smul, smul_add, smul_comm (2 * spin a * spin p.1.2.1)]
      abel
    · simp only [zero_add]

theorem hasDerivAt_quadratic (x y z : ℝ) : HasDerivAt (fun δ : ℝ => x + δ * y + δ ^ 2 * z) y 0 := by
  have h1 : HasDerivAt (fun δ : ℝ => x + δ * y + δ ^ 2 * z) (0 + 1 * y + (2 : ℕ) * (0 : ℝ) ^ (2 - 1) * z) 0 :=
    ((hasDerivAt_const 0 x).add ((hasDerivAt_id 0).mul_const y)).add ((hasDerivAt_pow 2 0).mul_const z)
  simpa using h1

theorem gradient_like {t : St ℝ} (hn : t.getNotation = .ok (true, false, 1, 1)) (hk : t.KeysNodup) (hs : MagnonObj.Symmetric t)
    (spin : Atom → ℝ) (c : Config ℝ Γ) : t.Gradient spin c (gr (likeItems t) spin c.τ c.σ) := by
  classical
  intro a n v
  let X : Atom → Γ → V3 ℝ := fun b m => if b = a ∧ m = n then v else 0
  let f0 : Bond × M3 ℝ → ℝ := fun p => ∑ m : Γ, bilin (spin p.1.1 • c.σ p.1.1 m) p.2 (spin p.1.2.1 • c.σ p.1.2.1 (m + c.τ p.1.2.2))
  let fa : Bond × M3 ℝ → ℝ := fun p => ∑ m : Γ, bilin (spin p.1.1 • X p.1.1 m) p.2 (spin p.1.2.1 • c.σ p.1.2.1 (m + c.τ p.1.2.2))
  let fb : Bond × M3 ℝ → ℝ := fun p => ∑ m : Γ, bilin (spin p.1.1 • c.σ p.1.1 m) p.2 (spin p.1.2.1 • X p.1.2.1 (m + c.τ p.1.2.2))
  let f2 : Bond × M3 ℝ → ℝ := fun p => ∑ m : Γ, bilin (spin p.1.1 • X p.1.1 m) p.2 (spin p.1.2.1 • X p.1.2.1 (m + c.τ p.1.2.2))
  have hE : ∀ δ : ℝ, t.physics (c.moved a n (δ • v)) spin = some (((likeItems t).map f0).sum +
      δ * ((likeItems t).map fun p => fa p + fb p).sum + δ ^ 2 * ((likeItems t).map f2).sum) := by
    intro δ
    rw [energy_like hn, ← sum_quadratic]
    congr 2
    refine List.map_congr_left fun p _ => ?_
    have hσ : ∀ b m, (c.moved a n (δ • v)).σ b m = c.σ b m + δ • X b m := by
      intro b m
      simp only [Config.moved, X]
      split_ifs <;> simp
    simp only [hσ, f0, fa, fb, f2, ← Finset.sum_add_distrib, Finset.mul_sum]
    refine Finset.sum_congr rfl fun m _ => ?_
    simp only [show (c.moved a n (δ • v)).τ = c.τ from rfl, bilin, Fin.sum_univ_three, Pi.add_apply, Pi.smul_apply, smul_eq_mul]
    ring
  refine ⟨_, hE, ?_⟩
  have hfa : ∀ p, fa p = if p.1.1 = a then (spin a * spin p.1.2.1) * (v ⬝ᵥ (p.2 *ᵥ c.σ p.1.2.1 (n + c.τ p.1.2.2))) else 0 := by
    intro p
    simp only [fa, X]
    split_ifs with h
    · rw [Finset.sum_eq_single n]
      · simp only [h, and_self, if_true]
        rw [bilin_smul_smul, bilin_eq]
      · intro m _ hm
        rw [if_neg fun e => hm e.2, smul_zero, bilin_eq, zero_dotProduct]
      · simp
    · refine Finset.sum_eq_zero fun m _ => ?_
      rw [if_neg fun e => h e.1, smul_zero, bilin_eq, zero_dotProduct]
  have hfb : ((likeItems t).map fb).sum = ((likeItems t).map fa).sum := by
    rw [sum_like hk hs]
    congr 1
    refine List.map_congr_left fun p _ => ?_
    have hR : c.τ p.1.mirror.2.2 = - c.τ p.1.2.2 := by
      rw [← map_neg]; rfl
    show ∑ m : Γ, bilin (spin p.1.2.1 • c.σ p.1.2.1 m) p.2ᵀ (spin p.1.1 • X p.1.1 (m + c.τ p.1.mirror.2.2)) =
      ∑ m : Γ, bilin (spin p.1.1 • X p.1.1 m) p.2 (spin p.1.2.1 • c.σ p.1.2.1 (m + c.τ p.1.2.2))
    rw [← Equiv.sum_comp (Equiv.addRight (c.τ p.1.2.2))]
    refine Finset.sum_congr rfl fun m _ => ?_
    rw [hR, Equiv.coe_addRight, bilin_transpose', add_neg_cancel_right]
  have hsum : ((likeItems t).map fun p => fa p + fb p).sum = gr (likeItems t) spin c.τ c.σ a n ⬝ᵥ v := by
    rw [sum_add_list, hfb, gr]
    rw [show fa = _ from funext hfa]
    generalize likeItems t = l
    induction l with
    | nil => simp
    | cons p l ih =>
      simp only [List.map_cons, List.sum_cons, add_dotProduct]
      rw [← ih]
      split_ifs
      · rw [smul_dotProduct, smul_eq_mul, dotProduct_comm v]
        ring
      · simp
  rw [← hsum]
  exact hasDerivAt_quadratic _ _ _

theorem gradient_unique {s : St ℝ} {spin : Atom → ℝ} {c : Config ℝ Γ} {g g' : Atom → Γ → V3 ℝ} (h : s.Gradient spin c g)
    (h' : s.Gradient spin c g') : g = g' := by
  funext a n
  have key : ∀ v, g a n ⬝ᵥ v = g' a n ⬝ᵥ v := by
    intro v
    obtain ⟨E, h1, h2⟩ := h a n v
    obtain ⟨E', h1', h2'⟩ := h' a n v
    have : E = E' := by
      funext δ
      exact Option.some.inj ((h1 δ).symm.trans (h1' δ))
    subst this
    exact h2.unique h2'
  exact dotProduct_eq _ _ key

/-! ### Velocities -/

theorem hasDerivAt_oscillating (α : Atom → ℂ) (ω : ℂ) (a : Atom) (T : ℝ) :
    HasDerivAt (fun T => oscillating α ω T a) (-(I * ω) * oscillating α ω T a) T := by
  unfold oscillating
  have h1 : HasDerivAt (fun T : ℂ => -(I * ω * T)) (-(I * ω * 1)) (T : ℂ) := ((hasDerivAt_id (T : ℂ)).const_mul (I * ω)).neg
  have h2 := (h1.cexp.const_mul (α a)).comp_ofReal
  refine h2.congr_deriv ?_
  ring

/-- The velocity of the amplitude. -/
theorem hasDerivAt_amplitude (lat : M3 ℝ) (pos : Atom → V3 ℝ) (k : V3 ℝ) (χ : Γ → ℂ) (α β : Atom → ℂ) (ω : ℂ) (a : Atom) (n : Γ)
    (T : ℝ) : HasDerivAt (fun T => amplitude lat pos k χ (oscillating α ω T) (oscillating β ω T) a n)
      (amplitude lat pos k χ (fun b => -(I * ω) * oscillating α ω T b) (fun b => -(I * ω) * oscillating β ω T b) a n) T := by
  unfold amplitude
  exact ((hasDerivAt_oscillating α ω a T).mul_const _).add ((hasDerivAt_oscillating β ω a T).mul_const _).star

theorem hasDerivAt_re {f : ℝ → ℂ} {f' : ℂ} {T : ℝ} (h : HasDerivAt f f' T) : HasDerivAt (fun T => (f T).re) f'.re T :=
  Complex.reCLM.hasFDerivAt.comp_hasDerivAt T h

theorem hasDerivAt_im {f : ℝ → ℂ} {f' : ℂ} {T : ℝ} (h : HasDerivAt f f' T) : HasDerivAt (fun T => (f T).im) f'.im T :=
  Complex.imCLM.hasFDerivAt.comp_hasDerivAt T h

theorem hasDerivAt_tilted (e : M3 ℝ) (S ε : ℝ) {f : ℝ → ℂ} {f' : ℂ} {T : ℝ} (h : HasDerivAt f f' T) :
    HasDerivAt (fun T => tilted e S (f T) ε) ((ε * Real.sqrt (2 / S)) • (f'.re • e 0 + f'.im • e 1) -
      (ε ^ 2 * (2 * ((f T).re * f'.re + (f T).im * f'.im) / S)) • e 2) T := by
  have hr := hasDerivAt_re h
  have hi := hasDerivAt_im h
  have hn : HasDerivAt (fun T => normSq (f T)) (2 * ((f T).re * f'.re + (f T).im * f'.im)) T := by
    have h2 := (hr.mul hr).add (hi.mul hi)
    refine (h2.congr_deriv (by ring)).congr_of_eventuallyEq (Filter.Eventually.of_forall fun T => ?_)
    exact Complex.normSq_apply _
  unfold tilted
  have h3 := (((hr.smul_const (e 0)).add (hi.smul_const (e 1))).const_smul (ε * Real.sqrt (2 / S))).const_add (e 2)
  exact h3.sub (((hn.div_const S).const_mul (ε ^ 2)).smul_const (e 2))

/-! ### The linear part -/

theorem hasDerivAt_poly (r0 r1 r2 r3 r4 : V3 ℝ) :
    HasDerivAt (fun ε : ℝ => r0 + ε • r1 + ε ^ 2 • r2 + ε ^ 3 • r3 + ε ^ 4 • r4) r1 0 := by
  have h1 := ((((hasDerivAt_const (0 : ℝ) r0).add ((hasDerivAt_id (0 : ℝ)).smul_const r1)).add
    ((hasDerivAt_pow 2 (0 : ℝ)).smul_const r2)).add ((hasDerivAt_pow 3 (0 : ℝ)).smul_const r3)).add
    ((hasDerivAt_pow 4 (0 : ℝ)).smul_const r4)
  refine h1.congr_deriv ?_
  simp

theorem RightHanded.parts {e : M3 ℝ} (h : RightHanded e) (G : V3 ℝ) : G = (G ⬝ᵥ e 0) • e 0 + (G ⬝ᵥ e 1) • e 1 + (G ⬝ᵥ e 2) • e 2 := by
  funext d
  have key : ∀ c, G c * (e 0 c * e 0 d + e 1 c * e 1 d + e 2 c * e 2 d) = if c = d then G c else 0 := by
    intro c
    rw [h.columns c d]
    split_ifs <;> simp
  have hs : G 0 * (e 0 0 * e 0 d + e 1 0 * e 1 d + e 2 0 * e 2 d) + G 1 * (e 0 1 * e 0 d + e 1 1 * e 1 d + e 2 1 * e 2 d) +
      G 2 * (e 0 2 * e 0 d + e 1 2 * e 1 d + e 2 2 * e 2 d) = G d := by
    rw [key, key, key]
    fin_cases d <;> simp
  simp only [dotProduct, Fin.sum_univ_three, Pi.add_apply, Pi.smul_apply, smul_eq_mul]
  linear_combination -hs

theorem RightHanded.cross_last {e : M3 ℝ} (h : RightHanded e) (G : V3 ℝ) :
    crossProduct G (e 2) = (G ⬝ᵥ e 1) • e 0 - (G ⬝ᵥ e 0) • e 1 := by
  have h1 : crossProduct (e 0) (e 2) = -e 1 := by rw [← h.cycle.1, cross_anticomm]
  conv_lhs => rw [h.parts G]
  simp only [map_add, map_smul, LinearMap.add_apply, LinearMap.smul_apply, h1, h.cycle.2, cross_self, smul_zero, smul_neg, add_zero]
  abel

theorem RightHanded.perp_zero {e : M3 ℝ} (h : RightHanded e) (x y : ℝ) : x • e 0 + y • e 1 = 0 ↔ x = 0 ∧ y = 0 := by
  constructor
  · intro h0
    have h1 := congrArg (fun w => w ⬝ᵥ e 0) h0
    have h2 := congrArg (fun w => w ⬝ᵥ e 1) h0
    simp only [add_dotProduct, smul_dotProduct, h.ortho, zero_dotProduct] at h1 h2
    simp at h1 h2
    exact ⟨h1, h2⟩
  · rintro ⟨rfl, rfl⟩
    simp

/-- The first-order part of the equation of motion of one spin as an equation of complex numbers. -/
theorem linear_iff {e : M3 ℝ} (h : RightHanded e) {S : ℝ} (z z' : ℂ) (l : ℝ) (G : V3 ℝ) :
    S • (Real.sqrt (2 / S) • (z'.re • e 0 + z'.im • e 1)) - crossProduct (l • e 2) (Real.sqrt (2 / S) • (z.re • e 0 + z.im • e 1)) -
      crossProduct G (e 2) = 0 ↔
    I * (S * Real.sqrt (2 / S) : ℝ) * z' + (l * Real.sqrt (2 / S) : ℝ) * z - cvec G ⬝ᵥ cu e = 0 := by
  set q := Real.sqrt (2 / S) with hq
  have h2 : crossProduct (e 2) (e 1) = -e 0 := by rw [← h.cycle.2, cross_anticomm]
  have e1 : S • (q • (z'.re • e 0 + z'.im • e 1)) - crossProduct (l • e 2) (q • (z.re • e 0 + z.im • e 1)) - crossProduct G (e 2) =
      (S * q * z'.re + l * q * z.im - G ⬝ᵥ e 1) • e 0 + (S * q * z'.im - l * q * z.re + G ⬝ᵥ e 0) • e 1 := by
    rw [h.cross_last]
    simp only [map_add, map_smul, LinearMap.smul_apply, h.cycle.1, h2]
    module
  have e2 : cvec G ⬝ᵥ cu e = ((G ⬝ᵥ e 0 : ℝ) : ℂ) + I * ((G ⬝ᵥ e 1 : ℝ) : ℂ) := by
    simp only [dotProduct, cvec, cu, Fin.sum_univ_three]
    push_cast
    ring
  rw [e1, h.perp_zero, e2, Complex.ext_iff]
  simp
  constructor
  · rintro ⟨h1, h2⟩
    constructor <;> linarith
  · rintro ⟨h1, h2⟩
    constructor <;> linarith

/-! ### Rows of the matrix -/

section Rows

variable {order : List Atom → List Atom} {lat : M3 ℝ} {pos : Atom → V3 ℝ} {spinVec : Atom → Option (V3 ℝ)}
  {s : St ℝ} {o : MagnonObj} {t : St ℝ} {items : List (Bond × ℕ)}

theorem ObjSpec.row (h : ObjSpec order lat pos spinVec s o t items) (hs : MagnonObj.Symmetric t) (k : V3 ℝ) (x y : ℕ → ℂ)
    (i : Fin o.N) :
    let r : ℕ → ℂ := fun i => ((Real.sqrt (EnergyObj.norm3 (o.S.getD i 0) / 2) : ℝ) : ℂ)
    let F : ℕ → V3 ℂ := fun i => r i • (y i • o.u.getD i 0 + x i • star (o.u.getD i 0))
    let X : Fin o.N ⊕ Fin o.N → ℂ := Sum.elim (fun i => x i) fun i => y i
    ((o.callH t.cell k).1 *ᵥ X) (.inl i) = 2 * r i * (∑ j : Fin o.N, o.u.getD i 0 ⬝ᵥ (o.J t.cell (-k) i j *ᵥ F j)) -
      2 * o.freshC t.cell i i * x i ∧
    ((o.callH t.cell k).1 *ᵥ X) (.inr i) = 2 * r i * (∑ j : Fin o.N, star (o.u.getD i 0) ⬝ᵥ (o.J t.cell (-k) i j *ᵥ F j)) -
      2 * o.freshC t.cell i i * y i := by
  intro r F X
  have hroot : ∀ i j, o.root i j = r i * r j := fun i j => root_eq o i j
  have h1 : ∀ j, o.A t.cell k i j * x j + o.B t.cell k i j * y j = r i * (o.u.getD i 0 ⬝ᵥ (o.J t.cell (-k) i j *ᵥ F j)) := by
    intro j
    simp only [A, B, F, hroot, mulVec_smul, mulVec_add, dotProduct_smul, dotProduct_add, smul_eq_mul]
    ring
  have h1' : ∀ j : ℕ, star (o.B t.cell k j i) * x j + star (o.A t.cell (-k) i j) * y j =
      r i * (star (o.u.getD i 0) ⬝ᵥ (o.J t.cell (-k) i j *ᵥ F j)) := by
    intro j
    rw [← Magnopy.MagnonObj.ObjSpec.B_transpose h hs k j i, B_neg_star, A_neg_star]
    simp only [F, hroot, mulVec_smul, mulVec_add, dotProduct_smul, dotProduct_add, smul_eq_mul]
    ring
  have h2 : ∀ (M : Matrix (Fin o.N) (Fin o.N) ℂ) (i j : Fin o.N), (2 • M) i j = 2 * M i j := fun M i j => by
    rw [two_smul, two_mul]; rfl
  have hC : ∀ (z : Fin o.N → ℂ), ∑ j : Fin o.N, o.freshC t.cell i j * z j = o.freshC t.cell i i * z i := by
    intro z
    rw [Finset.sum_eq_single i]
    · intro j _ hj
      have : o.freshC t.cell i j = 0 := by
        unfold freshC
        exact if_neg fun e => hj (Fin.ext e.symm)
      rw [this, zero_mul]
    · simp
  rw [callH_fresh _ h.C, fromBlocks_mulVec, Sum.elim_inl, Sum.elim_inr]
  constructor
  · have := hC fun j => x j
    simp only [mul_assoc, Finset.mul_sum, ← h1]
    simp only [mulVec, dotProduct, Pi.add_apply, Matrix.sub_apply, h2, block, of_apply, sub_mul, Finset.sum_sub_distrib,
      Function.comp, X, Sum.elim_inl, Sum.elim_inr, mul_assoc, ← Finset.mul_sum, this, Finset.sum_add_distrib]
    ring
  · have := hC fun j => y j
    simp only [mul_assoc, Finset.mul_sum, ← h1']
    simp only [mulVec, dotProduct, Pi.add_apply, Matrix.sub_apply, h2, block, of_apply, sub_mul, Finset.sum_sub_distrib,
      Function.comp, X, Sum.elim_inl, Sum.elim_inr, mul_assoc, ← Finset.mul_sum, this, Finset.sum_add_distrib,
      conjTranspose_apply, Matrix.map_apply]
    ring

/-- One row of sums over pairs. -/
theorem ObjSpec.sum_row (h : ObjSpec order lat pos spinVec s o t items) (hord : ∀ l, (order l).Perm l) (k : V3 ℝ) (i : Fin o.N)
    (f : V3 ℂ) (g : ℕ → V3 ℂ) :
    ∑ j : Fin o.N, f ⬝ᵥ (o.J t.cell k i j *ᵥ g j) =
      ((likeItems t).map fun p => if p.1.1 = atomAt o (t.magneticAtoms order) i then phase k (vector lat pos p.1) *
        cbil f p.2 (g ((t.magneticAtoms order).idxOf p.1.2.1)) else 0).sum := by
  have h1 := Magnopy.MagnonObj.ObjSpec.sum_J h k (fun m => if m = i then f else 0) g
  rw [Finset.sum_eq_single i] at h1
  · simp only [if_true] at h1
    rw [h1]
    congr 1
    refine List.map_congr_left fun p hp => ?_
    have := idxOf_eq h hord (h.like_atoms hp).1 i
    by_cases hc : p.1.1 = atomAt o (t.magneticAtoms order) i
    · rw [if_pos hc, if_pos (this.2 hc)]
    · rw [if_neg hc, if_neg fun e => hc (this.1 e)]
      simp [cbil]
  · intro j _ hj
    refine Finset.sum_eq_zero fun m _ => ?_
    rw [if_neg fun e => hj (Fin.ext e), zero_dotProduct]
  · simp

/-- The rows of `h(k)` as sums over the terms of the private Hamiltonian. -/
theorem ObjSpec.row_like (h : ObjSpec order lat pos spinVec s o t items) (hord : ∀ l, (order l).Perm l) (hs : MagnonObj.Symmetric t)
    {spin : Atom → ℝ} (hspin : ∀ a ∈ t.magneticAtoms order, 0 < spin a)
    (hlen : ∀ a ∈ t.magneticAtoms order, ∀ v, spinVec a = some v → EnergyObj.norm3 v = spin a) (k : V3 ℝ) (α β : Atom → ℂ)
    (i : Fin o.N) :
    let frame : Atom → M3 ℝ := fun a => Frame.span ((spinVec a).getD 0)
    let a := atomAt o (t.magneticAtoms order) i
    let F := spinor frame spin α β
    let r : ℂ := ((Real.sqrt (spin a / 2) : ℝ) : ℂ)
    let C : ℝ := ((likeItems t).map fun p => if p.1.1 = a then spin p.1.2.1 * bilin (frame a 2) p.2 (frame p.1.2.1 2) else 0).sum
    let X : Fin o.N ⊕ Fin o.N → ℂ := Sum.elim (fun i => (t.magneticAtoms order)[(i : ℕ)]?.elim 0 α)
      fun i => (t.magneticAtoms order)[(i : ℕ)]?.elim 0 β
    ((o.callH t.cell k).1 *ᵥ X) (.inl i) = 2 * r * ((likeItems t).map fun p => if p.1.1 = a then
        phase (-k) (vector lat pos p.1) * cbil (cu (frame a)) p.2 (F p.1.2.1) else 0).sum - 2 * C * α a ∧
    ((o.callH t.cell k).1 *ᵥ X) (.inr i) = 2 * r * ((likeItems t).map fun p => if p.1.1 = a then
        phase (-k) (vector lat pos p.1) * cbil (star (cu (frame a))) p.2 (F p.1.2.1) else 0).sum - 2 * C * β a := by
  intro frame a F r C X
  set atoms := t.magneticAtoms order with hat
  have hv := ObjSpec.view h hord hs hspin hlen
  rw [← hat] at hv
  let x : ℕ → ℂ := fun i => atoms[i]?.elim 0 α
  let y : ℕ → ℂ := fun i => atoms[i]?.elim 0 β
  obtain ⟨h1, h2⟩ := ObjSpec.row h hs k x y i
  have hget := atomAt_get h hord i
  rw [← hat] at hget
  have hxi : x i = α a := by simp only [x, hget, Option.elim]; rfl
  have hyi : y i = β a := by simp only [y, hget, Option.elim]; rfl
  have hF : ∀ p ∈ likeItems t, ((Real.sqrt (EnergyObj.norm3 (o.S.getD (atoms.idxOf p.1.2.1) 0) / 2) : ℝ) : ℂ) •
      (y (atoms.idxOf p.1.2.1) • o.u.getD (atoms.idxOf p.1.2.1) 0 + x (atoms.idxOf p.1.2.1) • star (o.u.getD (atoms.idxOf p.1.2.1) 0)) =
      F p.1.2.1 := by
    intro p hp
    have hb := (h.like_atoms hp).2
    obtain ⟨j, hj⟩ := atomAt_exists h hord hb
    have hi := (idxOf_eq h hord hb j).2 hj.symm
    have hgj := atomAt_get h hord j
    rw [← hat] at hi hgj hj
    rw [hi, hv.S, hv.u, hj]
    simp only [x, y, hgj, hj, Option.elim]
    rfl
  have hC : o.freshC t.cell i i = (C : ℂ) := by
    rw [hv.C0]
    congr 1
    have := sum_second h hord (fun b => spin b • frame b 2) a
    rw [← hat] at this
    simp only [mulVec_smul] at this
    show frame a 2 ⬝ᵥ ∑ j, spin (atomAt o atoms j) • (total t a (atomAt o atoms j) *ᵥ frame (atomAt o atoms j) 2) = C
    rw [this]
    simp only [C]
    generalize likeItems t = l
    induction l with
    | nil => simp
    | cons p l ih =>
      simp only [List.map_cons, List.sum_cons, dotProduct_add, ih]
      split_ifs
      · rw [bilin_eq, dotProduct_smul, smul_eq_mul]
      · simp
  have hsum : ∀ f : V3 ℂ, ∑ j : Fin o.N, f ⬝ᵥ (o.J t.cell (-k) i j *ᵥ
      (((Real.sqrt (EnergyObj.norm3 (o.S.getD j 0) / 2) : ℝ) : ℂ) • (y j • o.u.getD j 0 + x j • star (o.u.getD j 0)))) =
      ((likeItems t).map fun p => if p.1.1 = a then phase (-k) (vector lat pos p.1) * cbil f p.2 (F p.1.2.1) else 0).sum := by
    intro f
    rw [ObjSpec.sum_row h hord (-k) i f fun j => ((Real.sqrt (EnergyObj.norm3 (o.S.getD j 0) / 2) : ℝ) : ℂ) •
      (y j • o.u.getD j 0 + x j • star (o.u.getD j 0)), ← hat]
    congr 1
    refine List.map_congr_left fun p hp => ?_
    rw [hF p hp]
  have hr : EnergyObj.norm3 (o.S.getD i 0) = spin a := hv.S i
  have hu : o.u.getD i 0 = cu (frame a) := hv.u i
  beta_reduce at h1 h2
  rw [hsum, hr, hu, hC, hxi] at h1
  rw [hsum, hr, hu, hC, hyi] at h2
  exact ⟨h1, h2⟩

/-! ### The field of a wave -/

theorem field_wave {τ : Cell →+ Γ} {χ : Γ → ℂ} {k : V3 ℝ} (hb : Bloch lat k τ χ) (pos : Atom → V3 ℝ) {spin : Atom → ℝ}
    {l : List (Bond × M3 ℝ)} (hl : ∀ p ∈ l, 0 < spin p.1.2.1) (frame : Atom → M3 ℝ) (α β : Atom → ℂ) (a : Atom) (n : Γ) (u : V3 ℂ) :
    let z := fun b m => amplitude lat pos k χ α β b m
    let Z := χ n * atomPhase lat pos k a
    let F := spinor frame spin α β
    cvec (gr l spin τ (fun b m => Real.sqrt (2 / spin b) • ((z b m).re • frame b 0 + (z b m).im • frame b 1)) a n) ⬝ᵥ u =
      2 * spin a * (Z * (l.map fun p => if p.1.1 = a then phase (-k) (vector lat pos p.1) * cbil u p.2 (F p.1.2.1) else 0).sum +
        star (Z * (l.map fun p => if p.1.1 = a then phase (-k) (vector lat pos p.1) * cbil (star u) p.2 (F p.1.2.1) else 0).sum)) := by
  intro z Z F
  unfold gr
  induction l with
  | nil => simp [cvec, dotProduct]
  | cons p l ih =>
    have ih := ih fun q hq => hl q (List.mem_cons_of_mem _ hq)
    have hS := hl p List.mem_cons_self
    have hadd : ∀ v w : V3 ℝ, cvec (v + w) ⬝ᵥ u = cvec v ⬝ᵥ u + cvec w ⬝ᵥ u := by
      intro v w
      simp only [cvec, dotProduct, Fin.sum_univ_three, Pi.add_apply]
      push_cast
      ring
    simp only [List.map_cons, List.sum_cons]
    rw [hadd, ih]
    split_ifs with hc
    · have hq : spin p.1.2.1 * Real.sqrt (2 / spin p.1.2.1) = Real.sqrt (2 * spin p.1.2.1) := by
        have : (2 * spin p.1.2.1 : ℝ) = spin p.1.2.1 ^ 2 * (2 / spin p.1.2.1) := by field_simp
        rw [this, Real.sqrt_mul (sq_nonneg _), Real.sqrt_sq hS.le]
      have htr := transverse (frame p.1.2.1) hS (α p.1.2.1) (β p.1.2.1) (χ (n + τ p.1.2.2) * atomPhase lat pos k p.1.2.1)
      have hF : (fun c => (Real.sqrt (spin p.1.2.1 / 2) : ℂ) * (β p.1.2.1 * ((frame p.1.2.1 0 c : ℂ) + I * (frame p.1.2.1 1 c : ℂ)) +
          α p.1.2.1 * ((frame p.1.2.1 0 c : ℂ) - I * (frame p.1.2.1 1 c : ℂ)))) = F p.1.2.1 := by
        funext c
        simp only [F, spinor, Pi.smul_apply, Pi.add_apply, Pi.star_apply, smul_eq_mul]
        congr 3
        apply Complex.ext <;> simp
      rw [hF] at htr
      have hZ : χ (n + τ p.1.2.2) * atomPhase lat pos k p.1.2.1 = Z * phase (-k) (vector lat pos p.1) := by
        rw [← hb.phase pos p.1, hb.add, hc]
        have := atomPhase_unit lat pos k a
        simp only [Z]
        linear_combination -(χ n * χ (τ p.1.2.2) * atomPhase lat pos k p.1.2.1) * this
      have h1 : cvec ((2 * spin a * spin p.1.2.1) • (p.2 *ᵥ (Real.sqrt (2 / spin p.1.2.1) •
          ((z p.1.2.1 (n + τ p.1.2.2)).re • frame p.1.2.1 0 + (z p.1.2.1 (n + τ p.1.2.2)).im • frame p.1.2.1 1)))) ⬝ᵥ u =
          2 * spin a * cbil u p.2 (cvec (Real.sqrt (2 * spin p.1.2.1) •
          ((z p.1.2.1 (n + τ p.1.2.2)).re • frame p.1.2.1 0 + (z p.1.2.1 (n + τ p.1.2.2)).im • frame p.1.2.1 1))) := by
        rw [← hq, cbil, cvec_mulVec]
        generalize ((z p.1.2.1 (n + τ p.1.2.2)).re • frame p.1.2.1 0 + (z p.1.2.1 (n + τ p.1.2.2)).im • frame p.1.2.1 1) = w
        simp only [mulVec_smul, dotProduct, cvec, Pi.smul_apply, smul_eq_mul, Fin.sum_univ_three]
        push_cast
        ring
      rw [h1, show cvec (Real.sqrt (2 * spin p.1.2.1) • ((z p.1.2.1 (n + τ p.1.2.2)).re • frame p.1.2.1 0 +
        (z p.1.2.1 (n + τ p.1.2.2)).im • frame p.1.2.1 1)) = _ from htr, hZ]
      have h2 : ∀ (x y : ℂ) (v w : V3 ℂ), cbil u p.2 (x • v + y • w) = x * cbil u p.2 v + y * cbil u p.2 w := by
        intro x y v w
        simp only [cbil, mulVec_add, mulVec_smul, dotProduct_add, dotProduct_smul, smul_eq_mul]
      have h3 : star (cbil (star u) p.2 (F p.1.2.1)) = cbil u p.2 (star (F p.1.2.1)) := by rw [cbil_star, star_star]
      rw [h2]
      simp only [star_mul', star_add, h3]
      ring
    · have : cvec (0 : V3 ℝ) ⬝ᵥ u = 0 := by simp [cvec, dotProduct]
      rw [this]
      simp only [zero_add]

theorem cvec_smul_dot (x : ℝ) (v : V3 ℝ) (u : V3 ℂ) : cvec (x • v) ⬝ᵥ u = x * (cvec v ⬝ᵥ u) := by
  simp only [cvec, dotProduct, Fin.sum_univ_three, Pi.smul_apply, smul_eq_mul]
  push_cast
  ring

/-- The field of the state without waves. -/
theorem field_zero (l : List (Bond × M3 ℝ)) (spin : Atom → ℝ) (τ : Cell →+ Γ) (d : Atom → V3 ℝ) (a : Atom) (n : Γ) :
    gr l spin τ (fun b _ => d b) a n =
      (2 * spin a) • (l.map fun p => if p.1.1 = a then spin p.1.2.1 • p.2 *ᵥ d p.1.2.1 else 0).sum := by
  unfold gr
  induction l with
  | nil => simp
  | cons p l ih =>
    simp only [List.map_cons, List.sum_cons, ih, smul_add]
    split_ifs
    · rw [smul_smul]
    · rw [smul_zero]

theorem sum_groups {M : Type*} [AddCommMonoid M] {atoms : List Atom} {l : List (Bond × M3 ℝ)} (hl : ∀ p ∈ l, p.1.1 ∈ atoms)
    (f : Bond × M3 ℝ → M) : (l.map f).sum = ∑ a ∈ atoms.toFinset, (l.map fun p => if p.1.1 = a then f p else 0).sum := by
  induction l with
  | nil => simp
  | cons p l ih =>
    simp only [List.map_cons, List.sum_cons, Finset.sum_add_distrib]
    rw [ih fun q hq => hl q (List.mem_cons_of_mem _ hq), Finset.sum_ite_eq, if_pos (List.mem_toFinset.2 (hl p List.mem_cons_self))]

/-- A state is stationary if and only if every field is along the spin. -/
theorem ObjSpec.stationary_iff (h : ObjSpec order lat pos spinVec s o t items) (hord : ∀ l, (order l).Perm l)
    (hs : MagnonObj.Symmetric t) {spin : Atom → ℝ} (hspin : ∀ a ∈ t.magneticAtoms order, 0 < spin a)
    {d : Atom → V3 ℝ} (hd : ∀ a ∈ t.magneticAtoms order, d a ⬝ᵥ d a = 1) :
    t.Stationary spin d ↔ ∀ a ∈ t.magneticAtoms order,
      ∃ c : ℝ, ((likeItems t).map fun p => if p.1.1 = a then spin p.1.2.1 • p.2 *ᵥ d p.1.2.1 else 0).sum = c • d a := by
  constructor
  · intro hst a ha
    obtain ⟨i, rfl⟩ := atomAt_exists h hord ha
    obtain ⟨c, hc⟩ := Magnopy.ObjSpec.field h hord hs hspin hd hst i
    refine ⟨c, ?_⟩
    rw [← hc]
    have hsum := sum_second h hord (fun b => spin b • d b) (atomAt o (t.magneticAtoms order) i)
    simp only [mulVec_smul] at hsum
    rw [hsum]
  · intro hf η hη
    refine ⟨((likeItems t).map fun p => bilin (spin p.1.1 • d p.1.1) p.2 (spin p.1.2.1 • d p.1.2.1)).sum,
      ((likeItems t).map fun p => bilin (spin p.1.1 • η p.1.1) p.2 (spin p.1.2.1 • η p.1.2.1)).sum, fun ε => ?_⟩
    rw [physics_uniform h.flags, linear_sum h.inv hs]
    have h0 : ((likeItems t).map fun p => bilin (spin p.1.1 • η p.1.1) p.2 (spin p.1.2.1 • d p.1.2.1)).sum = 0 := by
      rw [sum_groups (atoms := t.magneticAtoms order) fun p hp => (h.like_atoms hp).1]
      refine Finset.sum_eq_zero fun a ha => ?_
      obtain ⟨c, hc⟩ := hf a (List.mem_toFinset.1 ha)
      have e1 : spin a * (η a ⬝ᵥ ((likeItems t).map fun p => if p.1.1 = a then spin p.1.2.1 • p.2 *ᵥ d p.1.2.1 else 0).sum) = 0 := by
        rw [hc, dotProduct_smul, hη, smul_zero, mul_zero]
      refine Eq.trans ?_ e1
      clear e1 hc hf
      generalize likeItems t = l
      induction l with
      | nil => simp
      | cons p l ih =>
        simp only [List.map_cons, List.sum_cons, dotProduct_add, mul_add, ih]
        congr 1
        split_ifs with hc
        · rw [bilin_eq, smul_dotProduct, mulVec_smul, hc, smul_eq_mul]
        · rw [dotProduct_zero, mul_zero]
    rw [h0]
    ring_nf

/-- The first-order part of the equation of motion of one spin. -/
theorem ObjSpec.first_order (h : ObjSpec order lat pos spinVec s o t items) (hord : ∀ l, (order l).Perm l) (hs : MagnonObj.Symmetric t)
    {spin : Atom → ℝ} (hspin : ∀ a ∈ t.magneticAtoms order, 0 < spin a)
    (hlen : ∀ a ∈ t.magneticAtoms order, ∀ v, spinVec a = some v → EnergyObj.norm3 v = spin a)
    {τ : Cell →+ Γ} {χ : Γ → ℂ} {k : V3 ℝ} (hb : Bloch lat k τ χ) (α β : Atom → ℂ) (ω : ℂ) (i : Fin o.N) (n : Γ) :
    let frame : Atom → M3 ℝ := fun a => Frame.span ((spinVec a).getD 0)
    let a := atomAt o (t.magneticAtoms order) i
    let z := fun b m => amplitude lat pos k χ α β b m
    let z' := amplitude lat pos k χ (fun b => -(I * ω) * α b) (fun b => -(I * ω) * β b) a n
    let X : Fin o.N ⊕ Fin o.N → ℂ := Sum.elim (fun i => (t.magneticAtoms order)[(i : ℕ)]?.elim 0 α)
      fun i => (t.magneticAtoms order)[(i : ℕ)]?.elim 0 β
    let Q := fun b m => Real.sqrt (2 / spin b) • ((z b m).re • frame b 0 + (z b m).im • frame b 1)
    let G := gr (likeItems t) spin τ (fun b _ => frame b 2) a n
    (∃ c : ℝ, G = c • frame a 2) →
    (spin a • (Real.sqrt (2 / spin a) • (z'.re • frame a 0 + z'.im • frame a 1)) - crossProduct G (Q a n) -
        crossProduct (gr (likeItems t) spin τ Q a n) (frame a 2) = 0 ↔
      χ n * atomPhase lat pos k a * (ω * α a - ((o.callH t.cell k).1 *ᵥ X) (.inl i)) =
        star (χ n * atomPhase lat pos k a * (ω * β a + ((o.callH t.cell k).1 *ᵥ X) (.inr i)))) := by
  intro frame a z z' X Q G hG
  obtain ⟨c, hc⟩ := hG
  have ham : a ∈ t.magneticAtoms order := atomAt_mem h hord i
  have hS := hspin a ham
  have hv := ObjSpec.view h hord hs hspin hlen
  have hR : RightHanded (frame a) := hv.hand i
  have hd : frame a 2 ⬝ᵥ frame a 2 = 1 := by simpa using hR.ortho 2 2
  obtain ⟨h1, h2⟩ := ObjSpec.row_like h hord hs hspin hlen k α β i
  have hfw := field_wave hb pos (l := likeItems t) (spin := spin) (fun p hp => hspin _ (h.like_atoms hp).2) frame α β a n (cu (frame a))
  simp only at h1 h2 hfw
  rw [hc]
  rw [linear_iff hR (z a n) z' c]
  show I * (spin a * Real.sqrt (2 / spin a) : ℝ) * z' + (c * Real.sqrt (2 / spin a) : ℝ) * z a n -
    cvec (gr (likeItems t) spin τ Q a n) ⬝ᵥ cu (frame a) = 0 ↔ _
  rw [show cvec (gr (likeItems t) spin τ Q a n) ⬝ᵥ cu (frame a) = _ from hfw]
  set Z := χ n * atomPhase lat pos k a with hZ
  set s1 := ((likeItems t).map fun p => if p.1.1 = a then phase (-k) (vector lat pos p.1) *
    cbil (cu (frame a)) p.2 (spinor frame spin α β p.1.2.1) else 0).sum with hs1
  set s2 := ((likeItems t).map fun p => if p.1.1 = a then phase (-k) (vector lat pos p.1) *
    cbil (star (cu (frame a))) p.2 (spinor frame spin α β p.1.2.1) else 0).sum with hs2
  set C : ℝ := ((likeItems t).map fun p => if p.1.1 = a then spin p.1.2.1 * bilin (frame a 2) p.2 (frame p.1.2.1 2) else 0).sum with hC
  have e1 : ((o.callH t.cell k).1 *ᵥ X) (.inl i) = 2 * ((Real.sqrt (spin a / 2) : ℝ) : ℂ) * s1 - 2 * C * α a := h1
  have e2 : ((o.callH t.cell k).1 *ᵥ X) (.inr i) = 2 * ((Real.sqrt (spin a / 2) : ℝ) : ℂ) * s2 - 2 * C * β a := h2
  have hcC : c = 2 * spin a * C := by
    have e3 : frame a 2 ⬝ᵥ G = c := by rw [hc, dotProduct_smul, hd, smul_eq_mul, mul_one]
    rw [← e3]
    simp only [G]
    rw [field_zero, dotProduct_smul, smul_eq_mul, hC]
    congr 1
    generalize likeItems t = l
    induction l with
    | nil => simp
    | cons p l ih =>
      simp only [List.map_cons, List.sum_cons, dotProduct_add, ih]
      congr 1
      split_ifs
      · rw [bilin_eq, dotProduct_smul, smul_eq_mul]
      · simp
  have hq0 : 0 < Real.sqrt (2 / spin a) := Real.sqrt_pos.2 (by positivity)
  have hrq : Real.sqrt (2 / spin a) * Real.sqrt (spin a / 2) = 1 := by
    rw [← Real.sqrt_mul (by positivity), show 2 / spin a * (spin a / 2) = 1 by field_simp, Real.sqrt_one]
  have hrq' : ((Real.sqrt (2 / spin a) : ℝ) : ℂ) * ((Real.sqrt (spin a / 2) : ℝ) : ℂ) = 1 := by
    rw [← Complex.ofReal_mul, hrq, Complex.ofReal_one]
  have hz : z a n = α a * Z + star (β a * Z) := rfl
  have hz' : z' = -(I * ω) * α a * Z + star (-(I * ω) * β a * Z) := rfl
  have hrs : ∀ x : ℝ, star (x : ℂ) = (x : ℂ) := fun x => by rw [RCLike.star_def, Complex.conj_ofReal]
  have hI : star (I : ℂ) = -I := by rw [RCLike.star_def, Complex.conj_I]
  have h2s : star (2 : ℂ) = 2 := by rw [RCLike.star_def]; exact Complex.conj_ofNat 2
  have key : I * (spin a * Real.sqrt (2 / spin a) : ℝ) * z' + (c * Real.sqrt (2 / spin a) : ℝ) * z a n -
      2 * spin a * (Z * s1 + star (Z * s2)) = (spin a * Real.sqrt (2 / spin a) : ℝ) *
        (Z * (ω * α a - ((o.callH t.cell k).1 *ᵥ X) (.inl i)) - star (Z * (ω * β a + ((o.callH t.cell k).1 *ᵥ X) (.inr i)))) := by
    rw [e1, e2, hz, hz', hcC]
    push_cast
    simp only [star_mul', star_add, star_sub, star_neg, hrs, hI, h2s]
    have hII : (I : ℂ) * I = -1 := Complex.I_mul_I
    generalize ((Real.sqrt (2 / spin a) : ℝ) : ℂ) = q at hrq'
    generalize ((Real.sqrt (spin a / 2) : ℝ) : ℂ) = r at hrq'
    linear_combination (spin a * q * (star ω * star (β a) * star Z - ω * α a * Z)) * hII +
      2 * spin a * (Z * s1 + star Z * star s2) * hrq'
  rw [key, mul_eq_zero, sub_eq_zero]
  have : ((spin a * Real.sqrt (2 / spin a) : ℝ) : ℂ) ≠ 0 := by
    rw [Complex.ofReal_ne_zero]
    exact (mul_pos hS hq0).ne'
  simp only [this, false_or]

theorem RightHanded.along {e : M3 ℝ} (h : RightHanded e) (G : V3 ℝ) : crossProduct G (e 2) = 0 ↔ ∃ c : ℝ, G = c • e 2 := by
  constructor
  · intro h0
    rw [h.cross_last, sub_eq_add_neg, ← neg_smul, h.perp_zero, neg_eq_zero] at h0
    refine ⟨G ⬝ᵥ e 2, ?_⟩
    conv_lhs => rw [h.parts G, h0.1, h0.2]
    simp
  · rintro ⟨c, rfl⟩
    rw [map_smul, LinearMap.smul_apply, cross_self, smul_zero]

/-- The equations of motion of a wave at one time, up to first order. -/
theorem motion_parts (hn : t.getNotation = .ok (true, false, 1, 1)) (hk : t.KeysNodup) (hs : MagnonObj.Symmetric t)
    (lat : M3 ℝ) (pos : Atom → V3 ℝ) (frame : Atom → M3 ℝ) (spin : Atom → ℝ) (τ : Cell →+ Γ) (χ : Γ → ℂ) (k : V3 ℝ)
    (α β : Atom → ℂ) (ω : ℂ) (atoms : List Atom) (T : ℝ) :
    let c : ℝ → ℝ → Config ℝ Γ := fun ε T => wave lat pos frame spin τ χ k (oscillating α ω T) (oscillating β ω T) ε
    let z := fun b m => amplitude lat pos k χ (oscillating α ω T) (oscillating β ω T) b m
    let z' := fun b m => amplitude lat pos k χ (fun b => -(I * ω) * oscillating α ω T b) (fun b => -(I * ω) * oscillating β ω T b) b m
    let Q := fun b m => Real.sqrt (2 / spin b) • ((z b m).re • frame b 0 + (z b m).im • frame b 1)
    let G := fun a n => gr (likeItems t) spin τ (fun b _ => frame b 2) a n
    (∃ v g : ℝ → Atom → Γ → V3 ℝ, (∀ ε, t.Gradient spin (c ε T) (g ε)) ∧
      (∀ ε a n, HasDerivAt (fun T => (c ε T).σ a n) (v ε a n) T) ∧
      ∀ a ∈ atoms, ∀ n, spin a • v 0 a n = crossProduct (g 0 a n) ((c 0 T).σ a n) ∧
        HasDerivAt (fun ε => spin a • v ε a n - crossProduct (g ε a n) ((c ε T).σ a n)) 0 0) ↔
    ∀ a ∈ atoms, ∀ n, crossProduct (G a n) (frame a 2) = 0 ∧
      spin a • (Real.sqrt (2 / spin a) • ((z' a n).re • frame a 0 + (z' a n).im • frame a 1)) - crossProduct (G a n) (Q a n) -
        crossProduct (gr (likeItems t) spin τ Q a n) (frame a 2) = 0 := by
  intro c z z' Q G
  let W : Atom → Γ → V3 ℝ := fun b m => -(normSq (z b m) / spin b) • frame b 2
  let Q' : Atom → Γ → V3 ℝ := fun b m => Real.sqrt (2 / spin b) • ((z' b m).re • frame b 0 + (z' b m).im • frame b 1)
  let W' : Atom → Γ → V3 ℝ := fun b m => -(2 * ((z b m).re * (z' b m).re + (z b m).im * (z' b m).im) / spin b) • frame b 2
  let v : ℝ → Atom → Γ → V3 ℝ := fun ε a n => ε • Q' a n + ε ^ 2 • W' a n
  let g : ℝ → Atom → Γ → V3 ℝ := fun ε a n => G a n + ε • gr (likeItems t) spin τ Q a n + ε ^ 2 • gr (likeItems t) spin τ W a n
  have hσ : ∀ ε a n, (c ε T).σ a n = frame a 2 + ε • Q a n + ε ^ 2 • W a n := by
    intro ε a n
    show tilted (frame a) (spin a) (z a n) ε = _
    unfold tilted
    simp only [Q, W, smul_smul, mul_neg, neg_smul, smul_neg]
    rw [sub_eq_add_neg]
  have hg : ∀ ε, t.Gradient spin (c ε T) (g ε) := by
    intro ε
    have h1 := gradient_like hn hk hs spin (c ε T)
    have h2 : gr (likeItems t) spin (c ε T).τ (c ε T).σ = g ε := by
      funext a n
      rw [show (c ε T).σ = fun b m => frame b 2 + ε • Q b m + ε ^ 2 • W b m from funext fun b => funext fun m => hσ ε b m]
      exact gr_parts _ _ _ _ _ _ _ _ _ _
    rwa [h2] at h1
  have hv : ∀ ε a n, HasDerivAt (fun T => (c ε T).σ a n) (v ε a n) T := by
    intro ε a n
    have h1 := hasDerivAt_tilted (frame a) (spin a) ε (hasDerivAt_amplitude lat pos k χ α β ω a n T)
    refine h1.congr_deriv ?_
    simp only [v, Q', W', smul_smul, mul_neg, neg_smul, smul_neg]
    rw [sub_eq_add_neg]
  have hres : ∀ a n, HasDerivAt (fun ε => spin a • v ε a n - crossProduct (g ε a n) ((c ε T).σ a n))
      (spin a • Q' a n - crossProduct (G a n) (Q a n) - crossProduct (gr (likeItems t) spin τ Q a n) (frame a 2)) 0 := by
    intro a n
    have h1 := hasDerivAt_poly (-crossProduct (G a n) (frame a 2))
      (spin a • Q' a n - crossProduct (G a n) (Q a n) - crossProduct (gr (likeItems t) spin τ Q a n) (frame a 2))
      (spin a • W' a n - crossProduct (G a n) (W a n) - crossProduct (gr (likeItems t) spin τ Q a n) (Q a n) -
        crossProduct (gr (likeItems t) spin τ W a n) (frame a 2))
      (-crossProduct (gr (likeItems t) spin τ Q a n) (W a n) - crossProduct (gr (likeItems t) spin τ W a n) (Q a n))
      (-crossProduct (gr (likeItems t) spin τ W a n) (W a n))
    refine h1.congr_of_eventuallyEq (Filter.Eventually.of_forall fun ε => ?_)
    simp only [hσ, v, g, map_add, map_smul, LinearMap.add_apply, LinearMap.smul_apply]
    module
  have hzero : ∀ a n, spin a • v 0 a n = crossProduct (g 0 a n) ((c 0 T).σ a n) ↔ crossProduct (G a n) (frame a 2) = 0 := by
    intro a n
    rw [hσ]
    simp only [v, g, zero_smul, add_zero, ne_eq, OfNat.ofNat_ne_zero, not_false_eq_true, zero_pow, smul_zero]
    exact eq_comm
  constructor
  · rintro ⟨v', g', e1, e2, e3⟩ a ha n
    obtain rfl : v' = v := funext fun ε => funext fun a => funext fun n => (e2 ε a n).unique (hv ε a n)
    obtain rfl : g' = g := funext fun ε => gradient_unique (e1 ε) (hg ε)
    obtain ⟨e4, e5⟩ := e3 a ha n
    exact ⟨(hzero a n).1 e4, (hres a n).unique e5⟩
  · intro hall
    refine ⟨v, g, hg, hv, fun a ha n => ⟨(hzero a n).2 (hall a ha n).1, ?_⟩⟩
    have := hres a n
    rwa [show spin a • Q' a n - crossProduct (G a n) (Q a n) - crossProduct (gr (likeItems t) spin τ Q a n) (frame a 2) = 0 from
      (hall a ha n).2] at this

/-- A travelling wave has independent parts. -/
theorem PlaneWave.parts {lat : M3 ℝ} {k : V3 ℝ} {τ : Cell →+ Γ} {χ : Γ → ℂ} (h : PlaneWave lat k τ χ) (θ x y : ℂ) (hθ : θ ≠ 0)
    (hxy : ∀ n, χ n * θ * x = star (χ n * θ * y)) : x = 0 ∧ y = 0 := by
  have h0 : χ 0 = 1 := by
    have h1 := h.add 0 0
    rw [add_zero] at h1
    have h2 : χ 0 ≠ 0 := by
      intro e
      have := h.unit 0
      rw [e, norm_zero] at this
      exact zero_ne_one this
    exact (mul_eq_left₀ h2).1 h1.symm
  obtain ⟨n, hn⟩ := h.two
  have e0 := hxy 0
  have e1 := hxy n
  rw [h0, one_mul] at e0
  rw [mul_assoc, mul_assoc, e0, star_mul' (χ n)] at e1
  have hu : star (χ n) * χ n = 1 := by
    have : star (χ n) * χ n = ((normSq (χ n) : ℝ) : ℂ) := by rw [Complex.normSq_eq_conj_mul_self]; rfl
    rw [this, Complex.normSq_eq_norm_sq, h.unit]
    norm_num
  have hy : star (θ * y) = 0 := by
    by_contra hne
    have e2 : χ n = star (χ n) := mul_right_cancel₀ hne e1
    apply hn
    rw [sq]
    conv_lhs => lhs; rw [e2]
    exact hu
  have hy' : y = 0 := by
    have := star_eq_zero.1 hy
    exact (mul_eq_zero.1 this).resolve_left hθ
  refine ⟨?_, hy'⟩
  rw [hy', mul_zero, star_zero] at e0
  exact (mul_eq_zero.1 e0).resolve_left hθ

end Rows

end Magnopy
