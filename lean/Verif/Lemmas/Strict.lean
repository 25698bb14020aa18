import Verif.Lemmas.Hessian
import Mathlib.Analysis.Matrix.Order

/-!
# Lemmas: a stationary state with positive definite magnon matrices is a firm minimum, and conversely
-/

set_option autoImplicit false
set_option linter.unusedSectionVars false

namespace Magnopy

open PyDict Matrix Complex MagnonObj
open scoped ComplexOrder

/-! ### Positive definite matrices -/

open scoped MatrixOrder in
theorem posDef_root {ι : Type*} [Fintype ι] [DecidableEq ι] {D : Matrix ι ι ℂ} (hD : D.PosDef) :
    ∃ B : Matrix ι ι ℂ, D = Bᴴ * B ∧ IsUnit B.det := by
  obtain ⟨B, hB⟩ := CStarAlgebra.nonneg_iff_eq_star_mul_self.mp hD.posSemidef.nonneg
  refine ⟨B, hB, ?_⟩
  have h1 : IsUnit D.det := (Matrix.isUnit_iff_isUnit_det _).1 hD.isUnit
  rw [hB, det_mul] at h1
  exact isUnit_of_mul_isUnit_right h1

/-- The form of a positive definite matrix is at least a multiple of the square of the norm. -/
theorem posDef_bound {ι : Type*} [Fintype ι] {D : Matrix ι ι ℂ} (hD : D.PosDef) :
    ∃ c : ℝ, 0 < c ∧ ∀ x : ι → ℂ, c * ∑ i, normSq (x i) ≤ (star x ⬝ᵥ (D *ᵥ x)).re := by
  classical
  obtain ⟨B, hB, hdet⟩ := posDef_root hD
  obtain ⟨K, hKd⟩ : ∃ K : ℝ, K = ∑ i, ∑ j, ‖B⁻¹ i j‖ ^ 2 := ⟨_, rfl⟩
  have hK : 0 ≤ K := by
    rw [hKd]
    exact Finset.sum_nonneg fun i _ => Finset.sum_nonneg fun j _ => sq_nonneg _
  refine ⟨1 / (K + 1), by positivity, fun x => ?_⟩
  set y := B *ᵥ x with hy
  have hx : x = B⁻¹ *ᵥ y := by rw [hy, mulVec_mulVec, nonsing_inv_mul _ hdet, one_mulVec]
  have hform : (star x ⬝ᵥ (D *ᵥ x)).re = ∑ j, ‖y j‖ ^ 2 := by
    rw [hB, ← mulVec_mulVec, dotProduct_mulVec, vecMul_conjTranspose, star_star, ← hy, dotProduct, Complex.re_sum]
    refine Finset.sum_congr rfl fun j _ => ?_
    rw [Pi.star_apply, RCLike.star_def, ← Complex.normSq_eq_conj_mul_self, Complex.ofReal_re, Complex.normSq_eq_norm_sq]
  have hi : ∀ i, ‖x i‖ ^ 2 ≤ (∑ j, ‖B⁻¹ i j‖ ^ 2) * ∑ j, ‖y j‖ ^ 2 := by
    intro i
    have h1 : ‖x i‖ ≤ ∑ j, ‖B⁻¹ i j‖ * ‖y j‖ := by
      rw [hx, mulVec, dotProduct]
      refine (norm_sum_le _ _).trans (le_of_eq ?_)
      exact Finset.sum_congr rfl fun j _ => norm_mul _ _
    refine (pow_le_pow_left₀ (norm_nonneg _) h1 2).trans ?_
    exact Finset.sum_mul_sq_le_sq_mul_sq _ _ _
  have hsum : ∑ i, normSq (x i) ≤ K * ∑ j, ‖y j‖ ^ 2 := by
    rw [hKd, Finset.sum_mul]
    refine Finset.sum_le_sum fun i _ => ?_
    rw [Complex.normSq_eq_norm_sq]
    exact hi i
  have hY : 0 ≤ ∑ j, ‖y j‖ ^ 2 := Finset.sum_nonneg fun j _ => sq_nonneg _
  rw [hform, one_div, inv_mul_le_iff₀ (by linarith)]
  refine hsum.trans ?_
  rw [add_mul, one_mul]
  exact le_add_of_nonneg_right hY

theorem amps_norm {o : MagnonObj} {l : List Atom} (hl : o.N = l.length) (α β : Atom → ℂ) :
    ∑ i, normSq (amps o l α β i) = (l.map fun a => normSq (α a) + normSq (β a)).sum := by
  rw [Fintype.sum_sum_type, ← Finset.sum_add_distrib]
  have e : ∀ i : Fin o.N, normSq (amps o l α β (.inl i)) + normSq (amps o l α β (.inr i)) =
      (l.map fun a => normSq (α a) + normSq (β a))[(i : ℕ)]'(by rw [List.length_map, ← hl]; exact i.2) := by
    intro i
    have hi : (i : ℕ) < l.length := by rw [← hl]; exact i.2
    simp only [amps, Sum.elim_inl, Sum.elim_inr, List.getElem?_eq_getElem hi, Option.elim, List.getElem_map]
  simp only [e]
  have hn : o.N = (l.map fun a => normSq (α a) + normSq (β a)).length := by rw [List.length_map, hl]
  rw [← Fin.sum_univ_getElem]
  exact Fintype.sum_equiv (finCongr hn) _ _ fun i => rfl

section

variable {Γ : Type*} [AddCommGroup Γ] [Fintype Γ]

/-- Every character of the cells is the factor of a wave vector. -/
theorem exists_k {lat : M3 ℝ} (hdet : lat.det ≠ 0) (τ : Cell →+ Γ) (ψ : AddChar Γ ℂ) : ∃ k, Bloch lat k τ ψ := by
  let E : Fin 3 → Cell := ![(1, 0, 0), (0, 1, 0), (0, 0, 1)]
  let θ : V3 ℝ := fun i => Complex.arg (ψ (τ (E i)))
  have hk : lat *ᵥ (lat⁻¹ *ᵥ θ) = θ := by
    rw [mulVec_mulVec, Matrix.mul_nonsing_inv _ (isUnit_iff_ne_zero.2 hdet), one_mulVec]
  have hval : ∀ i, Complex.exp (I * (θ i : ℂ)) = ψ (τ (E i)) := by
    intro i
    have := Complex.norm_mul_exp_arg_mul_I (ψ (τ (E i)))
    rw [AddChar.norm_apply, Complex.ofReal_one, one_mul] at this
    rw [← this, mul_comm]
  refine ⟨lat⁻¹ *ᵥ θ, fun m n => AddChar.map_add_eq_mul ψ m n, fun n => AddChar.norm_apply ψ n, fun R => ?_⟩
  have hR : R = R.1 • E 0 + R.2.1 • E 1 + R.2.2 • E 2 := by
    obtain ⟨a, b, c⟩ := R
    simp [E]
  have hz : ∀ (m : ℤ) (x : Γ), ψ (m • x) = ψ x ^ m := fun m x => AddChar.map_zsmul_eq_zpow ψ m x
  rw [dot_absolute, hk, Fin.sum_univ_three]
  conv_lhs => rw [hR]
  simp only [map_add, map_zsmul, AddChar.map_add_eq_mul, hz, ← hval, ← Complex.exp_int_mul, ← Complex.exp_add]
  congr 1
  simp only [Cell.rel, cons_val_zero, cons_val_one, cons_val]
  push_cast
  ring

variable {order : List Atom → List Atom} {lat : M3 ℝ} {pos : Atom → V3 ℝ} {spinVec : Atom → Option (V3 ℝ)}
  {s : St ℝ} {o : MagnonObj} {t : St ℝ} {items : List (Bond × ℕ)}

/-- The second-order part of the energy is at least a multiple of the squares of the deviations. -/
theorem second_bound (hI : ObjSpec order lat pos spinVec s o t items) (hs : MagnonObj.Symmetric t) {spin : Atom → ℝ}
    (hspin : ∀ a ∈ t.magneticAtoms order, 0 < spin a)
    (hlen : ∀ a ∈ t.magneticAtoms order, ∀ v, spinVec a = some v → EnergyObj.norm3 v = spin a) (hdet : lat.det ≠ 0) {τ : Cell →+ Γ}
    (hP : ∀ k χ, Bloch lat k τ χ → (o.callH t.cell k).1.PosDef) :
    ∃ c : ℝ, 0 < c ∧ ∀ z : Atom → Γ → ℂ, c * ((t.magneticAtoms order).map fun a => ∑ n, normSq (z a n)).sum ≤
      ((likeItems t).map (secondZ (fun a => Frame.span ((spinVec a).getD 0)) spin τ z)).sum := by
  choose k hk using exists_k hdet τ
  choose C hC hb using fun ψ => posDef_bound (hP (k ψ) _ (hk ψ))
  obtain ⟨ψ₀, -, hmin⟩ := Finset.exists_min_image (Finset.univ : Finset (AddChar Γ ℂ)) C ⟨0, Finset.mem_univ _⟩
  refine ⟨C ψ₀, hC ψ₀, fun z => ?_⟩
  have hw := congrArg Complex.re (second_waves hI hs hspin hlen hk z)
  have hcast : (Fintype.card Γ : ℂ) / 2 = (((Fintype.card Γ : ℝ) / 2 : ℝ) : ℂ) := by push_cast; rfl
  rw [Complex.ofReal_re, hcast, Complex.re_ofReal_mul, Complex.re_sum] at hw
  rw [hw]
  have hθ : ∀ (ψ : AddChar Γ ℂ) a, star (atomPhase lat pos (k ψ) a) * atomPhase lat pos (k ψ) a = 1 := fun ψ a => atomPhase_unit lat pos (k ψ) a
  have e : ∀ a, ∑ n, normSq (z a n) = (Fintype.card Γ : ℝ) / 2 * ∑ ψ : AddChar Γ ℂ,
      (normSq (waveA (atomPhase lat pos (k ψ)) z ψ a) + normSq (waveB (atomPhase lat pos (k ψ)) z ψ a)) := by
    intro a
    have := sum_waves (θ := fun ψ => atomPhase lat pos (k ψ)) hθ z a
    rw [hcast] at this
    exact_mod_cast this.symm
  simp only [e]
  rw [List.sum_map_mul_left, list_finset_sum, ← mul_assoc, mul_comm (C ψ₀), mul_assoc, Finset.mul_sum]
  refine mul_le_mul_of_nonneg_left (Finset.sum_le_sum fun ψ _ => ?_) (by positivity)
  refine le_trans ?_ (hb ψ _)
  rw [amps_norm hI.N]
  refine mul_le_mul_of_nonneg_right (hmin ψ (Finset.mem_univ _)) ?_
  refine List.sum_nonneg fun x hx => ?_
  obtain ⟨a, -, rfl⟩ := List.mem_map.1 hx
  exact add_nonneg (normSq_nonneg _) (normSq_nonneg _)

end

/-! ### One spin -/

/-- The columns of a right-handed frame are orthonormal. -/
theorem RightHanded.column_dot {e : M3 ℝ} (h : RightHanded e) (i j : Fin 3) :
    e 0 i * e 0 j + e 1 i * e 1 j + e 2 i * e 2 j = if i = j then 1 else 0 := by
  have h1 : e * eᵀ = 1 := by
    ext i j
    rw [mul_apply]
    have := h.ortho i j
    rw [dotProduct] at this
    rw [Matrix.one_apply]
    exact this
  have h3 : eᵀ * e = 1 := mul_eq_one_comm.1 h1
  have h2 : (eᵀ * e) i j = (1 : M3 ℝ) i j := by rw [h3]
  rw [mul_apply, Fin.sum_univ_three, Matrix.one_apply] at h2
  exact h2

/-- The deviation of the unit vector `v` from the third vector of the frame, as a complex amplitude. -/
noncomputable def deviation (e : M3 ℝ) (S : ℝ) (v : V3 ℝ) : ℂ := ⟨Real.sqrt (S / 2) * (v ⬝ᵥ e 0), Real.sqrt (S / 2) * (v ⬝ᵥ e 1)⟩

/-- The distance from the third vector of the frame. -/
noncomputable def dist2 (e : M3 ℝ) (v : V3 ℝ) : ℝ := (v - e 2) ⬝ᵥ (v - e 2)

theorem dist2_nonneg (e : M3 ℝ) (v : V3 ℝ) : 0 ≤ dist2 e v := by
  simp only [dist2, dotProduct, Fin.sum_univ_three]
  nlinarith [sq_nonneg ((v - e 2) 0), sq_nonneg ((v - e 2) 1), sq_nonneg ((v - e 2) 2)]

theorem dist2_eq {e : M3 ℝ} (h : RightHanded e) {v : V3 ℝ} (hv : v ⬝ᵥ v = 1) : v ⬝ᵥ e 2 = 1 - dist2 e v / 2 := by
  have h2 : e 2 ⬝ᵥ e 2 = 1 := by simpa using h.ortho 2 2
  rw [dist2, sub_dotProduct, dotProduct_sub, dotProduct_sub, hv, h2, dotProduct_comm (e 2) v]
  ring

theorem components {e : M3 ℝ} (h : RightHanded e) (v : V3 ℝ) (i : Fin 3) :
    v i = (v ⬝ᵥ e 0) * e 0 i + (v ⬝ᵥ e 1) * e 1 i + (v ⬝ᵥ e 2) * e 2 i := by
  have h0 := h.column_dot 0 i
  have h1 := h.column_dot 1 i
  have h2 := h.column_dot 2 i
  simp only [dotProduct, Fin.sum_univ_three]
  have : v i = v 0 * (if 0 = i then 1 else 0) + v 1 * (if 1 = i then 1 else 0) + v 2 * (if 2 = i then 1 else 0) := by
    fin_cases i <;> simp
  rw [this, ← h0, ← h1, ← h2]
  ring

theorem length_sq {e : M3 ℝ} (h : RightHanded e) (v : V3 ℝ) :
    v ⬝ᵥ v = (v ⬝ᵥ e 0) ^ 2 + (v ⬝ᵥ e 1) ^ 2 + (v ⬝ᵥ e 2) ^ 2 := by
  have h00 := h.column_dot 0 0
  have h11 := h.column_dot 1 1
  have h22 := h.column_dot 2 2
  have h01 := h.column_dot 0 1
  have h02 := h.column_dot 0 2
  have h12 := h.column_dot 1 2
  simp at h00 h11 h22 h01 h02 h12
  simp only [dotProduct, Fin.sum_univ_three]
  linear_combination -v 0 ^ 2 * h00 - v 1 ^ 2 * h11 - v 2 ^ 2 * h22 - 2 * v 0 * v 1 * h01 - 2 * v 0 * v 2 * h02 - 2 * v 1 * v 2 * h12

theorem sqrt_half {S : ℝ} (hS : 0 < S) : Real.sqrt (2 * S) * Real.sqrt (S / 2) = S := by
  rw [← Real.sqrt_mul (by positivity), show 2 * S * (S / 2) = S ^ 2 by ring, Real.sqrt_sq hS.le]

/-- The three parts of a spin. -/
theorem spin_parts {e : M3 ℝ} (h : RightHanded e) {S : ℝ} (hS : 0 < S) {v : V3 ℝ} (hv : v ⬝ᵥ v = 1) :
    S • v = S • e 2 + Real.sqrt (2 * S) • ((deviation e S v).re • e 0 + (deviation e S v).im • e 1) + (-(S * dist2 e v / 2)) • e 2 := by
  have hq := sqrt_half hS
  funext i
  have hc := components h v i
  rw [dist2_eq h hv] at hc
  simp only [deviation, Pi.add_apply, Pi.smul_apply, smul_eq_mul]
  rw [hc]
  linear_combination -((v ⬝ᵥ e 0) * e 0 i + (v ⬝ᵥ e 1) * e 1 i) * hq

theorem normSq_deviation {e : M3 ℝ} (h : RightHanded e) {S : ℝ} (hS : 0 < S) {v : V3 ℝ} (hv : v ⬝ᵥ v = 1) :
    normSq (deviation e S v) = S / 2 * (dist2 e v - dist2 e v ^ 2 / 4) := by
  have h1 := length_sq h v
  rw [hv, dist2_eq h hv] at h1
  have hq : Real.sqrt (S / 2) ^ 2 = S / 2 := Real.sq_sqrt (by positivity)
  rw [normSq_apply, deviation]
  simp only
  linear_combination ((v ⬝ᵥ e 0) ^ 2 + (v ⬝ᵥ e 1) ^ 2) * hq - S / 2 * h1

theorem transverse_bound {e : M3 ℝ} (h : RightHanded e) {S : ℝ} (hS : 0 < S) {v : V3 ℝ} (hv : v ⬝ᵥ v = 1) (i : Fin 3) :
    |(Real.sqrt (2 * S) • ((deviation e S v).re • e 0 + (deviation e S v).im • e 1)) i| ≤ S * Real.sqrt (dist2 e v) := by
  have hq := sqrt_half hS
  have e1 : (Real.sqrt (2 * S) • ((deviation e S v).re • e 0 + (deviation e S v).im • e 1)) i =
      S * ((v ⬝ᵥ e 0) * e 0 i + (v ⬝ᵥ e 1) * e 1 i) := by
    simp only [deviation, Pi.add_apply, Pi.smul_apply, smul_eq_mul]
    linear_combination ((v ⬝ᵥ e 0) * e 0 i + (v ⬝ᵥ e 1) * e 1 i) * hq
  rw [e1, abs_mul, abs_of_pos hS]
  refine mul_le_mul_of_nonneg_left ?_ hS.le
  refine Real.abs_le_sqrt ?_
  have h1 := length_sq h v
  rw [hv, dist2_eq h hv] at h1
  have hcol := h.column_dot i i
  rw [if_pos rfl] at hcol
  generalize v ⬝ᵥ e 0 = x at h1 ⊢
  generalize v ⬝ᵥ e 1 = y at h1 ⊢
  have h2 : x ^ 2 + y ^ 2 ≤ dist2 e v := by nlinarith [sq_nonneg (dist2 e v)]
  have h3 : e 0 i ^ 2 + e 1 i ^ 2 ≤ 1 := by nlinarith [sq_nonneg (e 2 i)]
  have h4 : (x * e 0 i + y * e 1 i) ^ 2 ≤ (x ^ 2 + y ^ 2) * (e 0 i ^ 2 + e 1 i ^ 2) := by
    nlinarith [sq_nonneg (x * e 1 i - y * e 0 i)]
  refine h4.trans ((mul_le_of_le_one_right (by positivity) h3).trans h2)

theorem third_bound {e : M3 ℝ} (h : RightHanded e) (i : Fin 3) : |e 2 i| ≤ 1 := by
  have hcol := h.column_dot i i
  rw [if_pos rfl] at hcol
  rw [← sq_le_one_iff_abs_le_one]
  nlinarith [sq_nonneg (e 0 i), sq_nonneg (e 1 i)]

theorem smul_third_bound {e : M3 ℝ} (h : RightHanded e) (x : ℝ) (i : Fin 3) : |(x • e 2) i| ≤ |x| := by
  rw [Pi.smul_apply, smul_eq_mul, abs_mul]
  exact mul_le_of_le_one_right (abs_nonneg _) (third_bound h i)

/-- The distance of spins with close components. -/
theorem sqrt_dist2_le {e : M3 ℝ} {v : V3 ℝ} {δ : ℝ} (hδ : 0 ≤ δ) (h : ∀ i, |v i - e 2 i| ≤ δ) : Real.sqrt (dist2 e v) ≤ 2 * δ := by
  rw [Real.sqrt_le_left (by linarith)]
  have : ∀ i, (v i - e 2 i) ^ 2 ≤ δ ^ 2 := fun i => sq_le_sq' (neg_le_of_abs_le (h i)) (le_of_abs_le (h i))
  simp only [dist2, dotProduct, Fin.sum_univ_three, Pi.sub_apply]
  nlinarith [this 0, this 1, this 2]

/-! ### One bond -/

/-- The sum of the absolute values of the elements. -/
def absSum (J : M3 ℝ) : ℝ := ∑ i, ∑ j, |J i j|

theorem absSum_nonneg (J : M3 ℝ) : 0 ≤ absSum J := Finset.sum_nonneg fun _ _ => Finset.sum_nonneg fun _ _ => abs_nonneg _

theorem bilin_bound {u v : V3 ℝ} (J : M3 ℝ) {A B : ℝ} (hu : ∀ i, |u i| ≤ A) (hv : ∀ i, |v i| ≤ B) :
    |bilin u J v| ≤ absSum J * (A * B) := by
  have hA : 0 ≤ A := (abs_nonneg _).trans (hu 0)
  rw [absSum, Finset.sum_mul]
  unfold bilin
  refine (Finset.abs_sum_le_sum_abs _ _).trans (Finset.sum_le_sum fun i _ => ?_)
  rw [Finset.sum_mul]
  refine (Finset.abs_sum_le_sum_abs _ _).trans (Finset.sum_le_sum fun j _ => ?_)
  rw [abs_mul, abs_mul]
  have := mul_le_mul (hu i) (hv j) (abs_nonneg _) hA
  nlinarith [abs_nonneg (J i j)]

theorem bilin_split (P Q W V P' Q' W' V' : V3 ℝ) (J : M3 ℝ) :
    bilin (P + Q + W) J (P' + Q' + W') = bilin P J P' + (bilin P J Q' + bilin Q J P') +
      (bilin Q J Q' + bilin P J V' + bilin V J P') +
      (bilin P J (W' - V') + bilin (W - V) J P' + bilin Q J W' + bilin W J Q' + bilin W J W') := by
  simp only [bilin, Fin.sum_univ_three, Pi.add_apply, Pi.sub_apply]
  ring

theorem remainder_bound {r r' ρ : ℝ} (h0 : 0 ≤ r) (h0' : 0 ≤ r') (hr : r ≤ ρ) (hr' : r' ≤ ρ) (hρ : ρ ≤ 1) :
    r' ^ 4 / 8 + r ^ 4 / 8 + r * (r' ^ 2 / 2) + r ^ 2 / 2 * r' + r ^ 2 / 2 * (r' ^ 2 / 2) ≤ ρ * (r ^ 2 + r' ^ 2) := by
  have a : 0 ≤ ρ := h0.trans hr
  have s2 : r ^ 2 ≤ ρ := by nlinarith
  have s2' : r' ^ 2 ≤ ρ := by nlinarith
  have q : 0 ≤ r ^ 2 := sq_nonneg r
  have q' : 0 ≤ r' ^ 2 := sq_nonneg r'
  have t1 : r' ^ 4 ≤ ρ * r' ^ 2 := by nlinarith
  have t2 : r ^ 4 ≤ ρ * r ^ 2 := by nlinarith
  have t3 : r * r' ^ 2 ≤ ρ * r' ^ 2 := mul_le_mul_of_nonneg_right hr q'
  have t4 : r ^ 2 * r' ≤ r ^ 2 * ρ := mul_le_mul_of_nonneg_left hr' q
  have t5 : r ^ 2 * r' ^ 2 ≤ r ^ 2 * ρ := mul_le_mul_of_nonneg_left s2' q
  nlinarith [mul_nonneg a q, mul_nonneg a q']

/-- The energy of one bond up to second order. -/
theorem bond_expand {e e' : M3 ℝ} (h : RightHanded e) (h' : RightHanded e') {S S' : ℝ} (hS : 0 < S) (hS' : 0 < S') {v v' : V3 ℝ}
    (hv : v ⬝ᵥ v = 1) (hv' : v' ⬝ᵥ v' = 1) (J : M3 ℝ) {ρ : ℝ} (hρ : ρ ≤ 1) (hr : Real.sqrt (dist2 e v) ≤ ρ)
    (hr' : Real.sqrt (dist2 e' v') ≤ ρ) :
    let Q := Real.sqrt (2 * S) • ((deviation e S v).re • e 0 + (deviation e S v).im • e 1)
    let Q' := Real.sqrt (2 * S') • ((deviation e' S' v').re • e' 0 + (deviation e' S' v').im • e' 1)
    |bilin (S • v) J (S' • v') - bilin (S • e 2) J (S' • e' 2) - (bilin (S • e 2) J Q' + bilin Q J (S' • e' 2)) -
      (bilin Q J Q' + bilin (S • e 2) J (-(normSq (deviation e' S' v')) • e' 2) +
        bilin (-(normSq (deviation e S v)) • e 2) J (S' • e' 2))| ≤
      absSum J * (S * S') * (ρ * (dist2 e v + dist2 e' v')) := by
  intro Q Q'
  rw [spin_parts h hS hv, spin_parts h' hS' hv', bilin_split _ _ _ (-(normSq (deviation e S v)) • e 2) _ _ _
    (-(normSq (deviation e' S' v')) • e' 2)]
  set r := Real.sqrt (dist2 e v) with hrd
  set r' := Real.sqrt (dist2 e' v') with hrd'
  have hd : dist2 e v = r ^ 2 := (Real.sq_sqrt (dist2_nonneg e v)).symm
  have hd' : dist2 e' v' = r' ^ 2 := (Real.sq_sqrt (dist2_nonneg e' v')).symm
  have h0 : 0 ≤ r := Real.sqrt_nonneg _
  have h0' : 0 ≤ r' := Real.sqrt_nonneg _
  have hW : (-(S * dist2 e v / 2)) • e 2 - (-(normSq (deviation e S v))) • e 2 = (-(S * (r ^ 4 / 8))) • e 2 := by
    rw [← sub_smul, normSq_deviation h hS hv, hd]
    congr 1
    ring
  have hW' : (-(S' * dist2 e' v' / 2)) • e' 2 - (-(normSq (deviation e' S' v'))) • e' 2 = (-(S' * (r' ^ 4 / 8))) • e' 2 := by
    rw [← sub_smul, normSq_deviation h' hS' hv', hd']
    congr 1
    ring
  rw [hW, hW', hd, hd']
  have bP := smul_third_bound h S
  have bP' := smul_third_bound h' S'
  rw [abs_of_pos hS] at bP
  rw [abs_of_pos hS'] at bP'
  have bW := smul_third_bound h (-(S * r ^ 2 / 2))
  have bW' := smul_third_bound h' (-(S' * r' ^ 2 / 2))
  rw [abs_neg, abs_of_nonneg (by positivity)] at bW bW'
  have bX := smul_third_bound h (-(S * (r ^ 4 / 8)))
  have bX' := smul_third_bound h' (-(S' * (r' ^ 4 / 8)))
  rw [abs_neg, abs_of_nonneg (by positivity)] at bX bX'
  have bQ : ∀ i, |Q i| ≤ S * r := transverse_bound h hS hv
  have bQ' : ∀ i, |Q' i| ≤ S' * r' := transverse_bound h' hS' hv'
  have c1 := bilin_bound J bP bX'
  have c2 := bilin_bound J bX bP'
  have c3 := bilin_bound J bQ bW'
  have c4 := bilin_bound J bW bQ'
  have c5 := bilin_bound J bW bW'
  have hb := mul_le_mul_of_nonneg_left (remainder_bound h0 h0' hr hr' hρ) (mul_nonneg (absSum_nonneg J) (mul_nonneg hS.le hS'.le))
  refine le_trans (le_of_eq_of_le ?_ ((abs_add_le _ _).trans (add_le_add ((abs_add_le _ _).trans (add_le_add ((abs_add_le _ _).trans
    (add_le_add ((abs_add_le _ _).trans (add_le_add c1 c2)) c3)) c4)) c5))) (le_of_eq_of_le ?_ hb)
  · congr 1
    ring
  · ring

/-! ### All spins -/

section

variable {Γ : Type*} [AddCommGroup Γ] [Fintype Γ] {order : List Atom → List Atom} {lat : M3 ℝ} {pos : Atom → V3 ℝ}
  {spinVec : Atom → Option (V3 ℝ)} {s : St ℝ} {o : MagnonObj} {t : St ℝ} {items : List (Bond × ℕ)}

/-- The linear part of the energy of a stationary state is zero for any deviations. -/
theorem linear_zero (hI : ObjSpec order lat pos spinVec s o t items) {spin : Atom → ℝ}
    (hspin : ∀ a ∈ t.magneticAtoms order, 0 < spin a) {frame : Atom → M3 ℝ}
    (hf : ∀ a ∈ t.magneticAtoms order, RightHanded (frame a)) (hst : t.Stationary spin fun a => frame a 2) (τ : Cell →+ Γ)
    (x y : Atom → Γ → ℝ) :
    ((likeItems t).map fun p => ∑ n, (bilin (spin p.1.1 • frame p.1.1 2) p.2 (x p.1.2.1 (n + τ p.1.2.2) • frame p.1.2.1 0 +
        y p.1.2.1 (n + τ p.1.2.2) • frame p.1.2.1 1) +
      bilin (x p.1.1 n • frame p.1.1 0 + y p.1.1 n • frame p.1.1 1) p.2 (spin p.1.2.1 • frame p.1.2.1 2))).sum = 0 := by
  classical
  have hshift : ∀ p : Bond × M3 ℝ, ∑ n, (bilin (spin p.1.1 • frame p.1.1 2) p.2 (x p.1.2.1 (n + τ p.1.2.2) • frame p.1.2.1 0 +
        y p.1.2.1 (n + τ p.1.2.2) • frame p.1.2.1 1) +
      bilin (x p.1.1 n • frame p.1.1 0 + y p.1.1 n • frame p.1.1 1) p.2 (spin p.1.2.1 • frame p.1.2.1 2)) =
      ∑ n, (bilin (spin p.1.1 • frame p.1.1 2) p.2 (x p.1.2.1 n • frame p.1.2.1 0 + y p.1.2.1 n • frame p.1.2.1 1) +
      bilin (x p.1.1 n • frame p.1.1 0 + y p.1.1 n • frame p.1.1 1) p.2 (spin p.1.2.1 • frame p.1.2.1 2)) := by
    intro p
    rw [Finset.sum_add_distrib, Finset.sum_add_distrib]
    congr 1
    exact Equiv.sum_comp (Equiv.addRight (τ p.1.2.2)) fun n => bilin (spin p.1.1 • frame p.1.1 2) p.2
      (x p.1.2.1 n • frame p.1.2.1 0 + y p.1.2.1 n • frame p.1.2.1 1)
  simp only [hshift]
  rw [list_finset_sum]
  refine Finset.sum_eq_zero fun n _ => ?_
  let η : Atom → V3 ℝ := fun a => if a ∈ t.magneticAtoms order then (spin a)⁻¹ • (x a n • frame a 0 + y a n • frame a 1) else 0
  have hη : ∀ a, η a ⬝ᵥ frame a 2 = 0 := by
    intro a
    by_cases ha : a ∈ t.magneticAtoms order
    · have h02 : frame a 0 ⬝ᵥ frame a 2 = 0 := by simpa using (hf a ha).ortho 0 2
      have h12 : frame a 1 ⬝ᵥ frame a 2 = 0 := by simpa using (hf a ha).ortho 1 2
      simp only [η, if_pos ha, smul_dotProduct, add_dotProduct, h02, h12, smul_zero, add_zero]
    · simp only [η, if_neg ha, zero_dotProduct]
  have hη' : ∀ a ∈ t.magneticAtoms order, spin a • η a = x a n • frame a 0 + y a n • frame a 1 := by
    intro a ha
    simp only [η, if_pos ha, smul_smul, mul_inv_cancel₀ (hspin a ha).ne', one_smul]
  obtain ⟨E0, E2, hE⟩ := hst η hη
  have e1 := hE 1
  have e2 := hE (-1)
  rw [physics_uniform hI.flags] at e1 e2
  have e1 := Option.some.inj e1
  have e2 := Option.some.inj e2
  have key : ((likeItems t).map fun p => bilin (spin p.1.1 • frame p.1.1 2) p.2 (spin p.1.2.1 • η p.1.2.1) +
      bilin (spin p.1.1 • η p.1.1) p.2 (spin p.1.2.1 • frame p.1.2.1 2)).sum = 0 := by
    linarith
  rw [← key]
  congr 1
  refine List.map_congr_left fun p hp => ?_
  obtain ⟨ha, hb⟩ := hI.like_atoms hp
  rw [hη' _ ha, hη' _ hb]

theorem list_sum_le {ι : Type*} (l : List ι) {f g : ι → ℝ} (h : ∀ p ∈ l, f p ≤ g p) : (l.map f).sum ≤ (l.map g).sum :=
  List.sum_le_sum h

theorem exists_lower {ι : Type*} (l : List ι) {f : ι → ℝ} (h : ∀ a ∈ l, 0 < f a) : ∃ m : ℝ, 0 < m ∧ ∀ a ∈ l, m ≤ f a := by
  induction l with
  | nil => exact ⟨1, one_pos, fun _ h => absurd h List.not_mem_nil⟩
  | cons b l ih =>
    obtain ⟨m, hm, hl⟩ := ih fun a ha => h a (List.mem_cons_of_mem _ ha)
    refine ⟨min m (f b), lt_min hm (h b List.mem_cons_self), fun a ha => ?_⟩
    rcases List.mem_cons.1 ha with rfl | ha
    · exact min_le_right _ _
    · exact (min_le_left _ _).trans (hl a ha)

theorem abs_list_sum {ι : Type*} (l : List ι) {f g : ι → ℝ} (h : ∀ p ∈ l, |f p| ≤ g p) : |(l.map f).sum| ≤ (l.map g).sum := by
  induction l with
  | nil => simp
  | cons a l ih =>
    simp only [List.map_cons, List.sum_cons]
    exact (abs_add_le _ _).trans (add_le_add (h a List.mem_cons_self) (ih fun p hp => h p (List.mem_cons_of_mem _ hp)))

theorem list_sum_split {ι : Type*} (l : List ι) (f g h k : ι → ℝ) :
    (l.map f).sum - (l.map g).sum - (l.map h).sum - (l.map k).sum = (l.map fun p => f p - g p - h p - k p).sum := by
  induction l with
  | nil => simp
  | cons a l ih => simp only [List.map_cons, List.sum_cons, ← ih]; ring

/-- A stationary state whose magnon matrices are positive definite for all waves of the supercell is a firm minimum. -/
theorem firm_of_posDef (hI : ObjSpec order lat pos spinVec s o t items) (hs : MagnonObj.Symmetric t) {spin : Atom → ℝ}
    (hspin : ∀ a ∈ t.magneticAtoms order, 0 < spin a)
    (hlen : ∀ a ∈ t.magneticAtoms order, ∀ v, spinVec a = some v → EnergyObj.norm3 v = spin a)
    (hf : ∀ a ∈ t.magneticAtoms order, RightHanded (Frame.span ((spinVec a).getD 0))) (hdet : lat.det ≠ 0)
    (hphys : ∀ c : Config ℝ Γ, t.physics c spin = s.physics c spin)
    (hst : t.Stationary spin fun a => Frame.span ((spinVec a).getD 0) 2) {τ : Cell →+ Γ}
    (hP : ∀ k χ, Bloch lat k τ χ → (o.callH t.cell k).1.PosDef) :
    s.FirmMinimum spin (t.magneticAtoms order) (fun a => Frame.span ((spinVec a).getD 0) 2) τ := by
  obtain ⟨c, hc, hbound⟩ := second_bound hI hs hspin hlen hdet hP
  set frame : Atom → M3 ℝ := fun a => Frame.span ((spinVec a).getD 0) with hfr
  change ∀ a ∈ t.magneticAtoms order, RightHanded (frame a) at hf
  obtain ⟨m, hm, hml⟩ := exists_lower (t.magneticAtoms order) hspin
  obtain ⟨K, hKd⟩ : ∃ K : ℝ, K = ((likeItems t).map fun p => absSum p.2 * (spin p.1.1 * spin p.1.2.1) * 2).sum := ⟨_, rfl⟩
  have hK : 0 ≤ K := by
    rw [hKd]
    refine List.sum_nonneg fun x hx => ?_
    obtain ⟨p, hp, rfl⟩ := List.mem_map.1 hx
    obtain ⟨ha, hb⟩ := hI.like_atoms hp
    exact mul_nonneg (mul_nonneg (absSum_nonneg _) (mul_nonneg (hspin _ ha).le (hspin _ hb).le)) zero_le_two
  -- the energy is higher by at least `(c·3m/8 - K ρ) T`
  obtain ⟨ρ, hρ0, hρ1, hρ⟩ : ∃ ρ : ℝ, 0 < ρ ∧ ρ ≤ 1 ∧ K * ρ < c * (3 * m / 8) := by
    have hpos : 0 < c * (3 * m / 8) := by positivity
    refine ⟨min 1 (c * (3 * m / 8) / (K + 1)), lt_min one_pos (by positivity), min_le_left _ _, ?_⟩
    have h1 : K * min 1 (c * (3 * m / 8) / (K + 1)) ≤ K * (c * (3 * m / 8) / (K + 1)) := mul_le_mul_of_nonneg_left (min_le_right _ _) hK
    refine h1.trans_lt ?_
    rw [mul_div_assoc', div_lt_iff₀ (by positivity)]
    nlinarith
  refine ⟨c * (3 * m / 8) - K * ρ, sub_pos.2 hρ, ρ / 2, by positivity, fun σ hσ E0 E hE0 hE => ?_⟩
  have hu : ∀ a ∈ t.magneticAtoms order, ∀ n, σ a n ⬝ᵥ σ a n = 1 := fun a ha n => (hσ a ha n).1
  have hr : ∀ a ∈ t.magneticAtoms order, ∀ n, Real.sqrt (dist2 (frame a) (σ a n)) ≤ ρ := by
    intro a ha n
    have := sqrt_dist2_le (e := frame a) (by positivity) (hσ a ha n).2
    linarith
  let z : Atom → Γ → ℂ := fun a n => deviation (frame a) (spin a) (σ a n)
  let T : Atom → ℝ := fun a => ∑ n, dist2 (frame a) (σ a n)
  have hT0 : ∀ a, 0 ≤ T a := fun a => Finset.sum_nonneg fun n _ => dist2_nonneg _ _
  obtain ⟨TT, hTTd⟩ : ∃ TT : ℝ, TT = ((t.magneticAtoms order).map T).sum := ⟨_, rfl⟩
  have hle : ∀ a ∈ t.magneticAtoms order, T a ≤ TT := by
    intro a ha
    rw [hTTd]
    refine List.single_le_sum (fun x hx => ?_) _ (List.mem_map_of_mem ha)
    obtain ⟨b, -, rfl⟩ := List.mem_map.1 hx
    exact hT0 b
  have h2 := hbound z
  have hlow : c * (3 * m / 8) * TT ≤ ((likeItems t).map (secondZ frame spin τ z)).sum := by
    refine le_trans ?_ h2
    rw [mul_assoc]
    refine mul_le_mul_of_nonneg_left ?_ hc.le
    rw [hTTd, ← List.sum_map_mul_left]
    refine list_sum_le _ fun a ha => ?_
    simp only [T, z]
    rw [Finset.mul_sum]
    refine Finset.sum_le_sum fun n _ => ?_
    rw [normSq_deviation (hf a ha) (hspin a ha) (hu a ha n)]
    have d0 := dist2_nonneg (frame a) (σ a n)
    have d1 : dist2 (frame a) (σ a n) ≤ 1 := by
      have hq := Real.sq_sqrt d0
      have := hr a ha n
      nlinarith [Real.sqrt_nonneg (dist2 (frame a) (σ a n))]
    have d2 := hml a ha
    nlinarith [mul_nonneg d0 (sub_nonneg.2 d1), mul_nonneg (sub_nonneg.2 d2) d0,
      mul_nonneg (hspin a ha).le (mul_nonneg d0 (sub_nonneg.2 d1))]
  rw [← hphys, energy_like hI.flags] at hE0 hE
  have hE0 := Option.some.inj hE0
  have hE := Option.some.inj hE
  have hlin := linear_zero hI hspin hf hst τ (fun a n => Real.sqrt (2 * spin a) * (z a n).re)
    (fun a n => Real.sqrt (2 * spin a) * (z a n).im)
  have hrem : |E - E0 - 0 - ((likeItems t).map (secondZ frame spin τ z)).sum| ≤ K * ρ * TT := by
    rw [← hE0, ← hE, ← hlin, list_sum_split]
    have hbond : ∀ p ∈ likeItems t, |(∑ n, bilin (spin p.1.1 • σ p.1.1 n) p.2 (spin p.1.2.1 • σ p.1.2.1 (n + τ p.1.2.2))) -
        (∑ _n : Γ, bilin (spin p.1.1 • frame p.1.1 2) p.2 (spin p.1.2.1 • frame p.1.2.1 2)) -
        (∑ n, (bilin (spin p.1.1 • frame p.1.1 2) p.2 ((Real.sqrt (2 * spin p.1.2.1) * (z p.1.2.1 (n + τ p.1.2.2)).re) • frame p.1.2.1 0 +
          (Real.sqrt (2 * spin p.1.2.1) * (z p.1.2.1 (n + τ p.1.2.2)).im) • frame p.1.2.1 1) +
          bilin ((Real.sqrt (2 * spin p.1.1) * (z p.1.1 n).re) • frame p.1.1 0 +
            (Real.sqrt (2 * spin p.1.1) * (z p.1.1 n).im) • frame p.1.1 1) p.2 (spin p.1.2.1 • frame p.1.2.1 2))) -
        secondZ frame spin τ z p| ≤ absSum p.2 * (spin p.1.1 * spin p.1.2.1) * 2 * (ρ * TT) := by
      intro p hp
      obtain ⟨ha, hb⟩ := hI.like_atoms hp
      unfold secondZ
      rw [← Finset.sum_sub_distrib, ← Finset.sum_sub_distrib, ← Finset.sum_sub_distrib]
      have hN : 0 ≤ absSum p.2 * (spin p.1.1 * spin p.1.2.1) := mul_nonneg (absSum_nonneg _) (mul_nonneg (hspin _ ha).le (hspin _ hb).le)
      have hsum : ∑ n, absSum p.2 * (spin p.1.1 * spin p.1.2.1) * (ρ * (dist2 (frame p.1.1) (σ p.1.1 n) +
          dist2 (frame p.1.2.1) (σ p.1.2.1 (n + τ p.1.2.2)))) ≤ absSum p.2 * (spin p.1.1 * spin p.1.2.1) * 2 * (ρ * TT) := by
        rw [← Finset.mul_sum, ← Finset.mul_sum, Finset.sum_add_distrib]
        have e : ∑ n, dist2 (frame p.1.2.1) (σ p.1.2.1 (n + τ p.1.2.2)) = T p.1.2.1 :=
          Equiv.sum_comp (Equiv.addRight (τ p.1.2.2)) fun n => dist2 (frame p.1.2.1) (σ p.1.2.1 n)
        rw [e, mul_assoc _ 2]
        refine mul_le_mul_of_nonneg_left ?_ hN
        have l1 : ∑ n, dist2 (frame p.1.1) (σ p.1.1 n) ≤ TT := hle _ ha
        have l2 := hle _ hb
        nlinarith
      refine le_trans ((Finset.abs_sum_le_sum_abs _ _).trans (Finset.sum_le_sum fun n _ => ?_)) hsum
      have := bond_expand (hf _ ha) (hf _ hb) (hspin _ ha) (hspin _ hb) (hu _ ha n) (hu _ hb (n + τ p.1.2.2)) p.2 hρ1 (hr _ ha n)
        (hr _ hb (n + τ p.1.2.2))
      simp only [smul_add, smul_smul] at this ⊢
      exact this
    refine (abs_list_sum _ hbond).trans (le_of_eq ?_)
    rw [hKd, List.sum_map_mul_right, mul_assoc]
  have hab := neg_le_of_abs_le hrem
  change E0 + (c * (3 * m / 8) - K * ρ) * ((t.magneticAtoms order).map T).sum ≤ E
  rw [← hTTd]
  nlinarith

/-! ### The converse -/

open Filter Topology Asymptotics

/-- The first-order coefficient of a function with a local minimum. -/
theorem first_zero {E0 E1 E2 : ℝ} {f : ℝ → ℝ} (hf : f =O[𝓝 0] fun ε : ℝ => ε ^ 2)
    (h : ∀ᶠ ε in 𝓝 (0 : ℝ), E0 ≤ E0 + ε * E1 + ε ^ 2 * E2 + f ε) : E1 = 0 := by
  obtain ⟨C, hC⟩ := hf.bound
  have hneg : Tendsto (fun ε : ℝ => -ε) (𝓝 0) (𝓝 0) := by
    have := (continuous_neg (G := ℝ)).tendsto 0
    rwa [neg_zero] at this
  have key : ∀ᶠ ε in 𝓝 (0 : ℝ), 0 ≤ ε * E1 + ε ^ 2 * (E2 + C) := by
    filter_upwards [h, hC] with ε a1 a2
    have e2 : ‖ε ^ 2‖ = ε ^ 2 := Real.norm_of_nonneg (by positivity)
    rw [e2] at a2
    have := (le_abs_self _).trans a2
    nlinarith
  have key' := hneg.eventually key
  have lim : ∀ D : ℝ, Tendsto (fun ε : ℝ => D + ε * (E2 + C)) (𝓝[>] 0) (𝓝 D) := by
    intro D
    have : Tendsto (fun ε : ℝ => D + ε * (E2 + C)) (𝓝 0) (𝓝 (D + 0 * (E2 + C))) := Continuous.tendsto (by fun_prop) 0
    have := this.mono_left (nhdsWithin_le_nhds (s := Set.Ioi 0))
    simpa using this
  have p1 : 0 ≤ E1 := by
    refine ge_of_tendsto (lim E1) ?_
    filter_upwards [key.filter_mono nhdsWithin_le_nhds, self_mem_nhdsWithin] with ε a1 a2
    have : 0 ≤ ε * (E1 + ε * (E2 + C)) := by nlinarith
    exact nonneg_of_mul_nonneg_right this a2
  have p2 : 0 ≤ -E1 := by
    refine ge_of_tendsto (lim (-E1)) ?_
    filter_upwards [key'.filter_mono nhdsWithin_le_nhds, self_mem_nhdsWithin] with ε a1 a2
    have : 0 ≤ ε * (-E1 + ε * (E2 + C)) := by nlinarith
    exact nonneg_of_mul_nonneg_right this a2
  linarith

/-- A minimum is a stationary state. -/
theorem stationary_of_minimum (hI : ObjSpec order lat pos spinVec s o t items) {spin : Atom → ℝ} {d : Atom → V3 ℝ}
    (hd : ∀ a ∈ t.magneticAtoms order, d a ⬝ᵥ d a = 1) (hphys : ∀ c : Config ℝ Γ, t.physics c spin = s.physics c spin)
    {τ : Cell →+ Γ} (hmin : s.LocalMinimum spin (t.magneticAtoms order) d τ) : t.Stationary spin d := by
  intro η hη
  let q : Atom → ℝ := fun a => η a ⬝ᵥ η a
  have hq : ∀ a, 0 ≤ q a := fun a => by
    simp only [q, dotProduct, Fin.sum_univ_three]
    nlinarith [sq_nonneg (η a 0), sq_nonneg (η a 1), sq_nonneg (η a 2)]
  let g : Atom → ℝ → ℝ := fun a ε => (Real.sqrt (1 + ε ^ 2 * q a))⁻¹
  let v : Atom → ℝ → V3 ℝ := fun a ε => d a + ε • η a
  let B : Bond × M3 ℝ → ℝ → ℝ := fun p ε => bilin (spin p.1.1 • v p.1.1 ε) p.2 (spin p.1.2.1 • v p.1.2.1 ε)
  let f : ℝ → ℝ := fun ε => ((likeItems t).map fun p => (g p.1.1 ε * g p.1.2.1 ε - 1) * B p ε).sum
  have hf : f =O[𝓝 0] fun ε : ℝ => ε ^ 2 := by
    refine isBigO_list_sum _ fun p _ => ?_
    have h1 : (fun ε => g p.1.1 ε * g p.1.2.1 ε - 1) =O[𝓝 0] fun ε : ℝ => ε ^ 2 := by
      refine IsBigO.of_bound (q p.1.1 + q p.1.2.1) (Eventually.of_forall fun ε => ?_)
      have h4 : (0 : ℝ) ≤ ε ^ 2 := by positivity
      have := norm_factors (mul_nonneg h4 (hq p.1.1)) (mul_nonneg h4 (hq p.1.2.1))
      rw [Real.norm_of_nonneg h4, Real.norm_eq_abs]
      refine this.trans (le_of_eq ?_)
      ring
    have h2 : (fun ε => B p ε) =O[𝓝 0] fun _ : ℝ => (1 : ℝ) := by
      refine (Continuous.tendsto (?_ : Continuous fun ε => B p ε) 0).isBigO_one ℝ
      simp only [B, v, bilin, Pi.smul_apply, Pi.add_apply, smul_eq_mul]
      fun_prop
    simpa using h1.mul h2
  obtain ⟨E0, hE0⟩ : ∃ E0 : ℝ, E0 = ((likeItems t).map fun p => bilin (spin p.1.1 • d p.1.1) p.2 (spin p.1.2.1 • d p.1.2.1)).sum := ⟨_, rfl⟩
  obtain ⟨E1, hE1⟩ : ∃ E1 : ℝ, E1 = ((likeItems t).map fun p => bilin (spin p.1.1 • d p.1.1) p.2 (spin p.1.2.1 • η p.1.2.1) +
          bilin (spin p.1.1 • η p.1.1) p.2 (spin p.1.2.1 • d p.1.2.1)).sum := ⟨_, rfl⟩
  obtain ⟨E2, hE2⟩ : ∃ E2 : ℝ, E2 = ((likeItems t).map fun p => bilin (spin p.1.1 • η p.1.1) p.2 (spin p.1.2.1 • η p.1.2.1)).sum := ⟨_, rfl⟩
  have hphysU : ∀ ε : ℝ, t.physics (uniform fun a => d a + ε • η a) spin = some (E0 + ε * E1 + ε ^ 2 * E2) := by
    intro ε
    rw [physics_uniform hI.flags, hE0, hE1, hE2]
  have hB : ∀ ε, ((likeItems t).map fun p => B p ε).sum = E0 + ε * E1 + ε ^ 2 * E2 := by
    intro ε
    have h1 := hphysU ε
    rw [energy_like hI.flags] at h1
    simpa [uniform, B, v] using Option.some.inj h1
  have hcard : (0 : ℝ) < Fintype.card Γ := by exact_mod_cast Fintype.card_pos
  have hconst : ∀ w : Atom → V3 ℝ, s.physics (⟨τ, fun a _ => w a⟩ : Config ℝ Γ) spin =
      some (Fintype.card Γ * ((likeItems t).map fun p => bilin (spin p.1.1 • w p.1.1) p.2 (spin p.1.2.1 • w p.1.2.1)).sum) := by
    intro w
    rw [← hphys, energy_like hI.flags]
    simp only [Finset.sum_const, Finset.card_univ, nsmul_eq_mul]
    rw [List.sum_map_mul_left]
  obtain ⟨δ, hδ, hm⟩ := hmin
  have h0 : E1 = 0 := by
    refine first_zero (E0 := E0) (E2 := E2) hf ?_
    have hclose : ∀ᶠ ε in 𝓝 (0 : ℝ), ∀ a ∈ (t.magneticAtoms order).toFinset, ∀ i, |(g a ε • v a ε) i - d a i| ≤ δ := by
      rw [Filter.eventually_all_finset]
      intro a _
      rw [eventually_all]
      intro i
      have hc : Continuous fun ε : ℝ => |(g a ε • v a ε) i - d a i| := by
        simp only [g, v, Pi.smul_apply, Pi.add_apply, smul_eq_mul]
        have : ∀ ε : ℝ, Real.sqrt (1 + ε ^ 2 * q a) ≠ 0 := fun ε => (Real.sqrt_pos.2 (by nlinarith [hq a, sq_nonneg ε, mul_nonneg (sq_nonneg ε) (hq a)])).ne'
        fun_prop (disch := assumption)
      have ht := hc.tendsto 0
      have h0 : g a 0 • v a 0 = d a := by simp [g, v]
      rw [h0, sub_self, abs_zero] at ht
      exact (ht.eventually (gt_mem_nhds hδ)).mono fun _ h => le_of_lt h
    filter_upwards [hclose] with ε hε
    have hunit : ∀ a ∈ t.magneticAtoms order, (g a ε • v a ε) ⬝ᵥ (g a ε • v a ε) = 1 := by
      intro a ha
      have e1 : v a ε ⬝ᵥ v a ε = 1 + ε ^ 2 * q a := by
        simp only [v, q, add_dotProduct, dotProduct_add, smul_dotProduct, dotProduct_smul, smul_eq_mul, hd a ha,
          dotProduct_comm (d a) (η a), hη a]
        ring
      rw [smul_dotProduct, dotProduct_smul, e1]
      simp only [g, smul_eq_mul]
      have h0 : 0 < 1 + ε ^ 2 * q a := by nlinarith [mul_nonneg (sq_nonneg ε) (hq a)]
      have h1 := Real.mul_self_sqrt h0.le
      have h2 := (Real.sqrt_pos.2 h0).ne'
      generalize 1 + ε ^ 2 * q a = y at h0 h1 h2 ⊢
      field_simp
      rw [sq, h1]
    have h1 := hm (fun a _ => g a ε • v a ε) (fun a ha n => ⟨hunit a ha, hε a (List.mem_toFinset.2 ha)⟩) _ _ (hconst d)
      (hconst fun a => g a ε • v a ε)
    have h2 := le_of_mul_le_mul_left h1 hcard
    rw [← hE0] at h2
    refine h2.trans (le_of_eq ?_)
    rw [← hB ε, ← List.sum_map_add]
    congr 1
    refine List.map_congr_left fun p _ => ?_
    simp only [B]
    rw [smul_comm, smul_comm (spin p.1.2.1), bilin_smul_smul]
    ring
  refine ⟨E0, E2, fun ε => ?_⟩
  rw [hphysU, h0]
  simp

/-- The squares of the deviations of a wave of unit vectors. -/
theorem unitWave_dist (lat : M3 ℝ) (pos : Atom → V3 ℝ) {frame : Atom → M3 ℝ} {spin : Atom → ℝ} (τ : Cell →+ Γ) (χ : Γ → ℂ)
    (k : V3 ℝ) (α β : Atom → ℂ) {ε : ℝ} {a : Atom} (hf : RightHanded (frame a)) (hS : 0 < spin a) (n : Γ)
    (hε : ε ^ 2 * (normSq (amplitude lat pos k χ α β a n) / spin a) ≤ 1) :
    ε ^ 2 * (2 / spin a * normSq (amplitude lat pos k χ α β a n)) ≤
      ((unitWave lat pos frame spin τ χ k α β ε).σ a n - frame a 2) ⬝ᵥ ((unitWave lat pos frame spin τ χ k α β ε).σ a n - frame a 2) := by
  have hu := unitWave_unit lat pos τ χ k α β ε hf hS n
  have h1 := dist2_eq hf hu
  have h02 : frame a 0 ⬝ᵥ frame a 2 = 0 := by simpa using hf.ortho 0 2
  have h12 : frame a 1 ⬝ᵥ frame a 2 = 0 := by simpa using hf.ortho 1 2
  have h22 : frame a 2 ⬝ᵥ frame a 2 = 1 := by simpa using hf.ortho 2 2
  have h3 : (unitWave lat pos frame spin τ χ k α β ε).σ a n ⬝ᵥ frame a 2 =
      (Real.sqrt (1 + ε ^ 4 * (normSq (amplitude lat pos k χ α β a n) / spin a) ^ 2))⁻¹ *
        (1 - ε ^ 2 * (normSq (amplitude lat pos k χ α β a n) / spin a)) := by
    simp only [unitWave, tilted, smul_dotProduct, sub_dotProduct, add_dotProduct, h02, h12, h22, smul_eq_mul]
    ring
  rw [h3] at h1
  obtain ⟨b1, b2, -⟩ := norm_factor (q := ε ^ 4 * (normSq (amplitude lat pos k χ α β a n) / spin a) ^ 2) (by positivity)
  change _ ≤ dist2 (frame a) ((unitWave lat pos frame spin τ χ k α β ε).σ a n)
  have e : 2 / spin a * normSq (amplitude lat pos k χ α β a n) = 2 * (normSq (amplitude lat pos k χ α β a n) / spin a) := by ring
  rw [e]
  generalize normSq (amplitude lat pos k χ α β a n) / spin a = w at h1 b1 b2 hε ⊢
  have : (Real.sqrt (1 + ε ^ 4 * w ^ 2))⁻¹ * (1 - ε ^ 2 * w) ≤ 1 * (1 - ε ^ 2 * w) :=
    mul_le_mul_of_nonneg_right b2 (sub_nonneg.2 hε)
  linarith

/-- If the energy grows with the squares of the deviations, so does its second-order part for every wave. -/
theorem wave_growth {spin : Atom → ℝ} {l : List Atom} (hn : t.getNotation = .ok (true, false, 1, 1))
    (hphys : ∀ c : Config ℝ Γ, t.physics c spin = s.physics c spin) (lat : M3 ℝ) (pos : Atom → V3 ℝ)
    {frame : Atom → M3 ℝ} (hf : ∀ a ∈ l, RightHanded (frame a)) (hS : ∀ a ∈ l, 0 < spin a) {τ : Cell →+ Γ} {c : ℝ} (hc : 0 ≤ c)
    (hmin : s.Grows spin l (fun a => frame a 2) τ c) (χ : Γ → ℂ) (k : V3 ℝ) (α β : Atom → ℂ)
    {E0 E1 E2 E3 E4 : ℝ} (hE : ∀ ε : ℝ, t.physics (wave lat pos frame spin τ χ k α β ε) spin =
      some (E0 + ε * E1 + ε ^ 2 * E2 + ε ^ 3 * E3 + ε ^ 4 * E4)) :
    c * (l.map fun a => 2 / spin a * ∑ n, normSq (amplitude lat pos k χ α β a n)).sum ≤ E2 := by
  obtain ⟨f, hf4, hfE⟩ := energy_unitWave hn lat pos frame spin τ χ k α β
  obtain ⟨δ, hδ, hm⟩ := hmin
  rw [← sub_nonneg]
  refine second_nonneg (E0 := E0) (E1 := E1) (E3 := E3) (E4 := E4) hf4 ?_
  have hclose := unitWave_close lat pos frame spin τ χ k α β l hδ
  have hsmall : ∀ᶠ ε in 𝓝 (0 : ℝ), ∀ a ∈ l.toFinset, ∀ n, ε ^ 2 * (normSq (amplitude lat pos k χ α β a n) / spin a) ≤ 1 := by
    rw [Filter.eventually_all_finset]
    intro a _
    rw [eventually_all]
    intro n
    have hc : Continuous fun ε : ℝ => ε ^ 2 * (normSq (amplitude lat pos k χ α β a n) / spin a) := by fun_prop
    have ht := hc.tendsto 0
    simp only [ne_eq, OfNat.ofNat_ne_zero, not_false_eq_true, zero_pow, zero_mul] at ht
    exact (ht.eventually (gt_mem_nhds one_pos)).mono fun _ h => le_of_lt h
  filter_upwards [hclose, hsmall] with ε hε hε'
  have h1 := hm (unitWave lat pos frame spin τ χ k α β ε).σ
    (fun a ha n => ⟨unitWave_unit lat pos τ χ k α β ε (hf a ha) (hS a ha) n, hε a ha n⟩) E0
    (E0 + ε * E1 + ε ^ 2 * E2 + ε ^ 3 * E3 + ε ^ 4 * E4 + f ε) (by
      rw [← hphys]
      have := hE 0
      simp only [wave, tilted_zero] at this
      rw [this]
      simp) (by rw [← hphys]; exact hfE ε _ (hE ε))
  have h2 : ε ^ 2 * (l.map fun a => 2 / spin a * ∑ n, normSq (amplitude lat pos k χ α β a n)).sum ≤
      (l.map fun a => ∑ n, ((unitWave lat pos frame spin τ χ k α β ε).σ a n - frame a 2) ⬝ᵥ
        ((unitWave lat pos frame spin τ χ k α β ε).σ a n - frame a 2)).sum := by
    rw [← List.sum_map_mul_left]
    refine list_sum_le _ fun a ha => ?_
    rw [Finset.mul_sum, Finset.mul_sum]
    exact Finset.sum_le_sum fun n _ => unitWave_dist lat pos τ χ k α β (hf a ha) (hS a ha) n (hε' a (List.mem_toFinset.2 ha) n)
  have h3 := mul_le_mul_of_nonneg_left h2 hc
  nlinarith

/-- The form of the magnon matrix in a firm minimum, for waves with the sums `WaveSums`. -/
theorem form_growth (h2 : ObjSpec order lat pos spinVec s o t items) (hsym : MagnonObj.Symmetric t) {spin : Atom → ℝ}
    (hpos : ∀ a ∈ t.magneticAtoms order, 0 < spin a)
    (hnorm : ∀ a ∈ t.magneticAtoms order, ∀ v, spinVec a = some v → EnergyObj.norm3 v = spin a)
    (hhand : ∀ a ∈ t.magneticAtoms order, RightHanded (Frame.span ((spinVec a).getD 0)))
    (hphys : ∀ c : Config ℝ Γ, t.physics c spin = s.physics c spin) {τ : Cell →+ Γ} {g : ℝ} (hg : 0 ≤ g)
    (hmin : s.Grows spin (t.magneticAtoms order) (fun a => Frame.span ((spinVec a).getD 0) 2) τ g) {M : ℝ} (hM : 0 < M)
    (hle : ∀ a ∈ t.magneticAtoms order, spin a ≤ M) {χ : Γ → ℂ} {k : V3 ℝ}
    {α β : Atom → ℂ} {c : ℝ} (hc : 0 < c)
    (hw : WaveSums lat pos k τ χ α β (fun a => Frame.span ((spinVec a).getD 0)) spin c) :
    g * (2 / M) * ∑ i, normSq (amps o (t.magneticAtoms order) α β i) ≤ (star (amps o (t.magneticAtoms order) α β) ⬝ᵥ
      ((o.callH t.cell k).1 *ᵥ amps o (t.magneticAtoms order) α β)).re := by
  obtain ⟨E0, E1, E3, E4, hE⟩ := energy_wave h2.flags lat pos (fun a => Frame.span ((spinVec a).getD 0)) (spin := spin)
    (fun p hp => ⟨hpos _ (h2.like_atoms hp).1, hpos _ (h2.like_atoms hp).2⟩) τ χ k α β
  have h0 := wave_growth h2.flags hphys lat pos hhand hpos hg hmin χ k α β hE
  have h1 := second_form h2 hsym hpos hnorm hw
  simp only [] at h1
  have h3 := congrArg Complex.re h1
  rw [Complex.ofReal_re, Complex.re_ofReal_mul] at h3
  rw [h3] at h0
  have hsq : ∀ a, ∑ n, normSq (amplitude lat pos k χ α β a n) = c * (normSq (α a) + normSq (β a)) := by
    intro a
    have := hw.sq a
    exact_mod_cast this
  simp only [hsq] at h0
  have hlow : c * ((2 / M) * ((t.magneticAtoms order).map fun a => normSq (α a) + normSq (β a)).sum) ≤
      ((t.magneticAtoms order).map fun a => 2 / spin a * (c * (normSq (α a) + normSq (β a)))).sum := by
    rw [← List.sum_map_mul_left, ← List.sum_map_mul_left]
    refine list_sum_le _ fun a ha => ?_
    have hν : 0 ≤ normSq (α a) + normSq (β a) := add_nonneg (normSq_nonneg _) (normSq_nonneg _)
    have : 2 / M ≤ 2 / spin a := div_le_div_of_nonneg_left zero_le_two (hpos a ha) (hle a ha)
    have := mul_le_mul_of_nonneg_right this (mul_nonneg hc.le hν)
    linarith
  have h4 := (mul_le_mul_of_nonneg_left hlow hg).trans h0
  rw [amps_norm h2.N]
  refine le_of_mul_le_mul_left (le_trans (le_of_eq ?_) h4) hc
  ring

theorem normSq_parallelogram (x y : ℂ) : normSq (x + y) + normSq (I * (x + -1 * y)) = 2 * (normSq x + normSq y) := by
  simp only [normSq_apply, Complex.add_re, Complex.add_im, Complex.mul_re, Complex.mul_im, Complex.I_re, Complex.I_im,
    Complex.neg_re, Complex.neg_im, Complex.one_re, Complex.one_im]
  ring

/-- The magnon matrix of a firm minimum is positive definite for all wave vectors of the supercell. -/
theorem posDef_of_firm (hord : ∀ l, (order l).Perm l) (h2 : ObjSpec order lat pos spinVec s o t items)
    (hsym : MagnonObj.Symmetric t) {spin : Atom → ℝ} (hpos : ∀ a ∈ t.magneticAtoms order, 0 < spin a)
    (hnorm : ∀ a ∈ t.magneticAtoms order, ∀ v, spinVec a = some v → EnergyObj.norm3 v = spin a)
    (hhand : ∀ a ∈ t.magneticAtoms order, RightHanded (Frame.span ((spinVec a).getD 0)))
    (hphys : ∀ c : Config ℝ Γ, t.physics c spin = s.physics c spin) {τ : Cell →+ Γ}
    (hmin : s.FirmMinimum spin (t.magneticAtoms order) (fun a => Frame.span ((spinVec a).getD 0) 2) τ) {χ : Γ → ℂ} {k : V3 ℝ}
    (hH : (o.callH t.cell k).1.IsHermitian) (hb : Bloch lat k τ χ) : (o.callH t.cell k).1.PosDef := by
  obtain ⟨g, hg, hmin⟩ := hmin
  obtain ⟨M, hM, hle⟩ : ∃ M : ℝ, 0 < M ∧ ∀ a ∈ t.magneticAtoms order, spin a ≤ M := by
    refine ⟨1 + ((t.magneticAtoms order).map spin).sum, ?_, fun a ha => ?_⟩
    · have : 0 ≤ ((t.magneticAtoms order).map spin).sum := List.sum_nonneg fun x hx => by
        obtain ⟨a, ha, rfl⟩ := List.mem_map.1 hx
        exact (hpos a ha).le
      linarith
    · have := List.single_le_sum (l := (t.magneticAtoms order).map spin) (fun x hx => by
        obtain ⟨a, ha, rfl⟩ := List.mem_map.1 hx
        exact (hpos a ha).le) _ (List.mem_map_of_mem ha)
      linarith
  have hcard : (0 : ℝ) < Fintype.card Γ := by exact_mod_cast Fintype.card_pos
  have hκ : 0 < g * (2 / M) := by positivity
  generalize hκd : g * (2 / M) = κ at hκ
  have main : ∀ x : Fin o.N ⊕ Fin o.N → ℂ, κ / 2 * ∑ i, normSq (x i) ≤ (star x ⬝ᵥ ((o.callH t.cell k).1 *ᵥ x)).re := by
    intro x
    obtain ⟨α, β, rfl⟩ := exists_amps h2 hord x
    by_cases htwo : ∀ n, χ n ^ 2 = 1
    · let θ := atomPhase lat pos k
      let α' : Atom → ℂ := fun a => star (β a * θ a) * star (θ a)
      let β' : Atom → ℂ := fun a => star (α a * θ a) * star (θ a)
      have hθ : ∀ a, star (θ a) * θ a = 1 := atomPhase_unit lat pos k
      have w1 : StandingWave lat pos k τ χ (fun a => α a + α' a) fun a => β a + β' a := by
        refine ⟨hb, htwo, fun a => ?_⟩
        show (α a + α' a) * θ a = star ((β a + β' a) * θ a)
        have := hθ a
        simp only [α', β', star_mul', star_add, star_star]
        linear_combination star (β a) * star (θ a) * this - α a * θ a * this
      have w2 : StandingWave lat pos k τ χ (fun a => I * (α a + -1 * α' a)) fun a => I * (β a + -1 * β' a) := by
        refine ⟨hb, htwo, fun a => ?_⟩
        show I * (α a + -1 * α' a) * θ a = star (I * (β a + -1 * β' a) * θ a)
        have := hθ a
        have hI : star I = -I := Complex.conj_I
        simp only [α', β', star_mul', star_add, star_star, hI, star_neg, star_one]
        linear_combination -I * star (β a) * star (θ a) * this - I * α a * θ a * this
      have n1 := form_growth h2 hsym hpos hnorm hhand hphys hg.le hmin hM hle (c := 2 * Fintype.card Γ) (by positivity)
        (by push_cast; exact w1.sums _ _)
      have n2 := form_growth h2 hsym hpos hnorm hhand hphys hg.le hmin hM hle (c := 2 * Fintype.card Γ) (by positivity)
        (by push_cast; exact w2.sums _ _)
      have hex := form_exchange h2 hsym hnorm hb htwo α β
      simp only [] at hex
      rw [amps_add] at n1
      rw [amps_smul, amps_add, amps_smul] at n2
      change star (amps o (t.magneticAtoms order) α' β') ⬝ᵥ ((o.callH t.cell k).1 *ᵥ amps o (t.magneticAtoms order) α' β') = _ at hex
      rw [hκd] at n1 n2
      generalize amps o (t.magneticAtoms order) α β = x at n1 n2 hex ⊢
      generalize amps o (t.magneticAtoms order) α' β' = y at n1 n2 hex
      generalize (o.callH t.cell k).1 = D at n1 n2 hex ⊢
      have e2 : star (I • (x + (-1 : ℂ) • y)) ⬝ᵥ (D *ᵥ (I • (x + (-1 : ℂ) • y))) =
          star x ⬝ᵥ (D *ᵥ x) + star y ⬝ᵥ (D *ᵥ y) - star x ⬝ᵥ (D *ᵥ y) - star y ⬝ᵥ (D *ᵥ x) := by
        simp only [star_smul, star_add, smul_dotProduct, add_dotProduct, mulVec_smul, mulVec_add, dotProduct_smul, dotProduct_add,
          smul_eq_mul, star_neg, star_one, show star I = -I from Complex.conj_I]
        linear_combination (star x ⬝ᵥ (D *ᵥ x) + star y ⬝ᵥ (D *ᵥ y) - star x ⬝ᵥ (D *ᵥ y) - star y ⬝ᵥ (D *ᵥ x)) * (-Complex.I_mul_I)
      have e1 : star (x + y) ⬝ᵥ (D *ᵥ (x + y)) =
          star x ⬝ᵥ (D *ᵥ x) + star y ⬝ᵥ (D *ᵥ y) + star x ⬝ᵥ (D *ᵥ y) + star y ⬝ᵥ (D *ᵥ x) := by
        simp only [star_add, add_dotProduct, mulVec_add, dotProduct_add]
        ring
      rw [e2, hex] at n2
      rw [e1, hex] at n1
      have e3 : ∑ i, normSq ((x + y) i) + ∑ i, normSq ((I • (x + (-1 : ℂ) • y)) i) = 2 * (∑ i, normSq (x i) + ∑ i, normSq (y i)) := by
        rw [← Finset.sum_add_distrib, ← Finset.sum_add_distrib, Finset.mul_sum]
        exact Finset.sum_congr rfl fun i _ => normSq_parallelogram (x i) (y i)
      have e4 : 0 ≤ ∑ i, normSq (y i) := Finset.sum_nonneg fun i _ => normSq_nonneg _
      have e5 : κ * (2 * (∑ i, normSq (x i) + ∑ i, normSq (y i))) =
          κ * ∑ i, normSq ((x + y) i) + κ * ∑ i, normSq ((I • (x + (-1 : ℂ) • y)) i) := by rw [← mul_add, e3]
      have e6 : 0 ≤ κ * ∑ i, normSq (y i) := mul_nonneg hκ.le e4
      simp only [Complex.add_re, Complex.sub_re] at n1 n2
      linarith
    · push_neg at htwo
      have hw : PlaneWave lat k τ χ := ⟨hb, htwo⟩
      have := form_growth h2 hsym hpos hnorm hhand hphys hg.le hmin hM hle hcard (hw.sums pos α β _ _)
      rw [hκd] at this
      have e4 : 0 ≤ κ * ∑ i, normSq (amps o (t.magneticAtoms order) α β i) :=
        mul_nonneg hκ.le (Finset.sum_nonneg fun i _ => normSq_nonneg _)
      linarith
  refine .of_dotProduct_mulVec_pos hH fun x hx => ?_
  have him : (star x ⬝ᵥ ((o.callH t.cell k).1 *ᵥ x)).im = 0 := by
    have e : star (star x ⬝ᵥ ((o.callH t.cell k).1 *ᵥ x)) = star x ⬝ᵥ ((o.callH t.cell k).1 *ᵥ x) := by
      rw [← star_dotProduct_star, star_star, star_mulVec, hH.eq, dotProduct_mulVec, dotProduct_comm]
    exact Complex.conj_eq_iff_im.1 e
  refine Complex.pos_iff.2 ⟨lt_of_lt_of_le (mul_pos (half_pos hκ) ?_) (main x), him.symm⟩
  obtain ⟨i, hi⟩ := Function.ne_iff.1 hx
  exact Finset.sum_pos' (fun i _ => normSq_nonneg _) ⟨i, Finset.mem_univ _, normSq_pos.2 hi⟩

end

end Magnopy
