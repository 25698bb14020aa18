import Verif.Lemmas.Jet
import Verif.Lemmas.Optimize
import Verif.Spec.Torque
import Mathlib.Analysis.Calculus.FDeriv.Pi
import Mathlib.Analysis.Calculus.Deriv.Pi
import Mathlib.Analysis.Calculus.Deriv.Prod
import Mathlib.Analysis.Calculus.FDeriv.Mul
import Mathlib.Analysis.Calculus.FDeriv.Add
import Mathlib.Analysis.Calculus.Deriv.Inv
import Mathlib.Analysis.SpecialFunctions.Sqrt

/-!
# Torques of the finite differences

`Good x i f B`: the function `f` of the rows is differentiable at `x`, and along the three components of row `i` it has
a second-order expansion of size `B` (`Verif/Lemmas/Jet.lean`).
-/

set_option autoImplicit false

set_option linter.unusedSectionVars false

namespace Magnopy.Optimize

open EnergyObj Matrix

variable {n : ℕ}

/-- The rows `x` with `t` added to component `j` of row `i`. -/
def shift (x : Fin n → V3 ℝ) (i : Fin n) (j : Fin 3) (t : ℝ) : Fin n → V3 ℝ := Function.update x i (bump (x i) j t)

/-- Differentiable, with bounded expansions along row `i`. -/
def Good (x : Fin n → V3 ℝ) (i : Fin n) (f : (Fin n → V3 ℝ) → ℝ) (B : ℝ) : Prop :=
  DifferentiableAt ℝ f x ∧ ∀ j, Jet (fun t => f (shift x i j t)) B

/-! ### Vectors -/

theorem cauchy3 (u v : V3 ℝ) : (u ⬝ᵥ v) ^ 2 ≤ (u ⬝ᵥ u) * (v ⬝ᵥ v) := by
  simp only [dotProduct, Fin.sum_univ_three]
  nlinarith [sq_nonneg (u 0 * v 1 - u 1 * v 0), sq_nonneg (u 0 * v 2 - u 2 * v 0), sq_nonneg (u 1 * v 2 - u 2 * v 1)]

theorem dot_self_nonneg (u : V3 ℝ) : 0 ≤ u ⬝ᵥ u := by
  simp only [dotProduct, Fin.sum_univ_three]
  nlinarith [sq_nonneg (u 0), sq_nonneg (u 1), sq_nonneg (u 2)]

theorem abs_dot_le {u v : V3 ℝ} (hu : u ⬝ᵥ u ≤ 1) (hv : v ⬝ᵥ v ≤ 1) : |u ⬝ᵥ v| ≤ 1 := by
  have h := cauchy3 u v
  have hu0 : 0 ≤ u ⬝ᵥ u := dot_self_nonneg u
  have hv0 : 0 ≤ v ⬝ᵥ v := dot_self_nonneg v
  have : (u ⬝ᵥ v) ^ 2 ≤ 1 := h.trans (mul_le_one₀ hu hv0 hv)
  exact (sq_le_one_iff_abs_le_one _).mp this

theorem basis_dot (a : Fin 3) (v : V3 ℝ) : Pi.single a 1 ⬝ᵥ v = v a := by simp

theorem abs_component_le {v : V3 ℝ} (hv : IsUnit3 v) (a : Fin 3) : |v a| ≤ 1 := by
  rw [← basis_dot a v]
  exact abs_dot_le (by simp) hv.le

theorem bump_dot (v e : V3 ℝ) (j : Fin 3) (t : ℝ) : bump v j t ⬝ᵥ e = v ⬝ᵥ e + t * e j := by
  simp only [dotProduct, bump, Fin.sum_univ_three]
  fin_cases j <;> simp <;> ring

theorem bump_norm {v : V3 ℝ} (hv : IsUnit3 v) (j : Fin 3) (t : ℝ) :
    norm3 (bump v j t) = Real.sqrt (1 + 2 * v j * t + t ^ 2) := by
  rw [norm3]
  congr 1
  have h : v ⬝ᵥ v = 1 := hv
  simp only [dotProduct, Fin.sum_univ_three] at h
  simp only [bump]
  fin_cases j <;> simp <;> linear_combination h

/-- The component of a moved unit vector along a fixed vector. -/
theorem jet_moved {v e : V3 ℝ} (hv : IsUnit3 v) (he : e ⬝ᵥ e ≤ 1) (j : Fin 3) :
    Jet (fun t => normalize (bump v j t) ⬝ᵥ e) 6 := by
  have hm : |v j| ≤ 1 := abs_component_le hv j
  have hv' : v ⬝ᵥ v = 1 := hv
  obtain ⟨m, hmd⟩ : ∃ m, m = v j := ⟨_, rfl⟩
  obtain ⟨b, hb⟩ : ∃ b, b = (3 * m ^ 2 - 1) / 2 := ⟨_, rfl⟩
  rw [← hmd] at hm
  have hm2 : m ^ 2 ≤ 1 := (sq_le_one_iff_abs_le_one m).mpr hm
  have hb1 : |b| ≤ 1 := abs_le.mpr ⟨by rw [hb]; nlinarith [sq_nonneg m], by rw [hb]; linarith⟩
  have hej : |e j| ≤ 1 := by
    rw [← basis_dot j e]; exact abs_dot_le (by simp) he
  have hp : |v ⬝ᵥ e| ≤ 1 := abs_dot_le hv'.le he
  have h1 : |e j - m * (v ⬝ᵥ e)| ≤ 1 := by
    have e1 : e j - m * (v ⬝ᵥ e) = (Pi.single j 1 - m • v) ⬝ᵥ e := by
      rw [sub_dotProduct, smul_dotProduct, basis_dot, smul_eq_mul]
    rw [e1]
    refine abs_dot_le ?_ he
    have e2 : (Pi.single j 1 - m • v) ⬝ᵥ (Pi.single j 1 - m • v) = 1 - 2 * (m * v j) + m ^ 2 * (v ⬝ᵥ v) := by
      simp only [sub_dotProduct, dotProduct_sub, smul_dotProduct, dotProduct_smul, smul_eq_mul, basis_dot,
        dotProduct_single_one]
      simp
      ring
    rw [e2, hv', ← hmd]; nlinarith [sq_nonneg m]
  have h2 : |b * (v ⬝ᵥ e) - m * e j| ≤ 1 := by
    have e1 : b * (v ⬝ᵥ e) - m * e j = (b • v - m • Pi.single j 1) ⬝ᵥ e := by
      rw [sub_dotProduct, smul_dotProduct, smul_dotProduct, basis_dot, smul_eq_mul, smul_eq_mul]
    rw [e1]
    refine abs_dot_le ?_ he
    have e2 : (b • v - m • Pi.single j 1) ⬝ᵥ (b • v - m • Pi.single j 1) =
        b ^ 2 * (v ⬝ᵥ v) - 2 * (b * m * v j) + m ^ 2 := by
      simp only [sub_dotProduct, dotProduct_sub, smul_dotProduct, dotProduct_smul, smul_eq_mul, basis_dot,
        dotProduct_single_one]
      simp
      ring
    rw [e2, hv', ← hmd, hb]; nlinarith [sq_nonneg m, sq_nonneg (m ^ 2 - 1), mul_nonneg (sq_nonneg m) (sq_nonneg m)]
  refine ⟨v ⬝ᵥ e, e j - m * (v ⬝ᵥ e), b * (v ⬝ᵥ e) - m * e j, 3, by norm_num, by linarith, fun t ht => ?_⟩
  obtain ⟨hs, hr⟩ := rsqrt_bound hm ht
  rw [← hb] at hr
  show |normalize (bump v j t) ⬝ᵥ e - _| ≤ _
  rw [normalize_eq, smul_dotProduct, bump_dot, bump_norm hv, smul_eq_mul, ← hmd, inv_eq_one_div]
  obtain ⟨r, hrd⟩ : ∃ r, r = 1 / Real.sqrt (1 + 2 * m * t + t ^ 2) := ⟨_, rfl⟩
  rw [← hrd] at hr ⊢
  have e1 : r * (v ⬝ᵥ e + t * e j) - (v ⬝ᵥ e + (e j - m * (v ⬝ᵥ e)) * t + (b * (v ⬝ᵥ e) - m * e j) * t ^ 2) =
      (r - (1 - m * t + b * t ^ 2)) * (v ⬝ᵥ e + t * e j) + b * e j * t ^ 3 := by ring
  have h3 : |v ⬝ᵥ e + t * e j| ≤ 11 / 10 := by
    have h4 := abs_add_le (v ⬝ᵥ e) (t * e j)
    have h5 : |t * e j| ≤ 1 / 100 * 1 := by
      rw [abs_mul]; exact mul_le_mul ht hej (abs_nonneg _) (by norm_num)
    linarith
  have t3 : 0 ≤ |t| ^ 3 := by positivity
  have h6 : |(r - (1 - m * t + b * t ^ 2)) * (v ⬝ᵥ e + t * e j)| ≤ 6 / 5 * |t| ^ 3 * (11 / 10) := by
    rw [abs_mul]; exact mul_le_mul hr h3 (abs_nonneg _) (by positivity)
  have h7 : |b * e j * t ^ 3| ≤ 1 * |t| ^ 3 := by
    rw [abs_mul, abs_pow]
    refine mul_le_mul_of_nonneg_right ?_ t3
    rw [abs_mul]; exact mul_le_one₀ hb1 (abs_nonneg _) hej
  rw [e1]
  have := abs_add_le ((r - (1 - m * t + b * t ^ 2)) * (v ⬝ᵥ e + t * e j)) (b * e j * t ^ 3)
  linarith

theorem bump_ne_zero {v : V3 ℝ} (hv : IsUnit3 v) (j : Fin 3) {t : ℝ} (ht : |t| ≤ 1 / 100) : bump v j t ≠ 0 := by
  intro h
  have h1 := bump_norm hv j t
  rw [h] at h1
  have h2 := (rsqrt_bound (abs_component_le hv j) ht).1
  have h3 := Real.sqrt_pos.mpr h2
  rw [← h1] at h3
  simp [norm3] at h3

theorem differentiableAt_normalize {v : V3 ℝ} (hv : v ≠ 0) (a : Fin 3) :
    DifferentiableAt ℝ (fun u : V3 ℝ => normalize u a) v := by
  have hpos := norm3_pos hv
  have h0 : v 0 ^ 2 + v 1 ^ 2 + v 2 ^ 2 ≠ 0 := by
    rw [norm3] at hpos
    exact (Real.sqrt_pos.mp hpos).ne'
  have hc : ∀ b : Fin 3, DifferentiableAt ℝ (fun u : V3 ℝ => u b) v := fun b => differentiableAt_apply b v
  have hn : DifferentiableAt ℝ (fun u : V3 ℝ => norm3 u) v := by
    unfold norm3
    exact ((((hc 0).pow 2).add ((hc 1).pow 2)).add ((hc 2).pow 2)).sqrt h0
  simp only [EnergyObj.normalize, div_eq_mul_inv]
  exact (hc a).mul (hn.fun_inv hpos.ne')

/-! ### Closure -/

namespace Good

variable {x : Fin n → V3 ℝ} {i : Fin n} {f g : (Fin n → V3 ℝ) → ℝ} {A B : ℝ}

theorem mono (h : Good x i f A) (hAB : A ≤ B) : Good x i f B := ⟨h.1, fun j => (h.2 j).mono hAB⟩

theorem nonneg (h : Good x i f A) : 0 ≤ A := (h.2 0).nonneg

theorem const {c : ℝ} (h : |c| ≤ B) : Good x i (fun _ => c) B := ⟨differentiableAt_const c, fun _ => .const h⟩

theorem add (hf : Good x i f A) (hg : Good x i g B) : Good x i (fun z => f z + g z) (A + B) :=
  ⟨hf.1.add hg.1, fun j => (hf.2 j).add (hg.2 j)⟩

theorem sub (hf : Good x i f A) (hg : Good x i g B) : Good x i (fun z => f z - g z) (A + B) :=
  ⟨hf.1.sub hg.1, fun j => (hf.2 j).sub (hg.2 j)⟩

theorem mul (hf : Good x i f A) (hg : Good x i g B) : Good x i (fun z => f z * g z) (A * B) :=
  ⟨hf.1.mul hg.1, fun j => (hf.2 j).mul (hg.2 j)⟩

theorem const_mul (c : ℝ) (hf : Good x i f B) : Good x i (fun z => c * f z) (|c| * B) :=
  (const le_rfl).mul hf

/-- Functions equal wherever no row is zero. -/
theorem congr (hx : ∀ k, IsUnit3 (x k)) (hf : Good x i f B) (h : ∀ z : Fin n → V3 ℝ, (∀ k, z k ≠ 0) → g z = f z) :
    Good x i g B := by
  have hne : ∀ k, x k ≠ 0 := fun k h0 => by
    have := hx k
    rw [h0] at this
    simp [IsUnit3] at this
  refine ⟨hf.1.congr_of_eventuallyEq ?_, fun j => (hf.2 j).congr fun t ht => h _ fun k => ?_⟩
  · have hopen : ∀ᶠ z in nhds x, ∀ k, z k ≠ 0 := by
      refine Filter.eventually_all.mpr fun k => ?_
      exact (continuous_apply k).continuousAt.eventually_ne (hne k)
    exact hopen.mono fun z hz => h z hz
  · rw [shift]
    by_cases hk : k = i
    · subst hk
      rw [Function.update_self]
      exact bump_ne_zero (hx k) j ht
    · rw [Function.update_of_ne hk]
      exact hne k

theorem sum {ι : Type*} (s : Finset ι) (F : ι → (Fin n → V3 ℝ) → ℝ) (b : ι → ℝ) (h : ∀ k ∈ s, Good x i (F k) (b k)) :
    Good x i (fun z => ∑ k ∈ s, F k z) (∑ k ∈ s, b k) := by
  classical
  induction s using Finset.induction_on with
  | empty => simpa using const (x := x) (i := i) (c := 0) (B := 0) (by simp)
  | insert a s ha ih =>
    simp only [Finset.sum_insert ha]
    exact (h a (Finset.mem_insert_self a s)).add (ih fun k hk => h k (Finset.mem_insert_of_mem hk))

theorem listSum {ι : Type*} (l : List ι) (F : ι → (Fin n → V3 ℝ) → ℝ) (b : ι → ℝ) (h : ∀ k ∈ l, Good x i (F k) (b k)) :
    Good x i (fun z => (l.map fun k => F k z).sum) ((l.map b).sum) := by
  induction l with
  | nil => simpa using const (x := x) (i := i) (c := 0) (B := 0) (by simp)
  | cons a l ih =>
    simp only [List.map_cons, List.sum_cons]
    exact (h a List.mem_cons_self).add (ih fun k hk => h k (List.mem_cons_of_mem _ hk))

/-- The component of the direction of row `k` along a fixed vector. -/
theorem row (hx : ∀ k, IsUnit3 (x k)) (k : Fin n) {e : V3 ℝ} (he : e ⬝ᵥ e ≤ 1) :
    Good x i (fun z => normalize (z k) ⬝ᵥ e) (if k = i then 6 else 1) := by
  have hne : x k ≠ 0 := fun h0 => by
    have := hx k
    rw [h0] at this
    simp [IsUnit3] at this
  refine ⟨?_, fun j => ?_⟩
  · have h1 : ∀ a, DifferentiableAt ℝ (fun z : Fin n → V3 ℝ => normalize (z k) a) x := fun a =>
      DifferentiableAt.fun_comp' (g := fun u : V3 ℝ => normalize u a) (f := fun z : Fin n → V3 ℝ => z k) x
        (differentiableAt_normalize hne a) (differentiableAt_apply k x)
    simp only [dotProduct, Fin.sum_univ_three]
    exact (((h1 0).mul_const _).add ((h1 1).mul_const _)).add ((h1 2).mul_const _)
  · by_cases hk : k = i
    · subst hk
      rw [if_pos rfl]
      simpa only [shift, Function.update_self] using jet_moved (hx k) he j
    · rw [if_neg hk]
      simp only [shift, Function.update_of_ne hk, normalize_of_unit (hx k)]
      exact .const (abs_dot_le (hx k).le he)

theorem bilin {u v : (Fin n → V3 ℝ) → V3 ℝ} (J : M3 ℝ) (hu : ∀ a, Good x i (fun z => u z a) A)
    (hv : ∀ a, Good x i (fun z => v z a) B) :
    Good x i (fun z => Magnopy.bilin (u z) J (v z)) (A * B * ∑ a, ∑ b, |J a b|) := by
  have h := sum (x := x) (i := i) Finset.univ (fun a z => ∑ b, u z a * J a b * v z b)
    (fun a => ∑ b, A * |J a b| * B) fun a _ => sum Finset.univ _ _ fun b _ =>
      ((hu a).mul (const (c := J a b) le_rfl)).mul (hv b)
  refine h.mono (le_of_eq ?_)
  rw [Finset.mul_sum]
  refine Finset.sum_congr rfl fun a _ => ?_
  rw [Finset.mul_sum]
  exact Finset.sum_congr rfl fun b _ => by ring

end Good

/-! ### Torques -/

/-- The unit vector of component `j` of row `i`. -/
def unitRow (i : Fin n) (j : Fin 3) : Fin n → V3 ℝ := Pi.single i (Pi.single j 1 : V3 ℝ)

theorem shift_eq (x : Fin n → V3 ℝ) (i : Fin n) (j : Fin 3) (t : ℝ) :
    shift x i j t = x + t • unitRow i j := by
  unfold unitRow
  funext k
  by_cases hk : k = i
  · subst hk
    funext c
    simp only [shift, Function.update_self, bump, Pi.add_apply, Pi.smul_apply, Pi.single_eq_same, smul_eq_mul]
    by_cases hc : c = j
    · subst hc; simp
    · simp [hc]
  · simp [shift, Function.update_of_ne hk, hk]

theorem set_eq_ofFn (x : List (V3 ℝ)) (i : Fin x.length) (j : Fin 3) (t : ℝ) :
    x.set i (bump (x.getD i 0) j t) = List.ofFn (shift (fun k : Fin x.length => x[k]) i j t) := by
  refine List.ext_getElem (by simp) fun k h1 h2 => ?_
  have hk : k < x.length := by simpa using h1
  rw [List.getElem_ofFn, List.getElem_set]
  simp only [shift]
  by_cases hik : (i : ℕ) = k
  · subst hik
    simp [List.getD]
  · rw [if_neg hik, Function.update_of_ne]
    · rfl
    · intro h
      exact hik (congrArg Fin.val h).symm

/-- The torque of the finite differences is the torque up to the errors of the differences. -/
theorem torques_of_good (F : List (V3 ℝ) → ℝ) (x : List (V3 ℝ)) (hx : AllUnit x) (C : ℕ → ℝ)
    (hG : ∀ i : Fin x.length, Good (fun k : Fin x.length => x[k]) i (fun z => F (List.ofFn z)) (C i)) :
    ∃ T : ℕ → V3 ℝ,
      (∀ (w : ℕ → V3 ℝ) (y : ℕ → ℝ → V3 ℝ),
        (∀ i < x.length, y i 0 = x.getD i 0 ∧ HasDerivAt (y i) (crossProduct (w i) (x.getD i 0)) 0) →
        HasDerivAt (fun t => F ((List.range x.length).map fun i => y i t))
          (∑ i ∈ Finset.range x.length, w i ⬝ᵥ T i) 0) ∧
      ∀ i < x.length, ∀ c, |rowTorque F x i c - T i c| ≤ 2 * C i * fdStep ^ 2 := by
  set x0 : Fin x.length → V3 ℝ := fun k => x[k] with hx0
  set L := fderiv ℝ (fun z => F (List.ofFn z)) x0 with hL
  have hxu : ∀ k, IsUnit3 (x0 k) := fun k => hx _ (List.getElem_mem _)
  have hgetD : ∀ k : Fin x.length, x.getD k 0 = x0 k := fun k => by simp [List.getD, hx0]
  let D : Fin x.length → V3 ℝ := fun i j => L (unitRow i j)
  refine ⟨fun i => if h : i < x.length then crossProduct (x0 ⟨i, h⟩) (D ⟨i, h⟩) else 0, fun w y hy => ?_, fun i hi c => ?_⟩
  · have hz : HasDerivAt (fun t => fun k : Fin x.length => y k t) (fun k : Fin x.length => crossProduct (w k) (x0 k)) 0 := by
      rw [hasDerivAt_pi]
      intro k
      have := (hy k k.isLt).2
      rwa [hgetD k] at this
    have hz0 : (fun k : Fin x.length => y k 0) = x0 := by
      funext k
      rw [(hy k k.isLt).1, hgetD]
    by_cases hne : Nonempty (Fin x.length)
    · obtain ⟨i0⟩ := hne
      have hd : HasFDerivAt (fun z => F (List.ofFn z)) L (fun k : Fin x.length => y k 0) := by
        rw [hz0]; exact (hG i0).1.hasFDerivAt
      have hc := hd.comp_hasDerivAt (0 : ℝ) hz
      have hfun : (fun t => F ((List.range x.length).map fun i => y i t)) =
          (fun z => F (List.ofFn z)) ∘ fun t => fun k : Fin x.length => y k t := by
        funext t
        have : (List.range x.length).map (fun i => y i t) = List.ofFn fun k : Fin x.length => y k t := by
          refine List.ext_getElem (by simp) fun k h1 h2 => by simp
        simp only [Function.comp_apply, this]
      rw [hfun]
      suffices hval : ∑ i ∈ Finset.range x.length, w i ⬝ᵥ
          (if h : i < x.length then crossProduct (x0 ⟨i, h⟩) (D ⟨i, h⟩) else 0) =
          L fun k : Fin x.length => crossProduct (w k) (x0 k) by
        rw [hval]; exact hc
      rw [Finset.sum_range]
      have hsum : (fun k : Fin x.length => crossProduct (w k) (x0 k)) =
          ∑ k : Fin x.length, ∑ j : Fin 3, (crossProduct (w k) (x0 k) j) • unitRow k j := by
        funext k a
        simp only [Finset.sum_apply, Pi.smul_apply, smul_eq_mul, unitRow]
        rw [Finset.sum_eq_single k]
        · rw [Finset.sum_eq_single a]
          · simp
          · intro b _ hb
            simp [Ne.symm hb]
          · simp
        · intro b _ hb
          simp [Pi.single_eq_of_ne (Ne.symm hb)]
        · simp
      rw [hsum, map_sum]
      refine Finset.sum_congr rfl fun k _ => ?_
      rw [dif_pos k.isLt, map_sum]
      simp only [map_smul, smul_eq_mul]
      show w k ⬝ᵥ crossProduct (x0 k) (D k) = ∑ j, crossProduct (w k) (x0 k) j * D k j
      simp only [cross_apply, dotProduct, Fin.sum_univ_three, cons_val_zero, cons_val_one, cons_val]
      ring
    · have h0 : x.length = 0 := by
        by_contra h
        exact hne ⟨⟨0, Nat.pos_of_ne_zero h⟩⟩
      simp only [h0, List.range_zero, List.map_nil, Finset.range_zero, Finset.sum_empty]
      exact hasDerivAt_const _ _
  · show |rowTorque F x i c - (if h : i < x.length then crossProduct (x0 ⟨i, h⟩) (D ⟨i, h⟩) else 0 : V3 ℝ) c| ≤ _
    rw [dif_pos hi]
    have hgrad : ∀ j, |rowGrad F x i j - D ⟨i, hi⟩ j| ≤ C i * fdStep ^ 2 := by
      intro j
      obtain ⟨d, hd, hcen⟩ := ((hG ⟨i, hi⟩).2 j).central
      have hD : HasDerivAt (fun t => F (List.ofFn (shift x0 ⟨i, hi⟩ j t))) (D ⟨i, hi⟩ j) 0 := by
        have h1 : HasDerivAt (fun t : ℝ => shift x0 ⟨i, hi⟩ j t) (unitRow ⟨i, hi⟩ j) 0 := by
          have h2 := ((hasDerivAt_id (0 : ℝ)).smul_const
            (unitRow (⟨i, hi⟩ : Fin x.length) j)).const_add x0
          rw [one_smul] at h2
          have h6 : (fun t : ℝ => shift x0 ⟨i, hi⟩ j t) = fun t => x0 + id t • unitRow ⟨i, hi⟩ j :=
            funext fun t => shift_eq x0 ⟨i, hi⟩ j t
          rw [h6]
          exact h2
        have h3 : HasFDerivAt (fun z => F (List.ofFn z)) L (shift x0 ⟨i, hi⟩ j 0) := by
          rw [shift_eq, zero_smul, add_zero]
          exact (hG ⟨i, hi⟩).1.hasFDerivAt
        exact h3.comp_hasDerivAt (0 : ℝ) h1
      rw [hd.unique hD] at hcen
      have h4 := hcen fdStep (by unfold fdStep; norm_num) (by unfold fdStep; norm_num)
      have h5 : ∀ t, x.set i (bump (x.getD i 0) j t) = List.ofFn (shift x0 ⟨i, hi⟩ j t) := fun t =>
        set_eq_ofFn x ⟨i, hi⟩ j t
      simp only [rowGrad, h5]
      exact h4
    have hxi : x.getD i 0 = x0 ⟨i, hi⟩ := hgetD ⟨i, hi⟩
    have hcomp := abs_component_le (hxu ⟨i, hi⟩)
    have key : ∀ p q p' q' u v : ℝ, |u| ≤ 1 → |v| ≤ 1 → |p - p'| ≤ C i * fdStep ^ 2 → |q - q'| ≤ C i * fdStep ^ 2 →
        |u * p - v * q - (u * p' - v * q')| ≤ 2 * C i * fdStep ^ 2 := by
      intro p q p' q' u v hu hv hp hq
      have e : u * p - v * q - (u * p' - v * q') = u * (p - p') - v * (q - q') := by ring
      rw [e]
      have h1 := abs_sub (u * (p - p')) (v * (q - q'))
      rw [abs_mul, abs_mul] at h1
      have h2 := mul_le_mul hu hp (abs_nonneg _) zero_le_one
      have h3 := mul_le_mul hv hq (abs_nonneg _) zero_le_one
      linarith
    rw [rowTorque, hxi, cross_apply, cross_apply]
    fin_cases c
    · exact key _ _ _ _ _ _ (hcomp 1) (hcomp 2) (hgrad 2) (hgrad 1)
    · exact key _ _ _ _ _ _ (hcomp 2) (hcomp 0) (hgrad 0) (hgrad 2)
    · exact key _ _ _ _ _ _ (hcomp 0) (hcomp 1) (hgrad 1) (hgrad 0)

end Magnopy.Optimize
