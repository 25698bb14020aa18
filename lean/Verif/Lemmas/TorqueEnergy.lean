import Verif.Lemmas.Torque

/-!
# The energies as functions of single rows

Bounds of the second-order expansions of the energies of `Energy` along one spin or along the cone axis.
-/

set_option autoImplicit false

set_option linter.unusedSectionVars false

namespace Magnopy.Optimize

open EnergyObj Matrix

variable {n : ℕ}

/-- Every component (along vectors of length at most one) has an expansion of size `B`. -/
def Moving (x : Fin n → V3 ℝ) (i : Fin n) (u : (Fin n → V3 ℝ) → V3 ℝ) (B : ℝ) : Prop :=
  ∀ e : V3 ℝ, e ⬝ᵥ e ≤ 1 → Good x i (fun z => u z ⬝ᵥ e) B

/-- Differentiable, of length at most one and independent of row `i`. -/
def Fixed (x : Fin n → V3 ℝ) (i : Fin n) (v : (Fin n → V3 ℝ) → V3 ℝ) : Prop :=
  (∀ a, DifferentiableAt ℝ (fun z => v z a) x) ∧
    ∃ v0 : V3 ℝ, v0 ⬝ᵥ v0 ≤ 1 ∧ ∀ j t, v (shift x i j t) = v0

variable {x : Fin n → V3 ℝ} {i : Fin n} {u v : (Fin n → V3 ℝ) → V3 ℝ} {B : ℝ}

theorem Moving.comp (h : Moving x i u B) (a : Fin 3) : Good x i (fun z => u z a) B := by
  have := h (Pi.single a 1) (by simp)
  simpa using this

theorem Moving.mono {A : ℝ} (h : Moving x i u A) (hAB : A ≤ B) : Moving x i u B := fun e he => (h e he).mono hAB

theorem Fixed.moving (h : Fixed x i v) : Moving x i v 1 := by
  obtain ⟨hd, v0, h0, hs⟩ := h
  intro e he
  refine ⟨?_, fun j => ?_⟩
  · simp only [dotProduct, Fin.sum_univ_three]
    exact (((hd 0).mul_const _).add ((hd 1).mul_const _)).add ((hd 2).mul_const _)
  · simp only [hs]
    exact .const (abs_dot_le h0 he)

theorem Moving.dot (hu : Moving x i u B) (hv : Fixed x i v) : Good x i (fun z => u z ⬝ᵥ v z) B := by
  obtain ⟨hd, v0, h0, hs⟩ := hv
  refine ⟨?_, fun j => ?_⟩
  · simp only [dotProduct, Fin.sum_univ_three]
    exact (((hu.comp 0).1.mul (hd 0)).add ((hu.comp 1).1.mul (hd 1))).add ((hu.comp 2).1.mul (hd 2))
  · simp only [hs]
    exact (hu v0 h0).2 j

/-- The component of a fixed vector perpendicular to a basis vector, turned by a right angle. -/
theorem Fixed.cross (hv : Fixed x i v) (a : Fin 3) : Fixed x i fun z => crossProduct (v z) (Pi.single a 1) := by
  obtain ⟨hd, v0, h0, hs⟩ := hv
  refine ⟨fun b => ?_, crossProduct v0 (Pi.single a 1), ?_, fun j t => by simp only [hs]⟩
  · simp only [cross_apply]
    fin_cases b
    · exact ((hd 1).mul_const _).sub ((hd 2).mul_const _)
    · exact ((hd 2).mul_const _).sub ((hd 0).mul_const _)
    · exact ((hd 0).mul_const _).sub ((hd 1).mul_const _)
  · simp only [dotProduct, Fin.sum_univ_three] at h0
    simp only [cross_apply, dotProduct, Fin.sum_univ_three, cons_val_zero, cons_val_one, cons_val]
    fin_cases a <;> simp <;> nlinarith [sq_nonneg (v0 0), sq_nonneg (v0 1), sq_nonneg (v0 2)]

/-- The projection of a basis vector on the plane perpendicular to a fixed vector. -/
theorem Fixed.plane (hv : Fixed x i v) (a : Fin 3) : Fixed x i fun z => Pi.single a 1 - v z a • v z := by
  obtain ⟨hd, v0, h0, hs⟩ := hv
  refine ⟨fun b => ?_, Pi.single a 1 - v0 a • v0, ?_, fun j t => by simp only [hs]⟩
  · simp only [Pi.sub_apply, Pi.smul_apply, smul_eq_mul]
    exact ((hd a).mul (hd b)).const_sub _
  · have e : (Pi.single a 1 - v0 a • v0) ⬝ᵥ (Pi.single a 1 - v0 a • v0) =
        1 - 2 * v0 a ^ 2 + v0 a ^ 2 * (v0 ⬝ᵥ v0) := by
      simp only [sub_dotProduct, dotProduct_sub, smul_dotProduct, dotProduct_smul, smul_eq_mul, basis_dot,
        dotProduct_single_one]
      simp
      ring
    rw [e]
    nlinarith [mul_nonneg (sq_nonneg (v0 a)) (sub_nonneg.mpr h0), sq_nonneg (v0 a)]

/-! ### Rows -/

theorem moving_row (hx : ∀ k, IsUnit3 (x k)) (i : Fin n) : Moving x i (fun z => normalize (z i)) 6 := by
  intro e he
  simpa using Good.row (i := i) hx i he

theorem fixed_row (hx : ∀ k, IsUnit3 (x k)) {k : Fin n} (hk : k ≠ i) : Fixed x i fun z => normalize (z k) := by
  refine ⟨fun a => ?_, x k, (hx k).le, fun j t => ?_⟩
  · have := (Good.row (i := i) hx k (e := Pi.single a 1) (by simp)).1
    simpa using this
  · simp only [shift, Function.update_of_ne hk, normalize_of_unit (hx k)]

theorem fixed_zero : Fixed x i fun _ => 0 :=
  ⟨fun a => differentiableAt_const _, 0, by simp, fun _ _ => rfl⟩

theorem moving_any (hx : ∀ k, IsUnit3 (x k)) (i k : Fin n) : Moving x i (fun z => normalize (z k)) 6 := by
  by_cases hk : k = i
  · subst hk; exact moving_row hx k
  · exact (fixed_row hx hk).moving.mono (by norm_num)

/-! ### The Zeeman term -/

/-- The Zeeman term of the vectors `L`. -/
theorem zeeman_good (g : List ℝ) (h : V3 ℝ) (L : List ((Fin n → V3 ℝ) → V3 ℝ)) (hB : 0 ≤ B)
    (hL : ∀ l ∈ L, ∀ a, Good x i (fun z => l z a) B) :
    Good x i (fun z => einsumZeeman g h (L.map fun l => l z)) (B * ((g.map fun y => |y|).sum * ∑ a, |h a|)) := by
  induction g generalizing L with
  | nil => simpa [einsumZeeman] using Good.const (x := x) (i := i) (c := 0) (B := 0) (by simp)
  | cons y g ih =>
    cases L with
    | nil =>
      have h0 : 0 ≤ B * (((y :: g).map fun y => |y|).sum * ∑ a, |h a|) := by
        refine mul_nonneg hB (mul_nonneg (List.sum_nonneg ?_) (Finset.sum_nonneg fun _ _ => abs_nonneg _))
        intro a ha
        obtain ⟨b, -, rfl⟩ := List.mem_map.mp ha
        exact abs_nonneg _
      simpa [einsumZeeman] using Good.const (x := x) (i := i) (c := 0) (by simpa using h0)
    | cons l L =>
      have h1 := ih L fun l hl => hL l (List.mem_cons_of_mem _ hl)
      have h2 : Good x i (fun z => ∑ j, y * h j * l z j) (∑ j, |y * h j| * B) :=
        Good.sum _ _ _ fun j _ => (hL l List.mem_cons_self j).const_mul (y * h j)
      have h3 := h2.add h1
      simp only [einsumZeeman, List.map_cons, List.zipWith_cons_cons, List.sum_cons] at h3 ⊢
      refine h3.mono (le_of_eq ?_)
      have h4 : ∑ j, |y * h j| * B = B * (|y| * ∑ a, |h a|) := by
        rw [Finset.mul_sum, Finset.mul_sum]
        exact Finset.sum_congr rfl fun j _ => by rw [abs_mul]; ring
      rw [h4]; ring

/-! ### The ferro energy -/

theorem getD_map_ofFn (f : V3 ℝ → V3 ℝ) (m k : ℕ) (z : Fin m → V3 ℝ) :
    ((List.ofFn z).map f).getD k 0 = if h : k < m then f (z ⟨k, h⟩) else 0 := by
  by_cases h : k < m <;> simp [List.getD, h]

/-- The energy along row `i`. -/
theorem ferro_good (E : EnergyObj ℝ) (muB : ℝ) (cell : ℕ → M3 ℝ) (hx : ∀ k, IsUnit3 (x k)) (i : Fin n) :
    Good x i (fun z => E.ferroUnit muB cell ((List.ofFn z).map normalize)) (36 * strength E muB cell) := by
  have hrow : ∀ (k : ℕ) (a : Fin 3), Good x i (fun z => ((List.ofFn z).map normalize).getD k 0 a) 6 := by
    intro k a
    simp only [getD_map_ofFn]
    by_cases h : k < n
    · simp only [dif_pos h]
      exact (moving_any hx i ⟨k, h⟩).comp a
    · simp only [dif_neg h]
      exact Good.const (by simp)
  have hb := Good.listSum (x := x) (i := i) E.bonds
    (fun b z => E.factor * E.spins.getD b.1 0 * E.spins.getD b.2.1 0 *
      einsum3 (((List.ofFn z).map normalize).getD b.1 0) (cell b.2.2.2) (((List.ofFn z).map normalize).getD b.2.1 0))
    (fun b => |E.factor * E.spins.getD b.1 0 * E.spins.getD b.2.1 0| * (6 * 6 * ∑ a, ∑ c, |cell b.2.2.2 a c|))
    fun b _ => (Good.bilin (cell b.2.2.2) (hrow b.1) (hrow b.2.1)).const_mul _
  have hz : Good x i (fun z => E.zeeman muB ((List.ofFn z).map normalize))
      (36 * match E.field with
        | none => 0
        | some h => |muB| * ((E.gFactors.map fun g => |g|).sum * ∑ a, |h a|)) := by
    cases hf : E.field with
    | none =>
      simp only [zeeman, hf]
      exact Good.const (by simp)
    | some h =>
      simp only [zeeman, hf]
      have h1 := zeeman_good (x := x) (i := i) (B := 6) E.gFactors h
        (List.ofFn fun k : Fin n => fun z : Fin n → V3 ℝ => normalize (z k)) (by norm_num) (by
          intro l hl a
          obtain ⟨k, rfl⟩ := List.mem_ofFn.mp hl
          exact (moving_any hx i k).comp a)
      have h2 := h1.const_mul muB
      simp only [List.map_ofFn] at h2 ⊢
      refine h2.mono ?_
      have h3 := h1.nonneg
      have h4 := abs_nonneg muB
      nlinarith [mul_nonneg h4 h3]
  refine (hb.add hz).mono (le_of_eq ?_)
  rw [strength, mul_add, ← List.sum_map_mul_left]
  congr 2
  refine List.map_congr_left fun b _ => ?_
  ring

/-! ### The cone energies -/

/-- Bounds for the parts of the spins relative to the cone axis: along it, perpendicular to it, and turned about it. -/
structure Parts (x : Fin n → V3 ℝ) (i : Fin n) (ν u : (Fin n → V3 ℝ) → V3 ℝ) (P Q R : ℝ) : Prop where
  /-- along the axis -/
  par : ∀ a, Good x i (fun z => Magnopy.par (ν z) (u z) a) P
  /-- perpendicular to the axis -/
  perp : ∀ a, Good x i (fun z => Magnopy.perp (ν z) (u z) a) Q
  /-- the cross product -/
  cross : ∀ a, Good x i (fun z => crossProduct (ν z) (u z) a) R

theorem cross_dot_basis (p q : V3 ℝ) (a : Fin 3) : crossProduct p q a = p ⬝ᵥ crossProduct q (Pi.single a 1) := by
  simp only [cross_apply, dotProduct, Fin.sum_univ_three, cons_val_zero, cons_val_one, cons_val]
  fin_cases a <;> simp <;> ring

/-- A moving axis and a fixed spin. -/
theorem Parts.axis {ν : (Fin n → V3 ℝ) → V3 ℝ} (hν : Moving x i ν 6) (hu : Fixed x i u) : Parts x i ν u 36 37 6 where
  par a := by
    have := (hν.dot hu).mul (hν.comp a)
    simp only [Magnopy.par, Pi.smul_apply, smul_eq_mul]
    exact this.mono (by norm_num)
  perp a := by
    have := (hu.moving.comp a).sub ((hν.dot hu).mul (hν.comp a))
    simp only [Magnopy.perp, Pi.sub_apply, Pi.smul_apply, smul_eq_mul]
    exact this.mono (by norm_num)
  cross a := by
    simp only [cross_dot_basis]
    exact hν.dot (hu.cross a)

/-- A fixed axis and a moving spin. -/
theorem Parts.spin {ν : (Fin n → V3 ℝ) → V3 ℝ} (hν : Fixed x i ν) (hu : Moving x i u 6) : Parts x i ν u 6 6 6 where
  par a := by
    have := (hu.dot hν).mul (hν.moving.comp a)
    simp only [Magnopy.par, Pi.smul_apply, smul_eq_mul, dotProduct_comm (ν _)]
    exact this.mono (by norm_num)
  perp a := by
    have h1 := hu.dot (hν.plane a)
    have h2 : ∀ z, Magnopy.perp (ν z) (u z) a = u z ⬝ᵥ (Pi.single a 1 - ν z a • ν z) := by
      intro z
      rw [dotProduct_sub, dotProduct_smul, dotProduct_comm (u z), basis_dot, Magnopy.perp]
      simp only [Pi.sub_apply, Pi.smul_apply, smul_eq_mul, dotProduct_comm (ν z)]
      ring
    simpa only [h2] using h1
  cross a := by
    have h1 := hu.dot (hν.cross a)
    have h2 : ∀ z, crossProduct (ν z) (u z) a = -(u z ⬝ᵥ crossProduct (ν z) (Pi.single a 1)) := by
      intro z
      rw [← cross_dot_basis, ← cross_anticomm]
      simp
    have h3 := h1.const_mul (-1)
    simpa [h2] using h3

/-- The matrix between two spins in the antiferro case. -/
theorem antiferro_term (hx : ∀ k, IsUnit3 (x k)) {ν : (Fin n → V3 ℝ) → V3 ℝ} {P Q R : ℝ}
    (hν : ∀ z : Fin n → V3 ℝ, (∀ k, z k ≠ 0) → ν z ⬝ᵥ ν z = 1) (hu : Parts x i ν u P Q R) (hv : Parts x i ν v P Q R)
    {c s : ℝ} (hc : |c| ≤ 1) (hs : |s| ≤ 1) (J : M3 ℝ) :
    Good x i (fun z => einsum3 (u z) (antiferroC (ν z) c s J) (v z)) ((P * P + Q * Q + Q * R) * ∑ a, ∑ b, |J a b|) := by
  have h1 := (Good.bilin J hu.par hv.par).add ((Good.bilin J hu.perp hv.perp).const_mul c)
  have h2 := h1.add ((Good.bilin J hu.perp hv.cross).const_mul s)
  have hS : 0 ≤ ∑ a, ∑ b, |J a b| := Finset.sum_nonneg fun _ _ => Finset.sum_nonneg fun _ _ => abs_nonneg _
  have n1 := (Good.bilin J hu.perp hv.perp).nonneg
  have n2 := (Good.bilin J hu.perp hv.cross).nonneg
  refine Good.congr hx (h2.mono ?_) fun z hz => ?_
  · have := mul_le_of_le_one_left n1 hc
    have := mul_le_of_le_one_left n2 hs
    linarith
  · rw [einsum3_eq_bilin, bilin_antiferroC (hν z hz)]

/-- The matrix between two spins in the spiral case. -/
theorem spiral_term (hx : ∀ k, IsUnit3 (x k)) {ν : (Fin n → V3 ℝ) → V3 ℝ} {P Q R : ℝ} (hRQ : R ≤ Q)
    (hν : ∀ z : Fin n → V3 ℝ, (∀ k, z k ≠ 0) → ν z ⬝ᵥ ν z = 1) (hu : Parts x i ν u P Q R) (hv : Parts x i ν v P Q R)
    {c s : ℝ} (hc : |c| ≤ 1) (hs : |s| ≤ 1) (J : M3 ℝ) :
    Good x i (fun z => einsum3 (u z) (spiralC (ν z) c s J) (v z)) ((P * P + Q * Q + Q * R) * ∑ a, ∑ b, |J a b|) := by
  have g1 := Good.bilin J hu.par hv.par
  have g2 := (Good.bilin J hu.perp hv.perp).add (Good.bilin J hu.cross hv.cross)
  have g3 := (Good.bilin J hu.perp hv.cross).sub (Good.bilin J hu.cross hv.perp)
  have h2 := (g1.add (g2.const_mul (c / 2))).add (g3.const_mul (s / 2))
  have hS : 0 ≤ ∑ a, ∑ b, |J a b| := Finset.sum_nonneg fun _ _ => Finset.sum_nonneg fun _ _ => abs_nonneg _
  have hR : 0 ≤ R := (hu.cross 0).nonneg
  refine Good.congr hx (h2.mono ?_) fun z hz => ?_
  · have hc2 : |c / 2| ≤ 1 / 2 := by rw [abs_div, abs_two]; linarith
    have hs2 : |s / 2| ≤ 1 / 2 := by rw [abs_div, abs_two]; linarith
    have k1 := mul_le_mul_of_nonneg_right hc2 g2.nonneg
    have k2 := mul_le_mul_of_nonneg_right hs2 g3.nonneg
    have k3 : R * R * ∑ a, ∑ b, |J a b| ≤ Q * Q * ∑ a, ∑ b, |J a b| :=
      mul_le_mul_of_nonneg_right (mul_le_mul hRQ hRQ hR (hR.trans hRQ)) hS
    nlinarith
  · rw [einsum3_eq_bilin, bilin_spiralC (hν z hz)]

/-- A cone energy whose matrices have bounded terms. -/
theorem cone_good (E : EnergyObj ℝ) (muB : ℝ) (cell : ℕ → M3 ℝ) (hx : ∀ k, IsUnit3 (x k)) {ν : (Fin n → V3 ℝ) → V3 ℝ}
    {S : ℝ} {m : ℕ} (ρ : Fin m → (Fin n → V3 ℝ) → V3 ℝ) (C : (Fin n → V3 ℝ) → V3 ℝ → M3 ℝ → M3 ℝ)
    (hν : ∀ z : Fin n → V3 ℝ, (∀ k, z k ≠ 0) → ν z ⬝ᵥ ν z = 1)
    (hpar : ∀ k a, Good x i (fun z => (ρ k z + Magnopy.par (ν z) (ρ k z)) a) S) (hS : 0 ≤ S)
    (hC : ∀ (k l : ℕ) (d : V3 ℝ) (J : M3 ℝ), Good x i (fun z => einsum3 ((List.ofFn fun k => ρ k z).getD k 0) (C z d J)
      ((List.ofFn fun k => ρ k z).getD l 0)) (S * ∑ a, ∑ b, |J a b|)) :
    Good x i (fun z => E.bondSum (C z) cell (List.ofFn fun k => ρ k z) +
      E.zeeman muB (soPrime (ν z) (List.ofFn fun k => ρ k z))) (S * strength E muB cell) := by
  have hb := Good.listSum (x := x) (i := i) E.bonds
    (fun b z => E.factor * E.spins.getD b.1 0 * E.spins.getD b.2.1 0 *
      einsum3 ((List.ofFn fun k => ρ k z).getD b.1 0) (C z b.2.2.1 (cell b.2.2.2)) ((List.ofFn fun k => ρ k z).getD b.2.1 0))
    (fun b => |E.factor * E.spins.getD b.1 0 * E.spins.getD b.2.1 0| * (S * ∑ a, ∑ c, |cell b.2.2.2 a c|))
    fun b _ => (hC b.1 b.2.1 b.2.2.1 (cell b.2.2.2)).const_mul _
  have hz : Good x i (fun z => E.zeeman muB (soPrime (ν z) (List.ofFn fun k => ρ k z)))
      (S * match E.field with
        | none => 0
        | some h => |muB| * ((E.gFactors.map fun g => |g|).sum * ∑ a, |h a|)) := by
    cases hf : E.field with
    | none =>
      simp only [zeeman, hf]
      exact Good.const (by simp)
    | some h =>
      simp only [zeeman, hf]
      have h1 := zeeman_good (x := x) (i := i) (B := S) E.gFactors h
        (List.ofFn fun k : Fin m => fun z : Fin n → V3 ℝ => ρ k z + Magnopy.par (ν z) (ρ k z)) hS (by
          intro l hl a
          obtain ⟨k, rfl⟩ := List.mem_ofFn.mp hl
          exact hpar k a)
      have h2 := h1.const_mul muB
      refine Good.congr hx (h2.mono (le_of_eq (by ring))) fun z hz => ?_
      congr 2
      rw [soPrime, List.map_ofFn, List.map_ofFn]
      congr 1
      funext k
      have h3 := coneIKsq_unit (hν z hz) (ρ k z)
      funext j
      have h4 := congrFun h3 j
      simp only [mulVec, dotProduct] at h4
      simp only [Function.comp_apply, Pi.add_apply, ← h4, Matrix.add_apply, add_mul, Finset.sum_add_distrib]
      congr 1
      simp [Matrix.one_apply]
  refine (hb.add hz).mono (le_of_eq ?_)
  rw [strength, mul_add, ← List.sum_map_mul_left]
  congr 2
  refine List.map_congr_left fun b _ => ?_
  ring

/-- The bounds for the spins and for the cone axis. -/
def coneBound (m k : ℕ) : ℝ := if k = m then 2887 else 108

/-- The parts of the spins along row `i` of the spins and the cone axis. -/
theorem parts_row {m : ℕ} {x : Fin (m + 1) → V3 ℝ} (hx : ∀ k, IsUnit3 (x k)) (i : Fin (m + 1)) :
    ∃ P Q R : ℝ, R ≤ Q ∧ P * P + Q * Q + Q * R = coneBound m i ∧ 6 + P ≤ coneBound m i ∧
      (∀ k : Fin m, Parts x i (fun z => normalize (z (Fin.last m))) (fun z => normalize (z k.castSucc)) P Q R) ∧
      Parts x i (fun z => normalize (z (Fin.last m))) (fun _ => 0) P Q R := by
  by_cases hi : i = Fin.last m
  · subst hi
    refine ⟨36, 37, 6, by norm_num, by simp [coneBound]; norm_num, by simp [coneBound]; norm_num, fun k => ?_, ?_⟩
    · exact .axis (moving_row hx _) (fixed_row hx (Fin.castSucc_lt_last k).ne)
    · exact .axis (moving_row hx _) fixed_zero
  · have hv : (i : ℕ) ≠ m := fun h => hi (Fin.ext h)
    refine ⟨6, 6, 6, le_rfl, by simp [coneBound, hv]; norm_num, by simp [coneBound, hv]; norm_num, fun k => ?_, ?_⟩
    · exact .spin (fixed_row hx (Ne.symm hi)) (moving_any hx i _)
    · exact .spin (fixed_row hx (Ne.symm hi)) (fixed_zero.moving.mono (by norm_num))

theorem getD_ofFn {α : Type*} (m k : ℕ) (z : Fin m → α) (d : α) :
    (List.ofFn z).getD k d = if h : k < m then z ⟨k, h⟩ else d := by
  by_cases h : k < m <;> simp [List.getD, h]

/-- A cone energy along row `i` of the spins and the cone axis. -/
theorem cone_row_good (E : EnergyObj ℝ) (muB : ℝ) (cell : ℕ → M3 ℝ) {m : ℕ} {x : Fin (m + 1) → V3 ℝ}
    (hx : ∀ k, IsUnit3 (x k)) (i : Fin (m + 1)) (C : V3 ℝ → V3 ℝ → M3 ℝ → M3 ℝ)
    (hC : ∀ (u v : (Fin (m + 1) → V3 ℝ) → V3 ℝ) (P Q R : ℝ), R ≤ Q →
      Parts x i (fun z => normalize (z (Fin.last m))) u P Q R → Parts x i (fun z => normalize (z (Fin.last m))) v P Q R →
      ∀ d J, Good x i (fun z => einsum3 (u z) (C (normalize (z (Fin.last m))) d J) (v z))
        ((P * P + Q * Q + Q * R) * ∑ a, ∑ b, |J a b|)) :
    Good x i (fun z => E.bondSum (C (normalize (z (Fin.last m)))) cell (List.ofFn fun k : Fin m => normalize (z k.castSucc)) +
      E.zeeman muB (soPrime (normalize (z (Fin.last m))) (List.ofFn fun k : Fin m => normalize (z k.castSucc))))
      (coneBound m i * strength E muB cell) := by
  obtain ⟨P, Q, R, hRQ, hsum, hzee, hk, h0⟩ := parts_row hx i
  have hpos : (0 : ℝ) ≤ coneBound m i := by unfold coneBound; split <;> norm_num
  refine cone_good E muB cell hx (fun k z => normalize (z k.castSucc)) (fun z => C (normalize (z (Fin.last m))))
    (fun z hz => normalize_unit (hz _)) (fun k a => ?_) hpos fun k l d J => ?_
  · exact (((moving_any hx i k.castSucc).comp a).add ((hk k).par a)).mono hzee
  · have hpart : ∀ k : ℕ, Parts x i (fun z => normalize (z (Fin.last m)))
        (fun z => (List.ofFn fun k : Fin m => normalize (z k.castSucc)).getD k 0) P Q R := by
      intro k
      simp only [getD_ofFn]
      by_cases h : k < m
      · simp only [dif_pos h]; exact hk ⟨k, h⟩
      · simp only [dif_neg h]; exact h0
    rw [← hsum]
    exact hC _ _ P Q R hRQ (hpart k) (hpart l) d J

theorem unpack_ofFn {m : ℕ} (z : Fin (m + 1) → V3 ℝ) (q : V3 ℝ) :
    unpackCone (List.ofFn z, q) = (List.ofFn (fun k : Fin m => z k.castSucc), z (Fin.last m), q) := by
  have h : List.ofFn z = List.ofFn (fun k : Fin m => z k.castSucc) ++ [z (Fin.last m)] := by
    rw [List.ofFn_succ', List.concat_eq_append]
  simp only [unpackCone, h]
  simp [-List.ofFn_succ]

/-- The antiferro energy along row `i`. -/
theorem antiferro_good (E : EnergyObj ℝ) (muB : ℝ) (cell : ℕ → M3 ℝ) {m : ℕ} {x : Fin (m + 1) → V3 ℝ}
    (hx : ∀ k, IsUnit3 (x k)) (q : V3 ℝ) (i : Fin (m + 1)) :
    Good x i (fun z => (antiferroProblem E muB cell).energy (List.ofFn z, q)) (coneBound m i * strength E muB cell) := by
  have h := cone_row_good E muB cell hx i
    (fun ν d J => antiferroC ν (Real.cos (dot3 q d)) (Real.sin (dot3 q d)) J) fun u v P Q R _ hu hv d J =>
      antiferro_term hx (fun z hz => normalize_unit (hz _)) hu hv (Real.abs_cos_le_one _) (Real.abs_sin_le_one _) J
  simpa only [antiferroProblem, unpack_ofFn, antiferroUnit, List.map_ofFn, Function.comp_def] using h

/-- The spiral energy along row `i`. -/
theorem spiral_good (E : EnergyObj ℝ) (muB : ℝ) (cell : ℕ → M3 ℝ) {m : ℕ} {x : Fin (m + 1) → V3 ℝ}
    (hx : ∀ k, IsUnit3 (x k)) (q : V3 ℝ) (i : Fin (m + 1)) :
    Good x i (fun z => (spiralProblem E muB cell).energy (List.ofFn z, q)) (coneBound m i * strength E muB cell) := by
  have h := cone_row_good E muB cell hx i
    (fun ν d J => spiralC ν (Real.cos (dot3 q d)) (Real.sin (dot3 q d)) J) fun u v P Q R hRQ hu hv d J =>
      spiral_term hx hRQ (fun z hz => normalize_unit (hz _)) hu hv (Real.abs_cos_le_one _) (Real.abs_sin_le_one _) J
  simpa only [spiralProblem, unpack_ofFn, spiralUnit, List.map_ofFn, Function.comp_def] using h

end Magnopy.Optimize
