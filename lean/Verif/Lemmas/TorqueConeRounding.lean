import Verif.Lemmas.TorqueRounding
import Verif.Spec.EnergyConeRounding

/-!
# The energies of cone states are Lipschitz, and bounded by the strength of the interactions
-/

set_option autoImplicit false

set_option linter.unusedSectionVars false

namespace Magnopy
namespace Optimize

open EnergyObj Matrix

theorem mul_close {x x' y y' p q X Y : ℝ} (h1 : |x - x'| ≤ p) (h2 : |y - y'| ≤ q) (hx : |x'| ≤ X) (hy : |y| ≤ Y) :
    |x * y - x' * y'| ≤ p * Y + X * q := by
  have e : x * y - x' * y' = (x - x') * y + x' * (y - y') := by ring
  rw [e]
  refine (abs_add_le _ _).trans (add_le_add ?_ ?_)
  · rw [abs_mul]; exact mul_le_mul h1 hy (abs_nonneg _) ((abs_nonneg _).trans h1)
  · rw [abs_mul]; exact mul_le_mul hx h2 (abs_nonneg _) ((abs_nonneg _).trans hx)

theorem comp_le {v : V3 ℝ} (h : v ⬝ᵥ v ≤ 1) (a : Fin 3) : |v a| ≤ 1 := by
  have := abs_dot_le (u := Pi.single a 1) (by simp) h
  simpa using this

theorem normalize_dot_le (v : V3 ℝ) : EnergyObj.normalize v ⬝ᵥ EnergyObj.normalize v ≤ 1 := by
  by_cases h : v = 0
  · subst h
    simp [dotProduct, EnergyObj.normalize]
  · exact (normalize_unit h).le

/-- Two cone axes and two spins that are close. -/
structure Near2 (n n' e e' : V3 ℝ) (L : ℝ) : Prop where
  axis : n ⬝ᵥ n = 1
  axis' : n' ⬝ᵥ n' = 1
  spin : e ⬝ᵥ e ≤ 1
  spin' : e' ⬝ᵥ e' ≤ 1
  close_axis : ∀ a, |n a - n' a| ≤ L
  close_spin : ∀ a, |e a - e' a| ≤ L

variable {n n' e e' f f' : V3 ℝ} {L : ℝ}

namespace Near2

theorem swap (h : Near2 n n' e e' L) : Near2 n' n e' e L :=
  ⟨h.axis', h.axis, h.spin', h.spin, fun a => by rw [abs_sub_comm]; exact h.close_axis a, fun a => by rw [abs_sub_comm]; exact h.close_spin a⟩

theorem dot (h : Near2 n n' e e' L) : |n ⬝ᵥ e - n' ⬝ᵥ e'| ≤ 6 * L := by
  have k : ∀ a, |n a * e a - n' a * e' a| ≤ L * 1 + 1 * L := fun a =>
    mul_close (h.close_axis a) (h.close_spin a) (comp_le h.axis'.le a) (comp_le h.spin a)
  have k0 := k 0
  have k1 := k 1
  have k2 := k 2
  simp only [dotProduct, Fin.sum_univ_three]
  rw [abs_le] at *
  constructor <;> linarith [k0.1, k0.2, k1.1, k1.2, k2.1, k2.2]

theorem par_le (h : Near2 n n' e e' L) (a : Fin 3) : |par n e a| ≤ 1 := by
  simp only [par, Pi.smul_apply, smul_eq_mul, abs_mul]
  exact mul_le_one₀ (abs_dot_le h.axis.le h.spin) (abs_nonneg _) (comp_le h.axis.le a)

theorem par_close (h : Near2 n n' e e' L) (a : Fin 3) : |par n e a - par n' e' a| ≤ 7 * L := by
  simp only [par, Pi.smul_apply, smul_eq_mul]
  have := mul_close h.dot (h.close_axis a) (abs_dot_le h.axis'.le h.spin') (comp_le h.axis.le a)
  linarith

theorem perp_le (h : Near2 n n' e e' L) (a : Fin 3) : |perp n e a| ≤ 2 := by
  have h1 := h.par_le a
  have h2 := comp_le h.spin a
  have e1 : perp n e a = e a - par n e a := rfl
  rw [e1]
  exact (abs_sub _ _).trans (by linarith)

theorem perp_close (h : Near2 n n' e e' L) (a : Fin 3) : |perp n e a - perp n' e' a| ≤ 8 * L := by
  have h1 := h.par_close a
  have h2 := h.close_spin a
  have e1 : perp n e a - perp n' e' a = (e a - e' a) - (par n e a - par n' e' a) := by
    simp only [perp, par, Pi.sub_apply]; ring
  rw [e1]
  exact (abs_sub _ _).trans (by linarith)

theorem cross_le (h : Near2 n n' e e' L) (a : Fin 3) : |crossProduct n e a| ≤ 2 := by
  have k : ∀ a b, |n a * e b| ≤ 1 := fun a b => by
    rw [abs_mul]; exact mul_le_one₀ (comp_le h.axis.le a) (abs_nonneg _) (comp_le h.spin b)
  rw [cross_apply]
  fin_cases a
  · exact (abs_sub _ _).trans (by linarith [k 1 2, k 2 1])
  · exact (abs_sub _ _).trans (by linarith [k 2 0, k 0 2])
  · exact (abs_sub _ _).trans (by linarith [k 0 1, k 1 0])

theorem cross_close (h : Near2 n n' e e' L) (a : Fin 3) : |crossProduct n e a - crossProduct n' e' a| ≤ 4 * L := by
  have k : ∀ a b, |n a * e b - n' a * e' b| ≤ L * 1 + 1 * L := fun a b =>
    mul_close (h.close_axis a) (h.close_spin b) (comp_le h.axis'.le a) (comp_le h.spin b)
  have key : ∀ a b c d, |(n a * e b - n c * e d) - (n' a * e' b - n' c * e' d)| ≤ 4 * L := by
    intro a b c d
    have k1 := k a b
    have k2 := k c d
    rw [abs_le] at *
    constructor <;> linarith [k1.1, k1.2, k2.1, k2.2]
  rw [cross_apply, cross_apply]
  fin_cases a
  · exact key 1 2 2 1
  · exact key 2 0 0 2
  · exact key 0 1 1 0

end Near2

theorem bilin_close {e1 e2 f1 f2 : V3 ℝ} {p q X Y : ℝ} (J : M3 ℝ) (h1 : ∀ a, |e1 a - f1 a| ≤ p) (h2 : ∀ a, |e2 a - f2 a| ≤ q)
    (he : ∀ a, |e2 a| ≤ Y) (hf : ∀ a, |f1 a| ≤ X) : |bilin e1 J e2 - bilin f1 J f2| ≤ (p * Y + X * q) * ∑ a, ∑ b, |J a b| := by
  unfold bilin
  rw [← Finset.sum_sub_distrib, Finset.mul_sum]
  refine (Finset.abs_sum_le_sum_abs _ _).trans (Finset.sum_le_sum fun a _ => ?_)
  rw [← Finset.sum_sub_distrib, Finset.mul_sum]
  refine (Finset.abs_sum_le_sum_abs _ _).trans (Finset.sum_le_sum fun b _ => ?_)
  have e : e1 a * J a b * e2 b - f1 a * J a b * f2 b = (e1 a * e2 b - f1 a * f2 b) * J a b := by ring
  rw [e, abs_mul]
  exact mul_le_mul_of_nonneg_right (mul_close (h1 a) (h2 b) (hf a) (he b)) (abs_nonneg _)

theorem antiferro_term_close (hu : Near2 n n' e e' L) (hv : Near2 n n' f f' L) {c s : ℝ} (hc : |c| ≤ 1) (hs : |s| ≤ 1) (J : M3 ℝ) :
    |einsum3 e (antiferroC n c s J) f - einsum3 e' (antiferroC n' c s J) f'| ≤ 70 * L * ∑ a, ∑ b, |J a b| := by
  rw [einsum3_eq_bilin, einsum3_eq_bilin, bilin_antiferroC hu.axis, bilin_antiferroC hu.axis']
  have h1 := bilin_close J hu.par_close hv.par_close hv.par_le hu.swap.par_le
  have h2 := bilin_close J hu.perp_close hv.perp_close hv.perp_le hu.swap.perp_le
  have h3 := bilin_close J hu.perp_close hv.cross_close hv.cross_le hu.swap.perp_le
  set Tot := ∑ a, ∑ b, |J a b|
  have k2 := mul_le_of_le_one_left (abs_nonneg (bilin (perp n e) J (perp n f) - bilin (perp n' e') J (perp n' f'))) hc
  have k3 := mul_le_of_le_one_left (abs_nonneg (bilin (perp n e) J (crossProduct n f) - bilin (perp n' e') J (crossProduct n' f'))) hs
  rw [← abs_mul] at k2 k3
  have k2' := k2.trans h2
  have k3' := k3.trans h3
  rw [abs_le] at h1 k2' k3' ⊢
  constructor <;> linarith [h1.1, h1.2, k2'.1, k2'.2, k3'.1, k3'.2]

theorem spiral_term_close (hu : Near2 n n' e e' L) (hv : Near2 n n' f f' L) {c s : ℝ} (hc : |c| ≤ 1) (hs : |s| ≤ 1) (J : M3 ℝ) :
    |einsum3 e (spiralC n c s J) f - einsum3 e' (spiralC n' c s J) f'| ≤ 70 * L * ∑ a, ∑ b, |J a b| := by
  rw [einsum3_eq_bilin, einsum3_eq_bilin, bilin_spiralC hu.axis, bilin_spiralC hu.axis']
  have h1 := bilin_close J hu.par_close hv.par_close hv.par_le hu.swap.par_le
  have h2 := bilin_close J hu.perp_close hv.perp_close hv.perp_le hu.swap.perp_le
  have h3 := bilin_close J hu.cross_close hv.cross_close hv.cross_le hu.swap.cross_le
  have h4 := bilin_close J hu.perp_close hv.cross_close hv.cross_le hu.swap.perp_le
  have h5 := bilin_close J hu.cross_close hv.perp_close hv.perp_le hu.swap.cross_le
  have hL : 0 ≤ L := (abs_nonneg _).trans (hu.close_axis 0)
  have hS : 0 ≤ L * ∑ a, ∑ b, |J a b| := mul_nonneg hL (Finset.sum_nonneg fun _ _ => Finset.sum_nonneg fun _ _ => abs_nonneg _)
  set Tot := ∑ a, ∑ b, |J a b|
  set A := bilin (perp n e) J (perp n f)
  set A' := bilin (perp n' e') J (perp n' f')
  set B := bilin (crossProduct n e) J (crossProduct n f)
  set B' := bilin (crossProduct n' e') J (crossProduct n' f')
  set C := bilin (perp n e) J (crossProduct n f)
  set C' := bilin (perp n' e') J (crossProduct n' f')
  set G := bilin (crossProduct n e) J (perp n f)
  set G' := bilin (crossProduct n' e') J (perp n' f')
  have m2 : |(A + B) - (A' + B')| ≤ 48 * L * Tot := by
    rw [abs_le] at *
    constructor <;> linarith [h2.1, h2.2, h3.1, h3.2]
  have m3 : |(C - G) - (C' - G')| ≤ 48 * L * Tot := by
    rw [abs_le] at *
    constructor <;> linarith [h4.1, h4.2, h5.1, h5.2]
  have k2 := (mul_le_of_le_one_left (abs_nonneg ((A + B) - (A' + B'))) hc).trans m2
  have k3 := (mul_le_of_le_one_left (abs_nonneg ((C - G) - (C' - G'))) hs).trans m3
  rw [← abs_mul] at k2 k3
  rw [abs_le] at h1 k2 k3 ⊢
  constructor <;> linarith [h1.1, h1.2, k2.1, k2.2, k3.1, k3.2]

/-- A cone energy whose matrices change little. -/
theorem cone_lipschitz (E : EnergyObj ℝ) (muB : ℝ) (cell : ℕ → M3 ℝ) (C C' : V3 ℝ → M3 ℝ → M3 ℝ) {l l' : List (V3 ℝ)} (hl : l.length = l'.length)
    (hL : 0 ≤ L) (hC : ∀ i j d J, |einsum3 (l.getD i 0) (C d J) (l.getD j 0) - einsum3 (l'.getD i 0) (C' d J) (l'.getD j 0)| ≤
      70 * L * ∑ a, ∑ b, |J a b|) (hn : ∀ k, Near2 n n' (l.getD k 0) (l'.getD k 0) L) :
    |(E.bondSum C cell l + E.zeeman muB (soPrime n l)) - (E.bondSum C' cell l' + E.zeeman muB (soPrime n' l'))| ≤
      70 * L * strength E muB cell := by
  have h1 := abs_listSum_sub_le E.bonds
    (fun b => E.factor * E.spins.getD b.1 0 * E.spins.getD b.2.1 0 * einsum3 (l.getD b.1 0) (C b.2.2.1 (cell b.2.2.2)) (l.getD b.2.1 0))
    (fun b => E.factor * E.spins.getD b.1 0 * E.spins.getD b.2.1 0 * einsum3 (l'.getD b.1 0) (C' b.2.2.1 (cell b.2.2.2)) (l'.getD b.2.1 0))
    (fun b => 70 * L * (|E.factor * E.spins.getD b.1 0 * E.spins.getD b.2.1 0| * ∑ a, ∑ c, |cell b.2.2.2 a c|)) (by
      intro b _
      rw [← mul_sub, abs_mul]
      calc _ ≤ |E.factor * E.spins.getD b.1 0 * E.spins.getD b.2.1 0| * (70 * L * ∑ a, ∑ c, |cell b.2.2.2 a c|) :=
            mul_le_mul_of_nonneg_left (hC _ _ _ _) (abs_nonneg _)
        _ = _ := by ring)
  rw [List.sum_map_mul_left] at h1
  have hp : ∀ (n : V3 ℝ) (l : List (V3 ℝ)), n ⬝ᵥ n = 1 → ∀ k a, (soPrime n l).getD k 0 a = l.getD k 0 a + par n (l.getD k 0) a := by
    intro n l hn k a
    by_cases hk : k < l.length
    · have e1 : (soPrime n l).getD k 0 = fun j => ∑ i, (1 + coneIKsq n) j i * (l.getD k 0) i := by simp [soPrime, List.getD, hk]
      rw [e1]
      have h3 := congrFun (coneIKsq_unit hn (l.getD k 0)) a
      simp only [mulVec, dotProduct] at h3
      simp only [Matrix.add_apply, add_mul, Finset.sum_add_distrib, h3]
      congr 1
      simp [Matrix.one_apply]
    · have h' : l.length ≤ k := by omega
      simp [soPrime, List.getD, List.getElem?_eq_none h', par]
  have h2 : |E.zeeman muB (soPrime n l) - E.zeeman muB (soPrime n' l')| ≤
      70 * L * match E.field with
        | none => 0
        | some h => |muB| * ((E.gFactors.map fun g => |g|).sum * ∑ a, |h a|) := by
    cases hf : E.field with
    | none => simp [zeeman, hf]
    | some f =>
      simp only [zeeman, hf]
      rw [← mul_sub, abs_mul]
      have := zeeman_close f (L := 8 * L) (by linarith) E.gFactors (soPrime n l) (soPrime n' l') (by simpa [soPrime] using hl) (by
        intro k _ a
        rw [hp n l (hn 0).axis, hp n' l' (hn 0).axis']
        have h3 := (hn k).par_close a
        have h4 := (hn k).close_spin a
        rw [abs_le] at *
        constructor <;> linarith [h3.1, h3.2, h4.1, h4.2])
      have h0 : 0 ≤ (E.gFactors.map fun g => |g|).sum * ∑ a, |f a| := by
        refine mul_nonneg (List.sum_nonneg ?_) (Finset.sum_nonneg fun _ _ => abs_nonneg _)
        intro y hy
        obtain ⟨z, -, rfl⟩ := List.mem_map.1 hy
        exact abs_nonneg _
      calc _ ≤ |muB| * (70 * L * ((E.gFactors.map fun g => |g|).sum * ∑ a, |f a|)) :=
            mul_le_mul_of_nonneg_left (this.trans (by nlinarith [mul_nonneg hL h0])) (abs_nonneg _)
        _ = _ := by ring
  unfold bondSum strength
  rw [add_sub_add_comm, mul_add]
  exact (abs_add_le _ _).trans (add_le_add h1 h2)

/-! ### Sizes -/

theorem cross_entry (hn : n ⬝ᵥ n ≤ 1) (a b : Fin 3) : 0 ≤ crossSize n a b ∧ crossSize n a b ≤ 1 := by
  have h := comp_le hn
  have h0 := fun k => abs_nonneg (n k)
  fin_cases a <;> fin_cases b <;> simp [crossSize, h, h0]

theorem square_entry (hn : n ⬝ᵥ n ≤ 1) (a b : Fin 3) : 0 ≤ squareSize n a b ∧ squareSize n a b ≤ 3 := by
  have h := cross_entry hn
  unfold squareSize
  rw [Matrix.mul_apply]
  constructor
  · exact Finset.sum_nonneg fun k _ => mul_nonneg (h _ _).1 (h _ _).1
  · have : ∑ k, crossSize n a k * crossSize n k b ≤ ∑ k : Fin 3, (1 : ℝ) :=
      Finset.sum_le_sum fun k _ => mul_le_one₀ (h _ _).2 (h _ _).1 (h _ _).2
    simpa using this

theorem triple_entry {A B : M3 ℝ} {α β : ℝ} (J : M3 ℝ) (hA : ∀ a b, 0 ≤ A a b ∧ A a b ≤ α) (hB : ∀ a b, 0 ≤ B a b ∧ B a b ≤ β) (a b : Fin 3) :
    0 ≤ (A * J.map abs * B) a b ∧ (A * J.map abs * B) a b ≤ α * β * ∑ k, ∑ l, |J k l| := by
  have hα : 0 ≤ α := (hA 0 0).1.trans (hA 0 0).2
  rw [Matrix.mul_apply]
  constructor
  · refine Finset.sum_nonneg fun l _ => mul_nonneg ?_ (hB _ _).1
    rw [Matrix.mul_apply]
    exact Finset.sum_nonneg fun k _ => mul_nonneg (hA _ _).1 (abs_nonneg _)
  · rw [Finset.sum_comm, Finset.mul_sum]
    refine Finset.sum_le_sum fun l _ => ?_
    rw [Matrix.mul_apply, Finset.mul_sum, Finset.sum_mul]
    refine Finset.sum_le_sum fun k _ => ?_
    have h1 : A a k * |J k l| ≤ α * |J k l| := mul_le_mul_of_nonneg_right (hA _ _).2 (abs_nonneg _)
    have h2 := mul_le_mul h1 (hB l b).2 (hB l b).1 (mul_nonneg hα (abs_nonneg _))
    simp only [Matrix.map_apply]
    linarith

theorem stay_entry (hn : n ⬝ᵥ n ≤ 1) (J : M3 ℝ) (a b : Fin 3) : 0 ≤ staySize n J a b ∧ staySize n J a b ≤ 16 * ∑ k, ∑ l, |J k l| := by
  have h : ∀ a b, 0 ≤ (1 + squareSize n) a b ∧ (1 + squareSize n) a b ≤ 4 := by
    intro a b
    have := square_entry hn a b
    rw [Matrix.add_apply, Matrix.one_apply]
    split <;> constructor <;> linarith [this.1, this.2]
  have := triple_entry J h h a b
  norm_num at this
  exact this

theorem antiferroTurn_entry (hn : n ⬝ᵥ n ≤ 1) (J : M3 ℝ) (a b : Fin 3) :
    0 ≤ antiferroTurn n J a b ∧ antiferroTurn n J a b ≤ 12 * ∑ k, ∑ l, |J k l| := by
  have h1 := triple_entry J (square_entry hn) (square_entry hn) a b
  have h2 := triple_entry J (square_entry hn) (cross_entry hn) a b
  unfold antiferroTurn
  rw [Matrix.add_apply]
  constructor <;> linarith [h1.1, h1.2, h2.1, h2.2]

theorem spiralTurn_entry (hn : n ⬝ᵥ n ≤ 1) (J : M3 ℝ) (a b : Fin 3) :
    0 ≤ spiralTurn n J a b ∧ spiralTurn n J a b ≤ 12 * ∑ k, ∑ l, |J k l| := by
  have h0 : 0 ≤ ∑ k, ∑ l, |J k l| := Finset.sum_nonneg fun _ _ => Finset.sum_nonneg fun _ _ => abs_nonneg _
  have h1 := triple_entry J (square_entry hn) (square_entry hn) a b
  have h2 := triple_entry J (square_entry hn) (cross_entry hn) a b
  have h3 := triple_entry J (cross_entry hn) (square_entry hn) a b
  have h4 := triple_entry J (cross_entry hn) (cross_entry hn) a b
  unfold spiralTurn
  rw [Matrix.smul_apply, Matrix.add_apply, Matrix.add_apply, Matrix.add_apply, smul_eq_mul]
  constructor <;> linarith [h1.1, h1.2, h2.1, h2.2, h3.1, h3.2, h4.1, h4.2]

theorem bondSize_le (E : EnergyObj ℝ) (cell : ℕ → M3 ℝ) {M : V3 ℝ → M3 ℝ → M3 ℝ} {e : List (V3 ℝ)} {m : ℝ} (he : ∀ k a, |e.getD k 0 a| ≤ 1)
    (hM : ∀ b ∈ E.bonds, ∀ J i j, 0 ≤ M b.2.2.1 J i j ∧ M b.2.2.1 J i j ≤ m * ∑ k, ∑ l, |J k l|) :
    E.bondSize M cell e ≤ 9 * m * (E.bonds.map fun (i, j, _, J) =>
      |E.factor * E.spins.getD i 0 * E.spins.getD j 0| * ∑ a, ∑ b, |cell J a b|).sum := by
  unfold bondSize
  rw [← List.sum_map_mul_left]
  refine List.sum_le_sum fun b hb => ?_
  have hM' := hM b hb
  obtain ⟨i, j, d, J⟩ := b
  simp only at hM' ⊢
  simp only [abs_mul]
  have h1 : ∑ x, ∑ y, |e.getD i 0 x| * M d (cell J) x y * |e.getD j 0 y| ≤ ∑ _x : Fin 3, ∑ _y : Fin 3, m * ∑ k, ∑ l, |cell J k l| := by
    refine Finset.sum_le_sum fun x _ => Finset.sum_le_sum fun y _ => ?_
    have h2 := hM' (cell J) x y
    have h3 := mul_le_mul (mul_le_mul (he i x) h2.2 h2.1 zero_le_one) (he j y) (abs_nonneg _) (by linarith [h2.1.trans h2.2])
    linarith
  have h4 : ∑ _x : Fin 3, ∑ _y : Fin 3, m * ∑ k, ∑ l, |cell J k l| = 9 * (m * ∑ k, ∑ l, |cell J k l|) := by
    simp; ring
  rw [h4] at h1
  have := mul_le_mul_of_nonneg_left h1 (by positivity : 0 ≤ |E.factor| * |E.spins.getD i 0| * |E.spins.getD j 0|)
  linarith

theorem coneZeeman_le (E : EnergyObj ℝ) (muB : ℝ) (hn : n ⬝ᵥ n ≤ 1) {e : List (V3 ℝ)} (he : ∀ k a, |e.getD k 0 a| ≤ 1) :
    E.coneZeemanSize muB n e ≤ 15 * match E.field with
      | none => 0
      | some h => |muB| * ((E.gFactors.map fun g => |g|).sum * ∑ a, |h a|) := by
  unfold coneZeemanSize
  cases hf : E.field with
  | none => simp
  | some h =>
    simp only
    have key : ∀ (g : List ℝ) (e : List (V3 ℝ)), (∀ k a, |e.getD k 0 a| ≤ 1) →
        (List.zipWith (fun g v => ∑ a : Fin 3, |g| * |h a| * ∑ b, (1 + (1 + squareSize n)) a b * |(v : V3 ℝ) b|) g e).sum ≤
          15 * ((g.map fun x => |x|).sum * ∑ a, |h a|) := by
      intro g
      induction g with
      | nil => intro e _; simp
      | cons x g ih =>
        intro e he
        have h0 : 0 ≤ ((x :: g).map fun x => |x|).sum * ∑ a, |h a| := by
          refine mul_nonneg (List.sum_nonneg ?_) (Finset.sum_nonneg fun _ _ => abs_nonneg _)
          intro y hy
          obtain ⟨z, -, rfl⟩ := List.mem_map.1 hy
          exact abs_nonneg _
        cases e with
        | nil => simpa using h0
        | cons v e =>
          have h1 := ih e fun k a => by simpa using he (k + 1) a
          have h2 : ∑ a : Fin 3, |x| * |h a| * ∑ b, (1 + (1 + squareSize n)) a b * |v b| ≤ 15 * (|x| * ∑ a, |h a|) := by
            rw [Finset.mul_sum, Finset.mul_sum]
            refine Finset.sum_le_sum fun a _ => ?_
            have h3 : ∑ b, (1 + (1 + squareSize n)) a b * |v b| ≤ ∑ _b : Fin 3, (5 : ℝ) := by
              refine Finset.sum_le_sum fun b _ => ?_
              have h4 : |v b| ≤ 1 := by simpa using he 0 b
              have h5 := square_entry hn a b
              have h6 : 0 ≤ (1 + (1 + squareSize n)) a b ∧ (1 + (1 + squareSize n)) a b ≤ 5 := by
                rw [Matrix.add_apply, Matrix.add_apply, Matrix.one_apply]
                split <;> constructor <;> linarith [h5.1, h5.2]
              have := mul_le_mul h6.2 h4 (abs_nonneg _) (by norm_num)
              linarith
            have h7 : ∑ _b : Fin 3, (5 : ℝ) = 15 := by norm_num
            rw [h7] at h3
            have := mul_le_mul_of_nonneg_left h3 (by positivity : 0 ≤ |x| * |h a|)
            linarith
          simp only [List.zipWith_cons_cons, List.sum_cons, List.map_cons, add_mul, mul_add]
          exact add_le_add h2 h1
    have := mul_le_mul_of_nonneg_left (key E.gFactors e he) (abs_nonneg muB)
    linarith

end Optimize
end Magnopy
