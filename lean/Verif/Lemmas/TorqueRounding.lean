import Verif.Model.OptimizeFloat
import Verif.Lemmas.TorqueEnergy
import Verif.Spec.EnergyRounding

/-!
# Round-off of finite differences and torques
-/

set_option autoImplicit false

set_option linter.unusedSectionVars false

namespace Magnopy
namespace Optimize

open EnergyObj Matrix

variable {fl : ℝ → ℝ} {u : ℝ}

theorem factor_of (hf : IsRounding fl u) (x : ℝ) : ∃ θ, |θ| ≤ u ∧ fl x = x * (1 + θ) := by
  by_cases h : x = 0
  · refine ⟨0, by simpa using hf.nonneg, ?_⟩
    have := hf.close x
    rw [h] at this ⊢
    simp only [sub_zero, abs_zero, mul_zero, zero_mul] at this ⊢
    exact abs_nonpos_iff.1 this
  · refine ⟨(fl x - x) / x, ?_, ?_⟩
    · rw [abs_div, div_le_iff₀ (abs_pos.2 h)]
      exact hf.close x
    · field_simp
      ring

/-- One step of a component. -/
theorem step_close (hf : IsRounding fl u) {w w0 s s0 d : ℝ} (hw : |w - w0| ≤ d) (hw0 : |w0| ≤ 1 + 1 / 1000) (hd : d ≤ 1 / 20)
    (hs : |s - s0| ≤ u / 1000) (hs0 : |s0| ≤ 1 / 1000) (hu : u ≤ 1 / 10000) : |fl (w + s) - (w0 + s0)| ≤ d + 2 * u := by
  have h1 := hf.close (w + s)
  have hu0 := hf.nonneg
  have h2 : |w + s| ≤ 1.06 := by
    rw [abs_le] at *
    constructor <;> linarith [hw.1, hw.2, hw0.1, hw0.2, hs.1, hs.2, hs0.1, hs0.2]
  have h3 : u * |w + s| ≤ u * 1.06 := mul_le_mul_of_nonneg_left h2 hu0
  rw [abs_le] at *
  constructor <;> linarith [hw.1, hw.2, hs.1, hs.2, h1.1, h1.2]

theorem step_sub_close (hf : IsRounding fl u) {w w0 s s0 d : ℝ} (hw : |w - w0| ≤ d) (hw0 : |w0| ≤ 1 + 1 / 1000) (hd : d ≤ 1 / 20)
    (hs : |s - s0| ≤ u / 1000) (hs0 : |s0| ≤ 1 / 1000) (hu : u ≤ 1 / 10000) : |fl (w - s) - (w0 - s0)| ≤ d + 2 * u := by
  have := step_close hf hw hw0 hd (s := -s) (s0 := -s0) (by rw [← abs_neg]; convert hs using 2; ring) (by rwa [abs_neg]) hu
  simpa only [← sub_eq_add_neg] using this

theorem fdStep_fl (hf : IsRounding fl u) (hu : u ≤ 1 / 10000) :
    |fl fdStep - fdStep| ≤ u / 1000 ∧ |fl (2 * fl fdStep) - 2 * fdStep| ≤ u / 1000 := by
  have h1 := hf.close fdStep
  have h2 := hf.close (2 * fl fdStep)
  have hu0 := hf.nonneg
  have h0 : |fdStep| = 1 / 10000 := by unfold fdStep; norm_num
  rw [h0] at h1
  have h3 : |2 * fl fdStep| ≤ 3 / 10000 := by
    rw [abs_mul, abs_two]
    have : |fl fdStep| ≤ |fl fdStep - fdStep| + |fdStep| := by simpa using abs_add_le (fl fdStep - fdStep) fdStep
    rw [h0] at this
    nlinarith
  have h4 : u * |2 * fl fdStep| ≤ u * (3 / 10000) := mul_le_mul_of_nonneg_left h3 hu0
  constructor
  · linarith
  · rw [abs_le] at *
    constructor <;> linarith [h1.1, h1.2, h2.1, h2.2]

/-- The three roundings of a central difference and that of the step. -/
theorem quotient_close (hf : IsRounding fl u) (hu : u ≤ 1 / 10000) (x : ℝ) :
    |fl (fl (fl x / 2) / fl fdStep) - x / 2 / fdStep| ≤ 5 * u * |x / 2 / fdStep| := by
  obtain ⟨a, ha, ea⟩ := factor_of hf x
  obtain ⟨b, hb, eb⟩ := factor_of hf (fl x / 2)
  obtain ⟨c, hc, ec⟩ := factor_of hf (fl (fl x / 2) / fl fdStep)
  obtain ⟨d, hd, ed⟩ := factor_of hf fdStep
  have hu0 := hf.nonneg
  have hd0 : 0 < 1 + d := by linarith [(abs_le.1 hd).1]
  have hF : fdStep ≠ 0 := by unfold fdStep; norm_num
  set r : ℝ := (1 + a) * (1 + b) * (1 + c) / (1 + d) - 1 with hr
  have e1 : fl (fl (fl x / 2) / fl fdStep) - x / 2 / fdStep = r * (x / 2 / fdStep) := by
    rw [ec, eb, ea, ed, hr]
    field_simp
    try ring
  have e2 : r * (1 + d) = a + b + c - d + a * b + a * c + b * c + a * b * c := by
    rw [hr]
    field_simp
    ring
  have hab : |a * b| ≤ u * (1 / 10000) := by rw [abs_mul]; exact mul_le_mul ha (hb.trans hu) (abs_nonneg _) hu0
  have hac : |a * c| ≤ u * (1 / 10000) := by rw [abs_mul]; exact mul_le_mul ha (hc.trans hu) (abs_nonneg _) hu0
  have hbc : |b * c| ≤ u * (1 / 10000) := by rw [abs_mul]; exact mul_le_mul hb (hc.trans hu) (abs_nonneg _) hu0
  have habc : |a * b * c| ≤ u * (1 / 10000) * 1 := by
    rw [abs_mul]; exact mul_le_mul hab (by linarith) (abs_nonneg _) (by positivity)
  have h3 : |r * (1 + d)| ≤ 4.1 * u := by
    rw [e2]
    rw [abs_le] at *
    constructor <;> linarith [ha.1, ha.2, hb.1, hb.2, hc.1, hc.2, hd.1, hd.2, hab.1, hab.2, hac.1, hac.2, hbc.1, hbc.2, habc.1, habc.2]
  have h4 : |r| ≤ 5 * u := by
    rw [abs_mul, abs_of_pos hd0] at h3
    have : |r| * (9999 / 10000) ≤ |r| * (1 + d) := mul_le_mul_of_nonneg_left (by linarith [(abs_le.1 hd).1]) (abs_nonneg _)
    linarith
  rw [e1, abs_mul]
  exact mul_le_mul_of_nonneg_right h4 (abs_nonneg _)

theorem prod_close (hf : IsRounding fl u) (hu : u ≤ 1 / 10000) {a a0 b b0 D e S : ℝ} (ha : |a - a0| ≤ D) (ha0 : |a0| ≤ 1) (hD : D ≤ 1 / 50)
    (hb : |b - b0| ≤ e * S) (hb0 : |b0| ≤ 10 * S) :
    |fl (a * b) - a0 * b0| ≤ (1.021 * e + 10 * D + 10.2 * u) * S ∧ |fl (a * b)| ≤ 1.021 * (10 + e) * S := by
  have hu0 := hf.nonneg
  have hes : 0 ≤ e * S := (abs_nonneg _).trans hb
  have hs : 0 ≤ 10 * S := (abs_nonneg _).trans hb0
  have hD0 : 0 ≤ D := (abs_nonneg _).trans ha
  have h1 := hf.close (a * b)
  have haa : |a| ≤ 1.02 := by
    rw [abs_le] at *
    constructor <;> linarith [ha.1, ha.2, ha0.1, ha0.2]
  have hbb : |b| ≤ (10 + e) * S := by
    have : |b| ≤ |b - b0| + |b0| := by simpa using abs_add_le (b - b0) b0
    linarith
  have h2 : |a * b| ≤ 1.02 * ((10 + e) * S) := by
    rw [abs_mul]
    exact mul_le_mul haa hbb (abs_nonneg _) (by norm_num)
  have h3 : |a * b - a0 * b0| ≤ 1.02 * (e * S) + D * (10 * S) := by
    have e1 : a * b - a0 * b0 = a * (b - b0) + (a - a0) * b0 := by ring
    rw [e1]
    refine (abs_add_le _ _).trans (add_le_add ?_ ?_)
    · rw [abs_mul]; exact mul_le_mul haa hb (abs_nonneg _) (by norm_num)
    · rw [abs_mul]; exact mul_le_mul ha hb0 (abs_nonneg _) hD0
  have h4 : u * |a * b| ≤ u * (1.02 * ((10 + e) * S)) := mul_le_mul_of_nonneg_left h2 hu0
  have h5 : u * (e * S) ≤ 1 / 10000 * (e * S) := mul_le_mul_of_nonneg_right hu hes
  have h6 : u * S ≤ 1 / 10000 * S := mul_le_mul_of_nonneg_right hu (by linarith)
  constructor
  · have : |fl (a * b) - a0 * b0| ≤ |fl (a * b) - a * b| + |a * b - a0 * b0| := by
      simpa using abs_add_le (fl (a * b) - a * b) (a * b - a0 * b0)
    nlinarith
  · have : |fl (a * b)| ≤ |fl (a * b) - a * b| + |a * b| := by simpa using abs_add_le (fl (a * b) - a * b) (a * b)
    nlinarith

theorem diff_close (hf : IsRounding fl u) (hu : u ≤ 1 / 10000) {a a0 b b0 c c0 d d0 D e S : ℝ} (hD : D ≤ 1 / 50)
    (ha : |a - a0| ≤ D) (ha0 : |a0| ≤ 1) (hb : |b - b0| ≤ e * S) (hb0 : |b0| ≤ 10 * S)
    (hc : |c - c0| ≤ D) (hc0 : |c0| ≤ 1) (hd : |d - d0| ≤ e * S) (hd0 : |d0| ≤ 10 * S) :
    |fl (fl (a * b) - fl (c * d)) - (a0 * b0 - c0 * d0)| ≤ (2.1 * e + 20 * D + 45 * u) * S := by
  obtain ⟨p1, p2⟩ := prod_close hf hu ha ha0 hD hb hb0
  obtain ⟨q1, q2⟩ := prod_close hf hu hc hc0 hD hd hd0
  have hu0 := hf.nonneg
  have hes : 0 ≤ e * S := (abs_nonneg _).trans hb
  have hs : 0 ≤ 10 * S := (abs_nonneg _).trans hb0
  have h1 := hf.close (fl (a * b) - fl (c * d))
  have h2 : |fl (a * b) - fl (c * d)| ≤ 2 * (1.021 * (10 + e) * S) := by
    rw [abs_le] at *
    constructor <;> linarith [p2.1, p2.2, q2.1, q2.2]
  have h3 : u * |fl (a * b) - fl (c * d)| ≤ u * (2 * (1.021 * (10 + e) * S)) := mul_le_mul_of_nonneg_left h2 hu0
  have h5 : u * (e * S) ≤ 1 / 10000 * (e * S) := mul_le_mul_of_nonneg_right hu hes
  have h6 : 0 ≤ u * S := mul_nonneg hu0 (by linarith)
  have h7 : |fl (fl (a * b) - fl (c * d)) - (a0 * b0 - c0 * d0)| ≤
      u * (2 * (1.021 * (10 + e) * S)) + 2 * ((1.021 * e + 10 * D + 10.2 * u) * S) := by
    rw [abs_le] at *
    constructor <;> linarith [p1.1, p1.2, q1.1, q1.2, h1.1, h1.2]
  refine h7.trans ?_
  nlinarith

/-- The cross product. -/
theorem cross_close (hf : IsRounding fl u) (hu : u ≤ 1 / 10000) {v v0 g g0 : V3 ℝ} {D e S : ℝ} (hD : D ≤ 1 / 50) (hv : ∀ a, |v a - v0 a| ≤ D)
    (hv0 : ∀ a, |v0 a| ≤ 1) (hg : ∀ a, |g a - g0 a| ≤ e * S) (hg0 : ∀ a, |g0 a| ≤ 10 * S) (c : Fin 3) :
    |crossFl fl v g c - crossProduct v0 g0 c| ≤ (2.1 * e + 20 * D + 45 * u) * S := by
  rw [cross_apply]
  fin_cases c
  · exact diff_close hf hu hD (hv 1) (hv0 1) (hg 2) (hg0 2) (hv 2) (hv0 2) (hg 1) (hg0 1)
  · exact diff_close hf hu hD (hv 2) (hv0 2) (hg 0) (hg0 0) (hv 0) (hv0 0) (hg 2) (hg0 2)
  · exact diff_close hf hu hD (hv 0) (hv0 0) (hg 1) (hg0 1) (hv 1) (hv0 1) (hg 0) (hg0 0)

/-! ### The energy is Lipschitz -/

theorem norm3_sq (v : V3 ℝ) : norm3 v ^ 2 = v 0 ^ 2 + v 1 ^ 2 + v 2 ^ 2 := Real.sq_sqrt (by positivity)

theorem norm3_close {v w : V3 ℝ} {D : ℝ} (h : ∀ a, |v a - w a| ≤ D) : |norm3 v - norm3 w| ≤ 2 * D := by
  have hD : 0 ≤ D := (abs_nonneg _).trans (h 0)
  have h1 := norm3_sq v
  have h2 := norm3_sq w
  have h3 : v 0 * w 0 + v 1 * w 1 + v 2 * w 2 ≤ norm3 v * norm3 w := by
    refine (le_abs_self _).trans (abs_le_of_sq_le_sq ?_ (mul_nonneg (Real.sqrt_nonneg _) (Real.sqrt_nonneg _)))
    rw [mul_pow, h1, h2]
    nlinarith [sq_nonneg (v 0 * w 1 - v 1 * w 0), sq_nonneg (v 0 * w 2 - v 2 * w 0), sq_nonneg (v 1 * w 2 - v 2 * w 1)]
  have hs : ∀ a, (v a - w a) ^ 2 ≤ D ^ 2 := fun a => sq_le_sq' (abs_le.1 (h a)).1 (abs_le.1 (h a)).2
  have := abs_le_of_sq_le_sq (a := norm3 v - norm3 w) (b := 2 * D) (by nlinarith [hs 0, hs 1, hs 2, sq_nonneg D]) (by linarith)
  exact this

theorem normalize_le (v : V3 ℝ) (a : Fin 3) : |normalize v a| ≤ 1 := by
  have h0 : 0 ≤ norm3 v := Real.sqrt_nonneg _
  unfold EnergyObj.normalize
  rw [abs_div, abs_of_nonneg h0]
  refine div_le_one_of_le₀ ?_ h0
  refine Real.abs_le_sqrt ?_
  fin_cases a <;> simp only [Fin.zero_eta, Fin.mk_one, Fin.reduceFinMk] <;>
    nlinarith [sq_nonneg (v 0), sq_nonneg (v 1), sq_nonneg (v 2)]

theorem normalize_close {v w : V3 ℝ} {D : ℝ} (h : ∀ a, |v a - w a| ≤ D) (hv : 98 / 100 ≤ norm3 v) (a : Fin 3) :
    |normalize v a - normalize w a| ≤ 4 * D := by
  have hD : 0 ≤ D := (abs_nonneg _).trans (h 0)
  have hn := norm3_close h
  have hv0 : 0 < norm3 v := by linarith
  have e1 : norm3 v * (normalize v a - normalize w a) = (v a - w a) + normalize w a * (norm3 w - norm3 v) := by
    have hw : normalize w a * norm3 w = w a := by
      unfold EnergyObj.normalize
      by_cases h0 : norm3 w = 0
      · have h4 := norm3_sq w
        rw [h0] at h4 ⊢
        have : w a ^ 2 = 0 := by
          have h5 := sq_nonneg (w 0)
          have h6 := sq_nonneg (w 1)
          have h7 := sq_nonneg (w 2)
          fin_cases a <;> simp only [Fin.zero_eta, Fin.mk_one, Fin.reduceFinMk] <;> nlinarith
        rw [pow_eq_zero_iff (by norm_num)] at this
        rw [this]; simp
      · exact div_mul_cancel₀ _ h0
    have hv : normalize v a * norm3 v = v a := div_mul_cancel₀ _ hv0.ne'
    linear_combination hv - hw
  have h2 : |norm3 v * (normalize v a - normalize w a)| ≤ D + 1 * (2 * D) := by
    rw [e1]
    refine (abs_add_le _ _).trans (add_le_add (h a) ?_)
    rw [abs_mul, abs_sub_comm (norm3 w)]
    exact mul_le_mul (normalize_le w a) hn (abs_nonneg _) (by norm_num)
  rw [abs_mul, abs_of_pos hv0] at h2
  have h3 : 98 / 100 * |normalize v a - normalize w a| ≤ norm3 v * |normalize v a - normalize w a| :=
    mul_le_mul_of_nonneg_right hv (abs_nonneg _)
  linarith

theorem getD_normalize (l : List (V3 ℝ)) (k : ℕ) : (l.map EnergyObj.normalize).getD k 0 = EnergyObj.normalize (l.getD k 0) := by
  by_cases h : k < l.length
  · simp [List.getD, h]
  · have h' : l.length ≤ k := by omega
    simp only [List.getD, List.getElem?_map, List.getElem?_eq_none h', Option.map_none, Option.getD_none]
    funext a
    simp [EnergyObj.normalize]

theorem abs_listSum_sub_le {ι : Type*} (l : List ι) (f g b : ι → ℝ) (h : ∀ k ∈ l, |f k - g k| ≤ b k) :
    |(l.map f).sum - (l.map g).sum| ≤ (l.map b).sum := by
  induction l with
  | nil => simp
  | cons k l ih =>
    simp only [List.map_cons, List.sum_cons]
    have h1 := h k (by simp)
    have h2 := ih fun k hk => h k (by simp [hk])
    rw [abs_le] at *
    constructor <;> linarith [h1.1, h1.2, h2.1, h2.2]

theorem einsum3_close {e1 e2 f1 f2 : V3 ℝ} {L : ℝ} (J : M3 ℝ) (h1 : ∀ a, |e1 a - f1 a| ≤ L) (h2 : ∀ a, |e2 a - f2 a| ≤ L)
    (he : ∀ a, |e2 a| ≤ 1) (hf : ∀ a, |f1 a| ≤ 1) : |einsum3 e1 J e2 - einsum3 f1 J f2| ≤ 2 * L * ∑ a, ∑ b, |J a b| := by
  unfold einsum3
  rw [← Finset.sum_sub_distrib, Finset.mul_sum]
  refine (Finset.abs_sum_le_sum_abs _ _).trans (Finset.sum_le_sum fun a _ => ?_)
  rw [← Finset.sum_sub_distrib, Finset.mul_sum]
  refine (Finset.abs_sum_le_sum_abs _ _).trans (Finset.sum_le_sum fun b _ => ?_)
  have e : e1 a * J a b * e2 b - f1 a * J a b * f2 b = J a b * ((e1 a - f1 a) * e2 b + f1 a * (e2 b - f2 b)) := by ring
  have hL : 0 ≤ L := (abs_nonneg _).trans (h1 a)
  rw [e, abs_mul, mul_comm]
  refine mul_le_mul_of_nonneg_right ?_ (abs_nonneg _)
  refine (abs_add_le _ _).trans ?_
  rw [abs_mul, abs_mul]
  nlinarith [mul_le_mul (h1 a) (he b) (abs_nonneg _) hL, mul_le_mul (hf a) (h2 b) (abs_nonneg _) zero_le_one]

theorem zeeman_close (h : V3 ℝ) {L : ℝ} (hL : 0 ≤ L) : ∀ (g : List ℝ) (l l' : List (V3 ℝ)), l.length = l'.length →
    (∀ k < l.length, ∀ a, |l.getD k 0 a - l'.getD k 0 a| ≤ L) →
    |einsumZeeman g h l - einsumZeeman g h l'| ≤ L * ((g.map fun x => |x|).sum * ∑ a, |h a|)
  | [], l, l', _, _ => by simp [einsumZeeman]
  | x :: g, [], l', hl, _ => by
    have hl' : l' = [] := List.length_eq_zero_iff.1 hl.symm
    subst hl'
    simp only [einsumZeeman, List.zipWith_nil_right, List.sum_nil, sub_self, abs_zero]
    refine mul_nonneg hL (mul_nonneg (List.sum_nonneg ?_) (Finset.sum_nonneg fun _ _ => abs_nonneg _))
    intro y hy
    obtain ⟨z, -, rfl⟩ := List.mem_map.1 hy
    exact abs_nonneg _
  | x :: g, v :: l, [], hl, _ => by simp at hl
  | x :: g, v :: l, w :: l', hl, hk => by
    have ih := zeeman_close h hL g l l' (by simpa using hl) fun k hk' a => by
      have := hk (k + 1) (by simpa using hk') a
      simpa using this
    have h0 : ∀ a, |v a - w a| ≤ L := fun a => by simpa using hk 0 (by simp) a
    simp only [einsumZeeman, List.zipWith_cons_cons, List.sum_cons, List.map_cons] at ih ⊢
    have h1 : |∑ a, x * h a * v a - ∑ a, x * h a * w a| ≤ L * (|x| * ∑ a, |h a|) := by
      rw [← Finset.sum_sub_distrib, Finset.mul_sum, Finset.mul_sum]
      refine (Finset.abs_sum_le_sum_abs _ _).trans (Finset.sum_le_sum fun a _ => ?_)
      rw [← mul_sub, abs_mul, abs_mul, mul_comm]
      exact mul_le_mul_of_nonneg_right (h0 a) (by positivity)
    have e : L * ((|x| + (g.map fun x => |x|).sum) * ∑ a, |h a|) =
        L * (|x| * ∑ a, |h a|) + L * ((g.map fun x => |x|).sum * ∑ a, |h a|) := by ring
    rw [e]
    rw [abs_le] at *
    constructor <;> linarith [h1.1, h1.2, ih.1, ih.2]

/-- Moving all components of the spins by at most `D` changes the energy by at most `10 D` times the strength. -/
theorem ferro_lipschitz (E : EnergyObj ℝ) (muB : ℝ) (cell : ℕ → M3 ℝ) {l l' : List (V3 ℝ)} {D : ℝ} (hl : l.length = l'.length) (hD : 0 ≤ D)
    (h : ∀ k < l.length, ∀ a, |l.getD k 0 a - l'.getD k 0 a| ≤ D) (hn : ∀ k < l.length, 98 / 100 ≤ norm3 (l.getD k 0)) :
    |E.ferroUnit muB cell (l.map EnergyObj.normalize) - E.ferroUnit muB cell (l'.map EnergyObj.normalize)| ≤
      10 * D * strength E muB cell := by
  have hc : ∀ k a, |(l.map EnergyObj.normalize).getD k 0 a - (l'.map EnergyObj.normalize).getD k 0 a| ≤ 4 * D := by
    intro k a
    rw [getD_normalize, getD_normalize]
    by_cases hk : k < l.length
    · exact normalize_close (h k hk) (hn k hk) a
    · have h1 : l.getD k 0 = 0 := by simp [List.getD, List.getElem?_eq_none (by omega : l.length ≤ k)]
      have h2 : l'.getD k 0 = 0 := by simp [List.getD, List.getElem?_eq_none (by omega : l'.length ≤ k)]
      rw [h1, h2, sub_self, abs_zero]
      linarith
  have hb : ∀ (m : List (V3 ℝ)) (k : ℕ) (a : Fin 3), |(m.map EnergyObj.normalize).getD k 0 a| ≤ 1 := by
    intro m k a
    rw [getD_normalize]
    exact normalize_le _ a
  have h1 := abs_listSum_sub_le E.bonds
    (fun b => E.factor * E.spins.getD b.1 0 * E.spins.getD b.2.1 0 *
      einsum3 ((l.map EnergyObj.normalize).getD b.1 0) (cell b.2.2.2) ((l.map EnergyObj.normalize).getD b.2.1 0))
    (fun b => E.factor * E.spins.getD b.1 0 * E.spins.getD b.2.1 0 *
      einsum3 ((l'.map EnergyObj.normalize).getD b.1 0) (cell b.2.2.2) ((l'.map EnergyObj.normalize).getD b.2.1 0))
    (fun b => 10 * D * (|E.factor * E.spins.getD b.1 0 * E.spins.getD b.2.1 0| * ∑ a, ∑ c, |cell b.2.2.2 a c|)) (by
      intro b _
      rw [← mul_sub, abs_mul]
      have := einsum3_close (cell b.2.2.2) (hc b.1) (hc b.2.1) (hb l b.2.1) (hb l' b.1)
      have h0 : 0 ≤ ∑ a, ∑ c, |cell b.2.2.2 a c| := Finset.sum_nonneg fun _ _ => Finset.sum_nonneg fun _ _ => abs_nonneg _
      calc _ ≤ |E.factor * E.spins.getD b.1 0 * E.spins.getD b.2.1 0| * (10 * D * ∑ a, ∑ c, |cell b.2.2.2 a c|) :=
            mul_le_mul_of_nonneg_left (this.trans (by nlinarith [mul_nonneg hD h0])) (abs_nonneg _)
        _ = _ := by ring)
  rw [List.sum_map_mul_left] at h1
  have h2 : |E.zeeman muB (l.map EnergyObj.normalize) - E.zeeman muB (l'.map EnergyObj.normalize)| ≤
      10 * D * match E.field with
        | none => 0
        | some h => |muB| * ((E.gFactors.map fun g => |g|).sum * ∑ a, |h a|) := by
    cases hf : E.field with
    | none => simp [zeeman, hf]
    | some f =>
      simp only [zeeman, hf]
      rw [← mul_sub, abs_mul]
      have := zeeman_close f (L := 4 * D) (by linarith) E.gFactors (l.map EnergyObj.normalize) (l'.map EnergyObj.normalize) (by simpa using hl)
        fun k _ a => hc k a
      have h0 : 0 ≤ (E.gFactors.map fun g => |g|).sum * ∑ a, |f a| := by
        refine mul_nonneg (List.sum_nonneg ?_) (Finset.sum_nonneg fun _ _ => abs_nonneg _)
        intro y hy
        obtain ⟨z, -, rfl⟩ := List.mem_map.1 hy
        exact abs_nonneg _
      calc _ ≤ |muB| * (10 * D * ((E.gFactors.map fun g => |g|).sum * ∑ a, |f a|)) :=
            mul_le_mul_of_nonneg_left (this.trans (by nlinarith [mul_nonneg hD h0])) (abs_nonneg _)
        _ = _ := by ring
  unfold ferroUnit bondSum strength
  rw [add_sub_add_comm, mul_add]
  exact (abs_add_le _ _).trans (add_le_add h1 h2)

/-- The terms of the energy are bounded by the strength. -/
theorem size_le_strength (E : EnergyObj ℝ) (muB : ℝ) (cell : ℕ → M3 ℝ) {e : List (V3 ℝ)} (he : ∀ k a, |e.getD k 0 a| ≤ 1) :
    E.size muB cell e ≤ strength E muB cell := by
  unfold size strength
  refine add_le_add (List.sum_le_sum fun b _ => ?_) ?_
  · obtain ⟨i, j, d, J⟩ := b
    simp only [abs_mul]
    refine mul_le_mul_of_nonneg_left (Finset.sum_le_sum fun x _ => Finset.sum_le_sum fun y _ => ?_) (by positivity)
    have h1 := mul_le_mul (mul_le_mul_of_nonneg_right (he i x) (abs_nonneg (cell J x y))) (he j y) (abs_nonneg _)
      (by positivity)
    simpa using h1
  · cases hf : E.field with
    | none => exact le_rfl
    | some h =>
      refine mul_le_mul_of_nonneg_left ?_ (abs_nonneg _)
      have key : ∀ (g : List ℝ) (e : List (V3 ℝ)), (∀ k a, |e.getD k 0 a| ≤ 1) →
          (List.zipWith (fun g v => ∑ a : Fin 3, |g| * |h a| * |(v : V3 ℝ) a|) g e).sum ≤ (g.map fun x => |x|).sum * ∑ a, |h a| := by
        intro g
        induction g with
        | nil => intro e _; simp
        | cons x g ih =>
          intro e he
          have h0 : 0 ≤ ((x :: g).map fun x => |x|).sum * ∑ a, |h a| := by
            refine mul_nonneg (List.sum_nonneg ?_) (Finset.sum_nonneg fun _ _ => abs_nonneg _)
            intro y hy
            obtain ⟨z, -, rfl⟩ := List.mem_map.1 hy
            exact abs_nonneg _
          cases e with
          | nil => simpa using h0
          | cons v e =>
            have h1 := ih e fun k a => by simpa using he (k + 1) a
            have h2 : ∑ a : Fin 3, |x| * |h a| * |v a| ≤ |x| * ∑ a, |h a| := by
              rw [Finset.mul_sum]
              refine Finset.sum_le_sum fun a _ => ?_
              have : |v a| ≤ 1 := by simpa using he 0 a
              exact mul_le_of_le_one_right (by positivity) this
            simp only [List.zipWith_cons_cons, List.sum_cons, List.map_cons, add_mul]
            exact add_le_add h2 h1
      exact key _ _ he

end Optimize
end Magnopy
