import Mathlib.Analysis.Calculus.Deriv.Basic
import Mathlib.Analysis.SpecialFunctions.Sqrt
import Mathlib.Tactic.Linarith
import Mathlib.Tactic.Ring
import Mathlib.Tactic.NormNum

/-!
# Second-order expansions with explicit remainders

`Jet f B`: near zero `f` is a polynomial of second order up to a third-order remainder, and the sizes of the three
coefficients and of the remainder add up to at most `B`.  This size is submultiplicative, so bounds for products and sums
follow from bounds for the factors.  The error of a central difference is bounded by `B h²`.
-/

set_option autoImplicit false

set_option linter.unusedSectionVars false

namespace Magnopy.Optimize

/-- `f(t) = a + b t + c t² + O(t³)` for `|t| ≤ 1/100`, with `|a| + |b| + |c| + r ≤ B`. -/
def Jet (f : ℝ → ℝ) (B : ℝ) : Prop :=
  ∃ a b c r : ℝ, 0 ≤ r ∧ |a| + |b| + |c| + r ≤ B ∧
    ∀ t : ℝ, |t| ≤ 1 / 100 → |f t - (a + b * t + c * t ^ 2)| ≤ r * |t| ^ 3

namespace Jet

variable {f g : ℝ → ℝ} {A B : ℝ}

theorem nonneg (h : Jet f B) : 0 ≤ B := by
  obtain ⟨a, b, c, r, hr, hB, -⟩ := h
  have := abs_nonneg a
  have := abs_nonneg b
  have := abs_nonneg c
  linarith

theorem mono (h : Jet f A) (hAB : A ≤ B) : Jet f B := by
  obtain ⟨a, b, c, r, hr, hB, ht⟩ := h
  exact ⟨a, b, c, r, hr, hB.trans hAB, ht⟩

theorem congr (h : Jet f B) (hfg : ∀ t : ℝ, |t| ≤ 1 / 100 → g t = f t) : Jet g B := by
  obtain ⟨a, b, c, r, hr, hB, ht⟩ := h
  exact ⟨a, b, c, r, hr, hB, fun t h => by rw [hfg t h]; exact ht t h⟩

theorem const {x : ℝ} (h : |x| ≤ B) : Jet (fun _ => x) B :=
  ⟨x, 0, 0, 0, le_rfl, by simpa using h, fun t _ => by simp⟩

theorem add (hf : Jet f A) (hg : Jet g B) : Jet (fun t => f t + g t) (A + B) := by
  obtain ⟨a, b, c, r, hr, hA, ht⟩ := hf
  obtain ⟨a', b', c', r', hr', hB, ht'⟩ := hg
  refine ⟨a + a', b + b', c + c', r + r', by linarith, ?_, fun t h => ?_⟩
  · have := abs_add_le a a'
    have := abs_add_le b b'
    have := abs_add_le c c'
    linarith
  · have e : f t + g t - (a + a' + (b + b') * t + (c + c') * t ^ 2) =
        (f t - (a + b * t + c * t ^ 2)) + (g t - (a' + b' * t + c' * t ^ 2)) := by ring
    rw [e, add_mul]
    exact (abs_add_le _ _).trans (add_le_add (ht t h) (ht' t h))

/-- The size is submultiplicative. -/
theorem mul (hf : Jet f A) (hg : Jet g B) : Jet (fun t => f t * g t) (A * B) := by
  have hA0 := hf.nonneg
  obtain ⟨a, b, c, r, hr, hA, ht⟩ := hf
  obtain ⟨a', b', c', r', hr', hB, ht'⟩ := hg
  have na := abs_nonneg a
  have nb := abs_nonneg b
  have nc := abs_nonneg c
  have na' := abs_nonneg a'
  have nb' := abs_nonneg b'
  have nc' := abs_nonneg c'
  refine ⟨a * a', a * b' + b * a', a * c' + b * b' + c * a',
    |b| * |c'| + |c| * |b'| + |c| * |c'| + (|a| + |b| + |c|) * r' + r * (|a'| + |b'| + |c'| + r'), by positivity, ?_,
    fun t h => ?_⟩
  · have h1 : |a * a'| = |a| * |a'| := abs_mul _ _
    have h2 : |a * b' + b * a'| ≤ |a| * |b'| + |b| * |a'| := by
      rw [← abs_mul, ← abs_mul]; exact abs_add_le _ _
    have h3 : |a * c' + b * b' + c * a'| ≤ |a| * |c'| + |b| * |b'| + |c| * |a'| := by
      rw [← abs_mul, ← abs_mul, ← abs_mul]
      exact (abs_add_le _ _).trans (add_le_add (abs_add_le _ _) le_rfl)
    have h4 : (|a| + |b| + |c| + r) * (|a'| + |b'| + |c'| + r') ≤ A * B :=
      mul_le_mul hA hB (by positivity) hA0
    nlinarith
  · have t0 := abs_nonneg t
    have t1 : |t| ≤ 1 := h.trans (by norm_num)
    have p2 : |t| ^ 2 ≤ 1 := pow_le_one₀ t0 t1
    have p3 : |t| ^ 3 ≤ 1 := pow_le_one₀ t0 t1
    have p30 : 0 ≤ |t| ^ 3 := by positivity
    set p := a + b * t + c * t ^ 2 with hp
    set q := a' + b' * t + c' * t ^ 2 with hq
    have bound : ∀ x y z : ℝ, |x + y * t + z * t ^ 2| ≤ |x| + |y| + |z| := by
      intro x y z
      have e1 := abs_add_le (x + y * t) (z * t ^ 2)
      have e2 := abs_add_le x (y * t)
      rw [abs_mul, abs_pow] at e1
      rw [abs_mul] at e2
      have := mul_le_of_le_one_right (abs_nonneg y) t1
      have := mul_le_of_le_one_right (abs_nonneg z) p2
      linarith
    have hpb : |p| ≤ |a| + |b| + |c| := bound a b c
    have hqb : |q| ≤ |a'| + |b'| + |c'| := bound a' b' c'
    have hft := ht t h
    have hgt := ht' t h
    have e : f t * g t - (a * a' + (a * b' + b * a') * t + (a * c' + b * b' + c * a') * t ^ 2) =
        (b * c' + c * b') * t ^ 3 + c * c' * (t * t ^ 3) + p * (g t - q) + (f t - p) * (q + (g t - q)) := by
      rw [hp, hq]; ring
    have m1 : |(b * c' + c * b') * t ^ 3| ≤ (|b| * |c'| + |c| * |b'|) * |t| ^ 3 := by
      rw [abs_mul, abs_pow]
      refine mul_le_mul_of_nonneg_right ?_ p30
      rw [← abs_mul, ← abs_mul]; exact abs_add_le _ _
    have m2 : |c * c' * (t * t ^ 3)| ≤ |c| * |c'| * |t| ^ 3 := by
      rw [abs_mul, abs_mul, abs_mul, abs_pow]
      refine mul_le_mul_of_nonneg_left ?_ (by positivity)
      exact mul_le_of_le_one_left p30 t1
    have m3 : |p * (g t - q)| ≤ (|a| + |b| + |c|) * (r' * |t| ^ 3) := by
      rw [abs_mul]
      exact mul_le_mul hpb hgt (abs_nonneg _) (by positivity)
    have m4 : |(f t - p) * (q + (g t - q))| ≤ r * |t| ^ 3 * (|a'| + |b'| + |c'| + r') := by
      rw [abs_mul]
      refine mul_le_mul hft ?_ (abs_nonneg _) (by positivity)
      refine (abs_add_le _ _).trans (add_le_add hqb (hgt.trans ?_))
      exact mul_le_of_le_one_right hr' p3
    rw [e]
    calc _ ≤ |(b * c' + c * b') * t ^ 3| + |c * c' * (t * t ^ 3)| + |p * (g t - q)| + |(f t - p) * (q + (g t - q))| :=
          (abs_add_le _ _).trans (add_le_add ((abs_add_le _ _).trans (add_le_add (abs_add_le _ _) le_rfl)) le_rfl)
      _ ≤ (|b| * |c'| + |c| * |b'|) * |t| ^ 3 + |c| * |c'| * |t| ^ 3 + (|a| + |b| + |c|) * (r' * |t| ^ 3) +
          r * |t| ^ 3 * (|a'| + |b'| + |c'| + r') := by linarith
      _ = _ := by ring

theorem const_mul (x : ℝ) (hf : Jet f B) : Jet (fun t => x * f t) (|x| * B) := (const le_rfl).mul hf

theorem neg (hf : Jet f B) : Jet (fun t => -f t) B := by
  have := hf.const_mul (-1)
  simpa using this

theorem sub (hf : Jet f A) (hg : Jet g B) : Jet (fun t => f t - g t) (A + B) := by
  simpa only [sub_eq_add_neg] using hf.add hg.neg

/-- The derivative at zero and the error of central differences. -/
theorem central (hf : Jet f B) : ∃ D : ℝ, HasDerivAt f D 0 ∧
    ∀ h : ℝ, 0 < h → h ≤ 1 / 100 → |(f h - f (-h)) / 2 / h - D| ≤ B * h ^ 2 := by
  obtain ⟨a, b, c, r, hr, hB, ht⟩ := hf
  have ha := abs_nonneg a
  have hb := abs_nonneg b
  have hc := abs_nonneg c
  have f0 : f 0 = a := by
    have := ht 0 (by norm_num)
    simp only [mul_zero, add_zero, abs_zero, ne_eq, OfNat.ofNat_ne_zero, not_false_eq_true, zero_pow] at this
    linarith [abs_nonpos_iff.mp this]
  refine ⟨b, ?_, fun h h0 h1 => ?_⟩
  · rw [hasDerivAt_iff_isLittleO_nhds_zero]
    have key : (fun t => f (0 + t) - f 0 - t • b) =O[nhds 0] fun t : ℝ => t ^ 2 := by
      refine Asymptotics.IsBigO.of_bound (|c| + r) ?_
      filter_upwards [Metric.ball_mem_nhds (0 : ℝ) (show (0 : ℝ) < 1 / 100 by norm_num)] with t htm
      have htl : |t| ≤ 1 / 100 := by
        rw [Metric.mem_ball, dist_zero_right, Real.norm_eq_abs] at htm
        exact htm.le
      have h3 := ht t htl
      have t1 : |t| ≤ 1 := htl.trans (by norm_num)
      have e : f (0 + t) - f 0 - t • b = (f t - (a + b * t + c * t ^ 2)) + c * t ^ 2 := by
        rw [zero_add, f0, smul_eq_mul]; ring
      rw [e, Real.norm_eq_abs, Real.norm_eq_abs, abs_pow]
      have h4 : |c * t ^ 2| = |c| * |t| ^ 2 := by rw [abs_mul, abs_pow]
      have h5 : r * |t| ^ 3 ≤ r * |t| ^ 2 :=
        mul_le_mul_of_nonneg_left (pow_le_pow_of_le_one (abs_nonneg t) t1 (by norm_num)) hr
      have := abs_add_le (f t - (a + b * t + c * t ^ 2)) (c * t ^ 2)
      linarith
    refine key.trans_isLittleO ?_
    exact Asymptotics.isLittleO_pow_id (by norm_num)
  · have e1 := ht h (by rwa [abs_of_pos h0])
    have e2 := ht (-h) (by rwa [abs_neg, abs_of_pos h0])
    rw [abs_neg] at e2
    rw [abs_of_pos h0] at e1 e2
    have e : (f h - f (-h)) / 2 / h - b =
        ((f h - (a + b * h + c * h ^ 2)) - (f (-h) - (a + b * (-h) + c * (-h) ^ 2))) / (2 * h) := by
      field_simp
      ring
    rw [e, abs_div, abs_of_pos (by linarith : (0 : ℝ) < 2 * h), div_le_iff₀ (by linarith)]
    have := abs_sub (f h - (a + b * h + c * h ^ 2)) (f (-h) - (a + b * (-h) + c * (-h) ^ 2))
    have : r * h ^ 3 ≤ B * h ^ 3 := mul_le_mul_of_nonneg_right (by linarith) (by positivity)
    nlinarith

end Jet

/-- The polynomial behind the next bound; `5a³ - 3a` is twice the third Legendre polynomial. -/
theorem rsqrt_poly {a t : ℝ} (ha : |a| ≤ 1) (ht : |t| ≤ 1 / 100) :
    |1 - (1 - a * t + (3 * a ^ 2 - 1) / 2 * t ^ 2) ^ 2 * (1 + 2 * a * t + t ^ 2)| ≤ 22 / 10 * |t| ^ 3 := by
  obtain ⟨a1, a2⟩ := abs_le.mp ha
  have ha2 : a ^ 2 ≤ 1 := by nlinarith
  obtain ⟨b, hb⟩ : ∃ b, b = (3 * a ^ 2 - 1) / 2 := ⟨_, rfl⟩
  have hb1 : |b| ≤ 1 := abs_le.mpr ⟨by rw [hb]; nlinarith [sq_nonneg a], by rw [hb]; linarith⟩
  have e : 1 - (1 - a * t + (3 * a ^ 2 - 1) / 2 * t ^ 2) ^ 2 * (1 + 2 * a * t + t ^ 2) =
      -(((5 * a ^ 3 - 3 * a) + (b ^ 2 - 4 * (a ^ 2 * b) + a ^ 2 + 2 * b) * t +
      (2 * (a * b ^ 2) - 2 * (a * b)) * t ^ 2 + b ^ 2 * t ^ 3) * t ^ 3) := by
    rw [hb]; ring
  have le1 : ∀ {x y : ℝ}, |x| ≤ 1 → |y| ≤ 1 → |x * y| ≤ 1 := fun hx hy => by
    rw [abs_mul]; exact mul_le_one₀ hx (abs_nonneg _) hy
  have hb2 : |b ^ 2| ≤ 1 := by rw [sq]; exact le1 hb1 hb1
  have haa : |a ^ 2| ≤ 1 := by rw [sq]; exact le1 ha ha
  have c1 : |5 * a ^ 3 - 3 * a| ≤ 2 := by
    have h1 : 0 ≤ (1 + a) * (5 * a ^ 2 - 5 * a + 2) :=
      mul_nonneg (by linarith) (by nlinarith [sq_nonneg (2 * a - 1)])
    have h2 : 0 ≤ (1 - a) * (5 * a ^ 2 + 5 * a + 2) :=
      mul_nonneg (by linarith) (by nlinarith [sq_nonneg (2 * a + 1)])
    exact abs_le.mpr ⟨by linear_combination h1, by linear_combination h2⟩
  have c2 : |b ^ 2 - 4 * (a ^ 2 * b) + a ^ 2 + 2 * b| ≤ 8 := by
    have h1 := abs_le.mp hb2
    have h2 := abs_le.mp (le1 haa hb1)
    have h3 := abs_le.mp haa
    have h4 := abs_le.mp hb1
    exact abs_le.mpr ⟨by linarith [h1.1, h2.2, h3.1, h4.1], by linarith [h1.2, h2.1, h3.2, h4.2]⟩
  have c3 : |2 * (a * b ^ 2) - 2 * (a * b)| ≤ 4 := by
    have h1 := abs_le.mp (le1 ha hb2)
    have h2 := abs_le.mp (le1 ha hb1)
    exact abs_le.mpr ⟨by linarith [h1.1, h2.2], by linarith [h1.2, h2.1]⟩
  have t0 := abs_nonneg t
  have q2 : |t| ^ 2 ≤ 1 / 100 := by nlinarith
  have q3 : |t| ^ 3 ≤ 1 / 100 := by
    have : |t| ^ 3 = |t| * |t| ^ 2 := by ring
    rw [this]; nlinarith [sq_nonneg |t|]
  rw [e, abs_neg, abs_mul, abs_pow]
  refine mul_le_mul_of_nonneg_right ?_ (by positivity)
  obtain ⟨u, hu⟩ : ∃ u, u = 5 * a ^ 3 - 3 * a := ⟨_, rfl⟩
  obtain ⟨v, hv⟩ : ∃ v, v = b ^ 2 - 4 * (a ^ 2 * b) + a ^ 2 + 2 * b := ⟨_, rfl⟩
  obtain ⟨w, hw⟩ : ∃ w, w = 2 * (a * b ^ 2) - 2 * (a * b) := ⟨_, rfl⟩
  rw [← hu] at c1
  rw [← hv] at c2
  rw [← hw] at c3
  rw [← hu, ← hv, ← hw]
  have f1 : |b ^ 2 * t ^ 3| ≤ 1 * (1 / 100) := by
    rw [abs_mul, abs_pow t]; exact mul_le_mul hb2 q3 (by positivity) (by norm_num)
  have f2 : |w * t ^ 2| ≤ 4 * (1 / 100) := by
    rw [abs_mul, abs_pow t]; exact mul_le_mul c3 q2 (by positivity) (by norm_num)
  have f3 : |v * t| ≤ 8 * (1 / 100) := by
    rw [abs_mul]; exact mul_le_mul c2 ht t0 (by norm_num)
  have d1 := abs_add_le (u + v * t + w * t ^ 2) (b ^ 2 * t ^ 3)
  have d2 := abs_add_le (u + v * t) (w * t ^ 2)
  have d3 := abs_add_le u (v * t)
  linarith

/-- `1 / √(1 + 2at + t²)` up to second order. -/
theorem rsqrt_bound {a t : ℝ} (ha : |a| ≤ 1) (ht : |t| ≤ 1 / 100) :
    0 < 1 + 2 * a * t + t ^ 2 ∧
      |1 / Real.sqrt (1 + 2 * a * t + t ^ 2) - (1 - a * t + (3 * a ^ 2 - 1) / 2 * t ^ 2)| ≤ 6 / 5 * |t| ^ 3 := by
  obtain ⟨a1, a2⟩ := abs_le.mp ha
  obtain ⟨t1, t2⟩ := abs_le.mp ht
  have hat : |a * t| ≤ 1 / 100 := by
    rw [abs_mul]
    calc |a| * |t| ≤ 1 * (1 / 100) := mul_le_mul ha ht (abs_nonneg _) (by norm_num)
      _ = 1 / 100 := by norm_num
  obtain ⟨at1, at2⟩ := abs_le.mp hat
  have ha2 : a ^ 2 ≤ 1 := by nlinarith
  have hs : (98 : ℝ) / 100 ≤ 1 + 2 * a * t + t ^ 2 := by nlinarith [sq_nonneg t]
  have hs0 : 0 < 1 + 2 * a * t + t ^ 2 := by linarith
  refine ⟨hs0, ?_⟩
  set s := 1 + 2 * a * t + t ^ 2 with hsdef
  set P := 1 - a * t + (3 * a ^ 2 - 1) / 2 * t ^ 2 with hP
  set r := 1 / Real.sqrt s with hr
  have hq : 0 < Real.sqrt s := Real.sqrt_pos.mpr hs0
  have hr0 : 0 < r := by positivity
  have hrs : r ^ 2 * s = 1 := by
    rw [hr, div_pow, Real.sq_sqrt hs0.le]; field_simp
  have hs2 : s ≤ 103 / 100 := by
    have : t ^ 2 ≤ 1 / 10000 := by nlinarith
    linarith
  have hr2 : (97 : ℝ) / 100 ≤ r := by
    by_contra hcon
    rw [not_le] at hcon
    have : r ^ 2 ≤ (97 / 100) ^ 2 := by nlinarith
    nlinarith
  have ht2 : t ^ 2 ≤ 1 / 10000 := by nlinarith
  have hP1 : (98 : ℝ) / 100 ≤ P := by nlinarith [sq_nonneg a, sq_nonneg t, mul_nonneg (sq_nonneg a) (sq_nonneg t)]
  have key : |1 - P ^ 2 * s| ≤ 22 / 10 * |t| ^ 3 := rsqrt_poly ha ht
  have hfin : |r - P| * (r + P) * s = |1 - P ^ 2 * s| := by
    have : (r - P) * (r + P) * s = 1 - P ^ 2 * s := by
      have : (r - P) * (r + P) * s = r ^ 2 * s - P ^ 2 * s := by ring
      rw [this, hrs]
    rw [← this, abs_mul, abs_mul, abs_of_pos (by linarith : 0 < r + P), abs_of_pos hs0]
  have hprod : (19 : ℝ) / 10 ≤ (r + P) * s := by nlinarith
  have hn := abs_nonneg (r - P)
  have : |r - P| * (19 / 10) ≤ 22 / 10 * |t| ^ 3 := by
    calc |r - P| * (19 / 10) ≤ |r - P| * ((r + P) * s) := mul_le_mul_of_nonneg_left hprod hn
      _ = |1 - P ^ 2 * s| := by rw [← hfin]; ring
      _ ≤ _ := key
  have := abs_nonneg t
  have : 0 ≤ |t| ^ 3 := by positivity
  linarith

end Magnopy.Optimize
