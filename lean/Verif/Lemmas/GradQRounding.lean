import Verif.Lemmas.EnergyConeRounding
import Verif.Lemmas.TorqueConeRounding
import Verif.Model.OptimizeFloat
import Verif.Spec.GradQRounding

/-!
# Lemmas about the round-off of the derivative with respect to the spiral vector
-/

set_option autoImplicit false

set_option linter.unusedSectionVars false

namespace Magnopy
namespace Optimize

open EnergyObj Matrix

section near

variable {u : ℝ} {fl : ℝ → ℝ} {S : ConeSums} {N k n d : ℕ}

theorem half_near (hf : IsRounding fl u) {t c c' : ℝ} (ht : |t| = 1 / 2) (hc : Rounded u k c c') (h1 : |c| ≤ 1) {x y s : ℝ} (h : Approx u n x y s) :
    Approx u (n + k + 2) (t * c * x) (fl (fl (t * c') * y)) (1 / 2 * s) := by
  have h2 := (Rounded.mul hf.lt (Rounded.refl (u := u) t) hc).trans hf.lt (Rounded.one hf _)
  refine ((Approx.smul hf.lt h2 h).round hf).mono hf.nonneg hf.lt (by omega) ?_
  rw [abs_mul, ht]
  nlinarith [h.nonneg]

theorem gradC_near {A : Arith} (hA : A.Good u k) (hS : S.Complete N d) (v q : V3 ℝ) (b : ℕ) (w : V3 ℝ) (J : M3 ℝ) :
    ApproxM u (4 * d + k + 8) (spiralGradC v (Real.cos (dot3Fl A.fl (S.cosine b) q w)) (Real.sin (dot3Fl A.fl (S.sine b) q w)) J)
      (spiralGradCFl A S v q b w J) (spiralTurn v J) := fun i j => by
  have hf := hA.fl
  have hK : ApproxM u 0 (coneK v) (coneK v) (crossSize v) := cross_near hf fun i => .refl _
  have hQ : ApproxM u (d + 1) (coneK v * coneK v) (coneKsqFl A.fl S v) (squareSize v) :=
    (matmul_near hf hS.square hK hK).mono hf (by omega)
  have a0 := (triple_near hf hS b 0 J hK hQ i j).mono hf.nonneg hf.lt (show _ ≤ 4 * d + 4 by omega) le_rfl
  have a2 := (triple_near hf hS b 2 J hQ hK i j).mono hf.nonneg hf.lt (show _ ≤ 4 * d + 4 by omega) le_rfl
  have a4 := (triple_near hf hS b 4 J hK hK i j).mono hf.nonneg hf.lt (show _ ≤ 4 * d + 4 by omega) le_rfl
  have a6 := (triple_near hf hS b 6 J hQ hQ i j).mono hf.nonneg hf.lt (show _ ≤ 4 * d + 4 by omega) le_rfl
  have h1 := half_near (t := -1 / 2) hf (by norm_num [abs_div]) (hA.cos (dot3Fl A.fl (S.cosine b) q w)) (Real.abs_cos_le_one _) ((a0.add a2).round hf)
  have h2 := half_near (t := 1 / 2) hf (by norm_num [abs_div]) (hA.sin (dot3Fl A.fl (S.sine b) q w)) (Real.abs_sin_le_one _)
    ((a4.sub hf.lt a6).round hf)
  have h3 := ((h1.add h2).round hf).mono hf.nonneg hf.lt (show _ ≤ 4 * d + k + 8 by omega) (le_refl _)
  rw [show -1 / 2 * A.cos (dot3Fl A.fl (S.cosine b) q w) = -A.cos (dot3Fl A.fl (S.cosine b) q w) / 2 by ring,
    show 1 / 2 * A.sin (dot3Fl A.fl (S.sine b) q w) = A.sin (dot3Fl A.fl (S.sine b) q w) / 2 by ring] at h3
  refine (show Approx u _ _ (spiralGradCFl A S v q b w J i j) _ from ?_)
  convert h3 using 1
  · simp only [spiralGradC, Matrix.sub_apply, Matrix.add_apply, Matrix.smul_apply, smul_eq_mul]
    ring
  · rfl
  · simp only [spiralTurn, Matrix.add_apply, Matrix.smul_apply, smul_eq_mul]
    ring

end near

section sizes

variable {A A' B B' J : M3 ℝ} {p q X Y : ℝ}

theorem entries_nonneg (J : M3 ℝ) : 0 ≤ ∑ a, ∑ b, |J a b| := Finset.sum_nonneg fun _ _ => Finset.sum_nonneg fun _ _ => abs_nonneg _

theorem triple_bilin (A J B : M3 ℝ) (i j : Fin 3) : (A * J * B) i j = bilin (A i) J fun k => B k j := by
  simp only [Matrix.mul_apply, bilin, Finset.sum_mul]
  exact Finset.sum_comm

theorem bilin_le {e f : V3 ℝ} (J : M3 ℝ) (he : ∀ a, |e a| ≤ X) (hf : ∀ a, |f a| ≤ Y) : |bilin e J f| ≤ X * Y * ∑ a, ∑ b, |J a b| := by
  have h := bilin_close (f1 := 0) (f2 := 0) (p := X) (q := Y) (X := 0) (Y := Y) J (by simpa using he) (by simpa using hf) hf (by simp)
  have h0 : bilin (0 : V3 ℝ) J 0 = 0 := by simp [bilin]
  rw [h0, sub_zero] at h
  linarith

theorem triple_size (hA : ∀ i j, |A i j| ≤ X) (hB : ∀ i j, |B i j| ≤ Y) (J : M3 ℝ) (i j : Fin 3) :
    |(A * J * B) i j| ≤ X * Y * ∑ a, ∑ b, |J a b| := by
  rw [triple_bilin]
  exact bilin_le J (fun a => hA i a) fun a => hB a j

theorem triple_diff (hA : ∀ i j, |A i j - A' i j| ≤ p) (hB : ∀ i j, |B i j - B' i j| ≤ q) (hX : ∀ i j, |A' i j| ≤ X) (hY : ∀ i j, |B i j| ≤ Y)
    (J : M3 ℝ) (i j : Fin 3) : |(A * J * B) i j - (A' * J * B') i j| ≤ (p * Y + X * q) * ∑ a, ∑ b, |J a b| := by
  rw [triple_bilin, triple_bilin]
  exact bilin_close J (fun a => hA i a) (fun a => hB a j) (fun a => hY a j) fun a => hX i a

theorem mul_size (hA : ∀ i j, |A i j| ≤ X) (hB : ∀ i j, |B i j| ≤ Y) (i j : Fin 3) : |(A * B) i j| ≤ 3 * (X * Y) := by
  have k : ∀ l, |A i l * B l j| ≤ X * Y := fun l => by
    rw [abs_mul]; exact mul_le_mul (hA i l) (hB l j) (abs_nonneg _) ((abs_nonneg _).trans (hA i l))
  rw [Matrix.mul_apply, Fin.sum_univ_three]
  have k0 := abs_le.1 (k 0)
  have k1 := abs_le.1 (k 1)
  have k2 := abs_le.1 (k 2)
  exact abs_le.2 ⟨by linarith, by linarith⟩

theorem mul_diff (hA : ∀ i j, |A i j - A' i j| ≤ p) (hB : ∀ i j, |B i j - B' i j| ≤ q) (hX : ∀ i j, |A' i j| ≤ X) (hY : ∀ i j, |B i j| ≤ Y)
    (i j : Fin 3) : |(A * B) i j - (A' * B') i j| ≤ 3 * (p * Y + X * q) := by
  have k : ∀ l, |A i l * B l j - A' i l * B' l j| ≤ p * Y + X * q := fun l => mul_close (hA i l) (hB l j) (hX i l) (hY l j)
  rw [Matrix.mul_apply, Matrix.mul_apply, Fin.sum_univ_three, Fin.sum_univ_three]
  have k0 := abs_le.1 (k 0)
  have k1 := abs_le.1 (k 1)
  have k2 := abs_le.1 (k 2)
  exact abs_le.2 ⟨by linarith, by linarith⟩

variable {n n' : V3 ℝ} {δ : ℝ}

theorem coneK_size (hn : ∀ a, |n a| ≤ 101 / 100) (i j : Fin 3) : |coneK n i j| ≤ 101 / 100 := by
  have h0 := hn 0
  have h1 := hn 1
  have h2 := hn 2
  have h3 : (0 : ℝ) ≤ 101 / 100 := by norm_num
  fin_cases i <;> fin_cases j <;> simp [coneK, h0, h1, h2, h3]

theorem crossSize_size (hn : ∀ a, |n a| ≤ 101 / 100) (i j : Fin 3) : |crossSize n i j| ≤ 101 / 100 := by
  have h0 := hn 0
  have h1 := hn 1
  have h2 := hn 2
  have h3 : (0 : ℝ) ≤ 101 / 100 := by norm_num
  fin_cases i <;> fin_cases j <;> simp [crossSize, h0, h1, h2, h3]

theorem coneK_diff (h : ∀ a, |n a - n' a| ≤ δ) (i j : Fin 3) : |coneK n i j - coneK n' i j| ≤ δ := by
  have h0 := h 0
  have h1 := h 1
  have h2 := h 2
  have h3 : 0 ≤ δ := (abs_nonneg _).trans h0
  have h0' := abs_sub_comm (n 0) (n' 0) ▸ h0
  have h1' := abs_sub_comm (n 1) (n' 1) ▸ h1
  have h2' := abs_sub_comm (n 2) (n' 2) ▸ h2
  have e : ∀ a, -n a + n' a = n' a - n a := fun a => by ring
  fin_cases i <;> fin_cases j <;> simp [coneK, h0, h1, h2, h3, e, h0', h1', h2']

theorem turn_size (hn : ∀ a, |n a| ≤ 101 / 100) (J : M3 ℝ) (i j : Fin 3) : |spiralTurn n J i j| ≤ 17 / 2 * ∑ a, ∑ b, |J a b| := by
  have k := crossSize_size hn
  have s := mul_size k k
  have t1 := abs_le.1 (triple_size k k (J.map abs) i j)
  have t2 := abs_le.1 (triple_size s s (J.map abs) i j)
  have t3 := abs_le.1 (triple_size k s (J.map abs) i j)
  have t4 := abs_le.1 (triple_size s k (J.map abs) i j)
  have hJ : ∑ a, ∑ b, |J.map abs a b| = ∑ a, ∑ b, |J a b| := by simp
  rw [hJ] at t1 t2 t3 t4
  have h0 := entries_nonneg J
  simp only [spiralTurn, squareSize, Matrix.add_apply, Matrix.smul_apply, smul_eq_mul]
  exact abs_le.2 ⟨by linarith, by linarith⟩

/-- The matrix of a bond, for the axis `n` and numbers `c`, `s` up to one. -/
theorem gradC_size (hn : ∀ a, |n a| ≤ 101 / 100) {c s : ℝ} (hc : |c| ≤ 1) (hs : |s| ≤ 1) (J : M3 ℝ) (i j : Fin 3) :
    |spiralGradC n c s J i j| ≤ 17 / 2 * ∑ a, ∑ b, |J a b| := by
  have k := coneK_size hn
  have q := mul_size k k
  have t1 := triple_size k k J i j
  have t2 := triple_size q q J i j
  have t3 := triple_size k q J i j
  have t4 := triple_size q k J i j
  have h0 := entries_nonneg J
  have b1 := (abs_add_le _ _).trans (add_le_add t3 t4)
  have b2 := (abs_sub _ _).trans (add_le_add t1 t2)
  have c1 := (mul_le_of_le_one_left (abs_nonneg _) hc).trans b1
  have c2 := (mul_le_of_le_one_left (abs_nonneg _) hs).trans b2
  rw [← abs_mul] at c1 c2
  have d1 := abs_le.1 c1
  have d2 := abs_le.1 c2
  simp only [spiralGradC, Matrix.sub_apply, Matrix.add_apply, Matrix.smul_apply, smul_eq_mul]
  exact abs_le.2 ⟨by linarith, by linarith⟩

/-- Other phases. -/
theorem gradC_phase (hn : ∀ a, |n a| ≤ 101 / 100) {c s c' s' ε : ℝ} (hε : 0 ≤ ε) (hc : |c - c'| ≤ ε) (hs : |s - s'| ≤ ε) (J : M3 ℝ) (i j : Fin 3) :
    |spiralGradC n c s J i j - spiralGradC n c' s' J i j| ≤ 17 / 2 * ε * ∑ a, ∑ b, |J a b| := by
  have k := coneK_size hn
  have q := mul_size k k
  have t1 := triple_size k k J i j
  have t2 := triple_size q q J i j
  have t3 := triple_size k q J i j
  have t4 := triple_size q k J i j
  have h0 := mul_nonneg hε (entries_nonneg J)
  have b1 := (abs_add_le _ _).trans (add_le_add t3 t4)
  have b2 := (abs_sub _ _).trans (add_le_add t1 t2)
  have c1 := mul_le_mul hc b1 (abs_nonneg _) hε
  have c2 := mul_le_mul hs b2 (abs_nonneg _) hε
  rw [← abs_mul] at c1 c2
  have d1 := abs_le.1 c1
  have d2 := abs_le.1 c2
  simp only [spiralGradC, Matrix.sub_apply, Matrix.add_apply, Matrix.smul_apply, smul_eq_mul]
  exact abs_le.2 ⟨by linarith, by linarith⟩

/-- Another axis. -/
theorem gradC_axis (hn : ∀ a, |n a| ≤ 101 / 100) (hn' : ∀ a, |n' a| ≤ 101 / 100) (h : ∀ a, |n a - n' a| ≤ δ) {c s : ℝ} (hc : |c| ≤ 1) (hs : |s| ≤ 1)
    (J : M3 ℝ) (i j : Fin 3) : |spiralGradC n c s J i j - spiralGradC n' c s J i j| ≤ 33 * δ * ∑ a, ∑ b, |J a b| := by
  have k := coneK_size hn
  have k' := coneK_size hn'
  have kd := coneK_diff h
  have q := mul_size k k
  have q' := mul_size k' k'
  have qd := mul_diff kd kd k' k
  have t1 := triple_diff kd kd k' k J i j
  have t2 := triple_diff qd qd q' q J i j
  have t3 := triple_diff kd qd k' q J i j
  have t4 := triple_diff qd kd q' k J i j
  have h0 := mul_nonneg ((abs_nonneg _).trans (h 0)) (entries_nonneg J)
  have b1 := (abs_add_le _ _).trans (add_le_add t3 t4)
  have b2 := (abs_sub _ _).trans (add_le_add t1 t2)
  have c1 := (mul_le_of_le_one_left (abs_nonneg _) hc).trans b1
  have c2 := (mul_le_of_le_one_left (abs_nonneg _) hs).trans b2
  rw [← abs_mul] at c1 c2
  have d1 := abs_le.1 c1
  have d2 := abs_le.1 c2
  simp only [spiralGradC, Matrix.sub_apply, Matrix.add_apply, Matrix.smul_apply, smul_eq_mul]
  exact abs_le.2 ⟨by linarith, by linarith⟩

theorem sum9_le {C : M3 ℝ} {m : ℝ} (h : ∀ i j, |C i j| ≤ m) : ∑ a, ∑ b, |C a b| ≤ 9 * m := by
  simp only [Fin.sum_univ_three]
  linarith [h 0 0, h 0 1, h 0 2, h 1 0, h 1 1, h 1 2, h 2 0, h 2 1, h 2 2]

/-- One bond: other spins, another axis and other phases. -/
theorem gradTerm_close {e f e' f' : V3 ℝ} {c s c' s' ε : ℝ} (hδ : 0 ≤ δ) (hε : 0 ≤ ε) (hn : ∀ a, |n a| ≤ 101 / 100) (hn' : ∀ a, |n' a| ≤ 1)
    (h : ∀ a, |n a - n' a| ≤ δ) (hf : ∀ a, |f a| ≤ 101 / 100) (he' : ∀ a, |e' a| ≤ 1) (hf' : ∀ a, |f' a| ≤ 1) (hee : ∀ a, |e a - e' a| ≤ δ)
    (hff : ∀ a, |f a - f' a| ≤ δ) (hc0 : |c| ≤ 1) (hs0 : |s| ≤ 1) (hc : |c - c'| ≤ ε) (hs : |s - s'| ≤ ε) (J : M3 ℝ) :
    |einsum3 e (spiralGradC n c s J) f - einsum3 e' (spiralGradC n' c' s' J) f'| ≤ (500 * δ + 80 * ε) * ∑ a, ∑ b, |J a b| := by
  rw [einsum3_eq_bilin, einsum3_eq_bilin]
  have hn2 : ∀ a, |n' a| ≤ 101 / 100 := fun a => (hn' a).trans (by norm_num)
  have h0 := entries_nonneg J
  have h1 := bilin_close (spiralGradC n c s J) hee hff hf he'
  have h2 := sum9_le (gradC_size hn hc0 hs0 J)
  have h3 : ∀ i j, |(spiralGradC n c s J - spiralGradC n' c' s' J) i j| ≤ (33 * δ + 17 / 2 * ε) * ∑ a, ∑ b, |J a b| := fun i j => by
    have a1 := abs_le.1 (gradC_axis hn hn2 h hc0 hs0 J i j)
    have a2 := abs_le.1 (gradC_phase hn2 hε hc hs J i j)
    rw [Matrix.sub_apply]
    exact abs_le.2 ⟨by linarith, by linarith⟩
  have h4 := (bilin_le (spiralGradC n c s J - spiralGradC n' c' s' J) he' hf').trans
    (mul_le_mul_of_nonneg_left (sum9_le h3) (by norm_num))
  have h5 := h1.trans (mul_le_mul_of_nonneg_left h2 (by linarith))
  have e0 : bilin e' (spiralGradC n c s J - spiralGradC n' c' s' J) f' =
      bilin e' (spiralGradC n c s J) f' - bilin e' (spiralGradC n' c' s' J) f' := by
    simp only [bilin, Matrix.sub_apply, mul_sub, sub_mul, Finset.sum_sub_distrib]
  rw [e0] at h4
  have h6 := abs_le.1 h4
  have h7 := abs_le.1 h5
  have k1 := mul_nonneg hδ h0
  have k2 := mul_nonneg hε h0
  exact abs_le.2 ⟨by linarith, by linarith⟩

end sizes

end Optimize
end Magnopy
