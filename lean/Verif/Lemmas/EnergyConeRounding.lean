import Verif.Spec.EnergyConeRounding
import Verif.Props.EnergyRounding
import Mathlib.Analysis.SpecialFunctions.Trigonometric.Bounds

/-!
# Lemmas about the round-off of products of sums
-/

set_option autoImplicit false
set_option linter.unusedSectionVars false

namespace Magnopy
namespace EnergyObj

variable {K : Type*} [Field K] [LinearOrder K] [IsStrictOrderedRing K] {u : K} {fl : K → K}

/-- `y` is a sum of terms up to `n` roundings of each; the exact sum is `x`, and that of the absolute values is at most `s`. -/
def Approx (u : K) (n : ℕ) (x y s : K) : Prop := ∃ L, SumNear u n L y ∧ L.sum = x ∧ (L.map abs).sum ≤ s

namespace Approx

variable {n m : ℕ} {x y s x' y' s' : K}

theorem mono (h0 : 0 ≤ u) (h1 : u < 1) (hnm : n ≤ m) (hs : s ≤ s') (h : Approx u n x y s) : Approx u m x y s' := by
  obtain ⟨L, a, b, c⟩ := h
  exact ⟨L, a.mono h0 h1 hnm, b, c.trans hs⟩

theorem of_rounded (h : Rounded u n x y) : Approx u n x y |x| := ⟨{x}, .single h, by simp, by simp⟩

theorem refl (x : K) : Approx u 0 x x |x| := of_rounded (.refl x)

theorem zero (n : ℕ) : Approx u n (0 : K) 0 0 := ⟨0, .zero n, by simp, by simp⟩

theorem nonneg (h : Approx u n x y s) : 0 ≤ s := by
  obtain ⟨L, _, _, c⟩ := h
  refine le_trans (Multiset.sum_nonneg fun z hz => ?_) c
  obtain ⟨w, _, rfl⟩ := Multiset.mem_map.1 hz
  exact abs_nonneg w

theorem add (h : Approx u n x y s) (h' : Approx u n x' y' s') : Approx u n (x + x') (y + y') (s + s') := by
  obtain ⟨L, a, b, c⟩ := h
  obtain ⟨L', a', b', c'⟩ := h'
  exact ⟨L + L', a.add a', by rw [Multiset.sum_add, b, b'], by rw [Multiset.map_add, Multiset.sum_add]; exact add_le_add c c'⟩

/-- The product with a rounded number. -/
theorem smul (h1 : u < 1) (hc : Rounded u m x' y') (h : Approx u n x y s) : Approx u (m + n) (x' * x) (y' * y) (|x'| * s) := by
  obtain ⟨L, a, b, c⟩ := h
  refine ⟨_, a.mul h1 hc, by rw [Multiset.sum_map_mul_left, Multiset.map_id', b], ?_⟩
  rw [Multiset.map_map]
  simp only [Function.comp_def, abs_mul]
  rw [Multiset.sum_map_mul_left]
  exact mul_le_mul_of_nonneg_left c (abs_nonneg x')

theorem neg (h1 : u < 1) (h : Approx u n x y s) : Approx u n (-x) (-y) s := by
  have := smul h1 (.refl (-1)) h
  simpa using this

theorem round (hf : IsRounding fl u) (h : Approx u n x y s) : Approx u (n + 1) x (fl y) s := by
  obtain ⟨L, a, b, c⟩ := h
  exact ⟨L, a.round hf, b, c⟩

theorem sub (h1 : u < 1) (h : Approx u n x y s) (h' : Approx u n x' y' s') : Approx u n (x - x') (y - y') (s + s') := by
  rw [sub_eq_add_neg, sub_eq_add_neg]
  exact h.add (h'.neg h1)

/-- The product of two sums. -/
theorem mul (h1 : u < 1) (h : Approx u n x y s) (h' : Approx u m x' y' s') : Approx u (n + m) (x * x') (y * y') (s * s') := by
  obtain ⟨L, ⟨M, a, rfl⟩, rfl, c⟩ := h
  have key : Approx u (n + m) (L.sum * x') (M.sum * y') ((L.map abs).sum * s') := by
    clear c
    induction a with
    | zero => simpa using zero (n + m)
    | @cons a b as bs hab _ ih =>
      simp only [Multiset.sum_cons, Multiset.map_cons, add_mul]
      exact (smul h1 hab h').add ih
  obtain ⟨L', a', b', c'⟩ := key
  exact ⟨L', a', b', c'.trans (mul_le_mul_of_nonneg_right c h'.nonneg)⟩

theorem fl_mul (hf : IsRounding fl u) (h : Approx u n x y s) (h' : Approx u m x' y' s') :
    Approx u (n + m + 1) (x * x') (fl (y * y')) (s * s') := (h.mul hf.lt h').round hf

/-- Any order of additions. -/
theorem tree (hf : IsRounding fl u) {ι : Type*} {f g s : ι → K} (T : Tree ι) (h : ∀ i, Approx u n (f i) (g i) (s i)) :
    Approx u (n + T.depth) (T.leaves.map f).sum (T.sum fl g) (T.leaves.map s).sum := by
  induction T with
  | zero => simpa [Tree.leaves, Tree.depth, Tree.sum] using zero (u := u) n
  | leaf i => simpa [Tree.leaves, Tree.depth, Tree.sum] using h i
  | node l r hl hr =>
    simp only [Tree.leaves, Tree.depth, Tree.sum, Multiset.map_add, Multiset.sum_add]
    rw [← add_assoc]
    exact ((hl.mono hf.nonneg hf.lt (by omega) le_rfl).add (hr.mono hf.nonneg hf.lt (by omega) le_rfl)).round hf

/-- Any order of additions of all terms. -/
theorem tree_univ (hf : IsRounding fl u) {ι : Type*} [Fintype ι] {f g s : ι → K} {T : Tree ι} {d : ℕ}
    (hT : T.leaves = Finset.univ.val ∧ T.depth ≤ d) (h : ∀ i, Approx u n (f i) (g i) (s i)) :
    Approx u (n + d) (∑ i, f i) (T.sum fl g) (∑ i, s i) := by
  have := tree hf T h
  rw [hT.1] at this
  exact this.mono hf.nonneg hf.lt (by have := hT.2; omega) le_rfl

/-- A loop that adds terms. -/
theorem loop (hf : IsRounding fl u) {α : Type*} {X Y S : α → K} (l : List α) (h : ∀ b ∈ l, Approx u n (X b) (Y b) (S b)) :
    Approx u (n + l.length) (l.map X).sum (l.foldl (fun y b => fl (y + Y b)) 0) (l.map S).sum := by
  induction l using List.reverseRecOn with
  | nil => simpa using zero (u := u) n
  | append_singleton l b ih =>
    have ih := ih fun b hb => h b (List.mem_append_left _ hb)
    have hb := (h b (by simp)).mono hf.nonneg hf.lt (Nat.le_add_right n l.length) le_rfl
    rw [List.foldl_append, List.length_append, ← add_assoc]
    simpa using (ih.add hb).round hf

theorem error (h0 : 0 ≤ u) (h1 : u < 1) (hn : n * u < 1) (h : Approx u n x y s) : |y - x| ≤ gamma u n * s := by
  obtain ⟨L, a, rfl, c⟩ := h
  refine (a.error h0 h1 hn).trans (mul_le_mul_of_nonneg_left c ?_)
  exact div_nonneg (mul_nonneg (by positivity) h0) (by linarith)

end Approx

variable {d : ℕ}

section cone

variable {u : ℝ} {fl : ℝ → ℝ} {S : ConeSums} {N k n m : ℕ} {A A' B B' sA sB : M3 ℝ}

/-- Entry by entry. -/
def ApproxM (u : ℝ) (n : ℕ) (A A' s : M3 ℝ) : Prop := ∀ i j, Approx u n (A i j) (A' i j) (s i j)

theorem ApproxM.mono (hf : IsRounding fl u) (hnm : n ≤ m) (h : ApproxM u n A A' sA) : ApproxM u m A A' sA := fun i j =>
  (h i j).mono hf.nonneg hf.lt hnm le_rfl

theorem matmul_near (hf : IsRounding fl u) {T : Fin 3 → Fin 3 → Tree (Fin 3)} (hT : ∀ i j, (T i j).leaves = Finset.univ.val ∧ (T i j).depth ≤ d)
    (hA : ApproxM u n A A' sA) (hB : ApproxM u m B B' sB) : ApproxM u (n + m + 1 + d) (A * B) (matmulFl fl T A' B') (sA * sB) := fun i j => by
  rw [Matrix.mul_apply, Matrix.mul_apply]
  exact Approx.tree_univ hf (hT i j) fun k => Approx.fl_mul hf (hA i k) (hB k j)

theorem addEye_near (hf : IsRounding fl u) (hA : ApproxM u n A A' sA) : ApproxM u (n + 1) (1 + A) (addEyeFl fl A') (1 + sA) := fun i j => by
  rw [Matrix.add_apply, Matrix.add_apply]
  refine Approx.round hf (Approx.add ?_ (hA i j))
  have := (Approx.refl (u := u) ((1 : M3 ℝ) i j)).mono hf.nonneg hf.lt (Nat.zero_le n) (le_refl |(1 : M3 ℝ) i j|)
  have h1 : |(1 : M3 ℝ) i j| = (1 : M3 ℝ) i j := by
    rw [Matrix.one_apply]
    split_ifs <;> simp
  rwa [h1] at this

theorem cross_near (hf : IsRounding fl u) {v v' : V3 ℝ} (h : ∀ i, Rounded u n (v i) (v' i)) : ApproxM u n (coneK v) (coneK v') (crossSize v) := by
  have h0 : Approx u n (0 : ℝ) 0 0 := .zero n
  have h1 : ∀ i, Approx u n (v i) (v' i) |v i| := fun i => .of_rounded (h i)
  have h2 : ∀ i, Approx u n (-v i) (-v' i) |v i| := fun i => (h1 i).neg hf.lt
  intro i j
  fin_cases i <;> fin_cases j <;> simp [coneK, crossSize, h0, h1, h2]

theorem square_near (hf : IsRounding fl u) (hS : S.Complete N d) {v v' : V3 ℝ} (h : ∀ i, Rounded u (d + 3) (v i) (v' i)) :
    ApproxM u (3 * d + 7) (coneK v * coneK v) (coneKsqFl fl S v') (squareSize v) :=
  (matmul_near hf hS.square (cross_near hf h) (cross_near hf h)).mono hf (by omega)

theorem IKsq_near (hf : IsRounding fl u) (hS : S.Complete N d) {v v' : V3 ℝ} (h : ∀ i, Rounded u (d + 3) (v i) (v' i)) :
    ApproxM u (3 * d + 8) (coneIKsq v) (coneIKsqFl fl S v') (1 + squareSize v) :=
  addEye_near hf (square_near hf hS h)

theorem triple_near (hf : IsRounding fl u) (hS : S.Complete N d) (b k : ℕ) (J : M3 ℝ) (hA : ApproxM u n A A' sA) (hB : ApproxM u m B B' sB) :
    ApproxM u (n + m + 2 * d + 2) (A * J * B) (tripleFl fl S b k A' J B') (sA * J.map abs * sB) := by
  have hJ : ApproxM u 0 J J (J.map abs) := fun i j => .refl _
  exact (matmul_near hf (hS.prod b (k + 1)) (matmul_near hf (hS.prod b k) hA hJ) hB).mono hf (by omega)

/-- A term with a cosine or a sine. -/
theorem turn_near (hf : IsRounding fl u) {c c' : ℝ} (hc : Rounded u k c c') (h1 : |c| ≤ 1) {x y s : ℝ} (h : Approx u n x y s) :
    Approx u (n + k + 1) (c * x) (fl (y * c')) s := by
  have := (Approx.smul hf.lt hc h).round hf
  rw [mul_comm c' y] at this
  exact this.mono hf.nonneg hf.lt (by omega) (by nlinarith [h.nonneg])

theorem antiferroC_near {A : Arith} (hA : A.Good u k) (hS : S.Complete N d) {v v' : V3 ℝ} (h : ∀ i, Rounded u (d + 3) (v i) (v' i)) (q : V3 ℝ)
    (b : ℕ) (w : V3 ℝ) (J : M3 ℝ) :
    ApproxM u (8 * d + k + 21) (antiferroC v (Real.cos (dot3Fl A.fl (S.cosine b) q w)) (Real.sin (dot3Fl A.fl (S.sine b) q w)) J)
      (antiferroCFl A S v' q b w J) (staySize v J + antiferroTurn v J) := fun i j => by
  have hf := hA.fl
  have h1 := triple_near hf hS b 0 J (IKsq_near hf hS h) (IKsq_near hf hS h) i j
  have h2 := turn_near hf (hA.cos (dot3Fl A.fl (S.cosine b) q w)) (Real.abs_cos_le_one _)
    (triple_near hf hS b 2 J (square_near hf hS h) (square_near hf hS h) i j)
  have h3 := turn_near hf (hA.sin (dot3Fl A.fl (S.sine b) q w)) (Real.abs_sin_le_one _)
    (triple_near hf hS b 4 J (square_near hf hS h) (cross_near hf h) i j)
  have h4 := ((h1.mono hf.nonneg hf.lt (show _ ≤ 8 * d + k + 18 by omega) le_rfl).add
    (h2.mono hf.nonneg hf.lt (show _ ≤ 8 * d + k + 18 by omega) le_rfl)).round hf
  have h5 := (h4.sub hf.lt (h3.mono hf.nonneg hf.lt (by omega) le_rfl)).round hf
  have h6 := h5.mono hf.nonneg hf.lt (show _ ≤ 8 * d + k + 21 by omega)
    (show _ ≤ (staySize v J + antiferroTurn v J) i j by simp only [staySize, antiferroTurn, Matrix.add_apply]; linarith)
  exact h6

theorem spiralC_near {A : Arith} (hA : A.Good u k) (hS : S.Complete N d) {v v' : V3 ℝ} (h : ∀ i, Rounded u (d + 3) (v i) (v' i)) (q : V3 ℝ)
    (b : ℕ) (w : V3 ℝ) (J : M3 ℝ) :
    ApproxM u (8 * d + k + 21) (spiralC v (Real.cos (dot3Fl A.fl (S.cosine b) q w)) (Real.sin (dot3Fl A.fl (S.sine b) q w)) J)
      (spiralCFl A S v' q b w J) (staySize v J + spiralTurn v J) := fun i j => by
  have hf := hA.fl
  have half : ∀ {n : ℕ} {x y s : ℝ}, Approx u n x y s → Approx u (n + 1) (1 / 2 * x) (A.fl (y / 2)) (1 / 2 * s) := fun {n x y s} h => by
    have := (Approx.smul hf.lt (.refl (1 / 2 : ℝ)) h).round hf
    rw [show |(1 / 2 : ℝ)| = 1 / 2 by norm_num, zero_add, show (1 / 2 : ℝ) * y = y / 2 by ring] at this
    exact this
  have h1 := triple_near hf hS b 0 J (IKsq_near hf hS h) (IKsq_near hf hS h) i j
  have a1 := (triple_near hf hS b 2 J (cross_near hf h) (cross_near hf h) i j).mono hf.nonneg hf.lt (show _ ≤ 8 * d + 16 by omega) le_rfl
  have a2 := (triple_near hf hS b 4 J (square_near hf hS h) (square_near hf hS h) i j).mono hf.nonneg hf.lt (show _ ≤ 8 * d + 16 by omega) le_rfl
  have a3 := (triple_near hf hS b 6 J (cross_near hf h) (square_near hf hS h) i j).mono hf.nonneg hf.lt (show _ ≤ 8 * d + 16 by omega) le_rfl
  have a4 := (triple_near hf hS b 8 J (square_near hf hS h) (cross_near hf h) i j).mono hf.nonneg hf.lt (show _ ≤ 8 * d + 16 by omega) le_rfl
  have h2 := turn_near hf (hA.cos (dot3Fl A.fl (S.cosine b) q w)) (Real.abs_cos_le_one _) (half ((a1.sub hf.lt a2).round hf))
  have h3 := turn_near hf (hA.sin (dot3Fl A.fl (S.sine b) q w)) (Real.abs_sin_le_one _) (half ((a3.add a4).round hf))
  have h4 := ((h1.mono hf.nonneg hf.lt (show _ ≤ 8 * d + k + 19 by omega) le_rfl).sub hf.lt
    (h2.mono hf.nonneg hf.lt (show _ ≤ 8 * d + k + 19 by omega) le_rfl)).round hf
  have h5 := (h4.sub hf.lt (h3.mono hf.nonneg hf.lt (by omega) le_rfl)).round hf
  have h6 := h5.mono hf.nonneg hf.lt (show _ ≤ 8 * d + k + 21 by omega)
    (show _ ≤ (staySize v J + spiralTurn v J) i j by
      simp only [staySize, spiralTurn, Matrix.add_apply, Matrix.smul_apply, smul_eq_mul]; linarith)
  convert h6 using 1
  · simp only [spiralC, Matrix.sub_apply, Matrix.add_apply, Matrix.smul_apply, smul_eq_mul]
    ring
  · rfl

/-- The computed phase of a bond. -/
theorem phase_near (hf : IsRounding fl u) {T : Tree (Fin 3)} (hT : T.leaves = Finset.univ.val ∧ T.depth ≤ d) (hd : (d + 1 : ℕ) * u < 1)
    (q w : V3 ℝ) : |dot3Fl fl T q w - dot3 q w| ≤ gamma u (d + 1) * phaseSize q w := by
  have := Approx.tree_univ hf (n := 1) (f := fun k => q k * w k) (g := fun k => fl (q k * w k)) (s := fun k => |q k| * |w k|) hT fun k => by
    have := Approx.of_rounded (Rounded.one hf (q k * w k))
    rwa [abs_mul] at this
  rw [show dot3 q w = ∑ k, q k * w k by rw [Fin.sum_univ_three]; rfl]
  exact (this.mono hf.nonneg hf.lt (show 1 + d ≤ d + 1 by omega) le_rfl).error hf.nonneg hf.lt hd

/-- An entry of a product of matrices is not larger than the entry of the product of the sizes. -/
theorem abs_mul_le {A B sA sB : M3 ℝ} (hA : ∀ i j, |A i j| ≤ sA i j) (hB : ∀ i j, |B i j| ≤ sB i j) (i j : Fin 3) : |(A * B) i j| ≤ (sA * sB) i j := by
  rw [Matrix.mul_apply, Matrix.mul_apply]
  refine (Finset.abs_sum_le_sum_abs _ _).trans (Finset.sum_le_sum fun k _ => ?_)
  rw [abs_mul]
  exact mul_le_mul (hA i k) (hB k j) (abs_nonneg _) ((abs_nonneg _).trans (hA i k))

theorem abs_cross_le (v : V3 ℝ) (i j : Fin 3) : |coneK v i j| ≤ crossSize v i j := by
  fin_cases i <;> fin_cases j <;> simp [coneK, crossSize]

theorem abs_map_le (J : M3 ℝ) (i j : Fin 3) : |J i j| ≤ J.map abs i j := le_rfl

theorem antiferroC_phase (v : V3 ℝ) (J : M3 ℝ) {c c' s s' δ : ℝ} (hc : |c - c'| ≤ δ) (hs : |s - s'| ≤ δ) (i j : Fin 3) :
    |antiferroC v c s J i j - antiferroC v c' s' J i j| ≤ δ * antiferroTurn v J i j := by
  have h1 := abs_cross_le v
  have h2 := abs_mul_le h1 h1
  have hJ := abs_map_le J
  have a1 := abs_mul_le (abs_mul_le h2 hJ) h2 i j
  have a2 := abs_mul_le (abs_mul_le h2 hJ) h1 i j
  have e : antiferroC v c s J i j - antiferroC v c' s' J i j = (c - c') * (coneK v * coneK v * J * (coneK v * coneK v)) i j +
      -((s - s') * (coneK v * coneK v * J * coneK v) i j) := by
    simp only [antiferroC, Matrix.sub_apply, Matrix.add_apply, Matrix.smul_apply, smul_eq_mul]
    ring
  rw [e]
  refine (abs_add_le _ _).trans ?_
  rw [abs_neg, abs_mul, abs_mul]
  unfold antiferroTurn
  rw [Matrix.add_apply, mul_add]
  have hδ := (abs_nonneg _).trans hc
  exact add_le_add (mul_le_mul hc a1 (abs_nonneg _) hδ) (mul_le_mul hs a2 (abs_nonneg _) hδ)

theorem spiralC_phase (v : V3 ℝ) (J : M3 ℝ) {c c' s s' δ : ℝ} (hc : |c - c'| ≤ δ) (hs : |s - s'| ≤ δ) (i j : Fin 3) :
    |spiralC v c s J i j - spiralC v c' s' J i j| ≤ δ * spiralTurn v J i j := by
  have h1 := abs_cross_le v
  have h2 := abs_mul_le h1 h1
  have hJ := abs_map_le J
  have a1 := abs_mul_le (abs_mul_le h1 hJ) h1 i j
  have a2 := abs_mul_le (abs_mul_le h2 hJ) h2 i j
  have a3 := abs_mul_le (abs_mul_le h1 hJ) h2 i j
  have a4 := abs_mul_le (abs_mul_le h2 hJ) h1 i j
  have b1 := (abs_sub _ _).trans (add_le_add a1 a2)
  have b2 := (abs_add_le _ _).trans (add_le_add a3 a4)
  have e : spiralC v c s J i j - spiralC v c' s' J i j =
      -(1 / 2 * ((c - c') * ((coneK v * J * coneK v) i j - (coneK v * coneK v * J * (coneK v * coneK v)) i j))) +
      -(1 / 2 * ((s - s') * ((coneK v * J * (coneK v * coneK v)) i j + (coneK v * coneK v * J * coneK v) i j))) := by
    simp only [spiralC, Matrix.sub_apply, Matrix.add_apply, Matrix.smul_apply, smul_eq_mul]
    ring
  rw [e]
  refine (abs_add_le _ _).trans ?_
  rw [abs_neg, abs_neg, abs_mul, abs_mul (1 / 2 : ℝ), abs_mul (c - c'), abs_mul (s - s'), show |(1 / 2 : ℝ)| = 1 / 2 by norm_num]
  have hδ := (abs_nonneg _).trans hc
  have c1 := mul_le_mul hc b1 (abs_nonneg _) hδ
  have c2 := mul_le_mul hs b2 (abs_nonneg _) hδ
  have : δ * spiralTurn v J i j = 1 / 2 * (δ * ((crossSize v * J.map abs * crossSize v) i j + (crossSize v * crossSize v * J.map abs *
      (crossSize v * crossSize v)) i j)) + 1 / 2 * (δ * ((crossSize v * J.map abs * (crossSize v * crossSize v)) i j +
      (crossSize v * crossSize v * J.map abs * crossSize v) i j)) := by
    simp only [spiralTurn, squareSize, Matrix.add_apply, Matrix.smul_apply, smul_eq_mul]
    ring
  rw [this]
  linarith

/-- The sum over the bonds with a matrix for every bond number. -/
noncomputable def numberedSum (E : EnergyObj ℝ) (C : ℕ → V3 ℝ → M3 ℝ → M3 ℝ) (cell : ℕ → M3 ℝ) (e : List (V3 ℝ)) : ℝ :=
  (E.bonds.zipIdx.map fun b => E.factor * E.spins.getD b.1.1 0 * E.spins.getD b.1.2.1 0 *
    einsum3 (e.getD b.1.1 0) (C b.2 b.1.2.2.1 (cell b.1.2.2.2)) (e.getD b.1.2.1 0)).sum

theorem map_zipIdx_fst {α β : Type*} (l : List α) (f : α → β) : (l.zipIdx.map fun b => f b.1) = l.map f := by
  conv_rhs => rw [← List.zipIdx_map_fst 0 l, List.map_map]
  rfl

theorem bondSize_eq (E : EnergyObj ℝ) (M : V3 ℝ → M3 ℝ → M3 ℝ) (cell : ℕ → M3 ℝ) (e : List (V3 ℝ)) :
    E.bondSize M cell e = (E.bonds.zipIdx.map fun b => |E.factor| * |E.spins.getD b.1.1 0| * |E.spins.getD b.1.2.1 0| *
      ∑ x, ∑ y, |(e.getD b.1.1 0) x| * M b.1.2.2.1 (cell b.1.2.2.2) x y * |(e.getD b.1.2.1 0) y|).sum := by
  unfold bondSize
  rw [← map_zipIdx_fst]

theorem numberedSum_eq (E : EnergyObj ℝ) (C : V3 ℝ → M3 ℝ → M3 ℝ) (cell : ℕ → M3 ℝ) (e : List (V3 ℝ)) :
    E.bondSum C cell e = numberedSum E (fun _ => C) cell e := by
  unfold bondSum numberedSum
  rw [← map_zipIdx_fst]

/-- Matrices that differ by at most `M`. -/
theorem numberedSum_sub (E : EnergyObj ℝ) {C C' : ℕ → V3 ℝ → M3 ℝ → M3 ℝ} {M : V3 ℝ → M3 ℝ → M3 ℝ} {δ : ℝ}
    (h : ∀ b v J i j, |C b v J i j - C' b v J i j| ≤ δ * M v J i j) (cell : ℕ → M3 ℝ) (e : List (V3 ℝ)) :
    |numberedSum E C cell e - numberedSum E C' cell e| ≤ δ * E.bondSize M cell e := by
  rw [bondSize_eq]
  unfold numberedSum
  generalize E.bonds.zipIdx = l
  induction l with
  | nil => simp
  | cons b l ih =>
    simp only [List.map_cons, List.sum_cons, mul_add]
    rw [add_sub_add_comm]
    refine (abs_add_le _ _).trans (add_le_add ?_ ih)
    rw [← mul_sub, abs_mul, abs_mul, abs_mul]
    have h1 : |einsum3 (e.getD b.1.1 0) (C b.2 b.1.2.2.1 (cell b.1.2.2.2)) (e.getD b.1.2.1 0) -
        einsum3 (e.getD b.1.1 0) (C' b.2 b.1.2.2.1 (cell b.1.2.2.2)) (e.getD b.1.2.1 0)| ≤
        δ * ∑ x, ∑ y, |(e.getD b.1.1 0) x| * M b.1.2.2.1 (cell b.1.2.2.2) x y * |(e.getD b.1.2.1 0) y| := by
      unfold einsum3
      rw [← Finset.sum_sub_distrib, Finset.mul_sum]
      refine (Finset.abs_sum_le_sum_abs _ _).trans (Finset.sum_le_sum fun x _ => ?_)
      rw [← Finset.sum_sub_distrib, Finset.mul_sum]
      refine (Finset.abs_sum_le_sum_abs _ _).trans (Finset.sum_le_sum fun y _ => ?_)
      rw [← sub_mul, ← mul_sub, abs_mul, abs_mul]
      have := mul_le_mul_of_nonneg_right (mul_le_mul_of_nonneg_left (h b.2 b.1.2.2.1 (cell b.1.2.2.2) x y)
        (abs_nonneg ((e.getD b.1.1 0) x))) (abs_nonneg ((e.getD b.1.2.1 0) y))
      linarith
    have := mul_le_mul_of_nonneg_left h1 (show 0 ≤ |E.factor| * |E.spins.getD b.1.1 0| * |E.spins.getD b.1.2.1 0| by positivity)
    linarith

theorem coneSum_near (hf : IsRounding fl u) (hS : S.Complete N d) (E : EnergyObj ℝ) {C C' : ℕ → V3 ℝ → M3 ℝ → M3 ℝ} {M : V3 ℝ → M3 ℝ → M3 ℝ}
    (hC : ∀ b v J, ApproxM u n (C b v J) (C' b v J) (M v J)) (cell : ℕ → M3 ℝ) (e : List (V3 ℝ)) :
    Approx u (3 * d + 11 + n + E.bonds.length) (numberedSum E C cell (e.map normalize))
      (coneSumFl fl S E C' cell (e.zipIdx.map fun p => normalizeFl fl (S.norm p.2) p.1)) (E.bondSize M cell (e.map normalize)) := by
  rw [bondSize_eq]
  unfold numberedSum coneSumFl
  rw [← List.length_zipIdx (l := E.bonds) (i := 0)]
  refine Approx.loop hf _ fun b _ => ?_
  have h2 : Rounded u 2 (E.factor * E.spins.getD b.1.1 0 * E.spins.getD b.1.2.1 0)
      (fl (fl (E.factor * E.spins.getD b.1.1 0) * E.spins.getD b.1.2.1 0)) :=
    Rounded.fl_mul hf (Rounded.fl_mul hf (Rounded.refl (u := u) _) (Rounded.refl (u := u) _)) (Rounded.refl (u := u) _)
  have h1 := Approx.tree_univ hf (hS.bond b.2) fun p : Fin 3 × Fin 3 =>
    Approx.fl_mul hf (Approx.fl_mul hf (Approx.of_rounded (getD_rounded hf hS.toComplete e b.1.1 p.1))
      (hC b.2 b.1.2.2.1 (cell b.1.2.2.2) p.1 p.2)) (Approx.of_rounded (getD_rounded hf hS.toComplete e b.1.2.1 p.2))
  have h3 := ((Approx.smul hf.lt h2 h1).round hf).mono hf.nonneg hf.lt (show _ ≤ 3 * d + 11 + n by omega) le_rfl
  rw [Fintype.sum_prod_type, Fintype.sum_prod_type, abs_mul, abs_mul] at h3
  exact h3

theorem soPrime_near (hf : IsRounding fl u) (hS : S.Complete N d) {v v' : V3 ℝ} (h : ∀ i, Rounded u (d + 3) (v i) (v' i)) (e : List (V3 ℝ))
    (i : ℕ) (j : Fin 3) : Approx u (5 * d + 13) ((soPrime v (e.map normalize)).getD i 0 j)
      ((soPrimeFl fl S v' (e.zipIdx.map fun p => normalizeFl fl (S.norm p.2) p.1)).getD i 0 j)
      (∑ k, (1 + (1 + squareSize v)) j k * |(e.map normalize).getD i 0 k|) := by
  by_cases hi : i < e.length
  · unfold soPrime soPrimeFl
    rw [List.getD_eq_getElem _ _ (by simpa using hi), List.getD_eq_getElem _ _ (by simpa using hi), List.getD_eq_getElem _ _ (by simpa using hi)]
    simp only [List.getElem_map, List.getElem_zipIdx, Nat.zero_add]
    exact (Approx.tree_univ hf (hS.prime i j) fun k => Approx.fl_mul hf (addEye_near hf (IKsq_near hf hS h) j k)
      (Approx.of_rounded (normalize_rounded hf (hS.norm i) _ k))).mono hf.nonneg hf.lt (by omega) le_rfl
  · rw [List.getD_eq_default _ _ (by simpa [soPrime] using hi), List.getD_eq_default _ _ (by simpa [soPrimeFl] using hi),
      List.getD_eq_default _ _ (by simpa using hi)]
    simpa using Approx.zero (u := u) (5 * d + 13)

theorem coneUnit_near (hf : IsRounding fl u) (E : EnergyObj ℝ) (muB : ℝ) {C C' : ℕ → V3 ℝ → M3 ℝ → M3 ℝ} {M : V3 ℝ → M3 ℝ → M3 ℝ}
    (cell : ℕ → M3 ℝ) (e : List (V3 ℝ)) (hS : S.Complete e.length d) (hC : ∀ b v J, ApproxM u (8 * d + k + 21) (C b v J) (C' b v J) (M v J))
    {v v' : V3 ℝ} (h : ∀ i, Rounded u (d + 3) (v i) (v' i)) :
    Approx u (E.coneRoundings d k) (numberedSum E C cell (e.map normalize) + E.zeeman muB (soPrime v (e.map normalize)))
      (coneUnitFl fl S E muB C' cell (e.zipIdx.map fun p => normalizeFl fl (S.norm p.2) p.1) v')
      (E.bondSize M cell (e.map normalize) + E.coneZeemanSize muB v (e.map normalize)) := by
  have hb := coneSum_near hf hS E hC cell e
  unfold coneUnitFl zeeman coneZeemanSize coneRoundings
  cases hF : E.field with
  | none =>
    simp only [add_zero]
    exact hb.mono hf.nonneg hf.lt (by omega) le_rfl
  | some f =>
    simp only
    have h1 := Approx.tree hf S.zeeman fun p : ℕ × Fin 3 =>
      Approx.fl_mul hf (Approx.of_rounded (Rounded.fl_mul hf (Rounded.refl (u := u) (E.gFactors.getD p.1 0)) (Rounded.refl (u := u) (f p.2))))
        (soPrime_near hf hS h e p.1 p.2)
    have h2 := (Approx.smul hf.lt (Rounded.refl (u := u) muB) h1).round hf
    have h3 := (hb.add (h2.mono hf.nonneg hf.lt (show _ ≤ 3 * d + 11 + (8 * d + k + 21) + E.bonds.length by
      have := hS.zeeman.2; omega) le_rfl)).round hf
    rw [hS.zeeman.1] at h3
    refine (show Approx u _ _ _ _ from ?_)
    convert h3.mono hf.nonneg hf.lt (show _ ≤ E.bonds.length + 11 * d + k + 33 by omega) le_rfl using 3
    · unfold einsumZeeman
      rw [sum_zipWith (a0 := 0) (b0 := 0) (by simp)]
      show _ = ∑ p ∈ Finset.range e.length ×ˢ (Finset.univ : Finset (Fin 3)), _
      rw [Finset.sum_product]
      simp [soPrime]
    · rw [sum_zipWith (a0 := 0) (b0 := 0) (by simp)]
      show _ = ∑ p ∈ Finset.range e.length ×ˢ (Finset.univ : Finset (Fin 3)), _
      rw [Finset.sum_product]
      simp [abs_mul]

end cone

end EnergyObj
end Magnopy
