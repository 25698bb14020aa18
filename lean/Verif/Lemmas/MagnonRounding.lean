import Verif.Spec.MagnonRounding
import Verif.Lemmas.EnergyConeRounding
import Mathlib.Analysis.SpecialFunctions.Trigonometric.Bounds

/-!
# Lemmas about the round-off of complex numbers and of the magnon matrix
-/

set_option autoImplicit false
set_option linter.unusedSectionVars false

namespace Magnopy
namespace MagnonObj

open Complex Matrix EnergyObj

variable {u : ℝ} {fl : ℝ → ℝ}

/-- Both parts are sums up to `n` roundings of each term, with sizes of together at most `s`. -/
def ApproxC (u : ℝ) (n : ℕ) (z w : ℂ) (s : ℝ) : Prop := ∃ s1 s2, Approx u n z.re w.re s1 ∧ Approx u n z.im w.im s2 ∧ s1 + s2 ≤ s

namespace ApproxC

variable {n m d : ℕ} {z w z' w' : ℂ} {s s' : ℝ}

theorem mono (hf : IsRounding fl u) (hnm : n ≤ m) (hs : s ≤ s') (h : ApproxC u n z w s) : ApproxC u m z w s' := by
  obtain ⟨s1, s2, a, b, c⟩ := h
  exact ⟨s1, s2, a.mono hf.nonneg hf.lt hnm le_rfl, b.mono hf.nonneg hf.lt hnm le_rfl, c.trans hs⟩

theorem nonneg (h : ApproxC u n z w s) : 0 ≤ s := by
  obtain ⟨s1, s2, a, b, c⟩ := h
  linarith [a.nonneg, b.nonneg]

theorem zero (n : ℕ) : ApproxC u n 0 0 0 := ⟨0, 0, .zero n, .zero n, by simp⟩

theorem refl (z : ℂ) : ApproxC u 0 z z (size1 z) := ⟨_, _, .refl _, .refl _, le_rfl⟩

theorem ofReal {x y : ℝ} (h : Rounded u n x y) : ApproxC u n (x : ℂ) (y : ℂ) |x| :=
  ⟨|x|, 0, by simpa using Approx.of_rounded h, by simpa using Approx.zero (u := u) n, by simp⟩

theorem add (h : ApproxC u n z w s) (h' : ApproxC u n z' w' s') : ApproxC u n (z + z') (w + w') (s + s') := by
  obtain ⟨s1, s2, a, b, c⟩ := h
  obtain ⟨s1', s2', a', b', c'⟩ := h'
  exact ⟨s1 + s1', s2 + s2', a.add a', b.add b', by linarith⟩

theorem sub (hf : IsRounding fl u) (h : ApproxC u n z w s) (h' : ApproxC u n z' w' s') : ApproxC u n (z - z') (w - w') (s + s') := by
  obtain ⟨s1, s2, a, b, c⟩ := h
  obtain ⟨s1', s2', a', b', c'⟩ := h'
  exact ⟨s1 + s1', s2 + s2', a.sub hf.lt a', b.sub hf.lt b', by linarith⟩

theorem conj (hf : IsRounding fl u) (h : ApproxC u n z w s) : ApproxC u n (star z) (star w) s := by
  obtain ⟨s1, s2, a, b, c⟩ := h
  exact ⟨s1, s2, a, b.neg hf.lt, c⟩

theorem round (hf : IsRounding fl u) (h : ApproxC u n z w s) : ApproxC u (n + 1) z (roundC fl w) s := by
  obtain ⟨s1, s2, a, b, c⟩ := h
  exact ⟨s1, s2, a.round hf, b.round hf, c⟩

theorem mul (hf : IsRounding fl u) (h : ApproxC u n z w s) (h' : ApproxC u m z' w' s') :
    ApproxC u (n + m + 2) (z * z') (mulFl fl w w') (s * s') := by
  obtain ⟨s1, s2, a, b, c⟩ := h
  obtain ⟨s1', s2', a', b', c'⟩ := h'
  refine ⟨s1 * s1' + s2 * s2', s1 * s2' + s2 * s1', ?_, ?_, ?_⟩
  · rw [Complex.mul_re]
    exact ((a.fl_mul hf a').sub hf.lt (b.fl_mul hf b')).round hf
  · rw [Complex.mul_im]
    exact ((a.fl_mul hf b').add (b.fl_mul hf a')).round hf
  · calc _ = (s1 + s2) * (s1' + s2') := by ring
      _ ≤ s * s' := mul_le_mul c c' (by linarith [a'.nonneg, b'.nonneg]) (by linarith [a.nonneg, b.nonneg])

theorem dot (hf : IsRounding fl u) {T : DotTree} (hT : (T.1.leaves = Finset.univ.val ∧ T.1.depth ≤ d) ∧ T.2.leaves = Finset.univ.val ∧ T.2.depth ≤ d)
    {x x' y y' : V3 ℂ} {s s' : Fin 3 → ℝ} (h : ∀ a, ApproxC u n (x a) (x' a) (s a)) (h' : ∀ a, ApproxC u m (y a) (y' a) (s' a)) :
    ApproxC u (n + m + 1 + d) (∑ a, x a * y a) (dotFl fl T x' y') (∑ a, s a * s' a) := by
  choose s1 s2 a b c using h
  choose s1' s2' a' b' c' using h'
  have h1 := Approx.tree_univ hf (n := n + m + 1) (f := fun p : Fin 3 × Bool => bif p.2 then -((x p.1).im * (y p.1).im) else (x p.1).re * (y p.1).re)
    (g := fun p => bif p.2 then -fl ((x' p.1).im * (y' p.1).im) else fl ((x' p.1).re * (y' p.1).re))
    (s := fun p => bif p.2 then s2 p.1 * s2' p.1 else s1 p.1 * s1' p.1) hT.1 fun p => by
      obtain ⟨i, _ | _⟩ := p
      · exact (a i).fl_mul hf (a' i)
      · exact ((b i).fl_mul hf (b' i)).neg hf.lt
  have h2 := Approx.tree_univ hf (n := n + m + 1) (f := fun p : Fin 3 × Bool => bif p.2 then (x p.1).im * (y p.1).re else (x p.1).re * (y p.1).im)
    (g := fun p => bif p.2 then fl ((x' p.1).im * (y' p.1).re) else fl ((x' p.1).re * (y' p.1).im))
    (s := fun p => bif p.2 then s2 p.1 * s1' p.1 else s1 p.1 * s2' p.1) hT.2 fun p => by
      obtain ⟨i, _ | _⟩ := p
      · exact (a i).fl_mul hf (b' i)
      · exact (b i).fl_mul hf (a' i)
  have e1 : (∑ p : Fin 3 × Bool, bif p.2 then -((x p.1).im * (y p.1).im) else (x p.1).re * (y p.1).re) = (∑ a, x a * y a).re := by
    rw [Complex.re_sum, Fintype.sum_prod_type]
    refine Finset.sum_congr rfl fun i _ => ?_
    rw [Fintype.sum_bool, Complex.mul_re]
    simp only [cond_true, cond_false]
    ring
  have e2 : (∑ p : Fin 3 × Bool, bif p.2 then (x p.1).im * (y p.1).re else (x p.1).re * (y p.1).im) = (∑ a, x a * y a).im := by
    rw [Complex.im_sum, Fintype.sum_prod_type]
    refine Finset.sum_congr rfl fun i _ => ?_
    rw [Fintype.sum_bool, Complex.mul_im]
    simp only [cond_true, cond_false]
    ring
  rw [e1] at h1
  rw [e2] at h2
  refine ⟨_, _, h1, h2, ?_⟩
  rw [Fintype.sum_prod_type, Fintype.sum_prod_type, ← Finset.sum_add_distrib]
  refine Finset.sum_le_sum fun i _ => ?_
  rw [Fintype.sum_bool, Fintype.sum_bool]
  simp only [cond_true, cond_false]
  calc _ = (s1 i + s2 i) * (s1' i + s2' i) := by ring
    _ ≤ s i * s' i := mul_le_mul (c i) (c' i) (by linarith [(a' i).nonneg, (b' i).nonneg]) (by linarith [(a i).nonneg, (b i).nonneg, c i])

/-- A loop that adds some terms. -/
theorem loop (hf : IsRounding fl u) {α : Type*} {p : α → Prop} [DecidablePred p] {X Y : α → ℂ} {S : α → ℝ} (l : List α)
    (h : ∀ b ∈ l, ApproxC u n (X b) (Y b) (S b)) :
    ApproxC u (n + l.length) (l.map fun b => if p b then X b else 0).sum
      (l.foldl (fun y b => if p b then roundC fl (y + Y b) else y) 0) (l.map fun b => if p b then S b else 0).sum := by
  induction l using List.reverseRecOn with
  | nil => simpa using zero (u := u) n
  | append_singleton l b ih =>
    have ih := ih fun b hb => h b (List.mem_append_left _ hb)
    have hb := (h b (by simp)).mono hf (Nat.le_add_right n l.length) le_rfl
    rw [List.foldl_append, List.length_append, ← add_assoc]
    simp only [List.map_append, List.sum_append, List.map_cons, List.map_nil, List.sum_cons, List.sum_nil, List.foldl_cons, List.foldl_nil,
      List.length_cons, List.length_nil, add_zero]
    by_cases hp : p b
    · simp only [if_pos hp]
      exact (ih.add hb).round hf
    · simp only [if_neg hp, add_zero]
      exact ih.mono hf (by omega) le_rfl

theorem error (hf : IsRounding fl u) (hn : n * u < 1) (h : ApproxC u n z w s) : ‖w - z‖ ≤ gamma u n * s := by
  obtain ⟨s1, s2, a, b, c⟩ := h
  have hg : 0 ≤ gamma u n := div_nonneg (mul_nonneg (by positivity) hf.nonneg) (by linarith)
  calc ‖w - z‖ ≤ |(w - z).re| + |(w - z).im| := Complex.norm_le_abs_re_add_abs_im _
    _ ≤ gamma u n * s1 + gamma u n * s2 := add_le_add (a.error hf.nonneg hf.lt hn) (b.error hf.nonneg hf.lt hn)
    _ = gamma u n * (s1 + s2) := by ring
    _ ≤ _ := mul_le_mul_of_nonneg_left c hg

end ApproxC

theorem norm_le_size1 (z : ℂ) : ‖z‖ ≤ size1 z := Complex.norm_le_abs_re_add_abs_im z

theorem size1_nonneg (z : ℂ) : 0 ≤ size1 z := add_nonneg (abs_nonneg _) (abs_nonneg _)

theorem size1_star (z : ℂ) : size1 (star z) = size1 z := by simp [size1]

/-! ### Phases -/

theorem cos_sin_le (y : ℝ) : |Real.cos y| + |Real.sin y| ≤ 3 / 2 := by
  have := Real.cos_sq_add_sin_sq y
  rw [← sq_abs (Real.cos y), ← sq_abs (Real.sin y)] at this
  nlinarith [sq_nonneg (|Real.cos y| - |Real.sin y|), abs_nonneg (Real.cos y), abs_nonneg (Real.sin y)]

variable {A : ExpArith} {d m : ℕ}

/-- The computed phase is the phase of a nearby angle up to `m` roundings. -/
theorem phaseFl_near (hA : A.Good u m) {T : EnergyObj.Tree (Fin 3)} (hT : T.leaves = Finset.univ.val ∧ T.depth ≤ d) (hd : (d + 3 : ℕ) * u < 1) (k v : V3 ℝ) :
    ∃ φ : ℂ, ApproxC u m φ (phaseFl A T k v) (3 / 2) ∧ ‖φ - phase k v‖ ≤ gamma u (d + 3) * phaseSize k v := by
  have hf := hA.fl
  have h0 : A.fl 0 = 0 := by have := hf.close 0; simpa using this
  set x := T.sum A.fl fun c => A.fl (k c * v c) with hx
  have hz : mulFl A.fl (-I) (x : ℂ) = ((A.fl (A.fl (-x)) : ℝ) : ℂ) * I := by
    apply Complex.ext <;> simp [mulFl, h0]
  set y := A.fl (A.fl (-x)) with hy
  refine ⟨Complex.exp (y * I), ⟨|Real.cos y|, |Real.sin y|, ?_, ?_, cos_sin_le y⟩, ?_⟩
  · rw [phaseFl, ← hx, hz, Complex.exp_ofReal_mul_I_re]
    exact Approx.of_rounded (hA.re y)
  · rw [phaseFl, ← hx, hz, Complex.exp_ofReal_mul_I_im]
    exact Approx.of_rounded (hA.im y)
  · have h1 := Approx.tree_univ hf (n := 1) (f := fun c => k c * v c) (g := fun c => A.fl (k c * v c)) (s := fun c => |k c| * |v c|) hT fun c => by
      have := Approx.of_rounded (Rounded.one hf (k c * v c))
      rwa [abs_mul] at this
    have h2 := (((h1.neg hf.lt).round hf).round hf).mono hf.nonneg hf.lt (show 1 + d + 1 + 1 ≤ d + 3 by omega) le_rfl
    have h3 := h2.error hf.nonneg hf.lt hd
    rw [← hx, ← hy] at h3
    have hk : (k ⬝ᵥ v) = ∑ c, k c * v c := rfl
    rw [← hk] at h3
    have h4 : Complex.exp (y * I) - phase k v = phase k v * (Complex.exp (I * ((y - -(k ⬝ᵥ v) : ℝ) : ℂ)) - 1) := by
      rw [mul_sub, mul_one, phase, ← Complex.exp_add]
      congr 2
      push_cast
      ring
    have h5 : ‖phase k v‖ = 1 := by
      rw [phase, show -I * ((k ⬝ᵥ v : ℝ) : ℂ) = ((-(k ⬝ᵥ v) : ℝ) : ℂ) * I by push_cast; ring, Complex.norm_exp_ofReal_mul_I]
    rw [h4, norm_mul, h5, one_mul]
    exact (Real.norm_exp_I_mul_ofReal_sub_one_le).trans h3

/-! ### Sums over bonds -/

variable (o : MagnonObj) (cell : ℕ → M3 ℝ)

/-- The sum over the bonds with the phases `φ`. -/
noncomputable def Jof (φ : (ℕ × ℕ × V3 ℝ × ℕ) × ℕ → ℂ) (i j : ℕ) : M3 ℂ := fun a b =>
  (o.bonds.zipIdx.map fun x => if x.1.1 = i ∧ x.1.2.1 = j then ((cell x.1.2.2.2 a b : ℝ) : ℂ) * φ x else 0).sum

theorem sum_entry (l : List (M3 ℂ)) (a b : Fin 3) : l.sum a b = (l.map fun M => M a b).sum := by
  induction l with
  | nil => rfl
  | cons M l ih => rw [List.sum_cons, Matrix.add_apply, ih, List.map_cons, List.sum_cons]

theorem J_eq (k : V3 ℝ) (i j : ℕ) : o.J cell k i j = o.Jof cell (fun x => phase k x.1.2.2.1) i j := by
  funext a b
  rw [J, sum_entry, List.map_map, Jof, map_zipIdx_fst o.bonds fun x => if x.1 = i ∧ x.2.1 = j then ((cell x.2.2.2 a b : ℝ) : ℂ) * phase k x.2.2.1 else 0]
  congr 1
  refine List.map_congr_left fun x _ => ?_
  rw [Function.comp_apply]
  split_ifs
  · rw [Matrix.smul_apply, Matrix.map_apply, smul_eq_mul, mul_comm]
  · rfl

/-- The computed sum over the bonds is that of nearby phases, up to roundings. -/
theorem JFl_near (hA : A.Good u m) {T : ℕ → EnergyObj.Tree (Fin 3)} (hT : ∀ b, (T b).leaves = Finset.univ.val ∧ (T b).depth ≤ d)
    (hd : (d + 3 : ℕ) * u < 1) (k : V3 ℝ) :
    ∃ φ : (ℕ × ℕ × V3 ℝ × ℕ) × ℕ → ℂ, (∀ x, ‖φ x - phase k x.1.2.2.1‖ ≤ gamma u (d + 3) * phaseSize k x.1.2.2.1) ∧ ∀ i j a b,
      ApproxC u (m + 2 + o.bonds.length) (o.Jof cell φ i j a b) (o.JFl A cell T k i j a b) (o.jSize cell (fun _ => 3 / 2) i j a b) := by
  choose φ h1 h2 using fun x : (ℕ × ℕ × V3 ℝ × ℕ) × ℕ => phaseFl_near hA (hT x.2) hd k x.1.2.2.1
  refine ⟨φ, h2, fun i j a b => ?_⟩
  have := ApproxC.loop hA.fl (n := m + 2) (p := fun x : (ℕ × ℕ × V3 ℝ × ℕ) × ℕ => x.1.1 = i ∧ x.1.2.1 = j)
    (X := fun x => ((cell x.1.2.2.2 a b : ℝ) : ℂ) * φ x)
    (Y := fun x => mulFl A.fl ((cell x.1.2.2.2 a b : ℝ) : ℂ) (phaseFl A (T x.2) k x.1.2.2.1))
    (S := fun x => |cell x.1.2.2.2 a b| * (3 / 2)) o.bonds.zipIdx fun x _ => by
      have := (ApproxC.ofReal (.refl (cell x.1.2.2.2 a b))).mul hA.fl (h1 x)
      exact this.mono hA.fl (by omega) le_rfl
  rw [List.length_zipIdx, map_zipIdx_fst o.bonds fun x => if x.1 = i ∧ x.2.1 = j then |cell x.2.2.2 a b| * (3 / 2) else 0] at this
  exact this

theorem norm_listSum {α : Type*} (l : List α) {f : α → ℂ} {g : α → ℝ} (h : ∀ x, ‖f x‖ ≤ g x) : ‖(l.map f).sum‖ ≤ (l.map g).sum := by
  induction l with
  | nil => simp
  | cons x l ih =>
    rw [List.map_cons, List.map_cons, List.sum_cons, List.sum_cons]
    exact (norm_add_le _ _).trans (add_le_add (h x) ih)

theorem sum_map_sub {α : Type*} (l : List α) (f g : α → ℂ) : (l.map f).sum - (l.map g).sum = (l.map fun x => f x - g x).sum := by
  induction l with
  | nil => simp
  | cons x l ih => simp only [List.map_cons, List.sum_cons, ← ih]; ring

/-- Other phases change the sum over the bonds little. -/
theorem Jof_sub {φ : (ℕ × ℕ × V3 ℝ × ℕ) × ℕ → ℂ} {k : V3 ℝ} {r : ℝ} (h : ∀ x, ‖φ x - phase k x.1.2.2.1‖ ≤ r * phaseSize k x.1.2.2.1)
    (i j : ℕ) (a b : Fin 3) : ‖o.Jof cell φ i j a b - o.J cell k i j a b‖ ≤ r * o.jSize cell (phaseSize k) i j a b := by
  rw [J_eq, Jof, Jof, sum_map_sub]
  have h1 : r * o.jSize cell (phaseSize k) i j a b = (o.bonds.zipIdx.map fun x => if x.1.1 = i ∧ x.1.2.1 = j then
      |cell x.1.2.2.2 a b| * (r * phaseSize k x.1.2.2.1) else 0).sum := by
    rw [jSize, map_zipIdx_fst o.bonds fun x => if x.1 = i ∧ x.2.1 = j then |cell x.2.2.2 a b| * (r * phaseSize k x.2.2.1) else 0,
      ← List.sum_map_mul_left]
    congr 1
    refine List.map_congr_left fun x _ => ?_
    split_ifs
    · ring
    · rw [mul_zero]
  rw [h1]
  refine norm_listSum _ fun x => ?_
  split_ifs
  · rw [← mul_sub, norm_mul, Complex.norm_real, Real.norm_eq_abs]
    exact mul_le_mul_of_nonneg_left (h x) (abs_nonneg _)
  · simp

/-! ### Entries of the matrices -/

/-- `x @ M @ y`. -/
noncomputable def form (x : V3 ℂ) (M : M3 ℂ) (y : V3 ℂ) : ℂ := ∑ b, (∑ a, x a * M a b) * y b

theorem form_eq (x : V3 ℂ) (M : M3 ℂ) (y : V3 ℂ) : x ⬝ᵥ (M *ᵥ y) = form x M y := by
  rw [Matrix.dotProduct_mulVec]
  rfl

theorem formFl_near {S : CallSums} (hA : A.Good u m) (hS : S.Complete d) (i j : ℕ) {n n' : ℕ} {x x' : V3 ℂ} {M M' : M3 ℂ} {s : Fin 3 → ℝ}
    {sM : Fin 3 → Fin 3 → ℝ} (hx : ∀ a, ApproxC u n (x a) (x' a) (s a)) (hM : ∀ a b, ApproxC u n' (M a b) (M' a b) (sM a b)) (y : V3 ℂ) :
    ApproxC u (n + n' + 2 * d + 2) (form x M y) (formFl A S i j x' M' y) (∑ a, ∑ b, s a * sM a b * size1 (y b)) := by
  have h1 := fun b => ApproxC.dot hA.fl (hS.left i j b) hx fun a => hM a b
  have h2 := ApproxC.dot hA.fl (hS.right i j) h1 fun b => ApproxC.refl (y b)
  refine h2.mono hA.fl (by omega) (le_of_eq ?_)
  rw [Finset.sum_comm]
  exact Finset.sum_congr rfl fun b _ => Finset.sum_mul _ _ _

theorem form_sub (x y : V3 ℂ) {M M' : M3 ℂ} {D : Fin 3 → Fin 3 → ℝ} (h : ∀ a b, ‖M a b - M' a b‖ ≤ D a b) :
    ‖form x M y - form x M' y‖ ≤ ∑ a, ∑ b, size1 (x a) * D a b * size1 (y b) := by
  have h1 : form x M y - form x M' y = ∑ b, ∑ a, x a * (M a b - M' a b) * y b := by
    rw [form, form, ← Finset.sum_sub_distrib]
    refine Finset.sum_congr rfl fun b _ => ?_
    rw [← sub_mul, ← Finset.sum_sub_distrib, Finset.sum_mul]
    exact Finset.sum_congr rfl fun a _ => by ring
  rw [h1, Finset.sum_comm]
  refine (norm_sum_le _ _).trans (Finset.sum_le_sum fun a _ => (norm_sum_le _ _).trans (Finset.sum_le_sum fun b _ => ?_))
  rw [norm_mul, norm_mul]
  exact mul_le_mul (mul_le_mul (norm_le_size1 _) (h a b) (norm_nonneg _) (size1_nonneg _)) (norm_le_size1 _) (norm_nonneg _)
    (mul_nonneg (size1_nonneg _) ((norm_nonneg _).trans (h a b)))

theorem rootFl_near {S : CallSums} (hA : A.Good u m) (hS : S.Complete d) (i j : ℕ) :
    Rounded u (2 * d + 7) (Real.sqrt (norm3 (o.S.getD i 0) * norm3 (o.S.getD j 0)) / 2) (o.rootFl A S i j) := by
  have hf := hA.fl
  have h1 := Rounded.fl_mul hf (norm3_rounded hf (hS.norm i j) (o.S.getD i 0)) (norm3_rounded hf (hS.norm' i j) (o.S.getD j 0))
  have h2 := (Rounded.sqrt hf.nonneg hf.lt h1 (mul_nonneg (Real.sqrt_nonneg _) (Real.sqrt_nonneg _))).trans hf.lt (Rounded.one hf _)
  have h3 := Rounded.fl_mul hf h2 (.refl (2 : ℝ)⁻¹)
  rw [← div_eq_mul_inv, ← div_eq_mul_inv] at h3
  exact h3.mono hf.nonneg hf.lt (by omega)

/-- An entry of `A` or `B`. -/
theorem entry_near {S : CallSums} (hA : A.Good u m) (hS : S.Complete d) (hd : (d + 3 : ℕ) * u < 1) (k : V3 ℝ) (i j : ℕ) {y : V3 ℂ}
    (hy : ∀ b, size1 (y b) = size1 (o.u.getD j 0 b)) :
    ∃ z, ApproxC u (o.bonds.length + 4 * d + m + 14) z
        (roundC A.fl (0 + mulFl A.fl (o.rootFl A S i j : ℝ) (formFl A S i j (o.u.getD i 0) (o.JFl A cell S.phase k i j) y)))
        (o.abSize cell (fun _ => 3 / 2) i j) ∧
      ‖z - o.root i j * (o.u.getD i 0 ⬝ᵥ (o.J cell k i j *ᵥ y))‖ ≤ gamma u (d + 3) * o.abSize cell (phaseSize k) i j := by
  have hf := hA.fl
  obtain ⟨φ, h1, h2⟩ := o.JFl_near cell hA hS.phase hd k
  have h3 := formFl_near hA hS i j (fun a => ApproxC.refl (o.u.getD i 0 a)) (h2 i j) y
  have h4 := (ApproxC.ofReal (o.rootFl_near hA hS i j)).mul hf h3
  have h0 : (0 : ℝ) ≤ Real.sqrt (norm3 (o.S.getD i 0) * norm3 (o.S.getD j 0)) / 2 := by positivity
  refine ⟨o.root i j * form (o.u.getD i 0) (o.Jof cell φ i j) y, ?_, ?_⟩
  · rw [zero_add]
    refine (h4.round hf).mono hf (by omega) (le_of_eq ?_)
    rw [abs_of_nonneg h0, abSize, formSize]
    simp only [hy]
  · rw [form_eq, ← mul_sub, norm_mul, root, Complex.norm_real, Real.norm_of_nonneg h0, abSize, mul_left_comm]
    refine mul_le_mul_of_nonneg_left ((form_sub _ _ (o.Jof_sub cell h1 i j)).trans (le_of_eq ?_)) h0
    rw [formSize, Finset.mul_sum]
    refine Finset.sum_congr rfl fun a _ => ?_
    rw [Finset.mul_sum]
    refine Finset.sum_congr rfl fun b _ => ?_
    rw [hy]
    ring

theorem sum_range_eq (n : ℕ) {M : Type*} [AddCommMonoid M] (f : ℕ → M) : ((List.range n).map f).sum = ∑ l ∈ Finset.range n, f l := by
  induction n with
  | zero => simp
  | succ n ih => rw [List.range_succ, List.map_append, List.sum_append, ih, Finset.sum_range_succ]; simp

/-- An entry of `C`. -/
theorem freshC_near {S : CallSums} (hA : A.Good u m) (hS : S.Complete d) (hd : (d + 3 : ℕ) * u < 1) (i j : ℕ) :
    ApproxC u (o.bonds.length + o.N + 3 * d + m + 8) (o.freshC cell i j) (o.freshCFl A cell S i j) (o.cSize cell (fun _ => 3 / 2) i j) := by
  have hf := hA.fl
  by_cases hij : i = j
  · obtain ⟨φ, h1, h2⟩ := o.JFl_near cell hA hS.phase hd 0
    have h0 : ∀ l, o.Jof cell φ i l = o.J cell 0 i l := fun l => by
      funext a b
      have := o.Jof_sub cell h1 i l a b
      have hz : o.jSize cell (phaseSize 0) i l a b = 0 := by
        rw [jSize]
        refine List.sum_eq_zero fun x hx => ?_
        obtain ⟨y, _, rfl⟩ := List.mem_map.1 hx
        simp [phaseSize]
      rw [hz, mul_zero] at this
      exact sub_eq_zero.1 (norm_le_zero_iff.1 this)
    rw [freshC, freshCFl, cSize, if_pos hij, if_pos hij, if_pos hij]
    have h3 := ApproxC.loop hf (p := fun _ => True) (n := o.bonds.length + 3 * d + m + 8)
      (X := fun l => (norm3 (o.S.getD l 0) : ℂ) * (o.v.getD i 0 ⬝ᵥ (o.J cell 0 i l *ᵥ o.v.getD l 0)))
      (Y := fun l => formFl A S i l (fun a => mulFl A.fl ((norm3Fl A.fl (S.norm' i l) (o.S.getD l 0) : ℝ) : ℂ) (o.v.getD i 0 a))
        (o.JFl A cell S.phase 0 i l) (o.v.getD l 0))
      (S := fun l => norm3 (o.S.getD l 0) * o.formSize cell (fun _ => 3 / 2) i l (o.v.getD i 0) (o.v.getD l 0)) (List.range o.N) fun l _ => by
        have hn : 0 ≤ norm3 (o.S.getD l 0) := Real.sqrt_nonneg _
        have h4 := fun a => (ApproxC.ofReal (norm3_rounded hf (hS.norm' i l) (o.S.getD l 0))).mul hf (ApproxC.refl (o.v.getD i 0 a))
        have h5 := formFl_near hA hS i l h4 (h2 i l) (o.v.getD l 0)
        rw [h0] at h5
        have h6 := h5.mono hf (show _ ≤ o.bonds.length + 3 * d + m + 8 by omega)
          (show _ ≤ norm3 (o.S.getD l 0) * o.formSize cell (fun _ => 3 / 2) i l (o.v.getD i 0) (o.v.getD l 0) by
            refine le_of_eq ?_
            rw [formSize, abs_of_nonneg hn, Finset.mul_sum]
            refine Finset.sum_congr rfl fun a _ => ?_
            rw [Finset.mul_sum]
            exact Finset.sum_congr rfl fun b _ => by ring)
        convert h6 using 1
        rw [form_eq, form, form, Finset.mul_sum]
        refine Finset.sum_congr rfl fun b _ => ?_
        rw [← mul_assoc, Finset.mul_sum]
        congr 1
        exact Finset.sum_congr rfl fun a _ => by ring
    simp only [if_true, List.length_range] at h3
    rw [sum_range_eq, sum_range_eq] at h3
    exact h3.mono hf (by omega) le_rfl
  · rw [freshC, freshCFl, cSize, if_neg hij, if_neg hij, if_neg hij]
    exact .zero _

end MagnonObj
end Magnopy
