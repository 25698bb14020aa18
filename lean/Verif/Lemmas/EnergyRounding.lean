import Verif.Spec.EnergyRounding
import Verif.Lemmas.Rounding
import Mathlib.Data.Multiset.ZeroCons
import Mathlib.Algebra.Order.BigOperators.Group.Multiset

/-!
# Lemmas about the round-off of sums
-/

set_option autoImplicit false
set_option linter.unusedSectionVars false

namespace Magnopy
namespace EnergyObj

variable {K : Type*} [Field K] [LinearOrder K] [IsStrictOrderedRing K] {u : K} {fl : K → K}

/-- `y` is the sum of the terms `L`, each up to `n` roundings. -/
def SumNear (u : K) (n : ℕ) (L : Multiset K) (y : K) : Prop := ∃ M, Multiset.Rel (Rounded u n) L M ∧ y = M.sum

theorem SumNear.mono (h0 : 0 ≤ u) (h1 : u < 1) {n m : ℕ} (hnm : n ≤ m) {L : Multiset K} {y : K} (h : SumNear u n L y) : SumNear u m L y := by
  obtain ⟨M, h2, h3⟩ := h
  exact ⟨M, h2.mono fun _ _ _ _ h => h.mono h0 h1 hnm, h3⟩

theorem SumNear.zero (n : ℕ) : SumNear u n (0 : Multiset K) 0 := ⟨0, .zero, by simp⟩

theorem SumNear.single {n : ℕ} {x y : K} (h : Rounded u n x y) : SumNear u n {x} y :=
  ⟨{y}, Multiset.rel_cons_left.2 ⟨y, 0, h, .zero, by simp⟩, by simp⟩

theorem SumNear.add {n : ℕ} {L L' : Multiset K} {y y' : K} (h : SumNear u n L y) (h' : SumNear u n L' y') :
    SumNear u n (L + L') (y + y') := by
  obtain ⟨M, h2, rfl⟩ := h
  obtain ⟨M', h2', rfl⟩ := h'
  exact ⟨M + M', h2.add h2', by simp⟩

theorem SumNear.mul (h1 : u < 1) {n m : ℕ} {L : Multiset K} {c c' y : K} (hc : Rounded u m c c') (h : SumNear u n L y) :
    SumNear u (m + n) (L.map fun x => c * x) (c' * y) := by
  obtain ⟨M, h2, rfl⟩ := h
  refine ⟨M.map fun x => c' * x, ?_, by rw [Multiset.sum_map_mul_left, Multiset.map_id']⟩
  rw [Multiset.rel_map]
  exact h2.mono fun x _ y _ h => hc.mul h1 h

theorem SumNear.round (hf : IsRounding fl u) {n : ℕ} {L : Multiset K} {y : K} (h : SumNear u n L y) : SumNear u (n + 1) L (fl y) := by
  obtain ⟨θ, a, b, c⟩ := Rounded.one hf y
  have := SumNear.mul hf.lt (m := 1) (c := 1) (c' := θ) ⟨θ, a, b, by simp⟩ h
  simp only [one_mul, Multiset.map_id'] at this
  rw [c, mul_comm y, add_comm]
  exact this

/-- Terms of one sign. -/
theorem SumNear.rounded_of_nonneg {n : ℕ} {L : Multiset K} {y : K} (h : SumNear u n L y) (hL : ∀ x ∈ L, 0 ≤ x) (hu : 0 ≤ u)
    (h1 : u < 1) : Rounded u n L.sum y := by
  obtain ⟨M, h2, rfl⟩ := h
  have hp : 0 < (1 - u) ^ n := pow_pos (by linarith) n
  have key : (1 - u) ^ n * L.sum ≤ M.sum ∧ M.sum * (1 - u) ^ n ≤ L.sum := by
    induction h2 with
    | zero => simp
    | @cons a b as bs hab _ ih =>
      obtain ⟨ih1, ih2⟩ := ih fun x hx => hL x (Multiset.mem_cons_of_mem hx)
      obtain ⟨θ, t1, t2, rfl⟩ := hab
      have ha := hL a (Multiset.mem_cons_self a as)
      simp only [Multiset.sum_cons, mul_add, add_mul]
      refine ⟨add_le_add ?_ ih1, add_le_add ?_ ih2⟩
      · rw [mul_comm]; exact mul_le_mul_of_nonneg_left t1 ha
      · rw [mul_assoc]; exact (mul_le_mul_of_nonneg_left t2 ha).trans (mul_one a).le
  have hs : 0 ≤ L.sum := Multiset.sum_nonneg hL
  rcases hs.eq_or_lt with h0 | h0
  · rw [← h0] at key ⊢
    have : M.sum = 0 := le_antisymm (by nlinarith [key.2]) (by simpa using key.1)
    rw [this]
    have := pow_le_one₀ (n := n) (by linarith : (0 : K) ≤ 1 - u) (by linarith)
    exact ⟨1, this, by simpa using this, by simp⟩
  · refine ⟨M.sum / L.sum, (le_div_iff₀ h0).2 key.1, ?_, by field_simp⟩
    rw [div_mul_eq_mul_div]
    exact (div_le_one h0).2 key.2

/-- The error of a sum. -/
theorem SumNear.error (h0 : 0 ≤ u) (h1 : u < 1) {n : ℕ} (hn : n * u < 1) {L : Multiset K} {y : K} (h : SumNear u n L y) :
    |y - L.sum| ≤ gamma u n * (L.map abs).sum := by
  obtain ⟨M, h2, rfl⟩ := h
  induction h2 with
  | zero => simp
  | @cons a b as bs hab _ ih =>
    simp only [Multiset.sum_cons, Multiset.map_cons, mul_add]
    calc |b + bs.sum - (a + as.sum)| = |(b - a) + (bs.sum - as.sum)| := by ring_nf
      _ ≤ |b - a| + |bs.sum - as.sum| := abs_add_le _ _
      _ ≤ _ := add_le_add (hab.error h0 h1 hn) ih

/-- Any order of additions. -/
theorem SumNear.tree (hf : IsRounding fl u) {ι : Type*} {n : ℕ} {f g : ι → K} (T : Tree ι) (h : ∀ i, Rounded u n (f i) (g i)) :
    SumNear u (n + T.depth) (T.leaves.map f) (T.sum fl g) := by
  induction T with
  | zero => exact SumNear.zero _
  | leaf i => exact SumNear.single (h i)
  | node l r hl hr =>
    simp only [Tree.leaves, Tree.depth, Tree.sum, Multiset.map_add]
    rw [← add_assoc]
    exact ((hl.mono hf.nonneg hf.lt (by omega)).add (hr.mono hf.nonneg hf.lt (by omega))).round hf

theorem rounded_zero (h0 : 0 ≤ u) (h1 : u < 1) (n : ℕ) : Rounded u n (0 : K) 0 := by
  have := pow_le_one₀ (n := n) (by linarith : (0 : K) ≤ 1 - u) (by linarith)
  exact ⟨1, this, by simpa using this, by simp⟩

/-- A loop that adds terms. -/
theorem SumNear.loop (hf : IsRounding fl u) {α : Type*} {n : ℕ} {T : α → Multiset K} {t : α → K} (l : List α)
    (h : ∀ b ∈ l, SumNear u n (T b) (t b)) {L : Multiset K} {y : K} (hy : SumNear u n L y) :
    SumNear u (n + l.length) (L + (l.map T).sum) (l.foldl (fun y b => fl (y + t b)) y) := by
  induction l using List.reverseRecOn with
  | nil => simpa using hy
  | append_singleton l b ih =>
    have ih := ih fun b hb => h b (List.mem_append_left _ hb)
    have hb := (h b (by simp)).mono hf.nonneg hf.lt (Nat.le_add_right n l.length)
    rw [List.foldl_append, List.map_append, List.sum_append, List.length_append, ← add_assoc, ← add_assoc]
    simpa using (ih.add hb).round hf

theorem sum_listSum {α : Type*} (l : List α) (T : α → Multiset K) : ((l.map T).sum).sum = (l.map fun b => (T b).sum).sum := by
  induction l with
  | nil => simp
  | cons a l ih => simp [ih]

theorem map_listSum {α : Type*} (l : List α) (T : α → Multiset K) (f : K → K) :
    ((l.map T).sum).map f = (l.map fun b => (T b).map f).sum := by
  induction l with
  | nil => simp
  | cons a l ih => simp [ih]

theorem sum_zipWith {α β : Type*} {a0 : α} {b0 : β} {f : α → β → K} (hf : ∀ b, f a0 b = 0) (g : List α) (e : List β) :
    (List.zipWith f g e).sum = ∑ i ∈ Finset.range e.length, f (g.getD i a0) (e.getD i b0) := by
  induction e generalizing g with
  | nil => simp
  | cons b e ih =>
    rw [List.length_cons, Finset.sum_range_succ']
    cases g with
    | nil =>
      have : ∀ i, f (([] : List α).getD i a0) ((b :: e).getD i b0) = 0 := fun i => by simp [hf]
      simp [hf]
    | cons a g => simp [ih, add_comm]

theorem Rounded.sqrt {u : ℝ} (h0 : 0 ≤ u) (h1 : u < 1) {n : ℕ} {x y : ℝ} (h : Rounded u n x y) (hx : 0 ≤ x) :
    Rounded u n (Real.sqrt x) (Real.sqrt y) := by
  obtain ⟨θ, a, b, rfl⟩ := h
  have hp : 0 < (1 - u) ^ n := pow_pos (by linarith) n
  have hp1 : (1 - u) ^ n ≤ 1 := pow_le_one₀ (by linarith) (by linarith)
  have hθ : 0 < θ := hp.trans_le a
  refine ⟨Real.sqrt θ, Real.le_sqrt_of_sq_le (by nlinarith), ?_, Real.sqrt_mul hx θ⟩
  have hs := Real.sq_sqrt hθ.le
  have hs0 := Real.sqrt_nonneg θ
  refine abs_le_one_iff_mul_self_le_one.2 ?_ |> (le_abs_self _).trans
  calc Real.sqrt θ * (1 - u) ^ n * (Real.sqrt θ * (1 - u) ^ n) = Real.sqrt θ ^ 2 * (1 - u) ^ n * (1 - u) ^ n := by ring
    _ = θ * (1 - u) ^ n * (1 - u) ^ n := by rw [hs]
    _ ≤ 1 * 1 := mul_le_mul b hp1 hp.le (by norm_num)
    _ = 1 := one_mul 1

end EnergyObj
end Magnopy
