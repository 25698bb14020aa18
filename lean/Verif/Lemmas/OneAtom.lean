import Verif.Lemmas.DescribeSetup
import Verif.Lemmas.OneMode

/-!
# Helper lemmas: the magnon matrix of one atom
-/

set_option autoImplicit false
set_option linter.unusedSectionVars false

namespace Magnopy

open PyDict Matrix Complex MagnonObj

variable {order : List Atom → List Atom} {lat : M3 ℝ} {pos : Atom → V3 ℝ}
  {spinVec : Atom → Option (V3 ℝ)} {s : St ℝ} {o : MagnonObj} {t : St ℝ} {items : List (Bond × ℕ)}

theorem atomAt_single (h : ObjSpec order lat pos spinVec s o t items) (hord : ∀ l, (order l).Perm l) {x : Atom}
    (hx : t.magneticAtoms order = [x]) (i : Fin o.N) : atomAt o (t.magneticAtoms order) i = x := by
  have := atomAt_mem h hord i
  rw [hx] at this ⊢
  exact List.mem_singleton.1 this

/-- The blocks of the matrix of one atom, from `J`. -/
theorem h_single (h : ObjSpec order lat pos spinVec s o t items) (hord : ∀ l, (order l).Perm l) {x : Atom}
    (hx : t.magneticAtoms order = [x]) {v : V3 ℝ} (hv : spinVec x = some v) {J : V3 ℝ → M3 ℂ}
    (hJ : ∀ k (i j : Fin o.N), o.J t.cell k i j = J k) (k : V3 ℝ) (i j : Fin o.N) :
    let S : ℂ := EnergyObj.norm3 v
    let C : ℂ := S * (vOf v ⬝ᵥ (J 0 *ᵥ vOf v))
    (o.callH t.cell k).1 (.inl i) (.inl j) = S * (uOf v ⬝ᵥ (J (-k) *ᵥ star (uOf v))) - 2 * C ∧
    (o.callH t.cell k).1 (.inr i) (.inr j) = star (S * (uOf v ⬝ᵥ (J k *ᵥ star (uOf v)))) - 2 * C ∧
    (o.callH t.cell k).1 (.inl i) (.inr j) = S * (uOf v ⬝ᵥ (J (-k) *ᵥ uOf v)) ∧
    (o.callH t.cell k).1 (.inr i) (.inl j) = star (S * (uOf v ⬝ᵥ (J (-k) *ᵥ uOf v))) := by
  intro S C
  have hN : o.N = 1 := by rw [h.N, hx]; rfl
  have hij : ∀ i j : Fin o.N, i = j := fun i j => Fin.ext (by have := i.2; have := j.2; omega)
  have hax : ∀ i : Fin o.N, o.S.getD i 0 = v ∧ o.u.getD i 0 = uOf v ∧ o.v.getD i 0 = vOf v := by
    intro i
    obtain ⟨w, hw, e⟩ := axes_at h hord i
    rw [atomAt_single h hord hx, hv, Option.some.injEq] at hw
    subst hw
    exact e
  have hroot : ∀ i j : Fin o.N, (o.root i j : ℂ) = S / 2 := by
    intro i j
    unfold root
    rw [(hax i).1, (hax j).1, Real.sqrt_mul_self (show 0 ≤ EnergyObj.norm3 v from Real.sqrt_nonneg _)]
    push_cast
    rfl
  have hA : ∀ k (i j : Fin o.N), o.A t.cell k i j = S / 2 * (uOf v ⬝ᵥ (J (-k) *ᵥ star (uOf v))) := by
    intro k i j
    unfold A
    rw [hroot, hJ, (hax i).2.1, (hax j).2.1]
  have hB : ∀ k (i j : Fin o.N), o.B t.cell k i j = S / 2 * (uOf v ⬝ᵥ (J (-k) *ᵥ uOf v)) := by
    intro k i j
    unfold B
    rw [hroot, hJ, (hax i).2.1, (hax j).2.1]
  have hC : ∀ i j : Fin o.N, o.freshC t.cell i j = C := by
    intro i j
    unfold freshC
    rw [hij j i, if_pos rfl, Finset.sum_range, Fintype.sum_eq_single i fun l hl => absurd (hij l i) hl, hJ, (hax i).1, (hax i).2.2]
  have h2 : ∀ {n : ℕ} (M : Matrix (Fin n) (Fin n) ℂ) (i j : Fin n), (2 • M) i j = 2 * M i j := fun M i j => by
    rw [two_smul, two_mul]; rfl
  rw [callH_fresh _ h.C]
  simp only [fromBlocks_apply₁₁, fromBlocks_apply₁₂, fromBlocks_apply₂₁,
      fromBlocks_apply₂₂, Matrix.sub_apply, h2, block, of_apply, conjTranspose_apply, Matrix.map_apply, hA, hB, hC, neg_neg, star_mul']
  have hS : star S = S := by simp [S]
  have hS2 : star (S / 2) = S / 2 := by simp [S]
  rw [hS, hS2]
  refine ⟨by ring, by ring, by ring, by ring⟩

end Magnopy
