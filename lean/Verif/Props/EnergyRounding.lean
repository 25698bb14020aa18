import Verif.Lemmas.EnergyRounding
import Verif.Props.EnergyCone
import Mathlib.Data.List.GetD
import Mathlib.Data.List.ProdSigma

/-!
# C100: round-off of the energy of a state
-/

set_option autoImplicit false
set_option linter.unusedSectionVars false

namespace Magnopy
namespace EnergyObj

variable {u : ℝ} {fl : ℝ → ℝ} {S : Sums} {n d : ℕ}

theorem norm3_rounded (hf : IsRounding fl u) {T : Tree (Fin 3)} (hT : T.leaves = Finset.univ.val ∧ T.depth ≤ d) (v : V3 ℝ) :
    Rounded u (d + 2) (norm3 v) (norm3Fl fl T v) := by
  have h1 := SumNear.tree hf (n := 1) (f := fun i => v i * v i) (g := fun i => fl (v i * v i)) T fun i => Rounded.one hf _
  rw [hT.1] at h1
  have h2 := h1.rounded_of_nonneg (fun x hx => by
    obtain ⟨i, _, rfl⟩ := Multiset.mem_map.1 hx
    exact mul_self_nonneg _) hf.nonneg hf.lt
  have h3 : (Multiset.map (fun i => v i * v i) (Finset.univ : Finset (Fin 3)).val).sum = v 0 ^ 2 + v 1 ^ 2 + v 2 ^ 2 := by
    show ∑ i, v i * v i = _
    rw [Fin.sum_univ_three]
    ring
  rw [h3] at h2
  have h4 := (Rounded.sqrt hf.nonneg hf.lt h2 (by positivity)).trans hf.lt (Rounded.one hf _)
  exact h4.mono hf.nonneg hf.lt (by have := hT.2; omega)

theorem normalize_rounded (hf : IsRounding fl u) {T : Tree (Fin 3)} (hT : T.leaves = Finset.univ.val ∧ T.depth ≤ d) (v : V3 ℝ) (i : Fin 3) :
    Rounded u (d + 3) (normalize v i) (normalizeFl fl T v i) := by
  unfold normalize normalizeFl
  rw [div_eq_mul_inv, div_eq_mul_inv]
  have := Rounded.fl_mul hf (Rounded.refl (u := u) (v i)) ((norm3_rounded hf hT v).inv hf.lt)
  exact this.mono hf.nonneg hf.lt (by omega)

theorem getD_rounded (hf : IsRounding fl u) (hS : S.Complete n d) (e : List (V3 ℝ)) (i : ℕ) (a : Fin 3) :
    Rounded u (d + 3) ((e.map normalize).getD i 0 a) ((e.zipIdx.map fun p => normalizeFl fl (S.norm p.2) p.1).getD i 0 a) := by
  by_cases hi : i < e.length
  · rw [List.getD_eq_getElem _ _ (by simpa using hi), List.getD_eq_getElem _ _ (by simpa using hi)]
    simp only [List.getElem_map, List.getElem_zipIdx, Nat.zero_add]
    exact normalize_rounded hf (hS.norm i) _ a
  · rw [List.getD_eq_default _ _ (by simpa using hi), List.getD_eq_default _ _ (by simpa using hi)]
    exact rounded_zero hf.nonneg hf.lt _

/-- The terms of a bond. -/
noncomputable def bondTerms (E : EnergyObj ℝ) (cell : ℕ → M3 ℝ) (e : List (V3 ℝ)) (b : ℕ × ℕ × V3 ℝ × ℕ) : Multiset ℝ :=
  (Finset.univ : Finset (Fin 3 × Fin 3)).val.map fun p => E.factor * E.spins.getD b.1 0 * E.spins.getD b.2.1 0 *
    ((e.getD b.1 0) p.1 * cell b.2.2.2 p.1 p.2 * (e.getD b.2.1 0) p.2)

/-- The terms of the Zeeman energy. -/
noncomputable def zeemanTerms (E : EnergyObj ℝ) (muB : ℝ) (h : V3 ℝ) (e : List (V3 ℝ)) : Multiset ℝ :=
  (Finset.range e.length ×ˢ (Finset.univ : Finset (Fin 3))).val.map fun p =>
    muB * (E.gFactors.getD p.1 0 * h p.2 * e.getD p.1 0 p.2)

theorem sum_bondTerms (E : EnergyObj ℝ) (cell : ℕ → M3 ℝ) (e : List (V3 ℝ)) :
    ((E.bonds.map (bondTerms E cell e)).sum).sum = E.bondSum (fun _ J => J) cell e := by
  rw [sum_listSum]
  unfold bondSum bondTerms einsum3
  congr 2
  funext b
  obtain ⟨i, j, v, J⟩ := b
  show ∑ p : Fin 3 × Fin 3, _ = _
  rw [← Finset.mul_sum, Fintype.sum_prod_type]

theorem sum_zeemanTerms (E : EnergyObj ℝ) (muB : ℝ) (h : V3 ℝ) (e : List (V3 ℝ)) :
    (zeemanTerms E muB h e).sum = muB * einsumZeeman E.gFactors h e := by
  unfold zeemanTerms einsumZeeman
  rw [sum_zipWith (a0 := 0) (b0 := 0) (by simp)]
  show ∑ p ∈ Finset.range e.length ×ˢ (Finset.univ : Finset (Fin 3)), _ = _
  rw [← Finset.mul_sum, Finset.sum_product]

theorem size_eq (E : EnergyObj ℝ) (muB : ℝ) (cell : ℕ → M3 ℝ) (e : List (V3 ℝ)) :
    E.size muB cell e = (((E.bonds.map (bondTerms E cell e)).sum).map abs).sum +
      match E.field with
      | none => 0
      | some h => ((zeemanTerms E muB h e).map abs).sum := by
  unfold size
  congr 1
  · rw [map_listSum, sum_listSum]
    unfold bondTerms
    congr 2
    funext b
    obtain ⟨i, j, v, J⟩ := b
    rw [Multiset.map_map]
    show _ = ∑ p : Fin 3 × Fin 3, |_|
    simp only [abs_mul]
    rw [← Finset.mul_sum, Fintype.sum_prod_type]
  · cases E.field with
    | none => rfl
    | some h =>
      simp only
      unfold zeemanTerms
      rw [sum_zipWith (a0 := 0) (b0 := 0) (by simp), Multiset.map_map]
      show _ = ∑ p ∈ Finset.range e.length ×ˢ (Finset.univ : Finset (Fin 3)), |_|
      simp only [abs_mul]
      rw [← Finset.mul_sum, Finset.sum_product]

theorem bondSum_near (hf : IsRounding fl u) (hS : S.Complete n d) (E : EnergyObj ℝ) (cell : ℕ → M3 ℝ) (e : List (V3 ℝ)) :
    SumNear u (3 * d + 11 + E.bonds.length) (E.bonds.map (bondTerms E cell (e.map normalize))).sum
      (bondSumFl fl S E cell (e.zipIdx.map fun p => normalizeFl fl (S.norm p.2) p.1)) := by
  have key := SumNear.loop hf (n := 3 * d + 11) (T := fun b : (ℕ × ℕ × V3 ℝ × ℕ) × ℕ => bondTerms E cell (e.map normalize) b.1)
    (t := fun b => fl (fl (fl (E.factor * E.spins.getD b.1.1 0) * E.spins.getD b.1.2.1 0) *
      einsum3Fl fl (S.bond b.2) ((e.zipIdx.map fun p => normalizeFl fl (S.norm p.2) p.1).getD b.1.1 0) (cell b.1.2.2.2)
        ((e.zipIdx.map fun p => normalizeFl fl (S.norm p.2) p.1).getD b.1.2.1 0))) E.bonds.zipIdx (fun b _ => ?_)
    (SumNear.zero (u := u) (3 * d + 11))
  · have h1 : (E.bonds.zipIdx.map fun b => bondTerms E cell (e.map normalize) b.1) = E.bonds.map (bondTerms E cell (e.map normalize)) := by
      conv_rhs => rw [← List.zipIdx_map_fst 0 E.bonds, List.map_map]
      rfl
    rw [h1, List.length_zipIdx, zero_add] at key
    exact key
  · have h1 := SumNear.tree hf (n := 2 * d + 8)
      (f := fun p : Fin 3 × Fin 3 => (e.map normalize).getD b.1.1 0 p.1 * cell b.1.2.2.2 p.1 p.2 * (e.map normalize).getD b.1.2.1 0 p.2)
      (g := fun p => fl (fl ((e.zipIdx.map fun p => normalizeFl fl (S.norm p.2) p.1).getD b.1.1 0 p.1 * cell b.1.2.2.2 p.1 p.2) *
        (e.zipIdx.map fun p => normalizeFl fl (S.norm p.2) p.1).getD b.1.2.1 0 p.2)) (S.bond b.2) fun p =>
      (Rounded.fl_mul hf (Rounded.fl_mul hf (getD_rounded hf hS e b.1.1 p.1) (Rounded.refl (u := u) (cell b.1.2.2.2 p.1 p.2)))
        (getD_rounded hf hS e b.1.2.1 p.2)).mono hf.nonneg hf.lt (by omega)
    rw [(hS.bond b.2).1] at h1
    have h2 : Rounded u 2 (E.factor * E.spins.getD b.1.1 0 * E.spins.getD b.1.2.1 0)
        (fl (fl (E.factor * E.spins.getD b.1.1 0) * E.spins.getD b.1.2.1 0)) :=
      Rounded.fl_mul hf (Rounded.fl_mul hf (Rounded.refl (u := u) _) (Rounded.refl (u := u) _)) (Rounded.refl (u := u) _)
    have h3 := ((SumNear.mul hf.lt h2 h1).round hf).mono hf.nonneg hf.lt
      (show 2 + (2 * d + 8 + (S.bond b.2).depth) + 1 ≤ 3 * d + 11 by have := (hS.bond b.2).2; omega)
    rw [Multiset.map_map] at h3
    exact h3

theorem ferro_near (hf : IsRounding fl u) (E : EnergyObj ℝ) (muB : ℝ) (cell : ℕ → M3 ℝ) (e : List (V3 ℝ)) (hS : S.Complete e.length d) :
    ∃ L, SumNear u (E.roundings d) L (ferroUnitFl fl S E muB cell (e.zipIdx.map fun p => normalizeFl fl (S.norm p.2) p.1)) ∧
      L.sum = E.ferroUnit muB cell (e.map normalize) ∧ (L.map abs).sum = E.size muB cell (e.map normalize) := by
  have hb := bondSum_near hf hS E cell e
  unfold ferroUnitFl ferroUnit zeeman roundings
  rw [size_eq]
  cases hF : E.field with
  | none =>
    simp only
    exact ⟨_, hb.mono hf.nonneg hf.lt (by omega), by rw [sum_bondTerms, add_zero], by rw [add_zero]⟩
  | some h =>
    simp only
    have h1 := SumNear.tree hf (n := d + 5)
      (f := fun p : ℕ × Fin 3 => E.gFactors.getD p.1 0 * h p.2 * (e.map normalize).getD p.1 0 p.2)
      (g := fun p => fl (fl (E.gFactors.getD p.1 0 * h p.2) * (e.zipIdx.map fun p => normalizeFl fl (S.norm p.2) p.1).getD p.1 0 p.2))
      S.zeeman fun p =>
      (Rounded.fl_mul hf (Rounded.fl_mul hf (Rounded.refl (u := u) _) (Rounded.refl (u := u) _))
        (getD_rounded hf hS e p.1 p.2)).mono hf.nonneg hf.lt (by omega)
    rw [hS.zeeman.1] at h1
    have h2 := (SumNear.mul hf.lt (Rounded.refl (u := u) muB) h1).round hf
    rw [Multiset.map_map] at h2
    have h3 := (hb.add (h2.mono hf.nonneg hf.lt
      (show 0 + (d + 5 + S.zeeman.depth) + 1 ≤ 3 * d + 11 + E.bonds.length by have := hS.zeeman.2; omega))).round hf
    refine ⟨(E.bonds.map (bondTerms E cell (e.map normalize))).sum + zeemanTerms E muB h (e.map normalize), ?_, ?_, ?_⟩
    · refine SumNear.mono hf.nonneg hf.lt (show 3 * d + 11 + E.bonds.length + 1 ≤ E.bonds.length + 3 * d + 12 by omega) ?_
      convert h3 using 2
      unfold zeemanTerms
      rw [List.length_map]
      rfl
    · rw [Multiset.sum_add, sum_bondTerms, sum_zeemanTerms]
    · rw [Multiset.map_add, Multiset.sum_add]

/-- **C100, exceptions.** Rounding does not change which arguments raise which exceptions. -/
theorem C100_exceptions (fl : ℝ → ℝ) (S : Sums) (E : EnergyObj ℝ) (muB : ℝ) (cell : ℕ → M3 ℝ) (so : Param.ArrayLike ℝ) (x : PyErr) :
    E.ferroFl fl S muB cell so = .error x ↔ E.ferro muB cell so = .error x := by
  unfold ferroFl ferro
  cases orientations E.spins.length so <;> simp

theorem ferroFl_arr (fl : ℝ → ℝ) (S : Sums) (E : EnergyObj ℝ) (muB : ℝ) (cell : ℕ → M3 ℝ) {l : List (V3 ℝ)} (hl : l.length = E.spins.length)
    (hn : E.spins ≠ []) : E.ferroFl fl S muB cell (arr l) =
      .ok (ferroUnitFl fl S E muB cell (l.zipIdx.map fun p => normalizeFl fl (S.norm p.2) p.1)) := by
  unfold ferroFl
  rw [orientations_arr hl (by simpa using hn)]

/-- **C100.** With rounded floats, and whatever order numpy adds in, the value of `ferro` differs from the exact energy at most by
`N u / (1 - N u)` times the sum of the absolute values of all terms, where `N` is the number of bonds plus three times the number of
additions inside of the products plus twelve. -/
theorem C100_ferro (hf : IsRounding fl u) (E : EnergyObj ℝ) (muB : ℝ) (cell : ℕ → M3 ℝ) (l : List (V3 ℝ)) (hl : l.length = E.spins.length)
    (hn : E.spins ≠ []) (hS : S.Complete E.spins.length d) (hN : E.roundings d * u < 1) :
    ∃ y y', E.ferro muB cell (arr l) = .ok y ∧ E.ferroFl fl S muB cell (arr l) = .ok y' ∧
      |y' - y| ≤ gamma u (E.roundings d) * E.size muB cell (l.map normalize) := by
  obtain ⟨L, h1, h2, h3⟩ := ferro_near hf E muB cell l (hl ▸ hS)
  refine ⟨_, _, ferro_arr E muB cell hl hn, ferroFl_arr fl S E muB cell hl hn, ?_⟩
  rw [← h2, ← h3]
  exact h1.error hf.nonneg hf.lt hN

/-- **C100, comparison.** Two states are ordered by the computed energies as by the exact ones, if these differ by more than the
bounds of the round-off, whatever orders numpy adds in. -/
theorem C100_compare (hf : IsRounding fl u) (E : EnergyObj ℝ) (muB : ℝ) (cell : ℕ → M3 ℝ) (l l' : List (V3 ℝ)) (hl : l.length = E.spins.length)
    (hl' : l'.length = E.spins.length) (hn : E.spins ≠ []) {S' : Sums} (hS : S.Complete E.spins.length d)
    (hS' : S'.Complete E.spins.length d) (hN : E.roundings d * u < 1) (y z y' z' : ℝ) (hy : E.ferro muB cell (arr l) = .ok y)
    (hz : E.ferro muB cell (arr l') = .ok z) (hy' : E.ferroFl fl S muB cell (arr l) = .ok y')
    (hz' : E.ferroFl fl S' muB cell (arr l') = .ok z')
    (h : y + gamma u (E.roundings d) * (E.size muB cell (l.map normalize) + E.size muB cell (l'.map normalize)) < z) : y' < z' := by
  obtain ⟨a, b, h1, h2, h3⟩ := C100_ferro hf E muB cell l hl hn hS hN
  obtain ⟨a', b', h1', h2', h3'⟩ := C100_ferro hf E muB cell l' hl' hn hS' hN
  rw [hy] at h1
  rw [hy'] at h2
  rw [hz] at h1'
  rw [hz'] at h2'
  cases h1; cases h2; cases h1'; cases h2'
  have := abs_le.1 h3
  have := abs_le.1 h3'
  linarith

/-- **C100, one sign.** If no terms cancel (all are negative, or all are positive), the relative error is at most `N u / (1 - N u)`. -/
theorem C100_one_sign (hf : IsRounding fl u) (E : EnergyObj ℝ) (muB : ℝ) (cell : ℕ → M3 ℝ) (l : List (V3 ℝ)) (hl : l.length = E.spins.length)
    (hn : E.spins ≠ []) (hS : S.Complete E.spins.length d) (hN : E.roundings d * u < 1) (y : ℝ)
    (hy : E.ferro muB cell (arr l) = .ok y) (hs : E.size muB cell (l.map normalize) = |y|) :
    ∃ y', E.ferroFl fl S muB cell (arr l) = .ok y' ∧ |y' - y| ≤ gamma u (E.roundings d) * |y| := by
  obtain ⟨a, b, h1, h2, h3⟩ := C100_ferro hf E muB cell l hl hn hS hN
  rw [hy] at h1
  cases h1
  exact ⟨b, h2, hs ▸ h3⟩

theorem leaves_ofList {ι : Type*} (l : List ι) : (Tree.ofList l).leaves = (l : Multiset ι) ∧ (Tree.ofList l).depth = l.length := by
  induction l using List.reverseRecOn with
  | nil => exact ⟨rfl, rfl⟩
  | append_singleton l a ih =>
    unfold Tree.ofList at ih ⊢
    rw [List.foldl_append]
    simp only [List.foldl_cons, List.foldl_nil, Tree.leaves, Tree.depth, ih.1, ih.2]
    exact ⟨rfl, by simp⟩

/-- There are orders of additions: one term after the other. -/
theorem sequential_complete (n : ℕ) : (Sums.sequential n).Complete n (3 * n + 9) where
  norm k := ⟨(leaves_ofList _).1.trans rfl, by
    show (Tree.ofList _).depth ≤ _
    rw [(leaves_ofList _).2]
    simp⟩
  bond k := ⟨(leaves_ofList _).1.trans rfl, by
    show (Tree.ofList _).depth ≤ _
    rw [(leaves_ofList _).2, List.length_product]
    simp⟩
  zeeman := ⟨(leaves_ofList _).1.trans (Multiset.coe_product _ _).symm, by
    show (Tree.ofList _).depth ≤ _
    rw [(leaves_ofList _).2, List.length_product]
    simp
    omega⟩

/-! An instance: rounding towards zero by the fraction `1/1000`, one spin, one bond with the matrix `-1`, and a field. -/
example : ∃ y', (⟨1, [2], [1], [(0, 0, 0, 0)], some ![0, 0, -1], 10, 1, 0, 0⟩ : EnergyObj ℝ).ferroFl (fun x => x * (999 / 1000))
      (Sums.sequential 1) 1 (fun _ => -1) (arr [![0, 0, 2]]) = .ok y' ∧ |y' - -3| ≤ 49 / 951 * 3 := by
  have hf : IsRounding (fun x : ℝ => x * (999 / 1000)) (1 / 1000) := ⟨by norm_num, by norm_num, fun x => by
    rw [show x * (999 / 1000) - x = -(1 / 1000 * x) by ring, abs_neg, abs_mul]
    norm_num⟩
  have hnorm : normalize ![0, 0, 2] = ![0, 0, 1] := by
    have : norm3 ![0, 0, 2] = 2 := by
      unfold norm3
      rw [show (![0, 0, 2] : V3 ℝ) 0 ^ 2 + (![0, 0, 2] : V3 ℝ) 1 ^ 2 + (![0, 0, 2] : V3 ℝ) 2 ^ 2 = 2 ^ 2 by simp]
      exact Real.sqrt_sq (by norm_num)
    funext i
    unfold normalize
    rw [this]
    fin_cases i <;> norm_num
  obtain ⟨y, y', h1, h2, h3⟩ := C100_ferro (S := Sums.sequential 1) (d := 12) hf
    (⟨1, [2], [1], [(0, 0, 0, 0)], some ![0, 0, -1], 10, 1, 0, 0⟩ : EnergyObj ℝ) 1 (fun _ => -1) [![0, 0, 2]] rfl (by simp)
    (sequential_complete 1) (by norm_num [roundings])
  rw [ferro_arr _ _ _ rfl (by simp)] at h1
  injection h1 with h1
  refine ⟨y', h2, ?_⟩
  have hy : y = -3 := by
    rw [← h1]
    simp [ferroUnit, bondSum, zeeman, einsumZeeman, einsum3, hnorm, Fin.sum_univ_three, Matrix.one_apply]
    norm_num
  rw [hy] at h3
  refine h3.trans (le_of_eq ?_)
  simp [size, gamma, roundings, hnorm, Fin.sum_univ_three, Matrix.one_apply]
  norm_num

end EnergyObj
end Magnopy
