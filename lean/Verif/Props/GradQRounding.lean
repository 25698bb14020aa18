import Verif.Lemmas.GradQRounding
import Verif.Props.EnergyCone
import Verif.Props.OptCone
import Verif.Props.TorqueConeRounding

/-!
# Property C109: round-off of the derivative with respect to the spiral vector
-/

set_option autoImplicit false

set_option linter.unusedSectionVars false

namespace Magnopy
namespace Optimize

open EnergyObj Matrix

variable {u : ℝ} {A : Arith} {k d : ℕ}

/-- The sum over the bonds, with phases for every bond number. -/
noncomputable def numberedGrad (E : EnergyObj ℝ) (C : ℕ → V3 ℝ → M3 ℝ → M3 ℝ) (cell : ℕ → M3 ℝ) (e : List (V3 ℝ)) (c : Fin 3) : ℝ :=
  (E.bonds.zipIdx.map fun b => b.1.2.2.1 c * (E.factor * E.spins.getD b.1.1 0 * E.spins.getD b.1.2.1 0 *
    einsum3 (e.getD b.1.1 0) (C b.2 b.1.2.2.1 (cell b.1.2.2.2)) (e.getD b.1.2.1 0))).sum

theorem reach_eq (E : EnergyObj ℝ) (cell : ℕ → M3 ℝ) (c : Fin 3) : E.reach cell c = (E.bonds.zipIdx.map fun b => |b.1.2.2.1 c| *
    (|E.factor * E.spins.getD b.1.1 0 * E.spins.getD b.1.2.1 0| * ∑ x, ∑ y, |cell b.1.2.2.2 x y|)).sum := by
  unfold reach
  rw [← map_zipIdx_fst]

theorem gradQ_numbered (E : EnergyObj ℝ) (cell : ℕ → M3 ℝ) (e : List (V3 ℝ)) (n q : V3 ℝ) (c : Fin 3) : E.spiralGradQ cell e n q c =
    numberedGrad E (fun _ v J => spiralGradC n (Real.cos (dot3 q v)) (Real.sin (dot3 q v)) J) cell e c := by
  unfold spiralGradQ numberedGrad
  rw [map_zipIdx_fst E.bonds fun b => b.2.2.1 c * (E.factor * E.spins.getD b.1 0 * E.spins.getD b.2.1 0 *
    einsum3 (e.getD b.1 0) (spiralGradC n (Real.cos (dot3 q b.2.2.1)) (Real.sin (dot3 q b.2.2.1)) (cell b.2.2.2)) (e.getD b.2.1 0))]
  induction E.bonds with
  | nil => rfl
  | cons b l ih =>
    simp only [List.map_cons, List.sum_cons, Pi.add_apply, ih]

/-- The computed sum is near to the exact one with the computed phases. -/
theorem gradQ_near (hA : A.Good u k) {N : ℕ} {S : ConeSums} (hS : S.Complete N d) (E : EnergyObj ℝ) (cell : ℕ → M3 ℝ) {e : List (V3 ℝ)} {n : V3 ℝ}
    (q : V3 ℝ) (he : ∀ i a, |e.getD i 0 a| ≤ 101 / 100) (hn : ∀ a, |n a| ≤ 101 / 100) (c : Fin 3) :
    Approx u (E.gradRoundings d k) (numberedGrad E (fun b v J => spiralGradC n (Real.cos (dot3Fl A.fl (S.cosine b) q v))
      (Real.sin (dot3Fl A.fl (S.sine b) q v)) J) cell e c) (spiralGradQFl A S E cell e n q c) (80 * E.reach cell c) := by
  have hf := hA.fl
  rw [reach_eq, ← List.sum_map_mul_left]
  unfold numberedGrad spiralGradQFl gradRoundings
  rw [← List.length_zipIdx (l := E.bonds) (i := 0)]
  refine Approx.loop hf _ fun b _ => ?_
  have h2 : Rounded u 2 (E.factor * E.spins.getD b.1.1 0 * E.spins.getD b.1.2.1 0)
      (A.fl (A.fl (E.factor * E.spins.getD b.1.1 0) * E.spins.getD b.1.2.1 0)) :=
    Rounded.fl_mul hf (Rounded.fl_mul hf (Rounded.refl (u := u) _) (Rounded.refl (u := u) _)) (Rounded.refl (u := u) _)
  have h1 := Approx.tree_univ hf (hS.bond b.2) fun p : Fin 3 × Fin 3 =>
    Approx.fl_mul hf (Approx.fl_mul hf (Approx.refl (u := u) (e.getD b.1.1 0 p.1))
      (gradC_near hA hS n q b.2 b.1.2.2.1 (cell b.1.2.2.2) p.1 p.2)) (Approx.refl (u := u) (e.getD b.1.2.1 0 p.2))
  have h3 := (Approx.smul hf.lt (Rounded.refl (u := u) (b.1.2.2.1 c)) ((Approx.smul hf.lt h2 h1).round hf)).round hf
  rw [Fintype.sum_prod_type, Fintype.sum_prod_type] at h3
  refine h3.mono hf.nonneg hf.lt (by omega) ?_
  rw [mul_left_comm (80 : ℝ), mul_left_comm (80 : ℝ)]
  refine mul_le_mul_of_nonneg_left (mul_le_mul_of_nonneg_left ?_ (abs_nonneg _)) (abs_nonneg _)
  have h0 := entries_nonneg (cell b.1.2.2.2)
  have h4 : ∀ x y, |e.getD b.1.1 0 x| * spiralTurn n (cell b.1.2.2.2) x y * |e.getD b.1.2.1 0 y| ≤
      80 / 9 * ∑ x, ∑ y, |cell b.1.2.2.2 x y| := fun x y => by
    have t := turn_size hn (cell b.1.2.2.2) x y
    have k1 := mul_le_mul (he b.1.1 x) t (abs_nonneg _) (by norm_num)
    have k2 := mul_le_mul k1 (he b.1.2.1 y) (abs_nonneg _) (by positivity)
    have k3 := mul_le_mul_of_nonneg_right (mul_le_mul_of_nonneg_left (le_abs_self (spiralTurn n (cell b.1.2.2.2) x y))
      (abs_nonneg (e.getD b.1.1 0 x))) (abs_nonneg (e.getD b.1.2.1 0 y))
    linarith
  simp only [Fin.sum_univ_three (fun x => ∑ y, |e.getD b.1.1 0 x| * spiralTurn n (cell b.1.2.2.2) x y * |e.getD b.1.2.1 0 y|)]
  simp only [Fin.sum_univ_three (fun y => |e.getD b.1.1 0 _| * spiralTurn n (cell b.1.2.2.2) _ y * |e.getD b.1.2.1 0 y|)]
  linarith [h4 0 0, h4 0 1, h4 0 2, h4 1 0, h4 1 1, h4 1 2, h4 2 0, h4 2 1, h4 2 2]

/-- Terms that differ by at most a fraction of the strength of the bond. -/
theorem numberedGrad_sub (E : EnergyObj ℝ) (cell : ℕ → M3 ℝ) (c : Fin 3) {C C' : ℕ → V3 ℝ → M3 ℝ → M3 ℝ} {e e' : List (V3 ℝ)} {r : ℝ}
    (h : ∀ i j : ℕ, ∀ b, ∀ B ∈ E.bonds, |einsum3 (e.getD i 0) (C b B.2.2.1 (cell B.2.2.2)) (e.getD j 0) -
      einsum3 (e'.getD i 0) (C' b B.2.2.1 (cell B.2.2.2)) (e'.getD j 0)| ≤ r * ∑ x, ∑ y, |cell B.2.2.2 x y|) :
    |numberedGrad E C cell e c - numberedGrad E C' cell e' c| ≤ r * E.reach cell c := by
  rw [reach_eq]
  unfold numberedGrad
  have hm : ∀ b ∈ E.bonds.zipIdx, b.1 ∈ E.bonds := fun b hb => List.fst_mem_of_mem_zipIdx hb
  revert hm
  generalize E.bonds.zipIdx = l
  intro hm
  induction l with
  | nil => simp
  | cons b l ih =>
    simp only [List.map_cons, List.sum_cons, mul_add]
    rw [add_sub_add_comm]
    refine (abs_add_le _ _).trans (add_le_add ?_ (ih fun b hb => hm b (List.mem_cons_of_mem _ hb)))
    rw [← mul_sub, ← mul_sub, abs_mul, abs_mul, mul_left_comm r, mul_left_comm r]
    exact mul_le_mul_of_nonneg_left (mul_le_mul_of_nonneg_left (h _ _ _ _ (hm b (by simp))) (abs_nonneg _)) (abs_nonneg _)

/-- The array afterwards does not depend on the energies. -/
theorem array_eq (fl : ℝ → ℝ) (h : ℝ) (F F' : ℕ → Fin 3 → Bool → List (V3 ℝ) → ℝ) (is : List ℕ) (x : List (V3 ℝ)) :
    (rowTorquesFl fl h F is x).2 = (rowTorquesFl fl h F' is x).2 := by
  induction is generalizing x with
  | nil => rfl
  | cons i is ih => exact ih _

/-- The array afterwards is the one before up to `6 u`. -/
theorem array_near {fl : ℝ → ℝ} (hf : IsRounding fl u) (hu : u ≤ 1 / 10000) (F : ℕ → Fin 3 → Bool → List (V3 ℝ) → ℝ) {x z : List (V3 ℝ)} {δ : ℝ}
    (hδ0 : 0 ≤ δ) (hδ : δ ≤ 1 / 100) (hx : x.length = z.length) (hz : AllUnit z) (hxz : ∀ k a, |x.getD k 0 a - z.getD k 0 a| ≤ δ) :
    (rowTorquesFl fl (fl fdStep) F (List.range x.length) x).2.length = z.length ∧
      ∀ k a, |(rowTorquesFl fl (fl fdStep) F (List.range x.length) x).2.getD k 0 a - z.getD k 0 a| ≤ δ + 6 * u := by
  have hu0 := hf.nonneg
  rw [array_eq fl (fl fdStep) F fun _ _ _ _ => 0]
  have hc : ∀ (i : ℕ) (j : Fin 3), Close (fun _ => 0) ((fun _ _ _ _ => 0 : ℕ → Fin 3 → Bool → List (V3 ℝ) → ℝ) i j) z.length 0 0 :=
    fun i j => ⟨by simp, by simp⟩
  obtain ⟨-, -, t3, t4⟩ := rowTorques_step hf hu hδ hδ0 hz hc le_rfl (List.range x.length) x (fun _ _ => False)
    ⟨hx, fun k a => (hxz k a).trans (by linarith), fun k a _ => hxz k a⟩ (by simp [hx]) List.nodup_range
  exact ⟨t3, t4⟩

/-- **C109.** With floats, for spins and a cone axis (the last row of `x`) that are unit vectors up to `δ`: the last three entries of the gradient
of the spiral case are the derivatives of the public energy with respect to the spiral vector, up to this bound; the bond vectors enter by
their components (`reach`), and `Φ` bounds the sizes of the phases. -/
theorem C109_derivative (hA : A.Good u k) (hu : u ≤ 1 / 10000) (E : EnergyObj ℝ) (muB : ℝ) (cell : ℕ → M3 ℝ) (hN : E.gradRoundings d k * u < 1)
    (S : ℕ → Fin 3 → Bool → ConeSums) {S' : ConeSums} (hS : S'.Complete E.spins.length d) (hne : E.spins ≠ []) (x z : List (V3 ℝ)) (q : V3 ℝ) {δ Φ : ℝ}
    (hδ0 : 0 ≤ δ) (hδ : δ ≤ 9 / 1000) (hx : x.length = E.spins.length + 1) (hzl : z.length = E.spins.length + 1) (hz : AllUnit z)
    (hxz : ∀ k a, |x.getD k 0 a - z.getD k 0 a| ≤ δ) (hq : ∀ b ∈ E.bonds, phaseSize q b.2.2.1 ≤ Φ) :
    ∃ g : V3 ℝ, (∀ p : V3 ℝ, ∃ f : ℝ → ℝ, (∀ t, E.spiral muB cell (arr z.dropLast) (vec (z.getLastD 0)) (vec (q + t • p)) = .ok (f t)) ∧
        HasDerivAt f (g ⬝ᵥ p) 0) ∧
      ∀ c, |spiralGradLastFl A S S' E muB cell x q c - g c| ≤
        (80 * (gamma u (E.gradRoundings d k) + Φ * gamma u (d + 1)) + 500 * (δ + 6 * u)) * E.reach cell c := by
  have hf := hA.fl
  have hu0 := hf.nonneg
  have hd : (d + 1 : ℕ) * u < 1 := by
    refine lt_of_le_of_lt (mul_le_mul_of_nonneg_right ?_ hu0) hN
    exact_mod_cast (show d + 1 ≤ E.gradRoundings d k by unfold gradRoundings; omega)
  have hg' : 0 ≤ gamma u (d + 1) := div_nonneg (mul_nonneg (Nat.cast_nonneg _) hu0) (by linarith)
  have hlast : z.getLastD 0 ∈ z := by
    rw [getLastD_getD z hzl, List.getD_eq_getElem _ _ (by omega)]
    exact List.getElem_mem _
  refine ⟨E.spiralGradQ cell z.dropLast (z.getLastD 0) q, fun p => C31_q_gradient E muB cell z.dropLast (by simp [hzl]) hne
    (fun v hv => hz v (List.dropLast_subset _ hv)) (z.getLastD 0) q (hz _ hlast) p, fun c => ?_⟩
  have hz1 : ∀ i a, |z.getD i 0 a| ≤ 1 := fun i a => by
    by_cases hi : i < z.length
    · exact abs_component_le (getD_unit hz hi) a
    · rw [List.getD_eq_default _ _ (by omega)]; simp
  obtain ⟨y1, y2⟩ := array_near hf hu (fun i j s l => coneUnitFl A.fl (S i j s) E muB
    (spiralCFl A (S i j s) (normalizeFl A.fl (S i j s).axis (l.getLastD 0)) q) cell
    (l.dropLast.zipIdx.map fun p => normalizeFl A.fl ((S i j s).norm p.2) p.1) (normalizeFl A.fl (S i j s).axis (l.getLastD 0)))
    hδ0 (by linarith) (hx.trans hzl.symm) hz hxz
  change (spiralTorquesFl A S E muB cell x q).2.length = _ at y1
  change ∀ k a, |(spiralTorquesFl A S E muB cell x q).2.getD k 0 a - _| ≤ _ at y2
  show |spiralGradQFl A S' E cell (spiralTorquesFl A S E muB cell x q).2.dropLast ((spiralTorquesFl A S E muB cell x q).2.getLastD 0) q c - _| ≤ _
  generalize (spiralTorquesFl A S E muB cell x q).2 = y at y1 y2
  have hyl : y.length = E.spins.length + 1 := y1.trans hzl
  have hy1 : ∀ i a, |y.getD i 0 a| ≤ 101 / 100 := fun i a => by
    have a1 := abs_le.1 (y2 i a)
    have a2 := abs_le.1 (hz1 i a)
    exact abs_le.2 ⟨by linarith, by linarith⟩
  have hn : ∀ a, |y.getLastD 0 a| ≤ 101 / 100 := fun a => by rw [getLastD_getD y hyl]; exact hy1 _ a
  have hn' : ∀ a, |z.getLastD 0 a| ≤ 1 := fun a => by rw [getLastD_getD z hzl]; exact hz1 _ a
  have hnn : ∀ a, |y.getLastD 0 a - z.getLastD 0 a| ≤ δ + 6 * u := fun a => by rw [getLastD_getD y hyl, getLastD_getD z hzl]; exact y2 _ a
  have he : ∀ i a, |y.dropLast.getD i 0 a| ≤ 101 / 100 := fun i a => by
    rw [dropLast_getD y hyl]
    split_ifs
    · exact hy1 i a
    · norm_num
  have he' : ∀ i a, |z.dropLast.getD i 0 a| ≤ 1 := fun i a => by
    rw [dropLast_getD z hzl]
    split_ifs
    · exact hz1 i a
    · norm_num
  have hee : ∀ i a, |y.dropLast.getD i 0 a - z.dropLast.getD i 0 a| ≤ δ + 6 * u := fun i a => by
    rw [dropLast_getD y hyl, dropLast_getD z hzl]
    split_ifs
    · exact y2 i a
    · rw [sub_self, abs_zero]; linarith
  have h1 := (gradQ_near hA hS E cell q he hn c).error hu0 hf.lt hN
  have h2 := numberedGrad_sub E cell c (e := y.dropLast) (e' := z.dropLast) (r := 500 * (δ + 6 * u) + 80 * (Φ * gamma u (d + 1)))
    (C := fun b v J => spiralGradC (y.getLastD 0) (Real.cos (dot3Fl A.fl (S'.cosine b) q v)) (Real.sin (dot3Fl A.fl (S'.sine b) q v)) J)
    (C' := fun _ v J => spiralGradC (z.getLastD 0) (Real.cos (dot3 q v)) (Real.sin (dot3 q v)) J) fun i j b B hB => by
      have p0 : 0 ≤ Φ := le_trans (Finset.sum_nonneg fun _ _ => by positivity) (hq B hB)
      have p1 := (phase_near hf (hS.cosine b) hd q B.2.2.1).trans (mul_le_mul_of_nonneg_left (hq B hB) hg')
      have p2 := (phase_near hf (hS.sine b) hd q B.2.2.1).trans (mul_le_mul_of_nonneg_left (hq B hB) hg')
      rw [mul_comm] at p1 p2
      exact gradTerm_close (by linarith) (mul_nonneg p0 hg') hn hn' hnn (he j) (he' i) (he' j) (hee i) (hee j) (Real.abs_cos_le_one _)
        (Real.abs_sin_le_one _) ((Real.abs_cos_sub_cos_le _ _).trans p1) ((Real.abs_sin_sub_sin_le _ _).trans p2) _
  rw [gradQ_numbered]
  have h3 := abs_le.1 h1
  have h4 := abs_le.1 h2
  exact abs_le.2 ⟨by linarith, by linarith⟩

open ConeExample SpiralOne in
/-- A chain with the energy `4 cos q` and floats of 53 bits that are rounded towards zero (the cosines, too): the computed derivative is `-4 sin q`
up to `10⁻⁹`. -/
example : |spiralGradLastFl ⟨Param.chop 52, fun x => Param.chop 52 (Real.cos x), fun x => Param.chop 52 (Real.sin x)⟩
      (fun _ _ _ => ConeSums.sequential 1) (ConeSums.sequential 1) E 0 (mat 4) [ex, ez] ![1, 0, 0] 0 - -(4 * Real.sin 1)| ≤ 1 / 10 ^ 9 := by
  have hf : IsRounding (Param.chop 52) (1 / 2 ^ 52) := (Param.chop_isFloat 52 (by norm_num)).toIsRounding
  have hA : Arith.Good ⟨Param.chop 52, fun x => Param.chop 52 (Real.cos x), fun x => Param.chop 52 (Real.sin x)⟩ (1 / 2 ^ 52) 1 :=
    ⟨hf, fun x => .one hf _, fun x => .one hf _⟩
  have hx : AllUnit [ex, ez] := by
    intro v hv
    simp only [List.mem_cons, List.not_mem_nil, or_false] at hv
    rcases hv with rfl | rfl
    · exact ex_unit
    · exact ez_unit
  obtain ⟨g, h1, h2⟩ := C109_derivative (d := 12) (S' := ConeSums.sequential 1) hA (by norm_num) E 0 (mat 4) (by norm_num [gradRoundings, E])
    (fun _ _ _ => ConeSums.sequential 1) (cone_sequential_complete 1) (by simp [E]) [ex, ez] [ex, ez] ![1, 0, 0] (δ := 0) (Φ := 1) le_rfl
    (by norm_num) rfl rfl hx (by simp) (by simp [E, phaseSize, Fin.sum_univ_three])
  obtain ⟨f, a1, a2⟩ := h1 ![1, 0, 0]
  obtain ⟨f', b1, b2⟩ := C31_q_gradient E 0 (mat 4) [ex] rfl (by simp [E]) (by simpa using ex_unit) ez ![1, 0, 0] ez_unit ![1, 0, 0]
  have hff : f = f' := funext fun t => Except.ok.inj ((a1 t).symm.trans (b1 t))
  subst hff
  have h3 := a2.unique b2
  rw [gradQ] at h3
  have h4 : g 0 = -(4 * Real.sin 1) := by simpa [dotProduct, Fin.sum_univ_three] using h3
  have h5 := h2 0
  rw [h4] at h5
  refine h5.trans ?_
  have hr : E.reach (mat 4) 0 ≤ 12 := by
    simp [reach, E, mat, Fin.sum_univ_three, Matrix.one_apply]
    norm_num
  have hr0 : 0 ≤ E.reach (mat 4) 0 := by
    refine List.sum_nonneg fun a ha => ?_
    obtain ⟨b, -, rfl⟩ := List.mem_map.mp ha
    exact mul_nonneg (abs_nonneg _) (mul_nonneg (abs_nonneg _) (entries_nonneg _))
  have hg : 80 * (gamma (1 / 2 ^ 52 : ℝ) (E.gradRoundings 12 1) + 1 * gamma (1 / 2 ^ 52 : ℝ) (12 + 1)) + 500 * (0 + 6 * (1 / 2 ^ 52)) ≤
      1 / 10 ^ 11 := by
    norm_num [gamma, gradRoundings, E]
  nlinarith

end Optimize
end Magnopy
