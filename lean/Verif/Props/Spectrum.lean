import Verif.Lemmas.Near
import Verif.Spec.Compare
import Verif.Props.Minimum
import Verif.Props.Reversal

/-!
# Property C91: bounds, sum rules, comparison and continuity of the magnon energies
-/

set_option autoImplicit false
set_option linter.unusedSectionVars false

namespace Magnopy

open Matrix ComplexOrder MagnonObj Topology

variable {order : List Atom → List Atom} {spinVec : Atom → Option (V3 ℝ)} {s : St ℝ}

theorem omegaOf_modes {N : ℕ} {D Y : Mat N} {e : Fin N ⊕ Fin N → ℝ} (hD : D.PosDef) (h : Modes D Y e)
    {chol : Mat N → Option (Mat N)} {eig : Mat N → (Fin N ⊕ Fin N → ℂ) × Mat N}
    {sort : (Fin N ⊕ Fin N → ℂ) → Equiv.Perm (Fin N ⊕ Fin N)} (hc : IsCholesky chol) (he : IsEig eig) (hs : IsSort sort)
    (junk : Mat N) (z rg im : Bool) : (omegaOf (Colpa.solve chol eig sort) junk z rg im D).1 = energyArray (fun i => (e i : ℂ)) rg := by
  obtain ⟨E, G, h1, h2⟩ := C43_positive hc he hs D junk hD z rg im
  have h3 := h.solve chol eig sort hc he hs
  rw [h1, Option.map_some, Option.some.injEq] at h3
  simp only at h3
  rw [h2, h3]

/-- **C91 (sum rules and bounds).** If `h(k)` is positive definite, then `omega` reports positive energies (rounded to zero up
to 1e-8), for all flags and all correct routines of linear algebra, and these energies satisfy:

* the product of all `2N` energies is the determinant of `h(k)`, the sum of their squares is the trace of `(g h)²`, and the sum of
  the first `N` minus the sum of the last `N` is the trace of `g h`, where `g` is the metric of bosons;
* their sum is at most the trace of `h(k)` (the zero-point energy of the magnons lowers the energy);
* they are between every lower and every upper bound of `h(k)`. -/
theorem C91_sums (o : MagnonObj) (cell : ℕ → M3 ℝ) (k : V3 ℝ) (hp : (o.callH cell k).1.PosDef) :
    ∃ e : Fin o.N ⊕ Fin o.N → ℝ, (∀ i, 0 < e i) ∧ (∀ i j, i ≤ j → e (.inl j) ≤ e (.inl i)) ∧
      (∀ i j, i ≤ j → e (.inr i) ≤ e (.inr j)) ∧
      (∀ chol eig sort, IsCholesky chol → IsEig eig → IsSort sort → ∀ (junk : Mat o.N) (z rg im : Bool),
        (o.omega cell (Colpa.solve chol eig sort) junk z rg im k).1.1 = energyArray (fun i => (e i : ℂ)) rg) ∧
      (o.callH cell k).1.det = ((∏ i, e i : ℝ) : ℂ) ∧
      (bosonMetric o.N * (o.callH cell k).1 * (bosonMetric o.N * (o.callH cell k).1)).trace = ((∑ i, e i ^ 2 : ℝ) : ℂ) ∧
      (bosonMetric o.N * (o.callH cell k).1).trace = ((∑ i, e (.inl i) - ∑ i, e (.inr i) : ℝ) : ℂ) ∧
      ∑ i, e i ≤ ((o.callH cell k).1.trace).re ∧
      ∀ a : ℝ, 0 < a → (((o.callH cell k).1 - (a : ℂ) • 1).PosSemidef → ∀ i, a ≤ e i) ∧
        (((a : ℂ) • 1 - (o.callH cell k).1).PosSemidef → ∀ i, e i ≤ a) := by
  obtain ⟨Y, e, h⟩ := exists_modes hp
  obtain ⟨s1, s2, s3⟩ := h.toDiag.sums
  refine ⟨e, h.pos, h.first, h.last, fun chol eig sort hc he hs junk z rg im => omegaOf_modes hp h hc he hs junk z rg im, s1,
    by rw [← Colpa.g_eq_metric]; exact s2, ?_, h.trace, fun a ha => h.toDiag.bounds ha⟩
  rw [← Colpa.g_eq_metric, s3, Fintype.sum_sum_type]
  simp [Colpa.sgn, sub_eq_add_neg]

/-- **C91 (variational principle).** If `h(k)` is positive definite, the lowest energy is the smallest value of the form of
`h(k)` among the vectors of bosonic norm one; every vector gives an upper bound. -/
theorem C91_variational (o : MagnonObj) (cell : ℕ → M3 ℝ) (k : V3 ℝ) (hp : (o.callH cell k).1.PosDef) (i : Fin o.N)
    (hi : ∀ j, j ≤ i) :
    ∃ w : ℝ, 0 < w ∧
      (∀ chol eig sort, IsCholesky chol → IsEig eig → IsSort sort → ∀ (junk : Mat o.N) (z im : Bool),
        (o.omega cell (Colpa.solve chol eig sort) junk z false im k).1.1.getLast? = some (some (round8 (w : ℂ)))) ∧
      IsLeast {y : ℝ | ∃ x : Fin o.N ⊕ Fin o.N → ℂ, star x ⬝ᵥ (bosonMetric o.N *ᵥ x) = 1 ∧
        (star x ⬝ᵥ ((o.callH cell k).1 *ᵥ x)).re = y} w := by
  obtain ⟨Y, e, h⟩ := exists_modes hp
  refine ⟨e (.inl i), h.pos _, fun chol eig sort hc he hs junk z im => ?_, ?_, ?_⟩
  · show (omegaOf _ _ _ _ _ _).1.getLast? = _
    rw [omegaOf_modes hp h hc he hs junk z false im, energyArray]
    have hlast : (List.finRange o.N).getLast? = some i := by
      have hN : o.N - 1 < o.N := by have := i.2; omega
      rw [List.getLast?_eq_getElem?, List.length_finRange, List.getElem?_eq_getElem (by simpa using hN), List.getElem_finRange]
      congr 1
      refine Fin.ext ?_
      have := hi ⟨o.N - 1, hN⟩
      have h2 := i.2
      rw [Fin.le_def] at this
      simp at this ⊢
      omega
    rw [if_neg Bool.false_ne_true, List.append_nil, List.getLast?_map, hlast, Option.map_some]
  · have hr : (0 : ℝ) < Real.sqrt (e (.inl i)) := Real.sqrt_pos.2 (h.pos _)
    have hns : Complex.normSq (((Real.sqrt (e (.inl i)))⁻¹ : ℝ) : ℂ) = (e (.inl i))⁻¹ := by
      rw [Complex.normSq_ofReal, ← mul_inv, Real.mul_self_sqrt (h.pos _).le]
    refine ⟨Y *ᵥ Pi.single (.inl i) (((Real.sqrt (e (.inl i)))⁻¹ : ℝ) : ℂ), ?_, ?_⟩
    · rw [← Colpa.g_eq_metric, form_diagonal h.metric, Finset.sum_eq_single (Sum.inl i)]
      · rw [Pi.single_eq_same, hns]
        simp [Colpa.sgn, (h.pos _).ne']
      · intro b _ hb
        rw [Pi.single_eq_of_ne hb]; simp
      · intro hn; exact absurd (Finset.mem_univ _) hn
    · rw [form_diagonal h.energy, Complex.ofReal_re, Finset.sum_eq_single (Sum.inl i)]
      · rw [Pi.single_eq_same, hns]
        have := (h.pos (.inl i)).ne'
        field_simp
      · intro b _ hb
        rw [Pi.single_eq_of_ne hb]; simp
      · intro hn; exact absurd (Finset.mem_univ _) hn
  · rintro y ⟨x, hx, rfl⟩
    have := h.toDiag.variational hi x
    rw [Colpa.g_eq_metric, hx] at this
    simpa using this

theorem round8_mono {x y : ℝ} (hx : 0 < x) (hxy : x ≤ y) : ∃ a b : ℝ, round8 (x : ℂ) = a ∧ round8 (y : ℂ) = b ∧ a ≤ b := by
  unfold round8
  rw [Complex.norm_real, Complex.norm_real, Real.norm_of_nonneg hx.le, Real.norm_of_nonneg (hx.le.trans hxy)]
  split_ifs with h1 h2 h2
  · exact ⟨0, 0, by simp, by simp, le_refl _⟩
  · exact ⟨0, y, by simp, rfl, hx.le.trans hxy⟩
  · exact absurd (hxy.trans h2) h1
  · exact ⟨x, y, rfl, rfl, hxy⟩

theorem compare_aux {N N' : ℕ} (hN : N = N') {D : Mat N} {D' : Mat N'} (hp : D.PosDef)
    (hle : (D'.submatrix (Sum.map (Fin.cast hN) (Fin.cast hN)) (Sum.map (Fin.cast hN) (Fin.cast hN)) - D).PosSemidef) :
    ∃ w w' : Fin N → ℝ, (∀ i, 0 ≤ w i ∧ w i ≤ w' i) ∧
      (∀ chol eig sort, IsCholesky chol → IsEig eig → IsSort sort → ∀ (junk : Mat N) (z im : Bool),
        (omegaOf (Colpa.solve chol eig sort) junk z false im D).1 = (List.finRange N).map fun i => some (w i : ℂ)) ∧
      ∀ chol eig sort, IsCholesky chol → IsEig eig → IsSort sort → ∀ (junk : Mat N') (z im : Bool),
        (omegaOf (Colpa.solve chol eig sort) junk z false im D').1 = (List.finRange N).map fun i => some (w' i : ℂ) := by
  subst hN
  have hid : (Sum.map (Fin.cast rfl) (Fin.cast rfl) : Fin N ⊕ Fin N → Fin N ⊕ Fin N) = id := by
    funext i; rcases i with i | i <;> rfl
  rw [hid, submatrix_id_id] at hle
  have hp' : D'.PosDef := by simpa using hp.add_posSemidef hle
  obtain ⟨Y, e, h⟩ := exists_modes hp
  obtain ⟨Y', e', h'⟩ := exists_modes hp'
  have hm : ∀ i, ∃ a b : ℝ, (0 ≤ a ∧ a ≤ b) ∧ round8 (e (.inl i) : ℂ) = a ∧ round8 (e' (.inl i) : ℂ) = b := fun i => by
    obtain ⟨a, b, h1, h2, h3⟩ := round8_mono (h.pos (.inl i)) (h.toDiag.mono h'.toDiag hle (.inl i))
    refine ⟨a, b, ⟨?_, h3⟩, h1, h2⟩
    unfold round8 at h1
    split_ifs at h1
    · exact (Complex.ofReal_eq_zero.1 h1.symm).ge
    · rw [← Complex.ofReal_injective h1]; exact (h.pos _).le
  choose w w' h1 h2 h3 using hm
  refine ⟨w, w', h1, fun chol eig sort hc he hs junk z im => ?_, fun chol eig sort hc he hs junk z im => ?_⟩
  · rw [omegaOf_modes hp h hc he hs, energyArray, if_neg Bool.false_ne_true, List.append_nil]
    simp only [h2]
  · rw [omegaOf_modes hp' h' hc he hs, energyArray, if_neg Bool.false_ne_true, List.append_nil]
    simp only [h3]

/-- **C91 (comparison).** A stiffer magnet has higher magnon energies: if the matrix `h(k)` of one magnon object is positive
definite and the matrix `h'(k')` of another one with as many atoms is larger (`h'(k') - h(k)` is positive semidefinite), then each
energy that `omega` reports for `h'` is at least the energy at the same place that it reports for `h`. -/
theorem C91_compare (o o' : MagnonObj) (cell cell' : ℕ → M3 ℝ) (k k' : V3 ℝ) (hN : o.N = o'.N) (hp : (o.callH cell k).1.PosDef)
    (hle : ((o'.callH cell' k').1.submatrix (Sum.map (Fin.cast hN) (Fin.cast hN)) (Sum.map (Fin.cast hN) (Fin.cast hN)) -
      (o.callH cell k).1).PosSemidef) :
    NotAbove o cell k o' cell' k' :=
  compare_aux hN hp hle

theorem round8_near {x y : ℝ} (hx : 0 < x) (hy : 0 < y) : ∃ a b : ℝ, round8 (x : ℂ) = a ∧ round8 (y : ℂ) = b ∧
    |b - a| ≤ |y - x| + 1 / 10 ^ 8 ∧ (a ≠ 0 → |y - x| < x - 1 / 10 ^ 8 → |b - a| = |y - x|) := by
  unfold round8
  rw [Complex.norm_real, Complex.norm_real, Real.norm_of_nonneg hx.le, Real.norm_of_nonneg hy.le]
  have hd := abs_nonneg (y - x)
  split_ifs with h1 h2 h2
  · refine ⟨0, 0, by simp, by simp, ?_, fun h => absurd rfl h⟩
    rw [sub_self, abs_zero]; positivity
  · refine ⟨0, y, by simp, rfl, ?_, fun h => absurd rfl h⟩
    rw [sub_zero, abs_of_pos hy]
    have := le_abs_self (y - x)
    linarith
  · refine ⟨x, 0, rfl, by simp, ?_, fun _ h => ?_⟩
    · rw [zero_sub, abs_neg, abs_of_pos hx]
      have := neg_abs_le (y - x)
      linarith
    · have := neg_abs_le (y - x)
      exfalso; linarith
  · exact ⟨x, y, rfl, rfl, by linarith [show (0 : ℝ) ≤ 1 / 10 ^ 8 by positivity], fun _ _ => rfl⟩

/-- **C91 (continuity).** For a well-formed Hamiltonian with symmetric on-site terms, in any notation: at every `k` with a
positive-definite `h(k)` the energies of `omega` depend continuously on the wave vector, at each place of the list.  (Up to 1e-8
because of the rounding, and exactly for energies that are not rounded to zero.)  So no band jumps and no two bands change places
in the list. -/
theorem C91_continuous (hord : ∀ l, (order l).Perm l) (lat : M3 ℝ) (pos : Atom → V3 ℝ) {spin : Atom → ℝ}
    (hr : MagnonReady order spinVec s spin) (hs : s.OnSiteSymmetric) :
    ∃ o t, init order lat pos spinVec s = (.ok o, t) ∧ ∀ k, (o.callH t.cell k).1.PosDef →
      ∃ w : V3 ℝ → Fin o.N → ℝ, (∀ᶠ q in 𝓝 k, (o.callH t.cell q).1.PosDef ∧
        ∀ chol eig sort, IsCholesky chol → IsEig eig → IsSort sort → ∀ (junk : Mat o.N) (z im : Bool),
          (o.omega t.cell (Colpa.solve chol eig sort) junk z false im q).1.1 = (List.finRange o.N).map fun i => some (w q i : ℂ)) ∧
        ∀ i, (∀ ε : ℝ, 0 < ε → ∀ᶠ q in 𝓝 k, |w q i - w k i| ≤ ε + 1 / 10 ^ 8) ∧
          (w k i ≠ 0 → ContinuousAt (fun q => w q i) k) := by
  obtain ⟨o, t, h1, hH⟩ := C39_hermitian hord lat pos hr hs
  refine ⟨o, t, h1, fun k hk => ?_⟩
  obtain ⟨Y, e, h⟩ := exists_modes hk
  classical
  -- the energies of all wave vectors
  let en : V3 ℝ → Fin o.N ⊕ Fin o.N → ℝ := fun q =>
    if hq : (o.callH t.cell q).1.PosDef then (exists_modes hq).choose_spec.choose else 1
  have hen : ∀ q (hq : (o.callH t.cell q).1.PosDef), ∃ Y, Modes (o.callH t.cell q).1 Y (en q) := fun q hq => by
    simp only [en, dif_pos hq]
    exact ⟨_, (exists_modes hq).choose_spec.choose_spec⟩
  have henpos : ∀ q i, 0 < en q i := fun q i => by
    by_cases hq : (o.callH t.cell q).1.PosDef
    · obtain ⟨_, hm⟩ := hen q hq
      exact hm.pos i
    · simp [en, hq]
  have hek : en k = e := by
    obtain ⟨Y', hm⟩ := hen k hk
    exact hm.toDiag.unique h.toDiag
  have hcont : ∀ r : ℝ, 0 < r → r < 1 → ∀ᶠ q in 𝓝 k, ∀ i, |en q i - en k i| ≤ r * en k i := by
    intro r h0 h1
    filter_upwards [energies_continuous o t.cell hH h.toDiag hk h0 h1] with q hq i
    obtain ⟨Y', e', hm, hp, hq⟩ := hq
    obtain ⟨Y'', hm'⟩ := hen q hp
    rw [hm'.toDiag.unique hm.toDiag, hek]
    exact hq i
  have hcont' : ∀ ε : ℝ, 0 < ε → ∀ i, ∀ᶠ q in 𝓝 k, |en q i - en k i| ≤ ε := by
    intro ε hε i
    have hpos := henpos k i
    have hr0 : 0 < min (1 / 2) (ε / en k i) := lt_min (by norm_num) (by positivity)
    filter_upwards [hcont _ hr0 (lt_of_le_of_lt (min_le_left _ _) (by norm_num))] with q hq
    refine (hq i).trans ?_
    calc _ ≤ ε / en k i * en k i := mul_le_mul_of_nonneg_right (min_le_right _ _) hpos.le
      _ = ε := by field_simp
  refine ⟨fun q i => (round8 (en q (.inl i) : ℂ)).re, ?_, fun i => ⟨fun ε hε => ?_, fun hw => ?_⟩⟩
  · filter_upwards [energies_continuous o t.cell hH h.toDiag hk (by norm_num : (0 : ℝ) < 1 / 2) (by norm_num)] with q hq
    obtain ⟨_, _, _, hp, _⟩ := hq
    obtain ⟨Y', hm⟩ := hen q hp
    refine ⟨hp, fun chol eig sort hc he hso junk z im => ?_⟩
    show (omegaOf _ _ _ _ _ _).1 = _
    rw [omegaOf_modes hp hm hc he hso, energyArray, if_neg Bool.false_ne_true, List.append_nil]
    refine List.map_congr_left fun i _ => ?_
    obtain ⟨a, _, ha, _⟩ := round8_near (henpos q (.inl i)) (henpos q (.inl i))
    rw [ha, Complex.ofReal_re]
  · filter_upwards [hcont' ε hε (.inl i)] with q hq
    obtain ⟨a, b, ha, hb, hab, _⟩ := round8_near (henpos k (.inl i)) (henpos q (.inl i))
    rw [ha, hb, Complex.ofReal_re, Complex.ofReal_re]
    linarith
  · rw [Metric.continuousAt_iff']
    intro ε hε
    beta_reduce at hw
    have hgt : 0 < en k (.inl i) - 1 / 10 ^ 8 := by
      rw [sub_pos]
      by_contra hn
      refine hw ?_
      unfold round8
      rw [if_pos]
      · simp
      · rw [Complex.norm_real, Real.norm_of_nonneg (henpos k _).le]
        exact not_lt.1 hn
    filter_upwards [hcont' (min (ε / 2) ((en k (.inl i) - 1 / 10 ^ 8) / 2)) (lt_min (by linarith) (by linarith)) (.inl i)] with q hq
    obtain ⟨a, b, ha, hb, _, hab⟩ := round8_near (henpos k (.inl i)) (henpos q (.inl i))
    rw [ha, Complex.ofReal_re] at hw
    rw [ha, hb, Complex.ofReal_re, Complex.ofReal_re, Real.dist_eq, hab hw (lt_of_le_of_lt (hq.trans (min_le_right _ _)) (by linarith))]
    exact lt_of_le_of_lt (hq.trans (min_le_left _ _)) (by linarith)

/-! ### Examples -/

namespace SpectrumExample

open SiteExample HistoryExample Complex

/-- Easy axis along z, with a hard direction x. -/
def axes (c : ℝ) : M3 ℝ := !![1, 0, 0; 0, 0, 0; 0, 0, -c]

theorem axes_sym (c : ℝ) : (axes c)ᵀ = axes c := by ext i j; fin_cases i <;> fin_cases j <;> rfl

/-- The magnon object of one atom. -/
theorem object (c : ℝ) : ∃ o t, init id 1 (fun _ => 0) (fun _ => some ![0, 0, 1]) (st (axes c)) = (.ok o, t) ∧ o.N = 1 ∧ ∀ k,
    SingleMode (o.callH t.cell k).1 (1 + 2 * c) (1 + 2 * c) 1 := by
  obtain ⟨o, t, h1, h2⟩ := mode (axes_sym c) norm3_z span_z 1 fun _ => 0
  have e : axes c 0 0 = 1 ∧ axes c 1 1 = 0 ∧ axes c 2 2 = -c ∧ axes c 0 1 = 0 := by simp [axes]
  refine ⟨o, t, h1, (h2 0).one, fun k => ?_⟩
  have h := h2 k
  rw [e.1, e.2.1, e.2.2.1, e.2.2.2] at h
  have ha : (1 : ℝ) + 0 - 2 * -c = 1 + 2 * c := by ring
  have hb : ((1 : ℝ) : ℂ) - ((0 : ℝ) : ℂ) + 2 * ((0 : ℝ) : ℂ) * I = 1 := by simp
  rwa [ha, hb] at h

theorem less {N : ℕ} {D : Mat N} {a x : ℝ} {b : ℂ} (h : SingleMode D a a b) : SingleMode (D - (x : ℂ) • 1) (a - x) (a - x) b := by
  have hs : Subsingleton (Fin N) := by rw [h.one]; infer_instance
  refine ⟨h.one, fun i j => ?_, fun i j => ?_, fun i j => ?_, fun i j => ?_⟩
  · rw [Subsingleton.elim i j]; simp [h.inl]
  · rw [Subsingleton.elim i j]; simp [h.inr]
  · simp [h.up]
  · simp [h.down]

theorem more {N : ℕ} {D : Mat N} {a x : ℝ} {b : ℂ} (h : SingleMode D a a b) : SingleMode ((x : ℂ) • 1 - D) (x - a) (x - a) (-b) := by
  have hs : Subsingleton (Fin N) := by rw [h.one]; infer_instance
  refine ⟨h.one, fun i j => ?_, fun i j => ?_, fun i j => ?_, fun i j => ?_⟩
  · rw [Subsingleton.elim i j]; simp [h.inl]
  · rw [Subsingleton.elim i j]; simp [h.inr]
  · simp [h.up]
  · simp [h.down]

end SpectrumExample

open SpectrumExample SiteExample HistoryExample in
/-- C91: one atom with three different axes.  `h` has the rows (3, 1) and (1, 3), so the energies are between 1 and 5; their sum
is at most 6 (it is 2√8). -/
example : ∃ o t, init id 1 (fun _ => 0) (fun _ => some ![0, 0, 1]) (st (axes 1)) = (.ok o, t) ∧ o.N = 1 ∧
    ∀ k, ∃ e : Fin o.N ⊕ Fin o.N → ℝ, (∀ i, 1 ≤ e i ∧ e i ≤ 5) ∧
      ∀ chol eig sort, IsCholesky chol → IsEig eig → IsSort sort → ∀ (junk : Mat o.N) (z rg im : Bool),
        (o.omega t.cell (Colpa.solve chol eig sort) junk z rg im k).1.1 = energyArray (fun i => (e i : ℂ)) rg := by
  obtain ⟨o, t, h1, h2, h3⟩ := object 1
  refine ⟨o, t, h1, h2, fun k => ?_⟩
  obtain ⟨e, _, _, _, e4, _, _, _, _, e9⟩ := C91_sums o t.cell k ((h3 k).posDef_iff.2 (by norm_num))
  refine ⟨e, fun i => ⟨(e9 1 one_pos).1 ?_ i, (e9 5 (by norm_num)).2 ?_ i⟩, e4⟩
  · exact ((less (x := 1) (h3 k)).posDef_iff.2 (by norm_num)).posSemidef
  · exact ((more (x := 5) (h3 k)).posDef_iff.2 (by norm_num)).posSemidef

open SpectrumExample SiteExample HistoryExample in
/-- C91: the premises of the variational principle hold for the same atom; its energy is at most 3 (a state with one boson). -/
example : ∃ o t, init id 1 (fun _ => 0) (fun _ => some ![0, 0, 1]) (st (axes 1)) = (.ok o, t) ∧
    ∀ k, ∃ w : ℝ, 0 < w ∧ w ≤ 3 ∧ ∀ chol eig sort, IsCholesky chol → IsEig eig → IsSort sort → ∀ (junk : Mat o.N) (z im : Bool),
        (o.omega t.cell (Colpa.solve chol eig sort) junk z false im k).1.1.getLast? = some (some (round8 (w : ℂ))) := by
  obtain ⟨o, t, h1, h2, h3⟩ := object 1
  have hs : Subsingleton (Fin o.N) := by rw [h2]; infer_instance
  let i : Fin o.N := ⟨0, by rw [h2]; exact one_pos⟩
  refine ⟨o, t, h1, fun k => ?_⟩
  obtain ⟨w, w1, w2, w3⟩ := C91_variational o t.cell k ((h3 k).posDef_iff.2 (by norm_num)) i fun j => (Subsingleton.elim j i).le
  refine ⟨w, w1, w3.2 ⟨Pi.single (.inl i) 1, ?_, ?_⟩, w2⟩
  · rw [← Colpa.g_eq_metric]
    simp [Colpa.g, Colpa.sgn, mulVec_diagonal]
  · have := (h3 k).inl i i
    simp [this]
    norm_num

open SpectrumExample SiteExample HistoryExample in
/-- C91: a stronger easy axis gives a higher energy. -/
example : ∃ o t o' t', init id 1 (fun _ => 0) (fun _ => some ![0, 0, 1]) (st (axes 1)) = (.ok o, t) ∧
    init id 1 (fun _ => 0) (fun _ => some ![0, 0, 1]) (st (axes 2)) = (.ok o', t') ∧
    ∀ k k', NotAbove o t.cell k o' t'.cell k' := by
  obtain ⟨o, t, h1, h2, h3⟩ := object 1
  obtain ⟨o', t', h1', h2', h3'⟩ := object 2
  refine ⟨o, t, o', t', h1, h1', fun k k' => C91_compare o o' t.cell t'.cell k k' (h2.trans h2'.symm)
    ((h3 k).posDef_iff.2 (by norm_num)) ?_⟩
  have hs : SingleMode ((o'.callH t'.cell k').1.submatrix (Sum.map (Fin.cast (h2.trans h2'.symm)) (Fin.cast (h2.trans h2'.symm)))
      (Sum.map (Fin.cast (h2.trans h2'.symm)) (Fin.cast (h2.trans h2'.symm))) - (o.callH t.cell k).1) 2 2 0 := by
    refine ⟨h2, fun i j => ?_, fun i j => ?_, fun i j => ?_, fun i j => ?_⟩
    · simp [(h3 k).inl, (h3' k').inl]; norm_num
    · simp [(h3 k).inr, (h3' k').inr]; norm_num
    · simp [(h3 k).up, (h3' k').up]
    · simp [(h3 k).down, (h3' k').down]
  exact (hs.posDef_iff.2 (by simp)).posSemidef

open ChiralExample HistoryExample in
/-- C91: the chain with a Dzyaloshinskii-Moriya vector (whose energies depend on `k`) has a positive-definite matrix at
`(π, 0, 0)`, so its energies are continuous there. -/
example : ∃ o t, init id 1 (fun _ => 0) (fun _ => some ![0, 0, 1]) st = (.ok o, t) ∧
    ∃ w : V3 ℝ → Fin o.N → ℝ, (∀ᶠ q in 𝓝 ![Real.pi, 0, 0],
        ∀ chol eig sort, IsCholesky chol → IsEig eig → IsSort sort → ∀ (junk : Mat o.N) (z im : Bool),
          (o.omega t.cell (Colpa.solve chol eig sort) junk z false im q).1.1 = (List.finRange o.N).map fun i => some (w q i : ℂ)) ∧
      ∀ i, ∀ ε : ℝ, 0 < ε → ∀ᶠ q in 𝓝 ![Real.pi, 0, 0], |w q i - w ![Real.pi, 0, 0] i| ≤ ε + 1 / 10 ^ 8 := by
  obtain ⟨o, t, h1, h2⟩ := C91_continuous (order := id) (fun _ => .refl _) 1 (fun _ => 0)
    (ready (v := fun _ => some ![0, 0, 1]) fun _ => rfl) symmetric
  obtain ⟨o1, t1, e1, e2⟩ := mode
  rw [h1] at e1
  simp only [Prod.mk.injEq, Except.ok.injEq] at e1
  obtain ⟨rfl, rfl⟩ := e1
  obtain ⟨w, w1, w2⟩ := h2 ![Real.pi, 0, 0] ((e2 Real.pi).posDef_iff.2 (by simp [gap]))
  exact ⟨o, t, h1, w, w1.mono fun _ h => h.2, fun i => (w2 i).1⟩

end Magnopy
