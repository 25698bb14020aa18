import Verif.Spec.Linear
import Verif.Lemmas.Linear
import Verif.Props.Stiffer

/-!
# Magnons of sums and multiples of Hamiltonians (C97)
-/

set_option autoImplicit false
set_option linter.unusedSectionVars false

namespace Magnopy

open PyDict Matrix Complex MagnonObj Colpa
open scoped ComplexOrder

variable {order order1 order2 : List Atom → List Atom} {spinVec : Atom → Option (V3 ℝ)} {s s1 s2 : St ℝ}

/-- **C97.** The magnon matrix is linear in the classical energy: if the energy of a Hamiltonian is `x` times the energy of a
second one plus `y` times the energy of a third one, for all configurations of spins in all supercells, then for every `k` its
matrix `h(k)` is `x` times the matrix of the second plus `y` times the matrix of the third.  The three Hamiltonians have the same
magnetic atoms and may be in different notations; `x` and `y` may have any sign. -/
theorem C97_linear (hord : ∀ l, (order l).Perm l) (hord1 : ∀ l, (order1 l).Perm l) (hord2 : ∀ l, (order2 l).Perm l) (lat : M3 ℝ)
    (pos : Atom → V3 ℝ) {spin : Atom → ℝ} (hr : MagnonReady order spinVec s spin) (hr1 : MagnonReady order1 spinVec s1 spin)
    (hr2 : MagnonReady order2 spinVec s2 spin) (hs : s.OnSiteSymmetric) (hs1 : s1.OnSiteSymmetric) (hs2 : s2.OnSiteSymmetric)
    (hat1 : ∀ a, a ∈ s1.magneticAtoms order1 ↔ a ∈ s.magneticAtoms order)
    (hat2 : ∀ a, a ∈ s2.magneticAtoms order2 ↔ a ∈ s.magneticAtoms order) {x y : ℝ} (hE : s.Mixture s1 s2 x y spin) :
    ∃ o t o1 t1 o2 t2, init order lat pos spinVec s = (.ok o, t) ∧ init order1 lat pos spinVec s1 = (.ok o1, t1) ∧
      init order2 lat pos spinVec s2 = (.ok o2, t2) ∧ o.N = (s.magneticAtoms order).length ∧
      ∃ (hN1 : o.N = o1.N) (hN2 : o.N = o2.N), ∀ k,
        (o.callH t.cell k).1 = (x : ℂ) • (o1.callH t1.cell k).1.submatrix (Sum.map (Fin.cast hN1) (Fin.cast hN1))
            (Sum.map (Fin.cast hN1) (Fin.cast hN1)) +
          (y : ℂ) • (o2.callH t2.cell k).1.submatrix (Sum.map (Fin.cast hN2) (Fin.cast hN2))
            (Sum.map (Fin.cast hN2) (Fin.cast hN2)) := by
  obtain ⟨o, t, items, a1, a2, a3, a4, a5⟩ := ready_setup hord lat pos hr
  obtain ⟨o1, t1, items1, b1, b2, b3, b4, b5⟩ := ready_setup hord1 lat pos hr1
  obtain ⟨o2, t2, items2, c1, c2, c3, c4, c5⟩ := ready_setup hord2 lat pos hr2
  have l1 : t1.magneticAtoms order1 = t.magneticAtoms order := by
    rw [a4, b4, magneticAtoms_same hord hord1 hr.wf.toSound hat1]
  have l2 : t2.magneticAtoms order2 = t.magneticAtoms order := by
    rw [a4, c4, magneticAtoms_same hord hord2 hr.wf.toSound hat2]
  have hN1 : o.N = o1.N := by rw [a2.N, b2.N, l1]
  have hN2 : o.N = o2.N := by rw [a2.N, c2.N, l2]
  refine ⟨o, t, o1, t1, o2, t2, a1, b1, c1, by rw [a2.N, a4], hN1, hN2, ?_⟩
  refine h_linear hN1 hN2 (rows_same a2 b2 l1) (rows_same a2 c2 l2) a2.C b2.C c2.C fun k i j hi hj =>
    J_linear a2 hord b2 hord1 c2 hord2 l1 l2 (fun b h1 h2 => ?_) k hi hj
  -- the terms of the three Hamiltonians together
  have m0 := couple_mirror a2.inv.nodup (a3.symmetric hr.complete hs (St.getNotation_ok_iff.1 a2.flags).1)
  have m1 := couple_mirror b2.inv.nodup (b3.symmetric hr1.complete hs1 (St.getNotation_ok_iff.1 b2.flags).1)
  have m2 := couple_mirror c2.inv.nodup (c3.symmetric hr2.complete hs2 (St.getNotation_ok_iff.1 c2.flags).1)
  have hz := couple_zero (l := likeItems t ++ (scaleItems (-x) (likeItems t1) ++ scaleItems (-y) (likeItems t2))) (w := spin)
    (fun b => by simp only [couple_append, couple_scale, m0, m1, m2, transpose_add, transpose_smul])
    (fun N _ σ => by
      obtain ⟨e1, e2, q1, q2, q⟩ := hE _ (⟨reduce N, σ⟩ : Config ℝ (ZMod N × ZMod N × ZMod N))
      rw [← a5, energy_like a2.flags] at q
      rw [← b5, energy_like b2.flags] at q1
      rw [← c5, energy_like c2.flags] at q2
      rw [cross_append, cross_append, cross_scale, cross_scale]
      have r0 : cross (likeItems t) spin (reduce N) σ σ = x * e1 + y * e2 := Option.some.inj q
      have r1 : cross (likeItems t1) spin (reduce N) σ σ = e1 := Option.some.inj q1
      have r2 : cross (likeItems t2) spin (reduce N) σ σ = e2 := Option.some.inj q2
      rw [r0, r1, r2]
      ring)
    (a3.spins _ (magneticAtoms_mem hord a3.wf.toSound h1)).2 (a3.spins _ (magneticAtoms_mem hord a3.wf.toSound h2)).2
  rw [couple_append, couple_append, couple_scale, couple_scale, neg_smul, neg_smul] at hz
  rw [← sub_eq_zero, ← hz]
  abel

theorem round8_cut {x : ℝ} (hx : 0 < x) : round8 (x : ℂ) = ((if x ≤ 1 / 10 ^ 8 then 0 else x : ℝ) : ℂ) := by
  unfold round8
  rw [Complex.norm_real, Real.norm_of_nonneg hx.le]
  split_ifs <;> simp

/-- What `omega` reports for the modes of the matrix. -/
theorem reports_modes {o : MagnonObj} {cell : ℕ → M3 ℝ} {k : V3 ℝ} {Y : Mat o.N} {e : Fin o.N ⊕ Fin o.N → ℝ}
    (hp : (o.callH cell k).1.PosDef) (h : Modes (o.callH cell k).1 Y e) : Reports o cell k o.N fun i => e (.inl i) := by
  intro chol eig sort hc he hs junk z im
  refine (omegaOf_modes hp h hc he hs junk z false im).trans ?_
  rw [energyArray, if_neg Bool.false_ne_true, List.append_nil]
  simp only [round8_cut (h.pos _)]

theorem reports_cast {o : MagnonObj} {cell : ℕ → M3 ℝ} {k : V3 ℝ} {n : ℕ} (hn : n = o.N) {e : Fin o.N → ℝ}
    (h : Reports o cell k o.N e) : Reports o cell k n fun i => e (Fin.cast hn i) := by
  subst hn; exact h

theorem cast_modes {N N' : ℕ} (hN : N = N') {D : Mat N'} (hp : D.PosDef) :
    (D.submatrix (Sum.map (Fin.cast hN) (Fin.cast hN)) (Sum.map (Fin.cast hN) (Fin.cast hN))).PosDef ∧ ∃ Y Y' e, Modes D Y e ∧
      Modes (D.submatrix (Sum.map (Fin.cast hN) (Fin.cast hN)) (Sum.map (Fin.cast hN) (Fin.cast hN))) Y'
        fun i => e (Sum.map (Fin.cast hN) (Fin.cast hN) i) := by
  subst hN
  have hid : (Sum.map (Fin.cast rfl) (Fin.cast rfl) : Fin N ⊕ Fin N → Fin N ⊕ Fin N) = id := by
    funext i; rcases i with i | i <;> rfl
  obtain ⟨Y, e, h⟩ := exists_modes hp
  rw [hid, submatrix_id_id]
  exact ⟨hp, Y, Y, e, h, h⟩

/-- **C97 (multiples).** If the energy of a Hamiltonian is `x > 0` times the energy of another one over the same magnetic atoms, for
all configurations of spins in all supercells, then wherever `h(k)` of the other one is positive definite its own is, and all magnon
energies are `x` times the magnon energies of the other one.  (`omega` replaces energies up to 1e-8 by zero in both lists.) -/
theorem C97_scaling (hord : ∀ l, (order l).Perm l) (hord1 : ∀ l, (order1 l).Perm l) (lat : M3 ℝ) (pos : Atom → V3 ℝ)
    {spin : Atom → ℝ} (hr : MagnonReady order spinVec s spin) (hr1 : MagnonReady order1 spinVec s1 spin) (hs : s.OnSiteSymmetric)
    (hs1 : s1.OnSiteSymmetric) (hat1 : ∀ a, a ∈ s1.magneticAtoms order1 ↔ a ∈ s.magneticAtoms order) {x : ℝ} (hx : 0 < x)
    (hE : ∀ (Γ : Type) [AddCommGroup Γ] [Fintype Γ] (c : Config ℝ Γ), ∃ e, s1.physics c spin = some e ∧
      s.physics c spin = some (x * e)) :
    ∃ o t o1 t1, init order lat pos spinVec s = (.ok o, t) ∧ init order1 lat pos spinVec s1 = (.ok o1, t1) ∧
      o.N = (s.magneticAtoms order).length ∧ ∀ k, (o1.callH t1.cell k).1.PosDef → (o.callH t.cell k).1.PosDef ∧
        ∃ e : Fin o.N → ℝ, (∀ i, 0 < e i) ∧ Reports o1 t1.cell k o.N e ∧ Reports o t.cell k o.N fun i => x * e i := by
  obtain ⟨o, t, o1, t1, o2, t2, h, h1, h2, hl, hN1, hN2, hh⟩ := C97_linear hord hord1 hord1 lat pos hr hr1 hr1 hs hs1 hs1 hat1 hat1
    (x := x) (y := 0) (fun Γ _ _ c => by
      obtain ⟨e, q1, q⟩ := hE Γ c
      exact ⟨e, e, q1, q1, by rw [q, zero_mul, add_zero]⟩)
  refine ⟨o, t, o1, t1, h, h1, hl, fun k hp1 => ?_⟩
  have hk := hh k
  rw [Complex.ofReal_zero, zero_smul, add_zero] at hk
  obtain ⟨hp', Y, Y', e, hY, hY'⟩ := cast_modes hN1 hp1
  have hp : (o.callH t.cell k).1.PosDef := by
    rw [hk]
    exact hp'.smul (by exact_mod_cast hx)
  obtain ⟨Z, e', hZ⟩ := exists_modes hp
  have hd := hY'.toDiag.smul hx
  rw [← hk] at hd
  have he := hZ.toDiag.unique hd
  refine ⟨hp, fun i => e (.inl (Fin.cast hN1 i)), fun i => hY.pos _, ?_, ?_⟩
  · exact reports_cast hN1 (reports_modes hp1 hY)
  · have := reports_modes hp hZ
    rw [he] at this
    exact this

/-- The lowest energy is superadditive. -/
theorem Diag.gap {N : ℕ} {D D1 D2 Y Y1 Y2 : Mat N} {e e1 e2 : Fin N ⊕ Fin N → ℝ} {x y : ℝ} (h : Diag D Y e) (h1 : Diag D1 Y1 e1)
    (h2 : Diag D2 Y2 e2) (hD : D = (x : ℂ) • D1 + (y : ℂ) • D2) (hx : 0 ≤ x) (hy : 0 ≤ y) {i : Fin N} (hi : ∀ j, j ≤ i) :
    x * e1 (.inl i) + y * e2 (.inl i) ≤ e (.inl i) := by
  set v : Fin N ⊕ Fin N → ℂ := Y *ᵥ Pi.single (.inl i) 1 with hv
  have q1 := h1.variational hi v
  have q2 := h2.variational hi v
  have g1 : (star v ⬝ᵥ (g *ᵥ v)).re = e (.inl i) := by
    rw [hv, form_diagonal h.metric, Complex.ofReal_re, Finset.sum_eq_single (.inl i)]
    · simp [sgn]
    · intro j _ hj; simp [Pi.single_apply, hj]
    · simp
  have g2 : (star v ⬝ᵥ (D *ᵥ v)).re = e (.inl i) ^ 2 := by
    rw [hv, form_diagonal h.energy, Complex.ofReal_re, Finset.sum_eq_single (.inl i)]
    · simp
    · intro j _ hj; simp [Pi.single_apply, hj]
    · simp
  have g3 : (star v ⬝ᵥ (D *ᵥ v)).re = x * (star v ⬝ᵥ (D1 *ᵥ v)).re + y * (star v ⬝ᵥ (D2 *ᵥ v)).re := by
    rw [hD, add_mulVec, dotProduct_add, smul_mulVec, smul_mulVec, dotProduct_smul, dotProduct_smul, smul_eq_mul, smul_eq_mul,
      Complex.add_re, Complex.re_ofReal_mul, Complex.re_ofReal_mul]
  rw [g1] at q1 q2
  have hpos := h.pos (.inl i)
  have : (x * e1 (.inl i) + y * e2 (.inl i)) * e (.inl i) ≤ e (.inl i) * e (.inl i) := by
    have w1 := mul_le_mul_of_nonneg_left q1 hx
    have w2 := mul_le_mul_of_nonneg_left q2 hy
    nlinarith
  exact le_of_mul_le_mul_right this hpos

/-- **C97 (gap).** The lowest magnon energy of a sum of two Hamiltonians is at least the sum of their lowest magnon energies: if the
energy of a Hamiltonian is `x > 0` times the energy of a second one plus `y > 0` times the energy of a third one, then wherever both
matrices are positive definite the matrix of the first one is, and its last (lowest) energy is at least `x` times the last energy of
the second plus `y` times the last energy of the third.  So a stable direction of the spins stays stable, and the lowest energy is a
concave function of the parameters. -/
theorem C97_gap (hord : ∀ l, (order l).Perm l) (hord1 : ∀ l, (order1 l).Perm l) (hord2 : ∀ l, (order2 l).Perm l) (lat : M3 ℝ)
    (pos : Atom → V3 ℝ) {spin : Atom → ℝ} (hr : MagnonReady order spinVec s spin) (hr1 : MagnonReady order1 spinVec s1 spin)
    (hr2 : MagnonReady order2 spinVec s2 spin) (hs : s.OnSiteSymmetric) (hs1 : s1.OnSiteSymmetric) (hs2 : s2.OnSiteSymmetric)
    (hat1 : ∀ a, a ∈ s1.magneticAtoms order1 ↔ a ∈ s.magneticAtoms order)
    (hat2 : ∀ a, a ∈ s2.magneticAtoms order2 ↔ a ∈ s.magneticAtoms order) {x y : ℝ} (hx : 0 < x) (hy : 0 < y)
    (hE : s.Mixture s1 s2 x y spin) :
    ∃ o t o1 t1 o2 t2, init order lat pos spinVec s = (.ok o, t) ∧ init order1 lat pos spinVec s1 = (.ok o1, t1) ∧
      init order2 lat pos spinVec s2 = (.ok o2, t2) ∧ o.N = (s.magneticAtoms order).length ∧
      ∀ k, (o1.callH t1.cell k).1.PosDef → (o2.callH t2.cell k).1.PosDef → (o.callH t.cell k).1.PosDef ∧
        ∃ e e1 e2 : Fin o.N → ℝ, Reports o t.cell k o.N e ∧ Reports o1 t1.cell k o.N e1 ∧ Reports o2 t2.cell k o.N e2 ∧
          (∀ i j, i ≤ j → e j ≤ e i ∧ e1 j ≤ e1 i ∧ e2 j ≤ e2 i) ∧ (∀ i, 0 < e1 i ∧ 0 < e2 i) ∧
          ∀ i, (∀ j, j ≤ i) → x * e1 i + y * e2 i ≤ e i := by
  obtain ⟨o, t, o1, t1, o2, t2, h, h1, h2, hl, hN1, hN2, hh⟩ := C97_linear hord hord1 hord2 lat pos hr hr1 hr2 hs hs1 hs2 hat1 hat2 hE
  refine ⟨o, t, o1, t1, o2, t2, h, h1, h2, hl, fun k hp1 hp2 => ?_⟩
  obtain ⟨hp1', Y1, Y1', e1, hY1, hY1'⟩ := cast_modes hN1 hp1
  obtain ⟨hp2', Y2, Y2', e2, hY2, hY2'⟩ := cast_modes hN2 hp2
  have hp : (o.callH t.cell k).1.PosDef := by
    rw [hh k]
    exact (hp1'.smul (by exact_mod_cast hx)).add (hp2'.smul (by exact_mod_cast hy))
  obtain ⟨Y, e, hY⟩ := exists_modes hp
  exact ⟨hp, fun i => e (.inl i), fun i => e1 (.inl (Fin.cast hN1 i)), fun i => e2 (.inl (Fin.cast hN2 i)), reports_modes hp hY,
    reports_cast hN1 (reports_modes hp1 hY1), reports_cast hN2 (reports_modes hp2 hY2),
    fun i j hij => ⟨hY.first i j hij, hY1.first _ _ (by simpa using hij), hY2.first _ _ (by simpa using hij)⟩,
    fun i => ⟨hY1.pos _, hY2.pos _⟩,
    fun i hi => hY.toDiag.gap hY1'.toDiag hY2'.toDiag (hh k) hx.le hy.le hi⟩

/-! ### Examples -/

open SpectrumExample SiteExample HistoryExample FirmExample

theorem site_mixture (m m1 m2 : M3 ℝ) (x y : ℝ) (h : m = x • m1 + y • m2) :
    (st m).Mixture (st m1) (st m2) x y fun _ => 1 := by
  intro Γ _ _ c
  refine ⟨_, _, physics m1 c, physics m2 c, ?_⟩
  rw [physics, h, Finset.mul_sum, Finset.mul_sum, ← Finset.sum_add_distrib]
  simp only [bilinear_mid, bilinear_scale]

/-- C97: one atom with three different axes, as twice one Hamiltonian minus another one. -/
example : ∃ o t o1 t1 o2 t2, init id 1 (fun _ => 0) (fun _ => some ![0, 0, 1]) (st (axes 2)) = (.ok o, t) ∧
    init id 1 (fun _ => 0) (fun _ => some ![0, 0, 1]) (st (axes 5)) = (.ok o1, t1) ∧
    init id 1 (fun _ => 0) (fun _ => some ![0, 0, 1]) (st (axes 8)) = (.ok o2, t2) ∧ o.N = 1 ∧
    ∃ (hN1 : o.N = o1.N) (hN2 : o.N = o2.N), ∀ k i,
      (o.callH t.cell k).1 (.inl i) (.inl i) = 2 * (o1.callH t1.cell k).1 (.inl (Fin.cast hN1 i)) (.inl (Fin.cast hN1 i)) -
        (o2.callH t2.cell k).1 (.inl (Fin.cast hN2 i)) (.inl (Fin.cast hN2 i)) := by
  obtain ⟨o, t, o1, t1, o2, t2, h, h1, h2, hl, hN1, hN2, hh⟩ := C97_linear (order := id) (order1 := id) (order2 := id)
    (fun _ => .refl _) (fun _ => .refl _) (fun _ => .refl _) 1 (fun _ => 0)
    (ready (axes 2) (v := fun _ => some ![0, 0, 1]) fun _ => rfl) (ready (axes 5) fun _ => rfl) (ready (axes 8) fun _ => rfl)
    (symmetric (axes_sym 2)) (symmetric (axes_sym 5)) (symmetric (axes_sym 8)) (fun a => by rw [atoms, atoms])
    (fun a => by rw [atoms, atoms]) (site_mixture _ _ _ 2 (-1) (by
      ext i j
      fin_cases i <;> fin_cases j <;> simp [axes] <;> norm_num))
  refine ⟨o, t, o1, t1, o2, t2, h, h1, h2, by rw [hl, atoms]; rfl, hN1, hN2, fun k i => ?_⟩
  rw [hh k]
  simp only [Matrix.add_apply, Matrix.smul_apply, submatrix_apply, Sum.map_inl, smul_eq_mul]
  push_cast
  ring

/-- C97: three times the energy, three times the magnon energies. -/
example : ∃ o t o1 t1, init id 1 (fun _ => 0) (fun _ => some ![0, 0, 1]) (st ((3 : ℝ) • axes 1)) = (.ok o, t) ∧
    init id 1 (fun _ => 0) (fun _ => some ![0, 0, 1]) (st (axes 1)) = (.ok o1, t1) ∧ o.N = 1 ∧ ∀ k, ∃ e : Fin o.N → ℝ,
      (∀ i, 0 < e i) ∧ Reports o1 t1.cell k o.N e ∧ Reports o t.cell k o.N fun i => 3 * e i := by
  obtain ⟨o, t, o1, t1, h, h1, hl, hh⟩ := C97_scaling (order := id) (order1 := id) (fun _ => .refl _) (fun _ => .refl _) 1
    (fun _ => 0) (ready ((3 : ℝ) • axes 1) (v := fun _ => some ![0, 0, 1]) fun _ => rfl) (ready (axes 1) fun _ => rfl)
    (symmetric (by rw [transpose_smul, axes_sym])) (symmetric (axes_sym 1)) (fun a => by rw [atoms, atoms]) (x := 3) (by norm_num)
    (fun Γ _ _ c => by
      obtain ⟨e1, e2, q1, _, q⟩ := site_mixture ((3 : ℝ) • axes 1) (axes 1) (axes 1) 3 0 (by rw [zero_smul, add_zero]) Γ c
      exact ⟨e1, q1, by rw [q, zero_mul, add_zero]⟩)
  obtain ⟨o', t', e1, e2, e3⟩ := object 1
  rw [h1] at e1
  simp only [Prod.mk.injEq, Except.ok.injEq] at e1
  obtain ⟨rfl, rfl⟩ := e1
  exact ⟨o, t, o1, t1, h, h1, by rw [hl, atoms]; rfl, fun k => (hh k ((e3 k).posDef_iff.2 (by norm_num))).2⟩

/-- C97: the mean of two Hamiltonians. -/
example : ∃ o t o1 t1 o2 t2, init id 1 (fun _ => 0) (fun _ => some ![0, 0, 1]) (st (axes 2)) = (.ok o, t) ∧
    init id 1 (fun _ => 0) (fun _ => some ![0, 0, 1]) (st (axes 1)) = (.ok o1, t1) ∧
    init id 1 (fun _ => 0) (fun _ => some ![0, 0, 1]) (st (axes 3)) = (.ok o2, t2) ∧ o.N = 1 ∧ ∀ k, ∃ e e1 e2 : Fin o.N → ℝ,
      Reports o t.cell k o.N e ∧ Reports o1 t1.cell k o.N e1 ∧ Reports o2 t2.cell k o.N e2 ∧
      ∀ i, (∀ j, j ≤ i) → 1 / 2 * e1 i + 1 / 2 * e2 i ≤ e i := by
  obtain ⟨o, t, o1, t1, o2, t2, h, h1, h2, hl, hh⟩ := C97_gap (order := id) (order1 := id) (order2 := id) (fun _ => .refl _)
    (fun _ => .refl _) (fun _ => .refl _) 1 (fun _ => 0) (ready (axes 2) (v := fun _ => some ![0, 0, 1]) fun _ => rfl)
    (ready (axes 1) fun _ => rfl) (ready (axes 3) fun _ => rfl) (symmetric (axes_sym 2)) (symmetric (axes_sym 1))
    (symmetric (axes_sym 3)) (fun a => by rw [atoms, atoms]) (fun a => by rw [atoms, atoms]) (x := 1 / 2) (y := 1 / 2)
    (by norm_num) (by norm_num) (site_mixture _ _ _ _ _ (by
      ext i j
      fin_cases i <;> fin_cases j <;> simp [axes] <;> norm_num))
  obtain ⟨o', t', e1, e2, e3⟩ := object 1
  obtain ⟨o'', t'', f1, f2, f3⟩ := object 3
  rw [h1] at e1
  rw [h2] at f1
  simp only [Prod.mk.injEq, Except.ok.injEq] at e1 f1
  obtain ⟨rfl, rfl⟩ := e1
  obtain ⟨rfl, rfl⟩ := f1
  refine ⟨o, t, o1, t1, o2, t2, h, h1, h2, by rw [hl, atoms]; rfl, fun k => ?_⟩
  obtain ⟨_, e, a1, a2, b, b1, b2, _, _, b5⟩ := hh k ((e3 k).posDef_iff.2 (by norm_num)) ((f3 k).posDef_iff.2 (by norm_num))
  exact ⟨e, a1, a2, b, b1, b2, b5⟩

end Magnopy
